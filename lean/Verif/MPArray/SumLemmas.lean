import Verif.MPArray.AddLemmas

open Finset

namespace Mpnum

variable {R : Type}

theorem zipWith_map_same {α β γ δ : Type} (f : β → γ → δ) (g : α → β) (h : α → γ) (l : List α) :
    List.zipWith f (l.map g) (l.map h) = l.map fun x => f (g x) (h x) := by
  induction l with
  | nil => rfl
  | cons x l ih => simp [ih]

/-- Left bond of the first local tensor. -/
def lb0 (ts : List (NDArray R)) : ℕ := (ts.head?.map NDArray.lb).getD 0

@[simp] theorem lb0_cons (t : NDArray R) (ts : List (NDArray R)) : lb0 (t :: ts) = t.lb := rfl

theorem lb0_of_chained {l r : ℕ} {ts : List (NDArray R)} (h : Chained l ts r) (hne : ts ≠ []) :
    lb0 ts = l := by
  cases ts with
  | nil => exact absurd rfl hne
  | cons t ts => exact h.2.1

theorem exists_pairs {α : Type} (its : List (List α)) (h : ∀ it ∈ its, it ≠ []) :
    ∃ ps : List (α × List α), its = ps.map fun p => p.1 :: p.2 := by
  induction its with
  | nil => exact ⟨[], rfl⟩
  | cons it its ih =>
    obtain ⟨ps, hps⟩ := ih fun i hi => h i (by simp [hi])
    cases it with
    | nil => exact absurd rfl (h [] (by simp))
    | cons t ts => exact ⟨(t, ts) :: ps, by simp [hps]⟩

theorem nexts_pairs (ps : List (NDArray R × List (NDArray R))) :
    nexts (ps.map fun p => p.1 :: p.2) = .ok (ps.map Prod.fst) := by
  unfold nexts
  induction ps with
  | nil => rfl
  | cons p ps ih => rw [List.map_cons, List.mapM_cons, ih]; rfl

theorem map_tail_pairs {α : Type} (ps : List (α × List α)) :
    (ps.map fun p => p.1 :: p.2).map List.tail = ps.map Prod.snd := by simp

theorem sumRest_ok [CommSemiring R] (n : ℕ) : ∀ (its : List (List (NDArray R))) (PS : List (List ℕ)),
    its ≠ [] → (∀ it ∈ its, it.length = n + 1 ∧ Chained (lb0 it) it 1 ∧ physShape it = PS) →
    ∃ rs, sumRest (n + 1) its = .ok rs ∧ Chained (its.map lb0).sum rs 1 ∧ physShape rs = PS ∧
      (∀ c, c < n → ((rs.map NDArray.rb)[c]?) =
        some ((its.map fun it => (it.map NDArray.rb).getD c 0).sum)) ∧
      ∀ idx, IdxOK idx PS → ∀ a, mp rs idx a 0 =
        pick (its.map fun it => (lb0 it, fun a => mp it idx a 0)) a := by
  induction n with
  | zero =>
    intro its PS hne h
    obtain ⟨ps, rfl⟩ := exists_pairs its fun it hit he => by
      have := (h it hit).1; rw [he] at this; simp at this
    have hpne : ps ≠ [] := by simpa using hne
    have hp : ∀ p ∈ ps, p.2 = [] ∧ p.1.IsLocal ∧ p.1.rb = 1 ∧ [p.1.ph] = PS := by
      intro p hp
      obtain ⟨h1, h2, h3⟩ := h _ (List.mem_map_of_mem (f := fun p => p.1 :: p.2) hp)
      have h4 : p.2 = [] := by simpa using h1
      rw [h4] at h2 h3
      exact ⟨h4, h2.1, h2.2.2, h3⟩
    obtain ⟨p0, hp0⟩ := List.exists_mem_of_ne_nil ps hpne
    set P := p0.1.ph
    have hPS : PS = [P] := (hp p0 hp0).2.2.2.symm
    have hsh : ∀ t ∈ ps.map Prod.fst, t.shape = t.lb :: (P ++ [1]) := by
      intro t ht
      obtain ⟨p, hpp, rfl⟩ := List.mem_map.1 ht
      obtain ⟨_, h2, h3, h4⟩ := hp p hpp
      rw [NDArray.shape_local h2, h3]
      rw [hPS] at h4; simp at h4; rw [h4]
    obtain ⟨c, hc, hcs, hcg⟩ := concat_first_ok (by simpa using hpne) hsh
    refine ⟨[c], ?_, ?_, ?_, by simp, ?_⟩
    · simp only [sumRest, nexts_pairs]
      show (NDArray.concatenate _ 0 >>= _) = _
      rw [hc]; rfl
    · refine ⟨NDArray.isLocal_of_shape hcs, ?_, ?_⟩
      · rw [NDArray.lb_of_shape hcs]; simp [Function.comp_def]
      · exact NDArray.rb_of_shape hcs
    · rw [hPS]; simp [physShape, NDArray.ph_of_shape hcs]
    · intro idx hi a
      rw [hPS] at hi
      cases hi with
      | @cons q _ _ _ hq hn =>
        cases hn
        rw [mp_single (by rw [NDArray.rb_of_shape hcs]; omega), hcg]
        clear hcg hcs hc hsh hp0 hpne hne
        induction ps generalizing a with
        | nil => rfl
        | cons p ps ih =>
          obtain ⟨h1, _, h3, _⟩ := hp p (by simp)
          simp only [List.map_cons, rowGet, pick, lb0_cons, h1]
          split
          · rw [mp_single (by omega)]
          · exact ih (fun it hit => h it (by simp at hit ⊢; exact Or.inr hit))
              (fun p hpp => hp p (by simp [hpp])) _
  | succ n ih =>
    intro its PS hne h
    obtain ⟨ps, rfl⟩ := exists_pairs its fun it hit he => by
      have := (h it hit).1; rw [he] at this; simp at this
    have hpne : ps ≠ [] := by simpa using hne
    have hp : ∀ p ∈ ps, p.2.length = n + 1 ∧ p.1.IsLocal ∧ Chained p.1.rb p.2 1 ∧
        p.1.ph :: physShape p.2 = PS := by
      intro p hp
      obtain ⟨h1, h2, h3⟩ := h _ (List.mem_map_of_mem (f := fun p => p.1 :: p.2) hp)
      exact ⟨by simpa using h1, h2.1, h2.2.2, h3⟩
    obtain ⟨p0, hp0⟩ := List.exists_mem_of_ne_nil ps hpne
    obtain ⟨P, PS', rfl⟩ : ∃ P PS', PS = P :: PS' := ⟨_, _, (hp p0 hp0).2.2.2.symm⟩
    have hlb : ∀ p ∈ ps, lb0 p.2 = p.1.rb := by
      intro p hpp
      obtain ⟨h1, _, h3, _⟩ := hp p hpp
      exact lb0_of_chained h3 (by intro he; rw [he] at h1; simp at h1)
    have hsh : ∀ t ∈ ps.map Prod.fst, t.shape = t.lb :: (P ++ [t.rb]) := by
      intro t ht
      obtain ⟨p, hpp, rfl⟩ := List.mem_map.1 ht
      obtain ⟨_, h2, _, h4⟩ := hp p hpp
      rw [NDArray.shape_local h2]
      simp at h4; rw [h4.1]
    obtain ⟨c, hc, hcs, hcg⟩ := localAdd_ok (by simpa using hpne) hsh
    obtain ⟨rs, hrs, hch, hps, hrk, hmp⟩ := ih (ps.map Prod.snd) PS' (by simpa using hpne) (by
      intro it hit
      obtain ⟨p, hpp, rfl⟩ := List.mem_map.1 hit
      obtain ⟨h1, h2, h3, h4⟩ := hp p hpp
      simp at h4
      exact ⟨h1, by rw [hlb p hpp]; exact h3, h4.2⟩)
    have hsum : ((ps.map Prod.snd).map lb0).sum = ((ps.map Prod.fst).map NDArray.rb).sum := by
      rw [List.map_map, List.map_map]
      exact congrArg _ (List.map_congr_left fun p hpp => hlb p hpp)
    refine ⟨c :: rs, ?_, ?_, ?_, ?_, ?_⟩
    · simp only [sumRest, nexts_pairs, map_tail_pairs]
      show (localAdd _ >>= _) = _
      rw [hc]
      show (sumRest _ _ >>= _) = _
      rw [hrs]; rfl
    · refine ⟨NDArray.isLocal_of_shape hcs, ?_, ?_⟩
      · rw [NDArray.lb_of_shape hcs]; simp [Function.comp_def]
      · rw [NDArray.rb_of_shape hcs, ← hsum]; exact hch
    · show c.ph :: physShape rs = _
      rw [NDArray.ph_of_shape hcs, hps]
    · intro k hk
      cases k with
      | zero =>
        simp only [List.map_cons, List.getElem?_cons_zero, NDArray.rb_of_shape hcs]
        simp [Function.comp_def]
      | succ k =>
        simp only [List.map_cons, List.getElem?_cons_succ]
        rw [hrk k (by omega)]
        simp [Function.comp_def]
    · intro idx hi a
      cases hi with
      | @cons q _ qs _ hq hn =>
        rw [mp_cons, NDArray.rb_of_shape hcs]
        have e1 : ∀ x, mp rs qs x 0 =
            pick (List.zip ((ps.map Prod.fst).map NDArray.rb)
              (ps.map fun p => fun a => mp p.2 qs a 0)) x := by
          intro x
          rw [hmp qs hn x, List.map_map, List.map_map]
          congr 1
          rw [List.zip, zipWith_map_same]
          exact List.map_congr_left fun p hpp => by simp [hlb p hpp]
        simp only [e1]
        have := sum_block_pick (ps.map Prod.fst) (ps.map fun p => fun a => mp p.2 qs a 0)
          (by simp) a q
        rw [zipWith_map_same] at this
        rw [Finset.sum_congr rfl fun x _ => by rw [hcg a q x hq], this, List.map_map]
        congr 1

/-- Sum of several chains from the first site on. -/
theorem sumChain_ok [CommSemiring R] {n : ℕ} {ps : List (NDArray R × List (NDArray R))}
    {P : List ℕ} {PS : List (List ℕ)} (hpne : ps ≠ [])
    (hp : ∀ p ∈ ps, p.2.length = n + 1 ∧ p.1.shape = 1 :: (P ++ [p.1.rb]) ∧ Chained p.1.rb p.2 1 ∧
      physShape p.2 = PS) :
    ∃ c cs, concatLast (ps.map Prod.fst) = .ok c ∧ sumRest (n + 1) (ps.map Prod.snd) = .ok cs ∧
      Chained 1 (c :: cs) 1 ∧ physShape (c :: cs) = P :: PS ∧
      (∀ k, k ≤ n → (((c :: cs).map NDArray.rb)[k]?) =
        some ((ps.map fun p => ((p.1 :: p.2).map NDArray.rb).getD k 0).sum)) ∧
      ∀ idx, IdxOK idx (P :: PS) →
        entry (c :: cs) idx = (ps.map fun p => entry (p.1 :: p.2) idx).sum := by
  have hlb : ∀ p ∈ ps, lb0 p.2 = p.1.rb := by
    intro p hpp
    obtain ⟨h1, _, h3, _⟩ := hp p hpp
    exact lb0_of_chained h3 (by intro he; rw [he] at h1; simp at h1)
  obtain ⟨c, hc, hcs, hcg⟩ := concat_last_ok (ts := ps.map Prod.fst) (P := P) (l := 1)
    (by simpa using hpne) (by
      intro t ht
      obtain ⟨p, hpp, rfl⟩ := List.mem_map.1 ht
      exact (hp p hpp).2.1)
  obtain ⟨rs, hrs, hch, hps, hrk, hmp⟩ := sumRest_ok n (ps.map Prod.snd) PS (by simpa using hpne) (by
    intro it hit
    obtain ⟨p, hpp, rfl⟩ := List.mem_map.1 hit
    obtain ⟨h1, h2, h3, h4⟩ := hp p hpp
    exact ⟨h1, by rw [hlb p hpp]; exact h3, h4⟩)
  have hsum : ((ps.map Prod.snd).map lb0).sum = ((ps.map Prod.fst).map NDArray.rb).sum := by
    rw [List.map_map, List.map_map]
    exact congrArg _ (List.map_congr_left fun p hpp => hlb p hpp)
  refine ⟨c, rs, hc, hrs, ?_, ?_, ?_, ?_⟩
  · refine ⟨NDArray.isLocal_of_shape hcs, NDArray.lb_of_shape hcs, ?_⟩
    rw [NDArray.rb_of_shape hcs, ← hsum]; exact hch
  · show c.ph :: physShape rs = _
    rw [NDArray.ph_of_shape hcs, hps]
  · intro k hk
    cases k with
    | zero =>
      simp only [List.map_cons, List.getElem?_cons_zero, NDArray.rb_of_shape hcs]
      simp [Function.comp_def]
    | succ k =>
      simp only [List.map_cons, List.getElem?_cons_succ]
      rw [hrk k (by omega)]
      simp [Function.comp_def]
  · intro idx hi
    cases hi with
    | @cons q _ qs _ hq hn =>
      unfold entry
      rw [mp_cons, NDArray.rb_of_shape hcs]
      have e1 : ∀ x, mp rs qs x 0 =
          pick (List.zip ((ps.map Prod.fst).map NDArray.rb)
            (ps.map fun p => fun a => mp p.2 qs a 0)) x := by
        intro x
        rw [hmp qs hn x, List.map_map, List.map_map]
        congr 1
        rw [List.zip, zipWith_map_same]
        exact List.map_congr_left fun p hpp => by simp [hlb p hpp]
      simp only [e1]
      have := sum_col_pick (ps.map Prod.fst) (ps.map fun p => fun a => mp p.2 qs a 0)
        (by simp) 0 q
      rw [zipWith_map_same] at this
      rw [Finset.sum_congr rfl fun x _ => by rw [hcg 0 q x (inB_length hq)], this]
      rfl

/-- `sum(arrays)` for arrays of the same shape. -/
theorem pySum_ok [AddCommMonoid R] {ts : List (NDArray R)} {s : List ℕ} (hne : ts ≠ [])
    (h : ∀ t ∈ ts, t.shape = s) :
    ∃ c, pySum ts = .ok c ∧ c.shape = s ∧
      ∀ idx, InB idx s → c.get idx = (ts.map fun t => t.get idx).sum := by
  obtain ⟨t, us, rfl⟩ := List.exists_cons_of_ne_nil hne
  have : ∀ (us : List (NDArray R)) (t : NDArray R), t.shape = s → (∀ u ∈ us, u.shape = s) →
      ∃ c, us.foldlM NDArray.add t = .ok c ∧ c.shape = s ∧
        ∀ idx, InB idx s → c.get idx = t.get idx + (us.map fun t => t.get idx).sum := by
    intro us
    induction us with
    | nil => intro t ht _; exact ⟨t, rfl, ht, by simp⟩
    | cons u us ih =>
      intro t ht hu
      obtain ⟨d, hd, hds, hdg⟩ := NDArray.add_ok (a := t) (b := u) (by rw [hu u (by simp), ht])
      obtain ⟨c, hc, hcs, hcg⟩ := ih d (by rw [hds, ht]) fun u hu' => hu u (by simp [hu'])
      refine ⟨c, by rw [List.foldlM_cons, hd]; exact hc, hcs, ?_⟩
      intro idx hi
      rw [hcg idx hi, hdg idx (by rw [ht]; exact hi)]
      simp [add_assoc]
  obtain ⟨c, hc, hcs, hcg⟩ := this us t (h t (by simp)) fun u hu => h u (by simp [hu])
  exact ⟨c, hc, hcs, fun idx hi => by rw [hcg idx hi]; simp⟩

end Mpnum
