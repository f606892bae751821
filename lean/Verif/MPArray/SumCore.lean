import Verif.MPArray.SumLemmas

open Finset

namespace Mpnum

variable {R : Type}

theorem Chained.ranks_eq {l r : ℕ} {ts : List (NDArray R)} (h : Chained l ts r) :
    ts.tail.map NDArray.lb = ts.dropLast.map NDArray.rb := by
  induction ts generalizing l with
  | nil => rfl
  | cons t ts ih =>
    cases ts with
    | nil => rfl
    | cons u us =>
      have := ih h.2.2
      simp only [List.tail_cons, List.map_cons, List.dropLast_cons_cons] at this ⊢
      rw [this, h.2.2.2.1]

theorem ranks_getElem {ts : List (NDArray R)} {l r : ℕ} (h : Chained l ts r) {k : ℕ}
    (hk : k + 1 < ts.length) :
    (ts.tail.map NDArray.lb)[k]? = some ((ts.map NDArray.rb).getD k 0) := by
  rw [h.ranks_eq, List.map_dropLast, List.getElem?_dropLast, if_pos (by simp; omega)]
  rw [List.getD_eq_getElem?_getD]
  have : k < (ts.map NDArray.rb).length := by simp; omega
  rw [List.getElem?_eq_getElem this]; rfl

/-- A well-formed MPA as first local tensor and rest. -/
theorem MPA.Valid.cons {x : MPA R} (h : x.Valid) : ∃ t ts, x.lt = t :: ts ∧
    t.shape = 1 :: (t.ph ++ [t.rb]) ∧ Chained t.rb ts 1 ∧ x.shape = t.ph :: physShape ts := by
  obtain ⟨t, ts, hts⟩ := List.exists_cons_of_ne_nil h.ne
  have hc := h.chain
  rw [hts] at hc
  refine ⟨t, ts, hts, ?_, hc.2.2, by simp [MPA.shape, hts, physShape]⟩
  have := NDArray.shape_local hc.1
  rwa [hc.2.1] at this

/-- The weighted sum of a non-empty list of MPAs of the same shape.  `ws` pairs each MPA with its
weight. -/
theorem sum_core [CommSemiring R] (ws : List (R × MPA R)) (s : List (List ℕ)) (hne : ws ≠ [])
    (hv : ∀ w ∈ ws, w.2.Valid ∧ w.2.shape = s) (ts : List (NDArray R × List (NDArray R)))
    (hts : List.Forall₂ (fun w p => ∃ t, w.2.lt = t :: p.2 ∧ p.1.shape = t.shape ∧
      ∀ i, p.1.get i = w.1 * t.get i) ws ts) :
    (s.length = 1 → ∃ c, pySum (ts.map Prod.fst) = .ok c ∧ Chained 1 [c] 1 ∧ physShape [c] = s ∧
      ∀ idx, IdxOK idx s → entry [c] idx = (ws.map fun w => w.1 * w.2.val idx).sum) ∧
    (∀ n, s.length = n + 2 → ∃ c cs, concatLast (ts.map Prod.fst) = .ok c ∧
      sumRest (n + 1) (ts.map Prod.snd) = .ok cs ∧
      Chained 1 (c :: cs) 1 ∧ physShape (c :: cs) = s ∧
      (∀ k, k ≤ n → (((c :: cs).map NDArray.rb)[k]?) =
        some ((ws.map fun w => w.2.ranks.getD k 0).sum)) ∧
      ∀ idx, IdxOK idx s → entry (c :: cs) idx = (ws.map fun w => w.1 * w.2.val idx).sum) := by
  obtain ⟨P, PS, rfl⟩ : ∃ P PS, s = P :: PS := by
    obtain ⟨w, hw⟩ := List.exists_mem_of_ne_nil ws hne
    obtain ⟨h1, h2⟩ := hv w hw
    obtain ⟨t, ts, _, _, _, h⟩ := h1.cons
    exact ⟨_, _, by rw [← h2, h]⟩
  have htne : ts ≠ [] := by
    intro h; rw [h] at hts; cases hts; exact hne rfl
  -- facts about each pair
  have key : List.Forall₂ (fun w p => p.1.shape = 1 :: (P ++ [p.1.rb]) ∧ Chained p.1.rb p.2 1 ∧
      physShape p.2 = PS ∧ w.2.len = p.2.length + 1 ∧
      (∀ k, k < p.2.length → w.2.ranks.getD k 0 = ((p.1 :: p.2).map NDArray.rb).getD k 0) ∧
      ∀ idx, entry (p.1 :: p.2) idx = (if idx = [] then 1 else w.1) * w.2.val idx) ws ts := by
    clear htne hne
    induction hts with
    | nil => exact List.Forall₂.nil
    | @cons w p ws ps h _ ih =>
      refine List.Forall₂.cons ?_ (ih fun w hw => hv w (by simp [hw]))
      obtain ⟨t, h1, h2, h3⟩ := h
      obtain ⟨hw, hs⟩ := hv w (by simp)
      obtain ⟨t', ts', e1, e2, e3, e4⟩ := hw.cons
      rw [h1] at e1
      obtain ⟨rfl, rfl⟩ := List.cons.inj e1
      rw [hs] at e4
      obtain ⟨rfl, rfl⟩ := List.cons.inj e4
      have hrb : p.1.rb = t.rb := by simp [NDArray.rb, h2]
      refine ⟨by rw [h2, hrb]; exact e2, by rw [hrb]; exact e3, rfl, by simp [MPA.len, h1], ?_, ?_⟩
      · intro k hk
        have := ranks_getElem hw.chain (k := k) (by rw [h1]; simp; omega)
        unfold MPA.ranks
        rw [List.getD_eq_getElem?_getD, this, h1]
        simp [hrb]
      · intro idx
        cases idx with
        | nil => simp [entry, MPA.val, h1, mp]
        | cons i is =>
          simp only [entry, MPA.val, h1, mp_cons, hrb, NDArray.at3, h3, Finset.mul_sum, mul_assoc,
            if_neg (List.cons_ne_nil i is)]
  have hsum : ∀ idx, idx ≠ [] → (ts.map fun p => entry (p.1 :: p.2) idx).sum
      = (ws.map fun w => w.1 * w.2.val idx).sum := by
    intro idx hi
    clear hts htne hne hv
    induction key with
    | nil => rfl
    | cons h _ ih => simp only [List.map_cons, List.sum_cons, ih, h.2.2.2.2.2 idx, if_neg hi]
  have hmem : ∀ p ∈ ts, p.1.shape = 1 :: (P ++ [p.1.rb]) ∧ Chained p.1.rb p.2 1 ∧
      physShape p.2 = PS := by
    intro p hp
    clear hts htne hne hv hsum
    induction key with
    | nil => cases hp
    | cons h _ ih =>
      rcases List.mem_cons.1 hp with rfl | hp
      · exact ⟨h.1, h.2.1, h.2.2.1⟩
      · exact ih hp
  constructor
  · intro h1
    have hPS : PS = [] := by simpa using h1
    subst hPS
    have hone : ∀ p ∈ ts, p.2 = [] ∧ p.1.rb = 1 := by
      intro p hp
      obtain ⟨_, h2, h3⟩ := hmem p hp
      have : p.2 = [] := by simpa [physShape] using h3
      rw [this] at h2
      exact ⟨this, h2⟩
    obtain ⟨c, hc, hcs, hcg⟩ := pySum_ok (ts := ts.map Prod.fst) (s := 1 :: (P ++ [1]))
      (by simpa using htne) (by
        intro t ht
        obtain ⟨p, hp, rfl⟩ := List.mem_map.1 ht
        have := (hmem p hp).1
        rwa [(hone p hp).2] at this)
    refine ⟨c, hc, ⟨NDArray.isLocal_of_shape hcs, NDArray.lb_of_shape hcs, NDArray.rb_of_shape hcs⟩,
      by simp [physShape, NDArray.ph_of_shape hcs], ?_⟩
    intro idx hi
    cases hi with
    | @cons q _ _ _ hq hn =>
      cases hn
      rw [← hsum _ (by simp)]
      unfold entry
      rw [mp_single (by rw [NDArray.rb_of_shape hcs]; omega), NDArray.at3,
        hcg _ (inB_local (by omega) hq (by omega)), List.map_map]
      congr 1
      refine List.map_congr_left fun p hp => ?_
      rw [(hone p hp).1, mp_single (by rw [(hone p hp).2]; omega)]; rfl
  · intro n hn
    have hPS : PS.length = n + 1 := by simpa using hn
    obtain ⟨c, cs, h1, h2, h3, h4, h5, h6⟩ := sumChain_ok (n := n) (ps := ts) (P := P) (PS := PS) htne (by
      intro p hp
      obtain ⟨a1, a2, a3⟩ := hmem p hp
      exact ⟨by rw [← hPS, ← a3]; simp [physShape], a1, a2, a3⟩)
    refine ⟨c, cs, h1, h2, h3, h4, ?_, ?_⟩
    · intro k hk
      rw [h5 k hk]
      congr 1
      clear h1 h2 h3 h4 h5 h6 hsum hts htne hne hv
      induction key with
      | nil => rfl
      | @cons w p ws ps h _ ih =>
        have hlen : p.2.length = n + 1 := by rw [← hPS, ← h.2.2.1]; simp [physShape]
        exact congrArg₂ (· + ·) (h.2.2.2.2.1 k (by omega)).symm (ih fun p hp => hmem p (by simp [hp]))
    · intro idx hi
      rw [h6 idx hi, hsum idx (by rintro rfl; cases hi)]

end Mpnum
