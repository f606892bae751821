import Verif.MPArray.Transpose
import Verif.Props.C09

/-!
# C14: transpositions, adjoint, conjugate and reversal
-/

open Finset

namespace Mpnum

variable {R : Type}

/-- Transposition of the legs of every site; `π t` is the permutation used on site `t`. -/
theorem transpose_core [CommRing R] [StarRing R] {x : MPA R} (hx : x.Valid)
    {f : NDArray R → Py (NDArray R)} {π : NDArray R → List ℕ}
    (hπ : ∀ t ∈ x.lt, (π t).Perm (List.range t.ph.length))
    (hf : ∀ t ∈ x.lt, f t = localTranspose t (some ((π t).map fun k : ℕ => (k : ℤ)))) :
    ∃ us, x.lt.mapM f = .ok us ∧ Chained 1 us 1 ∧ us.length = x.len ∧
      physShape us = x.lt.map (fun t => permIdx (π t) t.ph) ∧
      (∀ idx, IdxOK idx x.shape → entry us (List.zipWith (fun t p => permIdx (π t) p) x.lt idx) = x.val idx) ∧
      (x.CanonOK → (⟨us, x.l, x.r⟩ : MPA R).CanonOK) := by
  have hloc := hx.chain.isLocal
  obtain ⟨ps, h1, h2, h3⟩ := mapM_pairs (xs := x.lt) (f := f)
    (P := fun t u => t ∈ x.lt ∧ u.shape = t.lb :: (permIdx (π t) t.ph ++ [t.rb]) ∧
      SPull t u (unpermIdx (π t)))
    (fun t ht => by
      obtain ⟨u, a, b, c, _⟩ := localTranspose_perm (hπ t ht) (hloc t ht) rfl
      exact ⟨u, (hf t ht).trans a, ht, b, c⟩)
  have hpull : ∀ p ∈ ps, SPull (Prod.fst p) (Prod.snd p) (unpermIdx (π p.1)) := fun p hp => (h3 p hp).2.2
  have hc := hx.chain
  rw [← h2] at hc
  have hph : physShape (ps.map Prod.snd) = ps.map fun p => permIdx (π p.1) p.1.ph := by
    unfold physShape
    rw [List.map_map]
    apply List.map_congr_left
    intro p hp
    exact NDArray.ph_of_shape (h3 p hp).2.1
  refine ⟨ps.map Prod.snd, h1, chained_pull hpull hc, ?_, ?_, ?_, ?_⟩
  · have := congrArg List.length h2; simpa [MPA.len] using this
  · rw [hph, ← h2, List.map_map]; rfl
  · intro idx hi
    have hi' : IdxOK idx (ps.map fun p => p.1.ph) := by
      rw [show x.shape = x.lt.map NDArray.ph from rfl, ← h2, List.map_map] at hi; exact hi
    have hzip : List.zipWith (fun t p => permIdx (π t) p) x.lt idx
        = List.zipWith (fun (q : NDArray R × NDArray R) p => permIdx (π q.1) p) ps idx := by
      rw [← h2, List.zipWith_map_left]
    have hok : IdxOK (List.zipWith (fun (q : NDArray R × NDArray R) p => permIdx (π q.1) p) ps idx)
        (physShape (ps.map Prod.snd)) := by
      rw [hph]
      have hmem : ∀ p ∈ ps, (π p.1).Perm (List.range p.1.ph.length) := fun p hp => hπ _ (h3 p hp).1
      clear hzip hph hpull hc h3 h2 h1 hi
      induction ps generalizing idx with
      | nil => simp
      | cons p ps ih =>
        cases idx with
        | nil => simp [IdxOK] at hi'
        | cons i is =>
          simp only [List.map_cons, idxOK_cons] at hi'
          simp only [List.zipWith_cons_cons, List.map_cons, idxOK_cons]
          exact ⟨permIdx_inB (hmem p (by simp)) rfl hi'.1, ih _ hi'.2 fun q hq => hmem q (by simp [hq])⟩
    show mp (ps.map Prod.snd) _ 0 0 = mp x.lt idx 0 0
    rw [hzip, mp_pull hpull hc hok one_pos, h2]
    congr 1
    have hmem : ∀ p ∈ ps, (π p.1).Perm (List.range p.1.ph.length) := fun p hp => hπ _ (h3 p hp).1
    clear hzip hph hpull hc h3 h2 h1 hi hok
    induction ps generalizing idx with
    | nil => cases idx with
      | nil => rfl
      | cons i is => simp [IdxOK] at hi'
    | cons p ps ih =>
      cases idx with
      | nil => simp [IdxOK] at hi'
      | cons i is =>
        simp only [List.map_cons, idxOK_cons] at hi'
        simp only [List.zipWith_cons_cons]
        rw [unperm_permIdx (hmem p (by simp)) (inB_length hi'.1), ih _ hi'.2 fun q hq => hmem q (by simp [hq])]
  · intro hcan
    have hx' : (⟨ps.map Prod.fst, x.l, x.r⟩ : MPA R).CanonOK := by rw [h2]; exact hcan
    refine canonOK_map (fun p hp => ?_) hx'
    have hb : ∀ g : List ℕ → R, (sumIdx p.2.ph fun q => g (unpermIdx (π p.1) q)) = sumIdx p.1.ph g := by
      intro g
      rw [NDArray.ph_of_shape (h3 p hp).2.1]
      exact sumIdx_perm (hπ _ (h3 p hp).1) rfl g
    exact ⟨lcanon_pull (hpull p hp) hb, rcanon_pull (hpull p hp) hb⟩

theorem reverse_perm_range (n : ℕ) : (List.range n).reverse.Perm (List.range n) := List.reverse_perm _

section
variable [CommRing R] [StarRing R]

omit [CommRing R] [StarRing R] in
theorem zipWith_reverse {ts : List (NDArray R)} {idx : List (List ℕ)} (h : IdxOK idx (physShape ts)) :
    List.zipWith (fun t p => permIdx (List.range (NDArray.ph t).length).reverse p) ts idx
      = idx.map List.reverse := by
  induction ts generalizing idx with
  | nil => cases idx with
    | nil => rfl
    | cons i is => simp [physShape, IdxOK] at h
  | cons t ts ih =>
    cases idx with
    | nil => simp [physShape, IdxOK] at h
    | cons i is =>
      simp only [physShape, List.map_cons, idxOK_cons] at h
      simp only [List.zipWith_cons_cons, List.map_cons]
      rw [← inB_length h.1, permIdx_reverse, ih h.2]

theorem transposeNone_core {x : MPA R} (hx : x.Valid) :
    ∃ us, (x.lt.mapM fun t => localTranspose t none) = .ok us ∧ Chained 1 us 1 ∧ us.length = x.len ∧
      physShape us = x.shape.map List.reverse ∧
      (∀ idx, IdxOK idx x.shape → entry us (idx.map List.reverse) = x.val idx) ∧
      (x.CanonOK → (⟨us, x.l, x.r⟩ : MPA R).CanonOK) := by
  obtain ⟨us, h1, h2, h3, h4, h5, h6⟩ := transpose_core hx (f := fun t => localTranspose t none)
    (π := fun t => (List.range t.ph.length).reverse)
    (fun t _ => reverse_perm_range _) (fun t ht => localTranspose_none t (hx.chain.isLocal t ht))
  refine ⟨us, h1, h2, h3, ?_, ?_, h6⟩
  · rw [h4, MPA.shape, List.map_map]
    apply List.map_congr_left
    intro t _; exact permIdx_reverse _
  · intro idx hi
    rw [← h5 idx hi, zipWith_reverse hi]

/-- C14: `x.T` reverses the physical legs of every site: `T(x)[.., (i_n, .., i_1), ..] =
x[.., (i_1, .., i_n), ..]`.  The canonical form is the same and stays true. -/
theorem C14_T (x : MPA R) (hx : x.Valid) :
    ∃ y, x.T = .ok y ∧ y.Valid ∧ y.shape = x.shape.map List.reverse ∧ y.l = x.l ∧ y.r = x.r ∧
      (∀ idx, IdxOK idx x.shape → y.val (idx.map List.reverse) = x.val idx) ∧
      (x.CanonOK → y.CanonOK) := by
  obtain ⟨us, h1, h2, h3, h4, h5, h6⟩ := transposeNone_core hx
  obtain ⟨g1, g2⟩ := keep_form hx h2 h3
  exact ⟨_, by unfold MPA.T; rw [h1]; exact g1, g2, h4, rfl, rfl, h5, h6⟩

omit [CommRing R] [StarRing R] in
/-- C14: `x.transpose()` is `x.T`. -/
theorem C14_transpose_default (x : MPA R) : x.transpose none = x.T := rfl

/-- C14: `x.transpose(axes)`: leg `k` of the result is leg `axes[k]` of `x`, on every site. -/
theorem C14_transpose (x : MPA R) (hx : x.Valid) (n : ℕ) (hn : ∀ s ∈ x.shape, s.length = n)
    (axes : List ℕ) (ha : axes.Perm (List.range n)) :
    ∃ y, x.transpose (some (axes.map fun k : ℕ => (k : ℤ))) = .ok y ∧ y.Valid ∧
      y.shape = x.shape.map (fun s => axes.map fun k => s.getD k 0) ∧ y.l = x.l ∧ y.r = x.r ∧
      (∀ idx, IdxOK idx x.shape →
        y.val (idx.map fun p => axes.map fun k => p.getD k 0) = x.val idx) ∧
      (x.CanonOK → y.CanonOK) := by
  have hn' : ∀ t ∈ x.lt, t.ph.length = n := fun t ht => hn _ (List.mem_map.2 ⟨t, ht, rfl⟩)
  obtain ⟨us, h1, h2, h3, h4, h5, h6⟩ := transpose_core hx
    (f := fun t => localTranspose t (some (axes.map fun k : ℕ => (k : ℤ)))) (π := fun _ => axes)
    (fun t ht => by rw [hn' t ht]; exact ha) (fun t _ => rfl)
  obtain ⟨g1, g2⟩ := keep_form hx h2 h3
  refine ⟨_, by unfold MPA.transpose; rw [h1]; exact g1, g2, ?_, rfl, rfl, ?_, h6⟩
  · show physShape us = _
    rw [h4, MPA.shape, List.map_map]; rfl
  · intro idx hi
    rw [← h5 idx hi]
    have : List.zipWith (fun _ p => permIdx axes p) x.lt idx = idx.map (permIdx axes) := by
      have hl : idx.length = x.lt.length := by have := idxOK_length hi; simpa [MPA.shape] using this
      clear h5 hi
      generalize x.lt = ts at hl
      induction ts generalizing idx with
      | nil => cases idx with
        | nil => rfl
        | cons i is => simp at hl
      | cons t ts ih =>
        cases idx with
        | nil => simp at hl
        | cons i is => simp only [List.zipWith_cons_cons, List.map_cons]; rw [ih _ (by simpa using hl)]
    rw [this]

theorem mapM_first_error {α β : Type} {f : α → Py β} {x : α} {xs : List α} {e : PyErr}
    (h : f x = .error e) : (x :: xs).mapM f = .error e := by
  rw [List.mapM_cons, h]; rfl

omit [CommRing R] [StarRing R] in
/-- numpy rejects an axis list that is not a permutation. -/
theorem transpose_error (a : NDArray R) (perm : List ℕ) (h : ¬ perm.Perm (List.range a.ndim)) :
    a.transpose (perm.map fun k : ℕ => (k : ℤ)) = .error .value := by
  unfold NDArray.transpose
  by_cases hb : ∀ p ∈ perm, p < a.ndim
  · have h1 : (perm.map (fun k : ℕ => (k : ℤ))).mapM
        (fun ax => (pyIndex a.ndim ax).mapError fun _ => PyErr.value) = .ok perm := by
      clear h
      rw [mapM_ok_iff]
      induction perm with
      | nil => simp
      | cons p perm ih =>
        simp only [List.map_cons, List.forall₂_cons]
        refine ⟨?_, ih fun b hb' => hb b (by simp [hb'])⟩
        rw [pyIndex_nat (hb p (by simp))]; rfl
    rw [h1, ok_bind, if_neg]
    rintro ⟨h2, h3⟩
    refine h ((List.subperm_of_subset h3 fun p hp => by simpa using hb p hp).perm_of_length_le ?_)
    simp [h2]
  · have h1 : (perm.map (fun k : ℕ => (k : ℤ))).mapM
        (fun ax => (pyIndex a.ndim ax).mapError fun _ => PyErr.value) = .error .value := by
      clear h
      induction perm with
      | nil => simp at hb
      | cons p perm ih =>
        rw [List.map_cons, List.mapM_cons]
        by_cases hp : p < a.ndim
        · rw [pyIndex_nat hp, ih (by simpa [hp] using hb)]; rfl
        · have : pyIndex a.ndim (p : ℤ) = .error .index := by
            unfold pyIndex
            rw [if_neg (by omega), if_neg (by omega)]
          rw [this]; rfl
    rw [h1]; rfl

omit [CommRing R] [StarRing R] in
/-- C14: axes that are not a permutation of the legs of the first site (wrong number of axes,
repeated or too large axes) are rejected with `ValueError`. -/
theorem C14_transpose_invalid (x : MPA R) (hx : x.Valid) (axes : List ℕ) (s : List ℕ)
    (hs : x.shape.head? = some s) (h : ¬ axes.Perm (List.range s.length)) :
    x.transpose (some (axes.map fun k : ℕ => (k : ℤ))) = .error .value := by
  obtain ⟨t, ts, hts⟩ := List.exists_cons_of_ne_nil hx.ne
  have ht : t.IsLocal := hx.chain.isLocal t (by rw [hts]; simp)
  have hst : s = t.ph := by simpa [MPA.shape, hts, eq_comm] using hs
  subst hst
  have hnd := NDArray.ndim_local ht
  have key : localTranspose t (some (axes.map fun k : ℕ => (k : ℤ))) = .error .value := by
    have := transpose_error t (0 :: (axes.map (· + 1) ++ [t.ph.length + 1])) (fun hp => h ?_)
    · rw [← this]
      unfold localTranspose
      simp only [List.map_cons, List.map_append, List.map_map, Function.comp_def, hnd]
      push_cast
      simp
      ring_nf
    · rw [hnd, List.range_succ, List.range_succ_eq_map, List.cons_append, List.perm_cons,
        List.perm_append_right_iff] at hp
      have := hp.map Nat.pred
      rw [List.map_map, List.map_map] at this
      have e : ∀ l : List ℕ, l.map (Nat.pred ∘ fun x => x + 1) = l := fun l => by
        simp [Function.comp_def]
      rw [e] at this
      exact this.trans (by rw [show (Nat.pred ∘ Nat.succ) = id from rfl, List.map_id])
  unfold MPA.transpose
  rw [hts, mapM_first_error (f := fun t => localTranspose t _) key]; rfl

/-- C14: `x.conj()` is the complex conjugate; the canonical form is the same and stays true. -/
theorem C14_conj (x : MPA R) (hx : x.Valid) :
    ∃ y, x.conj = .ok y ∧ y.Valid ∧ y.shape = x.shape ∧ y.l = x.l ∧ y.r = x.r ∧
      (∀ idx, y.val idx = star (x.val idx)) ∧ (x.CanonOK → y.CanonOK) := by
  obtain ⟨g1, g2⟩ := keep_form hx (us := x.lt.map NDArray.conj)
    (chained_map_same (f := NDArray.conj) (fun t => rfl) hx.chain) (by simp [MPA.len])
  refine ⟨_, g1, g2, ?_, rfl, rfl, ?_, ?_⟩
  · simp only [MPA.shape, List.map_map]; rfl
  · intro idx; exact (star_mp _ _ _ _).symm
  · intro hc
    have hx' : (⟨x.lt.map id, x.l, x.r⟩ : MPA R).CanonOK := by rw [List.map_id]; exact hc
    refine canonOK_map (fun t _ => ⟨?_, ?_⟩) hx'
    · intro h b hb b' hb'
      have := h b' hb' b hb
      rw [show (if b = b' then (1 : R) else 0) = if b' = b then 1 else 0 by simp [eq_comm], ← this]
      refine Finset.sum_congr rfl fun a _ => sumIdx_congr fun p _ => ?_
      simp only [conj_at3, star_star, id]; ring
    · intro h b hb b' hb'
      have := h b' hb' b hb
      rw [show (if b = b' then (1 : R) else 0) = if b' = b then 1 else 0 by simp [eq_comm], ← this]
      refine Finset.sum_congr rfl fun a _ => sumIdx_congr fun p _ => ?_
      simp only [conj_at3, star_star, id]; ring

/-- C14: `x.adj()` is `x.T.conj()`: the Hermitian adjoint. -/
theorem C14_adj (x : MPA R) (hx : x.Valid) :
    ∃ y, x.adj = .ok y ∧ y.Valid ∧ y.shape = x.shape.map List.reverse ∧ y.CanonOK ∧
      (∀ idx, IdxOK idx x.shape → y.val (idx.map List.reverse) = star (x.val idx)) := by
  obtain ⟨us, h1, h2, h3, h4, h5, h6⟩ := transposeNone_core hx
  have hne : us.map NDArray.conj ≠ [] := by
    intro h
    have h0 := congrArg List.length h
    rw [List.length_map, h3] at h0
    exact hx.ne (List.length_eq_zero_iff.1 h0)
  have hc : Chained 1 (us.map NDArray.conj) 1 := chained_map_same (f := NDArray.conj) (fun t => rfl) h2
  refine ⟨_, by unfold MPA.adj; rw [h1]; exact mkMPA_ok hne hc, valid_mk hne hc, ?_, canonOK_mk _, ?_⟩
  · rw [← h4]; simp only [MPA.shape, List.map_map, physShape]; rfl
  · intro idx hi
    rw [← h5 idx hi]
    exact (star_mp _ _ _ _).symm

/-- C14: `x.reverse()` reverses the order of the sites. -/
theorem C14_reverse (x : MPA R) (hx : x.Valid) :
    ∃ y, x.reverse = .ok y ∧ y.Valid ∧ y.shape = x.shape.reverse ∧ y.CanonOK ∧
      y.ranks = x.ranks.reverse ∧
      (∀ idx, IdxOK idx x.shape → y.val idx.reverse = x.val idx) := by
  have hloc := hx.chain.isLocal
  obtain ⟨ps, h1, h2, h3⟩ := mapM_pairs (xs := x.lt.reverse) (f := fun t => t.transpose (((t.ndim : ℤ) - 1) ::
        (((List.range (t.ndim - 2)).map fun k : ℕ => (k : ℤ) + 1) ++ [0])))
    (P := fun t u => u.shape = t.rb :: (t.ph ++ [t.lb]) ∧
      ∀ a b p, p.length = t.ph.length → u.at3 b p a = t.at3 a p b)
    (fun t ht => reverseSite_ok (hloc t (by simpa using ht)))
  have h2' : ps.reverse.map Prod.fst = x.lt := by
    rw [List.map_reverse, h2, List.reverse_reverse]
  have hq : ∀ p ∈ ps.reverse, p.2.IsLocal ∧ p.2.lb = p.1.rb ∧ p.2.rb = p.1.lb ∧
      ∀ a b i, i.length = p.1.ph.length → p.2.at3 b i a = p.1.at3 a i b := by
    intro p hp
    obtain ⟨a, b⟩ := h3 p (by simpa using hp)
    exact ⟨NDArray.isLocal_of_shape a, NDArray.lb_of_shape a, NDArray.rb_of_shape a, b⟩
  have hc := hx.chain
  rw [← h2'] at hc
  have hrev := chained_reverse (fun p hp => ⟨(hq p hp).1, (hq p hp).2.1, (hq p hp).2.2.1⟩) hc
  rw [List.reverse_reverse] at hrev
  have hne : ps.map Prod.snd ≠ [] := by
    intro h
    have : ps = [] := by simpa using h
    subst this
    exact hx.ne (by simpa using h2.symm)
  refine ⟨_, by unfold MPA.reverse; rw [h1]; exact mkMPA_ok hne hrev, valid_mk hne hrev, ?_, canonOK_mk _, ?_, ?_⟩
  · show (ps.map Prod.snd).map NDArray.ph = (x.lt.map NDArray.ph).reverse
    rw [← List.map_reverse, ← h2, List.map_map, List.map_map]
    apply List.map_congr_left
    intro p hp
    exact NDArray.ph_of_shape (h3 p hp).1
  · show (ps.map Prod.snd).tail.map NDArray.lb = (x.lt.tail.map NDArray.lb).reverse
    have e1 : (ps.map Prod.snd).tail.map NDArray.lb = ps.tail.map fun p => p.1.rb := by
      rw [← List.map_tail, List.map_map]
      apply List.map_congr_left
      intro p hp
      exact NDArray.lb_of_shape (h3 p (List.mem_of_mem_tail hp)).1
    have e2 : (ps.tail.map fun p => p.1.rb) = ((x.lt.dropLast).map NDArray.rb).reverse := by
      rw [← List.map_reverse, ← List.tail_reverse, ← h2, List.map_tail, List.map_tail, List.map_map]
      rfl
    rw [e1, e2]
    congr 1
    have aux : ∀ (l r : ℕ) (ts : List (NDArray R)), Chained l ts r →
        ts.dropLast.map NDArray.rb = ts.tail.map NDArray.lb := by
      intro l r ts
      induction ts generalizing l with
      | nil => intro _; rfl
      | cons t ts ih =>
        intro h
        cases ts with
        | nil => rfl
        | cons u us =>
          obtain ⟨_, _, h3⟩ := h
          have := ih _ h3
          rw [List.dropLast_cons_cons, List.map_cons, this, ← h3.2.1]; rfl
    exact aux 1 1 x.lt hx.chain
  · intro idx hi
    have hi' : IdxOK idx (physShape (ps.reverse.map Prod.fst)) := by rw [h2']; exact hi
    have := mp_reverse hq hc hi' (a := 0) (b := 0) one_pos one_pos
    rw [List.reverse_reverse, h2'] at this
    exact this

end

/-- Two sites with two legs of different sizes each, bond dimension 2. -/
def exOp : MPA ℤ :=
  ⟨[⟨[1, 2, 3, 2], fun i => match i with | [_, p, q, b] => (p : ℤ) + 2 * q * b + 1 | _ => 0⟩,
    ⟨[2, 3, 2, 1], fun i => match i with | [a, p, q, _] => (a : ℤ) * p - q | _ => 0⟩], 0, 2⟩

theorem exOp_valid : exOp.Valid :=
  ⟨by simp [exOp], by simp [exOp, NDArray.IsLocal, NDArray.ndim, NDArray.lb, NDArray.rb],
    by simp [exOp], by simp [exOp], by simp [exOp, MPA.len]⟩

/-- Non-vacuity of the C14 theorems: a valid array with two legs per site, an index tuple, a
permutation and a non-permutation of its legs. -/
example : exOp.Valid ∧ (∀ s ∈ exOp.shape, s.length = 2) ∧ [1, 0].Perm (List.range 2) ∧
    IdxOK [[1, 2], [2, 1]] exOp.shape ∧ exOp.val [[1, 2], [2, 1]] = 4 ∧
    exOp.shape.head? = some [2, 3] ∧ ¬ [1, 1].Perm (List.range 2) :=
  ⟨exOp_valid, by decide, by decide, by simp [IdxOK, exOp, MPA.shape, NDArray.ph, InB], by decide,
    by decide, by decide⟩

/-- A finding about `transpose`: unlike `numpy.transpose`, it does not accept the axis `-1` for the
last leg (the shift by one turns it into the left bond): `ValueError`. -/
theorem C14_negative_axis : exOp.transpose (some [-1, 0]) = .error .value := by rfl

end Mpnum
