import Verif.Props.C40

/-! # C41: `pauli_povm` is informationally complete -/

open Finset Classical

namespace Mpnum

/-- Specification: the probability (Born rule) `tr(E_k rho)` of element `k`. -/
noncomputable def born (a : NDArray ℂ) {d : ℕ} (k : ℕ) (rho : Matrix (Fin d) (Fin d) ℂ) : ℂ :=
  (elemMatrix a d k * rho).trace

/-- C41: the rows of `probability_map` applied to the ravelled (row-major) matrix are the Born
probabilities. -/
theorem C41_probability_map (a : NDArray ℂ) (n d : ℕ) (hs : a.shape = [n, d, d]) (hn : 0 < n) :
    ∃ P, probabilityMap a = .ok P ∧ P.shape = [n, d * d] ∧
      ∀ (rho : Matrix (Fin d) (Fin d) ℂ) (k : ℕ), k < n →
        ∑ i : Fin d, ∑ j : Fin d, P.get [k, i * d + j] * rho i j = born a k rho := by
  have h1 : a.transpose [0, 2, 1] = .ok (a.transposeTo [0, 2, 1]) := by
    have := NDArray.transpose_ok (a := a) (perm := [0, 2, 1]) (by
      rw [NDArray.ndim, hs, show [n, d, d].length = 3 from rfl]; decide)
    simpa using this
  have hts : (a.transposeTo [0, 2, 1]).shape = [n, d, d] := by simp [NDArray.transposeTo, hs]
  have h2 := NDArray.reshape_infer (a := a.transposeTo [0, 2, 1]) (d := d * d) (s := [n]) (t := [])
    (by rw [hts]; simp) (by simpa using hn)
  refine ⟨(a.transposeTo [0, 2, 1]).reshapeTo [n, d * d], ?_, rfl, ?_⟩
  · unfold probabilityMap
    rw [h1, ok_bind]
    simpa [hs] using h2
  · intro rho k hk
    have hget : ∀ i j : Fin d, ((a.transposeTo [0, 2, 1]).reshapeTo [n, d * d]).get [k, i * d + j]
        = a.get [k, j, i] := by
      intro i j
      have hlt : (i : ℕ) * d + j < d * d := by
        have := i.2; have := j.2; nlinarith
      have hd : 0 < d := by have := j.2; omega
      have := NDArray.reshapeTo_blocks2 (a := a.transposeTo [0, 2, 1]) (S := [n]) (S' := [d, d]) (T := [n])
        (T' := [d * d]) (i := [k]) (j := [(i : ℕ) * d + j]) hts rfl (by simp) (by simp [hk]) (by simp [hlt])
      simp only [List.singleton_append] at this
      rw [this]
      have e1 : unravelIdx [n] (ravelIdx [n] [k]) = [k] := by
        rw [unravel_ravel (by simp [hk])]
      have e2 : unravelIdx [d, d] (ravelIdx [d * d] [(i : ℕ) * d + j]) = [(i : ℕ), (j : ℕ)] := by
        have : ravelIdx [d * d] [(i : ℕ) * d + j] = ravelIdx [d, d] [(i : ℕ), (j : ℕ)] := by
          simp [ravelIdx]
        rw [this, unravel_ravel (by simp [i.2, j.2])]
      rw [e1, e2]
      have h3 : a.ndim = 3 := by rw [NDArray.ndim, hs]; rfl
      simp only [NDArray.transposeTo, h3]
      rfl
    simp only [born, Matrix.trace, Matrix.diag, Matrix.mul_apply, elemMatrix, hget]
    rw [sum_comm]

theorem born_eq (a : NDArray ℂ) {d : ℕ} (k : ℕ) (δ : Matrix (Fin d) (Fin d) ℂ) :
    born a k δ = ∑ x : Fin d, ∑ y : Fin d, a.get [k, x, y] * δ y x := by
  simp only [born, Matrix.trace, Matrix.diag, Matrix.mul_apply, elemMatrix]

theorem rowVal_quad {d : ℕ} (δ : Matrix (Fin d) (Fin d) ℂ) (i j : Fin d) (hij : i ≠ j) (w c : ℂ)
    (h : ∑ x : Fin d, ∑ y : Fin d, c * (rowVal (i, j, w) x * star (rowVal (i, j, w) y)) * δ y x = 0) (hc : c ≠ 0) :
    δ i i + star w * δ j i + w * δ i j + w * star w * δ j j = 0 := by
  have hv : ∀ x : Fin d, rowVal ((i : ℕ), (j : ℕ), w) x = (if x = i then 1 else 0) + w * (if x = j then 1 else 0) := by
    intro x
    rw [rowVal_eq (q := ((i : ℕ), (j : ℕ), w)) (fun h => hij (Fin.ext h))]
    simp only [Fin.ext_iff]
  have hs : ∀ (P : Prop) [Decidable P], star (if P then (1 : ℂ) else 0) = if P then 1 else 0 := by
    intro P _; split_ifs <;> simp
  have h1 : ∑ x : Fin d, ∑ y : Fin d, c * (rowVal (i, j, w) x * star (rowVal (i, j, w) y)) * δ y x
      = c * (δ i i + star w * δ j i + w * δ i j + w * star w * δ j j) := by
    have h2 : ∀ x y : Fin d, c * (rowVal (i, j, w) x * star (rowVal (i, j, w) y)) * δ y x
        = (if x = i then c * (if y = i then δ y x else 0) else 0)
          + (if x = i then c * (if y = j then star w * δ y x else 0) else 0)
          + ((if x = j then c * (if y = i then w * δ y x else 0) else 0)
          + (if x = j then c * (if y = j then w * star w * δ y x else 0) else 0)) := by
      intro x y
      rw [hv, hv, star_add, star_mul', hs, hs]
      split_ifs <;> ring
    simp only [h2, sum_add_distrib]
    simp [mul_add]
    ring
  rw [h1] at h
  exact (mul_eq_zero.1 h).resolve_left hc

/-- Every (weighted) element of every part is an element of the concatenated POVM. -/
theorem concat_born {d : ℕ} {povms : List (NDArray ℂ × ℕ)} {weights : List ℝ} {a : NDArray ℂ}
    (hl : povms.length = weights.length) (hp : ∀ p ∈ povms, IsPovm p.1 p.2 d)
    (hn : (povms.map Prod.snd).sum ≠ 0)
    (ha : concatPovm (povms.map Prod.fst) weights = .ok a) (δ : Matrix (Fin d) (Fin d) ℂ)
    (h0 : ∀ k < (povms.map Prod.snd).sum, born a k δ = 0) :
    ∀ q ∈ povms.zip weights, ∀ k < q.1.2, (q.2 : ℂ) * born q.1.1 k δ = 0 := by
  intro q hq k hk
  obtain ⟨es, hes⟩ : ∃ es, es = (List.zipWith (fun (p : NDArray ℂ) (w : ℝ) =>
    (povmElems p).map fun e => e.smul (w : ℂ)) (povms.map Prod.fst) weights).flatten := ⟨_, rfl⟩
  obtain ⟨g1, g2, _, _⟩ := concat_elems povms weights hl hp es hes
  obtain ⟨a', h1, _, h3⟩ := asArray_ok (es := es) (d := d) (by
    intro h0; rw [h0] at g1; exact hn g1.symm) g2
  have haa : a' = a := by
    unfold concatPovm at ha
    rw [← hes] at ha
    unfold pyAssert at ha
    split_ifs at ha
    · rw [ok_bind, h1] at ha
      exact Except.ok.inj ha
    · exact absurd ha (by simp [bind, Except.bind])
  subst haa
  have hqp : IsPovm q.1.1 q.1.2 d := hp q.1 (List.of_mem_zip hq).1
  have hmem : (NDArray.smul (q.2 : ℂ) ⟨[d, d], fun i => q.1.1.get (k :: i)⟩) ∈ es := by
    rw [hes, List.mem_flatten]
    refine ⟨(povmElems q.1.1).map fun e => e.smul (q.2 : ℂ), ?_, ?_⟩
    · rw [List.zipWith_map_left, ← List.map_uncurry_zip_eq_zipWith]
      exact List.mem_map.2 ⟨q, hq, rfl⟩
    · rw [povmElems_get hqp.shape, List.map_map]
      exact List.mem_map.2 ⟨k, List.mem_range.2 hk, rfl⟩
  obtain ⟨m, hm, he⟩ := List.mem_iff_getElem.1 hmem
  have hb := h0 m (by rw [← g1]; exact hm)
  rw [born_eq] at hb ⊢
  rw [← hb, mul_sum]
  refine sum_congr rfl fun x _ => ?_
  rw [mul_sum]
  refine sum_congr rfl fun y _ => ?_
  rw [h3 m _ (by rw [List.getElem?_eq_getElem hm, he]) [(x : ℕ), (y : ℕ)]]
  simp only [NDArray.smul]
  ring

theorem xy_zero {w : ℂ} {d : ℕ} (hd : 2 ≤ d) {v : NDArray ℂ} (hv : povmVectors w d = .ok v)
    (δ : Matrix (Fin d) (Fin d) ℂ) (h0 : ∀ k < d * (d - 1), born (fromVectors v) k δ = 0)
    (i j : Fin d) (hij : i < j) :
    δ i i + star w * δ j i + w * δ i j + w * star w * δ j j = 0 ∧
    δ i i - star w * δ j i - w * δ i j + w * star w * δ j j = 0 := by
  obtain ⟨v', h1, h2, h3, h4⟩ := xyPovm_ok w hd
  obtain rfl : v' = v := by rw [h1] at hv; exact Except.ok.inj hv
  have hc : (1 / (2 * ((d : ℂ) - 1))) ≠ 0 := by
    have h1 : (1 : ℝ) < d := by exact_mod_cast hd
    have : ((d : ℂ) - 1) ≠ 0 := by
      intro h
      have h' : (((d : ℝ) - 1 : ℝ) : ℂ) = 0 := by push_cast; exact h
      have : (d : ℝ) - 1 = 0 := by exact_mod_cast h'
      linarith
    simp [this]
  have key : ∀ u : ℂ, ((i : ℕ), (j : ℕ), u) ∈ povmRows w (povmPairs d) →
      δ i i + star u * δ j i + u * δ i j + u * star u * δ j j = 0 := by
    intro u hu
    obtain ⟨m, hm, he⟩ := List.mem_iff_getElem.1 hu
    refine rowVal_quad δ i j hij.ne u _ ?_ hc
    rw [← h0 m (h3 ▸ hm), born_eq]
    refine sum_congr rfl fun x _ => sum_congr rfl fun y _ => ?_
    rw [h4 m _ (by rw [List.getElem?_eq_getElem hm, he])]
    ring
  have hp : ((i : ℕ), (j : ℕ)) ∈ povmPairs d := mem_povmPairs.2 ⟨hij, j.2⟩
  have k1 := key w (List.mem_flatMap.2 ⟨_, hp, by simp⟩)
  have k2 := key (-w) (List.mem_flatMap.2 ⟨_, hp, by simp⟩)
  refine ⟨k1, ?_⟩
  rw [star_neg] at k2
  linear_combination k2

theorem pauli_zero (d : ℕ) (hd : 2 ≤ d) (δ : Matrix (Fin d) (Fin d) ℂ)
    {x y : NDArray ℂ} (hx : xPovm d = .ok x) (hy : yPovm d = .ok y)
    (h1 : ∀ k < d * (d - 1), born x k δ = 0) (h2 : ∀ k < d * (d - 1), born y k δ = 0)
    (h3 : d = 2 → ∀ k < d, born (zPovm d) k δ = 0) : δ = 0 := by
  unfold xPovm at hx
  unfold yPovm at hy
  obtain ⟨vx, hvx, _⟩ := xyPovm_ok 1 hd
  obtain ⟨vy, hvy, _⟩ := xyPovm_ok Complex.I hd
  rw [hvx, ok_bind] at hx
  rw [hvy, ok_bind] at hy
  obtain rfl := Except.ok.inj hx
  obtain rfl := Except.ok.inj hy
  have ex := xy_zero hd hvx δ h1
  have ey := xy_zero hd hvy δ h2
  have hpair : ∀ i j : Fin d, i < j → δ i j = 0 ∧ δ j i = 0 ∧ δ i i + δ j j = 0 := by
    intro i j hij
    obtain ⟨a1, a2⟩ := ex i j hij
    obtain ⟨b1, b2⟩ := ey i j hij
    simp only [star_one, one_mul, Complex.star_def, Complex.conj_I] at a1 a2 b1 b2
    have hI := Complex.I_mul_I
    have e1 : δ i j + δ j i = 0 := by linear_combination (a1 - a2) / 2
    have e2 : Complex.I * (δ i j - δ j i) = 0 := by linear_combination (b1 - b2) / 2
    have e3 : δ i j - δ j i = 0 := (mul_eq_zero.1 e2).resolve_left Complex.I_ne_zero
    refine ⟨by linear_combination (e1 + e3) / 2, by linear_combination (e1 - e3) / 2,
      by linear_combination (a1 + a2) / 2⟩
  have hsum : ∀ i j : Fin d, i ≠ j → δ i i + δ j j = 0 := by
    intro i j hij
    rcases lt_or_gt_of_ne hij with h | h
    · exact (hpair i j h).2.2
    · rw [add_comm]; exact (hpair j i h).2.2
  ext i j
  rw [Matrix.zero_apply]
  by_cases hij : i = j
  · subst hij
    by_cases h : d = 2
    · have := h3 h i i.2
      rw [born_eq] at this
      rw [← this]
      have hz : ∀ x y : Fin d, (zPovm d).get [(i : ℕ), x, y] = (if i = x then 1 else 0) * (if i = y then 1 else 0) := by
        intro x y
        simp [zPovm, fromVectors, Fin.ext_iff]
      simp only [hz]
      simp
    · obtain ⟨j, hj⟩ : ∃ j : Fin d, j ≠ i := by
        refine ⟨if (i : ℕ) = 0 then ⟨1, by omega⟩ else ⟨0, by omega⟩, ?_⟩
        split_ifs with h0 <;> simp only [ne_eq, Fin.ext_iff] <;> omega
      obtain ⟨k, hki, hkj⟩ : ∃ k : Fin d, k ≠ i ∧ k ≠ j := by
        have hcard : ({i, j} : Finset (Fin d)).card < (Finset.univ : Finset (Fin d)).card := by
          refine lt_of_le_of_lt Finset.card_le_two ?_
          simp; omega
        obtain ⟨k, _, hk⟩ := Finset.exists_mem_notMem_of_card_lt_card hcard
        simp only [mem_insert, mem_singleton, not_or] at hk
        exact ⟨k, hk.1, hk.2⟩
      have s1 := hsum i j hj.symm
      have s2 := hsum i k hki.symm
      have s3 := hsum j k hkj.symm
      linear_combination (s1 + s2 - s3) / 2
  · rcases lt_or_gt_of_ne hij with h | h
    · exact (hpair i j h).1
    · exact (hpair j i h).2.1

theorem born_sub (a : NDArray ℂ) {d : ℕ} (k : ℕ) (rho sigma : Matrix (Fin d) (Fin d) ℂ) :
    born a k (rho - sigma) = born a k rho - born a k sigma := by
  simp [born, mul_sub]

/-- C41: for every dimension `d ≥ 2` two operators with the same `pauli_povm(d)` probabilities are
equal. -/
theorem C41_info_complete (d : ℕ) (hd : 2 ≤ d) :
    ∃ a n, pauliPovm d = .ok a ∧ a.shape = [n, d, d] ∧ 0 < n ∧
      ∀ rho sigma : Matrix (Fin d) (Fin d) ℂ,
        (∀ k < n, born a k rho = born a k sigma) → rho = sigma := by
  obtain ⟨a, ha, hP⟩ := C40_pauli_povm d hd
  obtain ⟨x, hx, px⟩ := C40_x_povm d hd
  obtain ⟨y, hy, py⟩ := C40_y_povm d hd
  have pz := C40_z_povm d
  have hpos : 0 < d * (d - 1) := Nat.mul_pos (by omega) (by omega)
  refine ⟨a, _, ha, hP.shape, by split_ifs <;> omega, ?_⟩
  intro rho sigma h
  rw [← sub_eq_zero]
  have h0 : ∀ k < (if d = 2 then 6 else 2 * (d * (d - 1))), born a k (rho - sigma) = 0 := by
    intro k hk
    rw [born_sub, h k hk, sub_self]
  generalize hδ : rho - sigma = δ at h0
  unfold pauliPovm pauliParts at ha
  rw [hx, hy, pyAssert, if_pos (by omega)] at ha
  by_cases h2 : d = 2
  · subst h2
    simp only [bind, Except.bind, if_true, List.length_cons, List.length_nil] at ha
    have hb := concat_born (d := 2) (povms := [(x, 2), (y, 2), (zPovm 2, 2)])
      (weights := List.replicate 3 (1 / ((3 : ℕ) : ℝ))) (a := a) rfl (by simp [px, py, pz]) (by simp) ha δ
      (by intro k hk; exact h0 k (by simpa using hk))
    have w3 : (((1 / ((3 : ℕ) : ℝ) : ℝ)) : ℂ) ≠ 0 := by norm_num
    refine pauli_zero 2 hd δ hx hy ?_ ?_ ?_
    · intro k hk
      exact (mul_eq_zero.1 (hb ((x, 2), 1 / ((3 : ℕ) : ℝ)) (by simp [List.replicate]) k hk)).resolve_left w3
    · intro k hk
      exact (mul_eq_zero.1 (hb ((y, 2), 1 / ((3 : ℕ) : ℝ)) (by simp [List.replicate]) k hk)).resolve_left w3
    · intro _ k hk
      exact (mul_eq_zero.1 (hb ((zPovm 2, 2), 1 / ((3 : ℕ) : ℝ)) (by simp [List.replicate]) k hk)).resolve_left w3
  · simp only [bind, Except.bind, h2, if_false, List.length_cons, List.length_nil] at ha
    have hb := concat_born (d := d) (povms := [(x, d * (d - 1)), (y, d * (d - 1))])
      (weights := List.replicate 2 (1 / ((2 : ℕ) : ℝ))) (a := a) rfl (by simp [px, py]) (by simp; omega) ha δ
      (by intro k hk; exact h0 k (by rw [if_neg h2]; simp at hk; omega))
    have w2 : (((1 / ((2 : ℕ) : ℝ) : ℝ)) : ℂ) ≠ 0 := by norm_num
    refine pauli_zero d hd δ hx hy ?_ ?_ (fun h => absurd h h2)
    · intro k hk
      exact (mul_eq_zero.1 (hb ((x, d * (d - 1)), 1 / ((2 : ℕ) : ℝ)) (by simp [List.replicate]) k hk)).resolve_left w2
    · intro k hk
      exact (mul_eq_zero.1 (hb ((y, d * (d - 1)), 1 / ((2 : ℕ) : ℝ)) (by simp [List.replicate]) k hk)).resolve_left w2

/-- C41: x measurements alone are not informationally complete (the third part is needed). -/
theorem C41_x_not_complete : ∃ x, xPovm 2 = .ok x ∧ ∃ rho sigma : Matrix (Fin 2) (Fin 2) ℂ,
    rho ≠ sigma ∧ ∀ k < 2, born x k rho = born x k sigma := by
  obtain ⟨v, h1, h2, h3, h4⟩ := xyPovm_ok 1 (d := 2) le_rfl
  refine ⟨fromVectors v, by unfold xPovm; rw [h1]; rfl, !![1, 0; 0, 0], !![0, 0; 0, 1], ?_, ?_⟩
  · intro h
    have := congrFun (congrFun h 0) 0
    simp at this
  · intro k hk
    have hq : ∃ q, (povmRows 1 (povmPairs 2))[k]? = some q := ⟨_, List.getElem?_eq_getElem (by rw [h3]; exact hk)⟩
    obtain ⟨q, hq⟩ := hq
    rw [born_eq, born_eq]
    simp only [h4 k q hq]
    have hq' : q = (0, 1, 1) ∨ q = (0, 1, -1) := by
      have := List.mem_of_getElem? hq
      simpa [povmRows, povmPairs, List.range, List.range.loop, List.range'] using this
    rcases hq' with rfl | rfl <;> simp [Fin.sum_univ_two, rowVal]

/-- Contract of the pseudo-inverse function `np.linalg.pinv` (the first Moore--Penrose condition). -/
structure PinvSpec (pinv : NDArray ℂ → NDArray ℂ) : Prop where
  shape : ∀ P n m, P.shape = [n, m] → (pinv P).shape = [m, n]
  inv : ∀ P n m, P.shape = [n, m] → ∀ i < n, ∀ j < m,
    ∑ k ∈ range m, ∑ l ∈ range n, P.get [i, k] * (pinv P).get [k, l] * P.get [l, j] = P.get [i, j]

/-- There is a function which meets the contract. -/
theorem exists_PinvSpec : ∃ pinv, PinvSpec pinv := by
  have key : ∀ P : NDArray ℂ, ∃ X : NDArray ℂ, ∀ n m, P.shape = [n, m] → X.shape = [m, n] ∧
      ∀ i < n, ∀ j < m,
        ∑ k ∈ range m, ∑ l ∈ range n, P.get [i, k] * X.get [k, l] * P.get [l, j] = P.get [i, j] := by
    intro P
    by_cases h : ∃ n m, P.shape = [n, m]
    · obtain ⟨n, m, hs⟩ := h
      let A : Matrix (Fin n) (Fin m) ℂ := fun i j => P.get [i, j]
      let f := A.mulVecLin
      obtain ⟨g, hg⟩ := LinearMap.exists_rightInverse_of_surjective f.rangeRestrict
        (LinearMap.range_rangeRestrict f)
      obtain ⟨g', hg'⟩ := LinearMap.exists_extend g
      have hfgf : f ∘ₗ g' ∘ₗ f = f := by
        refine LinearMap.ext fun v => ?_
        have h1 : g' (f v) = g (f.rangeRestrict v) := by
          rw [← hg']; rfl
        have h2 := LinearMap.congr_fun hg (f.rangeRestrict v)
        have h3 : f (g (f.rangeRestrict v)) = f v := congrArg Subtype.val h2
        simp only [LinearMap.comp_apply]
        rw [h1, h3]
      let B : Matrix (Fin m) (Fin n) ℂ := LinearMap.toMatrix' g'
      have hABA : A * B * A = A := by
        have : (A * B * A).mulVecLin = A.mulVecLin := by
          rw [Matrix.mulVecLin_mul, Matrix.mulVecLin_mul]
          have : B.mulVecLin = g' := by
            rw [← Matrix.toLin'_apply']; exact Matrix.toLin'_toMatrix' g'
          rw [this]
          exact hfgf
        rw [← Matrix.toLin'_apply', ← Matrix.toLin'_apply'] at this
        exact Matrix.toLin'.injective this
      refine ⟨⟨[m, n], fun i => if h : i.getD 0 0 < m ∧ i.getD 1 0 < n then
        B ⟨i.getD 0 0, h.1⟩ ⟨i.getD 1 0, h.2⟩ else 0⟩, ?_⟩
      intro n' m' hs'
      rw [hs] at hs'
      obtain ⟨rfl, rfl⟩ : n = n' ∧ m = m' := by simpa using hs'
      refine ⟨rfl, fun i hi j hj => ?_⟩
      have := congrFun (congrFun hABA ⟨i, hi⟩) ⟨j, hj⟩
      rw [show A ⟨i, hi⟩ ⟨j, hj⟩ = P.get [i, j] from rfl] at this
      rw [← this, Matrix.mul_apply, sum_comm, Finset.sum_range]
      refine sum_congr rfl fun l _ => ?_
      rw [Matrix.mul_apply, sum_mul, Finset.sum_range]
      refine sum_congr rfl fun k _ => ?_
      simp [A]
    · exact ⟨P, fun n m hs => absurd ⟨n, m, hs⟩ h⟩
  choose pinv hp using key
  exact ⟨pinv, fun P n m h => (hp P n m h).1, fun P n m h => (hp P n m h).2⟩

/-- C41: linear inversion reconstructs every operator from its `pauli_povm(d)` probabilities. -/
theorem C41_linear_inversion (pinv : NDArray ℂ → NDArray ℂ) (hp : PinvSpec pinv) (d : ℕ) (hd : 2 ≤ d) :
    ∃ a n X, pauliPovm d = .ok a ∧ a.shape = [n, d, d] ∧ linearInversionMap pinv a = .ok X ∧
      X.shape = [d * d, n] ∧
      ∀ (rho : Matrix (Fin d) (Fin d) ℂ) (i j : Fin d),
        ∑ k ∈ range n, X.get [i * d + j, k] * born a k rho = rho i j := by
  obtain ⟨a, n, ha, hs, hn, hinj⟩ := C41_info_complete d hd
  obtain ⟨P, hP, hPs, hPb⟩ := C41_probability_map a n d hs hn
  refine ⟨a, n, pinv P, ha, hs, by unfold linearInversionMap; rw [hP]; rfl, hp.shape P _ _ hPs, ?_⟩
  intro rho i j
  have hsplit : ∀ f : ℕ → ℂ, ∑ m ∈ range (d * d), f m = ∑ i : Fin d, ∑ j : Fin d, f (i * d + j) := by
    intro f
    rw [Finset.sum_range, ← finProdFinEquiv.sum_comp, Fintype.sum_prod_type]
    refine sum_congr rfl fun i _ => sum_congr rfl fun j _ => ?_
    rw [finProdFinEquiv_apply_val]
    congr 1
    ring
  have hb : ∀ k < n, ∀ σ : Matrix (Fin d) (Fin d) ℂ, born a k σ = ∑ i : Fin d, ∑ j : Fin d, P.get [k, i * d + j] * σ i j :=
    fun k hk σ => (hPb σ k hk).symm
  have hlt : ∀ x y : Fin d, (x : ℕ) * d + y < d * d := by
    intro x y
    have := x.2; have := y.2
    nlinarith
  have heq : (Matrix.of fun i j : Fin d => ∑ k ∈ range n, (pinv P).get [i * d + j, k] * born a k rho) = rho := by
    apply hinj
    intro l hl
    rw [hb l hl]
    simp only [Matrix.of_apply, mul_sum]
    have h1 : ∀ (x y : Fin d) (k : ℕ), k ∈ range n →
        P.get [l, x * d + y] * ((pinv P).get [x * d + y, k] * born a k rho)
        = ∑ x' : Fin d, ∑ y' : Fin d, P.get [l, x * d + y] * (pinv P).get [x * d + y, k] * P.get [k, x' * d + y'] * rho x' y' := by
      intro x y k hk
      rw [hb k (mem_range.1 hk), mul_sum, mul_sum]
      refine sum_congr rfl fun x' _ => ?_
      rw [mul_sum, mul_sum]
      exact sum_congr rfl fun y' _ => by ring
    rw [hb l hl]
    rw [sum_congr rfl fun x _ => sum_congr rfl fun y _ => sum_congr rfl (h1 x y)]
    have h2 : ∀ x' y' : Fin d, P.get [l, x' * d + y'] * rho x' y'
        = ∑ x : Fin d, ∑ y : Fin d, ∑ k ∈ range n,
          P.get [l, x * d + y] * (pinv P).get [x * d + y, k] * P.get [k, x' * d + y'] * rho x' y' := by
      intro x' y'
      have := hp.inv P _ _ hPs l hl (x' * d + y') (hlt x' y')
      rw [hsplit] at this
      rw [← this, sum_mul]
      refine sum_congr rfl fun x _ => ?_
      rw [sum_mul]
      refine sum_congr rfl fun y _ => ?_
      rw [sum_mul]
    simp only [h2]
    have h3 : ∀ F : Fin d → Fin d → ℕ → Fin d → Fin d → ℂ,
        (∑ x, ∑ y, ∑ k ∈ range n, ∑ x', ∑ y', F x y k x' y') = ∑ x', ∑ y', ∑ x, ∑ y, ∑ k ∈ range n, F x y k x' y' := by
      intro F
      have e1 : ∀ x y, (∑ k ∈ range n, ∑ x', ∑ y', F x y k x' y') = ∑ x', ∑ y', ∑ k ∈ range n, F x y k x' y' := by
        intro x y
        rw [sum_comm]
        exact sum_congr rfl fun _ _ => sum_comm
      simp only [e1]
      have e2 : ∀ x, (∑ y, ∑ x', ∑ y', ∑ k ∈ range n, F x y k x' y') = ∑ x', ∑ y', ∑ y, ∑ k ∈ range n, F x y k x' y' := by
        intro x
        rw [sum_comm]
        exact sum_congr rfl fun _ _ => sum_comm
      simp only [e2]
      rw [sum_comm]
      exact sum_congr rfl fun _ _ => sum_comm
    exact h3 fun x y k x' y' => P.get [l, x * d + y] * (pinv P).get [x * d + y, k] * P.get [k, x' * d + y'] * rho x' y'
  exact congrFun (congrFun heq i) j

end Mpnum
