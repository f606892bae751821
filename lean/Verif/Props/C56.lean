import Verif.Povm.MatchLemmas
import Mathlib.Analysis.InnerProductSpace.PiL2

/-!
# C56: `match_elems` finds the POVM elements which agree up to a factor

`x.elem Y` is the element of the MP-POVM `x` for the outcome `Y` (a matrix), `y.coarseElem O O' Z` the sum of
the elements of `y` whose outcome agrees with `Z` on all sites where `x` has more than one outcome. -/

open Finset Classical

namespace Mpnum

/-- Specification: squared norm of a matrix. -/
noncomputable def hsNormSq (D : List ℕ) (M : List ℕ → List ℕ → ℂ) : ℝ := sumIdx D fun I => sumIdx D fun J => ‖M I J‖ ^ 2

/-- The matrix as a vector. -/
noncomputable def hsVec (D : List ℕ) (M : List ℕ → List ℕ → ℂ) : EuclideanSpace ℂ ({I // InB I D} × {I // InB I D}) :=
  WithLp.toLp 2 fun p => M p.1 p.2

theorem hsInner_eq (D : List ℕ) (M N : List ℕ → List ℕ → ℂ) : hsInner D M N = Inner.inner ℂ (hsVec D M) (hsVec D N) := by
  unfold hsInner
  rw [sumIdx_subtype, PiLp.inner_apply, Fintype.sum_prod_type]
  refine Finset.sum_congr rfl fun I _ => ?_
  rw [sumIdx_subtype]
  refine Finset.sum_congr rfl fun J _ => ?_
  simp [hsVec, mul_comm]

theorem hsNormSq_eq (D : List ℕ) (M : List ℕ → List ℕ → ℂ) : hsNormSq D M = ‖hsVec D M‖ ^ 2 := by
  unfold hsNormSq
  rw [sumIdx_subtype, EuclideanSpace.norm_sq_eq, Fintype.sum_prod_type]
  refine Finset.sum_congr rfl fun I _ => ?_
  rw [sumIdx_subtype]
  rfl

theorem hsInner_self (D : List ℕ) (M : List ℕ → List ℕ → ℂ) : (hsInner D M M).re = hsNormSq D M := by
  rw [hsInner_eq, hsNormSq_eq]
  exact inner_self_eq_norm_sq (𝕜 := ℂ) _

theorem hs_cauchy (D : List ℕ) (M N : List ℕ → List ℕ → ℂ) : ‖hsInner D M N‖ ^ 2 ≤ hsNormSq D M * hsNormSq D N := by
  rw [hsInner_eq, hsNormSq_eq, hsNormSq_eq, ← mul_pow]
  exact pow_le_pow_left₀ (norm_nonneg _) (norm_inner_le_norm _ _) 2

theorem hsInner_congr {D : List ℕ} {M M' N N' : List ℕ → List ℕ → ℂ} (h : ∀ I J, InB I D → InB J D → M I J = M' I J)
    (h' : ∀ I J, InB I D → InB J D → N I J = N' I J) : hsInner D M N = hsInner D M' N' :=
  sumIdx_congr fun I hI => sumIdx_congr fun J hJ => by rw [h I J hI hJ, h' I J hI hJ]

/-- Specification of the result of `match_elems` for the matrices `M Y` and `N Z`: a pair matches if the
squared cosine of the angle between the matrices is one (up to `eps`), and then the prefactor is the ratio of
the norms. -/
structure Matches (O K D : List ℕ) (M N : List ℕ → List ℕ → List ℕ → ℂ) (eps : ℝ)
    (m : NDArray Bool) (f : NDArray (Option ℝ)) : Prop where
  mshape : m.shape = nsDims O ++ nsDims K
  fshape : f.shape = nsDims O ++ nsDims K
  cos : ∀ Y Z, InB Y O → InB Z K → (m.get (squeezeIdx O Y ++ squeezeIdx K Z) = true ↔
    |‖hsInner D (M Y) (N Z)‖ ^ 2 / (hsNormSq D (M Y) * hsNormSq D (N Z)) - 1| ≤ eps)
  factor : ∀ Y Z, InB Y O → InB Z K → f.get (squeezeIdx O Y ++ squeezeIdx K Z) =
    if m.get (squeezeIdx O Y ++ squeezeIdx K Z) then some (√(hsNormSq D (M Y) / hsNormSq D (N Z))) else none

/-- All intermediate arrays of `match_elems`. -/
theorem matchElems_core {x y : MPA ℂ} {O O' D : List ℕ} (hx : IsMpPovm x O D) (hy : IsMpPovm y O' D)
    (hO : ∀ o ∈ O, 0 < o) (hO' : ∀ o ∈ O', 0 < o) {excl : List String} (he : ∀ e ∈ excl, e = "self" ∨ e = "other")
    (eps : ℝ) :
    ∃ inner s o : NDArray ℝ, matchElems x y excl eps = matchTail (nsDims O).length excl eps inner s o ∧
      inner.shape = nsDims O ++ nsDims (keptDims O O') ∧ s.shape = nsDims O ∧ o.shape = nsDims (keptDims O O') ∧
      (∀ Y Z, InB Y O → InB Z (keptDims O O') → inner.get (squeezeIdx O Y ++ squeezeIdx (keptDims O O') Z)
        = ‖hsInner D (x.elem Y) (y.coarseElem O O' Z)‖ ^ 2) ∧
      (∀ Y, InB Y O → s.get (squeezeIdx O Y) = hsNormSq D (x.elem Y)) ∧
      ∀ Z, InB Z (keptDims O O') → o.get (squeezeIdx (keptDims O O') Z) = hsNormSq D (y.coarseElem O O' Z) := by
  have hl : O.length = O'.length := hx.len.trans hy.len.symm
  obtain ⟨z, z1, hz, z2⟩ := discard_ok hx hy
  have hK := keptDims_pos (O := O) hO'
  obtain ⟨c, g, c1, g1, g2, g3, g4⟩ := hsInner_ok hx hz
  obtain ⟨s, s1, s2, s3, s4⟩ := normSq_ok hx
  obtain ⟨o, o1, o2, o3, o4⟩ := normSq_ok hz
  obtain ⟨ia, i1, i2, i3⟩ := innerAbsSq_ok (keptDims_narrower hl) hO hK g2 g3
  obtain ⟨sa, p1, p2, p3⟩ := prunedReal_ok hO s2 s3
  obtain ⟨oa, q1, q2, q3⟩ := prunedReal_ok hK o2 o3
  refine ⟨ia, sa, oa, ?_, i2, p2, q2, ?_, ?_, ?_⟩
  · unfold matchElems
    have e1 : pyGuard (x.hdims = y.hdims) .value = .ok () := by
      unfold pyGuard; rw [if_pos (by rw [hx.hdims, hy.hdims])]
    rw [e1, ok_bind, pyAssert_true he, ok_bind, z1, ok_bind, c1, ok_bind, g1, ok_bind, s1, ok_bind, o1, ok_bind,
      i1, ok_bind, p1, ok_bind, q1, ok_bind, hx.outdims]
  · intro Y Z hY hZ
    rw [i3 Y Z hY hZ, g4 Y Z hY hZ]
    rw [hsInner_congr (fun _ _ _ _ => rfl) fun I J hI hJ => z2 Z I J hZ hI hJ]
  · intro Y hY
    rw [p3 Y hY, s4 Y hY, hsInner_self]
  · intro Z hZ
    rw [q3 Z hZ, o4 Z hZ, hsInner_congr (fun I J hI hJ => z2 Z I J hZ hI hJ) fun I J hI hJ => z2 Z I J hZ hI hJ,
      hsInner_self]

theorem npOuter_get {s o : NDArray ℝ} {i j : List ℕ} (hi : InB i s.shape) (hj : InB j o.shape) :
    ((npOuter s o).reshapeTo (s.shape ++ o.shape)).get (i ++ j) = s.get i * o.get j := by
  rw [NDArray.reshapeTo_get]
  show _ * _ = _
  have hlt := ravelIdx_lt hi
  have hlt' := ravelIdx_lt hj
  have e : unravelIdx [s.shape.prod, o.shape.prod] (ravelIdx (s.shape ++ o.shape) (i ++ j))
      = [ravelIdx s.shape i, ravelIdx o.shape j] := by
    rw [ravelIdx_append _ _ (inB_length hi)]
    have := unravel_ravel (i := [ravelIdx s.shape i, ravelIdx o.shape j]) (s := [s.shape.prod, o.shape.prod])
      (by simpa using ⟨hlt, hlt'⟩)
    rw [← this]
    congr 1
    simp [ravelIdx]
  show s.get (unravelIdx s.shape ((unravelIdx [s.shape.prod, o.shape.prod] _).getD 0 0))
    * o.get (unravelIdx o.shape ((unravelIdx [s.shape.prod, o.shape.prod] _).getD 1 0)) = _
  rw [e]
  simp only [List.getD_cons_zero, List.getD_cons_succ]
  rw [unravel_ravel hi, unravel_ravel hj]

/-- The last part of `match_elems` succeeds if the checks requested by the caller do. -/
theorem matchTail_ok {n : ℕ} {excl : List String} {eps : ℝ} {a s o : NDArray ℝ} (heps : 0 ≤ eps)
    (hs : ∀ i, InB i s.shape → 0 < s.get i) (ho : ∀ i, InB i o.shape → 0 < o.get i)
    (ha : a.shape = s.shape ++ o.shape) (hcs : ∀ i j, InB i s.shape → InB j o.shape → a.get (i ++ j) ≤ s.get i * o.get j) :
    ∃ m f, m.shape = s.shape ++ o.shape ∧ f.shape = s.shape ++ o.shape ∧
      matchTail n excl eps a s o = (do
        dupChecks n excl m
        pyGuard (s.shape ++ o.shape ≠ []) .type
        return (m, f)) ∧
      (∀ i j, InB i s.shape → InB j o.shape → (m.get (i ++ j) = true ↔ |a.get (i ++ j) / (s.get i * o.get j) - 1| ≤ eps)) ∧
      ∀ i j, InB i s.shape → InB j o.shape →
        f.get (i ++ j) = if m.get (i ++ j) then some (√(s.get i / o.get j)) else none := by
  obtain ⟨np, hnp⟩ : ∃ np, np = (npOuter s o).reshapeTo (s.shape ++ o.shape) := ⟨_, rfl⟩
  refine ⟨⟨a.shape, fun i => decide (|a.get i / np.get i - 1| ≤ eps)⟩,
    ⟨s.shape ++ o.shape, fun i => if decide (|a.get i / np.get i - 1| ≤ eps) = true then
      some ((s.get (i.take s.shape.length) / o.get (i.drop s.shape.length)) ^ (0.5 : ℝ)) else none⟩, ha, rfl, ?_, ?_, ?_⟩
  · unfold matchTail
    have hre : (npOuter s o).reshape (a.shape.map fun n : ℕ => (n : ℤ)) = .ok np := by
      rw [hnp, ha]
      refine NDArray.reshape_nat ?_
      simp [npOuter]
    rw [pyAssert_true hs, ok_bind, pyAssert_true ho, ok_bind, pyAssert_true ha, ok_bind, hre, ok_bind, pyAssert_true, ok_bind]
    · simp only [ha, pyAssert_true, ok_bind]
    · intro i hi
      rw [ha] at hi
      obtain ⟨i1, i2, rfl, h1, h2⟩ := inB_append_split hi
      have hp := mul_pos (hs _ h1) (ho _ h2)
      rw [hnp, npOuter_get h1 h2]
      have := hcs i1 i2 h1 h2
      have : 0 ≤ (s.get i1 * o.get i2 - a.get (i1 ++ i2)) / (s.get i1 * o.get i2) :=
        div_nonneg (by linarith) hp.le
      linarith
  · intro i j hi hj
    show decide _ = true ↔ _
    rw [decide_eq_true_iff, hnp, npOuter_get hi hj]
  · intro i j hi hj
    have l := inB_length hi
    show (if decide _ = true then some _ else none) = if decide _ = true then _ else _
    rw [List.take_left' l, List.drop_left' l, Real.sqrt_eq_rpow]
    norm_num


theorem at_most_one {s : List ℕ} {p : List ℕ → Bool} :
    (sumIdx s fun i => if p i then 1 else 0) ≤ 1 ↔ ∀ i i', InB i s → InB i' s → p i = true → p i' = true → i = i' := by
  rw [sumIdx_eq_sum, ← Finset.card_filter, Finset.card_le_one]
  simp only [Finset.mem_filter, mem_idxSet]
  exact ⟨fun h i i' hi hi' h1 h2 => h i ⟨hi, h1⟩ i' ⟨hi', h2⟩, fun h i h1 i' h2 => h i i' h1.1 h2.1 h1.2 h2.2⟩

/-- Specification of the checks requested by `exclude_dup`: no two outcomes of `self` match the same outcome
of `other`, or the other way round. -/
def NoDuplicates (O K : List ℕ) (excl : List String) (m : NDArray Bool) : Prop :=
  ("self" ∈ excl → ∀ Y Y' Z, InB Y O → InB Y' O → InB Z K → m.get (squeezeIdx O Y ++ squeezeIdx K Z) = true →
    m.get (squeezeIdx O Y' ++ squeezeIdx K Z) = true → Y = Y') ∧
  ("other" ∈ excl → ∀ Y Z Z', InB Y O → InB Z K → InB Z' K → m.get (squeezeIdx O Y ++ squeezeIdx K Z) = true →
    m.get (squeezeIdx O Y ++ squeezeIdx K Z') = true → Z = Z')

theorem squeeze_inj {O Y Y' : List ℕ} (h : InB Y O) (h' : InB Y' O) (e : squeezeIdx O Y = squeezeIdx O Y') : Y = Y' := by
  have := congrArg (ravelIdx (O.filter (1 < ·))) e
  rw [squeeze_ravel h, squeeze_ravel h'] at this
  rw [← unravel_ravel h, ← unravel_ravel h', this]

theorem dupChecks_eq {O K : List ℕ} (hO : ∀ o ∈ O, 0 < o) (hK : ∀ o ∈ K, 0 < o) (excl : List String) {m : NDArray Bool}
    (hm : m.shape = nsDims O ++ nsDims K) :
    dupChecks (nsDims O).length excl m = pyAssert (NoDuplicates O K excl m) := by
  have h1 : (∀ j, InB j (m.shape.drop (nsDims O).length) →
      (sumIdx (m.shape.take (nsDims O).length) fun i => if m.get (i ++ j) then 1 else 0) ≤ 1) ↔
      ∀ Y Y' Z, InB Y O → InB Y' O → InB Z K → m.get (squeezeIdx O Y ++ squeezeIdx K Z) = true →
        m.get (squeezeIdx O Y' ++ squeezeIdx K Z) = true → Y = Y' := by
    rw [hm, List.take_left, List.drop_left]
    constructor
    · intro h Y Y' Z hY hY' hZ g g'
      exact squeeze_inj hY hY' (at_most_one.1 (h _ (squeeze_inB hZ)) _ _ (squeeze_inB hY) (squeeze_inB hY') g g')
    · intro h j hj
      refine at_most_one.2 fun i i' hi hi' g g' => ?_
      obtain ⟨Y, hY, rfl⟩ := exists_squeeze hO hi
      obtain ⟨Y', hY', rfl⟩ := exists_squeeze hO hi'
      obtain ⟨Z, hZ, rfl⟩ := exists_squeeze hK hj
      rw [h Y Y' Z hY hY' hZ g g']
  have h2 : (∀ i, InB i (m.shape.take (nsDims O).length) →
      (sumIdx (m.shape.drop (nsDims O).length) fun j => if m.get (i ++ j) then 1 else 0) ≤ 1) ↔
      ∀ Y Z Z', InB Y O → InB Z K → InB Z' K → m.get (squeezeIdx O Y ++ squeezeIdx K Z) = true →
        m.get (squeezeIdx O Y ++ squeezeIdx K Z') = true → Z = Z' := by
    rw [hm, List.take_left, List.drop_left]
    constructor
    · intro h Y Z Z' hY hZ hZ' g g'
      exact squeeze_inj hZ hZ' (at_most_one.1 (h _ (squeeze_inB hY)) _ _ (squeeze_inB hZ) (squeeze_inB hZ') g g')
    · intro h i hi
      refine at_most_one.2 fun j j' hj hj' g g' => ?_
      obtain ⟨Y, hY, rfl⟩ := exists_squeeze hO hi
      obtain ⟨Z, hZ, rfl⟩ := exists_squeeze hK hj
      obtain ⟨Z', hZ', rfl⟩ := exists_squeeze hK hj'
      rw [h Y Z Z' hY hZ hZ' g g']
  unfold dupChecks NoDuplicates pyAssert
  simp only [h1, h2]
  split_ifs <;> first | rfl | tauto

/-- C56: for MP-POVMs on the same sites with non-zero elements, `match_elems` compares every element of `self`
with every element of `other` (whose outcomes are discarded on the sites where `self` has a single outcome),
and the requested checks for duplicates are made. -/
theorem C56_match_elems (x y : MPA ℂ) (O O' D : List ℕ) (hx : IsMpPovm x O D) (hy : IsMpPovm y O' D)
    (hO : ∀ o ∈ O, 0 < o) (hO' : ∀ o ∈ O', 0 < o) (hne : nsDims O ≠ [])
    (hM : ∀ Y, InB Y O → 0 < hsNormSq D (x.elem Y))
    (hN : ∀ Z, InB Z (keptDims O O') → 0 < hsNormSq D (y.coarseElem O O' Z))
    (excl : List String) (he : ∀ e ∈ excl, e = "self" ∨ e = "other") (eps : ℝ) (heps : 0 ≤ eps) :
    ∃ m f, Matches O (keptDims O O') D x.elem (y.coarseElem O O') eps m f ∧
      (NoDuplicates O (keptDims O O') excl m → matchElems x y excl eps = .ok (m, f)) ∧
      (¬ NoDuplicates O (keptDims O O') excl m → matchElems x y excl eps = .error .assertion) := by
  obtain ⟨a, s, o, h1, h2, h3, h4, h5, h6, h7⟩ := matchElems_core hx hy hO hO' he eps
  have hK := keptDims_pos (O := O) hO'
  have hs : ∀ i, InB i s.shape → 0 < s.get i := by
    intro i hi
    rw [h3] at hi
    obtain ⟨Y, hY, rfl⟩ := exists_squeeze hO hi
    rw [h6 Y hY]; exact hM Y hY
  have ho : ∀ i, InB i o.shape → 0 < o.get i := by
    intro i hi
    rw [h4] at hi
    obtain ⟨Z, hZ, rfl⟩ := exists_squeeze hK hi
    rw [h7 Z hZ]; exact hN Z hZ
  obtain ⟨m, f, k1, k2, k3, k4, k5⟩ := matchTail_ok (n := (nsDims O).length) (excl := excl) heps hs ho
    (by rw [h2, h3, h4]) (by
      intro i j hi hj
      rw [h3] at hi
      rw [h4] at hj
      obtain ⟨Y, hY, rfl⟩ := exists_squeeze hO hi
      obtain ⟨Z, hZ, rfl⟩ := exists_squeeze hK hj
      rw [h5 Y Z hY hZ, h6 Y hY, h7 Z hZ]
      exact hs_cauchy _ _ _)
  rw [h3, h4] at k1 k2 k3 k4 k5
  refine ⟨m, f, ⟨k1, k2, ?_, ?_⟩, ?_, ?_⟩
  · intro Y Z hY hZ
    rw [k4 _ _ (squeeze_inB hY) (squeeze_inB hZ), h5 Y Z hY hZ, h6 Y hY, h7 Z hZ]
  · intro Y Z hY hZ
    rw [k5 _ _ (squeeze_inB hY) (squeeze_inB hZ), h6 Y hY, h7 Z hZ]
  · intro hd
    rw [h1, k3, dupChecks_eq hO hK excl k1, pyAssert_true hd, ok_bind]
    unfold pyGuard
    rw [if_pos (by simp [hne])]
    rfl
  · intro hd
    rw [h1, k3, dupChecks_eq hO hK excl k1]
    unfold pyAssert
    rw [if_neg hd]
    rfl

/-- C56: what `match_elems` rejects: different local dimensions; an unknown value in `exclude_dup`; an element
which is zero; and (although the arguments are sensible) a POVM with one outcome only. -/
theorem C56_reject (x y : MPA ℂ) (excl : List String) (eps : ℝ) :
    (x.hdims ≠ y.hdims → matchElems x y excl eps = .error .value) ∧
    (x.hdims = y.hdims → (∃ e ∈ excl, e ≠ "self" ∧ e ≠ "other") → matchElems x y excl eps = .error .assertion) ∧
    (∀ O O' D, IsMpPovm x O D → IsMpPovm y O' D → (∀ o ∈ O, 0 < o) → (∀ o ∈ O', 0 < o) →
      ((∃ Y, InB Y O ∧ hsNormSq D (x.elem Y) = 0) ∨
        ∃ Z, InB Z (keptDims O O') ∧ hsNormSq D (y.coarseElem O O' Z) = 0) →
      matchElems x y excl eps = .error .assertion) ∧
    (∀ O O' D, IsMpPovm x O D → IsMpPovm y O' D → (∀ o ∈ O, 0 < o) → (∀ o ∈ O', 0 < o) → 0 ≤ eps → excl = [] →
      (∀ Y, InB Y O → 0 < hsNormSq D (x.elem Y)) →
      (∀ Z, InB Z (keptDims O O') → 0 < hsNormSq D (y.coarseElem O O' Z)) → nsDims O = [] →
      matchElems x y excl eps = .error .type) := by
  refine ⟨?_, ?_, ?_, ?_⟩
  · intro h
    unfold matchElems pyGuard
    rw [if_neg h]; rfl
  · rintro h ⟨e, he, h1, h2⟩
    unfold matchElems pyGuard pyAssert
    rw [if_pos h, if_neg (by intro h3; rcases h3 e he with h | h <;> contradiction)]; rfl
  · intro O O' D hx hy hO hO' hz
    by_cases he : ∀ e ∈ excl, e = "self" ∨ e = "other"
    · obtain ⟨a, s, o, h1, h2, h3, h4, h5, h6, h7⟩ := matchElems_core hx hy hO hO' he eps
      rw [h1]
      unfold matchTail
      rcases hz with ⟨Y, hY, hz⟩ | ⟨Z, hZ, hz⟩
      · have : ¬ ∀ i, InB i s.shape → 0 < s.get i := by
          intro h
          have := h (squeezeIdx O Y) (by rw [h3]; exact squeeze_inB hY)
          rw [h6 Y hY, hz] at this
          exact lt_irrefl _ this
        unfold pyAssert
        rw [if_neg this]; rfl
      · have : ¬ ∀ i, InB i o.shape → 0 < o.get i := by
          intro h
          have := h (squeezeIdx (keptDims O O') Z) (by rw [h4]; exact squeeze_inB hZ)
          rw [h7 Z hZ, hz] at this
          exact lt_irrefl _ this
        unfold pyAssert
        rw [if_neg this]
        split <;> rfl
    · unfold matchElems pyGuard pyAssert
      rw [if_pos (by rw [hx.hdims, hy.hdims]), if_neg he]; rfl
  · rintro O O' D hx hy hO hO' heps rfl hM hN hne
    obtain ⟨a, s, o, h1, h2, h3, h4, h5, h6, h7⟩ := matchElems_core hx hy hO hO' (excl := []) (by simp) eps
    have hK := keptDims_pos (O := O) hO'
    have hs : ∀ i, InB i s.shape → 0 < s.get i := by
      intro i hi
      rw [h3] at hi
      obtain ⟨Y, hY, rfl⟩ := exists_squeeze hO hi
      rw [h6 Y hY]; exact hM Y hY
    have ho : ∀ i, InB i o.shape → 0 < o.get i := by
      intro i hi
      rw [h4] at hi
      obtain ⟨Z, hZ, rfl⟩ := exists_squeeze hK hi
      rw [h7 Z hZ]; exact hN Z hZ
    obtain ⟨m, f, k1, k2, k3, k4, k5⟩ := matchTail_ok (n := (nsDims O).length) (excl := []) heps hs ho
      (by rw [h2, h3, h4]) (by
        intro i j hi hj
        rw [h3] at hi
        rw [h4] at hj
        obtain ⟨Y, hY, rfl⟩ := exists_squeeze hO hi
        obtain ⟨Z, hZ, rfl⟩ := exists_squeeze hK hj
        rw [h5 Y Z hY hZ, h6 Y hY, h7 Z hZ]
        exact hs_cauchy _ _ _)
    have hk0 : nsDims (keptDims O O') = [] := by
      have hl : O.length = O'.length := hx.len.trans hy.len.symm
      have := nsDims_narrow (keptDims_narrower hl)
      rw [← this]
      have hz := squeeze_length_other (O := O) (K := keptDims O O') (by rw [keptDims_length hl, hl])
      rw [hne] at hz
      rw [List.length_eq_zero_iff.1 hz]; rfl
    rw [h3, h4] at k1 k3
    rw [h1, k3, dupChecks_eq hO hK [] k1, pyAssert_true (by simp [NoDuplicates]), ok_bind, hne, hk0]
    rfl

/-! ### positive elements -/

section
open scoped ComplexOrder MatrixOrder Matrix

theorem hsInner_psd {D : List ℕ} {M N : List ℕ → List ℕ → ℂ} (hM : Psd D M) (hN : Psd D N) : 0 ≤ hsInner D M N := by
  have h := C42_nonneg D M N hM hN
  have herm : ∀ I J, InB I D → InB J D → star (M I J) = M J I := by
    intro I J hI hJ
    have := congrFun (congrFun hM.1 ⟨J, hJ⟩) ⟨I, hI⟩
    simpa [Matrix.conjTranspose_apply] using this
  have : hsInner D M N = bornRule D M N := by
    unfold hsInner bornRule
    rw [sumIdx_comm]
    refine sumIdx_congr fun I hI => sumIdx_congr fun J hJ => ?_
    rw [herm J I hJ hI]
  rwa [this]

theorem hsNormSq_nonneg (D : List ℕ) (M : List ℕ → List ℕ → ℂ) : 0 ≤ hsNormSq D M := by
  rw [hsNormSq_eq]; positivity

/-- Squared distance of a matrix and a multiple of another one. -/
theorem hs_dist {D : List ℕ} {M N : List ℕ → List ℕ → ℂ} (hM : Psd D M) (hN : Psd D N) (c : ℝ) :
    hsNormSq D (fun I J => M I J - c * N I J)
      = hsNormSq D M - 2 * c * ‖hsInner D M N‖ + c ^ 2 * hsNormSq D N := by
  have h := hsInner_psd hM hN
  have hv : hsVec D (fun I J => M I J - c * N I J) = hsVec D M - (c : ℂ) • hsVec D N := by
    ext p; simp [hsVec]
  have hre : ‖hsInner D M N‖ = (hsInner D M N).re := by
    have h1 : 0 ≤ (hsInner D M N).re := (Complex.nonneg_iff.1 h).1
    have h2 : (hsInner D M N).im = 0 := (Complex.nonneg_iff.1 h).2.symm
    rw [← abs_of_nonneg h1]
    exact ((Complex.abs_re_eq_norm).2 h2).symm
  rw [hre, hsNormSq_eq, hv, hsNormSq_eq, hsNormSq_eq, hsInner_eq, @norm_sub_sq ℂ, inner_smul_right, norm_smul]
  simp [mul_pow]
  ring

/-- C56: for positive elements, a reported match means that the element of `self` is close to the prefactor
times the element of `other`, and the probabilities of the two outcomes differ by this factor up to the same
error for all states. -/
theorem C56_match_close (O K D : List ℕ) (M N : List ℕ → List ℕ → List ℕ → ℂ) (eps : ℝ)
    (m : NDArray Bool) (f : NDArray (Option ℝ)) (h : Matches O K D M N eps m f)
    (Y Z : List ℕ) (hY : InB Y O) (hZ : InB Z K) (hM : Psd D (M Y)) (hN : Psd D (N Z))
    (hM0 : 0 < hsNormSq D (M Y)) (hN0 : 0 < hsNormSq D (N Z))
    (hm : m.get (squeezeIdx O Y ++ squeezeIdx K Z) = true) :
    ∃ c : ℝ, 0 < c ∧ f.get (squeezeIdx O Y ++ squeezeIdx K Z) = some c ∧
      hsNormSq D (fun I J => M Y I J - c * N Z I J) ≤ 2 * eps * hsNormSq D (M Y) := by
  refine ⟨√(hsNormSq D (M Y) / hsNormSq D (N Z)), Real.sqrt_pos.2 (div_pos hM0 hN0), ?_, ?_⟩
  · rw [h.factor Y Z hY hZ, hm]; rfl
  · have hc := (h.cos Y Z hY hZ).1 hm
    rw [hs_dist hM hN, Real.sq_sqrt (div_pos hM0 hN0).le, div_mul_cancel₀ _ hN0.ne']
    have hcs := hs_cauchy D (M Y) (N Z)
    obtain ⟨t, ht⟩ : ∃ t, t = ‖hsInner D (M Y) (N Z)‖ := ⟨_, rfl⟩
    obtain ⟨a, ha⟩ : ∃ a, a = √(hsNormSq D (M Y)) := ⟨_, rfl⟩
    obtain ⟨b, hb⟩ : ∃ b, b = √(hsNormSq D (N Z)) := ⟨_, rfl⟩
    have ha2 : hsNormSq D (M Y) = a ^ 2 := by rw [ha, Real.sq_sqrt hM0.le]
    have hb2 : hsNormSq D (N Z) = b ^ 2 := by rw [hb, Real.sq_sqrt hN0.le]
    have ha0 : 0 < a := by rw [ha]; exact Real.sqrt_pos.2 hM0
    have hb0 : 0 < b := by rw [hb]; exact Real.sqrt_pos.2 hN0
    have ht0 : 0 ≤ t := by rw [ht]; exact norm_nonneg _
    rw [← ht, ha2, hb2] at hc hcs ⊢
    have hsq : √(a ^ 2 / b ^ 2) = a / b := by
      rw [← div_pow]; exact Real.sqrt_sq (div_pos ha0 hb0).le
    rw [hsq]
    obtain ⟨u, hu⟩ : ∃ u, u = t / (a * b) := ⟨_, rfl⟩
    have hab := mul_pos ha0 hb0
    have htu : t = u * (a * b) := by rw [hu, div_mul_cancel₀ _ hab.ne']
    have hu0 : 0 ≤ u := by rw [hu]; exact div_nonneg ht0 hab.le
    have hu1 : u ≤ 1 := by
      have h1 : t ≤ a * b := (sq_le_sq₀ ht0 hab.le).1 (by rw [mul_pow]; exact hcs)
      rw [hu]
      exact (div_le_one hab).2 h1
    have e1 : t ^ 2 / (a ^ 2 * b ^ 2) = u ^ 2 := by rw [hu, div_pow, mul_pow]
    rw [e1] at hc
    have h3 : 1 - u ≤ eps := by
      have := abs_le.1 hc
      nlinarith
    have e2 : a ^ 2 - 2 * (a / b) * t + a ^ 2 = 2 * a ^ 2 * (1 - u) := by
      rw [htu]; field_simp; ring
    rw [e2]
    have : 0 ≤ a ^ 2 := by positivity
    nlinarith

/-- C56: the difference of the probabilities of matching outcomes. -/
theorem C56_match_probability (D : List ℕ) (M N ρ : List ℕ → List ℕ → ℂ) (c δ : ℝ)
    (h : hsNormSq D (fun I J => M I J - c * N I J) ≤ δ) :
    ‖bornRule D M ρ - c * bornRule D N ρ‖ ^ 2 ≤ δ * hsNormSq D ρ := by
  have e : bornRule D M ρ - c * bornRule D N ρ
      = hsInner D (fun I J => star (ρ J I)) (fun I J => M I J - c * N I J) := by
    unfold bornRule hsInner
    simp only [sumIdx_eq_sum]
    rw [Finset.mul_sum, ← Finset.sum_sub_distrib]
    refine Finset.sum_congr rfl fun I _ => ?_
    rw [Finset.mul_sum, ← Finset.sum_sub_distrib]
    refine Finset.sum_congr rfl fun J _ => ?_
    rw [star_star]; ring
  have e2 : hsNormSq D (fun I J => star (ρ J I)) = hsNormSq D ρ := by
    unfold hsNormSq
    rw [sumIdx_comm]
    simp
  rw [e]
  refine (hs_cauchy _ _ _).trans ?_
  rw [e2, mul_comm]
  exact mul_le_mul_of_nonneg_right h (hsNormSq_nonneg _ _)

/-- C56: proportional elements are always found, with the right prefactor. -/
theorem C56_match_found (O K D : List ℕ) (M N : List ℕ → List ℕ → List ℕ → ℂ) (eps : ℝ) (heps : 0 ≤ eps)
    (m : NDArray Bool) (f : NDArray (Option ℝ)) (h : Matches O K D M N eps m f)
    (Y Z : List ℕ) (hY : InB Y O) (hZ : InB Z K) (hN0 : 0 < hsNormSq D (N Z)) (c : ℝ) (hc : 0 < c)
    (hp : ∀ I J, InB I D → InB J D → M Y I J = c * N Z I J) :
    m.get (squeezeIdx O Y ++ squeezeIdx K Z) = true ∧ f.get (squeezeIdx O Y ++ squeezeIdx K Z) = some c := by
  have hv : hsVec D (M Y) = (c : ℂ) • hsVec D (N Z) := by
    ext p; simp [hsVec, hp p.1 p.2 p.1.2 p.2.2]
  have e1 : hsNormSq D (M Y) = c ^ 2 * hsNormSq D (N Z) := by
    rw [hsNormSq_eq, hv, hsNormSq_eq, norm_smul]; simp [mul_pow]
  have e2 : ‖hsInner D (M Y) (N Z)‖ ^ 2 = c ^ 2 * hsNormSq D (N Z) ^ 2 := by
    rw [hsInner_eq, hv, inner_smul_left, norm_mul, inner_self_eq_norm_sq_to_K, hsNormSq_eq]
    simp [mul_pow]
  have hm : m.get (squeezeIdx O Y ++ squeezeIdx K Z) = true := by
    rw [h.cos Y Z hY hZ, e1, e2]
    rw [show c ^ 2 * hsNormSq D (N Z) * hsNormSq D (N Z) = c ^ 2 * hsNormSq D (N Z) ^ 2 by ring,
      div_self (by positivity)]
    simpa using heps
  refine ⟨hm, ?_⟩
  rw [h.factor Y Z hY hZ, hm, e1, mul_div_assoc, div_self hN0.ne', mul_one, Real.sqrt_sq hc.le]
  rfl

/-- C56: without tolerance the matching pairs of positive elements are exactly the proportional ones, and the
prefactor is the factor between them. -/
theorem C56_match_exact (O K D : List ℕ) (M N : List ℕ → List ℕ → List ℕ → ℂ)
    (m : NDArray Bool) (f : NDArray (Option ℝ)) (h : Matches O K D M N 0 m f)
    (Y Z : List ℕ) (hY : InB Y O) (hZ : InB Z K) (hM : Psd D (M Y)) (hN : Psd D (N Z))
    (hM0 : 0 < hsNormSq D (M Y)) (hN0 : 0 < hsNormSq D (N Z)) (c : ℝ) :
    f.get (squeezeIdx O Y ++ squeezeIdx K Z) = some c ↔
      0 < c ∧ ∀ I J, InB I D → InB J D → M Y I J = c * N Z I J := by
  constructor
  · intro hf
    have hm : m.get (squeezeIdx O Y ++ squeezeIdx K Z) = true := by
      by_contra h0
      rw [h.factor Y Z hY hZ, if_neg h0] at hf
      cases hf
    obtain ⟨c', hc0, hc, hd⟩ := C56_match_close O K D M N 0 m f h Y Z hY hZ hM hN hM0 hN0 hm
    rw [hf] at hc
    obtain rfl : c = c' := by simpa using hc
    refine ⟨hc0, fun I J hI hJ => ?_⟩
    have h0 : hsNormSq D (fun I J => M Y I J - c * N Z I J) = 0 :=
      le_antisymm (by simpa using hd) (hsNormSq_nonneg _ _)
    rw [hsNormSq_eq] at h0
    have h1 : hsVec D (fun I J => M Y I J - c * N Z I J) = 0 := by
      simpa using h0
    have h2 := congrFun (congrArg WithLp.ofLp h1) (⟨I, hI⟩, ⟨J, hJ⟩)
    exact sub_eq_zero.1 h2
  · rintro ⟨hc, hp⟩
    exact (C56_match_found O K D M N 0 le_rfl m f h Y Z hY hZ hN0 c hc hp).2

end


/-! ### an example -/

theorem exPovm_coarse {Z : List ℕ} (hZ : InB Z (keptDims [2, 1] [2, 1])) (I J : List ℕ) :
    exPovm.coarseElem [2, 1] [2, 1] Z I J = exPovm.elem Z I J := by
  obtain ⟨z, z', rfl, h1, h2⟩ := inB_pair (show InB Z [2, 1] from hZ)
  obtain rfl : z' = 0 := by omega
  unfold MPA.coarseElem
  have : ∀ W, InB W [2, 1] → (if squeezeIdx [2, 1] W = squeezeIdx [2, 1] [z, 0] then exPovm.elem W I J else 0)
      = if [z, 0] = W then exPovm.elem W I J else 0 := by
    intro W hW
    obtain ⟨w, w', rfl, h3, h4⟩ := inB_pair hW
    obtain rfl : w' = 0 := by omega
    simp [squeezeIdx, eq_comm]
  rw [sumIdx_congr this, sumIdx_delta (by simpa using h1)]

theorem exPovm_normSq {Y : List ℕ} (hY : InB Y [2, 1]) : hsNormSq [2, 1] (exPovm.elem Y) = 1 := by
  obtain ⟨y, y', rfl, h1, h2⟩ := inB_pair hY
  simp only [hsNormSq, sumIdx_cons, sumIdx_nil, Finset.sum_range_succ, Finset.sum_range_zero, exPovm_elem]
  interval_cases y <;> simp

/-- Non-vacuity of C56: every element of the computational basis measurement matches itself and nothing else;
the checks for duplicates succeed. -/
example : ∃ m f, matchElems exPovm exPovm ["self", "other"] 0 = .ok (m, f) ∧ m.shape = [2, 2] ∧
    f.get [0, 0] = some 1 ∧ f.get [1, 1] = some 1 ∧ m.get [0, 1] = false ∧ m.get [1, 0] = false := by
  have hp : ∀ o ∈ [2, 1], 0 < o := by simp
  obtain ⟨m, f, h, h1, -⟩ := C56_match_elems exPovm exPovm [2, 1] [2, 1] [2, 1] exPovm_isMpPovm exPovm_isMpPovm
    hp hp (by decide) (fun Y hY => by rw [exPovm_normSq hY]; norm_num)
    (fun Z hZ => by
      have : hsNormSq [2, 1] (exPovm.coarseElem [2, 1] [2, 1] Z) = hsNormSq [2, 1] (exPovm.elem Z) := by
        unfold hsNormSq; simp only [exPovm_coarse hZ]
      rw [this, exPovm_normSq hZ]; norm_num) ["self", "other"] (by simp) 0 le_rfl
  have hc : ∀ Z, InB Z (keptDims [2, 1] [2, 1]) → exPovm.coarseElem [2, 1] [2, 1] Z = exPovm.elem Z :=
    fun Z hZ => by funext I J; exact exPovm_coarse hZ I J
  have hcos : ∀ y z, y < 2 → z < 2 → (m.get [y, z] = true ↔ y = z) := by
    intro y z hy hz
    have hY : InB [y, 0] [2, 1] := by simpa using hy
    have hZ : InB [z, 0] (keptDims [2, 1] [2, 1]) := show InB [z, 0] [2, 1] by simpa using hz
    have := h.cos [y, 0] [z, 0] hY hZ
    refine Iff.trans this ?_
    rw [hc _ hZ, exPovm_normSq hY, exPovm_normSq (show InB [z, 0] [2, 1] from hZ)]
    have e : hsInner [2, 1] (exPovm.elem [y, 0]) (exPovm.elem [z, 0]) = if y = z then 1 else 0 := by
      simp only [hsInner, sumIdx_cons, sumIdx_nil, Finset.sum_range_succ, Finset.sum_range_zero, exPovm_elem]
      interval_cases y <;> interval_cases z <;> simp
    rw [e]
    by_cases hyz : y = z <;> simp [hyz]
  have hf : ∀ y, y < 2 → f.get [y, y] = some 1 := by
    intro y hy
    have hY : InB [y, 0] [2, 1] := by simpa using hy
    have := h.factor [y, 0] [y, 0] hY hY
    rw [hc _ hY, exPovm_normSq hY, show squeezeIdx [2, 1] [y, 0] ++ squeezeIdx (keptDims [2, 1] [2, 1]) [y, 0] = [y, y] from rfl,
      (hcos y y hy hy).2 rfl] at this
    simpa using this
  refine ⟨m, f, h1 ⟨?_, ?_⟩, h.mshape, hf 0 (by omega), hf 1 (by omega), ?_, ?_⟩
  · intro _ Y Y' Z hY hY' hZ g g'
    obtain ⟨y, a, rfl, h1, h2⟩ := inB_pair hY
    obtain ⟨y', a', rfl, h1', h2'⟩ := inB_pair hY'
    obtain ⟨z, b, rfl, h3, h4⟩ := inB_pair (show InB Z [2, 1] from hZ)
    have e1 := (hcos y z h1 h3).1 g
    have e2 := (hcos y' z h1' h3).1 g'
    obtain rfl : a = 0 := by omega
    obtain rfl : a' = 0 := by omega
    rw [e1, e2]
  · intro _ Y Z Z' hY hZ hZ' g g'
    obtain ⟨y, a, rfl, h1, h2⟩ := inB_pair hY
    obtain ⟨z, b, rfl, h3, h4⟩ := inB_pair (show InB Z [2, 1] from hZ)
    obtain ⟨z', b', rfl, h3', h4'⟩ := inB_pair (show InB Z' [2, 1] from hZ')
    have e1 := (hcos y z h1 h3).1 g
    have e2 := (hcos y z' h1 h3').1 g'
    obtain rfl : b = 0 := by omega
    obtain rfl : b' = 0 := by omega
    rw [← e1, ← e2]
  · have := hcos 0 1 (by omega) (by omega)
    simpa using this
  · have := hcos 1 0 (by omega) (by omega)
    simpa using this

end Mpnum
