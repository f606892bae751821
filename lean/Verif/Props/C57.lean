import Verif.Povm.EstSamples
import Verif.Props.C47

/-! # C57: estimates of probabilities from samples of another POVM -/

open Finset Classical

namespace Mpnum

/-- Specification: the element `M` is reported as a multiple of the element `N` (tolerance `1e-10`). -/
def ElemMatch (D : List ℕ) (M N : List ℕ → List ℕ → ℂ) : Prop :=
  |‖hsInner D M N‖ ^ 2 / (hsNormSq D M * hsNormSq D N) - 1| ≤ 1e-10

/-- Specification: the factor between two matching elements; zero if they do not match. -/
noncomputable def elemFactor (D : List ℕ) (M N : List ℕ → List ℕ → ℂ) : ℝ :=
  if ElemMatch D M N then √(hsNormSq D M / hsNormSq D N) else 0

/-- Specification: the samples of `y` give information on the outcome `Y` of `x`. -/
def IsGiven (x y : MPA ℂ) (O O' D Y : List ℕ) : Prop :=
  ∃ Z, InB Z (keptDims O O') ∧ ElemMatch D (x.elem Y) (y.coarseElem O O' Z)

/-- Specification: the estimate of the probability of `Y` from the samples `W 0, ..., W (n-1)`: the average of the
factors for the outcomes that were observed. -/
noncomputable def estimate (x y : MPA ℂ) (O O' D : List ℕ) (n : ℕ) (W : ℕ → List ℕ) (Y : List ℕ) : ℝ :=
  (∑ k ∈ range n, elemFactor D (x.elem Y) (y.coarseElem O O' (keepOut O (W k)))) / n

/-- Specification: the matrix `S` is, up to the tolerance, `c` times the identity; `c` is one if no element is
missing in the sum and at most one otherwise. -/
structure IdentityFraction (D : List ℕ) (S : List ℕ → List ℕ → ℂ) (missing : Prop) (eps c : ℝ) : Prop where
  nonzero : hsNormSq D S ≠ 0
  parallel : (1 - eps) * √(hsNormSq D S * D.prod) ≤ ‖matTrace D S‖
  value : c = √(hsNormSq D S / D.prod)
  some_missing : missing → c < 1 + eps
  none_missing : ¬ missing → |c - 1| ≤ eps

/-- Arguments of `est_pmf_from`: MP-POVMs on the same sites without elements that are zero. -/
structure EstArgs (x y : MPA ℂ) (O O' D : List ℕ) : Prop where
  self : IsMpPovm x O D
  other : IsMpPovm y O' D
  posO : ∀ o ∈ O, 0 < o
  posO' : ∀ o ∈ O', 0 < o
  posD : ∀ d ∈ D, 0 < d
  ranks : ∀ r ∈ x.ranks, 0 < r
  ne : nsDims O ≠ []
  elems : ∀ Y, InB Y O → 0 < hsNormSq D (x.elem Y)
  elems' : ∀ Z, InB Z (keptDims O O') → 0 < hsNormSq D (y.coarseElem O O' Z)

theorem EstArgs.lenO {x y : MPA ℂ} {O O' D : List ℕ} (h : EstArgs x y O O' D) : O.length = O'.length :=
  h.self.len.trans h.other.len.symm

theorem fractionOf_iff {D : List ℕ} {S : List ℕ → List ℕ → ℂ} {missing : Prop} {eps : ℝ} :
    (∀ c, IdentityFraction D S missing eps c →
      fractionOf missing √(hsNormSq D S) √(D.prod : ℝ) ‖matTrace D S‖ eps = .ok (some c)) ∧
    ((∀ c, ¬ IdentityFraction D S missing eps c) →
      fractionOf missing √(hsNormSq D S) √(D.prod : ℝ) ‖matTrace D S‖ eps = .ok none ∨
      fractionOf missing √(hsNormSq D S) √(D.prod : ℝ) ‖matTrace D S‖ eps = .error .assertion) := by
  have hd : √(hsNormSq D S) / √(D.prod : ℝ) = √(hsNormSq D S / D.prod) := (Real.sqrt_div (hsNormSq_nonneg _ _) _).symm
  have hm : √(hsNormSq D S) * √(D.prod : ℝ) = √(hsNormSq D S * D.prod) := (Real.sqrt_mul (hsNormSq_nonneg _ _) _).symm
  have h0 : √(hsNormSq D S) = 0 ↔ hsNormSq D S = 0 := by
    rw [Real.sqrt_eq_zero (hsNormSq_nonneg _ _)]
  unfold fractionOf
  rw [hd, hm]
  constructor
  · intro c h
    rw [if_neg (fun h' => h.nonzero (h0.1 h')), if_neg (not_lt.2 h.parallel), ← h.value, if_pos]
    by_cases hmi : missing
    · exact Or.inl ⟨hmi, h.some_missing hmi⟩
    · exact Or.inr ⟨hmi, h.none_missing hmi⟩
  · intro h
    split_ifs with h1 h2 h3
    · exact Or.inr rfl
    · exact Or.inl rfl
    · refine absurd ⟨fun h' => h1 (h0.2 h'), not_lt.1 h2, rfl, fun hmi => ?_, fun hmi => ?_⟩ (h √(hsNormSq D S / D.prod))
      · rcases h3 with h3 | h3
        · exact h3.2
        · exact absurd hmi h3.1
      · rcases h3 with h3 | h3
        · exact absurd h3.1 hmi
        · exact h3.2
    · exact Or.inr rfl

/-- Number of samples reported as used: the samples whose outcome matches an element.  If the two POVMs have no
site in common where both have several outcomes, one is reported. -/
noncomputable def usedSamples (x y : MPA ℂ) (O O' D : List ℕ) (n : ℕ) (W : ℕ → List ℕ) : ℕ :=
  if nsDims (keptDims O O') = [] then 1
  else ((range n).filter fun k => ∃ Y, InB Y O ∧
    ElemMatch D (x.elem Y) (y.coarseElem O O' (keepOut O (W k)))).card

/-- C57: `est_pmf_from(other, samples, eps)`.  It is rejected if the elements of `self` on which there is
information do not sum to a multiple of the identity, and if the estimates do not sum to the corresponding
fraction. -/
theorem C57_est_pmf_from {qr : QR ℂ} (hqr : QRSpec qr) (x y : MPA ℂ) (O O' D : List ℕ) (ha : EstArgs x y O O' D)
    (n : ℕ) (s : NDArray ℤ) (W : ℕ → List ℕ) (hs : SamplesAre O' n s W) (eps : ℝ) (heps : 0 ≤ eps) :
    ((∀ Y, InB Y O → ¬ IsGiven x y O O' D Y) → ∃ e, estPmfFrom qr x y s eps = .ok (e, 0) ∧ e.shape = nsDims O ∧
      ∀ Y, InB Y O → e.get (squeezeIdx O Y) = none) ∧
    ((∃ Y, InB Y O ∧ IsGiven x y O O' D Y) → ∀ c,
      IdentityFraction D (givenSum x O (IsGiven x y O O' D)) (∃ Y, InB Y O ∧ ¬ IsGiven x y O O' D Y) eps c →
      0 < n → |(sumIdx O fun Y => estimate x y O O' D n W Y) - c| ≤ eps →
      ∃ e, estPmfFrom qr x y s eps = .ok (e, usedSamples x y O O' D n W) ∧ e.shape = nsDims O ∧
        ∀ Y, InB Y O → e.get (squeezeIdx O Y)
          = if IsGiven x y O O' D Y then some (estimate x y O O' D n W Y) else none) ∧
    ((∃ Y, InB Y O ∧ IsGiven x y O O' D Y) →
      (∀ c, IdentityFraction D (givenSum x O (IsGiven x y O O' D)) (∃ Y, InB Y O ∧ ¬ IsGiven x y O O' D Y) eps c →
        n = 0 ∨ eps < |(sumIdx O fun Y => estimate x y O O' D n W Y) - c|) →
      estPmfFrom qr x y s eps = .error .assertion) := by
  obtain ⟨m, f, h1, h2, -⟩ := C56_match_elems x y O O' D ha.self ha.other ha.posO ha.posO' ha.ne ha.elems ha.elems'
    [] (by simp) 1e-10 (by norm_num)
  have h3 := h2 (by simp [NoDuplicates])
  obtain ⟨K, hK⟩ : ∃ K, K = keptDims O O' := ⟨_, rfl⟩
  have hKpos : ∀ o ∈ K, 0 < o := by rw [hK]; exact keptDims_pos ha.posO'
  have hlen : x.len = y.len := by
    rw [show x.len = D.length from ha.self.lenx, show y.len = D.length from ha.other.lenx]
  have hm : ∀ Y Z, InB Y O → InB Z K → (m.get (squeezeIdx O Y ++ squeezeIdx K Z) = true ↔
      ElemMatch D (x.elem Y) (y.coarseElem O O' Z)) := by
    intro Y Z hY hZ
    subst hK
    exact h1.cos Y Z hY hZ
  have hf : ∀ Y Z, InB Y O → InB Z K → (f.get (squeezeIdx O Y ++ squeezeIdx K Z)).getD 0
      = elemFactor D (x.elem Y) (y.coarseElem O O' Z) := by
    intro Y Z hY hZ
    have h4 := hm Y Z hY hZ
    subst hK
    rw [h1.factor Y Z hY hZ]
    unfold elemFactor
    by_cases h : ElemMatch D (x.elem Y) (y.coarseElem O O' Z)
    · rw [if_pos h, if_pos (h4.2 h)]; rfl
    · rw [if_neg h, if_neg fun h' => h (h4.1 h')]; rfl
  obtain ⟨given, hgiven⟩ : ∃ given : NDArray Bool, given = ⟨nsDims O, fun i =>
      decide (∃ j, InB j (nsDims K) ∧ m.get (i ++ j) = true)⟩ := ⟨_, rfl⟩
  have hg : ∀ Y, InB Y O → (given.get (squeezeIdx O Y) = true ↔ IsGiven x y O O' D Y) := by
    intro Y hY
    rw [hgiven]
    simp only [decide_eq_true_eq]
    unfold IsGiven
    rw [← hK]
    constructor
    · rintro ⟨j, hj, h⟩
      obtain ⟨Z, hZ, rfl⟩ := exists_squeeze hKpos hj
      exact ⟨Z, hZ, (hm Y Z hY hZ).1 h⟩
    · rintro ⟨Z, hZ, h⟩
      exact ⟨_, squeeze_inB hZ, (hm Y Z hY hZ).2 h⟩
  have hany : (∃ i, InB i (nsDims O) ∧ given.get i = true) ↔ ∃ Y, InB Y O ∧ IsGiven x y O O' D Y := by
    constructor
    · rintro ⟨i, hi, h⟩
      obtain ⟨Y, hY, rfl⟩ := exists_squeeze ha.posO hi
      exact ⟨Y, hY, (hg Y hY).1 h⟩
    · rintro ⟨Y, hY, h⟩
      exact ⟨_, squeeze_inB hY, (hg Y hY).2 h⟩
  have hcols : s.shape.getD 1 0 = (nsDims O').length := by rw [hs.shape]; rfl
  have hrows : s.shape.getD 0 0 = n := by rw [hs.shape]; rfl
  have hshape : m.shape = nsDims O ++ nsDims K := by rw [hK]; exact h1.mshape
  have hout : ((otherSupport O O').map fun p => (nsDims O').getD p 0).filter (1 < ·) = nsDims K := by
    rw [hK]; exact otherOut_eq ha.lenO
  -- the sum of the given elements
  have hS : givenSum x O (fun Y => given.get (squeezeIdx O Y) = true) = givenSum x O (IsGiven x y O O' D) := by
    funext I J
    unfold givenSum
    exact sumIdx_congr fun Y hY => by simp only [hg Y hY]
  have hmiss : (∃ Y, InB Y O ∧ given.get (squeezeIdx O Y) = false) ↔ ∃ Y, InB Y O ∧ ¬ IsGiven x y O O' D Y := by
    constructor
    · rintro ⟨Y, hY, h⟩
      exact ⟨Y, hY, fun h' => by rw [(hg Y hY).2 h'] at h; cases h⟩
    · rintro ⟨Y, hY, h⟩
      exact ⟨Y, hY, by rw [← Bool.not_eq_true]; exact fun h' => h ((hg Y hY).1 h')⟩
  -- rows of samples
  have hrow : ∀ k, k < n → ((otherSupport O O').map fun p => s.get [k, p])
      = (squeezeIdx K (keepOut O (W k))).map fun z : ℕ => (z : ℤ) := by
    intro k hk; rw [hK]; exact otherSupport_row ha.lenO hs hk
  have hkeep : ∀ k, k < n → InB (keepOut O (W k)) K := by
    intro k hk; rw [hK]; exact keepOut_inB ha.lenO (hs.inB k hk)
  obtain ⟨est, hest⟩ : ∃ est : NDArray ℝ, est = ⟨nsDims O, fun i => ((argwhere m).map fun o =>
      if o.take (nsDims O).length = i then (f.get o).getD 0 * (((range n).filter fun k =>
        ((otherSupport O O').map fun p => s.get [k, p])
          = (o.drop (nsDims O).length).map fun z : ℕ => (z : ℤ)).card : ℕ) / n else 0).sum⟩ := ⟨_, rfl⟩
  have hestv : ∀ Y, InB Y O → est.get (squeezeIdx O Y) = estimate x y O O' D n W Y := by
    intro Y hY
    have hYs : InB (squeezeIdx O Y) (nsDims O) := squeeze_inB hY
    rw [hest]
    simp only
    rw [argwhere_sum m (nsDims O) (nsDims K) hshape hYs, sumIdx_squeeze hKpos]
    unfold estimate
    rw [Finset.sum_div]
    have hterm : ∀ Z, InB Z K → (if m.get (squeezeIdx O Y ++ squeezeIdx K Z) = true then
        (f.get (squeezeIdx O Y ++ squeezeIdx K Z)).getD 0 * (((range n).filter fun k =>
        ((otherSupport O O').map fun p => s.get [k, p])
          = ((squeezeIdx O Y ++ squeezeIdx K Z).drop (nsDims O).length).map fun z : ℕ => (z : ℤ)).card : ℕ) / n else 0)
        = ∑ k ∈ range n, if keepOut O (W k) = Z then elemFactor D (x.elem Y) (y.coarseElem O O' Z) / n else 0 := by
      intro Z hZ
      have hcount : ((range n).filter fun k => ((otherSupport O O').map fun p => s.get [k, p])
          = ((squeezeIdx O Y ++ squeezeIdx K Z).drop (nsDims O).length).map fun z : ℕ => (z : ℤ))
          = (range n).filter fun k => keepOut O (W k) = Z := by
        refine Finset.filter_congr fun k hk => ?_
        have hk' := Finset.mem_range.1 hk
        rw [hrow k hk', ← inB_length hYs, List.drop_left' rfl]
        constructor
        · intro h
          have := List.map_injective_iff.2 Nat.cast_injective h
          exact squeeze_inj (hkeep k hk') hZ this
        · rintro rfl; rfl
      rw [hcount, hf Y Z hY hZ, ← Finset.sum_filter, Finset.sum_const, nsmul_eq_mul]
      by_cases h : ElemMatch D (x.elem Y) (y.coarseElem O O' Z)
      · rw [if_pos ((hm Y Z hY hZ).2 h)]; ring
      · rw [if_neg fun h' => h ((hm Y Z hY hZ).1 h')]
        simp [elemFactor, h]
    rw [sumIdx_congr hterm, sumIdx_sum_comm]
    refine Finset.sum_congr rfl fun k hk => ?_
    exact sumIdx_delta (hkeep k (Finset.mem_range.1 hk))
      fun Z => elemFactor D (x.elem Y) (y.coarseElem O O' Z) / n
  have hestsum : sumIdx (nsDims O) est.get = sumIdx O fun Y => estimate x y O O' D n W Y := by
    rw [sumIdx_squeeze ha.posO]
    exact sumIdx_congr fun Y hY => hestv Y hY
  have hany2 : (∃ i, InB i (nsDims O) ∧ decide (∃ j, InB j (nsDims K) ∧ m.get (i ++ j) = true) = true) ↔
      ∃ Y, InB Y O ∧ IsGiven x y O O' D Y := by rw [← hany, hgiven]
  rw [hest] at hestsum hestv
  simp only at hestsum hestv
  -- run the program
  unfold estPmfFrom
  rw [pyAssert_true hlen, ok_bind]
  simp only []
  rw [ha.other.outdims, ha.self.outdims, hcols, hrows, pyAssert_true rfl, ok_bind, h3, ok_bind]
  simp only []
  rw [hout, pyAssert_true hshape, ok_bind, ← hgiven]
  by_cases hgv : ∃ Y, InB Y O ∧ IsGiven x y O O' D Y
  swap
  · rw [if_pos fun h => hgv (hany2.1 h)]
    refine ⟨fun _ => ⟨_, rfl, rfl, fun Y _ => rfl⟩, fun h => absurd h hgv, fun h => absurd h hgv⟩
  rw [if_neg fun h => h (hany2.2 hgv)]
  have hany' : ∃ Y, InB Y O ∧ given.get (squeezeIdx O Y) = true := by
    obtain ⟨Y, hY, h⟩ := hgv; exact ⟨Y, hY, (hg Y hY).2 h⟩
  have hE := elemsum_ok hqr ha.self ha.posD ha.ranks ha.ne (given := given) (by rw [hgiven]) ha.posO hany' heps
  rw [hS, propext hmiss] at hE
  rw [hE]
  obtain ⟨hfr1, hfr2⟩ := fractionOf_iff (D := D) (S := givenSum x O (IsGiven x y O O' D))
    (missing := ∃ Y, InB Y O ∧ ¬ IsGiven x y O O' D Y) (eps := eps)
  have hidx : ∀ k < n, ∀ q ∈ ((otherSupport O O').map fun p => s.get [k, p]).zip (nsDims K),
      -(q.2 : ℤ) ≤ q.1 ∧ q.1 < q.2 := by
    intro k hk q hq
    rw [hrow k hk] at hq
    have hin : InB (squeezeIdx K (keepOut O (W k))) (nsDims K) := squeeze_inB (hkeep k hk)
    rw [List.zip_map_left] at hq
    obtain ⟨⟨a, b⟩, h4, rfl⟩ := List.mem_map.1 hq
    have : a < b := List.forall₂_zip hin h4
    simp only [Prod.map_apply, id_eq]
    omega
  refine ⟨fun h => ?_, fun _ c hc hn hcl => ?_, fun _ hrej => ?_⟩
  · obtain ⟨Y, hY, h'⟩ := hgv
    exact absurd h' (h Y hY)
  · rw [hfr1 c hc, ok_bind]
    simp only []
    unfold pyGuard
    rw [if_pos hidx, ok_bind, hestsum, pyAssert_true ⟨hn.ne', hcl⟩, ok_bind]
    refine ⟨_, congrArg Except.ok (Prod.ext rfl ?_), rfl, fun Y hY => ?_⟩
    · simp only [otherSupport_nil ha.lenO]
      unfold usedSamples
      rw [← hK]
      by_cases hnil : nsDims K = []
      · rw [if_pos hnil, if_pos hnil, if_pos]
        obtain ⟨Y, hY, Z, hZ, h⟩ := hgv
        rw [← hK] at hZ
        refine ⟨_, squeeze_inB hY, ?_⟩
        have h7 : squeezeIdx K Z = [] := by
          have : InB (squeezeIdx K Z) (nsDims K) := squeeze_inB hZ
          rw [hnil] at this
          simpa using this
        rw [← h7]
        exact (hm Y Z hY hZ).2 h
      · rw [if_neg hnil, if_neg hnil]
        congr 1
        refine Finset.filter_congr fun k hk => ?_
        have hk' := Finset.mem_range.1 hk
        have hin : InB (squeezeIdx K (keepOut O (W k))) (nsDims K) := squeeze_inB (hkeep k hk')
        rw [hrow k hk', wrapIdx_row hin]
        constructor
        · rintro ⟨i, hi, h⟩
          obtain ⟨Y, hY, rfl⟩ := exists_squeeze ha.posO hi
          exact ⟨Y, hY, (hm Y _ hY (hkeep k hk')).1 h⟩
        · rintro ⟨Y, hY, h⟩
          exact ⟨_, squeeze_inB hY, (hm Y _ hY (hkeep k hk')).2 h⟩
    · have h8 := hg Y hY
      rw [hgiven] at h8
      simp only at h8 ⊢
      rw [hestv Y hY]
      by_cases h : IsGiven x y O O' D Y
      · rw [if_pos h, if_pos (h8.2 h)]
      · rw [if_neg h, if_neg fun h' => h (h8.1 h')]
  · by_cases hex : ∃ c, IdentityFraction D (givenSum x O (IsGiven x y O O' D))
        (∃ Y, InB Y O ∧ ¬ IsGiven x y O O' D Y) eps c
    · obtain ⟨c, hc⟩ := hex
      rw [hfr1 c hc, ok_bind]
      simp only []
      unfold pyGuard
      rw [if_pos hidx, ok_bind, hestsum, pyAssert_false]
      · rfl
      · rintro ⟨h5, h6⟩
        rcases hrej c hc with h | h
        · exact h5 h
        · exact absurd h6 (not_le.2 h)
    · rcases hfr2 fun c hc => hex ⟨c, hc⟩ with h | h
      · rw [h]; rfl
      · rw [h]; rfl

/-! ### When the given elements sum to a multiple of the identity -/

theorem hsInner_eye' (D : List ℕ) (S : List ℕ → List ℕ → ℂ) :
    ‖hsInner D S (fun I J => if I = J then 1 else 0)‖ = ‖matTrace D S‖ := by
  rw [hsInner_eye, norm_star]

open scoped ComplexOrder in
theorem psd_eye (D : List ℕ) : Psd D fun I J => if I = J then 1 else 0 := by
  unfold Psd
  have : (Matrix.of fun I J : {I // InB I D} => if (I : List ℕ) = J then (1 : ℂ) else 0) = 1 := by
    ext I J
    simp [Matrix.one_apply, Subtype.ext_iff]
  rw [this]
  exact Matrix.PosSemidef.one

theorem hsNormSq_scalar {D : List ℕ} {S : List ℕ → List ℕ → ℂ} {c : ℝ}
    (hS : ∀ I J, InB I D → InB J D → S I J = if I = J then (c : ℂ) else 0) : hsNormSq D S = c ^ 2 * D.prod := by
  rw [← hsNormSq_eye]
  unfold hsNormSq
  simp only [sumIdx_eq_sum, Finset.mul_sum]
  refine Finset.sum_congr rfl fun I hI => Finset.sum_congr rfl fun J hJ => ?_
  rw [hS I J (mem_idxSet.1 hI) (mem_idxSet.1 hJ)]
  split <;> simp

/-- C57: a sum of elements which is `c` times the identity is accepted with the value `c`, if `c ≤ 1` (some element
is missing) or `c = 1` (no element is missing). -/
theorem C57_fraction_exact (D : List ℕ) (hD : ∀ d ∈ D, 0 < d) (S : List ℕ → List ℕ → ℂ) (c : ℝ) (hc : 0 < c)
    (hS : ∀ I J, InB I D → InB J D → S I J = if I = J then (c : ℂ) else 0) (missing : Prop) (eps : ℝ) (heps : 0 < eps)
    (h1 : missing → c ≤ 1) (h2 : ¬ missing → c = 1) : IdentityFraction D S missing eps c := by
  have hd : (0 : ℝ) < D.prod := by exact_mod_cast List.prod_pos hD
  have hn : hsNormSq D S = c ^ 2 * D.prod := hsNormSq_scalar hS
  have ht : matTrace D S = c * D.prod := by
    unfold matTrace
    have e1 : (sumIdx D fun I => S I I) = sumIdx D fun _ => (c : ℂ) :=
      sumIdx_congr fun I hI => by rw [hS I I hI hI, if_pos rfl]
    rw [e1]
    clear e1 hn hS hd hD
    induction D with
    | nil => simp [sumIdx]
    | cons d D ih => rw [sumIdx_cons, ih]; simp; ring
  refine ⟨by rw [hn]; positivity, ?_, ?_, fun h => by have := h1 h; linarith, fun h => by rw [h2 h]; simpa using heps.le⟩
  · rw [hn, ht, show c ^ 2 * (D.prod : ℝ) * D.prod = (c * D.prod) ^ 2 by ring, Real.sqrt_sq (by positivity)]
    simp only [norm_mul, Complex.norm_real, Complex.norm_natCast, Real.norm_of_nonneg hc.le]
    have : 0 < c * D.prod := by positivity
    nlinarith
  · rw [hn, mul_div_assoc, div_self hd.ne', mul_one, Real.sqrt_sq hc.le]

/-- C57: conversely a positive matrix which is accepted with the value `c` is close to `c` times the identity. -/
theorem C57_fraction_close (D : List ℕ) (hD : ∀ d ∈ D, 0 < d) (S : List ℕ → List ℕ → ℂ) (hS : Psd D S) (missing : Prop)
    (eps c : ℝ) (h : IdentityFraction D S missing eps c) :
    0 < c ∧ hsNormSq D (fun I J => S I J - c * if I = J then 1 else 0) ≤ 2 * eps * hsNormSq D S := by
  have hd : (0 : ℝ) < D.prod := by exact_mod_cast List.prod_pos hD
  have hn : 0 < hsNormSq D S := lt_of_le_of_ne (hsNormSq_nonneg _ _) (Ne.symm h.nonzero)
  have hc : 0 < c := by rw [h.value]; exact Real.sqrt_pos.2 (div_pos hn hd)
  refine ⟨hc, ?_⟩
  rw [hs_dist hS (psd_eye D), hsInner_eye', hsNormSq_eye]
  have hc2 : c ^ 2 * D.prod = hsNormSq D S := by
    rw [h.value, Real.sq_sqrt (div_pos hn hd).le, div_mul_cancel₀ _ hd.ne']
  have hcs : c * √(hsNormSq D S * D.prod) = hsNormSq D S := by
    rw [← hc2, show c ^ 2 * (D.prod : ℝ) * D.prod = (c * D.prod) ^ 2 by ring, Real.sqrt_sq (by positivity)]
    ring
  have hp := mul_le_mul_of_nonneg_left h.parallel hc.le
  rw [show c * ((1 - eps) * √(hsNormSq D S * D.prod)) = (1 - eps) * (c * √(hsNormSq D S * D.prod)) by ring, hcs] at hp
  rw [hc2]
  nlinarith

/-! ### Expectation values -/

/-- Specification: the outcome on all sites for an outcome on the sites which have several outcomes. -/
def unsqueeze : List ℕ → List ℕ → List ℕ
  | d :: D, i => if 1 < d then i.headD 0 :: unsqueeze D i.tail else 0 :: unsqueeze D i
  | [], _ => []

theorem unsqueeze_ok {O : List ℕ} (hO : ∀ o ∈ O, 0 < o) : ∀ {z : List ℕ}, InB z (nsDims O) →
    InB (unsqueeze O z) O ∧ squeezeIdx O (unsqueeze O z) = z := by
  induction O with
  | nil => intro z hz; have : z = [] := by simpa [nsDims] using hz
           subst this; exact ⟨.nil, rfl⟩
  | cons d O ih =>
    intro z hz
    have hO' : ∀ o ∈ O, 0 < o := fun o ho => hO o (by simp [ho])
    have h0 := hO d (by simp)
    unfold unsqueeze
    by_cases hd : 1 < d
    · have : nsDims (d :: O) = d :: nsDims O := by simp [nsDims, hd]
      rw [this] at hz
      obtain ⟨i, z, rfl, h1, h2⟩ := inB_cons_split hz
      obtain ⟨h3, h4⟩ := ih hO' h2
      simp only [hd, if_true, List.headD_cons, List.tail_cons]
      exact ⟨inB_cons.2 ⟨h1, h3⟩, by simp [squeezeIdx, hd, h4]⟩
    · have : nsDims (d :: O) = nsDims O := by simp [nsDims, hd]
      rw [this] at hz
      obtain ⟨h3, h4⟩ := ih hO' hz
      simp only [hd, if_false]
      exact ⟨inB_cons.2 ⟨h0, h3⟩, by simp [squeezeIdx, hd, h4]⟩

/-- Specification: the outcomes (on all sites) in the array `samplesOf`. -/
def outcomesOf (O : List ℕ) (n : ℕ) (s : Fin n → Fin (nsDims O).prod) (k : ℕ) : List ℕ :=
  if h : k < n then unsqueeze O (unravelIdx (nsDims O) (s ⟨k, h⟩)) else []

theorem samplesAre_samplesOf {O : List ℕ} (hO : ∀ o ∈ O, 0 < o) (n : ℕ) (s : Fin n → Fin (nsDims O).prod) :
    SamplesAre O n (samplesOf (nsDims O) n s) (outcomesOf O n s) := by
  refine ⟨rfl, fun k hk => ?_, fun k hk j => ?_⟩
  · unfold outcomesOf
    rw [dif_pos hk]
    exact (unsqueeze_ok hO (unravelIdx_inB (s ⟨k, hk⟩).2)).1
  · by_cases hj : (nsDims O).length ≤ j
    · exact Or.inr hj
    · left
      unfold outcomesOf
      rw [dif_pos hk, (unsqueeze_ok hO (unravelIdx_inB (s ⟨k, hk⟩).2)).2]
      simp only [samplesOf, List.getD_cons_zero, List.getD_cons_succ, hk, dif_pos, outcomeRow]
      have hj' : j < (unravelIdx (nsDims O) (s ⟨k, hk⟩)).length := by simp; omega
      rw [List.getD_eq_getElem _ _ (by simpa using hj'), List.getD_eq_getElem _ _ hj', List.getElem_map]

theorem bornRule_sum (D : List ℕ) (S : Finset (List ℕ)) (M : List ℕ → List ℕ → List ℕ → ℂ) (ρ : List ℕ → List ℕ → ℂ) :
    bornRule D (fun I J => ∑ W ∈ S, M W I J) ρ = ∑ W ∈ S, bornRule D (M W) ρ := by
  unfold bornRule
  simp only [sumIdx_eq_sum, Finset.sum_mul]
  rw [Finset.sum_comm (s := S)]
  exact Finset.sum_congr rfl fun I _ => Finset.sum_comm

/-- The probability of a coarse outcome. -/
theorem born_coarse {y : MPA ℂ} {O O' D Z : List ℕ} (hl : O.length = O'.length) (hZ : InB Z (keptDims O O'))
    (ρ : List ℕ → List ℕ → ℂ) :
    bornRule D (y.coarseElem O O' Z) ρ
      = ∑ W ∈ idxSet O', if keepOut O W = Z then bornRule D (y.elem W) ρ else 0 := by
  have : y.coarseElem O O' Z = fun I J => ∑ W ∈ idxSet O',
      (fun W I J => if keepOut O W = Z then y.elem W I J else 0) W I J := by
    funext I J
    unfold MPA.coarseElem
    rw [sumIdx_eq_sum]
    refine Finset.sum_congr rfl fun W hW => ?_
    have := keepOut_iff hl (mem_idxSet.1 hW) hZ
    by_cases h : keepOut O W = Z
    · rw [if_pos (this.2 h)]; simp only [if_pos h]
    · rw [if_neg fun h' => h (this.1 h')]; simp only [if_neg h]
  rw [this, bornRule_sum]
  refine Finset.sum_congr rfl fun W _ => ?_
  by_cases h : keepOut O W = Z
  · simp only [if_pos h]
  · simp only [if_neg h]
    unfold bornRule
    simp [sumIdx_eq_sum]

/-- C57: the expectation value of the estimate, for independent samples of the other POVM. -/
theorem C57_expectation (x y : MPA ℂ) (O O' D : List ℕ) (ha : EstArgs x y O O' D) (ρ : List ℕ → List ℕ → ℂ)
    (P : List ℕ → ℝ) (hP : OutcomeDist O' D y.elem ρ P) (n : ℕ) (hn : 0 < n) (Y : List ℕ) :
    iidMean (nsDims O') P n (fun s => estimate x y O O' D n (outcomesOf O' n s) Y)
      = sumIdx (keptDims O O') fun Z => elemFactor D (x.elem Y) (y.coarseElem O O' Z)
          * (bornRule D (y.coarseElem O O' Z) ρ).re := by
  obtain ⟨F, hF⟩ : ∃ F : List ℕ → ℝ, F = fun Z => elemFactor D (x.elem Y) (y.coarseElem O O' Z) := ⟨_, rfl⟩
  have hn' : (n : ℝ) ≠ 0 := by exact_mod_cast hn.ne'
  have e1 : ∀ s : Fin n → Fin (nsDims O').prod, estimate x y O O' D n (outcomesOf O' n s) Y
      = (∑ k, F (keepOut O (unsqueeze O' (unravelIdx (nsDims O') (s k))))) / n := by
    intro s
    unfold estimate
    rw [hF]
    congr 1
    rw [← Fin.sum_univ_eq_sum_range (fun k => elemFactor D (x.elem Y) (y.coarseElem O O' (keepOut O (outcomesOf O' n s k))))]
    refine Finset.sum_congr rfl fun k _ => ?_
    simp only [outcomesOf, k.2, dif_pos]
  have e2 : ∑ m : Fin (nsDims O').prod, P (unravelIdx (nsDims O') m) = 1 := by
    rw [Fin.sum_univ_eq_sum_range (fun m => P (unravelIdx (nsDims O') m)), sum_unravel, hP.sum]
  have e3 : (sumIdx (nsDims O') fun z => F (keepOut O (unsqueeze O' z)) * P z)
      = ∑ W ∈ idxSet O', F (keepOut O W) * (bornRule D (y.elem W) ρ).re := by
    rw [sumIdx_squeeze ha.posO' fun z => F (keepOut O (unsqueeze O' z)) * P z, sumIdx_eq_sum]
    refine Finset.sum_congr rfl fun W hW => ?_
    have hW := mem_idxSet.1 hW
    rw [squeeze_inj (unsqueeze_ok ha.posO' (squeeze_inB hW)).1 hW (unsqueeze_ok ha.posO' (squeeze_inB hW)).2,
      ← hP.born W hW, Complex.ofReal_re]
  unfold iidMean
  simp only [e1]
  have e4 := iid_sum (n := n) (fun m : Fin (nsDims O').prod => P (unravelIdx (nsDims O') m)) e2
    fun m => F (keepOut O (unsqueeze O' (unravelIdx (nsDims O') m)))
  rw [Fin.sum_univ_eq_sum_range (fun m => F (keepOut O (unsqueeze O' (unravelIdx (nsDims O') m)))
    * P (unravelIdx (nsDims O') m)), sum_unravel (nsDims O') fun z => F (keepOut O (unsqueeze O' z)) * P z, e3] at e4
  simp only [mul_div_assoc']
  rw [← Finset.sum_div, e4, mul_div_cancel_left₀ _ hn', sumIdx_eq_sum]
  have e5 : ∀ Z ∈ idxSet (keptDims O O'), elemFactor D (x.elem Y) (y.coarseElem O O' Z)
        * (bornRule D (y.coarseElem O O' Z) ρ).re
      = ∑ W ∈ idxSet O', if keepOut O W = Z then F (keepOut O W) * (bornRule D (y.elem W) ρ).re else 0 := by
    intro Z hZ
    rw [born_coarse ha.lenO (mem_idxSet.1 hZ), Complex.re_sum, Finset.mul_sum]
    refine Finset.sum_congr rfl fun W _ => ?_
    by_cases h : keepOut O W = Z
    · rw [if_pos h, if_pos h, h, hF]
    · rw [if_neg h, if_neg h]; simp
  rw [Finset.sum_congr rfl e5, Finset.sum_comm]
  refine Finset.sum_congr rfl fun W hW => ?_
  rw [Finset.sum_ite_eq, if_pos (mem_idxSet.2 (keepOut_inB ha.lenO (mem_idxSet.1 hW)))]

/-- Specification: the number of elements of the other POVM which match the element `Y`. -/
noncomputable def matchCount (x y : MPA ℂ) (O O' D Y : List ℕ) : ℕ :=
  ((idxSet (keptDims O O')).filter fun Z => ElemMatch D (x.elem Y) (y.coarseElem O O' Z)).card

theorem match_iff_exists_factor {D : List ℕ} {M N : List ℕ → List ℕ → ℂ} (hM : 0 < hsNormSq D M) (hN : 0 < hsNormSq D N) :
    ElemMatch D M N ↔ 0 < elemFactor D M N := by
  unfold elemFactor
  split
  · rename_i h; simp [h, Real.sqrt_pos.2 (div_pos hM hN)]
  · rename_i h; simp [h]

/-- Two positive elements that match are proportional up to the tolerance. -/
theorem elem_close {D : List ℕ} {M N : List ℕ → List ℕ → ℂ} (hM : Psd D M) (hN : Psd D N) (hM0 : 0 < hsNormSq D M)
    (hN0 : 0 < hsNormSq D N) (h : ElemMatch D M N) :
    hsNormSq D (fun I J => M I J - elemFactor D M N * N I J) ≤ 2e-10 * hsNormSq D M := by
  have hm : Matches [] [] D (fun _ => M) (fun _ => N) 1e-10 ⟨[], fun _ => true⟩
      ⟨[], fun _ => some √(hsNormSq D M / hsNormSq D N)⟩ :=
    ⟨rfl, rfl, fun _ _ _ _ => by simpa [ElemMatch] using h, fun _ _ _ _ => by simp⟩
  obtain ⟨c, -, h1, h2⟩ := C56_match_close [] [] D (fun _ => M) (fun _ => N) 1e-10 _ _ hm [] [] .nil .nil hM hN hM0 hN0 rfl
  obtain rfl : √(hsNormSq D M / hsNormSq D N) = c := by simpa using h1
  unfold elemFactor
  rw [if_pos h]
  norm_num at h2 ⊢
  exact h2

/-- C57: the estimate is, on average, the probability of the outcome times the number of matching elements of the
other POVM, up to the tolerance of the comparison. -/
theorem C57_expectation_close (x y : MPA ℂ) (O O' D : List ℕ) (ha : EstArgs x y O O' D) (ρ : List ℕ → List ℕ → ℂ)
    (P : List ℕ → ℝ) (hP : OutcomeDist O' D y.elem ρ P) (n : ℕ) (hn : 0 < n) (Y : List ℕ) (hY : InB Y O)
    (hx : Psd D (x.elem Y)) (hy : ∀ Z, InB Z (keptDims O O') → Psd D (y.coarseElem O O' Z)) :
    |iidMean (nsDims O') P n (fun s => estimate x y O O' D n (outcomesOf O' n s) Y)
        - matchCount x y O O' D Y * (bornRule D (x.elem Y) ρ).re|
      ≤ matchCount x y O O' D Y * √(2e-10 * hsNormSq D (x.elem Y) * hsNormSq D ρ) := by
  rw [C57_expectation x y O O' D ha ρ P hP n hn Y, sumIdx_eq_sum]
  have e1 : ∑ Z ∈ idxSet (keptDims O O'), elemFactor D (x.elem Y) (y.coarseElem O O' Z)
        * (bornRule D (y.coarseElem O O' Z) ρ).re
      = ∑ Z ∈ (idxSet (keptDims O O')).filter fun Z => ElemMatch D (x.elem Y) (y.coarseElem O O' Z),
          elemFactor D (x.elem Y) (y.coarseElem O O' Z) * (bornRule D (y.coarseElem O O' Z) ρ).re := by
    rw [Finset.sum_filter]
    refine Finset.sum_congr rfl fun Z _ => ?_
    split
    · rfl
    · rename_i h; unfold elemFactor; rw [if_neg h, zero_mul]
  unfold matchCount
  rw [e1, ← nsmul_eq_mul, ← nsmul_eq_mul, ← Finset.sum_const, ← Finset.sum_const, ← Finset.sum_sub_distrib]
  refine (Finset.abs_sum_le_sum_abs _ _).trans (Finset.sum_le_sum fun Z hZ => ?_)
  obtain ⟨hZ, hm⟩ := Finset.mem_filter.1 hZ
  have hZ := mem_idxSet.1 hZ
  have h1 := C56_match_probability D (x.elem Y) (y.coarseElem O O' Z) ρ _ _
    (elem_close hx (hy Z hZ) (ha.elems Y hY) (ha.elems' Z hZ) hm)
  refine Real.abs_le_sqrt (le_trans ?_ h1)
  rw [← sq_abs, ← abs_neg]
  refine pow_le_pow_left₀ (abs_nonneg _) ?_ 2
  refine le_trans (le_of_eq ?_) (Complex.abs_re_le_norm _)
  congr 1
  simp

/-- The value that `est_pmf_from` returns for an outcome (zero if there is no value). -/
noncomputable def estValue (r : Py (NDArray (Option ℝ) × ℕ)) (z : List ℕ) : ℝ :=
  match r with
  | .ok e => (e.1.get z).getD 0
  | .error _ => 0

theorem born_given (x : MPA ℂ) (O D : List ℕ) (g : List ℕ → Prop) (ρ : List ℕ → List ℕ → ℂ) :
    bornRule D (givenSum x O g) ρ = ∑ Y ∈ idxSet O, if g Y then bornRule D (x.elem Y) ρ else 0 := by
  have : givenSum x O g = fun I J => ∑ Y ∈ idxSet O, (fun Y I J => if g Y then x.elem Y I J else 0) Y I J := by
    funext I J
    unfold givenSum
    rw [sumIdx_eq_sum]
  rw [this, bornRule_sum]
  refine Finset.sum_congr rfl fun Y _ => ?_
  by_cases h : g Y
  · simp only [if_pos h]
  · simp only [if_neg h]
    unfold bornRule
    simp [sumIdx_eq_sum]

theorem iidMean_mono {dims : List ℕ} {P : List ℕ → ℝ} (hP : ∀ z, InB z dims → 0 ≤ P z) {n : ℕ}
    {f g : (Fin n → Fin dims.prod) → ℝ} (h : ∀ s, f s ≤ g s) : iidMean dims P n f ≤ iidMean dims P n g :=
  Finset.sum_le_sum fun s _ => mul_le_mul_of_nonneg_left (h s)
    (Finset.prod_nonneg fun k _ => hP _ (unravelIdx_inB (s k).2))

theorem iidMean_const {dims : List ℕ} {P : List ℕ → ℝ} (hP : sumIdx dims P = 1) (n : ℕ) (c : ℝ) :
    iidMean dims P n (fun _ => c) = c := by
  unfold iidMean
  rw [← Finset.sum_mul]
  have := Finset.prod_univ_sum (fun _ : Fin n => (univ : Finset (Fin dims.prod)))
    (fun _ m => P (unravelIdx dims m))
  rw [Fintype.piFinset_univ] at this
  rw [← this, Fin.sum_univ_eq_sum_range (fun m => P (unravelIdx dims m)), sum_unravel, hP]
  simp

/-- C57: if the samples are never rejected, the estimates are unbiased up to `eps`.  Here the elements that match are
proportional and the elements on which there is information sum to a multiple of the identity. -/
theorem C57_unbiased {qr : QR ℂ} (hqr : QRSpec qr) (x y : MPA ℂ) (O O' D : List ℕ) (ha : EstArgs x y O O' D)
    (hx : ∀ Y, InB Y O → Psd D (x.elem Y))
    (hprop : ∀ Y Z, InB Y O → InB Z (keptDims O O') → ElemMatch D (x.elem Y) (y.coarseElem O O' Z) →
      ∃ a : ℝ, 0 < a ∧ ∀ I J, InB I D → InB J D → x.elem Y I J = a * y.coarseElem O O' Z I J)
    (c : ℝ) (hc : 0 < c) (hsum : ∀ I J, InB I D → InB J D →
      givenSum x O (IsGiven x y O O' D) I J = if I = J then (c : ℂ) else 0)
    (ρ : List ℕ → List ℕ → ℂ) (hρ : IsState D ρ) (P : List ℕ → ℝ) (hP : OutcomeDist O' D y.elem ρ P)
    (n : ℕ) (hn : 0 < n) (eps : ℝ) (heps : 0 ≤ eps)
    (hacc : ∀ s, ∃ r, estPmfFrom qr x y (samplesOf (nsDims O') n s) eps = .ok r)
    (Y : List ℕ) (hY : InB Y O) (hg : IsGiven x y O O' D Y) :
    (bornRule D (x.elem Y) ρ).re
        ≤ iidMean (nsDims O') P n (fun s => estValue (estPmfFrom qr x y (samplesOf (nsDims O') n s) eps) (squeezeIdx O Y)) ∧
    iidMean (nsDims O') P n (fun s => estValue (estPmfFrom qr x y (samplesOf (nsDims O') n s) eps) (squeezeIdx O Y))
        ≤ (bornRule D (x.elem Y) ρ).re + eps := by
  have hsome : ∃ Y, InB Y O ∧ IsGiven x y O O' D Y := ⟨Y, hY, hg⟩
  have key : ∀ s : Fin n → Fin (nsDims O').prod,
      |(sumIdx O fun Y => estimate x y O O' D n (outcomesOf O' n s) Y) - c| ≤ eps ∧
      estValue (estPmfFrom qr x y (samplesOf (nsDims O') n s) eps) (squeezeIdx O Y)
        = estimate x y O O' D n (outcomesOf O' n s) Y := by
    intro s
    obtain ⟨-, h2, h3⟩ := C57_est_pmf_from hqr x y O O' D ha n _ _ (samplesAre_samplesOf ha.posO' n s) eps heps
    obtain ⟨r, hr⟩ := hacc s
    by_cases h : ∀ c, IdentityFraction D (givenSum x O (IsGiven x y O O' D)) (∃ Y, InB Y O ∧ ¬ IsGiven x y O O' D Y) eps c →
        n = 0 ∨ eps < |(sumIdx O fun Y => estimate x y O O' D n (outcomesOf O' n s) Y) - c|
    · rw [h3 hsome h] at hr; cases hr
    · push Not at h
      obtain ⟨c', hf, -, hle⟩ := h
      obtain ⟨e, he, -, hv⟩ := h2 hsome c' hf hn hle
      have hcc : c' = c := by
        have hd : (0 : ℝ) < D.prod := by exact_mod_cast List.prod_pos ha.posD
        rw [hf.value, hsNormSq_scalar hsum, mul_div_assoc, div_self hd.ne', mul_one, Real.sqrt_sq hc.le]
      rw [he, ← hcc]
      refine ⟨hle, ?_⟩
      show (e.get (squeezeIdx O Y)).getD 0 = _
      rw [hv Y hY, if_pos hg]
      rfl
  have hp : ∀ Y, InB Y O → 0 ≤ (bornRule D (x.elem Y) ρ).re := fun Y hY => by
    have := C42_nonneg D _ _ (hx Y hY) hρ.psd
    exact (Complex.le_def.1 this).1
  obtain ⟨E, hE⟩ : ∃ E : List ℕ → ℝ, E = fun Y =>
      iidMean (nsDims O') P n (fun s => estimate x y O O' D n (outcomesOf O' n s) Y) := ⟨_, rfl⟩
  have hEk : ∀ Y, InB Y O → E Y = matchCount x y O O' D Y * (bornRule D (x.elem Y) ρ).re := by
    intro Y hY
    rw [hE]
    simp only
    rw [C57_expectation x y O O' D ha ρ P hP n hn Y, sumIdx_eq_sum]
    unfold matchCount
    rw [← nsmul_eq_mul, ← Finset.sum_const, Finset.sum_filter]
    refine Finset.sum_congr rfl fun Z hZ => ?_
    have hZ := mem_idxSet.1 hZ
    unfold elemFactor
    by_cases hm : ElemMatch D (x.elem Y) (y.coarseElem O O' Z)
    · rw [if_pos hm, if_pos hm]
      obtain ⟨a, ha0, hprop⟩ := hprop Y Z hY hZ hm
      have e1 : hsNormSq D (x.elem Y) = a ^ 2 * hsNormSq D (y.coarseElem O O' Z) := by
        unfold hsNormSq
        simp only [sumIdx_eq_sum, Finset.mul_sum]
        refine Finset.sum_congr rfl fun I hI => Finset.sum_congr rfl fun J hJ => ?_
        rw [hprop I J (mem_idxSet.1 hI) (mem_idxSet.1 hJ), norm_mul, mul_pow, Complex.norm_real, Real.norm_of_nonneg ha0.le]
      rw [e1, mul_div_assoc, div_self (ha.elems' Z hZ).ne', mul_one, Real.sqrt_sq ha0.le, ← Complex.re_ofReal_mul]
      congr 1
      unfold bornRule
      simp only [sumIdx_eq_sum, Finset.mul_sum]
      refine Finset.sum_congr rfl fun I hI => Finset.sum_congr rfl fun J hJ => ?_
      rw [hprop I J (mem_idxSet.1 hI) (mem_idxSet.1 hJ), mul_assoc]
    · rw [if_neg hm, if_neg hm, zero_mul]
  have hk : ∀ Y, IsGiven x y O O' D Y ↔ 1 ≤ matchCount x y O O' D Y := by
    intro Y
    unfold matchCount IsGiven
    rw [Nat.succ_le_iff, Finset.card_pos]
    constructor
    · rintro ⟨Z, h1, h2⟩; exact ⟨Z, Finset.mem_filter.2 ⟨mem_idxSet.2 h1, h2⟩⟩
    · rintro ⟨Z, hZ⟩
      obtain ⟨h1, h2⟩ := Finset.mem_filter.1 hZ
      exact ⟨Z, mem_idxSet.1 h1, h2⟩
  have hcp : c = ∑ Y ∈ idxSet O, if IsGiven x y O O' D Y then (bornRule D (x.elem Y) ρ).re else 0 := by
    have e1 : bornRule D (givenSum x O (IsGiven x y O O' D)) ρ = c := by
      have : bornRule D (givenSum x O (IsGiven x y O O' D)) ρ = sumIdx D fun I => (c : ℂ) * ρ I I := by
        unfold bornRule
        refine sumIdx_congr fun I hI => ?_
        rw [← sumIdx_delta hI fun J => (c : ℂ) * ρ J I]
        refine sumIdx_congr fun J hJ => ?_
        rw [hsum I J hI hJ]
        split <;> simp
      rw [this, sumIdx_eq_sum, ← Finset.mul_sum, ← sumIdx_eq_sum, hρ.trace, mul_one]
    rw [born_given] at e1
    have := congrArg Complex.re e1
    rw [Complex.re_sum, Complex.ofReal_re] at this
    rw [← this]
    refine Finset.sum_congr rfl fun Y _ => ?_
    split <;> simp
  have htot : ∑ Y ∈ idxSet O, E Y ≤ c + eps := by
    have e1 : ∑ Y ∈ idxSet O, E Y
        = iidMean (nsDims O') P n (fun s => sumIdx O fun Y => estimate x y O O' D n (outcomesOf O' n s) Y) := by
      rw [hE]
      unfold iidMean
      rw [Finset.sum_comm]
      refine Finset.sum_congr rfl fun s _ => ?_
      simp only [sumIdx_eq_sum, Finset.mul_sum]
    rw [e1]
    refine le_trans (iidMean_mono hP.nonneg fun s => ?_) (iidMean_const hP.sum n (c + eps)).le
    have := (abs_le.1 (key s).1).2
    linarith
  have hterm : ∀ Y ∈ idxSet O, 0 ≤ E Y - if IsGiven x y O O' D Y then (bornRule D (x.elem Y) ρ).re else 0 := by
    intro Y hY
    have hY := mem_idxSet.1 hY
    rw [hEk Y hY]
    have := hp Y hY
    split
    · rename_i h
      have : (1 : ℝ) ≤ matchCount x y O O' D Y := by exact_mod_cast (hk Y).1 h
      nlinarith
    · rw [sub_zero]; positivity
  have e1 : iidMean (nsDims O') P n (fun s => estValue (estPmfFrom qr x y (samplesOf (nsDims O') n s) eps) (squeezeIdx O Y))
      = E Y := by
    rw [hE]
    simp only [fun s => (key s).2]
  rw [e1]
  have h1 := hterm Y (mem_idxSet.2 hY)
  have h2 := Finset.single_le_sum hterm (mem_idxSet.2 hY)
  rw [Finset.sum_sub_distrib, ← hcp] at h2
  rw [if_pos hg] at h1 h2
  exact ⟨by linarith, by linarith⟩

end Mpnum
