import Verif.Props.C85Args

/-! # C85: accepted arguments of estimators, states and optimisation routines -/

open Finset

namespace Mpnum

variable {R : Type}

/-! ### samples -/

/-- C85: `pack_samples` accepts exactly the arrays of samples: one row per sample, one outcome per site
with several outcomes, every outcome in its range. -/
theorem C85_pack (outdims : List ℕ) (s : NDArray ℤ) :
    (∃ p, packSamples outdims s none = .ok p) ↔
      nsDims outdims ≠ [] ∧ (nsDims outdims).prod ≤ intpMax ∧ ∃ n, IsSamples (nsDims outdims) n s := by
  constructor
  · rintro ⟨p, h⟩
    unfold packSamples at h
    obtain ⟨_, h1, h⟩ := bind_ok_inv h
    obtain ⟨_, h2, h⟩ := bind_ok_inv h
    obtain ⟨q, h3, _⟩ := bind_ok_inv h
    have h1 := pyAssert_inv h1
    have h2 := pyAssert_inv h2
    unfold ravelMultiIndex at h3
    split_ifs at h3 with h4
    obtain ⟨k1, k2, k3⟩ := h4
    unfold NDArray.ndim at h1
    obtain ⟨n, w, hs⟩ := List.length_eq_two.1 h1
    rw [hs] at h2 k3
    have h2 : w = (nsDims outdims).length := h2
    refine ⟨k1, k2, n, by rw [hs, h2], fun k hk j hj => k3 k hk j ?_⟩
    show j < w
    omega
  · rintro ⟨h1, h2, n, h3⟩
    obtain ⟨p, hp, _⟩ := C44_pack outdims n s h1 h2 h3
    exact ⟨p, hp⟩

/-- C85: with an integer type, `pack_samples` in addition accepts only samples whose packed values fit
into the type. -/
theorem C85_pack_dtype (outdims : List ℕ) (s p : NDArray ℤ) (lo hi : ℤ)
    (h : packSamples outdims s (some (lo, hi)) = .ok p) :
    nsDims outdims ≠ [] ∧ (nsDims outdims).prod ≤ intpMax ∧
      ∃ n, 0 < n ∧ IsSamples (nsDims outdims) n s ∧ p.shape = [n] ∧ ∀ k < n, lo ≤ p.get [k] ∧ p.get [k] ≤ hi := by
  have hnone : ∃ q, packSamples outdims s none = .ok q := by
    unfold packSamples at h ⊢
    obtain ⟨_, h1, h⟩ := bind_ok_inv h
    obtain ⟨_, h2, h⟩ := bind_ok_inv h
    obtain ⟨q, h3, _⟩ := bind_ok_inv h
    rw [h1, ok_bind, h2, ok_bind, h3, ok_bind]
    exact ⟨q, rfl⟩
  obtain ⟨k1, k2, n, k3⟩ := (C85_pack outdims s).1 hnone
  refine ⟨k1, k2, n, ?_⟩
  unfold packSamples ravelMultiIndex at h
  obtain ⟨_, h1, h⟩ := bind_ok_inv h
  obtain ⟨_, h2, h⟩ := bind_ok_inv h
  obtain ⟨q, h3, h⟩ := bind_ok_inv h
  simp only at h
  obtain ⟨_, h4, h⟩ := bind_ok_inv h
  obtain ⟨_, h5, h⟩ := bind_ok_inv h
  obtain ⟨_, h6, h⟩ := bind_ok_inv h
  cases h
  have h4 := pyGuard_inv h4
  have h5 := pyAssert_inv h5
  have h6 := pyAssert_inv h6
  have hsh : p.shape = [n] := by
    split_ifs at h3
    cases h3
    simp [k3.1]
  rw [hsh] at h4 h5 h6
  exact ⟨Nat.pos_of_ne_zero h4, k3, hsh, fun k hk => ⟨h5 k hk, h6 k hk⟩⟩

/-- C85: `unpack_samples` accepts exactly the vectors of packed samples. -/
theorem C85_unpack (outdims : List ℕ) (p : NDArray ℤ) :
    (∃ s, unpackSamples outdims p = .ok s) ↔
      nsDims outdims ≠ [] ∧ (nsDims outdims).prod ≤ intpMax ∧ (∀ d ∈ outdims, d ≤ 255) ∧
        ∃ n, IsPacked (nsDims outdims) n p := by
  constructor
  · rintro ⟨s, h⟩
    unfold unpackSamples at h
    obtain ⟨_, h1, h⟩ := bind_ok_inv h
    obtain ⟨_, h2, h⟩ := bind_ok_inv h
    obtain ⟨q, h3, _⟩ := bind_ok_inv h
    have h1 := pyAssert_inv h1
    unfold unravelIndices at h3
    split_ifs at h3 with h4
    obtain ⟨k1, k2, k3⟩ := h4
    unfold NDArray.ndim at h1
    obtain ⟨n, hs⟩ := List.length_eq_one_iff.1 h1
    rw [hs] at k3
    exact ⟨k1, k2, pyAssert_inv h2, n, hs, fun k hk => k3 k hk⟩
  · rintro ⟨h1, h2, h3, n, h4⟩
    obtain ⟨s, hs, _⟩ := C44_unpack outdims n p h1 h2 h3 h4
    exact ⟨s, hs⟩

/-- C85: `est_pmf` accepts only samples or packed samples: every outcome is in its range. -/
theorem C85_est_pmf (outdims : List ℕ) (s : NDArray ℤ) (normalize : Bool) (e : NDArray ℚ)
    (h : estPmf outdims s normalize = .ok e) :
    nsDims outdims ≠ [] ∧ ∃ n, IsSamples (nsDims outdims) n s ∨ IsPacked (nsDims outdims) n s := by
  have h' := h
  unfold estPmf at h
  obtain ⟨_, h1, h⟩ := bind_ok_inv h
  obtain ⟨q, h2, h⟩ := bind_ok_inv h
  obtain ⟨_, h3, h⟩ := bind_ok_inv h
  have h1 := pyGuard_inv h1
  have h3 := pyGuard_inv h3
  refine ⟨h3, ?_⟩
  by_cases hd : 1 < s.ndim
  · rw [if_pos hd] at h2
    obtain ⟨_, _, n, hn⟩ := (C85_pack outdims s).1 ⟨q, h2⟩
    exact ⟨n, .inl hn⟩
  · have hlen : s.shape.length = 1 := by
      have := List.length_pos_iff.2 h1
      unfold NDArray.ndim at hd
      omega
    obtain ⟨n, hs⟩ := List.length_eq_one_iff.1 hlen
    refine ⟨n, .inr ⟨hs, fun k hk => ?_⟩⟩
    by_contra hbad
    have := C45_packed_out_of_range outdims n k s normalize h3 hs hk (by
      by_contra hc
      exact hbad ⟨by omega, by omega⟩)
    rcases this with g | g <;> rw [g] at h' <;> cases h'

/-! ### linear functions of the probabilities -/

/-- C85: `lfun` accepts only one coefficient per function. -/
theorem C85_lfun (outdims : List ℕ) (pmf : Py (NDArray ℝ)) (c : NDArray ℝ) (fs : List OutFun) (eps : ℝ)
    (r : NDArray ℝ × NDArray ℝ) (h : lfun outdims pmf (some c) (some fs) eps = .ok r) :
    c.shape.headD 0 = 0 ∨ fs = [] ∨ (c.shape = [fs.length] ∧ nsDims outdims ≠ [] ∧ ∃ p, pmf = .ok p) := by
  unfold lfun at h
  split_ifs at h with h0
  · rcases h0 with ⟨c', hc, h0⟩ | h0
    · cases hc; exact .inl h0
    · exact .inr (.inl (Option.some.inj h0))
  · obtain ⟨p, h1, h⟩ := bind_ok_inv h
    obtain ⟨_, h2, h⟩ := bind_ok_inv h
    obtain ⟨_, h3, h⟩ := bind_ok_inv h
    exact .inr (.inr ⟨pyAssert_inv h3 c rfl, pyGuard_inv h2, p, h1⟩)

/-- C85: without functions, `lfun` accepts only one coefficient per outcome. -/
theorem C85_lfun_outcomes (outdims : List ℕ) (pmf : Py (NDArray ℝ)) (c : NDArray ℝ) (eps : ℝ)
    (r : NDArray ℝ × NDArray ℝ) (h : lfun outdims pmf (some c) none eps = .ok r) :
    c.shape.headD 0 = 0 ∨ (c.shape = [(nsDims outdims).prod] ∧ nsDims outdims ≠ [] ∧ ∃ p, pmf = .ok p) := by
  by_cases h0 : c.shape.headD 0 = 0
  · exact .inl h0
  · unfold lfun at h
    rw [if_neg (by
      rintro (⟨c', hc, h1⟩ | h1)
      · cases hc; exact h0 h1
      · cases h1)] at h
    obtain ⟨p, h1, h⟩ := bind_ok_inv h
    obtain ⟨_, h2, h⟩ := bind_ok_inv h
    obtain ⟨_, h3, h⟩ := bind_ok_inv h
    exact .inr ⟨pyAssert_inv h3 c rfl, pyGuard_inv h2, p, h1⟩

/-- C85: `est_lfun` accepts only samples with one outcome per site with several outcomes, one coefficient
per function, and one non-negative weight per sample; without weights there are at least two samples. -/
theorem C85_est_lfun (outdims : List ℕ) (coeff : Option (NDArray ℝ)) (funs : Option (List OutFun))
    (samples : NDArray ℤ) (weights : Option (NDArray ℝ)) (eps : ℝ) (r : NDArray ℝ × NDArray ℝ)
    (h : estLfun outdims coeff funs samples weights eps = .ok r) :
    ∃ n, samples.shape = [n, (nsDims outdims).length] ∧
      (∀ c, coeff = some c → c.shape = [(funs.map List.length).getD (nsDims outdims).prod]) ∧
      (∀ w, weights = some w → w.shape = [n] ∧ ∀ m < n, 0 ≤ w.get [m]) ∧ (weights = none → 2 ≤ n) := by
  unfold estLfun at h
  obtain ⟨_, h1, h⟩ := bind_ok_inv h
  obtain ⟨_, h2, h⟩ := bind_ok_inv h
  obtain ⟨_, h3, h⟩ := bind_ok_inv h
  obtain ⟨_, h4, h⟩ := bind_ok_inv h
  obtain ⟨_, h5, h⟩ := bind_ok_inv h
  obtain ⟨_, h6, h⟩ := bind_ok_inv h
  obtain ⟨_, h7, h⟩ := bind_ok_inv h
  obtain ⟨_, h8, h⟩ := bind_ok_inv h
  have h2 := pyAssert_inv h2
  have h3 := pyAssert_inv h3
  have h4 := pyAssert_inv h4
  have h5 := pyAssert_inv h5
  have h6 := pyAssert_inv h6
  have h7 := pyAssert_inv h7
  have h8 := pyGuard_inv h8
  unfold NDArray.ndim at h4
  obtain ⟨n, w, hs⟩ := List.length_eq_two.1 h4
  rw [hs] at h5 h6 h7 h8
  have h5 : w = (nsDims outdims).length := h5
  refine ⟨n, by rw [hs, h5], ?_, fun w hw => ⟨h6 w hw, h7 w hw⟩, fun hw => ?_⟩
  · intro c hc
    obtain ⟨m, hm⟩ := List.length_eq_one_iff.1 (h2 c hc)
    have h3 := h3 c hc
    rw [hm] at h3 ⊢
    have h3 : m = (funs.getD (indicatorFuns (nsDims outdims))).length := h3
    rw [h3]
    cases funs with
    | none => simp [indicatorFuns]
    | some fs => rfl
  · have : n ≠ 0 ∧ n ≠ 1 := h8 hw
    omega

/-- C85: the methods of lists of MP-POVMs accept only one array of coefficients, one list of functions
and one array of samples per MP-POVM. -/
theorem C85_lfun_lists (mpps : List (List ℕ)) (pmfs : List (Py (NDArray ℝ))) (coeff : List (NDArray ℝ))
    (funs : Option (List (Option (List OutFun)))) (samples : List (NDArray ℤ)) (eps : ℝ) (r : ℝ × ℝ) :
    (pmfs.length = mpps.length → lfunList (mpps.zip pmfs) coeff funs eps = .ok r →
      coeff.length = mpps.length ∧ ∀ fs, funs = some fs → fs.length = mpps.length) ∧
    (∀ w e, estLfunList mpps coeff funs samples w e = .ok r →
      coeff.length = mpps.length ∧ samples.length = mpps.length ∧ ∀ fs, funs = some fs → fs.length = mpps.length) := by
  constructor
  · intro hl h
    unfold lfunList at h
    obtain ⟨_, h1, h⟩ := bind_ok_inv h
    obtain ⟨_, h2, h⟩ := bind_ok_inv h
    have h1 := pyAssert_inv h1
    have h2 := pyAssert_inv h2
    rw [List.length_zip, hl, min_self] at h1 h2
    exact ⟨h1.symm, fun fs hf => by rw [hf] at h2; exact h2.symm⟩
  · intro w e h
    unfold estLfunList at h
    obtain ⟨_, h1, h⟩ := bind_ok_inv h
    obtain ⟨_, h2, h⟩ := bind_ok_inv h
    obtain ⟨_, h3, h⟩ := bind_ok_inv h
    have h2 := pyAssert_inv h2
    exact ⟨(pyAssert_inv h1).symm, (pyAssert_inv h3).symm, fun fs hf => by rw [hf] at h2; exact h2.symm⟩

/-! ### states -/

/-- C85: `mps_to_pmps` accepts only matrix product states (one leg per site); `pmps_to_mps` only locally
purified states (two legs per site) with ancillas of dimension one. -/
theorem C85_mps_pmps (x y : MPA R) :
    (mpsToPmps x = .ok y → ∀ s ∈ x.shape, s.length = 1) ∧
    (pmpsToMps x = .ok y → ∀ s ∈ x.shape, ∃ d, s = [d, 1]) := by
  constructor
  · intro h
    unfold mpsToPmps at h
    obtain ⟨_, h1, _⟩ := bind_ok_inv h
    exact pyAssert_inv h1
  · intro h
    unfold pmpsToMps at h
    obtain ⟨_, h1, h⟩ := bind_ok_inv h
    obtain ⟨_, h2, _⟩ := bind_ok_inv h
    intro s hs
    obtain ⟨d, a, rfl⟩ := List.length_eq_two.1 (pyAssert_inv h1 s hs)
    have : a = 1 := pyAssert_inv h2 _ hs
    exact ⟨d, by rw [this]⟩

/-- C85: `pmps_reduction` accepts only a non-empty support of existing sites. -/
theorem C85_pmps_reduction [AddCommMonoid R] [Mul R] (qr : QR R) (x : MPA R) (support : List ℤ) (r : MPA R × MPA R)
    (h : pmpsReduction qr x support = .ok r) : support ≠ [] ∧ ∀ s ∈ support, 0 ≤ s ∧ s < x.len := by
  unfold pmpsReduction at h
  obtain ⟨_, h1, h⟩ := bind_ok_inv h
  obtain ⟨_, h2, _⟩ := bind_ok_inv h
  exact ⟨List.length_pos_iff.1 (pyAssert_inv h1), pyAssert_inv h2⟩

/-- C85: `pmps_dm_to_array` accepts only locally purified states (two legs per site); the global order is
available only if all sites with a dimension larger than one have the same one, and there is such a site. -/
theorem C85_pmps_dm [AddCommMonoid R] [Mul R] [One R] [Star R] (x : MPA R) (global : Bool) (A : NDArray R)
    (h : pmpsDmToArray x global = .ok A) :
    (∀ s ∈ x.shape, s.length = 2) ∧
    (global = true → ∃ d, 1 < d ∧ (∃ s ∈ x.shape, s.getD 0 0 = d) ∧ ∀ s ∈ x.shape, 1 < s.getD 0 0 → s.getD 0 0 = d) := by
  unfold pmpsDmToArray at h
  obtain ⟨o, _, h⟩ := bind_ok_inv h
  obtain ⟨sh, h2, h⟩ := bind_ok_inv h
  obtain ⟨o', _, h⟩ := bind_ok_inv h
  unfold dmOutShape at h2
  obtain ⟨_, h1, h2⟩ := bind_ok_inv h2
  refine ⟨pyGuard_inv h1, ?_⟩
  intro hg
  rw [if_pos hg] at h
  obtain ⟨_, h3, _⟩ := bind_ok_inv h
  have h3 := pyAssert_inv h3
  have hmem : ∀ d, d ∈ sh ↔ 1 < d ∧ ∃ s ∈ x.shape, s.getD 0 0 = d := by
    intro d
    cases h2
    rw [List.mem_flatten]
    constructor
    · rintro ⟨l, hl, hd⟩
      obtain ⟨s, hs, rfl⟩ := List.mem_map.1 hl
      split_ifs at hd with h1
      · have : d = s.getD 0 0 := by simpa using hd
        exact ⟨by omega, s, hs, this.symm⟩
      · cases hd
    · rintro ⟨h1, s, hs, rfl⟩
      exact ⟨_, List.mem_map_of_mem hs, by rw [if_pos h1]; simp⟩
  obtain ⟨d, hd⟩ := Finset.card_eq_one.1 h3
  have hd' : ∀ e, e ∈ sh ↔ e = d := by
    intro e
    rw [← List.mem_toFinset, hd, Finset.mem_singleton]
  obtain ⟨k1, k2⟩ := (hmem d).1 ((hd' d).2 rfl)
  exact ⟨d, k1, k2, fun s hs h1 => (hd' _).1 ((hmem _).2 ⟨h1, s, hs, rfl⟩)⟩

/-- C85: `inner_prod_mps` accepts only a product state as first argument, and matrix product states. -/
theorem C85_inner_prod [AddCommMonoid R] [Mul R] [Star R] (x y : MPA R) (v : R) (h : innerProdMps x y = .ok v) :
    (∀ r ∈ x.ranks, r = 1) ∧ (∀ n ∈ x.ndims, n = 1) ∧ (∀ n ∈ y.ndims, n = 1) := by
  unfold innerProdMps at h
  obtain ⟨_, h1, h⟩ := bind_ok_inv h
  obtain ⟨_, h2, h⟩ := bind_ok_inv h
  obtain ⟨_, h3, h⟩ := bind_ok_inv h
  exact ⟨pyAssert_inv h1, pyAssert_inv h2, pyAssert_inv h3⟩

/-- C85: `special.sumup` accepts only a non-empty list of MPAs of the same length, one weight for each of
them, and for more than one site only MPAs of rank one. -/
theorem C85_special_sumup {𝕜 : Type} [RCLike 𝕜] (f : SVDFunc 𝕜) (mpas : List (MPA 𝕜)) (rank : ℕ)
    (weights : Option (List 𝕜)) (y : MPA 𝕜) (h : specialSumup f mpas rank weights = .ok y) :
    ∃ x xs, mpas = x :: xs ∧ (∀ z ∈ mpas, z.len = x.len) ∧ (∀ w, weights = some w → w.length = mpas.length) ∧
      (x.len ≠ 1 → ∀ z ∈ mpas, ∀ r ∈ z.ranks, r ≤ 1) := by
  unfold specialSumup at h
  obtain ⟨x, h1, h⟩ := bind_ok_inv h
  obtain ⟨_, h2, h⟩ := bind_ok_inv h
  obtain ⟨_, h3, h⟩ := bind_ok_inv h
  cases mpas with
  | nil => cases h1
  | cons z zs =>
    cases h1
    refine ⟨x, zs, rfl, pyAssert_inv h2, fun w hw => ?_, fun hl => ?_⟩
    · have := pyAssert_inv h3
      rw [hw] at this
      exact this
    · rw [if_neg hl] at h
      obtain ⟨_, h4, _⟩ := bind_ok_inv h
      intro z hz r hr
      have := pyAssert_inv h4 z hz
      have hle : ∀ (l : List ℕ) (r : ℕ), r ∈ l → r ≤ l.foldr max 0 := by
        intro l
        induction l with
        | nil => intro r hr; cases hr
        | cons a l ih =>
          intro r hr
          rw [List.foldr_cons]
          rcases List.mem_cons.1 hr with rfl | hr
          · exact le_max_left _ _
          · exact le_max_of_le_right (ih r hr)
      rw [← this]
      exact hle _ r hr

/-! ### optimisation -/

theorem eigStart_inv {qr : QR ℂ} {n : ℕ} {S : List (List ℕ)} {startvec : Option (MPA ℂ)} {startRank : Option ℕ}
    {rs : RandState} {v : MPA ℂ} (h : eigStart qr n S startvec startRank rs = .ok v) :
    startvec = none → ∃ r, startRank = some r ∧ r ≠ 1 := by
  rintro rfl
  unfold eigStart at h
  cases startRank with
  | none => cases h
  | some r =>
    refine ⟨r, rfl, ?_⟩
    rintro rfl
    cases h

/-- C85: `eig` accepts only a number of sites to optimise below the length, and only with a start vector
or a rank different from one for a random one. -/
theorem C85_eig (qr : QR ℂ) (svd : SVD ℂ) (eigs : EigsFun) (mpo : MPA ℂ) (numSweeps varSites : ℕ)
    (startvec : Option (MPA ℂ)) (startRank : Option ℕ) (rs : RandState) (r : ℂ × MPA ℂ)
    (h : eig qr svd eigs mpo numSweeps varSites startvec startRank rs = .ok r) :
    varSites < mpo.len ∧ (startvec = none → ∃ k, startRank = some k ∧ k ≠ 1) := by
  unfold eig at h
  obtain ⟨_, h1, h⟩ := bind_ok_inv h
  obtain ⟨v, h2, h⟩ := bind_ok_inv h
  exact ⟨pyAssert_inv h1, eigStart_inv h2⟩

/-- C85: `eig_sum` accepts only a non-empty list of operators of the same length, and the same arguments as
`eig` apart from that. -/
theorem C85_eig_sum (qr : QR ℂ) (svd : SVD ℂ) (eigs : EigsFun) (mpas : List (MPA ℂ)) (numSweeps varSites : ℕ)
    (startvec : Option (MPA ℂ)) (startRank : Option ℕ) (rs : RandState) (r : ℂ × MPA ℂ)
    (h : eigSum qr svd eigs mpas numSweeps varSites startvec startRank rs = .ok r) :
    mpas ≠ [] ∧ (∃ n, (∀ x ∈ mpas, x.len = n) ∧ varSites < n) ∧
      (startvec = none → ∃ k, startRank = some k ∧ k ≠ 1) := by
  unfold eigSum at h
  cases mpas with
  | nil => cases h
  | cons m ms =>
    obtain ⟨_, h1, h⟩ := bind_ok_inv h
    obtain ⟨_, h2, h⟩ := bind_ok_inv h
    obtain ⟨v, h3, h⟩ := bind_ok_inv h
    exact ⟨by simp, ⟨m.len, pyAssert_inv h1, pyAssert_inv h2⟩, eigStart_inv h3⟩

/-- C85: `compress('svd', …)` of an MPA with more than one site accepts only a positive rank, a relative
error between zero and one, and one of the two directions. -/
theorem C85_compress {𝕜 : Type} [RCLike 𝕜] (qr : QR 𝕜) (svd : SVD 𝕜) (x : MPA 𝕜) (hl : x.len ≠ 1)
    (rank : Option ℤ) (relerr : Option ℝ) (direction : Option Dir) (canon : Bool) (r : MPA 𝕜 × ℝ)
    (h : x.compress qr svd rank relerr direction canon = .ok r) :
    (∀ k, rank = some k → 0 < k) ∧ (∀ e, relerr = some e → 0 ≤ e ∧ e ≤ 1) ∧ direction ≠ some .other := by
  have hargs : ∀ {k : ℤ}, MPA.svdArgs k relerr = .ok () → 0 < k ∧ ∀ e, relerr = some e → 0 ≤ e ∧ e ≤ 1 := by
    intro k h
    unfold MPA.svdArgs at h
    obtain ⟨_, h1, h⟩ := bind_ok_inv h
    refine ⟨pyAssert_inv h1, ?_⟩
    intro e he
    rw [he] at h
    simp only at h
    split_ifs at h with h2
    exact h2
  have hrank : ∃ k, x.EffRank rank k := by
    cases rank with
    | some k => exact ⟨k, rfl⟩
    | none =>
      cases hm : x.maxRank with
      | ok m =>
        refine ⟨m, ?_⟩
        show x.maxRank.map (fun m : ℕ => (m : ℤ)) = .ok (m : ℤ)
        rw [hm]; rfl
      | error e =>
        unfold MPA.compress MPA.compressSvd at h
        rw [if_neg hl] at h
        simp only [hm] at h
        cases h
  obtain ⟨k, hk⟩ := hrank
  have hk' : ∀ k', rank = some k' → k = k' := by
    rintro k' rfl
    exact hk
  unfold MPA.compress at h
  rw [MPA.compressSvd_eq qr svd _ x hl hk] at h
  have hdir : direction ≠ some .other := by
    rintro rfl
    cases h
  have hfin : 0 < k ∧ ∀ e, relerr = some e → 0 ≤ e ∧ e ≤ 1 := by
    cases hd : x.effDir direction with
    | right =>
      rw [hd] at h
      have : ∃ y z, MPA.compressSvdR svd (truncatedSvd svd) k relerr y = .ok z := by
        cases canon <;> (obtain ⟨y, _, h⟩ := bind_ok_inv h; obtain ⟨z, h2, _⟩ := bind_ok_inv h; exact ⟨y, z, h2⟩)
      obtain ⟨y, z, h2⟩ := this
      unfold MPA.compressSvdR at h2
      obtain ⟨_, h3, _⟩ := bind_ok_inv h2
      exact hargs h3
    | left =>
      rw [hd] at h
      have : ∃ y z, MPA.compressSvdL svd (truncatedSvd svd) k relerr y = .ok z := by
        cases canon <;> (obtain ⟨y, _, h⟩ := bind_ok_inv h; obtain ⟨z, h2, _⟩ := bind_ok_inv h; exact ⟨y, z, h2⟩)
      obtain ⟨y, z, h2⟩ := this
      unfold MPA.compressSvdL at h2
      obtain ⟨_, h3, _⟩ := bind_ok_inv h2
      exact hargs h3
    | other => rw [hd] at h; cases h
  exact ⟨fun k' e => hk' k' e ▸ hfin.1, hfin.2, hdir⟩

/-- C85: the Pauli POVM exists only for dimension at least two. -/
theorem C85_pauli (dim : ℕ) (a : NDArray ℂ) (h : pauliPovm dim = .ok a) : 2 ≤ dim := by
  unfold pauliPovm pauliParts at h
  obtain ⟨_, h, _⟩ := bind_ok_inv h
  obtain ⟨_, h, _⟩ := bind_ok_inv h
  exact pyAssert_inv h

/-- C85: `match_elems` accepts only MP-POVMs on the same system. -/
theorem C85_match (x y : MPA ℂ) (excl : List String) (eps : ℝ) (r : NDArray Bool × NDArray (Option ℝ))
    (h : matchElems x y excl eps = .ok r) : x.hdims = y.hdims ∧ ∀ e ∈ excl, e = "self" ∨ e = "other" := by
  unfold matchElems at h
  obtain ⟨_, h1, h⟩ := bind_ok_inv h
  obtain ⟨_, h2, _⟩ := bind_ok_inv h
  exact ⟨pyGuard_inv h1, pyAssert_inv h2⟩

/-- C85: `compress('var', …)` of an MPA with more than one site accepts only a start MPA or a rank; a start MPA
whose largest rank is not above the one of `x` must agree with `x` in the shapes of the sites that both have.
(The number of sites is not compared.) -/
theorem C85_compress_var (qr : QR ℂ) (svd : SVD ℂ) (x : MPA ℂ) (hl : x.len ≠ 1) (numSweeps : ℕ)
    (startmpa : Option (MPA ℂ)) (rank : Option ℕ) (varSites : ℕ) (cplx : Bool) (rs : RandState) (r : MPA ℂ × ℝ)
    (h : x.compressVar qr svd numSweeps startmpa rank varSites cplx rs = .ok r) :
    (startmpa = none → rank ≠ none) ∧
    ∀ s a b, startmpa = some s → s.maxRank = .ok a → x.maxRank = .ok b → a ≤ b →
      ∀ (n : ℕ) p q, x.shape[n]? = some p → s.shape[n]? = some q → p = q := by
  unfold MPA.compressVar at h
  obtain ⟨z, h, _⟩ := bind_ok_inv h
  unfold MPA.compressionVar at h
  rw [if_neg hl] at h
  constructor
  · rintro rfl rfl
    cases h
  · rintro s a b rfl ha hb hab n p q hp hq
    simp only [ha, hb, ok_bind] at h
    rw [if_neg (by omega)] at h
    obtain ⟨_, h0, h⟩ := bind_ok_inv h
    obtain ⟨c, h1, h0⟩ := bind_ok_inv h0
    obtain ⟨_, h2, _⟩ := bind_ok_inv h0
    have hc : c.lt = s.lt := by
      unfold MPA.copy at h1
      exact (mkLT_inv h1).2.2.2.2
    have hm := pyAssert_inv h2
    refine hm (p, q) (List.mem_of_getElem? (i := n) ?_)
    rw [List.getElem?_zip_eq_some]
    exact ⟨hp, by rw [MPA.shape, hc]; exact hq⟩

/-- C85: the factory functions accept only a positive number of sites, one dimension per site, and an
interaction length that is not larger than the number of sites. -/
theorem C85_factory [CommRing R] (qr : QR R) (entries : NDArray R) (sites : ℤ) (n : ℕ) (ds : List ℕ) (y : MPA R) :
    (diagonalMpa qr entries sites = .ok y → 0 < sites ∧ ∃ d, entries.shape = [d]) ∧
    (factoryEye n (.each ds) = .ok y → ds.length = n) ∧
    ∀ (qr : QR ℂ) (ldim intlen : ℕ) (rs : Option RandState) (st : RandState) (z : MPA ℂ × RandState),
      randomLocalHam qr n ldim intlen rs st = .ok z → intlen ≤ n := by
  refine ⟨?_, ?_, ?_⟩
  · intro h
    unfold diagonalMpa at h
    obtain ⟨_, h1, h⟩ := bind_ok_inv h
    obtain ⟨_, h2, _⟩ := bind_ok_inv h
    exact ⟨pyAssert_inv h1, List.length_eq_one_iff.1 (pyGuard_inv h2)⟩
  · intro h
    unfold factoryEye at h
    obtain ⟨d, h1, _⟩ := bind_ok_inv h
    obtain ⟨_, h2, _⟩ := bind_ok_inv h1
    exact pyAssert_inv h2
  · intro qr ldim intlen rs st z h
    by_contra hn
    unfold randomLocalHam at h
    rw [pyAssert_false hn] at h
    cases h

/-! ### examples -/

/-- Two samples of two sites with two and three outcomes. -/
def exSamples85 : NDArray ℤ := ⟨[2, 2], fun i => ([0, 2, 1, 1] : List ℤ).getD (2 * i.getD 0 0 + i.getD 1 0) 0⟩

theorem exSamples85_ok : ∃ p, packSamples [2, 1, 3] exSamples85 none = .ok p :=
  (C85_pack _ _).2 ⟨by decide, by decide, 2, rfl, by decide⟩

/-- With the outcome dimensions exchanged, the outcome `2` is out of range. -/
theorem exSamples85_rejected : ¬ ∃ p, packSamples [2, 1, 2] exSamples85 none = .ok p := by
  rw [C85_pack]
  rintro ⟨_, _, n, h1, h2⟩
  have hn : n = 2 := by
    have := congrArg (fun l : List ℕ => l.getD 0 0) h1
    exact this.symm
  subst hn
  exact absurd (h2 0 (by norm_num) 1 (by decide)) (by decide)

theorem exUnpack85 : (∃ s, unpackSamples [2, 1, 3] ⟨[2], fun i => ([5, 0] : List ℤ).getD (i.getD 0 0) 0⟩ = .ok s) ∧
    ¬ ∃ s, unpackSamples [2, 1, 3] ⟨[2], fun i => ([6, 0] : List ℤ).getD (i.getD 0 0) 0⟩ = .ok s := by
  constructor
  · exact (C85_unpack _ _).2 ⟨by decide, by decide, by decide, 2, rfl, by decide⟩
  · rw [C85_unpack]
    rintro ⟨_, _, _, n, h1, h2⟩
    have hn : n = 2 := (congrArg (fun l : List ℕ => l.getD 0 0) h1).symm
    subst hn
    exact absurd (h2 0 (by norm_num)) (by decide)

/-- A matrix product operator whose two sites can be joined by a bond, and one whose sites cannot. -/
theorem exLeg2vleg85 : (∃ y, (⟨[⟨[1, 2, 3, 1], fun _ => 1⟩, ⟨[1, 3, 2, 1], fun _ => 1⟩], 0, 2⟩ : MPA ℤ).leg2vleg 0 = .ok y) ∧
    (⟨[⟨[1, 3, 2, 1], fun _ => 1⟩, ⟨[1, 3, 2, 1], fun _ => 1⟩], 0, 2⟩ : MPA ℤ).leg2vleg 0 = .error .assertion :=
  ⟨⟨_, rfl⟩, rfl⟩

theorem exTrace85 : (∃ y, partialtrace (⟨[⟨[1, 2, 2, 1], fun _ => 1⟩], 0, 1⟩ : MPA ℤ) (.same 0 (-1)) = .ok y) ∧
    partialtrace (⟨[⟨[1, 2, 2, 1], fun _ => 1⟩], 0, 1⟩ : MPA ℤ) (.same 1 (-1)) = .error .value ∧
    partialtrace (⟨[⟨[1, 2, 2, 1], fun _ => 1⟩], 0, 1⟩ : MPA ℤ) (.same 0 2) = .error .assertion :=
  ⟨⟨_, rfl⟩, rfl, rfl⟩

theorem exDiag85 : (∃ y, (⟨[⟨[1, 2, 3], fun _ => 1⟩, ⟨[3, 2, 1], fun _ => 1⟩], 0, 2⟩ : MPA ℤ).diag 0 = .ok y) ∧
    (⟨[⟨[1, 2, 3], fun _ => 1⟩, ⟨[3, 4, 1], fun _ => 1⟩], 0, 2⟩ : MPA ℤ).diag 0 = .error .assertion ∧
    (⟨[⟨[1, 2, 3], fun _ => 1⟩, ⟨[3, 2, 2, 1], fun _ => 1⟩], 0, 2⟩ : MPA ℤ).diag 0 = .error .assertion :=
  ⟨⟨_, rfl⟩, rfl, rfl⟩

theorem exPmps85 : (∃ y, mpsToPmps (⟨[⟨[1, 2, 1], fun _ => 1⟩], 0, 1⟩ : MPA ℤ) = .ok y) ∧
    mpsToPmps (⟨[⟨[1, 2, 2, 1], fun _ => 1⟩], 0, 1⟩ : MPA ℤ) = .error .assertion ∧
    (∃ y, pmpsToMps (⟨[⟨[1, 2, 1, 1], fun _ => 1⟩], 0, 1⟩ : MPA ℤ) = .ok y) ∧
    pmpsToMps (⟨[⟨[1, 2, 2, 1], fun _ => 1⟩], 0, 1⟩ : MPA ℤ) = .error .assertion :=
  ⟨⟨_, rfl⟩, rfl, ⟨_, rfl⟩, rfl⟩

end Mpnum
