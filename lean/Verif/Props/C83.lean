import Verif.Povm.RoundingPmf
import Verif.Props.C42
import Verif.Props.C78Inner
import Verif.Props.C80

/-! # C83: probabilities of MP-POVMs in floating point arithmetic -/

open Finset

namespace Mpnum

section
variable {𝕜 : Type} [RCLike 𝕜]

/-- Specification: the distance (2-norm) between the array `a` of probabilities, in which sites with only one outcome have no axis, and
the exact Born probabilities of the MP-POVM `x` for the state `ρ`. -/
noncomputable def bornDist (x : MPA 𝕜) (O D : List ℕ) (ρ : List ℕ → List ℕ → 𝕜) (a : NDArray 𝕜) : ℝ :=
  Real.sqrt (sumIdx O fun Y => ‖a.get (squeezeIdx O Y) - bornRule D (x.elem Y) ρ‖ ^ 2)

/-- Specification: the bound of the rounding error, the relative error of `3 n + 1` products for `n` sites times the product of the norms
of the local tensors of the MP-POVM and of the squared norms of the local tensors of the state. -/
noncomputable def pmfErr (ε : ℝ) (x ψ : MPA 𝕜) : ℝ :=
  ((1 + ε) ^ (3 * x.len + 1) - 1) * (List.zipWith (fun m t => npNorm m * npNorm t ^ 2) x.lt ψ.lt).prod

theorem pmfScale_eq (xs ts : List (NDArray 𝕜)) : pmfScale (xs.zip ts) = (List.zipWith (fun m t => npNorm m * npNorm t ^ 2) xs ts).prod := by
  unfold pmfScale
  rw [List.zip, List.map_zipWith]

theorem bornDist_le {δ : ℝ} {x : MPA 𝕜} {O D : List ℕ} (hO : ∀ o ∈ O, 0 < o) {ρ : List ℕ → List ℕ → 𝕜} {a a' : NDArray 𝕜}
    (ha : IsPmfArray x O D ρ a) (h : arrDist a a' ≤ δ) : bornDist x O D ρ a' ≤ δ := by
  refine le_trans (le_of_eq ?_) h
  unfold bornDist arrDist
  congr 1
  rw [ha.1, sumIdx_squeeze hO]
  refine sumIdx_congr fun Y hY => ?_
  rw [ha.2 Y hY, norm_sub_rev]

/-- C83: the fast implementations of `pmf_as_array` (before the projection), `'pmps-ltr'` and `'pmps-symm'`, in inexact arithmetic:
they succeed and the result is as close to the Born probabilities as stated. -/
theorem C83_probabilities {ε : ℝ} (hε : 0 ≤ ε) {td : TDot 𝕜} (htd : TdNear ε td) (slow : MPA 𝕜 → Py (NDArray 𝕜 × MPA 𝕜))
    (x ψ : MPA 𝕜) (O D A : List ℕ) (hx : IsMpPovm x O D) (hO : ∀ o ∈ O, 0 < o) (hψ : IsPmps ψ D A) (mode : PovmMode)
    (impl : PmfImpl) (hi : (impl = .auto ∧ mode = .mode .pmps) ∨ impl = .ltr ∨ impl = .symm) :
    ∃ a, pmfRawF td slow x ψ mode impl = .ok (a, ψ) ∧ a.shape = nsDims O ∧ bornDist x O D (dm ψ A) a ≤ pmfErr ε x ψ := by
  obtain ⟨qr, _⟩ := exists_QRSpec (𝕜 := 𝕜)
  obtain ⟨c, h1, h2⟩ := C42_array_pmps_fast qr x ψ O D A hx hO hψ mode impl hi
  obtain ⟨a, g1, g2⟩ := pmfRaw_near hε htd slow hi h1
  refine ⟨a, g1, g2.shape.trans h2.1, bornDist_le hO h2 ?_⟩
  unfold pmfErr
  rw [← pmfScale_eq]
  exact g2.dist

theorem mpsToPmps_norms {x y : MPA 𝕜} (h : mpsToPmps x = .ok y) : y.lt.map npNorm = x.lt.map npNorm := by
  unfold mpsToPmps at h
  obtain ⟨_, _, h⟩ := bind_ok_inv h
  obtain ⟨ts, h1, h⟩ := bind_ok_inv h
  rw [show y.lt = ts from mkLT_lt h]
  rw [mapM_ok_iff] at h1
  clear h
  generalize x.lt = us at h1 ⊢
  induction h1 with
  | nil => rfl
  | cons a _ ih => rw [List.map_cons, List.map_cons, ih, reshape_npNorm a]

/-- C83: the same for a pure state with `mode='mps'`, which is converted to a PMPS first. -/
theorem C83_probabilities_mps {ε : ℝ} (hε : 0 ≤ ε) {td : TDot 𝕜} (htd : TdNear ε td) (slow : MPA 𝕜 → Py (NDArray 𝕜 × MPA 𝕜))
    (x ψ : MPA 𝕜) (O D : List ℕ) (hx : IsMpPovm x O D) (hO : ∀ o ∈ O, 0 < o) (hψ : ψ.Good) (hs : ψ.shape = singles D) :
    ∃ a, pmfRawF td slow x ψ (.mode .mps) .auto = .ok (a, ψ) ∧ a.shape = nsDims O ∧ bornDist x O D (pureDm ψ) a ≤ pmfErr ε x ψ := by
  obtain ⟨φ, f1, f2, f3, f4⟩ := mps_pmps_good hψ hs
  obtain ⟨a, g1, g2, g3⟩ := C83_probabilities hε htd slow x φ O D _ hx hO f2 (.mode .mps) .symm (.inr (.inr rfl))
  have hl : ψ.len = D.length := by
    have := congrArg List.length hs
    simpa [MPA.shape, MPA.len] using this
  have hlx : x.len = D.length := hx.lenx
  have hlφ : x.len = φ.len := by rw [hlx]; exact f2.lenD.symm
  refine ⟨a, ?_, g2, ?_⟩
  · unfold pmfRawF at g1 ⊢
    rw [pyAssert_true hlφ, ok_bind] at g1
    rw [pyAssert_true (by rw [hlx, hl]), ok_bind]
    by_cases h1 : x.len = 1
    · simp [h1, ok_bind, f1] at g1 ⊢
      obtain ⟨q, h6, h7⟩ := bind_ok_inv g1
      rw [h6, ok_bind]
      rw [(Prod.mk.inj (Except.ok.inj h7)).1]
    · simp [h1, ok_bind, f1] at g1 ⊢
      obtain ⟨q, h6, h7⟩ := bind_ok_inv g1
      rw [h6, ok_bind]
      rw [(Prod.mk.inj (Except.ok.inj h7)).1]
  · have e1 : pmfErr ε x φ = pmfErr ε x ψ := by
      unfold pmfErr
      rw [← pmfScale_eq, ← pmfScale_eq, pmfScale_zip, pmfScale_zip, mpsToPmps_norms f1]
    have e2 : bornDist x O D (dm φ (List.replicate D.length 1)) a = bornDist x O D (pureDm ψ) a := by
      unfold bornDist
      congr 1
      exact sumIdx_congr fun Y _ => by rw [born_congr f4]
    rw [← e1, ← e2]
    exact g3

end

/-! ### after the projection -/

/-- `MPPovm.pmf_as_array` (mppovm.py:514-547) with the function `td` for `numpy.tensordot` and the parameter `slow` for the implementation
`'default'`.  The arithmetic of `project_pmf` is exact. -/
noncomputable def pmfAsArrayF (td : TDot ℂ) (slow : MPA ℂ → Py (NDArray ℂ × MPA ℂ)) (x state : MPA ℂ) (mode : PovmMode) (eps : ℝ)
    (impl : PmfImpl) : Py (NDArray ℝ × MPA ℂ) := do
  let (p, y) ← pmfRawF td slow x state mode impl
  let a ← (projectPmf (.cplx p) eps eps 0).1
  return (a, y)

theorem clip_near {r f : ℝ} (hf : 0 ≤ f) : |clip 0 r - f| ≤ |r - f| := by
  unfold clip
  split
  case isTrue h => rw [zero_sub, abs_neg, abs_of_nonneg hf, abs_of_nonpos (by linarith)]; linarith
  case isFalse => exact le_refl _

theorem sum_le_card_sqrt {s : List ℕ} {f : List ℕ → ℝ} (hf : ∀ i, 0 ≤ f i) :
    sumIdx s f ≤ Real.sqrt s.prod * Real.sqrt (sumIdx s fun i => f i ^ 2) := by
  rw [← Real.sqrt_mul (Nat.cast_nonneg _)]
  refine Real.le_sqrt_of_sq_le ?_
  rw [sumIdx_eq_sum, sumIdx_eq_sum, ← idxSet_card]
  exact sq_sum_le_card_mul_sum_sq

/-- What `project_pmf` does with an approximation of non-negative numbers. -/
theorem project_near {eps δ : ℝ} {s : List ℕ} {f : List ℕ → ℝ} (hf : ∀ i, InB i s → 0 ≤ f i) {a : NDArray ℂ} (hs : a.shape = s)
    (hd : Real.sqrt (sumIdx s fun i => ‖a.get i - (f i : ℂ)‖ ^ 2) ≤ δ) :
    sumIdx s (fun i => |clip 0 (a.get i).re - f i|) ≤ Real.sqrt s.prod * δ ∧
    (Real.sqrt s.prod * δ + |sumIdx s f - 1| ≤ eps → eps < 1 → ∃ p, (projectPmf (.cplx a) eps eps 0).1 = .ok p ∧ p.shape = s ∧
      (∀ i, InB i s → 0 ≤ p.get i) ∧ sumIdx s p.get = 1 ∧
      sumIdx s (fun i => |p.get i - f i|) ≤ 2 * (Real.sqrt s.prod * δ) + |sumIdx s f - 1|) ∧
    (eps < |sumIdx s f - 1| - Real.sqrt s.prod * δ → ∃ e, (projectPmf (.cplx a) eps eps 0).1 = .error e) := by
  subst hs
  have h0 : ∀ i, ‖a.get i - (f i : ℂ)‖ ≤ δ ∨ ¬ InB i a.shape := by
    intro i
    by_cases hi : InB i a.shape
    · left
      refine le_trans ?_ hd
      refine Real.le_sqrt_of_sq_le ?_
      rw [sumIdx_eq_sum]
      exact Finset.single_le_sum (f := fun i => ‖a.get i - (f i : ℂ)‖ ^ 2) (fun _ _ => sq_nonneg _) (mem_idxSet.2 hi)
    · exact .inr hi
  have hre : ∀ i, |(a.get i).re - f i| ≤ ‖a.get i - (f i : ℂ)‖ := by
    intro i
    have := Complex.abs_re_le_norm (a.get i - (f i : ℂ))
    simpa using this
  have him : ∀ i, |(a.get i).im| ≤ ‖a.get i - (f i : ℂ)‖ := by
    intro i
    have := Complex.abs_im_le_norm (a.get i - (f i : ℂ))
    simpa using this
  have h1 : sumIdx a.shape (fun i => |clip 0 (a.get i).re - f i|) ≤ Real.sqrt a.shape.prod * δ := by
    refine le_trans ?_ (mul_le_mul_of_nonneg_left hd (Real.sqrt_nonneg _))
    refine le_trans ?_ (sum_le_card_sqrt fun i => norm_nonneg _)
    rw [sumIdx_eq_sum, sumIdx_eq_sum]
    exact Finset.sum_le_sum fun i hi => (clip_near (hf i (mem_idxSet.1 hi))).trans (hre i)
  have hδ : 0 ≤ δ := (Real.sqrt_nonneg _).trans hd
  have h2 : |sumIdx a.shape (fun i => clip 0 (a.get i).re) - sumIdx a.shape f| ≤ Real.sqrt a.shape.prod * δ := by
    refine le_trans ?_ h1
    rw [sumIdx_eq_sum, sumIdx_eq_sum, sumIdx_eq_sum, ← Finset.sum_sub_distrib]
    exact Finset.abs_sum_le_sum_abs _ _
  have h3 : |sumIdx a.shape (fun i => clip 0 (a.get i).re) - 1| ≤ Real.sqrt a.shape.prod * δ + |sumIdx a.shape f - 1| := by
    have := abs_sub_le (sumIdx a.shape fun i => clip 0 (a.get i).re) (sumIdx a.shape f) 1
    linarith
  have h4 : ∀ i, InB i a.shape → δ ≤ Real.sqrt a.shape.prod * δ := by
    intro i hi
    refine le_mul_of_one_le_left hδ ?_
    rw [Real.one_le_sqrt]
    have : 0 < a.shape.prod := by
      rw [← idxSet_card]
      exact Finset.card_pos.2 ⟨i, mem_idxSet.2 hi⟩
    exact_mod_cast this
  have hδi : ∀ i, InB i a.shape → ‖a.get i - (f i : ℂ)‖ ≤ δ := fun i hi => (h0 i).resolve_right (not_not.2 hi)
  refine ⟨h1, fun he h1e => ?_, fun he => ?_⟩
  · have hab := abs_nonneg (sumIdx a.shape f - 1)
    have hacc : PmfAccepted (.cplx a) eps eps 0 := by
      refine ⟨fun i hi => .inr ?_, fun i hi => ?_, ?_, fun hs => ?_⟩
      · have := h4 i hi
        have := hδi i hi
        have := him i
        show |(a.get i).im| ≤ eps
        linarith
      · have := h4 i hi
        have := hδi i hi
        have := (abs_le.1 (hre i)).1
        have := hf i hi
        show -eps ≤ (a.get i).re
        linarith
      · exact h3.trans he
      · have hs : a.shape = [] := hs
        have hin : InB [] a.shape := by rw [hs]; exact .nil
        have e1 := h4 [] hin
        have e2 := hδi [] hin
        have e3 := (abs_le.1 (hre [])).1
        have e4 : sumIdx a.shape f = f [] := by rw [hs]; rfl
        rw [e4] at he
        have := (abs_le.1 (le_refl |f [] - 1|)).1
        show 0 < (a.get []).re
        linarith
    obtain ⟨p, g1, g2, g3⟩ := (C48_result (.cplx a) eps eps 0).1 hacc
    obtain ⟨k1, k2, k3, _⟩ := C48_project_pmf (.cplx a) eps eps 0 (le_refl _) h1e p g1
    have k1 : p.shape = a.shape := k1
    rw [k1] at k2 k3
    refine ⟨p, g1, k1, k2, k3, ?_⟩
    set S := sumIdx a.shape fun i => clip 0 (a.get i).re with hS
    have hpos : 0 < S := by
      have := (abs_le.1 (h3.trans he)).1
      linarith
    have e1 : ∀ i, InB i a.shape → p.get i * S = clip 0 (a.get i).re := by
      intro i hi
      rw [g3 i hi]
      show clip 0 (a.get i).re / S * S = _
      field_simp
    have e2 : sumIdx a.shape (fun i => |p.get i - clip 0 (a.get i).re|) = |S - 1| := by
      have : ∀ i, InB i a.shape → |p.get i - clip 0 (a.get i).re| = p.get i * |S - 1| := by
        intro i hi
        rw [← e1 i hi, show p.get i - p.get i * S = -(p.get i * (S - 1)) by ring, abs_neg, abs_mul, abs_of_nonneg (k2 i hi)]
      rw [sumIdx_congr this, sumIdx_eq_sum, ← Finset.sum_mul, ← sumIdx_eq_sum, k3, one_mul]
    have e3 : sumIdx a.shape (fun i => |p.get i - f i|) ≤
        sumIdx a.shape (fun i => |p.get i - clip 0 (a.get i).re|) + sumIdx a.shape (fun i => |clip 0 (a.get i).re - f i|) := by
      rw [sumIdx_eq_sum, sumIdx_eq_sum, sumIdx_eq_sum, ← Finset.sum_add_distrib]
      exact Finset.sum_le_sum fun i _ => abs_sub_le _ _ _
    linarith
  · refine (C48_result (.cplx a) eps eps 0).2 fun hacc => ?_
    have h5 : |sumIdx a.shape (fun i => clip 0 (a.get i).re) - 1| ≤ eps := hacc.sum
    have h6 := abs_sub_le (sumIdx a.shape f) (sumIdx a.shape fun i => clip 0 (a.get i).re) 1
    rw [abs_sub_comm (sumIdx a.shape f) (sumIdx a.shape fun i => clip 0 (a.get i).re)] at h6
    linarith

/-- The Born probabilities as an array. -/
theorem exists_bornArr (x : MPA ℂ) {O D : List ℕ} (hO : ∀ o ∈ O, 0 < o) {ρ : List ℕ → List ℕ → ℂ}
    (hb : ∀ Y, InB Y O → 0 ≤ (bornRule D (x.elem Y) ρ).re ∧ (bornRule D (x.elem Y) ρ).im = 0) :
    ∃ f : List ℕ → ℝ, (∀ i, InB i (nsDims O) → 0 ≤ f i) ∧
      (∀ Y, InB Y O → f (squeezeIdx O Y) = (bornRule D (x.elem Y) ρ).re ∧ (f (squeezeIdx O Y) : ℂ) = bornRule D (x.elem Y) ρ) := by
  classical
  have h1 : ∀ i, ∃ r : ℝ, ∀ Y, InB Y O → squeezeIdx O Y = i → r = (bornRule D (x.elem Y) ρ).re := by
    intro i
    by_cases h : ∃ Y, InB Y O ∧ squeezeIdx O Y = i
    · obtain ⟨Y, hY, rfl⟩ := h
      refine ⟨(bornRule D (x.elem Y) ρ).re, fun Y' hY' h => ?_⟩
      have e := congrArg (ravelIdx (O.filter (1 < ·))) h
      rw [squeeze_ravel hY, squeeze_ravel hY'] at e
      rw [← unravel_ravel hY, ← unravel_ravel hY', e]
    · exact ⟨0, fun Y hY h' => absurd ⟨Y, hY, h'⟩ h⟩
  choose f hf using h1
  refine ⟨f, fun i hi => ?_, fun Y hY => ⟨hf _ Y hY rfl, ?_⟩⟩
  · obtain ⟨Y, hY, rfl⟩ := exists_squeeze hO hi
    rw [hf _ Y hY rfl]
    exact (hb Y hY).1
  · rw [hf _ Y hY rfl]
    apply Complex.ext
    · simp
    · rw [(hb Y hY).2]; simp

/-- The Born probabilities of a measurement sum to the trace of the state. -/
theorem born_sum (O D : List ℕ) (M : List ℕ → List ℕ → List ℕ → ℂ) (ρ : List ℕ → List ℕ → ℂ) (hM : IsMeasurement O D M) :
    (sumIdx O fun Y => bornRule D (M Y) ρ) = sumIdx D fun I => ρ I I := by
  unfold bornRule
  rw [sumIdx_comm]
  refine sumIdx_congr fun I hI => ?_
  rw [sumIdx_comm]
  have : ∀ J, InB J D → (sumIdx O fun Y => M Y I J * ρ J I) = if J = I then ρ I I else 0 := by
    intro J hJ
    rw [← sumIdx_mul, hM.sum I J hI hJ]
    by_cases h : I = J
    · subst h; simp
    · rw [if_neg h, if_neg (Ne.symm h), zero_mul]
  rw [sumIdx_congr this, sumIdx_eq_sum, Finset.sum_ite_eq' (idxSet D) I, if_pos (mem_idxSet.2 hI)]

theorem nsDims_prod {O : List ℕ} (hO : ∀ o ∈ O, 0 < o) : (nsDims O).prod = O.prod := filter_prod hO

/-- What `pmf_as_array` returns for an approximation of the Born probabilities. -/
theorem pmfAsArrayF_of {td : TDot ℂ} {slow : MPA ℂ → Py (NDArray ℂ × MPA ℂ)} {x ψ ψ' : MPA ℂ} {O D : List ℕ} (hO : ∀ o ∈ O, 0 < o)
    {ρ : List ℕ → List ℕ → ℂ} {mode : PovmMode} {impl : PmfImpl} {a : NDArray ℂ} {δ eps : ℝ}
    (hraw : pmfRawF td slow x ψ mode impl = .ok (a, ψ')) (hs : a.shape = nsDims O) (hd : bornDist x O D ρ a ≤ δ)
    (hM : IsMeasurement O D x.elem) (hρ : Psd D ρ) :
    (IsState D ρ → Real.sqrt O.prod * δ ≤ eps → eps < 1 → ∃ p : NDArray ℝ, pmfAsArrayF td slow x ψ mode eps impl = .ok (p, ψ') ∧
      p.shape = nsDims O ∧ (∀ Y, InB Y O → 0 ≤ p.get (squeezeIdx O Y)) ∧ sumIdx p.shape p.get = 1 ∧
      (sumIdx O fun Y => |p.get (squeezeIdx O Y) - (bornRule D (x.elem Y) ρ).re|) ≤ 2 * (Real.sqrt O.prod * δ)) ∧
    (eps < |(sumIdx D fun I => (ρ I I).re) - 1| - Real.sqrt O.prod * δ →
      ∃ e, pmfAsArrayF td slow x ψ mode eps impl = .error e) := by
  have hb : ∀ Y, InB Y O → 0 ≤ (bornRule D (x.elem Y) ρ).re ∧ (bornRule D (x.elem Y) ρ).im = 0 := by
    intro Y hY
    have := C42_nonneg D _ ρ (hM.psd Y hY) hρ
    rw [Complex.le_def] at this
    exact ⟨by simpa using this.1, by simpa using this.2.symm⟩
  obtain ⟨f, f1, f2⟩ := exists_bornArr x hO hb
  have hsum : sumIdx (nsDims O) f = sumIdx D fun I => (ρ I I).re := by
    rw [sumIdx_squeeze hO, sumIdx_congr fun Y hY => (f2 Y hY).1]
    have h1 : (sumIdx O fun Y => bornRule D (x.elem Y) ρ) = sumIdx D fun I => ρ I I := born_sum O D x.elem ρ hM
    have h2 := congrArg Complex.re h1
    rw [sumIdx_eq_sum, sumIdx_eq_sum, Complex.re_sum, Complex.re_sum, ← sumIdx_eq_sum, ← sumIdx_eq_sum] at h2
    exact h2
  have hd' : Real.sqrt (sumIdx (nsDims O) fun i => ‖a.get i - (f i : ℂ)‖ ^ 2) ≤ δ := by
    refine le_trans (le_of_eq ?_) hd
    unfold bornDist
    congr 1
    rw [sumIdx_squeeze hO]
    exact sumIdx_congr fun Y hY => by rw [(f2 Y hY).2]
  obtain ⟨_, h1, h2⟩ := project_near (eps := eps) f1 hs hd'
  rw [hsum, nsDims_prod hO] at h1 h2
  refine ⟨fun hst he he1 => ?_, fun he => ?_⟩
  · have htr : (sumIdx D fun I => (ρ I I).re) = 1 := by
      have h2 := congrArg Complex.re hst.trace
      rw [sumIdx_eq_sum, Complex.re_sum, ← sumIdx_eq_sum] at h2
      simpa using h2
    rw [htr, sub_self, abs_zero, add_zero, add_zero] at h1
    obtain ⟨p, g1, g2, g3, g4, g5⟩ := h1 he he1
    refine ⟨p, ?_, g2, fun Y hY => g3 _ (squeeze_inB hY), by rw [g2]; exact g4, ?_⟩
    · unfold pmfAsArrayF
      rw [hraw, ok_bind]
      simp only [g1, ok_bind]
      rfl
    · rw [sumIdx_squeeze hO] at g5
      refine le_trans (le_of_eq (sumIdx_congr fun Y hY => ?_)) g5
      rw [(f2 Y hY).1]
  · obtain ⟨e, g⟩ := h2 he
    refine ⟨e, ?_⟩
    unfold pmfAsArrayF
    rw [hraw, ok_bind]
    simp only [g]
    rfl

/-- C83: `pmf_as_array` of a PMPS in inexact arithmetic.  If the rounding error of the probabilities, summed over all outcomes, is at most
`eps`, then the probabilities are accepted; the result is a probability distribution, and its distance (sum of the absolute values of the
differences) from the Born probabilities is at most twice the rounding error.  A state whose norm is wrong by more than `eps` and the
rounding error is rejected. -/
theorem C83_pmf_as_array {ε : ℝ} (hε : 0 ≤ ε) {td : TDot ℂ} (htd : TdNear ε td) (slow : MPA ℂ → Py (NDArray ℂ × MPA ℂ))
    (x ψ : MPA ℂ) (O D A : List ℕ) (hx : IsMpPovm x O D) (hO : ∀ o ∈ O, 0 < o) (hM : IsMeasurement O D x.elem) (hψ : IsPmps ψ D A)
    (mode : PovmMode) (impl : PmfImpl) (hi : (impl = .auto ∧ mode = .mode .pmps) ∨ impl = .ltr ∨ impl = .symm) (eps : ℝ) :
    (IsState D (dm ψ A) → Real.sqrt O.prod * pmfErr ε x ψ ≤ eps → eps < 1 → ∃ p : NDArray ℝ,
      pmfAsArrayF td slow x ψ mode eps impl = .ok (p, ψ) ∧ p.shape = nsDims O ∧ (∀ Y, InB Y O → 0 ≤ p.get (squeezeIdx O Y)) ∧
      sumIdx p.shape p.get = 1 ∧
      (sumIdx O fun Y => |p.get (squeezeIdx O Y) - (bornRule D (x.elem Y) (dm ψ A)).re|) ≤ 2 * (Real.sqrt O.prod * pmfErr ε x ψ)) ∧
    (eps < |(sumIdx D fun I => (dm ψ A I I).re) - 1| - Real.sqrt O.prod * pmfErr ε x ψ →
      ∃ e, pmfAsArrayF td slow x ψ mode eps impl = .error e) := by
  obtain ⟨a, h1, h2, h3⟩ := C83_probabilities hε htd slow x ψ O D A hx hO hψ mode impl hi
  exact pmfAsArrayF_of hO h1 h2 h3 hM (C42_pmps_psd _ _ _)

/-- C83: the same for a pure state with `mode='mps'`. -/
theorem C83_pmf_as_array_mps {ε : ℝ} (hε : 0 ≤ ε) {td : TDot ℂ} (htd : TdNear ε td) (slow : MPA ℂ → Py (NDArray ℂ × MPA ℂ))
    (x ψ : MPA ℂ) (O D : List ℕ) (hx : IsMpPovm x O D) (hO : ∀ o ∈ O, 0 < o) (hM : IsMeasurement O D x.elem) (hψ : ψ.Good)
    (hs : ψ.shape = singles D) (eps : ℝ) :
    (IsState D (pureDm ψ) → Real.sqrt O.prod * pmfErr ε x ψ ≤ eps → eps < 1 → ∃ p : NDArray ℝ,
      pmfAsArrayF td slow x ψ (.mode .mps) eps .auto = .ok (p, ψ) ∧ p.shape = nsDims O ∧
      (∀ Y, InB Y O → 0 ≤ p.get (squeezeIdx O Y)) ∧ sumIdx p.shape p.get = 1 ∧
      (sumIdx O fun Y => |p.get (squeezeIdx O Y) - (bornRule D (x.elem Y) (pureDm ψ)).re|) ≤ 2 * (Real.sqrt O.prod * pmfErr ε x ψ)) ∧
    (eps < |(sumIdx D fun I => (pureDm ψ I I).re) - 1| - Real.sqrt O.prod * pmfErr ε x ψ →
      ∃ e, pmfAsArrayF td slow x ψ (.mode .mps) eps .auto = .error e) := by
  obtain ⟨a, h1, h2, h3⟩ := C83_probabilities_mps hε htd slow x ψ O D hx hO hψ hs
  refine pmfAsArrayF_of hO h1 h2 h3 hM ?_
  obtain ⟨φ, f1, f2, f3, f4⟩ := mps_pmps_good hψ hs
  have := C42_pmps_psd φ D (List.replicate D.length 1)
  unfold Psd at this ⊢
  convert this using 1
  ext I J
  exact (f4 I J I.2 J.2).symm

/-- C83: if the relative error times the number of products is at most one, the bound is of first order. -/
theorem C83_first_order {𝕜 : Type} [RCLike 𝕜] {ε : ℝ} (hε : 0 ≤ ε) (x ψ : MPA 𝕜) (h : (3 * x.len + 1) * ε ≤ 1) :
    pmfErr ε x ψ ≤ 2 * (3 * x.len + 1) * ε * (List.zipWith (fun m t => npNorm m * npNorm t ^ 2) x.lt ψ.lt).prod := by
  unfold pmfErr
  refine mul_le_mul_of_nonneg_right ?_ ?_
  · have e1 : (1 + ε) ^ (3 * x.len + 1) ≤ Real.exp ((3 * x.len + 1) * ε) := by
      calc (1 + ε) ^ (3 * x.len + 1) ≤ Real.exp ε ^ (3 * x.len + 1) := by
            refine pow_le_pow_left₀ (by linarith) ?_ _
            linarith [Real.add_one_le_exp ε]
        _ = _ := by rw [← Real.exp_nat_mul]; push_cast; rfl
    have e2 : |Real.exp ((3 * x.len + 1) * ε) - 1| ≤ 2 * |((3 * x.len + 1) * ε : ℝ)| :=
      Real.abs_exp_sub_one_le (by rw [abs_of_nonneg (by positivity)]; exact h)
    rw [abs_of_nonneg (show 0 ≤ ((3 * x.len + 1) * ε : ℝ) by positivity)] at e2
    have := (abs_le.1 e2).2
    linarith
  · rw [← pmfScale_eq]
    unfold pmfScale
    refine List.prod_nonneg fun q hq => ?_
    obtain ⟨t, _, rfl⟩ := List.mem_map.1 hq
    exact mul_nonneg (npNorm_nonneg' _) (sq_nonneg _)

theorem exPmfErr : Real.sqrt (([2, 1] : List ℕ).prod : ℕ) * pmfErr (1 / 10 ^ 13) exPovm exState ≤ 1 / 10 ^ 11 := by
  have h1 := C83_first_order (𝕜 := ℂ) (ε := 1 / 10 ^ 13) (by positivity) exPovm exState (by simp [exPovm, MPA.len]; norm_num)
  have e1 : (List.zipWith (fun m t => npNorm m * npNorm t ^ 2) exPovm.lt exState.lt).prod = Real.sqrt 2 := by
    have a1 : ∀ t, exState.lt[0]? = some t → npNorm t = 1 := by
      rintro t ⟨rfl⟩
      unfold npNorm
      simp [sumIdx, Finset.sum_range_succ]
      norm_num
    have a2 : ∀ t, exPovm.lt[0]? = some t → npNorm t = Real.sqrt 2 := by
      rintro t ⟨rfl⟩
      unfold npNorm
      simp [sumIdx, Finset.sum_range_succ]
      norm_num
    have a3 : npNorm (⟨[1, 1, 1, 1, 1], fun _ => 1⟩ : NDArray ℂ) = 1 := by
      unfold npNorm
      simp [sumIdx]
    have a4 : npNorm (⟨[1, 1, 1, 1], fun _ => 1⟩ : NDArray ℂ) = 1 := by
      unfold npNorm
      simp [sumIdx]
    simp only [exPovm, exState, List.zipWith_cons_cons, List.zipWith_nil_left, List.prod_cons, List.prod_nil, a3, a4]
    rw [a1 _ rfl, a2 _ rfl]
    norm_num
  rw [e1] at h1
  have h2 : Real.sqrt (([2, 1] : List ℕ).prod : ℕ) = Real.sqrt 2 := by norm_num
  rw [h2]
  have h3 : Real.sqrt 2 * Real.sqrt 2 = 2 := Real.mul_self_sqrt (by norm_num)
  have h4 : (exPovm.len : ℝ) = 2 := by norm_num [exPovm, MPA.len]
  rw [h4] at h1
  calc Real.sqrt 2 * pmfErr (1 / 10 ^ 13) exPovm exState ≤ Real.sqrt 2 * (2 * (3 * 2 + 1) * (1 / 10 ^ 13) * Real.sqrt 2) :=
        mul_le_mul_of_nonneg_left h1 (Real.sqrt_nonneg _)
    _ = 28 / 10 ^ 13 := by linear_combination (14 / 10 ^ 13 : ℝ) * h3
    _ ≤ _ := by norm_num

/-- Non-vacuity: the measurement of two sites of `C42.lean`, with an inexact `numpy.tensordot` and the default tolerance `10⁻¹⁰`. -/
example : ∃ p : NDArray ℝ, TdNear (1 / 10 ^ 13) (tdScaled (𝕜 := ℂ) (1 / 10 ^ 13)) ∧
    pmfAsArrayF (tdScaled (1 / 10 ^ 13)) (fun _ => .error .value) exPovm exState (.mode .pmps) (1 / 10 ^ 10) .auto = .ok (p, exState) ∧
    p.shape = [2] ∧ |p.get [0] - 9 / 25| ≤ 1 / 10 ^ 10 := by
  have htd := tdScaled_near (𝕜 := ℂ) (δ := 1 / 10 ^ 13) (by positivity)
  obtain ⟨p, h1, h2, h3, h4, h5⟩ := (C83_pmf_as_array (by positivity) htd (fun _ => .error .value) exPovm exState _ _ _ exPovm_isMpPovm
    (by simp) exPovm_measurement exState_isPmps (.mode .pmps) .auto (.inl ⟨rfl, rfl⟩) (1 / 10 ^ 10)).1 exState_state
    (exPmfErr.trans (by norm_num)) (by norm_num)
  refine ⟨p, htd, h1, h2, ?_⟩
  have e : (bornRule [2, 1] (exPovm.elem [0, 0]) (dm exState [1, 1])).re = 9 / 25 := by
    simp only [bornRule, dm, sumIdx, exState_val, exPovm_elem, Finset.sum_range_succ, Finset.sum_range_zero]
    simp
    norm_num
  have h6 : |p.get [0] - 9 / 25| ≤ sumIdx [2, 1] fun Y => |p.get (squeezeIdx [2, 1] Y) - (bornRule [2, 1] (exPovm.elem Y) (dm exState [1, 1])).re| := by
    rw [sumIdx_eq_sum]
    refine le_trans (le_of_eq ?_) (Finset.single_le_sum (f := fun Y => |p.get (squeezeIdx [2, 1] Y)
      - (bornRule [2, 1] (exPovm.elem Y) (dm exState [1, 1])).re|) (fun _ _ => abs_nonneg _) (a := [0, 0]) (mem_idxSet.2 (by simp)))
    simp only [e, show squeezeIdx [2, 1] [0, 0] = [0] from rfl]
  have := exPmfErr
  have h7 : (1 : ℝ) / 10 ^ 10 = 10 * (1 / 10 ^ 11) := by norm_num
  have h8 : (0 : ℝ) ≤ 1 / 10 ^ 11 := by positivity
  linarith

end Mpnum
