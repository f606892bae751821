import Verif.Props.C61Exact
import Verif.Oracle.Generic
import Mathlib.Probability.Distributions.Gaussian.Real

/-! # C61: `randomized_svd` of a matrix of low rank is exact with probability one -/

open Finset Matrix MeasureTheory

namespace Mpnum

variable {𝕜 : Type} [RCLike 𝕜]

/-- The array of `N × p` random numbers; `ω b a` is the entry in row `a` and column `b`.  (The entries do not depend on
the shape asked for: the code asks for one shape only.) -/
def drawArr {p N : ℕ} (ω : Fin p → Fin N → 𝕜) : ℕ → ℕ → NDArray 𝕜 := fun a b =>
  ⟨[a, b], fun idx => if h : idx.getD 0 0 < N ∧ idx.getD 1 0 < p then ω ⟨idx.getD 1 0, h.2⟩ ⟨idx.getD 0 0, h.1⟩ else 0⟩

variable [MeasurableSpace 𝕜] [BorelSpace 𝕜]

/-- If `M` is a sum of at most `p` products, independent random numbers with an atomless law almost surely capture its
range. -/
theorem spans_ae (ν : Measure 𝕜) [SigmaFinite ν] [NullSingletonClass ν] {M : ℕ → ℕ → 𝕜} {m n p : ℕ}
    (hM : ∃ x y : ℕ → ℕ → 𝕜, ∀ i < m, ∀ j < n, M i j = ∑ c ∈ range p, x i c * y c j) :
    ∀ᵐ ω ∂(Measure.pi fun _ : Fin p => Measure.pi fun _ : Fin n => ν), Spans M (drawArr ω n p) m n p := by
  obtain ⟨x, y, hxy⟩ := hM
  let A : Matrix (Fin m) (Fin n) 𝕜 := Matrix.of fun i j => M i j
  have hA : A = (Matrix.of fun (i : Fin m) (c : Fin p) => x i c) * Matrix.of fun (c : Fin p) (j : Fin n) => y c j := by
    ext i j
    simp only [A, Matrix.mul_apply, Matrix.of_apply]
    rw [hxy i i.2 j j.2, ← Fin.sum_univ_eq_sum_range (fun c => x i c * y c j)]
  have hr : Module.finrank 𝕜 (LinearMap.range A.mulVecLin) ≤ p := by
    show A.rank ≤ p
    rw [hA]
    refine (Matrix.rank_mul_le_left _ _).trans ?_
    simpa using Matrix.rank_le_card_width (Matrix.of fun (i : Fin m) (c : Fin p) => x i c)
  filter_upwards [ae_span_range _ (fun W hW => ae_not_mem_subspace ν W hW) A.mulVecLin p hr] with ω hω
  have hcol : ∀ j : Fin n, ∃ z : Fin p → 𝕜, ∑ b, z b • A.mulVecLin (ω b) = A.mulVecLin (Pi.single j 1) := fun j =>
    (Submodule.mem_span_range_iff_exists_fun 𝕜).1 (hω ⟨_, rfl⟩)
  choose z hz using hcol
  refine ⟨fun b j => if h : b < p ∧ j < n then z ⟨j, h.2⟩ ⟨b, h.1⟩ else 0, ?_⟩
  intro i hi j hj
  have h1 := congrFun (hz ⟨j, hj⟩) ⟨i, hi⟩
  simp only [Matrix.mulVecLin_apply, Finset.sum_apply, Pi.smul_apply, smul_eq_mul, Matrix.mulVec_single_one, Matrix.col_apply,
    Matrix.of_apply, A] at h1
  rw [← h1, ← Fin.sum_univ_eq_sum_range (fun b => (∑ a ∈ range n, M i a * (drawArr ω n p).get [a, b]) *
    (if h : b < p ∧ j < n then z ⟨j, h.2⟩ ⟨b, h.1⟩ else 0))]
  refine Finset.sum_congr rfl fun b _ => ?_
  rw [dif_pos ⟨b.2, hj⟩, mul_comm, ← Fin.sum_univ_eq_sum_range (fun a => M i a * (drawArr ω n p).get [a, (b : ℕ)])]
  congr 1
  simp only [Matrix.mulVec, dotProduct, Matrix.of_apply]
  refine Finset.sum_congr rfl fun a _ => ?_
  simp [drawArr]

/-- C61: let the random numbers be independent with an atomless law (such as the standard normal distribution, real or
complex).  With probability one, `randomized_svd` of every matrix whose rank is at most `n_components + n_oversamples`
returns the singular values of `truncated_svd` and true singular vectors on both sides, and no matrix of rank
`n_components` is closer to the matrix than the result: for any number of power iterations, any normalisation and with
or without transposition. -/
theorem C61_almost_surely {qr : QR 𝕜} (hqr : QRSpec qr) {lu : LU 𝕜} (hlu : LUSpec lu) {svd : SVD 𝕜} (h : SVDSpec svd)
    {dtype : Dtype} (ht : dtype ≠ .other) (ν : Measure 𝕜) [SigmaFinite ν] [NullSingletonClass ν]
    (M : NDArray 𝕜) {m n : ℕ} (hM : M.shape = [m, n]) (k o : ℕ) (nIter : Option ℤ) (nrm : Normalizer) (transpose : Option Bool)
    (hr : ∃ x y : ℕ → ℕ → 𝕜, ∀ i < m, ∀ j < n, M.get [i, j] = ∑ c ∈ range (k + o), x i c * y c j) :
    ∀ᵐ ω ∂(Measure.pi fun _ : Fin (k + o) => Measure.pi fun _ : Fin (if transposed transpose m n then m else n) => ν),
      ∃ (u v : NDArray 𝕜) (s : List ℝ), randomizedSvd qr lu svd dtype (drawArr ω) M k o nIter nrm transpose = .ok (u, s, v) ∧
        s = (truncatedSvd svd M k).2.1 ∧ Frames u v s m n ∧ Trunc M u v s m n s.length ∧
        (∀ x y : ℕ → ℕ → 𝕜, distSq m n (fun i j => M.get [i, j]) (usv u v s) ≤
          distSq m n (fun i j => M.get [i, j]) fun i j => ∑ c ∈ range k, x i c * y c j) ∧
        (min m n ≤ k → ∀ i < m, ∀ j < n, M.get [i, j] = usv u v s i j) := by
  have key : ∀ᵐ ω ∂(Measure.pi fun _ : Fin (k + o) => Measure.pi fun _ : Fin (if transposed transpose m n then m else n) => ν),
      DrawSpans M m n (k + o) (drawArr ω) transpose := by
    unfold DrawSpans
    cases htr : transposed transpose m n with
    | false =>
      simp only [Bool.false_eq_true, if_false]
      exact spans_ae ν hr
    | true =>
      simp only [if_true]
      refine spans_ae ν (M := fun i j => star (M.get [j, i])) ?_
      obtain ⟨x, y, hxy⟩ := hr
      refine ⟨fun i c => star (y c i), fun c j => star (x j c), fun i hi j hj => ?_⟩
      rw [hxy j hj i hi, star_sum]
      refine Finset.sum_congr rfl fun c _ => ?_
      rw [star_mul', mul_comm]
  filter_upwards [key] with ω hω
  exact C61_exact hqr hlu h ht (drawArr ω) (fun _ _ => rfl) M hM k o nIter nrm transpose hω

/-- The law of the entries for real matrices (extmath.py:150): the standard normal distribution -/
example : IsProbabilityMeasure (ProbabilityTheory.gaussianReal 0 1) ∧ NullSingletonClass (ProbabilityTheory.gaussianReal 0 1) :=
  ⟨inferInstance, ProbabilityTheory.nullSingletonClass_gaussianReal one_ne_zero⟩

/-- The law of the entries for complex matrices (extmath.py:152): `x + 1.j * y` for independent standard normal numbers -/
noncomputable def complexNormal : Measure ℂ :=
  ((ProbabilityTheory.gaussianReal 0 1).prod (ProbabilityTheory.gaussianReal 0 1)).map fun x : ℝ × ℝ => (x.1 : ℂ) + Complex.I * x.2

theorem complexNormal_measurable : Measurable fun x : ℝ × ℝ => (x.1 : ℂ) + Complex.I * x.2 := by fun_prop

instance : IsProbabilityMeasure complexNormal := Measure.isProbabilityMeasure_map complexNormal_measurable.aemeasurable

instance : NullSingletonClass complexNormal := by
  refine ⟨fun z => ?_⟩
  rw [complexNormal, Measure.map_apply complexNormal_measurable (measurableSet_singleton z)]
  have : (fun x : ℝ × ℝ => (x.1 : ℂ) + Complex.I * x.2) ⁻¹' {z} ⊆ {z.re} ×ˢ Set.univ := by
    rintro ⟨a, b⟩ hab
    simp only [Set.mem_preimage, Set.mem_singleton_iff] at hab
    have := congrArg Complex.re hab
    simp at this
    simp [this]
  refine measure_mono_null this ?_
  rw [Measure.prod_prod]
  haveI : NullSingletonClass (ProbabilityTheory.gaussianReal 0 1) := ProbabilityTheory.nullSingletonClass_gaussianReal one_ne_zero
  simp

/-- Example: a `3 × 3` matrix of rank two, one component and one oversample, complex normal random numbers. -/
example : ∃ (qr : QR ℂ) (lu : LU ℂ) (svd : SVD ℂ) (M : NDArray ℂ), QRSpec qr ∧ LUSpec lu ∧ SVDSpec svd ∧ M.shape = [3, 3] ∧
    ∀ᵐ ω ∂(Measure.pi fun _ : Fin (1 + 1) => Measure.pi fun _ : Fin 3 => complexNormal),
      ∃ u v, randomizedSvd qr lu svd .complex (drawArr ω) M 1 1 none .auto none = .ok (u, (truncatedSvd svd M 1).2.1, v) := by
  obtain ⟨qr, h1⟩ := exists_QRSpec (𝕜 := ℂ)
  obtain ⟨lu, h2⟩ := exists_LUSpec (𝕜 := ℂ)
  obtain ⟨svd, h3⟩ := exists_SVDSpec (𝕜 := ℂ)
  refine ⟨qr, lu, svd, ⟨[3, 3], fun i => (i.getD 0 0 : ℂ) + (i.getD 1 0 : ℂ)⟩, h1, h2, h3, rfl, ?_⟩
  have := C61_almost_surely h1 h2 h3 (dtype := .complex) (by simp) complexNormal
    ⟨[3, 3], fun i => (i.getD 0 0 : ℂ) + (i.getD 1 0 : ℂ)⟩ (m := 3) (n := 3) rfl 1 1 none .auto none
    ⟨fun i c => if c = 0 then (i : ℂ) else 1, fun c j => if c = 0 then 1 else (j : ℂ), by
      intro i _ j _
      simp [Finset.sum_range_succ]⟩
  simp only [transposed, Option.getD_none, lt_irrefl, decide_false, Bool.false_eq_true, if_false] at this
  filter_upwards [this] with ω hω
  obtain ⟨u, v, s, e1, rfl, -⟩ := hω
  exact ⟨u, v, e1⟩

end Mpnum
