import Verif.Oracle.QR
import Mathlib.LinearAlgebra.Matrix.Trace
import Mathlib.LinearAlgebra.Matrix.ConjTranspose
import Mathlib.LinearAlgebra.Matrix.ToLinearEquiv

/-! The theorem of Eckart and Young for the Frobenius norm: no matrix of rank at most `k` is closer to `A` than the
truncated singular value decomposition.  The matrices are those of Mathlib; nothing here is about the code. -/

open Finset Matrix

namespace Mpnum

variable {𝕜 : Type} [RCLike 𝕜]

/-- The squared Frobenius norm -/
def frobSq {m n : ℕ} (A : Matrix (Fin m) (Fin n) 𝕜) : ℝ := ∑ i, ∑ j, ‖A i j‖ ^ 2

variable {m n p q t : ℕ}

theorem frobSq_nonneg (A : Matrix (Fin m) (Fin n) 𝕜) : 0 ≤ frobSq A :=
  Finset.sum_nonneg fun _ _ => Finset.sum_nonneg fun _ _ => sq_nonneg _

theorem frobSq_trace (A : Matrix (Fin m) (Fin n) 𝕜) : ((frobSq A : ℝ) : 𝕜) = trace (Aᴴ * A) := by
  simp only [frobSq, Matrix.trace, Matrix.diag_apply, Matrix.mul_apply, Matrix.conjTranspose_apply]
  rw [Finset.sum_comm]
  push_cast
  refine Finset.sum_congr rfl fun j _ => Finset.sum_congr rfl fun i _ => ?_
  rw [RCLike.star_def, RCLike.conj_mul]

theorem frobSq_conjTranspose (A : Matrix (Fin m) (Fin n) 𝕜) : frobSq Aᴴ = frobSq A := by
  simp only [frobSq, Matrix.conjTranspose_apply, norm_star]
  rw [Finset.sum_comm]

theorem frobSq_one : frobSq (1 : Matrix (Fin n) (Fin n) 𝕜) = n := by
  simp [frobSq, Matrix.one_apply, apply_ite]

/-- Multiplication with orthonormal columns does not change the norm. -/
theorem frobSq_isometry {Q : Matrix (Fin m) (Fin q) 𝕜} (hQ : Qᴴ * Q = 1) (X : Matrix (Fin q) (Fin n) 𝕜) :
    frobSq (Q * X) = frobSq X := by
  have : ((frobSq (Q * X) : ℝ) : 𝕜) = ((frobSq X : ℝ) : 𝕜) := by
    rw [frobSq_trace, frobSq_trace, Matrix.conjTranspose_mul, Matrix.mul_assoc, ← Matrix.mul_assoc Qᴴ, hQ, Matrix.one_mul]
  exact_mod_cast this

theorem frobSq_coisometry {V : Matrix (Fin q) (Fin n) 𝕜} (hV : V * Vᴴ = 1) (X : Matrix (Fin m) (Fin q) 𝕜) :
    frobSq (X * V) = frobSq X := by
  rw [← frobSq_conjTranspose, Matrix.conjTranspose_mul, frobSq_isometry (by rw [Matrix.conjTranspose_conjTranspose, hV]),
    frobSq_conjTranspose]

/-- If `Bᴴ A` and `Bᴴ B` have the same trace, `B` is the projection of `A` onto its direction. -/
theorem frobSq_sub {A B : Matrix (Fin m) (Fin n) 𝕜} (h : trace (Bᴴ * A) = trace (Bᴴ * B)) :
    frobSq (A - B) = frobSq A - frobSq B := by
  have h' : trace (Aᴴ * B) = trace (Bᴴ * B) := by
    have := congrArg star h
    rw [← Matrix.trace_conjTranspose, ← Matrix.trace_conjTranspose] at this
    simpa using this
  have : ((frobSq (A - B) : ℝ) : 𝕜) = ((frobSq A - frobSq B : ℝ) : 𝕜) := by
    rw [RCLike.ofReal_sub, frobSq_trace, frobSq_trace, frobSq_trace, Matrix.conjTranspose_sub, Matrix.sub_mul, Matrix.mul_sub, Matrix.mul_sub,
      Matrix.trace_sub, Matrix.trace_sub, Matrix.trace_sub, h, h']
    ring
  exact_mod_cast this

/-- The best approximation of `A` in the range of `Q`. -/
theorem frobSq_proj {Q : Matrix (Fin m) (Fin q) 𝕜} (hQ : Qᴴ * Q = 1) (A : Matrix (Fin m) (Fin n) 𝕜) :
    frobSq (A - Q * (Qᴴ * A)) = frobSq A - frobSq (Qᴴ * A) := by
  rw [frobSq_sub, frobSq_isometry hQ]
  simp only [Matrix.conjTranspose_mul, Matrix.conjTranspose_conjTranspose, Matrix.mul_assoc]
  rw [← Matrix.mul_assoc Qᴴ Q (Qᴴ * A), hQ, Matrix.one_mul]

theorem frobSq_proj_le {Q : Matrix (Fin m) (Fin q) 𝕜} (hQ : Qᴴ * Q = 1) (A : Matrix (Fin m) (Fin n) 𝕜) :
    frobSq (Qᴴ * A) ≤ frobSq A := by
  have := frobSq_proj hQ A
  have := frobSq_nonneg (A - Q * (Qᴴ * A))
  linarith

theorem frobSq_proj_best {Q : Matrix (Fin m) (Fin q) 𝕜} (hQ : Qᴴ * Q = 1) (A : Matrix (Fin m) (Fin n) 𝕜)
    (Z : Matrix (Fin q) (Fin n) 𝕜) : frobSq (A - Q * Z) = frobSq A - frobSq (Qᴴ * A) + frobSq (Qᴴ * A - Z) := by
  have h : frobSq (A - Q * Z - (A - Q * (Qᴴ * A))) = frobSq (A - Q * Z) - frobSq (A - Q * (Qᴴ * A)) := by
    refine frobSq_sub ?_
    congr 1
    have hz : (A - Q * (Qᴴ * A))ᴴ * Q = 0 := by
      rw [← Matrix.conjTranspose_inj, Matrix.conjTranspose_mul, Matrix.conjTranspose_conjTranspose, Matrix.mul_sub,
        ← Matrix.mul_assoc Qᴴ Q, hQ, Matrix.one_mul, sub_self, Matrix.conjTranspose_zero]
    rw [Matrix.mul_sub, Matrix.mul_sub _ A, ← Matrix.mul_assoc _ Q, ← Matrix.mul_assoc _ Q, hz, Matrix.zero_mul, Matrix.zero_mul]
  rw [frobSq_proj hQ] at h
  have e : A - Q * Z - (A - Q * (Qᴴ * A)) = Q * (Qᴴ * A - Z) := by rw [Matrix.mul_sub]; abel
  rw [e, frobSq_isometry hQ] at h
  linarith

theorem exists_qr_fin (X : Matrix (Fin m) (Fin n) 𝕜) :
    ∃ (Q : Matrix (Fin m) (Fin (min m n)) 𝕜) (S : Matrix (Fin (min m n)) (Fin n) 𝕜), Q * S = X ∧ Qᴴ * Q = 1 := by
  obtain ⟨q, r, h1, h2⟩ := exists_qr_matrix m n fun i j => if h : i < m ∧ j < n then X ⟨i, h.1⟩ ⟨j, h.2⟩ else 0
  refine ⟨Matrix.of fun i k => q i k, Matrix.of fun k j => r k j, ?_, ?_⟩
  · ext i j
    have := h1 i i.2 j j.2
    rw [← Fin.sum_univ_eq_sum_range (fun k => q i k * r k j)] at this
    rw [Matrix.mul_apply]
    simpa using this
  · ext i j
    have := h2 i i.2 j j.2
    rw [← Fin.sum_univ_eq_sum_range (fun k => star (q k i) * q k j)] at this
    rw [Matrix.mul_apply, Matrix.one_apply]
    simpa [Fin.ext_iff] using this

/-- A convex combination of at most `k` of the weights `f` is at most the sum of the `k` largest ones. -/
theorem weighted_le {t k : ℕ} {f w : ℕ → ℝ} (hf : ∀ i j, i ≤ j → j < t → f j ≤ f i) (hf0 : ∀ i < t, 0 ≤ f i)
    (hw0 : ∀ i < t, 0 ≤ w i) (hw1 : ∀ i < t, w i ≤ 1) (hk : ∑ i ∈ range t, w i ≤ k) :
    ∑ i ∈ range t, f i * w i ≤ ∑ i ∈ range (min k t), f i := by
  rcases le_or_gt t k with h | h
  · rw [min_eq_right h]
    refine Finset.sum_le_sum fun i hi => ?_
    have hi : i < t := by simpa using hi
    have := hf0 i hi; have := hw1 i hi
    nlinarith
  · rw [min_eq_left h.le]
    have e1 : ∑ i ∈ range t, f i * w i = (∑ i ∈ range k, f i * w i) + ∑ i ∈ Ico k t, f i * w i :=
      (Finset.sum_range_add_sum_Ico _ h.le).symm
    have e2 : ∑ i ∈ range t, w i = (∑ i ∈ range k, w i) + ∑ i ∈ Ico k t, w i :=
      (Finset.sum_range_add_sum_Ico _ h.le).symm
    have e3 : ∑ i ∈ Ico k t, f i * w i ≤ f k * ∑ i ∈ Ico k t, w i := by
      rw [Finset.mul_sum]
      refine Finset.sum_le_sum fun i hi => ?_
      have hi := Finset.mem_Ico.1 hi
      exact mul_le_mul_of_nonneg_right (hf k i hi.1 hi.2) (hw0 i hi.2)
    have e4 : f k * ∑ i ∈ range k, (1 - w i) ≤ ∑ i ∈ range k, f i * (1 - w i) := by
      rw [Finset.mul_sum]
      refine Finset.sum_le_sum fun i hi => ?_
      have hi : i < k := by simpa using hi
      exact mul_le_mul_of_nonneg_right (hf i k hi.le h) (by have := hw1 i (by omega); linarith)
    have e5 : ∑ i ∈ range k, (1 - w i) = k - ∑ i ∈ range k, w i := by simp
    have e6 : ∑ i ∈ range k, f i * (1 - w i) = ∑ i ∈ range k, f i - ∑ i ∈ range k, f i * w i := by
      rw [← Finset.sum_sub_distrib]; exact Finset.sum_congr rfl fun i _ => by ring
    have hfk := hf0 k h
    rw [e5] at e4
    rw [e6] at e4
    nlinarith

/-- The theorem of Eckart and Young: `U`, `s`, `V` are a singular value decomposition of `A`. -/
theorem eckart_young {A : Matrix (Fin m) (Fin n) 𝕜} {U : Matrix (Fin m) (Fin t) 𝕜} {V : Matrix (Fin t) (Fin n) 𝕜} {s : ℕ → ℝ}
    (hU : Uᴴ * U = 1) (hV : V * Vᴴ = 1) (hs : ∀ i j, i ≤ j → j < t → s j ≤ s i) (hs0 : ∀ i < t, 0 ≤ s i)
    (hA : A = U * Matrix.diagonal (fun c : Fin t => ((s c : ℝ) : 𝕜)) * V) {k : ℕ}
    (X : Matrix (Fin m) (Fin k) 𝕜) (Y : Matrix (Fin k) (Fin n) 𝕜) :
    ∑ c ∈ Ico k t, s c ^ 2 ≤ frobSq (A - X * Y) := by
  obtain ⟨Q, S, hX, hQ⟩ := exists_qr_fin X
  rw [← hX, Matrix.mul_assoc, frobSq_proj_best hQ]
  have hpos := frobSq_nonneg (Qᴴ * A - S * Y)
  have hAn : frobSq A = ∑ c ∈ range t, s c ^ 2 := by
    rw [hA, frobSq_coisometry hV, frobSq_isometry hU, ← Fin.sum_univ_eq_sum_range (fun c => s c ^ 2) t]
    simp only [frobSq, Matrix.diagonal_apply]
    refine Finset.sum_congr rfl fun i _ => ?_
    rw [Finset.sum_eq_single i (fun j _ hj => by simp [Ne.symm hj]) (by simp)]
    simp
  let w : ℕ → ℝ := fun c => if h : c < t then ∑ a, ‖(Qᴴ * U) a ⟨c, h⟩‖ ^ 2 else 0
  have hQA : frobSq (Qᴴ * A) = ∑ c ∈ range t, s c ^ 2 * w c := by
    rw [hA, Matrix.mul_assoc, ← Matrix.mul_assoc Qᴴ, ← Matrix.mul_assoc (Qᴴ * U), frobSq_coisometry hV,
      ← Fin.sum_univ_eq_sum_range (fun c => s c ^ 2 * w c) t]
    simp only [frobSq]
    rw [Finset.sum_comm]
    refine Finset.sum_congr rfl fun c _ => ?_
    simp only [w, c.2, dif_pos, Finset.mul_sum, Matrix.mul_diagonal]
    refine Finset.sum_congr rfl fun a _ => ?_
    rw [norm_mul, mul_pow, RCLike.norm_ofReal, sq_abs, mul_comm]
  have hw0 : ∀ i < t, 0 ≤ w i := fun i hi => by
    simp only [w, hi, dif_pos]; exact Finset.sum_nonneg fun _ _ => sq_nonneg _
  have hw1 : ∀ i < t, w i ≤ 1 := fun i hi => by
    let e : Matrix (Fin m) (Fin 1) 𝕜 := Matrix.of fun a _ => U a ⟨i, hi⟩
    have h1 := frobSq_proj_le hQ e
    have h2 : frobSq e = 1 := by
      have : ((frobSq e : ℝ) : 𝕜) = 1 := by
        rw [frobSq_trace]
        have := congrFun (congrFun hU ⟨i, hi⟩) ⟨i, hi⟩
        rw [Matrix.one_apply_eq, Matrix.mul_apply] at this
        simpa [Matrix.trace, Matrix.mul_apply, e] using this
      exact_mod_cast this
    have h3 : frobSq (Qᴴ * e) = w i := by
      simp [frobSq, w, hi, e, Matrix.mul_apply]
    linarith
  have hk : ∑ i ∈ range t, w i ≤ k := by
    have h1 : ∑ i ∈ range t, w i = frobSq (Qᴴ * U) := by
      rw [← Fin.sum_univ_eq_sum_range w t]
      simp only [frobSq]
      rw [Finset.sum_comm]
      exact Finset.sum_congr rfl fun c _ => by simp [w]
    have h2 : frobSq (Qᴴ * U) ≤ frobSq Q := by
      have := frobSq_proj_le hU Q
      rwa [← frobSq_conjTranspose, Matrix.conjTranspose_mul, Matrix.conjTranspose_conjTranspose] at this
    have h3 : frobSq Q = (min m k : ℕ) := by
      have := frobSq_isometry hQ (1 : Matrix (Fin (min m k)) (Fin (min m k)) 𝕜)
      rwa [Matrix.mul_one, frobSq_one] at this
    have h4 : ((min m k : ℕ) : ℝ) ≤ k := by exact_mod_cast min_le_right m k
    linarith
  have key := weighted_le (f := fun c => s c ^ 2) (w := w) (k := k)
    (fun i j hij hj => pow_le_pow_left₀ (hs0 j hj) (hs i j hij hj) 2) (fun i _ => sq_nonneg _) hw0 hw1 hk
  rw [hAn, hQA]
  have e : ∑ c ∈ range t, s c ^ 2 = ∑ c ∈ range (min k t), s c ^ 2 + ∑ c ∈ Ico k t, s c ^ 2 := by
    rcases le_or_gt t k with h | h
    · rw [min_eq_right h, Finset.Ico_eq_empty (by omega)]; simp
    · rw [min_eq_left h.le]; exact (Finset.sum_range_add_sum_Ico _ h.le).symm
  linarith

/-- The error of the truncated singular value decomposition -/
theorem svd_trunc_error {U : Matrix (Fin m) (Fin t) 𝕜} {V : Matrix (Fin t) (Fin n) 𝕜} {s : ℕ → ℝ}
    (hU : Uᴴ * U = 1) (hV : V * Vᴴ = 1) (k : ℕ) :
    frobSq (U * Matrix.diagonal (fun c : Fin t => ((s c : ℝ) : 𝕜)) * V
      - U * Matrix.diagonal (fun c : Fin t => if (c : ℕ) < k then ((s c : ℝ) : 𝕜) else 0) * V) = ∑ c ∈ Ico k t, s c ^ 2 := by
  rw [← Matrix.sub_mul, ← Matrix.mul_sub, frobSq_coisometry hV, frobSq_isometry hU, Matrix.diagonal_sub]
  simp only [frobSq, Matrix.diagonal_apply]
  have : ∀ i : Fin t, (∑ j : Fin t, ‖if i = j then ((s i : ℝ) : 𝕜) - (if (i : ℕ) < k then ((s i : ℝ) : 𝕜) else 0) else 0‖ ^ 2)
      = if (i : ℕ) < k then 0 else s i ^ 2 := by
    intro i
    rw [Finset.sum_eq_single i (fun j _ hj => by simp [Ne.symm hj]) (by simp), if_pos rfl]
    split_ifs <;> simp
  rw [Finset.sum_congr rfl fun i _ => this i, Fin.sum_univ_eq_sum_range (fun i => if i < k then 0 else s i ^ 2) t]
  rcases le_or_gt t k with h | h
  · rw [Finset.Ico_eq_empty (by omega), Finset.sum_empty]
    refine Finset.sum_eq_zero fun i hi => ?_
    rw [if_pos (by have : i < t := by simpa using hi
                   omega)]
  · rw [← Finset.sum_range_add_sum_Ico _ h.le, Finset.sum_eq_zero (s := range k) (fun i hi => if_pos (by simpa using hi)), zero_add]
    refine Finset.sum_congr rfl fun i hi => if_neg ?_
    have := (Finset.mem_Ico.1 hi).1
    omega

/-- The truncated singular value decomposition has rank at most `k`. -/
theorem svd_trunc_factor (U : Matrix (Fin m) (Fin t) 𝕜) (V : Matrix (Fin t) (Fin n) 𝕜) (d : Fin t → 𝕜) (k : ℕ) :
    ∃ (X : Matrix (Fin m) (Fin k) 𝕜) (Y : Matrix (Fin k) (Fin n) 𝕜),
      U * Matrix.diagonal (fun c : Fin t => if (c : ℕ) < k then d c else 0) * V = X * Y := by
  refine ⟨Matrix.of fun i c => if h : (c : ℕ) < t then U i ⟨c, h⟩ else 0,
    Matrix.of fun c j => if h : (c : ℕ) < t then d ⟨c, h⟩ * V ⟨c, h⟩ j else 0, ?_⟩
  ext i j
  let g : ℕ → 𝕜 := fun c => if h : c < t then (if c < k then U i ⟨c, h⟩ * (d ⟨c, h⟩ * V ⟨c, h⟩ j) else 0) else 0
  have e1 : (U * Matrix.diagonal (fun c : Fin t => if (c : ℕ) < k then d c else 0) * V) i j = ∑ c ∈ range t, g c := by
    rw [← Fin.sum_univ_eq_sum_range g t, Matrix.mul_apply]
    refine Finset.sum_congr rfl fun c _ => ?_
    simp only [Matrix.mul_diagonal, g, c.2, dif_pos]
    split_ifs <;> simp [mul_assoc]
  have e2 : (Matrix.of (fun i (c : Fin k) => if h : (c : ℕ) < t then U i ⟨c, h⟩ else 0) *
      Matrix.of fun (c : Fin k) j => if h : (c : ℕ) < t then d ⟨c, h⟩ * V ⟨c, h⟩ j else 0) i j = ∑ c ∈ range k, g c := by
    rw [← Fin.sum_univ_eq_sum_range g k, Matrix.mul_apply]
    refine Finset.sum_congr rfl fun c _ => ?_
    simp only [Matrix.of_apply, g, c.2, if_true]
    split_ifs <;> simp
  rw [e1, e2]
  rcases le_total t k with h | h
  · refine Finset.sum_subset (by simpa using h) fun c _ hc => ?_
    have : ¬ c < t := by simpa using hc
    simp [g, this]
  · symm
    refine Finset.sum_subset (by simpa using h) fun c _ hc => ?_
    have : ¬ c < k := by simpa using hc
    simp [g, this]

/-- Two singular value decompositions of the same matrix: the sums of the discarded squares agree. -/
theorem svd_tail_le {t' : ℕ} {A : Matrix (Fin m) (Fin n) 𝕜} {U : Matrix (Fin m) (Fin t) 𝕜} {V : Matrix (Fin t) (Fin n) 𝕜} {s : ℕ → ℝ}
    (hU : Uᴴ * U = 1) (hV : V * Vᴴ = 1) (hs : ∀ i j, i ≤ j → j < t → s j ≤ s i) (hs0 : ∀ i < t, 0 ≤ s i)
    (hA : A = U * Matrix.diagonal (fun c : Fin t => ((s c : ℝ) : 𝕜)) * V)
    {U' : Matrix (Fin m) (Fin t') 𝕜} {V' : Matrix (Fin t') (Fin n) 𝕜} {s' : ℕ → ℝ}
    (hU' : U'ᴴ * U' = 1) (hV' : V' * V'ᴴ = 1) (hA' : A = U' * Matrix.diagonal (fun c : Fin t' => ((s' c : ℝ) : 𝕜)) * V') (k : ℕ) :
    ∑ c ∈ Ico k t, s c ^ 2 ≤ ∑ c ∈ Ico k t', s' c ^ 2 := by
  obtain ⟨X, Y, hXY⟩ := svd_trunc_factor U' V' (fun c : Fin t' => ((s' c : ℝ) : 𝕜)) k
  have h1 := eckart_young hU hV hs hs0 hA X Y
  rw [← hXY] at h1
  conv at h1 => rhs; rw [hA']
  rwa [svd_trunc_error hU' hV'] at h1

/-- The singular values of `Qᴴ A` for orthonormal columns `Q` do not exceed those of `A`. -/
theorem svd_interlace {t' : ℕ} {A : Matrix (Fin m) (Fin n) 𝕜} {Q : Matrix (Fin m) (Fin q) 𝕜} (hQ : Qᴴ * Q = 1)
    {U : Matrix (Fin q) (Fin t) 𝕜} {V : Matrix (Fin t) (Fin n) 𝕜} {s : ℕ → ℝ}
    (hU : Uᴴ * U = 1) (hV : V * Vᴴ = 1) (hs : ∀ i j, i ≤ j → j < t → s j ≤ s i) (hs0 : ∀ i < t, 0 ≤ s i)
    (hB : Qᴴ * A = U * Matrix.diagonal (fun c : Fin t => ((s c : ℝ) : 𝕜)) * V)
    {U' : Matrix (Fin m) (Fin t') 𝕜} {V' : Matrix (Fin t') (Fin n) 𝕜} {s' : ℕ → ℝ}
    (hU' : U'ᴴ * U' = 1) (hV' : V' * V'ᴴ = 1) (hs' : ∀ i j, i ≤ j → j < t' → s' j ≤ s' i) (hs0' : ∀ i < t', 0 ≤ s' i)
    (hA : A = U' * Matrix.diagonal (fun c : Fin t' => ((s' c : ℝ) : 𝕜)) * V') {c : ℕ} (hc : c < t) :
    s c ≤ if c < t' then s' c else 0 := by
  let L : Matrix (Fin t) (Fin t) 𝕜 := Matrix.of fun i j =>
    if (i : ℕ) < c then (if h : (i : ℕ) < t' then (V' * Vᴴ) ⟨i, h⟩ j else 0) else if (i : ℕ) = c then 0 else if i = j then 1 else 0
  have hdet : L.det = 0 := by
    refine Matrix.det_eq_zero_of_row_eq_zero ⟨c, hc⟩ fun j => ?_
    simp [L]
  obtain ⟨z, hz0, hz⟩ := Matrix.exists_mulVec_eq_zero_iff.2 hdet
  let Z : Matrix (Fin t) (Fin 1) 𝕜 := Matrix.of fun i _ => z i
  -- entries of `z` beyond `c` vanish
  have hz1 : ∀ i : Fin t, c < i → z i = 0 := by
    intro i hi
    have := congrFun hz i
    simp only [Matrix.mulVec, dotProduct, L, Matrix.of_apply] at this
    simpa [show ¬ (i : ℕ) < c by omega, show (i : ℕ) ≠ c by omega] using this
  let x : Matrix (Fin n) (Fin 1) 𝕜 := Vᴴ * Z
  have hz2 : ∀ b : Fin t', (b : ℕ) < c → (V' * x) b 0 = 0 := by
    intro b hb
    have := congrFun hz ⟨b, by omega⟩
    simp only [Matrix.mulVec, dotProduct, L, Matrix.of_apply, hb, if_true, b.2, dif_pos] at this
    rw [show V' * x = V' * Vᴴ * Z from (Matrix.mul_assoc _ _ _).symm, Matrix.mul_apply]
    simpa [Z] using this
  have hx : frobSq x = frobSq Z := frobSq_isometry (by rw [Matrix.conjTranspose_conjTranspose, hV]) Z
  have hZ : frobSq Z = ∑ i, ‖z i‖ ^ 2 := by simp [frobSq, Z]
  have hZpos : 0 < frobSq Z := by
    rw [hZ]
    obtain ⟨i, hi⟩ := Function.ne_iff.1 hz0
    have hi : z i ≠ 0 := hi
    exact Finset.sum_pos' (fun _ _ => sq_nonneg _) ⟨i, Finset.mem_univ _, by have := norm_pos_iff.2 hi; positivity⟩
  have hdiag : ∀ {r : ℕ} (f : ℕ → ℝ) (y : Matrix (Fin r) (Fin 1) 𝕜),
      frobSq (Matrix.diagonal (fun a : Fin r => ((f a : ℝ) : 𝕜)) * y) = ∑ a : Fin r, f a ^ 2 * ‖y a 0‖ ^ 2 := by
    intro r f y
    simp only [frobSq, Matrix.diagonal_mul, Fin.sum_univ_one, Fin.isValue, norm_mul, mul_pow, RCLike.norm_ofReal, sq_abs, Finset.univ_unique, Fin.default_eq_zero, Finset.sum_singleton]
  -- lower bound
  have h1 : s c ^ 2 * frobSq Z ≤ frobSq (Qᴴ * A * x) := by
    rw [hB, Matrix.mul_assoc, Matrix.mul_assoc, frobSq_isometry hU, show V * x = Z by rw [show V * x = V * Vᴴ * Z from (Matrix.mul_assoc _ _ _).symm, hV, Matrix.one_mul],
      hdiag, hZ, Finset.mul_sum]
    refine Finset.sum_le_sum fun i _ => ?_
    rcases le_or_gt (i : ℕ) c with hi | hi
    · exact mul_le_mul_of_nonneg_right (pow_le_pow_left₀ (hs0 c hc) (hs i c hi hc) 2) (sq_nonneg _)
    · simp [Z, hz1 i hi]
  have h2 : frobSq (Qᴴ * A * x) ≤ frobSq (A * x) := by rw [Matrix.mul_assoc]; exact frobSq_proj_le hQ _
  have h3 : frobSq (A * x) ≤ (if c < t' then s' c else 0) ^ 2 * frobSq Z := by
    rw [hA, Matrix.mul_assoc, Matrix.mul_assoc, frobSq_isometry hU', hdiag]
    have h4 : frobSq (V' * x) ≤ frobSq Z := by
      have := frobSq_proj_le (Q := V'ᴴ) (by rw [Matrix.conjTranspose_conjTranspose, hV']) x
      rwa [Matrix.conjTranspose_conjTranspose, hx] at this
    refine le_trans ?_ (mul_le_mul_of_nonneg_left h4 (sq_nonneg _))
    rw [show frobSq (V' * x) = ∑ b, ‖(V' * x) b 0‖ ^ 2 by simp [frobSq], Finset.mul_sum]
    refine Finset.sum_le_sum fun b _ => ?_
    rcases lt_or_ge (b : ℕ) c with hb | hb
    · rw [hz2 b hb]; simp
    · have hct : c < t' := by omega
      rw [if_pos hct]
      exact mul_le_mul_of_nonneg_right (pow_le_pow_left₀ (hs0' b b.2) (hs' c b hb b.2) 2) (sq_nonneg _)
  have h5 : s c ^ 2 ≤ (if c < t' then s' c else 0) ^ 2 := le_of_mul_le_mul_right (h1.trans (h2.trans h3)) hZpos
  refine (le_abs_self _).trans (abs_le_of_sq_le_sq h5 ?_)
  split_ifs with h
  · exact hs0' c h
  · exact le_rfl

end Mpnum
