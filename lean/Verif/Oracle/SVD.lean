import Verif.Np.Basic
import Mathlib.Analysis.InnerProductSpace.SingularValues
import Mathlib.Analysis.InnerProductSpace.PiL2

/-! Contract of `numpy.linalg.svd`, and a proof that a routine meeting it exists over ℝ and ℂ. -/

open Finset

namespace Mpnum

variable {𝕜 : Type} [RCLike 𝕜]

/-- A routine like `numpy.linalg.svd(A)` (full matrices): returns `u, s, v`. -/
abbrev SVD (𝕜 : Type) := NDArray 𝕜 → NDArray 𝕜 × List ℝ × NDArray 𝕜

/-- Contract of `numpy.linalg.svd(A)` for a matrix `A`: `u` and `v` are unitary, the singular values
are non-negative and sorted in non-increasing order, and `A = u[:, :k] diag(s) v[:k, :]`. -/
def SVDSpec (svd : SVD 𝕜) : Prop :=
  ∀ (A : NDArray 𝕜) (m n : ℕ), A.shape = [m, n] →
    (svd A).1.shape = [m, m] ∧ (svd A).2.1.length = min m n ∧ (svd A).2.2.shape = [n, n] ∧
    (svd A).2.1.Pairwise (· ≥ ·) ∧ (∀ s ∈ (svd A).2.1, 0 ≤ s) ∧
    (∀ k < m, ∀ k' < m, ∑ i ∈ range m, star ((svd A).1.get [i, k]) * (svd A).1.get [i, k']
      = if k = k' then 1 else 0) ∧
    (∀ k < n, ∀ k' < n, ∑ j ∈ range n, (svd A).2.2.get [k, j] * star ((svd A).2.2.get [k', j])
      = if k = k' then 1 else 0) ∧
    (∀ i < m, ∀ j < n, A.get [i, j] = ∑ k ∈ range (min m n),
      (svd A).1.get [i, k] * (((svd A).2.1.getD k 0 : ℝ) : 𝕜) * (svd A).2.2.get [k, j])

open Classical in
theorem exists_svd_matrix (m n : ℕ) (A : ℕ → ℕ → 𝕜) :
    ∃ (u : ℕ → ℕ → 𝕜) (s : ℕ → ℝ) (v : ℕ → ℕ → 𝕜), Antitone s ∧ (∀ k, 0 ≤ s k) ∧
      (∀ k < m, ∀ k' < m, ∑ i ∈ range m, star (u i k) * u i k' = if k = k' then 1 else 0) ∧
      (∀ k < n, ∀ k' < n, ∑ j ∈ range n, v k j * star (v k' j) = if k = k' then 1 else 0) ∧
      (∀ i < m, ∀ j < n, A i j = ∑ k ∈ range (min m n), u i k * ((s k : ℝ) : 𝕜) * v k j) := by
  let T : (EuclideanSpace 𝕜 (Fin n)) →ₗ[𝕜] (EuclideanSpace 𝕜 (Fin m)) := Matrix.toEuclideanLin (Matrix.of fun (i : Fin m) (j : Fin n) => A i j)
  have hE : Module.finrank 𝕜 (EuclideanSpace 𝕜 (Fin n)) = n := by simp
  have hF : Module.finrank 𝕜 (EuclideanSpace 𝕜 (Fin m)) = m := by simp
  have hsym := T.isSymmetric_adjoint_comp_self
  let b : OrthonormalBasis (Fin n) 𝕜 (EuclideanSpace 𝕜 (Fin n)) := hsym.eigenvectorBasis hE
  let s : ℕ → ℝ := fun k => T.singularValues k
  have hs0 : ∀ k, 0 ≤ s k := fun k => T.singularValues_nonneg k
  have hanti : Antitone s := T.singularValues_antitone
  have hin : ∀ k k' : Fin n, inner 𝕜 (T (b k)) (T (b k')) = if k = k' then (((s k) ^ 2 : ℝ) : 𝕜) else 0 := by
    intro k k'
    rw [← LinearMap.adjoint_inner_right]
    have h1 : (LinearMap.adjoint T ∘ₗ T) (b k') = ((hsym.eigenvalues hE k' : ℝ) : 𝕜) • b k' :=
      hsym.apply_eigenvectorBasis hE k'
    have h2 : hsym.eigenvalues hE k' = s k' ^ 2 := (T.sq_singularValues_fin hE k').symm
    have h3 : LinearMap.adjoint T (T (b k')) = (((s k') ^ 2 : ℝ) : 𝕜) • b k' := by rw [← h2]; exact h1
    rw [h3, inner_smul_right, orthonormal_iff_ite.1 b.orthonormal k k']
    by_cases h : k = k' <;> simp [h]
  have hzero : ∀ k : Fin n, s k = 0 → T (b k) = 0 := by
    intro k hk
    have := hin k k
    rw [if_pos rfl, hk] at this
    simpa using this
  have hsm : ∀ k, m ≤ k → s k = 0 := by
    intro k hk
    refine T.singularValues_eq_zero_iff_le_finrank_range.2 ?_
    exact (Submodule.finrank_le _).trans (by rw [hF]; exact hk)
  -- left singular vectors
  let S : Set (Fin m) := {k | (k : ℕ) < n ∧ 0 < s k}
  let w : Fin m → (EuclideanSpace 𝕜 (Fin m)) := fun k => if h : (k : ℕ) < n then (((s k)⁻¹ : ℝ) : 𝕜) • T (b ⟨k, h⟩) else 0
  have hw : Orthonormal 𝕜 (S.domRestrict w) := by
    rw [orthonormal_iff_ite]
    rintro ⟨k, hk, hk0⟩ ⟨k', hk', hk0'⟩
    simp only [Set.domRestrict_apply, w, hk, hk', dif_pos, inner_smul_left, inner_smul_right, hin,
      Fin.mk.injEq, Subtype.mk.injEq]
    by_cases h : k = k'
    · subst h
      have hne : ((s k : ℝ) : 𝕜) ≠ 0 := by exact_mod_cast hk0.ne'
      simp only [if_true]
      push_cast
      rw [map_inv₀, RCLike.conj_ofReal]
      field_simp
    · have : (k : ℕ) ≠ (k' : ℕ) := fun h' => h (Fin.ext h')
      simp [h, this]
  obtain ⟨c, hc⟩ := hw.exists_orthonormalBasis_extension_of_card_eq (by simp)
  refine ⟨fun i k => if h : i < m ∧ k < m then (c ⟨k, h.2⟩ : (EuclideanSpace 𝕜 (Fin m))) ⟨i, h.1⟩ else 0, s,
    fun k j => if h : k < n ∧ j < n then star ((b ⟨k, h.1⟩ : (EuclideanSpace 𝕜 (Fin n))) ⟨j, h.2⟩) else 0, hanti, hs0, ?_, ?_, ?_⟩
  · intro k hk k' hk'
    have h1 := (orthonormal_iff_ite.1 c.orthonormal) ⟨k, hk⟩ ⟨k', hk'⟩
    rw [PiLp.inner_apply] at h1
    simp only [RCLike.inner_apply, Fin.mk.injEq] at h1
    rw [← h1, ← Fin.sum_univ_eq_sum_range (fun i => star _ * _) m]
    refine Finset.sum_congr rfl fun i _ => ?_
    simp [hk, hk', mul_comm]
  · intro k hk k' hk'
    have h1 := (orthonormal_iff_ite.1 b.orthonormal) ⟨k, hk⟩ ⟨k', hk'⟩
    rw [PiLp.inner_apply] at h1
    simp only [RCLike.inner_apply, Fin.mk.injEq] at h1
    rw [← h1, ← Fin.sum_univ_eq_sum_range (fun i => _ * star _) n]
    refine Finset.sum_congr rfl fun i _ => ?_
    simp [hk, hk', mul_comm]
  · intro i hi j hj
    -- `A e_j = Σ_k conj(b_k j) T b_k`
    have hA : A i j = (T (EuclideanSpace.single ⟨j, hj⟩ 1)) ⟨i, hi⟩ := by
      simp [T, Matrix.toLpLin_apply]
    have hsum : T (EuclideanSpace.single ⟨j, hj⟩ 1) = ∑ k : Fin n, star ((b k : (EuclideanSpace 𝕜 (Fin n))) ⟨j, hj⟩) • T (b k) := by
      have h1 : (EuclideanSpace.single ⟨j, hj⟩ 1 : (EuclideanSpace 𝕜 (Fin n))) = ∑ k, inner 𝕜 (b k) (EuclideanSpace.single ⟨j, hj⟩ 1 : (EuclideanSpace 𝕜 (Fin n))) • b k :=
        (b.sum_repr' _).symm
      conv_lhs => rw [h1]
      rw [map_sum]
      refine Finset.sum_congr rfl fun k _ => ?_
      rw [map_smul]
      congr 1
      simp [EuclideanSpace.inner_single_right]
    rw [hA, hsum]
    simp only [WithLp.ofLp_sum, Finset.sum_apply, PiLp.smul_apply, smul_eq_mul]
    have hterm : ∀ k : Fin n, star ((b k : (EuclideanSpace 𝕜 (Fin n))) ⟨j, hj⟩) * (T (b k)) ⟨i, hi⟩
        = if h : (k : ℕ) < m then (c ⟨k, h⟩ : (EuclideanSpace 𝕜 (Fin m))) ⟨i, hi⟩ * ((s k : ℝ) : 𝕜) * star ((b k : (EuclideanSpace 𝕜 (Fin n))) ⟨j, hj⟩) else 0 := by
      intro k
      by_cases h : (k : ℕ) < m
      · rw [dif_pos h]
        rcases (hs0 k).eq_or_lt with h0 | h0
        · rw [hzero k h0.symm, ← h0]; simp
        · have hcc := hc ⟨k, h⟩ ⟨k.2, h0⟩
          rw [hcc]
          have hne : ((s k : ℝ) : 𝕜) ≠ 0 := by exact_mod_cast h0.ne'
          simp only [w, k.2, dif_pos, PiLp.smul_apply, smul_eq_mul]
          push_cast
          field_simp
      · rw [dif_neg h, hzero k (hsm k (by omega))]; simp
    rw [Finset.sum_congr rfl fun k _ => hterm k]
    have e : ∀ k : Fin n, (if h : (k : ℕ) < m then (c ⟨k, h⟩ : (EuclideanSpace 𝕜 (Fin m))) ⟨i, hi⟩ * ((s k : ℝ) : 𝕜) * star ((b k : (EuclideanSpace 𝕜 (Fin n))) ⟨j, hj⟩) else 0)
        = (fun k : ℕ => (if h : i < m ∧ k < m then (c ⟨k, h.2⟩ : (EuclideanSpace 𝕜 (Fin m))) ⟨i, h.1⟩ else 0) * ((s k : ℝ) : 𝕜) *
          (if h : k < n ∧ j < n then star ((b ⟨k, h.1⟩ : (EuclideanSpace 𝕜 (Fin n))) ⟨j, h.2⟩) else 0)) k := by
      intro k
      by_cases h : (k : ℕ) < m <;> simp [h, hi, hj]
    rw [Finset.sum_congr rfl fun k _ => e k, Fin.sum_univ_eq_sum_range (fun k : ℕ => (if h : i < m ∧ k < m then (c ⟨k, h.2⟩ : (EuclideanSpace 𝕜 (Fin m))) ⟨i, h.1⟩ else 0) * ((s k : ℝ) : 𝕜) *
          (if h : k < n ∧ j < n then star ((b ⟨k, h.1⟩ : (EuclideanSpace 𝕜 (Fin n))) ⟨j, h.2⟩) else 0)) n]
    symm
    refine Finset.sum_subset (by simp) ?_
    intro k hk hk'
    simp only [Finset.mem_range, lt_min_iff, not_and] at hk hk'
    have : ¬ k < m := fun h => hk' h hk
    simp [this]

theorem exists_SVDSpec : ∃ svd : SVD 𝕜, SVDSpec svd := by
  choose u s v h1 h2 h3 h4 h5 using fun (m n : ℕ) (A : ℕ → ℕ → 𝕜) => exists_svd_matrix m n A
  let d (A : NDArray 𝕜) (k : ℕ) : ℕ := A.shape.getD k 0
  refine ⟨fun A =>
    (⟨[d A 0, d A 0], fun i => u (d A 0) (d A 1) (fun i j => A.get [i, j]) (i.getD 0 0) (i.getD 1 0)⟩,
     (List.range (min (d A 0) (d A 1))).map (s (d A 0) (d A 1) (fun i j => A.get [i, j])),
     ⟨[d A 1, d A 1], fun i => v (d A 0) (d A 1) (fun i j => A.get [i, j]) (i.getD 0 0) (i.getD 1 0)⟩), ?_⟩
  intro A m n hs
  simp only [d, hs, List.getD_cons_zero, List.getD_cons_succ, true_and, List.length_map, List.length_range]
  refine ⟨?_, ?_, h3 m n _, h4 m n _, ?_⟩
  · rw [List.pairwise_map]
    exact List.pairwise_lt_range.imp fun h => h1 m n _ h.le
  · simp only [List.mem_map]
    rintro _ ⟨k, _, rfl⟩
    exact h2 m n _ k
  · intro i hi j hj
    rw [h5 m n (fun i j => A.get [i, j]) i hi j hj]
    refine Finset.sum_congr rfl fun k hk => ?_
    rw [List.getD_eq_getElem?_getD, List.getElem?_map, List.getElem?_range (by simpa using hk)]
    rfl

end Mpnum
