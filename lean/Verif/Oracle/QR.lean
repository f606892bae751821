import Verif.MPArray.FromArray
import Mathlib.Analysis.InnerProductSpace.GramSchmidtOrtho

/-! A QR routine that meets the contract `QRSpec` exists over ℝ and ℂ: the theorems about code that
calls `numpy.linalg.qr` are not vacuous. -/

open Finset

namespace Mpnum

variable {𝕜 : Type} [RCLike 𝕜]

open Classical in
theorem exists_qr_matrix (m n : ℕ) (A : ℕ → ℕ → 𝕜) :
    ∃ q r : ℕ → ℕ → 𝕜,
      (∀ i < m, ∀ j < n, ∑ k ∈ range (min m n), q i k * r k j = A i j) ∧
      (∀ k < min m n, ∀ k' < min m n,
        ∑ i ∈ range m, star (q i k) * q i k' = if k = k' then 1 else 0) := by
  let a : ℕ → EuclideanSpace 𝕜 (Fin m) := fun j => WithLp.toLp 2 (fun i : Fin m => A i j)
  have hf : Module.finrank 𝕜 (EuclideanSpace 𝕜 (Fin m)) = Fintype.card (Fin m) := by simp
  let b := InnerProductSpace.gramSchmidtOrthonormalBasis hf (fun j : Fin m => a j)
  let q : ℕ → ℕ → 𝕜 := fun i k => if h : i < m ∧ k < m then (b ⟨k, h.2⟩ : EuclideanSpace 𝕜 (Fin m)) ⟨i, h.1⟩ else 0
  let r : ℕ → ℕ → 𝕜 := fun k j => if h : k < m then inner 𝕜 (b ⟨k, h⟩) (a j) else 0
  refine ⟨q, r, ?_, ?_⟩
  · intro i hi j hj
    have hsum : ∑ k ∈ range m, q i k * r k j = A i j := by
      rw [← Fin.sum_univ_eq_sum_range (fun k => q i k * r k j) m]
      have h1 : (∑ k, inner 𝕜 (b k) (a j) • b k : EuclideanSpace 𝕜 (Fin m)) ⟨i, hi⟩
          = a j ⟨i, hi⟩ := by rw [b.sum_repr']
      simp only [WithLp.ofLp_sum, Finset.sum_apply, PiLp.smul_apply, smul_eq_mul] at h1
      rw [show A i j = (a j : EuclideanSpace 𝕜 (Fin m)) ⟨i, hi⟩ from rfl, ← h1]
      refine Finset.sum_congr rfl fun k _ => ?_
      simp [q, r, hi, mul_comm]
    rcases le_total m n with h | h
    · rw [min_eq_left h]; exact hsum
    · rw [min_eq_right h, ← hsum]
      refine Finset.sum_subset (by simpa using h) ?_
      intro k hk hk'
      simp only [Finset.mem_range, not_lt] at hk hk'
      have : r k j = 0 := by
        simp only [r, hk, dif_pos]
        exact InnerProductSpace.gramSchmidtOrthonormalBasis_inv_triangular hf
          (fun j : Fin m => a j) (i := ⟨j, by omega⟩) (j := ⟨k, hk⟩) (by simp; omega)
      rw [this, mul_zero]
  · intro k hk k' hk'
    have hk : k < m := by omega
    have hk' : k' < m := by omega
    rw [← Fin.sum_univ_eq_sum_range (fun i => star (q i k) * q i k') m]
    have h1 := (orthonormal_iff_ite.1 b.orthonormal) ⟨k, hk⟩ ⟨k', hk'⟩
    rw [PiLp.inner_apply] at h1
    simp only [RCLike.inner_apply, Fin.mk.injEq] at h1
    rw [← h1]
    refine Finset.sum_congr rfl fun i _ => ?_
    simp [q, hk, hk', mul_comm]

theorem exists_QRSpec : ∃ qr : QR 𝕜, QRSpec qr := by
  choose q r h1 h2 using fun (m n : ℕ) (A : ℕ → ℕ → 𝕜) => exists_qr_matrix m n A
  let d (A : NDArray 𝕜) (k : ℕ) : ℕ := A.shape.getD k 0
  refine ⟨fun A =>
    (⟨[d A 0, min (d A 0) (d A 1)], fun i => q (d A 0) (d A 1) (fun i j => A.get [i, j]) (i.getD 0 0) (i.getD 1 0)⟩,
     ⟨[min (d A 0) (d A 1), d A 1], fun i => r (d A 0) (d A 1) (fun i j => A.get [i, j]) (i.getD 0 0) (i.getD 1 0)⟩), ?_⟩
  intro A m n hs
  simp only [d, hs, List.getD_cons_zero, List.getD_cons_succ, true_and]
  exact ⟨h1 m n _, h2 m n _⟩

end Mpnum
