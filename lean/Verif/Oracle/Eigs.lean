import Verif.Linalg.EigLemmas
import Mathlib.Analysis.Matrix.Spectrum
import Mathlib.LinearAlgebra.Eigenspace.Triangularizable
import Mathlib.Analysis.Complex.Polynomial.Basic

/-!
# There is a solver that meets the contract of `eigs`
-/

open Finset

namespace Mpnum

open Matrix in
/-- A Hermitian matrix has a normalised eigenvector to a lowest eigenvalue. -/
theorem exists_min_eigenpair {N : ℕ} (hN : 0 < N) {A : Matrix (Fin N) (Fin N) ℂ} (hA : A.IsHermitian) :
    ∃ (lam : ℂ) (x : Fin N → ℂ), (∑ i, star (x i) * x i = 1) ∧ A *ᵥ x = lam • x ∧
      ∀ y : Fin N → ℂ, lam.re * ∑ i, ‖y i‖ ^ 2 ≤ (∑ i, ∑ j, star (y i) * A i j * y j).re := by
  haveI : Nonempty (Fin N) := ⟨⟨0, hN⟩⟩
  obtain ⟨m, hm⟩ := Finite.exists_min hA.eigenvalues
  set b := hA.eigenvectorBasis
  refine ⟨(hA.eigenvalues m : ℂ), ⇑(b m), ?_, ?_, ?_⟩
  · have h := b.orthonormal.1 m
    rw [EuclideanSpace.norm_eq, Real.sqrt_eq_one] at h
    have : (∑ i, star (b m i) * b m i) = ((∑ i, ‖b m i‖ ^ 2 : ℝ) : ℂ) := by
      rw [Complex.ofReal_sum]
      refine Finset.sum_congr rfl fun i _ => ?_
      rw [show star (b m i) = (starRingEnd ℂ) (b m i) from rfl, mul_comm, Complex.mul_conj, Complex.normSq_eq_norm_sq]
    rw [this, h, Complex.ofReal_one]
  · have := hA.mulVec_eigenvectorBasis m
    rw [this]
    ext i; simp [b]
  · intro y
    set Y : EuclideanSpace ℂ (Fin N) := WithLp.toLp 2 y
    set Z : EuclideanSpace ℂ (Fin N) := WithLp.toLp 2 (A *ᵥ y)
    have e1 : (∑ i, ∑ j, star (y i) * A i j * y j) = Inner.inner ℂ Y Z := by
      rw [PiLp.inner_apply]
      refine Finset.sum_congr rfl fun i _ => ?_
      show _ = (A *ᵥ y) i * (starRingEnd ℂ) (y i)
      rw [Matrix.mulVec, dotProduct, Finset.sum_mul]
      refine Finset.sum_congr rfl fun j _ => ?_
      rw [show star (y i) = (starRingEnd ℂ) (y i) from rfl]; ring
    have e2 : ∀ i, Inner.inner ℂ (b i) Z = (hA.eigenvalues i : ℂ) * Inner.inner ℂ (b i) Y := by
      intro i
      have h1 : Inner.inner ℂ (b i) Z = star (⇑(b i)) ⬝ᵥ (A *ᵥ y) := by
        rw [PiLp.inner_apply]
        refine Finset.sum_congr rfl fun j _ => ?_
        show (A *ᵥ y) j * (starRingEnd ℂ) (b i j) = star (b i j) * (A *ᵥ y) j
        rw [mul_comm]; rfl
      have h2 : Inner.inner ℂ (b i) Y = star (⇑(b i)) ⬝ᵥ y := by
        rw [PiLp.inner_apply]
        refine Finset.sum_congr rfl fun j _ => ?_
        show y j * (starRingEnd ℂ) (b i j) = star (b i j) * y j
        rw [mul_comm]; rfl
      have h4 : star (⇑(b i) : Fin N → ℂ) ᵥ* A = star (A *ᵥ (⇑(b i) : Fin N → ℂ)) := by
        rw [Matrix.star_mulVec, hA.eq]
      rw [h1, h2, Matrix.dotProduct_mulVec, h4, hA.mulVec_eigenvectorBasis i]
      have h3 : star (hA.eigenvalues i • (⇑(b i) : Fin N → ℂ)) = (hA.eigenvalues i : ℂ) • star (⇑(b i) : Fin N → ℂ) := by
        ext j; simp
      rw [h3, smul_dotProduct, smul_eq_mul]
    have e3 : ∀ i, Inner.inner ℂ Y (b i) * Inner.inner ℂ (b i) Z = ((hA.eigenvalues i * ‖Inner.inner ℂ (b i) Y‖ ^ 2 : ℝ) : ℂ) := by
      intro i
      rw [e2, ← inner_conj_symm Y (b i), mul_left_comm, mul_comm ((starRingEnd ℂ) _), Complex.mul_conj,
        Complex.normSq_eq_norm_sq]
      push_cast; ring
    have e4 : (∑ i, ‖y i‖ ^ 2) = ∑ i, ‖Inner.inner ℂ (b i) Y‖ ^ 2 := by
      have := b.sum_sq_norm_inner_right Y
      rw [this, EuclideanSpace.norm_sq_eq]
    rw [e1, ← b.sum_inner_mul_inner Y Z, Finset.sum_congr rfl fun i _ => e3 i, ← Complex.ofReal_sum, Complex.ofReal_re,
      e4, Complex.ofReal_re, Finset.mul_sum]
    exact Finset.sum_le_sum fun i _ => mul_le_mul_of_nonneg_right (hm i) (by positivity)

open Matrix in
theorem exists_eigenpair {N : ℕ} (hN : 0 < N) (A : Matrix (Fin N) (Fin N) ℂ) :
    ∃ (lam : ℂ) (x : Fin N → ℂ), (∑ i, star (x i) * x i = 1) ∧ A *ᵥ x = lam • x := by
  haveI : Nonempty (Fin N) := ⟨⟨0, hN⟩⟩
  obtain ⟨lam, hl⟩ := Module.End.exists_eigenvalue (Matrix.toLin' A)
  obtain ⟨x, hx⟩ := hl.exists_hasEigenvector
  have h1 : A *ᵥ x = lam • x := by simpa using hx.apply_eq_smul
  have h2 : x ≠ 0 := hx.2
  set s : ℝ := ∑ i, ‖x i‖ ^ 2
  have hs : 0 < s := by
    obtain ⟨i, hi⟩ := Function.ne_iff.1 h2
    exact Finset.sum_pos' (fun i _ => by positivity) ⟨i, Finset.mem_univ _, by have := norm_pos_iff.2 hi; positivity⟩
  refine ⟨lam, ((1 / Real.sqrt s : ℝ) : ℂ) • x, ?_, ?_⟩
  · have : ∀ i, star ((((1 / Real.sqrt s : ℝ) : ℂ) • x) i) * (((1 / Real.sqrt s : ℝ) : ℂ) • x) i
        = ((1 / s * ‖x i‖ ^ 2 : ℝ) : ℂ) := by
      intro i
      rw [Pi.smul_apply, smul_eq_mul, show star (((1 / Real.sqrt s : ℝ) : ℂ) * x i)
        = (starRingEnd ℂ) (((1 / Real.sqrt s : ℝ) : ℂ) * x i) from rfl, mul_comm, Complex.mul_conj,
        Complex.normSq_eq_norm_sq, norm_mul, mul_pow, Complex.norm_real, Real.norm_eq_abs, sq_abs, div_pow, one_pow,
        Real.sq_sqrt hs.le]
    rw [Finset.sum_congr rfl fun i _ => this i, ← Complex.ofReal_sum, ← Finset.mul_sum]
    rw [show (1 / s * ∑ i, ‖x i‖ ^ 2 : ℝ) = 1 from one_div_mul_cancel hs.ne', Complex.ofReal_one]
  · rw [Matrix.mulVec_smul, h1, smul_comm]

/-- The contract of `eigs` can be met for all matrices, with a lowest eigenvalue for Hermitian ones. -/
theorem exists_eigs : ∃ eigs : EigsFun, EigsSpec False (fun _ => False) eigs ∧ EigsMin eigs ∧ EigsExt eigs := by
  have H : ∀ (N : ℕ) (A : Matrix (Fin N) (Fin N) ℂ), ∃ (lam : ℂ) (x : Fin N → ℂ), 0 < N →
      (∑ i, star (x i) * x i = 1) ∧ A.mulVec x = lam • x ∧
      (A.IsHermitian → ∀ y : Fin N → ℂ, lam.re * ∑ i, ‖y i‖ ^ 2 ≤ (∑ i, ∑ j, star (y i) * A i j * y j).re) := by
    intro N A
    by_cases hN : 0 < N
    · by_cases hA : A.IsHermitian
      · obtain ⟨lam, x, h1, h2, h3⟩ := exists_min_eigenpair hN hA
        exact ⟨lam, x, fun _ => ⟨h1, h2, fun _ => h3⟩⟩
      · obtain ⟨lam, x, h1, h2⟩ := exists_eigenpair hN A
        exact ⟨lam, x, fun _ => ⟨h1, h2, fun h => absurd h hA⟩⟩
    · exact ⟨0, 0, fun h => absurd h hN⟩
  choose lam x hlx using H
  let N (op : NDArray ℂ) : ℕ := op.shape.getD 0 0
  let A (op : NDArray ℂ) : Matrix (Fin (N op)) (Fin (N op)) ℂ := fun i j =>
    if op.shape = [N op, N op] then op.get [i, j] else 0
  let xs (n : ℕ) (a : Matrix (Fin n) (Fin n) ℂ) (i : ℕ) : ℂ := if h : i < n then x n a ⟨i, h⟩ else 0
  have key : ∀ op : NDArray ℂ, ∀ n, op.shape = [n, n] → N op = n := by
    intro op n h; simp only [N, h, List.getD_cons_zero]
  refine ⟨fun op _ => .ok (⟨[1], fun _ => lam _ (A op)⟩, ⟨[N op], fun i => xs _ (A op) (i.getD 0 0)⟩), ?_, ?_, ?_⟩
  · intro n op v0 hn hs _ _
    have e := key op n hs
    subst e
    have hAe : ∀ i j, A op i j = op.get [i, j] := fun i j => if_pos hs
    obtain ⟨h1, h2, -⟩ := hlx _ (A op) hn
    refine ⟨lam _ (A op), xs _ (A op), Or.inl ⟨rfl, rfl, fun i _ => rfl⟩, rfl, ?_, ?_⟩
    · rw [Finset.sum_range]
      rw [← h1]
      exact Finset.sum_congr rfl fun i _ => by simp [xs]
    · intro i hi
      have := congrFun h2 ⟨i, hi⟩
      rw [Matrix.mulVec, dotProduct] at this
      rw [Finset.sum_range]
      simp only [hAe] at this
      simpa [xs, hi] using this
  · intro n op v0 w V hn hs hH _ he y
    have e := key op n hs
    subst e
    have hAe : ∀ i j, A op i j = op.get [i, j] := fun i j => if_pos hs
    obtain ⟨-, -, h3⟩ := hlx _ (A op) hn
    have hA : (A op).IsHermitian := by
      ext i j
      rw [Matrix.conjTranspose_apply, hAe, hAe]
      exact (hH i i.2 j j.2).symm
    have := h3 hA fun i => y i
    cases he
    simp only [hAe] at this
    rw [Finset.sum_range, Finset.sum_range]
    simp only [Finset.sum_range]
    exact this
  · rintro ⟨s, g⟩ ⟨s', g'⟩ v0 ⟨h1, h2⟩
    change s = s' at h1
    subst h1
    have e : A ⟨s, g⟩ = A ⟨s, g'⟩ := by
      ext i j
      simp only [A]
      split_ifs with h
      · refine h2 _ ?_
        have h' : InB [(i : ℕ), (j : ℕ)] [N ⟨s, g⟩, N ⟨s, g⟩] :=
          inB_cons.2 ⟨i.2, inB_cons.2 ⟨j.2, List.Forall₂.nil⟩⟩
        exact (congrArg (InB [(i : ℕ), (j : ℕ)]) h).mpr h'
      · rfl
    show Except.ok _ = Except.ok _
    rw [e]

end Mpnum
