import Verif.Utils.ExtMath
import Verif.MPArray.CompressLemmas
import Mathlib.LinearAlgebra.Matrix.Rank

/-! Lemmas about `randomized_svd`: arrays with two axes as matrices, and the range of the power iterations. -/

open Finset Matrix
open scoped ComplexOrder

namespace Mpnum

variable {𝕜 : Type} [RCLike 𝕜]

/-- The matrix of an array with two axes -/
def toMat (a : NDArray 𝕜) (m n : ℕ) : Matrix (Fin m) (Fin n) 𝕜 := Matrix.of fun i j => a.get [i, j]

theorem toMat_opMul {A Q : NDArray 𝕜} {m n p : ℕ} (hA : A.shape = [m, n]) :
    toMat (opMul A Q) m p = toMat A m n * toMat Q n p := by
  ext i j
  simp only [toMat, opMul, hA, Matrix.of_apply, Matrix.mul_apply, List.getD_cons_zero, List.getD_cons_succ]
  rw [← Fin.sum_univ_eq_sum_range (fun x => A.get [(i : ℕ), x] * Q.get [x, (j : ℕ)]) n]

theorem toMat_opAdj (A : NDArray 𝕜) (m n : ℕ) : toMat (opAdj A) n m = (toMat A m n)ᴴ := by
  ext i j
  simp [toMat, opAdj, Matrix.conjTranspose_apply]

theorem opMul_shape {A Q : NDArray 𝕜} {m n p : ℕ} (hA : A.shape = [m, n]) (hQ : Q.shape = [n, p]) :
    (opMul A Q).shape = [m, p] := by simp [opMul, hA, hQ]

theorem opAdj_shape {A : NDArray 𝕜} {m n : ℕ} (hA : A.shape = [m, n]) : (opAdj A).shape = [n, m] := by
  simp [opAdj, hA]

theorem toMat_lu {lu : LU 𝕜} (h : LUSpec lu) {A : NDArray 𝕜} {m n : ℕ} (hA : A.shape = [m, n]) :
    (lu A).1.shape = [m, min m n] ∧ toMat (lu A).1 m (min m n) * toMat (lu A).2 (min m n) n = toMat A m n := by
  obtain ⟨h1, h2, h3⟩ := h A m n hA
  refine ⟨h1, ?_⟩
  ext i j
  simp only [toMat, Matrix.of_apply, Matrix.mul_apply]
  rw [← h3 i i.2 j j.2, ← Fin.sum_univ_eq_sum_range (fun x => (lu A).1.get [(i : ℕ), x] * (lu A).2.get [x, (j : ℕ)])]

theorem toMat_qr {qr : QR 𝕜} (h : QRSpec qr) {A : NDArray 𝕜} {m n : ℕ} (hA : A.shape = [m, n]) :
    (qr A).1.shape = [m, min m n] ∧ toMat (qr A).1 m (min m n) * toMat (qr A).2 (min m n) n = toMat A m n ∧
      (toMat (qr A).1 m (min m n))ᴴ * toMat (qr A).1 m (min m n) = 1 := by
  obtain ⟨h1, h2, h3, h4⟩ := h A m n hA
  refine ⟨h1, ?_, ?_⟩
  · ext i j
    simp only [toMat, Matrix.of_apply, Matrix.mul_apply]
    rw [← h3 i i.2 j j.2, ← Fin.sum_univ_eq_sum_range (fun x => (qr A).1.get [(i : ℕ), x] * (qr A).2.get [x, (j : ℕ)])]
  · ext i j
    simp only [toMat, Matrix.of_apply, Matrix.mul_apply, Matrix.conjTranspose_apply, Matrix.one_apply]
    rw [Fin.sum_univ_eq_sum_range (fun x => star ((qr A).1.get [x, (i : ℕ)]) * (qr A).1.get [x, (j : ℕ)]), h4 i i.2 j j.2]
    simp [Fin.ext_iff]

/-! ### the range of the power iterations -/

theorem range_of_rank {m n p : ℕ} (A : Matrix (Fin m) (Fin n) 𝕜) (B : Matrix (Fin n) (Fin p) 𝕜)
    (h : (A * B).rank = A.rank) : ∃ Z : Matrix (Fin p) (Fin n) 𝕜, A * B * Z = A := by
  have hle : LinearMap.range (A * B).mulVecLin ≤ LinearMap.range A.mulVecLin := by
    rw [Matrix.mulVecLin_mul]
    exact LinearMap.range_comp_le_range _ _
  have heq : LinearMap.range (A * B).mulVecLin = LinearMap.range A.mulVecLin :=
    Submodule.eq_of_le_of_finrank_eq hle (by simpa [Matrix.rank] using h)
  have hcol : ∀ j : Fin n, ∃ z : Fin p → 𝕜, (A * B).mulVec z = fun i => A i j := by
    intro j
    have : A.mulVecLin (Pi.single j 1) ∈ LinearMap.range (A * B).mulVecLin := by
      rw [heq]; exact ⟨_, rfl⟩
    obtain ⟨z, hz⟩ := this
    refine ⟨z, ?_⟩
    rw [Matrix.mulVecLin_apply] at hz
    rw [hz, Matrix.mulVecLin_apply]
    ext i
    simp
  choose z hz using hcol
  refine ⟨Matrix.of fun a j => z j a, ?_⟩
  ext i j
  have := congrFun (hz j) i
  rw [Matrix.mul_apply]
  simpa [Matrix.mulVec, dotProduct] using this

theorem exists_power {m n : ℕ} (A : Matrix (Fin m) (Fin n) 𝕜) :
    ∃ W : Matrix (Fin n) (Fin n) 𝕜, A * (Aᴴ * A) * W = A := by
  obtain ⟨Z, hZ⟩ := range_of_rank A Aᴴ (Matrix.rank_self_mul_conjTranspose A)
  obtain ⟨Z', hZ'⟩ := range_of_rank Aᴴ A (by rw [Matrix.rank_conjTranspose_mul_self, Matrix.rank_conjTranspose])
  refine ⟨Z' * Z, ?_⟩
  calc A * (Aᴴ * A) * (Z' * Z) = A * (Aᴴ * A * Z') * Z := by simp only [Matrix.mul_assoc]
    _ = A := by rw [hZ', hZ]

/-- The columns of `A Q` span those of `A`. -/
def Captures (A Q : NDArray 𝕜) (m n p : ℕ) : Prop :=
  ∃ Y : Matrix (Fin p) (Fin n) 𝕜, toMat A m n * toMat Q n p * Y = toMat A m n

theorem captures_of_factor {A Q Q' : NDArray 𝕜} {m n p p' : ℕ} (C : Matrix (Fin p') (Fin p) 𝕜)
    (hC : toMat Q' n p' * C = (toMat A m n)ᴴ * (toMat A m n * toMat Q n p)) (h : Captures A Q m n p) :
    Captures A Q' m n p' := by
  obtain ⟨Y, hY⟩ := h
  obtain ⟨W, hW⟩ := exists_power (toMat A m n)
  refine ⟨C * (Y * W), ?_⟩
  calc toMat A m n * toMat Q' n p' * (C * (Y * W))
      = toMat A m n * (toMat Q' n p' * C) * (Y * W) := by simp only [Matrix.mul_assoc]
    _ = toMat A m n * ((toMat A m n)ᴴ * (toMat A m n * toMat Q n p * Y)) * W := by rw [hC]; simp only [Matrix.mul_assoc]
    _ = toMat A m n := by rw [hY, hW]

theorem powerStep_ok {qr : QR 𝕜} (hqr : QRSpec qr) {lu : LU 𝕜} (hlu : LUSpec lu) {A Q : NDArray 𝕜} {m n p : ℕ}
    (hA : A.shape = [m, n]) (hQ : Q.shape = [n, p]) (nrm : Normalizer) :
    ∃ p', (powerStep qr lu A nrm Q).shape = [n, p'] ∧ min (min m n) p' = min (min m n) p ∧
      (Captures A Q m n p → Captures A (powerStep qr lu A nrm Q) m n p') := by
  have s1 := opMul_shape hA hQ
  have a1 := opAdj_shape hA
  have e1 := toMat_opMul (Q := Q) (p := p) hA
  have ea := toMat_opAdj A m n
  cases nrm with
  | auto => exact ⟨p, hQ, rfl, id⟩
  | other => exact ⟨p, hQ, rfl, id⟩
  | none =>
    refine ⟨p, opMul_shape a1 s1, rfl, captures_of_factor 1 ?_⟩
    rw [Matrix.mul_one]
    show toMat (opMul (opAdj A) (opMul A Q)) n p = _
    rw [toMat_opMul a1, e1, ea]
  | lu =>
    obtain ⟨l1, l2⟩ := toMat_lu hlu s1
    have s2 := opMul_shape a1 l1
    obtain ⟨k1, k2⟩ := toMat_lu hlu s2
    refine ⟨_, k1, by omega, captures_of_factor (toMat (lu (opMul (opAdj A) (lu (opMul A Q)).1)).2 _ (min m p) * toMat (lu (opMul A Q)).2 (min m p) p) ?_⟩
    rw [show powerStep qr lu A .lu Q = (lu (opMul (opAdj A) (lu (opMul A Q)).1)).1 from rfl, ← Matrix.mul_assoc, k2, toMat_opMul a1, Matrix.mul_assoc, l2, e1, ea]
  | qr =>
    obtain ⟨l1, l2, -⟩ := toMat_qr hqr s1
    have s2 := opMul_shape a1 l1
    obtain ⟨k1, k2, -⟩ := toMat_qr hqr s2
    refine ⟨_, k1, by omega, captures_of_factor (toMat (qr (opMul (opAdj A) (qr (opMul A Q)).1)).2 _ (min m p) * toMat (qr (opMul A Q)).2 (min m p) p) ?_⟩
    rw [show powerStep qr lu A .qr Q = (qr (opMul (opAdj A) (qr (opMul A Q)).1)).1 from rfl, ← Matrix.mul_assoc, k2, toMat_opMul a1, Matrix.mul_assoc, l2, e1, ea]

theorem powerIter_ok {qr : QR 𝕜} (hqr : QRSpec qr) {lu : LU 𝕜} (hlu : LUSpec lu) {A : NDArray 𝕜} {m n : ℕ}
    (hA : A.shape = [m, n]) (nrm : Normalizer) (N : ℕ) : ∀ (Q : NDArray 𝕜) (p : ℕ), Q.shape = [n, p] →
    ∃ p', ((powerStep qr lu A nrm)^[N] Q).shape = [n, p'] ∧ min (min m n) p' = min (min m n) p ∧
      (Captures A Q m n p → Captures A ((powerStep qr lu A nrm)^[N] Q) m n p') := by
  induction N with
  | zero => exact fun Q p h => ⟨p, h, rfl, id⟩
  | succ N ih =>
    intro Q p hQ
    obtain ⟨p1, h1, h2, h3⟩ := powerStep_ok hqr hlu hA hQ nrm
    obtain ⟨p2, k1, k2, k3⟩ := ih _ p1 h1
    rw [Function.iterate_succ_apply]
    exact ⟨p2, k1, by omega, fun h => k3 (h3 h)⟩

theorem approxRangeFinder_ok {qr : QR 𝕜} (hqr : QRSpec qr) {lu : LU 𝕜} (hlu : LUSpec lu) {A draw : NDArray 𝕜} {m n p : ℕ}
    (hA : A.shape = [m, n]) (hd : draw.shape = [n, p]) {dtype : Dtype} (ht : dtype ≠ .other) (nIter : ℤ) (nrm : Normalizer) :
    ∃ (Q : NDArray 𝕜) (q : ℕ), approxRangeFinder qr lu dtype draw A nIter nrm = .ok Q ∧ Q.shape = [m, q] ∧ q ≤ m ∧
      min q n = min (min m n) p ∧ (toMat Q m q)ᴴ * toMat Q m q = 1 ∧
      (Captures A draw m n p → toMat Q m q * ((toMat Q m q)ᴴ * toMat A m n) = toMat A m n) := by
  have hs : standardNormal dtype draw = .ok draw := by cases dtype <;> simp_all [standardNormal]
  obtain ⟨p', h1, h2, h3⟩ := powerIter_ok hqr hlu hA (if nrm = .auto then (if nIter ≤ 2 then .none else .lu) else nrm) nIter.toNat draw p hd
  obtain ⟨k1, k2, k3⟩ := toMat_qr hqr (opMul_shape hA h1)
  refine ⟨_, _, by rw [approxRangeFinder, hs]; rfl, k1, by omega, by omega, k3, ?_⟩
  intro hc
  obtain ⟨Y, hY⟩ := h3 hc
  rw [← toMat_opMul (Q := (powerStep qr lu A (if nrm = .auto then (if nIter ≤ 2 then .none else .lu) else nrm))^[nIter.toNat] draw) (p := p') hA, ← k2] at hY
  generalize toMat (qr (opMul A ((powerStep qr lu A (if nrm = .auto then (if nIter ≤ 2 then .none else .lu) else nrm))^[nIter.toNat] draw))).1 m (min m p') = q at k3 hY ⊢
  have : ∀ X : Matrix _ (Fin n) 𝕜, q * (qᴴ * (q * X)) = q * X := by
    intro X; rw [← Matrix.mul_assoc qᴴ, k3, Matrix.one_mul]
  rw [← hY, Matrix.mul_assoc, this]

end Mpnum
