import Verif.Props.C61

/-! # C61: when `randomized_svd` is exact, and how it fails -/

open Finset Matrix

namespace Mpnum

variable {𝕜 : Type} [RCLike 𝕜]

/-- The random numbers that are used capture the range of `M` (of its adjoint if the matrix is transposed). -/
def DrawSpans (M : NDArray 𝕜) (m n p : ℕ) (draw : ℕ → ℕ → NDArray 𝕜) (transpose : Option Bool) : Prop :=
  if transposed transpose m n then Spans (fun i j => star (M.get [j, i])) (draw m p) n m p
  else Spans (fun i j => M.get [i, j]) (draw n p) m n p

/-- C61: if the random numbers capture the range of the matrix, `randomized_svd` returns the singular values
`truncated_svd` returns, the singular vectors are true singular vectors on both sides, no sum of `k` products is closer
to the matrix than the result, and nothing is lost if `k` is not smaller than the matrix.  The number of power
iterations, their normalisation and the transposition have no influence. -/
theorem C61_exact {qr : QR 𝕜} (hqr : QRSpec qr) {lu : LU 𝕜} (hlu : LUSpec lu) {svd : SVD 𝕜} (h : SVDSpec svd)
    {dtype : Dtype} (ht : dtype ≠ .other) (draw : ℕ → ℕ → NDArray 𝕜) (hd : ∀ a b, (draw a b).shape = [a, b])
    (M : NDArray 𝕜) {m n : ℕ} (hM : M.shape = [m, n]) (k o : ℕ) (nIter : Option ℤ) (nrm : Normalizer) (transpose : Option Bool)
    (hs : DrawSpans M m n (k + o) draw transpose) :
    ∃ (u v : NDArray 𝕜) (s : List ℝ), randomizedSvd qr lu svd dtype draw M k o nIter nrm transpose = .ok (u, s, v) ∧
      s = (truncatedSvd svd M k).2.1 ∧ Frames u v s m n ∧ Trunc M u v s m n s.length ∧
      (∀ x y : ℕ → ℕ → 𝕜, distSq m n (fun i j => M.get [i, j]) (usv u v s) ≤
        distSq m n (fun i j => M.get [i, j]) fun i j => ∑ c ∈ range k, x i c * y c j) ∧
      (min m n ≤ k → ∀ i < m, ∀ j < n, M.get [i, j] = usv u v s i j) := by
  obtain ⟨u, v, s, h1, h2, h3, -, -, -, h4, -⟩ := C61_randomized_svd hqr hlu h ht draw hd M hM k o nIter nrm transpose
  obtain ⟨U, V, S, hS, hSl, rfl, rfl, rfl⟩ := h4 (by
    unfold DrawSpans at hs
    cases htr : transposed transpose m n with
    | true => rw [htr, if_pos rfl] at hs; exact .inr ⟨rfl, hs⟩
    | false => rw [htr, if_neg (by simp)] at hs; exact .inl ⟨rfl, hs⟩)
  clear h4
  have hl : (S.take k).length = min k S.length := by simp
  obtain ⟨hT, hTl⟩ := thinSvd_ok h hM
  obtain ⟨-, l2, -⟩ := h M m n hM
  have es : (thinSvd svd M).2.1 = (svd M).2.1 := by
    simp only [thinSvd, truncatedSvd]
    rw [List.take_of_length_le (by simp [hM, l2])]
  have et : (truncatedSvd svd M k).2.1 = (svd M).2.1.take (min k (min m n)) := by simp only [truncatedSvd, l2]
  have hA := hS.mat
  have hU := toMat_ucols.1 hS.ucols
  have hV := toMat_vrows.1 hS.vrows
  have hMm : toMat M m n = toMat U m S.length * sdiag S S.length * toMat V S.length n := hA
  have husv : ∀ i j, usv (U.cols k) (V.rows k) (S.take k) i j
      = ∑ c ∈ range (min k S.length), U.get [i, c] * ((S.getD c 0 : ℝ) : 𝕜) * V.get [c, j] := by
    intro i j
    simp only [usv, hl]
    refine Finset.sum_congr rfl fun c hc => ?_
    have hc : c < min k S.length := by simpa using hc
    rw [getD_take _ _ _ _ (by omega)]
    rfl
  refine ⟨_, _, _, h1, ?_, h3, ⟨h3.ucols, h3.vrows, ?_, ?_⟩, ?_, ?_⟩
  · rw [et]
    refine List.ext_getElem (by rw [h2, List.length_take, l2]; omega) fun i hi hi' => ?_
    have := C61_unique hS hT i
    rw [es] at this
    rw [List.length_take] at hi hi'
    rw [List.getElem_take, List.getElem_take]
    rwa [List.getD_eq_getElem _ _ (by omega), List.getD_eq_getElem _ _ (by omega)] at this
  · intro a ha j hj
    rw [getD_take _ _ _ _ (by omega)]
    refine uA_trunc (u := U) (v := V) (A := M) (m := m) (n := n) ?_ a (by omega) j hj
    rw [hMm, Matrix.mul_assoc, ← Matrix.mul_assoc, hU, Matrix.one_mul]
  · intro i hi a ha
    rw [getD_take _ _ _ _ (by omega)]
    have e : toMat M m n * (toMat V S.length n)ᴴ = toMat U m S.length * sdiag S S.length := by
      rw [hMm, Matrix.mul_assoc, hV, Matrix.mul_one]
    have := congrFun (congrFun e ⟨i, hi⟩) ⟨a, by omega⟩
    rw [sdiag, Matrix.mul_diagonal, Matrix.mul_apply] at this
    simp only [toMat, Matrix.conjTranspose_apply, Matrix.of_apply] at this
    rw [Fin.sum_univ_eq_sum_range (fun j => M.get [i, j] * star (V.get [a, j]))] at this
    exact this
  · intro x y
    have e := C61_eckart_young hS k x y
    refine le_trans (le_of_eq ?_) (e.1.le.trans e.2)
    congr 1
    ext i j
    exact husv i j
  · intro hk i hi j hj
    rw [husv, min_eq_right (by omega)]
    exact hS.prod i hi j hj

/-- C61: the random numbers capture the range of `M = X Z` if `Z Ω` has a right inverse. -/
theorem C61_spans_of_rank {M : ℕ → ℕ → 𝕜} {Ω : NDArray 𝕜} {m n p r : ℕ} {X Z W : ℕ → ℕ → 𝕜}
    (hM : ∀ i < m, ∀ j < n, M i j = ∑ c ∈ range r, X i c * Z c j)
    (hW : ∀ c < r, ∀ d < r, ∑ b ∈ range p, (∑ a ∈ range n, Z c a * Ω.get [a, b]) * W b d = if c = d then 1 else 0) :
    Spans M Ω m n p := by
  refine ⟨fun b j => ∑ d ∈ range r, W b d * Z d j, ?_⟩
  intro i hi j hj
  let Zm : Matrix (Fin r) (Fin n) 𝕜 := Matrix.of fun c a => Z c a
  let Xm : Matrix (Fin m) (Fin r) 𝕜 := Matrix.of fun c a => X c a
  let Wm : Matrix (Fin p) (Fin r) 𝕜 := Matrix.of fun c a => W c a
  let Mm : Matrix (Fin m) (Fin n) 𝕜 := Matrix.of fun c a => M c a
  have e1 : Mm = Xm * Zm := by
    ext i j
    simp only [Matrix.mul_apply, Matrix.of_apply, Mm, Xm, Zm]
    rw [hM i i.2 j j.2, ← Fin.sum_univ_eq_sum_range (fun c => X i c * Z c j)]
  have e2 : Zm * toMat Ω n p * Wm = 1 := by
    ext c d
    rw [Matrix.mul_apply, Matrix.one_apply]
    simp only [Matrix.mul_apply, Matrix.of_apply, Wm, Zm, toMat]
    have := hW c c.2 d d.2
    rw [← Fin.sum_univ_eq_sum_range (fun b => (∑ a ∈ range n, Z c a * Ω.get [a, b]) * W b d)] at this
    simp only [← Fin.sum_univ_eq_sum_range (fun a => Z _ a * Ω.get [a, _])] at this
    rw [this]
    simp [Fin.ext_iff]
  have e3 : Mm = Mm * toMat Ω n p * (Wm * Zm) := by
    conv_rhs => rw [e1]
    rw [show Xm * Zm * toMat Ω n p * (Wm * Zm) = Xm * (Zm * toMat Ω n p * Wm) * Zm by simp only [Matrix.mul_assoc], e2,
      Matrix.mul_one, e1]
  have := congrFun (congrFun e3 ⟨i, hi⟩) ⟨j, hj⟩
  rw [Matrix.mul_apply] at this
  simp only [Matrix.mul_apply, Matrix.of_apply, Mm, Wm, Zm, toMat] at this
  rw [this, ← Fin.sum_univ_eq_sum_range (fun b => (∑ a ∈ range n, M i a * Ω.get [a, b]) * ∑ d ∈ range r, W b d * Z d j)]
  refine Finset.sum_congr rfl fun b _ => ?_
  rw [← Fin.sum_univ_eq_sum_range (fun a => M i a * Ω.get [a, (b : ℕ)]), ← Fin.sum_univ_eq_sum_range (fun d => W b d * Z d j)]

/-- C61: a dtype other than `np.float_` and `np.complex_` (for example of an integer matrix) is rejected. -/
theorem C61_dtype (qr : QR 𝕜) (lu : LU 𝕜) (svd : SVD 𝕜) (draw : ℕ → ℕ → NDArray 𝕜) (M : NDArray 𝕜) (k o : ℕ) (nIter : Option ℤ)
    (nrm : Normalizer) (transpose : Option Bool) :
    randomizedSvd qr lu svd .other draw M k o nIter nrm transpose = .error .value := rfl

/-- C61, finding: a value of `piter_normalizer` that is not one of the four is not rejected; no power iteration is
performed, however many were requested. -/
theorem C61_unknown_normalizer (qr : QR 𝕜) (lu : LU 𝕜) (dtype : Dtype) (draw A : NDArray 𝕜) (nIter : ℤ) :
    approxRangeFinder qr lu dtype draw A nIter .other = approxRangeFinder qr lu dtype draw A 0 .other := by
  simp only [approxRangeFinder, reduceCtorEq, if_false]
  congr 1
  funext Q
  rw [show powerStep qr lu A .other = id from rfl, Function.iterate_id, Function.iterate_id]

/-- C61: `piter_normalizer='auto'` stands for `'none'` up to two iterations and for `'LU'` afterwards. -/
theorem C61_auto_normalizer (qr : QR 𝕜) (lu : LU 𝕜) (dtype : Dtype) (draw A : NDArray 𝕜) (nIter : ℤ) :
    approxRangeFinder qr lu dtype draw A nIter .auto = approxRangeFinder qr lu dtype draw A nIter (if nIter ≤ 2 then .none else .lu) := by
  by_cases h : nIter ≤ 2 <;> simp [approxRangeFinder, h]

/-- A routine that meets the contract of `linalg.lu` exists. -/
theorem exists_LUSpec : ∃ lu : LU 𝕜, LUSpec lu := by
  obtain ⟨qr, h⟩ := exists_QRSpec (𝕜 := 𝕜)
  exact ⟨qr, fun A m n hA => ⟨(h A m n hA).1, (h A m n hA).2.1, (h A m n hA).2.2.1⟩⟩

/-- Example: a `2 × 3` matrix of rank one and a draw with two columns that captures its range; `randomized_svd` with one
component is exact. -/
example : ∃ (qr : QR ℂ) (lu : LU ℂ) (svd : SVD ℂ) (draw : ℕ → ℕ → NDArray ℂ) (M : NDArray ℂ), QRSpec qr ∧ LUSpec lu ∧
    SVDSpec svd ∧ (∀ a b, (draw a b).shape = [a, b]) ∧ M.shape = [2, 3] ∧ M.get [1, 2] = 6 ∧ DrawSpans M 2 3 (1 + 1) draw (some false) := by
  obtain ⟨qr, h1⟩ := exists_QRSpec (𝕜 := ℂ)
  obtain ⟨lu, h2⟩ := exists_LUSpec (𝕜 := ℂ)
  obtain ⟨svd, h3⟩ := exists_SVDSpec (𝕜 := ℂ)
  refine ⟨qr, lu, svd, fun a b => ⟨[a, b], fun i => if i = [2, 0] then 1 else 0⟩,
    ⟨[2, 3], fun i => (i.getD 0 0 + 1 : ℕ) * (i.getD 1 0 + 1 : ℕ)⟩, h1, h2, h3, fun _ _ => rfl, rfl, by norm_num, ?_⟩
  simp only [DrawSpans, transposed, Option.getD_some, Bool.false_eq_true, if_false]
  refine C61_spans_of_rank (r := 1) (X := fun i _ => ((i + 1 : ℕ) : ℂ)) (Z := fun _ j => ((j + 1 : ℕ) : ℂ))
    (W := fun b _ => if b = 0 then 1 / 3 else 0) ?_ ?_
  · intro i _ j _
    simp
  · intro c hc d hd
    obtain rfl : c = 0 := by omega
    obtain rfl : d = 0 := by omega
    simp [Finset.sum_range_succ]
    norm_num

end Mpnum
