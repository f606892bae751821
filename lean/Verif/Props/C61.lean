import Verif.Utils.ExtMathLemmas
import Verif.Oracle.EckartYoung
import Verif.SpecialLemmas
import Mathlib.Data.List.GetD

/-!
# C61: `randomized_svd`

Whatever random numbers are drawn, the result consists of orthonormal singular vectors and sorted singular values of
the sizes `truncated_svd` returns, and is an orthogonal projection of the matrix.  It is never better than the truncated
singular value decomposition, and it is one as soon as the random numbers capture the range of the matrix. -/

open Finset Matrix

namespace Mpnum

variable {𝕜 : Type} [RCLike 𝕜]

/-! ### specification -/

/-- `u`, `s`, `v` have the sizes and the orthogonality of the first terms of a singular value decomposition. -/
structure Frames (u v : NDArray 𝕜) (s : List ℝ) (m n : ℕ) : Prop where
  ushape : u.shape = [m, s.length]
  vshape : v.shape = [s.length, n]
  sorted : s.Pairwise (· ≥ ·)
  nonneg : ∀ x ∈ s, 0 ≤ x
  ucols : ∀ a < s.length, ∀ b < s.length, ∑ i ∈ range m, star (u.get [i, a]) * u.get [i, b] = if a = b then 1 else 0
  vrows : ∀ a < s.length, ∀ b < s.length, ∑ j ∈ range n, v.get [a, j] * star (v.get [b, j]) = if a = b then 1 else 0

/-- The matrix `u diag(s) v` -/
noncomputable def usv (u v : NDArray 𝕜) (s : List ℝ) (i j : ℕ) : 𝕜 :=
  ∑ c ∈ range s.length, u.get [i, c] * ((s.getD c 0 : ℝ) : 𝕜) * v.get [c, j]

/-- `u`, `s`, `v` is a singular value decomposition of the `m × n` matrix `A`. -/
structure SvdOf (A : ℕ → ℕ → 𝕜) (u v : NDArray 𝕜) (s : List ℝ) (m n : ℕ) : Prop extends Frames u v s m n where
  prod : ∀ i < m, ∀ j < n, A i j = usv u v s i j

/-- The squared distance of two `m × n` matrices -/
noncomputable def distSq (m n : ℕ) (A B : ℕ → ℕ → 𝕜) : ℝ := ∑ i ∈ range m, ∑ j ∈ range n, ‖A i j - B i j‖ ^ 2

/-! ### arrays and matrices -/

theorem toMat_ucols {u : NDArray 𝕜} {m t : ℕ} :
    (∀ a < t, ∀ b < t, ∑ i ∈ range m, star (u.get [i, a]) * u.get [i, b] = if a = b then 1 else 0) ↔
      (toMat u m t)ᴴ * toMat u m t = 1 := by
  constructor
  · intro h
    ext a b
    simp only [toMat, Matrix.mul_apply, Matrix.conjTranspose_apply, Matrix.of_apply, Matrix.one_apply]
    rw [Fin.sum_univ_eq_sum_range (fun i => star (u.get [i, (a : ℕ)]) * u.get [i, (b : ℕ)]), h a a.2 b b.2]
    simp [Fin.ext_iff]
  · intro h a ha b hb
    have := congrFun (congrFun h ⟨a, ha⟩) ⟨b, hb⟩
    simp only [toMat, Matrix.mul_apply, Matrix.conjTranspose_apply, Matrix.of_apply, Matrix.one_apply, Fin.mk.injEq] at this
    rwa [Fin.sum_univ_eq_sum_range (fun i => star (u.get [i, a]) * u.get [i, b])] at this

theorem toMat_vrows {v : NDArray 𝕜} {n t : ℕ} :
    (∀ a < t, ∀ b < t, ∑ j ∈ range n, v.get [a, j] * star (v.get [b, j]) = if a = b then 1 else 0) ↔
      toMat v t n * (toMat v t n)ᴴ = 1 := by
  constructor
  · intro h
    ext a b
    simp only [toMat, Matrix.mul_apply, Matrix.conjTranspose_apply, Matrix.of_apply, Matrix.one_apply]
    rw [Fin.sum_univ_eq_sum_range (fun i => v.get [(a : ℕ), i] * star (v.get [(b : ℕ), i])), h a a.2 b b.2]
    simp [Fin.ext_iff]
  · intro h a ha b hb
    have := congrFun (congrFun h ⟨a, ha⟩) ⟨b, hb⟩
    simp only [toMat, Matrix.mul_apply, Matrix.conjTranspose_apply, Matrix.of_apply, Matrix.one_apply, Fin.mk.injEq] at this
    rwa [Fin.sum_univ_eq_sum_range (fun i => v.get [a, i] * star (v.get [b, i]))] at this

/-- The diagonal matrix of the singular values -/
noncomputable def sdiag (s : List ℝ) (t : ℕ) : Matrix (Fin t) (Fin t) 𝕜 := Matrix.diagonal fun c => ((s.getD c 0 : ℝ) : 𝕜)

theorem usv_mat (u v : NDArray 𝕜) (s : List ℝ) (m n : ℕ) (i : Fin m) (j : Fin n) :
    usv u v s i j = ((toMat u m s.length * sdiag s s.length * toMat v s.length n : Matrix (Fin m) (Fin n) 𝕜)) i j := by
  rw [Matrix.mul_apply]
  simp only [sdiag, Matrix.mul_diagonal, toMat, Matrix.of_apply]
  rw [Fin.sum_univ_eq_sum_range (fun c => u.get [(i : ℕ), c] * ((s.getD c 0 : ℝ) : 𝕜) * v.get [c, (j : ℕ)])]
  rfl

theorem distSq_mat (m n : ℕ) (A B : ℕ → ℕ → 𝕜) :
    distSq m n A B = frobSq (Matrix.of (fun (i : Fin m) (j : Fin n) => A i j) - Matrix.of fun (i : Fin m) (j : Fin n) => B i j) := by
  simp only [distSq, frobSq, Matrix.sub_apply, Matrix.of_apply]
  rw [← Fin.sum_univ_eq_sum_range (fun i => ∑ j ∈ range n, ‖A i j - B i j‖ ^ 2)]
  refine Finset.sum_congr rfl fun i _ => ?_
  rw [← Fin.sum_univ_eq_sum_range (fun j => ‖A i j - B i j‖ ^ 2)]

theorem SvdOf.mat {A : ℕ → ℕ → 𝕜} {u v : NDArray 𝕜} {s : List ℝ} {m n : ℕ} (h : SvdOf A u v s m n) :
    (Matrix.of fun (i : Fin m) (j : Fin n) => A i j) = toMat u m s.length * sdiag s s.length * toMat v s.length n := by
  ext i j
  rw [← usv_mat, ← h.prod i i.2 j j.2]
  rfl

theorem getD_sorted {s : List ℝ} (h : s.Pairwise (· ≥ ·)) : ∀ i j, i ≤ j → j < s.length → s.getD j 0 ≤ s.getD i 0 := by
  intro i j hij hj
  rcases hij.eq_or_lt with rfl | hlt
  · exact le_rfl
  · rw [List.getD_eq_getElem _ _ hj, List.getD_eq_getElem _ _ (by omega)]
    exact List.pairwise_iff_getElem.1 h i j _ _ hlt

theorem getD_nonneg {s : List ℝ} (h : ∀ x ∈ s, 0 ≤ x) : ∀ i < s.length, 0 ≤ s.getD i 0 := by
  intro i hi
  rw [List.getD_eq_getElem _ _ hi]
  exact h _ (List.getElem_mem _)

/-- Eckart and Young: no sum of `k` products is closer to `A` than the first `k` terms of its singular value
decomposition, whose squared error is the sum of the squares of the other singular values. -/
theorem C61_eckart_young {A : ℕ → ℕ → 𝕜} {u v : NDArray 𝕜} {s : List ℝ} {m n : ℕ} (h : SvdOf A u v s m n) (k : ℕ)
    (x y : ℕ → ℕ → 𝕜) :
    distSq m n A (fun i j => ∑ c ∈ range (min k s.length), u.get [i, c] * ((s.getD c 0 : ℝ) : 𝕜) * v.get [c, j])
      = ∑ c ∈ Ico k s.length, s.getD c 0 ^ 2 ∧
    ∑ c ∈ Ico k s.length, s.getD c 0 ^ 2 ≤ distSq m n A fun i j => ∑ c ∈ range k, x i c * y c j := by
  have hU := toMat_ucols.1 h.ucols
  have hV := toMat_vrows.1 h.vrows
  have hA := h.mat
  constructor
  · rw [distSq_mat, hA, sdiag, ← svd_trunc_error (s := fun c => s.getD c 0) hU hV k]
    congr 2
    ext i j
    rw [Matrix.mul_apply]
    simp only [Matrix.mul_diagonal, toMat, Matrix.of_apply]
    rw [Fin.sum_univ_eq_sum_range (fun c => u.get [(i : ℕ), c] * (if c < k then ((s.getD c 0 : ℝ) : 𝕜) else 0) * v.get [c, (j : ℕ)])]
    rcases le_total s.length k with hk | hk
    · rw [min_eq_right hk]
      refine Finset.sum_congr rfl fun c hc => ?_
      rw [if_pos (by have : c < s.length := by simpa using hc
                     omega)]
    · rw [min_eq_left hk, ← Finset.sum_range_add_sum_Ico _ hk]
      rw [Finset.sum_eq_zero (s := Ico k s.length), add_zero]
      · refine Finset.sum_congr rfl fun c hc => ?_
        rw [if_pos (by simpa using hc)]
      · intro c hc
        rw [if_neg (by have := (Finset.mem_Ico.1 hc).1; omega)]
        simp
  · have := eckart_young (k := k) (s := fun c => s.getD c 0) hU hV (getD_sorted h.sorted) (getD_nonneg h.nonneg) hA
      (Matrix.of fun i c => x i c) (Matrix.of fun c j => y c j)
    rw [distSq_mat]
    refine this.trans (le_of_eq ?_)
    congr 2
    ext i j
    simp only [Matrix.mul_apply, Matrix.of_apply]
    rw [Fin.sum_univ_eq_sum_range (fun c => x i c * y c j)]

theorem svdOf_tail_le {A : ℕ → ℕ → 𝕜} {u v u' v' : NDArray 𝕜} {s s' : List ℝ} {m n : ℕ} (h : SvdOf A u v s m n)
    (h' : SvdOf A u' v' s' m n) (k : ℕ) : ∑ c ∈ Ico k s.length, s.getD c 0 ^ 2 ≤ ∑ c ∈ Ico k s'.length, s'.getD c 0 ^ 2 :=
  svd_tail_le (s := fun c => s.getD c 0) (s' := fun c => s'.getD c 0) (toMat_ucols.1 h.ucols) (toMat_vrows.1 h.vrows)
    (getD_sorted h.sorted) (getD_nonneg h.nonneg) h.mat (toMat_ucols.1 h'.ucols) (toMat_vrows.1 h'.vrows) h'.mat k

/-- The singular values are a property of the matrix alone (up to zeros at the end). -/
theorem C61_unique {A : ℕ → ℕ → 𝕜} {u v u' v' : NDArray 𝕜} {s s' : List ℝ} {m n : ℕ} (h : SvdOf A u v s m n)
    (h' : SvdOf A u' v' s' m n) (k : ℕ) : s.getD k 0 = s'.getD k 0 := by
  have key : ∀ s : List ℝ, ∑ c ∈ Ico k s.length, s.getD c 0 ^ 2 = s.getD k 0 ^ 2 + ∑ c ∈ Ico (k + 1) s.length, s.getD c 0 ^ 2 := by
    intro s
    rcases le_or_gt s.length k with hk | hk
    · rw [Finset.Ico_eq_empty (by omega), Finset.Ico_eq_empty (by omega), List.getD_eq_default _ _ hk]; simp
    · exact Finset.sum_eq_sum_Ico_succ_bot hk _
  have e1 := le_antisymm (svdOf_tail_le h h' k) (svdOf_tail_le h' h k)
  have e2 := le_antisymm (svdOf_tail_le h h' (k + 1)) (svdOf_tail_le h' h (k + 1))
  rw [key s, key s', e2] at e1
  have n1 : ∀ s : List ℝ, (∀ x ∈ s, 0 ≤ x) → 0 ≤ s.getD k 0 := by
    intro s hs
    rcases le_or_gt s.length k with hk | hk
    · rw [List.getD_eq_default _ _ hk]
    · exact getD_nonneg hs k hk
  exact (sq_eq_sq₀ (n1 s h.nonneg) (n1 s' h'.nonneg)).1 (by linarith)

/-! ### the algorithm -/

theorem thinSvd_ok {svd : SVD 𝕜} (h : SVDSpec svd) {B : NDArray 𝕜} {q n : ℕ} (hB : B.shape = [q, n]) :
    SvdOf (fun i j => B.get [i, j]) (thinSvd svd B).1 (thinSvd svd B).2.2 (thinSvd svd B).2.1 q n ∧
      (thinSvd svd B).2.1.length = min q n := by
  obtain ⟨h1, h2, h3, h4, h5, h6, h7, h8⟩ := h B q n hB
  have hk : min (min (B.shape.getD 0 0) (B.shape.getD 1 0)) (svd B).2.1.length = (svd B).2.1.length := by
    simp [hB, h2]
  have e : thinSvd svd B = ((svd B).1.cols (svd B).2.1.length, (svd B).2.1, (svd B).2.2.rows (svd B).2.1.length) := by
    simp only [thinSvd, truncatedSvd, hk, List.take_length]
  rw [e]
  refine ⟨⟨⟨?_, ?_, h4, h5, ?_, ?_⟩, ?_⟩, h2⟩
  · simp [NDArray.cols, h1, h2]
  · simp [NDArray.rows, h3, h2]
  · intro a ha b hb
    simp only [h2] at ha hb
    exact h6 a (by omega) b (by omega)
  · intro a ha b hb
    simp only [h2] at ha hb
    exact h7 a (by omega) b (by omega)
  · intro i hi j hj
    simp only [usv]
    rw [h8 i hi j hj, h2]
    rfl

theorem randCore {qr : QR 𝕜} (hqr : QRSpec qr) {lu : LU 𝕜} (hlu : LUSpec lu) {svd : SVD 𝕜} (h : SVDSpec svd)
    {A draw : NDArray 𝕜} {m n p : ℕ} (hA : A.shape = [m, n]) (hd : draw.shape = [n, p]) {dtype : Dtype} (ht : dtype ≠ .other)
    (nIter : ℤ) (nrm : Normalizer) :
    ∃ Q U V : NDArray 𝕜, ∃ s : List ℝ, approxRangeFinder qr lu dtype draw A nIter nrm = .ok Q ∧
      U = opMul Q (thinSvd svd (opAdj (opMul (opAdj A) Q))).1 ∧ (thinSvd svd (opAdj (opMul (opAdj A) Q))).2 = (s, V) ∧
      s.length = min (min m n) p ∧ Frames U V s m n ∧
      (toMat U m s.length)ᴴ * toMat A m n = sdiag s s.length * toMat V s.length n ∧
      (Captures A draw m n p → SvdOf (fun i j => A.get [i, j]) U V s m n) ∧
      (∀ (u' v' : NDArray 𝕜) (s' : List ℝ), SvdOf (fun i j => A.get [i, j]) u' v' s' m n → ∀ c < s.length, s.getD c 0 ≤ s'.getD c 0) := by
  obtain ⟨Q, q, h1, h2, h3, h4, h5, h6⟩ := approxRangeFinder_ok hqr hlu hA hd ht nIter nrm
  have hB : (opAdj (opMul (opAdj A) Q)).shape = [q, n] := opAdj_shape (opMul_shape (opAdj_shape hA) h2)
  obtain ⟨k1, k2⟩ := thinSvd_ok h hB
  have hm := k1.mat
  obtain ⟨Uh, s, V, hR⟩ : ∃ Uh s V, thinSvd svd (opAdj (opMul (opAdj A) Q)) = (Uh, s, V) := ⟨_, _, _, rfl⟩
  rw [hR] at k1 k2 hm
  simp only at k1 k2 hm
  refine ⟨Q, opMul Q Uh, V, s, h1, by rw [hR], by rw [hR], by omega, ?_⟩
  have hBm : (Matrix.of fun (i : Fin q) (j : Fin n) => (opAdj (opMul (opAdj A) Q)).get [(i : ℕ), (j : ℕ)]) = (toMat Q m q)ᴴ * toMat A m n := by
    show toMat (opAdj (opMul (opAdj A) Q)) q n = _
    rw [toMat_opAdj _ n q, toMat_opMul (opAdj_shape hA), toMat_opAdj _ m n, Matrix.conjTranspose_mul, Matrix.conjTranspose_conjTranspose]
  rw [hBm] at hm
  have hUm : toMat (opMul Q Uh) m s.length = toMat Q m q * toMat Uh q s.length := toMat_opMul h2
  have hUh := toMat_ucols.1 k1.ucols
  have hV := toMat_vrows.1 k1.vrows
  have hU : (toMat (opMul Q Uh) m s.length)ᴴ * toMat (opMul Q Uh) m s.length = 1 := by
    rw [hUm, Matrix.conjTranspose_mul, Matrix.mul_assoc, ← Matrix.mul_assoc _ (toMat Q m q), h5, Matrix.one_mul, hUh]
  have hF : Frames (opMul Q Uh) V s m n :=
    ⟨opMul_shape h2 k1.ushape, k1.vshape, k1.sorted, k1.nonneg, toMat_ucols.2 hU, k1.vrows⟩
  refine ⟨hF, ?_, ?_, ?_⟩
  · rw [hUm, Matrix.conjTranspose_mul, Matrix.mul_assoc, hm, Matrix.mul_assoc, ← Matrix.mul_assoc _ (toMat Uh q s.length), hUh, Matrix.one_mul]
  · intro hc
    refine ⟨hF, ?_⟩
    intro i hi j hj
    have e := h6 hc
    rw [hm, ← Matrix.mul_assoc, ← Matrix.mul_assoc, ← hUm] at e
    have := congrFun (congrFun e ⟨i, hi⟩) ⟨j, hj⟩
    rw [← usv_mat] at this
    exact this.symm
  · intro u' v' s' h' c hc
    have := svd_interlace (s := fun c => s.getD c 0) (s' := fun c => s'.getD c 0) h5 hUh hV (getD_sorted k1.sorted)
      (getD_nonneg k1.nonneg) hm (toMat_ucols.1 h'.ucols) (toMat_vrows.1 h'.vrows) (getD_sorted h'.sorted)
      (getD_nonneg h'.nonneg) h'.mat hc
    refine this.trans (le_of_eq ?_)
    split_ifs with hlt
    · rfl
    · rw [List.getD_eq_default _ _ (by omega)]

/-- Truncation to the first `k` terms -/
theorem Frames.trunc {u v : NDArray 𝕜} {s : List ℝ} {m n : ℕ} (h : Frames u v s m n) (k : ℕ) :
    Frames (u.cols k) (v.rows k) (s.take k) m n := by
  have hl : (s.take k).length ≤ s.length := by simp
  refine ⟨?_, ?_, h.sorted.sublist (List.take_sublist _ _), fun x hx => h.nonneg x (List.mem_of_mem_take hx), ?_, ?_⟩
  · simp [NDArray.cols, h.ushape]
  · simp [NDArray.rows, h.vshape]
  · exact fun a ha b hb => h.ucols a (by omega) b (by omega)
  · exact fun a ha b hb => h.vrows a (by omega) b (by omega)

/-- The adjoint of a decomposition -/
theorem Frames.adj {u v : NDArray 𝕜} {s : List ℝ} {m n : ℕ} (h : Frames u v s m n) : Frames (opAdj v) (opAdj u) s n m := by
  refine ⟨opAdj_shape h.vshape, opAdj_shape h.ushape, h.sorted, h.nonneg, ?_, ?_⟩
  · intro a ha b hb
    simp only [opAdj, List.getD_cons_zero, List.getD_cons_succ, star_star]
    exact h.vrows a ha b hb
  · intro a ha b hb
    simp only [opAdj, List.getD_cons_zero, List.getD_cons_succ, star_star]
    exact h.ucols a ha b hb

theorem star_ofReal' (x : ℝ) : star ((x : ℝ) : 𝕜) = ((x : ℝ) : 𝕜) := RCLike.conj_ofReal x

theorem usv_adj (u v : NDArray 𝕜) (s : List ℝ) (i j : ℕ) : usv (opAdj v) (opAdj u) s i j = star (usv u v s j i) := by
  simp only [usv, star_sum, opAdj, List.getD_cons_zero, List.getD_cons_succ]
  refine Finset.sum_congr rfl fun c _ => ?_
  rw [star_mul', star_mul', star_ofReal']
  ring

theorem SvdOf.adj {A : ℕ → ℕ → 𝕜} {u v : NDArray 𝕜} {s : List ℝ} {m n : ℕ} (h : SvdOf A u v s m n) :
    SvdOf (fun i j => star (A j i)) (opAdj v) (opAdj u) s n m :=
  ⟨h.toFrames.adj, fun i hi j hj => by rw [usv_adj, ← h.prod j hj i hi]⟩

/-! ### the theorems -/

/-- The columns of `M Ω` span the columns of the `m × n` matrix `M`, for the `n × p` matrix `Ω`. -/
def Spans (M : ℕ → ℕ → 𝕜) (Ω : NDArray 𝕜) (m n p : ℕ) : Prop :=
  ∃ Y : ℕ → ℕ → 𝕜, ∀ i < m, ∀ j < n, M i j = ∑ b ∈ range p, (∑ a ∈ range n, M i a * Ω.get [a, b]) * Y b j

theorem spans_captures {M Ω : NDArray 𝕜} {m n p : ℕ} (h : Spans (fun i j => M.get [i, j]) Ω m n p) : Captures M Ω m n p := by
  obtain ⟨Y, hY⟩ := h
  refine ⟨Matrix.of fun b j => Y b j, ?_⟩
  ext i j
  have := hY i i.2 j j.2
  simp only at this
  rw [Matrix.mul_apply]
  simp only [Matrix.mul_apply, toMat, Matrix.of_apply]
  rw [this, ← Fin.sum_univ_eq_sum_range (fun b => (∑ a ∈ range n, M.get [(i : ℕ), a] * Ω.get [a, b]) * Y b j)]
  refine Finset.sum_congr rfl fun b _ => ?_
  rw [← Fin.sum_univ_eq_sum_range (fun a => M.get [(i : ℕ), a] * Ω.get [a, (b : ℕ)])]

theorem uA_trunc {u v : NDArray 𝕜} {s : List ℝ} {A : NDArray 𝕜} {m n : ℕ}
    (h : (toMat u m s.length)ᴴ * toMat A m n = sdiag s s.length * toMat v s.length n) :
    ∀ a < s.length, ∀ j < n, ∑ i ∈ range m, star (u.get [i, a]) * A.get [i, j] = ((s.getD a 0 : ℝ) : 𝕜) * v.get [a, j] := by
  intro a ha j hj
  have := congrFun (congrFun h ⟨a, ha⟩) ⟨j, hj⟩
  rw [sdiag, Matrix.diagonal_mul, Matrix.mul_apply] at this
  simp only [toMat, Matrix.conjTranspose_apply, Matrix.of_apply] at this
  rw [← this, ← Fin.sum_univ_eq_sum_range (fun i => star (u.get [i, a]) * A.get [i, j])]

/-- The error of an orthogonal projection -/
theorem proj_error {u v : NDArray 𝕜} {s : List ℝ} {A : ℕ → ℕ → 𝕜} {m n : ℕ} (hF : Frames u v s m n)
    (h : ∀ a < s.length, ∀ j < n, ∑ i ∈ range m, star (u.get [i, a]) * A i j = ((s.getD a 0 : ℝ) : 𝕜) * v.get [a, j]) :
    distSq m n A (usv u v s) = distSq m n A (fun _ _ => 0) - ∑ c ∈ range s.length, s.getD c 0 ^ 2 := by
  have hU := toMat_ucols.1 hF.ucols
  have hV := toMat_vrows.1 hF.vrows
  let M : Matrix (Fin m) (Fin n) 𝕜 := Matrix.of fun i j => A i j
  have hM : (toMat u m s.length)ᴴ * M = sdiag s s.length * toMat v s.length n := by
    ext a j
    rw [sdiag, Matrix.diagonal_mul, Matrix.mul_apply]
    simp only [toMat, Matrix.conjTranspose_apply, Matrix.of_apply, M]
    rw [← h a a.2 j j.2, ← Fin.sum_univ_eq_sum_range (fun i => star (u.get [i, (a : ℕ)]) * A i j)]
  have e := frobSq_proj hU M
  rw [hM, ← Matrix.mul_assoc, frobSq_coisometry hV] at e
  rw [distSq_mat, distSq_mat]
  have e1 : (Matrix.of fun (i : Fin m) (j : Fin n) => usv u v s i j) = toMat u m s.length * sdiag s s.length * toMat v s.length n := by
    ext i j
    rw [Matrix.of_apply, usv_mat]
  have e2 : frobSq (sdiag s s.length : Matrix _ _ 𝕜) = ∑ c ∈ range s.length, s.getD c 0 ^ 2 := by
    rw [← Fin.sum_univ_eq_sum_range (fun c => s.getD c 0 ^ 2)]
    simp only [frobSq, sdiag, Matrix.diagonal_apply]
    refine Finset.sum_congr rfl fun i _ => ?_
    rw [Finset.sum_eq_single i (fun j _ hj => by simp [Ne.symm hj]) (by simp)]
    simp
  rw [e1, e, e2]
  congr 2
  ext i j
  simp [M]

theorem distSq_adj (m n : ℕ) (A B : ℕ → ℕ → 𝕜) :
    distSq n m (fun i j => star (A j i)) (fun i j => star (B j i)) = distSq m n A B := by
  simp only [distSq]
  rw [Finset.sum_comm]
  refine Finset.sum_congr rfl fun i _ => Finset.sum_congr rfl fun j _ => ?_
  rw [← star_sub, norm_star]

theorem cols_adj {V : NDArray 𝕜} {t n : ℕ} (h : V.shape = [t, n]) (k : ℕ) : opAdj (V.rows k) = (opAdj V).cols k := by
  simp [opAdj, NDArray.rows, NDArray.cols, h]

theorem rows_adj {U : NDArray 𝕜} {t m : ℕ} (h : U.shape = [m, t]) (k : ℕ) : opAdj (U.cols k) = (opAdj U).rows k := by
  simp [opAdj, NDArray.rows, NDArray.cols, h]

/-- Is the matrix transposed? -/
def transposed (transpose : Option Bool) (m n : ℕ) : Bool := transpose.getD (decide (m < n))

/-- C61: for every matrix, every draw of random numbers, every number of power iterations and every way of normalising
them, `randomized_svd` returns as many singular values as `truncated_svd`, sorted and not negative, and orthonormal
singular vectors.  The product of the three is an orthogonal projection of the matrix onto the left singular vectors
(onto the right ones if the matrix was transposed), so that the squared error is exactly the squared norm of the
matrix minus the sum of the squares of the singular values.  No singular value exceeds the true one.  If the random numbers capture the range of the matrix,
the result is the beginning of a singular value decomposition. -/
theorem C61_randomized_svd {qr : QR 𝕜} (hqr : QRSpec qr) {lu : LU 𝕜} (hlu : LUSpec lu) {svd : SVD 𝕜} (h : SVDSpec svd)
    {dtype : Dtype} (ht : dtype ≠ .other) (draw : ℕ → ℕ → NDArray 𝕜) (hd : ∀ a b, (draw a b).shape = [a, b])
    (M : NDArray 𝕜) {m n : ℕ} (hM : M.shape = [m, n]) (k o : ℕ) (nIter : Option ℤ) (nrm : Normalizer) (transpose : Option Bool) :
    ∃ (u v : NDArray 𝕜) (s : List ℝ), randomizedSvd qr lu svd dtype draw M k o nIter nrm transpose = .ok (u, s, v) ∧
      s.length = min k (min m n) ∧ Frames u v s m n ∧
      distSq m n (fun i j => M.get [i, j]) (usv u v s) = distSq m n (fun i j => M.get [i, j]) (fun _ _ => 0) - ∑ c ∈ range s.length, s.getD c 0 ^ 2 ∧
      (transposed transpose m n = false → ∀ a < s.length, ∀ j < n,
        ∑ i ∈ range m, star (u.get [i, a]) * M.get [i, j] = ((s.getD a 0 : ℝ) : 𝕜) * v.get [a, j]) ∧
      (transposed transpose m n = true → ∀ i < m, ∀ a < s.length,
        ∑ j ∈ range n, M.get [i, j] * star (v.get [a, j]) = u.get [i, a] * ((s.getD a 0 : ℝ) : 𝕜)) ∧
      ((transposed transpose m n = false ∧ Spans (fun i j => M.get [i, j]) (draw n (k + o)) m n (k + o) ∨
        transposed transpose m n = true ∧ Spans (fun i j => star (M.get [j, i])) (draw m (k + o)) n m (k + o)) →
        ∃ (U V : NDArray 𝕜) (S : List ℝ), SvdOf (fun i j => M.get [i, j]) U V S m n ∧ S.length = min (min m n) (k + o) ∧
          u = U.cols k ∧ s = S.take k ∧ v = V.rows k) ∧
      (∀ (u' v' : NDArray 𝕜) (s' : List ℝ), SvdOf (fun i j => M.get [i, j]) u' v' s' m n → ∀ c < s.length, s.getD c 0 ≤ s'.getD c 0) := by
  unfold randomizedSvd
  simp only [hM, List.getD_cons_zero, List.getD_cons_succ]
  rw [show transpose.getD (decide (m < n)) = transposed transpose m n from rfl]
  generalize nIter.getD _ = N
  cases htr : transposed transpose m n with
  | false =>
    obtain ⟨Q, U, V, s, h1, h2, h3, h4, h5, h6, h7, h8⟩ := randCore hqr hlu h hM (hd n (k + o)) ht N nrm
    have h6 := uA_trunc h6
    simp only [Bool.false_eq_true, if_false, hM, List.getD_cons_zero, List.getD_cons_succ, h1, ok_bind]
    have e1 : (thinSvd svd (opAdj (opMul (opAdj M) Q))).2.1 = s := by rw [h3]
    have e2 : (thinSvd svd (opAdj (opMul (opAdj M) Q))).2.2 = V := by rw [h3]
    rw [← h2, e1, e2]
    have hl : (s.take k).length = min k s.length := by simp
    have huA : ∀ a < (s.take k).length, ∀ j < n, ∑ i ∈ range m, star ((U.cols k).get [i, a]) * M.get [i, j]
        = (((s.take k).getD a 0 : ℝ) : 𝕜) * (V.rows k).get [a, j] := by
      intro a ha j hj
      rw [getD_take _ _ _ _ (by omega)]
      exact h6 a (by omega) j hj
    refine ⟨_, _, _, rfl, by omega, h5.trunc k, proj_error (h5.trunc k) huA, fun _ => huA, by simp, ?_, ?_⟩
    · rintro (⟨-, hs⟩ | ⟨hs, -⟩)
      · exact ⟨U, V, s, h7 (spans_captures hs), h4, rfl, rfl, rfl⟩
      · simp at hs
    · intro u' v' s' h' c hc
      rw [getD_take _ _ _ _ (by omega)]
      exact h8 u' v' s' h' c (by omega)
  | true =>
    obtain ⟨Q, U, V, s, h1, h2, h3, h4, h5, h6, h7, h8⟩ := randCore hqr hlu h (opAdj_shape hM) (hd m (k + o)) ht N nrm
    have h6 := uA_trunc h6
    simp only [if_true, opAdj_shape hM, List.getD_cons_zero, List.getD_cons_succ, h1, ok_bind]
    have e1 : (thinSvd svd (opAdj (opMul (opAdj (opAdj M)) Q))).2.1 = s := by rw [h3]
    have e2 : (thinSvd svd (opAdj (opMul (opAdj (opAdj M)) Q))).2.2 = V := by rw [h3]
    rw [← h2, e1, e2]
    have hl : (s.take k).length = min k s.length := by simp
    have huA : ∀ a < (s.take k).length, ∀ j < m, ∑ i ∈ range n, star ((U.cols k).get [i, a]) * star (M.get [j, i])
        = (((s.take k).getD a 0 : ℝ) : 𝕜) * (V.rows k).get [a, j] := by
      intro a ha j hj
      rw [getD_take _ _ _ _ (by omega)]
      exact h6 a (by omega) j hj
    refine ⟨_, _, _, rfl, by omega, (h5.trunc k).adj, ?_, by simp, ?_, ?_, ?_⟩
    · have e := proj_error (A := fun i j => star (M.get [j, i])) (h5.trunc k) huA
      rw [← distSq_adj m n, ← distSq_adj m n _ fun _ _ => 0]
      simp only [usv_adj, star_star, star_zero]
      exact e
    · intro _ i hi a ha
      have := congrArg star (huA a ha i hi)
      rw [star_sum, star_mul', star_ofReal'] at this
      simp only [star_mul', star_star] at this
      simp only [opAdj, List.getD_cons_zero, List.getD_cons_succ, star_star]
      rw [mul_comm (star _), ← this]
      exact Finset.sum_congr rfl fun j _ => mul_comm _ _
    · rintro (⟨hs, -⟩ | ⟨-, hs⟩)
      · simp at hs
      · have hc := h7 (spans_captures (M := opAdj M) hs)
        refine ⟨opAdj V, opAdj U, s, ?_, by omega, cols_adj h5.vshape k, rfl, rows_adj h5.ushape k⟩
        have := hc.adj
        simpa [opAdj] using this
    · intro u' v' s' h' c hc
      rw [getD_take _ _ _ _ (by omega)]
      exact h8 _ _ s' h'.adj c (by omega)

/-! ### consequences -/

/-- C61, against `truncated_svd`: the numbers of singular values agree, none of those of `randomized_svd` is larger, and
its error is not smaller. -/
theorem C61_never_better {qr : QR 𝕜} (hqr : QRSpec qr) {lu : LU 𝕜} (hlu : LUSpec lu) {svd : SVD 𝕜} (h : SVDSpec svd)
    {dtype : Dtype} (ht : dtype ≠ .other) (draw : ℕ → ℕ → NDArray 𝕜) (hd : ∀ a b, (draw a b).shape = [a, b])
    (M : NDArray 𝕜) {m n : ℕ} (hM : M.shape = [m, n]) (k o : ℕ) (nIter : Option ℤ) (nrm : Normalizer) (transpose : Option Bool) :
    ∃ (u v : NDArray 𝕜) (s : List ℝ), randomizedSvd qr lu svd dtype draw M k o nIter nrm transpose = .ok (u, s, v) ∧
      List.Forall₂ (· ≤ ·) s (truncatedSvd svd M k).2.1 ∧
      distSq m n (fun i j => M.get [i, j]) (usv (truncatedSvd svd M k).1 (truncatedSvd svd M k).2.2 (truncatedSvd svd M k).2.1) ≤
        distSq m n (fun i j => M.get [i, j]) (usv u v s) := by
  obtain ⟨u, v, s, h1, h2, h3, -, -, -, -, h4⟩ := C61_randomized_svd hqr hlu h ht draw hd M hM k o nIter nrm transpose
  obtain ⟨hS, hl⟩ := thinSvd_ok h hM
  obtain ⟨-, l2, -⟩ := h M m n hM
  have es : (thinSvd svd M).2.1 = (svd M).2.1 := by
    simp only [thinSvd, truncatedSvd]
    rw [List.take_of_length_le (by simp [hM, l2])]
  have et : (truncatedSvd svd M k).2.1 = (svd M).2.1.take (min k (min m n)) := by simp only [truncatedSvd, l2]
  have el : ((svd M).2.1.take (min k (min m n))).length = min k (min m n) := by rw [List.length_take, l2]; omega
  refine ⟨u, v, s, h1, ?_, ?_⟩
  · rw [List.forall₂_iff_get]
    rw [et]
    refine ⟨by omega, fun i hi hi' => ?_⟩
    have := h4 _ _ _ hS i hi
    rw [es, List.getD_eq_getElem _ _ hi, List.getD_eq_getElem _ _ (by omega)] at this
    simpa [List.getElem_take] using this
  · have e := C61_eckart_young hS s.length (fun i c => u.get [i, c] * ((s.getD c 0 : ℝ) : 𝕜)) (fun c j => v.get [c, j])
    refine le_trans (le_of_eq ?_) (e.1.le.trans e.2)
    congr 1
    ext i j
    simp only [usv, hl, h2, et]
    rw [el, show min (min k (min m n)) (min m n) = min k (min m n) by omega]
    refine Finset.sum_congr rfl fun c hc => ?_
    have hc : c < min k (min m n) := by simpa using hc
    rw [getD_take _ _ _ _ hc, es]
    rfl

end Mpnum
