import Verif.Linalg.ContractLemmas
import Verif.Povm.RoundingPmf
import Verif.MPArray.RoundingSeg

/-!
# `sandwich` in inexact arithmetic (/repo/mpnum/mparray.py:1256-1278, /repo/mpnum/linalg.py:27-86)

The contraction with a function `td` for `numpy.tensordot` that is only approximately right.  Renaming and reordering axes and complex
conjugation are exact.
-/

open Finset

namespace Mpnum

variable {𝕜 N : Type} [DecidableEq N]

section defs

/-- mpnum/_named_ndarray.py:77-96 `tensordot` with the function `td` for `numpy.tensordot`. -/
def NamedArray.tensordotF (td : TDot 𝕜) (x y : NamedArray N 𝕜) (axes : List (N × N)) : Py (NamedArray N 𝕜) := do
  let axSelf := axes.map Prod.fst
  let axOther := axes.map Prod.snd
  let posSelf ← axSelf.mapM x.axispos
  let posOther ← axOther.mapM y.axispos
  let new := x.names.filter (· ∉ axSelf) ++ y.names.filter (· ∉ axOther)
  let arr ← td x.arr y.arr (posSelf.map fun k : ℕ => (k : ℤ)) (posOther.map fun k : ℕ => (k : ℤ))
  NamedArray.mk' arr new

variable [Star 𝕜]

/-- `_eig_leftvec_add(leftvec, mpo_lten, mps_lten, mps_lten2)` (linalg.py:27-86) with the function `td` for `numpy.tensordot`. -/
def eigLeftvecAddF (td : TDot 𝕜) (leftvec mpoLten mpsLten mpsLten2 : NDArray 𝕜) : Py (NDArray 𝕜) := do
  let leftvec ← NamedArray.mk' leftvec [Ax.mpsBond, .mpoBond, .ccMpsBond]
  let mpoLten ← NamedArray.mk' mpoLten [Ax.leftMpoBond, .physRow, .physCol, .rightMpoBond]
  let mpsLten ← NamedArray.mk' mpsLten [Ax.leftMpsBond, .phys, .rightMpsBond]
  let mpsLten2 ← NamedArray.mk' mpsLten2 [Ax.leftMpsBond, .phys, .rightMpsBond]
  let leftvec ← leftvec.tensordotF td mpsLten [(.mpsBond, .leftMpsBond)]
  let leftvec ← leftvec.rename [(.rightMpsBond, .mpsBond)]
  let leftvec ← leftvec.tensordotF td mpoLten [(.mpoBond, .leftMpoBond), (.phys, .physCol)]
  let leftvec ← leftvec.tensordotF td (← mpsLten2.conj) [(.ccMpsBond, .leftMpsBond), (.physRow, .phys)]
  let leftvec ← leftvec.rename [(.rightMpoBond, .mpoBond), (.rightMpsBond, .ccMpsBond)]
  leftvec.toArray [.mpsBond, .mpoBond, .ccMpsBond]

/-- Loop of `sandwich` (mparray.py:1275-1276) with the function `td` for `numpy.tensordot`. -/
def sandwichLoopF (td : TDot 𝕜) (arr : NDArray 𝕜) : List (NDArray 𝕜) → List (NDArray 𝕜) → List (NDArray 𝕜) → Py (NDArray 𝕜)
  | w :: ws, t :: ts, u :: us => do
    let arr ← eigLeftvecAddF td arr w t u
    sandwichLoopF td arr ws ts us
  | _, _, _ => .ok arr

/-- `sandwich(mpo, mps, mps2)` (mparray.py:1256-1278) with the function `td` for `numpy.tensordot`. -/
def sandwichF [One 𝕜] (td : TDot 𝕜) (mpo mps : MPA 𝕜) (mps2 : Option (MPA 𝕜)) : Py 𝕜 := do
  let arr ← sandwichLoopF td (onesNd 3) mpo.lt mps.lt (mps2.getD mps).lt
  pyAssert (arr.shape.prod = 1)
  return arr.get (unravelIdx arr.shape 0)

end defs

theorem sandwichLoopF_exact [AddCommMonoid 𝕜] [Mul 𝕜] [Star 𝕜] : ∀ (arr : NDArray 𝕜) (ws ts us : List (NDArray 𝕜)),
    sandwichLoopF NDArray.tensordot arr ws ts us = sandwichLoop arr ws ts us
  | arr, [], ts, us => by cases ts <;> rfl
  | arr, w :: ws, [], us => rfl
  | arr, w :: ws, t :: ts, [] => rfl
  | arr, w :: ws, t :: ts, u :: us => by
    show (eigLeftvecAdd arr w t u >>= fun a => sandwichLoopF NDArray.tensordot a ws ts us)
      = (eigLeftvecAdd arr w t u >>= fun a => sandwichLoop a ws ts us)
    exact congrArg _ (funext fun a => sandwichLoopF_exact a ws ts us)

variable [RCLike 𝕜]

/-- Approximation of a named array. -/
structure NApprox (g B : ℝ) (x x' : NamedArray N 𝕜) : Prop where
  names : x'.names = x.names
  arr : Approx g B x.arr x'.arr

theorem NamedArray.mk'_inv {a : NDArray 𝕜} {names : List N} {z : NamedArray N 𝕜} (h : NamedArray.mk' a names = .ok z) :
    z = ⟨a, names⟩ ∧ a.shape.length = names.length ∧ names.Nodup := by
  unfold NamedArray.mk' at h
  by_cases h1 : a.shape.length = names.length
  · by_cases h2 : names.Nodup
    · rw [pyAssert_true h1, ok_bind, pyAssert_true h2, ok_bind] at h
      cases h
      exact ⟨rfl, h1, h2⟩
    · rw [pyAssert_true h1, ok_bind, pyAssert, if_neg h2] at h
      cases h
  · rw [pyAssert, if_neg h1] at h
    cases h

theorem NApprox.mk' {g B : ℝ} {a a' : NDArray 𝕜} (h : Approx g B a a') {names : List N} {z : NamedArray N 𝕜}
    (hz : NamedArray.mk' a names = .ok z) : ∃ z', NamedArray.mk' a' names = .ok z' ∧ NApprox g B z z' := by
  obtain ⟨rfl, h1, h2⟩ := NamedArray.mk'_inv hz
  exact ⟨⟨a', names⟩, NamedArray.mk'_ok (by rw [h.shape]; exact h1) h2, rfl, h⟩

theorem NApprox.axispos {g B : ℝ} {x x' : NamedArray N 𝕜} (h : NApprox g B x x') : x'.axispos = x.axispos := by
  funext n
  unfold NamedArray.axispos
  rw [h.names]

theorem NApprox.rename {g B : ℝ} {x x' z : NamedArray N 𝕜} (h : NApprox g B x x') {tr : List (N × N)} (hz : x.rename tr = .ok z) :
    ∃ z', x'.rename tr = .ok z' ∧ NApprox g B z z' := by
  unfold NamedArray.rename at hz ⊢
  obtain ⟨new, h1, h2⟩ := bind_ok_inv hz
  rw [h.axispos, h.names, h1, ok_bind]
  exact NApprox.mk' h.arr h2

theorem NApprox.toArray {g B : ℝ} {x x' : NamedArray N 𝕜} {a : NDArray 𝕜} (h : NApprox g B x x') {order : List N}
    (ha : x.toArray order = .ok a) : ∃ a', x'.toArray order = .ok a' ∧ Approx g B a a' := by
  unfold NamedArray.toArray at ha ⊢
  obtain ⟨pos, h1, h2⟩ := bind_ok_inv ha
  rw [h.axispos, h1, ok_bind]
  exact h.arr.transpose h2

theorem NApprox.tensordot {ε g B : ℝ} (hε : 0 ≤ ε) {td : TDot 𝕜} (htd : TdNear ε td) {x x' y z : NamedArray N 𝕜} (h : NApprox g B x x')
    {axes : List (N × N)} (hz : x.tensordot y axes = .ok z) :
    ∃ z', x'.tensordotF td y axes = .ok z' ∧ NApprox (g * (1 + ε)) (B * npNorm y.arr) z z' := by
  unfold NamedArray.tensordot at hz
  obtain ⟨p1, h1, hz⟩ := bind_ok_inv hz
  obtain ⟨p2, h2, hz⟩ := bind_ok_inv hz
  simp only at hz
  obtain ⟨c, h3, hz⟩ := bind_ok_inv hz
  obtain ⟨c', g1, g2⟩ := h.arr.tensordot hε htd (.refl y.arr) h3
  rw [mul_one] at g2
  obtain ⟨z', k1, k2⟩ := NApprox.mk' g2 hz
  refine ⟨z', ?_, k2⟩
  unfold NamedArray.tensordotF
  simp only
  rw [h.axispos, h1, ok_bind, h2, ok_bind]
  rw [g1, ok_bind, h.names]
  exact k1

/-- One step: the error grows by a factor for every contraction, relative to the product of the norms. -/
theorem eigLeftvecAdd_near {ε g B : ℝ} (hε : 0 ≤ ε) {td : TDot 𝕜} (htd : TdNear ε td) {L L' W T U M : NDArray 𝕜} (hL : Approx g B L L')
    (h : eigLeftvecAdd L W T U = .ok M) :
    ∃ M', eigLeftvecAddF td L' W T U = .ok M' ∧ Approx (g * (1 + ε) ^ 3) (B * (npNorm T * npNorm W * npNorm U)) M M' := by
  unfold eigLeftvecAdd at h
  obtain ⟨l0, a1, h⟩ := bind_ok_inv h
  obtain ⟨w0, a2, h⟩ := bind_ok_inv h
  obtain ⟨t0, a3, h⟩ := bind_ok_inv h
  obtain ⟨u0, a4, h⟩ := bind_ok_inv h
  obtain ⟨l1, a5, h⟩ := bind_ok_inv h
  obtain ⟨l2, a6, h⟩ := bind_ok_inv h
  obtain ⟨l3, a7, h⟩ := bind_ok_inv h
  obtain ⟨u1, a8, h⟩ := bind_ok_inv h
  obtain ⟨l4, a9, h⟩ := bind_ok_inv h
  obtain ⟨l5, a10, h⟩ := bind_ok_inv h
  obtain ⟨l0', b1, k1⟩ := NApprox.mk' hL a1
  obtain ⟨l1', b5, k5⟩ := k1.tensordot hε htd a5
  obtain ⟨l2', b6, k6⟩ := k5.rename a6
  obtain ⟨l3', b7, k7⟩ := k6.tensordot hε htd a7
  obtain ⟨l4', b9, k9⟩ := k7.tensordot hε htd a9
  obtain ⟨l5', b10, k10⟩ := k9.rename a10
  obtain ⟨M', b11, k11⟩ := k10.toArray h
  refine ⟨M', ?_, ?_⟩
  · unfold eigLeftvecAddF
    rw [b1, ok_bind, a2, ok_bind, a3, ok_bind, a4, ok_bind, b5, ok_bind, b6, ok_bind, b7, ok_bind, a8, ok_bind, b9, ok_bind, b10, ok_bind]
    exact b11
  · obtain ⟨rfl, -⟩ := NamedArray.mk'_inv a2
    obtain ⟨rfl, -⟩ := NamedArray.mk'_inv a3
    obtain ⟨rfl, -⟩ := NamedArray.mk'_inv a4
    unfold NamedArray.conj at a8
    obtain ⟨rfl, -⟩ := NamedArray.mk'_inv a8
    simp only [conj_npNorm] at k11
    convert k11 using 1 <;> ring

/-- The step from `L` to the next left vector makes the norm larger by a factor of at most `c`. -/
def StepOp (c : ℝ) (W T U : NDArray 𝕜) : Prop :=
  ∀ (L M : NDArray 𝕜) (d w d' e v e' p q : ℕ), L.shape = [d, w, d'] → W.shape = [w, q, p, v] → T.shape = [d, p, e] → U.shape = [d', q, e'] →
    eigLeftvecAdd L W T U = .ok M → npNorm M ≤ c * npNorm L

theorem stepOp_frob (W T U : NDArray 𝕜) : StepOp (npNorm T * npNorm W * npNorm U) W T U := by
  intro L M d w d' e v e' p q _ _ _ _ h
  obtain ⟨M', -, h2⟩ := eigLeftvecAdd_near le_rfl (show TdNear 0 (NDArray.tensordot (R := 𝕜)) from
    fun a b axa axb c h => ⟨c, h, rfl, by simp [arrDist_self]⟩) (.refl L) h
  rw [mul_comm]
  exact h2.norm

theorem arrDist_eq3 {a b : NDArray 𝕜} {x y z : ℕ} (h : a.shape = [x, y, z]) :
    arrDist a b ^ 2 = ∑ i ∈ range x, ∑ j ∈ range y, ∑ k ∈ range z, ‖a.get [i, j, k] - b.get [i, j, k]‖ ^ 2 := by
  unfold arrDist
  rw [Real.sq_sqrt (by rw [sumIdx_eq_sum]; exact Finset.sum_nonneg fun _ _ => sq_nonneg _), h]
  simp [sumIdx_cons]

theorem npNorm_eq3 {a : NDArray 𝕜} {x y z : ℕ} (h : a.shape = [x, y, z]) :
    npNorm a ^ 2 = ∑ i ∈ range x, ∑ j ∈ range y, ∑ k ∈ range z, ‖a.get [i, j, k]‖ ^ 2 := by
  unfold npNorm
  rw [Real.sq_sqrt (by rw [sumIdx_eq_sum]; exact Finset.sum_nonneg fun _ _ => sq_nonneg _), h]
  simp [sumIdx_cons]

/-- One step with an error that grows relative to a bound of the exact step. -/
theorem eigLeftvecAdd_weighted {ε g B c κ : ℝ} (hε : 0 ≤ ε) {td : TDot 𝕜} (htd : TdNear ε td) {L L' W T U : NDArray 𝕜}
    {d w d' e v e' p q : ℕ} (hL : L.shape = [d, w, d']) (hW : W.shape = [w, q, p, v]) (hT : T.shape = [d, p, e])
    (hU : U.shape = [d', q, e']) (hc : 0 ≤ c) (hs : StepOp c W T U) (hκ : npNorm T * npNorm W * npNorm U ≤ κ * c) (h : Approx g B L L') :
    ∃ M M', eigLeftvecAdd L W T U = .ok M ∧ eigLeftvecAddF td L' W T U = .ok M' ∧ M.shape = [e, v, e'] ∧
      Approx (g * (1 + κ * ((1 + ε) ^ 3 - 1))) (B * c) M M' := by
  obtain ⟨M, m1, m2, m3⟩ := eigLeftvecAdd_ok hL hW hT hU
  obtain ⟨M1, n1, n2, n3⟩ := eigLeftvecAdd_ok (h.shape.trans hL) hW hT hU
  obtain ⟨Z, z1, z2, z3⟩ := eigLeftvecAdd_ok (L := subArr L L') hL hW hT hU
  obtain ⟨M', k1, k2⟩ := eigLeftvecAdd_near hε htd (.refl L') n1
  have hB : 0 ≤ B := (npNorm_nonneg' _).trans h.norm
  refine ⟨M, M', m1, k1, m2, k2.shape.trans (n2.trans m2.symm), (hs L M _ _ _ _ _ _ _ _ hL hW hT hU m1).trans ?_, ?_⟩
  · rw [mul_comm]
    exact mul_le_mul_of_nonneg_right h.norm hc
  have e1 : arrDist M M1 = npNorm Z := by
    have : arrDist M M1 ^ 2 = npNorm Z ^ 2 := by
      rw [arrDist_eq3 m2, npNorm_eq3 z2]
      refine sum_congr rfl fun a _ => sum_congr rfl fun y _ => sum_congr rfl fun b _ => ?_
      rw [m3, n3, z3]
      congr 2
      simp only [subArr, ← sum_sub_distrib, ← sub_mul]
    rwa [pow_left_inj₀ (arrDist_nonneg _ _) (npNorm_nonneg' _) two_ne_zero] at this
  have e2 : arrDist M M1 ≤ c * ((g - 1) * B) := by
    rw [e1]
    refine (hs (subArr L L') Z _ _ _ _ _ _ _ _ hL hW hT hU z1).trans (mul_le_mul_of_nonneg_left ?_ hc)
    rw [npNorm_subArr]
    exact h.dist
  have e3 : arrDist M1 M' ≤ ((1 + ε) ^ 3 - 1) * (g * B * (κ * c)) := by
    refine k2.dist.trans ?_
    rw [one_mul]
    have h1 : (0 : ℝ) ≤ (1 + ε) ^ 3 - 1 := by
      have : (1 : ℝ) ≤ (1 + ε) ^ 3 := one_le_pow₀ (by linarith)
      linarith
    refine mul_le_mul_of_nonneg_left (mul_le_mul h.norm' hκ ?_ ((npNorm_nonneg' _).trans h.norm')) h1
    exact mul_nonneg (mul_nonneg (npNorm_nonneg' _) (npNorm_nonneg' _)) (npNorm_nonneg' _)
  have e4 := arrDist_tri M' (n2.trans m2.symm)
  nlinarith

/-- A site of the contraction: its three tensors, with a bound of the step and of the product of the norms. -/
def SiteBound (κ c : ℝ) (W T U : NDArray 𝕜) : Prop :=
  0 ≤ c ∧ StepOp c W T U ∧ npNorm T * npNorm W * npNorm U ≤ κ * c

/-- Bounds for all sites. -/
def SiteBounds (κ : ℝ) : List ℝ → List (NDArray 𝕜) → List (NDArray 𝕜) → List (NDArray 𝕜) → Prop
  | [], [], [], [] => True
  | c :: cs, W :: ws, T :: ts, U :: us => SiteBound κ c W T U ∧ SiteBounds κ cs ws ts us
  | _, _, _, _ => False

theorem npNorm_onesNd : npNorm (onesNd 3 : NDArray 𝕜) = 1 := by
  unfold npNorm onesNd
  simp [sumIdx]

end Mpnum
