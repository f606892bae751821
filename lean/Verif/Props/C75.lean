import Verif.MPArray.RoundingNorm
import Verif.Props.C10
import Verif.MPArray.RanksKept
import Mathlib.Analysis.Complex.ExponentialBounds

/-!
# C75: `canonicalize` and `norm` in inexact arithmetic

The other properties assume that the numpy routines are exact. Here `qr`, the product of arrays and the 2-norm have a relative
error `ε` (contracts `QRNear`, `MdNear`, `NormNear`); the functions of the model are the same (`canonicalizeF_matdot`,
`normF_exact`). Specification:

* `MPA.NearGood ε`: what `Good` says, with isometries replaced by maps whose singular values are between `1 - ε` and `1 + ε`;
* `MPA.dist`: the 2-norm of the difference of the two tensors, `MPA.frob`: the 2-norm of the tensor.
-/

namespace Mpnum

open Finset

variable {𝕜 : Type} [RCLike 𝕜]

/-! ### contracts -/

/-- Contract of `numpy.linalg.norm` with relative error `ε`. -/
def NormNear (ε : ℝ) (nrm : NDArray 𝕜 → ℝ) : Prop := ∀ t, |nrm t - npNorm t| ≤ ε * npNorm t

theorem isometry_cols {ι : Type*} {I : Finset ι} {q : ι → ℕ → 𝕜} {K : ℕ}
    (h : ∀ k < K, ∀ k' < K, ∑ i ∈ I, star (q i k) * q i k' = if k = k' then 1 else 0) (v : ℕ → 𝕜) :
    ∑ i ∈ I, ‖∑ k ∈ range K, q i k * v k‖ ^ 2 = ∑ k ∈ range K, ‖v k‖ ^ 2 := by
  have e : (((∑ i ∈ I, ‖∑ k ∈ range K, q i k * v k‖ ^ 2 : ℝ)) : 𝕜) = ((∑ k ∈ range K, ‖v k‖ ^ 2 : ℝ) : 𝕜) := by
    push_cast
    have e1 : ∀ i, (((‖∑ k ∈ range K, q i k * v k‖ : ℝ) : 𝕜)) ^ 2
        = ∑ k ∈ range K, ∑ k' ∈ range K, (star (v k) * v k') * (star (q i k) * q i k') := by
      intro i
      have := star_mul_self_eq (∑ k ∈ range K, q i k * v k)
      push_cast at this
      rw [← this, star_sum, Finset.sum_mul_sum]
      refine Finset.sum_congr rfl fun k _ => Finset.sum_congr rfl fun k' _ => ?_
      rw [star_mul]; ring
    rw [Finset.sum_congr rfl fun i _ => e1 i, Finset.sum_comm]
    refine Finset.sum_congr rfl fun k hk => ?_
    rw [Finset.sum_comm]
    have e2 : ∀ k' ∈ range K, ∑ i ∈ I, (star (v k) * v k') * (star (q i k) * q i k')
        = if k = k' then star (v k) * v k' else 0 := by
      intro k' hk'
      rw [← Finset.mul_sum, h k (by simpa using hk) k' (by simpa using hk')]
      split <;> simp
    rw [Finset.sum_congr rfl e2, Finset.sum_ite_eq, if_pos hk]
    have := star_mul_self_eq (v k)
    push_cast at this
    exact this
  exact_mod_cast e

/-- C75: contract of a backward stable QR decomposition (Householder QR, Higham, Accuracy and Stability of Numerical Algorithms,
theorem 19.4 and equation 19.13): there is a matrix `Q` with orthonormal columns such that the computed `r` satisfies
`‖A - Q r‖ ≤ δ ‖A‖`, and the computed `q` differs from `Q` by at most `δ`. -/
def QRBackward (δ : ℝ) (qr : QR 𝕜) : Prop :=
  ∀ (A : NDArray 𝕜) (m n : ℕ), A.shape = [m, n] →
    (qr A).1.shape = [m, min m n] ∧ (qr A).2.shape = [min m n, n] ∧
    ∃ Q : ℕ → ℕ → 𝕜,
      (∀ k < min m n, ∀ k' < min m n, ∑ i ∈ range m, star (Q i k) * Q i k' = if k = k' then 1 else 0) ∧
      ∑ i ∈ range m, ∑ j ∈ range n, ‖A.get [i, j] - ∑ k ∈ range (min m n), Q i k * (qr A).2.get [k, j]‖ ^ 2 ≤ δ ^ 2 * nsq A ∧
      ∑ i ∈ range m, ∑ k ∈ range (min m n), ‖Q i k - (qr A).1.get [i, k]‖ ^ 2 ≤ δ ^ 2

theorem mink2 {α β : Type*} (A : Finset α) (B : Finset β) (f g : α → β → 𝕜) {x y : ℝ} (hx : 0 ≤ x) (hy : 0 ≤ y)
    (hf : ∑ a ∈ A, ∑ b ∈ B, ‖f a b‖ ^ 2 ≤ x ^ 2) (hg : ∑ a ∈ A, ∑ b ∈ B, ‖g a b‖ ^ 2 ≤ y ^ 2) :
    ∑ a ∈ A, ∑ b ∈ B, ‖f a b + g a b‖ ^ 2 ≤ (x + y) ^ 2 := by
  have e : ∀ h : α → β → 𝕜, ∑ a ∈ A, ∑ b ∈ B, ‖h a b‖ ^ 2 = ∑ p ∈ A ×ˢ B, ‖h p.1 p.2‖ ^ 2 := by
    intro h; simp only [Finset.sum_product]
  rw [e] at hf hg
  rw [e fun a b => f a b + g a b]
  exact mink _ _ _ hx hy hf hg

theorem nsq_two {A : NDArray 𝕜} {m n : ℕ} (h : A.shape = [m, n]) : nsq A = ∑ i ∈ range m, ∑ j ∈ range n, ‖A.get [i, j]‖ ^ 2 := by
  unfold nsq; rw [h]; rfl

/-- C75: a backward stable QR decomposition meets the contract `QRNear`. -/
theorem C75_qr_backward {δ : ℝ} (hδ : 0 ≤ δ) (h1 : δ * (2 + δ) ≤ 1) {qr : QR 𝕜} (h : QRBackward δ qr) :
    QRNear (δ * (2 + δ)) qr := by
  have hle : δ ≤ δ * (2 + δ) := by nlinarith
  have hsz : ∀ (A : NDArray 𝕜) (m n : ℕ), A.shape = [m, n] → nsq (qr A).2 ≤ ((1 + δ) * npNorm A) ^ 2 := by
    intro A m n hs
    obtain ⟨_, s2, Q, hQ, hc, _⟩ := h A m n hs
    have e : nsq (qr A).2 = ∑ j ∈ range n, ∑ i ∈ range m, ‖∑ k ∈ range (min m n), Q i k * (qr A).2.get [k, j]‖ ^ 2 := by
      rw [nsq_two s2, Finset.sum_comm]
      exact Finset.sum_congr rfl fun j _ => (isometry_cols hQ fun k => (qr A).2.get [k, j]).symm
    rw [e, Finset.sum_comm]
    have hA : ∑ i ∈ range m, ∑ j ∈ range n, ‖A.get [i, j]‖ ^ 2 ≤ npNorm A ^ 2 := by rw [npNorm_sq, nsq_two hs]
    have hc' : ∑ i ∈ range m, ∑ j ∈ range n, ‖∑ k ∈ range (min m n), Q i k * (qr A).2.get [k, j] - A.get [i, j]‖ ^ 2
        ≤ (δ * npNorm A) ^ 2 := by
      rw [mul_pow, npNorm_sq]; simpa only [norm_sub_rev] using hc
    have := mink2 _ _ _ _ (npNorm_nonneg' A) (mul_nonneg hδ (npNorm_nonneg' A)) hA hc'
    simp only [add_sub_cancel] at this
    refine this.trans (le_of_eq ?_)
    ring
  refine ⟨fun A m n hs => ⟨(h A m n hs).1, (h A m n hs).2.1⟩, ?_, ?_, ?_⟩
  · intro A m n hs
    have hR := hsz A m n hs
    obtain ⟨_, s2, Q, hQ, hc, hq⟩ := h A m n hs
    have hc' : ∑ i ∈ range m, ∑ j ∈ range n, ‖A.get [i, j] - ∑ k ∈ range (min m n), Q i k * (qr A).2.get [k, j]‖ ^ 2
        ≤ (δ * npNorm A) ^ 2 := by rw [mul_pow, npNorm_sq]; exact hc
    have hd : ∑ i ∈ range m, ∑ j ∈ range n, ‖∑ k ∈ range (min m n), (Q i k - (qr A).1.get [i, k]) * (qr A).2.get [k, j]‖ ^ 2
        ≤ (δ * ((1 + δ) * npNorm A)) ^ 2 := by
      rw [mul_pow]
      refine le_trans ?_ (mul_le_mul hq hR (nsq_nonneg _) (sq_nonneg δ))
      rw [Finset.sum_mul]
      refine Finset.sum_le_sum fun i _ => ?_
      rw [nsq_two s2, Finset.sum_comm, Finset.mul_sum]
      exact Finset.sum_le_sum fun j _ => cauchy_sq _ _ _
    have := mink2 _ _ _ _ (mul_nonneg hδ (npNorm_nonneg' A)) (mul_nonneg hδ (mul_nonneg (by linarith) (npNorm_nonneg' A))) hc' hd
    rw [← npNorm_sq, ← mul_pow]
    refine le_trans (le_of_eq ?_) (this.trans (le_of_eq ?_))
    · refine Finset.sum_congr rfl fun i _ => Finset.sum_congr rfl fun j _ => ?_
      congr 2
      simp only [sub_mul, Finset.sum_sub_distrib]
      ring
    · ring
  · intro A m n hs
    refine (hsz A m n hs).trans ?_
    rw [← npNorm_sq, ← mul_pow]
    have := npNorm_nonneg' A
    exact pow_le_pow_left₀ (by positivity) (mul_le_mul_of_nonneg_right (by linarith) this) 2
  · intro A m n hs v
    obtain ⟨_, _, Q, hQ, _, hq⟩ := h A m n hs
    set V := Real.sqrt (∑ k ∈ range (min m n), ‖v k‖ ^ 2) with hV
    have hVn : 0 ≤ V := Real.sqrt_nonneg _
    have hV2 : ∑ k ∈ range (min m n), ‖v k‖ ^ 2 = V ^ 2 := (Real.sq_sqrt (Finset.sum_nonneg fun _ _ => sq_nonneg _)).symm
    have hQv : ∑ i ∈ range m, ‖∑ k ∈ range (min m n), Q i k * v k‖ ^ 2 = V ^ 2 := by rw [isometry_cols hQ, hV2]
    have hd : ∑ i ∈ range m, ‖∑ k ∈ range (min m n), (Q i k - (qr A).1.get [i, k]) * v k‖ ^ 2 ≤ (δ * V) ^ 2 := by
      rw [mul_pow, ← hV2]
      refine le_trans ?_ (mul_le_mul_of_nonneg_right hq (Finset.sum_nonneg fun _ _ => sq_nonneg _))
      rw [Finset.sum_mul]
      exact Finset.sum_le_sum fun i _ => cauchy_sq _ _ _
    set W := Real.sqrt (∑ i ∈ range m, ‖∑ k ∈ range (min m n), (qr A).1.get [i, k] * v k‖ ^ 2) with hW
    have hWn : 0 ≤ W := Real.sqrt_nonneg _
    have hW2 : ∑ i ∈ range m, ‖∑ k ∈ range (min m n), (qr A).1.get [i, k] * v k‖ ^ 2 = W ^ 2 :=
      (Real.sq_sqrt (Finset.sum_nonneg fun _ _ => sq_nonneg _)).symm
    have hd' : ∑ i ∈ range m, ‖∑ k ∈ range (min m n), ((qr A).1.get [i, k] - Q i k) * v k‖ ^ 2 ≤ (δ * V) ^ 2 := by
      refine le_trans (le_of_eq (Finset.sum_congr rfl fun i _ => ?_)) hd
      rw [← norm_neg, ← Finset.sum_neg_distrib]
      congr 2
      exact Finset.sum_congr rfl fun k _ => by ring
    have h2 := mink _ _ _ hVn (mul_nonneg hδ hVn) hQv.le hd'
    have h3 := mink _ _ _ hWn (mul_nonneg hδ hVn) hW2.le hd
    simp only [← Finset.sum_add_distrib, ← add_mul, add_sub_cancel] at h2 h3
    rw [hW2] at h2
    rw [hQv] at h3
    have h2' := (abs_le_of_sq_le_sq' h2 (by positivity)).2
    have h3' := (abs_le_of_sq_le_sq' h3 (by positivity)).2
    rw [hV2, hW2, ← mul_pow, ← mul_pow]
    constructor
    · refine pow_le_pow_left₀ (mul_nonneg (by linarith) hVn) ?_ 2
      nlinarith
    · refine pow_le_pow_left₀ hWn ?_ 2
      nlinarith

/-- C75: an exact QR decomposition has error zero. -/
theorem C75_qr_exact {qr : QR 𝕜} (h : QRSpec qr) : QRNear 0 qr := by
  have : QRBackward 0 qr := by
    intro A m n hs
    obtain ⟨h1, h2, h3, h4⟩ := h A m n hs
    refine ⟨h1, h2, fun i k => (qr A).1.get [i, k], h4, le_of_eq ?_, le_of_eq ?_⟩
    · rw [Finset.sum_eq_zero fun i hi => Finset.sum_eq_zero fun j hj => ?_]
      · simp
      · rw [h3 i (by simpa using hi) j (by simpa using hj)]; simp
    · simp
  simpa using C75_qr_backward le_rfl (by norm_num) this

/-- C75: the usual error model of a product (every entry has an error of at most `ε` times the product of the absolute values,
Higham, equation 3.13) meets the contract `MdNear`. -/
theorem C75_md_componentwise {ε : ℝ} {md : NDArray 𝕜 → NDArray 𝕜 → Py (NDArray 𝕜)}
    (h : ∀ (a b : NDArray 𝕜) (sa sb : List ℕ) (k : ℕ), a.shape = sa ++ [k] → b.shape = k :: sb →
      ∃ c, md a b = .ok c ∧ c.shape = sa ++ sb ∧ ∀ i j, InB i sa → InB j sb →
        ‖∑ x ∈ range k, a.get (i ++ [x]) * b.get (x :: j) - c.get (i ++ j)‖
          ≤ ε * ∑ x ∈ range k, ‖a.get (i ++ [x])‖ * ‖b.get (x :: j)‖) : MdNear ε md := by
  intro a b sa sb k ha hb
  obtain ⟨c, h1, h2, h3⟩ := h a b sa sb k ha hb
  refine ⟨c, h1, h2, ?_⟩
  have ea : nsq a = sumIdx sa fun i => ∑ x ∈ range k, ‖a.get (i ++ [x])‖ ^ 2 := by
    unfold nsq; rw [ha, sumIdx_append]; rfl
  have eb : nsq b = sumIdx sb fun j => ∑ x ∈ range k, ‖b.get (x :: j)‖ ^ 2 := by
    unfold nsq; rw [hb, sumIdx_cons]; simp only [sumIdx_eq_sum]; exact Finset.sum_comm
  rw [ea, eb]
  simp only [sumIdx_eq_sum]
  rw [Finset.sum_mul_sum, Finset.mul_sum]
  refine Finset.sum_le_sum fun i hi => ?_
  rw [Finset.mul_sum]
  refine Finset.sum_le_sum fun j hj => ?_
  refine (pow_le_pow_left₀ (norm_nonneg _) (h3 i j (mem_idxSet.1 hi) (mem_idxSet.1 hj)) 2).trans ?_
  rw [mul_pow]
  exact mul_le_mul_of_nonneg_left (Finset.sum_mul_sq_le_sq_mul_sq _ _ _) (sq_nonneg ε)

/-- C75: the exact product has error zero. -/
theorem C75_md_exact : MdNear 0 (matdot (R := 𝕜)) := by
  refine C75_md_componentwise fun a b sa sb k ha hb => ?_
  obtain ⟨c, h1, h2, h3⟩ := NDArray.matdot_ok (a := a) (b := b) ha hb
  refine ⟨c, h1, h2, fun i j hi hj => ?_⟩
  rw [h3 i j (inB_length hi) (inB_length hj)]
  simp

theorem lnear_of_lcanon {ε : ℝ} (hε : 0 ≤ ε) (h1 : ε ≤ 1) {t : NDArray 𝕜} (h : LCanon t) : LNear ε t := by
  have e : ∀ v : ℕ → 𝕜, (∑ a ∈ range t.lb, sumIdx t.ph fun p => ‖∑ b ∈ range t.rb, t.at3 a p b * v b‖ ^ 2)
      = ∑ b ∈ range t.rb, ‖v b‖ ^ 2 := by
    intro v
    rw [← isometry_cols (I := range t.lb ×ˢ idxSet t.ph) (q := fun i b => t.at3 i.1 i.2 b) (K := t.rb) ?_ v]
    · rw [Finset.sum_product]; simp only [sumIdx_eq_sum]
    · intro b hb b' hb'
      rw [← h b hb b' hb', Finset.sum_product]; simp only [sumIdx_eq_sum]
  have hn : ∀ v : ℕ → 𝕜, 0 ≤ ∑ b ∈ range t.rb, ‖v b‖ ^ 2 := fun v => Finset.sum_nonneg fun _ _ => sq_nonneg _
  refine ⟨fun v => ?_, fun v => ?_⟩
  · rw [e]; exact le_mul_of_one_le_left (hn v) (by nlinarith)
  · rw [e]; exact mul_le_of_le_one_left (hn v) (by nlinarith)

theorem rnear_of_rcanon {ε : ℝ} (hε : 0 ≤ ε) (h1 : ε ≤ 1) {t : NDArray 𝕜} (h : RCanon t) : RNear ε t := by
  have e : ∀ v : ℕ → 𝕜, (sumIdx t.ph fun p => ∑ b ∈ range t.rb, ‖∑ a ∈ range t.lb, v a * t.at3 a p b‖ ^ 2)
      = ∑ a ∈ range t.lb, ‖v a‖ ^ 2 := by
    intro v
    rw [← isometry_cols (I := idxSet t.ph ×ˢ range t.rb) (q := fun i a => t.at3 a i.1 i.2) (K := t.lb) ?_ v]
    · rw [Finset.sum_product, sumIdx_eq_sum]
      exact Finset.sum_congr rfl fun p _ => Finset.sum_congr rfl fun b _ => by
        rw [Finset.sum_congr rfl fun a _ => mul_comm (v a) _]
    · intro a ha a' ha'
      have := h a' ha' a ha
      rw [show (if a = a' then (1 : 𝕜) else 0) = if a' = a then 1 else 0 by simp [eq_comm], ← this, Finset.sum_product]
      simp only [sumIdx_eq_sum]
      rw [Finset.sum_comm]
      exact Finset.sum_congr rfl fun b _ => Finset.sum_congr rfl fun p _ => mul_comm _ _
  have hn : ∀ v : ℕ → 𝕜, 0 ≤ ∑ b ∈ range t.lb, ‖v b‖ ^ 2 := fun v => Finset.sum_nonneg fun _ _ => sq_nonneg _
  refine ⟨fun v => ?_, fun v => ?_⟩
  · rw [e]; exact le_mul_of_one_le_left (hn v) (by nlinarith)
  · rw [e]; exact mul_le_of_le_one_left (hn v) (by nlinarith)

/-- C75: a state that is `Good` is canonical up to any `ε`. -/
theorem C75_good {ε : ℝ} (hε : 0 ≤ ε) (h1 : ε ≤ 1) {x : MPA 𝕜} (hx : x.Good) : x.NearGood ε :=
  ⟨hx.valid, hx.pos, fun n t ht => ⟨fun h => lnear_of_lcanon hε h1 ((hx.canon n t ht).1 h),
    fun h => rnear_of_rcanon hε h1 ((hx.canon n t ht).2 h)⟩⟩

/-! ### `canonicalize` -/

namespace MPA

theorem canonicalizeF_eq {qr : QR 𝕜} {md : NDArray 𝕜 → NDArray 𝕜 → Py (NDArray 𝕜)} {x : MPA 𝕜} {left right : CArg}
    (hne : (left.isNone && right.isNone) = false)
    {tl tr : ℤ} (htl : tl = target x.len (left.left x.len))
    (htr : tr = target x.len (right.right x.len)) :
    x.canonicalizeF qr md left right = (do
      pyGuard (0 ≤ tl ∧ tl ≤ x.len) .index
      pyGuard (0 ≤ tr ∧ tr ≤ x.len) .index
      pyGuard (tl < tr) .value
      let y ← if x.l < tl then x.rcanonicalizeF qr md tl else .ok x
      if x.r > tr then y.lcanonicalizeF qr md tr else .ok y) := by
  unfold canonicalizeF
  rw [if_neg (by simp [hne]), htl, htr]
  rfl

theorem canonicalizeF_none {ε : ℝ} (hε : 0 ≤ ε) {qr : QR 𝕜} (hqr : QRNear ε qr) {md : NDArray 𝕜 → NDArray 𝕜 → Py (NDArray 𝕜)}
    (hmd : MdNear ε md) {x : MPA 𝕜} (hx : x.NearGood ε) :
    ∃ y, x.canonicalizeF qr md .none .none = .ok y ∧ NearStep ε x y ∧
      y.l = (if x.l < x.len - x.r then 0 else (x.len : ℤ) - 1) ∧ y.r = y.l + 1 ∧
      ∃ k, k + 1 ≤ x.len ∧ ∀ s w, 1 ≤ s → Wts 0 x.len s x w → ∃ w' f' g', Errs ε k f' g' x y s w w' := by
  have hl0 := hx.valid.l_nonneg
  have hlr := hx.valid.l_lt_r
  have hrle := hx.valid.r_le
  have e : x.canonicalizeF qr md .none .none = if x.l < x.len - x.r then x.lcanonicalizeF qr md 1
      else x.rcanonicalizeF qr md (x.len - 1) := rfl
  rw [e]
  by_cases h : x.l < x.len - x.r
  · rw [if_pos h, if_pos h]
    obtain ⟨y, g1, g2, g3, g4, g5⟩ := lcanonicalizeF_ok hε hqr hmd hx (c := 1) (by omega) (by omega)
    have := g2.good.valid.l_lt_r
    have := g2.good.valid.l_nonneg
    refine ⟨y, g1, g2, by omega, by omega, (x.r - 1).toNat, by omega, fun s w hs hw => ?_⟩
    · obtain ⟨w', hw'⟩ := g5 0 s w hs (by omega) (by omega) (hw.mono le_rfl hrle)
      exact ⟨w', _, _, hw'⟩
  · rw [if_neg h, if_neg h]
    obtain ⟨y, g1, g2, g3, g4, g5⟩ := rcanonicalizeF_ok hε hqr hmd hx (c := x.len - 1) (by omega) (by omega)
    have h1 := g2.good.valid.l_lt_r
    have h2 := g2.good.valid.r_le
    rw [g2.len] at h2
    refine ⟨y, g1, g2, by omega, by omega, ((x.len : ℤ) - 1 - x.l).toNat, by omega, fun s w hs hw => ?_⟩
    · obtain ⟨w', hw'⟩ := g5 s w hs (hw.mono hl0 le_rfl)
      exact ⟨w', _, _, hw'⟩

theorem canonicalizeF_ok {ε : ℝ} (hε : 0 ≤ ε) {qr : QR 𝕜} (hqr : QRNear ε qr) {md : NDArray 𝕜 → NDArray 𝕜 → Py (NDArray 𝕜)}
    (hmd : MdNear ε md) {x : MPA 𝕜} (hx : x.NearGood ε) {left right : CArg}
    (hne : (left.isNone && right.isNone) = false)
    {tl tr : ℤ} (htl : tl = target x.len (left.left x.len))
    (htr : tr = target x.len (right.right x.len)) (h0 : 0 ≤ tl) (h1 : tl < tr) (h2 : tr ≤ x.len) :
    ∃ y, x.canonicalizeF qr md left right = .ok y ∧ NearStep ε x y ∧
      y.l = (if tr < x.r then min (max x.l tl) (tr - 1) else max x.l tl) ∧
      y.r = (if tr < x.r then tr else if x.l < tl then max x.r (tl + 1) else x.r) ∧
      ∃ k, k + 1 ≤ x.len ∧ ∀ s w, 1 ≤ s → Wts 0 x.len s x w → ∃ w' f' g', Errs ε k f' g' x y s w w' := by
  have hl0 := hx.valid.l_nonneg
  have hlr := hx.valid.l_lt_r
  have hrle := hx.valid.r_le
  rw [canonicalizeF_eq hne htl htr]
  rw [show pyGuard (0 ≤ tl ∧ tl ≤ x.len) PyErr.index = .ok () from if_pos ⟨h0, by omega⟩,
    show pyGuard (0 ≤ tr ∧ tr ≤ x.len) PyErr.index = .ok () from if_pos ⟨by omega, h2⟩,
    show pyGuard (tl < tr) PyErr.value = .ok () from if_pos h1]
  have hmid : ∃ y, (if x.l < tl then x.rcanonicalizeF qr md tl else Except.ok x) = .ok y ∧
      NearStep ε x y ∧ y.l = max x.l tl ∧
      (y.r = if x.l < tl then max x.r (tl + 1) else x.r) ∧
      ∀ s w, 1 ≤ s → Wts 0 x.len s x w → ∃ w', Errs ε (tl - x.l).toNat (if x.l < tl then tl else 0) x.len x y s w w' := by
    by_cases h : x.l < tl
    · rw [if_pos h]
      obtain ⟨y, g1, g2, g3, g4, g5⟩ := rcanonicalizeF_ok hε hqr hmd hx h0 (by omega)
      refine ⟨y, g1, g2, g3, g4, fun s w hs hw => ?_⟩
      rw [if_pos h]
      obtain ⟨w', hw'⟩ := g5 s w hs (hw.mono hl0 le_rfl)
      rw [show y.l = tl by omega] at hw'
      exact ⟨w', hw'⟩
    · rw [if_neg h]
      refine ⟨x, rfl, NearStep.rfl' hx, by omega, by rw [if_neg h], fun s w hs hw => ⟨w, ?_⟩⟩
      rw [if_neg h, show (tl - x.l).toNat = 0 by omega]
      exact Errs.zero hw
  obtain ⟨y, g1, g2, g3, g4, g5⟩ := hmid
  simp only [ok_bind]
  rw [show (if x.l < tl then (do
          let y ← x.rcanonicalizeF qr md tl
          if x.r > tr then y.lcanonicalizeF qr md tr else Except.ok y)
        else if x.r > tr then x.lcanonicalizeF qr md tr else Except.ok x)
      = ((if x.l < tl then x.rcanonicalizeF qr md tl else Except.ok x) >>= fun y =>
        if x.r > tr then y.lcanonicalizeF qr md tr else Except.ok y) by split <;> rfl]
  rw [g1, ok_bind]
  by_cases h : x.r > tr
  · rw [if_pos h]
    obtain ⟨z, k1, k2, k3, k4, k5⟩ := lcanonicalizeF_ok hε hqr hmd g2.good (c := tr) (by omega)
      (by rw [g2.len]; exact h2)
    have hyr : tr < y.r := by rw [g4]; split <;> omega
    have hyr' : y.r = x.r := by rw [g4]; split <;> omega
    refine ⟨z, k1, g2.trans k2, ?_, ?_, (tl - x.l).toNat + (y.r - tr).toNat, ?_, fun s w hs hw => ?_⟩
    · rw [k4, if_pos hyr, if_pos h, g3]
    · rw [k3, if_pos h]; omega
    · omega
    · obtain ⟨w', hw'⟩ := g5 s w hs hw
      obtain ⟨w'', hw''⟩ := k5 (if x.l < tl then tl else 0) s w' hs (by split <;> omega) (by split <;> omega)
        (hw'.wts.mono le_rfl (by omega))
      exact ⟨w'', _, _, hw'.trans g2.shape hw''⟩
  · rw [if_neg h]
    refine ⟨y, rfl, g2, ?_, ?_, (tl - x.l).toNat, by omega, fun s w hs hw => ?_⟩
    · rw [g3, if_neg (by omega)]
    · rw [g4, if_neg (show ¬ tr < x.r by omega)]
    · obtain ⟨w', hw'⟩ := g5 s w hs hw
      exact ⟨w', _, _, hw'⟩

/-- All arguments. -/
theorem canonicalizeF_cases {ε : ℝ} (hε : 0 ≤ ε) {qr : QR 𝕜} (hqr : QRNear ε qr)
    {md : NDArray 𝕜 → NDArray 𝕜 → Py (NDArray 𝕜)} (hmd : MdNear ε md) {x y : MPA 𝕜} (hx : x.NearGood ε) {left right : CArg}
    (hy : x.canonicalizeF qr md left right = .ok y) :
    NearStep ε x y ∧ (x.r = x.l + 1 → y.r = y.l + 1) ∧
      ∃ k, k + 1 ≤ x.len ∧ ∀ s w, 1 ≤ s → Wts 0 x.len s x w → ∃ w' f' g', Errs ε k f' g' x y s w w' := by
  by_cases hne : (left.isNone && right.isNone) = true
  · obtain ⟨y', h1, h2, _, h4, h5⟩ := canonicalizeF_none hε hqr hmd hx
    have : left = .none ∧ right = .none := by
      cases left <;> cases right <;> simp_all [CArg.isNone]
    rw [this.1, this.2, h1] at hy
    injection hy with hy; rw [← hy]; exact ⟨h2, fun _ => h4, h5⟩
  · have hne : (left.isNone && right.isNone) = false := by simpa using hne
    by_cases hv : 0 ≤ target x.len (left.left x.len) ∧
        target x.len (left.left x.len) < target x.len (right.right x.len) ∧
        target x.len (right.right x.len) ≤ x.len
    · obtain ⟨y', h1, h2, h3, h4, h5⟩ := canonicalizeF_ok hε hqr hmd hx hne rfl rfl hv.1 hv.2.1 hv.2.2
      rw [h1] at hy
      injection hy with hy; rw [← hy]
      refine ⟨h2, fun h => ?_, h5⟩
      rw [h3, h4]
      split <;> omega
    · exfalso
      rw [canonicalizeF_eq hne rfl rfl] at hy
      unfold pyGuard at hy
      split at hy
      · split at hy
        · split at hy
          · rename_i a b c; exact hv ⟨a.1, c, b.2⟩
          · cases hy
        · cases hy
      · cases hy

end MPA

/-- C75: whatever the arguments, if `canonicalize` returns, then the shape and the number of sites are the same as before, no
rank has grown, and every site that the new canonical form claims to be canonical is canonical up to `ε`: the `ε` is the error
of one decomposition, however long the chain and whatever happened before. -/
theorem C75_canonicalize {ε : ℝ} (hε : 0 ≤ ε) {qr : QR 𝕜} (hqr : QRNear ε qr) {md : NDArray 𝕜 → NDArray 𝕜 → Py (NDArray 𝕜)}
    (hmd : MdNear ε md) (x y : MPA 𝕜) (hx : x.NearGood ε) (left right : CArg)
    (hy : x.canonicalizeF qr md left right = .ok y) :
    y.NearGood ε ∧ y.len = x.len ∧ y.shape = x.shape ∧ y.RanksLe x := by
  obtain ⟨h, _⟩ := MPA.canonicalizeF_cases hε hqr hmd hx hy
  exact ⟨h.good, h.len, h.shape, h.ranks⟩

/-- C75: the outcome of `canonicalize` (exception or new canonical form) does not depend on the errors: it is the one of exact
arithmetic. -/
theorem C75_same_outcome {ε : ℝ} (hε : 0 ≤ ε) (h1 : ε ≤ 1) {qr qr₀ : QR 𝕜} (hqr : QRNear ε qr) (hqr₀ : QRSpec qr₀)
    {md : NDArray 𝕜 → NDArray 𝕜 → Py (NDArray 𝕜)} (hmd : MdNear ε md) (x : MPA 𝕜) (hx : x.Good) (left right : CArg) :
    (∃ e, x.canonicalizeF qr md left right = .error e ∧ x.canonicalize qr₀ left right = .error e) ∨
    (∃ y y₀, x.canonicalizeF qr md left right = .ok y ∧ x.canonicalize qr₀ left right = .ok y₀ ∧ y.l = y₀.l ∧ y.r = y₀.r) := by
  have hn := C75_good hε h1 hx
  by_cases hne : (left.isNone && right.isNone) = true
  · obtain ⟨y, a1, _, a3, a4, _⟩ := MPA.canonicalizeF_none hε hqr hmd hn
    obtain ⟨y₀, b1, _, b3, b4⟩ := MPA.canonicalize_none hqr₀ hx
    have : left = .none ∧ right = .none := by
      cases left <;> cases right <;> simp_all [CArg.isNone]
    rw [this.1, this.2]
    exact Or.inr ⟨y, y₀, a1, b1, a3.trans b3.symm, by rw [a4, b4, a3, b3]⟩
  · have hne : (left.isNone && right.isNone) = false := by simpa using hne
    by_cases hv : 0 ≤ target x.len (left.left x.len) ∧
        target x.len (left.left x.len) < target x.len (right.right x.len) ∧
        target x.len (right.right x.len) ≤ x.len
    · obtain ⟨y, a1, _, a3, a4, _⟩ := MPA.canonicalizeF_ok hε hqr hmd hn hne rfl rfl hv.1 hv.2.1 hv.2.2
      obtain ⟨y₀, b1, _, b3, b4⟩ := MPA.canonicalize_ok hqr₀ hx hne rfl rfl hv.1 hv.2.1 hv.2.2
      exact Or.inr ⟨y, y₀, a1, b1, a3.trans b3.symm, a4.trans b4.symm⟩
    · refine Or.inl ?_
      rw [MPA.canonicalizeF_eq hne rfl rfl, MPA.canonicalize_eq hne rfl rfl]
      unfold pyGuard
      split
      · split
        · split
          · rename_i a b c; exact absurd ⟨a.1, c, b.2⟩ hv
          · exact ⟨_, rfl, rfl⟩
        · exact ⟨_, rfl, rfl⟩
      · exact ⟨_, rfl, rfl⟩

/-- The bound of the error of one call for a chain of `n` sites: `(n - 1) ε (1 + (1 + ε)² s) ((1 + ε)² (1 + ε s))^(n - 1)`. -/
noncomputable def canonErr (ε s : ℝ) (n : ℕ) : ℝ :=
  (n - 1 : ℕ) * (ε * (1 + (1 + ε) ^ 2 * s)) * ((1 + ε) ^ 2 * (1 + ε * s)) ^ (n - 1)

theorem geom_le {h : ℝ} (hh : 1 ≤ h) {k n : ℕ} (hk : k ≤ n) : ∑ i ∈ range k, h ^ i ≤ n * h ^ n := by
  have h1 : ∀ i ∈ range k, h ^ i ≤ h ^ n := fun i hi =>
    pow_le_pow_right₀ hh (by have := Finset.mem_range.1 hi; omega)
  refine (Finset.sum_le_sum h1).trans ?_
  rw [Finset.sum_const, card_range, nsmul_eq_mul]
  exact mul_le_mul_of_nonneg_right (by exact_mod_cast hk) (by positivity)

namespace MPA

theorem errs_dist {ε : ℝ} (hε : 0 ≤ ε) {k : ℕ} {f' g' : ℤ} {x y : MPA 𝕜} {s : ℝ} (hs : 1 ≤ s) {w w' : ℕ → ℝ}
    (hw : ∀ n, 0 ≤ w n) (h : Errs ε k f' g' x y s w w') (hk : k + 1 ≤ x.len) : x.dist y ≤ canonErr ε s x.len * x.wprod w := by
  refine h.dist.trans ?_
  have hp : 0 ≤ x.wprod w := Finset.prod_nonneg fun n _ => hw n
  refine mul_le_mul_of_nonneg_right ?_ hp
  have hg : 1 ≤ growC ε s := by
    unfold growC
    have : 0 ≤ ε * s := mul_nonneg hε (by linarith)
    nlinarith
  have he : 0 ≤ errC ε s := by unfold errC; positivity
  refine (mul_le_mul_of_nonneg_left (geom_le hg (show k ≤ x.len - 1 by omega)) he).trans (le_of_eq ?_)
  unfold canonErr errC growC
  ring

theorem npNorm_of_lop {c : ℝ} (hc : 0 ≤ c) {t : NDArray 𝕜} (ht : t.IsLocal) (h : LOp c t) : npNorm t ≤ Real.sqrt t.rb * c := by
  refine (abs_le_of_sq_le_sq' ?_ (by positivity)).2
  rw [npNorm_sq, nsq_local ht, mul_pow, Real.sq_sqrt (Nat.cast_nonneg _)]
  have e : ∑ a ∈ range t.lb, (sumIdx t.ph fun p => ∑ b ∈ range t.rb, ‖t.at3 a p b‖ ^ 2)
      = ∑ b ∈ range t.rb, ∑ a ∈ range t.lb, sumIdx t.ph fun p => ‖t.at3 a p b‖ ^ 2 := by
    simp only [sumIdx_eq_sum]
    rw [Finset.sum_comm (s := range t.rb)]
    exact Finset.sum_congr rfl fun a _ => Finset.sum_comm
  rw [e]
  have : ∀ b ∈ range t.rb, (∑ a ∈ range t.lb, sumIdx t.ph fun p => ‖t.at3 a p b‖ ^ 2) ≤ c ^ 2 := by
    intro b hb
    have := h fun b' => if b' = b then 1 else 0
    simpa [Finset.sum_ite_eq', Finset.mem_range.1 hb, apply_ite, ite_pow, mul_ite] using this
  refine (Finset.sum_le_sum this).trans (le_of_eq ?_)
  rw [Finset.sum_const, card_range, nsmul_eq_mul]

theorem npNorm_of_rop {c : ℝ} (hc : 0 ≤ c) {t : NDArray 𝕜} (ht : t.IsLocal) (h : ROp c t) : npNorm t ≤ Real.sqrt t.lb * c := by
  refine (abs_le_of_sq_le_sq' ?_ (by positivity)).2
  rw [npNorm_sq, nsq_local ht, mul_pow, Real.sq_sqrt (Nat.cast_nonneg _)]
  have : ∀ a ∈ range t.lb, (sumIdx t.ph fun p => ∑ b ∈ range t.rb, ‖t.at3 a p b‖ ^ 2) ≤ c ^ 2 := by
    intro a ha
    have := h fun a' => if a' = a then 1 else 0
    simpa [Finset.sum_ite_eq', Finset.mem_range.1 ha, apply_ite, ite_pow, ite_mul] using this
  refine (Finset.sum_le_sum this).trans (le_of_eq ?_)
  rw [Finset.sum_const, card_range, nsmul_eq_mul]

end MPA

theorem MPA.chained_rb_le {D : ℕ} {l r : ℕ} {ts : List (NDArray 𝕜)} (h : Chained l ts r) (hr : r ≤ D)
    (hD : ∀ t ∈ ts.tail, t.lb ≤ D) : ∀ t ∈ ts, t.rb ≤ D := by
  induction ts generalizing l with
  | nil => simp
  | cons t ts ih =>
    obtain ⟨_, _, hc⟩ := h
    have hrb : t.rb ≤ D := by
      cases ts with
      | nil => rw [chained_nil] at hc; omega
      | cons u us => rw [← hc.2.1]; exact hD u (by simp)
    intro u hu
    rcases List.mem_cons.1 hu with rfl | hu
    · exact hrb
    · exact ih hc (fun v hv => hD v (List.mem_of_mem_tail hv)) u hu

theorem MPA.ranks_bound {D : ℕ} {x : MPA 𝕜} (hx : x.Valid) (hD1 : 1 ≤ D) (hD : ∀ r ∈ x.ranks, r ≤ D) :
    ∀ t ∈ x.lt, t.lb ≤ D ∧ t.rb ≤ D := by
  have hD' : ∀ t ∈ x.lt.tail, t.lb ≤ D := fun t ht => hD _ (List.mem_map.2 ⟨t, ht, rfl⟩)
  have h1 := MPA.chained_rb_le hx.chain hD1 hD'
  refine fun t ht => ⟨?_, h1 t ht⟩
  obtain ⟨u, us, hus⟩ := List.exists_cons_of_ne_nil hx.ne
  have hc := hx.chain
  rw [hus] at hc ht
  rcases List.mem_cons.1 ht with rfl | ht
  · rw [hc.2.1]; exact hD1
  · exact hD' t (by rw [hus]; exact ht)

theorem MPA.RanksLe.bound {D : ℕ} {x y : MPA 𝕜} (h : y.RanksLe x) (hD : ∀ r ∈ x.ranks, r ≤ D) : ∀ r ∈ y.ranks, r ≤ D := by
  unfold MPA.RanksLe at h
  unfold MPA.ranks at hD ⊢
  rw [List.map_tail] at hD ⊢
  revert hD h
  generalize y.lt.map NDArray.lb = a
  generalize x.lt.map NDArray.lb = b
  intro h hD
  cases h with
  | nil => simp
  | cons _ h =>
    simp only [List.tail_cons] at hD ⊢
    induction h with
    | nil => simp
    | cons h1 _ ih =>
      intro r hr
      rcases List.mem_cons.1 hr with rfl | hr
      · exact h1.trans (hD _ (by simp))
      · exact ih (fun r hr => hD r (List.mem_cons_of_mem _ hr)) r hr

/-- C75: for an MPA as it is after construction (nothing is claimed to be canonical), the error of `canonicalize` is bounded
relative to the product of the norms of the local tensors. -/
theorem C75_error_fresh {ε : ℝ} (hε : 0 ≤ ε) {qr : QR 𝕜} (hqr : QRNear ε qr) {md : NDArray 𝕜 → NDArray 𝕜 → Py (NDArray 𝕜)}
    (hmd : MdNear ε md) (x y : MPA 𝕜) (hv : x.Valid) (hp : AllPos x.lt) (hl : x.l = 0) (hr : x.r = x.len) (left right : CArg)
    (hy : x.canonicalizeF qr md left right = .ok y) :
    x.dist y ≤ canonErr ε 1 x.len * (x.lt.map npNorm).prod := by
  have hx : x.NearGood ε := by
    refine ⟨hv, hp, fun n t ht => ⟨fun h => ?_, fun h => ?_⟩⟩
    · exfalso; omega
    · exfalso
      have h' := (List.getElem?_eq_some_iff.1 ht).1
      rw [hr] at h
      have : x.len = x.lt.length := rfl
      omega
  obtain ⟨_, _, k, hk, he⟩ := MPA.canonicalizeF_cases hε hqr hmd hx hy
  set w : ℕ → ℝ := fun n => (x.lt[n]?.map npNorm).getD 0 with hw
  have hwn : ∀ n t, x.lt[n]? = some t → w n = npNorm t := by
    intro n t ht; simp [hw, ht]
  have hW : MPA.Wts 0 x.len 1 x w := by
    refine ⟨?_, ?_, ?_, ?_, ?_⟩
    · intro n
      simp only [hw]
      cases x.lt[n]? with
      | none => simp
      | some t => simpa using npNorm_nonneg' t
    · intro n t ht h; exfalso; omega
    · intro n t ht _ _; rw [hwn n t ht]
    · intro n t ht h
      exfalso
      have h' := (List.getElem?_eq_some_iff.1 ht).1
      rw [hr] at h
      have : x.len = x.lt.length := rfl
      omega
    · intro n t ht _ _; rw [hwn n t ht, one_mul]
  obtain ⟨w', f', g', h⟩ := he 1 w le_rfl hW
  have e : x.wprod w = (x.lt.map npNorm).prod := by
    unfold MPA.wprod
    rw [← list_range_prod]
    congr 1
    refine List.ext_getElem (by simp [MPA.len]) fun n h1 h2 => ?_
    rw [List.length_map] at h2
    simp only [List.getElem_map, List.getElem_range]
    rw [hwn n x.lt[n] (by simp)]
  rw [← e]
  exact MPA.errs_dist hε le_rfl hW.nonneg h hk

/-- The bound of the relative error of one call for a chain of `n` sites with ranks up to `D` that is canonical up to `ε` around
one site. -/
noncomputable def canonRel (ε : ℝ) (D n : ℕ) : ℝ := canonErr ε (Real.sqrt D) n * ((1 + ε) / (1 - ε)) ^ (n - 1)

/-- C75: for an MPA with one site that is not canonical, the error of `canonicalize` is bounded relative to the norm of the
tensor. -/
theorem C75_error_canonical {ε : ℝ} (hε : 0 ≤ ε) (h1 : ε < 1) {qr : QR 𝕜} (hqr : QRNear ε qr)
    {md : NDArray 𝕜 → NDArray 𝕜 → Py (NDArray 𝕜)} (hmd : MdNear ε md) (x y : MPA 𝕜) (hx : x.NearGood ε) (hr : x.r = x.l + 1)
    {D : ℕ} (hD1 : 1 ≤ D) (hD : ∀ r ∈ x.ranks, r ≤ D) (left right : CArg) (hy : x.canonicalizeF qr md left right = .ok y) :
    x.dist y ≤ canonRel ε D x.len * x.frob := by
  obtain ⟨_, _, k, hk, he⟩ := MPA.canonicalizeF_cases hε hqr hmd hx hy
  have hl0 := hx.valid.l_nonneg
  have hrle := hx.valid.r_le
  have hloc := hx.valid.chain.isLocal
  obtain ⟨c, hc⟩ := Int.eq_ofNat_of_zero_le hl0
  have hclt : c < x.lt.length := by
    have : (x.len : ℤ) = x.lt.length := rfl
    omega
  set t := x.lt[c] with ht
  have htc : x.lt[c]? = some t := by simp [ht, hclt]
  have htm : t ∈ x.lt := List.mem_of_getElem? htc
  replace hD := MPA.ranks_bound hx.valid hD1 hD
  have hs1 : 1 ≤ Real.sqrt D := by
    rw [show (1 : ℝ) = Real.sqrt 1 by simp]
    exact Real.sqrt_le_sqrt (by exact_mod_cast hD1)
  have hcn := (hx.center hε h1.le hr (c := c) (by omega) htc).1
  set w : ℕ → ℝ := fun n => if n = c then npNorm t else 1 + ε with hw
  have hT := npNorm_nonneg' t
  have hW : MPA.Wts 0 x.len (Real.sqrt D) x w := by
    refine ⟨?_, ?_, ?_, ?_, ?_⟩
    · intro n; simp only [hw]; split
      · exact hT
      · linarith
    · intro n u hu h
      simp only [hw]; rw [if_neg (by omega)]
      exact ((hx.canon n u hu).1 h).1
    · intro n u hu h h'
      obtain rfl : n = c := by omega
      simp only [hw, if_true]
      rw [htc] at hu
      exact le_of_eq (by rw [Option.some.inj hu])
    · intro n u hu h
      simp only [hw]; rw [if_neg (by omega)]
      exact ((hx.canon n u hu).2 h).1
    · intro n u hu _ _
      have hum := List.mem_of_getElem? hu
      simp only [hw]
      split
      · rename_i hnc
        subst hnc
        rw [htc] at hu
        rw [← Option.some.inj hu]
        exact le_mul_of_one_le_left hT hs1
      · rename_i hnc
        by_cases hn : (n : ℤ) < x.l
        · refine (MPA.npNorm_of_lop (by linarith) (hloc u hum) ((hx.canon n u hu).1 hn).1).trans ?_
          exact mul_le_mul_of_nonneg_right (Real.sqrt_le_sqrt (by exact_mod_cast (hD u hum).2)) (by linarith)
        · refine (MPA.npNorm_of_rop (by linarith) (hloc u hum) ((hx.canon n u hu).2 (by omega)).1).trans ?_
          exact mul_le_mul_of_nonneg_right (Real.sqrt_le_sqrt (by exact_mod_cast (hD u hum).1)) (by linarith)
  obtain ⟨w', f', g', h⟩ := he _ w hs1 hW
  refine (MPA.errs_dist hε hs1 hW.nonneg h hk).trans ?_
  have e : x.wprod w = (1 + ε) ^ (x.len - 1) * npNorm t := by
    have hclt : c < x.len := hclt
    unfold MPA.wprod
    rw [← Finset.mul_prod_erase (range x.len) w (a := c) (Finset.mem_range.2 hclt)]
    rw [Finset.prod_congr rfl fun n hn => show w n = 1 + ε by
      simp only [hw]; rw [if_neg (Finset.ne_of_mem_erase hn)]]
    rw [Finset.prod_const, Finset.card_erase_of_mem (Finset.mem_range.2 hclt), card_range]
    simp only [hw, if_true]
    ring
  rw [e, canonRel, mul_assoc]
  have hce : 0 ≤ canonErr ε (Real.sqrt D) x.len := by
    unfold canonErr
    have : 0 ≤ ε * Real.sqrt D := by positivity
    positivity
  refine mul_le_mul_of_nonneg_left ?_ hce
  rw [div_pow, div_mul_eq_mul_div, le_div_iff₀ (by have : 0 < 1 - ε := by linarith
                                                   positivity)]
  have : 0 ≤ (1 + ε) ^ (x.len - 1) := by positivity
  nlinarith

/-- C75: any sequence of calls. The canonical claims stay true up to the same `ε`; the error of the tensor grows at most
geometrically with the number of calls. -/
theorem C75_history {ε : ℝ} (hε : 0 ≤ ε) (h1 : ε < 1) {qr : QR 𝕜} (hqr : QRNear ε qr)
    {md : NDArray 𝕜 → NDArray 𝕜 → Py (NDArray 𝕜)} (hmd : MdNear ε md) (x y : MPA 𝕜) (hx : x.NearGood ε) (hr : x.r = x.l + 1)
    {D : ℕ} (hD1 : 1 ≤ D) (hD : ∀ r ∈ x.ranks, r ≤ D) (args : List (CArg × CArg))
    (hy : args.foldlM (fun z a => z.canonicalizeF qr md a.1 a.2) x = .ok y) :
    y.NearGood ε ∧ y.r = y.l + 1 ∧ y.shape = x.shape ∧ y.RanksLe x ∧
      x.dist y ≤ ((1 + canonRel ε D x.len) ^ args.length - 1) * x.frob := by
  set η := canonRel ε D x.len with hη
  have hη0 : 0 ≤ η := by
    rw [hη, canonRel, canonErr]
    have : 0 < 1 - ε := by linarith
    have : 0 ≤ ε * Real.sqrt D := by positivity
    positivity
  induction args using List.reverseRecOn generalizing y with
  | nil =>
    obtain rfl : x = y := Except.ok.inj hy
    exact ⟨hx, hr, rfl, MPA.RanksLe.rfl' x, by simp [MPA.dist_self']⟩
  | append_singleton args a ih =>
    rw [List.foldlM_append] at hy
    obtain ⟨z, hz, hy⟩ := bind_ok_inv hy
    obtain ⟨i1, i2, i3, i4, i5⟩ := ih z hz
    simp only [List.foldlM_cons, List.foldlM_nil] at hy
    obtain ⟨y', hy', hyy⟩ := bind_ok_inv hy
    obtain rfl : y' = y := Except.ok.inj hyy
    obtain ⟨k1, k2, _⟩ := MPA.canonicalizeF_cases hε hqr hmd i1 hy'
    have hzlen : z.len = x.len := by
      have := congrArg List.length i3
      simpa [MPA.shape, physShape, MPA.len] using this
    have hd := C75_error_canonical hε h1 hqr hmd z y' i1 i2 hD1 (i4.bound hD) a.1 a.2 hy'
    rw [hzlen] at hd
    refine ⟨k1.good, k2 i2, k1.shape.trans i3, k1.ranks.trans i4, ?_⟩
    refine (MPA.dist_triangle' i3).trans ?_
    have hf : z.frob ≤ (1 + η) ^ args.length * x.frob := by
      have := (abs_le.1 (MPA.frob_dist (x := x) (y := z) i3)).1
      linarith
    have hd' : z.dist y' ≤ η * ((1 + η) ^ args.length * x.frob) := hd.trans (mul_le_mul_of_nonneg_left hf hη0)
    rw [List.length_append, List.length_singleton, pow_succ]
    linarith

/-! ### `norm` -/

theorem site_last {y : MPA 𝕜} {t : NDArray 𝕜} {c : ℕ} (hc : c + 1 = y.len) (ht : y.lt[c]? = some t) : y.site (-1) = .ok t := by
  unfold MPA.site
  rw [show pyIndex y.len (-1) = .ok c by rw [← hc]; unfold pyIndex; simp, ok_bind]
  simp [ht]

/-- C75: `norm` returns a number that agrees with the norm of the tensor that the MPA represents afterwards, up to one factor
`1 ± ε` per site. -/
theorem C75_norm {ε : ℝ} (hε : 0 ≤ ε) (h1 : ε ≤ 1) {qr : QR 𝕜} (hqr : QRNear ε qr)
    {md : NDArray 𝕜 → NDArray 𝕜 → Py (NDArray 𝕜)} (hmd : MdNear ε md) {nrm : NDArray 𝕜 → ℝ} (hn : NormNear ε nrm)
    (x : MPA 𝕜) (hx : x.NearGood ε) :
    ∃ v y, normF qr md nrm x = .ok (v, y) ∧ x.canonicalizeF qr md .none .none = .ok y ∧
      (1 - ε) ^ (x.len - 1) * v ≤ (1 + ε) * y.frob ∧ (1 - ε) * y.frob ≤ (1 + ε) ^ (x.len - 1) * v ∧
      |x.frob - y.frob| ≤ x.dist y := by
  obtain ⟨y, a1, a2, a3, a4, _⟩ := MPA.canonicalizeF_none hε hqr hmd hx
  have hrle := a2.good.valid.r_le
  have hl0 := a2.good.valid.l_nonneg
  obtain ⟨c, hc⟩ := Int.eq_ofNat_of_zero_le hl0
  have hclt : c < y.lt.length := by
    have : (y.len : ℤ) = y.lt.length := rfl
    omega
  have htc : y.lt[c]? = some y.lt[c] := by simp
  set t := y.lt[c] with ht
  obtain ⟨b1, b2⟩ := a2.good.center hε h1 a4 (c := c) (by omega) htc
  have hb := abs_le.1 (hn t)
  have hT := npNorm_nonneg' t
  rw [a2.len] at b1 b2
  have p1 : 0 ≤ (1 - ε) ^ (x.len - 1) := pow_nonneg (by linarith) _
  have p2 : 0 ≤ (1 + ε) ^ (x.len - 1) := by positivity
  refine ⟨nrm t, y, ?_, a1, ?_, ?_, MPA.frob_dist a2.shape⟩
  · unfold normF
    rw [a1, ok_bind]
    by_cases hr : y.r = 1
    · rw [if_pos hr]
      obtain rfl : c = 0 := by omega
      have : y.site 0 = .ok t := by
        unfold MPA.site
        rw [show pyIndex y.len 0 = .ok 0 by unfold pyIndex; rw [if_pos ⟨le_rfl, by exact_mod_cast hclt⟩]; rfl, ok_bind]
        simp [htc]
      rw [this]; rfl
    · have hl : y.l = y.len - 1 := by
        have := a2.len
        split at a3 <;> omega
      rw [if_neg hr, if_pos hl, site_last (c := c) (by omega) htc]
      rfl
  · calc (1 - ε) ^ (x.len - 1) * nrm t ≤ (1 - ε) ^ (x.len - 1) * ((1 + ε) * npNorm t) :=
          mul_le_mul_of_nonneg_left (by linarith) p1
      _ = (1 + ε) * ((1 - ε) ^ (x.len - 1) * npNorm t) := by ring
      _ ≤ (1 + ε) * y.frob := mul_le_mul_of_nonneg_left b1 (by linarith)
  · calc (1 - ε) * y.frob ≤ (1 - ε) * ((1 + ε) ^ (x.len - 1) * npNorm t) := mul_le_mul_of_nonneg_left b2 (by linarith)
      _ = (1 + ε) ^ (x.len - 1) * ((1 - ε) * npNorm t) := by ring
      _ ≤ (1 + ε) ^ (x.len - 1) * nrm t := mul_le_mul_of_nonneg_left (by linarith) p2

/-- C75: relative error of `norm` for an MPA with one site that is not canonical. -/
theorem C75_norm_canonical {ε : ℝ} (hε : 0 ≤ ε) (h1 : ε < 1) {qr : QR 𝕜} (hqr : QRNear ε qr)
    {md : NDArray 𝕜 → NDArray 𝕜 → Py (NDArray 𝕜)} (hmd : MdNear ε md) {nrm : NDArray 𝕜 → ℝ} (hn : NormNear ε nrm)
    (x : MPA 𝕜) (hx : x.NearGood ε) (hr : x.r = x.l + 1) {D : ℕ} (hD1 : 1 ≤ D) (hD : ∀ r ∈ x.ranks, r ≤ D) :
    ∃ v y, normF qr md nrm x = .ok (v, y) ∧
      (1 - ε) ^ (x.len - 1) * v ≤ (1 + ε) * ((1 + canonRel ε D x.len) * x.frob) ∧
      (1 - ε) * ((1 - canonRel ε D x.len) * x.frob) ≤ (1 + ε) ^ (x.len - 1) * v := by
  obtain ⟨v, y, c1, c2, c3, c4, c5⟩ := C75_norm hε h1.le hqr hmd hn x hx
  have hd := C75_error_canonical hε h1 hqr hmd x y hx hr hD1 hD _ _ c2
  have h5 := abs_le.1 c5
  refine ⟨v, y, c1, c3.trans (mul_le_mul_of_nonneg_left (by linarith) (by linarith)),
    le_trans (mul_le_mul_of_nonneg_left (by linarith) (by linarith)) c4⟩

/-- C75: relative error of `norm` for an MPA as it is after construction. -/
theorem C75_norm_fresh {ε : ℝ} (hε : 0 ≤ ε) (h1 : ε ≤ 1) {qr : QR 𝕜} (hqr : QRNear ε qr)
    {md : NDArray 𝕜 → NDArray 𝕜 → Py (NDArray 𝕜)} (hmd : MdNear ε md) {nrm : NDArray 𝕜 → ℝ} (hn : NormNear ε nrm)
    (x : MPA 𝕜) (hx : x.Good) (hl : x.l = 0) (hr : x.r = x.len) :
    ∃ v y, normF qr md nrm x = .ok (v, y) ∧
      (1 - ε) ^ (x.len - 1) * v ≤ (1 + ε) * (x.frob + canonErr ε 1 x.len * (x.lt.map npNorm).prod) ∧
      (1 - ε) * (x.frob - canonErr ε 1 x.len * (x.lt.map npNorm).prod) ≤ (1 + ε) ^ (x.len - 1) * v := by
  obtain ⟨v, y, c1, c2, c3, c4, c5⟩ := C75_norm hε h1 hqr hmd hn x (C75_good hε h1 hx)
  have hd := C75_error_fresh hε hqr hmd x y hx.valid hx.pos hl hr _ _ c2
  have h5 := abs_le.1 c5
  refine ⟨v, y, c1, c3.trans (mul_le_mul_of_nonneg_left (by linarith) (by linarith)),
    le_trans (mul_le_mul_of_nonneg_left (by linarith) (by linarith)) c4⟩

/-- C75: with `ε = 0` the bounds say that nothing changes. -/
theorem C75_exact (D n : ℕ) (s : ℝ) : canonErr 0 s n = 0 ∧ canonRel 0 D n = 0 := by
  constructor <;> simp [canonErr, canonRel]

/-- C75: the bounds are of first order in `ε`: for a chain of `n` sites with `3 s (n - 1) ε ≤ 1`, the relative errors are at most
`14 s (n - 1) ε` and `55 √D (n - 1) ε`. -/
theorem C75_first_order {ε s : ℝ} (hε : 0 ≤ ε) (h1 : ε ≤ 1) (hs : 1 ≤ s) (n : ℕ) (h : 3 * s * (n - 1 : ℕ) * ε ≤ 1) :
    canonErr ε s n ≤ 14 * s * (n - 1 : ℕ) * ε := by
  set N : ℕ := n - 1 with hN
  have hN0 : (0 : ℝ) ≤ N := Nat.cast_nonneg _
  have g1 : (1 + ε) ^ 2 * (1 + ε * s) ≤ Real.exp (3 * s * ε) := by
    have e1 : 1 + ε ≤ Real.exp ε := by linarith [Real.add_one_le_exp ε]
    have e2 : 1 + ε * s ≤ Real.exp (ε * s) := by linarith [Real.add_one_le_exp (ε * s)]
    have e3 : 0 ≤ ε * s := by positivity
    calc (1 + ε) ^ 2 * (1 + ε * s) ≤ Real.exp ε ^ 2 * Real.exp (ε * s) := by gcongr
      _ = Real.exp (2 * ε + ε * s) := by rw [← Real.exp_nat_mul, ← Real.exp_add]; push_cast; rfl
      _ ≤ Real.exp (3 * s * ε) := Real.exp_le_exp.2 (by nlinarith)
  have e3 : 0 ≤ ε * s := by positivity
  have g2 : ((1 + ε) ^ 2 * (1 + ε * s)) ^ N ≤ Real.exp 1 := by
    calc ((1 + ε) ^ 2 * (1 + ε * s)) ^ N ≤ Real.exp (3 * s * ε) ^ N := pow_le_pow_left₀ (by positivity) g1 N
      _ = Real.exp (N * (3 * s * ε)) := by rw [← Real.exp_nat_mul]
      _ ≤ Real.exp 1 := Real.exp_le_exp.2 (by linarith)
  have g3 : 1 + (1 + ε) ^ 2 * s ≤ 5 * s := by nlinarith
  have ge := Real.exp_one_lt_d9.le
  unfold canonErr
  calc (N : ℝ) * (ε * (1 + (1 + ε) ^ 2 * s)) * ((1 + ε) ^ 2 * (1 + ε * s)) ^ N
      ≤ (N : ℝ) * (ε * (5 * s)) * (14 / 5) := by
        gcongr
        exact g2.trans (ge.trans (by norm_num))
    _ = 14 * s * N * ε := by ring

theorem C75_first_order_canonical {ε : ℝ} (hε : 0 ≤ ε) (h1 : ε < 1) {D : ℕ} (hD : 1 ≤ D) (n : ℕ)
    (h : 3 * Real.sqrt D * (n - 1 : ℕ) * ε ≤ 1) : canonRel ε D n ≤ 55 * Real.sqrt D * (n - 1 : ℕ) * ε := by
  have hs : 1 ≤ Real.sqrt D := by
    rw [show (1 : ℝ) = Real.sqrt 1 by simp]
    exact Real.sqrt_le_sqrt (by exact_mod_cast hD)
  have h0 := C75_first_order hε h1.le hs n h
  set N : ℕ := n - 1 with hN
  have hN0 : (0 : ℝ) ≤ N := Nat.cast_nonneg _
  have hNε : 3 * (N * ε) ≤ 1 := by
    have : 0 ≤ N * ε := by positivity
    nlinarith
  have g : ((1 + ε) / (1 - ε)) ^ N ≤ 55 / 14 := by
    rcases Nat.eq_zero_or_pos N with hz | hp
    · rw [hz]; norm_num
    · have hN1 : (1 : ℝ) ≤ N := by exact_mod_cast hp
      have hε3 : 3 * ε ≤ 1 := by nlinarith
      have e1 : (1 + ε) / (1 - ε) ≤ 1 + 3 * ε := by
        rw [div_le_iff₀ (by linarith)]; nlinarith
      calc ((1 + ε) / (1 - ε)) ^ N ≤ (1 + 3 * ε) ^ N := pow_le_pow_left₀ (div_nonneg (by linarith) (by linarith)) e1 N
        _ ≤ Real.exp (3 * ε) ^ N := pow_le_pow_left₀ (by linarith) (by linarith [Real.add_one_le_exp (3 * ε)]) N
        _ = Real.exp (N * (3 * ε)) := by rw [← Real.exp_nat_mul]
        _ ≤ Real.exp 1 := Real.exp_le_exp.2 (by linarith)
        _ ≤ 55 / 14 := Real.exp_one_lt_d9.le.trans (by norm_num)
  unfold canonRel
  have hc : 0 ≤ 14 * Real.sqrt D * N * ε := by positivity
  calc canonErr ε (Real.sqrt D) n * ((1 + ε) / (1 - ε)) ^ N ≤ (14 * Real.sqrt D * N * ε) * (55 / 14) :=
        mul_le_mul h0 g (pow_nonneg (div_nonneg (by linarith) (by linarith)) _) hc
    _ = 55 * Real.sqrt D * N * ε := by ring

/-! ### the hypotheses can be met -/

/-- A product in which every entry is too large by the factor `1 + δ`. -/
noncomputable def mdScaled (δ : ℝ) (a b : NDArray 𝕜) : Py (NDArray 𝕜) := do
  let c ← matdot a b
  return ⟨c.shape, fun i => ((1 + δ : ℝ) : 𝕜) * c.get i⟩

theorem mdScaled_near {δ : ℝ} (hδ : 0 ≤ δ) : MdNear δ (mdScaled (𝕜 := 𝕜) δ) := by
  refine C75_md_componentwise fun a b sa sb k ha hb => ?_
  obtain ⟨c, h1, h2, h3⟩ := NDArray.matdot_ok (a := a) (b := b) ha hb
  refine ⟨⟨c.shape, fun i => ((1 + δ : ℝ) : 𝕜) * c.get i⟩, ?_, h2, fun i j hi hj => ?_⟩
  · unfold mdScaled matdot; rw [h1]; rfl
  · simp only
    rw [h3 i j (inB_length hi) (inB_length hj), show ∀ z : 𝕜, z - ((1 + δ : ℝ) : 𝕜) * z = -(((δ : ℝ) : 𝕜) * z) by
      intro z; push_cast; ring, norm_neg, norm_mul, RCLike.norm_ofReal, abs_of_nonneg hδ]
    refine mul_le_mul_of_nonneg_left ((norm_sum_le _ _).trans (le_of_eq ?_)) hδ
    exact Finset.sum_congr rfl fun x _ => norm_mul _ _

/-- A QR decomposition in which every entry of `r` is too large by the factor `1 + δ`. -/
noncomputable def qrScaled (δ : ℝ) (qr : QR 𝕜) : QR 𝕜 := fun A =>
  ((qr A).1, ⟨(qr A).2.shape, fun i => ((1 + δ : ℝ) : 𝕜) * (qr A).2.get i⟩)

theorem qrScaled_backward {δ : ℝ} {qr : QR 𝕜} (h : QRSpec qr) : QRBackward δ (qrScaled δ qr) := by
  intro A m n hs
  obtain ⟨h1, h2, h3, h4⟩ := h A m n hs
  refine ⟨h1, h2, fun i k => (qr A).1.get [i, k], h4, le_of_eq ?_, ?_⟩
  · rw [nsq_two hs, Finset.mul_sum]
    refine Finset.sum_congr rfl fun i hi => ?_
    rw [Finset.mul_sum]
    refine Finset.sum_congr rfl fun j hj => ?_
    have := h3 i (by simpa using hi) j (by simpa using hj)
    have e : ∑ k ∈ range (min m n), (qr A).1.get [i, k] * (((1 + δ : ℝ) : 𝕜) * (qr A).2.get [k, j])
        = ((1 + δ : ℝ) : 𝕜) * A.get [i, j] := by
      rw [← this, Finset.mul_sum]
      exact Finset.sum_congr rfl fun k _ => by ring
    show ‖A.get [i, j] - ∑ k ∈ range (min m n), (qr A).1.get [i, k] * (((1 + δ : ℝ) : 𝕜) * (qr A).2.get [k, j])‖ ^ 2 = _
    rw [e, show ∀ z : 𝕜, z - ((1 + δ : ℝ) : 𝕜) * z = -(((δ : ℝ) : 𝕜) * z) by intro z; push_cast; ring, norm_neg, norm_mul,
      RCLike.norm_ofReal, mul_pow, sq_abs]
  · show ∑ i ∈ range m, ∑ k ∈ range (min m n), ‖(qr A).1.get [i, k] - (qr A).1.get [i, k]‖ ^ 2 ≤ δ ^ 2
    simp [sq_nonneg]

/-- Non-vacuity: with routines that are wrong by a relative error of up to `3 / 1000`, canonicalising and computing the norm of the
example MPA succeeds, and the bounds above hold for the results. -/
example : ∃ (qr : QR ℂ) (y z : MPA ℂ) (v : ℝ), QRNear (3 / 1000) qr ∧ MdNear (3 / 1000) (mdScaled (𝕜 := ℂ) (3 / 1000)) ∧
    exMPAc.canonicalizeF qr (mdScaled (3 / 1000)) (.int 1) .none = .ok y ∧ y.NearGood (3 / 1000) ∧ y.l = 1 ∧
    exMPAc.dist y ≤ canonErr (3 / 1000) 1 2 * (exMPAc.lt.map npNorm).prod ∧
    normF qr (mdScaled (3 / 1000)) npNorm exMPAc = .ok (v, z) := by
  obtain ⟨qr₀, hqr₀⟩ := exists_QRSpec (𝕜 := ℂ)
  have hb := C75_qr_backward (δ := 1 / 1000) (by norm_num) (by norm_num) (qrScaled_backward (δ := 1 / 1000) hqr₀)
  have hq : QRNear (3 / 1000) (qrScaled (1 / 1000) qr₀) := by
    refine ⟨hb.shape, fun A m n hs => (hb.close A m n hs).trans ?_, fun A m n hs => (hb.size A m n hs).trans ?_, fun A m n hs v => ?_⟩
    · exact mul_le_mul_of_nonneg_right (by norm_num) (nsq_nonneg _)
    · exact mul_le_mul_of_nonneg_right (by norm_num) (nsq_nonneg _)
    · obtain ⟨h1, h2⟩ := hb.iso A m n hs v
      exact ⟨le_trans (mul_le_mul_of_nonneg_right (by norm_num) (Finset.sum_nonneg fun _ _ => sq_nonneg _)) h1,
        h2.trans (mul_le_mul_of_nonneg_right (by norm_num) (Finset.sum_nonneg fun _ _ => sq_nonneg _))⟩
  have hm := mdScaled_near (𝕜 := ℂ) (δ := 3 / 1000) (by norm_num)
  have hg := C75_good (ε := 3 / 1000) (by norm_num) (by norm_num) exMPAc_good
  have hl : exMPAc.len = 2 := rfl
  obtain ⟨y, a1, a2, a3, a4, _⟩ := MPA.canonicalizeF_ok (left := .int 1) (right := .none) (tl := 1) (tr := 2) (by norm_num) hq hm hg rfl
    (by rw [hl]; rfl) (by rw [hl]; rfl) (by norm_num) (by norm_num) (by rw [hl]; norm_num)
  obtain ⟨v, z, b1, _⟩ := C75_norm (nrm := npNorm) (by norm_num) (by norm_num) hq hm
    (fun t => by simpa using mul_nonneg (by norm_num : (0 : ℝ) ≤ 3 / 1000) (npNorm_nonneg' t)) _ hg
  refine ⟨_, y, z, v, hq, hm, a1, a2.good, ?_, ?_, b1⟩
  · rw [a3]; rfl
  · have := C75_error_fresh (by norm_num) hq hm exMPAc y exMPAc_good.valid exMPAc_good.pos rfl rfl _ _ a1
    exact this

end Mpnum
