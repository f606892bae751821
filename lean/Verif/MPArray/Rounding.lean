import Verif.MPArray.Norm
import Verif.MPArray.OpenCompress
import Mathlib.Analysis.InnerProductSpace.PiL2

/-!
# `canonicalize` and `norm` in inexact arithmetic (/repo/mpnum/mparray.py:592-711, 1416-1435)

The model of `canonicalize` in `Canon.lean` uses an exact QR decomposition and exact matrix products.  Here the
same functions are modelled with a QR decomposition and a matrix product that are only approximately right.
-/

open Finset

namespace Mpnum

variable {𝕜 : Type}

namespace MPA

/-- Body of the loop of `_rcanonicalize` (mparray.py:683-691) with the function `md` for `matdot`. -/
def rcanonStepF (qr : QR 𝕜) (md : NDArray 𝕜 → NDArray 𝕜 → Py (NDArray 𝕜)) (x : MPA 𝕜) (site : ℤ) : Py (MPA 𝕜) := do
  let ltens ← x.site site
  let mat ← ltens.reshape [-1, (ltens.rb : ℤ)]
  let (q, r) := qr mat
  let next ← x.site (site + 1)
  let t1 ← q.reshape (ltens.shape.dropLast.map (fun n : ℕ => (n : ℤ)) ++ [-1])
  let t2 ← md r next
  x.updateSlice (some site) (some (site + 2)) none [t1, t2] (.seq [some .left, none])

/-- `_rcanonicalize` (mparray.py:673-691) with the function `md` for `matdot`. -/
def rcanonicalizeF (qr : QR 𝕜) (md : NDArray 𝕜 → NDArray 𝕜 → Py (NDArray 𝕜)) (x : MPA 𝕜) (toSite : ℤ) : Py (MPA 𝕜) := do
  pyAssert (0 ≤ toSite ∧ toSite < x.len)
  (pyRange x.l toSite 1).foldlM (rcanonStepF qr md) x

/-- Body of the loop of `_lcanonicalize` (mparray.py:703-711) with the function `md` for `matdot`. -/
def lcanonStepF (qr : QR 𝕜) (md : NDArray 𝕜 → NDArray 𝕜 → Py (NDArray 𝕜)) (x : MPA 𝕜) (site : ℤ) : Py (MPA 𝕜) := do
  let ltens ← x.site site
  let mat ← ltens.reshape [(ltens.lb : ℤ), -1]
  let (q, r) := qr mat.T
  let prev ← x.site (site - 1)
  let t1 ← md prev r.T
  let t2 ← q.T.reshape (-1 :: ltens.shape.tail.map (fun n : ℕ => (n : ℤ)))
  x.updateSlice (some (site - 1)) (some (site + 1)) none [t1, t2] (.seq [none, some .right])

/-- `_lcanonicalize` (mparray.py:693-711) with the function `md` for `matdot`. -/
def lcanonicalizeF (qr : QR 𝕜) (md : NDArray 𝕜 → NDArray 𝕜 → Py (NDArray 𝕜)) (x : MPA 𝕜) (toSite : ℤ) : Py (MPA 𝕜) := do
  pyAssert (0 < toSite ∧ toSite ≤ x.len)
  (pyRange (x.r - 1) (toSite - 1) (-1)).foldlM (lcanonStepF qr md) x

/-- `canonicalize(left, right)` (mparray.py:592-671) with the function `md` for `matdot`. -/
def canonicalizeF (qr : QR 𝕜) (md : NDArray 𝕜 → NDArray 𝕜 → Py (NDArray 𝕜)) (x : MPA 𝕜) (left right : CArg) :
    Py (MPA 𝕜) := do
  if left.isNone && right.isNone then
    if x.l < x.len - x.r then x.lcanonicalizeF qr md 1
    else x.rcanonicalizeF qr md (x.len - 1)
  else
    let tl := left.left x.len
    let tr := right.right x.len
    let tl := if tl < 0 then tl + x.len else tl
    let tr := if tr < 0 then tr + x.len else tr
    pyGuard (0 ≤ tl ∧ tl ≤ x.len) .index
    pyGuard (0 ≤ tr ∧ tr ≤ x.len) .index
    pyGuard (tl < tr) .value
    let y ← if x.l < tl then x.rcanonicalizeF qr md tl else .ok x
    if x.r > tr then y.lcanonicalizeF qr md tr else .ok y

/-- With the exact `matdot`, this is the model of `canonicalize`. -/
theorem canonicalizeF_matdot [AddCommMonoid 𝕜] [Mul 𝕜] (qr : QR 𝕜) (x : MPA 𝕜) (left right : CArg) :
    x.canonicalizeF qr matdot left right = x.canonicalize qr left right := rfl

end MPA

variable [RCLike 𝕜]

/-- `norm` (mparray.py:1416-1435) with the function `md` for `matdot` and `nrm` for `numpy.linalg.norm`. -/
noncomputable def normF (qr : QR 𝕜) (md : NDArray 𝕜 → NDArray 𝕜 → Py (NDArray 𝕜)) (nrm : NDArray 𝕜 → ℝ) (x : MPA 𝕜) :
    Py (ℝ × MPA 𝕜) := do
  let y ← x.canonicalizeF qr md .none .none
  if y.r = 1 then
    let t ← y.site 0
    return (nrm t, y)
  else if y.l = y.len - 1 then
    let t ← y.site (-1)
    return (nrm t, y)
  else .error .value

theorem normF_exact (qr : QR 𝕜) (x : MPA 𝕜) : normF qr matdot npNorm x = norm qr x := rfl

/-! ### contracts -/

/-- The squared 2-norm of an array. -/
noncomputable def nsq (t : NDArray 𝕜) : ℝ := sumIdx t.shape fun i => ‖t.get i‖ ^ 2

/-- Contract of a QR decomposition with relative error `ε`: for an `m × n` matrix `A`, `q` is `m × k` and `r` is `k × n` with
`k = min m n`; `‖A - q r‖ ≤ ε ‖A‖` and `‖r‖ ≤ (1 + ε) ‖A‖` (Frobenius norms); the singular values of `q` are between
`1 - ε` and `1 + ε`. -/
structure QRNear (ε : ℝ) (qr : QR 𝕜) : Prop where
  shape : ∀ (A : NDArray 𝕜) (m n : ℕ), A.shape = [m, n] →
    (qr A).1.shape = [m, min m n] ∧ (qr A).2.shape = [min m n, n]
  close : ∀ (A : NDArray 𝕜) (m n : ℕ), A.shape = [m, n] →
    ∑ i ∈ range m, ∑ j ∈ range n,
      ‖A.get [i, j] - ∑ k ∈ range (min m n), (qr A).1.get [i, k] * (qr A).2.get [k, j]‖ ^ 2 ≤ ε ^ 2 * nsq A
  size : ∀ (A : NDArray 𝕜) (m n : ℕ), A.shape = [m, n] → nsq (qr A).2 ≤ (1 + ε) ^ 2 * nsq A
  iso : ∀ (A : NDArray 𝕜) (m n : ℕ), A.shape = [m, n] → ∀ v : ℕ → 𝕜,
    (1 - ε) ^ 2 * ∑ k ∈ range (min m n), ‖v k‖ ^ 2
      ≤ ∑ i ∈ range m, ‖∑ k ∈ range (min m n), (qr A).1.get [i, k] * v k‖ ^ 2 ∧
    ∑ i ∈ range m, ‖∑ k ∈ range (min m n), (qr A).1.get [i, k] * v k‖ ^ 2
      ≤ (1 + ε) ^ 2 * ∑ k ∈ range (min m n), ‖v k‖ ^ 2

/-- Contract of a product of arrays with relative error `ε`: `‖fl(a b) - a b‖ ≤ ε ‖a‖ ‖b‖` (Frobenius norms). -/
def MdNear (ε : ℝ) (md : NDArray 𝕜 → NDArray 𝕜 → Py (NDArray 𝕜)) : Prop :=
  ∀ (a b : NDArray 𝕜) (sa sb : List ℕ) (k : ℕ), a.shape = sa ++ [k] → b.shape = k :: sb →
    ∃ c, md a b = .ok c ∧ c.shape = sa ++ sb ∧
      (sumIdx sa fun i => sumIdx sb fun j => ‖∑ x ∈ range k, a.get (i ++ [x]) * b.get (x :: j) - c.get (i ++ j)‖ ^ 2)
        ≤ ε ^ 2 * (nsq a * nsq b)

/-- The operator norm of `t`, as a map from the right bond to the other legs, is at most `c`. -/
def LOp (c : ℝ) (t : NDArray 𝕜) : Prop := ∀ v : ℕ → 𝕜,
  (∑ a ∈ range t.lb, sumIdx t.ph fun p => ‖∑ b ∈ range t.rb, t.at3 a p b * v b‖ ^ 2) ≤ c ^ 2 * ∑ b ∈ range t.rb, ‖v b‖ ^ 2

/-- The operator norm of `t`, as a map from the left bond to the other legs, is at most `c`. -/
def ROp (c : ℝ) (t : NDArray 𝕜) : Prop := ∀ v : ℕ → 𝕜,
  (sumIdx t.ph fun p => ∑ b ∈ range t.rb, ‖∑ a ∈ range t.lb, v a * t.at3 a p b‖ ^ 2) ≤ c ^ 2 * ∑ a ∈ range t.lb, ‖v a‖ ^ 2

/-- `t` is left-canonical up to `ε`: as a map from the right bond, its singular values are between `1 - ε` and `1 + ε`. -/
def LNear (ε : ℝ) (t : NDArray 𝕜) : Prop := LOp (1 + ε) t ∧ ∀ v : ℕ → 𝕜,
  (1 - ε) ^ 2 * ∑ b ∈ range t.rb, ‖v b‖ ^ 2 ≤ ∑ a ∈ range t.lb, sumIdx t.ph fun p => ‖∑ b ∈ range t.rb, t.at3 a p b * v b‖ ^ 2

/-- `t` is right-canonical up to `ε`. -/
def RNear (ε : ℝ) (t : NDArray 𝕜) : Prop := ROp (1 + ε) t ∧ ∀ v : ℕ → 𝕜,
  (1 - ε) ^ 2 * ∑ a ∈ range t.lb, ‖v a‖ ^ 2 ≤ sumIdx t.ph fun p => ∑ b ∈ range t.rb, ‖∑ a ∈ range t.lb, v a * t.at3 a p b‖ ^ 2

/-! ### sums of squares -/

theorem mink {ι : Type*} (s : Finset ι) (f g : ι → 𝕜) {x y : ℝ} (hx : 0 ≤ x) (hy : 0 ≤ y)
    (hf : ∑ i ∈ s, ‖f i‖ ^ 2 ≤ x ^ 2) (hg : ∑ i ∈ s, ‖g i‖ ^ 2 ≤ y ^ 2) : ∑ i ∈ s, ‖f i + g i‖ ^ 2 ≤ (x + y) ^ 2 := by
  have e : ∀ h : ι → 𝕜, ∑ i ∈ s, ‖h i‖ ^ 2 = ‖(WithLp.toLp 2 fun i : s => h i : EuclideanSpace 𝕜 s)‖ ^ 2 := by
    intro h
    rw [EuclideanSpace.norm_sq_eq, ← Finset.sum_coe_sort]
  rw [e] at hf hg ⊢
  have h1 := abs_le_of_sq_le_sq' hf hx
  have h2 := abs_le_of_sq_le_sq' hg hy
  have : (WithLp.toLp 2 fun i : s => f i + g i : EuclideanSpace 𝕜 s)
      = WithLp.toLp 2 (fun i : s => f i) + WithLp.toLp 2 (fun i : s => g i) := rfl
  rw [this]
  refine pow_le_pow_left₀ (norm_nonneg _) ((norm_add_le _ _).trans (add_le_add h1.2 h2.2)) 2

theorem mink4 {α β γ δ : Type*} (A : Finset α) (B : Finset β) (C : Finset γ) (D : Finset δ) (f g : α → β → γ → δ → 𝕜)
    {x y : ℝ} (hx : 0 ≤ x) (hy : 0 ≤ y) (hf : ∑ a ∈ A, ∑ b ∈ B, ∑ c ∈ C, ∑ d ∈ D, ‖f a b c d‖ ^ 2 ≤ x ^ 2)
    (hg : ∑ a ∈ A, ∑ b ∈ B, ∑ c ∈ C, ∑ d ∈ D, ‖g a b c d‖ ^ 2 ≤ y ^ 2) :
    ∑ a ∈ A, ∑ b ∈ B, ∑ c ∈ C, ∑ d ∈ D, ‖f a b c d + g a b c d‖ ^ 2 ≤ (x + y) ^ 2 := by
  have e : ∀ h : α → β → γ → δ → 𝕜, ∑ a ∈ A, ∑ b ∈ B, ∑ c ∈ C, ∑ d ∈ D, ‖h a b c d‖ ^ 2
      = ∑ p ∈ A ×ˢ B ×ˢ C ×ˢ D, ‖h p.1 p.2.1 p.2.2.1 p.2.2.2‖ ^ 2 := by
    intro h; simp only [Finset.sum_product]
  rw [e] at hf hg
  rw [e fun a b c d => f a b c d + g a b c d]
  exact mink _ _ _ hx hy hf hg

theorem mink3 {α β γ : Type*} (A : Finset α) (B : Finset β) (C : Finset γ) (f g : α → β → γ → 𝕜)
    {x y : ℝ} (hx : 0 ≤ x) (hy : 0 ≤ y) (hf : ∑ a ∈ A, ∑ b ∈ B, ∑ c ∈ C, ‖f a b c‖ ^ 2 ≤ x ^ 2)
    (hg : ∑ a ∈ A, ∑ b ∈ B, ∑ c ∈ C, ‖g a b c‖ ^ 2 ≤ y ^ 2) :
    ∑ a ∈ A, ∑ b ∈ B, ∑ c ∈ C, ‖f a b c + g a b c‖ ^ 2 ≤ (x + y) ^ 2 := by
  have e : ∀ h : α → β → γ → 𝕜, ∑ a ∈ A, ∑ b ∈ B, ∑ c ∈ C, ‖h a b c‖ ^ 2
      = ∑ p ∈ A ×ˢ B ×ˢ C, ‖h p.1 p.2.1 p.2.2‖ ^ 2 := by
    intro h; simp only [Finset.sum_product]
  rw [e] at hf hg
  rw [e fun a b c => f a b c + g a b c]
  exact mink _ _ _ hx hy hf hg

theorem cauchy_sq {ι : Type*} (s : Finset ι) (f g : ι → 𝕜) :
    ‖∑ i ∈ s, f i * g i‖ ^ 2 ≤ (∑ i ∈ s, ‖f i‖ ^ 2) * ∑ i ∈ s, ‖g i‖ ^ 2 := by
  refine (pow_le_pow_left₀ (norm_nonneg _) (norm_sum_le _ _) 2).trans ?_
  simp only [norm_mul]
  exact Finset.sum_mul_sq_le_sq_mul_sq s _ _

theorem nsq_nonneg (t : NDArray 𝕜) : 0 ≤ nsq t := by
  unfold nsq; rw [sumIdx_eq_sum]; exact Finset.sum_nonneg fun _ _ => by positivity

theorem npNorm_sq (t : NDArray 𝕜) : npNorm t ^ 2 = nsq t := Real.sq_sqrt (nsq_nonneg t)

theorem npNorm_nonneg' (t : NDArray 𝕜) : 0 ≤ npNorm t := Real.sqrt_nonneg _

theorem nsq_local {t : NDArray 𝕜} (ht : t.IsLocal) :
    nsq t = ∑ a ∈ range t.lb, sumIdx t.ph fun p => ∑ b ∈ range t.rb, ‖t.at3 a p b‖ ^ 2 := by
  unfold nsq
  rw [NDArray.shape_local ht, sumIdx_cons]
  refine Finset.sum_congr rfl fun a _ => ?_
  rw [sumIdx_append]
  rfl

/-- The Frobenius norm bounds the operator norm. -/
theorem lop_frob {t : NDArray 𝕜} (ht : t.IsLocal) : LOp (npNorm t) t := by
  intro v
  rw [npNorm_sq, nsq_local ht, Finset.sum_mul]
  refine Finset.sum_le_sum fun a _ => ?_
  rw [sumIdx_eq_sum, sumIdx_eq_sum, Finset.sum_mul]
  exact Finset.sum_le_sum fun p _ => cauchy_sq _ _ _

theorem rop_frob {t : NDArray 𝕜} (ht : t.IsLocal) : ROp (npNorm t) t := by
  intro v
  rw [npNorm_sq, nsq_local ht]
  simp only [sumIdx_eq_sum]
  have e : ∑ a ∈ range t.lb, ∑ p ∈ idxSet t.ph, ∑ b ∈ range t.rb, ‖t.at3 a p b‖ ^ 2
      = ∑ p ∈ idxSet t.ph, ∑ b ∈ range t.rb, ∑ a ∈ range t.lb, ‖t.at3 a p b‖ ^ 2 := by
    rw [Finset.sum_comm]
    exact Finset.sum_congr rfl fun p _ => Finset.sum_comm
  rw [e, Finset.sum_mul]
  refine Finset.sum_le_sum fun p _ => ?_
  rw [Finset.sum_mul]
  exact Finset.sum_le_sum fun b _ => (cauchy_sq _ _ _).trans (le_of_eq (mul_comm _ _))

theorem sum_siteSet_cons {M : Type} [AddCommMonoid M] (s : List ℕ) (ss : List (List ℕ)) (f : List (List ℕ) → M) :
    ∑ i ∈ siteSet (s :: ss), f i = ∑ p ∈ idxSet s, ∑ i ∈ siteSet ss, f (p :: i) := by
  rw [← sumSites_eq_sum, sumSites_cons, sumIdx_eq_sum]
  exact Finset.sum_congr rfl fun p _ => sumSites_eq_sum _ _

theorem sum_siteSet_append {M : Type} [AddCommMonoid M] (s t : List (List ℕ)) (f : List (List ℕ) → M) :
    ∑ i ∈ siteSet (s ++ t), f i = ∑ i ∈ siteSet s, ∑ j ∈ siteSet t, f (i ++ j) := by
  rw [← sumSites_eq_sum, sumSites_append, sumSites_eq_sum]
  exact Finset.sum_congr rfl fun p _ => sumSites_eq_sum _ _

/-- Operator norm of a chain, from the right bond. -/
theorem lop_chain {ts : List (NDArray 𝕜)} {cs : List ℝ} (h : List.Forall₂ LOp cs ts) {l m : ℕ} (hc : Chained l ts m)
    (v : ℕ → 𝕜) :
    ∑ a ∈ range l, ∑ i ∈ siteSet (physShape ts), ‖∑ b ∈ range m, mp ts i a b * v b‖ ^ 2
      ≤ cs.prod ^ 2 * ∑ b ∈ range m, ‖v b‖ ^ 2 := by
  induction h generalizing l with
  | nil =>
    rw [chained_nil] at hc
    subst hc
    simp only [siteSet, physShape, List.map_nil, Finset.sum_singleton, mp_nil, List.prod_nil, one_pow, one_mul, ite_mul, mul_ite,
      zero_mul, mul_one, mul_zero, Finset.sum_ite_eq, Finset.sum_ite_eq']
    exact le_of_eq (Finset.sum_congr rfl fun a ha => by rw [if_pos ha])
  | @cons c t cs ts ht _ ih =>
    obtain ⟨_, rfl, hc⟩ := hc
    rw [List.prod_cons, mul_pow, mul_assoc]
    refine le_trans ?_ (mul_le_mul_of_nonneg_left (ih hc) (sq_nonneg c))
    have e : ∀ a, ∑ i ∈ siteSet (physShape (t :: ts)), ‖∑ b ∈ range m, mp (t :: ts) i a b * v b‖ ^ 2
        = ∑ ps ∈ siteSet (physShape ts), sumIdx t.ph fun p =>
          ‖∑ c ∈ range t.rb, t.at3 a p c * ∑ b ∈ range m, mp ts ps c b * v b‖ ^ 2 := by
      intro a
      rw [show physShape (t :: ts) = t.ph :: physShape ts from rfl, sum_siteSet_cons, Finset.sum_comm]
      refine Finset.sum_congr rfl fun ps _ => ?_
      rw [sumIdx_eq_sum]
      refine Finset.sum_congr rfl fun p _ => ?_
      congr 2
      simp only [mp_cons, Finset.sum_mul, Finset.mul_sum]
      rw [Finset.sum_comm]
      exact Finset.sum_congr rfl fun c _ => Finset.sum_congr rfl fun b _ => by ring
    rw [Finset.sum_congr rfl fun a _ => e a, Finset.sum_comm]
    rw [Finset.sum_comm (s := range t.rb), Finset.mul_sum]
    exact Finset.sum_le_sum fun ps _ => ht fun c => ∑ b ∈ range m, mp ts ps c b * v b

/-- Operator norm of a chain, from the left bond. -/
theorem rop_chain {ts : List (NDArray 𝕜)} {cs : List ℝ} (h : List.Forall₂ ROp cs ts) {l m : ℕ} (hc : Chained l ts m)
    (v : ℕ → 𝕜) :
    ∑ i ∈ siteSet (physShape ts), ∑ b ∈ range m, ‖∑ a ∈ range l, v a * mp ts i a b‖ ^ 2
      ≤ cs.prod ^ 2 * ∑ a ∈ range l, ‖v a‖ ^ 2 := by
  induction h generalizing l v with
  | nil =>
    rw [chained_nil] at hc
    subst hc
    simp only [siteSet, physShape, List.map_nil, Finset.sum_singleton, mp_nil, List.prod_nil, one_pow, one_mul, ite_mul, mul_ite,
      zero_mul, mul_one, mul_zero, Finset.sum_ite_eq, Finset.sum_ite_eq']
    exact le_of_eq (Finset.sum_congr rfl fun a ha => by rw [if_pos ha])
  | @cons c t cs ts ht _ ih =>
    obtain ⟨_, rfl, hc⟩ := hc
    rw [List.prod_cons, mul_pow, mul_comm (c ^ 2), mul_assoc]
    refine le_trans ?_ (mul_le_mul_of_nonneg_left (ht v) (sq_nonneg _))
    rw [show physShape (t :: ts) = t.ph :: physShape ts from rfl, sum_siteSet_cons, sumIdx_eq_sum, Finset.mul_sum]
    refine Finset.sum_le_sum fun p _ => le_trans (le_of_eq ?_) (ih hc fun b => ∑ a ∈ range t.lb, v a * t.at3 a p b)
    refine Finset.sum_congr rfl fun i _ => Finset.sum_congr rfl fun b _ => ?_
    congr 2
    simp only [mp_cons, Finset.sum_mul, Finset.mul_sum]
    rw [Finset.sum_comm]
    exact Finset.sum_congr rfl fun c _ => Finset.sum_congr rfl fun b _ => by ring

/-- Distance of the tensors of two MPAs of the same shape. -/
noncomputable def MPA.dist (x y : MPA 𝕜) : ℝ := Real.sqrt (sumSites x.shape fun i => ‖x.val i - y.val i‖ ^ 2)

theorem chain_len {i : List (List ℕ)} {ts : List (NDArray 𝕜)} (h : i ∈ siteSet (physShape ts)) : i.length = ts.length := by
  have := (mem_siteSet.1 h).length_eq
  simpa [physShape] using this

/-- The change of the tensor when a pair of sites is replaced. -/
theorem pair_diff {pre post : List (NDArray 𝕜)} {t u t' u' : NDArray 𝕜} (hc : Chained 1 (pre ++ t :: u :: post) 1)
    (hc' : Chained 1 (pre ++ t' :: u' :: post) 1) (h1 : t'.lb = t.lb) (h2 : u'.rb = u.rb) {cs ds : List ℝ}
    (hcs : List.Forall₂ LOp cs pre) (hds : List.Forall₂ ROp ds post) {z : ℝ}
    (hz : ∑ a ∈ range t.lb, ∑ p ∈ idxSet t.ph, ∑ p' ∈ idxSet u.ph, ∑ b ∈ range u.rb,
      ‖∑ c ∈ range t.rb, t.at3 a p c * u.at3 c p' b - ∑ c ∈ range t'.rb, t'.at3 a p c * u'.at3 c p' b‖ ^ 2 ≤ z ^ 2) :
    (sumSites (physShape (pre ++ t :: u :: post)) fun i =>
      ‖mp (pre ++ t :: u :: post) i 0 0 - mp (pre ++ t' :: u' :: post) i 0 0‖ ^ 2) ≤ (cs.prod * ds.prod * z) ^ 2 := by
  obtain ⟨m, m1, m2⟩ := chained_append.1 hc
  obtain ⟨m', m1', m2'⟩ := chained_append.1 hc'
  have hm : m = t.lb := m2.2.1.symm
  have hm' : m' = t.lb := by rw [← h1]; exact m2'.2.1.symm
  subst hm; subst hm'
  have hpost : Chained u.rb post 1 := m2.2.2.2.2
  rw [sumSites_eq_sum, show physShape (pre ++ t :: u :: post) = physShape pre ++ (t.ph :: u.ph :: physShape post) by
    simp [physShape], sum_siteSet_append]
  set Z : ℕ → List ℕ → List ℕ → ℕ → 𝕜 := fun a p p' b =>
    ∑ c ∈ range t.rb, t.at3 a p c * u.at3 c p' b - ∑ c ∈ range t'.rb, t'.at3 a p c * u'.at3 c p' b with hZ
  have hmp : ∀ (t u : NDArray 𝕜) (p p' : List ℕ) (i : List (List ℕ)) (a : ℕ), mp (t :: u :: post) (p :: p' :: i) a 0
      = ∑ b ∈ range u.rb, (∑ c ∈ range t.rb, t.at3 a p c * u.at3 c p' b) * mp post i b 0 := by
    intro t u p p' i a
    simp only [mp_cons, Finset.mul_sum, Finset.sum_mul]
    rw [Finset.sum_comm]
    exact Finset.sum_congr rfl fun b _ => Finset.sum_congr rfl fun c _ => by ring
  have e1 : ∀ i ∈ siteSet (physShape pre), ∀ p p' i', mp (pre ++ t :: u :: post) (i ++ p :: p' :: i') 0 0
      - mp (pre ++ t' :: u' :: post) (i ++ p :: p' :: i') 0 0
      = ∑ a ∈ range t.lb, mp pre i 0 a * ∑ b ∈ range u.rb, Z a p p' b * mp post i' b 0 := by
    intro i hi p p' i'
    rw [mp_append m1 (chain_len hi) one_pos, mp_append m1' (chain_len hi) one_pos, ← Finset.sum_sub_distrib]
    refine Finset.sum_congr rfl fun a _ => ?_
    rw [← mul_sub, hmp, hmp, h2, ← Finset.sum_sub_distrib]
    congr 1
    exact Finset.sum_congr rfl fun b _ => by simp only [hZ, sub_mul]
  simp only [sum_siteSet_cons]
  rw [Finset.sum_congr rfl fun i hi => Finset.sum_congr rfl fun p _ => Finset.sum_congr rfl fun p' _ =>
    Finset.sum_congr rfl fun i' _ => by rw [e1 i hi p p' i']]
  -- first the left part
  have s1 : ∑ i ∈ siteSet (physShape pre), ∑ p ∈ idxSet t.ph, ∑ p' ∈ idxSet u.ph, ∑ i' ∈ siteSet (physShape post),
      ‖∑ a ∈ range t.lb, mp pre i 0 a * ∑ b ∈ range u.rb, Z a p p' b * mp post i' b 0‖ ^ 2
      ≤ ∑ p ∈ idxSet t.ph, ∑ p' ∈ idxSet u.ph, ∑ i' ∈ siteSet (physShape post),
        cs.prod ^ 2 * ∑ a ∈ range t.lb, ‖∑ b ∈ range u.rb, Z a p p' b * mp post i' b 0‖ ^ 2 := by
    rw [Finset.sum_comm]
    refine Finset.sum_le_sum fun p _ => ?_
    rw [Finset.sum_comm]
    refine Finset.sum_le_sum fun p' _ => ?_
    rw [Finset.sum_comm]
    refine Finset.sum_le_sum fun i' _ => ?_
    have := lop_chain hcs m1 fun a => ∑ b ∈ range u.rb, Z a p p' b * mp post i' b 0
    rwa [Finset.sum_range_one] at this
  refine s1.trans ?_
  have s2 : ∀ p p', ∑ i' ∈ siteSet (physShape post), cs.prod ^ 2 * ∑ a ∈ range t.lb, ‖∑ b ∈ range u.rb, Z a p p' b * mp post i' b 0‖ ^ 2
      ≤ cs.prod ^ 2 * (ds.prod ^ 2 * ∑ a ∈ range t.lb, ∑ b ∈ range u.rb, ‖Z a p p' b‖ ^ 2) := by
    intro p p'
    rw [← Finset.mul_sum, Finset.sum_comm]
    refine mul_le_mul_of_nonneg_left ?_ (sq_nonneg _)
    rw [Finset.mul_sum]
    refine Finset.sum_le_sum fun a _ => ?_
    have := rop_chain hds hpost fun b => Z a p p' b
    simpa only [Finset.sum_range_one] using this
  refine (Finset.sum_le_sum fun p _ => Finset.sum_le_sum fun p' _ => s2 p p').trans ?_
  simp only [← Finset.mul_sum]
  rw [mul_pow, mul_pow, mul_assoc]
  refine mul_le_mul_of_nonneg_left (mul_le_mul_of_nonneg_left (le_trans (le_of_eq ?_) hz) (sq_nonneg _)) (sq_nonneg _)
  rw [Finset.sum_comm (s := range t.lb)]
  refine Finset.sum_congr rfl fun p _ => ?_
  rw [Finset.sum_comm (s := range t.lb)]

/-- Replacing `t, u` by `t', u'` with `t' r ≈ t`, `u' ≈ r u`. -/
theorem pair_bound_left {t u t' u' : NDArray 𝕜} (htu : t.rb = u.lb) (h1 : t'.lb = t.lb) (h2 : t'.ph = t.ph) (r : ℕ → ℕ → 𝕜)
    {ρ κ e f : ℝ} (hρ : 0 ≤ ρ) (hκ : 0 ≤ κ) (he : 0 ≤ e) (hf : 0 ≤ f) (hu : ROp ρ u) (ht' : LOp κ t')
    (hE : ∑ a ∈ range t.lb, ∑ p ∈ idxSet t.ph, ∑ z ∈ range t.rb,
      ‖t.at3 a p z - ∑ c ∈ range t'.rb, t'.at3 a p c * r c z‖ ^ 2 ≤ e ^ 2)
    (hF : ∑ c ∈ range t'.rb, ∑ p ∈ idxSet u.ph, ∑ b ∈ range u.rb,
      ‖∑ z ∈ range u.lb, r c z * u.at3 z p b - u'.at3 c p b‖ ^ 2 ≤ f ^ 2) :
    ∑ a ∈ range t.lb, ∑ p ∈ idxSet t.ph, ∑ p' ∈ idxSet u.ph, ∑ b ∈ range u.rb,
      ‖∑ c ∈ range t.rb, t.at3 a p c * u.at3 c p' b - ∑ c ∈ range t'.rb, t'.at3 a p c * u'.at3 c p' b‖ ^ 2
      ≤ (ρ * e + κ * f) ^ 2 := by
  have split : ∀ a p p' b, ∑ c ∈ range t.rb, t.at3 a p c * u.at3 c p' b - ∑ c ∈ range t'.rb, t'.at3 a p c * u'.at3 c p' b
      = (∑ z ∈ range u.lb, (t.at3 a p z - ∑ c ∈ range t'.rb, t'.at3 a p c * r c z) * u.at3 z p' b)
        + ∑ c ∈ range t'.rb, t'.at3 a p c * (∑ z ∈ range u.lb, r c z * u.at3 z p' b - u'.at3 c p' b) := by
    intro a p p' b
    simp only [sub_mul, mul_sub, Finset.sum_sub_distrib, Finset.sum_mul, Finset.mul_sum, htu]
    rw [Finset.sum_comm (s := range u.lb) (t := range t'.rb)]
    have : ∑ c ∈ range t'.rb, ∑ z ∈ range u.lb, t'.at3 a p c * r c z * u.at3 z p' b
        = ∑ c ∈ range t'.rb, ∑ z ∈ range u.lb, t'.at3 a p c * (r c z * u.at3 z p' b) :=
      Finset.sum_congr rfl fun c _ => Finset.sum_congr rfl fun z _ => by ring
    rw [this]; ring
  simp only [split]
  refine mink4 _ _ _ _ _ _ (by positivity) (by positivity) ?_ ?_
  · rw [mul_pow]
    refine le_trans ?_ (mul_le_mul_of_nonneg_left hE (sq_nonneg ρ))
    rw [Finset.mul_sum]
    refine Finset.sum_le_sum fun a _ => ?_
    rw [Finset.mul_sum]
    refine Finset.sum_le_sum fun p _ => ?_
    have := hu fun z => t.at3 a p z - ∑ c ∈ range t'.rb, t'.at3 a p c * r c z
    rw [sumIdx_eq_sum] at this
    rw [htu]; exact this
  · rw [mul_pow]
    refine le_trans ?_ (mul_le_mul_of_nonneg_left hF (sq_nonneg κ))
    have e1 : ∀ g : ℕ → List ℕ → List ℕ → ℕ → ℝ, ∑ a ∈ range t.lb, ∑ p ∈ idxSet t.ph, ∑ p' ∈ idxSet u.ph, ∑ b ∈ range u.rb, g a p p' b
        = ∑ p' ∈ idxSet u.ph, ∑ b ∈ range u.rb, ∑ a ∈ range t.lb, ∑ p ∈ idxSet t.ph, g a p p' b := by
      intro g
      rw [Finset.sum_congr rfl fun a _ => Finset.sum_comm, Finset.sum_comm]
      refine Finset.sum_congr rfl fun p' _ => ?_
      rw [Finset.sum_congr rfl fun a _ => Finset.sum_comm, Finset.sum_comm]
    have e2 : ∀ g : ℕ → List ℕ → ℕ → ℝ, ∑ c ∈ range t'.rb, ∑ p ∈ idxSet u.ph, ∑ b ∈ range u.rb, g c p b
        = ∑ p ∈ idxSet u.ph, ∑ b ∈ range u.rb, ∑ c ∈ range t'.rb, g c p b := by
      intro g
      rw [Finset.sum_comm]
      exact Finset.sum_congr rfl fun p _ => Finset.sum_comm
    rw [e1, e2, Finset.mul_sum]
    refine Finset.sum_le_sum fun p' _ => ?_
    rw [Finset.mul_sum]
    refine Finset.sum_le_sum fun b _ => ?_
    have := ht' fun c => ∑ z ∈ range u.lb, r c z * u.at3 z p' b - u'.at3 c p' b
    simpa only [sumIdx_eq_sum, h1, h2] using this

/-- Replacing `t, u` by `t', u'` with `r u' ≈ u`, `t' ≈ t r`. -/
theorem pair_bound_right {t u t' u' : NDArray 𝕜} (htu : t.rb = u.lb) (htu' : t'.rb = u'.lb) (h1 : u'.rb = u.rb) (h2 : u'.ph = u.ph)
    (r : ℕ → ℕ → 𝕜) {ρ κ e f : ℝ} (hρ : 0 ≤ ρ) (hκ : 0 ≤ κ) (he : 0 ≤ e) (hf : 0 ≤ f) (ht : LOp ρ t) (hu' : ROp κ u')
    (hE : ∑ z ∈ range u.lb, ∑ p ∈ idxSet u.ph, ∑ b ∈ range u.rb,
      ‖u.at3 z p b - ∑ c ∈ range u'.lb, r z c * u'.at3 c p b‖ ^ 2 ≤ e ^ 2)
    (hF : ∑ a ∈ range t.lb, ∑ p ∈ idxSet t.ph, ∑ c ∈ range t'.rb,
      ‖∑ z ∈ range t.rb, t.at3 a p z * r z c - t'.at3 a p c‖ ^ 2 ≤ f ^ 2) :
    ∑ a ∈ range t.lb, ∑ p ∈ idxSet t.ph, ∑ p' ∈ idxSet u.ph, ∑ b ∈ range u.rb,
      ‖∑ c ∈ range t.rb, t.at3 a p c * u.at3 c p' b - ∑ c ∈ range t'.rb, t'.at3 a p c * u'.at3 c p' b‖ ^ 2
      ≤ (ρ * e + κ * f) ^ 2 := by
  have split : ∀ a p p' b, ∑ c ∈ range t.rb, t.at3 a p c * u.at3 c p' b - ∑ c ∈ range t'.rb, t'.at3 a p c * u'.at3 c p' b
      = (∑ z ∈ range t.rb, t.at3 a p z * (u.at3 z p' b - ∑ c ∈ range u'.lb, r z c * u'.at3 c p' b))
        + ∑ c ∈ range u'.lb, (∑ z ∈ range t.rb, t.at3 a p z * r z c - t'.at3 a p c) * u'.at3 c p' b := by
    intro a p p' b
    simp only [sub_mul, mul_sub, Finset.sum_sub_distrib, Finset.sum_mul, Finset.mul_sum, htu']
    rw [Finset.sum_comm (s := range t.rb) (t := range u'.lb)]
    have : ∑ c ∈ range u'.lb, ∑ z ∈ range t.rb, t.at3 a p z * (r z c * u'.at3 c p' b)
        = ∑ c ∈ range u'.lb, ∑ z ∈ range t.rb, t.at3 a p z * r z c * u'.at3 c p' b :=
      Finset.sum_congr rfl fun c _ => Finset.sum_congr rfl fun z _ => by ring
    rw [this]; ring
  simp only [split]
  refine mink4 _ _ _ _ _ _ (by positivity) (by positivity) ?_ ?_
  · rw [mul_pow]
    refine le_trans ?_ (mul_le_mul_of_nonneg_left hE (sq_nonneg ρ))
    have e1 : ∀ g : ℕ → List ℕ → List ℕ → ℕ → ℝ, ∑ a ∈ range t.lb, ∑ p ∈ idxSet t.ph, ∑ p' ∈ idxSet u.ph, ∑ b ∈ range u.rb, g a p p' b
        = ∑ p' ∈ idxSet u.ph, ∑ b ∈ range u.rb, ∑ a ∈ range t.lb, ∑ p ∈ idxSet t.ph, g a p p' b := by
      intro g
      rw [Finset.sum_congr rfl fun a _ => Finset.sum_comm, Finset.sum_comm]
      refine Finset.sum_congr rfl fun p' _ => ?_
      rw [Finset.sum_congr rfl fun a _ => Finset.sum_comm, Finset.sum_comm]
    have e2 : ∀ g : ℕ → List ℕ → ℕ → ℝ, ∑ c ∈ range u.lb, ∑ p ∈ idxSet u.ph, ∑ b ∈ range u.rb, g c p b
        = ∑ p ∈ idxSet u.ph, ∑ b ∈ range u.rb, ∑ c ∈ range u.lb, g c p b := by
      intro g
      rw [Finset.sum_comm]
      exact Finset.sum_congr rfl fun p _ => Finset.sum_comm
    rw [e1, e2, Finset.mul_sum]
    refine Finset.sum_le_sum fun p' _ => ?_
    rw [Finset.mul_sum]
    refine Finset.sum_le_sum fun b _ => ?_
    have := ht fun z => u.at3 z p' b - ∑ c ∈ range u'.lb, r z c * u'.at3 c p' b
    simpa only [sumIdx_eq_sum, htu] using this
  · rw [mul_pow]
    refine le_trans ?_ (mul_le_mul_of_nonneg_left hF (sq_nonneg κ))
    rw [Finset.mul_sum]
    refine Finset.sum_le_sum fun a _ => ?_
    rw [Finset.mul_sum]
    refine Finset.sum_le_sum fun p _ => ?_
    have := hu' fun c => ∑ z ∈ range t.rb, t.at3 a p z * r z c - t'.at3 a p c
    simpa only [sumIdx_eq_sum, h1, h2, htu'] using this

/-- Comparison with the exact product. -/
theorem MdNear.ok {ε : ℝ} {md : NDArray 𝕜 → NDArray 𝕜 → Py (NDArray 𝕜)} (h : MdNear ε md) {a b c : NDArray 𝕜} {sa sb : List ℕ}
    {k : ℕ} (ha : a.shape = sa ++ [k]) (hb : b.shape = k :: sb) (hc : matdot a b = .ok c) :
    ∃ c', md a b = .ok c' ∧ c'.shape = c.shape ∧ (sumIdx c.shape fun i => ‖c.get i - c'.get i‖ ^ 2) ≤ ε ^ 2 * (nsq a * nsq b) := by
  obtain ⟨c₀, h1, h2, h3⟩ := NDArray.matdot_ok (a := a) (b := b) ha hb
  obtain rfl : c₀ = c := Except.ok.inj (h1.symm.trans hc)
  obtain ⟨c', g1, g2, g3⟩ := h a b sa sb k ha hb
  refine ⟨c', g1, g2.trans h2.symm, le_trans (le_of_eq ?_) g3⟩
  rw [h2, sumIdx_append]
  refine sumIdx_congr fun i hi => sumIdx_congr fun j hj => ?_
  rw [h3 i j (inB_length hi) (inB_length hj)]

/-- A valid MPA without empty legs whose canonical form is true up to `ε`. -/
structure MPA.NearGood (ε : ℝ) (x : MPA 𝕜) : Prop where
  valid : x.Valid
  pos : AllPos x.lt
  canon : ∀ (n : ℕ) (t : NDArray 𝕜), x.lt[n]? = some t → ((n : ℤ) < x.l → LNear ε t) ∧ (x.r ≤ (n : ℤ) → RNear ε t)

theorem nsq_matricize {t mat : NDArray 𝕜} (ht : t.IsLocal) (hs : mat.shape = [(t.lb :: t.ph).prod, t.rb])
    (hg : ∀ i b, InB i (t.lb :: t.ph) → b < t.rb → mat.get [ravelIdx (t.lb :: t.ph) i, b] = t.get (i ++ [b])) :
    nsq mat = nsq t := by
  unfold nsq
  rw [hs, show t.shape = (t.lb :: t.ph) ++ [t.rb] by simpa using NDArray.shape_local ht, sumIdx_append, sumIdx_cons,
    ← sumIdx_ravel]
  refine sumIdx_congr fun i hi => ?_
  simp only [sumIdx_cons, sumIdx_nil]
  exact Finset.sum_congr rfl fun b hb => by rw [hg i b hi (by simpa using hb)]

theorem nsq_matricize_right {t mat : NDArray 𝕜} (ht : t.IsLocal) (hs : mat.shape = [t.lb, (t.ph ++ [t.rb]).prod])
    (hg : ∀ a j, a < t.lb → InB j (t.ph ++ [t.rb]) → mat.get [a, ravelIdx (t.ph ++ [t.rb]) j] = t.get (a :: j)) :
    nsq mat = nsq t := by
  unfold nsq
  rw [hs, NDArray.shape_local ht, sumIdx_cons, sumIdx_cons]
  refine Finset.sum_congr rfl fun a ha => ?_
  rw [sumIdx_cons]
  simp only [sumIdx_nil]
  rw [← sumIdx_ravel]
  exact sumIdx_congr fun j hj => by rw [hg a j (by simpa using ha) hj]

theorem nsq_T {a : NDArray 𝕜} {m n : ℕ} (h : a.shape = [m, n]) : nsq a.T = nsq a := by
  obtain ⟨h1, h2⟩ := T2 h
  unfold nsq
  rw [h1, h]
  simp only [sumIdx_cons, sumIdx_nil]
  rw [Finset.sum_comm]
  exact Finset.sum_congr rfl fun i _ => Finset.sum_congr rfl fun j _ => by rw [h2]

theorem chained_replace {l r : ℕ} {pre post : List (NDArray 𝕜)} {t u t' u' : NDArray 𝕜}
    (hc : Chained l (pre ++ t :: u :: post) r) (ht : t'.shape = t.lb :: (t.ph ++ [t'.rb]))
    (hu : u'.shape = t'.rb :: (u.ph ++ [u.rb])) :
    Chained l (pre ++ t' :: u' :: post) r ∧ physShape (pre ++ t' :: u' :: post) = physShape (pre ++ t :: u :: post) := by
  obtain ⟨m, c1, c2⟩ := chained_append.1 hc
  obtain ⟨_, c3, _, _, c5⟩ := c2
  constructor
  · refine chained_append.2 ⟨m, c1, NDArray.isLocal_of_shape ht, ?_, NDArray.isLocal_of_shape hu, ?_, ?_⟩
    · rw [NDArray.lb_of_shape ht]; exact c3
    · rw [NDArray.lb_of_shape hu]
    · rw [NDArray.rb_of_shape hu]; exact c5
  · simp only [physShape, List.map_append, List.map_cons, NDArray.ph_of_shape ht, NDArray.ph_of_shape hu]

namespace MPA

/-- Consequences of replacing a pair of sites. -/
theorem nearGood_pair {ε : ℝ} {x : MPA 𝕜} {pre post : List (NDArray 𝕜)} {t u t' u' : NDArray 𝕜}
    (hx : x.NearGood ε) (hlt : x.lt = pre ++ t :: u :: post)
    (ht : t'.shape = t.lb :: (t.ph ++ [t'.rb])) (hu : u'.shape = t'.rb :: (u.ph ++ [u.rb]))
    (hpos : 0 < t'.rb) {l' r' : ℤ} (h0 : 0 ≤ l') (h1 : l' < r') (h2 : r' ≤ x.len)
    (hcan : ∀ (n : ℕ) (w : NDArray 𝕜), (pre ++ t' :: u' :: post)[n]? = some w →
      ((n : ℤ) < l' → LNear ε w) ∧ (r' ≤ (n : ℤ) → RNear ε w)) :
    (⟨pre ++ t' :: u' :: post, l', r'⟩ : MPA 𝕜).NearGood ε := by
  have hch := (chained_replace (by rw [← hlt]; exact hx.valid.chain) ht hu).1
  refine ⟨⟨by simp, hch, h0, h1, by simpa [MPA.len, hlt] using h2⟩, ?_, hcan⟩
  intro w hw d hd
  have hold : ∀ w ∈ x.lt, ∀ d ∈ w.shape, 0 < d := hx.pos
  rw [hlt] at hold
  have hloc := hx.valid.chain.isLocal
  rw [hlt] at hloc
  have hts := NDArray.shape_local (hloc t (by simp))
  have hus := NDArray.shape_local (hloc u (by simp))
  simp only [List.mem_append, List.mem_cons] at hw
  rcases hw with hw | rfl | rfl | hw
  · exact hold w (by simp [hw]) d hd
  · rw [ht] at hd
    simp only [List.mem_cons, List.mem_append, List.not_mem_nil, or_false] at hd
    rcases hd with hd | hd | hd
    · exact hold t (by simp) d (by rw [hts]; simp [hd])
    · exact hold t (by simp) d (by rw [hts]; simp [hd])
    · rw [hd]; exact hpos
  · rw [hu] at hd
    simp only [List.mem_cons, List.mem_append, List.not_mem_nil, or_false] at hd
    rcases hd with hd | hd | hd
    · rw [hd]; exact hpos
    · exact hold u (by simp) d (by rw [hus]; simp [hd])
    · exact hold u (by simp) d (by rw [hus]; simp [hd])
  · exact hold w (by simp [hw]) d hd

/-- What one step of a sweep does to the pair of sites. -/
structure PairStep (ε : ℝ) (x y : MPA 𝕜) (pre post : List (NDArray 𝕜)) (t u t' u' : NDArray 𝕜) : Prop where
  old : x.lt = pre ++ t :: u :: post
  new : y.lt = pre ++ t' :: u' :: post
  good : y.NearGood ε
  shape : y.shape = x.shape
  ranks : y.RanksLe x
  lb : t'.lb = t.lb
  rb : u'.rb = u.rb

theorem PairStep.len {ε : ℝ} {x y : MPA 𝕜} {pre post : List (NDArray 𝕜)} {t u t' u' : NDArray 𝕜}
    (h : PairStep ε x y pre post t u t' u') : y.len = x.len := by
  unfold MPA.len; rw [h.old, h.new]; simp

/-- One step of left canonicalisation: the errors of the factorisation and of the product. -/
theorem rcanonStepF_parts {ε : ℝ} (hε : 0 ≤ ε) {qr : QR 𝕜} (hqr : QRNear ε qr) {md : NDArray 𝕜 → NDArray 𝕜 → Py (NDArray 𝕜)}
    (hmd : MdNear ε md) {x : MPA 𝕜} (hx : x.NearGood ε) (hlen : x.l + 1 < x.len) :
    ∃ y pre post t u t' u', ∃ f : ℕ → ℕ → 𝕜, x.rcanonStepF qr md x.l = .ok y ∧ PairStep ε x y pre post t u t' u' ∧
      (pre.length : ℤ) = x.l ∧ y.l = x.l + 1 ∧ y.r = max x.r (x.l + 2) ∧ LNear ε t' ∧
      (t.rb = u.lb ∧ t'.ph = t.ph ∧ u'.lb = t'.rb ∧ u'.ph = u.ph ∧ u'.IsLocal) ∧
      ∑ c ∈ range t'.rb, ∑ z ∈ range u.lb, ‖f c z‖ ^ 2 ≤ ((1 + ε) * npNorm t) ^ 2 ∧
      ∑ a ∈ range t.lb, ∑ p ∈ idxSet t.ph, ∑ z ∈ range t.rb,
        ‖t.at3 a p z - ∑ c ∈ range t'.rb, t'.at3 a p c * f c z‖ ^ 2 ≤ (ε * npNorm t) ^ 2 ∧
      ∑ c ∈ range t'.rb, ∑ p ∈ idxSet u.ph, ∑ b ∈ range u.rb,
        ‖∑ z ∈ range u.lb, f c z * u.at3 z p b - u'.at3 c p b‖ ^ 2 ≤ (ε * ((1 + ε) * npNorm t * npNorm u)) ^ 2 := by
  have hl0 := hx.valid.l_nonneg
  have hlr := hx.valid.l_lt_r
  obtain ⟨m, hm⟩ := Int.eq_ofNat_of_zero_le hl0
  obtain ⟨pre, t, u, post, hlt, hpl⟩ := split_at (ts := x.lt) (m := m) (by
    have : (x.len : ℤ) = x.lt.length := rfl
    omega)
  have hloc := hx.valid.chain.isLocal
  have htm : t ∈ x.lt := by rw [hlt]; simp
  have hum : u ∈ x.lt := by rw [hlt]; simp
  have htl := hloc t htm
  have hul := hloc u hum
  have hch := hx.valid.chain
  have htu : t.rb = u.lb := by
    rw [hlt] at hch
    obtain ⟨_, _, hc2⟩ := chained_append.1 hch
    exact hc2.2.2.2.1.symm
  have htrb := hx.pos.rb htm htl
  have htlb := hx.pos.lb htm htl
  have htph := hx.pos.ph htm htl
  obtain ⟨mat, e1, e2, e3⟩ := lmat_ok htl htrb
  have hmat := nsq_matricize htl e2 e3
  set M := (t.lb :: t.ph).prod with hM
  have hMpos : 0 < M := by rw [hM, List.prod_cons]; exact Nat.mul_pos htlb htph
  obtain ⟨q1, q2⟩ := hqr.shape mat _ _ e2
  have q3 := hqr.close mat _ _ e2
  have q4 := hqr.size mat _ _ e2
  have q5 := hqr.iso mat _ _ e2
  rw [hmat] at q3 q4
  set k := min M t.rb with hk
  have hkpos : 0 < k := by omega
  obtain ⟨t', f1, f2, f3⟩ := lunmat_ok (q := (qr mat).1) (l := t.lb) (P := t.ph) q1 hMpos
  obtain ⟨w, w1, w2, w3⟩ := matdot_left (m := (qr mat).2) (u := u) (k := k) hul (by rw [← htu]; exact q2)
  obtain ⟨u', g1, g2, g3⟩ := hmd.ok (sa := [k]) (sb := u.ph ++ [u.rb]) (k := u.lb) (by rw [← htu]; exact q2)
    (NDArray.shape_local hul) w1
  rw [w2] at g2 g3
  have ht'rb : t'.rb = k := NDArray.rb_of_shape f2
  have ht'lb : t'.lb = t.lb := NDArray.lb_of_shape f2
  have ht'ph : t'.ph = t.ph := NDArray.ph_of_shape f2
  have hu'lb : u'.lb = k := NDArray.lb_of_shape g2
  have hu'rb : u'.rb = u.rb := NDArray.rb_of_shape g2
  have hu'ph : u'.ph = u.ph := NDArray.ph_of_shape g2
  have hu'l : u'.IsLocal := NDArray.isLocal_of_shape g2
  have ht's : t'.shape = t.lb :: (t.ph ++ [t'.rb]) := by rw [ht'rb]; exact f2
  have hu's : u'.shape = t'.rb :: (u.ph ++ [u.rb]) := by rw [ht'rb]; exact g2
  have hch' := hch
  rw [hlt] at hch'
  obtain ⟨hc1, hc2⟩ := chained_replace hch' ht's hu's
  have hupd := update_pair_left (x := x) hlt (NDArray.isLocal_of_shape f2) hu'l ht'lb.symm
    (ht'rb.trans hu'lb.symm) hu'rb.symm (by rw [hm, hpl])
  have hat : ∀ a p c, InB (a :: p) (t.lb :: t.ph) → c < k → t'.at3 a p c = (qr mat).1.get [ravelIdx (t.lb :: t.ph) (a :: p), c] :=
    fun a p c hi hc => f3 (a :: p) c hi hc
  have hsum : ∀ g : ℕ → ℝ, ∑ i ∈ range M, g i = ∑ a ∈ range t.lb, sumIdx t.ph fun p => g (ravelIdx (t.lb :: t.ph) (a :: p)) := by
    intro g; rw [← sumIdx_ravel]; rfl
  have hiso : ∀ v : ℕ → 𝕜, (∑ a ∈ range t'.lb, sumIdx t'.ph fun p => ‖∑ b ∈ range t'.rb, t'.at3 a p b * v b‖ ^ 2)
      = ∑ i ∈ range M, ‖∑ c ∈ range k, (qr mat).1.get [i, c] * v c‖ ^ 2 := by
    intro v
    rw [ht'lb, ht'ph, ht'rb, hsum]
    refine Finset.sum_congr rfl fun a ha => sumIdx_congr fun p hp => ?_
    rw [Finset.sum_congr rfl fun c hc => by
      rw [hat a p c (inB_cons' (by simpa using ha) hp) (by simpa using hc)]]
  have hlc : LNear ε t' := by
    refine ⟨fun v => ?_, fun v => ?_⟩
    · rw [hiso, ht'rb]; exact (q5 v).2
    · rw [hiso, ht'rb]; exact (q5 v).1
  have hxlen : (x.len : ℤ) = pre.length + 2 + post.length := by
    simp [MPA.len, hlt]; ring
  have hrle := hx.valid.r_le
  refine ⟨⟨pre ++ t' :: u' :: post, pre.length + 1, max (pre.length + 2) x.r⟩, pre, post, t, u, t', u', fun c z => (qr mat).2.get [c, z], ?_,
    ⟨hlt, rfl, ?_, ?_, ?_, ht'lb, hu'rb⟩, by rw [hm, hpl], by rw [hm, hpl], by rw [hm, hpl, max_comm], hlc,
    ⟨htu, ht'ph, hu'lb.trans ht'rb.symm, hu'ph, hu'l⟩, ?_, ?_, ?_⟩
  · unfold rcanonStepF
    have hsite : x.l = (pre.length : ℤ) := by rw [hm, hpl]
    have hsite1 : x.site ((pre.length : ℤ) + 1) = .ok u := by
      have := site_ok (x := x) (pre := pre ++ [t]) (post := post) (t := u) (by simp [hlt])
      simpa using this
    have hdl : t.shape.dropLast = t.lb :: t.ph := by
      rw [NDArray.shape_local htl, ← List.cons_append, List.dropLast_concat]
    rw [hsite, site_ok (x := x) hlt, ok_bind, e1, ok_bind]
    simp only [hsite1, ok_bind, hdl]
    rw [f1, ok_bind, g1, ok_bind]
    exact hupd
  · refine nearGood_pair hx hlt ht's hu's (by omega) (by omega) (by omega) (by omega) ?_
    intro n w hw
    have hcold := hx.canon
    rcases getElem?_mid hw with ⟨h1, h2⟩ | ⟨h1, h2⟩ | ⟨h1, h2⟩ | ⟨h1, h2⟩
    · refine ⟨fun _ => (hcold n w (by rw [hlt]; exact getElem?_pre h2)).1 (by omega), fun h => ?_⟩
      exfalso; omega
    · refine ⟨fun _ => by rw [h2]; exact hlc, fun h => ?_⟩
      exfalso; omega
    · exact ⟨fun h => by exfalso; omega, fun h => by exfalso; omega⟩
    · refine ⟨fun h => by exfalso; omega, fun h => (hcold n w (by rw [hlt]; exact h2 t u)).2 (by omega)⟩
  · rw [show x.shape = physShape x.lt from rfl, hlt]; exact hc2
  · exact ranksLe_pair hlt ht'lb (by rw [hu'lb]; omega)
  · rw [ht'rb, mul_pow, npNorm_sq]
    have hR : nsq (qr mat).2 = ∑ c ∈ range k, ∑ z ∈ range u.lb, ‖(qr mat).2.get [c, z]‖ ^ 2 := by
      unfold nsq; rw [q2, ← htu]; rfl
    rw [← hR]; exact q4
  · rw [mul_pow, npNorm_sq]
    refine le_trans (le_of_eq ?_) q3
    rw [hsum]
    refine Finset.sum_congr rfl fun a ha => ?_
    rw [sumIdx_eq_sum]
    refine Finset.sum_congr rfl fun p hp => Finset.sum_congr rfl fun z hz => ?_
    have hi : InB (a :: p) (t.lb :: t.ph) := inB_cons' (by simpa using ha) (mem_idxSet.1 hp)
    rw [e3 _ _ hi (by simpa using hz), ht'rb, Finset.sum_congr rfl fun c hc => by rw [hat a p c hi (by simpa using hc)]]
    rfl
  · rw [ht'rb]
    have hT := npNorm_nonneg' t
    have hU := npNorm_nonneg' u
    have hF : ∑ c ∈ range k, ∑ p ∈ idxSet u.ph, ∑ b ∈ range u.rb,
        ‖∑ z ∈ range u.lb, (qr mat).2.get [c, z] * u.at3 z p b - u'.at3 c p b‖ ^ 2
        ≤ (ε * ((1 + ε) * npNorm t * npNorm u)) ^ 2 := by
      have : (sumIdx (k :: (u.ph ++ [u.rb])) fun i => ‖w.get i - u'.get i‖ ^ 2)
          = ∑ c ∈ range k, ∑ p ∈ idxSet u.ph, ∑ b ∈ range u.rb,
            ‖∑ z ∈ range u.lb, (qr mat).2.get [c, z] * u.at3 z p b - u'.at3 c p b‖ ^ 2 := by
        rw [sumIdx_cons]
        refine Finset.sum_congr rfl fun c _ => ?_
        rw [sumIdx_append, sumIdx_eq_sum]
        refine Finset.sum_congr rfl fun p hp => ?_
        simp only [sumIdx_cons, sumIdx_nil]
        refine Finset.sum_congr rfl fun b _ => ?_
        rw [← w3 c p b (inB_length (mem_idxSet.1 hp))]
        rfl
      rw [← this]
      refine g3.trans ?_
      rw [mul_pow]
      refine mul_le_mul_of_nonneg_left ?_ (sq_nonneg ε)
      rw [mul_pow, mul_pow, npNorm_sq, npNorm_sq]
      exact mul_le_mul_of_nonneg_right q4 (nsq_nonneg u)
    exact hF

/-- One step of left canonicalisation. -/
theorem rcanonStepF_ok {ε : ℝ} (hε : 0 ≤ ε) {qr : QR 𝕜} (hqr : QRNear ε qr) {md : NDArray 𝕜 → NDArray 𝕜 → Py (NDArray 𝕜)}
    (hmd : MdNear ε md) {x : MPA 𝕜} (hx : x.NearGood ε) (hlen : x.l + 1 < x.len) :
    ∃ y pre post t u t' u', x.rcanonStepF qr md x.l = .ok y ∧ PairStep ε x y pre post t u t' u' ∧
      (pre.length : ℤ) = x.l ∧ y.l = x.l + 1 ∧ y.r = max x.r (x.l + 2) ∧ LNear ε t' ∧
      ∀ ρ s, 0 ≤ ρ → 0 ≤ s → ROp ρ u → npNorm u ≤ s * ρ →
        npNorm u' ≤ (1 + ε) * (1 + ε * s) * (ρ * npNorm t) ∧
        ∑ a ∈ range t.lb, ∑ p ∈ idxSet t.ph, ∑ p' ∈ idxSet u.ph, ∑ b ∈ range u.rb,
          ‖∑ c ∈ range t.rb, t.at3 a p c * u.at3 c p' b - ∑ c ∈ range t'.rb, t'.at3 a p c * u'.at3 c p' b‖ ^ 2
          ≤ (ε * (1 + (1 + ε) ^ 2 * s) * (ρ * npNorm t)) ^ 2 := by
  obtain ⟨y, pre, post, t, u, t', u', f, h1, h2, h3, h4, h5, hlc, ⟨htu, ht'ph, hu'lb, hu'ph, hu'l⟩, hR, hE, hF⟩ := rcanonStepF_parts hε hqr hmd hx hlen
  have ht'lb := h2.lb
  have hu'rb := h2.rb
  refine ⟨y, pre, post, t, u, t', u', h1, h2, h3, h4, h5, hlc, ?_⟩
  intro ρ s hρ hs hu hus
  have hT := npNorm_nonneg' t
  have hU := npNorm_nonneg' u
  constructor
  · -- the size of the new centre
    have hG : ∑ c ∈ range t'.rb, ∑ p ∈ idxSet u.ph, ∑ b ∈ range u.rb, ‖∑ z ∈ range u.lb, f c z * u.at3 z p b‖ ^ 2
        ≤ (ρ * ((1 + ε) * npNorm t)) ^ 2 := by
      rw [mul_pow]
      refine le_trans ?_ (mul_le_mul_of_nonneg_left hR (sq_nonneg ρ))
      rw [Finset.mul_sum]
      refine Finset.sum_le_sum fun c _ => ?_
      have := hu fun z => f c z
      rwa [sumIdx_eq_sum] at this
    have hF' : ∑ c ∈ range t'.rb, ∑ p ∈ idxSet u.ph, ∑ b ∈ range u.rb,
        ‖u'.at3 c p b - ∑ z ∈ range u.lb, f c z * u.at3 z p b‖ ^ 2
        ≤ (ε * ((1 + ε) * npNorm t * npNorm u)) ^ 2 := by
      simpa only [norm_sub_rev] using hF
    have := mink3 _ _ _ _ _ (by positivity) (by positivity) hG hF'
    simp only [add_sub_cancel] at this
    have h2 : nsq u' ≤ (ρ * ((1 + ε) * npNorm t) + ε * ((1 + ε) * npNorm t * npNorm u)) ^ 2 := by
      rw [nsq_local hu'l, hu'lb, hu'rb, hu'ph]
      simpa only [sumIdx_eq_sum] using this
    rw [← npNorm_sq] at h2
    have h3 := (abs_le_of_sq_le_sq' h2 (by positivity)).2
    refine h3.trans ?_
    have h4 : ε * ((1 + ε) * npNorm t * npNorm u) ≤ ε * ((1 + ε) * npNorm t * (s * ρ)) := by gcongr
    refine (add_le_add_right h4 _).trans (le_of_eq ?_)
    ring
  · refine (pair_bound_left htu ht'lb ht'ph (fun c z => f c z) (e := ε * npNorm t)
      (f := ε * ((1 + ε) * npNorm t * npNorm u)) hρ (by positivity) (by positivity) (by positivity)
      hu hlc.1 hE hF).trans ?_
    refine pow_le_pow_left₀ (by positivity) ?_ 2
    have h4 : (1 + ε) * (ε * ((1 + ε) * npNorm t * npNorm u)) ≤ (1 + ε) * (ε * ((1 + ε) * npNorm t * (s * ρ))) := by gcongr
    refine (add_le_add_right h4 _).trans (le_of_eq ?_)
    ring

/-- One step of right canonicalisation: the errors of the factorisation and of the product. -/
theorem lcanonStepF_parts {ε : ℝ} (hε : 0 ≤ ε) {qr : QR 𝕜} (hqr : QRNear ε qr) {md : NDArray 𝕜 → NDArray 𝕜 → Py (NDArray 𝕜)}
    (hmd : MdNear ε md) {x : MPA 𝕜} (hx : x.NearGood ε) (hlen : 2 ≤ x.r) :
    ∃ y pre post t u t' u', ∃ f : ℕ → ℕ → 𝕜, x.lcanonStepF qr md (x.r - 1) = .ok y ∧ PairStep ε x y pre post t u t' u' ∧
      (pre.length : ℤ) = x.r - 2 ∧ y.r = x.r - 1 ∧ y.l = min x.l (x.r - 2) ∧ RNear ε u' ∧
      (t.rb = u.lb ∧ t'.rb = u'.lb ∧ t'.ph = t.ph ∧ u'.ph = u.ph ∧ t'.IsLocal) ∧
      ∑ c ∈ range t'.rb, ∑ z ∈ range t.rb, ‖f c z‖ ^ 2 ≤ ((1 + ε) * npNorm u) ^ 2 ∧
      ∑ z ∈ range u.lb, ∑ p ∈ idxSet u.ph, ∑ b ∈ range u.rb,
        ‖u.at3 z p b - ∑ c ∈ range u'.lb, f c z * u'.at3 c p b‖ ^ 2 ≤ (ε * npNorm u) ^ 2 ∧
      ∑ a ∈ range t.lb, ∑ p ∈ idxSet t.ph, ∑ c ∈ range t'.rb,
        ‖∑ z ∈ range t.rb, t.at3 a p z * f c z - t'.at3 a p c‖ ^ 2 ≤ (ε * ((1 + ε) * npNorm u * npNorm t)) ^ 2 := by
  have hl0 := hx.valid.l_nonneg
  have hlr := hx.valid.l_lt_r
  have hrle := hx.valid.r_le
  obtain ⟨m, hm⟩ := Int.eq_ofNat_of_zero_le (show 0 ≤ x.r - 2 by omega)
  obtain ⟨pre, t, u, post, hlt, hpl⟩ := split_at (ts := x.lt) (m := m) (by
    have : (x.len : ℤ) = x.lt.length := rfl
    omega)
  have hr2 : x.r = pre.length + 2 := by rw [hpl]; omega
  have hloc := hx.valid.chain.isLocal
  have htm : t ∈ x.lt := by rw [hlt]; simp
  have hum : u ∈ x.lt := by rw [hlt]; simp
  have htl := hloc t htm
  have hul := hloc u hum
  have hch := hx.valid.chain
  have htu : t.rb = u.lb := by
    rw [hlt] at hch
    obtain ⟨_, _, hc2⟩ := chained_append.1 hch
    exact hc2.2.2.2.1.symm
  have hurb := hx.pos.rb hum hul
  have hulb := hx.pos.lb hum hul
  have huph := hx.pos.ph hum hul
  obtain ⟨mat, e1, e2, e3⟩ := rmat_ok hul hulb
  have hmat : nsq mat.T = nsq u := (nsq_T e2).trans (nsq_matricize_right hul e2 e3)
  set M := (u.ph ++ [u.rb]).prod with hM
  have hMpos : 0 < M := by rw [hM, List.prod_append]; simpa using Nat.mul_pos huph hurb
  obtain ⟨hT1, hT2⟩ := T2 e2
  obtain ⟨q1, q2⟩ := hqr.shape mat.T _ _ hT1
  have q3 := hqr.close mat.T _ _ hT1
  have q4 := hqr.size mat.T _ _ hT1
  have q5 := hqr.iso mat.T _ _ hT1
  rw [hmat] at q3 q4
  set k := min M u.lb with hk
  have hkpos : 0 < k := by omega
  obtain ⟨hQ1, hQ2⟩ := T2 q1
  obtain ⟨hR1, hR2⟩ := T2 q2
  have hR : nsq (qr mat.T).2.T = nsq (qr mat.T).2 := nsq_T q2
  obtain ⟨u', f1, f2, f3⟩ := runmat_ok (v := (qr mat.T).1.T) (r := u.rb) (P := u.ph) hQ1 hMpos
  obtain ⟨w, w1, w2, w3⟩ := matdot_right (m := (qr mat.T).2.T) (u := t) (k := k) htl (by rw [htu]; exact hR1)
  obtain ⟨t', g1, g2, g3⟩ := hmd.ok (sa := t.lb :: t.ph) (sb := [k]) (k := t.rb) (by simpa using NDArray.shape_local htl)
    (by rw [htu]; exact hR1) w1
  rw [w2] at g2 g3
  have ht'rb : t'.rb = k := NDArray.rb_of_shape g2
  have ht'lb : t'.lb = t.lb := NDArray.lb_of_shape g2
  have ht'ph : t'.ph = t.ph := NDArray.ph_of_shape g2
  have ht'l : t'.IsLocal := NDArray.isLocal_of_shape g2
  have hu'lb : u'.lb = k := NDArray.lb_of_shape f2
  have hu'rb : u'.rb = u.rb := NDArray.rb_of_shape f2
  have hu'ph : u'.ph = u.ph := NDArray.ph_of_shape f2
  have hu'l : u'.IsLocal := NDArray.isLocal_of_shape f2
  have ht's : t'.shape = t.lb :: (t.ph ++ [t'.rb]) := by rw [ht'rb]; exact g2
  have hu's : u'.shape = t'.rb :: (u.ph ++ [u.rb]) := by rw [ht'rb]; exact f2
  have hch' := hch
  rw [hlt] at hch'
  obtain ⟨hc1, hc2⟩ := chained_replace hch' ht's hu's
  have hupd := update_pair_right (x := x) hlt ht'l hu'l ht'lb.symm (ht'rb.trans hu'lb.symm) hu'rb.symm hr2.le
  have hat : ∀ c p b, c < k → InB (p ++ [b]) (u.ph ++ [u.rb]) →
      u'.at3 c p b = (qr mat.T).1.get [ravelIdx (u.ph ++ [u.rb]) (p ++ [b]), c] := by
    intro c p b hc hj
    rw [show u'.at3 c p b = u'.get (c :: (p ++ [b])) from rfl, f3 c _ hc hj, hQ2]
  have hsum : ∀ g : ℕ → ℝ, ∑ i ∈ range M, g i = sumIdx u.ph fun p => ∑ b ∈ range u.rb, g (ravelIdx (u.ph ++ [u.rb]) (p ++ [b])) := by
    intro g
    rw [← sumIdx_ravel, sumIdx_append]
    refine sumIdx_congr fun p _ => ?_
    simp only [sumIdx_cons, sumIdx_nil]
  have hiso : ∀ v : ℕ → 𝕜, (sumIdx u'.ph fun p => ∑ b ∈ range u'.rb, ‖∑ a ∈ range u'.lb, v a * u'.at3 a p b‖ ^ 2)
      = ∑ i ∈ range M, ‖∑ c ∈ range k, (qr mat.T).1.get [i, c] * v c‖ ^ 2 := by
    intro v
    rw [hu'lb, hu'ph, hu'rb, hsum]
    refine sumIdx_congr fun p hp => Finset.sum_congr rfl fun b hb => ?_
    rw [Finset.sum_congr rfl fun c hc => by
      rw [hat c p b (by simpa using hc) (inB_append hp (by simpa using hb)), mul_comm]]
  have hrc : RNear ε u' := by
    refine ⟨fun v => ?_, fun v => ?_⟩
    · rw [hiso, hu'lb]; exact (q5 v).2
    · rw [hiso, hu'lb]; exact (q5 v).1
  have hxlen : (x.len : ℤ) = pre.length + 2 + post.length := by
    simp [MPA.len, hlt]; ring
  refine ⟨⟨pre ++ t' :: u' :: post, min pre.length x.l, pre.length + 1⟩, pre, post, t, u, t', u', fun c z => (qr mat.T).2.get [c, z], ?_,
    ⟨hlt, rfl, ?_, ?_, ?_, ht'lb, hu'rb⟩, by omega, by simp only; omega, by simp only; omega, hrc,
    ⟨htu, ht'rb.trans hu'lb.symm, ht'ph, hu'ph, ht'l⟩, ?_, ?_, ?_⟩
  · unfold lcanonStepF
    have hsite : x.r - 1 = (pre.length : ℤ) + 1 := by omega
    have hsite1 : x.site ((pre.length : ℤ) + 1) = .ok u := by
      have := site_ok (x := x) (pre := pre ++ [t]) (post := post) (t := u) (by simp [hlt])
      simpa using this
    have hdl : u.shape.tail = u.ph ++ [u.rb] := by
      rw [NDArray.shape_local hul, List.tail_cons]
    rw [hsite, hsite1, ok_bind, e1, ok_bind, show (pre.length : ℤ) + 1 - 1 = pre.length by ring,
      show (pre.length : ℤ) + 1 + 1 = pre.length + 2 by ring]
    simp only [site_ok (x := x) hlt, ok_bind, hdl]
    rw [f1, g1]
    simp only [ok_bind]
    exact hupd
  · refine nearGood_pair hx hlt ht's hu's (by omega) (by omega) (by omega) (by omega) ?_
    intro n w hw
    have hcold := hx.canon
    rcases getElem?_mid hw with ⟨h1, h2⟩ | ⟨h1, h2⟩ | ⟨h1, h2⟩ | ⟨h1, h2⟩
    · refine ⟨fun _ => (hcold n w (by rw [hlt]; exact getElem?_pre h2)).1 (by omega), fun h => ?_⟩
      exfalso; omega
    · exact ⟨fun h => by exfalso; omega, fun h => by exfalso; omega⟩
    · refine ⟨fun h => by exfalso; omega, fun _ => by rw [h2]; exact hrc⟩
    · refine ⟨fun h => by exfalso; omega, fun h => (hcold n w (by rw [hlt]; exact h2 t u)).2 (by omega)⟩
  · rw [show x.shape = physShape x.lt from rfl, hlt]; exact hc2
  · exact ranksLe_pair hlt ht'lb (by rw [hu'lb]; omega)
  · rw [ht'rb, mul_pow, npNorm_sq]
    have hR' : nsq (qr mat.T).2 = ∑ c ∈ range k, ∑ z ∈ range t.rb, ‖(qr mat.T).2.get [c, z]‖ ^ 2 := by
      unfold nsq; rw [q2, htu]; rfl
    rw [← hR']; exact q4
  · have hT := npNorm_nonneg' t
    have hU := npNorm_nonneg' u
    have hE : ∑ z ∈ range u.lb, ∑ p ∈ idxSet u.ph, ∑ b ∈ range u.rb,
        ‖u.at3 z p b - ∑ c ∈ range u'.lb, (qr mat.T).2.get [c, z] * u'.at3 c p b‖ ^ 2 ≤ (ε * npNorm u) ^ 2 := by
      rw [mul_pow, npNorm_sq]
      refine le_trans (le_of_eq ?_) q3
      rw [Finset.sum_comm (s := range M)]
      refine Finset.sum_congr rfl fun z hz => ?_
      rw [hsum, sumIdx_eq_sum]
      refine Finset.sum_congr rfl fun p hp => Finset.sum_congr rfl fun b hb => ?_
      have hj : InB (p ++ [b]) (u.ph ++ [u.rb]) := inB_append (mem_idxSet.1 hp) (by simpa using hb)
      rw [hT2, e3 _ _ (by simpa using hz) hj, hu'lb,
        Finset.sum_congr rfl fun c hc => by rw [hat c p b (by simpa using hc) hj, mul_comm]]
      rfl
    exact hE
  · have hT := npNorm_nonneg' t
    have hU := npNorm_nonneg' u
    have hF : ∑ a ∈ range t.lb, ∑ p ∈ idxSet t.ph, ∑ c ∈ range k,
        ‖∑ z ∈ range t.rb, t.at3 a p z * (qr mat.T).2.get [c, z] - t'.at3 a p c‖ ^ 2
        ≤ (ε * ((1 + ε) * npNorm u * npNorm t)) ^ 2 := by
      have : (sumIdx (t.lb :: (t.ph ++ [k])) fun i => ‖w.get i - t'.get i‖ ^ 2)
          = ∑ a ∈ range t.lb, ∑ p ∈ idxSet t.ph, ∑ c ∈ range k,
            ‖∑ z ∈ range t.rb, t.at3 a p z * (qr mat.T).2.get [c, z] - t'.at3 a p c‖ ^ 2 := by
        rw [sumIdx_cons]
        refine Finset.sum_congr rfl fun a _ => ?_
        rw [sumIdx_append, sumIdx_eq_sum]
        refine Finset.sum_congr rfl fun p hp => ?_
        simp only [sumIdx_cons, sumIdx_nil]
        refine Finset.sum_congr rfl fun c _ => ?_
        have h1 := w3 a p c (inB_length (mem_idxSet.1 hp))
        simp only [hR2] at h1
        rw [← h1]
        rfl
      rw [← this]
      refine g3.trans ?_
      rw [mul_pow]
      refine mul_le_mul_of_nonneg_left ?_ (sq_nonneg ε)
      rw [mul_pow, mul_pow, npNorm_sq, npNorm_sq, mul_comm, hR]
      exact mul_le_mul_of_nonneg_right q4 (nsq_nonneg t)
    rw [ht'rb]; exact hF

/-- One step of right canonicalisation. -/
theorem lcanonStepF_ok {ε : ℝ} (hε : 0 ≤ ε) {qr : QR 𝕜} (hqr : QRNear ε qr) {md : NDArray 𝕜 → NDArray 𝕜 → Py (NDArray 𝕜)}
    (hmd : MdNear ε md) {x : MPA 𝕜} (hx : x.NearGood ε) (hlen : 2 ≤ x.r) :
    ∃ y pre post t u t' u', x.lcanonStepF qr md (x.r - 1) = .ok y ∧ PairStep ε x y pre post t u t' u' ∧
      (pre.length : ℤ) = x.r - 2 ∧ y.r = x.r - 1 ∧ y.l = min x.l (x.r - 2) ∧ RNear ε u' ∧
      ∀ ρ s, 0 ≤ ρ → 0 ≤ s → LOp ρ t → npNorm t ≤ s * ρ →
        npNorm t' ≤ (1 + ε) * (1 + ε * s) * (ρ * npNorm u) ∧
        ∑ a ∈ range t.lb, ∑ p ∈ idxSet t.ph, ∑ p' ∈ idxSet u.ph, ∑ b ∈ range u.rb,
          ‖∑ c ∈ range t.rb, t.at3 a p c * u.at3 c p' b - ∑ c ∈ range t'.rb, t'.at3 a p c * u'.at3 c p' b‖ ^ 2
          ≤ (ε * (1 + (1 + ε) ^ 2 * s) * (ρ * npNorm u)) ^ 2 := by
  obtain ⟨y, pre, post, t, u, t', u', f, h1, h2, h3, h4, h5, hrc, ⟨htu, htu', ht'ph, hu'ph, ht'l⟩, hR, hE, hF⟩ := lcanonStepF_parts hε hqr hmd hx hlen
  have ht'lb := h2.lb
  have hu'rb := h2.rb
  refine ⟨y, pre, post, t, u, t', u', h1, h2, h3, h4, h5, hrc, ?_⟩
  intro ρ s hρ hs ht hts
  have hT := npNorm_nonneg' t
  have hU := npNorm_nonneg' u
  constructor
  · -- the size of the new centre
    have hG : ∑ a ∈ range t.lb, ∑ p ∈ idxSet t.ph, ∑ c ∈ range t'.rb, ‖∑ z ∈ range t.rb, t.at3 a p z * f c z‖ ^ 2
        ≤ (ρ * ((1 + ε) * npNorm u)) ^ 2 := by
      rw [mul_pow]
      refine le_trans ?_ (mul_le_mul_of_nonneg_left hR (sq_nonneg ρ))
      rw [Finset.mul_sum]
      have : ∑ a ∈ range t.lb, ∑ p ∈ idxSet t.ph, ∑ c ∈ range t'.rb, ‖∑ z ∈ range t.rb, t.at3 a p z * f c z‖ ^ 2
          = ∑ c ∈ range t'.rb, ∑ a ∈ range t.lb, ∑ p ∈ idxSet t.ph, ‖∑ z ∈ range t.rb, t.at3 a p z * f c z‖ ^ 2 := by
        rw [Finset.sum_comm (s := range t'.rb)]
        exact Finset.sum_congr rfl fun a _ => Finset.sum_comm
      rw [this]
      refine Finset.sum_le_sum fun c _ => ?_
      have := ht fun z => f c z
      simpa only [sumIdx_eq_sum] using this
    have hF' : ∑ a ∈ range t.lb, ∑ p ∈ idxSet t.ph, ∑ c ∈ range t'.rb,
        ‖t'.at3 a p c - ∑ z ∈ range t.rb, t.at3 a p z * f c z‖ ^ 2
        ≤ (ε * ((1 + ε) * npNorm u * npNorm t)) ^ 2 := by
      simpa only [norm_sub_rev] using hF
    have := mink3 _ _ _ _ _ (by positivity) (by positivity) hG hF'
    simp only [add_sub_cancel] at this
    have h2 : nsq t' ≤ (ρ * ((1 + ε) * npNorm u) + ε * ((1 + ε) * npNorm u * npNorm t)) ^ 2 := by
      rw [nsq_local ht'l, ht'lb, ht'ph]
      simpa only [sumIdx_eq_sum] using this
    rw [← npNorm_sq] at h2
    have h3 := (abs_le_of_sq_le_sq' h2 (by positivity)).2
    refine h3.trans ?_
    have h4 : ε * ((1 + ε) * npNorm u * npNorm t) ≤ ε * ((1 + ε) * npNorm u * (s * ρ)) := by gcongr
    refine (add_le_add_right h4 _).trans (le_of_eq ?_)
    ring
  · refine (pair_bound_right htu htu' hu'rb hu'ph (fun z c => f c z) (e := ε * npNorm u)
      (f := ε * ((1 + ε) * npNorm u * npNorm t)) hρ (by positivity) (by positivity) (by positivity)
      ht hrc.1 hE hF).trans ?_
    refine pow_le_pow_left₀ (by positivity) ?_ 2
    have h4 : (1 + ε) * (ε * ((1 + ε) * npNorm u * npNorm t)) ≤ (1 + ε) * (ε * ((1 + ε) * npNorm u * (s * ρ))) := by gcongr
    refine (add_le_add_right h4 _).trans (le_of_eq ?_)
    ring

end MPA

end Mpnum
