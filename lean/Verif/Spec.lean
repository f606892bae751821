import Verif.Np.Contract

/-!
# Specification layer

Definitions used to *state* properties.  They do not depend on the code model.

* `mp`, `entry`: the matrix product formula (equation "mpa" in the documentation of `MPArray`,
  /repo/mpnum/mparray.py:44-53): `A_{i_1..i_N} = A^[1]_{i_1} ... A^[N]_{i_N}`;
* `Chained`: neighbouring bonds fit together;
* `LCanon`, `RCanon`: left/right isometry of a local tensor
  (/repo/mpnum/_testing.py, `_assert_lcanonical`, `_assert_rcanonical`).
-/

open Finset

namespace Mpnum

variable {R : Type}

namespace NDArray

/-- Size of the left virtual leg (`lt.shape[0]`). -/
def lb (t : NDArray R) : ℕ := t.shape.headD 0

/-- Size of the right virtual leg (`lt.shape[-1]`). -/
def rb (t : NDArray R) : ℕ := t.shape.getLastD 0

/-- Sizes of the physical legs (`lt.shape[1:-1]`). -/
def ph (t : NDArray R) : List ℕ := t.shape.tail.dropLast

/-- Entry of a local tensor at left bond `a`, physical index `p`, right bond `b`. -/
def at3 (t : NDArray R) (a : ℕ) (p : List ℕ) (b : ℕ) : R := t.get (a :: (p ++ [b]))

/-- The array has the two virtual legs of a local tensor. -/
def IsLocal (t : NDArray R) : Prop := 2 ≤ t.ndim

theorem shape_local {t : NDArray R} (h : t.IsLocal) : t.shape = t.lb :: (t.ph ++ [t.rb]) := by
  unfold IsLocal ndim at h
  unfold lb ph rb
  match hs : t.shape with
  | [] => simp [hs] at h
  | [_] => simp [hs] at h
  | a :: b :: s =>
    simp only [List.headD_cons, List.tail_cons, List.cons.injEq, true_and]
    conv_lhs => rw [← List.dropLast_append_getLast (List.cons_ne_nil b s)]
    congr 2

theorem lb_of_shape {t : NDArray R} {l r : ℕ} {p : List ℕ} (h : t.shape = l :: (p ++ [r])) :
    t.lb = l := by simp [lb, h]

theorem rb_of_shape {t : NDArray R} {l r : ℕ} {p : List ℕ} (h : t.shape = l :: (p ++ [r])) :
    t.rb = r := by
  unfold rb
  rw [h, ← List.cons_append, List.getLastD_eq_getLast?, List.getLast?_concat]; rfl

theorem ph_of_shape {t : NDArray R} {l r : ℕ} {p : List ℕ} (h : t.shape = l :: (p ++ [r])) :
    t.ph = p := by simp [ph, h]

theorem isLocal_of_shape {t : NDArray R} {l r : ℕ} {p : List ℕ} (h : t.shape = l :: (p ++ [r])) :
    t.IsLocal := by simp [IsLocal, ndim, h]

end NDArray

/-- Matrix product of the local tensors at the given physical indices (one multi-index per site):
entry `(a, b)` of `A^[1]_{i_1} ... A^[N]_{i_N}`. -/
def mp [Semiring R] : List (NDArray R) → List (List ℕ) → ℕ → ℕ → R
  | t :: ts, p :: ps, a, b => ∑ c ∈ range t.rb, t.at3 a p c * mp ts ps c b
  | _, _, a, b => if a = b then 1 else 0

/-- The entry of the tensor represented by the local tensors `ts` at the physical index `idx`
(open boundary conditions: the product is a 1×1 matrix). -/
def entry [Semiring R] (ts : List (NDArray R)) (idx : List (List ℕ)) : R := mp ts idx 0 0

/-- The local tensors fit together, the first left bond is `l`, the last right bond is `r`. -/
def Chained : ℕ → List (NDArray R) → ℕ → Prop
  | l, [], r => l = r
  | l, t :: ts, r => t.IsLocal ∧ t.lb = l ∧ Chained t.rb ts r

/-- Physical shape: one list of leg sizes per site (`mpa.shape`). -/
def physShape (ts : List (NDArray R)) : List (List ℕ) := ts.map NDArray.ph

/-- `idx` has one in-range multi-index per site of physical shape `s`. -/
def IdxOK (idx s : List (List ℕ)) : Prop := List.Forall₂ InB idx s

/-- Every leg (virtual and physical) has positive size. -/
def AllPos (ts : List (NDArray R)) : Prop := ∀ t ∈ ts, ∀ d ∈ t.shape, 0 < d

/-- Sum over all physical indices of a chain with the given physical shape. -/
def sumSites [AddCommMonoid R] : List (List ℕ) → (List (List ℕ) → R) → R
  | [], f => f []
  | s :: ss, f => sumIdx s fun i => sumSites ss fun is => f (i :: is)

/-- Left-canonical local tensor: `A^† A = 1` after `A.reshape((-1, A.shape[-1]))`. -/
def LCanon [Semiring R] [StarRing R] (t : NDArray R) : Prop :=
  ∀ b < t.rb, ∀ b' < t.rb,
    (∑ a ∈ range t.lb, sumIdx t.ph fun p => star (t.at3 a p b) * t.at3 a p b')
      = if b = b' then 1 else 0

/-- Right-canonical local tensor: `A A^† = 1` after `A.reshape((A.shape[0], -1))`. -/
def RCanon [Semiring R] [StarRing R] (t : NDArray R) : Prop :=
  ∀ a < t.lb, ∀ a' < t.lb,
    (∑ b ∈ range t.rb, sumIdx t.ph fun p => t.at3 a p b * star (t.at3 a' p b))
      = if a = a' then 1 else 0

end Mpnum
