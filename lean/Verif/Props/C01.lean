import Verif.MPArray.ToArray
import Verif.Valid

/-!
# C01: `to_array` is the matrix product formula
-/

namespace Mpnum

variable {R : Type}

/-- For every valid MPA, `to_array()` succeeds; the shape of the result is `sum(self.shape, ())`
and its entry at a physical index is the matrix product of the selected local tensors. -/
theorem C01_to_array [CommSemiring R] (x : MPA R) (hx : x.Valid) :
    ∃ A, x.toArray = .ok A ∧ A.shape = x.shape.flatten ∧
      ∀ idx, IdxOK idx x.shape → A.get idx.flatten = x.val idx := by
  obtain ⟨A, hA, hrep⟩ := ltensToArray_ok hx.chain hx.ne
  obtain ⟨B, hB, hs, hg⟩ := rep_dropBonds hrep
  refine ⟨B, ?_, hs, hg⟩
  unfold MPA.toArray
  rw [hA]; exact hB

/-- Every entry of the dense array is of the form described by `C01_to_array`. -/
theorem C01_all_entries (x : MPA R) (i : List ℕ) (h : InB i x.shape.flatten) :
    ∃ idx, i = idx.flatten ∧ IdxOK idx x.shape := idxOK_flatten_split h

/-- A partial chain (group of sites) keeps its outer bonds: `_ltens_to_array`. -/
theorem C01_ltens_to_array [CommSemiring R] {l r : ℕ} (ts : List (NDArray R)) (h : Chained l ts r)
    (hne : ts ≠ []) :
    ∃ A, ltensToArray ts = .ok A ∧ A.shape = l :: ((physShape ts).flatten ++ [r]) ∧
      ∀ a < l, ∀ b < r, ∀ idx, IdxOK idx (physShape ts) →
        A.get (a :: (idx.flatten ++ [b])) = mp ts idx a b := ltensToArray_ok h hne

/-- Example MPA over `ℤ` with two sites, bond dimension 2 and different local shapes. -/
def exMPA : MPA ℤ :=
  ⟨[⟨[1, 2, 2], fun i => match i with | [_, p, b] => (p : ℤ) + 2 * b + 1 | _ => 0⟩,
    ⟨[2, 3, 1], fun i => match i with | [a, p, _] => (a : ℤ) * p - 1 | _ => 0⟩], 0, 2⟩

theorem exMPA_valid : exMPA.Valid :=
  ⟨by simp [exMPA], by simp [exMPA, NDArray.IsLocal, NDArray.ndim, NDArray.lb, NDArray.rb],
    by simp [exMPA], by simp [exMPA], by simp [exMPA, MPA.len]⟩

/-- The hypotheses are met by a concrete MPA, and the formula gives a definite number. -/
example : exMPA.Valid ∧ IdxOK [[1], [2]] exMPA.shape ∧ exMPA.val [[1], [2]] = 2 := by
  refine ⟨exMPA_valid, ?_, by decide⟩
  simp [exMPA, MPA.shape, NDArray.ph, IdxOK, InB]

end Mpnum
