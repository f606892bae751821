import Verif.MPStruct
import Verif.MP

/-!
# Model of the dense conversion functions of /repo/mpnum/mparray.py
-/

open Finset

namespace Mpnum

variable {R : Type}

/-- `utils.extmath.matdot(A, B)` with default axes (extmath.py:34-36): `np.tensordot` of the last
with the first axis. -/
def matdot [AddCommMonoid R] [Mul R] (a b : NDArray R) : Py (NDArray R) := a.tensordot b [-1] [0]

/-- `_ltens_to_array` (mparray.py:1906-1921).  `next` on an empty iterator raises
`StopIteration`. -/
def ltensToArray [AddCommMonoid R] [Mul R] : List (NDArray R) → Py (NDArray R)
  | [] => .error .stopIteration
  | t :: ts => ts.foldlM matdot t

/-- `MPArray.to_array` (mparray.py:259-271) -/
def MPA.toArray [AddCommMonoid R] [Mul R] (x : MPA R) : Py (NDArray R) := do
  (← ltensToArray x.lt).dropBonds

/-- The dense array `A` holds the contraction of the chain `ts`, with both outer bonds kept. -/
def Rep [Semiring R] (l : ℕ) (ts : List (NDArray R)) (r : ℕ) (A : NDArray R) : Prop :=
  A.shape = l :: ((physShape ts).flatten ++ [r]) ∧
  ∀ a < l, ∀ b < r, ∀ idx, IdxOK idx (physShape ts) → A.get (a :: (idx.flatten ++ [b])) = mp ts idx a b

theorem rep_single [CommSemiring R] {t : NDArray R} (h : t.IsLocal) : Rep t.lb [t] t.rb t := by
  refine ⟨by simpa [physShape] using NDArray.shape_local h, ?_⟩
  intro a _ b hb idx hi
  cases hi with
  | cons hp hn =>
    cases hn
    rw [mp_single hb]
    simp [NDArray.at3]

theorem rep_matdot [CommSemiring R] {l : ℕ} {xs : List (NDArray R)} {A t : NDArray R}
    (hA : Rep l xs t.lb A) (hc : Chained l xs t.lb) (ht : t.IsLocal) :
    ∃ B, matdot A t = .ok B ∧ Rep l (xs ++ [t]) t.rb B := by
  obtain ⟨hs, hg⟩ := hA
  have hs' : A.shape = (l :: (physShape xs).flatten) ++ [t.lb] := by simpa using hs
  have ht' : t.shape = t.lb :: (t.ph ++ [t.rb]) := NDArray.shape_local ht
  obtain ⟨B, hB, hBs, hBg⟩ := NDArray.matdot_ok hs' ht'
  refine ⟨B, hB, ?_, ?_⟩
  · rw [hBs]; simp [physShape]
  · intro a ha b hb idx hi
    simp only [physShape, List.map_append, List.map_cons, List.map_nil] at hi
    obtain ⟨i1, i2, rfl, h1, h2⟩ := idxOK_append_split hi
    cases h2 with
    | @cons p _ _ _ hp hn =>
      cases hn
      have e : a :: ((i1 ++ [p]).flatten ++ [b]) = (a :: i1.flatten) ++ (p ++ [b]) := by simp
      rw [e, hBg _ _ (by simp [inB_length (idxOK_flatten h1), physShape])
        (by simp [inB_length hp]), mp_concat hc (by simpa using idxOK_length h1) ha hb]
      refine Finset.sum_congr rfl fun x hx => ?_
      rw [show a :: i1.flatten ++ [x] = a :: (i1.flatten ++ [x]) by simp,
        hg a ha x (by simpa using hx) i1 h1]
      rfl

theorem rep_foldl [CommSemiring R] {l m r : ℕ} {xs ts : List (NDArray R)} {A : NDArray R}
    (hA : Rep l xs m A) (hc : Chained l xs m) (ht : Chained m ts r) :
    ∃ B, ts.foldlM matdot A = .ok B ∧ Rep l (xs ++ ts) r B := by
  induction ts generalizing xs m A with
  | nil =>
    simp only [chained_nil] at ht; subst ht
    exact ⟨A, rfl, by simpa using hA⟩
  | cons t ts ih =>
    obtain ⟨h1, h2, h3⟩ := ht
    subst h2
    obtain ⟨B, hB, hBr⟩ := rep_matdot hA hc h1
    obtain ⟨C, hC, hCr⟩ := ih hBr (chained_concat.2 ⟨hc, h1, rfl⟩) h3
    refine ⟨C, ?_, by simpa using hCr⟩
    rw [List.foldlM_cons, hB]; exact hC

/-- Contraction of a chain of local tensors. -/
theorem ltensToArray_ok [CommSemiring R] {l r : ℕ} {ts : List (NDArray R)} (h : Chained l ts r)
    (hne : ts ≠ []) : ∃ A, ltensToArray ts = .ok A ∧ Rep l ts r A := by
  cases ts with
  | nil => exact absurd rfl hne
  | cons t ts =>
    obtain ⟨h1, h2, h3⟩ := h
    subst h2
    exact rep_foldl (xs := [t]) (rep_single h1) ⟨h1, rfl, rfl⟩ h3

theorem rep_dropBonds [Semiring R] {ts : List (NDArray R)} {A : NDArray R} (h : Rep 1 ts 1 A) :
    ∃ B, A.dropBonds = .ok B ∧ B.shape = (physShape ts).flatten ∧
      ∀ idx, IdxOK idx (physShape ts) → B.get idx.flatten = entry ts idx := by
  obtain ⟨hs, hg⟩ := h
  unfold NDArray.dropBonds
  have h1 : 2 ≤ A.ndim := by simp [NDArray.ndim, hs]
  have h2 : 0 < A.shape.headD 0 := by simp [hs]
  have h3 : 0 < A.shape.getLastD 0 := by
    have := NDArray.rb_of_shape hs
    unfold NDArray.rb at this; omega
  rw [if_pos ⟨h1, h2, h3⟩]
  refine ⟨_, rfl, ?_, ?_⟩
  · simp [hs]
  · intro idx hi
    exact hg 0 (by omega) 0 (by omega) idx hi

end Mpnum
