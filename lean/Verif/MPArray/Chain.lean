import Verif.MPArray.Inner
import Verif.MPArray.Sum

/-!
# Model of `chain` of /repo/mpnum/mparray.py
-/

open Finset

namespace Mpnum

variable {R : Type}

/-- `chain` (mparray.py:1281-1303).  The class of the result is not part of the model. -/
def chain : List (MPA R) → Py (MPA R)
  | [] => .error .value
  | x :: xs => mkMPA (x.lt ++ xs.flatMap MPA.lt)

theorem chained_flatMap {xs : List (MPA R)} (h : ∀ x ∈ xs, x.Valid) : Chained 1 (xs.flatMap MPA.lt) 1 := by
  induction xs with
  | nil => rfl
  | cons x xs ih =>
    rw [List.flatMap_cons]
    exact chained_append.2 ⟨1, (h x (by simp)).chain, ih fun y hy => h y (by simp [hy])⟩

theorem mp_flatMap [CommSemiring R] {xs : List (MPA R)} (h : ∀ x ∈ xs, x.Valid)
    {I : List (List (List ℕ))} (hI : List.Forall₂ IdxOK I (xs.map MPA.shape)) :
    mp (xs.flatMap MPA.lt) I.flatten 0 0 = (List.zipWith (fun (x : MPA R) i => x.val i) xs I).prod := by
  induction xs generalizing I with
  | nil => cases hI; simp
  | cons x xs ih =>
    cases hI with
    | @cons i _ is _ h1 h2 =>
      rw [List.flatMap_cons, List.flatten_cons, List.zipWith_cons_cons, List.prod_cons]
      rw [mp_append (h x (by simp)).chain (by
        have := idxOK_length h1; simpa [MPA.shape] using this) one_pos]
      rw [Finset.sum_range_one, ih (fun y hy => h y (by simp [hy])) h2]
      rfl

end Mpnum
