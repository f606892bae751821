import Verif.MPArray.Transpose
import Verif.Mpsmpo
import Verif.Spec

/-!
# Operations which keep the ranks

Inversion lemmas: whenever the operation succeeds, the ranks of the result are those of the operand. -/

namespace Mpnum

variable {R : Type}

theorem bind_ok_inv {α β : Type} {m : Py α} {f : α → Py β} {b : β} (h : (m >>= f) = .ok b) :
    ∃ a, m = .ok a ∧ f a = .ok b := by
  cases m with
  | error e => cases h
  | ok a => exact ⟨a, rfl, h⟩

theorem mapM_map_eq {α β : Type} {f : α → Py α} {g : α → β} (hf : ∀ t u, f t = .ok u → g u = g t) :
    ∀ {xs us : List α}, xs.mapM f = .ok us → us.map g = xs.map g
  | [], us, h => by cases h; rfl
  | x :: xs, us, h => by
    rw [List.mapM_cons] at h
    obtain ⟨u, h1, h2⟩ := bind_ok_inv h
    obtain ⟨us', h3, h4⟩ := bind_ok_inv h2
    cases h4
    rw [List.map_cons, List.map_cons, hf _ _ h1, mapM_map_eq hf h3]

theorem mkLT_lt {ts : List (NDArray R)} {l r : Option ℤ} {y : MPA R} (h : mkLT ts l r = .ok y) : y.lt = ts := by
  unfold mkLT at h
  simp only [pyAssert] at h
  split_ifs at h
  all_goals first
    | (cases h; rfl)
    | exact absurd h (by rintro ⟨⟩)

theorem mkMPA_lt {ts : List (NDArray R)} {y : MPA R} (h : mkMPA ts = .ok y) : y.lt = ts := mkLT_lt h

theorem localTranspose_lb {axes : Option (List ℤ)} {t u : NDArray R} (h : localTranspose t axes = .ok u) : u.lb = t.lb := by
  unfold localTranspose NDArray.transpose at h
  obtain ⟨perm, h1, h2⟩ := bind_ok_inv h
  split_ifs at h2
  cases h2
  rw [List.mapM_cons] at h1
  obtain ⟨p, h3, h4⟩ := bind_ok_inv h1
  obtain ⟨ps, h5, h6⟩ := bind_ok_inv h4
  cases h6
  have hp : p = 0 := by
    unfold pyIndex at h3
    split_ifs at h3 <;> first | omega | (cases h3; rfl) | exact absurd h3 (by rintro ⟨⟩)
  subst hp
  unfold NDArray.lb NDArray.transposeTo
  obtain ⟨s, g⟩ := t
  cases s <;> rfl

namespace MPA

theorem transpose_lb {x y : MPA R} {axes : Option (List ℤ)} (h : x.transpose axes = .ok y) : y.lt.map NDArray.lb = x.lt.map NDArray.lb := by
  unfold transpose at h
  obtain ⟨ts, h1, h2⟩ := bind_ok_inv h
  rw [mkLT_lt h2, mapM_map_eq (g := NDArray.lb) (fun _ _ => localTranspose_lb) h1]

theorem ranks_eq_of_lb {x y : MPA R} (h : y.lt.map NDArray.lb = x.lt.map NDArray.lb) : y.ranks = x.ranks := by
  unfold ranks
  rw [List.map_tail, List.map_tail, h]

theorem transpose_ranks {x y : MPA R} {axes : Option (List ℤ)} (h : x.transpose axes = .ok y) : y.ranks = x.ranks :=
  ranks_eq_of_lb (transpose_lb h)

theorem adj_ranks [Star R] {x y : MPA R} (h : x.adj = .ok y) : y.ranks = x.ranks := by
  unfold adj at h
  obtain ⟨ts, h1, h2⟩ := bind_ok_inv h
  refine ranks_eq_of_lb ?_
  rw [mkMPA_lt h2, List.map_map, ← mapM_map_eq (g := NDArray.lb) (fun _ _ => localTranspose_lb) h1]
  rfl

end MPA

theorem mapHeadM_tail {f : NDArray R → Py (NDArray R)} {xs us : List (NDArray R)} (h : mapHeadM f xs = .ok us) :
    us.tail = xs.tail := by
  cases xs with
  | nil => cases h
  | cons x xs =>
    obtain ⟨u, h1, h2⟩ := bind_ok_inv h
    cases h2; rfl

end Mpnum
