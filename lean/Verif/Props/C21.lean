import Verif.MPArray.Prune
import Verif.Props.C15
import Verif.Props.C16

/-! # C21: prune -/

open Finset

namespace Mpnum

variable {R : Type}

/-- A tensor without any site: prune of a valid MPA. -/
theorem prune_core [CommSemiring R] {ts : List (NDArray R)} (hne : ts ≠ []) (hc : Chained 1 ts 1) :
    ∃ us, pruneLtens ts = .ok us ∧ mkMPA us = .ok ⟨us, 0, us.length⟩ ∧
      (⟨us, 0, us.length⟩ : MPA R).Valid ∧
      physShape us = pruned (physShape ts) ∧
      (us.tail.map NDArray.lb).Sublist (ts.tail.map NDArray.lb) ∧
      ∀ idx, IdxOK idx (physShape ts) → entry us (pruned idx) = entry ts idx := by
  obtain ⟨us, h1, h2, h3, h4, h5, h6⟩ := pruneLtens_ok hne hc
  exact ⟨us, h1, mkMPA_ok h2 h3, valid_mk h2 h3, h4, h5, h6⟩

/-- C21: `prune(x)` removes exactly the sites without physical legs (one site remains if there are no
legs at all); its entries are those of `x`, and its ranks are among the ranks of `x`. -/
theorem C21_prune [CommSemiring R] (x : MPA R) (hx : x.Valid) :
    ∃ y, prune x false = .ok y ∧ y.Valid ∧ y.l = 0 ∧ y.r = y.len ∧ y.shape = pruned x.shape ∧
      y.ranks.Sublist x.ranks ∧ (∀ idx, IdxOK idx x.shape → y.val (pruned idx) = x.val idx) ∧
      SameDense x y := by
  obtain ⟨us, h1, h2, h3, h4, h5, h6⟩ := prune_core hx.ne hx.chain
  refine ⟨⟨us, 0, us.length⟩, ?_, h3, rfl, rfl, h4, h5, h6, ?_⟩
  · unfold prune
    simp only [Bool.false_and, Bool.false_eq_true, if_false, ok_bind, h1]
    exact h2
  · refine sameDense_of hx h3 ?_ ?_
    · show (physShape us).flatten = _
      rw [h4, pruned_flatten]; rfl
    · intro idx hi
      exact ⟨pruned idx, by
        show IdxOK _ (physShape us); rw [h4]; exact idxOK_pruned hi, pruned_flatten _, h6 idx hi⟩

/-- Drop the indices of the sites whose legs all have size one. -/
def dropSingle (S idx : List (List ℕ)) : List (List ℕ) :=
  List.zipWith (fun s i => if s.prod = 1 then [] else i) S idx

/-- C21: `prune(x, singletons=True)` also removes the sites whose legs all have size one. -/
theorem C21_prune_singletons [CommRing R] [StarRing R] (x : MPA R) (hx : x.Valid) :
    ∃ y, prune x true = .ok y ∧ y.Valid ∧ y.l = 0 ∧ y.r = y.len ∧
      y.shape = pruned (x.shape.map fun s => if s.prod = 1 then [] else s) ∧
      y.ranks.Sublist x.ranks ∧
      ∀ idx, IdxOK idx x.shape → y.val (pruned (dropSingle x.shape idx)) = x.val idx := by
  by_cases hany : x.shape.any (fun p => p.prod == 1) = true
  · -- reshape first
    have hF : List.Forall₂ (fun (p : List ℕ) (n : List ℤ × List ℕ) => ShapeArg p.prod n.1 n.2) x.shape
        (x.shape.map fun p => (if p.prod = 1 then [] else p.map fun k : ℕ => (k : ℤ),
          if p.prod = 1 then [] else p)) := by
      rw [List.forall₂_map_right_iff, List.forall₂_same]
      intro p _
      by_cases h : p.prod = 1
      · simp only [h, if_true]; exact ⟨rfl, Or.inl rfl⟩
      · simp only [h, if_false]; exact ⟨rfl, Or.inl rfl⟩
    obtain ⟨y, h1, h2, h3, h4, h5, h6, h7, h8⟩ := C15_reshape x hx _ hF (by
      left
      intro n hn d hd
      obtain ⟨p, _, rfl⟩ := List.mem_map.1 hn
      dsimp only at hd
      split at hd
      · simp at hd
      · obtain ⟨k, _, rfl⟩ := List.mem_map.1 hd
        omega)
    rw [List.map_map] at h1 h3
    obtain ⟨us, g1, g2, g3, g4, g5, g6⟩ := prune_core h2.ne h2.chain
    refine ⟨⟨us, 0, us.length⟩, ?_, g3, rfl, rfl, ?_, ?_, ?_⟩
    · unfold prune
      rw [hany]
      simp only [Bool.and_self, if_true]
      rw [show (x.shape.map fun p => if p.prod = 1 then [] else p.map fun k : ℕ => (k : ℤ))
        = x.shape.map (Prod.fst ∘ fun p => (if p.prod = 1 then ([] : List ℤ) else
          p.map fun k : ℕ => (k : ℤ), if p.prod = 1 then ([] : List ℕ) else p)) from rfl, h1, ok_bind, g1]
      exact g2
    · show physShape us = _
      rw [g4]
      show pruned y.shape = _
      rw [h3]; rfl
    · rw [← h4]; exact g5
    · intro idx hi
      have hd : IdxOK (dropSingle x.shape idx) y.shape ∧
          SameRowMajor x.shape y.shape idx (dropSingle x.shape idx) := by
        rw [h3]
        clear * - hi
        generalize x.shape = S at hi
        induction hi with
        | nil => exact ⟨.nil, rfl⟩
        | @cons i s is S h1 _ ih =>
          obtain ⟨a, b⟩ := ih
          unfold SameRowMajor at *
          simp only [dropSingle, List.map_cons, Function.comp, List.zipWith_cons_cons] at *
          by_cases h : s.prod = 1
          · simp only [h, if_true]
            refine ⟨.cons .nil a, ?_⟩
            have : ravelIdx s i < 1 := by rw [← h]; exact ravelIdx_lt h1
            rw [b]
            congr 1
            simp only [ravelIdx]; omega
          · simp only [h, if_false]
            exact ⟨.cons h1 a, by rw [b]⟩
      rw [← h7 idx _ hi hd.1 hd.2]
      exact g6 _ hd.1
  · have hno : ∀ s ∈ x.shape, s.prod ≠ 1 := by
      intro s hs h
      apply hany
      rw [List.any_eq_true]
      exact ⟨s, hs, by simpa using h⟩
    obtain ⟨y, h1, h2, h3, h4, h5, h6, h7, _⟩ := C21_prune x hx
    refine ⟨y, ?_, h2, h3, h4, ?_, h6, ?_⟩
    · rw [← h1]
      unfold prune
      simp only [Bool.true_and, if_neg hany, Bool.false_and, Bool.false_eq_true, if_false]
    · rw [h5]
      congr 1
      conv_lhs => rw [← List.map_id x.shape]
      exact List.map_congr_left fun s hs => by simp [hno s hs]
    · intro idx hi
      rw [← h7 idx hi]
      congr 2
      clear h5 h7 hany
      generalize x.shape = S at *
      induction hi with
      | nil => rfl
      | @cons i s is S _ _ ih =>
        simp only [dropSingle, List.zipWith_cons_cons]
        rw [if_neg (hno s (by simp))]
        congr 1
        exact ih fun s hs => hno s (by simp [hs])

/-- Example: four sites with legs `()`, `(2,)`, `()`, `(1, 3)`. -/
def exGap : MPA ℤ :=
  ⟨[⟨[1, 2], fun i => match i with | [_, b] => (b : ℤ) + 1 | _ => 0⟩,
    ⟨[2, 2, 2], fun i => match i with | [a, p, b] => (a : ℤ) + 2 * p - b | _ => 0⟩,
    ⟨[2, 3], fun i => match i with | [a, b] => (a : ℤ) * b + 1 | _ => 0⟩,
    ⟨[3, 1, 3, 1], fun i => match i with | [a, _, p, _] => (a : ℤ) - p | _ => 0⟩], 0, 4⟩

theorem exGap_valid : exGap.Valid :=
  ⟨by simp [exGap], by simp [exGap, NDArray.IsLocal, NDArray.ndim, NDArray.lb, NDArray.rb],
    by simp [exGap], by simp [exGap], by simp [exGap, MPA.len]⟩

example : exGap.Valid ∧ pruned exGap.shape = [[2], [1, 3]] ∧
    pruned (exGap.shape.map fun s => if s.prod = 1 then [] else s) = [[2], [1, 3]] ∧
    exGap.val [[], [1], [], [0, 1]] ≠ 0 := ⟨exGap_valid, by decide, by decide, by decide⟩

end Mpnum
