import Verif.MPArray.PadRanks
import Verif.Props.C05
import Mathlib.Data.List.MinMax

/-! # C30: pad_ranks -/

open Finset

namespace Mpnum

variable {R : Type}

/-- Specification: largest entry of a list. -/
def listMax (l : List ℕ) : ℕ := l.foldr max 0

/-- Specification: the ranks asked for: `rank` everywhere if forced, else capped by the largest rank
the cut can have (the smaller of the dimensions left and right of the cut). -/
def padTarget (shape : List (List ℕ)) (rank : ℕ) (force : Bool) : List ℕ :=
  (List.range (shape.length - 1)).map fun c =>
    if force then rank else min rank (min (shape.take (c + 1)).flatten.prod (shape.drop (c + 1)).flatten.prod)

theorem fullRank_spec (s : List (List ℕ)) : fullRank s = (List.range (s.length - 1)).map fun c =>
    min (s.take (c + 1)).flatten.prod (s.drop (c + 1)).flatten.prod := by
  unfold fullRank
  simp only [← List.map_take, ← List.map_drop, List.prod_flatten]

theorem ranks_length (x : MPA R) : x.ranks.length = x.len - 1 := by simp [MPA.ranks, MPA.len]

theorem foldl_max_eq (l : List ℕ) (a : ℕ) : l.foldl max a = max a (listMax l) := by
  induction l generalizing a with
  | nil => simp [listMax]
  | cons b l ih => rw [List.foldl_cons, ih]; simp [listMax, max_assoc]

theorem padRanks_ok [CommSemiring R] (x : MPA R) (hx : x.Valid) (rank : ℕ) (force : Bool)
    (o : Option ℕ) (ho : o = some rank ∨ (o = none ∧ x.ranks ≠ [] ∧ rank = listMax x.ranks)) :
    ∃ y, x.padRanks o force = .ok y ∧ y.Valid ∧ y.l = 0 ∧ y.r = y.len ∧ y.shape = x.shape ∧
      y.ranks = List.zipWith max x.ranks (padTarget x.shape rank force) ∧
      ∀ idx, IdxOK idx x.shape → y.val idx = x.val idx := by
  obtain ⟨ranks, hranks⟩ : ∃ ranks, ranks = (if force then x.ranks.map fun _ => rank
    else (fullRank x.shape).map fun f => min f rank) := ⟨_, rfl⟩
  have hr : ranks = padTarget x.shape rank force := by
    rw [hranks]
    unfold padTarget
    have : x.shape.length = x.len := by simp [MPA.shape, MPA.len]
    cases force
    · simp only [Bool.false_eq_true, if_false, fullRank_spec, List.map_map, Function.comp_def]
      exact List.map_congr_left fun c _ => min_comm _ _
    · simp only [if_true, List.map_const', List.length_range, ranks_length, this]
  obtain ⟨pad, hpad⟩ : ∃ pad, pad = List.zipWith (fun s b => max s b - s) x.ranks ranks := ⟨_, rfl⟩
  have hpl : pad.length = x.len - 1 := by
    rw [hpad, List.length_zipWith, ranks_length, hr]
    simp [padTarget, MPA.shape, MPA.len]
  obtain ⟨t, ts, ht⟩ := List.exists_cons_of_ne_nil hx.ne
  have hlen : x.len = ts.length + 1 := by rw [MPA.len, ht]; rfl
  have hc := hx.chain
  rw [ht] at hc
  obtain ⟨g1, g2, g3, g4⟩ := padZip_spec ts t pad 0 0 1 1 hc (by omega)
  obtain ⟨us, hus⟩ : ∃ us, us = padZip (0 :: pad) (pad ++ [0]) (t :: ts) := ⟨_, rfl⟩
  rw [← hus] at g1 g2 g3 g4
  have hne : us ≠ [] := by
    intro h0
    rw [h0] at g2
    simp [physShape] at g2
  refine ⟨⟨us, 0, us.length⟩, ?_, valid_mk hne g1, rfl, rfl, ?_, ?_, ?_⟩
  · have hmk := mkMPA_ok hne g1
    unfold MPA.padRanks
    rcases ho with rfl | ⟨rfl, h1, h2⟩
    · simp only [bind, Except.bind]
      rw [← hranks, ← hpad, ht, ← hus, hmk]
    · simp only [if_neg h1, bind, Except.bind]
      rw [foldl_max_eq, Nat.zero_max, ← h2, ← hranks, ← hpad, ht, ← hus, hmk]
  · rw [MPA.shape, MPA.shape, ht]; exact g2
  · have h5 : us.map NDArray.lb = List.zipWith (· + ·) ((t :: ts).map NDArray.lb) (0 :: pad) := g3
    have h6 : us.tail.map NDArray.lb = List.zipWith (· + ·) (ts.map NDArray.lb) pad := by
      rw [List.map_tail, h5]; rfl
    have hxr : x.ranks = ts.map NDArray.lb := by rw [MPA.ranks, ht]; rfl
    rw [MPA.ranks]
    simp only
    rw [h6, ← hxr, hpad, ← hr]
    have : ∀ s b : List ℕ, s.length = b.length →
        List.zipWith (· + ·) s (List.zipWith (fun s b => max s b - s) s b) = List.zipWith max s b := by
      intro s
      induction s with
      | nil => intro b _; cases b <;> rfl
      | cons a s ih =>
        intro b hb
        cases b with
        | nil => simp at hb
        | cons c b =>
          simp only [List.zipWith_cons_cons]
          rw [ih b (by simpa using hb)]
          congr 1
          omega
    refine this _ _ ?_
    rw [ranks_length, hr]
    simp [padTarget, MPA.shape, MPA.len]
  · intro idx hi
    have hl := idxOK_length hi
    rw [MPA.shape, ht, List.length_map] at hl
    have := g4 idx hl 0 one_pos 0 one_pos
    rw [MPA.val, MPA.val, entry, entry, ht]
    exact this

/-- C30: `pad_ranks(rank, force_rank)` keeps the tensor and yields the ranks
`max(present rank, requested rank)`. -/
theorem C30_pad_ranks [CommSemiring R] (x : MPA R) (hx : x.Valid) (rank : ℕ) (force : Bool) :
    ∃ y, x.padRanks (some rank) force = .ok y ∧ y.Valid ∧ y.l = 0 ∧ y.r = y.len ∧
      y.shape = x.shape ∧ y.ranks = List.zipWith max x.ranks (padTarget x.shape rank force) ∧
      ∀ idx, IdxOK idx x.shape → y.val idx = x.val idx :=
  padRanks_ok x hx rank force _ (.inl rfl)

/-- C30: without argument, `pad_ranks()` uses the largest present rank. -/
theorem C30_default [CommSemiring R] (x : MPA R) (hx : x.Valid) (h : 2 ≤ x.len) (force : Bool) :
    ∃ y, x.padRanks none force = .ok y ∧ y.Valid ∧ y.shape = x.shape ∧
      y.ranks = List.zipWith max x.ranks (padTarget x.shape (listMax x.ranks) force) ∧
      ∀ idx, IdxOK idx x.shape → y.val idx = x.val idx := by
  obtain ⟨y, h1, h2, _, _, h3⟩ := padRanks_ok x hx (listMax x.ranks) force none
    (.inr ⟨rfl, by
      intro h0
      have := ranks_length x
      rw [h0] at this
      simp at this
      omega, rfl⟩)
  exact ⟨y, h1, h2, h3⟩

/-- C30: unless forced, ranks which do not exceed the generic full rank do not exceed it afterwards. -/
theorem C30_full_rank [CommSemiring R] (x : MPA R) (hx : x.Valid) (rank : ℕ) (y : MPA R)
    (hy : x.padRanks (some rank) false = .ok y) (c : ℕ) (a b : ℕ) (ha : x.ranks[c]? = some a)
    (hb : y.ranks[c]? = some b) :
    b = max a (min rank (min (x.shape.take (c + 1)).flatten.prod (x.shape.drop (c + 1)).flatten.prod)) ∧
    (a ≤ min (x.shape.take (c + 1)).flatten.prod (x.shape.drop (c + 1)).flatten.prod →
      b ≤ min (x.shape.take (c + 1)).flatten.prod (x.shape.drop (c + 1)).flatten.prod) := by
  obtain ⟨y', h1, _, _, _, _, h2, _⟩ := C30_pad_ranks x hx rank false
  rw [hy] at h1; cases h1
  have hc : c < x.shape.length - 1 := by
    have := (List.getElem?_eq_some_iff.1 ha).1
    rw [ranks_length] at this
    simpa [MPA.shape, MPA.len] using this
  rw [h2, List.getElem?_zipWith, ha] at hb
  simp only [padTarget, List.getElem?_map, List.getElem?_range hc, Option.map_some,
    Bool.false_eq_true, if_false] at hb
  obtain rfl := Option.some.inj hb.symm
  refine ⟨rfl, fun h => max_le h (min_le_right _ _)⟩

/-- C30, error branch: a single site has no ranks, `pad_ranks()` without argument raises. -/
theorem C30_single_site [CommSemiring R] (x : MPA R) (h : x.len = 1) (force : Bool) :
    x.padRanks none force = .error .value := by
  have : x.ranks = [] := List.length_eq_zero_iff.1 (by rw [ranks_length, h])
  simp [MPA.padRanks, this, bind, Except.bind]

example : exMPA.Valid ∧ exMPA.ranks = [2] ∧ padTarget exMPA.shape 5 false = [2] ∧
    padTarget exMPA.shape 5 true = [5] ∧ exMPA.val [[1], [2]] ≠ 0 :=
  ⟨exMPA_valid, by decide, by decide, by decide, by decide⟩

end Mpnum
