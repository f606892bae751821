import Verif.MPArray.SumCore
import Verif.Props.C01

/-!
# C05: `+` and `-`
-/

open Finset

namespace Mpnum

variable {R : Type}

section
variable [CommSemiring R]

/-- Specification of an MPA that represents the sum of weighted MPAs of shape `s`: a valid MPA of the
same shape whose entries are the sums and whose ranks are the sums of the ranks. -/
structure SumSpec (ws : List (R × MPA R)) (s : List (List ℕ)) (z : MPA R) : Prop where
  valid : z.Valid
  shape : z.shape = s
  form : z.l = 0 ∧ z.r = z.len
  ranks : ∀ k, k + 1 < s.length → z.ranks[k]? = some ((ws.map fun w => w.2.ranks.getD k 0).sum)
  val : ∀ idx, IdxOK idx s → z.val idx = (ws.map fun w => w.1 * w.2.val idx).sum

theorem sumSpec_mk {ws : List (R × MPA R)} {s : List (List ℕ)} {ts : List (NDArray R)}
    (hne : ts ≠ []) (h1 : Chained 1 ts 1) (h2 : physShape ts = s)
    (h3 : ∀ k, k + 1 < s.length → (ts.map NDArray.rb)[k]? =
      some ((ws.map fun w => w.2.ranks.getD k 0).sum))
    (h4 : ∀ idx, IdxOK idx s → entry ts idx = (ws.map fun w => w.1 * w.2.val idx).sum) :
    ∃ z, mkMPA ts = .ok z ∧ SumSpec ws s z := by
  have hl : s.length = ts.length := by rw [← h2]; simp [physShape]
  refine ⟨_, mkMPA_ok hne h1, valid_mk hne h1, h2, ⟨rfl, rfl⟩, ?_, h4⟩
  intro k hk
  rw [← h3 k hk]
  show (ts.tail.map NDArray.lb)[k]? = _
  rw [ranks_getElem h1 (by omega), List.getD_eq_getElem?_getD]
  rw [List.getElem?_eq_getElem (by simp; omega)]; rfl

/-- `x + y` for MPAs of the same shape, in the form shared with `sumup`. -/
theorem add_sumSpec (x y : MPA R) (hx : x.Valid) (hy : y.Valid) (hs : x.shape = y.shape) :
    ∃ z, x.add y = .ok z ∧ SumSpec [(1, x), (1, y)] x.shape z := by
  obtain ⟨t, ts, hxt, _⟩ := hx.cons
  obtain ⟨u, us, hyt, _⟩ := hy.cons
  have hxl : x.shape.length = x.len := by simp [MPA.shape, MPA.len]
  have hyl : x.shape.length = y.len := by rw [hs]; simp [MPA.shape, MPA.len]
  obtain ⟨hA, hB⟩ := sum_core [(1, x), (1, y)] x.shape (by simp)
    (by simp [hx, hy, hs]) [(t, ts), (u, us)]
    (.cons ⟨t, hxt, rfl, by simp⟩ (.cons ⟨u, hyt, rfl, by simp⟩ .nil))
  unfold MPA.add
  have hnx : nexts [x.lt, y.lt] = .ok [t, u] := by rw [hxt, hyt]; rfl
  rw [show pyAssert (x.len = y.len) = .ok () by simp [pyAssert, ← hxl, ← hyl], hnx]
  simp only [hxt, hyt, List.tail_cons]
  have hlen : x.len = ts.length + 1 := by simp [MPA.len, hxt]
  show ∃ z, (if x.len = 1 then _ else _) = _ ∧ _
  split
  · rename_i h1
    obtain ⟨c, h1', h2, h3, h4⟩ := hA (by omega)
    obtain ⟨z, hz, hsp⟩ := sumSpec_mk (List.cons_ne_nil c []) h2 h3 (by omega) h4
    refine ⟨z, ?_, hsp⟩
    show (pySum [t, u] >>= _) = _
    simp only [List.map_cons, List.map_nil] at h1'
    rw [h1']; exact hz
  · rename_i h1
    obtain ⟨c, cs, h1', h2, h3, h4, h5, h6⟩ := hB (x.len - 2) (by omega)
    obtain ⟨z, hz, hsp⟩ := sumSpec_mk (List.cons_ne_nil c cs) h3 h4
      (fun k hk => h5 k (by omega)) h6
    refine ⟨z, ?_, hsp⟩
    show (concatLast [t, u] >>= _) = _
    simp only [List.map_cons, List.map_nil] at h1' h2
    rw [h1']
    show (sumRest (x.len - 1) [ts, us] >>= _) = _
    rw [show x.len - 1 = x.len - 2 + 1 by omega, h2]; exact hz

/-- C05: `x + y` for MPAs of the same shape has that shape, represents the sum entry by entry, and
its ranks are the sums of the ranks. -/
theorem C05_add (x y : MPA R) (hx : x.Valid) (hy : y.Valid) (hs : x.shape = y.shape) :
    ∃ z, x.add y = .ok z ∧ z.Valid ∧ z.shape = x.shape ∧
      (∀ idx, IdxOK idx x.shape → z.val idx = x.val idx + y.val idx) ∧
      (∀ k, k + 1 < x.len → z.ranks[k]? = some (x.ranks.getD k 0 + y.ranks.getD k 0)) ∧
      z.l = 0 ∧ z.r = z.len := by
  obtain ⟨z, hz, h⟩ := add_sumSpec x y hx hy hs
  refine ⟨z, hz, h.valid, h.shape, ?_, ?_, h.form⟩
  · intro idx hi; rw [h.val idx hi]; simp
  · intro k hk
    rw [h.ranks k (by simpa [MPA.shape, MPA.len] using hk)]; simp

/-- C05, error branch: MPAs of different length cannot be added. -/
theorem C05_add_length (x y : MPA R) (h : x.len ≠ y.len) : x.add y = .error .assertion := by
  unfold MPA.add
  rw [show pyAssert (x.len = y.len) = .error .assertion by simp [pyAssert, h]]; rfl

end

/-- The hypotheses of `C05_add` are met by MPAs of different ranks: two sites, two legs, ranks 2 and 3. -/
example : ∃ x y : MPA ℤ, x.Valid ∧ y.Valid ∧ x.shape = [[2, 3], [2]] ∧ x.shape = y.shape ∧ x.ranks = [2] ∧ y.ranks = [3] := by
  let a : ℕ → NDArray ℤ := fun r => ⟨[1, 2, 3, r], fun i => (i.getD 1 0 : ℤ) + i.getD 3 0⟩
  let b : ℕ → NDArray ℤ := fun r => ⟨[r, 2, 1], fun i => (i.getD 0 0 : ℤ) - i.getD 1 0⟩
  have hv : ∀ r, (⟨[a r, b r], 0, 2⟩ : MPA ℤ).Valid := fun r =>
    valid_mk (by simp) ⟨by simp [a, NDArray.IsLocal, NDArray.ndim], rfl, by simp [b, NDArray.IsLocal, NDArray.ndim], rfl, rfl⟩
  exact ⟨_, _, hv 2, hv 3, rfl, rfl, rfl, rfl⟩

end Mpnum
