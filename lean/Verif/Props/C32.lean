import Verif.Utils.ArrayTransforms
import Verif.Np.Lemmas

/-! # C32: leg reordering between global and local form

`bySite sites legs j` is the list of the values `j n k` (leg `k` of site `n`) grouped by site,
`byLeg sites legs j` the same values grouped by leg. -/

namespace Mpnum

variable {R : Type}

/-- The specification lists: leg `k` of site `n` is at position `n * legs + k` of the local form and at
position `k * sites + n` of the global form. -/
theorem C32_positions (sites legs : ℕ) (j : ℕ → ℕ → ℕ) (n k : ℕ) (hn : n < sites) (hk : k < legs) :
    (bySite sites legs j)[n * legs + k]? = some (j n k) ∧
    (byLeg sites legs j)[k * sites + n]? = some (j n k) ∧
    (bySite sites legs j).length = sites * legs ∧ (byLeg sites legs j).length = sites * legs :=
  ⟨grid_getElem? j hn hk, grid_getElem? (fun k n => j n k) hk hn, grid_length sites legs j,
    (grid_length legs sites _).trans (Nat.mul_comm _ _)⟩

/-- C32: `global_to_local` moves leg `k` of site `n` from position `k * sites + n` to position
`n * legs + k`, for the shape and for the entries; the skipped axes `L`, `P` stay. -/
theorem C32_global_to_local (a : NDArray R) (sites legs : ℕ) (hs : 0 < sites) (L P : List ℕ)
    (d : ℕ → ℕ → ℕ) (ha : a.shape = L ++ byLeg sites legs d ++ P) :
    ∃ b, globalToLocal a sites L.length P.length = .ok b ∧
      b.shape = L ++ bySite sites legs d ++ P ∧
      ∀ (l : List ℕ) (j : ℕ → ℕ → ℕ) (r : List ℕ), l.length = L.length → r.length = P.length →
        b.get (l ++ bySite sites legs j ++ r) = a.get (l ++ byLeg sites legs j ++ r) :=
  globalToLocal_ok hs ha

/-- C32: `local_to_global` is the opposite movement. -/
theorem C32_local_to_global (a : NDArray R) (sites legs : ℕ) (hs : 0 < sites) (L P : List ℕ)
    (d : ℕ → ℕ → ℕ) (ha : a.shape = L ++ bySite sites legs d ++ P) :
    ∃ b, localToGlobal a sites L.length P.length = .ok b ∧
      b.shape = L ++ byLeg sites legs d ++ P ∧
      ∀ (l : List ℕ) (j : ℕ → ℕ → ℕ) (r : List ℕ), l.length = L.length → r.length = P.length →
        b.get (l ++ byLeg sites legs j ++ r) = a.get (l ++ bySite sites legs j ++ r) :=
  localToGlobal_ok hs ha

theorem eq_grid {l : List ℕ} {m n : ℕ} (h : l.length = m * n) :
    l = grid m n fun i j => l.getD (i * n + j) 0 := by
  conv_lhs => rw [← map_getD_range' h, range_grid, grid_map]

theorem split_mid {l : List ℕ} {a b c : ℕ} (h : l.length = a + b + c) :
    ∃ L M P : List ℕ, l = L ++ M ++ P ∧ L.length = a ∧ M.length = b ∧ P.length = c := by
  refine ⟨l.take a, (l.drop a).take b, (l.drop a).drop b, ?_, ?_, ?_, ?_⟩
  · rw [List.append_assoc, List.take_append_drop, List.take_append_drop]
  all_goals simp only [List.length_take, List.length_drop]; omega

/-- C32: `local_to_global(global_to_local(a))` is `a`, for every number of sites, legs and skipped
axes. -/
theorem C32_inverse_global (a : NDArray R) (sites legs left right : ℕ) (hs : 0 < sites)
    (ha : a.ndim = left + sites * legs + right) :
    ∃ b c, globalToLocal a sites left right = .ok b ∧ localToGlobal b sites left right = .ok c ∧
      c.Eqv a := by
  obtain ⟨L, M, P, hsh, rfl, hM, rfl⟩ := split_mid (l := a.shape) ha
  have hM' : M.length = legs * sites := by rw [hM, Nat.mul_comm]
  have hg := eq_grid hM'
  obtain ⟨b, h1, h2, h3⟩ := globalToLocal_ok (a := a) (plegs := legs) hs (L := L) (P := P)
    (d := fun n k => M.getD (k * sites + n) 0) (by rw [hsh]; exact congrArg (fun m => L ++ m ++ P) hg)
  obtain ⟨c, g1, g2, g3⟩ := localToGlobal_ok hs h2
  have hsc : c.shape = a.shape := by
    rw [g2, hsh]; conv_rhs => rw [hg]
    rfl
  refine ⟨b, c, h1, g1, hsc, fun idx hi => ?_⟩
  rw [hsc] at hi
  obtain ⟨l, m, r, rfl, hl, hm, hr⟩ := split_mid (l := idx) (a := L.length) (b := legs * sites)
    (c := P.length) (by rw [List.Forall₂.length_eq hi, hsh]; simp only [List.length_append, hM'])
  rw [eq_grid hm]
  have := g3 l (fun n k => m.getD (k * sites + n) 0) r hl hr
  rw [h3 l _ r hl hr] at this
  exact this

/-- C32: `global_to_local(local_to_global(a))` is `a`, for every number of sites, legs and skipped
axes. -/
theorem C32_inverse_local (a : NDArray R) (sites legs left right : ℕ) (hs : 0 < sites)
    (ha : a.ndim = left + sites * legs + right) :
    ∃ b c, localToGlobal a sites left right = .ok b ∧ globalToLocal b sites left right = .ok c ∧
      c.Eqv a := by
  obtain ⟨L, M, P, hsh, rfl, hM, rfl⟩ := split_mid (l := a.shape) ha
  have hg := eq_grid hM
  obtain ⟨b, h1, h2, h3⟩ := localToGlobal_ok (a := a) (plegs := legs) hs (L := L) (P := P)
    (d := fun n k => M.getD (n * legs + k) 0) (by rw [hsh]; exact congrArg (fun m => L ++ m ++ P) hg)
  obtain ⟨c, g1, g2, g3⟩ := globalToLocal_ok hs h2
  have hsc : c.shape = a.shape := by
    rw [g2, hsh]; conv_rhs => rw [hg]
    rfl
  refine ⟨b, c, h1, g1, hsc, fun idx hi => ?_⟩
  rw [hsc] at hi
  obtain ⟨l, m, r, rfl, hl, hm, hr⟩ := split_mid (l := idx) (a := L.length) (b := sites * legs)
    (c := P.length) (by rw [List.Forall₂.length_eq hi, hsh]; simp only [List.length_append, hM])
  rw [eq_grid hm]
  have := g3 l (fun n k => m.getD (n * legs + k) 0) r hl hr
  rw [h3 l _ r hl hr] at this
  exact this

/-- C32, error branch: the number of axes is not a multiple of the number of sites. -/
theorem C32_not_multiple (a : NDArray R) (sites left right : ℕ) (hs : 0 < sites)
    (h : ((a.ndim : ℤ) - (left + right)) % sites ≠ 0) :
    globalToLocal a sites left right = .error .assertion ∧
    localToGlobal a sites left right = .error .assertion := by
  constructor <;>
  · simp only [globalToLocal, localToGlobal, permuteLegs]
    rw [if_neg (by omega), pyAssert, if_neg h]; rfl

/-- Non-vacuity: three sites with two legs of different sizes, one axis skipped on each side. -/
example : (⟨[7, 1, 2, 3, 4, 5, 6, 8], fun i => i.sum⟩ : NDArray ℕ).shape
    = [7] ++ byLeg 3 2 (fun n k => 3 * k + n + 1) ++ [8] := rfl

end Mpnum
