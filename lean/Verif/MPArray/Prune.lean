import Verif.MPArray.Group
import Verif.MPArray.Reshape
import Verif.MPArray.Pick

/-!
# Model of `prune`, `partialtrace` and `trace` of /repo/mpnum/mparray.py
-/

open Finset

namespace Mpnum

variable {R : Type}

/-- The loop of `_prune_ltens` (mparray.py:1465-1492) with current tensor `last`.  A local tensor has
no physical legs if it has two legs. -/
def pruneGo [AddCommMonoid R] [Mul R] (last : NDArray R) : List (NDArray R) → Py (List (NDArray R))
  | [] => .ok [last]
  | t :: ts =>
    if t.ndim - 2 = 0 ∨ last.ndim - 2 = 0 then do
      let u ← matdot last t
      pruneGo u ts
    else do
      let us ← pruneGo t ts
      return last :: us

/-- `_prune_ltens` (mparray.py:1465-1492); `next` on an empty iterator raises `StopIteration`. -/
def pruneLtens [AddCommMonoid R] [Mul R] : List (NDArray R) → Py (List (NDArray R))
  | [] => .error .stopIteration
  | t :: ts => pruneGo t ts

/-- `prune` (mparray.py:1495-1506) -/
def prune [AddCommMonoid R] [Mul R] (x : MPA R) (singletons : Bool) : Py (MPA R) := do
  let x' ← if singletons && x.shape.any (fun p => p.prod == 1) then
      x.reshape (.list (x.shape.map fun p => if p.prod = 1 then [] else p.map fun k : ℕ => (k : ℤ)))
    else .ok x
  let us ← pruneLtens x'.lt
  mkMPA us

/-- `np.trace(a, axis1=i, axis2=j)` for valid, non-negative, different axes: the sum over the
diagonal, whose length is the smaller of the two sizes. -/
def NDArray.traceTo [AddCommMonoid R] (a : NDArray R) (i j : ℕ) : NDArray R :=
  ⟨(freeAxes a.ndim [i, j]).map fun p => a.shape.getD p 0,
   fun f => ∑ k ∈ range (min (a.shape.getD i 0) (a.shape.getD j 0)), a.get (asm a.ndim [i, j] [k, k] f)⟩

/-- `np.trace(a, axis1=i, axis2=j)`: `AxisError` for invalid axes, `ValueError` for equal axes. -/
def NDArray.trace [AddCommMonoid R] (a : NDArray R) (i j : ℤ) : Py (NDArray R) := do
  let i ← pyIndex a.ndim i
  let j ← pyIndex a.ndim j
  pyGuard (i ≠ j) .value
  return a.traceTo i j

/-- The argument `axes` of `partialtrace`: a pair of integers for all sites, or one pair or `None`
for each site.  (Tuples with other than two entries are not modelled.) -/
inductive TraceAxes
  | same (i j : ℤ)
  | each (as : List (Option (ℤ × ℤ)))

/-- mparray.py:1537-1538; `axes[0]` raises `IndexError` for an empty sequence -/
def traceSites (axes : TraceAxes) (n : ℕ) : Py (List (Option (ℤ × ℤ))) :=
  match axes with
  | .same i j => .ok (List.replicate n (some (i, j)))
  | .each [] => .error .index
  | .each as => .ok as

/-- mparray.py:1540: the axis is one of `n` physical legs. -/
def axisIn (n : ℕ) (a : ℤ) : Bool := decide (-(n : ℤ) ≤ a) && decide (a < n)

/-- mparray.py:1540-1541: the legs of one site with `n` physical legs exist. -/
def traceCheck (n : ℕ) : Option (ℤ × ℤ) → Bool
  | none => true
  | some (i, j) => axisIn n i && axisIn n j

/-- mparray.py:1542-1546: one site. -/
def traceSite [AddCommMonoid R] (t : NDArray R) : Option (ℤ × ℤ) → Py (NDArray R)
  | none => .ok t
  | some (i, j) => t.trace (adaptAxis i) (adaptAxis j)

/-- `partialtrace` (mparray.py:1509-1547) -/
def partialtrace [AddCommMonoid R] [Mul R] (x : MPA R) (axes : TraceAxes) : Py (MPA R) := do
  let axs ← traceSites axes x.len
  pyAssert ((x.ndims.zip axs).all (fun p => traceCheck p.1 p.2) = true)
  let ts ← (axs.zip x.lt).mapM fun p => traceSite p.2 p.1
  let us ← pruneLtens ts
  mkMPA us

/-- `trace` (mparray.py:1550-1566); `out[None][0]` is the same array again (a scalar if it has no
legs). -/
def trace [AddCommMonoid R] [Mul R] (x : MPA R) (axes : TraceAxes) : Py (NDArray R) := do
  let out ← partialtrace x axes
  let a ← out.toArray
  pyAssert (a.size = 1)
  return a

/-! ### specification of pruning -/

/-- What remains of a list with one entry per site when the sites without legs are removed: if there
are no legs at all, one site remains. -/
def pruned (S : List (List ℕ)) : List (List ℕ) :=
  if S.filter (· ≠ []) = [] then [[]] else S.filter (· ≠ [])

/-! ### lemmas -/

theorem pruned_cons_nil (S : List (List ℕ)) : pruned ([] :: S) = pruned S := by
  unfold pruned; simp

theorem pruned_cons_cons_nil (s : List ℕ) (S : List (List ℕ)) : pruned (s :: [] :: S) = pruned (s :: S) := by
  have : (s :: [] :: S).filter (· ≠ []) = (s :: S).filter (· ≠ []) := by
    by_cases h : s = [] <;> simp [h]
  unfold pruned; rw [this]

theorem pruned_flatten (S : List (List ℕ)) : (pruned S).flatten = S.flatten := by
  have : ∀ S : List (List ℕ), (S.filter (· ≠ [])).flatten = S.flatten := by
    intro S
    induction S with
    | nil => rfl
    | cons s S ih =>
      rw [List.filter_cons]
      split
      · rw [List.flatten_cons, List.flatten_cons, ih]
      · rename_i h
        have : s = [] := by simpa using h
        rw [this, ih]; rfl
  unfold pruned
  split
  · rename_i h
    rw [← this S, h]; rfl
  · exact this S

theorem idxOK_pruned {idx S : List (List ℕ)} (h : IdxOK idx S) : IdxOK (pruned idx) (pruned S) := by
  have hf : IdxOK (idx.filter (· ≠ [])) (S.filter (· ≠ [])) := by
    induction h with
    | nil => exact .nil
    | @cons i s is S h1 h2 ih =>
      cases h1 with
      | nil => simpa using ih
      | cons h3 h4 =>
        rw [List.filter_cons, List.filter_cons]
        exact .cons (.cons h3 h4) ih
  unfold pruned
  by_cases h0 : S.filter (· ≠ []) = []
  · rw [h0] at hf ⊢
    cases hf' : idx.filter (· ≠ []) with
    | nil => simp
    | cons a as => rw [hf'] at hf; cases hf
  · rw [if_neg h0, if_neg]
    · exact hf
    · intro h; rw [h] at hf
      cases hS : S.filter (· ≠ []) with
      | nil => exact h0 hS
      | cons a as => rw [hS] at hf; cases hf

theorem idxOK_flatten_inj {i j S : List (List ℕ)} (hi : IdxOK i S) (hj : IdxOK j S)
    (h : i.flatten = j.flatten) : i = j := by
  induction S generalizing i j with
  | nil => cases hi; cases hj; rfl
  | cons s S ih =>
    cases hi with
    | cons h1 h2 => cases hj with
      | cons h3 h4 =>
        rw [List.flatten_cons, List.flatten_cons] at h
        obtain ⟨e1, e2⟩ := List.append_inj h (by rw [inB_length h1, inB_length h3])
        rw [e1, ih h2 h4 e2]

theorem idxOK_group {G : List (List (NDArray R))} {idx : List (List ℕ)}
    (h : IdxOK idx (physShape G.flatten)) :
    ∃ I : List (List (List ℕ)), I.flatten = idx ∧ List.Forall₂ IdxOK I (G.map physShape) := by
  induction G generalizing idx with
  | nil => cases h; exact ⟨[], rfl, .nil⟩
  | cons g G ih =>
    rw [List.flatten_cons, physShape, List.map_append] at h
    obtain ⟨i1, i2, rfl, h1, h2⟩ := idxOK_append_split h
    obtain ⟨I, rfl, hI⟩ := ih h2
    exact ⟨i1 :: I, rfl, .cons h1 hI⟩

section
variable [CommSemiring R]

theorem merged_single {t : NDArray R} (h : t.IsLocal) : Merged [t] t :=
  ⟨h, ⟨h, rfl, rfl⟩, rep_single h⟩

theorem merged_matdot {g : List (NDArray R)} {last t : NDArray R} (h : Merged g last) (ht : t.IsLocal)
    (hb : last.rb = t.lb) :
    ∃ u, matdot last t = .ok u ∧ Merged (g ++ [t]) u ∧ u.lb = last.lb ∧ u.rb = t.rb := by
  have h1 := h.chain
  have h2 := h.rep
  rw [hb] at h1 h2
  obtain ⟨u, e1, e2⟩ := rep_matdot h2 h1 ht
  have hlb := NDArray.lb_of_shape e2.1
  have hrb := NDArray.rb_of_shape e2.1
  refine ⟨u, e1, ⟨NDArray.isLocal_of_shape e2.1, ?_, ?_⟩, hlb, hrb⟩
  · rw [hlb, hrb]; exact chained_append.2 ⟨_, h1, ⟨ht, rfl, rfl⟩⟩
  · rw [hlb, hrb]; exact e2

theorem pruneGo_ok {ts : List (NDArray R)} {last : NDArray R} {g : List (NDArray R)} {r : ℕ}
    (hm : Merged g last) (hc : Chained last.rb ts r) :
    ∃ us G, pruneGo last ts = .ok us ∧ us ≠ [] ∧ Chained last.lb us r ∧ List.Forall₂ Merged G us ∧
      G.flatten = g ++ ts ∧ physShape us = pruned (last.ph :: physShape ts) ∧
      (us.tail.map NDArray.lb).Sublist (ts.map NDArray.lb) := by
  induction ts generalizing last g with
  | nil =>
    refine ⟨[last], [g], rfl, by simp, ⟨hm.loc, rfl, by simpa using hc⟩, .cons hm .nil, by simp, ?_, by simp⟩
    unfold pruned physShape
    by_cases h : last.ph = [] <;> simp [h]
  | cons t ts ih =>
    obtain ⟨c1, c2, c3⟩ := hc
    have hnt := ndim_ph c1
    have hnl := ndim_ph hm.loc
    unfold pruneGo
    by_cases h0 : t.ndim - 2 = 0 ∨ last.ndim - 2 = 0
    · rw [if_pos h0]
      obtain ⟨u, e1, e2, e3, e4⟩ := merged_matdot hm c1 c2.symm
      obtain ⟨us, G, i1, i2, i3, i4, i5, i6, i7⟩ := ih e2 (e4 ▸ c3)
      refine ⟨us, G, by rw [e1]; exact i1, i2, e3 ▸ i3, i4, by rw [i5]; simp, ?_, ?_⟩
      · rw [i6, e2.ph]
        simp only [physShape, List.map_append, List.map_cons, List.map_nil, List.flatten_append,
          List.flatten_cons, List.flatten_nil, List.append_nil]
        rw [show (g.map NDArray.ph).flatten = last.ph from hm.ph.symm]
        rcases h0 with h0 | h0
        · have : t.ph = [] := List.length_eq_zero_iff.1 (by omega)
          rw [this, pruned_cons_cons_nil]; simp
        · have : last.ph = [] := List.length_eq_zero_iff.1 (by omega)
          rw [this, pruned_cons_nil]; simp
      · exact i7.trans (List.sublist_cons_self _ _)
    · rw [if_neg h0]
      push Not at h0
      obtain ⟨us, G, i1, i2, i3, i4, i5, i6, i7⟩ := ih (merged_single c1) c3
      have hl : last.ph ≠ [] := by intro h; rw [h] at hnl; simp at hnl; omega
      have ht : t.ph ≠ [] := by intro h; rw [h] at hnt; simp at hnt; omega
      refine ⟨last :: us, g :: G, by rw [i1]; rfl, by simp, ⟨hm.loc, rfl, c2 ▸ i3⟩, .cons hm i4,
        by rw [List.flatten_cons, i5]; simp, ?_, ?_⟩
      · have hp : pruned (t.ph :: physShape ts) = (t.ph :: physShape ts).filter (· ≠ []) := by
          unfold pruned; rw [if_neg]; simp [ht]
        simp only [physShape, List.map_cons] at i6 hp ⊢
        rw [i6, hp]
        unfold pruned
        rw [if_neg (by simp [hl]), List.filter_cons (x := last.ph), if_pos (by simpa using hl)]
      · obtain ⟨v, vs, rfl⟩ := List.exists_cons_of_ne_nil i2
        have : v.lb = t.lb := i3.2.1
        simp only [List.tail_cons, List.map_cons, this] at i7 ⊢
        exact i7.cons_cons _

/-- Pruning keeps the tensor. -/
theorem pruneLtens_ok {ts : List (NDArray R)} (hne : ts ≠ []) (hc : Chained 1 ts 1) :
    ∃ us, pruneLtens ts = .ok us ∧ us ≠ [] ∧ Chained 1 us 1 ∧ physShape us = pruned (physShape ts) ∧
      (us.tail.map NDArray.lb).Sublist (ts.tail.map NDArray.lb) ∧
      ∀ idx, IdxOK idx (physShape ts) → entry us (pruned idx) = entry ts idx := by
  obtain ⟨t, ts, rfl⟩ := List.exists_cons_of_ne_nil hne
  obtain ⟨c1, c2, c3⟩ := hc
  obtain ⟨us, G, i1, i2, i3, i4, i5, i6, i7⟩ := pruneGo_ok (merged_single c1) c3
  rw [c2] at i3
  refine ⟨us, i1, i2, i3, i6, i7, ?_⟩
  intro idx hi
  have hi0 := hi
  rw [show (t :: ts) = G.flatten by rw [i5]; rfl] at hi
  obtain ⟨I, rfl, hI⟩ := idxOK_group hi
  have hu : IdxOK (I.map List.flatten) (physShape us) := by
    have : physShape us = (G.map physShape).map List.flatten := by
      clear i1 i2 i3 i5 i6 i7 hi hi0 hI hne
      induction i4 with
      | nil => rfl
      | cons h _ ih =>
        simp only [physShape, List.map_cons] at ih ⊢
        rw [ih, h.ph]; rfl
    rw [this]
    clear * - hI
    generalize G.map physShape = S at hI
    induction hI with
    | nil => exact .nil
    | cons h _ ih => exact .cons (idxOK_flatten h) ih
  have hp : IdxOK (pruned I.flatten) (physShape us) := by rw [i6]; exact idxOK_pruned hi0
  have e : I.map List.flatten = pruned I.flatten := by
    apply idxOK_flatten_inj hu hp
    rw [pruned_flatten]
    clear * -
    induction I with
    | nil => rfl
    | cons a L ih => simp [ih]
  rw [← e]
  have := mp_merge i4 i3 hI (a := 0) (b := 0) one_pos
  rw [i5] at this
  exact this

end

/-- One site of `partialtrace`. -/
theorem trace_site [CommSemiring R] {t : NDArray R} (ht : t.IsLocal) {i j : ℕ} (hi : i < t.ph.length)
    (hj : j < t.ph.length) :
    SLin t (t.traceTo (i + 1) (j + 1)) [min (t.ph.getD i 0) (t.ph.getD j 0)]
      (fun f k => NDArray.asm t.ph.length [i, j] [k.headD 0, k.headD 0] f) ∧
    (t.traceTo (i + 1) (j + 1)).ph = freeDims t.ph [i, j] := by
  have hs := NDArray.shape_local ht
  have hn := ndim_ph ht
  have hax : ∀ a ∈ [i, j], a < t.ph.length := by simp [hi, hj]
  have hus : (t.traceTo (i + 1) (j + 1)).shape = t.lb :: (freeDims t.ph [i, j] ++ [t.rb]) := by
    show List.map _ _ = _
    rw [hn, show [i + 1, j + 1] = [i, j].map (· + 1) by rfl, NDArray.freeAxes_bonds hax, hs,
      List.map_cons, List.map_append, map_getD_bonds freeAxes_lt]
    simp [conDims, freeDims]
  refine ⟨⟨NDArray.isLocal_of_shape hus, NDArray.lb_of_shape hus, NDArray.rb_of_shape hus, ?_⟩,
    NDArray.ph_of_shape hus⟩
  intro a _ b _ p hp
  rw [NDArray.ph_of_shape hus] at hp
  have hpl : p.length = (NDArray.freeAxes t.ph.length [i, j]).length := by
    simpa [freeDims] using inB_length hp
  show ∑ k ∈ range _, _ = _
  simp only [sumIdx]
  rw [hs, getD_bonds hi, getD_bonds hj]
  refine Finset.sum_congr rfl fun k _ => ?_
  rw [hn, show [i + 1, j + 1] = [i, j].map (· + 1) by rfl, NDArray.asm_bonds (k := [k, k]) hax rfl hpl]
  rfl

end Mpnum
