import Verif.Np.Contract
import Mathlib.Data.List.GetD

/-! # Model of mpnum/_named_ndarray.py -/

open Finset

namespace Mpnum

variable {R N : Type} [DecidableEq N]

/-- mpnum/_named_ndarray.py:14 `named_ndarray`: `_array` and `_axisnames`. -/
structure NamedArray (N R : Type) where
  arr : NDArray R
  names : List N

namespace NamedArray

/-- mpnum/_named_ndarray.py:32-42 `__init__`: number of names and duplicates are checked. -/
def mk' (a : NDArray R) (names : List N) : Py (NamedArray N R) := do
  pyAssert (a.shape.length = names.length)
  pyAssert (names.Nodup)
  .ok ⟨a, names⟩

/-- mpnum/_named_ndarray.py:44-47 `axispos`: `tuple.index`, `ValueError` if the name is missing. -/
def axispos (x : NamedArray N R) (name : N) : Py ℕ :=
  if name ∈ x.names then .ok (x.names.idxOf name) else .error .value

/-- mpnum/_named_ndarray.py:49-61 `rename`: the loop writes into a copy `new_names`, positions are
those of the original names. -/
def rename (x : NamedArray N R) (translate : List (N × N)) : Py (NamedArray N R) := do
  let new ← translate.foldlM (fun (names : List N) (p : N × N) => do
    .ok (names.set (← x.axispos p.1) p.2)) x.names
  mk' x.arr new

/-- mpnum/_named_ndarray.py:63-66 `conj` -/
def conj [Star R] (x : NamedArray N R) : Py (NamedArray N R) := mk' x.arr.conj x.names

/-- mpnum/_named_ndarray.py:68-75 `to_array` -/
def toArray (x : NamedArray N R) (order : List N) : Py (NDArray R) := do
  let pos ← order.mapM x.axispos
  x.arr.transpose (pos.map fun k : ℕ => (k : ℤ))

/-- mpnum/_named_ndarray.py:77-96 `tensordot` -/
def tensordot [AddCommMonoid R] [Mul R] (x y : NamedArray N R) (axes : List (N × N)) :
    Py (NamedArray N R) := do
  let axSelf := axes.map Prod.fst
  let axOther := axes.map Prod.snd
  let posSelf ← axSelf.mapM x.axispos
  let posOther ← axOther.mapM y.axispos
  let new := x.names.filter (· ∉ axSelf) ++ y.names.filter (· ∉ axOther)
  let arr ← x.arr.tensordot y.arr (posSelf.map fun k : ℕ => (k : ℤ))
    (posOther.map fun k : ℕ => (k : ℤ))
  mk' arr new

/-- `axisnames` and shape fit, names are distinct (what `__init__` enforces). -/
structure WF (x : NamedArray N R) : Prop where
  len : x.arr.shape.length = x.names.length
  nodup : x.names.Nodup

/-- Specification: the entry of a named array at an assignment of indices to names. -/
def at' (x : NamedArray N R) (σ : N → ℕ) : R := x.arr.get (x.names.map σ)

/-- Specification: the dimension of a named axis. -/
def dim (x : NamedArray N R) (n : N) : ℕ := x.arr.shape.getD (x.names.idxOf n) 0

end NamedArray

/-- The assignment `σ` with the names `ns` redirected to the values `ks`. -/
def upd (σ : N → ℕ) (ns : List N) (ks : List ℕ) : N → ℕ :=
  fun n => if n ∈ ns then ks.getD (ns.idxOf n) 0 else σ n

namespace NamedArray

theorem mk'_ok {a : NDArray R} {names : List N} (h1 : a.shape.length = names.length)
    (h2 : names.Nodup) : mk' a names = .ok ⟨a, names⟩ := by
  simp [mk', pyAssert, h1, h2, bind, Except.bind]

theorem mapM_axispos {x : NamedArray N R} {ns : List N} (h : ∀ n ∈ ns, n ∈ x.names) :
    ns.mapM x.axispos = .ok (ns.map x.names.idxOf) := by
  induction ns with
  | nil => rfl
  | cons n ns ih =>
    rw [List.mapM_cons, ih fun m hm => h m (by simp [hm])]
    simp only [axispos, if_pos (h n (by simp))]
    rfl

theorem map_shape {x : NamedArray N R} (h : x.WF) : x.names.map x.dim = x.arr.shape := by
  refine ext_getD (by simp [h.len]) fun p hp => ?_
  rw [List.length_map] at hp
  rw [List.getD_eq_getElem _ _ (by simpa using hp), List.getElem_map]
  unfold dim
  rw [h.nodup.idxOf_getElem]

theorem map_getD_names {names : List N} (hn : names.Nodup) (σ : N → ℕ) {ns : List N}
    (h : ∀ n ∈ ns, n ∈ names) :
    ((ns.map names.idxOf).map fun p => (names.map σ).getD p 0) = ns.map σ := by
  rw [List.map_map]
  refine List.map_congr_left fun n hn' => ?_
  have hlt := List.idxOf_lt_length_iff.2 (h n hn')
  simp only [Function.comp]
  rw [List.getD_eq_getElem _ _ (by simpa using hlt), List.getElem_map, List.getElem_idxOf]

theorem nodup_idxOf {names : List N} {ns : List N} (hns : ns.Nodup) (h : ∀ n ∈ ns, n ∈ names) :
    (ns.map names.idxOf).Nodup := by
  refine (List.nodup_map_iff_inj_on hns).2 fun a ha b hb hab => ?_
  exact (List.idxOf_inj (h a ha)).1 hab

theorem idxOf_map_of_mem {names : List N} {ns : List N} (h : ∀ n ∈ ns, n ∈ names)
    {a : N} (ha : a ∈ names) : (ns.map names.idxOf).idxOf (names.idxOf a) = ns.idxOf a := by
  induction ns with
  | nil => rfl
  | cons n ns ih =>
    rw [List.map_cons, List.idxOf_cons, List.idxOf_cons, ih fun m hm => h m (by simp [hm])]
    by_cases hna : n = a
    · subst hna; simp only [beq_self_eq_true]
    · have : names.idxOf n ≠ names.idxOf a := fun h' =>
        hna ((List.idxOf_inj (h n (by simp))).1 h')
      rw [beq_eq_false_iff_ne.2 hna, beq_eq_false_iff_ne.2 this]

theorem mem_map_idxOf {names : List N} {ns : List N} (h : ∀ n ∈ ns, n ∈ names)
    {a : N} : names.idxOf a ∈ ns.map names.idxOf ↔ a ∈ ns := by
  constructor
  · intro hm
    obtain ⟨n, hn, he⟩ := List.mem_map.1 hm
    exact (List.idxOf_inj (h n hn)).1 he ▸ hn
  · exact fun hm => List.mem_map.2 ⟨a, hm, rfl⟩

/-- free axes in terms of names -/
theorem freeAxes_names {names ns : List N} (hn : names.Nodup) (h : ∀ n ∈ ns, n ∈ names) :
    NDArray.freeAxes names.length (ns.map names.idxOf)
      = (names.filter (· ∉ ns)).map names.idxOf := by
  have : List.range names.length = names.map names.idxOf := by
    refine List.ext_getElem (by simp) fun i h1 h2 => ?_
    simp only [List.getElem_range, List.getElem_map]
    rw [hn.idxOf_getElem]
  unfold NDArray.freeAxes
  rw [this, List.filter_map]
  congr 1
  refine List.filter_congr fun n hm => ?_
  simp only [Function.comp_apply, mem_map_idxOf h]

theorem asm_names {names ns : List N} (hn : names.Nodup) (h : ∀ n ∈ ns, n ∈ names)
    (σ : N → ℕ) {k : List ℕ} (hk : k.length = ns.length) :
    NDArray.asm names.length (ns.map names.idxOf) k ((names.filter (· ∉ ns)).map σ)
      = names.map (upd σ ns k) := by
  refine ext_getD (by simp) fun p hp => ?_
  rw [NDArray.asm_length] at hp
  have hk' : k.length = (ns.map names.idxOf).length := by simpa using hk
  have hpe : names.idxOf names[p] = p := hn.idxOf_getElem p hp
  rw [List.getD_eq_getElem (names.map _) _ (by simpa using hp), List.getElem_map]
  by_cases hm : names[p] ∈ ns
  · have hm' : p ∈ ns.map names.idxOf := by
      have := (mem_map_idxOf h).2 hm; rwa [hpe] at this
    rw [NDArray.asm_mem hp hm' hk', upd, if_pos hm]
    have := idxOf_map_of_mem h (List.getElem_mem hp)
    rw [hpe] at this
    rw [this]
  · have hm' : p ∉ ns.map names.idxOf := by
      intro hc; apply hm
      rw [← hpe] at hc
      exact (mem_map_idxOf h).1 hc
    rw [NDArray.asm_not_mem hp hm' hk', upd, if_neg hm, freeAxes_names hn h]
    have hf : ∀ n ∈ names.filter (· ∉ ns), n ∈ names := fun n hn => (List.mem_filter.1 hn).1
    have hmem : names[p] ∈ names.filter (· ∉ ns) :=
      List.mem_filter.2 ⟨List.getElem_mem hp, by simpa using hm⟩
    have := idxOf_map_of_mem hf (List.getElem_mem hp)
    rw [hpe] at this
    rw [this]
    have hlt := List.idxOf_lt_length_iff.2 hmem
    rw [List.getD_eq_getElem _ _ (by simpa using hlt), List.getElem_map, List.getElem_idxOf]

/-- C53: `tensordot` on named arrays: contracts exactly the named axes. -/
theorem tensordot_ok [AddCommMonoid R] [Mul R] {x y : NamedArray N R} (hx : x.WF) (hy : y.WF)
    {axes : List (N × N)} (h1 : ∀ p ∈ axes, p.1 ∈ x.names) (h2 : ∀ p ∈ axes, p.2 ∈ y.names)
    (hd : ∀ p ∈ axes, x.dim p.1 = y.dim p.2) (n1 : (axes.map Prod.fst).Nodup)
    (n2 : (axes.map Prod.snd).Nodup)
    (hn : ∀ n ∈ x.names, n ∈ y.names → n ∈ axes.map Prod.fst ∨ n ∈ axes.map Prod.snd) :
    ∃ z, x.tensordot y axes = .ok z ∧ z.WF ∧
      z.names = x.names.filter (· ∉ axes.map Prod.fst) ++ y.names.filter (· ∉ axes.map Prod.snd) ∧
      (∀ n ∈ x.names, n ∉ axes.map Prod.fst → z.dim n = x.dim n) ∧
      (∀ n ∈ y.names, n ∉ axes.map Prod.snd → z.dim n = y.dim n) ∧
      ∀ σ, z.at' σ = sumIdx (axes.map fun p => x.dim p.1) fun k =>
        x.at' (upd σ (axes.map Prod.fst) k) * y.at' (upd σ (axes.map Prod.snd) k) := by
  obtain ⟨s1, hs1⟩ : ∃ s, s = axes.map Prod.fst := ⟨_, rfl⟩
  obtain ⟨s2, hs2⟩ : ∃ s, s = axes.map Prod.snd := ⟨_, rfl⟩
  have m1 : ∀ n ∈ s1, n ∈ x.names := by
    rw [hs1]; intro n hn; obtain ⟨p, hp, rfl⟩ := List.mem_map.1 hn; exact h1 p hp
  have m2 : ∀ n ∈ s2, n ∈ y.names := by
    rw [hs2]; intro n hn; obtain ⟨p, hp, rfl⟩ := List.mem_map.1 hn; exact h2 p hp
  rw [← hs1] at n1 hn ⊢
  rw [← hs2] at n2 hn ⊢
  have hndx : x.arr.ndim = x.names.length := hx.len
  have hndy : y.arr.ndim = y.names.length := hy.len
  have e1 : ((s1.map x.names.idxOf).map fun p => x.arr.shape.getD p 0) = s1.map x.dim := by
    rw [List.map_map]; rfl
  have e2 : ((s2.map y.names.idxOf).map fun p => y.arr.shape.getD p 0) = s2.map y.dim := by
    rw [List.map_map]; rfl
  have e3 : s1.map x.dim = s2.map y.dim := by
    rw [hs1, hs2, List.map_map, List.map_map]
    exact List.map_congr_left fun p hp => hd p hp
  have e4 : s1.map x.dim = axes.map fun p => x.dim p.1 := by rw [hs1, List.map_map]; rfl
  have ht := NDArray.tensordot_ok (a := x.arr) (b := y.arr) (axa := s1.map x.names.idxOf)
    (axb := s2.map y.names.idxOf)
    (by
      intro p hp
      obtain ⟨n, hn, rfl⟩ := List.mem_map.1 hp
      rw [hndx]; exact List.idxOf_lt_length_iff.2 (m1 n hn))
    (by
      intro p hp
      obtain ⟨n, hn, rfl⟩ := List.mem_map.1 hp
      rw [hndy]; exact List.idxOf_lt_length_iff.2 (m2 n hn))
    (by rw [e1, e2, e3]) (nodup_idxOf n1 m1) (nodup_idxOf n2 m2)
  obtain ⟨new, hnew⟩ : ∃ new, new = x.names.filter (· ∉ s1) ++ y.names.filter (· ∉ s2) := ⟨_, rfl⟩
  obtain ⟨arr, harr⟩ : ∃ arr, arr = x.arr.tensordotTo y.arr (s1.map x.names.idxOf)
    (s2.map y.names.idxOf) := ⟨_, rfl⟩
  have f1 : ∀ n ∈ x.names.filter (· ∉ s1), n ∈ x.names := fun n hn => (List.mem_filter.1 hn).1
  have f2 : ∀ n ∈ y.names.filter (· ∉ s2), n ∈ y.names := fun n hn => (List.mem_filter.1 hn).1
  have hshape : arr.shape = (x.names.filter (· ∉ s1)).map x.dim ++ (y.names.filter (· ∉ s2)).map y.dim := by
    rw [harr]
    unfold NDArray.tensordotTo
    simp only
    rw [hndx, hndy, freeAxes_names hx.nodup m1, freeAxes_names hy.nodup m2, List.map_map,
      List.map_map]
    rfl
  have hlen : arr.shape.length = new.length := by rw [hshape, hnew]; simp
  have hnd : new.Nodup := by
    rw [hnew]
    refine List.nodup_append'.2 ⟨hx.nodup.filter _, hy.nodup.filter _, ?_⟩
    intro n h3 h4
    have h3' := List.mem_filter.1 h3
    have h4' := List.mem_filter.1 h4
    simp only [decide_eq_true_eq] at h3' h4'
    rcases hn n h3'.1 h4'.1 with h | h
    · exact h3'.2 h
    · exact h4'.2 h
  have hwf : (⟨arr, new⟩ : NamedArray N R).WF := ⟨hlen, hnd⟩
  refine ⟨⟨arr, new⟩, ?_, hwf, hnew, ?_, ?_, ?_⟩
  · unfold tensordot
    simp only
    rw [← hs1, ← hs2, mapM_axispos m1, mapM_axispos m2]
    simp only [bind, Except.bind]
    rw [ht, ← harr, ← hnew]
    exact mk'_ok hlen hnd
  · intro n hn hn'
    have hmem : n ∈ x.names.filter (· ∉ s1) := List.mem_filter.2 ⟨hn, by simpa using hn'⟩
    have hlt := List.idxOf_lt_length_iff.2 hmem
    unfold dim
    rw [hshape, hnew, List.idxOf_append_of_mem hmem, getD_append_lt (by simpa using hlt),
      List.getD_eq_getElem _ _ (by simpa using hlt), List.getElem_map, List.getElem_idxOf]
    rfl
  · intro n hn2 hn'
    have hmem : n ∈ y.names.filter (· ∉ s2) := List.mem_filter.2 ⟨hn2, by simpa using hn'⟩
    have hnm : n ∉ x.names.filter (· ∉ s1) := by
      intro hc
      have := List.mem_filter.1 hc
      simp only [decide_eq_true_eq] at this
      rcases hn n this.1 hn2 with h | h
      · exact this.2 h
      · exact hn' h
    have hlt := List.idxOf_lt_length_iff.2 hmem
    have hidx : new.idxOf n = ((x.names.filter (· ∉ s1)).map x.dim).length
        + (y.names.filter (· ∉ s2)).idxOf n := by
      rw [hnew, List.idxOf_append_of_notMem hnm, List.length_map]
    unfold dim
    simp only
    rw [hshape, getD_append_len hidx,
      List.getD_eq_getElem _ _ (by simpa using hlt), List.getElem_map, List.getElem_idxOf]
    rfl
  · intro σ
    unfold at'
    simp only
    rw [hnew, List.map_append, harr]
    unfold NDArray.tensordotTo
    simp only
    rw [e1, e4, hndx, hndy, freeAxes_names hx.nodup m1]
    have hl : ((x.names.filter (· ∉ s1)).map x.names.idxOf).length
        = ((x.names.filter (· ∉ s1)).map σ).length := by simp
    rw [hl, List.take_left', List.drop_left']
    · rw [← e4]
      refine sumIdx_congr fun k hk => ?_
      have hk1 : k.length = s1.length := by rw [List.Forall₂.length_eq hk, List.length_map]
      have hk2 : k.length = s2.length := by rw [hk1, hs1, hs2]; simp
      rw [asm_names hx.nodup m1 σ hk1, asm_names hy.nodup m2 σ hk2]
    · rfl
    · rfl

theorem toArray_ok {x : NamedArray N R} (hx : x.WF) {order : List N} (ho : order.Perm x.names) :
    ∃ a, x.toArray order = .ok a ∧ a.shape = order.map x.dim ∧
      ∀ σ, a.get (order.map σ) = x.at' σ := by
  have hm : ∀ n ∈ order, n ∈ x.names := fun n hn => ho.mem_iff.1 hn
  have hndx : x.arr.ndim = x.names.length := hx.len
  have hperm : (order.map x.names.idxOf).Perm (List.range x.arr.ndim) := by
    have : List.range x.names.length = x.names.map x.names.idxOf := by
      refine List.ext_getElem (by simp) fun i h1 h2 => ?_
      simp only [List.getElem_range, List.getElem_map]
      rw [hx.nodup.idxOf_getElem]
    rw [hndx, this]
    exact ho.map _
  refine ⟨x.arr.transposeTo (order.map x.names.idxOf), ?_, ?_, ?_⟩
  · unfold toArray
    rw [mapM_axispos hm]
    simp only [bind, Except.bind]
    exact NDArray.transpose_ok hperm
  · rw [NDArray.transposeTo_shape, List.map_map]; rfl
  · intro σ
    rw [← map_getD_names hx.nodup σ hm, NDArray.transposeTo_get_perm hperm (by rw [hndx]; simp)]
    rfl

theorem conj_ok [Star R] {x : NamedArray N R} (hx : x.WF) :
    ∃ z, x.conj = .ok z ∧ z.WF ∧ z.names = x.names ∧ (∀ n, z.dim n = x.dim n) ∧
      ∀ σ, z.at' σ = star (x.at' σ) :=
  ⟨⟨x.arr.conj, x.names⟩, mk'_ok hx.len hx.nodup, ⟨hx.len, hx.nodup⟩, rfl, fun _ => rfl, fun _ => rfl⟩

/-- Specification of renaming: every old name is replaced by its new name, all at once. -/
def renamed (translate : List (N × N)) (n : N) : N :=
  match translate.find? fun p => p.1 = n with
  | some p => p.2
  | none => n

theorem set_map_idxOf {names : List N} (hn : names.Nodup) {f : N → N} {o v : N} (ho : o ∈ names) :
    (names.map f).set (names.idxOf o) v = names.map fun n => if n = o then v else f n := by
  have hlt := List.idxOf_lt_length_iff.2 ho
  refine List.ext_getElem (by simp) fun i h1 h2 => ?_
  rw [List.getElem_set, List.getElem_map, List.getElem_map]
  have hi : i < names.length := by simpa using h2
  by_cases h : names.idxOf o = i
  · subst h; simp
  · rw [if_neg h, if_neg]
    intro hc
    exact h (by rw [← hc, hn.idxOf_getElem i hi])

theorem rename_loop {x : NamedArray N R} (hx : x.WF) {translate : List (N × N)}
    (h : ∀ p ∈ translate, p.1 ∈ x.names) (f : N → N) :
    translate.foldlM (fun (names : List N) (p : N × N) => do
      .ok (names.set (← x.axispos p.1) p.2)) (x.names.map f)
      = .ok (x.names.map (translate.foldl (fun f p n => if n = p.1 then p.2 else f n) f)) := by
  induction translate generalizing f with
  | nil => rfl
  | cons p ps ih =>
    rw [List.foldlM_cons]
    simp only [axispos, if_pos (h p (by simp))]
    simp only [bind, Except.bind]
    rw [set_map_idxOf hx.nodup (h p (by simp))]
    exact ih (fun q hq => h q (by simp [hq])) _

theorem foldl_renamed {translate : List (N × N)} (hd : (translate.map Prod.fst).Nodup) (f : N → N)
    (n : N) : translate.foldl (fun f p n => if n = p.1 then p.2 else f n) f n
      = match translate.find? fun p => p.1 = n with
        | some p => p.2
        | none => f n := by
  induction translate generalizing f with
  | nil => rfl
  | cons p ps ih =>
    rw [List.map_cons, List.nodup_cons] at hd
    rw [List.foldl_cons, ih hd.2, List.find?_cons]
    by_cases hp : p.1 = n
    · have : (ps.find? fun q => decide (q.1 = n)) = none := by
        rw [List.find?_eq_none]
        intro q hq
        simp only [decide_eq_true_eq]
        intro hqn
        exact hd.1 (List.mem_map.2 ⟨q, hq, hqn.trans hp.symm⟩)
      rw [this]
      simp [hp]
    · simp only [hp, decide_false]
      cases ps.find? fun q => decide (q.1 = n) with
      | some q => rfl
      | none => simp [Ne.symm hp]

theorem rename_ok {x : NamedArray N R} (hx : x.WF) {translate : List (N × N)}
    (h : ∀ p ∈ translate, p.1 ∈ x.names) (hd : (translate.map Prod.fst).Nodup)
    (hn : (x.names.map (renamed translate)).Nodup) :
    ∃ z, x.rename translate = .ok z ∧ z.WF ∧ z.names = x.names.map (renamed translate) ∧
      (∀ n ∈ x.names, z.dim (renamed translate n) = x.dim n) ∧
      ∀ σ, z.at' σ = x.at' (σ ∘ renamed translate) := by
  have hl := rename_loop hx h id
  rw [List.map_id] at hl
  have he : (translate.foldl (fun f p n => if n = p.1 then p.2 else f n) (id : N → N))
      = renamed translate := by
    funext n
    rw [foldl_renamed hd]; rfl
  rw [he] at hl
  refine ⟨⟨x.arr, x.names.map (renamed translate)⟩, ?_, ⟨by simpa using hx.len, hn⟩, rfl, ?_, ?_⟩
  · unfold rename
    rw [hl]
    simp only [bind, Except.bind]
    exact mk'_ok (by simpa using hx.len) hn
  · intro n hm
    unfold dim
    simp only
    congr 1
    have hlt := List.idxOf_lt_length_iff.2 hm
    have h1 := hn.idxOf_getElem (x.names.idxOf n) (by simpa using hlt)
    rwa [List.getElem_map, List.getElem_idxOf] at h1
  · intro σ
    unfold at'
    simp only [List.map_map]

end NamedArray

end Mpnum
