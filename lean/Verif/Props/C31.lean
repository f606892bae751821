import Verif.MPArray.DumpLoad
import Verif.Props.C13
import Std.Data.String.ToNat

/-! # C31: dump / load round trip -/

namespace Mpnum

variable {R : Type}

theorem dumpLoop_ok (ts : List (NDArray R)) : ∀ (g : H5Group R) (k : ℕ),
    (∀ i, k ≤ i → i < k + ts.length → g.data (Nat.repr i) = none) →
    ∃ g', dumpLoop g k ts = (g', .ok ()) ∧ g'.attrs = g.attrs ∧
      (∀ i (h : i < ts.length), g'.data (Nat.repr (k + i)) = some ts[i]) ∧
      ∀ s, (∀ i, k ≤ i → i < k + ts.length → s ≠ Nat.repr i) → g'.data s = g.data s := by
  induction ts with
  | nil => exact fun g k _ => ⟨g, rfl, rfl, fun i h => absurd h (by simp), fun _ _ => rfl⟩
  | cons t ts ih =>
    intro g k hg
    have h0 : g.data (Nat.repr k) = none := hg k (le_refl _) (by simp)
    obtain ⟨g', h1, h2, h3, h4⟩ := ih
      ⟨g.attrs, fun k' => if k' = Nat.repr k then some t else g.data k'⟩ (k + 1) (by
        intro i hi hi'
        have hne : Nat.repr i ≠ Nat.repr k := fun h => by
          have := Nat.repr_injective h; omega
        simp only [hne, if_false]
        exact hg i (by omega) (by simp only [List.length_cons]; omega))
    refine ⟨g', ?_, h2, ?_, ?_⟩
    · rw [dumpLoop, H5Group.create, h0]
      exact h1
    · intro i hi
      cases i with
      | zero =>
        rw [h4 _ fun j hj _ h => by have := Nat.repr_injective h; omega]
        simp
      | succ i =>
        have := h3 i (by simpa using hi)
        rw [Nat.add_right_comm] at this
        simpa [Nat.add_assoc] using this
    · intro s hs
      rw [h4 s fun i hi hi' => hs i (by omega) (by simp only [List.length_cons]; omega)]
      have : s ≠ Nat.repr k := hs k (le_refl _) (by simp)
      simp [this]

theorem load_ok {g : H5Group R} {ts : List (NDArray R)} {l r : ℤ}
    (hlen : g.attrs "len" = some (.int ts.length))
    (hcf : g.attrs "canonical_form" = some (.ints [l, r]))
    (hd : ∀ i (h : i < ts.length), g.data (Nat.repr i) = some ts[i]) :
    loadMPA g = mkLT ts (some l) (some r) := by
  unfold loadMPA
  rw [hlen, hcf]
  have hm : (List.range ts.length).mapM (fun i => g.fetch (Nat.repr i)) = .ok ts := by
    have : ∀ n ≤ ts.length, (List.range n).mapM (fun i => g.fetch (Nat.repr i)) = .ok (ts.take n) := by
      intro n
      induction n with
      | zero => intro _; rfl
      | succ n ih =>
        intro hn
        have h5 := hd n hn
        rw [List.range_succ, List.mapM_append, ih (by omega)]
        simp only [List.mapM_cons, List.mapM_nil, H5Group.fetch, h5]
        rw [List.take_succ_eq_append_getElem hn]
        rfl
    have h6 := this ts.length (le_refl _)
    rwa [List.take_length] at h6
  simp only [bind, Except.bind]
  rw [Int.toNat_natCast, hm]

/-- C31: after `dump` into a group without datasets named `"0"`, `"1"`, ..., `load` returns the same
local tensors and the same canonical form, whatever the number of sites; other datasets in the group
are not touched. -/
theorem C31_round_trip (x : MPA R) (hx : x.Valid) (g : H5Group R)
    (hg : ∀ i < x.len, g.data (Nat.repr i) = none) :
    ∃ g', x.dump g = (g', .ok ()) ∧ loadMPA g' = .ok x ∧
      ∀ s, (∀ i < x.len, s ≠ Nat.repr i) → g'.data s = g.data s := by
  obtain ⟨g', h1, h2, h3, h4⟩ := dumpLoop_ok x.lt ((((g.setAttr "ranks" (.str (toString x.ranks))).setAttr
    "shape" (.str (toString x.shape))).setAttr "len" (.int x.len)).setAttr "canonical_form"
      (.ints [x.l, x.r])) 0 (fun i _ hi => hg i (by simpa [MPA.len] using hi))
  refine ⟨g', h1, ?_, fun s hs => h4 s fun i _ hi => hs i (by simpa [MPA.len] using hi)⟩
  rw [load_ok (ts := x.lt) (l := x.l) (r := x.r) (by rw [h2]; simp [H5Group.setAttr, MPA.len])
    (by rw [h2]; simp [H5Group.setAttr]) (fun i hi => by simpa using h3 i hi)]
  exact mkLT_ok hx.ne hx.chain hx.l_nonneg (lt_of_lt_of_le hx.l_lt_r hx.r_le)
    (lt_of_le_of_lt hx.l_nonneg hx.l_lt_r) hx.r_le

/-- C31, for files: `dump(path)` replaces the whole file, so saving to the same path again and loading
returns what was saved last; other files are not touched. -/
theorem C31_file (x : MPA R) (hx : x.Valid) (fs : H5Files R) (path : String) :
    ∃ fs', x.dumpPath fs path = (fs', .ok ()) ∧ loadPath fs' path = .ok x ∧
      ∀ p, p ≠ path → fs' p = fs p := by
  obtain ⟨g', h1, h2, _⟩ := C31_round_trip x hx H5Group.empty (fun _ _ => rfl)
  refine ⟨fun p => if p = path then some g' else fs p, ?_, ?_, fun p hp => if_neg hp⟩
  · unfold MPA.dumpPath; rw [h1]
  · simp [loadPath, h2]

/-- C31, error branch: `dump` into a group which already holds a dataset `"0"` raises. -/
theorem C31_occupied (x : MPA R) (hx : x.lt ≠ []) (g : H5Group R) (a : NDArray R)
    (ha : g.data (Nat.repr 0) = some a) : (x.dump g).2 = .error .value := by
  obtain ⟨t, ts, ht⟩ := List.exists_cons_of_ne_nil hx
  unfold MPA.dump
  rw [ht]
  simp only [dumpLoop, H5Group.create, H5Group.setAttr, ha]

/-- C31, negative result: a `dump` that fails because the group is occupied has already replaced the
attributes.  The group then loads without error, but with the old tensors and the canonical form of the
other MPA, which is not a true canonical form of the tensors. -/
theorem C31_failed_dump_corrupts : ∃ (x y z : MPA ℤ) (g : H5Group ℤ), x.Valid ∧ y.Valid ∧
    x.CanonOK ∧ y.CanonOK ∧ (x.dump g).2 = .error .value ∧ loadMPA g = .ok y ∧
    loadMPA (x.dump g).1 = .ok z ∧ ¬ z.CanonOK := by
  have hch : ∀ c d : ℤ, Chained 1 [oneSite c, oneSite d] 1 := fun c d => by
    simp [oneSite, NDArray.IsLocal, NDArray.ndim, NDArray.lb, NDArray.rb]
  have hL : LCanon (oneSite 1) := by
    intro a ha a' ha'
    have h1 : a = 0 := by simpa [oneSite, NDArray.rb] using ha
    have h2 : a' = 0 := by simpa [oneSite, NDArray.rb] using ha'
    subst h1; subst h2; decide
  refine ⟨⟨[oneSite 1, oneSite 1], 1, 2⟩, ⟨[oneSite 2, oneSite 3], 0, 2⟩,
    ⟨[oneSite 2, oneSite 3], 1, 2⟩,
    ⟨fun s => if s = "len" then some (.int 2) else if s = "canonical_form" then some (.ints [0, 2])
        else none,
      fun s => if s = Nat.repr 0 then some (oneSite 2) else if s = Nat.repr 1 then some (oneSite 3)
        else none⟩, ?_, ?_, ?_, ?_, ?_, ?_, ?_, ?_⟩
  · exact ⟨by simp, hch 1 1, by simp, by simp, by simp [MPA.len]⟩
  · exact ⟨by simp, hch 2 3, by simp, by simp, by simp [MPA.len]⟩
  · intro n t h
    match n with
    | 0 => simp at h; subst h; exact ⟨fun _ => hL, fun h => absurd h (by simp)⟩
    | 1 => exact ⟨fun h => absurd h (by simp), fun h => absurd h (by simp)⟩
    | n + 2 => simp at h
  · intro n t h
    match n with
    | 0 => exact ⟨fun h => absurd h (by simp), fun h => absurd h (by simp)⟩
    | 1 => exact ⟨fun h => absurd h (by simp), fun h => absurd h (by simp)⟩
    | n + 2 => simp at h
  · exact C31_occupied _ (by simp) _ (oneSite 2) (by simp)
  · rw [load_ok (ts := [oneSite 2, oneSite 3]) (l := 0) (r := 2) (by simp) (by simp)]
    · rfl
    · intro i hi
      match i with
      | 0 => simp
      | 1 => simp
      | n + 2 => simp at hi
  · rw [load_ok (ts := [oneSite 2, oneSite 3]) (l := 1) (r := 2)]
    · rfl
    · simp [MPA.dump, dumpLoop, H5Group.create, H5Group.setAttr, MPA.len]
    · simp [MPA.dump, dumpLoop, H5Group.create, H5Group.setAttr]
    · intro i hi
      match i with
      | 0 => simp [MPA.dump, dumpLoop, H5Group.create, H5Group.setAttr]
      | 1 => simp [MPA.dump, dumpLoop, H5Group.create, H5Group.setAttr]
      | n + 2 => simp at hi
  · intro h
    have := (h 0 _ rfl).1 (by simp) 0 (by decide) 0 (by decide)
    revert this
    decide

/-! ### interrupted dumps -/

theorem dumpLoop_eq_writes (ts : List (NDArray R)) : ∀ (g : H5Group R) (k : ℕ),
    dumpLoop g k ts = g.writes (dumpDataOps k ts) := by
  induction ts with
  | nil => exact fun _ _ => rfl
  | cons t ts ih =>
    intro g k
    simp only [dumpLoop, dumpDataOps, H5Group.writes, H5Group.write]
    rcases g.create (Nat.repr k) t with ⟨g', e | a⟩
    · rfl
    · exact ih g' (k + 1)

/-- `dump` is the sequence of its writes. -/
theorem C31_dump_writes (x : MPA R) (g : H5Group R) : x.dump g = g.writes x.dumpOps :=
  dumpLoop_eq_writes _ _ _

theorem mapM_range_error {α : Type} (f : ℕ → Py α) {j : ℕ} {e : PyErr} (hj : f j = .error e) (n : ℕ) (hn : j < n) :
    ∃ e', (List.range n).mapM f = .error e' := by
  induction n with
  | zero => omega
  | succ n ih =>
    rw [List.range_succ, List.mapM_append]
    by_cases h : j < n
    · obtain ⟨e', he⟩ := ih h
      exact ⟨e', by rw [he]; rfl⟩
    · have : j = n := by omega
      subst this
      cases h1 : (List.range j).mapM f with
      | error e' => exact ⟨e', rfl⟩
      | ok l =>
        refine ⟨e, ?_⟩
        rw [List.mapM_cons, hj]
        rfl

/-- A group without one of the datasets cannot be loaded. -/
theorem load_missing {g : H5Group R} {j : ℕ} (hj : g.data (Nat.repr j) = none)
    (hn : ∀ n, g.attrs "len" = some (.int n) → j < n.toNat ∨ n.toNat = 0) : ∃ e, loadMPA g = .error e := by
  unfold loadMPA
  have hf : (fun i => g.fetch (Nat.repr i)) j = .error .key := by simp [H5Group.fetch, hj]
  rcases hl : g.attrs "len" with _ | (n | l | s)
  · exact ⟨.key, rfl⟩
  · rcases hn n hl with h | h
    · obtain ⟨e, he⟩ := mapM_range_error (fun i => g.fetch (Nat.repr i)) hf n.toNat h
      exact ⟨e, by simp only [bind, Except.bind]; rw [he]⟩
    · simp only [bind, Except.bind]
      rw [h]
      rcases hc : g.attrs "canonical_form" with _ | (n | l | s)
      · exact ⟨.key, rfl⟩
      · exact ⟨.type, rfl⟩
      · match l with
        | [] => exact ⟨.value, rfl⟩
        | [a] => exact ⟨.value, rfl⟩
        | [a, b] => exact ⟨.assertion, rfl⟩
        | a :: b :: c :: d => exact ⟨.value, rfl⟩
      · exact ⟨.type, rfl⟩
  · exact ⟨.type, rfl⟩
  · exact ⟨.type, rfl⟩

theorem writes_data_take (ts : List (NDArray R)) : ∀ (g : H5Group R) (k n : ℕ),
    (∀ i, k ≤ i → i < k + ts.length → g.data (Nat.repr i) = none) → n < ts.length →
    (g.writes ((dumpDataOps k ts).take n)).1.attrs = g.attrs ∧
      (g.writes ((dumpDataOps k ts).take n)).1.data (Nat.repr (k + n)) = none := by
  induction ts with
  | nil => intro g k n _ h; simp at h
  | cons t ts ih =>
    intro g k n hg hn
    cases n with
    | zero => exact ⟨rfl, hg _ (by omega) (by simp)⟩
    | succ n =>
      have h0 : g.data (Nat.repr k) = none := hg k (le_refl _) (by simp)
      have := ih ⟨g.attrs, fun k' => if k' = Nat.repr k then some t else g.data k'⟩ (k + 1) n (by
        intro i hi hi'
        have hne : Nat.repr i ≠ Nat.repr k := fun h => by
          have := Nat.repr_injective h; omega
        simp only [hne, if_false]
        exact hg i (by omega) (by simp only [List.length_cons]; omega)) (by simpa using hn)
      simp only [dumpDataOps, List.take_succ_cons, H5Group.writes, H5Group.write, H5Group.create, h0]
      rw [show k + (n + 1) = k + 1 + n by omega]
      exact this

/-- C31: a `dump` into a group without datasets named `"0"`, `"1"`, ... that is interrupted after any number of its writes,
but before the last, never leaves a group that can be loaded: there is an exception, and so never an MPA with tensors or a
canonical form of something else. -/
theorem C31_interrupted (x : MPA R) (hx : x.lt ≠ []) (g : H5Group R) (hg : ∀ i < x.len, g.data (Nat.repr i) = none)
    (n : ℕ) (hn : n < x.dumpOps.length) : ∃ e, loadMPA (g.writes (x.dumpOps.take n)).1 = .error e := by
  have hpos : 0 < x.len := List.length_pos_of_ne_nil hx
  have h0 := hg 0 hpos
  have hlen : ∀ (k : ℕ) (ts : List (NDArray R)), (dumpDataOps k ts).length = ts.length := by
    intro k ts
    induction ts generalizing k with
    | nil => rfl
    | cons t ts ih => simp [dumpDataOps, ih]
  have hall : ∀ m : ℤ, (0 : ℕ) < m.toNat ∨ m.toNat = 0 := fun m => by omega
  match n with
  | 0 => exact load_missing (j := 0) h0 fun m _ => hall m
  | 1 => exact load_missing (j := 0) (by exact h0) fun m _ => hall m
  | 2 => exact load_missing (j := 0) (by exact h0) fun m _ => hall m
  | 3 => exact load_missing (j := 0) (by exact h0) fun m _ => hall m
  | n + 4 =>
    have hn' : n < x.lt.length := by
      simp only [MPA.dumpOps, List.length_append, hlen, List.length_cons, List.length_nil] at hn
      omega
    obtain ⟨a1, a2⟩ := writes_data_take x.lt ((((g.setAttr "ranks" (.str (toString x.ranks))).setAttr
      "shape" (.str (toString x.shape))).setAttr "len" (.int x.len)).setAttr "canonical_form"
        (.ints [x.l, x.r])) 0 n (fun i _ hi => hg i (by simpa [MPA.len] using hi)) hn'
    rw [Nat.zero_add] at a2
    refine load_missing (j := n) (by exact a2) fun m hm => ?_
    have e : (g.writes (x.dumpOps.take (n + 4))).1.attrs "len" = some (.int x.len) := by
      show H5Group.attrs (H5Group.writes _ ((dumpDataOps 0 x.lt).take n)).1 "len" = _
      rw [a1]
      simp [H5Group.setAttr]
    rw [e] at hm
    cases hm
    left
    simpa [MPA.len] using hn'

/-- C31: a file that is dumped to (again), the `dump` being interrupted after any number `n` of its writes (`none`: before
the file is opened): loading gives the old value, an exception, or the new value if all has been written. -/
theorem C31_file_interrupted (x : MPA R) (hx : x.Valid) (fs : H5Files R) (path : String) (n : Option ℕ) :
    let fs' : H5Files R := match n with
      | none => fs
      | some n => fun p => if p = path then some (H5Group.empty.writes (x.dumpOps.take n)).1 else fs p
    (n = none ∧ loadPath fs' path = loadPath fs path) ∨ (∃ e, loadPath fs' path = .error e) ∨ loadPath fs' path = .ok x := by
  intro fs'
  cases n with
  | none => exact .inl ⟨rfl, rfl⟩
  | some n =>
    right
    have hl : loadPath fs' path = loadMPA (H5Group.empty.writes (x.dumpOps.take n)).1 := by simp [fs', loadPath]
    rw [hl]
    by_cases hn : n < x.dumpOps.length
    · exact .inl (C31_interrupted x hx.ne _ (fun _ _ => rfl) n hn)
    · right
      rw [List.take_of_length_le (by omega), ← C31_dump_writes]
      obtain ⟨g', h1, h2, -⟩ := C31_round_trip x hx H5Group.empty (fun _ _ => rfl)
      rw [h1]; exact h2

example : exMPA.Valid ∧ ∀ i < exMPA.len, (H5Group.empty : H5Group ℤ).data (Nat.repr i) = none :=
  ⟨exMPA_valid, fun _ _ => rfl⟩

end Mpnum
