import Verif.StructLemmas
import Verif.Props.C10
import Mathlib.Tactic.IntervalCases

/-!
# C13: bonds stay consistent under site assignments; C12 for site assignments
-/

namespace Mpnum

variable {R : Type}

/-- A site assignment: `mpa.lt.update(index, tens, canonicalization)` with an integer or with a
slice `start:stop`.  (`mpa.lt[index] = tens` is the case `canonicalization=None`.) -/
inductive Assign (R : Type)
  | int (index : ℤ) (t : NDArray R) (c : CanonArg)
  | slice (start stop : Option ℤ) (ts : List (NDArray R)) (c : CanonArg)

def MPA.assign (x : MPA R) : Assign R → Py (MPA R)
  | .int i t c => x.updateInt i t c
  | .slice s e ts c => x.updateSlice s e none ts c

/-- What the caller has to take care of: the code does not check that a slice is given as many
local tensors as it has sites (nor enough canonicalization values), nor that these have two
virtual legs.  Nothing is required for integer indices. -/
def Assign.Admissible (x : MPA R) : Assign R → Prop
  | .int _ _ _ => True
  | .slice start stop ts c => (∀ t ∈ ts, t.IsLocal) ∧
      (∀ s e st, sliceIndices start stop none x.len = .ok (s, e, st) → (ts.length : ℤ) = e - s) ∧
      (∀ cs, MPA.canonSeq c = some cs → ts.length ≤ cs.length)

/-- Perform assignments one after the other; a rejected one leaves the MPA as it is (the code
raises before the first change of state: `updateSlice_ok` shows that the loop cannot fail). -/
def MPA.assigns (x : MPA R) : List (Assign R) → MPA R
  | [] => x
  | a :: as => match x.assign a with
    | .ok y => y.assigns as
    | .error _ => x.assigns as

/-- Admissibility along a history. -/
def AdmissibleAll (x : MPA R) : List (Assign R) → Prop
  | [] => True
  | a :: as => a.Admissible x ∧ match x.assign a with
    | .ok y => AdmissibleAll y as
    | .error _ => AdmissibleAll x as

theorem chained_of_adjOK {ts : List (NDArray R)} (hl : ∀ t ∈ ts, t.IsLocal) (h : adjOK ts = true)
    {f : NDArray R} {us : List (NDArray R)} (hts : ts = f :: us) : Chained f.lb ts (ts.getLastD f).rb := by
  subst hts
  induction us generalizing f with
  | nil => exact ⟨hl f (by simp), rfl, rfl⟩
  | cons u us ih =>
    simp only [adjOK, Bool.and_eq_true, beq_iff_eq] at h
    refine ⟨hl f (by simp), rfl, ?_⟩
    have := ih (f := u) (fun t ht => hl t (by simp only [List.mem_cons] at ht ⊢; tauto)) h.2
    rw [h.1.2]
    simpa [List.getLast?_cons] using this

namespace MPA

theorem updateLoop_lt (ts : List (NDArray R)) : ∀ (x : MPA R) (s : ℕ)
    (cs : Option (List (Option Canon))), s + ts.length ≤ x.len →
    (∀ c, cs = some c → ts.length ≤ c.length) →
    ∃ y, x.updateLoop ts ((List.range' s ts.length).map fun k : ℕ => (k : ℤ)) cs = .ok y ∧
      y.lt = x.lt.take s ++ ts ++ x.lt.drop (s + ts.length) := by
  induction ts with
  | nil =>
    intro x s cs _ _
    refine ⟨x, ?_, by simp⟩
    cases cs <;> rfl
  | cons t ts ih =>
    intro x s cs hs hcs
    simp only [List.length_cons] at hs
    have hlt : s < x.len := by omega
    have hset : ∀ z : MPA R, z.lt = x.lt.set s t →
        z.lt.take (s + 1) ++ ts ++ z.lt.drop (s + 1 + ts.length)
        = x.lt.take s ++ t :: ts ++ x.lt.drop (s + (ts.length + 1)) := by
      intro z hz
      rw [hz, List.take_add_one, List.take_set_of_le (le_refl _), List.getElem?_set_self (by exact hlt),
        List.drop_set_of_lt (by omega), show s + 1 + ts.length = s + (ts.length + 1) by omega]
      simp
    have hstep : ∀ c, ∃ z, x.update1 s t c = .ok z ∧ z.lt = x.lt.set s t := by
      intro c
      rw [update1_ok x hlt]
      refine ⟨_, rfl, ?_⟩
      split
      · rfl
      · split <;> rfl
    rw [show (t :: ts).length = ts.length + 1 from rfl, List.range'_succ, List.map_cons]
    cases cs with
    | none =>
      obtain ⟨z, h1, h2⟩ := hstep none
      obtain ⟨y, g1, g2⟩ := ih z (s + 1) none (by simp [MPA.len, h2] at hlt ⊢; simp [MPA.len] at hs; omega) (by simp)
      refine ⟨y, ?_, g2.trans (hset z h2)⟩
      show (x.update1 s t none >>= fun x' => x'.updateLoop ts _ none) = _
      rw [h1, ok_bind]; exact g1
    | some cs =>
      cases cs with
      | nil => have := hcs [] rfl; simp at this
      | cons c cs =>
        obtain ⟨z, h1, h2⟩ := hstep c
        obtain ⟨y, g1, g2⟩ := ih z (s + 1) (some cs)
          (by simp [MPA.len, h2] at hlt ⊢; simp [MPA.len] at hs; omega) (by
            intro c' hc'; injection hc' with hc'; subst hc'
            have := hcs _ rfl; simpa using this)
        refine ⟨y, ?_, g2.trans (hset z h2)⟩
        show (x.update1 s t c >>= fun x' => x'.updateLoop ts _ (some cs)) = _
        rw [h1, ok_bind]; exact g1

theorem sliceIndices_bounds {start stop : Option ℤ} {n : ℕ} {s e st : ℤ}
    (h : sliceIndices start stop none n = .ok (s, e, st)) :
    st = 1 ∧ 0 ≤ s ∧ s ≤ n ∧ 0 ≤ e ∧ e ≤ n := by
  unfold sliceIndices at h
  simp only [Option.getD_none] at h
  rw [if_neg (by omega)] at h
  simp only [Except.ok.injEq, Prod.mk.injEq] at h
  obtain ⟨h1, h2, h3⟩ := h
  refine ⟨h3.symm, ?_⟩
  cases start <;> cases stop <;> simp only at h1 h2 <;> (try split at h1) <;> (try split at h2) <;> omega

theorem pyRange_nat {s n : ℕ} : pyRange s ((s : ℤ) + n) 1 = (List.range' s n).map fun k : ℕ => (k : ℤ) := by
  rw [pyRange_up, List.range'_eq_map_range]
  simp [Function.comp_def]

/-- Checks of a slice update that has enough tensors: either rejected, or the sites are replaced. -/
theorem updateSlice_ok {x : MPA R} {start stop : Option ℤ} {ts : List (NDArray R)} {c : CanonArg}
    (ha : (Assign.slice start stop ts c).Admissible x) {a b : ℕ} (hx : Chained a x.lt b)
    {y : MPA R} (hy : x.updateSlice start stop none ts c = .ok y) :
    Chained a y.lt b ∧ y.len = x.len := by
  obtain ⟨hloc, hlen, hcs⟩ := ha
  unfold updateSlice at hy
  cases hsi : sliceIndices start stop none x.len with
  | error e => rw [hsi] at hy; cases hy
  | ok v =>
    obtain ⟨s, e, st⟩ := v
    obtain ⟨rfl, hs0, hs1, he0, he1⟩ := sliceIndices_bounds hsi
    have hl := hlen s e 1 hsi
    rw [hsi, ok_bind] at hy
    simp only at hy
    cases ts with
    | nil =>
      exfalso
      cases hp : pyIndex x.len s with
      | error _ => rw [hp] at hy; cases hy
      | ok _ => rw [hp] at hy; cases hy
    | cons f us =>
      obtain ⟨s, rfl⟩ := Int.eq_ofNat_of_zero_le hs0
      have hse : e = (s : ℤ) + (f :: us).length := by omega
      have hsl : s < x.len := by simp only [List.length_cons] at hl; push_cast at hl; omega
      have hel : s + (f :: us).length ≤ x.len := by omega
      rw [pyIndex_nat hsl, ok_bind] at hy
      simp only [ok_bind] at hy
      have hpe : pyIndex x.len (e - 1) = .ok (s + us.length) := by
        rw [show e - 1 = ((s + us.length : ℕ) : ℤ) by rw [hse]; simp; ring]
        exact pyIndex_nat (by simp at hel; omega)
      unfold pyAssert at hy
      split at hy
      · rename_i h1
        split at hy
        · rename_i h2
          simp only [ok_bind, hpe] at hy
          split at hy
          · rename_i h3
            obtain ⟨y', g1, g2⟩ := updateLoop_lt (f :: us) x s (canonSeq c) hel (fun c' hc' => hcs c' hc')
            rw [ok_bind, hse, pyRange_nat, g1] at hy
            injection hy with hy
            subst hy
            refine ⟨?_, ?_⟩
            · rw [g2]
              obtain ⟨t, ht⟩ : ∃ t, x.lt[s]? = some t := ⟨_, List.getElem?_eq_getElem hsl⟩
              have hel' : s + us.length < x.lt.length := by simp [MPA.len] at hel; omega
              obtain ⟨u, hu⟩ : ∃ u, x.lt[s + us.length]? = some u := ⟨_, List.getElem?_eq_getElem hel'⟩
              have hdecomp : x.lt = x.lt.take s ++ (x.lt.drop s).take (us.length + 1) ++ x.lt.drop (s + (us.length + 1)) := by
                rw [List.append_assoc, ← List.drop_drop, List.take_append_drop, List.take_append_drop]
              rw [hdecomp] at hx
              obtain ⟨m2, hx1, hx3⟩ := chained_append.1 hx
              obtain ⟨m1, hx1, hx2⟩ := chained_append.1 hx1
              have hm1 : m1 = f.lb := by
                have e1 : (x.lt.drop s).take (us.length + 1) = t :: (x.lt.drop (s + 1)).take us.length := by
                  rw [List.drop_eq_getElem_cons hsl, List.take_succ_cons]
                  rw [List.getElem?_eq_getElem hsl] at ht; injection ht with ht; rw [ht]
                rw [e1] at hx2
                rw [← hx2.2.1, ← h1, List.getD_eq_getElem?_getD, ht, Option.getD_some]
              have hm2 : m2 = ((f :: us).getLastD f).rb := by
                have e1 : (x.lt.drop s).take (us.length + 1) = (x.lt.drop s).take us.length ++ [u] := by
                  rw [List.take_add_one, List.getElem?_drop, hu]; rfl
                rw [e1] at hx2
                rw [← (chained_concat.1 hx2).2.2, ← h3, List.getD_eq_getElem?_getD, hu, Option.getD_some]
              have hts := chained_of_adjOK hloc h2 rfl
              rw [List.append_assoc]
              refine chained_append.2 ⟨m1, hx1, chained_append.2 ⟨m2, ?_, hx3⟩⟩
              rw [hm1, hm2]; exact hts
            · simp only [MPA.len, g2, List.length_append, List.length_take, List.length_drop,
                List.length_cons] at hel ⊢
              omega
          · cases hy
        · cases hy
      · cases hy

theorem update1_lt {x y : MPA R} {i : ℤ} {t : NDArray R} {c : Option Canon} {pos : ℕ}
    (hp : pyIndex x.len i = .ok pos) (hy : x.update1 i t c = .ok y) : y.lt = x.lt.set pos t := by
  unfold update1 at hy
  rw [hp] at hy
  simp only [ok_bind, py_pure] at hy
  split at hy
  · injection hy with hy; rw [← hy]
  · split at hy <;> (injection hy with hy; rw [← hy])

theorem updateInt_chained {x : MPA R} {i : ℤ} {t : NDArray R} {c : CanonArg} {a b : ℕ}
    (hx : Chained a x.lt b) {y : MPA R} (hy : x.updateInt i t c = .ok y) :
    Chained a y.lt b ∧ y.len = x.len := by
  unfold updateInt at hy
  cases hp : pyIndex x.len i with
  | error _ => rw [hp] at hy; cases hy
  | ok pos =>
    have hpos : pos < x.lt.length := pyIndex_lt hp
    rw [hp, ok_bind] at hy
    unfold pyAssert at hy
    simp only at hy
    split at hy
    · rename_i h1
      simp only [ok_bind] at hy
      split at hy
      · rename_i h2
        simp only [ok_bind] at hy
        split at hy
        · rename_i h3
          have hyl : y.lt = x.lt.set pos t := update1_lt hp hy
          refine ⟨?_, by simp [MPA.len, hyl]⟩
          rw [hyl, List.set_eq_take_append_cons_drop, if_pos hpos]
          have hdecomp : x.lt = x.lt.take pos ++ x.lt[pos] :: x.lt.drop (pos + 1) := by
            rw [List.getElem_cons_drop, List.take_append_drop]
          rw [hdecomp] at hx
          obtain ⟨m, hx1, hx2, hx3, hx4⟩ := chained_append.1 hx
          have hg : ∀ d, x.lt.getD pos d = x.lt[pos] := by
            intro d
            rw [List.getD_eq_getElem?_getD, List.getElem?_eq_getElem (by exact hpos), Option.getD_some]
          rw [hg] at h2 h3
          exact chained_append.2 ⟨m, hx1, h1, h2.symm.trans hx3, h3 ▸ hx4⟩
        · cases hy
      · cases hy
    · cases hy

end MPA

/-- C13 (partial: slice assignments must be admissible; `C13_slice_length_unchecked` shows that the
code does not check this): after any history of admissible assignments, accepted or rejected, neighbouring local
tensors have equal bond sizes, the outer bonds and the number of sites are unchanged. -/
theorem C13_history_partial {a b : ℕ} (as : List (Assign R)) (x : MPA R) (hx : Chained a x.lt b)
    (ha : AdmissibleAll x as) :
    Chained a (x.assigns as).lt b ∧ (x.assigns as).len = x.len := by
  induction as generalizing x with
  | nil => exact ⟨hx, rfl⟩
  | cons op as ih =>
    obtain ⟨h1, h2⟩ := ha
    unfold MPA.assigns
    cases hop : x.assign op with
    | error e => rw [hop] at h2; exact ih x hx h2
    | ok y =>
      rw [hop] at h2
      have key : Chained a y.lt b ∧ y.len = x.len := by
        cases op with
        | int i t c => exact MPA.updateInt_chained hx hop
        | slice s e ts c => exact MPA.updateSlice_ok h1 hx hop
      obtain ⟨g1, g2⟩ := ih y key.1 h2
      exact ⟨g1, g2.trans key.2⟩

/-- C13: an assignment to one site that would break a bond is rejected. -/
theorem C13_int_reject (x : MPA R) (i : ℤ) (t u : NDArray R) (c : CanonArg) (pos : ℕ)
    (hp : pyIndex x.len i = .ok pos) (hu : x.lt[pos]? = some u)
    (h : t.ndim < 2 ∨ t.lb ≠ u.lb ∨ t.rb ≠ u.rb) : x.updateInt i t c = .error .assertion := by
  have hg : ∀ d, x.lt.getD pos d = u := by
    intro d; rw [List.getD_eq_getElem?_getD, hu, Option.getD_some]
  unfold MPA.updateInt
  rw [hp, ok_bind]
  simp only [hg, pyAssert]
  by_cases h1 : t.ndim ≥ 2
  · rw [if_pos h1, ok_bind]
    by_cases h2 : u.lb = t.lb
    · rw [if_pos h2, ok_bind, if_neg (by rcases h with h | h | h; omega; exact absurd h2.symm h; exact fun e => h e.symm)]
      rfl
    · rw [if_neg h2]; rfl
  · rw [if_neg h1]; rfl

/-- C13: an index outside of the chain is rejected with `IndexError`. -/
theorem C13_int_index (x : MPA R) (i : ℤ) (t : NDArray R) (c : CanonArg)
    (h : i < -(x.len : ℤ) ∨ (x.len : ℤ) ≤ i) : x.updateInt i t c = .error .index := by
  unfold MPA.updateInt
  have : pyIndex x.len i = .error .index := by
    unfold pyIndex
    rw [if_neg (by omega), if_neg (by omega)]
  rw [this]; rfl

/-- C13: a slice assignment whose tensors do not fit to each other or to the neighbours of the
slice is rejected with `AssertionError`. -/
theorem C13_slice_reject (x : MPA R) (start stop : Option ℤ) (f t u : NDArray R)
    (us : List (NDArray R)) (c : CanonArg) (s e : ℕ)
    (hs : sliceIndices start stop none x.len = .ok (s, e, 1)) (hse : s < e)
    (ht : x.lt[s]? = some t) (hu : x.lt[e - 1]? = some u)
    (h : f.lb ≠ t.lb ∨ adjOK (f :: us) = false ∨ ((f :: us).getLastD f).rb ≠ u.rb) :
    x.updateSlice start stop none (f :: us) c = .error .assertion := by
  have h1 : s < x.len := (List.getElem?_eq_some_iff.1 ht).1
  have h2 : e - 1 < x.len := (List.getElem?_eq_some_iff.1 hu).1
  unfold MPA.updateSlice
  rw [hs, ok_bind]
  simp only
  rw [pyIndex_nat h1, ok_bind, ok_bind, List.getD_eq_getElem?_getD, ht, Option.getD_some]
  unfold pyAssert
  by_cases g1 : t.lb = f.lb
  · rw [if_pos g1, ok_bind]
    by_cases g2 : adjOK (f :: us) = true
    · rw [if_pos g2, ok_bind, show (e : ℤ) - 1 = ((e - 1 : ℕ) : ℤ) by omega, pyIndex_nat h2, ok_bind,
        List.getD_eq_getElem?_getD, hu, Option.getD_some, if_neg]
      · rfl
      · rcases h with h | h | h
        · exact absurd g1.symm h
        · rw [g2] at h; cases h
        · exact fun e => h e.symm
    · rw [if_neg g2]; rfl
  · rw [if_neg g1]; rfl

/-- The code does *not* guarantee C13 without the admissibility condition: a slice of two sites is
accepted with one local tensor, and the bond between the sites is broken afterwards. -/
theorem C13_slice_length_unchecked :
    ∃ (x y : MPA ℤ) (t : NDArray ℤ), x.Valid ∧
      x.updateSlice (some 0) (some 2) none [t] .none = .ok y ∧ ¬ Chained 1 y.lt 1 := by
  refine ⟨exMPA, ⟨[⟨[1, 2, 1], fun _ => 0⟩, ⟨[2, 3, 1], fun i => match i with | [a, p, _] => (a : ℤ) * p - 1 | _ => 0⟩], 0, 2⟩,
    ⟨[1, 2, 1], fun _ => 0⟩, exMPA_valid, rfl, ?_⟩
  rintro ⟨_, _, _, h, _⟩
  revert h; decide

/-- Neither is the number of legs checked for slices: a one-dimensional array becomes a "local
tensor" of a two-site MPA. -/
theorem C13_slice_ndim_unchecked :
    ∃ (x y : MPA ℤ) (t u : NDArray ℤ), x.Valid ∧ u.ndim = 1 ∧
      x.updateSlice (some 0) (some 2) none [t, u] .none = .ok y ∧ u ∈ y.lt := by
  refine ⟨exMPA, ⟨[⟨[1, 2, 1], fun _ => 0⟩, ⟨[1], fun _ => 0⟩], 0, 2⟩,
    ⟨[1, 2, 1], fun _ => 0⟩, ⟨[1], fun _ => 0⟩, exMPA_valid, rfl, rfl, ?_⟩
  simp

/-- A loop with too few canonicalization values stops early. -/
theorem MPA.updateLoop_take (ts : List (NDArray R)) : ∀ (x : MPA R) (is : List ℤ) (cs : List (Option Canon)),
    x.updateLoop ts is (some cs) = x.updateLoop (ts.take cs.length) (is.take cs.length) (some cs) := by
  induction ts with
  | nil => intro x is cs; simp [MPA.updateLoop]
  | cons t ts ih =>
    intro x is cs
    cases cs with
    | nil => cases is <;> rfl
    | cons c cs =>
      cases is with
      | nil => simp [MPA.updateLoop]
      | cons i is =>
        show (x.update1 i t c >>= fun x' => x'.updateLoop ts is (some cs)) = (x.update1 i t c >>= fun x' =>
          x'.updateLoop (ts.take cs.length) (is.take cs.length) (some cs))
        simp only [ih]

/-- The documentation of `update` says that a single value of `canonicalization` is repeated for every site of the slice.
A string is a sequence, though, so it is iterated: `update(slice(None), tens, 'left')` on five or more sites
replaces the first four sites only (one for each letter of `left`), and the claim is dropped. -/
theorem C13_slice_string (x : MPA R) (ts : List (NDArray R)) (hx : Chained 1 x.lt 1) (ht : Chained 1 ts 1)
    (hlen : ts.length = x.len) (h5 : 5 ≤ x.len) :
    ∃ y, x.updateSlice none none none ts (.str .left) = .ok y ∧ y.lt = ts.take 4 ++ x.lt.drop 4 := by
  obtain ⟨y, h1, h2⟩ := MPA.updateLoop_lt (ts.take 4) x 0 (some (List.replicate 4 none)) (by simp; omega) (by simp)
  have h4 : (ts.take 4).length = 4 := by simp; omega
  refine ⟨y, ?_, by rw [h2, h4]; simp⟩
  have hsi : sliceIndices none none none x.len = .ok (0, (x.len : ℤ), 1) := rfl
  have h0 : 0 < x.len := by omega
  cases ts with
  | nil => simp at hlen; omega
  | cons f us =>
    unfold MPA.updateSlice
    rw [hsi, ok_bind]
    simp only
    rw [show pyIndex x.len 0 = .ok 0 from pyIndex_nat h0, ok_bind, ok_bind, pyAssert, if_pos, ok_bind, pyAssert, if_pos, ok_bind,
      show ((x.len : ℤ) - 1) = ((x.len - 1 : ℕ) : ℤ) by omega, pyIndex_nat (by omega), ok_bind, pyAssert, if_pos, ok_bind]
    · rw [show MPA.canonSeq (.str .left) = some (List.replicate 4 none) from rfl, MPA.updateLoop_take]
      have hr := MPA.pyRange_nat (s := 0) (n := x.len)
      rw [Nat.cast_zero, zero_add] at hr
      rw [hr, List.length_replicate, ← List.map_take, show (List.range' 0 x.len).take 4 = List.range' 0 4 by
        obtain ⟨k, hk⟩ : ∃ k, x.len = 4 + k := ⟨x.len - 4, by omega⟩
        rw [hk, ← List.range'_append_1, List.take_left' (by simp)]]
      rw [h4] at h1
      exact h1
    · obtain ⟨us', t, e⟩ : ∃ us' t, f :: us = us' ++ [t] := ⟨_, _, (List.dropLast_append_getLast (by simp)).symm⟩
      obtain ⟨xs', u, e'⟩ : ∃ xs' u, x.lt = xs' ++ [u] :=
        ⟨_, _, (List.dropLast_append_getLast (l := x.lt) (by intro h; simp [MPA.len, h] at h0)).symm⟩
      rw [e] at ht ⊢
      rw [e'] at hx
      have hg : ∀ d, x.lt.getD (x.len - 1) d = u := by
        intro d
        rw [MPA.len, e']
        simp
      rw [hg]
      simp only [List.getLastD_concat]
      rw [(chained_concat.1 hx).2.2, (chained_concat.1 ht).2.2]
    · exact adjOK_of_chained ht
    · cases hxl : x.lt with
      | nil => simp [MPA.len, hxl] at h0
      | cons t xs =>
        rw [hxl] at hx
        simp only [List.getD_cons_zero]
        rw [hx.2.1, ht.2.1]

/-- Five sites of which the last is not replaced. -/
example : ∃ y, (⟨List.replicate 5 ⟨[1, 2, 1], fun _ => 7⟩, 0, 5⟩ : MPA ℤ).updateSlice none none none
    (List.replicate 5 ⟨[1, 2, 1], fun _ => 0⟩) (.str .left) = .ok y ∧ ∃ t ∈ y.lt, t.get [0, 0, 0] = 7 := by
  obtain ⟨y, h1, h2⟩ := C13_slice_string (R := ℤ) ⟨List.replicate 5 ⟨[1, 2, 1], fun _ => 7⟩, 0, 5⟩
    (List.replicate 5 ⟨[1, 2, 1], fun _ => 0⟩) (by simp [List.replicate, NDArray.IsLocal, NDArray.ndim, NDArray.lb, NDArray.rb])
    (by simp [List.replicate, NDArray.IsLocal, NDArray.ndim, NDArray.lb, NDArray.rb]) rfl (by decide)
  exact ⟨y, h1, ⟨[1, 2, 1], fun _ => 7⟩, by rw [h2]; simp, rfl⟩

/-! ### C12 for site assignments -/

section
variable [CommRing R] [StarRing R]

/-- The claim made with an assignment is true of the tensor. -/
def claimTrue (c : Option Canon) (t : NDArray R) : Prop :=
  (c = some .left → LCanon t) ∧ (c = some .right → RCanon t)

/-- C12 for assignments to one site by a non-negative index: if the claim about the new tensor is
true and at least one site stays without claim, then the canonical form is true afterwards.
Missing (see the two theorems below): negative indices, and a claim which makes the left and the
right canonical part meet. -/
theorem C12_update_partial (x : MPA R) (hx : x.Valid) (hc : x.CanonOK) (pos : ℕ) (t : NDArray R)
    (c : Option Canon) (ht : claimTrue c t)
    (hl : c = some .left → (pos : ℤ) + 1 < x.r) (hr : c = some .right → x.l < (pos : ℤ))
    (y : MPA R) (hy : x.updateInt pos t (match c with | some c => .str c | none => .none) = .ok y) :
    y.Valid ∧ y.CanonOK := by
  obtain ⟨hch, hlen⟩ := MPA.updateInt_chained hx.chain hy
  have hpos : pos < x.len := by
    by_contra hcon
    rw [C13_int_index x pos t _ (Or.inr (by omega))] at hy
    cases hy
  have hne : y.lt ≠ [] := by
    intro h; have := hx.ne; apply this
    have : y.len = 0 := by simp [MPA.len, h]
    rw [hlen] at this
    exact List.length_eq_zero_iff.1 this
  have hl0 := hx.l_nonneg
  have hlr := hx.l_lt_r
  have hrle := hx.r_le
  have hy' : x.update1 pos t c = .ok y := by
    unfold MPA.updateInt at hy
    rw [pyIndex_nat hpos, ok_bind] at hy
    unfold pyAssert at hy
    simp only at hy
    split at hy
    · simp only [ok_bind] at hy
      split at hy
      · simp only [ok_bind] at hy
        split at hy
        · simp only [ok_bind] at hy
          cases c <;> exact hy
        · cases hy
      · cases hy
    · cases hy
  rw [MPA.update1_ok x hpos] at hy'
  have hold : ∀ (n : ℕ) (u : NDArray R), (x.lt.set pos t)[n]? = some u → n ≠ pos → x.lt[n]? = some u := by
    intro n u h hn
    rwa [List.getElem?_set_ne (Ne.symm hn)] at h
  have hnew : ∀ (u : NDArray R), (x.lt.set pos t)[pos]? = some u → u = t := by
    intro u h
    rw [List.getElem?_set_self (by exact hpos)] at h; injection h with h; exact h.symm
  injection hy' with hy'
  split at hy'
  · rename_i h
    have h3 := hl h.1
    subst hy'
    refine ⟨⟨hne, hch, by simp only; omega, by simp only; omega, by rw [hlen]; exact hrle⟩, ?_⟩
    intro n u hu
    by_cases hn : n = pos
    · subst hn
      rw [hnew u hu]
      exact ⟨fun _ => ht.1 h.1, fun hh => by exfalso; simp only at hh; omega⟩
    · obtain ⟨g1, g2⟩ := hc n u (hold n u hu hn)
      refine ⟨fun hh => g1 ?_, g2⟩
      simp only at hh; omega
  · split at hy'
    · rename_i h0 h
      have h3 := hr h.1
      subst hy'
      refine ⟨⟨hne, hch, by simp only; omega, by simp only; omega, by rw [hlen]; simp only; omega⟩, ?_⟩
      intro n u hu
      by_cases hn : n = pos
      · subst hn
        rw [hnew u hu]
        exact ⟨fun hh => by exfalso; simp only at hh; omega, fun _ => ht.2 h.1⟩
      · obtain ⟨g1, g2⟩ := hc n u (hold n u hu hn)
        refine ⟨g1, fun hh => g2 ?_⟩
        simp only at hh; omega
    · subst hy'
      refine ⟨⟨hne, hch, by simp only; omega, by simp only; omega, by rw [hlen]; simp only; omega⟩, ?_⟩
      intro n u hu
      by_cases hn : n = pos
      · subst hn
        exact ⟨fun hh => by exfalso; simp only at hh; omega, fun hh => by exfalso; simp only at hh; omega⟩
      · obtain ⟨g1, g2⟩ := hc n u (hold n u hu hn)
        exact ⟨fun hh => g1 (by simp only at hh; omega), fun hh => g2 (by simp only at hh; omega)⟩

end

/-- One site of shape `(1, 1, 1)` with entry `c`. -/
def oneSite (c : ℤ) : NDArray ℤ := ⟨[1, 1, 1], fun _ => c⟩

/-- The code does *not* keep the canonical form true for negative indices: `mpa.lt[-1] = t` on an
MPA in form `(0, 1)` leaves the claim `right = 1`, although the new last tensor is arbitrary. -/
theorem C12_negative_index :
    ∃ (x y : MPA ℤ) (t : NDArray ℤ), x.Valid ∧ x.CanonOK ∧
      x.updateInt (-1) t .none = .ok y ∧ ¬ y.CanonOK ∧ y.l < 0 := by
  refine ⟨⟨[oneSite 3, oneSite 1], 0, 1⟩, ⟨[oneSite 3, oneSite 5], -1, 1⟩, oneSite 5, ?_, ?_, rfl, ?_, ?_⟩
  · exact ⟨by simp, by simp [oneSite, NDArray.IsLocal, NDArray.ndim, NDArray.lb, NDArray.rb],
      by simp, by simp, by simp [MPA.len]⟩
  · intro n t h
    match n with
    | 0 => exact ⟨fun h => absurd h (by simp), fun h => absurd h (by simp)⟩
    | 1 =>
      simp at h; subst h
      refine ⟨fun h => absurd h (by simp), fun _ a ha a' ha' => ?_⟩
      have h1 : a = 0 := by simpa [oneSite, NDArray.lb] using ha
      have h2 : a' = 0 := by simpa [oneSite, NDArray.lb] using ha'
      subst h1; subst h2; decide
    | n + 2 => simp at h
  · intro h
    have := (h 1 (oneSite 5) (by simp)).2 (by simp) 0 (by decide) 0 (by decide)
    revert this; decide
  · decide

/-- The code does *not* keep the canonical form true when the two canonical parts meet: on an MPA
in form `(1, 2)` of two sites, `update(1, t, 'left')` with a left-canonical `t` gives the form
`(2, 2)`; this is still true, but the MPA can not be copied any more (`AssertionError`). -/
theorem C12_left_meets_right :
    ∃ (x y : MPA ℤ) (t : NDArray ℤ), x.Valid ∧ x.CanonOK ∧ LCanon t ∧
      x.updateInt 1 t (.str .left) = .ok y ∧ y.l = y.len ∧ y.copy = .error .assertion := by
  have hL : LCanon (oneSite 1) := by
    intro a ha a' ha'
    have h1 : a = 0 := by simpa [oneSite, NDArray.rb] using ha
    have h2 : a' = 0 := by simpa [oneSite, NDArray.rb] using ha'
    subst h1; subst h2; decide
  refine ⟨⟨[oneSite 1, oneSite 3], 1, 2⟩, ⟨[oneSite 1, oneSite 1], 2, 2⟩, oneSite 1, ?_, ?_, hL, rfl, rfl, rfl⟩
  · exact ⟨by simp, by simp [oneSite, NDArray.IsLocal, NDArray.ndim, NDArray.lb, NDArray.rb],
      by simp, by simp, by simp [MPA.len]⟩
  · intro n t h
    match n with
    | 0 => simp at h; subst h; exact ⟨fun _ => hL, fun h => absurd h (by simp)⟩
    | 1 => exact ⟨fun h => absurd h (by simp), fun h => absurd h (by simp)⟩
    | n + 2 => simp at h

/-- The `(1, 2, 2)` and `(2, 2, 1)` reshapes of the identity matrix, and a unit vector of shape
`(2, 1, 1)`. -/
def idL : NDArray ℤ := ⟨[1, 2, 2], fun i => match i with | [_, p, b] => if p = b then 1 else 0 | _ => 0⟩
def idR : NDArray ℤ := ⟨[2, 2, 1], fun i => match i with | [a, p, _] => if a = p then 1 else 0 | _ => 0⟩
def unitL : NDArray ℤ := ⟨[2, 1, 1], fun i => match i with | [a, _, _] => if a = 0 then 1 else 0 | _ => 0⟩

/-- The code does *not* keep the canonical form true when the two canonical parts meet: starting
from form `(0, 1)`, two assignments with true claims `'left'` end in a form that claims the second
site to be right-canonical, which it is not. -/
theorem C12_meeting_breaks :
    ∃ (x y z : MPA ℤ) (t u : NDArray ℤ), x.Valid ∧ x.CanonOK ∧ LCanon t ∧ LCanon u ∧
      x.updateInt 0 t (.str .left) = .ok y ∧ y.updateInt 1 u (.str .left) = .ok z ∧
      ¬ z.CanonOK := by
  have hL : LCanon idL := by
    intro a ha a' ha'
    have h1 : a < 2 := ha
    have h2 : a' < 2 := ha'
    interval_cases a <;> interval_cases a' <;> decide
  have hU : LCanon unitL := by
    intro a ha a' ha'
    have h1 : a < 1 := ha
    have h2 : a' < 1 := ha'
    interval_cases a; interval_cases a'; decide
  refine ⟨⟨[idL, idR], 0, 1⟩, ⟨[idL, idR], 1, 1⟩, ⟨[idL, unitL], 2, 1⟩, idL, unitL, ?_, ?_, hL, hU, rfl, rfl, ?_⟩
  · exact ⟨by simp, by simp [idL, idR, NDArray.IsLocal, NDArray.ndim, NDArray.lb, NDArray.rb],
      by simp, by simp, by simp [MPA.len]⟩
  · intro n t h
    match n with
    | 0 => exact ⟨fun h => absurd h (by simp), fun h => absurd h (by simp)⟩
    | 1 =>
      simp at h; subst h
      refine ⟨fun h => absurd h (by simp), fun _ a ha a' ha' => ?_⟩
      have h1 : a < 2 := ha
      have h2 : a' < 2 := ha'
      interval_cases a <;> interval_cases a' <;> decide
    | n + 2 => simp at h
  · intro h
    have := (h 1 unitL (by simp)).2 (by simp) 1 (by decide) 1 (by decide)
    revert this; decide

/-- Non-vacuity of `C13_history_partial`: an accepted integer assignment by a negative index, a rejected
one, and an accepted slice assignment that changes the rank. -/
example : Chained 1 exMPA.lt 1 ∧ AdmissibleAll exMPA
      [.int (-1) ⟨[2, 5, 1], fun _ => 1⟩ .none, .int 0 ⟨[1, 2, 3], fun _ => 1⟩ .none,
        .slice none none [⟨[1, 2, 4], fun _ => 1⟩, ⟨[4, 2, 1], fun _ => 1⟩] .none] ∧
    ((exMPA.assigns
      [.int (-1) ⟨[2, 5, 1], fun _ => 1⟩ .none, .int 0 ⟨[1, 2, 3], fun _ => 1⟩ .none,
        .slice none none [⟨[1, 2, 4], fun _ => 1⟩, ⟨[4, 2, 1], fun _ => 1⟩] .none]).lt.map
          NDArray.shape) = [[1, 2, 4], [4, 2, 1]] := by
  refine ⟨exMPA_valid.chain, ⟨trivial, trivial, ⟨?_, ?_, ?_⟩, trivial⟩, by decide⟩
  · intro t ht
    simp only [List.mem_cons, List.not_mem_nil, or_false] at ht
    rcases ht with rfl | rfl <;> simp [NDArray.IsLocal, NDArray.ndim]
  · intro s e st h
    have : sliceIndices none none none 2 = .ok (s, e, st) := h
    simp [sliceIndices] at this
    simp [← this.1, ← this.2.1]
  · intro cs h; cases h

end Mpnum
