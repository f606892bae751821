import Verif.Props.C13
import Verif.Props.C17
import Verif.Props.C19
import Verif.Props.C20
import Verif.Props.C38
import Verif.Props.C43
import Verif.Props.C45
import Verif.Povm.Lfun

/-! # C85: only arguments in the documented domain are accepted

The other properties say what the functions return for admissible arguments.  The theorems of this file
say that nothing else is accepted: whenever a call returns a value, its arguments were admissible.  For
some functions both directions together give an exact description of the accepted arguments. -/

open Finset

namespace Mpnum

variable {R : Type}

theorem pyAssert_inv {p : Prop} [Decidable p] {u : Unit} (h : pyAssert p = .ok u) : p := by
  by_contra hp
  rw [pyAssert, if_neg hp] at h
  cases h

theorem pyGuard_inv {p : Prop} [Decidable p] {e : PyErr} {u : Unit} (h : pyGuard p e = .ok u) : p := by
  by_contra hp
  rw [pyGuard, if_neg hp] at h
  cases h

/-! ### specification -/

/-- Neighbouring arrays agree in the last leg of the first and the first leg of the second. -/
def BondsAgree (ts : List (NDArray R)) : Prop :=
  ∀ n t u, ts[n]? = some t → ts[n + 1]? = some u → ∃ D, t.shape.getLast? = some D ∧ u.shape.head? = some D

/-- The physical legs of a local tensor of an MP-POVM: at most 255 outcomes, and operators whose rows
and columns agree. -/
def IsPovmSite (t : NDArray R) : Prop := ∃ l o d r, t.shape = [l, o, d, d, r] ∧ o ≤ 255

theorem adjOK_iff (ts : List (NDArray R)) : adjOK ts = true ↔ BondsAgree ts := by
  induction ts with
  | nil => simp [adjOK, BondsAgree]
  | cons t ts ih =>
    cases ts with
    | nil => simp [adjOK, BondsAgree]
    | cons u us =>
      have hstep : adjOK (t :: u :: us) = true ↔
          (∃ D, t.shape.getLast? = some D ∧ u.shape.head? = some D) ∧ adjOK (u :: us) = true := by
        have : adjOK (t :: u :: us) = (decide (0 < t.ndim) && decide (0 < u.ndim) && t.rb == u.lb && adjOK (u :: us)) := rfl
        rw [this, Bool.and_eq_true]
        refine and_congr_left' ?_
        rw [Bool.and_eq_true, Bool.and_eq_true, decide_eq_true_eq, decide_eq_true_eq, beq_iff_eq]
        unfold NDArray.ndim NDArray.rb NDArray.lb
        rcases List.eq_nil_or_concat t.shape with h | ⟨s, a, h⟩
        · simp [h]
        · cases hu : u.shape with
          | nil => simp
          | cons b s' => simp [h, eq_comm]
      rw [hstep, ih]
      constructor
      · rintro ⟨h1, h2⟩ n a b ha hb
        cases n with
        | zero =>
          simp only [List.getElem?_cons_zero, List.getElem?_cons_succ, Option.some.injEq] at ha hb
          subst ha; subst hb; exact h1
        | succ n => exact h2 n a b (by simpa using ha) (by simpa using hb)
      · intro h
        exact ⟨h 0 t u rfl rfl, fun n a b ha hb => h (n + 1) a b (by simpa using ha) (by simpa using hb)⟩

theorem mkLT_inv {ts : List (NDArray R)} {cl cr : Option ℤ} {x : MPA R} (h : mkLT ts cl cr = .ok x) :
    ts ≠ [] ∧ (0 ≤ cl.getD 0 ∧ cl.getD 0 < ts.length) ∧
      (let r := if cr.getD 0 = 0 then (ts.length : ℤ) else cr.getD 0; 0 < r ∧ r ≤ ts.length) ∧
      BondsAgree ts ∧ x.lt = ts := by
  unfold mkLT at h
  obtain ⟨_, h1, h⟩ := bind_ok_inv h
  obtain ⟨_, h2, h⟩ := bind_ok_inv h
  obtain ⟨_, h3, h⟩ := bind_ok_inv h
  obtain ⟨_, h4, h⟩ := bind_ok_inv h
  refine ⟨List.length_pos_iff.1 (pyAssert_inv h1), pyAssert_inv h2, pyAssert_inv h3, (adjOK_iff ts).1 (pyAssert_inv h4), ?_⟩
  cases h; rfl

/-! ### constructors -/

/-- C85: the constructor of MPArray accepts exactly the non-empty lists of arrays with matching bonds;
everything else is an AssertionError, and the accepted arrays are stored unchanged. -/
theorem C85_constructor (ts : List (NDArray R)) :
    ((∃ x, mkMPA ts = .ok x ∧ x.lt = ts ∧ x.l = 0 ∧ x.r = ts.length) ↔ ts ≠ [] ∧ BondsAgree ts) ∧
    (¬ (ts ≠ [] ∧ BondsAgree ts) → mkMPA ts = .error .assertion) := by
  refine ⟨⟨?_, ?_⟩, ?_⟩
  · rintro ⟨x, h, _⟩
    obtain ⟨h1, _, _, h2, _⟩ := mkLT_inv h
    exact ⟨h1, h2⟩
  · rintro ⟨h1, h2⟩
    have h0 := List.length_pos_iff.2 h1
    refine ⟨⟨ts, 0, ts.length⟩, ?_, rfl, rfl, rfl⟩
    unfold mkMPA mkLT
    simp only [Option.getD_none, if_pos]
    rw [pyAssert_true h0, ok_bind, pyAssert_true (by omega), ok_bind, pyAssert_true (by omega), ok_bind,
      pyAssert_true ((adjOK_iff ts).2 h2)]
    rfl
  · intro hn
    unfold mkMPA mkLT
    simp only [Option.getD_none, if_pos]
    by_cases h1 : ts = []
    · subst h1; rfl
    · have h0 := List.length_pos_iff.2 h1
      rw [pyAssert_true h0, ok_bind, pyAssert_true (by omega), ok_bind, pyAssert_true (by omega), ok_bind,
        pyAssert_false (fun h => hn ⟨h1, (adjOK_iff ts).1 h⟩)]
      rfl

/-- C85: `MPPovm(ltens)` accepts exactly the non-empty lists of arrays with matching bonds whose
physical legs are one outcome leg of at most 255 outcomes and two operator legs of equal size. -/
theorem C85_povm (ts : List (NDArray R)) :
    ((∃ x, mkPovm ts = .ok x ∧ x.lt = ts) ↔ ts ≠ [] ∧ BondsAgree ts ∧ ∀ t ∈ ts, IsPovmSite t) ∧
    (¬ (ts ≠ [] ∧ BondsAgree ts ∧ ∀ t ∈ ts, IsPovmSite t) → mkPovm ts = .error .assertion) := by
  have hsite : ∀ t : NDArray R, IsPovmSite t ↔ t.ndim - 2 = 3 ∧ t.ph.getD 1 0 = t.ph.getD 2 0 ∧ t.shape.getD 1 0 ≤ 255 := by
    intro t
    unfold IsPovmSite NDArray.ndim NDArray.ph
    constructor
    · rintro ⟨l, o, d, r, h, ho⟩
      rw [h]; exact ⟨rfl, rfl, ho⟩
    · rintro ⟨h1, h2, h3⟩
      match hs : t.shape, h1, h2, h3 with
      | [l, o, d, e, r], _, h2, h3 =>
        have : d = e := h2
        subst this
        exact ⟨l, o, d, r, rfl, h3⟩
  have hall : (∀ t ∈ ts, IsPovmSite t) ↔ (∀ n ∈ ts.map (fun t : NDArray R => t.ndim - 2), n = 3) ∧
      (∀ s ∈ ts.map NDArray.ph, s.getD 1 0 = s.getD 2 0) ∧ (∀ d ∈ ts.map (fun t : NDArray R => t.shape.getD 1 0), d ≤ 255) := by
    simp only [List.forall_mem_map, hsite]
    exact ⟨fun h => ⟨fun t ht => (h t ht).1, fun t ht => (h t ht).2.1, fun t ht => (h t ht).2.2⟩,
      fun h t ht => ⟨h.1 t ht, h.2.1 t ht, h.2.2 t ht⟩⟩
  have hcheck : ∀ x : MPA R, x.lt = ts → (∀ t ∈ ts, IsPovmSite t) → x.povmCheck = .ok x := by
    intro x hx h
    obtain ⟨h1, h2, h3⟩ := hall.1 h
    unfold MPA.povmCheck MPA.ndims MPA.shape MPA.outdims
    rw [hx, pyAssert_true h1, ok_bind, pyAssert_true h2, ok_bind, pyAssert_true h3]
    rfl
  obtain ⟨hc, he⟩ := C85_constructor ts
  refine ⟨⟨?_, ?_⟩, ?_⟩
  · rintro ⟨x, h, _⟩
    unfold mkPovm at h
    obtain ⟨y, h1, h⟩ := bind_ok_inv h
    have hy := mkMPA_eq h1
    have hlt : y.lt = ts := by rw [hy]
    obtain ⟨h2, _, _, h3, _⟩ := mkLT_inv h1
    refine ⟨h2, h3, hall.2 ?_⟩
    unfold MPA.povmCheck MPA.ndims MPA.shape MPA.outdims at h
    rw [hlt] at h
    obtain ⟨_, g1, h⟩ := bind_ok_inv h
    obtain ⟨_, g2, h⟩ := bind_ok_inv h
    obtain ⟨_, g3, h⟩ := bind_ok_inv h
    exact ⟨pyAssert_inv g1, pyAssert_inv g2, pyAssert_inv g3⟩
  · rintro ⟨h1, h2, h3⟩
    obtain ⟨x, g1, g2, _⟩ := hc.2 ⟨h1, h2⟩
    refine ⟨x, ?_, g2⟩
    unfold mkPovm
    rw [g1, ok_bind, hcheck x g2 h3]
  · intro hn
    unfold mkPovm
    by_cases h : ts ≠ [] ∧ BondsAgree ts
    · obtain ⟨x, g1, g2, _⟩ := hc.2 h
      rw [g1, ok_bind]
      have hbad : ¬ ((∀ n ∈ ts.map (fun t : NDArray R => t.ndim - 2), n = 3) ∧
          (∀ s ∈ ts.map NDArray.ph, s.getD 1 0 = s.getD 2 0) ∧
          (∀ d ∈ ts.map (fun t : NDArray R => t.shape.getD 1 0), d ≤ 255)) :=
        fun g => hn ⟨h.1, h.2, hall.2 g⟩
      unfold MPA.povmCheck MPA.ndims MPA.shape MPA.outdims
      rw [g2]
      by_cases k1 : ∀ n ∈ ts.map (fun t : NDArray R => t.ndim - 2), n = 3
      · rw [pyAssert_true k1, ok_bind]
        by_cases k2 : ∀ s ∈ ts.map NDArray.ph, s.getD 1 0 = s.getD 2 0
        · rw [pyAssert_true k2, ok_bind, pyAssert_false (fun k3 => hbad ⟨k1, k2, k3⟩)]; rfl
        · rw [pyAssert_false k2]; rfl
      · rw [pyAssert_false k1]; rfl
    · rw [he h]; rfl

/-- Two sites with one leg of size two and bond dimension three. -/
def exTwo85 : List (NDArray ℚ) := [⟨[1, 2, 3], fun _ => 1⟩, ⟨[3, 2, 1], fun _ => 1⟩]

/-- The same with bonds that do not match. -/
def exTwoBad85 : List (NDArray ℚ) := [⟨[1, 2, 3], fun _ => 1⟩, ⟨[2, 2, 1], fun _ => 1⟩]

theorem exTwo85_ok : ∃ x, mkMPA exTwo85 = .ok x := ⟨_, rfl⟩

theorem exTwoBad85_rejected : ¬ BondsAgree exTwoBad85 ∧ mkMPA exTwoBad85 = .error .assertion := by
  refine ⟨fun h => ?_, rfl⟩
  obtain ⟨D, h1, h2⟩ := h 0 _ _ rfl rfl
  simp at h1 h2
  omega

theorem exPovm_sites : (∃ x, mkPovm [(⟨[1, 4, 2, 2, 1], fun _ => 1⟩ : NDArray ℚ)] = .ok x) ∧
    mkPovm [(⟨[1, 4, 2, 3, 1], fun _ => 1⟩ : NDArray ℚ)] = .error .assertion ∧
    mkPovm [(⟨[1, 256, 2, 2, 1], fun _ => 1⟩ : NDArray ℚ)] = .error .assertion ∧
    mkPovm [(⟨[1, 4, 4, 1], fun _ => 1⟩ : NDArray ℚ)] = .error .assertion := by
  refine ⟨⟨_, rfl⟩, ?_, ?_, ?_⟩
  · refine (C85_povm _).2 ?_
    rintro ⟨_, _, h⟩
    obtain ⟨l, o, d, r, h, ho⟩ := h _ List.mem_cons_self
    simp at h; omega
  · refine (C85_povm _).2 ?_
    rintro ⟨_, _, h⟩
    obtain ⟨l, o, d, r, h, ho⟩ := h _ List.mem_cons_self
    simp at h; omega
  · refine (C85_povm _).2 ?_
    rintro ⟨_, _, h⟩
    obtain ⟨l, o, d, r, h, ho⟩ := h _ List.mem_cons_self
    simp at h

end Mpnum
