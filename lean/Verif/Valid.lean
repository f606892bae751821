import Verif.MPStruct
import Verif.MP

/-! Validity predicates for MPA states, used in the hypotheses and conclusions of the property
theorems. -/

namespace Mpnum

variable {R : Type}

namespace MPA

/-- A well-formed `MPArray` with open boundary conditions: at least one site, matching bonds, outer
bonds of size one, and a canonical form `(l, r)` with `0 ≤ l < r ≤ len`. -/
structure Valid (x : MPA R) : Prop where
  ne : x.lt ≠ []
  chain : Chained 1 x.lt 1
  l_nonneg : 0 ≤ x.l
  l_lt_r : x.l < x.r
  r_le : x.r ≤ x.len

/-- The canonical form claim is true: `lt[:l]` are left-canonical, `lt[r:]` right-canonical. -/
def CanonOK [CommRing R] [StarRing R] (x : MPA R) : Prop :=
  ∀ (n : ℕ) (t : NDArray R), x.lt[n]? = some t →
    ((n : ℤ) < x.l → LCanon t) ∧ (x.r ≤ (n : ℤ) → RCanon t)

/-- The tensor represented by `x` at the physical index `idx` (one multi-index per site). -/
abbrev val [Semiring R] (x : MPA R) (idx : List (List ℕ)) : R := entry x.lt idx

end MPA

theorem adjOK_of_chained {l r : ℕ} {ts : List (NDArray R)} (h : Chained l ts r) :
    adjOK ts = true := by
  induction ts generalizing l with
  | nil => rfl
  | cons t ts ih =>
    cases ts with
    | nil => rfl
    | cons u us =>
      obtain ⟨h1, _, h3⟩ := h
      have := ih h3
      obtain ⟨h4, h5, _⟩ := h3
      unfold NDArray.IsLocal at h1 h4
      simp only [adjOK, this, Bool.and_true, Bool.and_eq_true, decide_eq_true_eq, beq_iff_eq]
      exact ⟨⟨by omega, by omega⟩, h5.symm⟩

theorem mkLT_ok {l r : ℕ} {ts : List (NDArray R)} (hne : ts ≠ []) (h : Chained l ts r)
    {cl cr : ℤ} (h1 : 0 ≤ cl) (h2 : cl < ts.length) (h3 : 0 < cr) (h4 : cr ≤ ts.length) :
    mkLT ts (some cl) (some cr) = .ok ⟨ts, cl, cr⟩ := by
  have h0 : 0 < ts.length := List.length_pos_of_ne_nil hne
  unfold mkLT
  simp only [Option.getD_some, pyAssert, if_neg (show ¬ cr = 0 by omega), adjOK_of_chained h]
  rw [if_pos h0, if_pos ⟨h1, h2⟩, if_pos ⟨h3, h4⟩]
  rfl

theorem mkMPA_ok {l r : ℕ} {ts : List (NDArray R)} (hne : ts ≠ []) (h : Chained l ts r) :
    mkMPA ts = .ok ⟨ts, 0, ts.length⟩ := by
  have h0 : 0 < ts.length := List.length_pos_of_ne_nil hne
  unfold mkMPA mkLT
  simp only [Option.getD_none, pyAssert, adjOK_of_chained h, if_true]
  rw [if_pos h0, if_pos ⟨le_refl _, by omega⟩, if_pos ⟨by omega, le_refl _⟩]
  rfl

/-- An `MPArray` made of a plain list of local tensors claims nothing about canonical form. -/
theorem valid_mk {ts : List (NDArray R)} (hne : ts ≠ []) (h : Chained 1 ts 1) :
    (⟨ts, 0, ts.length⟩ : MPA R).Valid := by
  have h0 : 0 < ts.length := List.length_pos_of_ne_nil hne
  exact ⟨hne, h, le_refl _, by simpa using h0, le_refl _⟩

theorem canonOK_mk [CommRing R] [StarRing R] (ts : List (NDArray R)) :
    (⟨ts, 0, ts.length⟩ : MPA R).CanonOK := by
  intro n t h
  have hn : n < ts.length := (List.getElem?_eq_some_iff.1 h).1
  exact ⟨fun h => absurd h (by simp), fun h => absurd h (by simp; omega)⟩

end Mpnum
