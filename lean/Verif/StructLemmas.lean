import Verif.Valid

/-! Lemmas about `LocalTensors.update`. -/

namespace Mpnum

variable {R : Type}

namespace MPA

theorem update1_ok (x : MPA R) {pos : ℕ} (h : pos < x.len) (t : NDArray R) (c : Option Canon) :
    x.update1 pos t c =
      .ok (if c = some .left ∧ x.l - pos ≥ 0 then ⟨x.lt.set pos t, max (pos + 1) x.l, x.r⟩
        else if c = some .right ∧ (pos : ℤ) - x.r ≥ -1 then ⟨x.lt.set pos t, x.l, min (pos : ℤ) x.r⟩
        else ⟨x.lt.set pos t, min (pos : ℤ) x.l, max (pos + 1) x.r⟩) := by
  unfold update1
  rw [pyIndex_nat h]
  simp only [ok_bind, py_pure]
  split
  · rfl
  · split <;> rfl

theorem updateInt_ok (x : MPA R) {pos : ℕ} {u : NDArray R} (h : x.lt[pos]? = some u)
    {t : NDArray R} (ht : t.IsLocal) (hl : u.lb = t.lb) (hr : u.rb = t.rb) (c : CanonArg) :
    x.updateInt pos t c = x.update1 pos t (match c with | .str c => some c | _ => none) := by
  have hlt : pos < x.len := (List.getElem?_eq_some_iff.1 h).1
  have hgd : ∀ d, x.lt.getD pos d = u := by intro d; simp [List.getD_eq_getElem?_getD, h]
  unfold updateInt
  rw [pyIndex_nat hlt, ok_bind]
  simp only [hgd]
  rw [pyAssert_true (show t.ndim ≥ 2 from ht), pyAssert_true hl, pyAssert_true hr]
  rfl

end MPA

end Mpnum
