import Verif.MPArray.Scale
import Verif.StructLemmas
import Verif.Props.C05
import Mathlib.Data.Rat.Defs
import Mathlib.Algebra.Field.Rat

/-!
# C06: multiplication and division by scalars, negation, and the rest of C05 (subtraction)
-/

namespace Mpnum

variable {R : Type}

/-- `z` represents `c * x`, with everything else unchanged. -/
structure ScaleSpec [CommSemiring R] (c : R) (x z : MPA R) : Prop where
  valid : z.Valid
  shape : z.shape = x.shape
  ranks : z.ranks = x.ranks
  form : z.l = x.l ∧ z.r = x.r
  val : ∀ idx, IdxOK idx x.shape → z.val idx = c * x.val idx

theorem MPA.Valid.site_l {x : MPA R} (hx : x.Valid) :
    ∃ (pos : ℕ) (t : NDArray R), x.l = pos ∧ pyIndex x.len x.l = .ok pos ∧ x.lt[pos]? = some t := by
  obtain ⟨pos, hpos⟩ := Int.eq_ofNat_of_zero_le hx.l_nonneg
  have h1 := hx.l_lt_r
  have h2 := hx.r_le
  have hlt : pos < x.len := by omega
  refine ⟨pos, x.lt[pos]'hlt, hpos, ?_, List.getElem?_eq_getElem hlt⟩
  rw [hpos]; exact pyIndex_nat hlt

section
variable [CommRing R] [StarRing R]

omit [StarRing R] in
theorem mul_eq {x : MPA R} (hx : x.Valid) (c : R) :
    ∃ (pos : ℕ) (t : NDArray R), x.l = pos ∧ x.lt[pos]? = some t ∧
      x.mul c = .ok ⟨x.lt.set pos (t.smul c), x.l, x.r⟩ ∧
      x.imul c = .ok ⟨x.lt.set pos (t.rsmul c), x.l, x.r⟩ := by
  obtain ⟨pos, t, hl, hpos, ht⟩ := hx.site_l
  have hlt : pos < x.lt.length := (List.getElem?_eq_some_iff.1 ht).1
  have hloc : t.IsLocal := hx.chain.isLocal t (List.mem_of_getElem? ht)
  refine ⟨pos, t, hl, ht, ?_, ?_⟩
  · unfold MPA.mul
    rw [hpos]
    have e : x.lt.take pos ++ [t.smul c] ++ x.lt.drop (pos + 1) = x.lt.set pos (t.smul c) := by
      rw [List.set_eq_take_append_cons_drop, if_pos hlt]; simp
    obtain ⟨hv, -⟩ := MPA.scale_ok hx (t' := t.smul c) (c := c) ht rfl (fun _ => rfl)
    have h1 := hx.l_lt_r
    have h2 := hx.r_le
    have h3 := hx.l_nonneg
    unfold MPA.len at h2
    have := mkLT_ok (cl := x.l) (cr := x.r) hv.ne hv.chain h3 (by simp; omega) (by omega) (by simp; omega)
    show ((x.lt[pos]?).elim (Except.error PyErr.index) Except.ok >>= _) = _
    rw [ht]
    show mkLT _ _ _ = _
    rw [e]; exact this
  · unfold MPA.imul
    rw [hpos]
    show ((x.lt[pos]?).elim (Except.error PyErr.index) Except.ok >>= _) = _
    rw [ht]
    show MPA.updateInt x x.l (t.rsmul c) .none = _
    rw [hl, MPA.updateInt_ok x ht (show (t.rsmul c).IsLocal from hloc) rfl rfl, MPA.update1_ok x hlt]
    simp only [reduceCtorEq, false_and, if_false, hl]
    rw [min_self, max_eq_right (by have := hx.l_lt_r; omega)]

/-- C06: `c * x` and `x * c`. -/
theorem C06_mul (x : MPA R) (hx : x.Valid) (c : R) :
    ∃ z, x.mul c = .ok z ∧ ScaleSpec c x z ∧ (x.CanonOK → z.CanonOK) := by
  obtain ⟨pos, t, hl, ht, h1, _⟩ := mul_eq hx c
  obtain ⟨hv, h2, h3, h4⟩ := MPA.scale_ok hx (t' := t.smul c) (c := c) ht rfl (fun _ => rfl)
  exact ⟨_, h1, ⟨hv, h2, h3, ⟨rfl, rfl⟩, h4⟩,
    fun hc => canonOK_set hc (by omega) (by have := hx.l_lt_r; omega)⟩

/-- C06: `x *= c` -/
theorem C06_imul (x : MPA R) (hx : x.Valid) (c : R) :
    ∃ z, x.imul c = .ok z ∧ ScaleSpec c x z ∧ (x.CanonOK → z.CanonOK) := by
  obtain ⟨pos, t, hl, ht, _, h1⟩ := mul_eq hx c
  obtain ⟨hv, h2, h3, h4⟩ := MPA.scale_ok hx (t' := t.rsmul c) (c := c) ht rfl
    (fun i => mul_comm (t.get i) c)
  exact ⟨_, h1, ⟨hv, h2, h3, ⟨rfl, rfl⟩, h4⟩,
    fun hc => canonOK_set hc (by omega) (by have := hx.l_lt_r; omega)⟩

/-- C06: `-x` -/
theorem C06_neg (x : MPA R) (hx : x.Valid) :
    ∃ z, x.neg = .ok z ∧ z.Valid ∧ z.shape = x.shape ∧ (x.CanonOK → z.CanonOK) ∧
      ∀ idx, IdxOK idx x.shape → z.val idx = - x.val idx := by
  obtain ⟨z, hz, h, hc⟩ := C06_mul x hx (-1)
  exact ⟨z, hz, h.valid, h.shape, hc, fun idx hi => by rw [h.val idx hi]; ring⟩

/-- C05: `x - y` -/
theorem C05_sub (x y : MPA R) (hx : x.Valid) (hy : y.Valid) (hs : x.shape = y.shape) :
    ∃ z, x.sub y = .ok z ∧ z.Valid ∧ z.shape = x.shape ∧
      (∀ idx, IdxOK idx x.shape → z.val idx = x.val idx - y.val idx) ∧
      (∀ k, k + 1 < x.len → z.ranks[k]? = some (x.ranks.getD k 0 + y.ranks.getD k 0)) ∧
      z.l = 0 ∧ z.r = z.len := by
  obtain ⟨y', hy', h, _⟩ := C06_mul y hy (-1)
  obtain ⟨z, hz, h1, h2, h3, h4, h5⟩ := C05_add x y' hx h.valid (by rw [h.shape, hs])
  refine ⟨z, by unfold MPA.sub; rw [hy']; exact hz, h1, h2, ?_, ?_, h5⟩
  · intro idx hi
    rw [h3 idx hi, h.val idx (by rw [← hs]; exact hi)]; ring
  · intro k hk; rw [h4 k hk, h.ranks]

/-- C05, error branch: MPAs of different length cannot be subtracted. -/
theorem C05_sub_length (x y : MPA R) (hy : y.Valid) (h : x.len ≠ y.len) : x.sub y = .error .assertion := by
  obtain ⟨y', hy', h', _⟩ := C06_mul y hy (-1)
  have hl : y'.len = y.len := by
    have := congrArg List.length h'.shape
    simpa [MPA.shape, MPA.len] using this
  unfold MPA.sub
  rw [hy']
  exact C05_add_length x y' (by rw [hl]; exact h)

end

/-- C06: `x / d` and `x /= d` for `d ≠ 0`. -/
theorem C06_truediv [Field R] [StarRing R] [DecidableEq R] (x : MPA R) (hx : x.Valid) (d : R)
    (hd : d ≠ 0) :
    (∃ z, x.truediv d = .ok z ∧ z.Valid ∧ z.shape = x.shape ∧ (x.CanonOK → z.CanonOK) ∧
      ∀ idx, IdxOK idx x.shape → z.val idx = x.val idx / d) ∧
    (∃ z, x.itruediv d = .ok z ∧ z.Valid ∧ z.shape = x.shape ∧ (x.CanonOK → z.CanonOK) ∧
      ∀ idx, IdxOK idx x.shape → z.val idx = x.val idx / d) := by
  constructor
  · obtain ⟨z, hz, h, hc⟩ := C06_mul x hx (1 / d)
    exact ⟨z, by unfold MPA.truediv; rw [if_neg hd]; exact hz, h.valid, h.shape, hc,
      fun idx hi => by rw [h.val idx hi]; ring⟩
  · obtain ⟨z, hz, h, hc⟩ := C06_imul x hx (1 / d)
    exact ⟨z, by unfold MPA.itruediv; rw [if_neg hd]; exact hz, h.valid, h.shape, hc,
      fun idx hi => by rw [h.val idx hi]; ring⟩

/-- C06, error branch. -/
theorem C06_truediv_zero [Field R] [DecidableEq R] (x : MPA R) :
    x.truediv 0 = .error .zeroDiv ∧ x.itruediv 0 = .error .zeroDiv := by
  simp [MPA.truediv, MPA.itruediv]

/-- Non-vacuity: sums, differences and multiples of the example MPA. -/
example : exMPA.Valid ∧ exMPA.val [[1], [2]] = 2 ∧
    (∃ z, exMPA.add exMPA = .ok z ∧ z.val [[1], [2]] = 4 ∧ z.ranks = [4]) ∧
    (∃ z, exMPA.mul 3 = .ok z ∧ z.val [[1], [2]] = 6) ∧
    (∃ z, sumup [exMPA, exMPA, exMPA] (some [1, 2, 4]) = .ok z ∧ z.val [[1], [2]] = 14) := by
  have hi : IdxOK [[1], [2]] exMPA.shape := by simp [exMPA, MPA.shape, NDArray.ph, IdxOK, InB]
  have hv : exMPA.val [[1], [2]] = 2 := by decide
  refine ⟨exMPA_valid, hv, ?_, ?_, ?_⟩
  · obtain ⟨z, hz, _, _, h, hr, _⟩ := C05_add exMPA exMPA exMPA_valid exMPA_valid rfl
    refine ⟨z, hz, by rw [h _ hi, hv]; norm_num, ?_⟩
    exact (Except.ok.inj (hz.symm.trans rfl)) ▸ rfl
  · obtain ⟨z, hz, h, _⟩ := C06_mul exMPA exMPA_valid 3
    exact ⟨z, hz, by rw [h.val _ hi, hv]; norm_num⟩
  · exact ⟨_, rfl, by decide⟩

end Mpnum
