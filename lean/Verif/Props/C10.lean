import Verif.MPArray.Canon
import Verif.Oracle.QR
import Verif.Props.C01

/-!
# C10, C11: `canonicalize`

`MPA.Good` collects what every reachable state satisfies: valid structure, a true canonical form
and no leg of size zero (`numpy` cannot infer a dimension in `reshape((-1, 0))`).
-/

namespace Mpnum

variable {R : Type} [CommRing R] [StarRing R]

/-- Target of an argument of `canonicalize` after filling in the special values and after adding
`len` to negative numbers. -/
def target (len : ℕ) (z : ℤ) : ℤ := if z < 0 then z + len else z

namespace MPA

theorem canonicalize_none {qr : QR R} (hqr : QRSpec qr) {x : MPA R} (hx : x.Good) :
    ∃ y, x.canonicalize qr .none .none = .ok y ∧ CanonStepSpec x y ∧
      y.l = (if x.l < x.len - x.r then 0 else (x.len : ℤ) - 1) ∧ y.r = y.l + 1 := by
  have hl0 := hx.valid.l_nonneg
  have hlr := hx.valid.l_lt_r
  have hrle := hx.valid.r_le
  have e : x.canonicalize qr .none .none = if x.l < x.len - x.r then x.lcanonicalize qr 1
      else x.rcanonicalize qr (x.len - 1) := rfl
  rw [e]
  by_cases h : x.l < x.len - x.r
  · rw [if_pos h, if_pos h]
    obtain ⟨y, g1, g2, g3, g4⟩ := lcanonicalize_ok hqr hx (c := 1) (by omega) (by omega)
    refine ⟨y, g1, g2, ?_, ?_⟩
    · have := g2.good.valid.l_lt_r; have := g2.good.valid.l_nonneg; omega
    · have := g2.good.valid.l_lt_r; have := g2.good.valid.l_nonneg; omega
  · rw [if_neg h, if_neg h]
    obtain ⟨y, g1, g2, g3, g4⟩ := rcanonicalize_ok hqr hx (c := x.len - 1) (by omega) (by omega)
    have h1 := g2.good.valid.l_lt_r
    have h2 := g2.good.valid.r_le
    rw [g2.len] at h2
    exact ⟨y, g1, g2, by omega, by omega⟩

omit [StarRing R] in
theorem canonicalize_eq {qr : QR R} {x : MPA R} {left right : CArg}
    (hne : (left.isNone && right.isNone) = false)
    {tl tr : ℤ} (htl : tl = target x.len (left.left x.len))
    (htr : tr = target x.len (right.right x.len)) :
    x.canonicalize qr left right = (do
      pyGuard (0 ≤ tl ∧ tl ≤ x.len) .index
      pyGuard (0 ≤ tr ∧ tr ≤ x.len) .index
      pyGuard (tl < tr) .value
      let y ← if x.l < tl then x.rcanonicalize qr tl else .ok x
      if x.r > tr then y.lcanonicalize qr tr else .ok y) := by
  unfold canonicalize
  rw [if_neg (by simp [hne]), htl, htr]
  rfl

theorem canonicalize_ok {qr : QR R} (hqr : QRSpec qr) {x : MPA R} (hx : x.Good) {left right : CArg}
    (hne : (left.isNone && right.isNone) = false)
    {tl tr : ℤ} (htl : tl = target x.len (left.left x.len))
    (htr : tr = target x.len (right.right x.len)) (h0 : 0 ≤ tl) (h1 : tl < tr) (h2 : tr ≤ x.len) :
    ∃ y, x.canonicalize qr left right = .ok y ∧ CanonStepSpec x y ∧
      y.l = (if tr < x.r then min (max x.l tl) (tr - 1) else max x.l tl) ∧
      y.r = (if tr < x.r then tr else if x.l < tl then max x.r (tl + 1) else x.r) := by
  rw [canonicalize_eq hne htl htr]
  rw [show pyGuard (0 ≤ tl ∧ tl ≤ x.len) PyErr.index = .ok () from if_pos ⟨h0, by omega⟩,
    show pyGuard (0 ≤ tr ∧ tr ≤ x.len) PyErr.index = .ok () from if_pos ⟨by omega, h2⟩,
    show pyGuard (tl < tr) PyErr.value = .ok () from if_pos h1]
  have hmid : ∃ y, (if x.l < tl then x.rcanonicalize qr tl else Except.ok x) = .ok y ∧
      CanonStepSpec x y ∧ y.l = max x.l tl ∧
      y.r = if x.l < tl then max x.r (tl + 1) else x.r := by
    by_cases h : x.l < tl
    · rw [if_pos h]
      exact rcanonicalize_ok hqr hx h0 (by omega)
    · rw [if_neg h]
      exact ⟨x, rfl, CanonStepSpec.rfl' hx, by omega, by rw [if_neg h]⟩
  obtain ⟨y, g1, g2, g3, g4⟩ := hmid
  simp only [ok_bind]
  rw [show (if x.l < tl then (do
          let y ← x.rcanonicalize qr tl
          if x.r > tr then y.lcanonicalize qr tr else Except.ok y)
        else if x.r > tr then x.lcanonicalize qr tr else Except.ok x)
      = ((if x.l < tl then x.rcanonicalize qr tl else Except.ok x) >>= fun y =>
        if x.r > tr then y.lcanonicalize qr tr else Except.ok y) by split <;> rfl]
  rw [g1, ok_bind]
  by_cases h : x.r > tr
  · rw [if_pos h]
    obtain ⟨z, k1, k2, k3, k4⟩ := lcanonicalize_ok hqr g2.good (c := tr) (by omega)
      (by rw [g2.len]; exact h2)
    have hyr : tr < y.r := by rw [g4]; split <;> omega
    refine ⟨z, k1, g2.trans k2, ?_, ?_⟩
    · rw [k4, if_pos hyr, if_pos h, g3]
    · rw [k3, if_pos h]; omega
  · rw [if_neg h]
    refine ⟨y, rfl, g2, ?_, ?_⟩
    · rw [g3, if_neg (by omega)]
    · rw [g4, if_neg (show ¬ tr < x.r by omega)]

end MPA

/-- C10: whatever the arguments, if `canonicalize` returns, then the tensor and its shape are the
same as before, the number of sites is unchanged and no rank has grown. -/
theorem C10_canonicalize {qr : QR R} (hqr : QRSpec qr) (x : MPA R) (hx : x.Good)
    (left right : CArg) (y : MPA R) (hy : x.canonicalize qr left right = .ok y) :
    y.Good ∧ y.len = x.len ∧ y.shape = x.shape ∧
      (∀ idx, IdxOK idx x.shape → y.val idx = x.val idx) ∧ y.RanksLe x := by
  have key : MPA.CanonStepSpec x y := by
    by_cases hne : (left.isNone && right.isNone) = true
    · obtain ⟨y', h1, h2, _⟩ := MPA.canonicalize_none hqr hx
      have : left = .none ∧ right = .none := by
        cases left <;> cases right <;> simp_all [CArg.isNone]
      rw [this.1, this.2, h1] at hy
      injection hy with hy; rw [← hy]; exact h2
    · have hne : (left.isNone && right.isNone) = false := by simpa using hne
      by_cases hv : 0 ≤ target x.len (left.left x.len) ∧
          target x.len (left.left x.len) < target x.len (right.right x.len) ∧
          target x.len (right.right x.len) ≤ x.len
      · obtain ⟨y', h1, h2, _⟩ := MPA.canonicalize_ok hqr hx hne rfl rfl hv.1 hv.2.1 hv.2.2
        rw [h1] at hy
        injection hy with hy; rw [← hy]; exact h2
      · exfalso
        rw [MPA.canonicalize_eq hne rfl rfl] at hy
        unfold pyGuard at hy
        split at hy
        · split at hy
          · split at hy
            · rename_i a b c; exact hv ⟨a.1, c, b.2⟩
            · cases hy
          · cases hy
        · cases hy
  exact ⟨key.good, key.len, key.same.shape, key.same.val, key.ranks⟩

/-- C11, no arguments: the MPA ends up canonical except for exactly one site, which is the first
or the last. -/
theorem C11_no_arguments {qr : QR R} (hqr : QRSpec qr) (x : MPA R) (hx : x.Good) :
    ∃ y, x.canonicalize qr .none .none = .ok y ∧ y.CanonOK ∧ y.r = y.l + 1 ∧
      (y.l = 0 ∨ y.r = y.len) := by
  obtain ⟨y, h1, h2, h3, h4⟩ := MPA.canonicalize_none hqr hx
  refine ⟨y, h1, h2.good.canon, h4, ?_⟩
  rw [h2.len]
  split at h3 <;> omega

/-- C11: admissible targets.  `tl`, `tr` are the requested bounds (negative numbers count from the
end); the form reached covers the request, and it is a true form with at least one site left. -/
theorem C11_reaches {qr : QR R} (hqr : QRSpec qr) (x : MPA R) (hx : x.Good) (left right : CArg)
    (hne : ¬ (left = .none ∧ right = .none))
    (h0 : 0 ≤ target x.len (left.left x.len))
    (h1 : target x.len (left.left x.len) < target x.len (right.right x.len))
    (h2 : target x.len (right.right x.len) ≤ x.len) :
    ∃ y, x.canonicalize qr left right = .ok y ∧ y.CanonOK ∧
      target x.len (left.left x.len) ≤ y.l ∧ y.r ≤ target x.len (right.right x.len) ∧ y.l < y.r := by
  have hne' : (left.isNone && right.isNone) = false := by
    cases left <;> cases right <;> simp_all [CArg.isNone]
  obtain ⟨y, g1, g2, g3, g4⟩ := MPA.canonicalize_ok hqr hx hne' rfl rfl h0 h1 h2
  have hlr := hx.valid.l_lt_r
  refine ⟨y, g1, g2.good.canon, ?_, ?_, g2.good.valid.l_lt_r⟩
  · rw [g3]; split <;> omega
  · rw [g4]; split
    · exact le_refl _
    · split <;> omega

omit [StarRing R] in
/-- C11: a target outside of `0 .. len` raises `IndexError` (for any MPA, and the code raises
before it touches the MPA). -/
theorem C11_index_error (qr : QR R) (x : MPA R) (left right : CArg)
    (hne : ¬ (left = .none ∧ right = .none))
    (h : target x.len (left.left x.len) < 0 ∨ x.len < target x.len (left.left x.len) ∨
      target x.len (right.right x.len) < 0 ∨ x.len < target x.len (right.right x.len)) :
    x.canonicalize qr left right = .error .index := by
  have hne' : (left.isNone && right.isNone) = false := by
    cases left <;> cases right <;> simp_all [CArg.isNone]
  rw [MPA.canonicalize_eq hne' rfl rfl]
  unfold pyGuard
  split
  · rename_i h1
    rw [if_neg (by omega)]; rfl
  · rfl

omit [StarRing R] in
/-- C11: targets inside of the range with `left >= right` raise `ValueError`. -/
theorem C11_value_error (qr : QR R) (x : MPA R) (left right : CArg)
    (hne : ¬ (left = .none ∧ right = .none))
    (h1 : 0 ≤ target x.len (left.left x.len)) (h2 : target x.len (left.left x.len) ≤ x.len)
    (h3 : 0 ≤ target x.len (right.right x.len)) (h4 : target x.len (right.right x.len) ≤ x.len)
    (h : target x.len (right.right x.len) ≤ target x.len (left.left x.len)) :
    x.canonicalize qr left right = .error .value := by
  have hne' : (left.isNone && right.isNone) = false := by
    cases left <;> cases right <;> simp_all [CArg.isNone]
  rw [MPA.canonicalize_eq hne' rfl rfl]
  unfold pyGuard
  rw [if_pos ⟨h1, h2⟩, if_pos ⟨h3, h4⟩, if_neg (by omega)]; rfl

/-- C11: the special values: `canonicalize(left='afull')` leaves only the last site,
`canonicalize(right='afull')` only the first site uncanonical. -/
theorem C11_afull {qr : QR R} (hqr : QRSpec qr) (x : MPA R) (hx : x.Good) :
    (∃ y, x.canonicalize qr .afull .none = .ok y ∧ y.CanonOK ∧ y.l = y.len - 1 ∧ y.r = y.len) ∧
    (∃ y, x.canonicalize qr .none .afull = .ok y ∧ y.CanonOK ∧ y.l = 0 ∧ y.r = 1) := by
  have hl0 := hx.valid.l_nonneg
  have hlr := hx.valid.l_lt_r
  have hrle := hx.valid.r_le
  have e1 : target x.len (CArg.afull.left x.len) = x.len - 1 := if_neg (by simp [CArg.left]; omega)
  have e2 : target x.len (CArg.none.right x.len) = x.len := if_neg (by simp [CArg.right])
  have e3 : target x.len (CArg.afull.right x.len) = 1 := if_neg (by simp [CArg.right])
  have e4 : target x.len (CArg.none.left x.len) = 0 := if_neg (by simp [CArg.left])
  constructor
  · obtain ⟨y, h1, h2, h3, h4, h5⟩ := C11_reaches hqr x hx .afull .none (by simp)
      (by omega) (by omega) (by omega)
    obtain ⟨g1, g2, _⟩ := C10_canonicalize hqr x hx _ _ y h1
    have := g1.valid.r_le
    exact ⟨y, h1, h2, by omega, by omega⟩
  · obtain ⟨y, h1, h2, h3, h4, h5⟩ := C11_reaches hqr x hx .none .afull (by simp)
      (by omega) (by omega) (by omega)
    obtain ⟨g1, g2, _⟩ := C10_canonicalize hqr x hx _ _ y h1
    have := g1.valid.l_nonneg
    exact ⟨y, h1, h2, by omega, by omega⟩

/-- Two sites over `ℂ`, bond dimension 2. -/
noncomputable def exMPAc : MPA ℂ :=
  ⟨[⟨[1, 2, 2], fun i => match i with | [_, p, b] => (p : ℂ) + 2 * b + 1 | _ => 0⟩,
    ⟨[2, 3, 1], fun i => match i with | [a, p, _] => (a : ℂ) * p - 1 | _ => 0⟩], 0, 2⟩

theorem exMPAc_good : exMPAc.Good := by
  refine ⟨⟨by simp [exMPAc], by simp [exMPAc, NDArray.IsLocal, NDArray.ndim, NDArray.lb, NDArray.rb],
    by simp [exMPAc], by simp [exMPAc], by simp [exMPAc, MPA.len]⟩, canonOK_mk _, ?_⟩
  intro t ht d hd
  simp only [exMPAc, List.mem_cons, List.not_mem_nil, or_false] at ht
  rcases ht with rfl | rfl <;> simp at hd <;> omega

/-- Non-vacuity: a QR routine exists, the example MPA is good, and canonicalising it succeeds with
the requested forms. -/
example : ∃ qr : QR ℂ, QRSpec qr ∧ exMPAc.Good ∧
    (∃ y, exMPAc.canonicalize qr (.int 1) .none = .ok y ∧ 1 ≤ y.l) ∧
    exMPAc.canonicalize qr (.int 3) .none = .error .index ∧
    exMPAc.canonicalize qr (.int 1) (.int (-1)) = .error .value := by
  obtain ⟨qr, hqr⟩ := exists_QRSpec (𝕜 := ℂ)
  have hl : exMPAc.len = 2 := rfl
  refine ⟨qr, hqr, exMPAc_good, ?_, ?_, ?_⟩
  · obtain ⟨y, h1, h2, h3, h4⟩ := C11_reaches hqr _ exMPAc_good (.int 1) .none (by simp)
      (by rw [hl]; decide) (by rw [hl]; decide) (by rw [hl]; decide)
    exact ⟨y, h1, h3⟩
  · exact C11_index_error qr _ _ _ (by simp) (by rw [hl]; decide)
  · exact C11_value_error qr _ _ _ (by simp) (by rw [hl]; decide) (by rw [hl]; decide)
      (by rw [hl]; decide) (by rw [hl]; decide) (by rw [hl]; decide)

end Mpnum
