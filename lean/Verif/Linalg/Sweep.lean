import Verif.MPArray.OpenCompress
import Verif.Props.C13

/-!
# Model of the sweeps of `eig`, `eig_sum` (/repo/mpnum/linalg.py) and `_adapt_to` (/repo/mpnum/mparray.py)

The three functions contain the same loops ("The iteration pattern is very similar to `_adapt_to()`",
linalg.py:504-506).  They differ in the kind of the left and right vectors (`E`), in the functions that extend them
by a site and in the local step; these are the fields of `SweepOps`.
-/

open Finset

namespace Mpnum

variable {R : Type}

/-- The functions in which `eig`, `eig_sum` and `_adapt_to` differ.  `A` is the type of the value that the local step
returns beside the new tensors (the eigenvalue; nothing in `_adapt_to`). -/
structure SweepOps (R E A : Type) where
  /-- extend a left vector by the tensor on the given site (linalg.py:517-518, 642-644; mparray.py:1085-1086) -/
  addL : ℕ → E → NDArray R → Py E
  /-- extend a right vector by the tensor on the given site (linalg.py:532-533, 658-660; mparray.py:1100-1101) -/
  addR : ℕ → E → NDArray R → Py E
  /-- new tensors for the sites from the given one on (linalg.py:520-522, 646-648; mparray.py:1088-1089) -/
  step : ℕ → E → E → List (NDArray R) → Py (A × List (NDArray R))

/-- The variables of the loops: the vector, the lists `leftvecs` and `rightvecs` (with `None` entries) and `eigval`, which
is not bound before the first local step. -/
structure SweepState (R E A : Type) where
  vec : MPA R
  lv : List (Option E)
  rv : List (Option E)
  val : Option A

/-- `leftvecs[i]`; the functions that receive it raise `TypeError` for `None`.  Positions in this file are never
negative. -/
def envGet {E : Type} (xs : List (Option E)) (i : ℕ) : Py E :=
  match xs[i]? with
  | some (some e) => .ok e
  | some none => .error .type
  | none => .error .index

namespace SweepOps

variable {E A : Type} (ops : SweepOps R E A)

/-- The initial right vectors (linalg.py:499-502, 624-627; mparray.py:1061-1064). -/
def initRight (k n : ℕ) (e0 : E) (v : MPA R) : Py (List (Option E)) :=
  (List.range (n - k)).reverse.foldlM (fun rv pos => do
    let e ← envGet rv (pos + 1)
    let t ← v.site ((pos + k : ℕ) : ℤ)
    let e' ← ops.addR (pos + k) e t
    return rv.set pos (some e')) (List.replicate (n - k) none ++ [some e0])

section
variable [AddCommMonoid R] [Mul R]

/-- Local step and update of the vector (linalg.py:519-523, 645-649; mparray.py:1087-1090). -/
def minimize (k pos : ℕ) (st : SweepState R E A) : Py (SweepState R E A) := do
  let e ← envGet st.lv pos
  let f ← envGet st.rv pos
  let (a, us) ← ops.step pos e f ((st.vec.lt.drop pos).take k)
  let v ← st.vec.updateSlice (some (pos : ℤ)) (some ((pos : ℤ) + k)) none us .none
  return ⟨v, st.lv, st.rv, some a⟩

/-- Move one site to the right (linalg.py:514-518, 639-644; mparray.py:1082-1086). -/
def goRight (qr : QR R) (pos : ℕ) (st : SweepState R E A) : Py (SweepState R E A) := do
  let v ← st.vec.canonicalize qr (.int pos) .none
  let e ← envGet st.lv (pos - 1)
  let t ← v.site ((pos - 1 : ℕ) : ℤ)
  let e' ← ops.addL (pos - 1) e t
  return ⟨v, st.lv.set pos (some e'), st.rv.set (pos - 1) none, st.val⟩

/-- Move one site to the left (linalg.py:528-533, 654-660; mparray.py:1096-1101). -/
def goLeft (qr : QR R) (k pos : ℕ) (st : SweepState R E A) : Py (SweepState R E A) := do
  let v ← st.vec.canonicalize qr .none (.int ((pos + k : ℕ) : ℤ))
  let e ← envGet st.rv (pos + 1)
  let t ← v.site ((pos + k : ℕ) : ℤ)
  let e' ← ops.addR (pos + k) e t
  return ⟨v, st.lv.set (pos + 1) none, st.rv.set pos (some e'), st.val⟩

/-- Body of the loop from left to right (linalg.py:509-523, 634-649; mparray.py:1078-1090). -/
def bodyRight (qr : QR R) (k : ℕ) (first : Bool) (st : SweepState R E A) (pos : ℕ) : Py (SweepState R E A) := do
  if pos = 0 ∧ first = false then return st
  let st ← if 0 < pos then ops.goRight qr pos st else .ok st
  ops.minimize k pos st

/-- Body of the loop from right to left (linalg.py:526-537, 652-664; mparray.py:1094-1105). -/
def bodyLeft (qr : QR R) (k : ℕ) (st : SweepState R E A) (pos : ℕ) : Py (SweepState R E A) := do
  let st ← ops.goLeft qr k pos st
  ops.minimize k pos st

/-- One sweep to the right and back (linalg.py:507-537, 632-664; mparray.py:1076-1105). -/
def sweep (qr : QR R) (k n : ℕ) (st : SweepState R E A) (numSweep : ℕ) : Py (SweepState R E A) := do
  let st ← (List.range (n + 1 - k)).foldlM (ops.bodyRight qr k (numSweep == 0)) st
  (List.range (n - k)).reverse.foldlM (ops.bodyLeft qr k) st

/-- All sweeps, starting with a vector that has been brought to right-canonical form. -/
def run (qr : QR R) (k n numSweeps : ℕ) (e0 : E) (v : MPA R) : Py (SweepState R E A) := do
  let rv ← ops.initRight k n e0 v
  (List.range numSweeps).foldlM (ops.sweep qr k n) ⟨v, some e0 :: List.replicate (n - k) none, rv, none⟩

end

end SweepOps

/-! ### lemmas on the moves -/

namespace MPA

section
variable [CommRing R] [StarRing R]

/-- `canonicalize(left=p)` when the form is `(p - 1, …)`: only two sites change. -/
theorem canon_left_one {qr : QR R} (hqr : QRSpec qr) {x : MPA R} (hx : x.Good) {m : ℕ} (hl : x.l = m)
    (hlen : m + 1 < x.len) :
    ∃ y, x.canonicalize qr (.int ((m + 1 : ℕ) : ℤ)) .none = .ok y ∧ CanonStepSpec x y ∧ y.l = (m : ℤ) + 1 ∧
      y.r = max x.r ((m : ℤ) + 2) ∧ x.PairChange y m := by
  have hrle := hx.valid.r_le
  obtain ⟨y, h1, h2, h3, h4, h5, h6, h7, h8⟩ := rcanonStep_open hqr hx.toO (by rw [hl]; exact_mod_cast hlen)
  rw [hl] at h1 h6 h7 h8
  refine ⟨y, ?_, ⟨h2.toGood, h3.toSame, h4, h5⟩, h6, h7, h8⟩
  have e1 : target x.len (CArg.left x.len (.int ((m + 1 : ℕ) : ℤ))) = (m : ℤ) + 1 := by
    simp only [target, CArg.left]; push_cast; rw [if_neg (by omega)]
  have e2 : target x.len (CArg.right x.len .none) = x.len := by
    have h0 : ¬ (CArg.right x.len .none : ℤ) < 0 := by simp [CArg.right]
    rw [target, if_neg h0]; rfl
  rw [canonicalize_eq rfl e1.symm e2.symm]
  simp only [pyGuard]
  rw [if_pos (by omega), if_pos (by omega), if_pos (by omega), ok_bind, ok_bind, ok_bind, if_pos (by omega)]
  have : x.rcanonicalize qr ((m : ℤ) + 1) = .ok y := by
    unfold rcanonicalize
    rw [pyAssert_true ⟨by omega, by omega⟩, pyRange_up, hl, show ((m : ℤ) + 1 - m).toNat = 1 by omega]
    show (List.foldlM (rcanonStep qr) x [(m : ℤ) + ((0 : ℕ) : ℤ) * 1]) = _
    rw [show (m : ℤ) + ((0 : ℕ) : ℤ) * 1 = m by simp, List.foldlM_cons, h1]
    rfl
  rw [this, ok_bind, if_neg (by omega)]

/-- `canonicalize(right=c)` when the form is `(…, c + 1)`: only two sites change. -/
theorem canon_right_one {qr : QR R} (hqr : QRSpec qr) {x : MPA R} (hx : x.Good) {m : ℕ} (hr : x.r = (m : ℤ) + 2) :
    ∃ y, x.canonicalize qr .none (.int ((m + 1 : ℕ) : ℤ)) = .ok y ∧ CanonStepSpec x y ∧ y.r = (m : ℤ) + 1 ∧
      y.l = min x.l (m : ℤ) ∧ x.PairChange y m := by
  have hrle := hx.valid.r_le
  have hl0 := hx.valid.l_nonneg
  obtain ⟨y, h1, h2, h3, h4, h5, h6, h7, h8⟩ := lcanonStep_open hqr hx.toO (by omega)
  rw [hr] at h1 h6 h7 h8
  have e : (m : ℤ) + 2 - 2 = m := by ring
  rw [e] at h7 h8
  rw [show (m : ℤ) + 2 - 1 = m + 1 by ring] at h1 h6
  refine ⟨y, ?_, ⟨h2.toGood, h3.toSame, h4, h5⟩, h6, h7, h8⟩
  have e1 : target x.len (CArg.left x.len .none) = 0 := by
    simp [target, CArg.left]
  have e2 : target x.len (CArg.right x.len (.int ((m + 1 : ℕ) : ℤ))) = (m : ℤ) + 1 := by
    simp only [target, CArg.right]; push_cast; rw [if_neg (by omega)]
  rw [canonicalize_eq rfl e1.symm e2.symm]
  simp only [pyGuard]
  rw [if_pos (by omega), if_pos (by omega), if_pos (by omega), ok_bind, ok_bind, ok_bind, if_neg (by omega), ok_bind,
    if_pos (by omega)]
  unfold lcanonicalize
  rw [pyAssert_true ⟨by omega, by omega⟩, pyRange_down, hr, show ((m : ℤ) + 2 - 1 - ((m : ℤ) + 1 - 1)).toNat = 1 by omega]
  show (List.foldlM (lcanonStep qr) x [(m : ℤ) + 2 - 1 + ((0 : ℕ) : ℤ) * (-1)]) = _
  rw [show (m : ℤ) + 2 - 1 + ((0 : ℕ) : ℤ) * (-1) = (m : ℤ) + 1 by push_cast; ring, List.foldlM_cons, h1]
  rfl

end

/-- The loop of a slice assignment without canonicalisation flags. -/
theorem updateLoop_none : ∀ (us : List (NDArray R)) (x : MPA R) (s : ℕ), us ≠ [] → s + us.length ≤ x.len →
    x.updateLoop us ((List.range' s us.length).map fun k : ℕ => (k : ℤ)) none
      = .ok ⟨x.lt.take s ++ us ++ x.lt.drop (s + us.length), min (s : ℤ) x.l, max ((s : ℤ) + us.length) x.r⟩
  | [], x, s, h, _ => absurd rfl h
  | [u], x, s, _, hs => by
    have hlen : s < x.lt.length := by simpa [MPA.len] using hs
    show (x.update1 (s : ℤ) u none >>= fun y => .ok y) = _
    rw [update1_ok x hlen, if_neg (by simp), if_neg (by simp), ok_bind]
    congr 2
    · rw [List.set_eq_take_append_cons_drop, if_pos hlen]; simp
  | u :: w :: us, x, s, _, hs => by
    have hlen : s < x.lt.length := by simp [MPA.len] at hs; omega
    rw [show (u :: w :: us).length = (w :: us).length + 1 from rfl, List.range'_succ, List.map_cons]
    show (x.update1 (s : ℤ) u none >>= fun y =>
      y.updateLoop (w :: us) ((List.range' (s + 1) (w :: us).length).map fun k : ℕ => (k : ℤ)) none) = _
    rw [update1_ok x hlen, if_neg (by simp), if_neg (by simp), ok_bind,
      updateLoop_none (w :: us) _ (s + 1) (by simp) (by simp [MPA.len] at hs ⊢; omega)]
    congr 2
    · simp only
      rw [List.set_eq_take_append_cons_drop, if_pos hlen]
      have t1 : (List.take s x.lt ++ u :: List.drop (s + 1) x.lt).take (s + 1) = List.take s x.lt ++ [u] := by
        rw [List.take_append]
        have : (List.take s x.lt).length = s := by simp; omega
        rw [List.take_of_length_le (by omega), this, show s + 1 - s = 1 by omega]; rfl
      have t2 : (List.take s x.lt ++ u :: List.drop (s + 1) x.lt).drop (s + 1 + (w :: us).length)
          = x.lt.drop (s + ((w :: us).length + 1)) := by
        have : (List.take s x.lt).length = s := by simp; omega
        rw [List.drop_append, List.drop_eq_nil_of_le (by simp; omega), this,
          show s + 1 + (w :: us).length - s = (w :: us).length + 1 by omega, List.drop_succ_cons, List.drop_drop,
          List.nil_append, show s + 1 + (w :: us).length = s + ((w :: us).length + 1) by omega]
      rw [t1, t2]; simp
    · push_cast; omega
    · simp only [List.length_cons]; push_cast; omega

/-- Replacing a block of sites by a slice assignment without canonicalisation flags. -/
theorem updateBlock_ok {x : MPA R} {pre mid post us : List (NDArray R)} {a b : ℕ} (hlt : x.lt = pre ++ mid ++ post)
    (hmid : Chained a mid b) (hus : Chained a us b) (hlen : us.length = mid.length) (hne : mid ≠ []) :
    x.updateSlice (some (pre.length : ℤ)) (some ((pre.length : ℤ) + mid.length)) none us .none
      = .ok ⟨pre ++ us ++ post, min (pre.length : ℤ) x.l, max ((pre.length : ℤ) + mid.length) x.r⟩ := by
  have hml : 0 < mid.length := List.length_pos_of_ne_nil hne
  have hxlen : x.len = pre.length + mid.length + post.length := by simp [MPA.len, hlt]; omega
  obtain ⟨m, ms, rfl⟩ := List.exists_cons_of_ne_nil hne
  have hune : us ≠ [] := by intro h0; rw [h0] at hlen; simp at hlen
  obtain ⟨u, us, rfl⟩ := List.exists_cons_of_ne_nil hune
  have hs : sliceIndices (some (pre.length : ℤ)) (some ((pre.length : ℤ) + (m :: ms).length)) none x.len
      = .ok ((pre.length : ℤ), (pre.length : ℤ) + (m :: ms).length, 1) := by
    simp only [sliceIndices, Option.getD_none]
    rw [if_neg (by omega)]
    simp only [if_neg (show ¬ (1 : ℤ) < 0 by omega)]
    congr 2
    · rw [if_neg (by omega)]; omega
    · congr 1
      rw [if_neg (by omega)]; omega
  have hlast : (x.lt.getD (pre.length + (m :: ms).length - 1) ⟨[], u.get⟩).rb = b := by
    have : x.lt[pre.length + (m :: ms).length - 1]? = (m :: ms).getLast? := by
      rw [hlt, List.getElem?_append_left (by simp), List.getElem?_append_right (by simp),
        List.getLast?_eq_getElem?]
      congr 1; simp
    rw [List.getD_eq_getElem?_getD, this, List.getLast?_eq_some_getLast (by simp), Option.getD_some]
    have hm2 := hmid
    rw [← List.dropLast_append_getLast (show m :: ms ≠ [] by simp)] at hm2
    exact (chained_concat.1 hm2).2.2
  have hulast : ((u :: us).getLastD u).rb = b := by
    rw [List.getLastD_eq_getLast?, List.getLast?_eq_some_getLast (by simp), Option.getD_some]
    have hm2 := hus
    rw [← List.dropLast_append_getLast (show u :: us ≠ [] by simp)] at hm2
    exact (chained_concat.1 hm2).2.2
  have hfirst : (x.lt.getD pre.length ⟨[], u.get⟩).lb = a := by
    rw [hlt]; simp only [List.getD_eq_getElem?_getD]; rw [List.append_assoc]; simp [hmid.2.1]
  unfold updateSlice
  rw [hs, ok_bind]
  simp only
  rw [pyIndex_nat (by omega), ok_bind]
  simp only [ok_bind]
  rw [show (pre.length : ℤ) + ((m :: ms).length : ℤ) - 1 = ((pre.length + (m :: ms).length - 1 : ℕ) : ℤ) by
    push_cast [Nat.cast_sub (show 1 ≤ pre.length + (m :: ms).length by omega)]; ring]
  rw [pyIndex_nat (by omega), ok_bind, hfirst, hus.2.1, pyAssert_true rfl, ok_bind, pyAssert_true (adjOK_of_chained hus),
    ok_bind, hlast, hulast, pyAssert_true rfl, ok_bind, ← hlen, pyRange_nat]
  show x.updateLoop (u :: us) _ none = _
  rw [updateLoop_none _ _ _ (by simp) (by omega)]
  congr 2
  · rw [hlt, hlen]; simp

end MPA

/-! ### the invariant of the sweeps -/

/-- Two computations behave alike: both return values related by `Q`, or both raise the same exception, which satisfies
`P`. -/
def PyRel {α β : Type} (P : PyErr → Prop) (Q : α → β → Prop) : Py α → Py β → Prop
  | .ok a, .ok b => Q a b
  | .error e, .error e' => e = e' ∧ P e
  | _, _ => False

theorem PyRel.bind {α β γ δ : Type} {P : PyErr → Prop} {Q : α → β → Prop} {Q' : γ → δ → Prop} {x : Py α} {y : Py β}
    {f : α → Py γ} {g : β → Py δ} (h : PyRel P Q x y) (hf : ∀ a b, Q a b → PyRel P Q' (f a) (g b)) :
    PyRel P Q' (x >>= f) (y >>= g) := by
  cases x with
  | ok a => cases y with
    | ok b => exact hf a b h
    | error e => exact absurd h (by simp [PyRel])
  | error e => cases y with
    | ok b => exact absurd h (by simp [PyRel])
    | error e' => exact h

theorem PyRel.mono {α β : Type} {P : PyErr → Prop} {Q Q' : α → β → Prop} {x : Py α} {y : Py β} (h : PyRel P Q x y)
    (hQ : ∀ a b, Q a b → Q' a b) : PyRel P Q' x y := by
  cases x <;> cases y
  · exact h
  · exact h
  · exact h
  · exact hQ _ _ h

theorem PyRel.mono_err {α β : Type} {P P' : PyErr → Prop} {Q : α → β → Prop} {x : Py α} {y : Py β} (h : PyRel P Q x y)
    (hP : ∀ e, P e → P' e) : PyRel P' Q x y := by
  cases x <;> cases y
  · exact ⟨h.1, hP _ h.2⟩
  · exact h
  · exact h
  · exact h

theorem PyRel.ok {α β : Type} {P : PyErr → Prop} {Q : α → β → Prop} {x : Py α} {y : Py β} {a : α} {b : β}
    (hx : x = .ok a) (hy : y = .ok b) (h : Q a b) : PyRel P Q x y := by subst hx; subst hy; exact h

theorem envGet_ok {E : Type} {xs : List (Option E)} {i : ℕ} {e : E} (h : xs[i]? = some (some e)) :
    envGet xs i = .ok e := by unfold envGet; rw [h]

section
variable [CommRing R] [StarRing R] {E₁ E₂ A : Type}

/-- What the three functions of `SweepOps` have to satisfy, for two instances that are run side by side on vectors with
`n` sites of the shapes `S`, `k` of them being varied.  `EL pre`, `ER post` say that a pair of left / right vectors
belongs to these sites, `J` is a relation between the entries of the vector and the value returned last; `M` bounds the
bond dimensions; `P` describes the exceptions the local step may raise. -/
structure SweepSpec (n k M : ℕ) (S : List (List ℕ)) (P : PyErr → Prop)
    (EL ER : List (NDArray R) → E₁ → E₂ → Prop) (J : (List (List ℕ) → R) → Option A → Prop)
    (o₁ : SweepOps R E₁ A) (o₂ : SweepOps R E₂ A) : Prop where
  congr : ∀ f g v, (∀ idx, IdxOK idx S → g idx = f idx) → J f v → J g v
  addL : ∀ (pre : List (NDArray R)) t d e₁ e₂, EL pre e₁ e₂ → Chained 1 (pre ++ [t]) d →
    physShape (pre ++ [t]) = S.take (pre.length + 1) → pre.length + k < n → AllPos (pre ++ [t]) →
    ∃ e₁' e₂', o₁.addL pre.length e₁ t = .ok e₁' ∧ o₂.addL pre.length e₂ t = .ok e₂' ∧ EL (pre ++ [t]) e₁' e₂'
  addR : ∀ (post : List (NDArray R)) t d e₁ e₂ p, ER post e₁ e₂ → Chained d (t :: post) 1 →
    physShape (t :: post) = S.drop p → p + 1 + post.length = n → k ≤ p → AllPos (t :: post) →
    ∃ e₁' e₂', o₁.addR p e₁ t = .ok e₁' ∧ o₂.addR p e₂ t = .ok e₂' ∧ ER (t :: post) e₁' e₂'
  step : ∀ (pre mid post : List (NDArray R)) l r e₁ e₂ f₁ f₂ val, EL pre e₁ e₂ → ER post f₁ f₂ →
    Chained 1 pre l → Chained l mid r → Chained r post 1 → physShape (pre ++ mid ++ post) = S →
    mid.length = k → AllPos (pre ++ mid ++ post) → (∀ t ∈ pre, LCanon t) → (∀ t ∈ post, RCanon t) →
    (∀ t ∈ pre ++ mid ++ post, t.lb ≤ M) → J (entry (pre ++ mid ++ post)) val →
    PyRel P (fun x y => x = y ∧ Chained l x.2 r ∧ physShape x.2 = physShape mid ∧ AllPos x.2 ∧
        (∀ t ∈ x.2.tail, t.lb ≤ M) ∧ J (entry (pre ++ x.2 ++ post)) (some x.1))
      (o₁.step pre.length e₁ f₁ mid) (o₂.step pre.length e₂ f₂ mid)

/-- The invariant: the sweep is at position `p`. -/
structure SweepInv (n k M : ℕ) (S : List (List ℕ)) (EL ER : List (NDArray R) → E₁ → E₂ → Prop)
    (J : (List (List ℕ) → R) → Option A → Prop) (p : ℕ) (s₁ : SweepState R E₁ A) (s₂ : SweepState R E₂ A) : Prop where
  vec : s₂.vec = s₁.vec
  val : s₂.val = s₁.val
  good : s₁.vec.Good
  len : s₁.vec.lt.length = n
  shape : s₁.vec.shape = S
  bound : ∀ t ∈ s₁.vec.lt, t.lb ≤ M
  l : (p : ℤ) ≤ s₁.vec.l
  r : s₁.vec.r ≤ (p : ℤ) + k
  lv₁ : s₁.lv.length = n - k + 1
  lv₂ : s₂.lv.length = n - k + 1
  rv₁ : s₁.rv.length = n - k + 1
  rv₂ : s₂.rv.length = n - k + 1
  left : ∀ j, j ≤ p → ∃ e₁ e₂, s₁.lv[j]? = some (some e₁) ∧ s₂.lv[j]? = some (some e₂) ∧ EL (s₁.vec.lt.take j) e₁ e₂
  right : ∀ j, p ≤ j → j ≤ n - k → ∃ e₁ e₂, s₁.rv[j]? = some (some e₁) ∧ s₂.rv[j]? = some (some e₂) ∧
    ER (s₁.vec.lt.drop (j + k)) e₁ e₂
  prop : J s₁.vec.val s₁.val

theorem SweepInv.bound_of_ranksLe {x y : MPA R} {M : ℕ} (h : y.RanksLe x) (hb : ∀ t ∈ x.lt, t.lb ≤ M) :
    ∀ t ∈ y.lt, t.lb ≤ M := by
  intro t ht
  have h' := h
  unfold MPA.RanksLe at h'
  obtain ⟨n, hn, rfl⟩ := List.mem_iff_getElem.1 ht
  have hlen := h'.length_eq
  simp only [List.length_map] at hlen
  have hn' : n < x.lt.length := by omega
  have := List.Forall₂.get h' (i := n) (by simpa using hn) (by simpa using hn')
  simp only [List.get_eq_getElem, List.getElem_map] at this
  exact this.trans (hb _ (List.getElem_mem hn'))

section
variable {n k M : ℕ} {S : List (List ℕ)} {P : PyErr → Prop} {EL ER : List (NDArray R) → E₁ → E₂ → Prop}
  {J : (List (List ℕ) → R) → Option A → Prop} {o₁ : SweepOps R E₁ A} {o₂ : SweepOps R E₂ A}

theorem take_pairChange {x y : MPA R} {m : ℕ} (h : x.PairChange y m) {j : ℕ} (hj : j ≤ m) :
    y.lt.take j = x.lt.take j := by
  obtain ⟨pre, t, u, t', u', post, h1, h2, h3⟩ := h
  have : pre.length = m := by exact_mod_cast h3
  rw [h1, h2, List.take_append_of_le_length (by omega), List.take_append_of_le_length (by omega)]

theorem drop_pairChange {x y : MPA R} {m : ℕ} (h : x.PairChange y m) {j : ℕ} (hj : m + 2 ≤ j) :
    y.lt.drop j = x.lt.drop j := by
  obtain ⟨pre, t, u, t', u', post, h1, h2, h3⟩ := h
  have : pre.length = m := by exact_mod_cast h3
  obtain ⟨d, rfl⟩ := Nat.exists_eq_add_of_le hj
  rw [h1, h2, List.drop_append, List.drop_append, List.drop_eq_nil_of_le (by omega),
    show m + 2 + d - pre.length = d + 1 + 1 by omega]
  simp

/-- The local step keeps the invariant and leaves the orthogonality centre at the block. -/
theorem minimize_inv (hs : SweepSpec n k M S P EL ER J o₁ o₂) (hk : 0 < k) {p : ℕ} (hp : p + k ≤ n)
    {s₁ : SweepState R E₁ A} {s₂ : SweepState R E₂ A} (h : SweepInv n k M S EL ER J p s₁ s₂) :
    PyRel P (fun t₁ t₂ => SweepInv n k M S EL ER J p t₁ t₂ ∧ t₁.vec.l = p ∧ t₁.vec.r = (p : ℤ) + k ∧ t₁.val.isSome)
      (o₁.minimize k p s₁) (o₂.minimize k p s₂) := by
  obtain ⟨e₁, e₂, a1, a2, a3⟩ := h.left p (le_refl _)
  obtain ⟨f₁, f₂, b1, b2, b3⟩ := h.right p (le_refl _) (by omega)
  unfold SweepOps.minimize
  rw [envGet_ok a1, envGet_ok a2, envGet_ok b1, envGet_ok b2]
  simp only [ok_bind]
  set ts := s₁.vec.lt with hts
  set pre := ts.take p with hpre
  set mid := (ts.drop p).take k with hmid
  set post := ts.drop (p + k) with hpost
  have hsplit : ts = pre ++ mid ++ post := by
    rw [hpre, hmid, hpost, List.append_assoc, ← List.drop_drop, List.take_append_drop, List.take_append_drop]
  have lpre : pre.length = p := by rw [hpre, List.length_take]; have := h.len; rw [← hts] at this; omega
  have lmid : mid.length = k := by
    rw [hmid, List.length_take, List.length_drop]; have := h.len; rw [← hts] at this; omega
  have hch := h.good.valid.chain
  rw [← hts, hsplit] at hch
  obtain ⟨r, hc12, hc3⟩ := chained_append.1 hch
  obtain ⟨l, hc1, hc2⟩ := chained_append.1 hc12
  have hpos := h.good.pos
  rw [← hts, hsplit] at hpos
  have hcan := h.good.canon
  have hlc : ∀ t ∈ pre, LCanon t := by
    intro t ht
    obtain ⟨i, hi, hit⟩ := List.mem_iff_getElem.1 ht
    refine (hcan i t ?_).1 (lt_of_lt_of_le (by omega) h.l)
    rw [← hts, hsplit, List.append_assoc, List.getElem?_append_left hi, List.getElem?_eq_getElem hi, hit]
  have hrc : ∀ t ∈ post, RCanon t := by
    intro t ht
    obtain ⟨i, hi, hit⟩ := List.mem_iff_getElem.1 ht
    refine (hcan (p + k + i) t ?_).2 (le_trans h.r (by push_cast; omega))
    rw [← hts, hsplit, List.getElem?_append_right (by simp; omega), List.length_append, lpre, lmid,
      show p + k + i - (p + k) = i by omega, List.getElem?_eq_getElem hi, hit]
  have hshape : physShape (pre ++ mid ++ post) = S := by rw [← hsplit]; exact h.shape
  have hbound := h.bound
  rw [← hts, hsplit] at hbound
  have hJ := h.prop
  have hval : s₁.vec.val = entry (pre ++ mid ++ post) := by rw [← hsplit]
  rw [hval] at hJ
  have hst := hs.step pre mid post l r e₁ e₂ f₁ f₂ s₁.val a3 b3 hc1 hc2 hc3 hshape lmid hpos hlc hrc hbound hJ
  rw [lpre] at hst
  have hmid2 : (s₂.vec.lt.drop p).take k = mid := by rw [h.vec]
  rw [hmid2]
  refine hst.bind ?_
  rintro ⟨a, us⟩ ⟨a', us'⟩ ⟨heq, u1, u2, u3, u4, u5⟩
  rw [Prod.mk.injEq] at heq
  obtain ⟨rfl, rfl⟩ := heq
  simp only at u1 u2 u3 u4 u5
  have ulen : us.length = mid.length := by
    have := congrArg List.length u2; simpa [physShape] using this
  have hmne : mid ≠ [] := by intro h0; rw [h0] at lmid; simp at lmid; omega
  have hupd := MPA.updateBlock_ok (x := s₁.vec) (us := us) (hts.symm.trans hsplit) hc2 u1 ulen hmne
  rw [lpre, lmid] at hupd
  simp only [h.vec, hupd, ok_bind]
  have hl := h.l
  have hr := h.r
  have hlen : ts.length = n := h.len
  rw [min_eq_left hl, max_eq_left hr]
  have hchn : Chained 1 (pre ++ us ++ post) 1 :=
    chained_append.2 ⟨r, chained_append.2 ⟨l, hc1, u1⟩, hc3⟩
  have une : us ≠ [] := by intro h0; rw [h0, lmid] at ulen; simp at ulen; omega
  have ulen' : us.length = k := ulen.trans lmid
  have lpost : post.length = n - (p + k) := by rw [hpost, List.length_drop]; omega
  have hnlen : (pre ++ us ++ post).length = n := by simp [lpre, ulen', lpost]; omega
  have tk : ∀ j, j ≤ p → (pre ++ us ++ post).take j = ts.take j := by
    intro j hj
    rw [List.append_assoc, List.take_append_of_le_length (by omega), hpre, List.take_take, min_eq_left hj]
  have dp : ∀ j, p ≤ j → (pre ++ us ++ post).drop (j + k) = ts.drop (j + k) := by
    intro j hj
    obtain ⟨d, rfl⟩ := Nat.exists_eq_add_of_le hj
    rw [List.drop_append, List.drop_eq_nil_of_le (by simp [lpre, ulen']), List.nil_append, List.length_append, lpre,
      ulen', show p + d + k - (p + k) = d by omega, hpost, List.drop_drop, show p + k + d = p + d + k by omega]
  refine ⟨⟨rfl, rfl, ⟨⟨by simp [une], hchn, by simp, by simp only; omega, ?_⟩, ?_, ?_⟩, hnlen, ?_, ?_, le_refl _,
    le_refl _, h.lv₁, h.lv₂, h.rv₁, h.rv₂, ?_, ?_, ?_⟩, rfl, rfl, rfl⟩
  · show (p : ℤ) + k ≤ ((pre ++ us ++ post).length : ℤ)
    rw [hnlen]; omega
  · intro i t hi
    simp only at hi
    constructor
    · intro hip
      have hip' : i < p := by simp only at hip; omega
      rw [List.append_assoc, List.getElem?_append_left (by omega)] at hi
      exact hlc t (List.mem_of_getElem? hi)
    · intro hip
      have hip' : p + k ≤ i := by simp only at hip; omega
      rw [List.getElem?_append_right (by simp; omega)] at hi
      exact hrc t (List.mem_of_getElem? hi)
  · intro t ht
    simp only [List.mem_append] at ht
    rcases ht with (ht | ht) | ht
    · exact hpos t (by simp [ht])
    · exact u3 t ht
    · exact hpos t (by simp [ht])
  · show physShape (pre ++ us ++ post) = S
    rw [← hshape]
    simp only [physShape, List.map_append] at u2 ⊢
    rw [u2]
  · intro t ht
    simp only [List.mem_append] at ht
    rcases ht with (ht | ht) | ht
    · exact hbound t (by simp [ht])
    · obtain ⟨u, us', rfl⟩ := List.exists_cons_of_ne_nil une
      rw [List.mem_cons] at ht
      rcases ht with rfl | ht
      · obtain ⟨m, ms, hm⟩ := List.exists_cons_of_ne_nil hmne
        have : m.lb = l := by rw [hm] at hc2; exact hc2.2.1
        rw [u1.2.1, ← this]
        exact hbound m (by rw [hm]; simp)
      · exact u4 t (by simpa using ht)
    · exact hbound t (by simp [ht])
  · intro j hj
    simp only [tk j hj]
    exact h.left j hj
  · intro j hj hj'
    simp only [dp j hj]
    exact h.right j hj hj'
  · exact u5

theorem goRight_inv {qr : QR R} (hqr : QRSpec qr) (hs : SweepSpec n k M S P EL ER J o₁ o₂) (hk : 0 < k) {p : ℕ}
    (hp : p + 1 + k ≤ n) {s₁ : SweepState R E₁ A} {s₂ : SweepState R E₂ A} (h : SweepInv n k M S EL ER J p s₁ s₂)
    (hl : s₁.vec.l = p) :
    PyRel P (fun t₁ t₂ => SweepInv n k M S EL ER J (p + 1) t₁ t₂)
      (o₁.goRight qr (p + 1) s₁) (o₂.goRight qr (p + 1) s₂) := by
  have hlen := h.len
  obtain ⟨y, c1, c2, c3, c4, c5⟩ := MPA.canon_left_one hqr h.good hl (by rw [MPA.len, hlen]; omega)
  obtain ⟨e₁, e₂, a1, a2, a3⟩ := h.left p (le_refl _)
  have hylen : y.lt.length = n := c2.len.trans hlen
  have hpy : p < y.lt.length := by omega
  have hsp : y.lt = y.lt.take p ++ y.lt[p] :: y.lt.drop (p + 1) := by
    rw [List.getElem_cons_drop, List.take_append_drop]
  have htp : y.lt.take (p + 1) = y.lt.take p ++ [y.lt[p]] := by
    rw [List.take_succ, List.getElem?_eq_getElem hpy]; rfl
  have hsite : y.site (p : ℤ) = .ok y.lt[p] := by
    have := MPA.site_ok (x := y) hsp
    rwa [List.length_take, min_eq_left (by omega)] at this
  have hch := c2.good.valid.chain
  rw [← List.take_append_drop (p + 1) y.lt] at hch
  obtain ⟨d, hd, -⟩ := chained_append.1 hch
  have lpre : (y.lt.take p).length = p := by rw [List.length_take, min_eq_left (by omega)]
  have hys : y.shape = S := c2.same.shape.trans h.shape
  obtain ⟨e₁', e₂', g1, g2, g3⟩ := hs.addL (y.lt.take p) y.lt[p] d e₁ e₂
    (by rw [take_pairChange c5 (le_refl p)]; exact a3) (by rw [← htp]; exact hd)
    (by rw [← htp, lpre, ← hys]; simp [physShape, MPA.shape, List.map_take]) (by rw [lpre]; omega)
    (by rw [← htp]; exact fun t ht => c2.good.pos t (List.mem_of_mem_take ht))
  rw [lpre] at g1 g2
  unfold SweepOps.goRight
  rw [h.vec, c1]
  simp only [ok_bind, show p + 1 - 1 = p by omega, envGet_ok a1, envGet_ok a2, hsite, g1, g2]
  have hr := h.r
  refine ⟨rfl, h.val, c2.good, hylen, hys, SweepInv.bound_of_ranksLe c2.ranks h.bound, ?_, ?_, by simp [h.lv₁],
    by simp [h.lv₂], by simp [h.rv₁], by simp [h.rv₂], ?_, ?_, ?_⟩
  · simp only; rw [c3]; push_cast; omega
  · simp only; rw [c4]; push_cast; omega
  · intro j hj
    simp only
    by_cases hjp : j = p + 1
    · subst hjp
      refine ⟨e₁', e₂', ?_, ?_, ?_⟩
      · rw [List.getElem?_set_self (by rw [h.lv₁]; omega)]
      · rw [List.getElem?_set_self (by rw [h.lv₂]; omega)]
      · rw [htp]; exact g3
    · rw [List.getElem?_set_ne (by omega), List.getElem?_set_ne (by omega), take_pairChange c5 (by omega)]
      exact h.left j (by omega)
  · intro j hj hj'
    simp only
    rw [List.getElem?_set_ne (by omega), List.getElem?_set_ne (by omega), drop_pairChange c5 (by omega)]
    exact h.right j (by omega) hj'
  · refine hs.congr _ _ _ (fun idx hi => ?_) h.prop
    exact c2.same.val idx (by rw [h.shape]; exact hi)

theorem goLeft_inv {qr : QR R} (hqr : QRSpec qr) (hs : SweepSpec n k M S P EL ER J o₁ o₂) (hk : 0 < k) {p : ℕ}
    (hp : p + 1 + k ≤ n) {s₁ : SweepState R E₁ A} {s₂ : SweepState R E₂ A} (h : SweepInv n k M S EL ER J (p + 1) s₁ s₂)
    (hr : s₁.vec.r = (p : ℤ) + 1 + k) :
    PyRel P (fun t₁ t₂ => SweepInv n k M S EL ER J p t₁ t₂) (o₁.goLeft qr k p s₁) (o₂.goLeft qr k p s₂) := by
  have hlen := h.len
  have hl := h.l
  obtain ⟨m, rfl⟩ : ∃ m, k = m + 1 := ⟨k - 1, by omega⟩
  obtain ⟨y, c1, c2, c3, c4, c5⟩ := MPA.canon_right_one hqr h.good (m := p + m) (by rw [hr]; push_cast; ring)
  obtain ⟨e₁, e₂, a1, a2, a3⟩ := h.right (p + 1) (le_refl _) (by omega)
  have hylen : y.lt.length = n := c2.len.trans hlen
  have hpy : p + (m + 1) < y.lt.length := by omega
  have hsp : y.lt = y.lt.take (p + (m + 1)) ++ y.lt[p + (m + 1)] :: y.lt.drop (p + (m + 1) + 1) := by
    rw [List.getElem_cons_drop, List.take_append_drop]
  have hdp : y.lt.drop (p + (m + 1)) = y.lt[p + (m + 1)] :: y.lt.drop (p + (m + 1) + 1) := by
    rw [List.getElem_cons_drop]
  have hsite : y.site ((p + (m + 1) : ℕ) : ℤ) = .ok y.lt[p + (m + 1)] := by
    have := MPA.site_ok (x := y) hsp
    rwa [List.length_take, min_eq_left (by omega)] at this
  have hch := c2.good.valid.chain
  rw [← List.take_append_drop (p + (m + 1)) y.lt] at hch
  obtain ⟨d, -, hd⟩ := chained_append.1 hch
  have hys : y.shape = S := c2.same.shape.trans h.shape
  obtain ⟨e₁', e₂', g1, g2, g3⟩ := hs.addR (y.lt.drop (p + (m + 1) + 1)) y.lt[p + (m + 1)] d e₁ e₂ (p + (m + 1))
    (by rw [show p + (m + 1) + 1 = p + 1 + (m + 1) by omega, drop_pairChange c5 (by omega)]; exact a3)
    (by rw [← hdp]; exact hd)
    (by rw [← hdp, ← hys]; simp [physShape, MPA.shape, List.map_drop]) (by rw [List.length_drop]; omega) (by omega)
    (by rw [← hdp]; exact fun t ht => c2.good.pos t (List.mem_of_mem_drop ht))
  unfold SweepOps.goLeft
  rw [h.vec, show p + (m + 1) = p + m + 1 by omega, c1]
  simp only [ok_bind, envGet_ok a1, envGet_ok a2]
  rw [show p + m + 1 = p + (m + 1) by omega]
  simp only [hsite, ok_bind, g1, g2]
  refine ⟨rfl, h.val, c2.good, hylen, hys, SweepInv.bound_of_ranksLe c2.ranks h.bound, ?_, ?_, by simp [h.lv₁],
    by simp [h.lv₂], by simp [h.rv₁], by simp [h.rv₂], ?_, ?_, ?_⟩
  · simp only; rw [c4]; push_cast at hl ⊢; omega
  · simp only; rw [c3]; push_cast; omega
  · intro j hj
    simp only
    rw [List.getElem?_set_ne (by omega), List.getElem?_set_ne (by omega), take_pairChange c5 (by omega)]
    exact h.left j (by omega)
  · intro j hj hj'
    simp only
    by_cases hjp : j = p
    · subst hjp
      refine ⟨e₁', e₂', ?_, ?_, ?_⟩
      · rw [List.getElem?_set_self (by rw [h.rv₁]; omega)]
      · rw [List.getElem?_set_self (by rw [h.rv₂]; omega)]
      · rw [hdp]; exact g3
    · rw [List.getElem?_set_ne (by omega), List.getElem?_set_ne (by omega), drop_pairChange c5 (by omega)]
      exact h.right j (by omega) hj'
  · refine hs.congr _ _ _ (fun idx hi => ?_) h.prop
    exact c2.same.val idx (by rw [h.shape]; exact hi)

/-- The invariant between two local steps. -/
def SweepAt (n k M : ℕ) (S : List (List ℕ)) (EL ER : List (NDArray R) → E₁ → E₂ → Prop)
    (J : (List (List ℕ) → R) → Option A → Prop) (p : ℕ) (t₁ : SweepState R E₁ A) (t₂ : SweepState R E₂ A) : Prop :=
  SweepInv n k M S EL ER J p t₁ t₂ ∧ t₁.vec.l = p ∧ t₁.vec.r = (p : ℤ) + k ∧ t₁.val.isSome

/-- The loop from left to right, up to position `m`. -/
theorem loopRight_inv {qr : QR R} (hqr : QRSpec qr) (hs : SweepSpec n k M S P EL ER J o₁ o₂) (hk : 0 < k) (first : Bool)
    {s₁ : SweepState R E₁ A} {s₂ : SweepState R E₂ A}
    (h : if first then SweepInv n k M S EL ER J 0 s₁ s₂ else SweepAt n k M S EL ER J 0 s₁ s₂) (m : ℕ) (hm : m + k ≤ n) :
    PyRel P (SweepAt n k M S EL ER J m) ((List.range (m + 1)).foldlM (o₁.bodyRight qr k first) s₁)
      ((List.range (m + 1)).foldlM (o₂.bodyRight qr k first) s₂) := by
  induction m with
  | zero =>
    show PyRel P _ (o₁.bodyRight qr k first s₁ 0 >>= fun x => .ok x) (o₂.bodyRight qr k first s₂ 0 >>= fun x => .ok x)
    refine PyRel.bind (Q := SweepAt n k M S EL ER J 0) ?_ fun a b hab => hab
    unfold SweepOps.bodyRight
    cases first with
    | false =>
      rw [if_pos ⟨rfl, rfl⟩, if_pos ⟨rfl, rfl⟩]
      exact h
    | true =>
      rw [if_neg (by simp), if_neg (by simp), if_neg (by simp), if_neg (by simp)]
      exact minimize_inv hs hk (by omega) h
  | succ m ih =>
    rw [List.range_succ, List.foldlM_append, List.foldlM_append]
    refine (ih (by omega)).bind fun t₁ t₂ ht => ?_
    show PyRel P _ (o₁.bodyRight qr k first t₁ (m + 1) >>= fun x => .ok x)
      (o₂.bodyRight qr k first t₂ (m + 1) >>= fun x => .ok x)
    refine PyRel.bind (Q := SweepAt n k M S EL ER J (m + 1)) ?_ fun a b hab => hab
    unfold SweepOps.bodyRight
    simp only [Nat.succ_ne_zero, false_and, if_false, Nat.succ_pos, if_true]
    exact (goRight_inv hqr hs hk (by omega) ht.1 ht.2.1).bind fun u₁ u₂ hu => minimize_inv hs hk (by omega) hu

theorem range_reverse_succ (m : ℕ) : (List.range (m + 1)).reverse = m :: (List.range m).reverse := by
  rw [List.range_succ, List.reverse_append]; rfl

/-- The loop from right to left. -/
theorem loopLeft_inv {qr : QR R} (hqr : QRSpec qr) (hs : SweepSpec n k M S P EL ER J o₁ o₂) (hk : 0 < k) (m : ℕ) :
    ∀ {s₁ : SweepState R E₁ A} {s₂ : SweepState R E₂ A} (_ : SweepAt n k M S EL ER J m s₁ s₂) (_ : m + k ≤ n),
    PyRel P (SweepAt n k M S EL ER J 0) ((List.range m).reverse.foldlM (o₁.bodyLeft qr k) s₁)
      ((List.range m).reverse.foldlM (o₂.bodyLeft qr k) s₂) := by
  induction m with
  | zero => intro s₁ s₂ h _; exact h
  | succ m ih =>
    intro s₁ s₂ h hm
    rw [range_reverse_succ, List.foldlM_cons, List.foldlM_cons]
    refine PyRel.bind (Q := SweepAt n k M S EL ER J m) ?_ fun a b hab => ih hab (by omega)
    unfold SweepOps.bodyLeft
    exact (goLeft_inv hqr hs hk (by omega) h.1 (by rw [h.2.2.1]; push_cast; ring)).bind fun u₁ u₂ hu =>
      minimize_inv hs hk (by omega) hu

theorem sweep_inv {qr : QR R} (hqr : QRSpec qr) (hs : SweepSpec n k M S P EL ER J o₁ o₂) (hk : 0 < k) (hkn : k ≤ n)
    (i : ℕ) {s₁ : SweepState R E₁ A} {s₂ : SweepState R E₂ A}
    (h : if i = 0 then SweepInv n k M S EL ER J 0 s₁ s₂ else SweepAt n k M S EL ER J 0 s₁ s₂) :
    PyRel P (SweepAt n k M S EL ER J 0) (o₁.sweep qr k n s₁ i) (o₂.sweep qr k n s₂ i) := by
  unfold SweepOps.sweep
  rw [show n + 1 - k = n - k + 1 by omega]
  refine PyRel.bind (loopRight_inv hqr hs hk (i == 0) (by simpa using h) (n - k) (by omega)) fun t₁ t₂ ht => ?_
  exact loopLeft_inv hqr hs hk (n - k) ht (by omega)

/-- All right vectors at the start. -/
theorem initRight_inv (hs : SweepSpec n k M S P EL ER J o₁ o₂) (hkn : k ≤ n) {v : MPA R} (hv : v.Good)
    (hlen : v.lt.length = n) (hshape : v.shape = S) {e₁ : E₁} {e₂ : E₂} (he : ER [] e₁ e₂) :
    ∃ r₁ r₂, o₁.initRight k n e₁ v = .ok r₁ ∧ o₂.initRight k n e₂ v = .ok r₂ ∧ r₁.length = n - k + 1 ∧
      r₂.length = n - k + 1 ∧ ∀ j, j ≤ n - k → ∃ e₁ e₂, r₁[j]? = some (some e₁) ∧ r₂[j]? = some (some e₂) ∧
        ER (v.lt.drop (j + k)) e₁ e₂ := by
  have gen : ∀ (m : ℕ) (r₁ : List (Option E₁)) (r₂ : List (Option E₂)), m ≤ n - k → r₁.length = n - k + 1 →
      r₂.length = n - k + 1 → (∀ j, m ≤ j → j ≤ n - k → ∃ e₁ e₂, r₁[j]? = some (some e₁) ∧ r₂[j]? = some (some e₂) ∧
        ER (v.lt.drop (j + k)) e₁ e₂) →
      ∃ r₁' r₂', (List.range m).reverse.foldlM (fun rv pos => do
          let e ← envGet rv (pos + 1)
          let t ← v.site ((pos + k : ℕ) : ℤ)
          let e' ← o₁.addR (pos + k) e t
          return rv.set pos (some e')) r₁ = Except.ok (ε := PyErr) r₁' ∧
        (List.range m).reverse.foldlM (fun rv pos => do
          let e ← envGet rv (pos + 1)
          let t ← v.site ((pos + k : ℕ) : ℤ)
          let e' ← o₂.addR (pos + k) e t
          return rv.set pos (some e')) r₂ = Except.ok (ε := PyErr) r₂' ∧
        r₁'.length = n - k + 1 ∧ r₂'.length = n - k + 1 ∧ ∀ j, j ≤ n - k →
          ∃ e₁ e₂, r₁'[j]? = some (some e₁) ∧ r₂'[j]? = some (some e₂) ∧ ER (v.lt.drop (j + k)) e₁ e₂ := by
    intro m
    induction m with
    | zero => intro r₁ r₂ _ h1 h2 h3; exact ⟨r₁, r₂, rfl, rfl, h1, h2, fun j hj => h3 j (Nat.zero_le _) hj⟩
    | succ m ih =>
      intro r₁ r₂ hm h1 h2 h3
      obtain ⟨e₁, e₂, a1, a2, a3⟩ := h3 (m + 1) (le_refl _) hm
      have hpy : m + k < v.lt.length := by omega
      have hdp : v.lt.drop (m + k) = v.lt[m + k] :: v.lt.drop (m + k + 1) := by rw [List.getElem_cons_drop]
      have hsite : v.site ((m + k : ℕ) : ℤ) = .ok v.lt[m + k] := by
        have := MPA.site_ok (x := v) (pre := v.lt.take (m + k)) (post := v.lt.drop (m + k + 1)) (t := v.lt[m + k])
          (by rw [List.getElem_cons_drop, List.take_append_drop])
        rwa [List.length_take, min_eq_left (by omega)] at this
      have hch := hv.valid.chain
      rw [← List.take_append_drop (m + k) v.lt] at hch
      obtain ⟨d, -, hd⟩ := chained_append.1 hch
      obtain ⟨e₁', e₂', g1, g2, g3⟩ := hs.addR (v.lt.drop (m + k + 1)) v.lt[m + k] d e₁ e₂ (m + k)
        (by rw [show m + k + 1 = m + 1 + k by omega]; exact a3) (by rw [← hdp]; exact hd)
        (by rw [← hdp, ← hshape]; simp [physShape, MPA.shape, List.map_drop]) (by rw [List.length_drop]; omega)
        (by omega) (by rw [← hdp]; exact fun t ht => hv.pos t (List.mem_of_mem_drop ht))
      obtain ⟨r₁', r₂', b1, b2, b3, b4, b5⟩ := ih (r₁.set m (some e₁')) (r₂.set m (some e₂')) (by omega) (by simp [h1])
        (by simp [h2]) (by
          intro j hj hj'
          by_cases hjm : j = m
          · subst hjm
            refine ⟨e₁', e₂', ?_, ?_, ?_⟩
            · rw [List.getElem?_set_self (by omega)]
            · rw [List.getElem?_set_self (by omega)]
            · rw [hdp]; exact g3
          · rw [List.getElem?_set_ne (by omega), List.getElem?_set_ne (by omega)]
            exact h3 j (by omega) hj')
      refine ⟨r₁', r₂', ?_, ?_, b3, b4, b5⟩
      · rw [range_reverse_succ, List.foldlM_cons, envGet_ok a1]
        simp only [ok_bind, hsite, g1]
        exact b1
      · rw [range_reverse_succ, List.foldlM_cons, envGet_ok a2]
        simp only [ok_bind, hsite, g2]
        exact b2
  have hget : ∀ {E : Type} (e : E), (List.replicate (n - k) none ++ [some e])[n - k]? = some (some e) := by
    intro E e
    rw [List.getElem?_append_right (by simp)]; simp
  exact gen (n - k) _ _ (le_refl _) (by simp) (by simp) (by
    intro j hj hj'
    have : j = n - k := by omega
    subst this
    refine ⟨e₁, e₂, hget e₁, hget e₂, ?_⟩
    rw [List.drop_eq_nil_of_le (by omega)]
    exact he)

/-- The whole run: the two instances behave alike; after at least one sweep the invariant holds at position 0, with no
sweeps the vector is unchanged and no value has been computed. -/
theorem run_inv {qr : QR R} (hqr : QRSpec qr) (hs : SweepSpec n k M S P EL ER J o₁ o₂) (hk : 0 < k) (hkn : k ≤ n)
    {v : MPA R} (hv : v.Good) (hlen : v.lt.length = n) (hshape : v.shape = S) (hb : ∀ t ∈ v.lt, t.lb ≤ M)
    (hr : v.r = 1) {e₁ : E₁} {e₂ : E₂} (he : EL [] e₁ e₂) (hf : ER [] e₁ e₂) (hJ : J v.val none) (m : ℕ) :
    PyRel P (fun t₁ t₂ => SweepInv n k M S EL ER J 0 t₁ t₂ ∧ (t₁.val = none ↔ m = 0) ∧
        (m ≠ 0 → SweepAt n k M S EL ER J 0 t₁ t₂))
      (o₁.run qr k n m e₁ v) (o₂.run qr k n m e₂ v) := by
  obtain ⟨r₁, r₂, h1, h2, h3, h4, h5⟩ := initRight_inv hs hkn hv hlen hshape hf
  unfold SweepOps.run
  rw [h1, h2, ok_bind, ok_bind]
  have hl : v.l = 0 := by have := hv.valid.l_nonneg; have := hv.valid.l_lt_r; omega
  have hinit : SweepInv n k M S EL ER J 0 (⟨v, some e₁ :: List.replicate (n - k) none, r₁, none⟩ : SweepState R E₁ A)
      ⟨v, some e₂ :: List.replicate (n - k) none, r₂, none⟩ := by
    refine ⟨rfl, rfl, hv, hlen, hshape, hb, by simp [hl], by simp only [hr]; push_cast; omega, by simp, by simp, h3, h4,
      ?_, ?_, hJ⟩
    · intro j hj
      have : j = 0 := by omega
      subst this
      exact ⟨e₁, e₂, rfl, rfl, by simpa using he⟩
    · intro j _ hj'
      exact h5 j hj'
  have loop : ∀ m, PyRel P (fun t₁ t₂ => if m = 0 then SweepInv n k M S EL ER J 0 t₁ t₂ ∧ t₁.val = none
        else SweepAt n k M S EL ER J 0 t₁ t₂)
      ((List.range m).foldlM (o₁.sweep qr k n) ⟨v, some e₁ :: List.replicate (n - k) none, r₁, none⟩)
      ((List.range m).foldlM (o₂.sweep qr k n) ⟨v, some e₂ :: List.replicate (n - k) none, r₂, none⟩) := by
    intro m
    induction m with
    | zero => exact ⟨hinit, rfl⟩
    | succ m ih =>
      rw [List.range_succ, List.foldlM_append, List.foldlM_append]
      refine ih.bind fun t₁ t₂ ht => ?_
      show PyRel P _ (o₁.sweep qr k n t₁ m >>= fun x => .ok x) (o₂.sweep qr k n t₂ m >>= fun x => .ok x)
      refine PyRel.bind (Q := SweepAt n k M S EL ER J 0) ?_ fun a b hab => ?_
      · refine sweep_inv hqr hs hk hkn m ?_
        by_cases hm : m = 0
        · rw [if_pos hm] at ht ⊢; exact ht.1
        · rw [if_neg hm] at ht ⊢; exact ht
      · simp only [Nat.succ_ne_zero, if_false]; exact hab
  refine (loop m).mono fun t₁ t₂ ht => ?_
  by_cases hm : m = 0
  · rw [if_pos hm] at ht; exact ⟨ht.1, by simp [ht.2, hm], fun h => absurd hm h⟩
  · rw [if_neg hm] at ht
    refine ⟨ht.1, ?_, fun _ => ht⟩
    have := ht.2.2.2
    constructor
    · intro h0; rw [h0] at this; simp at this
    · intro h0; exact absurd h0 hm

end

end

end Mpnum
