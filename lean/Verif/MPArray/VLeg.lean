import Verif.MPArray.Canon

/-!
# Model of `vleg2leg`, `leg2vleg`, `split` (/repo/mpnum/mparray.py)
-/

open Finset

namespace Mpnum

variable {R : Type}

namespace NDArray

/-- `t[..., None]` -/
def appendAxis (t : NDArray R) : NDArray R := ⟨t.shape ++ [1], fun i => t.get i.dropLast⟩

/-- `t[None]` -/
def prependAxis (t : NDArray R) : NDArray R := ⟨1 :: t.shape, fun i => t.get i.tail⟩

/-- `t[..., 0]`, for a non-empty last axis (checked by the caller) -/
def lastZero (t : NDArray R) : NDArray R := ⟨t.shape.dropLast, fun i => t.get (i ++ [0])⟩

/-- `t[0]`, for a non-empty first axis (checked by the caller) -/
def firstZero (t : NDArray R) : NDArray R := ⟨t.shape.tail, fun i => t.get (0 :: i)⟩

end NDArray

/-- `l[pos]` for a Python list of arrays; the index is also returned for a following assignment. -/
def listGet (l : List (NDArray R)) (pos : ℤ) : Py (ℕ × NDArray R) := do
  let p ← pyIndex l.length pos
  match l[p]? with
  | some t => .ok (p, t)
  | none => .error .index

namespace MPA

/-- `MPArray.vleg2leg` (mparray.py:520-540) -/
def vleg2leg (x : MPA R) (pos : ℤ) : Py (MPA R) := do
  let (p, t) ← listGet x.lt pos
  let ltens := x.lt.set p t.appendAxis
  let (p', t') ← listGet ltens (pos + 1)
  let ltens := ltens.set p' t'.prependAxis
  mkLT ltens (some (min x.l pos)) (some (max x.r (pos + 2)))

/-- `MPArray.leg2vleg` (mparray.py:542-559).  (`shape[-1]` of a 0-dimensional array would raise
`IndexError`; local tensors are never 0-dimensional.) -/
def leg2vleg (x : MPA R) (pos : ℤ) : Py (MPA R) := do
  let (p, t) ← listGet x.lt pos
  pyAssert (t.rb = 1)
  let (p', t') ← listGet x.lt (pos + 1)
  pyAssert (t'.lb = 1)
  let ltens := x.lt.set p t.lastZero
  let (_, t') ← listGet ltens (pos + 1)
  let ltens := ltens.set p' t'.firstZero
  mkLT ltens (some (min x.l pos)) (some (max x.r (pos + 1)))

/-- `MPArray.split` (mparray.py:561-581) -/
def split (x : MPA R) (pos : ℤ) : Py (Option (MPA R) × Option (MPA R)) :=
  if pos < 0 then .ok (none, some x)
  else if pos ≥ x.len then .ok (some x, none)
  else do
    let t ← x.vleg2leg pos
    let left ← mkLT (t.lt.take (pos + 1).toNat) (some (min t.l pos)) (some (min t.r (pos + 1)))
    let right ← mkLT (t.lt.drop (pos + 1).toNat) (some (max 0 (t.l - pos)))
      (some (max 0 (t.r - pos - 1)))
    return (some left, some right)

end MPA

theorem listGet_ok {l pre post : List (NDArray R)} {t : NDArray R} (h : l = pre ++ t :: post) {pos : ℤ}
    (hp : pos = pre.length) : listGet l pos = .ok (pre.length, t) := by
  unfold listGet
  subst hp
  rw [pyIndex_nat (by simp [h]), ok_bind, h]
  simp

theorem set_mid {α : Type} (pre post : List α) (t u : α) :
    (pre ++ t :: post).set pre.length u = pre ++ u :: post := by
  simp

theorem modify_mid {α : Type} (pre post : List α) (t : α) (f : α → α) :
    (pre ++ t :: post).modify pre.length f = pre ++ f t :: post := by
  induction pre with
  | nil => rfl
  | cons a pre ih => simp [List.modify_succ_cons, ih]

theorem modify_mid' {α : Type} (pre post : List α) (t u : α) (f : α → α) :
    (pre ++ t :: u :: post).modify (pre.length + 1) f = pre ++ t :: f u :: post := by
  have := modify_mid (pre ++ [t]) post u f
  simpa using this

/-- Leg `c` appended to the legs of site `pos` and leg `c'` prepended to those of site `pos + 1`. -/
def cutAt (pos : ℕ) (c c' : ℕ) (idx : List (List ℕ)) : List (List ℕ) :=
  (idx.modify pos (· ++ [c])).modify (pos + 1) (c' :: ·)

theorem cutAt_mid (ip : List (List ℕ)) (p q : List ℕ) (iq : List (List ℕ)) (c c' : ℕ) :
    cutAt ip.length c c' (ip ++ p :: q :: iq) = ip ++ (p ++ [c]) :: (c' :: q) :: iq := by
  unfold cutAt
  rw [modify_mid, modify_mid']

theorem vleg2leg_eq {x : MPA R} {pre post : List (NDArray R)} {t u : NDArray R}
    (h : x.lt = pre ++ t :: u :: post) :
    x.vleg2leg pre.length = mkLT (pre ++ t.appendAxis :: u.prependAxis :: post)
      (some (min x.l pre.length)) (some (max x.r (pre.length + 2))) := by
  unfold MPA.vleg2leg
  rw [listGet_ok h rfl, ok_bind]
  simp only
  rw [h, set_mid, listGet_ok (pre := pre ++ [t.appendAxis]) (post := post) (t := u) (by simp) (by simp),
    ok_bind]
  simp only
  rw [show pre ++ t.appendAxis :: u :: post = (pre ++ [t.appendAxis]) ++ u :: post by simp, set_mid]
  simp

theorem leg2vleg_eq {x : MPA R} {pre post : List (NDArray R)} {t u : NDArray R}
    (h : x.lt = pre ++ t :: u :: post) (ht : t.rb = 1) (hu : u.lb = 1) :
    x.leg2vleg pre.length = mkLT (pre ++ t.lastZero :: u.firstZero :: post)
      (some (min x.l pre.length)) (some (max x.r (pre.length + 1))) := by
  unfold MPA.leg2vleg
  rw [listGet_ok h rfl, ok_bind]
  simp only
  rw [pyAssert_true ht, ok_bind,
    listGet_ok (pre := pre ++ [t]) (post := post) (t := u) (by simp [h]) (by simp), ok_bind]
  simp only
  rw [pyAssert_true hu, ok_bind, h, set_mid,
    listGet_ok (pre := pre ++ [t.lastZero]) (post := post) (t := u) (by simp) (by simp), ok_bind]
  simp only
  rw [show pre ++ t.lastZero :: u :: post = (pre ++ [t.lastZero]) ++ u :: post by simp,
    show (pre ++ [t]).length = (pre ++ [t.lastZero]).length by simp, set_mid]
  simp

/-- The two sites of a chain around a bond, and the chains to their left and right. -/
theorem chained_mid {l r : ℕ} {pre post : List (NDArray R)} {t u : NDArray R} :
    Chained l (pre ++ t :: u :: post) r ↔
      Chained l pre t.lb ∧ t.IsLocal ∧ u.IsLocal ∧ t.rb = u.lb ∧ Chained u.rb post r := by
  rw [chained_append]
  constructor
  · rintro ⟨m, h1, h2, h3, h4, h5, h6⟩
    exact ⟨h3 ▸ h1, h2, h4, h5.symm, h6⟩
  · rintro ⟨h1, h2, h3, h4, h5⟩
    exact ⟨_, h1, h2, rfl, h3, h4.symm, h5⟩

theorem appendAxis_shape {t : NDArray R} (h : t.IsLocal) :
    t.appendAxis.shape = t.lb :: ((t.ph ++ [t.rb]) ++ [1]) := by
  show t.shape ++ [1] = _
  rw [NDArray.shape_local h]; rfl

theorem prependAxis_shape {t : NDArray R} (h : t.IsLocal) :
    t.prependAxis.shape = 1 :: ((t.lb :: t.ph) ++ [t.rb]) := by
  show 1 :: t.shape = _
  rw [NDArray.shape_local h]; rfl

theorem appendAxis_at3 (t : NDArray R) (a c b : ℕ) (p : List ℕ) :
    t.appendAxis.at3 a (p ++ [c]) b = t.at3 a p c := by
  unfold NDArray.at3 NDArray.appendAxis
  simp only
  rw [← List.cons_append, List.dropLast_concat]

theorem prependAxis_at3 (t : NDArray R) (a c b : ℕ) (p : List ℕ) :
    t.prependAxis.at3 a (c :: p) b = t.at3 c p b := rfl

theorem chained_cut {l r : ℕ} {pre post : List (NDArray R)} {t u : NDArray R}
    (h : Chained l (pre ++ t :: u :: post) r) :
    Chained l (pre ++ t.appendAxis :: u.prependAxis :: post) r := by
  obtain ⟨h1, h2, h3, h4, h5⟩ := chained_mid.1 h
  have e1 := appendAxis_shape h2
  have e2 := prependAxis_shape h3
  refine chained_mid.2 ⟨?_, NDArray.isLocal_of_shape e1, NDArray.isLocal_of_shape e2, ?_, ?_⟩
  · rw [NDArray.lb_of_shape e1]; exact h1
  · rw [NDArray.rb_of_shape e1, NDArray.lb_of_shape e2]
  · rw [NDArray.rb_of_shape e2]; exact h5

/-- A site sequence with two sites replaced keeps the canonical properties of the others. -/
theorem canonOK_pair [CommRing R] [StarRing R] {x : MPA R} {pre post : List (NDArray R)}
    {t u t' u' : NDArray R} (h : x.lt = pre ++ t :: u :: post) (hc : x.CanonOK) {l r : ℤ}
    (hl : l ≤ min x.l pre.length) (hr : max x.r (pre.length + 2) ≤ r) :
    (⟨pre ++ t' :: u' :: post, l, r⟩ : MPA R).CanonOK := by
  intro n w hw
  rcases MPA.getElem?_mid hw with ⟨h1, h2⟩ | ⟨h1, h2⟩ | ⟨h1, h2⟩ | ⟨h1, h2⟩
  · obtain ⟨g1, g2⟩ := hc n w (by rw [h]; exact MPA.getElem?_pre h2)
    exact ⟨fun hn => g1 (by simp only at hn; omega), fun hn => g2 (by simp only at hn; omega)⟩
  · exact ⟨fun hn => absurd hn (by simp only; omega), fun hn => absurd hn (by simp only; omega)⟩
  · exact ⟨fun hn => absurd hn (by simp only; omega), fun hn => absurd hn (by simp only; omega)⟩
  · obtain ⟨g1, g2⟩ := hc n w (by rw [h]; exact h2 t u)
    exact ⟨fun hn => g1 (by simp only at hn; omega), fun hn => g2 (by simp only at hn; omega)⟩

theorem idxOK_mid {idx : List (List ℕ)} {pre post : List (List ℕ)} {s s' : List ℕ}
    (h : IdxOK idx (pre ++ s :: s' :: post)) : ∃ ip p q iq, idx = ip ++ p :: q :: iq ∧
      ip.length = pre.length ∧ IdxOK ip pre ∧ InB p s ∧ InB q s' ∧ IdxOK iq post := by
  obtain ⟨ip, rest, rfl, h1, h2⟩ := idxOK_append_split h
  cases h2 with
  | cons a b => cases b with
    | cons b c => exact ⟨ip, _, _, _, rfl, idxOK_length h1, h1, a, b, c⟩

/-- Contraction of a cut chain. -/
theorem mp_cut [CommSemiring R] {l r : ℕ} {pre post : List (NDArray R)} {t u : NDArray R}
    (h : Chained l (pre ++ t :: u :: post) r) {ip iq : List (List ℕ)} (hip : ip.length = pre.length)
    {p q : List ℕ} {a b c c' : ℕ} (ha : a < l) (hc : c < t.rb) :
    mp (pre ++ t.appendAxis :: u.prependAxis :: post) (ip ++ (p ++ [c]) :: (c' :: q) :: iq) a b
      = mp (pre ++ [t]) (ip ++ [p]) a c * mp (u :: post) (q :: iq) c' b := by
  obtain ⟨h1, h2, h3, h4, h5⟩ := chained_mid.1 h
  have e1 := appendAxis_shape h2
  have e2 := prependAxis_shape h3
  rw [mp_append h1 hip ha, mp_concat h1 hip ha hc, Finset.sum_mul]
  refine Finset.sum_congr rfl fun d _ => ?_
  rw [mp_cons, NDArray.rb_of_shape e1, Finset.sum_range_one, mp_cons, NDArray.rb_of_shape e2, mp_cons,
    appendAxis_at3]
  simp only [prependAxis_at3]
  ring

end Mpnum
