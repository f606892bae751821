import Verif.Np.BlockDiag
import Verif.MPArray.Inject
import Verif.Props.C07

/-!
# Model of `regular_slices`, `embed_slice`, `_local_sum_identity` and `local_sum`
of /repo/mpnum/mparray.py
-/

open Finset

namespace Mpnum

variable {R : Type}

/-- A Python slice object. -/
structure PySlice where
  start : Option ℤ
  stop : Option ℤ
  step : Option ℤ
  deriving DecidableEq

/-- `regular_slices` (mparray.py:1569-1617) as the list of all yielded slices.  `%` and `//` of Python
round towards minus infinity; `ZeroDivisionError` for `offset = 0`. -/
def regularSlices (length width offset : ℤ) : Py (List PySlice) := do
  if offset = 0 then .error .zeroDiv else
  pyAssert ((length - width).fmod offset = 0)
  let num := (length - width).fdiv offset + 1
  return (List.range num.toNat).map fun i : ℕ => ⟨some (offset * i), some (offset * i + width), none⟩

/-- `_embed_ltens_identity` (mparray.py:1620-1639). -/
def embedLten [Zero R] [One R] (x : MPA R) (e : Option (NDArray R)) : Py (NDArray R) :=
  match e with
  | some e => .ok e.addBonds
  | none =>
    match x.shape with
    | [] => .error .index
    | [d, d'] :: _ => if d = d' then .ok (NDArray.eye d).addBonds else .error .assertion
    | _ => .error .assertion

/-- `embed_slice` (mparray.py:1642-1661). -/
def embedSlice [Zero R] [One R] (length : ℕ) (s : PySlice) (x : MPA R) (e : Option (NDArray R)) :
    Py (MPA R) := do
  let (start, stop, step) ← sliceIndices s.start s.stop s.step length
  pyAssert (step = 1)
  pyAssert ((x.len : ℤ) = stop - start)
  let el ← embedLten x e
  mkMPA (List.replicate start.toNat el ++ x.lt ++ List.replicate ((length : ℤ) - stop).toNat el)

/-- `mpas[i]._lt[k]` -/
def ltenAt (mpas : List (MPA R)) (i k : ℕ) : Py (NDArray R) :=
  match mpas[i]? with
  | none => .error .index
  | some x => match x.lt[k]? with
    | none => .error .index
    | some t => .ok t

/-- `startsites` (mparray.py:1705). -/
def startsites (n w pos : ℕ) : List ℕ := List.range' (pos + 1 - w) (min n (pos + 1) - (pos + 1 - w))

/-- `mpas_ltens[0] = np.concatenate((embed_ltens, mpas_ltens[0]), axis=0)` (mparray.py:1714). -/
def embedHead [Zero R] (el : NDArray R) : List (NDArray R) → Py (List (NDArray R))
  | [] => .error .index
  | h :: hs => do
    let c ← NDArray.concatenate [el, h] 0
    return c :: hs

/-- `np.concatenate((np.zeros_like(embed_ltens), embed_ltens), axis=0)` (mparray.py:1720-1721) if the
width is one and this is not the first site, else `embed_ltens`. -/
def rightEmbed [Zero R] (el : NDArray R) (w pos : ℕ) (n : ℕ) : Py (NDArray R) :=
  if w = 1 ∧ w ≤ pos then do
    pyAssert (n = 1)
    NDArray.concatenate [NDArray.zeros el.shape, el] 0
  else .ok el

/-- `mpas_ltens[-1] = np.concatenate((mpas_ltens[-1], right_embed), axis=-1)` (mparray.py:1723). -/
def embedLast [Zero R] (re : NDArray R) (hs : List (NDArray R)) : Py (List (NDArray R)) :=
  match hs.getLast? with
  | none => .error .index
  | some h => do
    let c ← concatLast [h, re]
    return hs.dropLast ++ [c]

/-- The local tensor of `_local_sum_identity` at site `pos` (mparray.py:1701-1725). -/
def localSumSite [CommSemiring R] (mpas : List (MPA R)) (el : NDArray R) (w pos : ℕ) :
    Py (NDArray R) := do
  let hs ← (startsites mpas.length w pos).mapM fun i => ltenAt mpas i (pos - i)
  let hs ← if w ≤ pos then embedHead el hs else .ok hs
  let hs ← if pos + 1 < mpas.length then
      (do
        let re ← rightEmbed el w pos hs.length
        embedLast re hs)
    else .ok hs
  blockDiag hs [0, -1]

/-- `_local_sum_identity` (mparray.py:1664-1729); `IndexError` for an empty list. -/
def localSumIdentity [CommSemiring R] (mpas : List (MPA R)) (e : Option (NDArray R)) : Py (MPA R) :=
  match mpas with
  | [] => .error .index
  | x :: _ => do
    let w := x.len
    let el ← embedLten x e
    pyAssert (∀ m ∈ mpas, m.len = w)
    let ltens ← (List.range (mpas.length + w - 1)).mapM (localSumSite mpas el w)
    mkMPA ltens

/-- Width of the first slice (mparray.py:1763). -/
def firstWidth : List PySlice → Py ℤ
  | [] => .error .index
  | s :: _ => match s.start, s.stop with
    | some a, some b => .ok (b - a)
    | _, _ => .error .type

/-- The slices left to be treated after the comparison with the regular slices (mparray.py:1760-1766):
`None` for regular slices. -/
def localSumSlices (length : Option ℕ) (slices : Option (List PySlice)) :
    Py (Option (ℕ × List PySlice)) :=
  match slices with
  | none => .ok none
  | some sl =>
    match length with
    | none => .error .assertion
    | some n => do
      let w ← firstWidth sl
      let reg ← regularSlices n w 1
      return if sl = reg then none else some (n, sl)

/-- `local_sum` (mparray.py:1736-1775).  `zip_longest` and `==` compare the sequences of slices. -/
def localSum [CommSemiring R] (mpas : List (MPA R)) (e : Option (NDArray R)) (length : Option ℕ)
    (slices : Option (List PySlice)) : Py (MPA R) := do
  match ← localSumSlices length slices with
  | none => localSumIdentity mpas e
  | some (n, sl) =>
    let es ← (mpas.zip sl).mapM fun q => embedSlice n q.2 q.1 e
    sumup es none

/-! ### blocks of vectors -/

/-- Total size of a list of blocks. -/
def bsize (l : List (ℕ × (ℕ → R))) : ℕ := (l.map Prod.fst).sum

theorem bsize_cons (q : ℕ × (ℕ → R)) (l : List (ℕ × (ℕ → R))) : bsize (q :: l) = q.1 + bsize l := by
  simp [bsize]

theorem bsize_append (l m : List (ℕ × (ℕ → R))) : bsize (l ++ m) = bsize l + bsize m := by
  simp [bsize]

theorem pick_append [Zero R] (l m : List (ℕ × (ℕ → R))) (c : ℕ) :
    pick (l ++ m) c = if c < bsize l then pick l c else pick m (c - bsize l) := by
  induction l generalizing c with
  | nil => simp [bsize]
  | cons q l ih =>
    obtain ⟨n, f⟩ := q
    rw [List.cons_append, pick, ih, bsize_cons, pick]
    by_cases h : c < n
    · rw [if_pos h, if_pos h, if_pos (by simp only; omega)]
    · rw [if_neg h, if_neg h]
      by_cases h2 : c - n < bsize l
      · rw [if_pos h2, if_pos (by simp only; omega)]
      · rw [if_neg h2, if_neg (by simp only; omega), Nat.sub_sub]

theorem pick_flatten [Zero R] (L : List (List (ℕ × (ℕ → R)))) (c : ℕ) :
    pick (L.map fun l => (bsize l, pick l)) c = pick L.flatten c := by
  induction L generalizing c with
  | nil => rfl
  | cons l L ih =>
    rw [List.map_cons, List.flatten_cons, pick_append, ← ih]; rfl

/-- Blocks of the same sizes with the same values in range. -/
def SameBlocks (l m : List (ℕ × (ℕ → R))) : Prop :=
  List.Forall₂ (fun p q => p.1 = q.1 ∧ ∀ a < p.1, p.2 a = q.2 a) l m

theorem SameBlocks.pick [Zero R] {l m : List (ℕ × (ℕ → R))} (h : SameBlocks l m) (a : ℕ) :
    pick l a = Mpnum.pick m a := by
  induction h generalizing a with
  | nil => rfl
  | @cons p q l m h1 _ ih =>
    obtain ⟨n, f⟩ := p
    obtain ⟨n', g⟩ := q
    obtain ⟨h2, h3⟩ := h1
    simp only at h2 h3
    subst h2
    simp only [Mpnum.pick]
    split
    · exact h3 a (by assumption)
    · exact ih _

theorem SameBlocks.bsize {l m : List (ℕ × (ℕ → R))} (h : SameBlocks l m) : bsize l = Mpnum.bsize m := by
  induction h with
  | nil => rfl
  | cons h1 _ ih =>
    simp only [Mpnum.bsize, List.map_cons, List.sum_cons] at ih ⊢
    rw [h1.1, ih]

/-- The local tensor `u` at the physical index `q` maps the blocks `cols` to the blocks `rows`. -/
def BAct [Semiring R] (P q : List ℕ) (u : NDArray R) (rows cols : List (ℕ × (ℕ → R))) : Prop :=
  u.shape = bsize rows :: (P ++ [bsize cols]) ∧
    ∀ a < bsize rows, ∑ c ∈ range (bsize cols), u.at3 a q c * pick cols c = pick rows a

theorem bact_blockDiag [CommSemiring R] {P q : List ℕ} (hq : InB q P) {hs : List (NDArray R)}
    {u : NDArray R} (hu : u.shape = (hs.map NDArray.lb).sum :: (P ++ [(hs.map NDArray.rb).sum]))
    (hg : ∀ a p b, InB p P → u.at3 a p b = blockGet hs a p b)
    {rc : List (List (ℕ × (ℕ → R)) × List (ℕ × (ℕ → R)))}
    (h : List.Forall₂ (fun (h : NDArray R) z => BAct P q h z.1 z.2) hs rc) :
    BAct P q u (rc.flatMap Prod.fst) (rc.flatMap Prod.snd) := by
  have hlb : hs.map NDArray.lb = rc.map fun z => bsize z.1 := by
    clear hu hg
    induction h with
    | nil => rfl
    | cons h1 _ ih => rw [List.map_cons, List.map_cons, ih, NDArray.lb_of_shape h1.1]
  have hrb : hs.map NDArray.rb = rc.map fun z => bsize z.2 := by
    clear hu hg hlb
    induction h with
    | nil => rfl
    | cons h1 _ ih => rw [List.map_cons, List.map_cons, ih, NDArray.rb_of_shape h1.1]
  have hsz : ∀ (f : List (ℕ × (ℕ → R)) × List (ℕ × (ℕ → R)) → List (ℕ × (ℕ → R))),
      (rc.map fun z => bsize (f z)).sum = bsize (rc.flatMap f) := by
    intro f
    clear hu hg hlb hrb h
    induction rc with
    | nil => rfl
    | cons z rc ih =>
      rw [List.map_cons, List.sum_cons, List.flatMap_cons, ih, bsize_append]
  refine ⟨by rw [hu, hlb, hrb, hsz, hsz], ?_⟩
  intro a ha
  have hl : hs.length = rc.length := h.length_eq
  have e1 : List.zip (hs.map NDArray.rb) (rc.map fun z => pick z.2)
      = (rc.map Prod.snd).map fun l => (bsize l, pick l) := by
    rw [hrb, List.map_map, List.zip_map']
    rfl
  have key := sum_block_pick hs (rc.map fun z => pick z.2) (by simp [hl]) a q
  rw [e1] at key
  simp only [pick_flatten] at key
  have e2 : (rc.map Prod.snd).flatten = rc.flatMap Prod.snd := by rw [List.flatMap_def]
  rw [e2, hrb, hsz] at key
  rw [Finset.sum_congr rfl fun c _ => by rw [hg a q c hq], key]
  have e3 : (rc.map Prod.fst).flatten = rc.flatMap Prod.fst := by rw [List.flatMap_def]
  rw [← e3, ← pick_flatten]
  apply SameBlocks.pick
  unfold SameBlocks
  clear * - h
  induction h with
  | nil => exact .nil
  | @cons h0 z hs rc h1 _ ih =>
    refine .cons ⟨NDArray.lb_of_shape h1.1, ?_⟩ ih
    intro a ha
    simp only at ha ⊢
    rw [NDArray.lb_of_shape h1.1] at ha
    rw [NDArray.rb_of_shape h1.1]
    exact h1.2 a ha

theorem mp_blocks [CommSemiring R] {ts : List (NDArray R)} {idx : List (List ℕ)}
    {B : ℕ → List (ℕ × (ℕ → R))} {P : ℕ → List ℕ} (hl : idx.length = ts.length)
    (h : ∀ k, ∀ hk : k < ts.length, BAct (P k) (idx.getD k []) ts[k] (B k) (B (k + 1))) (b : ℕ)
    (hend : B ts.length = [(1, fun _ => 1)]) {a : ℕ} (ha : a < bsize (B 0)) (hb : b = 0) :
    mp ts idx a b = pick (B 0) a := by
  subst hb
  induction ts generalizing idx B P a with
  | nil =>
    simp only [List.length_nil] at hend
    rw [hend] at ha ⊢
    simp [bsize] at ha
    subst ha
    have : idx = [] := by simpa using hl
    subst this
    simp [mp, pick]
  | cons t ts ih =>
    cases idx with
    | nil => simp at hl
    | cons q idx =>
      have h0 := h 0 (by simp)
      simp only [List.getD_cons_zero, List.getElem_cons_zero, Nat.zero_add] at h0
      rw [mp_cons, NDArray.rb_of_shape h0.1, ← h0.2 a ha]
      refine Finset.sum_congr rfl fun c hc => ?_
      congr 1
      exact ih (B := fun k => B (k + 1)) (P := fun k => P (k + 1)) (by simpa using hl)
        (by
          intro k hk
          have := h (k + 1) (by simpa using hk)
          simpa using this) (by simpa using hend) (by simpa using hc)

end Mpnum
