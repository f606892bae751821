import Verif.MPArray.Chain

/-!
# Model of `inject` of /repo/mpnum/mparray.py

`inject` (mparray.py:1338-1397) places physical tensors between the sites of an MPA.
-/

open Finset

namespace Mpnum

variable {R : Type}

/-- Bound of a slice of a Python list of `n` elements: negative numbers count from the end, and
everything is clamped to the list. -/
def pyClamp (n : ℕ) (i : ℤ) : ℕ := if i < 0 then (i + n).toNat else min i.toNat n

/-- `l[b:e]` of a Python list. -/
def pySlice {α : Type} (l : List α) (b e : ℤ) : List α :=
  (l.drop (pyClamp l.length b)).take (pyClamp l.length e - pyClamp l.length b)

/-- `np.eye(n)`. -/
def NDArray.eye [Zero R] [One R] (n : ℕ) : NDArray R :=
  ⟨[n, n], fun idx => if idx.getD 0 0 = idx.getD 1 0 then 1 else 0⟩

/-- One entry of the arguments `num` and `inject_ten` of `inject` (mparray.py:1368-1377): `num[i]`
copies of one tensor (`None`: the identity), or `num[i] = None` and a sequence of tensors.
`missing`: both are `None`.  `single`: `num[i]` is `None` and `inject_ten[i]` is one array. -/
inductive InjItem (R : Type)
  | copies (num : ℕ) (ten : Option (NDArray R))
  | seq (tens : List (Option (NDArray R)))
  | missing
  | single (ten : NDArray R)

/-- The tensors over which `inject` iterates (mparray.py:1388-1391), `None` replaced by the identity
on `d` dimensions.  Iterating over `None` raises `TypeError`. -/
def InjItem.tens [Zero R] [One R] (d : ℕ) : InjItem R → Py (List (NDArray R))
  | .copies n t => .ok (List.replicate n (t.getD (NDArray.eye d)))
  | .seq ts => .ok (ts.map fun t => t.getD (NDArray.eye d))
  | .missing => .error .type
  | .single _ => .error .assertion

/-- `num[i] is None and hasattr(tens, 'shape')` (mparray.py:1375). -/
def InjItem.isSingle : InjItem R → Bool
  | .single _ => true
  | _ => false

/-- Local tensor of an injected tensor (mparray.py:1389-1391):
`np.rollaxis(np.tensordot(ten, np.eye(rank), axes=((), ())), -1)`. -/
def injLten [CommSemiring R] (rank : ℕ) (ten : NDArray R) : Py (NDArray R) := do
  let t ← ten.tensordot (NDArray.eye rank) [] []
  let ax ← pyIndex t.ndim (-1)
  t.rollaxis ax 0

/-- The tensors injected after one piece (mparray.py:1386-1393). -/
def injPiece [CommSemiring R] (q : ℕ × ℕ × InjItem R) : Py (List (NDArray R)) := do
  (← q.2.2.tens q.2.1).mapM (injLten q.1)

/-- Rank after a piece (mparray.py:1383). -/
def pieceRank (l : List (NDArray R)) : ℕ := (l.getLast?.map NDArray.rb).getD 1

/-- First dimension after the left bond at the begin of a piece (mparray.py:1384). -/
def pieceDim (last : NDArray R) (r : List (NDArray R)) : ℕ := (r.head?.getD last).shape.getD 1 0

/-- `inject` (mparray.py:1338-1397) with `pos` a sequence; a single position is a sequence of length
one (mparray.py:1368-1374).  The items pair up `num` and `inject_ten`. -/
def inject [CommSemiring R] (x : MPA R) (pos : List ℤ) (items : List (InjItem R)) : Py (MPA R) := do
  pyAssert (pos.length = items.length)
  pyAssert (items.all fun i => !i.isSingle)
  pyAssert ((pos.zip pos.tail).all fun p => p.1 < p.2)
  let ps := 0 :: (pos ++ [(x.len : ℤ)])
  let pieces := List.zipWith (pySlice x.lt) ps ps.tail
  let last ← (match x.lt.getLast? with | some t => .ok t | none => .error .index)
  let ranks := pieces.dropLast.map pieceRank
  let pdims := pieces.tail.map (pieceDim last)
  let inj ← (ranks.zip (pdims.zip items)).mapM injPiece
  mkMPA ((pieces.zip inj).flatMap (fun p => p.1 ++ p.2) ++ (pieces.getLast?.getD []))

/-! ### The injected tensors -/

/-- Local tensor `u` is the physical tensor `t` times the identity on the bond of dimension `r`. -/
def InjOK [CommSemiring R] (r : ℕ) (t u : NDArray R) : Prop :=
  u.shape = r :: (t.shape ++ [r]) ∧
    ∀ a b p, p.length = t.ndim → u.at3 a p b = t.get p * (if a = b then 1 else 0)

theorem injLten_ok [CommSemiring R] (r : ℕ) (t : NDArray R) :
    ∃ u, injLten r t = .ok u ∧ InjOK r t u := by
  have htd := NDArray.tensordot_ok (a := t) (b := (NDArray.eye r : NDArray R)) (axa := []) (axb := [])
    (by simp) (by simp) rfl (by simp) (by simp)
  have hsh : (t.tensordotTo (NDArray.eye r) [] []).shape = t.shape ++ [r, r] := by
    simp only [NDArray.tensordotTo, freeAxes_nil]
    congr 1
    · exact map_getD_range _
  have hn : (t.tensordotTo (NDArray.eye r) [] []).ndim = t.ndim + 2 := by
    simp [NDArray.ndim, hsh]
  refine ⟨(t.tensordotTo (NDArray.eye r) [] []).rollaxisTo (t.ndim + 1) 0, ?_, ?_, ?_⟩
  · unfold injLten
    have h1 : t.tensordot (NDArray.eye r) [] [] = .ok (t.tensordotTo (NDArray.eye r) [] []) := htd
    rw [h1, ok_bind, hn]
    have h2 : pyIndex (t.ndim + 2) (-1) = .ok (t.ndim + 1) := by
      have := pyIndex_neg (n := t.ndim + 2) (i := 1) (by omega) (by omega)
      simpa using this
    rw [h2, ok_bind, NDArray.rollaxis_ok (by omega) (by omega)]
  · rw [NDArray.rollaxisTo_left_shape (start := 0) (axis := t.ndim + 1) (A := []) (B := t.shape ++ [r])
      (C := []) (x := r) (by simp [hsh]) rfl (by simp [NDArray.ndim])]
    simp
  · intro a b p hp
    unfold NDArray.at3
    have := NDArray.rollaxisTo_left_get (a := t.tensordotTo (NDArray.eye r) [] []) (A := [])
      (B := p ++ [b]) (C := []) (x := a) (axis := t.ndim + 1) (start := 0) rfl (by simp [hp])
      (by simp [hn, hp])
    simp only [List.nil_append, List.append_nil] at this
    rw [this]
    simp only [NDArray.tensordotTo, freeAxes_nil, List.map_nil, sumIdx, List.length_range]
    rw [List.append_assoc, List.take_left' hp, List.drop_left' hp, asm_nil hp, asm_nil (by rfl)]
    simp only [NDArray.eye]
    congr 1
    by_cases h : a = b
    · subst h; simp
    · simp [h, Ne.symm h]

theorem chained_inj [CommSemiring R] {r : ℕ} {ts us : List (NDArray R)}
    (h : List.Forall₂ (InjOK r) ts us) : Chained r us r := by
  induction h with
  | nil => rfl
  | cons h _ ih =>
    refine ⟨NDArray.isLocal_of_shape h.1, NDArray.lb_of_shape h.1, ?_⟩
    rw [NDArray.rb_of_shape h.1]; exact ih

theorem mp_inj [CommSemiring R] {r : ℕ} {ts us : List (NDArray R)}
    (h : List.Forall₂ (InjOK r) ts us) {js : List (List ℕ)}
    (hj : IdxOK js (ts.map NDArray.shape)) {rest : List (NDArray R)} {is : List (List ℕ)} {a b : ℕ}
    (ha : a < r) :
    mp (us ++ rest) (js ++ is) a b
      = (List.zipWith NDArray.get ts js).prod * mp rest is a b := by
  induction h generalizing js with
  | nil =>
    have := idxOK_length hj
    have : js = [] := by simpa using this
    subst this; simp
  | @cons t u ts us h _ ih =>
    cases hj with
    | @cons j _ js _ h1 h2 =>
      simp only [List.cons_append, mp, List.zipWith_cons_cons, List.prod_cons]
      rw [NDArray.rb_of_shape h.1]
      have hl : j.length = t.ndim := inB_length h1
      rw [Finset.sum_eq_single a]
      · rw [h.2 a a j hl, if_pos rfl, mul_one, ih h2, mul_assoc]
      · intro c _ hc
        rw [h.2 a c j hl, if_neg (Ne.symm hc), mul_zero, zero_mul]
      · intro hna
        exact absurd (Finset.mem_range.2 ha) hna

/-! ### Weaving -/

/-- `p₀ ++ i₀ ++ p₁ ++ i₁ ++ … ++ pₙ`. -/
def weave {α : Type} : List (List α) → List (List α) → List α
  | p :: ps, i :: is => p ++ i ++ weave ps is
  | ps, [] => ps.flatten
  | [], _ => []

/-- The pieces `l[0:p₀], l[p₀:p₁], …, l[pₙ:]` of a list which begins at position `off`. -/
def cutGo {α : Type} : ℕ → List ℕ → List α → List (List α)
  | _, [], l => [l]
  | off, p :: ps, l => l.take (p - off) :: cutGo p ps (l.drop (p - off))

/-- `pieces`, `ts` and `us` fit: after each piece with right bond `m` there are the tensors `us` made
from the tensors `ts` with the identity on the bond `m`. -/
inductive WeaveOK [CommSemiring R] : ℕ → List (List (NDArray R)) → List (List (NDArray R)) →
    List (List (NDArray R)) → ℕ → Prop
  | last {l r p} : Chained l p r → WeaveOK l [p] [] [] r
  | cons {l m r p ps t ts u us} : Chained l p m → List.Forall₂ (InjOK m) t u →
      WeaveOK m ps ts us r → WeaveOK l (p :: ps) (t :: ts) (u :: us) r

theorem WeaveOK.chained [CommSemiring R] {l r : ℕ} {P T U : List (List (NDArray R))}
    (h : WeaveOK l P T U r) : Chained l (weave P U) r := by
  induction h with
  | last h => simpa [weave] using h
  | cons h1 h2 _ ih =>
    exact chained_append.2 ⟨_, chained_append.2 ⟨_, h1, chained_inj h2⟩, ih⟩

theorem chained_rb_mem {p : List (NDArray R)} : ∀ {l m : ℕ}, Chained l p m → m = l ∨ ∃ t ∈ p, t.rb = m := by
  induction p with
  | nil => intro l m h; exact Or.inl h.symm
  | cons t ts ih =>
    intro l m h
    rcases ih h.2.2 with h' | ⟨u, hu, e⟩
    · exact Or.inr ⟨t, by simp, h'.symm⟩
    · exact Or.inr ⟨u, by simp [hu], e⟩

/-- No new bond dimensions. -/
theorem WeaveOK.lb_mem [CommSemiring R] {l r : ℕ} {P T U : List (List (NDArray R))}
    (h : WeaveOK l P T U r) : ∀ t ∈ weave P U, t.lb = l ∨ (∃ u ∈ P.flatten, t.lb = u.lb) ∨ ∃ u ∈ P.flatten, t.lb = u.rb := by
  induction h with
  | last h =>
    intro t ht
    exact Or.inr (Or.inl ⟨t, by simpa [weave] using ht, rfl⟩)
  | @cons l m r p ps t ts u us h1 h2 _ ih =>
    have hm := chained_rb_mem h1
    have hm' : ∀ v : NDArray R, v.lb = m → v.lb = l ∨ (∃ u ∈ (p :: ps).flatten, v.lb = u.lb) ∨
        ∃ u ∈ (p :: ps).flatten, v.lb = u.rb := by
      intro v hv
      rcases hm with e | ⟨w, hw, e⟩
      · exact Or.inl (hv.trans e)
      · exact Or.inr (Or.inr ⟨w, by simp [hw], hv.trans e.symm⟩)
    intro v hv
    simp only [weave, List.mem_append] at hv
    rcases hv with (hv | hv) | hv
    · exact Or.inr (Or.inl ⟨v, by simp [hv], rfl⟩)
    · refine hm' v ?_
      clear * - h2 hv
      induction h2 with
      | nil => simp at hv
      | cons a _ ih =>
        rcases List.mem_cons.1 hv with rfl | hv
        · exact NDArray.lb_of_shape a.1
        · exact ih hv
    · rcases ih v hv with h | ⟨w, hw, e⟩ | ⟨w, hw, e⟩
      · exact hm' v h
      · exact Or.inr (Or.inl ⟨w, by simp at hw ⊢; exact Or.inr hw, e⟩)
      · exact Or.inr (Or.inr ⟨w, by simp at hw ⊢; exact Or.inr hw, e⟩)

theorem WeaveOK.length_eq [CommSemiring R] {l r : ℕ} {P T U : List (List (NDArray R))}
    (h : WeaveOK l P T U r) : P.length = U.length + 1 := by
  induction h with
  | last h => rfl
  | cons h1 h2 _ ih => simp [ih]

theorem weave_nil {α : Type} {P U : List (List α)} (h : P.length = U.length + 1)
    (h0 : weave P U = []) : P.flatten = [] := by
  induction U generalizing P with
  | nil =>
    match P, h with
    | [p], _ => simpa [weave] using h0
  | cons u U ih =>
    match P, h with
    | p :: P, h =>
      simp only [weave, List.append_eq_nil_iff] at h0
      rw [List.flatten_cons, h0.1.1, ih (by simpa using h) h0.2]; rfl

theorem WeaveOK.phys [CommSemiring R] {l r : ℕ} {P T U : List (List (NDArray R))}
    (h : WeaveOK l P T U r) : (weave P U).map NDArray.ph
      = weave (P.map fun p => p.map NDArray.ph) (T.map fun t => t.map NDArray.shape) := by
  induction h with
  | last h => simp [weave]
  | @cons l m r p ps t ts u us h1 h2 _ ih =>
    simp only [weave, List.map_append, ih, List.map_cons]
    congr 2
    clear * - h2
    induction h2 with
    | nil => rfl
    | cons h _ ih => rw [List.map_cons, List.map_cons, ih, NDArray.ph_of_shape h.1]

theorem WeaveOK.mp [CommSemiring R] {l r : ℕ} {P T U : List (List (NDArray R))}
    (h : WeaveOK l P T U r) {I J : List (List (List ℕ))}
    (hI : I.map List.length = P.map List.length)
    (hJ : List.Forall₂ (fun j (t : List (NDArray R)) => IdxOK j (t.map NDArray.shape)) J T)
    {a b : ℕ} (ha : a < l) :
    Mpnum.mp (weave P U) (weave I J) a b
      = Mpnum.mp P.flatten I.flatten a b
        * (List.zipWith (fun (t : List (NDArray R)) j => (List.zipWith NDArray.get t j).prod) T J).prod := by
  induction h generalizing I J a with
  | last h =>
    cases hJ
    match I, hI with
    | [i], _ => simp [weave]
    | _ :: _ :: _, hI => simp at hI
  | @cons l m r p ps t ts u us h1 h2 _ ih =>
    cases hJ with
    | @cons j _ js _ h3 h4 =>
      match I, hI with
      | i :: is, hI =>
        simp only [List.map_cons, List.cons.injEq] at hI
        simp only [weave, List.flatten_cons, List.zipWith_cons_cons, List.prod_cons]
        rw [List.append_assoc, List.append_assoc, mp_append h1 hI.1 ha, mp_append h1 hI.1 ha,
          Finset.sum_mul]
        refine Finset.sum_congr rfl fun c hc => ?_
        rw [mp_inj h2 h3 (Finset.mem_range.1 hc), ih hI.2 h4 (Finset.mem_range.1 hc)]
        ring

/-! ### Pieces of the code -/

theorem pyClamp_nat {n k : ℕ} (h : k ≤ n) : pyClamp n (k : ℤ) = k := by
  unfold pyClamp
  rw [if_neg (by omega)]
  simp [h]

theorem pySlice_nat {α : Type} (l : List α) {b e : ℕ} (hb : b ≤ l.length) (he : e ≤ l.length) :
    pySlice l (b : ℤ) (e : ℤ) = (l.drop b).take (e - b) := by
  rw [pySlice, pyClamp_nat hb, pyClamp_nat he]

theorem pieces_cut {α : Type} (l : List α) {off : ℕ} {ps : List ℕ} (h : (off :: ps).IsChain (· ≤ ·))
    (hle : ∀ p ∈ off :: ps, p ≤ l.length) :
    List.zipWith (pySlice l) ((off : ℤ) :: (ps.map (fun k : ℕ => (k : ℤ)) ++ [(l.length : ℤ)]))
      (ps.map (fun k : ℕ => (k : ℤ)) ++ [(l.length : ℤ)]) = cutGo off ps (l.drop off) := by
  induction ps generalizing off with
  | nil =>
    simp only [List.map_nil, List.nil_append, List.zipWith_cons_cons, List.zipWith_nil_right, cutGo]
    rw [pySlice_nat l (hle off (by simp)) le_rfl, List.take_of_length_le (by simp)]
  | cons p ps ih =>
    rw [List.isChain_cons_cons] at h
    simp only [List.map_cons, List.cons_append, List.zipWith_cons_cons, cutGo]
    rw [pySlice_nat l (hle off (by simp)) (hle p (by simp)), List.drop_drop,
      Nat.add_sub_cancel' h.1]
    congr 1
    exact ih h.2 fun q hq => hle q (by simp at hq ⊢; tauto)

theorem flatMap_weave {α : Type} {P U : List (List α)} (h : P.length = U.length + 1) :
    (P.zip U).flatMap (fun p => p.1 ++ p.2) ++ (P.getLast?.getD []) = weave P U := by
  induction U generalizing P with
  | nil =>
    match P, h with
    | [p], _ => simp [weave]
  | cons u U ih =>
    match P, h with
    | p :: q :: P, h =>
      simp only [List.zip_cons_cons, List.flatMap_cons, weave]
      rw [← ih (P := q :: P) (by simpa using h), List.getLast?_cons_cons]
      simp

theorem cutGo_flatten {α : Type} {off : ℕ} {ps : List ℕ} {l : List α} : (cutGo off ps l).flatten = l := by
  induction ps generalizing off l with
  | nil => simp [cutGo]
  | cons p ps ih => simp [cutGo, ih]

theorem cutGo_length {α : Type} {off : ℕ} {ps : List ℕ} {l : List α} :
    (cutGo off ps l).length = ps.length + 1 := by
  induction ps generalizing off l with
  | nil => simp [cutGo]
  | cons p ps ih => simp [cutGo, ih]

theorem cutGo_map {α β : Type} (f : α → β) {off : ℕ} {ps : List ℕ} {l : List α} :
    cutGo off ps (l.map f) = (cutGo off ps l).map fun p => p.map f := by
  induction ps generalizing off l with
  | nil => simp [cutGo]
  | cons p ps ih => simp only [cutGo, List.map_cons, ← ih, List.map_take, List.map_drop]

theorem cutGo_lengths {α β : Type} {off : ℕ} {ps : List ℕ} {l : List α} {l' : List β}
    (h : l.length = l'.length) :
    (cutGo off ps l).map List.length = (cutGo off ps l').map List.length := by
  induction ps generalizing off l l' with
  | nil => simp [cutGo, h]
  | cons p ps ih =>
    simp only [cutGo, List.map_cons, List.length_take, h]
    rw [ih (l' := l'.drop (p - off)) (by simp [h])]

theorem injPiece_ok [CommSemiring R] {r d : ℕ} {it : InjItem R} {ts : List (NDArray R)}
    (h : it.tens d = .ok ts) :
    ∃ us, injPiece (r, d, it) = .ok us ∧ List.Forall₂ (InjOK r) ts us := by
  unfold injPiece
  simp only
  rw [h, ok_bind]
  clear h
  induction ts with
  | nil => exact ⟨[], rfl, .nil⟩
  | cons t ts ih =>
    obtain ⟨u, hu, hu'⟩ := injLten_ok r t
    obtain ⟨us, hus, hus'⟩ := ih
    refine ⟨u :: us, ?_, .cons hu' hus'⟩
    rw [List.mapM_cons, hu, ok_bind, hus]; rfl

theorem pieceRank_eq {l m : ℕ} {p : List (NDArray R)} (h : Chained l p m) (h0 : p ≠ [] ∨ l = 1) :
    pieceRank p = m := by
  unfold pieceRank
  induction p generalizing l with
  | nil =>
    have : l = m := h
    rcases h0 with h0 | h0
    · exact absurd rfl h0
    · simp [← this, h0]
  | cons t ts ih =>
    cases ts with
    | nil => exact h.2.2
    | cons u us =>
      rw [List.getLast?_cons_cons]
      exact ih h.2.2 (Or.inl (by simp))

theorem inj_pieces [CommSemiring R] (last : NDArray R) {P : List (List (NDArray R))}
    {items : List (InjItem R)} {T : List (List (NDArray R))} {l r : ℕ}
    (hlen : P.length = items.length + 1) (hc : Chained l P.flatten r)
    (hfirst : P.dropLast.head? ≠ some [] ∨ l = 1) (hmid : ∀ p ∈ P.tail.dropLast, p ≠ [])
    (hT : List.Forall₂ (fun (q : ℕ × InjItem R) t => q.2.tens q.1 = .ok t)
      ((P.tail.map (pieceDim last)).zip items) T) :
    ∃ U, ((P.dropLast.map pieceRank).zip ((P.tail.map (pieceDim last)).zip items)).mapM injPiece = .ok U ∧
      WeaveOK l P T U r := by
  induction items generalizing P T l with
  | nil =>
    match P, hlen with
    | [p], _ =>
      simp at hT
      subst hT
      exact ⟨[], rfl, .last (by simpa using hc)⟩
  | cons it items ih =>
    match P, hlen with
    | p :: q :: P, hlen =>
      simp only [List.tail_cons, List.map_cons, List.zip_cons_cons] at hT
      cases hT with
      | @cons _ t _ ts h1 h2 =>
        rw [List.flatten_cons] at hc
        obtain ⟨m, hc1, hc2⟩ := chained_append.1 hc
        have hr : pieceRank p = m := pieceRank_eq hc1 (by
          rcases hfirst with h | h
          · exact Or.inl (by simpa using h)
          · exact Or.inr h)
        obtain ⟨u, hu, hu'⟩ := injPiece_ok (r := m) h1
        obtain ⟨U, hU, hW⟩ := ih (P := q :: P) (T := ts) (l := m) (by simpa using hlen) hc2 (by
            cases P with
            | nil => exact Or.inl (by simp)
            | cons q' P => exact Or.inl (by simpa using hmid q (by simp))) (by
            cases P with
            | nil => simp
            | cons q' P =>
              intro p' hp'
              exact hmid p' (by simp at hp' ⊢; tauto)) (by simpa using h2)
        refine ⟨u :: U, ?_, .cons hc1 hu' hW⟩
        simp only [List.dropLast_cons_cons, List.map_cons, List.zip_cons_cons, List.tail_cons,
          List.mapM_cons]
        rw [hr, hu, ok_bind]
        simp only [List.tail_cons] at hU
        rw [hU]; rfl

end Mpnum
