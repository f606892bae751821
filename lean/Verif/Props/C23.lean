import Verif.MPArray.Inject
import Verif.Props.C08

/-! # C23: inject -/

open Finset

namespace Mpnum

variable {R : Type}

/-- Dimension of the identity injected at position `p`: the first leg of site `p`, or of the last site
at the end. -/
def legAt (S : List (List ℕ)) (p : ℕ) : ℕ := (S.getD (min p (S.length - 1)) []).headD 0

/-- The tensors which are to be injected at a position where the identity has dimension `d`: `num`
copies of a tensor, or all tensors of a sequence; `None` stands for the identity. -/
def Injects [CommSemiring R] (d : ℕ) : InjItem R → List (NDArray R) → Prop
  | .copies n (some a), ts => ts = List.replicate n a
  | .copies n none, ts => ts = List.replicate n (NDArray.eye d)
  | .seq l, ts => List.Forall₂ (fun o t => t = o.getD (NDArray.eye d)) l ts
  | .missing, _ => False
  | .single _, _ => False

/-- The item injects an identity. -/
def InjItem.usesEye : InjItem R → Prop
  | .copies _ t => t = none
  | .seq l => none ∈ l
  | _ => False

theorem injects_tens [CommSemiring R] {d d' : ℕ} {it : InjItem R} {ts : List (NDArray R)}
    (h : Injects d it ts) (hd : it.usesEye → d = d') : it.tens d' = .ok ts := by
  match it, h with
  | .copies n (some a), h => simp only [Injects] at h; rw [h]; rfl
  | .copies n none, h => simp only [Injects] at h; rw [h, hd rfl]; rfl
  | .seq l, h =>
    simp only [Injects] at h
    simp only [InjItem.tens]
    congr 1
    simp only [InjItem.usesEye] at hd
    rename_i h0
    clear h0
    induction h with
    | nil => rfl
    | @cons o t l ts h1 _ ih =>
      rw [List.map_cons, ih fun h => hd (by simp [h])]
      congr 1
      cases o with
      | none => rw [h1, hd (by simp)]
      | some a => rw [h1]; rfl

theorem cutGo_ne {α : Type} {off : ℕ} {ps : List ℕ} {l : List α} (h : (off :: ps).IsChain (· < ·))
    (hle : ∀ p ∈ ps, p ≤ off + l.length) : ∀ p ∈ (cutGo off ps l).dropLast, p ≠ [] := by
  induction ps generalizing off l with
  | nil => simp [cutGo]
  | cons q ps ih =>
    rw [List.isChain_cons_cons] at h
    have hq := hle q (by simp)
    simp only [cutGo]
    rw [List.dropLast_cons_of_ne_nil (by
      intro h0
      have := cutGo_length (off := q) (ps := ps) (l := l.drop (q - off))
      rw [h0] at this; simp at this)]
    intro p hp
    rcases List.mem_cons.1 hp with rfl | hp
    · intro h0
      have := congrArg List.length h0
      rw [List.length_take, List.length_nil] at this
      omega
    · refine ih h.2 ?_ p hp
      intro p' hp'
      have := hle p' (by simp [hp'])
      simp only [List.length_drop]
      omega

theorem cutGo_heads {α : Type} (L : List α) (last : α) {off : ℕ} {ps : List ℕ}
    (h : ps.IsChain (· < ·)) (hoff : ∀ p ∈ ps.head?, off ≤ p) :
    (cutGo off ps (L.drop off)).tail.map (fun r => r.head?.getD last)
      = ps.map fun p => L[p]?.getD last := by
  induction ps generalizing off with
  | nil => simp [cutGo]
  | cons p ps ih =>
    have hp : off ≤ p := hoff p (by simp)
    have hps : ps.IsChain (· < ·) := h.tail
    simp only [cutGo, List.tail_cons, List.drop_drop, Nat.add_sub_cancel' hp, List.map_cons]
    have hh : ∀ q ∈ ps.head?, p < q := by
      intro q hq
      cases ps with
      | nil => simp at hq
      | cons q' ps =>
        simp at hq; subst hq
        exact (List.isChain_cons_cons.1 h).1
    have ih' := ih (off := p) hps fun q hq => (hh q hq).le
    cases ps with
    | nil => simp [cutGo, List.head?_drop]
    | cons q ps =>
      have hq := hh q (by simp)
      simp only [cutGo, List.tail_cons, List.drop_drop, Nat.add_sub_cancel' hq.le, List.map_cons] at ih' ⊢
      rw [ih', List.head?_take, if_neg (by omega), List.head?_drop]

theorem bonds_mem {x : MPA R} (hx : x.Valid) :
    ∀ u ∈ x.lt, (u.lb = 1 ∨ u.lb ∈ x.ranks) ∧ (u.rb = 1 ∨ u.rb ∈ x.ranks) := by
  have aux : ∀ (ts : List (NDArray R)) (l : ℕ), Chained l ts 1 → ∀ u ∈ ts,
      (u.lb = l ∨ u.lb ∈ ts.tail.map NDArray.lb) ∧ (u.rb = 1 ∨ u.rb ∈ ts.tail.map NDArray.lb) := by
    intro ts
    induction ts with
    | nil => intro _ _ u hu; simp at hu
    | cons t ts ih =>
      intro l h u hu
      have hcase : t.rb = 1 ∨ t.rb ∈ ts.map NDArray.lb := by
        cases ts with
        | nil => exact Or.inl h.2.2
        | cons t' ts => exact Or.inr (by rw [List.map_cons, h.2.2.2.1]; simp)
      rcases List.mem_cons.1 hu with rfl | hu
      · exact ⟨Or.inl h.2.1, hcase⟩
      · obtain ⟨-, h2⟩ := ih _ h.2.2 u hu
        refine ⟨Or.inr (List.mem_map_of_mem hu), h2.imp_right fun h3 => ?_⟩
        rw [List.map_tail] at h3
        exact List.mem_of_mem_tail h3
  exact aux x.lt 1 hx.chain

/-- C23: `inject(x, pos, num, inject_ten)` for strictly increasing positions in the range of `x`:
the sites of `x` are cut at the positions and the given tensors are placed in between.  The entries
are the entries of `x` times the entries of all injected tensors. -/
theorem C23_inject [CommSemiring R] (x : MPA R) (hx : x.Valid) (ps : List ℕ)
    (items : List (InjItem R)) (T : List (List (NDArray R)))
    (hsort : ps.IsChain (· < ·)) (hle : ∀ p ∈ ps, p ≤ x.len) (hlen : ps.length = items.length)
    (hT : List.Forall₂ (fun (q : ℕ × InjItem R) t => Injects (legAt x.shape q.1) q.2 t)
      (ps.zip items) T)
    (hleg : ∀ q ∈ ps.zip items, q.2.usesEye → x.shape.getD (min q.1 (x.len - 1)) [] ≠ []) :
    ∃ y, inject x (ps.map fun k : ℕ => (k : ℤ)) items = .ok y ∧ y.Valid ∧ y.l = 0 ∧ y.r = y.len ∧
      y.shape = weave (cutGo 0 ps x.shape) (T.map fun t => t.map NDArray.shape) ∧
      (∀ r ∈ y.ranks, r = 1 ∨ r ∈ x.ranks) ∧
      ∀ idx J, IdxOK idx x.shape →
        List.Forall₂ (fun j (t : List (NDArray R)) => IdxOK j (t.map NDArray.shape)) J T →
        y.val (weave (cutGo 0 ps idx) J) = x.val idx *
          (List.zipWith (fun (t : List (NDArray R)) j => (List.zipWith NDArray.get t j).prod) T J).prod := by
  obtain ⟨last, hlast⟩ : ∃ t, x.lt.getLast? = some t := by
    cases h : x.lt.getLast? with
    | none => exact absurd (List.getLast?_eq_none_iff.1 h) hx.ne
    | some t => exact ⟨t, rfl⟩
  have hxl : 0 < x.lt.length := List.length_pos_of_ne_nil hx.ne
  have hle' : ∀ p ∈ ps, p ≤ x.lt.length := hle
  -- the pieces
  have hpieces : List.zipWith (pySlice x.lt) (0 :: ((ps.map fun k : ℕ => (k : ℤ)) ++ [(x.len : ℤ)]))
      ((ps.map fun k : ℕ => (k : ℤ)) ++ [(x.len : ℤ)]) = cutGo 0 ps x.lt := by
    have := pieces_cut x.lt (off := 0) (ps := ps) (by
      cases ps with
      | nil => simp
      | cons p ps =>
        rw [List.isChain_cons_cons]
        exact ⟨Nat.zero_le _, hsort.imp fun _ _ h => h.le⟩) (by simpa using hle')
    simpa [MPA.len] using this
  have hfl : (cutGo 0 ps x.lt).flatten = x.lt := cutGo_flatten
  have hpl : (cutGo 0 ps x.lt).length = items.length + 1 := by rw [cutGo_length, hlen]
  have hdims : (cutGo 0 ps x.lt).tail.map (pieceDim last)
      = ps.map fun p => (x.lt[p]?.getD last).shape.getD 1 0 := by
    have := cutGo_heads x.lt last (off := 0) hsort (by simp)
    have h2 := congrArg (List.map fun t : NDArray R => t.shape.getD 1 0) this
    rw [List.drop_zero, List.map_map, List.map_map] at h2
    exact h2
  have hsite : ∀ p, p ≤ x.lt.length → ∃ h : min p (x.lt.length - 1) < x.lt.length,
      x.lt[p]?.getD last = x.lt[min p (x.lt.length - 1)] := by
    intro p hp
    refine ⟨by omega, ?_⟩
    rcases Nat.lt_or_ge p x.lt.length with h | h
    · have : min p (x.lt.length - 1) = p := by omega
      simp [this, h]
    · rw [List.getElem?_eq_none h]
      rw [List.getLast?_eq_getElem?, List.getElem?_eq_getElem (by omega)] at hlast
      have : min p (x.lt.length - 1) = x.lt.length - 1 := by omega
      simp only [this]
      simpa using hlast.symm
  have hT' : List.Forall₂ (fun (q : ℕ × InjItem R) t => q.2.tens q.1 = .ok t)
      (((cutGo 0 ps x.lt).tail.map (pieceDim last)).zip items) T := by
    rw [hdims]
    have key : ∀ q ∈ ps.zip items, ∀ t, Injects (legAt x.shape q.1) q.2 t →
        q.2.tens ((x.lt[q.1]?.getD last).shape.getD 1 0) = .ok t := by
      intro q hq t ht
      refine injects_tens ht fun hu => ?_
      have h1 := hleg q hq hu
      have h2 := hle' q.1 (List.of_mem_zip hq).1
      obtain ⟨h3, h4⟩ := hsite q.1 h2
      rw [h4]
      have hsh : x.shape.getD (min q.1 (x.lt.length - 1)) [] = (x.lt[min q.1 (x.lt.length - 1)]).ph := by
        simp [MPA.shape, List.getD_eq_getElem?_getD, h3]
      unfold legAt
      have hxs : x.shape.length = x.lt.length := by simp [MPA.shape]
      rw [hxs]
      rw [MPA.len, hsh] at h1
      rw [hsh]
      have hloc := NDArray.shape_local (hx.chain.isLocal _ (List.getElem_mem h3))
      rw [hloc]
      obtain ⟨c, cs, hc⟩ := List.exists_cons_of_ne_nil h1
      rw [hc]; rfl
    clear hdims hpl hpieces hfl hleg
    clear hsort hle hle'
    induction ps generalizing items T with
    | nil =>
      cases hT
      exact .nil
    | cons p ps ih =>
      match items, hlen with
      | it :: items, hlen =>
        simp only [List.zip_cons_cons, List.map_cons] at hT key ⊢
        cases hT with
        | cons h1 h2 =>
          exact .cons (key _ (by simp) _ h1) (ih items _ (by simpa using hlen) h2
            fun q hq t ht => key q (by simp [hq]) t ht)
  obtain ⟨U, hU, hW⟩ := inj_pieces last hpl (by rw [hfl]; exact hx.chain) (Or.inr rfl) (by
    cases ps with
    | nil => simp [cutGo]
    | cons p ps =>
      simp only [cutGo, List.tail_cons]
      refine cutGo_ne hsort ?_
      intro q hq
      have := hle' q (by simp [hq])
      simp only [List.length_drop]
      omega) hT'
  have hUl := hW.length_eq
  have hch := hW.chained
  have hne : weave (cutGo 0 ps x.lt) U ≠ [] := by
    intro h0
    have := weave_nil hUl h0
    rw [hfl] at this
    exact hx.ne this
  refine ⟨⟨weave (cutGo 0 ps x.lt) U, 0, _⟩, ?_, valid_mk hne hch, rfl, rfl, ?_, ?_, ?_⟩
  · unfold inject
    have h1 : (items.all fun i => !i.isSingle) = true := by
      rw [List.all_eq_true]
      intro it hit
      obtain ⟨n, hn, rfl⟩ := List.mem_iff_getElem.1 hit
      have hm : ((ps[n]'(by omega)), items[n]) ∈ ps.zip items := by
        rw [List.mem_iff_getElem]
        exact ⟨n, by simp; omega, by simp⟩
      have : ∀ q ∈ ps.zip items, ∃ t, Injects (legAt x.shape q.1) q.2 t := by
        clear * - hT
        generalize ps.zip items = Z at hT
        intro q hq
        induction hT with
        | nil => simp at hq
        | cons h1 _ ih =>
          rcases List.mem_cons.1 hq with rfl | hq
          · exact ⟨_, h1⟩
          · exact ih hq
      obtain ⟨t, ht⟩ := this _ hm
      cases hitem : items[n] with
      | single a => simp only [hitem, Injects] at ht
      | _ => rfl
    have h2 : (((ps.map fun k : ℕ => (k : ℤ)).zip (ps.map fun k : ℕ => (k : ℤ)).tail).all
        fun p => decide (p.1 < p.2)) = true := by
      clear * - hsort
      induction ps with
      | nil => rfl
      | cons p ps ih =>
        cases ps with
        | nil => rfl
        | cons q ps =>
          rw [List.isChain_cons_cons] at hsort
          have := ih hsort.2
          simp only [List.map_cons, List.tail_cons, List.zip_cons_cons, List.all_cons] at this ⊢
          rw [this]
          simp [hsort.1]
    have h3 : ((ps.map fun k : ℕ => (k : ℤ)).length = items.length) := by simpa using hlen
    simp only [h1, h2, h3, pyAssert, if_true, ok_bind, List.tail_cons, hpieces, hlast]
    rw [hU, ok_bind, flatMap_weave hUl, mkMPA_ok hne hch]
  · show (weave (cutGo 0 ps x.lt) U).map NDArray.ph = _
    rw [hW.phys, MPA.shape, cutGo_map]
  · intro r hr
    obtain ⟨t, ht, rfl⟩ := List.mem_map.1 hr
    have hb : ∀ u ∈ x.lt, (u.lb = 1 ∨ u.lb ∈ x.ranks) ∧ (u.rb = 1 ∨ u.rb ∈ x.ranks) := bonds_mem hx
    rcases hW.lb_mem t (List.mem_of_mem_tail ht) with h | ⟨u, hu, h⟩ | ⟨u, hu, h⟩
    · exact Or.inl h
    · rw [hfl] at hu
      rw [h]
      exact (hb u hu).1
    · rw [hfl] at hu
      rw [h]
      exact (hb u hu).2
  · intro idx J hidx hJ
    show entry (weave (cutGo 0 ps x.lt) U) _ = entry x.lt idx * _
    have := hW.mp (I := cutGo 0 ps idx) (J := J) (a := 0) (b := 0) (cutGo_lengths (by
      have := idxOK_length hidx
      simpa [MPA.shape] using this)) hJ one_pos
    rw [cutGo_flatten, cutGo_flatten] at this
    exact this

/-- C23 at one position: `inject(x, p, n, ten)` places `n` copies of `ten` before site `p`. -/
theorem C23_inject_one [CommSemiring R] (x : MPA R) (hx : x.Valid) (p n : ℕ) (hp : p ≤ x.len)
    (ten : NDArray R) :
    ∃ y, inject x [(p : ℤ)] [.copies n (some ten)] = .ok y ∧ y.Valid ∧ y.l = 0 ∧ y.r = y.len ∧
      y.shape = x.shape.take p ++ List.replicate n ten.shape ++ x.shape.drop p ∧
      (∀ r ∈ y.ranks, r = 1 ∨ r ∈ x.ranks) ∧
      ∀ idx js, IdxOK idx x.shape → IdxOK js (List.replicate n ten.shape) →
        y.val (idx.take p ++ js ++ idx.drop p) = x.val idx * (js.map ten.get).prod := by
  obtain ⟨y, h1, h2, h5, h6, h3, h7, h4⟩ := C23_inject x hx [p] [.copies n (some ten)]
    [List.replicate n ten] (by simp) (by simpa using hp) rfl
    (.cons rfl .nil) (by
      intro q hq hu
      simp at hq
      subst hq
      simp [InjItem.usesEye] at hu)
  refine ⟨y, h1, h2, h5, h6, ?_, h7, ?_⟩
  · simpa [cutGo, weave] using h3
  · intro idx js hidx hjs
    have := h4 idx [js] hidx (.cons (by simpa using hjs) .nil)
    simp only [cutGo, weave, Nat.sub_zero, List.flatten_cons, List.flatten_nil, List.append_nil,
      List.zipWith_cons_cons, List.zipWith_nil_right, List.prod_cons, List.prod_nil, mul_one] at this
    rw [this]
    congr 2
    have hl := idxOK_length hjs
    rw [List.length_replicate] at hl
    clear * - hl
    induction n generalizing js with
    | zero => cases js with
      | nil => rfl
      | cons => simp at hl
    | succ n ih => cases js with
      | nil => simp at hl
      | cons j js =>
        rw [List.replicate_succ, List.zipWith_cons_cons, List.map_cons, ih js (by simpa using hl)]

/-- C23, identities: `inject(x, p, n)` places identities on the first leg of site `p` (of the last
site at the end). -/
theorem C23_inject_eye [CommSemiring R] (x : MPA R) (hx : x.Valid) (p n : ℕ) (hp : p ≤ x.len)
    (hleg : x.shape.getD (min p (x.len - 1)) [] ≠ []) :
    ∃ y, inject x [(p : ℤ)] [.copies n none] = .ok y ∧ y.Valid ∧
      y.shape = x.shape.take p ++ List.replicate n [legAt x.shape p, legAt x.shape p]
        ++ x.shape.drop p ∧
      ∀ idx js, IdxOK idx x.shape →
        IdxOK js (List.replicate n [legAt x.shape p, legAt x.shape p]) →
        y.val (idx.take p ++ js ++ idx.drop p)
          = x.val idx * (js.map fun j => if j.getD 0 0 = j.getD 1 0 then (1 : R) else 0).prod := by
  obtain ⟨y, h1, h2, _, _, h3, _, h4⟩ := C23_inject x hx [p] [.copies n none]
    [List.replicate n (NDArray.eye (legAt x.shape p))] (by simp) (by simpa using hp) rfl
    (.cons rfl .nil) (by
      intro q hq _
      simp at hq
      subst hq
      exact hleg)
  refine ⟨y, h1, h2, ?_, ?_⟩
  · simpa [cutGo, weave, NDArray.eye] using h3
  · intro idx js hidx hjs
    have := h4 idx [js] hidx (.cons (by simpa [NDArray.eye] using hjs) .nil)
    simp only [cutGo, weave, Nat.sub_zero, List.flatten_cons, List.flatten_nil, List.append_nil,
      List.zipWith_cons_cons, List.zipWith_nil_right, List.prod_cons, List.prod_nil, mul_one] at this
    rw [this]
    congr 2
    have hl := idxOK_length hjs
    rw [List.length_replicate] at hl
    clear * - hl
    generalize legAt x.shape p = d
    induction n generalizing js with
    | zero => cases js with
      | nil => rfl
      | cons => simp at hl
    | succ n ih => cases js with
      | nil => simp at hl
      | cons j js =>
        rw [List.replicate_succ, List.zipWith_cons_cons, List.map_cons, ih js (by simpa using hl)]
        rfl

/-- C23, error branch: positions which are not strictly increasing are rejected. -/
theorem C23_not_increasing [CommSemiring R] (x : MPA R) (pos : List ℤ) (items : List (InjItem R))
    (h : ¬ pos.IsChain (· < ·)) : inject x pos items = .error .assertion := by
  have h2 : ((pos.zip pos.tail).all fun p => decide (p.1 < p.2)) = false := by
    rw [Bool.eq_false_iff]
    intro h2
    apply h
    clear h
    induction pos with
    | nil => simp
    | cons p ps ih =>
      cases ps with
      | nil => simp
      | cons q ps =>
        simp only [List.tail_cons, List.zip_cons_cons, List.all_cons, Bool.and_eq_true,
          decide_eq_true_eq] at h2 ih
        rw [List.isChain_cons_cons]
        exact ⟨h2.1, ih h2.2⟩
  unfold inject
  rw [h2]
  by_cases h3 : pos.length = items.length
  · by_cases h4 : (items.all fun i => !i.isSingle) = true
    · rw [h4]; simp [pyAssert, h3]
    · rw [Bool.not_eq_true] at h4
      rw [h4]; simp [pyAssert, h3]
  · simp [pyAssert, h3]

/-- C23, error branch: an array without a number of copies is rejected. -/
theorem C23_single [CommSemiring R] (x : MPA R) (p : ℤ) (a : NDArray R) :
    inject x [p] [.single a] = .error .assertion := rfl

/-- C23, error branch: neither a number of copies nor tensors: `TypeError`. -/
theorem C23_missing [CommSemiring R] (x : MPA R) (hx : x.lt ≠ []) (p : ℤ) :
    inject x [p] [.missing] = .error .type := by
  unfold inject
  cases h : x.lt.getLast? with
  | none => exact absurd (List.getLast?_eq_none_iff.1 h) hx
  | some t => simp [pyAssert, InjItem.isSingle, injPiece, InjItem.tens]

/-- Non-vacuity: a copy of a 2×3 array before the last site of an MPO, and an identity behind it. -/
example : exMPO.Valid ∧ [1, 2].IsChain (· < ·) ∧ (∀ p ∈ [1, 2], p ≤ exMPO.len) ∧
    List.Forall₂ (fun (q : ℕ × InjItem ℤ) t => Injects (legAt exMPO.shape q.1) q.2 t)
      ([1, 2].zip [.copies 2 (some ⟨[2, 3], fun i => (i.sum : ℤ)⟩), .seq [none]])
      [[⟨[2, 3], fun i => (i.sum : ℤ)⟩, ⟨[2, 3], fun i => (i.sum : ℤ)⟩], [NDArray.eye 2]] ∧
    weave (cutGo 0 [1, 2] exMPO.shape) [[[2, 3], [2, 3]], [[2, 2]]]
      = [[2, 2], [2, 3], [2, 3], [2, 2], [2, 2]] :=
  ⟨exMPO_valid, by decide, by decide, .cons rfl (.cons (.cons rfl .nil) .nil), by decide⟩

end Mpnum
