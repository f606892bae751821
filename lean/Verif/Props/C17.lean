import Verif.MPArray.VLeg
import Verif.Props.C14

/-!
# C17: vleg2leg, leg2vleg, split
-/

open Finset

namespace Mpnum

variable {R : Type}

section
variable [CommRing R] [StarRing R]

theorem vleg2leg_core {x : MPA R} (hx : x.Valid) {pre post : List (NDArray R)} {t u : NDArray R}
    (h : x.lt = pre ++ t :: u :: post) :
    x.vleg2leg pre.length = .ok ⟨pre ++ t.appendAxis :: u.prependAxis :: post, min x.l pre.length,
        max x.r (pre.length + 2)⟩ ∧
    (⟨pre ++ t.appendAxis :: u.prependAxis :: post, min x.l pre.length,
        max x.r (pre.length + 2)⟩ : MPA R).Valid ∧
    (x.CanonOK → (⟨pre ++ t.appendAxis :: u.prependAxis :: post, min x.l pre.length,
        max x.r (pre.length + 2)⟩ : MPA R).CanonOK) := by
  have hch := hx.chain
  rw [h] at hch
  have hcut := chained_cut hch
  have h0 := hx.l_nonneg
  have h1 := hx.l_lt_r
  have h2 := hx.r_le
  have hlen : x.len = pre.length + 2 + post.length := by simp [MPA.len, h]; omega
  have hlen' : (pre ++ t.appendAxis :: u.prependAxis :: post).length = x.len := by
    rw [hlen]; simp; omega
  refine ⟨?_, ⟨by simp, hcut, by simp only; omega, by simp only; omega, by
    rw [MPA.len]; simp only [hlen']; omega⟩, fun hc => canonOK_pair h hc le_rfl le_rfl⟩
  rw [vleg2leg_eq h]
  exact mkLT_ok (by simp) hcut (by omega) (by rw [hlen']; omega) (by omega) (by rw [hlen']; omega)

/-- C17: `x.vleg2leg(pos)` exposes the bond between `pos` and `pos + 1` (of dimension `D`) as a new
last leg of site `pos` and a new first leg of site `pos + 1`; contracting the two new legs gives `x`
back, the new bond dimension is 1, and the claimed canonical form is true. -/
theorem C17_vleg2leg (x : MPA R) (hx : x.Valid) (pos D : ℕ) (hp : x.ranks[pos]? = some D) :
    ∃ y, x.vleg2leg pos = .ok y ∧ y.Valid ∧
      y.shape = cutAt pos D D x.shape ∧ y.ranks = x.ranks.set pos 1 ∧
      (∀ idx, IdxOK idx x.shape → ∑ c ∈ range D, y.val (cutAt pos c c idx) = x.val idx) ∧
      (x.CanonOK → y.CanonOK) := by
  have hlen : pos + 1 < x.lt.length := by
    have := (List.getElem?_eq_some_iff.1 hp).1
    simp [MPA.ranks] at this; omega
  obtain ⟨pre, t, u, post, hlt, rfl⟩ := MPA.split_at hlen
  obtain ⟨g1, g2, g3⟩ := vleg2leg_core hx hlt
  have hch := hx.chain
  rw [hlt] at hch
  obtain ⟨c1, c2, c3, c4, c5⟩ := chained_mid.1 hch
  have e1 := appendAxis_shape c2
  have e2 := prependAxis_shape c3
  have hD : D = u.lb := by
    have : x.ranks[pre.length]? = some u.lb := by
      rw [MPA.ranks, hlt, List.map_tail, List.getElem?_tail]; simp
    rw [this] at hp; injection hp with hp; exact hp.symm
  refine ⟨_, g1, g2, ?_, ?_, ?_, g3⟩
  · simp only [MPA.shape, hlt, List.map_append, List.map_cons, NDArray.ph_of_shape e1,
      NDArray.ph_of_shape e2]
    have := cutAt_mid (pre.map NDArray.ph) t.ph u.ph (post.map NDArray.ph) D D
    rw [List.length_map] at this
    rw [this, c4, ← hD]
  · simp only [MPA.ranks, hlt]
    cases pre with
    | nil => simp [NDArray.lb_of_shape e2]
    | cons a as =>
      simp only [List.cons_append, List.tail_cons, List.map_append, List.map_cons,
        NDArray.lb_of_shape e1, NDArray.lb_of_shape e2, List.length_cons]
      have := set_mid (as.map NDArray.lb ++ [t.lb]) (post.map NDArray.lb) u.lb 1
      simp only [List.length_append, List.length_map, List.length_cons, List.length_nil,
        List.append_assoc, List.cons_append, List.nil_append, Nat.zero_add] at this
      rw [this]
  · intro idx hi
    have hi' : IdxOK idx (pre.map NDArray.ph ++ t.ph :: u.ph :: post.map NDArray.ph) := by
      rw [MPA.shape, hlt] at hi; simpa using hi
    obtain ⟨ip, p, q, iq, rfl, f1, f2, f3, f4, f5⟩ := idxOK_mid hi'
    have hl : ip.length = pre.length := by simpa using f1
    show _ = mp x.lt _ 0 0
    rw [hlt, show pre ++ t :: u :: post = (pre ++ [t]) ++ u :: post by simp,
      show ip ++ p :: q :: iq = (ip ++ [p]) ++ q :: iq by simp,
      mp_append (l := 1) (m := t.rb) (chained_concat.2 ⟨c1, c2, rfl⟩) (by simp [hl]) one_pos, c4, ← hD]
    refine Finset.sum_congr rfl fun c hc => ?_
    rw [← hl, show (ip ++ [p]) ++ q :: iq = ip ++ p :: q :: iq by simp, cutAt_mid]
    exact mp_cut hch hl one_pos (by rw [c4, ← hD]; simpa using hc)

omit [CommRing R] [StarRing R] in
/-- C17: `leg2vleg(pos)` after `vleg2leg(pos)` gives back the same local tensors. -/
theorem C17_leg2vleg_vleg2leg (x : MPA R) (hx : x.Valid) (pos : ℕ) (hp : pos + 1 < x.len) :
    ∃ y z, x.vleg2leg pos = .ok y ∧ y.leg2vleg pos = .ok z ∧ z.lt = x.lt ∧ z.Valid := by
  obtain ⟨pre, t, u, post, hlt, rfl⟩ := MPA.split_at (ts := x.lt) (m := pos) hp
  have hch := hx.chain
  rw [hlt] at hch
  obtain ⟨c1, c2, c3, c4, c5⟩ := chained_mid.1 hch
  have hcut := chained_cut hch
  have h0 := hx.l_nonneg
  have h1 := hx.l_lt_r
  have h2 := hx.r_le
  have hlen : x.len = pre.length + 2 + post.length := by simp [MPA.len, hlt]; omega
  have e1 := appendAxis_shape c2
  have e2 := prependAxis_shape c3
  have z1 : t.appendAxis.lastZero = t := by
    unfold NDArray.appendAxis NDArray.lastZero
    simp
  have z2 : u.prependAxis.firstZero = u := rfl
  refine ⟨⟨pre ++ t.appendAxis :: u.prependAxis :: post, min x.l pre.length, max x.r (pre.length + 2)⟩,
    ⟨x.lt, min x.l pre.length, max x.r (pre.length + 2)⟩, ?_, ?_, rfl, ?_⟩
  · rw [vleg2leg_eq hlt]
    exact mkLT_ok (by simp) hcut (by omega) (by simp; omega) (by omega) (by simp; omega)
  · rw [leg2vleg_eq rfl (NDArray.rb_of_shape e1) (NDArray.lb_of_shape e2), z1, z2, hlt,
      mkLT_ok (by simp) hch (by simp only; omega) (by simp; omega) (by simp only; omega)
        (by simp; omega)]
    congr 2
    · simp only; omega
    · simp only; omega
  · exact ⟨hx.ne, hx.chain, by simp only; omega, by simp only; omega, by simp only [MPA.len] at *; omega⟩

/-- C17: `x.leg2vleg(pos)` for an MPA with bond dimension 1 at `pos` whose last leg at `pos` and
first leg at `pos + 1` have the same size `D`: these legs are contracted.

Partial: the claimed canonical form is true only if `x` makes no claim about site `pos + 1`
(`pos + 2 ≤ x.canonical_form[1]`); see `C17_leg2vleg_wrong_form`. -/
theorem C17_leg2vleg_partial (x : MPA R) (hx : x.Valid) (pos D : ℕ) (s : List (List ℕ))
    (hs : x.shape = cutAt pos D D s) (hp : x.ranks[pos]? = some 1) :
    ∃ y, x.leg2vleg pos = .ok y ∧ y.Valid ∧ y.shape = s ∧ y.ranks = x.ranks.set pos D ∧
      (∀ idx, IdxOK idx s → y.val idx = ∑ c ∈ range D, x.val (cutAt pos c c idx)) ∧
      ((pos : ℤ) + 2 ≤ x.r → x.CanonOK → y.CanonOK) := by
  have hlen : pos + 1 < x.lt.length := by
    have := (List.getElem?_eq_some_iff.1 hp).1
    simp [MPA.ranks] at this; omega
  obtain ⟨pre, t', u', post, hlt, rfl⟩ := MPA.split_at hlen
  have hch := hx.chain
  rw [hlt] at hch
  obtain ⟨c1, c2, c3, c4, c5⟩ := chained_mid.1 hch
  have hu1 : u'.lb = 1 := by
    have : x.ranks[pre.length]? = some u'.lb := by
      rw [MPA.ranks, hlt, List.map_tail, List.getElem?_tail]; simp
    rw [this] at hp; injection hp with hp
  -- the shape of the two sites
  have hsl : s.length = pre.length + 2 + post.length := by
    have := congrArg List.length hs
    simp only [cutAt, List.length_modify, MPA.shape, hlt] at this
    simp at this; omega
  obtain ⟨sp, p, q, sq, rfl, hsp⟩ : ∃ sp p q sq, s = sp ++ p :: q :: sq ∧ sp.length = pre.length := by
    refine ⟨s.take pre.length, s[pre.length]'(by omega), s[pre.length + 1]'(by omega),
      s.drop (pre.length + 2), ?_, by simp; omega⟩
    rw [List.getElem_cons_drop, List.getElem_cons_drop, List.take_append_drop]
  rw [← hsp, cutAt_mid, MPA.shape, hlt, List.map_append, List.map_cons, List.map_cons] at hs
  obtain ⟨hs1, hs2⟩ := List.append_inj hs (by simp [hsp])
  simp only [List.cons.injEq] at hs2
  obtain ⟨hs2, hs3, hs4⟩ := hs2
  have ht1 : t'.shape = t'.lb :: ((p ++ [D]) ++ [1]) := by
    rw [NDArray.shape_local c2, hs2, c4, hu1]
  have hu2 : u'.shape = 1 :: ((D :: q) ++ [u'.rb]) := by
    rw [NDArray.shape_local c3, hs3, hu1]
  -- the resulting sites
  have et : t'.lastZero.shape = t'.lb :: (p ++ [D]) := by
    show t'.shape.dropLast = _
    rw [ht1, show t'.lb :: ((p ++ [D]) ++ [1]) = (t'.lb :: (p ++ [D])) ++ [1] by simp,
      List.dropLast_concat]
  have eu : u'.firstZero.shape = D :: (q ++ [u'.rb]) := by
    show u'.shape.tail = _
    rw [hu2]; rfl
  have hch' : Chained 1 (pre ++ t'.lastZero :: u'.firstZero :: post) 1 :=
    chained_mid.2 ⟨by rw [NDArray.lb_of_shape et]; exact c1, NDArray.isLocal_of_shape et,
      NDArray.isLocal_of_shape eu, by rw [NDArray.rb_of_shape et, NDArray.lb_of_shape eu],
      by rw [NDArray.rb_of_shape eu]; exact c5⟩
  have h0 := hx.l_nonneg
  have h1 := hx.l_lt_r
  have h2 := hx.r_le
  have hxl : x.len = pre.length + 2 + post.length := by simp [MPA.len, hlt]; omega
  refine ⟨⟨pre ++ t'.lastZero :: u'.firstZero :: post, min x.l pre.length, max x.r (pre.length + 1)⟩, ?_, ?_, ?_, ?_, ?_, ?_⟩
  · rw [leg2vleg_eq hlt (by rw [c4, hu1]) hu1]
    exact mkLT_ok (by simp) hch' (by omega) (by simp; omega) (by omega) (by simp; omega)
  · exact ⟨by simp, hch', by simp only; omega, by simp only; omega, by simp [MPA.len]; omega⟩
  · simp only [MPA.shape, List.map_append, List.map_cons, NDArray.ph_of_shape et,
      NDArray.ph_of_shape eu]
    rw [hs1, hs4]
  · simp only [MPA.ranks, hlt]
    cases pre with
    | nil => simp [NDArray.lb_of_shape eu]
    | cons a as =>
      simp only [List.cons_append, List.tail_cons, List.map_append, List.map_cons,
        NDArray.lb_of_shape et, NDArray.lb_of_shape eu, List.length_cons]
      have := set_mid (as.map NDArray.lb ++ [t'.lb]) (post.map NDArray.lb) u'.lb D
      simp only [List.length_append, List.length_map, List.length_cons, List.length_nil,
        List.append_assoc, List.cons_append, List.nil_append, Nat.zero_add] at this
      rw [this]
  · intro idx hi
    obtain ⟨ip, i, j, iq, rfl, f1, f2, f3, f4, f5⟩ := idxOK_mid hi
    have hl : ip.length = pre.length := by omega
    show mp (pre ++ t'.lastZero :: u'.firstZero :: post) _ 0 0 = ∑ c ∈ range D, mp x.lt _ 0 0
    have e3 : ∀ c, mp x.lt (cutAt pre.length c c (ip ++ i :: j :: iq)) 0 0
        = ∑ d ∈ range t'.lb, mp pre ip 0 d * (t'.at3 d (i ++ [c]) 0 *
          ∑ b ∈ range u'.rb, u'.at3 0 (c :: j) b * mp post iq b 0) := by
      intro c
      rw [← hl, cutAt_mid, hlt, mp_append c1 hl one_pos]
      refine Finset.sum_congr rfl fun d _ => ?_
      rw [mp_cons, c4, hu1, Finset.sum_range_one, mp_cons]
    simp only [e3]
    rw [Finset.sum_comm, mp_append (l := 1) (m := t'.lb) c1 hl one_pos]
    refine Finset.sum_congr rfl fun d _ => ?_
    rw [← Finset.mul_sum, mp_cons, NDArray.rb_of_shape et]
    congr 1
    refine Finset.sum_congr rfl fun c _ => ?_
    rw [mp_cons, NDArray.rb_of_shape eu]
    congr 1
  · intro hr hc
    exact canonOK_pair hlt hc le_rfl (by omega)

omit [CommRing R] [StarRing R] in
/-- C17: `split` outside of `0 ≤ pos < len` returns the whole array on one side. -/
theorem C17_split_outside (x : MPA R) (pos : ℤ) :
    (pos < 0 → x.split pos = .ok (none, some x)) ∧
    ((x.len : ℤ) ≤ pos → x.split pos = .ok (some x, none)) := by
  constructor
  · intro h; unfold MPA.split; rw [if_pos h]
  · intro h; unfold MPA.split; rw [if_neg (by omega), if_pos (by omega)]

/-- C17: `x.split(pos)` for `0 ≤ pos < len - 1` returns the two halves; their contraction over the
exposed legs is `x`, and their claimed canonical forms are true. -/
theorem C17_split (x : MPA R) (hx : x.Valid) (pos D : ℕ) (hp : x.ranks[pos]? = some D) :
    ∃ a b, x.split pos = .ok (some a, some b) ∧ a.Valid ∧ b.Valid ∧ a.len = pos + 1 ∧
      a.shape ++ b.shape = cutAt pos D D x.shape ∧ a.ranks = x.ranks.take pos ∧
      b.ranks = x.ranks.drop (pos + 1) ∧
      (∀ idx, IdxOK idx x.shape →
        ∑ c ∈ range D, a.val ((cutAt pos c c idx).take (pos + 1)) * b.val ((cutAt pos c c idx).drop (pos + 1))
          = x.val idx) ∧
      (x.CanonOK → a.CanonOK ∧ b.CanonOK) := by
  have hlen : pos + 1 < x.lt.length := by
    have := (List.getElem?_eq_some_iff.1 hp).1
    simp [MPA.ranks] at this; omega
  obtain ⟨y, y1, _, y3, _, y5, _⟩ := C17_vleg2leg x hx pos D hp
  obtain ⟨pre, t, u, post, hlt, rfl⟩ := MPA.split_at hlen
  obtain ⟨g1, g2, g3⟩ := vleg2leg_core hx hlt
  rw [g1] at y1
  injection y1 with y1
  subst y1
  have hch := hx.chain
  rw [hlt] at hch
  obtain ⟨c1, c2, c3, c4, c5⟩ := chained_mid.1 hch
  have e1 := appendAxis_shape c2
  have e2 := prependAxis_shape c3
  have hD : D = u.lb := by
    have : x.ranks[pre.length]? = some u.lb := by
      rw [MPA.ranks, hlt, List.map_tail, List.getElem?_tail]; simp
    rw [this] at hp; injection hp with hp; exact hp.symm
  have h0 := hx.l_nonneg
  have h1 := hx.l_lt_r
  have h2 := hx.r_le
  have hxl : x.len = pre.length + 2 + post.length := by simp [MPA.len, hlt]; omega
  obtain ⟨L, hL⟩ : ∃ L, L = pre ++ [t.appendAxis] := ⟨_, rfl⟩
  obtain ⟨Rt, hR⟩ : ∃ Rt, Rt = u.prependAxis :: post := ⟨_, rfl⟩
  have hLR : pre ++ t.appendAxis :: u.prependAxis :: post = L ++ Rt := by simp [hL, hR]
  have hLl : L.length = pre.length + 1 := by simp [hL]
  have hRl : Rt.length = post.length + 1 := by simp [hR]
  have cL : Chained 1 L 1 := by
    rw [hL]; exact chained_concat.2 ⟨by rw [NDArray.lb_of_shape e1]; exact c1,
    NDArray.isLocal_of_shape e1, NDArray.rb_of_shape e1⟩
  have cR : Chained 1 Rt 1 := by
    rw [hR]; exact ⟨NDArray.isLocal_of_shape e2, NDArray.lb_of_shape e2, by
    rw [NDArray.rb_of_shape e2]; exact c5⟩
  refine ⟨⟨L, min x.l pre.length, pre.length + 1⟩, ⟨Rt, 0, max x.r (pre.length + 2) - pre.length - 1⟩,
    ?_, ?_, ?_, hLl, ?_, ?_, ?_, ?_, ?_⟩
  · unfold MPA.split
    rw [if_neg (by omega), if_neg (by omega), g1, ok_bind]
    simp only [hLR]
    have et : ((pre.length : ℤ) + 1).toNat = L.length := by rw [hLl]; omega
    rw [et, List.take_left, List.drop_left,
      mkLT_ok (by simp [hL]) cL (by omega) (by rw [hLl]; omega) (by omega) (by rw [hLl]; omega), ok_bind,
      mkLT_ok (by simp [hR]) cR (by omega) (by rw [hRl]; omega) (by omega) (by rw [hRl]; omega), ok_bind]
    have f1 : min (min x.l (pre.length : ℤ)) pre.length = min x.l pre.length := by omega
    have f2 : min (max x.r ((pre.length : ℤ) + 2)) (pre.length + 1) = pre.length + 1 := by omega
    have f3 : max 0 (min x.l (pre.length : ℤ) - pre.length) = 0 := by omega
    have f4 : max 0 (max x.r ((pre.length : ℤ) + 2) - pre.length - 1)
        = max x.r (pre.length + 2) - pre.length - 1 := by omega
    rw [f1, f2, f3, f4]; rfl
  · exact ⟨by simp [hL], cL, by simp only; omega, by simp only; omega, by
      simp only [MPA.len, hLl]; push_cast; omega⟩
  · exact ⟨by simp [hR], cR, by simp, by simp only; omega, by
      simp only [MPA.len, hRl]; push_cast; omega⟩
  · rw [← y3]; simp only [MPA.shape, hLR, List.map_append]
  · simp only [MPA.ranks, hlt, hL]
    cases pre with
    | nil => rfl
    | cons a as =>
      simp only [List.cons_append, List.tail_cons, List.map_append, List.map_cons,
        NDArray.lb_of_shape e1, List.length_cons, List.map_nil]
      have := List.take_left (l₁ := as.map NDArray.lb ++ [t.lb]) (l₂ := u.lb :: post.map NDArray.lb)
      simp only [List.length_append, List.length_map, List.length_cons, List.length_nil,
        List.append_assoc, List.cons_append, List.nil_append, Nat.zero_add] at this
      rw [this]
  · simp only [MPA.ranks, hlt, hR, List.tail_cons]
    cases pre with
    | nil => simp
    | cons a as =>
      simp only [List.cons_append, List.tail_cons, List.map_append, List.map_cons, List.length_cons]
      have := List.drop_left (l₁ := as.map NDArray.lb ++ [t.lb, u.lb]) (l₂ := post.map NDArray.lb)
      simp only [List.length_append, List.length_map, List.length_cons, List.length_nil,
        List.append_assoc, List.cons_append, List.nil_append, Nat.zero_add] at this
      rw [this]
  · intro idx hi
    rw [← y5 idx hi]
    refine Finset.sum_congr rfl fun c hc => ?_
    have hi' : IdxOK idx (pre.map NDArray.ph ++ t.ph :: u.ph :: post.map NDArray.ph) := by
      rw [MPA.shape, hlt] at hi; simpa using hi
    obtain ⟨ip, p, q, iq, rfl, f1, f2, f3, f4, f5⟩ := idxOK_mid hi'
    have hl : ip.length = pre.length := by simpa using f1
    rw [← hl, cutAt_mid, show ip ++ (p ++ [c]) :: (c :: q) :: iq = (ip ++ [p ++ [c]]) ++ (c :: q) :: iq by simp,
      show ip.length + 1 = (ip ++ [p ++ [c]]).length by simp, List.take_left, List.drop_left]
    show mp L _ 0 0 * mp Rt _ 0 0 = mp (pre ++ t.appendAxis :: u.prependAxis :: post) _ 0 0
    rw [hLR, mp_append cL (by simp [hLl, hl]) one_pos, Finset.sum_range_one]
  · intro hc
    have hg := g3 hc
    constructor
    · intro n w hw
      have hn : n < L.length := (List.getElem?_eq_some_iff.1 hw).1
      obtain ⟨k1, k2⟩ := hg n w (by simp only [hLR]; rw [List.getElem?_append_left hn]; exact hw)
      exact ⟨k1, fun hn' => absurd hn' (by simp only; omega)⟩
    · intro n w hw
      obtain ⟨k1, k2⟩ := hg (n + L.length) w (by
        simp only [hLR]
        rw [List.getElem?_append_right (by omega), Nat.add_sub_cancel]; exact hw)
      refine ⟨fun hn' => absurd hn' (by simp only; omega), fun hn' => k2 ?_⟩
      simp only at hn' ⊢
      push_cast [hLl]; omega

end

/-- Non-vacuity of the C17 theorems. -/
example : exMPA.Valid ∧ exMPA.ranks[0]? = some 2 ∧ IdxOK [[1], [2]] exMPA.shape ∧
    cutAt 0 2 2 exMPA.shape = [[2, 2], [2, 3]] :=
  ⟨exMPA_valid, rfl, by simp [IdxOK, exMPA, MPA.shape, NDArray.ph, InB], rfl⟩

/-- The counterexample for `leg2vleg`: two sites with the legs `(1, 2)` and `(2, 1)`, holding
`[1, 0]` and `[0, 1]`; both are canonical, the claimed form is `(0, 1)`. -/
def exLeg : MPA ℤ :=
  ⟨[⟨[1, 1, 2, 1], fun i => if i = [0, 0, 0, 0] then 1 else 0⟩,
    ⟨[1, 2, 1, 1], fun i => if i = [0, 1, 0, 0] then 1 else 0⟩], 0, 1⟩

/-- The code violates C17: `leg2vleg` claims that site `pos + 1` is still right-canonical although
its left bond is now the contracted leg.  A valid MPA with a true canonical form is turned into one
with a false claim. -/
theorem C17_leg2vleg_wrong_form : ∃ y, exLeg.Valid ∧ exLeg.CanonOK ∧ exLeg.leg2vleg 0 = .ok y ∧
    y.Valid ∧ ¬ y.CanonOK := by
  refine ⟨_, ?_, ?_, rfl, ?_, ?_⟩
  · exact ⟨by simp [exLeg], by simp [exLeg, NDArray.IsLocal, NDArray.ndim, NDArray.lb, NDArray.rb],
      by simp [exLeg], by simp [exLeg], by simp [exLeg, MPA.len]⟩
  · intro n t ht
    match n with
    | 0 => exact ⟨fun h => absurd h (by simp [exLeg]), fun h => absurd h (by simp [exLeg])⟩
    | 1 =>
      refine ⟨fun h => absurd h (by simp [exLeg]), fun _ => ?_⟩
      simp only [exLeg, List.getElem?_cons_succ, List.getElem?_cons_zero, Option.some.injEq] at ht
      subst ht
      unfold RCanon
      decide
    | n + 2 => simp [exLeg] at ht
  · exact ⟨by simp [exLeg], by
      simp [exLeg, NDArray.IsLocal, NDArray.ndim, NDArray.lb, NDArray.rb, NDArray.lastZero, NDArray.firstZero],
      by simp [exLeg], by simp [exLeg], by simp [exLeg, MPA.len]⟩
  · intro h
    have := (h 1 _ rfl).2 (by simp [exLeg])
    unfold RCanon at this
    revert this
    decide

/-- The code violates C17: `split(len - 1)` raises `IndexError` although `pos < len`. -/
theorem C17_split_last : exMPA.split 1 = .error .index := rfl

end Mpnum
