import Verif.MPArray.RoundingNormdist

/-!
Error analysis of the right-to-left sweep of `canonicalize` for chains with weights: the mirror image of RoundingOpen.lean.
-/

open Finset

namespace Mpnum

variable {𝕜 : Type} [RCLike 𝕜]

theorem rev3_lop {c : ℝ} {t : NDArray 𝕜} (h : ROp c t) : LOp c t.rev3 := by
  intro v
  rw [rev3_lb, rev3_ph, rev3_rb]
  refine le_trans (le_of_eq ?_) (h v)
  simp only [sumIdx_eq_sum]
  rw [Finset.sum_comm]
  simp only [rev3_at3, mul_comm]

theorem rev3_lnear {ε : ℝ} {t : NDArray 𝕜} (h : RNear ε t) : LNear ε t.rev3 := by
  refine ⟨rev3_lop h.1, fun v => ?_⟩
  rw [rev3_lb, rev3_ph, rev3_rb]
  refine le_trans (h.2 v) (le_of_eq ?_)
  simp only [sumIdx_eq_sum]
  rw [Finset.sum_comm]
  simp only [rev3_at3, mul_comm]

theorem revs_append (a b : List (NDArray 𝕜)) : revs (a ++ b) = revs b ++ revs a := by simp [revs]

theorem revs_pair (pre post : List (NDArray 𝕜)) (t u : NDArray 𝕜) :
    revs (pre ++ t :: u :: post) = revs post ++ u.rev3 :: t.rev3 :: revs pre := by simp [revs]

/-- The distance of two MPAs is the one of their mirror images. -/
theorem MPA.dist_le_revs {x y : MPA 𝕜} (hx : x.Valid) (hy : y.Valid) (hs : y.shape = x.shape) {d : ℝ} (hd : 0 ≤ d)
    (h : (sumSites (physShape (revs x.lt)) fun i => ‖mp (revs x.lt) i 0 0 - mp (revs y.lt) i 0 0‖ ^ 2) ≤ d ^ 2) : x.dist y ≤ d := by
  rw [MPA.dist_revs hx hy hs]
  refine (abs_le_of_sq_le_sq' ?_ hd).2
  rw [l2_sq, Finset.sum_range_one]
  rw [sumSites_eq_sum] at h
  exact h

theorem sum3_rev {ι₁ ι₂ ι₃ : Type} (A : Finset ι₁) (B : Finset ι₂) (C : Finset ι₃) (F : ι₁ → ι₂ → ι₃ → ℝ) :
    ∑ a ∈ A, ∑ b ∈ B, ∑ c ∈ C, F a b c = ∑ c ∈ C, ∑ b ∈ B, ∑ a ∈ A, F a b c := by
  rw [Finset.sum_comm]
  simp only [Finset.sum_comm (s := A)]
  rw [Finset.sum_comm]

/-- One step of the sweep to the left. -/
theorem lcanonStepF_open {ε κ ν : ℝ} (hε : 0 ≤ ε) (h1 : ε < 1) (hκ : 0 ≤ κ) (hν : 0 ≤ ν) {qr : QR 𝕜} (hqr : QRNear ε qr)
    {md : NDArray 𝕜 → NDArray 𝕜 → Py (NDArray 𝕜)} (hmd : MdNear ε md) {x : MPA 𝕜} (hx : x.NearGood ε) {pre : List (NDArray 𝕜)}
    {c : NDArray 𝕜} {q : FItem 𝕜} {items : List (FItem 𝕜)} (hlt : revs x.lt = pre ++ c :: (q :: items).map FItem.t)
    (hl : (pre.length : ℤ) = x.len - x.r) (hw : WChain κ ν (q :: items)) {n : ℝ} (hn : 0 ≤ n) (hb : CBd (q :: items) c n) :
    ∃ y d c', x.lcanonStepF qr md (x.r - 1) = .ok y ∧ MPA.NearStep ε x y ∧ y.r = x.r - 1 ∧ y.l = min x.l (x.r - 2) ∧
      revs y.lt = (pre ++ [d]) ++ c' :: items.map FItem.t ∧ CBd items c' (openGrow ε κ ν * (n * q.s)) ∧
      x.dist y ≤ (1 + ε) ^ pre.length * (openErr ε κ ν * (n * fprod (q :: items))) := by
  have hxl : (x.len : ℤ) = pre.length + 2 + items.length := by
    have : x.len = (revs x.lt).length := (revs_length x.lt).symm
    rw [this, hlt]; simp; ring
  obtain ⟨y, pre₀, post₀, t, u, t', u', f, g1, g2, g3, g4, g5, g6, ⟨k1, k2, k3, k4, k5⟩, g8, g9, g10⟩ :=
    MPA.lcanonStepF_parts hε hqr hmd hx (by omega)
  have hsplit := hlt
  rw [g2.old, revs_pair] at hsplit
  have hpl : (x.len : ℤ) = pre₀.length + 2 + post₀.length := by
    have : (x.len : ℤ) = x.lt.length := rfl
    rw [this, g2.old]; simp; ring
  obtain ⟨e1, e2⟩ := List.append_inj hsplit (by rw [revs_length]; omega)
  simp only [List.map_cons, List.cons.injEq] at e2
  obtain ⟨e2, e3, e4⟩ := e2
  have hch := chained_revs hx.valid.chain
  rw [hlt] at hch
  have hloc := hx.valid.chain.isLocal
  rw [g2.old] at hloc
  have htl := hloc t (by simp)
  have hul := hloc u (by simp)
  have hoe : 0 ≤ openErr ε κ ν := by unfold openErr; positivity
  have hfq : 0 ≤ fprod (q :: items) := fprod_nonneg hw.nonneg
  subst e1 e2
  have q1 : q.t.lb = t.rb := by rw [← e3, rev3_lb]
  have q2 : q.t.ph = t.ph := by rw [← e3, rev3_ph]
  have q3 : q.t.rb = t.lb := by rw [← e3, rev3_rb]
  have q4 : npNorm q.t = npNorm t := by rw [← e3, rev3_npNorm htl]
  have q5 : ∀ a p b, q.t.at3 a p b = t.at3 b p a := fun a p b => by rw [← e3, rev3_at3]
  obtain ⟨b1, b2⟩ := open_step (d := u'.rev3) (c' := t'.rev3) (f := f) hε h1 hκ hν hch (fun s hs => by
      unfold revs at hs
      rw [List.mem_reverse] at hs
      obtain ⟨s, hs', rfl⟩ := List.mem_map.1 hs
      obtain ⟨i, hi, hget⟩ := List.getElem_of_mem hs'
      refine rev3_lop ((hx.canon (pre₀.length + 2 + i) s ?_).2 (by push_cast; omega)).1
      rw [g2.old, List.getElem?_append_right (by omega), show pre₀.length + 2 + i - pre₀.length = i + 2 by omega,
        List.getElem?_cons_succ, List.getElem?_cons_succ, List.getElem?_eq_getElem hi, hget])
    (by rw [rev3_lb, rev3_lb, g2.rb]) (by rw [rev3_rb, q3, g2.lb]) (by rw [rev3_rb, q1, k1]) (by rw [rev3_ph, rev3_ph, k4])
    (by rw [rev3_lb, rev3_rb, k2]) (by rw [rev3_ph, q2, k3]) (rev3_lnear g6) (by
      rw [rev3_lb, rev3_ph, rev3_rb, rev3_rb, rev3_npNorm hul]
      refine le_trans (le_of_eq ?_) g9
      rw [sum3_rev]
      simp only [rev3_at3, mul_comm]) (by
      rw [q2, q3, q1, q4, rev3_rb, rev3_npNorm hul, ← k2]
      refine le_trans (le_of_eq ?_) g10
      rw [sum3_rev]
      simp only [rev3_at3, q5, mul_comm]) hw hn hb
  refine ⟨y, u'.rev3, t'.rev3, g1, ⟨g2.good, g2.shape, g2.ranks, g2.len⟩, g4, g5, by rw [g2.new, revs_pair, e4]; simp, b1, ?_⟩
  refine MPA.dist_le_revs hx.valid g2.good.valid g2.shape (by positivity) ?_
  rw [hlt, g2.new, revs_pair, e4]
  exact b2

theorem guard_ok {b : Prop} [Decidable b] (h : b) (e : PyErr) : pyGuard b e = .ok () := if_pos h

/-- The sweep from the centre to the first site. -/
theorem lcanonF_open {ε κ ν : ℝ} (hε : 0 ≤ ε) (h1 : ε < 1) (hκ : 0 ≤ κ) (hν : 0 ≤ ν) {qr : QR 𝕜} (hqr : QRNear ε qr)
    {md : NDArray 𝕜 → NDArray 𝕜 → Py (NDArray 𝕜)} (hmd : MdNear ε md) {items : List (FItem 𝕜)} {x : MPA 𝕜} (hx : x.NearGood ε)
    {pre : List (NDArray 𝕜)} {c : NDArray 𝕜} (hlt : revs x.lt = pre ++ c :: items.map FItem.t) (hl : (pre.length : ℤ) = x.len - x.r)
    (hl0 : x.l = 0) (hw : WChain κ ν items) {n : ℝ} (hn : 0 ≤ n) (hb : CBd items c n) :
    ∃ y, ((List.range items.length).map fun k : ℕ => x.r - 1 + (k : ℤ) * (-1)).foldlM (MPA.lcanonStepF qr md) x = .ok y ∧
      MPA.NearStep ε x y ∧ y.l = 0 ∧ y.r = x.r - items.length ∧
      x.dist y ≤ (∑ k ∈ range items.length, (1 + ε) ^ (pre.length + k) * openGrow ε κ ν ^ k) * (openErr ε κ ν * (n * fprod items)) := by
  induction items generalizing x pre c n with
  | nil =>
    refine ⟨x, rfl, MPA.NearStep.rfl' hx, hl0, by simp, ?_⟩
    rw [MPA.dist_self']; simp
  | cons q items ih =>
    obtain ⟨y, d, c', g1, g2, g3, g4, g5, g6, g7⟩ := lcanonStepF_open hε h1 hκ hν hqr hmd hx hlt hl hw hn hb
    have hxl : (x.len : ℤ) = pre.length + 2 + items.length := by
      have : x.len = (revs x.lt).length := (revs_length x.lt).symm
      rw [this, hlt]; simp; ring
    have hqs := hw.nonneg q (by simp)
    have hg := openGrow_nonneg hε h1 hκ hν
    obtain ⟨z, k1, k2, k3, k4, k5⟩ := ih g2.good g5 (by rw [g3, g2.len]; simp; omega) (by rw [g4, hl0]; omega) hw.tail
      (n := openGrow ε κ ν * (n * q.s)) (by positivity) g6
    refine ⟨z, ?_, g2.trans k2, k3, by rw [k4, g3]; simp; ring, ?_⟩
    · rw [List.length_cons, List.range_succ_eq_map, List.map_cons, List.foldlM_cons, List.map_map]
      rw [show x.r - 1 + ((0 : ℕ) : ℤ) * (-1) = x.r - 1 by simp, g1]
      show List.foldlM _ y _ = _
      rw [← k1]
      congr 1
      refine List.map_congr_left fun k _ => ?_
      simp only [Function.comp, g3]; push_cast; ring
    · refine (MPA.dist_triangle' g2.shape).trans ((add_le_add g7 k5).trans (le_of_eq ?_))
      rw [List.length_cons, Finset.sum_range_succ', fprod_cons, List.length_append, List.length_singleton, add_mul]
      simp only [pow_succ, pow_add, pow_zero, mul_one, add_zero, Finset.sum_mul, pow_one]
      rw [add_comm]
      congr 1
      exact Finset.sum_congr rfl fun k _ => by ring

theorem fresh_near {ε : ℝ} {x : MPA 𝕜} (hv : x.Valid) (hp : AllPos x.lt) (hl : x.l = 0) (hr : x.r = x.len) : x.NearGood ε := by
  refine ⟨hv, hp, fun n t ht => ⟨fun h => by exfalso; omega, fun h => ?_⟩⟩
  have := (List.getElem?_eq_some_iff.1 ht).1
  have h2 : (x.len : ℤ) = x.lt.length := rfl
  exfalso; omega

/-- `canonicalize(right=1)` of an MPA whose canonical form is not known. -/
theorem canonicalizeF_open_right {ε κ ν : ℝ} (hε : 0 ≤ ε) (h1 : ε < 1) (hκ : 0 ≤ κ) (hν : 0 ≤ ν) {qr : QR 𝕜} (hqr : QRNear ε qr)
    {md : NDArray 𝕜 → NDArray 𝕜 → Py (NDArray 𝕜)} (hmd : MdNear ε md) {x : MPA 𝕜} (hv : x.Valid) (hp : AllPos x.lt) (hl : x.l = 0)
    (hr : x.r = x.len) {items : List (FItem 𝕜)} (hlt : revs x.lt = items.map FItem.t) (hw : WChain κ ν items) :
    ∃ y, x.canonicalizeF qr md .none (.int 1) = .ok y ∧ MPA.NearStep ε x y ∧ y.l = 0 ∧ y.r = 1 ∧
      x.dist y ≤ openTotal ε κ ν (x.len - 1) * fprod items := by
  have hx : x.NearGood ε := fresh_near hv hp hl hr
  have hlp : 0 < x.len := List.length_pos_of_ne_nil hv.ne
  have hlr : x.len = items.length := by rw [MPA.len, ← revs_length x.lt, hlt]; simp
  cases items with
  | nil => simp at hlr; omega
  | cons q items =>
    have hch := chained_revs hv.chain
    rw [hlt] at hch
    rw [List.length_cons] at hlr
    have hqs := hw.nonneg q (by simp)
    obtain ⟨y, k1, k2, k3, k4, k5⟩ := lcanonF_open (pre := []) (c := q.t) hε h1 hκ hν hqr hmd hx hlt (by simp [hr]) hl hw.tail
      (by positivity) (hw.first hch.1 hch.2.1)
    refine ⟨y, ?_, k2, k3, by rw [k4, hr, hlr]; push_cast; ring, k5.trans (le_of_eq ?_)⟩
    · have e : x.canonicalizeF qr md .none (.int 1) = if x.r > 1 then x.lcanonicalizeF qr md 1 else .ok x := by
        rw [MPA.canonicalizeF_eq (tl := 0) (tr := 1) rfl (by simp [target, CArg.left]) (by simp [target, CArg.right]),
          guard_ok ⟨le_rfl, by omega⟩, guard_ok ⟨by norm_num, by omega⟩, guard_ok (by norm_num)]
        simp only [ok_bind]
        rw [if_neg (by omega)]
      rw [e]
      split
      · unfold MPA.lcanonicalizeF
        rw [pyAssert_true ⟨by omega, by omega⟩, MPA.pyRange_down, show (x.r - 1 - (1 - 1) : ℤ).toNat = items.length by omega]
        exact k1
      · have h0 : items.length = 0 := by omega
        rw [h0] at k1
        exact k1
    · unfold openTotal
      rw [hlr, Nat.add_sub_cancel, fprod_cons]
      simp only [mul_pow, List.length_nil, zero_add]
      ring

/-- `canonicalize(left=len(x) - 1)` of an MPA whose canonical form is not known. -/
theorem canonicalizeF_open_left {ε κ ν : ℝ} (hε : 0 ≤ ε) (h1 : ε < 1) (hκ : 0 ≤ κ) (hν : 0 ≤ ν) {qr : QR 𝕜} (hqr : QRNear ε qr)
    {md : NDArray 𝕜 → NDArray 𝕜 → Py (NDArray 𝕜)} (hmd : MdNear ε md) {x : MPA 𝕜} (hv : x.Valid) (hp : AllPos x.lt) (hl : x.l = 0)
    (hr : x.r = x.len) {items : List (FItem 𝕜)} (hlt : x.lt = items.map FItem.t) (hw : WChain κ ν items) :
    ∃ y, x.canonicalizeF qr md (.int (x.len - 1)) .none = .ok y ∧ MPA.NearStep ε x y ∧
      x.dist y ≤ openTotal ε κ ν (x.len - 1) * fprod items := by
  have hlp : 0 < x.len := List.length_pos_of_ne_nil hv.ne
  obtain ⟨y, k1, k2, -, -, k5⟩ := canonicalizeF_open hε h1 hκ hν hqr hmd hv hp hl hr hlt hw
  refine ⟨y, ?_, k2, k5⟩
  rw [← k1]
  have e0 : x.canonicalizeF qr md .none .none = if x.l < x.len - x.r then x.lcanonicalizeF qr md 1
    else x.rcanonicalizeF qr md (x.len - 1) := rfl
  rw [e0, if_neg (by omega)]
  have e1 : target x.len ((CArg.int (x.len - 1)).left x.len) = x.len - 1 := if_neg (show ¬ ((x.len : ℤ) - 1 < 0) by omega)
  have e2 : target x.len (CArg.none.right x.len) = x.len := if_neg (show ¬ ((x.len : ℤ) < 0) by omega)
  rw [MPA.canonicalizeF_eq rfl e1.symm e2.symm, guard_ok ⟨by omega, by omega⟩, guard_ok ⟨by omega, by omega⟩,
    guard_ok (by omega)]
  simp only [ok_bind]
  by_cases h : x.l < x.len - 1
  · rw [if_pos h]
    cases x.rcanonicalizeF qr md (x.len - 1) with
    | error e => rfl
    | ok y => simp only [ok_bind]; rw [if_neg (by omega)]
  · rw [if_neg h, if_neg (by omega)]
    unfold MPA.rcanonicalizeF
    rw [pyAssert_true ⟨by omega, by omega⟩, MPA.pyRange_up, show (x.len - 1 - x.l : ℤ).toNat = 0 by omega]
    rfl

end Mpnum
