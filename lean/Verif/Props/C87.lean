import Verif.Linalg.SandwichOp
import Verif.Props.C36
import Verif.Props.C78Inner

/-!
# C87: matrix elements of operators in floating point arithmetic

`sandwich(mpo, mps, mps2)` and `inner(mps2, dot(mpo, mps))`, with a function `td` for `numpy.tensordot` that has a relative error of at
most `ε` (contract `TdNear` of C78).
-/

open Finset

namespace Mpnum

variable {𝕜 : Type} [RCLike 𝕜]

theorem sandwichLoop_weighted {ε κ : ℝ} (hε : 0 ≤ ε) {td : TDot 𝕜} (htd : TdNear ε td) :
    ∀ {ws ts us : List (NDArray 𝕜)} {D A : List ℕ} {cs : List ℝ} {w d d' : ℕ} {g B : ℝ} {L L' : NDArray 𝕜} (_ : L.shape = [d, w, d'])
    (_ : Approx g B L L') (_ : Chained w ws 1) (_ : Chained d ts 1) (_ : Chained d' us 1) (_ : physShape ws = pairs D A)
    (_ : physShape ts = singles A) (_ : physShape us = singles D) (_ : D.length = A.length) (_ : SiteBounds κ cs ws ts us),
    ∃ M M', sandwichLoop L ws ts us = .ok M ∧ sandwichLoopF td L' ws ts us = .ok M' ∧ M.shape = [1, 1, 1] ∧
      Approx (g * (1 + κ * ((1 + ε) ^ 3 - 1)) ^ ws.length) (B * cs.prod) M M'
  | [], ts, us, D, A, cs, w, d, d', g, B, L, L', hL, hA, hw, ht, hu, sw, st, su, hl, hb => by
    cases cs with
    | cons c cs => exact hb.elim
    | nil =>
    cases ts with
    | cons _ _ => exact hb.elim
    | nil =>
    cases us with
    | cons _ _ => exact hb.elim
    | nil =>
    have e1 : w = 1 := hw
    have e2 : d = 1 := ht
    have e3 : d' = 1 := hu
    subst e1; subst e2; subst e3
    exact ⟨L, L', rfl, rfl, hL, by simpa using hA⟩
  | W :: ws, ts, us, D, A, cs, w, d, d', g, B, L, L', hL, hA, hw, ht, hu, sw, st, su, hl, hb => by
    cases cs with
    | nil => exact hb.elim
    | cons c cs =>
    cases ts with
    | nil => exact hb.elim
    | cons T ts =>
    cases us with
    | nil => exact hb.elim
    | cons U us =>
    cases D with
    | nil => exact absurd sw (by simp [physShape, pairs])
    | cons q D =>
    cases A with
    | nil => simp at hl
    | cons p A =>
    obtain ⟨w1, w2, w3⟩ := mpo_lten_shape hw sw
    obtain ⟨t1, t2, t3⟩ := mps_lten_shape ht st
    obtain ⟨u1, u2, u3⟩ := mps_lten_shape hu su
    obtain ⟨⟨b1, b2, b3⟩, b4⟩ := hb
    obtain ⟨M, M', k1, k2, k3, k4⟩ := eigLeftvecAdd_weighted hε htd hL w1 t1 u1 b1 b2 b3 hA
    obtain ⟨Z, Z', h1, h2, h3, h4⟩ := sandwichLoop_weighted hε htd k3 k4 w2 t2 u2 w3 t3 u3 (by simpa using hl) b4
    refine ⟨Z, Z', ?_, ?_, h3, ?_⟩
    · show (eigLeftvecAdd L W T U >>= fun arr => sandwichLoop arr ws ts us) = _
      rw [k1, ok_bind, h1]
    · show (eigLeftvecAddF td L' W T U >>= fun arr => sandwichLoopF td arr ws ts us) = _
      rw [k2, ok_bind, h2]
    · convert h4 using 1
      · rw [List.length_cons]; ring
      · rw [List.prod_cons]; ring

theorem sandwichF_weighted {ε κ : ℝ} (hε : 0 ≤ ε) {td : TDot 𝕜} (htd : TdNear ε td) {H a b : MPA 𝕜} {D A : List ℕ}
    (hH : IsMpoRect H D A) (ha : IsMps a A) (hb : IsMps b D) {cs : List ℝ} (hc : SiteBounds κ cs H.lt a.lt b.lt) :
    ∃ s, sandwichF td H a (some b) = .ok s ∧
      ‖braket D A (fun I => b.val (singles I)) (fun I J => H.val (pairs I J)) (fun J => a.val (singles J)) - s‖ ≤
        ((1 + κ * ((1 + ε) ^ 3 - 1)) ^ H.len - 1) * cs.prod := by
  have h0 : Approx 1 1 (onesNd 3 : NDArray 𝕜) (onesNd 3) := by
    have := Approx.refl (onesNd 3 : NDArray 𝕜)
    rwa [npNorm_onesNd] at this
  obtain ⟨M, M', h1, h2, h3, h4⟩ := sandwichLoop_weighted hε htd (L := onesNd 3) (d := 1) (w := 1) (d' := 1) rfl h0 hH.valid.chain
    ha.valid.chain hb.valid.chain hH.shape ha.shape hb.shape hH.len hc
  have hs := C36_sandwich H a b D A hH ha hb
  unfold sandwich at hs
  simp only [Option.getD_some, h1, ok_bind] at hs
  rw [pyAssert, if_pos (by rw [h3]; rfl), ok_bind, h3] at hs
  refine ⟨M'.get [0, 0, 0], ?_, ?_⟩
  · unfold sandwichF
    simp only [Option.getD_some, h2, ok_bind]
    have h5 := h4.shape.trans h3
    rw [pyAssert, if_pos (by rw [h5]; rfl), ok_bind, h5]
    rfl
  · rw [← Except.ok.inj hs]
    have := h4.dist
    rw [one_mul, one_mul] at this
    refine le_trans (le_of_eq ?_) this
    have e := arrDist_eq3 (b := M') h3
    simp only [Finset.sum_range_one] at e
    rw [pow_left_inj₀ (arrDist_nonneg _ _) (norm_nonneg _) two_ne_zero] at e
    exact e.symm

theorem siteBounds_frob : ∀ {ws ts us : List (NDArray 𝕜)}, ws.length = ts.length → us.length = ts.length →
    ∃ cs, SiteBounds 1 cs ws ts us ∧ cs.prod = (ws.map npNorm).prod * (ts.map npNorm).prod * (us.map npNorm).prod
  | [], [], [], _, _ => ⟨[], trivial, by simp⟩
  | W :: ws, T :: ts, U :: us, h1, h2 => by
    obtain ⟨cs, h3, h4⟩ := siteBounds_frob (ws := ws) (ts := ts) (us := us) (by simpa using h1) (by simpa using h2)
    refine ⟨(npNorm T * npNorm W * npNorm U) :: cs, ⟨⟨?_, stepOp_frob W T U, by rw [one_mul]⟩, h3⟩, ?_⟩
    · exact mul_nonneg (mul_nonneg (npNorm_nonneg' _) (npNorm_nonneg' _)) (npNorm_nonneg' _)
    · simp only [List.prod_cons, List.map_cons, h4]
      ring

/-- C87: `sandwich(H, a, b)` succeeds for the same arguments as in exact arithmetic.  The result differs from `⟨b|H|a⟩` by at most
`(1 + ε)^(3n) - 1` times the product of the norms of all local tensors. -/
theorem C87_sandwich {ε : ℝ} (hε : 0 ≤ ε) {td : TDot 𝕜} (htd : TdNear ε td) (H a b : MPA 𝕜) (D A : List ℕ)
    (hH : IsMpoRect H D A) (ha : IsMps a A) (hb : IsMps b D) :
    ∃ s, sandwichF td H a (some b) = .ok s ∧
      ‖braket D A (fun I => b.val (singles I)) (fun I J => H.val (pairs I J)) (fun J => a.val (singles J)) - s‖ ≤
        ((1 + ε) ^ (3 * H.len) - 1) * ((H.lt.map npNorm).prod * (a.lt.map npNorm).prod * (b.lt.map npNorm).prod) := by
  have l1 : H.lt.length = D.length := by
    have := congrArg List.length hH.shape
    rwa [show H.shape = physShape H.lt from rfl, physShape_length, pairs_length hH.len] at this
  have l2 : a.lt.length = A.length := by
    have := congrArg List.length ha.shape
    rwa [show a.shape = physShape a.lt from rfl, physShape_length, singles_length] at this
  have l3 : b.lt.length = D.length := by
    have := congrArg List.length hb.shape
    rwa [show b.shape = physShape b.lt from rfl, physShape_length, singles_length] at this
  obtain ⟨cs, h1, h2⟩ := siteBounds_frob (ws := H.lt) (ts := a.lt) (us := b.lt) (by rw [l1, l2, hH.len]) (by rw [l2, l3, hH.len])
  obtain ⟨s, h3, h4⟩ := sandwichF_weighted hε htd hH ha hb h1
  refine ⟨s, h3, h4.trans (le_of_eq ?_)⟩
  rw [h2, one_mul, add_sub_cancel, ← pow_mul]

/-! ### states in canonical form -/

theorem siteBounds_eop {D D' : ℕ} : ∀ {ws : List (NDArray 𝕜)} {as bs : List (ℝ × NDArray 𝕜)}, ws.length = as.length → bs.length = as.length →
    (∀ q ∈ as, 0 ≤ q.1 ∧ EOp q.1 q.2 ∧ npNorm q.2 ≤ Real.sqrt D * q.1) → (∀ q ∈ bs, 0 ≤ q.1 ∧ EOp q.1 q.2 ∧ npNorm q.2 ≤ Real.sqrt D' * q.1) →
    ∃ cs, SiteBounds (Real.sqrt D * Real.sqrt D') cs ws (as.map Prod.snd) (bs.map Prod.snd) ∧
      cs.prod = (ws.map npNorm).prod * (as.map Prod.fst).prod * (bs.map Prod.fst).prod
  | [], [], [], _, _, _, _ => ⟨[], trivial, by simp⟩
  | W :: ws, a :: as, b :: bs, h1, h2, ha, hb => by
    obtain ⟨cs, h3, h4⟩ := siteBounds_eop (ws := ws) (as := as) (bs := bs) (by simpa using h1) (by simpa using h2)
      (fun q hq => ha q (List.mem_cons_of_mem _ hq)) (fun q hq => hb q (List.mem_cons_of_mem _ hq))
    obtain ⟨a1, a2, a3⟩ := ha a List.mem_cons_self
    obtain ⟨b1, b2, b3⟩ := hb b List.mem_cons_self
    refine ⟨(a.1 * npNorm W * b.1) :: cs, ⟨⟨?_, stepOp_of_eop a1 b1 a2 b2, ?_⟩, h3⟩, ?_⟩
    · exact mul_nonneg (mul_nonneg a1 (npNorm_nonneg' _)) b1
    · calc npNorm a.2 * npNorm W * npNorm b.2 ≤ (Real.sqrt D * a.1) * npNorm W * (Real.sqrt D' * b.1) :=
          mul_le_mul (mul_le_mul_of_nonneg_right a3 (npNorm_nonneg' _)) b3 (npNorm_nonneg' _)
            (mul_nonneg (mul_nonneg (Real.sqrt_nonneg _) a1) (npNorm_nonneg' _))
        _ = _ := by ring
    · simp only [List.prod_cons, List.map_cons, h4]
      ring

theorem Weighted.eop {A B : List (ℝ × NDArray 𝕜)} {D : ℕ} (h : Weighted A B D) (hl : ∀ q ∈ A ++ B, q.2.IsLocal) :
    ∀ q ∈ A ++ B, 0 ≤ q.1 ∧ EOp q.1 q.2 ∧ npNorm q.2 ≤ Real.sqrt D * q.1 := fun q hq =>
  ⟨h.nonneg q hq, (List.mem_append.1 hq).elim (fun h1 => .inl (h.left q h1)) (fun h1 => .inr (h.right q h1)), h.norm hl q hq⟩

/-- C87: states in canonical form, up to `η`, around any sites, with ranks up to `R`.  The error is relative to the norms of the states: the
norms of the local tensors of the states, which grow with the ranks, do not enter. -/
theorem C87_sandwich_canonical {ε η : ℝ} (hε : 0 ≤ ε) (hη : 0 ≤ η) (h1 : η < 1) {td : TDot 𝕜} (htd : TdNear ε td) (H a b : MPA 𝕜)
    (D A : List ℕ) (hH : IsMpoRect H D A) (ha : IsMps a A) (hb : IsMps b D) (hga : a.NearGood η) (hgb : b.NearGood η) (hra : a.r = a.l + 1)
    (hrb : b.r = b.l + 1) {R : ℕ} (hR : 1 ≤ R) (hRa : ∀ q ∈ a.ranks, q ≤ R) (hRb : ∀ q ∈ b.ranks, q ≤ R) :
    ∃ s, sandwichF td H a (some b) = .ok s ∧
      ‖braket D A (fun I => b.val (singles I)) (fun I J => H.val (pairs I J)) (fun J => a.val (singles J)) - s‖ ≤
        ((1 + R * ((1 + ε) ^ 3 - 1)) ^ H.len - 1) * ((H.lt.map npNorm).prod *
          (((1 + η) / (1 - η)) ^ (2 * (H.len - 1)) * (a.frob * b.frob))) := by
  have l1 : H.lt.length = D.length := by
    have := congrArg List.length hH.shape
    rwa [show H.shape = physShape H.lt from rfl, physShape_length, pairs_length hH.len] at this
  have l2 : a.lt.length = A.length := by
    have := congrArg List.length ha.shape
    rwa [show a.shape = physShape a.lt from rfl, physShape_length, singles_length] at this
  have l3 : b.lt.length = D.length := by
    have := congrArg List.length hb.shape
    rwa [show b.shape = physShape b.lt from rfl, physShape_length, singles_length] at this
  have hloc : ∀ {z : MPA 𝕜}, z.Valid → ∀ {ws : List (ℝ × NDArray 𝕜)}, ws.map Prod.snd = z.lt → ∀ q ∈ ws, q.2.IsLocal :=
    fun hz _ hw q hq => hz.chain.isLocal _ (by rw [← hw]; exact List.mem_map_of_mem hq)
  obtain ⟨A1, B1, w1, w2, w3, w4⟩ := hga.weights hη h1 hra hR hRa
  obtain ⟨A2, B2, v1, v2, v3, v4⟩ := hgb.weights hη h1 hrb hR hRb
  have e1 : (A1 ++ B1).length = a.lt.length := by rw [← w1, List.length_map]
  have e2 : (A2 ++ B2).length = b.lt.length := by rw [← v1, List.length_map]
  obtain ⟨cs, c1, c2⟩ := siteBounds_eop (ws := H.lt) (as := A1 ++ B1) (bs := A2 ++ B2) (by rw [e1, l1, l2, hH.len])
    (by rw [e1, e2, l2, l3, hH.len]) (w2.eop (hloc hga.valid w1)) (v2.eop (hloc hgb.valid v1))
  rw [w1, v1, Real.mul_self_sqrt (Nat.cast_nonneg _)] at c1
  obtain ⟨s, h3, h4⟩ := sandwichF_weighted hε htd hH ha hb c1
  refine ⟨s, h3, h4.trans (mul_le_mul_of_nonneg_left ?_ ?_)⟩
  · have n1 : a.len = H.len := l2.trans (hH.len.symm.trans l1.symm)
    have n2 : b.len = H.len := l3.trans l1.symm
    rw [c2, mul_assoc]
    refine mul_le_mul_of_nonneg_left ?_ (List.prod_nonneg fun x hx => by
      obtain ⟨t, _, rfl⟩ := List.mem_map.1 hx
      exact npNorm_nonneg' _)
    rw [n1] at w4
    rw [n2] at v4
    refine (mul_le_mul w4 v4 v3 (w3.trans w4)).trans (le_of_eq ?_)
    rw [two_mul, pow_add]
    ring
  · have : (1 : ℝ) ≤ (1 + ε) ^ 3 := one_le_pow₀ (by linarith)
    have h5 : (0 : ℝ) ≤ R * ((1 + ε) ^ 3 - 1) := mul_nonneg (Nat.cast_nonneg _) (by linarith)
    have := one_le_pow₀ (n := H.len) (by linarith : 1 ≤ 1 + R * ((1 + ε) ^ 3 - 1))
    linarith

/-- C87: `sandwich(H, a)` is the expectation value `⟨a|H|a⟩`, with the same bound. -/
theorem C87_sandwich_default {ε : ℝ} (hε : 0 ≤ ε) {td : TDot 𝕜} (htd : TdNear ε td) (H a : MPA 𝕜) (D : List ℕ)
    (hH : IsMpoRect H D D) (ha : IsMps a D) :
    ∃ s, sandwichF td H a none = .ok s ∧
      ‖braket D D (fun I => a.val (singles I)) (fun I J => H.val (pairs I J)) (fun J => a.val (singles J)) - s‖ ≤
        ((1 + ε) ^ (3 * H.len) - 1) * ((H.lt.map npNorm).prod * (a.lt.map npNorm).prod ^ 2) := by
  obtain ⟨s, h1, h2⟩ := C87_sandwich hε htd H a a D D hH ha ha
  exact ⟨s, h1, h2.trans (le_of_eq (by ring))⟩

/-- C87: an expectation value for a state in canonical form, to first order in `ε`: the error is proportional to the number of sites and to
the rank of the state. -/
theorem C87_expectation {ε : ℝ} (hε : 0 ≤ ε) (hε1 : ε ≤ 1 / 3) {td : TDot 𝕜} (htd : TdNear ε td) (H a : MPA 𝕜) (D : List ℕ)
    (hH : IsMpoRect H D D) (ha : IsMps a D) (hg : a.NearGood 0) (hr : a.r = a.l + 1) {R : ℕ} (hR : 1 ≤ R)
    (hRa : ∀ q ∈ a.ranks, q ≤ R) (hs : 5 * H.len * R * ε ≤ 1) :
    ∃ s, sandwichF td H a none = .ok s ∧
      ‖braket D D (fun I => a.val (singles I)) (fun I J => H.val (pairs I J)) (fun J => a.val (singles J)) - s‖ ≤
        10 * H.len * R * ε * ((H.lt.map npNorm).prod * a.frob ^ 2) := by
  obtain ⟨s, h1, h2⟩ := C87_sandwich_canonical hε le_rfl zero_lt_one htd H a a D D hH ha ha hg hg hr hr hR hRa hRa
  refine ⟨s, h1, h2.trans ?_⟩
  rw [add_zero, sub_zero, div_one, one_pow, one_mul, ← pow_two]
  refine mul_le_mul_of_nonneg_right ?_ (mul_nonneg (List.prod_nonneg fun x hx => by
    obtain ⟨t, _, rfl⟩ := List.mem_map.1 hx
    exact npNorm_nonneg' _) (sq_nonneg _))
  have hc : (1 + ε) ^ 3 - 1 ≤ 5 * ε := by nlinarith [mul_nonneg hε hε, mul_nonneg (mul_nonneg hε hε) hε]
  have hc0 : 0 ≤ (1 + ε) ^ 3 - 1 := by
    have : (1 : ℝ) ≤ (1 + ε) ^ 3 := one_le_pow₀ (by linarith)
    linarith
  have hR0 : (0 : ℝ) ≤ R := Nat.cast_nonneg _
  have h3 : (1 + R * ((1 + ε) ^ 3 - 1)) ^ H.len ≤ (1 + R * (5 * ε)) ^ H.len :=
    pow_le_pow_left₀ (by positivity) (by nlinarith [mul_le_mul_of_nonneg_left hc hR0]) _
  have h4 := pow_sub_one_le (t := R * (5 * ε)) (by positivity) H.len (by linarith)
  linarith

/-- C87: with the exact `numpy.tensordot` the model computes `sandwich`. -/
theorem C87_model_exact (H a : MPA 𝕜) (b : Option (MPA 𝕜)) : sandwichF NDArray.tensordot H a b = sandwich H a b := by
  unfold sandwichF sandwich
  rw [sandwichLoopF_exact]

/-! ### Non-vacuity -/

/-- Three sites, with a function for `numpy.tensordot` that is not exact. -/
example : ∃ s, sandwichF (tdScaled (1 / 1000)) exH3 exV3 none = .ok s ∧
    ‖braket [2, 2, 2] [2, 2, 2] (fun I => exV3.val (singles I)) (fun I J => exH3.val (pairs I J)) (fun J => exV3.val (singles J)) - s‖ ≤
      ((1 + 1 / 1000) ^ (3 * exH3.len) - 1) * ((exH3.lt.map npNorm).prod * (exV3.lt.map npNorm).prod ^ 2) :=
  C87_sandwich_default (by norm_num) (tdScaled_near (by norm_num)) _ _ _ ⟨exH3_isMpo.valid, exH3_isMpo.shape, rfl⟩ exV3_isMps

/-- A canonical form of this state around the second site. -/
example : ∃ (y : MPA ℂ) (s : ℂ), IsMps y [2, 2, 2] ∧ y.NearGood 0 ∧ y.l = 1 ∧ y.r = 2 ∧ sandwichF (tdScaled (1 / 1000)) exH3 y none = .ok s ∧
    ‖braket [2, 2, 2] [2, 2, 2] (fun I => y.val (singles I)) (fun I J => exH3.val (pairs I J)) (fun J => y.val (singles J)) - s‖ ≤
      10 * exH3.len * (2 : ℕ) * (1 / 1000) * ((exH3.lt.map npNorm).prod * y.frob ^ 2) := by
  obtain ⟨qr, hqr⟩ := exists_QRSpec (𝕜 := ℂ)
  have hmd := mdScaled_near (𝕜 := ℂ) (δ := 0) le_rfl
  have hg : exV3.Good := ⟨exV3_isMps.valid, canonOK_mk _, exV3_pos⟩
  have hl : exV3.len = 3 := rfl
  obtain ⟨y, a1, a2, a3, a4, _⟩ := MPA.canonicalizeF_ok (left := .int 1) (right := .int 2) (tl := 1) (tr := 2) le_rfl (C75_qr_exact hqr) hmd
    (C75_good (ε := 0) le_rfl zero_le_one hg) rfl
    (by rw [hl]; rfl) (by rw [hl]; rfl) (by norm_num) (by norm_num) (by rw [hl]; norm_num)
  have hr : y.r = y.l + 1 := by rw [a3, a4]; rfl
  have hD : ∀ q ∈ y.ranks, q ≤ 2 := a2.ranks.bound (by decide)
  have hy : IsMps y [2, 2, 2] := ⟨a2.good.valid, a2.shape⟩
  obtain ⟨s, h1, h2⟩ := C87_expectation (by norm_num) (by norm_num) (tdScaled_near (𝕜 := ℂ) (δ := 1 / 1000) (by norm_num)) exH3 y [2, 2, 2]
    ⟨exH3_isMpo.valid, exH3_isMpo.shape, rfl⟩ hy a2.good hr (R := 2) (by norm_num) hD (by simp [exH3, MPA.len]; norm_num)
  exact ⟨y, s, hy, a2.good, a3, a4, h1, h2⟩

end Mpnum
