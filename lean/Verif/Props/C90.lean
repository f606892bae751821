import Verif.RoundingReductions
import Verif.Props.C35
import Verif.Props.C46
import Verif.Props.C89

/-!
# C90: `reductions_mpo` and `pmps_to_mpo` in floating point arithmetic

`reductionsMpoF` (RoundingReductions.lean) is `reductions_mpo` with functions `tr` and `td` in the place of `numpy.trace` and
`numpy.tensordot`.
-/

open Finset

namespace Mpnum

variable {𝕜 : Type} [RCLike 𝕜]

/-- The 2-norm (Frobenius norm) of the difference of two operators with the local dimensions `D`. -/
noncomputable def opDist (D : List ℕ) (f g : List ℕ → List ℕ → 𝕜) : ℝ :=
  Real.sqrt (sumIdx D fun I => sumIdx D fun J => ‖f I J - g I J‖ ^ 2)

theorem opDist_eq {z z' : MPA 𝕜} {D : List ℕ} (hz : IsMpo z D) {f : List ℕ → List ℕ → 𝕜}
    (hf : ∀ I J, InB I D → InB J D → z.val (pairs I J) = f I J) : opDist D f (fun I J => z'.val (pairs I J)) = z.dist z' := by
  unfold opDist MPA.dist
  rw [hz.shape, sumSites_pairs D D rfl]
  congr 1
  refine sumIdx_congr fun I hI => sumIdx_congr fun J hJ => ?_
  rw [hf I J hI hJ]

theorem mpo_dims {x : MPA 𝕜} {D : List ℕ} (hx : IsMpo x D) : x.lt.map (fun t => t.shape.getD 1 0) = D := by
  have h1 : x.lt.map NDArray.ph = pairs D D := hx.shape
  have h2 : x.lt.map (fun t => t.shape.getD 1 0) = (x.lt.map NDArray.ph).map fun s => s.getD 0 0 := by
    rw [List.map_map]
    refine List.map_congr_left fun t ht => ?_
    have hl := hx.valid.chain.isLocal t ht
    have hp : 0 < t.ph.length := by
      have : t.ph ∈ pairs D D := by rw [← h1]; exact List.mem_map.2 ⟨t, ht, rfl⟩
      obtain ⟨n, hn, he⟩ := List.getElem_of_mem this
      rw [← he]; simp
    show t.shape.getD 1 0 = t.ph.getD 0 0
    rw [NDArray.shape_local hl, List.getD_cons_succ, getD_append_lt hp]
  rw [h2, h1]
  clear * -
  induction D with
  | nil => rfl
  | cons d D ih => simpa [pairs] using ih

theorem outWeight_prod (ts : List (NDArray 𝕜)) :
    (ts.map outWeight).prod = Real.sqrt ((ts.map fun t => t.shape.getD 1 0).prod : ℕ) * (ts.map npNorm).prod := by
  induction ts with
  | nil => simp
  | cons t ts ih =>
    rw [List.map_cons, List.prod_cons, ih, List.map_cons, List.prod_cons, List.map_cons, List.prod_cons, Nat.cast_mul,
      Real.sqrt_mul (Nat.cast_nonneg _), outWeight]
    ring

theorem mpoWindowF_near {δ ε : ℝ} (hδ : 0 ≤ δ) (hε : 0 ≤ ε) {tr : TraceFn 𝕜} (htr : TrNear δ tr) {td : TDot 𝕜} (htd : TdNear ε td)
    {x : MPA 𝕜} {D : List ℕ} (hx : IsMpo x D) {s e : ℕ} (hse : s < e) (he : e ≤ D.length) {c c' c1 : RemCache 𝕜 × RemCache 𝕜} {z : MPA 𝕜}
    (hc1 : CNear δ ε x true c.1 c'.1) (hc2 : CNear δ ε x false c.2 c'.2) (hz : mpoWindow x ((s : ℤ), (e : ℤ)) c = .ok (z, c1))
    (hzv : z.Valid) :
    ∃ z' c1', mpoWindowF tr td x ((s : ℤ), (e : ℤ)) c' = .ok (z', c1') ∧ CNear δ ε x true c1.1 c1'.1 ∧ CNear δ ε x false c1.2 c1'.2 ∧
      z'.Valid ∧ z'.shape = z.shape ∧ z'.ranks = z.ranks ∧
      LApprox 0 ((1 + δ) ^ (D.length - (e - s)) * (1 + ε) ^ (D.length - (e - s) + 2))
        (Real.sqrt ((D.take s).prod * (D.drop e).prod : ℕ) * (x.lt.map npNorm).prod) z.lt z'.lt := by
  have hlen := hx.len
  unfold mpoWindow at hz
  obtain ⟨⟨remL, cl⟩, h1, hz⟩ := bind_ok_inv hz
  obtain ⟨us1, h2, hz⟩ := bind_ok_inv hz
  obtain ⟨⟨remR, cr⟩, h3, hz⟩ := bind_ok_inv hz
  obtain ⟨us2, h4, hz⟩ := bind_ok_inv hz
  obtain ⟨o, h5, hz⟩ := bind_ok_inv hz
  obtain ⟨rfl, rfl⟩ := Prod.mk.inj (Except.ok.inj hz)
  obtain rfl := mkMPA_eq h5
  unfold getRem at h1 h3
  have hn2 : ¬ ((x.len : ℤ) - (e : ℤ) < 0) := by rw [MPA.len]; omega
  have ht2 : ((x.len : ℤ) - (e : ℤ)).toNat = x.lt.length - e := by rw [MPA.len]; omega
  dsimp only at h1 h3
  rw [if_neg (by omega), Int.toNat_natCast] at h1
  rw [if_neg hn2, ht2] at h3
  obtain ⟨remL', cl', a1, a2, a3⟩ := getRemainderF_near hδ hε htr htd x true s (by omega) hc1 h1
  obtain ⟨remR', cr', b1, b2, b3⟩ := getRemainderF_near hδ hε htr htd x false (x.lt.length - e) (by omega) hc2 h3
  have hsl : pySlice x.lt (s : ℤ) (e : ℤ) = (x.lt.drop s).take (e - s) := by
    rw [pySlice, pyClamp_nat (by omega), pyClamp_nat (by omega)]
  dsimp only at h2
  rw [hsl] at h2
  obtain ⟨us1', k1, k2⟩ := (LApprox.refl ((x.lt.drop s).take (e - s))).head hε htd a2 h2
  obtain ⟨us2', k3, k4⟩ := LApprox.last hε htd b2 k2 h4
  have hne : us2 ≠ [] := hzv.ne
  obtain ⟨d1, d2, d3⟩ := chained_same_shapes k4.shapes hzv.chain
  have hne' : us2' ≠ [] := by
    rintro rfl
    exact hne (List.length_eq_zero_iff.1 k4.shapes.length_eq)
  have hv' : (⟨us2', 0, us2'.length⟩ : MPA 𝕜).Valid := valid_mk hne' d1
  refine ⟨⟨us2', 0, us2'.length⟩, (cl', cr'), ?_, a3, b3, hv', d2, ?_, ?_⟩
  · unfold mpoWindowF getRemF
    dsimp only
    rw [if_neg (show ¬ ((s : ℤ) < 0) by omega), Int.toNat_natCast, a1, ok_bind, hsl]
    dsimp only
    rw [k1, ok_bind, if_neg hn2, ht2, b1, ok_bind]
    dsimp only
    rw [k3, ok_bind, mkMPA_ok hne' d1, ok_bind]
    rfl
  · simp only [MPA.ranks, List.map_tail] at d3 ⊢
    rw [d3]
  · have hsplit : x.lt = x.lt.take s ++ ((x.lt.drop s).take (e - s) ++ x.lt.drop e) := by
      conv_lhs => rw [← List.take_append_drop s x.lt, ← List.take_append_drop (e - s) (x.lt.drop s), List.drop_drop]
      rw [show s + (e - s) = e by omega]
    have hprod : (x.lt.map npNorm).prod = ((x.lt.take s).map npNorm).prod * ((((x.lt.drop s).take (e - s)).map npNorm).prod
        * ((x.lt.drop e).map npNorm).prod) := by
      conv_lhs => rw [hsplit, List.map_append, List.prod_append, List.map_append, List.prod_append]
    have hL : envWeight x true s = Real.sqrt ((D.take s).prod : ℕ) * ((x.lt.take s).map npNorm).prod := by
      unfold envWeight
      rw [if_pos rfl, outWeight_prod, List.map_take, mpo_dims hx]
    have hR : envWeight x false (x.lt.length - e) = Real.sqrt ((D.drop e).prod : ℕ) * ((x.lt.drop e).map npNorm).prod := by
      unfold envWeight
      rw [if_neg (by simp), show x.lt.length - (x.lt.length - e) = e by omega, outWeight_prod, List.map_drop, mpo_dims hx]
    have hG : ((1 + δ) * (1 + ε)) ^ (x.lt.length - e) * (1 + ε) * (((1 + δ) * (1 + ε)) ^ s * (1 + ε) * 1)
        = (1 + δ) ^ (D.length - (e - s)) * (1 + ε) ^ (D.length - (e - s) + 2) := by
      have : D.length - (e - s) = (x.lt.length - e) + s := by omega
      rw [this, mul_pow, mul_pow, pow_add, pow_add, pow_add]
      ring
    rw [hG, hL, hR] at k4
    convert k4 using 1
    rw [hprod, Nat.cast_mul, Real.sqrt_mul (Nat.cast_nonneg _)]
    ring

/-- The item of the exact iteration for the window `w` is approximated by `z'`. -/
def WindowNear (δ ε : ℝ) (x : MPA 𝕜) (D : List ℕ) (w : ℕ × ℕ) (z' : MPA 𝕜) : Prop :=
  ∃ z : MPA 𝕜, IsMpo z ((D.drop w.1).take (w.2 - w.1)) ∧ z.ranks = (x.ranks.drop w.1).take (w.2 - w.1 - 1) ∧
    (∀ I J, InB I ((D.drop w.1).take (w.2 - w.1)) → InB J ((D.drop w.1).take (w.2 - w.1)) →
      z.val (pairs I J) = margOp (fun I J => x.val (pairs I J)) (D.take w.1) (D.drop w.2) I J) ∧
    IsMpo z' ((D.drop w.1).take (w.2 - w.1)) ∧ z'.ranks = z.ranks ∧
    LApprox 0 ((1 + δ) ^ (D.length - (w.2 - w.1)) * (1 + ε) ^ (D.length - (w.2 - w.1) + 2))
      (Real.sqrt ((D.take w.1).prod * (D.drop w.2).prod : ℕ) * (x.lt.map npNorm).prod) z.lt z'.lt

theorem yieldLoopF_approx {δ ε : ℝ} (hδ : 0 ≤ δ) (hε : 0 ≤ ε) {tr : TraceFn 𝕜} (htr : TrNear δ tr) {td : TDot 𝕜} (htd : TdNear ε td)
    {x : MPA 𝕜} {D : List ℕ} (hx : IsMpo x D) : ∀ (ws : List (ℕ × ℕ)), (∀ w ∈ ws, w.1 < w.2 ∧ w.2 ≤ D.length) →
    ∀ c c' : RemCache 𝕜 × RemCache 𝕜, CacheOK (LeftEnv x D) c.1 → CacheOK (RightEnv x D) c.2 →
      CNear δ ε x true c.1 c'.1 → CNear δ ε x false c.2 c'.2 →
    ∃ zs c1, yieldLoop (mpoWindowF tr td x) (ws.map fun w => ((w.1 : ℤ), (w.2 : ℤ))) c' = .ok (zs, c1) ∧
      List.Forall₂ (WindowNear δ ε x D) ws zs
  | [], _, _, c', _, _, _, _ => ⟨[], c', rfl, .nil⟩
  | w :: ws, hw, c, c', h1, h2, h3, h4 => by
    obtain ⟨hw1, hw2⟩ := hw w List.mem_cons_self
    obtain ⟨z, c1, g1, g2, g3, g4, g5, g6⟩ := mpoWindow_ok hx hw1 hw2 h1 h2
    obtain ⟨z', c1', k1, k2, k3, k4, k5, k6, k7⟩ := mpoWindowF_near hδ hε htr htd hx hw1 hw2 h3 h4 g1 g4.valid
    obtain ⟨zs, c2, m1, m2⟩ := yieldLoopF_approx hδ hε htr htd hx ws (fun v hv => hw v (List.mem_cons_of_mem _ hv)) c1 c1' g2 g3 k2 k3
    refine ⟨z' :: zs, c2, ?_, .cons ⟨z, g4, g5, g6, ⟨k4, k5.trans g4.shape⟩, k6, k7⟩ m2⟩
    simp only [List.map_cons, yieldLoop, k1, ok_bind, m1]
    rfl

theorem WindowNear.opDist_le {δ ε : ℝ} {x z' : MPA 𝕜} {D : List ℕ} {w : ℕ × ℕ} (h : WindowNear δ ε x D w z') :
    IsMpo z' ((D.drop w.1).take (w.2 - w.1)) ∧ z'.ranks = (x.ranks.drop w.1).take (w.2 - w.1 - 1) ∧
      opDist ((D.drop w.1).take (w.2 - w.1)) (margOp (fun I J => x.val (pairs I J)) (D.take w.1) (D.drop w.2))
        (fun I J => z'.val (pairs I J)) ≤
        ((1 + δ) ^ (D.length - (w.2 - w.1)) * (1 + ε) ^ (D.length - (w.2 - w.1) + 2) - 1) *
          (Real.sqrt ((D.take w.1).prod * (D.drop w.2).prod : ℕ) * (x.lt.map npNorm).prod) := by
  obtain ⟨z, h1, h2, h3, h4, h5, h6⟩ := h
  refine ⟨h4, h5.trans h2, ?_⟩
  rw [opDist_eq h1 h3]
  exact LApprox.mpaDist h1.valid h6 h4.valid (h4.shape.trans h1.shape.symm)

/-- C90: for any sequence of windows `start..stop`, in any order and with repetitions, the items of `reductions_mpo` are the partial traces over all
sites outside of the window up to rounding errors: one trace and one contraction for each site outside, and two further contractions. -/
theorem C90_reductions_mpo {δ ε : ℝ} (hδ : 0 ≤ δ) (hε : 0 ≤ ε) {tr : TraceFn 𝕜} (htr : TrNear δ tr) {td : TDot 𝕜} (htd : TdNear ε td)
    (x : MPA 𝕜) (D : List ℕ) (hx : IsMpo x D) (ws : List (ℕ × ℕ)) (hw : ∀ w ∈ ws, w.1 < w.2 ∧ w.2 ≤ D.length) :
    ∃ zs, reductionsMpoF tr td x none (some (ws.map fun w => (w.1 : ℤ))) (some (ws.map fun w => (w.2 : ℤ))) = .ok zs ∧
      List.Forall₂ (fun w z => IsMpo z ((D.drop w.1).take (w.2 - w.1)) ∧ z.ranks = (x.ranks.drop w.1).take (w.2 - w.1 - 1) ∧
        opDist ((D.drop w.1).take (w.2 - w.1)) (margOp (fun I J => x.val (pairs I J)) (D.take w.1) (D.drop w.2))
          (fun I J => z.val (pairs I J)) ≤
          ((1 + δ) ^ (D.length - (w.2 - w.1)) * (1 + ε) ^ (D.length - (w.2 - w.1) + 2) - 1) *
            (Real.sqrt ((D.take w.1).prod * (D.drop w.2).prod : ℕ) * (x.lt.map npNorm).prod)) ws zs := by
  obtain ⟨zs, c, h1, h2⟩ := yieldLoopF_approx hδ hε htr htd hx ws hw (RemCache.init, RemCache.init) (RemCache.init, RemCache.init)
    cacheInit_left (cacheInit_right hx) (cnear_init x true) (cnear_init x false)
  refine ⟨zs, ?_, h2.imp fun w z h => h.opDist_le⟩
  unfold reductionsMpoF reductionsArgs
  simp only [ok_bind]
  rw [pyAssert_true, ok_bind, List.zip_map', h1]
  · rfl
  · intro s hs
    rw [hx.shape] at hs
    obtain ⟨n, hn, rfl⟩ := List.getElem_of_mem hs
    simp

theorem reductionsMpoF_width {δ ε : ℝ} (hδ : 0 ≤ δ) (hε : 0 ≤ ε) {tr : TraceFn 𝕜} (htr : TrNear δ tr) {td : TDot 𝕜} (htd : TdNear ε td)
    (x : MPA 𝕜) (D : List ℕ) (hx : IsMpo x D) (w : ℕ) (h0 : 0 < w) (hw : w ≤ D.length) :
    ∃ zs, reductionsMpoF tr td x (some w) none none = .ok zs ∧
      List.Forall₂ (fun s z => WindowNear δ ε x D (s, s + w) z) (List.range (D.length + 1 - w)) zs := by
  obtain ⟨zs, c, h1, h2⟩ := yieldLoopF_approx hδ hε htr htd hx ((List.range (D.length + 1 - w)).map fun s => (s, s + w)) (by
    intro q hq
    obtain ⟨s, hs, rfl⟩ := List.mem_map.1 hq
    have := List.mem_range.1 hs
    dsimp only
    omega) (RemCache.init, RemCache.init) (RemCache.init, RemCache.init)
    cacheInit_left (cacheInit_right hx) (cnear_init x true) (cnear_init x false)
  refine ⟨zs, ?_, ?_⟩
  · unfold reductionsMpoF reductionsArgs
    simp only [ok_bind, Option.getD_none]
    rw [pyAssert_true, ok_bind, show x.len = D.length from hx.len, pyRange_windows _ _ hw, h1]
    · rfl
    · intro s hs
      rw [hx.shape] at hs
      obtain ⟨n, hn, rfl⟩ := List.getElem_of_mem hs
      simp
  · rwa [List.forall₂_map_left_iff] at h2

/-- C90: with `width` only, the windows are all `width` consecutive sites, from left to right. -/
theorem C90_width {δ ε : ℝ} (hδ : 0 ≤ δ) (hε : 0 ≤ ε) {tr : TraceFn 𝕜} (htr : TrNear δ tr) {td : TDot 𝕜} (htd : TdNear ε td)
    (x : MPA 𝕜) (D : List ℕ) (hx : IsMpo x D) (w : ℕ) (h0 : 0 < w) (hw : w ≤ D.length) :
    ∃ zs, reductionsMpoF tr td x (some w) none none = .ok zs ∧
      List.Forall₂ (fun s z => IsMpo z ((D.drop s).take w) ∧ z.ranks = (x.ranks.drop s).take (w - 1) ∧
        opDist ((D.drop s).take w) (margOp (fun I J => x.val (pairs I J)) (D.take s) (D.drop (s + w))) (fun I J => z.val (pairs I J)) ≤
          ((1 + δ) ^ (D.length - w) * (1 + ε) ^ (D.length - w + 2) - 1) *
            (Real.sqrt ((D.take s).prod * (D.drop (s + w)).prod : ℕ) * (x.lt.map npNorm).prod)) (List.range (D.length + 1 - w)) zs := by
  obtain ⟨zs, h1, h2⟩ := reductionsMpoF_width hδ hε htr htd x D hx w h0 hw
  exact ⟨zs, h1, h2.imp fun s z h => by simpa only [Nat.add_sub_cancel_left] using h.opDist_le⟩

/-- C90: with the exact `numpy.trace` and `numpy.tensordot` the model computes `reductions_mpo`. -/
theorem C90_model_exact (x : MPA 𝕜) (width : Option ℤ) (startsites stopsites : Option (List ℤ)) :
    reductionsMpoF NDArray.trace NDArray.tensordot x width startsites stopsites = reductionsMpo x width startsites stopsites :=
  reductionsMpoF_exact x width startsites stopsites

/-! ### `pmps_to_mpo` -/

/-- `pmps_to_mpo` (mpsmpo.py:360-372) with the function `td` for `numpy.tensordot`; transposition and conjugation are exact. -/
def pmpsToMpoF (td : TDot 𝕜) (x : MPA 𝕜) : Py (MPA 𝕜) := do
  let y ← x.adj
  dotF td x y ([-1], [0])

theorem localTranspose_norm {t u : NDArray 𝕜} (h : localTranspose t none = .ok u) : npNorm u ≤ npNorm t := by
  unfold localTranspose at h
  obtain ⟨u', _, h2⟩ := (Approx.refl t).transpose h
  exact h2.norm

theorem adj_norms {x y : MPA 𝕜} (h : x.adj = .ok y) : (y.lt.map npNorm).prod ≤ (x.lt.map npNorm).prod := by
  unfold MPA.adj at h
  obtain ⟨ts, h1, h2⟩ := bind_ok_inv h
  rw [mkMPA_eq h2]
  show ((ts.map NDArray.conj).map npNorm).prod ≤ _
  clear h2 h
  generalize x.lt = xs at h1
  induction xs generalizing ts with
  | nil => cases h1; simp
  | cons t xs ih =>
    rw [List.mapM_cons] at h1
    obtain ⟨u, k1, h1⟩ := bind_ok_inv h1
    obtain ⟨us, k2, h1⟩ := bind_ok_inv h1
    cases h1
    rw [List.map_cons, List.map_cons, List.prod_cons, List.map_cons, List.prod_cons, conj_npNorm]
    refine mul_le_mul (localTranspose_norm k1) (ih us k2) (List.prod_nonneg fun v hv => ?_) (npNorm_nonneg' _)
    obtain ⟨t, _, rfl⟩ := List.mem_map.1 hv
    exact npNorm_nonneg' _

/-- C90: `pmps_to_mpo` of a locally purified state is its density matrix up to rounding errors of one contraction per site. -/
theorem C90_pmps_to_mpo {ε : ℝ} (hε : 0 ≤ ε) {td : TDot 𝕜} (htd : TdNear ε td) (x : MPA 𝕜) (D A : List ℕ) (hx : IsPmps x D A) :
    ∃ z, pmpsToMpoF td x = .ok z ∧ IsMpo z D ∧ z.ranks = x.ranks.map (· ^ 2) ∧
      opDist D (dm x A) (fun I J => z.val (pairs I J)) ≤ ((1 + ε) ^ x.len - 1) * (x.lt.map npNorm).prod ^ 2 := by
  obtain ⟨y, h1, h2, h3, _, _⟩ := C14_adj x hx.valid
  have ha : DotArgs x y ([-1], [0]) := dotArgs_pairs (D := D) (A := A) (D' := D) hx.len hx.len hx.shape (by
    rw [h3, hx.shape]; exact pairs_reverse D A)
  obtain ⟨z, z', g1, g2, g3, g4, g5, g6, _, _, _, g7⟩ := C78_dot hε htd x y ([-1], [0]) hx.valid h2 ha
  obtain ⟨z1, k1, k2, k3, k4⟩ := C33_pmps_to_mpo x D A hx
  have hz : pmpsToMpo x = .ok z := by unfold pmpsToMpo; rw [h1, ok_bind, g1]
  obtain rfl := Except.ok.inj (hz.symm.trans k1)
  refine ⟨z', by unfold pmpsToMpoF; rw [h1, ok_bind, g2], ⟨g4, g5.trans k3⟩, g6.trans (C33_pmps_to_mpo_ranks x D A hx z hz), ?_⟩
  rw [opDist_eq ⟨k2, k3⟩ k4]
  refine g7.trans (mul_le_mul_of_nonneg_left ?_ ?_)
  · rw [pow_two]
    refine mul_le_mul_of_nonneg_left (adj_norms h1) (List.prod_nonneg fun v hv => ?_)
    obtain ⟨t, _, rfl⟩ := List.mem_map.1 hv
    exact npNorm_nonneg' _
  · have : (1 : ℝ) ≤ (1 + ε) ^ x.len := one_le_pow₀ (by linarith)
    linarith

/-- C90: with the exact `numpy.tensordot` the model computes `pmps_to_mpo`. -/
theorem C90_pmps_model_exact (x : MPA 𝕜) : pmpsToMpoF NDArray.tensordot x = pmpsToMpo x := by
  unfold pmpsToMpoF pmpsToMpo
  simp only [dotF_exact]

/-! ### Non-vacuity -/

/-- The reduced operators of two neighbouring sites of three, with functions for `numpy.trace` and `numpy.tensordot` that are not exact. -/
example : ∃ z₁ z₂, reductionsMpoF (trScaled (1 / 1000)) (tdScaled (1 / 1000)) exH3 (some (2 : ℕ)) none none = .ok [z₁, z₂] ∧ IsMpo z₁ [2, 2] ∧
    opDist [2, 2] (margOp (fun I J => exH3.val (pairs I J)) [2] []) (fun I J => z₂.val (pairs I J)) ≤
      ((1 + 1 / 1000) ^ 1 * (1 + 1 / 1000) ^ 3 - 1) * (Real.sqrt (2 : ℕ) * (exH3.lt.map npNorm).prod) := by
  have hx : IsMpo exH3 [2, 2, 2] := ⟨exH3_isMpo.valid, exH3_isMpo.shape⟩
  obtain ⟨zs, h1, h2⟩ := C90_width (by norm_num) (by norm_num) (trScaled_near (𝕜 := ℂ) (δ := 1 / 1000) (by norm_num))
    (tdScaled_near (𝕜 := ℂ) (δ := 1 / 1000) (by norm_num)) exH3 [2, 2, 2] hx 2 (by norm_num) (by simp)
  rw [show List.range ([2, 2, 2].length + 1 - 2) = [0, 1] from rfl] at h2
  cases h2 with
  | @cons _ z₁ _ _ a1 h2 =>
  cases h2 with
  | @cons _ z₂ _ _ a2 h2 =>
  cases h2
  exact ⟨z₁, z₂, h1, a1.1, a2.2.2⟩

/-- The density matrix of a purification of two sites. -/
example : ∃ z, pmpsToMpoF (tdScaled (1 / 1000)) exState2 = .ok z ∧ IsMpo z [2, 2] ∧
    opDist [2, 2] (dm exState2 [1, 1]) (fun I J => z.val (pairs I J)) ≤
      ((1 + 1 / 1000) ^ exState2.len - 1) * (exState2.lt.map npNorm).prod ^ 2 := by
  obtain ⟨z, h1, h2, _, h3⟩ := C90_pmps_to_mpo (by norm_num) (tdScaled_near (𝕜 := ℂ) (δ := 1 / 1000) (by norm_num)) exState2 [2, 2] [1, 1]
    exState2_isPmps
  exact ⟨z, h1, h2, h3⟩

end Mpnum
