import Verif.MPArray.RoundingTrace
import Verif.Props.C35
import Verif.Props.C78Inner
import Verif.Props.C87

/-!
# C88: `partialtrace` and `trace` in floating point arithmetic

`partialtraceF` and `traceF` (MPArray/RoundingTrace.lean) are `partialtrace` and `trace` with functions `tr` and `td` in the place of
`numpy.trace` and `numpy.tensordot`.
-/

open Finset

namespace Mpnum

variable {𝕜 : Type} [RCLike 𝕜]

/-- C88: `partialtrace` succeeds for the same arguments as with exact arithmetic, with the same shape and the same ranks.  The dense array of
the result differs from the exact partial trace by the rounding errors of one trace per site and of `n - 1` contractions. -/
theorem C88_partialtrace {δ ε : ℝ} (hδ : 0 ≤ δ) (hε : 0 ≤ ε) {tr : TraceFn 𝕜} (htr : TrNear δ tr) {td : TDot 𝕜} (htd : TdNear ε td)
    (x : MPA 𝕜) (hx : x.Valid) (axes : TraceAxes) (h : TraceArgs x axes) :
    ∃ y y' A, partialtrace x axes = .ok y ∧ partialtraceF tr td x axes = .ok y' ∧ y.Valid ∧ y'.Valid ∧ y'.shape = y.shape ∧
      y'.ranks = y.ranks ∧ y'.l = 0 ∧ y'.r = y'.len ∧ y'.toArrayF td = .ok A ∧ A.shape = y.shape.flatten ∧
      y.arrErr A ≤ ((1 + δ) ^ x.len * (1 + ε) ^ (x.len - 1) - 1) *
        (((axes.sites x.len).zip x.lt).map fun p => Real.sqrt (traceDims p.1 p.2.ph).prod * npNorm p.2).prod := by
  obtain ⟨y, hy, hyv, hyl, hyr, hys, _, _⟩ := C20_partialtrace x hx axes h
  have hy' := hy
  unfold partialtrace at hy
  obtain ⟨axs, g1, hy⟩ := bind_ok_inv hy
  have haxs : axs = axes.sites x.len := by
    cases axes with
    | same i j => exact (Except.ok.inj g1).symm
    | each as =>
      cases as with
      | nil => cases g1
      | cons a as => exact (Except.ok.inj g1).symm
  subst haxs
  obtain ⟨_, g2, hy⟩ := bind_ok_inv hy
  obtain ⟨ts, g3, hy⟩ := bind_ok_inv hy
  obtain ⟨us, g4, hy⟩ := bind_ok_inv hy
  have hyus := mkMPA_eq hy
  obtain ⟨ts', k1, k2⟩ := traceSites_near (ε := ε) hδ htr (fun p hp => by
    refine ⟨hx.chain.isLocal _ (List.of_mem_zip hp).2, ?_⟩
    refine h.ok (p.1, p.2.ph) ?_
    rw [MPA.shape, List.zip_map_right]
    exact List.mem_map.2 ⟨p, hp, rfl⟩) g3
  have hlen : ((axes.sites x.len).zip x.lt).length = x.len := by
    rw [List.length_zip, h.len]; simp [MPA.len]
  rw [hlen] at k2
  have hpr : ∃ us', pruneLtensF td ts' = .ok us' ∧
      LApprox ε (((1 + δ) * (1 + ε)) ^ x.len) (((axes.sites x.len).zip x.lt).map traceWeight).prod us us' := by
    generalize hG : ((1 + δ) * (1 + ε)) ^ x.len = G at k2
    generalize hM : (((axes.sites x.len).zip x.lt).map traceWeight).prod = M at k2
    cases k2 with
    | nil => cases g4
    | cons k3 k4 =>
      obtain ⟨us', m1, m2⟩ := k4.pruneGo hε htd k3 g4
      exact ⟨us', m1, m2⟩
  obtain ⟨us', k3, k4⟩ := hpr
  have hne : us ≠ [] := by
    have := hyv.ne
    rwa [hyus] at this
  have hch : Chained 1 us 1 := by
    have := hyv.chain
    rwa [hyus] at this
  obtain ⟨c1, c2, c3⟩ := chained_same_shapes k4.shapes hch
  have hne' : us' ≠ [] := by
    rintro rfl
    exact hne (List.length_eq_zero_iff.1 k4.shapes.length_eq)
  have hmk := mkMPA_ok hne' c1
  have hv' : (⟨us', 0, us'.length⟩ : MPA 𝕜).Valid := valid_mk hne' c1
  obtain ⟨Y, hY, hrep⟩ := ltensToArray_ok hyv.chain hyv.ne
  obtain ⟨B, hB, hBs, hBg⟩ := rep_dropBonds hrep
  have hfold : ∃ Y', ltensToArrayF td us' = .ok Y' ∧ Y'.shape = Y.shape ∧ arrDist Y Y' ≤
      ((1 + δ) ^ x.len * (1 + ε) ^ (x.len - 1) - 1) * (((axes.sites x.len).zip x.lt).map traceWeight).prod := by
    rw [hyus] at hY
    have h1 : 0 < x.len := List.length_pos_of_ne_nil hx.ne
    have hG : ((1 + δ) * (1 + ε)) ^ x.len = ((1 + δ) ^ x.len * (1 + ε) ^ (x.len - 1)) * (1 + ε) := by
      obtain ⟨n, hn⟩ : ∃ n, x.len = n + 1 := ⟨x.len - 1, by omega⟩
      rw [hn, mul_pow, Nat.add_sub_cancel, pow_succ (1 + ε)]; ring
    rw [hG] at k4
    generalize hH : (1 + δ) ^ x.len * (1 + ε) ^ (x.len - 1) = H at k4 ⊢
    generalize hHe : H * (1 + ε) = G at k4
    generalize hM : (((axes.sites x.len).zip x.lt).map traceWeight).prod = M at k4 ⊢
    cases k4 with
    | nil => exact absurd rfl hne
    | @cons g N G1 M1 t t' ts ts' k5 k6 =>
      obtain ⟨Y', m1, m2⟩ := k6.fold hε htd k5 hY
      have : H = g * G1 := by
        have h0 : (1 + ε) ≠ 0 := by linarith
        exact mul_right_cancel₀ h0 (by rw [hHe]; ring)
      rw [this]
      exact ⟨Y', m1, m2.shape, m2.dist⟩
  obtain ⟨Y', m1, m2, m3⟩ := hfold
  obtain ⟨B', n1, n2, n3, n4⟩ := dropBonds_dist hrep.1 m2 hB
  refine ⟨y, ⟨us', 0, us'.length⟩, B', hy', ?_, hyv, hv', ?_, ?_, rfl, rfl, ?_, n3, ?_⟩
  · unfold partialtraceF
    rw [g1, ok_bind, g2, ok_bind, k1, ok_bind, k3, ok_bind, hmk]
  · rw [hyus]; exact c2
  · simp only [hyus, MPA.ranks, List.map_tail] at c3 ⊢
    rw [c3]
  · unfold MPA.toArrayF
    rw [m1, ok_bind, n1]
  · rw [arrErr_eq (A := B) n2 hBg, n4]
    exact m3

/-- C88: if no legs remain, `trace` differs from the sum over the diagonal of the traced legs by the rounding errors of one trace per site and of
`n - 1` contractions. -/
theorem C88_trace {δ ε : ℝ} (hδ : 0 ≤ δ) (hε : 0 ≤ ε) {tr : TraceFn 𝕜} (htr : TrNear δ tr) {td : TDot 𝕜} (htd : TdNear ε td)
    (x : MPA 𝕜) (hx : x.Valid) (axes : TraceAxes) (h : TraceArgs x axes)
    (h0 : ∀ s ∈ List.zipWith traceRest (axes.sites x.len) x.shape, s = []) :
    ∃ A, traceF tr td x axes = .ok A ∧ A.shape = [] ∧
      ‖(sumSites (List.zipWith traceDims (axes.sites x.len) x.shape) fun k =>
        x.val (List.zipWith3 (fun (p : Option (ℤ × ℤ) × List ℕ) f k => traceMerge p.1 p.2 f k)
          ((axes.sites x.len).zip x.shape) (x.shape.map fun _ => []) k)) - A.get []‖ ≤
        ((1 + δ) ^ x.len * (1 + ε) ^ (x.len - 1) - 1) *
          (((axes.sites x.len).zip x.lt).map fun p => Real.sqrt (traceDims p.1 p.2.ph).prod * npNorm p.2).prod := by
  obtain ⟨y, y', A, h1, h2, h3, _, _, _, _, _, h4, h5, h6⟩ := C88_partialtrace hδ hε htr htd x hx axes h
  obtain ⟨y1, q1, _, _, _, q2, _, _⟩ := C20_partialtrace x hx axes h
  obtain ⟨T, t1, t2, t3⟩ := C20_trace x hx axes h h0
  obtain rfl := Except.ok.inj (h1.symm.trans q1)
  rw [pruned_empty _ h0] at q2
  obtain ⟨B, b1, b2, b3⟩ := C01_to_array y h3
  have hTB : T = B := by
    unfold trace at t1
    rw [h1, ok_bind, b1, ok_bind] at t1
    obtain ⟨_, _, t1⟩ := bind_ok_inv t1
    exact (Except.ok.inj t1).symm
  subst hTB
  rw [q2] at h5
  refine ⟨A, ?_, h5, ?_⟩
  · unfold traceF
    rw [h2, ok_bind, h4, ok_bind, pyAssert_true (by rw [NDArray.size, h5]; rfl)]
    rfl
  · rw [← t3]
    refine le_trans (le_of_eq ?_) h6
    rw [arrErr_eq (A := T) b2 b3]
    unfold arrDist
    rw [t2]
    show _ = Real.sqrt (‖_‖ ^ 2)
    rw [Real.sqrt_sq (norm_nonneg _)]

theorem prod_sqrt (D : List ℕ) : (D.map fun d : ℕ => Real.sqrt d).prod = Real.sqrt (D.prod : ℕ) := by
  induction D with
  | nil => simp
  | cons d D ih => rw [List.map_cons, List.prod_cons, ih, List.prod_cons, Nat.cast_mul, Real.sqrt_mul (Nat.cast_nonneg _)]

/-- C88: the trace of an MPO (two legs of equal size `d` at each site) differs from the sum of the diagonal elements by at most
`(1 + δ)^n (1 + ε)^(n - 1) - 1` times the square root of the dimension of the space times the product of the norms of the local tensors. -/
theorem C88_trace_mpo {δ ε : ℝ} (hδ : 0 ≤ δ) (hε : 0 ≤ ε) {tr : TraceFn 𝕜} (htr : TrNear δ tr) {td : TDot 𝕜} (htd : TdNear ε td)
    (x : MPA 𝕜) (hx : x.Valid) (D : List ℕ) (hs : x.shape = D.map fun d => [d, d]) :
    ∃ A, traceF tr td x (.same 0 1) = .ok A ∧ A.shape = [] ∧
      ‖(sumIdx D fun I => x.val (I.map fun i => [i, i])) - A.get []‖ ≤
        ((1 + δ) ^ D.length * (1 + ε) ^ (D.length - 1) - 1) * (Real.sqrt D.prod * (x.lt.map npNorm).prod) := by
  have hl : x.len = D.length := by
    have := congrArg List.length hs
    simpa [MPA.shape, MPA.len] using this
  have hrep : (TraceAxes.same 0 1).sites x.len = D.map fun _ => some (0, 1) := by
    rw [hl]; simp [TraceAxes.sites]
  have hargs : TraceArgs x (.same 0 1) := by
    refine ⟨by rw [hrep, hl]; simp, ?_⟩
    rw [hrep, hs, List.zip_map']
    intro p hp
    obtain ⟨d, _, rfl⟩ := List.mem_map.1 hp
    refine ⟨by simp, by simp, by simp [axisOf], by simp [axisOf]⟩
  have h0 : ∀ s ∈ List.zipWith traceRest ((TraceAxes.same 0 1).sites x.len) x.shape, s = [] := by
    rw [hrep, hs, ← List.map_uncurry_zip_eq_zipWith, List.zip_map', List.map_map]
    intro s hs'
    obtain ⟨d, _, rfl⟩ := List.mem_map.1 hs'
    rfl
  obtain ⟨A, h1, h2, h3⟩ := C88_trace hδ hε htr htd x hx (.same 0 1) hargs h0
  obtain ⟨T, t1, _, t2⟩ := C20_trace x hx (.same 0 1) hargs h0
  obtain ⟨T', u1, _, u2⟩ := C20_trace_mpo x hx D hs
  obtain rfl := Except.ok.inj (t1.symm.trans u1)
  refine ⟨A, h1, h2, ?_⟩
  rw [← u2, t2]
  refine h3.trans (le_of_eq ?_)
  rw [hl, ← prod_sqrt]
  congr 1
  have hs' : x.lt.map NDArray.ph = D.map fun d => [d, d] := hs
  have : ∀ (D : List ℕ) (ts : List (NDArray 𝕜)), ts.map NDArray.ph = D.map (fun d => [d, d]) →
      (((List.replicate D.length (some ((0 : ℤ), (1 : ℤ)))).zip ts).map fun p => Real.sqrt (traceDims p.1 p.2.ph).prod * npNorm p.2).prod
        = (D.map fun d : ℕ => Real.sqrt d).prod * (ts.map npNorm).prod := by
    intro D
    induction D with
    | nil => intro ts h; simp at h; simp [h]
    | cons d D ih =>
      intro ts h
      cases ts with
      | nil => simp at h
      | cons t ts =>
        simp only [List.map_cons, List.cons.injEq] at h
        have := ih ts h.2
        rw [List.length_cons, List.replicate_succ, List.zip_cons_cons, List.map_cons, List.prod_cons, this, List.map_cons, List.prod_cons,
          List.map_cons, List.prod_cons]
        have e : (traceDims (some ((0 : ℤ), (1 : ℤ))) t.ph).prod = d := by rw [h.1]; simp [traceDims, axisOf]
        simp only [e]
        ring
  exact this D x.lt hs'

/-- C88: to first order in the accuracy of the operations, the error of the trace is proportional to the number of sites. -/
theorem C88_trace_first_order {ε : ℝ} (hε : 0 ≤ ε) {tr : TraceFn 𝕜} (htr : TrNear ε tr) {td : TDot 𝕜} (htd : TdNear ε td)
    (x : MPA 𝕜) (hx : x.Valid) (D : List ℕ) (hs : x.shape = D.map fun d => [d, d]) (hn : 2 * D.length * ε ≤ 1) :
    ∃ A, traceF tr td x (.same 0 1) = .ok A ∧ A.shape = [] ∧
      ‖(sumIdx D fun I => x.val (I.map fun i => [i, i])) - A.get []‖ ≤
        4 * D.length * ε * (Real.sqrt D.prod * (x.lt.map npNorm).prod) := by
  obtain ⟨A, h1, h2, h3⟩ := C88_trace_mpo hε hε htr htd x hx D hs
  refine ⟨A, h1, h2, h3.trans (mul_le_mul_of_nonneg_right ?_ (mul_nonneg (Real.sqrt_nonneg _) (List.prod_nonneg fun v hv => by
    obtain ⟨t, _, rfl⟩ := List.mem_map.1 hv
    exact npNorm_nonneg' _)))⟩
  have h4 : (1 + ε) ^ D.length * (1 + ε) ^ (D.length - 1) ≤ (1 + ε) ^ (2 * D.length) := by
    rw [← pow_add]
    exact pow_le_pow_right₀ (by linarith) (by omega)
  have h5 := pow_sub_one_le (t := ε) hε (2 * D.length) (by push_cast; linarith)
  push_cast at h5
  linarith

/-- C88: with the exact `numpy.trace` and `numpy.tensordot` the models compute `partialtrace` and `trace`. -/
theorem C88_model_exact (x : MPA 𝕜) (axes : TraceAxes) :
    partialtraceF NDArray.trace NDArray.tensordot x axes = partialtrace x axes ∧ traceF NDArray.trace NDArray.tensordot x axes = trace x axes := by
  refine ⟨partialtraceF_exact x axes, ?_⟩
  unfold traceF trace
  rw [partialtraceF_exact]
  simp only [MPA.toArrayF_exact]

/-! ### Non-vacuity -/

/-- A function for `numpy.trace` that is wrong by a relative error of `δ`. -/
noncomputable def trScaled (δ : ℝ) : TraceFn 𝕜 := fun a i j => do
  let c ← a.trace i j
  return ⟨c.shape, fun f => ((1 + δ : ℝ) : 𝕜) * c.get f⟩

theorem trScaled_near {δ : ℝ} (hδ : 0 ≤ δ) : TrNear δ (trScaled (𝕜 := 𝕜) δ) := by
  intro a i j p q hp hq hpq
  refine ⟨⟨(a.traceTo p q).shape, fun f => ((1 + δ : ℝ) : 𝕜) * (a.traceTo p q).get f⟩, ?_, rfl, fun f _ => ?_⟩
  · unfold trScaled NDArray.trace
    rw [hp, ok_bind, hq, ok_bind, pyGuard, if_pos hpq]
    rfl
  · show ‖(a.traceTo p q).get f - ((1 + δ : ℝ) : 𝕜) * (a.traceTo p q).get f‖ ≤ _
    rw [show ∀ z : 𝕜, z - ((1 + δ : ℝ) : 𝕜) * z = -(((δ : ℝ) : 𝕜) * z) by intro z; push_cast; ring, norm_neg, norm_mul,
      RCLike.norm_ofReal, abs_of_nonneg hδ]
    exact mul_le_mul_of_nonneg_left (norm_sum_le (range (min (a.shape.getD p 0) (a.shape.getD q 0))) fun k =>
      a.get (NDArray.asm a.ndim [p, q] [k, k] f)) hδ

/-- Three sites, with functions for `numpy.trace` and `numpy.tensordot` that are not exact. -/
example : ∃ A, traceF (trScaled (1 / 1000)) (tdScaled (1 / 1000)) exH3 (.same 0 1) = .ok A ∧ A.shape = [] ∧
    ‖(sumIdx [2, 2, 2] fun I => exH3.val (I.map fun i => [i, i])) - A.get []‖ ≤
      4 * (3 : ℕ) * (1 / 1000) * (Real.sqrt (8 : ℕ) * (exH3.lt.map npNorm).prod) :=
  C88_trace_first_order (by norm_num) (trScaled_near (by norm_num)) (tdScaled_near (by norm_num)) exH3 exH3_isMpo.valid [2, 2, 2]
    exH3_isMpo.shape (by norm_num)

/-- A partial trace: the legs of the first and of the last site are traced out, the second site is left alone. -/
example : ∃ y y' A, partialtrace exH3 (.each [some (0, 1), none, some (-1, 0)]) = .ok y ∧
    partialtraceF (trScaled (1 / 1000)) (tdScaled (1 / 1000)) exH3 (.each [some (0, 1), none, some (-1, 0)]) = .ok y' ∧
    y.shape = [[2, 2]] ∧ y'.toArrayF (tdScaled (1 / 1000)) = .ok A ∧
    y.arrErr A ≤ ((1 + 1 / 1000) ^ 3 * (1 + 1 / 1000) ^ 2 - 1) *
      ((((TraceAxes.each [some (0, 1), none, some (-1, 0)]).sites 3).zip exH3.lt).map fun p =>
        Real.sqrt (traceDims p.1 p.2.ph).prod * npNorm p.2).prod := by
  have hs : exH3.shape = [[2, 2], [2, 2], [2, 2]] := exH3_isMpo.shape
  have ha : TraceArgs exH3 (.each [some (0, 1), none, some (-1, 0)]) := by
    refine ⟨rfl, ?_⟩
    rw [hs]
    intro p hp
    have : p = (some (0, 1), [2, 2]) ∨ p = (none, [2, 2]) ∨ p = (some (-1, 0), [2, 2]) := by simpa [TraceAxes.sites] using hp
    rcases this with rfl | rfl | rfl
    · exact ⟨by decide, by decide, by decide, by decide⟩
    · trivial
    · exact ⟨by decide, by decide, by decide, by decide⟩
  obtain ⟨y, y', A, h1, h2, _, _, _, _, _, _, h3, _, h4⟩ := C88_partialtrace (by norm_num) (by norm_num)
    (trScaled_near (𝕜 := ℂ) (δ := 1 / 1000) (by norm_num)) (tdScaled_near (𝕜 := ℂ) (δ := 1 / 1000) (by norm_num)) exH3 exH3_isMpo.valid _ ha
  obtain ⟨y1, q1, _, _, _, q2, _, _⟩ := C20_partialtrace exH3 exH3_isMpo.valid _ ha
  obtain rfl := Except.ok.inj (h1.symm.trans q1)
  refine ⟨y, y', A, h1, h2, ?_, h3, h4⟩
  rw [q2, hs]
  decide

end Mpnum
