import Verif.MPArray.RoundingTrace
import Verif.Props.C18
import Verif.Props.C80

/-!
# `MPArray.sum` with rounding errors

`numpy.ndarray.sum` and `numpy.tensordot` are parameters.
-/

open Finset

namespace Mpnum

section defs

variable {𝕜 : Type}

/-- A function in the place of `a.sum(axes)` of numpy. -/
abbrev SumFn (𝕜 : Type) := NDArray 𝕜 → List ℤ → Py (NDArray 𝕜)

/-- `MPArray.sum` (mparray.py:408-447) with the functions `sm` and `td` for `numpy.ndarray.sum` and `numpy.tensordot`. -/
def MPA.sumF (sm : SumFn 𝕜) (td : TDot 𝕜) (x : MPA 𝕜) (axes : SumAxes) : Py (NDArray 𝕜 ⊕ MPA 𝕜) := do
  let axs ← siteAxes axes x.ndims
  let ts ← (axs.zip x.lt).mapM fun p => if p.1 = [] then .ok p.2 else sm p.2 p.1
  let out ← mkMPA ts
  if out.ndims.sum = 0 then
    let a ← out.toArrayF td
    return .inl a
  else
    return .inr out

end defs

variable {𝕜 : Type} [RCLike 𝕜]

/-- Contract of `a.sum(axes)` of numpy: every entry is computed with an error of at most `δ` relative to the sum of the absolute values. -/
def SmNear (δ : ℝ) (sm : SumFn 𝕜) : Prop :=
  ∀ (a : NDArray 𝕜) (axes : List ℤ) (ax : List ℕ), axes.mapM (pyIndex a.ndim) = .ok ax → ax.Nodup →
    ∃ c, sm a axes = .ok c ∧ c.shape = (a.sumTo ax).shape ∧ ∀ f, InB f c.shape →
      ‖(sumIdx (ax.map fun p => a.shape.getD p 0) fun k => a.get (NDArray.asm a.ndim ax k f)) - c.get f‖
        ≤ δ * sumIdx (ax.map fun p => a.shape.getD p 0) fun k => ‖a.get (NDArray.asm a.ndim ax k f)‖

theorem sumTo_near {δ : ℝ} (hδ : 0 ≤ δ) {sm : SumFn 𝕜} (h : SmNear δ sm) {a : NDArray 𝕜} {axes : List ℤ} {ax : List ℕ}
    (hax : axes.mapM (pyIndex a.ndim) = .ok ax) (hn : ax.Nodup) (hlt : ∀ p ∈ ax, p < a.ndim) :
    ∃ c, sm a axes = .ok c ∧ Approx (1 + δ) (Real.sqrt (ax.map fun p => a.shape.getD p 0).prod * npNorm a) (a.sumTo ax) c := by
  obtain ⟨c', h1, h2, h3⟩ := h a axes ax hax hn
  have hasm := nsq_asm a hlt hn
  set d := ax.map fun p => a.shape.getD p 0 with hd
  set S : List ℕ → ℝ := fun f => ∑ k ∈ idxSet d, ‖a.get (NDArray.asm a.ndim ax k f)‖ with hS
  have hsum : ∑ f ∈ idxSet (a.sumTo ax).shape, S f ^ 2 ≤ (Real.sqrt d.prod * npNorm a) ^ 2 := by
    rw [mul_pow, Real.sq_sqrt (Nat.cast_nonneg _), npNorm_sq, hasm, mul_sum]
    refine sum_le_sum fun f _ => ?_
    have := sq_sum_le_card_mul_sum_sq (s := idxSet d) (f := fun k => ‖a.get (NDArray.asm a.ndim ax k f)‖)
    rwa [idxSet_card] at this
  have hN : 0 ≤ Real.sqrt d.prod * npNorm a := mul_nonneg (Real.sqrt_nonneg _) (npNorm_nonneg' _)
  refine ⟨c', h1, h2, ?_, ?_⟩
  · refine (abs_le_of_sq_le_sq' ?_ hN).2
    rw [npNorm_sq]
    unfold nsq
    rw [sumIdx_eq_sum]
    refine le_trans (sum_le_sum fun f _ => ?_) hsum
    refine pow_le_pow_left₀ (norm_nonneg _) ?_ 2
    show ‖sumIdx d _‖ ≤ _
    rw [sumIdx_eq_sum]
    exact norm_sum_le _ _
  · rw [add_sub_cancel_left]
    refine (abs_le_of_sq_le_sq' ?_ (mul_nonneg hδ hN)).2
    rw [arrDist_sq, mul_pow]
    refine le_trans (sum_le_sum fun f hf => ?_) ((mul_sum _ _ _).symm.le.trans (mul_le_mul_of_nonneg_left hsum (sq_nonneg δ)))
    rw [← mul_pow]
    have := h3 f (by rw [h2]; exact mem_idxSet.1 hf)
    rw [sumIdx_eq_sum d (fun k => ‖a.get (NDArray.asm a.ndim ax k f)‖)] at this
    exact pow_le_pow_left₀ (norm_nonneg _) this 2

/-- The sum over the legs `p.1` of one site. -/
theorem sumSite_near {δ : ℝ} (hδ : 0 ≤ δ) {sm : SumFn 𝕜} (h : SmNear δ sm) {t u : NDArray 𝕜} (ht : t.IsLocal) {ax : List ℕ}
    (hax : ∀ a ∈ ax, a < t.ph.length) (hnd : ax.Nodup)
    (hu : (if (ax.map fun a => ((a + 1 : ℕ) : ℤ)) = [] then Except.ok t else t.sum (ax.map fun a => ((a + 1 : ℕ) : ℤ))) = Except.ok u) :
    ∃ u', (if (ax.map fun a => ((a + 1 : ℕ) : ℤ)) = [] then Except.ok t else sm t (ax.map fun a => ((a + 1 : ℕ) : ℤ))) = Except.ok u' ∧
      Approx (1 + δ) (Real.sqrt (conDims t.ph ax).prod * npNorm t) u u' := by
  by_cases h0 : ax = []
  · subst h0
    obtain rfl : t = u := Except.ok.inj hu
    refine ⟨t, rfl, ?_⟩
    have : Real.sqrt (conDims t.ph []).prod * npNorm t = npNorm t := by simp [conDims]
    rw [this]
    exact (Approx.refl t).mono (by linarith)
  · rw [if_neg (by simpa using h0)] at hu ⊢
    have e : (ax.map fun a => ((a + 1 : ℕ) : ℤ)) = (ax.map (· + 1)).map fun a : ℕ => (a : ℤ) := by
      rw [List.map_map]; rfl
    have hlt : ∀ p ∈ ax.map (· + 1), p < t.ndim := by
      intro a ha
      obtain ⟨b, hb, rfl⟩ := List.mem_map.1 ha
      have := hax b hb
      rw [ndim_ph ht]; omega
    have h1 : (ax.map fun a => ((a + 1 : ℕ) : ℤ)).mapM (pyIndex t.ndim) = .ok (ax.map (· + 1)) := by
      rw [e]
      exact NDArray.mapM_pyIndex_nat hlt
    have hn : (ax.map (· + 1)).Nodup := hnd.map fun _ _ h => by omega
    unfold NDArray.sum at hu
    rw [h1, ok_bind, pyGuard, if_pos hn] at hu
    obtain rfl : t.sumTo (ax.map (· + 1)) = u := Except.ok.inj hu
    obtain ⟨c, c1, c2⟩ := sumTo_near hδ h h1 hn hlt
    refine ⟨c, c1, ?_⟩
    have : ((ax.map (· + 1)).map fun p => t.shape.getD p 0) = conDims t.ph ax := by
      rw [List.map_map, conDims]
      refine List.map_congr_left fun a ha => ?_
      show t.shape.getD (a + 1) 0 = _
      rw [NDArray.shape_local ht, List.getD_cons_succ, getD_append_lt (hax a ha)]
    rwa [this] at c2

/-- The weight of a site: the number of terms of the sum enters with its square root. -/
noncomputable def sumWeight (p : List ℕ × NDArray 𝕜) : ℝ := Real.sqrt (conDims p.2.ph p.1).prod * npNorm p.2

theorem sumSites_near {δ ε : ℝ} (hδ : 0 ≤ δ) {sm : SumFn 𝕜} (h : SmNear δ sm) :
    ∀ {ps : List (List ℕ × NDArray 𝕜)} {ts : List (NDArray 𝕜)},
      (∀ p ∈ ps, p.2.IsLocal ∧ p.1.Nodup ∧ ∀ a ∈ p.1, a < p.2.ph.length) →
      (ps.mapM fun p => if (p.1.map fun a => ((a + 1 : ℕ) : ℤ)) = [] then Except.ok p.2
        else p.2.sum (p.1.map fun a => ((a + 1 : ℕ) : ℤ))) = .ok ts →
      ∃ ts', (ps.mapM fun p => if (p.1.map fun a => ((a + 1 : ℕ) : ℤ)) = [] then Except.ok p.2
        else sm p.2 (p.1.map fun a => ((a + 1 : ℕ) : ℤ))) = .ok ts' ∧
        LApprox ε (((1 + δ) * (1 + ε)) ^ ps.length) (ps.map sumWeight).prod ts ts' := by
  intro ps
  induction ps with
  | nil =>
    intro ts _ ht
    cases ht
    exact ⟨[], rfl, by simpa using LApprox.nil⟩
  | cons p ps ih =>
    intro ts hp ht
    rw [List.mapM_cons] at ht ⊢
    obtain ⟨t, k1, ht⟩ := bind_ok_inv ht
    obtain ⟨ts1, k2, ht⟩ := bind_ok_inv ht
    cases ht
    obtain ⟨ts', k3, k4⟩ := ih (fun q hq => hp q (List.mem_cons_of_mem _ hq)) k2
    obtain ⟨hl, hn, hlt⟩ := hp p List.mem_cons_self
    obtain ⟨t', g1, g2⟩ := sumSite_near hδ h hl hlt hn k1
    refine ⟨t' :: ts', by rw [g1, ok_bind, k3, ok_bind]; rfl, ?_⟩
    have := LApprox.cons g2 k4
    convert this using 1
    · rw [List.length_cons, pow_succ]; ring
    · rw [List.map_cons, List.prod_cons]; rfl

/-- The dense array of a chain of approximate tensors. -/
theorem LApprox.toArray {ε H M : ℝ} (hε : 0 ≤ ε) {td : TDot 𝕜} (htd : TdNear ε td) {y : MPA 𝕜} (hy : y.Valid) {us' : List (NDArray 𝕜)}
    (h : LApprox ε (H * (1 + ε)) M y.lt us') {l r : ℤ} :
    ∃ A, MPA.toArrayF td ⟨us', l, r⟩ = .ok A ∧ A.shape = y.shape.flatten ∧ y.arrErr A ≤ (H - 1) * M := by
  obtain ⟨Y, hY, hrep⟩ := ltensToArray_ok hy.chain hy.ne
  obtain ⟨B, hB, hBs, hBg⟩ := rep_dropBonds hrep
  have hfold : ∃ Y', ltensToArrayF td us' = .ok Y' ∧ Y'.shape = Y.shape ∧ arrDist Y Y' ≤ (H - 1) * M := by
    have hne := hy.ne
    generalize hHe : H * (1 + ε) = G at h
    generalize y.lt = us at h hY hne
    cases h with
    | nil => exact absurd rfl hne
    | @cons g N G1 M1 t t' ts ts' k5 k6 =>
      obtain ⟨Y', m1, m2⟩ := k6.fold hε htd k5 hY
      have : H = g * G1 := by
        have h0 : (1 + ε) ≠ 0 := by linarith
        exact mul_right_cancel₀ h0 (by rw [hHe]; ring)
      rw [this]
      exact ⟨Y', m1, m2.shape, m2.dist⟩
  obtain ⟨Y', m1, m2, m3⟩ := hfold
  obtain ⟨B', n1, n2, n3, n4⟩ := dropBonds_dist hrep.1 m2 hB
  refine ⟨B', ?_, n3, ?_⟩
  · unfold MPA.toArrayF
    simp only
    rw [m1, ok_bind, n1]
  · rw [arrErr_eq (A := B) n2 hBg, n4]
    exact m3

/-- The distance of a chain of approximate tensors. -/
theorem LApprox.mpaDist {H M : ℝ} {y : MPA 𝕜} (hy : y.Valid) {us' : List (NDArray 𝕜)} (h : LApprox 0 H M y.lt us') {l r : ℤ}
    (hv : (⟨us', l, r⟩ : MPA 𝕜).Valid) (hs : (⟨us', l, r⟩ : MPA 𝕜).shape = y.shape) : y.dist ⟨us', l, r⟩ ≤ (H - 1) * M := by
  have h' : LApprox 0 (H * (1 + 0)) M y.lt us' := by rwa [add_zero, mul_one]
  obtain ⟨A, h1, h2, h3⟩ := h'.toArray le_rfl C78_contract_exact hy (l := l) (r := r)
  rw [MPA.toArrayF_exact] at h1
  obtain ⟨A', g1, g2, g3⟩ := C01_to_array _ hv
  obtain rfl := Except.ok.inj (h1.symm.trans g1)
  refine le_trans (le_of_eq ?_) h3
  unfold MPA.dist MPA.arrErr
  congr 1
  refine sumSites_congr fun i hi => ?_
  rw [g3 i (by rw [hs]; exact hi)]

end Mpnum
