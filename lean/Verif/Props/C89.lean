import Verif.MPArray.RoundingSum
import Verif.Props.C88

/-!
# C89: `MPArray.sum` in floating point arithmetic

`MPA.sumF` (MPArray/RoundingSum.lean) is `MPArray.sum` with functions `sm` and `td` in the place of `numpy.ndarray.sum` and
`numpy.tensordot`.
-/

open Finset

namespace Mpnum

variable {𝕜 : Type} [RCLike 𝕜]

/-- C89: for every documented value of `axes`, `x.sum(axes)` succeeds as with exact arithmetic.  If legs remain, the result has the same shape and
the same ranks and represents a tensor that differs from the exact sum by the rounding errors of one sum per site.  If no legs remain, the result
is a number with the rounding errors of one sum per site and of `n - 1` contractions. -/
theorem C89_sum {δ ε : ℝ} (hδ : 0 ≤ δ) (hε : 0 ≤ ε) {sm : SumFn 𝕜} (hsm : SmNear δ sm) {td : TDot 𝕜} (htd : TdNear ε td)
    (x : MPA 𝕜) (hx : x.Valid) (axes : SumAxes) (legs : List (List ℕ)) (h : SumLegs x.shape axes legs)
    (hl : ∀ p ∈ x.shape.zip legs, p.2.Nodup ∧ ∀ a ∈ p.2, a < p.1.length) :
    let rest := List.zipWith freeDims x.shape legs
    let weight := ((legs.zip x.lt).map fun p => Real.sqrt (conDims p.2.ph p.1).prod * npNorm p.2).prod
    (rest.flatten ≠ [] ∧ ∃ y y', x.sum axes = .ok (.inr y) ∧ x.sumF sm td axes = .ok (.inr y') ∧ y'.Valid ∧ y'.l = 0 ∧ y'.r = y'.len ∧
        y'.shape = y.shape ∧ y'.ranks = y.ranks ∧ y.dist y' ≤ ((1 + δ) ^ x.len - 1) * weight) ∨
    (rest.flatten = [] ∧ ∃ A A', x.sum axes = .ok (.inl A) ∧ x.sumF sm td axes = .ok (.inl A') ∧ A'.shape = [] ∧
        ‖A.get [] - A'.get []‖ ≤ ((1 + δ) ^ x.len * (1 + ε) ^ (x.len - 1) - 1) * weight) := by
  intro rest weight
  obtain ⟨hlen, hsa⟩ := siteAxes_ok h
  have hnd : x.ndims = x.shape.map List.length := by
    rw [MPA.ndims, MPA.shape, List.map_map]
    apply List.map_congr_left
    intro t ht
    rw [ndim_ph (hx.chain.isLocal t ht)]; simp
  have hps : ∀ p ∈ legs.zip x.lt, p.2.IsLocal ∧ p.1.Nodup ∧ ∀ a ∈ p.1, a < p.2.ph.length := by
    intro p hp
    refine ⟨hx.chain.isLocal _ (List.of_mem_zip hp).2, ?_⟩
    apply hl (p.2.ph, p.1)
    rw [List.mem_iff_getElem] at hp ⊢
    obtain ⟨n, hn, rfl⟩ := hp
    exact ⟨n, by simpa [MPA.shape, and_comm] using hn, by simp [MPA.shape]⟩
  have hzl : (legs.zip x.lt).length = x.len := by
    rw [List.length_zip, hlen]; simp [MPA.len, MPA.shape]
  have h1 : 0 < x.len := List.length_pos_of_ne_nil hx.ne
  have hcode : ∀ f : NDArray 𝕜 → List ℤ → Py (NDArray 𝕜),
      ((legs.map fun l => l.map fun a => ((a + 1 : ℕ) : ℤ)).zip x.lt).mapM (fun p => if p.1 = [] then Except.ok p.2 else f p.2 p.1)
        = (legs.zip x.lt).mapM fun p => if (p.1.map fun a => ((a + 1 : ℕ) : ℤ)) = [] then Except.ok p.2
            else f p.2 (p.1.map fun a => ((a + 1 : ℕ) : ℤ)) := by
    intro f
    rw [List.zip_map_left, List.mapM_map]
    rfl
  have hG : ((1 + δ) * (1 + ε)) ^ x.len = ((1 + δ) ^ x.len * (1 + ε) ^ (x.len - 1)) * (1 + ε) := by
    obtain ⟨n, hn⟩ : ∃ n, x.len = n + 1 := ⟨x.len - 1, by omega⟩
    rw [hn, mul_pow, Nat.add_sub_cancel, pow_succ (1 + ε)]; ring
  -- what holds in both cases
  have key : ∀ out, x.sum axes = .ok out → ∃ (us us' : List (NDArray 𝕜)),
      LApprox ε (((1 + δ) * (1 + ε)) ^ x.len) weight us us' ∧ LApprox 0 ((1 + δ) ^ x.len) weight us us' ∧
      us ≠ [] ∧ Chained 1 us 1 ∧
      (x.sum axes = if (⟨us, 0, us.length⟩ : MPA 𝕜).ndims.sum = 0 then
          (do let a ← (⟨us, 0, us.length⟩ : MPA 𝕜).toArray; return .inl a) else .ok (.inr ⟨us, 0, us.length⟩)) ∧
      (∀ o : MPA 𝕜, mkMPA us' = .ok o → x.sumF sm td axes = if o.ndims.sum = 0 then
          (do let a ← o.toArrayF td; return .inl a) else .ok (.inr o)) := by
    intro out hout
    have hout' := hout
    unfold MPA.sum at hout
    rw [hnd, hsa, ok_bind] at hout
    obtain ⟨us, g1, hout⟩ := bind_ok_inv hout
    obtain ⟨o, g2, hout⟩ := bind_ok_inv hout
    obtain rfl := mkMPA_eq g2
    rw [hcode] at g1
    obtain ⟨us0, hm, hcne, hcc, _⟩ := lin_core hx (sites := legs.zip x.lt)
      (T := Prod.snd) (List.map_snd_zip (by simp [hlen, MPA.shape]))
      (f := fun p => if (p.1.map fun a => ((a + 1 : ℕ) : ℤ)) = [] then Except.ok p.2
          else p.2.sum (p.1.map fun a => ((a + 1 : ℕ) : ℤ)))
      (K := fun p => conDims p.2.ph p.1) (φ := fun p f k => NDArray.asm p.2.ph.length p.1 k f)
      (q := fun p => freeDims p.2.ph p.1)
      (fun p hp => sum_site (hps p hp).1 (hps p hp).2.2 (hps p hp).2.1)
    obtain rfl := Except.ok.inj (g1.symm.trans hm)
    obtain ⟨us', k1, k2⟩ := sumSites_near (ε := ε) hδ hsm hps g1
    obtain ⟨us'', k1', k3⟩ := sumSites_near (ε := 0) hδ hsm hps g1
    obtain rfl := Except.ok.inj (k1.symm.trans k1')
    rw [hzl] at k2 k3
    rw [add_zero, mul_one] at k3
    refine ⟨us, us', k2, k3, hcne, hcc, ?_, ?_⟩
    · rw [hout', ← hout]
      rfl
    · intro o ho
      unfold MPA.sumF
      rw [hnd, hsa, ok_bind, hcode, k1, ok_bind, ho, ok_bind]
      rfl
  have hnds : ∀ {us us' : List (NDArray 𝕜)} {G M : ℝ}, LApprox ε G M us us' →
      (⟨us', 0, us'.length⟩ : MPA 𝕜).ndims = (⟨us, 0, us.length⟩ : MPA 𝕜).ndims := by
    intro us us' G M h
    have hf : ∀ {as bs : List (NDArray 𝕜)}, List.Forall₂ (fun t u : NDArray 𝕜 => u.shape = t.shape) as bs →
        bs.map (fun t => t.ndim - 2) = as.map (fun t => t.ndim - 2) := by
      intro as bs h
      induction h with
      | nil => rfl
      | cons h _ ih => rw [List.map_cons, List.map_cons, ih]; unfold NDArray.ndim; rw [h]
    exact hf h.shapes
  rcases C18_sum x hx axes legs h hl with ⟨h0, y, hy, hyv, hyl, hyr, hys, _, _⟩ | ⟨h0, A, hA, hAs, _⟩
  · left
    obtain ⟨us, us', k2, k3, hne, hch, k4, k5⟩ := key _ hy
    rw [hy] at k4
    have hyus : y = ⟨us, 0, us.length⟩ := by
      split at k4
      · obtain ⟨_, _, k4⟩ := bind_ok_inv k4.symm
        cases k4
      · exact Sum.inr.inj (Except.ok.inj k4)
    have hnz : (⟨us, 0, us.length⟩ : MPA 𝕜).ndims.sum ≠ 0 := by
      intro hz
      rw [if_pos hz] at k4
      obtain ⟨_, _, k4⟩ := bind_ok_inv k4.symm
      cases k4
    obtain ⟨c1, c2, c3⟩ := chained_same_shapes k2.shapes hch
    have hne' : us' ≠ [] := by
      rintro rfl
      exact hne (List.length_eq_zero_iff.1 k2.shapes.length_eq)
    have hv' : (⟨us', 0, us'.length⟩ : MPA 𝕜).Valid := valid_mk hne' c1
    have hsh : (⟨us', 0, us'.length⟩ : MPA 𝕜).shape = y.shape := by rw [hyus]; exact c2
    have hndims := hnds k2
    refine ⟨h0, y, ⟨us', 0, us'.length⟩, hy, ?_, hv', rfl, rfl, hsh, ?_, ?_⟩
    · rw [k5 _ (mkMPA_ok hne' c1), if_neg (by rw [hndims]; exact hnz)]
    · simp only [hyus, MPA.ranks, List.map_tail] at c3 ⊢
      rw [c3]
    · refine LApprox.mpaDist hyv ?_ hv' hsh
      rw [hyus]
      exact k3
  · right
    obtain ⟨us, us', k2, k3, hne, hch, k4, k5⟩ := key _ hA
    rw [hA] at k4
    have hz : (⟨us, 0, us.length⟩ : MPA 𝕜).ndims.sum = 0 := by
      by_contra hz
      rw [if_neg hz] at k4
      cases k4
    rw [if_pos hz] at k4
    obtain ⟨c1, c2, c3⟩ := chained_same_shapes k2.shapes hch
    have hne' : us' ≠ [] := by
      rintro rfl
      exact hne (List.length_eq_zero_iff.1 k2.shapes.length_eq)
    have hv : (⟨us, 0, us.length⟩ : MPA 𝕜).Valid := valid_mk hne hch
    obtain ⟨B, b1, b2, b3⟩ := C01_to_array _ hv
    rw [b1, ok_bind] at k4
    obtain rfl : A = B := Sum.inl.inj (Except.ok.inj k4)
    rw [hG] at k2
    obtain ⟨A', a1, a2, a3⟩ := LApprox.toArray (y := ⟨us, 0, us.length⟩) hε htd hv k2 (l := 0) (r := us'.length)
    have hA's : A'.shape = [] := by rw [a2, ← b2, hAs]
    refine ⟨h0, A, A', hA, ?_, hA's, ?_⟩
    · rw [k5 _ (mkMPA_ok hne' c1), if_pos (by rw [hnds k2]; exact hz), a1]
      rfl
    · refine le_trans (le_of_eq ?_) a3
      rw [arrErr_eq (A := A) b2 b3]
      unfold arrDist
      rw [hAs]
      show _ = Real.sqrt (‖_‖ ^ 2)
      rw [Real.sqrt_sq (norm_nonneg _)]

theorem sumLegs_all_zip (S : List (List ℕ)) : S.zip (S.map fun s => List.range s.length) = S.map fun s => (s, List.range s.length) := by
  conv_lhs => rw [← List.map_id S, List.map_map, List.zip_map']
  simp

theorem prod_sqrt_shape (ts : List (NDArray 𝕜)) :
    (((ts.map NDArray.ph).map fun s => List.range s.length).zip ts |>.map fun p => Real.sqrt (conDims p.2.ph p.1).prod * npNorm p.2).prod
      = Real.sqrt ((ts.map NDArray.ph).flatten.prod : ℕ) * (ts.map npNorm).prod := by
  induction ts with
  | nil => simp
  | cons t ts ih =>
    rw [List.map_cons, List.map_cons, List.zip_cons_cons, List.map_cons, List.prod_cons, ih, List.flatten_cons, List.prod_append, Nat.cast_mul,
      Real.sqrt_mul (Nat.cast_nonneg _), List.map_cons, List.prod_cons]
    simp only [conDims_range]
    ring

/-- C89: `x.sum()` is the sum of all entries of the dense tensor, up to rounding errors: relative to the product of the norms of the local tensors
and the square root of the number of entries. -/
theorem C89_sum_all {δ ε : ℝ} (hδ : 0 ≤ δ) (hε : 0 ≤ ε) {sm : SumFn 𝕜} (hsm : SmNear δ sm) {td : TDot 𝕜} (htd : TdNear ε td)
    (x : MPA 𝕜) (hx : x.Valid) :
    ∃ A, x.sumF sm td .none = .ok (.inl A) ∧ A.shape = [] ∧
      ‖sumSites x.shape x.val - A.get []‖ ≤
        ((1 + δ) ^ x.len * (1 + ε) ^ (x.len - 1) - 1) * (Real.sqrt x.shape.flatten.prod * (x.lt.map npNorm).prod) := by
  obtain ⟨T, t1, t2, t3⟩ := C18_sum_all x hx
  have h := C89_sum hδ hε hsm htd x hx .none _ .none (by
    intro p hp
    rw [sumLegs_all_zip] at hp
    obtain ⟨s, _, rfl⟩ := List.mem_map.1 hp
    exact ⟨List.nodup_range, by simp⟩)
  rcases h with ⟨_, y, _, h1, _⟩ | ⟨_, A, A', h1, h2, h3, h4⟩
  · rw [t1] at h1
    cases h1
  · rw [t1] at h1
    obtain rfl : T = A := Sum.inl.inj (Except.ok.inj h1)
    refine ⟨A', h2, h3, ?_⟩
    rw [← t3]
    have := prod_sqrt_shape x.lt
    refine h4.trans (le_of_eq ?_)
    congr 1

/-- C89: with the exact sum and the exact `numpy.tensordot` the model computes `MPArray.sum`. -/
theorem C89_model_exact (x : MPA 𝕜) (axes : SumAxes) : x.sumF NDArray.sum NDArray.tensordot axes = x.sum axes := by
  unfold MPA.sumF MPA.sum
  simp only [MPA.toArrayF_exact]

/-! ### Non-vacuity -/

/-- A function for the sum of numpy that is wrong by a relative error of `δ`. -/
noncomputable def smScaled (δ : ℝ) : SumFn 𝕜 := fun a axes => do
  let c ← a.sum axes
  return ⟨c.shape, fun f => ((1 + δ : ℝ) : 𝕜) * c.get f⟩

theorem smScaled_near {δ : ℝ} (hδ : 0 ≤ δ) : SmNear δ (smScaled (𝕜 := 𝕜) δ) := by
  intro a axes ax hax hn
  refine ⟨⟨(a.sumTo ax).shape, fun f => ((1 + δ : ℝ) : 𝕜) * (a.sumTo ax).get f⟩, ?_, rfl, fun f _ => ?_⟩
  · unfold smScaled NDArray.sum
    rw [hax, ok_bind, pyGuard, if_pos hn]
    rfl
  · show ‖(a.sumTo ax).get f - ((1 + δ : ℝ) : 𝕜) * (a.sumTo ax).get f‖ ≤ _
    rw [show ∀ z : 𝕜, z - ((1 + δ : ℝ) : 𝕜) * z = -(((δ : ℝ) : 𝕜) * z) by intro z; push_cast; ring, norm_neg, norm_mul,
      RCLike.norm_ofReal, abs_of_nonneg hδ]
    refine mul_le_mul_of_nonneg_left ?_ hδ
    show ‖sumIdx _ _‖ ≤ _
    rw [sumIdx_eq_sum, sumIdx_eq_sum]
    exact norm_sum_le _ _

/-- All entries of an operator on three sites, with functions for the sum and for `numpy.tensordot` that are not exact. -/
example : ∃ A, exH3.sumF (smScaled (1 / 1000)) (tdScaled (1 / 1000)) .none = .ok (.inl A) ∧ A.shape = [] ∧
    ‖sumSites exH3.shape exH3.val - A.get []‖ ≤
      ((1 + 1 / 1000) ^ exH3.len * (1 + 1 / 1000) ^ (exH3.len - 1) - 1) * (Real.sqrt exH3.shape.flatten.prod * (exH3.lt.map npNorm).prod) :=
  C89_sum_all (by norm_num) (by norm_num) (smScaled_near (by norm_num)) (tdScaled_near (by norm_num)) exH3 exH3_isMpo.valid

/-- The sum over the columns of the same operator is an MPA. -/
example : ∃ y y', exH3.sum (.int (1 : ℕ)) = .ok (.inr y) ∧ exH3.sumF (smScaled (1 / 1000)) (tdScaled (1 / 1000)) (.int (1 : ℕ)) = .ok (.inr y') ∧
    y'.shape = y.shape ∧ y.dist y' ≤ ((1 + 1 / 1000) ^ exH3.len - 1) *
      (((exH3.shape.map fun _ => [1]).zip exH3.lt).map fun p => Real.sqrt (conDims p.2.ph p.1).prod * npNorm p.2).prod := by
  have hs : exH3.shape = [[2, 2], [2, 2], [2, 2]] := exH3_isMpo.shape
  rcases C89_sum (by norm_num) (by norm_num) (smScaled_near (𝕜 := ℂ) (δ := 1 / 1000) (by norm_num))
    (tdScaled_near (𝕜 := ℂ) (δ := 1 / 1000) (by norm_num)) exH3 exH3_isMpo.valid (.int (1 : ℕ)) _ (.int 1) (by
      rw [hs]
      intro p hp
      have : p = ([2, 2], [1]) := by simpa using hp
      subst this
      exact ⟨by decide, by decide⟩) with ⟨_, y, y', h1, h2, _, _, _, h3, _, h4⟩ | ⟨h0, _⟩
  · exact ⟨y, y', h1, h2, h3, h4⟩
  · exfalso
    rw [hs] at h0
    revert h0
    decide

end Mpnum
