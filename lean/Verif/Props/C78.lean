import Verif.MPArray.RoundingInner
import Verif.Props.C01
import Verif.Props.C08
import Verif.Props.C77

/-!
C78: `to_array`, `dot` and `inner` in floating point arithmetic.

The models `MPA.toArrayF`, `dotF` and `innerF` (RoundingDot.lean) are these functions with `numpy.tensordot` replaced by a routine `td`
with relative error `ε` (`TdNear ε td`): the 2-norm of the error is at most `ε` times the product of the 2-norms of the arguments.
Transpositions, reshapes and complex conjugation are exact.

For MPAs in any form the errors are bounded relative to the product of the norms of the local tensors.  For MPAs in canonical form
(up to rounding errors `η`) they are bounded relative to the norms of the represented tensors, and only grow linearly with the number of
sites.
-/

open Finset

namespace Mpnum

variable {𝕜 : Type} [RCLike 𝕜]

/-! ### the contract -/

/-- C78: the usual error model (every entry of the result has an error of at most `ε` times the same contraction of the absolute values)
meets the contract. -/
theorem C78_contract_componentwise {ε : ℝ} {td : TDot 𝕜}
    (h : ∀ (a b : NDArray 𝕜) (axa axb : List ℤ) (c : NDArray 𝕜), a.tensordot b axa axb = .ok c → ∀ d,
      (absArr a).tensordot (absArr b) axa axb = .ok d →
      ∃ c', td a b axa axb = .ok c' ∧ c'.shape = c.shape ∧ ∀ i, InB i c.shape → ‖c.get i - c'.get i‖ ≤ ε * d.get i)
    (hε : 0 ≤ ε) : TdNear ε td := by
  intro a b axa axb c hc
  obtain ⟨d, h1, _, _, h4⟩ := tensordot_bound hc
  obtain ⟨c', g1, g2, g3⟩ := h a b axa axb c hc d h1
  refine ⟨c', g1, g2, (abs_le_of_sq_le_sq' ?_ (mul_nonneg hε (mul_nonneg (npNorm_nonneg' _) (npNorm_nonneg' _)))).2⟩
  rw [arrDist_sq, mul_pow, mul_pow, npNorm_sq, npNorm_sq]
  refine le_trans (Finset.sum_le_sum fun i hi => pow_le_pow_left₀ (norm_nonneg _) (g3 i (mem_idxSet.1 hi)) 2) ?_
  simp only [mul_pow]
  rw [← Finset.mul_sum]
  exact mul_le_mul_of_nonneg_left h4 (sq_nonneg _)

/-- C78: the exact function meets the contract with `ε = 0`. -/
theorem C78_contract_exact : TdNear 0 (NDArray.tensordot (R := 𝕜)) := fun a b axa axb c h => ⟨c, h, rfl, by simp [arrDist_self]⟩

/-- C78: with the exact function, the models are those that the other properties are about. -/
theorem C78_model_exact (x y : MPA 𝕜) (axes : List ℤ × List ℤ) :
    x.toArrayF NDArray.tensordot = x.toArray ∧ dotF NDArray.tensordot x y axes = dot x y axes ∧
      innerF NDArray.tensordot x y = inner x y := ⟨MPA.toArrayF_exact x, dotF_exact x y axes, innerF_exact x y⟩

/-! ### chains -/

theorem chainF_near {ε ε₂ κ ν : ℝ} (hε : 0 ≤ ε) (hε₂ : 0 ≤ ε₂) (hκ : 0 ≤ κ) (hν : 0 ≤ ν) {td : TDot 𝕜} (h : TdNear ε td)
    {ts : List (FItem 𝕜)} (hne : ts ≠ []) (hs : ∀ q ∈ ts, 0 ≤ q.s)
    (hq : ∀ q ∈ ts, q.t'.shape = q.t.shape ∧ npNorm q.t ≤ ν * q.s ∧ arrDist q.t q.t' ≤ ε₂ * (ν * q.s))
    (hseg : ∀ pre mid post, ts = pre ++ (mid ++ post) → SegOp (κ * fprod mid) (mid.map FItem.t))
    (hc : Chained 1 (ts.map FItem.t) 1) :
    ∃ A A', (do (← ltensToArray (ts.map FItem.t)).dropBonds) = .ok A ∧ (do (← ltensToArrayF td (ts.map FItem.t')).dropBonds) = .ok A' ∧
      A.shape = (physShape (ts.map FItem.t)).flatten ∧ A'.shape = (physShape (ts.map FItem.t)).flatten ∧
      (∀ idx, IdxOK idx (physShape (ts.map FItem.t)) → A.get idx.flatten = entry (ts.map FItem.t) idx) ∧
      arrDist A A' ≤ κ * ((1 + ε₂ * ν) * (1 + κ * (((1 + ε) * (1 + ε₂) - 1) * ν)) ^ (ts.length - 1) - 1) * fprod ts := by
  obtain ⟨Y, Y', h1, h2, h3, h4⟩ := ltensF_near hε hε₂ hκ hν h hne hs hq hseg hc
  obtain ⟨Z, g1, g2⟩ := ltensToArray_ok hc (by simpa using hne)
  rw [h1] at g1
  cases g1
  obtain ⟨B, b1, b2, b3⟩ := rep_dropBonds g2
  obtain ⟨B', c1, c2, c3, c4⟩ := dropBonds_dist g2.1 h3 b1
  exact ⟨B, B', by rw [h1, ok_bind, b1], by rw [h2, ok_bind, c1], c2, c3, b3, by rw [c4]; exact h4⟩

/-- The 2-norm of the difference of the tensor represented by `x` and an array whose legs are those of `x` in order. -/
noncomputable def MPA.arrErr (x : MPA 𝕜) (A : NDArray 𝕜) : ℝ := Real.sqrt (sumSites x.shape fun i => ‖x.val i - A.get i.flatten‖ ^ 2)

theorem arrErr_eq {x : MPA 𝕜} {A A' : NDArray 𝕜} (hs : A.shape = x.shape.flatten)
    (hg : ∀ idx, IdxOK idx x.shape → A.get idx.flatten = x.val idx) : x.arrErr A' = arrDist A A' := by
  unfold MPA.arrErr arrDist
  rw [hs, ← sumSites_flatten]
  congr 1
  exact sumSites_congr fun i hi => by rw [hg i hi]

/-- `to_array` with weights. -/
theorem toArrayF_weights {ε κ ν : ℝ} (hε : 0 ≤ ε) (hκ : 0 ≤ κ) (hν : 0 ≤ ν) {td : TDot 𝕜} (h : TdNear ε td) {x : MPA 𝕜} (hx : x.Valid)
    {ws : List (ℝ × NDArray 𝕜)} (hw : ws.map Prod.snd = x.lt) (hs : ∀ q ∈ ws, 0 ≤ q.1) (hn : ∀ q ∈ ws, npNorm q.2 ≤ ν * q.1)
    (hseg : ∀ pre mid post, ws = pre ++ (mid ++ post) → SegOp (κ * (mid.map Prod.fst).prod) (mid.map Prod.snd)) :
    ∃ A, x.toArrayF td = .ok A ∧ A.shape = x.shape.flatten ∧
      x.arrErr A ≤ κ * ((1 + κ * (ε * ν)) ^ (x.len - 1) - 1) * (ws.map Prod.fst).prod := by
  set g : ℝ × NDArray 𝕜 → FItem 𝕜 := fun q => ⟨q.1, q.2, q.2⟩ with hg
  have e1 : (ws.map g).map FItem.t = x.lt := by rw [List.map_map, ← hw]; rfl
  have e2 : (ws.map g).map FItem.t' = x.lt := by rw [List.map_map, ← hw]; rfl
  have e3 : fprod (ws.map g) = (ws.map Prod.fst).prod := by unfold fprod; rw [List.map_map]; rfl
  have hlen : ws.length = x.len := by rw [MPA.len, ← hw]; simp
  obtain ⟨A, A', h1, h2, h3, h4, h5, h6⟩ := chainF_near hε le_rfl hκ hν h (ts := ws.map g) (by
      intro h0
      apply hx.ne
      rw [← hw]
      simpa using h0)
    (by
      intro q hq
      obtain ⟨p, hp, rfl⟩ := List.mem_map.1 hq
      exact hs p hp)
    (by
      intro q hq
      obtain ⟨p, hp, rfl⟩ := List.mem_map.1 hq
      exact ⟨rfl, hn p hp, by simp [hg, arrDist_self]⟩)
    (by
      intro pre mid post he
      obtain ⟨pre', r, hr, rfl, he2⟩ := List.map_eq_append_iff.1 he
      obtain ⟨mid', post', rfl, rfl, rfl⟩ := List.map_eq_append_iff.1 he2
      have := hseg pre' mid' post' hr
      unfold fprod
      rw [List.map_map, List.map_map]
      exact this)
    (by rw [e1]; exact hx.chain)
  rw [e1] at h1 h3 h4 h5
  rw [e2] at h2
  refine ⟨A', h2, h4, ?_⟩
  rw [arrErr_eq (A := A) h3 h5, ← hlen, ← e3]
  refine h6.trans (le_of_eq ?_)
  rw [List.length_map]
  ring

/-- All segments of a chain, with the norms of the tensors as weights. -/
theorem segOp_norms {ts : List (NDArray 𝕜)} (h : ∀ t ∈ ts, t.IsLocal) {ws : List (ℝ × NDArray 𝕜)} (hw : ws.map Prod.snd = ts)
    (hn : ∀ q ∈ ws, npNorm q.2 ≤ q.1) : SegOp (ws.map Prod.fst).prod ts := by
  rw [← hw]
  refine segOp_of_rop (wfor fun q hq => MPA.rop_mono (npNorm_nonneg' _) (hn q hq) (rop_frob (h _ ?_)))
  rw [← hw]
  exact List.mem_map_of_mem hq

/-! ### `to_array` -/

/-- C78: `to_array` of any MPA: it succeeds, the result has the right shape, and the error is bounded relative to the product of the
norms of the local tensors. -/
theorem C78_to_array {ε : ℝ} (hε : 0 ≤ ε) {td : TDot 𝕜} (h : TdNear ε td) (x : MPA 𝕜) (hx : x.Valid) :
    ∃ A, x.toArrayF td = .ok A ∧ A.shape = x.shape.flatten ∧
      x.arrErr A ≤ ((1 + ε) ^ (x.len - 1) - 1) * (x.lt.map npNorm).prod := by
  have hw : (x.lt.map fun t => (npNorm t, t)).map Prod.snd = x.lt := by rw [List.map_map]; exact List.map_id _
  obtain ⟨A, h1, h2, h3⟩ := toArrayF_weights hε zero_le_one zero_le_one h hx hw
    (by
      intro q hq
      obtain ⟨t, _, rfl⟩ := List.mem_map.1 hq
      exact npNorm_nonneg' _)
    (by
      intro q hq
      obtain ⟨t, _, rfl⟩ := List.mem_map.1 hq
      simp)
    (by
      intro pre mid post he
      rw [one_mul]
      refine segOp_norms (fun t ht => hx.chain.isLocal t ?_) rfl fun q hq => ?_
      · rw [← hw, he]
        obtain ⟨q, hq, rfl⟩ := List.mem_map.1 ht
        exact List.mem_map_of_mem (by simp [hq])
      · have : q ∈ x.lt.map fun t => (npNorm t, t) := by rw [he]; simp [hq]
        obtain ⟨t, _, rfl⟩ := List.mem_map.1 this
        exact le_rfl)
  refine ⟨A, h1, h2, h3.trans (le_of_eq ?_)⟩
  rw [List.map_map]
  simp only [one_mul, mul_one]
  rfl

theorem Weighted.norm {A B : List (ℝ × NDArray 𝕜)} {D : ℕ} (h : Weighted A B D) (hl : ∀ q ∈ A ++ B, q.2.IsLocal) :
    ∀ q ∈ A ++ B, npNorm q.2 ≤ Real.sqrt D * q.1 := by
  intro q hq
  have hq0 := h.nonneg q hq
  refine (abs_le_of_sq_le_sq' ?_ (mul_nonneg (Real.sqrt_nonneg _) hq0)).2
  rw [mul_pow, Real.sq_sqrt (Nat.cast_nonneg _), npNorm_sq, nsq_local (hl q hq)]
  simp only [sumIdx_eq_sum]
  rcases List.mem_append.1 hq with hA | hB
  · have := frob_of_op (I := range q.2.lb ×ˢ idxSet q.2.ph) (m := q.2.rb) (T := fun ai b => q.2.at3 ai.1 ai.2 b) (c := q.1) fun w => by
      rw [Finset.sum_product]
      have := h.left q hA w
      simp only [sumIdx_eq_sum] at this
      exact this
    rw [Finset.sum_product] at this
    exact this.trans (mul_le_mul_of_nonneg_right (by exact_mod_cast h.rb q hA) (sq_nonneg _))
  · have := frob_of_op (I := idxSet q.2.ph ×ˢ range q.2.rb) (m := q.2.lb) (T := fun ib a => q.2.at3 a ib.1 ib.2) (c := q.1) fun w => by
      rw [Finset.sum_product]
      have := h.right q hB w
      simp only [sumIdx_eq_sum] at this
      refine le_trans (le_of_eq ?_) this
      exact Finset.sum_congr rfl fun i _ => Finset.sum_congr rfl fun b _ => by
        congr 2; exact Finset.sum_congr rfl fun a _ => mul_comm _ _
    rw [Finset.sum_product] at this
    refine le_trans (le_of_eq ?_) (this.trans (mul_le_mul_of_nonneg_right (by exact_mod_cast h.lb q hB) (sq_nonneg _)))
    rw [Finset.sum_comm]
    exact Finset.sum_congr rfl fun i _ => Finset.sum_comm

/-- The weights of an MPA in canonical form up to `η`: `1 + η` for all sites but the centre. -/
theorem MPA.NearGood.weights_center {η : ℝ} (hη : 0 ≤ η) (h1 : η < 1) {x : MPA 𝕜} (hx : x.NearGood η) (hr : x.r = x.l + 1) {D : ℕ}
    (hD1 : 1 ≤ D) (hD : ∀ q ∈ x.ranks, q ≤ D) :
    ∃ A B : List (ℝ × NDArray 𝕜), (A ++ B).map Prod.snd = x.lt ∧ Weighted A B D ∧ ∃ (c k : ℕ) (τ : ℝ), (c : ℤ) = x.l ∧ c + 1 + k = x.len ∧
      0 ≤ τ ∧ (1 - η) ^ (x.len - 1) * τ ≤ x.frob ∧
      (A ++ B).map Prod.fst = List.replicate c (1 + η) ++ τ :: List.replicate k (1 + η) := by
  have hl0 := hx.valid.l_nonneg
  have hrl := hx.valid.r_le
  obtain ⟨c, hc⟩ := Int.eq_ofNat_of_zero_le hl0
  have hcl : c < x.lt.length := by have : x.r ≤ x.lt.length := hrl; omega
  set t := x.lt[c] with ht
  have hget : x.lt[c]? = some t := List.getElem?_eq_getElem hcl
  have hsplit : x.lt = x.lt.take c ++ t :: x.lt.drop (c + 1) := by
    rw [ht, List.cons_getElem_drop_succ, List.take_append_drop]
  have hcen := MPA.NearGood.center hη h1.le hx hr hc.symm hget
  have hbd := MPA.ranks_bound hx.valid hD1 hD
  have hpre : ∀ u ∈ x.lt.take c, LNear η u := fun u hu => by
    obtain ⟨n, hn⟩ := List.mem_iff_getElem?.1 hu
    have hn' := (List.getElem?_eq_some_iff.1 hn).1
    rw [List.length_take] at hn'
    rw [List.getElem?_take_of_lt (by omega)] at hn
    exact (hx.canon n u hn).1 (by omega)
  have hpost : ∀ u ∈ x.lt.drop (c + 1), RNear η u := fun u hu => by
    obtain ⟨n, hn⟩ := List.mem_iff_getElem?.1 hu
    rw [List.getElem?_drop] at hn
    exact (hx.canon _ u hn).2 (by push_cast; omega)
  have htm : t ∈ x.lt := List.getElem_mem hcl
  have hp : 0 < 1 - η := by linarith
  have hsnd : (((x.lt.take c).map fun u => ((1 + η : ℝ), u)) ++ [(npNorm t, t)] ++ (x.lt.drop (c + 1)).map fun u => ((1 + η : ℝ), u)).map
      Prod.snd = x.lt := by
    conv_rhs => rw [hsplit]
    simp [Function.comp_def]
  refine ⟨((x.lt.take c).map fun u => ((1 + η : ℝ), u)) ++ [(npNorm t, t)], (x.lt.drop (c + 1)).map fun u => ((1 + η : ℝ), u), hsnd,
    ⟨hD1, ?_, ?_, ?_, ?_, ?_⟩, c, x.lt.length - (c + 1), npNorm t, hc.symm, by show _ = x.lt.length; omega, npNorm_nonneg' _, hcen.1, ?_⟩
  · intro q hq
    simp only [List.mem_append, List.mem_map, List.mem_singleton] at hq
    rcases hq with (⟨u, _, rfl⟩ | rfl) | ⟨u, _, rfl⟩
    · show 0 ≤ 1 + η; linarith
    · exact npNorm_nonneg' _
    · show 0 ≤ 1 + η; linarith
  · intro q hq
    simp only [List.mem_append, List.mem_map, List.mem_singleton] at hq
    rcases hq with ⟨u, hu, rfl⟩ | rfl
    · exact (hpre u hu).1
    · exact lop_frob (hx.valid.chain.isLocal t htm)
  · intro q hq
    obtain ⟨u, hu, rfl⟩ := List.mem_map.1 hq
    exact (hpost u hu).1
  · intro q hq
    simp only [List.mem_append, List.mem_map, List.mem_singleton] at hq
    rcases hq with ⟨u, hu, rfl⟩ | rfl
    · exact (hbd u (List.mem_of_mem_take hu)).2
    · exact (hbd t htm).2
  · intro q hq
    obtain ⟨u, hu, rfl⟩ := List.mem_map.1 hq
    exact (hbd u (List.mem_of_mem_drop hu)).1
  · have hmin : min c x.lt.length = c := by omega
    simp only [List.map_append, List.map_map, Function.comp_def, List.map_const', List.map_cons, List.map_nil, List.length_take,
      List.length_drop, hmin, List.append_assoc, List.cons_append, List.nil_append]

/-- The product of the weights of an MPA in canonical form up to `η`. -/
theorem MPA.NearGood.weights {η : ℝ} (hη : 0 ≤ η) (h1 : η < 1) {x : MPA 𝕜} (hx : x.NearGood η) (hr : x.r = x.l + 1) {D : ℕ} (hD1 : 1 ≤ D)
    (hD : ∀ q ∈ x.ranks, q ≤ D) :
    ∃ A B : List (ℝ × NDArray 𝕜), (A ++ B).map Prod.snd = x.lt ∧ Weighted A B D ∧ 0 ≤ ((A ++ B).map Prod.fst).prod ∧
      ((A ++ B).map Prod.fst).prod ≤ ((1 + η) / (1 - η)) ^ (x.len - 1) * x.frob := by
  obtain ⟨A, B, hsnd, hw, c, k, τ, _, hlen, hτ, hcen, hfst⟩ := hx.weights_center hη h1 hr hD1 hD
  have hp : 0 < 1 - η := by linarith
  have hprod : ((A ++ B).map Prod.fst).prod = (1 + η) ^ (x.len - 1) * τ := by
    rw [hfst, ← hlen, show c + 1 + k - 1 = c + k by omega, pow_add]
    simp only [List.prod_append, List.prod_replicate, List.prod_cons]
    ring
  refine ⟨A, B, hsnd, hw, ?_, ?_⟩
  · rw [hprod]
    exact mul_nonneg (pow_nonneg (by linarith) _) hτ
  · rw [hprod, div_pow, div_mul_eq_mul_div, le_div_iff₀ (pow_pos hp _), mul_assoc]
    refine mul_le_mul_of_nonneg_left ?_ (pow_nonneg (by linarith) _)
    rw [mul_comm]
    exact hcen

/-- The factor in the error bound of `to_array`, for ranks up to `D` and `n` sites. -/
noncomputable def toArrayErr (ε : ℝ) (D n : ℕ) : ℝ := Real.sqrt D * ((1 + ε * D) ^ (n - 1) - 1)

theorem toArrayErr_nonneg {ε : ℝ} (hε : 0 ≤ ε) (D n : ℕ) : 0 ≤ toArrayErr ε D n := by
  have : (1 : ℝ) ≤ (1 + ε * D) ^ (n - 1) := one_le_pow₀ (le_add_of_nonneg_right (by positivity))
  exact mul_nonneg (Real.sqrt_nonneg _) (by linarith)

/-- C78: `to_array` of an MPA in canonical form (all sites but one are canonical up to `η`): the error is bounded relative to the norm
of the represented tensor. -/
theorem C78_to_array_canonical {ε η : ℝ} (hε : 0 ≤ ε) (hη : 0 ≤ η) (h1 : η < 1) {td : TDot 𝕜} (h : TdNear ε td) (x : MPA 𝕜)
    (hx : x.NearGood η) (hr : x.r = x.l + 1) {D : ℕ} (hD1 : 1 ≤ D) (hD : ∀ q ∈ x.ranks, q ≤ D) :
    ∃ A, x.toArrayF td = .ok A ∧ A.shape = x.shape.flatten ∧
      x.arrErr A ≤ toArrayErr ε D x.len * ((1 + η) / (1 - η)) ^ (x.len - 1) * x.frob := by
  obtain ⟨A, B, w1, w2, w3, w4⟩ := hx.weights hη h1 hr hD1 hD
  have hl : ∀ q ∈ A ++ B, q.2.IsLocal := fun q hq => hx.valid.chain.isLocal _ (by rw [← w1]; exact List.mem_map_of_mem hq)
  obtain ⟨X, g1, g2, g3⟩ := toArrayF_weights hε (Real.sqrt_nonneg D) (Real.sqrt_nonneg D) h hx.valid w1 w2.nonneg (w2.norm hl)
    (by
      intro pre mid post he
      obtain ⟨A', B', rfl, hw⟩ := w2.infix he
      exact hw.seg)
  refine ⟨X, g1, g2, g3.trans ?_⟩
  rw [show Real.sqrt D * (ε * Real.sqrt D) = ε * D by rw [mul_left_comm, Real.mul_self_sqrt (Nat.cast_nonneg _)], mul_assoc (toArrayErr _ _ _)]
  exact mul_le_mul_of_nonneg_left w4 (toArrayErr_nonneg hε _ _)

/-! ### `dot` -/

/-- A pair of sites with weights, the product of their tensors, and the computed product. -/
structure PItem (𝕜 : Type) where
  p : ℝ × NDArray 𝕜
  q : ℝ × NDArray 𝕜
  z : NDArray 𝕜
  z' : NDArray 𝕜

omit [RCLike 𝕜] in
theorem pitems {f g : NDArray 𝕜 → NDArray 𝕜 → Py (NDArray 𝕜)} {P : ℝ × NDArray 𝕜 → ℝ × NDArray 𝕜 → NDArray 𝕜 → NDArray 𝕜 → Prop}
    {wx wy : List (ℝ × NDArray 𝕜)} (hlen : wx.length = wy.length)
    (h : ∀ p q, (p, q) ∈ wx.zip wy → ∃ z z', f p.2 q.2 = .ok z ∧ g p.2 q.2 = .ok z' ∧ P p q z z') :
    ∃ is : List (PItem 𝕜), is.map PItem.p = wx ∧ is.map PItem.q = wy ∧
      zipM f (wx.map Prod.snd) (wy.map Prod.snd) = .ok (is.map PItem.z) ∧
      zipM g (wx.map Prod.snd) (wy.map Prod.snd) = .ok (is.map PItem.z') ∧ ∀ i ∈ is, P i.p i.q i.z i.z' := by
  induction wx generalizing wy with
  | nil =>
    cases wy with
    | nil => exact ⟨[], rfl, rfl, rfl, rfl, by simp⟩
    | cons q wy => simp at hlen
  | cons p wx ih =>
    cases wy with
    | nil => simp at hlen
    | cons q wy =>
      obtain ⟨z, z', h1, h2, h3⟩ := h p q (by simp)
      obtain ⟨is, g1, g2, g3, g4, g5⟩ := ih (by simpa using hlen) fun p q hm => h p q (by simp [hm])
      refine ⟨⟨p, q, z, z'⟩ :: is, by simp [g1], by simp [g2], ?_, ?_, ?_⟩
      · simp only [List.map_cons, zipM, h1, g3, ok_bind]; rfl
      · simp only [List.map_cons, zipM, h2, g4, ok_bind]; rfl
      · intro i hi
        rcases List.mem_cons.1 hi with rfl | hi
        · exact h3
        · exact g5 i hi

theorem zipM_inv {α β γ : Type} {f : α → β → Py γ} {ls : List α} {rs : List β} {zs : List γ} (h : zipM f ls rs = .ok zs) :
    ∀ l r, (l, r) ∈ ls.zip rs → ∃ z, f l r = .ok z := by
  induction ls generalizing rs zs with
  | nil => simp
  | cons a as ih =>
    cases rs with
    | nil => simp
    | cons b bs =>
      unfold zipM at h
      obtain ⟨c, h1, h⟩ := bind_ok_inv h
      obtain ⟨cs, h2, _⟩ := bind_ok_inv h
      intro l r hm
      rw [List.zip_cons_cons, List.mem_cons] at hm
      rcases hm with hm | hm
      · cases hm; exact ⟨c, h1⟩
      · exact ih h2 l r hm

/-- The norms of the tensors as weights. -/
noncomputable def frobWeights (ts : List (NDArray 𝕜)) : List (ℝ × NDArray 𝕜) := ts.map fun t => (npNorm t, t)

theorem frobWeights_snd (ts : List (NDArray 𝕜)) : (frobWeights ts).map Prod.snd = ts := by
  unfold frobWeights; rw [List.map_map]; exact List.map_id _

theorem frobWeights_fst (ts : List (NDArray 𝕜)) : (frobWeights ts).map Prod.fst = ts.map npNorm := by
  unfold frobWeights; rw [List.map_map]; rfl

theorem frobWeights_mem {ts : List (NDArray 𝕜)} {q : ℝ × NDArray 𝕜} (h : q ∈ frobWeights ts) : q.1 = npNorm q.2 ∧ q.2 ∈ ts := by
  obtain ⟨t, ht, rfl⟩ := List.mem_map.1 h
  exact ⟨rfl, ht⟩

omit [RCLike 𝕜] in
theorem zip_map_snd_mem {wx wy : List (ℝ × NDArray 𝕜)} {p q : ℝ × NDArray 𝕜} (h : (p, q) ∈ wx.zip wy) :
    (p.2, q.2) ∈ (wx.map Prod.snd).zip (wy.map Prod.snd) := by
  rw [List.zip_map]
  exact List.mem_map.2 ⟨(p, q), h, rfl⟩

/-- The items of a chain of products. -/
def PItem.item {𝕜 : Type} (i : PItem 𝕜) : FItem 𝕜 := ⟨i.p.1 * i.q.1, i.z, i.z'⟩

omit [RCLike 𝕜] in
theorem pitem_fprod (is : List (PItem 𝕜)) : fprod (is.map PItem.item) = ((is.map PItem.p).map Prod.fst).prod * ((is.map PItem.q).map Prod.fst).prod := by
  unfold fprod
  induction is with
  | nil => simp
  | cons i is ih =>
    simp only [List.map_cons, List.prod_cons] at ih ⊢
    rw [ih]
    simp only [PItem.item]
    ring

/-- Segments of a chain of products with the norms of the factors as weights. -/
theorem pitem_seg {is : List (PItem 𝕜)} (hl : ∀ i ∈ is, i.z.IsLocal) (hn : ∀ i ∈ is, npNorm i.z ≤ i.p.1 * i.q.1) :
    SegOp (fprod (is.map PItem.item)) ((is.map PItem.item).map FItem.t) := by
  have := segOp_norms (ts := is.map PItem.z) (ws := is.map fun i => (i.p.1 * i.q.1, i.z)) (by
    intro t ht
    obtain ⟨i, hi, rfl⟩ := List.mem_map.1 ht
    exact hl i hi) (by rw [List.map_map]; rfl) (by
    intro q hq
    obtain ⟨i, hi, rfl⟩ := List.mem_map.1 hq
    exact hn i hi)
  unfold fprod
  rw [List.map_map] at this
  rw [List.map_map, List.map_map]
  exact this

omit [RCLike 𝕜] in
theorem chained_same_shapes {ts us : List (NDArray 𝕜)} (h : List.Forall₂ (fun t u => u.shape = t.shape) ts us) {l r : ℕ}
    (hc : Chained l ts r) : Chained l us r ∧ us.map NDArray.ph = ts.map NDArray.ph ∧ us.map NDArray.lb = ts.map NDArray.lb := by
  induction h generalizing l with
  | nil => exact ⟨hc, rfl, rfl⟩
  | @cons t u ts us h1 _ ih =>
    obtain ⟨c1, c2, c3⟩ := hc
    have e1 : u.lb = t.lb := by unfold NDArray.lb; rw [h1]
    have e2 : u.rb = t.rb := by unfold NDArray.rb; rw [h1]
    have e3 : u.ph = t.ph := by unfold NDArray.ph; rw [h1]
    obtain ⟨i1, i2, i3⟩ := ih c3
    refine ⟨⟨?_, e1.trans c2, by rw [e2]; exact i1⟩, by simp [e3, i2], by simp [e1, i3]⟩
    unfold NDArray.IsLocal NDArray.ndim at *; rw [h1]; exact c1

/-- C78: `dot` succeeds for the same arguments as with exact arithmetic.  The result has the same shape, the same ranks and the same
(trivial) canonical form, every local tensor is as exact as `numpy.tensordot`, and the represented tensor differs by at most
`((1 + ε)^n - 1)` times the product of the norms of all local tensors. -/
theorem C78_dot {ε : ℝ} (hε : 0 ≤ ε) {td : TDot 𝕜} (h : TdNear ε td) (x y : MPA 𝕜) (axes : List ℤ × List ℤ) (hx : x.Valid) (hy : y.Valid)
    (ha : DotArgs x y axes) :
    ∃ z z', dot x y axes = .ok z ∧ dotF td x y axes = .ok z' ∧ z.Valid ∧ z'.Valid ∧ z'.shape = z.shape ∧ z'.ranks = z.ranks ∧
      z'.l = 0 ∧ z'.r = z'.len ∧
      (∀ n < x.len, ∀ t t' a b, z.lt[n]? = some t → z'.lt[n]? = some t' → x.lt[n]? = some a → y.lt[n]? = some b →
        arrDist t t' ≤ ε * (npNorm a * npNorm b)) ∧
      z.dist z' ≤ ((1 + ε) ^ x.len - 1) * ((x.lt.map npNorm).prod * (y.lt.map npNorm).prod) := by
  obtain ⟨z, hz, hzv, hzl, hzr, _⟩ := C08_dot x y axes hx hy ha
  have hz' := hz
  unfold dot at hz
  rw [pyAssert_true ha.len, ok_bind] at hz
  obtain ⟨zs, hzs, hz⟩ := bind_ok_inv hz
  have hex := zipM_inv hzs
  obtain ⟨is, i1, i2, i3, i4, i5⟩ := pitems (f := fun l r => localDot l r (axes.1.map adaptAxis, axes.2.map adaptAxis))
    (g := fun l r => localDotF td l r (axes.1.map adaptAxis, axes.2.map adaptAxis)) (wx := frobWeights x.lt) (wy := frobWeights y.lt)
    (P := fun p q z z' => p.1 = npNorm p.2 ∧ q.1 = npNorm q.2 ∧ z'.shape = z.shape ∧ npNorm z ≤ npNorm p.2 * npNorm q.2 ∧
      arrDist z z' ≤ ε * (npNorm p.2 * npNorm q.2))
    (by unfold frobWeights; rw [List.length_map, List.length_map]; exact ha.len) (by
      intro p q hm
      obtain ⟨hp, hq⟩ := List.of_mem_zip hm
      have hm' := zip_map_snd_mem hm
      rw [frobWeights_snd, frobWeights_snd] at hm'
      obtain ⟨w, hw⟩ := hex p.2 q.2 hm'
      obtain ⟨w', g1, g2, g3⟩ := localDotF_near h hw
      exact ⟨w, w', hw, g1, (frobWeights_mem hp).1, (frobWeights_mem hq).1, g2, localDot_norm hw, g3⟩)
  rw [frobWeights_snd, frobWeights_snd] at i3 i4
  rw [hzs] at i3
  cases i3
  have hzlt : z.lt = is.map PItem.z := by
    have hne : is.map PItem.z ≠ [] := by
      intro h0
      have : is = [] := by simpa using h0
      apply hx.ne
      rw [← frobWeights_snd x.lt, ← i1, this]; rfl
    unfold mkMPA mkLT at hz
    obtain ⟨_, _, hz⟩ := bind_ok_inv hz
    obtain ⟨_, _, hz⟩ := bind_ok_inv hz
    obtain ⟨_, _, hz⟩ := bind_ok_inv hz
    obtain ⟨_, _, hz⟩ := bind_ok_inv hz
    cases hz
    rfl
  have hne : is ≠ [] := by
    intro h0
    apply hzv.ne
    rw [hzlt, h0]; rfl
  have hsame : List.Forall₂ (fun t u : NDArray 𝕜 => u.shape = t.shape) (is.map PItem.z) (is.map PItem.z') := by
    rw [List.forall₂_map_left_iff, List.forall₂_map_right_iff, List.forall₂_same]
    exact fun i hi => (i5 i hi).2.2.1
  have hcz : Chained 1 (is.map PItem.z) 1 := by rw [← hzlt]; exact hzv.chain
  obtain ⟨c1, c2, c3⟩ := chained_same_shapes hsame hcz
  have hlen : is.length = x.len := by
    rw [MPA.len, ← frobWeights_snd x.lt, ← i1]; simp
  have hmk := mkMPA_ok (ts := is.map PItem.z') (by simpa using hne) c1
  have hv' : (⟨is.map PItem.z', 0, (is.map PItem.z').length⟩ : MPA 𝕜).Valid := valid_mk (by simpa using hne) c1
  have hsh : (⟨is.map PItem.z', 0, (is.map PItem.z').length⟩ : MPA 𝕜).shape = z.shape := by
    simp only [MPA.shape, hzlt]; exact c2
  refine ⟨z, ⟨is.map PItem.z', 0, (is.map PItem.z').length⟩, hz', ?_, hzv, hv', hsh, ?_, rfl, rfl, ?_, ?_⟩
  · unfold dotF
    rw [pyAssert_true ha.len, ok_bind, i4, ok_bind, hmk]
  · simp only [MPA.ranks, hzlt, List.map_tail] at c3 ⊢
    rw [c3]
  · intro n hn t t' a b h1 h2 h3 h4
    have hni : n < is.length := by omega
    rw [hzlt, List.getElem?_map, List.getElem?_eq_getElem hni] at h1
    rw [List.getElem?_map, List.getElem?_eq_getElem hni] at h2
    rw [← frobWeights_snd x.lt, ← i1, List.getElem?_map, List.getElem?_map, List.getElem?_eq_getElem hni] at h3
    rw [← frobWeights_snd y.lt, ← i2, List.getElem?_map, List.getElem?_map, List.getElem?_eq_getElem hni] at h4
    cases h1; cases h2; cases h3; cases h4
    exact (i5 _ (List.getElem_mem hni)).2.2.2.2
  · have e1 : (is.map PItem.item).map FItem.t = z.lt := by rw [hzlt, List.map_map]; rfl
    have e2 : (is.map PItem.item).map FItem.t' = is.map PItem.z' := by rw [List.map_map]; rfl
    obtain ⟨A, A', h1, h2, h3, h4, h5, h6⟩ := chainF_near (ε := 0) le_rfl hε zero_le_one zero_le_one C78_contract_exact
      (ts := is.map PItem.item) (by simpa using hne)
      (by
        intro q hq
        obtain ⟨i, hi, rfl⟩ := List.mem_map.1 hq
        obtain ⟨k1, k2, _⟩ := i5 i hi
        show 0 ≤ i.p.1 * i.q.1
        rw [k1, k2]
        exact mul_nonneg (npNorm_nonneg' _) (npNorm_nonneg' _))
      (by
        intro q hq
        obtain ⟨i, hi, rfl⟩ := List.mem_map.1 hq
        obtain ⟨k1, k2, k3, k4, k5⟩ := i5 i hi
        refine ⟨k3, ?_, ?_⟩
        · show npNorm i.z ≤ 1 * (i.p.1 * i.q.1)
          rw [k1, k2, one_mul]; exact k4
        · show arrDist i.z i.z' ≤ ε * (1 * (i.p.1 * i.q.1))
          rw [k1, k2, one_mul]; exact k5)
      (by
        intro pre mid post he
        obtain ⟨pre', r, hr, rfl, he2⟩ := List.map_eq_append_iff.1 he
        obtain ⟨mid', post', rfl, rfl, rfl⟩ := List.map_eq_append_iff.1 he2
        rw [one_mul]
        refine pitem_seg (fun i hi => ?_) fun i hi => ?_
        · exact hzv.chain.isLocal _ (by rw [hzlt]; exact List.mem_map_of_mem (by simp [hr, hi]))
        · obtain ⟨k1, k2, k3, k4, k5⟩ := i5 i (by simp [hr, hi])
          rw [k1, k2]; exact k4)
      (by rw [e1]; exact hzv.chain)
    rw [e1] at h1 h3 h4 h5
    rw [e2, ltensToArrayF_exact] at h2
    obtain ⟨A'', b1, b2, b3⟩ := C01_to_array _ hv'
    have : A'' = A' := by
      have : (Except.ok A'' : Py (NDArray 𝕜)) = .ok A' := b1.symm.trans h2
      cases this; rfl
    subst this
    have hd : z.dist ⟨is.map PItem.z', 0, (is.map PItem.z').length⟩ = arrDist A A'' := by
      rw [← arrErr_eq (x := z) (A := A) h3 h5]
      unfold MPA.dist MPA.arrErr
      congr 1
      exact sumSites_congr fun i hi => by rw [b3 i (by rw [hsh]; exact hi)]
    rw [hd]
    refine h6.trans (le_of_eq ?_)
    rw [pitem_fprod, i1, i2, frobWeights_fst, frobWeights_fst, List.length_map, hlen]
    have hx1 : x.len = (x.len - 1) + 1 := by have := List.length_pos_of_ne_nil hx.ne; unfold MPA.len; omega
    conv_rhs => rw [hx1, pow_succ]
    ring

end Mpnum
