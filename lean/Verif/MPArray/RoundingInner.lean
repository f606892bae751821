import Verif.MPArray.RoundingSeg

/-! Norms and operator norms of the products in `dot` and `inner`, and the contraction of chains from the first tensor on. -/

open Finset

namespace Mpnum

variable {𝕜 : Type} [RCLike 𝕜]

/-! ### the norm of `numpy.tensordot` -/

/-- The array of zeros with the shape of `a`. -/
def zeroLike (a : NDArray 𝕜) : NDArray 𝕜 := ⟨a.shape, fun _ => 0⟩

theorem arrDist_zeroLike (a : NDArray 𝕜) : arrDist a (zeroLike a) = npNorm a := by
  unfold arrDist npNorm
  simp [zeroLike]

theorem asm_perm {n : ℕ} {ax : List ℕ} (h : ∀ p ∈ ax, p < n) (hn : ax.Nodup) :
    (ax ++ NDArray.freeAxes n ax).Perm (List.range n) := by
  refine (List.perm_ext_iff_of_nodup ?_ List.nodup_range).2 fun p => ?_
  · rw [List.nodup_append']
    refine ⟨hn, List.nodup_range.filter _, fun p h1 h2 => ?_⟩
    simp [NDArray.freeAxes] at h2
    exact h2.2 h1
  · simp only [List.mem_append, NDArray.freeAxes, List.mem_filter, List.mem_range, decide_eq_true_eq]
    constructor
    · rintro (h1 | h1)
      · exact h p h1
      · exact h1.1
    · intro h1
      by_cases h2 : p ∈ ax
      · exact .inl h2
      · exact .inr ⟨h1, h2⟩

/-- The squares of all entries, by the indices of some axes and those of the other axes. -/
theorem nsq_asm (a : NDArray 𝕜) {ax : List ℕ} (h : ∀ p ∈ ax, p < a.ndim) (hn : ax.Nodup) :
    nsq a = ∑ f ∈ idxSet ((NDArray.freeAxes a.ndim ax).map fun p => a.shape.getD p 0), ∑ k ∈ idxSet (ax.map fun p => a.shape.getD p 0),
      ‖a.get (NDArray.asm a.ndim ax k f)‖ ^ 2 := by
  have e := arrDist_transposeTo (a := a) (b := zeroLike a) rfl (asm_perm h hn)
  have e2 : arrDist a (zeroLike a) ^ 2 = nsq a := by rw [arrDist_zeroLike, npNorm_sq]
  rw [← e2, ← e, arrDist_sq, NDArray.transposeTo_shape, List.map_append, sum_idxSet_append, Finset.sum_comm]
  refine Finset.sum_congr rfl fun f _ => Finset.sum_congr rfl fun k _ => ?_
  simp only [NDArray.transposeTo, zeroLike, sub_zero, NDArray.asm]

theorem mapM_pyIndex_lt {n : ℕ} {ax : List ℤ} {pa : List ℕ} (h : ax.mapM (pyIndex n) = .ok pa) : ∀ p ∈ pa, p < n := by
  intro p hp
  have hf := mapM_ok_iff.1 h
  obtain ⟨i, hi, rfl⟩ := List.mem_iff_getElem.1 hp
  exact pyIndex_lt ((List.forall₂_iff_get.1 hf).2 i (by rw [hf.length_eq]; exact hi) hi)

theorem tensordot_inv {R : Type} [AddCommMonoid R] [Mul R] {a b c : NDArray R} {axa axb : List ℤ} (h : a.tensordot b axa axb = .ok c) :
    ∃ pa pb, axa.mapM (pyIndex a.ndim) = .ok pa ∧ axb.mapM (pyIndex b.ndim) = .ok pb ∧
      ((pa.map fun p => a.shape.getD p 0) = (pb.map fun p => b.shape.getD p 0) ∧ pa.Nodup ∧ pb.Nodup) ∧ c = a.tensordotTo b pa pb := by
  unfold NDArray.tensordot at h
  obtain ⟨pa, h1, h⟩ := bind_ok_inv h
  obtain ⟨pb, h2, h⟩ := bind_ok_inv h
  split at h
  · rename_i h3
    cases h
    exact ⟨pa, pb, h1, h2, h3, rfl⟩
  · cases h

/-- The array of the absolute values. -/
noncomputable def absArr (a : NDArray 𝕜) : NDArray ℝ := ⟨a.shape, fun i => ‖a.get i‖⟩

/-- A bound for every entry in terms of the product of the absolute values is a bound for the norm. -/
theorem tensordot_bound {a b c : NDArray 𝕜} {axa axb : List ℤ} (h : a.tensordot b axa axb = .ok c) :
    ∃ d, (absArr a).tensordot (absArr b) axa axb = .ok d ∧ d.shape = c.shape ∧ (∀ i, ‖c.get i‖ ≤ d.get i) ∧
      ∑ i ∈ idxSet c.shape, d.get i ^ 2 ≤ nsq a * nsq b := by
  obtain ⟨pa, pb, h1, h2, h3, rfl⟩ := tensordot_inv h
  refine ⟨(absArr a).tensordotTo (absArr b) pa pb, ?_, rfl, fun i => ?_, ?_⟩
  · unfold NDArray.tensordot
    rw [show (absArr a).ndim = a.ndim from rfl, show (absArr b).ndim = b.ndim from rfl, h1, ok_bind, h2, ok_bind]
    exact if_pos h3
  · show ‖sumIdx _ _‖ ≤ sumIdx _ _
    rw [sumIdx_eq_sum, sumIdx_eq_sum]
    refine (norm_sum_le _ _).trans (le_of_eq (Finset.sum_congr rfl fun k _ => ?_))
    rw [norm_mul]; rfl
  · rw [nsq_asm a (mapM_pyIndex_lt h1) h3.2.1, nsq_asm b (mapM_pyIndex_lt h2) h3.2.2, Finset.sum_mul_sum]
    show ∑ i ∈ idxSet (_ ++ _), _ ≤ _
    rw [sum_idxSet_append]
    refine Finset.sum_le_sum fun f hf => Finset.sum_le_sum fun g hg => ?_
    have hfl : f.length = (NDArray.freeAxes a.ndim pa).length := by simpa using inB_length (mem_idxSet.1 hf)
    show (sumIdx _ _) ^ 2 ≤ _
    rw [sumIdx_eq_sum, ← h3.1]
    refine le_trans (le_of_eq ?_) (Finset.sum_mul_sq_le_sq_mul_sq _ _ _)
    congr 1
    refine Finset.sum_congr rfl fun k _ => ?_
    rw [show (f ++ g).take (NDArray.freeAxes (absArr a).ndim pa).length = f by
        rw [show (absArr a).ndim = a.ndim from rfl, ← hfl]; simp,
      show (f ++ g).drop (NDArray.freeAxes (absArr a).ndim pa).length = g by
        rw [show (absArr a).ndim = a.ndim from rfl, ← hfl]; simp]
    rfl

theorem tensordot_norm {a b c : NDArray 𝕜} {axa axb : List ℤ} (h : a.tensordot b axa axb = .ok c) :
    npNorm c ≤ npNorm a * npNorm b := by
  obtain ⟨d, _, _, h3, h4⟩ := tensordot_bound h
  refine (abs_le_of_sq_le_sq' ?_ (mul_nonneg (npNorm_nonneg' _) (npNorm_nonneg' _))).2
  rw [mul_pow, npNorm_sq, npNorm_sq, npNorm_sq]
  refine le_trans ?_ h4
  unfold nsq
  rw [sumIdx_eq_sum]
  exact Finset.sum_le_sum fun i _ => pow_le_pow_left₀ (norm_nonneg _) (h3 i) 2

theorem localDot_norm {l r z : NDArray 𝕜} {axes : List ℤ × List ℤ} (hz : localDot l r axes = .ok z) :
    npNorm z ≤ npNorm l * npNorm r := by
  unfold localDot at hz
  obtain ⟨_, h0, hz⟩ := bind_ok_inv hz
  obtain ⟨t, h1, hz⟩ := bind_ok_inv hz
  obtain ⟨u, h2, hz⟩ := bind_ok_inv hz
  obtain ⟨v, h3, hz⟩ := bind_ok_inv hz
  have key : ∀ {a b c : NDArray 𝕜}, b.shape = a.shape → (∀ i, b.get i = 0) → arrDist a b = npNorm a := by
    intro a b _ _ hg
    unfold arrDist npNorm
    simp [hg]
  obtain ⟨u', k1, k2, k3⟩ := rollaxis_dist (a := t) (b := zeroLike t) rfl h2
  have hu : ∀ i, u'.get i = 0 := by
    unfold NDArray.rollaxis at k1
    split at k1
    · cases k1; intro i; rfl
    · cases k1
  obtain ⟨v', k4, k5, k6⟩ := rollaxis_dist k2 h3
  have hv : ∀ i, v'.get i = 0 := by
    unfold NDArray.rollaxis at k4
    split at k4
    · cases k4; intro i; exact hu _
    · cases k4
  obtain ⟨z', k7, k8, k9⟩ := reshape_dist k5 hz
  have hz' : ∀ i, z'.get i = 0 := by
    unfold NDArray.reshape at k7
    cases hr : NDArray.resolveShape v'.size ((l.lb * r.lb :: ((v.shape.drop 2).take (v.ndim - 4) ++ [l.rb * r.rb])).map
        fun n : ℕ => (n : ℤ)) with
    | error e => rw [hr] at k7; cases k7
    | ok s => rw [hr] at k7; cases k7; intro i; exact hv _
  rw [← key (c := z) k8 hz', k9, k6, k3, arrDist_zeroLike]
  exact tensordot_norm h1

/-! ### the factors of `inner` -/

theorem conj_npNorm (t : NDArray 𝕜) : npNorm t.conj = npNorm t := by
  unfold npNorm
  simp only [NDArray.conj, norm_star]

theorem localRavel_norm {t u : NDArray 𝕜} (h : t.IsLocal) (hp : 0 < t.lb * t.rb) (hu : localRavel t = .ok u) : npNorm u = npNorm t := by
  obtain ⟨u', h1, h2, h3⟩ := localRavel_ok h hp
  rw [hu] at h1
  cases h1
  show Real.sqrt (nsq u) = Real.sqrt (nsq t)
  rw [nsq_local h, nsq_local (NDArray.isLocal_of_shape h2), NDArray.lb_of_shape h2, NDArray.ph_of_shape h2, NDArray.rb_of_shape h2]
  congr 1
  refine Finset.sum_congr rfl fun a ha => ?_
  rw [← sum_unravel t.ph]
  show ∑ i ∈ range t.ph.prod, _ = _
  refine Finset.sum_congr rfl fun i hi => Finset.sum_congr rfl fun b hb => ?_
  have := h3 a (by simpa using ha) b (by simpa using hb) i (by simpa using hi)
  rw [← this]

/-- One factor of `inner` in inexact arithmetic. -/
theorem localInnerF_ok {ε : ℝ} {td : TDot 𝕜} (h : TdNear ε td) {l r : NDArray 𝕜} (hl : l.IsLocal) (hr : r.IsLocal)
    (hpl : 0 < l.lb * l.rb) (hpr : 0 < r.lb * r.rb) (hph : l.ph = r.ph) :
    ∃ z z', (do
        let l' ← localRavel l
        let r' ← localRavel r
        localDot l'.conj r' ([1], [1]) : Py (NDArray 𝕜)) = .ok z ∧
      (do
        let l' ← localRavel l
        let r' ← localRavel r
        localDotF td l'.conj r' ([1], [1]) : Py (NDArray 𝕜)) = .ok z' ∧
      PSite.OK ⟨l.conj, r, z, l.ph, [], [], fun k _ => k, fun k _ => k⟩ ∧ z'.shape = z.shape ∧
      npNorm z ≤ npNorm l * npNorm r ∧ arrDist z z' ≤ ε * (npNorm l * npNorm r) := by
  obtain ⟨z, h1, h2⟩ := localInner_ok hl hr hpl hpr hph
  have h1' := h1
  obtain ⟨l', g1, h1⟩ := bind_ok_inv h1
  obtain ⟨r', g2, h1⟩ := bind_ok_inv h1
  obtain ⟨z', k1, k2, k3⟩ := localDotF_near h h1
  have k4 := localDot_norm h1
  rw [conj_npNorm, localRavel_norm hl hpl g1, localRavel_norm hr hpr g2] at k3 k4
  exact ⟨z, z', h1', by rw [g1, ok_bind, g2, ok_bind, k1], h2, k2, k4, k3⟩

/-! ### the operator norm of the chain of `inner` -/

theorem chained_unique {R : Type} {ts : List (NDArray R)} (hne : ts ≠ []) {l m l' m' : ℕ} (h : Chained l ts m) (h' : Chained l' ts m') :
    l = l' ∧ m = m' := by
  induction ts generalizing l l' with
  | nil => exact absurd rfl hne
  | cons t ts ih =>
    obtain ⟨_, h2, h3⟩ := h
    obtain ⟨_, g2, g3⟩ := h'
    refine ⟨h2.symm.trans g2, ?_⟩
    by_cases hn : ts = []
    · subst hn
      rw [chained_nil] at h3 g3
      exact h3.symm.trans g3
    · exact (ih hn h3 g3).2

theorem siteSet_nils (n : ℕ) : siteSet (List.replicate n ([] : List ℕ)) = {List.replicate n []} := by
  ext i
  rw [mem_siteSet, Finset.mem_singleton]
  constructor
  · intro h
    induction n generalizing i with
    | zero => cases h; rfl
    | succ n ih =>
      rw [List.replicate_succ] at h ⊢
      cases h with
      | cons a b => cases a; rw [ih _ b]
  · rintro rfl
    induction n with
    | zero => exact .nil
    | succ n ih => exact .cons .nil ih

theorem segOp_inner {c d : ℝ} {ts : List (NDArray 𝕜 × NDArray 𝕜 × NDArray 𝕜)}
    (hP : ∀ t ∈ ts, PSite.OK ⟨t.1.conj, t.2.1, t.2.2, t.1.ph, [], [], fun k _ => k, fun k _ => k⟩)
    (hph : ∀ t ∈ ts, t.1.ph = t.2.1.ph) (hne : ts ≠ []) {lL rL lR rR : ℕ} (hx : Chained lL (ts.map fun t => t.1) rL)
    (hy : Chained lR (ts.map fun t => t.2.1) rR) (hc : SegOp c (ts.map fun t => t.1)) (hd : LSegOp d (ts.map fun t => t.2.1)) :
    SegOp (c * d) (ts.map fun t => t.2.2) := by
  intro l m hm v
  set g : NDArray 𝕜 × NDArray 𝕜 × NDArray 𝕜 → PSite 𝕜 := fun t =>
    ⟨t.1.conj, t.2.1, t.2.2, t.1.ph, [], [], fun k _ => k, fun k _ => k⟩ with hg
  set X := ts.map fun t => t.1 with hX
  set Y := ts.map fun t => t.2.1 with hY
  have hok : ∀ s ∈ ts.map g, s.OK := by
    intro s hs
    obtain ⟨t, ht, rfl⟩ := List.mem_map.1 hs
    exact hP t ht
  have e1 : (ts.map g).map PSite.l = X.map NDArray.conj := by rw [hX, List.map_map, List.map_map]; rfl
  have e2 : (ts.map g).map PSite.r = Y := by rw [List.map_map, hY]; rfl
  have e3 : (ts.map g).map PSite.z = ts.map fun t => t.2.2 := by rw [List.map_map]; rfl
  have e4 : (ts.map g).map PSite.SL = List.replicate ts.length [] := by rw [List.map_map]; exact List.map_const
  have e5 : (ts.map g).map PSite.SR = List.replicate ts.length [] := by rw [List.map_map]; exact List.map_const
  have e6 : (ts.map g).map PSite.K = physShape X := by rw [physShape, hX, List.map_map, List.map_map]; rfl
  have e7 : physShape Y = physShape X := by
    rw [physShape, physShape, hX, hY, List.map_map, List.map_map]
    exact List.map_congr_left fun t ht => (hph t ht).symm
  have hcx : Chained lL (X.map NDArray.conj) rL := chained_map_same conj_shape hx
  obtain ⟨hz, hsh⟩ := chained_prod hok (by rw [e1]; exact hcx) (by rw [e2]; exact hy)
  rw [e3] at hz hsh
  rw [e4, e5, show List.zipWith (· ++ ·) (List.replicate ts.length ([] : List ℕ)) (List.replicate ts.length [])
      = List.replicate ts.length [] by simp] at hsh
  obtain ⟨rfl, rfl⟩ := chained_unique (by simpa using hne) hm hz
  have hnil : IdxOK (List.replicate ts.length []) (List.replicate ts.length []) := by
    rw [← mem_siteSet, siteSet_nils]; simp
  have hent : ∀ a < lL, ∀ a' < lR, ∀ b < rL, ∀ b' < rR,
      mp (ts.map fun t => t.2.2) (List.replicate ts.length []) (a * lR + a') (b * rR + b')
        = ∑ k ∈ siteSet (physShape X), star (mp X k a b) * mp Y k a' b' := by
    intro a ha a' ha' b hb b' hb'
    have := mp_prod hok (by rw [e1]; exact hcx) (by rw [e2]; exact hy) (by rw [e4]; exact hnil) (by rw [e5]; exact hnil) ha ha' hb hb'
    rw [e1, e2, e3, e6, show List.zipWith (· ++ ·) (List.replicate ts.length ([] : List ℕ)) (List.replicate ts.length [])
      = List.replicate ts.length [] by simp, sumSites_eq_sum] at this
    rw [this]
    refine Finset.sum_congr rfl fun i hi => ?_
    have hil : i.length = ts.length := by rw [chain_len hi, hX]; simp
    rw [pidx_id (fun _ _ _ => rfl) ts i _ hil (by simp), pidx_id (fun _ _ _ => rfl) ts i _ hil (by simp), ← star_mp]
  rw [hsh, siteSet_nils, Finset.sum_singleton, sum_range_mul, sum_range_mul]
  set W : ℕ → List (List ℕ) → ℕ → 𝕜 := fun a' k b => ∑ a ∈ range lL, v (a * lR + a') * star (mp X k a b) with hW
  calc _ = ∑ b ∈ range rL, ∑ b' ∈ range rR, ‖∑ q ∈ range lR ×ˢ siteSet (physShape X), W q.1 q.2 b * mp Y q.2 q.1 b'‖ ^ 2 := by
        refine Finset.sum_congr rfl fun b hb => Finset.sum_congr rfl fun b' hb' => ?_
        congr 2
        rw [sum_range_mul, Finset.sum_product, Finset.sum_comm]
        refine Finset.sum_congr rfl fun a' ha' => ?_
        simp only [hW, Finset.sum_mul]
        rw [Finset.sum_comm (s := siteSet (physShape X))]
        refine Finset.sum_congr rfl fun a ha => ?_
        rw [hent a (by simpa using ha) a' (by simpa using ha') b (by simpa using hb) b' (by simpa using hb'), Finset.mul_sum]
        exact Finset.sum_congr rfl fun k _ => by ring
    _ ≤ ∑ b ∈ range rL, d ^ 2 * ∑ q ∈ range lR ×ˢ siteSet (physShape X), ‖W q.1 q.2 b‖ ^ 2 := by
        refine Finset.sum_le_sum fun b _ => ?_
        refine op_transpose (I := range lR ×ˢ siteSet (physShape X)) (T := fun q b' => mp Y q.2 q.1 b') (fun w => ?_) fun q => W q.1 q.2 b
        rw [Finset.sum_product, ← e7]
        exact hd lR rR hy w
    _ = d ^ 2 * ∑ a' ∈ range lR, ∑ k ∈ siteSet (physShape X), ∑ b ∈ range rL, ‖W a' k b‖ ^ 2 := by
        rw [← Finset.mul_sum, Finset.sum_comm, Finset.sum_product]
    _ ≤ d ^ 2 * ∑ a' ∈ range lR, c ^ 2 * ∑ a ∈ range lL, ‖v (a * lR + a')‖ ^ 2 := by
        refine mul_le_mul_of_nonneg_left (Finset.sum_le_sum fun a' _ => ?_) (sq_nonneg _)
        have := hc lL rL hx fun a => star (v (a * lR + a'))
        simp only [norm_star] at this
        refine le_trans (le_of_eq ?_) this
        refine Finset.sum_congr rfl fun k _ => Finset.sum_congr rfl fun b _ => ?_
        rw [← norm_star, hW]
        simp only [star_sum, star_mul, star_star]
        congr 2
        exact Finset.sum_congr rfl fun a _ => mul_comm _ _
    _ = _ := by
        rw [← Finset.mul_sum, Finset.sum_comm]; ring

/-! ### the contraction of a chain from its first tensor on -/

theorem ltensF_near {ε ε₂ κ ν : ℝ} (hε : 0 ≤ ε) (hε₂ : 0 ≤ ε₂) (hκ : 0 ≤ κ) (hν : 0 ≤ ν) {td : TDot 𝕜} (h : TdNear ε td)
    {ts : List (FItem 𝕜)} (hne : ts ≠ []) (hs : ∀ q ∈ ts, 0 ≤ q.s)
    (hq : ∀ q ∈ ts, q.t'.shape = q.t.shape ∧ npNorm q.t ≤ ν * q.s ∧ arrDist q.t q.t' ≤ ε₂ * (ν * q.s))
    (hseg : ∀ pre mid post, ts = pre ++ (mid ++ post) → SegOp (κ * fprod mid) (mid.map FItem.t)) {r : ℕ}
    (hc : Chained 1 (ts.map FItem.t) r) :
    ∃ Y Y', ltensToArray (ts.map FItem.t) = .ok Y ∧ ltensToArrayF td (ts.map FItem.t') = .ok Y' ∧ Y'.shape = Y.shape ∧
      arrDist Y Y' ≤ κ * ((1 + ε₂ * ν) * (1 + κ * (((1 + ε) * (1 + ε₂) - 1) * ν)) ^ (ts.length - 1) - 1) * fprod ts := by
  cases ts with
  | nil => exact absurd rfl hne
  | cons q ts =>
    rw [List.map_cons] at hc
    obtain ⟨hloc, hlb, hc⟩ := hc
    obtain ⟨hqs, hqn, hqd⟩ := hq q List.mem_cons_self
    have hs0 := hs q List.mem_cons_self
    have hsh : q.t.shape = (1 :: q.t.ph) ++ [q.t.rb] := by rw [NDArray.shape_local hloc, hlb]; rfl
    have hseg' : ∀ pre mid post, ts = pre ++ (mid ++ post) → SegOp (κ * fprod mid) (mid.map FItem.t) :=
      fun pre mid post he => hseg (q :: pre) mid post (by rw [he]; rfl)
    have hbe : Bd ts (1 :: q.t.ph) q.t.rb (fun i x => q.t'.get (i ++ [x]) - q.t.get (i ++ [x])) (κ * (ε₂ * (ν * q.s))) := by
      refine Bd.of_norm (fun pre post he => hseg' [] pre post he) ?_
      refine le_trans (le_of_eq ?_) (pow_le_pow_left₀ (arrDist_nonneg _ _) hqd 2)
      rw [arrDist_sq, hsh, sum_idxSet_append]
      refine Finset.sum_congr rfl fun i _ => ?_
      rw [← sumIdx_eq_sum]
      show _ = ∑ x ∈ range q.t.rb, _
      exact Finset.sum_congr rfl fun x _ => by rw [norm_sub_rev]; rfl
    have hb0 : Bd ts (1 :: q.t.ph) q.t.rb (fun i x => q.t.get (i ++ [x])) (κ * q.s) := by
      intro pre post he m hm
      have := hseg [] (q :: pre) post (by rw [he]; rfl) 1 m (by
        rw [List.map_cons]; exact ⟨hloc, hlb, hm⟩) fun _ => 1
      rw [fprod_cons] at this
      simp only [Finset.sum_range_one, norm_one, one_pow, mul_one, one_mul, List.map_cons] at this
      rw [show physShape (q.t :: pre.map FItem.t) = q.t.ph :: physShape (pre.map FItem.t) from rfl, sum_siteSet_cons] at this
      rw [mul_assoc]
      refine le_trans (le_of_eq ?_) this
      rw [← sumIdx_eq_sum, sumIdx_cons, Finset.sum_range_one, sumIdx_eq_sum]
      refine Finset.sum_congr rfl fun p _ => Finset.sum_congr rfl fun I _ => Finset.sum_congr rfl fun b _ => ?_
      rw [mp_cons]
      rfl
    have hbn : Bd ts (1 :: q.t.ph) q.t.rb (fun i x => q.t'.get (i ++ [x])) (κ * q.s + κ * (ε₂ * (ν * q.s))) := by
      refine (Bd.add (fun p hp => hs p (List.mem_cons_of_mem _ hp)) (by positivity) (by positivity) hb0 hbe).congr fun i _ x _ => ?_
      ring
    obtain ⟨Y, Y', h1, h2, h3, h4⟩ := foldF_near hε hε₂ hκ hν (h.md hε) (fun p hp => hs p (List.mem_cons_of_mem _ hp))
      (fun p hp => hq p (List.mem_cons_of_mem _ hp)) hseg' hc hsh (by rw [hqs]; exact hsh) (by positivity) (by positivity) hbe hbn
    refine ⟨Y, Y', h1, h2, h3, h4.trans (le_of_eq ?_)⟩
    rw [fprod_cons, List.length_cons, Nat.add_sub_cancel]
    ring

theorem dropBonds_dist {Y Y' B : NDArray 𝕜} {s : List ℕ} (hs : Y.shape = 1 :: (s ++ [1])) (hs' : Y'.shape = Y.shape)
    (h : Y.dropBonds = .ok B) : ∃ B', Y'.dropBonds = .ok B' ∧ B.shape = s ∧ B'.shape = s ∧ arrDist B B' = arrDist Y Y' := by
  unfold NDArray.dropBonds at h ⊢
  split at h
  · rename_i hc
    cases h
    rw [if_pos (by unfold NDArray.ndim at hc ⊢; rw [hs']; exact hc)]
    have e : Y.shape.tail.dropLast = s := by rw [hs]; simp
    refine ⟨_, rfl, e, by simp only; rw [hs', e], ?_⟩
    unfold arrDist
    simp only
    rw [e, hs, sumIdx_cons, Finset.sum_range_one, sumIdx_append]
    congr 1
    refine sumIdx_congr fun i _ => ?_
    show _ = ∑ x ∈ range 1, _
    rw [Finset.sum_range_one]
    rfl
  · cases h

end Mpnum
