import Verif.Props.C78

/-! C78, continued: `inner` in floating point arithmetic, and first-order bounds. -/

open Finset

namespace Mpnum

variable {𝕜 : Type} [RCLike 𝕜]

omit [RCLike 𝕜] in
theorem MPA.bonds_pos {x : MPA 𝕜} (hx : x.Valid) (hr : ∀ r ∈ x.ranks, 0 < r) : ∀ t ∈ x.lt, 0 < t.lb * t.rb := by
  have aux : ∀ (l r : ℕ) (ts : List (NDArray 𝕜)), 0 < l → 0 < r → Chained l ts r →
      (∀ q ∈ ts.tail.map NDArray.lb, 0 < q) → ∀ t ∈ ts, 0 < t.lb * t.rb := by
    intro l r ts
    induction ts generalizing l with
    | nil => intro _ _ _ _ t ht; simp at ht
    | cons u us ih =>
      intro hl hr hc hq t ht
      obtain ⟨_, h2, h3⟩ := hc
      have hub : 0 < u.rb := by
        cases us with
        | nil => simp only [chained_nil] at h3; omega
        | cons w ws =>
          have := hq w.lb (by simp)
          have := h3.2.1; omega
      rcases List.mem_cons.1 ht with rfl | ht
      · rw [h2]; exact Nat.mul_pos hl hub
      · exact ih u.rb hub hr h3 (fun q hq' => hq q (by
          cases us with
          | nil => simp at hq'
          | cons w ws => simp only [List.tail_cons, List.map_cons] at hq' ⊢; simp [hq'])) t ht
  exact aux 1 1 x.lt one_pos one_pos hx.chain hr

omit [RCLike 𝕜] in
/-- A segment of a chain is a chain. -/
theorem Chained.infix {l r : ℕ} {pre mid post : List (NDArray 𝕜)} (h : Chained l (pre ++ (mid ++ post)) r) : ∃ a b, Chained a mid b := by
  obtain ⟨k, _, h2⟩ := chained_append.1 h
  obtain ⟨m, h3, _⟩ := chained_append.1 h2
  exact ⟨k, m, h3⟩

/-- `inner` with weights. -/
theorem innerF_weights {ε κ₁ κ₂ ν₁ ν₂ : ℝ} (hε : 0 ≤ ε) (hκ₁ : 1 ≤ κ₁) (hκ₂ : 1 ≤ κ₂) (hν₁ : 0 ≤ ν₁) (hν₂ : 0 ≤ ν₂) {td : TDot 𝕜}
    (h : TdNear ε td) {x y : MPA 𝕜} (hx : x.Valid) (hy : y.Valid) (hs : x.shape = y.shape) (hpx : ∀ r ∈ x.ranks, 0 < r)
    (hpy : ∀ r ∈ y.ranks, 0 < r) {wx wy : List (ℝ × NDArray 𝕜)} (hwx : wx.map Prod.snd = x.lt) (hwy : wy.map Prod.snd = y.lt)
    (h0x : ∀ q ∈ wx, 0 ≤ q.1) (h0y : ∀ q ∈ wy, 0 ≤ q.1) (hnx : ∀ q ∈ wx, npNorm q.2 ≤ ν₁ * q.1) (hny : ∀ q ∈ wy, npNorm q.2 ≤ ν₂ * q.1)
    (hsx : ∀ pre mid post, wx = pre ++ (mid ++ post) → SegOp (κ₁ * (mid.map Prod.fst).prod) (mid.map Prod.snd))
    (hsy : ∀ pre mid post, wy = pre ++ (mid ++ post) → LSegOp (κ₂ * (mid.map Prod.fst).prod) (mid.map Prod.snd)) :
    ∃ s, innerF td x y = .ok s ∧ ‖(sumSites x.shape fun i => star (x.val i) * y.val i) - s‖ ≤
      κ₁ * κ₂ * ((1 + ε * (ν₁ * ν₂)) * (1 + κ₁ * κ₂ * (((1 + ε) * (1 + ε) - 1) * (ν₁ * ν₂))) ^ (x.len - 1) - 1)
        * ((wx.map Prod.fst).prod * (wy.map Prod.fst).prod) := by
  have hlen : x.len = y.len := by have := congrArg List.length hs; simpa [MPA.shape, MPA.len] using this
  have hphz : ∀ l r, (l, r) ∈ x.lt.zip y.lt → l.ph = r.ph := by
    intro l r hm
    obtain ⟨n, hn, he⟩ := List.mem_iff_getElem.1 hm
    simp only [List.getElem_zip, Prod.mk.injEq] at he
    have h1 : n < x.lt.length := by simp at hn; omega
    have h2 : n < y.lt.length := by simp at hn; omega
    have := congrArg (fun q => q[n]?) hs
    simp only [MPA.shape, List.getElem?_map, List.getElem?_eq_getElem h1,
      List.getElem?_eq_getElem h2, he.1, he.2, Option.map_some, Option.some.injEq] at this
    exact this
  have hwl : wx.length = wy.length := by
    have h1 : wx.length = x.len := by rw [MPA.len, ← hwx]; simp
    have h2 : wy.length = y.len := by rw [MPA.len, ← hwy]; simp
    omega
  obtain ⟨is, i1, i2, i3, i4, i5⟩ := pitems (wx := wx) (wy := wy) (f := fun l r => (do
        let l' ← localRavel l
        let r' ← localRavel r
        localDot l'.conj r' ([1], [1]) : Py (NDArray 𝕜)))
    (g := fun l r => (do
        let l' ← localRavel l
        let r' ← localRavel r
        localDotF td l'.conj r' ([1], [1]) : Py (NDArray 𝕜)))
    (P := fun p q z z' => 0 ≤ p.1 ∧ 0 ≤ q.1 ∧ p.2.ph = q.2.ph ∧
      PSite.OK ⟨p.2.conj, q.2, z, p.2.ph, [], [], fun k _ => k, fun k _ => k⟩ ∧ z'.shape = z.shape ∧
      npNorm z ≤ ν₁ * ν₂ * (p.1 * q.1) ∧ arrDist z z' ≤ ε * (ν₁ * ν₂ * (p.1 * q.1))) hwl (by
      intro p q hm
      obtain ⟨hp, hq⟩ := List.of_mem_zip hm
      have hm' := zip_map_snd_mem hm
      rw [hwx, hwy] at hm'
      obtain ⟨hml, hmr⟩ := List.of_mem_zip hm'
      have hph := hphz _ _ hm'
      obtain ⟨z, z', k1, k2, k3, k4, k5, k6⟩ := localInnerF_ok h (hx.chain.isLocal _ hml) (hy.chain.isLocal _ hmr)
        (MPA.bonds_pos hx hpx _ hml) (MPA.bonds_pos hy hpy _ hmr) hph
      have hb : npNorm p.2 * npNorm q.2 ≤ ν₁ * ν₂ * (p.1 * q.1) := by
        calc _ ≤ (ν₁ * p.1) * (ν₂ * q.1) := mul_le_mul (hnx p hp) (hny q hq) (npNorm_nonneg' _) (mul_nonneg hν₁ (h0x p hp))
          _ = _ := by ring
      exact ⟨z, z', k1, k2, h0x p hp, h0y q hq, hph, k3, k4, k5.trans hb, k6.trans (mul_le_mul_of_nonneg_left hb hε)⟩)
  rw [hwx, hwy] at i3 i4
  have ex : is.map (fun i => i.p.2) = x.lt := by rw [← hwx, ← i1, List.map_map]; rfl
  have ey : is.map (fun i => i.q.2) = y.lt := by rw [← hwy, ← i2, List.map_map]; rfl
  have hne : is ≠ [] := by
    intro h0
    apply hx.ne
    rw [← ex, h0]; rfl
  set g : PItem 𝕜 → PSite 𝕜 := fun i => ⟨i.p.2.conj, i.q.2, i.z, i.p.2.ph, [], [], fun k _ => k, fun k _ => k⟩ with hg
  have hok : ∀ s ∈ is.map g, s.OK := by
    intro s hs
    obtain ⟨i, hi, rfl⟩ := List.mem_map.1 hs
    exact (i5 i hi).2.2.2.1
  have e1 : (is.map g).map PSite.l = x.lt.map NDArray.conj := by rw [← ex, List.map_map, List.map_map]; rfl
  have e2 : (is.map g).map PSite.r = y.lt := by rw [List.map_map, ← ey]; rfl
  have e3 : (is.map g).map PSite.z = is.map PItem.z := by rw [List.map_map]; rfl
  have e4 : (is.map g).map PSite.SL = List.replicate is.length [] := by rw [List.map_map]; exact List.map_const
  have e5 : (is.map g).map PSite.SR = List.replicate is.length [] := by rw [List.map_map]; exact List.map_const
  have hcx : Chained 1 (x.lt.map NDArray.conj) 1 := chained_map_same conj_shape hx.chain
  obtain ⟨hc, hsh⟩ := chained_prod hok (by rw [e1]; exact hcx) (by rw [e2]; exact hy.chain)
  rw [e3] at hc hsh
  rw [e4, e5, show List.zipWith (· ++ ·) (List.replicate is.length ([] : List ℕ)) (List.replicate is.length [])
      = List.replicate is.length [] by simp] at hsh
  have t1 : (is.map PItem.item).map FItem.t = is.map PItem.z := by rw [List.map_map]; rfl
  have t2 : (is.map PItem.item).map FItem.t' = is.map PItem.z' := by rw [List.map_map]; rfl
  have hκ : (1 : ℝ) ≤ κ₁ * κ₂ := by nlinarith
  obtain ⟨A, A', h1, h2, h3, h4, _, h6⟩ := chainF_near hε hε (by linarith : (0 : ℝ) ≤ κ₁ * κ₂) (mul_nonneg hν₁ hν₂) h
    (ts := is.map PItem.item) (by simpa using hne)
    (by
      intro q hq
      obtain ⟨i, hi, rfl⟩ := List.mem_map.1 hq
      obtain ⟨k1, k2, _⟩ := i5 i hi
      exact mul_nonneg k1 k2)
    (by
      intro q hq
      obtain ⟨i, hi, rfl⟩ := List.mem_map.1 hq
      exact (i5 i hi).2.2.2.2)
    (by
      intro pre mid post he
      obtain ⟨pre', r, hr, rfl, he2⟩ := List.map_eq_append_iff.1 he
      obtain ⟨mid', post', rfl, rfl, rfl⟩ := List.map_eq_append_iff.1 he2
      by_cases hm : mid' = []
      · subst hm
        simpa [fprod] using segOp_nil.mono zero_le_one hκ
      · have hin : ∀ i ∈ mid', i ∈ is := fun i hi => by rw [hr]; simp [hi]
        obtain ⟨lL, rL, cx⟩ := Chained.infix (pre := pre'.map fun i => i.p.2) (mid := mid'.map fun i => i.p.2)
          (post := post'.map fun i => i.p.2) (l := 1) (r := 1) (by
            rw [← List.map_append, ← List.map_append, ← hr, ex]; exact hx.chain)
        obtain ⟨lR, rR, cy⟩ := Chained.infix (pre := pre'.map fun i => i.q.2) (mid := mid'.map fun i => i.q.2)
          (post := post'.map fun i => i.q.2) (l := 1) (r := 1) (by
            rw [← List.map_append, ← List.map_append, ← hr, ey]; exact hy.chain)
        have s1 := hsx (pre'.map PItem.p) (mid'.map PItem.p) (post'.map PItem.p) (by
          rw [← List.map_append, ← List.map_append, ← hr, i1])
        have s2 := hsy (pre'.map PItem.q) (mid'.map PItem.q) (post'.map PItem.q) (by
          rw [← List.map_append, ← List.map_append, ← hr, i2])
        have := segOp_inner (ts := mid'.map fun i => (i.p.2, i.q.2, i.z)) (lL := lL) (rL := rL) (lR := lR) (rR := rR)
          (c := κ₁ * ((mid'.map PItem.p).map Prod.fst).prod) (d := κ₂ * ((mid'.map PItem.q).map Prod.fst).prod)
          (by
            intro t ht
            obtain ⟨i, hi, rfl⟩ := List.mem_map.1 ht
            exact (i5 i (hin i hi)).2.2.2.1)
          (by
            intro t ht
            obtain ⟨i, hi, rfl⟩ := List.mem_map.1 ht
            exact (i5 i (hin i hi)).2.2.1)
          (by simpa using hm) (by rw [List.map_map]; exact cx) (by rw [List.map_map]; exact cy)
          (by rw [List.map_map (g := fun t : NDArray 𝕜 × NDArray 𝕜 × NDArray 𝕜 => t.1)]
              rw [List.map_map (g := Prod.snd)] at s1; exact s1)
          (by rw [List.map_map (g := fun t : NDArray 𝕜 × NDArray 𝕜 × NDArray 𝕜 => t.2.1)]
              rw [List.map_map (g := Prod.snd)] at s2; exact s2)
        rw [List.map_map (g := fun t : NDArray 𝕜 × NDArray 𝕜 × NDArray 𝕜 => t.2.2)] at this
        rw [pitem_fprod, List.map_map (f := PItem.item)]
        rw [show κ₁ * κ₂ * (((mid'.map PItem.p).map Prod.fst).prod * ((mid'.map PItem.q).map Prod.fst).prod)
          = κ₁ * ((mid'.map PItem.p).map Prod.fst).prod * (κ₂ * ((mid'.map PItem.q).map Prod.fst).prod) by ring]
        exact this)
    (by rw [t1]; exact hc)
  rw [t1] at h1 h3 h4
  rw [t2] at h2
  rw [hsh] at h3 h4
  have hnil : (List.replicate is.length ([] : List ℕ)).flatten = [] := by simp
  rw [hnil] at h3 h4
  have hin := inner_ok hx hy hs hpx hpy
  have hA : inner x y = .ok (A.get []) := by
    obtain ⟨Y, y1, y2⟩ := bind_ok_inv h1
    unfold inner
    rw [pyAssert_true hlen, ok_bind, i3, ok_bind, y1, ok_bind, y2]
    rfl
  have hA' : innerF td x y = .ok (A'.get []) := by
    obtain ⟨Y, y1, y2⟩ := bind_ok_inv h2
    unfold innerF
    rw [pyAssert_true hlen, ok_bind, i4, ok_bind, y1, ok_bind, y2]
    rfl
  refine ⟨_, hA', ?_⟩
  rw [hA] at hin
  have hval := Except.ok.inj hin
  have hd : arrDist A A' = ‖A.get [] - A'.get []‖ := by
    unfold arrDist
    rw [h3, sumIdx_nil, Real.sqrt_sq (norm_nonneg _)]
  have hlx : is.length = x.len := by rw [MPA.len, ← ex]; simp
  rw [← hval, ← hd]
  refine h6.trans (le_of_eq ?_)
  rw [pitem_fprod, i1, i2, List.length_map, hlx]

/-- C78: `inner` of any two MPAs of the same shape: the error is bounded relative to the product of the norms of all local tensors. -/
theorem C78_inner {ε : ℝ} (hε : 0 ≤ ε) {td : TDot 𝕜} (h : TdNear ε td) (x y : MPA 𝕜) (hx : x.Valid) (hy : y.Valid) (hs : x.shape = y.shape)
    (hpx : ∀ r ∈ x.ranks, 0 < r) (hpy : ∀ r ∈ y.ranks, 0 < r) :
    ∃ s, innerF td x y = .ok s ∧ ‖(sumSites x.shape fun i => star (x.val i) * y.val i) - s‖ ≤
      ((1 + ε) ^ (2 * x.len - 1) - 1) * ((x.lt.map npNorm).prod * (y.lt.map npNorm).prod) := by
  have hloc : ∀ {z : MPA 𝕜}, z.Valid → ∀ {pre mid post : List (ℝ × NDArray 𝕜)}, frobWeights z.lt = pre ++ (mid ++ post) →
      ∀ q ∈ mid, q.2.IsLocal ∧ npNorm q.2 ≤ q.1 := by
    intro z hz pre mid post he q hq
    obtain ⟨k1, k2⟩ := frobWeights_mem (ts := z.lt) (q := q) (by rw [he]; simp [hq])
    exact ⟨hz.chain.isLocal _ k2, k1.symm.le⟩
  obtain ⟨s, h1, h2⟩ := innerF_weights (κ₁ := 1) (κ₂ := 1) (ν₁ := 1) (ν₂ := 1) hε le_rfl le_rfl zero_le_one zero_le_one h hx hy hs hpx hpy
    (frobWeights_snd x.lt) (frobWeights_snd y.lt)
    (fun q hq => by rw [(frobWeights_mem hq).1]; exact npNorm_nonneg' _) (fun q hq => by rw [(frobWeights_mem hq).1]; exact npNorm_nonneg' _)
    (fun q hq => by rw [(frobWeights_mem hq).1, one_mul]) (fun q hq => by rw [(frobWeights_mem hq).1, one_mul])
    (fun pre mid post he => by
      rw [one_mul]
      exact segOp_of_rop (wfor fun q hq => MPA.rop_mono (npNorm_nonneg' _) (hloc hx he q hq).2 (rop_frob (hloc hx he q hq).1)))
    (fun pre mid post he => by
      rw [one_mul]
      exact lsegOp_of_lop (wfor fun q hq => MPA.lop_mono (npNorm_nonneg' _) (hloc hy he q hq).2 (lop_frob (hloc hy he q hq).1)))
  refine ⟨s, h1, h2.trans (le_of_eq ?_)⟩
  rw [frobWeights_fst, frobWeights_fst]
  have hx1 : 2 * x.len - 1 = 2 * (x.len - 1) + 1 := by have := List.length_pos_of_ne_nil hx.ne; unfold MPA.len; omega
  rw [hx1, pow_succ, pow_mul]
  ring

/-- The factor in the error bound of `inner`, for products of ranks up to `K` and `n` sites. -/
noncomputable def innerErr (ε : ℝ) (K n : ℕ) : ℝ := Real.sqrt K * ((1 + ε * Real.sqrt K) * (1 + (2 * ε + ε ^ 2) * K) ^ (n - 1) - 1)

theorem innerErr_nonneg {ε : ℝ} (hε : 0 ≤ ε) (K n : ℕ) : 0 ≤ innerErr ε K n := by
  have h1 : (1 : ℝ) ≤ (1 + (2 * ε + ε ^ 2) * K) ^ (n - 1) := one_le_pow₀ (le_add_of_nonneg_right (by positivity))
  have h2 : (1 : ℝ) ≤ 1 + ε * Real.sqrt K := le_add_of_nonneg_right (by positivity)
  exact mul_nonneg (Real.sqrt_nonneg _) (by nlinarith)

/-- C78: `inner` of two MPAs in canonical form (up to `η`): the error is bounded relative to the product of the norms of the two
represented tensors.  The canonical sites of the two MPAs need not be the same. -/
theorem C78_inner_canonical {ε η : ℝ} (hε : 0 ≤ ε) (hη : 0 ≤ η) (h1 : η < 1) {td : TDot 𝕜} (h : TdNear ε td) (x y : MPA 𝕜)
    (hx : x.NearGood η) (hy : y.NearGood η) (hs : x.shape = y.shape) (hrx : x.r = x.l + 1) (hry : y.r = y.l + 1) {D D' : ℕ} (hD1 : 1 ≤ D)
    (hD1' : 1 ≤ D') (hD : ∀ q ∈ x.ranks, q ≤ D) (hD' : ∀ q ∈ y.ranks, q ≤ D') :
    ∃ s, innerF td x y = .ok s ∧ ‖(sumSites x.shape fun i => star (x.val i) * y.val i) - s‖ ≤
      innerErr ε (D * D') x.len * ((1 + η) / (1 - η)) ^ (2 * (x.len - 1)) * (x.frob * y.frob) := by
  have hlen : x.len = y.len := by have := congrArg List.length hs; simpa [MPA.shape, MPA.len] using this
  have hpos : ∀ {z : MPA 𝕜}, z.NearGood η → ∀ r ∈ z.ranks, 0 < r := by
    intro z hz r hr
    obtain ⟨t, ht, rfl⟩ := List.mem_map.1 hr
    have htm := List.mem_of_mem_tail ht
    refine hz.pos t htm _ ?_
    have := NDArray.shape_local (hz.valid.chain.isLocal t htm)
    rw [this]
    simp
  have hloc : ∀ {z : MPA 𝕜}, z.Valid → ∀ {ws : List (ℝ × NDArray 𝕜)}, ws.map Prod.snd = z.lt → ∀ q ∈ ws, q.2.IsLocal :=
    fun hz _ hw q hq => hz.chain.isLocal _ (by rw [← hw]; exact List.mem_map_of_mem hq)
  obtain ⟨A, B, w1, w2, w3, w4⟩ := hx.weights hη h1 hrx hD1 hD
  obtain ⟨A', B', v1, v2, v3, v4⟩ := hy.weights hη h1 hry hD1' hD'
  obtain ⟨s, g1, g2⟩ := innerF_weights hε (Real.one_le_sqrt.2 (by exact_mod_cast hD1) : 1 ≤ Real.sqrt D)
    (Real.one_le_sqrt.2 (by exact_mod_cast hD1') : 1 ≤ Real.sqrt D') (Real.sqrt_nonneg D) (Real.sqrt_nonneg D') h hx.valid hy.valid hs
    (hpos hx) (hpos hy) w1 v1 w2.nonneg v2.nonneg (w2.norm (hloc hx.valid w1)) (v2.norm (hloc hy.valid v1))
    (fun pre mid post he => by obtain ⟨a, b, rfl, hw⟩ := w2.infix he; exact hw.seg)
    (fun pre mid post he => by obtain ⟨a, b, rfl, hw⟩ := v2.infix he; exact hw.lseg)
  refine ⟨s, g1, g2.trans ?_⟩
  have hK : Real.sqrt D * Real.sqrt D' = Real.sqrt ((D * D' : ℕ) : ℝ) := by
    rw [Nat.cast_mul, Real.sqrt_mul (Nat.cast_nonneg _)]
  have hKK : Real.sqrt ((D * D' : ℕ) : ℝ) * Real.sqrt ((D * D' : ℕ) : ℝ) = ((D * D' : ℕ) : ℝ) := Real.mul_self_sqrt (Nat.cast_nonneg _)
  rw [hK]
  rw [show Real.sqrt ((D * D' : ℕ) : ℝ) * (((1 + ε) * (1 + ε) - 1) * Real.sqrt ((D * D' : ℕ) : ℝ))
      = (2 * ε + ε ^ 2) * ((D * D' : ℕ) : ℝ) by
    calc _ = ((1 + ε) * (1 + ε) - 1) * (Real.sqrt ((D * D' : ℕ) : ℝ) * Real.sqrt ((D * D' : ℕ) : ℝ)) := by ring
      _ = _ := by rw [hKK]; ring]
  have hb : ((A ++ B).map Prod.fst).prod * ((A' ++ B').map Prod.fst).prod ≤ ((1 + η) / (1 - η)) ^ (2 * (x.len - 1)) * (x.frob * y.frob) := by
    refine (mul_le_mul w4 v4 v3 (w3.trans w4)).trans (le_of_eq ?_)
    rw [← hlen, two_mul, pow_add]
    ring
  rw [mul_assoc (innerErr _ _ _)]
  exact mul_le_mul_of_nonneg_left hb (innerErr_nonneg hε _ _)

/-! ### first order -/

theorem pow_sub_one_le {t : ℝ} (ht : 0 ≤ t) (N : ℕ) (h : N * t ≤ 1) : (1 + t) ^ N - 1 ≤ 2 * (N * t) := by
  have h1 : (1 + t) ^ N ≤ Real.exp (N * t) := by
    rw [Real.exp_nat_mul]
    exact pow_le_pow_left₀ (by linarith) (by linarith [Real.add_one_le_exp t]) N
  have h0 : (0 : ℝ) ≤ N * t := by positivity
  have h2 := Real.abs_exp_sub_one_le (x := N * t) (by rwa [abs_of_nonneg h0])
  rw [abs_of_nonneg h0] at h2
  linarith [le_abs_self (Real.exp (N * t) - 1)]

/-- C78: without rounding errors the bounds vanish. -/
theorem C78_exact (D K n : ℕ) : toArrayErr 0 D n = 0 ∧ innerErr 0 K n = 0 := by
  constructor
  · simp [toArrayErr]
  · simp [innerErr]

/-- C78: the bounds are proportional to `ε`, for MPAs in any form. -/
theorem C78_first_order {ε : ℝ} (hε : 0 ≤ ε) (n : ℕ) (h : 2 * n * ε ≤ 1) :
    (1 + ε) ^ (n - 1) - 1 ≤ 2 * n * ε ∧ (1 + ε) ^ n - 1 ≤ 2 * n * ε ∧ (1 + ε) ^ (2 * n - 1) - 1 ≤ 4 * n * ε := by
  have hn : (0 : ℝ) ≤ n * ε := by positivity
  have h2 : (1 + ε) ^ n - 1 ≤ 2 * n * ε := by
    have := pow_sub_one_le hε n (by linarith)
    linarith
  have h3 : (1 + ε) ^ (2 * n) - 1 ≤ 4 * n * ε := by
    have := pow_sub_one_le hε (2 * n) (by push_cast; linarith)
    push_cast at this
    linarith
  refine ⟨?_, h2, ?_⟩
  · have : (1 + ε) ^ (n - 1) ≤ (1 + ε) ^ n := pow_le_pow_right₀ (by linarith) (by omega)
    linarith
  · have : (1 + ε) ^ (2 * n - 1) ≤ (1 + ε) ^ (2 * n) := pow_le_pow_right₀ (by linarith) (by omega)
    linarith

/-- C78: the bounds for MPAs in canonical form are proportional to `ε` and to the number of sites. -/
theorem C78_first_order_canonical {ε : ℝ} (hε : 0 ≤ ε) (h1 : ε ≤ 1) {D K : ℕ} (hK : 1 ≤ K) (n : ℕ) (hn : 1 ≤ n) (hD : D * n * ε ≤ 1)
    (hKn : 3 * K * n * ε ≤ 1) :
    toArrayErr ε D n ≤ 2 * (D * Real.sqrt D) * n * ε ∧ innerErr ε K n ≤ 6 * (K * Real.sqrt K) * n * ε := by
  have hN : ((n - 1 : ℕ) : ℝ) + 1 = n := by exact_mod_cast Nat.sub_add_cancel hn
  have hN0 : (0 : ℝ) ≤ ((n - 1 : ℕ) : ℝ) := Nat.cast_nonneg _
  constructor
  · have ht : 0 ≤ ε * D := by positivity
    have hle : ((n - 1 : ℕ) : ℝ) * (ε * D) ≤ D * n * ε := by rw [← hN]; nlinarith
    have := pow_sub_one_le ht (n - 1) (hle.trans hD)
    unfold toArrayErr
    calc _ ≤ Real.sqrt D * (2 * (D * n * ε)) := mul_le_mul_of_nonneg_left (by linarith) (Real.sqrt_nonneg _)
      _ = _ := by ring
  · have hK1 : (1 : ℝ) ≤ K := by exact_mod_cast hK
    have hs0 := Real.sqrt_nonneg (K : ℝ)
    have hs : Real.sqrt K ≤ K := by
      rw [Real.sqrt_le_left (by linarith)]; nlinarith
    have e1 : 1 + ε * Real.sqrt K ≤ 1 + 3 * ε * K := by nlinarith [mul_le_mul_of_nonneg_left hs hε, mul_nonneg hε (by linarith : (0 : ℝ) ≤ K)]
    have e2 : 1 + (2 * ε + ε ^ 2) * K ≤ 1 + 3 * ε * K := by
      have : ε ^ 2 ≤ ε := by nlinarith
      nlinarith
    have ht : 0 ≤ 3 * ε * K := by positivity
    have := pow_sub_one_le ht n (by linarith)
    have hp : (1 + ε * Real.sqrt K) * (1 + (2 * ε + ε ^ 2) * K) ^ (n - 1) ≤ (1 + 3 * ε * K) ^ n := by
      calc _ ≤ (1 + 3 * ε * K) * (1 + 3 * ε * K) ^ (n - 1) :=
            mul_le_mul e1 (pow_le_pow_left₀ (by positivity) e2 _) (by positivity) (by positivity)
        _ = _ := by rw [← pow_succ', Nat.sub_add_cancel hn]
    unfold innerErr
    calc _ ≤ Real.sqrt K * (2 * (n * (3 * ε * K))) := mul_le_mul_of_nonneg_left (by linarith) hs0
      _ = _ := by ring

/-! ### the hypotheses can be met -/

/-- A contraction in which every entry of the result is too large by the factor `1 + δ`. -/
noncomputable def tdScaled (δ : ℝ) : TDot 𝕜 := fun a b axa axb => do
  let c ← a.tensordot b axa axb
  return ⟨c.shape, fun i => ((1 + δ : ℝ) : 𝕜) * c.get i⟩

theorem tdScaled_near {δ : ℝ} (hδ : 0 ≤ δ) : TdNear δ (tdScaled (𝕜 := 𝕜) δ) := by
  refine C78_contract_componentwise (fun a b axa axb c hc d hd => ?_) hδ
  obtain ⟨d', h1, _, h3, _⟩ := tensordot_bound hc
  rw [hd] at h1
  cases h1
  refine ⟨⟨c.shape, fun i => ((1 + δ : ℝ) : 𝕜) * c.get i⟩, by unfold tdScaled; rw [hc]; rfl, rfl, fun i _ => ?_⟩
  simp only
  rw [show ∀ z : 𝕜, z - ((1 + δ : ℝ) : 𝕜) * z = -(((δ : ℝ) : 𝕜) * z) by intro z; push_cast; ring, norm_neg, norm_mul,
    RCLike.norm_ofReal, abs_of_nonneg hδ]
  exact mul_le_mul_of_nonneg_left (h3 i) hδ

/-- Non-vacuity: with contractions that are wrong by a relative error of `1 / 1000`, the bounds hold for the example MPA. -/
example : ∃ A s, TdNear (1 / 1000) (tdScaled (𝕜 := ℂ) (1 / 1000)) ∧ exMPAc.toArrayF (tdScaled (1 / 1000)) = .ok A ∧
    exMPAc.arrErr A ≤ ((1 + 1 / 1000) ^ 1 - 1) * (exMPAc.lt.map npNorm).prod ∧ innerF (tdScaled (1 / 1000)) exMPAc exMPAc = .ok s ∧
    ‖(sumSites exMPAc.shape fun i => star (exMPAc.val i) * exMPAc.val i) - s‖ ≤
      ((1 + 1 / 1000) ^ 3 - 1) * ((exMPAc.lt.map npNorm).prod * (exMPAc.lt.map npNorm).prod) := by
  have hm := tdScaled_near (𝕜 := ℂ) (δ := 1 / 1000) (by norm_num)
  obtain ⟨A, a1, _, a3⟩ := C78_to_array (by norm_num) hm exMPAc exMPAc_good.valid
  obtain ⟨s, b1, b2⟩ := C78_inner (by norm_num) hm exMPAc exMPAc exMPAc_good.valid exMPAc_good.valid rfl (by decide) (by decide)
  exact ⟨A, s, hm, a1, a3, b1, b2⟩

/-- Non-vacuity: a canonical form of the example MPA, computed with inexact routines, meets the hypotheses of the bounds for MPAs in
canonical form. -/
example : ∃ (qr : QR ℂ) (y : MPA ℂ) (A : NDArray ℂ) (s : ℂ),
    exMPAc.canonicalizeF qr (mdScaled (1 / 1000)) (.int 1) .none = .ok y ∧ y.NearGood (1 / 1000) ∧
    y.toArrayF (tdScaled (1 / 1000)) = .ok A ∧
    y.arrErr A ≤ toArrayErr (1 / 1000) 2 y.len * ((1 + 1 / 1000) / (1 - 1 / 1000)) ^ (y.len - 1) * y.frob ∧
    innerF (tdScaled (1 / 1000)) y y = .ok s ∧
    ‖(sumSites y.shape fun i => star (y.val i) * y.val i) - s‖ ≤
      innerErr (1 / 1000) (2 * 2) y.len * ((1 + 1 / 1000) / (1 - 1 / 1000)) ^ (2 * (y.len - 1)) * (y.frob * y.frob) := by
  obtain ⟨qr, hqr⟩ := exists_QRSpec (𝕜 := ℂ)
  have hq : QRNear (1 / 1000) qr := qrNear_mono le_rfl (by norm_num) (by norm_num) (C75_qr_exact hqr)
  have hmd := mdScaled_near (𝕜 := ℂ) (δ := 1 / 1000) (by norm_num)
  have hg := C75_good (ε := 1 / 1000) (by norm_num) (by norm_num) exMPAc_good
  have hl : exMPAc.len = 2 := rfl
  obtain ⟨y, a1, a2, a3, a4, _⟩ := MPA.canonicalizeF_ok (left := .int 1) (right := .none) (tl := 1) (tr := 2) (by norm_num) hq hmd hg rfl
    (by rw [hl]; rfl) (by rw [hl]; rfl) (by norm_num) (by norm_num) (by rw [hl]; norm_num)
  have hm := tdScaled_near (𝕜 := ℂ) (δ := 1 / 1000) (by norm_num)
  have hr : y.r = y.l + 1 := by rw [a3, a4]; rfl
  have hD : ∀ q ∈ y.ranks, q ≤ 2 := a2.ranks.bound (by decide)
  obtain ⟨A, b1, _, b3⟩ := C78_to_array_canonical (by norm_num) (by norm_num) (by norm_num) hm y a2.good hr (D := 2) (by norm_num) hD
  obtain ⟨s, c1, c2⟩ := C78_inner_canonical (by norm_num) (by norm_num) (by norm_num) hm y y a2.good a2.good rfl hr hr (D := 2) (D' := 2)
    (by norm_num) (by norm_num) hD hD
  exact ⟨qr, y, A, s, a1, a2.good, b1, b3, c1, c2⟩

end Mpnum
