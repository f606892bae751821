import Verif.MPArray.RoundingNormdist

/-!
C79: sums, differences and `normdist` in floating point arithmetic.

`MPA.addF`, `MPA.subF` and `normdistF` (RoundingNormdist.lean) are `+`, `-` and `normdist` with functions `ad` for `numpy.add`, `qr` for
`numpy.linalg.qr`, `md` for `matdot` and `nrm` for `numpy.linalg.norm`.  Contracts: `AdNear`, `QRNear`, `MdNear`, `NormNear`.
Specification: `MPA.dist` is the 2-norm of the difference of the tensors represented by two MPAs, `MPA.addErr x y z` that of the
difference of `x + y` and `z`.

The error of `normdist` is not bounded relative to the distance, but relative to the norms of the arguments.
-/

open Finset

namespace Mpnum

variable {𝕜 : Type} [RCLike 𝕜]

/-- The factor in the error bound of `x + y`. -/
noncomputable def sumErr (ε κ ν : ℝ) (n : ℕ) : ℝ := if n = 1 then 2 * ν * ε else openTotal ε (2 * κ) (Real.sqrt 2 * ν) (n - 1)

theorem addErr_le {x y z : MPA 𝕜} {d : ℝ} (hd : 0 ≤ d) (h : (∑ i ∈ siteSet x.shape, ‖x.val i + y.val i - z.val i‖ ^ 2) ≤ d ^ 2) :
    x.addErr y z ≤ d := by
  unfold MPA.addErr
  rw [sumSites_eq_sum]
  exact Real.sqrt_le_iff.2 ⟨hd, h⟩

theorem addErr_sq (x y z : MPA 𝕜) : x.addErr y z ^ 2 = ∑ i ∈ siteSet x.shape, ‖x.val i + y.val i - z.val i‖ ^ 2 := by
  unfold MPA.addErr
  rw [sumSites_eq_sum, Real.sq_sqrt (Finset.sum_nonneg fun _ _ => sq_nonneg _)]

theorem addErr_nonneg (x y z : MPA 𝕜) : 0 ≤ x.addErr y z := Real.sqrt_nonneg _

theorem addErr_triangle {x y z w : MPA 𝕜} (h : z.shape = x.shape) : x.addErr y w ≤ x.addErr y z + z.dist w := by
  refine addErr_le (add_nonneg (addErr_nonneg _ _ _) (MPA.dist_nonneg' _ _)) ?_
  have := mink (siteSet x.shape) (fun i => x.val i + y.val i - z.val i) (fun i => z.val i - w.val i) (addErr_nonneg x y z)
    (MPA.dist_nonneg' z w) (le_of_eq (addErr_sq x y z).symm) (le_of_eq (by rw [MPA.dist_sq, h]))
  simpa using this

theorem frob_one {x : MPA 𝕜} (hx : x.Valid) {t : NDArray 𝕜} (ht : x.lt = [t]) : x.frob = npNorm t := by
  have hc := hx.chain
  rw [ht] at hc
  have := frob_center (pre := []) (post := []) (t := t) hc (by simp) (by simp)
  unfold MPA.frob npNorm MPA.shape MPA.val
  rw [ht]
  exact congrArg _ this

/-- `x + y` and its canonical form, for weights of the local tensors. -/
theorem addF_weights {ε κ ν : ℝ} (hε : 0 ≤ ε) (h1 : ε < 1) (hκ : 0 ≤ κ) (hν : 0 ≤ ν) {qr : QR 𝕜} (hqr : QRNear ε qr)
    {md : NDArray 𝕜 → NDArray 𝕜 → Py (NDArray 𝕜)} (hmd : MdNear ε md) {ad : NDArray 𝕜 → NDArray 𝕜 → Py (NDArray 𝕜)} (had : AdNear ε ad)
    {x y : MPA 𝕜} (hx : x.Valid) (hy : y.Valid) (hs : y.shape = x.shape) (px : AllPos x.lt) {wx wy : List (FItem 𝕜)}
    (hwx : wx.map FItem.t = x.lt) (hwy : wy.map FItem.t = y.lt) (hcx : WChain κ ν wx) (hcy : WChain κ ν wy) :
    ∃ z w, x.addF ad y = .ok z ∧ z.canonicalizeF qr md .none .none = .ok w ∧ z.NearGood ε ∧ z.shape = x.shape ∧ MPA.NearStep ε z w ∧
      x.addErr y w ≤ sumErr ε κ ν x.len * (List.zipWith max (wx.map FItem.s) (wy.map FItem.s)).prod := by
  have hlen : y.len = x.len := by
    have := congrArg List.length hs
    simpa [MPA.shape, MPA.len] using this
  have fresh : ∀ z : MPA 𝕜, z.Valid → AllPos z.lt → z.l = 0 → z.r = z.len → z.NearGood ε := fun z hv hp hl hr => by
    refine ⟨hv, hp, fun n t ht => ⟨fun h => by exfalso; omega, fun h => ?_⟩⟩
    have := (List.getElem?_eq_some_iff.1 ht).1
    have h2 : (z.len : ℤ) = z.lt.length := rfl
    exfalso; omega
  by_cases hn : x.len = 1
  · obtain ⟨z, k1, k2, k3, k4, k5, k6, k7⟩ := addF_one had hx hy hs hn px
    have hzl : z.len = 1 := by
      have := congrArg List.length k4
      simp only [MPA.shape, physShape, List.length_map] at this
      exact this.trans hn
    obtain ⟨w, m1, m2, -, -, m5⟩ := canonicalizeF_open (items := z.lt.map fun t => fitem (npNorm t) t) hε h1 zero_le_one zero_le_one hqr hmd
      k2 k3 k5 k6 (by rw [List.map_map]; exact (List.map_id _).symm) (wchain_norms fun t ht => k2.chain.isLocal t ht)
    have m5 : z.dist w ≤ 0 := by simpa [hzl, openTotal] using m5
    refine ⟨z, w, k1, m1, fresh z k2 k3 k5 k6, k4, m2, ?_⟩
    obtain ⟨t, ht⟩ := List.length_eq_one_iff.1 hn
    obtain ⟨u, hu⟩ := List.length_eq_one_iff.1 (hlen.trans hn)
    rw [ht] at hwx
    rw [hu] at hwy
    obtain ⟨p, rfl, rfl⟩ := List.map_eq_singleton_iff.1 hwx
    obtain ⟨q, rfl, rfl⟩ := List.map_eq_singleton_iff.1 hwy
    have fx : x.frob ≤ ν * max p.s q.s := by
      rw [frob_one hx ht]
      exact (hcx.norm p (by simp)).trans (mul_le_mul_of_nonneg_left (le_max_left _ _) hν)
    have fy : y.frob ≤ ν * max p.s q.s := by
      rw [frob_one hy hu]
      exact (hcy.norm q (by simp)).trans (mul_le_mul_of_nonneg_left (le_max_right _ _) hν)
    have hxn := x.frob_nonneg'
    have hyn := y.frob_nonneg'
    have e1 : x.addErr y z ≤ ε * (x.frob + y.frob) := by
      refine addErr_le (by positivity) ?_
      have := mink (siteSet x.shape) x.val y.val hxn hyn (le_of_eq x.frob_sq'.symm) (le_of_eq (by rw [MPA.frob_sq', hs]))
      calc _ ≤ ∑ i ∈ siteSet x.shape, ε ^ 2 * ‖x.val i + y.val i‖ ^ 2 := Finset.sum_le_sum fun i hi => by
            rw [← mul_pow]
            exact pow_le_pow_left₀ (norm_nonneg _) (k7 i (mem_siteSet.1 hi)) 2
        _ ≤ _ := by
            rw [← Finset.mul_sum, mul_pow]
            exact mul_le_mul_of_nonneg_left this (sq_nonneg _)
    refine (addErr_triangle (z := z) k4).trans ?_
    unfold sumErr
    rw [if_pos hn]
    simp only [List.map_cons, List.map_nil, List.zipWith_cons_cons, List.zipWith_nil_right, List.prod_cons, List.prod_nil, mul_one]
    have := mul_le_mul_of_nonneg_left (add_le_add fx fy) hε
    linarith
  · have hn2 : 2 ≤ x.len := by
      have : 0 < x.len := List.length_pos_of_ne_nil hx.ne
      omega
    obtain ⟨z, k1, k2, k3, k4, -, k6, k7⟩ := C05_add x y hx hy hs.symm
    obtain ⟨items, i1, i2, i3, i4⟩ := MPA.add_wchain hκ hν hx hy hs hn2 k1 px hwx hwy hcx hcy
    obtain ⟨w, m1, m2, -, -, m5⟩ := canonicalizeF_open hε h1 (by positivity) (by positivity) hqr hmd k2 i4 k6 k7 i1 i2
    have hzl : z.len = x.len := by
      have := congrArg List.length k3
      simpa [MPA.shape, MPA.len] using this
    refine ⟨z, w, by rw [addF_two ad hn, k1], m1, fresh z k2 i4 k6 k7, k3, m2, ?_⟩
    have e : x.addErr y w = z.dist w := by
      unfold MPA.addErr MPA.dist
      rw [k3]
      congr 1
      exact sumSites_congr fun i hi => by rw [k4 i hi]
    rw [e]
    unfold sumErr
    rw [if_neg hn, ← i3, ← hzl]
    exact m5

/-- The largest norms of the local tensors of two MPAs. -/
noncomputable def maxNorms (x y : MPA 𝕜) : ℝ := (List.zipWith max (x.lt.map npNorm) (y.lt.map npNorm)).prod

/-- C79: `x + y`, followed by `canonicalize()`, for any two MPAs of the same shape. -/
theorem C79_add {ε : ℝ} (hε : 0 ≤ ε) (h1 : ε < 1) {qr : QR 𝕜} (hqr : QRNear ε qr) {md : NDArray 𝕜 → NDArray 𝕜 → Py (NDArray 𝕜)}
    (hmd : MdNear ε md) {ad : NDArray 𝕜 → NDArray 𝕜 → Py (NDArray 𝕜)} (had : AdNear ε ad) (x y : MPA 𝕜) (hx : x.Valid) (hy : y.Valid)
    (hs : y.shape = x.shape) (px : AllPos x.lt) :
    ∃ z w, x.addF ad y = .ok z ∧ z.canonicalizeF qr md .none .none = .ok w ∧ z.NearGood ε ∧ w.NearGood ε ∧ w.shape = x.shape ∧
      x.addErr y w ≤ sumErr ε 1 1 x.len * maxNorms x y := by
  obtain ⟨z, w, k1, k2, k3, k4, k5, k6⟩ := addF_weights (wx := x.lt.map fun t => fitem (npNorm t) t)
    (wy := y.lt.map fun t => fitem (npNorm t) t) hε h1 zero_le_one zero_le_one hqr hmd had hx hy hs px
    (by rw [List.map_map]; exact List.map_id _) (by rw [List.map_map]; exact List.map_id _)
    (wchain_norms fun t ht => hx.chain.isLocal t ht) (wchain_norms fun t ht => hy.chain.isLocal t ht)
  rw [List.map_map, List.map_map] at k6
  exact ⟨z, w, k1, k2, k3, k5.good, k5.shape.trans k4, k6⟩

/-- The norms of two MPAs in canonical form, for the error bound of their sum.  If the centres are different, then the sum is a chain
with two sites that are not canonical. -/
noncomputable def pairNorm (x y : MPA 𝕜) : ℝ := if x.l = y.l then max x.frob y.frob else max 1 x.frob * max 1 y.frob

theorem zipWith_max_le {a b : List ℝ} (h0 : ∀ q ∈ a, 0 ≤ q) :
    (List.zipWith max a b).prod ≤ (List.zipWith (fun p q => max 1 p * max 1 q) a b).prod ∧ 0 ≤ (List.zipWith max a b).prod := by
  induction a generalizing b with
  | nil => simp
  | cons p a ih =>
    cases b with
    | nil => simp
    | cons q b =>
      obtain ⟨h1, h2⟩ := ih (b := b) fun q hq => h0 q (by simp [hq])
      have hp : 0 ≤ max p q := (h0 p (by simp)).trans (le_max_left _ _)
      rw [List.zipWith_cons_cons, List.zipWith_cons_cons, List.prod_cons, List.prod_cons]
      refine ⟨mul_le_mul ?_ h1 h2 (by positivity), mul_nonneg hp h2⟩
      have e1 : (1 : ℝ) ≤ max 1 p := le_max_left _ _
      have e2 : (1 : ℝ) ≤ max 1 q := le_max_left _ _
      rcases le_total p q with h | h
      · rw [max_eq_right h]
        nlinarith [le_max_right (1 : ℝ) q]
      · rw [max_eq_left h]
        nlinarith [le_max_right (1 : ℝ) p]

theorem zipWith_mul_prod {a b : List ℝ} (h : a.length = b.length) (f g : ℝ → ℝ) :
    (List.zipWith (fun p q => f p * g q) a b).prod = (a.map f).prod * (b.map g).prod := by
  induction a generalizing b with
  | nil =>
    cases b with
    | nil => simp
    | cons q b => simp at h
  | cons p a ih =>
    cases b with
    | nil => simp at h
    | cons q b =>
      simp only [List.zipWith_cons_cons, List.prod_cons, List.map_cons]
      rw [ih (by simpa using h)]
      ring

/-- The factor for the deviation of the sites from canonical form. -/
theorem pair_weights {η : ℝ} (hη : 0 ≤ η) (h1 : η < 1) {a b : List ℝ} {n c k c' k' : ℕ} {τ σ p q : ℝ} (hc : c + 1 + k = n)
    (hc' : c' + 1 + k' = n) (hτ : 0 ≤ τ) (hσ : 0 ≤ σ) (hp : (1 - η) ^ (n - 1) * τ ≤ p) (hq : (1 - η) ^ (n - 1) * σ ≤ q)
    (ha : a = List.replicate c (1 + η) ++ τ :: List.replicate k (1 + η))
    (hb : b = List.replicate c' (1 + η) ++ σ :: List.replicate k' (1 + η)) :
    (List.zipWith max a b).prod ≤ ((1 + η) / (1 - η)) ^ (2 * (n - 1)) * (if c = c' then max p q else max 1 p * max 1 q) := by
  have hg : 0 < 1 - η := by linarith
  have hgp : 0 < (1 - η) ^ (n - 1) := pow_pos hg _
  have hρ1 : 1 ≤ (1 + η) / (1 - η) := by rw [le_div_iff₀ hg]; linarith
  have hρ0 : 0 ≤ ((1 + η) / (1 - η)) ^ (n - 1) := by positivity
  have hτ' : (1 + η) ^ (n - 1) * τ ≤ ((1 + η) / (1 - η)) ^ (n - 1) * p := by
    rw [div_pow, div_mul_eq_mul_div, le_div_iff₀ hgp]
    calc _ = (1 + η) ^ (n - 1) * ((1 - η) ^ (n - 1) * τ) := by ring
      _ ≤ _ := mul_le_mul_of_nonneg_left hp (by positivity)
  have hσ' : (1 + η) ^ (n - 1) * σ ≤ ((1 + η) / (1 - η)) ^ (n - 1) * q := by
    rw [div_pow, div_mul_eq_mul_div, le_div_iff₀ hgp]
    calc _ = (1 + η) ^ (n - 1) * ((1 - η) ^ (n - 1) * σ) := by ring
      _ ≤ _ := mul_le_mul_of_nonneg_left hq (by positivity)
  have hp0 : 0 ≤ p := (mul_nonneg hgp.le hτ).trans hp
  have hq0 : 0 ≤ q := (mul_nonneg hgp.le hσ).trans hq
  have hpow : (1 + η) ^ (n - 1) ≤ ((1 + η) / (1 - η)) ^ (n - 1) := by
    refine pow_le_pow_left₀ (by linarith) ?_ _
    rw [le_div_iff₀ hg]
    nlinarith
  by_cases hcc : c = c'
  · subst hcc
    obtain rfl : k' = k := by omega
    rw [if_pos rfl, ha, hb, List.zipWith_append (by simp), List.zipWith_cons_cons]
    simp only [List.zipWith_replicate, min_self, max_self, List.prod_append, List.prod_cons, List.prod_replicate]
    calc (1 + η) ^ c * (max τ σ * (1 + η) ^ k') = max ((1 + η) ^ (n - 1) * τ) ((1 + η) ^ (n - 1) * σ) := by
          rw [← mul_max_of_nonneg _ _ (by positivity), show n - 1 = c + k' by omega, pow_add]; ring
      _ ≤ max (((1 + η) / (1 - η)) ^ (n - 1) * p) (((1 + η) / (1 - η)) ^ (n - 1) * q) := max_le_max hτ' hσ'
      _ = ((1 + η) / (1 - η)) ^ (n - 1) * max p q := (mul_max_of_nonneg _ _ hρ0).symm
      _ ≤ _ := mul_le_mul_of_nonneg_right (pow_le_pow_right₀ hρ1 (by omega)) (hp0.trans (le_max_left _ _))
  · rw [if_neg hcc]
    have hla : a.length = n := by rw [ha]; simp; omega
    have hlb : b.length = n := by rw [hb]; simp; omega
    have key : ∀ {m j : ℕ} {s r : ℝ}, m + 1 + j = n → (1 + η) ^ (n - 1) * s ≤ ((1 + η) / (1 - η)) ^ (n - 1) * r →
        ((List.replicate m (1 + η) ++ s :: List.replicate j (1 + η)).map (max 1)).prod ≤ ((1 + η) / (1 - η)) ^ (n - 1) * max 1 r := by
      intro m j s r hm hr
      simp only [List.map_append, List.map_cons, List.map_replicate, List.prod_append, List.prod_cons, List.prod_replicate,
        max_eq_right (show (1 : ℝ) ≤ 1 + η by linarith)]
      calc (1 + η) ^ m * (max 1 s * (1 + η) ^ j) = max ((1 + η) ^ (n - 1)) ((1 + η) ^ (n - 1) * s) := by
            rw [show max ((1 + η) ^ (n - 1)) ((1 + η) ^ (n - 1) * s) = max ((1 + η) ^ (n - 1) * 1) ((1 + η) ^ (n - 1) * s) by rw [mul_one],
              ← mul_max_of_nonneg _ _ (by positivity), show n - 1 = m + j by omega, pow_add]
            ring
        _ ≤ max (((1 + η) / (1 - η)) ^ (n - 1) * 1) (((1 + η) / (1 - η)) ^ (n - 1) * r) := max_le_max (by rw [mul_one]; exact hpow) hr
        _ = _ := (mul_max_of_nonneg _ _ hρ0).symm
    have h0 : ∀ r ∈ a, 0 ≤ r := by
      intro r hr
      rw [ha] at hr
      simp only [List.mem_append, List.mem_cons, List.mem_replicate] at hr
      rcases hr with ⟨_, rfl⟩ | rfl | ⟨_, rfl⟩
      · linarith
      · exact hτ
      · linarith
    refine (zipWith_max_le h0).1.trans ?_
    rw [zipWith_mul_prod (hla.trans hlb.symm) (max 1) (max 1), two_mul, pow_add]
    calc _ ≤ (((1 + η) / (1 - η)) ^ (n - 1) * max 1 p) * (((1 + η) / (1 - η)) ^ (n - 1) * max 1 q) := by
          refine mul_le_mul (by rw [ha]; exact key hc hτ') (by rw [hb]; exact key hc' hσ') ?_ (by positivity)
          refine List.prod_nonneg fun r hr => ?_
          obtain ⟨s, _, rfl⟩ := List.mem_map.1 hr
          positivity
      _ = _ := by ring

theorem openTotal_nonneg {ε κ ν : ℝ} (hε : 0 ≤ ε) (h1 : ε < 1) (hκ : 0 ≤ κ) (hν : 0 ≤ ν) (m : ℕ) : 0 ≤ openTotal ε κ ν m := by
  have := openGrow_nonneg hε h1 hκ hν
  unfold openTotal openErr
  exact mul_nonneg (by positivity) (Finset.sum_nonneg fun k _ => by positivity)

theorem sumErr_nonneg {ε κ ν : ℝ} (hε : 0 ≤ ε) (h1 : ε < 1) (hκ : 0 ≤ κ) (hν : 0 ≤ ν) (n : ℕ) : 0 ≤ sumErr ε κ ν n := by
  unfold sumErr
  split
  · positivity
  · exact openTotal_nonneg hε h1 (by positivity) (by positivity) _

/-- C79: `x + y`, followed by `canonicalize()`, for two MPAs in canonical form (up to `η`): the error is bounded relative to the norms of
`x` and `y`. -/
theorem C79_add_canonical {ε η : ℝ} (hε : 0 ≤ ε) (h1 : ε < 1) (hη : 0 ≤ η) (h2 : η < 1) {qr : QR 𝕜} (hqr : QRNear ε qr)
    {md : NDArray 𝕜 → NDArray 𝕜 → Py (NDArray 𝕜)} (hmd : MdNear ε md) {ad : NDArray 𝕜 → NDArray 𝕜 → Py (NDArray 𝕜)} (had : AdNear ε ad)
    (x y : MPA 𝕜) (hx : x.NearGood η) (hy : y.NearGood η) (hs : y.shape = x.shape) (rx : x.r = x.l + 1) (ry : y.r = y.l + 1) {D : ℕ}
    (hD1 : 1 ≤ D) (dx : ∀ q ∈ x.ranks, q ≤ D) (dy : ∀ q ∈ y.ranks, q ≤ D) :
    ∃ z w, x.addF ad y = .ok z ∧ z.canonicalizeF qr md .none .none = .ok w ∧ z.NearGood ε ∧ w.NearGood ε ∧ w.shape = x.shape ∧
      x.addErr y w ≤ sumErr ε (Real.sqrt D) (Real.sqrt D) x.len * ((1 + η) / (1 - η)) ^ (2 * (x.len - 1)) * pairNorm x y := by
  have hlen : y.len = x.len := by
    have := congrArg List.length hs
    simpa [MPA.shape, MPA.len] using this
  obtain ⟨A, B, a1, a2, c, k, τ, a3, a4, a5, a6, a7⟩ := hx.weights_center hη h2 rx hD1 dx
  obtain ⟨A', B', b1, b2, c', k', σ, b3, b4, b5, b6, b7⟩ := hy.weights_center hη h2 ry hD1 dy
  rw [hlen] at b4 b6
  have et : ∀ l : List (ℝ × NDArray 𝕜), (l.map fun q => fitem q.1 q.2).map FItem.t = l.map Prod.snd := fun l => by rw [List.map_map]; rfl
  have es : ∀ l : List (ℝ × NDArray 𝕜), (l.map fun q => fitem q.1 q.2).map FItem.s = l.map Prod.fst := fun l => by rw [List.map_map]; rfl
  obtain ⟨z, w, k1, k2, k3, k4, k5, k6⟩ := addF_weights (wx := (A ++ B).map fun q => fitem q.1 q.2)
    (wy := (A' ++ B').map fun q => fitem q.1 q.2) hε h1 (Real.sqrt_nonneg D) (Real.sqrt_nonneg D) hqr hmd had hx.valid hy.valid hs hx.pos
    ((et _).trans a1) ((et _).trans b1)
    (a2.wchain fun q hq => hx.valid.chain.isLocal _ (by rw [← a1]; exact List.mem_map_of_mem hq))
    (b2.wchain fun q hq => hy.valid.chain.isLocal _ (by rw [← b1]; exact List.mem_map_of_mem hq))
  refine ⟨z, w, k1, k2, k3, k5.good, k5.shape.trans k4, k6.trans ?_⟩
  rw [mul_assoc]
  refine mul_le_mul_of_nonneg_left ?_ (sumErr_nonneg hε h1 (Real.sqrt_nonneg D) (Real.sqrt_nonneg D) _)
  rw [es, es]
  refine (pair_weights hη h2 a4 b4 a5 b5 a6 b6 a7 b7).trans (le_of_eq ?_)
  unfold pairNorm
  congr 1
  by_cases h : c = c'
  · rw [if_pos h, if_pos (by rw [← a3, ← b3, h])]
  · rw [if_neg h, if_neg (by rw [← a3, ← b3]; exact_mod_cast h)]

/-! ### `-1 * y` -/

theorem npNorm_neg (t : NDArray 𝕜) : npNorm (t.smul (-1)) = npNorm t := by
  unfold npNorm NDArray.smul
  simp

/-- `(-1) * y` -/
theorem neg_spec {y : MPA 𝕜} (hy : y.Valid) :
    ∃ y', y.mul (-1) = .ok y' ∧ y'.Valid ∧ y'.shape = y.shape ∧ y'.ranks = y.ranks ∧ y'.l = y.l ∧ y'.r = y.r ∧
      (∀ i, IdxOK i y.shape → y'.val i = -y.val i) ∧ y'.lt.map npNorm = y.lt.map npNorm ∧ y'.frob = y.frob ∧
      ∀ η, y.NearGood η → y'.NearGood η := by
  obtain ⟨pos, t, hl, ht, h1, _⟩ := mul_eq hy (-1)
  obtain ⟨z, hz, hsp, _⟩ := C06_mul y hy (-1)
  rw [h1] at hz
  cases hz
  have hpos : pos < y.lt.length := (List.getElem?_eq_some_iff.1 ht).1
  have htm : t ∈ y.lt := List.mem_of_getElem? ht
  have hval : ∀ i, IdxOK i y.shape → MPA.val ⟨y.lt.set pos (t.smul (-1)), y.l, y.r⟩ i = -y.val i := fun i hi => by
    rw [hsp.val i hi]; ring
  refine ⟨_, h1, hsp.valid, hsp.shape, hsp.ranks, rfl, rfl, hval, ?_, ?_, ?_⟩
  · rw [List.map_set, npNorm_neg]
    refine List.ext_getElem (by simp) fun n h3 h4 => ?_
    rw [List.getElem_set]
    split
    · rename_i h
      subst h
      rw [List.getElem_map]
      congr 1
      exact (List.getElem?_eq_some_iff.1 ht).2.symm
    · rfl
  · unfold MPA.frob
    rw [hsp.shape]
    congr 1
    exact sumSites_congr fun i hi => by rw [hval i hi, norm_neg]
  · intro η hg
    refine ⟨hsp.valid, ?_, ?_⟩
    · intro u hu
      rcases List.mem_or_eq_of_mem_set hu with hu | rfl
      · exact hg.pos u hu
      · exact hg.pos t htm
    · intro n u hn
      simp only [List.getElem?_set] at hn
      have h5 := hy.l_lt_r
      split at hn
      · rename_i h
        exact ⟨fun h6 => by dsimp only at h6; omega, fun h6 => by dsimp only at h6; omega⟩
      · exact hg.canon n u hn

/-! ### `normdist` -/

theorem frob_addErr {x y y' w : MPA 𝕜} (hw : w.shape = x.shape) (hy : ∀ i, IdxOK i x.shape → y'.val i = -y.val i) :
    |x.dist y - w.frob| ≤ x.addErr y' w := by
  have e : ∀ i ∈ siteSet x.shape, x.val i - y.val i = x.val i + y'.val i := fun i hi => by
    rw [hy i (mem_siteSet.1 hi), sub_eq_add_neg]
  have hwsq : ∑ i ∈ siteSet x.shape, ‖w.val i‖ ^ 2 = w.frob ^ 2 := by rw [MPA.frob_sq', hw]
  have hds : ∑ i ∈ siteSet x.shape, ‖x.val i + y'.val i‖ ^ 2 = x.dist y ^ 2 := by
    rw [MPA.dist_sq]
    exact Finset.sum_congr rfl fun i hi => by rw [e i hi]
  have d0 := MPA.dist_nonneg' x y
  have f0 := w.frob_nonneg'
  have a0 := addErr_nonneg x y' w
  rw [abs_le]
  constructor
  · have := mink (siteSet x.shape) (fun i => -(x.val i + y'.val i - w.val i)) (fun i => x.val i + y'.val i) a0 d0
      (by simp only [norm_neg]; exact le_of_eq (addErr_sq x y' w).symm) hds.le
    simp only [neg_sub, sub_add_cancel] at this
    rw [hwsq] at this
    have := abs_le_of_sq_le_sq' this (by positivity)
    linarith [this.2]
  · have := mink (siteSet x.shape) (fun i => x.val i + y'.val i - w.val i) w.val a0 f0 (le_of_eq (addErr_sq x y' w).symm) hwsq.le
    simp only [sub_add_cancel] at this
    rw [hds] at this
    have := abs_le_of_sq_le_sq' this (by positivity)
    linarith [this.2]

/-- The bounds on the number returned by `normdist`, for an error `err` of the difference. -/
def NormdistNear (ε err d v : ℝ) (n : ℕ) : Prop :=
  (1 - ε) ^ (n - 1) * v ≤ (1 + ε) * (d + err) ∧ (1 - ε) * (d - err) ≤ (1 + ε) ^ (n - 1) * v

theorem normdistF_core {ε err : ℝ} (hε : 0 ≤ ε) (h1 : ε < 1) {qr : QR 𝕜} (hqr : QRNear ε qr)
    {md : NDArray 𝕜 → NDArray 𝕜 → Py (NDArray 𝕜)} (hmd : MdNear ε md) {nrm : NDArray 𝕜 → ℝ} (hn : NormNear ε nrm)
    {ad : NDArray 𝕜 → NDArray 𝕜 → Py (NDArray 𝕜)} {x y y' z w : MPA 𝕜} (hm : y.mul (-1) = .ok y') (hz : x.addF ad y' = .ok z)
    (hw : z.canonicalizeF qr md .none .none = .ok w) (hg : z.NearGood ε) (hws : w.shape = x.shape) (hzs : z.len = x.len)
    (hval : ∀ i, IdxOK i x.shape → y'.val i = -y.val i) (he : x.addErr y' w ≤ err) :
    ∃ v, normdistF qr md nrm ad x y = .ok v ∧ NormdistNear ε err (x.dist y) v x.len := by
  obtain ⟨v, w', k1, k2, k3, k4, _⟩ := C75_norm hε h1.le hqr hmd hn z hg
  rw [hw] at k2
  cases k2
  have h5 := abs_le.1 ((frob_addErr hws hval).trans he)
  refine ⟨v, ?_, ?_, ?_⟩
  · unfold normdistF MPA.subF
    rw [hm, ok_bind, hz, ok_bind, k1]
    rfl
  · rw [← hzs]
    exact k3.trans (mul_le_mul_of_nonneg_left (by linarith) (by linarith))
  · rw [← hzs]
    exact le_trans (mul_le_mul_of_nonneg_left (by linarith) (by linarith)) k4

theorem len_of_shape {x w : MPA 𝕜} (h : w.shape = x.shape) : w.len = x.len := by
  have := congrArg List.length h
  simpa [MPA.shape, MPA.len] using this

/-- C79: `normdist` of any two MPAs of the same shape: it succeeds, and the result is close to the 2-norm of the difference of the
represented tensors, relative to the norms of the local tensors. -/
theorem C79_normdist {ε : ℝ} (hε : 0 ≤ ε) (h1 : ε < 1) {qr : QR 𝕜} (hqr : QRNear ε qr) {md : NDArray 𝕜 → NDArray 𝕜 → Py (NDArray 𝕜)}
    (hmd : MdNear ε md) {nrm : NDArray 𝕜 → ℝ} (hn : NormNear ε nrm) {ad : NDArray 𝕜 → NDArray 𝕜 → Py (NDArray 𝕜)} (had : AdNear ε ad)
    (x y : MPA 𝕜) (hx : x.Valid) (hy : y.Valid) (hs : y.shape = x.shape) (px : AllPos x.lt) :
    ∃ v, normdistF qr md nrm ad x y = .ok v ∧ NormdistNear ε (sumErr ε 1 1 x.len * maxNorms x y) (x.dist y) v x.len := by
  obtain ⟨y', m1, m2, m3, _, _, _, m7, m8, _, _⟩ := neg_spec hy
  obtain ⟨z, w, k1, k2, k3, k4, k5, k6⟩ := C79_add hε h1 hqr hmd had x y' hx m2 (m3.trans hs) px
  have hzs : z.len = x.len := by
    obtain ⟨u, g1, g2, _⟩ := MPA.canonicalizeF_none hε hqr hmd k3
    rw [k2] at g1
    cases g1
    rw [← g2.len]
    exact len_of_shape k5
  refine normdistF_core hε h1 hqr hmd hn m1 k1 k2 k3 k5 hzs (fun i hi => m7 i (by rw [hs]; exact hi)) (k6.trans (le_of_eq ?_))
  unfold maxNorms
  rw [m8]

/-- C79: `normdist` of two MPAs in canonical form (up to `η`). -/
theorem C79_normdist_canonical {ε η : ℝ} (hε : 0 ≤ ε) (h1 : ε < 1) (hη : 0 ≤ η) (h2 : η < 1) {qr : QR 𝕜} (hqr : QRNear ε qr)
    {md : NDArray 𝕜 → NDArray 𝕜 → Py (NDArray 𝕜)} (hmd : MdNear ε md) {nrm : NDArray 𝕜 → ℝ} (hn : NormNear ε nrm)
    {ad : NDArray 𝕜 → NDArray 𝕜 → Py (NDArray 𝕜)} (had : AdNear ε ad)
    (x y : MPA 𝕜) (hx : x.NearGood η) (hy : y.NearGood η) (hs : y.shape = x.shape) (rx : x.r = x.l + 1) (ry : y.r = y.l + 1) {D : ℕ}
    (hD1 : 1 ≤ D) (dx : ∀ q ∈ x.ranks, q ≤ D) (dy : ∀ q ∈ y.ranks, q ≤ D) :
    ∃ v, normdistF qr md nrm ad x y = .ok v ∧
      NormdistNear ε (sumErr ε (Real.sqrt D) (Real.sqrt D) x.len * ((1 + η) / (1 - η)) ^ (2 * (x.len - 1)) * pairNorm x y) (x.dist y) v
        x.len := by
  obtain ⟨y', m1, m2, m3, m4, m5, m6, m7, _, m9, m10⟩ := neg_spec hy.valid
  obtain ⟨z, w, k1, k2, k3, k4, k5, k6⟩ := C79_add_canonical hε h1 hη h2 hqr hmd had x y' hx (m10 η hy) (m3.trans hs) rx
    (by rw [m5, m6, ry]) hD1 dx (by rw [m4]; exact dy)
  have hzs : z.len = x.len := by
    obtain ⟨u, g1, g2, _⟩ := MPA.canonicalizeF_none hε hqr hmd k3
    rw [k2] at g1
    cases g1
    rw [← g2.len]
    exact len_of_shape k5
  refine normdistF_core hε h1 hqr hmd hn m1 k1 k2 k3 k5 hzs (fun i hi => m7 i (by rw [hs]; exact hi)) (k6.trans (le_of_eq ?_))
  unfold pairNorm
  rw [m5, m9]

/-- With exact routines, the bounds pin down the result. -/
theorem NormdistNear.exact {err d v : ℝ} {n : ℕ} (h : NormdistNear 0 err d v n) (he : err = 0) : v = d := by
  obtain ⟨h1, h2⟩ := h
  simp only [sub_zero, add_zero, one_pow, one_mul, he] at h1 h2
  exact le_antisymm h1 h2

theorem sumErr_zero (κ ν : ℝ) (n : ℕ) : sumErr 0 κ ν n = 0 := by
  unfold sumErr openTotal openErr
  split <;> simp

/-- C79: the factor in the error bounds is at most linear in the number of sites and in `ε`, as long as `n ε` is small. -/
theorem C79_factor {ε κ ν : ℝ} (hε : 0 ≤ ε) (h1 : ε ≤ 1 / 2) (hκ : 0 ≤ κ) (hν : 0 ≤ ν) (n : ℕ)
    (h : (n : ℝ) * (4 + 6 * κ + 12 * (κ * ν)) * ε ≤ 1) :
    sumErr ε κ ν n ≤ n * (2 * ν + 12 * κ ^ 2 * (1 + 4 * ν)) * ε := by
  have hs2 : Real.sqrt 2 ≤ 3 / 2 := by
    rw [Real.sqrt_le_left (by norm_num)]
    norm_num
  have hs0 := Real.sqrt_nonneg 2
  unfold sumErr
  split
  · rename_i hn
    subst hn
    have : 0 ≤ 12 * κ ^ 2 * (1 + 4 * ν) * ε := by positivity
    push_cast
    nlinarith
  · set K := 2 * κ with hK
    set N := Real.sqrt 2 * ν with hN
    have hN1 : N ≤ 3 / 2 * ν := by rw [hN]; exact mul_le_mul_of_nonneg_right hs2 hν
    have hN0 : 0 ≤ N := by positivity
    have hK0 : 0 ≤ K := by positivity
    have hKN : K * N ≤ 3 * (κ * ν) := by
      calc K * N ≤ K * (3 / 2 * ν) := mul_le_mul_of_nonneg_left hN1 hK0
        _ = _ := by rw [hK]; ring
    have hg : (1 + ε) * openGrow ε K N ≤ 1 + (4 + 6 * κ + 12 * (κ * ν)) * ε := by
      have e1 : (1 + K * ε) / (1 - ε) ≤ (1 + K * ε) * (1 + 2 * ε) := by
        rw [div_le_iff₀ (by linarith), mul_assoc]
        have : 1 ≤ (1 + 2 * ε) * (1 - ε) := by nlinarith
        have h3 : 0 ≤ 1 + K * ε := by positivity
        nlinarith
      have e2 : openGrow ε K N ≤ 1 + (2 + 2 * K + 3 / 2 * (K * N)) * ε := by
        unfold openGrow
        have e3 : K * ε * ε ≤ K * ε * (1 / 2) := mul_le_mul_of_nonneg_left h1 (by positivity)
        have e4 : K * N * ε * ε ≤ K * N * ε * (1 / 2) := mul_le_mul_of_nonneg_left h1 (by positivity)
        nlinarith
      have hb : 0 ≤ 2 + 2 * K + 3 / 2 * (K * N) := by positivity
      have e5 : (1 + ε) * openGrow ε K N ≤ (1 + ε) * (1 + (2 + 2 * K + 3 / 2 * (K * N)) * ε) :=
        mul_le_mul_of_nonneg_left e2 (by linarith)
      have e6 : (2 + 2 * K + 3 / 2 * (K * N)) * ε * ε ≤ (2 + 2 * K + 3 / 2 * (K * N)) * ε * (1 / 2) :=
        mul_le_mul_of_nonneg_left h1 (by positivity)
      have e7 : K * N * ε ≤ 3 * (κ * ν) * ε := mul_le_mul_of_nonneg_right hKN hε
      have e8 : K * ε = 2 * (κ * ε) := by rw [hK]; ring
      have e9 : 0 ≤ κ * ν * ε := by positivity
      nlinarith
    have hsum : ∑ k ∈ range (n - 1), ((1 + ε) * openGrow ε K N) ^ k ≤ n * 3 := by
      have hb : ∀ k ∈ range (n - 1), ((1 + ε) * openGrow ε K N) ^ k ≤ 3 := by
        intro k hk
        have hk' : k ≤ n := by have := Finset.mem_range.1 hk; omega
        have h0 : 0 ≤ (1 + ε) * openGrow ε K N := mul_nonneg (by linarith) (openGrow_nonneg hε (by linarith) hK0 hN0)
        have ha : 0 ≤ (4 + 6 * κ + 12 * (κ * ν)) * ε := by positivity
        calc ((1 + ε) * openGrow ε K N) ^ k ≤ (1 + (4 + 6 * κ + 12 * (κ * ν)) * ε) ^ k := pow_le_pow_left₀ h0 hg k
          _ ≤ Real.exp ((4 + 6 * κ + 12 * (κ * ν)) * ε) ^ k := by
              refine pow_le_pow_left₀ (by positivity) ?_ k
              have := Real.add_one_le_exp ((4 + 6 * κ + 12 * (κ * ν)) * ε)
              linarith
          _ = Real.exp (k * ((4 + 6 * κ + 12 * (κ * ν)) * ε)) := (Real.exp_nat_mul _ _).symm
          _ ≤ Real.exp 1 := by
              refine Real.exp_le_exp.2 (le_trans ?_ h)
              rw [mul_assoc]
              exact mul_le_mul_of_nonneg_right (by exact_mod_cast hk') ha
          _ ≤ 3 := by linarith [Real.exp_one_lt_d9]
      calc _ ≤ ∑ _k ∈ range (n - 1), (3 : ℝ) := Finset.sum_le_sum hb
        _ = (n - 1 : ℕ) * 3 := by rw [Finset.sum_const, Finset.card_range, nsmul_eq_mul]
        _ ≤ n * 3 := by
            refine mul_le_mul_of_nonneg_right ?_ (by norm_num)
            exact_mod_cast Nat.sub_le n 1
    unfold openTotal
    have he : openErr ε K N ≤ 2 * κ * ε * (1 + 4 * ν) := by
      unfold openErr
      rw [hK]
      refine mul_le_mul_of_nonneg_left ?_ (by positivity)
      have : (1 + ε) ^ 2 ≤ 9 / 4 := by nlinarith
      have := mul_le_mul this hN1 hN0 (by norm_num)
      nlinarith
    have he0 : 0 ≤ openErr ε K N := by unfold openErr; positivity
    calc K * openErr ε K N * ∑ k ∈ range (n - 1), ((1 + ε) * openGrow ε K N) ^ k ≤ K * openErr ε K N * (n * 3) :=
          mul_le_mul_of_nonneg_left hsum (by positivity)
      _ ≤ K * (2 * κ * ε * (1 + 4 * ν)) * (n * 3) :=
          mul_le_mul_of_nonneg_right (mul_le_mul_of_nonneg_left he hK0) (by positivity)
      _ = n * (12 * κ ^ 2 * (1 + 4 * ν)) * ε := by rw [hK]; ring
      _ ≤ _ := by
          have : 0 ≤ (n : ℝ) * (2 * ν) * ε := by positivity
          nlinarith

/-- C79: with exact routines, `normdist` is the 2-norm of the difference. -/
theorem C79_normdist_exact {qr : QR 𝕜} (hqr : QRNear 0 qr) {md : NDArray 𝕜 → NDArray 𝕜 → Py (NDArray 𝕜)} (hmd : MdNear 0 md)
    {nrm : NDArray 𝕜 → ℝ} (hn : NormNear 0 nrm) {ad : NDArray 𝕜 → NDArray 𝕜 → Py (NDArray 𝕜)} (had : AdNear 0 ad)
    (x y : MPA 𝕜) (hx : x.Valid) (hy : y.Valid) (hs : y.shape = x.shape) (px : AllPos x.lt) :
    normdistF qr md nrm ad x y = .ok (x.dist y) := by
  obtain ⟨v, h1, h2⟩ := C79_normdist le_rfl one_pos hqr hmd hn had x y hx hy hs px
  rw [h1, h2.exact (by rw [sumErr_zero, zero_mul])]

/-- C79: with more than one site, `x + y` does not round. -/
theorem C79_add_copies (ad : NDArray 𝕜 → NDArray 𝕜 → Py (NDArray 𝕜)) (x y : MPA 𝕜) (h : x.len ≠ 1) : x.addF ad y = x.add y :=
  addF_two ad h

/-- C79: with one site, `normdist` has a small relative error. -/
theorem C79_normdist_one {ε : ℝ} (hε : 0 ≤ ε) (h1 : ε < 1) {qr : QR 𝕜} (hqr : QRNear ε qr) {md : NDArray 𝕜 → NDArray 𝕜 → Py (NDArray 𝕜)}
    (hmd : MdNear ε md) {nrm : NDArray 𝕜 → ℝ} (hn : NormNear ε nrm) {ad : NDArray 𝕜 → NDArray 𝕜 → Py (NDArray 𝕜)} (had : AdNear ε ad)
    (x y : MPA 𝕜) (hx : x.Valid) (hy : y.Valid) (hs : y.shape = x.shape) (px : AllPos x.lt) (hlen : x.len = 1) :
    ∃ v, normdistF qr md nrm ad x y = .ok v ∧ (1 - ε) ^ 2 * x.dist y ≤ v ∧ v ≤ (1 + ε) ^ 2 * x.dist y := by
  obtain ⟨y', m1, m2, m3, _, _, _, m7, _, _, _⟩ := neg_spec hy
  obtain ⟨z, k1, k2, k3, k4, k5, k6, k7⟩ := addF_one had hx m2 (m3.trans hs) hlen px
  have hzl : z.len = 1 := (len_of_shape k4).trans hlen
  have hg : z.NearGood ε := by
    refine ⟨k2, k3, fun n t ht => ⟨fun h => by exfalso; omega, fun h => ?_⟩⟩
    have := (List.getElem?_eq_some_iff.1 ht).1
    have h2 : (z.len : ℤ) = z.lt.length := rfl
    exfalso; omega
  obtain ⟨w, q1, q2, -, -, q5⟩ := canonicalizeF_open (items := z.lt.map fun t => fitem (npNorm t) t) hε h1 zero_le_one zero_le_one hqr hmd
    k2 k3 k5 k6 (by rw [List.map_map]; exact (List.map_id _).symm) (wchain_norms fun t ht => k2.chain.isLocal t ht)
  have q5 : z.dist w ≤ 0 := by simpa [hzl, openTotal] using q5
  have hval : ∀ i, IdxOK i x.shape → y'.val i = -y.val i := fun i hi => m7 i (by rw [hs]; exact hi)
  have he : x.addErr y' w ≤ ε * x.dist y := by
    refine ((addErr_triangle (z := z) k4).trans (add_le_add_right q5 _)).trans ?_
    rw [add_zero]
    refine addErr_le (mul_nonneg hε (MPA.dist_nonneg' _ _)) ?_
    rw [mul_pow, MPA.dist_sq, Finset.mul_sum]
    refine Finset.sum_le_sum fun i hi => ?_
    rw [← mul_pow]
    refine pow_le_pow_left₀ (norm_nonneg _) ((k7 i (mem_siteSet.1 hi)).trans (le_of_eq ?_)) 2
    rw [hval i (mem_siteSet.1 hi), sub_eq_add_neg]
  obtain ⟨v, h3, h4, h5⟩ := normdistF_core hε h1 hqr hmd hn m1 k1 q1 hg (q2.shape.trans k4) (hzl.trans hlen.symm) hval he
  rw [hlen] at h4 h5
  simp only [Nat.sub_self, pow_zero, one_mul] at h4 h5
  exact ⟨v, h3, by linarith, by linarith⟩

/-! ### The contract of `numpy.add`, and examples -/

/-- C79: with exact routines, the models are those of C05 and C09. -/
theorem C79_model_exact (qr : QR 𝕜) (x y : MPA 𝕜) : x.addF NDArray.add y = x.add y ∧ x.subF NDArray.add y = x.sub y ∧
    normdistF qr matdot npNorm NDArray.add x y = normdist qr x y := ⟨rfl, rfl, rfl⟩

/-- C79: exact addition meets the contract. -/
theorem C79_ad_exact : AdNear 0 (NDArray.add (R := 𝕜)) := by
  intro a b h
  refine ⟨⟨a.shape, fun idx => a.get (bidx a.shape idx) + b.get (bidx a.shape idx)⟩, ?_, rfl, fun i hi => ?_⟩
  · unfold NDArray.add
    rw [← h, bshape_self]
  · dsimp only
    rw [bidx_self hi]
    simp

/-- Addition with a relative error of `δ`. -/
noncomputable def adScaled (δ : ℝ) (a b : NDArray 𝕜) : Py (NDArray 𝕜) := (NDArray.add a b).map fun c => c.smul ((1 + δ : ℝ) : 𝕜)

theorem adScaled_near {δ : ℝ} (hδ : 0 ≤ δ) : AdNear δ (adScaled (𝕜 := 𝕜) δ) := by
  intro a b h
  obtain ⟨c, h1, h2, h3⟩ := C79_ad_exact (𝕜 := 𝕜) a b h
  refine ⟨c.smul ((1 + δ : ℝ) : 𝕜), by unfold adScaled; rw [h1]; rfl, h2, fun i hi => ?_⟩
  have e : a.get i + b.get i = c.get i := by
    have := h3 i hi
    rw [zero_mul] at this
    exact sub_eq_zero.1 (norm_le_zero_iff.1 this)
  show ‖a.get i + b.get i - ((1 + δ : ℝ) : 𝕜) * c.get i‖ ≤ _
  rw [e, show c.get i - ((1 + δ : ℝ) : 𝕜) * c.get i = -((δ : ℝ) : 𝕜) * c.get i by push_cast; ring, norm_mul, norm_neg, RCLike.norm_ofReal,
    abs_of_nonneg hδ]

/-- Non-vacuity: two canonical forms of the example MPA, computed with inexact routines, meet the hypotheses. -/
example : ∃ (qr : QR ℂ) (y : MPA ℂ) (u v : ℝ), exMPAc.canonicalizeF qr (mdScaled (1 / 1000)) (.int 1) .none = .ok y ∧
    AdNear (1 / 1000) (adScaled (𝕜 := ℂ) (1 / 1000)) ∧
    normdistF qr (mdScaled (1 / 1000)) npNorm (adScaled (1 / 1000)) exMPAc y = .ok u ∧
    NormdistNear (1 / 1000) (sumErr (1 / 1000) 1 1 2 * maxNorms exMPAc y) (exMPAc.dist y) u 2 ∧
    normdistF qr (mdScaled (1 / 1000)) npNorm (adScaled (1 / 1000)) y y = .ok v ∧
    NormdistNear (1 / 1000) (sumErr (1 / 1000) (Real.sqrt 2) (Real.sqrt 2) y.len *
      ((1 + 1 / 1000) / (1 - 1 / 1000)) ^ (2 * (y.len - 1)) * pairNorm y y) (y.dist y) v y.len := by
  obtain ⟨qr, hqr⟩ := exists_QRSpec (𝕜 := ℂ)
  have hq : QRNear (1 / 1000) qr := qrNear_mono le_rfl (by norm_num) (by norm_num) (C75_qr_exact hqr)
  have hmd := mdScaled_near (𝕜 := ℂ) (δ := 1 / 1000) (by norm_num)
  have had := adScaled_near (𝕜 := ℂ) (δ := 1 / 1000) (by norm_num)
  have hn : NormNear (1 / 1000) (npNorm (𝕜 := ℂ)) := fun t => by
    simp only [sub_self, abs_zero]
    exact mul_nonneg (by norm_num) (npNorm_nonneg' _)
  have hg := C75_good (ε := 1 / 1000) (by norm_num) (by norm_num) exMPAc_good
  have hl : exMPAc.len = 2 := rfl
  obtain ⟨y, a1, a2, a3, a4, a5⟩ := MPA.canonicalizeF_ok (left := .int 1) (right := .none) (tl := 1) (tr := 2) (by norm_num) hq hmd hg rfl
    (by rw [hl]; rfl) (by rw [hl]; rfl) (by norm_num) (by norm_num) (by rw [hl]; norm_num)
  obtain ⟨u, u1, u2⟩ := C79_normdist (by norm_num) (by norm_num) hq hmd hn had exMPAc y exMPAc_good.valid a2.good.valid a2.shape
    exMPAc_good.pos
  have hr : y.r = y.l + 1 := by rw [a3, a4]; rfl
  have hD : ∀ q ∈ y.ranks, q ≤ 2 := a2.ranks.bound (by decide)
  obtain ⟨v, v1, v2⟩ := C79_normdist_canonical (by norm_num) (by norm_num) (by norm_num) (by norm_num) hq hmd hn had y y a2.good a2.good rfl
    hr hr (D := 2) (by norm_num) hD hD
  exact ⟨qr, y, u, v, a1, had, u1, u2, v1, v2⟩

end Mpnum
