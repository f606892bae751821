import Verif.MPArray.RoundingOpenL
import Verif.Props.C79

/-!
C81: `compress` of sums and differences in floating point arithmetic.

`(x + y).compress(...)` is `MPA.addF` followed by `MPA.compressF`, with the error contracts of C77 and C79.  A sum is not in canonical
form, so that C77 alone bounds the rounding errors only by the product of the norms of its local tensors.  Here they are bounded by
the norms of `x` and `y`.

Specification: `MPA.addErr x y w` (`MPA.subErr x y w`) is the 2-norm of the difference of `x + y` (`x - y`) and `w`.
-/

open Finset

namespace Mpnum

variable {𝕜 : Type} [RCLike 𝕜]

/-! ### the mirror image of a chain with weights -/

/-- The mirror image of a chain with weights. -/
def frev (ts : List (FItem 𝕜)) : List (FItem 𝕜) := (ts.map fun q => fitem q.s q.t.rev3).reverse

theorem frev_t (ts : List (FItem 𝕜)) : (frev ts).map FItem.t = revs (ts.map FItem.t) := by
  unfold frev revs
  rw [List.map_reverse, List.map_map, List.map_map]; rfl

theorem frev_s (ts : List (FItem 𝕜)) : (frev ts).map FItem.s = (ts.map FItem.s).reverse := by
  unfold frev
  rw [List.map_reverse, List.map_map]; rfl

theorem Weighted.rev {A B : List (ℝ × NDArray 𝕜)} {D : ℕ} (h : Weighted A B D) :
    Weighted (B.map fun q => (q.1, q.2.rev3)).reverse (A.map fun q => (q.1, q.2.rev3)).reverse D := by
  refine ⟨h.one, ?_, ?_, ?_, ?_, ?_⟩
  · intro q hq
    simp only [List.mem_append, List.mem_reverse, List.mem_map] at hq
    rcases hq with ⟨p, hp, rfl⟩ | ⟨p, hp, rfl⟩
    · exact h.nonneg p (by simp [hp])
    · exact h.nonneg p (by simp [hp])
  all_goals
    intro q hq
    simp only [List.mem_reverse, List.mem_map] at hq
    obtain ⟨p, hp, rfl⟩ := hq
  · exact rev3_lop (h.right p hp)
  · exact rev3_rop (h.left p hp)
  · simpa only [rev3_rb] using h.lb p hp
  · simpa only [rev3_lb] using h.rb p hp

theorem Weighted.wchain_rev {A B : List (ℝ × NDArray 𝕜)} {D : ℕ} (h : Weighted A B D) :
    WChain (Real.sqrt D) (Real.sqrt D) (frev ((A ++ B).map fun q => fitem q.1 q.2)) := by
  have := h.rev.wchain (by
    intro q hq
    simp only [List.mem_append, List.mem_reverse, List.mem_map] at hq
    rcases hq with ⟨p, hp, rfl⟩ | ⟨p, hp, rfl⟩ <;> exact rev3_local _)
  unfold frev
  rw [← List.reverse_append, ← List.map_append, List.map_reverse, List.map_map] at this
  rw [List.map_map]
  exact this

theorem wchain_norms_rev {ts : List (NDArray 𝕜)} (h : ∀ t ∈ ts, t.IsLocal) : WChain 1 1 (frev (ts.map fun t => fitem (npNorm t) t)) := by
  have e : frev (ts.map fun t => fitem (npNorm t) t) = (revs ts).map fun t => fitem (npNorm t) t := by
    unfold frev revs
    rw [List.map_reverse, List.map_map, List.map_map]
    congr 1
    refine List.map_congr_left fun t ht => ?_
    simp only [Function.comp, fitem, rev3_npNorm (h t ht)]
  rw [e]
  refine wchain_norms fun t ht => ?_
  unfold revs at ht
  rw [List.mem_reverse] at ht
  obtain ⟨s, _, rfl⟩ := List.mem_map.1 ht
  exact rev3_local s

/-- The mirror image of the chain of `x + y` with the larger of the weights of both. -/
theorem MPA.add_wchain_rev {κ ν : ℝ} (hκ : 0 ≤ κ) (hν : 0 ≤ ν) {x y z : MPA 𝕜} (hx : x.Valid) (hy : y.Valid) (hs : y.shape = x.shape)
    (hn : 2 ≤ x.len) (hz : x.add y = .ok z) {wx wy : List (FItem 𝕜)}
    (hwx : wx.map FItem.t = x.lt) (hwy : wy.map FItem.t = y.lt) (hcx : WChain κ ν (frev wx)) (hcy : WChain κ ν (frev wy)) :
    ∃ items : List (FItem 𝕜), revs z.lt = items.map FItem.t ∧ WChain (2 * κ) (Real.sqrt 2 * ν) items ∧
      fprod items = (List.zipWith max (wx.map FItem.s) (wy.map FItem.s)).prod := by
  have hlen : y.len = x.len := by
    have := congrArg List.length hs
    simpa [MPA.shape, MPA.len] using this
  have lx : wx.length = x.len := by rw [MPA.len, ← hwx]; simp
  have ly : wy.length = x.len := by rw [← hlen, MPA.len, ← hwy]; simp
  obtain ⟨is, h1, h2, h3, h4, -, h5⟩ := MPA.add_struct hx hy hs hn hz (ws := List.zipWith max (wx.map FItem.s) (wy.map FItem.s)) (by
    simp [lx, ly])
  obtain ⟨m1, m2⟩ := forall₂_max (a := wx.map FItem.s) (b := wy.map FItem.s) (by simp [lx, ly])
  have hc1 := chained_revs hx.chain
  have hc2 := chained_revs hy.chain
  have rt : (srev is).map SItem.t = revs x.lt := by
    rw [h2]; unfold srev revs; rw [List.map_reverse, List.map_map, List.map_map]; rfl
  have ru : (srev is).map SItem.u = revs y.lt := by
    rw [h3]; unfold srev revs; rw [List.map_reverse, List.map_map, List.map_map]; rfl
  have rz : (srev is).map SItem.z = revs z.lt := by
    rw [h1]; unfold srev revs; rw [List.map_reverse, List.map_map, List.map_map]; rfl
  have rs : (srev is).map SItem.s = (List.zipWith max (wx.map FItem.s) (wy.map FItem.s)).reverse := by
    rw [← h4]; unfold srev; rw [List.map_reverse, List.map_map]; rfl
  rw [← rt] at hc1
  rw [← ru] at hc2
  have es : ∀ f : SItem 𝕜 → NDArray 𝕜, ((srev is).map fun i => fitem i.s (f i)).map FItem.s = (srev is).map SItem.s := by
    intro f; rw [List.map_map]; rfl
  have et : ∀ f : SItem 𝕜 → NDArray 𝕜, ((srev is).map fun i => fitem i.s (f i)).map FItem.t = (srev is).map f := by
    intro f; rw [List.map_map]; rfl
  have w1 : WChain κ ν ((srev is).map fun i => fitem i.s i.t) := hcx.mono hκ hν (by rw [et SItem.t, frev_t, hwx, rt])
    (by rw [es SItem.t, rs, frev_s]; exact List.rel_reverse m1)
  have w2 : WChain κ ν ((srev is).map fun i => fitem i.s i.u) := hcy.mono hκ hν (by rw [et SItem.u, frev_t, hwy, ru])
    (by rw [es SItem.u, rs, frev_s]; exact List.rel_reverse m2)
  refine ⟨(srev is).map fun i => fitem i.s i.z, by rw [et SItem.z, rz], h5.wchain hκ hν hc1 hc2 w1 w2, ?_⟩
  unfold fprod
  rw [es SItem.z, rs, List.prod_reverse]

/-! ### `compress` -/

/-- The rounding error of `compress` of a sum: `c` bounds the one of the compression relative to the norms of the summands, `e` is the
error of the canonicalisation at the beginning. -/
noncomputable def sumCompErr (ε : ℝ) (D n : ℕ) (f e : ℝ) : ℝ :=
  compErr ε D (n - 1) * f + (1 + Real.sqrt (n - 1 : ℕ) + compErr ε D (n - 1)) * e

theorem ranks_of_sum {x y z : MPA 𝕜} {D : ℕ} (hD : ∀ q ∈ x.ranks, q ≤ D) (hD' : ∀ q ∈ y.ranks, q ≤ D) (hl : z.len = x.len)
    (h : ∀ k, k + 1 < x.len → z.ranks[k]? = some (x.ranks.getD k 0 + y.ranks.getD k 0)) : ∀ q ∈ z.ranks, q ≤ 2 * D := by
  have aux : ∀ (l : List ℕ) k, (∀ q ∈ l, q ≤ D) → l.getD k 0 ≤ D := by
    intro l k hl
    rw [List.getD_eq_getElem?_getD]
    cases hk : l[k]? with
    | none => simp
    | some q => exact hl q (List.mem_of_getElem? hk)
  intro q hq
  obtain ⟨k, hk, rfl⟩ := List.getElem_of_mem hq
  have hzl : z.ranks.length = z.len - 1 := by simp [MPA.ranks, MPA.len]
  have := h k (by omega)
  rw [List.getElem?_eq_getElem hk] at this
  simp only [Option.some.injEq] at this
  rw [this]
  have := aux x.ranks k hD
  have := aux y.ranks k hD'
  omega

theorem addErr_eq_dist {x y z w : MPA 𝕜} (hs : z.shape = x.shape) (hv : ∀ i, IdxOK i x.shape → z.val i = x.val i + y.val i) :
    x.addErr y w = z.dist w := by
  unfold MPA.addErr MPA.dist
  rw [hs]
  congr 1
  exact sumSites_congr fun i hi => by rw [hv i hi]

theorem frob_sum_le {x y z : MPA 𝕜} (hs : y.shape = x.shape) (hz : z.shape = x.shape)
    (hv : ∀ i, IdxOK i x.shape → z.val i = x.val i + y.val i) : z.frob ≤ x.frob + y.frob := by
  refine (abs_le_of_sq_le_sq' ?_ (add_nonneg x.frob_nonneg' y.frob_nonneg')).2
  have := mink (siteSet x.shape) x.val y.val x.frob_nonneg' y.frob_nonneg' (le_of_eq x.frob_sq'.symm) (le_of_eq (by rw [MPA.frob_sq', hs]))
  rw [MPA.frob_sq', hz]
  refine le_trans (le_of_eq ?_) this
  exact Finset.sum_congr rfl fun i hi => by rw [hv i (mem_siteSet.1 hi)]

/-- What `compress` of `x + y` returns; `E` is the bound of the rounding error. -/
structure SumCompressed (ε : ℝ) (x y : MPA 𝕜) (rank : Option ℤ) (relerr : Option ℝ) (z w : MPA 𝕜) (o E : ℝ) : Prop where
  good : w.NearGood ε
  one : w.r = w.l + 1
  shape : w.shape = x.shape
  ranks : w.RanksLe z
  rank_le : ∀ r, rank = some r → ∀ q ∈ w.ranks, (q : ℤ) ≤ r
  overlap : OverlapNear ε w o
  err : ∀ v : MPA 𝕜, v.Valid → v.shape = x.shape →
    (v.RanksLe w ∨ relerr = none ∧ (∀ r, rank = some r → ∀ q ∈ v.ranks, (q : ℤ) ≤ r) ∧ (rank = none → v.RanksLe z)) →
    x.addErr y w ≤ Real.sqrt (x.len - 1 : ℕ) * x.addErr y v + E

theorem sum_compress_weights {ε κ ν : ℝ} (hε : 0 ≤ ε) (h1 : ε < 1) (hκ : 0 ≤ κ) (hν : 0 ≤ ν) {ar : Arith 𝕜} (har : ar.Near ε)
    {x y : MPA 𝕜} (hx : x.Valid) (hy : y.Valid) (hs : y.shape = x.shape) (px : AllPos x.lt) (hlen : x.len ≠ 1) {wx wy : List (FItem 𝕜)}
    (hwx : wx.map FItem.t = x.lt) (hwy : wy.map FItem.t = y.lt) (hcx : WChain κ ν wx) (hcy : WChain κ ν wy)
    (hcx' : WChain κ ν (frev wx)) (hcy' : WChain κ ν (frev wy)) {D : ℕ} (hD1 : 1 ≤ D) (dx : ∀ q ∈ x.ranks, q ≤ D)
    (dy : ∀ q ∈ y.ranks, q ≤ D) :
    ∃ z, x.add y = .ok z ∧ ∀ (rank : Option ℤ), (∀ r, rank = some r → 0 < r) → ∀ relerr : Option ℝ,
      (∀ e, relerr = some e → 0 ≤ e ∧ e ≤ 1) → ∀ direction : Option Dir, direction ≠ some .other →
      ∃ w o, z.compressF ar rank relerr direction true = .ok (w, o) ∧ SumCompressed ε x y rank relerr z w o
        (sumCompErr ε (2 * D) x.len (x.frob + y.frob)
          (sumErr ε κ ν x.len * (List.zipWith max (wx.map FItem.s) (wy.map FItem.s)).prod)) := by
  have hlp : 0 < x.len := List.length_pos_of_ne_nil hx.ne
  have hn2 : 2 ≤ x.len := by omega
  obtain ⟨z, k1, k2, k3, k4, kr, k6, k7⟩ := C05_add x y hx hy hs.symm
  have hzl : z.len = x.len := by
    have := congrArg List.length k3
    simpa [MPA.shape, MPA.len] using this
  obtain ⟨items, i1, i2, i3, i4⟩ := MPA.add_wchain hκ hν hx hy hs hn2 k1 px hwx hwy hcx hcy
  obtain ⟨items', j1, j2, j3⟩ := MPA.add_wchain_rev hκ hν hx hy hs hn2 k1 hwx hwy hcx' hcy'
  refine ⟨z, k1, fun rank hr relerr he direction hd => ?_⟩
  obtain ⟨z', w, o, c1, ⟨left, right, cd, c2⟩, c3, c4, c5, c6, c7, c8, c9⟩ := C77_compress hε h1 har z (fresh_near k2 i4 k6 k7)
    (by rw [hzl]; exact hlen) rank hr relerr he direction hd (D := 2 * D) (by omega) (ranks_of_sum dx dy hzl kr)
  have hE : z.dist z' ≤ sumErr ε κ ν x.len * (List.zipWith max (wx.map FItem.s) (wy.map FItem.s)).prod := by
    unfold sumErr
    rw [if_neg hlen]
    rcases cd with ⟨rfl, rfl⟩ | ⟨rfl, rfl⟩
    · obtain ⟨y', m1, -, -, -, m5⟩ := canonicalizeF_open_right hε h1 (by positivity) (by positivity) har.qr har.md k2 i4 k6 k7 j1 j2
      rw [m1] at c2
      cases c2
      rw [← j3, ← hzl]; exact m5
    · obtain ⟨y', m1, -, m5⟩ := canonicalizeF_open_left hε h1 (by positivity) (by positivity) har.qr har.md k2 i4 k6 k7 i1 i2
      rw [m1] at c2
      cases c2
      rw [← i3, ← hzl]; exact m5
  refine ⟨w, o, c1, c3, c4, c5.trans k3, c6, c7, c8, fun v hv hvs hvr => ?_⟩
  have h9 := c9 v hv (hvs.trans k3.symm) hvr
  rw [addErr_eq_dist k3 k4, addErr_eq_dist k3 k4]
  rw [hzl] at h9
  have hf := frob_sum_le hs k3 k4
  unfold sumCompErr
  set m := x.len - 1
  set E := sumErr ε κ ν x.len * (List.zipWith max (wx.map FItem.s) (wy.map FItem.s)).prod
  have hc := compErr_nonneg hε h1 (2 * D) m
  have a1 := mul_le_mul_of_nonneg_left hE (show 0 ≤ 1 + Real.sqrt m by positivity)
  have a2 := mul_le_mul_of_nonneg_left (add_le_add hf hE) hc
  linarith

/-- C81: `(x + y).compress(...)` for any two MPAs of the same shape: it succeeds, and the result is as good as the best approximation of
`x + y` with these ranks, up to the factor `√(n - 1)` and an error proportional to `ε`. -/
theorem C81_compress_sum {ε : ℝ} (hε : 0 ≤ ε) (h1 : ε < 1) {ar : Arith 𝕜} (har : ar.Near ε)
    (ad : NDArray 𝕜 → NDArray 𝕜 → Py (NDArray 𝕜)) (x y : MPA 𝕜) (hx : x.Valid)
    (hy : y.Valid) (hs : y.shape = x.shape) (px : AllPos x.lt) (hlen : x.len ≠ 1) {D : ℕ} (hD1 : 1 ≤ D) (dx : ∀ q ∈ x.ranks, q ≤ D)
    (dy : ∀ q ∈ y.ranks, q ≤ D) (rank : Option ℤ) (hr : ∀ r, rank = some r → 0 < r) (relerr : Option ℝ)
    (he : ∀ e, relerr = some e → 0 ≤ e ∧ e ≤ 1) (direction : Option Dir) (hd : direction ≠ some .other) :
    ∃ z w o, x.addF ad y = .ok z ∧ z.compressF ar rank relerr direction true = .ok (w, o) ∧
      SumCompressed ε x y rank relerr z w o
        (sumCompErr ε (2 * D) x.len (x.frob + y.frob) (sumErr ε 1 1 x.len * maxNorms x y)) := by
  obtain ⟨z, k1, k2⟩ := sum_compress_weights (wx := x.lt.map fun t => fitem (npNorm t) t)
    (wy := y.lt.map fun t => fitem (npNorm t) t) hε h1 zero_le_one zero_le_one har hx hy hs px hlen
    (by rw [List.map_map]; exact List.map_id _) (by rw [List.map_map]; exact List.map_id _)
    (wchain_norms fun t ht => hx.chain.isLocal t ht) (wchain_norms fun t ht => hy.chain.isLocal t ht)
    (wchain_norms_rev fun t ht => hx.chain.isLocal t ht) (wchain_norms_rev fun t ht => hy.chain.isLocal t ht) hD1 dx dy
  obtain ⟨w, o, k3, k4⟩ := k2 rank hr relerr he direction hd
  rw [List.map_map, List.map_map] at k4
  exact ⟨z, w, o, by rw [addF_two ad hlen, k1], k3, k4⟩

/-- The factor in the bound of the error of the canonicalisation of a sum of two MPAs in canonical form up to `η`. -/
noncomputable def canonSumErr (ε η : ℝ) (D n : ℕ) : ℝ := sumErr ε (Real.sqrt D) (Real.sqrt D) n * ((1 + η) / (1 - η)) ^ (2 * (n - 1))

/-- C81: `(x + y).compress(...)` for two MPAs in canonical form (up to `η`): the rounding error is bounded relative to the norms of `x` and
`y`. -/
theorem C81_compress_sum_canonical {ε η : ℝ} (hε : 0 ≤ ε) (h1 : ε < 1) (hη : 0 ≤ η) (h2 : η < 1) {ar : Arith 𝕜} (har : ar.Near ε)
    (ad : NDArray 𝕜 → NDArray 𝕜 → Py (NDArray 𝕜)) (x y : MPA 𝕜) (hx : x.NearGood η) (hy : y.NearGood η) (hs : y.shape = x.shape)
    (rx : x.r = x.l + 1) (ry : y.r = y.l + 1) (hlen : x.len ≠ 1) {D : ℕ} (hD1 : 1 ≤ D) (dx : ∀ q ∈ x.ranks, q ≤ D)
    (dy : ∀ q ∈ y.ranks, q ≤ D) (rank : Option ℤ) (hr : ∀ r, rank = some r → 0 < r) (relerr : Option ℝ)
    (he : ∀ e, relerr = some e → 0 ≤ e ∧ e ≤ 1) (direction : Option Dir) (hd : direction ≠ some .other) :
    ∃ z w o, x.addF ad y = .ok z ∧ z.compressF ar rank relerr direction true = .ok (w, o) ∧
      SumCompressed ε x y rank relerr z w o
        (sumCompErr ε (2 * D) x.len (x.frob + y.frob) (canonSumErr ε η D x.len * pairNorm x y)) := by
  have hyl : y.len = x.len := by
    have := congrArg List.length hs
    simpa [MPA.shape, MPA.len] using this
  obtain ⟨A, B, a1, a2, c, k, τ, a3, a4, a5, a6, a7⟩ := hx.weights_center hη h2 rx hD1 dx
  obtain ⟨A', B', b1, b2, c', k', σ, b3, b4, b5, b6, b7⟩ := hy.weights_center hη h2 ry hD1 dy
  rw [hyl] at b4 b6
  have et : ∀ l : List (ℝ × NDArray 𝕜), (l.map fun q => fitem q.1 q.2).map FItem.t = l.map Prod.snd := fun l => by rw [List.map_map]; rfl
  have es : ∀ l : List (ℝ × NDArray 𝕜), (l.map fun q => fitem q.1 q.2).map FItem.s = l.map Prod.fst := fun l => by rw [List.map_map]; rfl
  obtain ⟨z, k1, k2⟩ := sum_compress_weights (wx := (A ++ B).map fun q => fitem q.1 q.2)
    (wy := (A' ++ B').map fun q => fitem q.1 q.2) hε h1 (Real.sqrt_nonneg D) (Real.sqrt_nonneg D) har hx.valid hy.valid hs hx.pos hlen
    ((et _).trans a1) ((et _).trans b1)
    (a2.wchain fun q hq => hx.valid.chain.isLocal _ (by rw [← a1]; exact List.mem_map_of_mem hq))
    (b2.wchain fun q hq => hy.valid.chain.isLocal _ (by rw [← b1]; exact List.mem_map_of_mem hq)) a2.wchain_rev b2.wchain_rev hD1 dx dy
  obtain ⟨w, o, k3, k4⟩ := k2 rank hr relerr he direction hd
  refine ⟨z, w, o, by rw [addF_two ad hlen, k1], k3, k4.good, k4.one, k4.shape, k4.ranks, k4.rank_le, k4.overlap, fun v hv hvs hvr =>
    (k4.err v hv hvs hvr).trans (add_le_add_right ?_ _)⟩
  unfold sumCompErr
  refine add_le_add_right (mul_le_mul_of_nonneg_left ?_ (by have := compErr_nonneg hε h1 (2 * D) (x.len - 1); positivity)) _
  unfold canonSumErr
  rw [mul_assoc]
  refine mul_le_mul_of_nonneg_left ?_ (sumErr_nonneg hε h1 (Real.sqrt_nonneg D) (Real.sqrt_nonneg D) _)
  rw [es, es]
  refine (pair_weights hη h2 a4 b4 a5 b5 a6 b6 a7 b7).trans (le_of_eq ?_)
  unfold pairNorm
  congr 1
  by_cases h : c = c'
  · rw [if_pos h, if_pos (by rw [← a3, ← b3, h])]
  · rw [if_neg h, if_neg (by rw [← a3, ← b3]; exact_mod_cast h)]

/-- C81: a compression that need not truncate changes the sum by rounding errors only. -/
theorem C81_lossless {ε : ℝ} {x y z w : MPA 𝕜} {rank : Option ℤ} {o E : ℝ} (hx : x.Valid) (hy : y.Valid) (hs : y.shape = x.shape)
    (hz : x.add y = .ok z) (hr : ∀ r, rank = some r → ∀ q ∈ z.ranks, (q : ℤ) ≤ r) (h : SumCompressed ε x y rank none z w o E) :
    x.addErr y w ≤ E := by
  obtain ⟨z', k1, k2, k3, k4, -⟩ := C05_add x y hx hy hs.symm
  rw [hz] at k1
  cases k1
  have := h.err z k2 k3 (.inr ⟨rfl, hr, fun _ => MPA.RanksLe.rfl' z⟩)
  rw [addErr_eq_dist k3 k4, addErr_eq_dist k3 k4, MPA.dist_self', mul_zero, zero_add] at this
  rw [addErr_eq_dist k3 k4]
  exact this

/-- C81: with one site `compress` does not truncate, so that only the addition rounds. -/
theorem C81_single {ε : ℝ} (hε : 0 ≤ ε) (h1 : ε ≤ 1) {ar : Arith 𝕜} (har : ar.Near ε) {ad : NDArray 𝕜 → NDArray 𝕜 → Py (NDArray 𝕜)}
    (had : AdNear ε ad) (x y : MPA 𝕜) (hx : x.Valid) (hy : y.Valid) (hs : y.shape = x.shape) (px : AllPos x.lt) (hlen : x.len = 1)
    (rank : Option ℤ) (relerr : Option ℝ) (direction : Option Dir) :
    ∃ z w o, x.addF ad y = .ok z ∧ z.compressF ar rank relerr direction true = .ok (w, o) ∧ w.NearGood ε ∧ w.shape = x.shape ∧
      x.addErr y w ≤ ε * (x.frob + y.frob) ∧ o ≤ (1 + ε) ^ 3 * w.frob ^ 2 ∧ (1 - ε) ^ 3 * w.frob ^ 2 ≤ o := by
  obtain ⟨z, k1, k2, k3, k4, k5, k6, k7⟩ := addF_one had hx hy hs hlen px
  obtain ⟨w, o, c1, c2, c3, c4, c5, c6⟩ := C77_single hε h1 har z (fresh_near k2 k3 k5 k6) ((len_of_shape k4).trans hlen) rank relerr direction
    true
  have hf : w.frob = z.frob := by
    have := MPA.frob_dist c3
    rw [c4] at this
    have := abs_le.1 this
    linarith
  refine ⟨z, w, o, k1, c1, c2, c3.trans k4, ?_, by rw [hf]; exact c5, by rw [hf]; exact c6⟩
  refine (addErr_triangle (z := z) k4).trans ?_
  rw [c4, add_zero]
  refine addErr_le (by have := x.frob_nonneg'; have := y.frob_nonneg'; positivity) ?_
  have := mink (siteSet x.shape) x.val y.val x.frob_nonneg' y.frob_nonneg' (le_of_eq x.frob_sq'.symm) (le_of_eq (by rw [MPA.frob_sq', hs]))
  rw [mul_pow]
  refine le_trans ?_ (mul_le_mul_of_nonneg_left this (sq_nonneg ε))
  rw [Finset.mul_sum]
  refine Finset.sum_le_sum fun i hi => ?_
  rw [← mul_pow]
  exact pow_le_pow_left₀ (norm_nonneg _) (k7 i (mem_siteSet.1 hi)) 2

/-! ### Differences -/

/-- The 2-norm of the difference of `x - y` and `w`. -/
noncomputable def MPA.subErr (x y w : MPA 𝕜) : ℝ := Real.sqrt (sumSites x.shape fun i => ‖x.val i - y.val i - w.val i‖ ^ 2)

theorem addErr_neg {x y y' : MPA 𝕜} (h : ∀ i, IdxOK i x.shape → y'.val i = -y.val i) (w : MPA 𝕜) : x.addErr y' w = x.subErr y w := by
  unfold MPA.addErr MPA.subErr
  congr 1
  exact sumSites_congr fun i hi => by rw [h i hi, ← sub_eq_add_neg]

/-- C81: `(x - y).compress(...)` for two MPAs in canonical form (up to `η`). -/
theorem C81_compress_sub {ε η : ℝ} (hε : 0 ≤ ε) (h1 : ε < 1) (hη : 0 ≤ η) (h2 : η < 1) {ar : Arith 𝕜} (har : ar.Near ε)
    (ad : NDArray 𝕜 → NDArray 𝕜 → Py (NDArray 𝕜)) (x y : MPA 𝕜) (hx : x.NearGood η) (hy : y.NearGood η) (hs : y.shape = x.shape)
    (rx : x.r = x.l + 1) (ry : y.r = y.l + 1) (hlen : x.len ≠ 1) {D : ℕ} (hD1 : 1 ≤ D) (dx : ∀ q ∈ x.ranks, q ≤ D)
    (dy : ∀ q ∈ y.ranks, q ≤ D) (rank : Option ℤ) (hr : ∀ r, rank = some r → 0 < r) (relerr : Option ℝ)
    (he : ∀ e, relerr = some e → 0 ≤ e ∧ e ≤ 1) (direction : Option Dir) (hd : direction ≠ some .other) :
    ∃ z w o, x.subF ad y = .ok z ∧ z.compressF ar rank relerr direction true = .ok (w, o) ∧ w.NearGood ε ∧ w.r = w.l + 1 ∧
      w.shape = x.shape ∧ w.RanksLe z ∧ (∀ r, rank = some r → ∀ q ∈ w.ranks, (q : ℤ) ≤ r) ∧ OverlapNear ε w o ∧
      ∀ v : MPA 𝕜, v.Valid → v.shape = x.shape →
        (v.RanksLe w ∨ relerr = none ∧ (∀ r, rank = some r → ∀ q ∈ v.ranks, (q : ℤ) ≤ r) ∧ (rank = none → v.RanksLe z)) →
        x.subErr y w ≤ Real.sqrt (x.len - 1 : ℕ) * x.subErr y v +
          sumCompErr ε (2 * D) x.len (x.frob + y.frob) (canonSumErr ε η D x.len * pairNorm x y) := by
  obtain ⟨y', m1, m2, m3, m4, m5, m6, m7, m8, m9, m10⟩ := neg_spec hy.valid
  obtain ⟨z, w, o, k1, k2, k3⟩ := C81_compress_sum_canonical hε h1 hη h2 har ad x y' hx (m10 η hy) (m3.trans hs) rx (by rw [m5, m6]; exact ry)
    hlen hD1 dx (by rw [m4]; exact dy) rank hr relerr he direction hd
  have hv : ∀ i, IdxOK i x.shape → y'.val i = -y.val i := fun i hi => m7 i (by rw [hs]; exact hi)
  refine ⟨z, w, o, by unfold MPA.subF; rw [m1]; exact k1, k2, k3.good, k3.one, k3.shape, k3.ranks, k3.rank_le, k3.overlap,
    fun v h3 h4 h5 => ?_⟩
  have := k3.err v h3 h4 h5
  have hp : pairNorm x y' = pairNorm x y := by unfold pairNorm; rw [m5, m9]
  rw [addErr_neg hv, addErr_neg hv, m9, hp] at this
  exact this

/-! ### The size of the bounds -/

/-- C81: with exact arithmetic nothing is lost to rounding. -/
theorem C81_exact (D n : ℕ) (f η κ ν W : ℝ) : sumCompErr 0 D n f (sumErr 0 κ ν n * W) = 0 ∧ canonSumErr 0 η D n = 0 := by
  unfold sumCompErr canonSumErr
  rw [sumErr_zero, sumErr_zero, (C77_exact D (n - 1) n).1]
  simp

/-- C81: the rounding error is of first order in `ε`, with factors polynomial in the number of sites and the rank. -/
theorem C81_first_order {ε κ ν f W : ℝ} (hε : 0 ≤ ε) (h1 : ε ≤ 1 / 2) (hκ : 0 ≤ κ) (hν : 0 ≤ ν) (hf : 0 ≤ f) (hW : 0 ≤ W) {D : ℕ}
    (hD : 1 ≤ D) {n : ℕ} (hn : 2 ≤ n) (h : 100 * Real.sqrt D * (n - 1 : ℕ) * ε ≤ 1) (h' : (n : ℝ) * (4 + 6 * κ + 12 * (κ * ν)) * ε ≤ 1) :
    sumCompErr ε D n f (sumErr ε κ ν n * W) ≤ (40 * Real.sqrt D * ((n - 1 : ℕ) * Real.sqrt (n - 1 : ℕ)) * f +
      3 * Real.sqrt (n - 1 : ℕ) * (n * (2 * ν + 12 * κ ^ 2 * (1 + 4 * ν))) * W) * ε := by
  have a1 := C77_first_order hε hD (n - 1) h
  have a2 := C79_factor hε h1 hκ hν n h'
  have hm1 : (1 : ℝ) ≤ (n - 1 : ℕ) := by exact_mod_cast (by omega : 1 ≤ n - 1)
  have hsm : 1 ≤ Real.sqrt (n - 1 : ℕ) := by
    rw [show (1 : ℝ) = Real.sqrt 1 by simp]
    exact Real.sqrt_le_sqrt hm1
  have a3 : compErr ε D (n - 1) ≤ Real.sqrt (n - 1 : ℕ) := by
    refine a1.trans ?_
    have : 40 * Real.sqrt D * ((n - 1 : ℕ) * Real.sqrt (n - 1 : ℕ)) * ε = 2 / 5 * (100 * Real.sqrt D * (n - 1 : ℕ) * ε) *
        Real.sqrt (n - 1 : ℕ) := by ring
    rw [this]
    nlinarith
  have hs0 := sumErr_nonneg hε (by linarith) hκ hν n
  unfold sumCompErr
  have b1 := mul_le_mul_of_nonneg_right a1 hf
  have b2 : (1 + Real.sqrt (n - 1 : ℕ) + compErr ε D (n - 1)) * (sumErr ε κ ν n * W) ≤
      3 * Real.sqrt (n - 1 : ℕ) * (n * (2 * ν + 12 * κ ^ 2 * (1 + 4 * ν)) * ε * W) :=
    mul_le_mul (by linarith) (mul_le_mul_of_nonneg_right a2 hW) (mul_nonneg hs0 hW) (by positivity)
  refine (add_le_add b1 b2).trans (le_of_eq ?_)
  ring

/-- Non-vacuity: the sum of the example MPA and a canonical form of it, and of this canonical form with itself, compressed to rank one with
inexact routines. -/
example : ∃ (ar : Arith ℂ) (y z w z' w' : MPA ℂ) (o o' : ℝ), ar.Near (1 / 1000) ∧
    exMPAc.canonicalizeF ar.qr ar.md (.int 1) .none = .ok y ∧
    exMPAc.addF (adScaled (1 / 1000)) y = .ok z ∧ z.compressF ar (some 1) none none true = .ok (w, o) ∧ (∀ q ∈ w.ranks, (q : ℤ) ≤ 1) ∧
    y.addF (adScaled (1 / 1000)) y = .ok z' ∧ z'.compressF ar (some 1) none none true = .ok (w', o') ∧
    SumCompressed (1 / 1000) y y (some 1) none z' w' o' (sumCompErr (1 / 1000) 4 y.len (y.frob + y.frob)
      (canonSumErr (1 / 1000) (1 / 1000) 2 y.len * pairNorm y y)) := by
  obtain ⟨qr, hqr⟩ := exists_QRSpec (𝕜 := ℂ)
  obtain ⟨svd, hsvd⟩ := exists_SVDSpec (𝕜 := ℂ)
  have har := arith_scaled_near (δ := 1 / 1000) (by norm_num) (by norm_num) hqr hsvd
  have hg := C75_good (ε := 1 / 1000) (by norm_num) (by norm_num) exMPAc_good
  have hl : exMPAc.len = 2 := rfl
  obtain ⟨y, a1, a2, a3, a4, a5⟩ := MPA.canonicalizeF_ok (left := .int 1) (right := .none) (tl := 1) (tr := 2) (by norm_num) har.qr har.md hg
    rfl (by rw [hl]; rfl) (by rw [hl]; rfl) (by norm_num) (by norm_num) (by rw [hl]; norm_num)
  have hr : y.r = y.l + 1 := by rw [a3, a4]; rfl
  have hD : ∀ q ∈ y.ranks, q ≤ 2 := a2.ranks.bound (by decide)
  have hy1 : y.len ≠ 1 := by rw [len_of_shape a2.shape, hl]; decide
  obtain ⟨z, w, o, c1, c2, c3⟩ := C81_compress_sum (by norm_num) (by norm_num) har (adScaled (1 / 1000)) exMPAc y exMPAc_good.valid
    a2.good.valid a2.shape exMPAc_good.pos (by decide) (D := 2) (by norm_num) (by decide) hD (some 1) (by simp) none (by simp) none (by simp)
  obtain ⟨z', w', o', d1, d2, d3⟩ := C81_compress_sum_canonical (by norm_num) (by norm_num) (by norm_num) (by norm_num) har
    (adScaled (1 / 1000)) y y a2.good a2.good rfl hr hr hy1 (D := 2) (by norm_num) hD hD (some 1) (by simp) none (by simp) none (by simp)
  exact ⟨_, y, z, w, z', w', o, o', har, a1, c1, c2, c3.rank_le 1 rfl, d1, d2, d3⟩

end Mpnum
