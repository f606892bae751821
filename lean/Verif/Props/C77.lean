import Verif.MPArray.RoundingCompressMain

/-!
C77: `compress(method='svd')` in floating point arithmetic.

The model `MPA.compressF` (RoundingSvd.lean) is `compress` with every numerical routine replaced by one with relative error `ε`
(`Arith.Near`).  `compErr ε D m` and `canonRel ε D n`, `canonErr ε s n` are explicit functions of the precision `ε`, the largest rank
`D` and the number of sites; `C77_first_order` bounds them by multiples of `ε`.
-/

open Finset

namespace Mpnum

variable {𝕜 : Type} [RCLike 𝕜]

/-! ### the contract -/

/-- C77: exact routines meet the contract with `ε = 0`. -/
theorem C77_contract_exact {qr : QR 𝕜} (hqr : QRSpec qr) {svd : SVD 𝕜} (hsvd : SVDSpec svd) : (Arith.exact qr svd).Near 0 := by
  refine ⟨C75_qr_exact hqr, C75_md_exact, fun a b c h => ⟨c, h, rfl, fun i _ => by simp⟩, fun A m n hs => ?_, rankRelerr_pos,
    fun t => by simp [Arith.exact], fun t => ?_, fun v => by simp [Arith.exact]⟩
  · obtain ⟨h1, h2, h3, h4, h5, h6, h7, h8⟩ := hsvd A m n hs
    refine ⟨h1, h2, h3, h4, h5, fun i k => (svd A).1.get [i, k], fun k j => (svd A).2.2.get [k, j],
      fun k hk k' hk' => h6 k (by omega) k' (by omega), fun k hk k' hk' => h7 k (by omega) k' (by omega), ?_, ?_, ?_⟩
    · simp [Arith.exact]
    · simp [Arith.exact]
    · refine le_of_eq ?_
      rw [zero_pow two_ne_zero, zero_mul]
      refine Finset.sum_eq_zero fun i hi => Finset.sum_eq_zero fun j hj => ?_
      have := h8 i (by simpa using hi) j (by simpa using hj)
      simp only [Arith.exact]
      rw [← this]; simp
  · rw [npNorm_sq]
    simp [Arith.exact, MPA.absSq, nsq]

/-- C77: with exact routines the function is the model of `compress` that the other properties are about. -/
theorem C77_model_exact (qr : QR 𝕜) (svd : SVD 𝕜) (x : MPA 𝕜) (rank : Option ℤ) (relerr : Option ℝ) (direction : Option Dir)
    (canon : Bool) : x.compressF (Arith.exact qr svd) rank relerr direction canon = x.compress qr svd rank relerr direction canon :=
  MPA.compressF_exact qr svd x rank relerr direction canon

/-- C77: a larger error bound is a weaker contract for the singular value decomposition. -/
theorem C77_svd_mono {ε δ : ℝ} (hε : 0 ≤ ε) (h : ε ≤ δ) {svd : SVD 𝕜} (hs : SVDNear ε svd) : SVDNear δ svd := by
  intro A m n hA
  obtain ⟨h1, h2, h3, h4, h5, U, V, h6, h7, h8, h9, h10⟩ := hs A m n hA
  have hp : ε ^ 2 ≤ δ ^ 2 := pow_le_pow_left₀ hε h 2
  exact ⟨h1, h2, h3, h4, h5, U, V, h6, h7, h8.trans hp, h9.trans hp, h10.trans (mul_le_mul_of_nonneg_right hp (nsq_nonneg _))⟩

/-! ### the function -/

theorem MPA.effRank_near {ε : ℝ} {x : MPA 𝕜} (hx : x.NearGood ε) (hlen : x.len ≠ 1) (rank : Option ℤ)
    (hr : ∀ r, rank = some r → 0 < r) :
    ∃ r : ℤ, 0 < r ∧ x.EffRank rank r ∧ (rank = none → ∀ q ∈ x.ranks, (q : ℤ) ≤ r) := by
  have hlp : 0 < x.len := List.length_pos_of_ne_nil hx.valid.ne
  have hg : (⟨x.lt, 0, x.len⟩ : MPA 𝕜).Good := by
    refine ⟨⟨hx.valid.ne, hx.valid.chain, le_rfl, by simpa using hlp, le_rfl⟩, fun n t ht => ⟨fun h => ?_, fun h => ?_⟩, hx.pos⟩
    · simp only at h; omega
    · exfalso
      have := (List.getElem?_eq_some_iff.1 ht).1
      simp only [MPA.len] at h this
      omega
  exact MPA.effRank_ok hg hlen rank hr

theorem MPA.compressF_eq (ar : Arith 𝕜) (x : MPA 𝕜) (hlen : x.len ≠ 1) {rank : Option ℤ} {r : ℤ} (hr : x.EffRank rank r)
    (relerr : Option ℝ) (direction : Option Dir) (canon : Bool) :
    x.compressF ar rank relerr direction canon = (match x.effDir direction with
      | .right => do
        let y ← if canon then x.canonicalizeF ar.qr ar.md .none (.int 1) else .ok x
        y.compressSvdRF ar r relerr
      | .left => do
        let y ← if canon then x.canonicalizeF ar.qr ar.md (.int (x.len - 1)) .none else .ok x
        y.compressSvdLF ar r relerr
      | .other => .error .value) := by
  unfold MPA.compressF
  rw [if_neg hlen]
  unfold MPA.effDir
  cases rank with
  | some r' => cases hr; rfl
  | none =>
    simp only [show x.maxRank.map (fun m : ℕ => (m : ℤ)) = .ok r from hr, ok_bind]
    rfl

theorem MPA.effDir_ne {x : MPA 𝕜} {direction : Option Dir} (h : direction ≠ some .other) : x.effDir direction ≠ .other := by
  unfold MPA.effDir
  cases direction with
  | none => simp only [Option.getD_none]; split <;> simp
  | some d => simpa using h

/-- Both directions, after the canonicalisation that brings the MPA into the form the sweep starts from. -/
theorem MPA.compressF_core {ε : ℝ} (hε : 0 ≤ ε) (h1 : ε < 1) {ar : Arith 𝕜} (har : ar.Near ε) {x : MPA 𝕜} (hx : x.NearGood ε)
    (hlen : x.len ≠ 1) {rank : Option ℤ} {r : ℤ} (hr : 0 < r) (her : x.EffRank rank r) {relerr : Option ℝ}
    (he : ∀ e, relerr = some e → 0 ≤ e ∧ e ≤ 1) {direction : Option Dir} (hd : direction ≠ some .other) {D : ℕ} (hD1 : 1 ≤ D)
    (hD : ∀ q ∈ x.ranks, q ≤ D) (canon : Bool)
    (hc : canon = false → (x.effDir direction = .right → x.r = 1) ∧ (x.effDir direction = .left → x.l = x.len - 1)) :
    ∃ x' y o, x.compressF ar rank relerr direction canon = .ok (y, o) ∧ MPA.NearStep ε x x' ∧ CompF ε r relerr D x' y o ∧
      (canon = false → x' = x) ∧ (canon = true → ∃ left right, (left = .none ∧ right = .int 1 ∨ left = .int (x.len - 1) ∧ right = .none) ∧
          x.canonicalizeF ar.qr ar.md left right = .ok x') := by
  have hlp : 0 < x.len := List.length_pos_of_ne_nil hx.valid.ne
  have hl0 := hx.valid.l_nonneg
  have hlr := hx.valid.l_lt_r
  have hrl := hx.valid.r_le
  rw [MPA.compressF_eq ar x hlen her]
  cases hdir : x.effDir direction with
  | other => exact absurd hdir (MPA.effDir_ne hd)
  | right =>
    have key : ∃ x', (if canon then x.canonicalizeF ar.qr ar.md .none (.int 1) else .ok x) = .ok x' ∧ MPA.NearStep ε x x' ∧ x'.r = 1 ∧
        (canon = false → x' = x) ∧ (canon = true → ∃ left right, (left = .none ∧ right = .int 1 ∨ left = .int (x.len - 1) ∧ right = .none) ∧
          x.canonicalizeF ar.qr ar.md left right = .ok x') := by
      cases canon with
      | false => exact ⟨x, rfl, MPA.NearStep.rfl' hx, (hc rfl).1 hdir, fun _ => rfl, by simp⟩
      | true =>
        obtain ⟨x', g1, g2, g3, g4, _⟩ := MPA.canonicalizeF_ok (left := .none) (right := .int 1) (tl := 0) (tr := 1) hε har.qr har.md hx rfl
          (by simp [target, CArg.left]) (by simp [target, CArg.right]) le_rfl (by norm_num) (by omega)
        refine ⟨x', by simpa using g1, g2, ?_, by simp, fun _ => ⟨_, _, .inl ⟨rfl, rfl⟩, g1⟩⟩
        rw [g4]
        split
        · rfl
        · rw [if_neg (by omega)]; omega
    obtain ⟨x', k1, k2, k3, k4, k5⟩ := key
    obtain ⟨y, o, c1, c2⟩ := MPA.compressSvdRF_ok hε h1 har hr he hD1 k2.good (k2.ranks.bound hD) k3
    exact ⟨x', y, o, by cases canon <;> simp only [if_true, if_false, Bool.false_eq_true] at k1 ⊢ <;> rw [k1, ok_bind, c1], k2, c2, k4, k5⟩
  | left =>
    have key : ∃ x', (if canon then x.canonicalizeF ar.qr ar.md (.int (x.len - 1)) .none else .ok x) = .ok x' ∧ MPA.NearStep ε x x' ∧
        x'.l = x'.len - 1 ∧
        (canon = false → x' = x) ∧ (canon = true → ∃ left right, (left = .none ∧ right = .int 1 ∨ left = .int (x.len - 1) ∧ right = .none) ∧
          x.canonicalizeF ar.qr ar.md left right = .ok x') := by
      cases canon with
      | false => exact ⟨x, rfl, MPA.NearStep.rfl' hx, (hc rfl).2 hdir, fun _ => rfl, by simp⟩
      | true =>
        have e1 : target x.len ((CArg.int (x.len - 1)).left x.len) = x.len - 1 := if_neg (show ¬ ((x.len : ℤ) - 1 < 0) by omega)
        have e2 : target x.len (CArg.none.right x.len) = x.len := if_neg (show ¬ ((x.len : ℤ) < 0) by omega)
        obtain ⟨x', g1, g2, g3, g4, _⟩ := MPA.canonicalizeF_ok (left := .int (x.len - 1)) (right := .none) hε har.qr har.md hx rfl
          e1.symm e2.symm (by omega) (by omega) le_rfl
        refine ⟨x', by simpa using g1, g2, ?_, by simp, fun _ => ⟨_, _, .inr ⟨rfl, rfl⟩, g1⟩⟩
        rw [g3, if_neg (by omega), g2.len]; omega
    obtain ⟨x', k1, k2, k3, k4, k5⟩ := key
    obtain ⟨y, o, c1, c2⟩ := MPA.compressSvdLF_ok hε h1 har hr he hD1 k2.good (k2.ranks.bound hD) k3
    exact ⟨x', y, o, by cases canon <;> simp only [if_true, if_false, Bool.false_eq_true] at k1 ⊢ <;> rw [k1, ok_bind, c1], k2, c2, k4, k5⟩

theorem compErr_nonneg {ε : ℝ} (hε : 0 ≤ ε) (h1 : ε < 1) (D m : ℕ) : 0 ≤ compErr ε D m := by
  have hg := sweepGrowth_ge hε h1 D m
  have h2 : (1 : ℝ) ≤ (1 + ε) ^ m := one_le_pow₀ (by linarith)
  unfold compErr
  have a1 : 0 ≤ 2 * (sweepGrowth ε D m - 1) + 2 * ε * sweepGrowth ε D m := by
    have : 0 ≤ ε * sweepGrowth ε D m := mul_nonneg hε (by linarith)
    nlinarith
  have a2 : 0 ≤ ((1 + ε) ^ m - 1) * sweepGrowth ε D m := mul_nonneg (by linarith) (by linarith)
  have := mul_nonneg (Real.sqrt_nonneg m) a1
  linarith

/-- C77: `compress` of an MPA in floating point arithmetic: it succeeds, keeps the shape, enlarges no rank, respects the argument
`rank`, returns the square of the norm of the result up to `2 n` factors `1 ± ε`, and its error is at most `√(n - 1)` times the one of
any other MPA `z` with these ranks, plus an error that is proportional to `ε`.  `x'` is the result of the call of `canonicalize` at
the beginning; its error is the subject of C75. -/
theorem C77_compress {ε : ℝ} (hε : 0 ≤ ε) (h1 : ε < 1) {ar : Arith 𝕜} (har : ar.Near ε) (x : MPA 𝕜) (hx : x.NearGood ε)
    (hlen : x.len ≠ 1) (rank : Option ℤ) (hr : ∀ r, rank = some r → 0 < r) (relerr : Option ℝ)
    (he : ∀ e, relerr = some e → 0 ≤ e ∧ e ≤ 1) (direction : Option Dir) (hd : direction ≠ some .other) {D : ℕ} (hD1 : 1 ≤ D)
    (hD : ∀ q ∈ x.ranks, q ≤ D) :
    ∃ x' y o, x.compressF ar rank relerr direction true = .ok (y, o) ∧
      (∃ left right, (left = .none ∧ right = .int 1 ∨ left = .int (x.len - 1) ∧ right = .none) ∧
        x.canonicalizeF ar.qr ar.md left right = .ok x') ∧
      y.NearGood ε ∧ y.r = y.l + 1 ∧ y.shape = x.shape ∧ y.RanksLe x ∧ (∀ r, rank = some r → ∀ q ∈ y.ranks, (q : ℤ) ≤ r) ∧
      OverlapNear ε y o ∧
      ∀ z : MPA 𝕜, z.Valid → z.shape = x.shape →
        (z.RanksLe y ∨ relerr = none ∧ (∀ r, rank = some r → ∀ q ∈ z.ranks, (q : ℤ) ≤ r) ∧ (rank = none → z.RanksLe x)) →
        x.dist y ≤ Real.sqrt (x.len - 1 : ℕ) * x.dist z + (1 + Real.sqrt (x.len - 1 : ℕ)) * x.dist x'
          + compErr ε D (x.len - 1) * (x.frob + x.dist x') := by
  obtain ⟨r, r1, r2, r3⟩ := MPA.effRank_near hx hlen rank hr
  obtain ⟨x', y, o, c1, c2, c3, -, c5⟩ := MPA.compressF_core hε h1 har hx hlen r1 r2 he hd hD1 hD true (by simp)
  have hrr : ∀ r', rank = some r' → r = r' := by rintro r' rfl; exact r2
  refine ⟨x', y, o, c1, c5 rfl, c3.near.good, c3.one, c3.near.shape.trans c2.shape, c3.near.ranks.trans c2.ranks,
    fun r' h q hq => by rw [← hrr r' h]; exact c3.rank_le q hq, c3.over, fun z hz hzs hzr => ?_⟩
  have hm := c3.err z hz (hzs.trans c2.shape.symm) (by
    rcases hzr with h | ⟨h, h', h''⟩
    · exact .inl h
    · refine .inr ⟨h, fun q hq => ?_⟩
      cases hrk : rank with
      | some r' => rw [hrr r' hrk]; exact h' r' hrk q hq
      | none =>
        have hz := h'' hrk
        have : ∀ q ∈ x.ranks, q ≤ r.toNat := fun q hq => by have := r3 hrk q hq; omega
        have := hz.bound this q hq
        omega)
  rw [c2.len] at hm
  set m := x.len - 1
  have t1 := MPA.dist_triangle' (x := x) (y := x') (z := y) c2.shape
  have t2 : x'.dist z ≤ x.dist x' + x.dist z := by
    have := MPA.dist_triangle' (x := x') (y := x) (z := z) c2.shape.symm
    have e : x'.dist x = x.dist x' := by
      unfold MPA.dist; rw [c2.shape]
      congr 1
      exact sumSites_congr fun i _ => by rw [norm_sub_rev]
    rw [e] at this; exact this
  have t3 : x'.frob ≤ x.frob + x.dist x' := by have := abs_le.1 (MPA.frob_dist c2.shape); linarith
  have t4 := mul_le_mul_of_nonneg_left t2 (Real.sqrt_nonneg m)
  have t5 := mul_le_mul_of_nonneg_left t3 (compErr_nonneg hε h1 D m)
  linarith

/-- The bound on the relative error of `compress` that is due to rounding, for an MPA of `n` sites with one site that is not canonical,
with ranks up to `D`. -/
noncomputable def compRel (ε : ℝ) (D n : ℕ) : ℝ :=
  (1 + Real.sqrt (n - 1 : ℕ)) * canonRel ε D n + compErr ε D (n - 1) * (1 + canonRel ε D n)

/-- C77: for an MPA with one site that is not canonical, the rounding error of `compress` is small relative to the norm of the
tensor. -/
theorem C77_canonical {ε : ℝ} (hε : 0 ≤ ε) (h1 : ε < 1) {ar : Arith 𝕜} (har : ar.Near ε) (x : MPA 𝕜) (hx : x.NearGood ε)
    (hxr : x.r = x.l + 1) (hlen : x.len ≠ 1) (rank : Option ℤ) (hr : ∀ r, rank = some r → 0 < r) (relerr : Option ℝ)
    (he : ∀ e, relerr = some e → 0 ≤ e ∧ e ≤ 1) (direction : Option Dir) (hd : direction ≠ some .other) {D : ℕ} (hD1 : 1 ≤ D)
    (hD : ∀ q ∈ x.ranks, q ≤ D) :
    ∃ y o, x.compressF ar rank relerr direction true = .ok (y, o) ∧ y.NearGood ε ∧ y.r = y.l + 1 ∧ y.shape = x.shape ∧
      y.RanksLe x ∧ (∀ r, rank = some r → ∀ q ∈ y.ranks, (q : ℤ) ≤ r) ∧ OverlapNear ε y o ∧
      ∀ z : MPA 𝕜, z.Valid → z.shape = x.shape →
        (z.RanksLe y ∨ relerr = none ∧ (∀ r, rank = some r → ∀ q ∈ z.ranks, (q : ℤ) ≤ r) ∧ (rank = none → z.RanksLe x)) →
        x.dist y ≤ Real.sqrt (x.len - 1 : ℕ) * x.dist z + compRel ε D x.len * x.frob := by
  obtain ⟨x', y, o, c1, ⟨left, right, -, c2⟩, c3, c4, c5, c6, c7, c8, c9⟩ := C77_compress hε h1 har x hx hlen rank hr relerr he direction hd hD1 hD
  refine ⟨y, o, c1, c3, c4, c5, c6, c7, c8, fun z hz hzs hzr => ?_⟩
  have h := c9 z hz hzs hzr
  have k := C75_error_canonical hε h1 har.qr har.md x x' hx hxr hD1 hD left right c2
  set m := x.len - 1
  have k1 := mul_le_mul_of_nonneg_left k (show 0 ≤ 1 + Real.sqrt m by positivity)
  have k2 := mul_le_mul_of_nonneg_left k (compErr_nonneg hε h1 D m)
  unfold compRel
  linarith

/-- C77: for an MPA without canonical form, such as one given by its local tensors, the rounding error of `compress` is small
relative to the product of the norms of the local tensors. -/
theorem C77_fresh {ε : ℝ} (hε : 0 ≤ ε) (h1 : ε < 1) {ar : Arith 𝕜} (har : ar.Near ε) (x : MPA 𝕜) (hx : x.Good)
    (hl : x.l = 0) (hxr : x.r = x.len) (hlen : x.len ≠ 1) (rank : Option ℤ) (hr : ∀ r, rank = some r → 0 < r) (relerr : Option ℝ)
    (he : ∀ e, relerr = some e → 0 ≤ e ∧ e ≤ 1) (direction : Option Dir) (hd : direction ≠ some .other) {D : ℕ} (hD1 : 1 ≤ D)
    (hD : ∀ q ∈ x.ranks, q ≤ D) :
    ∃ y o, x.compressF ar rank relerr direction true = .ok (y, o) ∧ y.NearGood ε ∧ y.r = y.l + 1 ∧ y.shape = x.shape ∧
      y.RanksLe x ∧ (∀ r, rank = some r → ∀ q ∈ y.ranks, (q : ℤ) ≤ r) ∧ OverlapNear ε y o ∧
      ∀ z : MPA 𝕜, z.Valid → z.shape = x.shape →
        (z.RanksLe y ∨ relerr = none ∧ (∀ r, rank = some r → ∀ q ∈ z.ranks, (q : ℤ) ≤ r) ∧ (rank = none → z.RanksLe x)) →
        x.dist y ≤ Real.sqrt (x.len - 1 : ℕ) * x.dist z + compErr ε D (x.len - 1) * x.frob
          + (1 + Real.sqrt (x.len - 1 : ℕ) + compErr ε D (x.len - 1)) * canonErr ε 1 x.len * (x.lt.map npNorm).prod := by
  obtain ⟨x', y, o, c1, ⟨left, right, -, c2⟩, c3, c4, c5, c6, c7, c8, c9⟩ :=
    C77_compress hε h1 har x (C75_good hε h1.le hx) hlen rank hr relerr he direction hd hD1 hD
  refine ⟨y, o, c1, c3, c4, c5, c6, c7, c8, fun z hz hzs hzr => ?_⟩
  have h := c9 z hz hzs hzr
  have k := C75_error_fresh hε har.qr har.md x x' hx.valid hx.pos hl hxr left right c2
  set m := x.len - 1
  have k2 := mul_le_mul_of_nonneg_left k (show 0 ≤ 1 + Real.sqrt m + compErr ε D m by
    have := compErr_nonneg hε h1 D m; positivity)
  nlinarith

/-- C77: without the canonicalisation, for an MPA that is already in the form that the sweep starts from. -/
theorem C77_no_canonicalize {ε : ℝ} (hε : 0 ≤ ε) (h1 : ε < 1) {ar : Arith 𝕜} (har : ar.Near ε) (x : MPA 𝕜) (hx : x.NearGood ε)
    (hlen : x.len ≠ 1) (rank : Option ℤ) (hr : ∀ r, rank = some r → 0 < r) (relerr : Option ℝ)
    (he : ∀ e, relerr = some e → 0 ≤ e ∧ e ≤ 1) (direction : Option Dir)
    (hc : direction = some .right ∧ x.r = 1 ∨ direction = some .left ∧ x.l = x.len - 1) {D : ℕ} (hD1 : 1 ≤ D)
    (hD : ∀ q ∈ x.ranks, q ≤ D) :
    ∃ y o, x.compressF ar rank relerr direction false = .ok (y, o) ∧ y.NearGood ε ∧ y.r = y.l + 1 ∧ y.shape = x.shape ∧
      y.RanksLe x ∧ (∀ r, rank = some r → ∀ q ∈ y.ranks, (q : ℤ) ≤ r) ∧ OverlapNear ε y o ∧
      ∀ z : MPA 𝕜, z.Valid → z.shape = x.shape →
        (z.RanksLe y ∨ relerr = none ∧ (∀ r, rank = some r → ∀ q ∈ z.ranks, (q : ℤ) ≤ r) ∧ (rank = none → z.RanksLe x)) →
        x.dist y ≤ Real.sqrt (x.len - 1 : ℕ) * x.dist z + compErr ε D (x.len - 1) * x.frob := by
  obtain ⟨r, r1, r2, r3⟩ := MPA.effRank_near hx hlen rank hr
  have hd : direction ≠ some .other := by rcases hc with ⟨rfl, _⟩ | ⟨rfl, _⟩ <;> simp
  obtain ⟨x', y, o, c1, c2, c3, c4, -⟩ := MPA.compressF_core hε h1 har hx hlen r1 r2 he hd hD1 hD false (by
    intro _
    rcases hc with ⟨rfl, h⟩ | ⟨rfl, h⟩
    · exact ⟨fun _ => h, fun h' => by simp [MPA.effDir] at h'⟩
    · exact ⟨fun h' => by simp [MPA.effDir] at h', fun _ => h⟩)
  obtain rfl := c4 rfl
  have hrr : ∀ r', rank = some r' → r = r' := by rintro r' rfl; exact r2
  refine ⟨y, o, c1, c3.near.good, c3.one, c3.near.shape, c3.near.ranks,
    fun r' h q hq => by rw [← hrr r' h]; exact c3.rank_le q hq, c3.over, fun z hz hzs hzr => c3.err z hz hzs ?_⟩
  rcases hzr with h | ⟨h, h', h''⟩
  · exact .inl h
  · refine .inr ⟨h, fun q hq => ?_⟩
    cases hrk : rank with
    | some r' => rw [hrr r' hrk]; exact h' r' hrk q hq
    | none =>
      have hz := h'' hrk
      have : ∀ q ∈ x'.ranks, q ≤ r.toNat := fun q hq => by have := r3 hrk q hq; omega
      have := hz.bound this q hq
      omega

/-- C77: a compression that need not truncate (`relerr` is not given, and the argument `rank` is no restriction) changes the tensor
by rounding errors only. -/
theorem C77_lossless {ε : ℝ} (hε : 0 ≤ ε) (h1 : ε < 1) {ar : Arith 𝕜} (har : ar.Near ε) (x : MPA 𝕜) (hx : x.NearGood ε)
    (hxr : x.r = x.l + 1) (hlen : x.len ≠ 1) (rank : Option ℤ) (hr : ∀ r, rank = some r → 0 < r ∧ ∀ q ∈ x.ranks, (q : ℤ) ≤ r)
    (direction : Option Dir) (hd : direction ≠ some .other) {D : ℕ} (hD1 : 1 ≤ D) (hD : ∀ q ∈ x.ranks, q ≤ D) :
    ∃ y o, x.compressF ar rank none direction true = .ok (y, o) ∧ x.dist y ≤ compRel ε D x.len * x.frob := by
  obtain ⟨y, o, c1, _, _, _, _, _, _, c9⟩ := C77_canonical hε h1 har x hx hxr hlen rank (fun r h => (hr r h).1) none (by simp)
    direction hd hD1 hD
  refine ⟨y, o, c1, ?_⟩
  have := c9 x hx.valid rfl (.inr ⟨rfl, fun r h => (hr r h).2, fun _ => MPA.RanksLe.rfl' x⟩)
  rw [MPA.dist_self', mul_zero, zero_add] at this
  exact this

/-- C77: an MPA with one site: the call is `norm`, the tensor is unchanged. -/
theorem C77_single {ε : ℝ} (hε : 0 ≤ ε) (h1 : ε ≤ 1) {ar : Arith 𝕜} (har : ar.Near ε) (x : MPA 𝕜) (hx : x.NearGood ε) (hlen : x.len = 1)
    (rank : Option ℤ) (relerr : Option ℝ) (direction : Option Dir) (canon : Bool) :
    ∃ y o, x.compressF ar rank relerr direction canon = .ok (y, o) ∧ y.NearGood ε ∧ y.shape = x.shape ∧ x.dist y = 0 ∧
      o ≤ (1 + ε) ^ 3 * x.frob ^ 2 ∧ (1 - ε) ^ 3 * x.frob ^ 2 ≤ o := by
  obtain ⟨v, y, c1, c2, c3, c4, c5⟩ := C75_norm hε h1 har.qr har.md har.nrm x hx
  obtain ⟨d1, d2, d3, d4⟩ := C75_canonicalize hε har.qr har.md x y hx _ _ c2
  have hl : x.l = 0 := by have := hx.valid.l_nonneg; have := hx.valid.l_lt_r; have := hx.valid.r_le; omega
  have hr : x.r = x.len := by have := hx.valid.l_nonneg; have := hx.valid.l_lt_r; have := hx.valid.r_le; omega
  have hd := C75_error_fresh hε har.qr har.md x y hx.valid hx.pos hl hr _ _ c2
  have hd0 : x.dist y = 0 := by
    refine le_antisymm (hd.trans (le_of_eq ?_)) (MPA.dist_nonneg' _ _)
    rw [hlen]; simp [canonErr]
  have hf : y.frob = x.frob := by
    rw [hd0] at c5
    have := abs_le.1 c5
    linarith
  rw [hlen, hf] at c3 c4
  simp only [Nat.sub_self, pow_zero, one_mul] at c3 c4
  have hF := MPA.frob_nonneg' x
  have hs := abs_le.1 (har.sq v)
  refine ⟨y, ar.sq v, ?_, d1, d3, hd0, ?_, ?_⟩
  · unfold MPA.compressF
    rw [if_pos hlen, c1]; rfl
  · have hv0 : 0 ≤ v := le_trans (mul_nonneg (by linarith) hF) c4
    have := pow_le_pow_left₀ hv0 c3 2
    calc ar.sq v ≤ (1 + ε) * v ^ 2 := by linarith
      _ ≤ (1 + ε) * ((1 + ε) * x.frob) ^ 2 := mul_le_mul_of_nonneg_left this (by linarith)
      _ = _ := by ring
  · have := pow_le_pow_left₀ (mul_nonneg (by linarith) hF) c4 2
    calc (1 - ε) ^ 3 * x.frob ^ 2 = (1 - ε) * ((1 - ε) * x.frob) ^ 2 := by ring
      _ ≤ (1 - ε) * v ^ 2 := mul_le_mul_of_nonneg_left this (by linarith)
      _ ≤ _ := by linarith

/-! ### the size of the bounds -/

/-- C77: with exact arithmetic nothing is lost to rounding. -/
theorem C77_exact (D m n : ℕ) : compErr 0 D m = 0 ∧ compRel 0 D n = 0 := by
  have h : ∀ m, compErr 0 D m = 0 := by
    intro m
    simp [compErr, sweepGrowth, stepErr]
  refine ⟨h m, ?_⟩
  unfold compRel
  rw [h, (C75_exact D n 1).2]
  ring

/-- C77: the part of the error that is due to rounding is at most proportional to `ε`. -/
theorem C77_first_order {ε : ℝ} (hε : 0 ≤ ε) {D : ℕ} (hD : 1 ≤ D) (m : ℕ) (h : 100 * Real.sqrt D * m * ε ≤ 1) :
    compErr ε D m ≤ 40 * Real.sqrt D * (m * Real.sqrt m) * ε := by
  rcases Nat.eq_zero_or_pos m with rfl | hm
  · simp [compErr, sweepGrowth]
  have hm1 : (1 : ℝ) ≤ m := by exact_mod_cast hm
  have hs : 1 ≤ Real.sqrt D := by
    rw [show (1 : ℝ) = Real.sqrt 1 by simp]
    exact Real.sqrt_le_sqrt (by exact_mod_cast hD)
  have hsm : 1 ≤ Real.sqrt m := by
    rw [show (1 : ℝ) = Real.sqrt 1 by simp]
    exact Real.sqrt_le_sqrt hm1
  set s := Real.sqrt D with hsd
  set u := s * m * ε with hu
  have hu1 : u ≤ 1 / 100 := by rw [hu]; linarith
  have hme : m * ε ≤ u := by
    have : 0 ≤ m * ε := by positivity
    rw [hu]; nlinarith
  have hse : s * ε ≤ u := by
    have : 0 ≤ s * ε := by positivity
    rw [hu]; nlinarith
  have heu : ε ≤ u := by nlinarith
  have hu0 : 0 ≤ u := by positivity
  have e4 : (1 + ε) ^ 4 ≤ 6 / 5 := by
    calc (1 + ε) ^ 4 ≤ (1 + 1 / 100) ^ 4 := pow_le_pow_left₀ (by linarith) (by linarith) 4
      _ ≤ _ := by norm_num
  have hc : stepErr ε D ≤ 6 * (s * ε) := by
    unfold stepErr
    have : 0 ≤ s * ε := by positivity
    rw [← hsd]
    nlinarith
  have hexp : ∀ t : ℝ, 0 ≤ t → t ≤ 1 → Real.exp t ≤ 1 + t + t ^ 2 := by
    intro t h0 h1
    have := abs_le.1 (Real.abs_exp_sub_one_sub_id_le (x := t) (by rw [abs_of_nonneg h0]; exact h1))
    linarith
  have g1 : (1 + stepErr ε D) ^ m ≤ 1 + 7 * u := by
    have a1 : 1 + stepErr ε D ≤ Real.exp (6 * (s * ε)) := by linarith [Real.add_one_le_exp (6 * (s * ε))]
    have a2 := pow_le_pow_left₀ (by linarith [stepErr_nonneg hε D]) a1 m
    rw [← Real.exp_nat_mul, show (m : ℝ) * (6 * (s * ε)) = 6 * u by rw [hu]; ring] at a2
    have a3 := hexp (6 * u) (by linarith) (by linarith)
    nlinarith
  have g2 : (1 + ε) ^ m ≤ 1 + 101 / 100 * u := by
    have a1 : 1 + ε ≤ Real.exp ε := by linarith [Real.add_one_le_exp ε]
    have a2 := pow_le_pow_left₀ (by linarith) a1 m
    rw [← Real.exp_nat_mul] at a2
    have a3 := hexp (m * ε) (by positivity) (by linarith)
    have a4 : (m * ε) ^ 2 ≤ u ^ 2 := pow_le_pow_left₀ (by positivity) hme 2
    nlinarith
  have g3 : 99 / 100 ≤ (1 - ε) ^ m := by
    have := one_add_mul_le_pow (a := -ε) (by linarith) m
    rw [← sub_eq_add_neg] at this
    nlinarith
  have g2' : (1 : ℝ) ≤ (1 + ε) ^ m := one_le_pow₀ (by linarith)
  have g4 : ((1 + ε) ^ m - 1) / (1 - ε) ^ m ≤ 2 * u := by
    rw [div_le_iff₀ (by linarith)]
    nlinarith
  have g5 : sweepGrowth ε D m ≤ 1 + 10 * u := by
    unfold sweepGrowth
    have p0 : 0 ≤ 1 + ((1 + ε) ^ m - 1) / (1 - ε) ^ m := by
      have : 0 ≤ ((1 + ε) ^ m - 1) / (1 - ε) ^ m := div_nonneg (by linarith) (by linarith)
      linarith
    calc (1 + stepErr ε D) ^ m * (1 + ((1 + ε) ^ m - 1) / (1 - ε) ^ m) ≤ (1 + 7 * u) * (1 + 2 * u) :=
          mul_le_mul g1 (by linarith) p0 (by linarith)
      _ ≤ _ := by nlinarith
  have g6 := sweepGrowth_ge hε (by linarith) D m
  set g := sweepGrowth ε D m with hg
  have b1 : 2 * (g - 1) + 2 * ε * g ≤ 23 * u := by nlinarith
  have b2 : ((1 + ε) ^ m - 1) * g ≤ 2 * u := by nlinarith
  have b3 := mul_le_mul_of_nonneg_left b1 (Real.sqrt_nonneg m)
  unfold compErr
  rw [← hg]
  have : 40 * s * (m * Real.sqrt m) * ε = 40 * (Real.sqrt m * u) := by rw [hu]; ring
  rw [this]
  nlinarith

/-- C77: the same for the bound of `C77_canonical`. -/
theorem C77_first_order_canonical {ε : ℝ} (hε : 0 ≤ ε) {D : ℕ} (hD : 1 ≤ D) (n : ℕ) (h : 100 * Real.sqrt D * (n - 1 : ℕ) * ε ≤ 1)
    (h1 : ε < 1) : compRel ε D n ≤ 180 * Real.sqrt D * ((n - 1 : ℕ) * Real.sqrt (n - 1 : ℕ)) * ε := by
  have hs0 : 0 ≤ Real.sqrt D * (n - 1 : ℕ) * ε := by positivity
  have a1 := C77_first_order hε hD (n - 1) h
  have a2 := C75_first_order_canonical hε h1 hD n (by linarith)
  rcases Nat.eq_zero_or_pos (n - 1) with hm | hm
  · unfold compRel canonRel canonErr
    rw [hm]
    simp [compErr, sweepGrowth]
  have hm1 : (1 : ℝ) ≤ (n - 1 : ℕ) := by exact_mod_cast hm
  have hsm : 1 ≤ Real.sqrt (n - 1 : ℕ) := by
    rw [show (1 : ℝ) = Real.sqrt 1 by simp]
    exact Real.sqrt_le_sqrt hm1
  set m := n - 1 with hmd
  set u := Real.sqrt D * m * ε with hu
  have hu1 : u ≤ 1 / 100 := by rw [hu]; linarith
  have a1' : compErr ε D m ≤ 40 * (Real.sqrt m * u) := by rw [hu]; linarith
  have a2' : canonRel ε D n ≤ 55 * u := by rw [hu]; linarith
  have a3 := compErr_nonneg hε h1 D m
  unfold compRel
  rw [← hmd, show 180 * Real.sqrt D * (m * Real.sqrt m) * ε = 180 * (Real.sqrt m * u) by rw [hu]; ring]
  have b1 : (1 + Real.sqrt m) * canonRel ε D n ≤ (1 + Real.sqrt m) * (55 * u) := mul_le_mul_of_nonneg_left a2' (by linarith)
  have b2 : compErr ε D m * (1 + canonRel ε D n) ≤ 40 * (Real.sqrt m * u) * (1 + 55 / 100) := by
    calc compErr ε D m * (1 + canonRel ε D n) ≤ compErr ε D m * (1 + 55 / 100) := mul_le_mul_of_nonneg_left (by linarith) a3
      _ ≤ _ := mul_le_mul_of_nonneg_right a1' (by norm_num)
  have b3 : u ≤ Real.sqrt m * u := by nlinarith
  nlinarith

/-! ### the hypotheses can be met -/

/-- A product in which every entry is too large by the factor `1 + δ`. -/
noncomputable def mulScaled (δ : ℝ) (a b : NDArray 𝕜) : Py (NDArray 𝕜) := do
  let c ← a.mulB b
  return ⟨c.shape, fun i => ((1 + δ : ℝ) : 𝕜) * c.get i⟩

theorem mulScaled_near {δ : ℝ} (hδ : 0 ≤ δ) : MulNear δ (mulScaled (𝕜 := 𝕜) δ) := by
  intro a b c h
  refine ⟨⟨c.shape, fun i => ((1 + δ : ℝ) : 𝕜) * c.get i⟩, by unfold mulScaled; rw [h]; rfl, rfl, fun i _ => le_of_eq ?_⟩
  simp only
  rw [show ∀ z : 𝕜, ((1 + δ : ℝ) : 𝕜) * z - z = ((δ : ℝ) : 𝕜) * z by intro z; push_cast; ring, norm_mul, RCLike.norm_ofReal,
    abs_of_nonneg hδ]

/-- Routines whose results are too large by the factor `1 + δ`, except for the decompositions. -/
noncomputable def Arith.scaled (δ : ℝ) (qr : QR 𝕜) (svd : SVD 𝕜) : Arith 𝕜 :=
  ⟨qr, mdScaled δ, mulScaled δ, svd, rankRelerr, fun t => (1 + δ) * npNorm t, fun t => (1 + δ) * npNorm t ^ 2, fun v => (1 + δ) * v ^ 2⟩

theorem qrNear_mono {ε δ : ℝ} (hε : 0 ≤ ε) (h : ε ≤ δ) (h1 : δ ≤ 1) {qr : QR 𝕜} (hq : QRNear ε qr) : QRNear δ qr := by
  have hp : ε ^ 2 ≤ δ ^ 2 := pow_le_pow_left₀ hε h 2
  have hp1 : (1 + ε) ^ 2 ≤ (1 + δ) ^ 2 := pow_le_pow_left₀ (by linarith) (by linarith) 2
  have hp2 : (1 - δ) ^ 2 ≤ (1 - ε) ^ 2 := pow_le_pow_left₀ (by linarith) (by linarith) 2
  refine ⟨hq.shape, fun A m n hs => (hq.close A m n hs).trans (mul_le_mul_of_nonneg_right hp (nsq_nonneg _)),
    fun A m n hs => (hq.size A m n hs).trans (mul_le_mul_of_nonneg_right hp1 (nsq_nonneg _)), fun A m n hs v => ?_⟩
  obtain ⟨h1, h2⟩ := hq.iso A m n hs v
  exact ⟨le_trans (mul_le_mul_of_nonneg_right hp2 (Finset.sum_nonneg fun _ _ => sq_nonneg _)) h1,
    h2.trans (mul_le_mul_of_nonneg_right hp1 (Finset.sum_nonneg fun _ _ => sq_nonneg _))⟩

theorem arith_scaled_near {δ : ℝ} (hδ : 0 ≤ δ) (h1 : δ ≤ 1) {qr : QR 𝕜} (hqr : QRSpec qr) {svd : SVD 𝕜} (hsvd : SVDSpec svd) :
    (Arith.scaled δ qr svd).Near δ := by
  have hs : ∀ t : ℝ, 0 ≤ t → |(1 + δ) * t - t| ≤ δ * t := fun t ht => by
    rw [show (1 + δ) * t - t = δ * t by ring, abs_of_nonneg (mul_nonneg hδ ht)]
  exact ⟨qrNear_mono le_rfl hδ h1 (C75_qr_exact hqr), mdScaled_near hδ, mulScaled_near hδ,
    C77_svd_mono le_rfl hδ (C77_contract_exact hqr hsvd).svd, rankRelerr_pos, fun t => hs _ (npNorm_nonneg' t), fun t => hs _ (sq_nonneg _),
    fun v => hs _ (sq_nonneg _)⟩

/-- Non-vacuity: with products and sums that are wrong by a relative error of `1 / 1000`, the example MPA is compressed to rank one, and
the bounds hold for the result. -/
example : ∃ (ar : Arith ℂ) (y : MPA ℂ) (o : ℝ), ar.Near (1 / 1000) ∧ exMPAc.compressF ar (some 1) none none true = .ok (y, o) ∧
    (∀ q ∈ y.ranks, (q : ℤ) ≤ 1) ∧ OverlapNear (1 / 1000) y o := by
  obtain ⟨qr, hqr⟩ := exists_QRSpec (𝕜 := ℂ)
  obtain ⟨svd, hsvd⟩ := exists_SVDSpec (𝕜 := ℂ)
  have har := arith_scaled_near (δ := 1 / 1000) (by norm_num) (by norm_num) hqr hsvd
  obtain ⟨y, o, c1, c2, c3, c4, c5, c6, c7, _⟩ := C77_fresh (by norm_num) (by norm_num) har exMPAc exMPAc_good rfl rfl (by decide) (some 1)
    (by simp) none (by simp) none (by simp) (D := 2) (by norm_num) (by decide)
  exact ⟨_, y, o, har, c1, c6 1 rfl, c7⟩

end Mpnum
