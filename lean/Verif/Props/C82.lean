import Verif.MPArray.RoundingFromArray
import Verif.Props.C02
import Verif.Props.C78Inner

/-!
C82: `from_array` in floating point arithmetic.

`from_array` (mparray.py:206-246) calls `numpy.linalg.qr` and no other routine that rounds, so `fromArray qr` (FromArray.lean) with a QR
decomposition `qr` with relative error `ε` (`QRNear ε qr`, C75) is the function in floating point arithmetic.
-/

open Finset

namespace Mpnum

variable {𝕜 : Type} [RCLike 𝕜]

/-- What `from_array` promises in floating point arithmetic for the array `A` whose legs are grouped as in `P`. -/
structure FromArrayNear (ε : ℝ) (A : NDArray 𝕜) (P : List (List ℕ)) (x : MPA 𝕜) : Prop where
  good : x.NearGood ε
  shape : x.shape = P
  form : x.l = (P.length : ℤ) - 1 ∧ x.r = P.length
  ranks : x.ranks = fullRank P
  err : x.arrErr A ≤ fromArrayErr ε P.length * npNorm A

theorem MPA.arrErr_nonneg (x : MPA 𝕜) (A : NDArray 𝕜) : 0 ≤ x.arrErr A := Real.sqrt_nonneg _

theorem MPA.arrErr_sq (x : MPA 𝕜) (A : NDArray 𝕜) : x.arrErr A ^ 2 = ∑ i ∈ siteSet x.shape, ‖x.val i - A.get i.flatten‖ ^ 2 := by
  unfold MPA.arrErr
  rw [sumSites_eq_sum]
  exact Real.sq_sqrt (Finset.sum_nonneg fun _ _ => sq_nonneg _)

theorem npNorm_addBonds (A : NDArray 𝕜) : npNorm A.addBonds = npNorm A := by
  unfold npNorm
  congr 1
  rw [show A.addBonds.shape = 1 :: (A.shape ++ [1]) from rfl, sumIdx_cons]
  simp only [Finset.range_one, Finset.sum_singleton]
  rw [sumIdx_append]
  simp [NDArray.addBonds]

/-- The list of leg numbers may be followed by unused values. -/
theorem fromArray_near {ε : ℝ} (hε : 0 ≤ ε) {qr : QR 𝕜} (hqr : QRNear ε qr) (e : PyErr) (A : NDArray 𝕜)
    (P : List (List ℕ)) (extra : List ℕ) (hne : P ≠ [])
    (hlast : P.length = 1 ∨ P.getLast? ≠ some []) (hpos : ∀ p ∈ P, ∀ d ∈ p, 0 < d)
    (hs : A.shape = P.flatten) :
    ∃ ts x, extractFactors qr e (P.map List.length ++ extra) A.addBonds = .ok ts ∧
      mkLT ts (some (ts.length - 1)) (some ts.length) = .ok x ∧ FromArrayNear ε A P x := by
  have hs1 : A.addBonds.shape = 1 :: (P.flatten ++ [1]) := by simp [NDArray.addBonds, hs]
  obtain ⟨ts, h1, h2, h3, h4, h5, h7, h6⟩ :=
    extract_near hε hqr e extra P hne hlast hpos 1 1 A.addBonds (by omega) (by omega) hs1
  have hlen : ts.length = P.length := by rw [← h3]; simp [physShape]
  have hPlen : 0 < P.length := List.length_pos_of_ne_nil hne
  have htne : ts ≠ [] := by intro h; rw [h] at hlen; simp at hlen; omega
  refine ⟨ts, ⟨ts, ts.length - 1, ts.length⟩, h1,
    mkLT_ok htne h2 (by omega) (by omega) (by omega) (by omega), ?_⟩
  have hv : (⟨ts, (ts.length : ℤ) - 1, ts.length⟩ : MPA 𝕜).Valid :=
    ⟨htne, h2, by simp; omega, by simp, le_refl _⟩
  refine ⟨⟨hv, h7, ?_⟩, h3, ?_, ?_, ?_⟩
  · intro n t ht
    have hn : n < ts.length := (List.getElem?_eq_some_iff.1 ht).1
    refine ⟨fun hl => ?_, fun hr => absurd hr (by simp; omega)⟩
    have hn' : n < ts.length - 1 := by simp at hl; omega
    apply h5
    have : ts.dropLast[n]? = some t := by
      rw [List.getElem?_dropLast, if_pos hn']; exact ht
    exact List.mem_of_getElem? this
  · simp [hlen]
  · show ts.tail.map NDArray.lb = _
    rw [h6, cutRank_fullRank]
  · refine (abs_le_of_sq_le_sq' ?_ (mul_nonneg (fromArrayErr_nonneg hε _) (npNorm_nonneg' A))).2
    rw [← npNorm_addBonds]
    refine le_trans (le_of_eq ?_) h4
    rw [MPA.arrErr_sq]
    unfold repErr
    rw [sumIdx_cons]
    simp only [Finset.range_one, Finset.sum_singleton, sumIdx_nil]
    rw [sumSites_eq_sum]
    refine Finset.sum_congr rfl fun i _ => ?_
    rw [norm_sub_rev]
    simp [NDArray.addBonds, MPA.val, entry]

/-- C82: `from_array(A, ndims)` with one number of legs per site. -/
theorem C82_from_array {ε : ℝ} (hε : 0 ≤ ε) {qr : QR 𝕜} (hqr : QRNear ε qr) (A : NDArray 𝕜)
    (P : List (List ℕ)) (hne : P ≠ []) (hlast : P.length = 1 ∨ P.getLast? ≠ some [])
    (hpos : ∀ p ∈ P, ∀ d ∈ p, 0 < d) (hs : A.shape = P.flatten) :
    ∃ x, fromArray qr A (some (.each (P.map List.length))) false = .ok x ∧ FromArrayNear ε A P x := by
  obtain ⟨ts, x, h1, h2, h3⟩ := fromArray_near hε hqr .stopIteration A P [] hne hlast hpos hs
  refine ⟨x, ?_, h3⟩
  simp only [List.append_nil] at h1
  unfold fromArray extractFactorsArg
  simp only [Option.getD_some, Bool.false_eq_true, if_false, h1]
  exact h2

/-- C82: `from_array(A, ndims)` with the same number of legs at every site. -/
theorem C82_from_array_const {ε : ℝ} (hε : 0 ≤ ε) {qr : QR 𝕜} (hqr : QRNear ε qr) (A : NDArray 𝕜) (n : ℕ) (hn : 0 < n)
    (P : List (List ℕ)) (hne : P ≠ []) (hlen : ∀ p ∈ P, p.length = n)
    (hpos : ∀ p ∈ P, ∀ d ∈ p, 0 < d) (hs : A.shape = P.flatten) :
    ∃ x, fromArray qr A (some (.const n)) false = .ok x ∧ FromArrayNear ε A P x := by
  have hlast : P.getLast? ≠ some [] := by
    intro h
    have := hlen [] (List.mem_of_getLast? h)
    simp at this; omega
  have hnd : A.addBonds.ndim = P.length * n + 2 := by
    simp [NDArray.ndim, NDArray.addBonds, hs]
    rw [← List.length_flatten, flatten_length_const hlen]
  have hle : P.length ≤ P.length * n := Nat.le_mul_of_pos_right _ hn
  obtain ⟨ts, x, h1, h2, h3⟩ := fromArray_near hε hqr .recursion A P
    (List.replicate (A.addBonds.ndim + 1 - P.length) n) hne (Or.inr hlast) hpos hs
  refine ⟨x, ?_, h3⟩
  rw [map_length_const hlen, ← List.replicate_add] at h1
  unfold fromArray extractFactorsArg
  simp only [Option.getD_some, Bool.false_eq_true, if_false]
  rw [show A.addBonds.ndim + 1 = P.length + (A.addBonds.ndim + 1 - P.length) by omega, h1]
  exact h2

/-- C82: `from_array(A)` without `ndims` does not round at all. -/
theorem C82_from_array_default {ε : ℝ} (hε : 0 ≤ ε) {qr : QR 𝕜} (hqr : QRNear ε qr) (A : NDArray 𝕜)
    (hpos : ∀ d ∈ A.shape, 0 < d) :
    ∃ x, fromArray qr A none false = .ok x ∧ FromArrayNear ε A [A.shape] x ∧ ∀ i, InB i A.shape → x.val [i] = A.get i := by
  obtain ⟨ts, x, h1, h2, h3⟩ := fromArray_near hε hqr .recursion A [A.shape]
    (List.replicate A.addBonds.ndim A.ndim) (by simp) (Or.inl rfl) (by simpa using hpos) (by simp)
  refine ⟨x, ?_, h3, fun i hi => ?_⟩
  · unfold fromArray extractFactorsArg
    simp only [Option.getD_none, Bool.false_eq_true, if_false]
    rw [List.replicate_succ]
    simp only [List.map_cons, List.map_nil, List.cons_append, List.nil_append] at h1
    rw [show A.ndim = A.shape.length from rfl] at h1 ⊢
    rw [h1]; exact h2
  · have h := h3.err
    rw [show [A.shape].length = 1 from rfl, fromArrayErr_one, zero_mul] at h
    have h0 : x.arrErr A ^ 2 = 0 := by rw [le_antisymm h (x.arrErr_nonneg A)]; ring
    rw [MPA.arrErr_sq, Finset.sum_eq_zero_iff_of_nonneg fun _ _ => sq_nonneg _] at h0
    have := h0 [i] (mem_siteSet.2 (by rw [h3.shape]; exact .cons hi .nil))
    simpa [sub_eq_zero] using this

/-! ### what follows for the functions called next -/

/-- C82: the 2-norm of the tensor of the result. -/
theorem C82_frob {ε : ℝ} {A : NDArray 𝕜} {P : List (List ℕ)} {x : MPA 𝕜} (h : FromArrayNear ε A P x) (hs : A.shape = P.flatten) :
    |x.frob - npNorm A| ≤ fromArrayErr ε P.length * npNorm A := by
  have hA : npNorm A ^ 2 = ∑ i ∈ siteSet x.shape, ‖A.get i.flatten‖ ^ 2 := by
    rw [npNorm_sq, h.shape]
    unfold nsq
    rw [hs, ← sumSites_flatten, sumSites_eq_sum]
  refine le_trans (abs_le.2 ⟨?_, ?_⟩) h.err
  · have := mink (siteSet x.shape) (fun i => x.val i) (fun i => A.get i.flatten - x.val i) x.frob_nonneg' (x.arrErr_nonneg A)
      (le_of_eq x.frob_sq'.symm) (le_of_eq (by rw [MPA.arrErr_sq]; exact Finset.sum_congr rfl fun i _ => by rw [norm_sub_rev]))
    simp only [add_sub_cancel] at this
    rw [← hA] at this
    linarith [(abs_le_of_sq_le_sq' this (add_nonneg x.frob_nonneg' (x.arrErr_nonneg A))).2]
  · have := mink (siteSet x.shape) (fun i => A.get i.flatten) (fun i => x.val i - A.get i.flatten) (npNorm_nonneg' A) (x.arrErr_nonneg A)
      (le_of_eq hA.symm) (le_of_eq (MPA.arrErr_sq x A).symm)
    simp only [add_sub_cancel] at this
    rw [← x.frob_sq'] at this
    linarith [(abs_le_of_sq_le_sq' this (add_nonneg (npNorm_nonneg' A) (x.arrErr_nonneg A))).2]

theorem FromArrayNear.frob_le {ε : ℝ} {A : NDArray 𝕜} {P : List (List ℕ)} {x : MPA 𝕜} (h : FromArrayNear ε A P x) (hs : A.shape = P.flatten) :
    x.frob ≤ (1 + fromArrayErr ε P.length) * npNorm A := by
  have := (abs_le.1 (C82_frob h hs)).2
  linarith

theorem FromArrayNear.len {ε : ℝ} {A : NDArray 𝕜} {P : List (List ℕ)} {x : MPA 𝕜} (h : FromArrayNear ε A P x) : x.len = P.length := by
  rw [← h.shape]; simp [MPA.shape, MPA.len, physShape]

/-- C82: `from_array(A, ndims).to_array()` differs from `A` only by rounding errors. -/
theorem C82_round_trip {ε : ℝ} (hε : 0 ≤ ε) (h1 : ε < 1) {td : TDot 𝕜} (htd : TdNear ε td) {A : NDArray 𝕜} {P : List (List ℕ)} {x : MPA 𝕜}
    (h : FromArrayNear ε A P x) (hs : A.shape = P.flatten) {D : ℕ} (hD1 : 1 ≤ D) (hD : ∀ q ∈ fullRank P, q ≤ D) :
    ∃ B, x.toArrayF td = .ok B ∧ B.shape = A.shape ∧
      arrDist A B ≤ (fromArrayErr ε P.length + toArrayErr ε D P.length * ((1 + ε) / (1 - ε)) ^ (P.length - 1)
        * (1 + fromArrayErr ε P.length)) * npNorm A := by
  obtain ⟨B, b1, b2, b3⟩ := C78_to_array_canonical hε hε h1 htd x h.good (by rw [h.form.1, h.form.2]; ring) hD1 (by rw [h.ranks]; exact hD)
  refine ⟨B, b1, by rw [b2, h.shape, hs], ?_⟩
  rw [h.len] at b3
  have hK : 0 ≤ toArrayErr ε D P.length * ((1 + ε) / (1 - ε)) ^ (P.length - 1) :=
    mul_nonneg (toArrayErr_nonneg hε D _) (pow_nonneg (div_nonneg (by linarith) (by linarith)) _)
  have b4 := b3.trans (mul_le_mul_of_nonneg_left (h.frob_le hs) hK)
  have hd : arrDist A B ≤ x.arrErr A + x.arrErr B := by
    refine (abs_le_of_sq_le_sq' ?_ (add_nonneg (x.arrErr_nonneg A) (x.arrErr_nonneg B))).2
    have e : arrDist A B ^ 2 = ∑ i ∈ siteSet x.shape, ‖A.get i.flatten - x.val i + (x.val i - B.get i.flatten)‖ ^ 2 := by
      rw [arrDist_sq, ← sumIdx_eq_sum, hs, ← h.shape, ← sumSites_flatten, sumSites_eq_sum]
      exact Finset.sum_congr rfl fun i _ => by rw [sub_add_sub_cancel]
    rw [e]
    exact mink _ _ _ (x.arrErr_nonneg A) (x.arrErr_nonneg B)
      (le_of_eq (by rw [MPA.arrErr_sq]; exact Finset.sum_congr rfl fun i _ => by rw [norm_sub_rev])) (le_of_eq (MPA.arrErr_sq x B).symm)
  refine hd.trans ((add_le_add h.err b4).trans (le_of_eq ?_))
  ring

/-- The distance of MPAs from an array satisfies the triangle inequality. -/
theorem MPA.arrErr_triangle {x y : MPA 𝕜} (hs : y.shape = x.shape) (A : NDArray 𝕜) : y.arrErr A ≤ x.dist y + x.arrErr A := by
  refine (abs_le_of_sq_le_sq' ?_ (add_nonneg (MPA.dist_nonneg' _ _) (x.arrErr_nonneg A))).2
  have := mink (siteSet x.shape) (fun i => y.val i - x.val i) (fun i => x.val i - A.get i.flatten) (MPA.dist_nonneg' x y) (x.arrErr_nonneg A)
    (le_of_eq (by rw [MPA.dist_sq]; exact Finset.sum_congr rfl fun i _ => by rw [norm_sub_rev])) (le_of_eq (MPA.arrErr_sq x A).symm)
  simp only [sub_add_sub_cancel] at this
  rw [MPA.arrErr_sq, hs]
  exact this

theorem MPA.dist_le_arrErr {x y : MPA 𝕜} (hs : y.shape = x.shape) (A : NDArray 𝕜) : x.dist y ≤ x.arrErr A + y.arrErr A := by
  refine (abs_le_of_sq_le_sq' ?_ (add_nonneg (x.arrErr_nonneg A) (y.arrErr_nonneg A))).2
  have := mink (siteSet x.shape) (fun i => x.val i - A.get i.flatten) (fun i => A.get i.flatten - y.val i) (x.arrErr_nonneg A) (y.arrErr_nonneg A)
    (le_of_eq (MPA.arrErr_sq x A).symm) (le_of_eq (by rw [MPA.arrErr_sq, hs]; exact Finset.sum_congr rfl fun i _ => by rw [norm_sub_rev]))
  simp only [sub_add_sub_cancel] at this
  rw [MPA.dist_sq]
  exact this

theorem compRel_nonneg {ε : ℝ} (hε : 0 ≤ ε) (h1 : ε < 1) (D n : ℕ) : 0 ≤ compRel ε D n := by
  have hc : 0 ≤ canonRel ε D n := by
    unfold canonRel canonErr
    have : 0 ≤ (1 + ε) / (1 - ε) := div_nonneg (by linarith) (by linarith)
    positivity
  have := compErr_nonneg hε h1 D (n - 1)
  unfold compRel
  positivity

/-- C82: `from_array(A, ndims).compress(...)`: the result is, up to rounding errors, as close to `A` as any MPA with the same or admissible
ranks, up to the factor `√(n-1)`. -/
theorem C82_compress {ε : ℝ} (hε : 0 ≤ ε) (h1 : ε < 1) {ar : Arith 𝕜} (har : ar.Near ε) {A : NDArray 𝕜} {P : List (List ℕ)} {x : MPA 𝕜}
    (h : FromArrayNear ε A P x) (hs : A.shape = P.flatten) (hlen : P.length ≠ 1) (rank : Option ℤ) (hr : ∀ r, rank = some r → 0 < r)
    (relerr : Option ℝ) (he : ∀ e, relerr = some e → 0 ≤ e ∧ e ≤ 1) (direction : Option Dir) (hd : direction ≠ some .other) {D : ℕ}
    (hD1 : 1 ≤ D) (hD : ∀ q ∈ fullRank P, q ≤ D) :
    ∃ y o, x.compressF ar rank relerr direction true = .ok (y, o) ∧ y.NearGood ε ∧ y.r = y.l + 1 ∧ y.shape = P ∧
      (∀ r, rank = some r → ∀ q ∈ y.ranks, (q : ℤ) ≤ r) ∧ OverlapNear ε y o ∧
      ∀ z : MPA 𝕜, z.Valid → z.shape = P →
        (z.RanksLe y ∨ relerr = none ∧ (∀ r, rank = some r → ∀ q ∈ z.ranks, (q : ℤ) ≤ r) ∧ (rank = none → z.RanksLe x)) →
        y.arrErr A ≤ Real.sqrt (P.length - 1 : ℕ) * z.arrErr A + ((1 + Real.sqrt (P.length - 1 : ℕ)) * fromArrayErr ε P.length
          + compRel ε D P.length * (1 + fromArrayErr ε P.length)) * npNorm A := by
  have hl := h.len
  obtain ⟨y, o, c1, c2, c3, c4, c5, c6, c7, c8⟩ := C77_canonical hε h1 har x h.good (by rw [h.form.1, h.form.2]; ring) (by rw [hl]; exact hlen)
    rank hr relerr he direction hd hD1 (by rw [h.ranks]; exact hD)
  refine ⟨y, o, c1, c2, c3, by rw [c4, h.shape], c6, c7, fun z hz hzs hzr => ?_⟩
  have hzs' : z.shape = x.shape := by rw [hzs, h.shape]
  have k := c8 z hz hzs' hzr
  rw [hl] at k
  have hc0 : 0 ≤ compRel ε D P.length := compRel_nonneg hε h1 D _
  have k1 := MPA.arrErr_triangle c4 A
  have k2 := mul_le_mul_of_nonneg_left (MPA.dist_le_arrErr hzs' A) (Real.sqrt_nonneg (P.length - 1 : ℕ))
  have k3 := mul_le_mul_of_nonneg_left (h.frob_le hs) hc0
  have k4 := mul_le_mul_of_nonneg_left h.err (show 0 ≤ 1 + Real.sqrt (P.length - 1 : ℕ) by positivity)
  nlinarith

/-! ### the size of the bounds -/

/-- C82: with an exact decomposition nothing is lost. -/
theorem C82_exact (n : ℕ) : fromArrayErr 0 n = 0 := by simp [fromArrayErr]

/-- C82: the error is of first order in `ε` and linear in the number of sites. -/
theorem C82_first_order {ε : ℝ} (hε : 0 ≤ ε) (n : ℕ) (h : 2 * (n - 1 : ℕ) * ε ≤ 1) : fromArrayErr ε n ≤ 3 * (n - 1 : ℕ) * ε := by
  set N := n - 1 with hN
  have g : ∀ j ∈ range N, ((1 + ε) ^ 2) ^ j ≤ 3 := by
    intro j hj
    have hj : (j : ℝ) ≤ N := by exact_mod_cast (Finset.mem_range.1 hj).le
    have e1 : 1 + ε ≤ Real.exp ε := by linarith [Real.add_one_le_exp ε]
    calc ((1 + ε) ^ 2) ^ j ≤ (Real.exp ε ^ 2) ^ j := by gcongr
      _ = Real.exp ((2 * j : ℕ) * ε) := by rw [← pow_mul, ← Real.exp_nat_mul]
      _ ≤ Real.exp 1 := Real.exp_le_exp.2 (by push_cast; nlinarith)
      _ ≤ 3 := Real.exp_one_lt_d9.le.trans (by norm_num)
  unfold fromArrayErr
  have := Finset.sum_le_sum g
  rw [Finset.sum_const, Finset.card_range, nsmul_eq_mul] at this
  calc ε * ∑ j ∈ range N, ((1 + ε) ^ 2) ^ j ≤ ε * (N * 3) := mul_le_mul_of_nonneg_left this hε
    _ = 3 * N * ε := by ring

/-- Non-vacuity: a three-site array, inexact routines, the round trip and the compression to rank one. -/
example : ∃ (ar : Arith ℂ) (x y : MPA ℂ) (B : NDArray ℂ) (o : ℝ), ar.Near (1 / 1000) ∧
    fromArray ar.qr ⟨[2, 3, 2], fun i => (i.sum ^ 2 : ℂ)⟩ (some (.const 1)) false = .ok x ∧ x.ranks = [2, 2] ∧
    FromArrayNear (1 / 1000) ⟨[2, 3, 2], fun i => (i.sum ^ 2 : ℂ)⟩ [[2], [3], [2]] x ∧
    x.toArrayF (tdScaled (1 / 1000)) = .ok B ∧ B.shape = [2, 3, 2] ∧
    x.compressF ar (some 1) none none true = .ok (y, o) ∧ (∀ q ∈ y.ranks, (q : ℤ) ≤ 1) := by
  obtain ⟨qr, hqr⟩ := exists_QRSpec (𝕜 := ℂ)
  obtain ⟨svd, hsvd⟩ := exists_SVDSpec (𝕜 := ℂ)
  have har := arith_scaled_near (δ := 1 / 1000) (by norm_num) (by norm_num) hqr hsvd
  obtain ⟨x, a1, a2⟩ := C82_from_array_const (by norm_num) har.qr (⟨[2, 3, 2], fun i => (i.sum ^ 2 : ℂ)⟩ : NDArray ℂ) 1 (by norm_num)
    [[2], [3], [2]] (by simp) (by simp) (by simp) rfl
  obtain ⟨B, b1, b2, _⟩ := C82_round_trip (by norm_num) (by norm_num) (tdScaled_near (by norm_num)) a2 rfl (D := 2) (by norm_num) (by decide)
  obtain ⟨y, o, c1, _, _, _, c5, _⟩ := C82_compress (by norm_num) (by norm_num) har a2 rfl (by simp) (some 1) (by simp) none (by simp) none
    (by simp) (D := 2) (by norm_num) (by decide)
  exact ⟨_, x, y, B, o, har, a1, a2.ranks, a2, b1, b2, c1, c5 1 rfl⟩

end Mpnum
