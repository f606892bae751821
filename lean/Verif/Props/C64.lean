import Verif.Props.C64Unique
import Verif.Testing
import Verif.Props.C01
import Verif.Linalg.EigRun

/-! C64: SVD compression does not depend on the routines of the linear algebra library and agrees with the dense
reference implementation `compression_svd`. -/

open Finset

namespace Mpnum

variable {𝕜 : Type} [RCLike 𝕜]

/-! ### Uniqueness of the result -/

theorem take_sum_getD (s : List ℝ) (r : ℕ) : (s.take r).sum = ∑ c ∈ range r, s.getD c 0 := by
  induction s generalizing r with
  | nil => simp
  | cons a s ih =>
    cases r with
    | zero => simp
    | succ r => rw [List.take_succ_cons, List.sum_cons, ih, Finset.sum_range_succ']; simp [add_comm]

theorem take_sum_eq {s s' : List ℝ} (h : ∀ c, s.getD c 0 = s'.getD c 0) (r : ℕ) : (s.take r).sum = (s'.take r).sum := by
  rw [take_sum_getD, take_sum_getD]
  exact Finset.sum_congr rfl fun c _ => h c

theorem sum_eq_of_getD {s s' : List ℝ} (h : ∀ c, s.getD c 0 = s'.getD c 0) : s.sum = s'.sum := by
  have := take_sum_eq h (max s.length s'.length)
  rwa [List.take_of_length_le (le_max_left _ _), List.take_of_length_le (le_max_right _ _)] at this

/-- The numbers of singular values kept belong to the same truncation. -/
theorem keep_unique {rank : ℤ} (hr : 0 ≤ rank) {relerr : Option ℝ} {s s' : List ℝ} {t t' : ℕ} (h : ∀ c, s.getD c 0 = s'.getD c 0)
    (hk : Keep rank relerr s t) (hk' : Keep rank relerr s' t') (ht : t ≤ s.length) (ht' : t' ≤ s'.length) :
    ∃ T, t = min T s.length ∧ t' = min T s'.length ∧ (Gap s t → Gap s T) := by
  cases relerr with
  | none =>
    simp only [Keep] at hk hk'
    refine ⟨rank.toNat, by omega, by omega, fun hg => ?_⟩
    rcases le_total rank.toNat s.length with hl | hl
    · rwa [show t = rank.toNat by omega] at hg
    · exact Or.inr (Or.inl (List.getD_eq_default _ _ hl))
  | some e =>
    obtain ⟨r, h1, h2⟩ := hk
    obtain ⟨r', h1', h2'⟩ := hk'
    simp only [← sum_eq_of_getD h, ← fun q => take_sum_eq h q] at h1'
    have : r = r' := h1.unique h1'
    subst this
    exact ⟨t, by omega, by omega, id⟩

/-- Two successions of truncations of the same tensor have the same result. -/
theorem cutSeq_unique {S : List (List ℕ)} {rank : ℤ} (hr : 0 ≤ rank) {relerr : Option ℝ} {ks : List ℕ} (hks : ∀ k ∈ ks, k ≤ S.length)
    {f g f' g' : List (List ℕ) → 𝕜} {out out' : List (List ℝ × ℕ)} (h : CutSeq S (Keep rank relerr) ks f g out)
    (h' : CutSeq S (Keep rank relerr) ks f' g' out') (hf : ∀ i, IdxOK i S → f i = f' i) (hgap : ∀ o ∈ out, Gap o.1 o.2) :
    ∀ i, IdxOK i S → g i = g' i := by
  induction h generalizing f' out' with
  | nil hg =>
    cases h' with
    | nil hg' => exact fun i hi => by rw [hg i hi, hg' i hi, hf i hi]
  | @cons k ks f h₁ g s t out hc hk _ ih =>
    cases h' with
    | @cons _ _ _ h₂ _ s' t' _ hc' hk' hs' =>
      have hkS := hks k (by simp)
      have hc2 : SchmidtCut S k f h₂ s' t' := by
        obtain ⟨W, Z, w1, w2, w3⟩ := hc'
        refine ⟨W, Z, ⟨w1.sorted, w1.nonneg, w1.orthW, w1.orthZ, fun i j hi hj => ?_⟩, w2, w3⟩
        have : IdxOK (i ++ j) S := by
          have := idxOK_append hi hj
          rwa [List.take_append_drop] at this
        rw [hf _ this]
        exact w1.dec i j hi hj
      have hsv : ∀ c, s.getD c 0 = s'.getD c 0 := by
        obtain ⟨W, Z, w1, -⟩ := hc
        obtain ⟨W', Z', w1', -⟩ := hc2
        exact singVals_unique hkS ⟨W, Z, w1⟩ ⟨W', Z', w1'⟩
      have ht : t ≤ s.length := by obtain ⟨_, _, _, h, _⟩ := hc; exact h
      have ht' : t' ≤ s'.length := by obtain ⟨_, _, _, h, _⟩ := hc2; exact h
      obtain ⟨T, e1, e2, e3⟩ := keep_unique hr hsv hk hk' ht ht'
      refine ih (fun k' hk' => hks k' (by simp [hk'])) hs' ?_ (fun o ho => hgap o (by simp [ho]))
      rw [e1] at hc
      rw [e2] at hc2
      exact schmidt_trunc_unique hkS hc hc2 (e3 (hgap (s, t) (by simp)))

/-! ### The dense reference -/

/-- An array with one axis per site as a tensor -/
def NDArray.tens (A : NDArray 𝕜) (i : List (List ℕ)) : 𝕜 := A.get i.flatten

theorem idxOK_singles_flatten {D : List ℕ} {i : List (List ℕ)} (h : IdxOK i (singles D)) : InB i.flatten D := by
  have := idxOK_flatten h
  rwa [singles_flatten'] at this

theorem sumSites_singles_flat {M : Type} [AddCommMonoid M] (D : List ℕ) (F : List ℕ → M) :
    (sumSites (singles D) fun i => F i.flatten) = sumIdx D F := by
  rw [sumSites_flatten, singles_flatten']

theorem singlecut_ok {svd : SVD 𝕜} (h : SVDSpec svd) (A : NDArray 𝕜) (hD : ∀ d ∈ A.shape, 0 < d) (k : ℕ) (rank : ℕ) :
    ∃ A' pl pr s, singlecut svd A k rank = .ok (A', pl, pr) ∧ A'.shape = A.shape ∧
      SchmidtCut (singles A.shape) k A.tens A'.tens s (min rank s.length) ∧
      pl.shape = [(A.shape.take k).prod, (A.shape.take k).prod] ∧ pr.shape = [(A.shape.drop k).prod, (A.shape.drop k).prod] ∧
      (∀ i j, InB i (A.shape.take k) → InB j (A.shape.drop k) → A'.get (i ++ j)
        = sumIdx (A.shape.take k) fun i' => pl.get [ravelIdx (A.shape.take k) i, ravelIdx (A.shape.take k) i'] * A.get (i' ++ j)) ∧
      (∀ i j, InB i (A.shape.take k) → InB j (A.shape.drop k) → A'.get (i ++ j)
        = sumIdx (A.shape.drop k) fun j' => A.get (i ++ j') * pr.get [ravelIdx (A.shape.drop k) j', ravelIdx (A.shape.drop k) j]) := by
  set D := A.shape with hA
  have hprod : (D.take k).prod * (D.drop k).prod = D.prod := by
    rw [← List.prod_append, List.take_append_drop]
  have hpos : 0 < (D.take k).prod := List.prod_pos fun d hd => hD d (List.mem_of_mem_take hd)
  set m := (D.take k).prod with hm
  set n := (D.drop k).prod with hn
  set a := A.reshapeTo [m, n] with ha
  have h1 : A.reshape [(m : ℤ), -1] = .ok a := by
    simpa using NDArray.reshape_infer (a := A) (d := n) (s := [m]) (t := []) (by simpa using hprod) (by simpa using hpos)
  obtain ⟨s1, s2, s3, s4, s5, s6, s7, s8⟩ := h a m n rfl
  set M := min m n with hM
  have hthin : thinSvd svd a = ((svd a).1.cols M, (svd a).2.1.take M, (svd a).2.2.rows M) := by
    simp only [thinSvd, truncatedSvd, ha, NDArray.reshapeTo_shape, List.getD_cons_zero, List.getD_cons_succ]
    rw [← ha, s2, min_self]
  set s := (svd a).2.1 with hs
  have htake : s.take M = s := List.take_of_length_le (by rw [s2])
  set B := opMul (mulCols (((svd a).1.cols M).cols rank) ((s.take M).take rank)) (((svd a).2.2.rows M).rows rank) with hB
  have hBs : B.shape = [m, n] := by
    simp [hB, opMul, mulCols, NDArray.cols, NDArray.rows, s1, s3]
  have hBg : ∀ x y, B.get [x, y] = ∑ b ∈ range (min rank M), (svd a).1.get [x, b] * ((s.getD b 0 : ℝ) : 𝕜) * (svd a).2.2.get [b, y] := by
    intro x y
    simp only [hB, opMul, mulCols, NDArray.cols, NDArray.rows, s1, List.getD_cons_zero, List.getD_cons_succ, htake]
    rw [show min rank (min M m) = min rank M by omega]
    refine Finset.sum_congr rfl fun b hb => ?_
    rw [show (s.take rank).getD b 0 = s.getD b 0 by
      have : b < min rank M := by simpa using hb
      simp [List.getD, List.getElem?_take, show b < rank by omega]]
  have h2 : B.reshape (D.map fun d : ℕ => (d : ℤ)) = .ok (B.reshapeTo D) :=
    NDArray.reshape_nat (by rw [hBs]; simpa using hprod.symm)
  have hAg : ∀ i j, InB i (D.take k) → InB j (D.drop k) → A.get (i ++ j) = a.get [ravelIdx (D.take k) i, ravelIdx (D.drop k) j] := by
    intro i j hi hj
    have := NDArray.reshapeTo_blocks2 (a := A) (S := D.take k) (S' := D.drop k) (T := [m]) (T' := [n])
      (i := [ravelIdx (D.take k) i]) (j := [ravelIdx (D.drop k) j]) (by rw [← hA, List.take_append_drop]) (by simp [hm]) (by simp [hn])
      (.cons (ravelIdx_lt hi) .nil) (.cons (ravelIdx_lt hj) .nil)
    rw [show [ravelIdx (D.take k) i, ravelIdx (D.drop k) j] = [ravelIdx (D.take k) i] ++ [ravelIdx (D.drop k) j] from rfl, ha,
      show [m, n] = [m] ++ [n] from rfl, this]
    simp [unravel_ravel hi, unravel_ravel hj]
  have hBr : ∀ i j, InB i (D.take k) → InB j (D.drop k) →
      (B.reshapeTo D).get (i ++ j) = B.get [ravelIdx (D.take k) i, ravelIdx (D.drop k) j] := by
    intro i j hi hj
    have := NDArray.reshapeTo_blocks2 (a := B) (S := [m]) (S' := [n]) (T := D.take k) (T' := D.drop k) (i := i) (j := j)
      hBs (by simp [hm]) (by simp [hn]) hi hj
    rw [List.take_append_drop] at this
    rw [this]
    have e1 := ravelIdx_lt hi
    have e2 := ravelIdx_lt hj
    simp only [unravelIdx, List.prod_nil, Nat.div_one]
    rfl
  have hdec : ∀ i j, InB i (D.take k) → InB j (D.drop k) → A.get (i ++ j) = ∑ b ∈ range M, (svd a).1.get [ravelIdx (D.take k) i, b]
      * ((s.getD b 0 : ℝ) : 𝕜) * (svd a).2.2.get [b, ravelIdx (D.drop k) j] := fun i j hi hj => by
    rw [hAg i j hi hj]
    exact s8 _ (ravelIdx_lt hi) _ (ravelIdx_lt hj)
  refine ⟨B.reshapeTo D, opMul (((svd a).1.cols M).cols rank) (opAdj (((svd a).1.cols M).cols rank)),
    opMul (opAdj (((svd a).2.2.rows M).rows rank)) (((svd a).2.2.rows M).rows rank), s, ?_, rfl, ?_, ?_, ?_, ?_, ?_⟩
  · simp only [singlecut]
    rw [← hA, ← hm, h1, ok_bind, hthin]
    simp only
    rw [← hB, h2, ok_bind]
    rfl
  · rw [s2]
    refine ⟨fun i b => (svd a).1.get [ravelIdx (D.take k) i.flatten, b], fun b j => (svd a).2.2.get [b, ravelIdx (D.drop k) j.flatten],
      ⟨s4, s5, ?_, ?_, ?_⟩, by omega, ?_⟩
    · intro b hb b' hb'
      rw [singles_take, sumSites_singles_flat (D.take k) (fun i => star ((svd a).1.get [ravelIdx (D.take k) i, b]) * (svd a).1.get [ravelIdx (D.take k) i, b']),
        sumIdx_ravel (D.take k) (fun x => star ((svd a).1.get [x, b]) * (svd a).1.get [x, b'])]
      exact s6 b (by omega) b' (by omega)
    · intro b hb b' hb'
      rw [singles_drop, sumSites_singles_flat (D.drop k) (fun i => star ((svd a).2.2.get [b, ravelIdx (D.drop k) i]) * (svd a).2.2.get [b', ravelIdx (D.drop k) i]),
        sumIdx_ravel (D.drop k) (fun x => star ((svd a).2.2.get [b, x]) * (svd a).2.2.get [b', x]),
        Finset.sum_congr rfl fun x _ => mul_comm _ _, s7 b' (by omega) b (by omega)]
      simp only [eq_comm]
    · intro i j hi hj
      rw [singles_take] at hi
      rw [singles_drop] at hj
      rw [NDArray.tens, List.flatten_append, hdec _ _ (idxOK_singles_flatten hi) (idxOK_singles_flatten hj), s2]
    · intro i j hi hj
      rw [singles_take] at hi
      rw [singles_drop] at hj
      rw [NDArray.tens, List.flatten_append, hBr _ _ (idxOK_singles_flatten hi) (idxOK_singles_flatten hj), hBg]
  · simp [opMul, opAdj, NDArray.cols, s1]
  · simp [opMul, opAdj, NDArray.rows, s3]
  · intro i j hi hj
    rw [hBr i j hi hj, hBg]
    rw [sumIdx_congr fun i' hi' => by rw [hdec i' j hi' hj]]
    simp only [opMul, opAdj, NDArray.cols, s1, List.getD_cons_zero, List.getD_cons_succ]
    rw [show min rank (min M m) = min rank M by omega,
      sumIdx_ravel (D.take k) (fun x => (∑ b ∈ range (min rank M), (svd a).1.get [ravelIdx (D.take k) i, b] * star ((svd a).1.get [x, b]))
        * ∑ b ∈ range M, (svd a).1.get [x, b] * ((s.getD b 0 : ℝ) : 𝕜) * (svd a).2.2.get [b, ravelIdx (D.drop k) j])]
    simp only [Finset.sum_mul_sum]
    rw [Finset.sum_comm]
    refine Finset.sum_congr rfl fun b hb => ?_
    have hb' : b < min rank M := by simpa using hb
    rw [Finset.sum_comm, Finset.sum_eq_single b]
    · have := s6 b (by omega) b (by omega)
      rw [if_pos rfl] at this
      calc _ = (svd a).1.get [ravelIdx (D.take k) i, b] * 1 * ((s.getD b 0 : ℝ) : 𝕜) * (svd a).2.2.get [b, ravelIdx (D.drop k) j] := by ring
        _ = _ := by
          rw [← this, Finset.mul_sum, Finset.sum_mul, Finset.sum_mul]
          exact Finset.sum_congr rfl fun x _ => by ring
    · intro c hc hcb
      have hc' : c < M := by simpa using hc
      have := s6 b (by omega) c (by omega)
      rw [if_neg (Ne.symm hcb)] at this
      calc _ = (svd a).1.get [ravelIdx (D.take k) i, b] * (∑ x ∈ range m, star ((svd a).1.get [x, b]) * (svd a).1.get [x, c])
              * ((s.getD c 0 : ℝ) : 𝕜) * (svd a).2.2.get [c, ravelIdx (D.drop k) j] := by
            rw [Finset.mul_sum, Finset.sum_mul, Finset.sum_mul]
            exact Finset.sum_congr rfl fun x _ => by ring
        _ = 0 := by rw [this]; ring
    · intro hb2
      exact absurd (by simp; omega) hb2
  · intro i j hi hj
    rw [hBr i j hi hj, hBg]
    rw [sumIdx_congr fun j' hj' => by rw [hdec i j' hi hj']]
    simp only [opMul, opAdj, NDArray.rows, s3, List.getD_cons_zero, List.getD_cons_succ]
    rw [show min rank (min M n) = min rank M by omega,
      sumIdx_ravel (D.drop k) (fun y => (∑ b ∈ range M, (svd a).1.get [ravelIdx (D.take k) i, b] * ((s.getD b 0 : ℝ) : 𝕜) * (svd a).2.2.get [b, y])
        * ∑ b ∈ range (min rank M), star ((svd a).2.2.get [b, y]) * (svd a).2.2.get [b, ravelIdx (D.drop k) j])]
    simp only [Finset.sum_mul_sum]
    rw [Finset.sum_congr rfl fun x _ => Finset.sum_comm, Finset.sum_comm]
    refine Finset.sum_congr rfl fun b hb => ?_
    have hb' : b < min rank M := by simpa using hb
    rw [Finset.sum_comm, Finset.sum_eq_single b]
    · have := s7 b (by omega) b (by omega)
      rw [if_pos rfl] at this
      calc _ = (svd a).1.get [ravelIdx (D.take k) i, b] * ((s.getD b 0 : ℝ) : 𝕜) * 1 * (svd a).2.2.get [b, ravelIdx (D.drop k) j] := by ring
        _ = _ := by
          rw [← this, Finset.mul_sum, Finset.sum_mul]
          exact Finset.sum_congr rfl fun x _ => by ring
    · intro c hc hcb
      have hc' : c < M := by simpa using hc
      have := s7 c (by omega) b (by omega)
      rw [if_neg hcb] at this
      calc _ = (svd a).1.get [ravelIdx (D.take k) i, c] * ((s.getD c 0 : ℝ) : 𝕜)
              * (∑ y ∈ range n, (svd a).2.2.get [c, y] * star ((svd a).2.2.get [b, y])) * (svd a).2.2.get [b, ravelIdx (D.drop k) j] := by
            rw [Finset.mul_sum, Finset.sum_mul]
            exact Finset.sum_congr rfl fun x _ => by ring
        _ = 0 := by rw [this]; ring
    · intro hb2
      exact absurd (by simp; omega) hb2

/-- Specification: the bipartitions in the order in which they are truncated. -/
def cutOrder (n : ℕ) : Dir → List ℕ
  | .right => List.range' 1 (n - 1)
  | _ => (List.range (n - 1)).map fun j => n - 1 - j

theorem cutOrder_le {n k : ℕ} {d : Dir} (h : k ∈ cutOrder n d) : k ≤ n := by
  cases d <;> simp [cutOrder, List.mem_range'_1] at h <;> omega

theorem compressionLoop_ok {svd : SVD 𝕜} (h : SVDSpec svd) (rank : ℕ) (ks : List ℕ) (A : NDArray 𝕜) (hD : ∀ d ∈ A.shape, 0 < d)
    (ps : List (NDArray 𝕜 × NDArray 𝕜)) :
    ∃ A' qs out, compressionLoop svd rank ks A ps = .ok (A', ps ++ qs) ∧ A'.shape = A.shape ∧ qs.length = ks.length ∧
      CutSeq (singles A.shape) (Keep rank none) ks A.tens A'.tens out := by
  induction ks generalizing A ps with
  | nil => exact ⟨A, [], [], by simp [compressionLoop], rfl, rfl, .nil fun _ _ => rfl⟩
  | cons k ks ih =>
    obtain ⟨A₁, pl, pr, s, h1, h2, h3, -⟩ := singlecut_ok h A hD k rank
    obtain ⟨A', qs, out, g1, g2, g3, g4⟩ := ih A₁ (by rwa [h2]) (ps ++ [(pl, pr)])
    refine ⟨A', (pl, pr) :: qs, (s, min rank s.length) :: out, ?_, g2.trans h2, by simp [g3], .cons h3 (by simp [Keep]) (by rwa [h2] at g4)⟩
    rw [compressionLoop, h1, ok_bind]
    simp only [g1, List.append_assoc, List.cons_append, List.nil_append]

/-! ### The theorems -/

/-- C64: truncating the bipartitions of the tensor of `x` one after the other gives `g`, and no truncation separates equal
singular values.  Then `compress` returns `g`, whatever decompositions the routines of the linear algebra library choose
and whatever matrix product form `x` has. -/
theorem C64_unique {qr : QR 𝕜} (hqr : QRSpec qr) {svd : SVD 𝕜} (h : SVDSpec svd) (x : MPA 𝕜) (hx : x.Good) (hlen : x.len ≠ 1)
    (rank : ℤ) (hr : 0 < rank) (relerr : Option ℝ) (he : ∀ e, relerr = some e → 0 ≤ e ∧ e ≤ 1) (d : Dir) (hd : d ≠ .other)
    (f g : List (List ℕ) → 𝕜) (hf : ∀ i, IdxOK i x.shape → x.val i = f i) (out : List (List ℝ × ℕ))
    (hcut : CutSeq x.shape (Keep rank relerr) (cutOrder x.len d) f g out) (hgap : ∀ o ∈ out, Gap o.1 o.2) :
    ∃ y o, x.compress qr svd (some rank) relerr (some d) true = .ok (y, o) ∧ y.Good ∧ y.shape = x.shape ∧
      (∀ i, IdxOK i x.shape → y.val i = g i) ∧ o = sumSites x.shape fun i => ‖g i‖ ^ 2 := by
  obtain ⟨r, y, o, h1, h2, h3, h4, h5, h6⟩ := MPA.compressSvd_ok hqr h (truncatedSvd_spec h) x hx hlen
    (some rank) (by rintro _ ⟨⟩; exact hr) relerr he (some d) (by simpa using hd) true
  cases (show r = rank from h2)
  have hSl : x.shape.length = x.len := by simp [MPA.shape, MPA.len]
  have key : ∃ full, CutSeq x.shape (Keep rank relerr) (cutOrder x.len d) x.val y.val full := by
    rcases h6 with ⟨hne, -, -, hc⟩ | ⟨hne, -, -, hc⟩
    · obtain ⟨full, c1, -⟩ := hc rfl rfl
      cases d with
      | right => exact ⟨full, c1⟩
      | left => exact absurd rfl hne
      | other => exact absurd rfl hd
    · obtain ⟨full, c1, -⟩ := hc rfl rfl
      cases d with
      | right => exact absurd rfl hne
      | left => exact ⟨full, c1⟩
      | other => exact absurd rfl hd
  obtain ⟨full, c⟩ := key
  have e : ∀ i, IdxOK i x.shape → y.val i = g i := fun i hi =>
    (cutSeq_unique hr.le (fun k hk => by rw [hSl]; exact cutOrder_le hk) hcut c (fun i hi => (hf i hi).symm) hgap i hi).symm
  refine ⟨y, o, h4, h5.good, h5.shape, e, ?_⟩
  rw [← h5.norm]
  exact sumSites_congr fun i hi => by rw [e i hi]

/-- C64: `compress` returns the same tensor for two sets of routines and two matrix product forms of the same tensor. -/
theorem C64_independent {qr qr' : QR 𝕜} (hqr : QRSpec qr) (hqr' : QRSpec qr') {svd svd' : SVD 𝕜} (h : SVDSpec svd) (h' : SVDSpec svd')
    (x x' : MPA 𝕜) (hx : x.Good) (hx' : x'.Good) (hlen : x.len ≠ 1) (hs : x'.shape = x.shape)
    (hv : ∀ i, IdxOK i x.shape → x'.val i = x.val i)
    (rank : ℤ) (hr : 0 < rank) (relerr : Option ℝ) (he : ∀ e, relerr = some e → 0 ≤ e ∧ e ≤ 1) (d : Dir) (hd : d ≠ .other)
    (hgap : ∃ g out, CutSeq x.shape (Keep rank relerr) (cutOrder x.len d) x.val g out ∧ ∀ o ∈ out, Gap o.1 o.2) :
    ∃ y y' o, x.compress qr svd (some rank) relerr (some d) true = .ok (y, o) ∧
      x'.compress qr' svd' (some rank) relerr (some d) true = .ok (y', o) ∧
      ∀ i, IdxOK i x.shape → y.val i = y'.val i := by
  obtain ⟨g, out, hc, hg⟩ := hgap
  have hl : x'.len = x.len := by
    have := congrArg List.length hs
    simpa [MPA.shape, MPA.len] using this
  obtain ⟨y, o, y1, -, -, y2, y3⟩ := C64_unique hqr h x hx hlen rank hr relerr he d hd x.val g (fun _ _ => rfl) out hc hg
  obtain ⟨y', o', z1, -, -, z2, z3⟩ := C64_unique hqr' h' x' hx' (by rwa [hl]) rank hr relerr he d hd x.val g (fun i hi => hv i (by rwa [hs] at hi)) out
    (by rwa [hs, hl]) hg
  rw [hs] at z2 z3
  refine ⟨y, y', o, y1, ?_, fun i hi => by rw [y2 i hi, z2 i hi]⟩
  rw [z1, z3, y3]

/-- C64: `compress(rank=rank, direction=d)` of a matrix product state is `compression_svd` of the dense array. -/
theorem C64_dense {qr : QR 𝕜} (hqr : QRSpec qr) {svd svd' : SVD 𝕜} (h : SVDSpec svd) (h' : SVDSpec svd') (x : MPA 𝕜) (hx : x.Good)
    (hlen : x.len ≠ 1) (D : List ℕ) (hD : x.shape = singles D) (rank : ℕ) (hr : 0 < rank) (d : Dir) (hd : d ≠ .other)
    (hgap : ∃ g out, CutSeq x.shape (Keep rank none) (cutOrder x.len d) x.val g out ∧ ∀ o ∈ out, Gap o.1 o.2) :
    ∃ y o A B C ps, x.compress qr svd (some rank) none (some d) true = .ok (y, o) ∧ x.toArray = .ok A ∧ y.toArray = .ok C ∧
      compressionSvd svd' A rank d = .ok (B, ps) ∧ B.shape = D ∧ C.shape = D ∧ ∀ i, InB i D → C.get i = B.get i := by
  have hpos : ∀ d ∈ D, 0 < d := by
    intro d hd
    have : [d] ∈ x.shape := by rw [hD]; exact List.mem_map.2 ⟨d, hd, rfl⟩
    obtain ⟨t, ht, he⟩ := List.mem_map.1 this
    exact hx.pos t ht d (List.mem_of_mem_tail (List.mem_of_mem_dropLast (by rw [show t.shape.tail.dropLast = [d] from he]; simp)))
  obtain ⟨g, out, hc, hg⟩ := hgap
  obtain ⟨y, o, y1, y4, y5, y2, y3⟩ := C64_unique hqr h x hx hlen rank (by exact_mod_cast hr) none (by simp) d hd x.val g (fun _ _ => rfl) out hc hg
  obtain ⟨A, a1, a2, a3⟩ := C01_to_array x hx.valid
  obtain ⟨C, c1, c2, c3⟩ := C01_to_array y y4.valid
  have hfl : (singles D).flatten = D := singles_flatten' D
  rw [hD, hfl] at a2
  rw [y5, hD, hfl] at c2
  have hlD : D.length = x.len := by
    have := congrArg List.length hD
    simpa [MPA.shape, MPA.len, singles] using this.symm
  have hAd : A.ndim = x.len := by rw [NDArray.ndim, a2, hlD]
  obtain ⟨B, qs, out', b1, b2, -, b3⟩ := compressionLoop_ok h' rank (cutOrder x.len d) A (by rwa [a2]) []
  rw [a2] at b2 b3
  have e : ∀ i, IdxOK i (singles D) → g i = B.tens i := by
    rw [hD] at hc
    refine cutSeq_unique (rank := (rank : ℤ)) (by omega) (fun k hk => ?_) hc b3 (fun i hi => ?_) hg
    · rw [singles_length, hlD]; exact cutOrder_le hk
    · rw [NDArray.tens, a3 i (by rwa [hD])]
  have hcomp : ∃ ps, compressionSvd svd' A rank d = .ok (B, ps) := by
    unfold compressionSvd
    cases d with
    | right =>
      simp only [hAd]
      refine ⟨some ([] ++ qs), ?_⟩
      have : compressionLoop svd' rank (List.range' 1 (x.len - 1)) A [] = .ok (B, [] ++ qs) := b1
      rw [this]; rfl
    | left =>
      simp only [hAd]
      refine ⟨none, ?_⟩
      have : compressionLoop svd' rank ((List.range (x.len - 1)).map fun j => x.len - 1 - j) A [] = .ok (B, [] ++ qs) := b1
      rw [this]; rfl
    | other => exact absurd rfl hd
  obtain ⟨ps, hps⟩ := hcomp
  refine ⟨y, o, A, B, C, ps, y1, a1, c1, hps, b2, c2, fun i hi => ?_⟩
  obtain ⟨I, rfl, hI⟩ := idxOK_flatten_split (i := i) (ss := singles D) (by rwa [hfl])
  rw [c3 I (by rwa [y5, hD]), y2 I (by rwa [hD]), e I hI]
  rfl

/-- C64: with the direction `'left'` the list of projectors is lost. -/
theorem C64_left_projectors {svd : SVD 𝕜} (h : SVDSpec svd) (A : NDArray 𝕜) (hD : ∀ d ∈ A.shape, 0 < d) (rank : ℕ) :
    ∃ B, compressionSvd svd A rank .left = .ok (B, none) := by
  obtain ⟨B, qs, out', b1, -⟩ := compressionLoop_ok h rank (cutOrder A.ndim .left) A hD []
  refine ⟨B, ?_⟩
  unfold compressionSvd
  have : compressionLoop svd rank ((List.range (A.ndim - 1)).map fun j => A.ndim - 1 - j) A [] = .ok (B, [] ++ qs) := b1
  simp only [this]
  rfl

/-! ### A concrete case -/

/-- The tensor `2 |00⟩ + |11⟩` -/
def gapMPA : MPA ℂ :=
  ⟨[⟨[1, 2, 2], fun i => if i.getD 1 0 = i.getD 2 0 then (if i.getD 1 0 = 0 then 2 else 1) else 0⟩,
    ⟨[2, 2, 1], fun i => if i.getD 0 0 = i.getD 1 0 then 1 else 0⟩], 0, 2⟩

theorem gapMPA_good : gapMPA.Good := by
  refine ⟨⟨by simp [gapMPA], by simp [gapMPA, NDArray.IsLocal, NDArray.ndim, NDArray.lb, NDArray.rb],
    by simp [gapMPA], by simp [gapMPA], by simp [gapMPA, MPA.len]⟩, canonOK_mk _, ?_⟩
  intro t ht d hd
  simp only [gapMPA, List.mem_cons, List.not_mem_nil, or_false] at ht
  rcases ht with rfl | rfl <;> simp at hd <;> omega

theorem gapMPA_val (a b : ℕ) (ha : a < 2) (hb : b < 2) : gapMPA.val [[a], [b]] = if a = b then (if a = 0 then 2 else 1) else 0 := by
  have : gapMPA.val [[a], [b]] = ∑ c ∈ range 2, (if a = c then (if a = 0 then 2 else 1) else 0) * (if c = b then (1 : ℂ) else 0) := by
    simp [gapMPA, MPA.val, entry, mp, NDArray.at3, NDArray.rb]
  rw [this]
  interval_cases a <;> interval_cases b <;> simp [Finset.sum_range_succ]

theorem idx_single {i : List (List ℕ)} (h : IdxOK i [[2]]) : ∃ a < 2, i = [[a]] := by
  rcases h with _ | ⟨h1, h2⟩
  rcases h1 with _ | ⟨h3, h4⟩
  cases h2
  cases h4
  exact ⟨_, h3, rfl⟩

theorem gapMPA_cut : CutSeq gapMPA.shape (Keep 1 none) (cutOrder gapMPA.len .right) gapMPA.val
    (fun i => if i = [[0], [0]] then 2 else 0) [([2, 1], 1)] := by
  refine .cons (h := fun i => if i = [[0], [0]] then 2 else 0) ⟨fun i b => if i = [[b]] then 1 else 0, fun b j => if j = [[b]] then 1 else 0,
    ⟨by simp, by simp, ?_, ?_, ?_⟩, by simp, ?_⟩ (by simp [Keep]) (.nil fun _ _ => rfl)
  · intro b hb b' hb'
    simp at hb hb'
    interval_cases b <;> interval_cases b' <;> simp [gapMPA, MPA.shape, physShape, NDArray.ph, Finset.sum_range_succ]
  · intro b hb b' hb'
    simp at hb hb'
    interval_cases b <;> interval_cases b' <;> simp [gapMPA, MPA.shape, physShape, NDArray.ph, Finset.sum_range_succ]
  · intro i j hi hj
    obtain ⟨a, ha, rfl⟩ := idx_single hi
    obtain ⟨b, hb, rfl⟩ := idx_single hj
    have := gapMPA_val a b ha hb
    rw [show [[a]] ++ [[b]] = [[a], [b]] from rfl, this]
    interval_cases a <;> interval_cases b <;> simp [Finset.sum_range_succ]
  · intro i j hi hj
    obtain ⟨a, ha, rfl⟩ := idx_single hi
    obtain ⟨b, hb, rfl⟩ := idx_single hj
    interval_cases a <;> interval_cases b <;> simp

/-- Concrete case: the singular values of `2 |00⟩ + |11⟩` are different, and every choice of routines compresses it to
`2 |00⟩`. -/
example : ∃ (qr : QR ℂ) (svd : SVD ℂ) (y : MPA ℂ) (o : ℝ), QRSpec qr ∧ SVDSpec svd ∧
    gapMPA.compress qr svd (some 1) none (some .right) true = .ok (y, o) ∧ o = 4 ∧
    ∀ i, IdxOK i gapMPA.shape → y.val i = if i = [[0], [0]] then 2 else 0 := by
  obtain ⟨qr, hqr⟩ := exists_QRSpec (𝕜 := ℂ)
  obtain ⟨svd, h⟩ := exists_SVDSpec (𝕜 := ℂ)
  obtain ⟨y, o, h1, -, -, h2, h3⟩ := C64_unique hqr h gapMPA gapMPA_good (by simp [gapMPA, MPA.len]) 1 one_pos none (by simp) .right (by simp)
    gapMPA.val _ (fun _ _ => rfl) _ gapMPA_cut (by simp [Gap])
  refine ⟨qr, svd, y, o, hqr, h, h1, ?_, h2⟩
  rw [h3]
  simp [gapMPA, MPA.shape, physShape, NDArray.ph, Finset.sum_range_succ]
  norm_num

end Mpnum
