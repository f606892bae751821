import Verif.MPArray.RoundingStep

/-! Contracts of the inexact routines, and one step of each sweep of `compress(method='svd')`. -/

open Finset

namespace Mpnum

variable {𝕜 : Type} [RCLike 𝕜]

/-- Contract of `numpy.linalg.svd` with error `ε`.  The computed singular values are non-negative and sorted.  There are
exactly orthonormal columns `U` and rows `V`, within `ε` of the computed ones (Frobenius norm), such that
`A = U diag(s) V` up to a matrix of norm at most `ε ‖A‖`. -/
def SVDNear (ε : ℝ) (svd : SVD 𝕜) : Prop :=
  ∀ (A : NDArray 𝕜) (m n : ℕ), A.shape = [m, n] →
    (svd A).1.shape = [m, m] ∧ (svd A).2.1.length = min m n ∧ (svd A).2.2.shape = [n, n] ∧
    (svd A).2.1.Pairwise (· ≥ ·) ∧ (∀ s ∈ (svd A).2.1, 0 ≤ s) ∧
    ∃ U V : ℕ → ℕ → 𝕜,
      (∀ k < min m n, ∀ k' < min m n, ∑ i ∈ range m, star (U i k) * U i k' = if k = k' then 1 else 0) ∧
      (∀ k < min m n, ∀ k' < min m n, ∑ j ∈ range n, V k j * star (V k' j) = if k = k' then 1 else 0) ∧
      ∑ i ∈ range m, ∑ k ∈ range (min m n), ‖(svd A).1.get [i, k] - U i k‖ ^ 2 ≤ ε ^ 2 ∧
      ∑ k ∈ range (min m n), ∑ j ∈ range n, ‖(svd A).2.2.get [k, j] - V k j‖ ^ 2 ≤ ε ^ 2 ∧
      ∑ i ∈ range m, ∑ j ∈ range n,
        ‖A.get [i, j] - ∑ k ∈ range (min m n), U i k * (((svd A).2.1.getD k 0 : ℝ) : 𝕜) * V k j‖ ^ 2 ≤ ε ^ 2 * nsq A

/-- Contract of an elementwise product with relative error `ε` in each entry. -/
def MulNear (ε : ℝ) (mul : NDArray 𝕜 → NDArray 𝕜 → Py (NDArray 𝕜)) : Prop :=
  ∀ a b c : NDArray 𝕜, a.mulB b = .ok c →
    ∃ c', mul a b = .ok c' ∧ c'.shape = c.shape ∧ ∀ i, InB i c.shape → ‖c'.get i - c.get i‖ ≤ ε * ‖c.get i‖

/-- Facts about the selection of the singular values. -/
structure PickF (svd : SVD 𝕜) (A : NDArray 𝕜) (m n : ℕ) (rank : ℤ) (relerr : Option ℝ) (p : NDArray 𝕜 × List ℝ × NDArray 𝕜 × ℕ) :
    Prop where
  pos : 0 < p.2.2.2
  le : p.2.2.2 ≤ min m n
  le_rank : (p.2.2.2 : ℤ) ≤ rank
  ushape : ∃ c, p.1.shape = [m, c] ∧ p.2.2.2 ≤ c
  slen : p.2.2.2 ≤ p.2.1.length
  vshape : ∃ c, p.2.2.1.shape = [c, n] ∧ p.2.2.2 ≤ c
  uget : p.1.get = (svd A).1.get
  vget : p.2.2.1.get = (svd A).2.2.get
  sget : ∀ a < p.2.2.2, p.2.1.getD a 0 = (svd A).2.1.getD a 0
  full : relerr = none → p.2.2.2 = min rank.toNat (min m n)

theorem trunc_pickF {ε : ℝ} {svd : SVD 𝕜} (h : SVDNear ε svd) {rank : ℤ} (hr : 0 < rank) {A : NDArray 𝕜} {m n : ℕ}
    (hA : A.shape = [m, n]) (hm : 0 < m) (hn : 0 < n) :
    PickF svd A m n rank none ((truncatedSvd svd A rank.toNat).1, (truncatedSvd svd A rank.toNat).2.1,
      (truncatedSvd svd A rank.toNat).2.2, (truncatedSvd svd A rank.toNat).2.1.length) := by
  obtain ⟨h1, h2, h3, -⟩ := h A m n hA
  have hl : (truncatedSvd svd A rank.toNat).2.1.length = min rank.toNat (min m n) := by
    simp [truncatedSvd, h2]
  refine ⟨by simp only [hl]; omega, by simp only [hl]; omega, by simp only [hl]; omega, ⟨min rank.toNat (min m n), ?_, by simp only [hl]; omega⟩,
    le_refl _, ⟨min rank.toNat (min m n), ?_, by simp only [hl]; omega⟩, rfl, rfl, ?_, fun _ => hl⟩
  · simp only [truncatedSvd, NDArray.cols, h1, h2, List.getD_cons_zero, List.getD_cons_succ]
    congr 2; omega
  · simp only [truncatedSvd, NDArray.rows, h3, h2, List.getD_cons_zero, List.getD_cons_succ]
    congr 1; omega
  · intro a ha
    simp only [hl] at ha
    simp only [truncatedSvd, h2]
    exact getD_take _ _ _ _ ha

theorem pickRF_ok {ε : ℝ} {ar : Arith 𝕜} (h : SVDNear ε ar.svd) (hrk : ∀ s e, 0 < ar.rank s e) {rank : ℤ} (hr : 0 < rank)
    {relerr : Option ℝ} {A : NDArray 𝕜} {m n : ℕ} (hA : A.shape = [m, n]) (hm : 0 < m) (hn : 0 < n) :
    PickF ar.svd A m n rank relerr (svdPickRF ar rank relerr n A) := by
  cases relerr with
  | none => exact trunc_pickF h hr hA hm hn
  | some e =>
    obtain ⟨h1, h2, h3, -⟩ := h A m n hA
    have hk : (svdPickRF ar rank (some e) n A).2.2.2 = min (min n m) (min rank.toNat (ar.rank (ar.svd A).2.1 e)) := by
      simp [svdPickRF, h1]
    have hp := hrk (ar.svd A).2.1 e
    exact ⟨by rw [hk]; omega, by rw [hk]; omega, by rw [hk]; omega, ⟨m, h1, by rw [hk]; omega⟩,
      by rw [hk]; show _ ≤ (ar.svd A).2.1.length; omega, ⟨n, h3, by rw [hk]; omega⟩, rfl, rfl, fun _ _ => rfl, by simp⟩

theorem pickLF_ok {ε : ℝ} {ar : Arith 𝕜} (h : SVDNear ε ar.svd) (hrk : ∀ s e, 0 < ar.rank s e) {rank : ℤ} (hr : 0 < rank)
    {relerr : Option ℝ} {A : NDArray 𝕜} {m n : ℕ} (hA : A.shape = [m, n]) (hm : 0 < m) (hn : 0 < n) :
    PickF ar.svd A m n rank relerr (svdPickLF ar rank relerr m A) := by
  cases relerr with
  | none => exact trunc_pickF h hr hA hm hn
  | some e =>
    obtain ⟨h1, h2, h3, -⟩ := h A m n hA
    have hk : (svdPickLF ar rank (some e) m A).2.2.2 = min (min m n) (min rank.toNat (ar.rank (ar.svd A).2.1 e)) := by
      simp [svdPickLF, h3]
    have hp := hrk (ar.svd A).2.1 e
    exact ⟨by rw [hk]; omega, by rw [hk]; omega, by rw [hk]; omega, ⟨m, h1, by rw [hk]; omega⟩,
      by rw [hk]; show _ ≤ (ar.svd A).2.1.length; omega, ⟨n, h3, by rw [hk]; omega⟩, rfl, rfl, fun _ _ => rfl, by simp⟩

theorem sorted_getD {l : List ℝ} (h : l.Pairwise (· ≥ ·)) {i j : ℕ} (hij : i ≤ j) (hj : j < l.length) : l.getD j 0 ≤ l.getD i 0 := by
  rcases hij.lt_or_eq with h' | rfl
  · have hi : i < l.length := by omega
    rw [List.getD_eq_getElem?_getD, List.getD_eq_getElem?_getD, List.getElem?_eq_getElem hj, List.getElem?_eq_getElem hi]
    exact List.pairwise_iff_getElem.1 h i j (by omega) hj h'
  · exact le_rfl

theorem nonneg_getD {l : List ℝ} (h : ∀ s ∈ l, 0 ≤ s) (i : ℕ) : 0 ≤ l.getD i 0 := by
  rw [List.getD_eq_getElem?_getD]
  cases hi : l[i]? with
  | none => simp
  | some s => exact h s (List.mem_of_getElem? hi)

/-- The number of singular values that is certain to be kept. -/
def rankFloor (rank : ℤ) (relerr : Option ℝ) : ℕ := if relerr = none then rank.toNat else 0

namespace MPA

/-- One step of the sweep to the right. -/
theorem svdStepRF_ok {ε : ℝ} (hε : 0 ≤ ε) (h1 : ε ≤ 1) {ar : Arith 𝕜} (hsvd : SVDNear ε ar.svd) (hmul : MulNear ε ar.mul)
    (hmd : MdNear ε ar.md) (hrk : ∀ s e, 0 < ar.rank s e) {rank : ℤ} (hr : 0 < rank) (relerr : Option ℝ) {x : MPA 𝕜}
    (hx : x.NearGood ε) {pre post : List (NDArray 𝕜)} {A R B : NDArray 𝕜} (hlt : x.lt = pre ++ A :: R :: post)
    (hl : x.l = pre.length) (hr1 : x.r = pre.length + 1) (hRB : RDiff ε R B) (hB : RCanon B) (hBl : B.IsLocal)
    {D : ℕ} (hD : R.lb ≤ D) :
    ∃ y t A' T, x.svdStepRF ar rank relerr pre.length = .ok y ∧ PairStep ε x y pre post A R t A' ∧
      y.l = pre.length + 1 ∧ y.r = pre.length + 2 ∧ (A'.lb : ℤ) ≤ rank ∧
      SvStep (5 * (1 + ε) ^ 4 * Real.sqrt D * ε) (2 * ε) (rankFloor rank relerr) A B T A' ∧ LDiff ε t T ∧ OrthC T.rowSet T.rb T.fl := by
  have hloc := hx.valid.chain.isLocal
  have hAm : A ∈ x.lt := by rw [hlt]; simp
  have hRm : R ∈ x.lt := by rw [hlt]; simp
  have hAl := hloc A hAm
  have hRl := hloc R hRm
  have hch := hx.valid.chain
  have hAR : A.rb = R.lb := by
    rw [hlt] at hch
    obtain ⟨_, _, hc2⟩ := chained_append.1 hch
    exact hc2.2.2.2.1.symm
  have hArb := hx.pos.rb hAm hAl
  have hAlb := hx.pos.lb hAm hAl
  have hAph := hx.pos.ph hAm hAl
  have hRn : RNear ε R := by
    have := (hx.canon (pre.length + 1) R (by rw [hlt]; simp)).2
    exact this (by rw [hr1]; push_cast; rfl)
  obtain ⟨mat, e1, e2, e3⟩ := lmat_ok hAl hArb
  set M := (A.lb :: A.ph).prod with hM
  have hMpos : 0 < M := by rw [hM, List.prod_cons]; exact Nat.mul_pos hAlb hAph
  have hp := pickRF_ok (relerr := relerr) hsvd hrk hr e2 hMpos hArb
  obtain ⟨s1, s2, s3, s4, s5, U, V, hU, hV, hu, hv, hclose⟩ := hsvd mat _ _ e2
  obtain ⟨pu, ps, pv, k, hpick⟩ : ∃ pu ps pv k, svdPickRF ar rank relerr A.rb mat = (pu, ps, pv, k) := ⟨_, _, _, _, rfl⟩
  rw [hpick] at hp
  obtain ⟨cu, hcu, hcuk⟩ := hp.ushape
  obtain ⟨cv, hcv, hcvk⟩ := hp.vshape
  have hkpos := hp.pos
  have hkle := hp.le
  have hkr := hp.le_rank
  have hpug := hp.uget
  have hpvg := hp.vget
  have hpsg := hp.sget
  have hpl := hp.slen
  have hpf := hp.full
  simp only at hcu hcuk hcv hcvk hkpos hkle hkr hpug hpvg hpsg hpl hpf
  set K := min M A.rb with hK
  have hUc : (pu.cols k).shape = [(A.lb :: A.ph).prod, k] := by simp [NDArray.cols, hcu, hcuk, hM]
  obtain ⟨t, f1, f2, f3⟩ := lunmat_nat hUc
  obtain ⟨w₀, w1, w2, w3⟩ := mulB_svCol (sv := ps) hcv hcvk hpl
  obtain ⟨w, m1, m2, m3⟩ := hmul _ _ _ w1
  rw [w2] at m2 m3
  obtain ⟨A₀, g1, g2, g3⟩ := matdot_left (m := w) (u := R) (k := k) hRl (by rw [← hAR]; exact m2)
  obtain ⟨A', n1, n2, n3⟩ := hmd.ok (sa := [k]) (sb := R.ph ++ [R.rb]) (k := R.lb) (by rw [← hAR]; exact m2)
    (NDArray.shape_local hRl) g1
  rw [g2] at n2 n3
  have htrb : t.rb = k := NDArray.rb_of_shape f2
  have hts : t.shape = A.lb :: (A.ph ++ [t.rb]) := by rw [htrb]; exact f2
  have hA's : A'.shape = t.rb :: (R.ph ++ [R.rb]) := by rw [htrb]; exact n2
  -- the exact decomposition, with the rows as pairs of indices
  have hsum : ∀ {N : Type} [AddCommMonoid N] (g : ℕ → N), ∑ i ∈ range M, g i = ∑ i ∈ A.rowSet, g (ravelIdx (A.lb :: A.ph) (i.1 :: i.2)) := by
    intro N _ g
    rw [← sumIdx_ravel, sumIdx_cons]
    unfold NDArray.rowSet
    rw [Finset.sum_product]
    exact Finset.sum_congr rfl fun a _ => sumIdx_eq_sum _ _
  have hfl : ∀ i ∈ A.rowSet, ∀ b < A.rb, mat.get [ravelIdx (A.lb :: A.ph) (i.1 :: i.2), b] = A.fl i b := by
    intro i hi b hb
    unfold NDArray.rowSet at hi
    rw [Finset.mem_product, mem_idxSet, Finset.mem_range] at hi
    exact e3 (i.1 :: i.2) b (inB_cons' hi.1 hi.2) hb
  have hnear : NearSvd ε A.rowSet A.rb K A.fl (fun i c => U (ravelIdx (A.lb :: A.ph) (i.1 :: i.2)) c)
      (fun c => (ar.svd mat).2.1.getD c 0) V := by
    refine ⟨fun c hc c' hc' => ?_, hV, fun i j hij hj => sorted_getD s4 hij (by omega), fun i _ => nonneg_getD s5 i, ?_⟩
    · rw [← hU c hc c' hc', hsum]
    · rw [← npNorm_fl hAl]
      refine l2_le (mul_nonneg hε (npNorm_nonneg' A)) ?_
      rw [mul_pow, npNorm_sq, ← nsq_matricize hAl e2 e3]
      refine le_trans (le_of_eq ?_) hclose
      rw [hsum]
      refine Finset.sum_congr rfl fun i hi => Finset.sum_congr rfl fun j hj => ?_
      rw [hfl i hi j (by simpa using hj)]
      congr 3
      unfold mprod
      exact Finset.sum_congr rfl fun c _ => by ring
  have hstep := svStep_abs hε h1 (A := A) (R := R) (B := B) (t := t) (A' := A') hAl hRl hAR hRn.1 hRB hB hBl hnear (k := k) hkle f2
    n2 (v := fun a j => (ar.svd mat).2.2.get [a, j]) (w := fun a j => w.get [a, j]) ?_ ?_ ?_ ?_
    (show 1 ≤ D by have := hAR; omega) hD (ρ := rankFloor rank relerr) ?_
  · obtain ⟨T, hS, hd, ho, hln⟩ := hstep
    have hupd := update_pair_left (x := x) hlt (NDArray.isLocal_of_shape f2) (NDArray.isLocal_of_shape n2) (NDArray.lb_of_shape f2).symm
      (htrb.trans (NDArray.lb_of_shape n2).symm) (NDArray.rb_of_shape n2).symm hl.ge
    have hch' := hch
    rw [hlt] at hch'
    obtain ⟨hc1, hc2⟩ := chained_replace hch' hts hA's
    have hxlen : (x.len : ℤ) = pre.length + 2 + post.length := by
      simp [MPA.len, hlt]; ring
    refine ⟨⟨pre ++ t :: A' :: post, pre.length + 1, max (pre.length + 2) x.r⟩, t, A', T, ?_, ⟨hlt, rfl, ?_, ?_, ?_, NDArray.lb_of_shape f2,
      NDArray.rb_of_shape n2⟩, rfl, by simp only; omega, ?_, hS, hd, ho⟩
    · unfold svdStepRF
      have hsite1 : x.site ((pre.length : ℤ) + 1) = .ok R := by
        have := site_ok (x := x) (pre := pre ++ [A]) (post := post) (t := R) (by simp [hlt])
        simpa using this
      have hdl : A.shape.dropLast = A.lb :: A.ph := by
        rw [NDArray.shape_local hAl, ← List.cons_append, List.dropLast_concat]
      rw [site_ok (x := x) hlt, ok_bind, e1, ok_bind]
      simp only [hpick, hdl]
      rw [f1, ok_bind, m1, ok_bind, hsite1, ok_bind, n1, ok_bind]
      exact hupd
    · refine nearGood_pair hx hlt hts hA's (by omega) (by omega) (by omega) (by omega) ?_
      intro n w hw
      have hcold := hx.canon
      rcases getElem?_mid hw with ⟨h1, h2⟩ | ⟨h1, h2⟩ | ⟨h1, h2⟩ | ⟨h1, h2⟩
      · refine ⟨fun _ => (hcold n w (by rw [hlt]; exact getElem?_pre h2)).1 (by omega), fun h => ?_⟩
        exfalso; omega
      · refine ⟨fun _ => by rw [h2]; exact hln, fun h => ?_⟩
        exfalso; omega
      · exact ⟨fun h => by exfalso; omega, fun h => by exfalso; omega⟩
      · refine ⟨fun h => by exfalso; omega, fun h => (hcold n w (by rw [hlt]; exact h2 A R)).2 (by omega)⟩
    · rw [show x.shape = physShape x.lt from rfl, hlt]; exact hc2
    · exact ranksLe_pair hlt (NDArray.lb_of_shape f2) (by rw [NDArray.lb_of_shape n2]; omega)
    · rw [NDArray.lb_of_shape n2]; exact hkr
  · -- u
    refine le_trans ?_ hu
    rw [hsum]
    refine Finset.sum_le_sum fun i hi => ?_
    refine le_trans (le_of_eq (Finset.sum_congr rfl fun b hb => ?_))
      (Finset.sum_le_sum_of_subset_of_nonneg (Finset.range_subset_range.2 hkle) fun _ _ _ => sq_nonneg _)
    have hi' := hi
    unfold NDArray.rowSet at hi'
    rw [Finset.mem_product, mem_idxSet, Finset.mem_range] at hi'
    have := f3 (i.1 :: i.2) b (inB_cons' hi'.1 hi'.2) (by simpa using hb)
    rw [show t.fl i b = t.get ((i.1 :: i.2) ++ [b]) from rfl, this]
    simp only [NDArray.cols, hpug]
  · -- v
    refine le_trans ?_ hv
    exact Finset.sum_le_sum_of_subset_of_nonneg (Finset.range_subset_range.2 hkle)
      fun _ _ _ => Finset.sum_nonneg fun _ _ => sq_nonneg _
  · -- w
    intro a ha j hj
    have := m3 [a, j] (by simp [InB, ha, hj])
    rw [w3 a ha j hj, hpsg a ha, hpvg] at this
    exact this
  · -- the new centre
    refine l2_le (by have := l2_nonneg (range k) (range A.rb) fun a j => w.get [a, j]; have := npNorm_nonneg' R; positivity) ?_
    have hwn : nsq w = l2 (range k) (range A.rb) (fun a j => w.get [a, j]) ^ 2 := by
      rw [l2_sq]; unfold nsq; rw [m2]; rfl
    have : ε ^ 2 * (nsq w * nsq R) = (ε * (l2 (range k) (range A.rb) (fun a j => w.get [a, j]) * npNorm R)) ^ 2 := by
      rw [hwn, ← npNorm_sq R]; ring
    rw [← this]
    refine le_trans (le_of_eq ?_) n3
    rw [sumIdx_cons]
    refine Finset.sum_congr rfl fun a _ => ?_
    rw [sumIdx_append, sumIdx_eq_sum, Finset.sum_product]
    refine Finset.sum_congr rfl fun p hp' => ?_
    simp only [sumIdx_cons, sumIdx_nil]
    refine Finset.sum_congr rfl fun b _ => ?_
    have h1 := g3 a p b (inB_length (mem_idxSet.1 hp'))
    rw [norm_sub_rev, hAR, ← h1]
    rfl
  · unfold rankFloor
    cases relerr with
    | none => simp only [if_true]; have := hpf rfl; omega
    | some e => right; simp

end MPA

/-! ### mirror images -/

/-- The local tensor with the two bonds exchanged. -/
def NDArray.rev3 (t : NDArray 𝕜) : NDArray 𝕜 := NDArray.mk3 t.rb t.ph t.lb fun a p b => t.at3 b p a

theorem rev3_at3 (t : NDArray 𝕜) (a : ℕ) (p : List ℕ) (b : ℕ) : t.rev3.at3 a p b = t.at3 b p a := NDArray.mk3_at3 a p b

theorem rev3_lb (t : NDArray 𝕜) : t.rev3.lb = t.rb := NDArray.mk3_lb

theorem rev3_rb (t : NDArray 𝕜) : t.rev3.rb = t.lb := NDArray.mk3_rb

theorem rev3_ph (t : NDArray 𝕜) : t.rev3.ph = t.ph := NDArray.mk3_ph

theorem rev3_local (t : NDArray 𝕜) : t.rev3.IsLocal := NDArray.mk3_local

theorem rev3_shape (t : NDArray 𝕜) : t.rev3.shape = t.rb :: (t.ph ++ [t.lb]) := NDArray.mk3_shape

theorem rev3_npNorm {t : NDArray 𝕜} (ht : t.IsLocal) : npNorm t.rev3 = npNorm t := by
  rw [npNorm_rows (rev3_local t), npNorm_fl ht, l2_swap]
  unfold l2 NDArray.rowSet NDArray.fl
  rw [rev3_lb, rev3_ph, rev3_rb, Finset.sum_product, Finset.sum_product_right]
  simp only [rev3_at3]

theorem rev3_rop {c : ℝ} {t : NDArray 𝕜} (h : LOp c t) : ROp c t.rev3 := by
  intro v
  rw [rev3_lb, rev3_ph, rev3_rb]
  refine le_trans (le_of_eq ?_) (h v)
  simp only [sumIdx_eq_sum]
  rw [Finset.sum_comm]
  simp only [rev3_at3, mul_comm]

theorem rev3_rnear {ε : ℝ} {t : NDArray 𝕜} (h : LNear ε t) : RNear ε t.rev3 := by
  refine ⟨rev3_rop h.1, fun v => ?_⟩
  rw [rev3_lb, rev3_ph, rev3_rb]
  refine le_trans (h.2 v) (le_of_eq ?_)
  simp only [sumIdx_eq_sum]
  rw [Finset.sum_comm]
  simp only [rev3_at3, mul_comm]

theorem rnear_of_rev3 {ε : ℝ} {t : NDArray 𝕜} (h : LNear ε t.rev3) : RNear ε t := by
  have e : ∀ v : ℕ → 𝕜, (∑ a ∈ range t.rev3.lb, sumIdx t.rev3.ph fun p => ‖∑ b ∈ range t.rev3.rb, t.rev3.at3 a p b * v b‖ ^ 2)
      = sumIdx t.ph fun p => ∑ b ∈ range t.rb, ‖∑ a ∈ range t.lb, v a * t.at3 a p b‖ ^ 2 := by
    intro v
    rw [rev3_lb, rev3_ph, rev3_rb]
    simp only [sumIdx_eq_sum]
    rw [Finset.sum_comm]
    simp only [rev3_at3, mul_comm]
  refine ⟨fun v => ?_, fun v => ?_⟩
  · have := h.1 v
    rw [e, rev3_rb] at this
    exact this
  · have := h.2 v
    rw [e, rev3_rb] at this
    exact this

namespace MPA

/-- One step of the sweep to the left. -/
theorem svdStepLF_ok {ε : ℝ} (hε : 0 ≤ ε) (h1 : ε ≤ 1) {ar : Arith 𝕜} (hsvd : SVDNear ε ar.svd) (hmul : MulNear ε ar.mul)
    (hmd : MdNear ε ar.md) (hrk : ∀ s e, 0 < ar.rank s e) {rank : ℤ} (hr : 0 < rank) (relerr : Option ℝ) {x : MPA 𝕜}
    (hx : x.NearGood ε) {pre post : List (NDArray 𝕜)} {L A B : NDArray 𝕜} (hlt : x.lt = pre ++ L :: A :: post)
    (hl : x.l = pre.length + 1) (hr1 : x.r = pre.length + 2) (hRB : RDiff ε L.rev3 B) (hB : RCanon B) (hBl : B.IsLocal)
    {D : ℕ} (hD : L.rb ≤ D) :
    ∃ y t u T, x.svdStepLF ar rank relerr (pre.length + 1) = .ok y ∧ PairStep ε x y pre post L A t u ∧
      y.l = pre.length ∧ y.r = pre.length + 1 ∧ (u.lb : ℤ) ≤ rank ∧
      SvStep (5 * (1 + ε) ^ 4 * Real.sqrt D * ε) (2 * ε) (rankFloor rank relerr) A.rev3 B T t.rev3 ∧
      LDiff ε u.rev3 T ∧ OrthC T.rowSet T.rb T.fl := by
  have hloc := hx.valid.chain.isLocal
  have hAm : A ∈ x.lt := by rw [hlt]; simp
  have hLm : L ∈ x.lt := by rw [hlt]; simp
  have hAl := hloc A hAm
  have hLl := hloc L hLm
  have hch := hx.valid.chain
  have hLA : L.rb = A.lb := by
    rw [hlt] at hch
    obtain ⟨_, _, hc2⟩ := chained_append.1 hch
    exact hc2.2.2.2.1.symm
  have hArb := hx.pos.rb hAm hAl
  have hAlb := hx.pos.lb hAm hAl
  have hAph := hx.pos.ph hAm hAl
  have hLn : LNear ε L := by
    have := (hx.canon pre.length L (by rw [hlt]; simp)).1
    exact this (by rw [hl]; omega)
  obtain ⟨mat, e1, e2, e3⟩ := rmat_ok hAl hAlb
  set M := (A.ph ++ [A.rb]).prod with hM
  have hMpos : 0 < M := by rw [hM, List.prod_append]; simpa using Nat.mul_pos hAph hArb
  have hp := pickLF_ok (relerr := relerr) hsvd hrk hr e2 hAlb hMpos
  obtain ⟨s1, s2, s3, s4, s5, U, V, hU, hV, hu, hv, hclose⟩ := hsvd mat _ _ e2
  obtain ⟨pu, ps, pv, k, hpick⟩ : ∃ pu ps pv k, svdPickLF ar rank relerr A.lb mat = (pu, ps, pv, k) := ⟨_, _, _, _, rfl⟩
  rw [hpick] at hp
  obtain ⟨cu, hcu, hcuk⟩ := hp.ushape
  obtain ⟨cv, hcv, hcvk⟩ := hp.vshape
  have hkpos := hp.pos
  have hkle := hp.le
  have hkr := hp.le_rank
  have hpug := hp.uget
  have hpvg := hp.vget
  have hpsg := hp.sget
  have hpl := hp.slen
  have hpf := hp.full
  simp only at hcu hcuk hcv hcvk hkpos hkle hkr hpug hpvg hpsg hpl hpf
  set K := min A.lb M with hK
  have hVc : (pv.rows k).shape = [k, (A.ph ++ [A.rb]).prod] := by simp [NDArray.rows, hcv, hcvk, hM]
  obtain ⟨u, f1, f2, f3⟩ := runmat_nat hVc
  obtain ⟨w₀, w1, w2, w3⟩ := mulB_svRow (sv := ps) hcu hcuk hpl
  obtain ⟨w, m1, m2, m3⟩ := hmul _ _ _ w1
  rw [w2] at m2 m3
  obtain ⟨A₀, g1, g2, g3⟩ := matdot_right (m := w) (u := L) (k := k) hLl (by rw [hLA]; exact m2)
  obtain ⟨t, n1, n2, n3⟩ := hmd.ok (sa := L.lb :: L.ph) (sb := [k]) (k := L.rb) (by simpa using NDArray.shape_local hLl)
    (by rw [hLA]; exact m2) g1
  rw [g2] at n2 n3
  have htrb : t.rb = k := NDArray.rb_of_shape n2
  have htlb : t.lb = L.lb := NDArray.lb_of_shape n2
  have htph : t.ph = L.ph := NDArray.ph_of_shape n2
  have hulb : u.lb = k := NDArray.lb_of_shape f2
  have huph : u.ph = A.ph := NDArray.ph_of_shape f2
  have hurb : u.rb = A.rb := NDArray.rb_of_shape f2
  have hts : t.shape = L.lb :: (L.ph ++ [t.rb]) := by rw [htrb]; exact n2
  have hus : u.shape = t.rb :: (A.ph ++ [A.rb]) := by rw [htrb]; exact f2
  -- the exact decomposition, mirrored
  have hrow : A.rev3.rowSet = range A.rb ×ˢ idxSet A.ph := by
    unfold NDArray.rowSet; rw [rev3_lb, rev3_ph]
  have hsum : ∀ {N : Type} [AddCommMonoid N] (g : ℕ → N),
      ∑ i ∈ range M, g i = ∑ i ∈ A.rev3.rowSet, g (ravelIdx (A.ph ++ [A.rb]) (i.2 ++ [i.1])) := by
    intro N _ g
    rw [← sumIdx_ravel, sumIdx_append, sumIdx_eq_sum, hrow, Finset.sum_product_right]
    exact Finset.sum_congr rfl fun p _ => by simp only [sumIdx_cons, sumIdx_nil]
  have hmem : ∀ i ∈ A.rev3.rowSet, InB (i.2 ++ [i.1]) (A.ph ++ [A.rb]) := by
    intro i hi
    rw [hrow, Finset.mem_product, mem_idxSet, Finset.mem_range] at hi
    exact inB_append hi.2 (by simpa using hi.1)
  have hfl : ∀ i ∈ A.rev3.rowSet, ∀ b < A.lb, mat.get [b, ravelIdx (A.ph ++ [A.rb]) (i.2 ++ [i.1])] = A.rev3.fl i b := by
    intro i hi b hb
    rw [e3 b _ hb (hmem i hi)]
    exact (rev3_at3 A i.1 i.2 b).symm
  have hnsq : nsq mat = npNorm A.rev3 ^ 2 := by
    rw [rev3_npNorm hAl, npNorm_sq]; exact nsq_matricize_right hAl e2 e3
  have hnear : NearSvd ε A.rev3.rowSet A.rev3.rb K A.rev3.fl (fun i c => V c (ravelIdx (A.ph ++ [A.rb]) (i.2 ++ [i.1])))
      (fun c => (ar.svd mat).2.1.getD c 0) (fun c j => U j c) := by
    rw [rev3_rb]
    refine ⟨fun c hc c' hc' => ?_, OrthC.rows hU, fun i j hij hj => sorted_getD s4 hij (by omega), fun i _ => nonneg_getD s5 i, ?_⟩
    · have := OrthR.cols hV c hc c' hc'
      rw [← this, hsum]
    · have hn := npNorm_fl (rev3_local A)
      rw [rev3_rb] at hn
      rw [← hn]
      refine l2_le (mul_nonneg hε (npNorm_nonneg' _)) ?_
      rw [mul_pow, ← hnsq]
      refine le_trans (le_of_eq ?_) hclose
      rw [Finset.sum_comm (s := range A.lb) (t := range M), hsum]
      refine Finset.sum_congr rfl fun i hi => Finset.sum_congr rfl fun j hj => ?_
      rw [hfl i hi j (by simpa using hj)]
      congr 3
      unfold mprod
      exact Finset.sum_congr rfl fun c _ => by ring
  have hstep := svStep_abs hε h1 (A := A.rev3) (R := L.rev3) (B := B) (t := u.rev3) (A' := t.rev3) (rev3_local _) (rev3_local _)
    (by rw [rev3_rb, rev3_lb, hLA]) (rev3_rnear hLn).1 hRB hB hBl hnear (k := k) hkle
    (by rw [rev3_shape, rev3_lb, rev3_ph, hurb, huph, hulb])
    (by rw [rev3_shape, rev3_rb, rev3_ph, htrb, htph, htlb])
    (v := fun a j => (ar.svd mat).1.get [j, a]) (w := fun a j => w.get [j, a]) ?_ ?_ ?_ ?_
    (show 1 ≤ D by omega) (by rw [rev3_lb]; exact hD) (ρ := rankFloor rank relerr) ?_
  · obtain ⟨T, hS, hd, ho, hln⟩ := hstep
    have hrn := rnear_of_rev3 hln
    have hupd := update_pair_right (x := x) hlt (NDArray.isLocal_of_shape n2) (NDArray.isLocal_of_shape f2) htlb.symm
      (htrb.trans hulb.symm) hurb.symm hr1.le
    have hch' := hch
    rw [hlt] at hch'
    obtain ⟨hc1, hc2⟩ := chained_replace hch' hts hus
    have hxlen : (x.len : ℤ) = pre.length + 2 + post.length := by
      simp [MPA.len, hlt]; ring
    refine ⟨⟨pre ++ t :: u :: post, min pre.length x.l, pre.length + 1⟩, t, u, T, ?_, ⟨hlt, rfl, ?_, ?_, ?_, htlb, hurb⟩,
      by simp only; omega, rfl, ?_, hS, hd, ho⟩
    · unfold svdStepLF
      have hsite1 : x.site ((pre.length : ℤ) + 1) = .ok A := by
        have := site_ok (x := x) (pre := pre ++ [L]) (post := post) (t := A) (by simp [hlt])
        simpa using this
      have hdl : A.shape.tail = A.ph ++ [A.rb] := by
        rw [NDArray.shape_local hAl, List.tail_cons]
      rw [hsite1, ok_bind, e1, ok_bind, show (pre.length : ℤ) + 1 - 1 = pre.length by ring,
        show (pre.length : ℤ) + 1 + 1 = pre.length + 2 by ring]
      simp only [hpick, hdl]
      rw [site_ok (x := x) hlt, ok_bind, m1, ok_bind, n1, ok_bind, f1, ok_bind]
      exact hupd
    · refine nearGood_pair hx hlt hts hus (by omega) (by omega) (by omega) (by omega) ?_
      intro n w hw
      have hcold := hx.canon
      rcases getElem?_mid hw with ⟨h1, h2⟩ | ⟨h1, h2⟩ | ⟨h1, h2⟩ | ⟨h1, h2⟩
      · refine ⟨fun _ => (hcold n w (by rw [hlt]; exact getElem?_pre h2)).1 (by omega), fun h => ?_⟩
        exfalso; omega
      · exact ⟨fun h => by exfalso; omega, fun h => by exfalso; omega⟩
      · refine ⟨fun h => by exfalso; omega, fun _ => by rw [h2]; exact hrn⟩
      · refine ⟨fun h => by exfalso; omega, fun h => (hcold n w (by rw [hlt]; exact h2 L A)).2 (by omega)⟩
    · rw [show x.shape = physShape x.lt from rfl, hlt]; exact hc2
    · exact ranksLe_pair hlt htlb (by rw [hulb]; omega)
    · rw [hulb]; exact hkr
  · -- v
    refine le_trans ?_ hv
    rw [Finset.sum_comm (s := range (min A.lb M)), hsum]
    refine Finset.sum_le_sum fun i hi => ?_
    refine le_trans (le_of_eq (Finset.sum_congr rfl fun b hb => ?_))
      (Finset.sum_le_sum_of_subset_of_nonneg (Finset.range_subset_range.2 hkle) fun _ _ _ => sq_nonneg _)
    have := f3 b (i.2 ++ [i.1]) (by simpa using hb) (hmem i hi)
    rw [show u.rev3.fl i b = u.get (b :: (i.2 ++ [i.1])) from rev3_at3 u i.1 i.2 b, this]
    simp only [NDArray.rows, hpvg]
  · -- u
    rw [rev3_rb, Finset.sum_comm]
    refine le_trans ?_ hu
    exact Finset.sum_le_sum fun _ _ => Finset.sum_le_sum_of_subset_of_nonneg (Finset.range_subset_range.2 hkle)
      fun _ _ _ => sq_nonneg _
  · -- w
    intro a ha j hj
    rw [rev3_rb] at hj
    have := m3 [j, a] (by simp [InB, ha, hj])
    rw [w3 j hj a ha, hpsg a ha, hpug, mul_comm] at this
    exact this
  · -- the new centre
    rw [rev3_npNorm hLl, rev3_rb, rev3_rb, rev3_ph]
    refine l2_le (by have := l2_nonneg (range k) (range A.lb) fun a j => w.get [j, a]; have := npNorm_nonneg' L; positivity) ?_
    have hwn : nsq w = l2 (range k) (range A.lb) (fun a j => w.get [j, a]) ^ 2 := by
      rw [l2_swap, l2_sq]; unfold nsq; rw [m2]; rfl
    have : ε ^ 2 * (nsq L * nsq w) = (ε * (l2 (range k) (range A.lb) (fun a j => w.get [j, a]) * npNorm L)) ^ 2 := by
      rw [hwn, ← npNorm_sq L]; ring
    rw [← this]
    refine le_trans (le_of_eq ?_) n3
    rw [sumIdx_cons, Finset.sum_comm, Finset.sum_product_right]
    refine Finset.sum_congr rfl fun a _ => ?_
    rw [sumIdx_append, sumIdx_eq_sum]
    refine Finset.sum_congr rfl fun p hp' => ?_
    simp only [sumIdx_cons, sumIdx_nil]
    refine Finset.sum_congr rfl fun b _ => ?_
    have h1 := g3 a p b (inB_length (mem_idxSet.1 hp'))
    rw [norm_sub_rev, rev3_at3]
    simp only [rev3_at3]
    rw [show A₀.get (a :: (p ++ [b])) = A₀.at3 a p b from rfl, show t.get (a :: (p ++ [b])) = t.at3 a p b from rfl, h1, hLA]
    congr 3
    exact Finset.sum_congr rfl fun z _ => mul_comm _ _
  · unfold rankFloor
    cases relerr with
    | none => simp only [if_true]; have := hpf rfl; omega
    | some e => right; simp

end MPA

end Mpnum
