import Verif.MPArray.RoundingSvd

/-! One step of the sweep of `compress(method='svd')` in inexact arithmetic, for matrices. -/

open Finset

namespace Mpnum

variable {𝕜 : Type} [RCLike 𝕜]

theorem npNorm_rows {R : NDArray 𝕜} (hR : R.IsLocal) :
    npNorm R = l2 (range R.lb) (idxSet R.ph ×ˢ range R.rb) fun a j => R.at3 a j.1 j.2 := by
  rw [npNorm_fl hR]
  unfold l2 NDArray.rowSet NDArray.fl
  rw [Finset.sum_product]
  simp only [Finset.sum_product]

/-- The Frobenius norm of a nearly right-canonical local tensor. -/
theorem rnear_norm {ε : ℝ} (hε : 0 ≤ ε) {R : NDArray 𝕜} (hR : R.IsLocal) (h : ROp (1 + ε) R) :
    npNorm R ≤ (1 + ε) * Real.sqrt R.lb := by
  rw [npNorm_rows hR]
  refine l2_le (by positivity) ?_
  rw [mul_pow, Real.sq_sqrt (Nat.cast_nonneg _), mul_comm]
  calc _ ≤ ∑ a ∈ range R.lb, (1 + ε) ^ 2 := by
        refine Finset.sum_le_sum fun a ha => ?_
        have := h fun k => if k = a then 1 else 0
        rw [Finset.sum_eq_single a (fun b _ hb => by simp [hb]) (fun hn => absurd ha hn)] at this
        simp only [if_true, norm_one, one_pow, mul_one] at this
        refine le_trans (le_of_eq ?_) this
        rw [Finset.sum_product, sumIdx_eq_sum]
        refine Finset.sum_congr rfl fun p _ => Finset.sum_congr rfl fun b _ => ?_
        rw [Finset.sum_eq_single a (fun c _ hc => by simp [hc]) (fun hn => absurd ha hn)]
        simp
    _ = _ := by rw [Finset.sum_const, card_range, nsmul_eq_mul]

theorem lnear_of_ldiff {ε : ℝ} (hε : 0 ≤ ε) (h1 : ε ≤ 1) {t T : NDArray 𝕜} (h : LDiff ε t T) (ho : OrthC T.rowSet T.rb T.fl) :
    LNear ε t := by
  obtain ⟨d1, d2, d3, d4⟩ := h
  have hrow : T.rowSet = t.rowSet := (rowSet_congr d1 d2).symm
  rw [hrow, ← d3] at ho
  have e : ∀ (f : ℕ × List ℕ → ℝ), (∑ a ∈ range t.lb, sumIdx t.ph fun p => f (a, p)) = ∑ i ∈ t.rowSet, f i := by
    intro f
    unfold NDArray.rowSet
    rw [Finset.sum_product]
    simp only [sumIdx_eq_sum]
  have iso : ∀ v : ℕ → 𝕜, ∑ i ∈ t.rowSet, ‖∑ b ∈ range t.rb, T.fl i b * v b‖ ^ 2 = ∑ b ∈ range t.rb, ‖v b‖ ^ 2 :=
    fun v => isometry_cols ho v
  have key : ∀ v : ℕ → 𝕜, ∑ i ∈ t.rowSet, ‖∑ b ∈ range t.rb, t.fl i b * v b‖ ^ 2 ≤ (1 + ε) ^ 2 * ∑ b ∈ range t.rb, ‖v b‖ ^ 2 ∧
      (1 - ε) ^ 2 * ∑ b ∈ range t.rb, ‖v b‖ ^ 2 ≤ ∑ i ∈ t.rowSet, ‖∑ b ∈ range t.rb, t.fl i b * v b‖ ^ 2 := by
    intro v
    set N := Real.sqrt (∑ b ∈ range t.rb, ‖v b‖ ^ 2) with hN
    have hn : 0 ≤ ∑ b ∈ range t.rb, ‖v b‖ ^ 2 := Finset.sum_nonneg fun _ _ => sq_nonneg _
    have hN2 : N ^ 2 = ∑ b ∈ range t.rb, ‖v b‖ ^ 2 := Real.sq_sqrt hn
    have hN0 : 0 ≤ N := Real.sqrt_nonneg _
    rw [← hN2]
    have hd := d4 v
    have hi := iso v
    rw [← hN2] at hd hi
    rw [← mul_pow] at hd
    have hsplit : ∀ i, ∑ b ∈ range t.rb, (t.fl i b - T.fl i b) * v b
        = ∑ b ∈ range t.rb, t.fl i b * v b - ∑ b ∈ range t.rb, T.fl i b * v b := by
      intro i
      rw [← Finset.sum_sub_distrib]
      exact Finset.sum_congr rfl fun b _ => by ring
    simp only [hsplit] at hd
    set f : ℕ × List ℕ → 𝕜 := fun i => ∑ b ∈ range t.rb, t.fl i b * v b with hf
    set g : ℕ × List ℕ → 𝕜 := fun i => ∑ b ∈ range t.rb, T.fl i b * v b with hg
    have hεN : 0 ≤ ε * N := mul_nonneg hε hN0
    constructor
    · have := mink t.rowSet (fun i => f i - g i) g hεN hN0 hd (le_of_eq hi)
      simp only [sub_add_cancel] at this
      calc _ ≤ (ε * N + N) ^ 2 := this
        _ = _ := by ring
    · set F := Real.sqrt (∑ i ∈ t.rowSet, ‖f i‖ ^ 2) with hF
      have hF0 : 0 ≤ F := Real.sqrt_nonneg _
      have hF2 : F ^ 2 = ∑ i ∈ t.rowSet, ‖f i‖ ^ 2 := Real.sq_sqrt (Finset.sum_nonneg fun _ _ => sq_nonneg _)
      have hd' : ∑ i ∈ t.rowSet, ‖g i - f i‖ ^ 2 ≤ (ε * N) ^ 2 := by
        refine le_trans (le_of_eq (Finset.sum_congr rfl fun i _ => ?_)) hd
        rw [norm_sub_rev]
      have := mink t.rowSet (fun i => g i - f i) f hεN hF0 hd' (le_of_eq hF2.symm)
      simp only [sub_add_cancel] at this
      rw [hi] at this
      have h2 : N ≤ ε * N + F := (abs_le_of_sq_le_sq' this (by positivity)).2
      rw [← mul_pow]
      change _ ≤ ∑ i ∈ t.rowSet, ‖f i‖ ^ 2
      rw [← hF2]
      exact pow_le_pow_left₀ (mul_nonneg (by linarith) hN0) (by linarith) 2
  refine ⟨fun v => ?_, fun v => ?_⟩
  · exact (le_of_eq (e fun i => ‖∑ b ∈ range t.rb, t.fl i b * v b‖ ^ 2)).trans (key v).1
  · exact (key v).2.trans (le_of_eq (e fun i => ‖∑ b ∈ range t.rb, t.fl i b * v b‖ ^ 2).symm)

/-- One step of the sweep, from the errors of its operations: `t` is the first `k` columns of the computed `u`, `w` is the
computed product of the singular values and `v`, `A'` is the computed product of `w` and the next site `R`. -/
theorem svStep_abs {ε : ℝ} (hε : 0 ≤ ε) (h1 : ε ≤ 1) {A R B t A' : NDArray 𝕜} (hA : A.IsLocal) (hR : R.IsLocal) (hAR : A.rb = R.lb)
    (hRo : ROp (1 + ε) R) (hRB : RDiff ε R B) (hB : RCanon B) (hBl : B.IsLocal)
    {K k : ℕ} {U : ℕ × List ℕ → ℕ → 𝕜} {s : ℕ → ℝ} {V v w : ℕ → ℕ → 𝕜} (hs : NearSvd ε A.rowSet A.rb K A.fl U s V) (hk : k ≤ K)
    (ht : t.shape = A.lb :: (A.ph ++ [k])) (hA' : A'.shape = k :: (R.ph ++ [R.rb]))
    (hu : ∑ i ∈ A.rowSet, ∑ b ∈ range k, ‖t.fl i b - U i b‖ ^ 2 ≤ ε ^ 2)
    (hv : ∑ a ∈ range k, ∑ j ∈ range A.rb, ‖v a j - V a j‖ ^ 2 ≤ ε ^ 2)
    (hw : ∀ a < k, ∀ j < A.rb, ‖w a j - ((s a : ℝ) : 𝕜) * v a j‖ ≤ ε * ‖((s a : ℝ) : 𝕜) * v a j‖)
    (hn : l2 (range k) (idxSet R.ph ×ˢ range R.rb) (fun a j => A'.at3 a j.1 j.2 - ∑ z ∈ range A.rb, w a z * R.at3 z j.1 j.2)
      ≤ ε * (l2 (range k) (range A.rb) w * npNorm R))
    {D : ℕ} (hD0 : 1 ≤ D) (hD : R.lb ≤ D) {ρ : ℕ} (hρ : k = K ∨ ρ ≤ k) :
    ∃ T, SvStep (5 * (1 + ε) ^ 4 * Real.sqrt D * ε) (2 * ε) ρ A B T A' ∧ LDiff ε t T ∧ OrthC T.rowSet T.rb T.fl ∧ LNear ε t := by
  set T : NDArray 𝕜 := NDArray.mk3 A.lb A.ph k fun a p b => U (a, p) b with hT
  have hTl : T.IsLocal := NDArray.mk3_local
  have hTlb : T.lb = A.lb := NDArray.mk3_lb
  have hTph : T.ph = A.ph := NDArray.mk3_ph
  have hTrb : T.rb = k := NDArray.mk3_rb
  have hTfl : T.fl = U := by
    funext i b
    exact NDArray.mk3_at3 i.1 i.2 b
  have hrow : T.rowSet = A.rowSet := rowSet_congr hTlb hTph
  have hUk : OrthC A.rowSet k U := fun a ha b hb => hs.ucols a (by omega) b (by omega)
  obtain ⟨d1, d2, d3, d4⟩ := hRB
  have htrb : t.rb = k := NDArray.rb_of_shape ht
  have htrow : t.rowSet = A.rowSet := rowSet_congr (NDArray.lb_of_shape ht) (NDArray.ph_of_shape ht)
  have horth : OrthC T.rowSet T.rb T.fl := by rw [hrow, hTrb, hTfl]; exact hUk
  have hdiff : LDiff ε t T := by
    refine ⟨(NDArray.lb_of_shape ht).trans hTlb.symm, (NDArray.ph_of_shape ht).trans hTph.symm, htrb.trans hTrb.symm, fun v => ?_⟩
    rw [htrow, htrb, hTfl]
    exact op_of_frob (T := fun i b => t.fl i b - U i b) hu v
  refine ⟨T, ⟨hTl, hTlb, hTph, by rw [hTrb, hTfl]; exact hUk, NDArray.isLocal_of_shape hA', ?_, ?_, ?_, ?_, ?_⟩, hdiff, horth,
    lnear_of_ldiff hε h1 hdiff horth⟩
  · rw [hTrb]; exact NDArray.lb_of_shape hA'
  · rw [← d2]; exact NDArray.ph_of_shape hA'
  · rw [← d3]; exact NDArray.rb_of_shape hA'
  · have hBo : OrthR (idxSet R.ph ×ˢ range R.rb) A.rb fun a j => B.at3 a j.1 j.2 := by
      intro a ha a' ha'
      have := hB a (by omega) a' (by omega)
      rw [← this, ← d2, ← d3, Finset.sum_product_right]
      simp only [sumIdx_eq_sum]
    have hRn : l2 (range A.rb) (idxSet R.ph ×ˢ range R.rb) (fun a j => R.at3 a j.1 j.2) ≤ (1 + ε) * Real.sqrt D := by
      rw [hAR, ← npNorm_rows hR]
      refine (rnear_norm hε hR hRo).trans ?_
      exact mul_le_mul_of_nonneg_left (Real.sqrt_le_sqrt (by exact_mod_cast hD)) (by linarith)
    have hD1 : (1 : ℝ) ≤ Real.sqrt D := by
      rw [Real.one_le_sqrt]; exact_mod_cast hD0
    have := hs.next hε hk hv hw (J := idxSet R.ph ×ˢ range R.rb) (R := fun a j => R.at3 a j.1 j.2) (B := fun a j => B.at3 a j.1 j.2)
      hBo (fun x => by rw [hAR]; exact d4 x) hD1 hRn (A' := fun a j => A'.at3 a j.1 j.2) (by
        rw [npNorm_rows hR, ← hAR] at hn
        exact hn)
    rw [npNorm_fl hA]
    refine le_trans (le_of_eq ?_) this
    rw [hTrb, hTfl, ← d2, ← d3, ← d1, ← hAR]
    unfold l2
    congr 1
    rw [Finset.sum_product]
    refine Finset.sum_congr rfl fun a _ => ?_
    rw [Finset.sum_product]
    rfl
  · intro r X Y hr
    rw [hTrb] at hr
    rw [npNorm_fl hA, hTrb, hTfl]
    exact hs.best hk (by omega) X Y

end Mpnum
