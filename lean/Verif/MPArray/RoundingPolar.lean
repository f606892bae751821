import Verif.MPArray.RoundingChain

/-! Nearly isometric local tensors are close to isometric ones. -/

open Finset

namespace Mpnum

variable {𝕜 : Type} [RCLike 𝕜] {ι κ : Type}

theorem l2_op {I : Finset ι} {K : ℕ} {T : ι → ℕ → 𝕜} {c : ℝ} (hc : 0 ≤ c)
    (h : ∀ v : ℕ → 𝕜, ∑ i ∈ I, ‖∑ k ∈ range K, T i k * v k‖ ^ 2 ≤ c ^ 2 * ∑ k ∈ range K, ‖v k‖ ^ 2) (J : Finset κ) (f : ℕ → κ → 𝕜) :
    l2 I J (mprod K T f) ≤ c * l2 (range K) J f := by
  rw [l2_swap, l2_swap (range K)]
  exact l2_scale hc fun j _ => h fun k => f k j

theorem l2_op_right {J : Finset κ} {K : ℕ} {S : ℕ → κ → 𝕜} {c : ℝ} (hc : 0 ≤ c)
    (h : ∀ v : ℕ → 𝕜, ∑ j ∈ J, ‖∑ k ∈ range K, v k * S k j‖ ^ 2 ≤ c ^ 2 * ∑ k ∈ range K, ‖v k‖ ^ 2) (I : Finset ι) (A : ι → ℕ → 𝕜) :
    l2 I J (mprod K A S) ≤ c * l2 I (range K) A :=
  l2_scale hc fun i _ => h fun k => A i k

theorem op_of_frob {I : Finset ι} {K : ℕ} {T : ι → ℕ → 𝕜} {c : ℝ} (h : ∑ i ∈ I, ∑ k ∈ range K, ‖T i k‖ ^ 2 ≤ c ^ 2) (v : ℕ → 𝕜) :
    ∑ i ∈ I, ‖∑ k ∈ range K, T i k * v k‖ ^ 2 ≤ c ^ 2 * ∑ k ∈ range K, ‖v k‖ ^ 2 := by
  refine le_trans ?_ (mul_le_mul_of_nonneg_right h (Finset.sum_nonneg fun _ _ => sq_nonneg _))
  rw [Finset.sum_mul]
  exact Finset.sum_le_sum fun i _ => cauchy_sq _ _ _

theorem unitary_rows {l : ℕ} {W : ℕ → ℕ → 𝕜}
    (h : ∀ k < l, ∀ k' < l, ∑ i ∈ range l, star (W i k) * W i k' = if k = k' then 1 else 0) :
    ∀ a < l, ∀ a' < l, ∑ k ∈ range l, W a k * star (W a' k) = if a = a' then 1 else 0 := by
  have h1 : (Matrix.of fun (i k : Fin l) => W i k).conjTranspose * (Matrix.of fun (i k : Fin l) => W i k) = 1 := by
    ext k k'
    simp only [Matrix.mul_apply, Matrix.conjTranspose_apply, Matrix.of_apply, Matrix.one_apply]
    rw [Fin.sum_univ_eq_sum_range (fun i => star (W i k) * W i k'), h k k.2 k' k'.2]
    simp [Fin.ext_iff]
  rw [mul_eq_one_comm] at h1
  intro a ha a' ha'
  have := congrFun (congrFun h1 ⟨a, ha⟩) ⟨a', ha'⟩
  simp only [Matrix.mul_apply, Matrix.conjTranspose_apply, Matrix.of_apply, Matrix.one_apply] at this
  rw [Fin.sum_univ_eq_sum_range (fun k => W a k * star (W a' k))] at this
  rw [this]
  simp [Fin.ext_iff]

/-- The polar decomposition, for rows. -/
theorem polar_range {ε : ℝ} (h1 : ε < 1) {l n : ℕ} {f : ℕ → ℕ → 𝕜}
    (hlo : ∀ v : ℕ → 𝕜, (1 - ε) ^ 2 * ∑ a ∈ range l, ‖v a‖ ^ 2 ≤ ∑ j ∈ range n, ‖∑ a ∈ range l, v a * f a j‖ ^ 2)
    (hhi : ∀ v : ℕ → 𝕜, ∑ j ∈ range n, ‖∑ a ∈ range l, v a * f a j‖ ^ 2 ≤ (1 + ε) ^ 2 * ∑ a ∈ range l, ‖v a‖ ^ 2) :
    ∃ g : ℕ → ℕ → 𝕜, OrthR (range n) l g ∧
      ∀ v : ℕ → 𝕜, ∑ j ∈ range n, ‖∑ a ∈ range l, v a * (f a j - g a j)‖ ^ 2 ≤ ε ^ 2 * ∑ a ∈ range l, ‖v a‖ ^ 2 := by
  obtain ⟨W, s, V, _, hs0, hW, hV, hf⟩ := exists_svd_matrix l n f
  have hWr := unitary_rows hW
  have hWn : ∀ k < l, ∑ a ∈ range l, ‖star (W a k)‖ ^ 2 = 1 := by
    intro k hk
    have h2 := hW k hk k hk
    rw [if_pos rfl] at h2
    have : (((∑ a ∈ range l, ‖star (W a k)‖ ^ 2 : ℝ)) : 𝕜) = 1 := by
      rw [← h2]; push_cast
      refine Finset.sum_congr rfl fun a _ => ?_
      have := star_mul_self_eq (W a k)
      push_cast at this
      rw [norm_star, this]
    exact_mod_cast this
  have hrow : ∀ k < l, ∀ j < n, ∑ a ∈ range l, star (W a k) * f a j = if k < n then ((s k : ℝ) : 𝕜) * V k j else 0 := by
    intro k hk j hj
    rw [Finset.sum_congr rfl fun a ha => by rw [hf a (by simpa using ha) j hj, Finset.mul_sum], Finset.sum_comm]
    have : ∀ k' ∈ range (min l n), ∑ a ∈ range l, star (W a k) * (W a k' * ((s k' : ℝ) : 𝕜) * V k' j)
        = if k = k' then ((s k' : ℝ) : 𝕜) * V k' j else 0 := by
      intro k' hk'
      have hk' : k' < min l n := by simpa using hk'
      rw [Finset.sum_congr rfl fun a _ => show star (W a k) * (W a k' * ((s k' : ℝ) : 𝕜) * V k' j)
        = star (W a k) * W a k' * (((s k' : ℝ) : 𝕜) * V k' j) by ring, ← Finset.sum_mul, hW k hk k' (by omega)]
      split <;> simp
    rw [Finset.sum_congr rfl this, Finset.sum_ite_eq]
    by_cases hkn : k < n
    · rw [if_pos hkn, if_pos (by simp; omega)]
    · rw [if_neg hkn, if_neg (by simp; omega)]
  have hpos : 0 < (1 - ε) ^ 2 := by have : 0 < 1 - ε := by linarith
                                    positivity
  have hln : l ≤ n := by
    by_contra hcon
    have := hlo fun a => star (W a n)
    rw [hWn n (by omega), Finset.sum_eq_zero (s := range n)] at this
    · linarith
    · intro j hj
      rw [hrow n (by omega) j (by simpa using hj), if_neg (by omega)]
      simp
  have hVn : ∀ k < n, ∑ j ∈ range n, ‖V k j‖ ^ 2 = 1 := by
    intro k hk
    have h2 := hV k hk k hk
    rw [if_pos rfl] at h2
    have : (((∑ j ∈ range n, ‖V k j‖ ^ 2 : ℝ)) : 𝕜) = 1 := by
      rw [← h2]; push_cast
      refine Finset.sum_congr rfl fun j _ => ?_
      have := star_mul_self_eq (V k j)
      push_cast at this
      rw [← this, mul_comm]
    exact_mod_cast this
  have hsn : ∀ k < l, |s k - 1| ≤ ε := by
    intro k hk
    have e : ∑ j ∈ range n, ‖∑ a ∈ range l, star (W a k) * f a j‖ ^ 2 = s k ^ 2 := by
      rw [Finset.sum_congr rfl fun j hj => by
        rw [hrow k hk j (by simpa using hj), if_pos (by omega), norm_mul, mul_pow, RCLike.norm_ofReal, sq_abs],
        ← Finset.mul_sum, hVn k (by omega), mul_one]
    have a1 := hlo fun a => star (W a k)
    have a2 := hhi fun a => star (W a k)
    rw [e, hWn k hk, mul_one] at a1 a2
    have hs := hs0 k
    have b1 := (abs_le_of_sq_le_sq' a1 hs).2
    have hε : 0 ≤ 1 + ε := by
      by_contra hcon
      nlinarith
    have b2 := (abs_le_of_sq_le_sq' a2 hε).2
    rw [abs_le]; constructor <;> linarith
  refine ⟨fun a j => ∑ k ∈ range l, W a k * V k j, ?_, ?_⟩
  · intro a ha a' ha'
    have hVR : OrthR (range n) l V := fun k hk k' hk' => hV k (by omega) k' (by omega)
    rw [← hWr a ha a' ha']
    have e : ∀ j, (∑ k ∈ range l, W a k * V k j) * star (∑ k ∈ range l, W a' k * V k j)
        = ∑ k ∈ range l, ∑ k' ∈ range l, (W a k * star (W a' k')) * (V k j * star (V k' j)) := by
      intro j
      rw [star_sum, Finset.sum_mul_sum]
      refine Finset.sum_congr rfl fun k _ => Finset.sum_congr rfl fun k' _ => ?_
      rw [star_mul]; ring
    rw [Finset.sum_congr rfl fun j _ => e j, Finset.sum_comm]
    refine Finset.sum_congr rfl fun k hk => ?_
    rw [Finset.sum_comm]
    rw [Finset.sum_congr rfl fun k' hk' => by
      rw [← Finset.mul_sum, hVR k (by simpa using hk) k' (by simpa using hk')]]
    simp only [mul_ite, mul_one, mul_zero]
    rw [Finset.sum_ite_eq, if_pos hk]
  · intro v
    set y : ℕ → 𝕜 := fun k => ∑ a ∈ range l, v a * W a k with hy
    have hyn : ∑ k ∈ range l, ‖y k‖ ^ 2 ≤ ∑ a ∈ range l, ‖v a‖ ^ 2 := by
      have := isometry_cols (I := range l) (q := fun k a => W a k) (K := l) (by
        intro a ha a' ha'
        have := hWr a' ha' a ha
        rw [Finset.sum_congr rfl fun k _ => mul_comm (star (W a k)) (W a' k), this]
        simp only [eq_comm]) v
      rw [← this]
      refine le_of_eq (Finset.sum_congr rfl fun k _ => ?_)
      congr 2
      exact Finset.sum_congr rfl fun a _ => mul_comm _ _
    have e : ∀ j ∈ range n, ∑ a ∈ range l, v a * (f a j - ∑ k ∈ range l, W a k * V k j)
        = ∑ k ∈ range l, V k j * (y k * (((s k - 1 : ℝ)) : 𝕜)) := by
      intro j hj
      have e1 : ∀ a ∈ range l, v a * (f a j - ∑ k ∈ range l, W a k * V k j)
          = ∑ k ∈ range l, v a * W a k * ((((s k - 1 : ℝ)) : 𝕜) * V k j) := by
        intro a ha
        rw [hf a (by simpa using ha) j (by simpa using hj), min_eq_left hln, ← Finset.sum_sub_distrib, Finset.mul_sum]
        refine Finset.sum_congr rfl fun k _ => ?_
        push_cast; ring
      rw [Finset.sum_congr rfl e1, Finset.sum_comm]
      refine Finset.sum_congr rfl fun k _ => ?_
      rw [← Finset.sum_mul]
      simp only [hy]; ring
    rw [Finset.sum_congr rfl fun j hj => by rw [e j hj]]
    rw [isometry_cols (I := range n) (q := fun j k => V k j) (K := l)
      (OrthR.cols (S := V) fun k hk k' hk' => hV k (by omega) k' (by omega))]
    refine le_trans (Finset.sum_le_sum fun k hk => ?_) ((Finset.mul_sum _ _ _).symm.le.trans (mul_le_mul_of_nonneg_left hyn (sq_nonneg ε)))
    rw [norm_mul, mul_pow, RCLike.norm_ofReal, mul_comm]
    refine mul_le_mul_of_nonneg_right ?_ (sq_nonneg _)
    exact pow_le_pow_left₀ (abs_nonneg _) (hsn k (by simpa using hk)) 2

/-- The polar decomposition, for rows on any finite set of columns. -/
theorem polar_rows {ε : ℝ} (h1 : ε < 1) {l : ℕ} {J : Finset κ} {f : ℕ → κ → 𝕜}
    (hlo : ∀ v : ℕ → 𝕜, (1 - ε) ^ 2 * ∑ a ∈ range l, ‖v a‖ ^ 2 ≤ ∑ j ∈ J, ‖∑ a ∈ range l, v a * f a j‖ ^ 2)
    (hhi : ∀ v : ℕ → 𝕜, ∑ j ∈ J, ‖∑ a ∈ range l, v a * f a j‖ ^ 2 ≤ (1 + ε) ^ 2 * ∑ a ∈ range l, ‖v a‖ ^ 2) :
    ∃ g : ℕ → κ → 𝕜, OrthR J l g ∧
      ∀ v : ℕ → 𝕜, ∑ j ∈ J, ‖∑ a ∈ range l, v a * (f a j - g a j)‖ ^ 2 ≤ ε ^ 2 * ∑ a ∈ range l, ‖v a‖ ^ 2 := by
  classical
  let e := J.equivFin
  let num : κ → ℕ := fun j => if h : j ∈ J then (e ⟨j, h⟩ : ℕ) else 0
  have hsum : ∀ {M : Type} [AddCommMonoid M] (g : ℕ → M), ∑ j ∈ J, g (num j) = ∑ x ∈ range J.card, g x := by
    intro M _ g
    rw [← Finset.sum_coe_sort J fun j => g (num j), ← Fin.sum_univ_eq_sum_range, ← Equiv.sum_comp e]
    refine Finset.sum_congr rfl fun j _ => ?_
    simp [num]
  have hex : ∃ f' : ℕ → ℕ → 𝕜, ∀ a, ∀ j ∈ J, f' a (num j) = f a j := by
    refine ⟨fun a x => if h : x < J.card then f a (e.symm ⟨x, h⟩) else 0, fun a j hj => ?_⟩
    simp [num, hj]
  obtain ⟨f', hf'⟩ := hex
  have hf : ∀ v : ℕ → 𝕜, ∑ j ∈ J, ‖∑ a ∈ range l, v a * f a j‖ ^ 2 = ∑ x ∈ range J.card, ‖∑ a ∈ range l, v a * f' a x‖ ^ 2 := by
    intro v
    rw [← hsum fun x => ‖∑ a ∈ range l, v a * f' a x‖ ^ 2]
    exact Finset.sum_congr rfl fun j hj => by rw [Finset.sum_congr rfl fun a _ => by rw [← hf' a j hj]]
  obtain ⟨g, g1, g2⟩ := polar_range h1 (f := f') (l := l) (n := J.card) (fun v => by rw [← hf]; exact hlo v)
    (fun v => by rw [← hf]; exact hhi v)
  refine ⟨fun a j => g a (num j), fun a ha a' ha' => ?_, fun v => ?_⟩
  · rw [hsum fun x => g a x * star (g a' x)]; exact g1 a ha a' ha'
  · refine le_trans (le_of_eq ?_) (g2 v)
    rw [← hsum fun x => ‖∑ a ∈ range l, v a * (f' a x - g a x)‖ ^ 2]
    exact Finset.sum_congr rfl fun j hj => by rw [Finset.sum_congr rfl fun a _ => by rw [← hf' a j hj]]

/-- `u` differs from `w` by an operator (from the left bond) of norm at most `ε`. -/
def RDiff (ε : ℝ) (u w : NDArray 𝕜) : Prop := u.lb = w.lb ∧ u.ph = w.ph ∧ u.rb = w.rb ∧ ∀ v : ℕ → 𝕜,
  ∑ j ∈ idxSet u.ph ×ˢ range u.rb, ‖∑ a ∈ range u.lb, v a * (u.at3 a j.1 j.2 - w.at3 a j.1 j.2)‖ ^ 2 ≤ ε ^ 2 * ∑ a ∈ range u.lb, ‖v a‖ ^ 2

/-- `u` differs from `w` by an operator (from the right bond) of norm at most `ε`. -/
def LDiff (ε : ℝ) (u w : NDArray 𝕜) : Prop := u.lb = w.lb ∧ u.ph = w.ph ∧ u.rb = w.rb ∧ ∀ v : ℕ → 𝕜,
  ∑ i ∈ u.rowSet, ‖∑ b ∈ range u.rb, (u.fl i b - w.fl i b) * v b‖ ^ 2 ≤ ε ^ 2 * ∑ b ∈ range u.rb, ‖v b‖ ^ 2

/-- A nearly right-canonical local tensor is close to a right-canonical one. -/
theorem rnear_polar {ε : ℝ} (h1 : ε < 1) {u : NDArray 𝕜} (h : RNear ε u) :
    ∃ w, w.IsLocal ∧ RCanon w ∧ RDiff ε u w := by
  have e : ∀ v : ℕ → 𝕜, (sumIdx u.ph fun p => ∑ b ∈ range u.rb, ‖∑ a ∈ range u.lb, v a * u.at3 a p b‖ ^ 2)
      = ∑ j ∈ idxSet u.ph ×ˢ range u.rb, ‖∑ a ∈ range u.lb, v a * u.at3 a j.1 j.2‖ ^ 2 := by
    intro v; rw [Finset.sum_product, sumIdx_eq_sum]
  obtain ⟨g, g1, g2⟩ := polar_rows h1 (l := u.lb) (J := idxSet u.ph ×ˢ range u.rb) (f := fun a j => u.at3 a j.1 j.2)
    (fun v => by rw [← e]; exact h.2 v) (fun v => by rw [← e]; exact h.1 v)
  refine ⟨NDArray.mk3 u.lb u.ph u.rb fun a p b => g a (p, b), NDArray.mk3_local, ?_,
    NDArray.mk3_lb.symm, NDArray.mk3_ph.symm, NDArray.mk3_rb.symm, ?_⟩
  · intro a ha a' ha'
    rw [NDArray.mk3_lb] at ha ha'
    rw [NDArray.mk3_rb, NDArray.mk3_ph]
    simp only [NDArray.mk3_at3]
    rw [← g1 a ha a' ha', Finset.sum_product_right]
    simp only [sumIdx_eq_sum]
  · intro v
    simp only [NDArray.mk3_at3]
    exact g2 v

end Mpnum
