import Verif.Props.C55
import Mathlib.LinearAlgebra.Lagrange
import Mathlib.Algebra.Polynomial.AlgebraMap

/-! C64, part 1: singular values are unique, and so is the truncation of a Schmidt decomposition between two different
singular values. -/

open Finset Matrix

namespace Mpnum

variable {𝕜 : Type} [RCLike 𝕜]

/-- A polynomial of `A Aᴴ`, applied to `A`, acts on the singular values. -/
theorem aeval_svd {m n t : ℕ} {A : Matrix (Fin m) (Fin n) 𝕜} {U : Matrix (Fin m) (Fin t) 𝕜} {V : Matrix (Fin t) (Fin n) 𝕜} {s : ℕ → ℝ}
    (hU : Uᴴ * U = 1) (hV : V * Vᴴ = 1) (hA : A = U * Matrix.diagonal (fun c : Fin t => ((s c : ℝ) : 𝕜)) * V) (p : Polynomial 𝕜) :
    Polynomial.aeval (A * Aᴴ) p * A
      = U * Matrix.diagonal (fun c : Fin t => p.eval (((s c ^ 2 : ℝ)) : 𝕜) * ((s c : ℝ) : 𝕜)) * V := by
  have hAA : A * Aᴴ = U * Matrix.diagonal (fun c : Fin t => ((s c ^ 2 : ℝ) : 𝕜)) * Uᴴ := by
    have hd : (Matrix.diagonal (fun c : Fin t => ((s c : ℝ) : 𝕜)))ᴴ = Matrix.diagonal (fun c : Fin t => ((s c : ℝ) : 𝕜)) := by
      rw [Matrix.diagonal_conjTranspose]
      congr 1
      funext c
      simp
    rw [hA, Matrix.conjTranspose_mul, Matrix.conjTranspose_mul, hd]
    calc U * Matrix.diagonal (fun c : Fin t => ((s c : ℝ) : 𝕜)) * V * (Vᴴ * (Matrix.diagonal (fun c : Fin t => ((s c : ℝ) : 𝕜)) * Uᴴ))
        = U * Matrix.diagonal (fun c : Fin t => ((s c : ℝ) : 𝕜)) * (V * Vᴴ) * (Matrix.diagonal (fun c : Fin t => ((s c : ℝ) : 𝕜)) * Uᴴ) := by
          simp only [Matrix.mul_assoc]
      _ = U * (Matrix.diagonal (fun c : Fin t => ((s c : ℝ) : 𝕜)) * Matrix.diagonal (fun c : Fin t => ((s c : ℝ) : 𝕜))) * Uᴴ := by
          rw [hV, Matrix.mul_one]; simp only [Matrix.mul_assoc]
      _ = _ := by
          rw [Matrix.diagonal_mul_diagonal]
          congr 3
          funext c
          push_cast
          ring
  have hpow : ∀ k : ℕ, (A * Aᴴ) ^ k * A
      = U * Matrix.diagonal (fun c : Fin t => ((s c ^ 2 : ℝ) : 𝕜) ^ k * ((s c : ℝ) : 𝕜)) * V := by
    intro k
    induction k with
    | zero => simpa using hA
    | succ k ih =>
      rw [pow_succ', Matrix.mul_assoc, ih, hAA]
      calc U * Matrix.diagonal (fun c : Fin t => ((s c ^ 2 : ℝ) : 𝕜)) * Uᴴ *
              (U * Matrix.diagonal (fun c : Fin t => ((s c ^ 2 : ℝ) : 𝕜) ^ k * ((s c : ℝ) : 𝕜)) * V)
          = U * Matrix.diagonal (fun c : Fin t => ((s c ^ 2 : ℝ) : 𝕜)) * (Uᴴ * U) *
              (Matrix.diagonal (fun c : Fin t => ((s c ^ 2 : ℝ) : 𝕜) ^ k * ((s c : ℝ) : 𝕜)) * V) := by
            simp only [Matrix.mul_assoc]
        _ = U * (Matrix.diagonal (fun c : Fin t => ((s c ^ 2 : ℝ) : 𝕜)) *
              Matrix.diagonal (fun c : Fin t => ((s c ^ 2 : ℝ) : 𝕜) ^ k * ((s c : ℝ) : 𝕜))) * V := by
            rw [hU, Matrix.mul_one]; simp only [Matrix.mul_assoc]
        _ = _ := by
            rw [Matrix.diagonal_mul_diagonal]
            congr 3
            funext c
            rw [pow_succ']
            ring
  induction p using Polynomial.induction_on' with
  | add p q hp hq =>
    rw [map_add, Matrix.add_mul, hp, hq, ← Matrix.add_mul, ← Matrix.mul_add, Matrix.diagonal_add]
    congr 3
    funext c
    rw [Polynomial.eval_add, add_mul]
  | monomial k a =>
    rw [Polynomial.aeval_monomial, Matrix.mul_assoc, hpow, Algebra.algebraMap_eq_smul_one, Matrix.smul_mul, Matrix.one_mul, ← Matrix.smul_mul, ← Matrix.mul_smul,
      ← Matrix.diagonal_smul]
    congr 3
    funext c
    simp [mul_assoc]

/-- The matrix form of a Schmidt decomposition -/
theorem IsSchmidt.bip_eq {S : List (List ℕ)} {k : ℕ} {f : List (List ℕ) → 𝕜} {W : List (List ℕ) → ℕ → 𝕜} {s : List ℝ}
    {Z : ℕ → List (List ℕ) → 𝕜} (h : IsSchmidt S k f W s Z) :
    bip S k f = matW (S.take k) W s.length * Matrix.diagonal (fun c : Fin s.length => ((s.getD c 0 : ℝ) : 𝕜)) * matZ (S.drop k) Z s.length := by
  ext a b
  rw [Matrix.mul_apply]
  simp only [Matrix.mul_diagonal, matW, matZ, bip, Matrix.of_apply]
  rw [h.dec _ _ (idxAt_ok a) (idxAt_ok b),
    ← Fin.sum_univ_eq_sum_range (fun c => W (idxAt _ a) c * ((s.getD c 0 : ℝ) : 𝕜) * Z c (idxAt _ b))]

theorem sv_getD_nonneg {s : List ℝ} (h : ∀ a ∈ s, 0 ≤ a) (c : ℕ) : 0 ≤ s.getD c 0 := by
  rcases lt_or_ge c s.length with hc | hc
  · rw [List.getD_eq_getElem _ _ hc]; exact h _ (List.getElem_mem _)
  · rw [List.getD_eq_default _ _ hc]

/-- Singular values are unique, up to zeros at the end. -/
theorem singVals_unique {S : List (List ℕ)} {k : ℕ} {f : List (List ℕ) → 𝕜} {s s' : List ℝ} (hk : k ≤ S.length)
    (h : SingVals S k f s) (h' : SingVals S k f s') (c : ℕ) : s.getD c 0 = s'.getD c 0 := by
  have tail : ∀ {s s' : List ℝ}, SingVals S k f s → SingVals S k f s' → ∀ r,
      ∑ c ∈ Ico r s.length, s.getD c 0 ^ 2 ≤ ∑ c ∈ Ico r s'.length, s'.getD c 0 ^ 2 := by
    rintro s s' ⟨W, Z, hW⟩ h' r
    obtain ⟨g, hg, hd⟩ := schmidt_trunc_dist (r := r) h' hk
    rw [← hd]
    exact schmidt_tail_le hW hg
  have tail' : ∀ r, ∑ c ∈ Ico r s.length, s.getD c 0 ^ 2 = ∑ c ∈ Ico r s'.length, s'.getD c 0 ^ 2 :=
    fun r => le_antisymm (tail h h' r) (tail h' h r)
  have step : ∀ (s : List ℝ) (r : ℕ), s.getD r 0 ^ 2 = ∑ c ∈ Ico r s.length, s.getD c 0 ^ 2 - ∑ c ∈ Ico (r + 1) s.length, s.getD c 0 ^ 2 := by
    intro s r
    rcases lt_or_ge r s.length with hr | hr
    · rw [Finset.sum_eq_sum_Ico_succ_bot hr]; ring
    · rw [Finset.Ico_eq_empty (by omega), Finset.Ico_eq_empty (by omega), List.getD_eq_default _ _ hr]; simp
  have : s.getD c 0 ^ 2 = s'.getD c 0 ^ 2 := by rw [step s, step s', tail', tail']
  obtain ⟨W, Z, hW⟩ := h
  obtain ⟨W', Z', hW'⟩ := h'
  exact (sq_eq_sq₀ (sv_getD_nonneg hW.nonneg c) (sv_getD_nonneg hW'.nonneg c)).1 this

/-- Specification: truncation to `T` singular values does not separate equal non-zero singular values. -/
def Gap (s : List ℝ) (T : ℕ) : Prop := T = 0 ∨ s.getD T 0 = 0 ∨ s.getD T 0 < s.getD (T - 1) 0

theorem getD_anti {s : List ℝ} (h : s.Pairwise (· ≥ ·)) (h0 : ∀ a ∈ s, 0 ≤ a) {i j : ℕ} (hij : i ≤ j) : s.getD j 0 ≤ s.getD i 0 := by
  rcases lt_or_ge j s.length with hj | hj
  · exact schmidt_getD_anti h i j hij hj
  · rw [List.getD_eq_default _ _ hj]; exact sv_getD_nonneg h0 i

/-- The truncation of a Schmidt decomposition to `T` singular values does not depend on the decomposition. -/
theorem schmidt_trunc_unique {S : List (List ℕ)} {k T : ℕ} {f g g' : List (List ℕ) → 𝕜} {s s' : List ℝ} (hk : k ≤ S.length)
    (h : SchmidtCut S k f g s (min T s.length)) (h' : SchmidtCut S k f g' s' (min T s'.length)) (hgap : Gap s T) :
    ∀ i, IdxOK i S → g i = g' i := by
  obtain ⟨W, Z, h1, -, h3⟩ := h
  obtain ⟨W', Z', h1', -, h3'⟩ := h'
  have hs := singVals_unique hk ⟨W, Z, h1⟩ ⟨W', Z', h1'⟩
  set L := max s.length s'.length
  set X : Finset 𝕜 := (range L).image fun c => ((s.getD c 0 ^ 2 : ℝ) : 𝕜)
  let χ : 𝕜 → 𝕜 := fun x => if s.getD T 0 ^ 2 < RCLike.re x then 1 else 0
  let p : Polynomial 𝕜 := Lagrange.interpolate X id χ
  have hp : ∀ c < L, p.eval (((s.getD c 0 ^ 2 : ℝ)) : 𝕜) * ((s.getD c 0 : ℝ) : 𝕜) = if c < T then ((s.getD c 0 : ℝ) : 𝕜) else 0 := by
    intro c hc
    have e : p.eval (((s.getD c 0 ^ 2 : ℝ)) : 𝕜) = χ (((s.getD c 0 ^ 2 : ℝ)) : 𝕜) :=
      Lagrange.eval_interpolate_at_node (s := X) (v := id) (r := χ) (fun _ _ _ _ h => h)
        (Finset.mem_image.2 ⟨c, by simpa using hc, rfl⟩)
    rw [e]
    simp only [χ, RCLike.ofReal_re]
    have n1 := sv_getD_nonneg h1.nonneg T
    have n2 := sv_getD_nonneg h1.nonneg c
    rcases lt_or_ge c T with hcT | hcT
    · rw [if_pos hcT]
      rcases hgap with rfl | h0 | hlt
      · omega
      · rw [h0]
        rcases eq_or_lt_of_le n2 with h | h
        · rw [← h]; simp
        · rw [if_pos (by simpa using (by positivity : 0 < s.getD c 0 ^ 2)), one_mul]
      · have : s.getD (T - 1) 0 ≤ s.getD c 0 := getD_anti h1.sorted h1.nonneg (Nat.le_sub_one_of_lt hcT)
        rw [if_pos (by nlinarith), one_mul]
    · have := getD_anti h1.sorted h1.nonneg hcT
      rw [if_neg (show ¬ c < T by omega), if_neg (show ¬ s.getD T 0 ^ 2 < s.getD c 0 ^ 2 by nlinarith), zero_mul]
  have key : ∀ {g : List (List ℕ) → 𝕜} {s₁ : List ℝ} {W Z}, IsSchmidt S k f W s₁ Z → (∀ c, s.getD c 0 = s₁.getD c 0) → s₁.length ≤ L →
      (∀ i j, IdxOK i (S.take k) → IdxOK j (S.drop k) →
        g (i ++ j) = ∑ b ∈ range (min T s₁.length), W i b * ((s₁.getD b 0 : ℝ) : 𝕜) * Z b j) →
      bip S k g = Polynomial.aeval (bip S k f * (bip S k f)ᴴ) p * bip S k f := by
    intro g s₁ W Z h1 hs hL hg
    rw [aeval_svd (matW_orth h1.orthW) (matZ_orth h1.orthZ) (s := fun c => s₁.getD c 0) h1.bip_eq]
    ext a b
    rw [Matrix.mul_apply]
    simp only [Matrix.mul_diagonal, matW, matZ, bip, Matrix.of_apply]
    rw [hg _ _ (idxAt_ok a) (idxAt_ok b)]
    have e : ∀ c : Fin s₁.length, W (idxAt _ a) c * (p.eval (((s₁.getD c 0 ^ 2 : ℝ)) : 𝕜) * ((s₁.getD c 0 : ℝ) : 𝕜)) * Z c (idxAt _ b)
        = if (c : ℕ) ∈ range T then W (idxAt _ a) c * ((s₁.getD c 0 : ℝ) : 𝕜) * Z c (idxAt _ b) else 0 := by
      intro c
      rw [← hs, hp c (lt_of_lt_of_le c.2 hL)]
      by_cases hc : (c : ℕ) < T <;> simp [hc]
    rw [Finset.sum_congr rfl fun c _ => e c,
      Fin.sum_univ_eq_sum_range (fun c => if c ∈ range T then W (idxAt _ a) c * ((s₁.getD c 0 : ℝ) : 𝕜) * Z c (idxAt _ b) else 0),
      Finset.sum_ite_mem]
    congr 1
    ext c
    simp only [Finset.mem_range, Finset.mem_inter, lt_min_iff]
    exact And.comm
  have hb : bip S k g = bip S k g' :=
    (key h1 (fun _ => rfl) (le_max_left _ _) h3).trans (key h1' hs (le_max_right _ _) h3').symm
  intro i hi
  rw [← List.take_append_drop k S] at hi
  obtain ⟨i1, i2, rfl, hi1, hi2⟩ : ∃ i1 i2, i = i1 ++ i2 ∧ IdxOK i1 (S.take k) ∧ IdxOK i2 (S.drop k) := by
    exact idxOK_append_split hi
  obtain ⟨a, rfl⟩ := idxAt_surj hi1
  obtain ⟨b, rfl⟩ := idxAt_surj hi2
  exact congrFun (congrFun hb a) b

end Mpnum
