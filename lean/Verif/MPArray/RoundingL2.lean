import Verif.Props.C75
import Verif.Oracle.EckartYoung

/-! Euclidean norms of families of numbers with two indices: isometries, projections, best approximations. -/

open Finset

namespace Mpnum

variable {𝕜 : Type} [RCLike 𝕜] {ι κ : Type}

/-- Frobenius norm of `f` on `I × J`. -/
noncomputable def l2 (I : Finset ι) (J : Finset κ) (f : ι → κ → 𝕜) : ℝ := Real.sqrt (∑ i ∈ I, ∑ j ∈ J, ‖f i j‖ ^ 2)

theorem l2_nonneg (I : Finset ι) (J : Finset κ) (f : ι → κ → 𝕜) : 0 ≤ l2 I J f := Real.sqrt_nonneg _

theorem l2_sq (I : Finset ι) (J : Finset κ) (f : ι → κ → 𝕜) : l2 I J f ^ 2 = ∑ i ∈ I, ∑ j ∈ J, ‖f i j‖ ^ 2 :=
  Real.sq_sqrt (Finset.sum_nonneg fun _ _ => Finset.sum_nonneg fun _ _ => sq_nonneg _)

theorem l2_le {I : Finset ι} {J : Finset κ} {f : ι → κ → 𝕜} {x : ℝ} (hx : 0 ≤ x) (h : ∑ i ∈ I, ∑ j ∈ J, ‖f i j‖ ^ 2 ≤ x ^ 2) :
    l2 I J f ≤ x := (Real.sqrt_le_sqrt h).trans (le_of_eq (Real.sqrt_sq hx))

theorem l2_congr {I : Finset ι} {J : Finset κ} {f g : ι → κ → 𝕜} (h : ∀ i ∈ I, ∀ j ∈ J, f i j = g i j) : l2 I J f = l2 I J g := by
  unfold l2
  congr 1
  exact Finset.sum_congr rfl fun i hi => Finset.sum_congr rfl fun j hj => by rw [h i hi j hj]

theorem l2_swap (I : Finset ι) (J : Finset κ) (f : ι → κ → 𝕜) : l2 I J f = l2 J I fun j i => f i j := by
  unfold l2; rw [Finset.sum_comm]

theorem l2_add (I : Finset ι) (J : Finset κ) (f g : ι → κ → 𝕜) : l2 I J (fun i j => f i j + g i j) ≤ l2 I J f + l2 I J g :=
  l2_le (add_nonneg (l2_nonneg _ _ _) (l2_nonneg _ _ _))
    (mink2 I J f g (l2_nonneg _ _ _) (l2_nonneg _ _ _) (le_of_eq (l2_sq I J f).symm) (le_of_eq (l2_sq I J g).symm))

theorem l2_tri (I : Finset ι) (J : Finset κ) (f g h : ι → κ → 𝕜) :
    l2 I J (fun i j => f i j - h i j) ≤ l2 I J (fun i j => f i j - g i j) + l2 I J (fun i j => g i j - h i j) := by
  refine le_trans (le_of_eq (l2_congr fun i _ j _ => ?_)) (l2_add I J _ _)
  ring

theorem l2_rev (I : Finset ι) (J : Finset κ) (f g : ι → κ → 𝕜) :
    l2 I J (fun i j => f i j - g i j) = l2 I J (fun i j => g i j - f i j) := by
  unfold l2; simp only [norm_sub_rev]

theorem l2_le_add (I : Finset ι) (J : Finset κ) (f g : ι → κ → 𝕜) : l2 I J f ≤ l2 I J (fun i j => f i j - g i j) + l2 I J g := by
  refine le_trans (le_of_eq (l2_congr fun i _ j _ => ?_)) (l2_add I J _ _)
  ring

theorem l2_scale {I : Finset ι} {J : Finset κ} {κ' : Type} {J' : Finset κ'} {f : ι → κ → 𝕜} {g : ι → κ' → 𝕜} {c : ℝ} (hc : 0 ≤ c)
    (h : ∀ i ∈ I, ∑ j ∈ J, ‖f i j‖ ^ 2 ≤ c ^ 2 * ∑ j ∈ J', ‖g i j‖ ^ 2) : l2 I J f ≤ c * l2 I J' g := by
  refine l2_le (mul_nonneg hc (l2_nonneg _ _ _)) ?_
  rw [mul_pow, l2_sq, Finset.mul_sum]
  exact Finset.sum_le_sum h

/-- The columns `0 … K - 1` of `T` are orthonormal. -/
def OrthC (I : Finset ι) (K : ℕ) (T : ι → ℕ → 𝕜) : Prop :=
  ∀ k < K, ∀ k' < K, ∑ i ∈ I, star (T i k) * T i k' = if k = k' then 1 else 0

/-- The product of two matrices. -/
def mprod (K : ℕ) (T : ι → ℕ → 𝕜) (f : ℕ → κ → 𝕜) (i : ι) (j : κ) : 𝕜 := ∑ k ∈ range K, T i k * f k j

/-- The product of the adjoint of `T` and `g`. -/
def madj (I : Finset ι) (T : ι → ℕ → 𝕜) (g : ι → κ → 𝕜) (k : ℕ) (j : κ) : 𝕜 := ∑ i ∈ I, star (T i k) * g i j

theorem madj_mprod {I : Finset ι} {K : ℕ} {T : ι → ℕ → 𝕜} (h : OrthC I K T) (f : ℕ → κ → 𝕜) {k : ℕ} (hk : k < K) (j : κ) :
    madj I T (mprod K T f) k j = f k j := by
  unfold madj mprod
  simp only [Finset.mul_sum]
  rw [Finset.sum_comm]
  have : ∀ k' ∈ range K, ∑ i ∈ I, star (T i k) * (T i k' * f k' j) = if k = k' then f k' j else 0 := by
    intro k' hk'
    simp only [← mul_assoc]
    rw [← Finset.sum_mul, h k hk k' (by simpa using hk')]
    split <;> simp
  rw [Finset.sum_congr rfl this, Finset.sum_ite_eq, if_pos (by simpa using hk)]

theorem l2_mprod {I : Finset ι} {K : ℕ} {T : ι → ℕ → 𝕜} (h : OrthC I K T) (J : Finset κ) (f : ℕ → κ → 𝕜) :
    l2 I J (mprod K T f) = l2 (range K) J f := by
  rw [l2_swap, l2_swap (range K)]
  unfold l2
  congr 1
  exact Finset.sum_congr rfl fun j _ => isometry_cols h fun k => f k j

theorem orth_sum {I : Finset ι} (a b : ι → 𝕜) (h : ∑ i ∈ I, star (b i) * a i = 0) :
    ∑ i ∈ I, ‖a i + b i‖ ^ 2 = ∑ i ∈ I, ‖a i‖ ^ 2 + ∑ i ∈ I, ‖b i‖ ^ 2 := by
  have e : (((∑ i ∈ I, ‖a i + b i‖ ^ 2 : ℝ)) : 𝕜) = ((∑ i ∈ I, ‖a i‖ ^ 2 + ∑ i ∈ I, ‖b i‖ ^ 2 : ℝ) : 𝕜) := by
    push_cast
    have h' : ∑ i ∈ I, star (a i) * b i = 0 := by
      have := congrArg star h
      simpa [star_sum, mul_comm] using this
    have e1 : ∀ z : 𝕜, (((‖z‖ : ℝ) : 𝕜)) ^ 2 = star z * z := by
      intro z
      have := star_mul_self_eq z
      push_cast at this
      exact this.symm
    simp only [e1]
    rw [← add_zero (∑ i ∈ I, star (a i) * a i), ← h', ← Finset.sum_add_distrib]
    rw [← zero_add (∑ i ∈ I, star (b i) * b i), ← h, ← Finset.sum_add_distrib, ← Finset.sum_add_distrib]
    refine Finset.sum_congr rfl fun i _ => ?_
    rw [star_add]
    ring
  exact_mod_cast e

/-- Pythagoras: `T` has orthonormal columns. -/
theorem l2_pyth {I : Finset ι} {K : ℕ} {T : ι → ℕ → 𝕜} (h : OrthC I K T) (J : Finset κ) (g : ι → κ → 𝕜) (f : ℕ → κ → 𝕜) :
    l2 I J (fun i j => g i j - mprod K T f i j) ^ 2
      = l2 I J (fun i j => g i j - mprod K T (madj I T g) i j) ^ 2 + l2 (range K) J (fun k j => madj I T g k j - f k j) ^ 2 := by
  rw [← l2_mprod h, l2_sq, l2_sq, l2_sq, Finset.sum_comm, Finset.sum_comm (s := I), Finset.sum_comm (s := I), ← Finset.sum_add_distrib]
  refine Finset.sum_congr rfl fun j _ => ?_
  rw [← orth_sum (fun i => g i j - mprod K T (madj I T g) i j)]
  · refine Finset.sum_congr rfl fun i _ => ?_
    congr 2
    unfold mprod
    simp only [mul_sub, Finset.sum_sub_distrib]
    ring
  · have e : ∀ i ∈ I, star (mprod K T (fun k j => madj I T g k j - f k j) i j) * (g i j - mprod K T (madj I T g) i j)
        = ∑ k ∈ range K, star (madj I T g k j - f k j) * (star (T i k) * (g i j - mprod K T (madj I T g) i j)) := by
      intro i _
      unfold mprod
      rw [star_sum, Finset.sum_mul]
      refine Finset.sum_congr rfl fun k _ => ?_
      rw [star_mul]; ring
    rw [Finset.sum_congr rfl e, Finset.sum_comm]
    refine Finset.sum_eq_zero fun k hk => ?_
    rw [← Finset.mul_sum]
    have : ∑ i ∈ I, star (T i k) * (g i j - mprod K T (madj I T g) i j) = 0 := by
      simp only [mul_sub, Finset.sum_sub_distrib]
      have := madj_mprod h (madj I T g) (by simpa using hk : k < K) j
      unfold madj at this ⊢
      rw [this, sub_self]
    rw [this, mul_zero]

theorem l2_madj_le {I : Finset ι} {K : ℕ} {T : ι → ℕ → 𝕜} (h : OrthC I K T) (J : Finset κ) (g : ι → κ → 𝕜) :
    l2 (range K) J (madj I T g) ≤ l2 I J g := by
  have := l2_pyth h J g fun _ _ => 0
  simp only [mprod, mul_zero, Finset.sum_const_zero, sub_zero] at this
  refine (abs_le_of_sq_le_sq' ?_ (l2_nonneg _ _ _)).2
  rw [this]
  have := sq_nonneg (l2 I J fun i j => g i j - ∑ k ∈ range K, T i k * madj I T g k j)
  linarith

theorem l2_compl_le {I : Finset ι} {K : ℕ} {T : ι → ℕ → 𝕜} (h : OrthC I K T) (J : Finset κ) (g : ι → κ → 𝕜) :
    l2 I J (fun i j => g i j - mprod K T (madj I T g) i j) ≤ l2 I J g := by
  have := l2_pyth h J g fun _ _ => 0
  simp only [mprod, mul_zero, Finset.sum_const_zero, sub_zero] at this
  refine (abs_le_of_sq_le_sq' ?_ (l2_nonneg _ _ _)).2
  rw [this]
  have := sq_nonneg (l2 (range K) J (madj I T g))
  unfold mprod
  linarith

theorem madj_sub (I : Finset ι) (T : ι → ℕ → 𝕜) (g g' : ι → κ → 𝕜) (k : ℕ) (j : κ) :
    madj I T (fun i j => g i j - g' i j) k j = madj I T g k j - madj I T g' k j := by
  unfold madj
  simp only [mul_sub, Finset.sum_sub_distrib]

theorem mprod_sub (K : ℕ) (T : ι → ℕ → 𝕜) (f f' : ℕ → κ → 𝕜) (i : ι) (j : κ) :
    mprod K T (fun k j => f k j - f' k j) i j = mprod K T f i j - mprod K T f' i j := by
  unfold mprod
  simp only [mul_sub, Finset.sum_sub_distrib]

theorem mprod_sub_left (K : ℕ) (T T' : ι → ℕ → 𝕜) (f : ℕ → κ → 𝕜) (i : ι) (j : κ) :
    mprod K (fun i k => T i k - T' i k) f i j = mprod K T f i j - mprod K T' f i j := by
  unfold mprod
  simp only [sub_mul, Finset.sum_sub_distrib]

/-- The complement of the projection of two families. -/
theorem l2_compl_tri {I : Finset ι} {K : ℕ} {T : ι → ℕ → 𝕜} (h : OrthC I K T) (J : Finset κ) (g g' : ι → κ → 𝕜) :
    l2 I J (fun i j => g i j - mprod K T (madj I T g) i j)
      ≤ l2 I J (fun i j => g i j - g' i j) + l2 I J (fun i j => g' i j - mprod K T (madj I T g') i j) := by
  have h1 := l2_compl_le h J fun i j => g i j - g' i j
  refine le_trans ?_ (add_le_add_left h1 _)
  refine le_trans (le_of_eq (l2_congr fun i _ j _ => ?_)) (l2_add I J _ _)
  have : (madj I T fun i j => g i j - g' i j) = fun k j => madj I T g k j - madj I T g' k j := by
    funext k j; exact madj_sub I T g g' k j
  rw [this, mprod_sub]
  ring

/-! ### orthonormal rows -/

/-- The rows `0 … K - 1` of `S` are orthonormal. -/
def OrthR (J : Finset κ) (K : ℕ) (S : ℕ → κ → 𝕜) : Prop :=
  ∀ k < K, ∀ k' < K, ∑ j ∈ J, S k j * star (S k' j) = if k = k' then 1 else 0

theorem OrthR.cols {J : Finset κ} {K : ℕ} {S : ℕ → κ → 𝕜} (h : OrthR J K S) : OrthC J K fun j k => S k j := by
  intro k hk k' hk'
  have := h k' hk' k hk
  rw [Finset.sum_congr rfl fun j _ => mul_comm (star (S k j)) (S k' j), this]
  simp only [eq_comm]

theorem OrthC.rows {I : Finset ι} {K : ℕ} {T : ι → ℕ → 𝕜} (h : OrthC I K T) : OrthR I K fun k i => T i k := by
  intro k hk k' hk'
  have := h k' hk' k hk
  rw [Finset.sum_congr rfl fun j _ => mul_comm (T j k) (star (T j k')), this]
  simp only [eq_comm]

theorem l2_mprod_right {J : Finset κ} {K : ℕ} {S : ℕ → κ → 𝕜} (h : OrthR J K S) (I : Finset ι) (A : ι → ℕ → 𝕜) :
    l2 I J (mprod K A S) = l2 I (range K) A := by
  rw [l2_swap, l2_swap I (range K), ← l2_mprod h.cols]
  exact l2_congr fun j _ i _ => Finset.sum_congr rfl fun k _ => mul_comm _ _

/-- The product of `g` and the adjoint of `S`. -/
def madjR (J : Finset κ) (S : ℕ → κ → 𝕜) (g : ι → κ → 𝕜) (i : ι) (k : ℕ) : 𝕜 := ∑ j ∈ J, g i j * star (S k j)

theorem l2_madjR_le {J : Finset κ} {K : ℕ} {S : ℕ → κ → 𝕜} (h : OrthR J K S) (I : Finset ι) (g : ι → κ → 𝕜) :
    l2 I (range K) (madjR J S g) ≤ l2 I J g := by
  rw [l2_swap, l2_swap I J]
  refine le_trans (le_of_eq (l2_congr fun k _ i _ => ?_)) (l2_madj_le h.cols I fun j i => g i j)
  exact Finset.sum_congr rfl fun j _ => mul_comm _ _

theorem madjR_mprod {J : Finset κ} {K : ℕ} {S : ℕ → κ → 𝕜} (h : OrthR J K S) (A : ι → ℕ → 𝕜) (i : ι) {k : ℕ} (hk : k < K) :
    madjR J S (mprod K A S) i k = A i k := by
  have := madj_mprod h.cols (fun k i => A i k) hk i
  rw [← this]
  unfold madjR madj mprod
  refine Finset.sum_congr rfl fun j _ => ?_
  rw [mul_comm]
  congr 1
  exact Finset.sum_congr rfl fun k _ => mul_comm _ _

theorem madjR_sub (J : Finset κ) (S : ℕ → κ → 𝕜) (g g' : ι → κ → 𝕜) (i : ι) (k : ℕ) :
    madjR J S (fun i j => g i j - g' i j) i k = madjR J S g i k - madjR J S g' i k := by
  unfold madjR
  simp only [sub_mul, Finset.sum_sub_distrib]

/-! ### best approximation -/

/-- Eckart and Young on finite sets of indices. -/
theorem eckart_young_l2 {I : Finset ι} {n K k r : ℕ} {B : ι → ℕ → 𝕜} {U : ι → ℕ → 𝕜} {V : ℕ → ℕ → 𝕜} {s : ℕ → ℝ}
    (hU : OrthC I K U) (hV : OrthR (range n) K V) (hs : ∀ i j, i ≤ j → j < K → s j ≤ s i) (hs0 : ∀ i < K, 0 ≤ s i)
    (hB : ∀ i ∈ I, ∀ j < n, B i j = ∑ c ∈ range K, U i c * ((s c : ℝ) : 𝕜) * V c j) (hk : k ≤ K) (hr : r ≤ k ∨ k = K)
    (X : ι → ℕ → 𝕜) (Y : ℕ → ℕ → 𝕜) :
    l2 I (range n) (fun i j => B i j - mprod k U (madj I U B) i j) ≤ l2 I (range n) fun i j => B i j - mprod r X Y i j := by
  classical
  refine (abs_le_of_sq_le_sq' ?_ (l2_nonneg _ _ _)).2
  have hUk : OrthC I k U := fun a ha b hb => hU a (by omega) b (by omega)
  have hadj : ∀ c < K, ∀ j < n, madj I U B c j = ((s c : ℝ) : 𝕜) * V c j := by
    intro c hc j hj
    rw [← madj_mprod hU (fun c j => ((s c : ℝ) : 𝕜) * V c j) hc j]
    unfold madj mprod
    refine Finset.sum_congr rfl fun i hi => ?_
    rw [hB i hi j hj]
    congr 1
    exact Finset.sum_congr rfl fun c _ => by ring
  -- the error is the sum of the other squares
  have hnorm : ∀ c < K, ∑ j ∈ range n, ‖((s c : ℝ) : 𝕜) * V c j‖ ^ 2 = s c ^ 2 := by
    intro c hc
    have h1 := hV c hc c hc
    rw [if_pos rfl] at h1
    have h2 : (∑ j ∈ range n, ‖V c j‖ ^ 2 : ℝ) = 1 := by
      have : (((∑ j ∈ range n, ‖V c j‖ ^ 2 : ℝ)) : 𝕜) = 1 := by
        rw [← h1]
        push_cast
        refine Finset.sum_congr rfl fun j _ => ?_
        have := star_mul_self_eq (V c j)
        push_cast at this
        rw [← this, mul_comm]
      exact_mod_cast this
    simp only [norm_mul, mul_pow]
    rw [← Finset.mul_sum, h2, mul_one, RCLike.norm_ofReal, sq_abs]
  have hsq : ∀ q ≤ K, l2 (range q) (range n) (madj I U B) ^ 2 = ∑ c ∈ range q, s c ^ 2 := by
    intro q hq
    rw [l2_sq]
    refine Finset.sum_congr rfl fun c hc => ?_
    have hc : c < K := by have : c < q := by simpa using hc
                          omega
    rw [← hnorm c hc]
    exact Finset.sum_congr rfl fun j hj => by rw [hadj c hc j (by simpa using hj)]
  have hBn : l2 I (range n) B ^ 2 = ∑ c ∈ range K, s c ^ 2 := by
    rw [← hsq K le_rfl, ← l2_mprod hU]
    congr 1
    refine l2_congr fun i hi j hj => ?_
    rw [hB i hi j (by simpa using hj)]
    unfold mprod
    refine Finset.sum_congr rfl fun c hc => ?_
    rw [hadj c (by simpa using hc) j (by simpa using hj)]; ring
  have hleft : l2 I (range n) (fun i j => B i j - mprod k U (madj I U B) i j) ^ 2 = ∑ c ∈ Ico k K, s c ^ 2 := by
    have := l2_pyth hUk (range n) B fun _ _ => 0
    simp only [mprod, mul_zero, Finset.sum_const_zero, sub_zero] at this
    have e := Finset.sum_range_add_sum_Ico (fun c => s c ^ 2) hk
    rw [hBn, hsq k hk] at this
    unfold mprod
    linarith
  rw [hleft]
  have hmono : ∑ c ∈ Ico k K, s c ^ 2 ≤ ∑ c ∈ Ico r K, s c ^ 2 := by
    rcases hr with hr | rfl
    · exact Finset.sum_le_sum_of_subset_of_nonneg (Finset.Ico_subset_Ico_left hr) fun _ _ _ => sq_nonneg _
    · simp only [Finset.Ico_self, Finset.sum_empty]
      exact Finset.sum_nonneg fun _ _ => sq_nonneg _
  refine hmono.trans ?_
  -- transport to matrices
  let e := I.equivFin.symm
  have hsum : ∀ {M : Type} [AddCommMonoid M] (g : ι → M), ∑ i ∈ I, g i = ∑ x : Fin I.card, g (e x) := by
    intro M _ g
    rw [← Finset.sum_coe_sort I g]
    exact (Equiv.sum_comp e fun i : I => g i).symm
  have hmem : ∀ x : Fin I.card, ((e x : I) : ι) ∈ I := fun x => (e x).2
  have key := eckart_young (A := Matrix.of fun (x : Fin I.card) (j : Fin n) => B (e x) j)
    (U := Matrix.of fun (x : Fin I.card) (c : Fin K) => U (e x) c) (V := Matrix.of fun (c : Fin K) (j : Fin n) => V c j) (s := s) (k := r)
    (by
      ext c c'
      simp only [Matrix.mul_apply, Matrix.conjTranspose_apply, Matrix.of_apply, Matrix.one_apply]
      rw [← hsum fun i => star (U i c) * U i c', hU c c.2 c' c'.2]
      simp [Fin.ext_iff])
    (by
      ext c c'
      simp only [Matrix.mul_apply, Matrix.conjTranspose_apply, Matrix.of_apply, Matrix.one_apply]
      rw [Fin.sum_univ_eq_sum_range (fun j => V c j * star (V c' j)), hV c c.2 c' c'.2]
      simp [Fin.ext_iff])
    hs hs0
    (by
      ext x j
      rw [Matrix.mul_apply]
      simp only [Matrix.mul_diagonal, Matrix.of_apply]
      rw [hB _ (hmem x) j j.2, Fin.sum_univ_eq_sum_range (fun c => U (e x) c * ((s c : ℝ) : 𝕜) * V c j)])
    (Matrix.of fun (x : Fin I.card) (c : Fin r) => X (e x) c) (Matrix.of fun (c : Fin r) (j : Fin n) => Y c j)
  refine key.trans (le_of_eq ?_)
  rw [l2_sq, hsum]
  unfold frobSq
  refine Finset.sum_congr rfl fun x _ => ?_
  rw [← Fin.sum_univ_eq_sum_range (fun j => ‖B (e x) j - mprod r X Y (e x) j‖ ^ 2)]
  refine Finset.sum_congr rfl fun j _ => ?_
  simp only [Matrix.sub_apply, Matrix.mul_apply, Matrix.of_apply, mprod]
  rw [Fin.sum_univ_eq_sum_range (fun c => X (e x) c * Y c j)]

end Mpnum
