import Mathlib.Analysis.SpecialFunctions.Trigonometric.Basic
import Mathlib.Analysis.SpecialFunctions.Pow.Real
import Mathlib.RingTheory.RootsOfUnity.Complex
import Mathlib.Algebra.Polynomial.Eval.Coeff
import Mathlib.Algebra.Field.GeomSum
import Mathlib.Analysis.SpecificLimits.Basic
import Mathlib.Tactic

/-!
# Comparison of the two sums of energies

Helpers for C63: if `N` is an odd multiple of two and `0 ≤ c ≤ 1`, the sum of `√(1 - c sin² k)` over the
momenta of a ring with antiperiodic boundary is at most the one over the momenta of a periodic ring.
-/

namespace Mpnum

open Finset Polynomial

/-- The alternating sum of a power of `sin²`. -/
theorem alt_sin_pow {N : ℕ} (hN : N % 4 = 2) (n : ℕ) :
    ∑ l ∈ range (2 * N), (-1 : ℝ) ^ l * (Real.sin (Real.pi * l / N) ^ 2) ^ n ≤ 0 ∧
      (2 * n = N → ∑ l ∈ range (2 * N), (-1 : ℝ) ^ l * (Real.sin (Real.pi * l / N) ^ 2) ^ n < 0) := by
  have hN0 : N ≠ 0 := by rintro rfl; simp at hN
  have hNc : (N : ℂ) ≠ 0 := by exact_mod_cast hN0
  obtain ⟨h, rfl⟩ : ∃ h, N = 2 * h := ⟨N / 2, by omega⟩
  have ho : h % 2 = 1 := by omega
  set z : ℂ := Complex.exp (2 * Real.pi * Complex.I / ((2 * h : ℕ) : ℂ)) with hz
  have prim : IsPrimitiveRoot z (2 * h) := Complex.isPrimitiveRoot_exp (2 * h) hN0
  have zn : z ^ (2 * h) = 1 := prim.pow_eq_one
  have z0 : z ≠ 0 := Complex.exp_ne_zero _
  have zh : z ^ h = -1 := by
    have : (z ^ h) ^ 2 = 1 := by rw [← pow_mul, mul_comm, zn]
    rcases mul_self_eq_one_iff.1 (show z ^ h * z ^ h = 1 by rw [← sq]; exact this) with h1 | h1
    · exfalso
      have := (prim.pow_eq_one_iff_dvd h).1 h1
      have := Nat.le_of_dvd (by omega) this
      omega
    · exact h1
  -- the sine in terms of the root of unity
  have hs : ∀ l : ℕ, (((Real.sin (Real.pi * l / ((2 * h : ℕ) : ℝ)) ^ 2 : ℝ)) : ℂ) = - (1 - z ^ l) ^ 2 / 4 * (z ^ l) ^ (2 * h - 1) := by
    intro l
    have e1 : z ^ l = Complex.exp (Real.pi * l / ((2 * h : ℕ) : ℂ) * Complex.I) ^ 2 := by
      rw [hz, ← Complex.exp_nat_mul, ← Complex.exp_nat_mul]
      congr 1
      push_cast
      ring
    have e2 : (z ^ l) ^ (2 * h - 1) = (z ^ l)⁻¹ := by
      refine eq_inv_of_mul_eq_one_left ?_
      rw [← pow_succ, show 2 * h - 1 + 1 = 2 * h by omega, ← pow_mul, mul_comm,
        pow_mul, zn, one_pow]
    rw [e2, e1]
    set y := Complex.exp (Real.pi * l / ((2 * h : ℕ) : ℂ) * Complex.I) with hy
    have y0 : y ≠ 0 := Complex.exp_ne_zero _
    have e3 : ((Real.sin (Real.pi * l / ((2 * h : ℕ) : ℝ)) : ℝ) : ℂ) = (y⁻¹ - y) * Complex.I / 2 := by
      rw [Complex.ofReal_sin, Complex.sin, hy, ← Complex.exp_neg]
      push_cast
      ring_nf
    rw [Complex.ofReal_pow, e3, div_pow, mul_pow, Complex.I_sq]
    field_simp
    ring
  -- expand the power
  have key : ((∑ l ∈ range (2 * (2 * h)), (-1 : ℝ) ^ l * (Real.sin (Real.pi * l / ((2 * h : ℕ) : ℝ)) ^ 2) ^ n : ℝ) : ℂ)
      = ((- ∑ k ∈ range (2 * n + 1), (if z ^ (h + k + (2 * h - 1) * n) = 1 then ((2 * n).choose k : ℝ) * (4⁻¹ ^ n * (2 * (2 * h : ℕ))) else 0) : ℝ) : ℂ) := by
    push_cast
    have e1 : ∀ l ∈ range (2 * (2 * h)), (-1 : ℂ) ^ l * (Complex.sin (Real.pi * l / (2 * h)) ^ 2) ^ n
        = ∑ k ∈ range (2 * n + 1), (-1) ^ (n + k) * ((2 * n).choose k) * 4⁻¹ ^ n * (z ^ (h + k + (2 * h - 1) * n)) ^ l := by
      intro l _
      have := hs l
      push_cast at this
      rw [this]
      have hh : (-1 : ℂ) ^ l = (z ^ l) ^ h := by rw [← zh, ← pow_mul, ← pow_mul, mul_comm]
      have hp : (1 - z ^ l) ^ (2 * n) = ∑ k ∈ range (2 * n + 1), (-1) ^ k * (z ^ l) ^ k * ((2 * n).choose k) := by
        rw [sub_eq_neg_add, add_pow]
        refine sum_congr rfl fun k _ => ?_
        rw [one_pow, mul_one, neg_pow]
      calc _ = (z ^ l) ^ h * ((-1) ^ n * (1 - z ^ l) ^ (2 * n) * 4⁻¹ ^ n * (z ^ l) ^ ((2 * h - 1) * n)) := by
            rw [hh, pow_mul _ 2 n, pow_mul _ (2 * h - 1) n, ← mul_pow, ← mul_pow, ← mul_pow]
            ring
        _ = _ := by
            rw [hp, mul_sum, sum_mul, sum_mul, mul_sum]
            refine sum_congr rfl fun k _ => ?_
            rw [← pow_mul z _ l, mul_comm _ l, pow_mul z l, pow_add, pow_add, pow_add (z ^ l) h k]
            ring
    rw [sum_congr rfl e1, sum_comm, ← sum_neg_distrib]
    refine sum_congr rfl fun k _ => ?_
    rw [← mul_sum]
    split_ifs with hk
    · rw [hk]
      have : (n + k) % 2 = 1 := by
        have := (prim.pow_eq_one_iff_dvd _).1 hk
        obtain ⟨t, ht⟩ := this
        have h2 : (2 * h - 1) * n = 2 * h * n - n := by rw [Nat.sub_mul, one_mul]
        have h3 : n ≤ 2 * h * n := Nat.le_mul_of_pos_left n (by omega)
        have h4 : h + k + (2 * h * n - n) = 2 * h * t := by rw [← h2, ht]
        have h5 : 2 * h * n = 2 * (h * n) := by ring
        have h6 : 2 * h * t = 2 * (h * t) := by ring
        omega
      rw [Odd.neg_one_pow (Nat.odd_iff.2 this)]
      simp
      ring
    · rw [geom_sum_eq hk, ← pow_mul, show (h + k + (2 * h - 1) * n) * (2 * (2 * h)) = 2 * h * (2 * (h + k + (2 * h - 1) * n)) by ring,
        pow_mul, zn]
      simp
  have := Complex.ofReal_injective key
  have hnn : ∀ k ∈ range (2 * n + 1), (0 : ℝ) ≤ if z ^ (h + k + (2 * h - 1) * n) = 1 then ((2 * n).choose k : ℝ) * (4⁻¹ ^ n * (2 * (2 * h : ℕ))) else 0 := by
    intro k _
    split_ifs
    · positivity
    · rfl
  rw [this, neg_nonpos, neg_lt_zero]
  refine ⟨sum_nonneg hnn, fun e => sum_pos' hnn ⟨0, by simp, ?_⟩⟩
  have e' : n = h := by omega
  subst e'
  have : n + 0 + (2 * n - 1) * n = 2 * n * n := by
    rw [Nat.sub_mul, one_mul, add_zero, Nat.add_sub_cancel' (Nat.le_mul_of_pos_left n (by omega))]
  rw [this, pow_mul, zn, one_pow, if_pos rfl]
  have : 0 < n := by omega
  simp
  positivity

/-- The iteration for `1 - √(1 - t)`. -/
noncomputable def sqIter (c : ℝ) : ℕ → ℝ[X]
  | 0 => 0
  | n + 1 => C (1 / 2) * (C c * X + sqIter c n * sqIter c n)

theorem sqIter_nonneg {c : ℝ} (hc : 0 ≤ c) : ∀ n i, 0 ≤ (sqIter c n).coeff i
  | 0, i => by simp [sqIter]
  | n + 1, i => by
    rw [sqIter, coeff_C_mul, coeff_add, coeff_C_mul, coeff_X, coeff_mul]
    refine mul_nonneg (by norm_num) (add_nonneg (mul_nonneg hc ?_) (sum_nonneg fun x _ => mul_nonneg (sqIter_nonneg hc n _) (sqIter_nonneg hc n _)))
    split_ifs <;> norm_num

theorem sqIter_dist {c w : ℝ} (h0 : 0 ≤ c * w) (h1 : c * w ≤ 1) : ∀ n,
    0 ≤ 1 - √(1 - c * w) - (sqIter c n).eval w ∧ 1 - √(1 - c * w) - (sqIter c n).eval w ≤ 2 / (n + 2) ∧ 0 ≤ (sqIter c n).eval w
  | 0 => by
    have := Real.sqrt_nonneg (1 - c * w)
    have h2 : √(1 - c * w) ≤ 1 := Real.sqrt_le_one.2 (by linarith)
    simp only [sqIter, eval_zero]
    refine ⟨by linarith, ?_, le_refl _⟩
    norm_num
  | n + 1 => by
    obtain ⟨i1, i2, i3⟩ := sqIter_dist h0 h1 n
    have s0 := Real.sqrt_nonneg (1 - c * w)
    have s1 : √(1 - c * w) ≤ 1 := Real.sqrt_le_one.2 (by linarith)
    have s2 : √(1 - c * w) ^ 2 = 1 - c * w := Real.sq_sqrt (by linarith)
    set s := √(1 - c * w)
    have e : (sqIter c (n + 1)).eval w = 1 / 2 * (c * w + (sqIter c n).eval w ^ 2) := by
      simp [sqIter, sq]
    rw [e]
    set p := (sqIter c n).eval w
    have cw : c * w = 1 - s ^ 2 := by rw [s2]; ring
    rw [cw]
    have hd : 1 - s - 1 / 2 * (1 - s ^ 2 + p ^ 2) = (1 - s - p) * ((1 - s) + p) / 2 := by ring
    rw [hd]
    set d := 1 - s - p
    have hp : p = 1 - s - d := by simp only [d]; ring
    have hn : (0 : ℝ) < n + 2 := by positivity
    refine ⟨by have : 0 ≤ 1 - s := by linarith
               positivity, ?_, by nlinarith [sq_nonneg p]⟩
    have b : d * ((1 - s) + p) / 2 ≤ d * (1 - d / 2) := by
      rw [hp]
      nlinarith
    refine b.trans ?_
    have dn : d ≤ 2 / (n + 2) := i2
    have x1 : (2 : ℝ) / (n + 2) ≤ 1 := by rw [div_le_one hn]; linarith [(Nat.cast_nonneg n : (0 : ℝ) ≤ n)]
    have b2 : d * (1 - d / 2) ≤ 2 / (n + 2) * (1 - 2 / (n + 2) / 2) := by nlinarith
    refine b2.trans ?_
    push_cast
    rw [show (2 : ℝ) / (n + 2) * (1 - 2 / (n + 2) / 2) = 2 * (n + 1) / ((n + 2) * (n + 2)) by field_simp; ring]
    rw [div_le_div_iff₀ (by positivity) (by positivity)]
    nlinarith [(Nat.cast_nonneg n : (0 : ℝ) ≤ n)]

theorem sqIter_mono {c : ℝ} (hc : 0 ≤ c) : ∀ n i, (sqIter c n).coeff i ≤ (sqIter c (n + 1)).coeff i
  | 0, i => by
    have := sqIter_nonneg hc 1 i
    simpa [sqIter] using this
  | n + 1, i => by
    rw [sqIter, sqIter, coeff_C_mul, coeff_add, coeff_C_mul, coeff_X, coeff_mul, coeff_C_mul, coeff_add, coeff_C_mul, coeff_X, coeff_mul]
    have : ∑ x ∈ antidiagonal i, (sqIter c n).coeff x.1 * (sqIter c n).coeff x.2
        ≤ ∑ x ∈ antidiagonal i, (sqIter c (n + 1)).coeff x.1 * (sqIter c (n + 1)).coeff x.2 :=
      sum_le_sum fun x _ => mul_le_mul (sqIter_mono hc n _) (sqIter_mono hc n _) (sqIter_nonneg hc n _) (sqIter_nonneg hc (n + 1) _)
    linarith

theorem sqIter_mono_le {c : ℝ} (hc : 0 ≤ c) {n m : ℕ} (h : n ≤ m) (i : ℕ) : (sqIter c n).coeff i ≤ (sqIter c m).coeff i :=
  monotone_nat_of_le_succ (f := fun n => (sqIter c n).coeff i) (fun n => sqIter_mono hc n i) h

theorem sqIter_pos {c : ℝ} (hc : 0 < c) : ∀ n j, 1 ≤ j → j ≤ n → 0 < (sqIter c n).coeff j
  | 0, j, h1, h2 => by omega
  | n + 1, j, h1, h2 => by
    rw [sqIter, coeff_C_mul, coeff_add, coeff_C_mul, coeff_X, coeff_mul]
    have hs : ∀ x ∈ antidiagonal j, 0 ≤ (sqIter c n).coeff x.1 * (sqIter c n).coeff x.2 :=
      fun x _ => mul_nonneg (sqIter_nonneg hc.le n _) (sqIter_nonneg hc.le n _)
    by_cases hj : j = 1
    · have := sum_nonneg hs
      rw [if_pos hj.symm, mul_one]
      linarith
    · have : 0 < ∑ x ∈ antidiagonal j, (sqIter c n).coeff x.1 * (sqIter c n).coeff x.2 :=
        sum_pos' hs ⟨(1, j - 1), by rw [mem_antidiagonal]; omega,
          mul_pos (sqIter_pos hc n 1 (le_refl _) (by omega)) (sqIter_pos hc n (j - 1) (by omega) (by omega))⟩
      rw [if_neg (Ne.symm hj), mul_zero, zero_add]
      linarith

/-- The alternating sum of the energies. -/
theorem alt_sqrt {N : ℕ} (hN : N % 4 = 2) {c : ℝ} (h0 : 0 ≤ c) (h1 : c ≤ 1) :
    0 ≤ ∑ l ∈ range (2 * N), (-1 : ℝ) ^ l * √(1 - c * Real.sin (Real.pi * l / N) ^ 2) ∧
      (0 < c → 0 < ∑ l ∈ range (2 * N), (-1 : ℝ) ^ l * √(1 - c * Real.sin (Real.pi * l / N) ^ 2)) := by
  set S : ℕ → ℝ := fun i => ∑ l ∈ range (2 * N), (-1 : ℝ) ^ l * (Real.sin (Real.pi * l / N) ^ 2) ^ i with hS
  have e : ∀ n, ∑ l ∈ range (2 * N), (-1 : ℝ) ^ l * (sqIter c n).eval (Real.sin (Real.pi * l / N) ^ 2)
      = ∑ i ∈ range ((sqIter c n).natDegree + 1), (sqIter c n).coeff i * S i := by
    intro n
    simp only [hS, mul_sum]
    rw [sum_comm]
    refine sum_congr rfl fun l _ => ?_
    rw [eval_eq_sum_range, mul_sum]
    exact sum_congr rfl fun i _ => by ring
  have hneg : ∀ n i, (sqIter c n).coeff i * S i ≤ 0 := fun n i =>
    mul_nonpos_of_nonneg_of_nonpos (sqIter_nonneg h0 n i) (alt_sin_pow hN i).1
  have hlim : ∀ w : ℝ, 0 ≤ w → w ≤ 1 → Filter.Tendsto (fun n => (sqIter c n).eval w) Filter.atTop (nhds (1 - √(1 - c * w))) := by
    intro w w0 w1
    have c0 : 0 ≤ c * w := mul_nonneg h0 w0
    have c1 : c * w ≤ 1 := mul_le_one₀ h1 w0 w1
    have t : Filter.Tendsto (fun n : ℕ => 1 - √(1 - c * w) - (sqIter c n).eval w) Filter.atTop (nhds 0) := by
      refine squeeze_zero (fun n => (sqIter_dist c0 c1 n).1) (fun n => (sqIter_dist c0 c1 n).2.1) ?_
      have := (tendsto_const_div_atTop_nhds_zero_nat (2 : ℝ)).comp (Filter.tendsto_add_atTop_nat 2)
      refine this.congr fun n => ?_
      simp
    have := (tendsto_const_nhds (x := 1 - √(1 - c * w))).sub t
    simpa using this
  have lim := tendsto_finset_sum (range (2 * N)) fun l _ => (hlim (Real.sin (Real.pi * l / N) ^ 2) (sq_nonneg _) (Real.sin_sq_le_one _)).const_mul ((-1 : ℝ) ^ l)
  have alt : ∀ M : ℕ, ∑ l ∈ range (2 * M), (-1 : ℝ) ^ l = 0 := by
    intro M
    induction M with
    | zero => simp
    | succ M ih => rw [show 2 * (M + 1) = 2 * M + 1 + 1 by ring, sum_range_succ, sum_range_succ, ih, pow_succ]; ring
  constructor
  · have := le_of_tendsto' lim fun n => by rw [e n]; exact sum_nonpos fun i _ => hneg n i
    simp only [mul_sub, mul_one, sum_sub_distrib, alt] at this
    linarith
  · intro hc
    have hh : 2 * (N / 2) = N := by omega
    have hS0 := (alt_sin_pow hN (N / 2)).2 hh
    have hpos := sqIter_pos hc (N / 2) (N / 2) (by omega) (le_refl _)
    have := le_of_tendsto (b := (sqIter c (N / 2)).coeff (N / 2) * S (N / 2)) lim (Filter.eventually_atTop.2 ⟨N / 2, fun n hn => by
      rw [e n]
      have hc' := sqIter_mono_le h0 hn (N / 2)
      have hmem : N / 2 ∈ range ((sqIter c n).natDegree + 1) := by
        rw [mem_range, Nat.lt_succ_iff]
        exact le_natDegree_of_ne_zero (by linarith)
      rw [← add_sum_erase _ _ hmem]
      have := sum_nonpos (s := (range ((sqIter c n).natDegree + 1)).erase (N / 2)) fun i _ => hneg n i
      have := mul_le_mul_of_nonpos_right hc' hS0.le
      linarith⟩)
    simp only [mul_sub, mul_one, sum_sub_distrib, alt] at this
    have := mul_neg_of_pos_of_neg hpos hS0
    linarith

theorem sum_range_two_mul {X : Type} [AddCommMonoid X] (f : ℕ → X) : ∀ M, ∑ l ∈ range (2 * M), f l = ∑ j ∈ range M, (f (2 * j) + f (2 * j + 1))
  | 0 => by simp
  | M + 1 => by
    rw [show 2 * (M + 1) = 2 * M + 1 + 1 by ring, sum_range_succ, sum_range_succ, sum_range_succ _ M, sum_range_two_mul f M, add_assoc]

/-- The sum of the energies of the antiperiodic ring is at most the one of the periodic ring. -/
theorem sum_energy_le {N : ℕ} (hN : N % 4 = 2) {c : ℝ} (h0 : 0 ≤ c) (h1 : c ≤ 1) :
    ∑ l ∈ range N, √(1 - c * Real.sin (Real.pi * (2 * l + 1) / N) ^ 2)
      ≤ ∑ l ∈ range N, √(1 - c * Real.sin (2 * Real.pi * l / N) ^ 2) ∧
    (0 < c → ∑ l ∈ range N, √(1 - c * Real.sin (Real.pi * (2 * l + 1) / N) ^ 2)
      < ∑ l ∈ range N, √(1 - c * Real.sin (2 * Real.pi * l / N) ^ 2)) := by
  have := alt_sqrt hN h0 h1
  rw [sum_range_two_mul] at this
  have p1 : ∀ j : ℕ, (-1 : ℝ) ^ (2 * j) = 1 := fun j => by rw [pow_mul]; norm_num
  have p2 : ∀ j : ℕ, (-1 : ℝ) ^ (2 * j + 1) = -1 := fun j => by rw [pow_succ, p1]; norm_num
  simp only [p1, p2, neg_mul, one_mul, Nat.cast_mul, Nat.cast_ofNat, Nat.cast_add, Nat.cast_one,
    sum_add_distrib, sum_neg_distrib] at this
  have e : ∀ l : ℕ, Real.pi * (2 * (l : ℝ)) / N = 2 * Real.pi * l / N := fun l => by ring
  simp only [e] at this
  exact ⟨by linarith [this.1], fun hc => by linarith [this.2 hc]⟩

end Mpnum
