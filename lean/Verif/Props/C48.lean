import Verif.Utils.Pmf
import Verif.Np.Lemmas
import Mathlib.Algebra.Order.BigOperators.Group.Finset
import Mathlib.Tactic.FieldSimp
import Mathlib.Tactic.NormNum

/-! # C48: project_pmf returns a probability vector or raises -/

open Finset Classical

namespace Mpnum

/-- Specification: entries not above `t` are replaced by zero. -/
noncomputable def clip (t x : ℝ) : ℝ := if x ≤ t then 0 else x

/-- Specification: the vector is accepted. -/
structure PmfAccepted (v : PmfArg) (imagEps realEps realTrunc : ℝ) : Prop where
  /-- imaginary parts are small -/
  imag : ∀ idx, InB idx v.shape → (∃ a, v = .real a) ∨ |(v.get idx).im| ≤ imagEps
  /-- real parts are not too negative -/
  real : ∀ idx, InB idx v.shape → -realEps ≤ (v.get idx).re
  /-- the clipped sum is close to one -/
  sum : |sumIdx v.shape (fun idx => clip realTrunc (v.get idx).re) - 1| ≤ realEps
  /-- a zero-dimensional argument is not clipped to zero -/
  scalar : v.shape = [] → realTrunc < (v.get []).re

theorem sumIdx_nonneg_real {s : List ℕ} {f : List ℕ → ℝ} (h : ∀ i, InB i s → 0 ≤ f i) :
    0 ≤ sumIdx s f := by
  induction s generalizing f with
  | nil => exact h [] .nil
  | cons d ds ih =>
    exact sum_nonneg fun i hi => ih fun is his => h _ (.cons (mem_range.1 hi) his)

theorem le_sumIdx {s : List ℕ} {f : List ℕ → ℝ} (h : ∀ i, InB i s → 0 ≤ f i) {i : List ℕ}
    (hi : InB i s) : f i ≤ sumIdx s f := by
  induction s generalizing f i with
  | nil => cases hi; exact le_refl _
  | cons d ds ih =>
    cases hi with
    | cons h1 h2 =>
      rename_i j js
      refine (ih (f := fun is => f (j :: is)) (fun is his => h _ (.cons h1 his)) h2).trans ?_
      exact single_le_sum (f := fun j => sumIdx ds fun is => f (j :: is))
        (fun k hk => sumIdx_nonneg_real fun is his => h _ (.cons (mem_range.1 hk) his))
        (mem_range.2 h1)

theorem sumIdx_div {s : List ℕ} {f : List ℕ → ℝ} (c : ℝ) :
    sumIdx s (fun i => f i / c) = sumIdx s f / c := by
  simp only [div_eq_mul_inv]
  induction s generalizing f with
  | nil => rfl
  | cons d ds ih =>
    simp only [sumIdx, ih, sum_mul]

theorem clip_nonneg {t x : ℝ} (ht : 0 ≤ t) : 0 ≤ clip t x := by
  unfold clip; split
  · exact le_refl _
  · linarith

/-- C48: `project_pmf` accepts exactly the vectors whose imaginary parts are at most `imag_eps`, whose
real parts are at least `-real_eps` and whose clipped sum differs from one by at most `real_eps`; it
returns the clipped values divided by their sum.  Otherwise it raises. -/
theorem C48_result (v : PmfArg) (imagEps realEps realTrunc : ℝ) :
    (PmfAccepted v imagEps realEps realTrunc → ∃ p, (projectPmf v imagEps realEps realTrunc).1 = .ok p ∧
      p.shape = v.shape ∧ ∀ idx, InB idx v.shape → p.get idx = clip realTrunc (v.get idx).re /
        sumIdx v.shape (fun j => clip realTrunc (v.get j).re)) ∧
    (¬ PmfAccepted v imagEps realEps realTrunc →
      ∃ e, (projectPmf v imagEps realEps realTrunc).1 = .error e) := by
  cases v with
  | real a =>
    by_cases hr : ∀ idx, InB idx a.shape → -realEps ≤ a.get idx
    · by_cases h0 : a.shape = [] ∧ a.get [] ≤ realTrunc
      · refine ⟨fun h => ?_, fun _ => ?_⟩
        · have := h.scalar h0.1
          simp only [PmfArg.get, Complex.ofReal_re] at this
          exact absurd h0.2 (not_le.2 this)
        · refine ⟨.type, ?_⟩
          simp only [projectPmf, projectNonneg, realPart]
          rw [if_pos hr]
          simp [NDArray.ndim, h0.1, h0.2]
      · have hs : ¬ (a.shape.length = 0 ∧ ∀ b, (.ok a : Py (NDArray ℝ)) = .ok b → b.get [] ≤ realTrunc) := by
          rintro ⟨h1, h2⟩
          exact h0 ⟨List.length_eq_zero_iff.1 h1, h2 a rfl⟩
        by_cases hsum : |sumIdx a.shape (fun idx => clip realTrunc (a.get idx)) - 1| ≤ realEps
        · refine ⟨fun _ => ?_, fun h => absurd ⟨fun _ _ => .inl ⟨a, rfl⟩, ?_, ?_, ?_⟩ h⟩
          · refine ⟨⟨a.shape, fun idx => clip realTrunc (a.get idx) /
              sumIdx a.shape (fun j => clip realTrunc (a.get j))⟩, ?_, rfl, fun idx hi => rfl⟩
            simp only [projectPmf, projectNonneg, realPart, NDArray.ndim]
            rw [if_pos hr]
            simp only [hs, if_false]
            unfold clip at hsum ⊢
            rw [if_pos hsum]
          · simpa [PmfArg.get, PmfArg.shape] using hr
          · simpa [PmfArg.get, PmfArg.shape] using hsum
          · intro h
            simp only [PmfArg.get, Complex.ofReal_re]
            exact not_le.1 fun h' => h0 ⟨h, h'⟩
        · refine ⟨fun h => absurd ?_ hsum, fun _ => ⟨.assertion, ?_⟩⟩
          · simpa [PmfArg.get, PmfArg.shape] using h.sum
          · simp only [projectPmf, projectNonneg, realPart, NDArray.ndim]
            rw [if_pos hr]
            simp only [hs, if_false]
            unfold clip at hsum
            rw [if_neg hsum]
    · refine ⟨fun h => absurd ?_ hr, fun _ => ⟨.assertion, ?_⟩⟩
      · simpa [PmfArg.get, PmfArg.shape] using h.real
      · simp only [projectPmf, projectNonneg, realPart]
        rw [if_neg hr]
  | cplx a =>
    by_cases hi : ∀ idx, InB idx a.shape → |(a.get idx).im| ≤ imagEps
    · have hre : realPart (.cplx a) imagEps = .ok ⟨a.shape, fun idx => (a.get idx).re⟩ := by
        simp only [realPart]
        rw [pyAssert, if_pos hi]; rfl
      by_cases hr : ∀ idx, InB idx a.shape → -realEps ≤ (a.get idx).re
      · by_cases h0 : a.shape = [] ∧ (a.get []).re ≤ realTrunc
        · refine ⟨fun h => ?_, fun _ => ?_⟩
          · exact absurd h0.2 (not_le.2 (h.scalar h0.1))
          · refine ⟨.type, ?_⟩
            simp only [projectPmf, projectNonneg, hre]
            rw [if_pos hr]
            simp [NDArray.ndim, h0.1, h0.2]
        · have hs : ¬ (a.shape.length = 0 ∧ ∀ b, (.ok ⟨a.shape, fun idx => (a.get idx).re⟩ : Py (NDArray ℝ)) = .ok b → b.get [] ≤ realTrunc) := by
            rintro ⟨h1, h2⟩
            exact h0 ⟨List.length_eq_zero_iff.1 h1, h2 _ rfl⟩
          by_cases hsum : |sumIdx a.shape (fun idx => clip realTrunc (a.get idx).re) - 1| ≤ realEps
          · refine ⟨fun _ => ?_, fun h => absurd ⟨fun j hj => .inr (hi j hj), hr, hsum, ?_⟩ h⟩
            · refine ⟨⟨a.shape, fun idx => clip realTrunc (a.get idx).re /
                sumIdx a.shape (fun j => clip realTrunc (a.get j).re)⟩, ?_, rfl, fun idx hi => rfl⟩
              simp only [projectPmf, projectNonneg, hre, NDArray.ndim]
              rw [if_pos hr]
              simp only [hs, if_false]
              unfold clip at hsum ⊢
              rw [if_pos hsum]
            · intro h
              exact not_le.1 fun h' => h0 ⟨h, h'⟩
          · refine ⟨fun h => absurd h.sum hsum, fun _ => ⟨.assertion, ?_⟩⟩
            simp only [projectPmf, projectNonneg, hre, NDArray.ndim]
            rw [if_pos hr]
            simp only [hs, if_false]
            unfold clip at hsum
            rw [if_neg hsum]
      · refine ⟨fun h => absurd h.real hr, fun _ => ⟨.assertion, ?_⟩⟩
        simp only [projectPmf, projectNonneg, hre]
        rw [if_neg hr]
    · refine ⟨fun h => absurd (fun j hj => (h.imag j hj).resolve_left ?_) hi, fun _ => ⟨.assertion, ?_⟩⟩
      · rintro ⟨b, hb⟩; cases hb
      · have : realPart (.cplx a) imagEps = .error .assertion := by
          simp only [realPart]; rw [pyAssert, if_neg hi]; rfl
        simp only [projectPmf, projectNonneg, this]

/-- C48: if `project_pmf` accepts (with a non-negative truncation threshold and a tolerance below
one), the result has the shape of the argument, is non-negative, sums to one, and differs from the
argument by at most the clipped amount plus the normalisation tolerance. -/
theorem C48_project_pmf (v : PmfArg) (imagEps realEps realTrunc : ℝ) (ht : 0 ≤ realTrunc)
    (he : realEps < 1) (p : NDArray ℝ) (hp : (projectPmf v imagEps realEps realTrunc).1 = .ok p) :
    p.shape = v.shape ∧ (∀ idx, InB idx p.shape → 0 ≤ p.get idx) ∧ sumIdx p.shape p.get = 1 ∧
    ∀ idx, InB idx p.shape → |p.get idx - (v.get idx).re| ≤ max realEps realTrunc + realEps := by
  have hacc : PmfAccepted v imagEps realEps realTrunc := by
    by_contra h
    obtain ⟨e, he⟩ := (C48_result v imagEps realEps realTrunc).2 h
    rw [hp] at he; cases he
  obtain ⟨p', hp', hs, hg⟩ := (C48_result v imagEps realEps realTrunc).1 hacc
  rw [hp] at hp'; cases hp'
  have hsum := hacc.sum
  obtain ⟨S, hS⟩ : ∃ S, S = sumIdx v.shape (fun j => clip realTrunc (v.get j).re) := ⟨_, rfl⟩
  rw [← hS] at hsum
  have hpos : 0 < S := by have := (abs_le.1 hsum).1; linarith
  refine ⟨hs, ?_, ?_, ?_⟩
  · intro idx hi
    rw [hg idx (hs ▸ hi), ← hS]
    exact div_nonneg (clip_nonneg ht) hpos.le
  · rw [hs, sumIdx_congr (g := fun i => clip realTrunc (v.get i).re / S)
      (fun i hi => by rw [hg i hi, ← hS]), sumIdx_div, ← hS, div_self hpos.ne']
  · intro idx hi
    rw [hs] at hi
    rw [hg idx hi, ← hS]
    have hle : clip realTrunc (v.get idx).re ≤ S := by
      rw [hS]; exact le_sumIdx (f := fun i => clip realTrunc (v.get i).re) (fun i _ => clip_nonneg ht) hi
    have h1 : |clip realTrunc (v.get idx).re / S - clip realTrunc (v.get idx).re| ≤ realEps := by
      have : clip realTrunc (v.get idx).re / S - clip realTrunc (v.get idx).re
          = (clip realTrunc (v.get idx).re / S) * (1 - S) := by field_simp
      rw [this, abs_mul, abs_sub_comm 1 S, abs_of_nonneg (div_nonneg (clip_nonneg ht) hpos.le)]
      calc _ ≤ 1 * |S - 1| := mul_le_mul_of_nonneg_right ((div_le_one hpos).2 hle) (abs_nonneg _)
        _ ≤ realEps := by rw [one_mul]; exact hsum
    have h2 : |clip realTrunc (v.get idx).re - (v.get idx).re| ≤ max realEps realTrunc := by
      have hr := hacc.real idx hi
      unfold clip
      split
      · rw [zero_sub, abs_neg, abs_le]
        exact ⟨by have := le_max_left realEps realTrunc; linarith, by
          have := le_max_right realEps realTrunc; linarith⟩
      · rw [sub_self, abs_zero]; exact le_max_of_le_right ht
    have := abs_sub_le (clip realTrunc (v.get idx).re / S) (clip realTrunc (v.get idx).re) (v.get idx).re
    linarith

/-- C48: a probability vector whose entries are zero or above the threshold is returned unchanged. -/
theorem C48_fixed (a : NDArray ℝ) (imagEps realEps realTrunc : ℝ) (he : 0 ≤ realEps)
    (hn : ∀ idx, InB idx a.shape → a.get idx = 0 ∨ (realTrunc < a.get idx ∧ 0 ≤ a.get idx))
    (hne : a.shape ≠ []) (hs : sumIdx a.shape a.get = 1) :
    ∃ p, (projectPmf (.real a) imagEps realEps realTrunc).1 = .ok p ∧ p.Eqv a := by
  have hc : ∀ idx, InB idx a.shape → clip realTrunc ((PmfArg.real a).get idx).re = a.get idx := by
    intro i hi
    have : clip realTrunc (a.get i) = a.get i := by
      unfold clip
      rcases hn i hi with h | h
      · rw [h]; simp
      · rw [if_neg (not_le.2 h.1)]
    simpa only [PmfArg.get, Complex.ofReal_re] using this
  have hs' : sumIdx (PmfArg.real a).shape (fun j => clip realTrunc ((PmfArg.real a).get j).re) = 1 := by
    rw [← hs]; exact sumIdx_congr hc
  obtain ⟨p, h1, h2, h3⟩ := (C48_result (.real a) imagEps realEps realTrunc).1
    ⟨fun _ _ => .inl ⟨a, rfl⟩, fun i hi => by
      simp only [PmfArg.get, Complex.ofReal_re]
      rcases hn i hi with h | h <;> linarith [h], by rw [hs']; simpa using he, fun h => absurd h hne⟩
  refine ⟨p, h1, h2, fun i hi => ?_⟩
  rw [h2] at hi
  rw [h3 i hi, hs', div_one, hc i hi]

/-- C48: complex arguments are not modified; real arrays are modified in place: after a successful
call the caller's array is the returned array. -/
theorem C48_in_place (v : PmfArg) (imagEps realEps realTrunc : ℝ) :
    ((∃ a, v = .cplx a) → (projectPmf v imagEps realEps realTrunc).2 = v) ∧
    ∀ a p, v = .real a → a.shape ≠ [] → (projectPmf v imagEps realEps realTrunc).1 = .ok p →
      (projectPmf v imagEps realEps realTrunc).2 = .real p := by
  constructor
  · rintro ⟨a, rfl⟩
    unfold projectPmf projectNonneg
    cases realPart (.cplx a) imagEps with
    | error e => rfl
    | ok b =>
      by_cases h : ∀ idx, InB idx b.shape → -realEps ≤ b.get idx
      · simp only [if_pos h]; split_ifs <;> rfl
      · simp only [if_neg h]
  · rintro a p rfl hne hp
    have h0 : a.shape.length ≠ 0 := by simpa using hne
    revert hp
    unfold projectPmf projectNonneg
    simp only [realPart, NDArray.ndim]
    by_cases h : ∀ idx, InB idx a.shape → -realEps ≤ a.get idx
    · rw [if_pos h]
      simp only [if_neg h0]
      simp only [h0, false_and, if_false]
      split_ifs
      · intro hp; cases hp; rfl
      · intro hp; cases hp
    · rw [if_neg h]; intro hp; cases hp

/-- Non-vacuity: a vector which is clipped and renormalised. -/
example : PmfAccepted (.real ⟨[3], fun i => match i with | [0] => 1/2 | [1] => 5/8 | _ => -1/10⟩)
    0 (1/8) 0 := by
  constructor
  · exact fun _ _ => .inl ⟨_, rfl⟩
  · intro idx hi
    cases hi with
    | cons h1 h2 =>
      cases h2
      rename_i j
      simp only [PmfArg.get, Complex.ofReal_re]
      have : j = 0 ∨ j = 1 ∨ j = 2 := by omega
      rcases this with rfl | rfl | rfl <;> norm_num
  · simp only [PmfArg.shape, PmfArg.get, sumIdx, sum_range_succ, sum_range_zero, clip,
      Complex.ofReal_re]
    norm_num [abs_le]
  · intro h; simp [PmfArg.shape] at h

end Mpnum
