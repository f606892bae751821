import Mathlib.Data.Fintype.BigOperators
import Mathlib.Algebra.BigOperators.Fin
import Verif.Povm.Lfun
import Verif.Props.C44
import Mathlib.Algebra.Order.BigOperators.Ring.Finset
import Mathlib.Algebra.BigOperators.Pi
import Mathlib.Algebra.BigOperators.Field
import Mathlib.Algebra.Order.BigOperators.Group.Finset
import Mathlib.Tactic.FieldSimp

/-! # C47: linear functionals of outcome probabilities and their estimators -/

open Finset Classical

namespace Mpnum

/-- Specification: the functions of outcomes that are estimated.  Without explicit functions these are the
indicator functions of the outcomes, in row-major order. -/
noncomputable def theFuns (dims : List ℕ) (funs : Option (List OutFun)) : List OutFun :=
  funs.getD ((List.range dims.prod).map fun m y => if y = (unravelIdx dims m).map (fun n : ℕ => (n : ℤ)) then 1 else 0)

/-- Specification: the linear combination `f = Σ c_i f_i` of the functions. -/
noncomputable def linComb (dims : List ℕ) (c : NDArray ℝ) (funs : Option (List OutFun)) : OutFun := fun y =>
  ∑ i ∈ range (theFuns dims funs).length, c.get [i] * (theFuns dims funs).getD i (fun _ => 0) y

/-- Specification: expectation value of `f` for the probabilities `p` of outcomes. -/
def expect (dims : List ℕ) (p : List ℕ → ℝ) (f : OutFun) : ℝ :=
  sumIdx dims fun y => f (y.map fun n : ℕ => (n : ℤ)) * p y

/-- Specification: variance. -/
def variance (dims : List ℕ) (p : List ℕ → ℝ) (f : OutFun) : ℝ :=
  expect dims p (fun y => f y ^ 2) - expect dims p f ^ 2

/-- Specification: weighted average over samples. -/
noncomputable def sampleMean (n : ℕ) (x : ℕ → List ℤ) (w : ℕ → ℝ) (f : OutFun) : ℝ :=
  (∑ k ∈ range n, w k * f (x k)) / ∑ k ∈ range n, w k

theorem quad_form (k n : ℕ) (c : ℕ → ℝ) (g : ℕ → ℕ → ℝ) (q : ℕ → ℝ) :
    ∑ i ∈ range k, c i * ∑ j ∈ range k,
        ((∑ m ∈ range n, g i m * (g j m * q m)) - (∑ m ∈ range n, g i m * q m) * ∑ m ∈ range n, g j m * q m) * c j
      = (∑ m ∈ range n, (∑ i ∈ range k, c i * g i m) ^ 2 * q m)
        - (∑ m ∈ range n, (∑ i ∈ range k, c i * g i m) * q m) ^ 2 := by
  have h1 : ∀ m, (∑ i ∈ range k, c i * g i m) ^ 2 * q m
      = ∑ i ∈ range k, ∑ j ∈ range k, c i * (g i m * (g j m * q m)) * c j := by
    intro m
    rw [sq, sum_mul_sum, sum_mul]
    refine sum_congr rfl fun i _ => ?_
    rw [sum_mul]
    exact sum_congr rfl fun j _ => by ring
  have h2 : (∑ m ∈ range n, (∑ i ∈ range k, c i * g i m) * q m) = ∑ i ∈ range k, c i * ∑ m ∈ range n, g i m * q m := by
    simp only [sum_mul, mul_sum]
    rw [sum_comm]
    exact sum_congr rfl fun i _ => sum_congr rfl fun m _ => by ring
  simp only [h1]
  rw [h2, sq, sum_mul_sum, sum_comm, ← sum_sub_distrib]
  refine sum_congr rfl fun i _ => ?_
  rw [sum_comm, ← sum_sub_distrib, mul_sum]
  refine sum_congr rfl fun j _ => ?_
  rw [sub_mul, mul_sub, sum_mul, mul_sum]
  congr 1
  · exact sum_congr rfl fun m _ => by ring
  · ring

theorem sum_mul_comm_lin (k n : ℕ) (c : ℕ → ℝ) (g : ℕ → ℕ → ℝ) (q : ℕ → ℝ) :
    ∑ i ∈ range k, c i * ∑ m ∈ range n, g i m * q m = ∑ m ∈ range n, (∑ i ∈ range k, c i * g i m) * q m := by
  simp only [sum_mul, mul_sum]
  rw [sum_comm]
  exact sum_congr rfl fun i _ => sum_congr rfl fun m _ => by ring

theorem var_nonneg (n : ℕ) (F q : ℕ → ℝ) (hq : ∀ m < n, 0 ≤ q m) (h1 : ∑ m ∈ range n, q m = 1) :
    0 ≤ (∑ m ∈ range n, F m ^ 2 * q m) - (∑ m ∈ range n, F m * q m) ^ 2 := by
  obtain ⟨μ, hμ⟩ : ∃ μ, μ = ∑ m ∈ range n, F m * q m := ⟨_, rfl⟩
  have : (∑ m ∈ range n, F m ^ 2 * q m) - (∑ m ∈ range n, F m * q m) ^ 2 = ∑ m ∈ range n, (F m - μ) ^ 2 * q m := by
    have e : ∀ m, (F m - μ) ^ 2 * q m = F m ^ 2 * q m - 2 * μ * (F m * q m) + μ ^ 2 * q m := fun m => by ring
    simp only [e, sum_add_distrib, sum_sub_distrib, ← mul_sum]
    rw [h1, ← hμ]; ring
  rw [this]
  exact sum_nonneg fun m hm => mul_nonneg (sq_nonneg _) (hq m (mem_range.1 hm))

theorem indicatorFuns_eq (dims : List ℕ) (funs : Option (List OutFun)) :
    funs.getD (indicatorFuns dims) = theFuns dims funs := rfl

theorem funTable_shape (dims : List ℕ) (funs : Option (List OutFun)) :
    (funTable dims funs).shape = [(theFuns dims funs).length, dims.prod] := by
  cases funs <;> simp [funTable, funOut, theFuns]

theorem funTable_get {dims : List ℕ} {funs : Option (List OutFun)} {i m : ℕ} (hi : i < (theFuns dims funs).length)
    (hm : m < dims.prod) :
    (funTable dims funs).get [i, m] = (theFuns dims funs).getD i (fun _ => 0) (outcomeRow dims m) := by
  cases funs with
  | some fs => rfl
  | none =>
    have hi' : i < dims.prod := by simpa [theFuns] using hi
    have hget : (theFuns dims none).getD i (fun _ => 0) (outcomeRow dims m)
        = if outcomeRow dims m = outcomeRow dims i then 1 else 0 := by
      unfold theFuns
      rw [Option.getD_none, List.getD_eq_getElem _ _ (by simpa using hi'), List.getElem_map, List.getElem_range]
      rfl
    rw [hget]
    simp only [funTable, List.getD_cons_zero, List.getD_cons_succ]
    by_cases h : i = m
    · subst h; simp
    · have hne : outcomeRow dims m ≠ outcomeRow dims i := by
        intro he
        have hinj : Function.Injective fun n : ℕ => (n : ℤ) := Nat.cast_injective
        have := List.map_injective_iff.2 hinj he
        apply h
        rw [← ravel_unravel hi', ← ravel_unravel hm, this]
      rw [if_neg hne, if_neg h]

/-- Row-major enumeration of the outcomes. -/
theorem expect_eq (dims : List ℕ) (p : List ℕ → ℝ) (f : OutFun) :
    expect dims p f = ∑ m ∈ range dims.prod, f (outcomeRow dims m) * p (unravelIdx dims m) := by
  unfold expect outcomeRow
  rw [sum_unravel dims fun y => f (y.map fun n : ℕ => (n : ℤ)) * p y]

theorem lfunResult_ok {c : NDArray ℝ} {k : ℕ} {ept cov : NDArray ℝ} {eps E V : ℝ} (heps : 0 ≤ eps)
    (hE : ∑ i ∈ range k, c.get [i] * ept.get [i] = E)
    (hV : ∑ i ∈ range k, c.get [i] * ∑ j ∈ range k, cov.get [i, j] * c.get [j] = V) (h0 : 0 ≤ V) :
    lfunResult (some c) k ept cov eps = .ok (scalarArr E, scalarArr V) := by
  unfold lfunResult
  simp only [hE, hV]
  rw [pyAssert_true (by linarith), ok_bind, if_neg (not_lt.2 h0)]

/-- C47: `lfun` with coefficients returns the exact expectation value and variance of `f = Σ c_i f_i`
(for `funs=None`, of the linear function `Σ c_y p_y` of the probabilities). -/
theorem C47_lfun (outdims : List ℕ) (p c : NDArray ℝ) (funs : Option (List OutFun)) (eps : ℝ) (heps : 0 ≤ eps)
    (hne : nsDims outdims ≠ []) (hp : p.shape = nsDims outdims) (hpos : ∀ y, InB y (nsDims outdims) → 0 ≤ p.get y)
    (hsum : sumIdx (nsDims outdims) p.get = 1)
    (hc : c.shape = [(theFuns (nsDims outdims) funs).length]) :
    lfun outdims (.ok p) (some c) funs eps
      = .ok (scalarArr (expect (nsDims outdims) p.get (linComb (nsDims outdims) c funs)),
          scalarArr (variance (nsDims outdims) p.get (linComb (nsDims outdims) c funs))) := by
  obtain ⟨dims, hdims⟩ : ∃ dims, dims = nsDims outdims := ⟨_, rfl⟩
  have hrow : ∀ m < dims.prod, linComb dims c funs (outcomeRow dims m)
      = ∑ i ∈ range (theFuns dims funs).length, c.get [i] * (funTable dims funs).get [i, m] := by
    intro m hm
    unfold linComb
    exact sum_congr rfl fun i hi => by rw [funTable_get (mem_range.1 hi) hm]
  have hE : expect dims p.get (linComb dims c funs)
      = ∑ m ∈ range dims.prod, (∑ i ∈ range (theFuns dims funs).length, c.get [i] * (funTable dims funs).get [i, m])
          * p.get (unravelIdx dims m) := by
    rw [expect_eq]
    exact sum_congr rfl fun m hm => by rw [hrow m (mem_range.1 hm)]
  have hV : variance dims p.get (linComb dims c funs)
      = (∑ m ∈ range dims.prod, (∑ i ∈ range (theFuns dims funs).length, c.get [i] * (funTable dims funs).get [i, m]) ^ 2
          * p.get (unravelIdx dims m))
        - (∑ m ∈ range dims.prod, (∑ i ∈ range (theFuns dims funs).length, c.get [i] * (funTable dims funs).get [i, m])
          * p.get (unravelIdx dims m)) ^ 2 := by
    rw [variance, hE, expect_eq]
    congr 1
    exact sum_congr rfl fun m hm => by rw [hrow m (mem_range.1 hm)]
  rw [← hdims] at hne hp hpos hsum hc ⊢
  by_cases h0 : (theFuns dims funs).length = 0
  · -- no functions
    have hcond : (∃ c', some c = some c' ∧ c'.shape.headD 0 = 0) ∨ funs = some [] := Or.inl ⟨c, rfl, by rw [hc, h0]; rfl⟩
    unfold lfun
    rw [if_pos hcond, hE, hV, h0]
    simp
  · have hcond : ¬ ((∃ c', some c = some c' ∧ c'.shape.headD 0 = 0) ∨ funs = some []) := by
      rintro (⟨c', h1, h2⟩ | h)
      · obtain rfl := Option.some.inj h1
        rw [hc] at h2
        exact h0 h2
      · rw [h] at h0; exact h0 rfl
    unfold lfun
    rw [if_neg hcond, ok_bind]
    simp only [← hdims, funTable_shape, hp, List.headD_cons]
    rw [show pyGuard (dims ≠ []) PyErr.type = .ok () from if_pos (by simpa [hdims] using hne), ok_bind, pyAssert_true (by intro c' h; obtain rfl := Option.some.inj h; exact hc), ok_bind]
    refine lfunResult_ok heps ?_ ?_ ?_
    · rw [hE]
      exact sum_mul_comm_lin _ _ (fun i => c.get [i]) (fun i m => (funTable dims funs).get [i, m]) fun m => p.get (unravelIdx dims m)
    · rw [hV]
      exact quad_form _ _ (fun i => c.get [i]) (fun i m => (funTable dims funs).get [i, m]) fun m => p.get (unravelIdx dims m)
    · rw [hV]
      refine var_nonneg _ _ _ (fun m hm => hpos _ (unravelIdx_inB hm)) ?_
      rw [← hsum]
      exact sum_unravel dims p.get

/-- C47: `lfun` without coefficients returns the expectation values of the functions and their covariance
matrix. -/
theorem C47_lfun_cov (outdims : List ℕ) (p : NDArray ℝ) (funs : Option (List OutFun)) (eps : ℝ)
    (hne : nsDims outdims ≠ []) (hp : p.shape = nsDims outdims) (hf : funs ≠ some []) :
    ∃ ept cov, lfun outdims (.ok p) none funs eps = .ok (ept, cov) ∧
      ept.shape = [(theFuns (nsDims outdims) funs).length] ∧
      cov.shape = [(theFuns (nsDims outdims) funs).length, (theFuns (nsDims outdims) funs).length] ∧
      ∀ (i j : ℕ) (fi fj : OutFun), (theFuns (nsDims outdims) funs)[i]? = some fi →
        (theFuns (nsDims outdims) funs)[j]? = some fj →
        ept.get [i] = expect (nsDims outdims) p.get fi ∧
        cov.get [i, j] = expect (nsDims outdims) p.get (fun y => fi y * fj y)
          - expect (nsDims outdims) p.get fi * expect (nsDims outdims) p.get fj := by
  obtain ⟨dims, hdims⟩ : ∃ dims, dims = nsDims outdims := ⟨_, rfl⟩
  have hcond : ¬ ((∃ c', (none : Option (NDArray ℝ)) = some c' ∧ c'.shape.headD 0 = 0) ∨ funs = some []) := by
    rintro (⟨c', h1, _⟩ | h)
    · simp at h1
    · exact hf h
  obtain ⟨ept, hept⟩ : ∃ ept : NDArray ℝ, ept = ⟨[(theFuns dims funs).length], fun i =>
    ∑ m ∈ range dims.prod, (funTable dims funs).get [i.getD 0 0, m] * p.get (unravelIdx dims m)⟩ := ⟨_, rfl⟩
  obtain ⟨cov, hcov⟩ : ∃ cov : NDArray ℝ, cov = ⟨[(theFuns dims funs).length, (theFuns dims funs).length], fun i =>
    (∑ m ∈ range dims.prod, (funTable dims funs).get [i.getD 0 0, m] * ((funTable dims funs).get [i.getD 1 0, m]
      * p.get (unravelIdx dims m))) - ept.get [i.getD 0 0] * ept.get [i.getD 1 0]⟩ := ⟨_, rfl⟩
  have hmain : lfun outdims (.ok p) none funs eps = .ok (ept, cov) := by
    rw [hcov, hept]
    unfold lfun
    rw [if_neg hcond, ok_bind]
    simp only [← hdims, funTable_shape, hp, List.headD_cons]
    rw [show pyGuard (dims ≠ []) PyErr.type = .ok () from if_pos (by simpa [hdims] using hne), ok_bind, pyAssert_true (by intro c' h; simp at h), ok_bind]
    rfl
  refine ⟨ept, cov, hmain, by rw [← hdims, hept], by rw [← hdims, hcov], ?_⟩
  intro i j fi fj hi hj
  rw [← hdims] at hi hj ⊢
  obtain ⟨hi1, hi2⟩ := List.getElem?_eq_some_iff.1 hi
  obtain ⟨hj1, hj2⟩ := List.getElem?_eq_some_iff.1 hj
  have gi : ∀ m < dims.prod, (funTable dims funs).get [i, m] = fi (outcomeRow dims m) := by
    intro m hm
    rw [funTable_get hi1 hm, List.getD_eq_getElem _ _ hi1, hi2]
  have gj : ∀ m < dims.prod, (funTable dims funs).get [j, m] = fj (outcomeRow dims m) := by
    intro m hm
    rw [funTable_get hj1 hm, List.getD_eq_getElem _ _ hj1, hj2]
  have ei : ∑ m ∈ range dims.prod, (funTable dims funs).get [i, m] * p.get (unravelIdx dims m) = expect dims p.get fi := by
    rw [expect_eq]; exact sum_congr rfl fun m hm => by rw [gi m (mem_range.1 hm)]
  have ej : ∑ m ∈ range dims.prod, (funTable dims funs).get [j, m] * p.get (unravelIdx dims m) = expect dims p.get fj := by
    rw [expect_eq]; exact sum_congr rfl fun m hm => by rw [gj m (mem_range.1 hm)]
  have gept : ∀ i, ept.get [i] = ∑ m ∈ range dims.prod, (funTable dims funs).get [i, m] * p.get (unravelIdx dims m) := by
    intro i; rw [hept]; rfl
  refine ⟨by rw [gept, ei], ?_⟩
  rw [hcov]
  simp only [List.getD_cons_zero, List.getD_cons_succ]
  rw [gept, gept, ei, ej]
  congr 1
  rw [expect_eq]
  exact sum_congr rfl fun m hm => by rw [gi m (mem_range.1 hm), gj m (mem_range.1 hm)]; ring

theorem sum_weightOf (n : ℕ) (weights : Option (NDArray ℝ)) :
    ∑ m ∈ range n, weightOf weights m = totalWeight n weights := by
  cases weights <;> simp [weightOf, totalWeight]

/-- C47: `est_lfun` returns the (weighted) sample average of `f = Σ c_i f_i` and the estimated variance
`1/(m-1) (<f²>_D - <f>_D²)` of this average, where `m` is the number of samples (the sum of the weights,
if weights are given). -/
theorem C47_est_lfun (outdims : List ℕ) (c : NDArray ℝ) (funs : Option (List OutFun)) (n : ℕ) (s : NDArray ℤ)
    (weights : Option (NDArray ℝ)) (eps : ℝ) (heps : 0 ≤ eps)
    (hne : funs = none → nsDims outdims ≠ []) (hs : s.shape = [n, (nsDims outdims).length])
    (hc : c.shape = [(theFuns (nsDims outdims) funs).length])
    (hw : ∀ w, weights = some w → w.shape = [n] ∧ ∀ m < n, 0 ≤ w.get [m])
    (hW : 1 < totalWeight n weights) :
    estLfun outdims (some c) funs s weights eps
      = .ok (scalarArr (sampleMean n (sampleRow s) (weightOf weights) (linComb (nsDims outdims) c funs)),
          scalarArr ((sampleMean n (sampleRow s) (weightOf weights) (fun y => linComb (nsDims outdims) c funs y ^ 2)
            - sampleMean n (sampleRow s) (weightOf weights) (linComb (nsDims outdims) c funs) ^ 2)
            / (totalWeight n weights - 1))) := by
  obtain ⟨dims, hdims⟩ : ∃ dims, dims = nsDims outdims := ⟨_, rfl⟩
  obtain ⟨W, hWd⟩ : ∃ W, W = totalWeight n weights := ⟨_, rfl⟩
  have hW0 : W ≠ 0 := by rw [hWd]; linarith
  have hW1 : W - 1 ≠ 0 := by rw [hWd]; linarith
  rw [← hdims] at hne hs hc ⊢
  obtain ⟨g, hg⟩ : ∃ g : ℕ → ℕ → ℝ, g = fun i m => (theFuns dims funs).getD i (fun _ => 0) (sampleRow s m) := ⟨_, rfl⟩
  obtain ⟨k, hk⟩ : ∃ k, k = (theFuns dims funs).length := ⟨_, rfl⟩
  obtain ⟨q, hq⟩ : ∃ q : ℕ → ℝ, q = fun m => weightOf weights m / W := ⟨_, rfl⟩
  have hmean : ∀ f : OutFun, sampleMean n (sampleRow s) (weightOf weights) f = ∑ m ∈ range n, f (sampleRow s m) * q m := by
    intro f
    unfold sampleMean
    rw [sum_weightOf, ← hWd, sum_div, hq]
    exact sum_congr rfl fun m _ => by ring
  have hlin : ∀ m, linComb dims c funs (sampleRow s m) = ∑ i ∈ range k, c.get [i] * g i m := by
    intro m; rw [hg, hk]; rfl
  have hpos : ∀ m < n, 0 ≤ q m := by
    intro m hm
    rw [hq]
    refine div_nonneg ?_ (by rw [hWd]; linarith)
    cases weights with
    | none => simp [weightOf]
    | some w => exact (hw w rfl).2 m hm
  have hsum1 : ∑ m ∈ range n, q m = 1 := by
    rw [hq, ← sum_div, sum_weightOf, ← hWd, div_self hW0]
  unfold estLfun
  simp only [← hdims, hs, List.getD_cons_zero, List.getD_cons_succ, indicatorFuns_eq]
  rw [show pyGuard (funs = none → dims ≠ []) PyErr.type = .ok () from if_pos hne, ok_bind,
    pyAssert_true (by intro c' h; obtain rfl := Option.some.inj h; rw [hc]; rfl), ok_bind,
    pyAssert_true (by intro c' h; obtain rfl := Option.some.inj h; rw [hc]; rfl), ok_bind,
    pyAssert_true (by rw [NDArray.ndim, hs]; rfl), ok_bind, pyAssert_true trivial, ok_bind,
    pyAssert_true (fun w h => (hw w h).1), ok_bind, pyAssert_true (fun w h => (hw w h).2), ok_bind]
  have hguard : pyGuard (weights = none → n ≠ 0 ∧ n ≠ 1) PyErr.zeroDiv = .ok () := if_pos (by
      rintro rfl
      simp only [totalWeight, Option.map_none, Option.getD_none] at hW
      have : 1 < n := by exact_mod_cast hW
      omega)
  rw [hguard, ok_bind]
  have hfo : ∀ i m, (funOut (theFuns dims funs) n (sampleRow s)).get [i, m] = g i m := by
    intro i m; rw [hg]; rfl
  have hk' : (funOut (theFuns dims funs) n (sampleRow s)).shape.headD 0 = k := by rw [hk]; rfl
  generalize funOut (theFuns dims funs) n (sampleRow s) = fo at hfo hk'
  have hept : ∀ i, (estEpt fo n weights).get [i] = ∑ m ∈ range n, g i m * q m := by
    intro i
    simp only [estEpt, List.getD_cons_zero, hfo, ← hWd]
    rw [sum_div, hq]
    exact sum_congr rfl fun m _ => by ring
  have hfac : W / (W - 1) / W = 1 / (W - 1) := by field_simp
  have hcov : ∀ i j, (estCov fo n weights (estEpt fo n weights)).get [i, j]
      = ((∑ m ∈ range n, g i m * (g j m * q m)) - (∑ m ∈ range n, g i m * q m) * ∑ m ∈ range n, g j m * q m)
        * (1 / (W - 1)) := by
    intro i j
    have e : (∑ m ∈ range n, g i m * (g j m * weightOf weights m)) / W = ∑ m ∈ range n, g i m * (g j m * q m) := by
      rw [sum_div, hq]
      exact sum_congr rfl fun m _ => by ring
    simp only [estCov, List.getD_cons_zero, List.getD_cons_succ, hfo, ← hWd]
    rw [hept, hept, hfac, e]
  have hVq := quad_form k n (fun i => c.get [i]) g q
  refine lfunResult_ok heps ?_ ?_ ?_
  · rw [hk', hmean]
    simp only [hept, hlin]
    exact sum_mul_comm_lin _ _ (fun i => c.get [i]) g q
  · rw [hk', hmean, hmean, ← hWd]
    simp only [hcov, hlin]
    rw [div_eq_mul_one_div (_ - _), ← hVq, sum_mul]
    refine sum_congr rfl fun i _ => ?_
    rw [mul_assoc, sum_mul]
    congr 1
    exact sum_congr rfl fun j _ => by ring
  · rw [hmean, hmean]
    simp only [hlin]
    refine div_nonneg (var_nonneg n _ q hpos hsum1) ?_
    linarith

/-- C47: without weights, at least two samples are needed. -/
theorem C47_est_lfun_few (outdims : List ℕ) (coeff : Option (NDArray ℝ)) (funs : Option (List OutFun)) (n : ℕ)
    (s : NDArray ℤ) (eps : ℝ) (hne : funs = none → nsDims outdims ≠ []) (hs : s.shape = [n, (nsDims outdims).length])
    (hn : n ≤ 1)
    (hc : ∀ c, coeff = some c → c.shape = [(theFuns (nsDims outdims) funs).length]) :
    estLfun outdims coeff funs s none eps = .error .zeroDiv := by
  unfold estLfun
  simp only [hs, List.getD_cons_zero, List.getD_cons_succ, indicatorFuns_eq]
  rw [show pyGuard (funs = none → nsDims outdims ≠ []) PyErr.type = .ok () from if_pos hne, ok_bind,
    pyAssert_true (by intro c' h; rw [hc c' h]; rfl), ok_bind,
    pyAssert_true (by intro c' h; rw [hc c' h]; rfl), ok_bind,
    pyAssert_true (by rw [NDArray.ndim, hs]; rfl), ok_bind, pyAssert_true trivial, ok_bind,
    pyAssert_true (by simp), ok_bind, pyAssert_true (by simp), ok_bind]
  have hguard : ∀ d, @pyGuard (True → n ≠ 0 ∧ n ≠ 1) d PyErr.zeroDiv = .error .zeroDiv := fun d => if_neg (by
      intro h
      have := h trivial
      omega)
  simp only [pyGuard]
  rw [if_neg (by simp; omega)]
  rfl

/-- C47, deviation from the documentation: if no site has several outcomes, then `lfun` and, for `funs=None`, `est_lfun`
raise a `TypeError`. -/
theorem C47_no_outcomes (outdims : List ℕ) (h : nsDims outdims = []) (p c : NDArray ℝ) (funs : Option (List OutFun))
    (s : NDArray ℤ) (weights : Option (NDArray ℝ)) (eps : ℝ) (hc : c.shape.headD 0 ≠ 0) (hf : funs ≠ some []) :
    lfun outdims (.ok p) (some c) funs eps = .error .type ∧
      estLfun outdims (some c) none s weights eps = .error .type := by
  constructor
  · unfold lfun
    rw [if_neg (by
      rintro (⟨c', h1, h2⟩ | h1)
      · obtain rfl := Option.some.inj h1
        exact hc h2
      · exact hf h1), ok_bind]
    simp only [h]
    rfl
  · unfold estLfun
    simp only [h]
    rfl

/-! ### Unbiasedness -/

/-- Specification: the array of `n` samples with outcomes `x 0, ..., x (n-1)` (row-major numbers). -/
def samplesOf (dims : List ℕ) (n : ℕ) (x : Fin n → Fin dims.prod) : NDArray ℤ :=
  ⟨[n, dims.length], fun i => if h : i.getD 0 0 < n then (outcomeRow dims (x ⟨i.getD 0 0, h⟩)).getD (i.getD 1 0) 0 else 0⟩

/-- Specification: average over `n` independent samples drawn from the probabilities `p`. -/
noncomputable def iidMean (dims : List ℕ) (p : List ℕ → ℝ) (n : ℕ) (g : (Fin n → Fin dims.prod) → ℝ) : ℝ :=
  ∑ x : Fin n → Fin dims.prod, (∏ k, p (unravelIdx dims (x k))) * g x

theorem sampleRow_samplesOf (dims : List ℕ) (n : ℕ) (x : Fin n → Fin dims.prod) (k : Fin n) :
    sampleRow (samplesOf dims n x) k = outcomeRow dims (x k) := by
  unfold sampleRow samplesOf
  refine List.ext_getElem (by simp [outcomeRow]) fun j h1 h2 => ?_
  simp only [List.getElem_map, List.getElem_range, List.getD_cons_zero, List.getD_cons_succ, k.2, dif_pos]
  rw [List.getD_eq_getElem _ _ h2]

theorem isSamples_samplesOf (dims : List ℕ) (n : ℕ) (x : Fin n → Fin dims.prod) :
    IsSamples dims n (samplesOf dims n x) := by
  refine ⟨rfl, fun k hk j hj => ?_⟩
  have hin := unravelIdx_inB (s := dims) (x ⟨k, hk⟩).2
  have := (List.forall₂_iff_get.1 hin).2 j (by simpa using hj) hj
  simp only [samplesOf, List.getD_cons_zero, List.getD_cons_succ, hk, dif_pos, outcomeRow]
  rw [List.getD_eq_getElem _ _ (by simpa using hj), List.getD_eq_getElem _ _ hj, List.getElem_map]
  exact ⟨by positivity, by exact_mod_cast this⟩

section iid
variable {N n : ℕ} (p : Fin N → ℝ) (hp : ∑ y, p y = 1)
include hp

theorem iid_one (G : Fin N → ℝ) (k : Fin n) :
    ∑ x : Fin n → Fin N, (∏ i, p (x i)) * G (x k) = ∑ y, G y * p y := by
  have h1 : ∀ x : Fin n → Fin N, (∏ i, p (x i)) * G (x k) = ∏ i, p (x i) * (if i = k then G (x i) else 1) := by
    intro x
    rw [prod_mul_distrib, prod_ite_eq' univ k (fun i => G (x i))]; simp
  simp only [h1]
  have h2 := Finset.prod_univ_sum (fun _ : Fin n => (univ : Finset (Fin N)))
    (fun i y => p y * (if i = k then G y else 1))
  rw [Fintype.piFinset_univ] at h2
  rw [← h2]
  have h3 : ∀ i : Fin n, ∑ y, p y * (if i = k then G y else 1) = if i = k then ∑ y, G y * p y else 1 := by
    intro i
    by_cases h : i = k
    · simp only [h, if_true]; exact sum_congr rfl fun y _ => mul_comm _ _
    · simp only [h, if_false, mul_one, hp]
  simp only [h3]
  rw [prod_ite_eq' univ k (fun _ => ∑ y, G y * p y)]; simp

theorem iid_two (G : Fin N → ℝ) (j k : Fin n) (hjk : j ≠ k) :
    ∑ x : Fin n → Fin N, (∏ i, p (x i)) * (G (x j) * G (x k)) = (∑ y, G y * p y) ^ 2 := by
  have h1 : ∀ x : Fin n → Fin N, (∏ i, p (x i)) * (G (x j) * G (x k))
      = ∏ i, p (x i) * ((if i = j then G (x i) else 1) * (if i = k then G (x i) else 1)) := by
    intro x
    rw [prod_mul_distrib, prod_mul_distrib, prod_ite_eq' univ k (fun i => G (x i)),
      prod_ite_eq' univ j (fun i => G (x i))]
    simp
  simp only [h1]
  have h2 := Finset.prod_univ_sum (fun _ : Fin n => (univ : Finset (Fin N)))
    (fun i y => p y * ((if i = j then G y else 1) * (if i = k then G y else 1)))
  rw [Fintype.piFinset_univ] at h2
  rw [← h2]
  have h3 : ∀ i : Fin n, ∑ y, p y * ((if i = j then G y else 1) * (if i = k then G y else 1))
      = (if i = j then ∑ y, G y * p y else 1) * (if i = k then ∑ y, G y * p y else 1) := by
    intro i
    by_cases h : i = j
    · have h' : i ≠ k := fun h'' => hjk (h.symm.trans h'')
      simp only [h, if_true, hjk, if_false, mul_one]; exact sum_congr rfl fun y _ => mul_comm _ _
    · by_cases h' : i = k
      · simp only [h, h', if_true, Ne.symm hjk, if_false, one_mul]; exact sum_congr rfl fun y _ => mul_comm _ _
      · simp only [h, h', if_false, mul_one, hp]
  simp only [h3]
  rw [prod_mul_distrib, prod_ite_eq' univ j (fun _ => ∑ y, G y * p y), prod_ite_eq' univ k (fun _ => ∑ y, G y * p y)]
  simp [sq]

theorem iid_sum (G : Fin N → ℝ) :
    ∑ x : Fin n → Fin N, (∏ i, p (x i)) * (∑ k, G (x k)) = n * ∑ y, G y * p y := by
  simp only [mul_sum (univ : Finset (Fin n))]
  rw [sum_comm, sum_congr rfl fun k _ => iid_one p hp G k]
  simp

theorem iid_sum_sq (G : Fin N → ℝ) :
    ∑ x : Fin n → Fin N, (∏ i, p (x i)) * (∑ k, G (x k)) ^ 2
      = n * (∑ y, G y ^ 2 * p y) + (n * (n - 1)) * (∑ y, G y * p y) ^ 2 := by
  have h1 : ∀ x : Fin n → Fin N, (∏ i, p (x i)) * (∑ k, G (x k)) ^ 2
      = ∑ j, ∑ k, (∏ i, p (x i)) * (G (x j) * G (x k)) := by
    intro x
    rw [sq, sum_mul_sum, mul_sum]
    exact sum_congr rfl fun j _ => mul_sum _ _ _
  simp only [h1]
  rw [sum_comm]
  have h2 : ∀ j : Fin n, ∑ x : Fin n → Fin N, ∑ k, (∏ i, p (x i)) * (G (x j) * G (x k))
      = (∑ y, G y ^ 2 * p y) + (n - 1) * (∑ y, G y * p y) ^ 2 := by
    intro j
    rw [sum_comm, ← Finset.add_sum_erase _ _ (mem_univ j)]
    congr 1
    · have := iid_one (n := n) p hp (fun y => G y ^ 2) j
      rw [← this]
      exact sum_congr rfl fun x _ => by ring
    · rw [sum_congr rfl fun k hk => iid_two p hp G j k (Ne.symm (ne_of_mem_erase hk))]
      rw [sum_const, card_erase_of_mem (mem_univ j), card_univ, Fintype.card_fin, nsmul_eq_mul]
      have : 1 ≤ n := by have := j.2; omega
      push_cast [this]
      ring
  rw [sum_congr rfl fun j _ => h2 j, sum_const, card_univ, Fintype.card_fin, nsmul_eq_mul]
  ring

end iid

/-- C47: for independent samples from the outcome probabilities, the estimate returned by `est_lfun` is
unbiased, and its second result is an unbiased estimate of the variance of the estimate. -/
theorem C47_unbiased (outdims : List ℕ) (p : List ℕ → ℝ) (hsum : sumIdx (nsDims outdims) p = 1)
    (c : NDArray ℝ) (funs : Option (List OutFun)) (n : ℕ) (hn : 2 ≤ n) (eps : ℝ) (heps : 0 ≤ eps)
    (hne : funs = none → nsDims outdims ≠ []) (hc : c.shape = [(theFuns (nsDims outdims) funs).length]) :
    ∃ est var : (Fin n → Fin (nsDims outdims).prod) → ℝ,
      (∀ x, estLfun outdims (some c) funs (samplesOf (nsDims outdims) n x) none eps
        = .ok (scalarArr (est x), scalarArr (var x))) ∧
      iidMean (nsDims outdims) p n est = expect (nsDims outdims) p (linComb (nsDims outdims) c funs) ∧
      iidMean (nsDims outdims) p n (fun x =>
          (est x - expect (nsDims outdims) p (linComb (nsDims outdims) c funs)) ^ 2)
        = variance (nsDims outdims) p (linComb (nsDims outdims) c funs) / n ∧
      iidMean (nsDims outdims) p n var = variance (nsDims outdims) p (linComb (nsDims outdims) c funs) / n := by
  obtain ⟨dims, hdims⟩ : ∃ dims, dims = nsDims outdims := ⟨_, rfl⟩
  have hn' : (2 : ℝ) ≤ n := by exact_mod_cast hn
  have hest := fun x => C47_est_lfun outdims c funs n (samplesOf (nsDims outdims) n x) none eps heps hne rfl hc
    (by simp) (by simp [totalWeight]; omega)
  refine ⟨_, _, hest, ?_⟩
  rw [← hdims] at hsum ⊢
  obtain ⟨F, hF⟩ : ∃ F, F = linComb dims c funs := ⟨_, rfl⟩
  rw [← hF]
  have hmean : ∀ (f : OutFun) (x : Fin n → Fin dims.prod),
      sampleMean n (sampleRow (samplesOf dims n x)) (weightOf none) f = (∑ k, f (outcomeRow dims (x k))) / n := by
    intro f x
    unfold sampleMean
    rw [Finset.sum_range, Finset.sum_range]
    simp only [weightOf, Option.map_none, Option.getD_none, one_mul, sampleRow_samplesOf]
    simp
  have htw : totalWeight n none = n := by simp [totalWeight]
  simp only [hmean, htw]
  obtain ⟨P, hP⟩ : ∃ P : Fin dims.prod → ℝ, P = fun y : Fin _ => p (unravelIdx dims y) := ⟨_, rfl⟩
  obtain ⟨G, hG⟩ : ∃ G : Fin dims.prod → ℝ, G = fun y : Fin _ => F (outcomeRow dims y) := ⟨_, rfl⟩
  have hP1 : ∑ y, P y = 1 := by
    rw [← hsum, ← sum_unravel, Finset.sum_range, hP]
  have hμ : expect dims p F = ∑ y, G y * P y := by
    rw [expect_eq, Finset.sum_range, hG, hP]
  have hm2 : expect dims p (fun y => F y ^ 2) = ∑ y, G y ^ 2 * P y := by
    rw [expect_eq, Finset.sum_range, hG, hP]
  have i1 := iid_sum (n := n) P hP1 G
  have i2 := iid_sum_sq (n := n) P hP1 G
  have i3 := iid_sum (n := n) P hP1 (fun y => G y ^ 2)
  have i0 : ∑ x : Fin n → Fin dims.prod, (∏ i, P (x i)) = 1 := by
    have h2 := Finset.prod_univ_sum (fun _ : Fin n => (univ : Finset (Fin dims.prod))) (fun _ y => P y)
    rw [Fintype.piFinset_univ] at h2
    rw [← h2]; simp [hP1]
  have hPx : ∀ x : Fin n → Fin dims.prod, (∏ k, p (unravelIdx dims (x k))) = ∏ k, P (x k) := by
    intro x; rw [hP]
  have hGx : ∀ x : Fin n → Fin dims.prod, (∑ k, F (outcomeRow dims (x k))) = ∑ k, G (x k) := by
    intro x; rw [hG]
  have hGx2 : ∀ x : Fin n → Fin dims.prod, (∑ k, F (outcomeRow dims (x k)) ^ 2) = ∑ k, G (x k) ^ 2 := by
    intro x; rw [hG]
  have hn0 : (n : ℝ) ≠ 0 := by linarith
  have hn1 : (n : ℝ) - 1 ≠ 0 := by linarith
  unfold iidMean variance
  rw [hm2, hμ]
  simp only [hPx, hGx, hGx2]
  generalize (∑ y, G y * P y) = μ at *
  generalize (∑ y, G y ^ 2 * P y) = m2 at *
  refine ⟨?_, ?_, ?_⟩
  · rw [← mul_right_inj' hn0, ← i1, mul_sum]
    refine sum_congr rfl fun x _ => ?_
    field_simp
  · have e : ∀ x : Fin n → Fin dims.prod, (∏ k, P (x k)) * ((∑ k, G (x k)) / n - μ) ^ 2
        = (∏ k, P (x k)) * (∑ k, G (x k)) ^ 2 * (1 / n ^ 2)
          - (∏ k, P (x k)) * (∑ k, G (x k)) * (2 * μ / n) + (∏ k, P (x k)) * μ ^ 2 := by
      intro x; field_simp; ring
    simp only [e, sum_add_distrib, sum_sub_distrib, ← sum_mul]
    rw [i2, i1, i0]
    field_simp
    ring
  · have e : ∀ x : Fin n → Fin dims.prod, (∏ k, P (x k)) * (((∑ k, G (x k) ^ 2) / n - ((∑ k, G (x k)) / n) ^ 2) / (n - 1))
        = (∏ k, P (x k)) * (∑ k, G (x k) ^ 2) * (1 / (n * (n - 1)))
          - (∏ k, P (x k)) * (∑ k, G (x k)) ^ 2 * (1 / (n ^ 2 * (n - 1))) := by
      intro x; field_simp
    simp only [e, sum_sub_distrib, ← sum_mul]
    rw [i2, i3]
    field_simp
    ring

/-! ### MP-POVM lists -/

theorem sumResults_scalar {l : List (ℝ × ℝ)} (hne : l ≠ []) :
    sumResults (l.map fun q => (scalarArr q.1, scalarArr q.2)) = .ok ((l.map Prod.fst).sum, (l.map Prod.snd).sum) := by
  unfold sumResults
  rw [show pyGuard _ PyErr.value = .ok () from if_pos (by simpa using hne), ok_bind, List.map_map, List.map_map]
  rfl

theorem mapM_scalar {α : Type} {f : α → Py (NDArray ℝ × NDArray ℝ)} {g : α → ℝ × ℝ} : ∀ {l : List α},
    (∀ a ∈ l, f a = .ok (scalarArr (g a).1, scalarArr (g a).2)) →
    l.mapM f = .ok ((l.map g).map fun q => (scalarArr q.1, scalarArr q.2)) := by
  intro l
  induction l with
  | nil => intro _; rfl
  | cons a l ih =>
    intro h
    rw [List.mapM_cons, h a (by simp), ok_bind, ih fun b hb => h b (by simp [hb])]
    rfl

/-- One term of a list estimate: outcome dimensions, probabilities (or samples), coefficients, functions. -/
theorem C47_list_lfun (l : List (List ℕ × NDArray ℝ × NDArray ℝ × Option (List OutFun))) (hne : l ≠ [])
    (eps : ℝ) (heps : 0 ≤ eps)
    (h : ∀ q ∈ l, nsDims q.1 ≠ [] ∧ q.2.1.shape = nsDims q.1 ∧ (∀ y, InB y (nsDims q.1) → 0 ≤ q.2.1.get y) ∧
      sumIdx (nsDims q.1) q.2.1.get = 1 ∧ q.2.2.1.shape = [(theFuns (nsDims q.1) q.2.2.2).length]) :
    lfunList (l.map fun q => (q.1, .ok q.2.1)) (l.map fun q => q.2.2.1) (some (l.map fun q => q.2.2.2)) eps
      = .ok ((l.map fun q => expect (nsDims q.1) q.2.1.get (linComb (nsDims q.1) q.2.2.1 q.2.2.2)).sum,
          (l.map fun q => variance (nsDims q.1) q.2.1.get (linComb (nsDims q.1) q.2.2.1 q.2.2.2)).sum) := by
  unfold lfunList
  simp only [Option.getD_some]
  rw [pyAssert_true (by simp), ok_bind, pyAssert_true (by simp), ok_bind]
  have hz : (l.map fun q => (q.1, (Except.ok q.2.1 : Py (NDArray ℝ)))).zip
      ((l.map fun q => q.2.2.1).zip (l.map fun q => q.2.2.2)) = l.map fun q => ((q.1, .ok q.2.1), (q.2.2.1, q.2.2.2)) := by
    rw [List.zip_map', List.zip_map']
  rw [hz, List.mapM_map, mapM_scalar (g := fun q => (expect (nsDims q.1) q.2.1.get (linComb (nsDims q.1) q.2.2.1 q.2.2.2),
    variance (nsDims q.1) q.2.1.get (linComb (nsDims q.1) q.2.2.1 q.2.2.2))), ok_bind, sumResults_scalar (by simpa using hne),
    List.map_map, List.map_map]
  · rfl
  · intro q hq
    obtain ⟨h0, h1, h2, h3, h4⟩ := h q hq
    exact C47_lfun q.1 q.2.1 q.2.2.1 q.2.2.2 eps heps h0 h1 h2 h3 h4

/-- C47: `MPPovmList.est_lfun` returns the sum of the (unweighted) estimates and of the variances. -/
theorem C47_list_est_lfun (l : List (List ℕ × NDArray ℝ × Option (List OutFun) × NDArray ℤ × ℕ)) (hne : l ≠ [])
    (weights : Option (List (NDArray ℝ))) (eps : ℝ)
    (h : ∀ q ∈ l, (q.2.2.1 = none → nsDims q.1 ≠ []) ∧ q.2.2.2.1.shape = [q.2.2.2.2, (nsDims q.1).length] ∧ 2 ≤ q.2.2.2.2 ∧
      q.2.1.shape = [(theFuns (nsDims q.1) q.2.2.1).length]) :
    estLfunList (l.map fun q => q.1) (l.map fun q => q.2.1) (some (l.map fun q => q.2.2.1)) (l.map fun q => q.2.2.2.1)
        weights eps
      = .ok ((l.map fun q => sampleMean q.2.2.2.2 (sampleRow q.2.2.2.1) (fun _ => 1) (linComb (nsDims q.1) q.2.1 q.2.2.1)).sum,
          (l.map fun q => (sampleMean q.2.2.2.2 (sampleRow q.2.2.2.1) (fun _ => 1) (fun y => linComb (nsDims q.1) q.2.1 q.2.2.1 y ^ 2)
            - sampleMean q.2.2.2.2 (sampleRow q.2.2.2.1) (fun _ => 1) (linComb (nsDims q.1) q.2.1 q.2.2.1) ^ 2)
            / ((q.2.2.2.2 : ℝ) - 1)).sum) := by
  unfold estLfunList
  simp only [Option.getD_some]
  rw [pyAssert_true (by simp), ok_bind, pyAssert_true (by simp), ok_bind, pyAssert_true (by simp), ok_bind]
  have hz : (l.map fun q => q.1).zip ((l.map fun q => q.2.1).zip ((l.map fun q => q.2.2.1).zip (l.map fun q => q.2.2.2.1)))
      = l.map fun q => (q.1, q.2.1, q.2.2.1, q.2.2.2.1) := by
    rw [List.zip_map', List.zip_map', List.zip_map']
  rw [hz, List.mapM_map, mapM_scalar (g := fun q => (sampleMean q.2.2.2.2 (sampleRow q.2.2.2.1) (fun _ => 1) (linComb (nsDims q.1) q.2.1 q.2.2.1),
    (sampleMean q.2.2.2.2 (sampleRow q.2.2.2.1) (fun _ => 1) (fun y => linComb (nsDims q.1) q.2.1 q.2.2.1 y ^ 2)
            - sampleMean q.2.2.2.2 (sampleRow q.2.2.2.1) (fun _ => 1) (linComb (nsDims q.1) q.2.1 q.2.2.1) ^ 2)
            / ((q.2.2.2.2 : ℝ) - 1))), ok_bind, sumResults_scalar (by simpa using hne),
    List.map_map, List.map_map]
  · rfl
  · intro q hq
    obtain ⟨h0, h1, h2, h3⟩ := h q hq
    exact C47_est_lfun q.1 q.2.1 q.2.2.1 q.2.2.2.2 q.2.2.2.1 none (1 / 10 ^ 10) (by positivity) h0 h1 h3 (by simp)
      (by simp [totalWeight]; omega)

/-- Outcome dimension two; four samples `0, 0, 0, 1`. -/
def exSam : NDArray ℤ := ⟨[4, 1], fun i => if i.getD 0 0 = 3 then 1 else 0⟩

/-- The weights `3, 3, 3, 1`. -/
def exWeights : NDArray ℝ := ⟨[4], fun i => if i.getD 0 0 = 3 then 1 else 3⟩

/-- Coefficients which select the probability of outcome one. -/
def exCoeff : NDArray ℝ := ⟨[2], fun i => if i.getD 0 0 = 1 then 1 else 0⟩

theorem exCoeff_lin (y : List ℤ) : linComb (nsDims [2]) exCoeff none y = if y = [1] then 1 else 0 := by
  have h2 : nsDims [2] = [2] := by decide
  rw [h2]
  unfold linComb theFuns
  simp [List.range_succ, sum_range_succ, exCoeff]

/-- C47, deviation from the documentation: `MPPovmList.est_lfun(..., weights=...)` does not pass the weights
to the MP-POVMs.  With the weights `3, 3, 3, 1` the estimate of the probability of outcome one is `1/10` for
the MP-POVM, but the list with this single MP-POVM returns `1/4`. -/
theorem C47_list_weights_ignored :
    (∃ v, estLfun [2] (some exCoeff) none exSam (some exWeights) (1 / 10 ^ 10) = .ok (scalarArr (1 / 10), scalarArr v)) ∧
    ∃ v, estLfunList [[2]] [exCoeff] none [exSam] (some [exWeights]) (1 / 10 ^ 10) = .ok (1 / 4, v) := by
  have h2 : nsDims [2] = [2] := by decide
  have hc : exCoeff.shape = [(theFuns (nsDims [2]) none).length] := by simp [exCoeff, theFuns, h2]
  have hrow : ∀ k < 4, sampleRow exSam k = if k = 3 then [1] else [0] := by
    intro k hk
    unfold sampleRow exSam
    simp [List.range_succ]
    split_ifs <;> rfl
  constructor
  · have hX := (C47_est_lfun [2] exCoeff none 4 exSam (some exWeights) (1 / 10 ^ 10) (by positivity)
      (by simp [h2]) (by rw [h2]; rfl) hc
      (by
        intro w hw
        obtain rfl := Option.some.inj hw
        refine ⟨rfl, fun m _ => ?_⟩
        simp only [exWeights]
        split_ifs <;> norm_num)
      (by
        simp only [totalWeight, exWeights, Option.map_some, Option.getD_some, sum_range_succ, sum_range_zero]
        norm_num))
    have : sampleMean 4 (sampleRow exSam) (weightOf (some exWeights)) (linComb (nsDims [2]) exCoeff none) = 1 / 10 := by
      unfold sampleMean
      simp only [sum_range_succ, sum_range_zero, exCoeff_lin]
      rw [hrow 0 (by norm_num), hrow 1 (by norm_num), hrow 2 (by norm_num), hrow 3 (by norm_num)]
      simp only [weightOf, exWeights, Option.map_some, Option.getD_some]
      norm_num
    rw [this] at hX
    exact ⟨_, hX⟩
  · have := C47_list_est_lfun [([2], exCoeff, none, exSam, 4)] (by simp) (some [exWeights]) (1 / 10 ^ 10) (by
      intro q hq
      obtain rfl := List.mem_singleton.1 hq
      exact ⟨by simp [h2], by simp [h2, exSam], by norm_num, hc⟩)
    simp only [List.map_cons, List.map_nil, List.sum_cons, List.sum_nil, add_zero] at this
    have h4 : sampleMean 4 (sampleRow exSam) (fun _ => 1) (linComb (nsDims [2]) exCoeff none) = 1 / 4 := by
      unfold sampleMean
      simp only [sum_range_succ, sum_range_zero, exCoeff_lin]
      rw [hrow 0 (by norm_num), hrow 1 (by norm_num), hrow 2 (by norm_num), hrow 3 (by norm_num)]
      norm_num
    rw [h4] at this
    exact ⟨_, this⟩

/-- The hypotheses of `C47_lfun` are met: two outcomes of probabilities 1/4 and 3/4, and the probability of outcome one. -/
example : ∃ p : NDArray ℝ, nsDims [2] ≠ [] ∧ p.shape = nsDims [2] ∧ (∀ y, InB y (nsDims [2]) → 0 ≤ p.get y) ∧ sumIdx (nsDims [2]) p.get = 1 ∧
    exCoeff.shape = [(theFuns (nsDims [2]) none).length] := by
  have h2 : nsDims [2] = [2] := by decide
  refine ⟨⟨[2], fun i => if i = [0] then 1 / 4 else 3 / 4⟩, by rw [h2]; simp, by rw [h2], fun y _ => ?_, ?_, by simp [exCoeff, theFuns, h2]⟩
  · show (0 : ℝ) ≤ if y = [0] then 1 / 4 else 3 / 4
    split <;> norm_num
  · rw [h2]
    simp [sumIdx, sum_range_succ]
    norm_num

end Mpnum
