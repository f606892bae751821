import Verif.Povm.LfunFromLemmas

/-! # C58: linear functions of probabilities from the probabilities or samples of other POVMs

The POVMs `ts` have the coefficients `t.coeff`: wanted is the sum of `coeff(Y) * p(Y)` over all POVMs `t` and all
outcomes `Y`.  The POVMs `os` are measured.  `t.est os D eps o W` is the function of the outcome `W` of the POVM
`o` that is averaged. -/

open Finset Classical

namespace Mpnum

/-- Arguments of `lfun_from` and `est_lfun_from`. -/
structure LfArgs (ts : List LfTarget) (os : List LfOther) (D : List ℕ) : Prop where
  args : ∀ t ∈ ts, ∀ o ∈ os, EstArgs t.povm o.povm t.dims o.dims D
  coeff : ∀ t ∈ ts, t.coeff.shape = nsDims t.dims
  weight : ∀ o ∈ os, 0 < o.weight
  ne : os ≠ []
  ne' : ts ≠ []

theorem LfArgs.self {ts : List LfTarget} {os : List LfOther} {D : List ℕ} (h : LfArgs ts os D) :
    ∀ t ∈ ts, IsMpPovm t.povm t.dims D := by
  intro t ht
  obtain ⟨o, ho⟩ := List.exists_mem_of_ne_nil _ h.ne
  exact (h.args t ht o ho).self

theorem LfArgs.pos {ts : List LfTarget} {os : List LfOther} {D : List ℕ} (h : LfArgs ts os D) :
    ∀ t ∈ ts, ∀ o ∈ t.dims, 0 < o := by
  intro t ht
  obtain ⟨o, ho⟩ := List.exists_mem_of_ne_nil _ h.ne
  exact (h.args t ht o ho).posO

theorem LfArgs.other {ts : List LfTarget} {os : List LfOther} {D : List ℕ} (h : LfArgs ts os D) :
    ∀ o ∈ os, IsMpPovm o.povm o.dims D := by
  intro o ho
  obtain ⟨t, ht⟩ := List.exists_mem_of_ne_nil _ h.ne'
  exact (h.args t ht o ho).other

theorem LfArgs.pos' {ts : List LfTarget} {os : List LfOther} {D : List ℕ} (h : LfArgs ts os D) :
    ∀ o ∈ os, ∀ d ∈ o.dims, 0 < d := by
  intro o ho
  obtain ⟨t, ht⟩ := List.exists_mem_of_ne_nil _ h.ne'
  exact (h.args t ht o ho).posO'

/-- Specification: a probability with a coefficient that is not zero has no matching element in any POVM. -/
def Missing (ts : List LfTarget) (os : List LfOther) (D : List ℕ) (eps : ℝ) : Prop :=
  ∃ t ∈ ts, ∃ Y, InB Y t.dims ∧ t.coeff.get (squeezeIdx t.dims Y) ≠ 0 ∧
    ∀ o ∈ os, ∀ Z, InB Z (keptDims t.dims o.dims) →
      ¬ MatchTol eps D (t.povm.elem Y) (o.povm.coarseElem t.dims o.dims Z)

theorem total_eq_zero {t : LfTarget} {os : List LfOther} {D : List ℕ} {eps : ℝ} {Y : List ℕ}
    (hw : ∀ o ∈ os, 0 < o.weight) : t.total os D eps Y = 0 ↔ ∀ o ∈ os, ∀ Z, InB Z (keptDims t.dims o.dims) →
      ¬ MatchTol eps D (t.povm.elem Y) (o.povm.coarseElem t.dims o.dims Z) := by
  unfold LfTarget.total
  rw [List.sum_eq_zero_iff]
  simp only [List.mem_map, forall_exists_index, and_imp, forall_apply_eq_imp_iff₂, mul_eq_zero]
  refine forall₂_congr fun o ho => ?_
  have : o.weight ≠ 0 := (hw o ho).ne'
  simp only [this, false_or]
  unfold matches_
  rw [Finset.card_eq_zero, Finset.filter_eq_empty_iff]
  exact ⟨fun h Z hZ => h (mem_idxSet.2 hZ), fun h Z hZ => h Z (mem_idxSet.1 hZ)⟩

/-- Specification: the function of the outcome `W` of the POVM `o`. -/
noncomputable def estFn (ts : List LfTarget) (os : List LfOther) (D : List ℕ) (eps : ℝ) (o : LfOther) (W : List ℕ) : ℝ :=
  (ts.map fun t => t.est os D eps o W).sum

/-- Specification: expectation value of the function `f` of all outcomes. -/
def meanOf (O : List ℕ) (p : NDArray ℝ) (f : List ℕ → ℝ) : ℝ := sumIdx O fun W => f W * p.get (squeezeIdx O W)

theorem expect_meanOf {O : List ℕ} (hO : ∀ o ∈ O, 0 < o) (p : NDArray ℝ) (f : OutFun) (g : List ℕ → ℝ)
    (h : ∀ W, InB W O → f ((squeezeIdx O W).map fun z : ℕ => (z : ℤ)) = g W) : expect (nsDims O) p.get f = meanOf O p g := by
  unfold expect meanOf
  rw [sumIdx_squeeze hO]
  exact sumIdx_congr fun W hW => by rw [h W hW]

theorem sumResults_ok {α : Type} {l : List α} (h : l ≠ []) (f g : α → ℝ) :
    sumResults (l.map fun a => (scalarArr (f a), scalarArr (g a))) = .ok ((l.map f).sum, (l.map g).sum) := by
  unfold sumResults pyGuard
  rw [if_pos (by simpa using h), ok_bind]
  simp [scalarArr, List.map_map, Function.comp_def]

/-- C58: `lfun_from(other, coeff, state, other_weights)` returns the expectation value and the variance of the
estimator, `nan` exactly if a probability that is needed cannot be obtained.  The weights are natural numbers. -/
theorem C58_lfun_from (ts : List LfTarget) (os : List LfOther) (D : List ℕ) (ha : LfArgs ts os D)
    (p : LfOther → NDArray ℝ) (hp : ∀ o ∈ os, nsDims o.dims ≠ [] ∧ (p o).shape = nsDims o.dims ∧
      (∀ z, InB z (nsDims o.dims) → 0 ≤ (p o).get z) ∧ sumIdx (nsDims o.dims) (p o).get = 1)
    (ws : Option (List ℝ)) (hws : ws = some (os.map fun o => (o.weight : ℝ)) ∨ (ws = none ∧ ∀ o ∈ os, o.weight = 1))
    (eps : ℝ) (heps : 0 ≤ eps) :
    (Missing ts os D eps → lfunFrom (ts.map LfTarget.povm) (os.map fun o => (o.povm, .ok (p o))) (ts.map LfTarget.coeff) ws eps
      = .ok none) ∧
    (¬ Missing ts os D eps → lfunFrom (ts.map LfTarget.povm) (os.map fun o => (o.povm, .ok (p o))) (ts.map LfTarget.coeff) ws eps
      = .ok (some ((os.map fun o => meanOf o.dims (p o) (estFn ts os D eps o)).sum,
          (os.map fun o => meanOf o.dims (p o) (fun W => estFn ts os D eps o W ^ 2)
            - meanOf o.dims (p o) (estFn ts os D eps o) ^ 2).sum))) := by
  obtain ⟨fs, n, h1, h2, h3⟩ := lfunEstimator_ok ha.args ha.self ha.coeff heps ha.weight
  have hw : ws.getD (List.replicate (os.map fun o => (o.povm, (Except.ok (p o) : Py (NDArray ℝ)))).length 1)
      = os.map fun o => (o.weight : ℝ) := by
    rcases hws with rfl | ⟨rfl, h⟩
    · rfl
    · rw [Option.getD_none, List.length_map]
      refine List.ext_getElem (by simp) fun k _ hk => ?_
      rw [List.getElem_map, h _ (List.getElem_mem _)]
      simp
  have hmiss : Insufficient n (ts.map LfTarget.coeff) ↔ Missing ts os D eps := by
    rw [insufficient_iff ha.pos h2]
    unfold Missing
    simp only [total_eq_zero ha.weight]
  unfold lfunFrom
  rw [hw, List.map_map]
  simp only [Function.comp_def]
  rw [h1, ok_bind]
  constructor
  · intro h
    simp only
    rw [if_pos (hmiss.2 h)]
    rfl
  · intro h
    simp only
    rw [if_neg fun h' => h (hmiss.1 h')]
    have key : ((os.map fun o => (o.povm, (Except.ok (p o) : Py (NDArray ℝ)))).zip fs).mapM (fun q => do
        if ∃ f ∈ q.2, f.2 = none then
          let _ ← q.1.2
          .error .assertion
        else lfun q.1.1.outdims q.1.2 (some (coeffArr q.2)) (some (q.2.map Prod.fst)) eps)
        = .ok (os.map fun o => (scalarArr (meanOf o.dims (p o) (estFn ts os D eps o)),
            scalarArr (meanOf o.dims (p o) (fun W => estFn ts os D eps o W ^ 2)
              - meanOf o.dims (p o) (estFn ts os D eps o) ^ 2))) := by
      have hz : ∀ {os : List LfOther} {fs : List (List (OutFun × Option ℝ))},
          (∀ o ∈ os, nsDims o.dims ≠ [] ∧ (p o).shape = nsDims o.dims ∧ (∀ z, InB z (nsDims o.dims) → 0 ≤ (p o).get z) ∧
            sumIdx (nsDims o.dims) (p o).get = 1 ∧ o.povm.outdims = o.dims ∧ ∀ d ∈ o.dims, 0 < d) →
          ∀ {g : LfOther → List ℕ → ℝ}, List.Forall₂ (fun o l => (∀ f ∈ l, f.2 ≠ none) ∧ ∀ W, InB W o.dims →
            fnValue l ((squeezeIdx o.dims W).map fun z : ℕ => (z : ℤ)) = g o W) os fs →
          ((os.map fun o => (o.povm, (Except.ok (p o) : Py (NDArray ℝ)))).zip fs).mapM (fun q => do
            if ∃ f ∈ q.2, f.2 = none then
              let _ ← q.1.2
              .error .assertion
            else lfun q.1.1.outdims q.1.2 (some (coeffArr q.2)) (some (q.2.map Prod.fst)) eps)
            = .ok (os.map fun o => (scalarArr (meanOf o.dims (p o) (g o)),
                scalarArr (meanOf o.dims (p o) (fun W => g o W ^ 2) - meanOf o.dims (p o) (g o) ^ 2))) := by
        intro os fs hos g h
        induction h with
        | nil => rfl
        | @cons o l os fs hol _ ih =>
          obtain ⟨q0, q1, q2, q3, q4, q5⟩ := hos o (by simp)
          rw [List.map_cons, List.zip_cons_cons, List.mapM_cons, if_neg (by
            rintro ⟨f, hf, h0⟩
            exact hol.1 f hf h0)]
          simp only
          rw [q4, C47_lfun o.dims (p o) (coeffArr l) (some (l.map Prod.fst)) eps heps q0 q1 q2 q3 (by
              simp [coeffArr, theFuns]), ok_bind, ih fun o' ho' => hos o' (by simp [ho']), ok_bind, List.map_cons]
          have e1 := expect_meanOf q5 (p o) (linComb (nsDims o.dims) (coeffArr l) (some (l.map Prod.fst))) (g o)
            fun W hW => by rw [linComb_fnValue, hol.2 W hW]
          have e2 := expect_meanOf q5 (p o) (fun y => linComb (nsDims o.dims) (coeffArr l) (some (l.map Prod.fst)) y ^ 2)
            (fun W => g o W ^ 2) fun W hW => by rw [linComb_fnValue, hol.2 W hW]
          unfold variance
          rw [e1, e2]
          rfl
      exact hz (fun o ho => ⟨(hp o ho).1, (hp o ho).2.1, (hp o ho).2.2.1, (hp o ho).2.2.2, (ha.other o ho).outdims, ha.pos' o ho⟩) h3
    rw [key, ok_bind, sumResults_ok ha.ne, ok_bind]
    rfl

/-! ### The value -/

theorem list_sum_sub {α : Type} (l : List α) (f g : α → ℝ) :
    (l.map fun a => f a - g a).sum = (l.map f).sum - (l.map g).sum := by
  induction l with
  | nil => simp
  | cons a l ih => rw [List.map_cons, List.sum_cons, ih, List.map_cons, List.sum_cons, List.map_cons, List.sum_cons]; ring

/-- The expectation value of the contribution of the POVM `o` to the estimate for `t`. -/
theorem mean_est {t : LfTarget} {os : List LfOther} {o : LfOther} {D : List ℕ} {eps : ℝ}
    (ha : EstArgs t.povm o.povm t.dims o.dims D) {ρ : List ℕ → List ℕ → ℂ} {p : NDArray ℝ}
    (hP : OutcomeDist o.dims D o.povm.elem ρ p.get) :
    meanOf o.dims p (t.est os D eps o)
      = sumIdx t.dims fun Y => t.coeff.get (squeezeIdx t.dims Y) * (o.weight * (sumIdx (keptDims t.dims o.dims) fun Z =>
          factorTol eps D (t.povm.elem Y) (o.povm.coarseElem t.dims o.dims Z)
            * (bornRule D (o.povm.coarseElem t.dims o.dims Z) ρ).re) / t.total os D eps Y) := by
  unfold meanOf LfTarget.est
  have h1 : ∀ Y, (sumIdx (keptDims t.dims o.dims) fun Z =>
          factorTol eps D (t.povm.elem Y) (o.povm.coarseElem t.dims o.dims Z)
            * (bornRule D (o.povm.coarseElem t.dims o.dims Z) ρ).re)
      = sumIdx o.dims fun W => factorTol eps D (t.povm.elem Y) (o.povm.coarseElem t.dims o.dims (keepOut t.dims W))
          * p.get (squeezeIdx o.dims W) := by
    intro Y
    obtain ⟨F, hF⟩ : ∃ F : List ℕ → ℝ, F = fun Z => factorTol eps D (t.povm.elem Y) (o.povm.coarseElem t.dims o.dims Z) := ⟨_, rfl⟩
    rw [sumIdx_eq_sum, sumIdx_eq_sum]
    have e5 : ∀ Z ∈ idxSet (keptDims t.dims o.dims), factorTol eps D (t.povm.elem Y) (o.povm.coarseElem t.dims o.dims Z)
          * (bornRule D (o.povm.coarseElem t.dims o.dims Z) ρ).re
        = ∑ W ∈ idxSet o.dims, if keepOut t.dims W = Z then F (keepOut t.dims W) * (bornRule D (o.povm.elem W) ρ).re else 0 := by
      intro Z hZ
      rw [born_coarse ha.lenO (mem_idxSet.1 hZ), Complex.re_sum, Finset.mul_sum]
      refine Finset.sum_congr rfl fun W _ => ?_
      by_cases h : keepOut t.dims W = Z
      · rw [if_pos h, if_pos h, h, hF]
      · rw [if_neg h, if_neg h]; simp
    rw [Finset.sum_congr rfl e5, Finset.sum_comm]
    refine Finset.sum_congr rfl fun W hW => ?_
    rw [Finset.sum_ite_eq, if_pos (mem_idxSet.2 (keepOut_inB ha.lenO (mem_idxSet.1 hW))), hF,
      ← hP.born W (mem_idxSet.1 hW), Complex.ofReal_re]
  simp only [h1, sumIdx_eq_sum, Finset.sum_mul]
  rw [Finset.sum_comm]
  refine Finset.sum_congr rfl fun Y _ => ?_
  rw [Finset.mul_sum, Finset.sum_div, Finset.mul_sum]
  exact Finset.sum_congr rfl fun W _ => by ring

/-- Specification: the wanted linear function of the probabilities. -/
noncomputable def wanted (ts : List LfTarget) (D : List ℕ) (ρ : List ℕ → List ℕ → ℂ) : ℝ :=
  (ts.map fun t => sumIdx t.dims fun Y => t.coeff.get (squeezeIdx t.dims Y) * (bornRule D (t.povm.elem Y) ρ).re).sum

theorem list_sum_comm {α β : Type} (l : List α) (m : List β) (f : α → β → ℝ) :
    (l.map fun a => (m.map fun b => f a b).sum).sum = (m.map fun b => (l.map fun a => f a b).sum).sum := by
  induction l with
  | nil => simp
  | cons a l ih => simp [ih, List.sum_map_add]

theorem list_abs_sum_le {α : Type} (l : List α) (f g : α → ℝ) (h : ∀ a ∈ l, |f a| ≤ g a) :
    |(l.map f).sum| ≤ (l.map g).sum := by
  induction l with
  | nil => simp
  | cons a l ih =>
    rw [List.map_cons, List.sum_cons, List.map_cons, List.sum_cons]
    exact (abs_add_le _ _).trans (add_le_add (h a (by simp)) (ih fun b hb => h b (by simp [hb])))

theorem sumIdx_list_comm {α : Type} (s : List ℕ) (l : List α) (f : α → List ℕ → ℝ) :
    (l.map fun a => sumIdx s (f a)).sum = sumIdx s fun z => (l.map fun a => f a z).sum := by
  induction l with
  | nil => simp [sumIdx_eq_sum]
  | cons a l ih =>
    rw [List.map_cons, List.sum_cons, ih, sumIdx_eq_sum, sumIdx_eq_sum, sumIdx_eq_sum, ← Finset.sum_add_distrib]
    rfl

theorem list_sum_div {α : Type} (l : List α) (f : α → ℝ) (c : ℝ) :
    (l.map fun a => f a / c).sum = (l.map f).sum / c := by
  induction l with
  | nil => simp
  | cons a l ih => rw [List.map_cons, List.sum_cons, ih, List.map_cons, List.sum_cons, add_div]

/-- If every probability from a matching element differs by at most `δ` from the wanted probability, then the value
differs by at most `Σ |coeff| δ`. -/
theorem value_close (ts : List LfTarget) (os : List LfOther) (D : List ℕ) (ha : LfArgs ts os D) (eps : ℝ)
    (hm : ¬ Missing ts os D eps) (ρ : List ℕ → List ℕ → ℂ) (p : LfOther → NDArray ℝ)
    (hP : ∀ o ∈ os, OutcomeDist o.dims D o.povm.elem ρ (p o).get) (δ : LfTarget → List ℕ → ℝ)
    (hδ : ∀ t ∈ ts, ∀ o ∈ os, ∀ Y Z, InB Y t.dims → InB Z (keptDims t.dims o.dims) →
      MatchTol eps D (t.povm.elem Y) (o.povm.coarseElem t.dims o.dims Z) →
      |√(hsNormSq D (t.povm.elem Y) / hsNormSq D (o.povm.coarseElem t.dims o.dims Z))
          * (bornRule D (o.povm.coarseElem t.dims o.dims Z) ρ).re - (bornRule D (t.povm.elem Y) ρ).re| ≤ δ t Y) :
    |(os.map fun o => meanOf o.dims (p o) (estFn ts os D eps o)).sum - wanted ts D ρ|
      ≤ (ts.map fun t => sumIdx t.dims fun Y => |t.coeff.get (squeezeIdx t.dims Y)| * δ t Y).sum := by
  have h1 : (os.map fun o => meanOf o.dims (p o) (estFn ts os D eps o)).sum
      = (ts.map fun t => (os.map fun o => meanOf o.dims (p o) (t.est os D eps o)).sum).sum := by
    rw [list_sum_comm]
    refine congrArg _ (List.map_congr_left fun o _ => ?_)
    unfold meanOf estFn
    rw [sumIdx_list_comm]
    exact sumIdx_congr fun W _ => by rw [List.sum_map_mul_right]
  have h2 : (os.map fun o => meanOf o.dims (p o) (estFn ts os D eps o)).sum - wanted ts D ρ
      = (ts.map fun t => (os.map fun o => meanOf o.dims (p o) (t.est os D eps o)).sum
          - sumIdx t.dims fun Y => t.coeff.get (squeezeIdx t.dims Y) * (bornRule D (t.povm.elem Y) ρ).re).sum := by
    rw [h1, wanted, list_sum_sub]
  rw [h2]
  refine list_abs_sum_le _ _ _ fun t ht => ?_
  rw [List.map_congr_left fun o ho => mean_est (ha.args t ht o ho) (hP o ho), sumIdx_list_comm,
    sumIdx_eq_sum, sumIdx_eq_sum, sumIdx_eq_sum, ← Finset.sum_sub_distrib]
  refine (Finset.abs_sum_le_sum_abs _ _).trans (Finset.sum_le_sum fun Y hY => ?_)
  have hY := mem_idxSet.1 hY
  rw [List.sum_map_mul_left, list_sum_div, ← mul_sub, abs_mul]
  by_cases hc : t.coeff.get (squeezeIdx t.dims Y) = 0
  · simp [hc]
  refine mul_le_mul_of_nonneg_left ?_ (abs_nonneg _)
  have ht0 : t.total os D eps Y ≠ 0 := fun h => hm ⟨t, ht, Y, hY, hc, (total_eq_zero ha.weight).1 h⟩
  have ht1 : (0 : ℝ) < t.total os D eps Y := by exact_mod_cast Nat.pos_of_ne_zero ht0
  obtain ⟨B, hB⟩ : ∃ B, B = (bornRule D (t.povm.elem Y) ρ).re := ⟨_, rfl⟩
  have h3 : (t.total os D eps Y : ℝ) = (os.map fun o => (o.weight : ℝ) * matches_ eps t.povm o.povm t.dims o.dims D Y).sum := by
    unfold LfTarget.total
    rw [Nat.cast_list_sum, List.map_map]
    refine congrArg _ (List.map_congr_left fun o _ => ?_)
    simp
  rw [← hB]
  have h4 : (os.map fun o => (o.weight : ℝ) * (sumIdx (keptDims t.dims o.dims) fun Z =>
          factorTol eps D (t.povm.elem Y) (o.povm.coarseElem t.dims o.dims Z)
            * (bornRule D (o.povm.coarseElem t.dims o.dims Z) ρ).re)).sum / t.total os D eps Y - B
      = (os.map fun o => (o.weight : ℝ) * ((sumIdx (keptDims t.dims o.dims) fun Z =>
          factorTol eps D (t.povm.elem Y) (o.povm.coarseElem t.dims o.dims Z)
            * (bornRule D (o.povm.coarseElem t.dims o.dims Z) ρ).re)
            - matches_ eps t.povm o.povm t.dims o.dims D Y * B)).sum / t.total os D eps Y := by
    rw [div_sub' ht1.ne']
    congr 1
    simp only [mul_sub]
    rw [list_sum_sub, h3, ← List.sum_map_mul_right]
    simp only [mul_assoc]
  rw [h4, abs_div, abs_of_pos ht1, div_le_iff₀ ht1, mul_comm, h3, ← List.sum_map_mul_right]
  refine list_abs_sum_le _ _ _ fun o ho => ?_
  rw [abs_mul, Nat.abs_cast, mul_assoc]
  refine mul_le_mul_of_nonneg_left ?_ (Nat.cast_nonneg _)
  have e1 : (sumIdx (keptDims t.dims o.dims) fun Z => factorTol eps D (t.povm.elem Y) (o.povm.coarseElem t.dims o.dims Z)
        * (bornRule D (o.povm.coarseElem t.dims o.dims Z) ρ).re)
      = ∑ Z ∈ (idxSet (keptDims t.dims o.dims)).filter fun Z => MatchTol eps D (t.povm.elem Y) (o.povm.coarseElem t.dims o.dims Z),
          factorTol eps D (t.povm.elem Y) (o.povm.coarseElem t.dims o.dims Z)
            * (bornRule D (o.povm.coarseElem t.dims o.dims Z) ρ).re := by
    rw [sumIdx_eq_sum, Finset.sum_filter]
    refine Finset.sum_congr rfl fun Z _ => ?_
    split
    · rfl
    · rename_i h; unfold factorTol; rw [if_neg h, zero_mul]
  unfold matches_
  rw [e1, ← nsmul_eq_mul, ← nsmul_eq_mul, ← Finset.sum_const, ← Finset.sum_const, ← Finset.sum_sub_distrib]
  refine (Finset.abs_sum_le_sum_abs _ _).trans (Finset.sum_le_sum fun Z hZ => ?_)
  obtain ⟨hZ, hmt⟩ := Finset.mem_filter.1 hZ
  unfold factorTol
  rw [if_pos hmt, hB]
  exact hδ t ht o ho Y Z hY (mem_idxSet.1 hZ) hmt

/-- C58: if elements that match are proportional, the expectation value is the wanted function of the probabilities. -/
theorem C58_value (ts : List LfTarget) (os : List LfOther) (D : List ℕ) (ha : LfArgs ts os D) (eps : ℝ)
    (hm : ¬ Missing ts os D eps) (ρ : List ℕ → List ℕ → ℂ) (p : LfOther → NDArray ℝ)
    (hP : ∀ o ∈ os, OutcomeDist o.dims D o.povm.elem ρ (p o).get)
    (hprop : ∀ t ∈ ts, ∀ o ∈ os, ∀ Y Z, InB Y t.dims → InB Z (keptDims t.dims o.dims) →
      MatchTol eps D (t.povm.elem Y) (o.povm.coarseElem t.dims o.dims Z) →
      ∃ a : ℝ, 0 < a ∧ ∀ I J, InB I D → InB J D → t.povm.elem Y I J = a * o.povm.coarseElem t.dims o.dims Z I J) :
    (os.map fun o => meanOf o.dims (p o) (estFn ts os D eps o)).sum = wanted ts D ρ := by
  have h := value_close ts os D ha eps hm ρ p hP (fun _ _ => 0) fun t ht o ho Y Z hY hZ hmt => by
    obtain ⟨a, ha0, hprop⟩ := hprop t ht o ho Y Z hY hZ hmt
    have e1 : hsNormSq D (t.povm.elem Y) = a ^ 2 * hsNormSq D (o.povm.coarseElem t.dims o.dims Z) := by
      unfold hsNormSq
      simp only [sumIdx_eq_sum, Finset.mul_sum]
      refine Finset.sum_congr rfl fun I hI => Finset.sum_congr rfl fun J hJ => ?_
      rw [hprop I J (mem_idxSet.1 hI) (mem_idxSet.1 hJ), norm_mul, mul_pow, Complex.norm_real, Real.norm_of_nonneg ha0.le]
    rw [e1, mul_div_assoc, div_self ((ha.args t ht o ho).elems' Z hZ).ne', mul_one, Real.sqrt_sq ha0.le,
      ← Complex.re_ofReal_mul]
    refine le_of_eq (abs_eq_zero.2 (sub_eq_zero.2 (congrArg _ ?_)))
    unfold bornRule
    simp only [sumIdx_eq_sum, Finset.mul_sum]
    refine Finset.sum_congr rfl fun I hI => Finset.sum_congr rfl fun J hJ => ?_
    rw [hprop I J (mem_idxSet.1 hI) (mem_idxSet.1 hJ), mul_assoc]
  simp only [mul_zero] at h
  have h0 : (ts.map fun t => sumIdx t.dims fun _ => (0 : ℝ)).sum = 0 := by simp [sumIdx_eq_sum]
  rw [h0] at h
  exact sub_eq_zero.1 (abs_nonpos_iff.1 h)

/-- C58: for any positive elements, the expectation value is the wanted function of the probabilities up to the
tolerance of the comparison. -/
theorem C58_value_close (ts : List LfTarget) (os : List LfOther) (D : List ℕ) (ha : LfArgs ts os D) (eps : ℝ)
    (hm : ¬ Missing ts os D eps) (ρ : List ℕ → List ℕ → ℂ) (p : LfOther → NDArray ℝ)
    (hP : ∀ o ∈ os, OutcomeDist o.dims D o.povm.elem ρ (p o).get)
    (hx : ∀ t ∈ ts, ∀ Y, InB Y t.dims → Psd D (t.povm.elem Y))
    (hy : ∀ t ∈ ts, ∀ o ∈ os, ∀ Z, InB Z (keptDims t.dims o.dims) → Psd D (o.povm.coarseElem t.dims o.dims Z)) :
    |(os.map fun o => meanOf o.dims (p o) (estFn ts os D eps o)).sum - wanted ts D ρ|
      ≤ (ts.map fun t => sumIdx t.dims fun Y => |t.coeff.get (squeezeIdx t.dims Y)|
          * √(2 * eps * hsNormSq D (t.povm.elem Y) * hsNormSq D ρ)).sum := by
  refine value_close ts os D ha eps hm ρ p hP (fun t Y => √(2 * eps * hsNormSq D (t.povm.elem Y) * hsNormSq D ρ)) ?_
  intro t ht o ho Y Z hY hZ hmt
  have hmm : Matches [] [] D (fun _ => t.povm.elem Y) (fun _ => o.povm.coarseElem t.dims o.dims Z) eps ⟨[], fun _ => true⟩
      ⟨[], fun _ => some √(hsNormSq D (t.povm.elem Y) / hsNormSq D (o.povm.coarseElem t.dims o.dims Z))⟩ :=
    ⟨rfl, rfl, fun _ _ _ _ => by simpa [MatchTol] using hmt, fun _ _ _ _ => by simp⟩
  obtain ⟨c, -, h1, h2⟩ := C56_match_close [] [] D _ _ eps _ _ hmm [] [] .nil .nil (hx t ht Y hY) (hy t ht o ho Z hZ)
    ((ha.args t ht o ho).elems Y hY) ((ha.args t ht o ho).elems' Z hZ) rfl
  obtain rfl : √(hsNormSq D (t.povm.elem Y) / hsNormSq D (o.povm.coarseElem t.dims o.dims Z)) = c := by simpa using h1
  have h3 := C56_match_probability D (t.povm.elem Y) (o.povm.coarseElem t.dims o.dims Z) ρ _ _ h2
  refine Real.abs_le_sqrt (le_trans ?_ h3)
  rw [← sq_abs, ← abs_neg]
  refine pow_le_pow_left₀ (abs_nonneg _) ?_ 2
  refine le_trans (le_of_eq ?_) (Complex.abs_re_le_norm _)
  congr 1
  simp

end Mpnum
