import Verif.Povm.Samples
import Mathlib.Data.Real.Basic

/-! # Model of the linear functional estimators of mpnum/povm/mppovm.py

A function of POVM outcomes is passed to the code as a function of an array whose rows are outcomes and
must return the array of function values; here it is a function of one outcome which is applied to all
rows.  Scalars are arrays of shape `()`. -/

open Finset Classical

namespace Mpnum

/-- A function of POVM outcomes. -/
abbrev OutFun := List ℤ → ℝ

/-- A scalar. -/
def scalarArr (x : ℝ) : NDArray ℝ := ⟨[], fun _ => x⟩

/-- The array `np.array(np.unravel_index(range(n_out), dims)).T` of all outcomes, row `m`. -/
def outcomeRow (dims : List ℕ) (m : ℕ) : List ℤ := (unravelIdx dims m).map fun n : ℕ => (n : ℤ)

/-- mpnum/povm/mppovm.py:863-867 and 938-941: the values of all functions on `n` rows. -/
def funOut (fs : List OutFun) (n : ℕ) (row : ℕ → List ℤ) : NDArray ℝ :=
  ⟨[fs.length, n], fun i => (fs.getD (i.getD 0 0) fun _ => 0) (row (i.getD 1 0))⟩

/-- mpnum/povm/mppovm.py:859-869: the values of all functions on all outcomes. -/
def funTable (dims : List ℕ) (funs : Option (List OutFun)) : NDArray ℝ :=
  match funs with
  | some fs => funOut fs dims.prod (outcomeRow dims)
  | none => ⟨[dims.prod, dims.prod], fun i => if i.getD 0 0 = i.getD 1 0 then 1 else 0⟩

/-- mpnum/povm/mppovm.py:907-912: the functions used for `funs=None`. -/
noncomputable def indicatorFuns (dims : List ℕ) : List OutFun :=
  (List.range dims.prod).map fun pos s => if s = outcomeRow dims pos then 1 else 0

/-- mpnum/povm/mppovm.py:878-885 and 951-958: the result for given expectation values and covariance. -/
noncomputable def lfunResult (coeff : Option (NDArray ℝ)) (k : ℕ) (ept cov : NDArray ℝ) (eps : ℝ) :
    Py (NDArray ℝ × NDArray ℝ) := do
  match coeff with
  | none => .ok (ept, cov)
  | some c =>
    let est := ∑ i ∈ range k, c.get [i] * ept.get [i]
    let varEst := ∑ i ∈ range k, c.get [i] * ∑ j ∈ range k, cov.get [i, j] * c.get [j]
    pyAssert (-eps ≤ varEst)
    .ok (scalarArr est, scalarArr (if varEst < 0 then 0 else varEst))

/-- mpnum/povm/mppovm.py:834-885 `MPPovm.lfun`; `pmf` is the result of `self.pmf_as_array`.
If there are no sites with several outcomes, then `np.prod(())` is the floating point number `1.0` and both `range`
and `np.eye` raise `TypeError`. -/
noncomputable def lfun (outdims : List ℕ) (pmf : Py (NDArray ℝ)) (coeff : Option (NDArray ℝ))
    (funs : Option (List OutFun)) (eps : ℝ) : Py (NDArray ℝ × NDArray ℝ) := do
  if (∃ c, coeff = some c ∧ c.shape.headD 0 = 0) ∨ funs = some [] then
    .ok (scalarArr 0, scalarArr 0)
  else
    let pmf ← pmf
    let dims := nsDims outdims
    pyGuard (dims ≠ []) .type
    let nOut := dims.prod
    let fo := funTable dims funs
    let k := fo.shape.headD 0
    pyAssert (∀ c, coeff = some c → c.shape = [k])
    let p : ℕ → ℝ := fun m => pmf.get (unravelIdx pmf.shape m)
    let ept : NDArray ℝ := ⟨[k], fun i => ∑ m ∈ range nOut, fo.get [i.getD 0 0, m] * p m⟩
    let cov : NDArray ℝ := ⟨[k, k], fun i =>
      (∑ m ∈ range nOut, fo.get [i.getD 0 0, m] * (fo.get [i.getD 1 0, m] * p m))
        - ept.get [i.getD 0 0] * ept.get [i.getD 1 0]⟩
    lfunResult coeff k ept cov eps

/-- mpnum/povm/mppovm.py:925-936 `n_avg_samples` -/
noncomputable def totalWeight (n : ℕ) (weights : Option (NDArray ℝ)) : ℝ :=
  (weights.map fun w => ∑ m ∈ range n, w.get [m]).getD n

/-- The weight of sample `m` (one without weights). -/
def weightOf (weights : Option (NDArray ℝ)) (m : ℕ) : ℝ := (weights.map fun w => w.get [m]).getD 1

/-- mpnum/povm/mppovm.py:942-944: sample averages of the functions. -/
noncomputable def estEpt (fo : NDArray ℝ) (n : ℕ) (weights : Option (NDArray ℝ)) : NDArray ℝ :=
  ⟨[fo.shape.headD 0], fun i => (∑ m ∈ range n, fo.get [i.getD 0 0, m] * weightOf weights m) / totalWeight n weights⟩

/-- mpnum/povm/mppovm.py:945-950: estimated covariance matrix of the averages. -/
noncomputable def estCov (fo : NDArray ℝ) (n : ℕ) (weights : Option (NDArray ℝ)) (ept : NDArray ℝ) : NDArray ℝ :=
  ⟨[fo.shape.headD 0, fo.shape.headD 0], fun i =>
    ((∑ m ∈ range n, fo.get [i.getD 0 0, m] * (fo.get [i.getD 1 0, m] * weightOf weights m)) / totalWeight n weights
      - ept.get [i.getD 0 0] * ept.get [i.getD 1 0])
      * ((totalWeight n weights / (totalWeight n weights - 1)) / totalWeight n weights)⟩

/-- mpnum/povm/mppovm.py:887-958 `MPPovm.est_lfun`.  Without weights the number of samples is a Python
integer and division by zero raises an exception (no sample or one sample).  With weights it is a numpy
number: then the values `0` and `1` give `nan` or `inf`, which is not modelled (theorems exclude them).
For `funs=None` and no sites with several outcomes, `range(1.0)` raises `TypeError`. -/
noncomputable def estLfun (outdims : List ℕ) (coeff : Option (NDArray ℝ)) (funs : Option (List OutFun))
    (samples : NDArray ℤ) (weights : Option (NDArray ℝ)) (eps : ℝ) : Py (NDArray ℝ × NDArray ℝ) := do
  let dims := nsDims outdims
  let n := samples.shape.getD 0 0
  pyGuard (funs = none → dims ≠ []) .type
  let fs := funs.getD (indicatorFuns dims)
  let fo := funOut fs n (sampleRow samples)
  let k := fo.shape.headD 0
  pyAssert (∀ c, coeff = some c → c.shape.length = 1)
  pyAssert (∀ c, coeff = some c → c.shape.headD 0 = k)
  pyAssert (samples.ndim = 2)
  pyAssert (samples.shape.getD 1 0 = dims.length)
  pyAssert (∀ w, weights = some w → w.shape = [n])
  pyAssert (∀ w, weights = some w → ∀ m < n, 0 ≤ w.get [m])
  pyGuard (weights = none → n ≠ 0 ∧ n ≠ 1) .zeroDiv
  let ept := estEpt fo n weights
  lfunResult coeff k ept (estCov fo n weights ept) eps

/-- `est, var = zip(*results); return sum(est), sum(var)` for scalar results. -/
noncomputable def sumResults (rs : List (NDArray ℝ × NDArray ℝ)) : Py (ℝ × ℝ) := do
  pyGuard (rs ≠ []) .value
  .ok ((rs.map fun r => r.1.get []).sum, (rs.map fun r => r.2.get []).sum)

/-- mpnum/povm/mppovm.py:1393-1412 `MPPovmList.lfun`; an MP-POVM is given by its outcome dimensions and
the result of its `pmf_as_array(state)`. -/
noncomputable def lfunList (mpps : List (List ℕ × Py (NDArray ℝ))) (coeff : List (NDArray ℝ))
    (funs : Option (List (Option (List OutFun)))) (eps : ℝ) : Py (ℝ × ℝ) := do
  let funs := funs.getD (List.replicate mpps.length none)
  pyAssert (mpps.length = coeff.length)
  pyAssert (mpps.length = funs.length)
  let rs ← (mpps.zip (coeff.zip funs)).mapM fun q => lfun q.1.1 q.1.2 (some q.2.1) q.2.2 eps
  sumResults rs

/-- mpnum/povm/mppovm.py:1414-1440 `MPPovmList.est_lfun`: `weights` and `eps` are not used. -/
noncomputable def estLfunList (mpps : List (List ℕ)) (coeff : List (NDArray ℝ))
    (funs : Option (List (Option (List OutFun)))) (samples : List (NDArray ℤ))
    (_weights : Option (List (NDArray ℝ)) := none) (_eps : ℝ := 1 / 10 ^ 10) : Py (ℝ × ℝ) := do
  let funs := funs.getD (List.replicate mpps.length none)
  pyAssert (mpps.length = coeff.length)
  pyAssert (mpps.length = funs.length)
  pyAssert (mpps.length = samples.length)
  let rs ← (mpps.zip (coeff.zip (funs.zip samples))).mapM fun q =>
    estLfun q.1 (some q.2.1) q.2.2.1 q.2.2.2 none (1 / 10 ^ 10)
  sumResults rs

end Mpnum
