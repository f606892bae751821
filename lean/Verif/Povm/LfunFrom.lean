import Verif.Povm.EstFrom
import Verif.Povm.Lfun

/-! # Model of `lfun_from` and `est_lfun_from` of mpnum/povm/mppovm.py -/

open Finset Classical

namespace Mpnum

/-- Assignment of a floating point number to an element of an integer array (numpy drops the fraction). -/
noncomputable def truncInt (x : ℝ) : ℤ := if 0 ≤ x then ⌊x⌋ else ⌈x⌉

/-- mppovm.py:1001-1003: the function which compares the outcomes on the sites in `supp` with `out`. -/
noncomputable def matchFun (supp : List ℕ) (out : List ℕ) : OutFun := fun s =>
  if (supp.map fun p => s.getD p 0) = out.map fun z : ℕ => (z : ℤ) then 1 else 0

/-- One function of the estimator: the function, the outcome of `self`, its weight and the coefficient before the
division by the total weight. -/
structure LfunTerm where
  fn : OutFun
  myout : List ℕ
  weight : ℝ
  c : ℝ

/-- mppovm.py:991-1016: the functions for one of the other MP-POVMs -/
noncomputable def lfunTerms (self other : MPA ℂ) (w : ℝ) (coeff : NDArray ℝ) (eps : ℝ) : Py (List LfunTerm) := do
  let (m, f) ← matchElems self other [] eps
  let nOut := (nsDims self.outdims).length
  let supp := otherSupport self.outdims other.outdims
  pyAssert (m.ndim = nOut + supp.length)
  return (argwhere m).map fun o =>
    ⟨matchFun supp (o.drop nOut), o.take nOut, w, coeff.get (o.take nOut) * w * (f.get o).getD 0⟩

/-- `myout_n_samples[my_out] += n_sam` (mppovm.py:1007) for all functions; the array holds integers. -/
noncomputable def countSamples (ts : List LfunTerm) (i : List ℕ) : ℤ :=
  ts.foldl (fun n t => if t.myout = i then truncInt (n + t.weight) else n) 0

/-- mppovm.py:955-1020 `MPPovm._mppl_lfun_estimator`: the functions and coefficients for each of the other MP-POVMs,
and the number of samples for each outcome.  `none` stands for a coefficient which is not a number (division by
zero). -/
noncomputable def lfunEstimatorOne (self : MPA ℂ) (others : List (MPA ℂ)) (ws : List ℝ) (coeff : NDArray ℝ) (eps : ℝ) :
    Py (List (List (OutFun × Option ℝ)) × NDArray ℤ) := do
  pyAssert (coeff.shape = nsDims self.outdims)
  let terms ← (others.zip ws).mapM fun q => lfunTerms self q.1 q.2 coeff eps
  let n := countSamples terms.flatten
  return (terms.map fun ts => ts.map fun t => (t.fn, if n t.myout = 0 then none else some (t.c / n t.myout)),
    ⟨nsDims self.outdims, n⟩)

/-- mppovm.py:1439-1467 `MPPovmList._lfun_estimator` -/
noncomputable def lfunEstimator (selfs others : List (MPA ℂ)) (coeff : List (NDArray ℝ)) (ws : List ℝ) (eps : ℝ) :
    Py (List (List (OutFun × Option ℝ)) × List (NDArray ℤ)) := do
  pyAssert (ws.length = others.length)
  pyAssert (coeff.length = selfs.length)
  let parts ← (coeff.zip selfs).mapM fun q => lfunEstimatorOne q.2 others ws q.1 eps
  return (parts.foldl (fun acc p => List.zipWith (· ++ ·) acc p.1) (List.replicate others.length []), parts.map Prod.snd)

/-- mppovm.py:1499 and 1530: a probability which is needed has no samples. -/
def Insufficient (n : List (NDArray ℤ)) (coeff : List (NDArray ℝ)) : Prop :=
  ∃ q ∈ n.zip coeff, ∃ i, InB i q.1.shape ∧ q.2.get i ≠ 0 ∧ q.1.get i = 0

/-- `np.array(c, float)` -/
def coeffArr (l : List (OutFun × Option ℝ)) : NDArray ℝ :=
  ⟨[l.length], fun i => ((l.map Prod.snd).getD (i.getD 0 0) none).getD 0⟩

/-- mppovm.py:1469-1504 `MPPovmList.lfun_from`.  One of the other MP-POVMs is given together with the result of its
`pmf_as_array(state, mode, eps)`.  `none` stands for `(nan, nan)`.  If a coefficient is not a number, the assertion
on the variance in `lfun` fails. -/
noncomputable def lfunFrom (selfs : List (MPA ℂ)) (others : List (MPA ℂ × Py (NDArray ℝ))) (coeff : List (NDArray ℝ))
    (weights : Option (List ℝ)) (eps : ℝ) : Py (Option (ℝ × ℝ)) := do
  let ws := weights.getD (List.replicate others.length 1)
  let (fs, n) ← lfunEstimator selfs (others.map Prod.fst) coeff ws eps
  if Insufficient n coeff then return none
  let rs ← (others.zip fs).mapM fun q => do
    if ∃ f ∈ q.2, f.2 = none then
      let _ ← q.1.2
      .error .assertion
    else lfun q.1.1.outdims q.1.2 (some (coeffArr q.2)) (some (q.2.map Prod.fst)) eps
  return some (← sumResults rs)

/-- mppovm.py:1506-1535 `MPPovmList.est_lfun_from`.  A coefficient is not a number only if that MP-POVM has no
samples; then `est_lfun` raises a `ZeroDivisionError` for any coefficients. -/
noncomputable def estLfunFrom (selfs others : List (MPA ℂ)) (coeff : List (NDArray ℝ)) (samples : List (NDArray ℤ))
    (eps : ℝ) : Py (Option (ℝ × ℝ)) := do
  let ws := samples.map fun s => ((s.shape.headD 0 : ℕ) : ℝ)
  let (fs, n) ← lfunEstimator selfs others coeff ws eps
  if Insufficient n coeff then return none
  let rs ← (fs.zip (samples.zip others)).mapM fun q =>
    estLfun q.2.2.outdims (some (coeffArr q.1)) (some (q.1.map Prod.fst)) q.2.1 none eps
  return some (← sumResults rs)

end Mpnum
