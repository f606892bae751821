import Verif.Povm.MpPovm
import Verif.Povm.Samples
import Verif.MPArray.Pick
import Verif.MPArray.Sum
import Verif.MPArray.Prune
import Verif.Utils.Pmf
import Mathlib.Probability.ProbabilityMassFunction.Monad
import Mathlib.Probability.ProbabilityMassFunction.Constructions

/-!
# Model of the sampling functions of /repo/mpnum/povm/mppovm.py

A randomised Python function is a probability distribution (`PMF` of Mathlib) on results, where a
result is a value or an exception.  The generator `rng` is the ideal one: every call of `rng.choice`
draws independently of everything else.  Numbers are exact; the probabilities computed from matrix
products are complex numbers (an array of real type passes the check on the imaginary part as well).
-/

open Finset Classical

namespace Mpnum

/-- Distribution of the result of a randomised Python function. -/
abbrev Rand (α : Type) := ExceptT PyErr PMF α

/-- A deterministic step of a randomised function. -/
noncomputable def Rand.lift {α : Type} (x : Py α) : Rand α := ExceptT.mk (PMF.pure x)

/-- Probability that a randomised function returns `a`. -/
noncomputable def Rand.prob {α : Type} (m : Rand α) (a : α) : ENNReal := ExceptT.run m (.ok a)

/-- `n` independent runs of a randomised function. -/
noncomputable def Rand.times {α : Type} (m : Rand α) : ℕ → Rand (List α)
  | 0 => pure []
  | n + 1 => do
    let a ← m
    let as ← Rand.times m n
    return a :: as

/-- The weights of `rng.choice` as a distribution on the positions. -/
noncomputable def choicePMF (p : List ℝ) (h : (∀ a ∈ p, 0 ≤ a) ∧ p.sum = 1) : PMF ℕ :=
  PMF.ofFinset (fun c => ENNReal.ofReal (p.getD c 0)) (range p.length) (by
    rw [← ENNReal.ofReal_sum_of_nonneg]
    · have : ∑ c ∈ range p.length, p.getD c 0 = p.sum := by
        clear h
        induction p with
        | nil => rfl
        | cons a p ih => rw [List.length_cons, sum_range_succ', List.sum_cons, ← ih]; simp [add_comm]
      rw [this, h.2, ENNReal.ofReal_one]
    · intro c hc
      have hc : c < p.length := by simpa using hc
      rw [List.getD_eq_getElem?_getD, List.getElem?_eq_getElem hc]
      exact h.1 _ (List.getElem_mem _)) (by
    intro c hc
    have hc : p.length ≤ c := by simpa using hc
    simp [hc])

/-- `rng.choice(len(p), p=p)` of numpy: position `c` with probability `p[c]`.  `ValueError` for
negative probabilities or a sum different from one.  (numpy permits a small deviation of the sum;
here, the sum must be exact.) -/
noncomputable def rngChoice (p : List ℝ) : Rand ℕ :=
  if h : (∀ a ∈ p, 0 ≤ a) ∧ p.sum = 1 then ExceptT.mk ((choicePMF p h).map Except.ok)
  else Rand.lift (.error .value)

/-- `a.flat` (row-major order) -/
def NDArray.flatList {R : Type} (a : NDArray R) : List R :=
  (List.range a.size).map fun c => a.get (unravelIdx a.shape c)

/-- One site of `get` where the index is an integer or `slice(None)` (mparray.py:102). -/
def getMixedSite {R : Type} (t : NDArray R) : Option ℤ → Py (NDArray R)
  | some i => MPA.getSite t i
  | none => if t.ndim < 3 then .error .index else .ok t

/-- `MPArray.get` (mparray.py:90-102) for integers (`some i`) and full slices (`none`). -/
def MPA.getMixed {R : Type} (x : MPA R) (indices : List (Option ℤ)) : Py (MPA R) := do
  pyAssert (indices.length = x.len)
  let ts ← (indices.zip x.lt).mapM fun p => getMixedSite p.2 p.1
  mkMPA ts

/-- The result of `MPArray.sum` used as an array; the operations on numbers raise `TypeError` for an
MPA. -/
def asArray0 {R : Type} : NDArray R ⊕ MPA R → Py (NDArray R)
  | .inl a => .ok a
  | .inr _ => .error .type

/-- The result of `MPArray.sum` used as an MPA. -/
def asMpa {R : Type} : NDArray R ⊕ MPA R → Py (MPA R)
  | .inl _ => .error .type
  | .inr x => .ok x

/-- mppovm.py:697: `p.sum([()] * n + [(0,)])` -/
noncomputable def sumLast (n : ℕ) (p : MPA ℂ) : Py (NDArray ℂ ⊕ MPA ℂ) :=
  p.sum (.each (List.replicate n (some []) ++ [some [0]]))

/-- mppovm.py:693-700: `marginal_pmf[0]` and the list `marginal_pmf[1:]`, given
`marginal_pmf[n + 1] = p`.  If there are no outcomes (`p` has one site without legs), then line 697
sums over a virtual leg; the result is an MPA with a negative number of legs, and line 701 subtracts
a number from an MPA (`TypeError`). -/
noncomputable def marginalPmf : ℕ → MPA ℂ → Py (NDArray ℂ × List (MPA ℂ))
  | 0, p => do
    pyGuard (p.ndims.getLastD 0 ≠ 0) .type
    let a ← sumLast 0 p >>= asArray0
    return (a, [p])
  | n + 1, p => do
    let q ← sumLast (n + 1) p >>= asMpa
    let q ← prune q false
    let r ← marginalPmf n q
    return (r.1, r.2 ++ [p])

/-- One iteration of the loop mppovm.py:667-678, with the local variables `out`, `out_p`.  Here,
`ms = marginal_pmf[1:]` and `n = n_sites`. -/
noncomputable def condStep (ms : List (MPA ℂ)) (n : ℕ) (g : ℤ) (eps : ℝ) (st : List ℕ × ℝ) (nOut : ℤ) :
    Rand (List ℕ × ℝ) := do
  let stop := min (n : ℤ) (nOut + g)
  let k ← Rand.lift (pyIndex ms.length (stop - 1))
  let p := ms.getD k ⟨[], 0, 0⟩
  let q ← Rand.lift (p.getMixed ((st.1.take nOut.toNat).map (fun i : ℕ => some (i : ℤ)) ++
    List.replicate (p.len - nOut.toNat) none))
  let q ← Rand.lift (prune q false)
  let a ← Rand.lift q.toArray
  let w ← Rand.lift (projectPmf (.cplx ⟨a.shape, fun i => a.get i / (st.2 : ℂ)⟩) eps eps 0).1
  let c ← rngChoice w.flatList
  let i := unravelIdx w.shape c
  Rand.lift (pyGuard (i.length = min g.toNat (st.1.length - nOut.toNat)) .value)
  return (st.1.take nOut.toNat ++ i ++ st.1.drop (nOut + g).toNat, st.2 * w.get i)

/-- `MPPovm._sample_cond_single` (mppovm.py:659-681); the result is the row `out` of length `width`,
initially filled with 255 (line 752). -/
noncomputable def sampleCondSingle (ms : List (MPA ℂ)) (g : ℤ) (width : ℕ) (eps : ℝ) : Rand (List ℕ) := do
  let last := ms.getLastD ⟨[], 0, 0⟩
  Rand.lift (pyGuard (g ≠ 0) .value)
  let st ← (pyRange 0 last.len g).foldlM (condStep ms last.len g eps) (List.replicate width 255, (1 : ℝ))
  let q ← Rand.lift (last.get (st.1.map fun i : ℕ => (i : ℤ)))
  let a ← Rand.lift q.toArray
  Rand.lift (pyAssert (‖a.get [] - (st.2 : ℂ)‖ ≤ eps))
  return st.1

/-- mppovm.py:685-701: the marginal distributions used by conditional sampling. -/
noncomputable def condMarginals (qr : QR ℂ) (x state : MPA ℂ) (mode : PovmMode) (eps : ℝ) :
    Py (List (MPA ℂ)) := do
  let p ← povmPmf qr x state mode
  let pmf ← prune p.1 true
  let s ← pmf.sum .none >>= asArray0
  pyAssert (|(s.get []).im| ≤ eps)
  pyAssert (|1 - (s.get []).re| ≤ eps)
  let r ← marginalPmf (pmf.len - 1) pmf
  pyAssert (‖r.1.get [] - 1‖ ≤ eps)
  return r.2

/-- `MPPovm._sample_cond` (mppovm.py:683-703): the rows of `out`. -/
noncomputable def sampleCond (qr : QR ℂ) (x state : MPA ℂ) (mode : PovmMode) (nSamples : ℕ) (g : ℤ)
    (eps : ℝ) : Rand (List (List ℕ)) := do
  let ms ← Rand.lift (condMarginals qr x state mode eps)
  (sampleCondSingle ms g (nsDims x.outdims).length eps).times nSamples

/-- `MPPovm._sample_direct` (mppovm.py:705-710): the rows of `out`.  `np.unravel_index` of several
positions in an array without axes raises `ValueError`. -/
noncomputable def sampleDirect (qr : QR ℂ) (x state : MPA ℂ) (mode : PovmMode) (nSamples : ℕ) (eps : ℝ) :
    Rand (List (List ℕ)) := do
  let p ← Rand.lift (pmfAsArray qr x state mode eps .auto)
  let cs ← (rngChoice p.1.flatList).times nSamples
  Rand.lift (pyGuard (p.1.shape ≠ []) .value)
  return cs.map (unravelIdx p.1.shape)

/-- The argument `method` of `sample`. -/
inductive SampleMethod
  | cond | direct | other

/-- The result of `sample`: an array of rows or, if `pack` is given, an array of integers. -/
inductive SampleOut
  | rows (out : List (List ℕ))
  | packed (p : List ℤ)

/-- The array `out` with the given rows. -/
def rowsArray (width : ℕ) (rows : List (List ℕ)) : NDArray ℤ :=
  ⟨[rows.length, width], fun i => (((rows.getD (i.getD 0 0) []).getD (i.getD 1 0) 0 : ℕ) : ℤ)⟩

/-- mppovm.py:759-762: check and pack the rows.  `pack` is `none` (`False`) or `some` of the `dtype`
argument of `pack_samples`. -/
noncomputable def sampleFinish (outdims : List ℕ) (pack : Option (Option (ℤ × ℤ))) (rows : List (List ℕ)) :
    Py SampleOut := do
  pyAssert (∀ r ∈ rows, List.Forall₂ (· < ·) r (nsDims outdims))
  match pack with
  | none => return .rows rows
  | some dtype =>
    let p ← packSamples outdims (rowsArray (nsDims outdims).length rows) dtype
    return .packed ((List.range rows.length).map fun k => p.get [k])

/-- mppovm.py:753-758 -/
noncomputable def sampleRows (qr : QR ℂ) (x state : MPA ℂ) (nSamples : ℕ) (method : SampleMethod) (g : ℤ)
    (mode : PovmMode) (eps : ℝ) : Rand (List (List ℕ)) :=
  match method with
  | .cond => sampleCond qr x state mode nSamples g eps
  | .direct => sampleDirect qr x state mode nSamples eps
  | .other => Rand.lift (.error .value)

/-- `MPPovm.sample` (mppovm.py:712-762).  Outcomes are at most 254, so that the type `uint8` of `out`
stores them exactly.  The change of the canonical form of `state` is the one of `pmf` and
`pmf_as_array`. -/
noncomputable def povmSample (qr : QR ℂ) (x state : MPA ℂ) (nSamples : ℕ) (method : SampleMethod) (g : ℤ)
    (mode : PovmMode) (pack : Option (Option (ℤ × ℤ))) (eps : ℝ) : Rand SampleOut := do
  Rand.lift (pyAssert (x.len = state.len))
  Rand.lift (pyAssert (∀ d ∈ x.outdims, d ≤ 255))
  let rows ← sampleRows qr x state nSamples method g mode eps
  Rand.lift (sampleFinish x.outdims pack rows)

end Mpnum
