import Verif.Np.Basic
import Mathlib.Data.Complex.Basic

/-! # Model of mpnum/utils/pmf.py

Numbers are exact.  `values` is an array of complex or of real dtype. -/

open Finset Classical

namespace Mpnum

/-- The argument `values`: its dtype kind is complex (`'c'`) or real. -/
inductive PmfArg
  | cplx (a : NDArray ℂ)
  | real (a : NDArray ℝ)

/-- `values.shape` -/
def PmfArg.shape : PmfArg → List ℕ
  | .cplx a => a.shape
  | .real a => a.shape

/-- Entry of the argument, as a complex number. -/
def PmfArg.get : PmfArg → List ℕ → ℂ
  | .cplx a => a.get
  | .real a => fun i => (a.get i : ℂ)

/-- mpnum/utils/pmf.py:29-31: `if values.dtype.kind == 'c': assert (abs(values.imag) <=
imag_eps).all(); values = values.real.copy()`. -/
noncomputable def realPart (v : PmfArg) (imagEps : ℝ) : Py (NDArray ℝ) :=
  match v with
  | .real a => .ok a
  | .cplx a => do
    pyAssert (∀ idx, InB idx a.shape → |(a.get idx).im| ≤ imagEps)
    .ok ⟨a.shape, fun idx => (a.get idx).re⟩

/-- mpnum/utils/pmf.py:5-37 `project_nonneg`.  The result is the returned array together with the
content of the caller's argument after the call: arrays of real type with at least one axis are
modified in place (line 36); complex arrays are copied (line 31) and 0-d values are not modified.
Simplification: the 0-d result (line 34) is returned as 0-d array. -/
noncomputable def projectNonneg (v : PmfArg) (imagEps realEps realTrunc : ℝ) :
    Py (NDArray ℝ) × PmfArg :=
  match realPart v imagEps with
  | .error e => (.error e, v)
  | .ok a =>
    if ∀ idx, InB idx a.shape → -realEps ≤ a.get idx then
      let b : NDArray ℝ := ⟨a.shape, fun idx => if a.get idx ≤ realTrunc then 0 else a.get idx⟩
      (.ok b, match v with
        | .real a => if a.ndim = 0 then .real a else .real b
        | .cplx a => .cplx a)
    else (.error .assertion, v)

/-- mpnum/utils/pmf.py:40-53 `project_pmf`.  As in `projectNonneg`, the second component is the
content of the caller's argument after the call (line 52, `values /= s`, is in place).
In the 0-d case, line 34 may return a Python float without a method `sum` (AttributeError, here
`.type`); it does so exactly if the value was truncated.  The division is only meaningful if
`s ≠ 0` (numpy returns `nan` otherwise); no theorem speaks about `s = 0`. -/
noncomputable def projectPmf (v : PmfArg) (imagEps realEps realTrunc : ℝ) :
    Py (NDArray ℝ) × PmfArg :=
  match projectNonneg v imagEps realEps realTrunc with
  | (.error e, w) => (.error e, w)
  | (.ok b, w) =>
    if b.ndim = 0 ∧ ∀ a, realPart v imagEps = .ok a → a.get [] ≤ realTrunc then (.error .type, w)
    else
      let s := sumIdx b.shape b.get
      if |s - 1| ≤ realEps then
        let c : NDArray ℝ := ⟨b.shape, fun idx => b.get idx / s⟩
        (.ok c, match w with
          | .real a => if a.ndim = 0 then .real a else .real c
          | .cplx a => .cplx a)
      else (.error .assertion, w)

end Mpnum
