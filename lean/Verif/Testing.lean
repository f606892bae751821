import Verif.Utils.ExtMath
import Verif.MPArray.ToArray

/-!
# Model of /repo/mpnum/_testing.py -/

open Finset

namespace Mpnum

variable {𝕜 : Type} [RCLike 𝕜]

/-- `numpy.testing.assert_array_almost_equal(x, y, decimal)` for arrays with at least one axis: the shapes must agree and
every pair of entries must satisfy `abs(desired - actual) < 1.5 * 10**(-decimal)`.  The default is `decimal=6`. -/
def AlmostEqual (x y : NDArray 𝕜) (decimal : ℕ := 6) : Prop :=
  x.shape = y.shape ∧ ∀ i, InB i x.shape → ‖y.get i - x.get i‖ < 1.5 * (10 : ℝ) ^ (-(decimal : ℤ))

/-- `numpy.testing.assert_array_equal(x, y)` for arrays with at least one axis -/
def ArrayEqual (x y : NDArray 𝕜) : Prop := x.shape = y.shape ∧ ∀ i, InB i x.shape → x.get i = y.get i

/-- `np.identity(n)` -/
def npIdentity (n : ℕ) : NDArray 𝕜 := ⟨[n, n], fun i => if i.getD 0 0 = i.getD 1 0 then 1 else 0⟩

open Classical in
/-- `_assert_lcanonical(ltens)` (_testing.py:40-44) -/
noncomputable def assertLcanonical (ltens : NDArray 𝕜) : Py Unit := do
  let a ← ltens.reshape [(ltens.shape.dropLast.prod : ℤ), (ltens.shape.getLastD 0 : ℤ)]
  let prod := opMul (opAdj a) a
  pyAssert (AlmostEqual prod (npIdentity (prod.shape.getD 0 0)))

open Classical in
/-- `_assert_rcanonical(ltens)` (_testing.py:47-51) -/
noncomputable def assertRcanonical (ltens : NDArray 𝕜) : Py Unit := do
  let a ← ltens.reshape [(ltens.shape.getD 0 0 : ℤ), (ltens.shape.tail.prod : ℤ)]
  let prod := opMul a (opAdj a)
  pyAssert (AlmostEqual prod (npIdentity (prod.shape.getD 0 0)))

/-- `if target is not None: assert_equal(value, target)` (_testing.py:79-82) -/
def assertTarget (value : ℤ) : Option ℤ → Py Unit
  | none => .ok ()
  | some target => pyAssert (value = target)

/-- `assert_correct_normalization(mpa, lcanon_target, rcanon_target)` (_testing.py:54-82) for an `MPArray` or its
local tensors -/
noncomputable def assertCorrectNormalization (x : MPA 𝕜) (lTarget rTarget : Option ℤ) : Py Unit := do
  (pyRange 0 x.l 1).forM fun n => do
    let t ← x.site n
    assertLcanonical t
  (pyRange x.r x.len 1).forM fun n => do
    let t ← x.site n
    assertRcanonical t
  assertTarget x.l lTarget
  assertTarget x.r rTarget

open Classical in
/-- `assert_mpa_almost_equal(mpa1, mpa2, full)` (_testing.py:13-19) with the default `decimal` -/
noncomputable def assertMpaAlmostEqual (x y : MPA 𝕜) (full : Bool) : Py Unit :=
  if full then do
    let a ← x.toArray
    let b ← y.toArray
    pyAssert (AlmostEqual a b)
  else .error .notImplemented

open Classical in
/-- `assert_mpa_identical(mpa1, mpa2, decimal)` (_testing.py:22-35); `none` stands for `np.infty`.  The comparison of the
dtypes is left out. -/
noncomputable def assertMpaIdentical (x y : MPA 𝕜) (decimal : Option ℕ) : Py Unit := do
  pyAssert (x.len = y.len)
  pyAssert (x.l = y.l ∧ x.r = y.r)
  (x.lt.zip y.lt).forM fun p =>
    match decimal with
    | none => pyAssert (ArrayEqual p.1 p.2)
    | some d => pyAssert (AlmostEqual p.1 p.2 d)

/-- `u * s` for a matrix and a vector -/
def mulCols (u : NDArray 𝕜) (s : List ℝ) : NDArray 𝕜 := ⟨u.shape, fun i => u.get i * ((s.getD (i.getD 1 0) 0 : ℝ) : 𝕜)⟩

/-- `singlecut` (_testing.py:98-113) with both projectors; the target rank is not negative. -/
def singlecut (svd : SVD 𝕜) (array : NDArray 𝕜) (nrLeft targetRank : ℕ) : Py (NDArray 𝕜 × NDArray 𝕜 × NDArray 𝕜) := do
  let a ← array.reshape [((array.shape.take nrLeft).prod : ℤ), -1]
  let usv := thinSvd svd a
  let u := usv.1.cols targetRank
  let s := usv.2.1.take targetRank
  let vt := usv.2.2.rows targetRank
  let opt ← (opMul (mulCols u s) vt).reshape (array.shape.map fun d : ℕ => (d : ℤ))
  return (opt, opMul u (opAdj u), opMul (opAdj vt) vt)

/-- The loop of `compression_svd` (_testing.py:122-124) -/
def compressionLoop (svd : SVD 𝕜) (rank : ℕ) : List ℕ → NDArray 𝕜 → List (NDArray 𝕜 × NDArray 𝕜) →
    Py (NDArray 𝕜 × List (NDArray 𝕜 × NDArray 𝕜))
  | [], array, projectors => .ok (array, projectors)
  | k :: ks, array, projectors => do
    let (a, p) ← singlecut svd array k rank
    compressionLoop svd rank ks a (projectors ++ [p])

/-- `compression_svd(array, rank, direction, retproj=True)` (_testing.py:85-129).  `projectors.reverse()` reverses the
list in place and returns `None`, so that `projectors` is `None` if the direction is not `'right'`.  With
`retproj=False` the first component is returned. -/
def compressionSvd (svd : SVD 𝕜) (array : NDArray 𝕜) (rank : ℕ) (direction : Dir) :
    Py (NDArray 𝕜 × Option (List (NDArray 𝕜 × NDArray 𝕜))) := do
  let n := array.ndim
  let ks := match direction with
    | .right => List.range' 1 (n - 1)
    | _ => (List.range (n - 1)).map fun j => n - 1 - j
  let (a, ps) ← compressionLoop svd rank ks array []
  match direction with
  | .right => return (a, some ps)
  | _ => return (a, none)

/-- `random_lowrank(rows, cols, rank, randstate, dtype)` (_testing.py:133-145): `A` and `B` are the random matrices of
the shapes `(rows, rank)` and `(cols, rank)`.  If the product vanishes numpy divides `0` by `0`. -/
noncomputable def randomLowrank (dtype : Dtype) (A B : NDArray 𝕜) : Py (NDArray 𝕜) :=
  match dtype with
  | .other => .error .value
  | _ =>
    let C := opMul A (opAdj B)
    let nrm := Real.sqrt (sumIdx C.shape fun i => ‖C.get i‖ ^ 2)
    if nrm = 0 then .error .zeroDiv else .ok ⟨C.shape, fun i => C.get i / ((nrm : ℝ) : 𝕜)⟩

/-- `random_fullrank(rows, cols, ...)` (_testing.py:148-152) -/
noncomputable def randomFullrank (dtype : Dtype) (rows cols : ℕ) (draw : ℕ → ℕ → NDArray 𝕜) : Py (NDArray 𝕜) :=
  randomLowrank dtype (draw rows (min rows cols)) (draw cols (min rows cols))

end Mpnum
