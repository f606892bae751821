import Verif.MPArray.Compress
import Verif.MPArray.Reshape
import Verif.MPArray.Add

/-!
# Model of /repo/mpnum/special.py
-/

open Finset

namespace Mpnum

variable {R : Type}

/-- `t[0, :, 0].conj()` (special.py:35, 37) for a tensor with three axes; the two outer ones are not empty. -/
def midConj [Star R] (t : NDArray R) : NDArray R := ⟨t.ph, fun p => star (t.at3 0 p 0)⟩

/-- `np.dot(a, b)` of a vector and an array with three axes: contraction with the second axis of `b`
(special.py:35, 37).  `ValueError` if the dimensions differ. -/
def dotVec3 [AddCommMonoid R] [Mul R] (a b : NDArray R) : Py (NDArray R) := a.tensordot b [-1] [1]

/-- The loop of `inner_prod_mps` (special.py:36-37).  `zip` stops at the end of the shorter sequence. -/
def innerProdLoop [AddCommMonoid R] [Mul R] [Star R] (res : NDArray R) : List (NDArray R) → List (NDArray R) → Py (NDArray R)
  | t :: ts, u :: us => do
    let m ← dotVec3 (midConj t) u
    let r ← matdot res m
    innerProdLoop r ts us
  | _, _ => .ok res

/-- `inner_prod_mps` (special.py:19-38).  `next` on an empty MPA is a `StopIteration`. -/
def innerProdMps [AddCommMonoid R] [Mul R] [Star R] (x y : MPA R) : Py R := do
  pyAssert (∀ r ∈ x.ranks, r = 1)
  pyAssert (∀ n ∈ x.ndims, n = 1)
  pyAssert (∀ n ∈ y.ndims, n = 1)
  match x.lt, y.lt with
  | t :: ts, u :: us => do
    let res ← dotVec3 (midConj t) u
    let r ← innerProdLoop res ts us
    .ok (r.get [0, 0])
  | _, _ => .error .stopIteration

/-- `scipy.sparse.csc_matrix((data, indices, indptr), shape)` as a matrix: the entries of column `j` are those
numbered `indptr[j], …, indptr[j + 1] - 1`. -/
def cscMatrix [AddCommMonoid R] (data : NDArray R) (indices indptr : List ℕ) (rows cols : ℕ) : NDArray R :=
  ⟨[rows, cols], fun ij => ∑ e ∈ Ico (indptr.getD (ij.getD 1 0) 0) (indptr.getD (ij.getD 1 0 + 1) 0),
    if indices.getD e 0 = ij.getD 0 0 then data.get [e] else 0⟩

/-- `a.ravel()` -/
def ravelA (a : NDArray R) : NDArray R := a.reshapeTo [a.shape.prod]

/-- `lt[None, :]` for a vector (special.py:121) -/
def rowVec (a : NDArray R) : NDArray R := ⟨1 :: a.shape, fun i => a.get i.tail⟩

/-- `_local_add_sparse` (special.py:108-125) for raveled tensors. -/
def localAddSparse [AddCommMonoid R] (ts : List (NDArray R)) : Py (NDArray R) := do
  let first ← ts.head?.elim (Except.error PyErr.index) Except.ok
  let dim := first.shape.headD 0
  let n := ts.length
  let indptr := List.range (n * dim + 1)
  let indices := (List.replicate dim (List.range n)).flatten
  let data ← NDArray.concatenate (ts.map rowVec) 0
  let data ← data.rollaxis 1 0
  .ok (cscMatrix (ravelA data) indices indptr n (dim * n))

variable {𝕜 : Type} [RCLike 𝕜]

/-- The loop over the inner sites and the last site (special.py:91-101): `m` sites remain in every iterator; `sv`
and `v` come from the previous step and `bond` is `ltens[-1].shape[-1]`.  Simplification: `rank` is a natural
number. -/
noncomputable def specialRest (f : SVDFunc 𝕜) (rank n : ℕ) :
    ℕ → List (List (NDArray 𝕜)) → List ℝ → NDArray 𝕜 → ℕ → Py (List (NDArray 𝕜))
  | 0, _, _, _, _ => .ok []
  | 1, its, sv, v, _ => do
    let hs ← nexts its
    let c ← NDArray.concatenate hs 0
    let c ← c.reshape [(n : ℤ), -1]
    let w ← (svCol sv sv.length).mulB v
    let c ← matdot w c
    let t ← c.reshape [(sv.length : ℤ), -1, 1]
    .ok [t]
  | m + 2, its, sv, v, bond => do
    let hs ← nexts its
    let c ← localAddSparse (hs.map ravelA)
    let w ← (svCol sv sv.length).mulB v
    let c ← matdot w c
    let c ← c.reshape [-1, (n : ℤ)]
    let rankT := min rank (min (c.shape.getD 0 0) (c.shape.getD 1 0))
    let c ← c.reshape [-1, (n : ℤ)]
    let t ← (f c rankT).1.reshape [(bond : ℤ), -1, (rankT : ℤ)]
    let ts ← specialRest f rank n (m + 1) (its.map List.tail) (f c rankT).2.1 (f c rankT).2.2 t.rb
    .ok (t :: ts)

/-- `sumup` for at least two sites (special.py:78-105) -/
noncomputable def specialMany (f : SVDFunc 𝕜) (mpas : List (MPA 𝕜)) (rank : ℕ) (weights : List 𝕜) (first : MPA 𝕜) :
    Py (MPA 𝕜) := do
  let n := mpas.length
  let hs ← nexts (mpas.map MPA.lt)
  let c ← concatLast (List.zipWith (fun w (t : NDArray 𝕜) => t.smul w) weights hs)
  let c ← c.reshape [-1, (n : ℤ)]
  let t ← (f c rank).1.reshape [1, -1, ((f c rank).2.1.length : ℤ)]
  let ts ← specialRest f rank n (first.len - 1) (mpas.map fun x => x.lt.tail) (f c rank).2.1 (f c rank).2.2 t.rb
  let y ← mkLT (t :: ts) (some ((t :: ts).length - 1)) none
  y.reshape (.list (first.shape.map fun s => s.map fun k : ℕ => (k : ℤ)))

/-- `special.sumup` (special.py:41-105).  `max(mpa.ranks)` is taken of MPAs with at least two sites only. -/
noncomputable def specialSumup (f : SVDFunc 𝕜) (mpas : List (MPA 𝕜)) (rank : ℕ) (weights : Option (List 𝕜)) : Py (MPA 𝕜) := do
  let first ← mpas.head?.elim (Except.error PyErr.index) Except.ok
  let ws := weights.getD (List.replicate mpas.length 1)
  pyAssert (∀ x ∈ mpas, x.len = first.len)
  pyAssert (ws.length = mpas.length)
  if first.len = 1 then
    let hs ← nexts (mpas.map MPA.lt)
    let s ← pySum (List.zipWith (fun w (t : NDArray 𝕜) => t.smul w) ws hs)
    mkMPA [s]
  else
    pyAssert (∀ x ∈ mpas, x.ranks.foldr max 0 = 1)
    specialMany f mpas rank ws first

end Mpnum
