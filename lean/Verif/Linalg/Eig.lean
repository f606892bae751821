import Verif.Linalg.Contract
import Verif.Linalg.Sweep
import Verif.Factory

/-!
# Model of `eig` and `eig_sum` (/repo/mpnum/linalg.py)

All arrays are complex.  `eigs` is a parameter (its default is `scipy.sparse.linalg.eigsh`, linalg.py:446-447).
`var_sites` and `num_sweeps` are natural numbers.
-/

open Finset

namespace Mpnum

/-- The argument `eigs`: called as `eigs(op, v0=v0)`, it returns eigenvalues and eigenvectors or raises an exception. -/
abbrev EigsFun := NDArray ℂ → NDArray ℂ → Py (NDArray ℂ × NDArray ℂ)

/-- `a.flatten()` -/
def NDArray.flat {R : Type} (a : NDArray R) : NDArray R := a.reshapeTo [a.size]

/-- `max(lten.shape[0] for lten in eigvec_ltens)` (linalg.py:303) -/
def maxLeftBond {R : Type} : List (NDArray R) → Py ℕ
  | [] => .error .value
  | t :: ts => .ok ((ts.map NDArray.lb).foldl max t.lb)

/-- The eigenvector returned by `eigs` as a vector, after the checks of linalg.py:308-316. -/
def eigsVector (eigval eigvec : NDArray ℂ) : Py (NDArray ℂ) :=
  if eigvec.ndim = 1 then
    if eigval.size = 1 then .ok eigvec else .error .value
  else if eigvec.ndim = 2 then
    if eigval.shape = [1] ∧ eigvec.shape.getD 1 0 = 1 then
      .ok ⟨[eigvec.shape.getD 0 0], fun i => eigvec.get [i.getD 0 0, 0]⟩
    else .error .value
  else .error .value

/-- `_eig_minimize_locally2(local_op, eigvec_ltens, eigs)` (linalg.py:297-333).  `eigval.flat[0]` is the entry whose
indices are all zero. -/
noncomputable def eigMinimize2 (qr : QR ℂ) (svd : SVD ℂ) (eigs : EigsFun) (op : NDArray ℂ)
    (ltens : List (NDArray ℂ)) : Py (ℂ × List (NDArray ℂ)) := do
  let rank ← maxLeftBond ltens
  let lten ← ltensToArray ltens
  let (eigval, eigvec) ← eigs op lten.flat
  let v ← eigsVector eigval eigvec
  let val := eigval.get (eigval.shape.map fun _ => 0)
  let lten ← v.reshape (lten.shape.map fun d : ℕ => (d : ℤ))
  if ltens.length = 1 then return (val, [lten])
  else
    let us ← splitBlock qr svd lten rank
    return (val, us)

/-- The operations of `eig`: `_eig_leftvec_add`, `_eig_rightvec_add` and `_eig_minimize_locally` (linalg.py:265-294). -/
noncomputable def eigOps (qr : QR ℂ) (svd : SVD ℂ) (eigs : EigsFun) (mpo : MPA ℂ) (k : ℕ) :
    SweepOps ℂ (NDArray ℂ) ℂ where
  addL pos e t := do eigLeftvecAdd e (← mpo.site pos) t t
  addR pos e t := do eigRightvecAdd e (← mpo.site pos) t
  step pos e f ltens := do
    let op ← eigLocalOp e ((mpo.lt.drop pos).take k) f
    eigMinimize2 qr svd eigs op ltens

/-- `[(dim[0],) for dim in shape]` (linalg.py:462, 585) -/
def firstDims (S : List (List ℕ)) : Py (List (List ℕ)) :=
  S.mapM fun s => match s with
    | d :: _ => .ok [d]
    | [] => .error .index

open Classical in
/-- The start vector (linalg.py:454-469, 580-592). `norm` brings its argument to canonical form. -/
noncomputable def eigStart (qr : QR ℂ) (n : ℕ) (S : List (List ℕ)) (startvec : Option (MPA ℂ)) (startRank : Option ℕ)
    (rs : RandState) : Py (MPA ℂ) :=
  match startvec with
  | some x => x.copy
  | none => match startRank with
    | none => .error .value
    | some r => do
      if r = 1 then .error .value
      let dims ← firstDims S
      let (x, _) ← randomMpa qr n (.nested dims) (.scalar r) false false true rs
      let x ← x.canonicalize qr .none (.int 1)
      let (v, x) ← norm qr x
      x.itruediv ((v : ℝ) : ℂ)

/-- `any(rank12 == (1, 1) for …)` (linalg.py:473-474, 596-597) -/
def twoRanksOne {R : Type} (x : MPA R) : Prop := (1, 1) ∈ (1 :: x.ranks).zip (x.ranks ++ [1])

instance {R : Type} (x : MPA R) : Decidable (twoRanksOne x) := inferInstanceAs (Decidable (_ ∈ _))

/-- The sweeps with the tests before them, common to `eig` (linalg.py:473-539) and `eig_sum` (596-666). `eigval` is
unbound when there are no sweeps. -/
noncomputable def eigRun {E : Type} (qr : QR ℂ) (ops : SweepOps ℂ E ℂ) (e0 : E) (n numSweeps k : ℕ) (v : MPA ℂ) :
    Py (ℂ × MPA ℂ) := do
  pyAssert (¬ twoRanksOne v)
  let v ← v.canonicalize qr .none (.int 1)
  let st ← ops.run qr k n numSweeps e0 v
  match st.val with
  | none => .error .unbound
  | some a => return (a, st.vec)

/-- `eig(mpo, num_sweeps, var_sites, startvec, startvec_rank, randstate, eigs)` (linalg.py:353-539) -/
noncomputable def eig (qr : QR ℂ) (svd : SVD ℂ) (eigs : EigsFun) (mpo : MPA ℂ) (numSweeps varSites : ℕ)
    (startvec : Option (MPA ℂ)) (startRank : Option ℕ) (rs : RandState) : Py (ℂ × MPA ℂ) := do
  pyAssert (varSites < mpo.len)
  let v ← eigStart qr mpo.len mpo.shape startvec startRank rs
  eigRun qr (eigOps qr svd eigs mpo varSites) (onesNd 3) mpo.len numSweeps varSites v

/-! ### `eig_sum` -/

/-- `m.ndims[0]`, the number of physical legs on the first site. -/
def firstNdims {R : Type} (x : MPA R) : ℕ := (x.shape.headD []).length

/-- `_eig_sum_leftvec_add` (linalg.py:154-163).  The list `leftvec_out` is the result. -/
def eigSumLeftvecAdd (mpas : List (MPA ℂ)) (leftvec : List (NDArray ℂ)) (pos : ℕ) (t : NDArray ℂ) :
    Py (List (NDArray ℂ)) :=
  (mpas.zip leftvec).mapM fun p =>
    if firstNdims p.1 = 2 then do eigLeftvecAdd p.2 (← p.1.site pos) t t
    else if firstNdims p.1 = 1 then do eigLeftvecAddMps p.2 (← p.1.site pos) t
    else .error .value

/-- `_eig_sum_rightvec_add` (linalg.py:166-176) -/
def eigSumRightvecAdd (mpas : List (MPA ℂ)) (rightvec : List (NDArray ℂ)) (pos : ℕ) (t : NDArray ℂ) :
    Py (List (NDArray ℂ)) :=
  (mpas.zip rightvec).mapM fun p =>
    if firstNdims p.1 = 2 then do eigRightvecAdd p.2 (← p.1.site pos) t
    else if firstNdims p.1 = 1 then do eigRightvecAddMps p.2 (← p.1.site pos) t
    else .error .value

/-- The contribution of one element of `mpas` to the local operator (linalg.py:343-348). -/
def eigSumTerm (m : MPA ℂ) (lv rv : NDArray ℂ) (pos k : ℕ) : Py (NDArray ℂ) :=
  if firstNdims m = 2 then eigLocalOp lv ((m.lt.drop pos).take k) rv
  else if firstNdims m = 1 then eigLocalOpMps lv ((m.lt.drop pos).take k) rv
  else .error .value

/-- `op = 0` followed by `op += …` (linalg.py:341-348): adding an array to the number 0 gives the array. -/
def eigSumOp (mpas : List (MPA ℂ)) (leftvec rightvec : List (NDArray ℂ)) (pos k : ℕ) : Py (Option (NDArray ℂ)) :=
  (mpas.zip (leftvec.zip rightvec)).foldlM (fun op p => do
    let t ← eigSumTerm p.1 p.2.1 p.2.2 pos k
    match op with
    | none => return some t
    | some o => return some (← o.add t)) none

/-- The operations of `eig_sum`; the local step is `_eig_sum_minimize_locally` (linalg.py:336-350).  (`op` stays the
number 0 only for an empty list `mpas`, for which `eig_sum` has raised before.) -/
noncomputable def eigSumOps (qr : QR ℂ) (svd : SVD ℂ) (eigs : EigsFun) (mpas : List (MPA ℂ)) (k : ℕ) :
    SweepOps ℂ (List (NDArray ℂ)) ℂ where
  addL pos e t := eigSumLeftvecAdd mpas e pos t
  addR pos e t := eigSumRightvecAdd mpas e pos t
  step pos e f ltens := do
    match ← eigSumOp mpas e f pos k with
    | none => .error .type
    | some op => eigMinimize2 qr svd eigs op ltens

/-- `eig_sum(mpas, num_sweeps, var_sites, startvec, startvec_rank, randstate, eigs)` (linalg.py:542-666).  The lists
`leftvecs[i]`, `rightvecs[i]`, whose entries are set one by one in the code, are replaced as a whole. -/
noncomputable def eigSum (qr : QR ℂ) (svd : SVD ℂ) (eigs : EigsFun) (mpas : List (MPA ℂ)) (numSweeps varSites : ℕ)
    (startvec : Option (MPA ℂ)) (startRank : Option ℕ) (rs : RandState) : Py (ℂ × MPA ℂ) :=
  match mpas with
  | [] => .error .index
  | m :: _ => do
    pyAssert (∀ x ∈ mpas, x.len = m.len)
    pyAssert (varSites < m.len)
    let v ← eigStart qr m.len m.shape startvec startRank rs
    eigRun qr (eigSumOps qr svd eigs mpas varSites) (mpas.map fun x => onesNd (1 + firstNdims x)) m.len numSweeps varSites
      v

end Mpnum
