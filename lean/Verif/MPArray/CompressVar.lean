import Verif.Linalg.Sweep
import Verif.Linalg.Contract
import Verif.MPArray.Reshape
import Verif.Factory

/-!
# Model of variational compression (/repo/mpnum/mparray.py)

The sweeps of `_adapt_to` are those of `Linalg/Sweep.lean`.
-/

open Finset

namespace Mpnum

variable {R : Type}

/-- The axis names used by the helper functions of variational compression (mparray.py:1942-1944, 1979-1981, 2030-2032). -/
inductive AdAx
  | comprBond | tgtBond
  | comprLeft | comprPhys | comprRight
  | tgtLeft | tgtPhys | tgtRight
  deriving DecidableEq

section
variable [AddCommMonoid R] [Mul R] [Star R]

/-- `_adapt_to_add_l(leftvec, compr_lten, tgt_lten)` (mparray.py:1928-1962) -/
def adaptAddL (leftvec comprLten tgtLten : NDArray R) : Py (NDArray R) := do
  let leftvec ← NamedArray.mk' leftvec [AdAx.comprBond, .tgtBond]
  let comprLten ← NamedArray.mk' comprLten [AdAx.comprLeft, .comprPhys, .comprRight]
  let tgtLten ← NamedArray.mk' tgtLten [AdAx.tgtLeft, .tgtPhys, .tgtRight]
  let leftvec ← leftvec.tensordot comprLten [(.comprBond, .comprLeft)]
  let leftvec ← leftvec.tensordot (← tgtLten.conj) [(.comprPhys, .tgtPhys), (.tgtBond, .tgtLeft)]
  let leftvec ← leftvec.rename [(.comprRight, .comprBond), (.tgtRight, .tgtBond)]
  leftvec.toArray [.comprBond, .tgtBond]

/-- `_adapt_to_add_r(rightvec, compr_lten, tgt_lten)` (mparray.py:1965-2001) -/
def adaptAddR (rightvec comprLten tgtLten : NDArray R) : Py (NDArray R) := do
  let rightvec ← NamedArray.mk' rightvec [AdAx.comprBond, .tgtBond]
  let comprLten ← NamedArray.mk' comprLten [AdAx.comprLeft, .comprPhys, .comprRight]
  let tgtLten ← NamedArray.mk' tgtLten [AdAx.tgtLeft, .tgtPhys, .tgtRight]
  let rightvec ← rightvec.tensordot comprLten [(.comprBond, .comprRight)]
  let rightvec ← rightvec.tensordot (← tgtLten.conj) [(.comprPhys, .tgtPhys), (.tgtBond, .tgtRight)]
  let rightvec ← rightvec.rename [(.comprLeft, .comprBond), (.tgtLeft, .tgtBond)]
  rightvec.toArray [.comprBond, .tgtBond]

end

/-- The new tensor for all sites of the block together (mparray.py:2024-2050). -/
noncomputable def adaptBlock [Semiring R] [Star R] (leftvec : NDArray R) (tgtLtens : List (NDArray R))
    (rightvec : NDArray R) : Py (NDArray R) := do
  let tgtLten ← ltensToArray tgtLtens
  let sh := tgtLten.shape
  let tgtLten ← tgtLten.reshape [(sh.headD 0 : ℤ), -1, (sh.getLastD 0 : ℤ)]
  let leftvec ← NamedArray.mk' leftvec [AdAx.comprLeft, .tgtLeft]
  let tgtLten ← NamedArray.mk' tgtLten [AdAx.tgtLeft, .tgtPhys, .tgtRight]
  let rightvec ← NamedArray.mk' rightvec [AdAx.comprRight, .tgtRight]
  let comprLten ← leftvec.tensordot (← tgtLten.conj) [(.tgtLeft, .tgtLeft)]
  let comprLten ← comprLten.tensordot rightvec [(.tgtRight, .tgtRight)]
  let comprLten ← comprLten.toArray [.comprLeft, .tgtPhys, .comprRight]
  let comprLten := comprLten.conj
  let s := comprLten.shape
  comprLten.reshape ((s.headD 0 : ℤ) :: (sh.tail.dropLast.map (fun d : ℕ => (d : ℤ)) ++ [(s.getLastD 0 : ℤ)]))

/-- `_adapt_to_new_lten(leftvec, tgt_ltens, rightvec, max_rank)` (mparray.py:2004-2059) -/
noncomputable def adaptNewLten (qr : QR ℂ) (svd : SVD ℂ) (leftvec : NDArray ℂ) (tgtLtens : List (NDArray ℂ))
    (rightvec : NDArray ℂ) (maxRank : ℕ) : Py (List (NDArray ℂ)) := do
  let comprLten ← adaptBlock leftvec tgtLtens rightvec
  if tgtLtens.length = 1 then return [comprLten]
  else splitBlock qr svd comprLten maxRank

/-- The operations of the sweeps of `_adapt_to` (mparray.py:1063-1064, 1085-1089, 1100-1104). -/
noncomputable def adaptOps (qr : QR ℂ) (svd : SVD ℂ) (tgt : MPA ℂ) (k maxRank : ℕ) :
    SweepOps ℂ (NDArray ℂ) Unit where
  addL pos e t := do adaptAddL e t (← tgt.site pos)
  addR pos e t := do adaptAddR e t (← tgt.site pos)
  step pos e f _ := do return ((), ← adaptNewLten qr svd e ((tgt.lt.drop pos).take k) f maxRank)

namespace MPA

/-- All sites have one physical leg (`assert_array_equal(self.ndims, 1)`, mparray.py:1054-1055). -/
def OneLeg (x : MPA R) : Prop := ∀ s ∈ x.shape, s.length = 1

instance (x : MPA R) : Decidable x.OneLeg := inferInstanceAs (Decidable (∀ s ∈ _, _))

/-- `_adapt_to(target, num_sweeps, var_sites)` (mparray.py:1015-1110): the new state of `self` and the returned number.
`var_sites` is a natural number here. -/
noncomputable def adaptTo (qr : QR ℂ) (svd : SVD ℂ) (x target : MPA ℂ) (numSweeps varSites : ℕ) : Py (MPA ℂ × ℝ) := do
  pyAssert x.OneLeg
  pyAssert target.OneLeg
  let y ← x.canonicalize qr .none (.int 1)
  let maxRank ← y.maxRank
  let st ← (adaptOps qr svd target varSites maxRank).run qr varSites target.len numSweeps (onesNd 2) y
  let (v, z) ← norm qr st.vec
  return (z, v ^ 2)

/-- `all(d1 == d2 for d1, d2 in zip(self.shape, compr.shape))` (mparray.py:891) -/
def shapesMatch (x y : MPA R) : Prop := ∀ p ∈ x.shape.zip y.shape, p.1 = p.2

instance (x y : MPA R) : Decidable (x.shapesMatch y) := inferInstanceAs (Decidable (∀ p ∈ _, _))

/-- `_compression_var(num_sweeps, startmpa, rank, randstate, var_sites)` (mparray.py:861-899): the compression and the
overlap.  `cplx` says whether the data type of `self` is complex; it selects the random numbers. -/
noncomputable def compressionVar (qr : QR ℂ) (svd : SVD ℂ) (x : MPA ℂ) (numSweeps : ℕ) (startmpa : Option (MPA ℂ))
    (rank : Option ℕ) (varSites : ℕ) (cplx : Bool) (rs : RandState) : Py (MPA ℂ × ℝ) := do
  if x.len = 1 then
    let (v, y) ← norm qr (← x.copy)
    return (y, v ^ 2)
  let rank : ℕ ← (match startmpa, rank with
    | some s, _ => s.maxRank
    | none, some r => .ok r
    | none, none => .error .value)
  if rank > (← x.maxRank) then
    let (v, y) ← norm qr (← x.copy)
    return (y, v ^ 2)
  let compr ← (match startmpa with
    | none => do
      let (z, _) ← randomMpa qr x.len (.nested x.shape) (.scalar rank) false false cplx rs
      return z
    | some s => do
      let z ← s.copy
      pyAssert (x.shapesMatch z)
      return z)
  let compr ← compr.ravel
  let (compr, overlap) ← compr.adaptTo qr svd (← x.ravel) numSweeps varSites
  let compr ← compr.reshape (.list (x.shape.map fun s => s.map fun d : ℕ => (d : ℤ)))
  return (compr, overlap)

/-- `compress(method='var', …)` (mparray.py:804-807): `self` takes over the tensors and the form of the compression; the
result is the new state of `self` and the overlap. -/
noncomputable def compressVar (qr : QR ℂ) (svd : SVD ℂ) (x : MPA ℂ) (numSweeps : ℕ) (startmpa : Option (MPA ℂ))
    (rank : Option ℕ) (varSites : ℕ) (cplx : Bool) (rs : RandState) : Py (MPA ℂ × ℝ) := do
  let (compr, overlap) ← x.compressionVar qr svd numSweeps startmpa rank varSites cplx rs
  return (⟨compr.lt, compr.l, compr.r⟩, overlap)

end MPA

end Mpnum
