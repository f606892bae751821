import Verif.StructLemmas

/-! # Model of `MPArray.dump` and `MPArray.load` (mpnum/mparray.py:147-189)

An `h5py.Group` is modelled as two finite maps: attributes and datasets.  A dataset is an array.
h5py refuses to create a dataset under an existing name (an exception; here `.value`). -/

namespace Mpnum

variable {R : Type}

/-- Values of HDF5 attributes used by the code. -/
inductive H5Attr
  | int (n : ℤ)
  | ints (l : List ℤ)
  | str (s : String)

/-- `h5py.Group`: `attrs` and the datasets. -/
structure H5Group (R : Type) where
  attrs : String → Option H5Attr
  data : String → Option (NDArray R)

/-- A fresh, empty group. -/
def H5Group.empty : H5Group R := ⟨fun _ => none, fun _ => none⟩

/-- `group.attrs[k] = v` -/
def H5Group.setAttr (g : H5Group R) (k : String) (v : H5Attr) : H5Group R :=
  ⟨fun k' => if k' = k then some v else g.attrs k', g.data⟩

/-- `group[k] = a`: fails if there is something called `k`. -/
def H5Group.create (g : H5Group R) (k : String) (a : NDArray R) : H5Group R × Py Unit :=
  match g.data k with
  | some _ => (g, .error .value)
  | none => (⟨g.attrs, fun k' => if k' = k then some a else g.data k'⟩, .ok ())

/-- `group[k].value`: `KeyError` if there is no such dataset. -/
def H5Group.fetch (g : H5Group R) (k : String) : Py (NDArray R) :=
  match g.data k with
  | some a => .ok a
  | none => .error .key

/-- mpnum/mparray.py:169-170: `for site, lten in enumerate(self._lt): target[str(site)] = lten`.
The group after the loop and whether an exception was raised.  `str(site)` is `Nat.repr site`. -/
def dumpLoop (g : H5Group R) : ℕ → List (NDArray R) → H5Group R × Py Unit
  | _, [] => (g, .ok ())
  | site, t :: ts =>
    match g.create (Nat.repr site) t with
    | (g', .ok _) => dumpLoop g' (site + 1) ts
    | (g', .error e) => (g', .error e)

/-- mpnum/mparray.py:147-170 `dump` for a group.  The attributes `ranks` and `shape` are saved for
convenience only (line 160); their text is Lean's rendering of the lists instead of Python's. -/
def MPA.dump (x : MPA R) (g : H5Group R) : H5Group R × Py Unit :=
  let g := g.setAttr "ranks" (.str (toString x.ranks))
  let g := g.setAttr "shape" (.str (toString x.shape))
  let g := g.setAttr "len" (.int x.len)
  let g := g.setAttr "canonical_form" (.ints [x.l, x.r])
  dumpLoop g 0 x.lt

/-- mpnum/mparray.py:172-189 `load` for a group.  `KeyError` for missing attributes or datasets;
attributes of another type cannot be used as number / pair. -/
def loadMPA (g : H5Group R) : Py (MPA R) := do
  let n ← match g.attrs "len" with
    | some (.int n) => .ok n
    | some _ => .error .type
    | none => .error .key
  let ltens ← (List.range n.toNat).mapM fun i => g.fetch (Nat.repr i)
  match g.attrs "canonical_form" with
  | some (.ints [l, r]) => mkLT ltens (some l) (some r)
  | some (.ints _) => .error .value
  | some _ => .error .type
  | none => .error .key

/-- A file system: one HDF5 file per path. -/
abbrev H5Files (R : Type) := String → Option (H5Group R)

/-- mpnum/mparray.py:155-158: `dump` for a path: `h5py.File(target, 'w')` truncates the file. -/
def MPA.dumpPath (x : MPA R) (fs : H5Files R) (path : String) : H5Files R × Py Unit :=
  let (g, res) := x.dump H5Group.empty
  (fun p => if p = path then some g else fs p, res)

/-- mpnum/mparray.py:181-184: `load` for a path. -/
def loadPath (fs : H5Files R) (path : String) : Py (MPA R) :=
  match fs path with
  | some g => loadMPA g
  | none => .error .value

/-- One write to a group. -/
inductive H5Op (R : Type)
  | attr (k : String) (v : H5Attr)
  | data (k : String) (a : NDArray R)

/-- The effect of one write. -/
def H5Group.write (g : H5Group R) : H5Op R → H5Group R × Py Unit
  | .attr k v => (g.setAttr k v, .ok ())
  | .data k a => g.create k a

/-- The effect of writes one after the other, up to the first that fails. -/
def H5Group.writes (g : H5Group R) : List (H5Op R) → H5Group R × Py Unit
  | [] => (g, .ok ())
  | op :: ops =>
    match g.write op with
    | (g', .ok _) => g'.writes ops
    | (g', .error e) => (g', .error e)

/-- The writes of the loop of `dump` (mpnum/mparray.py:168-169), in their order. -/
def dumpDataOps : ℕ → List (NDArray R) → List (H5Op R)
  | _, [] => []
  | site, t :: ts => .data (Nat.repr site) t :: dumpDataOps (site + 1) ts

/-- The writes of `dump` (mpnum/mparray.py:160-169) in their order, for a `dump` that is interrupted between two of them. -/
def MPA.dumpOps (x : MPA R) : List (H5Op R) :=
  [.attr "ranks" (.str (toString x.ranks)), .attr "shape" (.str (toString x.shape)), .attr "len" (.int x.len),
    .attr "canonical_form" (.ints [x.l, x.r])] ++ dumpDataOps 0 x.lt

end Mpnum
