import Verif.MPArray.Compress
import Verif.MPArray.Norm
import Verif.Mpsmpo

/-!
# Iterators which are consumed while their operand is used

`reductions_pmps`, `reductions_mpo` and `singularvals` are Python generators.  Their body runs when the
consumer asks for an item, on the operand as it is at that time, and between two items the consumer may call
methods which change the operand in place or ask another iterator over the same operand for an item.  Here an
iterator is the state in which its generator is suspended; a schedule says what happens in which order.
(Elsewhere an iterator is the list of its items.) -/

namespace Mpnum

variable {𝕜 : Type}

/-- The arguments `width`, `startsites`, `stopsites` of the reductions. -/
structure WinArgs where
  width : Option ℤ
  starts : Option (List ℤ)
  stops : Option (List ℤ)

/-- The state of an iterator over the shared object. -/
inductive Gen (𝕜 : Type)
  /-- `reductions_pmps(x, ...)` (mpsmpo.py:285), not started -/
  | pmpsNew (a : WinArgs)
  /-- `reductions_pmps` suspended at its `yield` (mpsmpo.py:317); the windows that are left -/
  | pmps (ws : List (ℤ × ℤ))
  /-- `reductions_mps_as_pmps(mps, ...)` (mpsmpo.py:320-331), not started; `p` is the PMPS made of the operand
  by the call (`mps_to_pmps` runs at once, only `reductions_pmps` is a generator) -/
  | ownNew (p : MPA 𝕜) (a : WinArgs)
  /-- the same, suspended -/
  | own (p : MPA 𝕜) (ws : List (ℤ × ℤ))
  /-- `reductions_mpo(x, ...)` (mpsmpo.py:221), not started -/
  | mpoNew (a : WinArgs)
  /-- `reductions_mpo` suspended at its `yield` (mpsmpo.py:282) with its dictionaries `rem_left`, `rem_right` -/
  | mpo (ws : List (ℤ × ℤ)) (c : RemCache 𝕜 × RemCache 𝕜)
  /-- `x.singularvals()` (mparray.py:964), not started -/
  | svNew
  /-- `singularvals` suspended at its `yield`: the inner generator `_compress_svd_r` is suspended at
  `yield sv, rank_t` (mparray.py:955) with the local variables `rank, site, ltens, u, sv, v, rank_t` -/
  | sv (rank : ℕ) (site : ℕ) (ltens u : NDArray 𝕜) (s : List ℝ) (v : NDArray 𝕜) (k : ℕ)
  /-- finished -/
  | done

/-- What `next(iterator)` returns; `stop` is the exception `StopIteration`. -/
inductive Item (𝕜 : Type)
  | mpa (z : MPA 𝕜)
  | svs (s : List ℝ)
  | stop

section
variable [RCLike 𝕜]

/-- `reductions_pmps` up to the next `yield` (mpsmpo.py:299-317): item, windows left (`none` if the generator
has finished) and operand. -/
def pmpsNext (qr : QR 𝕜) : List (ℤ × ℤ) → MPA 𝕜 → Py (Item 𝕜 × Option (List (ℤ × ℤ)) × MPA 𝕜)
  | [], x => .ok (.stop, none, x)
  | w :: ws, x => do
    let (z, y) ← pmpsWindow qr w x
    return (.mpa z, some ws, y)

/-- `reductions_mpo` up to the next `yield` (mpsmpo.py:271-282). -/
def mpoNext : List (ℤ × ℤ) → RemCache 𝕜 × RemCache 𝕜 → MPA 𝕜 → Py (Item 𝕜 × Gen 𝕜)
  | [], _, _ => .ok (.stop, .done)
  | w :: ws, c, x => do
    let (z, c) ← mpoWindow x w c
    return (.mpa z, .mpo ws c)

/-- `_compress_svd_r` from the head of its loop to the `yield` (mparray.py:942-955), with `relerr=None`. -/
noncomputable def svYield (svd : SVD 𝕜) (rank site : ℕ) (x : MPA 𝕜) : Py (Item 𝕜 × Gen 𝕜) := do
  let (lt, u, s, v, k) ← x.svdSiteR svd (truncatedSvd svd) rank none site
  return (.svs s, .sv rank site lt u s v k)

/-- `next(iterator)`: item, new state of the iterator and of the operand.

`singularvals` (mparray.py:975-985): `zip` asks `range(len(self) - 1)` first, so the update after the last item
is never carried out. -/
noncomputable def Gen.next (qr : QR 𝕜) (svd : SVD 𝕜) (x : MPA 𝕜) : Gen 𝕜 → Py (Item 𝕜 × Gen 𝕜 × MPA 𝕜)
  | .pmpsNew a => do
    let ws ← reductionsArgs x.len a.width a.starts a.stops
    let (i, ws, y) ← pmpsNext qr ws x
    return (i, (ws.elim .done .pmps), y)
  | .pmps ws => do
    let (i, ws, y) ← pmpsNext qr ws x
    return (i, (ws.elim .done .pmps), y)
  | .ownNew p a => do
    let ws ← reductionsArgs p.len a.width a.starts a.stops
    let (i, ws, q) ← pmpsNext qr ws p
    return (i, (ws.elim .done (.own q)), x)
  | .own p ws => do
    let (i, ws, q) ← pmpsNext qr ws p
    return (i, (ws.elim .done (.own q)), x)
  | .mpoNew a => do
    let ws ← reductionsArgs x.len a.width a.starts a.stops
    pyAssert (∀ s ∈ x.shape, s.length = 2)
    let (i, g) ← mpoNext ws (RemCache.init, RemCache.init) x
    return (i, g, x)
  | .mpo ws c => do
    let (i, g) ← mpoNext ws c x
    return (i, g, x)
  | .svNew =>
    if x.len = 1 then .ok (.stop, .done, x)
    else do
      let y ← x.canonicalize qr .none (.int 1)
      let rank ← y.maxRank
      MPA.svdArgs rank none
      let (i, g) ← svYield svd rank 0 y
      return (i, g, y)
  | .sv rank site lt u s v k =>
    if x.len - 1 ≤ site + 1 then .ok (.stop, .done, x)
    else do
      let y ← x.svdUpdateR site lt u s v k
      let (i, g) ← svYield svd rank (site + 1) y
      return (i, g, y)
  | .done => .ok (.stop, .done, x)

/-- What the consumer does next. -/
inductive Ev
  /-- `next` of the iterator with this number -/
  | next (g : ℕ)
  /-- `x.canonicalize(left, right)` (mparray.py:592) -/
  | canonicalize (left right : CArg)
  /-- `norm(x)` (mparray.py:1416) -/
  | norm
  /-- `x.compress('svd', rank=rank, relerr=relerr, direction=direction)` (mparray.py:713) -/
  | compress (rank : Option ℤ) (relerr : Option ℝ) (direction : Option Dir)

/-- The shared object and the iterators over it. -/
structure Shared (𝕜 : Type) where
  obj : MPA 𝕜
  gens : List (Gen 𝕜)

/-- An item: number of the iterator, operand before the call, item. -/
structure Got (𝕜 : Type) where
  gen : ℕ
  obj : MPA 𝕜
  item : Item 𝕜

/-- One event.  If `canonicalize` raises, it has not touched the operand (theorems C11_index_error, C11_value_error,
C70), and the consumer goes on. -/
noncomputable def Shared.step (qr : QR 𝕜) (svd : SVD 𝕜) (w : Shared 𝕜) : Ev → Py (Shared 𝕜 × List (Got 𝕜))
  | .next g => do
    let a ← (match w.gens[g]? with | some a => .ok a | none => .error .index : Py (Gen 𝕜))
    let (i, a', y) ← a.next qr svd w.obj
    return (⟨y, w.gens.set g a'⟩, [⟨g, w.obj, i⟩])
  | .canonicalize left right =>
    match w.obj.canonicalize qr left right with
    | .ok y => .ok (⟨y, w.gens⟩, [])
    | .error _ => .ok (w, [])
  | .norm => do
    let (_, y) ← norm qr w.obj
    return (⟨y, w.gens⟩, [])
  | .compress rank relerr direction => do
    let (y, _) ← w.obj.compress qr svd rank relerr direction true
    return (⟨y, w.gens⟩, [])

/-- A schedule: all items in the order in which they are obtained. -/
noncomputable def Shared.run (qr : QR 𝕜) (svd : SVD 𝕜) : Shared 𝕜 → List Ev → Py (Shared 𝕜 × List (Got 𝕜))
  | w, [] => .ok (w, [])
  | w, e :: es => do
    let (w, o) ← w.step qr svd e
    let (w, os) ← Shared.run qr svd w es
    return (w, o ++ os)

end

/-- The items of the iterator `g`. -/
def itemsOf (g : ℕ) (os : List (Got 𝕜)) : List (Got 𝕜) := os.filter fun o => o.gen = g

end Mpnum
