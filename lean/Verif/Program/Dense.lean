import Verif.Program.Store
import Verif.Props.C08
import Verif.Props.C18
import Verif.Props.C20
import Verif.Props.C25

/-!
# Programs on dense tensors

The specification for programs: what each call means for the dense tensors, written with index sums and
nothing of the matrix product form.  A tensor has a shape with the legs of each site, and its entries have one multi-index
for each site; `to_array` joins the sites.

`Den f ts t`: with operands of the shapes of `ts`, the call is allowed, and its result is `t`.  Entries outside of the shape
have no meaning.
-/

namespace Mpnum

namespace Prog

/-- A dense tensor with its legs in groups, one for each site. -/
structure Ten where
  shape : List (List ℕ)
  val : List (List ℕ) → ℂ

/-- All entries inside of the shape agree. -/
structure Ten.Eqv (s t : Ten) : Prop where
  shape : s.shape = t.shape
  val : ∀ j, IdxOK j t.shape → s.val j = t.val j

/-- Sum of the squared absolute values of the entries of `f`. -/
noncomputable def Ten.sq (t : Ten) (f : List (List ℕ) → ℂ) : ℝ := sumSites t.shape fun j => ‖f j‖ ^ 2

/-- The list of all indices cut into the indices of the sites of a shape. -/
def cutSites : List (List ℕ) → List ℕ → List (List ℕ)
  | [], _ => []
  | s :: S, i => i.take s.length :: cutSites S (i.drop s.length)

/-- The first indices at each site, as many as the shape has. -/
def frontIdx (F : List (List ℕ)) (j : List (List ℕ)) : List (List ℕ) := List.zipWith (fun s i => i.take s.length) F j

/-- The indices at each site without the first ones. -/
def backIdx (F : List (List ℕ)) (j : List (List ℕ)) : List (List ℕ) := List.zipWith (fun s i => i.drop s.length) F j

/-- Shape of the legs of `S` that are not among the axes. -/
def freeShape (S : List (List ℕ)) (axes : List ℤ) : List (List ℕ) := S.map fun s => freeDims s (axesOf axes s.length)

/-- Shape of the legs of `S` among the axes. -/
def conShape (S : List (List ℕ)) (axes : List ℤ) : List (List ℕ) := S.map fun s => conDims s (axesOf axes s.length)

/-- Entries of a tensor product of chains. -/
noncomputable def chainVal : List Ten → List (List ℕ) → ℂ
  | [], _ => 1
  | t :: ts, j => t.val (j.take t.shape.length) * chainVal ts (j.drop t.shape.length)

/-- Entries of `t` on the sites `a, a + 1, …` times copies of `e` on the others. -/
noncomputable def embVal (e : NDArray ℂ) (t : Ten) (a : ℕ) (j : List (List ℕ)) : ℂ :=
  ((j.take a).map e.get).prod * t.val ((j.drop a).take t.shape.length) * ((j.drop (a + t.shape.length)).map e.get).prod

/-- `t` on the sites `a, a + 1, …` and `e` on the others fit into the shape. -/
def EmbFits (e : NDArray ℂ) (S : List (List ℕ)) (t : Ten) (a : ℕ) : Prop :=
  ∃ b, S = List.replicate a e.shape ++ t.shape ++ List.replicate b e.shape

/-- The legs of an array have positive size. -/
def PosShape (e : NDArray ℂ) : Prop := ∀ d ∈ e.shape, 0 < d

/-- The meaning of a call, on dense tensors. -/
inductive Den : Fun → List Ten → Ten → Prop
  | copy (t) : Den .copy [t] t
  | plus (t) : Den .plus [t] t
  /-- the order of the legs of each site is reversed -/
  | T (t) : Den .T [t] ⟨t.shape.map List.reverse, fun j => t.val (j.map List.reverse)⟩
  | transposeNone (t) : Den (.transpose none) [t] ⟨t.shape.map List.reverse, fun j => t.val (j.map List.reverse)⟩
  /-- leg `k` of the result is leg `axes[k]` -/
  | transpose (t) (n : ℕ) (axes : List ℕ) (hn : ∀ s ∈ t.shape, s.length = n) (ha : axes.Perm (List.range n)) :
      Den (.transpose (some (axes.map fun k : ℕ => (k : ℤ)))) [t]
        ⟨t.shape.map fun s => axes.map fun k => s.getD k 0,
          fun j => t.val (j.map fun p => (List.range n).map fun m => p.getD (axes.idxOf m) 0)⟩
  | adj (t) : Den .adj [t] ⟨t.shape.map List.reverse, fun j => star (t.val (j.map List.reverse))⟩
  | conj (t) : Den .conj [t] ⟨t.shape, fun j => star (t.val j)⟩
  /-- the order of the sites is reversed -/
  | reverse (t) : Den .reverse [t] ⟨t.shape.reverse, fun j => t.val j.reverse⟩
  | add (s t) (h : s.shape = t.shape) : Den .add [s, t] ⟨s.shape, fun j => s.val j + t.val j⟩
  | sub (s t) (h : s.shape = t.shape) : Den .sub [s, t] ⟨s.shape, fun j => s.val j - t.val j⟩
  | mul (c t) : Den (.mul c) [t] ⟨t.shape, fun j => c * t.val j⟩
  | neg (t) : Den .neg [t] ⟨t.shape, fun j => - t.val j⟩
  | truediv (c t) (hc : c ≠ 0) : Den (.truediv c) [t] ⟨t.shape, fun j => t.val j / c⟩
  /-- the entries of each site in row-major order -/
  | reshape (t) (new : List (List ℕ)) (h : List.Forall₂ (fun s q => List.prod q = List.prod s) t.shape new) :
      Den (.reshape (.list (new.map fun q => q.map fun k : ℕ => (k : ℤ)))) [t]
        ⟨new, fun j => t.val (List.zipWith3 (fun s q i => unravelIdx s (ravelIdx q i)) t.shape new j)⟩
  | ravel (t) : Den .ravel [t] ⟨t.shape.map fun s => [s.prod],
        fun j => t.val (List.zipWith (fun s i => unravelIdx s (i.headD 0)) t.shape j)⟩
  /-- the same array, with the legs of `k` sites joined -/
  | groupSites (t) (k n : ℕ) (hk : 0 < k) (hn : t.shape.length = n * k) :
      Den (.groupSites k) [t] ⟨(chunks k n t.shape).map List.flatten, fun j => t.val (cutSites t.shape j.flatten)⟩
  /-- the same array, with the legs of each site distributed to `k` sites -/
  | splitSites (t) (k m : ℕ) (hk : 0 < k) (hm : 0 < m) (hl : ∀ s ∈ t.shape, s.length = k * m) :
      Den (.splitSites k) [t] ⟨t.shape.flatMap (chunks m k), fun j => t.val (cutSites t.shape j.flatten)⟩
  /-- the bond between two sites becomes two legs of some size `D`; summing over their diagonal gives `t` back -/
  | vleg2leg (t) (pos D : ℕ) (u : List (List ℕ) → ℂ) (hp : pos + 1 < t.shape.length) (hD : 0 < D)
      (hu : ∀ j, IdxOK j t.shape → ∑ c ∈ Finset.range D, u (cutAt pos c c j) = t.val j) :
      Den (.vleg2leg pos) [t] ⟨cutAt pos D D t.shape, u⟩
  /-- the part of `split` on the left of bond `pos`: together with some tensor `b` on the right it gives `t` back -/
  | splitLeft (t) (pos D : ℕ) (a b : List (List ℕ) → ℂ) (hp : pos + 1 < t.shape.length) (hD : 0 < D)
      (hab : ∀ j, IdxOK j t.shape → ∑ c ∈ Finset.range D,
        a ((cutAt pos c c j).take (pos + 1)) * b ((cutAt pos c c j).drop (pos + 1)) = t.val j) :
      Den (.splitLeft pos) [t] ⟨(cutAt pos D D t.shape).take (pos + 1), a⟩
  /-- the part on the right -/
  | splitRight (t) (pos D : ℕ) (a b : List (List ℕ) → ℂ) (hp : pos + 1 < t.shape.length) (hD : 0 < D)
      (hab : ∀ j, IdxOK j t.shape → ∑ c ∈ Finset.range D,
        a ((cutAt pos c c j).take (pos + 1)) * b ((cutAt pos c c j).drop (pos + 1)) = t.val j) :
      Den (.splitRight pos) [t] ⟨(cutAt pos D D t.shape).drop (pos + 1), b⟩
  /-- sum over the legs named by `axes` -/
  | sum (t) (axes : SumAxes) (legs : List (List ℕ)) (h : SumLegs t.shape axes legs)
      (hl : ∀ p ∈ t.shape.zip legs, p.2.Nodup ∧ ∀ a ∈ p.2, a < p.1.length)
      (hr : (List.zipWith freeDims t.shape legs).flatten ≠ []) :
      Den (.sum axes) [t] ⟨List.zipWith freeDims t.shape legs,
        fun f => sumSites (List.zipWith conDims t.shape legs) fun k => t.val (mergeLegs t.shape legs f k)⟩
  /-- the first leg of each site fixed; negative numbers count from the end -/
  | get (t : Ten) (idx : List ℤ) (hl : idx.length = t.shape.length)
      (hi : ∀ p ∈ idx.zip t.shape, p.2 ≠ [] ∧ -((p.2.headD 0 : ℕ) : ℤ) ≤ p.1 ∧ p.1 < ((p.2.headD 0 : ℕ) : ℤ)) :
      Den (.get idx) [t] ⟨t.shape.map List.tail, fun f => t.val (List.zipWith List.cons
        (List.zipWith (fun (i : ℤ) (s : List ℕ) => (i % ((s.headD 0 : ℕ) : ℤ)).toNat) idx t.shape) f)⟩
  | padRanks (t) (rank : ℕ) (force : Bool) : Den (.padRanks (some rank) force) [t] t
  | padRanksNone (t) (force : Bool) (h : 2 ≤ t.shape.length) : Den (.padRanks none force) [t] t
  /-- contraction of `axes.1` of `s` with `axes.2` of `t` at each site -/
  | dot (s t) (axes : List ℤ × List ℤ) (h : DotLegs s.shape t.shape axes) :
      Den (.dot axes) [s, t] ⟨List.zipWith (· ++ ·) (freeShape s.shape axes.1) (freeShape t.shape axes.2),
        fun j => sumSites (conShape s.shape axes.1) fun k =>
          s.val (mergeIdx axes.1 s.shape k (frontIdx (freeShape s.shape axes.1) j)) *
          t.val (mergeIdx axes.2 t.shape k (backIdx (freeShape s.shape axes.1) j))⟩
  | sumup (ts : List Ten) (S : List (List ℕ)) (w : List ℂ) (hne : ts ≠ []) (hs : ∀ t ∈ ts, t.shape = S)
      (hw : w.length = ts.length) :
      Den (.sumup (some w)) ts ⟨S, fun j => ((List.zip w ts).map fun p => p.1 * p.2.val j).sum⟩
  | sumupNone (ts : List Ten) (S : List (List ℕ)) (hne : ts ≠ []) (hs : ∀ t ∈ ts, t.shape = S) :
      Den (.sumup none) ts ⟨S, fun j => (ts.map fun t => t.val j).sum⟩
  /-- contraction on the sites `a, a + 1, …` of `s` -/
  | partialdot (s t) (a : ℕ) (axes : List ℤ × List ℤ) (ha : a + t.shape.length ≤ s.shape.length)
      (h : DotLegs ((s.shape.drop a).take t.shape.length) t.shape axes) :
      Den (.partialdot a axes) [s, t]
        ⟨s.shape.take a ++ List.zipWith (· ++ ·) (freeShape ((s.shape.drop a).take t.shape.length) axes.1)
            (freeShape t.shape axes.2) ++ s.shape.drop (a + t.shape.length),
          fun j => sumSites (conShape ((s.shape.drop a).take t.shape.length) axes.1) fun k =>
            s.val (j.take a ++ mergeIdx axes.1 ((s.shape.drop a).take t.shape.length) k
                (frontIdx (freeShape ((s.shape.drop a).take t.shape.length) axes.1) ((j.drop a).take t.shape.length)) ++
              j.drop (a + t.shape.length)) *
            t.val (mergeIdx axes.2 t.shape k
              (backIdx (freeShape ((s.shape.drop a).take t.shape.length) axes.1) ((j.drop a).take t.shape.length)))⟩
  /-- contraction on the sites `a, a + 1, …` of `t` if `t` is longer -/
  | partialdot' (s t) (a : ℕ) (axes : List ℤ × List ℤ) (hlt : s.shape.length < t.shape.length)
      (ha : a + s.shape.length ≤ t.shape.length)
      (h : DotLegs s.shape ((t.shape.drop a).take s.shape.length) axes) :
      Den (.partialdot a axes) [s, t]
        ⟨t.shape.take a ++ List.zipWith (· ++ ·) (freeShape s.shape axes.1)
            (freeShape ((t.shape.drop a).take s.shape.length) axes.2) ++ t.shape.drop (a + s.shape.length),
          fun j => sumSites (conShape s.shape axes.1) fun k =>
            s.val (mergeIdx axes.1 s.shape k
              (frontIdx (freeShape s.shape axes.1) ((j.drop a).take s.shape.length))) *
            t.val (j.take a ++ mergeIdx axes.2 ((t.shape.drop a).take s.shape.length) k
                (backIdx (freeShape s.shape axes.1) ((j.drop a).take s.shape.length)) ++
              j.drop (a + s.shape.length))⟩
  /-- tensor product, site after site -/
  | chain (ts : List Ten) (hne : ts ≠ []) : Den .chain ts ⟨ts.flatMap Ten.shape, chainVal ts⟩
  /-- `n` copies of `e` before site `p` -/
  | inject (t : Ten) (p n : ℕ) (e : NDArray ℂ) (hp : p ≤ t.shape.length) (he : PosShape e) :
      Den (.inject [(p : ℤ)] [.copies n (some e)]) [t]
        ⟨t.shape.take p ++ List.replicate n e.shape ++ t.shape.drop p,
          fun j => t.val (j.take p ++ j.drop (p + n)) * (((j.drop p).take n).map e.get).prod⟩
  /-- tensor product at each site -/
  | localouter (s t) (h : s.shape.length = t.shape.length) :
      Den .localouter [s, t] ⟨List.zipWith (· ++ ·) s.shape t.shape,
        fun j => s.val (frontIdx s.shape j) * t.val (backIdx s.shape j)⟩
  /-- the same array; sites without legs are removed -/
  | prune (t) : Den (.prune false) [t] ⟨pruned t.shape, fun j => t.val (cutSites t.shape j.flatten)⟩
  /-- sum over the diagonal of two legs of each site; sites without legs are removed -/
  | partialtrace (t) (axes : TraceAxes) (hl : (axes.sites t.shape.length).length = t.shape.length)
      (h : ∀ p ∈ (axes.sites t.shape.length).zip t.shape, TraceOK p.1 p.2) :
      Den (.partialtrace axes) [t] ⟨pruned (List.zipWith traceRest (axes.sites t.shape.length) t.shape),
        fun j => sumSites (List.zipWith traceDims (axes.sites t.shape.length) t.shape) fun k =>
          t.val (List.zipWith3 (fun (p : Option (ℤ × ℤ) × List ℕ) f k => traceMerge p.1 p.2 f k)
            ((axes.sites t.shape.length).zip t.shape)
            (cutSites (List.zipWith traceRest (axes.sites t.shape.length) t.shape) j.flatten) k)⟩
  /-- `t` on the sites `a, a + 1, …` of `n` sites, `e` on the others -/
  | embedSlice (t) (e : NDArray ℂ) (a n : ℕ) (h : a + t.shape.length ≤ n) (he : PosShape e) :
      Den (.embedSlice n ⟨some (a : ℤ), some ((a : ℤ) + (t.shape.length : ℤ)), none⟩ (some e)) [t]
        ⟨List.replicate a e.shape ++ t.shape ++ List.replicate (n - (a + t.shape.length)) e.shape, embVal e t a⟩
  /-- sum of `ts`, each on its window of `w` sites, `e` on the others -/
  | localSum (ts : List Ten) (e : NDArray ℂ) (w : ℕ) (length : Option ℕ) (S : List (List ℕ)) (hne : ts ≠ [])
      (hw : ∀ t ∈ ts, t.shape.length = w) (hS : S.length + 1 = ts.length + w) (he : PosShape e)
      (h : List.Forall₂ (EmbFits e S) ts (List.range ts.length)) :
      Den (.localSum (some e) length none) ts
        ⟨S, fun j => (List.zipWith (fun t a => embVal e t a j) ts (List.range ts.length)).sum⟩
  /-- the same with arbitrary windows -/
  | localSumSlices (ts : List Ten) (starts : List ℕ) (e : NDArray ℂ) (S : List (List ℕ)) (hne : ts ≠ [])
      (he : PosShape e) (h : List.Forall₂ (EmbFits e S) ts starts) :
      Den (.localSum (some e) (some S.length) (some (List.zipWith (fun (t : Ten) (a : ℕ) =>
          (⟨some (a : ℤ), some ((a : ℤ) + (t.shape.length : ℤ)), none⟩ : PySlice)) ts starts))) ts
        ⟨S, fun j => (List.zipWith (fun t a => embVal e t a j) ts starts).sum⟩
  | mpsToPmps (t) (D : List ℕ) (h : t.shape = D.map fun d => [d]) :
      Den .mpsToPmps [t] ⟨D.map fun d => [d, 1], fun j => t.val (j.map fun i => i.take 1)⟩
  | pmpsToMps (t) (D : List ℕ) (h : t.shape = D.map fun d => [d, 1]) :
      Den .pmpsToMps [t] ⟨D.map fun d => [d], fun j => t.val (j.map fun i => i ++ [0])⟩
  /-- `ρ = A A†` with the contraction over the ancillas -/
  | pmpsToMpo (t) (D A : List ℕ) (hl : D.length = A.length) (h : t.shape = List.zipWith (fun d a => [d, a]) D A) :
      Den .pmpsToMpo [t] ⟨D.map fun d => [d, d], fun j => sumIdx A fun k =>
        t.val (List.zipWith (fun i a => [i.getD 0 0, a]) j k) * star (t.val (List.zipWith (fun i a => [i.getD 1 0, a]) j k))⟩
  /-- `ρ = |ψ⟩⟨ψ|` -/
  | mpsToMpo (t) (D : List ℕ) (h : t.shape = D.map fun d => [d]) :
      Den .mpsToMpo [t] ⟨D.map fun d => [d, d],
        fun j => t.val (j.map fun i => [i.getD 0 0]) * star (t.val (j.map fun i => [i.getD 1 0]))⟩

/-- The new value of the first operand of an in-place method, on dense tensors. -/
inductive InDen : InFun → Ten → List Ten → Ten → Prop
  | canonicalizeNone (t) : InDen (.canonicalize .none .none) t [] t
  | canonicalize (t) (left right : CArg) (hne : ¬ (left = .none ∧ right = .none))
      (h0 : 0 ≤ target t.shape.length (left.left t.shape.length))
      (h1 : target t.shape.length (left.left t.shape.length) < target t.shape.length (right.right t.shape.length))
      (h2 : target t.shape.length (right.right t.shape.length) ≤ t.shape.length) :
      InDen (.canonicalize left right) t [] t
  | norm (t) : InDen .norm t [] t
  | imul (c t) : InDen (.imul c) t [] ⟨t.shape, fun j => c * t.val j⟩
  | itruediv (c t) (hc : c ≠ 0) : InDen (.itruediv c) t [] ⟨t.shape, fun j => t.val j / c⟩
  /-- compression: an orthogonal projection, some tensor `u` with `⟨t, u⟩ = ⟨u, u⟩`, so that
  `‖t - u‖² = ‖t‖² - ‖u‖²` -/
  | compressSvd (t) (rank : Option ℤ) (relerr : Option ℝ) (direction : Option Dir) (canon : Bool)
      (u : List (List ℕ) → ℂ) (hr : ∀ r, rank = some r → 0 < r) (he : ∀ e, relerr = some e → 0 ≤ e ∧ e ≤ 1)
      (hd : direction ≠ some .other) (hu : sumSites t.shape (fun j => star (t.val j) * u j) = sumSites t.shape fun j => star (u j) * u j)
      (hu' : t.sq (fun j => t.val j - u j) = t.sq t.val - t.sq u) :
      InDen (.compressSvd rank relerr direction canon) t [] ⟨t.shape, u⟩

/-- The variables of a program on dense tensors. -/
structure DVals where
  ten : ℕ → Option Ten
  arr : ℕ → Option (NDArray ℂ × Bool)

/-- The tensors of a list of variables. -/
def DVals.tens (d : DVals) (ys : List ℕ) (ts : List Ten) : Prop := List.Forall₂ (fun y t => d.ten y = some t) ys ts

/-- The arrays of a list of variables. -/
def DVals.arrs (d : DVals) (as : List ℕ) (ts : List (NDArray ℂ)) : Prop :=
  List.Forall₂ (fun a A => ∃ b, d.arr a = some (A, b)) as ts

/-- A tensor made from arrays. -/
inductive MakeDen : Make → List (NDArray ℂ) → Ten → Prop
  /-- a matrix product: the bonds fit, those at both ends have size one, and no leg has size zero -/
  | mpArray (ts) (hne : ts ≠ []) (hc : Chained 1 ts 1) (hp : AllPos ts) : MakeDen .mpArray ts ⟨physShape ts, entry ts⟩
  /-- tensor product -/
  | fromKron (ts : List (NDArray ℂ)) (hne : ts ≠ []) (hp : ∀ t ∈ ts, PosShape t) :
      MakeDen .fromKron ts ⟨ts.map NDArray.shape, fun j => (List.zipWith (fun a i => NDArray.get a i) ts j).prod⟩
  /-- the legs of an array distributed to the sites -/
  | fromArray (A : NDArray ℂ) (S : List (List ℕ)) (hne : S ≠ []) (hlast : S.length = 1 ∨ S.getLast? ≠ some [])
      (hp : ∀ s ∈ S, ∀ d ∈ s, 0 < d) (hs : A.shape = S.flatten) :
      MakeDen (.fromArray (some (.each (S.map List.length)))) [A] ⟨S, fun j => A.get j.flatten⟩

/-- One statement on dense tensors.  There is no rule for statements that are not allowed.  The local tensors are not
determined by the tensor: `read` gives some array, and after the assignment of a local tensor `u` may be anything; only its shape is
known. -/
inductive DStep (d : DVals) : Stmt → DVals → Prop
  | array (a A) : DStep d (.array a A) { d with arr := upd d.arr a (some (A, true)) }
  | write (a A B) (h : d.arr a = some (B, true)) : DStep d (.write a A) { d with arr := upd d.arr a (some (A, true)) }
  | read (a x : ℕ) (i : ℕ) (t : Ten) (A : NDArray ℂ) (h : d.ten x = some t) (hi : i < t.shape.length) :
      DStep d (.read a x i) { d with arr := upd d.arr a (some (A, false)) }
  | make (x f as ts t) (h : d.arrs as ts) (hf : MakeDen f ts t) :
      DStep d (.make x f as) { d with ten := upd d.ten x (some t) }
  | set (x : ℕ) (i : ℕ) (a : ℕ) (t A b u) (hx : d.ten x = some t) (ha : d.arr a = some (A, b)) (hi : i < t.shape.length)
      (hA : PosShape A) :
      DStep d (.set x i a) { d with ten := upd d.ten x (some ⟨t.shape.set i (A.shape.drop 1).dropLast, u⟩) }
  | call (x f ys ts t) (h : d.tens ys ts) (hf : Den f ts t) : DStep d (.call x f ys) { d with ten := upd d.ten x (some t) }
  | same (x y t) (h : d.ten y = some t) : DStep d (.same x y) { d with ten := upd d.ten x (some t) }
  | wrap (x y t) (h : d.ten y = some t) : DStep d (.wrap x y) { d with ten := upd d.ten x (some t) }
  | inplace (f x ys s ts t) (hx : d.ten x = some s) (h : d.tens ys ts) (hf : InDen f s ts t) :
      DStep d (.inplace f x ys) { d with ten := upd d.ten x (some t) }
  | move (x y t) (h : d.ten y = some t) : DStep d (.move x y) { d with ten := upd (upd d.ten y none) x (some t) }
  | rebind (x y s t) (hx : d.ten x = some s) (h : d.ten y = some t) :
      DStep d (.rebind x y) { d with ten := upd (upd d.ten y none) x (some t) }

/-- A program on dense tensors. -/
inductive DRun : DVals → List Stmt → DVals → Prop
  | nil (d) : DRun d [] d
  | cons (d st d' P d'') (h : DStep d st d') (hP : DRun d' P d'') : DRun d (st :: P) d''

/-- Every statement of the program is allowed, whatever the results of the statements before (only `read`, `set`, `vleg2leg`,
`split` and compressions leave a choice). -/
def Safe : DVals → List Stmt → Prop
  | _, [] => True
  | d, st :: P => (∃ d', DStep d st d') ∧ ∀ d', DStep d st d' → Safe d' P

/-- The MPA represents the tensor: same shape, same entries, and its claims about the canonical form are true. -/
structure Reps (x : MPA ℂ) (t : Ten) : Prop where
  good : x.Good
  shape : x.shape = t.shape
  val : ∀ j, IdxOK j t.shape → x.val j = t.val j

/-- The variables have the values of the dense program. -/
structure RepsAll (v : Vals) (d : DVals) : Prop where
  none : ∀ x, d.ten x = none → v.mpa x = none
  some : ∀ x t, d.ten x = some t → ∃ z, v.mpa x = some z ∧ Reps z t
  arr : v.arr = d.arr

end Prog

end Mpnum
