import Verif.MPArray.Sum

/-!
# Model of `get`, `axis_iter` and `diag` of /repo/mpnum/mparray.py
-/

open Finset

namespace Mpnum

variable {R : Type}

/-- Insert the entry `i` at position `p` of a multi-index. -/
def insAt (p i : ℕ) (f : List ℕ) : List ℕ := f.take p ++ i :: f.drop p

/-- Remove position `p` of a shape. -/
def delAt (p : ℕ) (s : List ℕ) : List ℕ := s.take p ++ s.drop (p + 1)

namespace NDArray

/-- `a[:, ..., :, i]` with `p` full slices in front of the integer `i` (numpy basic indexing), for a
valid non-negative `i`. -/
def takeAt (a : NDArray R) (p i : ℕ) : NDArray R := ⟨delAt p a.shape, fun f => a.get (insAt p i f)⟩

/-- `a[:, ..., :, i]`: `IndexError` for too many indices or an index out of range. -/
def take (a : NDArray R) (p : ℕ) (i : ℤ) : Py (NDArray R) :=
  if p < a.ndim then do
    let i ← pyIndex (a.shape.getD p 0) i
    return a.takeAt p i
  else .error .index

/-- `list(iter(a))`: the sub-arrays along the first axis. -/
def iter (a : NDArray R) : List (NDArray R) := (List.range (a.shape.getD 0 0)).map (a.takeAt 0)

end NDArray

/-- `itertools.product(*ls)` -/
def pyProduct {α : Type} : List (List α) → List (List α)
  | [] => [[]]
  | l :: ls => l.flatMap fun a => (pyProduct ls).map (a :: ·)

namespace MPA

/-- One site of `get` (mparray.py:102): `lt[:, i, ..., :]` needs three axes. -/
def getSite (t : NDArray R) (i : ℤ) : Py (NDArray R) :=
  if t.ndim < 3 then .error .index else t.take 1 i

/-- `MPArray.get` (mparray.py:90-102).  The class of the result is not part of the model. -/
def get (x : MPA R) (indices : List ℤ) : Py (MPA R) := do
  pyAssert (indices.length = x.len)
  let ts ← (indices.zip x.lt).mapM fun p => getSite p.2 p.1
  mkMPA ts

/-- One site of `axis_iter` (mparray.py:303): `iter(np.rollaxis(lten, i + 1))`. -/
def iterSite (t : NDArray R) (i : ℤ) : Py (List (NDArray R)) := do
  let ax ← pyIndex t.ndim (i + 1)
  let t' ← t.rollaxis ax 0
  return t'.iter

/-- `list(self.axis_iter(axes))` for a sequence `axes` (mparray.py:286-306).  The model evaluates the
whole iterator. -/
def axisIter (x : MPA R) (axes : List ℤ) : Py (List (MPA R)) := do
  let ls ← (axes.zip x.lt).mapM fun p => iterSite p.2 p.1
  (pyProduct ls).mapM mkMPA

/-- `list(self.axis_iter(a))` for an integer (mparray.py:300-301) -/
def axisIterInt (x : MPA R) (a : ℤ) : Py (List (MPA R)) := x.axisIter (List.replicate x.len a)

/-- `diag` (mparray.py:1306-1335), first part: the list `mpas`.  `(slice(None),) * (axis + 1)` is
empty for a negative axis. -/
def diagMPAs (x : MPA R) (axis : ℤ) : Py (List (MPA R)) := do
  let s0 := x.shape.headD []
  let p ← pyIndex s0.length axis
  let dim := s0.getD p 0
  let valid ← x.shape.mapM fun s => do
    let p ← pyIndex s.length axis
    return decide (s.getD p 0 = dim)
  pyAssert (valid.all id = true)
  pyAssert (x.ndims.all (fun n => decide (n = x.ndims.headD 0)) = true)
  (List.range dim).mapM fun i => do
    let ts ← x.lt.mapM fun t => t.take (axis + 1).toNat i
    mkMPA ts

/-- `diag` (mparray.py:1306-1335): an array of numbers for one leg per site, else an array of MPAs. -/
def diag [AddCommMonoid R] [Mul R] (x : MPA R) (axis : ℤ) : Py (List (NDArray R) ⊕ List (MPA R)) := do
  let ys ← x.diagMPAs axis
  if (x.shape.headD []).length = 1 then
    let as ← ys.mapM MPA.toArray
    return .inl as
  else
    return .inr ys

end MPA

/-! ### lemmas -/

theorem insAt_cons (p i a : ℕ) (f : List ℕ) : insAt (p + 1) i (a :: f) = a :: insAt p i f := rfl

theorem delAt_cons (p a : ℕ) (f : List ℕ) : delAt (p + 1) (a :: f) = a :: delAt p f := rfl

theorem insAt_append {p i : ℕ} {f g : List ℕ} (h : p ≤ f.length) :
    insAt p i (f ++ g) = insAt p i f ++ g := by
  unfold insAt
  rw [List.take_append_of_le_length h, List.drop_append_of_le_length h]
  simp

theorem delAt_append {p : ℕ} {f g : List ℕ} (h : p < f.length) :
    delAt p (f ++ g) = delAt p f ++ g := by
  unfold delAt
  rw [List.take_append_of_le_length h.le, List.drop_append_of_le_length h]
  simp

theorem delAt_length {p : ℕ} {s : List ℕ} (h : p < s.length) : (delAt p s).length = s.length - 1 := by
  unfold delAt; simp; omega

/-- Indexing one physical leg of a local tensor. -/
theorem takeAt_pull {t : NDArray R} (ht : t.IsLocal) {p : ℕ} (hp : p < t.ph.length) (i : ℕ) :
    SPull t (t.takeAt (p + 1) i) (insAt p i) ∧ (t.takeAt (p + 1) i).ph = delAt p t.ph := by
  have hs := NDArray.shape_local ht
  have hus : (t.takeAt (p + 1) i).shape = t.lb :: (delAt p t.ph ++ [t.rb]) := by
    show delAt _ _ = _
    rw [hs, delAt_cons, delAt_append hp]
  refine ⟨⟨NDArray.isLocal_of_shape hus, NDArray.lb_of_shape hus, NDArray.rb_of_shape hus, ?_⟩,
    NDArray.ph_of_shape hus⟩
  intro a _ b _ f hf
  rw [NDArray.ph_of_shape hus] at hf
  have hl : f.length = t.ph.length - 1 := by rw [inB_length hf, delAt_length hp]
  show t.get (insAt (p + 1) i (a :: (f ++ [b]))) = t.get _
  rw [insAt_cons, insAt_append (by omega)]

theorem sumSites_empty [AddCommMonoid R] {σ : Type} (sites : List σ) (g : List (List ℕ) → R) :
    (sumSites (sites.map fun _ => []) g) = g (sites.map fun _ => []) := by
  induction sites generalizing g with
  | nil => rfl
  | cons s ss ih => simp only [List.map_cons, sumSites_cons, sumIdx, ih]

theorem zipWith3_const {σ : Type} (φ : σ → List ℕ → List ℕ) (sites : List σ) (idx : List (List ℕ)) :
    List.zipWith3 (fun s f (_ : List ℕ) => φ s f) sites idx (sites.map fun _ => [])
      = List.zipWith φ sites idx := by
  induction sites generalizing idx with
  | nil => rfl
  | cons s ss ih => cases idx with
    | nil => rfl
    | cons i is => simp only [List.map_cons, List.zipWith3, List.zipWith_cons_cons, ih]

/-- A change of the physical index site by site. -/
theorem pull_values [CommSemiring R] {x : MPA R} (hx : x.Valid) {σ : Type} {sites : List σ}
    {T : σ → NDArray R} (hT : sites.map T = x.lt) {f : σ → Py (NDArray R)}
    {φ : σ → List ℕ → List ℕ} {q : σ → List ℕ}
    (hf : ∀ s ∈ sites, ∃ u, f s = .ok u ∧ SPull (T s) u (φ s) ∧ u.ph = q s) :
    ∃ us, sites.mapM f = .ok us ∧ us ≠ [] ∧ Chained 1 us 1 ∧ us.length = x.len ∧
      physShape us = sites.map q ∧ us.tail.map NDArray.lb = x.ranks ∧
      (∀ idx, IdxOK idx (sites.map q) → entry us idx = x.val (List.zipWith φ sites idx)) := by
  obtain ⟨us, h1, h2, h3, h4, h5, h6, h7⟩ := lin_core hx hT (f := f) (K := fun _ => [])
    (φ := fun s f _ => φ s f) (q := q) (by
      intro s hs
      obtain ⟨u, a, b, c⟩ := hf s hs
      exact ⟨u, a, ⟨b.loc, b.lb, b.rb, fun a ha b' hb p hp => b.at3 a ha b' hb p hp⟩, c⟩)
  refine ⟨us, h1, h2, h3, h4, h5, h6, ?_⟩
  intro idx hi
  rw [h7 idx hi, sumSites_empty, zipWith3_const]

/-- `G p i t` is the local tensor `t` with the physical leg `p` fixed to `i`. -/
def Picks (G : ℕ → ℕ → NDArray R → NDArray R) : Prop :=
  ∀ p i t, t.IsLocal → p < t.ph.length → SPull t (G p i t) (insAt p i) ∧ (G p i t).ph = delAt p t.ph

/-- Picking the entry `i` of leg `p` at each site, for a list of pairs `(p, i)`. -/
theorem pick_core [CommSemiring R] {x : MPA R} (hx : x.Valid) {ps : List (ℕ × ℕ)}
    {G : ℕ → ℕ → NDArray R → NDArray R} (hG : Picks G)
    (hl : ps.length = x.len) (hp : ∀ q ∈ x.shape.zip ps, q.2.1 < q.1.length) :
    ∃ us, List.zipWith (fun p t => G p.1 p.2 t) ps x.lt = us ∧ us ≠ [] ∧
      Chained 1 us 1 ∧ us.length = x.len ∧
      physShape us = List.zipWith (fun p s => delAt p.1 s) ps x.shape ∧
      us.tail.map NDArray.lb = x.ranks ∧
      (∀ idx, IdxOK idx (physShape us) →
        entry us idx = x.val (List.zipWith (fun p f => insAt p.1 p.2 f) ps idx)) := by
  have hT : (ps.zip x.lt).map Prod.snd = x.lt := List.map_snd_zip (by simp [hl, MPA.len])
  have hL : (ps.zip x.lt).map Prod.fst = ps := List.map_fst_zip (by simp [hl, MPA.len])
  obtain ⟨us, h1, h2, h3, h4, h5, h6, h7⟩ := pull_values hx hT
    (f := fun p => .ok (G p.1.1 p.1.2 p.2)) (φ := fun p => insAt p.1.1 p.1.2)
    (q := fun p => delAt p.1.1 p.2.ph) (by
      intro q hq
      refine ⟨_, rfl, hG _ _ _ (hx.chain.isLocal _ (List.of_mem_zip hq).2) ?_⟩
      refine hp (q.2.ph, q.1) ?_
      rw [MPA.shape, List.mem_iff_getElem] at *
      obtain ⟨n, hn, rfl⟩ := hq
      exact ⟨n, by simpa [and_comm] using hn, by simp⟩)
  have hus : List.zipWith (fun p t => G p.1 p.2 t) ps x.lt = us := by
    rw [mapM_ok (g := fun p : (ℕ × ℕ) × NDArray R => G p.1.1 p.1.2 p.2)
      (fun _ _ => rfl)] at h1
    rw [← List.map_uncurry_zip_eq_zipWith]
    injection h1
  have hph : physShape us = List.zipWith (fun p s => delAt p.1 s) ps x.shape := by
    rw [h5, MPA.shape, List.zipWith_map_right, ← List.map_uncurry_zip_eq_zipWith]; rfl
  refine ⟨us, hus, h2, h3, h4, hph, h6, ?_⟩
  intro idx hi
  rw [h7 idx (h5 ▸ hi)]
  congr 1
  conv_rhs => rw [← hL]
  rw [List.zipWith_map_left]

end Mpnum
