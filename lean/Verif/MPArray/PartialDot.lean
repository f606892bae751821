import Verif.Props.C08

/-!
# Model of `partialdot` of /repo/mpnum/mparray.py

The chain-level form of `_local_dot` on a window of sites with arbitrary bonds, and `partialdot`.
-/

open Finset

namespace Mpnum

variable {R : Type}

/-- Admissible leg sizes for the contraction of two windows of the same length. -/
structure DotLegs (S S' : List (List ℕ)) (axes : List ℤ × List ℤ) : Prop where
  len : S.length = S'.length
  axl : ∀ s ∈ S, AxesIn axes.1 s.length ∧ (axesOf axes.1 s.length).Nodup
  axr : ∀ s ∈ S', AxesIn axes.2 s.length ∧ (axesOf axes.2 s.length).Nodup
  dims : S.map (fun s => conDims s (axesOf axes.1 s.length)) =
    S'.map (fun s => conDims s (axesOf axes.2 s.length))

/-- Local dots on a window of sites. -/
theorem dot_chain [CommSemiring R] {ls rs : List (NDArray R)} {axes : List ℤ × List ℤ}
    {lL rL lR rR : ℕ} (hL : Chained lL ls rL) (hR : Chained lR rs rR)
    (h : DotLegs (ls.map NDArray.ph) (rs.map NDArray.ph) axes) :
    ∃ zs, zipM (fun l r => localDot l r (axes.1.map adaptAxis, axes.2.map adaptAxis)) ls rs = .ok zs ∧
      zs.length = ls.length ∧ Chained (lL * lR) zs (rL * rR) ∧
      zs.map NDArray.ph
        = List.zipWith (· ++ ·) ((ls.map NDArray.ph).map fun s => freeDims s (axesOf axes.1 s.length))
          ((rs.map NDArray.ph).map fun s => freeDims s (axesOf axes.2 s.length)) ∧
      zs.map NDArray.lb = List.zipWith (· * ·) (ls.map NDArray.lb) (rs.map NDArray.lb) ∧
      ∀ f g, IdxOK f ((ls.map NDArray.ph).map fun s => freeDims s (axesOf axes.1 s.length)) →
        IdxOK g ((rs.map NDArray.ph).map fun s => freeDims s (axesOf axes.2 s.length)) →
        ∀ a < lL, ∀ a' < lR, ∀ b < rL, ∀ b' < rR,
        mp zs (List.zipWith (· ++ ·) f g) (a * lR + a') (b * rR + b')
          = sumSites ((ls.map NDArray.ph).map fun s => conDims s (axesOf axes.1 s.length)) fun k =>
              mp ls (mergeIdx axes.1 (ls.map NDArray.ph) k f) a b *
              mp rs (mergeIdx axes.2 (rs.map NDArray.ph) k g) a' b' := by
  obtain ⟨hlen, hal, har, hdim⟩ := h
  have hlen : ls.length = rs.length := by simpa using hlen
  have hdz : ∀ l r, (l, r) ∈ ls.zip rs →
      conDims l.ph (axesOf axes.1 l.ph.length) = conDims r.ph (axesOf axes.2 r.ph.length) := by
    intro l r hm
    obtain ⟨n, hn, he⟩ := List.mem_iff_getElem.1 hm
    simp only [List.getElem_zip, Prod.mk.injEq] at he
    have h1 : n < ls.length := by simp at hn; omega
    have h2 : n < rs.length := by simp at hn; omega
    have := congrArg (fun q => q[n]?) hdim
    simp only [List.map_map, List.getElem?_map, List.getElem?_eq_getElem h1,
      List.getElem?_eq_getElem h2, he.1, he.2, Option.map_some, Option.some.injEq] at this
    exact this
  obtain ⟨ts, hz, hl, hr, hP⟩ := zipM_triples
    (f := fun l r => localDot l r (axes.1.map adaptAxis, axes.2.map adaptAxis))
    (P := fun l r z => PSite.OK ⟨l, r, z, conDims l.ph (axesOf axes.1 l.ph.length),
      freeDims l.ph (axesOf axes.1 l.ph.length), freeDims r.ph (axesOf axes.2 r.ph.length),
      NDArray.asm l.ph.length (axesOf axes.1 l.ph.length),
      NDArray.asm r.ph.length (axesOf axes.2 r.ph.length)⟩)
    (ls := ls) (rs := rs) hlen (by
      intro l r hm
      have hml : l ∈ ls := (List.of_mem_zip hm).1
      have hmr : r ∈ rs := (List.of_mem_zip hm).2
      have hll := hL.isLocal l hml
      have hrl := hR.isLocal r hmr
      have hln : l.ndim = l.ph.length + 2 := by rw [NDArray.ndim, NDArray.shape_local hll]; simp
      have hrn : r.ndim = r.ph.length + 2 := by rw [NDArray.ndim, NDArray.shape_local hrl]; simp
      obtain ⟨h1, h2⟩ := hal l.ph (List.mem_map_of_mem hml)
      obtain ⟨h3, h4⟩ := har r.ph (List.mem_map_of_mem hmr)
      exact localDot_ok hll hrl (by rw [hln]; exact mapM_adapt h1) (by rw [hrn]; exact mapM_adapt h3)
        (axesOf_lt h1) (axesOf_lt h3) h2 h4 (hdz l r hm))
  obtain ⟨g, hg⟩ : ∃ g : NDArray R × NDArray R × NDArray R → PSite R, g = fun t =>
    ⟨t.1, t.2.1, t.2.2, conDims t.1.ph (axesOf axes.1 t.1.ph.length),
      freeDims t.1.ph (axesOf axes.1 t.1.ph.length), freeDims t.2.1.ph (axesOf axes.2 t.2.1.ph.length),
      NDArray.asm t.1.ph.length (axesOf axes.1 t.1.ph.length),
      NDArray.asm t.2.1.ph.length (axesOf axes.2 t.2.1.ph.length)⟩ := ⟨_, rfl⟩
  have hok : ∀ s ∈ ts.map g, s.OK := by
    intro s hs
    obtain ⟨t, ht, rfl⟩ := List.mem_map.1 hs
    rw [hg]
    exact hP t ht
  have e1 : (ts.map g).map PSite.l = ls := by rw [List.map_map, ← hl, hg]; rfl
  have e2 : (ts.map g).map PSite.r = rs := by rw [List.map_map, ← hr, hg]; rfl
  have e3 : (ts.map g).map PSite.z = ts.map fun t => t.2.2 := by rw [List.map_map, hg]; rfl
  have e4 : (ts.map g).map PSite.SL
      = (ls.map NDArray.ph).map fun s => freeDims s (axesOf axes.1 s.length) := by
    rw [← hl, List.map_map, List.map_map, List.map_map, hg]; rfl
  have e5 : (ts.map g).map PSite.SR
      = (rs.map NDArray.ph).map fun s => freeDims s (axesOf axes.2 s.length) := by
    rw [← hr, List.map_map, List.map_map, List.map_map, hg]; rfl
  have e6 : (ts.map g).map PSite.K
      = (ls.map NDArray.ph).map fun s => conDims s (axesOf axes.1 s.length) := by
    rw [← hl, List.map_map, List.map_map, List.map_map, hg]; rfl
  have e7 : ∀ ks fs, pidx PSite.F (ts.map g) ks fs = mergeIdx axes.1 (ls.map NDArray.ph) ks fs := by
    intro ks fs
    rw [mergeIdx, ← hl, List.map_map]
    exact pidx_map (fun _ _ _ => by rw [hg]; rfl) _ _ _
  have e8 : ∀ ks fs, pidx PSite.G (ts.map g) ks fs = mergeIdx axes.2 (rs.map NDArray.ph) ks fs := by
    intro ks fs
    rw [mergeIdx, ← hr, List.map_map]
    exact pidx_map (fun _ _ _ => by rw [hg]; rfl) _ _ _
  obtain ⟨hc, hs⟩ := chained_prod hok (by rw [e1]; exact hL) (by rw [e2]; exact hR)
  rw [e3, e4, e5] at hs
  rw [e3] at hc
  refine ⟨ts.map fun t => t.2.2, hz, by rw [← hl]; simp, hc, (show (ts.map fun t => t.2.2).map NDArray.ph = _ from hs),
    ?_, ?_⟩
  · rw [← hl, ← hr]
    clear * - hP
    induction ts with
    | nil => rfl
    | cons u us ih =>
      simp only [List.map_cons, List.zipWith_cons_cons, NDArray.lb_of_shape (hP u (by simp)).1]
      rw [ih (fun t ht => hP t (by simp [ht]))]
  intro f g' hf hg' a ha a' ha' b hb b' hb'
  have := mp_prod hok (by rw [e1]; exact hL) (by rw [e2]; exact hR)
    (by rw [e4]; exact hf) (by rw [e5]; exact hg') ha ha' hb hb'
  rw [e1, e2, e3, e6] at this
  simp only [e7, e8] at this
  exact this

/-- `_local_dot` where the left tensor may be missing (mparray.py:1225-1228). -/
def dotOptL [AddCommMonoid R] [Mul R] (axes : List ℤ × List ℤ) (l : Option (NDArray R))
    (r : NDArray R) : Py (NDArray R) :=
  match l with
  | none => .ok r
  | some l => localDot l r axes

/-- `_local_dot` where the right tensor may be missing (mparray.py:1225-1228). -/
def dotOptR [AddCommMonoid R] [Mul R] (axes : List ℤ × List ℤ) (l : NDArray R)
    (r : Option (NDArray R)) : Py (NDArray R) :=
  match r with
  | none => .ok l
  | some r => localDot l r axes

/-- The shorter MPA preceded by `start_at` times `None` (none for negative numbers, as in
`itertools.repeat`) and followed by infinitely many `None`, of which `n` suffice for an MPA of length
`n` (mparray.py:1216-1218). -/
def padNone (n : ℕ) (start : ℤ) (ts : List (NDArray R)) : List (Option (NDArray R)) :=
  List.replicate start.toNat none ++ ts.map some ++ List.replicate n none

/-- `partialdot` (mparray.py:1192-1230).  The shorter MPA is padded with `None`, and sites where one
of the tensors is missing are copied. -/
def partialdot [AddCommMonoid R] [Mul R] (x y : MPA R) (start : ℤ) (axes : List ℤ × List ℤ) :
    Py (MPA R) := do
  let axes := (axes.1.map adaptAxis, axes.2.map adaptAxis)
  if x.len < y.len then
    let ltens ← zipM (dotOptL axes) (padNone y.len start x.lt) y.lt
    mkMPA ltens
  else
    let ltens ← zipM (dotOptR axes) x.lt (padNone x.len start y.lt)
    mkMPA ltens

/-! ### zipM on windows -/

theorem zipM_append {α β γ : Type} {f : α → β → Py γ} {as as' : List α} {bs bs' : List β}
    {cs cs' : List γ} (h : zipM f as bs = .ok cs) (hl : as.length = bs.length)
    (h' : zipM f as' bs' = .ok cs') : zipM f (as ++ as') (bs ++ bs') = .ok (cs ++ cs') := by
  induction as generalizing bs cs with
  | nil =>
    cases bs with
    | nil =>
      have : cs = [] := by
        simp only [zipM, Except.ok.injEq] at h; exact h.symm
      subst this; exact h'
    | cons => simp at hl
  | cons a as ih =>
    cases bs with
    | nil => simp at hl
    | cons b bs =>
      simp only [zipM, List.cons_append] at h ⊢
      cases hf : f a b with
      | error e => rw [hf] at h; simp [error_bind] at h
      | ok c =>
        rw [hf, ok_bind] at h
        rw [ok_bind]
        cases hz : zipM f as bs with
        | error e => rw [hz] at h; simp [error_bind] at h
        | ok ds =>
          rw [hz, ok_bind] at h
          have : c :: ds = cs := by simpa [pure, Except.pure] using h
          subst this
          rw [ih hz (by simpa using hl), ok_bind]; rfl

theorem zipM_dotOptR_none [AddCommMonoid R] [Mul R] {axes : List ℤ × List ℤ}
    {ls : List (NDArray R)} {n : ℕ} (h : ls.length ≤ n) :
    zipM (dotOptR axes) ls (List.replicate n none) = .ok ls := by
  induction ls generalizing n with
  | nil => cases n <;> rfl
  | cons l ls ih =>
    cases n with
    | zero => simp at h
    | succ n =>
      rw [List.replicate_succ]
      simp only [zipM, dotOptR, ok_bind]
      rw [ih (by simpa using h)]; rfl

theorem zipM_dotOptL_none [AddCommMonoid R] [Mul R] {axes : List ℤ × List ℤ}
    {ls : List (NDArray R)} {n : ℕ} (h : ls.length ≤ n) :
    zipM (dotOptL axes) (List.replicate n none) ls = .ok ls := by
  induction ls generalizing n with
  | nil => cases n <;> rfl
  | cons l ls ih =>
    cases n with
    | zero => simp at h
    | succ n =>
      rw [List.replicate_succ]
      simp only [zipM, dotOptL, ok_bind]
      rw [ih (by simpa using h)]; rfl

theorem zipM_dotOptR_some [AddCommMonoid R] [Mul R] {axes : List ℤ × List ℤ}
    {ls rs : List (NDArray R)} :
    zipM (dotOptR axes) ls (rs.map some) = zipM (fun l r => localDot l r axes) ls rs := by
  induction ls generalizing rs with
  | nil => cases rs <;> rfl
  | cons l ls ih =>
    cases rs with
    | nil => rfl
    | cons r rs => simp only [List.map_cons, zipM, dotOptR, ih]

theorem zipM_dotOptL_some [AddCommMonoid R] [Mul R] {axes : List ℤ × List ℤ}
    {ls rs : List (NDArray R)} :
    zipM (dotOptL axes) (ls.map some) rs = zipM (fun l r => localDot l r axes) ls rs := by
  induction ls generalizing rs with
  | nil => cases rs <;> rfl
  | cons l ls ih =>
    cases rs with
    | nil => rfl
    | cons r rs => simp only [List.map_cons, zipM, dotOptL, ih]

theorem window_split {α : Type} (L : List α) {s n : ℕ} (h : s + n ≤ L.length) :
    L = L.take s ++ (L.drop s).take n ++ L.drop (s + n) ∧ (L.take s).length = s ∧
      ((L.drop s).take n).length = n := by
  refine ⟨?_, by simp; omega, by simp; omega⟩
  rw [List.append_assoc, ← List.drop_drop, List.take_append_drop, List.take_append_drop]

end Mpnum
