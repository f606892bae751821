import Verif.MPArray.RoundingFold
import Verif.MPArray.Inner

/-!
# `to_array`, `dot` and `inner` in inexact arithmetic (/repo/mpnum/mparray.py:259-271, 1118-1153, 1237-1253, 1805-1831, 1906-1921)

The models of these functions in `ToArray.lean` and `Dot.lean` use an exact `numpy.tensordot`.  Here it is replaced by a function
that is only approximately right.  Transpositions and reshapes move the entries only; they are exact.
-/

open Finset

namespace Mpnum

variable {𝕜 : Type}

/-- A routine like `numpy.tensordot(a, b, (axa, axb))`. -/
abbrev TDot (𝕜 : Type) := NDArray 𝕜 → NDArray 𝕜 → List ℤ → List ℤ → Py (NDArray 𝕜)

/-- `matdot` (extmath.py:34-36) with the function `td` for `numpy.tensordot`. -/
def TDot.matdot (td : TDot 𝕜) (a b : NDArray 𝕜) : Py (NDArray 𝕜) := td a b [-1] [0]

/-- `_local_dot` (mparray.py:1805-1831) with the function `td` for `numpy.tensordot`. -/
def localDotF (td : TDot 𝕜) (l r : NDArray 𝕜) (axes : List ℤ × List ℤ) : Py (NDArray 𝕜) := do
  let clegsL := axes.1.length
  let clegsR := axes.2.length
  pyAssert (clegsL = clegsR)
  let res ← td l r axes.1 axes.2
  let res ← res.rollaxis (l.ndim - clegsL) 1
  let res ← res.rollaxis (l.ndim - clegsL) (l.ndim + r.ndim - clegsL - clegsR - 1)
  res.reshape ((l.lb * r.lb :: ((res.shape.drop 2).take (res.ndim - 4) ++ [l.rb * r.rb])).map
    fun n : ℕ => (n : ℤ))

/-- `_ltens_to_array` (mparray.py:1906-1921) with the function `td` for `numpy.tensordot`. -/
def ltensToArrayF (td : TDot 𝕜) : List (NDArray 𝕜) → Py (NDArray 𝕜)
  | [] => .error .stopIteration
  | t :: ts => ts.foldlM td.matdot t

/-- `to_array` (mparray.py:259-271) with the function `td` for `numpy.tensordot`. -/
def MPA.toArrayF (td : TDot 𝕜) (x : MPA 𝕜) : Py (NDArray 𝕜) := do
  (← ltensToArrayF td x.lt).dropBonds

/-- `dot` (mparray.py:1118-1153) with the function `td` for `numpy.tensordot`. -/
def dotF (td : TDot 𝕜) (x y : MPA 𝕜) (axes : List ℤ × List ℤ) : Py (MPA 𝕜) := do
  pyAssert (x.len = y.len)
  let ltens ← zipM (fun l r => localDotF td l r (axes.1.map adaptAxis, axes.2.map adaptAxis)) x.lt y.lt
  mkMPA ltens

/-- `inner` (mparray.py:1237-1253) with the function `td` for `numpy.tensordot`. -/
def innerF [Star 𝕜] (td : TDot 𝕜) (x y : MPA 𝕜) : Py 𝕜 := do
  pyAssert (x.len = y.len)
  let ltens ← zipM (fun l r => do
    let l' ← localRavel l
    let r' ← localRavel r
    localDotF td l'.conj r' ([1], [1])) x.lt y.lt
  let a ← ltensToArrayF td ltens
  let b ← a.dropBonds
  return b.get []

section exact
variable [AddCommMonoid 𝕜] [Mul 𝕜]

theorem ltensToArrayF_exact (ts : List (NDArray 𝕜)) : ltensToArrayF NDArray.tensordot ts = ltensToArray ts := by cases ts <;> rfl

theorem MPA.toArrayF_exact (x : MPA 𝕜) : x.toArrayF NDArray.tensordot = x.toArray := by
  unfold MPA.toArrayF MPA.toArray; rw [ltensToArrayF_exact]

theorem dotF_exact (x y : MPA 𝕜) (axes : List ℤ × List ℤ) : dotF NDArray.tensordot x y axes = dot x y axes := rfl

theorem innerF_exact [Star 𝕜] (x y : MPA 𝕜) : innerF NDArray.tensordot x y = inner x y := by
  unfold innerF inner
  simp only [ltensToArrayF_exact]
  rfl

end exact

variable [RCLike 𝕜]

/-- Contract of `numpy.tensordot` with relative error `ε`: it succeeds whenever the exact function does, with a result of the same
shape, and `‖fl(a b) - a b‖ ≤ ε ‖a‖ ‖b‖` (2-norms of all entries). -/
def TdNear (ε : ℝ) (td : TDot 𝕜) : Prop :=
  ∀ (a b : NDArray 𝕜) (axa axb : List ℤ) (c : NDArray 𝕜), a.tensordot b axa axb = .ok c →
    ∃ c', td a b axa axb = .ok c' ∧ c'.shape = c.shape ∧ arrDist c c' ≤ ε * (npNorm a * npNorm b)

theorem TdNear.md {ε : ℝ} (hε : 0 ≤ ε) {td : TDot 𝕜} (h : TdNear ε td) : MdNear ε td.matdot := by
  intro a b sa sb k ha hb
  obtain ⟨c, h1, h2, h3⟩ := NDArray.matdot_ok (a := a) (b := b) ha hb
  obtain ⟨c', g1, g2, g3⟩ := h a b _ _ c h1
  refine ⟨c', g1, g2.trans h2, ?_⟩
  have := pow_le_pow_left₀ (arrDist_nonneg _ _) g3 2
  rw [arrDist_sq, mul_pow, mul_pow, npNorm_sq, npNorm_sq, h2, sum_idxSet_append] at this
  refine le_trans (le_of_eq ?_) this
  rw [sumIdx_eq_sum]
  refine Finset.sum_congr rfl fun i hi => ?_
  rw [sumIdx_eq_sum]
  exact Finset.sum_congr rfl fun j hj => by rw [h3 i j (inB_length (mem_idxSet.1 hi)) (inB_length (mem_idxSet.1 hj))]

/-! ### moving the entries -/

theorem perm_index {perm j : List ℕ} {n : ℕ} (hperm : perm.Perm (List.range n)) (hj : j.length = n) :
    ((List.range n).map fun p => (perm.map fun p => j.getD p 0).getD (perm.idxOf p) 0) = j := by
  conv_rhs => rw [← map_getD_range' hj]
  apply List.map_congr_left
  intro p hp
  have hlt : perm.idxOf p < perm.length := List.idxOf_lt_length_iff.2 (hperm.mem_iff.2 hp)
  rw [getD_map_getD hlt]
  congr 1
  rw [List.getD_eq_getElem?_getD, List.getElem?_eq_getElem hlt]
  simp

theorem arrDist_transposeTo {a b : NDArray 𝕜} (hs : b.shape = a.shape) {perm : List ℕ} (hperm : perm.Perm (List.range a.ndim)) :
    arrDist (a.transposeTo perm) (b.transposeTo perm) = arrDist a b := by
  have hnd : b.ndim = a.ndim := by unfold NDArray.ndim; rw [hs]
  have hlp : perm.length = a.ndim := by rw [hperm.length_eq]; simp
  unfold arrDist
  congr 1
  rw [sumIdx_eq_sum, sumIdx_eq_sum]
  symm
  refine Finset.sum_nbij' (fun j => perm.map fun p => j.getD p 0) (fun k => (List.range a.ndim).map fun p => k.getD (perm.idxOf p) 0)
    ?_ ?_ ?_ ?_ ?_
  · intro j hj
    have hj := mem_idxSet.1 hj
    rw [mem_idxSet, NDArray.transposeTo_shape]
    refine inB_of_getD (by simp) fun m hm => ?_
    rw [List.length_map] at hm
    rw [getD_map_getD hm, getD_map_getD hm]
    refine inB_getD hj ?_
    have : perm.getD m 0 ∈ perm := by
      rw [List.getD_eq_getElem?_getD, List.getElem?_eq_getElem hm]; simp
    have := hperm.mem_iff.1 this
    rw [List.mem_range] at this
    exact this
  · intro k hk
    have hk := mem_idxSet.1 hk
    rw [NDArray.transposeTo_shape] at hk
    have hkl : k.length = perm.length := by simpa using inB_length hk
    rw [mem_idxSet]
    refine inB_of_getD (by simp [NDArray.ndim]) fun p hp => ?_
    have hp' : p ∈ perm := hperm.mem_iff.2 (by simpa [NDArray.ndim] using hp)
    have hlt : perm.idxOf p < perm.length := List.idxOf_lt_length_iff.2 hp'
    have := inB_getD hk (n := perm.idxOf p) (by simpa using hlt)
    rw [getD_map_getD hlt] at this
    rw [show perm.getD (perm.idxOf p) 0 = p by rw [List.getD_eq_getElem?_getD, List.getElem?_eq_getElem hlt]; simp] at this
    rw [show ((List.range a.ndim).map fun p => k.getD (perm.idxOf p) 0).getD p 0 = k.getD (perm.idxOf p) 0 by
      rw [List.getD_eq_getElem?_getD, List.getElem?_map, List.getElem?_range (show p < a.ndim from hp)]; rfl]
    exact this
  · intro j hj
    have hj := mem_idxSet.1 hj
    exact perm_index hperm (inB_length hj)
  · intro k hk
    have hk := mem_idxSet.1 hk
    rw [NDArray.transposeTo_shape] at hk
    have hkl : k.length = perm.length := by simpa using inB_length hk
    refine ext_getD (by simp [hkl]) fun m hm => ?_
    rw [List.length_map] at hm
    rw [getD_map_getD hm]
    have hmem : perm[m] ∈ List.range a.ndim := hperm.mem_iff.1 (List.getElem_mem hm)
    have e : perm.getD m 0 = perm[m] := by rw [List.getD_eq_getElem?_getD, List.getElem?_eq_getElem hm]; rfl
    rw [e, List.getD_eq_getElem?_getD, List.getElem?_map, List.getElem?_range (by simpa using hmem)]
    have hnd' : perm.Nodup := hperm.nodup_iff.2 List.nodup_range
    simp only [Option.map_some, Option.getD_some]
    rw [List.Nodup.idxOf_getElem hnd']
  · intro j hj
    have hj := mem_idxSet.1 hj
    rw [NDArray.transposeTo_get_perm hperm (inB_length hj),
      NDArray.transposeTo_get_perm (a := b) (by rw [hnd]; exact hperm) (by rw [hnd]; exact inB_length hj)]

theorem arrDist_reshapeTo {a b : NDArray 𝕜} (hs : b.shape = a.shape) {s : List ℕ} (h : a.shape.prod = s.prod) :
    arrDist (a.reshapeTo s) (b.reshapeTo s) = arrDist a b := by
  unfold arrDist
  congr 1
  rw [← sumIdx_reshape h]
  show sumIdx s _ = _
  refine sumIdx_congr fun i _ => ?_
  show ‖a.get (unravelIdx a.shape _) - b.get (unravelIdx b.shape _)‖ ^ 2 = _
  rw [hs]

theorem rollaxis_dist {a b c : NDArray 𝕜} (hs : b.shape = a.shape) {axis start : ℕ} (h : a.rollaxis axis start = .ok c) :
    ∃ c', b.rollaxis axis start = .ok c' ∧ c'.shape = c.shape ∧ arrDist c c' = arrDist a b := by
  have hnd : b.ndim = a.ndim := by unfold NDArray.ndim; rw [hs]
  unfold NDArray.rollaxis at h
  split at h
  case isTrue hc =>
    cases h
    refine ⟨b.rollaxisTo axis start, NDArray.rollaxis_ok (by omega) (by omega), ?_, ?_⟩
    · unfold NDArray.rollaxisTo
      rw [NDArray.transposeTo_shape, NDArray.transposeTo_shape, hs, hnd]
    · unfold NDArray.rollaxisTo
      rw [hnd]
      exact arrDist_transposeTo hs (NDArray.rollPerm_perm hc.1 hc.2)
  case isFalse => cases h

theorem resolveShape_nat {size : ℕ} {s : List ℕ} {t : List ℕ} (h : NDArray.resolveShape size (s.map fun n : ℕ => (n : ℤ)) = .ok t) :
    t = s ∧ s.prod = size := by
  unfold NDArray.resolveShape at h
  have h1 : (s.map fun n : ℕ => (n : ℤ)).filter (· < 0) = [] := by
    rw [List.filter_eq_nil_iff]; intro a ha; obtain ⟨n, _, rfl⟩ := List.mem_map.1 ha; simp
  have h2 : (s.map fun n : ℕ => (n : ℤ)).filter (0 ≤ ·) = s.map fun n : ℕ => (n : ℤ) := by
    rw [List.filter_eq_self]; intro a ha; obtain ⟨n, _, rfl⟩ := List.mem_map.1 ha; simp
  have h3 : (s.map fun n : ℕ => (n : ℤ)).map Int.toNat = s := by
    rw [List.map_map]; conv_rhs => rw [← List.map_id s]
    exact List.map_congr_left fun n _ => by simp
  rw [h1, h2, h3] at h
  simp only at h
  split at h
  · cases h; exact ⟨rfl, by assumption⟩
  · cases h

theorem reshape_dist {a b c : NDArray 𝕜} (hs : b.shape = a.shape) {s : List ℕ} (h : a.reshape (s.map fun n : ℕ => (n : ℤ)) = .ok c) :
    ∃ c', b.reshape (s.map fun n : ℕ => (n : ℤ)) = .ok c' ∧ c'.shape = c.shape ∧ arrDist c c' = arrDist a b := by
  have hsz : b.size = a.size := by unfold NDArray.size; rw [hs]
  unfold NDArray.reshape at h ⊢
  rw [hsz]
  cases ht : NDArray.resolveShape a.size (s.map fun n : ℕ => (n : ℤ)) with
  | error e => rw [ht] at h; cases h
  | ok t =>
    rw [ht] at h
    cases h
    obtain ⟨rfl, hp⟩ := resolveShape_nat ht
    exact ⟨b.reshapeTo _, rfl, rfl, arrDist_reshapeTo hs hp.symm⟩

/-- `_local_dot` has the error of `numpy.tensordot`. -/
theorem localDotF_near {ε : ℝ} {td : TDot 𝕜} (h : TdNear ε td) {l r z : NDArray 𝕜} {axes : List ℤ × List ℤ}
    (hz : localDot l r axes = .ok z) :
    ∃ z', localDotF td l r axes = .ok z' ∧ z'.shape = z.shape ∧ arrDist z z' ≤ ε * (npNorm l * npNorm r) := by
  unfold localDot at hz
  obtain ⟨_, h0, hz⟩ := bind_ok_inv hz
  obtain ⟨t, h1, hz⟩ := bind_ok_inv hz
  obtain ⟨u, h2, hz⟩ := bind_ok_inv hz
  obtain ⟨v, h3, hz⟩ := bind_ok_inv hz
  obtain ⟨t', g1, g2, g3⟩ := h l r _ _ t h1
  obtain ⟨u', k1, k2, k3⟩ := rollaxis_dist g2 h2
  obtain ⟨v', k4, k5, k6⟩ := rollaxis_dist k2 h3
  obtain ⟨z', k7, k8, k9⟩ := reshape_dist k5 hz
  refine ⟨z', ?_, k8, by rw [k9, k6, k3]; exact g3⟩
  unfold localDotF
  simp only
  rw [h0, ok_bind, g1, ok_bind, k1, ok_bind, k4, ok_bind]
  rw [show v'.ndim = v.ndim by unfold NDArray.ndim; rw [k5], k5]
  exact k7

end Mpnum
