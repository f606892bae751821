import Verif.MPArray.Dot
import Verif.MPArray.ToArray
import Verif.Sitewise

/-!
# Model of `MPArray.sum` of /repo/mpnum/mparray.py
-/

open Finset

namespace Mpnum

variable {R : Type}

namespace NDArray

/-- `a.sum(axes)` of numpy for valid, non-negative, distinct axes: sum over all values of the legs
`axes`; the other legs remain, in order. -/
def sumTo [AddCommMonoid R] (a : NDArray R) (ax : List ℕ) : NDArray R :=
  ⟨(freeAxes a.ndim ax).map fun p => a.shape.getD p 0,
   fun f => sumIdx (ax.map fun p => a.shape.getD p 0) fun k => a.get (asm a.ndim ax k f)⟩

/-- `a.sum(axes)` of numpy for a tuple of axes: negative axes count from the end, an invalid axis
raises `AxisError` (a subclass of `IndexError` and `ValueError`), a repeated axis `ValueError`. -/
def sum [AddCommMonoid R] (a : NDArray R) (axes : List ℤ) : Py (NDArray R) := do
  let ax ← axes.mapM (pyIndex a.ndim)
  pyGuard ax.Nodup .value
  return a.sumTo ax

end NDArray

/-- The argument `axes` of `MPArray.sum`: `None`, an integer, a sequence of integers, or a sequence
of (sequences of integers or `None`). -/
inductive SumAxes
  | none
  | int (a : ℤ)
  | ints (as : List ℤ)
  | each (as : List (Option (List ℤ)))

/-- mparray.py:429-443: the axes of the local tensor summed at each site.  If the first element of
the sequence is `None`, then the sequence is repeated for all sites and `None + 1` raises
`TypeError`. -/
def siteAxes (axes : SumAxes) (ndims : List ℕ) : Py (List (List ℤ)) :=
  match axes with
  | .none => .ok (ndims.map fun n => (List.range n).map fun a => ((a + 1 : ℕ) : ℤ))
  | .int a => .ok (ndims.map fun _ => [a + 1])
  | .ints as => .ok (ndims.map fun _ => as.map (· + 1))
  | .each [] => .ok (ndims.map fun _ => [])
  | .each (Option.none :: _) => .error .type
  | .each (some a :: as) =>
    if (some a :: as).length = ndims.length then
      .ok (List.zipWith (fun ax n => match ax with
        | Option.none => (List.range n).map fun a => ((a + 1 : ℕ) : ℤ)
        | some ax => ax.map (· + 1)) (some a :: as) ndims)
    else .error .assertion

/-- `MPArray.sum` (mparray.py:408-447).  The result is an array if no physical legs are left, and an
MPA otherwise.  (The class of the result, `type(self)`, is not part of the model.) -/
def MPA.sum [AddCommMonoid R] [Mul R] (x : MPA R) (axes : SumAxes) : Py (NDArray R ⊕ MPA R) := do
  let axs ← siteAxes axes x.ndims
  let ts ← (axs.zip x.lt).mapM fun p => if p.1 = [] then .ok p.2 else p.2.sum p.1
  let out ← mkMPA ts
  if out.ndims.sum = 0 then
    let a ← out.toArray
    return .inl a
  else
    return .inr out

/-! ### lemmas -/

theorem freeAxes_nil (n : ℕ) : NDArray.freeAxes n [] = List.range n := by simp [NDArray.freeAxes]

theorem asm_nil {n : ℕ} {f : List ℕ} (h : f.length = n) : NDArray.asm n [] [] f = f := by
  apply ext_getD (by simp [h])
  intro p hp
  have hp : p < n := by simpa using hp
  rw [NDArray.asm_not_mem (ax := []) (k := []) hp (by simp) rfl, freeAxes_nil, idxOf_range hp]

theorem freeAxes_range (n : ℕ) : NDArray.freeAxes n (List.range n) = [] := by
  simp [NDArray.freeAxes]

theorem asm_range {n : ℕ} {k : List ℕ} (h : k.length = n) :
    NDArray.asm n (List.range n) k [] = k := by
  apply ext_getD (by simp [h])
  intro p hp
  have hp : p < n := by simpa using hp
  rw [NDArray.asm_mem (ax := List.range n) (k := k) hp (by simpa using hp) (by simpa using h),
    idxOf_range hp]

theorem conDims_range (s : List ℕ) : conDims s (List.range s.length) = s := map_getD_range s

theorem freeDims_range (s : List ℕ) : freeDims s (List.range s.length) = [] := by
  rw [freeDims, freeAxes_range]; rfl

theorem freeDims_nil (s : List ℕ) : freeDims s [] = s := by
  rw [freeDims, freeAxes_nil]; exact map_getD_range s

theorem ndim_ph {t : NDArray R} (h : t.IsLocal) : t.ndim = t.ph.length + 2 := by
  rw [NDArray.ndim, NDArray.shape_local h]; simp

/-- One site of `MPArray.sum`. -/
theorem sumTo_lin [CommSemiring R] {t : NDArray R} (ht : t.IsLocal) {ax : List ℕ}
    (hax : ∀ a ∈ ax, a < t.ph.length) :
    SLin t (t.sumTo (ax.map (· + 1))) (conDims t.ph ax)
      (fun f k => NDArray.asm t.ph.length ax k f) ∧
    (t.sumTo (ax.map (· + 1))).ph = freeDims t.ph ax := by
  have hs := NDArray.shape_local ht
  have hn := ndim_ph ht
  have hus : (t.sumTo (ax.map (· + 1))).shape = t.lb :: (freeDims t.ph ax ++ [t.rb]) := by
    show List.map _ _ = _
    rw [hn, NDArray.freeAxes_bonds hax, hs, List.map_cons, List.map_append,
      map_getD_bonds freeAxes_lt]
    simp [conDims, freeDims]
  refine ⟨⟨NDArray.isLocal_of_shape hus, NDArray.lb_of_shape hus, NDArray.rb_of_shape hus, ?_⟩,
    NDArray.ph_of_shape hus⟩
  intro a _ b _ p hp
  rw [NDArray.ph_of_shape hus] at hp
  show sumIdx _ _ = _
  rw [hs, map_getD_bonds hax]
  refine sumIdx_congr fun k hk => ?_
  have hkl : k.length = ax.length := by simpa [conDims] using inB_length hk
  have hpl : p.length = (NDArray.freeAxes t.ph.length ax).length := by
    simpa [freeDims] using inB_length hp
  rw [hn, NDArray.asm_bonds hax hkl hpl]
  rfl

theorem sum_site [CommSemiring R] {t : NDArray R} (ht : t.IsLocal) {ax : List ℕ}
    (hax : ∀ a ∈ ax, a < t.ph.length) (hnd : ax.Nodup) :
    ∃ u, (if (ax.map fun a => ((a + 1 : ℕ) : ℤ)) = [] then Except.ok t
        else t.sum (ax.map fun a => ((a + 1 : ℕ) : ℤ))) = Except.ok u ∧
      SLin t u (conDims t.ph ax) (fun f k => NDArray.asm t.ph.length ax k f) ∧
      u.ph = freeDims t.ph ax := by
  by_cases h0 : ax = []
  · subst h0
    refine ⟨t, by simp, ⟨ht, rfl, rfl, ?_⟩, (freeDims_nil _).symm⟩
    intro a _ b _ p hp
    simp only [conDims, List.map_nil, sumIdx]
    rw [asm_nil (inB_length hp)]
  · refine ⟨t.sumTo (ax.map (· + 1)), ?_, sumTo_lin ht hax⟩
    rw [if_neg (by simpa using h0)]
    unfold NDArray.sum
    have e : (ax.map fun a => ((a + 1 : ℕ) : ℤ)) = (ax.map (· + 1)).map fun a : ℕ => (a : ℤ) := by
      rw [List.map_map]; rfl
    have h1 : (ax.map fun a => ((a + 1 : ℕ) : ℤ)).mapM (pyIndex t.ndim) = .ok (ax.map (· + 1)) := by
      rw [e]
      refine NDArray.mapM_pyIndex_nat ?_
      intro a ha
      obtain ⟨b, hb, rfl⟩ := List.mem_map.1 ha
      have := hax b hb
      rw [ndim_ph ht]; omega
    rw [h1, ok_bind, pyGuard, if_pos (hnd.map fun _ _ h => by omega)]
    rfl

end Mpnum
