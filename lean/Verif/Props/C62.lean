import Verif.Utils.ExtMath
import Verif.MPArray.Sum
import Verif.Program.DenseLemmas
import Mathlib.Data.List.GetD

/-! # C62: the dense partial trace and the Kronecker product of several arrays -/

open Finset

namespace Mpnum

variable {R : Type}

/-! ### assembling indices one axis at a time -/

/-- The axis `p` of an array without axis `t` in the array with axis `t` -/
def insAxis (t p : ℕ) : ℕ := if p < t then p else p + 1

theorem range_filter_ne {n t : ℕ} (h : t ≤ n) : (List.range (n + 1)).filter (fun p => p ≠ t) = (List.range n).map (insAxis t) := by
  have e1 : List.range (n + 1) = List.range t ++ t :: (List.range (n - t)).map (t + 1 + ·) := by
    rw [show n + 1 = t + 1 + (n - t) by omega, List.range_add, List.range_succ]
    simp
  have e2 : List.range n = List.range t ++ (List.range (n - t)).map (t + ·) := by
    conv_lhs => rw [show n = t + (n - t) by omega, List.range_add]
  rw [e1, e2, List.filter_append, List.filter_cons_of_neg (by simp), List.map_append]
  congr 1
  · rw [List.filter_eq_self.2 (fun a ha => by have := List.mem_range.1 ha; simp; omega)]
    conv_lhs => rw [← List.map_id (List.range t)]
    refine List.map_congr_left fun a ha => ?_
    have := List.mem_range.1 ha
    simp [insAxis, this]
  · rw [List.filter_eq_self.2 (fun a ha => by
      obtain ⟨b, -, rfl⟩ := List.mem_map.1 ha
      simp; omega), List.map_map]
    refine List.map_congr_left fun a _ => ?_
    simp only [Function.comp, insAxis]
    rw [if_neg (by omega)]
    omega

theorem freeAxes_concat {n t : ℕ} {ax : List ℕ} (h : t ≤ n) (hax : ∀ a ∈ ax, a < t) :
    NDArray.freeAxes (n + 1) (ax ++ [t]) = (NDArray.freeAxes n ax).map (insAxis t) := by
  unfold NDArray.freeAxes
  have e1 : (List.range (n + 1)).filter (fun p => decide (p ∉ ax ++ [t]))
      = ((List.range (n + 1)).filter (fun p => p ≠ t)).filter (fun p => decide (p ∉ ax)) := by
    rw [List.filter_filter]
    refine List.filter_congr fun p _ => ?_
    simp
  rw [e1, range_filter_ne h, List.filter_map]
  congr 1
  refine List.filter_congr fun p _ => ?_
  simp only [Function.comp, insAxis, decide_eq_decide]
  split_ifs with hp
  · rfl
  · have h1 : p + 1 ∉ ax := fun hc => by have := hax _ hc; omega
    have h2 : p ∉ ax := fun hc => by have := hax _ hc; omega
    simp [h1, h2]

theorem getD_insAxis {L : List ℕ} {t k p : ℕ} (ht : t ≤ L.length) : (L.insertIdx t k).getD (insAxis t p) 0 = L.getD p 0 := by
  simp only [List.getD_eq_getElem?_getD, insAxis]
  split_ifs with h
  · rw [List.getElem?_insertIdx_of_lt h]
  · rw [List.getElem?_insertIdx_of_gt (by omega)]
    simp

/-- An index is determined by its entries at the axes `ax` and at the others. -/
theorem asm_unique {n : ℕ} {ax L k f : List ℕ} (hL : L.length = n) (hk : k = ax.map fun p => L.getD p 0)
    (hf : f = (NDArray.freeAxes n ax).map fun p => L.getD p 0) : NDArray.asm n ax k f = L := by
  subst hk hf
  refine List.ext_getElem (by simp [hL]) fun p h1 h2 => ?_
  have hp : p < n := by simpa using h1
  rw [← List.getD_eq_getElem _ 0 h1, ← List.getD_eq_getElem _ 0 h2]
  have key : ∀ l : List ℕ, p ∈ l → (l.map fun p => L.getD p 0).getD (l.idxOf p) 0 = L.getD p 0 := by
    intro l hl
    have hi := List.idxOf_lt_length_iff.2 hl
    rw [List.getD_eq_getElem _ _ (by simpa using hi), List.getElem_map, List.getElem_idxOf]
  by_cases hm : p ∈ ax
  · rw [NDArray.asm_mem hp hm (by simp), key _ hm]
  · rw [NDArray.asm_not_mem hp hm (by simp), key _ (by simp [NDArray.freeAxes, hp, hm])]

/-- The last of the axes, in ascending order, can be inserted at the end. -/
theorem asm_concat {n t k : ℕ} {ax ks f : List ℕ} (h : t ≤ n) (hax : ∀ a ∈ ax, a < t) (hnd : ax.Nodup) (hk : ks.length = ax.length)
    (hf : f.length = (NDArray.freeAxes n ax).length) :
    NDArray.asm (n + 1) (ax ++ [t]) (ks ++ [k]) f = (NDArray.asm n ax ks f).insertIdx t k := by
  have hlen : (NDArray.asm n ax ks f).length = n := by simp
  refine asm_unique (by rw [List.length_insertIdx_of_le_length (by omega), hlen]) ?_ ?_
  · rw [List.map_append]
    congr 1
    · refine List.ext_getElem (by simpa using hk) fun i h1 h2 => ?_
      rw [List.getElem_map]
      have hi : i < ax.length := by simpa using h2
      have hlt := hax _ (List.getElem_mem hi)
      have := getD_insAxis (L := NDArray.asm n ax ks f) (t := t) (k := k) (p := ax[i]) (by omega)
      rw [insAxis, if_pos hlt] at this
      rw [this, NDArray.asm_mem (by omega) (List.getElem_mem hi) hk, hnd.idxOf_getElem, List.getD_eq_getElem _ _ h1]
    · simp only [List.map_cons, List.map_nil]
      rw [List.getD_eq_getElem?_getD, List.getElem?_insertIdx_self]
      simp [h]
  · rw [freeAxes_concat h hax, List.map_map]
    have e : ((fun p => ((NDArray.asm n ax ks f).insertIdx t k).getD p 0) ∘ insAxis t) = fun p => (NDArray.asm n ax ks f).getD p 0 := by
      funext p
      exact getD_insAxis (by omega)
    rw [e]
    refine List.ext_getElem (by simpa using hf) fun i h1 h2 => ?_
    rw [List.getElem_map]
    have hi : i < (NDArray.freeAxes n ax).length := by simpa using h2
    have hm := List.getElem_mem hi
    have hm' : (NDArray.freeAxes n ax)[i] < n ∧ (NDArray.freeAxes n ax)[i] ∉ ax := by
      have := List.mem_filter.1 hm
      simpa using this
    have hnd' : (NDArray.freeAxes n ax).Nodup := List.Nodup.filter _ List.nodup_range
    rw [NDArray.asm_not_mem hm'.1 hm'.2 hk, hnd'.idxOf_getElem,
      List.getD_eq_getElem _ _ h1]

theorem freeDims_concat {s ax : List ℕ} {t : ℕ} (h : t < s.length) (hax : ∀ a ∈ ax, a < t) :
    freeDims s (ax ++ [t]) = freeDims (s.eraseIdx t) ax := by
  unfold freeDims
  obtain ⟨n, hn⟩ : ∃ n, s.length = n + 1 := ⟨s.length - 1, by omega⟩
  rw [hn, freeAxes_concat (by omega) hax, List.map_map, List.length_eraseIdx_of_lt h, hn, Nat.add_sub_cancel]
  refine List.map_congr_left fun p _ => ?_
  simp only [Function.comp, insAxis, List.getD_eq_getElem?_getD, List.getElem?_eraseIdx]
  split_ifs <;> rfl

theorem conDims_concat {s ax : List ℕ} {t : ℕ} (hax : ∀ a ∈ ax, a < t) :
    conDims s (ax ++ [t]) = conDims (s.eraseIdx t) ax ++ [s.getD t 0] := by
  unfold conDims
  rw [List.map_append]
  congr 1
  refine List.map_congr_left fun p hp => ?_
  simp only [List.getD_eq_getElem?_getD, List.getElem?_eraseIdx]
  rw [if_pos (hax p hp)]

theorem insertIdx_two {I J : List ℕ} {n t k : ℕ} (hI : I.length = n) (ht : t ≤ n) :
    ((I ++ J).insertIdx t k).insertIdx (t + (n + 1)) k = I.insertIdx t k ++ J.insertIdx t k := by
  obtain ⟨A, B, rfl, hA⟩ : ∃ A B, I = A ++ B ∧ A.length = t := ⟨I.take t, I.drop t, by simp, by simp; omega⟩
  rw [List.append_assoc, ← hA, NDArray.insertIdx_append, NDArray.insertIdx_append]
  rcases Nat.lt_or_ge J.length A.length with h | h
  · rw [List.insertIdx_of_length_lt (by simp [hA] at h ⊢; simp at hI; omega), List.insertIdx_of_length_lt h]
    simp
  · obtain ⟨C, D, rfl, hC⟩ : ∃ C D, J = C ++ D ∧ C.length = A.length := ⟨J.take A.length, J.drop A.length, by simp, by simp; omega⟩
    rw [← hC, NDArray.insertIdx_append]
    have := NDArray.insertIdx_append (A ++ k :: (B ++ C)) D k
    rw [show (A ++ k :: (B ++ C)).length = C.length + (n + 1) by simp at hI ⊢; omega] at this
    simpa using this

/-! ### partial_trace -/

theorem trace_two [AddCommMonoid R] {a : NDArray R} {D : List ℕ} (ha : a.shape = D ++ D) {t : ℕ} (ht : t < D.length) :
    ∃ b, a.trace (t : ℤ) ((t : ℤ) + (D.length : ℕ)) = .ok b ∧ b.shape = D.eraseIdx t ++ D.eraseIdx t ∧
      ∀ I J, I.length = D.length - 1 → J.length = D.length - 1 → b.get (I ++ J) = ∑ k ∈ range (D.getD t 0), a.get (I.insertIdx t k ++ J.insertIdx t k) := by
  obtain ⟨n, hn⟩ : ∃ n, D.length = n + 1 := ⟨D.length - 1, by omega⟩
  have hnd : a.ndim = (2 * n + 1) + 1 := by simp [NDArray.ndim, ha, hn]; omega
  have e1 : pyIndex a.ndim (t : ℤ) = .ok t := pyIndex_nat (by omega)
  have e2 : pyIndex a.ndim ((t : ℤ) + (D.length : ℕ)) = .ok (t + (n + 1)) := by
    rw [hn, ← Nat.cast_add]; exact pyIndex_nat (by omega)
  have hg : a.trace (t : ℤ) ((t : ℤ) + (D.length : ℕ)) = .ok (a.traceTo t (t + (n + 1))) := by
    unfold NDArray.trace
    rw [e1, ok_bind, e2, ok_bind]
    simp [pyGuard]
  have s1 : (D ++ D).getD t 0 = D.getD t 0 := getD_append_lt ht
  have s2 : (D ++ D).getD (t + (n + 1)) 0 = D.getD t 0 := by
    rw [← hn, Nat.add_comm, getD_append_ge]
  refine ⟨_, hg, ?_, ?_⟩
  · have h1 := freeDims_concat (s := D ++ D) (ax := [t]) (t := t + (n + 1)) (by simp; omega) (by simp)
    have h2 := freeDims_concat (s := (D ++ D).eraseIdx (t + (n + 1))) (ax := []) (t := t) (by rw [List.length_eraseIdx_of_lt (by simp; omega)]; simp; omega) (by simp)
    show (NDArray.freeAxes a.ndim [t, t + (n + 1)]).map (fun p => a.shape.getD p 0) = _
    rw [NDArray.ndim, ha]
    show freeDims (D ++ D) [t, t + (n + 1)] = _
    rw [show [t, t + (n + 1)] = [t] ++ [t + (n + 1)] from rfl, h1, show [t] = [] ++ [t] from rfl, h2, freeDims_nil,
      List.eraseIdx_append_of_length_le (by omega), List.eraseIdx_append_of_lt_length ht]
    congr 2
    omega
  · intro I J hI hJ
    show ∑ k ∈ range (min (a.shape.getD t 0) (a.shape.getD (t + (n + 1)) 0)), a.get (NDArray.asm a.ndim [t, t + (n + 1)] [k, k] (I ++ J)) = _
    rw [ha, s1, s2, min_self, hnd]
    refine Finset.sum_congr rfl fun k _ => ?_
    rw [show [t, t + (n + 1)] = [t] ++ [t + (n + 1)] from rfl, show [k, k] = [k] ++ [k] from rfl,
      asm_concat (by omega) (by simp) (by simp) (by simp) ?_, show [t] = [] ++ [t] from rfl, show [k] = [] ++ [k] from rfl,
      asm_concat (by omega) (by simp) (by simp) (by simp) ?_, asm_nil (by simp; omega), insertIdx_two (by omega) (by omega)]
    · simp [NDArray.freeAxes]; omega
    · rw [show [t] = [] ++ [t] from rfl, freeAxes_concat (by omega) (by simp)]
      simp [NDArray.freeAxes]; omega

theorem partialTrace_concat [AddCommMonoid R] (a : NDArray R) (tr : List ℤ) (t : ℤ) :
    partialTrace a (tr ++ [t]) = (do
      pyAssert (a.ndim % 2 = 0)
      let red ← a.trace t (t + (a.ndim / 2 : ℕ))
      partialTrace red tr) := by
  rw [partialTrace]
  split
  · rename_i h; simp at h
  · rename_i t' h
    simp at h
    subst h
    simp

theorem partialTrace_nil [AddCommMonoid R] (a : NDArray R) : partialTrace a [] = .ok a := by
  rw [partialTrace]
  split
  · rfl
  · rename_i h; simp at h

theorem pairwise_concat {tr : List ℕ} {t : ℕ} (h : (tr ++ [t]).Pairwise (· < ·)) : tr.Pairwise (· < ·) ∧ ∀ a ∈ tr, a < t := by
  rw [List.pairwise_append] at h
  exact ⟨h.1, fun a ha => h.2.2 a ha t (by simp)⟩

theorem asm_erase {s tr : List ℕ} {t : ℕ} (ht : t < s.length) (hlt : ∀ a ∈ tr, a < t) (hnd : tr.Nodup) {ks f : List ℕ} {k : ℕ}
    (hk : ks.length = tr.length) (hf : f.length = (freeDims (s.eraseIdx t) tr).length) :
    NDArray.asm s.length (tr ++ [t]) (ks ++ [k]) f = (NDArray.asm (s.eraseIdx t).length tr ks f).insertIdx t k := by
  obtain ⟨n, hn⟩ : ∃ n, s.length = n + 1 := ⟨s.length - 1, by omega⟩
  have hl : (s.eraseIdx t).length = n := by rw [List.length_eraseIdx_of_lt ht]; omega
  rw [hl, hn]
  refine asm_concat (by omega) hlt hnd hk ?_
  rw [hf, freeDims_length, hl]

/-- C62: for an array in global form with `D` the dimensions of the sites (rows first, then columns) and every ascending
list of sites, `partial_trace` returns the array without these sites, whose entries are the sums over all common values of
the row and column indices of the sites. -/
theorem C62_partial_trace [AddCommMonoid R] (D : List ℕ) (tr : List ℕ) (hs : tr.Pairwise (· < ·)) (hlt : ∀ t ∈ tr, t < D.length)
    (a : NDArray R) (ha : a.shape = D ++ D) :
    ∃ b, partialTrace a (tr.map fun t : ℕ => (t : ℤ)) = .ok b ∧ b.shape = freeDims D tr ++ freeDims D tr ∧
      ∀ I J, InB I (freeDims D tr) → InB J (freeDims D tr) → b.get (I ++ J) =
        sumIdx (conDims D tr) fun k => a.get (NDArray.asm D.length tr k I ++ NDArray.asm D.length tr k J) := by
  induction tr using List.reverseRecOn generalizing D a with
  | nil =>
    refine ⟨a, partialTrace_nil a, by rw [freeDims_nil, ha], ?_⟩
    intro I J hI hJ
    rw [freeDims_nil] at hI hJ
    simp only [conDims, List.map_nil, sumIdx]
    rw [asm_nil hI.length_eq, asm_nil hJ.length_eq]
  | append_singleton tr t ih =>
    obtain ⟨hs', hlt'⟩ := pairwise_concat hs
    have ht : t < D.length := hlt t (by simp)
    obtain ⟨c, c1, c2, c3⟩ := trace_two ha ht
    have hl : (D.eraseIdx t).length = D.length - 1 := List.length_eraseIdx_of_lt ht
    obtain ⟨b, b1, b2, b3⟩ := ih (D.eraseIdx t) hs' (fun p hp => by have := hlt' p hp; omega) c c2
    have hnd : a.ndim = 2 * D.length := by simp [NDArray.ndim, ha]; omega
    have hnodup : tr.Nodup := hs'.imp (fun h => Nat.ne_of_lt h)
    refine ⟨b, ?_, by rw [b2, freeDims_concat ht hlt'], ?_⟩
    · rw [List.map_append, List.map_singleton, partialTrace_concat, pyAssert_true (by omega), ok_bind,
        show a.ndim / 2 = D.length by omega, c1, ok_bind]
      exact b1
    · intro I J hI hJ
      rw [freeDims_concat ht hlt'] at hI hJ
      rw [b3 I J hI hJ, conDims_concat hlt', sumIdx_append]
      refine sumIdx_congr fun ks hks => ?_
      have hkl : ks.length = tr.length := by rw [hks.length_eq]; simp [conDims]
      rw [c3 _ _ (by simp; omega) (by simp; omega)]
      simp only [sumIdx]
      refine Finset.sum_congr rfl fun k _ => ?_
      rw [asm_erase ht hlt' hnodup hkl hI.length_eq, asm_erase ht hlt' hnodup hkl hJ.length_eq]

/-- C62: an array with an odd number of axes is rejected unless nothing is traced out. -/
theorem C62_partial_trace_odd [AddCommMonoid R] (a : NDArray R) (h : a.ndim % 2 = 1) (tr : List ℤ) (htr : tr ≠ []) :
    partialTrace a tr = .error .assertion := by
  obtain ⟨tr, t, rfl⟩ := (List.eq_nil_or_concat tr).resolve_left htr
  rw [List.concat_eq_append, partialTrace_concat, pyAssert_false (by omega)]
  rfl

/-- C62 (finding): the order matters.  The list `[t₁, t₀]` with `t₀ < t₁` does not trace out the sites `t₀` and `t₁`: it
is accepted, and the sites which are removed are `t₀` and `t₁ + 1`. -/
theorem C62_partial_trace_unsorted [AddCommMonoid R] (D : List ℕ) (t₀ t₁ : ℕ) (h : t₀ < t₁) (hlt : t₁ + 1 < D.length)
    (a : NDArray R) (ha : a.shape = D ++ D) :
    ∃ b, partialTrace a [(t₁ : ℤ), (t₀ : ℤ)] = .ok b ∧ b.shape = freeDims D [t₀, t₁ + 1] ++ freeDims D [t₀, t₁ + 1] := by
  obtain ⟨c, c1, c2, -⟩ := trace_two ha (t := t₀) (by omega)
  have hl : (D.eraseIdx t₀).length = D.length - 1 := List.length_eraseIdx_of_lt (by omega)
  obtain ⟨b, b1, b2, -⟩ := trace_two c2 (t := t₁) (by omega)
  have hnd : a.ndim = 2 * D.length := by simp [NDArray.ndim, ha]; omega
  have hnd' : c.ndim = 2 * (D.eraseIdx t₀).length := by simp [NDArray.ndim, c2]; omega
  refine ⟨b, ?_, ?_⟩
  · rw [show [(t₁ : ℤ), (t₀ : ℤ)] = [(t₁ : ℤ)] ++ [(t₀ : ℤ)] from rfl, partialTrace_concat, pyAssert_true (by omega), ok_bind,
      show a.ndim / 2 = D.length by omega, c1, ok_bind, show [(t₁ : ℤ)] = [] ++ [(t₁ : ℤ)] from rfl, partialTrace_concat,
      pyAssert_true (by omega), ok_bind, show c.ndim / 2 = (D.eraseIdx t₀).length by omega, b1, ok_bind, partialTrace_nil]
  · rw [b2, show [t₀, t₁ + 1] = [t₀] ++ [t₁ + 1] from rfl, freeDims_concat (by omega) (by simpa using by omega),
      show [t₀] = [] ++ [t₀] from rfl, freeDims_concat (by rw [List.length_eraseIdx_of_lt (by omega)]; omega) (by simp), freeDims_nil]
    have : (D.eraseIdx t₀).eraseIdx t₁ = (D.eraseIdx (t₁ + 1)).eraseIdx t₀ := by
      refine List.ext_getElem? fun p => ?_
      simp only [List.getElem?_eraseIdx]
      grind
    rw [this]

/-! ### mkron -/

/-- The indices of the Kronecker product which belong to the indices `i` of the left factor and `j` of the right factor,
whose shape is `s`: `i * s + j` on every axis. -/
def kronIdx (i s j : List ℕ) : List ℕ := List.zipWith (· + ·) (List.zipWith (· * ·) i s) j

/-- The indices of a Kronecker product of several factors -/
def kronIdxs : List ℕ → List (List ℕ × List ℕ) → List ℕ
  | i, [] => i
  | i, (s, j) :: l => kronIdxs (kronIdx i s j) l

theorem kronIdx_div {i s j t : List ℕ} (h : InB i t) (h' : InB j s) (hl : t.length = s.length) :
    List.zipWith (· / ·) (kronIdx i s j) s = i := by
  induction h generalizing s j with
  | nil =>
    cases h' with
    | nil => rfl
    | cons => simp at hl
  | cons hi h ih =>
    cases h' with
    | nil => simp at hl
    | cons hj h' =>
      have ih := ih h' (by simpa using hl)
      simp only [kronIdx, List.zipWith_cons_cons] at ih ⊢
      rw [ih, Nat.mul_comm, Nat.mul_add_div (by omega), Nat.div_eq_of_lt hj, Nat.add_zero]

theorem kronIdx_mod {i s j t : List ℕ} (h : InB i t) (h' : InB j s) (hl : t.length = s.length) :
    List.zipWith (· % ·) (kronIdx i s j) s = j := by
  induction h generalizing s j with
  | nil =>
    cases h' with
    | nil => rfl
    | cons => simp at hl
  | cons hi h ih =>
    cases h' with
    | nil => simp at hl
    | cons hj h' =>
      have ih := ih h' (by simpa using hl)
      simp only [kronIdx, List.zipWith_cons_cons] at ih ⊢
      rw [ih, Nat.mul_comm, Nat.mul_add_mod, Nat.mod_eq_of_lt hj]

theorem kronIdx_inB {i s j t : List ℕ} (h : InB i t) (h' : InB j s) (hl : t.length = s.length) :
    InB (kronIdx i s j) (List.zipWith (· * ·) t s) := by
  induction h generalizing s j with
  | nil => exact .nil
  | @cons i t is ts hi h ih =>
    cases h' with
    | nil => simp at hl
    | @cons j s js ss hj h' =>
      refine .cons ?_ (ih h' (by simpa using hl))
      calc i * s + j < i * s + s := by omega
        _ = (i + 1) * s := by ring
        _ ≤ t * s := Nat.mul_le_mul_right _ hi

/-- Every index of a Kronecker product belongs to indices of the factors. -/
theorem kronIdx_surj : ∀ {p t s : List ℕ}, InB p (List.zipWith (· * ·) t s) → t.length = s.length →
    ∃ i j, InB i t ∧ InB j s ∧ p = kronIdx i s j
  | _, [], [], .nil, _ => ⟨[], [], .nil, .nil, rfl⟩
  | _, [], _ :: _, _, hl => by simp at hl
  | _, _ :: _, [], _, hl => by simp at hl
  | [], _ :: _, _ :: _, h, _ => by simp [InB] at h
  | p :: ps, t :: ts, s :: ss, .cons h1 h2, hl => by
    obtain ⟨i, j, hi, hj, rfl⟩ := kronIdx_surj h2 (by simpa using hl)
    have hs : 0 < s := Nat.pos_of_ne_zero fun hs => by simp [hs] at h1
    refine ⟨p / s :: i, p % s :: j, .cons ((Nat.div_lt_iff_lt_mul hs).2 h1) hi, .cons (Nat.mod_lt _ hs) hj, ?_⟩
    simp only [kronIdx, List.zipWith_cons_cons]
    rw [Nat.div_add_mod' p s]

theorem npKron_eq [Mul R] {a b : NDArray R} (h : a.ndim = b.ndim) :
    (npKron a b).shape = List.zipWith (· * ·) a.shape b.shape ∧
    ∀ i j, InB i a.shape → InB j b.shape → (npKron a b).get (kronIdx i b.shape j) = a.get i * b.get j := by
  refine ⟨by simp [npKron, h], fun i j hi hj => ?_⟩
  have hl : a.shape.length = b.shape.length := h
  simp only [npKron, h, max_self, Nat.sub_self, List.replicate_zero, List.nil_append, List.drop_zero]
  rw [kronIdx_div hi hj hl, kronIdx_mod hi hj hl]

/-- C62: `mkron` of one or more arrays with the same number of axes succeeds; the sizes of the axes are the products of the
sizes of the factors, and the entry at the combined indices is the product of the entries of the factors. -/
theorem C62_mkron [Mul R] (a : NDArray R) (args : List (NDArray R)) (h : ∀ b ∈ args, b.ndim = a.ndim) :
    ∃ k, mkron (a :: args) = .ok k ∧
      k.shape = args.foldl (fun s b => List.zipWith (· * ·) s b.shape) a.shape ∧
      ∀ i js, InB i a.shape → List.Forall₂ (fun j (b : NDArray R) => InB j b.shape) js args →
        InB (kronIdxs i ((args.map NDArray.shape).zip js)) k.shape ∧
        k.get (kronIdxs i ((args.map NDArray.shape).zip js)) = (List.zipWith NDArray.get args js).foldl (· * ·) (a.get i) := by
  induction args generalizing a with
  | nil =>
    refine ⟨a, by rw [mkron], rfl, ?_⟩
    intro i js hi hjs
    cases hjs
    exact ⟨hi, rfl⟩
  | cons b args ih =>
    have hab : a.ndim = b.ndim := (h b (by simp)).symm
    obtain ⟨e1, e2⟩ := npKron_eq hab
    have hab' : a.shape.length = b.shape.length := hab
    have hn : (npKron a b).ndim = a.ndim := by simp [NDArray.ndim, e1, hab']
    obtain ⟨k, k1, k2, k3⟩ := ih (npKron a b) (fun c hc => by rw [hn]; exact h c (by simp [hc]))
    refine ⟨k, by rw [mkron, k1], by rw [k2, e1]; rfl, ?_⟩
    intro i js hi hjs
    cases hjs with
    | @cons j _ js _ hj hjs =>
      have := k3 (kronIdx i b.shape j) js (by rw [e1]; exact kronIdx_inB hi hj hab') hjs
      rw [e2 i j hi hj] at this
      exact this

/-- C62: every index of the result of `mkron` arises from indices of the factors, so `C62_mkron` determines all entries. -/
theorem C62_mkron_all [Mul R] (a : NDArray R) (args : List (NDArray R)) (h : ∀ b ∈ args, b.ndim = a.ndim) {k : NDArray R}
    (hk : mkron (a :: args) = .ok k) (p : List ℕ) (hp : InB p k.shape) :
    ∃ i js, InB i a.shape ∧ List.Forall₂ (fun j (b : NDArray R) => InB j b.shape) js args ∧
      p = kronIdxs i ((args.map NDArray.shape).zip js) := by
  induction args generalizing a with
  | nil =>
    rw [mkron] at hk
    cases hk
    exact ⟨p, [], hp, .nil, rfl⟩
  | cons b args ih =>
    have hab : a.ndim = b.ndim := (h b (by simp)).symm
    have hab' : a.shape.length = b.shape.length := hab
    obtain ⟨e1, -⟩ := npKron_eq hab
    have hn : (npKron a b).ndim = a.ndim := by simp [NDArray.ndim, e1, hab']
    rw [mkron] at hk
    obtain ⟨i, js, hi, hjs, rfl⟩ := ih (npKron a b) (fun c hc => by rw [hn]; exact h c (by simp [hc])) hk
    rw [e1] at hi
    obtain ⟨i, j, hi', hj, rfl⟩ := kronIdx_surj hi hab'
    exact ⟨i, j :: js, hi', .cons hj hjs, rfl⟩

/-- C62: for matrices, `mkron` is the Kronecker product in the usual order: `np.kron(A, B)[i * p + k, j * q + l]` is
`A[i, j] * B[k, l]`. -/
theorem C62_mkron_matrix [Mul R] (A B : NDArray R) (m n p q : ℕ) (hA : A.shape = [m, n]) (hB : B.shape = [p, q]) :
    ∃ K, mkron [A, B] = .ok K ∧ K.shape = [m * p, n * q] ∧ ∀ i < m, ∀ j < n, ∀ k < p, ∀ l < q,
      K.get [i * p + k, j * q + l] = A.get [i, j] * B.get [k, l] := by
  obtain ⟨K, k1, k2, k3⟩ := C62_mkron A [B] (by simp [NDArray.ndim, hA, hB])
  refine ⟨K, k1, by simpa [hA, hB] using k2, ?_⟩
  intro i hi j hj k hk l hl
  have := (k3 [i, j] [[k, l]] (by rw [hA]; exact .cons hi (.cons hj .nil)) (.cons (by rw [hB]; exact .cons hk (.cons hl .nil)) .nil)).2
  simpa [kronIdxs, kronIdx, hB] using this

/-- C62: `mkron` without arguments is an `IndexError`. -/
theorem C62_mkron_none [Mul R] : mkron ([] : List (NDArray R)) = .error .index := by rw [mkron]

/-! ### Concrete cases -/

/-- Three sites of dimensions 2, 3, 2; the sites 0 and 2 are traced out. -/
example : ∃ b, partialTrace (⟨[2, 3, 2] ++ [2, 3, 2], fun i => (i.sum : ℤ)⟩ : NDArray ℤ) [0, 2] = .ok b ∧ b.shape = [3, 3] ∧
    b.get [1, 2] = 20 := by
  obtain ⟨b, b1, b2, b3⟩ := C62_partial_trace [2, 3, 2] [0, 2] (by simp) (by simp) (⟨[2, 3, 2] ++ [2, 3, 2], fun i => (i.sum : ℤ)⟩ : NDArray ℤ) rfl
  refine ⟨b, b1, b2, ?_⟩
  rw [show ([1, 2] : List ℕ) = [1] ++ [2] from rfl, b3 [1] [2] (.cons (by decide) .nil) (.cons (by decide) .nil)]
  decide

/-- The list `[1, 0]` removes the sites 0 and 2 of three sites. -/
example : ∃ b, partialTrace (⟨[2, 3, 5] ++ [2, 3, 5], fun i => (i.sum : ℤ)⟩ : NDArray ℤ) [1, 0] = .ok b ∧ b.shape = [3, 3] :=
  C62_partial_trace_unsorted [2, 3, 5] 0 1 (by omega) (by simp) _ rfl

end Mpnum
