import Verif.MPArray.Prune
import Verif.Props.C08
import Verif.Props.C18
import Verif.Props.C21

/-! # C20: partialtrace and trace -/

open Finset

namespace Mpnum

variable {R : Type}

/-- The leg `a` of `n` legs; negative numbers count from the end. -/
def axisOf (a : ℤ) (n : ℕ) : ℕ := (if a < 0 then a + (n : ℤ) else a).toNat

/-- The axes for each of `n` sites. -/
def TraceAxes.sites : TraceAxes → ℕ → List (Option (ℤ × ℤ))
  | .same i j, n => List.replicate n (some (i, j))
  | .each as, _ => as

/-- Shape of the legs that remain at a site of shape `s`. -/
def traceRest (o : Option (ℤ × ℤ)) (s : List ℕ) : List ℕ :=
  match o with
  | none => s
  | some (i, j) => freeDims s [axisOf i s.length, axisOf j s.length]

/-- Number of terms of the trace at a site of shape `s` (a list with one entry or none). -/
def traceDims (o : Option (ℤ × ℤ)) (s : List ℕ) : List ℕ :=
  match o with
  | none => []
  | some (i, _) => [s.getD (axisOf i s.length) 0]

/-- The index with both traced legs equal to `k` and `f` at the remaining legs. -/
def traceMerge (o : Option (ℤ × ℤ)) (s f k : List ℕ) : List ℕ :=
  match o with
  | none => f
  | some (i, j) => NDArray.asm s.length [axisOf i s.length, axisOf j s.length] [k.headD 0, k.headD 0] f

/-- Admissible axes at a site of shape `s`: two different legs of equal size. -/
def TraceOK (o : Option (ℤ × ℤ)) (s : List ℕ) : Prop :=
  match o with
  | none => True
  | some (i, j) => (-(s.length : ℤ) ≤ i ∧ i < s.length) ∧ (-(s.length : ℤ) ≤ j ∧ j < s.length) ∧
      axisOf i s.length ≠ axisOf j s.length ∧
      s.getD (axisOf i s.length) 0 = s.getD (axisOf j s.length) 0

/-- Admissible arguments of `partialtrace`. -/
structure TraceArgs (x : MPA R) (axes : TraceAxes) : Prop where
  len : (axes.sites x.len).length = x.len
  ok : ∀ p ∈ (axes.sites x.len).zip x.shape, TraceOK p.1 p.2

theorem pyIndex_adapt {a : ℤ} {n : ℕ} (h : -(n : ℤ) ≤ a ∧ a < n) :
    pyIndex (n + 2) (adaptAxis a) = .ok (axisOf a n + 1) ∧ axisOf a n < n := by
  unfold pyIndex adaptAxis axisOf
  push_cast
  by_cases h0 : a < 0
  · rw [if_neg (show ¬ a ≥ 0 by omega), if_pos h0, if_neg (by omega), if_pos (by omega)]
    exact ⟨by congr 1; omega, by omega⟩
  · rw [if_pos (show a ≥ 0 by omega), if_neg h0, if_pos (by omega)]
    exact ⟨by congr 1; omega, by omega⟩

/-- The intermediate chain of traced local tensors. -/
theorem partialtrace_core [CommSemiring R] {x : MPA R} (hx : x.Valid) {axes : TraceAxes}
    (h : TraceArgs x axes) :
    ∃ y, partialtrace x axes = .ok y ∧ y.Valid ∧ y.l = 0 ∧ y.r = y.len ∧
      y.shape = pruned (List.zipWith traceRest (axes.sites x.len) x.shape) ∧
      y.ranks.Sublist x.ranks ∧
      ∀ f, IdxOK f (List.zipWith traceRest (axes.sites x.len) x.shape) →
        y.val (pruned f) = sumSites (List.zipWith traceDims (axes.sites x.len) x.shape) fun k =>
          x.val (List.zipWith3 (fun (p : Option (ℤ × ℤ) × List ℕ) f k => traceMerge p.1 p.2 f k)
            ((axes.sites x.len).zip x.shape) f k) := by
  obtain ⟨hlen, hok⟩ := h
  obtain ⟨axs, haxs⟩ : ∃ axs, axs = axes.sites x.len := ⟨_, rfl⟩
  rw [← haxs] at hlen hok ⊢
  have hT : (axs.zip x.lt).map Prod.snd = x.lt := List.map_snd_zip (by rw [hlen, MPA.len])
  have hts : traceSites axes x.len = .ok axs := by
    rw [haxs]
    cases axes with
    | same i j => rfl
    | each as =>
      cases as with
      | nil =>
        exfalso
        rw [haxs] at hlen
        exact hx.ne (List.length_eq_zero_iff.1 hlen.symm)
      | cons a as => rfl
  have hmem : ∀ q ∈ axs.zip x.lt, (q.1, q.2.ph) ∈ axs.zip x.shape := by
    intro q hq
    rw [MPA.shape, List.zip_map_right]
    exact List.mem_map.2 ⟨q, hq, rfl⟩
  have hassert : (x.ndims.zip axs).all (fun p => traceCheck p.1 p.2) = true := by
    rw [List.all_eq_true]
    intro p hp
    have hnd : x.ndims = x.shape.map List.length := by
      rw [MPA.ndims, MPA.shape, List.map_map]
      exact List.map_congr_left fun t ht => by
        show t.ndim - 2 = t.ph.length
        rw [ndim_ph (hx.chain.isLocal t ht)]; simp
    rw [hnd, zip_map_swap] at hp
    obtain ⟨q, hq, rfl⟩ := List.mem_map.1 hp
    have := hok q hq
    unfold TraceOK at this
    rcases q with ⟨_ | ⟨i, j⟩, s⟩
    · rfl
    · obtain ⟨⟨h1, h2⟩, ⟨h3, h4⟩, _⟩ := this
      simp [traceCheck, axisIn, h1, h2, h3, h4]
  obtain ⟨us, h1, h2, h3, h4, h5, h6, h7⟩ := lin_core hx hT
    (f := fun p => traceSite p.2 p.1)
    (K := fun p => traceDims p.1 p.2.ph) (φ := fun p f k => traceMerge p.1 p.2.ph f k)
    (q := fun p => traceRest p.1 p.2.ph) (by
      intro q hq
      have hloc := hx.chain.isLocal _ (List.of_mem_zip hq).2
      have hq' := hok _ (hmem q hq)
      have hn := ndim_ph hloc
      rcases q with ⟨_ | ⟨i, j⟩, t⟩
      · exact ⟨t, rfl, ⟨hloc, rfl, rfl, fun a _ b _ p _ => rfl⟩, rfl⟩
      · obtain ⟨g1, g2, g3, g4⟩ := hq'
        dsimp only at hloc hn g1 g2 g3 g4 ⊢
        obtain ⟨k1, k2⟩ := pyIndex_adapt g1
        obtain ⟨k3, k4⟩ := pyIndex_adapt g2
        obtain ⟨k5, k6⟩ := trace_site hloc k2 k4
        refine ⟨t.traceTo (axisOf i t.ph.length + 1) (axisOf j t.ph.length + 1), ?_, ?_, k6⟩
        · show t.trace _ _ = _
          unfold NDArray.trace
          rw [hn, k1, ok_bind, k3, ok_bind, pyGuard, if_pos (by omega)]
          rfl
        · rw [g4, min_self, ← g4] at k5
          exact k5)
  have hrest : (axs.zip x.lt).map (fun p => traceRest p.1 p.2.ph) = List.zipWith traceRest axs x.shape := by
    rw [MPA.shape, List.zipWith_map_right, ← List.map_uncurry_zip_eq_zipWith]; rfl
  have hdims : (axs.zip x.lt).map (fun p => traceDims p.1 p.2.ph) = List.zipWith traceDims axs x.shape := by
    rw [MPA.shape, List.zipWith_map_right, ← List.map_uncurry_zip_eq_zipWith]; rfl
  have hmerge : ∀ f k, List.zipWith3 (fun (p : Option (ℤ × ℤ) × NDArray R) f k =>
      traceMerge p.1 p.2.ph f k) (axs.zip x.lt) f k
      = List.zipWith3 (fun (p : Option (ℤ × ℤ) × List ℕ) f k => traceMerge p.1 p.2 f k)
            (axs.zip x.shape) f k := by
    intro f k
    rw [MPA.shape, List.zip_map_right]
    generalize axs.zip x.lt = l
    clear * -
    induction l generalizing f k with
    | nil => rfl
    | cons p l ih =>
      cases f with
      | nil => rfl
      | cons f fs => cases k with
        | nil => rfl
        | cons k ks => simp [List.zipWith3, ih]
  rw [hrest, hdims] at h7
  simp only [hmerge] at h7
  rw [hrest] at h5
  obtain ⟨vs, g1, g2, g3, g4, g5, g6⟩ := prune_core h2 h3
  rw [h5] at g4 g6
  refine ⟨⟨vs, 0, vs.length⟩, ?_, g3, rfl, rfl, g4, ?_, ?_⟩
  · unfold partialtrace
    rw [hts, ok_bind, pyAssert_true hassert, ok_bind, h1, ok_bind, g1]
    exact g2
  · rw [← h6]; exact g5
  · intro f hf
    rw [← h7 f hf]
    exact g6 f hf

/-- C20: `partialtrace(x, axes)` is the dense tensor traced over the given pair of legs at each site
(sites with `None` are left alone), with the sites without remaining legs removed. -/
theorem C20_partialtrace [CommSemiring R] (x : MPA R) (hx : x.Valid) (axes : TraceAxes)
    (h : TraceArgs x axes) :
    ∃ y, partialtrace x axes = .ok y ∧ y.Valid ∧ y.l = 0 ∧ y.r = y.len ∧
      y.shape = pruned (List.zipWith traceRest (axes.sites x.len) x.shape) ∧
      y.ranks.Sublist x.ranks ∧
      ∀ f, IdxOK f (List.zipWith traceRest (axes.sites x.len) x.shape) →
        y.val (pruned f) = sumSites (List.zipWith traceDims (axes.sites x.len) x.shape) fun k =>
          x.val (List.zipWith3 (fun (p : Option (ℤ × ℤ) × List ℕ) f k => traceMerge p.1 p.2 f k)
            ((axes.sites x.len).zip x.shape) f k) := partialtrace_core hx h

theorem pruned_empty (S : List (List ℕ)) (h : ∀ s ∈ S, s = []) : pruned S = [[]] := by
  unfold pruned
  rw [if_pos]
  rw [List.filter_eq_nil_iff]
  intro s hs
  simp [h s hs]

/-- C20: if no legs remain, `trace(x, axes)` is the number obtained by summing over the diagonal of
the traced legs of all sites. -/
theorem C20_trace [CommSemiring R] (x : MPA R) (hx : x.Valid) (axes : TraceAxes) (h : TraceArgs x axes)
    (h0 : ∀ s ∈ List.zipWith traceRest (axes.sites x.len) x.shape, s = []) :
    ∃ A, trace x axes = .ok A ∧ A.shape = [] ∧
      A.get [] = sumSites (List.zipWith traceDims (axes.sites x.len) x.shape) fun k =>
        x.val (List.zipWith3 (fun (p : Option (ℤ × ℤ) × List ℕ) f k => traceMerge p.1 p.2 f k)
          ((axes.sites x.len).zip x.shape) (x.shape.map fun _ => []) k) := by
  obtain ⟨y, h1, h2, h3, h4, h5, h6, h7⟩ := partialtrace_core hx h
  have hrest : List.zipWith traceRest (axes.sites x.len) x.shape = x.shape.map fun _ => [] := by
    apply List.ext_getElem
    · have := h.len
      simp only [List.length_zipWith, List.length_map, MPA.shape, this]
      simp [MPA.len]
    · intro n g1 g2
      rw [h0 _ (List.getElem_mem g1)]; simp
  have hnil : ∀ S : List (List ℕ), IdxOK (S.map fun _ => []) (S.map fun _ => []) := by
    intro S
    unfold IdxOK
    rw [List.forall₂_same]
    intro a ha
    obtain ⟨_, _, rfl⟩ := List.mem_map.1 ha
    exact List.Forall₂.nil
  have hpr : pruned (x.shape.map fun _ => []) = [[]] := pruned_empty _ (by
    intro s hs; obtain ⟨_, _, rfl⟩ := List.mem_map.1 hs; rfl)
  rw [hrest] at h5 h7
  rw [hpr] at h5
  obtain ⟨A, a1, a2, a3⟩ := C01_to_array y h2
  rw [h5] at a2
  refine ⟨A, ?_, a2, ?_⟩
  · unfold trace
    rw [h1, ok_bind, a1, ok_bind, pyAssert_true (by rw [NDArray.size, a2]; rfl)]
    rfl
  · rw [← h7 _ (hnil _), hpr]
    exact a3 [[]] (by rw [h5]; exact .cons .nil .nil)

/-- C20: for an MPO (two legs of equal size `d` at each site) `trace(x)` is the sum of the diagonal
elements `x[(i₀, i₀), (i₁, i₁), …]`. -/
theorem C20_trace_mpo [CommSemiring R] (x : MPA R) (hx : x.Valid) (D : List ℕ)
    (hs : x.shape = D.map fun d => [d, d]) :
    ∃ A, trace x (.same 0 1) = .ok A ∧ A.shape = [] ∧
      A.get [] = sumIdx D fun I => x.val (I.map fun i => [i, i]) := by
  have hl : x.len = D.length := by
    have := congrArg List.length hs
    simpa [MPA.shape, MPA.len] using this
  have hrep : (TraceAxes.same 0 1).sites x.len = D.map fun _ => some (0, 1) := by
    rw [hl]; simp [TraceAxes.sites]
  have hargs : TraceArgs x (.same 0 1) := by
    refine ⟨by rw [hrep, hl]; simp, ?_⟩
    rw [hrep, hs, List.zip_map']
    intro p hp
    obtain ⟨d, _, rfl⟩ := List.mem_map.1 hp
    refine ⟨by simp, by simp, by simp [axisOf], by simp [axisOf]⟩
  have hf : ∀ d : ℕ, traceRest (some (0, 1)) [d, d] = [] := by
    intro d; rfl
  obtain ⟨A, h1, h2, h3⟩ := C20_trace x hx (.same 0 1) hargs (by
    rw [hrep, hs, ← List.map_uncurry_zip_eq_zipWith, List.zip_map', List.map_map]
    intro s hs'
    obtain ⟨d, _, rfl⟩ := List.mem_map.1 hs'
    rfl)
  refine ⟨A, h1, h2, ?_⟩
  rw [h3, hrep, hs, ← List.map_uncurry_zip_eq_zipWith, List.zip_map', List.map_map, List.map_map]
  have : ∀ (D : List ℕ) (g : List (List ℕ) → R),
      (sumSites (D.map fun d => traceDims (some (0, 1)) [d, d]) fun k =>
        g (List.zipWith3 (fun (p : Option (ℤ × ℤ) × List ℕ) f k => traceMerge p.1 p.2 f k)
          (D.map fun d => (some (0, 1), [d, d])) (D.map fun _ => []) k))
        = sumIdx D fun I => g (I.map fun i => [i, i]) := by
    intro D
    induction D with
    | nil => intro g; rfl
    | cons d D ih =>
      intro g
      simp only [List.map_cons, sumSites_cons, traceDims, sumIdx]
      refine Finset.sum_congr rfl fun i _ => ?_
      have := ih fun r => g ([i, i] :: r)
      simp only [traceDims] at this
      rw [← this]
      rfl
  exact this D x.val

/-- C20, error branch: bond legs cannot be traced out: an axis outside of the physical legs of some
site is rejected. -/
theorem C20_too_few_legs [AddCommMonoid R] [Mul R] (x : MPA R) (i j : ℤ)
    (h : ∃ n ∈ x.ndims, i < -(n : ℤ) ∨ (n : ℤ) ≤ i ∨ j < -(n : ℤ) ∨ (n : ℤ) ≤ j) :
    partialtrace x (.same i j) = .error .assertion := by
  unfold partialtrace traceSites
  rw [ok_bind, pyAssert_false]
  · rfl
  · rw [List.all_eq_true]
    intro hall
    obtain ⟨n, hn, hbad⟩ := h
    have hl : x.ndims.length = x.len := by simp [MPA.ndims, MPA.len]
    obtain ⟨k, hk, rfl⟩ := List.mem_iff_getElem.1 hn
    have := hall (x.ndims[k], some (i, j)) (by
      rw [List.mem_iff_getElem]
      exact ⟨k, by simp; omega, by simp⟩)
    simp [traceCheck, axisIn] at this
    omega

example : exMPO.Valid ∧ exMPO.shape = [2, 2].map (fun d => [d, d]) ∧
    (sumIdx [2, 2] fun I => exMPO.val (I.map fun i => [i, i])) ≠ 0 := by
  refine ⟨exMPO_valid, by decide, by decide⟩

example : TraceArgs exMPO (.each [some (-1, 0), none]) ∧
    pruned (List.zipWith traceRest [some (-1, 0), none] exMPO.shape) = [[2, 2]] := by
  refine ⟨⟨rfl, ?_⟩, by decide⟩
  intro p hp
  have : p = (some (-1, 0), [2, 2]) ∨ p = (none, [2, 2]) := by
    simpa [TraceAxes.sites, exMPO, MPA.shape, NDArray.ph] using hp
  rcases this with rfl | rfl
  · exact ⟨by decide, by decide, by decide, by decide⟩
  · trivial

/-- Disagreement: a list of axes that is too short is not rejected; the remaining sites are cut off
and the result has an open bond (mparray.py:1545 zips the two sequences). -/
theorem C20_short_list_truncates : ∃ y, partialtrace exMPO (.each [none]) = .ok y ∧ y.len = 1 ∧
    y.lt.map NDArray.rb = [2] := ⟨_, rfl, rfl, rfl⟩

end Mpnum
