import Verif.Props.C85
import Verif.Special
import Verif.Mpsmpo
import Verif.Povm.LocalPovm
import Verif.Povm.Match
import Verif.MPArray.CompressVar
import Verif.MPArray.CompressMain

/-! # C85: accepted arguments of the functions on MPAs, samples and states -/

open Finset

namespace Mpnum

variable {R : Type}

/-! ### splitting between two sites -/

theorem listGet_inv {l : List (NDArray R)} {pos : ℤ} {p : ℕ × NDArray R} (h : listGet l pos = .ok p) :
    pyIndex l.length pos = .ok p.1 ∧ l[p.1]? = some p.2 := by
  unfold listGet at h
  obtain ⟨q, h1, h⟩ := bind_ok_inv h
  split at h
  · rename_i t ht
    cases h
    exact ⟨h1, ht⟩
  · cases h

theorem pyIndex_pos {n : ℕ} {i : ℤ} {p : ℕ} (h : pyIndex n i = .ok p) (h0 : 0 ≤ i) : i < n ∧ (p : ℤ) = i := by
  unfold pyIndex at h
  split_ifs at h with h1 h2
  · cases h; omega
  · omega

/-- C85: `vleg2leg(x, pos)` accepts exactly the positions of the bonds, `0 ≤ pos < len - 1`. -/
theorem C85_vleg2leg [CommRing R] [StarRing R] (x : MPA R) (hx : x.Valid) (pos : ℤ) :
    (∃ y, x.vleg2leg pos = .ok y) ↔ 0 ≤ pos ∧ pos + 1 < x.len := by
  constructor
  · rintro ⟨y, h⟩
    unfold MPA.vleg2leg at h
    obtain ⟨⟨p, t⟩, h1, h⟩ := bind_ok_inv h
    obtain ⟨⟨p', t'⟩, h2, h⟩ := bind_ok_inv h
    obtain ⟨_, h3, _⟩ := mkLT_inv h
    have h0 : 0 ≤ pos := by
      have := h3.1
      simp only [Option.getD_some] at this
      omega
    have := pyIndex_pos (listGet_inv h2).1 (by omega)
    simp only [List.length_set] at this
    exact ⟨h0, this.1⟩
  · rintro ⟨h0, h1⟩
    obtain ⟨p, rfl⟩ := Int.eq_ofNat_of_zero_le h0
    have hp : p < x.ranks.length := by
      simp only [MPA.ranks, List.length_map, List.length_tail]
      unfold MPA.len at h1
      omega
    obtain ⟨y, hy, _⟩ := C17_vleg2leg x hx p _ (List.getElem?_eq_getElem hp)
    exact ⟨y, hy⟩

/-- C85: `split(x, pos)` is defined for every position except the one behind the last bond,
`pos = len - 1`, where it raises an exception. -/
theorem C85_split [CommRing R] [StarRing R] (x : MPA R) (hx : x.Valid) (pos : ℤ) :
    (∃ y, x.split pos = .ok y) ↔ pos + 1 ≠ x.len := by
  constructor
  · rintro ⟨y, h⟩ hp
    have hl : 0 < x.len := List.length_pos_iff.2 hx.ne
    unfold MPA.split at h
    rw [if_neg (by omega), if_neg (by omega)] at h
    obtain ⟨z, h1, _⟩ := bind_ok_inv h
    have := (C85_vleg2leg x hx pos).1 ⟨z, h1⟩
    omega
  · intro hp
    by_cases h1 : pos < 0
    · exact ⟨_, if_pos h1⟩
    by_cases h2 : pos ≥ x.len
    · exact ⟨_, by unfold MPA.split; rw [if_neg h1, if_pos h2]⟩
    obtain ⟨p, rfl⟩ := Int.eq_ofNat_of_zero_le (not_lt.1 h1)
    have hp' : p < x.ranks.length := by
      simp only [MPA.ranks, List.length_map, List.length_tail]
      unfold MPA.len at h2 hp
      omega
    obtain ⟨a, b, h, _⟩ := C17_split x hx p _ (List.getElem?_eq_getElem hp')
    exact ⟨_, h⟩

/-- C85: `leg2vleg(x, pos)` is accepted only for a bond `0 ≤ pos < len - 1` of dimension one whose two
neighbouring physical legs, the last one on the left and the first one on the right, have the same size. -/
theorem C85_leg2vleg (x y : MPA R) (hx : x.Valid) (pos : ℤ) (h : x.leg2vleg pos = .ok y) :
    ∃ p : ℕ, pos = p ∧ p + 1 < x.len ∧ x.ranks[p]? = some 1 ∧
      ∀ s t, x.shape[p]? = some s → x.shape[p + 1]? = some t → s ≠ [] → t ≠ [] → s.getLast? = t.head? := by
  unfold MPA.leg2vleg at h
  obtain ⟨⟨p, t⟩, h1, h⟩ := bind_ok_inv h
  obtain ⟨_, g1, h⟩ := bind_ok_inv h
  obtain ⟨⟨p', t'⟩, h2, h⟩ := bind_ok_inv h
  obtain ⟨_, g2, h⟩ := bind_ok_inv h
  obtain ⟨⟨p'', t''⟩, h3, h⟩ := bind_ok_inv h
  simp only at h1 h2 h3 g1 g2 h
  obtain ⟨_, k1, _, k2, _⟩ := mkLT_inv h
  have h0 : 0 ≤ pos := by
    have := k1.1
    simp only [Option.getD_some] at this
    omega
  obtain ⟨i1, i2⟩ := listGet_inv h1
  obtain ⟨j1, j2⟩ := listGet_inv h2
  obtain ⟨l1, l2⟩ := listGet_inv h3
  simp only [List.length_set] at i1 i2 j1 j2 l1 l2
  have q1 := pyIndex_pos i1 h0
  have q2 := pyIndex_pos j1 (by omega)
  have q3 := pyIndex_pos l1 (by omega)
  have hp' : p' = p + 1 := by omega
  have hp'' : p'' = p + 1 := by omega
  subst hp'; subst hp''
  rw [List.getElem?_set_ne (by omega), j2] at l2
  cases l2
  refine ⟨p, by omega, by unfold MPA.len; omega, ?_, ?_⟩
  · unfold MPA.ranks
    rw [List.getElem?_map, List.getElem?_tail, j2]
    exact congrArg some (pyAssert_inv g2)
  · intro s u hs hu hs0 hu0
    have hpl : p < x.lt.length := by omega
    obtain ⟨D, d1, d2⟩ := k2 p t.lastZero t'.firstZero (by
      rw [List.getElem?_set_ne (by omega), List.getElem?_set_self hpl]) (by
      rw [List.getElem?_set_self (by simp only [List.length_set]; omega)])
    have hs' : s = t.ph := by rw [MPA.shape, List.getElem?_map, i2] at hs; exact (Option.some.inj hs).symm
    have hu' : u = t'.ph := by rw [MPA.shape, List.getElem?_map, j2] at hu; exact (Option.some.inj hu).symm
    have ht := hx.chain.isLocal t (List.mem_of_getElem? i2)
    have ht' := hx.chain.isLocal t' (List.mem_of_getElem? j2)
    have e1 := NDArray.shape_local ht
    have e2 := NDArray.shape_local ht'
    rw [← hs'] at e1
    rw [← hu'] at e2
    have d1' : (t.shape.dropLast).getLast? = some D := d1
    have d2' : t'.shape.tail.head? = some D := d2
    rw [e1, ← List.cons_append, List.dropLast_concat] at d1'
    rw [e2, List.tail_cons] at d2'
    obtain ⟨a, s', rfl⟩ := List.exists_cons_of_ne_nil hs0
    obtain ⟨b, u', rfl⟩ := List.exists_cons_of_ne_nil hu0
    rw [List.getLast?_cons_cons] at d1'
    rw [d1']
    exact d2'.symm

/-! ### traces -/

/-- C85: `partialtrace` is accepted only if the two axes given for a site are two different legs of the
site.  (The two legs may have different sizes, see `C85_trace_unequal`.) -/
theorem C85_partialtrace [CommSemiring R] (x y : MPA R) (hx : x.Valid) (axes : TraceAxes)
    (h : partialtrace x axes = .ok y) :
    axes ≠ .each [] ∧ ∀ (n : ℕ) (i j : ℤ) (s : List ℕ), (axes.sites x.len)[n]? = some (some (i, j)) →
      x.shape[n]? = some s →
      (-(s.length : ℤ) ≤ i ∧ i < s.length) ∧ (-(s.length : ℤ) ≤ j ∧ j < s.length) ∧
      axisOf i s.length ≠ axisOf j s.length := by
  unfold partialtrace at h
  obtain ⟨axs, h1, h⟩ := bind_ok_inv h
  obtain ⟨_, h2, h⟩ := bind_ok_inv h
  obtain ⟨ts, h3, _⟩ := bind_ok_inv h
  have hax : axes ≠ .each [] ∧ axs = axes.sites x.len := by
    unfold traceSites at h1
    split at h1
    · cases h1; exact ⟨by simp, rfl⟩
    · cases h1
    · rename_i as hne
      cases h1
      exact ⟨by simpa using fun h => hne h, rfl⟩
  refine ⟨hax.1, ?_⟩
  rw [← hax.2]
  intro n i j s hn hs
  rw [MPA.shape, List.getElem?_map, Option.map_eq_some_iff] at hs
  obtain ⟨t, ht, rfl⟩ := hs
  have hloc := hx.chain.isLocal t (List.mem_of_getElem? ht)
  have hnd : t.ndim = t.ph.length + 2 := by
    rw [NDArray.ndim, NDArray.shape_local hloc]; simp
  have hchk := List.all_eq_true.1 (pyAssert_inv h2) (t.ndim - 2, some (i, j)) (by
    refine List.mem_of_getElem? (i := n) ?_
    rw [List.getElem?_zip_eq_some]
    exact ⟨by rw [MPA.ndims, List.getElem?_map, ht]; rfl, hn⟩)
  simp only [traceCheck, axisIn, Bool.and_eq_true, decide_eq_true_eq] at hchk
  rw [hnd, Nat.add_sub_cancel] at hchk
  refine ⟨hchk.1, hchk.2, ?_⟩
  have hok : ∃ u, traceSite t (some (i, j)) = .ok u := by
    have hmem : (some (i, j), t) ∈ axs.zip x.lt := by
      refine List.mem_of_getElem? (i := n) ?_
      rw [List.getElem?_zip_eq_some]
      exact ⟨hn, ht⟩
    obtain ⟨k, hk, e⟩ := List.mem_iff_getElem.1 hmem
    obtain ⟨hl, hF⟩ := List.forall₂_iff_get.1 (mapM_ok_iff.1 h3)
    have := hF k hk (by omega)
    rw [List.get_eq_getElem, e] at this
    exact ⟨_, this⟩
  obtain ⟨u, hu⟩ := hok
  unfold traceSite NDArray.trace at hu
  simp only at hu
  rw [hnd, (pyIndex_adapt hchk.1).1, ok_bind, (pyIndex_adapt hchk.2).1, ok_bind] at hu
  obtain ⟨_, g, _⟩ := bind_ok_inv hu
  have := pyGuard_inv g
  omega

/-- C85: with admissible axes `trace(x, axes)` is defined if and only if what remains has a single
entry. -/
theorem C85_trace [CommSemiring R] (x : MPA R) (hx : x.Valid) (axes : TraceAxes) (h : TraceArgs x axes) :
    ((∃ A, trace x axes = .ok A) ↔
      ((List.zipWith traceRest (axes.sites x.len) x.shape).flatten).prod = 1) ∧
    (((List.zipWith traceRest (axes.sites x.len) x.shape).flatten).prod ≠ 1 → trace x axes = .error .assertion) := by
  obtain ⟨y, h1, h2, h3, h4, h5, h6, h7⟩ := C20_partialtrace x hx axes h
  obtain ⟨A, a1, a2, _⟩ := C01_to_array y h2
  have hsz : A.size = ((List.zipWith traceRest (axes.sites x.len) x.shape).flatten).prod := by
    unfold NDArray.size
    rw [a2, h5, pruned_flatten]
  have htr : trace x axes = (do pyAssert (A.size = 1); return A) := by
    unfold trace
    rw [h1, ok_bind, a1, ok_bind]
  rw [htr, ← hsz]
  by_cases hA : A.size = 1
  · rw [pyAssert_true hA, ok_bind]
    exact ⟨⟨fun _ => hA, fun _ => ⟨A, rfl⟩⟩, fun h => absurd hA h⟩
  · rw [pyAssert_false hA]
    refine ⟨⟨?_, fun h => absurd h hA⟩, fun _ => rfl⟩
    rintro ⟨B, hB⟩
    cases hB

/-- C85: `partialtrace` accepts two legs of different sizes without complaint: it sums over the smaller
of the two ranges. -/
theorem C85_trace_unequal : ∃ y, partialtrace ⟨[(⟨[1, 2, 3, 1], fun i => if i.getD 1 0 = i.getD 2 0 then 5 else 7⟩ : NDArray ℕ)], 0, 1⟩
    (.same 0 1) = .ok y ∧ y.shape = [[]] ∧ y.val [[]] = 10 := by
  exact ⟨_, rfl, rfl, rfl⟩

/-! ### diagonals -/

/-- C85: `diag(x, axis)` is accepted only if all sites have the same number of legs and the leg `axis`
exists and has the same size on all of them. -/
theorem C85_diag [AddCommMonoid R] [Mul R] (x : MPA R) (axis : ℤ) (r : List (NDArray R) ⊕ List (MPA R))
    (h : x.diag axis = .ok r) :
    ∃ d n : ℕ, (-(n : ℤ) ≤ axis ∧ axis < n) ∧ ∀ s ∈ x.shape, s.length = n ∧ s[axisOf axis n]? = some d := by
  have hidx : ∀ {n : ℕ} {i : ℤ} {p : ℕ}, pyIndex n i = .ok p → (-(n : ℤ) ≤ i ∧ i < n) ∧ p = axisOf i n ∧ p < n := by
    intro n i p h
    unfold pyIndex at h
    unfold axisOf
    split_ifs at h with h1 h2
    · cases h; rw [if_neg (by omega)]; omega
    · cases h; rw [if_pos (by omega)]; omega
  unfold MPA.diag at h
  obtain ⟨ys, h, _⟩ := bind_ok_inv h
  unfold MPA.diagMPAs at h
  obtain ⟨p, h1, h⟩ := bind_ok_inv h
  obtain ⟨valid, h2, h⟩ := bind_ok_inv h
  obtain ⟨_, h3, h⟩ := bind_ok_inv h
  obtain ⟨_, h4, h⟩ := bind_ok_inv h
  have h3 := pyAssert_inv h3
  have h4 := pyAssert_inv h4
  rw [List.all_eq_true] at h3 h4
  refine ⟨(x.shape.headD []).getD p 0, (x.shape.headD []).length, (hidx h1).1, ?_⟩
  have hlen : ∀ s ∈ x.shape, s.length = (x.shape.headD []).length := by
    have e : ∀ t : NDArray R, t.ndim - 2 = t.ph.length := by
      intro t
      simp only [NDArray.ndim, NDArray.ph, List.length_dropLast, List.length_tail]
      omega
    have hnd : x.ndims = x.shape.map List.length := by
      rw [MPA.ndims, MPA.shape, List.map_map]
      exact List.map_congr_left fun t _ => e t
    intro s hs
    have := h4 s.length (by rw [hnd]; exact List.mem_map_of_mem hs)
    rw [decide_eq_true_eq, hnd] at this
    rw [this]
    cases hsh : x.shape with
    | nil => rw [hsh] at hs; cases hs
    | cons a b => rfl
  intro s hs
  refine ⟨hlen s hs, ?_⟩
  have hF := mapM_ok_iff.1 h2
  obtain ⟨k, hk, rfl⟩ := List.mem_iff_getElem.1 hs
  obtain ⟨hl, hF⟩ := List.forall₂_iff_get.1 hF
  have hFk := hF k hk (by omega)
  obtain ⟨q, hq, hv⟩ := bind_ok_inv hFk
  have hv := Except.ok.inj hv
  have hv1 := h3 _ (List.get_mem valid ⟨k, by omega⟩)
  rw [← hv, id, decide_eq_true_eq] at hv1
  obtain ⟨_, q1, q2⟩ := hidx hq
  rw [List.get_eq_getElem] at hv1 q1 q2
  rw [hlen _ hs] at q1
  rw [← q1, List.getElem?_eq_getElem (by exact q2), ← hv1, List.getD_eq_getElem _ _ q2]

end Mpnum
