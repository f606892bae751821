import Verif.Povm.Samples
import Mathlib.Data.List.GetD

/-! # C44: `pack_samples` and `unpack_samples` are inverse -/

open Finset

namespace Mpnum

/-- Specification: `s` is an array of samples: `n` rows, entry `j` of each row is an outcome of the
`j`-th non-singleton output dimension. -/
def IsSamples (dims : List ℕ) (n : ℕ) (s : NDArray ℤ) : Prop :=
  s.shape = [n, dims.length] ∧ ∀ k < n, ∀ j, j < dims.length → 0 ≤ s.get [k, j] ∧ s.get [k, j] < (dims.getD j 0 : ℕ)

/-- Specification: `p` contains `n` packed samples. -/
def IsPacked (dims : List ℕ) (n : ℕ) (p : NDArray ℤ) : Prop :=
  p.shape = [n] ∧ ∀ k < n, 0 ≤ p.get [k] ∧ p.get [k] < (dims.prod : ℕ)

/-- Specification: the packed value of the outcomes `(i_1, ..., i_k)` by Horner's rule; the last outcome
varies fastest. -/
def hornerVal (dims : List ℕ) (i : List ℤ) : ℤ :=
  (dims.zip i).foldl (fun acc p => acc * (p.1 : ℤ) + p.2) 0

theorem hornerVal_eq {dims i : List ℕ} (h : InB i dims) :
    hornerVal dims (i.map fun n : ℕ => (n : ℤ)) = (ravelIdx dims i : ℕ) := by
  have key : ∀ acc : ℤ, (dims.zip (i.map fun n : ℕ => (n : ℤ))).foldl (fun acc p => acc * (p.1 : ℤ) + p.2) acc
      = acc * (dims.prod : ℕ) + (ravelIdx dims i : ℕ) := by
    induction h with
    | nil => intro acc; simp
    | cons h _ ih =>
      intro acc
      simp only [List.map_cons, List.zip_cons_cons, List.foldl_cons, ih, ravelIdx_cons, List.prod_cons]
      push_cast
      ring
  rw [hornerVal, key]; simp

theorem sampleRow_inB {dims : List ℕ} {n : ℕ} {s : NDArray ℤ} (h : IsSamples dims n s) {k : ℕ} (hk : k < n) :
    InB ((sampleRow s k).map Int.toNat) dims := by
  unfold InB sampleRow
  rw [h.1, List.forall₂_iff_get]
  refine ⟨by simp, fun i h1 h2 => ?_⟩
  have := h.2 k hk i h2
  rw [List.getD_eq_getElem _ _ h2] at this
  simp only [List.get_eq_getElem, List.getElem_map, List.getElem_range]
  omega

theorem sampleRow_cast {dims : List ℕ} {n : ℕ} {s : NDArray ℤ} (h : IsSamples dims n s) {k : ℕ} (hk : k < n) :
    ((sampleRow s k).map Int.toNat).map (fun n : ℕ => (n : ℤ)) = sampleRow s k := by
  unfold sampleRow
  rw [h.1, List.map_map, List.map_map]
  refine List.map_congr_left fun j hj => ?_
  have := h.2 k hk j (by simpa using hj)
  simp only [Function.comp_apply]
  omega

/-- C44: packing gives one integer per sample, computed by Horner's rule, below the number of outcomes. -/
theorem C44_pack (outdims : List ℕ) (n : ℕ) (s : NDArray ℤ) (hne : nsDims outdims ≠ [])
    (hsz : (nsDims outdims).prod ≤ intpMax) (hs : IsSamples (nsDims outdims) n s) :
    ∃ p, packSamples outdims s none = .ok p ∧ IsPacked (nsDims outdims) n p ∧
      ∀ k < n, p.get [k] = hornerVal (nsDims outdims) ((List.range (nsDims outdims).length).map fun j => s.get [k, j]) := by
  refine ⟨⟨[n], fun i => ((ravelIdx (nsDims outdims) ((sampleRow s (i.getD 0 0)).map Int.toNat) : ℕ) : ℤ)⟩,
    ?_, ⟨rfl, ?_⟩, ?_⟩
  · unfold packSamples ravelMultiIndex
    rw [pyAssert_true (by rw [NDArray.ndim, hs.1]; rfl), ok_bind, pyAssert_true (by rw [hs.1]; rfl), ok_bind, hs.1]
    rw [if_pos ⟨hne, hsz, fun k hk j hj => hs.2 k hk j hj⟩]
    rfl
  · intro k hk
    have := ravelIdx_lt (sampleRow_inB hs hk)
    exact ⟨by positivity, Int.ofNat_lt.2 this⟩
  · intro k hk
    have := hornerVal_eq (sampleRow_inB hs hk)
    rw [sampleRow_cast hs hk] at this
    simp only [List.getD_cons_zero]
    rw [← this]
    unfold sampleRow
    rw [hs.1]; rfl

theorem pack_get {outdims : List ℕ} {n : ℕ} {s p : NDArray ℤ} (hs : s.shape = [n, (nsDims outdims).length])
    (h : packSamples outdims s none = .ok p) :
    p.shape = [n] ∧ IsSamples (nsDims outdims) n s ∧ nsDims outdims ≠ [] ∧ (nsDims outdims).prod ≤ intpMax ∧
      ∀ k, p.get [k] = ((ravelIdx (nsDims outdims) ((sampleRow s k).map Int.toNat) : ℕ) : ℤ) := by
  unfold packSamples ravelMultiIndex at h
  rw [pyAssert_true (by rw [NDArray.ndim, hs]; rfl), ok_bind, pyAssert_true (by rw [hs]; rfl), ok_bind] at h
  split_ifs at h with hc
  · rw [ok_bind] at h
    obtain rfl := Except.ok.inj h
    rw [hs] at hc
    exact ⟨by rw [hs]; rfl, ⟨hs, hc.2.2⟩, hc.1, hc.2.1, fun k => rfl⟩
  · exact absurd h (by simp [bind, Except.bind])

/-- C44: unpacking gives arrays of valid outcomes whose packed value is the given one. -/
theorem C44_unpack (outdims : List ℕ) (n : ℕ) (p : NDArray ℤ) (hne : nsDims outdims ≠ [])
    (hsz : (nsDims outdims).prod ≤ intpMax) (h255 : ∀ d ∈ outdims, d ≤ 255) (hp : IsPacked (nsDims outdims) n p) :
    ∃ s, unpackSamples outdims p = .ok s ∧ IsSamples (nsDims outdims) n s ∧
      ∀ k < n, hornerVal (nsDims outdims) ((List.range (nsDims outdims).length).map fun j => s.get [k, j]) = p.get [k] := by
  have hin : ∀ k < n, InB (unravelIdx (nsDims outdims) (p.get [k]).toNat) (nsDims outdims) := by
    intro k hk
    refine unravelIdx_inB ?_
    have := hp.2 k hk
    omega
  have hval : ∀ k < n, ∀ j < (nsDims outdims).length,
      (unravelIdx (nsDims outdims) (p.get [k]).toNat).getD j 0 < (nsDims outdims).getD j 0 := by
    intro k hk j hj
    have := (List.forall₂_iff_get.1 (hin k hk)).2 j (by simpa using hj) hj
    rw [List.getD_eq_getElem _ _ hj, List.getD_eq_getElem _ _ (by simpa using hj)]
    exact this
  have hd : ∀ j < (nsDims outdims).length, (nsDims outdims).getD j 0 ≤ 255 := by
    intro j hj
    rw [List.getD_eq_getElem _ _ hj]
    exact h255 _ (List.mem_filter.1 (List.getElem_mem hj)).1
  have hget : ∀ k < n, ∀ j < (nsDims outdims).length,
      ((unravelIdx (nsDims outdims) (p.get [k]).toNat).getD j 0 : ℤ) % 256
        = ((unravelIdx (nsDims outdims) (p.get [k]).toNat).getD j 0 : ℕ) := by
    intro k hk j hj
    have h1 := hval k hk j hj
    have h2 := hd j hj
    exact Int.emod_eq_of_lt (by positivity) (by omega)
  refine ⟨⟨[n, (nsDims outdims).length], fun i =>
      (((unravelIdx (nsDims outdims) (p.get [i.getD 0 0]).toNat).getD (i.getD 1 0) 0 : ℕ) : ℤ) % 256⟩, ?_, ⟨rfl, ?_⟩, ?_⟩
  · unfold unpackSamples unravelIndices
    rw [pyAssert_true (by rw [NDArray.ndim, hp.1]; rfl), ok_bind, pyAssert_true h255, ok_bind, hp.1]
    rw [if_pos ⟨hne, hsz, fun k hk => hp.2 k hk⟩, ok_bind]
    rfl
  · intro k hk j hj
    simp only [List.getD_cons_zero, List.getD_cons_succ]
    rw [hget k hk j hj]
    exact ⟨by positivity, by exact_mod_cast hval k hk j hj⟩
  · intro k hk
    have h1 := hornerVal_eq (hin k hk)
    rw [ravel_unravel (by have := hp.2 k hk; omega)] at h1
    have h2 : ((List.range (nsDims outdims).length).map fun j =>
        (((unravelIdx (nsDims outdims) (p.get [k]).toNat).getD j 0 : ℕ) : ℤ) % 256)
        = (unravelIdx (nsDims outdims) (p.get [k]).toNat).map fun n : ℕ => (n : ℤ) := by
      refine List.ext_getElem (by simp) fun j h1 h2 => ?_
      simp only [List.length_map, List.length_range, unravelIdx_length] at h1 h2
      simp only [List.getElem_map, List.getElem_range]
      rw [hget k hk j h1, List.getD_eq_getElem _ _ (by simpa using h1)]
    simp only [List.getD_cons_zero, List.getD_cons_succ]
    rw [h2, h1]
    have := hp.2 k hk
    omega

theorem hornerVal_inj {dims i j : List ℕ} (hi : InB i dims) (hj : InB j dims)
    (h : hornerVal dims (i.map fun n : ℕ => (n : ℤ)) = hornerVal dims (j.map fun n : ℕ => (n : ℤ))) : i = j := by
  rw [hornerVal_eq hi, hornerVal_eq hj] at h
  have h' : ravelIdx dims i = ravelIdx dims j := by exact_mod_cast h
  rw [← unravel_ravel hi, h', unravel_ravel hj]

/-- C44: different samples have different packed values. -/
theorem horner_rows_inj {dims : List ℕ} {n m : ℕ} {s t : NDArray ℤ} (hs : IsSamples dims n s)
    (ht : IsSamples dims m t) {k l : ℕ} (hk : k < n) (hl : l < m)
    (h : hornerVal dims (sampleRow s k) = hornerVal dims (sampleRow t l)) : sampleRow s k = sampleRow t l := by
  rw [← sampleRow_cast hs hk, ← sampleRow_cast ht hl] at h ⊢
  rw [hornerVal_inj (sampleRow_inB hs hk) (sampleRow_inB ht hl) h]

/-- C44: unpacking packed samples returns the samples. -/
theorem C44_unpack_pack (outdims : List ℕ) (n : ℕ) (s : NDArray ℤ) (hne : nsDims outdims ≠ [])
    (hsz : (nsDims outdims).prod ≤ intpMax) (h255 : ∀ d ∈ outdims, d ≤ 255) (hs : IsSamples (nsDims outdims) n s) :
    ∃ p t, packSamples outdims s none = .ok p ∧ unpackSamples outdims p = .ok t ∧ t.shape = s.shape ∧
      ∀ k < n, ∀ j < (nsDims outdims).length, t.get [k, j] = s.get [k, j] := by
  obtain ⟨p, h1, h2, h3⟩ := C44_pack outdims n s hne hsz hs
  obtain ⟨t, h4, h5, h6⟩ := C44_unpack outdims n p hne hsz h255 h2
  refine ⟨p, t, h1, h4, by rw [h5.1, hs.1], fun k hk j hj => ?_⟩
  have hrow : ∀ {r : NDArray ℤ}, IsSamples (nsDims outdims) n r →
      sampleRow r k = (List.range (nsDims outdims).length).map fun j => r.get [k, j] := by
    intro r hr; unfold sampleRow; rw [hr.1]; rfl
  have := horner_rows_inj h5 hs hk hk (by rw [hrow h5, hrow hs, h6 k hk, h3 k hk])
  rw [hrow h5, hrow hs] at this
  have := congrArg (fun l => l[j]?) this
  simpa [hj] using this

/-- C44: packing unpacked samples returns the packed samples. -/
theorem C44_pack_unpack (outdims : List ℕ) (n : ℕ) (p : NDArray ℤ) (hne : nsDims outdims ≠ [])
    (hsz : (nsDims outdims).prod ≤ intpMax) (h255 : ∀ d ∈ outdims, d ≤ 255) (hp : IsPacked (nsDims outdims) n p) :
    ∃ s q, unpackSamples outdims p = .ok s ∧ packSamples outdims s none = .ok q ∧ q.shape = p.shape ∧
      ∀ k < n, q.get [k] = p.get [k] := by
  obtain ⟨s, h1, h2, h3⟩ := C44_unpack outdims n p hne hsz h255 hp
  obtain ⟨q, h4, h5, h6⟩ := C44_pack outdims n s hne hsz h2
  exact ⟨s, q, h1, h4, by rw [h5.1, hp.1], fun k hk => by rw [h6 k hk, h3 k hk]⟩

/-- C44: packing into a smaller integer type either gives the same values, which fit into the type, or
fails. -/
theorem C44_pack_dtype (outdims : List ℕ) (n : ℕ) (s : NDArray ℤ) (lo hi : ℤ) (hn : 0 < n)
    (hne : nsDims outdims ≠ []) (hsz : (nsDims outdims).prod ≤ intpMax) (hs : IsSamples (nsDims outdims) n s) :
    ∃ p, packSamples outdims s none = .ok p ∧
      packSamples outdims s (some (lo, hi)) =
        if ∀ k < n, lo ≤ p.get [k] ∧ p.get [k] ≤ hi then .ok p else .error .assertion := by
  obtain ⟨p, h1, h2, h3⟩ := C44_pack outdims n s hne hsz hs
  refine ⟨p, h1, ?_⟩
  unfold packSamples at h1 ⊢
  rw [pyAssert_true (by rw [NDArray.ndim, hs.1]; rfl), ok_bind, pyAssert_true (by rw [hs.1]; rfl), ok_bind] at h1 ⊢
  cases hr : ravelMultiIndex s (nsDims outdims) with
  | error e => rw [hr] at h1; exact absurd h1 (by simp [bind, Except.bind])
  | ok q =>
    rw [hr, ok_bind] at h1
    obtain rfl : q = p := Except.ok.inj h1
    rw [ok_bind]
    simp only [h2.1, List.getD_cons_zero]
    rw [show pyGuard (n ≠ 0) PyErr.value = .ok () from if_pos hn.ne', ok_bind]
    by_cases hlo : ∀ k < n, lo ≤ q.get [k]
    · rw [pyAssert_true hlo, ok_bind]
      by_cases hhi : ∀ k < n, q.get [k] ≤ hi
      · rw [pyAssert_true hhi, ok_bind, if_pos fun k hk => ⟨hlo k hk, hhi k hk⟩]
      · rw [pyAssert_false hhi, if_neg fun h => hhi fun k hk => (h k hk).2]; rfl
    · rw [pyAssert_false hlo, if_neg fun h => hlo fun k hk => (h k hk).1]; rfl

/-- C44: samples with an impossible outcome are refused. -/
theorem C44_pack_out_of_range (outdims : List ℕ) (n k j : ℕ) (s : NDArray ℤ) (dtype : Option (ℤ × ℤ))
    (hs : s.shape = [n, (nsDims outdims).length])
    (hk : k < n) (hj : j < (nsDims outdims).length)
    (hbad : s.get [k, j] < 0 ∨ ((nsDims outdims).getD j 0 : ℕ) ≤ s.get [k, j]) :
    packSamples outdims s dtype = .error .value := by
  unfold packSamples ravelMultiIndex
  rw [pyAssert_true (by rw [NDArray.ndim, hs]; rfl), ok_bind, pyAssert_true (by rw [hs]; rfl), ok_bind, if_neg]
  · rfl
  · rintro ⟨_, _, h⟩
    have := h k (by rw [hs]; exact hk) j (by rw [hs]; exact hj)
    omega

/-- C44: packed values which are not outcomes are refused. -/
theorem C44_unpack_out_of_range (outdims : List ℕ) (n k : ℕ) (p : NDArray ℤ) (h255 : ∀ d ∈ outdims, d ≤ 255)
    (hp : p.shape = [n]) (hk : k < n) (hbad : p.get [k] < 0 ∨ ((nsDims outdims).prod : ℕ) ≤ p.get [k]) :
    unpackSamples outdims p = .error .value := by
  unfold unpackSamples unravelIndices
  rw [pyAssert_true (by rw [NDArray.ndim, hp]; rfl), ok_bind, pyAssert_true h255, ok_bind, if_neg]
  · rfl
  · rintro ⟨_, _, h⟩
    have := h k (by rw [hp]; exact hk)
    omega

theorem mapM_zip_ok {α β γ : Type} {f : α × β → Py γ} : ∀ {l : List α} {m : List β},
    (∀ p ∈ l.zip m, ∃ c, f p = .ok c) → ∃ cs, (l.zip m).mapM f = .ok cs ∧ cs.length = (l.zip m).length ∧
      ∀ (k : ℕ) p, (l.zip m)[k]? = some p → ∃ c, cs[k]? = some c ∧ f p = .ok c := by
  intro l m h
  generalize l.zip m = z at h
  induction z with
  | nil => exact ⟨[], rfl, rfl, by simp⟩
  | cons a z ih =>
    obtain ⟨c, hc⟩ := h a (by simp)
    obtain ⟨cs, h1, h2, h3⟩ := ih fun p hp => h p (by simp [hp])
    refine ⟨c :: cs, by rw [List.mapM_cons, hc, ok_bind, h1]; rfl, by simp [h2], ?_⟩
    intro k p hk
    cases k with
    | zero => simp only [List.getElem?_cons_zero, Option.some.injEq] at hk; subst hk; exact ⟨c, by simp, hc⟩
    | succ k =>
      simp only [List.getElem?_cons_succ] at hk ⊢
      exact h3 k p hk

/-- C44 for MP-POVM lists: packing then unpacking returns the samples of each MP-POVM. -/
theorem C44_list (mpps : List (List ℕ)) (samples : List (NDArray ℤ)) (ns : List ℕ)
    (hl : samples.length = mpps.length) (hn : ns.length = mpps.length)
    (h : ∀ (i : ℕ) od, mpps[i]? = some od → nsDims od ≠ [] ∧ (nsDims od).prod ≤ intpMax ∧
      (∀ d ∈ od, d ≤ 255) ∧ ∀ s n, samples[i]? = some s → ns[i]? = some n → IsSamples (nsDims od) n s) :
    ∃ ps ts, packSamplesList mpps samples = .ok ps ∧ unpackSamplesList mpps ps = .ok ts ∧
      ts.length = samples.length ∧
      ∀ (i : ℕ) od s t n, mpps[i]? = some od → samples[i]? = some s → ts[i]? = some t → ns[i]? = some n →
        t.shape = s.shape ∧ ∀ k < n, ∀ j < (nsDims od).length, t.get [k, j] = s.get [k, j] := by
  have key : ∀ (i : ℕ) s od, samples[i]? = some s → mpps[i]? = some od →
      ∃ n p t, ns[i]? = some n ∧ packSamples od s none = .ok p ∧ unpackSamples od p = .ok t ∧ t.shape = s.shape ∧
      ∀ k < n, ∀ j < (nsDims od).length, t.get [k, j] = s.get [k, j] := by
    intro i s od hs hod
    obtain ⟨h1, h2, h3, h4⟩ := h i od hod
    have hi : i < ns.length := by
      have := (List.getElem?_eq_some_iff.1 hod).1
      omega
    have hni := List.getElem?_eq_getElem hi
    obtain ⟨p, t, g1, g2, g3, g4⟩ := C44_unpack_pack od _ s h1 h2 h3 (h4 s _ hs hni)
    exact ⟨_, p, t, hni, g1, g2, g3, g4⟩
  obtain ⟨ps, hp1, hp2, hp3⟩ := mapM_zip_ok (f := fun p : NDArray ℤ × List ℕ => packSamples p.2 p.1 none)
    (l := samples) (m := mpps) (by
      intro p hp
      obtain ⟨i, hi⟩ := List.mem_iff_getElem?.1 hp
      obtain ⟨hs, hod⟩ := List.getElem?_zip_eq_some.1 hi
      obtain ⟨_, q, _, _, h1, _⟩ := key i _ _ hs hod
      exact ⟨q, h1⟩)
  have hpl : ps.length = mpps.length := by rw [hp2, List.length_zip]; omega
  have hp4 : ∀ (i : ℕ) q od, ps[i]? = some q → mpps[i]? = some od → ∃ s, samples[i]? = some s ∧ packSamples od s none = .ok q := by
    intro i q od hq hod
    have hi : i < samples.length := by
      have := (List.getElem?_eq_some_iff.1 hod).1
      omega
    obtain ⟨c, h1, h2⟩ := hp3 i (samples[i], od) (List.getElem?_zip_eq_some.2 ⟨List.getElem?_eq_getElem hi, hod⟩)
    rw [h1] at hq
    obtain rfl := Option.some.inj hq
    exact ⟨_, List.getElem?_eq_getElem hi, h2⟩
  obtain ⟨ts, ht1, ht2, ht3⟩ := mapM_zip_ok (f := fun p : NDArray ℤ × List ℕ => unpackSamples p.2 p.1)
    (l := ps) (m := mpps) (by
      intro p hp
      obtain ⟨i, hi⟩ := List.mem_iff_getElem?.1 hp
      obtain ⟨hq, hod⟩ := List.getElem?_zip_eq_some.1 hi
      obtain ⟨s, hs, hq'⟩ := hp4 i _ _ hq hod
      obtain ⟨_, q, t, _, h1, h2, _⟩ := key i _ _ hs hod
      rw [h1] at hq'
      obtain rfl := Except.ok.inj hq'
      exact ⟨t, h2⟩)
  refine ⟨ps, ts, ?_, ?_, by rw [ht2, List.length_zip]; omega, ?_⟩
  · unfold packSamplesList; rw [pyAssert_true hl, ok_bind]; exact hp1
  · unfold unpackSamplesList; rw [pyAssert_true hpl, ok_bind]; exact ht1
  · intro i od s t n hod hs ht hni
    have hi : i < ps.length := by
      have := (List.getElem?_eq_some_iff.1 hod).1
      omega
    obtain ⟨c, h1, h2⟩ := ht3 i (ps[i], od) (List.getElem?_zip_eq_some.2 ⟨List.getElem?_eq_getElem hi, hod⟩)
    rw [h1] at ht
    obtain rfl := Option.some.inj ht
    obtain ⟨s', hs', hq⟩ := hp4 i _ od (List.getElem?_eq_getElem hi) hod
    rw [hs] at hs'
    obtain rfl := Option.some.inj hs'
    obtain ⟨n', q, t, hn', g1, g2, g3, g4⟩ := key i _ _ hs hod
    rw [hni] at hn'
    obtain rfl := Option.some.inj hn'
    rw [g1] at hq
    obtain rfl := Except.ok.inj hq
    dsimp only at h2
    rw [g2] at h2
    obtain rfl := Except.ok.inj h2
    exact ⟨g3, g4⟩

/-- Non-vacuity: the docstring example (outcome dimensions `(6, 6)` and a site without outcome). -/
def exSamples : NDArray ℤ := ⟨[4, 2], fun i => ([0, 1, 1, 0, 1, 2, 5, 5] : List ℤ).getD (i.getD 0 0 * 2 + i.getD 1 0) 0⟩

example : nsDims [6, 1, 6] = [6, 6] ∧ IsSamples (nsDims [6, 1, 6]) 4 exSamples ∧
    (packSamples [6, 1, 6] exSamples none).map (fun p => [p.get [0], p.get [1], p.get [2], p.get [3]])
      = .ok [1, 6, 8, 35] := by
  refine ⟨by decide, ⟨rfl, ?_⟩, by decide⟩
  show ∀ k < 4, ∀ j, j < 2 → _
  decide

end Mpnum
