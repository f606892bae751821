import Verif.Props.C44
import Mathlib.Algebra.BigOperators.Field
import Mathlib.Data.Rat.Cast.Defs

/-! # C45: `est_pmf` returns relative frequencies -/

open Finset

namespace Mpnum

/-- Specification: number of samples (rows of `s`) equal to the outcome `y`. -/
def occurrences (s : NDArray ℤ) (n : ℕ) (y : List ℕ) : ℕ :=
  ((range n).filter fun k => sampleRow s k = y.map fun m : ℕ => (m : ℤ)).card

theorem foldl_max_const {f : ℕ → ℕ} {n : ℕ} : ∀ {l : List ℕ}, (∀ k ∈ l, f k ≤ n) →
    l.foldl (fun m k => max m (f k)) n = n := by
  intro l
  induction l with
  | nil => intro _; rfl
  | cons a l ih =>
    intro h
    rw [List.foldl_cons, max_eq_left (h a (by simp)), ih fun k hk => h k (by simp [hk])]

theorem filter_length_eq {n : ℕ} (P : ℕ → Prop) [DecidablePred P] :
    ((List.range n).filter fun k => P k).length = ((range n).filter P).card := rfl

theorem estPmf_core (outdims : List ℕ) (n : ℕ) (s p : NDArray ℤ) (f : ℕ → ℕ) (normalize : Bool)
    (hne : nsDims outdims ≠ []) (hs : s.shape ≠ []) (hsn : s.shape.getD 0 0 = n)
    (hp : (if 1 < s.ndim then packSamples outdims s none else .ok s) = .ok p)
    (hps : p.shape = [n]) (hf : ∀ k < n, p.get [k] = (f k : ℕ) ∧ f k < (nsDims outdims).prod) :
    ∃ e, estPmf outdims s normalize = .ok e ∧ e.shape = nsDims outdims ∧
      (∀ y, InB y (nsDims outdims) → e.get y
        = (((range n).filter fun k => f k = ravelIdx (nsDims outdims) y).card : ℚ) / (if normalize then n else 1)) ∧
      sumIdx (nsDims outdims) (fun y => ((range n).filter fun k => f k = ravelIdx (nsDims outdims) y).card) = n := by
  have hb : bincount p (nsDims outdims).prod = .ok ⟨[(nsDims outdims).prod],
      fun i => ((List.range n).filter fun k => p.get [k] = (i.getD 0 0 : ℕ)).length⟩ := by
    unfold bincount
    have h0 : ∀ k < p.shape.getD 0 0, 0 ≤ p.get [k] := by
      intro k hk
      rw [hps] at hk
      obtain ⟨h1, h2⟩ := hf k hk
      omega
    rw [if_pos ⟨by rw [NDArray.ndim, hps]; rfl, h0⟩, hps]
    · simp only [List.getD_cons_zero]
      rw [foldl_max_const (f := fun k => (p.get [k]).toNat + 1)]
      intro k hk
      obtain ⟨h1, h2⟩ := hf k (by simpa using hk)
      omega
  have hcnt : ∀ m : ℕ, ((List.range n).filter fun k => p.get [k] = (m : ℕ)).length
      = ((range n).filter fun k => f k = m).card := by
    intro m
    rw [← filter_length_eq]
    congr 1
    refine List.filter_congr fun k hk => ?_
    obtain ⟨h1, _⟩ := hf k (by simpa using hk)
    rw [h1]
    simp
  obtain ⟨c, hc⟩ : ∃ c : NDArray ℕ, c = (⟨[(nsDims outdims).prod],
      fun i => ((List.range n).filter fun k => p.get [k] = (i.getD 0 0 : ℕ)).length⟩ : NDArray ℕ) := ⟨_, rfl⟩
  have hr := NDArray.reshape_nat (a := c) (s := nsDims outdims) (by rw [hc]; simp)
  have hget : ∀ y, InB y (nsDims outdims) → (c.reshapeTo (nsDims outdims)).get y
      = ((range n).filter fun k => f k = ravelIdx (nsDims outdims) y).card := by
    intro y hy
    rw [NDArray.reshapeTo_get, hc]
    simp only [unravelIdx_single, List.getD_cons_zero]
    rw [hcnt]
  have hsum : sumIdx (nsDims outdims) (fun y => ((range n).filter fun k => f k = ravelIdx (nsDims outdims) y).card) = n := by
    rw [sumIdx_ravel (nsDims outdims) fun m => ((range n).filter fun k => f k = m).card]
    have := Finset.card_eq_sum_card_fiberwise (s := range n) (t := range (nsDims outdims).prod) (f := f)
      (fun k hk => by simpa using (hf k (by simpa using hk)).2)
    rw [← this, card_range]
  have hsum' : sumIdx (c.reshapeTo (nsDims outdims)).shape (c.reshapeTo (nsDims outdims)).get = n := by
    rw [NDArray.reshapeTo_shape, sumIdx_congr hget, hsum]
  have hmain : estPmf outdims s normalize = if normalize = true then
      .ok ⟨(c.reshapeTo (nsDims outdims)).shape, fun i => ((c.reshapeTo (nsDims outdims)).get i : ℚ) / n⟩
      else .ok ⟨(c.reshapeTo (nsDims outdims)).shape, fun i => ((c.reshapeTo (nsDims outdims)).get i : ℚ)⟩ := by
    unfold estPmf
    rw [show pyGuard (s.shape ≠ []) PyErr.index = .ok () from if_pos hs, ok_bind]
    simp only [hsn]
    rw [hp, ok_bind, show pyGuard (nsDims outdims ≠ []) PyErr.type = .ok () from if_pos hne, ok_bind, hb, ok_bind, pyAssert_true rfl, ok_bind, ← hc, hr, ok_bind, pyAssert_true hsum', ok_bind]
  cases normalize with
  | true =>
    refine ⟨_, hmain, rfl, fun y hy => ?_, hsum⟩
    simp only [hget y hy, if_true]
  | false =>
    refine ⟨_, hmain, rfl, fun y hy => ?_, hsum⟩
    simp [hget y hy]

theorem row_eq_iff {dims : List ℕ} {n : ℕ} {s : NDArray ℤ} (hs : IsSamples dims n s) {k : ℕ} (hk : k < n)
    {y : List ℕ} (hy : InB y dims) :
    ravelIdx dims ((sampleRow s k).map Int.toNat) = ravelIdx dims y ↔ sampleRow s k = y.map fun m : ℕ => (m : ℤ) := by
  constructor
  · intro h
    have : (sampleRow s k).map Int.toNat = y := by
      rw [← unravel_ravel (sampleRow_inB hs hk), h, unravel_ravel hy]
    rw [← sampleRow_cast hs hk, this]
  · intro h
    rw [h, List.map_map]
    congr 1
    rw [show Int.toNat ∘ (fun m : ℕ => (m : ℤ)) = id from funext fun m => rfl, List.map_id]

/-- C45: the entries of `est_pmf(samples)` are relative frequencies, and they sum to one. -/
theorem C45_est_pmf (outdims : List ℕ) (n : ℕ) (s : NDArray ℤ) (hn : 0 < n) (hne : nsDims outdims ≠ [])
    (hsz : (nsDims outdims).prod ≤ intpMax) (hs : IsSamples (nsDims outdims) n s) :
    ∃ e, estPmf outdims s = .ok e ∧ e.shape = nsDims outdims ∧
      (∀ y, InB y (nsDims outdims) → e.get y = (occurrences s n y : ℚ) / n) ∧
      sumIdx (nsDims outdims) e.get = 1 := by
  obtain ⟨p, h1, h2, _⟩ := C44_pack outdims n s hne hsz hs
  obtain ⟨g1, _, _, _, g2⟩ := pack_get hs.1 h1
  obtain ⟨e, e1, e2, e3, e4⟩ := estPmf_core outdims n s p
    (fun k => ravelIdx (nsDims outdims) ((sampleRow s k).map Int.toNat)) true hne (by rw [hs.1]; simp) (by rw [hs.1]; rfl)
    (by rw [if_pos (by rw [NDArray.ndim, hs.1]; simp), h1]) g1
    (fun k hk => ⟨g2 k, ravelIdx_lt (sampleRow_inB hs hk)⟩)
  have hocc : ∀ y, InB y (nsDims outdims) → ((range n).filter fun k =>
      ravelIdx (nsDims outdims) ((sampleRow s k).map Int.toNat) = ravelIdx (nsDims outdims) y).card = occurrences s n y := by
    intro y hy
    unfold occurrences
    congr 1
    exact filter_congr fun k hk => row_eq_iff hs (by simpa using hk) hy
  refine ⟨e, e1, e2, fun y hy => ?_, ?_⟩
  · rw [e3 y hy, hocc y hy]; simp
  · rw [sumIdx_congr e3]
    simp only [if_true, div_eq_mul_inv]
    rw [← sumIdx_mul]
    have hcast : ∀ (S : List ℕ) (g : List ℕ → ℕ), sumIdx S (fun y => (g y : ℚ)) = ((sumIdx S g : ℕ) : ℚ) := by
      intro S
      induction S with
      | nil => intro g; rfl
      | cons d S ih => intro g; simp only [sumIdx_cons, ih]; push_cast; rfl
    rw [hcast, e4]
    have : (n : ℚ) ≠ 0 := by exact_mod_cast hn.ne'
    exact mul_inv_cancel₀ this

/-- C45: `normalize=False` returns the number of occurrences of each outcome. -/
theorem C45_counts (outdims : List ℕ) (n : ℕ) (s : NDArray ℤ) (hne : nsDims outdims ≠ [])
    (hsz : (nsDims outdims).prod ≤ intpMax) (hs : IsSamples (nsDims outdims) n s) :
    ∃ e, estPmf outdims s false = .ok e ∧ e.shape = nsDims outdims ∧
      ∀ y, InB y (nsDims outdims) → e.get y = (occurrences s n y : ℚ) := by
  obtain ⟨p, h1, h2, _⟩ := C44_pack outdims n s hne hsz hs
  obtain ⟨g1, _, _, _, g2⟩ := pack_get hs.1 h1
  obtain ⟨e, e1, e2, e3, e4⟩ := estPmf_core outdims n s p
    (fun k => ravelIdx (nsDims outdims) ((sampleRow s k).map Int.toNat)) false hne (by rw [hs.1]; simp) (by rw [hs.1]; rfl)
    (by rw [if_pos (by rw [NDArray.ndim, hs.1]; simp), h1]) g1
    (fun k hk => ⟨g2 k, ravelIdx_lt (sampleRow_inB hs hk)⟩)
  refine ⟨e, e1, e2, fun y hy => ?_⟩
  rw [e3 y hy]
  have : ((range n).filter fun k =>
      ravelIdx (nsDims outdims) ((sampleRow s k).map Int.toNat) = ravelIdx (nsDims outdims) y).card = occurrences s n y := by
    unfold occurrences
    congr 1
    exact filter_congr fun k hk => row_eq_iff hs (by simpa using hk) hy
  rw [this]
  simp

/-- C45: the estimate from packed samples is the estimate from the samples. -/
theorem C45_packed (outdims : List ℕ) (n : ℕ) (s : NDArray ℤ) (normalize : Bool) (hne : nsDims outdims ≠ [])
    (hsz : (nsDims outdims).prod ≤ intpMax) (hs : IsSamples (nsDims outdims) n s) :
    ∃ p e e', packSamples outdims s none = .ok p ∧ estPmf outdims s normalize = .ok e ∧
      estPmf outdims p normalize = .ok e' ∧ e'.shape = e.shape ∧
      ∀ y, InB y (nsDims outdims) → e'.get y = e.get y := by
  obtain ⟨p, h1, h2, _⟩ := C44_pack outdims n s hne hsz hs
  obtain ⟨g1, _, _, _, g2⟩ := pack_get hs.1 h1
  have hf := fun k (hk : k < n) => (⟨g2 k, ravelIdx_lt (sampleRow_inB hs hk)⟩ : _ ∧ _)
  obtain ⟨e, e1, e2, e3, _⟩ := estPmf_core outdims n s p
    (fun k => ravelIdx (nsDims outdims) ((sampleRow s k).map Int.toNat)) normalize hne (by rw [hs.1]; simp) (by rw [hs.1]; rfl)
    (by rw [if_pos (by rw [NDArray.ndim, hs.1]; simp), h1]) g1 hf
  obtain ⟨e', e1', e2', e3', _⟩ := estPmf_core outdims n p p
    (fun k => ravelIdx (nsDims outdims) ((sampleRow s k).map Int.toNat)) normalize hne (by rw [g1]; simp) (by rw [g1]; rfl)
    (by rw [if_neg (by rw [NDArray.ndim, g1]; simp)]) g1 hf
  exact ⟨p, e, e', h1, e1, e1', by rw [e2, e2'], fun y hy => by rw [e3 y hy, e3' y hy]⟩

/-- C45: packed samples which are not outcomes are refused (too large: assertion). -/
theorem C45_packed_out_of_range (outdims : List ℕ) (n k : ℕ) (p : NDArray ℤ) (normalize : Bool)
    (hne : nsDims outdims ≠ []) (hp : p.shape = [n]) (hk : k < n) (hbad : p.get [k] < 0 ∨ ((nsDims outdims).prod : ℕ) ≤ p.get [k]) :
    estPmf outdims p normalize = .error .value ∨ estPmf outdims p normalize = .error .assertion := by
  unfold estPmf
  rw [show pyGuard (p.shape ≠ []) PyErr.index = .ok () from if_pos (by rw [hp]; simp), ok_bind]
  simp only []
  rw [if_neg (by rw [NDArray.ndim, hp]; simp), ok_bind, show pyGuard (nsDims outdims ≠ []) PyErr.type = .ok () from if_pos hne,
    ok_bind]
  unfold bincount
  by_cases h0 : ∀ k < p.shape.getD 0 0, 0 ≤ p.get [k]
  · rw [if_pos ⟨by rw [NDArray.ndim, hp]; rfl, h0⟩, ok_bind, pyAssert_false]
    · right; rfl
    · have hge : ∀ (l : List ℕ) (m : ℕ), m ≤ l.foldl (fun m k => max m ((p.get [k]).toNat + 1)) m ∧
          ∀ j ∈ l, (p.get [j]).toNat + 1 ≤ l.foldl (fun m k => max m ((p.get [k]).toNat + 1)) m := by
        intro l
        induction l with
        | nil => intro m; simp
        | cons a l ih =>
          intro m
          rw [List.foldl_cons]
          refine ⟨(le_max_left _ _).trans (ih _).1, fun j hj => ?_⟩
          rcases List.mem_cons.1 hj with rfl | hj
          · exact (le_max_right _ _).trans (ih _).1
          · exact (ih _).2 j hj
      intro hc
      have := (hge (List.range (p.shape.getD 0 0)) (nsDims outdims).prod).2 k (by rw [hp]; simpa using hk)
      have h0k := h0 k (by rw [hp]; exact hk)
      simp only [List.cons.injEq, and_true] at hc
      rw [hc] at this
      omega
  · rw [if_neg fun h => h0 h.2]
    left; rfl

/-- C45: samples with an impossible outcome are refused. -/
theorem C45_out_of_range (outdims : List ℕ) (n k j : ℕ) (s : NDArray ℤ) (normalize : Bool)
    (hs : s.shape = [n, (nsDims outdims).length]) (hk : k < n) (hj : j < (nsDims outdims).length)
    (hbad : s.get [k, j] < 0 ∨ ((nsDims outdims).getD j 0 : ℕ) ≤ s.get [k, j]) :
    estPmf outdims s normalize = .error .value := by
  unfold estPmf
  have h : (1 : ℕ) < s.ndim := by rw [NDArray.ndim, hs]; simp
  rw [show pyGuard (s.shape ≠ []) PyErr.index = .ok () by simp [pyGuard, hs], ok_bind, if_pos h,
    C44_pack_out_of_range outdims n k j s none hs hk hj hbad]
  rfl

/-- C45, deviation from the documentation: if no site has several outcomes, then every call with packed samples raises a
`TypeError`, although the only outcome has probability one. -/
theorem C45_no_outcomes (outdims : List ℕ) (n : ℕ) (p : NDArray ℤ) (normalize : Bool) (h : nsDims outdims = [])
    (hp : p.shape = [n]) : estPmf outdims p normalize = .error .type := by
  unfold estPmf
  rw [show pyGuard (p.shape ≠ []) PyErr.index = .ok () from if_pos (by rw [hp]; simp), ok_bind]
  simp only []
  rw [if_neg (by rw [NDArray.ndim, hp]; simp), ok_bind, show pyGuard (nsDims outdims ≠ []) PyErr.type = .error .type from
    if_neg (by simp [h])]
  rfl

/-- C45 for MP-POVM lists: each estimate is the estimate of the MP-POVM on its samples. -/
theorem C45_list (mpps : List (List ℕ)) (samples : List (NDArray ℤ)) (normalized : Bool)
    (hl : samples.length = mpps.length)
    (h : ∀ p ∈ mpps.zip samples, ∃ e, estPmf p.1 p.2 normalized = .ok e) :
    ∃ es, estPmfList mpps samples normalized = .ok es ∧ es.length = mpps.length ∧
      ∀ (i : ℕ) od s, mpps[i]? = some od → samples[i]? = some s →
        ∃ e, es[i]? = some e ∧ estPmf od s normalized = .ok e := by
  obtain ⟨es, h1, h2, h3⟩ := mapM_zip_ok (f := fun p : List ℕ × NDArray ℤ => estPmf p.1 p.2 normalized) h
  refine ⟨es, by unfold estPmfList; rw [pyAssert_true hl, ok_bind]; exact h1, by rw [h2, List.length_zip]; omega, ?_⟩
  intro i od s hod hs
  exact h3 i (od, s) (List.getElem?_zip_eq_some.2 ⟨hod, hs⟩)

/-- Non-vacuity: outcome `(1, 2)` occurs once in four samples. -/
example : (estPmf [6, 1, 6] exSamples).map (fun e => (e.shape, e.get [1, 2])) = .ok ([6, 6], 1 / 4) := by
  have hs : IsSamples (nsDims [6, 1, 6]) 4 exSamples := by
    refine ⟨rfl, ?_⟩
    show ∀ k < 4, ∀ j, j < 2 → _
    decide
  obtain ⟨e, h1, h2, h3, _⟩ := C45_est_pmf [6, 1, 6] 4 exSamples (by norm_num) (by decide) (by decide) hs
  rw [h1]
  simp only [Except.map, h2, h3 [1, 2] (by simp [nsDims])]
  have : occurrences exSamples 4 [1, 2] = 1 := by decide
  rw [this]
  norm_num [nsDims]

end Mpnum
