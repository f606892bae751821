import Verif.Props.C08
import Verif.Props.C09

/-!
C08 and C09, all arguments: when `dot` and `inner` succeed and what they raise otherwise.
-/

open Finset

namespace Mpnum

variable {R : Type}

theorem zipM_fail {α β γ : Type} {f : α → β → Py γ} {e : PyErr} : ∀ {ls : List α} {rs : List β},
    (∀ l r, (l, r) ∈ ls.zip rs → (∃ z, f l r = .ok z) ∨ f l r = .error e) →
    (∃ l r, (l, r) ∈ ls.zip rs ∧ f l r = .error e) → zipM f ls rs = .error e
  | [], _, _, ⟨_, _, h, _⟩ => by simp at h
  | _ :: _, [], _, ⟨_, _, h, _⟩ => by simp at h
  | a :: as, b :: bs, h, ⟨l, r, hm, he⟩ => by
    rw [zipM]
    rcases h a b (by simp) with ⟨z, hz⟩ | hz
    · rw [hz, ok_bind, zipM_fail (fun l r hm => h l r (by simp [hm])) ⟨l, r, ?_, he⟩]
      · rfl
      · rw [List.zip_cons_cons, List.mem_cons] at hm
        rcases hm with hm | hm
        · simp only [Prod.mk.injEq] at hm
          rw [hm.1, hm.2, hz] at he
          cases he
        · exact hm
    · rw [hz]; rfl

/-- One site of `dot` with axes in range that repeat a leg or have different sizes. -/
theorem localDot_fail [CommSemiring R] {l r : NDArray R} (hl : l.IsLocal) (hr : r.IsLocal)
    {axes : List ℤ × List ℤ} {axa axb : List ℕ} (hlen : axes.1.length = axes.2.length)
    (h1 : axes.1.mapM (pyIndex l.ndim) = .ok (axa.map (· + 1)))
    (h2 : axes.2.mapM (pyIndex r.ndim) = .ok (axb.map (· + 1)))
    (ha : ∀ p ∈ axa, p < l.ph.length) (hb : ∀ p ∈ axb, p < r.ph.length)
    (h : ¬ (axa.Nodup ∧ axb.Nodup ∧ conDims l.ph axa = conDims r.ph axb)) : localDot l r axes = .error .value := by
  unfold localDot
  simp only
  rw [pyAssert_true hlen, ok_bind]
  unfold NDArray.tensordot
  rw [h1, h2]
  simp only [ok_bind]
  rw [if_neg]
  · rfl
  · rintro ⟨h3, h4, h5⟩
    rw [NDArray.shape_local hl, NDArray.shape_local hr, map_getD_bonds ha, map_getD_bonds hb] at h3
    exact h ⟨List.Nodup.of_map _ h4, List.Nodup.of_map _ h5, h3⟩

/-- C08, all arguments whose axes are in range on every site: `dot` succeeds exactly for the admissible ones (`C08_dot` describes the result).
Unequal lengths of the chains and different numbers of axes raise `AssertionError`, repeated axes and different sizes of contracted legs
`ValueError`. -/
theorem C08_dot_outcomes [CommSemiring R] (x y : MPA R) (axes : List ℤ × List ℤ) (hx : x.Valid) (hy : y.Valid)
    (hax : ∀ s ∈ x.shape, AxesIn axes.1 s.length) (hay : ∀ s ∈ y.shape, AxesIn axes.2 s.length) :
    (DotArgs x y axes → ∃ z, dot x y axes = .ok z) ∧
    (¬ DotArgs x y axes → dot x y axes = .error (if x.len = y.len ∧ axes.1.length = axes.2.length then .value else .assertion)) := by
  refine ⟨fun h => ?_, fun h => ?_⟩
  · obtain ⟨z, hz, -⟩ := C08_dot x y axes hx hy h
    exact ⟨z, hz⟩
  by_cases hlen : x.len = y.len
  swap
  · rw [if_neg fun h' => hlen h'.1]; exact C08_dot_length x y axes hlen
  by_cases hn : axes.1.length = axes.2.length
  swap
  · rw [if_neg fun h' => hn h'.2]
    unfold dot
    rw [pyAssert_true hlen, ok_bind]
    obtain ⟨t, ts, hxt, -⟩ := hx.cons
    obtain ⟨u, us, hyt, -⟩ := hy.cons
    have : localDot t u (axes.1.map adaptAxis, axes.2.map adaptAxis) = .error .assertion := by
      unfold localDot
      simp only
      rw [pyAssert_false (by simpa using hn)]
      rfl
    rw [hxt, hyt, zipM, this]
    rfl
  rw [if_pos ⟨hlen, hn⟩]
  unfold dot
  rw [pyAssert_true hlen, ok_bind, zipM_fail (e := .value)]
  · rfl
  · intro l r hm
    have hml : l ∈ x.lt := (List.of_mem_zip hm).1
    have hmr : r ∈ y.lt := (List.of_mem_zip hm).2
    have hll := hx.chain.isLocal l hml
    have hrl := hy.chain.isLocal r hmr
    have hln : l.ndim = l.ph.length + 2 := NDArray.ndim_local hll
    have hrn : r.ndim = r.ph.length + 2 := NDArray.ndim_local hrl
    have h1 := hax l.ph (List.mem_map_of_mem hml)
    have h3 := hay r.ph (List.mem_map_of_mem hmr)
    by_cases hc : (axesOf axes.1 l.ph.length).Nodup ∧ (axesOf axes.2 r.ph.length).Nodup ∧
        conDims l.ph (axesOf axes.1 l.ph.length) = conDims r.ph (axesOf axes.2 r.ph.length)
    · obtain ⟨z, hz, -⟩ := localDot_ok hll hrl (axes := (axes.1.map adaptAxis, axes.2.map adaptAxis)) (by rw [hln]; exact mapM_adapt h1)
        (by rw [hrn]; exact mapM_adapt h3) (axesOf_lt h1) (axesOf_lt h3) hc.1 hc.2.1 hc.2.2
      exact .inl ⟨z, hz⟩
    · exact .inr (localDot_fail hll hrl (by simpa using hn) (by rw [hln]; exact mapM_adapt h1) (by rw [hrn]; exact mapM_adapt h3)
        (axesOf_lt h1) (axesOf_lt h3) hc)
  · by_contra hno
    simp only [not_exists, not_and] at hno
    apply h
    have key : ∀ l r, (l, r) ∈ x.lt.zip y.lt → (axesOf axes.1 l.ph.length).Nodup ∧ (axesOf axes.2 r.ph.length).Nodup ∧
        conDims l.ph (axesOf axes.1 l.ph.length) = conDims r.ph (axesOf axes.2 r.ph.length) := by
      intro l r hm
      by_contra hc
      have hml : l ∈ x.lt := (List.of_mem_zip hm).1
      have hmr : r ∈ y.lt := (List.of_mem_zip hm).2
      have hll := hx.chain.isLocal l hml
      have hrl := hy.chain.isLocal r hmr
      have h1 := hax l.ph (List.mem_map_of_mem hml)
      have h3 := hay r.ph (List.mem_map_of_mem hmr)
      exact hno l r hm (localDot_fail hll hrl (by simpa using hn) (by rw [NDArray.ndim_local hll]; exact mapM_adapt h1)
        (by rw [NDArray.ndim_local hrl]; exact mapM_adapt h3) (axesOf_lt h1) (axesOf_lt h3) hc)
    have hl : x.lt.length = y.lt.length := hlen
    refine ⟨hlen, fun s hs => ⟨hax s hs, ?_⟩, fun s hs => ⟨hay s hs, ?_⟩, ?_⟩
    · obtain ⟨l, hml, rfl⟩ := List.mem_map.1 hs
      rw [← List.map_fst_zip (l₁ := x.lt) (l₂ := y.lt) hl.le] at hml
      obtain ⟨⟨l', r⟩, hm, rfl⟩ := List.mem_map.1 hml
      exact (key _ _ hm).1
    · obtain ⟨r, hmr, rfl⟩ := List.mem_map.1 hs
      rw [← List.map_snd_zip (l₁ := x.lt) (l₂ := y.lt) hl.ge] at hmr
      obtain ⟨⟨l, r'⟩, hm, rfl⟩ := List.mem_map.1 hmr
      exact (key _ _ hm).2.1
    · simp only [MPA.shape, List.map_map]
      rw [← List.map_fst_zip (l₁ := x.lt) (l₂ := y.lt) hl.le]
      conv_rhs => rw [← List.map_snd_zip (l₁ := x.lt) (l₂ := y.lt) hl.ge]
      rw [List.map_map, List.map_map]
      exact List.map_congr_left fun p hp => (key p.1 p.2 hp).2.2

/-- The hypotheses of `C08_dot_outcomes` are met by admissible and by inadmissible arguments: matrices of sizes 2 × 3 on two sites, contracted
over legs of equal and of different sizes. -/
example : ∃ x : MPA ℤ, x.Valid ∧ x.len = 2 ∧ x.shape = [[2, 3], [2, 3]] ∧
    (∃ z, dot x x ([1], [-1]) = .ok z) ∧ dot x x ([1], [0]) = .error .value ∧ dot x x ([0, 0], [0, 0]) = .error .value ∧
    dot x x ([0, 1], [0]) = .error .assertion := by
  let a : ℕ → ℕ → NDArray ℤ := fun l r => ⟨[l, 2, 3, r], fun i => (i.getD 1 0 : ℤ) + 1⟩
  have ha : ∀ l r, (a l r).IsLocal := fun l r => by simp [a, NDArray.IsLocal, NDArray.ndim]
  have hv : (⟨[a 1 2, a 2 1], 0, 2⟩ : MPA ℤ).Valid := valid_mk (by simp) ⟨ha _ _, rfl, ha _ _, rfl, rfl⟩
  have hs : (⟨[a 1 2, a 2 1], 0, 2⟩ : MPA ℤ).shape = [[2, 3], [2, 3]] := rfl
  have hin : ∀ b : List ℤ, (∀ i ∈ b, -2 ≤ i ∧ i < 2) → ∀ s ∈ (⟨[a 1 2, a 2 1], 0, 2⟩ : MPA ℤ).shape, AxesIn b s.length := by
    intro b hb s hs' i hi
    rw [hs] at hs'
    have : s = [2, 3] := by simpa using hs'
    subst this
    exact hb i hi
  have hout := fun b c (hb : ∀ i ∈ b, -2 ≤ i ∧ i < 2) (hc : ∀ i ∈ c, -2 ≤ i ∧ i < 2) => C08_dot_outcomes _ _ (b, c) hv hv (hin b hb) (hin c hc)
  refine ⟨_, hv, rfl, rfl, ?_, ?_, ?_, ?_⟩
  · refine (hout [1] [-1] (by simp) (by simp)).1 ⟨rfl, ?_, ?_, rfl⟩
    · exact fun s hs' => ⟨hin [1] (by simp) s hs', by simp [axesOf]⟩
    · exact fun s hs' => ⟨hin [-1] (by simp) s hs', by simp [axesOf]⟩
  · exact (hout [1] [0] (by simp) (by simp)).2 fun h => absurd h.dims (by rw [hs]; decide)
  · exact (hout [0, 0] [0, 0] (by simp) (by simp)).2 fun h => absurd (h.axl [2, 3] (by rw [hs]; simp)).2 (by decide)
  · exact (hout [0, 1] [0] (by simp) (by simp)).2 fun h => absurd h.dims (by rw [hs]; decide)

theorem forall₂_left_mem {α β : Type} {P : α → β → Prop} {l : List α} {r : List β} (h : List.Forall₂ P l r) {a : α} (ha : a ∈ l) : ∃ b, P a b := by
  induction h with
  | nil => simp at ha
  | cons h _ ih =>
    rcases List.mem_cons.1 ha with rfl | ha
    · exact ⟨_, h⟩
    · exact ih ha

/-- C08: an axis that is out of range by more than one for the first site raises `IndexError`. -/
theorem C08_dot_index [CommSemiring R] (x y : MPA R) (axes : List ℤ × List ℤ) (hx : x.Valid) (hy : y.Valid) (hlen : x.len = y.len)
    (hn : axes.1.length = axes.2.length) (p q : List ℕ) (hp : x.shape.head? = some p) (hq : y.shape.head? = some q)
    (h : (∃ a ∈ axes.1, (p.length : ℤ) < a ∨ a < -(p.length : ℤ) - 1) ∨ ∃ a ∈ axes.2, (q.length : ℤ) < a ∨ a < -(q.length : ℤ) - 1) :
    dot x y axes = .error .index := by
  obtain ⟨t, ts, hxt, -⟩ := hx.cons
  obtain ⟨u, us, hyt, -⟩ := hy.cons
  have ht : t.IsLocal := hx.chain.isLocal t (by rw [hxt]; simp)
  have hu : u.IsLocal := hy.chain.isLocal u (by rw [hyt]; simp)
  have htp : t.ph = p := by simpa [MPA.shape, hxt] using hp
  have huq : u.ph = q := by simpa [MPA.shape, hyt] using hq
  have herr : ∀ (n : ℕ) (b : List ℤ), b.mapM (pyIndex n) = .error .index ∨ ∃ c, b.mapM (pyIndex n) = .ok c := by
    intro n b
    induction b with
    | nil => exact .inr ⟨[], rfl⟩
    | cons i b ih =>
      rw [List.mapM_cons]
      have hi : pyIndex n i = .error .index ∨ ∃ j, pyIndex n i = .ok j := by
        unfold pyIndex
        split_ifs <;> simp
      rcases hi with hi | ⟨j, hi⟩
      · left; rw [hi]; rfl
      · rcases ih with ih | ⟨c, ih⟩
        · left; rw [hi, ih]; rfl
        · right; rw [hi, ih]; exact ⟨_, rfl⟩
  have hbad : ∀ (n : ℕ) (b : List ℤ), (∃ a ∈ b, (n : ℤ) < a ∨ a < -(n : ℤ) - 1) → (b.map adaptAxis).mapM (pyIndex (n + 2)) = .error .index := by
    rintro n b ⟨a, ha, hr⟩
    rcases herr (n + 2) (b.map adaptAxis) with h' | ⟨c, h'⟩
    · exact h'
    · have h2 := mapM_ok_iff.1 h'
      rw [List.forall₂_map_left_iff] at h2
      obtain ⟨j, hj⟩ := forall₂_left_mem h2 ha
      unfold adaptAxis pyIndex at hj
      split_ifs at hj <;> omega
  have hdot : localDot t u (axes.1.map adaptAxis, axes.2.map adaptAxis) = .error .index := by
    unfold localDot
    simp only
    rw [pyAssert_true (by simpa using hn), ok_bind]
    unfold NDArray.tensordot
    rw [NDArray.ndim_local ht, NDArray.ndim_local hu, htp, huq]
    rcases h with h | h
    · rw [hbad _ _ h]; rfl
    · rcases herr (p.length + 2) (axes.1.map adaptAxis) with h' | ⟨c, h'⟩
      · rw [h']; rfl
      · rw [h', ok_bind, hbad _ _ h]; rfl
  unfold dot
  rw [pyAssert_true hlen, ok_bind, hxt, hyt, zipM, hdot]
  rfl

/-- C08, a finding: an axis that is out of range by one is not rejected, but denotes a virtual leg.  Here the tensors have one leg, the axis 1 does
not exist, and `dot(x, y, axes=(1, 0))` succeeds. -/
theorem C08_virtual_leg : ∃ x y : MPA ℤ, x.Valid ∧ y.Valid ∧ x.shape = [[1]] ∧ y.shape = [[1]] ∧ ∃ z, dot x y ([1], [0]) = .ok z ∧ z.Valid := by
  let a : NDArray ℤ := ⟨[1, 1, 1], fun _ => 1⟩
  have hv : (⟨[a], 0, 1⟩ : MPA ℤ).Valid := valid_mk (by simp) ⟨by simp [a, NDArray.IsLocal, NDArray.ndim], rfl, rfl⟩
  refine ⟨_, _, hv, hv, rfl, rfl, ?_⟩
  obtain ⟨b, hb, hs⟩ : ∃ b, localDot a a ([2], [1]) = .ok b ∧ b.shape = [1, 1] := by
    have h1 : a.tensordot a [2] [1] = .ok (a.tensordotTo a [2] [1]) := by
      have := NDArray.tensordot_ok (a := a) (b := a) (axa := [2]) (axb := [1]) (by simp [a, NDArray.ndim]) (by simp [a, NDArray.ndim])
        (by simp [a]) (by simp) (by simp)
      simpa using this
    have s1 : (a.tensordotTo a [2] [1]).shape = [1, 1, 1, 1] := by decide
    set c := a.tensordotTo a [2] [1]
    have h2 : ∀ (c : NDArray ℤ), c.shape = [1, 1, 1, 1] → ∀ i < 4, ∀ j ≤ 4, ∃ d, c.rollaxis i j = .ok d ∧ d.shape = [1, 1, 1, 1] := by
      intro c hc i hi j hj
      have hn : c.ndim = 4 := by simp [NDArray.ndim, hc]
      refine ⟨c.rollaxisTo i j, by rw [NDArray.rollaxis, if_pos ⟨by omega, by omega⟩], ?_⟩
      unfold NDArray.rollaxisTo NDArray.transposeTo
      rw [hn, hc]
      show List.map (fun p => [1, 1, 1, 1].getD p 0) (NDArray.rollPerm 4 i j) = [1, 1, 1, 1]
      clear hn hc
      revert i j
      decide
    obtain ⟨d, hd, sd⟩ := h2 c s1 2 (by omega) 1 (by omega)
    obtain ⟨e, he, se⟩ := h2 d sd 2 (by omega) 3 (by omega)
    unfold localDot
    simp only
    rw [pyAssert_true (by simp), ok_bind, h1, ok_bind]
    have ha : a.ndim - [(2 : ℤ)].length = 2 := rfl
    have hb : a.ndim + a.ndim - [(2 : ℤ)].length - [(1 : ℤ)].length - 1 = 3 := rfl
    rw [ha, hb, hd, ok_bind, he, ok_bind, NDArray.reshape_nat]
    · exact ⟨_, rfl, by simp [NDArray.reshapeTo, NDArray.ndim, se]; exact ⟨rfl, rfl⟩⟩
    · rw [se, NDArray.ndim, se]; rfl
  have hc : Chained 1 [b] 1 := ⟨by simp [NDArray.IsLocal, NDArray.ndim, hs], by simp [NDArray.lb, hs], by simp [NDArray.rb, hs]⟩
  refine ⟨⟨[b], 0, 1⟩, ?_, valid_mk (by simp) hc⟩
  unfold dot
  rw [pyAssert_true rfl, ok_bind]
  have : localDot a a ([1].map adaptAxis, [0].map adaptAxis) = .ok b := hb
  simp only [zipM]
  rw [this]
  exact mkMPA_ok (by simp) hc

/-- Specification: the index of the entry of a tensor with leg sizes `T` per site that has at every site the same row-major position as the
index `idx` for the leg sizes `S`. -/
def regroupIdx (S T idx : List (List ℕ)) : List (List ℕ) :=
  List.zipWith3 (fun s t i => unravelIdx t (ravelIdx s i)) S T idx

section
variable [CommRing R] [StarRing R]

/-- One factor of `inner` for any legs of equal total size. -/
theorem localInner_group {l r : NDArray R} (hl : l.IsLocal) (hr : r.IsLocal) (hpl : 0 < l.lb * l.rb)
    (hpr : 0 < r.lb * r.rb) (hph : l.ph.prod = r.ph.prod) :
    ∃ z, (do
        let l' ← localRavel l
        let r' ← localRavel r
        localDot l'.conj r' ([1], [1]) : Py (NDArray R)) = .ok z ∧
      PSite.OK ⟨l.conj, r, z, l.ph, [], [], fun k _ => k, fun k _ => unravelIdx r.ph (ravelIdx l.ph k)⟩ := by
  obtain ⟨l', h1, h2, h3⟩ := localRavel_ok hl hpl
  obtain ⟨r', h4, h5, h6⟩ := localRavel_ok hr hpr
  have hl' := NDArray.isLocal_of_shape h2
  have hr' := NDArray.isLocal_of_shape h5
  have pl := NDArray.ph_of_shape h2
  have pr := NDArray.ph_of_shape h5
  have hl'c : l'.conj.IsLocal := hl'
  have plc : l'.conj.ph = [l.ph.prod] := pl
  obtain ⟨z, hz, hok⟩ := localDot_ok (l := l'.conj) (r := r') hl'c hr' (axes := ([1], [1]))
    (axa := [0]) (axb := [0])
    (by rw [NDArray.ndim_local hl'c, plc]; rfl) (by rw [NDArray.ndim_local hr', pr]; rfl)
    (by rw [plc]; simp) (by rw [pr]; simp) (by simp) (by simp)
    (by rw [plc, pr, hph])
  refine ⟨z, by rw [h1, h4]; exact hz, ?_⟩
  obtain ⟨s1, s2⟩ := hok
  simp only [plc, pr] at s1 s2
  have f0 : ∀ d : ℕ, freeDims [d] [0] = [] := fun d => rfl
  simp only [f0] at s1 s2
  have lbl : l'.lb = l.lb := NDArray.lb_of_shape h2
  have rbl : l'.rb = l.rb := NDArray.rb_of_shape h2
  have lbr : r'.lb = r.lb := NDArray.lb_of_shape h5
  have rbr : r'.rb = r.rb := NDArray.rb_of_shape h5
  refine ⟨?_, ?_⟩
  · simpa [conj_lb, conj_rb, lbl, rbl, lbr, rbr] using s1
  · intro a ha a' ha' b hb b' hb' f g hf hg
    simp only [conj_lb, conj_rb] at ha hb s2 ⊢
    have := s2 a (by rw [lbl]; exact ha) a' (by rw [lbr]; exact ha') b (by rw [rbl]; exact hb) b'
      (by rw [rbr]; exact hb') f g hf hg
    rw [lbr, rbr] at this
    rw [this]
    cases hf; cases hg
    rw [← sum_unravel l.ph fun k => l.conj.at3 a k b * r.at3 a' (unravelIdx r.ph (ravelIdx l.ph k)) b']
    show sumIdx [l.ph.prod] _ = _
    simp only [sumIdx]
    refine Finset.sum_congr rfl fun k hk => ?_
    have hk : k < l.ph.prod := by simpa using hk
    have e : NDArray.asm 1 [0] [k] [] = [k] := rfl
    simp only [List.length_singleton, e, conj_at3]
    rw [h3 a ha b hb k hk, h6 a' ha' b' hb' k (by rw [← hph]; exact hk), ravel_unravel hk]

theorem localInner_fail {l r : NDArray R} (hl : l.IsLocal) (hr : r.IsLocal) (hpl : 0 < l.lb * l.rb)
    (hpr : 0 < r.lb * r.rb) (hph : l.ph.prod ≠ r.ph.prod) :
    (do
        let l' ← localRavel l
        let r' ← localRavel r
        localDot l'.conj r' ([1], [1]) : Py (NDArray R)) = .error .value := by
  obtain ⟨l', h1, h2, h3⟩ := localRavel_ok hl hpl
  obtain ⟨r', h4, h5, h6⟩ := localRavel_ok hr hpr
  have hl' := NDArray.isLocal_of_shape h2
  have hr' := NDArray.isLocal_of_shape h5
  have pr := NDArray.ph_of_shape h5
  have hl'c : l'.conj.IsLocal := hl'
  have plc : l'.conj.ph = [l.ph.prod] := NDArray.ph_of_shape h2
  rw [h1, h4]
  refine localDot_fail (l := l'.conj) (r := r') hl'c hr' (axes := ([1], [1])) (axa := [0]) (axb := [0]) rfl
    (by rw [NDArray.ndim_local hl'c, plc]; rfl) (by rw [NDArray.ndim_local hr', pr]; rfl)
    (by rw [plc]; simp) (by rw [pr]; simp) fun h => hph ?_
  have := h.2.2
  rw [plc, pr] at this
  simpa [conDims] using this

/-- C09, all arguments with positive ranks: `inner(a, b)` succeeds exactly if the chains have the same length and at every site the numbers of
entries of the physical legs agree.  The legs may be grouped differently; then entries with the same row-major position at every site are
multiplied.  All other shapes raise `ValueError`, unequal lengths `AssertionError`. -/
theorem C09_inner_outcomes (x y : MPA R) (hx : x.Valid) (hy : y.Valid) (hpx : ∀ r ∈ x.ranks, 0 < r) (hpy : ∀ r ∈ y.ranks, 0 < r) :
    (x.len ≠ y.len → inner x y = .error .assertion) ∧
    (x.len = y.len → x.shape.map List.prod ≠ y.shape.map List.prod → inner x y = .error .value) ∧
    (x.shape.map List.prod = y.shape.map List.prod →
      inner x y = .ok (sumSites x.shape fun i => star (x.val i) * y.val (regroupIdx x.shape y.shape i))) := by
  have hpos : ∀ {z : MPA R}, z.Valid → (∀ r ∈ z.ranks, 0 < r) → ∀ t ∈ z.lt, 0 < t.lb * t.rb := by
    intro z hz hr t ht
    have aux : ∀ (l r : ℕ) (ts : List (NDArray R)), 0 < l → 0 < r → Chained l ts r →
        (∀ q ∈ ts.tail.map NDArray.lb, 0 < q) → ∀ t ∈ ts, 0 < t.lb * t.rb := by
      intro l r ts
      induction ts generalizing l with
      | nil => intro _ _ _ _ t ht; simp at ht
      | cons u us ih =>
        intro hl hr hc hq t ht
        obtain ⟨_, h2, h3⟩ := hc
        have hub : 0 < u.rb := by
          cases us with
          | nil => simp only [chained_nil] at h3; omega
          | cons w ws =>
            have := hq w.lb (by simp)
            have := h3.2.1; omega
        rcases List.mem_cons.1 ht with rfl | ht
        · rw [h2]; exact Nat.mul_pos hl hub
        · exact ih u.rb hub hr h3 (fun q hq' => hq q (by
            cases us with
            | nil => simp at hq'
            | cons w ws => simp only [List.tail_cons, List.map_cons] at hq' ⊢; simp [hq'])) t ht
    exact aux 1 1 z.lt one_pos one_pos hz.chain hr t ht
  refine ⟨fun h => ?_, fun hlen hs => ?_, fun hs => ?_⟩
  · unfold inner
    rw [pyAssert_false h]; rfl
  · unfold inner
    rw [pyAssert_true hlen, ok_bind, zipM_fail (e := .value)]
    · rfl
    · intro l r hm
      have hml : l ∈ x.lt := (List.of_mem_zip hm).1
      have hmr : r ∈ y.lt := (List.of_mem_zip hm).2
      by_cases hp : l.ph.prod = r.ph.prod
      · obtain ⟨z, hz, -⟩ := localInner_group (hx.chain.isLocal l hml) (hy.chain.isLocal r hmr) (hpos hx hpx l hml) (hpos hy hpy r hmr) hp
        exact .inl ⟨z, hz⟩
      · exact .inr (localInner_fail (hx.chain.isLocal l hml) (hy.chain.isLocal r hmr) (hpos hx hpx l hml) (hpos hy hpy r hmr) hp)
    · by_contra hno
      simp only [not_exists, not_and] at hno
      apply hs
      have hl : x.lt.length = y.lt.length := hlen
      have hz : (x.lt.zip y.lt).map (fun p => p.1.ph.prod) = (x.lt.zip y.lt).map fun p => p.2.ph.prod := by
        refine List.map_congr_left fun p hp => ?_
        by_contra hc
        have hml : p.1 ∈ x.lt := (List.of_mem_zip hp).1
        have hmr : p.2 ∈ y.lt := (List.of_mem_zip hp).2
        exact hno p.1 p.2 hp (localInner_fail (hx.chain.isLocal _ hml) (hy.chain.isLocal _ hmr) (hpos hx hpx _ hml) (hpos hy hpy _ hmr) hc)
      have e1 : (x.lt.zip y.lt).map (fun p => p.1.ph.prod) = x.shape.map List.prod := by
        conv_rhs => rw [MPA.shape, ← List.map_fst_zip (l₁ := x.lt) (l₂ := y.lt) hl.le, List.map_map, List.map_map]
        rfl
      have e2 : (x.lt.zip y.lt).map (fun p => p.2.ph.prod) = y.shape.map List.prod := by
        conv_rhs => rw [MPA.shape, ← List.map_snd_zip (l₁ := x.lt) (l₂ := y.lt) hl.ge, List.map_map, List.map_map]
        rfl
      rw [← e1, ← e2, hz]
  have hlen : x.len = y.len := by
    have := congrArg List.length hs; simpa [MPA.shape, MPA.len] using this
  have hphz : ∀ l r, (l, r) ∈ x.lt.zip y.lt → l.ph.prod = r.ph.prod := by
    intro l r hm
    obtain ⟨n, hn, he⟩ := List.mem_iff_getElem.1 hm
    simp only [List.getElem_zip, Prod.mk.injEq] at he
    have h1 : n < x.lt.length := by simp at hn; omega
    have h2 : n < y.lt.length := by simp at hn; omega
    have := congrArg (fun q => q[n]?) hs
    simp only [MPA.shape, List.map_map, List.getElem?_map, List.getElem?_eq_getElem h1,
      List.getElem?_eq_getElem h2, he.1, he.2, Option.map_some, Option.some.injEq] at this
    exact this
  obtain ⟨ts, hz, hl, hr, hP⟩ := zipM_triples (f := fun l r => (do
        let l' ← localRavel l
        let r' ← localRavel r
        localDot l'.conj r' ([1], [1]) : Py (NDArray R)))
    (P := fun l r z => PSite.OK ⟨l.conj, r, z, l.ph, [], [], fun k _ => k, fun k _ => unravelIdx r.ph (ravelIdx l.ph k)⟩)
    (ls := x.lt) (rs := y.lt) hlen (by
      intro l r hm
      have hml : l ∈ x.lt := (List.of_mem_zip hm).1
      have hmr : r ∈ y.lt := (List.of_mem_zip hm).2
      exact localInner_group (hx.chain.isLocal l hml) (hy.chain.isLocal r hmr) (hpos hx hpx l hml)
        (hpos hy hpy r hmr) (hphz l r hm))
  set g : NDArray R × NDArray R × NDArray R → PSite R := fun t =>
    ⟨t.1.conj, t.2.1, t.2.2, t.1.ph, [], [], fun k _ => k, fun k _ => unravelIdx t.2.1.ph (ravelIdx t.1.ph k)⟩ with hg
  obtain ⟨zs, hzs⟩ : ∃ zs, zs = ts.map fun t => t.2.2 := ⟨_, rfl⟩
  rw [← hzs] at hz
  have hok : ∀ s ∈ ts.map g, s.OK := by
    intro s hs
    obtain ⟨t, ht, rfl⟩ := List.mem_map.1 hs
    exact hP t ht
  have e1 : (ts.map g).map PSite.l = x.lt.map NDArray.conj := by
    rw [← hl, List.map_map, List.map_map]; rfl
  have e2 : (ts.map g).map PSite.r = y.lt := by rw [List.map_map, ← hr]; rfl
  have e3 : (ts.map g).map PSite.z = zs := by rw [List.map_map, hzs]; rfl
  have e4 : (ts.map g).map PSite.SL = List.replicate ts.length [] := by
    rw [List.map_map]; exact List.map_const
  have e5 : (ts.map g).map PSite.SR = List.replicate ts.length [] := by
    rw [List.map_map]; exact List.map_const
  have e6 : (ts.map g).map PSite.K = x.shape := by
    rw [MPA.shape, ← hl, List.map_map, List.map_map]; rfl
  have hcx : Chained 1 (x.lt.map NDArray.conj) 1 := chained_map_same conj_shape hx.chain
  obtain ⟨hc, hsh⟩ := chained_prod hok (by rw [e1]; exact hcx) (by rw [e2]; exact hy.chain)
  rw [e3] at hc hsh
  rw [e4, e5] at hsh
  have hrep : ∀ n, List.zipWith (· ++ ·) (List.replicate n ([] : List ℕ)) (List.replicate n [])
      = List.replicate n [] := fun n => by simp
  rw [hrep] at hsh
  have hne : zs ≠ [] := by
    intro h0
    have : ts = [] := by simpa [hzs] using h0
    apply hx.ne; rw [← hl, this]; rfl
  obtain ⟨A, hA, hRep⟩ := ltensToArray_ok hc hne
  obtain ⟨B, hB, hBs, hBg⟩ := rep_dropBonds hRep
  have hnil : IdxOK (List.replicate ts.length []) (List.replicate ts.length []) := by
    generalize ts.length = n
    induction n with
    | zero => exact .nil
    | succ n ih => exact .cons .nil ih
  unfold inner
  rw [pyAssert_true hlen, ok_bind, hz, ok_bind, hA, ok_bind, hB]
  show Except.ok (B.get []) = _
  congr 1
  have h0 := hBg (List.replicate ts.length []) (by rw [hsh]; exact hnil)
  rw [show (List.replicate ts.length ([] : List ℕ)).flatten = [] by simp] at h0
  rw [h0]
  have := mp_prod hok (by rw [e1]; exact hcx) (by rw [e2]; exact hy.chain)
      (by rw [e4]; exact hnil) (by rw [e5]; exact hnil) (a := 0) (a' := 0) (b := 0) (b' := 0)
      one_pos one_pos one_pos one_pos
  rw [e1, e2, e3, e6, hrep] at this
  refine this.trans ?_
  refine sumSites_congr fun i hi => ?_
  have hil : i.length = ts.length := by
    have := idxOK_length hi
    rw [this, MPA.shape, ← hl]; simp
  have hG : pidx PSite.G (ts.map g) i (List.replicate ts.length []) = regroupIdx x.shape y.shape i := by
    rw [MPA.shape, MPA.shape, ← hl, ← hr, List.map_map, List.map_map]
    clear * - hil
    induction ts generalizing i with
    | nil => cases i <;> rfl
    | cons t ts ih =>
      cases i with
      | nil => simp at hil
      | cons j i =>
        simp only [List.map_cons, List.length_cons, List.replicate_succ, pidx, regroupIdx, List.zipWith3]
        rw [ih i (by simpa using hil)]
        rfl
  rw [pidx_id (fun _ _ _ => rfl) ts i _ hil (by simp), hG, ← star_mp]
  rfl

end

/-- C09, a finding and an example that meets the hypotheses of `C09_inner_outcomes`: a matrix of size 2 × 3 and a vector of size 6 have an inner
product, a vector of size 5 is rejected. -/
theorem C09_inner_other_legs : ∃ x y w : MPA ℤ, x.Valid ∧ y.Valid ∧ w.Valid ∧ x.shape = [[2, 3]] ∧ y.shape = [[6]] ∧ w.shape = [[5]] ∧
    inner x y = .ok (∑ i ∈ range 2, ∑ j ∈ range 3, star (x.val [[i, j]]) * y.val [[3 * i + j]]) ∧ inner x w = .error .value := by
  let a : List ℕ → NDArray ℤ := fun p => ⟨1 :: (p ++ [1]), fun i => (i.getD 1 0 : ℤ) + 1⟩
  have hsh : ∀ p, (a p).shape = 1 :: (p ++ [1]) := fun p => rfl
  have hv : ∀ p, (⟨[a p], 0, 1⟩ : MPA ℤ).Valid := fun p => valid_mk (by simp)
    ⟨NDArray.isLocal_of_shape (hsh p), NDArray.lb_of_shape (hsh p), NDArray.rb_of_shape (hsh p)⟩
  have hr : ∀ p, ∀ r ∈ (⟨[a p], 0, 1⟩ : MPA ℤ).ranks, 0 < r := fun p r h => by simp [MPA.ranks] at h
  have key : ∀ x y : MPA ℤ, x.Valid → y.Valid → x.shape = [[2, 3]] → y.shape = [[6]] → (∀ r ∈ x.ranks, 0 < r) → (∀ r ∈ y.ranks, 0 < r) →
      inner x y = .ok (∑ i ∈ range 2, ∑ j ∈ range 3, star (x.val [[i, j]]) * y.val [[3 * i + j]]) := by
    intro x y hx hy sx sy rx ry
    rw [(C09_inner_outcomes x y hx hy rx ry).2.2 (by rw [sx, sy]; rfl), sx, sy]
    congr 1
  refine ⟨⟨[a [2, 3]], 0, 1⟩, ⟨[a [6]], 0, 1⟩, ⟨[a [5]], 0, 1⟩, hv _, hv _, hv _, rfl, rfl, rfl, ?_, ?_⟩
  · exact key _ _ (hv _) (hv _) rfl rfl (hr _) (hr _)
  · exact (C09_inner_outcomes _ _ (hv [2, 3]) (hv [5]) (hr _) (hr _)).2.1 rfl (by show ([6] : List ℕ) ≠ [5]; decide)

end Mpnum
