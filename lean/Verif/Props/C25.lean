import Verif.MPArray.LocalSumLemmas
import Verif.Props.C24

/-!
# C25: `embed_slice` and `local_sum`
-/

open Finset

namespace Mpnum

variable {R : Type}

section
variable [CommSemiring R]

/-- Specification: entry of `e ⊗ … ⊗ e ⊗ x ⊗ e ⊗ … ⊗ e` with `x` on the sites `a, …, a + len(x) - 1`. -/
def embedVal (e : NDArray R) (x : MPA R) (a : ℕ) (idx : List (List ℕ)) : R :=
  ((idx.take a).map e.get).prod * x.val ((idx.drop a).take x.len)
    * ((idx.drop (a + x.len)).map e.get).prod

omit [CommSemiring R] in
/-- `x` on sites `a, …` and `e` on all other sites together have the physical shape `s`. -/
def EmbedFits (e : NDArray R) (s : List (List ℕ)) (x : MPA R) (a : ℕ) : Prop :=
  x.Valid ∧ ∃ b, s = List.replicate a e.shape ++ x.shape ++ List.replicate b e.shape

/-- The slice `slice(a, a + len(x))`. -/
def sliceOf (x : MPA R) (a : ℕ) : PySlice := ⟨some (a : ℤ), some ((a : ℤ) + (x.len : ℤ)), none⟩

omit [CommSemiring R] in
theorem chained_replicate_embed (e : NDArray R) (n : ℕ) : Chained 1 (List.replicate n e.addBonds) 1 := by
  have hes : e.addBonds.shape = 1 :: (e.shape ++ [1]) := rfl
  induction n with
  | zero => rfl
  | succ n ih =>
    rw [List.replicate_succ]
    refine ⟨NDArray.isLocal_of_shape hes, NDArray.lb_of_shape hes, ?_⟩
    rw [NDArray.rb_of_shape hes]; exact ih

theorem mp_replicate_embed (e : NDArray R) (idx : List (List ℕ)) :
    mp (List.replicate idx.length e.addBonds) idx 0 0 = (idx.map e.get).prod := by
  have hes : e.addBonds.shape = 1 :: (e.shape ++ [1]) := rfl
  induction idx with
  | nil => simp
  | cons q idx ih =>
    rw [List.length_cons, List.replicate_succ, mp_cons, NDArray.rb_of_shape hes, Finset.sum_range_one, ih,
      LS.addBonds_at3, List.map_cons, List.prod_cons]

theorem mp_embed {e : NDArray R} {x : MPA R} (hx : x.Valid) {a b : ℕ} {idx : List (List ℕ)}
    (hl : idx.length = a + x.len + b) :
    mp (List.replicate a e.addBonds ++ x.lt ++ List.replicate b e.addBonds) idx 0 0
      = embedVal e x a idx := by
  have hxl : x.lt.length = x.len := rfl
  have e1 : idx = idx.take a ++ (idx.drop a).take x.len ++ idx.drop (a + x.len) := by
    rw [List.append_assoc, ← List.drop_drop, List.take_append_drop, List.take_append_drop]
  obtain ⟨i1, hi1⟩ : ∃ i, i = idx.take a := ⟨_, rfl⟩
  obtain ⟨i2, hi2⟩ : ∃ i, i = (idx.drop a).take x.len := ⟨_, rfl⟩
  obtain ⟨i3, hi3⟩ : ∃ i, i = idx.drop (a + x.len) := ⟨_, rfl⟩
  unfold embedVal
  rw [← hi1, ← hi2, ← hi3]
  rw [← hi1, ← hi2, ← hi3] at e1
  have l1 : i1.length = a := by rw [hi1]; simp; omega
  have l2 : i2.length = x.len := by rw [hi2]; simp; omega
  have l3 : i3.length = b := by rw [hi3]; simp; omega
  rw [e1]
  have c1 := chained_replicate_embed e a
  have c2 : Chained 1 (List.replicate a e.addBonds ++ x.lt) 1 := chained_append.2 ⟨1, c1, hx.chain⟩
  rw [mp_append c2 (by simp [l1, l2, hxl]) one_pos, Finset.sum_range_one,
    mp_append c1 (by simp [l1]) one_pos, Finset.sum_range_one]
  have m1 := mp_replicate_embed e i1
  have m3 := mp_replicate_embed e i3
  rw [l1] at m1
  rw [l3] at m3
  rw [m1, m3]; rfl

omit [CommSemiring R] in
theorem embed_phys (e : NDArray R) (x : MPA R) (a b : ℕ) :
    physShape (List.replicate a e.addBonds ++ x.lt ++ List.replicate b e.addBonds)
      = List.replicate a e.shape ++ x.shape ++ List.replicate b e.shape := by
  have hes : e.addBonds.ph = e.shape := NDArray.ph_of_shape (t := e.addBonds) (l := 1) (r := 1) rfl
  simp [physShape, hes, MPA.shape]

omit [CommSemiring R] in
theorem sliceIndices_sliceOf {x : MPA R} {a n : ℕ} (h : a + x.len ≤ n) :
    sliceIndices (sliceOf x a).start (sliceOf x a).stop (sliceOf x a).step n
      = .ok ((a : ℤ), (a : ℤ) + (x.len : ℤ), 1) := by
  unfold sliceIndices sliceOf
  simp only [Option.getD_none]
  rw [if_neg (by omega)]
  have h1 : ¬ ((a : ℤ) < 0) := by omega
  have h2 : ¬ ((a : ℤ) + (x.len : ℤ) < 0) := by omega
  simp only [h1, h2, if_false]
  congr 2
  · simp; omega
  · congr 1
    simp; omega

/-- C25: `embed_slice(length, slice(a, a + len(mpa)), mpa, e)`. -/
theorem C25_embed_slice (x : MPA R) (e : NDArray R) (a n : ℕ) (hx : x.Valid) (h : a + x.len ≤ n) :
    ∃ z, embedSlice n (sliceOf x a) x (some e) = .ok z ∧ z.Valid ∧ z.l = 0 ∧ z.r = z.len ∧
      z.shape = List.replicate a e.shape ++ x.shape ++ List.replicate (n - (a + x.len)) e.shape ∧
      z.ranks = List.replicate a 1 ++ x.ranks ++ List.replicate (n - (a + x.len)) 1 ∧
      ∀ idx, IdxOK idx z.shape → z.val idx = embedVal e x a idx := by
  have hch : Chained 1 (List.replicate a e.addBonds ++ x.lt ++
      List.replicate (n - (a + x.len)) e.addBonds) 1 :=
    chained_append.2 ⟨1, chained_append.2 ⟨1, chained_replicate_embed e a, hx.chain⟩,
      chained_replicate_embed e _⟩
  have hne : List.replicate a e.addBonds ++ x.lt ++ List.replicate (n - (a + x.len)) e.addBonds ≠ [] := by
    have := hx.ne
    simp [this]
  refine ⟨⟨_, 0, _⟩, ?_, valid_mk hne hch, rfl, rfl, embed_phys e x _ _, ?_, ?_⟩
  · unfold embedSlice
    rw [sliceIndices_sliceOf h, ok_bind]
    simp only
    rw [pyAssert_true trivial, ok_bind, pyAssert_true (by omega), ok_bind]
    simp only [embedLten]
    rw [ok_bind, ← mkMPA_ok hne hch]
    congr 3
    · omega
  · have hl : e.addBonds.lb = 1 := rfl
    simp only [MPA.ranks]
    rw [List.map_tail, List.map_append, List.map_append, List.map_replicate, List.map_replicate, hl]
    exact (ranks_window hx a _).symm
  · intro idx hidx
    refine mp_embed hx ?_
    have := hidx.length_eq
    rw [this]
    simp [MPA.shape, MPA.len]
    ring

/-- C25: the default embedding tensor is the identity of the size of the first site. -/
theorem C25_embed_slice_default (x : MPA R) (d : ℕ) (rest : List (List ℕ)) (s : PySlice) (n : ℕ)
    (h : x.shape = [d, d] :: rest) :
    embedSlice n s x none = embedSlice n s x (some (NDArray.eye d)) := by
  unfold embedSlice
  simp only [embedLten, h, if_true]

omit [CommSemiring R] in
theorem fits_len {e : NDArray R} {s : List (List ℕ)} {x : MPA R} {a : ℕ} (h : EmbedFits e s x a) :
    a + x.len ≤ s.length ∧ s = List.replicate a e.shape ++ x.shape ++
      List.replicate (s.length - (a + x.len)) e.shape := by
  obtain ⟨_, b, hb⟩ := h
  have hl : s.length = a + x.len + b := by
    rw [hb]; simp [MPA.shape, MPA.len]; ring
  refine ⟨by omega, ?_⟩
  rw [hl, Nat.add_sub_cancel_left]; exact hb

/-- C25: a slice which does not have the length of the MPA is rejected. -/
theorem C25_embed_slice_width (x : MPA R) (e : Option (NDArray R)) (s : PySlice) (n : ℕ) (a b : ℤ)
    (h : sliceIndices s.start s.stop s.step n = .ok (a, b, 1)) (hw : (x.len : ℤ) ≠ b - a) :
    embedSlice n s x e = .error .assertion := by
  unfold embedSlice
  rw [h, ok_bind]
  simp only
  rw [pyAssert_true trivial, ok_bind, pyAssert_false hw, error_bind]

/-- C25: without an embedding tensor, the first MPA must have two legs of the same size. -/
theorem C25_embed_slice_not_square (x : MPA R) (s : PySlice) (n : ℕ) (a : ℕ)
    (h : sliceIndices s.start s.stop s.step n = .ok ((a : ℤ), (a : ℤ) + (x.len : ℤ), 1))
    (hne : x.lt ≠ []) (hs : ∀ d, x.shape.head? ≠ some [d, d]) :
    embedSlice n s x none = .error .assertion := by
  unfold embedSlice
  rw [h, ok_bind]
  simp only
  rw [pyAssert_true trivial, ok_bind, pyAssert_true (by omega), ok_bind]
  have : embedLten x none = .error .assertion := by
    unfold embedLten
    simp only
    split
    · rename_i h0
      simp [MPA.shape] at h0
      exact absurd h0 hne
    · rename_i d d' rest h0
      rw [if_neg]
      rintro rfl
      exact hs d (by rw [h0]; rfl)
    · rfl
  rw [this, error_bind]

/-! ### `local_sum` -/

/-- Specification of the result: shape `s`, value the sum of all embedded terms. -/
structure LocalSumSpec (e : NDArray R) (mpas : List (MPA R)) (starts : List ℕ) (s : List (List ℕ))
    (z : MPA R) : Prop where
  valid : z.Valid
  form : z.l = 0 ∧ z.r = z.len
  shape : z.shape = s
  val : ∀ idx, IdxOK idx s →
    z.val idx = (List.zipWith (fun x a => embedVal e x a idx) mpas starts).sum
  ranks_pos : (∀ x ∈ mpas, ∀ d ∈ x.ranks, 0 < d) → ∀ d ∈ z.ranks, 0 < d

omit [CommSemiring R] in
theorem fits_getD {e : NDArray R} {s : List (List ℕ)} {x : MPA R} {a : ℕ} (h : EmbedFits e s x a) :
    (∀ q, q < a → s.getD q [] = e.shape) ∧
    (∀ k, ∀ hk : k < x.lt.length, s.getD (a + k) [] = x.lt[k].ph) ∧
    (∀ q, a + x.len ≤ q → q < s.length → s.getD q [] = e.shape) := by
  obtain ⟨h1, h2⟩ := fits_len h
  obtain ⟨b, hb⟩ : ∃ b, b = s.length - (a + x.len) := ⟨_, rfl⟩
  rw [← hb] at h2
  refine ⟨?_, ?_, ?_⟩
  · intro q hq
    rw [h2, List.append_assoc, List.getD_eq_getElem?_getD, List.getElem?_append_left (by simpa using hq)]
    simp [hq]
  · intro k hk
    rw [h2, List.append_assoc, List.getD_eq_getElem?_getD, List.getElem?_append_right (by simp),
      List.getElem?_append_left (by simpa [MPA.shape] using hk)]
    simp [MPA.shape, hk]
  · intro q hq hq'
    rw [h2, List.getD_eq_getElem?_getD, List.getElem?_append_right (by simpa [MPA.shape, MPA.len] using hq)]
    have : q - (List.replicate a e.shape ++ x.shape).length < b := by
      simp [MPA.shape, MPA.len] at hq hb ⊢
      omega
    rw [List.getElem?_replicate, if_pos this]; rfl

theorem prod_take_ev (e : NDArray R) (idx : List (List ℕ)) (n : ℕ) (hn : n ≤ idx.length) :
    ∏ q ∈ Ico 0 n, LS.ev e idx q = ((idx.take n).map e.get).prod := by
  induction n with
  | zero => simp
  | succ n ih =>
    rw [Finset.prod_Ico_succ_top (by omega), ih (by omega), List.take_add_one,
      List.getElem?_eq_getElem (by omega)]
    simp only [Option.toList_some, List.map_append, List.map_cons, List.map_nil, List.prod_append,
      List.prod_cons, List.prod_nil, mul_one, LS.ev]
    congr 2
    simp [show n < idx.length by omega]

theorem prod_drop_ev (e : NDArray R) (idx : List (List ℕ)) (n : ℕ) :
    ∏ q ∈ Ico n idx.length, LS.ev e idx q = ((idx.drop n).map e.get).prod := by
  by_cases h : n < idx.length
  · rw [Finset.prod_eq_prod_Ico_succ_bot h, prod_drop_ev e idx (n + 1), List.drop_eq_getElem_cons h]
    simp only [List.map_cons, List.prod_cons, LS.ev]
    congr 2
    simp [h]
  · rw [Finset.Ico_eq_empty (by omega), List.drop_eq_nil_of_le (by omega)]; simp
termination_by idx.length - n

theorem mp_take (ts : List (NDArray R)) (idx : List (List ℕ)) (n a b : ℕ) (hn : ts.length ≤ n) :
    mp ts (idx.take n) a b = mp ts idx a b := by
  induction ts generalizing idx n a with
  | nil => simp
  | cons t ts ih =>
    cases n with
    | zero => simp at hn
    | succ n =>
      cases idx with
      | nil => rfl
      | cons q idx =>
        rw [List.take_succ_cons, mp_cons, mp_cons]
        exact Finset.sum_congr rfl fun c _ => by rw [ih idx n c (by simpa using hn)]

theorem sum_range_list (f : ℕ → R) (n : ℕ) : ∑ i ∈ range n, f i = ((List.range n).map f).sum := by
  induction n with
  | zero => simp
  | succ n ih => rw [Finset.sum_range_succ, ih, List.range_succ]; simp

/-- The automaton, for terms of the same width `w` on consecutive sites. -/
theorem localSumIdentity_ok (mpas : List (MPA R)) (w : ℕ) (e : NDArray R) (s : List (List ℕ))
    (hne : mpas ≠ []) (hw : ∀ x ∈ mpas, x.len = w) (hs : s.length + 1 = mpas.length + w)
    (h : List.Forall₂ (EmbedFits e s) mpas (List.range mpas.length)) :
    ∃ z, localSumIdentity mpas (some e) = .ok z ∧
      LocalSumSpec e mpas (List.range mpas.length) s z ∧
      ∀ D, 0 < D → (∀ x ∈ mpas, ∀ d ∈ x.ranks, d ≤ D) → ∀ d ∈ z.ranks, d ≤ (w - 1) * D + 2 := by
  have hget : ∀ i, ∀ hi : i < mpas.length, EmbedFits e s mpas[i] i := by
    intro i hi
    have := List.Forall₂.get h (i := i) hi (by simpa using hi)
    simpa using this
  have hT : ∀ i, ∀ hi : i < mpas.length, LS.T mpas i = mpas[i].lt := by
    intro i hi; simp [LS.T, hi]
  have hN : 0 < mpas.length := List.length_pos_of_ne_nil hne
  have hw' : ∀ i, ∀ hi : i < mpas.length, mpas[i].lt.length = w := fun i hi => hw _ (List.getElem_mem hi)
  have hw0 : 0 < w := by
    have h1 := (hget 0 hN).1.ne
    rw [← hw' 0 hN]
    exact List.length_pos_of_ne_nil h1
  have ok : LS.OK mpas w e (fun q => s.getD q []) := by
    refine ⟨hw0, hN, ?_, ?_, ?_, ?_⟩
    · intro i hi; rw [hT i hi]; exact hw' i hi
    · intro i hi; rw [hT i hi]; exact (hget i hi).1.chain
    · intro i hi k hk
      have := (fits_getD (hget i hi)).2.1 k (by rw [hT i hi] at hk; exact hk)
      rw [this]
      simp only [hT i hi]
    · intro q hq hc
      rcases hc with hc | hc
      · refine ((fits_getD (hget 0 hN)).2.2 q ?_ (by omega)).symm
        have := hw' 0 hN
        simp only [MPA.len]
        omega
      · exact ((fits_getD (hget (mpas.length - 1) (by omega))).1 q (by omega)).symm
  obtain ⟨us, u1, u2, u3, u4, u5⟩ := LS.core ok
  have hune : us ≠ [] := by
    intro h0; subst h0
    simp at u2; omega
  have hph : physShape us = s := by
    apply List.ext_getElem
    · simp [physShape]; omega
    · intro k h1 h2
      simp only [physShape, List.getElem_map]
      rw [(u4 k (by simpa [physShape] using h1)).1]
      simp [h2]
  refine ⟨⟨us, 0, us.length⟩, ?_, ⟨valid_mk hune u3, ⟨rfl, rfl⟩, hph, ?_, ?_⟩, ?_⟩
  rotate_left 3
  · intro D hD hr d hd
    obtain ⟨u, hu, rfl⟩ := List.mem_map.1 hd
    obtain ⟨k, hk, rfl⟩ := List.getElem_of_mem (List.mem_of_mem_tail hu)
    rw [(u4 k hk).2]
    refine LS.bsize_blocks_le ok ?_ k
    intro i hi v hv
    rw [hT i hi] at hv
    have hm := hr _ (List.getElem_mem hi)
    have hc := (hget i hi).1.chain
    unfold MPA.ranks at hm
    generalize mpas[i].lt = ts at hv hm hc
    cases ts with
    | nil => simp at hv
    | cons t ts =>
      rcases List.mem_cons.1 hv with rfl | hv
      · rw [hc.2.1]; exact hD
      · exact hm _ (List.mem_map.2 ⟨v, hv, rfl⟩)
  · obtain ⟨x, rest, rfl⟩ := List.exists_cons_of_ne_nil hne
    have hxw : x.len = w := hw x (by simp)
    unfold localSumIdentity
    simp only [embedLten]
    rw [ok_bind, pyAssert_true (fun m hm => by rw [hw m hm, hxw]), ok_bind, hxw, u1, ok_bind, mkMPA_ok hune u3]
  · intro idx hidx
    have hil := hidx.length_eq
    show entry us idx = _
    rw [u5 idx (by omega) (by
      intro k hk
      have hk' : k < idx.length := by omega
      have := List.Forall₂.get hidx (i := k) hk' (by omega)
      simpa [hk', show k < s.length by omega] using this)]
    unfold LS.S
    have e1 : (List.zipWith (fun x a => embedVal e x a idx) mpas (List.range mpas.length)).sum
        = ((List.range mpas.length).map fun i => (∏ q ∈ Ico 0 i, LS.ev e idx q) *
            LS.F mpas w e idx i i 0).sum := by
      congr 1
      apply List.ext_getElem
      · simp
      · intro i h1 h2
        have hi : i < mpas.length := by simpa using h2
        simp only [List.getElem_zipWith, List.getElem_range, List.getElem_map]
        unfold embedVal LS.F LS.E
        rw [prod_take_ev e idx i (by omega), show mpas.length + w - 1 = idx.length by omega, prod_drop_ev,
          hT i hi, Nat.sub_self, List.drop_zero]
        have hxl : mpas[i].len = w := hw' i hi
        rw [hxl, mul_assoc]
        congr 2
        exact mp_take _ _ _ _ _ (by rw [hw' i hi])
    rw [e1, ← sum_range_list, Finset.range_eq_Ico]
  · intro hr d hd
    obtain ⟨u, hu, rfl⟩ := List.mem_map.1 hd
    obtain ⟨k, hk, rfl⟩ := List.getElem_of_mem (List.mem_of_mem_tail hu)
    rw [(u4 k hk).2]
    refine LS.bsize_blocks_pos ok ?_ k (by rw [← u2]; exact hk)
    intro i hi v hv
    rw [hT i hi] at hv
    have hm := hr _ (List.getElem_mem hi)
    have hc := (hget i hi).1.chain
    unfold MPA.ranks at hm
    generalize mpas[i].lt = ts at hv hm hc
    cases ts with
    | nil => simp at hv
    | cons t ts =>
      rcases List.mem_cons.1 hv with rfl | hv
      · rw [hc.2.1]; exact one_pos
      · exact hm _ (List.mem_map.2 ⟨v, hv, rfl⟩)

/-- C25: `local_sum(mpas, e)` for MPAs of the same length `w`: term `i` acts on the sites
`i, …, i + w - 1` of a chain of `len(mpas) + w - 1` sites. -/
theorem C25_local_sum (mpas : List (MPA R)) (w : ℕ) (e : NDArray R) (length : Option ℕ)
    (s : List (List ℕ)) (hne : mpas ≠ []) (hw : ∀ x ∈ mpas, x.len = w)
    (hs : s.length + 1 = mpas.length + w)
    (h : List.Forall₂ (EmbedFits e s) mpas (List.range mpas.length)) :
    ∃ z, localSum mpas (some e) length none = .ok z ∧
      LocalSumSpec e mpas (List.range mpas.length) s z := by
  obtain ⟨z, h1, h2, _⟩ := localSumIdentity_ok mpas w e s hne hw hs h
  exact ⟨z, h1, h2⟩

/-- C25: the rank of `local_sum(mpas, e)` does not grow with the number of terms: it is at most
`width * D + 1` if the terms have ranks at most `D` (docstring, mparray.py:1672-1673). -/
theorem C25_ranks (mpas : List (MPA R)) (w D : ℕ) (e : NDArray R) (length : Option ℕ)
    (s : List (List ℕ)) (hne : mpas ≠ []) (hw : ∀ x ∈ mpas, x.len = w)
    (hs : s.length + 1 = mpas.length + w) (hD : 0 < D) (hr : ∀ x ∈ mpas, ∀ d ∈ x.ranks, d ≤ D)
    (h : List.Forall₂ (EmbedFits e s) mpas (List.range mpas.length)) :
    ∃ z, localSum mpas (some e) length none = .ok z ∧ ∀ d ∈ z.ranks, d ≤ w * D + 1 := by
  obtain ⟨z, h1, h2, h3⟩ := localSumIdentity_ok mpas w e s hne hw hs h
  refine ⟨z, h1, fun d hd => ?_⟩
  have h4 := h3 D hD hr d hd
  have hw0 : 0 < w := by
    obtain ⟨x, xs, rfl⟩ := List.exists_cons_of_ne_nil hne
    rw [← hw x (by simp)]
    generalize List.range (x :: xs).length = l at h
    cases h with
    | cons hx _ => exact List.length_pos_of_ne_nil hx.1.ne
  obtain ⟨v, rfl⟩ : ∃ v, w = v + 1 := ⟨w - 1, by omega⟩
  rw [Nat.add_sub_cancel] at h4
  rw [Nat.add_mul]
  omega

/-- C25: the default embedding tensor of `local_sum` is the identity of the size of the first site of
the first term. -/
theorem C25_local_sum_default (x : MPA R) (mpas : List (MPA R)) (d : ℕ) (rest : List (List ℕ))
    (length : Option ℕ) (h : x.shape = [d, d] :: rest) :
    localSum (x :: mpas) none length none = localSum (x :: mpas) (some (NDArray.eye d)) length none := by
  show localSumIdentity (x :: mpas) none = localSumIdentity (x :: mpas) (some (NDArray.eye d))
  unfold localSumIdentity
  simp only [embedLten, h, if_true]

omit [CommSemiring R] in
theorem regular_one (n w : ℕ) (h : w ≤ n) :
    regularSlices n w 1 = .ok ((List.range (n - w + 1)).map fun i : ℕ =>
      (⟨some (i : ℤ), some ((i : ℤ) + (w : ℤ)), none⟩ : PySlice)) := by
  unfold regularSlices
  rw [if_neg (by omega), pyAssert_true (by simp), ok_bind]
  have : (((n : ℤ) - (w : ℤ)).fdiv 1 + 1).toNat = n - w + 1 := by
    rw [Int.fdiv_one]; omega
  simp only [this, one_mul]
  rfl

theorem sum_ranks_pos {zs : List (MPA R)} {s : List (List ℕ)} {z : MPA R}
    (h : SumSpec (List.zip ((none : Option (List R)).getD (List.replicate zs.length 1)) zs) s z)
    (i3 : ∀ z ∈ zs, z.Valid ∧ z.shape = s) (hne : zs ≠ []) (hr : ∀ z ∈ zs, ∀ d ∈ z.ranks, 0 < d) :
    ∀ d ∈ z.ranks, 0 < d := by
  intro d hd
  obtain ⟨k, hk, rfl⟩ := List.getElem_of_mem hd
  have hl : ∀ y : MPA R, y.shape = s → y.ranks.length = s.length - 1 := by
    intro y hy
    rw [← hy]
    simp [MPA.ranks, MPA.shape]
  have hk' := hk
  rw [hl z h.shape] at hk'
  have := h.ranks k (by omega)
  rw [List.getElem?_eq_getElem hk, Option.some.injEq] at this
  rw [this]
  obtain ⟨y, ys, rfl⟩ := List.exists_cons_of_ne_nil hne
  simp only [Option.getD_none, List.length_cons, List.replicate_succ, List.zip_cons_cons, List.map_cons, List.sum_cons]
  have hy := hl y (i3 y (by simp)).2
  have : 0 < y.ranks.getD k 0 := by
    have hk2 : k < y.ranks.length := by omega
    rw [List.getD_eq_getElem?_getD, List.getElem?_eq_getElem hk2]
    exact hr y (by simp) _ (List.getElem_mem hk2)
  omega

/-- C25: `local_sum(mpas, e, length, slices)` with slices given: whichever of the two constructions is
used, the result is the sum of all embedded terms. -/
theorem C25_local_sum_slices (mpas : List (MPA R)) (starts : List ℕ) (e : NDArray R)
    (s : List (List ℕ)) (hne : mpas ≠ []) (h : List.Forall₂ (EmbedFits e s) mpas starts) :
    ∃ z, localSum mpas (some e) (some s.length) (some (List.zipWith sliceOf mpas starts)) = .ok z ∧
      LocalSumSpec e mpas starts s z := by
  have hlen := h.length_eq
  obtain ⟨x, xs, rfl⟩ := List.exists_cons_of_ne_nil hne
  obtain ⟨a, as, rfl⟩ : ∃ a as, starts = a :: as := by
    cases starts with
    | nil => simp at hlen
    | cons a as => exact ⟨a, as, rfl⟩
  have hx : EmbedFits e s x a := by cases h; assumption
  have hreg := regular_one s.length x.len (by have := (fits_len hx).1; omega)
  have hsl : localSumSlices (some s.length) (some (List.zipWith sliceOf (x :: xs) (a :: as)))
      = .ok (if List.zipWith sliceOf (x :: xs) (a :: as) = (List.range (s.length - x.len + 1)).map fun i : ℕ =>
          (⟨some (i : ℤ), some ((i : ℤ) + (x.len : ℤ)), none⟩ : PySlice) then none
        else some (s.length, List.zipWith sliceOf (x :: xs) (a :: as))) := by
    unfold localSumSlices
    simp only [List.zipWith_cons_cons, firstWidth, sliceOf]
    rw [ok_bind, show ((a : ℤ) + (x.len : ℤ) - (a : ℤ)) = (x.len : ℤ) by ring, hreg, ok_bind]
    rfl
  unfold localSum
  rw [hsl, ok_bind]
  by_cases hc : List.zipWith sliceOf (x :: xs) (a :: as) = (List.range (s.length - x.len + 1)).map fun i : ℕ =>
          (⟨some (i : ℤ), some ((i : ℤ) + (x.len : ℤ)), none⟩ : PySlice)
  · rw [if_pos hc]
    simp only
    have hl1 : (x :: xs).length = s.length - x.len + 1 := by
      have := congrArg List.length hc
      rw [List.length_zipWith, ← hlen] at this
      simpa using this
    have hel : ∀ i, ∀ h1 : i < (x :: xs).length, ∀ h2 : i < (a :: as).length,
        (a :: as)[i] = i ∧ ((x :: xs)[i]).len = x.len := by
      intro i h1 h2
      have h3 : (List.zipWith sliceOf (x :: xs) (a :: as))[i]? = ((List.range (s.length - x.len + 1)).map fun i : ℕ =>
          (⟨some (i : ℤ), some ((i : ℤ) + (x.len : ℤ)), none⟩ : PySlice))[i]? := by rw [hc]
      rw [List.getElem?_eq_getElem (by rw [List.length_zipWith]; omega),
        List.getElem?_eq_getElem (by rw [List.length_map, List.length_range]; omega)] at h3
      simp only [List.getElem_zipWith, List.getElem_map, List.getElem_range, sliceOf, Option.some.injEq,
        PySlice.mk.injEq] at h3
      obtain ⟨h4, h5, _⟩ := h3
      constructor <;> omega
    have hst : a :: as = List.range (x :: xs).length := by
      apply List.ext_getElem
      · rw [List.length_range, hlen]
      · intro i h1 h2
        rw [List.getElem_range, (hel i (by omega) h1).1]
    have hww : ∀ y ∈ x :: xs, y.len = x.len := by
      intro y hy
      obtain ⟨i, hi, rfl⟩ := List.getElem_of_mem hy
      exact (hel i hi (by omega)).2
    rw [hst] at h ⊢
    have := (fits_len hx).1
    obtain ⟨z, z1, z2, _⟩ := localSumIdentity_ok (x :: xs) x.len e s hne hww (by omega) h
    exact ⟨z, z1, z2⟩
  · rw [if_neg hc]
    simp only
    have hz : ∀ (xs : List (MPA R)) (as : List ℕ), List.Forall₂ (EmbedFits e s) xs as →
        ∃ zs, (xs.zip (List.zipWith sliceOf xs as)).mapM (fun q => embedSlice s.length q.2 q.1 (some e))
            = .ok zs ∧ zs.length = xs.length ∧ (∀ z ∈ zs, z.Valid ∧ z.shape = s) ∧
          ((∀ x ∈ xs, ∀ d ∈ x.ranks, 0 < d) → ∀ z ∈ zs, ∀ d ∈ z.ranks, 0 < d) ∧
          ∀ idx, IdxOK idx s →
            zs.map (fun z => z.val idx) = List.zipWith (fun x a => embedVal e x a idx) xs as := by
      intro xs as hf
      clear hc hsl hreg hx h hlen hne
      induction hf with
      | nil => exact ⟨[], rfl, rfl, by simp, by simp, fun _ _ => rfl⟩
      | @cons x a xs as h1 _ ih =>
        obtain ⟨zs, i1, i2, i3, i5, i4⟩ := ih
        obtain ⟨f1, f2⟩ := fits_len h1
        obtain ⟨z, z1, z2, _, _, z3, z5, z4⟩ := C25_embed_slice x e a s.length h1.1 f1
        rw [← f2] at z3
        refine ⟨z :: zs, ?_, by simp [i2], ?_, ?_, ?_⟩
        · rw [mapM_ok_iff] at i1 ⊢
          exact .cons z1 i1
        · intro y hy
          rcases List.mem_cons.1 hy with rfl | hy
          · exact ⟨z2, z3⟩
          · exact i3 y hy
        · intro hr y hy d hd
          rcases List.mem_cons.1 hy with rfl | hy
          · rw [z5] at hd
            simp only [List.mem_append, List.mem_replicate] at hd
            rcases hd with (⟨-, rfl⟩ | hd) | ⟨-, rfl⟩
            · exact one_pos
            · exact hr x (by simp) d hd
            · exact one_pos
          · exact i5 (fun x hx => hr x (by simp [hx])) y hy d hd
        · intro idx hidx
          rw [List.map_cons, List.zipWith_cons_cons, i4 idx hidx, z4 idx (by rw [z3]; exact hidx)]
    obtain ⟨zs, i1, i2, i3, i5, i4⟩ := hz _ _ h
    rw [i1, ok_bind]
    have hzne : zs ≠ [] := by
      intro h0; subst h0; simp at i2
    obtain ⟨z, z1, z2⟩ := C07_sumup zs none s hzne i3 (by simp)
    refine ⟨z, z1, z2.valid, z2.form, z2.shape, ?_, fun hr => sum_ranks_pos z2 (i3 := i3) hzne (i5 hr)⟩
    intro idx hidx
    rw [z2.val idx hidx, ← i4 idx hidx]
    congr 1
    have key : ∀ zs : List (MPA R), ((List.replicate zs.length (1 : R)).zip zs).map
        (fun w => w.1 * w.2.val idx) = zs.map fun z => z.val idx := by
      intro zs
      induction zs with
      | nil => rfl
      | cons z zs ih => simp only [List.length_cons, List.replicate_succ, List.zip_cons_cons, List.map_cons, ih, one_mul]
    exact key zs

/-- C25: terms of different lengths are rejected by the automaton. -/
theorem C25_local_sum_width (x : MPA R) (mpas : List (MPA R)) (e : NDArray R) (length : Option ℕ)
    (h : ∃ y ∈ mpas, y.len ≠ x.len) :
    localSum (x :: mpas) (some e) length none = .error .assertion := by
  show localSumIdentity (x :: mpas) (some e) = _
  unfold localSumIdentity
  simp only [embedLten]
  rw [ok_bind, pyAssert_false, error_bind]
  intro hall
  obtain ⟨y, hy, hy'⟩ := h
  exact hy' (hall y (by simp [hy]))

/-- C25: slices need the length of the chain. -/
theorem C25_local_sum_no_length (mpas : List (MPA R)) (e : Option (NDArray R)) (sl : List PySlice) :
    localSum mpas e none (some sl) = .error .assertion := rfl

end

/-- Finding: if the slices are the regular ones, their number and `length` are ignored.  One term of width
one on the slices `[0:1], [1:2]` of a chain of length two gives an MPA of length one. -/
theorem C25_regular_ignores_length :
    ∃ z : MPA ℤ, localSum [exSite] none (some 2) (some [⟨some 0, some 1, none⟩, ⟨some 1, some 2, none⟩]) = .ok z
      ∧ z.len = 1 :=
  ⟨_, rfl, rfl⟩

/-- Non-vacuity: three single-site terms on three sites by default (so that all special cases of width
one occur), and two of them at sites two and zero of three sites. -/
example : (∀ x ∈ [exSite, exSite, exSite], x.len = 1) ∧
    [[2, 2], [2, 2], [2, 2]].length + 1 = [exSite, exSite, exSite].length + 1 ∧
    List.Forall₂ (EmbedFits (NDArray.eye 2 : NDArray ℤ) [[2, 2], [2, 2], [2, 2]])
      [exSite, exSite, exSite] (List.range 3) ∧
    List.Forall₂ (EmbedFits (NDArray.eye 2 : NDArray ℤ) [[2, 2], [2, 2], [2, 2]])
      [exSite, exSite] [2, 0] := by
  have h : ∀ a b, [[2, 2], [2, 2], [2, 2]] = List.replicate a [2, 2] ++ [[2, 2]] ++ List.replicate b [2, 2] →
      EmbedFits (NDArray.eye 2 : NDArray ℤ) [[2, 2], [2, 2], [2, 2]] exSite a :=
    fun a b hab => ⟨exSite_valid, b, hab⟩
  refine ⟨by simp; rfl, rfl, .cons (h _ 2 rfl) (.cons (h _ 1 rfl) (.cons (h _ 0 rfl) .nil)),
    .cons (h _ 0 rfl) (.cons (h _ 2 rfl) .nil)⟩

/-- The sum of `Z`-like terms on three sites, evaluated. -/
example : (List.zipWith (fun x a => embedVal (NDArray.eye 2) x a [[0, 0], [1, 1], [1, 1]])
    [exSite, exSite, exSite] (List.range 3)).sum = (-2 : ℤ) := by decide

end Mpnum
