import Verif.MPArray.Pick
import Verif.Props.C08
import Verif.Props.C14
import Verif.Props.C18

/-! # C19: get, axis_iter and diag -/

open Finset

namespace Mpnum

variable {R : Type}

/-! ### get -/

/-- C19: `x.get(indices)` fixes the first leg of every site to the given value; negative indices
count from the end (`i % d`). -/
theorem C19_get [CommSemiring R] (x : MPA R) (hx : x.Valid) (indices : List ℤ)
    (hl : indices.length = x.len)
    (hi : ∀ p ∈ indices.zip x.shape, p.2 ≠ [] ∧ -(p.2.headD 0 : ℤ) ≤ p.1 ∧ p.1 < p.2.headD 0) :
    ∃ y, x.get indices = .ok y ∧ y.Valid ∧ y.l = 0 ∧ y.r = y.len ∧ y.shape = x.shape.map List.tail ∧
      y.ranks = x.ranks ∧
      ∀ f, IdxOK f y.shape → y.val f = x.val (List.zipWith List.cons
        (List.zipWith (fun (i : ℤ) s => (i % (s.headD 0 : ℤ)).toNat) indices x.shape) f) := by
  have hT : (indices.zip x.lt).map Prod.snd = x.lt := List.map_snd_zip (by rw [hl, MPA.len])
  have hL : (indices.zip x.lt).map Prod.fst = indices := List.map_fst_zip (by rw [hl, MPA.len])
  obtain ⟨us, h1, h2, h3, h4, h5, h6, h7⟩ := pull_values hx hT
    (f := fun p => MPA.getSite p.2 p.1)
    (φ := fun p f => (p.1 % (p.2.ph.headD 0 : ℤ)).toNat :: f)
    (q := fun p => p.2.ph.tail) (by
      intro q hq
      have hloc := hx.chain.isLocal _ (List.of_mem_zip hq).2
      have hq' : (q.1, q.2.ph) ∈ indices.zip x.shape := by
        rw [MPA.shape, List.zip_map_right]
        exact List.mem_map.2 ⟨q, hq, rfl⟩
      obtain ⟨g1, g2, g3⟩ := hi _ hq'
      dsimp only at g1 g2 g3
      obtain ⟨d, s, hds⟩ := List.exists_cons_of_ne_nil g1
      rw [hds, List.headD_cons] at g2 g3
      have hn := ndim_ph hloc
      have hsh := NDArray.shape_local hloc
      rw [hds] at hn
      simp only [List.length_cons] at hn
      have hdim : q.2.shape.getD 1 0 = d := by rw [hsh, hds]; rfl
      have hidx : pyIndex d q.1 = .ok (q.1 % (d : ℤ)).toNat := by
        unfold pyIndex
        split
        · rename_i h
          rw [Int.emod_eq_of_lt h.1 h.2]
        · rename_i h
          have hneg : q.1 < 0 := by
            by_contra h0; exact h ⟨by omega, g3⟩
          rw [if_pos ⟨g2, hneg⟩, ← Int.add_emod_right, Int.emod_eq_of_lt (by omega) (by omega)]
      refine ⟨q.2.takeAt 1 (q.1 % (d : ℤ)).toNat, ?_, ?_⟩
      · unfold MPA.getSite NDArray.take
        rw [if_neg (by omega), if_pos (by omega), hdim, hidx]
        rfl
      · obtain ⟨k1, k2⟩ := takeAt_pull hloc (p := 0) (by rw [hds]; simp) (q.1 % (d : ℤ)).toNat
        rw [hds] at *
        refine ⟨k1, by rw [k2]; rfl⟩)
  refine ⟨⟨us, 0, us.length⟩, ?_, valid_mk h2 h3, rfl, rfl, ?_, h6, ?_⟩
  · unfold MPA.get
    rw [pyAssert_true hl, ok_bind, h1, ok_bind]
    exact mkMPA_ok h2 h3
  · show physShape us = _
    rw [h5, MPA.shape, List.map_map]
    conv_rhs => rw [← hT, List.map_map]
    rfl
  · intro f hf
    show entry us f = _
    rw [h7 f (h5 ▸ hf)]
    congr 1
    have e : List.zipWith (fun (i : ℤ) s => (i % (s.headD 0 : ℤ)).toNat) indices x.shape
        = (indices.zip x.lt).map fun p => (p.1 % (p.2.ph.headD 0 : ℤ)).toNat := by
      rw [MPA.shape, List.zipWith_map_right, ← List.map_uncurry_zip_eq_zipWith]; rfl
    rw [e, List.zipWith_map_left]

/-- C19, error branch: `get` with the wrong number of indices. -/
theorem C19_get_length (x : MPA R) (indices : List ℤ) (h : indices.length ≠ x.len) :
    x.get indices = .error .assertion := by
  unfold MPA.get
  rw [pyAssert_false h]; rfl

/-- C19, error branch: if some index is out of range, `get` raises an exception. -/
theorem C19_get_range (x : MPA R) (indices : List ℤ)
    (h : ∃ p ∈ indices.zip x.lt, p.2.IsLocal ∧
      (p.2.ph = [] ∨ p.1 < -(p.2.ph.headD 0 : ℤ) ∨ (p.2.ph.headD 0 : ℤ) ≤ p.1)) :
    ∃ e, x.get indices = .error e := by
  obtain ⟨p, hp, hloc, hbad⟩ := h
  have hsite : ∃ e, MPA.getSite p.2 p.1 = .error e := by
    have hn := ndim_ph hloc
    have hsh := NDArray.shape_local hloc
    unfold MPA.getSite
    cases hph : p.2.ph with
    | nil => rw [hph] at hn; exact ⟨_, if_pos (by simp at hn; omega)⟩
    | cons d s =>
      rw [hph] at hn hbad hsh
      simp only [List.length_cons] at hn
      rw [if_neg (by omega)]
      unfold NDArray.take
      rw [if_pos (by omega), hsh]
      refine ⟨.index, ?_⟩
      have : pyIndex ((p.2.lb :: (d :: s ++ [p.2.rb])).getD 1 0) p.1 = .error .index := by
        show pyIndex d p.1 = _
        simp only [List.headD_cons, reduceCtorEq, false_or] at hbad
        unfold pyIndex
        rw [if_neg (by omega), if_neg (by omega)]
      rw [this]; rfl
  obtain ⟨e, he⟩ := hsite
  unfold MPA.get
  by_cases hl : indices.length = x.len
  · rw [pyAssert_true hl, ok_bind]
    have : ∀ l : List (ℤ × NDArray R), p ∈ l → ∃ e, l.mapM (fun p => MPA.getSite p.2 p.1) = .error e := by
      intro l
      induction l with
      | nil => intro h; simp at h
      | cons q l ih =>
        intro h
        rw [List.mapM_cons]
        cases hq : MPA.getSite q.2 q.1 with
        | error e => exact ⟨e, rfl⟩
        | ok u =>
          rcases List.mem_cons.1 h with rfl | h
          · rw [he] at hq; simp at hq
          · obtain ⟨e, h'⟩ := ih h
            refine ⟨e, ?_⟩
            rw [ok_bind, h']; rfl
    obtain ⟨e, h'⟩ := this _ hp
    exact ⟨e, by rw [h']; rfl⟩
  · exact ⟨_, by rw [pyAssert_false hl]; rfl⟩

/-! ### axis_iter -/

/-- `y` is the slice of `x` with leg `p` of each site fixed to `i`, for the pairs `(p, i)` in `ps`. -/
structure SliceOf [Semiring R] (x : MPA R) (ps : List (ℕ × ℕ)) (y : MPA R) : Prop where
  valid : y.Valid
  noform : y.l = 0 ∧ y.r = y.len
  shape : y.shape = List.zipWith (fun p s => delAt p.1 s) ps x.shape
  ranks : y.ranks = x.ranks
  val : ∀ f, IdxOK f y.shape → y.val f = x.val (List.zipWith (fun p f => insAt p.1 p.2 f) ps f)

theorem slice_core [CommSemiring R] {x : MPA R} (hx : x.Valid) {ps : List (ℕ × ℕ)}
    {G : ℕ → ℕ → NDArray R → NDArray R} (hG : Picks G)
    (hl : ps.length = x.len) (hp : ∀ q ∈ x.shape.zip ps, q.2.1 < q.1.length) :
    ∃ y, mkMPA (List.zipWith (fun p t => G p.1 p.2 t) ps x.lt) = .ok y ∧ SliceOf x ps y := by
  obtain ⟨us, h1, h2, h3, h4, h5, h6, h7⟩ := pick_core hx hG hl hp
  exact ⟨⟨us, 0, us.length⟩, by rw [h1]; exact mkMPA_ok h2 h3, valid_mk h2 h3, ⟨rfl, rfl⟩, h5, h6, h7⟩

theorem rollaxis_takeAt {t : NDArray R} {p : ℕ} (hp : p < t.ndim) (i : ℕ) :
    ((t.rollaxisTo p 0).takeAt 0 i).shape = (t.takeAt p i).shape ∧
    ∀ f, f.length + 1 = t.ndim → ((t.rollaxisTo p 0).takeAt 0 i).get f = (t.takeAt p i).get f := by
  have hp' : p < t.shape.length := hp
  have hsplit : t.shape = [] ++ t.shape.take p ++ t.shape[p] :: t.shape.drop (p + 1) := by
    rw [List.nil_append, List.getElem_cons_drop, List.take_append_drop]
  refine ⟨?_, ?_⟩
  · show delAt 0 _ = delAt p _
    rw [NDArray.rollaxisTo_left_shape (A := []) (B := t.shape.take p) (start := 0) (axis := p) hsplit
      rfl (by simp; omega)]
    simp [delAt]
  · intro f hf
    show (t.rollaxisTo p 0).get (insAt 0 i f) = t.get (insAt p i f)
    have := NDArray.rollaxisTo_left_get (a := t) (A := []) (B := f.take p) (C := f.drop p) (x := i)
      (axis := p) (start := 0) rfl (by simp; omega) (by simp; omega)
    simpa [insAt] using this

theorem picks_rollaxis : Picks (R := R) fun p i t => (t.rollaxisTo (p + 1) 0).takeAt 0 i := by
  intro p i t ht hp
  obtain ⟨h1, h2⟩ := takeAt_pull ht hp i
  obtain ⟨g1, g2⟩ := rollaxis_takeAt (t := t) (p := p + 1) (by rw [ndim_ph ht]; omega) i
  have hs := NDArray.shape_local h1.loc
  rw [← g1] at hs
  refine ⟨⟨NDArray.isLocal_of_shape hs, (NDArray.lb_of_shape hs).trans h1.lb,
    (NDArray.rb_of_shape hs).trans h1.rb, ?_⟩, (NDArray.ph_of_shape hs).trans h2⟩
  intro a ha b hb f hf
  rw [NDArray.ph_of_shape hs] at hf
  rw [← h1.at3 a ha b hb f hf]
  refine g2 _ ?_
  have := inB_length hf
  rw [h2, delAt_length hp] at this
  simp only [List.length_cons, List.length_append, List.length_nil]
  rw [ndim_ph ht]; omega

theorem picks_takeAt : Picks (R := R) fun p i t => t.takeAt (p + 1) i :=
  fun _ i _ ht hp => takeAt_pull ht hp i

theorem pyProduct_range {σ α : Type} (d : σ → ℕ) (g : σ → ℕ → α) (sites : List σ) :
    pyProduct (sites.map fun s => (List.range (d s)).map (g s))
      = (allIdx (sites.map d)).map fun k => List.zipWith g sites k := by
  induction sites with
  | nil => rfl
  | cons s ss ih =>
    simp only [List.map_cons, pyProduct, allIdx, ih, List.flatMap_map, List.map_flatMap, List.map_map]
    rfl

theorem mapM_forall₂ {α β : Type} {f : α → Py β} {P : α → β → Prop} {l : List α}
    (h : ∀ a ∈ l, ∃ b, f a = .ok b ∧ P a b) : ∃ bs, l.mapM f = .ok bs ∧ List.Forall₂ P l bs := by
  induction l with
  | nil => exact ⟨[], rfl, .nil⟩
  | cons a l ih =>
    obtain ⟨b, h1, h2⟩ := h a (by simp)
    obtain ⟨bs, h3, h4⟩ := ih fun a' ha => h a' (by simp [ha])
    exact ⟨b :: bs, by rw [List.mapM_cons, h1, ok_bind, h3]; rfl, .cons h2 h4⟩

/-- The sizes of the iterated legs. -/
abbrev iterDims (axes : List ℕ) (S : List (List ℕ)) : List ℕ :=
  List.zipWith (fun a s => s.getD a 0) axes S

/-- C19: `x.axis_iter(axes)` yields, for each value `k` of the selected legs (one leg per site), the
slice of `x` with these legs fixed to `k`.  The values come in row-major order (the index of the last
site varies fastest), each exactly once. -/
theorem C19_axis_iter [CommSemiring R] (x : MPA R) (hx : x.Valid) (axes : List ℕ)
    (hl : axes.length = x.len) (ha : ∀ q ∈ axes.zip x.shape, q.1 < q.2.length) :
    ∃ ys, x.axisIter (axes.map fun a : ℕ => (a : ℤ)) = .ok ys ∧
      List.Forall₂ (fun k y => SliceOf x (axes.zip k) y) (allIdx (iterDims axes x.shape)) ys := by
  have hls : ((axes.map fun a : ℕ => (a : ℤ)).zip x.lt).mapM (fun p => MPA.iterSite p.2 p.1)
      = .ok ((axes.zip x.lt).map fun s => (List.range (s.2.ph.getD s.1 0)).map fun i =>
          (s.2.rollaxisTo (s.1 + 1) 0).takeAt 0 i) := by
    rw [List.zip_map_left, List.mapM_map]
    refine mapM_ok fun s hs => ?_
    have hloc := hx.chain.isLocal _ (List.of_mem_zip hs).2
    have hlt : s.1 < s.2.ph.length := ha (s.1, s.2.ph) (by
      rw [MPA.shape, List.zip_map_right]; exact List.mem_map.2 ⟨s, hs, rfl⟩)
    have hn := ndim_ph hloc
    show MPA.iterSite s.2 (s.1 : ℤ) = _
    unfold MPA.iterSite
    rw [show ((s.1 : ℤ) + 1) = ((s.1 + 1 : ℕ) : ℤ) by push_cast; rfl, pyIndex_nat (by omega), ok_bind,
      NDArray.rollaxis_ok (by omega) (by omega), ok_bind]
    show Except.ok _ = Except.ok _
    congr 1
    unfold NDArray.iter
    congr 2
    have hsplit : s.2.shape = [] ++ s.2.shape.take (s.1 + 1) ++
        s.2.shape.getD (s.1 + 1) 0 :: s.2.shape.drop (s.1 + 2) := by
      have h' : s.1 + 1 < s.2.shape.length := by
        have : s.2.ndim = s.2.shape.length := rfl
        omega
      rw [List.getD_eq_getElem?_getD, List.getElem?_eq_getElem h', Option.getD_some, List.nil_append,
        List.getElem_cons_drop, List.take_append_drop]
    rw [NDArray.rollaxisTo_left_shape (A := []) (start := 0) (axis := s.1 + 1) hsplit rfl (by
      have : s.2.ndim = s.2.shape.length := rfl
      simp; omega)]
    rw [List.nil_append, List.getD_cons_zero]
    conv_lhs => rw [NDArray.shape_local hloc]
    exact getD_bonds hlt
  have hprod := pyProduct_range (fun s : ℕ × NDArray R => s.2.ph.getD s.1 0)
    (fun s i => (s.2.rollaxisTo (s.1 + 1) 0).takeAt 0 i) (axes.zip x.lt)
  have hdims : (axes.zip x.lt).map (fun s : ℕ × NDArray R => s.2.ph.getD s.1 0)
      = iterDims axes x.shape := by
    rw [iterDims, MPA.shape, List.zipWith_map_right, ← List.map_uncurry_zip_eq_zipWith]; rfl
  rw [hdims] at hprod
  unfold MPA.axisIter
  rw [hls, ok_bind]
  show ∃ ys, (pyProduct _).mapM mkMPA = _ ∧ _
  rw [hprod, List.mapM_map]
  refine mapM_forall₂ fun k hk => ?_
  have hk := mem_allIdx.1 hk
  have hkl : k.length = axes.length := by
    rw [inB_length hk]; simp [hl, MPA.shape, MPA.len]
  have e : List.zipWith (fun (s : ℕ × NDArray R) i => (s.2.rollaxisTo (s.1 + 1) 0).takeAt 0 i)
      (axes.zip x.lt) k
      = List.zipWith (fun p t => (NDArray.rollaxisTo t (p.1 + 1) 0).takeAt 0 p.2) (axes.zip k) x.lt := by
    clear * - hkl
    generalize x.lt = ts
    induction axes generalizing k ts with
    | nil => rfl
    | cons a as ih =>
      cases k with
      | nil => simp at hkl
      | cons k ks =>
        cases ts with
        | nil => rfl
        | cons t ts => simp [ih ks (by simpa using hkl)]
  rw [Function.comp_apply, e]
  refine slice_core hx picks_rollaxis (by simp [hkl, hl]) ?_
  intro q hq
  refine ha (q.2.1, q.1) ?_
  rw [List.mem_iff_getElem] at *
  obtain ⟨n, hn, rfl⟩ := hq
  simp only [List.length_zip] at hn
  exact ⟨n, by simp; omega, by simp⟩

/-- C19: an integer stands for the same leg at each site. -/
theorem C19_axis_iter_int (x : MPA R) (a : ℕ) :
    x.axisIterInt a = x.axisIter ((List.replicate x.len a).map fun a : ℕ => (a : ℤ)) := by
  simp [MPA.axisIterInt]

/-! ### diag -/

theorem diag_mpas [CommSemiring R] {x : MPA R} (hx : x.Valid) {axis d : ℕ}
    (hd : ∀ s ∈ x.shape, s[axis]? = some d) {n : ℕ} (hn : ∀ s ∈ x.shape, s.length = n) :
    ∃ ys, x.diagMPAs axis = .ok ys ∧
      List.Forall₂ (fun i y => SliceOf x (x.lt.map fun _ => (axis, i)) y) (List.range d) ys := by
  have hlt : ∀ s ∈ x.shape, axis < s.length ∧ s.getD axis 0 = d := by
    intro s hs
    have := List.getElem?_eq_some_iff.1 (hd s hs)
    obtain ⟨h1, h2⟩ := this
    exact ⟨h1, by rw [List.getD_eq_getElem?_getD, hd s hs]; rfl⟩
  obtain ⟨t0, ts, ht⟩ := List.exists_cons_of_ne_nil hx.ne
  have hmem : t0.ph ∈ x.shape := by rw [MPA.shape, ht]; simp
  have hhead : x.shape.headD [] = t0.ph := by rw [MPA.shape, ht]; rfl
  have hvalid : x.shape.mapM (fun s => do
      let p ← pyIndex s.length (axis : ℤ)
      return decide (s.getD p 0 = d)) = (.ok (x.shape.map fun _ => true) : Py (List Bool)) := by
    refine mapM_ok fun s hs => ?_
    rw [pyIndex_nat (hlt s hs).1, ok_bind, (hlt s hs).2]
    simp [py_pure]
  have hnd : ∀ m ∈ x.ndims, m = n := by
    intro m hm
    obtain ⟨t, h1, rfl⟩ := List.mem_map.1 hm
    rw [ndim_ph (hx.chain.isLocal t h1), Nat.add_sub_cancel]
    exact hn _ (List.mem_map_of_mem h1)
  have hnd0 : x.ndims.headD 0 = n := by
    apply hnd
    rw [MPA.ndims, ht]; simp
  unfold MPA.diagMPAs
  dsimp only
  rw [hhead, pyIndex_nat (hlt _ hmem).1, ok_bind]
  rw [(hlt _ hmem).2, hvalid, ok_bind,
    pyAssert_true (by simp), ok_bind, pyAssert_true (by
      rw [hnd0, List.all_eq_true]; intro m hm; simpa using hnd m hm), ok_bind]
  refine mapM_forall₂ fun i hi => ?_
  have hi : i < d := by simpa using hi
  have hts : x.lt.mapM (fun t => t.take ((axis : ℤ) + 1).toNat (i : ℤ))
      = .ok (x.lt.map fun t => t.takeAt (axis + 1) i) := by
    refine mapM_ok fun t h1 => ?_
    have hloc := hx.chain.isLocal t h1
    obtain ⟨h2, h3⟩ := hlt t.ph (List.mem_map_of_mem h1)
    have hn := ndim_ph hloc
    rw [show ((axis : ℤ) + 1).toNat = axis + 1 by omega]
    unfold NDArray.take
    rw [if_pos (by omega), NDArray.shape_local hloc, getD_bonds h2, h3, pyIndex_nat hi]
    rfl
  rw [hts, ok_bind]
  have e : x.lt.map (fun t => t.takeAt (axis + 1) i)
      = List.zipWith (fun (p : ℕ × ℕ) t => NDArray.takeAt t (p.1 + 1) p.2)
        (x.lt.map fun _ => (axis, i)) x.lt := by
    rw [List.zipWith_map_left, List.zipWith_self]
  rw [e]
  refine slice_core hx picks_takeAt (by simp [MPA.len]) ?_
  intro q hq
  obtain ⟨h1, h2⟩ := List.of_mem_zip hq
  obtain ⟨_, _, h3⟩ := List.mem_map.1 h2
  rw [← h3]
  exact (hlt _ h1).1

/-- C19: for an MPA with more than one leg per site, `diag(x, axis)` is the array of the slices of
`x` with the leg `axis` of all sites fixed to the same value `0, 1, …, d - 1`. -/
theorem C19_diag [CommSemiring R] (x : MPA R) (hx : x.Valid) (axis d n : ℕ)
    (hd : ∀ s ∈ x.shape, s[axis]? = some d) (hn : ∀ s ∈ x.shape, s.length = n) (h1 : n ≠ 1) :
    ∃ ys, x.diag axis = .ok (.inr ys) ∧
      List.Forall₂ (fun i y => SliceOf x (x.lt.map fun _ => (axis, i)) y) (List.range d) ys := by
  obtain ⟨ys, h2, h3⟩ := diag_mpas hx hd hn
  refine ⟨ys, ?_, h3⟩
  obtain ⟨t0, ts, ht⟩ := List.exists_cons_of_ne_nil hx.ne
  have hhead : x.shape.headD [] = t0.ph := by rw [MPA.shape, ht]; rfl
  unfold MPA.diag
  rw [h2, ok_bind, hhead, if_neg]
  · rfl
  · rw [hn _ (by rw [MPA.shape, ht]; simp)]; exact h1

/-- C19: for one leg per site, `diag(x)` is the array of the numbers `x[i, i, …, i]`. -/
theorem C19_diag_numbers [CommSemiring R] (x : MPA R) (hx : x.Valid) (d : ℕ)
    (hd : ∀ s ∈ x.shape, s = [d]) :
    ∃ as, x.diag 0 = .ok (.inl as) ∧
      List.Forall₂ (fun i A => A.shape = [] ∧ A.get [] = x.val (x.lt.map fun _ => [i]))
        (List.range d) as := by
  obtain ⟨ys, h2, h3⟩ := diag_mpas hx (axis := 0) (d := d) (n := 1)
    (fun s hs => by rw [hd s hs]; rfl) (fun s hs => by rw [hd s hs]; rfl)
  obtain ⟨t0, ts, ht⟩ := List.exists_cons_of_ne_nil hx.ne
  have hhead : x.shape.headD [] = [d] := by
    rw [MPA.shape, ht]
    exact hd _ (by rw [MPA.shape, ht]; simp)
  have key : ∀ i y, SliceOf x (x.lt.map fun _ => (0, i)) y →
      ∃ A, y.toArray = .ok A ∧ A.shape = [] ∧ A.get [] = x.val (x.lt.map fun _ => [i]) := by
    intro i y hy
    obtain ⟨A, hA, hs, hg⟩ := C01_to_array y hy.valid
    have hsh : y.shape = x.lt.map fun _ => [] := by
      rw [hy.shape, MPA.shape, List.zipWith_map_left, List.zipWith_map_right, List.zipWith_self]
      refine List.map_congr_left fun t h => ?_
      rw [hd _ (List.mem_map_of_mem h)]; rfl
    have hidx : IdxOK (x.lt.map fun _ => []) y.shape := by
      rw [hsh]
      unfold IdxOK
      rw [List.forall₂_same]
      intro a ha
      obtain ⟨_, _, rfl⟩ := List.mem_map.1 ha
      exact List.Forall₂.nil
    refine ⟨A, hA, by rw [hs, hsh]; simp, ?_⟩
    have := hg _ hidx
    rw [show (x.lt.map fun _ => ([] : List ℕ)).flatten = [] by simp] at this
    rw [this, hy.val _ hidx, List.zipWith_map_left, List.zipWith_map_right, List.zipWith_self]
    rfl
  have h4 : ∃ as, ys.mapM MPA.toArray = .ok as ∧
      List.Forall₂ (fun i A => A.shape = [] ∧ A.get [] = x.val (x.lt.map fun _ => [i]))
        (List.range d) as := by
    clear h2
    generalize List.range d = is at h3
    induction h3 with
    | nil => exact ⟨[], rfl, .nil⟩
    | @cons i y is ys h _ ih =>
      obtain ⟨as, g1, g2⟩ := ih
      obtain ⟨A, g3, g4⟩ := key i y h
      exact ⟨A :: as, by rw [List.mapM_cons, g3, ok_bind, g1]; rfl, .cons g4 g2⟩
  obtain ⟨as, h5, h6⟩ := h4
  refine ⟨as, ?_, h6⟩
  unfold MPA.diag
  rw [show ((0 : ℤ)) = ((0 : ℕ) : ℤ) by rfl, h2, ok_bind, hhead, if_pos (by rfl), h5]
  rfl

/-! ### examples and disagreements -/

example : exMPA.Valid ∧ exMPA.len = 2 ∧
    (∀ p ∈ ([1, -1] : List ℤ).zip exMPA.shape,
      p.2 ≠ [] ∧ -(p.2.headD 0 : ℤ) ≤ p.1 ∧ p.1 < p.2.headD 0) ∧
    exMPA.val (List.zipWith List.cons
      (List.zipWith (fun (i : ℤ) s => (i % (s.headD 0 : ℤ)).toNat) [1, -1] exMPA.shape) [[], []]) = 2 :=
  ⟨exMPA_valid, rfl, by decide, by decide⟩

example : exOp.Valid ∧ (∀ q ∈ [1, 0].zip exOp.shape, q.1 < q.2.length) ∧
    allIdx (iterDims [1, 0] exOp.shape)
      = [[0, 0], [0, 1], [0, 2], [1, 0], [1, 1], [1, 2], [2, 0], [2, 1], [2, 2]] :=
  ⟨exOp_valid, by decide, by decide⟩

/-- Disagreement with the documentation of `axis_iter`: the docstring says that
`axis_iter(0)` is `(A[(k, :), (m, :)] for m in range(...) for k in range(...))`, i.e. that the index
of the first site varies fastest.  The second MPA of the iterator is `A[(0, :), (1, :)]`, not
`A[(1, :), (0, :)]`. -/
theorem C19_axis_iter_order : ∃ ys y, exMPA.axisIterInt 0 = .ok ys ∧ ys[1]? = some y ∧
    y.val [[], []] = exMPA.val [[0], [1]] ∧ y.val [[], []] ≠ exMPA.val [[1], [0]] := by
  obtain ⟨ys, h1, h2⟩ := C19_axis_iter exMPA exMPA_valid [0, 0] rfl (by decide)
  rw [show allIdx (iterDims [0, 0] exMPA.shape) = [[0, 0], [0, 1], [0, 2], [1, 0], [1, 1], [1, 2]] by
    decide] at h2
  cases h2 with
  | cons _ h2 => cases h2 with
    | @cons k y ks ys' hy h2 =>
      refine ⟨_, y, h1, rfl, ?_⟩
      have hsh : y.shape = [[], []] := by rw [hy.shape]; decide
      rw [hy.val [[], []] (by rw [hsh]; exact .cons .nil (.cons .nil .nil))]
      decide

/-- A negative axis of `diag` is not the last leg: `(slice(None),) * (axis + 1)` is empty, so that
the bond is indexed, although `dim` is taken from the last leg. -/
theorem C19_diag_negative : exMPO.diag (-1) = .error .index := rfl

end Mpnum
