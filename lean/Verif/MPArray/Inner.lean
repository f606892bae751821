import Verif.MPArray.Dot

/-! Lemmas about `inner` and `localouter`. -/

open Finset

namespace Mpnum

variable {R : Type}

theorem NDArray.ndim_local {t : NDArray R} (h : t.IsLocal) : t.ndim = t.ph.length + 2 := by
  rw [NDArray.ndim, NDArray.shape_local h]; simp

/-- `_local_reshape` for explicit sizes. -/
theorem localReshape_ok {t : NDArray R} (h : t.IsLocal) {q : List ℕ} (hq : q.prod = t.ph.prod) :
    ∃ u, localReshape t (q.map fun n : ℕ => (n : ℤ)) = .ok u ∧ u.shape = t.lb :: (q ++ [t.rb]) ∧
      ∀ a < t.lb, ∀ b < t.rb, ∀ i, InB i q → u.at3 a i b = t.at3 a (unravelIdx t.ph (ravelIdx q i)) b := by
  have hs := NDArray.shape_local h
  refine ⟨t.reshapeTo (t.lb :: (q ++ [t.rb])), ?_, rfl, ?_⟩
  · unfold localReshape
    have : ((t.lb : ℤ) :: (q.map (fun n : ℕ => (n : ℤ)) ++ [(t.rb : ℤ)]))
        = (t.lb :: (q ++ [t.rb])).map fun n : ℕ => (n : ℤ) := by simp
    rw [this]
    apply NDArray.reshape_nat
    rw [hs]; simp [hq]
  · intro a ha b hb i hi
    exact NDArray.reshapeTo_local hs hq ha hi hb

/-- `_local_reshape` with one size to be inferred. -/
theorem localReshape_infer {t : NDArray R} (h : t.IsLocal) {q q' : List ℕ} {d : ℕ}
    (hq : q.prod * d * q'.prod = t.ph.prod) (hp : 0 < t.lb * t.rb * (q.prod * q'.prod)) :
    ∃ u, localReshape t (q.map (fun n : ℕ => (n : ℤ)) ++ [-1] ++ q'.map (fun n : ℕ => (n : ℤ))) = .ok u ∧
      u.shape = t.lb :: ((q ++ [d] ++ q') ++ [t.rb]) ∧
      ∀ a < t.lb, ∀ b < t.rb, ∀ i, InB i (q ++ [d] ++ q') →
        u.at3 a i b = t.at3 a (unravelIdx t.ph (ravelIdx (q ++ [d] ++ q') i)) b := by
  have hs := NDArray.shape_local h
  refine ⟨t.reshapeTo (t.lb :: ((q ++ [d] ++ q') ++ [t.rb])), ?_, rfl, ?_⟩
  · unfold localReshape
    have e := NDArray.reshape_infer (a := t) (d := d) (s := t.lb :: q) (t := q' ++ [t.rb])
      (by rw [hs]; simp [← hq]; ring) (by simp; simp at hp; tauto)
    simp only [List.map_cons, List.map_append, List.map_nil, List.cons_append, List.append_assoc,
      List.nil_append] at e ⊢
    exact e
  · intro a ha b hb i hi
    exact NDArray.reshapeTo_local hs (by rw [← hq]; simp; ring) ha hi hb

theorem localRavel_ok {t : NDArray R} (h : t.IsLocal) (hp : 0 < t.lb * t.rb) :
    ∃ u, localRavel t = .ok u ∧ u.shape = t.lb :: ([t.ph.prod] ++ [t.rb]) ∧
      ∀ a < t.lb, ∀ b < t.rb, ∀ i < t.ph.prod, u.at3 a [i] b = t.at3 a (unravelIdx t.ph i) b := by
  obtain ⟨u, h1, h2, h3⟩ := localReshape_infer h (q := []) (q' := []) (d := t.ph.prod) (by simp)
    (by simpa using hp)
  refine ⟨u, h1, h2, ?_⟩
  intro a ha b hb i hi
  have := h3 a ha b hb [i] (by simpa [InB] using hi)
  simpa using this

theorem conj_shape [Star R] (t : NDArray R) : t.conj.shape = t.shape := rfl
theorem conj_lb [Star R] (t : NDArray R) : t.conj.lb = t.lb := rfl
theorem conj_rb [Star R] (t : NDArray R) : t.conj.rb = t.rb := rfl
theorem conj_ph [Star R] (t : NDArray R) : t.conj.ph = t.ph := rfl
theorem conj_at3 [Star R] (t : NDArray R) (a b : ℕ) (p : List ℕ) :
    t.conj.at3 a p b = star (t.at3 a p b) := rfl

theorem chained_map_same {f : NDArray R → NDArray R} (h1 : ∀ t, (f t).shape = t.shape) {l r : ℕ}
    {ts : List (NDArray R)} (h : Chained l ts r) : Chained l (ts.map f) r := by
  induction ts generalizing l with
  | nil => exact h
  | cons t ts ih =>
    obtain ⟨a, b, c⟩ := h
    refine ⟨?_, ?_, ?_⟩
    · unfold NDArray.IsLocal NDArray.ndim at *; rw [h1]; exact a
    · unfold NDArray.lb at *; rw [h1]; exact b
    · rw [show (f t).rb = t.rb by unfold NDArray.rb; rw [h1]]; exact ih c

section
variable [CommRing R] [StarRing R]

/-- One factor of `inner`. -/
theorem localInner_ok {l r : NDArray R} (hl : l.IsLocal) (hr : r.IsLocal) (hpl : 0 < l.lb * l.rb)
    (hpr : 0 < r.lb * r.rb) (hph : l.ph = r.ph) :
    ∃ z, (do
        let l' ← localRavel l
        let r' ← localRavel r
        localDot l'.conj r' ([1], [1]) : Py (NDArray R)) = .ok z ∧
      PSite.OK ⟨l.conj, r, z, l.ph, [], [], fun k _ => k, fun k _ => k⟩ := by
  obtain ⟨l', h1, h2, h3⟩ := localRavel_ok hl hpl
  obtain ⟨r', h4, h5, h6⟩ := localRavel_ok hr hpr
  have hl' := NDArray.isLocal_of_shape h2
  have hr' := NDArray.isLocal_of_shape h5
  have pl := NDArray.ph_of_shape h2
  have pr := NDArray.ph_of_shape h5
  have hl'c : l'.conj.IsLocal := hl'
  have plc : l'.conj.ph = [l.ph.prod] := pl
  obtain ⟨z, hz, hok⟩ := localDot_ok (l := l'.conj) (r := r') hl'c hr' (axes := ([1], [1]))
    (axa := [0]) (axb := [0])
    (by rw [NDArray.ndim_local hl'c, plc]; rfl) (by rw [NDArray.ndim_local hr', pr]; rfl)
    (by rw [plc]; simp) (by rw [pr]; simp) (by simp) (by simp)
    (by rw [plc, pr, hph])
  refine ⟨z, by rw [h1, h4]; exact hz, ?_⟩
  obtain ⟨s1, s2⟩ := hok
  simp only [plc, pr] at s1 s2
  have f0 : ∀ d : ℕ, freeDims [d] [0] = [] := fun d => rfl
  simp only [f0] at s1 s2
  have lbl : l'.lb = l.lb := NDArray.lb_of_shape h2
  have rbl : l'.rb = l.rb := NDArray.rb_of_shape h2
  have lbr : r'.lb = r.lb := NDArray.lb_of_shape h5
  have rbr : r'.rb = r.rb := NDArray.rb_of_shape h5
  refine ⟨?_, ?_⟩
  · simpa [conj_lb, conj_rb, lbl, rbl, lbr, rbr] using s1
  · intro a ha a' ha' b hb b' hb' f g hf hg
    simp only [conj_lb, conj_rb] at ha hb s2 ⊢
    have := s2 a (by rw [lbl]; exact ha) a' (by rw [lbr]; exact ha') b (by rw [rbl]; exact hb) b'
      (by rw [rbr]; exact hb') f g hf hg
    rw [lbr, rbr] at this
    rw [this]
    cases hf; cases hg
    rw [← sum_unravel l.ph fun k => l.conj.at3 a k b * r.at3 a' k b']
    show sumIdx [l.ph.prod] _ = _
    simp only [sumIdx]
    refine Finset.sum_congr rfl fun k hk => ?_
    have hk : k < l.ph.prod := by simpa using hk
    have e : NDArray.asm 1 [0] [k] [] = [k] := rfl
    simp only [List.length_singleton, e, conj_at3]
    rw [h3 a ha b hb k hk, h6 a' ha' b' hb' k (by rw [← hph]; exact hk), hph]

omit [CommRing R] [StarRing R] in
theorem pidx_id {α : Type} {F : PSite R → List ℕ → List ℕ → List ℕ} {g : α → PSite R}
    (h : ∀ t k f, F (g t) k f = k) : ∀ (ts : List α) (ks fs : List (List ℕ)),
    ks.length = ts.length → fs.length = ts.length → pidx F (ts.map g) ks fs = ks
  | [], [], _, _, _ => rfl
  | t :: ts, k :: ks, f :: fs, h1, h2 => by
    simp only [List.map_cons, pidx, h]
    rw [pidx_id h ts ks fs (by simpa using h1) (by simpa using h2)]

/-- `inner` of two MPAs of the same shape. -/
theorem inner_ok {x y : MPA R} (hx : x.Valid) (hy : y.Valid) (hs : x.shape = y.shape)
    (hpx : ∀ r ∈ x.ranks, 0 < r) (hpy : ∀ r ∈ y.ranks, 0 < r) :
    inner x y = .ok (sumSites x.shape fun i => star (x.val i) * y.val i) := by
  have hlen : x.len = y.len := by
    have := congrArg List.length hs; simpa [MPA.shape, MPA.len] using this
  have hpos : ∀ {z : MPA R}, z.Valid → (∀ r ∈ z.ranks, 0 < r) → ∀ t ∈ z.lt, 0 < t.lb * t.rb := by
    intro z hz hr t ht
    have aux : ∀ (l r : ℕ) (ts : List (NDArray R)), 0 < l → 0 < r → Chained l ts r →
        (∀ q ∈ ts.tail.map NDArray.lb, 0 < q) → ∀ t ∈ ts, 0 < t.lb * t.rb := by
      intro l r ts
      induction ts generalizing l with
      | nil => intro _ _ _ _ t ht; simp at ht
      | cons u us ih =>
        intro hl hr hc hq t ht
        obtain ⟨_, h2, h3⟩ := hc
        have hub : 0 < u.rb := by
          cases us with
          | nil => simp only [chained_nil] at h3; omega
          | cons w ws =>
            have := hq w.lb (by simp)
            have := h3.2.1; omega
        rcases List.mem_cons.1 ht with rfl | ht
        · rw [h2]; exact Nat.mul_pos hl hub
        · exact ih u.rb hub hr h3 (fun q hq' => hq q (by
            cases us with
            | nil => simp at hq'
            | cons w ws => simp only [List.tail_cons, List.map_cons] at hq' ⊢; simp [hq'])) t ht
    exact aux 1 1 z.lt one_pos one_pos hz.chain hr t ht
  have hphz : ∀ l r, (l, r) ∈ x.lt.zip y.lt → l.ph = r.ph := by
    intro l r hm
    obtain ⟨n, hn, he⟩ := List.mem_iff_getElem.1 hm
    simp only [List.getElem_zip, Prod.mk.injEq] at he
    have h1 : n < x.lt.length := by simp at hn; omega
    have h2 : n < y.lt.length := by simp at hn; omega
    have := congrArg (fun q => q[n]?) hs
    simp only [MPA.shape, List.getElem?_map, List.getElem?_eq_getElem h1,
      List.getElem?_eq_getElem h2, he.1, he.2, Option.map_some, Option.some.injEq] at this
    exact this
  obtain ⟨ts, hz, hl, hr, hP⟩ := zipM_triples (f := fun l r => (do
        let l' ← localRavel l
        let r' ← localRavel r
        localDot l'.conj r' ([1], [1]) : Py (NDArray R)))
    (P := fun l r z => PSite.OK ⟨l.conj, r, z, l.ph, [], [], fun k _ => k, fun k _ => k⟩)
    (ls := x.lt) (rs := y.lt) hlen (by
      intro l r hm
      have hml : l ∈ x.lt := (List.of_mem_zip hm).1
      have hmr : r ∈ y.lt := (List.of_mem_zip hm).2
      exact localInner_ok (hx.chain.isLocal l hml) (hy.chain.isLocal r hmr) (hpos hx hpx l hml)
        (hpos hy hpy r hmr) (hphz l r hm))
  set g : NDArray R × NDArray R × NDArray R → PSite R := fun t =>
    ⟨t.1.conj, t.2.1, t.2.2, t.1.ph, [], [], fun k _ => k, fun k _ => k⟩ with hg
  obtain ⟨zs, hzs⟩ : ∃ zs, zs = ts.map fun t => t.2.2 := ⟨_, rfl⟩
  rw [← hzs] at hz
  have hok : ∀ s ∈ ts.map g, s.OK := by
    intro s hs
    obtain ⟨t, ht, rfl⟩ := List.mem_map.1 hs
    exact hP t ht
  have e1 : (ts.map g).map PSite.l = x.lt.map NDArray.conj := by
    rw [← hl, List.map_map, List.map_map]; rfl
  have e2 : (ts.map g).map PSite.r = y.lt := by rw [List.map_map, ← hr]; rfl
  have e3 : (ts.map g).map PSite.z = zs := by rw [List.map_map, hzs]; rfl
  have e4 : (ts.map g).map PSite.SL = List.replicate ts.length [] := by
    rw [List.map_map]; exact List.map_const
  have e5 : (ts.map g).map PSite.SR = List.replicate ts.length [] := by
    rw [List.map_map]; exact List.map_const
  have e6 : (ts.map g).map PSite.K = x.shape := by
    rw [MPA.shape, ← hl, List.map_map, List.map_map]; rfl
  have hcx : Chained 1 (x.lt.map NDArray.conj) 1 := chained_map_same conj_shape hx.chain
  obtain ⟨hc, hsh⟩ := chained_prod hok (by rw [e1]; exact hcx) (by rw [e2]; exact hy.chain)
  rw [e3] at hc hsh
  rw [e4, e5] at hsh
  have hrep : ∀ n, List.zipWith (· ++ ·) (List.replicate n ([] : List ℕ)) (List.replicate n [])
      = List.replicate n [] := fun n => by simp
  rw [hrep] at hsh
  have hne : zs ≠ [] := by
    intro h0
    have : ts = [] := by simpa [hzs] using h0
    apply hx.ne; rw [← hl, this]; rfl
  obtain ⟨A, hA, hRep⟩ := ltensToArray_ok hc hne
  obtain ⟨B, hB, hBs, hBg⟩ := rep_dropBonds hRep
  have hnil : IdxOK (List.replicate ts.length []) (List.replicate ts.length []) := by
    generalize ts.length = n
    induction n with
    | zero => exact .nil
    | succ n ih => exact .cons .nil ih
  unfold inner
  rw [pyAssert_true hlen, ok_bind, hz, ok_bind, hA, ok_bind, hB]
  show Except.ok (B.get []) = _
  congr 1
  have h0 := hBg (List.replicate ts.length []) (by rw [hsh]; exact hnil)
  rw [show (List.replicate ts.length ([] : List ℕ)).flatten = [] by simp] at h0
  rw [h0]
  have := mp_prod hok (by rw [e1]; exact hcx) (by rw [e2]; exact hy.chain)
      (by rw [e4]; exact hnil) (by rw [e5]; exact hnil) (a := 0) (a' := 0) (b := 0) (b' := 0)
      one_pos one_pos one_pos one_pos
  rw [e1, e2, e3, e6, hrep] at this
  refine this.trans ?_
  refine sumSites_congr fun i hi => ?_
  have hil : i.length = ts.length := by
    have := idxOK_length hi
    rw [this, MPA.shape, ← hl]; simp
  rw [pidx_id (fun _ _ _ => rfl) ts i _ hil (by simp), pidx_id (fun _ _ _ => rfl) ts i _ hil (by simp),
    ← star_mp]
  rfl

end

/-! ### `localouter` -/

theorem insertLeg_shape {t : NDArray R} (h : t.IsLocal) :
    (insertLeg t).shape = t.lb :: ((1 :: t.ph) ++ [t.rb]) := by
  unfold insertLeg
  rw [NDArray.shape_local h]; simp

theorem localouter_site [CommSemiring R] {l r : NDArray R} (hl : l.IsLocal) (hr : r.IsLocal) :
    ∃ z, localDot (insertLeg l) (insertLeg r) ([1], [1]) = .ok z ∧
      PSite.OK ⟨l, r, z, [], l.ph, r.ph, fun _ f => f, fun _ f => f⟩ := by
  have sl := insertLeg_shape hl
  have sr := insertLeg_shape hr
  have pl := NDArray.ph_of_shape sl
  have pr := NDArray.ph_of_shape sr
  have il := NDArray.isLocal_of_shape sl
  have ir := NDArray.isLocal_of_shape sr
  have hfree : ∀ p : List ℕ, freeDims (1 :: p) [0] = p := by
    intro p
    unfold freeDims
    rw [List.length_cons, NDArray.freeAxes_single_zero, List.map_map]
    exact map_getD_range p
  have hp1 : ∀ n : ℕ, pyIndex (n + 1 + 2) 1 = .ok 1 := fun n => pyIndex_nat (i := 1) (by omega)
  have hm : ∀ n : ℕ, [(1 : ℤ)].mapM (pyIndex (n + 1 + 2)) = .ok [1] := by
    intro n
    rw [mapM_ok_iff]
    exact .cons (hp1 n) .nil
  obtain ⟨z, hz, h1, h2⟩ := localDot_ok (l := insertLeg l) (r := insertLeg r) il ir
    (axes := ([1], [1])) (axa := [0]) (axb := [0])
    (by rw [NDArray.ndim_local il, pl]; exact hm _) (by rw [NDArray.ndim_local ir, pr]; exact hm _)
    (by rw [pl]; simp) (by rw [pr]; simp) (by simp) (by simp) (by rw [pl, pr]; rfl)
  refine ⟨z, hz, ?_⟩
  simp only [pl, pr, hfree, NDArray.lb_of_shape sl, NDArray.lb_of_shape sr, NDArray.rb_of_shape sl,
    NDArray.rb_of_shape sr] at h1 h2
  refine ⟨h1, ?_⟩
  intro a ha a' ha' b hb b' hb' f g hf hg
  have := h2 a ha a' ha' b hb b' hb' f g hf hg
  show z.at3 (a * r.lb + a') (f ++ g) (b * r.rb + b') = _
  rw [this]
  show sumIdx [1] _ = _
  have el : NDArray.asm (1 :: l.ph).length [0] [0] f = 0 :: f := by
    rw [List.length_cons]; exact NDArray.asm_single_zero (inB_length hf)
  have er : NDArray.asm (1 :: r.ph).length [0] [0] g = 0 :: g := by
    rw [List.length_cons]; exact NDArray.asm_single_zero (inB_length hg)
  simp only [sumIdx, Finset.sum_range_one, el, er]
  rfl

end Mpnum
