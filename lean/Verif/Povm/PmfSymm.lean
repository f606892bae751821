import Verif.Povm.PmfLemmas

/-! # `pmf_as_array` of PMPSs: from left to right and from both ends -/

open Finset

namespace Mpnum

variable {R : Type}

theorem triples_reverse {Y I J : List ℕ} (h1 : Y.length = I.length) (h2 : I.length = J.length) :
    (triples Y I J).reverse = triples Y.reverse I.reverse J.reverse := by
  unfold triples pairs
  rw [List.reverse_zipWith (by simp [h1, h2]), List.reverse_zipWith h2]

theorem pairs_rev {I J : List ℕ} (h2 : I.length = J.length) : (pairs I J).reverse = pairs I.reverse J.reverse := by
  unfold pairs
  rw [List.reverse_zipWith h2]

theorem inB_reverse {I D : List ℕ} (h : InB I D) : InB I.reverse D.reverse := List.rel_reverse h

theorem sumIdx_reverse [AddCommMonoid R] (D : List ℕ) (f : List ℕ → R) :
    sumIdx D.reverse f = sumIdx D fun I => f I.reverse :=
  (sumIdx_bij List.reverse List.reverse f (fun _ h => inB_reverse h) (fun _ h => by simpa using inB_reverse h)
    (fun _ _ => List.reverse_reverse _) (fun _ _ => List.reverse_reverse _)).symm

theorem squeezeIdx_append : ∀ {D I : List ℕ} (D' I' : List ℕ), I.length = D.length →
    squeezeIdx (D ++ D') (I ++ I') = squeezeIdx D I ++ squeezeIdx D' I'
  | [], [], _, _, _ => rfl
  | d :: D, i :: I, D', I', h => by
    have := squeezeIdx_append (D := D) (I := I) D' I' (by simpa using h)
    simp only [List.cons_append, squeezeIdx, this]
    split <;> simp
  | [], _ :: _, _, _, h => by simp at h
  | _ :: _, [], _, _, h => by simp at h

theorem squeezeIdx_reverse : ∀ {D I : List ℕ}, I.length = D.length → squeezeIdx D.reverse I.reverse = (squeezeIdx D I).reverse
  | [], [], _ => rfl
  | d :: D, i :: I, h => by
    have ih := squeezeIdx_reverse (D := D) (I := I) (by simpa using h)
    rw [List.reverse_cons, List.reverse_cons, squeezeIdx_append _ _ (by simpa using h), ih]
    simp only [squeezeIdx]
    split <;> simp
  | [], _ :: _, h => by simp at h
  | _ :: _, [], h => by simp at h

/-- The checks of the constructor of `MPPovm` for some sites of a chain. -/
theorem povmCheck_local {x : MPA R} {O D : List ℕ} (hloc : ∀ t ∈ x.lt, t.IsLocal) (hl : O.length = D.length)
    (hs : physShape x.lt = triples O D D) (ho : ∀ o ∈ O, o ≤ 255) : x.povmCheck = .ok x := by
  have hlen : x.lt.length = D.length := by
    have := congrArg List.length hs
    simp [physShape, triples] at this
    omega
  have hsh : ∀ n (hn : n < x.lt.length), x.lt[n].shape = [x.lt[n].lb, O.getD n 0, D.getD n 0, D.getD n 0, x.lt[n].rb] := by
    intro n hn
    have h2 : x.lt[n].ph = (triples O D D)[n]'(by rw [triples_length hl rfl]; omega) := by
      have : (physShape x.lt)[n]'(by simpa [physShape] using hn) = x.lt[n].ph := by simp [physShape]
      rw [← this]; simp only [hs]
    rw [NDArray.shape_local (hloc _ (List.getElem_mem hn)), h2]
    simp [triples, show n < O.length by omega, show n < D.length by omega]
  unfold MPA.povmCheck
  rw [pyAssert_true, ok_bind, pyAssert_true, ok_bind, pyAssert_true, ok_bind]
  · rfl
  · intro d hd
    unfold MPA.outdims at hd
    obtain ⟨n, hn, rfl⟩ := List.getElem_of_mem hd
    simp only [List.length_map] at hn
    rw [List.getElem_map, hsh n hn]
    simp only [List.getD_cons_succ, List.getD_cons_zero]
    rw [List.getD_eq_getElem _ _ (by omega)]
    exact ho _ (List.getElem_mem _)
  · intro s hs'
    unfold MPA.shape at hs'
    rw [show x.lt.map NDArray.ph = physShape x.lt from rfl, hs] at hs'
    obtain ⟨n, hn, rfl⟩ := List.getElem_of_mem hs'
    simp [triples]
  · intro n hn
    unfold MPA.ndims at hn
    obtain ⟨m, hm, rfl⟩ := List.getElem_of_mem hn
    simp only [List.length_map] at hm
    rw [List.getElem_map]
    unfold NDArray.ndim
    rw [hsh m hm]
    rfl

section
variable [CommRing R] [StarRing R]

/-- `reverse` of a part of a chain. -/
theorem reverse_part {ts : List (NDArray R)} (hne : ts ≠ []) {l r : ℕ} (hc : Chained l ts r) (a b : ℤ) :
    ∃ us, (⟨ts, a, b⟩ : MPA R).reverse = .ok ⟨us, 0, us.length⟩ ∧ Chained r us l ∧ physShape us = (physShape ts).reverse ∧
      ∀ idx, IdxOK idx (physShape ts) → ∀ a < l, ∀ b < r, mp us idx.reverse b a = mp ts idx a b := by
  have hloc := hc.isLocal
  obtain ⟨ps, h1, h2, h3⟩ := mapM_pairs (xs := ts.reverse) (f := fun t => t.transpose (((t.ndim : ℤ) - 1) ::
        (((List.range (t.ndim - 2)).map fun k : ℕ => (k : ℤ) + 1) ++ [0])))
    (P := fun t u => u.shape = t.rb :: (t.ph ++ [t.lb]) ∧
      ∀ a b p, p.length = t.ph.length → u.at3 b p a = t.at3 a p b)
    (fun t ht => reverseSite_ok (hloc t (by simpa using ht)))
  have h2' : ps.reverse.map Prod.fst = ts := by
    rw [List.map_reverse, h2, List.reverse_reverse]
  have hq : ∀ p ∈ ps.reverse, p.2.IsLocal ∧ p.2.lb = p.1.rb ∧ p.2.rb = p.1.lb ∧
      ∀ a b i, i.length = p.1.ph.length → p.2.at3 b i a = p.1.at3 a i b := by
    intro p hp
    obtain ⟨a, b⟩ := h3 p (by simpa using hp)
    exact ⟨NDArray.isLocal_of_shape a, NDArray.lb_of_shape a, NDArray.rb_of_shape a, b⟩
  have hc' := hc
  rw [← h2'] at hc'
  have hrev := chained_reverse (fun p hp => ⟨(hq p hp).1, (hq p hp).2.1, (hq p hp).2.2.1⟩) hc'
  rw [List.reverse_reverse] at hrev
  have hne' : ps.map Prod.snd ≠ [] := by
    intro h
    have : ps = [] := by simpa using h
    subst this
    exact hne (by simpa using h2.symm)
  refine ⟨ps.map Prod.snd, by unfold MPA.reverse; rw [h1]; exact mkMPA_ok hne' hrev, hrev, ?_, ?_⟩
  · show (ps.map Prod.snd).map NDArray.ph = (ts.map NDArray.ph).reverse
    rw [← List.map_reverse, ← h2, List.map_map, List.map_map]
    apply List.map_congr_left
    intro p hp
    exact NDArray.ph_of_shape (h3 p hp).1
  · intro idx hi a ha b hb
    have := mp_reverse hq hc' (idx := idx) (by rwa [h2']) ha hb
    rw [List.reverse_reverse] at this
    rw [this, h2']

theorem env_reverse {ms ts us vs : List (NDArray R)} {O D A : List ℕ} {l r p s : ℕ} (h : NetOK ms ts O D A l r p s)
    (hu : ∀ idx, IdxOK idx (physShape ms) → ∀ a < l, ∀ b < r, mp us idx.reverse b a = mp ms idx a b)
    (hv : ∀ idx, IdxOK idx (physShape ts) → ∀ a < p, ∀ b < s, mp vs idx.reverse b a = mp ts idx a b)
    {Y : List ℕ} (hY : InB Y O) {b0 a0 a0' b a a' : ℕ} (h1 : b0 < l) (h2 : a0 < p) (h3 : a0' < p) (h4 : b < r) (h5 : a < s) (h6 : a' < s) :
    env us vs D.reverse A.reverse Y.reverse b a a' b0 a0 a0' = env ms ts D A Y b0 a0 a0' b a a' := by
  unfold env
  rw [sumIdx_reverse]
  refine sumIdx_congr fun I hI => ?_
  rw [sumIdx_reverse]
  refine sumIdx_congr fun J hJ => ?_
  rw [sumIdx_reverse]
  refine sumIdx_congr fun K hK => ?_
  have lI := inB_length hI
  have lJ := inB_length hJ
  have lK := inB_length hK
  have lY := inB_length hY
  have := h.lenO
  have := h.lenA
  rw [← triples_reverse (by omega) (by omega), ← pairs_rev (by omega), ← pairs_rev (by omega),
    hu _ (by rw [h.shm]; exact triples_idxOK hY hI hJ) _ h1 _ h4,
    hv _ (by rw [h.sht]; exact pairs_idxOK hJ hK) _ h2 _ h5,
    hv _ (by rw [h.sht]; exact pairs_idxOK hI hK) _ h3 _ h6]

theorem env_born {x ψ : MPA R} {D A Y : List ℕ} :
    env x.lt ψ.lt D A Y 0 0 0 0 0 0 = bornRule D (x.elem Y) (dm ψ A) := by
  unfold env bornRule
  refine sumIdx_congr fun I _ => sumIdx_congr fun J _ => ?_
  unfold dm
  rw [mul_sumIdx]
  rfl

theorem netOK_full {x ψ : MPA R} {O D A : List ℕ} (hx : IsMpPovm x O D) (hψ : IsPmps ψ D A) :
    NetOK x.lt ψ.lt O D A 1 1 1 1 :=
  ⟨hx.valid.chain, hψ.valid.chain, hx.shape, hψ.shape, hx.len, hψ.len.symm⟩

theorem pmfLtr_ok {x ψ : MPA R} {O D A : List ℕ} (hx : IsMpPovm x O D) (hψ : IsPmps ψ D A) (hO : ∀ o ∈ O, 0 < o) :
    ∃ p, pmfLtr x ψ = .ok p ∧ p.shape = nsDims O ∧
      ∀ Y, InB Y O → p.get (squeezeIdx O Y) = bornRule D (x.elem Y) (dm ψ A) := by
  have hn := netOK_full hx hψ
  obtain ⟨c, h1, h2, h3⟩ := pmfLtrPartial_ok (x := x) (st := ψ) (ts := ψ.lt) (by
    rw [hn.len.1, ← hn.len.2, List.take_length]) hn
  have hprod : (nsDims O).prod = O.prod := filter_prod hO
  refine ⟨c.reshapeTo (nsDims O), ?_, rfl, ?_⟩
  · unfold pmfLtr
    simp only [h1, ok_bind, hx.outdims]
    rw [pyAssert_true (by rw [h2, hprod]), ok_bind, NDArray.reshape_nat (by rw [h2, hprod]; simp)]
  · intro Y hY
    rw [NDArray.reshapeTo_get, nsDims, squeeze_ravel hY, h2]
    have e : unravelIdx [O.prod, 1, 1, 1] (ravelIdx O Y) = [ravelIdx O Y, 0, 0, 0] := by
      simp [Nat.mod_one]
    rw [e, h3 Y hY 0 one_pos 0 one_pos 0 one_pos, env_born]

/-! ### from both ends -/

theorem netOK_split {ms ts : List (NDArray R)} {O D A : List ℕ} {l r p s : ℕ} (h : NetOK ms ts O D A l r p s) (n : ℕ) :
    ∃ r1 s1, NetOK (ms.take n) (ts.take n) (O.take n) (D.take n) (A.take n) l r1 p s1 ∧
      NetOK (ms.drop n) (ts.drop n) (O.drop n) (D.drop n) (A.drop n) r1 r s1 s := by
  have c1 := h.chm
  have c2 := h.cht
  rw [← List.take_append_drop n ms] at c1
  rw [← List.take_append_drop n ts] at c2
  obtain ⟨r1, a1, a2⟩ := chained_append.1 c1
  obtain ⟨s1, b1, b2⟩ := chained_append.1 c2
  refine ⟨r1, s1, ⟨a1, b1, ?_, ?_, ?_, ?_⟩, ⟨a2, b2, ?_, ?_, ?_, ?_⟩⟩
  · rw [physShape, List.map_take, show ms.map NDArray.ph = _ from h.shm]
    simp only [triples, pairs, List.take_zipWith]
  · rw [physShape, List.map_take, show ts.map NDArray.ph = _ from h.sht]
    simp only [pairs, List.take_zipWith]
  · simp [h.lenO]
  · simp [h.lenA]
  · rw [physShape, List.map_drop, show ms.map NDArray.ph = _ from h.shm]
    simp only [triples, pairs, List.drop_zipWith]
  · rw [physShape, List.map_drop, show ts.map NDArray.ph = _ from h.sht]
    simp only [pairs, List.drop_zipWith]
  · simp [h.lenO]
  · simp [h.lenA]

theorem mkPovm_part {ms : List (NDArray R)} {O D : List ℕ} {l r : ℕ} (hne : ms ≠ []) (hc : Chained l ms r)
    (hs : physShape ms = triples O D D) (hl : O.length = D.length) (ho : ∀ o ∈ O, o ≤ 255) :
    mkPovm ms = .ok ⟨ms, 0, ms.length⟩ := by
  unfold mkPovm
  rw [mkMPA_ok hne hc, ok_bind]
  exact povmCheck_local (x := ⟨ms, 0, ms.length⟩) hc.isLocal hl hs ho

theorem transpose_rev {a : NDArray R} :
    ∃ c, a.transpose (((List.range a.ndim).reverse).map fun n : ℕ => (n : ℤ)) = .ok c ∧ c.shape = a.shape.reverse ∧
      ∀ j, j.length = a.ndim → c.get j.reverse = a.get j := by
  have hp : (List.range a.ndim).reverse.Perm (List.range a.ndim) := List.reverse_perm _
  refine ⟨_, NDArray.transpose_ok hp, ?_, ?_⟩
  · rw [NDArray.transposeTo_shape]
    exact permIdx_reverse a.shape
  · intro j hj
    have := NDArray.transposeTo_get_perm (a := a) (j := j) hp hj
    rw [← hj, show (List.range j.length).reverse.map (fun p => j.getD p 0) = j.reverse from permIdx_reverse j] at this
    rw [← hj]
    exact this

theorem pmfSymmAt_ok {x ψ : MPA R} {O D A : List ℕ} (hx : IsMpPovm x O D) (hψ : IsPmps ψ D A) (hO : ∀ o ∈ O, 0 < o)
    {n : ℕ} (h0 : 0 < n) (hn : n < D.length) :
    ∃ p, pmfSymmAt x ψ n = .ok p ∧ p.shape = nsDims O ∧
      ∀ Y, InB Y O → p.get (squeezeIdx O Y) = bornRule D (x.elem Y) (dm ψ A) := by
  have hnet := netOK_full hx hψ
  obtain ⟨r, s, h1, h2⟩ := netOK_split hnet n
  have hl := hnet.len
  have hlO := hnet.lenO
  have hlA := hnet.lenA
  have ne1 : x.lt.take n ≠ [] := List.ne_nil_of_length_pos (by rw [List.length_take]; omega)
  have ne2 : x.lt.drop n ≠ [] := List.ne_nil_of_length_pos (by rw [List.length_drop]; omega)
  have ne3 : ψ.lt.drop n ≠ [] := List.ne_nil_of_length_pos (by rw [List.length_drop]; omega)
  have ho1 : ∀ o ∈ O.take n, o ≤ 255 := fun o ho => hx.small o (List.mem_of_mem_take ho)
  have ho2 : ∀ o ∈ O.drop n, o ≤ 255 := fun o ho => hx.small o (List.mem_of_mem_drop ho)
  have hp1 : 0 < (O.take n).prod := prod_pos_of fun o ho => hO o (List.mem_of_mem_take ho)
  have hpos2 : ∀ o ∈ O.drop n, 0 < o := fun o ho => hO o (List.mem_of_mem_drop ho)
  have hp2 : 0 < (O.drop n).prod := prod_pos_of hpos2
  -- the left part
  have m1 := mkPovm_part ne1 h1.chm h1.shm h1.lenO ho1
  obtain ⟨pl, a1, a2, a3⟩ := pmfLtrPartial_ok (x := ⟨x.lt.take n, 0, (x.lt.take n).length⟩) (st := ψ) (ts := ψ.lt.take n)
    (by simp; omega) h1
  have a4 : pl.reshape [((pl.shape.getD 0 0 : ℕ) : ℤ), -1] = .ok (pl.reshapeTo [(O.take n).prod, r * (s * s)]) := by
    have := NDArray.reshape_infer (a := pl) (d := r * (s * s)) (s := [(O.take n).prod]) (t := []) (by rw [a2]; simp)
      (by simpa using hp1)
    rw [a2]
    simpa using this
  -- the right part
  have m2 := mkPovm_part ne2 h2.chm h2.shm h2.lenO ho2
  obtain ⟨us, b1, b2, b3, b4⟩ := reverse_part ne2 h2.chm 0 (x.lt.drop n).length
  obtain ⟨vs, c1, c2, c3, c4⟩ := reverse_part ne3 h2.cht 0 (ψ.lt.drop n).length
  have hrevnet : NetOK us vs (O.drop n).reverse (D.drop n).reverse (A.drop n).reverse 1 r 1 s :=
    ⟨b2, c2, by rw [b3, h2.shm, triples_reverse h2.lenO rfl], by rw [c3, h2.sht, pairs_rev h2.lenA.symm],
      by simp [h2.lenO], by simp [h2.lenA]⟩
  have m3 : (⟨us, 0, us.length⟩ : MPA R).povmCheck = .ok ⟨us, 0, us.length⟩ :=
    povmCheck_local b2.isLocal hrevnet.lenO hrevnet.shm (fun o ho => ho2 o (by simpa using ho))
  have hlus := hrevnet.len
  obtain ⟨pr, d1, d2, d3⟩ := pmfLtrPartial_ok (x := ⟨us, 0, us.length⟩) (st := ⟨vs, 0, vs.length⟩) (ts := vs)
    (by simp only; rw [hlus.1, ← hlus.2, List.take_length]) hrevnet
  have hns : (nsDims (O.drop n).reverse).prod = (O.drop n).reverse.prod := filter_prod (by
    intro d hd
    exact hpos2 d (by simpa using hd))
  have hrp : (O.drop n).reverse.prod = (O.drop n).prod := List.prod_reverse _
  have d4 : pr.reshape ((nsDims (O.drop n).reverse).map (fun n : ℕ => (n : ℤ)) ++ [-1])
      = .ok (pr.reshapeTo (nsDims (O.drop n).reverse ++ [r * (s * s)])) := by
    have := NDArray.reshape_infer (a := pr) (d := r * (s * s)) (s := nsDims (O.drop n).reverse) (t := [])
      (by rw [d2, hns]; simp) (by rw [hns, hrp]; simpa using hp2)
    simpa using this
  obtain ⟨pt, e1, e2, e3⟩ := transpose_rev (a := pr.reshapeTo (nsDims (O.drop n).reverse ++ [r * (s * s)]))
  have hptn : (pr.reshapeTo (nsDims (O.drop n).reverse ++ [r * (s * s)])).ndim = (nsDims (O.drop n).reverse).length + 1 := by
    show (nsDims (O.drop n).reverse ++ [r * (s * s)]).length = _
    simp
  have hnsr : (nsDims (O.drop n).reverse).reverse = nsDims (O.drop n) := by
    unfold nsDims; rw [List.filter_reverse, List.reverse_reverse]
  have hpts : pt.shape = (r * (s * s)) :: nsDims (O.drop n) := by
    rw [e2]
    show (nsDims (O.drop n).reverse ++ [r * (s * s)]).reverse = _
    rw [List.reverse_append, hnsr]; rfl
  obtain ⟨pc, f1, f2, f3⟩ := NDArray.matdot_ok (a := pl.reshapeTo [(O.take n).prod, r * (s * s)]) (b := pt)
    (sa := [(O.take n).prod]) (sb := nsDims (O.drop n)) (k := r * (s * s)) rfl hpts
  have f1' : (pl.reshapeTo [(O.take n).prod, r * (s * s)]).tensordot pt [1] [0] = .ok pc := f1
  have hOsplit : O = O.take n ++ O.drop n := (List.take_append_drop n O).symm
  have hOprod : O.prod = (O.take n).prod * (O.drop n).prod := by rw [← List.prod_append, List.take_append_drop]
  have hsz : (nsDims O).prod = pc.shape.prod := by
    rw [f2, show (nsDims O).prod = O.prod from filter_prod hO, List.prod_append,
      show (nsDims (O.drop n)).prod = (O.drop n).prod from filter_prod hpos2, hOprod]
    simp
  refine ⟨pc.reshapeTo (nsDims O), ?_, rfl, ?_⟩
  · unfold pmfSymmAt
    simp only [m1, ok_bind, a1, a4, m2, b1, m3, mkMPA_ok ne3 h2.cht, c1, d1, hx.outdims]
    rw [pyAssert_true (by rw [d2, hns]; rfl), ok_bind, d4, ok_bind, e1, ok_bind, f1', ok_bind, NDArray.reshape_nat hsz]
  · intro Y hY
    rw [hOsplit] at hY
    obtain ⟨Y1, Y2, rfl, hY1, hY2⟩ := inB_append_split hY
    have lY1 := inB_length hY1
    have lY2 := inB_length hY2
    have hsq := squeeze_inB hY2
    have e0 : unravelIdx pc.shape (ravelIdx (nsDims O) (squeezeIdx O (Y1 ++ Y2)))
        = [ravelIdx (O.take n) Y1] ++ squeezeIdx (O.drop n) Y2 := by
      rw [nsDims, squeeze_ravel (by rw [hOsplit]; exact hY), f2]
      have : ravelIdx O (Y1 ++ Y2) = ravelIdx ([(O.take n).prod] ++ nsDims (O.drop n)) ([ravelIdx (O.take n) Y1] ++ squeezeIdx (O.drop n) Y2) := by
        conv_lhs => rw [hOsplit]
        rw [ravelIdx_append _ _ lY1, ravelIdx_append (i := [ravelIdx (O.take n) Y1]) (s := [(O.take n).prod]) _ _ rfl, nsDims, squeeze_ravel hY2, filter_prod hpos2]
        simp
      rw [this]
      exact unravel_ravel (inB_append (by simpa using ravelIdx_lt hY1) hsq)
    rw [NDArray.reshapeTo_get, e0, f3 [ravelIdx (O.take n) Y1] _ rfl (inB_length hsq), ← env_born]
    have hlx : (x.lt.take n).length = (D.take n).length := by simp; omega
    conv_rhs => rw [← List.take_append_drop n x.lt, ← List.take_append_drop n ψ.lt, ← List.take_append_drop n D,
      ← List.take_append_drop n A]
    rw [env_append h1.chm h1.cht hlx (by simp; omega) (by simp; omega) (by rw [lY1]; simp; omega) one_pos one_pos one_pos]
    have hsum : ∀ F : ℕ → R, ∑ q ∈ range (r * (s * s)), F q
        = ∑ b ∈ range r, ∑ a ∈ range s, ∑ a' ∈ range s, F (b * (s * s) + (a * s + a')) := by
      intro F
      rw [sum_range_mul]
      refine sum_congr rfl fun b _ => ?_
      rw [sum_range_mul]
    rw [hsum]
    refine sum_congr rfl fun b hb => sum_congr rfl fun a ha => sum_congr rfl fun a' ha' => ?_
    have hb := mem_range.1 hb
    have ha := mem_range.1 ha
    have ha' := mem_range.1 ha'
    have hin3 : InB [b, a, a'] [r, s, s] := by simp [hb, ha, ha']
    have hrav : ravelIdx [r, s, s] [b, a, a'] = b * (s * s) + (a * s + a') := by simp
    have hqlt : b * (s * s) + (a * s + a') < r * (s * s) := by
      have := ravelIdx_lt hin3
      rw [hrav] at this
      simpa using this
    have g1 : (pl.reshapeTo [(O.take n).prod, r * (s * s)]).get ([ravelIdx (O.take n) Y1] ++ [b * (s * s) + (a * s + a')])
        = env (x.lt.take n) (ψ.lt.take n) (D.take n) (A.take n) Y1 0 0 0 b a a' := by
      have := NDArray.reshapeTo_blocks2 (a := pl) (S := [(O.take n).prod]) (S' := [r, s, s]) (T := [(O.take n).prod])
        (T' := [r * (s * s)]) (i := [ravelIdx (O.take n) Y1]) (j := [b * (s * s) + (a * s + a')]) a2 rfl (by simp)
        (by simpa using ravelIdx_lt hY1) (by simpa using hqlt)
      rw [show [(O.take n).prod, r * (s * s)] = [(O.take n).prod] ++ [r * (s * s)] from rfl, this,
        unravel_ravel (i := [ravelIdx (O.take n) Y1]) (s := [(O.take n).prod]) (by simpa using ravelIdx_lt hY1),
        show ravelIdx [r * (s * s)] [b * (s * s) + (a * s + a')] = ravelIdx [r, s, s] [b, a, a'] by rw [hrav]; simp,
        unravel_ravel hin3]
      exact a3 Y1 hY1 b hb a ha a' ha'
    have g2 : pt.get ((b * (s * s) + (a * s + a')) :: squeezeIdx (O.drop n) Y2)
        = env (x.lt.drop n) (ψ.lt.drop n) (D.drop n) (A.drop n) Y2 b a a' 0 0 0 := by
      have hrevI : ((squeezeIdx (O.drop n).reverse Y2.reverse) ++ [b * (s * s) + (a * s + a')]).reverse
          = (b * (s * s) + (a * s + a')) :: squeezeIdx (O.drop n) Y2 := by
        rw [List.reverse_append, squeezeIdx_reverse lY2, List.reverse_reverse]; rfl
      have hYr := inB_reverse hY2
      have hsqr := squeeze_inB hYr
      rw [← hrevI, e3 _ (by rw [hptn, List.length_append, squeezeIdx_length (by simpa using lY2)]; rfl)]
      have := NDArray.reshapeTo_blocks2 (a := pr) (S := [(O.drop n).reverse.prod]) (S' := [r, s, s]) (T := nsDims (O.drop n).reverse)
        (T' := [r * (s * s)]) (i := squeezeIdx (O.drop n).reverse Y2.reverse) (j := [b * (s * s) + (a * s + a')]) d2
        (by rw [hns]; simp) (by simp) hsqr (by simpa using hqlt)
      rw [this, nsDims, squeeze_ravel hYr,
        show ravelIdx (O.drop n).reverse Y2.reverse = ravelIdx [(O.drop n).reverse.prod] [ravelIdx (O.drop n).reverse Y2.reverse] by simp,
        unravel_ravel (i := [ravelIdx (O.drop n).reverse Y2.reverse]) (s := [(O.drop n).reverse.prod]) (by simpa using ravelIdx_lt hYr),
        show ravelIdx [r * (s * s)] [b * (s * s) + (a * s + a')] = ravelIdx [r, s, s] [b, a, a'] by rw [hrav]; simp,
        unravel_ravel hin3]
      show pr.get [ravelIdx (O.drop n).reverse Y2.reverse, b, a, a'] = _
      rw [d3 _ hYr b hb a ha a' ha']
      exact env_reverse h2 b4 c4 hY2 hb ha ha' one_pos one_pos one_pos
    rw [g1, g2]

/-! ### where the chain is cut -/

omit [CommRing R] [StarRing R] in
theorem argmin_lt {l : List ℕ} (h : l ≠ []) : argmin l < l.length := by
  unfold argmin
  rw [List.findIdx_lt_length]
  obtain ⟨m, hm, hmin⟩ : ∃ m ∈ l, ∀ b ∈ l, m ≤ b := by
    induction l with
    | nil => exact absurd rfl h
    | cons a l ih =>
      by_cases hl : l = []
      · subst hl; exact ⟨a, by simp, by simp⟩
      · obtain ⟨m, hm, hmin⟩ := ih hl
        by_cases hma : m ≤ a
        · exact ⟨m, by simp [hm], by intro b hb; rcases List.mem_cons.1 hb with rfl | hb; exacts [hma, hmin b hb]⟩
        · exact ⟨a, by simp, by
            intro b hb
            rcases List.mem_cons.1 hb with rfl | hb
            · exact le_refl _
            · exact (by omega : a ≤ m).trans (hmin b hb)⟩
  exact ⟨m, hm, by simpa using hmin⟩

omit [CommRing R] [StarRing R] in
theorem symmCut_bounds {x ψ : MPA R} {O D A : List ℕ} (hx : IsMpPovm x O D) (hψ : IsPmps ψ D A) (hD : 1 < D.length) :
    0 < symmCut x ψ ∧ symmCut x ψ < D.length := by
  have h1 := hx.lenx
  have h2 : ψ.lt.length = D.length := hψ.lenD
  have h3 := hx.len
  unfold symmCut
  simp only [hx.outdims]
  generalize hr : List.zipWith (fun a b => a ^ 2 * b) ψ.ranks x.ranks = ranks
  generalize hL : List.zipWith (· * ·) (cumprod O).dropLast ranks = left
  have hl : left.length = D.length - 1 := by
    subst hr; subst hL
    simp [cumprod, MPA.ranks]
    omega
  rw [hl]
  generalize hm : (List.range (D.length - 1)).map _ = maxima
  have hml : maxima.length = D.length - 1 := by subst hm; simp
  have := argmin_lt (l := maxima) (List.ne_nil_of_length_pos (by omega))
  omega

theorem pmfSymm_ok {x ψ : MPA R} {O D A : List ℕ} (hx : IsMpPovm x O D) (hψ : IsPmps ψ D A) (hO : ∀ o ∈ O, 0 < o)
    (hD : 1 < D.length) :
    ∃ p, pmfSymm x ψ = .ok p ∧ p.shape = nsDims O ∧
      ∀ Y, InB Y O → p.get (squeezeIdx O Y) = bornRule D (x.elem Y) (dm ψ A) := by
  obtain ⟨h1, h2⟩ := symmCut_bounds hx hψ hD
  obtain ⟨p, g⟩ := pmfSymmAt_ok hx hψ hO h1 h2
  refine ⟨p, ?_, g.2⟩
  unfold pmfSymm
  rw [show pyGuard (1 < x.len) PyErr.value = .ok () from if_pos (by rw [show x.len = D.length from hx.lenx]; exact hD), ok_bind, g.1]

end

end Mpnum
