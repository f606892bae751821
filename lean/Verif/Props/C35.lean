import Verif.Props.C34

/-! # C35: reductions of locally purified states -/

open Finset

namespace Mpnum

variable {R : Type} [CommRing R] [StarRing R]

/-! ### reshaping at the ends of a window -/

omit [CommRing R] [StarRing R] in
theorem pmpsFirst_ok {t : NDArray R} {l d k r : ℕ} (ht : t.shape = [l, d, k, r]) :
    ∃ u, pmpsFirst t = .ok u ∧ u.shape = [1, d, l * k, r] ∧
      ∀ a < l, ∀ i < d, ∀ m < k, ∀ b < r, u.get [0, i, a * k + m, b] = t.get [a, i, m, b] := by
  obtain ⟨s, g⟩ := t
  simp only at ht
  subst ht
  refine ⟨(NDArray.transposeTo ⟨[l, d, k, r], g⟩ [1, 0, 2, 3]).reshapeTo [1, d, l * k, r], ?_, rfl, ?_⟩
  · unfold pmpsFirst
    rw [show unpack4 _ = .ok (l, d, k, r) from rfl, ok_bind]
    have := NDArray.transpose_ok (a := ⟨[l, d, k, r], g⟩) (perm := [1, 0, 2, 3])
      (show [1, 0, 2, 3].Perm (List.range 4) by decide)
    simp only [List.map_cons, List.map_nil, Nat.cast_ofNat, Nat.cast_one, Nat.cast_zero] at this
    simp only [this, ok_bind]
    exact NDArray.reshape_nat (show [1, d, l * k, r].prod = [d, l, k, r].prod by simp only [List.prod_cons, List.prod_nil]; ring)
  · intro a ha i hi m hm b hb
    have hlt : a * k + m < l * k := by nlinarith
    have e := NDArray.reshapeTo_blocks3 (a := NDArray.transposeTo ⟨[l, d, k, r], g⟩ [1, 0, 2, 3]) (S := [d]) (S' := [l, k])
      (S'' := [r]) (T := [1, d]) (T' := [l * k]) (T'' := [r]) (i := [0, i]) (j := [a * k + m]) (k := [b]) rfl (by simp) (by simp)
      rfl (by simp [hi]) (by simp [hlt]) (by simp [hb])
    have e1 : unravelIdx [d] (ravelIdx [1, d] [0, i]) = [i] := by
      have := unravel_ravel (i := [i]) (s := [d]) (by simp [hi])
      rw [← this]; congr 1; simp
    have e2 : unravelIdx [l, k] (ravelIdx [l * k] [a * k + m]) = [a, m] := by
      have := unravel_ravel (i := [a, m]) (s := [l, k]) (by simp [ha, hm])
      rw [← this]; congr 1; simp
    have e3 : unravelIdx [r] (ravelIdx [r] [b]) = [b] := unravel_ravel (by simp [hb])
    rw [e1, e2, e3] at e
    exact e

omit [CommRing R] [StarRing R] in
theorem pmpsLast_ok {t : NDArray R} {l d k r : ℕ} (ht : t.shape = [l, d, k, r]) :
    ∃ u, pmpsLast t = .ok u ∧ u.shape = [l, d, k * r, 1] ∧
      ∀ a < l, ∀ i < d, ∀ m < k, ∀ b < r, u.get [a, i, m * r + b, 0] = t.get [a, i, m, b] := by
  refine ⟨t.reshapeTo [l, d, k * r, 1], ?_, rfl, ?_⟩
  · unfold pmpsLast
    rw [ht, show unpack4 _ = .ok (l, d, k, r) from rfl, ok_bind]
    exact NDArray.reshape_nat (by rw [ht]; simp)
  · intro a ha i hi m hm b hb
    have hlt : m * r + b < k * r := by nlinarith
    have e := NDArray.reshapeTo_blocks2 (a := t) (S := [l, d]) (S' := [k, r]) (T := [l, d]) (T' := [k * r, 1])
      (i := [a, i]) (j := [m * r + b, 0]) ht rfl (by simp) (by simp [ha, hi]) (by simp [hlt])
    have e1 : unravelIdx [l, d] (ravelIdx [l, d] [a, i]) = [a, i] := unravel_ravel (by simp [ha, hi])
    have e2 : unravelIdx [k, r] (ravelIdx [k * r, 1] [m * r + b, 0]) = [m, b] := by
      have := unravel_ravel (i := [m, b]) (s := [k, r]) (by simp [hm, hb])
      rw [← this]; congr 1; simp
    rw [e1, e2] at e
    exact e

omit [CommRing R] [StarRing R] in
/-- Sites with two legs. -/
theorem shape_pair {t : NDArray R} {d k : ℕ} (ht : t.IsLocal) (hp : t.ph = [d, k]) : t.shape = [t.lb, d, k, t.rb] := by
  rw [NDArray.shape_local ht, hp]; rfl

theorem pmpsFirst_chain {us : List (NDArray R)} {t : NDArray R} {l r d k : ℕ} {D A : List ℕ} (hc : Chained l (t :: us) r)
    (hp : t.ph = [d, k]) (hps : physShape us = pairs D A) :
    ∃ u, pmpsFirst t = .ok u ∧ Chained 1 (u :: us) r ∧ physShape (u :: us) = pairs (d :: D) (l * k :: A) ∧
      ∀ I J, InB I (d :: D) → InB J (d :: D) → ∀ b b',
        (sumIdx (l * k :: A) fun K => mp (u :: us) (pairs I K) 0 b * star (mp (u :: us) (pairs J K) 0 b'))
          = ∑ a ∈ range l, sumIdx (k :: A) fun K => mp (t :: us) (pairs I K) a b * star (mp (t :: us) (pairs J K) a b') := by
  obtain ⟨h1, h2, h3⟩ := hc
  have hs := shape_pair h1 hp
  obtain ⟨u, g1, g2, g3⟩ := pmpsFirst_ok hs
  rw [h2] at g2 g3
  have g2' : u.shape = 1 :: ([d, l * k] ++ [t.rb]) := g2
  refine ⟨u, g1, ⟨NDArray.isLocal_of_shape g2', NDArray.lb_of_shape g2', by rwa [NDArray.rb_of_shape g2']⟩, ?_, ?_⟩
  · simp only [physShape, List.map_cons, NDArray.ph_of_shape g2'] at hps ⊢
    rw [hps]; rfl
  · intro I J hI hJ b b'
    obtain ⟨i, I, rfl, hi, hI⟩ := inB_cons_split hI
    obtain ⟨j, J, rfl, hj, hJ⟩ := inB_cons_split hJ
    simp only [sumIdx_cons]
    rw [sum_range_mul]
    refine sum_congr rfl fun a ha => sum_congr rfl fun m hm => ?_
    refine sumIdx_congr fun K hK => ?_
    have e : ∀ i < d, ∀ (I : List ℕ) (b : ℕ), mp (u :: us) (pairs (i :: I) ((a * k + m) :: K)) 0 b = mp (t :: us) (pairs (i :: I) (m :: K)) a b := by
      intro i hi I b
      simp only [pairs, List.zipWith_cons_cons, mp_cons, NDArray.rb_of_shape g2']
      refine sum_congr rfl fun c hc => ?_
      congr 1
      exact g3 a (mem_range.1 ha) i hi m (mem_range.1 hm) c (mem_range.1 hc)
    rw [e i hi, e j hj]

theorem pmpsLast_chain {us : List (NDArray R)} {t : NDArray R} {l r d k : ℕ} {D A : List ℕ} (hc : Chained l (us ++ [t]) r)
    (hp : t.ph = [d, k]) (hDA : D.length = A.length) (hps : physShape us = pairs D A) :
    ∃ u, pmpsLast t = .ok u ∧ u.lb = t.lb ∧ Chained l (us ++ [u]) 1 ∧ physShape (us ++ [u]) = pairs (D ++ [d]) (A ++ [k * r]) ∧
      ∀ I J, InB I (D ++ [d]) → InB J (D ++ [d]) → ∀ a < l, ∀ a' < l,
        (sumIdx (A ++ [k * r]) fun K => mp (us ++ [u]) (pairs I K) a 0 * star (mp (us ++ [u]) (pairs J K) a' 0))
          = ∑ b ∈ range r, sumIdx (A ++ [k]) fun K => mp (us ++ [t]) (pairs I K) a b * star (mp (us ++ [t]) (pairs J K) a' b) := by
  obtain ⟨h1, h2, h3⟩ := chained_concat.1 hc
  have hs := shape_pair h2 hp
  obtain ⟨u, g1, g2, g3⟩ := pmpsLast_ok hs
  rw [h3] at g2 g3
  have g2' : u.shape = t.lb :: ([d, k * r] ++ [1]) := g2
  have hlen : us.length = D.length := by
    have := congrArg List.length hps
    simpa [physShape, hDA] using this
  refine ⟨u, g1, NDArray.lb_of_shape g2', ?_, ?_, ?_⟩
  · rw [chained_concat, NDArray.lb_of_shape g2']
    exact ⟨h1, NDArray.isLocal_of_shape g2', NDArray.rb_of_shape g2'⟩
  · simp only [physShape, List.map_append, List.map_cons, List.map_nil, NDArray.ph_of_shape g2'] at hps ⊢
    rw [hps, pairs_append hDA]; rfl
  · intro I J hI hJ a ha a' ha'
    obtain ⟨I, I', rfl, hI1, hI'⟩ := inB_append_split hI
    obtain ⟨J, J', rfl, hJ1, hJ'⟩ := inB_append_split hJ
    obtain ⟨i, _, rfl, hi, hI'⟩ := inB_cons_split hI'
    rw [inB_nil_right] at hI'; subst hI'
    obtain ⟨j, _, rfl, hj, hJ'⟩ := inB_cons_split hJ'
    rw [inB_nil_right] at hJ'; subst hJ'
    have e : ∀ K, InB K A → ∀ m < k, ∀ b < r, ∀ i < d, ∀ (I : List ℕ), I.length = D.length → ∀ a < l,
        mp (us ++ [u]) (pairs (I ++ [i]) (K ++ [m * r + b])) a 0 = mp (us ++ [t]) (pairs (I ++ [i]) (K ++ [m])) a b := by
      intro K hK m hm b hb i hi I hI a ha
      have hIK : I.length = K.length := by rw [hI, hDA, inB_length hK]
      rw [pairs_append hIK, pairs_append hIK]
      rw [show pairs [i] [m * r + b] = [[i, m * r + b]] from rfl, show pairs [i] [m] = [[i, m]] from rfl,
        mp_concat (by rwa [NDArray.lb_of_shape g2']) (by simp [← hIK, hI, hlen]) ha (by rw [NDArray.rb_of_shape g2']; exact one_pos),
        mp_concat h1 (by simp [← hIK, hI, hlen]) ha (by rwa [h3]), NDArray.lb_of_shape g2']
      refine sum_congr rfl fun c hc => ?_
      congr 1
      exact g3 c (mem_range.1 hc) i hi m hm b hb
    rw [sumIdx_append]
    have e2 : ∀ b, (sumIdx (A ++ [k]) fun K => mp (us ++ [t]) (pairs (I ++ [i]) K) a b * star (mp (us ++ [t]) (pairs (J ++ [j]) K) a' b))
        = sumIdx A fun K => ∑ m ∈ range k, mp (us ++ [t]) (pairs (I ++ [i]) (K ++ [m])) a b
          * star (mp (us ++ [t]) (pairs (J ++ [j]) (K ++ [m])) a' b) := by
      intro b
      rw [sumIdx_append]
      simp only [sumIdx_cons, sumIdx_nil]
    simp only [e2]
    rw [← sumIdx_sum_comm]
    refine sumIdx_congr fun K hK => ?_
    simp only [sumIdx_cons, sumIdx_nil]
    rw [sum_range_mul, sum_comm]
    refine sum_congr rfl fun b hb => sum_congr rfl fun m hm => ?_
    rw [e K hK m (mem_range.1 hm) b (mem_range.1 hb) i hi I (inB_length hI1) a ha,
      e K hK m (mem_range.1 hm) b (mem_range.1 hb) j hj J (inB_length hJ1) a' ha']

/-- Summing over the physical legs of the canonical sites around a window. -/
theorem marg_center {l r : ℕ} {pre mid post : List (NDArray R)} (h1 : Chained 1 pre l) (h2 : Chained l mid r)
    (h3 : Chained r post 1) (hl : ∀ t ∈ pre, LCanon t) (hr : ∀ t ∈ post, RCanon t) {i j : List (List ℕ)}
    (hi : i.length = mid.length) (hj : j.length = mid.length) :
    (sumSites (physShape pre) fun p => sumSites (physShape post) fun q =>
      entry (pre ++ (mid ++ post)) (p ++ (i ++ q)) * star (entry (pre ++ (mid ++ post)) (p ++ (j ++ q))))
    = ∑ a ∈ range l, ∑ b ∈ range r, mp mid i a b * star (mp mid j a b) := by
  have key : ∀ p, IdxOK p (physShape pre) → ∀ q, ∀ i : List (List ℕ), i.length = mid.length →
      entry (pre ++ (mid ++ post)) (p ++ (i ++ q)) = ∑ a ∈ range l, mp pre p 0 a * ∑ b ∈ range r, mp mid i a b * mp post q b 0 := by
    intro p hp q i hi
    unfold entry
    rw [mp_append h1 (by simpa [physShape] using idxOK_length hp) one_pos]
    refine sum_congr rfl fun a ha => ?_
    rw [mp_append h2 hi (mem_range.1 ha)]
  rw [sumSites_congr (g := fun p => sumSites (physShape post) fun q =>
    star (∑ a ∈ range l, mp pre p 0 a * ∑ b ∈ range r, mp mid j a b * mp post q b 0)
      * (∑ a ∈ range l, mp pre p 0 a * ∑ b ∈ range r, mp mid i a b * mp post q b 0)) fun p hp => sumSites_congr fun q _ => by
    rw [key p hp q i hi, key p hp q j hj, mul_comm]]
  rw [sumSites_comm]
  simp only [isoL h1 hl]
  rw [sumSites_sum_comm]
  refine sum_congr rfl fun a _ => ?_
  rw [isoR h3 hr]
  exact sum_congr rfl fun b _ => mul_comm _ _

omit [StarRing R] [CommRing R] in
theorem physShape_take_drop {x : MPA R} {D A : List ℕ} (hx : IsPmps x D A) (s n : ℕ) :
    physShape ((x.lt.drop s).take n) = pairs ((D.drop s).take n) ((A.drop s).take n) := by
  have := hx.shape
  unfold MPA.shape at this
  rw [physShape, List.map_take, List.map_drop, this]
  simp only [pairs, List.drop_zipWith, List.take_zipWith]

omit [StarRing R] [CommRing R] in
theorem IsPmps.lenD {x : MPA R} {D A : List ℕ} (h : IsPmps x D A) : x.lt.length = D.length := by
  have := congrArg List.length h.shape
  simpa [MPA.shape, h.len] using this

omit [StarRing R] [CommRing R] in
theorem split3 {α : Type} (l : List α) {s e : ℕ} (hse : s ≤ e) :
    l = l.take s ++ ((l.drop s).take (e - s) ++ l.drop e) := by
  conv_lhs => rw [← List.take_append_drop s l, ← List.take_append_drop (e - s) (l.drop s), List.drop_drop]
  rw [show s + (e - s) = e by omega]

/-- The state of a PMPS on `s..e` if the sites around are canonical. -/
theorem marg_window {x : MPA R} {D A : List ℕ} (hx : IsPmps x D A) {s e : ℕ} (hse : s ≤ e)
    (hl : ∀ t ∈ x.lt.take s, LCanon t) (hr : ∀ t ∈ x.lt.drop e, RCanon t) {l r : ℕ}
    (h1 : Chained 1 (x.lt.take s) l) (h2 : Chained l ((x.lt.drop s).take (e - s)) r) (h3 : Chained r (x.lt.drop e) 1)
    {I J : List ℕ} (hI : InB I ((D.drop s).take (e - s))) (hJ : InB J ((D.drop s).take (e - s))) :
    margOp (dm x A) (D.take s) (D.drop e) I J
      = sumIdx ((A.drop s).take (e - s)) fun K => ∑ a ∈ range l, ∑ b ∈ range r,
          mp ((x.lt.drop s).take (e - s)) (pairs I K) a b * star (mp ((x.lt.drop s).take (e - s)) (pairs J K) a b) := by
  obtain ⟨pre, hpre⟩ : ∃ m, m = x.lt.take s := ⟨_, rfl⟩
  obtain ⟨mid, hmid⟩ : ∃ m, m = (x.lt.drop s).take (e - s) := ⟨_, rfl⟩
  obtain ⟨post, hpost⟩ : ∃ m, m = x.lt.drop e := ⟨_, rfl⟩
  obtain ⟨A1, hA1⟩ : ∃ m, m = A.take s := ⟨_, rfl⟩
  obtain ⟨A2, hA2⟩ : ∃ m, m = (A.drop s).take (e - s) := ⟨_, rfl⟩
  obtain ⟨A3, hA3⟩ : ∃ m, m = A.drop e := ⟨_, rfl⟩
  have hlt : x.lt = pre ++ (mid ++ post) := by rw [hpre, hmid, hpost]; exact split3 _ hse
  have hA : A = A1 ++ (A2 ++ A3) := by rw [hA1, hA2, hA3]; exact split3 _ hse
  have hps1 : physShape pre = pairs (D.take s) A1 := by
    have := physShape_take_drop hx 0 s
    simpa [hpre, hA1] using this
  have hps3 : physShape post = pairs (D.drop e) A3 := by
    have := physShape_take_drop hx e x.lt.length
    rw [List.take_of_length_le (by simp), List.take_of_length_le (by simp [hx.lenD]),
      List.take_of_length_le (by simp [hx.lenD, hx.len])] at this
    rw [hpost, hA3, this]
  have hps2 := physShape_take_drop hx s (e - s)
  rw [← hmid, ← hA2] at hps2
  rw [← hmid, ← hA2]
  rw [← hpre] at hl h1
  rw [← hpost] at hr h3
  rw [← hmid] at h2
  have hl12 : (D.take s).length = A1.length := by simp [hA1, hx.len]
  have hl3 : (D.drop e).length = A3.length := by simp [hA3, hx.len]
  have hl2 : ((D.drop s).take (e - s)).length = A2.length := by simp [hA2, hx.len]
  have hml : mid.length = A2.length := by
    have := congrArg List.length hps2
    simpa [physShape, hl2] using this
  unfold margOp dm
  have step : ∀ L, InB L (D.take s) → ∀ M, InB M (D.drop e) →
      (sumIdx A fun K => x.val (pairs (L ++ I ++ M) K) * star (x.val (pairs (L ++ J ++ M) K)))
      = sumIdx A2 fun K2 => sumIdx A1 fun K1 => sumIdx A3 fun K3 =>
          entry (pre ++ (mid ++ post)) (pairs L K1 ++ (pairs I K2 ++ pairs M K3))
            * star (entry (pre ++ (mid ++ post)) (pairs L K1 ++ (pairs J K2 ++ pairs M K3))) := by
    intro L hL M hM
    rw [hA, sumIdx_append, sumIdx_comm (s := A2)]
    refine sumIdx_congr fun K1 hK1 => ?_
    rw [sumIdx_append]
    refine sumIdx_congr fun K2 hK2 => sumIdx_congr fun K3 hK3 => ?_
    have hLK : L.length = K1.length := by rw [inB_length hL, inB_length hK1, hl12]
    have hIK : I.length = K2.length := by rw [inB_length hI, inB_length hK2, hl2]
    have hJK : J.length = K2.length := by rw [inB_length hJ, inB_length hK2, hl2]
    simp only [MPA.val]
    rw [List.append_assoc, List.append_assoc, pairs_append hLK, pairs_append hLK, pairs_append hIK, pairs_append hJK, hlt]
  rw [sumIdx_congr fun L hL => sumIdx_congr fun M hM => step L hL M hM]
  have r1 : ∀ L, (sumIdx (D.drop e) fun M => sumIdx A2 fun K2 => sumIdx A1 fun K1 => sumIdx A3 fun K3 =>
          entry (pre ++ (mid ++ post)) (pairs L K1 ++ (pairs I K2 ++ pairs M K3))
            * star (entry (pre ++ (mid ++ post)) (pairs L K1 ++ (pairs J K2 ++ pairs M K3))))
      = sumIdx A2 fun K2 => sumIdx A1 fun K1 => sumIdx (D.drop e) fun M => sumIdx A3 fun K3 =>
          entry (pre ++ (mid ++ post)) (pairs L K1 ++ (pairs I K2 ++ pairs M K3))
            * star (entry (pre ++ (mid ++ post)) (pairs L K1 ++ (pairs J K2 ++ pairs M K3))) := by
    intro L
    rw [sumIdx_comm]
    refine sumIdx_congr fun K2 _ => ?_
    rw [sumIdx_comm]
  simp only [r1]
  rw [sumIdx_comm]
  refine sumIdx_congr fun K2 hK2 => ?_
  have := marg_center h1 h2 h3 hl hr (i := pairs I K2) (j := pairs J K2)
    (by simp [inB_length hI, inB_length hK2, hl2, hml]) (by simp [inB_length hJ, inB_length hK2, hl2, hml])
  rw [hps1, hps3, sumSites_pairs _ _ hl12] at this
  simp only [sumSites_pairs _ _ hl3] at this
  exact this

omit [StarRing R] [CommRing R] in
theorem same_isPmps [Semiring R] {x y : MPA R} {D A : List ℕ} (hx : IsPmps x D A) (hs : x.Same y) (hy : y.Valid) : IsPmps y D A :=
  ⟨hy, hx.len, by rw [← hx.shape]; exact hs.1⟩

theorem dm_same {x y : MPA R} {D A : List ℕ} (hx : IsPmps x D A) (hs : x.Same y) {I J : List ℕ} (hI : InB I D) (hJ : InB J D) :
    dm y A I J = dm x A I J := by
  unfold dm
  refine sumIdx_congr fun K hK => ?_
  rw [hs.2 _ (by rw [hx.shape]; exact pairs_idxOK hI hK), hs.2 _ (by rw [hx.shape]; exact pairs_idxOK hJ hK)]

/-- C35: one step of the loop: the item is the reduced state, and the operand still represents the same
tensor (with a true canonical form). -/
theorem pmpsWindow_ok {qr : QR R} (hqr : QRSpec qr) {x : MPA R} {D A : List ℕ} (hx : IsPmps x D A) (hg : x.Good)
    {s e : ℕ} (hse : s < e) (he : e ≤ D.length) :
    ∃ z y A', pmpsWindow qr ((s : ℤ), (e : ℤ)) x = .ok (z, y) ∧ MPA.CanonStepSpec x y ∧ IsPmps z ((D.drop s).take (e - s)) A' ∧
      (∀ r ∈ z.ranks, 0 < r) ∧
      ∀ I J, InB I ((D.drop s).take (e - s)) → InB J ((D.drop s).take (e - s)) →
        dm z A' I J = margOp (dm x A) (D.take s) (D.drop e) I J := by
  have hlen : x.len = D.length := hx.lenD
  obtain ⟨y, h1, h2, h3, h4⟩ := MPA.canonicalize_ok hqr hg (left := .int s) (right := .int e) rfl (tl := s) (tr := e)
    (by show (s : ℤ) = if (s : ℤ) < 0 then _ else (s : ℤ); rw [if_neg (by omega)])
    (by show (e : ℤ) = if (e : ℤ) < 0 then _ else (e : ℤ); rw [if_neg (by omega)]) (by omega) (by omega) (by omega)
  have hlr := hg.valid.l_lt_r
  have hyl : (s : ℤ) ≤ y.l := by rw [h3]; split <;> omega
  have hyr : y.r ≤ e := by
    rw [h4]; split
    · exact le_refl _
    · split <;> omega
  have hy : IsPmps y D A := same_isPmps hx h2.same h2.good.valid
  have hylen : y.lt.length = D.length := hy.lenD
  have hl : ∀ t ∈ y.lt.take s, LCanon t := by
    intro t ht
    obtain ⟨n, hn, rfl⟩ := List.getElem_of_mem ht
    simp only [List.length_take] at hn
    rw [List.getElem_take]
    exact (h2.good.canon n _ (List.getElem?_eq_getElem (by omega))).1 (by omega)
  have hr : ∀ t ∈ y.lt.drop e, RCanon t := by
    intro t ht
    obtain ⟨n, hn, rfl⟩ := List.getElem_of_mem ht
    simp only [List.length_drop] at hn
    rw [List.getElem_drop]
    exact (h2.good.canon (e + n) _ (List.getElem?_eq_getElem (by omega))).2 (by push_cast; omega)
  have hch := hy.valid.chain
  rw [split3 y.lt hse.le] at hch
  obtain ⟨l, c1, hch⟩ := chained_append.1 hch
  obtain ⟨r, c2, c3⟩ := chained_append.1 hch
  have hs' : s < y.lt.length := by omega
  have hmid : (y.lt.drop s).take (e - s) = y.lt[s] :: (y.lt.drop (s + 1)).take (e - (s + 1)) := by
    rw [List.drop_eq_getElem_cons hs', show e - s = e - (s + 1) + 1 by omega, List.take_succ_cons]
  have hDmid : (D.drop s).take (e - s) = D[s] :: (D.drop (s + 1)).take (e - (s + 1)) := by
    rw [List.drop_eq_getElem_cons (by omega : s < D.length), show e - s = e - (s + 1) + 1 by omega, List.take_succ_cons]
  have hsA : s < A.length := by rw [← hx.len]; omega
  have hAmid : (A.drop s).take (e - s) = A[s] :: (A.drop (s + 1)).take (e - (s + 1)) := by
    rw [List.drop_eq_getElem_cons hsA, show e - s = e - (s + 1) + 1 by omega, List.take_succ_cons]
  have hmarg := fun I J hI hJ => marg_window hy hse.le hl hr c1 c2 c3 (I := I) (J := J) hI hJ
  have hps := physShape_take_drop hy s (e - s)
  have hps1 := physShape_take_drop hy (s + 1) (e - (s + 1))
  have hDA1 : ((D.drop (s + 1)).take (e - (s + 1))).length = ((A.drop (s + 1)).take (e - (s + 1))).length := by simp [hx.len]
  rw [hmid, hDmid, hAmid] at hps
  rw [hmid] at c2
  have hph : y.lt[s].ph = [D[s], A[s]] := by
    simp only [physShape, List.map_cons, pairs, List.zipWith_cons_cons, List.cons.injEq] at hps
    exact hps.1
  rw [hDmid, hAmid, hmid] at hmarg
  rw [hDmid]
  obtain ⟨D2, hD2⟩ : ∃ m, m = (D.drop (s + 1)).take (e - (s + 1)) := ⟨_, rfl⟩
  obtain ⟨A2, hA2⟩ : ∃ m, m = (A.drop (s + 1)).take (e - (s + 1)) := ⟨_, rfl⟩
  obtain ⟨us, hus⟩ : ∃ m, m = (y.lt.drop (s + 1)).take (e - (s + 1)) := ⟨_, rfl⟩
  rw [← hD2, ← hA2, ← hus] at hps1
  rw [← hD2, ← hA2] at hDA1
  rw [← hus] at c2
  simp only [← hD2, ← hA2, ← hus] at hmarg
  rw [← hD2] at hDmid ⊢
  obtain ⟨u, g1, g2, g3, g4⟩ := pmpsFirst_chain c2 hph hps1
  -- the last site
  obtain ⟨vs, v, hvs⟩ : ∃ vs v, u :: us = vs ++ [v] :=
    ⟨(u :: us).dropLast, (u :: us).getLast (by simp), (List.dropLast_append_getLast _).symm⟩
  have hDl : ∃ D3 d3, D[s] :: D2 = D3 ++ [d3] := ⟨_, _, (List.dropLast_append_getLast (List.cons_ne_nil D[s] D2)).symm⟩
  have hAl : ∃ A3 a3, l * A[s] :: A2 = A3 ++ [a3] := ⟨_, _, (List.dropLast_append_getLast (List.cons_ne_nil (l * A[s]) A2)).symm⟩
  obtain ⟨D3, d3, hD3⟩ := hDl
  obtain ⟨A3, a3, hA3⟩ := hAl
  have hl3 : D3.length = A3.length := by
    have e1 := congrArg List.length hD3
    have e2 := congrArg List.length hA3
    simp at e1 e2
    omega
  rw [hvs] at g2 g3 g4
  rw [hD3, hA3] at g3
  rw [hD3, hA3] at g4
  have hvsp : physShape vs = pairs D3 A3 ∧ v.ph = [d3, a3] := by
    rw [pairs_append hl3] at g3
    simp only [physShape, List.map_append, List.map_cons, List.map_nil] at g3
    have e1 := List.append_inj_left' g3 rfl
    have e2 := List.append_inj_right' g3 rfl
    exact ⟨e1, by simpa using e2⟩
  obtain ⟨w, k1, k5, k2, k3, k4⟩ := pmpsLast_chain g2 hvsp.2 hl3 hvsp.1
  refine ⟨⟨vs ++ [w], 0, (vs ++ [w]).length⟩, y, A3 ++ [a3 * r], ?_, h2, ⟨valid_mk (by simp) k2, ?_, ?_⟩, ?_, ?_⟩
  · have hsite : y.site (s : ℤ) = .ok y.lt[s] := by
      unfold MPA.site
      rw [pyIndex_nat (show s < y.len from hs'), ok_bind]
      simp [hs']
    have hsl : pySlice y.lt ((s : ℤ) + 1) (e : ℤ) = us := by
      have : (s : ℤ) + 1 = ((s + 1 : ℕ) : ℤ) := by push_cast; ring
      rw [this, pySlice_nat _ (by omega) (by omega), hus]
    unfold pmpsWindow
    simp only [h1, ok_bind, hsite, g1, hsl, hvs, mapLastM_concat, k1, mkMPA_ok (show vs ++ [w] ≠ [] by simp) k2]
    rfl
  · rw [hD3]; simp [hl3]
  · rw [hD3]; exact k3
  · have e1 : (vs ++ [w]).tail.map NDArray.lb = us.map NDArray.lb := by
      have : (vs ++ [w]).map NDArray.lb = (u :: us).map NDArray.lb := by rw [hvs]; simp [k5]
      rw [List.map_tail, this]; rfl
    intro r hr
    unfold MPA.ranks at hr
    rw [e1] at hr
    obtain ⟨t, ht, rfl⟩ := List.mem_map.1 hr
    rw [hus] at ht
    have ht' := List.mem_of_mem_drop (List.mem_of_mem_take ht)
    exact h2.good.pos.lb ht' (hy.valid.chain.isLocal t ht')
  · intro I J hI hJ
    have hx' : margOp (dm x A) (D.take s) (D.drop e) I J = margOp (dm y A) (D.take s) (D.drop e) I J := by
      unfold margOp
      refine sumIdx_congr fun L hL => sumIdx_congr fun M hM => ?_
      have hin : ∀ I, InB I (D[s] :: D2) → InB (L ++ I ++ M) D := by
        intro I hI
        have := inB_append hL (inB_append hI hM)
        rw [List.append_assoc]
        conv_rhs => rw [split3 D hse.le, hDmid]
        exact this
      rw [dm_same hx h2.same (hin I hI) (hin J hJ)]
    rw [hx', hmarg I J hI hJ]
    rw [hD3] at hI hJ
    show (sumIdx _ fun K => mp (vs ++ [w]) (pairs I K) 0 0 * star (mp (vs ++ [w]) (pairs J K) 0 0)) = _
    rw [k4 I J hI hJ 0 one_pos 0 one_pos]
    have : ∀ b, (sumIdx (A3 ++ [a3]) fun K => mp (vs ++ [v]) (pairs I K) 0 b * star (mp (vs ++ [v]) (pairs J K) 0 b))
        = ∑ a ∈ range l, sumIdx (A[s] :: A2) fun K => mp (y.lt[s] :: us) (pairs I K) a b * star (mp (y.lt[s] :: us) (pairs J K) a b) :=
      fun b => g4 I J hI hJ b b
    simp only [this]
    rw [sumIdx_sum_comm, sum_comm]
    refine sum_congr rfl fun a _ => ?_
    rw [sumIdx_sum_comm]

/-- Specification: `zs` are PMPSs of the reduced states of `x` on the windows `ws`. -/
def PmpsReductions (x : MPA R) (D A : List ℕ) (ws : List (ℕ × ℕ)) (zs : List (MPA R)) : Prop :=
  List.Forall₂ (fun w z => ∃ A', IsPmps z ((D.drop w.1).take (w.2 - w.1)) A' ∧ (∀ r ∈ z.ranks, 0 < r) ∧
    ∀ I J, InB I ((D.drop w.1).take (w.2 - w.1)) → InB J ((D.drop w.1).take (w.2 - w.1)) →
      dm z A' I J = margOp (dm x A) (D.take w.1) (D.drop w.2) I J) ws zs

theorem margOp_same {x y : MPA R} {D A : List ℕ} (hx : IsPmps x D A) (hs : x.Same y) {s e : ℕ} (hse : s ≤ e) {I J : List ℕ}
    (hI : InB I ((D.drop s).take (e - s))) (hJ : InB J ((D.drop s).take (e - s))) :
    margOp (dm y A) (D.take s) (D.drop e) I J = margOp (dm x A) (D.take s) (D.drop e) I J := by
  unfold margOp
  refine sumIdx_congr fun L hL => sumIdx_congr fun M hM => ?_
  have hin : ∀ I, InB I ((D.drop s).take (e - s)) → InB (L ++ I ++ M) D := by
    intro I hI
    have := inB_append hL (inB_append hI hM)
    rw [List.append_assoc]
    rwa [← split3 D hse] at this
  rw [dm_same hx hs (hin I hI) (hin J hJ)]

theorem pmps_loop {qr : QR R} (hqr : QRSpec qr) {D A : List ℕ} : ∀ (ws : List (ℕ × ℕ)), (∀ w ∈ ws, w.1 < w.2 ∧ w.2 ≤ D.length) →
    ∀ x : MPA R, IsPmps x D A → x.Good →
    ∃ zs y, yieldLoop (pmpsWindow qr) (ws.map fun w => ((w.1 : ℤ), (w.2 : ℤ))) x = .ok (zs, y) ∧ MPA.CanonStepSpec x y ∧
      PmpsReductions x D A ws zs
  | [], _, x, _, hg => ⟨[], x, rfl, MPA.CanonStepSpec.rfl' hg, List.Forall₂.nil⟩
  | w :: ws, hw, x, hx, hg => by
    obtain ⟨z, y, A', g1, g2, g3, g5, g4⟩ := pmpsWindow_ok hqr hx hg (hw w (by simp)).1 (hw w (by simp)).2
    obtain ⟨zs, y', k1, k2, k3⟩ := pmps_loop hqr ws (fun v hv => hw v (by simp [hv])) y (same_isPmps hx g2.same g2.good.valid) g2.good
    refine ⟨z :: zs, y', ?_, g2.trans k2, List.Forall₂.cons ⟨A', g3, g5, g4⟩ ?_⟩
    · simp only [List.map_cons, yieldLoop, g1, ok_bind, k1]
      rfl
    · have hlt : ∀ v ∈ ws, v.1 ≤ v.2 := fun v hv => (hw v (by simp [hv])).1.le
      clear k1 hw g1
      unfold PmpsReductions at k3
      induction k3 with
      | nil => exact List.Forall₂.nil
      | cons h _ ih =>
        refine List.Forall₂.cons ?_ (ih fun v hv => hlt v (by simp [hv]))
        obtain ⟨A', f1, f3, f2⟩ := h
        refine ⟨A', f1, f3, fun I J hI hJ => ?_⟩
        rw [f2 I J hI hJ, margOp_same hx g2.same (hlt _ (by simp)) hI hJ]

/-- C35: `reductions_pmps` for any sequence of windows, in any order and with repetitions: every item is a
PMPS of the exact reduced state of the operand.  The operand is changed in place, but it represents the same
tensor afterwards, and its claims about canonical form are true. -/
theorem C35_reductions_pmps {qr : QR R} (hqr : QRSpec qr) (x : MPA R) (D A : List ℕ) (hx : IsPmps x D A) (hg : x.Good)
    (ws : List (ℕ × ℕ)) (hw : ∀ w ∈ ws, w.1 < w.2 ∧ w.2 ≤ D.length) :
    ∃ zs y, reductionsPmps qr x none (some (ws.map fun w => (w.1 : ℤ))) (some (ws.map fun w => (w.2 : ℤ))) = .ok (zs, y) ∧
      PmpsReductions x D A ws zs ∧ x.Same y ∧ y.Valid ∧ y.CanonOK ∧ y.RanksLe x := by
  obtain ⟨zs, y, h1, h2, h3⟩ := pmps_loop hqr ws hw x hx hg
  refine ⟨zs, y, ?_, h3, h2.same, h2.good.valid, h2.good.canon, h2.ranks⟩
  unfold reductionsPmps reductionsArgs
  simp only [ok_bind]
  rw [List.zip_map', h1]

/-- C35: the windows for `width` alone. -/
theorem C35_width {qr : QR R} (hqr : QRSpec qr) (x : MPA R) (D A : List ℕ) (hx : IsPmps x D A) (hg : x.Good)
    (w : ℕ) (h0 : 0 < w) (hw : w ≤ D.length) :
    ∃ zs y, reductionsPmps qr x (some w) none none = .ok (zs, y) ∧
      PmpsReductions x D A ((List.range (D.length + 1 - w)).map fun s => (s, s + w)) zs ∧
      x.Same y ∧ y.Good := by
  obtain ⟨zs, y, h1, h2, h3⟩ := pmps_loop hqr ((List.range (D.length + 1 - w)).map fun s => (s, s + w)) (by
    intro q hq
    obtain ⟨s, hs, rfl⟩ := List.mem_map.1 hq
    have := List.mem_range.1 hs
    dsimp only
    omega) x hx hg
  refine ⟨zs, y, ?_, h3, h2.same, h2.good⟩
  unfold reductionsPmps reductionsArgs
  simp only [ok_bind, Option.getD_none]
  rw [show x.len = D.length from hx.lenD, pyRange_windows _ _ hw, h1]

/-! ### MPSs -/

omit [StarRing R] [CommRing R] in
theorem mkMPA_eq {ts : List (NDArray R)} {y : MPA R} (h : mkMPA ts = .ok y) : y = ⟨ts, 0, ts.length⟩ := by
  unfold mkMPA mkLT at h
  simp only [Option.getD_none, pyAssert] at h
  split_ifs at h
  all_goals first
    | exact (Except.ok.inj h).symm
    | exact absurd h (by rintro ⟨⟩)

theorem mpsToPmps_canon {x y : MPA R} (h : mpsToPmps x = .ok y) : y.CanonOK := by
  unfold mpsToPmps at h
  cases h1 : pyAssert (∀ s ∈ x.shape, s.length = 1) with
  | error e => rw [h1] at h; cases h
  | ok _ =>
    rw [h1, ok_bind] at h
    cases h2 : (x.lt.mapM fun t => t.reshape ((t.shape.take 2 ++ [1, t.shape.getD 2 0]).map fun n : ℕ => (n : ℤ))) with
    | error e => rw [h2] at h; cases h
    | ok us =>
      rw [h2, ok_bind] at h
      rw [mkMPA_eq h]
      exact canonOK_mk us

/-- Specification: the density operator of a pure state. -/
def pureDm (x : MPA R) (I J : List ℕ) : R := x.val (singles I) * star (x.val (singles J))

theorem mps_pmps_good {x : MPA R} {D : List ℕ} (hx : x.Good) (hs : x.shape = singles D) :
    ∃ y, mpsToPmps x = .ok y ∧ IsPmps y D (List.replicate D.length 1) ∧ y.Good ∧
      ∀ I J, InB I D → InB J D → dm y (List.replicate D.length 1) I J = pureDm x I J := by
  obtain ⟨y, h1, h2, h3, h4⟩ := C33_mps_to_pmps x D hx.valid hs
  refine ⟨y, h1, h2, ⟨h2.valid, mpsToPmps_canon h1, allPos_of h2.valid ?_ ?_⟩, ?_⟩
  · intro s hs' d hd
    rw [h2.shape] at hs'
    obtain ⟨n, hn, rfl⟩ := List.getElem_of_mem hs'
    simp only [List.length_zipWith, List.length_replicate, min_self] at hn
    simp only [List.getElem_zipWith, List.getElem_replicate, List.mem_cons, List.not_mem_nil, or_false] at hd
    rcases hd with rfl | rfl
    · have hm : singles D = x.lt.map NDArray.ph := hs.symm
      have hn' : n < x.lt.length := by
        have := congrArg List.length hm
        simp at this
        omega
      have hph : x.lt[n].ph = [D[n]] := by
        have : (singles D)[n]? = (x.lt.map NDArray.ph)[n]? := by rw [hm]
        simp [hn, hn'] at this
        exact this.symm
      exact hx.pos _ (List.getElem_mem hn') _ (by
        rw [NDArray.shape_local (hx.valid.chain.isLocal _ (List.getElem_mem hn')), hph]; simp)
    · exact one_pos
  · rw [h3]
    intro r hr
    unfold MPA.ranks at hr
    obtain ⟨t, ht, rfl⟩ := List.mem_map.1 hr
    have ht' := List.mem_of_mem_tail ht
    exact hx.pos.lb ht' (hx.valid.chain.isLocal t ht')
  · intro I J hI hJ
    unfold dm pureDm
    rw [sumIdx_ones, h4 I hI, h4 J hJ]

theorem pmpsReductions_congr {x : MPA R} {D A : List ℕ} {f : List ℕ → List ℕ → R}
    (hf : ∀ I J, InB I D → InB J D → dm x A I J = f I J) {ws : List (ℕ × ℕ)} (hw : ∀ w ∈ ws, w.1 < w.2 ∧ w.2 ≤ D.length)
    {zs : List (MPA R)} (h : PmpsReductions x D A ws zs) :
    List.Forall₂ (fun w z => ∃ A', IsPmps z ((D.drop w.1).take (w.2 - w.1)) A' ∧ (∀ r ∈ z.ranks, 0 < r) ∧
      ∀ I J, InB I ((D.drop w.1).take (w.2 - w.1)) → InB J ((D.drop w.1).take (w.2 - w.1)) →
        dm z A' I J = margOp f (D.take w.1) (D.drop w.2) I J) ws zs := by
  unfold PmpsReductions at h
  induction h with
  | nil => exact List.Forall₂.nil
  | cons h _ ih =>
    rename_i w z ws zs _
    refine List.Forall₂.cons ?_ (ih fun v hv => hw v (by simp [hv]))
    obtain ⟨A', f1, f3, f2⟩ := h
    refine ⟨A', f1, f3, fun I J hI hJ => ?_⟩
    rw [f2 I J hI hJ]
    unfold margOp
    refine sumIdx_congr fun L hL => sumIdx_congr fun M hM => ?_
    have hin : ∀ I, InB I ((D.drop w.1).take (w.2 - w.1)) → InB (L ++ I ++ M) D := by
      intro I hI
      have := inB_append hL (inB_append hI hM)
      rw [List.append_assoc]
      rwa [← split3 D (hw w (by simp)).1.le] at this
    exact hf _ _ (hin I hI) (hin J hJ)

/-- C35: `reductions_mps_as_pmps` yields PMPSs of the reduced states of the pure state. -/
theorem C35_mps_as_pmps {qr : QR R} (hqr : QRSpec qr) (x : MPA R) (D : List ℕ) (hx : x.Good) (hs : x.shape = singles D)
    (ws : List (ℕ × ℕ)) (hw : ∀ w ∈ ws, w.1 < w.2 ∧ w.2 ≤ D.length) :
    ∃ zs, reductionsMpsAsPmps qr x none (some (ws.map fun w => (w.1 : ℤ))) (some (ws.map fun w => (w.2 : ℤ))) = .ok zs ∧
      List.Forall₂ (fun w z => ∃ A', IsPmps z ((D.drop w.1).take (w.2 - w.1)) A' ∧ (∀ r ∈ z.ranks, 0 < r) ∧
        ∀ I J, InB I ((D.drop w.1).take (w.2 - w.1)) → InB J ((D.drop w.1).take (w.2 - w.1)) →
          dm z A' I J = margOp (pureDm x) (D.take w.1) (D.drop w.2) I J) ws zs := by
  obtain ⟨p, h1, h2, h3, h4⟩ := mps_pmps_good hx hs
  obtain ⟨zs, y, g1, g2, _⟩ := C35_reductions_pmps hqr p D _ h2 h3 ws hw
  refine ⟨zs, ?_, pmpsReductions_congr h4 hw g2⟩
  unfold reductionsMpsAsPmps
  simp only [h1, ok_bind, g1]
  rfl

/-- C35: `reductions_mps_as_mpo` yields the reduced states of the pure state as MPOs. -/
theorem C35_mps_as_mpo {qr : QR R} (hqr : QRSpec qr) (x : MPA R) (D : List ℕ) (hx : x.Good) (hs : x.shape = singles D)
    (ws : List (ℕ × ℕ)) (hw : ∀ w ∈ ws, w.1 < w.2 ∧ w.2 ≤ D.length) :
    ∃ zs, reductionsMpsAsMpo qr x none (some (ws.map fun w => (w.1 : ℤ))) (some (ws.map fun w => (w.2 : ℤ))) = .ok zs ∧
      List.Forall₂ (fun w z => IsMpo z ((D.drop w.1).take (w.2 - w.1)) ∧
        ∀ I J, InB I ((D.drop w.1).take (w.2 - w.1)) → InB J ((D.drop w.1).take (w.2 - w.1)) →
          z.val (pairs I J) = margOp (pureDm x) (D.take w.1) (D.drop w.2) I J) ws zs := by
  obtain ⟨ps, h1, h2⟩ := C35_mps_as_pmps hqr x D hx hs ws hw
  have : ∃ zs, ps.mapM pmpsToMpo = .ok zs ∧ List.Forall₂ (fun w z => IsMpo z ((D.drop w.1).take (w.2 - w.1)) ∧
        ∀ I J, InB I ((D.drop w.1).take (w.2 - w.1)) → InB J ((D.drop w.1).take (w.2 - w.1)) →
          z.val (pairs I J) = margOp (pureDm x) (D.take w.1) (D.drop w.2) I J) ws zs := by
    clear h1 hw
    induction h2 with
    | nil => exact ⟨[], rfl, List.Forall₂.nil⟩
    | cons h _ ih =>
      obtain ⟨zs, k1, k2⟩ := ih
      obtain ⟨A', f1, f3, f2⟩ := h
      obtain ⟨z, g1, g2, g3, g4⟩ := C33_pmps_to_mpo _ _ _ f1
      refine ⟨z :: zs, ?_, List.Forall₂.cons ⟨⟨g2, g3⟩, fun I J hI hJ => (g4 I J hI hJ).trans (f2 I J hI hJ)⟩ k2⟩
      rw [List.mapM_cons, g1, ok_bind, k1]; rfl
  obtain ⟨zs, k1, k2⟩ := this
  refine ⟨zs, ?_, k2⟩
  unfold reductionsMpsAsMpo
  rw [h1, ok_bind, k1]

/-- C35: `reductions` chooses the function by the mode; other modes raise `ValueError`. -/
theorem C35_reductions (qr : QR R) (x : MPA R) (width : Option ℤ) (starts stops : Option (List ℤ)) :
    reductions qr x .mps width starts stops = (reductionsMpsAsPmps qr x width starts stops).map (fun z => (z, .pmps)) ∧
    reductions qr x .pmps width starts stops = (reductionsPmps qr x width starts stops).map (fun z => (z.1, .pmps)) ∧
    reductions qr x .mpdo width starts stops = (reductionsMpo x width starts stops).map (fun z => (z, .mpdo)) ∧
    reductions qr x .other width starts stops = .error .value := by
  refine ⟨?_, ?_, ?_, rfl⟩
  · unfold reductions; cases reductionsMpsAsPmps qr x width starts stops <;> rfl
  · unfold reductions; cases reductionsPmps qr x width starts stops <;> rfl
  · unfold reductions; cases reductionsMpo x width starts stops <;> rfl

omit [StarRing R] [CommRing R] in
theorem reductionsArgs_width {n w : ℕ} (hw : w ≤ n) : reductionsArgs n (some w) none none
    = reductionsArgs n none (some ((List.range (n + 1 - w)).map fun s : ℕ => (s : ℤ)))
        (some ((List.range (n + 1 - w)).map fun s : ℕ => ((s + w : ℕ) : ℤ))) := by
  unfold reductionsArgs
  simp only [Option.getD_none]
  rw [pyRange_windows _ _ hw, List.zip_map', List.map_map]
  rfl

omit [StarRing R] [CommRing R] in
theorem reductionsArgs_starts (n : ℕ) (w : ℤ) (starts : List ℤ) : reductionsArgs n (some w) (some starts) none
    = reductionsArgs n none (some starts) (some (starts.map (· + w))) := by
  unfold reductionsArgs
  simp only [Option.getD_some]
  congr 1
  induction starts with
  | nil => rfl
  | cons s l ih => simp [ih]

omit [StarRing R] [CommRing R] in
theorem mpsToPmps_len {x p : MPA R} (h : mpsToPmps x = .ok p) : p.len = x.len := by
  unfold mpsToPmps at h
  obtain ⟨_, _, h⟩ := bind_ok_inv h
  obtain ⟨ts, h1, h⟩ := bind_ok_inv h
  rw [mkMPA_eq h]
  exact (mapM_ok_iff.1 h1).length_eq.symm

/-- C35: the other ways to give the windows.  `width` alone means all windows of this width from left to right; `width` and
`startsites` mean the windows that begin there.  So what holds for `startsites` and `stopsites` holds for all three forms. -/
theorem C35_windows (qr : QR R) (x : MPA R) :
    (∀ w : ℕ, w ≤ x.len →
      reductionsPmps qr x (some w) none none
        = reductionsPmps qr x none (some ((List.range (x.len + 1 - w)).map fun s : ℕ => (s : ℤ)))
            (some ((List.range (x.len + 1 - w)).map fun s : ℕ => ((s + w : ℕ) : ℤ))) ∧
      reductionsMpsAsPmps qr x (some w) none none
        = reductionsMpsAsPmps qr x none (some ((List.range (x.len + 1 - w)).map fun s : ℕ => (s : ℤ)))
            (some ((List.range (x.len + 1 - w)).map fun s : ℕ => ((s + w : ℕ) : ℤ))) ∧
      reductionsMpsAsMpo qr x (some w) none none
        = reductionsMpsAsMpo qr x none (some ((List.range (x.len + 1 - w)).map fun s : ℕ => (s : ℤ)))
            (some ((List.range (x.len + 1 - w)).map fun s : ℕ => ((s + w : ℕ) : ℤ)))) ∧
    ∀ (w : ℤ) (starts : List ℤ),
      reductionsPmps qr x (some w) (some starts) none = reductionsPmps qr x none (some starts) (some (starts.map (· + w))) ∧
      reductionsMpsAsPmps qr x (some w) (some starts) none = reductionsMpsAsPmps qr x none (some starts) (some (starts.map (· + w))) ∧
      reductionsMpsAsMpo qr x (some w) (some starts) none = reductionsMpsAsMpo qr x none (some starts) (some (starts.map (· + w))) := by
  have h1 : ∀ (y : MPA R) (w : ℕ), w ≤ y.len → reductionsPmps qr y (some w) none none
        = reductionsPmps qr y none (some ((List.range (y.len + 1 - w)).map fun s : ℕ => (s : ℤ)))
            (some ((List.range (y.len + 1 - w)).map fun s : ℕ => ((s + w : ℕ) : ℤ))) := fun y w hw => by
    unfold reductionsPmps
    rw [reductionsArgs_width hw]
  have h2 : ∀ (y : MPA R) (w : ℤ) (starts : List ℤ),
      reductionsPmps qr y (some w) (some starts) none = reductionsPmps qr y none (some starts) (some (starts.map (· + w))) := fun y w st => by
    unfold reductionsPmps
    rw [reductionsArgs_starts]
  have h3 : ∀ w : ℕ, w ≤ x.len → reductionsMpsAsPmps qr x (some w) none none
        = reductionsMpsAsPmps qr x none (some ((List.range (x.len + 1 - w)).map fun s : ℕ => (s : ℤ)))
            (some ((List.range (x.len + 1 - w)).map fun s : ℕ => ((s + w : ℕ) : ℤ))) := fun w hw => by
    unfold reductionsMpsAsPmps
    cases hp : mpsToPmps x with
    | error e => rfl
    | ok p =>
      have hl := mpsToPmps_len hp
      rw [ok_bind, ok_bind, h1 p w (by omega), hl]
  have h4 : ∀ (w : ℤ) (starts : List ℤ), reductionsMpsAsPmps qr x (some w) (some starts) none
      = reductionsMpsAsPmps qr x none (some starts) (some (starts.map (· + w))) := fun w st => by
    unfold reductionsMpsAsPmps
    simp only [h2]
  refine ⟨fun w hw => ⟨h1 x w hw, h3 w hw, ?_⟩, fun w st => ⟨h2 x w st, h4 w st, ?_⟩⟩
  · unfold reductionsMpsAsMpo; rw [h3 w hw]
  · unfold reductionsMpsAsMpo; rw [h4 w st]

/-! ### `pmps_reduction` -/

/-- Specification: the partial trace of an operator with the local dimensions `D` over the sites which are not
kept; the indices `I`, `J` are ignored at the other sites. -/
def margSites [AddCommMonoid S] : List Bool → List ℕ → (List ℕ → List ℕ → S) → List ℕ → List ℕ → S
  | k :: ks, d :: D, f, i :: I, j :: J =>
    if k then margSites ks D (fun I' J' => f (i :: I') (j :: J')) I J
    else ∑ m ∈ range d, margSites ks D (fun I' J' => f (m :: I') (m :: J')) I J
  | _, _, f, _, _ => f [] []

/-- Specification: `v` at the sites which are not kept. -/
def maskIdx (v : ℕ) : List Bool → List ℕ → List ℕ
  | k :: ks, i :: I => (if k then i else v) :: maskIdx v ks I
  | _, _ => []

theorem margSites_sum {ι : Type*} (t : Finset ι) : ∀ (ks : List Bool) (D : List ℕ) (f : ι → List ℕ → List ℕ → R) (I J : List ℕ),
    margSites ks D (fun I J => ∑ a ∈ t, f a I J) I J = ∑ a ∈ t, margSites ks D (f a) I J
  | [], _, _, _, _ => by simp [margSites]
  | _ :: _, [], _, _, _ => by simp [margSites]
  | _ :: _, _ :: _, _, [], _ => by simp [margSites]
  | _ :: _, _ :: _, _, _ :: _, [] => by simp [margSites]
  | k :: ks, d :: D, f, i :: I, j :: J => by
    cases k
    · simp only [margSites, Bool.false_eq_true, if_false, margSites_sum t ks D]
      rw [sum_comm]
    · simp only [margSites, if_true, margSites_sum t ks D]

theorem margSites_mul (c : R) : ∀ (ks : List Bool) (D : List ℕ) (f : List ℕ → List ℕ → R) (I J : List ℕ),
    margSites ks D (fun I J => c * f I J) I J = c * margSites ks D f I J
  | [], _, _, _, _ => by simp [margSites]
  | _ :: _, [], _, _, _ => by simp [margSites]
  | _ :: _, _ :: _, _, [], _ => by simp [margSites]
  | _ :: _, _ :: _, _, _ :: _, [] => by simp [margSites]
  | k :: ks, d :: D, f, i :: I, j :: J => by
    cases k
    · simp only [margSites, Bool.false_eq_true, if_false, margSites_mul c ks D, mul_sum]
    · simp only [margSites, if_true, margSites_mul c ks D]

theorem margSites_congr : ∀ (ks : List Bool) (D : List ℕ) {f g : List ℕ → List ℕ → R} (I J : List ℕ) (_ : ks.length = D.length)
    (_ : InB I D) (_ : InB J D) (_ : ∀ I J, InB I D → InB J D → f I J = g I J), margSites ks D f I J = margSites ks D g I J
  | [], [], _, _, I, J, _, hI, hJ, h => by simpa [margSites] using h [] [] (by simp) (by simp)
  | [], _ :: _, _, _, _, _, hl, _, _, _ => by simp at hl
  | _ :: _, [], _, _, _, _, hl, _, _, _ => by simp at hl
  | k :: ks, d :: D, f, g, I, J, hl, hI, hJ, h => by
    obtain ⟨i, I, rfl, hi, hI⟩ := inB_cons_split hI
    obtain ⟨j, J, rfl, hj, hJ⟩ := inB_cons_split hJ
    cases k
    · simp only [margSites, Bool.false_eq_true, if_false]
      refine sum_congr rfl fun m hm => margSites_congr ks D I J (by simpa using hl) hI hJ fun I' J' hI' hJ' => ?_
      exact h _ _ (by simp [mem_range.1 hm, hI']) (by simp [mem_range.1 hm, hJ'])
    · simp only [margSites, if_true]
      exact margSites_congr ks D I J (by simpa using hl) hI hJ fun I' J' hI' hJ' => h _ _ (by simp [hi, hI']) (by simp [hj, hJ'])

theorem margSites_append : ∀ (ks ks' : List Bool) (D D' : List ℕ) (f : List ℕ → List ℕ → R) (I I' J J' : List ℕ)
    (_ : ks.length = D.length) (_ : I.length = D.length) (_ : J.length = D.length),
    margSites (ks ++ ks') (D ++ D') f (I ++ I') (J ++ J')
      = margSites ks D (fun P Q => margSites ks' D' (fun P' Q' => f (P ++ P') (Q ++ Q')) I' J') I J
  | [], ks', [], D', f, [], I', [], J', _, _, _ => by simp [margSites]
  | k :: ks, ks', d :: D, D', f, i :: I, I', j :: J, J', h1, h2, h3 => by
    have ih := fun f => margSites_append ks ks' D D' f I I' J J' (by simpa using h1) (by simpa using h2) (by simpa using h3)
    cases k
    · simp only [List.cons_append, margSites, Bool.false_eq_true, if_false, ih]
    · simp only [List.cons_append, margSites, if_true, ih]

theorem margSites_none : ∀ (D : List ℕ) (f : List ℕ → List ℕ → R) (I J : List ℕ) (_ : I.length = D.length) (_ : J.length = D.length),
    margSites (List.replicate D.length false) D f I J = sumIdx D fun L => f L L
  | [], f, [], [], _, _ => by simp [margSites]
  | d :: D, f, i :: I, j :: J, h1, h2 => by
    simp only [List.length_cons, List.replicate_succ, margSites, Bool.false_eq_true, if_false, sumIdx_cons]
    exact sum_congr rfl fun m _ => margSites_none D _ I J (by simpa using h1) (by simpa using h2)

theorem margSites_all : ∀ (D : List ℕ) (f : List ℕ → List ℕ → R) (I J : List ℕ) (_ : I.length = D.length) (_ : J.length = D.length),
    margSites (List.replicate D.length true) D f I J = f I J
  | [], f, [], [], _, _ => by simp [margSites]
  | d :: D, f, i :: I, j :: J, h1, h2 => by
    simp only [List.length_cons, List.replicate_succ, margSites, if_true]
    exact margSites_all D _ I J (by simpa using h1) (by simpa using h2)

omit [StarRing R] [CommRing R] in
theorem traceOutSite_ok {t : NDArray R} {d k : ℕ} (hs : t.shape = [t.lb, d, k, t.rb]) (hl : 0 < t.lb) (hr : 0 < t.rb) :
    ∃ u, traceOutSite t = .ok u ∧ u.shape = [t.lb, 1, d * k, t.rb] ∧
      ∀ a < t.lb, ∀ i < d, ∀ m < k, ∀ b < t.rb, u.get [a, 0, i * k + m, b] = t.get [a, i, m, b] := by
  refine ⟨t.reshapeTo [t.lb, 1, d * k, t.rb], ?_, rfl, ?_⟩
  · unfold traceOutSite
    have := NDArray.reshape_infer (a := t) (d := d * k) (s := [t.lb, 1]) (t := [t.rb])
      (by rw [hs]; simp; ring) (by simp [hl, hr])
    simpa using this
  · intro a ha i hi m hm b hb
    have hlt : i * k + m < d * k := by nlinarith
    have e := NDArray.reshapeTo_blocks3 (a := t) (S := [t.lb]) (S' := [d, k]) (S'' := [t.rb]) (T := [t.lb]) (T' := [1, d * k])
      (T'' := [t.rb]) (i := [a]) (j := [0, i * k + m]) (k := [b]) hs rfl (by simp) rfl (by simp [ha]) (by simp [hlt]) (by simp [hb])
    have e1 : unravelIdx [t.lb] (ravelIdx [t.lb] [a]) = [a] := unravel_ravel (by simp [ha])
    have e2 : unravelIdx [d, k] (ravelIdx [1, d * k] [0, i * k + m]) = [i, m] := by
      have := unravel_ravel (i := [i, m]) (s := [d, k]) (by simp [hi, hm])
      rw [← this]; congr 1; simp
    have e3 : unravelIdx [t.rb] (ravelIdx [t.rb] [b]) = [b] := unravel_ravel (by simp [hb])
    rw [e1, e2, e3] at e
    exact e

/-- The density operator between bonds. -/
def gdm (ts : List (NDArray R)) (A : List ℕ) (a b a' b' : ℕ) (I J : List ℕ) : R :=
  sumIdx A fun K => mp ts (pairs I K) a b * star (mp ts (pairs J K) a' b')

theorem gdm_cons (t : NDArray R) (ts : List (NDArray R)) (A : List ℕ) (k a b a' b' i j : ℕ) (I J : List ℕ) :
    gdm (t :: ts) (k :: A) a b a' b' (i :: I) (j :: J) = ∑ m ∈ range k, ∑ c ∈ range t.rb, ∑ c' ∈ range t.rb,
      (t.get [a, i, m, c] * star (t.get [a', j, m, c'])) * gdm ts A c b c' b' I J := by
  unfold gdm
  rw [sumIdx_cons]
  refine sum_congr rfl fun m _ => ?_
  have e : ∀ K, mp (t :: ts) (pairs (i :: I) (m :: K)) a b * star (mp (t :: ts) (pairs (j :: J) (m :: K)) a' b')
      = ∑ c ∈ range t.rb, ∑ c' ∈ range t.rb, (t.get [a, i, m, c] * star (t.get [a', j, m, c']))
        * (mp ts (pairs I K) c b * star (mp ts (pairs J K) c' b')) := by
    intro K
    show (∑ c ∈ range t.rb, t.get [a, i, m, c] * mp ts (pairs I K) c b)
      * star (∑ c ∈ range t.rb, t.get [a', j, m, c] * mp ts (pairs J K) c b') = _
    rw [star_sum, sum_mul_sum]
    refine sum_congr rfl fun c _ => sum_congr rfl fun c' _ => ?_
    rw [star_mul']; ring
  simp only [e]
  rw [sumIdx_sum_comm]
  refine sum_congr rfl fun c _ => ?_
  rw [sumIdx_sum_comm]
  exact sum_congr rfl fun c' _ => by rw [mul_sumIdx]

theorem traceOut_chain (keep : ℕ → Bool) : ∀ (ts : List (NDArray R)) (D A : List ℕ) (o l r : ℕ) (_ : Chained l ts r)
    (_ : D.length = A.length) (_ : physShape ts = pairs D A) (_ : ∀ t ∈ ts, 0 < t.lb ∧ 0 < t.rb),
    ∃ us A', ((ts.zipIdx o).mapM fun q => if keep q.2 then (.ok q.1 : Py (NDArray R)) else traceOutSite q.1) = .ok us ∧
      Chained l us r ∧ D.length = A'.length ∧ us.length = ts.length ∧
      physShape us = pairs (maskIdx 1 ((List.range' o ts.length).map keep) D) A' ∧
      ∀ I J, InB I D → InB J D → ∀ a < l, ∀ a' < l, ∀ b b',
        gdm us A' a b a' b' (maskIdx 0 ((List.range' o ts.length).map keep) I) (maskIdx 0 ((List.range' o ts.length).map keep) J)
          = margSites ((List.range' o ts.length).map keep) D (gdm ts A a b a' b') I J
  | [], D, A, o, l, r, hc, hDA, hp, _ => by
    have hD : D = [] := by
      have := congrArg List.length hp
      simp [physShape, hDA] at this
      exact List.length_eq_zero_iff.1 (by rw [hDA, this])
    have hA : A = [] := List.length_eq_zero_iff.1 (by rw [← hDA, hD]; rfl)
    subst hD hA
    refine ⟨[], [], rfl, hc, rfl, rfl, rfl, ?_⟩
    intro I J hI hJ a _ a' _ b b'
    rw [inB_nil_right] at hI hJ
    subst hI hJ
    simp [maskIdx, margSites]
  | t :: ts, [], A, o, l, r, hc, hDA, hp, _ => by simp [physShape] at hp
  | t :: ts, d :: D, [], o, l, r, hc, hDA, hp, _ => by simp at hDA
  | t :: ts, d :: D, k :: A, o, l, r, hc, hDA, hp, hpos => by
    obtain ⟨h1, h2, h3⟩ := hc
    have hp' : t.ph = [d, k] ∧ physShape ts = pairs D A := by simpa [physShape, pairs] using hp
    have hs := shape_pair h1 hp'.1
    obtain ⟨us, A', g1, g2, g3, g4, g5, g6⟩ := traceOut_chain keep ts D A (o + 1) t.rb r h3 (by simpa using hDA) hp'.2
      (fun u hu => hpos u (by simp [hu]))
    cases hk : keep o with
    | true =>
      refine ⟨t :: us, k :: A', ?_, ⟨h1, h2, g2⟩, by simp [g3], by simp [g4], ?_, ?_⟩
      · rw [List.zipIdx_cons, List.mapM_cons]
        simp only [hk, if_true, ok_bind, g1]
        rfl
      · simp only [List.length_cons, List.range'_succ, List.map_cons, maskIdx, hk, if_true]
        simp only [physShape, List.map_cons, hp'.1] at g5 ⊢
        rw [g5]; rfl
      · intro I J hI hJ a ha a' ha' b b'
        obtain ⟨i, I, rfl, hi, hI⟩ := inB_cons_split hI
        obtain ⟨j, J, rfl, hj, hJ⟩ := inB_cons_split hJ
        simp only [List.length_cons, List.range'_succ, List.map_cons, maskIdx, hk, if_true, margSites, gdm_cons]
        simp only [margSites_sum, margSites_mul]
        refine sum_congr rfl fun m _ => sum_congr rfl fun c hc => sum_congr rfl fun c' hc' => ?_
        rw [g6 I J hI hJ c (mem_range.1 hc) c' (mem_range.1 hc') b b']
    | false =>
      obtain ⟨u, k1, k2, k3⟩ := traceOutSite_ok hs (hpos t (by simp)).1 (hpos t (by simp)).2
      have k2' : u.shape = t.lb :: ([1, d * k] ++ [t.rb]) := k2
      refine ⟨u :: us, d * k :: A', ?_, ⟨NDArray.isLocal_of_shape k2', (NDArray.lb_of_shape k2').trans h2, by
        rwa [NDArray.rb_of_shape k2']⟩, by simp [g3], by simp [g4], ?_, ?_⟩
      · rw [List.zipIdx_cons, List.mapM_cons]
        simp only [hk, if_false, Bool.false_eq_true, k1, ok_bind, g1]
        rfl
      · simp only [List.length_cons, List.range'_succ, List.map_cons, maskIdx, hk, if_false, Bool.false_eq_true]
        simp only [physShape, List.map_cons, NDArray.ph_of_shape k2'] at g5 ⊢
        rw [g5]; rfl
      · intro I J hI hJ a ha a' ha' b b'
        obtain ⟨i, I, rfl, hi, hI⟩ := inB_cons_split hI
        obtain ⟨j, J, rfl, hj, hJ⟩ := inB_cons_split hJ
        simp only [List.length_cons, List.range'_succ, List.map_cons, maskIdx, hk, if_false, Bool.false_eq_true, margSites, gdm_cons]
        simp only [margSites_sum, margSites_mul]
        rw [sum_range_mul]
        refine sum_congr rfl fun m hm => sum_congr rfl fun n hn => ?_
        rw [NDArray.rb_of_shape k2']
        refine sum_congr rfl fun c hc => sum_congr rfl fun c' hc' => ?_
        rw [g6 I J hI hJ c (mem_range.1 hc) c' (mem_range.1 hc') b b',
          k3 a (by omega) m (mem_range.1 hm) n (mem_range.1 hn) c (mem_range.1 hc),
          k3 a' (by omega) m (mem_range.1 hm) n (mem_range.1 hn) c' (mem_range.1 hc')]

omit [StarRing R] [CommRing R] in
theorem foldl_min_spec (l : List ℤ) (a : ℤ) : (l.foldl min a = a ∨ l.foldl min a ∈ l) ∧ l.foldl min a ≤ a ∧ ∀ b ∈ l, l.foldl min a ≤ b := by
  induction l generalizing a with
  | nil => simp
  | cons c l ih =>
    obtain ⟨h1, h2, h3⟩ := ih (min a c)
    simp only [List.foldl_cons, List.mem_cons]
    refine ⟨?_, by omega, ?_⟩
    · rcases h1 with h | h
      · rcases le_total a c with hac | hac
        · left; rw [h]; omega
        · right; left; rw [h]; omega
      · right; right; exact h
    · rintro b (rfl | hb)
      · omega
      · exact h3 b hb

omit [StarRing R] [CommRing R] in
theorem foldl_max_spec (l : List ℤ) (a : ℤ) : (l.foldl max a = a ∨ l.foldl max a ∈ l) ∧ a ≤ l.foldl max a ∧ ∀ b ∈ l, b ≤ l.foldl max a := by
  induction l generalizing a with
  | nil => simp
  | cons c l ih =>
    obtain ⟨h1, h2, h3⟩ := ih (max a c)
    simp only [List.foldl_cons, List.mem_cons]
    refine ⟨?_, by omega, ?_⟩
    · rcases h1 with h | h
      · rcases le_total a c with hac | hac
        · right; left; rw [h]; omega
        · left; rw [h]; omega
      · right; right; exact h
    · rintro b (rfl | hb)
      · omega
      · exact h3 b hb

omit [StarRing R] [CommRing R] in
theorem range'_split (n s e : ℕ) (hse : s ≤ e) (he : e ≤ n) :
    List.range n = List.range s ++ (List.range' s (e - s) ++ List.range' e (n - e)) := by
  rw [List.range_eq_range', List.range_eq_range']
  have h1 : List.range' e (n - e) = List.range' (s + 1 * (e - s)) (n - e) := by congr 1; omega
  rw [h1, List.range'_append, show s = 0 + 1 * s by omega]
  rw [show 0 + 1 * s = s by omega]
  have h2 : List.range' s (e - s + (n - e)) = List.range' (0 + 1 * s) (e - s + (n - e)) := by congr 1; omega
  rw [h2, List.range'_append]
  congr 1
  omega

omit [StarRing R] [CommRing R] in
theorem maskIdx_eq (v : ℕ) (ks : List Bool) (I : List ℕ) : maskIdx v ks I = List.zipWith (fun k i => if k then i else v) ks I := by
  induction ks generalizing I with
  | nil => cases I <;> rfl
  | cons k ks ih => cases I with
    | nil => rfl
    | cons i I => rw [maskIdx, ih]; rfl

omit [StarRing R] [CommRing R] in
theorem maskIdx_all (v : ℕ) (I : List ℕ) : maskIdx v (List.replicate I.length true) I = I := by
  induction I with
  | nil => rfl
  | cons i I ih => simp [List.replicate_succ, maskIdx, ih]

theorem margSites_sumIdx (ks : List Bool) (D P : List ℕ) (f : List ℕ → List ℕ → List ℕ → R) (I J : List ℕ) :
    margSites ks D (fun I J => sumIdx P fun L => f L I J) I J = sumIdx P fun L => margSites ks D (f L) I J := by
  simp only [sumIdx_eq_sum]
  exact margSites_sum _ ks D f I J

/-- Tracing out whole ends of the chain. -/
theorem margSites_ends {ks : List Bool} {D1 D2 D3 I1 I2 I3 J1 J2 J3 : List ℕ} (hk : ks.length = D2.length)
    (hI : InB (I1 ++ (I2 ++ I3)) (D1 ++ (D2 ++ D3))) (hJ : InB (J1 ++ (J2 ++ J3)) (D1 ++ (D2 ++ D3)))
    (h1 : I1.length = D1.length) (h2 : I2.length = D2.length) (h1' : J1.length = D1.length) (h2' : J2.length = D2.length)
    (f : List ℕ → List ℕ → R) :
    margSites (List.replicate D1.length false ++ (ks ++ List.replicate D3.length false)) (D1 ++ (D2 ++ D3)) f
        (I1 ++ (I2 ++ I3)) (J1 ++ (J2 ++ J3))
      = margSites ks D2 (margOp f D1 D3) I2 J2 := by
  have l3 : I3.length = D3.length := by have := inB_length hI; simp at this; omega
  have l3' : J3.length = D3.length := by have := inB_length hJ; simp at this; omega
  rw [margSites_append _ _ _ _ _ _ _ _ _ (by simp) h1 h1', margSites_none _ _ _ _ h1 h1']
  have e : ∀ L, margSites (ks ++ List.replicate D3.length false) (D2 ++ D3) (fun P' Q' => f (L ++ P') (L ++ Q')) (I2 ++ I3) (J2 ++ J3)
      = margSites ks D2 (fun P Q => sumIdx D3 fun M => f (L ++ P ++ M) (L ++ Q ++ M)) I2 J2 := by
    intro L
    rw [margSites_append _ _ _ _ _ _ _ _ _ hk h2 h2']
    congr 1
    funext P Q
    rw [margSites_none _ _ _ _ l3 l3']
    simp only [List.append_assoc]
  simp only [e]
  rw [← margSites_sumIdx]
  rfl

/-- C35: `pmps_reduction(pmps, support)` for any non-empty set of sites.  The result has the sites from the
first to the last site of the support; sites in between which are not in the support have system dimension 1.
Its density operator is the reduced state on the support, and the operand still represents the same tensor. -/
theorem C35_pmps_reduction {qr : QR R} (hqr : QRSpec qr) (x : MPA R) (D A : List ℕ) (hx : IsPmps x D A) (hg : x.Good)
    (support : List ℕ) (hne : support ≠ []) (hnd : support.Nodup) (hin : ∀ n ∈ support, n < D.length) :
    ∃ z y s e A', pmpsReduction qr x (support.map fun n : ℕ => (n : ℤ)) = .ok (z, y) ∧ x.Same y ∧ y.Valid ∧ y.CanonOK ∧
      s ∈ support ∧ e ∈ support ∧ (∀ n ∈ support, s ≤ n ∧ n ≤ e) ∧
      IsPmps z (((maskIdx 1 ((List.range D.length).map fun n => decide (n ∈ support)) D).drop s).take (e + 1 - s)) A' ∧
      ∀ I J, InB I D → InB J D →
        dm z A' (((maskIdx 0 ((List.range D.length).map fun n => decide (n ∈ support)) I).drop s).take (e + 1 - s))
            (((maskIdx 0 ((List.range D.length).map fun n => decide (n ∈ support)) J).drop s).take (e + 1 - s))
          = margSites ((List.range D.length).map fun n => decide (n ∈ support)) D (dm x A) I J := by
  obtain ⟨S, hS⟩ : ∃ S, S = support.map fun n : ℕ => (n : ℤ) := ⟨_, rfl⟩
  have hmemS : ∀ n : ℕ, (n : ℤ) ∈ S ↔ n ∈ support := by intro n; rw [hS]; simp
  have hSne : S ≠ [] := by rw [hS]; simpa using hne
  have hhead : S.headD 0 ∈ S := by
    cases hh : S with
    | nil => exact absurd hh hSne
    | cons a l => simp
  -- first and last site
  obtain ⟨m1, m2, m3⟩ := foldl_min_spec S (S.headD 0)
  obtain ⟨M1, M2, M3⟩ := foldl_max_spec S (S.headD 0)
  have hmin : S.foldl min (S.headD 0) ∈ S := by
    rcases m1 with h | h
    · rw [h]; exact hhead
    · exact h
  have hmax : S.foldl max (S.headD 0) ∈ S := by
    rcases M1 with h | h
    · rw [h]; exact hhead
    · exact h
  obtain ⟨s, hs, hs'⟩ : ∃ s ∈ support, (s : ℤ) = S.foldl min (S.headD 0) := by
    have hmS : ∀ a ∈ S, ∃ s ∈ support, (s : ℤ) = a := by
      intro a ha; rw [hS] at ha; exact List.mem_map.1 ha
    exact hmS _ hmin
  obtain ⟨e, he, he'⟩ : ∃ s ∈ support, (s : ℤ) = S.foldl max (S.headD 0) := by
    have hmS : ∀ a ∈ S, ∃ s ∈ support, (s : ℤ) = a := by
      intro a ha; rw [hS] at ha; exact List.mem_map.1 ha
    exact hmS _ hmax
  have hbd : ∀ n ∈ support, s ≤ n ∧ n ≤ e := by
    intro n hn
    have h1 := m3 n ((hmemS n).2 hn)
    have h2 := M3 n ((hmemS n).2 hn)
    omega
  have hse : s ≤ e := (hbd e he).1
  have heD := hin e he
  -- the window
  obtain ⟨red, y, A', w1, w2, w3, w4, w5⟩ := pmpsWindow_ok hqr hx hg (s := s) (e := e + 1) (by omega) (by omega)
  have hcode : pmpsReduction qr x S = (if (S.length : ℤ) = (e : ℤ) + 1 - s then .ok (red, y)
      else do
        let ltens ← red.lt.zipIdx.mapM fun q =>
          if ((q.2 : ℤ) + s) ∈ S then (.ok q.1 : Py (NDArray R)) else traceOutSite q.1
        let z ← mkMPA ltens
        return (z, y) : Py (MPA R × MPA R)) := by
    unfold pmpsReduction
    rw [pyAssert_true (List.length_pos_of_ne_nil hSne), ok_bind, pyAssert_true, ok_bind]
    · have : reductionsPmps qr x none (some [(s : ℤ)]) (some [(e : ℤ) + 1]) = .ok ([red], y) := by
        unfold reductionsPmps reductionsArgs
        simp only [ok_bind, List.zip_cons_cons, List.zip_nil_right, yieldLoop]
        have w1' : pmpsWindow qr ((s : ℤ), (e : ℤ) + 1) x = .ok (red, y) := by rw [← w1]; push_cast; rfl
        rw [w1']; rfl
      simp only [← hs', ← he', this, ok_bind]
    · intro a ha
      rw [hS] at ha
      obtain ⟨n, hn, rfl⟩ := List.mem_map.1 ha
      have := hin n hn
      rw [show x.len = D.length from hx.lenD]
      omega
  -- keeping sites
  obtain ⟨ks, hks⟩ : ∃ ks, ks = (List.range' s (e + 1 - s)).map fun n => decide (n ∈ support) := ⟨_, rfl⟩
  have hall : ((List.range D.length).map fun n => decide (n ∈ support))
      = List.replicate s false ++ (ks ++ List.replicate (D.length - (e + 1)) false) := by
    rw [range'_split D.length s (e + 1) (by omega) (by omega), List.map_append, List.map_append, ← hks]
    congr 1
    · rw [List.eq_replicate_iff]
      refine ⟨by simp, ?_⟩
      intro b hb
      obtain ⟨n, hn, rfl⟩ := List.mem_map.1 hb
      have hn := List.mem_range.1 hn
      exact decide_eq_false fun h => by have := hbd n h; omega
    · congr 1
      rw [List.eq_replicate_iff]
      refine ⟨by simp, ?_⟩
      intro b hb
      obtain ⟨n, hn, rfl⟩ := List.mem_map.1 hb
      have hn := List.mem_range'_1.1 hn
      exact decide_eq_false fun h => by have := hbd n h; omega
  have hkl : ks.length = e + 1 - s := by rw [hks]; simp
  have hmask : ∀ (v : ℕ) (I : List ℕ), ((maskIdx v ((List.range D.length).map fun n => decide (n ∈ support)) I).drop s).take (e + 1 - s)
      = maskIdx v ks ((I.drop s).take (e + 1 - s)) := by
    intro v I
    rw [hall, maskIdx_eq, maskIdx_eq, List.drop_zipWith, List.take_zipWith]
    congr 1
    rw [List.drop_left' (by simp), List.take_left' hkl]
  have hDl : ((D.drop s).take (e + 1 - s)).length = e + 1 - s := by simp; omega
  have hmarg : ∀ I J, InB I D → InB J D → margSites ((List.range D.length).map fun n => decide (n ∈ support)) D (dm x A) I J
      = margSites ks ((D.drop s).take (e + 1 - s)) (margOp (dm x A) (D.take s) (D.drop (e + 1)))
          ((I.drop s).take (e + 1 - s)) ((J.drop s).take (e + 1 - s)) := by
    intro I J hI hJ
    have lI := inB_length hI
    have lJ := inB_length hJ
    have := margSites_ends (ks := ks) (D1 := D.take s) (D2 := (D.drop s).take (e + 1 - s)) (D3 := D.drop (e + 1))
      (I1 := I.take s) (I2 := (I.drop s).take (e + 1 - s)) (I3 := I.drop (e + 1))
      (J1 := J.take s) (J2 := (J.drop s).take (e + 1 - s)) (J3 := J.drop (e + 1)) (by rw [hkl, hDl])
      (by rw [← split3 I (by omega), ← split3 D (by omega)]; exact hI)
      (by rw [← split3 J (by omega), ← split3 D (by omega)]; exact hJ)
      (by simp [lI]) (by simp [lI]) (by simp [lJ]) (by simp [lJ]) (dm x A)
    rw [← split3 I (by omega), ← split3 J (by omega), ← split3 D (by omega)] at this
    rw [hall, ← this, List.length_take, List.length_drop, min_eq_left (by omega)]
  have hIn2 : ∀ I, InB I D → InB ((I.drop s).take (e + 1 - s)) ((D.drop s).take (e + 1 - s)) := by
    intro I hI
    exact List.forall₂_take _ (List.forall₂_drop _ hI)
  by_cases hcard : (S.length : ℤ) = (e : ℤ) + 1 - s
  · rw [if_pos hcard] at hcode
    have hfull : ks = List.replicate (e + 1 - s) true := by
      have hsub : support.toFinset ⊆ Finset.Icc s e := by
        intro n hn
        have := hbd n (List.mem_toFinset.1 hn)
        simp [this]
      have hcd : support.toFinset = Finset.Icc s e := by
        refine Finset.eq_of_subset_of_card_le hsub ?_
        rw [List.toFinset_card_of_nodup hnd, Nat.card_Icc]
        rw [hS, List.length_map] at hcard
        omega
      rw [List.eq_replicate_iff]
      refine ⟨hkl, ?_⟩
      intro b hb
      rw [hks] at hb
      obtain ⟨n, hn, rfl⟩ := List.mem_map.1 hb
      have hn := List.mem_range'_1.1 hn
      refine decide_eq_true ?_
      have : n ∈ support.toFinset := by rw [hcd]; simp; omega
      exact List.mem_toFinset.1 this
    have hmk : ∀ (v : ℕ) (I : List ℕ), I.length = D.length → maskIdx v ks ((I.drop s).take (e + 1 - s)) = (I.drop s).take (e + 1 - s) := by
      intro v I hI
      have hl : ((I.drop s).take (e + 1 - s)).length = e + 1 - s := by simp; omega
      have := maskIdx_all v ((I.drop s).take (e + 1 - s))
      rwa [hl, ← hfull] at this
    refine ⟨red, y, s, e, A', by rw [← hS]; exact hcode, w2.same, w2.good.valid, w2.good.canon, hs, he, hbd, ?_, ?_⟩
    · rw [hmask, hmk 1 D rfl]; exact w3
    · intro I J hI hJ
      rw [hmask, hmask, hmk 0 I (inB_length hI), hmk 0 J (inB_length hJ), hmarg I J hI hJ, w5 _ _ (hIn2 I hI) (hIn2 J hJ)]
      have hx2 := margSites_all ((D.drop s).take (e + 1 - s)) (margOp (dm x A) (D.take s) (D.drop (e + 1))) _ _
        (inB_length (hIn2 I hI)) (inB_length (hIn2 J hJ))
      rw [hDl, ← hfull] at hx2
      rw [hx2]
  · rw [if_neg hcard] at hcode
    obtain ⟨us, A'', t1, t2, t3, t4, t5, t6⟩ := traceOut_chain (fun n => decide (n + s ∈ support)) red.lt _ _ 0 1 1 w3.valid.chain w3.len
      w3.shape (bonds_pos w3.valid w4)
    have hks2 : (List.range' 0 red.lt.length).map (fun n => decide (n + s ∈ support)) = ks := by
      rw [hks, w3.lenD, hDl]
      refine List.ext_getElem (by simp) fun n h1 h2 => ?_
      simp [add_comm]
    rw [hks2] at t5 t6
    have hune : us ≠ [] := by
      intro h0
      have := w3.lenD
      rw [hDl, ← t4, h0] at this
      simp at this
      omega
    have hmap : (red.lt.zipIdx.mapM fun q =>
          if ((q.2 : ℤ) + s) ∈ S then (.ok q.1 : Py (NDArray R)) else traceOutSite q.1) = .ok us := by
      rw [← t1]
      congr 1
      funext q
      have : (((q.2 : ℤ) + s) ∈ S) ↔ (decide (q.2 + s ∈ support) = true) := by
        rw [decide_eq_true_iff, ← hmemS]; push_cast; rfl
      by_cases hq : ((q.2 : ℤ) + s) ∈ S
      · rw [if_pos hq, if_pos (this.1 hq)]
      · rw [if_neg hq, if_neg (fun h => hq (this.2 h))]
    rw [hmap, ok_bind, mkMPA_ok hune t2, ok_bind] at hcode
    refine ⟨_, y, s, e, A'', by rw [← hS]; exact hcode, w2.same, w2.good.valid, w2.good.canon, hs, he, hbd, ?_, ?_⟩
    · rw [hmask]
      refine ⟨valid_mk hune t2, ?_, t5⟩
      rw [maskIdx_eq, List.length_zipWith, hkl, hDl, ← t3, hDl, min_self]
    · intro I J hI hJ
      rw [hmask, hmask, hmarg I J hI hJ]
      have := t6 _ _ (hIn2 I hI) (hIn2 J hJ) 0 one_pos 0 one_pos 0 0
      show gdm us A'' 0 0 0 0 _ _ = _
      rw [this]
      exact margSites_congr _ _ _ _ (by rw [hkl, hDl]) (hIn2 I hI) (hIn2 J hJ) fun P Q hP hQ => w5 P Q hP hQ

theorem exPmps_good : exPmps.Good := by
  refine ⟨exPmps_isPmps.valid, canonOK_mk _, ?_⟩
  intro t ht d hd
  simp only [exPmps, List.mem_cons, List.not_mem_nil, or_false] at ht
  rcases ht with rfl | rfl <;> simp at hd <;> omega

/-- Windows in any order, overlapping ones included. -/
example : ∃ (qr : QR ℂ) (zs : List (MPA ℂ)) (y : MPA ℂ),
    reductionsPmps qr exPmps none (some [1, 0, 0]) (some [2, 1, 2]) = .ok (zs, y) ∧ zs.length = 3 := by
  obtain ⟨qr, hqr⟩ := exists_QRSpec (𝕜 := ℂ)
  obtain ⟨zs, y, h1, h2, _⟩ := C35_reductions_pmps hqr exPmps _ _ exPmps_isPmps exPmps_good [(1, 2), (0, 1), (0, 2)] (by simp)
  exact ⟨qr, zs, y, h1, h2.length_eq.symm⟩

example : ∃ (qr : QR ℂ) (z y : MPA ℂ), pmpsReduction qr exPmps [1] = .ok (z, y) ∧ exPmps.Same y := by
  obtain ⟨qr, hqr⟩ := exists_QRSpec (𝕜 := ℂ)
  obtain ⟨z, y, _, _, _, h1, h2, _⟩ := C35_pmps_reduction hqr exPmps _ _ exPmps_isPmps exPmps_good [1] (by simp) (by simp) (by simp)
  exact ⟨qr, z, y, h1, h2⟩

end Mpnum
