import Verif.MPArray.Compress

/-! Lemmas about SVD compression: one step of each sweep. -/

open Finset

namespace Mpnum

variable {𝕜 : Type} [RCLike 𝕜]

/-- `u, s, v` are the first `t` left singular vectors, singular values and right singular vectors of
the `m × n` matrix `A`. -/
structure Trunc (A u v : NDArray 𝕜) (s : List ℝ) (m n t : ℕ) : Prop where
  ucols : ∀ b < t, ∀ b' < t, ∑ i ∈ range m, star (u.get [i, b]) * u.get [i, b'] = if b = b' then 1 else 0
  vrows : ∀ a < t, ∀ a' < t, ∑ j ∈ range n, v.get [a, j] * star (v.get [a', j]) = if a = a' then 1 else 0
  uA : ∀ a < t, ∀ j < n, ∑ i ∈ range m, star (u.get [i, a]) * A.get [i, j] = ((s.getD a 0 : ℝ) : 𝕜) * v.get [a, j]
  Av : ∀ i < m, ∀ a < t, ∑ j ∈ range n, A.get [i, j] * star (v.get [a, j]) = u.get [i, a] * ((s.getD a 0 : ℝ) : 𝕜)

/-- Contract for the argument `svdfunc` of `compress`. -/
def SVDFuncSpec (f : SVDFunc 𝕜) : Prop :=
  ∀ (A : NDArray 𝕜) (m n k : ℕ), A.shape = [m, n] → 0 < m → 0 < n → 0 < k →
    0 < (f A k).2.1.length ∧ (f A k).2.1.length ≤ k ∧ (f A k).2.1.length ≤ m ∧ (f A k).2.1.length ≤ n ∧
    (f A k).1.shape = [m, (f A k).2.1.length] ∧ (f A k).2.2.shape = [(f A k).2.1.length, n] ∧
    Trunc A (f A k).1 (f A k).2.2 (f A k).2.1 m n (f A k).2.1.length

theorem trunc_of_svd {svd : SVD 𝕜} (h : SVDSpec svd) {A : NDArray 𝕜} {m n t : ℕ}
    (hA : A.shape = [m, n]) (hm : t ≤ m) (hn : t ≤ n) :
    Trunc A (svd A).1 (svd A).2.2 (svd A).2.1 m n t := by
  obtain ⟨h1, h2, h3, h4, h5, h6, h7, h8⟩ := h A m n hA
  refine ⟨fun b hb b' hb' => h6 b (by omega) b' (by omega), fun a ha a' ha' => h7 a (by omega) a' (by omega), ?_, ?_⟩
  · intro a ha j hj
    have e : ∀ i ∈ range m, star ((svd A).1.get [i, a]) * A.get [i, j]
        = ∑ k ∈ range (min m n), (star ((svd A).1.get [i, a]) * (svd A).1.get [i, k]) *
          ((((svd A).2.1.getD k 0 : ℝ) : 𝕜) * (svd A).2.2.get [k, j]) := by
      intro i hi
      rw [h8 i (by simpa using hi) j hj, Finset.mul_sum]
      exact Finset.sum_congr rfl fun k _ => by ring
    rw [Finset.sum_congr rfl e, Finset.sum_comm]
    rw [Finset.sum_eq_single a]
    · rw [← Finset.sum_mul, h6 a (by omega) a (by omega), if_pos rfl, one_mul]
    · intro k hk hka
      have hk : k < min m n := by simpa using hk
      rw [← Finset.sum_mul, h6 a (by omega) k (by omega), if_neg (Ne.symm hka), zero_mul]
    · intro hk; exfalso; apply hk; simp; omega
  · intro i hi a ha
    have e : ∀ j ∈ range n, A.get [i, j] * star ((svd A).2.2.get [a, j])
        = ∑ k ∈ range (min m n), ((svd A).1.get [i, k] * (((svd A).2.1.getD k 0 : ℝ) : 𝕜)) *
          ((svd A).2.2.get [k, j] * star ((svd A).2.2.get [a, j])) := by
      intro j hj
      rw [h8 i hi j (by simpa using hj), Finset.sum_mul]
      exact Finset.sum_congr rfl fun k _ => by ring
    rw [Finset.sum_congr rfl e, Finset.sum_comm]
    rw [Finset.sum_eq_single a]
    · rw [← Finset.mul_sum, h7 a (by omega) a (by omega), if_pos rfl, mul_one]
    · intro k hk hka
      have hk : k < min m n := by simpa using hk
      rw [← Finset.mul_sum, h7 k (by omega) a (by omega), if_neg hka, mul_zero]
    · intro hk; exfalso; apply hk; simp; omega

theorem Trunc.congr {A u v u' v' : NDArray 𝕜} {s s' : List ℝ} {m n t : ℕ} (h : Trunc A u v s m n t)
    (hu : u'.get = u.get) (hv : v'.get = v.get) (hs : ∀ a < t, s'.getD a 0 = s.getD a 0) :
    Trunc A u' v' s' m n t := by
  refine ⟨?_, ?_, ?_, ?_⟩
  · rw [hu]; exact h.ucols
  · rw [hv]; exact h.vrows
  · intro a ha j hj; rw [hu, hv, hs a ha]; exact h.uA a ha j hj
  · intro i hi a ha; rw [hu, hv, hs a ha]; exact h.Av i hi a ha

theorem getD_take {α : Type} (l : List α) (k a : ℕ) (d : α) (h : a < k) : (l.take k).getD a d = l.getD a d := by
  rw [List.getD_eq_getElem?_getD, List.getD_eq_getElem?_getD, List.getElem?_take_of_lt h]

theorem truncatedSvd_spec {svd : SVD 𝕜} (h : SVDSpec svd) : SVDFuncSpec (truncatedSvd svd) := by
  intro A m n k hA hm hn hk
  obtain ⟨h1, h2, h3, -⟩ := h A m n hA
  have hlen : (truncatedSvd svd A k).2.1.length = min k (min m n) := by
    simp only [truncatedSvd, List.length_take, h2]; omega
  rw [hlen]
  refine ⟨by omega, by omega, by omega, by omega, ?_, ?_, ?_⟩
  · simp only [truncatedSvd, NDArray.cols, h1, h2, List.getD_cons_zero, List.getD_cons_succ]
    congr 2; omega
  · simp only [truncatedSvd, NDArray.rows, h3, h2, List.getD_cons_zero, List.getD_cons_succ]
    congr 1; omega
  · refine (trunc_of_svd h hA (t := min k (min m n)) (by omega) (by omega)).congr rfl rfl ?_
    intro a ha
    simp only [truncatedSvd, h2]
    exact getD_take _ _ _ _ (by omega)

/-- What a step of a sweep knows about the chosen factors `p = (u, sv, v, rank_t)`. -/
structure PickOK (A : NDArray 𝕜) (m n : ℕ) (rank : ℤ) (p : NDArray 𝕜 × List ℝ × NDArray 𝕜 × ℕ) : Prop where
  pos : 0 < p.2.2.2
  le_m : p.2.2.2 ≤ m
  le_n : p.2.2.2 ≤ n
  le_rank : (p.2.2.2 : ℤ) ≤ rank
  ushape : ∃ c, p.1.shape = [m, c] ∧ p.2.2.2 ≤ c
  slen : p.2.2.2 ≤ p.2.1.length
  vshape : ∃ c, p.2.2.1.shape = [c, n] ∧ p.2.2.2 ≤ c
  trunc : Trunc A p.1 p.2.2.1 p.2.1 m n p.2.2.2

theorem rankRelerr_pos (sv : List ℝ) (e : ℝ) : 0 < rankRelerr sv e := by
  unfold rankRelerr; split <;> omega

theorem pickR_ok {svd : SVD 𝕜} {f : SVDFunc 𝕜} (h : SVDSpec svd) (hf : SVDFuncSpec f) {rank : ℤ}
    (hr : 0 < rank) {relerr : Option ℝ} {A : NDArray 𝕜} {m n : ℕ} (hA : A.shape = [m, n])
    (hm : 0 < m) (hn : 0 < n) : PickOK A m n rank (svdPickR svd f rank relerr n A) := by
  cases relerr with
  | none =>
    obtain ⟨h1, h2, h3, h4, h5, h6, h7⟩ := hf A m n rank.toNat hA hm hn (by omega)
    exact ⟨h1, h3, h4, by show ((f A rank.toNat).2.1.length : ℤ) ≤ rank; omega, ⟨_, h5, le_refl _⟩, le_refl _, ⟨_, h6, le_refl _⟩, h7⟩
  | some e =>
    obtain ⟨h1, h2, h3, -⟩ := h A m n hA
    have hk : (svdPickR svd f rank (some e) n A).2.2.2 = min (min n m) (min rank.toNat (rankRelerr (svd A).2.1 e)) := by
      simp [svdPickR, h1]
    have hp := rankRelerr_pos (svd A).2.1 e
    have hle : (svdPickR svd f rank (some e) n A).2.2.2 ≤ min n m := by rw [hk]; omega
    exact ⟨by rw [hk]; omega, by omega, by omega, by rw [hk]; omega, ⟨m, h1, by omega⟩,
      by show _ ≤ (svd A).2.1.length; omega, ⟨n, h3, by omega⟩, trunc_of_svd h hA (by omega) (by omega)⟩

theorem pickL_ok {svd : SVD 𝕜} {f : SVDFunc 𝕜} (h : SVDSpec svd) (hf : SVDFuncSpec f) {rank : ℤ}
    (hr : 0 < rank) {relerr : Option ℝ} {A : NDArray 𝕜} {m n : ℕ} (hA : A.shape = [m, n])
    (hm : 0 < m) (hn : 0 < n) : PickOK A m n rank (svdPickL svd f rank relerr m A) := by
  cases relerr with
  | none =>
    obtain ⟨h1, h2, h3, h4, h5, h6, h7⟩ := hf A m n rank.toNat hA hm hn (by omega)
    exact ⟨h1, h3, h4, by show ((f A rank.toNat).2.1.length : ℤ) ≤ rank; omega, ⟨_, h5, le_refl _⟩, le_refl _, ⟨_, h6, le_refl _⟩, h7⟩
  | some e =>
    obtain ⟨h1, h2, h3, -⟩ := h A m n hA
    have hk : (svdPickL svd f rank (some e) m A).2.2.2 = min (min m n) (min rank.toNat (rankRelerr (svd A).2.1 e)) := by
      simp [svdPickL, h3]
    have hp := rankRelerr_pos (svd A).2.1 e
    have hle : (svdPickL svd f rank (some e) m A).2.2.2 ≤ min m n := by rw [hk]; omega
    exact ⟨by rw [hk]; omega, by omega, by omega, by rw [hk]; omega, ⟨m, h1, by omega⟩,
      by show _ ≤ (svd A).2.1.length; omega, ⟨n, h3, by omega⟩, trunc_of_svd h hA (by omega) (by omega)⟩

/-! ### scaling rows and columns -/

theorem mulB_svCol {sv : List ℝ} {v : NDArray 𝕜} {k c n : ℕ} (hv : v.shape = [c, n]) (hc : k ≤ c)
    (hs : k ≤ sv.length) :
    ∃ w, (svCol sv k).mulB (v.rows k) = .ok w ∧ w.shape = [k, n] ∧
      ∀ a < k, ∀ j < n, w.get [a, j] = ((sv.getD a 0 : ℝ) : 𝕜) * v.get [a, j] := by
  have h1 : (svCol sv k : NDArray 𝕜).shape = [k, 1] := by simp [svCol, hs]
  have h2 : (v.rows k).shape = [k, n] := by simp [NDArray.rows, hv, hc]
  have hb : bshape [k, 1] [k, n] = some [k, n] := by
    simp only [bshape, List.reverse_cons, List.reverse_nil, List.nil_append, List.singleton_append,
      bshapeRev, if_true]
    by_cases h : 1 = n
    · simp [h]
    · simp [h]
  unfold NDArray.mulB
  rw [h1, h2, hb]
  refine ⟨_, rfl, rfl, ?_⟩
  intro a ha j hj
  have e1 : (svCol sv k : NDArray 𝕜).get (bidx [k, 1] [a, j]) = ((sv.getD a 0 : ℝ) : 𝕜) := by
    have : bidx [k, 1] [a, j] = [a, 0] := by
      simp only [bidx, List.length_cons, List.length_nil, Nat.sub_self, List.drop_zero, List.zipWith_cons_cons,
        List.zipWith_nil_left, if_true]
      split
      · congr 1; omega
      · rfl
    rw [this]
    simp only [svCol, List.getD_cons_zero]
    rw [getD_take _ _ _ _ ha]
  have e2 : (v.rows k).get (bidx [k, n] [a, j]) = v.get [a, j] := by
    have : bidx [k, n] [a, j] = [a, j] := by
      simp only [bidx, List.length_cons, List.length_nil, Nat.sub_self, List.drop_zero, List.zipWith_cons_cons,
        List.zipWith_nil_left]
      congr 1
      · split <;> omega
      · congr 1
        split <;> omega
    rw [this]; rfl
  show (svCol sv k : NDArray 𝕜).get (bidx [k, 1] [a, j]) * (v.rows k).get (bidx [k, n] [a, j]) = _
  rw [e1, e2]

theorem mulB_svRow {sv : List ℝ} {u : NDArray 𝕜} {k c m : ℕ} (hu : u.shape = [m, c]) (hc : k ≤ c)
    (hs : k ≤ sv.length) :
    ∃ w, (u.cols k).mulB (svRow sv k) = .ok w ∧ w.shape = [m, k] ∧
      ∀ i < m, ∀ a < k, w.get [i, a] = u.get [i, a] * ((sv.getD a 0 : ℝ) : 𝕜) := by
  have h1 : (svRow sv k : NDArray 𝕜).shape = [1, k] := by simp [svRow, hs]
  have h2 : (u.cols k).shape = [m, k] := by simp [NDArray.cols, hu, hc]
  have hb : bshape [m, k] [1, k] = some [m, k] := by
    simp only [bshape, List.reverse_cons, List.reverse_nil, List.nil_append, List.singleton_append,
      bshapeRev, if_true]
    by_cases h : m = 1
    · simp [h]
    · simp [h]
  unfold NDArray.mulB
  rw [h1, h2, hb]
  refine ⟨_, rfl, rfl, ?_⟩
  intro i hi a ha
  have e1 : (svRow sv k : NDArray 𝕜).get (bidx [1, k] [i, a]) = ((sv.getD a 0 : ℝ) : 𝕜) := by
    have : bidx [1, k] [i, a] = [0, a] := by
      simp only [bidx, List.length_cons, List.length_nil, Nat.sub_self, List.drop_zero, List.zipWith_cons_cons,
        List.zipWith_nil_left, if_true]
      split
      · congr 2; omega
      · rfl
    rw [this]
    simp only [svRow, List.getD_cons_zero, List.getD_cons_succ]
    rw [getD_take _ _ _ _ ha]
  have e2 : (u.cols k).get (bidx [m, k] [i, a]) = u.get [i, a] := by
    have : bidx [m, k] [i, a] = [i, a] := by
      simp only [bidx, List.length_cons, List.length_nil, Nat.sub_self, List.drop_zero, List.zipWith_cons_cons,
        List.zipWith_nil_left]
      congr 1
      · split <;> omega
      · congr 1
        split <;> omega
    rw [this]; rfl
  show (u.cols k).get (bidx [m, k] [i, a]) * (svRow sv k : NDArray 𝕜).get (bidx [1, k] [i, a]) = _
  rw [e1, e2]

namespace MPA

omit [RCLike 𝕜] in
theorem lunmat_nat {q : NDArray 𝕜} {l k : ℕ} {P : List ℕ} (hq : q.shape = [(l :: P).prod, k]) :
    ∃ t, q.reshape ((l :: P).map (fun n : ℕ => (n : ℤ)) ++ [(k : ℤ)]) = .ok t ∧ t.shape = l :: (P ++ [k]) ∧
      ∀ i b, InB i (l :: P) → b < k → t.get (i ++ [b]) = q.get [ravelIdx (l :: P) i, b] := by
  refine ⟨q.reshapeTo ((l :: P) ++ [k]), ?_, rfl, ?_⟩
  · have := NDArray.reshape_nat (a := q) (s := (l :: P) ++ [k]) (by rw [hq]; simp [Nat.mul_assoc])
    simpa using this
  · intro i b hi hb
    have := NDArray.reshapeTo_blocks2 (a := q) (S := [(l :: P).prod]) (S' := [k]) (T := l :: P)
      (T' := [k]) (i := i) (j := [b]) hq (by simp) rfl hi (by simpa using hb)
    simp only [ravelIdx_single, unravelIdx_single, List.singleton_append] at this
    exact this

omit [RCLike 𝕜] in
theorem runmat_nat {v : NDArray 𝕜} {r k : ℕ} {P : List ℕ} (hv : v.shape = [k, (P ++ [r]).prod]) :
    ∃ t, v.reshape ((k : ℤ) :: (P ++ [r]).map (fun n : ℕ => (n : ℤ))) = .ok t ∧ t.shape = k :: (P ++ [r]) ∧
      ∀ a j, a < k → InB j (P ++ [r]) → t.get (a :: j) = v.get [a, ravelIdx (P ++ [r]) j] := by
  refine ⟨v.reshapeTo ([k] ++ (P ++ [r])), ?_, rfl, ?_⟩
  · have := NDArray.reshape_nat (a := v) (s := [k] ++ (P ++ [r])) (by rw [hv]; simp)
    simpa using this
  · intro a j ha hj
    have := NDArray.reshapeTo_blocks2 (a := v) (S := [k]) (S' := [(P ++ [r]).prod]) (T := [k])
      (T' := P ++ [r]) (i := [a]) (j := j) hv rfl (by simp) (by simpa using ha) hj
    simp only [ravelIdx_single, unravelIdx_single, List.singleton_append] at this
    exact this

/-- Facts about one step of the sweep to the right. -/
structure StepR (x : MPA 𝕜) (pre post : List (NDArray 𝕜)) (t u t' u' mat : NDArray 𝕜)
    (p : NDArray 𝕜 × List ℝ × NDArray 𝕜 × ℕ) (y : MPA 𝕜) : Prop where
  lt : y.lt = pre ++ t' :: u' :: post
  l : y.l = pre.length + 1
  r : y.r = max ((pre.length : ℤ) + 2) x.r
  goodO : ∀ {a b : ℕ}, x.GoodO a b → y.GoodO a b
  tshape : t'.shape = t.lb :: (t.ph ++ [p.2.2.2])
  ushape : u'.shape = p.2.2.2 :: (u.ph ++ [u.rb])
  lcanon : LCanon t'
  tval : ∀ a < t.lb, ∀ q, InB q t.ph → ∀ b < p.2.2.2,
    t'.at3 a q b = p.1.get [ravelIdx (t.lb :: t.ph) (a :: q), b]
  uval : ∀ b < p.2.2.2, ∀ q, InB q u.ph → ∀ c, u'.at3 b q c
    = ∑ z ∈ range u.lb, ((p.2.1.getD b 0 : ℝ) : 𝕜) * p.2.2.1.get [b, z] * u.at3 z q c
  proj : ∀ b < p.2.2.2, ∀ q, InB q u.ph → ∀ c, u'.at3 b q c
    = ∑ z ∈ range u.lb, (∑ a ∈ range t.lb, sumIdx t.ph fun q' => star (t'.at3 a q' b) * t.at3 a q' z) * u.at3 z q c

theorem svdUpdateR_ok {x : MPA 𝕜} {a₀ b₀ : ℕ} (hx : x.GoodO a₀ b₀) {pre post : List (NDArray 𝕜)} {t u mat : NDArray 𝕜}
    (hlt : x.lt = pre ++ t :: u :: post) (hl : (pre.length : ℤ) ≤ x.l)
    (e3 : ∀ i b, InB i (t.lb :: t.ph) → b < t.rb → mat.get [ravelIdx (t.lb :: t.ph) i, b] = t.get (i ++ [b]))
    {rank : ℤ} {p : NDArray 𝕜 × List ℝ × NDArray 𝕜 × ℕ} (hp : PickOK mat (t.lb :: t.ph).prod t.rb rank p) :
    ∃ t' u' y, svdUpdateR x pre.length t p.1 p.2.1 p.2.2.1 p.2.2.2 = .ok y ∧
      StepR x pre post t u t' u' mat p y := by
  obtain ⟨U, s, V, k⟩ := p
  have hloc := hx.chain.isLocal
  have htm : t ∈ x.lt := by rw [hlt]; simp
  have hum : u ∈ x.lt := by rw [hlt]; simp
  have htl := hloc t htm
  have hul := hloc u hum
  have hch := hx.chain
  have htu : t.rb = u.lb := by
    rw [hlt] at hch
    obtain ⟨_, _, hc2⟩ := chained_append.1 hch
    exact hc2.2.2.2.1.symm
  obtain ⟨cu, hU, hcu⟩ := hp.ushape
  obtain ⟨cv, hV, hcv⟩ := hp.vshape
  have hkpos := hp.pos
  have hkn := hp.le_n
  simp only at hU hcu hV hcv hkpos hkn
  have hUc : (U.cols k).shape = [(t.lb :: t.ph).prod, k] := by simp [NDArray.cols, hU, hcu]
  obtain ⟨t', f1, f2, f3⟩ := lunmat_nat hUc
  obtain ⟨w, w1, w2, w3⟩ := mulB_svCol (sv := s) hV hcv hp.slen
  obtain ⟨u', g1, g2, g3⟩ := matdot_left (m := w) (u := u) (k := k) hul (by rw [← htu]; exact w2)
  have ht'rb : t'.rb = k := NDArray.rb_of_shape f2
  have ht's : t'.shape = t.lb :: (t.ph ++ [t'.rb]) := by rw [ht'rb]; exact f2
  have hu's : u'.shape = t'.rb :: (u.ph ++ [u.rb]) := by rw [ht'rb]; exact g2
  have hlc : LCanon t' := lcanon_of_cols f2 f3 hp.trunc.ucols
  have hupd := update_pair_left (x := x) hlt (NDArray.isLocal_of_shape f2)
    (NDArray.isLocal_of_shape g2) (NDArray.lb_of_shape f2).symm
    ((NDArray.rb_of_shape f2).trans (NDArray.lb_of_shape g2).symm) (NDArray.rb_of_shape g2).symm hl
  have hxlen : (x.len : ℤ) = pre.length + 2 + post.length := by
    simp [MPA.len, hlt]; ring
  have hrle := hx.r_le
  have hlr := hx.l_lt_r
  have hc1 : ∀ {a b : ℕ}, Chained a x.lt b → Chained a (pre ++ t' :: u' :: post) b := by
    intro a b hch
    rw [hlt] at hch
    obtain ⟨m, hc1, h1, h2, h3, h4, h5⟩ := chained_append.1 hch
    exact chained_append.2 ⟨m, hc1, NDArray.isLocal_of_shape f2, (NDArray.lb_of_shape f2).trans h2,
      NDArray.isLocal_of_shape g2, (NDArray.lb_of_shape g2).trans ht'rb.symm, by
        rw [NDArray.rb_of_shape g2]; exact h5⟩
  refine ⟨t', u', ⟨pre ++ t' :: u' :: post, pre.length + 1, max (pre.length + 2) x.r⟩, ?_, ?_⟩
  · unfold svdUpdateR
    have hsite1 : x.site ((pre.length : ℤ) + 1) = .ok u := by
      have := site_ok (x := x) (pre := pre ++ [t]) (post := post) (t := u) (by simp [hlt])
      simpa using this
    have hdl : t.shape.dropLast = t.lb :: t.ph := by
      rw [NDArray.shape_local htl, ← List.cons_append, List.dropLast_concat]
    simp only [hdl]
    rw [f1, ok_bind, w1, ok_bind, hsite1, ok_bind, g1, ok_bind]
    exact hupd
  · have htv : ∀ a < t.lb, ∀ q, InB q t.ph → ∀ b < k,
        t'.at3 a q b = U.get [ravelIdx (t.lb :: t.ph) (a :: q), b] := by
      intro a ha q hq b hb
      have := f3 (a :: q) b (inB_cons' ha hq) hb
      simpa [NDArray.at3, NDArray.cols] using this
    have huv : ∀ b < k, ∀ q, InB q u.ph → ∀ c, u'.at3 b q c
        = ∑ z ∈ range u.lb, ((s.getD b 0 : ℝ) : 𝕜) * V.get [b, z] * u.at3 z q c := by
      intro b hb q hq c
      rw [g3 b q c (inB_length hq)]
      refine Finset.sum_congr rfl fun z hz => ?_
      rw [w3 b hb z (by rw [htu]; simpa using hz)]
    refine ⟨rfl, rfl, rfl, ?_, f2, g2, hlc, htv, huv, ?_⟩
    · intro a b hx
      refine good_pair hx hlt ht's hu's (by omega) (by omega) (by omega) (by omega) ?_ (hc1 hx.chain)
      intro n w hw
      have hcold := hx.canon
      rcases getElem?_mid hw with ⟨h1, h2⟩ | ⟨h1, h2⟩ | ⟨h1, h2⟩ | ⟨h1, h2⟩
      · refine ⟨fun _ => (hcold n w (by rw [hlt]; exact getElem?_pre h2)).1 (by omega), fun h => ?_⟩
        exfalso; omega
      · refine ⟨fun _ => by rw [h2]; exact hlc, fun h => ?_⟩
        exfalso; omega
      · exact ⟨fun h => by exfalso; omega, fun h => by exfalso; omega⟩
      · refine ⟨fun h => by exfalso; omega, fun h => (hcold n w (by rw [hlt]; exact h2 t u)).2 (by omega)⟩
    · intro b hb q hq c
      rw [huv b hb q hq c]
      refine Finset.sum_congr rfl fun z hz => ?_
      have hz : z < t.rb := by rw [htu]; simpa using hz
      rw [← hp.trunc.uA b hb z hz]
      congr 1
      have e2 : (∑ a ∈ range t.lb, sumIdx t.ph fun q' => star (t'.at3 a q' b) * t.at3 a q' z)
          = sumIdx (t.lb :: t.ph) fun i => star (t'.get (i ++ [b])) * t.get (i ++ [z]) := rfl
      rw [e2, ← sumIdx_ravel (t.lb :: t.ph) (fun i => star (U.get [i, b]) * mat.get [i, z])]
      exact sumIdx_congr fun i hi => by
        simp only [f3 i b hi hb, e3 i z hi hz]; rfl

theorem StepR.good {x : MPA 𝕜} {pre post : List (NDArray 𝕜)} {t u t' u' mat : NDArray 𝕜}
    {p : NDArray 𝕜 × List ℝ × NDArray 𝕜 × ℕ} {y : MPA 𝕜} (h : StepR x pre post t u t' u' mat p y) (hx : x.Good) :
    y.Good := (h.goodO hx.toO).toGood

/-- Facts about one step of the sweep to the left. -/
structure StepL (x : MPA 𝕜) (pre post : List (NDArray 𝕜)) (t u t' u' mat : NDArray 𝕜)
    (p : NDArray 𝕜 × List ℝ × NDArray 𝕜 × ℕ) (y : MPA 𝕜) : Prop where
  lt : y.lt = pre ++ t' :: u' :: post
  l : y.l = min (pre.length : ℤ) x.l
  r : y.r = pre.length + 1
  goodO : ∀ {a b : ℕ}, x.GoodO a b → y.GoodO a b
  tshape : t'.shape = t.lb :: (t.ph ++ [p.2.2.2])
  ushape : u'.shape = p.2.2.2 :: (u.ph ++ [u.rb])
  rcanon : RCanon u'
  tval : ∀ a, ∀ q, InB q t.ph → ∀ b < p.2.2.2, t'.at3 a q b
    = ∑ z ∈ range t.rb, t.at3 a q z * (p.1.get [z, b] * ((p.2.1.getD b 0 : ℝ) : 𝕜))
  uval : ∀ b < p.2.2.2, ∀ q, InB q u.ph → ∀ c < u.rb,
    u'.at3 b q c = p.2.2.1.get [b, ravelIdx (u.ph ++ [u.rb]) (q ++ [c])]
  proj : ∀ a, ∀ q, InB q t.ph → ∀ b < p.2.2.2, t'.at3 a q b
    = ∑ z ∈ range t.rb, t.at3 a q z * (∑ c ∈ range u.rb, sumIdx u.ph fun q' => u.at3 z q' c * star (u'.at3 b q' c))

theorem svdUpdateL_ok {x : MPA 𝕜} {a₀ b₀ : ℕ} (hx : x.GoodO a₀ b₀) {pre post : List (NDArray 𝕜)} {t u mat : NDArray 𝕜}
    (hlt : x.lt = pre ++ t :: u :: post) (hr : x.r ≤ (pre.length : ℤ) + 2)
    (e3 : ∀ a j, a < u.lb → InB j (u.ph ++ [u.rb]) → mat.get [a, ravelIdx (u.ph ++ [u.rb]) j] = u.get (a :: j))
    {rank : ℤ} {p : NDArray 𝕜 × List ℝ × NDArray 𝕜 × ℕ} (hp : PickOK mat u.lb (u.ph ++ [u.rb]).prod rank p) :
    ∃ t' u' y, svdUpdateL x ((pre.length : ℤ) + 1) u p.1 p.2.1 p.2.2.1 p.2.2.2 = .ok y ∧
      StepL x pre post t u t' u' mat p y := by
  obtain ⟨U, s, V, k⟩ := p
  have hloc := hx.chain.isLocal
  have htm : t ∈ x.lt := by rw [hlt]; simp
  have hum : u ∈ x.lt := by rw [hlt]; simp
  have htl := hloc t htm
  have hul := hloc u hum
  have hch := hx.chain
  have htu : t.rb = u.lb := by
    rw [hlt] at hch
    obtain ⟨_, _, hc2⟩ := chained_append.1 hch
    exact hc2.2.2.2.1.symm
  obtain ⟨cu, hU, hcu⟩ := hp.ushape
  obtain ⟨cv, hV, hcv⟩ := hp.vshape
  have hkpos := hp.pos
  have hkn := hp.le_m
  simp only at hU hcu hV hcv hkpos hkn
  have hVc : (V.rows k).shape = [k, (u.ph ++ [u.rb]).prod] := by simp [NDArray.rows, hV, hcv]
  obtain ⟨u', f1, f2, f3⟩ := runmat_nat hVc
  obtain ⟨w, w1, w2, w3⟩ := mulB_svRow (sv := s) hU hcu hp.slen
  obtain ⟨t', g1, g2, g3⟩ := matdot_right (m := w) (u := t) (k := k) htl (by rw [htu]; exact w2)
  have ht'rb : t'.rb = k := NDArray.rb_of_shape g2
  have ht's : t'.shape = t.lb :: (t.ph ++ [t'.rb]) := by rw [ht'rb]; exact g2
  have hu's : u'.shape = t'.rb :: (u.ph ++ [u.rb]) := by rw [ht'rb]; exact f2
  have hrc : RCanon u' := rcanon_of_rows f2 f3 hp.trunc.vrows
  have hupd := update_pair_right (x := x) hlt (NDArray.isLocal_of_shape g2)
    (NDArray.isLocal_of_shape f2) (NDArray.lb_of_shape g2).symm
    ((NDArray.rb_of_shape g2).trans (NDArray.lb_of_shape f2).symm) (NDArray.rb_of_shape f2).symm hr
  have hxlen : (x.len : ℤ) = pre.length + 2 + post.length := by
    simp [MPA.len, hlt]; ring
  have hl0 := hx.l_nonneg
  have hlr := hx.l_lt_r
  have hc1 : ∀ {a b : ℕ}, Chained a x.lt b → Chained a (pre ++ t' :: u' :: post) b := by
    intro a b hch
    rw [hlt] at hch
    obtain ⟨m, hc1, h1, h2, h3, h4, h5⟩ := chained_append.1 hch
    exact chained_append.2 ⟨m, hc1, NDArray.isLocal_of_shape g2, (NDArray.lb_of_shape g2).trans h2,
      NDArray.isLocal_of_shape f2, (NDArray.lb_of_shape f2).trans ht'rb.symm, by
        rw [NDArray.rb_of_shape f2]; exact h5⟩
  refine ⟨t', u', ⟨pre ++ t' :: u' :: post, min pre.length x.l, pre.length + 1⟩, ?_, ?_⟩
  · unfold svdUpdateL
    have hsite1 : x.site ((pre.length : ℤ) + 1 - 1) = .ok t := by
      rw [add_sub_cancel_right]; exact site_ok (x := x) hlt
    have hdl : u.shape.tail = u.ph ++ [u.rb] := by rw [NDArray.shape_local hul]; rfl
    simp only [hdl]
    rw [hsite1, ok_bind, w1, ok_bind, g1, ok_bind, f1, ok_bind]
    rw [add_sub_cancel_right, add_assoc, show (1 : ℤ) + 1 = 2 from rfl]
    exact hupd
  · have huv : ∀ b < k, ∀ q, InB q u.ph → ∀ c < u.rb,
        u'.at3 b q c = V.get [b, ravelIdx (u.ph ++ [u.rb]) (q ++ [c])] := by
      intro b hb q hq c hc
      exact f3 b (q ++ [c]) hb (inB_append hq (by simpa using hc))
    have htv : ∀ a, ∀ q, InB q t.ph → ∀ b < k, t'.at3 a q b
        = ∑ z ∈ range t.rb, t.at3 a q z * (U.get [z, b] * ((s.getD b 0 : ℝ) : 𝕜)) := by
      intro a q hq b hb
      rw [g3 a q b (inB_length hq)]
      refine Finset.sum_congr rfl fun z hz => ?_
      rw [w3 z (by rw [← htu]; simpa using hz) b hb]
    refine ⟨rfl, rfl, rfl, ?_, g2, f2, hrc, htv, huv, ?_⟩
    · intro a b hx
      refine good_pair hx hlt ht's hu's (by omega) (by omega) (by omega) (by omega) ?_ (hc1 hx.chain)
      intro n w hw
      have hcold := hx.canon
      rcases getElem?_mid hw with ⟨h1, h2⟩ | ⟨h1, h2⟩ | ⟨h1, h2⟩ | ⟨h1, h2⟩
      · refine ⟨fun h => (hcold n w (by rw [hlt]; exact getElem?_pre h2)).1 (by omega), fun h => ?_⟩
        exfalso; omega
      · exact ⟨fun h => by exfalso; omega, fun h => by exfalso; omega⟩
      · refine ⟨fun h => by exfalso; omega, fun _ => by rw [h2]; exact hrc⟩
      · refine ⟨fun h => by exfalso; omega, fun h => (hcold n w (by rw [hlt]; exact h2 t u)).2 (by omega)⟩
    · intro a q hq b hb
      rw [htv a q hq b hb]
      refine Finset.sum_congr rfl fun z hz => ?_
      have hz : z < u.lb := by rw [← htu]; simpa using hz
      rw [← hp.trunc.Av z hz b hb]
      congr 1
      have e2 : (∑ c ∈ range u.rb, sumIdx u.ph fun q' => u.at3 z q' c * star (u'.at3 b q' c))
          = sumIdx (u.ph ++ [u.rb]) fun j => u.get (z :: j) * star (u'.get (b :: j)) := by
        rw [sumIdx_append, ← sumIdx_sum_comm]
        rfl
      rw [e2, ← sumIdx_ravel (u.ph ++ [u.rb]) (fun i => mat.get [z, i] * star (V.get [b, i]))]
      exact sumIdx_congr fun i hi => by
        simp only [f3 b i hb hi, e3 z i hz hi]; rfl

theorem StepL.good {x : MPA 𝕜} {pre post : List (NDArray 𝕜)} {t u t' u' mat : NDArray 𝕜}
    {p : NDArray 𝕜 × List ℝ × NDArray 𝕜 × ℕ} {y : MPA 𝕜} (h : StepL x pre post t u t' u' mat p y) (hx : x.Good) :
    y.Good := (h.goodO hx.toO).toGood

end MPA

end Mpnum
