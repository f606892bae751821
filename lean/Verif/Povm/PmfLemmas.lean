import Verif.Povm.PovmSpec

/-! # Contraction of an MP-POVM with a PMPS from left to right -/

open Finset

namespace Mpnum

variable {R : Type}

theorem sum_split_abc [CommSemiring R] {α β γ δ ε ζ η θ κ : Type*} (SI : Finset α) (SJ : Finset β) (SK : Finset γ)
    (Ti : Finset δ) (Tj : Finset ε) (Tk : Finset ζ) (B : Finset η) (A : Finset θ) (A' : Finset κ)
    (f : η → α → β → R) (g : θ → β → γ → R) (h : κ → α → γ → R)
    (m : η → δ → ε → R) (t : θ → ε → ζ → R) (u : κ → δ → ζ → R) :
    (∑ I ∈ SI, ∑ i ∈ Ti, ∑ J ∈ SJ, ∑ j ∈ Tj, ∑ K ∈ SK, ∑ k ∈ Tk,
      (∑ b ∈ B, f b I J * m b i j) * ((∑ a ∈ A, g a J K * t a j k) * (∑ a' ∈ A', h a' I K * u a' i k)))
    = ∑ b ∈ B, ∑ a ∈ A, ∑ a' ∈ A', (∑ I ∈ SI, ∑ J ∈ SJ, ∑ K ∈ SK, f b I J * (g a J K * h a' I K))
        * (∑ i ∈ Ti, ∑ j ∈ Tj, ∑ k ∈ Tk, m b i j * (t a j k * u a' i k)) := by
  simp only [sum_mul, mul_sum]
  simp only [← sum_product']
  refine sum_nbij' (fun ⟨I, i, J, j, K, k, a', a, b⟩ => ⟨b, a, a', i, j, k, I, J, K⟩)
    (fun ⟨b, a, a', i, j, k, I, J, K⟩ => ⟨I, i, J, j, K, k, a', a, b⟩) ?_ ?_ ?_ ?_ ?_
  · rintro ⟨I, i, J, j, K, k, a', a, b⟩ h
    simp only [mem_product] at h ⊢
    tauto
  · rintro ⟨b, a, a', i, j, k, I, J, K⟩ h
    simp only [mem_product] at h ⊢
    tauto
  · rintro ⟨I, i, J, j, K, k, a', a, b⟩ _
    rfl
  · rintro ⟨b, a, a', i, j, k, I, J, K⟩ _
    rfl
  · rintro ⟨I, i, J, j, K, k, a', a, b⟩ _
    simp only
    ring

section
variable [CommRing R] [StarRing R]

/-- The network of an MP-POVM and a PMPS on some sites, for the outcome `Y`; `b`, `a` and `a'` are the indices of
the legs at both ends. -/
def env (ms ts : List (NDArray R)) (D A Y : List ℕ) (b0 a0 a0' b a a' : ℕ) : R :=
  sumIdx D fun I => sumIdx D fun J => sumIdx A fun K =>
    mp ms (triples Y I J) b0 b * (mp ts (pairs J K) a0 a * star (mp ts (pairs I K) a0' a'))

theorem env_append {ms ms' ts ts' : List (NDArray R)} {D A Y D' A' Y' : List ℕ} {l r p s : ℕ}
    (hm : Chained l ms r) (ht : Chained p ts s) (h1 : ms.length = D.length) (h2 : ts.length = D.length)
    (h3 : A.length = D.length) (h4 : Y.length = D.length)
    {b0 a0 a0' b a a' : ℕ} (hb0 : b0 < l) (ha0 : a0 < p) (ha0' : a0' < p) :
    env (ms ++ ms') (ts ++ ts') (D ++ D') (A ++ A') (Y ++ Y') b0 a0 a0' b a a'
      = ∑ b1 ∈ range r, ∑ a1 ∈ range s, ∑ a1' ∈ range s,
          env ms ts D A Y b0 a0 a0' b1 a1 a1' * env ms' ts' D' A' Y' b1 a1 a1' b a a' := by
  unfold env
  simp only [sumIdx_append]
  have key := sum_split_abc (idxSet D) (idxSet D) (idxSet A) (idxSet D') (idxSet D') (idxSet A') (range r) (range s) (range s)
    (fun b1 I J => mp ms (triples Y I J) b0 b1) (fun a1 J K => mp ts (pairs J K) a0 a1)
    (fun a1 I K => star (mp ts (pairs I K) a0' a1)) (fun b1 i j => mp ms' (triples Y' i j) b1 b)
    (fun a1 j k => mp ts' (pairs j k) a1 a) (fun a1 i k => star (mp ts' (pairs i k) a1 a'))
  simp only [sumIdx_eq_sum]
  rw [← key]
  refine sum_congr rfl fun I hI => sum_congr rfl fun i hi => sum_congr rfl fun J hJ => sum_congr rfl fun j hj =>
    sum_congr rfl fun K hK => sum_congr rfl fun k hk => ?_
  have lI := inB_length (mem_idxSet.1 hI)
  have lJ := inB_length (mem_idxSet.1 hJ)
  have lK := inB_length (mem_idxSet.1 hK)
  rw [triples_append (by omega) (by omega), pairs_append (by omega), pairs_append (by omega),
    mp_append hm (by rw [triples_length] <;> omega) hb0, mp_append ht (by simp; omega) ha0,
    mp_append ht (by simp; omega) ha0', star_sum]
  congr 2
  exact sum_congr rfl fun c _ => by rw [star_mul, mul_comm]

theorem env_site {m t : NDArray R} {d k y b0 a0 a0' b a a' : ℕ} (hb : b < m.rb) (ha : a < t.rb) (ha' : a' < t.rb) :
    env [m] [t] [d] [k] [y] b0 a0 a0' b a a' = ∑ i ∈ range d, ∑ j ∈ range d, ∑ κ ∈ range k,
      m.get [b0, y, i, j, b] * (t.get [a0, j, κ, a] * star (t.get [a0', i, κ, a'])) := by
  unfold env
  simp only [sumIdx_cons, sumIdx_nil]
  refine sum_congr rfl fun i _ => sum_congr rfl fun j _ => sum_congr rfl fun κ _ => ?_
  rw [triples_cons, triples_nil, show pairs [j] [κ] = [[j, κ]] from rfl, show pairs [i] [κ] = [[i, κ]] from rfl,
    mp_single hb, mp_single ha, mp_single ha']
  rfl

/-! ### one step -/

theorem pmf_td1 {a b : NDArray R} {P u v w d k z : ℕ} (ha : a.shape = [P, u, v, w]) (hb : b.shape = [v, d, k, z]) :
    ∃ c, a.tensordot b [2] [0] = .ok c ∧ c.shape = [P, u, w, d, k, z] ∧
      ∀ p x y i m q, c.get [p, x, y, i, m, q] = ∑ e ∈ range v, a.get [p, x, e, y] * b.get [e, i, m, q] := by
  obtain ⟨sa, ga⟩ := a
  obtain ⟨sb, gb⟩ := b
  simp only at ha hb
  subst ha; subst hb
  exact ⟨_, NDArray.tensordot_ok (axa := [2]) (axb := [0]) (by simp [NDArray.ndim]) (by simp [NDArray.ndim]) (by simp)
    (by simp) (by simp), rfl, fun _ _ _ _ _ _ => rfl⟩

theorem pmf_td2 {a b : NDArray R} {P u w d k z d' z' : ℕ} (ha : a.shape = [P, u, w, d, k, z]) (hb : b.shape = [w, d', k, z']) :
    ∃ c, a.tensordot b [2, 4] [0, 2] = .ok c ∧ c.shape = [P, u, d, z, d', z'] ∧
      ∀ p x i q j q', c.get [p, x, i, q, j, q']
        = ∑ e ∈ range w, ∑ m ∈ range k, a.get [p, x, e, i, m, q] * b.get [e, j, m, q'] := by
  obtain ⟨sa, ga⟩ := a
  obtain ⟨sb, gb⟩ := b
  simp only at ha hb
  subst ha; subst hb
  exact ⟨_, NDArray.tensordot_ok (axa := [2, 4]) (axb := [0, 2]) (by simp [NDArray.ndim]) (by simp [NDArray.ndim]) (by simp)
    (by simp) (by simp), rfl, fun _ _ _ _ _ _ => rfl⟩

theorem pmf_td3 {a b : NDArray R} {P u d z d' z' o u' : ℕ} (ha : a.shape = [P, u, d, z, d', z'])
    (hb : b.shape = [u, o, d', d, u']) :
    ∃ c, a.tensordot b [1, 2, 4] [0, 3, 2] = .ok c ∧ c.shape = [P, z, z', o, u'] ∧
      ∀ p q q' y x', c.get [p, q, q', y, x']
        = ∑ x ∈ range u, ∑ j ∈ range d, ∑ i ∈ range d', a.get [p, x, j, q, i, q'] * b.get [x, y, i, j, x'] := by
  obtain ⟨sa, ga⟩ := a
  obtain ⟨sb, gb⟩ := b
  simp only at ha hb
  subst ha; subst hb
  exact ⟨_, NDArray.tensordot_ok (axa := [1, 2, 4]) (axb := [0, 3, 2]) (by simp [NDArray.ndim]) (by simp [NDArray.ndim]) (by simp)
    (by simp) (by simp), rfl, fun _ _ _ _ _ => rfl⟩

theorem pmf_tr {a : NDArray R} {P z z' o u : ℕ} (ha : a.shape = [P, z, z', o, u]) :
    ∃ c, a.transpose [0, 3, 4, 1, 2] = .ok c ∧ c.shape = [P, o, u, z, z'] ∧
      ∀ p y x q q', c.get [p, y, x, q, q'] = a.get [p, q, q', y, x] := by
  obtain ⟨sa, ga⟩ := a
  simp only at ha
  subst ha
  exact ⟨_, NDArray.transpose_ok (perm := [0, 3, 4, 1, 2]) (by decide : [0, 3, 4, 1, 2].Perm (List.range 5)), rfl, fun _ _ _ _ _ => rfl⟩

theorem pmfStep_ok {p m t : NDArray R} {P r s o d k r' s' : ℕ} (hp : p.shape = [P, r, s, s])
    (hm : m.shape = [r, o, d, d, r']) (ht : t.shape = [s, d, k, s']) :
    ∃ c, pmfStep p (m, t) = .ok c ∧ c.shape = [P * o, r', s', s'] ∧
      ∀ q < P, ∀ y < o, ∀ b < r', ∀ a < s', ∀ a' < s', c.get [q * o + y, b, a, a']
        = ∑ b0 ∈ range r, ∑ a0 ∈ range s, ∑ a0' ∈ range s, p.get [q, b0, a0, a0'] * ∑ i ∈ range d, ∑ j ∈ range d, ∑ κ ∈ range k,
            m.get [b0, y, i, j, b] * (t.get [a0, j, κ, a] * star (t.get [a0', i, κ, a'])) := by
  obtain ⟨c1, h1, h2, h3⟩ := pmf_td1 hp ht
  obtain ⟨c2, g1, g2, g3⟩ := pmf_td2 (b := t.conj) h2 ht
  obtain ⟨c3, k1, k2, k3⟩ := pmf_td3 g2 hm
  obtain ⟨c4, f1, f2, f3⟩ := pmf_tr k2
  have hres : c4.reshape [((c4.shape.getD 0 0 * c4.shape.getD 1 0 : ℕ) : ℤ), ((c4.shape.getD 2 0 : ℕ) : ℤ),
      ((c4.shape.getD 3 0 : ℕ) : ℤ), ((c4.shape.getD 4 0 : ℕ) : ℤ)] = .ok (c4.reshapeTo [P * o, r', s', s']) := by
    have := NDArray.reshape_nat (a := c4) (s := [P * o, r', s', s']) (by rw [f2]; simp; ring)
    rw [f2]
    simpa using this
  refine ⟨c4.reshapeTo [P * o, r', s', s'], ?_, rfl, ?_⟩
  · unfold pmfStep
    simp only
    rw [h1, ok_bind, g1, ok_bind, k1, ok_bind, f1, ok_bind, hres]
  · intro q hq y hy b hb a ha a' ha'
    have e := NDArray.reshapeTo_blocks2 (a := c4) (S := [P, o]) (S' := [r', s', s']) (T := [P * o]) (T' := [r', s', s'])
      (i := [q * o + y]) (j := [b, a, a']) f2 (by simp) rfl
      (by
        have h2 : q * o + y < P * o := by nlinarith
        simpa using h2)
      (by simp [ha, hb, ha'])
    have e1 : unravelIdx [P, o] (ravelIdx [P * o] [q * o + y]) = [q, y] := by
      have := unravel_ravel (i := [q, y]) (s := [P, o]) (by simp [hq, hy])
      rw [← this]
      congr 1
      simp
    have e2 : unravelIdx [r', s', s'] (ravelIdx [r', s', s'] [b, a, a']) = [b, a, a'] := unravel_ravel (by simp [ha, hb, ha'])
    rw [e1, e2] at e
    simp only [List.cons_append, List.nil_append] at e
    rw [e, f3, k3]
    refine sum_congr rfl fun b0 _ => ?_
    simp only [g3, h3, sum_mul, mul_sum]
    simp only [← sum_product']
    refine sum_nbij' (fun ⟨j, i, e', κ, e⟩ => ⟨e, e', i, j, κ⟩)
      (fun ⟨e, e', i, j, κ⟩ => ⟨j, i, e', κ, e⟩) ?_ ?_ ?_ ?_ ?_
    · rintro ⟨j, i, e', κ, e⟩ h
      simp only [mem_product] at h ⊢
      tauto
    · rintro ⟨e, e', i, j, κ⟩ h
      simp only [mem_product] at h ⊢
      tauto
    · rintro ⟨j, i, e', κ, e⟩ _; rfl
    · rintro ⟨e, e', i, j, κ⟩ _; rfl
    · rintro ⟨j, i, e', κ, e⟩ _
      simp only [NDArray.conj]
      ring

/-- `p` is the partial result for the sites `ms`, `ts`. -/
def LtrRep (ms ts : List (NDArray R)) (O D A : List ℕ) (r s : ℕ) (p : NDArray R) : Prop :=
  p.shape = [O.prod, r, s, s] ∧
  ∀ Y, InB Y O → ∀ b < r, ∀ a < s, ∀ a' < s, p.get [ravelIdx O Y, b, a, a'] = env ms ts D A Y 0 0 0 b a a'

/-- Sites of an MP-POVM and a PMPS which fit to each other. -/
structure NetOK (ms ts : List (NDArray R)) (O D A : List ℕ) (l r p s : ℕ) : Prop where
  chm : Chained l ms r
  cht : Chained p ts s
  shm : physShape ms = triples O D D
  sht : physShape ts = pairs D A
  lenO : O.length = D.length
  lenA : A.length = D.length

theorem NetOK.len {ms ts : List (NDArray R)} {O D A : List ℕ} {l r p s : ℕ} (h : NetOK ms ts O D A l r p s) :
    ms.length = D.length ∧ ts.length = D.length := by
  have h1 := congrArg List.length h.shm
  have h2 := congrArg List.length h.sht
  have := h.lenO
  have := h.lenA
  simp [physShape, triples] at h1 h2
  omega

theorem ltrRep_step {ms ts : List (NDArray R)} {O D A : List ℕ} {m t p : NDArray R} {o d k : ℕ}
    (hn : NetOK ms ts O D A 1 m.lb 1 t.lb) (hrep : LtrRep ms ts O D A m.lb t.lb p)
    (hm : m.IsLocal) (hmp : m.ph = [o, d, d]) (ht : t.IsLocal) (htp : t.ph = [d, k]) :
    ∃ c, pmfStep p (m, t) = .ok c ∧ LtrRep (ms ++ [m]) (ts ++ [t]) (O ++ [o]) (D ++ [d]) (A ++ [k]) m.rb t.rb c := by
  have hms : m.shape = [m.lb, o, d, d, m.rb] := by rw [NDArray.shape_local hm, hmp]; rfl
  have hts : t.shape = [t.lb, d, k, t.rb] := by rw [NDArray.shape_local ht, htp]; rfl
  obtain ⟨c, h1, h2, h3⟩ := pmfStep_ok hrep.1 hms hts
  refine ⟨c, h1, ?_, ?_⟩
  · rw [h2]; simp
  · intro Y hY b hb a ha a' ha'
    obtain ⟨Y, Y', rfl, hY1, hY'⟩ := inB_append_split hY
    obtain ⟨y, _, rfl, hy, hY'⟩ := inB_cons_split hY'
    rw [inB_nil_right] at hY'; subst hY'
    have hl := inB_length hY1
    have := hn.len
    have := hn.lenO
    rw [ravelIdx_append _ _ hl, show ravelIdx [o] [y] = y by simp, show [o].prod = o by simp,
      h3 _ (ravelIdx_lt hY1) y hy b hb a ha a' ha',
      env_append hn.chm hn.cht (by omega) (by omega) hn.lenA (by omega) one_pos one_pos one_pos]
    refine sum_congr rfl fun b0 hb0 => sum_congr rfl fun a0 ha0 => sum_congr rfl fun a0' ha0' => ?_
    rw [hrep.2 Y hY1 _ (mem_range.1 hb0) _ (mem_range.1 ha0) _ (mem_range.1 ha0'), env_site hb ha ha']

theorem NetOK.append {ms ts ms' ts' : List (NDArray R)} {O D A O' D' A' : List ℕ} {l r p s r' s' : ℕ}
    (h : NetOK ms ts O D A l r p s) (h' : NetOK ms' ts' O' D' A' r r' s s') :
    NetOK (ms ++ ms') (ts ++ ts') (O ++ O') (D ++ D') (A ++ A') l r' p s' := by
  refine ⟨chained_append.2 ⟨r, h.chm, h'.chm⟩, chained_append.2 ⟨s, h.cht, h'.cht⟩, ?_, ?_, ?_, ?_⟩
  · rw [triples_append h.lenO rfl, ← h.shm, ← h'.shm]; simp [physShape]
  · rw [pairs_append h.lenA.symm, ← h.sht, ← h'.sht]; simp [physShape]
  · simp [h.lenO, h'.lenO]
  · simp [h.lenA, h'.lenA]

theorem ltrRep_fold : ∀ {ms' ts' ms ts : List (NDArray R)} {O D A O' D' A' : List ℕ} {r s r' s' : ℕ} {p : NDArray R}
    (_ : NetOK ms ts O D A 1 r 1 s) (_ : LtrRep ms ts O D A r s p) (_ : NetOK ms' ts' O' D' A' r r' s s'),
    ∃ c, (ms'.zip ts').foldlM pmfStep p = .ok c ∧ LtrRep (ms ++ ms') (ts ++ ts') (O ++ O') (D ++ D') (A ++ A') r' s' c
  | [], ts', ms, ts, O, D, A, O', D', A', r, s, r', s', p, h, hrep, h' => by
    have hl := h'.len
    have hD : D' = [] := List.length_eq_zero_iff.1 (by simpa using hl.1.symm)
    subst hD
    have hO : O' = [] := List.length_eq_zero_iff.1 h'.lenO
    have hA : A' = [] := List.length_eq_zero_iff.1 h'.lenA
    have ht : ts' = [] := List.length_eq_zero_iff.1 (by simpa using hl.2)
    subst hO hA ht
    have c1 := h'.chm
    have c2 := h'.cht
    rw [chained_nil] at c1 c2
    subst c1 c2
    exact ⟨p, rfl, by simpa using hrep⟩
  | m :: ms', ts', ms, ts, O, D, A, O', D', A', r, s, r', s', p, h, hrep, h' => by
    have hl := h'.len
    have hlO := h'.lenO
    have hlA := h'.lenA
    obtain ⟨d, D', rfl⟩ : ∃ d D'', D' = d :: D'' := by
      cases D' with
      | nil => simp at hl
      | cons d D' => exact ⟨d, D', rfl⟩
    obtain ⟨o, O', rfl⟩ : ∃ d D'', O' = d :: D'' := by
      cases O' with
      | nil => simp at hlO
      | cons d D' => exact ⟨d, D', rfl⟩
    obtain ⟨k, A', rfl⟩ : ∃ d D'', A' = d :: D'' := by
      cases A' with
      | nil => simp at hlA
      | cons d D' => exact ⟨d, D', rfl⟩
    obtain ⟨t, ts', rfl⟩ : ∃ d D'', ts' = d :: D'' := by
      cases ts' with
      | nil => simp at hl
      | cons d D' => exact ⟨d, D', rfl⟩
    obtain ⟨m1, m2, m3⟩ := h'.chm
    obtain ⟨t1, t2, t3⟩ := h'.cht
    have hsm := h'.shm
    have hst := h'.sht
    simp only [physShape, List.map_cons, triples_cons, List.cons.injEq, pairs, List.zipWith_cons_cons] at hsm hst
    subst m2 t2
    obtain ⟨c, g1, g2⟩ := ltrRep_step h hrep m1 hsm.1 t1 hst.1
    have hone : NetOK [m] [t] [o] [d] [k] m.lb m.rb t.lb t.rb :=
      ⟨⟨m1, rfl, rfl⟩, ⟨t1, rfl, rfl⟩, by simp [physShape, hsm.1], by simp [physShape, hst.1], rfl, rfl⟩
    obtain ⟨c', k1, k2⟩ := ltrRep_fold (h.append hone) g2 (⟨m3, t3, hsm.2, hst.2, by simpa using hlO, by simpa using hlA⟩ : NetOK ms' ts' O' D' A' m.rb r' t.rb s')
    refine ⟨c', ?_, by simpa using k2⟩
    rw [List.zip_cons_cons, List.foldlM_cons, g1]
    exact k1

theorem ltr_initial : NetOK (R := R) [] [] [] [] [] 1 1 1 1 ∧ LtrRep (R := R) [] [] [] [] [] 1 1 ⟨[1, 1, 1, 1], fun _ => 1⟩ := by
  refine ⟨⟨by simp, by simp, rfl, rfl, rfl, rfl⟩, rfl, ?_⟩
  intro Y hY b hb a ha a' ha'
  rw [inB_nil_right] at hY
  subst hY
  obtain rfl : a = 0 := by omega
  obtain rfl : b = 0 := by omega
  obtain rfl : a' = 0 := by omega
  simp [env, pairs]

theorem zip_take_eq {α β : Type} : ∀ (as : List α) (bs : List β), as.zip bs = as.zip (bs.take as.length)
  | [], bs => by simp
  | a :: as, [] => by simp
  | a :: as, b :: bs => by simp [zip_take_eq as bs]

theorem pmfLtrPartial_ok {x st : MPA R} {ts : List (NDArray R)} {O D A : List ℕ} {r s : ℕ} (hst : ts = st.lt.take x.lt.length)
    (h : NetOK x.lt ts O D A 1 r 1 s) :
    ∃ c, pmfLtrPartial x st = .ok c ∧ LtrRep x.lt ts O D A r s c := by
  obtain ⟨c, h1, h2⟩ := ltrRep_fold ltr_initial.1 ltr_initial.2 h
  refine ⟨c, ?_, by simpa using h2⟩
  unfold pmfLtrPartial
  rw [zip_take_eq, ← hst, h1]

end

end Mpnum
