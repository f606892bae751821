import Verif.Props.C33

/-! # C34: `reductions_mpo` -/

open Finset

namespace Mpnum

variable {R : Type}

/-- Specification: `x` is an MPO with the local dimensions `D`. -/
structure IsMpo (x : MPA R) (D : List ℕ) : Prop where
  valid : x.Valid
  shape : x.shape = pairs D D

/-- Specification: the partial trace of an operator with the local dimensions `P ++ W ++ Q` over the first and
last sites `P`, `Q`. -/
def margOp [AddCommMonoid R] (f : List ℕ → List ℕ → R) (P Q I J : List ℕ) : R :=
  sumIdx P fun L => sumIdx Q fun M => f (L ++ I ++ M) (L ++ J ++ M)

theorem IsMpo.len {x : MPA R} {D : List ℕ} (h : IsMpo x D) : x.lt.length = D.length := by
  have := congrArg List.length h.shape
  simpa [MPA.shape] using this

theorem chained_right_unique {ts : List (NDArray R)} {l a b : ℕ} (h : Chained l ts a) (h' : Chained l ts b) : a = b := by
  induction ts generalizing l with
  | nil => rw [chained_nil] at h h'; omega
  | cons t ts ih => exact ih h.2.2 h'.2.2

theorem chained_left_unique {ts : List (NDArray R)} {a b r : ℕ} (h : Chained a ts r) (h' : Chained b ts r) : a = b := by
  cases ts with
  | nil => rw [chained_nil] at h h'; omega
  | cons t ts => exact h.2.1.symm.trans h'.2.1

theorem trace_mat [AddCommMonoid R] {t : NDArray R} {l d r : ℕ} (ht : t.shape = [l, d, d, r]) :
    ∃ u, t.trace 1 2 = .ok u ∧ u.shape = [l, r] ∧ ∀ a b, u.get [a, b] = ∑ i ∈ range d, t.get [a, i, i, b] := by
  obtain ⟨s, g⟩ := t
  simp only at ht
  subst ht
  refine ⟨NDArray.traceTo _ 1 2, rfl, rfl, fun a b => ?_⟩
  show ∑ i ∈ range (min d d), _ = _
  rw [min_self]
  rfl

section
variable [CommRing R]

/-- The trace over the first `n` sites. -/
def LeftEnv (x : MPA R) (D : List ℕ) (n : ℕ) (r : NDArray R) : Prop :=
  ∃ l, Chained 1 (x.lt.take n) l ∧ r.shape = [1, l] ∧
    ∀ b < l, r.get [0, b] = sumIdx (D.take n) fun L => mp (x.lt.take n) (pairs L L) 0 b

/-- The trace over the last `n` sites. -/
def RightEnv (x : MPA R) (D : List ℕ) (n : ℕ) (r : NDArray R) : Prop :=
  ∃ l, Chained l (x.lt.drop (x.lt.length - n)) 1 ∧ r.shape = [l, 1] ∧
    ∀ a < l, r.get [a, 0] = sumIdx (D.drop (x.lt.length - n)) fun L => mp (x.lt.drop (x.lt.length - n)) (pairs L L) a 0

def CacheOK (P : ℕ → NDArray R → Prop) (c : RemCache R) : Prop := c 0 ≠ none ∧ ∀ n r, c n = some r → P n r

theorem mpo_site {x : MPA R} {D : List ℕ} (hx : IsMpo x D) {n : ℕ} (hn : n < x.lt.length) :
    ∃ d, D.drop n = d :: D.drop (n + 1) ∧ D.take (n + 1) = D.take n ++ [d] ∧
      x.lt[n].shape = [x.lt[n].lb, d, d, x.lt[n].rb] := by
  have hn' : n < D.length := hx.len ▸ hn
  refine ⟨D[n], List.drop_eq_getElem_cons hn', by rw [List.take_succ_eq_append_getElem hn'], ?_⟩
  have h := NDArray.shape_local (hx.valid.chain.isLocal _ (List.getElem_mem hn))
  have h2 : x.lt[n].ph = [D[n], D[n]] := by
    have : x.shape[n]? = (pairs D D)[n]? := by rw [hx.shape]
    simpa [MPA.shape, hn, hn'] using this
  rw [h, h2]
  simp [NDArray.lb, NDArray.rb]

theorem leftEnv_zero {x : MPA R} {D : List ℕ} : LeftEnv x D 0 ⟨[1, 1], fun _ => 1⟩ := by
  refine ⟨1, by simp, rfl, ?_⟩
  intro b hb
  obtain rfl : b = 0 := by omega
  simp [pairs]

theorem rightEnv_zero {x : MPA R} {D : List ℕ} (hx : IsMpo x D) : RightEnv x D 0 ⟨[1, 1], fun _ => 1⟩ := by
  refine ⟨1, by simp, rfl, ?_⟩
  intro b hb
  obtain rfl : b = 0 := by omega
  rw [Nat.sub_zero, List.drop_length, hx.len, List.drop_length]
  simp [pairs]

theorem sumIdx_pairs_concat {xs : List (NDArray R)} {t : NDArray R} {D : List ℕ} {d b : ℕ}
    (hc : Chained 1 xs t.lb) (hD : D.length = xs.length) (hb : b < t.rb) :
    (sumIdx (D ++ [d]) fun L => mp (xs ++ [t]) (pairs L L) 0 b)
      = ∑ y ∈ range t.lb, (sumIdx D fun L => mp xs (pairs L L) 0 y) * ∑ i ∈ range d, t.get [y, i, i, b] := by
  rw [sumIdx_append]
  simp only [sumIdx_cons, sumIdx_nil]
  have e : ∀ L, InB L D → (∑ i ∈ range d, mp (xs ++ [t]) (pairs (L ++ [i]) (L ++ [i])) 0 b)
      = ∑ y ∈ range t.lb, mp xs (pairs L L) 0 y * ∑ i ∈ range d, t.get [y, i, i, b] := by
    intro L hL
    have : ∀ i, mp (xs ++ [t]) (pairs (L ++ [i]) (L ++ [i])) 0 b = ∑ y ∈ range t.lb, mp xs (pairs L L) 0 y * t.get [y, i, i, b] := by
      intro i
      rw [pairs_append rfl, show pairs [i] [i] = [[i, i]] from rfl,
        mp_concat hc (by simp [inB_length hL, hD]) one_pos hb]
      rfl
    simp only [this]
    rw [sum_comm]
    exact sum_congr rfl fun y _ => by rw [mul_sum]
  rw [sumIdx_congr e, sumIdx_sum_comm]
  exact sum_congr rfl fun y _ => by rw [sumIdx_mul]

theorem sumIdx_pairs_cons {xs : List (NDArray R)} {t : NDArray R} {D : List ℕ} {d a : ℕ} :
    (sumIdx (d :: D) fun L => mp (t :: xs) (pairs L L) a 0)
      = ∑ y ∈ range t.rb, (∑ i ∈ range d, t.get [a, i, i, y]) * sumIdx D fun L => mp xs (pairs L L) y 0 := by
  rw [sumIdx_cons]
  have e : ∀ i, (sumIdx D fun L => mp (t :: xs) (pairs (i :: L) (i :: L)) a 0)
      = ∑ y ∈ range t.rb, t.get [a, i, i, y] * sumIdx D fun L => mp xs (pairs L L) y 0 := by
    intro i
    have : ∀ L, mp (t :: xs) (pairs (i :: L) (i :: L)) a 0 = ∑ y ∈ range t.rb, t.get [a, i, i, y] * mp xs (pairs L L) y 0 :=
      fun L => rfl
    simp only [this]
    rw [sumIdx_sum_comm]
    exact sum_congr rfl fun y _ => by rw [mul_sumIdx]
  simp only [e]
  rw [sum_comm]
  exact sum_congr rfl fun y _ => by rw [sum_mul]

theorem matdot_mat {a b : NDArray R} {l m r : ℕ} (ha : a.shape = [l, m]) (hb : b.shape = [m, r]) :
    ∃ c, matdot a b = .ok c ∧ c.shape = [l, r] ∧ ∀ i j, c.get [i, j] = ∑ x ∈ range m, a.get [i, x] * b.get [x, j] := by
  obtain ⟨c, h1, h2, h3⟩ := NDArray.matdot_ok (a := a) (b := b) (sa := [l]) (sb := [r]) (by simpa using ha) hb
  exact ⟨c, h1, by simpa using h2, fun i j => h3 [i] [j] rfl rfl⟩

theorem leftEnv_step {x : MPA R} {D : List ℕ} (hx : IsMpo x D) {n : ℕ} (hn : n < x.lt.length) {r : NDArray R}
    (hr : LeftEnv x D n r) :
    ∃ add r', x.lt[n].trace 1 2 = .ok add ∧ matdot r add = .ok r' ∧ LeftEnv x D (n + 1) r' := by
  obtain ⟨l, h1, h2, h3⟩ := hr
  obtain ⟨d, _, hD, hs⟩ := mpo_site hx hn
  have hc : Chained l (x.lt.drop n) 1 := by
    have := hx.valid.chain
    rw [← List.take_append_drop n x.lt] at this
    obtain ⟨m, g1, g2⟩ := chained_append.1 this
    have hm : m = l := chained_right_unique g1 h1
    exact hm ▸ g2
  rw [List.drop_eq_getElem_cons hn] at hc
  obtain ⟨k1, k2, k3⟩ := hc
  obtain ⟨add, g1, g2, g3⟩ := trace_mat hs
  rw [k2] at g2
  obtain ⟨r', f1, f2, f3⟩ := matdot_mat h2 g2
  refine ⟨add, r', g1, f1, x.lt[n].rb, ?_, f2, ?_⟩
  · rw [List.take_succ_eq_append_getElem hn, chained_concat]
    exact ⟨k2 ▸ h1, k1, rfl⟩
  · intro b hb
    rw [List.take_succ_eq_append_getElem hn, hD, sumIdx_pairs_concat (k2 ▸ h1) (by simp [hx.len]) hb, f3, k2]
    exact sum_congr rfl fun y hy => by rw [h3 y (mem_range.1 hy), g3]

theorem rightEnv_step {x : MPA R} {D : List ℕ} (hx : IsMpo x D) {n : ℕ} (hn : n < x.lt.length) {r : NDArray R}
    (hr : RightEnv x D n r) :
    ∃ add r', x.lt[x.lt.length - (n + 1)].trace 1 2 = .ok add ∧ matdot add r = .ok r' ∧ RightEnv x D (n + 1) r' := by
  obtain ⟨l, h1, h2, h3⟩ := hr
  have hn' : x.lt.length - (n + 1) < x.lt.length := by omega
  have hsucc : x.lt.length - (n + 1) + 1 = x.lt.length - n := by omega
  obtain ⟨d, hD, _, hs⟩ := mpo_site hx hn'
  rw [hsucc] at hD
  have hdrop : x.lt.drop (x.lt.length - (n + 1)) = x.lt[x.lt.length - (n + 1)] :: x.lt.drop (x.lt.length - n) := by
    rw [List.drop_eq_getElem_cons hn', hsucc]
  obtain ⟨t, ht⟩ : ∃ t, t = x.lt[x.lt.length - (n + 1)] := ⟨_, rfl⟩
  rw [← ht] at hs hdrop ⊢
  have hc : ∃ m, Chained m (t :: x.lt.drop (x.lt.length - n)) 1 := by
    have := hx.valid.chain
    rw [← List.take_append_drop (x.lt.length - (n + 1)) x.lt, hdrop] at this
    obtain ⟨m, _, g2⟩ := chained_append.1 this
    exact ⟨m, g2⟩
  obtain ⟨m, k1, k2, k3⟩ := hc
  have hl : t.rb = l := chained_left_unique k3 h1
  rw [hl] at hs
  obtain ⟨add, g1, g2, g3⟩ := trace_mat hs
  obtain ⟨r', f1, f2, f3⟩ := matdot_mat g2 h2
  refine ⟨add, r', g1, f1, t.lb, ?_, f2, ?_⟩
  · rw [hdrop]; exact ⟨k1, rfl, k3⟩
  · intro a _
    rw [hdrop, hD, sumIdx_pairs_cons, f3, hl]
    exact sum_congr rfl fun y hy => by rw [h3 y (mem_range.1 hy), g3]

/-- `get_remainder` returns the partial trace, and the dictionary stays correct. -/
theorem getRemainder_left {x : MPA R} {D : List ℕ} (hx : IsMpo x D) : ∀ n ≤ x.lt.length, ∀ c, CacheOK (LeftEnv x D) c →
    ∃ r c', getRemainder x true n c = .ok (r, c') ∧ LeftEnv x D n r ∧ CacheOK (LeftEnv x D) c'
  | 0, _, c, hc => by
    obtain ⟨r, hr⟩ := Option.ne_none_iff_exists'.1 hc.1
    refine ⟨r, c, ?_, hc.2 0 r hr, hc⟩
    unfold getRemainder; rw [hr]
  | n + 1, hn, c, hc => by
    unfold getRemainder
    cases hr : c (n + 1) with
    | some r => exact ⟨r, c, rfl, hc.2 _ r hr, hc⟩
    | none =>
      obtain ⟨r, c', h1, h2, h3⟩ := getRemainder_left hx n (by omega) c hc
      obtain ⟨add, r', g1, g2, g3⟩ := leftEnv_step hx (by omega : n < x.lt.length) h2
      have hsite : x.site (n : ℤ) = .ok x.lt[n] := by
        unfold MPA.site
        rw [pyIndex_nat (show n < x.len from hn), ok_bind]
        simp [show n < x.lt.length from hn]
      refine ⟨r', fun m => if m = n + 1 then some r' else c' m, ?_, g3, ?_⟩
      · simp only [h1, ok_bind, if_true, hsite, g1, g2]; rfl
      · refine ⟨by simpa using h3.1, ?_⟩
        intro m s hs
        dsimp only at hs
        by_cases hm : m = n + 1
        · subst hm
          rw [if_pos rfl] at hs
          obtain rfl := Option.some.inj hs
          exact g3
        · rw [if_neg hm] at hs
          exact h3.2 m s hs

theorem getRemainder_right {x : MPA R} {D : List ℕ} (hx : IsMpo x D) : ∀ n ≤ x.lt.length, ∀ c, CacheOK (RightEnv x D) c →
    ∃ r c', getRemainder x false n c = .ok (r, c') ∧ RightEnv x D n r ∧ CacheOK (RightEnv x D) c'
  | 0, _, c, hc => by
    obtain ⟨r, hr⟩ := Option.ne_none_iff_exists'.1 hc.1
    refine ⟨r, c, ?_, hc.2 0 r hr, hc⟩
    unfold getRemainder; rw [hr]
  | n + 1, hn, c, hc => by
    unfold getRemainder
    cases hr : c (n + 1) with
    | some r => exact ⟨r, c, rfl, hc.2 _ r hr, hc⟩
    | none =>
      obtain ⟨r, c', h1, h2, h3⟩ := getRemainder_right hx n (by omega) c hc
      obtain ⟨add, r', g1, g2, g3⟩ := rightEnv_step hx (by omega : n < x.lt.length) h2
      have hsite : x.site (-((n : ℤ) + 1)) = .ok x.lt[x.lt.length - (n + 1)] := by
        unfold MPA.site
        rw [show -((n : ℤ) + 1) = -((n + 1 : ℕ) : ℤ) by push_cast; ring,
          pyIndex_neg (by omega) (show n + 1 ≤ x.len from hn), ok_bind]
        simp [MPA.len, show x.lt.length - (n + 1) < x.lt.length by omega]
      refine ⟨r', fun m => if m = n + 1 then some r' else c' m, ?_, g3, ?_⟩
      · simp only [h1, ok_bind, if_false, Bool.false_eq_true, hsite, g1, g2]; rfl
      · refine ⟨by simpa using h3.1, ?_⟩
        intro m s hs
        dsimp only at hs
        by_cases hm : m = n + 1
        · subst hm
          rw [if_pos rfl] at hs
          obtain rfl := Option.some.inj hs
          exact g3
        · rw [if_neg hm] at hs
          exact h3.2 m s hs

/-! ### multiplication of boundary matrices -/

theorem mapHeadM_matdot {us : List (NDArray R)} {l r : ℕ} (hne : us ≠ []) (hc : Chained l us r) {m : NDArray R}
    (hm : m.shape = [1, l]) :
    ∃ vs, mapHeadM (fun t => matdot m t) us = .ok vs ∧ vs ≠ [] ∧ Chained 1 vs r ∧ physShape vs = physShape us ∧
      ∀ idx, IdxOK idx (physShape us) → ∀ b, mp vs idx 0 b = ∑ a ∈ range l, m.get [0, a] * mp us idx a b := by
  cases us with
  | nil => exact absurd rfl hne
  | cons t us =>
    obtain ⟨h1, h2, h3⟩ := hc
    obtain ⟨v, g1, g2, g3⟩ := matdot_left (m := m) (u := t) (k := 1) h1 (by rw [hm, h2])
    refine ⟨v :: us, ?_, by simp, ⟨NDArray.isLocal_of_shape g2, NDArray.lb_of_shape g2, by rwa [NDArray.rb_of_shape g2]⟩, ?_, ?_⟩
    · show (matdot m t >>= fun b => .ok (b :: us)) = _
      rw [g1]; rfl
    · simp [physShape, NDArray.ph_of_shape g2]
    · intro idx hidx b
      cases idx with
      | nil => simp [physShape, IdxOK] at hidx
      | cons p ps =>
        simp only [physShape, List.map_cons, idxOK_cons] at hidx
        simp only [mp_cons, NDArray.rb_of_shape g2, mul_sum]
        rw [sum_comm]
        refine sum_congr rfl fun c _ => ?_
        rw [g3 0 p c (inB_length hidx.1), sum_mul, h2]
        exact sum_congr rfl fun a _ => by ring

theorem mapLastM_concat {α : Type} (f : α → Py α) (as : List α) (a : α) :
    mapLastM f (as ++ [a]) = (f a >>= fun b => .ok (as ++ [b])) := by
  induction as with
  | nil => rfl
  | cons c as ih =>
    cases as with
    | nil =>
      simp only [List.cons_append, List.nil_append, mapLastM]
      cases f a <;> rfl
    | cons d as =>
      simp only [List.cons_append, mapLastM] at ih ⊢
      rw [ih]
      cases f a <;> rfl

theorem mapLastM_matdot {us : List (NDArray R)} {l r : ℕ} (hne : us ≠ []) (hc : Chained l us r) {m : NDArray R}
    (hm : m.shape = [r, 1]) :
    ∃ vs, mapLastM (fun t => matdot t m) us = .ok vs ∧ vs ≠ [] ∧ Chained l vs 1 ∧ physShape vs = physShape us ∧
      vs.map NDArray.lb = us.map NDArray.lb ∧
      ∀ idx, IdxOK idx (physShape us) → ∀ a < l, mp vs idx a 0 = ∑ b ∈ range r, mp us idx a b * m.get [b, 0] := by
  obtain ⟨us, t, rfl⟩ : ∃ xs t, us = xs ++ [t] := ⟨us.dropLast, us.getLast hne, (List.dropLast_append_getLast hne).symm⟩
  obtain ⟨h1, h2, h3⟩ := chained_concat.1 hc
  obtain ⟨v, g1, g2, g3⟩ := matdot_right (m := m) (u := t) (k := 1) h2 (by rw [hm, h3])
  refine ⟨us ++ [v], ?_, by simp, ?_, ?_, by simp [NDArray.lb_of_shape g2], ?_⟩
  · rw [mapLastM_concat, g1]; rfl
  · rw [chained_concat]
    exact ⟨by rwa [NDArray.lb_of_shape g2], NDArray.isLocal_of_shape g2, NDArray.rb_of_shape g2⟩
  · simp [physShape, NDArray.ph_of_shape g2]
  · intro idx hidx a ha
    have hps : physShape (us ++ [t]) = physShape us ++ [t.ph] := by simp [physShape]
    rw [hps] at hidx
    obtain ⟨is, js, rfl, hi, hj⟩ := idxOK_append_split hidx
    obtain ⟨p, rfl, hp⟩ : ∃ p, js = [p] ∧ InB p t.ph := by
      cases js with
      | nil => simp [IdxOK] at hj
      | cons p js =>
        simp only [idxOK_cons] at hj
        obtain ⟨hj1, hj2⟩ := hj
        have : js = [] := by simpa [IdxOK] using hj2
        exact ⟨p, by rw [this], hj1⟩
    have hl : is.length = us.length := by simpa [physShape] using idxOK_length hi
    rw [mp_concat (by rwa [NDArray.lb_of_shape g2]) hl ha (by rw [NDArray.rb_of_shape g2]; exact one_pos), NDArray.lb_of_shape g2]
    have e : ∀ b ∈ range r, mp (us ++ [t]) (is ++ [p]) a b * m.get [b, 0]
        = ∑ c ∈ range t.lb, mp us is a c * t.at3 c p b * m.get [b, 0] := by
      intro b hb
      rw [mp_concat h1 hl ha (h3 ▸ mem_range.1 hb), sum_mul]
    rw [sum_congr rfl e, sum_comm]
    refine sum_congr rfl fun c _ => ?_
    rw [g3 c p 0 (inB_length hp), mul_sum, h3]
    exact sum_congr rfl fun b _ => by ring

/-- C34: one step of the loop, for any state of the dictionaries. -/
theorem mpoWindow_ok {x : MPA R} {D : List ℕ} (hx : IsMpo x D) {s e : ℕ} (hse : s < e) (he : e ≤ D.length)
    {c : RemCache R × RemCache R} (hc1 : CacheOK (LeftEnv x D) c.1) (hc2 : CacheOK (RightEnv x D) c.2) :
    ∃ z c', mpoWindow x ((s : ℤ), (e : ℤ)) c = .ok (z, c') ∧ CacheOK (LeftEnv x D) c'.1 ∧ CacheOK (RightEnv x D) c'.2 ∧
      IsMpo z ((D.drop s).take (e - s)) ∧ z.ranks = (x.ranks.drop s).take (e - s - 1) ∧
      ∀ I J, InB I ((D.drop s).take (e - s)) → InB J ((D.drop s).take (e - s)) →
        z.val (pairs I J) = margOp (fun I J => x.val (pairs I J)) (D.take s) (D.drop e) I J := by
  have hlen := hx.len
  obtain ⟨remL, cl, h1, ⟨l, h2, h3, h4⟩, h5⟩ := getRemainder_left hx s (by omega) c.1 hc1
  obtain ⟨remR, cr, g1, ⟨r, g2, g3, g4⟩, g5⟩ := getRemainder_right hx (x.lt.length - e) (by omega) c.2 hc2
  have hdrop : x.lt.length - (x.lt.length - e) = e := by omega
  rw [hdrop] at g2 g4
  obtain ⟨mid, hmid⟩ : ∃ m, m = (x.lt.drop s).take (e - s) := ⟨_, rfl⟩
  have hsplit : x.lt = x.lt.take s ++ (mid ++ x.lt.drop e) := by
    rw [hmid]
    conv_lhs => rw [← List.take_append_drop s x.lt, ← List.take_append_drop (e - s) (x.lt.drop s), List.drop_drop]
    rw [show s + (e - s) = e by omega]
  have hDsplit : D = D.take s ++ ((D.drop s).take (e - s) ++ D.drop e) := by
    conv_lhs => rw [← List.take_append_drop s D, ← List.take_append_drop (e - s) (D.drop s), List.drop_drop]
    rw [show s + (e - s) = e by omega]
  have hch := hx.valid.chain
  rw [hsplit] at hch
  obtain ⟨l', k1, k2⟩ := chained_append.1 hch
  obtain ⟨r', k3, k4⟩ := chained_append.1 k2
  have hl' : l' = l := chained_right_unique k1 h2
  have hr' : r' = r := chained_left_unique k4 g2
  subst hl' hr'
  have hmne : mid ≠ [] := by
    intro h0
    have := congrArg List.length h0
    rw [hmid] at this
    simp at this
    omega
  have hpm : physShape mid = pairs ((D.drop s).take (e - s)) ((D.drop s).take (e - s)) := by
    have := hx.shape
    unfold MPA.shape at this
    rw [hmid, physShape, List.map_take, List.map_drop, this]
    simp only [pairs, List.drop_zipWith, List.take_zipWith]
  obtain ⟨vs, a1, a2, a3, a4, a5⟩ := mapHeadM_matdot hmne k3 h3
  obtain ⟨ws, b1, b2, b3, b4, b6, b5⟩ := mapLastM_matdot a2 a3 g3
  refine ⟨⟨ws, 0, ws.length⟩, (cl, cr), ?_, h5, g5, ⟨valid_mk b2 b3, ?_⟩, ?_, ?_⟩
  · unfold mpoWindow
    have hsl : pySlice x.lt (s : ℤ) (e : ℤ) = mid := by rw [hmid, pySlice_nat _ (by omega) (by omega)]
    have hrl : getRem x true (s : ℤ) c.1 = .ok (remL, cl) := by
      unfold getRem; rw [if_neg (by omega), Int.toNat_natCast, h1]
    have hrr : getRem x false ((x.len : ℤ) - e) c.2 = .ok (remR, cr) := by
      unfold getRem
      have : (x.len : ℤ) - e = ((x.lt.length - e : ℕ) : ℤ) := by
        rw [Nat.cast_sub (by omega)]; rfl
      rw [this, if_neg (by omega), Int.toNat_natCast, g1]
    simp only [hsl, hrl, hrr, ok_bind, a1, b1, mkMPA_ok b2 b3]
    rfl
  · show physShape ws = _
    rw [b4, a4, hpm]
  · show ws.tail.map NDArray.lb = (x.lt.tail.map NDArray.lb |>.drop s).take (e - s - 1)
    rw [List.map_tail, b6, ← List.map_tail, mapHeadM_tail a1, hmid, ← List.map_drop, ← List.map_take]
    congr 1
    rw [← List.drop_one, List.drop_take, List.drop_drop, ← List.drop_one, List.drop_drop, Nat.add_comm]
  · intro I J hI hJ
    have hidx : IdxOK (pairs I J) (physShape mid) := hpm ▸ pairs_idxOK hI hJ
    show mp ws (pairs I J) 0 0 = _
    rw [b5 _ (a4 ▸ hidx) 0 one_pos]
    unfold margOp
    have e1 : ∀ L, InB L (D.take s) → ∀ M, InB M (D.drop e) →
        x.val (pairs (L ++ I ++ M) (L ++ J ++ M)) = ∑ b ∈ range r', ∑ a ∈ range l', mp (x.lt.take s) (pairs L L) 0 a
          * mp mid (pairs I J) a b * mp (x.lt.drop e) (pairs M M) b 0 := by
      intro L hL M hM
      have hIJ : I.length = J.length := (inB_length hI).trans (inB_length hJ).symm
      rw [List.append_assoc, List.append_assoc, pairs_append rfl, pairs_append hIJ]
      show mp x.lt _ 0 0 = _
      rw [hsplit, mp_append k1 (by simp [inB_length hL, hlen]) one_pos]
      have e2 : ∀ a ∈ range l', mp (x.lt.take s) (pairs L L) 0 a * mp (mid ++ x.lt.drop e) (pairs I J ++ pairs M M) a 0
          = ∑ b ∈ range r', mp (x.lt.take s) (pairs L L) 0 a * mp mid (pairs I J) a b * mp (x.lt.drop e) (pairs M M) b 0 := by
        intro a ha
        rw [mp_append k3 (by simpa [physShape] using idxOK_length hidx) (mem_range.1 ha), mul_sum]
        exact sum_congr rfl fun b _ => by ring
      rw [show (List.take s (List.take s x.lt ++ (mid ++ List.drop e x.lt))) = x.lt.take s by rw [← hsplit],
        show (List.drop e (List.take s x.lt ++ (mid ++ List.drop e x.lt))) = x.lt.drop e by rw [← hsplit],
        sum_congr rfl e2, sum_comm]
    rw [sumIdx_congr fun L hL => sumIdx_congr fun M hM => e1 L hL M hM]
    have e3 : ∀ L, (sumIdx (D.drop e) fun M => ∑ b ∈ range r', ∑ a ∈ range l', mp (x.lt.take s) (pairs L L) 0 a
          * mp mid (pairs I J) a b * mp (x.lt.drop e) (pairs M M) b 0)
        = ∑ b ∈ range r', ∑ a ∈ range l', mp (x.lt.take s) (pairs L L) 0 a * (mp mid (pairs I J) a b * remR.get [b, 0]) := by
      intro L
      rw [sumIdx_sum_comm]
      refine sum_congr rfl fun b hb => ?_
      rw [sumIdx_sum_comm]
      refine sum_congr rfl fun a _ => ?_
      rw [← mul_sumIdx, ← g4 b (mem_range.1 hb)]; ring
    simp only [e3]
    rw [sumIdx_sum_comm]
    refine sum_congr rfl fun b hb => ?_
    rw [sumIdx_sum_comm, a5 _ hidx, sum_mul]
    refine sum_congr rfl fun a ha => ?_
    rw [← sumIdx_mul, ← h4 a (mem_range.1 ha)]; ring

theorem yieldLoop_windows {x : MPA R} {D : List ℕ} (hx : IsMpo x D) : ∀ (ws : List (ℕ × ℕ)), (∀ w ∈ ws, w.1 < w.2 ∧ w.2 ≤ D.length) →
    ∀ c : RemCache R × RemCache R, CacheOK (LeftEnv x D) c.1 → CacheOK (RightEnv x D) c.2 →
    ∃ zs c', yieldLoop (mpoWindow x) (ws.map fun w => ((w.1 : ℤ), (w.2 : ℤ))) c = .ok (zs, c') ∧
      List.Forall₂ (fun w z => IsMpo z ((D.drop w.1).take (w.2 - w.1)) ∧ z.ranks = (x.ranks.drop w.1).take (w.2 - w.1 - 1) ∧
        ∀ I J, InB I ((D.drop w.1).take (w.2 - w.1)) → InB J ((D.drop w.1).take (w.2 - w.1)) →
          z.val (pairs I J) = margOp (fun I J => x.val (pairs I J)) (D.take w.1) (D.drop w.2) I J) ws zs
  | [], _, c, _, _ => ⟨[], c, rfl, List.Forall₂.nil⟩
  | w :: ws, hw, c, h1, h2 => by
    obtain ⟨z, c', g1, g2, g3, g4, g5⟩ := mpoWindow_ok hx (hw w (by simp)).1 (hw w (by simp)).2 h1 h2
    obtain ⟨zs, c'', k1, k2⟩ := yieldLoop_windows hx ws (fun v hv => hw v (by simp [hv])) c' g2 g3
    refine ⟨z :: zs, c'', ?_, List.Forall₂.cons ⟨g4, g5⟩ k2⟩
    simp only [List.map_cons, yieldLoop, g1, ok_bind, k1]
    rfl

theorem cacheInit_left {x : MPA R} {D : List ℕ} : CacheOK (LeftEnv x D) RemCache.init := by
  refine ⟨by simp [RemCache.init], ?_⟩
  intro n r h
  unfold RemCache.init at h
  split_ifs at h with hn
  subst hn
  obtain rfl := Option.some.inj h
  exact leftEnv_zero

theorem cacheInit_right {x : MPA R} {D : List ℕ} (hx : IsMpo x D) : CacheOK (RightEnv x D) RemCache.init := by
  refine ⟨by simp [RemCache.init], ?_⟩
  intro n r h
  unfold RemCache.init at h
  split_ifs at h with hn
  subst hn
  obtain rfl := Option.some.inj h
  exact rightEnv_zero hx

/-- C34: for any sequence of windows `start..stop`, in any order and with repetitions, the items are the
partial traces over all sites outside the window. -/
theorem C34_reductions_mpo (x : MPA R) (D : List ℕ) (hx : IsMpo x D) (ws : List (ℕ × ℕ))
    (hw : ∀ w ∈ ws, w.1 < w.2 ∧ w.2 ≤ D.length) :
    ∃ zs, reductionsMpo x none (some (ws.map fun w => (w.1 : ℤ))) (some (ws.map fun w => (w.2 : ℤ))) = .ok zs ∧
      List.Forall₂ (fun w z => IsMpo z ((D.drop w.1).take (w.2 - w.1)) ∧ z.ranks = (x.ranks.drop w.1).take (w.2 - w.1 - 1) ∧
        ∀ I J, InB I ((D.drop w.1).take (w.2 - w.1)) → InB J ((D.drop w.1).take (w.2 - w.1)) →
          z.val (pairs I J) = margOp (fun I J => x.val (pairs I J)) (D.take w.1) (D.drop w.2) I J) ws zs := by
  obtain ⟨zs, c, h1, h2⟩ := yieldLoop_windows hx ws hw (RemCache.init, RemCache.init) cacheInit_left (cacheInit_right hx)
  refine ⟨zs, ?_, h2⟩
  unfold reductionsMpo reductionsArgs
  simp only [ok_bind]
  rw [pyAssert_true, ok_bind, List.zip_map', h1]
  · rfl
  · intro s hs
    rw [hx.shape] at hs
    obtain ⟨n, hn, rfl⟩ := List.getElem_of_mem hs
    simp

omit [CommRing R] in
theorem pyRange_windows (n w : ℕ) (hw : w ≤ n) :
    (pyRange 0 ((n : ℤ) - w + 1) 1).map (fun s => (s, s + (w : ℤ)))
      = ((List.range (n + 1 - w)).map fun s => (s, s + w)).map fun q : ℕ × ℕ => ((q.1 : ℤ), (q.2 : ℤ)) := by
  rw [MPA.pyRange_up, List.map_map, List.map_map]
  rw [show ((n : ℤ) - w + 1 - 0).toNat = n + 1 - w by omega]
  refine List.map_congr_left fun k _ => ?_
  simp

/-- C34: with `width` only, the windows are all `width` consecutive sites, from left to right. -/
theorem C34_width (x : MPA R) (D : List ℕ) (hx : IsMpo x D) (w : ℕ) (h0 : 0 < w) (hw : w ≤ D.length) :
    ∃ zs, reductionsMpo x (some w) none none = .ok zs ∧
      List.Forall₂ (fun s z => IsMpo z ((D.drop s).take w) ∧ z.ranks = (x.ranks.drop s).take (w - 1) ∧
        ∀ I J, InB I ((D.drop s).take w) → InB J ((D.drop s).take w) →
          z.val (pairs I J) = margOp (fun I J => x.val (pairs I J)) (D.take s) (D.drop (s + w)) I J)
        (List.range (D.length + 1 - w)) zs := by
  obtain ⟨zs, c, h1, h2⟩ := yieldLoop_windows hx ((List.range (D.length + 1 - w)).map fun s => (s, s + w)) (by
    intro q hq
    obtain ⟨s, hs, rfl⟩ := List.mem_map.1 hq
    have := List.mem_range.1 hs
    dsimp only
    omega) (RemCache.init, RemCache.init) cacheInit_left (cacheInit_right hx)
  refine ⟨zs, ?_, ?_⟩
  · unfold reductionsMpo reductionsArgs
    simp only [ok_bind, Option.getD_none]
    rw [pyAssert_true, ok_bind, show x.len = D.length from hx.len, pyRange_windows _ _ hw, h1]
    · rfl
    · intro s hs
      rw [hx.shape] at hs
      obtain ⟨n, hn, rfl⟩ := List.getElem_of_mem hs
      simp
  · rw [List.forall₂_map_left_iff] at h2
    exact h2.imp fun s z h => by simpa [Nat.add_sub_cancel_left] using h

/-- C34: with `width` and `startsites`, the windows are `start..start+width` in the given order. -/
theorem C34_startsites (x : MPA R) (D : List ℕ) (hx : IsMpo x D) (w : ℕ) (h0 : 0 < w) (starts : List ℕ)
    (hs : ∀ s ∈ starts, s + w ≤ D.length) :
    ∃ zs, reductionsMpo x (some w) (some (starts.map fun s : ℕ => (s : ℤ))) none = .ok zs ∧
      List.Forall₂ (fun s z => IsMpo z ((D.drop s).take w) ∧ z.ranks = (x.ranks.drop s).take (w - 1) ∧
        ∀ I J, InB I ((D.drop s).take w) → InB J ((D.drop s).take w) →
          z.val (pairs I J) = margOp (fun I J => x.val (pairs I J)) (D.take s) (D.drop (s + w)) I J) starts zs := by
  obtain ⟨zs, c, h1, h2⟩ := yieldLoop_windows hx (starts.map fun s => (s, s + w)) (by
    intro q hq
    obtain ⟨s, hs', rfl⟩ := List.mem_map.1 hq
    have := hs s hs'
    dsimp only
    omega) (RemCache.init, RemCache.init) cacheInit_left (cacheInit_right hx)
  refine ⟨zs, ?_, ?_⟩
  · unfold reductionsMpo reductionsArgs
    simp only [ok_bind, Option.getD_some]
    rw [pyAssert_true, ok_bind, List.map_map, show ((fun s : ℤ => (s, s + (w : ℤ))) ∘ fun s : ℕ => (s : ℤ))
      = (fun q : ℕ × ℕ => ((q.1 : ℤ), (q.2 : ℤ))) ∘ fun s => (s, s + w) from funext fun s => by simp, ← List.map_map, h1]
    · rfl
    · intro s hs
      rw [hx.shape] at hs
      obtain ⟨n, hn, rfl⟩ := List.getElem_of_mem hs
      simp
  · rw [List.forall₂_map_left_iff] at h2
    exact h2.imp fun s z h => by simpa [Nat.add_sub_cancel_left] using h

/-- C34: a reduced state has the same trace as the full one. -/
theorem C34_trace (f : List ℕ → List ℕ → R) (P W Q : List ℕ) :
    (sumIdx W fun I => margOp f P Q I I) = sumIdx (P ++ W ++ Q) fun I => f I I := by
  unfold margOp
  rw [sumIdx_comm, sumIdx_append, sumIdx_append]

/-- C34: wrong combinations of arguments are rejected. -/
theorem C34_reject (x : MPA R) :
    (∀ starts, reductionsMpo x none starts none = .error .assertion) ∧
    (∀ w starts stops, reductionsMpo x (some w) starts (some stops) = .error .assertion) ∧
    (∀ stops, reductionsMpo x none none (some stops) = .error .assertion) := by
  refine ⟨fun starts => ?_, fun w starts stops => ?_, fun stops => ?_⟩ <;> unfold reductionsMpo reductionsArgs <;> rfl

end

/-- A witness: windows in a non-monotonic order for a concrete MPO. -/
example : ∃ zs, reductionsMpo exMPO none (some [1, 0, 0]) (some [2, 1, 2]) = .ok zs ∧ zs.length = 3 := by
  have hx : IsMpo exMPO [2, 2] := ⟨exMPO_valid, rfl⟩
  obtain ⟨zs, h1, h2⟩ := C34_reductions_mpo exMPO [2, 2] hx [(1, 2), (0, 1), (0, 2)] (by simp)
  exact ⟨zs, h1, h2.length_eq.symm⟩

end Mpnum
