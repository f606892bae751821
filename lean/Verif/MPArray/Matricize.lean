import Verif.MPArray.Inner
import Verif.MPArray.FromArray
import Verif.StructLemmas

/-! Lemmas about matricised local tensors and about replacing two neighbouring sites. -/

open Finset

namespace Mpnum

variable {R : Type}

/-- `a.T` of numpy: all axes reversed. -/
def NDArray.T (a : NDArray R) : NDArray R := a.transposeTo (List.range a.ndim).reverse

theorem T2 {a : NDArray R} {m n : ℕ} (h : a.shape = [m, n]) :
    a.T.shape = [n, m] ∧ ∀ i j, a.T.get [j, i] = a.get [i, j] := by
  have hn : a.ndim = 2 := by simp [NDArray.ndim, h]
  unfold NDArray.T
  rw [hn]
  constructor
  · simp only [NDArray.transposeTo, h]; rfl
  · intro i j
    have := NDArray.transposeTo_get_perm (a := a) (perm := [1, 0]) (j := [i, j])
      (by rw [hn]; decide) (by simp [hn])
    exact this

theorem inB_cons' {a l : ℕ} {p P : List ℕ} (ha : a < l) (hp : InB p P) : InB (a :: p) (l :: P) :=
  .cons ha hp

/-- `t.reshape((-1, t.shape[-1]))` -/
theorem lmat_ok {t : NDArray R} (ht : t.IsLocal) (hpos : 0 < t.rb) :
    ∃ mat, t.reshape [-1, (t.rb : ℤ)] = .ok mat ∧ mat.shape = [(t.lb :: t.ph).prod, t.rb] ∧
      ∀ i b, InB i (t.lb :: t.ph) → b < t.rb → mat.get [ravelIdx (t.lb :: t.ph) i, b] = t.get (i ++ [b]) := by
  have hs : t.shape = (t.lb :: t.ph) ++ [t.rb] := by simpa using NDArray.shape_local ht
  refine ⟨t.reshapeTo [(t.lb :: t.ph).prod, t.rb], ?_, rfl, ?_⟩
  · exact NDArray.reshape_infer (a := t) (d := (t.lb :: t.ph).prod) (s := []) (t := [t.rb])
      (by rw [hs]; simp [Nat.mul_assoc]) (by simpa using hpos)
  · intro i b hi hb
    have := NDArray.reshapeTo_blocks2 (a := t) (T := [(t.lb :: t.ph).prod]) (T' := [t.rb])
      (i := [ravelIdx (t.lb :: t.ph) i]) (j := [b]) hs (by simp) rfl
      (by simp only [inB_cons, inB_nil, and_true]; exact ravelIdx_lt hi) (by simpa using hb)
    simp only [ravelIdx_single, unravel_ravel hi, unravelIdx_single] at this
    exact this

/-- `t.reshape((t.shape[0], -1))` -/
theorem rmat_ok {t : NDArray R} (ht : t.IsLocal) (hpos : 0 < t.lb) :
    ∃ mat, t.reshape [(t.lb : ℤ), -1] = .ok mat ∧ mat.shape = [t.lb, (t.ph ++ [t.rb]).prod] ∧
      ∀ a j, a < t.lb → InB j (t.ph ++ [t.rb]) →
        mat.get [a, ravelIdx (t.ph ++ [t.rb]) j] = t.get (a :: j) := by
  have hs : t.shape = [t.lb] ++ (t.ph ++ [t.rb]) := by simpa using NDArray.shape_local ht
  refine ⟨t.reshapeTo [t.lb, (t.ph ++ [t.rb]).prod], ?_, rfl, ?_⟩
  · exact NDArray.reshape_infer (a := t) (d := (t.ph ++ [t.rb]).prod) (s := [t.lb]) (t := [])
      (by rw [hs]; simp) (by simpa using hpos)
  · intro a j ha hj
    have := NDArray.reshapeTo_blocks2 (a := t) (T := [t.lb]) (T' := [(t.ph ++ [t.rb]).prod])
      (i := [a]) (j := [ravelIdx (t.ph ++ [t.rb]) j]) hs rfl (by simp)
      (by simpa using ha) (by simp only [inB_cons, inB_nil, and_true]; exact ravelIdx_lt hj)
    simp only [ravelIdx_single, unravel_ravel hj, unravelIdx_single] at this
    exact this

/-- `q.reshape(shape[:-1] + (-1,))` -/
theorem lunmat_ok {q : NDArray R} {l k : ℕ} {P : List ℕ} (hq : q.shape = [(l :: P).prod, k])
    (hpos : 0 < (l :: P).prod) :
    ∃ t, q.reshape ((l :: P).map (fun n : ℕ => (n : ℤ)) ++ [-1]) = .ok t ∧ t.shape = l :: (P ++ [k]) ∧
      ∀ i b, InB i (l :: P) → b < k → t.get (i ++ [b]) = q.get [ravelIdx (l :: P) i, b] := by
  refine ⟨q.reshapeTo ((l :: P) ++ [k]), ?_, rfl, ?_⟩
  · have := NDArray.reshape_infer (a := q) (d := k) (s := l :: P) (t := [])
      (by rw [hq]; simp) (by simpa using hpos)
    simpa using this
  · intro i b hi hb
    have := NDArray.reshapeTo_blocks2 (a := q) (S := [(l :: P).prod]) (S' := [k]) (T := l :: P)
      (T' := [k]) (i := i) (j := [b]) hq (by simp) rfl hi (by simpa using hb)
    simp only [ravelIdx_single, unravelIdx_single, List.singleton_append] at this
    exact this

/-- `v.reshape((-1,) + shape[1:])` -/
theorem runmat_ok {v : NDArray R} {r k : ℕ} {P : List ℕ} (hv : v.shape = [k, (P ++ [r]).prod])
    (hpos : 0 < (P ++ [r]).prod) :
    ∃ t, v.reshape (-1 :: (P ++ [r]).map (fun n : ℕ => (n : ℤ))) = .ok t ∧ t.shape = k :: (P ++ [r]) ∧
      ∀ a j, a < k → InB j (P ++ [r]) → t.get (a :: j) = v.get [a, ravelIdx (P ++ [r]) j] := by
  refine ⟨v.reshapeTo ([k] ++ (P ++ [r])), ?_, rfl, ?_⟩
  · have := NDArray.reshape_infer (a := v) (d := k) (s := []) (t := P ++ [r])
      (by rw [hv]; simp) (by simpa using hpos)
    simpa using this
  · intro a j ha hj
    have := NDArray.reshapeTo_blocks2 (a := v) (S := [k]) (S' := [(P ++ [r]).prod]) (T := [k])
      (T' := P ++ [r]) (i := [a]) (j := j) hv rfl (by simp) (by simpa using ha) hj
    simp only [ravelIdx_single, unravelIdx_single, List.singleton_append] at this
    exact this

/-- `matdot(m, u)` for a matrix and a local tensor. -/
theorem matdot_left [AddCommMonoid R] [Mul R] {m u : NDArray R} {k : ℕ} (hu : u.IsLocal)
    (hm : m.shape = [k, u.lb]) :
    ∃ v, matdot m u = .ok v ∧ v.shape = k :: (u.ph ++ [u.rb]) ∧
      ∀ j p b, p.length = u.ph.length → v.at3 j p b = ∑ x ∈ range u.lb, m.get [j, x] * u.at3 x p b := by
  obtain ⟨v, h1, h2, h3⟩ := NDArray.matdot_ok (a := m) (b := u) (sa := [k]) (sb := u.ph ++ [u.rb])
    (by simpa using hm) (NDArray.shape_local hu)
  refine ⟨v, h1, by simpa using h2, ?_⟩
  intro j p b hp
  exact h3 [j] (p ++ [b]) rfl (by simp [hp])

/-- `matdot(u, m)` for a local tensor and a matrix. -/
theorem matdot_right [AddCommMonoid R] [Mul R] {m u : NDArray R} {k : ℕ} (hu : u.IsLocal)
    (hm : m.shape = [u.rb, k]) :
    ∃ v, matdot u m = .ok v ∧ v.shape = u.lb :: (u.ph ++ [k]) ∧
      ∀ a p j, p.length = u.ph.length → v.at3 a p j = ∑ x ∈ range u.rb, u.at3 a p x * m.get [x, j] := by
  obtain ⟨v, h1, h2, h3⟩ := NDArray.matdot_ok (a := u) (b := m) (sa := u.lb :: u.ph) (sb := [k])
    (by simpa using NDArray.shape_local hu) hm
  refine ⟨v, h1, by simpa using h2, ?_⟩
  intro a p j hp
  have := h3 (a :: p) [j] (by simp [hp]) rfl
  simpa [NDArray.at3] using this

section
variable [CommRing R] [StarRing R]

/-- A tensor made of orthonormal columns is left-canonical. -/
theorem lcanon_of_cols {q t : NDArray R} {l k : ℕ} {P : List ℕ} (ht : t.shape = l :: (P ++ [k]))
    (hg : ∀ i b, InB i (l :: P) → b < k → t.get (i ++ [b]) = q.get [ravelIdx (l :: P) i, b])
    (ho : ∀ b < k, ∀ b' < k, ∑ i ∈ range (l :: P).prod, star (q.get [i, b]) * q.get [i, b']
      = if b = b' then 1 else 0) : LCanon t := by
  intro b hb b' hb'
  rw [NDArray.rb_of_shape ht] at hb hb'
  rw [NDArray.lb_of_shape ht, NDArray.ph_of_shape ht, ← ho b hb b' hb']
  have e2 : (∑ a ∈ range l, sumIdx P fun p => star (t.at3 a p b) * t.at3 a p b')
      = sumIdx (l :: P) fun i => star (t.get (i ++ [b])) * t.get (i ++ [b']) := rfl
  rw [e2, ← sumIdx_ravel (l :: P) (fun z => star (q.get [z, b]) * q.get [z, b'])]
  exact sumIdx_congr fun i hi => by simp only [hg i b hi hb, hg i b' hi hb']

/-- A tensor made of orthonormal rows is right-canonical. -/
theorem rcanon_of_rows {q t : NDArray R} {r k : ℕ} {P : List ℕ} (ht : t.shape = k :: (P ++ [r]))
    (hg : ∀ a j, a < k → InB j (P ++ [r]) → t.get (a :: j) = q.get [a, ravelIdx (P ++ [r]) j])
    (ho : ∀ a < k, ∀ a' < k, ∑ i ∈ range (P ++ [r]).prod, q.get [a, i] * star (q.get [a', i])
      = if a = a' then 1 else 0) : RCanon t := by
  intro a ha a' ha'
  rw [NDArray.lb_of_shape ht] at ha ha'
  rw [NDArray.rb_of_shape ht, NDArray.ph_of_shape ht, ← ho a ha a' ha']
  have e2 : (∑ b ∈ range r, sumIdx P fun p => t.at3 a p b * star (t.at3 a' p b))
      = sumIdx (P ++ [r]) fun j => t.get (a :: j) * star (t.get (a' :: j)) := by
    rw [sumIdx_append, ← sumIdx_sum_comm]
    rfl
  rw [e2, ← sumIdx_ravel (P ++ [r]) (fun z => q.get [a, z] * star (q.get [a', z]))]
  exact sumIdx_congr fun j hj => by simp only [hg a j ha hj, hg a' j ha' hj]

end

/-! ### replacing two neighbouring sites -/

theorem mp_pair_eq [CommSemiring R] {t u : NDArray R} {p p' : List ℕ} {ps : List (List ℕ)}
    {post : List (NDArray R)} {a b : ℕ} :
    mp (t :: u :: post) (p :: p' :: ps) a b
      = ∑ d ∈ range u.rb, (∑ c ∈ range t.rb, t.at3 a p c * u.at3 c p' d) * mp post ps d b := by
  simp only [mp_cons, Finset.mul_sum, Finset.sum_mul]
  rw [Finset.sum_comm]
  exact Finset.sum_congr rfl fun d _ => Finset.sum_congr rfl fun c _ => by ring

/-- Replacing two neighbouring sites by an equivalent pair. -/
theorem replace_pair [CommSemiring R] {l r : ℕ} {pre post : List (NDArray R)} {t u t' u' : NDArray R}
    (hc : Chained l (pre ++ t :: u :: post) r)
    (ht : t'.shape = t.lb :: (t.ph ++ [t'.rb])) (hu : u'.shape = t'.rb :: (u.ph ++ [u.rb]))
    (heq : ∀ a < t.lb, ∀ b < u.rb, ∀ p p', InB p t.ph → InB p' u.ph →
      ∑ c ∈ range t'.rb, t'.at3 a p c * u'.at3 c p' b = ∑ c ∈ range t.rb, t.at3 a p c * u.at3 c p' b) :
    Chained l (pre ++ t' :: u' :: post) r ∧
    physShape (pre ++ t' :: u' :: post) = physShape (pre ++ t :: u :: post) ∧
    ∀ idx, IdxOK idx (physShape (pre ++ t :: u :: post)) → ∀ a < l, ∀ b,
      mp (pre ++ t' :: u' :: post) idx a b = mp (pre ++ t :: u :: post) idx a b := by
  have hlt := NDArray.isLocal_of_shape ht
  have hlu := NDArray.isLocal_of_shape hu
  have e1 : t'.lb = t.lb := NDArray.lb_of_shape ht
  have e2 : t'.ph = t.ph := NDArray.ph_of_shape ht
  have e3 : u'.lb = t'.rb := NDArray.lb_of_shape hu
  have e4 : u'.ph = u.ph := NDArray.ph_of_shape hu
  have e5 : u'.rb = u.rb := NDArray.rb_of_shape hu
  obtain ⟨m, hc1, hc2⟩ := chained_append.1 hc
  obtain ⟨h1, h2, h3, h4, h5⟩ := hc2
  refine ⟨chained_append.2 ⟨m, hc1, hlt, e1.trans h2, hlu, e3, by rw [e5]; exact h5⟩,
    by simp [physShape, e2, e4], ?_⟩
  intro idx hi a ha b
  simp only [physShape, List.map_append, List.map_cons] at hi
  obtain ⟨i1, i2, rfl, hi1, hi2⟩ := idxOK_append_split hi
  have hl1 : i1.length = pre.length := by simpa using idxOK_length hi1
  rw [mp_append hc1 hl1 ha, mp_append hc1 hl1 ha]
  refine Finset.sum_congr rfl fun c hc' => ?_
  have hc' : c < m := by simpa using hc'
  cases hi2 with
  | @cons p _ i2 _ hp hi2 =>
  cases hi2 with
  | @cons p' _ i2 _ hp' hi2 =>
  rw [mp_pair_eq, mp_pair_eq, e5]
  congr 1
  refine Finset.sum_congr rfl fun d hd => ?_
  rw [heq c (by omega) d (by simpa using hd) p p' hp hp']

namespace MPA

theorem sliceIndices_pair {n m : ℕ} (h : m + 2 ≤ n) :
    sliceIndices (some (m : ℤ)) (some ((m : ℤ) + 2)) none n = .ok ((m : ℤ), (m : ℤ) + 2, 1) := by
  unfold sliceIndices
  simp only [Option.getD_none]
  rw [if_neg (by omega)]
  have h1 : ¬ ((m : ℤ) < 0) := by omega
  have h2 : ¬ ((m : ℤ) + 2 < 0) := by omega
  have h3 : ¬ ((1 : ℤ) < 0) := by omega
  simp only [h1, h2, h3, if_false]
  rw [min_eq_left (by omega), min_eq_left (by omega)]

theorem pyRange_pair (m : ℕ) : pyRange m ((m : ℤ) + 2) 1 = [(m : ℤ), (m : ℤ) + 1] := by
  unfold pyRange
  rw [if_pos (by omega)]
  have : (((m : ℤ) + 2 - m + 1 - 1) / 1).toNat = 2 := by
    rw [show ((m : ℤ) + 2 - m + 1 - 1) / 1 = 2 by omega]; rfl
  simp only [this]
  rfl

/-- `update(slice(m, m+2), (t', u'), canonicalization=(c, c'))` -/
theorem updateSlice_pair {x : MPA R} {pre post : List (NDArray R)} {t u t' u' : NDArray R}
    (hx : x.lt = pre ++ t :: u :: post) (h1 : t'.IsLocal) (h2 : u'.IsLocal) (h3 : t.lb = t'.lb)
    (h4 : t'.rb = u'.lb) (h5 : u.rb = u'.rb) (c c' : Option Canon) :
    x.updateSlice (some (pre.length : ℤ)) (some ((pre.length : ℤ) + 2)) none [t', u'] (.seq [c, c'])
      = (do
        let y ← x.update1 pre.length t' c
        y.update1 ((pre.length : ℤ) + 1) u' c') := by
  have hlen : x.len = pre.length + 2 + post.length := by
    simp [MPA.len, hx]; omega
  unfold updateSlice
  rw [sliceIndices_pair (by omega), ok_bind]
  simp only []
  rw [pyIndex_nat (by omega), ok_bind, ok_bind]
  have g1 : ∀ d, x.lt.getD pre.length d = t := by intro d; rw [hx]; simp [List.getD_eq_getElem?_getD]
  have g2 : ∀ d, x.lt.getD (pre.length + 1) d = u := by
    intro d; rw [hx]; simp [List.getD_eq_getElem?_getD]
  rw [show ((pre.length : ℤ) + 2 - 1) = ((pre.length + 1 : ℕ) : ℤ) by push_cast; ring,
    pyIndex_nat (by omega)]
  simp only [g1, g2, ok_bind]
  unfold NDArray.IsLocal at h1 h2
  rw [pyAssert_true h3, pyAssert_true (show adjOK [t', u'] = true by
    simp only [adjOK, Bool.and_true, Bool.and_eq_true, decide_eq_true_eq, beq_iff_eq]
    exact ⟨⟨by omega, by omega⟩, h4⟩), pyAssert_true (show u.rb = ([t', u'].getLastD t').rb from h5)]
  simp only [ok_bind, pyRange_pair, canonSeq, updateLoop]
  have hp : x.update1 (pre.length : ℤ) t' c = x.update1 (pre.length : ℤ) t' c := rfl
  congr 1
  funext y
  cases y.update1 ((pre.length : ℤ) + 1) u' c' <;> rfl

theorem set_pair {pre post : List (NDArray R)} {t u t' u' : NDArray R} :
    ((pre ++ t :: u :: post).set pre.length t').set (pre.length + 1) u' = pre ++ t' :: u' :: post := by
  rw [List.set_append_right _ _ (le_refl _), Nat.sub_self, List.set_cons_zero,
    List.set_append_right _ _ (by omega), Nat.add_sub_cancel_left, List.set_cons_succ, List.set_cons_zero]

/-- Left update of the first site behind the left-canonical part. -/
theorem update_pair_left {x : MPA R} {pre post : List (NDArray R)} {t u t' u' : NDArray R}
    (hx : x.lt = pre ++ t :: u :: post) (h1 : t'.IsLocal) (h2 : u'.IsLocal) (h3 : t.lb = t'.lb)
    (h4 : t'.rb = u'.lb) (h5 : u.rb = u'.rb) (hl : (pre.length : ℤ) ≤ x.l) :
    x.updateSlice (some (pre.length : ℤ)) (some ((pre.length : ℤ) + 2)) none [t', u']
        (.seq [some .left, none])
      = .ok ⟨pre ++ t' :: u' :: post, pre.length + 1, max (pre.length + 2) x.r⟩ := by
  have hlen : x.len = pre.length + 2 + post.length := by simp [MPA.len, hx]; omega
  rw [updateSlice_pair hx h1 h2 h3 h4 h5, update1_ok x (by omega), ok_bind,
    if_pos ⟨rfl, by omega⟩, show (pre.length : ℤ) + 1 = ((pre.length + 1 : ℕ) : ℤ) by push_cast; rfl,
    update1_ok _ (by simp [MPA.len, hx]), if_neg (by simp), if_neg (by simp)]
  simp only [hx, set_pair]
  congr 2; push_cast; omega

/-- Right update of the last site before the right-canonical part. -/
theorem update_pair_right {x : MPA R} {pre post : List (NDArray R)} {t u t' u' : NDArray R}
    (hx : x.lt = pre ++ t :: u :: post) (h1 : t'.IsLocal) (h2 : u'.IsLocal) (h3 : t.lb = t'.lb)
    (h4 : t'.rb = u'.lb) (h5 : u.rb = u'.rb) (hr : x.r ≤ pre.length + 2) :
    x.updateSlice (some (pre.length : ℤ)) (some ((pre.length : ℤ) + 2)) none [t', u']
        (.seq [none, some .right])
      = .ok ⟨pre ++ t' :: u' :: post, min pre.length x.l, pre.length + 1⟩ := by
  have hlen : x.len = pre.length + 2 + post.length := by simp [MPA.len, hx]; omega
  rw [updateSlice_pair hx h1 h2 h3 h4 h5, update1_ok x (by omega), ok_bind,
    if_neg (by simp), if_neg (by simp),
    show (pre.length : ℤ) + 1 = ((pre.length + 1 : ℕ) : ℤ) by push_cast; rfl,
    update1_ok _ (by simp [MPA.len, hx]), if_neg (by simp), if_pos ⟨rfl, by push_cast; omega⟩]
  simp only [hx, set_pair]
  congr 2
  push_cast; omega

end MPA

end Mpnum
