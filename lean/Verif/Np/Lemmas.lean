import Verif.Np.Basic

/-! Lemmas about the numpy model: index arithmetic, reshaping, contraction. -/

open Finset

namespace Mpnum

variable {R : Type}

theorem list_prod_pos {l : List ℕ} (h : ∀ d ∈ l, 0 < d) : 0 < l.prod := by
  induction l with
  | nil => simp
  | cons a l ih =>
    rw [List.prod_cons]
    exact Nat.mul_pos (h a (by simp)) (ih fun d hd => h d (by simp [hd]))

/-! ### In-range indices -/

@[simp] theorem inB_nil : InB [] [] := List.Forall₂.nil

@[simp] theorem inB_nil_left {s : List ℕ} : InB [] s ↔ s = [] := by
  constructor
  · intro h; cases h; rfl
  · rintro rfl; exact inB_nil

@[simp] theorem inB_nil_right {i : List ℕ} : InB i [] ↔ i = [] := by
  constructor
  · intro h; cases h; rfl
  · rintro rfl; exact inB_nil

@[simp] theorem inB_cons {i d : ℕ} {is ds : List ℕ} :
    InB (i :: is) (d :: ds) ↔ i < d ∧ InB is ds := by
  unfold InB; simp

theorem inB_length {i s : List ℕ} (h : InB i s) : i.length = s.length :=
  List.Forall₂.length_eq h

theorem inB_append {i j s t : List ℕ} (hi : InB i s) (hj : InB j t) : InB (i ++ j) (s ++ t) := by
  induction hi with
  | nil => simpa using hj
  | cons h _ ih => exact List.Forall₂.cons h ih

theorem inB_append_iff {i j s t : List ℕ} (hl : i.length = s.length) :
    InB (i ++ j) (s ++ t) ↔ InB i s ∧ InB j t := by
  induction i generalizing s with
  | nil =>
    cases s with
    | nil => simp
    | cons _ _ => simp at hl
  | cons a i ih =>
    cases s with
    | nil => simp at hl
    | cons b s =>
      simp only [List.length_cons, Nat.add_right_cancel_iff] at hl
      simp [ih hl, and_assoc]

theorem inB_append_split {i s t : List ℕ} (h : InB i (s ++ t)) :
    ∃ i₁ i₂, i = i₁ ++ i₂ ∧ InB i₁ s ∧ InB i₂ t := by
  induction s generalizing i with
  | nil => exact ⟨[], i, by simp, by simp, by simpa using h⟩
  | cons d s ih =>
    cases i with
    | nil => simp at h
    | cons a i =>
      simp only [List.cons_append, inB_cons] at h
      obtain ⟨i₁, i₂, rfl, h1, h2⟩ := ih h.2
      exact ⟨a :: i₁, i₂, by simp, by simp [h.1, h1], h2⟩

theorem inB_cons_split {i s : List ℕ} {d : ℕ} (h : InB i (d :: s)) :
    ∃ a i', i = a :: i' ∧ a < d ∧ InB i' s := by
  cases i with
  | nil => simp at h
  | cons a i => exact ⟨a, i, rfl, by simpa using h⟩

theorem inB_getD {i s : List ℕ} (h : InB i s) {n : ℕ} (hn : n < s.length) :
    i.getD n 0 < s.getD n 0 := by
  induction h generalizing n with
  | nil => simp at hn
  | cons h _ ih =>
    cases n with
    | zero => simpa using h
    | succ n => simpa using ih (by simpa using hn)

/-- Shape with left bond `l`, physical shape `p` and right bond `r`: splitting an index. -/
theorem inB_local_split {i p : List ℕ} {l r : ℕ} (h : InB i (l :: (p ++ [r]))) :
    ∃ a q b, i = a :: (q ++ [b]) ∧ a < l ∧ InB q p ∧ b < r := by
  obtain ⟨a, i', rfl, ha, hi⟩ := inB_cons_split h
  obtain ⟨q, j, rfl, hq, hj⟩ := inB_append_split hi
  obtain ⟨b, j', rfl, hb, hj'⟩ := inB_cons_split hj
  simp at hj'
  subst hj'
  exact ⟨a, q, b, rfl, ha, hq, hb⟩

theorem inB_local {a b l r : ℕ} {q p : List ℕ} (ha : a < l) (hq : InB q p) (hb : b < r) :
    InB (a :: (q ++ [b])) (l :: (p ++ [r])) := by
  simp only [inB_cons]
  exact ⟨ha, inB_append hq (by simp [hb])⟩

/-! ### Row-major positions -/

@[simp] theorem ravelIdx_nil (i : List ℕ) : ravelIdx [] i = 0 := by simp [ravelIdx]

@[simp] theorem ravelIdx_cons (d i : ℕ) (ds is : List ℕ) :
    ravelIdx (d :: ds) (i :: is) = i * ds.prod + ravelIdx ds is := rfl

@[simp] theorem unravelIdx_nil (n : ℕ) : unravelIdx [] n = [] := rfl

@[simp] theorem unravelIdx_cons (d n : ℕ) (ds : List ℕ) :
    unravelIdx (d :: ds) n = n / ds.prod :: unravelIdx ds (n % ds.prod) := rfl

@[simp] theorem unravelIdx_length (s : List ℕ) (n : ℕ) : (unravelIdx s n).length = s.length := by
  induction s generalizing n with
  | nil => rfl
  | cons d s ih => simp [ih]

theorem ravelIdx_lt {i s : List ℕ} (h : InB i s) : ravelIdx s i < s.prod := by
  induction h with
  | nil => simp
  | @cons a d i s h _ ih =>
    simp only [ravelIdx_cons, List.prod_cons]
    calc a * s.prod + ravelIdx s i < a * s.prod + s.prod := by omega
      _ = (a + 1) * s.prod := by ring
      _ ≤ d * s.prod := Nat.mul_le_mul_right _ h

theorem unravelIdx_inB {s : List ℕ} {n : ℕ} (h : n < s.prod) : InB (unravelIdx s n) s := by
  induction s generalizing n with
  | nil => simp
  | cons d s ih =>
    simp only [List.prod_cons] at h
    have hp : 0 < s.prod := by
      rcases Nat.eq_zero_or_pos s.prod with h0 | h0
      · simp [h0] at h
      · exact h0
    simp only [unravelIdx_cons, inB_cons]
    exact ⟨Nat.div_lt_of_lt_mul (by rwa [Nat.mul_comm]), ih (Nat.mod_lt _ hp)⟩

theorem unravel_ravel {i s : List ℕ} (h : InB i s) : unravelIdx s (ravelIdx s i) = i := by
  induction h with
  | nil => rfl
  | @cons a d i s h h' ih =>
    have hlt := ravelIdx_lt h'
    have hp : 0 < s.prod := by omega
    simp only [ravelIdx_cons, unravelIdx_cons]
    rw [show a * s.prod + ravelIdx s i = ravelIdx s i + s.prod * a by ring,
      Nat.add_mul_div_left _ _ hp, Nat.add_mul_mod_self_left, Nat.div_eq_of_lt hlt,
      Nat.mod_eq_of_lt hlt, ih]
    simp

theorem ravel_unravel {s : List ℕ} {n : ℕ} (h : n < s.prod) : ravelIdx s (unravelIdx s n) = n := by
  induction s generalizing n with
  | nil => simp at h; simp [h]
  | cons d s ih =>
    simp only [List.prod_cons] at h
    have hp : 0 < s.prod := by
      rcases Nat.eq_zero_or_pos s.prod with h0 | h0
      · simp [h0] at h
      · exact h0
    simp only [unravelIdx_cons, ravelIdx_cons, ih (Nat.mod_lt n hp)]
    rw [Nat.mul_comm]
    exact Nat.div_add_mod n s.prod

theorem ravelIdx_append {i s : List ℕ} (j t : List ℕ) (h : i.length = s.length) :
    ravelIdx (s ++ t) (i ++ j) = ravelIdx s i * t.prod + ravelIdx t j := by
  induction s generalizing i with
  | nil =>
    have : i = [] := by simpa using h
    subst this; simp
  | cons d s ih =>
    cases i with
    | nil => simp at h
    | cons a i =>
      have := ih (i := i) (by simpa using h)
      simp only [List.cons_append, ravelIdx_cons, List.prod_append, this]
      ring

theorem unravelIdx_append {s t : List ℕ} {x y : ℕ} (hx : x < s.prod) (hy : y < t.prod) :
    unravelIdx (s ++ t) (x * t.prod + y) = unravelIdx s x ++ unravelIdx t y := by
  have h1 := unravelIdx_inB hx
  have h2 := unravelIdx_inB hy
  have h := unravel_ravel (inB_append h1 h2)
  rw [ravelIdx_append _ _ (inB_length h1), ravel_unravel hx, ravel_unravel hy] at h
  exact h

/-! ### Sums over multi-indices -/

section sumIdx

@[simp] theorem sumIdx_nil [AddCommMonoid R] (f : List ℕ → R) : sumIdx [] f = f [] := rfl

@[simp] theorem sumIdx_cons [AddCommMonoid R] (d : ℕ) (ds : List ℕ) (f : List ℕ → R) :
    sumIdx (d :: ds) f = ∑ i ∈ range d, sumIdx ds (fun is => f (i :: is)) := rfl

theorem sumIdx_congr [AddCommMonoid R] {s : List ℕ} {f g : List ℕ → R}
    (h : ∀ i, InB i s → f i = g i) : sumIdx s f = sumIdx s g := by
  induction s generalizing f g with
  | nil => exact h [] (by simp)
  | cons d s ih =>
    simp only [sumIdx_cons]
    refine Finset.sum_congr rfl fun i hi => ih fun is his => h _ ?_
    simp only [inB_cons]
    exact ⟨by simpa using hi, his⟩

theorem sumIdx_append [AddCommMonoid R] (s t : List ℕ) (f : List ℕ → R) :
    sumIdx (s ++ t) f = sumIdx s fun i => sumIdx t fun j => f (i ++ j) := by
  induction s generalizing f with
  | nil => simp
  | cons d s ih => simp [ih]

theorem sumIdx_zero [AddCommMonoid R] (s : List ℕ) : sumIdx s (fun _ => (0 : R)) = 0 := by
  induction s with
  | nil => rfl
  | cons d s ih => simp [ih]

theorem sumIdx_add [AddCommMonoid R] (s : List ℕ) (f g : List ℕ → R) :
    sumIdx s (fun i => f i + g i) = sumIdx s f + sumIdx s g := by
  induction s generalizing f g with
  | nil => rfl
  | cons d s ih => simp [ih, Finset.sum_add_distrib]

theorem mul_sumIdx [NonUnitalNonAssocSemiring R] (s : List ℕ) (c : R) (f : List ℕ → R) :
    c * sumIdx s f = sumIdx s (fun i => c * f i) := by
  induction s generalizing f with
  | nil => rfl
  | cons d s ih => simp [Finset.mul_sum, ih]

theorem sumIdx_mul [NonUnitalNonAssocSemiring R] (s : List ℕ) (c : R) (f : List ℕ → R) :
    sumIdx s f * c = sumIdx s (fun i => f i * c) := by
  induction s generalizing f with
  | nil => rfl
  | cons d s ih => simp [Finset.sum_mul, ih]

theorem sumIdx_sum_comm [AddCommMonoid R] {ι : Type*} (s : List ℕ) (t : Finset ι)
    (f : List ℕ → ι → R) :
    sumIdx s (fun i => ∑ j ∈ t, f i j) = ∑ j ∈ t, sumIdx s (fun i => f i j) := by
  induction s generalizing f with
  | nil => rfl
  | cons d s ih =>
    simp only [sumIdx_cons, ih]
    rw [Finset.sum_comm]

theorem sumIdx_comm [AddCommMonoid R] (s t : List ℕ) (f : List ℕ → List ℕ → R) :
    sumIdx s (fun i => sumIdx t (fun j => f i j)) = sumIdx t (fun j => sumIdx s (fun i => f i j)) := by
  induction t generalizing f with
  | nil => rfl
  | cons d t ih =>
    simp only [sumIdx_cons, sumIdx_sum_comm, ih]

theorem star_sumIdx [AddCommMonoid R] [StarAddMonoid R] (s : List ℕ) (f : List ℕ → R) :
    star (sumIdx s f) = sumIdx s (fun i => star (f i)) := by
  induction s generalizing f with
  | nil => rfl
  | cons d s ih => simp [star_sum, ih]

theorem sum_range_mul [AddCommMonoid R] (m n : ℕ) (f : ℕ → R) :
    ∑ i ∈ range (m * n), f i = ∑ a ∈ range m, ∑ b ∈ range n, f (a * n + b) := by
  induction m with
  | zero => simp
  | succ m ih => rw [Nat.succ_mul, Finset.sum_range_add, ih, Finset.sum_range_succ]

/-- Summation over row-major positions is summation over multi-indices. -/
theorem sum_unravel [AddCommMonoid R] (s : List ℕ) (f : List ℕ → R) :
    ∑ n ∈ range s.prod, f (unravelIdx s n) = sumIdx s f := by
  induction s generalizing f with
  | nil => rw [List.prod_nil, Finset.sum_range_one]; rfl
  | cons d s ih =>
    simp only [List.prod_cons, sumIdx_cons, sum_range_mul]
    refine Finset.sum_congr rfl fun a _ => ?_
    rw [← ih]
    refine Finset.sum_congr rfl fun b hb => ?_
    have hb' : b < s.prod := by simpa using hb
    have hp : 0 < s.prod := by omega
    rw [unravelIdx_cons, show a * s.prod + b = b + s.prod * a by ring,
      Nat.add_mul_div_left _ _ hp, Nat.add_mul_mod_self_left, Nat.div_eq_of_lt hb',
      Nat.mod_eq_of_lt hb', Nat.zero_add]

/-- The entries of an array and of a reshaped array have the same sum. -/
theorem sumIdx_reshape [AddCommMonoid R] {s t : List ℕ} (h : s.prod = t.prod) (f : List ℕ → R) :
    sumIdx t (fun i => f (unravelIdx s (ravelIdx t i))) = sumIdx s f := by
  rw [← sum_unravel t, ← sum_unravel s, h]
  refine Finset.sum_congr rfl fun n hn => ?_
  rw [ravel_unravel (by simpa using hn)]

/-- Summation over multi-indices is summation over row-major positions. -/
theorem sumIdx_ravel [AddCommMonoid R] (s : List ℕ) (f : ℕ → R) :
    sumIdx s (fun i => f (ravelIdx s i)) = ∑ n ∈ range s.prod, f n := by
  rw [← sum_unravel]
  exact Finset.sum_congr rfl fun n hn => by rw [ravel_unravel (by simpa using hn)]

end sumIdx

@[simp] theorem ravelIdx_single (n x : ℕ) : ravelIdx [n] [x] = x := by simp

@[simp] theorem unravelIdx_single (n x : ℕ) : unravelIdx [n] x = [x] := by simp

/-! ### `allIdx` -/

theorem mem_allIdx {i s : List ℕ} : i ∈ allIdx s ↔ InB i s := by
  induction s generalizing i with
  | nil => simp [allIdx]
  | cons d s ih =>
    simp only [allIdx, List.mem_flatMap, List.mem_range, List.mem_map, ih]
    constructor
    · rintro ⟨a, ha, i', hi', rfl⟩
      simp [ha, hi']
    · intro h
      obtain ⟨a, i', rfl, ha, hi⟩ := inB_cons_split h
      exact ⟨a, ha, i', hi, rfl⟩

theorem sum_allIdx [AddCommMonoid R] (s : List ℕ) (f : List ℕ → R) :
    ((allIdx s).map f).sum = sumIdx s f := by
  induction s generalizing f with
  | nil => simp [allIdx]
  | cons d s ih =>
    simp only [allIdx, sumIdx_cons]
    induction d with
    | zero => simp
    | succ d ihd =>
      rw [List.range_succ, Finset.sum_range_succ, List.flatMap_append, List.map_append,
        List.sum_append, ihd]
      congr 1
      rw [← ih]
      simp [List.map_map, Function.comp_def]

/-! ### Python sequence indices -/

theorem pyIndex_nat {n i : ℕ} (h : i < n) : pyIndex n (i : ℤ) = .ok i := by
  simp [pyIndex, h]

theorem pyIndex_neg {n i : ℕ} (h1 : 0 < i) (h2 : i ≤ n) : pyIndex n (-(i : ℤ)) = .ok (n - i) := by
  unfold pyIndex
  rw [if_neg (by omega), if_pos (by omega)]
  congr 1; omega

theorem pyIndex_lt {n j : ℕ} {i : ℤ} (h : pyIndex n i = .ok j) : j < n := by
  unfold pyIndex at h
  split_ifs at h <;> cases h <;> omega

/-! ### Except -/

@[simp] theorem ok_bind {α β : Type} (a : α) (f : α → Py β) :
    ((Except.ok a : Py α) >>= f) = f a := rfl

@[simp] theorem error_bind {α β : Type} (e : PyErr) (f : α → Py β) :
    ((Except.error e : Py α) >>= f) = .error e := rfl

@[simp] theorem py_pure {α : Type} (a : α) : (pure a : Py α) = .ok a := rfl

@[simp] theorem py_map_ok {α β : Type} (f : α → β) (a : α) :
    f <$> (Except.ok a : Py α) = .ok (f a) := rfl

theorem pyAssert_true {b : Prop} [Decidable b] (h : b) : pyAssert b = .ok () := by
  simp [pyAssert, h]

theorem pyAssert_false {b : Prop} [Decidable b] (h : ¬ b) : pyAssert b = .error .assertion := by
  simp [pyAssert, h]

theorem mapM_ok {α β : Type} {f : α → Py β} {g : α → β} {l : List α}
    (h : ∀ a ∈ l, f a = .ok (g a)) : l.mapM f = .ok (l.map g) := by
  induction l with
  | nil => rfl
  | cons a l ih =>
    rw [List.mapM_cons, h a (by simp), ih fun b hb => h b (by simp [hb])]
    rfl

theorem mapM_ok_iff {α β : Type} {f : α → Py β} {l : List α} {r : List β} :
    l.mapM f = .ok r ↔ List.Forall₂ (fun a b => f a = .ok b) l r := by
  induction l generalizing r with
  | nil =>
    simp only [List.mapM_nil, List.forall₂_nil_left_iff]
    constructor
    · intro h; cases h; rfl
    · rintro rfl; rfl
  | cons a l ih =>
    rw [List.mapM_cons]
    cases hfa : f a with
    | error e =>
      constructor
      · intro h; cases h
      · intro h; cases h with
        | cons h1 _ => rw [hfa] at h1; cases h1
    | ok b =>
      cases hl : l.mapM f with
      | error e =>
        constructor
        · intro h; cases h
        · intro h; cases h with
          | cons _ h2 => rw [← ih] at h2; rw [hl] at h2; cases h2
      | ok bs =>
        constructor
        · intro h; cases h
          exact List.Forall₂.cons hfa (ih.1 hl)
        · intro h; cases h with
          | cons h1 h2 =>
            rw [hfa] at h1; cases h1
            rw [← ih, hl] at h2; cases h2
            rfl

/-! ### reshape -/

namespace NDArray

@[simp] theorem reshapeTo_shape (a : NDArray R) (s : List ℕ) : (a.reshapeTo s).shape = s := rfl

theorem reshapeTo_get (a : NDArray R) (s i : List ℕ) :
    (a.reshapeTo s).get i = a.get (unravelIdx a.shape (ravelIdx s i)) := rfl

theorem filter_cast_neg (s : List ℕ) : (s.map (fun n : ℕ => (n : ℤ))).filter (· < 0) = [] := by
  rw [List.filter_eq_nil_iff]; intro a ha; simp at ha; obtain ⟨n, _, rfl⟩ := ha; simp

theorem filter_cast_nonneg (s : List ℕ) :
    (s.map (fun n : ℕ => (n : ℤ))).filter (0 ≤ ·) = s.map (fun n : ℕ => (n : ℤ)) := by
  rw [List.filter_eq_self]; intro a ha; simp at ha; obtain ⟨n, _, rfl⟩ := ha; simp

theorem map_toNat_cast (s : List ℕ) : (s.map (fun n : ℕ => (n : ℤ))).map Int.toNat = s := by
  simp [Function.comp_def]

theorem resolveShape_nat {size : ℕ} {s : List ℕ} (h : s.prod = size) :
    resolveShape size (s.map (fun n : ℕ => (n : ℤ))) = .ok s := by
  unfold resolveShape
  simp only [filter_cast_neg, filter_cast_nonneg, map_toNat_cast, h, if_true]

theorem resolveShape_nat_ne {size : ℕ} {s : List ℕ} (h : s.prod ≠ size) :
    resolveShape size (s.map (fun n : ℕ => (n : ℤ))) = .error .value := by
  unfold resolveShape
  simp only [filter_cast_neg, filter_cast_nonneg, map_toNat_cast, h, if_false]

theorem resolveShape_infer {size d : ℕ} {s t : List ℕ} (h : s.prod * d * t.prod = size)
    (hp : 0 < s.prod * t.prod) :
    resolveShape size (s.map (fun n : ℕ => (n : ℤ)) ++ [-1] ++ t.map (fun n : ℕ => (n : ℤ)))
      = .ok (s ++ [d] ++ t) := by
  unfold resolveShape
  have h1 : ([-1] : List ℤ).filter (· < 0) = [-1] := by decide
  have h2 : ([-1] : List ℤ).filter (0 ≤ ·) = [] := by decide
  simp only [List.filter_append, filter_cast_neg, filter_cast_nonneg, h1, h2, List.map_append,
    map_toNat_cast, List.append_nil, List.nil_append, List.prod_append]
  have hdiv : size / (s.prod * t.prod) = d := by
    rw [← h, show s.prod * d * t.prod = (s.prod * t.prod) * d by ring]
    exact Nat.mul_div_cancel_left _ hp
  have hmod : size % (s.prod * t.prod) = 0 := by
    rw [← h, show s.prod * d * t.prod = (s.prod * t.prod) * d by ring]
    exact Nat.mul_mod_right _ _
  rw [if_pos ⟨trivial, by omega, hmod⟩]
  have hx : ∀ x : ℕ, ¬ ((x : ℤ) < 0) := fun x => by omega
  simp [hdiv, Function.comp_def, hx]

theorem reshape_nat {a : NDArray R} {s : List ℕ} (h : s.prod = a.shape.prod) :
    a.reshape (s.map (fun n : ℕ => (n : ℤ))) = .ok (a.reshapeTo s) := by
  simp [reshape, size, resolveShape_nat h, Except.map]

theorem reshape_infer {a : NDArray R} {d : ℕ} {s t : List ℕ} (h : s.prod * d * t.prod = a.shape.prod)
    (hp : 0 < s.prod * t.prod) :
    a.reshape (s.map (fun n : ℕ => (n : ℤ)) ++ [-1] ++ t.map (fun n : ℕ => (n : ℤ)))
      = .ok (a.reshapeTo (s ++ [d] ++ t)) := by
  simp only [reshape, size, resolveShape_infer h hp, Except.map]

/-- Blockwise reshape: if two shapes have blocks of equal size, each block is reshaped separately. -/
theorem reshapeTo_blocks2 {a : NDArray R} {S S' T T' i j : List ℕ} (hs : a.shape = S ++ S')
    (h : T.prod = S.prod) (h' : T'.prod = S'.prod) (hi : InB i T) (hj : InB j T') :
    (a.reshapeTo (T ++ T')).get (i ++ j)
      = a.get (unravelIdx S (ravelIdx T i) ++ unravelIdx S' (ravelIdx T' j)) := by
  rw [reshapeTo_get, hs, ravelIdx_append _ _ (inB_length hi), h', unravelIdx_append]
  · rw [← h]; exact ravelIdx_lt hi
  · rw [← h']; exact ravelIdx_lt hj

theorem reshapeTo_blocks3 {a : NDArray R} {S S' S'' T T' T'' i j k : List ℕ}
    (hs : a.shape = S ++ (S' ++ S'')) (h : T.prod = S.prod) (h' : T'.prod = S'.prod)
    (h'' : T''.prod = S''.prod) (hi : InB i T) (hj : InB j T') (hk : InB k T'') :
    (a.reshapeTo (T ++ (T' ++ T''))).get (i ++ (j ++ k))
      = a.get (unravelIdx S (ravelIdx T i) ++ (unravelIdx S' (ravelIdx T' j)
          ++ unravelIdx S'' (ravelIdx T'' k))) := by
  rw [reshapeTo_blocks2 hs h (by simp [h', h'']) hi (inB_append hj hk),
    ravelIdx_append _ _ (inB_length hj), h'', unravelIdx_append]
  · rw [← h']; exact ravelIdx_lt hj
  · rw [← h'']; exact ravelIdx_lt hk

/-- Reshaping of the physical legs of a local tensor. -/
theorem reshapeTo_local {a : NDArray R} {l r x y : ℕ} {p q i : List ℕ}
    (hs : a.shape = l :: (p ++ [r])) (h : q.prod = p.prod) (hx : x < l) (hi : InB i q) (hy : y < r) :
    (a.reshapeTo (l :: (q ++ [r]))).get (x :: (i ++ [y]))
      = a.get (x :: (unravelIdx p (ravelIdx q i) ++ [y])) := by
  have := reshapeTo_blocks3 (a := a) (S := [l]) (S' := p) (S'' := [r]) (T := [l]) (T' := q)
    (T'' := [r]) (i := [x]) (j := i) (k := [y]) (by simpa using hs) rfl h rfl (by simp [hx]) hi
    (by simp [hy])
  simpa using this

end NDArray

end Mpnum
