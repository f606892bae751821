import Verif.Spec

/-! Lemmas about the matrix product formula `mp`, sums over physical indices and isometries. -/

open Finset

namespace Mpnum

variable {R : Type}

/-! ### sumSites -/

section sumSites

@[simp] theorem sumSites_nil [AddCommMonoid R] (f : List (List ℕ) → R) : sumSites [] f = f [] := rfl

@[simp] theorem sumSites_cons [AddCommMonoid R] (s : List ℕ) (ss : List (List ℕ))
    (f : List (List ℕ) → R) :
    sumSites (s :: ss) f = sumIdx s fun i => sumSites ss fun is => f (i :: is) := rfl

theorem sumSites_congr [AddCommMonoid R] {s : List (List ℕ)} {f g : List (List ℕ) → R}
    (h : ∀ i, IdxOK i s → f i = g i) : sumSites s f = sumSites s g := by
  induction s generalizing f g with
  | nil => exact h [] List.Forall₂.nil
  | cons d s ih =>
    simp only [sumSites_cons]
    exact sumIdx_congr fun i hi => ih fun is his => h _ (List.Forall₂.cons hi his)

theorem sumSites_append [AddCommMonoid R] (s t : List (List ℕ)) (f : List (List ℕ) → R) :
    sumSites (s ++ t) f = sumSites s fun i => sumSites t fun j => f (i ++ j) := by
  induction s generalizing f with
  | nil => simp
  | cons d s ih => simp [ih]

theorem sumSites_zero [AddCommMonoid R] (s : List (List ℕ)) : sumSites s (fun _ => (0 : R)) = 0 := by
  induction s with
  | nil => rfl
  | cons d s ih => simp [ih, sumIdx_zero]

theorem sumSites_add [AddCommMonoid R] (s : List (List ℕ)) (f g : List (List ℕ) → R) :
    sumSites s (fun i => f i + g i) = sumSites s f + sumSites s g := by
  induction s generalizing f g with
  | nil => rfl
  | cons d s ih => simp [ih, sumIdx_add]

theorem mul_sumSites [NonUnitalNonAssocSemiring R] (s : List (List ℕ)) (c : R)
    (f : List (List ℕ) → R) : c * sumSites s f = sumSites s (fun i => c * f i) := by
  induction s generalizing f with
  | nil => rfl
  | cons d s ih => simp [mul_sumIdx, ih]

theorem sumSites_mul [NonUnitalNonAssocSemiring R] (s : List (List ℕ)) (c : R)
    (f : List (List ℕ) → R) : sumSites s f * c = sumSites s (fun i => f i * c) := by
  induction s generalizing f with
  | nil => rfl
  | cons d s ih => simp [sumIdx_mul, ih]

theorem sumSites_sum_comm [AddCommMonoid R] {ι : Type*} (s : List (List ℕ)) (t : Finset ι)
    (f : List (List ℕ) → ι → R) :
    sumSites s (fun i => ∑ j ∈ t, f i j) = ∑ j ∈ t, sumSites s (fun i => f i j) := by
  induction s generalizing f with
  | nil => rfl
  | cons d s ih => simp only [sumSites_cons, ih, sumIdx_sum_comm]

theorem sumSites_sumIdx_comm [AddCommMonoid R] (s : List (List ℕ)) (t : List ℕ)
    (f : List (List ℕ) → List ℕ → R) :
    sumSites s (fun i => sumIdx t fun j => f i j) = sumIdx t fun j => sumSites s (fun i => f i j) := by
  induction s generalizing f with
  | nil => rfl
  | cons d s ih =>
    simp only [sumSites_cons, ih]
    rw [sumIdx_comm]

theorem sumSites_comm [AddCommMonoid R] (s t : List (List ℕ))
    (f : List (List ℕ) → List (List ℕ) → R) :
    sumSites s (fun i => sumSites t fun j => f i j) = sumSites t fun j => sumSites s (fun i => f i j) := by
  induction t generalizing f with
  | nil => rfl
  | cons d t ih => simp only [sumSites_cons, sumSites_sumIdx_comm, ih]

theorem star_sumSites [AddCommMonoid R] [StarAddMonoid R] (s : List (List ℕ))
    (f : List (List ℕ) → R) : star (sumSites s f) = sumSites s (fun i => star (f i)) := by
  induction s generalizing f with
  | nil => rfl
  | cons d s ih => simp [star_sumIdx, ih]

/-- The sum over per-site indices is the sum over the concatenated index. -/
theorem sumSites_flatten [AddCommMonoid R] (s : List (List ℕ)) (f : List ℕ → R) :
    sumSites s (fun i => f i.flatten) = sumIdx s.flatten f := by
  induction s generalizing f with
  | nil => rfl
  | cons d s ih =>
    simp only [sumSites_cons, List.flatten_cons, sumIdx_append]
    exact sumIdx_congr fun i _ => ih (fun j => f (i ++ j))

end sumSites

/-! ### in-range site indices -/

@[simp] theorem idxOK_nil : IdxOK [] [] := List.Forall₂.nil

@[simp] theorem idxOK_cons {i s : List ℕ} {is ss : List (List ℕ)} :
    IdxOK (i :: is) (s :: ss) ↔ InB i s ∧ IdxOK is ss := by
  unfold IdxOK; simp

theorem idxOK_length {is ss : List (List ℕ)} (h : IdxOK is ss) : is.length = ss.length :=
  List.Forall₂.length_eq h

theorem idxOK_append {is ss js ts : List (List ℕ)} (h : IdxOK is ss) (h' : IdxOK js ts) :
    IdxOK (is ++ js) (ss ++ ts) := by
  induction h with
  | nil => simpa using h'
  | cons h _ ih => exact List.Forall₂.cons h ih

theorem idxOK_append_split {i : List (List ℕ)} {s t : List (List ℕ)} (h : IdxOK i (s ++ t)) :
    ∃ i₁ i₂, i = i₁ ++ i₂ ∧ IdxOK i₁ s ∧ IdxOK i₂ t := by
  induction s generalizing i with
  | nil => exact ⟨[], i, by simp, by simp, by simpa using h⟩
  | cons d s ih =>
    cases i with
    | nil => cases h
    | cons a i =>
      simp only [List.cons_append, idxOK_cons] at h
      obtain ⟨i₁, i₂, rfl, h1, h2⟩ := ih h.2
      exact ⟨a :: i₁, i₂, by simp, by simp [h.1, h1], h2⟩

theorem idxOK_flatten {is ss : List (List ℕ)} (h : IdxOK is ss) : InB is.flatten ss.flatten := by
  induction h with
  | nil => simp
  | cons h _ ih => simpa using inB_append h ih

theorem idxOK_flatten_split {i : List ℕ} {ss : List (List ℕ)} (h : InB i ss.flatten) :
    ∃ is, i = is.flatten ∧ IdxOK is ss := by
  induction ss generalizing i with
  | nil => simp at h; exact ⟨[], by simp [h], by simp⟩
  | cons s ss ih =>
    simp only [List.flatten_cons] at h
    obtain ⟨i1, i2, rfl, h1, h2⟩ := inB_append_split h
    obtain ⟨is, rfl, h3⟩ := ih h2
    exact ⟨i1 :: is, by simp, by simp [h1, h3]⟩

/-! ### Chained -/

@[simp] theorem chained_nil {l r : ℕ} : Chained l ([] : List (NDArray R)) r ↔ l = r := Iff.rfl

@[simp] theorem chained_cons {l r : ℕ} {t : NDArray R} {ts : List (NDArray R)} :
    Chained l (t :: ts) r ↔ t.IsLocal ∧ t.lb = l ∧ Chained t.rb ts r := Iff.rfl

theorem chained_append {l r : ℕ} {xs ys : List (NDArray R)} :
    Chained l (xs ++ ys) r ↔ ∃ m, Chained l xs m ∧ Chained m ys r := by
  induction xs generalizing l with
  | nil => simp
  | cons t ts ih =>
    simp only [List.cons_append, chained_cons, ih]
    constructor
    · rintro ⟨h1, h2, m, h3, h4⟩; exact ⟨m, ⟨h1, h2, h3⟩, h4⟩
    · rintro ⟨m, ⟨h1, h2, h3⟩, h4⟩; exact ⟨h1, h2, m, h3, h4⟩

theorem chained_concat {l r : ℕ} {xs : List (NDArray R)} {t : NDArray R} :
    Chained l (xs ++ [t]) r ↔ Chained l xs t.lb ∧ t.IsLocal ∧ t.rb = r := by
  rw [chained_append]
  constructor
  · rintro ⟨m, h1, h2, h3, h4⟩; subst h3; exact ⟨h1, h2, h4⟩
  · rintro ⟨h1, h2, h3⟩; exact ⟨_, h1, h2, rfl, h3⟩

theorem Chained.isLocal {l r : ℕ} {ts : List (NDArray R)} (h : Chained l ts r) :
    ∀ t ∈ ts, t.IsLocal := by
  induction ts generalizing l with
  | nil => simp
  | cons t ts ih =>
    intro u hu
    rcases List.mem_cons.1 hu with rfl | hu
    · exact h.1
    · exact ih h.2.2 u hu

theorem Chained.adjOK_aux {l r : ℕ} {ts : List (NDArray R)} (h : Chained l ts r) :
    ∀ t u xs ys, ts = xs ++ t :: u :: ys → t.rb = u.lb := by
  rintro t u xs ys rfl
  rw [chained_append] at h
  obtain ⟨m, _, _, _, _, h4, _⟩ := h
  exact h4.symm

/-! ### mp -/

section mp
variable [CommSemiring R]

@[simp] theorem mp_nil (is : List (List ℕ)) (a b : ℕ) :
    mp ([] : List (NDArray R)) is a b = if a = b then 1 else 0 := by cases is <;> rfl

@[simp] theorem mp_cons (t : NDArray R) (ts : List (NDArray R)) (p : List ℕ) (ps : List (List ℕ))
    (a b : ℕ) : mp (t :: ts) (p :: ps) a b = ∑ c ∈ range t.rb, t.at3 a p c * mp ts ps c b := rfl

theorem mp_append {l m : ℕ} {xs ys : List (NDArray R)} {is js : List (List ℕ)} {a b : ℕ}
    (h : Chained l xs m) (hl : is.length = xs.length) (ha : a < l) :
    mp (xs ++ ys) (is ++ js) a b = ∑ c ∈ range m, mp xs is a c * mp ys js c b := by
  induction xs generalizing l is a with
  | nil =>
    have : is = [] := by simpa using hl
    subst this
    simp only [chained_nil] at h; subst h
    simp only [List.nil_append, mp_nil, ite_mul, one_mul, zero_mul]
    rw [Finset.sum_ite_eq, if_pos (by simpa using ha)]
  | cons t ts ih =>
    cases is with
    | nil => simp at hl
    | cons p ps =>
      obtain ⟨_, h2, h3⟩ := h
      simp only [List.cons_append, mp_cons, Finset.sum_mul]
      rw [Finset.sum_comm]
      refine Finset.sum_congr rfl fun c hc => ?_
      rw [ih h3 (by simpa using hl) (by simpa using hc), Finset.mul_sum]
      exact Finset.sum_congr rfl fun d _ => by ring

theorem mp_concat {l : ℕ} {xs : List (NDArray R)} {t : NDArray R} {is : List (List ℕ)} {p : List ℕ}
    {a b : ℕ} (h : Chained l xs t.lb) (hl : is.length = xs.length) (ha : a < l) (hb : b < t.rb) :
    mp (xs ++ [t]) (is ++ [p]) a b = ∑ c ∈ range t.lb, mp xs is a c * t.at3 c p b := by
  rw [mp_append h hl ha]
  refine Finset.sum_congr rfl fun c _ => ?_
  simp only [mp_cons, mp_nil, mul_ite, mul_one, mul_zero]
  rw [Finset.sum_ite_eq' , if_pos (by simpa using hb)]

theorem mp_single {t : NDArray R} {p : List ℕ} {a b : ℕ} (hb : b < t.rb) :
    mp [t] [p] a b = t.at3 a p b := by
  simp only [mp_cons, mp_nil, mul_ite, mul_one, mul_zero]
  rw [Finset.sum_ite_eq', if_pos (by simpa using hb)]

/-- `mp` depends only on the observable entries of the local tensors. -/
theorem mp_congr {l r : ℕ} {ts us : List (NDArray R)} {is : List (List ℕ)} {a b : ℕ}
    (h : List.Forall₂ NDArray.Eqv ts us) (hc : Chained l ts r) (hi : IdxOK is (physShape ts))
    (ha : a < l) : mp ts is a b = mp us is a b := by
  induction h generalizing l is a with
  | nil => rfl
  | @cons t u ts us htu _ ih =>
    cases is with
    | nil => rfl
    | cons p ps =>
      simp only [physShape, List.map_cons, idxOK_cons] at hi
      obtain ⟨h1, h2, h3⟩ := hc
      have hrb : u.rb = t.rb := by unfold NDArray.rb; rw [htu.1]
      simp only [mp_cons, hrb]
      refine Finset.sum_congr rfl fun c hc' => ?_
      have hc'' : c < t.rb := by simpa using hc'
      rw [ih h3 hi.2 hc'']
      congr 1
      apply htu.2
      rw [NDArray.shape_local h1]
      exact inB_local (by omega) hi.1 hc''

end mp

/-! ### isometries -/

section canon
variable [CommRing R] [StarRing R]

theorem star_mp (ts : List (NDArray R)) (is : List (List ℕ)) (a b : ℕ) :
    star (mp ts is a b) = mp (ts.map NDArray.conj) is a b := by
  induction ts generalizing is a with
  | nil => simp only [List.map_nil, mp_nil]; split <;> simp
  | cons t ts ih =>
    cases is with
    | nil => simp only [List.map_cons, mp]; split <;> simp
    | cons p ps =>
      simp only [List.map_cons, mp_cons, star_sum, star_mul', ih]
      rfl

/-- A chain of left-canonical tensors is an isometry. -/
theorem lcanon_sum {l r : ℕ} {ts : List (NDArray R)} (h : Chained l ts r)
    (hc : ∀ t ∈ ts, LCanon t) {b b' : ℕ} (hb : b < r) (hb' : b' < r) :
    (∑ a ∈ range l, sumSites (physShape ts) fun i => star (mp ts i a b) * mp ts i a b')
      = if b = b' then 1 else 0 := by
  induction ts generalizing l with
  | nil =>
    simp only [chained_nil] at h; subst h
    simp only [physShape, List.map_nil, sumSites_nil, mp_nil]
    have : ∀ a, (star (if a = b then (1 : R) else 0)) * (if a = b' then 1 else 0)
        = if a = b then (if b = b' then 1 else 0) else 0 := by
      intro a
      by_cases h1 : a = b
      · subst h1; simp
      · simp [h1]
    simp only [this]
    rw [Finset.sum_ite_eq', if_pos (by simpa using hb)]
  | cons t ts ih =>
    obtain ⟨_, h2, h3⟩ := h
    have ih' := ih h3 (fun u hu => hc u (by simp [hu]))
    have hct := hc t (by simp)
    subst h2
    simp only [physShape, List.map_cons, sumSites_cons, mp_cons]
    have step : ∀ a, (sumIdx t.ph fun p => sumSites (ts.map NDArray.ph) fun i =>
          star (∑ c ∈ range t.rb, t.at3 a p c * mp ts i c b) *
            ∑ c ∈ range t.rb, t.at3 a p c * mp ts i c b')
        = ∑ c ∈ range t.rb, ∑ c' ∈ range t.rb,
            (sumIdx t.ph fun p => star (t.at3 a p c) * t.at3 a p c') *
            (sumSites (ts.map NDArray.ph) fun i => star (mp ts i c b) * mp ts i c' b') := by
      intro a
      have e : ∀ p i, star (∑ c ∈ range t.rb, t.at3 a p c * mp ts i c b) *
            (∑ c ∈ range t.rb, t.at3 a p c * mp ts i c b')
          = ∑ c ∈ range t.rb, ∑ c' ∈ range t.rb,
            (star (t.at3 a p c) * t.at3 a p c') * (star (mp ts i c b) * mp ts i c' b') := by
        intro p i
        rw [star_sum, Finset.sum_mul_sum]
        refine Finset.sum_congr rfl fun c _ => Finset.sum_congr rfl fun c' _ => ?_
        rw [star_mul']; ring
      simp only [e, sumSites_sum_comm, sumIdx_sum_comm]
      refine Finset.sum_congr rfl fun c _ => Finset.sum_congr rfl fun c' _ => ?_
      rw [sumIdx_mul]
      exact sumIdx_congr fun p _ => (mul_sumSites _ _ _).symm
    simp only [step]
    rw [Finset.sum_comm]
    have step2 : ∀ c ∈ range t.rb, (∑ a ∈ range t.lb, ∑ c' ∈ range t.rb,
            (sumIdx t.ph fun p => star (t.at3 a p c) * t.at3 a p c') *
            (sumSites (ts.map NDArray.ph) fun i => star (mp ts i c b) * mp ts i c' b'))
        = sumSites (ts.map NDArray.ph) fun i => star (mp ts i c b) * mp ts i c b' := by
      intro c hc'
      rw [Finset.sum_comm]
      have : ∀ c' ∈ range t.rb, (∑ a ∈ range t.lb,
            (sumIdx t.ph fun p => star (t.at3 a p c) * t.at3 a p c') *
            (sumSites (ts.map NDArray.ph) fun i => star (mp ts i c b) * mp ts i c' b'))
          = if c = c' then
            (sumSites (ts.map NDArray.ph) fun i => star (mp ts i c b) * mp ts i c' b') else 0 := by
        intro c' hc''
        rw [← Finset.sum_mul, hct c (by simpa using hc') c' (by simpa using hc'')]
        split <;> simp
      rw [Finset.sum_congr rfl this, Finset.sum_ite_eq, if_pos hc']
    rw [Finset.sum_congr rfl step2]
    exact ih'

/-- A chain of right-canonical tensors is a co-isometry. -/
theorem rcanon_sum {l r : ℕ} {ts : List (NDArray R)} (h : Chained l ts r)
    (hc : ∀ t ∈ ts, RCanon t) {a a' : ℕ} (ha : a < l) (ha' : a' < l) :
    (∑ b ∈ range r, sumSites (physShape ts) fun i => mp ts i a b * star (mp ts i a' b))
      = if a = a' then 1 else 0 := by
  induction ts generalizing l a a' with
  | nil =>
    simp only [chained_nil] at h; subst h
    simp only [physShape, List.map_nil, sumSites_nil, mp_nil]
    have : ∀ b, (if a = b then (1 : R) else 0) * star (if a' = b then (1 : R) else 0)
        = if a = b then (if a = a' then 1 else 0) else 0 := by
      intro b
      by_cases h1 : a = b
      · subst h1; by_cases h2 : a' = a
        · simp [h2]
        · simp [h2, Ne.symm h2]
      · simp [h1]
    simp only [this]
    rw [Finset.sum_ite_eq, if_pos (by simpa using ha)]
  | cons t ts ih =>
    obtain ⟨_, h2, h3⟩ := h
    have ih' : ∀ c ∈ range t.rb, ∀ c' ∈ range t.rb, _ := fun c hc1 c' hc2 =>
      ih h3 (fun u hu => hc u (by simp [hu])) (a := c) (a' := c') (by simpa using hc1)
        (by simpa using hc2)
    have hct := hc t (by simp)
    subst h2
    simp only [physShape, List.map_cons, sumSites_cons, mp_cons]
    have step : ∀ b, (sumIdx t.ph fun p => sumSites (ts.map NDArray.ph) fun i =>
          (∑ c ∈ range t.rb, t.at3 a p c * mp ts i c b) *
            star (∑ c ∈ range t.rb, t.at3 a' p c * mp ts i c b))
        = ∑ c ∈ range t.rb, ∑ c' ∈ range t.rb,
            (sumIdx t.ph fun p => t.at3 a p c * star (t.at3 a' p c')) *
            (sumSites (ts.map NDArray.ph) fun i => mp ts i c b * star (mp ts i c' b)) := by
      intro b
      have e : ∀ p i, (∑ c ∈ range t.rb, t.at3 a p c * mp ts i c b) *
            star (∑ c ∈ range t.rb, t.at3 a' p c * mp ts i c b)
          = ∑ c ∈ range t.rb, ∑ c' ∈ range t.rb,
            (t.at3 a p c * star (t.at3 a' p c')) * (mp ts i c b * star (mp ts i c' b)) := by
        intro p i
        rw [star_sum, Finset.sum_mul_sum]
        refine Finset.sum_congr rfl fun c _ => Finset.sum_congr rfl fun c' _ => ?_
        rw [star_mul']; ring
      simp only [e, sumSites_sum_comm, sumIdx_sum_comm]
      refine Finset.sum_congr rfl fun c _ => Finset.sum_congr rfl fun c' _ => ?_
      rw [sumIdx_mul]
      exact sumIdx_congr fun p _ => (mul_sumSites _ _ _).symm
    simp only [step]
    rw [Finset.sum_comm]
    have step2 : ∀ c ∈ range t.rb, (∑ b ∈ range r, ∑ c' ∈ range t.rb,
            (sumIdx t.ph fun p => t.at3 a p c * star (t.at3 a' p c')) *
            (sumSites (ts.map NDArray.ph) fun i => mp ts i c b * star (mp ts i c' b)))
        = sumIdx t.ph fun p => t.at3 a p c * star (t.at3 a' p c) := by
      intro c hc'
      rw [Finset.sum_comm]
      have : ∀ c' ∈ range t.rb, (∑ b ∈ range r,
            (sumIdx t.ph fun p => t.at3 a p c * star (t.at3 a' p c')) *
            (sumSites (ts.map NDArray.ph) fun i => mp ts i c b * star (mp ts i c' b)))
          = if c = c' then (sumIdx t.ph fun p => t.at3 a p c * star (t.at3 a' p c')) else 0 := by
        intro c' hc''
        have := ih' c hc' c' hc''
        simp only [physShape] at this
        rw [← Finset.mul_sum, this]
        split <;> simp
      rw [Finset.sum_congr rfl this, Finset.sum_ite_eq, if_pos hc']
    rw [Finset.sum_congr rfl step2]
    exact hct a ha a' ha'

end canon

end Mpnum
