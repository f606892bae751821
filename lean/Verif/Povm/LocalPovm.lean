import Verif.Np.Lemmas
import Verif.Np.Contract
import Mathlib.Data.Complex.Basic
import Mathlib.Analysis.Real.Sqrt

/-! # Model of mpnum/povm/localpovm.py

A `POVM` is its array `_elements` of shape `(n, d, d)`; the flag `info_complete` and the function `pinv`
are parameters of the methods that use them. -/

open Finset Classical

namespace Mpnum

/-- `a[idx] = v` for a full, non-negative index; `IndexError` if it is out of range. -/
def setItem {R : Type} (a : NDArray R) (idx : List ℕ) (v : R) : Py (NDArray R) :=
  if idx.length = a.shape.length ∧ ∀ p ∈ idx.zip a.shape, p.1 < p.2 then
    .ok ⟨a.shape, fun j => if j = idx then v else a.get j⟩
  else .error .index

/-- The pairs `i < j` in the order of the two loops on mpnum/povm/localpovm.py:94-95 and 114-115. -/
def povmPairs (dim : ℕ) : List (ℕ × ℕ) :=
  (List.range (dim - 1)).flatMap fun i => (List.range' (i + 1) (dim - (i + 1))).map fun j => (i, j)

/-- The body of the loops, mpnum/povm/localpovm.py:96-99 (`w = 1`) and 116-119 (`w = i`); the state is
`vectors` and `k`. -/
def povmBody (w : ℂ) (st : NDArray ℂ × ℕ) (p : ℕ × ℕ) : Py (NDArray ℂ × ℕ) := do
  let (v, k) := st
  let v ← setItem v [k, p.1] 1
  let v ← setItem v [k, p.2] w
  let k := k + 1
  let v ← setItem v [k, p.1] 1
  let v ← setItem v [k, p.2] (-w)
  let k := k + 1
  .ok (v, k)

/-- mpnum/povm/localpovm.py:92-101 and 112-121: the array `vectors`. -/
noncomputable def povmVectors (w : ℂ) (dim : ℕ) : Py (NDArray ℂ) := do
  let (v, _) ← (povmPairs dim).foldlM (povmBody w) (⟨[dim * (dim - 1), dim], fun _ => 0⟩, 0)
  .ok ⟨v.shape, fun i => v.get i / (Real.sqrt (2 * ((dim : ℝ) - 1)) : ℝ)⟩

/-- mpnum/povm/localpovm.py:47-59 `POVM.from_vectors`; the vectors are the rows of an array. -/
def fromVectors (v : NDArray ℂ) : NDArray ℂ :=
  ⟨[v.shape.getD 0 0, v.shape.getD 1 0, v.shape.getD 1 0], fun i =>
    v.get [i.getD 0 0, i.getD 1 0] * star (v.get [i.getD 0 0, i.getD 2 0])⟩

/-- mpnum/povm/localpovm.py:86-101 `x_povm` -/
noncomputable def xPovm (dim : ℕ) : Py (NDArray ℂ) := do .ok (fromVectors (← povmVectors 1 dim))

/-- mpnum/povm/localpovm.py:104-121 `y_povm` -/
noncomputable def yPovm (dim : ℕ) : Py (NDArray ℂ) := do
  .ok (fromVectors (← povmVectors Complex.I dim))

/-- mpnum/povm/localpovm.py:124-130 `z_povm` -/
def zPovm (dim : ℕ) : NDArray ℂ :=
  fromVectors ⟨[dim, dim], fun i => if i.getD 0 0 = i.getD 1 0 then 1 else 0⟩

/-- mpnum/povm/localpovm.py:133-149 `pauli_parts` -/
noncomputable def pauliParts (dim : ℕ) : Py (List (NDArray ℂ)) := do
  pyAssert (1 < dim)
  if dim = 2 then
    .ok [← xPovm dim, ← yPovm dim, zPovm dim]
  else
    .ok [← xPovm dim, ← yPovm dim]

/-- Iteration over a POVM: the list of its elements (arrays of shape `(d, d)`). -/
def povmElems (a : NDArray ℂ) : List (NDArray ℂ) :=
  (List.range (a.shape.headD 0)).map fun k => ⟨a.shape.tail, fun i => a.get (k :: i)⟩

/-- `np.asarray(elements)` for a list of arrays (mpnum/povm/localpovm.py:34); numpy cannot build an
array of numbers from arrays of different shape. -/
def asArray (es : List (NDArray ℂ)) : Py (NDArray ℂ) :=
  match es with
  | [] => .ok ⟨[0], fun _ => 0⟩
  | e :: es =>
    if ∀ f ∈ es, f.shape = e.shape then
      .ok ⟨(es.length + 1) :: e.shape, fun i => match i with
        | [] => 0
        | k :: j => (((e :: es)[k]?).map fun f => f.get j).getD 0⟩
    else .error .value

/-- mpnum/povm/localpovm.py:164-177 `concat`.  `assert_almost_equal(sum(weights), 1.0)` checks
`abs(sum - 1) < 1.5e-7`. -/
noncomputable def concatPovm (povms : List (NDArray ℂ)) (weights : List ℝ) : Py (NDArray ℂ) := do
  pyAssert (|weights.sum - 1| < 3 / 20000000)
  asArray (List.zipWith (fun (p : NDArray ℂ) (w : ℝ) => (povmElems p).map fun e => e.smul (w : ℂ))
    povms weights).flatten

/-- mpnum/povm/localpovm.py:152-161 `pauli_povm` -/
noncomputable def pauliPovm (dim : ℕ) : Py (NDArray ℂ) := do
  let parts ← pauliParts dim
  concatPovm parts (List.replicate parts.length (1 / (parts.length : ℝ)))

/-- mpnum/povm/localpovm.py:61-72 `POVM.probability_map` -/
def probabilityMap (a : NDArray ℂ) : Py (NDArray ℂ) := do
  let t ← a.transpose [0, 2, 1]
  t.reshape [(a.shape.headD 0 : ℤ), -1]

/-- mpnum/povm/localpovm.py:74-82 `POVM.linear_inversion_map`; `pinv` is the attribute `_pinv`. -/
def linearInversionMap (pinv : NDArray ℂ → NDArray ℂ) (a : NDArray ℂ) : Py (NDArray ℂ) := do
  .ok (pinv (← probabilityMap a))

/-- The rows of `vectors` before normalisation: `(i, j, c)` stands for `e_i + c e_j`. -/
def povmRows (w : ℂ) (ps : List (ℕ × ℕ)) : List (ℕ × ℕ × ℂ) :=
  ps.flatMap fun p => [(p.1, p.2, w), (p.1, p.2, -w)]

/-- Component `x` of `e_i + c e_j`. -/
def rowVal (q : ℕ × ℕ × ℂ) (x : ℕ) : ℂ := if x = q.2.1 then q.2.2 else if x = q.1 then 1 else 0

theorem rowVal_eq {q : ℕ × ℕ × ℂ} (h : q.1 ≠ q.2.1) (x : ℕ) :
    rowVal q x = (if x = q.1 then 1 else 0) + q.2.2 * (if x = q.2.1 then 1 else 0) := by
  unfold rowVal
  by_cases h1 : x = q.2.1
  · have : x ≠ q.1 := fun h' => h (h'.symm.trans h1)
    rw [if_pos h1, if_neg this, if_pos h1]; simp
  · rw [if_neg h1, if_neg h1]; simp

theorem setItem_ok {R : Type} {a : NDArray R} {n d k x : ℕ} (hs : a.shape = [n, d]) (hk : k < n) (hx : x < d)
    (v : R) : setItem a [k, x] v = .ok ⟨a.shape, fun j => if j = [k, x] then v else a.get j⟩ := by
  unfold setItem
  rw [if_pos]
  rw [hs]
  simp [hk, hx]

theorem povmBody_ok {w : ℂ} {v : NDArray ℂ} {n d k : ℕ} {p : ℕ × ℕ} (hs : v.shape = [n, d])
    (hk : k + 2 ≤ n) (h1 : p.1 < p.2) (h2 : p.2 < d) (hz : ∀ r x, k ≤ r → v.get [r, x] = 0) :
    ∃ v', povmBody w (v, k) p = .ok (v', k + 2) ∧ v'.shape = [n, d] ∧
      (∀ r x, r < k → v'.get [r, x] = v.get [r, x]) ∧
      (∀ x, v'.get [k, x] = rowVal (p.1, p.2, w) x) ∧
      (∀ x, v'.get [k + 1, x] = rowVal (p.1, p.2, -w) x) ∧
      ∀ r x, k + 2 ≤ r → v'.get [r, x] = 0 := by
  have e1 := setItem_ok (a := v) (k := k) (x := p.1) hs (by omega) (by omega) (1 : ℂ)
  obtain ⟨v1, hv1⟩ : ∃ v1 : NDArray ℂ, v1 = ⟨v.shape, fun j => if j = [k, p.1] then 1 else v.get j⟩ := ⟨_, rfl⟩
  rw [← hv1] at e1
  have e2 := setItem_ok (a := v1) (k := k) (x := p.2) (by rw [hv1]; exact hs) (by omega) (by omega) w
  obtain ⟨v2, hv2⟩ : ∃ v2 : NDArray ℂ, v2 = ⟨v1.shape, fun j => if j = [k, p.2] then w else v1.get j⟩ := ⟨_, rfl⟩
  rw [← hv2] at e2
  have e3 := setItem_ok (a := v2) (k := k + 1) (x := p.1) (by rw [hv2, hv1]; exact hs) (by omega) (by omega) (1 : ℂ)
  obtain ⟨v3, hv3⟩ : ∃ v3 : NDArray ℂ, v3 = ⟨v2.shape, fun j => if j = [k + 1, p.1] then 1 else v2.get j⟩ := ⟨_, rfl⟩
  rw [← hv3] at e3
  have e4 := setItem_ok (a := v3) (k := k + 1) (x := p.2) (by rw [hv3, hv2, hv1]; exact hs) (by omega) (by omega) (-w)
  obtain ⟨v4, hv4⟩ : ∃ v4 : NDArray ℂ, v4 = ⟨v3.shape, fun j => if j = [k + 1, p.2] then -w else v3.get j⟩ := ⟨_, rfl⟩
  rw [← hv4] at e4
  have hget : ∀ j, v4.get j = if j = [k + 1, p.2] then -w else if j = [k + 1, p.1] then 1 else
      if j = [k, p.2] then w else if j = [k, p.1] then 1 else v.get j := by
    intro j; rw [hv4, hv3, hv2, hv1]
  refine ⟨v4, ?_, by rw [hv4, hv3, hv2, hv1]; exact hs, ?_, ?_, ?_, ?_⟩
  · unfold povmBody
    simp only [bind, Except.bind, e1, e2, e3, e4]
  · intro r x hr
    rw [hget]
    simp [show r ≠ k + 1 by omega, show r ≠ k by omega]
  · intro x
    rw [hget]
    simp only [List.cons.injEq, show k ≠ k + 1 by omega, false_and, if_false, true_and, and_true,
      rowVal, hz k x (le_refl _)]
  · intro x
    rw [hget]
    simp only [List.cons.injEq, show k + 1 ≠ k by omega, false_and, if_false, true_and, and_true,
      rowVal, hz (k + 1) x (by omega)]
  · intro r x hr
    rw [hget]
    simp [show r ≠ k + 1 by omega, show r ≠ k by omega, hz r x (by omega)]

theorem povmLoop_ok {w : ℂ} {n d : ℕ} (ps : List (ℕ × ℕ)) : ∀ (v : NDArray ℂ) (k : ℕ),
    v.shape = [n, d] → k + 2 * ps.length ≤ n → (∀ p ∈ ps, p.1 < p.2 ∧ p.2 < d) →
    (∀ r x, k ≤ r → v.get [r, x] = 0) →
    ∃ v', ps.foldlM (povmBody w) (v, k) = .ok (v', k + 2 * ps.length) ∧ v'.shape = [n, d] ∧
      (∀ r x, r < k → v'.get [r, x] = v.get [r, x]) ∧
      ∀ r q, (povmRows w ps)[r]? = some q → ∀ x, v'.get [k + r, x] = rowVal q x := by
  induction ps with
  | nil =>
    intro v k hs hk hp hz
    exact ⟨v, rfl, hs, fun _ _ _ => rfl, fun r q h => by simp [povmRows] at h⟩
  | cons p ps ih =>
    intro v k hs hk hp hz
    rw [List.length_cons] at hk
    obtain ⟨v1, h1, h2, h3, h4, h5, h6⟩ := povmBody_ok (w := w) (p := p) hs (by omega) (hp p (by simp)).1
      (hp p (by simp)).2 hz
    obtain ⟨v2, g1, g2, g3, g4⟩ := ih v1 (k + 2) h2 (by omega) (fun q hq => hp q (by simp [hq])) h6
    refine ⟨v2, ?_, g2, ?_, ?_⟩
    · rw [List.foldlM_cons, h1]
      simp only [bind, Except.bind]
      rw [g1, List.length_cons]
      congr 2
      omega
    · intro r x hr
      rw [g3 r x (by omega), h3 r x hr]
    · intro r q hq x
      have hrows : povmRows w (p :: ps) = (p.1, p.2, w) :: (p.1, p.2, -w) :: povmRows w ps := rfl
      rw [hrows] at hq
      match r with
      | 0 =>
        simp only [List.getElem?_cons_zero, Option.some.injEq] at hq
        rw [← hq, Nat.add_zero, g3 k x (by omega), h4]
      | 1 =>
        simp only [List.getElem?_cons_succ, List.getElem?_cons_zero, Option.some.injEq] at hq
        rw [← hq, g3 (k + 1) x (by omega), h5]
      | r + 2 =>
        simp only [List.getElem?_cons_succ] at hq
        have := g4 r q hq x
        rwa [show k + 2 + r = k + (r + 2) by omega] at this

theorem mem_povmPairs {d : ℕ} {p : ℕ × ℕ} : p ∈ povmPairs d ↔ p.1 < p.2 ∧ p.2 < d := by
  unfold povmPairs
  simp only [List.mem_flatMap, List.mem_range, List.mem_map, List.mem_range'_1]
  constructor
  · rintro ⟨i, hi, j, hj, rfl⟩
    dsimp only; omega
  · rintro ⟨h1, h2⟩
    exact ⟨p.1, by omega, p.2, by omega, rfl⟩

theorem list_sum_range {M : Type} [AddCommMonoid M] (f : ℕ → M) (n : ℕ) :
    ((List.range n).map f).sum = ∑ i ∈ range n, f i := by
  induction n with
  | zero => rfl
  | succ n ih => rw [List.range_succ, List.map_append, List.sum_append, ih, sum_range_succ]; simp

theorem sum_povmPairs {M : Type} [AddCommMonoid M] (d : ℕ) (g : ℕ → ℕ → M) :
    ((povmPairs d).map fun p => g p.1 p.2).sum
      = ∑ i ∈ range d, ∑ j ∈ range d, if i < j then g i j else 0 := by
  have h1 : ((povmPairs d).map fun p => g p.1 p.2).sum
      = ∑ i ∈ range (d - 1), ∑ j ∈ Finset.Ico (i + 1) d, g i j := by
    unfold povmPairs
    rw [List.map_flatMap, List.flatMap_def, List.sum_flatten, List.map_map, ← list_sum_range]
    congr 1
    refine List.map_congr_left fun i _ => ?_
    rw [Function.comp_apply, List.map_map, Finset.sum_Ico_eq_sum_range, ← list_sum_range, List.range'_eq_map_range,
      List.map_map]
    rfl
  have h2 : ∀ i, (∑ j ∈ range d, if i < j then g i j else 0) = ∑ j ∈ Finset.Ico (i + 1) d, g i j := by
    intro i
    rw [← Finset.sum_filter]
    refine Finset.sum_congr ?_ fun _ _ => rfl
    ext j
    simp only [mem_filter, mem_range, mem_Ico]
    omega
  rw [h1]
  simp only [h2]
  cases d with
  | zero => rfl
  | succ d =>
    rw [Finset.sum_range_succ, Nat.add_sub_cancel]
    simp

theorem sum_pairs_add {d : ℕ} (h : ℕ → ℂ) :
    ((povmPairs d).map fun p => h p.1 + h p.2).sum = ((d : ℂ) - 1) * ∑ i ∈ range d, h i := by
  rw [sum_povmPairs d fun i j => h i + h j]
  have h1 : ∀ i j, (if i < j then h i + h j else 0)
      = (if i < j then h i else 0) + (if i < j then h j else 0) := by
    intro i j; split_ifs <;> simp
  simp only [h1, sum_add_distrib]
  rw [sum_comm (f := fun i j => if i < j then h j else 0), ← sum_add_distrib, mul_sum]
  refine sum_congr rfl fun i hi => ?_
  rw [← sum_add_distrib]
  have h2 : ∀ j, ((if i < j then h i else 0) + (if j < i then h i else 0))
      = h i - (if j = i then h i else 0) := by
    intro j
    rcases lt_trichotomy i j with h | h | h
    · simp [h, not_lt_of_gt h, Nat.ne_of_gt h]
    · simp [h]
    · simp [h, not_lt_of_gt h, Nat.ne_of_lt h]
  simp only [h2, sum_sub_distrib, sum_const, card_range, nsmul_eq_mul]
  rw [sum_ite_eq' , if_pos hi]
  ring

theorem two_mul_length_povmPairs (d : ℕ) : 2 * (povmPairs d).length = d * (d - 1) := by
  have h := sum_pairs_add (d := d) fun _ => (1 : ℂ)
  simp only [List.map_const', List.sum_replicate, sum_const, card_range, nsmul_eq_mul, mul_one] at h
  cases d with
  | zero => rfl
  | succ d =>
    rw [Nat.add_sub_cancel]
    have h2 : (((povmPairs (d + 1)).length * 2 : ℕ) : ℂ) = (((d + 1) * d : ℕ) : ℂ) := by
      push_cast at h ⊢
      have : (1 + 1 : ℂ) = 2 := by norm_num
      rw [this] at h
      rw [h]; ring
    have := Nat.cast_injective h2
    omega

theorem povmRows_length (w : ℂ) (ps : List (ℕ × ℕ)) : (povmRows w ps).length = 2 * ps.length := by
  induction ps with
  | nil => rfl
  | cons p ps ih =>
    have hrows : povmRows w (p :: ps) = (p.1, p.2, w) :: (p.1, p.2, -w) :: povmRows w ps := rfl
    rw [hrows, List.length_cons, List.length_cons, ih, List.length_cons]; omega

/-- Entries of the arrays of `x_povm` and `y_povm`. -/
theorem xyPovm_ok (w : ℂ) {d : ℕ} (hd : 2 ≤ d) :
    ∃ v, povmVectors w d = .ok v ∧ v.shape = [d * (d - 1), d] ∧
      (povmRows w (povmPairs d)).length = d * (d - 1) ∧
      ∀ k q, (povmRows w (povmPairs d))[k]? = some q → ∀ x y,
        (fromVectors v).get [k, x, y] = rowVal q x * star (rowVal q y) / (2 * ((d : ℂ) - 1)) := by
  obtain ⟨v, h1, h2, _, h4⟩ := povmLoop_ok (w := w) (n := d * (d - 1)) (d := d) (povmPairs d)
    ⟨[d * (d - 1), d], fun _ => 0⟩ 0 rfl (by rw [two_mul_length_povmPairs]; omega)
    (fun p hp => mem_povmPairs.1 hp) (fun _ _ _ => rfl)
  have hl : (povmRows w (povmPairs d)).length = d * (d - 1) := by
    rw [povmRows_length, two_mul_length_povmPairs]
  refine ⟨⟨v.shape, fun i => v.get i / (Real.sqrt (2 * ((d : ℝ) - 1)) : ℝ)⟩, ?_, h2, hl, ?_⟩
  · unfold povmVectors
    rw [h1]; rfl
  · intro k q hq x y
    have hx := h4 k q hq
    rw [Nat.zero_add] at hx
    simp only [fromVectors, List.getD_cons_zero, List.getD_cons_succ]
    rw [hx, hx, star_div₀]
    have hsq : ((Real.sqrt (2 * ((d : ℝ) - 1)) : ℝ) : ℂ) * star ((Real.sqrt (2 * ((d : ℝ) - 1)) : ℝ) : ℂ)
        = 2 * ((d : ℂ) - 1) := by
      rw [Complex.star_def, Complex.conj_ofReal, ← Complex.ofReal_mul, Real.mul_self_sqrt]
      · push_cast; ring
      · have : (2 : ℝ) ≤ d := by exact_mod_cast hd
        linarith
    rw [div_mul_div_comm, hsq]

end Mpnum
