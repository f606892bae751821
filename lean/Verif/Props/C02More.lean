import Verif.Props.C02
import Mathlib.Data.List.SplitLengths

/-!
C02, all arguments of `from_array`: which choices of `ndims` are admissible, what happens for the others, and arrays that already have
virtual legs.
-/

open Finset

namespace Mpnum

variable {R : Type} [CommRing R] [StarRing R]

/-- `n` is the number of legs of some non-empty beginning of the list `ns` of legs per site. -/
def LegsFit (ns : List ℕ) (n : ℕ) : Prop := ∃ k < ns.length, (ns.take (k + 1)).sum = n

/-- One step of the factorisation of an array with legs left over. -/
theorem extract_step {qr : QR R} (hqr : QRSpec qr) (e : PyErr) (c : ℕ) (cs : List ℕ) {l r : ℕ} {s : List ℕ} {t : NDArray R} (hl : 0 < l)
    (hr : 0 < r) (hs : ∀ d ∈ s, 0 < d) (ht : t.shape = l :: (s ++ [r])) (hc : c < s.length) :
    ∃ (k : ℕ) (u rest : NDArray R), 0 < k ∧ rest.shape = k :: (s.drop c ++ [r]) ∧
      extractFactors qr e (c :: cs) t = (extractFactors qr e cs rest).map (u :: ·) := by
  have h1 : t.shape.take (c + 1) = l :: s.take c := by
    rw [ht, List.take_succ_cons, List.take_append_of_le_length hc.le]
  have h2 : t.shape.drop (c + 1) = s.drop c ++ [r] := by
    rw [ht, List.drop_succ_cons, List.drop_append_of_le_length hc.le]
  set m := (l :: s.take c).prod with hm
  set n := (s.drop c ++ [r]).prod with hn
  have hmpos : 0 < m := list_prod_pos (by
    intro d hd
    rcases List.mem_cons.1 hd with rfl | hd
    · exact hl
    · exact hs d (List.mem_of_mem_take hd))
  have hnpos : 0 < n := list_prod_pos (by
    intro d hd
    rcases List.mem_append.1 hd with hd | hd
    · exact hs d (List.mem_of_mem_drop hd)
    · rw [List.mem_singleton.1 hd]; exact hr)
  have hp : t.shape.prod = m * n := by
    rw [hm, hn, ← h1, ← h2, ← List.prod_append, List.take_append_drop]
  set mat := t.reshapeTo [m, n] with hmat
  obtain ⟨hq1, hq2, -, -⟩ := hqr mat m n rfl
  set k := min m n with hk
  refine ⟨k, (qr mat).1.reshapeTo ((l :: s.take c) ++ [k]), (qr mat).2.reshapeTo (k :: (s.drop c ++ [r])), by omega, rfl, ?_⟩
  have hnd : t.ndim = s.length + 2 := by simp [NDArray.ndim, ht]
  have e1 : t.reshape [(m : ℕ), -1] = .ok mat := by
    have := NDArray.reshape_infer (a := t) (d := n) (s := [m]) (t := []) (by rw [hp]; simp) (by simpa using hmpos)
    exact this
  have e2 : (qr mat).2.shape.take 1 = [k] := by rw [hq2]; rfl
  have e3 : (qr mat).1.reshape ((l :: s.take c ++ [k]).map (fun n : ℕ => (n : ℤ)))
      = .ok ((qr mat).1.reshapeTo ((l :: s.take c) ++ [k])) :=
    NDArray.reshape_nat (by rw [hq1, List.prod_append]; simp only [hm, List.prod_cons])
  have e4 : (qr mat).2.reshape (([k] ++ (s.drop c ++ [r])).map (fun n : ℕ => (n : ℤ)))
      = .ok ((qr mat).2.reshapeTo (k :: (s.drop c ++ [r]))) := NDArray.reshape_nat (by rw [hq2]; simp [hn])
  rw [extractFactors, if_neg (by omega), if_neg (by omega), h1, h2, ← hm, e1]
  show (do
    let unitary ← (qr mat).1.reshape ((l :: s.take c ++ (qr mat).2.shape.take 1).map (fun n : ℕ => (n : ℤ)))
    let rest ← (qr mat).2.reshape (((qr mat).2.shape.take 1 ++ (s.drop c ++ [r])).map (fun n : ℕ => (n : ℤ)))
    let tail ← extractFactors qr e cs rest
    return unitary :: tail) = _
  rw [e2, e3, e4]
  show (do
    let tail ← extractFactors qr e cs ((qr mat).2.reshapeTo (k :: (s.drop c ++ [r])))
    return (qr mat).1.reshapeTo ((l :: s.take c) ++ [k]) :: tail) = _
  cases extractFactors qr e cs ((qr mat).2.reshapeTo (k :: (s.drop c ++ [r]))) <;> rfl

/-- The factorisation fails if no beginning of the list fits. -/
theorem extract_fail {qr : QR R} (hqr : QRSpec qr) (e : PyErr) {ns : List ℕ} {l r : ℕ} {s : List ℕ} {t : NDArray R} (hl : 0 < l)
    (hr : 0 < r) (hs : ∀ d ∈ s, 0 < d) (ht : t.shape = l :: (s ++ [r])) (h : ¬ LegsFit ns s.length) :
    extractFactors qr e ns t = .error (if ns.sum < s.length ∨ ns = [] then e else .assertion) := by
  induction ns generalizing l s t with
  | nil => rw [extractFactors, if_pos (by simp)]
  | cons c cs ih =>
    have hnd : t.ndim = s.length + 2 := by simp [NDArray.ndim, ht]
    have hc : c ≠ s.length := fun hc => h ⟨0, by simp, by simpa using hc⟩
    by_cases hlt : c < s.length
    · obtain ⟨k, u, rest, hk, hrest, he⟩ := extract_step hqr e c cs hl hr hs ht hlt
      have hdl : (s.drop c).length = s.length - c := List.length_drop
      rw [he, ih hk (fun d hd => hs d (List.mem_of_mem_drop hd)) hrest (by
        rintro ⟨i, hi, hsum⟩
        refine h ⟨i + 1, by simpa using hi, ?_⟩
        rw [List.take_succ_cons, List.sum_cons, hsum, hdl]; omega)]
      show Except.error _ = _
      congr 1
      have hiff : (cs.sum < (s.drop c).length ∨ cs = []) ↔ ((c :: cs).sum < s.length ∨ (c :: cs) = []) := by
        rw [hdl, List.sum_cons]
        constructor
        · rintro (h | rfl)
          · exact .inl (by omega)
          · exact .inl (by simpa using hlt)
        · rintro (h | h)
          · exact .inl (by omega)
          · cases h
      simp only [hiff]
    · rw [extractFactors, if_neg (by omega), if_pos (by omega), if_neg]
      rintro (h' | h')
      · rw [List.sum_cons] at h'; omega
      · cases h'

/-- The factorisation succeeds if some beginning of the list fits: it follows the shortest one. -/
theorem extract_fit {qr : QR R} (hqr : QRSpec qr) (e : PyErr) {ns : List ℕ} {l r : ℕ} {s : List ℕ} {t : NDArray R} (hl : 0 < l)
    (hr : 0 < r) (hs : ∀ d ∈ s, 0 < d) (ht : t.shape = l :: (s ++ [r])) (h : LegsFit ns s.length) :
    ∃ P : List (List ℕ), P ≠ [] ∧ P.flatten = s ∧ P.map List.length <+: ns ∧ (P.length = 1 ∨ P.getLast? ≠ some []) ∧
      ∃ extra, ns = P.map List.length ++ extra := by
  classical
  obtain ⟨hk1, hk2⟩ := Nat.find_spec h
  set k := Nat.find h with hk
  have hmin : ∀ i < k, ¬ (i < ns.length ∧ (ns.take (i + 1)).sum = s.length) := fun i hi => Nat.find_min h hi
  refine ⟨(ns.take (k + 1)).splitLengths s, ?_, ?_, ?_, ?_, ns.drop (k + 1), ?_⟩
  · intro hc
    have := congrArg List.length hc
    rw [List.length_splitLengths, List.length_take, List.length_nil] at this
    omega
  · exact List.flatten_splitLengths _ _ hk2.ge
  · rw [List.map_splitLengths_length _ _ hk2.le]
    exact List.take_prefix _ _
  · by_cases h0 : k = 0
    · left; rw [List.length_splitLengths, List.length_take]; omega
    · right
      intro hlast
      have hlen : ((ns.take (k + 1)).splitLengths s).length = k + 1 := by rw [List.length_splitLengths, List.length_take]; omega
      have h1 : ((ns.take (k + 1)).splitLengths s)[k]? = some [] := by
        rw [List.getLast?_eq_getElem?, hlen] at hlast
        simpa using hlast
      have h2 : ((ns.take (k + 1)).splitLengths s).map List.length = ns.take (k + 1) := List.map_splitLengths_length _ _ hk2.le
      have h3 : (ns.take (k + 1))[k]? = some 0 := by
        rw [← h2, List.getElem?_map, h1]; rfl
      have h4 : ns[k]? = some 0 := by rwa [List.getElem?_take_of_lt (by omega)] at h3
      have h5 : ns.take (k + 1) = ns.take k ++ [0] := by
        rw [List.take_add_one, h4]; rfl
      refine hmin (k - 1) (by omega) ⟨by omega, ?_⟩
      rw [show k - 1 + 1 = k by omega]
      rw [h5, List.sum_append] at hk2
      simpa using hk2
  · rw [List.map_splitLengths_length _ _ hk2.le, List.take_append_drop]

/-- C02: `from_array(A, ndims)` for any sequence `ndims` of numbers of legs, and any array without empty legs.  It returns an MPA if
and only if the legs of `A` are those of the first sites, for some number of sites.  If there are numbers left over in `ndims`, they are
ignored.  Otherwise it raises `StopIteration` if `ndims` has too few legs, and `AssertionError` if it has too many. -/
theorem C02_from_array_outcome {qr : QR R} (hqr : QRSpec qr) (A : NDArray R) (hA : ∀ d ∈ A.shape, 0 < d) (ns : List ℕ) :
    (LegsFit ns A.ndim → ∃ P x, fromArray qr A (some (.each ns)) false = .ok x ∧ FromArraySpec A P x ∧ P.flatten = A.shape ∧
      P.map List.length <+: ns) ∧
    (¬ LegsFit ns A.ndim → fromArray qr A (some (.each ns)) false =
      .error (if ns.sum < A.ndim ∨ ns = [] then .stopIteration else .assertion)) := by
  have hs1 : A.addBonds.shape = 1 :: (A.shape ++ [1]) := by simp [NDArray.addBonds]
  constructor
  · intro h
    obtain ⟨P, h1, h2, h3, h4, extra, h5⟩ := extract_fit hqr .stopIteration one_pos one_pos hA hs1 h
    obtain ⟨ts, x, k1, k2, k3⟩ := fromArray_extract hqr .stopIteration A P extra h1 h4 (fun p hp d hd =>
      hA d (by rw [← h2]; exact List.mem_flatten.2 ⟨p, hp, hd⟩)) h2.symm
    refine ⟨P, x, ?_, k3, h2, h3⟩
    unfold fromArray extractFactorsArg
    simp only [Option.getD_some, Bool.false_eq_true, if_false]
    rw [h5, k1]
    exact k2
  · intro h
    unfold fromArray extractFactorsArg
    simp only [Option.getD_some, Bool.false_eq_true, if_false]
    rw [extract_fail hqr .stopIteration one_pos one_pos hA hs1 h]
    rfl

/-- Which numbers of legs fit if all sites have `n` legs. -/
theorem legsFit_replicate {n m N : ℕ} (hn : 0 < n) (hN : m < N) : LegsFit (List.replicate N n) m ↔ 0 < m ∧ n ∣ m := by
  constructor
  · rintro ⟨k, _, hk⟩
    rw [List.take_replicate, List.sum_replicate, smul_eq_mul] at hk
    rw [List.length_replicate] at *
    refine ⟨?_, ⟨_, by rw [← hk, mul_comm]⟩⟩
    rw [← hk]
    exact Nat.mul_pos (by omega) hn
  · rintro ⟨h1, q, rfl⟩
    have hq : 0 < q := by
      rcases Nat.eq_zero_or_pos q with rfl | h
      · simp at h1
      · exact h
    have : q ≤ n * q := Nat.le_mul_of_pos_left _ hn
    refine ⟨q - 1, by simp; omega, ?_⟩
    rw [List.take_replicate, List.sum_replicate, smul_eq_mul, show min (q - 1 + 1) N = q by omega, mul_comm]

/-- C02: `from_array(A, ndims)` for any number `ndims`: an MPA is returned if and only if the number of legs is a positive multiple of
`ndims` (or there are no legs and `ndims = 0`); otherwise `AssertionError`, and for `ndims = 0` `RecursionError`. -/
theorem C02_from_array_const_outcome {qr : QR R} (hqr : QRSpec qr) (A : NDArray R) (hA : ∀ d ∈ A.shape, 0 < d) (n : ℕ) :
    (0 < A.ndim → n ∣ A.ndim → ∃ P x, fromArray qr A (some (.const n)) false = .ok x ∧ FromArraySpec A P x ∧ P.flatten = A.shape ∧
      ∀ p ∈ P, p.length = n) ∧
    (0 < n → ¬ (0 < A.ndim ∧ n ∣ A.ndim) → fromArray qr A (some (.const n)) false = .error .assertion) ∧
    (0 < A.ndim → fromArray qr A (some (.const 0)) false = .error .recursion) ∧
    (A.ndim = 0 → ∃ x, fromArray qr A (some (.const 0)) false = .ok x ∧ FromArraySpec A [[]] x) := by
  have hs1 : A.addBonds.shape = 1 :: (A.shape ++ [1]) := by simp [NDArray.addBonds]
  have hnd : A.addBonds.ndim = A.ndim + 2 := by simp [NDArray.ndim, NDArray.addBonds]
  refine ⟨fun h0 hdvd => ?_, fun hn h => ?_, fun h0 => ?_, fun h0 => ?_⟩
  · have hn : 0 < n := Nat.pos_of_dvd_of_pos hdvd h0
    obtain ⟨P, h1, h2, h3, h4, extra, h5⟩ := extract_fit hqr .recursion one_pos one_pos hA hs1
      ((legsFit_replicate (N := A.addBonds.ndim + 1) hn (by rw [hnd]; show A.ndim < _; omega)).2 ⟨h0, hdvd⟩)
    obtain ⟨ts, x, k1, k2, k3⟩ := fromArray_extract hqr .recursion A P extra h1 h4 (fun p hp d hd =>
      hA d (by rw [← h2]; exact List.mem_flatten.2 ⟨p, hp, hd⟩)) h2.symm
    refine ⟨P, x, ?_, k3, h2, fun p hp => ?_⟩
    · unfold fromArray extractFactorsArg
      simp only [Option.getD_some, Bool.false_eq_true, if_false]
      rw [h5, k1]
      exact k2
    · have := h3.subset (List.mem_map.2 ⟨p, hp, rfl⟩)
      exact List.eq_of_mem_replicate this
  · unfold fromArray extractFactorsArg
    simp only [Option.getD_some, Bool.false_eq_true, if_false]
    rw [extract_fail hqr .recursion one_pos one_pos hA hs1 (by
      rw [legsFit_replicate hn (by rw [hnd]; show A.ndim < _; omega)]; exact h), if_neg]
    · rfl
    · rintro (h' | h')
      · rw [List.sum_replicate, smul_eq_mul] at h'
        have h2 : A.addBonds.ndim + 1 ≤ (A.addBonds.ndim + 1) * n := Nat.le_mul_of_pos_right _ hn
        have h3 : A.shape.length = A.ndim := rfl
        omega
      · cases h'
  · unfold fromArray extractFactorsArg
    simp only [Option.getD_some, Bool.false_eq_true, if_false]
    rw [extract_fail hqr .recursion one_pos one_pos hA hs1 (by
      rintro ⟨k, _, hk⟩
      rw [List.take_replicate, List.sum_replicate, smul_eq_mul, mul_zero] at hk
      have h3 : A.shape.length = A.ndim := rfl
      omega), if_pos]
    · rfl
    · left
      rw [List.sum_replicate, smul_eq_mul, mul_zero]
      exact h0
  · have hsh : A.shape = [] := List.length_eq_zero_iff.1 h0
    obtain ⟨ts, x, k1, k2, k3⟩ := fromArray_extract hqr .recursion A [[]] (List.replicate A.addBonds.ndim 0) (by simp) (.inl rfl)
      (by simp) (by simp [hsh])
    refine ⟨x, ?_, k3⟩
    unfold fromArray extractFactorsArg
    simp only [Option.getD_some, Bool.false_eq_true, if_false]
    rw [List.replicate_succ]
    simp only [List.map_cons, List.map_nil, List.length_nil, List.cons_append, List.nil_append] at k1
    rw [k1]
    exact k2

/-- C02: `from_array(A, ndims, has_virtual=True)`: the first and the last leg of `A` are the outer bonds of the result. -/
theorem C02_from_array_virtual {qr : QR R} (hqr : QRSpec qr) (A : NDArray R) (P : List (List ℕ)) (hne : P ≠ [])
    (hlast : P.length = 1 ∨ P.getLast? ≠ some []) (hpos : ∀ p ∈ P, ∀ d ∈ p, 0 < d) {l r : ℕ} (hl : 0 < l) (hr : 0 < r)
    (hs : A.shape = l :: (P.flatten ++ [r])) :
    ∃ x, fromArray qr A (some (.each (P.map List.length))) true = .ok x ∧ x.shape = P ∧ Chained l x.lt r ∧ x.l = x.len - 1 ∧
      x.r = x.len ∧ x.CanonOK ∧ (∀ c, c < P.length - 1 → x.ranks[c]? =
        some (min (l * (P.take (c + 1)).flatten.prod) ((P.drop (c + 1)).flatten.prod * r))) ∧
      ∀ a < l, ∀ b < r, ∀ idx, IdxOK idx P → mp x.lt idx a b = A.get (a :: (idx.flatten ++ [b])) := by
  obtain ⟨ts, h1, h2, h3, h4, h5, h6⟩ := extract_ok hqr .stopIteration [] P hne hlast hpos l r A hl hr hs
  have hlen : ts.length = P.length := by rw [← h3]; simp [physShape]
  have hPlen : 0 < P.length := List.length_pos_of_ne_nil hne
  have htne : ts ≠ [] := by intro h; rw [h] at hlen; simp at hlen; omega
  refine ⟨⟨ts, ts.length - 1, ts.length⟩, ?_, h3, h2, rfl, rfl, ?_, ?_, ?_⟩
  · unfold fromArray extractFactorsArg
    simp only [Option.getD_some, if_true]
    rw [List.append_nil] at h1
    rw [h1]
    exact mkLT_ok htne h2 (by omega) (by omega) (by omega) (by omega)
  · intro n t ht
    have hn : n < ts.length := (List.getElem?_eq_some_iff.1 ht).1
    refine ⟨fun hl => ?_, fun hr => absurd hr (by simp; omega)⟩
    have hn' : n < ts.length - 1 := by simp at hl; omega
    apply h5
    have : ts.dropLast[n]? = some t := by rw [List.getElem?_dropLast, if_pos hn']; exact ht
    exact List.mem_of_getElem? this
  · intro c hc
    show (ts.tail.map NDArray.lb)[c]? = _
    rw [h6, List.getElem?_map, List.getElem?_range hc]
    rfl
  · intro a ha b hb idx hi
    exact (h4.2 a ha b hb idx (by rw [h3]; exact hi)).symm

omit [CommRing R] [StarRing R] in
/-- C02, finding: with `has_virtual=True` the default `ndims=array.ndim` counts the two virtual legs, too; the call never succeeds. -/
theorem C02_from_array_virtual_default (qr : QR R) (A : NDArray R) : fromArray qr A none true = .error .assertion := by
  unfold fromArray extractFactorsArg
  simp only [Option.getD_none, if_true, List.replicate_succ, extractFactors]
  rw [if_neg (by omega), if_pos (by omega)]
  rfl

/-- Non-vacuity: an array with three legs fits `ndims = (1, 2, 5)`, the last number being ignored; it does not fit `(1, 1)` and
`(2, 2)`. -/
example : LegsFit [1, 2, 5] 3 ∧ ¬ LegsFit [1, 1] 3 ∧ ¬ LegsFit [2, 2] 3 := by
  refine ⟨⟨1, by decide, rfl⟩, ?_, ?_⟩
  · rintro ⟨k, hk, h⟩
    have : k = 0 ∨ k = 1 := by simp at hk; omega
    rcases this with rfl | rfl <;> simp at h
  · rintro ⟨k, hk, h⟩
    have : k = 0 ∨ k = 1 := by simp at hk; omega
    rcases this with rfl | rfl <;> simp at h

end Mpnum
