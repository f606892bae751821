import Verif.MPArray.FromArray
import Verif.Oracle.QR
import Verif.Props.C01

/-!
# C02, C03, C04: `from_array` round trip, its ranks, and `from_kron`
-/

open Finset

namespace Mpnum

variable {R : Type}

section
variable [CommRing R] [StarRing R]

/-- What a user expects from `from_array`: the MPA represents `A`, has the leg partition `P`, is
left-canonical except for the last site (and says so), and the ranks are the generic full ranks. -/
structure FromArraySpec (A : NDArray R) (P : List (List ℕ)) (x : MPA R) : Prop where
  valid : x.Valid
  shape : x.shape = P
  form : x.l = x.len - 1 ∧ x.r = x.len
  canon : x.CanonOK
  ranks : x.ranks = fullRank P
  dense : ∃ B, x.toArray = .ok B ∧ B.Eqv A

theorem cutRank_fullRank (P : List (List ℕ)) :
    (List.range (P.length - 1)).map (cutRank 1 1 P) = fullRank P := by
  unfold fullRank
  apply List.map_congr_left
  intro c _
  simp [cutRank, List.prod_flatten, List.map_take, List.map_drop]

/-- The list of leg numbers may be followed by unused values. -/
theorem fromArray_extract {qr : QR R} (hqr : QRSpec qr) (e : PyErr) (A : NDArray R)
    (P : List (List ℕ)) (extra : List ℕ) (hne : P ≠ [])
    (hlast : P.length = 1 ∨ P.getLast? ≠ some []) (hpos : ∀ p ∈ P, ∀ d ∈ p, 0 < d)
    (hs : A.shape = P.flatten) :
    ∃ ts x, extractFactors qr e (P.map List.length ++ extra) A.addBonds = .ok ts ∧
      mkLT ts (some (ts.length - 1)) (some ts.length) = .ok x ∧ FromArraySpec A P x := by
  have hs1 : A.addBonds.shape = 1 :: (P.flatten ++ [1]) := by simp [NDArray.addBonds, hs]
  obtain ⟨ts, h1, h2, h3, h4, h5, h6⟩ :=
    extract_ok hqr e extra P hne hlast hpos 1 1 A.addBonds (by omega) (by omega) hs1
  have hlen : ts.length = P.length := by rw [← h3]; simp [physShape]
  have hPlen : 0 < P.length := List.length_pos_of_ne_nil hne
  have htne : ts ≠ [] := by intro h; rw [h] at hlen; simp at hlen; omega
  refine ⟨ts, ⟨ts, ts.length - 1, ts.length⟩, h1,
    mkLT_ok htne h2 (by omega) (by omega) (by omega) (by omega), ?_⟩
  have hv : (⟨ts, (ts.length : ℤ) - 1, ts.length⟩ : MPA R).Valid :=
    ⟨htne, h2, by simp; omega, by simp, le_refl _⟩
  refine ⟨hv, h3, ⟨rfl, rfl⟩, ?_, ?_, ?_⟩
  · intro n t ht
    have hn : n < ts.length := (List.getElem?_eq_some_iff.1 ht).1
    refine ⟨fun hl => ?_, fun hr => absurd hr (by simp; omega)⟩
    have hn' : n < ts.length - 1 := by simp at hl; omega
    apply h5
    have : ts.dropLast[n]? = some t := by
      rw [List.getElem?_dropLast, if_pos hn']; exact ht
    exact List.mem_of_getElem? this
  · show ts.tail.map NDArray.lb = _
    rw [h6, cutRank_fullRank]
  · obtain ⟨B, hB, hBs, hBg⟩ := C01_to_array _ hv
    refine ⟨B, hB, ?_, ?_⟩
    · rw [hBs, hs]; exact congrArg _ h3
    · intro i hi
      rw [hBs] at hi
      obtain ⟨idx, rfl, hidx⟩ := C01_all_entries _ i hi
      rw [hBg idx hidx]
      have := h4.2 0 (by omega) 0 (by omega) idx hidx
      show mp ts idx 0 0 = _
      rw [← this]
      simp [NDArray.addBonds]

/-- `from_array(A, ndims)` with one number of legs per site. -/
theorem C02_from_array {qr : QR R} (hqr : QRSpec qr) (A : NDArray R)
    (P : List (List ℕ)) (hne : P ≠ []) (hlast : P.length = 1 ∨ P.getLast? ≠ some [])
    (hpos : ∀ p ∈ P, ∀ d ∈ p, 0 < d) (hs : A.shape = P.flatten) :
    ∃ x, fromArray qr A (some (.each (P.map List.length))) false = .ok x ∧ FromArraySpec A P x := by
  obtain ⟨ts, x, h1, h2, h3⟩ := fromArray_extract hqr .stopIteration A P [] hne hlast hpos hs
  refine ⟨x, ?_, h3⟩
  simp only [List.append_nil] at h1
  unfold fromArray extractFactorsArg
  simp only [Option.getD_some, Bool.false_eq_true, if_false, h1]
  exact h2

theorem map_length_const {P : List (List ℕ)} {n : ℕ} (h : ∀ p ∈ P, p.length = n) :
    P.map List.length = List.replicate P.length n := by
  rw [List.eq_replicate_iff]; simp only [List.length_map, List.mem_map, true_and]
  rintro b ⟨p, hp, rfl⟩; exact h p hp

theorem flatten_length_const {P : List (List ℕ)} {n : ℕ} (h : ∀ p ∈ P, p.length = n) :
    P.flatten.length = P.length * n := by
  rw [List.length_flatten, map_length_const h, List.sum_replicate, smul_eq_mul]

/-- `from_array(A, ndims)` with the same number of legs at every site. -/
theorem C02_from_array_const {qr : QR R} (hqr : QRSpec qr) (A : NDArray R) (n : ℕ) (hn : 0 < n)
    (P : List (List ℕ)) (hne : P ≠ []) (hlen : ∀ p ∈ P, p.length = n)
    (hpos : ∀ p ∈ P, ∀ d ∈ p, 0 < d) (hs : A.shape = P.flatten) :
    ∃ x, fromArray qr A (some (.const n)) false = .ok x ∧ FromArraySpec A P x := by
  have hlast : P.getLast? ≠ some [] := by
    intro h
    have := hlen [] (List.mem_of_getLast? h)
    simp at this; omega
  have hnd : A.addBonds.ndim = P.length * n + 2 := by
    simp [NDArray.ndim, NDArray.addBonds, hs]
    rw [← List.length_flatten, flatten_length_const hlen]
  have hle : P.length ≤ P.length * n := Nat.le_mul_of_pos_right _ hn
  obtain ⟨ts, x, h1, h2, h3⟩ := fromArray_extract hqr .recursion A P
    (List.replicate (A.addBonds.ndim + 1 - P.length) n) hne (Or.inr hlast) hpos hs
  refine ⟨x, ?_, h3⟩
  rw [map_length_const hlen, ← List.replicate_add] at h1
  unfold fromArray extractFactorsArg
  simp only [Option.getD_some, Bool.false_eq_true, if_false]
  rw [show A.addBonds.ndim + 1 = P.length + (A.addBonds.ndim + 1 - P.length) by omega, h1]
  exact h2

/-- `from_array(A)` without `ndims`: one site with all legs. -/
theorem C02_from_array_default {qr : QR R} (hqr : QRSpec qr) (A : NDArray R)
    (hpos : ∀ d ∈ A.shape, 0 < d) :
    ∃ x, fromArray qr A none false = .ok x ∧ FromArraySpec A [A.shape] x := by
  obtain ⟨ts, x, h1, h2, h3⟩ := fromArray_extract hqr .recursion A [A.shape]
    (List.replicate A.addBonds.ndim A.ndim) (by simp) (Or.inl rfl) (by simpa using hpos) (by simp)
  refine ⟨x, ?_, h3⟩
  unfold fromArray extractFactorsArg
  simp only [Option.getD_none, Bool.false_eq_true, if_false]
  rw [List.replicate_succ]
  simp only [List.map_cons, List.map_nil, List.cons_append, List.nil_append] at h1
  rw [show A.ndim = A.shape.length from rfl] at h1 ⊢
  rw [h1]; exact h2

/-- Non-vacuity of C02/C03: a QR routine over ℂ exists and a `2 × 3` matrix meets the hypotheses. -/
example : ∃ qr : QR ℂ, QRSpec qr ∧ ∃ x,
    fromArray qr ⟨[2, 3], fun i => (i.sum : ℂ)⟩ (some (.const 1)) false = .ok x ∧
      FromArraySpec ⟨[2, 3], fun i => (i.sum : ℂ)⟩ [[2], [3]] x := by
  obtain ⟨qr, h⟩ := exists_QRSpec (𝕜 := ℂ)
  exact ⟨qr, h, C02_from_array_const h _ 1 (by decide) _ (by decide) (by decide) (by decide) rfl⟩

omit [CommRing R] [StarRing R] in
/-- Error branch: more legs requested for the first site than there are is an `AssertionError`. -/
theorem C02_from_array_too_few_legs (qr : QR R) (A : NDArray R) (n : ℕ) (ns : List ℕ)
    (h : A.ndim < n) : fromArray qr A (some (.each (n :: ns))) false = .error .assertion := by
  have hnd : A.addBonds.ndim = A.ndim + 2 := by simp [NDArray.ndim, NDArray.addBonds]
  unfold fromArray extractFactorsArg
  simp only [Option.getD_some, Bool.false_eq_true, if_false, extractFactors]
  rw [if_neg (by omega), if_pos (by omega)]
  rfl

/-- C03: the ranks of `from_array(A)` are exactly `min(left size, right size)` at every cut. -/
theorem C03_from_array_ranks {qr : QR R} (hqr : QRSpec qr) (A : NDArray R)
    (P : List (List ℕ)) (hne : P ≠ []) (hlast : P.length = 1 ∨ P.getLast? ≠ some [])
    (hpos : ∀ p ∈ P, ∀ d ∈ p, 0 < d) (hs : A.shape = P.flatten) :
    ∃ x, fromArray qr A (some (.each (P.map List.length))) false = .ok x ∧
      x.ranks.length = P.length - 1 ∧
      ∀ c, c < P.length - 1 → x.ranks[c]? =
        some (min (P.take (c + 1)).flatten.prod (P.drop (c + 1)).flatten.prod) := by
  obtain ⟨x, hx, h⟩ := C02_from_array hqr A P hne hlast hpos hs
  refine ⟨x, hx, ?_, ?_⟩
  · rw [h.ranks]; simp [fullRank]
  · intro c hc
    rw [h.ranks, ← cutRank_fullRank]
    simp [hc, cutRank]

end

/-- C04: `from_kron(factors)` is the tensor product of the factors with all ranks one. -/
theorem C04_from_kron [CommSemiring R] (fs : List (NDArray R)) (hne : fs ≠ []) :
    ∃ x, fromKron fs = .ok x ∧ x.Valid ∧ x.shape = fs.map NDArray.shape ∧
      x.ranks = List.replicate (fs.length - 1) 1 ∧
      ∀ idx, IdxOK idx (fs.map NDArray.shape) →
        x.val idx = (List.zipWith (fun a i => NDArray.get a i) fs idx).prod := by
  have hsh : ∀ f : NDArray R, f.addBonds.shape = 1 :: (f.shape ++ [1]) := fun f => rfl
  have hc : ∀ fs : List (NDArray R), Chained 1 (fs.map NDArray.addBonds) 1 := by
    intro fs
    induction fs with
    | nil => simp
    | cons f fs ih =>
      simp only [List.map_cons, chained_cons]
      exact ⟨NDArray.isLocal_of_shape (hsh f), rfl, by rw [NDArray.rb_of_shape (hsh f)]; exact ih⟩
  have hne' : fs.map NDArray.addBonds ≠ [] := by simpa using hne
  refine ⟨_, mkMPA_ok hne' (hc fs), valid_mk hne' (hc fs), ?_, ?_, ?_⟩
  · simp only [MPA.shape, List.map_map]
    apply List.map_congr_left
    intro f _
    exact NDArray.ph_of_shape (hsh f)
  · simp only [MPA.ranks]
    rw [List.eq_replicate_iff]
    refine ⟨by simp, ?_⟩
    intro b hb
    rw [← List.map_tail, List.map_map] at hb
    simp only [List.mem_map, Function.comp] at hb
    obtain ⟨f, _, rfl⟩ := hb
    rfl
  · clear hne hne'
    show ∀ idx, _ → mp _ idx 0 0 = _
    induction fs with
    | nil => intro idx hi; cases hi; simp
    | cons f fs ih =>
      intro idx hi
      cases idx with
      | nil => cases hi
      | cons i is =>
        simp only [List.map_cons, idxOK_cons] at hi
        simp only [List.map_cons, mp_cons, NDArray.rb_of_shape (hsh f), Finset.sum_range_one,
          List.zipWith_cons_cons, List.prod_cons, ih is hi.2]
        congr 1
        simp [NDArray.at3, NDArray.addBonds]

/-- Non-vacuity of C04. -/
example : ∃ x, fromKron [(⟨[2], fun i => (i.sum : ℤ)⟩ : NDArray ℤ), ⟨[3], fun i => i.sum + 1⟩] = .ok x ∧
    x.val [[1], [2]] = 3 := ⟨_, rfl, by decide⟩

end Mpnum
