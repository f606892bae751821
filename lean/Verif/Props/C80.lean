import Verif.Props.C66
import Verif.Props.C08
import Verif.Props.C14More
import Verif.Props.C30
import Mathlib.LinearAlgebra.Matrix.Rank

/-!
C80: the number of stored entries (`MPArray.size`).

Specification: `storage shape ranks` is the sum over the sites of left rank times leg dimensions times right rank.
-/

open Finset

namespace Mpnum

/-- `MPArray.size` (mparray.py:108-120) -/
def MPA.size {R : Type} (x : MPA R) : ℕ := (x.lt.map NDArray.size).sum

/-- The number of entries of the local tensors of a chain with the given legs and ranks. -/
def storage (shape : List (List ℕ)) (ranks : List ℕ) : ℕ :=
  ∑ k ∈ range shape.length, (1 :: ranks).getD k 0 * (shape.getD k []).prod * (ranks ++ [1]).getD k 0

theorem size_local {R : Type} {t : NDArray R} (h : t.IsLocal) : t.size = t.lb * t.ph.prod * t.rb := by
  unfold NDArray.size
  rw [NDArray.shape_local h]
  simp [mul_assoc]

theorem size_chain {R : Type} {ts : List (NDArray R)} (hne : ts ≠ []) {l r : ℕ} (h : Chained l ts r) :
    (ts.map NDArray.size).sum = ∑ k ∈ range ts.length,
      (l :: ts.tail.map NDArray.lb).getD k 0 * ((physShape ts).getD k []).prod * (ts.tail.map NDArray.lb ++ [r]).getD k 0 := by
  induction ts generalizing l with
  | nil => exact absurd rfl hne
  | cons t ts ih =>
    obtain ⟨hl, rfl, hc⟩ := h
    cases ts with
    | nil =>
      obtain rfl : t.rb = r := hc
      simp [physShape, size_local hl]
    | cons u us =>
      have := ih (by simp) hc
      rw [List.map_cons, List.sum_cons, this, List.length_cons (a := t), Finset.sum_range_succ', size_local hl, add_comm]
      obtain ⟨_, h2, _⟩ := hc
      congr 1
      · refine Finset.sum_congr rfl fun k _ => ?_
        simp only [List.tail_cons, List.map_cons, List.getD_cons_succ, physShape, List.cons_append, h2]
      · simp [physShape, h2]

/-- C80: `size` in terms of `shape` and `ranks`. -/
theorem C80_size {R : Type} (x : MPA R) (hx : x.Valid) : x.size = storage x.shape x.ranks := by
  have := size_chain hx.ne hx.chain
  unfold MPA.size storage
  rw [this]
  have hl : x.shape.length = x.lt.length := by simp [MPA.shape]
  rw [hl]
  rfl

theorem forall₂_getD {a b : List ℕ} (h : List.Forall₂ (· ≤ ·) a b) (k : ℕ) : a.getD k 0 ≤ b.getD k 0 := by
  induction h generalizing k with
  | nil => simp
  | cons h1 _ ih =>
    cases k with
    | zero => simpa using h1
    | succ k => simpa using ih k

/-- Smaller ranks need less storage. -/
theorem storage_mono (shape : List (List ℕ)) {a b : List ℕ} (h : List.Forall₂ (· ≤ ·) a b) : storage shape a ≤ storage shape b := by
  refine Finset.sum_le_sum fun k _ => ?_
  have h1 : (1 :: a).getD k 0 ≤ (1 :: b).getD k 0 := forall₂_getD (.cons le_rfl h) k
  have h2 : (a ++ [1]).getD k 0 ≤ (b ++ [1]).getD k 0 := forall₂_getD (List.rel_append h (.cons le_rfl .nil)) k
  exact Nat.mul_le_mul (Nat.mul_le_mul_right _ h1) h2

/-- C80: storage for bounded ranks. -/
theorem C80_bound {R : Type} (x : MPA R) (hx : x.Valid) {D d : ℕ} (hD1 : 1 ≤ D) (hD : ∀ q ∈ x.ranks, q ≤ D)
    (hd : ∀ p ∈ x.shape, p.prod ≤ d) : x.size ≤ x.len * (D * d * D) := by
  rw [C80_size x hx]
  unfold storage
  have hl : x.shape.length = x.len := by simp [MPA.shape, MPA.len]
  have h1 : ∀ k, (1 :: x.ranks).getD k 0 ≤ D := fun k => by
    rw [List.getD_eq_getElem?_getD]
    cases h : (1 :: x.ranks)[k]? with
    | none => simp
    | some q =>
      rcases List.mem_cons.1 (List.mem_of_getElem? h) with rfl | hq
      · simpa using hD1
      · simpa using hD q hq
  have h2 : ∀ k, (x.ranks ++ [1]).getD k 0 ≤ D := fun k => by
    rw [List.getD_eq_getElem?_getD]
    cases h : (x.ranks ++ [1])[k]? with
    | none => simp
    | some q =>
      rcases List.mem_append.1 (List.mem_of_getElem? h) with hq | hq
      · simpa using hD q hq
      · rw [List.mem_singleton] at hq
        subst hq
        simpa using hD1
  calc _ ≤ ∑ _k ∈ range x.shape.length, D * d * D := by
        refine Finset.sum_le_sum fun k hk => Nat.mul_le_mul (Nat.mul_le_mul (h1 k) ?_) (h2 k)
        refine hd _ ?_
        rw [List.getD_eq_getElem _ _ (Finset.mem_range.1 hk)]
        exact List.getElem_mem _
    _ = _ := by rw [Finset.sum_const, Finset.card_range, hl, smul_eq_mul]

/-! ### Operations that keep or reduce the storage -/

section
variable {R : Type} [CommRing R] [StarRing R]

theorem ranksLe_ranks {x y : MPA R} (h : y.RanksLe x) : List.Forall₂ (· ≤ ·) y.ranks x.ranks := by
  unfold MPA.ranks
  rw [List.map_tail, List.map_tail]
  have := List.forall₂_drop 1 h
  simpa only [List.drop_one, ← List.map_tail] using this

/-- C80: `canonicalize` never needs more storage, whatever its arguments. -/
theorem C80_canonicalize {qr : QR R} (hqr : QRSpec qr) (x y : MPA R) (hx : x.Good) (left right : CArg)
    (hy : x.canonicalize qr left right = .ok y) : y.size ≤ x.size := by
  obtain ⟨h1, _, h3, _, h5⟩ := C10_canonicalize hqr x hx left right y hy
  rw [C80_size y h1.valid, C80_size x hx.valid, h3]
  exact storage_mono _ (ranksLe_ranks h5)

omit [StarRing R] in
/-- C80: the storage of a sum. -/
theorem C80_add (x y z : MPA R) (hx : x.Valid) (hy : y.Valid) (hs : x.shape = y.shape) (hz : x.add y = .ok z) :
    z.size = storage x.shape (List.zipWith (· + ·) x.ranks y.ranks) := by
  obtain ⟨z', h1, h2, h3, _, h5, _⟩ := C05_add x y hx hy hs
  rw [hz] at h1
  cases h1
  rw [C80_size z h2, h3]
  congr 1
  have hzl : z.len = x.len := by
    have := congrArg List.length h3
    simpa [MPA.shape, MPA.len] using this
  have hyl : y.len = x.len := by
    have := congrArg List.length hs
    simpa [MPA.shape, MPA.len] using this.symm
  have l1 := ranks_length x
  have l2 := ranks_length y
  have l3 := ranks_length z
  refine List.ext_getElem? fun k => ?_
  by_cases hk : k + 1 < x.len
  · rw [h5 k hk, List.getElem?_zipWith, List.getD_eq_getElem _ _ (by omega), List.getD_eq_getElem _ _ (by omega),
      List.getElem?_eq_getElem (by omega), List.getElem?_eq_getElem (by omega)]
  · rw [List.getElem?_eq_none (by omega), List.getElem?_eq_none (by rw [List.length_zipWith]; omega)]

omit [StarRing R] in
/-- C80: the storage of a product (ranks multiply). -/
theorem C80_dot (x y z : MPA R) (axes : List ℤ × List ℤ) (hx : x.Valid) (hy : y.Valid) (h : DotArgs x y axes)
    (hz : dot x y axes = .ok z) : z.size = storage z.shape (List.zipWith (· * ·) x.ranks y.ranks) := by
  obtain ⟨z', h1, h2, _, _, _, h5, _⟩ := C08_dot x y axes hx hy h
  rw [hz] at h1
  cases h1
  rw [C80_size z h2, h5]

end

section
variable {𝕜 : Type} [RCLike 𝕜]

/-- C80: `compress('svd', ...)` never needs more storage, and with `rank` at most what this rank needs. -/
theorem C80_compress {qr : QR 𝕜} (hqr : QRSpec qr) {svd : SVD 𝕜} (h : SVDSpec svd) {f : SVDFunc 𝕜} (hf : SVDFuncSpec f) (x : MPA 𝕜)
    (hx : x.Good) (hlen : x.len ≠ 1) (rank : Option ℤ) (hr : ∀ r, rank = some r → 0 < r) (relerr : Option ℝ)
    (he : ∀ e, relerr = some e → 0 ≤ e ∧ e ≤ 1) (direction : Option Dir) (hd : direction ≠ some .other) (canon : Bool) :
    ∃ (y : MPA 𝕜) (o : ℝ), x.compressSvd qr svd f rank relerr direction canon = .ok (y, o) ∧ y.size ≤ x.size ∧
      ∀ (r d : ℕ), rank = some (r : ℤ) → (∀ p ∈ x.shape, p.prod ≤ d) → y.size ≤ x.len * (r * d * r) := by
  obtain ⟨y, o, h1, h2, h3, h4, h5, _⟩ := C27_compress hqr h hf x hx hlen rank hr relerr he direction hd canon
  refine ⟨y, o, h1, ?_, fun r d hrr hp => ?_⟩
  · rw [C80_size y h2.valid, C80_size x hx.valid, h3]
    exact storage_mono _ h5
  · have hyl : y.len = x.len := by
      have := congrArg List.length h3
      simpa [MPA.shape, MPA.len] using this
    rw [← hyl]
    refine C80_bound y h2.valid ?_ (fun q hq => by exact_mod_cast h4 r hrr q hq) (by rw [h3]; exact hp)
    have := hr r hrr
    omega

/-- C80: no MPA which represents the same tensor needs less storage than the result of `compress(relerr=0)`. -/
theorem C80_smallest {qr : QR 𝕜} (hqr : QRSpec qr) {svd : SVD 𝕜} (h : SVDSpec svd) (x : MPA 𝕜) (hx : x.Good) (hlen : x.len ≠ 1)
    (direction : Option Dir) (hd : direction ≠ some .other) :
    ∃ (y : MPA 𝕜) (o : ℝ), x.compress qr svd none (some 0) direction true = .ok (y, o) ∧
      (∀ i, IdxOK i x.shape → y.val i = x.val i) ∧
      ∀ z : MPA 𝕜, z.Good → z.shape = x.shape → (∀ i, IdxOK i x.shape → z.val i = x.val i) → y.size ≤ z.size := by
  obtain ⟨y, o, h1, h2, h3, h4, _⟩ := C66_minimal hqr h x hx hlen none (by simp) direction hd
  obtain ⟨y', o', g1, g2⟩ := C66_no_smaller hqr h x hx hlen direction hd
  have h1 : x.compress qr svd none (some 0) direction true = .ok (y, o) := h1
  rw [h1] at g1
  cases g1
  refine ⟨y, o, h1, h4, fun z hz hs hv => ?_⟩
  rw [C80_size y h2.valid, C80_size z hz.valid, hs, h3]
  exact storage_mono _ (g2 z hz hs hv)

/-! ### Ranks in canonical form -/

theorem sumIdx_one (s : List ℕ) : (sumIdx s fun _ => (1 : ℕ)) = s.prod := by
  induction s with
  | nil => simp
  | cons d s ih => rw [sumIdx_cons]; simp [ih]

theorem idxSet_card (s : List ℕ) : (idxSet s).card = s.prod := by
  rw [← sumIdx_one, sumIdx_eq_sum, Finset.card_eq_sum_ones]

/-- There are at most as many orthonormal vectors as entries. -/
theorem ortho_card {ι : Type*} (I : Finset ι) {K : ℕ} {q : ι → ℕ → 𝕜}
    (h : ∀ k < K, ∀ k' < K, ∑ i ∈ I, star (q i k) * q i k' = if k = k' then 1 else 0) : K ≤ I.card := by
  set M : Matrix I (Fin K) 𝕜 := Matrix.of fun i k => q i k with hM
  have e : M.conjTranspose * M = 1 := by
    ext k k'
    rw [Matrix.mul_apply, Matrix.one_apply]
    simp only [Matrix.conjTranspose_apply, hM, Matrix.of_apply]
    rw [Finset.sum_coe_sort I fun i => star (q i k) * q i k', h k k.2 k' k'.2]
    simp [Fin.ext_iff]
  have h1 : (M.conjTranspose * M).rank ≤ M.rank := Matrix.rank_mul_le_right _ _
  rw [e, Matrix.rank_one] at h1
  have h2 := M.rank_le_card_height
  simp only [Fintype.card_fin, Fintype.card_coe] at h1 h2
  exact h1.trans h2

theorem lcanon_rank {t : NDArray 𝕜} (h : LCanon t) : t.rb ≤ t.lb * t.ph.prod := by
  have := ortho_card (range t.lb ×ˢ idxSet t.ph) (K := t.rb) (q := fun i b => t.at3 i.1 i.2 b) fun b hb b' hb' => by
    rw [Finset.sum_product, ← h b hb b' hb']
    exact Finset.sum_congr rfl fun a _ => by rw [sumIdx_eq_sum]
  rwa [Finset.card_product, Finset.card_range, idxSet_card] at this

theorem rcanon_rank {t : NDArray 𝕜} (h : RCanon t) : t.lb ≤ t.ph.prod * t.rb := by
  have := ortho_card (range t.rb ×ˢ idxSet t.ph) (K := t.lb) (q := fun i a => star (t.at3 a i.2 i.1)) fun a ha a' ha' => by
    rw [Finset.sum_product, ← h a ha a' ha']
    refine Finset.sum_congr rfl fun b _ => ?_
    rw [sumIdx_eq_sum]
    exact Finset.sum_congr rfl fun p _ => by rw [star_star]
  rw [Finset.card_product, Finset.card_range, idxSet_card, mul_comm] at this
  exact this

theorem left_ranks {ts : List (NDArray 𝕜)} {l r : ℕ} (h : Chained l ts r) (hc : ∀ t ∈ ts, LCanon t) : r ≤ l * (physShape ts).flatten.prod := by
  induction ts generalizing l with
  | nil => simpa [physShape] using (show l = r from h).ge
  | cons t ts ih =>
    obtain ⟨_, rfl, h3⟩ := h
    have h4 := ih h3 fun u hu => hc u (by simp [hu])
    refine h4.trans ?_
    show t.rb * (physShape ts).flatten.prod ≤ t.lb * (t.ph ++ (physShape ts).flatten).prod
    rw [List.prod_append, ← mul_assoc]
    exact Nat.mul_le_mul_right _ (lcanon_rank (hc t (by simp)))

theorem right_ranks {ts : List (NDArray 𝕜)} {l r : ℕ} (h : Chained l ts r) (hc : ∀ t ∈ ts, RCanon t) : l ≤ (physShape ts).flatten.prod * r := by
  induction ts generalizing l with
  | nil => simpa [physShape] using (show l = r from h).le
  | cons t ts ih =>
    obtain ⟨_, rfl, h3⟩ := h
    have h4 := ih h3 fun u hu => hc u (by simp [hu])
    refine (rcanon_rank (hc t (by simp))).trans ?_
    show t.ph.prod * t.rb ≤ (t.ph ++ (physShape ts).flatten).prod * r
    rw [List.prod_append, mul_assoc]
    exact Nat.mul_le_mul_left _ h4

/-- C80: in canonical form, no rank to the left of the centre exceeds the size of the legs on its left, and no rank to the right of it
that of the legs on its right. -/
theorem C80_canonical_ranks (x : MPA 𝕜) (hx : x.Good) (k : ℕ) (hk : k + 1 < x.len) :
    ((k : ℤ) < x.l → x.ranks.getD k 0 ≤ (x.shape.take (k + 1)).flatten.prod) ∧
      (x.r ≤ (k : ℤ) + 1 → x.ranks.getD k 0 ≤ (x.shape.drop (k + 1)).flatten.prod) := by
  have hk' : k + 1 < x.lt.length := hk
  have hsplit : x.lt = x.lt.take (k + 1) ++ x.lt.drop (k + 1) := (List.take_append_drop _ _).symm
  have hch := hx.valid.chain
  rw [hsplit] at hch
  obtain ⟨m, h1, h2⟩ := chained_append.1 hch
  have hm : x.ranks.getD k 0 = m := by
    rw [List.drop_eq_getElem_cons hk'] at h2
    obtain ⟨_, h3, _⟩ := h2
    rw [← h3, MPA.ranks, List.getD_eq_getElem _ _ (by simp; omega)]
    simp
  have e1 : x.shape.take (k + 1) = physShape (x.lt.take (k + 1)) := by unfold MPA.shape physShape; rw [List.map_take]
  have e2 : x.shape.drop (k + 1) = physShape (x.lt.drop (k + 1)) := by unfold MPA.shape physShape; rw [List.map_drop]
  rw [hm, e1, e2]
  refine ⟨fun hl => ?_, fun hr => ?_⟩
  · have := left_ranks h1 fun t ht => by
      obtain ⟨n, hn⟩ := List.mem_iff_getElem?.1 ht
      have hn' := (List.getElem?_eq_some_iff.1 hn).1
      rw [List.length_take] at hn'
      rw [List.getElem?_take_of_lt (by omega)] at hn
      exact (hx.canon n t hn).1 (by omega)
    simpa using this
  · have := right_ranks h2 fun t ht => by
      obtain ⟨n, hn⟩ := List.mem_iff_getElem?.1 ht
      rw [List.getElem?_drop] at hn
      exact (hx.canon _ t hn).2 (by push_cast; omega)
    simpa using this

/-- Non-vacuity, and the example in the documentation of `size`: three sites of dimension 4 with rank 3 take 60 numbers. -/
example : storage [[4], [4], [4]] [3, 3] = 60 ∧ exMPAc.size = storage exMPAc.shape exMPAc.ranks ∧ exMPAc.ranks = [2] ∧ exMPAc.Good :=
  ⟨rfl, C80_size _ exMPAc_good.valid, rfl, exMPAc_good⟩

end

end Mpnum
