import Verif.MPArray.ToGlobal
import Verif.Props.C02
import Verif.Props.C32

/-!
# C69: global form

`siteIdx N p j` is the physical index with the value `j n k` for leg `k` of site `n`; `byLeg N p j` is the same index in
global form: the first legs of all sites, then the second legs of all sites and so on.
-/

open Finset

namespace Mpnum

variable {R : Type}

/-- Specification: a list per site, with the value `j n k` for leg `k` of site `n`. -/
def siteIdx (N p : ℕ) (j : ℕ → ℕ → ℕ) : List (List ℕ) := (List.range N).map fun n => (List.range p).map fun k => j n k

theorem siteIdx_flatten (N p : ℕ) (j : ℕ → ℕ → ℕ) : (siteIdx N p j).flatten = bySite N p j := by
  rw [siteIdx, bySite, List.flatMap_def]

theorem siteIdx_getD {S : List (List ℕ)} {p : ℕ} (h : ∀ s ∈ S, s.length = p) :
    siteIdx S.length p (fun n k => (S.getD n []).getD k 0) = S := by
  unfold siteIdx
  refine List.ext_getElem (by simp) fun n h1 h2 => ?_
  have hs := h S[n] (List.getElem_mem _)
  simp only [List.getElem_map, List.getElem_range]
  rw [List.getD_eq_getElem?_getD, List.getElem?_eq_getElem h2, Option.getD_some]
  exact map_getD_range' hs

theorem siteIdx_idxOK {N p : ℕ} {j d : ℕ → ℕ → ℕ} (h : ∀ n < N, ∀ k < p, j n k < d n k) :
    IdxOK (siteIdx N p j) (siteIdx N p d) := by
  unfold siteIdx IdxOK
  rw [List.forall₂_map_left_iff, List.forall₂_map_right_iff, List.forall₂_same]
  intro n hn
  show List.Forall₂ _ _ _
  rw [List.forall₂_map_left_iff, List.forall₂_map_right_iff, List.forall₂_same]
  intro k hk
  exact h n (List.mem_range.1 hn) k (List.mem_range.1 hk)

theorem inB_byLeg {N p : ℕ} {d : ℕ → ℕ → ℕ} {idx : List ℕ} (hi : InB idx (byLeg N p d)) :
    ∃ j : ℕ → ℕ → ℕ, (∀ n < N, ∀ k < p, j n k < d n k) ∧ idx = byLeg N p j := by
  have hl : idx.length = p * N := by rw [List.Forall₂.length_eq hi]; exact grid_length p N _
  refine ⟨fun n k => idx.getD (k * N + n) 0, fun n hn k hk => ?_, eq_grid hl⟩
  have h1 : (byLeg N p d)[k * N + n]? = some (d n k) := grid_getElem? (fun k n => d n k) hk hn
  obtain ⟨h2, h3⟩ := List.getElem?_eq_some_iff.1 h1
  have h2' : k * N + n < idx.length := by rw [List.Forall₂.length_eq hi]; exact h2
  have := (List.forall₂_iff_get.1 hi).2 _ h2' h2
  rw [List.get_eq_getElem, List.get_eq_getElem, h3] at this
  beta_reduce
  rw [List.getD_eq_getElem?_getD, List.getElem?_eq_getElem h2', Option.getD_some]
  exact this

/-- C69: `to_array_global()` succeeds for every valid MPA with the same number `p` of legs on all sites; leg `k` of site
`n` is axis `k * len + n` of the result, and the entries are those of the matrix product. -/
theorem C69_to_array_global [CommSemiring R] (x : MPA R) (hx : x.Valid) (p : ℕ) (hp : ∀ s ∈ x.shape, s.length = p) :
    ∃ A, x.toArrayGlobal = .ok A ∧ A.shape = byLeg x.len p (fun n k => (x.shape.getD n []).getD k 0) ∧
      ∀ j : ℕ → ℕ → ℕ, (∀ n < x.len, ∀ k < p, j n k < (x.shape.getD n []).getD k 0) →
        A.get (byLeg x.len p j) = x.val (siteIdx x.len p j) := by
  obtain ⟨a, a1, a2, a3⟩ := C01_to_array x hx
  have hN : 0 < x.len := List.length_pos_of_ne_nil hx.ne
  have hS : siteIdx x.len p (fun n k => (x.shape.getD n []).getD k 0) = x.shape := by
    have := siteIdx_getD hp
    rwa [show x.shape.length = x.len by simp [MPA.shape, MPA.len]] at this
  obtain ⟨b, b1, b2, b3⟩ := C32_local_to_global a x.len p hN [] [] (fun n k => (x.shape.getD n []).getD k 0)
    (by rw [← siteIdx_flatten, hS, a2]; simp)
  refine ⟨b, ?_, by simpa using b2, fun j hj => ?_⟩
  · unfold MPA.toArrayGlobal
    rw [a1, ok_bind]
    exact b1
  · have := b3 [] j [] rfl rfl
    simp only [List.nil_append, List.append_nil] at this
    rw [this, ← siteIdx_flatten]
    refine a3 _ ?_
    have := siteIdx_idxOK hj
    rwa [hS] at this

/-- C69: `from_array_global(A, p)` for an array whose axis `k * N + n` is leg `k` of site `n`: the MPA has `N` sites with
these legs, the entries of the array, a true canonical form and the generic full ranks, and `to_array_global()` gives the
array back. -/
theorem C69_from_array_global [CommRing R] [StarRing R] {qr : QR R} (hqr : QRSpec qr) (A : NDArray R) (N p : ℕ) (hN : 0 < N)
    (hp : 0 < p) (d : ℕ → ℕ → ℕ) (hd : ∀ n < N, ∀ k < p, 0 < d n k) (hA : A.shape = byLeg N p d) :
    ∃ x, fromArrayGlobal qr A (some p) false = .ok x ∧ x.Valid ∧ x.CanonOK ∧ x.l = N - 1 ∧ x.r = N ∧
      x.shape = siteIdx N p d ∧ x.ranks = fullRank (siteIdx N p d) ∧
      (∀ j : ℕ → ℕ → ℕ, (∀ n < N, ∀ k < p, j n k < d n k) → x.val (siteIdx N p j) = A.get (byLeg N p j)) ∧
      ∃ B, x.toArrayGlobal = .ok B ∧ B.Eqv A := by
  have hnd : A.ndim = N * p := by
    show A.shape.length = _
    rw [hA]; simp [byLeg, List.length_flatMap, Nat.mul_comm]
  obtain ⟨b, b1, b2, b3⟩ := C32_global_to_local A N p hN [] [] d (by simpa using hA)
  simp only [List.nil_append, List.append_nil, List.length_nil] at b1 b2
  obtain ⟨x, x1, x2⟩ := C02_from_array_const hqr b p hp (siteIdx N p d) (by
    intro h; have := congrArg List.length h; simp [siteIdx] at this; omega) (by simp [siteIdx]) (by
    intro s hs e he
    simp only [siteIdx, List.mem_map, List.mem_range] at hs
    obtain ⟨n, hn, rfl⟩ := hs
    obtain ⟨k, hk, rfl⟩ := List.mem_map.1 he
    exact hd n hn k (List.mem_range.1 hk)) (by rw [b2, siteIdx_flatten])
  have hlen : x.len = N := by
    have := congrArg List.length x2.shape
    simpa [MPA.shape, MPA.len, siteIdx] using this
  have hval : ∀ j : ℕ → ℕ → ℕ, (∀ n < N, ∀ k < p, j n k < d n k) → x.val (siteIdx N p j) = A.get (byLeg N p j) := by
    intro j hj
    obtain ⟨a, a1, a2, a3⟩ := C01_to_array x x2.valid
    obtain ⟨B, B1, B2, B3⟩ := x2.dense
    rw [a1] at B1; cases B1
    have hi := siteIdx_idxOK hj
    rw [← a3 _ (by rw [x2.shape]; exact hi), B3 _ (by
      rw [B2, b2, siteIdx_flatten, ← siteIdx_flatten, ← siteIdx_flatten]; exact idxOK_flatten hi), siteIdx_flatten]
    have := b3 [] j [] rfl rfl
    simpa using this
  have hleg : ∀ s ∈ x.shape, s.length = p := by
    rw [x2.shape]; simp [siteIdx]
  obtain ⟨C, C1, C2, C3⟩ := C69_to_array_global x x2.valid p hleg
  have hdd : ∀ n < N, ∀ k < p, (x.shape.getD n []).getD k 0 = d n k := by
    intro n hn k hk
    rw [x2.shape]
    simp [siteIdx, List.getD_eq_getElem?_getD, hn, hk]
  rw [hlen] at C2 C3
  have hC2 : C.shape = A.shape := by
    rw [C2, hA]
    unfold byLeg
    refine List.flatMap_congr fun k hk => List.map_congr_left fun n hn => ?_
    exact hdd n (List.mem_range.1 hn) k (List.mem_range.1 hk)
  refine ⟨x, ?_, x2.valid, x2.canon, by rw [x2.form.1, hlen], by rw [x2.form.2, hlen], x2.shape, x2.ranks, hval, C, C1, hC2, ?_⟩
  · unfold fromArrayGlobal
    simp only [Bool.false_eq_true, if_false, Option.getD_some]
    rw [if_neg (by omega), pyAssert_true (by rw [hnd]; exact Nat.mul_mod_left _ _), ok_bind, hnd, Nat.mul_div_cancel _ hp]
    show (globalToLocal A N 0 0 >>= _) = _
    rw [b1, ok_bind]
    exact x1
  · intro idx hi
    rw [hC2, hA] at hi
    obtain ⟨j, hj, rfl⟩ := inB_byLeg hi
    rw [C3 j fun n hn k hk => by rw [hdd n hn k hk]; exact hj n hn k hk, hval j hj]

/-- C69: `from_array_global(x.to_array_global(), p)` has the shape and the entries of `x`. -/
theorem C69_inverse [CommRing R] [StarRing R] {qr : QR R} (hqr : QRSpec qr) (x : MPA R) (hx : x.Valid) (p : ℕ) (hp0 : 0 < p)
    (hp : ∀ s ∈ x.shape, s.length = p) (hpos : ∀ s ∈ x.shape, ∀ d ∈ s, 0 < d) :
    ∃ A y, x.toArrayGlobal = .ok A ∧ fromArrayGlobal qr A (some p) false = .ok y ∧ y.Valid ∧ y.shape = x.shape ∧
      ∀ idx, IdxOK idx x.shape → y.val idx = x.val idx := by
  obtain ⟨A, A1, A2, A3⟩ := C69_to_array_global x hx p hp
  have hl : x.shape.length = x.len := by simp [MPA.shape, MPA.len]
  have hS : siteIdx x.len p (fun n k => (x.shape.getD n []).getD k 0) = x.shape := by
    have := siteIdx_getD hp
    rwa [hl] at this
  obtain ⟨y, y1, y2, -, -, -, y3, -, y4, -⟩ := C69_from_array_global hqr A x.len p (List.length_pos_of_ne_nil hx.ne) hp0
    (fun n k => (x.shape.getD n []).getD k 0) (by
      intro n hn k hk
      have hn' : n < x.shape.length := by omega
      have hm : x.shape[n] ∈ x.shape := List.getElem_mem _
      have hk' : k < x.shape[n].length := by rw [hp _ hm]; exact hk
      have e : x.shape.getD n [] = x.shape[n] := by
        rw [List.getD_eq_getElem?_getD, List.getElem?_eq_getElem hn', Option.getD_some]
      rw [e, List.getD_eq_getElem?_getD, List.getElem?_eq_getElem hk', Option.getD_some]
      exact hpos _ hm _ (List.getElem_mem _)) A2
  refine ⟨A, y, A1, y1, y2, by rw [y3, hS], fun idx hi => ?_⟩
  have hidx : ∀ s ∈ idx, s.length = p := by
    intro s hs
    obtain ⟨n, hn, rfl⟩ := List.getElem_of_mem hs
    have := (List.forall₂_iff_get.1 hi).2 n hn (by rw [← hi.length_eq]; exact hn)
    exact (List.Forall₂.length_eq this).trans (hp _ (List.getElem_mem _))
  have hil : idx.length = x.len := by rw [hi.length_eq, hl]
  have hI : siteIdx x.len p (fun n k => (idx.getD n []).getD k 0) = idx := by
    have := siteIdx_getD hidx
    rwa [hil] at this
  have hj : ∀ n < x.len, ∀ k < p, (idx.getD n []).getD k 0 < (x.shape.getD n []).getD k 0 := by
    intro n hn k hk
    have h1 : n < idx.length := by omega
    have h2 : n < x.shape.length := by omega
    have h3 := (List.forall₂_iff_get.1 hi).2 n h1 h2
    have k1 : k < (idx.get ⟨n, h1⟩).length := by rw [hidx _ (List.get_mem _ _)]; exact hk
    have k2 : k < (x.shape.get ⟨n, h2⟩).length := by rw [hp _ (List.get_mem _ _)]; exact hk
    have h4 := (List.forall₂_iff_get.1 h3).2 k k1 k2
    simp only [List.get_eq_getElem] at h4 k1 k2
    simpa [List.getD_eq_getElem?_getD, h1, h2, k1, k2] using h4
  have e1 := y4 _ hj
  have e2 := A3 _ hj
  rw [hI] at e1 e2
  rw [e1, e2]

/-- C69: with `ndims=None` all axes go to one site, as in `from_array`. -/
theorem C69_default [CommRing R] [StarRing R] {qr : QR R} (hqr : QRSpec qr) (A : NDArray R) (h0 : A.shape ≠ [])
    (hpos : ∀ d ∈ A.shape, 0 < d) :
    ∃ x, fromArrayGlobal qr A none false = .ok x ∧ x.Valid ∧ x.shape = [A.shape] ∧
      ∀ i, InB i A.shape → x.val [i] = A.get i := by
  have hnd : 0 < A.ndim := List.length_pos_of_ne_nil h0
  have hone : ∀ l : List ℕ, byLeg 1 l.length (fun _ k => l.getD k 0) = l := by
    intro l
    refine List.ext_getElem? fun m => ?_
    by_cases hm : m < l.length
    · have := grid_getElem? (fun k _ => l.getD k 0) hm (Nat.zero_lt_one)
      rw [Nat.mul_one, Nat.add_zero] at this
      refine this.trans ?_
      rw [List.getD_eq_getElem?_getD, List.getElem?_eq_getElem hm, Option.getD_some]
    · have hl : (byLeg 1 l.length (fun _ k => l.getD k 0)).length = l.length := (grid_length _ _ _).trans (Nat.mul_one _)
      rw [List.getElem?_eq_none (by omega), List.getElem?_eq_none (by omega)]
  have hsite : ∀ l : List ℕ, siteIdx 1 l.length (fun _ k => l.getD k 0) = [l] := by
    intro l
    simp only [siteIdx, List.range_one, List.map_cons, List.map_nil]
    rw [map_getD_range' rfl]
  obtain ⟨x, x1, x2, -, -, -, x3, -, x4, -⟩ := C69_from_array_global hqr A 1 A.ndim Nat.one_pos hnd (fun _ k => A.shape.getD k 0) (by
    intro _ _ k hk
    have hk' : k < A.shape.length := hk
    rw [List.getD_eq_getElem?_getD, List.getElem?_eq_getElem hk', Option.getD_some]
    exact hpos _ (List.getElem_mem _)) (hone A.shape).symm
  refine ⟨x, x1, x2, x3.trans (hsite A.shape), fun i hi => ?_⟩
  have hl : i.length = A.ndim := List.Forall₂.length_eq hi
  have := x4 (fun _ k => i.getD k 0) (by
    intro _ _ k hk
    have k1 : k < i.length := by omega
    have k2 : k < A.shape.length := hk
    have := (List.forall₂_iff_get.1 hi).2 k k1 k2
    simp only [List.get_eq_getElem] at this
    simpa [List.getD_eq_getElem?_getD, k1, k2] using this)
  rw [← hl, hone, hsite] at this
  exact this

/-- C69: exceptions of `from_array_global`: `has_virtual=True` is not implemented, the number of axes has to be a multiple
of `ndims`, and neither `ndims=0` nor an array without axes (with any `ndims`) is possible. -/
theorem C69_exceptions (qr : QR R) (A : NDArray R) (ndims : Option ℕ) :
    fromArrayGlobal qr A ndims true = .error .notImplemented ∧
    (∀ n, 0 < n → A.ndim % n ≠ 0 → fromArrayGlobal qr A (some n) false = .error .assertion) ∧
    fromArrayGlobal qr A (some 0) false = .error .zeroDiv ∧
    (A.shape = [] → fromArrayGlobal qr A ndims false = .error .zeroDiv) := by
  refine ⟨rfl, ?_, rfl, ?_⟩
  · intro n hn h
    unfold fromArrayGlobal
    simp only [Bool.false_eq_true, if_false, Option.getD_some]
    rw [if_neg (by omega), pyAssert, if_neg h]
    rfl
  · intro h
    have hnd : A.ndim = 0 := by show A.shape.length = 0; rw [h]; rfl
    unfold fromArrayGlobal
    simp only [Bool.false_eq_true, if_false, hnd]
    by_cases h0 : ndims.getD 0 = 0
    · rw [if_pos h0]
    · rw [if_neg h0, pyAssert_true (Nat.zero_mod _), ok_bind, Nat.zero_div]
      rfl

/-- A finding: on an MPA with different numbers of legs on its sites, `to_array_global()` mixes the legs of different sites
without complaint if only the total number of legs is a multiple of the number of sites. -/
theorem C69_uneven [CommSemiring R] (x : MPA R) (hx : x.Valid) (a b c d : ℕ) (hs : x.shape = [[a, b, c], [d]]) :
    ∃ A, x.toArrayGlobal = .ok A ∧ A.shape = [a, c, b, d] ∧
      ∀ i j k l, i < a → j < b → k < c → l < d → A.get [i, k, j, l] = x.val [[i, j, k], [l]] := by
  obtain ⟨B, B1, B2, B3⟩ := C01_to_array x hx
  have hlen : x.len = 2 := by
    have := congrArg List.length hs
    simpa [MPA.shape, MPA.len] using this
  obtain ⟨A, A1, A2, A3⟩ := C32_local_to_global B 2 2 (by omega) [] [] (fun n k => [a, b, c, d].getD (2 * n + k) 0) (by
    rw [B2, hs]; simp [bySite, List.range_succ])
  refine ⟨A, ?_, by rw [A2]; simp [byLeg, List.range_succ], fun i j k l hi hj hk hl => ?_⟩
  · unfold MPA.toArrayGlobal
    rw [B1, ok_bind, hlen]
    exact A1
  · have h1 := A3 [] (fun n m => [i, j, k, l].getD (2 * n + m) 0) [] rfl rfl
    have h2 := B3 [[i, j, k], [l]] (by
      rw [hs]
      exact .cons (.cons hi (.cons hj (.cons hk .nil))) (.cons (.cons hl .nil) .nil))
    simp [byLeg, bySite, List.range_succ] at h1 h2
    rw [h1, h2]

/-- A `3 × 4 × 2 × 2` array in global form. -/
def glArr : NDArray ℤ := ⟨[3, 4, 2, 2], fun i => i.getD 0 0 + 10 * i.getD 1 0 + 100 * i.getD 2 0 + 1000 * i.getD 3 0⟩

/-- The hypotheses of `C69_from_array_global` hold for two sites with legs `(3, 2)` and `(4, 2)`. -/
example : glArr.shape = byLeg 2 2 (fun n k => if k = 0 then 3 + n else 2) ∧
    ∀ n < 2, ∀ k < 2, 0 < (if k = 0 then 3 + n else 2 : ℕ) := by
  refine ⟨rfl, fun n _ k _ => ?_⟩
  split <;> omega

/-- … and the legs are permuted: entry `(1, 3, 0, 1)` of the array is the entry with legs `(1, 0)` on the first and `(3, 1)`
on the second site. -/
example : byLeg 2 2 (fun n k => if k = 0 then 1 + 2 * n else n) = [1, 3, 0, 1] ∧
    siteIdx 2 2 (fun n k => if k = 0 then 1 + 2 * n else n) = [[1, 0], [3, 1]] := ⟨rfl, rfl⟩

/-- An MPA with three legs on the first and one leg on the second site. -/
def exUneven : MPA ℤ :=
  ⟨[⟨[1, 2, 3, 4, 2], fun i => i.getD 1 0 + i.getD 4 0⟩, ⟨[2, 5, 1], fun i => i.getD 1 0⟩], 0, 2⟩

example : exUneven.Valid ∧ exUneven.shape = [[2, 3, 4], [5]] := by
  refine ⟨?_, rfl⟩
  exact ⟨by simp [exUneven], by simp [exUneven, NDArray.IsLocal, NDArray.ndim, NDArray.lb, NDArray.rb],
    by simp [exUneven], by simp [exUneven], by simp [exUneven, MPA.len]⟩

end Mpnum
