import Verif.Povm.MpPovm
import Verif.Props.C08
import Verif.Props.C14
import Verif.Props.C15
import Verif.Props.C34
import Verif.Props.C35
import Mathlib.Data.List.GetD

/-!
# Specification of MP-POVMs and of the Born rule, and the probability map -/

open Finset

namespace Mpnum

variable {R : Type}

/-- Specification: physical indices (or sizes) of sites with three legs. -/
def triples (Y I J : List ℕ) : List (List ℕ) := List.zipWith (fun y p => y :: p) Y (pairs I J)

/-- Specification: `x` is an MP-POVM with `O` outcomes and local dimensions `D`. -/
structure IsMpPovm (x : MPA R) (O D : List ℕ) : Prop where
  valid : x.Valid
  len : O.length = D.length
  shape : x.shape = triples O D D
  small : ∀ o ∈ O, o ≤ 255

/-- Specification: the matrix element `(I, J)` of the POVM element for the outcome `Y`. -/
def MPA.elem [CommSemiring R] (x : MPA R) (Y I J : List ℕ) : R := x.val (triples Y I J)

/-- Specification (Born rule): the trace of the product of two matrices, `tr(M ρ)`. -/
def bornRule [CommSemiring R] (D : List ℕ) (M ρ : List ℕ → List ℕ → R) : R :=
  sumIdx D fun I => sumIdx D fun J => M I J * ρ J I

@[simp] theorem triples_nil (I J : List ℕ) : triples [] I J = [] := by simp [triples]

@[simp] theorem triples_cons (y i j : ℕ) (Y I J : List ℕ) : triples (y :: Y) (i :: I) (j :: J) = [y, i, j] :: triples Y I J := rfl

theorem triples_length {Y I J : List ℕ} (h1 : Y.length = I.length) (h2 : I.length = J.length) :
    (triples Y I J).length = Y.length := by
  simp [triples, h1, h2]

theorem triples_append {Y I J Y' I' J' : List ℕ} (h1 : Y.length = I.length) (h2 : I.length = J.length) :
    triples (Y ++ Y') (I ++ I') (J ++ J') = triples Y I J ++ triples Y' I' J' := by
  unfold triples
  rw [pairs_append h2, List.zipWith_append (by simp [h1, h2])]

theorem triples_idxOK : ∀ {Y O I D J E : List ℕ}, InB Y O → InB I D → InB J E → IdxOK (triples Y I J) (triples O D E)
  | [], [], I, D, J, E, _, _, _ => by simp [IdxOK]
  | y :: Y, o :: O, I, D, J, E, hY, hI, hJ => by
    cases D with
    | nil => cases I with
      | nil => simp [triples, IdxOK]
      | cons => simp at hI
    | cons d D => cases E with
      | nil => cases J with
        | nil => simp [triples, IdxOK]
        | cons => simp at hJ
      | cons e E =>
        obtain ⟨i, I, rfl, h1, h2⟩ := inB_cons_split hI
        obtain ⟨j, J, rfl, h3, h4⟩ := inB_cons_split hJ
        rw [inB_cons] at hY
        rw [triples_cons, triples_cons, idxOK_cons]
        exact ⟨by simp [h1, h3, hY.1], triples_idxOK hY.2 h2 h4⟩
  | [], _ :: _, _, _, _, _, h, _, _ => by simp at h
  | _ :: _, [], _, _, _, _, h, _, _ => by simp at h

theorem IsMpPovm.lenx {x : MPA R} {O D : List ℕ} (h : IsMpPovm x O D) : x.lt.length = D.length := by
  have := congrArg List.length h.shape
  simpa [MPA.shape, triples, h.len] using this

theorem IsMpPovm.legs {x : MPA R} {O D : List ℕ} (h : IsMpPovm x O D) : ∀ s ∈ x.shape, s.length = 3 := by
  intro s hs
  rw [h.shape] at hs
  obtain ⟨n, hn, rfl⟩ := List.getElem_of_mem hs
  simp [triples]

theorem IsMpPovm.ph {x : MPA R} {O D : List ℕ} (h : IsMpPovm x O D) {n : ℕ} (hn : n < x.lt.length) :
    x.lt[n].shape = [x.lt[n].lb, O.getD n 0, D.getD n 0, D.getD n 0, x.lt[n].rb] := by
  have h1 := h.shape
  have hl := h.lenx
  have hl' := h.len
  have h2 : x.lt[n].ph = (triples O D D)[n]'(by rw [triples_length h.len rfl]; omega) := by
    have : x.shape[n]'(by simpa [MPA.shape] using hn) = x.lt[n].ph := by simp [MPA.shape]
    rw [← this]; simp only [h1]
  rw [NDArray.shape_local (h.valid.chain.isLocal _ (List.getElem_mem hn)), h2]
  simp [triples, hn, show n < O.length by omega, show n < D.length by omega]

/-- The checks of the constructor hold. -/
theorem IsMpPovm.check {x : MPA R} {O D : List ℕ} (h : IsMpPovm x O D) : x.povmCheck = .ok x := by
  unfold MPA.povmCheck
  rw [pyAssert_true, ok_bind, pyAssert_true, ok_bind, pyAssert_true, ok_bind]
  · rfl
  · intro d hd
    unfold MPA.outdims at hd
    obtain ⟨n, hn, rfl⟩ := List.getElem_of_mem hd
    simp only [List.length_map] at hn
    rw [List.getElem_map, h.ph hn]
    have hl := h.lenx
    have hl' := h.len
    simp only [List.getD_cons_succ, List.getD_cons_zero]
    rw [List.getD_eq_getElem _ _ (by omega)]
    exact h.small _ (List.getElem_mem _)
  · intro s hs
    rw [h.shape] at hs
    obtain ⟨n, hn, rfl⟩ := List.getElem_of_mem hs
    simp [triples]
  · intro n hn
    unfold MPA.ndims at hn
    obtain ⟨m, hm, rfl⟩ := List.getElem_of_mem hn
    simp only [List.length_map] at hm
    rw [List.getElem_map]
    unfold NDArray.ndim
    rw [h.ph hm]
    rfl

theorem triples_getD {O D : List ℕ} (h : O.length = D.length) :
    (triples O D D).map (fun s => s.getD 0 0) = O ∧ (triples O D D).map (fun s => s.getD 1 0) = D := by
  constructor
  · apply List.ext_getElem <;> simp [triples, h]
  · apply List.ext_getElem <;> simp [triples, h]

theorem IsMpPovm.outdims {x : MPA R} {O D : List ℕ} (h : IsMpPovm x O D) : x.outdims = O := by
  have hl := h.lenx
  have hl' := h.len
  apply List.ext_getElem
  · simp [MPA.outdims, hl, hl']
  · intro n h1 h2
    simp only [MPA.outdims, List.getElem_map]
    rw [h.ph (by omega)]
    simp [h2]

theorem IsMpPovm.hdims {x : MPA R} {O D : List ℕ} (h : IsMpPovm x O D) : x.hdims = D := by
  have hl := h.lenx
  have hl' := h.len
  apply List.ext_getElem
  · simp [MPA.hdims, hl]
  · intro n h1 h2
    simp only [MPA.hdims, List.getElem_map]
    rw [h.ph (by omega)]
    simp [h2]

/-- The constructor accepts exactly the MP-POVMs. -/
theorem povmCheck_iff {x : MPA R} (hx : x.Valid) : (∃ y, x.povmCheck = .ok y) ↔ ∃ O D, IsMpPovm x O D := by
  constructor
  · rintro ⟨y, h⟩
    unfold MPA.povmCheck at h
    obtain ⟨_, h1, h⟩ := bind_ok_inv h
    obtain ⟨_, h2, h⟩ := bind_ok_inv h
    obtain ⟨_, h3, _⟩ := bind_ok_inv h
    simp only [pyAssert] at h1 h2 h3
    split_ifs at h1 h2 h3 with c1 c2 c3
    refine ⟨x.outdims, x.hdims, hx, by simp [MPA.outdims, MPA.hdims], ?_, c3⟩
    apply List.ext_getElem
    · simp [MPA.shape, triples, MPA.outdims, MPA.hdims]
    · intro n h1 h2
      have hn : n < x.lt.length := by simpa [MPA.shape] using h1
      have hloc := NDArray.shape_local (hx.chain.isLocal _ (List.getElem_mem hn))
      have hn3 : x.lt[n].ph.length = 3 := by
        have := c1 (x.lt[n].ph.length) (by
          unfold MPA.ndims
          rw [List.mem_map]
          refine ⟨x.lt[n], List.getElem_mem hn, ?_⟩
          unfold NDArray.ndim
          rw [hloc]; simp)
        exact this
      have hsq := c2 _ (List.getElem_mem h1)
      simp only [MPA.shape, List.getElem_map] at hsq
      simp only [MPA.shape, List.getElem_map, triples, MPA.outdims, MPA.hdims, List.getElem_zipWith]
      rw [hloc]
      match hp : x.lt[n].ph, hn3 with
      | [a, b, c], _ =>
        rw [hp] at hsq
        simp only [List.getD_cons_succ, List.getD_cons_zero] at hsq
        simp [hsq]
  · rintro ⟨O, D, h⟩
    exact ⟨x, h.check⟩

/-! ### the probability map -/

/-- Row-major positions of the pairs `(j, i)`. -/
def flat : List ℕ → List ℕ → List ℕ → List ℕ
  | d :: D, j :: J, i :: I => (j * d + i) :: flat D J I
  | _, _, _ => []

theorem flat_inB : ∀ {D J I : List ℕ}, InB J D → InB I D → InB (flat D J I) (D.map fun d => d * d)
  | [], J, I, hJ, hI => by
    rw [inB_nil_right] at hJ hI; subst hJ hI; simp [flat]
  | d :: D, J, I, hJ, hI => by
    obtain ⟨i, I, rfl, h1, h2⟩ := inB_cons_split hI
    obtain ⟨j, J, rfl, h3, h4⟩ := inB_cons_split hJ
    rw [flat, List.map_cons, inB_cons]
    refine ⟨?_, flat_inB h4 h2⟩
    calc j * d + i < j * d + d := by omega
      _ = (j + 1) * d := by ring
      _ ≤ d * d := Nat.mul_le_mul_right _ h3

theorem sumIdx_flat [AddCommMonoid R] : ∀ (D : List ℕ) (f : List ℕ → R),
    sumIdx (D.map fun d => d * d) f = sumIdx D fun J => sumIdx D fun I => f (flat D J I)
  | [], f => by simp [flat]
  | d :: D, f => by
    simp only [List.map_cons, sumIdx_cons]
    rw [sum_range_mul]
    refine sum_congr rfl fun j _ => ?_
    rw [sumIdx_sum_comm]
    refine sum_congr rfl fun i _ => ?_
    rw [sumIdx_flat D]
    rfl

section
variable [CommRing R] [StarRing R]

theorem probMap_ok {x : MPA R} {O D : List ℕ} (hx : IsMpPovm x O D) (hO : ∀ o ∈ O, 0 < o) (hr : ∀ r ∈ x.ranks, 0 < r) :
    ∃ y, povmProbMap x = .ok y ∧ y.Valid ∧ y.shape = pairs O (D.map fun d => d * d) ∧ y.ranks = x.ranks ∧
      ∀ Y I J, InB Y O → InB I D → InB J D → y.val (pairs Y (flat D J I)) = x.elem Y I J := by
  have hlen := hx.len
  obtain ⟨y, h1, h2, h3, h4, h5, h6, _⟩ := C14_transpose x hx.valid 3 hx.legs [0, 2, 1] (by decide)
  have hys : y.shape = triples O D D := by
    rw [h3, hx.shape]
    apply List.ext_getElem <;> simp [triples]
  have hy : IsMpPovm y O D := ⟨h2, hx.len, hys, hx.small⟩
  have hyr : y.ranks = x.ranks := MPA.transpose_ranks h1
  obtain ⟨z, g1, g2, g3, g4, _, _, g7, _⟩ := C15_reshape y h2
    (List.zipWith (fun (o d : ℕ) => ([(o : ℤ), -1], [o, d * d])) O D) (by
      rw [hys]
      rw [List.forall₂_iff_get]
      refine ⟨by simp [triples], ?_⟩
      intro n h1 h2
      simp only [triples, List.get_eq_getElem, List.getElem_zipWith]
      refine ⟨by simp, Or.inr ⟨[O[n]'(by simp at h2; omega)], [], D[n]'(by simp at h2; omega) * D[n]'(by simp at h2; omega), rfl, ?_, rfl⟩⟩
      simpa using hO _ (List.getElem_mem _)) (Or.inr (hyr ▸ hr))
  have hz : z.shape = pairs O (D.map fun d => d * d) := by
    rw [g3, List.map_zipWith]
    apply List.ext_getElem <;> simp
  refine ⟨z, ?_, g2, hz, g4.trans hyr, ?_⟩
  · unfold povmProbMap
    rw [show ([0, 2, 1] : List ℤ) = [0, 2, 1].map fun k : ℕ => (k : ℤ) from rfl, h1, ok_bind, hy.check, ok_bind, hx.shape,
      show (triples O D D).map (fun s => [((s.getD 0 0 : ℕ) : ℤ), -1])
        = (List.zipWith (fun (o d : ℕ) => (([(o : ℤ), -1] : List ℤ), [o, d * d])) O D).map Prod.fst by
          apply List.ext_getElem <;> simp [triples], g1]
  · intro Y I J hY hI hJ
    have e1 : (triples Y I J).map (fun p => [0, 2, 1].map fun k => p.getD k 0) = triples Y J I := by
      have := inB_length hI
      have := inB_length hJ
      apply List.ext_getElem
      · simp [triples]; omega
      · simp [triples]
    rw [MPA.elem, ← h6 _ (by rw [hx.shape]; exact triples_idxOK hY hI hJ), e1]
    refine g7 _ _ (by rw [hys]; exact triples_idxOK hY hJ hI) (by rw [hz]; exact pairs_idxOK hY (flat_inB hJ hI)) ?_
    unfold SameRowMajor
    rw [hys, hz]
    clear g7 g1 h1 h2 h3 h4 h5 h6 g2 g3 g4 hys hz hyr hy e1 hr hO hx
    induction D generalizing O Y I J with
    | nil =>
      obtain rfl : O = [] := by simpa using hlen
      simp [triples]
    | cons d D ih =>
      cases O with
      | nil => simp at hlen
      | cons o O =>
        obtain ⟨y, Y, rfl, h1, h2⟩ := inB_cons_split hY
        obtain ⟨i, I, rfl, h3, h4⟩ := inB_cons_split hI
        obtain ⟨j, J, rfl, h5, h6⟩ := inB_cons_split hJ
        have := ih (O := O) (Y := Y) (I := I) (J := J) (by simpa using hlen) h2 h4 h6
        simp only [triples_cons, flat, List.map_cons, pairs, List.zipWith_cons_cons] at this ⊢
        rw [this]
        congr 1
        simp [ravelIdx]

/-- Product of a matrix and a vector. -/
theorem dot_vector {x y : MPA R} (hx : x.Valid) (hy : y.Valid) {M N : List ℕ} (hM : M.length = N.length)
    (hxs : x.shape = pairs M N) (hys : y.shape = singles N) :
    ∃ z, dot x y ([-1], [0]) = .ok z ∧ z.Valid ∧ z.shape = singles M ∧ z.ranks = List.zipWith (· * ·) x.ranks y.ranks ∧
      ∀ I, InB I M → z.val (singles I) = sumIdx N fun K => x.val (pairs I K) * y.val (singles K) := by
  have f1 : (x.shape.map fun s => freeDims s (axesOf [-1] s.length)) = singles M := by
    rw [hxs, List.map_zipWith]; exact zipWith_left hM
  have c1 : (x.shape.map fun s => conDims s (axesOf [-1] s.length)) = singles N := by
    rw [hxs, List.map_zipWith]; exact zipWith_right hM
  have f2 : (y.shape.map fun s => freeDims s (axesOf [0] s.length)) = N.map fun _ => [] := by
    rw [hys, List.map_map]; rfl
  have c2 : (y.shape.map fun s => conDims s (axesOf [0] s.length)) = singles N := by
    rw [hys, List.map_map]; rfl
  obtain ⟨z, h1, h2, -, -, h3, h5, h4⟩ := C08_dot x y ([-1], [0]) hx hy
    ⟨by
      have a := congrArg List.length hxs
      have b := congrArg List.length hys
      simp [MPA.shape] at a b
      unfold MPA.len; omega, by
      intro s hs; rw [hxs] at hs
      have : s.length = 2 := by
        obtain ⟨n, hn, rfl⟩ := List.getElem_of_mem hs; simp
      rw [this]
      exact ⟨by intro a ha; simp at ha; omega, by simp [axesOf]⟩, by
      intro s hs; rw [hys] at hs
      have : s.length = 1 := by
        obtain ⟨n, hn, rfl⟩ := List.getElem_of_mem hs; simp
      rw [this]
      exact ⟨by intro a ha; simp at ha; omega, by simp [axesOf]⟩, by rw [c1, c2]⟩
  refine ⟨z, h1, h2, ?_, h5, ?_⟩
  · rw [h3, f1, f2]
    apply List.ext_getElem <;> simp [hM]
  · intro I hI
    have hIl := inB_length hI
    have key := h4 (singles I) (N.map fun _ => []) (by rw [f1]; exact singles_idxOK hI) (by
      rw [f2]
      unfold IdxOK
      rw [List.forall₂_same]
      intro s hs
      obtain ⟨_, _, rfl⟩ := List.mem_map.1 hs
      simp)
    have e0 : List.zipWith (· ++ ·) (singles I) (N.map fun _ => []) = singles I := by
      apply List.ext_getElem <;> simp [hIl, hM]
    rw [e0] at key
    rw [key, c1]
    have s1 : ∀ (B : List ℕ) (F : List (List ℕ) → R),
        sumSites (singles B) F = sumIdx B fun K => F (singles K) := by
      intro B
      induction B with
      | nil => intro F; rfl
      | cons b B ih =>
        intro F
        simp only [singles, List.map_cons, sumSites, sumIdx, ih]
    rw [s1]
    refine sumIdx_congr fun K hK => ?_
    have hKl := inB_length hK
    congr 2
    · rw [hxs]; exact mergeIdx_last M N I K hM hIl (by omega)
    · rw [hys]
      clear key s1 c1 c2 f1 f2 e0 h4 hxs hys hM hI hIl
      induction hK with
      | nil => rfl
      | cons h _ ih =>
        simp only [List.map_cons]
        have := ih (by simpa using hKl)
        unfold mergeIdx at this ⊢
        simp only [singles, List.map_cons, List.zipWith3]
        rw [this]
        rfl

/-- Applying the probability map to an MPO yields the Born probabilities. -/
theorem applyPmap_ok {x pm ρ : MPA R} {O D : List ℕ} (hx : IsMpPovm x O D) (hpm : povmProbMap x = .ok pm)
    (hO : ∀ o ∈ O, 0 < o) (hr : ∀ r ∈ x.ranks, 0 < r)
    (hρ : IsMpo ρ D) (hr' : ∀ r ∈ ρ.ranks, 0 < r) :
    ∃ z, applyPmap pm ρ = .ok z ∧ z.Valid ∧ z.shape = singles O ∧
      ∀ Y, InB Y O → z.val (singles Y) = bornRule D (x.elem Y) fun I J => ρ.val (pairs I J) := by
  obtain ⟨pm', h1, h2, h3, h4, h5⟩ := probMap_ok hx hO hr
  rw [h1] at hpm
  obtain rfl := Except.ok.inj hpm
  obtain ⟨v, g1, g2, g3, g4, _, _, g5, _⟩ := C15_ravel ρ hρ.valid hr'
  have hv : v.shape = singles (D.map fun d => d * d) := by
    rw [g3, hρ.shape]
    apply List.ext_getElem <;> simp
  obtain ⟨z, k1, k2, k3, k4, k5⟩ := dot_vector h2 g2 (by simp [hx.len]) h3 hv
  refine ⟨z, ?_, k2, k3, ?_⟩
  · unfold applyPmap; rw [g1, ok_bind, k1]
  · intro Y hY
    rw [k5 Y hY, sumIdx_flat, sumIdx_comm]
    unfold bornRule
    refine sumIdx_congr fun I hI => sumIdx_congr fun J hJ => ?_
    rw [h5 Y I J hY hI hJ]; show _ = _ * ρ.val (pairs J I); rw [← g5 (pairs J I) (by rw [hρ.shape]; exact pairs_idxOK hJ hI)]
    congr 2
    rw [hρ.shape]
    clear k5 k1 k2 k3 k4 h5 h4 h3 h1 g1 g2 g3 g4 g5 hv hx hρ
    induction D generalizing I J with
    | nil => simp [flat]
    | cons d D ih =>
      obtain ⟨i, I, rfl, h3, h4⟩ := inB_cons_split hI
      obtain ⟨j, J, rfl, h5, h6⟩ := inB_cons_split hJ
      have := ih I h4 J h6
      simp only [flat, List.map_cons, pairs, singles, List.zipWith_cons_cons] at this ⊢
      rw [this]
      simp [ravelIdx]

end

end Mpnum
