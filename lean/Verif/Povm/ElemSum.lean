import Verif.Povm.EstLemmas
import Verif.Props.C30

/-! # Lemmas about `_elemsum_identity` -/

open Finset Classical

namespace Mpnum

variable {R : Type}

theorem mergeIdx_single : ∀ {O W : List ℕ}, W.length = O.length →
    mergeIdx [-1] (singles O) (singles W) (O.map fun _ => []) = singles W
  | [], [], _ => rfl
  | o :: O, w :: W, h => by
    have ih := mergeIdx_single (O := O) (W := W) (by simpa using h)
    unfold mergeIdx at ih ⊢
    simp only [singles, List.map_cons, List.zipWith3] at ih ⊢
    rw [ih]
    rfl

theorem zipWith_nil_pairs {O D E : List ℕ} (h : O.length = D.length) (h' : D.length = E.length) :
    List.zipWith (· ++ ·) (O.map fun _ => ([] : List ℕ)) (pairs D E) = pairs D E := by
  have hl : (pairs D E).length = O.length := by simp [pairs, h, h']
  generalize pairs D E = L at hl
  induction O generalizing L D E with
  | nil => simp at hl; subst hl; rfl
  | cons o O ih =>
    cases L with
    | nil => rfl
    | cons a L =>
      have hl' : L.length = O.length := by simpa using hl
      clear ih h h'
      simp only [List.map_cons, List.zipWith_cons_cons, List.nil_append]
      congr 1
      clear hl
      induction O generalizing L with
      | nil => simp at hl'; subst hl'; rfl
      | cons o O ih =>
        cases L with
        | nil => rfl
        | cons a L => rw [List.map_cons, List.zipWith_cons_cons, ih L (by simpa using hl')]; rfl

/-- The dot product of a tensor on the outcomes with an MP-POVM is a linear combination of elements. -/
theorem dot_outcomes [CommSemiring R] {x y : MPA R} (hx : x.Valid) (hy : y.Valid) {O D E : List ℕ}
    (hO : O.length = D.length) (hD : D.length = E.length) (hxs : x.shape = singles O) (hys : y.shape = triples O D E) :
    ∃ z, dot x y ([-1], [0]) = .ok z ∧ z.Valid ∧ z.shape = pairs D E ∧ z.l = 0 ∧ z.r = z.len ∧
      z.ranks = List.zipWith (· * ·) x.ranks y.ranks ∧
      ∀ I J, InB I D → InB J E →
        z.val (pairs I J) = sumIdx O fun W => x.val (singles W) * y.val (triples W I J) := by
  obtain ⟨z, h1, h2, h3, h4, h5, h6, h7⟩ := dot_struct (axes := ([-1], [0])) (m := 1) (n := 3)
    (A := O.map fun _ => []) (C := singles O) (B := pairs D E) hx hy
    (by rw [hxs]; intro s hs; simp only [singles, List.mem_map] at hs; obtain ⟨d, -, rfl⟩ := hs; rfl)
    (by rw [hys]; exact mem_triples_length)
    ⟨by intro a ha; simp at ha; omega, by simp [axesOf]⟩ ⟨by intro a ha; simp at ha; omega, by simp [axesOf]⟩
    (by rw [hxs, singles, List.map_map]; exact List.map_congr_left fun _ _ => rfl)
    (by rw [hxs, singles, List.map_map]; exact List.map_congr_left fun _ _ => rfl)
    (by rw [hys, triples_map (fun _ d e => [d, e]) _ (fun _ _ _ => rfl)]; exact zipWith3_rest hO hD)
    (by rw [hys, triples_map (fun o _ _ => [o]) _ (fun _ _ _ => rfl)]; exact zipWith3_first hO hD)
  refine ⟨z, h1, h2, by rw [h3, zipWith_nil_pairs hO hD], h4, h5, h6, ?_⟩
  intro I J hI hJ
  have hIl := inB_length hI
  have hJl := inB_length hJ
  have := h7 (O.map fun _ => []) (pairs I J) (by
    unfold IdxOK
    rw [List.forall₂_same]
    intro a ha
    obtain ⟨_, -, rfl⟩ := List.mem_map.1 ha
    exact .nil) (pairs_idxOK hI hJ)
  rw [zipWith_nil_pairs (by rw [hIl, hO]) (by rw [hIl, hJl, hD])] at this
  rw [this, sumSites_singles]
  refine sumIdx_congr fun W hW => ?_
  rw [hxs, hys, mergeIdx_single (inB_length hW), mergeIdx_triple_first hO hD (inB_length hW) hIl hJl]

/-- Specification: the sum of the elements which are given. -/
noncomputable def givenSum (x : MPA ℂ) (O : List ℕ) (given : List ℕ → Prop) (I J : List ℕ) : ℂ :=
  sumIdx O fun Y => if given Y then x.elem Y I J else 0

/-- Specification: the trace of a matrix. -/
def matTrace (D : List ℕ) (M : List ℕ → List ℕ → ℂ) : ℂ := sumIdx D fun I => M I I

theorem hsInner_eye (D : List ℕ) (M : List ℕ → List ℕ → ℂ) :
    hsInner D M (fun I J => if I = J then 1 else 0) = star (matTrace D M) := by
  unfold hsInner matTrace
  simp only [sumIdx_eq_sum, star_sum]
  refine Finset.sum_congr rfl fun I hI => ?_
  simp only [mul_ite, mul_one, mul_zero]
  rw [Finset.sum_ite_eq (idxSet D) I, if_pos hI]

theorem hsNormSq_eye (D : List ℕ) : hsNormSq D (fun I J => if I = J then 1 else 0) = D.prod := by
  unfold hsNormSq
  have h : ∀ I ∈ idxSet D, (sumIdx D fun J => ‖(if I = J then (1 : ℂ) else 0)‖ ^ 2) = 1 := by
    intro I hI
    have e : ∀ J, ‖(if I = J then (1 : ℂ) else 0)‖ ^ 2 = if I = J then (1 : ℝ) else 0 := by
      intro J; split <;> simp
    simp only [e]
    exact sumIdx_delta (mem_idxSet.1 hI) _
  rw [sumIdx_eq_sum, Finset.sum_congr rfl h]
  rw [← sumIdx_eq_sum]
  clear h
  induction D with
  | nil => simp [sumIdx]
  | cons d D ih => rw [sumIdx_cons, ih]; simp

theorem trace_le (D : List ℕ) (M : List ℕ → List ℕ → ℂ) : ‖matTrace D M‖ ≤ √(hsNormSq D M) * √(D.prod : ℝ) := by
  have h := hs_cauchy D M (fun I J => if I = J then 1 else 0)
  rw [hsInner_eye, hsNormSq_eye, norm_star] at h
  rw [← Real.sqrt_mul (hsNormSq_nonneg _ _)]
  exact Real.le_sqrt_of_sq_le h

/-- Value of `_elemsum_identity` if the norm of the sum is `a`, the norm of the identity is `b` and the absolute
value of the trace of the sum is `t`. -/
noncomputable def fractionOf (missing : Prop) (a b t eps : ℝ) : Py (Option ℝ) :=
  if a = 0 then .error .assertion
  else if t < (1 - eps) * (a * b) then .ok none
  else if (missing ∧ a / b < 1 + eps) ∨ (¬ missing ∧ |a / b - 1| ≤ eps) then .ok (some (a / b))
  else .error .assertion

theorem ranks_zip_pos {a b : List ℕ} (ha : ∀ r ∈ a, 0 < r) (hb : ∀ r ∈ b, 0 < r) :
    ∀ r ∈ List.zipWith (· * ·) a b, 0 < r := by
  intro r hr
  obtain ⟨n, hn, rfl⟩ := List.getElem_of_mem hr
  rw [List.getElem_zipWith]
  exact Nat.mul_pos (ha _ (List.getElem_mem _)) (hb _ (List.getElem_mem _))

theorem fullRank_pos {P : List (List ℕ)} (h : ∀ p ∈ P, ∀ d ∈ p, 0 < d) : ∀ r ∈ fullRank P, 0 < r := by
  intro r hr
  rw [fullRank_spec] at hr
  obtain ⟨c, -, rfl⟩ := List.mem_map.1 hr
  have h1 : ∀ Q : List (List ℕ), (∀ p ∈ Q, p ∈ P) → 0 < Q.flatten.prod := by
    intro Q hQ
    refine List.prod_pos fun d hd => ?_
    obtain ⟨p, hp, hdp⟩ := List.mem_flatten.1 hd
    exact h p (hQ p hp) d hdp
  exact lt_min (h1 _ fun p hp => List.mem_of_mem_take hp) (h1 _ fun p hp => List.mem_of_mem_drop hp)

theorem mem_pairs_pos {D E : List ℕ} (h : ∀ d ∈ D, 0 < d) (h' : ∀ d ∈ E, 0 < d) :
    ∀ s ∈ pairs D E, ∀ d ∈ s, 0 < d := by
  intro s hs
  obtain ⟨n, hn, rfl⟩ := List.getElem_of_mem hs
  simp only [pairs, List.getElem_zipWith]
  intro d hd
  simp only [List.mem_cons, List.not_mem_nil, or_false] at hd
  rcases hd with rfl | rfl
  · exact h _ (List.getElem_mem _)
  · exact h' _ (List.getElem_mem _)

theorem singles_flat (D : List ℕ) : (singles D).flatten = D := by
  induction D with
  | nil => rfl
  | cons d D ih => simp only [singles, List.map_cons, List.flatten_cons] at ih ⊢; rw [ih]; rfl

theorem good_of_form {z : MPA ℂ} {D E : List ℕ} (h : z.Valid) (hs : z.shape = pairs D E) (hl : z.l = 0)
    (hlen : z.r = z.len) (hr : ∀ r ∈ z.ranks, 0 < r) (hD : ∀ d ∈ D, 0 < d) (hE : ∀ d ∈ E, 0 < d) : z.Good := by
  refine ⟨h, ?_, allPos_of h (by rw [hs]; exact mem_pairs_pos hD hE) hr⟩
  rw [show z = ⟨z.lt, 0, z.lt.length⟩ from by cases z; simp [MPA.len] at hl hlen; simp [hl, hlen]]
  exact canonOK_mk _

theorem elemsum_ok {qr : QR ℂ} (hqr : QRSpec qr) {x : MPA ℂ} {O D : List ℕ} (hx : IsMpPovm x O D)
    (hD : ∀ d ∈ D, 0 < d) (hr : ∀ r ∈ x.ranks, 0 < r) (hne : nsDims O ≠ []) {given : NDArray Bool}
    (hg : given.shape = nsDims O) (hO : ∀ o ∈ O, 0 < o) (hany : ∃ Y, InB Y O ∧ given.get (squeezeIdx O Y) = true)
    {eps : ℝ} (heps : 0 ≤ eps) :
    elemsumIdentity qr x (nsoutpos x) given eps
      = fractionOf (∃ Y, InB Y O ∧ given.get (squeezeIdx O Y) = false)
          √(hsNormSq D (givenSum x O fun Y => given.get (squeezeIdx O Y) = true)) √(D.prod : ℝ)
          ‖matTrace D (givenSum x O fun Y => given.get (squeezeIdx O Y) = true)‖ eps := by
  obtain ⟨G, hG⟩ : ∃ G : NDArray ℂ, G = ⟨given.shape, fun i => if given.get i then 1 else 0⟩ := ⟨_, rfl⟩
  have hsing : ∀ p ∈ singles (nsDims O), ∀ d ∈ p, 0 < d := by
    intro p hp d hd
    simp only [singles, List.mem_map] at hp
    obtain ⟨e, he, rfl⟩ := hp
    simp only [List.mem_cons, List.not_mem_nil, or_false] at hd
    subst hd
    exact hO _ (List.mem_of_mem_filter he)
  obtain ⟨g, g1, g2⟩ := C02_from_array_const hqr G 1 Nat.one_pos (singles (nsDims O))
    (by simpa [singles] using hne) (by simp [singles]) hsing
    (by rw [hG, hg]; exact (singles_flat _).symm)
  obtain ⟨h, h1, h2, h3, h4, h5⟩ := fillHoles_ok hx g2.valid g2.shape (by rw [g2.ranks]; exact fullRank_pos hsing)
  have hgval : ∀ Y, InB Y O → h.val (singles Y) = if given.get (squeezeIdx O Y) then 1 else 0 := by
    intro Y hY
    have hs := squeeze_inB hY
    obtain ⟨B, b1, b2⟩ := g2.dense
    obtain ⟨A, a1, a2, a3⟩ := C01_to_array g g2.valid
    obtain rfl : A = B := Except.ok.inj (a1.symm.trans b1)
    have := a3 (singles (squeezeIdx O Y)) (by rw [g2.shape]; exact singles_idxOK hs)
    rw [h5 Y hY, ← this, show (singles (squeezeIdx O Y)).flatten = squeezeIdx O Y from singles_flat _,
      b2.2 _ (by rw [a2, g2.shape, show (singles (nsDims O)).flatten = nsDims O from singles_flat _]; exact hs), hG]
  obtain ⟨z, z1, z2, z3, z4, z5, z6, z7⟩ := dot_outcomes h2 hx.valid hx.len rfl h3 hx.shape
  have hDl : D.length ≠ 0 := by
    intro h0
    have : O = [] := List.length_eq_zero_iff.1 (hx.len.trans h0)
    rw [this] at hne; exact hne rfl
  obtain ⟨e, e1, e2, e3, e4, e5⟩ := C49_eye (R := ℂ) x.len (by
    rw [show x.len = D.length from hx.lenx]; omega) (.each D) D ⟨rfl, hx.lenx.symm⟩
  obtain ⟨S, hS⟩ : ∃ S, S = givenSum x O fun Y => given.get (squeezeIdx O Y) = true := ⟨_, rfl⟩
  have hzS : ∀ I J, InB I D → InB J D → z.val (pairs I J) = S I J := by
    intro I J hI hJ
    rw [z7 I J hI hJ, hS]
    refine sumIdx_congr fun Y hY => ?_
    rw [hgval Y hY]
    split <;> simp_all [MPA.elem]
  have hze : e.l = 0 ∧ e.r = e.len := by
    unfold factoryEye at e1
    simp only at e1
    rw [pyAssert_true (show D.length = x.len from hx.lenx.symm), ok_bind] at e1
    have := mkMPA_eq (R := ℂ) (ts := (D.map (NDArray.eye (R := ℂ))).map NDArray.addBonds) (y := e) e1
    rw [this]; exact ⟨rfl, rfl⟩
  have hzr : ∀ r ∈ z.ranks, 0 < r := by rw [z6]; exact ranks_zip_pos h4 hr
  have her : ∀ r ∈ e.ranks, 0 < r := by
    rw [e4]; intro r hr; rw [List.eq_of_mem_replicate hr]; exact Nat.one_pos
  obtain ⟨v, z', n1, n2, -, n3, n4, n5⟩ := C09_norm hqr z (good_of_form z2 z3 z4 z5 hzr hD hD)
  obtain ⟨w, e', m1, m2, -, m3, m4, m5⟩ := C09_norm hqr e (good_of_form e2 e3 hze.1 hze.2 her hD hD)
  have hv : v = √(hsNormSq D S) := by
    rw [n2, z3, sumSites_pairs2 rfl]
    congr 1
    exact sumIdx_congr fun I hI => sumIdx_congr fun J hJ => by rw [hzS I J hI hJ]
  have hw : w = √(D.prod : ℝ) := by
    rw [m2, e3, sumSites_pairs2 rfl, ← hsNormSq_eye]
    congr 1
    exact sumIdx_congr fun I hI => sumIdx_congr fun J hJ => by rw [e5 I J hI hJ]
  have hip : inner z' e' = .ok (star (matTrace D S)) := by
    rw [C09_inner z' e' n3.valid m3.valid (by rw [n4, m4, z3, e3]) (ranks_pos_of_good n3) (ranks_pos_of_good m3), n4, z3,
      sumSites_pairs2 rfl, ← hsInner_eye]
    congr 1
    refine sumIdx_congr fun I hI => sumIdx_congr fun J hJ => ?_
    have hok := pairs_idxOK hI hJ
    rw [n5 _ (by rw [z3]; exact hok), m5 _ (by rw [e3]; exact hok), hzS I J hI hJ, e5 I J hI hJ]
  have hany' : ∃ i, InB i given.shape ∧ given.get i = true := by
    obtain ⟨Y, h1, h2⟩ := hany
    exact ⟨_, by rw [hg]; exact squeeze_inB h1, h2⟩
  have hmiss : (¬ ∀ i, InB i given.shape → given.get i = true) ↔ ∃ Y, InB Y O ∧ given.get (squeezeIdx O Y) = false := by
    rw [hg]
    push Not
    constructor
    · rintro ⟨i, h1, h2⟩
      obtain ⟨Y, hY, rfl⟩ := exists_squeeze hO h1
      exact ⟨Y, hY, by simpa using h2⟩
    · rintro ⟨Y, hY, h2⟩
      exact ⟨_, squeeze_inB hY, by simpa using h2⟩
  unfold elemsumIdentity
  rw [pyAssert_true hany', ok_bind]
  simp only []
  rw [← hG, g1, ok_bind, h1, ok_bind, z1, ok_bind, hx.hdims, e1, ok_bind, n1, ok_bind]
  simp only []
  rw [m1, ok_bind]
  simp only []
  rw [hip, ok_bind, norm_star, ← hS, hv, hw]
  obtain ⟨a, ha⟩ : ∃ a, a = √(hsNormSq D S) := ⟨_, rfl⟩
  obtain ⟨b, hb⟩ : ∃ b, b = √(D.prod : ℝ) := ⟨_, rfl⟩
  have htr := trace_le D S
  rw [← ha, ← hb] at htr ⊢
  have ha0 : 0 ≤ a := by rw [ha]; exact Real.sqrt_nonneg _
  have hb0 : 0 < b := by
    rw [hb]; refine Real.sqrt_pos.2 ?_
    exact_mod_cast List.prod_pos hD
  simp only [hmiss]
  unfold fractionOf
  by_cases h0 : a = 0
  · rw [if_pos h0, pyAssert_false (by rw [h0]; simp)]
    rfl
  have hab : 0 < a * b := mul_pos (lt_of_le_of_ne ha0 (Ne.symm h0)) hb0
  rw [if_neg h0, pyAssert_true ⟨hab.ne', by
    rw [le_div_iff₀ hab]; nlinarith⟩, ok_bind]
  have hiff : eps < (a * b - ‖matTrace D S‖) / (a * b) ↔ ‖matTrace D S‖ < (1 - eps) * (a * b) := by
    rw [lt_div_iff₀ hab]; constructor <;> intro <;> linarith
  by_cases hlt : ‖matTrace D S‖ < (1 - eps) * (a * b)
  · rw [if_pos hlt, if_pos (hiff.2 hlt)]; rfl
  · rw [if_neg hlt, if_neg fun h => hlt (hiff.1 h)]
    by_cases hm : ∃ Y, InB Y O ∧ given.get (squeezeIdx O Y) = false
    · rw [if_pos hm]
      simp only [hm, true_and, not_true_eq_false, false_and, or_false]
      unfold pyAssert
      split_ifs <;> rfl
    · rw [if_neg hm]
      simp only [hm, false_and, not_false_eq_true, true_and, false_or]
      unfold pyAssert
      split_ifs <;> rfl

end Mpnum
