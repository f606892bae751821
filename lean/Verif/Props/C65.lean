import Verif.Testing
import Verif.Props.C01
import Verif.Props.C13
import Verif.Props.C10
import Verif.MPArray.CompressMain

/-! C65: the functions of `_testing` decide what their documentation says. -/

open Finset

namespace Mpnum

variable {𝕜 : Type} [RCLike 𝕜]

/-! ### Specification -/

/-- The tolerance of `assert_array_almost_equal` -/
noncomputable def tol (decimal : ℕ) : ℝ := 1.5 * (10 : ℝ) ^ (-(decimal : ℤ))

/-- The local tensor is left-canonical up to `ε`. -/
def NearL (ε : ℝ) (t : NDArray 𝕜) : Prop := ∀ b < t.rb, ∀ b' < t.rb,
  ‖(∑ a ∈ range t.lb, sumIdx t.ph fun p => star (t.at3 a p b) * t.at3 a p b') - (if b = b' then 1 else 0)‖ < ε

/-- The local tensor is right-canonical up to `ε`. -/
def NearR (ε : ℝ) (t : NDArray 𝕜) : Prop := ∀ a < t.lb, ∀ a' < t.lb,
  ‖(∑ b ∈ range t.rb, sumIdx t.ph fun p => t.at3 a p b * star (t.at3 a' p b)) - (if a = a' then 1 else 0)‖ < ε

/-- The check succeeds if `P` holds, and raises `AssertionError` otherwise. -/
def Decides (r : Py Unit) (P : Prop) : Prop := (P → r = .ok ()) ∧ (¬ P → r = .error .assertion)

/-! ### Normalization -/

theorem Decides.congr {r : Py Unit} {P Q : Prop} (h : Decides r P) (e : P ↔ Q) : Decides r Q :=
  ⟨fun q => h.1 (e.2 q), fun q => h.2 fun p => q (e.1 p)⟩

theorem decides_assert (P : Prop) [Decidable P] : Decides (pyAssert P) P := by
  unfold pyAssert
  exact ⟨fun h => if_pos h, fun h => if_neg h⟩

theorem Decides.andThen {r r' : Py Unit} {P Q : Prop} (h : Decides r P) (h' : Decides r' Q) : Decides (do r; r') (P ∧ Q) := by
  by_cases hp : P
  · rw [h.1 hp, show (do Except.ok (); r' : Py Unit) = r' from rfl]
    exact ⟨fun q => h'.1 q.2, fun q => h'.2 fun q' => q ⟨hp, q'⟩⟩
  · rw [h.2 hp]
    exact ⟨fun q => absurd q.1 hp, fun _ => rfl⟩

theorem decides_forM {α : Type} (l : List α) (f : α → Py Unit) (P : α → Prop)
    (h : ∀ a ∈ l, Decides (f a) (P a)) : Decides (l.forM f) (∀ a ∈ l, P a) := by
  induction l with
  | nil => exact ⟨fun _ => rfl, fun h => absurd (by simp) h⟩
  | cons a l ih =>
    refine Decides.congr (Decides.andThen (h a (by simp)) (ih fun b hb => h b (by simp [hb]))) ?_
    simp

theorem shape_dropLast {t : NDArray 𝕜} (h : t.IsLocal) : t.shape.dropLast = t.lb :: t.ph := by
  conv_lhs => rw [NDArray.shape_local h]
  rw [← List.cons_append, List.dropLast_concat]

theorem shape_tail {t : NDArray 𝕜} (h : t.IsLocal) : t.shape.tail = t.ph ++ [t.rb] := by
  conv_lhs => rw [NDArray.shape_local h]
  rfl

theorem assert_identity {P : NDArray 𝕜} {n : ℕ} (hP : P.shape = [n, n]) {F : ℕ → ℕ → 𝕜} (hF : ∀ b < n, ∀ b' < n, P.get [b, b'] = F b b')
    [Decidable (AlmostEqual P (npIdentity (P.shape.getD 0 0)))] :
    Decides (pyAssert (AlmostEqual P (npIdentity (P.shape.getD 0 0))))
      (∀ b < n, ∀ b' < n, ‖F b b' - (if b = b' then 1 else 0)‖ < tol 6) := by
  have hiff : AlmostEqual P (npIdentity (P.shape.getD 0 0)) ↔ ∀ b < n, ∀ b' < n, ‖F b b' - (if b = b' then 1 else 0)‖ < tol 6 := by
    rw [hP]
    constructor
    · rintro ⟨-, h⟩ b hb b' hb'
      have := h [b, b'] (by rw [hP]; exact .cons hb (.cons hb' .nil))
      rw [hF b hb b' hb', ← norm_neg, neg_sub] at this
      exact this
    · intro h
      refine ⟨hP, fun i hi => ?_⟩
      rw [hP] at hi
      rcases hi with _ | ⟨hb, _ | ⟨hb', hnil⟩⟩
      cases hnil
      rw [hF _ hb _ hb', ← norm_neg, neg_sub]
      exact h _ hb _ hb'
  exact (decides_assert _).congr hiff

open Classical in
theorem assertLcanonical_eq {t : NDArray 𝕜} (h : t.IsLocal) : Decides (assertLcanonical t) (NearL (tol 6) t) := by
  have hs := NDArray.shape_local h
  have hd := shape_dropLast h
  set m := (t.lb :: t.ph).prod with hm
  have hr : t.shape.getLastD 0 = t.rb := by rfl
  have h1 : t.reshape [(m : ℤ), (t.rb : ℤ)] = .ok (t.reshapeTo [m, t.rb]) := by
    refine NDArray.reshape_nat (a := t) (s := [m, t.rb]) ?_
    rw [hs, ← List.cons_append, List.prod_append, hm]
    simp
  have hg : ∀ x < m, ∀ b < t.rb, (t.reshapeTo [m, t.rb]).get [x, b] = t.get (unravelIdx (t.lb :: t.ph) x ++ [b]) := by
    intro x hx b hb
    have := NDArray.reshapeTo_blocks2 (a := t) (S := t.lb :: t.ph) (S' := [t.rb]) (T := [m]) (T' := [t.rb])
      (i := [x]) (j := [b]) hs (by simp [hm]) (by simp) (.cons hx .nil) (.cons hb .nil)
    rw [show [x, b] = [x] ++ [b] from rfl, show [m, t.rb] = [m] ++ [t.rb] from rfl, this]
    simp [ravelIdx, unravelIdx]
  unfold assertLcanonical
  rw [hd, ← hm, hr, h1, ok_bind]
  refine assert_identity (P := opMul (opAdj (t.reshapeTo [m, t.rb])) (t.reshapeTo [m, t.rb])) (n := t.rb) rfl fun b hb b' hb' => ?_
  simp only [opMul, opAdj, NDArray.reshapeTo_shape, List.getD_cons_zero, List.getD_cons_succ]
  rw [Finset.sum_congr rfl fun x hx => by
    rw [hg x (by simpa using hx) b hb, hg x (by simpa using hx) b' hb'],
    sum_unravel (t.lb :: t.ph) (fun i => star (t.get (i ++ [b])) * t.get (i ++ [b'])), sumIdx_cons]
  rfl

open Classical in
theorem assertRcanonical_eq {t : NDArray 𝕜} (h : t.IsLocal) : Decides (assertRcanonical t) (NearR (tol 6) t) := by
  have hs := NDArray.shape_local h
  have hd := shape_tail h
  set m := (t.ph ++ [t.rb]).prod with hm
  have hl : t.shape.getD 0 0 = t.lb := by rw [hs]; rfl
  have h1 : t.reshape [(t.lb : ℤ), (m : ℤ)] = .ok (t.reshapeTo [t.lb, m]) := by
    refine NDArray.reshape_nat (a := t) (s := [t.lb, m]) ?_
    rw [hs, hm]
    simp
  have hg : ∀ a < t.lb, ∀ x < m, (t.reshapeTo [t.lb, m]).get [a, x] = t.get (a :: unravelIdx (t.ph ++ [t.rb]) x) := by
    intro a ha x hx
    have := NDArray.reshapeTo_blocks2 (a := t) (S := [t.lb]) (S' := t.ph ++ [t.rb]) (T := [t.lb]) (T' := [m])
      (i := [a]) (j := [x]) hs (by simp) (by simp [hm]) (.cons ha .nil) (.cons hx .nil)
    rw [show [a, x] = [a] ++ [x] from rfl, show [t.lb, m] = [t.lb] ++ [m] from rfl, this]
    simp [ravelIdx, unravelIdx]
  unfold assertRcanonical
  rw [hl, hd, ← hm, h1, ok_bind]
  refine assert_identity (P := opMul (t.reshapeTo [t.lb, m]) (opAdj (t.reshapeTo [t.lb, m]))) (n := t.lb) rfl fun b hb b' hb' => ?_
  simp only [opMul, opAdj, NDArray.reshapeTo_shape, List.getD_cons_zero, List.getD_cons_succ]
  rw [Finset.sum_congr rfl fun x hx => by
    rw [hg b hb x (by simpa using hx), hg b' hb' x (by simpa using hx)],
    sum_unravel (t.ph ++ [t.rb]) (fun i => t.get (b :: i) * star (t.get (b' :: i))), sumIdx_append, ← sumIdx_sum_comm]
  rfl

/-- C65: `assert_correct_normalization` raises `AssertionError` exactly if one of the claims about the canonical form is wrong by
more than the tolerance, or if the claims are not the given ones. -/
theorem C65_normalization (x : MPA 𝕜) (hx : x.Valid) (lT rT : Option ℤ) :
    Decides (assertCorrectNormalization x lT rT)
      ((∀ (n : ℕ) (t : NDArray 𝕜), x.lt[n]? = some t → ((n : ℤ) < x.l → NearL (tol 6) t) ∧ (x.r ≤ (n : ℤ) → NearR (tol 6) t)) ∧
        (∀ l, lT = some l → x.l = l) ∧ (∀ r, rT = some r → x.r = r)) := by
  have hl0 := hx.l_nonneg
  have hlr := hx.l_lt_r
  have hrl := hx.r_le
  have hlen : (x.len : ℤ) = x.lt.length := rfl
  have hsite : ∀ (n : ℕ) (t : NDArray 𝕜), x.lt[n]? = some t → x.site (n : ℤ) = .ok t := by
    intro n t ht
    have hn : n < x.len := (List.getElem?_eq_some_iff.1 ht).1
    unfold MPA.site
    rw [pyIndex_nat hn, ok_bind, ht]
  have hloc : ∀ (n : ℕ) (t : NDArray 𝕜), x.lt[n]? = some t → t.IsLocal := fun n t ht =>
    hx.chain.isLocal t (List.mem_of_getElem? ht)
  have hget : ∀ k : ℕ, (k : ℤ) < x.len → ∃ t, x.lt[k]? = some t := fun k hk => ⟨_, List.getElem?_eq_getElem (by omega)⟩
  have e1 := decides_forM (pyRange 0 x.l 1) (fun n => do
      let t ← x.site n
      assertLcanonical t) (fun n => ∀ t, x.lt[n.toNat]? = some t → NearL (tol 6) t) (by
    intro n hn
    rw [MPA.pyRange_up] at hn
    simp at hn
    obtain ⟨k, hk, rfl⟩ := hn
    obtain ⟨t, ht⟩ := hget k (by omega)
    rw [hsite k t ht, ok_bind]
    exact (assertLcanonical_eq (hloc k t ht)).congr (by simp [ht]))
  have e2 := decides_forM (pyRange x.r x.len 1) (fun n => do
      let t ← x.site n
      assertRcanonical t) (fun n => ∀ t, x.lt[n.toNat]? = some t → NearR (tol 6) t) (by
    intro n hn
    rw [MPA.pyRange_up] at hn
    simp at hn
    obtain ⟨k, hk, rfl⟩ := hn
    obtain ⟨j, hj⟩ : ∃ j : ℕ, x.r + (k : ℤ) = j := ⟨(x.r + k).toNat, by omega⟩
    rw [hj]
    obtain ⟨t, ht⟩ := hget j (by omega)
    rw [hsite j t ht, ok_bind]
    exact (assertRcanonical_eq (hloc j t ht)).congr (by simp [ht]))
  have e3 : ∀ (v : ℤ) (T : Option ℤ), Decides (assertTarget v T) (∀ l, T = some l → v = l) := by
    rintro v (_ | l)
    · exact ⟨fun _ => rfl, fun h => absurd (by simp) h⟩
    · exact (decides_assert _).congr (by simp)
  refine (e1.andThen (e2.andThen ((e3 x.l lT).andThen (e3 x.r rT)))).congr ?_
  rw [← and_assoc]
  refine and_congr_left fun _ => ⟨fun h n t ht => ⟨fun hn => ?_, fun hn => ?_⟩, fun h => ⟨fun n hn t ht => ?_, fun n hn t ht => ?_⟩⟩
  · exact h.1 n (by rw [MPA.pyRange_up]; simp; omega) t (by simpa using ht)
  · have : n < x.lt.length := (List.getElem?_eq_some_iff.1 ht).1
    exact h.2 n (by rw [MPA.pyRange_up]; simp; exact ⟨n - x.r.toNat, by omega, by omega⟩) t (by simpa using ht)
  · rw [MPA.pyRange_up] at hn
    simp at hn
    exact (h n.toNat t ht).1 (by omega)
  · rw [MPA.pyRange_up] at hn
    simp at hn
    exact (h n.toNat t ht).2 (by omega)

theorem tol_pos (d : ℕ) : 0 < tol d := by unfold tol; positivity

/-- C65: every well-formed MPArray passes. -/
theorem C65_good (x : MPA 𝕜) (hx : x.Good) : assertCorrectNormalization x none none = .ok () ∧
    assertCorrectNormalization x (some x.l) (some x.r) = .ok () := by
  have h : ∀ (n : ℕ) (t : NDArray 𝕜), x.lt[n]? = some t → ((n : ℤ) < x.l → NearL (tol 6) t) ∧ (x.r ≤ (n : ℤ) → NearR (tol 6) t) := by
    intro n t ht
    obtain ⟨h1, h2⟩ := hx.canon n t ht
    refine ⟨fun hn b hb b' hb' => ?_, fun hn a ha a' ha' => ?_⟩
    · rw [h1 hn b hb b' hb', sub_self, norm_zero]; exact tol_pos 6
    · rw [h2 hn a ha a' ha', sub_self, norm_zero]; exact tol_pos 6
  exact ⟨(C65_normalization x hx.valid none none).1 ⟨h, by simp, by simp⟩, (C65_normalization x hx.valid _ _).1 ⟨h, by simp, by simp⟩⟩

/-- C65: a wrong claim is detected: if the first site is claimed to be left-canonical but one of its columns has a squared norm
which differs from one by at least the tolerance, the check fails. -/
theorem C65_detects (x : MPA 𝕜) (hx : x.Valid) (lT rT : Option ℤ) (n : ℕ) (t : NDArray 𝕜) (ht : x.lt[n]? = some t) (hn : (n : ℤ) < x.l)
    (b : ℕ) (hb : b < t.rb) (h : tol 6 ≤ |(∑ a ∈ range t.lb, sumIdx t.ph fun p => ‖t.at3 a p b‖ ^ 2) - 1|) :
    assertCorrectNormalization x lT rT = .error .assertion := by
  refine (C65_normalization x hx lT rT).2 fun hall => ?_
  have := ((hall.1 n t ht).1 hn) b hb b hb
  rw [if_pos rfl] at this
  have e : (∑ a ∈ range t.lb, sumIdx t.ph fun p => star (t.at3 a p b) * t.at3 a p b)
      = ((∑ a ∈ range t.lb, sumIdx t.ph fun p => ‖t.at3 a p b‖ ^ 2 : ℝ) : 𝕜) := by
    rw [RCLike.ofReal_sum]
    exact Finset.sum_congr rfl fun a _ => sumIdx_normSq _ _
  rw [e, ← RCLike.ofReal_one, ← RCLike.ofReal_sub, RCLike.norm_ofReal] at this
  linarith

/-! ### Comparison -/

/-- C65: `assert_mpa_identical(mpa1, mpa2)` compares the number of sites, the canonical form and all local tensors. -/
theorem C65_identical (x y : MPA 𝕜) (decimal : Option ℕ) :
    Decides (assertMpaIdentical x y decimal) (x.l = y.l ∧ x.r = y.r ∧ List.Forall₂ (fun t u => t.shape = u.shape ∧
      ∀ i, InB i t.shape → match decimal with
        | none => t.get i = u.get i
        | some d => ‖u.get i - t.get i‖ < tol d) x.lt y.lt) := by
  classical
  have e := decides_forM (x.lt.zip y.lt) (fun p =>
    match decimal with
    | none => pyAssert (ArrayEqual p.1 p.2)
    | some d => pyAssert (AlmostEqual p.1 p.2 d)) (fun p => p.1.shape = p.2.shape ∧
      ∀ i, InB i p.1.shape → match decimal with
        | none => p.1.get i = p.2.get i
        | some d => ‖p.2.get i - p.1.get i‖ < tol d) (fun p _ => by
      cases decimal with
      | none => exact decides_assert _
      | some d => exact decides_assert _)
  refine ((decides_assert _).andThen ((decides_assert _).andThen e)).congr ?_
  rw [List.forall₂_iff_zip]
  constructor
  · rintro ⟨h1, ⟨h2, h3⟩, h4⟩
    exact ⟨h2, h3, h1, fun {a b} hab => h4 (a, b) hab⟩
  · rintro ⟨h2, h3, h1, h4⟩
    exact ⟨h1, ⟨h2, h3⟩, fun p hp => h4 hp⟩

/-- C65: two MPArrays which `assert_mpa_identical` accepts represent the same tensor. -/
theorem C65_identical_val (x y : MPA 𝕜) (hx : x.Valid) (h : assertMpaIdentical x y none = .ok ()) :
    y.shape = x.shape ∧ y.ranks = x.ranks ∧ ∀ i, IdxOK i x.shape → y.val i = x.val i := by
  have hd := C65_identical x y none
  by_cases hP : (x.l = y.l ∧ x.r = y.r ∧ List.Forall₂ (fun t u => t.shape = u.shape ∧
      ∀ i, InB i t.shape → t.get i = u.get i) x.lt y.lt)
  · obtain ⟨-, -, hf⟩ := hP
    have hE : List.Forall₂ NDArray.Eqv x.lt y.lt := hf.imp fun t u h => ⟨h.1, h.2⟩
    have hph : ∀ {ts us : List (NDArray 𝕜)}, List.Forall₂ NDArray.Eqv ts us → physShape us = physShape ts ∧ us.map NDArray.lb = ts.map NDArray.lb := by
      intro ts us h
      induction h with
      | nil => exact ⟨rfl, rfl⟩
      | cons h _ ih =>
        simp only [physShape, List.map_cons, NDArray.ph, NDArray.lb] at ih ⊢
        rw [ih.1, ih.2, h.1]
        exact ⟨rfl, rfl⟩
    refine ⟨(hph hE).1, ?_, fun i hi => (mp_congr hE hx.chain hi one_pos).symm⟩
    rw [MPA.ranks_eq, MPA.ranks_eq, (hph hE).2]
  · rw [hd.2 hP] at h
    cases h

/-- C65: `assert_mpa_almost_equal(mpa1, mpa2, full=True)` compares the dense arrays. -/
theorem C65_almost_equal (x y : MPA 𝕜) (hx : x.Valid) (hy : y.Valid) :
    ∃ A B, x.toArray = .ok A ∧ y.toArray = .ok B ∧
      Decides (assertMpaAlmostEqual x y true) (A.shape = B.shape ∧ ∀ i, InB i A.shape → ‖B.get i - A.get i‖ < tol 6) ∧
      assertMpaAlmostEqual x y false = .error .notImplemented := by
  classical
  obtain ⟨A, a1, -⟩ := C01_to_array x hx
  obtain ⟨B, b1, -⟩ := C01_to_array y hy
  refine ⟨A, B, a1, b1, ?_, rfl⟩
  unfold assertMpaAlmostEqual
  rw [if_pos rfl, a1, ok_bind, b1, ok_bind]
  exact decides_assert _

/-! ### Random matrices -/

/-- C65: `random_lowrank` returns a matrix of norm one which is a product of matrices with `rank` columns and rows. -/
theorem C65_random_lowrank (dtype : Dtype) (hd : dtype ≠ .other) (rows cols rank : ℕ) (A B : NDArray 𝕜)
    (hA : A.shape = [rows, rank]) (hB : B.shape = [cols, rank]) :
    (randomLowrank dtype A B = .error .zeroDiv ∧ ∀ i < rows, ∀ j < cols, ∑ c ∈ range rank, A.get [i, c] * star (B.get [j, c]) = 0) ∨
    ∃ C, randomLowrank dtype A B = .ok C ∧ C.shape = [rows, cols] ∧ (∑ i ∈ range rows, ∑ j ∈ range cols, ‖C.get [i, j]‖ ^ 2) = 1 ∧
      ∃ q : ℝ, 0 < q ∧ ∀ i j, C.get [i, j] = ((q : ℝ) : 𝕜) * ∑ c ∈ range rank, A.get [i, c] * star (B.get [j, c]) := by
  set F : ℕ → ℕ → 𝕜 := fun i j => ∑ c ∈ range rank, A.get [i, c] * star (B.get [j, c]) with hF
  set C := opMul A (opAdj B) with hC
  have hCs : C.shape = [rows, cols] := by simp [hC, opMul, opAdj, hA, hB]
  have hCg : ∀ i j, C.get [i, j] = F i j := by
    intro i j
    simp [hC, opMul, opAdj, hA, hF]
  set N : ℝ := sumIdx C.shape fun i => ‖C.get i‖ ^ 2 with hN
  have hN' : N = ∑ i ∈ range rows, ∑ j ∈ range cols, ‖F i j‖ ^ 2 := by
    rw [hN, hCs]
    simp only [sumIdx_cons, sumIdx_nil, hCg]
  have h0 : 0 ≤ N := by rw [hN']; positivity
  have hdef : randomLowrank dtype A B
      = if Real.sqrt N = 0 then .error .zeroDiv else .ok ⟨C.shape, fun i => C.get i / ((Real.sqrt N : ℝ) : 𝕜)⟩ := by
    cases dtype with
    | other => exact absurd rfl hd
    | float => rfl
    | complex => rfl
  by_cases hz : Real.sqrt N = 0
  · left
    refine ⟨by rw [hdef, if_pos hz], fun i hi j hj => ?_⟩
    rw [Real.sqrt_eq_zero h0, hN', Finset.sum_eq_zero_iff_of_nonneg (fun _ _ => by positivity)] at hz
    have := hz i (by simpa using hi)
    rw [Finset.sum_eq_zero_iff_of_nonneg (fun _ _ => by positivity)] at this
    exact norm_eq_zero.1 ((pow_eq_zero_iff two_ne_zero).1 (this j (by simpa using hj)))
  · right
    have hpos : 0 < Real.sqrt N := lt_of_le_of_ne (Real.sqrt_nonneg _) (Ne.symm hz)
    refine ⟨⟨C.shape, fun i => C.get i / ((Real.sqrt N : ℝ) : 𝕜)⟩, by rw [hdef, if_neg hz], hCs, ?_, (Real.sqrt N)⁻¹, inv_pos.2 hpos, fun i j => ?_⟩
    · have e : ∀ i j, ‖C.get [i, j] / ((Real.sqrt N : ℝ) : 𝕜)‖ ^ 2 = ‖F i j‖ ^ 2 / N := by
        intro i j
        rw [hCg, norm_div, div_pow, RCLike.norm_ofReal, sq_abs, Real.sq_sqrt h0]
      simp only [e]
      simp only [← Finset.sum_div]
      rw [← hN', div_self]
      rintro h
      rw [h, Real.sqrt_zero] at hz
      exact hz rfl
    · show C.get [i, j] / ((Real.sqrt N : ℝ) : 𝕜) = _
      rw [hCg, RCLike.ofReal_inv, div_eq_inv_mul]

/-- C65: other dtypes are rejected. -/
theorem C65_random_dtype (A B : NDArray 𝕜) : randomLowrank .other A B = .error .value := rfl

/-- C65: `random_fullrank` is `random_lowrank` with the largest possible rank. -/
theorem C65_random_fullrank (dtype : Dtype) (hd : dtype ≠ .other) (rows cols : ℕ) (draw : ℕ → ℕ → NDArray 𝕜)
    (hdraw : ∀ m n, (draw m n).shape = [m, n]) {C : NDArray 𝕜} (h : randomFullrank dtype rows cols draw = .ok C) :
    C.shape = [rows, cols] ∧ (∑ i ∈ range rows, ∑ j ∈ range cols, ‖C.get [i, j]‖ ^ 2) = 1 := by
  rcases C65_random_lowrank dtype hd rows cols (min rows cols) _ _ (hdraw rows (min rows cols)) (hdraw cols (min rows cols)) with ⟨h1, -⟩ | ⟨C', h1, h2, h3, -⟩
  · rw [randomFullrank, h1] at h
    cases h
  · rw [randomFullrank, h1] at h
    cases h
    exact ⟨h2, h3⟩

/-! ### Concrete cases -/

/-- A well-formed MPArray passes. -/
example : assertCorrectNormalization exMPAc none (some 2) = .ok () := (C65_good exMPAc exMPAc_good).1 ▸ by
  have h := C65_normalization exMPAc exMPAc_good.valid none (some 2)
  exact h.1 ⟨fun n t ht => ⟨fun hn => absurd hn (by simp [exMPAc]), fun hn => by
    have : n < exMPAc.lt.length := (List.getElem?_eq_some_iff.1 ht).1
    simp [exMPAc] at this hn
    omega⟩, by simp, by simp [exMPAc]⟩

/-- A wrong claim is detected. -/
example : assertCorrectNormalization (⟨[⟨[1, 2, 1], fun _ => 0⟩, ⟨[1, 2, 1], fun _ => 1⟩], 1, 2⟩ : MPA ℂ) none none = .error .assertion :=
  C65_detects _ ⟨by simp, by simp [NDArray.IsLocal, NDArray.ndim, NDArray.lb, NDArray.rb], by simp, by simp, by simp [MPA.len]⟩ none none
    0 ⟨[1, 2, 1], fun _ => 0⟩ (by simp) (by simp) 0 (by simp [NDArray.rb]) (by
      simp [NDArray.lb, NDArray.ph, NDArray.at3, tol]
      norm_num)

end Mpnum
