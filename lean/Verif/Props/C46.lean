import Verif.Povm.SamplingLemmas
import Verif.Props.C19

/-!
# C46: sampling draws from the measurement distribution

A sampling run is a probability distribution on results (values or exceptions), see
`Verif/Povm/Sampling.lean`.
-/

open Finset Classical

namespace Mpnum

/-! ### conditional sampling -/

/-- Marginal probability of the first outcomes `y`. -/
noncomputable def margProb (N : List ℕ) (P : List ℕ → ℝ) (y : List ℕ) : ℝ :=
  sumIdx (N.drop y.length) fun z => P (y ++ z)

theorem margProb_nonneg {N : List ℕ} {P : List ℕ → ℝ} (hP : ∀ y, InB y N → 0 ≤ P y) {k : ℕ} {y : List ℕ}
    (hy : InB y (N.take k)) : 0 ≤ margProb N P y := by
  refine sumIdx_nonneg_real fun z hz => hP _ ?_
  have hl := inB_length hy
  rw [List.length_take] at hl
  have : N.take y.length = N.take k := by
    rw [hl]
    rcases le_total k N.length with h | h
    · rw [min_eq_left h]
    · rw [min_eq_right h, List.take_of_length_le h, List.take_length]
  rw [← List.take_append_drop y.length N, this]
  exact inB_append hy hz

theorem margProb_split {N : List ℕ} {P : List ℕ → ℝ} {y : List ℕ} (g : ℕ) :
    sumIdx ((N.drop y.length).take g) (fun z => margProb N P (y ++ z)) = margProb N P y := by
  unfold margProb
  conv_rhs => rw [← List.take_append_drop g (N.drop y.length), sumIdx_append]
  refine sumIdx_congr fun z hz => ?_
  have hl := inB_length hz
  rw [List.drop_drop]
  have : N.drop (y ++ z).length = N.drop (y.length + g) := by
    rw [List.length_append, hl, List.length_take, List.length_drop]
    rcases le_total g (N.length - y.length) with h | h
    · rw [min_eq_left h]
    · rw [min_eq_right h, List.drop_of_length_le, List.drop_of_length_le] <;> omega
  rw [this]
  exact sumIdx_congr fun w _ => by rw [List.append_assoc]

theorem ofReal_sumIdx (s : List ℕ) (f : List ℕ → ℝ) : ((sumIdx s f : ℝ) : ℂ) = sumIdx s fun i => (f i : ℂ) := by
  rw [sumIdx_eq_sum, sumIdx_eq_sum]; push_cast; rfl

/-- One step of the loop: the next outcomes `z` are chosen with their conditional probability. -/
theorem condStep_prob {N : List ℕ} {P : List ℕ → ℝ} {ms : List (MPA ℂ)}
    (hm : MargList N (fun y => (P y : ℂ)) ms) (hP : ∀ y, InB y N → 0 ≤ P y) {g : ℕ} (hg : 0 < g)
    {eps : ℝ} (he : 0 ≤ eps) {y r : List ℕ} (hlt : y.length < N.length) (hy : InB y (N.take y.length))
    (hr : (y ++ r).length = N.length) (hpos : 0 < margProb N P y) {z : List ℕ}
    (hz : InB z ((N.drop y.length).take g)) :
    ENNReal.ofReal (margProb N P (y ++ z) / margProb N P y) ≤
      (condStep ms N.length g eps (y ++ r, margProb N P y) y.length).prob
        (y ++ z ++ (y ++ r).drop (y.length + g), margProb N P (y ++ z)) := by
  set k := y.length with hk
  set s := min N.length (k + g) with hs
  have hs0 : 0 < s := by omega
  have hidx : pyIndex ms.length (min (N.length : ℤ) ((k : ℤ) + (g : ℤ)) - 1) = .ok (s - 1) := by
    rw [show min (N.length : ℤ) ((k : ℤ) + (g : ℤ)) - 1 = ((s - 1 : ℕ) : ℤ) by omega]
    exact pyIndex_nat (by rw [hm.len]; omega)
  obtain ⟨m, m1, m2, m3, m4⟩ := hm.get (s - 1) (by omega)
  have hs1 : s - 1 + 1 = s := by omega
  rw [hs1] at m3 m4
  have hsplit : N.take s = N.take k ++ (N.drop k).take g := by
    have h1 : N.take s = N.take (k + g) := by
      rw [hs, List.take_eq_take_iff]; omega
    rw [h1, List.take_add]
  rw [hsplit] at m3 m4
  obtain ⟨q, q', a, c1, c2, c3, c4, c5⟩ := condArr_ok m2 m3 hy
  have hav : ∀ z, InB z ((N.drop k).take g) → a.get z = (margProb N P (y ++ z) : ℂ) := by
    intro z hz
    rw [c5 z hz, m4 _ (inB_append hy hz), margProb, ofReal_sumIdx]
    have hl := inB_length hz
    have : N.drop (y ++ z).length = N.drop s := by
      rw [List.length_append, hl, List.length_take, List.length_drop, ← hk]
      congr 1; omega
    rw [this]
  have hz2ne : (N.drop k).take g ≠ [] := List.ne_nil_of_length_pos (by
    rw [List.length_take, List.length_drop]; omega)
  have hnn : ∀ z, InB z ((N.drop k).take g) → 0 ≤ margProb N P (y ++ z) / margProb N P y := by
    intro z hz
    refine div_nonneg (margProb_nonneg (k := k + g) hP ?_) hpos.le
    rw [List.take_add]; exact inB_append hy hz
  set v : PmfArg := .cplx ⟨a.shape, fun i => a.get i / ((margProb N P y : ℝ) : ℂ)⟩ with hv
  have hvs : v.shape = (N.drop k).take g := c4
  have hvg : ∀ z, InB z ((N.drop k).take g) →
      v.get z = ((margProb N P (y ++ z) / margProb N P y : ℝ) : ℂ) := by
    intro z hz
    show a.get z / _ = _
    rw [hav z hz]; push_cast; rfl
  have hclip : ∀ z, InB z ((N.drop k).take g) →
      clip 0 (v.get z).re = margProb N P (y ++ z) / margProb N P y := by
    intro z hz
    rw [hvg z hz, Complex.ofReal_re, clip]
    split
    · exact le_antisymm (hnn z hz) (by assumption)
    · rfl
  have hsum : sumIdx v.shape (fun z => clip 0 (v.get z).re) = 1 := by
    rw [hvs, sumIdx_congr hclip, sumIdx_div, margProb_split, div_self hpos.ne']
  obtain ⟨w, w1, w2, w3⟩ := (C48_result v eps eps 0).1 {
    imag := fun z hz => Or.inr (by rw [hvg z (hvs ▸ hz), Complex.ofReal_im, abs_zero]; exact he)
    real := fun z hz => by
      rw [hvg z (hvs ▸ hz), Complex.ofReal_re]
      exact le_trans (by linarith) (hnn z (hvs ▸ hz))
    sum := by rw [hsum]; simpa using he
    scalar := fun h => absurd (hvs ▸ h) hz2ne }
  rw [hvs] at w2 w3
  have hwg : ∀ z, InB z ((N.drop k).take g) → w.get z = margProb N P (y ++ z) / margProb N P y := by
    intro z hz
    rw [w3 z hz, hclip z hz, ← hvs, hsum, div_one]
  have hmlen : m.len = k + ((N.drop k).take g).length := by
    have := congrArg List.length m3
    simp only [MPA.shape, List.length_map, List.length_append] at this
    rw [List.length_take (i := k)] at this
    show m.lt.length = _
    omega
  have hch := choice_prob w (i := z) (fun z hz => by rw [w2] at hz; rw [hwg z hz]; exact hnn z hz) (by
    rw [w2, sumIdx_congr hwg, sumIdx_div, margProb_split, div_self hpos.ne']) (by rw [w2]; exact hz)
  rw [hwg z hz, w2] at hch
  unfold condStep
  dsimp only
  rw [hidx, Rand.lift_ok_bind]
  have hgm : ms.getD (s - 1) ⟨[], 0, 0⟩ = m := by rw [List.getD_eq_getElem?_getD, m1]; rfl
  have htk : (y ++ r).take k = y := by rw [hk, List.take_left]
  rw [hgm, Int.toNat_natCast, htk, hmlen, Nat.add_sub_cancel_left, c1, Rand.lift_ok_bind, c2,
    Rand.lift_ok_bind, c3, Rand.lift_ok_bind, w1, Rand.lift_ok_bind]
  refine le_trans ?_ (Rand.prob_bind_ge _ _ (ravelIdx ((N.drop k).take g) z) _)
  rw [hch, w2, unravel_ravel hz, hwg z hz]
  have hzl : z.length = min g ((y ++ r).length - k) := by
    rw [inB_length hz, hr, List.length_take, List.length_drop]
  rw [Int.toNat_natCast, pyGuard, if_pos hzl, Rand.lift_ok_bind, Rand.prob_pure, if_pos, mul_one]
  rw [show ((k : ℤ) + (g : ℤ)).toNat = k + g by omega, mul_div_cancel₀ _ hpos.ne']

/-- The loop, started after the outcomes `y`. -/
theorem condLoop_prob {N : List ℕ} {P : List ℕ → ℝ} {ms : List (MPA ℂ)}
    (hm : MargList N (fun y => (P y : ℂ)) ms) (hP : ∀ y, InB y N → 0 ≤ P y) {g : ℕ} (hg : 0 < g)
    {eps : ℝ} (he : 0 ≤ eps) : ∀ (b j : ℕ) (y r z : List ℕ),
    y.length = min N.length (j * g) → N.length ≤ (j + b) * g → (∀ i < b, (j + i) * g < N.length) →
    InB y (N.take y.length) → (y ++ r).length = N.length → 0 < margProb N P y →
    InB z (N.drop y.length) →
    ENNReal.ofReal (P (y ++ z) / margProb N P y) ≤
      (((List.range' j b).map fun k : ℕ => ((k * g : ℕ) : ℤ)).foldlM (condStep ms N.length g eps)
        (y ++ r, margProb N P y)).prob (y ++ z, P (y ++ z)) := by
  intro b
  induction b with
  | zero =>
    intro j y r z hyl hj _ hy hr hpos hz
    have hfull : y.length = N.length := by rw [hyl, min_eq_left (by simpa using hj)]
    have hr0 : r = [] := by
      rw [List.length_append] at hr
      exact List.length_eq_zero_iff.1 (by omega)
    rw [hfull, List.drop_length] at hz
    cases hz
    have hmp : margProb N P y = P y := by
      unfold margProb
      rw [hfull, List.drop_length]; simp [sumIdx]
    show _ ≤ (pure (y ++ r, margProb N P y) : Rand _).prob _
    rw [hr0, List.append_nil, hmp, Rand.prob_pure, if_pos rfl, div_self (hmp ▸ hpos.ne'), ENNReal.ofReal_one]
  | succ b ih =>
    intro j y r z hyl hj hlt hy hr hpos hz
    have hjg : j * g < N.length := by simpa using hlt 0 (by omega)
    have hyj : y.length = j * g := by rw [hyl, min_eq_right hjg.le]
    rw [← List.take_append_drop g (N.drop y.length)] at hz
    obtain ⟨z1, z2, rfl, hz1, hz2⟩ := inB_append_split hz
    rw [List.drop_drop] at hz2
    have hz1l := inB_length hz1
    rw [List.length_take, List.length_drop] at hz1l
    have hyz : InB (y ++ z1) (N.take (y.length + g)) := by rw [List.take_add]; exact inB_append hy hz1
    have hyzl : (y ++ z1).length = min N.length ((j + 1) * g) := by
      rw [List.length_append, hz1l, hyj, Nat.add_mul, one_mul]; omega
    have htake : N.take (y.length + g) = N.take (y ++ z1).length := by
      rw [List.take_eq_take_iff, hyzl, Nat.add_mul, one_mul, hyj]; omega
    have hdrop : N.drop (y.length + g) = N.drop (y ++ z1).length := by
      rw [hyzl, Nat.add_mul, one_mul, hyj]
      rcases le_total N.length (j * g + g) with h | h
      · rw [min_eq_left h, List.drop_of_length_le h, List.drop_length]
      · rw [min_eq_right h]
    have hnn : 0 ≤ margProb N P (y ++ z1) := margProb_nonneg hP hyz
    have hPm : P (y ++ (z1 ++ z2)) ≤ margProb N P (y ++ z1) := by
      rw [← List.append_assoc]
      refine le_sumIdx (f := fun z => P (y ++ z1 ++ z)) (fun i hi => hP _ ?_) (hdrop ▸ hz2)
      rw [← List.take_append_drop (y ++ z1).length N]
      exact inB_append (htake ▸ hyz) hi
    rcases hnn.eq_or_lt with h0 | h0
    · have : P (y ++ (z1 ++ z2)) / margProb N P y ≤ 0 :=
        div_nonpos_of_nonpos_of_nonneg (h0 ▸ hPm) hpos.le
      rw [ENNReal.ofReal_of_nonpos this]
      exact zero_le
    · have hstep := condStep_prob hm hP hg he (r := r) (by omega) hy hr hpos hz1
      have hdl : ((y ++ z1) ++ (y ++ r).drop (y.length + g)).length = N.length := by
        rw [List.length_append, List.length_drop, hr, hyzl, hyj, Nat.add_mul, one_mul]; omega
      have hrest := ih (j + 1) (y ++ z1) ((y ++ r).drop (y.length + g)) z2 hyzl
        (by rw [show j + 1 + b = j + (b + 1) by omega]; exact hj)
        (fun i hi => by rw [show j + 1 + i = j + (i + 1) by omega]; exact hlt (i + 1) (by omega))
        (htake ▸ hyz) hdl h0 (hdrop ▸ hz2)
      rw [List.range'_succ, List.map_cons, List.foldlM_cons]
      refine le_trans ?_ (Rand.prob_bind_ge _ _
        (y ++ z1 ++ (y ++ r).drop (y.length + g), margProb N P (y ++ z1)) _)
      rw [← hyj]
      refine le_trans ?_ (mul_le_mul' hstep (List.append_assoc y z1 z2 ▸ hrest))
      rw [← ENNReal.ofReal_mul (div_nonneg h0.le hpos.le)]
      apply le_of_eq
      congr 1
      field_simp

theorem pyRange_blocks (n g : ℕ) (hg : 0 < g) :
    pyRange 0 n g = (List.range' 0 ((n + g - 1) / g)).map fun k : ℕ => ((k * g : ℕ) : ℤ) := by
  unfold pyRange
  dsimp only
  rw [if_pos (by omega), ← List.range_eq_range',
    show ((n : ℤ) - 0 + g - 1) = ((n + g - 1 : ℕ) : ℤ) by omega, ← Int.natCast_ediv, Int.toNat_natCast]
  exact List.map_congr_left fun k _ => by push_cast; ring

/-- Conditional sampling of one row: each outcome `y` has probability `P y`. -/
theorem condSingle_prob {N : List ℕ} {P : List ℕ → ℝ} {ms : List (MPA ℂ)} (hN : N ≠ [])
    (hm : MargList N (fun y => (P y : ℂ)) ms) (hP : ∀ y, InB y N → 0 ≤ P y) (h1 : sumIdx N P = 1)
    {g : ℕ} (hg : 0 < g) {eps : ℝ} (he : 0 ≤ eps) :
    (∀ y, InB y N → (sampleCondSingle ms g N.length eps).prob y = ENNReal.ofReal (P y)) ∧
    (sampleCondSingle ms g N.length eps).Sure fun y => InB y N := by
  have hn := List.length_pos_iff.2 hN
  obtain ⟨m, m1, m2, m3, m4⟩ := hm.get (N.length - 1) (by omega)
  rw [show N.length - 1 + 1 = N.length by omega, List.take_length] at m3 m4
  have hlast : ms.getLastD ⟨[], 0, 0⟩ = m := by
    rw [List.getLastD_eq_getLast?, List.getLast?_eq_getElem?, hm.len, m1]; rfl
  have hml : m.len = N.length := by
    have := congrArg List.length m3
    simpa [MPA.shape, MPA.len] using this
  have hlow : ∀ y ∈ idxSet N, ENNReal.ofReal (P y) ≤ (sampleCondSingle ms g N.length eps).prob y := by
    intro y hy
    rw [mem_idxSet] at hy
    have hM1 : margProb N P [] = 1 := by
      unfold margProb; simpa using h1
    have hloop := condLoop_prob hm hP hg he ((N.length + g - 1) / g) 0 [] (List.replicate N.length 255) y
      (by simp) (by
        have := Nat.lt_mul_div_succ (N.length + g - 1) hg
        rw [zero_add, mul_comm]
        rw [Nat.mul_add, mul_one] at this
        omega) (by
        intro i hi
        have h2 : (i + 1) * g ≤ N.length + g - 1 := by
          have := Nat.div_mul_le_self (N.length + g - 1) g
          exact le_trans (Nat.mul_le_mul_right g (by omega)) this
        rw [Nat.add_mul, one_mul] at h2
        rw [zero_add]; omega) (by simpa using .nil) (by simp) (by rw [hM1]; exact one_pos) (by simpa using hy)
    rw [hM1, div_one, List.nil_append, List.nil_append] at hloop
    obtain ⟨q, g1, g2, _, _, g3, _, g4⟩ := C19_get m m2 (y.map fun i : ℕ => (i : ℤ))
      (by simp [inB_length hy, hml]) (by
        intro p hp
        rw [m3] at hp
        obtain ⟨k, hk, rfl⟩ := List.mem_iff_getElem.1 hp
        simp only [List.length_zip, List.length_map] at hk
        simp only [List.getElem_zip, List.getElem_map]
        have := (List.forall₂_iff_get.1 hy).2 k (by omega) (by omega)
        simp only [List.get_eq_getElem] at this
        refine ⟨by simp, ?_, ?_⟩ <;> simp <;> omega)
    obtain ⟨a, k1, k2, k3⟩ := C01_to_array q g2
    have hsh : q.shape = N.map fun _ => [] := by rw [g3, m3, List.map_map]; rfl
    have hzip : ∀ {y N : List ℕ}, InB y N → List.zipWith List.cons (List.zipWith
        (fun (i : ℤ) (s : List ℕ) => (i % (s.headD 0 : ℤ)).toNat) (y.map fun i : ℕ => (i : ℤ)) (singles N))
        (N.map fun _ => ([] : List ℕ)) = singles y := by
      intro y N h
      induction h with
      | nil => rfl
      | @cons i d y N h _ ih =>
        simp only [List.map_cons, List.zipWith_cons_cons, ih, List.headD_cons]
        rw [Int.emod_eq_of_lt (by omega) (by omega)]; simp
    have hok : IdxOK (N.map fun _ => ([] : List ℕ)) q.shape := by
      rw [hsh]
      show List.Forall₂ _ _ _
      rw [List.forall₂_map_left_iff, List.forall₂_map_right_iff]
      exact List.forall₂_same.2 fun _ _ => .nil
    have hag : a.get [] = (P y : ℂ) := by
      have := k3 _ hok
      rw [g4 _ hok, m3, hzip hy, m4 y hy, List.drop_length] at this
      have hfl : (N.map fun _ => ([] : List ℕ)).flatten = [] := by simp
      rw [hfl] at this
      simpa [sumIdx] using this
    unfold sampleCondSingle
    dsimp only
    rw [hlast, hml, pyGuard, if_pos (by omega), Rand.lift_ok_bind, pyRange_blocks _ _ hg]
    refine le_trans ?_ (Rand.prob_bind_ge _ _ (y, P y) _)
    refine le_trans (le_of_eq (mul_one _).symm) (mul_le_mul' hloop ?_)
    rw [g1, Rand.lift_ok_bind, k1, Rand.lift_ok_bind, pyAssert_true (by rw [hag]; simpa using he),
      Rand.lift_ok_bind, Rand.prob_pure, if_pos rfl]
  obtain ⟨e1, e2, e3⟩ := Rand.prob_exact _ (idxSet N) _ hlow (by
    rw [← ENNReal.ofReal_sum_of_nonneg (fun y hy => hP y (mem_idxSet.1 hy)), ← sumIdx_eq_sum, h1,
      ENNReal.ofReal_one])
  exact ⟨fun y hy => e1 y (mem_idxSet.2 hy),
    Rand.sure_of_exact (fun y hy => e2 y fun h => hy (mem_idxSet.1 h)) e3⟩

/-! ### the distribution of the measurement -/

/-- The law of a sampling run with `n` samples: the result is `code rows` where `rows` are the `n`
sampled outcomes; the rows are independent, and outcome `Y` has probability `q Y`.  A row lists the
outcomes of the sites with more than one outcome.  Exceptions do not occur. -/
structure SampleLaw (O : List ℕ) (q : List ℕ → ENNReal) (n : ℕ) (code : List (List ℕ) → SampleOut)
    (m : Rand SampleOut) : Prop where
  prob : ∀ Ys : List (List ℕ), Ys.length = n → (∀ Y ∈ Ys, InB Y O) →
    m.prob (code (Ys.map (squeezeIdx O))) = (Ys.map q).prod
  sure : m.Sure fun o => ∃ Ys : List (List ℕ), Ys.length = n ∧ (∀ Y ∈ Ys, InB Y O) ∧
    o = code (Ys.map (squeezeIdx O))

/-- Probability of the outcome `Y` by the Born rule. -/
noncomputable def bornProb (D : List ℕ) (M : List ℕ → List ℕ → List ℕ → ℂ) (ρ : List ℕ → List ℕ → ℂ)
    (Y : List ℕ) : ENNReal := ENNReal.ofReal (bornRule D (M Y) ρ).re

/-- The result for given rows: the rows, or one integer per row (mixed radix). -/
noncomputable def sampleCode (O : List ℕ) (pack : Option (Option (ℤ × ℤ))) (rows : List (List ℕ)) : SampleOut :=
  match pack with
  | none => .rows rows
  | some _ => .packed (rows.map fun r => hornerVal (nsDims O) (r.map fun i : ℕ => (i : ℤ)))

/-- The argument `pack` is possible: no packing, or the packed integers fit into the index type of
numpy and, if given, into the requested integer type. -/
def PackOK (O : List ℕ) (n : ℕ) : Option (Option (ℤ × ℤ)) → Prop
  | none => True
  | some none => (nsDims O).prod ≤ intpMax
  | some (some (lo, hi)) => (nsDims O).prod ≤ intpMax ∧ 0 < n ∧ lo ≤ 0 ∧ ((nsDims O).prod : ℤ) - 1 ≤ hi

theorem sumSites_singles {M : Type} [AddCommMonoid M] (N : List ℕ) (F : List (List ℕ) → M) :
    sumSites (singles N) F = sumIdx N fun y => F (singles y) := by
  induction N generalizing F with
  | nil => rfl
  | cons d N ih =>
    show (∑ i ∈ range d, sumSites (singles N) fun is => F ([i] :: is)) = _
    simp only [ih]; rfl

theorem pruned_squeeze {O Y : List ℕ} (hO : ∀ o ∈ O, 0 < o) (hne : nsDims O ≠ []) (hY : InB Y O) :
    pruned ((singles O).map fun s => if s.prod = 1 then [] else s) = singles (nsDims O) ∧
    pruned (dropSingle (singles O) (singles Y)) = singles (squeezeIdx O Y) := by
  have h1 : ∀ O : List ℕ, (∀ o ∈ O, 0 < o) → (((singles O).map fun s => if s.prod = 1 then [] else s).filter
      (fun s => decide (s ≠ []))) = singles (nsDims O) := by
    intro O hO
    induction O with
    | nil => rfl
    | cons o O ih =>
      have := hO o (by simp)
      have ih := ih fun o h => hO o (by simp [h])
      by_cases h : o = 1
      · subst h
        simpa [nsDims] using ih
      · have h' : 1 < o := by omega
        simp only [List.map_cons, List.prod_cons, List.prod_nil, mul_one, h, if_false, nsDims] at ih ⊢
        simpa [h'] using ih
  have h2 : ∀ {Y O : List ℕ}, InB Y O → (∀ o ∈ O, 0 < o) → ((dropSingle (singles O) (singles Y)).filter
      (fun s => decide (s ≠ []))) = singles (squeezeIdx O Y) := by
    intro Y O h
    induction h with
    | nil => intro _; rfl
    | @cons i o Y O h _ ih =>
      intro hO
      have := hO o (by simp)
      have ih := ih fun o h => hO o (by simp [h])
      simp only [dropSingle] at ih
      by_cases h : o = 1
      · subst h
        simpa [dropSingle, squeezeIdx] using ih
      · have h' : 1 < o := by omega
        simp only [dropSingle, List.map_cons, List.zipWith_cons_cons, List.prod_cons, List.prod_nil, mul_one, h,
          if_false, squeezeIdx, h', if_true]
        simpa using ih
  have hsq : squeezeIdx O Y ≠ [] := by
    have := inB_length (squeeze_inB hY)
    intro h0
    rw [h0] at this
    exact hne (List.length_eq_zero_iff.1 this.symm)
  unfold pruned
  rw [h1 O hO, h2 hY hO]
  exact ⟨if_neg (by simpa using hne), if_neg (by simpa using hsq)⟩

/-- A distribution on the outcomes with the probabilities of the Born rule. -/
structure OutcomeDist (O D : List ℕ) (M : List ℕ → List ℕ → List ℕ → ℂ) (ρ : List ℕ → List ℕ → ℂ)
    (P : List ℕ → ℝ) : Prop where
  nonneg : ∀ z, InB z (nsDims O) → 0 ≤ P z
  sum : sumIdx (nsDims O) P = 1
  born : ∀ Y, InB Y O → (P (squeezeIdx O Y) : ℂ) = bornRule D (M Y) ρ

theorem OutcomeDist.prob {O D : List ℕ} {M : List ℕ → List ℕ → List ℕ → ℂ} {ρ : List ℕ → List ℕ → ℂ}
    {P : List ℕ → ℝ} (h : OutcomeDist O D M ρ P) {Y : List ℕ} (hY : InB Y O) :
    ENNReal.ofReal (P (squeezeIdx O Y)) = bornProb D M ρ Y := by
  rw [bornProb, ← h.born Y hY, Complex.ofReal_re]

theorem condMarginals_ok {qr : QR ℂ} {x state state' p : MPA ℂ} {O D : List ℕ} {ρ : List ℕ → List ℕ → ℂ}
    (hO : ∀ o ∈ O, 0 < o) (hne : nsDims O ≠ []) (hM : IsMeasurement O D x.elem) (hρ : IsState D ρ)
    {mode : PovmMode} {eps : ℝ} (he : 0 ≤ eps) (hpmf : povmPmf qr x state mode = .ok (p, state'))
    (hp : IsPmf x O D ρ p) :
    ∃ P ms, condMarginals qr x state mode eps = .ok ms ∧ OutcomeDist O D x.elem ρ P ∧
      MargList (nsDims O) (fun z => (P z : ℂ)) ms := by
  obtain ⟨hpv, hps, hpval⟩ := hp
  obtain ⟨y, h1, h2, _, _, h3, _, h4⟩ := C21_prune_singletons p hpv
  have hY0 : InB (O.map fun _ => 0) O := by
    show List.Forall₂ _ _ _
    rw [List.forall₂_map_left_iff]
    exact List.forall₂_same.2 fun o ho => hO o ho
  have hys : y.shape = singles (nsDims O) := by rw [h3, hps, (pruned_squeeze hO hne hY0).1]
  have hyv : ∀ Y, InB Y O → y.val (singles (squeezeIdx O Y)) = bornRule D (x.elem Y) ρ := by
    intro Y hY
    rw [← hpval Y hY, ← h4 _ (by rw [hps]; exact singles_idxOK hY), hps, (pruned_squeeze hO hne hY).2]
  set P : List ℕ → ℝ := fun z => (y.val (singles z)).re with hPdef
  have hreal : ∀ Y, InB Y O → (P (squeezeIdx O Y) : ℂ) = bornRule D (x.elem Y) ρ := by
    intro Y hY
    have hnn := C42_nonneg D (x.elem Y) ρ (hM.psd Y hY) hρ.psd
    rw [hPdef]
    show ((y.val (singles (squeezeIdx O Y))).re : ℂ) = _
    rw [hyv Y hY]
    exact (Complex.eq_re_of_ofReal_le hnn).symm
  have hsumC : sumIdx (nsDims O) (fun z => y.val (singles z)) = 1 := by
    rw [sumIdx_squeeze hO, ← C42_sum_one O D x.elem ρ hM hρ]
    exact sumIdx_congr fun Y hY => hyv Y hY
  have hval : ∀ z, InB z (nsDims O) → y.val (singles z) = (P z : ℂ) := by
    intro z hz
    obtain ⟨Y, hY, rfl⟩ := exists_squeeze hO hz
    rw [hreal Y hY, hyv Y hY]
  have hdist : OutcomeDist O D x.elem ρ P := by
    refine ⟨?_, ?_, hreal⟩
    · intro z hz
      obtain ⟨Y, hY, rfl⟩ := exists_squeeze hO hz
      have hnn := C42_nonneg D (x.elem Y) ρ (hM.psd Y hY) hρ.psd
      rw [← hreal Y hY] at hnn
      exact_mod_cast hnn
    · have : ((sumIdx (nsDims O) P : ℝ) : ℂ) = 1 := by
        rw [ofReal_sumIdx, ← hsumC]
        exact sumIdx_congr fun z hz => (hval z hz).symm
      exact_mod_cast this
  obtain ⟨A, s1, _, s3⟩ := C18_sum_all y h2
  rw [hys, sumSites_singles, hsumC] at s3
  obtain ⟨B, ms, m1, m2, m3⟩ := marginalPmf_ok (nsDims O) (fun z => (P z : ℂ)) y hne h2 hys hval
  rw [← sumIdx_congr hval, hsumC] at m2
  have hlen : y.len = (nsDims O).length := by
    have := congrArg List.length hys
    simpa [MPA.shape, MPA.len] using this
  refine ⟨P, ms, ?_, hdist, m3⟩
  unfold condMarginals
  rw [hpmf, ok_bind, h1, ok_bind, s1]
  show (asArray0 (.inl A) >>= _) = _
  rw [show asArray0 (.inl A) = .ok A from rfl, ok_bind, s3, pyAssert_true (by simpa using he), ok_bind,
    pyAssert_true (by simpa using he), ok_bind, hlen, m1, ok_bind, m2, pyAssert_true (by simpa using he)]
  rfl

theorem horner_lt {N z : List ℕ} (hz : InB z N) :
    0 ≤ hornerVal N (z.map fun i : ℕ => (i : ℤ)) ∧ hornerVal N (z.map fun i : ℕ => (i : ℤ)) ≤ (N.prod : ℤ) - 1 := by
  rw [hornerVal_eq hz]
  have := ravelIdx_lt hz
  omega

theorem sampleFinish_ok {O : List ℕ} (hne : nsDims O ≠ []) {pack : Option (Option (ℤ × ℤ))}
    {rows : List (List ℕ)} (hpk : PackOK O rows.length pack) (hr : ∀ r ∈ rows, InB r (nsDims O)) :
    sampleFinish O pack rows = .ok (sampleCode O pack rows) := by
  unfold sampleFinish
  have hr' : ∀ r ∈ rows, List.Forall₂ (· < ·) r (nsDims O) := hr
  rw [pyAssert, if_pos hr', ok_bind]
  have hrow : ∀ k < rows.length, InB (rows.getD k []) (nsDims O) := fun k hk => by
    rw [List.getD_eq_getElem?_getD, List.getElem?_eq_getElem hk]
    exact hr _ (List.getElem_mem _)
  have hs : IsSamples (nsDims O) rows.length (rowsArray (nsDims O).length rows) := by
    refine ⟨rfl, fun k hk j hj => ?_⟩
    have h := hrow k hk
    have hl := inB_length h
    have := (List.forall₂_iff_get.1 h).2 j (by omega) hj
    simp only [List.get_eq_getElem] at this
    show 0 ≤ (((rows.getD k []).getD j 0 : ℕ) : ℤ) ∧ (((rows.getD k []).getD j 0 : ℕ) : ℤ) < _
    rw [List.getD_eq_getElem?_getD (l := rows.getD k []), List.getElem?_eq_getElem (by omega),
      List.getD_eq_getElem?_getD (l := nsDims O), List.getElem?_eq_getElem hj]
    simp only [Option.getD_some]
    omega
  have hget : ∀ k < rows.length, (List.range (nsDims O).length).map
      (fun j => (rowsArray (nsDims O).length rows).get [k, j]) = (rows.getD k []).map fun i : ℕ => (i : ℤ) := by
    intro k hk
    have hl := inB_length (hrow k hk)
    apply List.ext_getElem (by rw [List.length_map, List.length_map, List.length_range, hl])
    intro j h1 h2
    simp only [List.length_map] at h2
    simp only [List.getElem_map, List.getElem_range, rowsArray, List.getD_cons_zero, List.getD_cons_succ]
    rw [List.getD_eq_getElem?_getD (l := rows.getD k []), List.getElem?_eq_getElem h2]
    simp
  cases pack with
  | none => rfl
  | some dtype =>
    have hsz : (nsDims O).prod ≤ intpMax := by
      cases dtype with
      | none => exact hpk
      | some lh => exact hpk.1
    obtain ⟨p, h1, h2, h3⟩ := C44_pack O rows.length _ hne hsz hs
    have hp : packSamples O (rowsArray (nsDims O).length rows) dtype = .ok p := by
      cases dtype with
      | none => exact h1
      | some lh =>
        obtain ⟨lo, hi⟩ := lh
        obtain ⟨_, hn, hlo, hhi⟩ := hpk
        obtain ⟨p', g1, g2⟩ := C44_pack_dtype O rows.length _ lo hi hn hne hsz hs
        rw [h1] at g1
        obtain rfl := Except.ok.inj g1
        rw [g2, if_pos]
        intro k hk
        rw [h3 k hk, hget k hk]
        have := horner_lt (hrow k hk)
        omega
    show (packSamples O _ dtype >>= _) = _
    rw [hp, ok_bind]
    show Except.ok (SampleOut.packed _) = Except.ok (SampleOut.packed _)
    congr 2
    apply List.ext_getElem (by simp)
    intro k h1' h2'
    simp only [List.length_map, List.length_range] at h1'
    simp only [List.getElem_map, List.getElem_range]
    rw [h3 k h1', hget k h1', List.getD_eq_getElem?_getD, List.getElem?_eq_getElem h1']
    rfl

theorem sampleCode_inj {O : List ℕ} {pack : Option (Option (ℤ × ℤ))} {rows rows' : List (List ℕ)}
    (hr : ∀ r ∈ rows, InB r (nsDims O)) (hr' : ∀ r ∈ rows', InB r (nsDims O))
    (h : sampleCode O pack rows = sampleCode O pack rows') : rows = rows' := by
  cases pack with
  | none => exact SampleOut.rows.inj h
  | some dtype =>
    have h := SampleOut.packed.inj h
    induction rows generalizing rows' with
    | nil => cases rows' with
      | nil => rfl
      | cons r rs => simp at h
    | cons r rs ih =>
      cases rows' with
      | nil => simp at h
      | cons r' rs' =>
        simp only [List.map_cons, List.cons.injEq] at h
        rw [hornerVal_inj (hr r (by simp)) (hr' r' (by simp)) h.1,
          ih (fun r h => hr r (by simp [h])) (fun r h => hr' r (by simp [h])) (by
            show SampleOut.packed _ = SampleOut.packed _
            rw [h.2]) h.2]

/-- The law of `sample` from the law of the rows. -/
theorem sample_law {qr : QR ℂ} {x state : MPA ℂ} {O D : List ℕ} {ρ : List ℕ → List ℕ → ℂ} {P : List ℕ → ℝ}
    (hx : IsMpPovm x O D) (hlen : x.len = state.len) (hO : ∀ o ∈ O, 0 < o) (h255 : ∀ o ∈ O, o ≤ 255)
    (hne : nsDims O ≠ []) (hP : OutcomeDist O D x.elem ρ P) {n : ℕ} {method : SampleMethod} {g : ℤ}
    {mode : PovmMode} {pack : Option (Option (ℤ × ℤ))} (hpk : PackOK O n pack) {eps : ℝ}
    (hprob : ∀ zs : List (List ℕ), zs.length = n → (∀ z ∈ zs, InB z (nsDims O)) →
      (sampleRows qr x state n method g mode eps).prob zs = (zs.map fun z => ENNReal.ofReal (P z)).prod)
    (hsure : (sampleRows qr x state n method g mode eps).Sure fun zs =>
      zs.length = n ∧ ∀ z ∈ zs, InB z (nsDims O)) :
    SampleLaw O (bornProb D x.elem ρ) n (sampleCode O pack) (povmSample qr x state n method g mode pack eps) := by
  have hod : x.outdims = O := hx.outdims
  have hunf : povmSample qr x state n method g mode pack eps
      = (sampleRows qr x state n method g mode eps >>= fun rows => Rand.lift (sampleFinish O pack rows)) := by
    unfold povmSample
    rw [pyAssert_true hlen, Rand.lift_ok_bind, hod, pyAssert_true h255, Rand.lift_ok_bind]
  rw [hunf]
  constructor
  · intro Ys hl hY
    have hzs : ∀ z ∈ Ys.map (squeezeIdx O), InB z (nsDims O) := by
      intro z hz
      obtain ⟨Y, h, rfl⟩ := List.mem_map.1 hz
      exact squeeze_inB (hY Y h)
    rw [Rand.prob_bind_single _ _ (Ys.map (squeezeIdx O)), hprob _ (by simp [hl]) hzs,
      sampleFinish_ok hne (by simpa [hl] using hpk) hzs, Rand.prob_lift, if_pos rfl, mul_one, List.map_map]
    · congr 1
      exact List.map_congr_left fun Y h => hP.prob (hY Y h)
    · intro zs hzne hz0
      obtain ⟨hzl, hzin⟩ := hsure.prob hz0
      rw [sampleFinish_ok hne (by rw [hzl]; exact hpk) hzin, Rand.prob_lift, if_neg]
      intro h
      exact hzne (sampleCode_inj hzin hzs (Except.ok.inj h))
  · refine hsure.bind fun zs hzs => Rand.sure_lift ⟨_, sampleFinish_ok hne (by rw [hzs.1]; exact hpk) hzs.2, ?_⟩
    have : ∀ zs : List (List ℕ), (∀ z ∈ zs, InB z (nsDims O)) →
        ∃ Ys : List (List ℕ), (∀ Y ∈ Ys, InB Y O) ∧ Ys.map (squeezeIdx O) = zs := by
      intro zs
      induction zs with
      | nil => intro _; exact ⟨[], by simp, rfl⟩
      | cons z zs ih =>
        intro h
        obtain ⟨Ys, h1, h2⟩ := ih fun z hz => h z (by simp [hz])
        obtain ⟨Y, h3, h4⟩ := exists_squeeze hO (h z (by simp))
        refine ⟨Y :: Ys, ?_, by rw [List.map_cons, h2, h4]⟩
        intro Y' hY'
        rcases List.mem_cons.1 hY' with rfl | hY'
        · exact h3
        · exact h1 Y' hY'
    obtain ⟨Ys, h1, h2⟩ := this zs hzs.2
    exact ⟨Ys, by rw [← hzs.1, ← h2]; simp, h1, by rw [h2]⟩

/-- C46, conditional sampling, given the probabilities: for each group size `g ≥ 1`, the samples are
independent and outcome `Y` has the probability computed by `pmf`. -/
theorem C46_cond (qr : QR ℂ) (x state state' p : MPA ℂ) (O D : List ℕ) (ρ : List ℕ → List ℕ → ℂ)
    (hx : IsMpPovm x O D) (hlen : x.len = state.len) (hO : ∀ o ∈ O, 0 < o) (h255 : ∀ o ∈ O, o ≤ 255)
    (hne : nsDims O ≠ []) (hM : IsMeasurement O D x.elem) (hρ : IsState D ρ) (mode : PovmMode)
    (hpmf : povmPmf qr x state mode = .ok (p, state')) (hp : IsPmf x O D ρ p) (n g : ℕ) (hg : 0 < g)
    (pack : Option (Option (ℤ × ℤ))) (hpk : PackOK O n pack) (eps : ℝ) (he : 0 ≤ eps) :
    SampleLaw O (bornProb D x.elem ρ) n (sampleCode O pack)
      (povmSample qr x state n .cond g mode pack eps) := by
  obtain ⟨P, ms, h1, h2, h3⟩ := condMarginals_ok hO hne hM hρ he hpmf hp
  obtain ⟨s1, s2⟩ := condSingle_prob hne h3 h2.nonneg h2.sum hg he
  have hrows : sampleRows qr x state n .cond g mode eps
      = (sampleCondSingle ms g (nsDims O).length eps).times n := by
    show sampleCond qr x state mode n g eps = _
    unfold sampleCond
    rw [h1, Rand.lift_ok_bind, hx.outdims]
  refine sample_law hx hlen hO h255 hne h2 hpk ?_ ?_
  · intro zs hl hz
    rw [hrows, Rand.prob_times, if_pos hl]
    congr 1
    exact List.map_congr_left fun z h => s1 z (hz z h)
  · rw [hrows]
    exact s2.times n

/-- C46, direct sampling, given the probabilities. -/
theorem C46_direct (qr : QR ℂ) (x state state' : MPA ℂ) (a : NDArray ℂ) (O D : List ℕ)
    (ρ : List ℕ → List ℕ → ℂ)
    (hx : IsMpPovm x O D) (hlen : x.len = state.len) (hO : ∀ o ∈ O, 0 < o) (h255 : ∀ o ∈ O, o ≤ 255)
    (hne : nsDims O ≠ []) (hM : IsMeasurement O D x.elem) (hρ : IsState D ρ) (mode : PovmMode)
    (hraw : pmfRaw qr x state mode .auto = .ok (a, state')) (ha : IsPmfArray x O D ρ a) (n : ℕ) (g : ℤ)
    (pack : Option (Option (ℤ × ℤ))) (hpk : PackOK O n pack) (eps : ℝ) (he : 0 ≤ eps) :
    SampleLaw O (bornProb D x.elem ρ) n (sampleCode O pack)
      (povmSample qr x state n .direct g mode pack eps) := by
  obtain ⟨w, w1, w2, w3, w4⟩ := C42_pmf_as_array qr x state state' O D ρ hO hM hρ mode .auto eps he a hraw ha
  have hdist : OutcomeDist O D x.elem ρ w.get := by
    refine ⟨?_, by rw [← w2]; exact w4, fun Y hY => (w3 Y hY).1⟩
    intro z hz
    obtain ⟨Y, hY, rfl⟩ := exists_squeeze hO hz
    exact (w3 Y hY).2
  have hnn : ∀ i, InB i w.shape → 0 ≤ w.get i := fun i hi => hdist.nonneg i (w2 ▸ hi)
  have hfl := flatList_ok w hnn w4
  have hsz : w.flatList.length = (nsDims O).prod := by simp [NDArray.flatList, NDArray.size, w2]
  have hcs : (rngChoice w.flatList).Sure fun c => c < (nsDims O).prod := by
    refine Rand.sure_of_exact ?_ ?_
    · intro c hc
      rw [rngChoice_prob _ hfl, List.getD_eq_getElem?_getD, List.getElem?_eq_none (by omega)]
      simp
    · intro e
      unfold rngChoice
      rw [dif_pos hfl]
      show ((choicePMF w.flatList hfl).map Except.ok) (.error e) = 0
      rw [PMF.map_apply]
      simp
  have hrows : sampleRows qr x state n .direct g mode eps
      = ((rngChoice w.flatList).times n >>= fun cs => Rand.lift (.ok (cs.map (unravelIdx (nsDims O))))) := by
    show sampleDirect qr x state mode n eps = _
    unfold sampleDirect
    rw [w1, Rand.lift_ok_bind]
    simp only [w2]
    rw [pyGuard, if_pos hne]
    simp only [Rand.lift_ok_bind]
    rfl
  refine sample_law hx hlen hO h255 hne hdist hpk ?_ ?_
  · intro zs hl hz
    rw [hrows, Rand.prob_bind_single _ _ (zs.map (ravelIdx (nsDims O)))]
    · have e : (zs.map (ravelIdx (nsDims O))).map (unravelIdx (nsDims O)) = zs := by
        rw [List.map_map]
        conv_rhs => rw [← List.map_id zs]
        exact List.map_congr_left fun z h => unravel_ravel (hz z h)
      rw [e, Rand.prob_lift, if_pos rfl, mul_one, Rand.prob_times, if_pos (by simp [hl]), List.map_map]
      congr 1
      refine List.map_congr_left fun z h => ?_
      have := choice_prob w hnn w4 (i := z) (by rw [w2]; exact hz z h)
      rw [w2] at this
      exact this
    · intro cs hcne hc0
      have hc := (hcs.times n).prob hc0
      rw [Rand.prob_lift, if_neg]
      intro h
      apply hcne
      rw [← Except.ok.inj h, List.map_map]
      conv_lhs => rw [← List.map_id cs]
      exact List.map_congr_left fun c h => (ravel_unravel (hc.2 c h)).symm
  · rw [hrows]
    refine (hcs.times n).bind fun cs hc => Rand.sure_lift ⟨_, rfl, by simp [hc.1], ?_⟩
    intro z hz
    obtain ⟨c, h, rfl⟩ := List.mem_map.1 hz
    exact unravelIdx_inB (hc.2 c h)

/-- C46: sampling from a density matrix given as MPO.  Both methods, each group size. -/
theorem C46_sample_mpdo (qr : QR ℂ) (x ρ : MPA ℂ) (O D : List ℕ) (hx : IsMpPovm x O D)
    (hO : ∀ o ∈ O, 0 < o) (h255 : ∀ o ∈ O, o ≤ 255) (hne : nsDims O ≠ []) (hr : ∀ r ∈ x.ranks, 0 < r)
    (hM : IsMeasurement O D x.elem) (hρ : IsMpo ρ D) (hr' : ∀ r ∈ ρ.ranks, 0 < r)
    (hst : IsState D fun I J => ρ.val (pairs I J)) (mode : PovmMode) (hm : mode = .auto ∨ mode = .mode .mpdo)
    (method : SampleMethod) (hme : method = .cond ∨ method = .direct) (n g : ℕ) (hg : 0 < g)
    (pack : Option (Option (ℤ × ℤ))) (hpk : PackOK O n pack) (eps : ℝ) (he : 0 ≤ eps) :
    SampleLaw O (bornProb D x.elem fun I J => ρ.val (pairs I J)) n (sampleCode O pack)
      (povmSample qr x ρ n method g mode pack eps) := by
  have hlen : x.len = ρ.len := hx.lenx.trans hρ.len.symm
  rcases hme with rfl | rfl
  · obtain ⟨p, h1, h2⟩ := C42_pmf_mpdo qr x ρ O D hx hO hr hρ hr' mode hm
    exact C46_cond qr x ρ ρ p O D _ hx hlen hO h255 hne hM hst mode h1 h2 n g hg pack hpk eps he
  · obtain ⟨a, h1, h2⟩ := C42_array_mpdo qr x ρ O D hx hO hr hρ hr' mode hm .auto (.inl rfl)
    exact C46_direct qr x ρ ρ a O D _ hx hlen hO h255 hne hM hst mode h1 h2 n g pack hpk eps he

/-- C46: sampling from a state given as normalised purification (PMPS). -/
theorem C46_sample_pmps {qr : QR ℂ} (hqr : QRSpec qr) (x ψ : MPA ℂ) (O D A : List ℕ) (hx : IsMpPovm x O D)
    (hO : ∀ o ∈ O, 0 < o) (h255 : ∀ o ∈ O, o ≤ 255) (hne : nsDims O ≠ []) (hr : ∀ r ∈ x.ranks, 0 < r)
    (hM : IsMeasurement O D x.elem) (hψ : IsPmps ψ D A) (hg : ψ.Good)
    (htr : (sumIdx D fun I => dm ψ A I I) = 1)
    (method : SampleMethod) (hme : method = .cond ∨ method = .direct) (n g : ℕ) (hg0 : 0 < g)
    (pack : Option (Option (ℤ × ℤ))) (hpk : PackOK O n pack) (eps : ℝ) (he : 0 ≤ eps) :
    SampleLaw O (bornProb D x.elem (dm ψ A)) n (sampleCode O pack)
      (povmSample qr x ψ n method g (.mode .pmps) pack eps) := by
  have hlen : x.len = ψ.len := hx.lenx.trans hψ.lenD.symm
  have hst : IsState D (dm ψ A) := ⟨C42_pmps_psd ψ D A, htr⟩
  rcases hme with rfl | rfl
  · obtain ⟨p, ψ', h1, h2, _⟩ := C42_pmf_pmps hqr x ψ O D A hx hO hr hψ hg
    exact C46_cond qr x ψ ψ' p O D _ hx hlen hO h255 hne hM hst _ h1 h2 n g hg0 pack hpk eps he
  · obtain ⟨a, h1, h2⟩ := C42_array_pmps_fast qr x ψ O D A hx hO hψ (.mode .pmps) .auto (.inl ⟨rfl, rfl⟩)
    exact C46_direct qr x ψ ψ a O D _ hx hlen hO h255 hne hM hst _ h1 h2 n g pack hpk eps he

/-- C46: sampling from a pure state given as MPS. -/
theorem C46_sample_mps {qr : QR ℂ} (hqr : QRSpec qr) (x ψ : MPA ℂ) (O D : List ℕ) (hx : IsMpPovm x O D)
    (hO : ∀ o ∈ O, 0 < o) (h255 : ∀ o ∈ O, o ≤ 255) (hne : nsDims O ≠ []) (hr : ∀ r ∈ x.ranks, 0 < r)
    (hM : IsMeasurement O D x.elem) (hψ : ψ.Good) (hs : ψ.shape = singles D) (hst : IsState D (pureDm ψ))
    (mode : PovmMode) (hm : mode = .auto ∨ mode = .mode .mps)
    (method : SampleMethod) (hme : method = .cond ∨ method = .direct) (n g : ℕ) (hg0 : 0 < g)
    (pack : Option (Option (ℤ × ℤ))) (hpk : PackOK O n pack) (eps : ℝ) (he : 0 ≤ eps) :
    SampleLaw O (bornProb D x.elem (pureDm ψ)) n (sampleCode O pack)
      (povmSample qr x ψ n method g mode pack eps) := by
  have hlen : x.len = ψ.len := by
    have := congrArg List.length hs
    refine hx.lenx.trans ?_
    simpa [MPA.shape, MPA.len] using this.symm
  rcases hme with rfl | rfl
  · obtain ⟨p, h1, h2⟩ := C42_pmf_mps hqr x ψ O D hx hO hr hψ hs mode hm
    exact C46_cond qr x ψ ψ p O D _ hx hlen hO h255 hne hM hst mode h1 h2 n g hg0 pack hpk eps he
  · obtain ⟨a, h1, h2⟩ := C42_array_mps hqr x ψ O D hx hO hr hψ hs mode hm .auto (.inl rfl)
    exact C46_direct qr x ψ ψ a O D _ hx hlen hO h255 hne hM hst mode h1 h2 n g pack hpk eps he

/-- C46: the two methods and all group sizes produce the same distribution of results. -/
theorem C46_methods_agree (O : List ℕ) (q : List ℕ → ENNReal) (n : ℕ) (code : List (List ℕ) → SampleOut)
    (m m' : Rand SampleOut) (h : SampleLaw O q n code m) (h' : SampleLaw O q n code m') : m = m' := by
  refine PMF.ext (p := m) (q := m') fun r => ?_
  by_cases hr : ∃ Ys : List (List ℕ), Ys.length = n ∧ (∀ Y ∈ Ys, InB Y O) ∧
      r = .ok (code (Ys.map (squeezeIdx O)))
  · obtain ⟨Ys, h1, h2, rfl⟩ := hr
    exact (h.prob Ys h1 h2).trans (h'.prob Ys h1 h2).symm
  · have key : ∀ m : Rand SampleOut, SampleLaw O q n code m → m.run r = 0 := by
      intro m h
      by_contra h0
      obtain ⟨o, ho, Ys, h1, h2, h3⟩ := h.sure r h0
      exact hr ⟨Ys, h1, h2, by rw [ho, h3]⟩
    exact (key m h).trans (key m' h').symm

/-- C46, error branches: an unknown method, a state of the wrong length, more than 255 outcomes at one
site. -/
theorem C46_reject (qr : QR ℂ) (x state : MPA ℂ) (n : ℕ) (method : SampleMethod) (g : ℤ) (mode : PovmMode)
    (pack : Option (Option (ℤ × ℤ))) (eps : ℝ) :
    (x.len ≠ state.len → povmSample qr x state n method g mode pack eps = Rand.lift (.error .assertion)) ∧
    ((∃ d ∈ x.outdims, 255 < d) → povmSample qr x state n method g mode pack eps = Rand.lift (.error .assertion)) ∧
    ∃ e, povmSample qr x state n .other g mode pack eps = Rand.lift (.error e) := by
  unfold povmSample
  refine ⟨?_, ?_, ?_⟩
  · intro h
    rw [pyAssert_false h, Rand.lift_error_bind]
  · rintro ⟨d, h1, h2⟩
    by_cases h : x.len = state.len
    · rw [pyAssert_true h, Rand.lift_ok_bind, pyAssert_false (fun h' => absurd (h' d h1) (by omega)),
        Rand.lift_error_bind]
    · rw [pyAssert_false h, Rand.lift_error_bind]
  · by_cases h : x.len = state.len
    · rw [pyAssert_true h, Rand.lift_ok_bind]
      by_cases h' : ∀ d ∈ x.outdims, d ≤ 255
      · rw [pyAssert_true h', Rand.lift_ok_bind]
        exact ⟨.value, by rw [sampleRows, Rand.lift_error_bind]⟩
      · rw [pyAssert_false h', Rand.lift_error_bind]
        exact ⟨_, rfl⟩
    · rw [pyAssert_false h, Rand.lift_error_bind]
      exact ⟨_, rfl⟩

theorem pyRange_negative (n : ℕ) (hn : 0 < n) (g : ℤ) (hg : g < 0) : pyRange 0 n g = [] := by
  unfold pyRange
  dsimp only
  rw [if_neg (by omega), if_pos hg]
  have : (0 - (n : ℤ) + -g - 1) / -g ≤ 0 := by
    have h := Int.ediv_lt_of_lt_mul (a := 0 - (n : ℤ) + -g - 1) (b := 1) (c := -g) (by omega) (by omega)
    omega
  rw [Int.toNat_of_nonpos this]; rfl

/-- C46: conditional sampling of at least one sample with a group size that is not positive raises an
exception. -/
theorem C46_group_size (qr : QR ℂ) (x state state' p : MPA ℂ) (O D : List ℕ) (ρ : List ℕ → List ℕ → ℂ)
    (hx : IsMpPovm x O D) (hlen : x.len = state.len) (hO : ∀ o ∈ O, 0 < o) (h255 : ∀ o ∈ O, o ≤ 255)
    (hne : nsDims O ≠ []) (hM : IsMeasurement O D x.elem) (hρ : IsState D ρ) (mode : PovmMode)
    (hpmf : povmPmf qr x state mode = .ok (p, state')) (hp : IsPmf x O D ρ p) (n : ℕ) (hn : 0 < n) (g : ℤ)
    (hg : g ≤ 0) (pack : Option (Option (ℤ × ℤ))) (eps : ℝ) (he : 0 ≤ eps) :
    ∃ e, povmSample qr x state n .cond g mode pack eps = Rand.lift (.error e) := by
  obtain ⟨P, ms, h1, h2, h3⟩ := condMarginals_ok hO hne hM hρ he hpmf hp
  have hpos := List.length_pos_iff.2 hne
  have hsingle : ∃ e, sampleCondSingle ms g (nsDims O).length eps = Rand.lift (.error e) := by
    unfold sampleCondSingle
    dsimp only
    by_cases h0 : g = 0
    · exact ⟨.value, by rw [pyGuard, if_neg (by simp [h0]), Rand.lift_error_bind]⟩
    · obtain ⟨m, m1, m2, m3, _⟩ := h3.get ((nsDims O).length - 1) (by omega)
      rw [show (nsDims O).length - 1 + 1 = (nsDims O).length by omega, List.take_length] at m3
      have hlast : ms.getLastD ⟨[], 0, 0⟩ = m := by
        rw [List.getLastD_eq_getLast?, List.getLast?_eq_getElem?, h3.len, m1]; rfl
      have hml : m.len = (nsDims O).length := by
        have := congrArg List.length m3
        simpa [MPA.shape, MPA.len] using this
      obtain ⟨t, ts, ht⟩ := List.exists_cons_of_ne_nil m2.ne
      obtain ⟨d, N, hd⟩ := List.exists_cons_of_ne_nil hne
      have hph : t.ph = [d] := by
        have := m3
        rw [MPA.shape, ht, hd] at this
        simpa using (List.cons.inj this).1
      have hd255 : d ≤ 255 := by
        have hmem : d ∈ nsDims O := by rw [hd]; simp
        exact h255 d (List.mem_filter.1 hmem).1
      obtain ⟨e, hget⟩ := C19_get_range m ((List.replicate (nsDims O).length 255).map fun i : ℕ => (i : ℤ))
        ⟨(255, t), by
          rw [ht, hd, List.length_cons, List.replicate_succ]; simp, m2.chain.isLocal t (by rw [ht]; simp), by
          rw [hph]; simp; omega⟩
      refine ⟨e, ?_⟩
      rw [hlast, pyGuard, if_pos h0, Rand.lift_ok_bind, hml, pyRange_negative _ hpos g (by omega),
        List.foldlM_nil, Rand.pure_eq, Rand.lift_ok_bind, hget, Rand.lift_error_bind]
  obtain ⟨e, he'⟩ := hsingle
  refine ⟨e, ?_⟩
  unfold povmSample
  rw [pyAssert_true hlen, Rand.lift_ok_bind, hx.outdims, pyAssert_true h255, Rand.lift_ok_bind]
  show (sampleCond qr x state mode n g eps >>= _) = _
  unfold sampleCond
  rw [h1, Rand.lift_ok_bind, hx.outdims, he']
  obtain ⟨k, rfl⟩ : ∃ k, n = k + 1 := ⟨n - 1, by omega⟩
  unfold Rand.times
  rw [Rand.lift_error_bind, Rand.lift_error_bind]

/-- C46, a limit of the code: if each site has one outcome only, then the default method raises an
exception (even for zero samples). -/
theorem C46_no_outcomes (qr : QR ℂ) (x state state' p : MPA ℂ) (O D : List ℕ) (ρ : List ℕ → List ℕ → ℂ)
    (hO : ∀ o ∈ O, 0 < o) (hne : nsDims O = []) (mode : PovmMode)
    (hpmf : povmPmf qr x state mode = .ok (p, state')) (hp : IsPmf x O D ρ p) (n : ℕ) (g : ℤ)
    (pack : Option (Option (ℤ × ℤ))) (eps : ℝ) :
    ∃ e, povmSample qr x state n .cond g mode pack eps = Rand.lift (.error e) := by
  have hcm : ∃ e, condMarginals qr x state mode eps = .error e := by
    obtain ⟨hpv, hps, _⟩ := hp
    obtain ⟨y, h1, h2, _, _, h3, _, _⟩ := C21_prune_singletons p hpv
    have hone : ∀ o ∈ O, o = 1 := by
      intro o ho
      by_contra h
      have : o ∈ nsDims O := List.mem_filter.2 ⟨ho, by have := hO o ho; simp; omega⟩
      rw [hne] at this
      simp at this
    have hys : y.shape = [[]] := by
      rw [h3, hps]
      have : ((singles O).map fun s => if s.prod = 1 then [] else s) = O.map fun _ => [] := by
        rw [List.map_map]
        exact List.map_congr_left fun o ho => by simp [hone o ho]
      rw [this]
      unfold pruned
      rw [if_pos (by simp)]
    have hlen : y.len = 1 := by
      have := congrArg List.length hys
      simpa [MPA.shape, MPA.len] using this
    have hnd : y.ndims.getLastD 0 = 0 := by
      have : y.ndims = y.shape.map List.length := by
        rw [MPA.ndims, MPA.shape, List.map_map]
        exact List.map_congr_left fun t ht => by rw [ndim_ph (h2.chain.isLocal t ht)]; simp
      rw [this, hys]; rfl
    obtain ⟨A, s1, _, _⟩ := C18_sum_all y h2
    have hmarg : marginalPmf (y.len - 1) y = .error .type := by
      rw [hlen]
      show marginalPmf 0 y = _
      unfold marginalPmf
      rw [hnd, pyGuard, if_neg (by simp)]; rfl
    unfold condMarginals
    rw [hpmf, ok_bind, h1, ok_bind, s1]
    show ∃ e, (asArray0 (.inl A) >>= _) = _
    rw [show asArray0 (.inl A) = .ok A from rfl, ok_bind, hmarg]
    by_cases a1 : |(A.get []).im| ≤ eps
    · rw [pyAssert_true a1, ok_bind]
      by_cases a2 : |1 - (A.get []).re| ≤ eps
      · rw [pyAssert_true a2, ok_bind]
        exact ⟨_, rfl⟩
      · rw [pyAssert_false a2]
        exact ⟨_, rfl⟩
    · rw [pyAssert_false a1]
      exact ⟨_, rfl⟩
  obtain ⟨e, he⟩ := hcm
  unfold povmSample
  by_cases h : x.len = state.len
  · rw [pyAssert_true h, Rand.lift_ok_bind]
    by_cases h' : ∀ d ∈ x.outdims, d ≤ 255
    · rw [pyAssert_true h', Rand.lift_ok_bind]
      refine ⟨e, ?_⟩
      show (sampleCond qr x state mode n g eps >>= _) = _
      unfold sampleCond
      rw [he, Rand.lift_error_bind, Rand.lift_error_bind]
    · rw [pyAssert_false h', Rand.lift_error_bind]
      exact ⟨_, rfl⟩
  · rw [pyAssert_false h, Rand.lift_error_bind]
    exact ⟨_, rfl⟩

/-! ### The hypotheses are met by a measurement of both sites of an entangled state -/

/-- Measurement of two sites in the computational basis. -/
noncomputable def exPovm2 : MPA ℂ :=
  ⟨[⟨[1, 2, 2, 2, 1], fun i => match i with | [_, y, p, q, _] => if p = y ∧ q = y then 1 else 0 | _ => 0⟩,
    ⟨[1, 2, 2, 2, 1], fun i => match i with | [_, y, p, q, _] => if p = y ∧ q = y then 1 else 0 | _ => 0⟩], 0, 2⟩

/-- The entangled state `3/5 |00⟩ + 4i/5 |11⟩`. -/
noncomputable def exState2 : MPA ℂ :=
  ⟨[⟨[1, 2, 1, 2], fun i => match i with
      | [_, p, _, b] => if p = b then (if p = 0 then 3 / 5 else 4 / 5 * Complex.I) else 0 | _ => 0⟩,
    ⟨[2, 2, 1, 1], fun i => match i with | [a, p, _, _] => if a = p then 1 else 0 | _ => 0⟩], 0, 2⟩

theorem exPovm2_isMpPovm : IsMpPovm exPovm2 [2, 2] [2, 2] :=
  ⟨⟨by simp [exPovm2], by simp [exPovm2, NDArray.IsLocal, NDArray.ndim, NDArray.lb, NDArray.rb],
    by simp [exPovm2], by simp [exPovm2], by simp [exPovm2, MPA.len]⟩, rfl, rfl, by simp⟩

theorem exState2_isPmps : IsPmps exState2 [2, 2] [1, 1] :=
  ⟨⟨by simp [exState2], by simp [exState2, NDArray.IsLocal, NDArray.ndim, NDArray.lb, NDArray.rb],
    by simp [exState2], by simp [exState2], by simp [exState2, MPA.len]⟩, rfl, rfl⟩

theorem exPovm2_elem (y p q y' p' q' : ℕ) : exPovm2.elem [y, y'] [p, p'] [q, q']
    = if (p = y ∧ q = y) ∧ p' = y' ∧ q' = y' then 1 else 0 := by
  simp [MPA.elem, MPA.val, entry, exPovm2, triples, pairs, mp, NDArray.at3, NDArray.rb]
  split_ifs <;> simp_all

theorem exState2_val (p p' k k' : ℕ) : exState2.val (pairs [p, p'] [k, k'])
    = if p = 0 ∧ p' = 0 then 3 / 5 else if p = 1 ∧ p' = 1 then 4 / 5 * Complex.I else 0 := by
  simp [MPA.val, entry, exState2, pairs, mp, NDArray.at3, NDArray.rb, Finset.sum_range_succ]
  by_cases h0 : p = 0 <;> by_cases h1 : p = 1 <;> by_cases g0 : 0 = p' <;> by_cases g1 : 1 = p' <;> simp_all <;>
    (intros; omega)

open scoped ComplexOrder MatrixOrder Matrix

theorem exPovm2_measurement : IsMeasurement [2, 2] [2, 2] exPovm2.elem := by
  constructor
  · intro Y hY
    obtain ⟨y, y', rfl, hy, hy'⟩ := inB_pair hY
    unfold Psd
    have : (Matrix.of fun I J : {I // InB I [2, 2]} => exPovm2.elem [y, y'] I J)
        = Matrix.vecMulVec (fun I : {I // InB I [2, 2]} => if (I : List ℕ) = [y, y'] then (1 : ℂ) else 0)
          (star fun I : {I // InB I [2, 2]} => if (I : List ℕ) = [y, y'] then (1 : ℂ) else 0) := by
      ext ⟨I, hI⟩ ⟨J, hJ⟩
      obtain ⟨i, i', rfl, _, _⟩ := inB_pair hI
      obtain ⟨j, j', rfl, _, _⟩ := inB_pair hJ
      simp only [Matrix.of_apply, Matrix.vecMulVec_apply, exPovm2_elem, Pi.star_apply]
      by_cases h1 : i = y <;> by_cases h2 : j = y <;> by_cases h3 : i' = y' <;> by_cases h4 : j' = y' <;>
        simp [h1, h2, h3, h4]
    rw [this]
    exact Matrix.posSemidef_vecMulVec_self_star _
  · intro I J hI hJ
    obtain ⟨i, i', rfl, h1, h2⟩ := inB_pair hI
    obtain ⟨j, j', rfl, h3, h4⟩ := inB_pair hJ
    simp only [sumIdx, exPovm2_elem, Finset.sum_range_succ, Finset.sum_range_zero]
    interval_cases i <;> interval_cases j <;> interval_cases i' <;> interval_cases j' <;> simp

theorem exState2_trace : (sumIdx [2, 2] fun I => dm exState2 [1, 1] I I) = 1 := by
  simp only [dm, sumIdx, exState2_val, Finset.sum_range_succ, Finset.sum_range_zero]
  simp
  ring_nf
  simp
  norm_num

/-- Three samples of the measurement of the entangled state with the default method and packed
result: the samples (0, 0), (1, 1), (0, 0) have probability `9/25 · 16/25 · 9/25`. -/
example : ∃ qr : QR ℂ, QRSpec qr ∧
    (povmSample qr exPovm2 exState2 3 .cond 1 (.mode .pmps) (some none) (1 / 10 ^ 10)).prob (.packed [0, 3, 0])
      = ENNReal.ofReal (9 / 25) * (ENNReal.ofReal (16 / 25) * ENNReal.ofReal (9 / 25)) := by
  obtain ⟨qr, hqr⟩ := exists_QRSpec (𝕜 := ℂ)
  refine ⟨qr, hqr, ?_⟩
  have hgood : exState2.Good := by
    refine ⟨exState2_isPmps.valid, ?_, ?_⟩
    · intro k t hk
      have hk2 : k < exState2.lt.length := (List.getElem?_eq_some_iff.mp hk).1
      simp only [exState2, List.length_cons, List.length_nil] at hk2 ⊢
      exact ⟨fun h => by omega, fun h => by omega⟩
    · simp [AllPos, exState2, NDArray.lb, NDArray.ph]
  have h := C46_sample_pmps hqr exPovm2 exState2 [2, 2] [2, 2] [1, 1] exPovm2_isMpPovm (by simp) (by simp)
    (by decide) (by simp [MPA.ranks, exPovm2, NDArray.lb]) exPovm2_measurement exState2_isPmps hgood
    exState2_trace .cond (.inl rfl) 3 1 one_pos (some none) (by show _ ≤ _; decide) (1 / 10 ^ 10) (by positivity)
  have h2 := h.prob [[0, 0], [1, 1], [0, 0]] rfl (by simp)
  have b0 : bornProb [2, 2] exPovm2.elem (dm exState2 [1, 1]) [0, 0] = ENNReal.ofReal (9 / 25) := by
    simp only [bornProb, bornRule, dm, sumIdx, exState2_val, exPovm2_elem, Finset.sum_range_succ, Finset.sum_range_zero]
    simp
    norm_num
  have b1 : bornProb [2, 2] exPovm2.elem (dm exState2 [1, 1]) [1, 1] = ENNReal.ofReal (16 / 25) := by
    simp only [bornProb, bornRule, dm, sumIdx, exState2_val, exPovm2_elem, Finset.sum_range_succ, Finset.sum_range_zero]
    simp
    norm_num
  simp only [List.map_cons, List.map_nil, List.prod_cons, List.prod_nil, mul_one, b0, b1] at h2
  rw [← h2]
  rfl

end Mpnum
