import Verif.Props.C83
import Verif.Props.C75
import Verif.Props.C59
import Verif.Props.C60Examples
import Verif.Povm.RoundingPmfMixed

/-!
# C84: canonical states; the error of the probabilities does not grow exponentially with the number of sites

The general bound of C83 contains the product of the norms of all local tensors.  For a left-canonical state and local measurements on all
sites, the implementation `'pmps-ltr'` has an error bound which is, to first order in the relative error of one product, linear in the
number of sites and polynomial in the bond dimension of the state.
-/

open Finset

namespace Mpnum

/-- Specification: a local tensor of an MP-POVM with bonds of size 1 whose elements are a measurement of one site. -/
structure IsLocalMeasurement (m : NDArray ℂ) (o d : ℕ) : Prop where
  shape : m.shape = [1, o, d, d, 1]
  meas : IsMeasurement [o] [d] fun Y I J => m.get (0 :: Y ++ I ++ J ++ [0])

open scoped MatrixOrder ComplexOrder Matrix.Norms.L2Operator in
theorem psd_factor {d : ℕ} {M : List ℕ → List ℕ → ℂ} (h : Psd [d] M) :
    ∃ C : ℕ → ℕ → ℂ, ∀ i < d, ∀ j < d, M [i] [j] = ∑ l ∈ range d, star (C l i) * C l j := by
  have h1 := h.submatrix fun i : Fin d => (⟨[(i : ℕ)], by simp⟩ : {I // InB I [d]})
  obtain ⟨B, hB⟩ := CStarAlgebra.nonneg_iff_eq_star_mul_self.mp h1.nonneg
  refine ⟨fun l j => if h : l < d ∧ j < d then B ⟨l, h.1⟩ ⟨j, h.2⟩ else 0, fun i hi j hj => ?_⟩
  have := congrFun (congrFun hB ⟨i, hi⟩) ⟨j, hj⟩
  simp only [Matrix.submatrix_apply, Matrix.of_apply, Matrix.mul_apply, Matrix.star_apply] at this
  rw [this, Finset.sum_range]
  refine Finset.sum_congr rfl fun l _ => ?_
  simp [hi, hj]

/-- The factors of the elements of a measurement preserve norms. -/
theorem factor_norm {o d : ℕ} {M : List ℕ → List ℕ → List ℕ → ℂ} (hM : IsMeasurement [o] [d] M) {C : ℕ → ℕ → ℕ → ℂ}
    (hC : ∀ y < o, ∀ i < d, ∀ j < d, M [y] [i] [j] = ∑ l ∈ range d, star (C y l i) * C y l j) (x : ℕ → ℂ) :
    ∑ y ∈ range o, ∑ l ∈ range d, ‖∑ j ∈ range d, C y l j * x j‖ ^ 2 = ∑ j ∈ range d, ‖x j‖ ^ 2 := by
  have hn : ∀ z : ℂ, ((‖z‖ ^ 2 : ℝ) : ℂ) = star z * z := fun z => (star_mul_self_eq z).symm
  apply Complex.ofReal_injective
  push_cast
  have e1 : ∀ y l, ((‖∑ j ∈ range d, C y l j * x j‖ : ℝ) : ℂ) ^ 2
      = ∑ i ∈ range d, ∑ j ∈ range d, star (x i) * x j * (star (C y l i) * C y l j) := by
    intro y l
    have := hn (∑ j ∈ range d, C y l j * x j)
    push_cast at this
    rw [this, star_sum, sum_mul_sum]
    exact sum_congr rfl fun i _ => sum_congr rfl fun j _ => by rw [star_mul']; ring
  have e2 : ∀ j, ((‖x j‖ : ℝ) : ℂ) ^ 2 = star (x j) * x j := fun j => by
    have := hn (x j)
    push_cast at this
    exact this
  simp only [e1, e2]
  have e3 : ∑ y ∈ range o, ∑ l ∈ range d, ∑ i ∈ range d, ∑ j ∈ range d, star (x i) * x j * (star (C y l i) * C y l j)
      = ∑ i ∈ range d, ∑ j ∈ range d, star (x i) * x j * ∑ y ∈ range o, ∑ l ∈ range d, star (C y l i) * C y l j := by
    simp only [mul_sum]
    simp only [← sum_product']
    refine sum_nbij' (fun ⟨y, l, i, j⟩ => ⟨i, j, y, l⟩) (fun ⟨i, j, y, l⟩ => ⟨y, l, i, j⟩) ?_ ?_ ?_ ?_ ?_
    all_goals rintro ⟨x1, x2, x3, x4⟩ h
    all_goals simp only [mem_product] at h ⊢
    · tauto
    · tauto
  rw [e3]
  refine sum_congr rfl fun i hi => ?_
  rw [Finset.sum_eq_single i]
  · have h1 := hM.sum [i] [i] (by simpa using hi) (by simpa using hi)
    rw [sumIdx_cons] at h1
    simp only [sumIdx_nil, if_true] at h1
    rw [← sum_congr rfl fun y hy => hC y (mem_range.1 hy) i (mem_range.1 hi) i (mem_range.1 hi), h1, mul_one]
  · intro j hj hij
    have h1 := hM.sum [i] [j] (by simpa using hi) (by simpa using hj)
    rw [sumIdx_cons] at h1
    simp only [sumIdx_nil] at h1
    rw [if_neg (by simpa using fun h => hij h.symm)] at h1
    rw [← sum_congr rfl fun y hy => hC y (mem_range.1 hy) i (mem_range.1 hi) j (mem_range.1 hj), h1, mul_zero]
  · intro h
    exact absurd hi h

/-- The norm of a local measurement. -/
theorem IsLocalMeasurement.norm_le {m : NDArray ℂ} {o d : ℕ} (h : IsLocalMeasurement m o d) : npNorm m ≤ Real.sqrt d := by
  have hf : ∀ y, ∃ C : ℕ → ℕ → ℂ, y < o → ∀ i < d, ∀ j < d, m.get [0, y, i, j, 0] = ∑ l ∈ range d, star (C l i) * C l j := by
    intro y
    by_cases hy : y < o
    · obtain ⟨C, hC⟩ := psd_factor (h.meas.psd [y] (by simpa using hy))
      exact ⟨C, fun _ => by simpa using hC⟩
    · exact ⟨fun _ _ => 0, fun h => absurd h hy⟩
  choose C hC using hf
  have hnorm := factor_norm h.meas (C := C) fun y hy i hi j hj => by simpa using hC y hy i hi j hj
  unfold npNorm
  refine Real.sqrt_le_sqrt ?_
  rw [h.shape]
  have hop : ∀ y < o, ∀ x : ℕ → ℂ, ∑ l ∈ range d, ‖∑ j ∈ range d, C y l j * x j‖ ^ 2 ≤ 1 ^ 2 * ∑ j ∈ range d, ‖x j‖ ^ 2 := by
    intro y hy x
    rw [one_pow, one_mul, ← hnorm x]
    exact single_le_sum (f := fun y => ∑ l ∈ range d, ‖∑ j ∈ range d, C y l j * x j‖ ^ 2)
      (fun _ _ => sum_nonneg fun _ _ => sq_nonneg _) (mem_range.2 hy)
  have hF := frob_of_op (I := range o ×ˢ range d) (m := d) (T := fun yl j => C yl.1 yl.2 j) (c := 1) fun v => by
    rw [Finset.sum_product, hnorm v, one_pow, one_mul]
  rw [Finset.sum_product] at hF
  calc _ = ∑ y ∈ range o, ∑ i ∈ range d, ∑ j ∈ range d, ‖m.get [0, y, i, j, 0]‖ ^ 2 := by simp [sumIdx]
    _ ≤ ∑ y ∈ range o, ∑ i ∈ range d, ∑ l ∈ range d, ‖C y l i‖ ^ 2 := by
        refine sum_le_sum fun y hy => sum_le_sum fun i hi => ?_
        have := op_transpose (hop y (mem_range.1 hy)) fun l => star (C y l i)
        rw [one_pow, one_mul] at this
        simp only [norm_star] at this
        refine le_trans (le_of_eq (sum_congr rfl fun j hj => ?_)) this
        rw [hC y (mem_range.1 hy) i (mem_range.1 hi) j (mem_range.1 hj)]
    _ = ∑ y ∈ range o, ∑ l ∈ range d, ∑ i ∈ range d, ‖C y l i‖ ^ 2 := sum_congr rfl fun y _ => Finset.sum_comm
    _ ≤ _ := by simpa using hF

/-- The Kraus form of a local measurement and a local tensor of a PMPS. -/
theorem exists_kraus {m t : NDArray ℂ} {o d k l r : ℕ} (h : IsLocalMeasurement m o d) (ht : t.shape = [l, d, k, r]) :
    ∃ s : KSite ℂ, IsKraus (m, t) s ∧ (∀ c, LOp c t → s.Op c) ∧ (∀ c, ROp c t → s.ROp c) ∧ s.l = l ∧ s.r = r := by
  have hf : ∀ y, ∃ C : ℕ → ℕ → ℂ, y < o → ∀ i < d, ∀ j < d, m.get [0, y, i, j, 0] = ∑ l ∈ range d, star (C l i) * C l j := by
    intro y
    by_cases hy : y < o
    · obtain ⟨C, hC⟩ := psd_factor (h.meas.psd [y] (by simpa using hy))
      exact ⟨C, fun _ => by simpa using hC⟩
    · exact ⟨fun _ _ => 0, fun h => absurd h hy⟩
  choose C hC using hf
  have hnorm := factor_norm h.meas (C := C) fun y hy i hi j hj => by simpa using hC y hy i hi j hj
  refine ⟨⟨o, d, k, l, r, fun a y i κ b => ∑ j ∈ range d, C y i j * t.get [a, j, κ, b]⟩, ⟨h.shape, ht, ?_⟩, ?_, ?_, rfl, rfl⟩
  · intro y hy a _ a' _ b _ b' _
    simp only
    have e : ∀ i ∈ range d, ∀ j ∈ range d, ∀ κ ∈ range k, m.get [0, y, i, j, 0] * (t.get [a, j, κ, b] * star (t.get [a', i, κ, b']))
        = ∑ z ∈ range d, C y z j * t.get [a, j, κ, b] * star (C y z i * t.get [a', i, κ, b']) := by
      intro i hi j hj κ _
      rw [hC y hy i (mem_range.1 hi) j (mem_range.1 hj), sum_mul]
      exact sum_congr rfl fun z _ => by rw [star_mul']; ring
    rw [sum_congr rfl fun i hi => sum_congr rfl fun j hj => sum_congr rfl fun κ hκ => e i hi j hj κ hκ]
    simp only [star_sum, sum_mul_sum]
    simp only [← sum_product']
    refine sum_nbij' (fun ⟨i, j, κ, z⟩ => ⟨z, κ, j, i⟩) (fun ⟨z, κ, j, i⟩ => ⟨i, j, κ, z⟩) ?_ ?_ ?_ ?_ ?_
    all_goals rintro ⟨x1, x2, x3, x4⟩ h
    all_goals simp only [mem_product] at h ⊢
    · tauto
    · tauto
  · intro c hc v
    simp only
    have hv := hc v
    have e1 : t.lb = l := by simp [NDArray.lb, ht]
    have e2 : t.rb = r := by simp [NDArray.rb, ht]
    have e3 : t.ph = [d, k] := by simp [NDArray.ph, ht]
    rw [e1, e2, e3] at hv
    refine le_trans (le_of_eq ?_) hv
    refine sum_congr rfl fun a _ => ?_
    rw [show (sumIdx [d, k] fun p => ‖∑ b ∈ range r, t.at3 a p b * v b‖ ^ 2)
      = ∑ j ∈ range d, ∑ κ ∈ range k, ‖∑ b ∈ range r, t.get [a, j, κ, b] * v b‖ ^ 2 by simp [sumIdx, NDArray.at3]]
    rw [Finset.sum_comm (s := range d)]
    rw [← sum_congr rfl fun κ _ => hnorm fun j => ∑ b ∈ range r, t.get [a, j, κ, b] * v b]
    rw [Finset.sum_comm (s := range k)]
    refine sum_congr rfl fun y _ => ?_
    rw [Finset.sum_comm (s := range k)]
    refine sum_congr rfl fun i _ => sum_congr rfl fun κ _ => ?_
    congr 2
    simp only [mul_sum, sum_mul]
    rw [Finset.sum_comm]
    exact sum_congr rfl fun _ _ => sum_congr rfl fun _ _ => by ring
  · intro c hc v
    simp only
    have hv := hc v
    have e1 : t.lb = l := by simp [NDArray.lb, ht]
    have e2 : t.rb = r := by simp [NDArray.rb, ht]
    have e3 : t.ph = [d, k] := by simp [NDArray.ph, ht]
    rw [e1, e2, e3] at hv
    refine le_trans (le_of_eq ?_) hv
    rw [show (sumIdx [d, k] fun p => ∑ b ∈ range r, ‖∑ a ∈ range l, v a * t.at3 a p b‖ ^ 2)
      = ∑ j ∈ range d, ∑ κ ∈ range k, ∑ b ∈ range r, ‖∑ a ∈ range l, v a * t.get [a, j, κ, b]‖ ^ 2 by simp [sumIdx, NDArray.at3]]
    have e4 : ∀ κ b, ∑ j ∈ range d, ‖∑ a ∈ range l, v a * t.get [a, j, κ, b]‖ ^ 2
        = ∑ y ∈ range o, ∑ i ∈ range d, ‖∑ a ∈ range l, (∑ j ∈ range d, C y i j * t.get [a, j, κ, b]) * v a‖ ^ 2 := by
      intro κ b
      rw [← hnorm fun j => ∑ a ∈ range l, v a * t.get [a, j, κ, b]]
      refine sum_congr rfl fun y _ => sum_congr rfl fun i _ => ?_
      congr 2
      simp only [mul_sum, sum_mul]
      rw [Finset.sum_comm]
      exact sum_congr rfl fun _ _ => sum_congr rfl fun _ _ => by ring
    have e5 : ∀ g : ℕ → ℕ → ℕ → ℝ, ∑ j ∈ range d, ∑ κ ∈ range k, ∑ b ∈ range r, g j κ b
        = ∑ κ ∈ range k, ∑ b ∈ range r, ∑ j ∈ range d, g j κ b := by
      intro g
      rw [Finset.sum_comm]
      exact sum_congr rfl fun _ _ => Finset.sum_comm
    rw [e5, sum_congr rfl fun κ _ => sum_congr rfl fun b _ => e4 κ b]
    have e6 : ∀ g : ℕ → ℕ → ℕ → ℕ → ℝ, ∑ y ∈ range o, ∑ i ∈ range d, ∑ κ ∈ range k, ∑ b ∈ range r, g y i κ b
        = ∑ κ ∈ range k, ∑ b ∈ range r, ∑ y ∈ range o, ∑ i ∈ range d, g y i κ b := by
      intro g
      simp only [← sum_product']
      refine sum_nbij' (fun ⟨y, i, κ, b⟩ => ⟨κ, b, y, i⟩) (fun ⟨κ, b, y, i⟩ => ⟨y, i, κ, b⟩) ?_ ?_ ?_ ?_ ?_
      all_goals rintro ⟨x1, x2, x3, x4⟩ h
      all_goals simp only [mem_product] at h ⊢
      · tauto
      · tauto
    exact e6 _

theorem lop_norm {t : NDArray ℂ} (ht : t.IsLocal) {c : ℝ} (h : LOp c t) : npNorm t ^ 2 ≤ t.rb * c ^ 2 := by
  have := frob_of_op (I := range t.lb ×ˢ idxSet t.ph) (m := t.rb) (T := fun x b => t.at3 x.1 x.2 b) (c := c) fun v => by
    rw [Finset.sum_product]
    have := h v
    simpa only [sumIdx_eq_sum] using this
  rw [npNorm_sq, nsq_local ht]
  simpa only [Finset.sum_product, sumIdx_eq_sum] using this

theorem pow_canon_mono {c : ℝ} (hc : 1 ≤ c) (n : ℕ) : 1 ≤ (c ^ n) ^ 2 := one_le_pow₀ (one_le_pow₀ hc)

theorem kgood_of {c : ℝ} {R dm r : ℕ} : ∀ {ms ts : List (NDArray ℂ)} {O D A : List ℕ} {l : ℕ}, physShape ms = triples O D D →
    O.length = D.length → D.length = A.length → physShape ts = pairs D A → Chained l ts r → (∀ m ∈ ms, ∃ o d, IsLocalMeasurement m o d) →
    (∀ t ∈ ts, LOp c t ∧ t.rb ≤ R) → (∀ d ∈ D, d ≤ dm) → l ≤ R →
    ∃ ss, KGood c R l (ms.zip ts) ss r ∧ ss.length = ms.length ∧
      ∀ q ∈ ms.zip ts, npNorm q.1 * npNorm q.2 ^ 2 ≤ Real.sqrt dm * (R * c ^ 2)
  | ms, ts, [], [], [], l, h1, _, _, h2, hc, _, _, _, hR => by
    have e1 : ms = [] := by simpa [physShape, triples, pairs] using h1
    have e2 : ts = [] := by simpa [physShape, pairs] using h2
    subst e1 e2
    exact ⟨[], ⟨.nil, by simp, by simp, hR, hc⟩, rfl, by simp⟩
  | [], ts, o :: O, d :: D, k :: A, l, h1, _, _, h2, hc, _, _, _, hR => by simp [physShape] at h1
  | m :: ms, [], o :: O, d :: D, k :: A, l, h1, _, _, h2, hc, _, _, _, hR => by
    simp [physShape, pairs] at h2
  | m :: ms, t :: ts, o :: O, d :: D, k :: A, l, h1, g1, g2, h2, hc, hM, hT, hD, hR => by
    rw [triples_cons] at h1
    rw [show pairs (d :: D) (k :: A) = [d, k] :: pairs D A from rfl] at h2
    simp only [physShape, List.map_cons, List.cons.injEq] at h1 h2
    obtain ⟨hl, hlb, hc⟩ := hc
    obtain ⟨o', d', hm⟩ := hM m (by simp)
    have e1 : m.ph = [o', d', d'] := by simp [NDArray.ph, hm.shape]
    rw [h1.1] at e1
    simp only [List.cons.injEq, and_true] at e1
    obtain ⟨rfl, rfl, _⟩ := e1
    have hts : t.shape = [l, d, k, t.rb] := by
      rw [NDArray.shape_local hl, h2.1, hlb]
      rfl
    obtain ⟨hop, hr⟩ := hT t (by simp)
    obtain ⟨s, k1, k2, _, k3, k4⟩ := exists_kraus hm hts
    obtain ⟨ss, ⟨f1, f2, f3, f4, f5⟩, f6, f7⟩ := kgood_of h1.2 (by simpa using g1) (by simpa using g2) h2.2 hc
      (fun x hx => hM x (by simp [hx])) (fun x hx => hT x (by simp [hx])) (fun x hx => hD x (by simp [hx])) hr
    refine ⟨s :: ss, ⟨.cons k1 f1, ?_, ?_, hR, k3, by rw [k4]; exact f5⟩, by simp [f6], ?_⟩
    · intro x hx
      rcases List.mem_cons.1 hx with rfl | hx
      · exact k2 c hop
      · exact f2 x hx
    · intro x hx
      rcases List.mem_cons.1 hx with rfl | hx
      · rw [k4]; exact hr
      · exact f3 x hx
    · intro q hq
      rw [List.zip_cons_cons] at hq
      rcases List.mem_cons.1 hq with rfl | hq
      · refine mul_le_mul (hm.norm_le.trans (Real.sqrt_le_sqrt (by exact_mod_cast hD d (by simp)))) ((lop_norm hl hop).trans ?_)
          (sq_nonneg _) (Real.sqrt_nonneg _)
        exact mul_le_mul_of_nonneg_right (by exact_mod_cast hr) (sq_nonneg _)
      · exact f7 q hq

/-- Specification: the bound of the rounding error for `n` sites of dimension at most `d`, bonds of size at most `R` and local tensors
whose operator norm is at most `c` (`c = 1` for a left-canonical state). -/
noncomputable def pmfCanonErr (ε : ℝ) (n d R : ℕ) (c : ℝ) : ℝ :=
  Real.sqrt R * (c ^ n) ^ 2 * ((1 + Real.sqrt R * (c ^ n) ^ 2 * (((1 + ε) ^ 3 - 1) * (Real.sqrt d * (R * c ^ 2)))) ^ n - 1)

/-- C84: the probabilities of local measurements on a state with left-canonical local tensors. -/
theorem C84_canonical {ε : ℝ} (hε : 0 ≤ ε) {td : TDot ℂ} (htd : TdNear ε td) (slow : MPA ℂ → Py (NDArray ℂ × MPA ℂ))
    (x ψ : MPA ℂ) (O D A : List ℕ) (hx : IsMpPovm x O D) (hO : ∀ o ∈ O, 0 < o) (hM : ∀ m ∈ x.lt, ∃ o d, IsLocalMeasurement m o d)
    (hψ : IsPmps ψ D A) (c : ℝ) (hc : 1 ≤ c) (R d : ℕ) (hT : ∀ t ∈ ψ.lt, LOp c t ∧ t.rb ≤ R) (hD : ∀ e ∈ D, e ≤ d) (mode : PovmMode) :
    ∃ a, pmfRawF td slow x ψ mode .ltr = .ok (a, ψ) ∧ a.shape = nsDims O ∧ bornDist x O D (dm ψ A) a ≤ pmfCanonErr ε x.len d R c := by
  obtain ⟨p, h1, h2, h3⟩ := pmfLtr_ok hx hψ hO
  have hlen : x.len = ψ.len := hx.lenx.trans hψ.lenD.symm
  have hz : (x.lt.zip ψ.lt).length = x.len := by
    rw [List.length_zip]
    exact (congrArg (min x.len) hlen.symm).trans (min_self _)
  have hR : 1 ≤ R := by
    have hne := hψ.valid.ne
    have hl := hψ.valid.chain
    obtain ⟨ts, t, e⟩ : ∃ ts t, ψ.lt = ts ++ [t] := ⟨_, _, (List.dropLast_append_getLast hne).symm⟩
    rw [e] at hl
    obtain ⟨k, _, k2⟩ := chained_append.1 hl
    have : t.rb = 1 := k2.2.2
    rw [← this]
    exact (hT t (by simp [e])).2
  obtain ⟨ss, hg, hs, hν⟩ := kgood_of (c := c) (R := R) (dm := d) (ms := x.lt) (ts := ψ.lt) hx.shape hx.len hψ.len hψ.shape hψ.valid.chain
    hM hT hD hR
  have hsl : ss.length ≤ x.len := le_of_eq hs
  have hone : (⟨[1, 1, 1, 1], fun _ => 1⟩ : NDArray ℂ).shape = [1, 1, 1, 1] := rfl
  obtain ⟨e, i, g1, g2, g3, g4⟩ := kraus_gron (N := x.len) (B := Real.sqrt R * (c ^ x.len) ^ 2) (A := 0) hε htd hc hg hsl hν hone hone (by
    intro mid tail ht e i he hi
    rw [he] at hi
    cases hi
    rw [ht] at hg
    obtain ⟨f, f', k1, _, _, _, k5⟩ := hg.amp hc hsl hone hone
    rw [he] at k1
    cases k1
    rw [npNorm_one, mul_one] at k5
    exact ⟨k5, le_of_eq (arrDist_self _)⟩)
  unfold pmfLtr at h1
  obtain ⟨q, w1, w2⟩ := bind_ok_inv h1
  obtain ⟨u, w3, w4⟩ := bind_ok_inv w2
  have hq : q = e := by
    unfold pmfLtrPartial at w1
    rw [g1] at w1
    exact (Except.ok.inj w1).symm
  subst hq
  obtain ⟨a, v1, v2, v3⟩ := reshape_dist' g3 w4
  refine ⟨a, ?_, v2.trans h2, bornDist_le hO ⟨h2, h3⟩ ?_⟩
  · have hF : pmfLtrF td x ψ = .ok a := by
      unfold pmfLtrF pmfLtrPartialF
      rw [g2, ok_bind]
      simp only
      rw [g3, w3, ok_bind, v1]
    unfold pmfRawF
    rw [pyAssert_true hlen, ok_bind]
    simp [hF, ok_bind]
  · rw [v3]
    refine g4.trans (le_of_eq ?_)
    unfold pmfCanonErr
    rw [hz, zero_add]
    ring

/-- Local measurements on all sites are a measurement. -/
theorem local_measurements : ∀ {ms : List (NDArray ℂ)} {O D : List ℕ}, physShape ms = triples O D D → O.length = D.length →
    (∀ m ∈ ms, ∃ o d, IsLocalMeasurement m o d) → IsMeasurement O D fun Y I J => entry ms (triples Y I J)
  | [], [], [], _, _, _ => by
    refine IsMeasurement.congr ?_ isMeasurement_nil
    intro Y I J hY hI hJ
    rw [inB_nil_right.1 hY, inB_nil_right.1 hI, inB_nil_right.1 hJ]
    simp [entry, mp]
  | [], o :: O, d :: D, h, _, _ => by simp [physShape] at h
  | m :: ms, [], [], h, _, _ => by simp [physShape, triples, pairs] at h
  | m :: ms, o :: O, d :: D, h, hl, hM => by
    rw [triples_cons] at h
    simp only [physShape, List.map_cons, List.cons.injEq] at h
    obtain ⟨o', d', hm⟩ := hM m (by simp)
    have e1 : m.ph = [o', d', d'] := by simp [NDArray.ph, hm.shape]
    rw [h.1] at e1
    simp only [List.cons.injEq, and_true] at e1
    obtain ⟨rfl, rfl, _⟩ := e1
    have ih := local_measurements h.2 (by simpa using hl) fun x hx => hM x (by simp [hx])
    refine IsMeasurement.congr ?_ (hm.meas.tensor ih)
    intro Y I J hY hI hJ
    obtain ⟨y, Y, rfl, a1, a2⟩ := inB_cons_split hY
    obtain ⟨i, I, rfl, b1, b2⟩ := inB_cons_split hI
    obtain ⟨j, J, rfl, c1, c2⟩ := inB_cons_split hJ
    have hrb : m.rb = 1 := by simp [NDArray.rb, hm.shape]
    rw [triples_cons]
    unfold entry tensorOp
    simp [mp, hrb, NDArray.at3]

theorem lop_of_lcanon {𝕜 : Type} [RCLike 𝕜] {t : NDArray 𝕜} (h : LCanon t) : LOp 1 t := by
  have := (lnear_of_lcanon (ε := 0) (le_refl _) zero_le_one h).1
  rwa [add_zero] at this

/-- C84: left-canonical states; the operator norms of the local tensors are one. -/
theorem C84_left_canonical {ε : ℝ} (hε : 0 ≤ ε) {td : TDot ℂ} (htd : TdNear ε td) (slow : MPA ℂ → Py (NDArray ℂ × MPA ℂ))
    (x ψ : MPA ℂ) (O D A : List ℕ) (hx : IsMpPovm x O D) (hO : ∀ o ∈ O, 0 < o) (hM : ∀ m ∈ x.lt, ∃ o d, IsLocalMeasurement m o d)
    (hψ : IsPmps ψ D A) (hl : ∀ t ∈ ψ.lt, LCanon t) (R d : ℕ) (hR : ∀ t ∈ ψ.lt, t.rb ≤ R) (hD : ∀ e ∈ D, e ≤ d) (mode : PovmMode)
    (hn : x.len * (Real.sqrt R ^ 3 * Real.sqrt d * ((1 + ε) ^ 3 - 1)) ≤ 1) :
    ∃ a, pmfRawF td slow x ψ mode .ltr = .ok (a, ψ) ∧ a.shape = nsDims O ∧
      bornDist x O D (dm ψ A) a ≤ 2 * x.len * (R ^ 2 * Real.sqrt d * ((1 + ε) ^ 3 - 1)) := by
  obtain ⟨a, h1, h2, h3⟩ := C84_canonical hε htd slow x ψ O D A hx hO hM hψ 1 (le_refl _) R d
    (fun t ht => ⟨lop_of_lcanon (hl t ht), hR t ht⟩) hD mode
  refine ⟨a, h1, h2, h3.trans ?_⟩
  unfold pmfCanonErr
  have hsq : Real.sqrt R ^ 2 = R := Real.sq_sqrt (Nat.cast_nonneg _)
  set r := Real.sqrt R with hr
  have h0 : 0 ≤ (1 + ε) ^ 3 - 1 := by linarith [one_le_pow₀ (n := 3) (by linarith : 1 ≤ 1 + ε)]
  have e : r * ((1 : ℝ) ^ x.len) ^ 2 * (((1 + ε) ^ 3 - 1) * (Real.sqrt d * (R * 1 ^ 2))) = r ^ 3 * Real.sqrt d * ((1 + ε) ^ 3 - 1) := by
    rw [← hsq, one_pow, one_pow]
    ring
  rw [e]
  set y := r ^ 3 * Real.sqrt d * ((1 + ε) ^ 3 - 1) with hy
  have hr0 : 0 ≤ r := Real.sqrt_nonneg _
  have hy0 : 0 ≤ y := by positivity
  have h4 : (1 + y) ^ x.len - 1 ≤ 2 * (x.len * y) := by
    have e1 : (1 + y) ^ x.len ≤ Real.exp (x.len * y) := by
      rw [Real.exp_nat_mul]
      exact pow_le_pow_left₀ (by linarith) (by linarith [Real.add_one_le_exp y]) _
    have e2 := Real.abs_exp_sub_one_le (x := x.len * y) (by rw [abs_of_nonneg (by positivity)]; exact hn)
    rw [abs_of_nonneg (a := (x.len : ℝ) * y) (by positivity)] at e2
    linarith [le_abs_self (Real.exp (x.len * y) - 1)]
  rw [one_pow, one_pow, mul_one]
  calc r * ((1 + y) ^ x.len - 1) ≤ r * (2 * (x.len * y)) := mul_le_mul_of_nonneg_left h4 hr0
    _ = _ := by rw [hy, ← hsq]; ring

/-- C84: `pmf_as_array` with `impl='pmps-ltr'` for local measurements on a left-canonical state of norm one. -/
theorem C84_left_canonical_pmf {ε : ℝ} (hε : 0 ≤ ε) {td : TDot ℂ} (htd : TdNear ε td) (slow : MPA ℂ → Py (NDArray ℂ × MPA ℂ))
    (x ψ : MPA ℂ) (O D A : List ℕ) (hx : IsMpPovm x O D) (hO : ∀ o ∈ O, 0 < o) (hM : ∀ m ∈ x.lt, ∃ o d, IsLocalMeasurement m o d)
    (hψ : IsPmps ψ D A) (hl : ∀ t ∈ ψ.lt, LCanon t) (R d : ℕ) (hR : ∀ t ∈ ψ.lt, t.rb ≤ R) (hD : ∀ e ∈ D, e ≤ d) (mode : PovmMode)
    (hn : x.len * (Real.sqrt R ^ 3 * Real.sqrt d * ((1 + ε) ^ 3 - 1)) ≤ 1) (eps : ℝ) (hs : IsState D (dm ψ A))
    (he : Real.sqrt O.prod * (2 * x.len * (R ^ 2 * Real.sqrt d * ((1 + ε) ^ 3 - 1))) ≤ eps) (he1 : eps < 1) :
    ∃ p : NDArray ℝ, pmfAsArrayF td slow x ψ mode eps .ltr = .ok (p, ψ) ∧ p.shape = nsDims O ∧
      (∀ Y, InB Y O → 0 ≤ p.get (squeezeIdx O Y)) ∧ sumIdx p.shape p.get = 1 ∧
      (sumIdx O fun Y => |p.get (squeezeIdx O Y) - (bornRule D (x.elem Y) (dm ψ A)).re|)
        ≤ 2 * (Real.sqrt O.prod * (2 * x.len * (R ^ 2 * Real.sqrt d * ((1 + ε) ^ 3 - 1)))) := by
  obtain ⟨a, h1, h2, h3⟩ := C84_left_canonical hε htd slow x ψ O D A hx hO hM hψ hl R d hR hD mode hn
  have hmeas : IsMeasurement O D x.elem := local_measurements hx.shape hx.len hM
  exact (pmfAsArrayF_of hO h1 h2 h3 hmeas hs.psd).1 hs he he1

/-! ### Non-vacuity: the GHZ state of any number of sites, measured in the computational basis -/

/-- The local tensors of the GHZ state of `n + 2` sites. -/
noncomputable def exGhzLt (n : ℕ) : List (NDArray ℂ) :=
  ⟨[1, 2, 1, 2], fun i => match i with | [_, p, _, b] => if p = b then 1 else 0 | _ => 0⟩ ::
    (List.replicate n ⟨[2, 2, 1, 2], fun i => match i with | [a, p, _, b] => if a = p ∧ p = b then 1 else 0 | _ => 0⟩ ++
      [⟨[2, 2, 1, 1], fun i => match i with | [a, p, _, _] => if a = p then ((Real.sqrt 2 / 2 : ℝ) : ℂ) else 0 | _ => 0⟩])

/-- The measurement of all sites in the computational basis. -/
noncomputable def exZLt (n : ℕ) : List (NDArray ℂ) :=
  List.replicate (n + 2) ⟨[1, 2, 2, 2, 1], fun i => match i with | [_, y, p, q, _] => if p = y ∧ q = y then 1 else 0 | _ => 0⟩

theorem exGhz_canon (n : ℕ) : ∀ t ∈ exGhzLt n, LCanon t ∧ t.rb ≤ 2 := by
  intro t ht
  have hs : Real.sqrt 2 / 2 * (Real.sqrt 2 / 2) + Real.sqrt 2 / 2 * (Real.sqrt 2 / 2) = 1 := by
    have := Real.mul_self_sqrt (show (0 : ℝ) ≤ 2 by norm_num)
    linarith
  have hs' : ((Real.sqrt 2 / 2 : ℝ) : ℂ) * ((Real.sqrt 2 / 2 : ℝ) : ℂ) + ((Real.sqrt 2 / 2 : ℝ) : ℂ) * ((Real.sqrt 2 / 2 : ℝ) : ℂ) = 1 := by
    exact_mod_cast hs
  simp only [exGhzLt, List.mem_cons, List.mem_append, List.mem_replicate, List.mem_nil_iff, or_false] at ht
  rcases ht with rfl | ⟨_, rfl⟩ | rfl
  · refine ⟨?_, by simp [NDArray.rb]⟩
    intro b hb b' hb'
    simp only [NDArray.rb, List.getLastD_cons, List.getLastD_nil] at hb hb'
    simp only [NDArray.lb, NDArray.ph, NDArray.at3]
    interval_cases b <;> interval_cases b' <;> simp [sumIdx, Finset.sum_range_succ]
  · refine ⟨?_, by simp [NDArray.rb]⟩
    intro b hb b' hb'
    simp only [NDArray.rb, List.getLastD_cons, List.getLastD_nil] at hb hb'
    simp only [NDArray.lb, NDArray.ph, NDArray.at3]
    interval_cases b <;> interval_cases b' <;> simp [sumIdx, Finset.sum_range_succ]
  · refine ⟨?_, by simp [NDArray.rb]⟩
    intro b hb b' hb'
    simp only [NDArray.rb, List.getLastD_cons, List.getLastD_nil] at hb hb'
    simp only [NDArray.lb, NDArray.ph, NDArray.at3]
    interval_cases b
    interval_cases b'
    simp [sumIdx, Finset.sum_range_succ]
    rw [show (starRingEnd ℂ) 2 = 2 from map_ofNat _ 2]
    simpa using hs'

theorem exGhz_pmps (n : ℕ) : IsPmps ⟨exGhzLt n, 0, n + 2⟩ (List.replicate (n + 2) 2) (List.replicate (n + 2) 1) := by
  have hc : ∀ n, Chained 2 (List.replicate n (⟨[2, 2, 1, 2], fun i => match i with | [a, p, _, b] => if a = p ∧ p = b then 1 else 0 | _ => 0⟩ :
      NDArray ℂ)) 2 := by
    intro n
    induction n with
    | zero => rfl
    | succ n ih => exact ⟨by simp [NDArray.IsLocal, NDArray.ndim], by simp [NDArray.lb], by simpa [NDArray.rb] using ih⟩
  refine ⟨⟨by simp [exGhzLt], ?_, by simp, by simp only; omega, by simp [exGhzLt, MPA.len]; omega⟩, by simp, ?_⟩
  · refine ⟨by simp [NDArray.IsLocal, NDArray.ndim], by simp [NDArray.lb], ?_⟩
    refine chained_append.2 ⟨2, by simpa [NDArray.rb] using hc n, ?_⟩
    exact ⟨by simp [NDArray.IsLocal, NDArray.ndim], by simp [NDArray.lb], by simp [NDArray.rb, Chained]⟩
  · have e : pairs (List.replicate (n + 2) 2) (List.replicate (n + 2) 1) = List.replicate (n + 2) [2, 1] := by
      unfold pairs
      simp
    rw [e, show n + 2 = 1 + (n + 1) by omega, List.replicate_add, List.replicate_add]
    simp [MPA.shape, physShape, exGhzLt, NDArray.ph]

theorem exZ_povm (n : ℕ) : IsMpPovm ⟨exZLt n, 0, n + 2⟩ (List.replicate (n + 2) 2) (List.replicate (n + 2) 2) := by
  have hc : ∀ n, Chained 1 (List.replicate n (⟨[1, 2, 2, 2, 1], fun i => match i with | [_, y, p, q, _] => if p = y ∧ q = y then 1 else 0 | _ => 0⟩ :
      NDArray ℂ)) 1 := by
    intro n
    induction n with
    | zero => rfl
    | succ n ih => exact ⟨by simp [NDArray.IsLocal, NDArray.ndim], by simp [NDArray.lb], by simpa [NDArray.rb] using ih⟩
  refine ⟨⟨by simp [exZLt], hc _, by simp, by simp only; omega, by simp [exZLt, MPA.len]⟩, rfl, ?_, ?_⟩
  · simp [MPA.shape, physShape, exZLt, NDArray.ph, triples, pairs]
  · intro o ho
    rw [(List.mem_replicate.1 ho).2]
    norm_num

theorem exZ_local (n : ℕ) : ∀ m ∈ exZLt n, ∃ o d, IsLocalMeasurement m o d := by
  intro m hm
  obtain ⟨_, rfl⟩ := List.mem_replicate.1 hm
  refine ⟨2, 2, rfl, IsMeasurement.congr ?_ exPovm1_arg.measurement⟩
  intro Y I J hY hI hJ
  obtain ⟨y, rfl, _⟩ := exInB_one hY
  obtain ⟨i, rfl, _⟩ := exInB_one hI
  obtain ⟨j, rfl, _⟩ := exInB_one hJ
  rw [exPovm1_elem]
  rfl

/-- The error of the probabilities of the GHZ state of up to 1000 sites, for a relative error of `10⁻¹⁵` of every product. -/
example (n : ℕ) (hn : n + 2 ≤ 1000) :
    ∃ a, pmfRawF (tdScaled (1 / 10 ^ 15)) (fun _ => .error .value) ⟨exZLt n, 0, n + 2⟩ ⟨exGhzLt n, 0, n + 2⟩ (.mode .pmps) .ltr
      = .ok (a, ⟨exGhzLt n, 0, n + 2⟩) ∧
    bornDist ⟨exZLt n, 0, n + 2⟩ (List.replicate (n + 2) 2) (List.replicate (n + 2) 2)
      (dm ⟨exGhzLt n, 0, n + 2⟩ (List.replicate (n + 2) 1)) a ≤ 1 / 10 ^ 10 := by
  have hlen : (⟨exZLt n, 0, n + 2⟩ : MPA ℂ).len = n + 2 := by simp [MPA.len, exZLt]
  have hn' : (((n + 2 : ℕ)) : ℝ) ≤ 1000 := by exact_mod_cast hn
  have h2 : Real.sqrt ((2 : ℕ) : ℝ) ≤ 3 / 2 := Real.sqrt_le_iff.2 ⟨by norm_num, by norm_num⟩
  have h3 : (0 : ℝ) ≤ Real.sqrt ((2 : ℕ) : ℝ) := Real.sqrt_nonneg _
  have h4 : Real.sqrt ((2 : ℕ) : ℝ) ^ 3 * Real.sqrt ((2 : ℕ) : ℝ) = 4 := by
    have := Real.sq_sqrt (show (0 : ℝ) ≤ ((2 : ℕ) : ℝ) by norm_num)
    calc _ = (Real.sqrt ((2 : ℕ) : ℝ) ^ 2) ^ 2 := by ring
      _ = _ := by rw [this]; norm_num
  have h5 : ((1 : ℝ) + 1 / 10 ^ 15) ^ 3 - 1 ≤ 4 / 10 ^ 15 := by norm_num
  have h6 : (0 : ℝ) ≤ (1 + 1 / 10 ^ 15) ^ 3 - 1 := by norm_num
  obtain ⟨a, h, _, h1⟩ := C84_left_canonical (ε := 1 / 10 ^ 15) (by positivity) (tdScaled_near (𝕜 := ℂ) (by positivity))
    (fun _ => .error .value) ⟨exZLt n, 0, n + 2⟩ ⟨exGhzLt n, 0, n + 2⟩ _ _ _ (exZ_povm n)
    (fun o ho => by rw [(List.mem_replicate.1 ho).2]; norm_num) (exZ_local n) (exGhz_pmps n) (fun t ht => (exGhz_canon n t ht).1) 2 2
    (fun t ht => (exGhz_canon n t ht).2) (fun e he => by rw [(List.mem_replicate.1 he).2]) (.mode .pmps) (by
      rw [hlen, h4]
      calc _ ≤ (1000 : ℝ) * (4 * (4 / 10 ^ 15)) := by gcongr
        _ ≤ 1 := by norm_num)
  refine ⟨a, h, h1.trans ?_⟩
  rw [hlen]
  calc _ ≤ 2 * (1000 : ℝ) * (((2 : ℕ) : ℝ) ^ 2 * (3 / 2) * (4 / 10 ^ 15)) := by gcongr
    _ ≤ _ := by norm_num

end Mpnum
