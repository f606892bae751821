import Verif.MPArray.RoundingPolar

/-! The chain computed by an inexact sweep and the chain of exact isometries close to it; errors of one step. -/

open Finset

namespace Mpnum

variable {𝕜 : Type} [RCLike 𝕜] {ι κ : Type}

theorem rowSet_congr {t T : NDArray 𝕜} (h1 : t.lb = T.lb) (h2 : t.ph = T.ph) : t.rowSet = T.rowSet := by
  unfold NDArray.rowSet; rw [h1, h2]

/-- The sites of the second list are isometries close to the sites of the first; the last sites agree. -/
inductive LShadow (ε : ℝ) : List (NDArray 𝕜) → List (NDArray 𝕜) → Prop
  | nil (A : NDArray 𝕜) : LShadow ε [A] [A]
  | cons {t T : NDArray 𝕜} {ys Ys : List (NDArray 𝕜)} (hd : LDiff ε t T) (ho : OrthC T.rowSet T.rb T.fl) (h : LShadow ε ys Ys) :
      LShadow ε (t :: ys) (T :: Ys)

theorem LShadow.phys {ε : ℝ} {ys Ys : List (NDArray 𝕜)} (h : LShadow ε ys Ys) : physShape ys = physShape Ys := by
  induction h with
  | nil A => rfl
  | cons hd _ _ ih =>
    simp only [physShape, List.map_cons] at ih ⊢
    rw [ih, hd.2.1]

theorem LShadow.len {ε : ℝ} {ys Ys : List (NDArray 𝕜)} (h : LShadow ε ys Ys) : ys.length = Ys.length := by
  have := congrArg List.length h.phys
  simpa [physShape] using this

/-- Distance of the two chains. -/
theorem lshadow_dist {ε : ℝ} (hε : 0 ≤ ε) {ys Ys : List (NDArray 𝕜)} (h : LShadow ε ys Ys) {l : ℕ} (hc : Chained l Ys 1) :
    l2 (range l) (siteSet (physShape Ys)) (fun a j => cv ys a j - cv Ys a j)
      ≤ ((1 + ε) ^ (Ys.length - 1) - 1) * l2 (range l) (siteSet (physShape Ys)) (cv Ys) := by
  induction h generalizing l with
  | nil A =>
    simp only [List.length_singleton, Nat.sub_self, pow_zero, sub_self, zero_mul]
    exact l2_le le_rfl (by simp)
  | @cons t T ys Ys hd ho h ih =>
    obtain ⟨_, rfl, hc⟩ := hc
    have ih := ih hc
    obtain ⟨d1, d2, d3, d4⟩ := hd
    rw [show physShape (T :: Ys) = T.ph :: physShape Ys from rfl, l2_regroup, l2_regroup]
    set S := siteSet (physShape Ys)
    change l2 T.rowSet S (fun i j => mprod t.rb t.fl (cv ys) i j - mprod T.rb T.fl (cv Ys) i j)
      ≤ _ * l2 T.rowSet S (mprod T.rb T.fl (cv Ys))
    rw [l2_mprod ho, d3]
    have hlen : (T :: Ys).length - 1 = (Ys.length - 1) + 1 := by
      cases h <;> simp
    rw [hlen, pow_succ]
    rw [d3, rowSet_congr d1 d2] at d4
    have e1 : l2 T.rowSet S (mprod T.rb T.fl fun a j => cv ys a j - cv Ys a j) = l2 (range T.rb) S (fun a j => cv ys a j - cv Ys a j) :=
      l2_mprod ho _ _
    have e2 := l2_op (T := fun i b => t.fl i b - T.fl i b) hε d4 S (cv ys)
    have e3 := l2_le_add (range T.rb) S (cv ys) (cv Ys)
    have e4 : l2 T.rowSet S (fun i j => mprod T.rb t.fl (cv ys) i j - mprod T.rb T.fl (cv Ys) i j)
        ≤ l2 T.rowSet S (mprod T.rb T.fl fun a j => cv ys a j - cv Ys a j)
          + l2 T.rowSet S (mprod T.rb (fun i b => t.fl i b - T.fl i b) (cv ys)) := by
      refine le_trans (le_of_eq (l2_congr fun i _ j _ => ?_)) (l2_add _ _ _ _)
      rw [mprod_sub, mprod_sub_left]; ring
    have e5 := mul_le_mul_of_nonneg_left e3 hε
    nlinarith

theorem cv_forall_phys {ε : ℝ} {Rs Bs : List (NDArray 𝕜)} (h : List.Forall₂ (RDiff ε) Rs Bs) : physShape Rs = physShape Bs := by
  induction h with
  | nil => rfl
  | cons hd _ ih =>
    simp only [physShape, List.map_cons] at ih ⊢
    rw [ih, hd.2.1]

/-- Distance of a chain and the chain of exact isometries, multiplied from the left. -/
theorem rshadow_op {ε : ℝ} (hε : 0 ≤ ε) {Rs Bs : List (NDArray 𝕜)} (h : List.Forall₂ (RDiff ε) Rs Bs) (hB : ∀ B ∈ Bs, RCanon B)
    {l : ℕ} (hc : Chained l Bs 1) (I : Finset ι) (G : ι → ℕ → 𝕜) :
    l2 I (siteSet (physShape Bs)) (fun i j => mprod l G (cv Rs) i j - mprod l G (cv Bs) i j)
      ≤ ((1 + ε) ^ Bs.length - 1) * l2 I (range l) G := by
  induction h generalizing l ι with
  | nil =>
    simp only [sub_self, List.length_nil, pow_zero, zero_mul]
    exact l2_le le_rfl (by simp)
  | @cons R B Rs Bs hd h ih =>
    obtain ⟨hBl, rfl, hc⟩ := hc
    obtain ⟨d1, d2, d3, d4⟩ := hd
    have hBs : ∀ B ∈ Bs, RCanon B := fun b hb => hB b (by simp [hb])
    set S := siteSet (physShape Bs)
    have hS : ∀ f : ι → List (List ℕ) → 𝕜, l2 I (siteSet (physShape (B :: Bs))) f
        = l2 (I ×ˢ idxSet B.ph) S fun ip j => f ip.1 (ip.2 :: j) := by
      intro f
      unfold l2
      congr 1
      rw [Finset.sum_product]
      refine Finset.sum_congr rfl fun a _ => ?_
      rw [show physShape (B :: Bs) = B.ph :: physShape Bs from rfl, sum_siteSet_cons]
    have hJ : ∀ f : ι → List ℕ × ℕ → 𝕜, l2 I (idxSet B.ph ×ˢ range B.rb) f
        = l2 (I ×ˢ idxSet B.ph) (range B.rb) fun ip b => f ip.1 (ip.2, b) := by
      intro f
      unfold l2
      congr 1
      rw [Finset.sum_product]
      refine Finset.sum_congr rfl fun a _ => ?_
      rw [Finset.sum_product]
    have hBo : OrthR (idxSet B.ph ×ˢ range B.rb) B.lb (fun a j => B.at3 a j.1 j.2) := by
      intro a ha a' ha'
      rw [← hB B (by simp) a ha a' ha', Finset.sum_product_right]
      simp only [sumIdx_eq_sum]
    rw [d1, d2, d3] at d4
    set GR : ι × List ℕ → ℕ → 𝕜 := fun ip b => ∑ a ∈ range B.lb, G ip.1 a * R.at3 a ip.2 b with hGR
    set GB : ι × List ℕ → ℕ → 𝕜 := fun ip b => ∑ a ∈ range B.lb, G ip.1 a * B.at3 a ip.2 b with hGB
    have n1 : l2 (I ×ˢ idxSet B.ph) (range B.rb) GB = l2 I (range B.lb) G := by
      rw [← l2_mprod_right hBo I G, hJ]; rfl
    have n2 : l2 (I ×ˢ idxSet B.ph) (range B.rb) (fun ip b => GR ip b - GB ip b) ≤ ε * l2 I (range B.lb) G := by
      have := l2_op_right (S := fun a (j : List ℕ × ℕ) => R.at3 a j.1 j.2 - B.at3 a j.1 j.2) hε d4 I G
      rw [hJ] at this
      refine le_trans (le_of_eq (l2_congr fun ip _ b _ => ?_)) this
      simp only [hGR, hGB, mprod, mul_sub, Finset.sum_sub_distrib]
    have n3 := l2_le_add (I ×ˢ idxSet B.ph) (range B.rb) GR GB
    have i1 := ih hBs hc (I ×ˢ idxSet B.ph) GR
    have i2 := l2_mprod_right (cv_orth hc hBs) (I ×ˢ idxSet B.ph) (fun ip b => GR ip b - GB ip b)
    have hmp : ∀ (Q : NDArray 𝕜) (Qs : List (NDArray 𝕜)) (ip : ι × List ℕ) (j : List (List ℕ)),
        mprod B.lb G (cv (Q :: Qs)) ip.1 (ip.2 :: j)
          = mprod Q.rb (fun ip b => ∑ a ∈ range B.lb, G ip.1 a * Q.at3 a ip.2 b) (cv Qs) ip j := by
      intro Q Qs ip j
      unfold mprod cv
      simp only [mp_cons, Finset.mul_sum, Finset.sum_mul]
      rw [Finset.sum_comm]
      exact Finset.sum_congr rfl fun b _ => Finset.sum_congr rfl fun a _ => by ring
    rw [hS]
    have e0 : l2 (I ×ˢ idxSet B.ph) S (fun ip j => mprod B.lb G (cv (R :: Rs)) ip.1 (ip.2 :: j) - mprod B.lb G (cv (B :: Bs)) ip.1 (ip.2 :: j))
        ≤ l2 (I ×ˢ idxSet B.ph) S (fun ip j => mprod B.rb GR (cv Rs) ip j - mprod B.rb GR (cv Bs) ip j)
          + l2 (I ×ˢ idxSet B.ph) S (mprod B.rb (fun ip b => GR ip b - GB ip b) (cv Bs)) := by
      refine le_trans (le_of_eq (l2_congr fun ip _ j _ => ?_)) (l2_add _ _ _ _)
      rw [hmp, hmp, mprod_sub_left, d3]
      simp only [hGR, hGB]
      ring
    rw [i2] at e0
    have hp : 0 ≤ (1 + ε) ^ Bs.length - 1 := by
      have : (1 : ℝ) ≤ (1 + ε) ^ Bs.length := one_le_pow₀ (by linarith)
      linarith
    have hGn : l2 (I ×ˢ idxSet B.ph) (range B.rb) GR ≤ (1 + ε) * l2 I (range B.lb) G := by rw [n1] at n3; linarith
    have := mul_le_mul_of_nonneg_left hGn hp
    rw [List.length_cons, pow_succ]
    nlinarith

/-! ### one step -/

/-- `U`, `s`, `V` are a singular value decomposition of a matrix close to `A`. -/
structure NearSvd (ε : ℝ) (I : Finset ι) (n K : ℕ) (A U : ι → ℕ → 𝕜) (s : ℕ → ℝ) (V : ℕ → ℕ → 𝕜) : Prop where
  ucols : OrthC I K U
  vrows : OrthR (range n) K V
  sorted : ∀ i j, i ≤ j → j < K → s j ≤ s i
  nonneg : ∀ i < K, 0 ≤ s i
  close : l2 I (range n) (fun i j => A i j - mprod K U (fun c j => ((s c : ℝ) : 𝕜) * V c j) i j) ≤ ε * l2 I (range n) A

/-- The subspace spanned by the first columns of `U` is nearly best. -/
theorem NearSvd.best {ε : ℝ} {I : Finset ι} {n K : ℕ} {A U : ι → ℕ → 𝕜} {s : ℕ → ℝ} {V : ℕ → ℕ → 𝕜} (h : NearSvd ε I n K A U s V)
    {k r : ℕ} (hk : k ≤ K) (hr : r ≤ k ∨ k = K) (X : ι → ℕ → 𝕜) (Y : ℕ → ℕ → 𝕜) :
    l2 I (range n) (fun i b => A i b - mprod k U (madj I U A) i b)
      ≤ 2 * ε * l2 I (range n) A + l2 I (range n) fun i b => A i b - mprod r X Y i b := by
  set B : ι → ℕ → 𝕜 := mprod K U (fun c j => ((s c : ℝ) : 𝕜) * V c j) with hB
  have hUk : OrthC I k U := fun a ha b hb => h.ucols a (by omega) b (by omega)
  have e1 := l2_compl_tri hUk (range n) A B
  have e2 := eckart_young_l2 (B := B) h.ucols h.vrows h.sorted h.nonneg (fun i _ j _ => by
    simp only [hB, mprod]
    exact Finset.sum_congr rfl fun c _ => by ring) hk hr X Y
  have e3 := l2_tri I (range n) B A (mprod r X Y)
  rw [l2_rev I (range n) B A] at e3
  have := h.close
  linarith

/-- The new centre, computed with errors. -/
theorem NearSvd.next {ε : ℝ} (hε : 0 ≤ ε) {I : Finset ι} {n K : ℕ} {A U : ι → ℕ → 𝕜} {s : ℕ → ℝ} {V : ℕ → ℕ → 𝕜}
    (h : NearSvd ε I n K A U s V) {k : ℕ} (hk : k ≤ K) {v w : ℕ → ℕ → 𝕜}
    (hv : ∑ a ∈ range k, ∑ j ∈ range n, ‖v a j - V a j‖ ^ 2 ≤ ε ^ 2)
    (hw : ∀ a < k, ∀ j < n, ‖w a j - ((s a : ℝ) : 𝕜) * v a j‖ ≤ ε * ‖((s a : ℝ) : 𝕜) * v a j‖)
    {J : Finset κ} {R B : ℕ → κ → 𝕜} (hB : OrthR J n B)
    (hR : ∀ x : ℕ → 𝕜, ∑ j ∈ J, ‖∑ a ∈ range n, x a * (R a j - B a j)‖ ^ 2 ≤ ε ^ 2 * ∑ a ∈ range n, ‖x a‖ ^ 2)
    {D : ℝ} (hD : 1 ≤ D) (hRn : l2 (range n) J R ≤ (1 + ε) * D) {A' : ℕ → κ → 𝕜}
    (hA' : l2 (range k) J (fun a j => A' a j - mprod n w R a j) ≤ ε * (l2 (range k) (range n) w * l2 (range n) J R)) :
    l2 (range k) J (fun a j => A' a j - mprod n (madj I U A) B a j) ≤ 5 * (1 + ε) ^ 4 * D * ε * l2 I (range n) A := by
  set N := l2 I (range n) A with hN
  have hN0 : 0 ≤ N := l2_nonneg _ _ _
  have hUk : OrthC I k U := fun a ha b hb => h.ucols a (by omega) b (by omega)
  set sV : ℕ → ℕ → 𝕜 := fun c j => ((s c : ℝ) : 𝕜) * V c j with hsV
  set S := l2 (range k) (range n) sV with hS
  have hS0 : 0 ≤ S := l2_nonneg _ _ _
  have hclose := h.close
  -- the singular values
  have a1 : S ≤ (1 + ε) * N := by
    have b1 : S ≤ l2 (range K) (range n) sV := by
      refine l2_le (l2_nonneg _ _ _) ?_
      rw [l2_sq]
      exact Finset.sum_le_sum_of_subset_of_nonneg (Finset.range_mono hk) fun _ _ _ => Finset.sum_nonneg fun _ _ => sq_nonneg _
    have b2 := l2_mprod h.ucols (range n) sV
    have b3 := l2_le_add I (range n) (mprod K U sV) A
    rw [l2_rev] at b3
    linarith
  have hVn : ∀ c < K, ∑ j ∈ range n, ‖V c j‖ ^ 2 = 1 := by
    intro c hc
    have h2 := h.vrows c hc c hc
    rw [if_pos rfl] at h2
    have : (((∑ j ∈ range n, ‖V c j‖ ^ 2 : ℝ)) : 𝕜) = 1 := by
      rw [← h2]; push_cast
      refine Finset.sum_congr rfl fun j _ => ?_
      have := star_mul_self_eq (V c j)
      push_cast at this
      rw [← this, mul_comm]
    exact_mod_cast this
  have a2 : l2 (range k) (range n) (fun a j => ((s a : ℝ) : 𝕜) * v a j - sV a j) ≤ ε * S := by
    refine l2_scale hε fun a ha => ?_
    have hak : a < k := by simpa using ha
    have b1 : ∑ j ∈ range n, ‖v a j - V a j‖ ^ 2 ≤ ε ^ 2 :=
      le_trans (Finset.single_le_sum (f := fun a => ∑ j ∈ range n, ‖v a j - V a j‖ ^ 2)
        (fun _ _ => Finset.sum_nonneg fun _ _ => sq_nonneg _) ha) hv
    have b2 : ∑ j ∈ range n, ‖sV a j‖ ^ 2 = ‖((s a : ℝ) : 𝕜)‖ ^ 2 := by
      simp only [hsV, norm_mul, mul_pow]
      rw [← Finset.mul_sum, hVn a (by omega), mul_one]
    rw [b2]
    have b3 : ∑ j ∈ range n, ‖((s a : ℝ) : 𝕜) * v a j - sV a j‖ ^ 2 = ‖((s a : ℝ) : 𝕜)‖ ^ 2 * ∑ j ∈ range n, ‖v a j - V a j‖ ^ 2 := by
      simp only [hsV, ← mul_sub, norm_mul, mul_pow]
      rw [← Finset.mul_sum]
    rw [b3, mul_comm]
    exact mul_le_mul_of_nonneg_right b1 (sq_nonneg _)
  have a3 : l2 (range k) (range n) (fun a j => ((s a : ℝ) : 𝕜) * v a j) ≤ (1 + ε) * S := by
    have := l2_le_add (range k) (range n) (fun a j => ((s a : ℝ) : 𝕜) * v a j) sV
    linarith
  have a4 : l2 (range k) (range n) (fun a j => w a j - ((s a : ℝ) : 𝕜) * v a j) ≤ ε * ((1 + ε) * S) := by
    refine le_trans (l2_scale (J' := range n) (g := fun a j => ((s a : ℝ) : 𝕜) * v a j) hε fun a ha => ?_) (mul_le_mul_of_nonneg_left a3 hε)
    rw [Finset.mul_sum]
    refine Finset.sum_le_sum fun j hj => ?_
    rw [← mul_pow]
    exact pow_le_pow_left₀ (norm_nonneg _) (hw a (by simpa using ha) j (by simpa using hj)) 2
  have a5 : l2 (range k) (range n) w ≤ (1 + ε) ^ 2 * S := by
    have := l2_le_add (range k) (range n) w (fun a j => ((s a : ℝ) : 𝕜) * v a j)
    nlinarith
  have a6 : l2 (range k) (range n) (fun a j => sV a j - madj I U A a j) ≤ ε * N := by
    have b := l2_madj_le hUk (range n) (fun i j => A i j - mprod K U sV i j)
    rw [l2_rev]
    refine le_trans (le_of_eq (l2_congr fun a ha j _ => ?_)) (b.trans hclose)
    have : a < k := by simpa using ha
    rw [madj_sub, madj_mprod h.ucols sV (by omega)]
  -- the products
  have c1 := l2_op_right (S := fun a j => R a j - B a j) hε hR (range k) w
  have c2 : l2 (range k) J (mprod n (fun a z => w a z - madj I U A a z) B) = l2 (range k) (range n) (fun a z => w a z - madj I U A a z) :=
    l2_mprod_right hB _ _
  have c3 : l2 (range k) (range n) (fun a z => w a z - madj I U A a z) ≤ ε * ((1 + ε) * S) + ε * S + ε * N := by
    have d1 := l2_tri (range k) (range n) w (fun a j => ((s a : ℝ) : 𝕜) * v a j) (madj I U A)
    have d2 := l2_tri (range k) (range n) (fun a j => ((s a : ℝ) : 𝕜) * v a j) sV (madj I U A)
    linarith
  have c4 := l2_tri (range k) J A' (mprod n w R) (mprod n (madj I U A) B)
  have c5 : l2 (range k) J (fun a j => mprod n w R a j - mprod n (madj I U A) B a j)
      ≤ l2 (range k) J (mprod n w fun a j => R a j - B a j) + l2 (range k) J (mprod n (fun a z => w a z - madj I U A a z) B) := by
    refine le_trans (le_of_eq (l2_congr fun a _ j _ => ?_)) (l2_add _ _ _ _)
    rw [mprod_sub, mprod_sub_left]; ring
  have hw0 : 0 ≤ l2 (range k) (range n) w := l2_nonneg _ _ _
  have hR0 : 0 ≤ l2 (range n) J R := l2_nonneg _ _ _
  have e1 : l2 (range k) (range n) w * l2 (range n) J R ≤ ((1 + ε) ^ 2 * S) * ((1 + ε) * D) :=
    mul_le_mul a5 hRn hR0 (by positivity)
  have e2 := mul_le_mul_of_nonneg_left e1 hε
  have e3 := mul_le_mul_of_nonneg_left a5 hε
  have total : l2 (range k) J (fun a j => A' a j - mprod n (madj I U A) B a j)
      ≤ ε * (((1 + ε) ^ 2 * S) * ((1 + ε) * D)) + ε * ((1 + ε) ^ 2 * S) + (ε * ((1 + ε) * S) + ε * S + ε * N) := by
    linarith
  refine total.trans ?_
  -- arithmetic
  set q := 1 + ε with hq
  have hq1 : 1 ≤ q := by linarith
  have hq2 : q ≤ q ^ 2 := by nlinarith
  have hq4 : ∀ m ≤ 4, q ^ m ≤ q ^ 4 * D := fun m hm =>
    (pow_le_pow_right₀ hq1 hm).trans (le_mul_of_one_le_right (by positivity) hD)
  have s1 : q ^ 2 * S * (q * D) ≤ q ^ 4 * D * N := by
    have : q ^ 2 * S * (q * D) ≤ q ^ 2 * (q * N) * (q * D) := by gcongr
    refine this.trans (le_of_eq ?_); ring
  have s2 : q ^ 2 * S ≤ q ^ 4 * D * N := by
    refine (mul_le_mul_of_nonneg_left a1 (by positivity)).trans ?_
    rw [← mul_assoc, ← pow_succ]
    exact mul_le_mul_of_nonneg_right (hq4 3 (by norm_num)) hN0
  have s3 : q * S ≤ q ^ 4 * D * N := by
    refine (mul_le_mul_of_nonneg_left a1 (by positivity)).trans ?_
    rw [← mul_assoc, ← sq]
    exact mul_le_mul_of_nonneg_right (hq4 2 (by norm_num)) hN0
  have s4 : S ≤ q ^ 4 * D * N := by
    refine a1.trans (mul_le_mul_of_nonneg_right ?_ hN0)
    simpa using hq4 1 (by norm_num)
  have s5 : N ≤ q ^ 4 * D * N := le_mul_of_one_le_left hN0 (by simpa using hq4 0 (by norm_num))
  calc ε * (q ^ 2 * S * (q * D)) + ε * (q ^ 2 * S) + (ε * (q * S) + ε * S + ε * N)
      = ε * (q ^ 2 * S * (q * D) + q ^ 2 * S + q * S + S + N) := by ring
    _ ≤ ε * (5 * (q ^ 4 * D * N)) := mul_le_mul_of_nonneg_left (by linarith) hε
    _ = _ := by ring

end Mpnum
