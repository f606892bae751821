import Verif.MPArray.RoundingStep

/-!
Error analysis of the contraction of a chain of local tensors from left to right in inexact arithmetic.

The tensors of the chain carry weights (`FItem.s`).  All segments of the chain are assumed to have an operator norm of at most `κ`
times the product of the weights.  The errors of all steps then simply add up, whatever the norms of the single tensors are.
-/

open Finset

namespace Mpnum

variable {𝕜 : Type} [RCLike 𝕜]

/-- The 2-norm of the difference of two arrays of the same shape. -/
noncomputable def arrDist (a b : NDArray 𝕜) : ℝ := Real.sqrt (sumIdx a.shape fun i => ‖a.get i - b.get i‖ ^ 2)

theorem arrDist_nonneg (a b : NDArray 𝕜) : 0 ≤ arrDist a b := Real.sqrt_nonneg _

theorem arrDist_sq (a b : NDArray 𝕜) : arrDist a b ^ 2 = ∑ i ∈ idxSet a.shape, ‖a.get i - b.get i‖ ^ 2 := by
  unfold arrDist
  rw [sumIdx_eq_sum]
  exact Real.sq_sqrt (Finset.sum_nonneg fun _ _ => sq_nonneg _)

theorem arrDist_self (a : NDArray 𝕜) : arrDist a a = 0 := by
  unfold arrDist
  rw [sumIdx_eq_sum]
  simp

/-- A local tensor of the chain, with its weight and the perturbed tensor used instead. -/
structure FItem (𝕜 : Type) where
  s : ℝ
  t : NDArray 𝕜
  t' : NDArray 𝕜

/-- The product of the weights. -/
def fprod (ts : List (FItem 𝕜)) : ℝ := (ts.map FItem.s).prod

/-- The operator norm of a chain, from the left bond to the other legs, is at most `c`. -/
def SegOp (c : ℝ) (ts : List (NDArray 𝕜)) : Prop := ∀ l m, Chained l ts m → ∀ v : ℕ → 𝕜,
  ∑ i ∈ siteSet (physShape ts), ∑ b ∈ range m, ‖∑ a ∈ range l, v a * mp ts i a b‖ ^ 2 ≤ c ^ 2 * ∑ a ∈ range l, ‖v a‖ ^ 2

/-- The array `f` (legs `sa` and a bond of size `k`) followed by any beginning of the chain has at most the norm `c` times the
product of the weights. -/
def Bd (ts : List (FItem 𝕜)) (sa : List ℕ) (k : ℕ) (f : List ℕ → ℕ → 𝕜) (c : ℝ) : Prop :=
  ∀ pre post, ts = pre ++ post → ∀ m, Chained k (pre.map FItem.t) m →
    ∑ i ∈ idxSet sa, ∑ I ∈ siteSet (physShape (pre.map FItem.t)), ∑ b ∈ range m,
      ‖∑ x ∈ range k, f i x * mp (pre.map FItem.t) I x b‖ ^ 2 ≤ (c * fprod pre) ^ 2

omit [RCLike 𝕜] in
theorem fprod_nonneg {ts : List (FItem 𝕜)} (h : ∀ q ∈ ts, 0 ≤ q.s) : 0 ≤ fprod ts := by
  unfold fprod
  refine List.prod_nonneg fun a ha => ?_
  obtain ⟨q, hq, rfl⟩ := List.mem_map.1 ha
  exact h q hq

omit [RCLike 𝕜] in
theorem fprod_cons (q : FItem 𝕜) (ts : List (FItem 𝕜)) : fprod (q :: ts) = q.s * fprod ts := by simp [fprod]

theorem sum_idxSet_append {M : Type} [AddCommMonoid M] (s t : List ℕ) (f : List ℕ → M) :
    ∑ i ∈ idxSet (s ++ t), f i = ∑ i ∈ idxSet s, ∑ j ∈ idxSet t, f (i ++ j) := by
  rw [← sumIdx_eq_sum, sumIdx_append, sumIdx_eq_sum]
  exact Finset.sum_congr rfl fun i _ => sumIdx_eq_sum _ _

theorem Bd.add {ts : List (FItem 𝕜)} (hs : ∀ q ∈ ts, 0 ≤ q.s) {sa : List ℕ} {k : ℕ} {f g : List ℕ → ℕ → 𝕜} {c d : ℝ} (hc : 0 ≤ c)
    (hd : 0 ≤ d) (hf : Bd ts sa k f c) (hg : Bd ts sa k g d) : Bd ts sa k (fun i x => f i x + g i x) (c + d) := by
  intro pre post h m hm
  have hp : 0 ≤ fprod pre := fprod_nonneg fun q hq => hs q (by rw [h]; exact List.mem_append_left _ hq)
  have := mink3 _ _ _ _ _ (mul_nonneg hc hp) (mul_nonneg hd hp) (hf pre post h m hm) (hg pre post h m hm)
  rw [add_mul]
  refine le_trans (le_of_eq ?_) this
  refine Finset.sum_congr rfl fun i _ => Finset.sum_congr rfl fun I _ => Finset.sum_congr rfl fun b _ => ?_
  rw [← Finset.sum_add_distrib]
  simp only [add_mul]

theorem Bd.congr {ts : List (FItem 𝕜)} {sa : List ℕ} {k : ℕ} {f g : List ℕ → ℕ → 𝕜} {c : ℝ}
    (hf : Bd ts sa k f c) (h : ∀ i, InB i sa → ∀ x < k, f i x = g i x) : Bd ts sa k g c := by
  intro pre post hp m hm
  refine le_trans (le_of_eq ?_) (hf pre post hp m hm)
  refine Finset.sum_congr rfl fun i hi => Finset.sum_congr rfl fun I _ => Finset.sum_congr rfl fun b _ => ?_
  congr 2
  exact Finset.sum_congr rfl fun x hx => by rw [h i (mem_idxSet.1 hi) x (by simpa using hx)]

/-- The bound for the empty beginning of the chain. -/
theorem Bd.norm {ts : List (FItem 𝕜)} {sa : List ℕ} {k : ℕ} {f : List ℕ → ℕ → 𝕜} {c : ℝ} (h : Bd ts sa k f c) :
    ∑ i ∈ idxSet sa, ∑ x ∈ range k, ‖f i x‖ ^ 2 ≤ c ^ 2 := by
  have := h [] ts rfl k (by simp)
  simp only [List.map_nil, physShape, siteSet, Finset.sum_singleton, mp_nil, fprod, List.prod_nil, mul_one] at this
  refine le_trans (le_of_eq ?_) this
  refine Finset.sum_congr rfl fun i _ => Finset.sum_congr rfl fun b hb => ?_
  simp only [mul_ite, mul_one, mul_zero]
  rw [Finset.sum_ite_eq', if_pos hb]

/-- The norm of an array bounds everything that follows. -/
theorem Bd.of_norm {κ : ℝ} {ts : List (FItem 𝕜)}
    (hseg : ∀ pre post, ts = pre ++ post → SegOp (κ * fprod pre) (pre.map FItem.t)) {sa : List ℕ} {k : ℕ} {f : List ℕ → ℕ → 𝕜} {c : ℝ}
    (h : ∑ i ∈ idxSet sa, ∑ x ∈ range k, ‖f i x‖ ^ 2 ≤ c ^ 2) : Bd ts sa k f (κ * c) := by
  intro pre post hp m hm
  calc _ ≤ ∑ i ∈ idxSet sa, (κ * fprod pre) ^ 2 * ∑ x ∈ range k, ‖f i x‖ ^ 2 :=
        Finset.sum_le_sum fun i _ => hseg pre post hp k m hm fun x => f i x
    _ ≤ (κ * fprod pre) ^ 2 * c ^ 2 := by rw [← Finset.mul_sum]; exact mul_le_mul_of_nonneg_left h (sq_nonneg _)
    _ = _ := by ring

/-- One more tensor. -/
theorem Bd.step {q : FItem 𝕜} {ts : List (FItem 𝕜)} (ht : q.t.IsLocal) {sa : List ℕ} {f : List ℕ → ℕ → 𝕜} {c : ℝ}
    (h : Bd (q :: ts) sa q.t.lb f c) (g : List ℕ → ℕ → 𝕜)
    (hg : ∀ i p, InB i sa → InB p q.t.ph → ∀ y < q.t.rb, g (i ++ p) y = ∑ x ∈ range q.t.lb, f i x * q.t.at3 x p y) :
    Bd ts (sa ++ q.t.ph) q.t.rb g (c * q.s) := by
  intro pre post hp m hm
  have := h (q :: pre) post (by rw [hp]; rfl) m ⟨ht, rfl, hm⟩
  rw [fprod_cons, ← mul_assoc] at this
  refine le_trans (le_of_eq ?_) this
  rw [sum_idxSet_append]
  refine Finset.sum_congr rfl fun i hi => ?_
  rw [show physShape ((q :: pre).map FItem.t) = q.t.ph :: physShape (pre.map FItem.t) from rfl, sum_siteSet_cons]
  refine Finset.sum_congr rfl fun p hpp => Finset.sum_congr rfl fun I _ => Finset.sum_congr rfl fun b _ => ?_
  congr 2
  simp only [List.map_cons, mp_cons, Finset.mul_sum]
  rw [Finset.sum_comm]
  refine Finset.sum_congr rfl fun y hy => ?_
  rw [hg i p (mem_idxSet.1 hi) (mem_idxSet.1 hpp) y (by simpa using hy), Finset.sum_mul]
  exact Finset.sum_congr rfl fun x _ => by ring

/-- The product of an array and a perturbed local tensor. -/
theorem md_perturbed {ε ε₂ a nt : ℝ} (hε : 0 ≤ ε) (ha : 0 ≤ a) (h2 : 0 ≤ ε₂) (hn : 0 ≤ nt) {md : NDArray 𝕜 → NDArray 𝕜 → Py (NDArray 𝕜)}
    (hmd : MdNear ε md)
    {X t t' : NDArray 𝕜} {sa : List ℕ} (ht : t.IsLocal) (hX : X.shape = sa ++ [t.lb]) (hs : t'.shape = t.shape)
    (hXn : npNorm X ≤ a) (htn : npNorm t ≤ nt) (hd : arrDist t t' ≤ ε₂ * nt) :
    ∃ Y, md X t' = .ok Y ∧ Y.shape = (sa ++ t.ph) ++ [t.rb] ∧
      ∑ i ∈ idxSet (sa ++ t.ph), ∑ y ∈ range t.rb, ‖Y.get (i ++ [y]) -
        ∑ x ∈ range t.lb, X.get (i.take sa.length ++ [x]) * t.at3 x (i.drop sa.length) y‖ ^ 2
          ≤ (((1 + ε) * (1 + ε₂) - 1) * (a * nt)) ^ 2 := by
  have hts : t.shape = t.lb :: (t.ph ++ [t.rb]) := NDArray.shape_local ht
  obtain ⟨Y, h1, h3, h4⟩ := hmd X t' sa (t.ph ++ [t.rb]) t.lb hX (by rw [hs, hts])
  refine ⟨Y, h1, by rw [h3]; simp, ?_⟩
  have hXsq : nsq X = ∑ i ∈ idxSet sa, ∑ x ∈ range t.lb, ‖X.get (i ++ [x])‖ ^ 2 := by
    unfold nsq; rw [hX, sumIdx_append, sumIdx_eq_sum]; rfl
  have hXa : nsq X ≤ a ^ 2 := by rw [← npNorm_sq]; exact pow_le_pow_left₀ (npNorm_nonneg' _) hXn 2
  have hdsq : arrDist t t' ^ 2 = ∑ x ∈ range t.lb, ∑ p ∈ idxSet t.ph, ∑ y ∈ range t.rb,
      ‖t.at3 x p y - t'.get (x :: (p ++ [y]))‖ ^ 2 := by
    rw [arrDist_sq, ← sumIdx_eq_sum, hts, sumIdx_cons]
    refine Finset.sum_congr rfl fun x _ => ?_
    rw [sumIdx_append, sumIdx_eq_sum]; rfl
  -- the norm of the perturbed tensor
  have ht'n : nsq t' ≤ ((1 + ε₂) * nt) ^ 2 := by
    have e1 : ∑ i ∈ idxSet t.shape, ‖t.get i‖ ^ 2 ≤ nt ^ 2 := by
      rw [← sumIdx_eq_sum]
      have : nsq t ≤ nt ^ 2 := by rw [← npNorm_sq]; exact pow_le_pow_left₀ (npNorm_nonneg' _) htn 2
      exact this
    have e2 : ∑ i ∈ idxSet t.shape, ‖t'.get i - t.get i‖ ^ 2 ≤ (ε₂ * nt) ^ 2 := by
      simp only [norm_sub_rev (t'.get _)]
      rw [← arrDist_sq]; exact pow_le_pow_left₀ (arrDist_nonneg _ _) hd 2
    have := mink _ _ _ hn (mul_nonneg h2 hn) e1 e2
    simp only [add_sub_cancel] at this
    rw [show nt + ε₂ * nt = (1 + ε₂) * nt by ring] at this
    unfold nsq
    rw [hs, sumIdx_eq_sum]
    exact this
  -- the product with the difference of the tensors
  have hA : ∑ i ∈ idxSet sa, ∑ p ∈ idxSet t.ph, ∑ y ∈ range t.rb,
      ‖∑ x ∈ range t.lb, X.get (i ++ [x]) * (t'.get (x :: (p ++ [y])) - t.at3 x p y)‖ ^ 2 ≤ (a * (ε₂ * nt)) ^ 2 := by
    rw [mul_pow]
    have hd2 : arrDist t t' ^ 2 ≤ (ε₂ * nt) ^ 2 := pow_le_pow_left₀ (arrDist_nonneg _ _) hd 2
    refine le_trans ?_ (mul_le_mul hXa hd2 (sq_nonneg _) (sq_nonneg _))
    rw [hXsq, Finset.sum_mul]
    refine Finset.sum_le_sum fun i _ => ?_
    have : arrDist t t' ^ 2 = ∑ p ∈ idxSet t.ph, ∑ y ∈ range t.rb, ∑ x ∈ range t.lb, ‖t'.get (x :: (p ++ [y])) - t.at3 x p y‖ ^ 2 := by
      rw [hdsq, Finset.sum_comm]
      refine Finset.sum_congr rfl fun p _ => ?_
      rw [Finset.sum_comm]
      exact Finset.sum_congr rfl fun y _ => Finset.sum_congr rfl fun x _ => by rw [norm_sub_rev]
    rw [this, Finset.mul_sum]
    refine Finset.sum_le_sum fun p _ => ?_
    rw [Finset.mul_sum]
    exact Finset.sum_le_sum fun y _ => cauchy_sq _ _ _
  have hB : ∑ i ∈ idxSet sa, ∑ p ∈ idxSet t.ph, ∑ y ∈ range t.rb,
      ‖Y.get ((i ++ p) ++ [y]) - ∑ x ∈ range t.lb, X.get (i ++ [x]) * t'.get (x :: (p ++ [y]))‖ ^ 2 ≤ (ε * (a * ((1 + ε₂) * nt))) ^ 2 := by
    have e : (sumIdx sa fun i => sumIdx (t.ph ++ [t.rb]) fun j =>
        ‖∑ x ∈ range t.lb, X.get (i ++ [x]) * t'.get (x :: j) - Y.get (i ++ j)‖ ^ 2)
        = ∑ i ∈ idxSet sa, ∑ p ∈ idxSet t.ph, ∑ y ∈ range t.rb,
          ‖Y.get ((i ++ p) ++ [y]) - ∑ x ∈ range t.lb, X.get (i ++ [x]) * t'.get (x :: (p ++ [y]))‖ ^ 2 := by
      rw [sumIdx_eq_sum]
      refine Finset.sum_congr rfl fun i _ => ?_
      rw [sumIdx_append, sumIdx_eq_sum]
      refine Finset.sum_congr rfl fun p _ => ?_
      show ∑ y ∈ range t.rb, _ = _
      refine Finset.sum_congr rfl fun y _ => ?_
      rw [norm_sub_rev, List.append_assoc]; rfl
    rw [← e]
    refine h4.trans ?_
    rw [mul_pow ε, mul_pow a]
    exact mul_le_mul_of_nonneg_left (mul_le_mul hXa ht'n (nsq_nonneg _) (sq_nonneg _)) (sq_nonneg ε)
  have := mink3 _ _ _ _ _ (by positivity) (by positivity) hB hA
  rw [sum_idxSet_append]
  refine le_trans (le_of_eq ?_) (this.trans (le_of_eq (by ring)))
  refine Finset.sum_congr rfl fun i hi => Finset.sum_congr rfl fun p _ => Finset.sum_congr rfl fun y _ => ?_
  congr 2
  rw [List.take_left' (inB_length (mem_idxSet.1 hi)), List.drop_left' (inB_length (mem_idxSet.1 hi)), sub_add, ← Finset.sum_sub_distrib]
  congr 1
  exact Finset.sum_congr rfl fun x _ => by ring

/-- The contraction of a chain from left to right, with perturbed tensors and an inexact product. -/
theorem foldF_near {ε ε₂ κ ν : ℝ} (hε : 0 ≤ ε) (hε₂ : 0 ≤ ε₂) (hκ : 0 ≤ κ) (hν : 0 ≤ ν) {md : NDArray 𝕜 → NDArray 𝕜 → Py (NDArray 𝕜)}
    (hmd : MdNear ε md) {ts : List (FItem 𝕜)} (hs : ∀ q ∈ ts, 0 ≤ q.s)
    (hq : ∀ q ∈ ts, q.t'.shape = q.t.shape ∧ npNorm q.t ≤ ν * q.s ∧ arrDist q.t q.t' ≤ ε₂ * (ν * q.s))
    (hseg : ∀ pre mid post, ts = pre ++ (mid ++ post) → SegOp (κ * fprod mid) (mid.map FItem.t))
    {k r : ℕ} (hc : Chained k (ts.map FItem.t) r) {sa : List ℕ} {X X' : NDArray 𝕜} (hX : X.shape = sa ++ [k]) (hX' : X'.shape = sa ++ [k])
    {e n : ℝ} (he : 0 ≤ e) (hn : 0 ≤ n) (hbe : Bd ts sa k (fun i x => X'.get (i ++ [x]) - X.get (i ++ [x])) e)
    (hbn : Bd ts sa k (fun i x => X'.get (i ++ [x])) n) :
    ∃ Y Y', (ts.map FItem.t).foldlM matdot X = .ok Y ∧ (ts.map FItem.t').foldlM md X' = .ok Y' ∧ Y'.shape = Y.shape ∧
      arrDist Y Y' ≤ (e + n * ((1 + κ * (((1 + ε) * (1 + ε₂) - 1) * ν)) ^ ts.length - 1)) * fprod ts := by
  induction ts generalizing k sa X X' e n with
  | nil =>
    rw [List.map_nil, chained_nil] at hc
    subst hc
    refine ⟨X, X', rfl, rfl, by rw [hX, hX'], ?_⟩
    simp only [List.length_nil, pow_zero, sub_self, mul_zero, add_zero, fprod, List.map_nil, List.prod_nil, mul_one]
    refine (abs_le_of_sq_le_sq' ?_ he).2
    rw [arrDist_sq, hX, sum_idxSet_append]
    refine le_trans (le_of_eq ?_) hbe.norm
    refine Finset.sum_congr rfl fun i _ => ?_
    rw [← sumIdx_eq_sum]
    show ∑ x ∈ range k, _ = _
    exact Finset.sum_congr rfl fun x _ => by rw [norm_sub_rev]; rfl
  | cons q ts ih =>
    rw [List.map_cons] at hc
    obtain ⟨hloc, rfl, hc⟩ := hc
    obtain ⟨hqs, hqn, hqd⟩ := hq q List.mem_cons_self
    have hs0 := hs q List.mem_cons_self
    set δ := (1 + ε) * (1 + ε₂) - 1 with hδ
    have hδ0 : 0 ≤ δ := by rw [hδ]; nlinarith [mul_nonneg hε hε₂]
    obtain ⟨C, c1, c2, c3⟩ := NDArray.matdot_ok (a := X) (b := q.t) (sa := sa) (sb := q.t.ph ++ [q.t.rb]) (k := q.t.lb) hX
      (NDArray.shape_local hloc)
    have hXn : npNorm X' ≤ n := by
      refine (abs_le_of_sq_le_sq' ?_ hn).2
      rw [npNorm_sq]
      refine le_trans (le_of_eq ?_) hbn.norm
      unfold nsq; rw [hX', sumIdx_append, sumIdx_eq_sum]; rfl
    obtain ⟨C', d1, d2, d3⟩ := md_perturbed hε hn hε₂ (mul_nonneg hν hs0) hmd hloc hX' hqs hXn hqn hqd
    have hs' : ∀ w ∈ ts, 0 ≤ w.s := fun w hw => hs w (List.mem_cons_of_mem _ hw)
    have herr : Bd ts (sa ++ q.t.ph) q.t.rb (fun i y => C'.get (i ++ [y]) -
        ∑ x ∈ range q.t.lb, X'.get (i.take sa.length ++ [x]) * q.t.at3 x (i.drop sa.length) y) (κ * (δ * (n * (ν * q.s)))) :=
      Bd.of_norm (fun pre post h => hseg [q] pre post (by rw [h]; rfl)) d3
    have hstep : ∀ (f : List ℕ → ℕ → 𝕜) (c : ℝ), Bd (q :: ts) sa q.t.lb f c → Bd ts (sa ++ q.t.ph) q.t.rb
        (fun i y => ∑ x ∈ range q.t.lb, f (i.take sa.length) x * q.t.at3 x (i.drop sa.length) y) (c * q.s) := fun f c h =>
      h.step hloc _ fun i p hi _ y _ => by rw [List.take_left' (inB_length hi), List.drop_left' (inB_length hi)]
    have hκδ : 0 ≤ κ * (δ * (n * (ν * q.s))) := by positivity
    have hn' := ((hstep _ n hbn).add hs' (mul_nonneg hn hs0) hκδ herr)
    have he' := ((hstep _ e hbe).add hs' (mul_nonneg he hs0) hκδ herr)
    have hcg : ∀ i, InB i (sa ++ q.t.ph) → ∀ y < q.t.rb, C.get (i ++ [y])
        = ∑ x ∈ range q.t.lb, X.get (i.take sa.length ++ [x]) * q.t.at3 x (i.drop sa.length) y := by
      intro i hi y hy
      have hl := inB_length hi
      rw [List.length_append] at hl
      conv_lhs => rw [← List.take_append_drop sa.length i, List.append_assoc]
      rw [c3 _ _ (by rw [List.length_take]; omega) (by simp; omega)]
      rfl
    obtain ⟨Y, Y', y1, y2, y3, y4⟩ := ih hs' (fun w hw => hq w (List.mem_cons_of_mem _ hw))
      (fun pre mid post h => hseg (q :: pre) mid post (by rw [h]; rfl)) hc (sa := sa ++ q.t.ph) (X := C) (X' := C')
      (by rw [c2]; simp) d2 (e := e * q.s + κ * (δ * (n * (ν * q.s)))) (n := n * q.s + κ * (δ * (n * (ν * q.s)))) (by positivity)
      (by positivity)
      (he'.congr fun i hi y hy => by
        rw [hcg i hi y hy]
        simp only [sub_mul, Finset.sum_sub_distrib]
        ring)
      (hn'.congr fun i hi y hy => by ring)
    refine ⟨Y, Y', ?_, ?_, y3, y4.trans (le_of_eq ?_)⟩
    · rw [List.map_cons, List.foldlM_cons, show matdot X q.t = .ok C from c1]; exact y1
    · rw [List.map_cons, List.foldlM_cons, d1]; exact y2
    · rw [fprod_cons, List.length_cons, pow_succ]; ring

end Mpnum
