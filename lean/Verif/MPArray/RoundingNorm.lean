import Verif.MPArray.RoundingSweep
import Verif.Props.C09

/-!
# Inexact arithmetic: the norm of an MPA that is canonical up to `ε`
-/

namespace Mpnum

open Finset

variable {𝕜 : Type} [RCLike 𝕜]

theorem lop_chain_lower {c : ℝ} {ts : List (NDArray 𝕜)}
    (h : ∀ t ∈ ts, ∀ v : ℕ → 𝕜, c ^ 2 * ∑ b ∈ range t.rb, ‖v b‖ ^ 2
      ≤ ∑ a ∈ range t.lb, sumIdx t.ph fun p => ‖∑ b ∈ range t.rb, t.at3 a p b * v b‖ ^ 2) {l m : ℕ} (hc : Chained l ts m)
    (v : ℕ → 𝕜) :
    (c ^ ts.length) ^ 2 * ∑ b ∈ range m, ‖v b‖ ^ 2
      ≤ ∑ a ∈ range l, ∑ i ∈ siteSet (physShape ts), ‖∑ b ∈ range m, mp ts i a b * v b‖ ^ 2 := by
  induction ts generalizing l with
  | nil =>
    rw [chained_nil] at hc
    subst hc
    simp only [siteSet, physShape, List.map_nil, Finset.sum_singleton, mp_nil, List.length_nil, pow_zero, one_pow, one_mul, ite_mul,
      mul_ite, zero_mul, mul_one, mul_zero, Finset.sum_ite_eq, Finset.sum_ite_eq']
    exact le_of_eq (Finset.sum_congr rfl fun a ha => by rw [if_pos ha])
  | cons t ts ih =>
    obtain ⟨_, rfl, hc⟩ := hc
    rw [List.length_cons, pow_succ c, mul_pow, mul_comm ((c ^ ts.length) ^ 2), mul_assoc]
    refine le_trans (mul_le_mul_of_nonneg_left (ih (fun u hu => h u (List.mem_cons_of_mem _ hu)) hc) (sq_nonneg c)) ?_
    have e : ∀ a, ∑ i ∈ siteSet (physShape (t :: ts)), ‖∑ b ∈ range m, mp (t :: ts) i a b * v b‖ ^ 2
        = ∑ ps ∈ siteSet (physShape ts), sumIdx t.ph fun p =>
          ‖∑ c ∈ range t.rb, t.at3 a p c * ∑ b ∈ range m, mp ts ps c b * v b‖ ^ 2 := by
      intro a
      rw [show physShape (t :: ts) = t.ph :: physShape ts from rfl, sum_siteSet_cons, Finset.sum_comm]
      refine Finset.sum_congr rfl fun ps _ => ?_
      rw [sumIdx_eq_sum]
      refine Finset.sum_congr rfl fun p _ => ?_
      congr 2
      simp only [mp_cons, Finset.sum_mul, Finset.mul_sum]
      rw [Finset.sum_comm]
      exact Finset.sum_congr rfl fun c _ => Finset.sum_congr rfl fun b _ => by ring
    rw [Finset.sum_congr rfl fun a _ => e a, Finset.sum_comm (s := range t.lb)]
    rw [Finset.sum_comm (s := range t.rb), Finset.mul_sum]
    exact Finset.sum_le_sum fun ps _ => h t List.mem_cons_self fun c => ∑ b ∈ range m, mp ts ps c b * v b

theorem rop_chain_lower {c : ℝ} {ts : List (NDArray 𝕜)}
    (h : ∀ t ∈ ts, ∀ v : ℕ → 𝕜, c ^ 2 * ∑ a ∈ range t.lb, ‖v a‖ ^ 2
      ≤ sumIdx t.ph fun p => ∑ b ∈ range t.rb, ‖∑ a ∈ range t.lb, v a * t.at3 a p b‖ ^ 2) {l m : ℕ} (hc : Chained l ts m)
    (v : ℕ → 𝕜) :
    (c ^ ts.length) ^ 2 * ∑ a ∈ range l, ‖v a‖ ^ 2
      ≤ ∑ i ∈ siteSet (physShape ts), ∑ b ∈ range m, ‖∑ a ∈ range l, v a * mp ts i a b‖ ^ 2 := by
  induction ts generalizing l v with
  | nil =>
    rw [chained_nil] at hc
    subst hc
    simp only [siteSet, physShape, List.map_nil, Finset.sum_singleton, mp_nil, List.length_nil, pow_zero, one_pow, one_mul, ite_mul,
      mul_ite, zero_mul, mul_one, mul_zero, Finset.sum_ite_eq, Finset.sum_ite_eq']
    exact le_of_eq (Finset.sum_congr rfl fun a ha => by rw [if_pos ha])
  | cons t ts ih =>
    obtain ⟨_, rfl, hc⟩ := hc
    rw [List.length_cons, pow_succ c, mul_pow, mul_assoc]
    refine le_trans (mul_le_mul_of_nonneg_left (h t List.mem_cons_self v) (sq_nonneg _)) ?_
    rw [show physShape (t :: ts) = t.ph :: physShape ts from rfl, sum_siteSet_cons, sumIdx_eq_sum, Finset.mul_sum]
    refine Finset.sum_le_sum fun p _ => le_trans (ih (fun u hu => h u (List.mem_cons_of_mem _ hu)) hc
      fun b => ∑ a ∈ range t.lb, v a * t.at3 a p b) (le_of_eq ?_)
    refine Finset.sum_congr rfl fun i _ => Finset.sum_congr rfl fun b _ => ?_
    congr 2
    simp only [mp_cons, Finset.sum_mul, Finset.mul_sum]
    rw [Finset.sum_comm]
    exact Finset.sum_congr rfl fun c _ => Finset.sum_congr rfl fun b _ => by ring

theorem MPA.frob_nonneg' (x : MPA 𝕜) : 0 ≤ x.frob := Real.sqrt_nonneg _

theorem MPA.frob_sq' (x : MPA 𝕜) : x.frob ^ 2 = ∑ i ∈ siteSet x.shape, ‖x.val i‖ ^ 2 := by
  unfold MPA.frob
  rw [sumSites_eq_sum, Real.sq_sqrt (Finset.sum_nonneg fun _ _ => sq_nonneg _)]

theorem MPA.frob_dist {x y : MPA 𝕜} (h : y.shape = x.shape) : |x.frob - y.frob| ≤ x.dist y := by
  rw [abs_le]
  have h1 : x.frob ≤ x.dist y + y.frob := by
    have := mink (siteSet x.shape) (fun i => x.val i - y.val i) (fun i => y.val i) (MPA.dist_nonneg' x y)
      y.frob_nonneg' (le_of_eq (MPA.dist_sq x y).symm) (le_of_eq (by rw [MPA.frob_sq', h]))
    simp only [sub_add_cancel] at this
    rw [← MPA.frob_sq'] at this
    exact (abs_le_of_sq_le_sq' this (add_nonneg (MPA.dist_nonneg' _ _) y.frob_nonneg')).2
  have h2 : y.frob ≤ x.dist y + x.frob := by
    have := mink (siteSet x.shape) (fun i => y.val i - x.val i) (fun i => x.val i) (MPA.dist_nonneg' x y)
      x.frob_nonneg' (le_of_eq (by rw [MPA.dist_sq]; exact Finset.sum_congr rfl fun i _ => by rw [norm_sub_rev]))
      (le_of_eq (MPA.frob_sq' x).symm)
    simp only [sub_add_cancel] at this
    rw [← h, ← MPA.frob_sq'] at this
    exact (abs_le_of_sq_le_sq' this (add_nonneg (MPA.dist_nonneg' _ _) x.frob_nonneg')).2
  constructor <;> linarith

namespace MPA

/-- The sum of the squares of a chain with a marked site. -/
theorem center_sum {pre post : List (NDArray 𝕜)} {t : NDArray 𝕜} (hc : Chained 1 (pre ++ t :: post) 1) :
    ∑ i ∈ siteSet (physShape (pre ++ t :: post)), ‖mp (pre ++ t :: post) i 0 0‖ ^ 2
      = ∑ p ∈ idxSet t.ph, ∑ j ∈ siteSet (physShape post), ∑ a ∈ range 1, ∑ i ∈ siteSet (physShape pre),
        ‖∑ c ∈ range t.lb, mp pre i a c * ∑ d ∈ range t.rb, t.at3 c p d * mp post j d 0‖ ^ 2 := by
  obtain ⟨m, m1, m2⟩ := chained_append.1 hc
  have hm : m = t.lb := m2.2.1.symm
  subst hm
  rw [show physShape (pre ++ t :: post) = physShape pre ++ (t.ph :: physShape post) by simp [physShape], sum_siteSet_append]
  simp only [Finset.range_one, Finset.sum_singleton]
  have e : ∀ i ∈ siteSet (physShape pre), ∑ j ∈ siteSet (t.ph :: physShape post), ‖mp (pre ++ t :: post) (i ++ j) 0 0‖ ^ 2
      = ∑ p ∈ idxSet t.ph, ∑ j ∈ siteSet (physShape post),
        ‖∑ c ∈ range t.lb, mp pre i 0 c * ∑ d ∈ range t.rb, t.at3 c p d * mp post j d 0‖ ^ 2 := by
    intro i hi
    rw [sum_siteSet_cons]
    refine Finset.sum_congr rfl fun p _ => Finset.sum_congr rfl fun j _ => ?_
    rw [mp_append m1 (chain_len hi) (by omega)]
    simp only [mp_cons]
  rw [Finset.sum_congr rfl e, Finset.sum_comm]
  exact Finset.sum_congr rfl fun p _ => Finset.sum_comm

theorem forall₂_const {P : ℝ → NDArray 𝕜 → Prop} {c : ℝ} {ts : List (NDArray 𝕜)} (h : ∀ t ∈ ts, P c t) :
    List.Forall₂ P (List.replicate ts.length c) ts := by
  induction ts with
  | nil => simp
  | cons t ts ih =>
    rw [List.length_cons, List.replicate_succ]
    exact .cons (h t List.mem_cons_self) (ih fun u hu => h u (List.mem_cons_of_mem _ hu))

/-- The norm of an MPA that is canonical up to `ε` around one site. -/
theorem center_near {ε : ℝ} (hε : 0 ≤ ε) (h1 : ε ≤ 1) {pre post : List (NDArray 𝕜)} {t : NDArray 𝕜} {l r : ℤ}
    (hc : Chained 1 (pre ++ t :: post) 1)
    (hl : ∀ u ∈ pre, LNear ε u) (hr : ∀ u ∈ post, RNear ε u) :
    (1 - ε) ^ (pre.length + post.length) * npNorm t ≤ (⟨pre ++ t :: post, l, r⟩ : MPA 𝕜).frob ∧
      (⟨pre ++ t :: post, l, r⟩ : MPA 𝕜).frob ≤ (1 + ε) ^ (pre.length + post.length) * npNorm t := by
  obtain ⟨m, m1, m2⟩ := chained_append.1 hc
  have hm : m = t.lb := m2.2.1.symm
  subst hm
  have hloc : t.IsLocal := m2.1
  have hpost : Chained t.rb post 1 := m2.2.2
  have hsq := (⟨pre ++ t :: post, l, r⟩ : MPA 𝕜).frob_sq'
  have hsq' : (⟨pre ++ t :: post, l, r⟩ : MPA 𝕜).frob ^ 2
      = ∑ p ∈ idxSet t.ph, ∑ j ∈ siteSet (physShape post), ∑ a ∈ range 1, ∑ i ∈ siteSet (physShape pre),
        ‖∑ c ∈ range t.lb, mp pre i a c * ∑ d ∈ range t.rb, t.at3 c p d * mp post j d 0‖ ^ 2 :=
    hsq.trans (center_sum hc)
  have hX : npNorm t ^ 2 = ∑ p ∈ idxSet t.ph, ∑ c ∈ range t.lb, ∑ d ∈ range t.rb, ‖t.at3 c p d‖ ^ 2 := by
    rw [npNorm_sq, nsq_local hloc]
    simp only [sumIdx_eq_sum]
    exact Finset.sum_comm
  have hmid : ∀ p, ∑ j ∈ siteSet (physShape post), ∑ c ∈ range t.lb, ‖∑ d ∈ range t.rb, t.at3 c p d * mp post j d 0‖ ^ 2
      = ∑ c ∈ range t.lb, ∑ j ∈ siteSet (physShape post), ∑ b ∈ range 1, ‖∑ d ∈ range t.rb, t.at3 c p d * mp post j d b‖ ^ 2 := by
    intro p
    rw [Finset.sum_comm]
    simp
  have hT := npNorm_nonneg' t
  constructor
  · refine (abs_le_of_sq_le_sq' ?_ (MPA.frob_nonneg' _)).2
    rw [hsq', mul_pow, hX, Finset.mul_sum]
    refine Finset.sum_le_sum fun p _ => ?_
    refine le_trans ?_ (Finset.sum_le_sum fun j _ => lop_chain_lower (fun u hu => (hl u hu).2) m1
      fun c => ∑ d ∈ range t.rb, t.at3 c p d * mp post j d 0)
    rw [← Finset.mul_sum, hmid, pow_add, mul_pow, mul_assoc]
    refine mul_le_mul_of_nonneg_left ?_ (sq_nonneg _)
    rw [Finset.mul_sum]
    exact Finset.sum_le_sum fun c _ => rop_chain_lower (fun u hu => (hr u hu).2) hpost fun d => t.at3 c p d
  · refine (abs_le_of_sq_le_sq' ?_ (by positivity)).2
    rw [hsq', mul_pow, hX, Finset.mul_sum]
    refine Finset.sum_le_sum fun p _ => ?_
    refine le_trans (Finset.sum_le_sum fun j _ => lop_chain (forall₂_const fun u hu => (hl u hu).1) m1
      fun c => ∑ d ∈ range t.rb, t.at3 c p d * mp post j d 0) ?_
    rw [← Finset.mul_sum, hmid, List.prod_replicate, pow_add, mul_pow, mul_assoc]
    refine mul_le_mul_of_nonneg_left ?_ (sq_nonneg _)
    rw [Finset.mul_sum]
    refine Finset.sum_le_sum fun c _ => ?_
    have := rop_chain (forall₂_const fun u hu => (hr u hu).1) hpost fun d => t.at3 c p d
    rwa [List.prod_replicate] at this

theorem NearGood.center {ε : ℝ} (hε : 0 ≤ ε) (h1 : ε ≤ 1) {x : MPA 𝕜} (hx : x.NearGood ε) (hr : x.r = x.l + 1) {c : ℕ}
    (hcl : (c : ℤ) = x.l) {t : NDArray 𝕜} (ht : x.lt[c]? = some t) :
    (1 - ε) ^ (x.len - 1) * npNorm t ≤ x.frob ∧ x.frob ≤ (1 + ε) ^ (x.len - 1) * npNorm t := by
  obtain ⟨hlt, hget⟩ := List.getElem?_eq_some_iff.1 ht
  have hsplit : x.lt = x.lt.take c ++ t :: x.lt.drop (c + 1) := by
    rw [← hget, List.cons_getElem_drop_succ, List.take_append_drop]
  obtain ⟨lt, l, r⟩ := x
  simp only at hsplit hr hcl ht hlt hget
  have hlen : (MPA.len ⟨lt, l, r⟩) - 1 = (lt.take c).length + (lt.drop (c + 1)).length := by
    simp only [MPA.len, List.length_take, List.length_drop]; omega
  rw [hlen]
  have hch : Chained 1 lt 1 := hx.valid.chain
  rw [hsplit] at hch
  have key := center_near (l := l) (r := r) hε h1 hch (fun u hu => by
      obtain ⟨n, hn⟩ := List.mem_iff_getElem?.1 hu
      have hn' := (List.getElem?_eq_some_iff.1 hn).1
      rw [List.length_take] at hn'
      rw [List.getElem?_take_of_lt (by omega)] at hn
      exact (hx.canon n u hn).1 (by simp only; omega)) (fun u hu => by
      obtain ⟨n, hn⟩ := List.mem_iff_getElem?.1 hu
      rw [List.getElem?_drop] at hn
      exact (hx.canon _ u hn).2 (by simp only; push_cast; omega))
  rwa [← hsplit] at key

end MPA

end Mpnum
