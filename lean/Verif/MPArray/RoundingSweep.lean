import Verif.MPArray.Rounding

/-!
# Inexact arithmetic: sweeps

Sweeps of the steps of `MPArray/Rounding.lean`, with a bound for the sum of all errors.
-/

namespace Mpnum

open Finset

variable {𝕜 : Type} [RCLike 𝕜]

/-! ### distances -/

theorem MPA.dist_nonneg' (x y : MPA 𝕜) : 0 ≤ x.dist y := Real.sqrt_nonneg _

theorem MPA.dist_sq (x y : MPA 𝕜) : x.dist y ^ 2 = ∑ i ∈ siteSet x.shape, ‖x.val i - y.val i‖ ^ 2 := by
  unfold MPA.dist
  rw [sumSites_eq_sum, Real.sq_sqrt (Finset.sum_nonneg fun _ _ => sq_nonneg _)]

theorem MPA.dist_le {x y : MPA 𝕜} {d : ℝ} (hd : 0 ≤ d) (h : (sumSites x.shape fun i => ‖x.val i - y.val i‖ ^ 2) ≤ d ^ 2) :
    x.dist y ≤ d := Real.sqrt_le_iff.2 ⟨hd, h⟩

theorem MPA.dist_self' (x : MPA 𝕜) : x.dist x = 0 := by
  unfold MPA.dist
  rw [sumSites_eq_sum]
  simp

theorem MPA.dist_triangle' {x y z : MPA 𝕜} (h : y.shape = x.shape) : x.dist z ≤ x.dist y + y.dist z := by
  refine MPA.dist_le (add_nonneg (MPA.dist_nonneg' _ _) (MPA.dist_nonneg' _ _)) ?_
  rw [sumSites_eq_sum]
  have := mink (siteSet x.shape) (fun i => x.val i - y.val i) (fun i => y.val i - z.val i) (MPA.dist_nonneg' x y)
    (MPA.dist_nonneg' y z) (le_of_eq (MPA.dist_sq x y).symm) (le_of_eq (by rw [MPA.dist_sq, h]))
  simpa using this

/-! ### weights -/

theorem prod_split {w : ℕ → ℝ} (c k : ℕ) :
    ∏ n ∈ range (c + 2 + k), w n = (∏ n ∈ range c, w n) * (∏ n ∈ range k, w (c + 2 + n)) * (w c * w (c + 1)) := by
  rw [Finset.prod_range_add, Finset.prod_range_succ, Finset.prod_range_succ]
  ring

theorem list_range_prod (w : ℕ → ℝ) (n : ℕ) : ((List.range n).map w).prod = ∏ i ∈ range n, w i := by
  induction n with
  | zero => simp
  | succ n ih => rw [List.range_succ, List.map_append, List.prod_append, ih, Finset.prod_range_succ]; simp

theorem forall₂_range {P : ℝ → NDArray 𝕜 → Prop} {ts : List (NDArray 𝕜)} {w : ℕ → ℝ}
    (h : ∀ n t, ts[n]? = some t → P (w n) t) : List.Forall₂ P ((List.range ts.length).map w) ts := by
  induction ts generalizing w with
  | nil => simp
  | cons t ts ih =>
    rw [List.length_cons, List.range_succ_eq_map, List.map_cons, List.map_map]
    exact .cons (h 0 t rfl) (ih fun n u hu => h (n + 1) u hu)

namespace MPA

/-- Numbers `w n` that bound the sites of an MPA: their operator norm outside of the window `[l, r)`, their 2-norm inside. For
the sites in `[f, g)`, the 2-norm is at most `s * w n`. -/
structure Wts (f g : ℤ) (s : ℝ) (x : MPA 𝕜) (w : ℕ → ℝ) : Prop where
  nonneg : ∀ n, 0 ≤ w n
  left : ∀ (n : ℕ) (t : NDArray 𝕜), x.lt[n]? = some t → (n : ℤ) < x.l → LOp (w n) t
  mid : ∀ (n : ℕ) (t : NDArray 𝕜), x.lt[n]? = some t → x.l ≤ (n : ℤ) → (n : ℤ) < x.r → npNorm t ≤ w n
  right : ∀ (n : ℕ) (t : NDArray 𝕜), x.lt[n]? = some t → x.r ≤ (n : ℤ) → ROp (w n) t
  size : ∀ (n : ℕ) (t : NDArray 𝕜), x.lt[n]? = some t → f ≤ (n : ℤ) → (n : ℤ) < g → npNorm t ≤ s * w n

/-- The product of the weights. -/
noncomputable def wprod (x : MPA 𝕜) (w : ℕ → ℝ) : ℝ := ∏ n ∈ range x.len, w n

theorem wprod_nonneg {f g : ℤ} {s : ℝ} {x : MPA 𝕜} {w : ℕ → ℝ} (h : Wts f g s x w) : 0 ≤ x.wprod w :=
  Finset.prod_nonneg fun n _ => h.nonneg n

/-- Factor of the error of one step. -/
noncomputable def errC (ε s : ℝ) : ℝ := ε * (1 + (1 + ε) ^ 2 * s)

/-- Growth of the product of the weights in one step. -/
noncomputable def growC (ε s : ℝ) : ℝ := (1 + ε) ^ 2 * (1 + ε * s)

theorem lop_mono {c d : ℝ} (hc : 0 ≤ c) (h : c ≤ d) {t : NDArray 𝕜} (ht : LOp c t) : LOp d t := fun v =>
  (ht v).trans (mul_le_mul_of_nonneg_right (pow_le_pow_left₀ hc h 2) (Finset.sum_nonneg fun _ _ => sq_nonneg _))

theorem rop_mono {c d : ℝ} (hc : 0 ≤ c) (h : c ≤ d) {t : NDArray 𝕜} (ht : ROp c t) : ROp d t := fun v =>
  (ht v).trans (mul_le_mul_of_nonneg_right (pow_le_pow_left₀ hc h 2) (Finset.sum_nonneg fun _ _ => sq_nonneg _))

theorem getElem?_at {α : Type*} {pre post : List α} {t : α} {n : ℕ} (h : n = pre.length) : (pre ++ t :: post)[n]? = some t := by
  subst h; simp

theorem getElem?_at1 {α : Type*} {pre post : List α} {t u : α} {n : ℕ} (h : n = pre.length + 1) :
    (pre ++ t :: u :: post)[n]? = some u := by
  subst h; simp

theorem getElem?_post {α : Type*} {pre post : List α} {t u : α} {n : ℕ} {w : α} (h : post[n]? = some w) :
    (pre ++ t :: u :: post)[pre.length + 2 + n]? = some w := by
  rw [List.getElem?_append_right (by omega), show pre.length + 2 + n - pre.length = n + 2 by omega]
  simpa using h

/-- The distance of the two MPAs of a step. -/
theorem PairStep.dist {ε : ℝ} {x y : MPA 𝕜} (hx : x.NearGood ε) {pre post : List (NDArray 𝕜)} {t u t' u' : NDArray 𝕜}
    (h : PairStep ε x y pre post t u t' u') {w : ℕ → ℝ} (hw : ∀ n, 0 ≤ w n)
    (hl : ∀ n a, pre[n]? = some a → LOp (w n) a) (hr : ∀ n a, post[n]? = some a → ROp (w (pre.length + 2 + n)) a)
    {e : ℝ} (he : 0 ≤ e)
    (hz : ∑ a ∈ range t.lb, ∑ p ∈ idxSet t.ph, ∑ p' ∈ idxSet u.ph, ∑ b ∈ range u.rb,
      ‖∑ c ∈ range t.rb, t.at3 a p c * u.at3 c p' b - ∑ c ∈ range t'.rb, t'.at3 a p c * u'.at3 c p' b‖ ^ 2
        ≤ (e * (w pre.length * w (pre.length + 1))) ^ 2) :
    x.dist y ≤ e * x.wprod w := by
  have hch := hx.valid.chain
  have hch' := h.good.valid.chain
  rw [h.old] at hch
  rw [h.new] at hch'
  have hp := pair_diff hch hch' h.lb h.rb (forall₂_range hl) (forall₂_range hr) hz
  rw [list_range_prod, list_range_prod] at hp
  have hlen : x.len = pre.length + 2 + post.length := by simp [MPA.len, h.old]; omega
  refine MPA.dist_le (mul_nonneg he (Finset.prod_nonneg fun n _ => hw n)) ?_
  have e1 : x.wprod w = (∏ n ∈ range pre.length, w n) * (∏ n ∈ range post.length, w (pre.length + 2 + n))
      * (w pre.length * w (pre.length + 1)) := by
    unfold wprod; rw [hlen, prod_split]
  rw [e1]
  have e2 : (sumSites x.shape fun i => ‖x.val i - y.val i‖ ^ 2) = sumSites (physShape (pre ++ t :: u :: post)) fun i =>
      ‖mp (pre ++ t :: u :: post) i 0 0 - mp (pre ++ t' :: u' :: post) i 0 0‖ ^ 2 := by
    rw [← h.old, ← h.new]; rfl
  rw [e2]
  refine hp.trans (le_of_eq ?_)
  ring

/-- The weights after a step. -/
noncomputable def wnew (w : ℕ → ℝ) (c : ℕ) (a b : ℝ) : ℕ → ℝ := fun n => if n = c then a else if n = c + 1 then b else w n

theorem wnew_prod {w : ℕ → ℝ} {c N : ℕ} {a b : ℝ} (h : c + 2 ≤ N) (κ : ℝ) (hab : a * b = κ * (w c * w (c + 1))) :
    ∏ n ∈ range N, wnew w c a b n = κ * ∏ n ∈ range N, w n := by
  obtain ⟨k, rfl⟩ := Nat.exists_eq_add_of_le h
  rw [prod_split, prod_split]
  have h1 : ∏ n ∈ range c, wnew w c a b n = ∏ n ∈ range c, w n :=
    Finset.prod_congr rfl fun n hn => by
      have := Finset.mem_range.1 hn
      unfold wnew; rw [if_neg (by omega), if_neg (by omega)]
  have h2 : ∏ n ∈ range k, wnew w c a b (c + 2 + n) = ∏ n ∈ range k, w (c + 2 + n) :=
    Finset.prod_congr rfl fun n _ => by unfold wnew; rw [if_neg (by omega), if_neg (by omega)]
  have h3 : wnew w c a b c = a := by simp [wnew]
  have h4 : wnew w c a b (c + 1) = b := by simp [wnew]
  rw [h1, h2, h3, h4, hab]
  ring

/-- Error and weights after `k` steps. -/
structure Errs (ε : ℝ) (k : ℕ) (f' g' : ℤ) (x y : MPA 𝕜) (s : ℝ) (w w' : ℕ → ℝ) : Prop where
  wts : Wts f' g' s y w'
  prod : y.wprod w' = growC ε s ^ k * x.wprod w
  dist : x.dist y ≤ errC ε s * (∑ i ∈ range k, growC ε s ^ i) * x.wprod w

theorem Errs.trans {ε : ℝ} {k k' : ℕ} {f' g' f'' g'' : ℤ} {x y z : MPA 𝕜} {s : ℝ} {w w' w'' : ℕ → ℝ}
    (hs : y.shape = x.shape) (h : Errs ε k f' g' x y s w w') (h' : Errs ε k' f'' g'' y z s w' w'') :
    Errs ε (k + k') f'' g'' x z s w w'' := by
  refine ⟨h'.wts, by rw [h'.prod, h.prod, pow_add]; ring, ?_⟩
  refine (MPA.dist_triangle' hs).trans ((add_le_add h.dist h'.dist).trans (le_of_eq ?_))
  rw [h.prod, Finset.sum_range_add]
  simp only [pow_add, ← Finset.mul_sum]
  ring

/-- One step of left canonicalisation, with the weights. -/
theorem rcanonStepF_errs {ε : ℝ} (hε : 0 ≤ ε) {qr : QR 𝕜} (hqr : QRNear ε qr) {md : NDArray 𝕜 → NDArray 𝕜 → Py (NDArray 𝕜)}
    (hmd : MdNear ε md) {x : MPA 𝕜} (hx : x.NearGood ε) (hlen : x.l + 1 < x.len) :
    ∃ y, x.rcanonStepF qr md x.l = .ok y ∧ y.NearGood ε ∧ y.shape = x.shape ∧ y.RanksLe x ∧ y.len = x.len ∧
      y.l = x.l + 1 ∧ y.r = max x.r (x.l + 2) ∧
      ∀ f g s w, 1 ≤ s → f ≤ x.l + 1 → (g = x.len) → Wts f g s x w → ∃ w', Errs ε 1 (x.l + 1) g x y s w w' := by
  obtain ⟨y, pre, post, t, u, t', u', h1, h2, h3, h4, h5, h6, h7⟩ := rcanonStepF_ok hε hqr hmd hx hlen
  refine ⟨y, h1, h2.good, h2.shape, h2.ranks, h2.len, h4, h5, ?_⟩
  intro f g s w hs hf hg hw
  have hlr := hx.valid.l_lt_r
  have hs0 : 0 ≤ s := by linarith
  set c := pre.length with hc
  have ht : x.lt[c]? = some t := by rw [h2.old]; exact getElem?_at hc
  have hu : x.lt[c + 1]? = some u := by rw [h2.old]; exact getElem?_at1 (by rw [hc])
  have hxlen : x.len = c + 2 + post.length := by simp [MPA.len, h2.old, hc]; omega
  have hloc := hx.valid.chain.isLocal
  have hul : u.IsLocal := hloc u (by rw [h2.old]; simp)
  have htw : npNorm t ≤ w c := hw.mid c t ht (by omega) (by omega)
  have huw : npNorm u ≤ s * w (c + 1) := hw.size (c + 1) u hu (by push_cast; omega) (by push_cast; omega)
  have hur : ROp (w (c + 1)) u := by
    by_cases hr : x.l + 1 < x.r
    · exact rop_mono (npNorm_nonneg' u) (hw.mid (c + 1) u hu (by push_cast; omega) (by push_cast; omega)) (rop_frob hul)
    · exact hw.right (c + 1) u hu (by push_cast; omega)
  obtain ⟨k1, k2⟩ := h7 (w (c + 1)) s (hw.nonneg _) hs0 hur huw
  have hT := npNorm_nonneg' t
  have hb0 : 0 ≤ (1 + ε) * (1 + ε * s) * (w (c + 1) * w c) := by
    have := hw.nonneg c
    have := hw.nonneg (c + 1)
    positivity
  refine ⟨wnew w c (1 + ε) ((1 + ε) * (1 + ε * s) * (w (c + 1) * w c)), ⟨⟨?_, ?_, ?_, ?_, ?_⟩, ?_, ?_⟩⟩
  · intro n
    unfold wnew
    split
    · linarith
    · split
      · exact hb0
      · exact hw.nonneg n
  all_goals try rw [h2.new]
  · intro n a ha hn
    rw [h4] at hn
    rcases getElem?_mid ha with ⟨e1, e2⟩ | ⟨e1, e2⟩ | ⟨e1, e2⟩ | ⟨e1, e2⟩
    · unfold wnew
      rw [if_neg (by omega), if_neg (by omega)]
      exact hw.left n a (by rw [h2.old]; exact getElem?_pre e2) (by omega)
    · unfold wnew
      rw [if_pos (by omega), e2]; exact h6.1
    · exfalso; omega
    · exfalso; omega
  · intro n a ha hn hn'
    rw [h4] at hn
    rw [h5] at hn'
    rcases getElem?_mid ha with ⟨e1, e2⟩ | ⟨e1, e2⟩ | ⟨e1, e2⟩ | ⟨e1, e2⟩
    · exfalso; omega
    · exfalso; omega
    · unfold wnew
      rw [if_neg (by omega), if_pos (by omega), e2]
      refine k1.trans ?_
      have := hw.nonneg (c + 1)
      gcongr
    · unfold wnew
      rw [if_neg (by omega), if_neg (by omega)]
      exact hw.mid n a (by rw [h2.old]; exact e2 t u) (by omega) (by omega)
  · intro n a ha hn
    rw [h5] at hn
    rcases getElem?_mid ha with ⟨e1, e2⟩ | ⟨e1, e2⟩ | ⟨e1, e2⟩ | ⟨e1, e2⟩
    · exfalso; omega
    · exfalso; omega
    · exfalso; omega
    · unfold wnew
      rw [if_neg (by omega), if_neg (by omega)]
      exact hw.right n a (by rw [h2.old]; exact e2 t u) (by omega)
  · intro n a ha hn hn'
    rcases getElem?_mid ha with ⟨e1, e2⟩ | ⟨e1, e2⟩ | ⟨e1, e2⟩ | ⟨e1, e2⟩
    · exfalso; omega
    · exfalso; omega
    · unfold wnew
      rw [if_neg (by omega), if_pos (by omega), e2]
      refine (k1.trans ?_).trans (le_mul_of_one_le_left hb0 hs)
      have := hw.nonneg (c + 1)
      gcongr
    · unfold wnew
      rw [if_neg (by omega), if_neg (by omega)]
      exact hw.size n a (by rw [h2.old]; exact e2 t u) (by omega) hn'
  · unfold wprod
    rw [h2.len, wnew_prod (by omega) (growC ε s) (by unfold growC; ring), pow_one]
  · simp only [Finset.range_one, Finset.sum_singleton, pow_zero, mul_one]
    refine h2.dist hx hw.nonneg ?_ ?_ (by unfold errC; positivity) (k2.trans ?_)
    · intro n a ha
      have := (List.getElem?_eq_some_iff.1 ha).1
      exact hw.left n a (by rw [h2.old]; exact getElem?_pre ha) (by omega)
    · intro n a ha
      have hx' : x.lt[pre.length + 2 + n]? = some a := by rw [h2.old]; exact getElem?_post ha
      by_cases hr : ((pre.length + 2 + n : ℕ) : ℤ) < x.r
      · exact rop_mono (npNorm_nonneg' a) (hw.mid _ a hx' (by push_cast; omega) hr) (rop_frob (hloc a (List.mem_of_getElem? hx')))
      · exact hw.right _ a hx' (by omega)
    · have := hw.nonneg (c + 1)
      have := hw.nonneg c
      refine pow_le_pow_left₀ (by positivity) ?_ 2
      unfold errC
      rw [mul_comm (w pre.length)]
      gcongr

/-- One step of right canonicalisation, with the weights. -/
theorem lcanonStepF_errs {ε : ℝ} (hε : 0 ≤ ε) {qr : QR 𝕜} (hqr : QRNear ε qr) {md : NDArray 𝕜 → NDArray 𝕜 → Py (NDArray 𝕜)}
    (hmd : MdNear ε md) {x : MPA 𝕜} (hx : x.NearGood ε) (hlen : 2 ≤ x.r) :
    ∃ y, x.lcanonStepF qr md (x.r - 1) = .ok y ∧ y.NearGood ε ∧ y.shape = x.shape ∧ y.RanksLe x ∧ y.len = x.len ∧
      y.r = x.r - 1 ∧ y.l = min x.l (x.r - 2) ∧
      ∀ f g s w, 1 ≤ s → x.r - 1 ≤ g → f ≤ x.r - 2 → Wts f g s x w → ∃ w', Errs ε 1 f (x.r - 1) x y s w w' := by
  obtain ⟨y, pre, post, t, u, t', u', h1, h2, h3, h4, h5, h6, h7⟩ := lcanonStepF_ok hε hqr hmd hx hlen
  refine ⟨y, h1, h2.good, h2.shape, h2.ranks, h2.len, h4, h5, ?_⟩
  intro f g s w hs hg hf hw
  have hlr := hx.valid.l_lt_r
  have hrle := hx.valid.r_le
  have hs0 : 0 ≤ s := by linarith
  set c := pre.length with hc
  have ht : x.lt[c]? = some t := by rw [h2.old]; exact getElem?_at hc
  have hu : x.lt[c + 1]? = some u := by rw [h2.old]; exact getElem?_at1 (by rw [hc])
  have hxlen : x.len = c + 2 + post.length := by simp [MPA.len, h2.old, hc]; omega
  have hloc := hx.valid.chain.isLocal
  have htl : t.IsLocal := hloc t (by rw [h2.old]; simp)
  have huw : npNorm u ≤ w (c + 1) := hw.mid (c + 1) u hu (by push_cast; omega) (by push_cast; omega)
  have htw : npNorm t ≤ s * w c := hw.size c t ht (by omega) (by omega)
  have htr : LOp (w c) t := by
    by_cases hr : x.l ≤ c
    · exact lop_mono (npNorm_nonneg' t) (hw.mid c t ht hr (by omega)) (lop_frob htl)
    · exact hw.left c t ht (by omega)
  obtain ⟨k1, k2⟩ := h7 (w c) s (hw.nonneg _) hs0 htr htw
  have hU := npNorm_nonneg' u
  have hb0 : 0 ≤ (1 + ε) * (1 + ε * s) * (w c * w (c + 1)) := by
    have := hw.nonneg c
    have := hw.nonneg (c + 1)
    positivity
  refine ⟨wnew w c ((1 + ε) * (1 + ε * s) * (w c * w (c + 1))) (1 + ε), ⟨⟨?_, ?_, ?_, ?_, ?_⟩, ?_, ?_⟩⟩
  · intro n
    unfold wnew
    split
    · exact hb0
    · split
      · linarith
      · exact hw.nonneg n
  all_goals try rw [h2.new]
  · intro n a ha hn
    rw [h5] at hn
    rcases getElem?_mid ha with ⟨e1, e2⟩ | ⟨e1, e2⟩ | ⟨e1, e2⟩ | ⟨e1, e2⟩
    · unfold wnew
      rw [if_neg (by omega), if_neg (by omega)]
      exact hw.left n a (by rw [h2.old]; exact getElem?_pre e2) (by omega)
    · exfalso; omega
    · exfalso; omega
    · exfalso; omega
  · intro n a ha hn hn'
    rw [h5] at hn
    rw [h4] at hn'
    rcases getElem?_mid ha with ⟨e1, e2⟩ | ⟨e1, e2⟩ | ⟨e1, e2⟩ | ⟨e1, e2⟩
    · unfold wnew
      rw [if_neg (by omega), if_neg (by omega)]
      exact hw.mid n a (by rw [h2.old]; exact getElem?_pre e2) (by omega) (by omega)
    · unfold wnew
      rw [if_pos (by omega), e2]
      refine k1.trans ?_
      have := hw.nonneg c
      gcongr
    · exfalso; omega
    · exfalso; omega
  · intro n a ha hn
    rw [h4] at hn
    rcases getElem?_mid ha with ⟨e1, e2⟩ | ⟨e1, e2⟩ | ⟨e1, e2⟩ | ⟨e1, e2⟩
    · exfalso; omega
    · exfalso; omega
    · unfold wnew
      rw [if_neg (by omega), if_pos (by omega), e2]; exact h6.1
    · unfold wnew
      rw [if_neg (by omega), if_neg (by omega)]
      exact hw.right n a (by rw [h2.old]; exact e2 t u) (by omega)
  · intro n a ha hn hn'
    rcases getElem?_mid ha with ⟨e1, e2⟩ | ⟨e1, e2⟩ | ⟨e1, e2⟩ | ⟨e1, e2⟩
    · unfold wnew
      rw [if_neg (by omega), if_neg (by omega)]
      exact hw.size n a (by rw [h2.old]; exact getElem?_pre e2) hn (by omega)
    · unfold wnew
      rw [if_pos (by omega), e2]
      refine (k1.trans ?_).trans (le_mul_of_one_le_left hb0 hs)
      have := hw.nonneg c
      gcongr
    · exfalso; omega
    · exfalso; omega
  · unfold wprod
    rw [h2.len, wnew_prod (by omega) (growC ε s) (by unfold growC; ring), pow_one]
  · simp only [Finset.range_one, Finset.sum_singleton, pow_zero, mul_one]
    refine h2.dist hx hw.nonneg ?_ ?_ (by unfold errC; positivity) (k2.trans ?_)
    · intro n a ha
      have := (List.getElem?_eq_some_iff.1 ha).1
      have hx' : x.lt[n]? = some a := by rw [h2.old]; exact getElem?_pre ha
      by_cases hr : (n : ℤ) < x.l
      · exact hw.left n a hx' hr
      · exact lop_mono (npNorm_nonneg' a) (hw.mid _ a hx' (by omega) (by omega)) (lop_frob (hloc a (List.mem_of_getElem? hx')))
    · intro n a ha
      exact hw.right _ a (by rw [h2.old]; exact getElem?_post ha) (by push_cast; omega)
    · have := hw.nonneg (c + 1)
      have := hw.nonneg c
      refine pow_le_pow_left₀ (by positivity) ?_ 2
      unfold errC
      gcongr

/-- What a sweep keeps. -/
structure NearStep (ε : ℝ) (x y : MPA 𝕜) : Prop where
  good : y.NearGood ε
  shape : y.shape = x.shape
  ranks : y.RanksLe x
  len : y.len = x.len

theorem NearStep.rfl' {ε : ℝ} {x : MPA 𝕜} (hx : x.NearGood ε) : NearStep ε x x :=
  ⟨hx, rfl, RanksLe.rfl' x, rfl⟩

theorem NearStep.trans {ε : ℝ} {x y z : MPA 𝕜} (h : NearStep ε x y) (h' : NearStep ε y z) : NearStep ε x z :=
  ⟨h'.good, h'.shape.trans h.shape, h'.ranks.trans h.ranks, h'.len.trans h.len⟩

theorem Errs.zero {ε : ℝ} {f g : ℤ} {x : MPA 𝕜} {s : ℝ} {w : ℕ → ℝ} (h : Wts f g s x w) : Errs ε 0 f g x x s w w :=
  ⟨h, by simp, by simp [MPA.dist_self']⟩

theorem Wts.mono {f g f' g' : ℤ} {x : MPA 𝕜} {s : ℝ} {w : ℕ → ℝ} (h : Wts f g s x w) (hf : f ≤ f') (hg : g' ≤ g) :
    Wts f' g' s x w :=
  ⟨h.nonneg, h.left, h.mid, h.right, fun n t ht h1 h2 => h.size n t ht (hf.trans h1) (h2.trans_le hg)⟩

theorem rcanonF_loop {ε : ℝ} (hε : 0 ≤ ε) {qr : QR 𝕜} (hqr : QRNear ε qr) {md : NDArray 𝕜 → NDArray 𝕜 → Py (NDArray 𝕜)}
    (hmd : MdNear ε md) {x : MPA 𝕜} (hx : x.NearGood ε) (n : ℕ) (hn : x.l + n < x.len) :
    ∃ y, ((List.range n).map fun k : ℕ => x.l + (k : ℤ) * 1).foldlM (rcanonStepF qr md) x = .ok y ∧
      NearStep ε x y ∧ y.l = x.l + n ∧ (y.r = if n = 0 then x.r else max x.r (x.l + n + 1)) ∧
      ∀ s w, 1 ≤ s → Wts x.l x.len s x w → ∃ w', Errs ε n y.l x.len x y s w w' := by
  induction n with
  | zero =>
    refine ⟨x, rfl, NearStep.rfl' hx, by simp, by simp, fun s w hs hw => ⟨w, Errs.zero hw⟩⟩
  | succ n ih =>
    obtain ⟨y, h1, h2, h3, h4, h5⟩ := ih (by push_cast at hn; omega)
    obtain ⟨z, g1, g2, g3, g4, g5, g6, g7, g8⟩ := rcanonStepF_errs hε hqr hmd h2.good (by
      rw [h3, h2.len]; push_cast at hn; omega)
    refine ⟨z, ?_, h2.trans ⟨g2, g3, g4, g5⟩, ?_, ?_, ?_⟩
    · rw [List.range_succ, List.map_append, List.foldlM_append, h1]
      show (List.foldlM (rcanonStepF qr md) y [x.l + (n : ℤ) * 1]) = _
      rw [show x.l + (n : ℤ) * 1 = y.l by rw [h3]; ring]
      simp only [List.foldlM_cons, List.foldlM_nil]
      rw [g1]; rfl
    · rw [g6, h3]; push_cast; ring
    · rw [g7, h3, h4, if_neg (Nat.succ_ne_zero n)]
      split
      · rename_i h0; subst h0; push_cast; congr 1; ring
      · push_cast; omega
    · intro s w hs hw
      obtain ⟨w', k1⟩ := h5 s w hs hw
      obtain ⟨w'', k2⟩ := g8 y.l x.len s w' hs (by omega) (by rw [h2.len]) k1.wts
      rw [g6]
      exact ⟨w'', k1.trans h2.shape k2⟩

theorem lcanonF_loop {ε : ℝ} (hε : 0 ≤ ε) {qr : QR 𝕜} (hqr : QRNear ε qr) {md : NDArray 𝕜 → NDArray 𝕜 → Py (NDArray 𝕜)}
    (hmd : MdNear ε md) {x : MPA 𝕜} (hx : x.NearGood ε) (n : ℕ) (hn : 1 ≤ x.r - n) :
    ∃ y, ((List.range n).map fun k : ℕ => x.r - 1 + (k : ℤ) * (-1)).foldlM (lcanonStepF qr md) x = .ok y ∧
      NearStep ε x y ∧ y.r = x.r - n ∧ (y.l = if n = 0 then x.l else min x.l (x.r - n - 1)) ∧
      ∀ f s w, 1 ≤ s → f ≤ x.r - n - 1 → Wts f x.r s x w → ∃ w', Errs ε n f y.r x y s w w' := by
  induction n with
  | zero => exact ⟨x, rfl, NearStep.rfl' hx, by simp, by simp, fun f s w hs _ hw => ⟨w, Errs.zero hw⟩⟩
  | succ n ih =>
    obtain ⟨y, h1, h2, h3, h4, h5⟩ := ih (by push_cast at hn; omega)
    obtain ⟨z, g1, g2, g3, g4, g5, g6, g7, g8⟩ := lcanonStepF_errs hε hqr hmd h2.good (by
      rw [h3]; push_cast at hn; omega)
    refine ⟨z, ?_, h2.trans ⟨g2, g3, g4, g5⟩, ?_, ?_, ?_⟩
    · rw [List.range_succ, List.map_append, List.foldlM_append, h1]
      show (List.foldlM (lcanonStepF qr md) y [x.r - 1 + (n : ℤ) * (-1)]) = _
      rw [show x.r - 1 + (n : ℤ) * (-1) = y.r - 1 by rw [h3]; ring]
      simp only [List.foldlM_cons, List.foldlM_nil]
      rw [g1]; rfl
    · rw [g6, h3]; push_cast; ring
    · rw [g7, h3, h4, if_neg (Nat.succ_ne_zero n)]
      split
      · rename_i h0; subst h0; push_cast; congr 1; ring
      · push_cast; omega
    · intro f s w hs hf hw
      obtain ⟨w', k1⟩ := h5 f s w hs (by push_cast at hf; omega) hw
      obtain ⟨w'', k2⟩ := g8 f y.r s w' hs (by omega) (by push_cast at hf; omega) k1.wts
      rw [g6]
      exact ⟨w'', k1.trans h2.shape k2⟩

theorem rcanonicalizeF_ok {ε : ℝ} (hε : 0 ≤ ε) {qr : QR 𝕜} (hqr : QRNear ε qr) {md : NDArray 𝕜 → NDArray 𝕜 → Py (NDArray 𝕜)}
    (hmd : MdNear ε md) {x : MPA 𝕜} (hx : x.NearGood ε) {c : ℤ} (h0 : 0 ≤ c) (h1 : c < x.len) :
    ∃ y, x.rcanonicalizeF qr md c = .ok y ∧ NearStep ε x y ∧ y.l = max x.l c ∧
      (y.r = if x.l < c then max x.r (c + 1) else x.r) ∧
      ∀ s w, 1 ≤ s → Wts x.l x.len s x w → ∃ w', Errs ε (c - x.l).toNat y.l x.len x y s w w' := by
  have hlr := hx.valid.l_lt_r
  have hrle := hx.valid.r_le
  obtain ⟨y, g1, g2, g3, g4, g5⟩ := rcanonF_loop hε hqr hmd hx (c - x.l).toNat (by omega)
  refine ⟨y, ?_, g2, by omega, ?_, g5⟩
  · unfold rcanonicalizeF
    rw [pyAssert_true ⟨h0, h1⟩, pyRange_up]
    exact g1
  · rw [g4]
    by_cases h : x.l < c
    · rw [if_neg (by omega), if_pos h]; congr 1; omega
    · rw [if_pos (by omega), if_neg h]

theorem lcanonicalizeF_ok {ε : ℝ} (hε : 0 ≤ ε) {qr : QR 𝕜} (hqr : QRNear ε qr) {md : NDArray 𝕜 → NDArray 𝕜 → Py (NDArray 𝕜)}
    (hmd : MdNear ε md) {x : MPA 𝕜} (hx : x.NearGood ε) {c : ℤ} (h0 : 0 < c) (h1 : c ≤ x.len) :
    ∃ y, x.lcanonicalizeF qr md c = .ok y ∧ NearStep ε x y ∧ y.r = min x.r c ∧
      (y.l = if c < x.r then min x.l (c - 1) else x.l) ∧
      ∀ f s w, 1 ≤ s → f ≤ c - 1 → f < x.r → Wts f x.r s x w → ∃ w', Errs ε (x.r - c).toNat f y.r x y s w w' := by
  have hlr := hx.valid.l_lt_r
  have hl0 := hx.valid.l_nonneg
  have hrle := hx.valid.r_le
  obtain ⟨y, g1, g2, g3, g4, g5⟩ := lcanonF_loop hε hqr hmd hx (x.r - c).toNat (by omega)
  refine ⟨y, ?_, g2, by omega, ?_, fun f s w hs hf hf' hw => g5 f s w hs (by omega) hw⟩
  · unfold lcanonicalizeF
    rw [pyAssert_true ⟨h0, h1⟩, pyRange_down, show x.r - 1 - (c - 1) = x.r - c by ring]
    exact g1
  · rw [g4]
    by_cases h : c < x.r
    · rw [if_neg (by omega), if_pos h]; congr 1; omega
    · rw [if_pos (by omega), if_neg h]

end MPA

end Mpnum
