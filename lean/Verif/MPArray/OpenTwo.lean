import Verif.Props.C55

/-!
# Splitting a block of two sites is optimal

The SVD compression of a chain of two sites with open ends is one truncation, so that it is a best approximation.
-/

open Finset

namespace Mpnum

variable {𝕜 : Type} [RCLike 𝕜]

/-- Two contracted sites; the index of each site includes its open end. -/
def pairVal (t u : NDArray 𝕜) (I : List (List ℕ)) : 𝕜 :=
  ∑ z ∈ range u.lb, t.get (I.getD 0 [] ++ [z]) * u.get (z :: I.getD 1 [])

theorem mp_pair {a : ℕ} {t u : NDArray 𝕜} {b : ℕ} (hc : Chained a [t, u] b) (i : ℕ) (p q : List ℕ) (j : ℕ) (hj : j < b) :
    mp [t, u] [p, q] i j = pairVal t u [i :: p, q ++ [j]] := by
  obtain ⟨h1, h2, h3, h4, h5⟩ := hc
  rw [mp_cons, ← h4]
  refine sum_congr rfl fun z hz => ?_
  rw [mp_cons]
  rw [sum_eq_single_of_mem j (by rw [mem_range, show u.rb = b from h5]; exact hj)]
  · simp [mp_nil, NDArray.at3]
  · intro c _ hne
    rw [mp_nil, if_neg hne, mul_zero]

theorem sumSites_pair {M : Type} [AddCommMonoid M] (a b : ℕ) (p q : List ℕ) (F : List (List ℕ) → M) :
    sumSites [a :: p, q ++ [b]] F = ∑ i ∈ range a, sumSites [p, q] fun I => ∑ j ∈ range b,
      F [i :: I.getD 0 [], I.getD 1 [] ++ [j]] := by
  simp only [sumSites_cons, sumSites_nil, sumIdx_cons, sumIdx_append, sumIdx_nil]
  rfl

theorem idxOK_one {i : List (List ℕ)} {S : List ℕ} (h : IdxOK i [S]) : ∃ p, i = [p] ∧ InB p S := by
  cases h with
  | cons h1 h2 => cases h2; exact ⟨_, rfl, h1⟩

theorem pair_cut {svd : SVD 𝕜} (h : SVDSpec svd) {rank : ℤ} {x y : MPA 𝕜} {t u t' u' mat : NDArray 𝕜}
    (hst : MPA.StepR x [] [] t u t' u' mat (svdPickR svd (truncatedSvd svd) rank none t.rb mat) y)
    (hm : mat.shape = [(t.lb :: t.ph).prod, t.rb])
    (hmat : ∀ i b, InB i (t.lb :: t.ph) → b < t.rb → mat.get [ravelIdx (t.lb :: t.ph) i, b] = t.get (i ++ [b]))
    (htu : u.lb = t.rb) (hu : RCanon u) :
    SchmidtCut [t.lb :: t.ph, u.ph ++ [u.rb]] 1 (pairVal t u) (pairVal t' u') (svd mat).2.1
      (min rank.toNat (svd mat).2.1.length) := by
  obtain ⟨s1, s2, s3, s4, s5, s6, s7, s8⟩ := h mat _ _ hm
  obtain ⟨U, s, V, hs⟩ : ∃ U s V, svd mat = (U, s, V) := ⟨_, _, _, rfl⟩
  rw [hs] at s1 s2 s3 s4 s5 s6 s7 s8
  simp only at s1 s2 s3 s4 s5 s6 s7 s8
  have hp : svdPickR svd (truncatedSvd svd) rank none t.rb mat
      = (U.cols (min rank.toNat s.length), s.take (min rank.toNat s.length), V.rows (min rank.toNat s.length),
        min rank.toNat s.length) := by
    simp only [svdPickR, truncatedSvd, hs, List.length_take]
    simp
  rw [hp] at hst
  rw [hs]
  have hk : min rank.toNat s.length ≤ s.length := min_le_right _ _
  show SchmidtCut _ _ _ _ s (min rank.toNat s.length)
  generalize min rank.toNat s.length = k at *
  refine ⟨fun I c => U.get [ravelIdx (t.lb :: t.ph) (I.headD []), c],
    fun c J => ∑ z ∈ range u.lb, V.get [c, z] * u.get (z :: J.headD []), ⟨s4, s5, ?_, ?_, ?_⟩, hk, ?_⟩
  · intro b hb b' hb'
    simp only [List.take_succ_cons, List.take_zero]
    rw [sumSites_single]
    have := sumIdx_ravel (t.lb :: t.ph) fun n => star (U.get [n, b]) * U.get [n, b']
    refine Eq.trans this (s6 b (by omega) b' (by omega))
  · intro b hb b' hb'
    simp only [List.drop_succ_cons, List.drop_zero]
    rw [sumSites_single]
    have e : ∀ z ∈ range u.lb, ∀ z' ∈ range u.lb, (sumIdx (u.ph ++ [u.rb]) fun j => star (u.get (z :: j)) * u.get (z' :: j))
        = if z' = z then 1 else 0 := by
      intro z hz z' hz'
      rw [← hu z' (mem_range.1 hz') z (mem_range.1 hz), sumIdx_append, sumIdx_eq_sum]
      simp only [sumIdx_cons, sumIdx_nil]
      rw [sum_comm]
      refine sum_congr rfl fun c _ => ?_
      rw [sumIdx_eq_sum]
      exact sum_congr rfl fun p _ => mul_comm _ _
    rw [sumIdx_eq_sum]
    have e2 : ∀ j, star (∑ z ∈ range u.lb, V.get [b, z] * u.get (z :: j)) * (∑ z ∈ range u.lb, V.get [b', z] * u.get (z :: j))
        = ∑ z ∈ range u.lb, ∑ z' ∈ range u.lb, star (V.get [b, z]) * V.get [b', z'] * (star (u.get (z :: j)) * u.get (z' :: j)) := by
      intro j
      rw [star_sum, sum_mul]
      refine sum_congr rfl fun z _ => ?_
      rw [mul_sum]
      refine sum_congr rfl fun z' _ => ?_
      rw [star_mul']; ring
    simp only [List.headD_cons, e2]
    rw [sum_comm]
    refine Eq.trans (sum_congr (g := fun z => star (V.get [b, z]) * V.get [b', z]) rfl fun z hz => ?_) ?_
    · rw [sum_comm]
      simp only [← mul_sum]
      rw [sum_eq_single_of_mem z hz]
      · rw [← sumIdx_eq_sum, e z hz z hz, if_pos rfl, mul_one]
      · intro z' hz' hne
        rw [← sumIdx_eq_sum, e z hz z' hz', if_neg hne, mul_zero]
    · rw [htu]
      have := s7 b' (by omega) b (by omega)
      refine Eq.trans (sum_congr rfl fun z _ => mul_comm _ _) (this.trans ?_)
      by_cases hbb : b = b'
      · rw [if_pos hbb, if_pos hbb.symm]
      · rw [if_neg hbb, if_neg (Ne.symm hbb)]
  · intro i j hi hj
    simp only [List.take_succ_cons, List.take_zero, List.drop_succ_cons, List.drop_zero] at hi hj
    obtain ⟨i, rfl, hi'⟩ := idxOK_one hi
    obtain ⟨j, rfl, hj'⟩ := idxOK_one hj
    clear hi hj
    rename' hi' => hi, hj' => hj
    have e : ∀ z ∈ range u.lb, t.get (i ++ [z]) = ∑ c ∈ range s.length, U.get [ravelIdx (t.lb :: t.ph) i, c] *
        ((s.getD c 0 : ℝ) : 𝕜) * V.get [c, z] := by
      intro z hz
      rw [htu] at hz
      rw [← hmat i z hi (mem_range.1 hz), s8 _ (ravelIdx_lt hi) z (mem_range.1 hz), s2]
    simp only [pairVal, List.cons_append, List.nil_append, List.getD_cons_zero, List.getD_cons_succ, List.headD_cons]
    rw [sum_congr rfl fun z hz => by rw [e z hz, sum_mul], sum_comm]
    refine sum_congr rfl fun c _ => ?_
    rw [mul_sum]
    exact sum_congr rfl fun z _ => by ring
  · intro i j hi hj
    simp only [List.take_succ_cons, List.take_zero, List.drop_succ_cons, List.drop_zero] at hi hj
    obtain ⟨i, rfl, hi'⟩ := idxOK_one hi
    obtain ⟨j, rfl, hj'⟩ := idxOK_one hj
    clear hi hj
    rename' hi' => hi, hj' => hj
    simp only [pairVal, List.cons_append, List.nil_append, List.getD_cons_zero, List.getD_cons_succ, List.headD_cons]
    rw [NDArray.lb_of_shape hst.ushape]
    refine sum_congr rfl fun c hc => ?_
    have hc' : c < k := mem_range.1 hc
    obtain ⟨a, q, rfl⟩ : ∃ a q, i = a :: q := by
      cases hi with | cons _ _ => exact ⟨_, _, rfl⟩
    have hi' : a < t.lb ∧ InB q t.ph := by
      cases hi with | cons h1 h2 => exact ⟨h1, h2⟩
    obtain ⟨q', c', rfl, hq', hc2⟩ := inB_append_split hj
    obtain ⟨d, rfl⟩ : ∃ d, c' = [d] := by
      cases hc2 with | cons _ h0 => cases h0 with | nil => exact ⟨_, rfl⟩
    have e1 := hst.tval a hi'.1 q hi'.2 c hc'
    have e2 := hst.uval c hc' q' hq' d
    simp only [NDArray.at3] at e1 e2
    rw [List.cons_append, e1, e2, mul_sum, mul_sum]
    refine sum_congr rfl fun z _ => ?_
    have e3 : (s.take k).getD c 0 = s.getD c 0 := by
      simp [List.getD_eq_getElem?_getD, List.getElem?_take, hc']
    rw [e3]
    show U.get _ * (_ * V.get _ * _) = _
    ring

/-- No pair of sites with a bond of at most `rank` is closer to the chain than the result of the compression. -/
theorem pair_best {svd : SVD 𝕜} (h : SVDSpec svd) {rank : ℕ} {x y : MPA 𝕜} {t u t' u' mat : NDArray 𝕜}
    (hst : MPA.StepR x [] [] t u t' u' mat (svdPickR svd (truncatedSvd svd) (rank : ℤ) none t.rb mat) y)
    (hm : mat.shape = [(t.lb :: t.ph).prod, t.rb])
    (hmat : ∀ i b, InB i (t.lb :: t.ph) → b < t.rb → mat.get [ravelIdx (t.lb :: t.ph) i, b] = t.get (i ++ [b]))
    (htu : u.lb = t.rb) (hu : RCanon u) (v w : NDArray 𝕜) (hw : w.lb ≤ rank) :
    (sumSites [t.lb :: t.ph, u.ph ++ [u.rb]] fun I => ‖pairVal t u I‖ ^ 2)
        - (sumSites [t.lb :: t.ph, u.ph ++ [u.rb]] fun I => ‖pairVal t' u' I‖ ^ 2)
      ≤ tdist [t.lb :: t.ph, u.ph ++ [u.rb]] (pairVal t u) (pairVal v w) := by
  have hc := pair_cut h hst hm hmat htu hu
  have hseq : CutSeq [t.lb :: t.ph, u.ph ++ [u.rb]] (fun s k => min rank s.length ≤ k) [1] (pairVal t u) (pairVal t' u')
      [((svd mat).2.1, min (rank : ℤ).toNat (svd mat).2.1.length)] :=
    .cons hc (by simp) (.nil fun _ _ => rfl)
  rw [hseq.norm_lost]
  have := cutSeq_le_right hseq (r := rank) (fun _ _ h => h) (by simp) (by simp) (fun _ => pairVal v w) (by
    intro k hk
    obtain rfl : k = 1 := by simpa using hk
    refine ⟨fun I c => if c < w.lb then v.get (I.headD [] ++ [c]) else 0, fun c J => w.get (c :: J.headD []), ?_⟩
    intro i j hi hj
    simp only [List.take_succ_cons, List.take_zero, List.drop_succ_cons, List.drop_zero] at hi hj
    obtain ⟨i, rfl, hi'⟩ := idxOK_one hi
    obtain ⟨j, rfl, hj'⟩ := idxOK_one hj
    clear hi hj
    rename' hi' => hi, hj' => hj
    simp only [pairVal, List.cons_append, List.nil_append, List.getD_cons_zero, List.getD_cons_succ, List.headD_cons]
    refine Eq.trans (sum_congr rfl fun c hc => by rw [if_pos (mem_range.1 hc)]) (sum_subset (range_subset_range.2 hw) ?_)
    intro c _ hc
    rw [if_neg (by simpa using hc), zero_mul])
  simpa using this

theorem sumOpen_pair {M : Type} [AddCommMonoid M] {a b : ℕ} {p q : List ℕ} (F G : List (List ℕ) → ℕ → ℕ → M)
    (h : ∀ i < a, ∀ x, InB x p → ∀ y, InB y q → ∀ j < b, F [x, y] i j = G [x, y] i j) :
    (∑ i ∈ range a, sumSites [p, q] fun I => ∑ j ∈ range b, F I i j)
      = ∑ i ∈ range a, sumSites [p, q] fun I => ∑ j ∈ range b, G I i j := by
  refine sum_congr rfl fun i hi => sumSites_congr fun I hI => sum_congr rfl fun j hj => ?_
  cases hI with
  | cons h1 h2 =>
    obtain ⟨y, rfl, hy⟩ := idxOK_one h2
    exact h i (mem_range.1 hi) _ h1 _ hy j (mem_range.1 hj)

/-- The result of compressing a chain of two sites with open ends is a best approximation. -/
theorem compress_two {qr : QR 𝕜} {svd : SVD 𝕜} (hqr : QRSpec qr) (h : SVDSpec svd) {rank : ℕ} (hr : 0 < rank)
    {a b : ℕ} {x y : MPA 𝕜} {o : ℝ} (hx : x.GoodO a b) (hlen : x.len = 2) (hxr : x.r = x.len)
    (hy : x.compress qr svd (some rank) none none true = .ok (y, o)) {v w : NDArray 𝕜} (hvw : Chained a [v, w] b)
    (hw : w.lb ≤ rank) :
    (∑ i ∈ range a, sumSites x.shape fun I => ∑ j ∈ range b, ‖mp x.lt I i j‖ ^ 2)
        - (∑ i ∈ range a, sumSites x.shape fun I => ∑ j ∈ range b, ‖mp y.lt I i j‖ ^ 2)
      ≤ ∑ i ∈ range a, sumSites x.shape fun I => ∑ j ∈ range b, ‖mp x.lt I i j - mp [v, w] I i j‖ ^ 2 := by
  obtain ⟨x', c1, c2, c3, c4⟩ := MPA.canonicalize_right_open hqr hx
  obtain ⟨t, u, htu⟩ : ∃ t u, x'.lt = [t, u] := List.length_eq_two.1 (c2.len.trans hlen)
  obtain ⟨mat, t', u', z, m1, m2, m3, m4, m5, m6, m7, m8⟩ := MPA.svdStepR_ok h (truncatedSvd_spec h) (rank := (rank : ℤ))
    (by exact_mod_cast hr) (relerr := none) c2.good (pre := []) (post := []) htu (by rw [c3]; simp) []
  have hxy : z = y := by
    unfold MPA.compress MPA.compressSvd at hy
    rw [if_neg (by omega)] at hy
    have hl := hx.l_nonneg
    simp only [Option.getD_none] at hy
    rw [if_neg (by omega)] at hy
    simp only [if_true, c1, ok_bind] at hy
    unfold MPA.compressSvdR at hy
    rw [MPA.svdArgs_ok (by exact_mod_cast hr) (by simp), ok_bind, show ((x'.len : ℤ) - 1) = 1 by rw [c2.len, hlen]; rfl] at hy
    simp only [List.length_nil, Nat.cast_zero] at m7
    rw [show pyRange 0 1 1 = [0] by rfl, List.foldlM_cons, m7, ok_bind, List.foldlM_nil] at hy
    simp only [pure, Except.pure, ok_bind] at hy
    cases hs : z.site (-1) with
    | error e => rw [hs] at hy; cases hy
    | ok s => rw [hs, ok_bind] at hy; cases hy; rfl
  subst hxy
  have hch := c2.good.chain
  rw [htu] at hch
  obtain ⟨h1, h2, h3, h4, h5⟩ := hch
  have h5' : u.rb = b := h5
  have hgz := (m8.goodO c2.good).chain
  rw [m8.lt] at hgz
  have hu : RCanon u := by
    refine (c2.good.canon 1 u (by rw [htu]; rfl)).2 ?_
    rw [c4]; rfl
  have hS : x.shape = [t.ph, u.ph] := by
    rw [← c2.same.shape]
    show physShape x'.lt = _
    rw [htu]; rfl
  have key := pair_best h m8 m1 m4 h4 hu v w hw
  unfold tdist at key
  rw [sumSites_pair, sumSites_pair, sumSites_pair, h2, h5'] at key
  have hxv : ∀ i < a, ∀ p, InB p t.ph → ∀ q, InB q u.ph → ∀ j < b, mp x.lt [p, q] i j = pairVal t u [i :: p, q ++ [j]] := by
    intro i hi p hp q hq j hj
    rw [← c2.same.val [p, q] (by rw [hS]; exact .cons hp (.cons hq .nil)) i hi j, htu]
    exact mp_pair ⟨h1, h2, h3, h4, h5⟩ i p q j hj
  have hzv : ∀ i p q, ∀ j < b, mp z.lt [p, q] i j = pairVal t' u' [i :: p, q ++ [j]] := by
    intro i p q j hj
    rw [m8.lt]
    exact mp_pair hgz i p q j hj
  rw [hS]
  rw [sumOpen_pair (fun I i j => ‖mp x.lt I i j‖ ^ 2)
      (fun I i j => ‖pairVal t u [i :: I.getD 0 [], I.getD 1 [] ++ [j]]‖ ^ 2)
      (fun i hi p hp q hq j hj => by rw [hxv i hi p hp q hq j hj]; rfl),
    sumOpen_pair (fun I i j => ‖mp z.lt I i j‖ ^ 2)
      (fun I i j => ‖pairVal t' u' [i :: I.getD 0 [], I.getD 1 [] ++ [j]]‖ ^ 2)
      (fun i hi p hp q hq j hj => by rw [hzv i p q j hj]; rfl),
    sumOpen_pair (fun I i j => ‖mp x.lt I i j - mp [v, w] I i j‖ ^ 2)
      (fun I i j => ‖pairVal t u [i :: I.getD 0 [], I.getD 1 [] ++ [j]] - pairVal v w [i :: I.getD 0 [], I.getD 1 [] ++ [j]]‖ ^ 2)
      (fun i hi p hp q hq j hj => by rw [hxv i hi p hp q hq j hj, mp_pair hvw i p q j hj]; rfl)]
  exact key

/-- Factorising a local tensor of two sites loses at most as much as any pair of sites with a bond of at most `rank`. -/
theorem splitBlock_best {qr : QR 𝕜} {svd : SVD 𝕜} (hqr : QRSpec qr) (h : SVDSpec svd) {rank : ℕ} (hr : 0 < rank)
    {X : NDArray 𝕜} {l r : ℕ} {D : List ℕ} (hX : X.shape = l :: (D ++ [r])) (hl : 0 < l) (hr0 : 0 < r)
    (hD : ∀ d ∈ D, 0 < d) (hlen : D.length = 2) {us : List (NDArray 𝕜)} (hus : splitBlock qr svd X rank = .ok us)
    {mid : List (NDArray 𝕜)} (hm : Chained l mid r) (hml : mid.length = 2) (hmr : ∀ t ∈ mid.tail, t.lb ≤ rank) :
    (∑ i ∈ range l, sumSites (D.map fun d => [d]) fun I => ∑ j ∈ range r, ‖X.get (i :: (I.flatten ++ [j]))‖ ^ 2)
        - (∑ i ∈ range l, sumSites (D.map fun d => [d]) fun I => ∑ j ∈ range r, ‖mp us I i j‖ ^ 2)
      ≤ ∑ i ∈ range l, sumSites (D.map fun d => [d]) fun I => ∑ j ∈ range r,
          ‖X.get (i :: (I.flatten ++ [j])) - mp mid I i j‖ ^ 2 := by
  obtain ⟨z, hfrom, hgood, hzs, hzr, hzl, e4⟩ := fromArray_open (qr := qr) hqr hX hl hr0 hD (by omega)
  obtain ⟨v, w, rfl⟩ := List.length_eq_two.1 hml
  obtain ⟨y, o, c1, -⟩ := MPA.compress_open hqr h (rank := (rank : ℤ)) (by exact_mod_cast hr) hgood (by omega) hzr
  unfold splitBlock at hus
  rw [hfrom, ok_bind, c1, ok_bind] at hus
  cases hus
  have key := compress_two hqr h hr hgood (by omega) hzr c1 hm (hmr w (by simp))
  rw [hzs] at key
  have e : ∀ F : List (List ℕ) → ℕ → ℕ → 𝕜 → ℝ, (∑ i ∈ range l, sumSites (D.map fun d => [d]) fun I => ∑ j ∈ range r,
      F I i j (X.get (i :: (I.flatten ++ [j])))) = ∑ i ∈ range l, sumSites (D.map fun d => [d]) fun I => ∑ j ∈ range r,
      F I i j (mp z.lt I i j) := by
    intro F
    refine sum_congr rfl fun i hi => sumSites_congr fun I hI => sum_congr rfl fun j hj => ?_
    rw [e4 i (mem_range.1 hi) j (mem_range.1 hj) I hI]
  rw [e fun _ _ _ a => ‖a‖ ^ 2, e fun I i j a => ‖a - mp [v, w] I i j‖ ^ 2]
  exact key

end Mpnum
