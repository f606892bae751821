import Verif.MPArray.CompressMain
import Verif.Props.C10
import Verif.Sitewise

/-!
# Blocks of sites: factorising and compressing a tensor with open ends

`eig` and the variational compression factorise a local tensor that covers several sites with
`MPArray.from_array(…, has_virtual=True)` and compress the result.  Such a chain has outer bonds of dimension
larger than one.  This file extends the results on canonicalisation and SVD compression to it.
-/

open Finset

namespace Mpnum

section pure
variable {R : Type} [CommRing R] [StarRing R]

/-- All admissible physical indices of a chain. -/
def siteSet : List (List ℕ) → Finset (List (List ℕ))
  | [] => {[]}
  | s :: ss => (idxSet s ×ˢ siteSet ss).image fun p => p.1 :: p.2

theorem sumSites_eq_sum {M : Type} [AddCommMonoid M] : ∀ (S : List (List ℕ)) (f : List (List ℕ) → M),
    sumSites S f = ∑ i ∈ siteSet S, f i
  | [], f => by simp [siteSet]
  | s :: ss, f => by
    rw [sumSites_cons, siteSet, sum_image, sum_product, sumIdx_eq_sum]
    · exact sum_congr rfl fun i _ => sumSites_eq_sum ss _
    · rintro ⟨a, b⟩ _ ⟨c, d⟩ _ h
      simp only [List.cons.injEq] at h
      rw [h.1, h.2]

theorem mem_siteSet : ∀ {S i : List (List ℕ)}, i ∈ siteSet S ↔ IdxOK i S
  | [], i => by
    simp only [siteSet, mem_singleton]
    constructor
    · rintro rfl; exact .nil
    · intro h; cases h; rfl
  | s :: ss, i => by
    simp only [siteSet, mem_image, mem_product, Prod.exists]
    constructor
    · rintro ⟨a, b, ⟨ha, hb⟩, rfl⟩
      exact .cons (mem_idxSet.1 ha) (mem_siteSet.1 hb)
    · intro h
      cases h with
      | cons ha hb => exact ⟨_, _, ⟨mem_idxSet.2 ha, mem_siteSet.2 hb⟩, rfl⟩

/-- Projecting on orthonormal vectors: overlap and norm of the projection agree. -/
theorem proj_overlap {κ μ : Type} (K : Finset κ) (M : Finset μ) (d : ℕ) (A : κ → ℕ → R) (B : ℕ → μ → R) (F : κ → μ → R)
    (orth : ∀ b < d, ∀ b' < d, ∑ k ∈ K, star (A k b) * A k b' = if b = b' then 1 else 0)
    (proj : ∀ b < d, ∀ m ∈ M, B b m = ∑ k ∈ K, star (A k b) * F k m) :
    (∑ k ∈ K, ∑ m ∈ M, star (F k m) * ∑ b ∈ range d, A k b * B b m)
      = ∑ k ∈ K, ∑ m ∈ M, star (∑ b ∈ range d, A k b * B b m) * ∑ b ∈ range d, A k b * B b m := by
  have h1 : (∑ k ∈ K, ∑ m ∈ M, star (F k m) * ∑ b ∈ range d, A k b * B b m)
      = ∑ m ∈ M, ∑ b ∈ range d, star (B b m) * B b m := by
    rw [sum_comm]
    refine sum_congr rfl fun m hm => ?_
    simp only [mul_sum]
    rw [sum_comm]
    refine sum_congr rfl fun b hb => ?_
    rw [proj b (by simpa using hb) m hm, star_sum, sum_mul]
    refine sum_congr rfl fun k _ => ?_
    rw [star_mul', star_star]; ring
  have h2 : (∑ k ∈ K, ∑ m ∈ M, star (∑ b ∈ range d, A k b * B b m) * ∑ b ∈ range d, A k b * B b m)
      = ∑ m ∈ M, ∑ b ∈ range d, star (B b m) * B b m := by
    rw [sum_comm]
    refine sum_congr rfl fun m _ => ?_
    have e : ∀ k, star (∑ b ∈ range d, A k b * B b m) * (∑ b ∈ range d, A k b * B b m)
        = ∑ b ∈ range d, ∑ b' ∈ range d, star (B b m) * B b' m * (star (A k b) * A k b') := by
      intro k
      rw [star_sum, sum_mul]
      refine sum_congr rfl fun b _ => ?_
      rw [mul_sum]
      refine sum_congr rfl fun b' _ => ?_
      rw [star_mul']; ring
    simp only [e]
    rw [sum_comm]
    refine sum_congr rfl fun b hb => ?_
    rw [sum_comm]
    simp only [← mul_sum]
    rw [sum_eq_single_of_mem b hb]
    · rw [orth b (by simpa using hb) b (by simpa using hb), if_pos rfl, mul_one]
    · intro b' hb' hne
      rw [orth b (by simpa using hb) b' (by simpa using hb'), if_neg hne.symm, mul_zero]
  rw [h1, h2]

/-- The part right of the bond is the projection of `f` on the left part (chain with open ends `l`, `r`). -/
def ProjRO (l r : ℕ) (f : ℕ → List (List ℕ) → ℕ → R) (pre post : List (NDArray R)) (d : ℕ) : Prop :=
  ∀ b < d, ∀ c < r, ∀ j, IdxOK j (physShape post) →
    mp post j b c = ∑ a ∈ range l, sumSites (physShape pre) fun i => star (mp pre i a b) * f a (i ++ j) c

theorem projRO_step {l r : ℕ} {f : ℕ → List (List ℕ) → ℕ → R} {pre post : List (NDArray R)} {t u t' u' : NDArray R} {k : ℕ}
    (hch : Chained l (pre ++ t :: u :: post) r)
    (h : ProjRO l r f pre (t :: u :: post) t.lb)
    (ht : t'.shape = t.lb :: (t.ph ++ [k])) (hu : u'.shape = k :: (u.ph ++ [u.rb]))
    (proj : ∀ b < k, ∀ q, InB q u.ph → ∀ c, u'.at3 b q c
      = ∑ z ∈ range u.lb, (∑ a ∈ range t.lb, sumIdx t.ph fun q' => star (t'.at3 a q' b) * t.at3 a q' z) * u.at3 z q c) :
    ProjRO l r f (pre ++ [t']) (u' :: post) k := by
  intro b hb c0 hc0 j hj
  obtain ⟨m, hc1, h1, h2, h3, h4, h5⟩ := chained_append.1 hch
  have el : t'.lb = t.lb := NDArray.lb_of_shape ht
  have ep : t'.ph = t.ph := NDArray.ph_of_shape ht
  have er : t'.rb = k := NDArray.rb_of_shape ht
  have eup : u'.ph = u.ph := NDArray.ph_of_shape hu
  have eur : u'.rb = u.rb := NDArray.rb_of_shape hu
  have hps : physShape (u' :: post) = u.ph :: physShape post := by simp [physShape, eup]
  rw [hps] at hj
  cases hj with
  | @cons q _ js _ hq hjs =>
  have hL : mp (u' :: post) (q :: js) b c0
      = ∑ a ∈ range t.lb, sumIdx t.ph fun q' => star (t'.at3 a q' b) * mp (t :: u :: post) (q' :: q :: js) a c0 := by
    rw [mp_cons, eur]
    simp only [proj b hb q hq]
    have e1 : ∀ c ∈ range u.rb, (∑ z ∈ range u.lb, (∑ a ∈ range t.lb, sumIdx t.ph fun q' =>
          star (t'.at3 a q' b) * t.at3 a q' z) * u.at3 z q c) * mp post js c c0
        = ∑ a ∈ range t.lb, sumIdx t.ph fun q' => star (t'.at3 a q' b) *
            ((∑ z ∈ range t.rb, t.at3 a q' z * u.at3 z q c) * mp post js c c0) := by
      intro c _
      rw [h4, Finset.sum_mul]
      have : ∀ z ∈ range t.rb, (∑ a ∈ range t.lb, sumIdx t.ph fun q' =>
          star (t'.at3 a q' b) * t.at3 a q' z) * u.at3 z q c * mp post js c c0
          = ∑ a ∈ range t.lb, sumIdx t.ph fun q' => star (t'.at3 a q' b) * (t.at3 a q' z * u.at3 z q c * mp post js c c0) := by
        intro z _
        rw [Finset.sum_mul, Finset.sum_mul]
        refine Finset.sum_congr rfl fun a _ => ?_
        rw [sumIdx_mul, sumIdx_mul]
        exact sumIdx_congr fun q' _ => by ring
      rw [Finset.sum_congr rfl this, Finset.sum_comm]
      refine Finset.sum_congr rfl fun a _ => ?_
      rw [← sumIdx_sum_comm]
      refine sumIdx_congr fun q' _ => ?_
      rw [Finset.sum_mul, Finset.mul_sum]
    rw [Finset.sum_congr rfl e1, Finset.sum_comm]
    refine Finset.sum_congr rfl fun a _ => ?_
    rw [← sumIdx_sum_comm]
    refine sumIdx_congr fun q' _ => ?_
    rw [← Finset.mul_sum, mp_pair_eq]
  rw [hL]
  have hps' : physShape (pre ++ [t']) = physShape pre ++ [t.ph] := by simp [physShape, ep]
  simp only [hps', sumSites_append]
  have hR : ∀ a₀ ∈ range l, ∀ i, IdxOK i (physShape pre) → (sumSites [t.ph] fun i' =>
      star (mp (pre ++ [t']) (i ++ i') a₀ b) * f a₀ (i ++ i' ++ q :: js) c0)
      = ∑ a ∈ range t.lb, sumIdx t.ph fun q' =>
        star (t'.at3 a q' b) * (star (mp pre i a₀ a) * f a₀ (i ++ q' :: q :: js) c0) := by
    intro a₀ ha₀ i hi
    rw [sumSites_single, ← sumIdx_sum_comm]
    refine sumIdx_congr fun q' _ => ?_
    rw [mp_concat (by rw [el, h2]; exact hc1) (by simpa [physShape] using idxOK_length hi) (by simpa using ha₀)
      (by rw [er]; exact hb), star_sum, Finset.sum_mul, el]
    refine Finset.sum_congr rfl fun a _ => ?_
    rw [star_mul', List.append_assoc, List.singleton_append]; ring
  rw [sum_congr rfl fun a₀ ha₀ => (sumSites_congr (hR a₀ ha₀)).trans (sumSites_sum_comm _ _ _), Finset.sum_comm]
  refine Finset.sum_congr rfl fun a ha => ?_
  simp only [sumSites_sumIdx_comm]
  rw [← sumIdx_sum_comm]
  refine sumIdx_congr fun q' hq' => ?_
  simp only [← mul_sumSites, ← mul_sum]
  congr 1
  exact h a (by simpa using ha) c0 hc0 (q' :: q :: js) (List.Forall₂.cons hq' (List.Forall₂.cons hq hjs))

/-- At any point of the sweep, the overlap of the current tensor with the original one is its norm squared. -/
theorem projRO_end {l r d : ℕ} {f : ℕ → List (List ℕ) → ℕ → R} {pre post : List (NDArray R)} (hpre : Chained l pre d)
    (hcan : ∀ t ∈ pre, LCanon t) (h : ProjRO l r f pre post d) :
    (∑ a ∈ range l, sumSites (physShape (pre ++ post)) fun i => ∑ c ∈ range r,
        star (f a i c) * mp (pre ++ post) i a c)
      = ∑ a ∈ range l, sumSites (physShape (pre ++ post)) fun i => ∑ c ∈ range r,
        star (mp (pre ++ post) i a c) * mp (pre ++ post) i a c := by
  have hps : physShape (pre ++ post) = physShape pre ++ physShape post := by simp [physShape]
  have key := proj_overlap (range l ×ˢ siteSet (physShape pre)) (siteSet (physShape post) ×ˢ range r) d
    (fun k b => mp pre k.2 k.1 b) (fun b m => mp post m.1 b m.2) (fun k m => f k.1 (k.2 ++ m.1) m.2)
    (fun b hb b' hb' => by
      rw [sum_product, ← lcanon_sum hpre hcan hb hb']
      exact sum_congr rfl fun a _ => (sumSites_eq_sum _ _).symm)
    (fun b hb m hm => by
      rw [mem_product, mem_siteSet, mem_range] at hm
      rw [h b hb m.2 hm.2 m.1 hm.1, sum_product]
      exact sum_congr rfl fun a _ => sumSites_eq_sum _ _)
  simp only [sum_product] at key
  have conv : ∀ g : ℕ → List (List ℕ) → ℕ → R, (∑ a ∈ range l, sumSites (physShape pre ++ physShape post) fun i =>
      ∑ c ∈ range r, g a i c) = ∑ a ∈ range l, ∑ i ∈ siteSet (physShape pre), ∑ j ∈ siteSet (physShape post),
        ∑ c ∈ range r, g a (i ++ j) c := by
    intro g
    refine sum_congr rfl fun a _ => ?_
    rw [sumSites_append, sumSites_eq_sum]
    exact sum_congr rfl fun i _ => sumSites_eq_sum _ _
  have hm : ∀ a ∈ range l, ∀ i ∈ siteSet (physShape pre), ∀ j c, mp (pre ++ post) (i ++ j) a c
      = ∑ b ∈ range d, mp pre i a b * mp post j b c := by
    intro a ha i hi j c
    exact mp_append hpre (by simpa [physShape] using idxOK_length (mem_siteSet.1 hi)) (by simpa using ha)
  rw [hps, conv, conv]
  refine Eq.trans ?_ (key.trans ?_)
  · exact sum_congr rfl fun a ha => sum_congr rfl fun i hi => sum_congr rfl fun j _ => sum_congr rfl fun c _ => by
      rw [hm a ha i hi j c]
  · exact sum_congr rfl fun a ha => sum_congr rfl fun i hi => sum_congr rfl fun j _ => sum_congr rfl fun c _ => by
      rw [hm a ha i hi j c]

namespace MPA

/-- Result of a canonicalisation of a chain with open ends. -/
structure CanonStepO (a b : ℕ) (x y : MPA R) : Prop where
  good : y.GoodO a b
  same : x.SameO a y
  ranks : y.RanksLe x
  len : y.len = x.len

theorem lcanon_loop_open {qr : QR R} (hqr : QRSpec qr) {a b : ℕ} {x : MPA R} (hx : x.GoodO a b) (n : ℕ)
    (hn : 1 ≤ x.r - n) :
    ∃ y, ((List.range n).map fun k : ℕ => x.r - 1 + (k : ℤ) * (-1)).foldlM (lcanonStep qr) x = .ok y ∧
      CanonStepO a b x y ∧ y.r = x.r - n := by
  induction n with
  | zero => exact ⟨x, rfl, ⟨hx, SameO.rfl' a x, RanksLe.rfl' x, rfl⟩, by simp⟩
  | succ n ih =>
    obtain ⟨y, h1, h2, h3⟩ := ih (by push_cast at hn; omega)
    obtain ⟨z, g1, g2, g3, g4, g5, g6, g7, -⟩ := lcanonStep_open hqr h2.good (by
      rw [h3]; push_cast at hn; omega)
    refine ⟨z, ?_, ⟨g2, h2.same.trans g3, g4.trans h2.ranks, g5.trans h2.len⟩, ?_⟩
    · rw [List.range_succ, List.map_append, List.foldlM_append, h1]
      show (List.foldlM (lcanonStep qr) y [x.r - 1 + (n : ℤ) * (-1)]) = _
      rw [show x.r - 1 + (n : ℤ) * (-1) = y.r - 1 by rw [h3]; ring]
      simp only [List.foldlM_cons, List.foldlM_nil]
      rw [g1]; rfl
    · rw [g6, h3]; push_cast; ring

/-- `canonicalize(right=1)` on a chain with open ends. -/
theorem canonicalize_right_open {qr : QR R} (hqr : QRSpec qr) {a b : ℕ} {x : MPA R} (hx : x.GoodO a b) :
    ∃ y, x.canonicalize qr .none (.int 1) = .ok y ∧ CanonStepO a b x y ∧ y.l = 0 ∧ y.r = 1 := by
  have hlr := hx.l_lt_r
  have hl0 := hx.l_nonneg
  have hrle := hx.r_le
  have hlen : 0 < x.len := List.length_pos_of_ne_nil hx.ne
  have fin : ∀ y : MPA R, CanonStepO a b x y → y.r = 1 → y.l = 0 := by
    intro y hy hr
    have h1 := hy.good.l_lt_r
    have h2 := hy.good.l_nonneg
    omega
  rw [canonicalize_eq (x := x) (qr := qr) rfl (tl := 0) (tr := 1) (by simp [target, CArg.left]) (by simp [target, CArg.right])]
  simp only [pyGuard]
  rw [if_pos (by omega), if_pos (by omega), if_pos (by omega), ok_bind, ok_bind, ok_bind, if_neg (by omega), ok_bind]
  by_cases h : x.r > 1
  · obtain ⟨y, g1, g2, g3⟩ := lcanon_loop_open hqr hx (x.r - 1).toNat (by omega)
    have hr : y.r = 1 := by omega
    refine ⟨y, ?_, g2, fin y g2 hr, hr⟩
    rw [if_pos h]
    unfold lcanonicalize
    rw [pyAssert_true ⟨one_pos, by omega⟩, pyRange_down, show x.r - 1 - (1 - 1) = x.r - 1 by ring]
    exact g1
  · have hr : x.r = 1 := by omega
    rw [if_neg h]
    have : CanonStepO a b x x := ⟨hx, SameO.rfl' a x, RanksLe.rfl' x, rfl⟩
    exact ⟨x, rfl, this, fin x this hr, hr⟩

end MPA

end pure

section
variable {𝕜 : Type} [RCLike 𝕜]

namespace MPA

/-- Facts about the first `k` steps of the sweep to the right on a chain with open ends. -/
structure SweepRO (a b : ℕ) (rank : ℤ) (x : MPA 𝕜) (k : ℕ) (y : MPA 𝕜) : Prop where
  good : y.GoodO a b
  len : y.len = x.len
  shape : y.shape = x.shape
  l : (k : ℤ) ≤ y.l
  rank_le : ∀ n, n < k → ∀ t, y.lt[n + 1]? = some t → (t.lb : ℤ) ≤ rank
  ranks_le : y.RanksLe x
  proj : ∃ pre post d, y.lt = pre ++ post ∧ pre.length = k ∧ Chained a pre d ∧
    (∀ t ∈ pre, LCanon t) ∧ ProjRO a b (fun i idx j => mp x.lt idx i j) pre post d

theorem sweepR_open {svd : SVD 𝕜} {f : SVDFunc 𝕜} (h : SVDSpec svd) (hf : SVDFuncSpec f) {rank : ℤ}
    (hr : 0 < rank) {relerr : Option ℝ} {a b : ℕ} {x : MPA 𝕜} (hx : x.GoodO a b) (k : ℕ) (hk : k + 1 ≤ x.len) :
    ∃ y out, (pyRange 0 k 1).foldlM (svdStepR svd f rank relerr) (x, []) = .ok (y, out) ∧ SweepRO a b rank x k y := by
  induction k with
  | zero =>
    refine ⟨x, [], rfl, hx, rfl, rfl, hx.l_nonneg, by intro n hn; omega, RanksLe.rfl' x,
      ⟨[], x.lt, a, rfl, rfl, rfl, by simp, ?_⟩⟩
    intro i hi c hc j hj
    simp only [physShape, List.map_nil, sumSites_nil, mp_nil, List.nil_append]
    rw [sum_eq_single_of_mem i (by simpa using hi)]
    · simp
    · intro i' _ hne
      rw [if_neg hne]; simp
  | succ k ih =>
    obtain ⟨y, out, h1, h2⟩ := ih (by omega)
    obtain ⟨pre, post', d, hlt', hpl, hpc, hpL, hpr⟩ := h2.proj
    have hylen : y.lt.length = x.len := h2.len
    obtain ⟨pre2, t, u, post, hlt, hpl2⟩ := split_at (ts := y.lt) (m := k) (by omega)
    have hpe : pre = pre2 ∧ post' = t :: u :: post := by
      rw [hlt'] at hlt
      exact List.append_inj hlt (by omega)
    obtain ⟨rfl, rfl⟩ := hpe
    obtain ⟨mat, t', u', z, m1, m2, m3, m4, m5, -, m6, m7⟩ :=
      svdStepR_ok h hf hr (relerr := relerr) h2.good hlt (by rw [hpl]; exact h2.l) out
    have hch2 := h2.good.chain
    rw [hlt] at hch2
    obtain ⟨dd, hc1, g1, g2, g3, g4, g5⟩ := chained_append.1 hch2
    have hdd : d = t.lb := by rw [chained_end_unique hpc hc1, g2]
    subst hdd
    have hzs : z.shape = y.shape := by
      show physShape z.lt = physShape y.lt
      rw [m7.lt, hlt]
      simp [physShape, NDArray.ph_of_shape m7.tshape, NDArray.ph_of_shape m7.ushape]
    refine ⟨z, out ++ [((svdPickR svd f rank relerr t.rb mat).2.1, (svdPickR svd f rank relerr t.rb mat).2.2.2)], ?_,
      m7.goodO h2.good, ?_, hzs.trans h2.shape, ?_, ?_, ?_, ?_⟩
    · rw [pyRange_up] at h1 ⊢
      rw [show (((k + 1 : ℕ) : ℤ) - 0).toNat = k + 1 by omega, List.range_succ, List.map_append, List.foldlM_append]
      rw [show ((k : ℤ) - 0).toNat = k by omega] at h1
      rw [h1, ok_bind]
      simp only [List.map_cons, List.map_nil, List.foldlM_cons, List.foldlM_nil]
      rw [show (0 : ℤ) + (k : ℤ) * 1 = (pre.length : ℤ) by rw [hpl]; ring, m6]
      rfl
    · rw [← h2.len]
      show z.lt.length = y.lt.length
      rw [m7.lt, hlt]; simp
    · rw [m7.l, hpl]; push_cast; omega
    · intro n hn w hw
      rw [m7.lt] at hw
      rcases getElem?_mid hw with ⟨q1, q2⟩ | ⟨q1, q2⟩ | ⟨q1, q2⟩ | ⟨q1, q2⟩
      · exact h2.rank_le n (by omega) w (by rw [hlt]; exact getElem?_pre q2)
      · rw [q2, NDArray.lb_of_shape m7.tshape]
        refine h2.rank_le n (by omega) t ?_
        rw [hlt, q1]; simp
      · rw [q2, NDArray.lb_of_shape m7.ushape]
        exact m5.le_rank
      · omega
    · refine RanksLe.trans ?_ h2.ranks_le
      have := ranksLe_pair (x := y) (t' := t') (u' := u') (l' := z.l) (r' := z.r) hlt (NDArray.lb_of_shape m7.tshape)
        (by rw [NDArray.lb_of_shape m7.ushape, g4]; exact m5.le_n)
      unfold RanksLe at this ⊢
      rw [m7.lt]; exact this
    · refine ⟨pre ++ [t'], u' :: post, _, by rw [m7.lt]; simp, by simp [hpl], ?_, ?_,
        projRO_step hch2 hpr m7.tshape m7.ushape m7.proj⟩
      · rw [chained_concat]
        exact ⟨by rw [NDArray.lb_of_shape m7.tshape]; exact hpc, NDArray.isLocal_of_shape m7.tshape,
          NDArray.rb_of_shape m7.tshape⟩
      · intro w hw
        simp only [List.mem_append, List.mem_singleton] at hw
        rcases hw with hw | rfl
        · exact hpL w hw
        · exact m7.lcanon

/-- Result of `compress('svd', rank)` on a chain with open ends. -/
structure CompO (a b : ℕ) (rank : ℤ) (x y : MPA 𝕜) : Prop where
  good : y.GoodO a b
  len : y.len = x.len
  shape : y.shape = x.shape
  ranks_le : y.RanksLe x
  rank_le : ∀ t ∈ y.lt.tail, (t.lb : ℤ) ≤ rank
  overlap : (∑ i ∈ range a, sumSites x.shape fun I => ∑ j ∈ range b, star (mp x.lt I i j) * mp y.lt I i j)
    = ∑ i ∈ range a, sumSites x.shape fun I => ∑ j ∈ range b, star (mp y.lt I i j) * mp y.lt I i j

/-- `compress('svd', rank=rank)` of a chain with open ends whose orthogonality centre is the last site, the state in
which `from_array` returns a chain. -/
theorem compress_open {qr : QR 𝕜} {svd : SVD 𝕜} (hqr : QRSpec qr) (h : SVDSpec svd) {rank : ℤ} (hr : 0 < rank)
    {a b : ℕ} {x : MPA 𝕜} (hx : x.GoodO a b) (hlen : x.len ≠ 1) (hxr : x.r = x.len) :
    ∃ y o, x.compress qr svd (some rank) none none true = .ok (y, o) ∧ CompO a b rank x y := by
  have hlp : 0 < x.len := List.length_pos_of_ne_nil hx.ne
  obtain ⟨x', c1, c2, c3, c4⟩ := canonicalize_right_open hqr hx
  obtain ⟨y, out, h1, h2⟩ := sweepR_open h (truncatedSvd_spec h) hr (relerr := none) c2.good (x'.len - 1) (by
    rw [c2.len]; omega)
  obtain ⟨pre, post, d, p1, p2, p3, p4, p5⟩ := h2.proj
  have hyne := h2.good.ne
  have hsite : y.site (-1) = .ok (y.lt.getLast hyne) := by
    unfold site
    have := pyIndex_neg (n := y.len) (i := 1) (by omega) (by rw [h2.len, c2.len]; omega)
    rw [show (-1 : ℤ) = -((1 : ℕ) : ℤ) by rfl, this, ok_bind]
    have : y.lt[y.len - 1]? = some (y.lt.getLast hyne) := by
      rw [← List.getLast?_eq_some_getLast hyne, List.getLast?_eq_getElem?]; rfl
    rw [this]
  have hsh : y.shape = x.shape := h2.shape.trans c2.same.shape
  refine ⟨y, absSq (y.lt.getLast hyne), ?_, h2.good, h2.len.trans c2.len, hsh, h2.ranks_le.trans c2.ranks, ?_, ?_⟩
  · unfold compress compressSvd
    rw [if_neg hlen]
    have hl := hx.l_nonneg
    simp only [Option.getD_none]
    rw [if_neg (by omega)]
    simp only [if_true, c1, ok_bind]
    unfold compressSvdR
    rw [svdArgs_ok hr (by simp), ok_bind, show ((x'.len : ℤ) - 1) = ((x'.len - 1 : ℕ) : ℤ) by
      have := c2.len; omega, h1, ok_bind]
    simp only
    rw [hsite]
    rfl
  · intro t ht
    obtain ⟨n, hn, hnt⟩ := List.mem_iff_getElem.1 ht
    have hn' : n + 1 < y.lt.length := by rw [List.length_tail] at hn; omega
    refine h2.rank_le n ?_ t ?_
    · have : y.lt.length = x'.len := h2.len
      omega
    · rw [List.getElem?_eq_getElem hn', ← hnt, List.getElem_tail]
  · have key := projRO_end p3 p4 p5
    rw [← p1] at key
    have e : physShape y.lt = x.shape := hsh
    rw [e] at key
    rw [← key]
    refine sum_congr rfl fun i hi => sumSites_congr fun I hI => sum_congr rfl fun j _ => ?_
    rw [c2.same.val I hI i (by simpa using hi) j]

end MPA

theorem pieces_allPos {R : Type} {l r : ℕ} {ts : List (NDArray R)} (h : Chained l ts r) (hl : 0 < l) (hr : 0 < r)
    (hb : ∀ t ∈ ts.tail, 0 < t.lb) (hp : ∀ p ∈ physShape ts, ∀ d ∈ p, 0 < d) : AllPos ts := by
  induction ts generalizing l with
  | nil => simp [AllPos]
  | cons t ts ih =>
    obtain ⟨h1, h2, h3⟩ := h
    have hrb : 0 < t.rb := by
      cases ts with
      | nil => have : t.rb = r := h3; omega
      | cons u us => rw [← h3.2.1]; exact hb u (by simp)
    intro w hw
    rw [List.mem_cons] at hw
    rcases hw with rfl | hw
    · intro d hd
      rw [NDArray.shape_local h1] at hd
      simp only [List.mem_cons, List.mem_append, List.not_mem_nil, or_false] at hd
      rcases hd with rfl | hd | rfl
      · omega
      · exact hp w.ph (by simp [physShape]) d hd
      · exact hrb
    · exact ih h3 hrb (fun u hu => hb u (List.mem_of_mem_tail hu)) (fun p hp' => hp p (by
        simp only [physShape, List.map_cons, List.mem_cons]; exact Or.inr hp')) w hw

/-- Facts about the sites that replace a block. -/
structure BlockOK (l r : ℕ) (S : List (List ℕ)) (us : List (NDArray 𝕜)) : Prop where
  chain : Chained l us r
  shape : physShape us = S
  pos : AllPos us

/-- The tail of `_eig_minimize_locally2` (linalg.py:326-332) and of `_adapt_to_new_lten` (mparray.py:2052-2059) for more
than one site: factorise a local tensor and compress the result. -/
noncomputable def splitBlock (qr : QR 𝕜) (svd : SVD 𝕜) (X : NDArray 𝕜) (rank : ℤ) : Py (List (NDArray 𝕜)) := do
  let z ← fromArray qr X (some (.const 1)) true
  let (y, _) ← z.compress qr svd (some rank) none none true
  return y.lt

theorem singles_flatten' (D : List ℕ) : (D.map fun d => [d]).flatten = D := by
  induction D with
  | nil => rfl
  | cons d D ih => simpa using ih

/-- The state in which `from_array` returns a chain with open ends. -/
theorem fromArray_open {qr : QR 𝕜} (hqr : QRSpec qr) {X : NDArray 𝕜} {l r : ℕ} {D : List ℕ} (hX : X.shape = l :: (D ++ [r]))
    (hl : 0 < l) (hr0 : 0 < r) (hD : ∀ d ∈ D, 0 < d) (hlen : 2 ≤ D.length) :
    ∃ z : MPA 𝕜, fromArray qr X (some (.const 1)) true = .ok z ∧ z.GoodO l r ∧ z.shape = (D.map fun d => [d]) ∧ z.r = z.len ∧
      z.len = D.length ∧
      ∀ i < l, ∀ j < r, ∀ I, IdxOK I (D.map fun d => [d]) → X.get (i :: (I.flatten ++ [j])) = mp z.lt I i j := by
  have hne : D.map (fun d => [d]) ≠ [] := by
    intro h0; rw [List.map_eq_nil_iff] at h0; rw [h0] at hlen; simp at hlen
  obtain ⟨ts, e1, e2, e3, e4, e5, e6⟩ := extract_ok hqr .recursion (List.replicate 3 1) (D.map fun d => [d]) hne
    (Or.inr (by
      intro h0
      have := List.mem_of_getLast? h0
      simp at this))
    (by simpa using hD) l r X hl hr0 (by rw [hX, singles_flatten'])
  have hlts : ts.length = D.length := by
    have := congrArg List.length e3; simpa [physShape] using this
  have htne : ts ≠ [] := by intro h0; rw [h0] at hlts; simp at hlts; omega
  have hrep : List.replicate (X.ndim + 1) 1 = (D.map fun d => [d]).map List.length ++ List.replicate 3 1 := by
    rw [List.map_map, show (List.length ∘ fun d : ℕ => [d]) = fun _ => 1 from rfl, List.map_const', ← List.replicate_add]
    congr 1
    simp [NDArray.ndim, hX]
  have hbonds : ∀ t ∈ ts.tail, 0 < t.lb := by
    intro t ht
    have : t.lb ∈ ts.tail.map NDArray.lb := List.mem_map_of_mem ht
    rw [e6] at this
    obtain ⟨c, -, hc⟩ := List.mem_map.1 this
    rw [← hc, cutRank]
    refine Nat.lt_min.2 ⟨Nat.mul_pos hl (flatten_pos ?_), Nat.mul_pos (flatten_pos ?_) hr0⟩
    · intro p hp d hd
      have := List.mem_of_mem_take hp
      rw [List.mem_map] at this
      obtain ⟨d', hd', rfl⟩ := this
      simp at hd; rw [hd]; exact hD d' hd'
    · intro p hp d hd
      have := List.mem_of_mem_drop hp
      rw [List.mem_map] at this
      obtain ⟨d', hd', rfl⟩ := this
      simp at hd; rw [hd]; exact hD d' hd'
  have hpos : AllPos ts := pieces_allPos e2 hl hr0 hbonds (by rw [e3]; simpa using hD)
  set z : MPA 𝕜 := ⟨ts, (ts.length : ℤ) - 1, ts.length⟩ with hz
  have hfrom : fromArray qr X (some (.const 1)) true = .ok z := by
    show (extractFactors qr .recursion (List.replicate (X.ndim + 1) 1) X >>= fun ltens =>
      mkLT ltens (some (ltens.length - 1)) (some ltens.length)) = _
    rw [hrep, e1, ok_bind]
    exact mkLT_ok htne e2 (by omega) (by omega) (by omega) (by omega)
  have hgood : z.GoodO l r := by
    refine ⟨htne, e2, by simp only [hz]; omega, by simp only [hz]; omega, le_refl _, ?_, hpos⟩
    intro n t hn
    have hn' : n < ts.length := (List.getElem?_eq_some_iff.1 hn).1
    refine ⟨fun h1 => e5 t ?_, fun h1 => ?_⟩
    · have h2 : n < ts.length - 1 := by simp only [hz] at h1; omega
      have : ts.dropLast[n]? = some t := by
        rw [List.getElem?_dropLast, if_pos h2]; exact hn
      exact List.mem_of_getElem? this
    · simp only [hz] at h1; omega
  exact ⟨z, hfrom, hgood, e3, rfl, hlts, fun i hi j hj I hI => e4.2 i hi j hj I (by rw [e3]; exact hI)⟩

theorem splitBlock_ok {qr : QR 𝕜} {svd : SVD 𝕜} (hqr : QRSpec qr) (h : SVDSpec svd) {rank : ℤ} (hr : 0 < rank)
    {X : NDArray 𝕜} {l r : ℕ} {D : List ℕ} (hX : X.shape = l :: (D ++ [r])) (hl : 0 < l) (hr0 : 0 < r)
    (hD : ∀ d ∈ D, 0 < d) (hlen : 2 ≤ D.length) :
    ∃ us, splitBlock qr svd X rank = .ok us ∧ BlockOK l r (D.map fun d => [d]) us ∧
      (∀ t ∈ us.tail, (t.lb : ℤ) ≤ rank) ∧
      (∑ i ∈ range l, sumSites (D.map fun d => [d]) fun I => ∑ j ∈ range r,
          star (X.get (i :: (I.flatten ++ [j]))) * mp us I i j)
        = ∑ i ∈ range l, sumSites (D.map fun d => [d]) fun I => ∑ j ∈ range r, star (mp us I i j) * mp us I i j := by
  obtain ⟨z, hfrom, hgood, hzs, hzr, hzl, e4⟩ := fromArray_open (qr := qr) hqr hX hl hr0 hD hlen
  obtain ⟨y, o, c1, c2⟩ := MPA.compress_open hqr h hr hgood (by omega) hzr
  refine ⟨y.lt, ?_, ⟨c2.good.chain, c2.shape.trans hzs, c2.good.pos⟩, c2.rank_le, ?_⟩
  · unfold splitBlock
    rw [hfrom, ok_bind, c1, ok_bind]; rfl
  · rw [← hzs, ← c2.overlap]
    refine sum_congr rfl fun i hi => sumSites_congr fun I hI => sum_congr rfl fun j hj => ?_
    rw [e4 i (by simpa using hi) j (by simpa using hj) I (by rw [← hzs]; exact hI)]

end

end Mpnum
