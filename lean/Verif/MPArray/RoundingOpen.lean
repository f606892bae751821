import Verif.MPArray.RoundingSeg

/-!
Error analysis of the left-to-right sweep of `canonicalize` for chains with weights (`FItem.s`).

All segments of the chain are assumed to have an operator norm of at most `κ` times the product of the weights, and each local
tensor a norm of at most `ν` times its weight.  The local tensors themselves need not be canonical.
-/

open Finset

namespace Mpnum

variable {𝕜 : Type} [RCLike 𝕜]

theorem Bd.mono {ts : List (FItem 𝕜)} (hs : ∀ q ∈ ts, 0 ≤ q.s) {sa : List ℕ} {k : ℕ} {f : List ℕ → ℕ → 𝕜} {c d : ℝ} (hc : 0 ≤ c)
    (hd : c ≤ d) (h : Bd ts sa k f c) : Bd ts sa k f d := by
  intro pre post hp m hm
  have hpn : 0 ≤ fprod pre := fprod_nonneg fun q hq => hs q (by rw [hp]; exact List.mem_append_left _ hq)
  exact (h pre post hp m hm).trans (pow_le_pow_left₀ (mul_nonneg hc hpn) (mul_le_mul_of_nonneg_right hd hpn) 2)

theorem Bd.neg {ts : List (FItem 𝕜)} {sa : List ℕ} {k : ℕ} {f : List ℕ → ℕ → 𝕜} {c : ℝ} (h : Bd ts sa k f c) :
    Bd ts sa k (fun i x => -f i x) c := by
  intro pre post hp m hm
  refine le_trans (le_of_eq ?_) (h pre post hp m hm)
  refine Finset.sum_congr rfl fun i _ => Finset.sum_congr rfl fun I _ => Finset.sum_congr rfl fun b _ => ?_
  rw [← norm_neg, ← Finset.sum_neg_distrib]
  congr 2
  exact Finset.sum_congr rfl fun x _ => by ring

/-- A factor with singular values of at least `σ` can be removed. -/
theorem Bd.iso {ts : List (FItem 𝕜)} {sa : List ℕ} {k K : ℕ} {Q : List ℕ → ℕ → 𝕜} {f : ℕ → ℕ → 𝕜} {c σ : ℝ} (hσ : 0 < σ)
    (hQ : ∀ v : ℕ → 𝕜, σ ^ 2 * ∑ c ∈ range K, ‖v c‖ ^ 2 ≤ ∑ i ∈ idxSet sa, ‖∑ c ∈ range K, Q i c * v c‖ ^ 2)
    (h : Bd ts sa k (fun i z => ∑ c ∈ range K, Q i c * f c z) c) :
    Bd ts [K] k (fun i z => f (i.headD 0) z) (c / σ) := by
  intro pre post hp m hm
  have := h pre post hp m hm
  have e : (c / σ * fprod pre) ^ 2 = (c * fprod pre) ^ 2 / σ ^ 2 := by rw [← div_pow]; congr 1; ring
  rw [e, le_div_iff₀ (by positivity)]
  calc _ = ∑ I ∈ siteSet (physShape (pre.map FItem.t)), ∑ b ∈ range m,
        σ ^ 2 * ∑ c ∈ range K, ‖∑ z ∈ range k, f c z * mp (pre.map FItem.t) I z b‖ ^ 2 := by
        rw [← sumIdx_eq_sum]
        simp only [sumIdx_cons, sumIdx_nil, List.headD_cons]
        rw [mul_comm, Finset.sum_comm, Finset.mul_sum]
        refine Finset.sum_congr rfl fun I _ => ?_
        rw [Finset.sum_comm, Finset.mul_sum]
    _ ≤ ∑ I ∈ siteSet (physShape (pre.map FItem.t)), ∑ b ∈ range m, ∑ i ∈ idxSet sa,
        ‖∑ c ∈ range K, Q i c * ∑ z ∈ range k, f c z * mp (pre.map FItem.t) I z b‖ ^ 2 :=
        Finset.sum_le_sum fun I _ => Finset.sum_le_sum fun b _ => hQ _
    _ = ∑ i ∈ idxSet sa, ∑ I ∈ siteSet (physShape (pre.map FItem.t)), ∑ b ∈ range m,
        ‖∑ x ∈ range k, (∑ c ∈ range K, Q i c * f c x) * mp (pre.map FItem.t) I x b‖ ^ 2 := by
        rw [Finset.sum_comm (s := idxSet sa)]
        refine Finset.sum_congr rfl fun I _ => ?_
        rw [Finset.sum_comm]
        refine Finset.sum_congr rfl fun i _ => Finset.sum_congr rfl fun b _ => ?_
        congr 2
        simp only [Finset.mul_sum, Finset.sum_mul]
        rw [Finset.sum_comm]
        exact Finset.sum_congr rfl fun x _ => Finset.sum_congr rfl fun c _ => by ring
    _ ≤ _ := this

/-- The difference of two chains with the same beginning. -/
theorem prefix_diff {pre A B : List (NDArray 𝕜)} {m : ℕ} (hpre : Chained 1 pre m) (hs : physShape B = physShape A) {cs : List ℝ}
    (hcs : List.Forall₂ LOp cs pre) {z : ℝ}
    (hz : ∑ a ∈ range m, ∑ i ∈ siteSet (physShape A), ‖mp A i a 0 - mp B i a 0‖ ^ 2 ≤ z ^ 2) :
    (sumSites (physShape (pre ++ A)) fun i => ‖mp (pre ++ A) i 0 0 - mp (pre ++ B) i 0 0‖ ^ 2) ≤ (cs.prod * z) ^ 2 := by
  rw [sumSites_eq_sum, show physShape (pre ++ A) = physShape pre ++ physShape A by simp [physShape], sum_siteSet_append]
  calc _ = ∑ j ∈ siteSet (physShape A), ∑ a ∈ range 1, ∑ i ∈ siteSet (physShape pre),
        ‖∑ b ∈ range m, mp pre i a b * (mp A j b 0 - mp B j b 0)‖ ^ 2 := by
        rw [Finset.sum_comm]
        refine Finset.sum_congr rfl fun j _ => ?_
        rw [Finset.sum_range_one]
        refine Finset.sum_congr rfl fun i hi => ?_
        rw [mp_append hpre (chain_len hi) one_pos, mp_append hpre (chain_len hi) one_pos, ← Finset.sum_sub_distrib]
        congr 2
        exact Finset.sum_congr rfl fun a _ => by ring
    _ ≤ ∑ j ∈ siteSet (physShape A), cs.prod ^ 2 * ∑ b ∈ range m, ‖mp A j b 0 - mp B j b 0‖ ^ 2 :=
        Finset.sum_le_sum fun j _ => lop_chain hcs hpre _
    _ ≤ _ := by
        rw [← Finset.mul_sum, Finset.sum_comm, mul_pow]
        exact mul_le_mul_of_nonneg_left hz (sq_nonneg _)

/-- All segments of the chain have an operator norm of at most `κ` times the product of the weights, and the local tensors have at
most a norm of `ν` times their weight. -/
structure WChain (κ ν : ℝ) (ts : List (FItem 𝕜)) : Prop where
  nonneg : ∀ q ∈ ts, 0 ≤ q.s
  norm : ∀ q ∈ ts, npNorm q.t ≤ ν * q.s
  seg : ∀ pre mid post, ts = pre ++ (mid ++ post) → SegOp (κ * fprod mid) (mid.map FItem.t)

theorem WChain.tail {κ ν : ℝ} {q : FItem 𝕜} {ts : List (FItem 𝕜)} (h : WChain κ ν (q :: ts)) : WChain κ ν ts :=
  ⟨fun r hr => h.nonneg r (by simp [hr]), fun r hr => h.norm r (by simp [hr]),
    fun pre mid post e => h.seg (q :: pre) mid post (by rw [e]; rfl)⟩

theorem WChain.head {κ ν : ℝ} {ts : List (FItem 𝕜)} (h : WChain κ ν ts) :
    ∀ pre post, ts = pre ++ post → SegOp (κ * fprod pre) (pre.map FItem.t) := fun pre post e => h.seg [] pre post (by rw [e]; rfl)

/-- Growth of the bound on the centre. -/
noncomputable def openGrow (ε κ ν : ℝ) : ℝ := (1 + κ * ε) / (1 - ε) + κ * (ε * (1 + ε) * ν)

/-- Error of a step. -/
noncomputable def openErr (ε κ ν : ℝ) : ℝ := κ * ε * (1 + (1 + ε) ^ 2 * ν)

/-- The centre of a sweep, followed by any beginning of the rest of the chain. -/
def CBd (items : List (FItem 𝕜)) (c : NDArray 𝕜) (n : ℝ) : Prop := Bd items (c.lb :: c.ph) c.rb (fun i x => c.get (i ++ [x])) n

theorem CBd.norm {items : List (FItem 𝕜)} {c : NDArray 𝕜} (hc : c.IsLocal) {n : ℝ} (hn : 0 ≤ n) (h : CBd items c n) : npNorm c ≤ n := by
  have := Bd.norm h
  rw [← sumIdx_eq_sum] at this
  have e : npNorm c ^ 2 = sumIdx (c.lb :: c.ph) fun i => ∑ x ∈ range c.rb, ‖c.get (i ++ [x])‖ ^ 2 := by
    rw [npNorm_sq]
    unfold nsq
    rw [show c.shape = (c.lb :: c.ph) ++ [c.rb] by simpa using NDArray.shape_local hc, sumIdx_append]
    simp only [sumIdx_cons, sumIdx_nil]
  rw [← e] at this
  exact (abs_le_of_sq_le_sq' this hn).2

theorem sum_idxSet_cons {M : Type} [AddCommMonoid M] (l : ℕ) (s : List ℕ) (f : List ℕ → M) :
    ∑ i ∈ idxSet (l :: s), f i = ∑ a ∈ range l, ∑ p ∈ idxSet s, f (a :: p) := by
  rw [← sumIdx_eq_sum, sumIdx_cons]
  exact Finset.sum_congr rfl fun i _ => sumIdx_eq_sum _ _

/-- One step of the sweep: `t₀` is replaced by `d`, the factor `f` is absorbed into the next site. -/
theorem open_step {ε κ ν : ℝ} (hε : 0 ≤ ε) (h1 : ε < 1) (hκ : 0 ≤ κ) (hν : 0 ≤ ν) {pre : List (NDArray 𝕜)}
    {t₀ d c' : NDArray 𝕜} {q : FItem 𝕜} {items : List (FItem 𝕜)} {f : ℕ → ℕ → 𝕜}
    (hch : Chained 1 (pre ++ t₀ :: (q :: items).map FItem.t) 1) (hpre : ∀ t ∈ pre, LOp (1 + ε) t)
    (hdlb : d.lb = t₀.lb) (hc'rb : c'.rb = q.t.rb) (k1 : t₀.rb = q.t.lb) (k2 : d.ph = t₀.ph) (k3 : c'.lb = d.rb) (k4 : c'.ph = q.t.ph)
    (g6 : LNear ε d)
    (g9 : ∑ a ∈ range t₀.lb, ∑ p ∈ idxSet t₀.ph, ∑ z ∈ range t₀.rb,
        ‖t₀.at3 a p z - ∑ c ∈ range d.rb, d.at3 a p c * f c z‖ ^ 2 ≤ (ε * npNorm t₀) ^ 2)
    (g10 : ∑ c ∈ range d.rb, ∑ p ∈ idxSet q.t.ph, ∑ b ∈ range q.t.rb,
        ‖∑ z ∈ range q.t.lb, f c z * q.t.at3 z p b - c'.at3 c p b‖ ^ 2 ≤ (ε * ((1 + ε) * npNorm t₀ * npNorm q.t)) ^ 2)
    (hw : WChain κ ν (q :: items)) {n : ℝ} (hn : 0 ≤ n) (hb : CBd (q :: items) t₀ n) :
    CBd items c' (openGrow ε κ ν * (n * q.s)) ∧
      (sumSites (physShape (pre ++ t₀ :: (q :: items).map FItem.t)) fun i =>
        ‖mp (pre ++ t₀ :: (q :: items).map FItem.t) i 0 0 - mp (pre ++ d :: c' :: items.map FItem.t) i 0 0‖ ^ 2)
      ≤ ((1 + ε) ^ pre.length * (openErr ε κ ν * (n * fprod (q :: items)))) ^ 2 := by
  obtain ⟨m, m1, m2⟩ := chained_append.1 hch
  have hm : m = t₀.lb := m2.2.1.symm
  subst hm
  have htl : t₀.IsLocal := m2.1
  have hul : q.t.IsLocal := m2.2.2.1
  have hpost : Chained q.t.rb (items.map FItem.t) 1 := m2.2.2.2.2
  have hTc : Chained q.t.lb ((q :: items).map FItem.t) 1 := ⟨hul, rfl, hpost⟩
  have htn := CBd.norm htl hn hb
  have hT := npNorm_nonneg' t₀
  have hU := npNorm_nonneg' q.t
  have hqs := hw.nonneg q (by simp)
  have hun := hw.norm q (by simp)
  have hfp : 0 ≤ fprod items := fprod_nonneg hw.tail.nonneg
  -- the two errors
  have hE : ∑ i ∈ idxSet (t₀.lb :: t₀.ph), ∑ z ∈ range t₀.rb,
      ‖t₀.get (i ++ [z]) - ∑ c ∈ range d.rb, d.get (i ++ [c]) * f c z‖ ^ 2 ≤ (ε * n) ^ 2 := by
    rw [sum_idxSet_cons]
    exact g9.trans (pow_le_pow_left₀ (by positivity) (by gcongr) 2)
  have hF : ∑ i ∈ idxSet ([d.rb] ++ q.t.ph), ∑ y ∈ range q.t.rb,
      ‖∑ z ∈ range q.t.lb, f (i.headD 0) z * q.t.at3 z i.tail y - c'.get (i ++ [y])‖ ^ 2 ≤ (ε * (1 + ε) * ν * (n * q.s)) ^ 2 := by
    rw [List.singleton_append, sum_idxSet_cons]
    refine g10.trans (pow_le_pow_left₀ (by positivity) ?_ 2)
    calc ε * ((1 + ε) * npNorm t₀ * npNorm q.t) ≤ ε * ((1 + ε) * n * (ν * q.s)) := by gcongr
      _ = _ := by ring
  have bE := Bd.of_norm hw.head hE
  have bF := Bd.of_norm hw.tail.head hF
  have bQ : Bd (q :: items) (t₀.lb :: t₀.ph) t₀.rb (fun i z => ∑ c ∈ range d.rb, d.get (i ++ [c]) * f c z) (n + κ * (ε * n)) :=
    (Bd.add hw.nonneg hn (by positivity) hb bE.neg).congr fun i _ z _ => by ring
  have b1 := Bd.iso (σ := 1 - ε) (by linarith) (fun v => by
    have := g6.2 v
    rw [hdlb, k2] at this
    rw [sum_idxSet_cons]
    simp only [sumIdx_eq_sum] at this
    exact this) bQ
  rw [k1] at b1
  have b2 := Bd.step hul b1 (fun i y => ∑ z ∈ range q.t.lb, f (i.headD 0) z * q.t.at3 z i.tail y) (by
    intro i p hi _ y _
    have hil := inB_length hi
    obtain ⟨a, rfl⟩ : ∃ a, i = [a] := List.length_eq_one_iff.1 (by simpa using hil)
    rfl)
  constructor
  · have h1' : 0 < 1 - ε := by linarith
    have b3 := Bd.add hw.tail.nonneg (by positivity) (by positivity) b2 bF.neg
    unfold CBd
    rw [k3, k4, hc'rb]
    have e : openGrow ε κ ν * (n * q.s) = (n + κ * (ε * n)) / (1 - ε) * q.s + κ * (ε * (1 + ε) * ν * (n * q.s)) := by
      unfold openGrow; ring
    rw [e]
    exact b3.congr fun i _ y _ => by ring
  · have hz : (1 + ε) ^ pre.length * (openErr ε κ ν * (n * fprod (q :: items)))
        = (List.replicate pre.length (1 + ε)).prod * (openErr ε κ ν * (n * fprod (q :: items))) := by rw [List.prod_replicate]
    rw [hz]
    have hfq : 0 ≤ fprod (q :: items) := fprod_nonneg hw.nonneg
    refine prefix_diff m1 ?_ (MPA.forall₂_const hpre) ?_
    · simp [physShape, k2, k4]
    · set T := (q :: items).map FItem.t with hTdef
      set T' := c' :: items.map FItem.t with hT'def
      have hph : physShape (t₀ :: T) = t₀.ph :: physShape T := rfl
      rw [hph]
      simp only [sum_siteSet_cons, mp_cons]
      have hf1 : ∑ a ∈ range t₀.lb, ∑ p ∈ idxSet t₀.ph, ∑ I ∈ siteSet (physShape T),
          ‖∑ z ∈ range t₀.rb, (t₀.at3 a p z - ∑ c ∈ range d.rb, d.at3 a p c * f c z) * mp T I z 0‖ ^ 2
          ≤ (κ * (ε * n) * fprod (q :: items)) ^ 2 := by
        have := bE (q :: items) [] (by simp) 1 (by rw [k1]; exact hTc)
        rw [sum_idxSet_cons] at this
        simp only [Finset.sum_range_one] at this
        exact this
      have hf2 : ∑ a ∈ range t₀.lb, ∑ p ∈ idxSet t₀.ph, ∑ I ∈ siteSet (physShape T),
          ‖∑ c ∈ range d.rb, d.at3 a p c * (∑ z ∈ range t₀.rb, f c z * mp T I z 0 - mp T' I c 0)‖ ^ 2
          ≤ ((1 + ε) * (κ * (ε * (1 + ε) * ν * (n * q.s)) * fprod items)) ^ 2 := by
        calc _ = ∑ I ∈ siteSet (physShape T), ∑ a ∈ range d.lb, sumIdx d.ph fun p =>
              ‖∑ c ∈ range d.rb, d.at3 a p c * (∑ z ∈ range t₀.rb, f c z * mp T I z 0 - mp T' I c 0)‖ ^ 2 := by
              rw [hdlb, k2]
              simp only [sumIdx_eq_sum]
              rw [Finset.sum_comm (s := siteSet (physShape T))]
              exact Finset.sum_congr rfl fun a _ => Finset.sum_comm
          _ ≤ ∑ I ∈ siteSet (physShape T), (1 + ε) ^ 2 * ∑ c ∈ range d.rb, ‖∑ z ∈ range t₀.rb, f c z * mp T I z 0 - mp T' I c 0‖ ^ 2 :=
              Finset.sum_le_sum fun I _ => g6.1 _
          _ ≤ (1 + ε) ^ 2 * (κ * (ε * (1 + ε) * ν * (n * q.s)) * fprod items) ^ 2 := by
              rw [← Finset.mul_sum]
              refine mul_le_mul_of_nonneg_left ?_ (sq_nonneg _)
              have := bF items [] (by simp) 1 hpost
              refine le_trans (le_of_eq ?_) this
              rw [List.singleton_append, sum_idxSet_cons, show physShape T = q.t.ph :: physShape (items.map FItem.t) from rfl,
                Finset.sum_comm]
              refine Finset.sum_congr rfl fun c _ => ?_
              rw [sum_siteSet_cons]
              refine Finset.sum_congr rfl fun p _ => Finset.sum_congr rfl fun I _ => ?_
              rw [Finset.sum_range_one]
              congr 2
              simp only [hTdef, hT'def, List.map_cons, mp_cons, hc'rb, List.headD_cons, List.tail_cons, sub_mul,
                Finset.sum_sub_distrib, k1]
              congr 1
              simp only [Finset.mul_sum, Finset.sum_mul]
              rw [Finset.sum_comm]
              exact Finset.sum_congr rfl fun y _ => Finset.sum_congr rfl fun z _ => by ring
          _ = _ := by ring
      have := mink3 _ _ _ _ _ (by positivity) (by positivity) hf1 hf2
      have e : openErr ε κ ν * (n * fprod (q :: items))
          = κ * (ε * n) * fprod (q :: items) + (1 + ε) * (κ * (ε * (1 + ε) * ν * (n * q.s)) * fprod items) := by
        unfold openErr; rw [fprod_cons]; ring
      rw [e]
      refine le_trans (le_of_eq ?_) this
      refine Finset.sum_congr rfl fun a _ => Finset.sum_congr rfl fun p _ => Finset.sum_congr rfl fun I _ => ?_
      congr 2
      simp only [sub_mul, mul_sub, Finset.sum_sub_distrib]
      have e2 : ∑ z ∈ range t₀.rb, (∑ c ∈ range d.rb, d.at3 a p c * f c z) * mp T I z 0
          = ∑ c ∈ range d.rb, d.at3 a p c * ∑ z ∈ range t₀.rb, f c z * mp T I z 0 := by
        simp only [Finset.mul_sum, Finset.sum_mul]
        rw [Finset.sum_comm]
        exact Finset.sum_congr rfl fun y _ => Finset.sum_congr rfl fun z _ => by ring
      rw [e2]
      ring

/-- One step of the sweep. -/
theorem rcanonStepF_open {ε κ ν : ℝ} (hε : 0 ≤ ε) (h1 : ε < 1) (hκ : 0 ≤ κ) (hν : 0 ≤ ν) {qr : QR 𝕜} (hqr : QRNear ε qr)
    {md : NDArray 𝕜 → NDArray 𝕜 → Py (NDArray 𝕜)} (hmd : MdNear ε md) {x : MPA 𝕜} (hx : x.NearGood ε) {pre : List (NDArray 𝕜)}
    {c : NDArray 𝕜} {q : FItem 𝕜} {items : List (FItem 𝕜)} (hlt : x.lt = pre ++ c :: (q :: items).map FItem.t)
    (hl : (pre.length : ℤ) = x.l) (hw : WChain κ ν (q :: items)) {n : ℝ} (hn : 0 ≤ n) (hb : CBd (q :: items) c n) :
    ∃ y d c', x.rcanonStepF qr md x.l = .ok y ∧ MPA.NearStep ε x y ∧ y.l = x.l + 1 ∧ y.r = max x.r (x.l + 2) ∧
      y.lt = (pre ++ [d]) ++ c' :: items.map FItem.t ∧ CBd items c' (openGrow ε κ ν * (n * q.s)) ∧
      x.dist y ≤ (1 + ε) ^ pre.length * (openErr ε κ ν * (n * fprod (q :: items))) := by
  obtain ⟨y, pre₀, post₀, t₀, u₀, d, c', f, g1, g2, g3, g4, g5, g6, ⟨k1, k2, k3, k4, k5⟩, g8, g9, g10⟩ :=
    MPA.rcanonStepF_parts hε hqr hmd hx (by
      rw [← hl]
      have : (x.len : ℤ) = x.lt.length := rfl
      rw [this, hlt]; simp)
  have hsplit := g2.old.symm.trans hlt
  obtain ⟨e1, e2⟩ := List.append_inj hsplit (by have := g3.trans hl.symm; exact_mod_cast this)
  simp only [List.map_cons, List.cons.injEq] at e2
  obtain ⟨e2, e3, e4⟩ := e2
  subst e1; subst e2; subst e3; subst e4
  have hch := hx.valid.chain
  rw [hlt] at hch
  have hoe : 0 ≤ openErr ε κ ν := by
    have h1' : 0 < 1 - ε := by linarith
    unfold openErr; positivity
  have hfq : 0 ≤ fprod (q :: items) := fprod_nonneg hw.nonneg
  obtain ⟨b1, b2⟩ := open_step hε h1 hκ hν hch (fun t ht => by
    obtain ⟨i, hi, hget⟩ := List.getElem_of_mem ht
    refine ((hx.canon i t ?_).1 (by omega)).1
    rw [hlt, List.getElem?_append_left hi, List.getElem?_eq_getElem hi, hget]) g2.lb g2.rb k1 k2 k3 k4 g6 g9 g10 hw hn hb
  refine ⟨y, d, c', g1, ⟨g2.good, g2.shape, g2.ranks, g2.len⟩, g4, g5, by rw [g2.new]; simp, b1, MPA.dist_le (by positivity) ?_⟩
  rw [show x.shape = physShape x.lt from rfl]
  unfold MPA.val
  rw [g2.new, hlt]
  exact b2

theorem openGrow_nonneg {ε κ ν : ℝ} (hε : 0 ≤ ε) (h1 : ε < 1) (hκ : 0 ≤ κ) (hν : 0 ≤ ν) : 0 ≤ openGrow ε κ ν := by
  unfold openGrow
  have : 0 < 1 - ε := by linarith
  positivity

/-- The sweep from the centre to the last site. -/
theorem rcanonF_open {ε κ ν : ℝ} (hε : 0 ≤ ε) (h1 : ε < 1) (hκ : 0 ≤ κ) (hν : 0 ≤ ν) {qr : QR 𝕜} (hqr : QRNear ε qr)
    {md : NDArray 𝕜 → NDArray 𝕜 → Py (NDArray 𝕜)} (hmd : MdNear ε md) {items : List (FItem 𝕜)} {x : MPA 𝕜} (hx : x.NearGood ε)
    {pre : List (NDArray 𝕜)} {c : NDArray 𝕜} (hlt : x.lt = pre ++ c :: items.map FItem.t) (hl : (pre.length : ℤ) = x.l)
    (hr : x.r = x.len) (hw : WChain κ ν items) {n : ℝ} (hn : 0 ≤ n) (hb : CBd items c n) :
    ∃ y, ((List.range items.length).map fun k : ℕ => x.l + (k : ℤ) * 1).foldlM (MPA.rcanonStepF qr md) x = .ok y ∧
      MPA.NearStep ε x y ∧ y.l = x.l + items.length ∧ y.r = x.len ∧
      x.dist y ≤ (∑ k ∈ range items.length, (1 + ε) ^ (pre.length + k) * openGrow ε κ ν ^ k) * (openErr ε κ ν * (n * fprod items)) := by
  induction items generalizing x pre c n with
  | nil =>
    refine ⟨x, rfl, MPA.NearStep.rfl' hx, by simp, hr, ?_⟩
    rw [MPA.dist_self']; simp
  | cons q items ih =>
    obtain ⟨y, d, c', g1, g2, g3, g4, g5, g6, g7⟩ := rcanonStepF_open hε h1 hκ hν hqr hmd hx hlt hl hw hn hb
    have hxl : (x.len : ℤ) = pre.length + 2 + items.length := by
      have : (x.len : ℤ) = x.lt.length := rfl
      rw [this, hlt]; simp; ring
    have hqs := hw.nonneg q (by simp)
    have hg := openGrow_nonneg hε h1 hκ hν
    obtain ⟨z, k1, k2, k3, k4, k5⟩ := ih g2.good g5 (by rw [g3, ← hl]; simp) (by rw [g4, g2.len, hr]; omega) hw.tail
      (n := openGrow ε κ ν * (n * q.s)) (by positivity) g6
    refine ⟨z, ?_, g2.trans k2, by rw [k3, g3]; simp; ring, by rw [k4, g2.len], ?_⟩
    · rw [List.length_cons, List.range_succ_eq_map, List.map_cons, List.foldlM_cons, List.map_map]
      rw [show x.l + ((0 : ℕ) : ℤ) * 1 = x.l by simp, g1]
      show List.foldlM _ y _ = _
      rw [← k1]
      congr 1
      refine List.map_congr_left fun k _ => ?_
      simp only [Function.comp, g3]; push_cast; ring
    · refine (MPA.dist_triangle' g2.shape).trans ((add_le_add g7 k5).trans (le_of_eq ?_))
      rw [List.length_cons, Finset.sum_range_succ', fprod_cons, List.length_append, List.length_singleton, add_mul]
      simp only [pow_succ, pow_add, pow_zero, mul_one, add_zero, Finset.sum_mul, pow_one]
      rw [add_comm]
      congr 1
      exact Finset.sum_congr rfl fun k _ => by ring

/-- The first tensor of the chain as centre. -/
theorem WChain.first {κ ν : ℝ} {q : FItem 𝕜} {items : List (FItem 𝕜)} (h : WChain κ ν (q :: items)) (hl : q.t.IsLocal) (h1 : q.t.lb = 1) :
    CBd items q.t (κ * q.s) := by
  intro pre post e m hm
  have := h.head (q :: pre) post (by rw [e]; rfl) 1 m ⟨hl, h1, hm⟩ fun _ => 1
  simp only [Finset.sum_range_one, one_mul, norm_one, one_pow, mul_one, fprod_cons, ← mul_assoc] at this
  refine le_trans (le_of_eq ?_) this
  rw [h1, sum_idxSet_cons, Finset.sum_range_one,
    show physShape ((q :: pre).map FItem.t) = q.t.ph :: physShape (pre.map FItem.t) from rfl, sum_siteSet_cons]
  refine Finset.sum_congr rfl fun p _ => Finset.sum_congr rfl fun I _ => Finset.sum_congr rfl fun b _ => ?_
  simp only [List.map_cons, mp_cons]
  rfl

/-- The total error of the sweep over a chain with `m + 1` sites, relative to the product of the weights. -/
noncomputable def openTotal (ε κ ν : ℝ) (m : ℕ) : ℝ := κ * openErr ε κ ν * ∑ k ∈ range m, ((1 + ε) * openGrow ε κ ν) ^ k

/-- `canonicalize()` of an MPA whose canonical form is not known. -/
theorem canonicalizeF_open {ε κ ν : ℝ} (hε : 0 ≤ ε) (h1 : ε < 1) (hκ : 0 ≤ κ) (hν : 0 ≤ ν) {qr : QR 𝕜} (hqr : QRNear ε qr)
    {md : NDArray 𝕜 → NDArray 𝕜 → Py (NDArray 𝕜)} (hmd : MdNear ε md) {x : MPA 𝕜} (hv : x.Valid) (hp : AllPos x.lt) (hl : x.l = 0)
    (hr : x.r = x.len) {items : List (FItem 𝕜)} (hlt : x.lt = items.map FItem.t) (hw : WChain κ ν items) :
    ∃ y, x.canonicalizeF qr md .none .none = .ok y ∧ MPA.NearStep ε x y ∧ y.l = (x.len : ℤ) - 1 ∧ y.r = y.l + 1 ∧
      x.dist y ≤ openTotal ε κ ν (x.len - 1) * fprod items := by
  have hx : x.NearGood ε := by
    refine ⟨hv, hp, fun n t ht => ⟨fun h => by exfalso; omega, fun h => ?_⟩⟩
    have := (List.getElem?_eq_some_iff.1 ht).1
    have h2 : (x.len : ℤ) = x.lt.length := rfl
    exfalso; omega
  cases items with
  | nil => exact absurd hlt hv.ne
  | cons q items =>
    have hch := hv.chain
    rw [hlt] at hch
    have hlen : x.len = items.length + 1 := by
      show x.lt.length = _
      rw [hlt]; simp
    have hqs := hw.nonneg q (by simp)
    obtain ⟨y, k1, k2, k3, k4, k5⟩ := rcanonF_open (pre := []) (c := q.t) hε h1 hκ hν hqr hmd hx hlt (by simp [hl]) hr hw.tail
      (by positivity) (hw.first hch.1 hch.2.1)
    have e : x.canonicalizeF qr md .none .none = if x.l < x.len - x.r then x.lcanonicalizeF qr md 1
        else x.rcanonicalizeF qr md (x.len - 1) := rfl
    refine ⟨y, ?_, k2, by rw [k3, hl, hlen]; push_cast; ring, by rw [k3, k4, hl, hlen]; push_cast; ring, k5.trans (le_of_eq ?_)⟩
    · rw [e, if_neg (by omega)]
      unfold MPA.rcanonicalizeF
      rw [pyAssert_true ⟨by omega, by omega⟩, MPA.pyRange_up, show (x.len - 1 - x.l : ℤ).toNat = items.length by omega]
      exact k1
    · unfold openTotal
      rw [hlen, Nat.add_sub_cancel, fprod_cons]
      simp only [mul_pow, List.length_nil, zero_add]
      ring

end Mpnum
