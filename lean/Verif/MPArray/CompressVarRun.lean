import Verif.MPArray.CompressVarStep
import Verif.Props.C09
import Verif.MPArray.CompressMain

/-!
# What `_adapt_to` achieves
-/

open Finset

namespace Mpnum

/-- What holds after every local step of `_adapt_to`, for the entries `f` of the vector: `⟨u|f⟩ = ⟨f|f⟩` after the first
step, if `mono` holds, the squared distance from the target is at most `B`, and after the first step no element of `C` is
closer to the target. -/
structure AdaptJ (D : List ℕ) (u : List ℕ → ℂ) (mono : Prop) (B : ℝ) (C : (List (List ℕ) → ℂ) → Prop)
    (f : List (List ℕ) → ℂ) (val : Option Unit) : Prop where
  overlap : val.isSome → (sumIdx D fun I => star (u I) * f (singles I)) = sumIdx D fun I => star (f (singles I)) * f (singles I)
  err : mono → (sumIdx D fun I => ‖u I - f (singles I)‖ ^ 2) ≤ B
  best : val.isSome → ∀ g, C g → (sumIdx D fun I => ‖u I - f (singles I)‖ ^ 2) ≤ sumIdx D fun I => ‖u I - g (singles I)‖ ^ 2

theorem AdaptJ.congr {D : List ℕ} {u : List ℕ → ℂ} {mono : Prop} {B : ℝ} {C : (List (List ℕ) → ℂ) → Prop}
    {f g : List (List ℕ) → ℂ} {val : Option Unit}
    (hfg : ∀ idx, IdxOK idx (singles D) → g idx = f idx) (h : AdaptJ D u mono B C f val) : AdaptJ D u mono B C g val := by
  have e : ∀ I, InB I D → g (singles I) = f (singles I) := fun I hI => hfg _ (idxOK_singles hI)
  refine ⟨fun hv => ?_, fun hm => ?_, fun hv g' hg' => ?_⟩
  · rw [sumIdx_congr (g := fun I => star (u I) * f (singles I)) fun I hI => by rw [e I hI], h.overlap hv]
    exact sumIdx_congr fun I hI => by rw [e I hI]
  · rw [sumIdx_congr (g := fun I => ‖u I - f (singles I)‖ ^ 2) fun I hI => by rw [e I hI]]
    exact h.err hm
  · rw [sumIdx_congr (g := fun I => ‖u I - f (singles I)‖ ^ 2) fun I hI => by rw [e I hI]]
    exact h.best hv g' hg'

/-- The entries of the chains with which the vector is compared if the block of at most two sites is the whole chain. -/
def AdaptC (D : List ℕ) (k M : ℕ) (g : List (List ℕ) → ℂ) : Prop :=
  k = D.length ∧ k ≤ 2 ∧ ∃ mid : List (NDArray ℂ), Chained 1 mid 1 ∧ physShape mid = singles D ∧
    (∀ t ∈ mid.tail, t.lb ≤ M) ∧ ∀ I, InB I D → g (singles I) = entry mid (singles I)

/-- The left vectors of `_adapt_to`. -/
def AdL (tgt : MPA ℂ) (D : List ℕ) (pre : List (NDArray ℂ)) (e : NDArray ℂ) : Prop :=
  ∃ d c, ALEnv pre (tgt.lt.take pre.length) (D.take pre.length) d c e

/-- The right vectors of `_adapt_to`. -/
def AdR (tgt : MPA ℂ) (D : List ℕ) (post : List (NDArray ℂ)) (e : NDArray ℂ) : Prop :=
  ∃ d c, AREnv post (tgt.lt.drop (D.length - post.length)) (D.drop (D.length - post.length)) d c e

theorem adL_add {H : MPA ℂ} {D : List ℕ} (hH : IsMps H D) {pre : List (NDArray ℂ)} {t e : NDArray ℂ} {d : ℕ}
    (he : AdL H D pre e) (hc : Chained 1 (pre ++ [t]) d)
    (hs : physShape (pre ++ [t]) = singles (D.take (pre.length + 1))) (hp : pre.length < D.length) :
    ∃ N, (H.site (pre.length : ℤ) >>= fun W => adaptAddL e t W) = .ok N ∧ AdL H D (pre ++ [t]) N := by
  obtain ⟨d0, w, he⟩ := he
  obtain ⟨W, hW⟩ := cutAt_ok hH.valid (p := pre.length) (by rw [isMps_length hH]; omega)
  obtain ⟨t1, t2, t3, t4⟩ := concat_shape hc hs hp
  have e1 : w = W.lb := chained_right_unique he.cu hW.chainL
  have e2 : d0 = t.lb := chained_right_unique he.ct t2
  subst e1; subst e2
  obtain ⟨N, n1, n2⟩ := aLEnv_step he t1 (mps_cut_shape hH hp hW)
  refine ⟨N, by rw [hW.site, ok_bind, n1], d, W.rb, ?_⟩
  rw [List.length_append, List.length_singleton, hW.left, t4]
  exact n2

theorem adR_add {H : MPA ℂ} {D : List ℕ} (hH : IsMps H D) {post : List (NDArray ℂ)} {t e : NDArray ℂ} {d p : ℕ}
    (he : AdR H D post e) (hc : Chained d (t :: post) 1) (hs : physShape (t :: post) = singles (D.drop p))
    (hlen : p + 1 + post.length = D.length) :
    ∃ N, (H.site (p : ℤ) >>= fun W => adaptAddR e t W) = .ok N ∧ AdR H D (t :: post) N := by
  obtain ⟨d0, w, he⟩ := he
  have hp : p < D.length := by omega
  rw [show D.length - post.length = p + 1 by omega] at he
  obtain ⟨W, hW⟩ := cutAt_ok hH.valid (p := p) (by rw [isMps_length hH]; omega)
  obtain ⟨t1, t2, t3, t4⟩ := cons_shape hc hs hp
  have e1 : w = W.rb := chained_left_unique he.cu hW.chainR
  have e2 : d0 = t.rb := chained_left_unique he.ct t2
  subst e1; subst e2
  obtain ⟨N, n1, n2⟩ := aREnv_step he t1 (mps_cut_shape hH hp hW)
  refine ⟨N, by rw [hW.site, ok_bind, n1], d, W.lb, ?_⟩
  rw [List.length_cons, show D.length - (post.length + 1) = p by omega, hW.right, t4]
  exact n2

/-- The operations of `_adapt_to`. -/
theorem adaptSpec {qr : QR ℂ} {svd : SVD ℂ} (hqr : QRSpec qr) (hsvd : SVDSpec svd) {H : MPA ℂ} {D : List ℕ}
    (hH : IsMps H D) (hHp : AllPos H.lt) {k M : ℕ} (hk : 0 < k) (hM : 0 < M) {mono : Prop} {B : ℝ} (hmono : mono → k ≤ 2) :
    SweepSpec D.length k M (singles D) (fun _ => False) (fun pre e e' => AdL H D pre e ∧ e' = e)
      (fun post e e' => AdR H D post e ∧ e' = e) (AdaptJ D (fun I => H.val (singles I)) mono B (AdaptC D k M))
      (adaptOps qr svd H k M) (adaptOps qr svd H k M) := by
  refine ⟨fun f g v hfg h => h.congr hfg, ?_, ?_, ?_⟩
  · rintro pre t d e _ ⟨he, rfl⟩ hc hs hlt _
    rw [singles_take] at hs
    obtain ⟨e', h1, h2⟩ := adL_add hH he hc hs (by omega)
    exact ⟨e', e', h1, h1, h2, rfl⟩
  · rintro post t d e _ p ⟨he, rfl⟩ hc hs hlen _ _
    rw [singles_drop] at hs
    obtain ⟨e', h1, h2⟩ := adR_add hH he hc hs hlen
    exact ⟨e', e', h1, h1, h2, rfl⟩
  · rintro pre mid post l r e e₂ f f₂ val ⟨he, he2⟩ ⟨hf, hf2⟩ c1 c2 c3 hs hlen hpos hl hr hMb hJ
    subst e₂; subst f₂
    have hb : BlockAt D k pre mid post l r := ⟨c1, c2, c3, hs, hlen, hpos⟩
    obtain ⟨hl0, hr0⟩ := hb.bonds_pos hk
    have htot := hb.total
    obtain ⟨d0, w, he⟩ := he
    obtain ⟨d1, v, hf⟩ := hf
    rw [show D.length - post.length = pre.length + k by omega] at hf
    have e2 : d0 = l := chained_right_unique he.ct c1
    have e3 : d1 = r := chained_left_unique hf.ct c3
    subst e2; subst e3
    obtain ⟨y, y', hc1, hc2, hc3⟩ := chain3 hH.valid pre.length k
    have e4 : w = y := chained_right_unique he.cu hc1
    have e5 : v = y' := chained_left_unique hf.cu hc3
    subst e4; subst e5
    have q5 : physShape ((H.lt.drop pre.length).take k) = singles ((D.drop pre.length).take k) := by
      rw [physShape_take, physShape_drop, show physShape H.lt = singles D from hH.shape, singles_drop, singles_take]
    have hne : (H.lt.drop pre.length).take k ≠ [] := by
      intro h0
      have := congrArg List.length h0
      rw [List.length_take, List.length_drop, isMps_length hH] at this
      simp at this; omega
    obtain ⟨hc0, hc0'⟩ := chained_pos hne (fun t ht => hHp t (List.mem_of_mem_drop (List.mem_of_mem_take ht))) hc2
    have hDpos : ∀ d ∈ (D.drop pre.length).take k, 0 < d := by
      intro x hx
      have : [x] ∈ physShape mid := by rw [hb.mid_phys]; exact List.mem_map.2 ⟨x, hx, rfl⟩
      obtain ⟨t, ht, hte⟩ := List.mem_map.1 this
      refine hpos t (by simp [ht]) x ?_
      have : x ∈ t.ph := by rw [hte]; simp
      exact List.mem_of_mem_tail (List.mem_of_mem_dropLast this)
    obtain ⟨us, u1, u2⟩ := adaptStep_ok hqr hsvd he hf hc2 q5 hne hc0 hc0' hl0 hr0 hDpos hM hl hr
    have hD : D.take pre.length ++ (D.drop pre.length).take k ++ D.drop (pre.length + k) = D := (splitBlk D _ _).symm
    have hHs : H.lt.take pre.length ++ (H.lt.drop pre.length).take k ++ H.lt.drop (pre.length + k) = H.lt :=
      (splitBlk H.lt _ _).symm
    have g1 := u2.overlap
    have g2 := u2.best
    rw [hD, hHs] at g1 g2
    have hstep : (adaptOps qr svd H k M).step pre.length e f mid = .ok ((), us) := by
      show (do return ((), ← adaptNewLten qr svd e ((H.lt.drop pre.length).take k) f M)) = _
      rw [u1]; rfl
    refine PyRel.ok hstep hstep ⟨rfl, u2.chain, by rw [u2.phys, hb.mid_phys], u2.pos, u2.rank, fun _ => g1, fun hm => ?_, ?_⟩
    swap
    · rintro - g ⟨hkD, hk2, z, z1, z2, z3, z4⟩
      obtain rfl : pre = [] := List.length_eq_zero_iff.1 (by omega)
      obtain rfl : post = [] := List.length_eq_zero_iff.1 (by omega)
      have el : 1 = d0 := c1
      have er : d1 = 1 := c3
      subst el; subst er
      have hDk : (D.drop 0).take k = D := by rw [List.drop_zero, hkD, List.take_length]
      have := g2 (by rw [List.length_nil, hDk]; omega) z z1 (by rw [List.length_nil, hDk]; exact z2) z3
      simp only [List.nil_append, List.append_nil] at this ⊢
      refine this.trans (le_of_eq (sumIdx_congr fun I hI => ?_))
      rw [z4 I hI]
    exact (g2 (by rw [List.length_take, List.length_drop]; have := hmono hm; omega) mid c2 hb.mid_phys
      fun t ht => hMb t (by simp [List.mem_of_mem_tail ht])).trans (hJ.err hm)

/-- The result of `_adapt_to` with `m` sweeps. -/
structure AdaptOut (D : List ℕ) (u : List ℕ → ℂ) (x : MPA ℂ) (m : ℕ) (y : MPA ℂ) (o : ℝ) : Prop where
  good : y.Good
  shape : y.shape = singles D
  rank : ∀ M, x.maxRank = .ok M → ∀ t ∈ y.ranks, t ≤ M
  norm : (sumIdx D fun I => star (y.val (singles I)) * y.val (singles I)) = (o : ℂ)
  overlap : m ≠ 0 → (sumIdx D fun I => star (u I) * y.val (singles I))
    = sumIdx D fun I => star (y.val (singles I)) * y.val (singles I)
  zero : m = 0 → ∀ I, InB I D → y.val (singles I) = x.val (singles I)

theorem foldl_max_mono {ds es : List ℕ} (h : List.Forall₂ (· ≤ ·) ds es) {d e : ℕ} (hde : d ≤ e) :
    ds.foldl max d ≤ es.foldl max e := by
  induction h generalizing d e with
  | nil => exact hde
  | cons h1 _ ih => exact ih (max_le_max hde h1)

theorem MPA.RanksLe.ranks {x y : MPA ℂ} (h : y.RanksLe x) : List.Forall₂ (· ≤ ·) y.ranks x.ranks := by
  unfold MPA.RanksLe at h
  unfold MPA.ranks
  cases hy : y.lt with
  | nil => rw [hy] at h; cases hx : x.lt with
    | nil => exact List.Forall₂.nil
    | cons a b => rw [hx] at h; cases h
  | cons a b =>
    rw [hy] at h
    cases hx : x.lt with
    | nil => rw [hx] at h; cases h
    | cons c d => rw [hx] at h; cases h with | cons _ h => exact h

theorem MPA.RanksLe.maxRank {x y : MPA ℂ} (h : y.RanksLe x) {m : ℕ} (hx : x.maxRank = .ok m) {m' : ℕ}
    (hy : y.maxRank = .ok m') : m' ≤ m := by
  have hr := h.ranks
  unfold MPA.maxRank at hx hy
  revert hx hy hr
  generalize y.ranks = a
  generalize x.ranks = b
  intro hx hy hr
  cases hr with
  | nil => cases hx
  | cons h1 h2 =>
    cases hx; cases hy
    exact foldl_max_mono h2 h1

/-- The sweeps of `_adapt_to`: after `m` sweeps there is a vector with all the properties; one more sweep starts from
there. -/
theorem adaptRun_ok {qr : QR ℂ} {svd : SVD ℂ} (hqr : QRSpec qr) (hsvd : SVDSpec svd) {H y : MPA ℂ} {D : List ℕ}
    (hH : H.Good) (hHs : H.shape = singles D) (hy : y.Good) (hys : y.shape = singles D) (hyr : y.r = 1) {M : ℕ}
    (hM : 0 < M) (hb : ∀ t ∈ y.lt, t.lb ≤ M) {k : ℕ} (hk : 0 < k) (hkn : k ≤ D.length) (m : ℕ) :
    ∃ st, (adaptOps qr svd H k M).run qr k D.length m (onesNd 2) y = .ok st ∧ st.vec.Good ∧ st.vec.shape = singles D ∧
      (∀ t ∈ st.vec.lt, t.lb ≤ M) ∧ (m = 0 → st.vec = y) ∧
      (m ≠ 0 → (sumIdx D fun I => star (H.val (singles I)) * st.vec.val (singles I))
        = sumIdx D fun I => star (st.vec.val (singles I)) * st.vec.val (singles I)) ∧
      ∃ st', (adaptOps qr svd H k M).run qr k D.length (m + 1) (onesNd 2) y = .ok st' ∧
        (k ≤ 2 → (sumIdx D fun I => ‖H.val (singles I) - st'.vec.val (singles I)‖ ^ 2)
          ≤ sumIdx D fun I => ‖H.val (singles I) - st.vec.val (singles I)‖ ^ 2) ∧
        ∀ g, AdaptC D k M g → (sumIdx D fun I => ‖H.val (singles I) - st'.vec.val (singles I)‖ ^ 2)
          ≤ sumIdx D fun I => ‖H.val (singles I) - g (singles I)‖ ^ 2 := by
  have hlen : ∀ z : MPA ℂ, z.shape = singles D → z.lt.length = D.length := fun z hz => by
    have := congrArg List.length (show physShape z.lt = singles D from hz)
    rwa [physShape_length, singles_length] at this
  have hMps : IsMps H D := ⟨hH.valid, hHs⟩
  have hspec := fun (mono : Prop) (B : ℝ) (hm : mono → k ≤ 2) =>
    adaptSpec (mono := mono) (B := B) hqr hsvd hMps hH.pos hk hM hm
  have hrun := run_inv hqr (hspec False 0 False.elim) hk hkn
    hy (hlen y hys) hys hb hyr (e₁ := onesNd 2) (e₂ := onesNd 2)
    ⟨⟨1, 1, by simpa using aLEnv_nil⟩, rfl⟩ ⟨⟨1, 1, by
      have : H.lt.drop D.length = [] := by rw [← hlen H hHs]; simp
      simpa [this] using aREnv_nil⟩, rfl⟩ ⟨by simp, False.elim, by simp⟩ m
  have hsucc : (adaptOps qr svd H k M).run qr k D.length (m + 1) (onesNd 2) y
      = (adaptOps qr svd H k M).run qr k D.length m (onesNd 2) y >>= fun st =>
        (adaptOps qr svd H k M).sweep qr k D.length st m := by
    unfold SweepOps.run
    cases (adaptOps qr svd H k M).initRight k D.length (onesNd 2) y with
    | error e => rfl
    | ok rv =>
      rw [ok_bind, ok_bind, List.range_succ, List.foldlM_append]
      simp only [List.foldlM_cons, List.foldlM_nil, bind_pure]
  cases hr : (adaptOps qr svd H k M).run qr k D.length m (onesNd 2) y with
  | error e => rw [hr] at hrun; exact hrun.2.elim
  | ok st =>
    rw [hr] at hrun
    obtain ⟨h1, h2, h3⟩ := hrun
    refine ⟨st, rfl, h1.good, h1.shape, h1.bound, ?_, fun hm => h1.prop.overlap (h3 hm).2.2.2, ?_⟩
    · rintro rfl
      have : (adaptOps qr svd H k M).run qr k D.length 0 (onesNd 2) y = .ok st := hr
      unfold SweepOps.run at this
      cases hi : (adaptOps qr svd H k M).initRight k D.length (onesNd 2) y with
      | error e => rw [hi] at this; cases this
      | ok rv => rw [hi] at this; cases this; rfl
    · rw [hsucc, hr, ok_bind]
      set B := sumIdx D fun I => ‖H.val (singles I) - st.vec.val (singles I)‖ ^ 2 with hB
      have hJ : AdaptJ D (fun I => H.val (singles I)) (k ≤ 2) B (AdaptC D k M) st.vec.val st.val :=
        ⟨h1.prop.overlap, fun _ => le_rfl, h1.prop.best⟩
      have hinv : SweepInv D.length k M (singles D) (fun pre e e' => AdL H D pre e ∧ e' = e)
          (fun post e e' => AdR H D post e ∧ e' = e) (AdaptJ D (fun I => H.val (singles I)) (k ≤ 2) B (AdaptC D k M)) 0 st st :=
        { h1 with prop := hJ }
      have hs := sweep_inv hqr (hspec (k ≤ 2) B id) hk hkn m (s₁ := st) (s₂ := st) (by
        by_cases hm : m = 0
        · rw [if_pos hm]; exact hinv
        · rw [if_neg hm]; exact ⟨hinv, (h3 hm).2⟩)
      cases hr' : (adaptOps qr svd H k M).sweep qr k D.length st m with
      | error e => rw [hr'] at hs; exact hs.2.elim
      | ok st' => rw [hr'] at hs; exact ⟨st', rfl, hs.1.prop.err, hs.1.prop.best hs.2.2.2⟩

theorem MPA.adaptTo_ok {qr : QR ℂ} {svd : SVD ℂ} (hqr : QRSpec qr) (hsvd : SVDSpec svd) {H x : MPA ℂ} {D : List ℕ}
    (hH : H.Good) (hHs : H.shape = singles D) (hx : x.Good) (hxs : x.shape = singles D) {k : ℕ} (hk : 0 < k)
    (hkn : k ≤ D.length) (hn : D.length ≠ 1) (m : ℕ) :
    ∃ y o, x.adaptTo qr svd H m k = .ok (y, o) ∧ AdaptOut D (fun I => H.val (singles I)) x m y o ∧
      ∃ y' o', x.adaptTo qr svd H (m + 1) k = .ok (y', o') ∧
        (k ≤ 2 → (sumIdx D fun I => ‖H.val (singles I) - y'.val (singles I)‖ ^ 2)
          ≤ sumIdx D fun I => ‖H.val (singles I) - y.val (singles I)‖ ^ 2) ∧
        ∀ s M, x.canonicalize qr .none (.int 1) = .ok s → s.maxRank = .ok M → ∀ g, AdaptC D k M g →
          (sumIdx D fun I => ‖H.val (singles I) - y'.val (singles I)‖ ^ 2)
            ≤ sumIdx D fun I => ‖H.val (singles I) - g (singles I)‖ ^ 2 := by
  have hlen : ∀ z : MPA ℂ, z.shape = singles D → z.lt.length = D.length := fun z hz => by
    have := congrArg List.length (show physShape z.lt = singles D from hz)
    rwa [physShape_length, singles_length] at this
  have hone : ∀ z : MPA ℂ, z.shape = singles D → z.OneLeg := by
    intro z hz s hs
    rw [hz] at hs
    obtain ⟨d, _, rfl⟩ := List.mem_map.1 hs
    rfl
  obtain ⟨y, y1, y2, y3, y4⟩ := MPA.canonicalize_right_first hqr hx
  have hys : y.shape = singles D := by rw [y2.same.1, hxs]
  obtain ⟨M, M1, M2, M3⟩ := MPA.maxRank_ok y2.good (by show y.lt.length ≠ 1; rw [hlen y hys]; exact hn)
  have hb : ∀ t ∈ y.lt, t.lb ≤ M := by
    intro t ht
    have hc := y2.good.valid.chain
    unfold MPA.ranks at M3
    cases hy : y.lt with
    | nil => rw [hy] at ht; simp at ht
    | cons a b =>
      rw [hy] at ht hc M3
      rcases List.mem_cons.1 ht with rfl | ht
      · rw [hc.2.1]; exact M2
      · exact M3 _ (List.mem_map.2 ⟨t, ht, rfl⟩)
  have hnl : H.len = D.length := hlen H hHs
  have hred : ∀ m, x.adaptTo qr svd H m k = (do
      let st ← (adaptOps qr svd H k M).run qr k D.length m (onesNd 2) y
      let (v, z) ← Mpnum.norm qr st.vec
      return (z, v ^ 2)) := by
    intro m
    unfold MPA.adaptTo
    rw [pyAssert_true (hone x hxs), ok_bind, pyAssert_true (hone H hHs), ok_bind, y1, ok_bind, M1, ok_bind, hnl]
  obtain ⟨st, s1, s2, s3, s4, s5, s6, st', t1, t2, t4⟩ := adaptRun_ok hqr hsvd hH hHs y2.good hys y4 M2 hb hk hkn m
  obtain ⟨z, z1, z2⟩ := norm_ok hqr s2
  obtain ⟨st'', t1', t2', t3', -⟩ := adaptRun_ok hqr hsvd hH hHs y2.good hys y4 M2 hb hk hkn (m + 1)
  rw [t1] at t1'; cases t1'
  obtain ⟨z', z1', z2'⟩ := norm_ok hqr t2'
  have hv : ∀ {a b : MPA ℂ}, a.shape = singles D → CanonStepSpec a b → ∀ I, InB I D → b.val (singles I) = a.val (singles I) :=
    fun ha h I hI => h.same.2 _ (by rw [ha]; exact idxOK_singles hI)
  refine ⟨z, st.vec.frob ^ 2, by rw [hred, s1, ok_bind, z1]; rfl, ⟨z2.good, by rw [z2.same.1, s3], ?_, ?_, ?_, ?_⟩,
    z', st'.vec.frob ^ 2, by rw [hred, t1, ok_bind, z1']; rfl, ?_, ?_⟩
  · intro m' hm' t ht
    obtain ⟨a, ha, rfl⟩ := List.mem_map.1 ht
    have h5 := SweepInv.bound_of_ranksLe z2.ranks s4 a (List.mem_of_mem_tail ha)
    have h6 := y2.ranks.maxRank hm' M1
    omega
  · rw [norm_sq_sum, ← z2.same.frob, MPA.frob, Real.sq_sqrt (sumSites_nonneg fun _ => sq_nonneg _), z2.same.1, s3,
      sumSites_singles]
  · intro hm
    rw [sumIdx_congr (g := fun I => star (H.val (singles I)) * st.vec.val (singles I)) fun I hI => by rw [hv s3 z2 I hI],
      sumIdx_congr (g := fun I => star (st.vec.val (singles I)) * st.vec.val (singles I)) (f := fun I => star (z.val (singles I))
        * z.val (singles I)) fun I hI => by rw [hv s3 z2 I hI]]
    exact s6 hm
  · rintro rfl I hI
    rw [hv s3 z2 I hI, s5 rfl, hv hxs y2 I hI]
  · intro hk1
    rw [sumIdx_congr (g := fun I => ‖H.val (singles I) - st'.vec.val (singles I)‖ ^ 2) fun I hI => by rw [hv t3' z2' I hI],
      sumIdx_congr (g := fun I => ‖H.val (singles I) - st.vec.val (singles I)‖ ^ 2) (f := fun I => ‖H.val (singles I) -
        z.val (singles I)‖ ^ 2) fun I hI => by rw [hv s3 z2 I hI]]
    exact t2 hk1
  · intro s M' hs hM' g hg
    rw [y1] at hs; cases hs
    rw [M1] at hM'; cases hM'
    rw [sumIdx_congr (g := fun I => ‖H.val (singles I) - st'.vec.val (singles I)‖ ^ 2) fun I hI => by rw [hv t3' z2' I hI]]
    exact t4 g hg

end Mpnum
