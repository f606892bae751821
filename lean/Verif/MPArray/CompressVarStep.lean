import Verif.MPArray.CompressVarLemmas
import Verif.Linalg.EigMain
import Verif.MPArray.OpenTwo

/-!
# The sweeps of variational compression
-/

open Finset

namespace Mpnum

/-- `‖a - b‖² = ‖a‖² - 2 Re ⟨b|a⟩ + ‖b‖²` -/
theorem dist_sq_sum (S : List ℕ) (a b : List ℕ → ℂ) : (sumIdx S fun I => ‖a I - b I‖ ^ 2)
    = (sumIdx S fun I => ‖a I‖ ^ 2) - 2 * (sumIdx S fun I => star (b I) * a I).re + sumIdx S fun I => ‖b I‖ ^ 2 := by
  simp only [sumIdx_eq_sum]
  rw [Complex.re_sum, mul_sum, ← sum_sub_distrib, ← sum_add_distrib]
  refine sum_congr rfl fun I _ => ?_
  rw [Complex.sq_norm, Complex.sq_norm, Complex.sq_norm, Complex.normSq_sub, show star (b I) = (starRingEnd ℂ) (b I) from rfl,
    mul_comm ((starRingEnd ℂ) (b I))]
  ring

theorem norm_sum_of_eq {S T : List ℕ} {a b : List ℕ → ℂ}
    (h : (sumIdx S fun I => star (a I) * a I) = sumIdx T fun I => star (b I) * b I) :
    (sumIdx S fun I => ‖a I‖ ^ 2) = sumIdx T fun I => ‖b I‖ ^ 2 := by
  rw [norm_sq_sum, norm_sq_sum] at h
  exact_mod_cast h

/-- Distances to the target and distances to the block tensor of the target differ by a constant. -/
theorem block_dist {pre post : List (NDArray ℂ)} {X Y : NDArray ℂ} {l r : ℕ} {P D Q : List ℕ} {u : List ℕ → ℂ}
    (h1 : Chained 1 pre l) (h3 : Chained r post 1) (hP : physShape pre = singles P) (hQ : physShape post = singles Q)
    (hl : ∀ t ∈ pre, LCanon t) (hr : ∀ t ∈ post, RCanon t) (hY : Y.shape = l :: (D ++ [r]))
    (hX : ∀ a < l, ∀ i, InB i D → ∀ b < r, X.get (a :: (i ++ [b]))
      = sumIdx P fun I₁ => sumIdx Q fun I₃ => star (mp pre (singles I₁) 0 a * mp post (singles I₃) b 0) * u (I₁ ++ i ++ I₃)) :
    (sumIdx (P ++ D ++ Q) fun I => ‖u I - blockVec pre Y post P.length D.length I‖ ^ 2)
      = (sumIdx (P ++ D ++ Q) fun I => ‖u I‖ ^ 2) - (sumIdx (l :: (D ++ [r])) fun x => ‖X.get x‖ ^ 2)
        + sumIdx (l :: (D ++ [r])) fun x => ‖X.get x - Y.get x‖ ^ 2 := by
  rw [dist_sq_sum, dist_sq_sum, block_proj h1 hP hY hX, norm_sum_of_eq (block_inner h1 h3 hP hQ hl hr hY hY)]
  ring

/-- What the local step of `_adapt_to` returns. -/
structure AdaptStep (u : List ℕ → ℂ) (P D Q : List ℕ) (pre post : List (NDArray ℂ)) (l r M : ℕ)
    (us : List (NDArray ℂ)) : Prop where
  chain : Chained l us r
  phys : physShape us = singles D
  pos : AllPos us
  rank : ∀ t ∈ us.tail, t.lb ≤ M
  overlap : (sumIdx (P ++ D ++ Q) fun I => star (u I) * entry (pre ++ us ++ post) (singles I))
    = sumIdx (P ++ D ++ Q) fun I => star (entry (pre ++ us ++ post) (singles I)) * entry (pre ++ us ++ post) (singles I)
  best : D.length ≤ 2 → ∀ mid : List (NDArray ℂ), Chained l mid r → physShape mid = singles D → (∀ t ∈ mid.tail, t.lb ≤ M) →
    (sumIdx (P ++ D ++ Q) fun I => ‖u I - entry (pre ++ us ++ post) (singles I)‖ ^ 2)
      ≤ sumIdx (P ++ D ++ Q) fun I => ‖u I - entry (pre ++ mid ++ post) (singles I)‖ ^ 2

theorem adaptStep_ok {qr : QR ℂ} {svd : SVD ℂ} (hqr : QRSpec qr) (hsvd : SVDSpec svd) {lv rv : NDArray ℂ}
    {pre post upre um upost : List (NDArray ℂ)} {P D Q : List ℕ} {c c' l r M : ℕ}
    (hle : ALEnv pre upre P l c lv) (hre : AREnv post upost Q r c' rv) (hm : Chained c um c')
    (hsh : physShape um = singles D) (hne : um ≠ []) (hc : 0 < c) (hc' : 0 < c') (hl0 : 0 < l) (hr0 : 0 < r)
    (hDpos : ∀ d ∈ D, 0 < d) (hM : 0 < M)
    (hl : ∀ t ∈ pre, LCanon t) (hr : ∀ t ∈ post, RCanon t) :
    ∃ us, adaptNewLten qr svd lv um rv M = .ok us ∧
      AdaptStep (fun I => entry (upre ++ um ++ upost) (singles I)) P D Q pre post l r M us := by
  obtain ⟨X, x1, hXs, x3⟩ := adaptBlock_ok hle hre hm hsh hne hc hc'
  have h1 := hle.ct
  have h3 := hre.ct
  have hP := hle.st
  have hQ := hre.st
  have nD : um.length = D.length := by
    have := congrArg List.length hsh; rw [physShape_length, singles_length] at this; exact this
  set Sh := l :: (D ++ [r]) with hSh
  have hShp : ∀ d ∈ Sh, 0 < d := by
    intro d hd
    rw [hSh] at hd
    simp only [List.mem_cons, List.mem_append, List.not_mem_nil, or_false] at hd
    rcases hd with rfl | hd | rfl
    · exact hl0
    · exact hDpos d hd
    · exact hr0
  have hEnt : ∀ (mid : List (NDArray ℂ)) (Z : NDArray ℂ), (∀ I, InB I (P ++ D ++ Q) → blockVec pre Z post P.length D.length I
      = entry (pre ++ mid ++ post) (singles I)) →
      (sumIdx (P ++ D ++ Q) fun I => ‖entry (upre ++ um ++ upost) (singles I) - entry (pre ++ mid ++ post) (singles I)‖ ^ 2)
        = sumIdx (P ++ D ++ Q) fun I => ‖entry (upre ++ um ++ upost) (singles I) - blockVec pre Z post P.length D.length I‖ ^ 2 :=
    fun mid Z hZ => sumIdx_congr fun I hI => by rw [hZ I hI]
  unfold adaptNewLten
  rw [x1, ok_bind]
  by_cases hk : um.length = 1
  · rw [if_pos hk]
    obtain ⟨d, hDd⟩ : ∃ d, D = [d] := by
      rw [nD] at hk
      exact List.length_eq_one_iff.1 hk
    have cX : Chained l [X] r :=
      ⟨by simp [NDArray.IsLocal, NDArray.ndim, hXs, hSh], NDArray.lb_of_shape hXs, NDArray.rb_of_shape hXs⟩
    have pX : physShape [X] = singles D := by
      simp [physShape, NDArray.ph_of_shape hXs, hDd, singles]
    have rX : Rep l [X] r X := by
      have := rep_single (t := X) cX.1
      rwa [NDArray.lb_of_shape hXs, NDArray.rb_of_shape hXs] at this
    have hbv : ∀ I, InB I (P ++ D ++ Q) → blockVec pre X post P.length D.length I
        = entry (pre ++ [X] ++ post) (singles I) := fun I hI => blockVec_rep h1 cX rX hP pX hI
    refine ⟨[X], rfl, cX, pX, ?_, by simp, ?_, ?_⟩
    · intro t ht d' hd'
      rw [List.mem_singleton] at ht
      subst ht
      rw [hXs] at hd'
      exact hShp d' hd'
    · have e1 := block_proj (u := fun I => entry (upre ++ um ++ upost) (singles I)) h1 hP hXs x3
      have e2 := block_inner h1 h3 hP hQ hl hr hXs hXs
      have e3 : (sumIdx (P ++ D ++ Q) fun I => star (entry (pre ++ [X] ++ post) (singles I)) *
          entry (upre ++ um ++ upost) (singles I)) = sumIdx (P ++ D ++ Q) fun I =>
            star (entry (pre ++ [X] ++ post) (singles I)) * entry (pre ++ [X] ++ post) (singles I) := by
        rw [sumIdx_congr fun I hI => by rw [hbv I hI]] at e1
        rw [sumIdx_congr fun I hI => by rw [hbv I hI]] at e2
        rw [e1, ← e2]
      have e4 := congrArg star e3
      rw [star_sumIdx, star_sumIdx] at e4
      simpa only [star_mul', star_star, mul_comm] using e4
    · intro _ mid hmc hmp _
      have hmne : mid ≠ [] := by
        intro h0; rw [h0, hDd] at hmp; simp [physShape, singles] at hmp
      obtain ⟨Y, -, hYr⟩ := ltensToArray_ok hmc hmne
      have hY : Y.shape = Sh := by rw [hYr.1, hmp, hSh]; congr 2; exact singles_flatten' D
      rw [hEnt mid Y fun I hI => blockVec_rep h1 hmc hYr hP hmp hI, hEnt [X] X hbv,
        block_dist (u := fun I => entry (upre ++ um ++ upost) (singles I)) h1 h3 hP hQ hl hr hY x3,
        block_dist (u := fun I => entry (upre ++ um ++ upost) (singles I)) h1 h3 hP hQ hl hr hXs x3]
      simp only [sub_self, norm_zero]
      have : 0 ≤ sumIdx Sh fun x => ‖X.get x - Y.get x‖ ^ 2 := by
        rw [sumIdx_eq_sum]; exact sum_nonneg fun _ _ => by positivity
      have : (sumIdx Sh fun _ => (0 : ℝ) ^ 2) = 0 := by
        rw [sumIdx_eq_sum]; simp
      linarith
  · rw [if_neg hk]
    have hlen0 : 0 < um.length := List.length_pos_of_ne_nil hne
    obtain ⟨us, u1, u2, u3, u4⟩ := splitBlock_ok (qr := qr) (svd := svd) hqr hsvd (rank := (M : ℤ)) (by exact_mod_cast hM)
      (X := X) (l := l) (r := r) (D := D) hXs hl0 hr0 hDpos (by omega)
    have une : us ≠ [] := by
      intro h0
      have := u2.shape
      rw [h0] at this
      have := congrArg List.length this
      simp [physShape] at this
      rw [nD] at hlen0; rw [← this] at hlen0; simp at hlen0
    have uph : physShape us = singles D := u2.shape
    obtain ⟨G, -, g2⟩ := ltensToArray_ok u2.chain une
    have hGs : G.shape = Sh := by
      rw [g2.1, uph, hSh]; congr 2; exact singles_flatten' D
    have hbv : ∀ I, InB I (P ++ D ++ Q) → blockVec pre G post P.length D.length I
        = entry (pre ++ us ++ post) (singles I) := fun I hI => blockVec_rep h1 u2.chain g2 hP uph hI
    have hconv : ∀ F : NDArray ℂ, (sumIdx Sh fun x => star (F.get x) * G.get x)
        = ∑ i ∈ range l, sumSites (D.map fun d => [d]) fun I => ∑ j ∈ range r,
          star (F.get (i :: (I.flatten ++ [j]))) * mp us I i j := by
      intro F
      rw [hSh, sumIdx_cons]
      refine sum_congr rfl fun a ha => ?_
      rw [sumIdx_append]
      rw [show (D.map fun d => [d]) = singles D from rfl, sumSites_singles]
      refine sumIdx_congr fun i hi => ?_
      rw [sumIdx_cons]
      refine sum_congr rfl fun b hb => ?_
      rw [sumIdx_nil]
      have e := g2.2 a (mem_range.1 ha) b (mem_range.1 hb) (singles i) (by rw [uph]; exact singles_idxOK hi)
      rw [show (singles i).flatten = i from singles_flatten' i] at e ⊢
      rw [e]
    have hov : (sumIdx Sh fun x => star (X.get x) * G.get x) = sumIdx Sh fun x => star (G.get x) * G.get x := by
      rw [hconv, hconv, u4]
      refine sum_congr rfl fun a ha => sumSites_congr fun I hI => sum_congr rfl fun b hb => ?_
      rw [g2.2 a (mem_range.1 ha) b (mem_range.1 hb) I (by rw [uph]; exact hI)]
    refine ⟨us, u1, u2.chain, uph, u2.pos, fun t ht => by exact_mod_cast u3 t ht, ?_, ?_⟩
    · have e1 := block_proj (u := fun I => entry (upre ++ um ++ upost) (singles I)) h1 hP hGs x3
      have e2 := block_inner h1 h3 hP hQ hl hr hGs hGs
      rw [sumIdx_congr fun I hI => by rw [hbv I hI]] at e1
      rw [sumIdx_congr fun I hI => by rw [hbv I hI]] at e2
      rw [e2]
      have e4 := congrArg star e1
      rw [star_sumIdx, star_sumIdx] at e4
      simp only [star_mul', star_star] at e4
      rw [← hov]
      refine Eq.trans (sumIdx_congr fun I _ => mul_comm _ _) (e4.trans (sumIdx_congr fun I _ => mul_comm _ _))
    · intro h0 mid hmc hmp hmr
      have hD2 : D.length = 2 := by omega
      have hml : mid.length = 2 := by
        have := congrArg List.length hmp; rw [physShape_length, singles_length] at this; omega
      have hmne : mid ≠ [] := by intro h0; rw [h0] at hml; simp at hml
      obtain ⟨Y, -, hYr⟩ := ltensToArray_ok hmc hmne
      have hY : Y.shape = Sh := by rw [hYr.1, hmp, hSh]; congr 2; exact singles_flatten' D
      rw [hEnt mid Y fun I hI => blockVec_rep h1 hmc hYr hP hmp hI, hEnt us G hbv,
        block_dist (u := fun I => entry (upre ++ um ++ upost) (singles I)) h1 h3 hP hQ hl hr hY x3,
        block_dist (u := fun I => entry (upre ++ um ++ upost) (singles I)) h1 h3 hP hQ hl hr hGs x3]
      have hcv : ∀ F : List ℕ → ℝ, (sumIdx Sh F) = ∑ i ∈ range l, sumSites (D.map fun d => [d]) fun I => ∑ j ∈ range r,
          F (i :: (I.flatten ++ [j])) := by
        intro F
        rw [hSh, sumIdx_cons]
        refine sum_congr rfl fun a ha => ?_
        rw [sumIdx_append, show (D.map fun d => [d]) = singles D from rfl, sumSites_singles]
        refine sumIdx_congr fun i hi => ?_
        rw [sumIdx_cons]
        refine sum_congr rfl fun b hb => ?_
        rw [sumIdx_nil, show (singles i).flatten = i from singles_flatten' i]
      have key := splitBlock_best hqr hsvd hM hXs hl0 hr0 hDpos hD2 u1 hmc hml hmr
      have eG : (∑ i ∈ range l, sumSites (D.map fun d => [d]) fun I => ∑ j ∈ range r, ‖mp us I i j‖ ^ 2)
          = sumIdx Sh fun x => ‖G.get x‖ ^ 2 := by
        rw [hcv]
        refine sum_congr rfl fun a ha => sumSites_congr fun I hI => sum_congr rfl fun b hb => ?_
        rw [g2.2 a (mem_range.1 ha) b (mem_range.1 hb) I (by rw [uph]; exact hI)]
      have eY : (∑ i ∈ range l, sumSites (D.map fun d => [d]) fun I => ∑ j ∈ range r,
          ‖X.get (i :: (I.flatten ++ [j])) - mp mid I i j‖ ^ 2) = sumIdx Sh fun x => ‖X.get x - Y.get x‖ ^ 2 := by
        rw [hcv]
        refine sum_congr rfl fun a ha => sumSites_congr fun I hI => sum_congr rfl fun b hb => ?_
        rw [hYr.2 a (mem_range.1 ha) b (mem_range.1 hb) I (by rw [hmp]; exact hI)]
      rw [eG, eY, ← hcv fun x => ‖X.get x‖ ^ 2] at key
      have eX := dist_sq_sum Sh X.get G.get
      have hov2 : (sumIdx Sh fun x => star (G.get x) * X.get x).re = sumIdx Sh fun x => ‖G.get x‖ ^ 2 := by
        have e4 := congrArg star hov
        rw [star_sumIdx, star_sumIdx] at e4
        simp only [star_mul', star_star] at e4
        rw [sumIdx_congr fun x _ => mul_comm _ _, e4, sumIdx_congr fun x _ => mul_comm _ _, norm_sq_sum]
        simp
      rw [hov2] at eX
      linarith

end Mpnum
