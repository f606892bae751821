import Verif.MPArray.RoundingSvdStep
import Verif.MPArray.Transpose

/-! The sweeps of `compress(method='svd')` in inexact arithmetic. -/

open Finset

namespace Mpnum

variable {𝕜 : Type} [RCLike 𝕜]

/-- The mirror image of a chain. -/
def revs (ts : List (NDArray 𝕜)) : List (NDArray 𝕜) := (ts.map NDArray.rev3).reverse

theorem revs_concat (ts : List (NDArray 𝕜)) (t : NDArray 𝕜) : revs (ts ++ [t]) = t.rev3 :: revs ts := by
  simp [revs]

theorem revs_cons (ts : List (NDArray 𝕜)) (t : NDArray 𝕜) : revs (t :: ts) = revs ts ++ [t.rev3] := by
  simp [revs]

theorem revs_length (ts : List (NDArray 𝕜)) : (revs ts).length = ts.length := by simp [revs]

theorem physShape_revs (ts : List (NDArray 𝕜)) : physShape (revs ts) = (physShape ts).reverse := by
  simp [revs, physShape, Function.comp_def, rev3_ph]

theorem chained_revs {l r : ℕ} {ts : List (NDArray 𝕜)} (h : Chained l ts r) : Chained r (revs ts) l := by
  have := chained_reverse (ps := ts.map fun t => (t, t.rev3)) (l := l) (r := r) (by
    intro p hp
    obtain ⟨t, _, rfl⟩ := List.mem_map.1 hp
    exact ⟨rev3_local t, rev3_lb t, rev3_rb t⟩) (by simpa [Function.comp_def] using h)
  simpa [revs, Function.comp_def, List.map_reverse] using this

theorem cv_revs {ts : List (NDArray 𝕜)} (h : Chained 1 ts 1) {j : List (List ℕ)} (hj : IdxOK j (physShape ts)) :
    cv (revs ts) 0 j.reverse = cv ts 0 j := by
  have := mp_reverse (ps := ts.map fun t => (t, t.rev3)) (l := 1) (r := 1) (by
    intro p hp
    obtain ⟨t, _, rfl⟩ := List.mem_map.1 hp
    exact ⟨rev3_local t, rev3_lb t, rev3_rb t, fun a b i _ => rev3_at3 t b i a⟩) (by simpa [Function.comp_def] using h)
    (idx := j) (by simpa [Function.comp_def] using hj) (a := 0) (b := 0) (by omega) (by omega)
  simpa [revs, cv, Function.comp_def, List.map_reverse] using this

theorem l2_revs (S : List (List ℕ)) (f : ℕ → List (List ℕ) → 𝕜) :
    l2 (range 1) (siteSet S.reverse) f = l2 (range 1) (siteSet S) fun a j => f a j.reverse := by
  unfold l2
  congr 1
  refine Finset.sum_congr rfl fun a _ => ?_
  refine Finset.sum_nbij' List.reverse List.reverse ?_ ?_ (fun _ _ => List.reverse_reverse _) (fun _ _ => List.reverse_reverse _) ?_
  · intro j hj
    rw [mem_siteSet] at hj ⊢
    have := List.rel_reverse hj
    rw [List.reverse_reverse] at this
    exact this
  · intro j hj
    rw [mem_siteSet] at hj ⊢
    exact List.rel_reverse hj
  · intro j _
    simp only [List.reverse_reverse]

theorem MPA.dist_l2 (x y : MPA 𝕜) : x.dist y = l2 (range 1) (siteSet (physShape x.lt)) fun a j => cv x.lt a j - cv y.lt a j := by
  unfold MPA.dist l2
  rw [Finset.sum_range_one, sumSites_eq_sum]
  rfl

theorem MPA.frob_l2 (x : MPA 𝕜) : x.frob = l2 (range 1) (siteSet (physShape x.lt)) (cv x.lt) := by
  unfold MPA.frob l2
  rw [Finset.sum_range_one, sumSites_eq_sum]
  rfl

theorem MPA.dist_revs {x y : MPA 𝕜} (hx : x.Valid) (hy : y.Valid) (hs : y.shape = x.shape) :
    x.dist y = l2 (range 1) (siteSet (physShape (revs x.lt))) fun a j => cv (revs x.lt) a j - cv (revs y.lt) a j := by
  rw [MPA.dist_l2, physShape_revs, l2_revs]
  refine l2_congr fun a ha j hj => ?_
  obtain rfl : a = 0 := by simpa using ha
  rw [mem_siteSet] at hj
  rw [cv_revs hx.chain hj, cv_revs hy.chain (by rw [show physShape y.lt = physShape x.lt from hs]; exact hj)]

theorem MPA.frob_revs {x : MPA 𝕜} (hx : x.Valid) :
    x.frob = l2 (range 1) (siteSet (physShape (revs x.lt))) (cv (revs x.lt)) := by
  rw [MPA.frob_l2, physShape_revs, l2_revs]
  refine l2_congr fun a ha j hj => ?_
  obtain rfl : a = 0 := by simpa using ha
  rw [mem_siteSet] at hj
  rw [cv_revs hx.chain hj]

theorem MPA.PairStep.near {ε : ℝ} {x y : MPA 𝕜} {pre post : List (NDArray 𝕜)} {t u t' u' : NDArray 𝕜}
    (h : MPA.PairStep ε x y pre post t u t' u') : MPA.NearStep ε x y := ⟨h.good, h.shape, h.ranks, h.len⟩

/-- The error of a step of the sweep relative to the norm of the centre. -/
noncomputable def stepErr (ε : ℝ) (D : ℕ) : ℝ := 5 * (1 + ε) ^ 4 * Real.sqrt D * ε

namespace MPA

/-- The sweep to the right, starting at the site behind `pre`. -/
theorem sweepRF_ok {ε : ℝ} (hε : 0 ≤ ε) (h1 : ε ≤ 1) {ar : Arith 𝕜} (hsvd : SVDNear ε ar.svd) (hmul : MulNear ε ar.mul)
    (hmd : MdNear ε ar.md) (hrk : ∀ s e, 0 < ar.rank s e) {rank : ℤ} (hr : 0 < rank) (relerr : Option ℝ) {D : ℕ}
    {post Bs : List (NDArray 𝕜)} (hBs : List.Forall₂ (RDiff ε) post Bs) (hB : ∀ B ∈ Bs, RCanon B ∧ B.IsLocal) {x : MPA 𝕜}
    (hx : x.NearGood ε) {pre : List (NDArray 𝕜)} {A : NDArray 𝕜} (hlt : x.lt = pre ++ A :: post)
    (hl : x.l = pre.length) (hr1 : x.r = pre.length + 1) (hD : ∀ R ∈ post, R.lb ≤ D) :
    ∃ y ys Ys, ((List.range' pre.length post.length).map fun k : ℕ => (k : ℤ)).foldlM (svdStepRF ar rank relerr) x = .ok y ∧
      NearStep ε x y ∧ y.lt = pre ++ ys ∧ y.r = y.l + 1 ∧ y.r = x.len ∧ (∀ t ∈ ys.tail, (t.lb : ℤ) ≤ rank) ∧
      SvSweep (stepErr ε D) (2 * ε) (rankFloor rank relerr) A Bs Ys ∧ LShadow ε ys Ys ∧ ∃ t ts, ys = t :: ts ∧ t.lb = A.lb := by
  induction hBs generalizing x pre A with
  | nil =>
    have hxlen : (x.len : ℤ) = pre.length + 1 := by simp [MPA.len, hlt]
    exact ⟨x, [A], [A], rfl, NearStep.rfl' hx, hlt, by omega, by omega, by simp, .nil A, .nil A, A, [], rfl, rfl⟩
  | @cons R B post Bs hd _ ih =>
    obtain ⟨y, t, A', T, s1, s2, s3, s4, s5, s6, s7, s8⟩ := svdStepRF_ok hε h1 hsvd hmul hmd hrk hr relerr hx hlt hl hr1 hd
      (hB B (by simp)).1 (hB B (by simp)).2 (hD R (by simp))
    obtain ⟨z, ys, Ys, g1, g2, g3, g4, g5, g6, g7, g8, u, us, rfl, g9⟩ := ih (fun B hb => hB B (by simp [hb])) s2.good (pre := pre ++ [t]) (A := A')
      (by simp [s2.new]) (by rw [s3]; simp) (by rw [s4]; simp; ring) (fun R hR => hD R (by simp [hR]))
    refine ⟨z, t :: u :: us, T :: Ys, ?_, s2.near.trans g2, by simp [g3], g4, by rw [g5, s2.len], ?_, .cons s6 g7, .cons s7 s8 g8,
      t, _, rfl, s2.lb⟩
    · rw [List.length_cons, List.range'_succ, List.map_cons, List.foldlM_cons, s1, ok_bind]
      simpa using g1
    · intro w hw
      rcases List.mem_cons.1 hw with rfl | hw
      · rw [g9]; exact s5
      · exact g6 w hw

theorem range_down (n : ℕ) : ((List.range (n + 1)).map fun k : ℕ => ((n + 1 : ℕ) : ℤ) + (k : ℤ) * (-1))
    = ((n + 1 : ℕ) : ℤ) :: (List.range n).map fun k : ℕ => ((n : ℕ) : ℤ) + (k : ℤ) * (-1) := by
  rw [List.range_succ_eq_map, List.map_cons, List.map_map]
  refine congrArg₂ _ (by simp) (List.map_congr_left fun k _ => ?_)
  simp only [Function.comp]
  push_cast; ring

/-- The sweep to the left, starting at the site behind `pre`. -/
theorem sweepLF_ok {ε : ℝ} (hε : 0 ≤ ε) (h1 : ε ≤ 1) {ar : Arith 𝕜} (hsvd : SVDNear ε ar.svd) (hmul : MulNear ε ar.mul)
    (hmd : MdNear ε ar.md) (hrk : ∀ s e, 0 < ar.rank s e) {rank : ℤ} (hr : 0 < rank) (relerr : Option ℝ) {D : ℕ}
    (pre : List (NDArray 𝕜)) {Bs : List (NDArray 𝕜)} (hBs : List.Forall₂ (RDiff ε) (revs pre) Bs)
    (hB : ∀ B ∈ Bs, RCanon B ∧ B.IsLocal) {x : MPA 𝕜}
    (hx : x.NearGood ε) {post : List (NDArray 𝕜)} {A : NDArray 𝕜} (hlt : x.lt = pre ++ A :: post)
    (hl : x.l = pre.length) (hr1 : x.r = pre.length + 1) (hD : ∀ R ∈ pre, R.rb ≤ D) :
    ∃ y ys Ys, ((List.range pre.length).map fun k : ℕ => (pre.length : ℤ) + (k : ℤ) * (-1)).foldlM (svdStepLF ar rank relerr) x = .ok y ∧
      NearStep ε x y ∧ y.lt = ys ++ post ∧ y.r = y.l + 1 ∧ y.l = 0 ∧ (∀ t ∈ ys.tail, (t.lb : ℤ) ≤ rank) ∧
      SvSweep (stepErr ε D) (2 * ε) (rankFloor rank relerr) A.rev3 Bs Ys ∧ LShadow ε (revs ys) Ys := by
  induction pre using List.reverseRecOn generalizing x A post Bs with
  | nil =>
    cases hBs
    exact ⟨x, [A], [A.rev3], rfl, NearStep.rfl' hx, by simpa using hlt, by omega, by simpa using hl, by simp, .nil _, by
      simpa [revs] using LShadow.nil A.rev3⟩
  | append_singleton pre L ih =>
    rw [revs_concat] at hBs
    cases hBs with
    | @cons _ B _ Bs hd hBs =>
      have hlt' : x.lt = pre ++ L :: A :: post := by simpa using hlt
      obtain ⟨y, t, u, T, s1, s2, s3, s4, s5, s6, s7, s8⟩ := svdStepLF_ok hε h1 hsvd hmul hmd hrk hr relerr hx hlt'
        (by simpa using hl) (by rw [hr1]; simp; ring) hd (hB B (by simp)).1 (hB B (by simp)).2 (hD L (by simp))
      obtain ⟨z, ys, Ys, g1, g2, g3, g4, g5, g6, g7, g8⟩ := ih hBs (fun B hb => hB B (by simp [hb])) s2.good (A := t) (post := u :: post)
        s2.new s3 s4 (fun R hR => hD R (by simp [hR]))
      refine ⟨z, ys ++ [u], T :: Ys, ?_, s2.near.trans g2, by simp [g3], g4, g5, ?_, .cons s6 g7, by
        rw [revs_concat]; exact .cons s7 s8 g8⟩
      · have : (pre ++ [L]).length = pre.length + 1 := by simp
        rw [this, range_down, List.foldlM_cons]
        push_cast
        rw [s1, ok_bind]
        exact g1
      · have hne : ys ≠ [] := by
          rintro rfl
          simp [revs] at g8
          cases g8
        rw [List.tail_append_of_ne_nil hne]
        intro w hw
        rcases List.mem_append.1 hw with hw | hw
        · exact g6 w hw
        · obtain rfl : w = u := by simpa using hw
          exact s5

end MPA

/-! ### the error of the whole sweep -/

/-- The factor by which the norm can grow in a sweep over `m` bonds. -/
noncomputable def sweepGrowth (ε : ℝ) (D m : ℕ) : ℝ := (1 + stepErr ε D) ^ m * (1 + ((1 + ε) ^ m - 1) / (1 - ε) ^ m)

/-- The part of the error of `compress` that is due to rounding, relative to the norm, for `m` bonds and ranks up to `D`. -/
noncomputable def compErr (ε : ℝ) (D m : ℕ) : ℝ :=
  Real.sqrt m * (2 * (sweepGrowth ε D m - 1) + 2 * ε * sweepGrowth ε D m) + (sweepGrowth ε D m - 1)
    + ((1 + ε) ^ m - 1) * sweepGrowth ε D m

theorem stepErr_nonneg {ε : ℝ} (hε : 0 ≤ ε) (D : ℕ) : 0 ≤ stepErr ε D := by unfold stepErr; positivity

theorem sweepGrowth_ge {ε : ℝ} (hε : 0 ≤ ε) (h1 : ε < 1) (D m : ℕ) : 1 ≤ sweepGrowth ε D m := by
  unfold sweepGrowth
  have h2 : (1 : ℝ) ≤ (1 + ε) ^ m := one_le_pow₀ (by linarith)
  have h3 : 0 < (1 - ε) ^ m := pow_pos (by linarith) m
  have h4 : (1 : ℝ) ≤ (1 + stepErr ε D) ^ m := one_le_pow₀ (by linarith [stepErr_nonneg hε D])
  have h5 : 0 ≤ ((1 + ε) ^ m - 1) / (1 - ε) ^ m := div_nonneg (by linarith) h3.le
  nlinarith

theorem chained_rdiff {ε : ℝ} {Rs Bs : List (NDArray 𝕜)} (h : List.Forall₂ (RDiff ε) Rs Bs) (hB : ∀ B ∈ Bs, B.IsLocal) {l r : ℕ}
    (hc : Chained l Rs r) : Chained l Bs r := by
  induction h generalizing l with
  | nil => exact hc
  | @cons R B Rs Bs hd _ ih =>
    obtain ⟨c1, c2, c3⟩ := hc
    refine ⟨hB B (by simp), hd.1.symm.trans c2, ?_⟩
    rw [← hd.2.2.1]
    exact ih (fun B hb => hB B (by simp [hb])) c3

theorem svSweep_chained {c d : ℝ} {ρ : ℕ} {A : NDArray 𝕜} {Bs Ys : List (NDArray 𝕜)} (h : SvSweep c d ρ A Bs Ys) {l : ℕ}
    (hch : Chained l (A :: Bs) 1) : Chained l Ys 1 ∧ physShape Ys = physShape (A :: Bs) ∧ Ys.length = Bs.length + 1 := by
  induction h generalizing l with
  | nil A => exact ⟨hch, rfl, rfl⟩
  | @cons A B T A' Bs Ys h _ ih =>
    obtain ⟨c1, c2, c3, c4, c5⟩ := hch
    obtain ⟨k1, k2, k3⟩ := ih (l := T.rb) ⟨h.aloc, h.alb, by rw [h.arb]; exact c5⟩
    refine ⟨⟨h.tloc, h.tlb.trans c2, k1⟩, ?_, by simp [k3]⟩
    have e : physShape (T :: Ys) = T.ph :: physShape Ys := rfl
    rw [e, k2]
    show T.ph :: A'.ph :: physShape Bs = A.ph :: B.ph :: physShape Bs
    rw [h.tph, h.aph]

/-- The distance of the result of the inexact sweep from the tensor it starts with. -/
theorem sweep_error {ε : ℝ} (hε : 0 ≤ ε) (h1 : ε < 1) {D ρ : ℕ} {A : NDArray 𝕜} {Rs Bs Ys ys zs : List (NDArray 𝕜)}
    (hs : SvSweep (stepErr ε D) (2 * ε) ρ A Bs Ys) (hRB : List.Forall₂ (RDiff ε) Rs Bs) (hB : ∀ B ∈ Bs, RCanon B ∧ B.IsLocal)
    (hsh : LShadow ε ys Ys) (hch : Chained 1 (A :: Rs) 1) (hz : Chained 1 zs 1)
    (hzy : List.Forall₂ (fun z y => z.ph = NDArray.ph y ∧ (z.rb ≤ y.rb ∨ z.rb ≤ ρ)) zs Ys)
    (hA : (1 - ε) ^ Rs.length * npNorm A ≤ l2 (range 1) (siteSet (physShape (A :: Rs))) (cv (A :: Rs))) :
    l2 (range 1) (siteSet (physShape (A :: Rs))) (fun a j => cv (A :: Rs) a j - cv ys a j)
      ≤ Real.sqrt Rs.length * l2 (range 1) (siteSet (physShape (A :: Rs))) (fun a j => cv (A :: Rs) a j - cv zs a j)
        + compErr ε D Rs.length * l2 (range 1) (siteSet (physShape (A :: Rs))) (cv (A :: Rs)) := by
  have hRBl : Rs.length = Bs.length := hRB.length_eq
  have hph : physShape Rs = physShape Bs := cv_forall_phys hRB
  obtain ⟨c1, c2, c3⟩ := hch
  have hcB := chained_rdiff hRB (fun B hb => (hB B hb).2) c3
  have hchB : Chained 1 (A :: Bs) 1 := ⟨c1, c2, hcB⟩
  have hphA : physShape (A :: Rs) = physShape (A :: Bs) := by
    show A.ph :: physShape Rs = A.ph :: physShape Bs
    rw [hph]
  obtain ⟨y1, y2, y3⟩ := svSweep_chained hs hchB
  rw [hphA] at hA ⊢
  set S := siteSet (physShape (A :: Bs)) with hS
  set M : ℕ → List (List ℕ) → 𝕜 := cv (A :: Rs) with hM
  set X := l2 (range 1) S M with hX
  have hX0 : 0 ≤ X := l2_nonneg _ _ _
  set m := Rs.length with hm
  have hp1 : 0 < (1 - ε) ^ m := pow_pos (by linarith) m
  have hp2 : (1 : ℝ) ≤ (1 + ε) ^ m := one_le_pow₀ (by linarith)
  -- distance to the chain of exact isometries
  have hη : l2 (range 1) S (fun a j => M a j - cv (A :: Bs) a j) ≤ ((1 + ε) ^ m - 1) / (1 - ε) ^ m * X := by
    have := rshadow_op hε hRB (fun B hb => (hB B hb).1) hcB A.rowSet A.fl
    have e : l2 (range 1) S (fun a j => M a j - cv (A :: Bs) a j)
        = l2 A.rowSet (siteSet (physShape Bs)) fun i j => mprod A.rb A.fl (cv Rs) i j - mprod A.rb A.fl (cv Bs) i j := by
      rw [hS, show physShape (A :: Bs) = A.ph :: physShape Bs from rfl, l2_regroup]
      unfold NDArray.rowSet
      rw [c2]
      rfl
    rw [e]
    refine this.trans ?_
    rw [← npNorm_fl c1, ← hRBl, div_mul_eq_mul_div, le_div_iff₀ hp1, mul_assoc]
    refine mul_le_mul_of_nonneg_left ?_ (by linarith)
    rw [mul_comm]; exact hA
  set g := sweepGrowth ε D m with hg
  have hg1 : 1 ≤ g := sweepGrowth_ge hε h1 D m
  set δ := l2 (range 1) S (fun a j => M a j - cv zs a j) with hδ
  have hδ0 : 0 ≤ δ := l2_nonneg _ _ _
  have main := svSweep_dist (stepErr_nonneg hε D) (by linarith) hs hchB (fun B hb => (hB B hb).1) hz hzy (fun _ _ => 1) M
    (X := X) (η := ((1 + ε) ^ m - 1) / (1 - ε) ^ m * X) (δ := δ) (E := g * X) (by rw [c2]) (by rw [c2]; exact hη) (by
      rw [c2]
      refine le_of_eq (l2_congr fun a ha j _ => ?_)
      obtain rfl : a = 0 := by simpa using ha
      simp [mprod]) (by
      rw [← hRBl, hg, sweepGrowth]
      exact le_of_eq (by ring))
  rw [c2, ← hS, ← hRBl] at main
  obtain ⟨d1, d2⟩ := main
  have d3 := lshadow_dist hε hsh y1
  rw [y2, ← hS, show Ys.length - 1 = m by omega] at d3
  set w := δ + 2 * (g * X - X) + 2 * ε * (g * X) with hw
  have hgX : 0 ≤ g * X - X := by nlinarith
  have hw0 : 0 ≤ w := by positivity
  have d4 : l2 (range 1) S (fun a j => M a j - cv Ys a j) ≤ Real.sqrt m * w + (g * X - X) := by
    refine abs_le_of_sq_le_sq' ?_ (by positivity) |>.2
    refine d1.trans ?_
    have : (Real.sqrt m) ^ 2 = m := Real.sq_sqrt (Nat.cast_nonneg _)
    have h0 : 0 ≤ 2 * (Real.sqrt m * w) * (g * X - X) := by positivity
    calc (m : ℝ) * w ^ 2 + (g * X - X) ^ 2 = (Real.sqrt m * w) ^ 2 + (g * X - X) ^ 2 := by rw [mul_pow, this]
      _ ≤ _ := by nlinarith
  have d5 : l2 (range 1) S (fun a j => cv Ys a j - cv ys a j) ≤ ((1 + ε) ^ m - 1) * (g * X) := by
    rw [l2_rev]
    exact d3.trans (mul_le_mul_of_nonneg_left d2 (by linarith))
  have d6 := l2_tri (range 1) S M (cv Ys) (cv ys)
  refine (d6.trans (add_le_add d4 d5)).trans (le_of_eq ?_)
  rw [hw, compErr, ← hg]
  ring

end Mpnum
