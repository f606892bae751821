import Verif.MPArray.CompressRun
import Verif.Props.C09

/-! Whole calls of SVD compression. -/

open Finset

namespace Mpnum

variable {𝕜 : Type} [RCLike 𝕜]

theorem sumIdx_normSq (s : List ℕ) (f : List ℕ → 𝕜) :
    (sumIdx s fun i => star (f i) * f i) = ((sumIdx s fun i => ‖f i‖ ^ 2 : ℝ) : 𝕜) := by
  simp only [star_mul_self_eq]
  exact sumIdx_ofReal _ _

theorem sumSites_normSq (s : List (List ℕ)) (f : List (List ℕ) → 𝕜) :
    (sumSites s fun i => star (f i) * f i) = ((sumSites s fun i => ‖f i‖ ^ 2 : ℝ) : 𝕜) := by
  simp only [star_mul_self_eq]
  exact sumSites_ofReal _ _

namespace MPA

/-- Result of a call to one of the two generators, run to the end. -/
structure Comp (rank : ℤ) (x y : MPA 𝕜) (o : ℝ) : Prop where
  good : y.Good
  len : y.len = x.len
  shape : y.shape = x.shape
  ranks_le : y.RanksLe x
  rank_le : ∀ r ∈ y.ranks, (r : ℤ) ≤ rank
  overlap : (sumSites x.shape fun i => star (x.val i) * y.val i) = ((o : ℝ) : 𝕜)
  norm : (sumSites x.shape fun i => ‖y.val i‖ ^ 2) = o

omit [RCLike 𝕜] in
theorem ranks_eq (x : MPA 𝕜) : x.ranks = (x.lt.map NDArray.lb).tail := by
  simp [MPA.ranks, List.map_tail]

theorem svdArgs_ok {rank : ℤ} (hr : 0 < rank) {relerr : Option ℝ}
    (he : ∀ e, relerr = some e → 0 ≤ e ∧ e ≤ 1) : svdArgs rank relerr = .ok () := by
  unfold svdArgs
  rw [pyAssert_true (by exact hr), ok_bind]
  cases relerr with
  | none => rfl
  | some e => exact if_pos (he e rfl)

theorem compressSvdR_ok {svd : SVD 𝕜} {f : SVDFunc 𝕜} (h : SVDSpec svd) (hf : SVDFuncSpec f) {rank : ℤ}
    (hr : 0 < rank) {relerr : Option ℝ} (he : ∀ e, relerr = some e → 0 ≤ e ∧ e ≤ 1) {x : MPA 𝕜}
    (hx : x.Good) (hlen : x.len ≠ 1) :
    ∃ y out o, x.compressSvdR svd f rank relerr = .ok (y, out, o) ∧ Comp rank x y o ∧
      y.l = (x.len : ℤ) - 1 ∧ y.r = x.len ∧ y.ranks = out.map Prod.snd ∧
      SweepR svd f rank relerr x (x.len - 1) y out := by
  have hlp : 0 < x.len := List.length_pos_of_ne_nil hx.valid.ne
  obtain ⟨y, out, h1, h2⟩ := sweepR_ok h hf hr (relerr := relerr) hx (x.len - 1) (by omega)
  obtain ⟨pre, post, d, p1, p2, p3, p4, p5⟩ := h2.proj
  have hpost : post.length = 1 := by
    have := h2.len
    simp only [MPA.len, p1, List.length_append] at this
    simp only [MPA.len] at p2
    have : 0 < x.lt.length := hlp
    omega
  obtain ⟨w, rfl⟩ := List.length_eq_one_iff.1 hpost
  have hch : Chained 1 (pre ++ [w]) 1 := by rw [← p1]; exact h2.good.valid.chain
  obtain ⟨hc1, -, -⟩ := chained_concat.1 hch
  have hd : w.lb = d := chained_end_unique hc1 p3
  have hsite : y.site (-1) = .ok w := by
    unfold site
    have := pyIndex_neg (n := y.len) (i := 1) (by omega) (by rw [h2.len]; omega)
    rw [show (-1 : ℤ) = -((1 : ℕ) : ℤ) by rfl, this, ok_bind, p1]
    have e : y.len - 1 = pre.length := by rw [h2.len]; omega
    rw [e]; simp
  have hsh : x.shape = physShape (pre ++ [w]) := by
    rw [← h2.shape]; simp [MPA.shape, physShape, p1]
  have hyv : ∀ i, y.val i = entry (pre ++ [w]) i := by
    intro i; show entry y.lt i = _; rw [p1]
  have hranks : y.ranks = out.map Prod.snd := by
    rw [ranks_eq, h2.bonds, List.drop_eq_nil_of_le (by simp [MPA.len]; omega)]
    simp
  refine ⟨y, out, absSq w, ?_, ?_, ?_, ?_, hranks, h2⟩
  · unfold compressSvdR
    rw [svdArgs_ok hr he, ok_bind]
    rw [show ((x.len : ℤ) - 1) = ((x.len - 1 : ℕ) : ℤ) by omega, h1, ok_bind]
    simp only
    rw [hsite, ok_bind]; rfl
  · refine ⟨h2.good, h2.len, h2.shape, h2.ranks_le, ?_, ?_, ?_⟩
    · rw [hranks]
      intro r hr'
      obtain ⟨o, ho, rfl⟩ := List.mem_map.1 hr'
      exact h2.rank_le o ho
    · rw [hsh]
      simp only [hyv]
      rw [projR_end hch (by rw [hd]; exact p5), sumIdx_normSq]; rfl
    · rw [hsh]
      simp only [hyv]
      exact frob_center (post := []) hch p4 (by simp)
  · have := h2.l_eq (by omega); omega
  · have := h2.r
    have := hx.valid.r_le
    rw [if_neg (by omega)] at *
    omega

theorem compressSvdL_ok {svd : SVD 𝕜} {f : SVDFunc 𝕜} (h : SVDSpec svd) (hf : SVDFuncSpec f) {rank : ℤ}
    (hr : 0 < rank) {relerr : Option ℝ} (he : ∀ e, relerr = some e → 0 ≤ e ∧ e ≤ 1) {x : MPA 𝕜}
    (hx : x.Good) (hlen : x.len ≠ 1) :
    ∃ y out o, x.compressSvdL svd f rank relerr = .ok (y, out, o) ∧ Comp rank x y o ∧
      y.l = 0 ∧ y.r = 1 ∧ y.ranks = (out.map Prod.snd).reverse ∧
      SweepL svd f rank relerr x (x.len - 1) y out := by
  have hlp : 0 < x.len := List.length_pos_of_ne_nil hx.valid.ne
  obtain ⟨y, out, h1, h2⟩ := sweepL_ok h hf hr (relerr := relerr) hx (x.len - 1) (by omega)
  obtain ⟨pre, post, d, p1, p2, p3, p4, p5⟩ := h2.proj
  have hpre : pre.length = 1 := by
    have := h2.len
    simp only [MPA.len, p1, List.length_append] at this
    simp only [MPA.len] at p2
    have : 0 < x.lt.length := hlp
    omega
  obtain ⟨w, rfl⟩ := List.length_eq_one_iff.1 hpre
  have hch : Chained 1 (w :: post) 1 := by
    have := h2.good.valid.chain
    rw [p1] at this; exact this
  have hd : w.rb = d := chained_start_unique hch.2.2 p3
  have hsite : y.site 0 = .ok w := by
    have := site_ok (x := y) (pre := []) (post := post) (t := w) (by rw [p1]; rfl)
    simpa using this
  have hsh : x.shape = physShape (w :: post) := by
    rw [← h2.shape]; simp [MPA.shape, physShape, p1]
  have hyv : ∀ i, y.val i = entry (w :: post) i := by
    intro i; show entry y.lt i = _; rw [p1]; rfl
  have hranks : y.ranks = (out.map Prod.snd).reverse := by
    rw [ranks_eq, h2.bonds, show x.len - (x.len - 1) = 1 by omega]
    cases hxl : x.lt with
    | nil => exact absurd hxl hx.valid.ne
    | cons t ts => simp
  refine ⟨y, out, absSq w, ?_, ?_, ?_, ?_, hranks, h2⟩
  · unfold compressSvdL
    rw [svdArgs_ok hr he, ok_bind, pyRange_down]
    rw [show ((x.len : ℤ) - 1 - 0).toNat = x.len - 1 by omega, h1, ok_bind]
    simp only
    rw [hsite, ok_bind]; rfl
  · refine ⟨h2.good, h2.len, h2.shape, h2.ranks_le, ?_, ?_, ?_⟩
    · rw [hranks]
      intro r hr'
      obtain ⟨o, ho, rfl⟩ := List.mem_map.1 (List.mem_reverse.1 hr')
      exact h2.rank_le o ho
    · rw [hsh]
      simp only [hyv]
      rw [projL_end hch (by rw [hd]; exact p5), sumIdx_normSq]; rfl
    · rw [hsh]
      simp only [hyv]
      exact frob_center (pre := []) hch (by simp) p4
  · have := h2.l
    have := hx.valid.l_nonneg
    rw [if_neg (by omega)] at *
    omega
  · have := h2.r_eq (by omega); omega

end MPA

/-- The rank bound in force: the argument `rank`, or the largest bond of the MPA. -/
def MPA.EffRank (x : MPA 𝕜) (rank : Option ℤ) (r : ℤ) : Prop :=
  match rank with
  | some r' => r = r'
  | none => x.maxRank.map (fun m : ℕ => (m : ℤ)) = .ok r

theorem le_foldl_max (ds : List ℕ) (d : ℕ) : d ≤ ds.foldl max d ∧ ∀ r ∈ ds, r ≤ ds.foldl max d := by
  induction ds generalizing d with
  | nil => simp
  | cons e es ih =>
    obtain ⟨h1, h2⟩ := ih (max d e)
    simp only [List.foldl_cons, List.mem_cons, forall_eq_or_imp]
    exact ⟨by omega, by omega, h2⟩

theorem MPA.maxRank_ok {x : MPA 𝕜} (hx : x.Good) (hlen : x.len ≠ 1) :
    ∃ m, x.maxRank = .ok m ∧ 0 < m ∧ ∀ r ∈ x.ranks, r ≤ m := by
  have hp := ranks_pos_of_good hx
  unfold MPA.maxRank
  cases hr : x.ranks with
  | nil =>
    exfalso
    rw [MPA.ranks_eq] at hr
    have hlp : 0 < x.len := List.length_pos_of_ne_nil hx.valid.ne
    have := congrArg List.length hr
    simp [MPA.len] at this hlen hlp
    omega
  | cons d ds =>
    obtain ⟨h1, h2⟩ := le_foldl_max ds d
    have := hp d (by rw [hr]; simp)
    refine ⟨_, rfl, by omega, ?_⟩
    intro r hr
    rcases List.mem_cons.1 hr with rfl | hr
    · exact h1
    · exact h2 r hr

theorem MPA.effRank_ok {x : MPA 𝕜} (hx : x.Good) (hlen : x.len ≠ 1) (rank : Option ℤ)
    (hr : ∀ r, rank = some r → 0 < r) :
    ∃ r : ℤ, 0 < r ∧ x.EffRank rank r ∧ (rank = none → ∀ q ∈ x.ranks, (q : ℤ) ≤ r) := by
  cases rank with
  | some r => exact ⟨r, hr r rfl, rfl, by simp⟩
  | none =>
    obtain ⟨m, h1, h2, h3⟩ := MPA.maxRank_ok hx hlen
    refine ⟨m, by omega, ?_, ?_⟩
    · unfold MPA.EffRank; rw [h1]; rfl
    · intro _ q hq; exact_mod_cast h3 q hq

/-- The direction in force. -/
def MPA.effDir (x : MPA 𝕜) (direction : Option Dir) : Dir :=
  direction.getD (if (x.len : ℤ) - x.r > x.l then .left else .right)

theorem MPA.compressSvd_eq (qr : QR 𝕜) (svd : SVD 𝕜) (f : SVDFunc 𝕜) (x : MPA 𝕜) (hlen : x.len ≠ 1)
    {rank : Option ℤ} {r : ℤ} (hr : x.EffRank rank r)
    (relerr : Option ℝ) (direction : Option Dir) (canon : Bool) :
    x.compressSvd qr svd f rank relerr direction canon = (match x.effDir direction with
      | .right => do
        let y ← if canon then x.canonicalize qr .none (.int 1) else .ok x
        let (z, _, o) ← y.compressSvdR svd f r relerr
        return (z, o)
      | .left => do
        let y ← if canon then x.canonicalize qr (.int (x.len - 1)) .none else .ok x
        let (z, _, o) ← y.compressSvdL svd f r relerr
        return (z, o)
      | .other => .error .value) := by
  unfold MPA.compressSvd
  rw [if_neg hlen]
  unfold MPA.effDir
  cases rank with
  | some r' => cases hr; rfl
  | none =>
    simp only [show x.maxRank.map (fun m : ℕ => (m : ℤ)) = .ok r from hr, ok_bind]
    rfl

theorem MPA.canon_right {qr : QR 𝕜} (hqr : QRSpec qr) {x : MPA 𝕜} (hx : x.Good) (canon : Bool) :
    ∃ y, (if canon then x.canonicalize qr .none (.int 1) else .ok x) = .ok y ∧ MPA.CanonStepSpec x y ∧
      (canon = true → y.r ≤ 1) := by
  have hlp : 0 < x.len := List.length_pos_of_ne_nil hx.valid.ne
  cases canon with
  | false => exact ⟨x, rfl, MPA.CanonStepSpec.rfl' hx, by simp⟩
  | true =>
    obtain ⟨y, h1, h2, h3, h4⟩ := MPA.canonicalize_ok hqr hx (left := .none) (right := .int 1) rfl rfl rfl
      (by simp [target, CArg.left]) (by simp [target, CArg.left, CArg.right]) (by simp [target, CArg.right]; omega)
    refine ⟨y, by simpa using h1, h2, fun _ => ?_⟩
    have := hx.valid.l_nonneg
    have := hx.valid.l_lt_r
    have e1 : target x.len (CArg.none.left x.len) = 0 := by simp [target, CArg.left]
    have e2 : target x.len ((CArg.int 1).right x.len) = 1 := by simp [target, CArg.right]
    rw [h4, e1, e2]
    split
    · omega
    · rw [if_neg (by omega)]; omega

theorem MPA.canon_left {qr : QR 𝕜} (hqr : QRSpec qr) {x : MPA 𝕜} (hx : x.Good) (canon : Bool) :
    ∃ y, (if canon then x.canonicalize qr (.int (x.len - 1)) .none else .ok x) = .ok y ∧
      MPA.CanonStepSpec x y ∧ (canon = true → (y.len : ℤ) - 1 ≤ y.l) := by
  have hlp : 0 < x.len := List.length_pos_of_ne_nil hx.valid.ne
  cases canon with
  | false => exact ⟨x, rfl, MPA.CanonStepSpec.rfl' hx, by simp⟩
  | true =>
    have e1 : target x.len ((CArg.int (x.len - 1)).left x.len) = x.len - 1 := by
      exact if_neg (show ¬ ((x.len : ℤ) - 1 < 0) by omega)
    have e2 : target x.len (CArg.none.right x.len) = x.len := by
      exact if_neg (show ¬ ((x.len : ℤ) < 0) by omega)
    obtain ⟨y, h1, h2, h3, h4⟩ := MPA.canonicalize_ok hqr hx (left := .int (x.len - 1)) (right := .none) rfl rfl rfl
      (by rw [e1]; omega) (by rw [e1, e2]; omega) (by rw [e2])
    refine ⟨y, by simpa using h1, h2, fun _ => ?_⟩
    have := hx.valid.r_le
    rw [h2.len, h3, e1, e2]
    split <;> omega

theorem MPA.Comp.of_same {rank : ℤ} {x x' y : MPA 𝕜} {o : ℝ} (h : MPA.CanonStepSpec x x')
    (hc : MPA.Comp rank x' y o) : MPA.Comp rank x y o where
  good := hc.good
  len := hc.len.trans h.len
  shape := hc.shape.trans h.same.shape
  ranks_le := hc.ranks_le.trans h.ranks
  rank_le := hc.rank_le
  overlap := by
    rw [← hc.overlap, h.same.shape]
    exact sumSites_congr fun i hi => by rw [h.same.val i hi]
  norm := by rw [← hc.norm, h.same.shape]

end Mpnum
