import Verif.MPArray.RoundingCompress
import Verif.MPArray.CompressMain
import Verif.Props.C13
import Verif.Props.C75

/-! `compress(method='svd')` in inexact arithmetic: the whole function. -/

open Finset

namespace Mpnum

variable {𝕜 : Type} [RCLike 𝕜]

/-- Contract of numerical routines with relative error `ε`. -/
structure Arith.Near (ε : ℝ) (ar : Arith 𝕜) : Prop where
  qr : QRNear ε ar.qr
  md : MdNear ε ar.md
  mul : MulNear ε ar.mul
  svd : SVDNear ε ar.svd
  rank : ∀ s e, 0 < ar.rank s e
  nrm : NormNear ε ar.nrm
  asq : ∀ t, |ar.asq t - npNorm t ^ 2| ≤ ε * npNorm t ^ 2
  sq : ∀ v, |ar.sq v - v ^ 2| ≤ ε * v ^ 2

/-! ### lists of local tensors side by side -/

theorem forall₂_rb {P : ℕ → ℕ → Prop} {r r' : ℕ} (hP : P r r') {zs ys : List (NDArray 𝕜)}
    (h : List.Forall₂ (fun z y => P (NDArray.lb z) (NDArray.lb y)) zs ys) {l l' : ℕ} (hz : Chained l zs r) (hy : Chained l' ys r') :
    List.Forall₂ (fun z y => P (NDArray.rb z) (NDArray.rb y)) zs ys := by
  induction h generalizing l l' with
  | nil => exact .nil
  | @cons z y zs ys h0 h1 ih =>
    refine .cons ?_ (ih hz.2.2 hy.2.2)
    cases h1 with
    | nil =>
      have e1 : z.rb = r := hz.2.2
      have e2 : y.rb = r' := hy.2.2
      rw [e1, e2]; exact hP
    | @cons z' y' _ _ h2 _ =>
      have e1 : z'.lb = z.rb := hz.2.2.2.1
      have e2 : y'.lb = y.rb := hy.2.2.2.1
      rw [← e1, ← e2]; exact h2

theorem forall₂_ph {P : NDArray 𝕜 → NDArray 𝕜 → Prop} {zs ys : List (NDArray 𝕜)} (h : List.Forall₂ P zs ys)
    (hs : physShape zs = physShape ys) : List.Forall₂ (fun z y => z.ph = NDArray.ph y ∧ P z y) zs ys := by
  induction h with
  | nil => exact .nil
  | cons h0 _ ih =>
    simp only [physShape, List.map_cons, List.cons.injEq] at hs ih
    exact .cons ⟨hs.1, h0⟩ (ih hs.2)

theorem forall₂_shadow {P : List ℕ → ℕ → List ℕ → ℕ → Prop} {ε : ℝ} {ys Ys : List (NDArray 𝕜)} (hs : LShadow ε ys Ys)
    {zs : List (NDArray 𝕜)} (h : List.Forall₂ (fun z y => P (NDArray.ph z) (NDArray.rb z) (NDArray.ph y) (NDArray.rb y)) zs ys) :
    List.Forall₂ (fun z y => P (NDArray.ph z) (NDArray.rb z) (NDArray.ph y) (NDArray.rb y)) zs Ys := by
  induction hs generalizing zs with
  | nil A => exact h
  | cons hd _ _ ih =>
    cases h with
    | cons h0 h1 =>
      refine .cons ?_ (ih h1)
      rw [← hd.2.1, ← hd.2.2.1]; exact h0

/-- The bonds of `z` that a sweep with result `y` and rank bound `ρ` competes with. -/
theorem bonds_compare {z y : MPA 𝕜} (hz : z.Valid) (hy : y.Valid) (hs : z.shape = y.shape) {ρ : ℕ}
    (h : z.RanksLe y ∨ ∀ q ∈ z.ranks, q ≤ ρ) :
    List.Forall₂ (fun a b => NDArray.lb a ≤ NDArray.lb b ∨ NDArray.lb a ≤ ρ) z.lt y.lt := by
  rcases h with h | h
  · unfold MPA.RanksLe at h
    rw [List.forall₂_map_left_iff, List.forall₂_map_right_iff] at h
    exact h.imp fun _ _ h => .inl h
  · have hl : z.lt.length = y.lt.length := by
      have := congrArg List.length hs
      simpa [MPA.shape, physShape] using this
    have hzc := hz.chain
    have hyc := hy.chain
    rw [MPA.ranks_eq] at h
    cases hzl : z.lt with
    | nil => exact absurd hzl hz.ne
    | cons a as =>
      cases hyl : y.lt with
      | nil => exact absurd hyl hy.ne
      | cons b bs =>
        rw [hzl, hyl] at hl
        rw [hzl] at hzc h
        rw [hyl] at hyc
        refine .cons (.inl (by rw [hzc.2.1, hyc.2.1])) ?_
        simp only [List.map_cons, List.tail_cons, List.mem_map, forall_exists_index, and_imp, forall_apply_eq_imp_iff₂] at h
        simp only [List.length_cons, Nat.add_right_cancel_iff] at hl
        clear hzl hyl hzc hyc
        induction as generalizing bs with
        | nil => cases bs with
          | nil => exact .nil
          | cons _ _ => simp at hl
        | cons a' as ih =>
          cases bs with
          | nil => simp at hl
          | cons b' bs =>
            exact .cons (.inr (h a' (by simp))) (ih _ (fun q hq => h q (by simp [hq])) (by simpa using hl))

theorem polar_list {ε : ℝ} (h1 : ε < 1) {Rs : List (NDArray 𝕜)} (h : ∀ R ∈ Rs, RNear ε R) :
    ∃ Bs, List.Forall₂ (RDiff ε) Rs Bs ∧ ∀ B ∈ Bs, RCanon B ∧ B.IsLocal := by
  induction Rs with
  | nil => exact ⟨[], .nil, by simp⟩
  | cons R Rs ih =>
    obtain ⟨B, b1, b2, b3⟩ := rnear_polar h1 (h R (by simp))
    obtain ⟨Bs, c1, c2⟩ := ih fun R' hR => h R' (by simp [hR])
    exact ⟨B :: Bs, .cons b3 c1, by simpa using ⟨⟨b2, b1⟩, c2⟩⟩

/-- The overlap returned by `compress`. -/
def OverlapNear (ε : ℝ) (y : MPA 𝕜) (o : ℝ) : Prop :=
  (1 - ε) ^ (2 * (y.len - 1)) * o ≤ (1 + ε) * y.frob ^ 2 ∧ (1 - ε) * y.frob ^ 2 ≤ (1 + ε) ^ (2 * (y.len - 1)) * o

theorem overlap_center {ε : ℝ} (hε : 0 ≤ ε) (h1 : ε ≤ 1) {y : MPA 𝕜} (hy : y.NearGood ε) (hr : y.r = y.l + 1) {c : ℕ}
    (hc : (c : ℤ) = y.l) {t : NDArray 𝕜} (ht : y.lt[c]? = some t) {o : ℝ} (ho : |o - npNorm t ^ 2| ≤ ε * npNorm t ^ 2) :
    OverlapNear ε y o := by
  obtain ⟨b1, b2⟩ := hy.center hε h1 hr hc ht
  have hb := abs_le.1 ho
  have hT := npNorm_nonneg' t
  have hF := MPA.frob_nonneg' y
  have p1 : 0 ≤ (1 - ε) ^ (y.len - 1) := pow_nonneg (by linarith) _
  have p2 : 0 ≤ (1 + ε) ^ (y.len - 1) := by positivity
  have q1 := pow_le_pow_left₀ (mul_nonneg p1 hT) b1 2
  have q2 := pow_le_pow_left₀ hF b2 2
  rw [mul_pow, ← pow_mul, mul_comm (y.len - 1)] at q1 q2
  refine ⟨?_, ?_⟩
  · calc (1 - ε) ^ (2 * (y.len - 1)) * o ≤ (1 - ε) ^ (2 * (y.len - 1)) * ((1 + ε) * npNorm t ^ 2) :=
          mul_le_mul_of_nonneg_left (by linarith) (pow_nonneg (by linarith) _)
      _ = (1 + ε) * ((1 - ε) ^ (2 * (y.len - 1)) * npNorm t ^ 2) := by ring
      _ ≤ _ := mul_le_mul_of_nonneg_left q1 (by linarith)
  · calc (1 - ε) * y.frob ^ 2 ≤ (1 - ε) * ((1 + ε) ^ (2 * (y.len - 1)) * npNorm t ^ 2) :=
          mul_le_mul_of_nonneg_left q2 (by linarith)
      _ = (1 + ε) ^ (2 * (y.len - 1)) * ((1 - ε) * npNorm t ^ 2) := by ring
      _ ≤ _ := mul_le_mul_of_nonneg_left (by linarith) (by positivity)

/-- What the sweeps achieve. -/
structure CompF (ε : ℝ) (rank : ℤ) (relerr : Option ℝ) (D : ℕ) (x y : MPA 𝕜) (o : ℝ) : Prop where
  near : MPA.NearStep ε x y
  one : y.r = y.l + 1
  rank_le : ∀ q ∈ y.ranks, (q : ℤ) ≤ rank
  over : OverlapNear ε y o
  err : ∀ z : MPA 𝕜, z.Valid → z.shape = x.shape → (z.RanksLe y ∨ relerr = none ∧ ∀ q ∈ z.ranks, (q : ℤ) ≤ rank) →
    x.dist y ≤ Real.sqrt (x.len - 1 : ℕ) * x.dist z + compErr ε D (x.len - 1) * x.frob

theorem compare_floor {z y : MPA 𝕜} {rank : ℤ} (hr : 0 < rank) {relerr : Option ℝ}
    (h : z.RanksLe y ∨ relerr = none ∧ ∀ q ∈ z.ranks, (q : ℤ) ≤ rank) :
    z.RanksLe y ∨ ∀ q ∈ z.ranks, q ≤ rankFloor rank relerr := by
  rcases h with h | ⟨rfl, h⟩
  · exact .inl h
  · refine .inr fun q hq => ?_
    have := h q hq
    show q ≤ rank.toNat
    omega

namespace MPA

theorem compressSvdRF_ok {ε : ℝ} (hε : 0 ≤ ε) (h1 : ε < 1) {ar : Arith 𝕜} (har : ar.Near ε) {rank : ℤ} (hr : 0 < rank)
    {relerr : Option ℝ} (he : ∀ e, relerr = some e → 0 ≤ e ∧ e ≤ 1) {D : ℕ} (hD1 : 1 ≤ D) {x : MPA 𝕜} (hx : x.NearGood ε)
    (hD : ∀ q ∈ x.ranks, q ≤ D) (hr1 : x.r = 1) :
    ∃ y o, x.compressSvdRF ar rank relerr = .ok (y, o) ∧ CompF ε rank relerr D x y o := by
  have hl0 : x.l = 0 := by have := hx.valid.l_nonneg; have := hx.valid.l_lt_r; omega
  have hb := ranks_bound hx.valid hD1 hD
  cases hxl : x.lt with
  | nil => exact absurd hxl hx.valid.ne
  | cons A post =>
    have hlen : x.len = post.length + 1 := by simp [MPA.len, hxl]
    have hR : ∀ R ∈ post, RNear ε R := by
      intro R hR
      obtain ⟨n, hn⟩ := List.mem_iff_getElem?.1 hR
      refine (hx.canon (n + 1) R (by rw [hxl]; simpa using hn)).2 (by rw [hr1]; push_cast; omega)
    obtain ⟨Bs, hBs, hB⟩ := polar_list h1 hR
    obtain ⟨y, ys, Ys, s1, s2, s3, s4, s5, s6, s7, s8, t0, ts, s9, s10⟩ := sweepRF_ok hε h1.le har.svd har.mul har.md har.rank hr relerr
      (D := D) hBs hB hx (pre := []) (A := A) (by simpa using hxl) (by simpa using hl0) (by simpa using hr1)
      (fun R hR => (hb R (by rw [hxl]; simp [hR])).1)
    rw [List.nil_append] at s3
    have hyl := s2.len
    have hyn : y.lt.length = post.length + 1 := by rw [← hlen, ← hyl]; rfl
    have hlast : y.lt[post.length]? = some y.lt[post.length] := by simp
    set t := y.lt[post.length] with ht
    have hsite : y.site (-1) = .ok t := site_last (c := post.length) (by omega) hlast
    refine ⟨y, ar.asq t, ?_, s2, s4, ?_, ?_, ?_⟩
    · unfold compressSvdRF
      rw [svdArgs_ok hr he, ok_bind]
      rw [show ((x.len : ℤ) - 1) = ((0 : ℕ) : ℤ) + (post.length : ℕ) by rw [hlen]; push_cast; ring,
        show (0 : ℤ) = ((0 : ℕ) : ℤ) by rfl, pyRange_nat]
      simp only [List.length_nil] at s1
      rw [s1, ok_bind, hsite, ok_bind]; rfl
    · intro q hq
      rw [ranks_eq, s3, ← List.map_tail] at hq
      obtain ⟨w, hw, rfl⟩ := List.mem_map.1 hq
      exact s6 w hw
    · exact overlap_center hε h1.le s2.good s4 (c := post.length) (by omega) hlast (har.asq t)
    · intro z hz hzs hzr
      have hcz := bonds_compare hz s2.good.valid (hzs.trans s2.shape.symm) (compare_floor hr hzr)
      have hcr := forall₂_rb (P := fun a b => a ≤ b ∨ a ≤ rankFloor rank relerr) (.inl le_rfl) hcz hz.chain s2.good.valid.chain
      have hcp := forall₂_ph hcr (hzs.trans s2.shape.symm)
      rw [s3] at hcp
      have hcY := forall₂_shadow (P := fun p b p' b' => p = p' ∧ (b ≤ b' ∨ b ≤ rankFloor rank relerr)) s8 hcp
      have hch := hx.valid.chain
      rw [hxl] at hch
      have hctr := (hx.center hε h1.le (by omega) (c := 0) (by omega) (t := A) (by rw [hxl]; rfl)).1
      have hm : x.len - 1 = post.length := by omega
      rw [frob_l2, hxl, hm] at hctr
      have := sweep_error hε h1 s7 hBs hB s8 hch hz.chain hcY hctr
      rw [dist_l2, dist_l2, frob_l2, hxl, hm, s3]
      exact this

theorem compressSvdLF_ok {ε : ℝ} (hε : 0 ≤ ε) (h1 : ε < 1) {ar : Arith 𝕜} (har : ar.Near ε) {rank : ℤ} (hr : 0 < rank)
    {relerr : Option ℝ} (he : ∀ e, relerr = some e → 0 ≤ e ∧ e ≤ 1) {D : ℕ} (hD1 : 1 ≤ D) {x : MPA 𝕜} (hx : x.NearGood ε)
    (hD : ∀ q ∈ x.ranks, q ≤ D) (hl1 : x.l = x.len - 1) :
    ∃ y o, x.compressSvdLF ar rank relerr = .ok (y, o) ∧ CompF ε rank relerr D x y o := by
  have hr1 : x.r = x.l + 1 := by have := hx.valid.r_le; have := hx.valid.l_lt_r; omega
  have hb := ranks_bound hx.valid hD1 hD
  obtain ⟨pre, A, hxl⟩ : ∃ pre A, x.lt = pre ++ [A] := ⟨_, _, (List.dropLast_concat_getLast hx.valid.ne).symm⟩
  have hlen : x.len = pre.length + 1 := by simp [MPA.len, hxl]
  have hlp : x.l = pre.length := by rw [hl1, hlen]; push_cast; ring
  have hm : x.len - 1 = pre.length := by omega
  have hR : ∀ R ∈ revs pre, RNear ε R := by
    intro R hR
    simp only [revs, List.mem_reverse, List.mem_map] at hR
    obtain ⟨u, hu, rfl⟩ := hR
    obtain ⟨n, hn⟩ := List.mem_iff_getElem?.1 hu
    have hn' := (List.getElem?_eq_some_iff.1 hn).1
    exact rev3_rnear ((hx.canon n u (by rw [hxl, List.getElem?_append_left hn']; exact hn)).1 (by rw [hlp]; exact_mod_cast hn'))
  obtain ⟨Bs, hBs, hB⟩ := polar_list h1 hR
  obtain ⟨y, ys, Ys, s1, s2, s3, s4, s5, s6, s7, s8⟩ := sweepLF_ok hε h1.le har.svd har.mul har.md har.rank hr relerr
    (D := D) pre hBs hB hx (post := []) (A := A) hxl hlp (by rw [hr1, hlp]) (fun R hR => (hb R (by rw [hxl]; simp [hR])).2)
  rw [List.append_nil] at s3
  have hyl := s2.len
  cases hyc : y.lt with
  | nil => exact absurd hyc s2.good.valid.ne
  | cons t ts =>
    have hsite : y.site 0 = .ok t := by
      have := site_ok (x := y) (pre := []) (post := ts) (t := t) (by rw [hyc]; rfl)
      simpa using this
    have hfst : y.lt[0]? = some t := by rw [hyc]; rfl
    refine ⟨y, ar.asq t, ?_, s2, s4, ?_, ?_, ?_⟩
    · unfold compressSvdLF
      rw [svdArgs_ok hr he, ok_bind, pyRange_down]
      rw [show ((x.len : ℤ) - 1 - 0).toNat = pre.length by omega, show ((x.len : ℤ) - 1) = pre.length by omega, s1, ok_bind, hsite, ok_bind]
      rfl
    · intro q hq
      rw [ranks_eq, s3, ← List.map_tail] at hq
      obtain ⟨w, hw, rfl⟩ := List.mem_map.1 hq
      exact s6 w hw
    · exact overlap_center hε h1.le s2.good s4 (c := 0) (by rw [s5]; rfl) hfst (har.asq t)
    · intro z hz hzs hzr
      have hcz := bonds_compare hz s2.good.valid (hzs.trans s2.shape.symm) (compare_floor hr hzr)
      have hcp := forall₂_ph hcz (hzs.trans s2.shape.symm)
      have hcv : List.Forall₂ (fun z y => z.ph = NDArray.ph y ∧ (z.rb ≤ y.rb ∨ z.rb ≤ rankFloor rank relerr)) (revs z.lt) (revs y.lt) := by
        unfold revs
        refine List.rel_reverse ?_
        rw [List.forall₂_map_left_iff, List.forall₂_map_right_iff]
        refine hcp.imp fun a b h => ?_
        rw [rev3_ph, rev3_ph, rev3_rb, rev3_rb]; exact h
      rw [s3] at hcv
      have hcY := forall₂_shadow (P := fun p b p' b' => p = p' ∧ (b ≤ b' ∨ b ≤ rankFloor rank relerr)) s8 hcv
      have hch := chained_revs hx.valid.chain
      rw [hxl, revs_concat] at hch
      have hctr := (hx.center hε h1.le hr1 (c := pre.length) hlp.symm (t := A) (by rw [hxl]; simp)).1
      rw [frob_revs hx.valid, hxl, revs_concat, hm, ← rev3_npNorm (hx.valid.chain.isLocal A (by rw [hxl]; simp)), ← revs_length pre] at hctr
      have := sweep_error hε h1 s7 hBs hB s8 hch (chained_revs hz.chain) hcY hctr
      rw [revs_length] at this
      rw [dist_revs hx.valid s2.good.valid s2.shape, dist_revs hx.valid hz hzs, frob_revs hx.valid, hxl, revs_concat, hm, s3]
      exact this

end MPA

end Mpnum
