import Verif.MPArray.CutLemmas

/-! C27: SVD compression: rank bound, overlap, error, canonical form.
C28: number of singular values kept. -/

open Finset

namespace Mpnum

variable {𝕜 : Type} [RCLike 𝕜]

/-- All about a call of `_compress_svd` for at least two sites. -/
theorem MPA.compressSvd_ok {qr : QR 𝕜} (hqr : QRSpec qr) {svd : SVD 𝕜} (h : SVDSpec svd) {f : SVDFunc 𝕜}
    (hf : SVDFuncSpec f) (x : MPA 𝕜) (hx : x.Good) (hlen : x.len ≠ 1)
    (rank : Option ℤ) (hr : ∀ r, rank = some r → 0 < r)
    (relerr : Option ℝ) (he : ∀ e, relerr = some e → 0 ≤ e ∧ e ≤ 1)
    (direction : Option Dir) (hd : direction ≠ some .other) (canon : Bool) :
    ∃ (r : ℤ) (y : MPA 𝕜) (o : ℝ), 0 < r ∧ x.EffRank rank r ∧ (rank = none → ∀ q ∈ x.ranks, (q : ℤ) ≤ r) ∧
      x.compressSvd qr svd f rank relerr direction canon = .ok (y, o) ∧ MPA.Comp r x y o ∧
      ((direction ≠ some .left ∧ y.l = (x.len : ℤ) - 1 ∧ y.r = x.len ∧
        (f = truncatedSvd svd → canon = true → ∃ full : List (List ℝ × ℕ),
          CutSeq x.shape (Keep r relerr) (List.range' 1 (x.len - 1)) x.val y.val full ∧
          y.ranks = full.map Prod.snd ∧ List.Forall₂ (fun o d => o.1.length ≤ d) full x.ranks)) ∨
       (direction ≠ some .right ∧ y.l = 0 ∧ y.r = 1 ∧
        (f = truncatedSvd svd → canon = true → ∃ full : List (List ℝ × ℕ),
          CutSeq x.shape (Keep r relerr) ((List.range (x.len - 1)).map fun j => x.len - 1 - j)
            x.val y.val full ∧
          y.ranks = (full.map Prod.snd).reverse ∧
          List.Forall₂ (fun o d => o.1.length ≤ d) full x.ranks.reverse))) := by
  obtain ⟨r, r1, r2, r3⟩ := MPA.effRank_ok hx hlen rank hr
  have hlp : 0 < x.len := List.length_pos_of_ne_nil hx.valid.ne
  have he' : ∀ e, relerr = some e → 0 ≤ e := fun e h => (he e h).1
  have hcase : x.effDir direction = .right ∨ x.effDir direction = .left := by
    unfold MPA.effDir
    cases direction with
    | none => simp only [Option.getD_none]; split <;> simp
    | some d => cases d <;> simp at hd ⊢
  rw [MPA.compressSvd_eq qr svd f x hlen r2]
  rcases hcase with hcase | hcase <;> rw [hcase]
  · obtain ⟨x', a1, a2, a3⟩ := MPA.canon_right hqr hx canon
    obtain ⟨y, out, o, b1, b2, b3, b4, b5, b6⟩ := MPA.compressSvdR_ok h hf r1 he a2.good
      (by rw [a2.len]; exact hlen)
    refine ⟨r, y, o, r1, r2, r3, ?_, b2.of_same a2, .inl ⟨?_, ?_, ?_, ?_⟩⟩
    · simp only
      have : (if canon = true then do
            let y ← x.canonicalize qr .none (.int 1)
            let __x ← y.compressSvdR svd f r relerr
            pure (__x.1, __x.2.2)
          else do
            let __x ← x.compressSvdR svd f r relerr
            pure (__x.1, __x.2.2))
          = ((if canon then x.canonicalize qr .none (.int 1) else .ok x) >>= fun y => do
            let __x ← y.compressSvdR svd f r relerr
            pure (__x.1, __x.2.2) : Py (MPA 𝕜 × ℝ)) := by split <;> rfl
      refine this.trans ?_
      rw [a1, ok_bind, b1]; rfl
    · rintro rfl; simp [MPA.effDir] at hcase
    · rw [b3, a2.len]
    · rw [b4, a2.len]
    · intro hft hc
      obtain ⟨full, c1, c2, c3⟩ := b6.cuts hft he' (a3 hc)
      rw [a2.len, a2.same.shape] at c1
      refine ⟨full, c1.congr_left fun i hi => (a2.same.val i hi).symm, ?_, ?_⟩
      · rw [b5, c2, List.map_map]; rfl
      · have hR := a2.ranks
        rw [show x'.lt.map NDArray.lb = (x'.lt.map NDArray.lb) from rfl] at c3
        have hlen' : ((x'.lt.map NDArray.lb).drop 1).take (x'.len - 1) = (x'.lt.map NDArray.lb).tail := by
          rw [List.drop_one, List.take_of_length_le (by simp [MPA.len])]
        rw [hlen'] at c3
        have hT : List.Forall₂ (· ≤ ·) (x'.lt.map NDArray.lb).tail (x.lt.map NDArray.lb).tail := by
          revert hR; unfold MPA.RanksLe
          generalize x'.lt.map NDArray.lb = A
          generalize x.lt.map NDArray.lb = B
          intro hR
          cases hR with
          | nil => exact .nil
          | cons _ h => exact h
        rw [MPA.ranks_eq]
        exact forall₂_le_trans c3 hT
  · obtain ⟨x', a1, a2, a3⟩ := MPA.canon_left hqr hx canon
    obtain ⟨y, out, o, b1, b2, b3, b4, b5, b6⟩ := MPA.compressSvdL_ok h hf r1 he a2.good
      (by rw [a2.len]; exact hlen)
    refine ⟨r, y, o, r1, r2, r3, ?_, b2.of_same a2, .inr ⟨?_, ?_, ?_, ?_⟩⟩
    · simp only
      have : (if canon = true then do
            let y ← x.canonicalize qr (.int (x.len - 1)) .none
            let __x ← y.compressSvdL svd f r relerr
            pure (__x.1, __x.2.2)
          else do
            let __x ← x.compressSvdL svd f r relerr
            pure (__x.1, __x.2.2))
          = ((if canon then x.canonicalize qr (.int (x.len - 1)) .none else .ok x) >>= fun y => do
            let __x ← y.compressSvdL svd f r relerr
            pure (__x.1, __x.2.2) : Py (MPA 𝕜 × ℝ)) := by split <;> rfl
      refine this.trans ?_
      rw [a1, ok_bind, b1]; rfl
    · rintro rfl; simp [MPA.effDir] at hcase
    · exact b3
    · exact b4
    · intro hft hc
      obtain ⟨full, c1, c2, c3⟩ := b6.cuts hft he' (a3 hc)
      rw [a2.len, a2.same.shape] at c1
      refine ⟨full, c1.congr_left fun i hi => (a2.same.val i hi).symm, ?_, ?_⟩
      · rw [b5, c2, List.map_map]; rfl
      · have hR := a2.ranks
        have hlp' : 0 < x'.len := by rw [a2.len]; exact hlp
        rw [show x'.len - (x'.len - 1) = 1 by omega, List.drop_one] at c3
        have hT : List.Forall₂ (· ≤ ·) (x'.lt.map NDArray.lb).tail (x.lt.map NDArray.lb).tail := by
          revert hR; unfold MPA.RanksLe
          generalize x'.lt.map NDArray.lb = A
          generalize x.lt.map NDArray.lb = B
          intro hR
          cases hR with
          | nil => exact .nil
          | cons _ h => exact h
        rw [MPA.ranks_eq]
        exact forall₂_le_trans c3 (List.rel_reverse hT)

/-- `‖f - g‖² = ‖f‖² - ‖g‖²` if `<f|g> = <g|g>`. -/
theorem pythagoras {S : List (List ℕ)} {f g : List (List ℕ) → 𝕜} {o : ℝ}
    (h1 : (sumSites S fun i => star (f i) * g i) = ((o : ℝ) : 𝕜))
    (h2 : (sumSites S fun i => ‖g i‖ ^ 2) = o) :
    (sumSites S fun i => ‖f i - g i‖ ^ 2) = (sumSites S fun i => ‖f i‖ ^ 2) - o := by
  have h3 : (sumSites S fun i => star (g i) * f i) = ((o : ℝ) : 𝕜) := by
    have := congrArg star h1
    rw [star_sumSites] at this
    simp only [star_mul', star_star] at this
    rw [show star ((o : ℝ) : 𝕜) = ((o : ℝ) : 𝕜) from RCLike.conj_ofReal _] at this
    rw [← this]
    exact sumSites_congr fun i _ => mul_comm _ _
  have h4 : (sumSites S fun i => star (g i) * g i) = ((o : ℝ) : 𝕜) := by rw [sumSites_normSq, h2]
  have key : (sumSites S fun i => star (f i - g i) * (f i - g i)) + ((o : ℝ) : 𝕜)
      = sumSites S fun i => star (f i) * f i := by
    have e : ∀ i, star (f i) * f i + star (g i) * g i
        = star (f i - g i) * (f i - g i) + (star (f i) * g i + star (g i) * f i) := by
      intro i; rw [star_sub]; ring
    have := congrArg (sumSites S) (funext e)
    rw [sumSites_add, sumSites_add, sumSites_add, h1, h3, h4] at this
    linear_combination -this
  rw [sumSites_normSq, sumSites_normSq] at key
  have key' : (sumSites S fun i => ‖f i - g i‖ ^ 2) + o = sumSites S fun i => ‖f i‖ ^ 2 := by
    exact_mod_cast key
  linarith

/-- C27: for every MPA (of two or more sites), every SVD routine, every admissible `rank` and
`relerr`, every `direction`, every starting canonical form, with or without canonicalisation:
`compress('svd')` succeeds; the result is a valid MPA whose canonical form is true (`Good`), of the
same shape; no bond exceeds `rank` or its former size; the number returned is `<u|c> = <c|c>`; the
squared error is `‖u‖² - ‖c‖²`, so that the norm does not increase; and the form reached leaves only
the last (direction right) or only the first site (direction left) uncanonical. -/
theorem C27_compress {qr : QR 𝕜} (hqr : QRSpec qr) {svd : SVD 𝕜} (h : SVDSpec svd) {f : SVDFunc 𝕜}
    (hf : SVDFuncSpec f) (x : MPA 𝕜) (hx : x.Good) (hlen : x.len ≠ 1)
    (rank : Option ℤ) (hr : ∀ r, rank = some r → 0 < r)
    (relerr : Option ℝ) (he : ∀ e, relerr = some e → 0 ≤ e ∧ e ≤ 1)
    (direction : Option Dir) (hd : direction ≠ some .other) (canon : Bool) :
    ∃ (y : MPA 𝕜) (o : ℝ), x.compressSvd qr svd f rank relerr direction canon = .ok (y, o) ∧
      y.Good ∧ y.shape = x.shape ∧
      (∀ r, rank = some r → ∀ q ∈ y.ranks, (q : ℤ) ≤ r) ∧ List.Forall₂ (· ≤ ·) y.ranks x.ranks ∧
      (sumSites x.shape fun i => star (x.val i) * y.val i) = ((o : ℝ) : 𝕜) ∧
      (sumSites x.shape fun i => star (y.val i) * y.val i) = ((o : ℝ) : 𝕜) ∧
      (sumSites x.shape fun i => ‖x.val i - y.val i‖ ^ 2) = (sumSites x.shape fun i => ‖x.val i‖ ^ 2) - o ∧
      0 ≤ o ∧ o ≤ (sumSites x.shape fun i => ‖x.val i‖ ^ 2) ∧
      (direction = some .right → y.l = (x.len : ℤ) - 1 ∧ y.r = x.len) ∧
      (direction = some .left → y.l = 0 ∧ y.r = 1) ∧
      ((y.l = (x.len : ℤ) - 1 ∧ y.r = x.len) ∨ (y.l = 0 ∧ y.r = 1)) := by
  obtain ⟨r, y, o, h1, h2, h3, h4, h5, h6⟩ :=
    MPA.compressSvd_ok hqr h hf x hx hlen rank hr relerr he direction hd canon
  have hp := pythagoras h5.overlap h5.norm
  have hnn : 0 ≤ sumSites x.shape fun i => ‖x.val i - y.val i‖ ^ 2 := sumSites_nonneg fun _ => sq_nonneg _
  refine ⟨y, o, h4, h5.good, h5.shape, ?_, ?_, h5.overlap, ?_, hp, ?_, by linarith, ?_, ?_, ?_⟩
  · rintro r' rfl
    have : r = r' := h2
    rw [← this]; exact h5.rank_le
  · have := h5.ranks_le
    rw [MPA.ranks_eq, MPA.ranks_eq]
    revert this; unfold MPA.RanksLe
    generalize y.lt.map NDArray.lb = A
    generalize x.lt.map NDArray.lb = B
    intro hR
    cases hR with
    | nil => exact .nil
    | cons _ h => exact h
  · rw [sumSites_normSq, h5.norm]
  · rw [← h5.norm]; exact sumSites_nonneg fun _ => sq_nonneg _
  · rintro rfl
    rcases h6 with h6 | h6
    · exact ⟨h6.2.1, h6.2.2.1⟩
    · exact absurd rfl h6.1
  · rintro rfl
    rcases h6 with h6 | h6
    · exact absurd rfl h6.1
    · exact ⟨h6.2.1, h6.2.2.1⟩
  · rcases h6 with h6 | h6
    · exact .inl ⟨h6.2.1, h6.2.2.1⟩
    · exact .inr ⟨h6.2.1, h6.2.2.1⟩

/-- C27, one site: nothing changes and the squared norm is returned, whatever the other arguments. -/
theorem C27_single_site {qr : QR 𝕜} (hqr : QRSpec qr) (svd : SVD 𝕜) (f : SVDFunc 𝕜) (x : MPA 𝕜)
    (hx : x.Good) (hlen : x.len = 1) (rank : Option ℤ) (relerr : Option ℝ) (direction : Option Dir)
    (canon : Bool) :
    ∃ (y : MPA 𝕜), x.compressSvd qr svd f rank relerr direction canon
        = .ok (y, sumSites x.shape fun i => ‖x.val i‖ ^ 2) ∧
      y.Good ∧ y.shape = x.shape ∧ ∀ i, IdxOK i x.shape → y.val i = x.val i := by
  obtain ⟨v, y, h1, h2, h3, h4, h5, h6⟩ := C09_norm hqr x hx
  refine ⟨y, ?_, h4, h5, h6⟩
  unfold MPA.compressSvd
  rw [if_pos hlen, h1, ok_bind]
  simp only
  rw [h2, Real.sq_sqrt (sumSites_nonneg fun _ => sq_nonneg _)]; rfl

/-- C27 and C28, default arguments `canonicalize=True` and `svdfunc=truncated_svd`: the result arises
from the tensor by successive truncations of exact Schmidt decompositions, bond after bond in the
direction of the sweep.  The number of singular values kept at a bond is the smallest positive number
whose sum is at least the fraction `1 - relerr` of the total (all, if `relerr` is not given), capped
by `rank` (`Keep`); it becomes the size of the bond. -/
theorem C28_selection {qr : QR 𝕜} (hqr : QRSpec qr) {svd : SVD 𝕜} (h : SVDSpec svd)
    (x : MPA 𝕜) (hx : x.Good) (hlen : x.len ≠ 1) (rank : ℤ) (hr : 0 < rank)
    (relerr : Option ℝ) (he : ∀ e, relerr = some e → 0 ≤ e ∧ e ≤ 1) :
    (∃ (y : MPA 𝕜) (o : ℝ) (full : List (List ℝ × ℕ)),
      x.compress qr svd (some rank) relerr (some .right) true = .ok (y, o) ∧
      CutSeq x.shape (Keep rank relerr) (List.range' 1 (x.len - 1)) x.val y.val full ∧
      y.ranks = full.map Prod.snd) ∧
    (∃ (y : MPA 𝕜) (o : ℝ) (full : List (List ℝ × ℕ)),
      x.compress qr svd (some rank) relerr (some .left) true = .ok (y, o) ∧
      CutSeq x.shape (Keep rank relerr) ((List.range (x.len - 1)).map fun j => x.len - 1 - j)
        x.val y.val full ∧
      y.ranks = (full.map Prod.snd).reverse) := by
  constructor
  · obtain ⟨r, y, o, h1, h2, h3, h4, h5, h6⟩ := MPA.compressSvd_ok hqr h (truncatedSvd_spec h) x hx hlen
      (some rank) (by rintro _ ⟨⟩; exact hr) relerr he (some .right) (by simp) true
    cases (show r = rank from h2)
    rcases h6 with ⟨-, -, -, hc⟩ | ⟨hd, -⟩
    · obtain ⟨full, c1, c2, -⟩ := hc rfl rfl
      exact ⟨y, o, full, h4, c1, c2⟩
    · exact absurd rfl hd
  · obtain ⟨r, y, o, h1, h2, h3, h4, h5, h6⟩ := MPA.compressSvd_ok hqr h (truncatedSvd_spec h) x hx hlen
      (some rank) (by rintro _ ⟨⟩; exact hr) relerr he (some .left) (by simp) true
    cases (show r = rank from h2)
    rcases h6 with ⟨hd, -⟩ | ⟨-, -, -, hc⟩
    · exact absurd rfl hd
    · obtain ⟨full, c1, c2, -⟩ := hc rfl rfl
      exact ⟨y, o, full, h4, c1, c2⟩

/-- C28, the selection rule alone: for every list of non-negative numbers and every
`e ≥ 0`, `rankRelerr` is the smallest positive number of leading elements whose sum is at least the
fraction `1 - e` of the total. -/
theorem C28_rule (s : List ℝ) (hn : ∀ a ∈ s, 0 ≤ a) (e : ℝ) (h0 : 0 ≤ e) :
    IsLeast {r : ℕ | 0 < r ∧ (1 - e) * s.sum ≤ (s.take r).sum} (rankRelerr s e) := by
  by_cases hs : s = []
  · subst hs
    refine ⟨?_, ?_⟩
    · simp [rankRelerr]
    · rintro r ⟨h1, -⟩
      simp [rankRelerr]; omega
  · exact (rankRelerr_least hn hs h0).1

/-- C27: with the default arguments the squared error is the sum of the squares of all discarded
singular values, and it is zero -- the tensor is unchanged -- if only zeros are discarded. -/
theorem C27_error {qr : QR 𝕜} (hqr : QRSpec qr) {svd : SVD 𝕜} (h : SVDSpec svd)
    (x : MPA 𝕜) (hx : x.Good) (hlen : x.len ≠ 1) (rank : Option ℤ) (hr : ∀ r, rank = some r → 0 < r)
    (relerr : Option ℝ) (he : ∀ e, relerr = some e → 0 ≤ e ∧ e ≤ 1)
    (direction : Option Dir) (hd : direction ≠ some .other) :
    ∃ (y : MPA 𝕜) (o : ℝ) (ks : List ℕ) (keep : List ℝ → ℕ → Prop) (full : List (List ℝ × ℕ)),
      x.compress qr svd rank relerr direction true = .ok (y, o) ∧
      CutSeq x.shape keep ks x.val y.val full ∧
      (sumSites x.shape fun i => ‖x.val i - y.val i‖ ^ 2)
        = (full.map fun o => ((o.1.drop o.2).map fun a => a ^ 2).sum).sum := by
  obtain ⟨r, y, o, h1, h2, h3, h4, h5, h6⟩ := MPA.compressSvd_ok hqr h (truncatedSvd_spec h) x hx hlen
    rank hr relerr he direction hd true
  have hp := pythagoras h5.overlap h5.norm
  rcases h6 with ⟨-, -, -, hc⟩ | ⟨-, -, -, hc⟩
  all_goals
    obtain ⟨full, c1, -⟩ := hc rfl rfl
    exact ⟨y, o, _, _, full, h4, c1, by rw [hp, ← c1.norm_lost, h5.norm]⟩

/-- C27: with the default arguments and no bond larger than `rank` the tensor is not changed. -/
theorem C27_exact {qr : QR 𝕜} (hqr : QRSpec qr) {svd : SVD 𝕜} (h : SVDSpec svd)
    (x : MPA 𝕜) (hx : x.Good) (hlen : x.len ≠ 1) (rank : Option ℤ) (hr : ∀ r, rank = some r → 0 < r)
    (hle : ∀ r, rank = some r → ∀ q ∈ x.ranks, (q : ℤ) ≤ r)
    (direction : Option Dir) (hd : direction ≠ some .other) :
    ∃ (y : MPA 𝕜) (o : ℝ), x.compress qr svd rank none direction true = .ok (y, o) ∧
      ∀ i, IdxOK i x.shape → y.val i = x.val i := by
  obtain ⟨r, y, o, h1, h2, h3, h4, h5, h6⟩ := MPA.compressSvd_ok hqr h (truncatedSvd_spec h) x hx hlen
    rank hr none (by simp) direction hd true
  have hall : ∀ q ∈ x.ranks, (q : ℤ) ≤ r := by
    cases rank with
    | none => exact h3 rfl
    | some r' => cases (show r = r' from h2); exact hle _ rfl
  refine ⟨y, o, h4, ?_⟩
  rcases h6 with ⟨-, -, -, hc⟩ | ⟨-, -, -, hc⟩
  all_goals
    obtain ⟨full, c1, c2, c3⟩ := hc rfl rfl
    refine (c1.full ?_).1
    intro o ho
    obtain ⟨d, hd1, hd2⟩ := forall₂_exists_right c3 ho
    have := hall d (by simpa using hd1)
    omega

/-- C27: with the default arguments the overlap is positive unless the tensor is zero. -/
theorem C27_overlap_pos {qr : QR 𝕜} (hqr : QRSpec qr) {svd : SVD 𝕜} (h : SVDSpec svd)
    (x : MPA 𝕜) (hx : x.Good) (hlen : x.len ≠ 1) (rank : Option ℤ) (hr : ∀ r, rank = some r → 0 < r)
    (relerr : Option ℝ) (he : ∀ e, relerr = some e → 0 ≤ e ∧ e ≤ 1)
    (direction : Option Dir) (hd : direction ≠ some .other)
    (hne : ∃ i, IdxOK i x.shape ∧ x.val i ≠ 0) :
    ∃ (y : MPA 𝕜) (o : ℝ), x.compress qr svd rank relerr direction true = .ok (y, o) ∧ 0 < o := by
  obtain ⟨r, y, o, h1, h2, h3, h4, h5, h6⟩ := MPA.compressSvd_ok hqr h (truncatedSvd_spec h) x hx hlen
    rank hr relerr he direction hd true
  have hpos : 0 < sumSites x.shape fun i => ‖x.val i‖ ^ 2 := by
    obtain ⟨i, hi, hv⟩ := hne
    exact lt_of_lt_of_le (by positivity) (sumSites_ge_term (fun _ => sq_nonneg _) hi)
  refine ⟨y, o, h4, ?_⟩
  rw [← h5.norm]
  rcases h6 with ⟨-, -, -, hc⟩ | ⟨-, -, -, hc⟩
  all_goals
    obtain ⟨full, c1, -⟩ := hc rfl rfl
    exact c1.norm_pos (fun s t hk hs => hk.pos h1 hs) hpos

/-- The docstring of `compress` promises an overlap in `(0, ∞)`.  For a zero tensor it is `0`. -/
theorem C27_zero_overlap {qr : QR 𝕜} (hqr : QRSpec qr) {svd : SVD 𝕜} (h : SVDSpec svd)
    (x : MPA 𝕜) (hx : x.Good) (hlen : x.len ≠ 1) (h0 : ∀ i, x.val i = 0) :
    ∃ (y : MPA 𝕜), x.compress qr svd none none none true = .ok (y, 0) := by
  obtain ⟨y, o, h1, -, -, -, -, -, -, -, h2, h3, -⟩ := C27_compress hqr h (truncatedSvd_spec h) x hx hlen
    none (by simp) none (by simp) none (by simp) true
  have e : (sumSites x.shape fun i => ‖x.val i‖ ^ 2) = 0 := by
    simp only [h0, norm_zero]; norm_num [sumSites_zero]
  refine ⟨y, ?_⟩
  have : o = 0 := by rw [e] at h3; linarith
  rw [← this]; exact h1

/-- C27: what is rejected.  An unknown direction raises `ValueError`; a rank that is not positive or a
`relerr` outside of `[0, 1]` raises `AssertionError`. -/
theorem C27_errors {qr : QR 𝕜} (hqr : QRSpec qr) (svd : SVD 𝕜) (f : SVDFunc 𝕜)
    (x : MPA 𝕜) (hx : x.Good) (hlen : x.len ≠ 1) (rank : ℤ) (relerr : Option ℝ) (canon : Bool) :
    x.compressSvd qr svd f (some rank) relerr (some .other) canon = .error .value ∧
    (∀ direction, direction ≠ some .other →
      (rank ≤ 0 ∨ ∃ e, relerr = some e ∧ (e < 0 ∨ 1 < e)) →
      x.compressSvd qr svd f (some rank) relerr direction canon = .error .assertion) := by
  constructor
  · rw [MPA.compressSvd_eq qr svd f x hlen (rank := some rank) (r := rank) rfl]; rfl
  · intro direction hd hbad
    have hargs : MPA.svdArgs rank relerr = .error .assertion := by
      unfold MPA.svdArgs
      by_cases hr : rank > 0
      · rw [pyAssert_true hr, ok_bind]
        rcases hbad with hbad | ⟨e, rfl, hbad⟩
        · omega
        · refine if_neg ?_
          rintro ⟨h1, h2⟩
          rcases hbad with hbad | hbad <;> linarith
      · rw [pyAssert_false hr]; rfl
    have hcase : x.effDir direction = .right ∨ x.effDir direction = .left := by
      unfold MPA.effDir
      cases direction with
      | none => simp only [Option.getD_none]; split <;> simp
      | some d => cases d <;> simp at hd ⊢
    rw [MPA.compressSvd_eq qr svd f x hlen (rank := some rank) (r := rank) rfl]
    rcases hcase with hcase | hcase <;> rw [hcase]
    · obtain ⟨x', a1, -⟩ := MPA.canon_right hqr hx canon
      simp only
      cases canon with
      | false => simp [MPA.compressSvdR, hargs, error_bind]
      | true =>
        simp only [if_true] at a1 ⊢
        rw [a1, ok_bind]; simp [MPA.compressSvdR, hargs, error_bind]
    · obtain ⟨x', a1, -⟩ := MPA.canon_left hqr hx canon
      simp only
      cases canon with
      | false => simp [MPA.compressSvdL, hargs, error_bind]
      | true =>
        simp only [if_true] at a1 ⊢
        rw [a1, ok_bind]; simp [MPA.compressSvdL, hargs, error_bind]

/-- Non-vacuity: routines meeting the contracts exist, and the theorems apply to a two-site MPA with
bond 2, compressed to rank 1, and with the relative error 1/4. -/
example : ∃ (qr : QR ℂ) (svd : SVD ℂ), QRSpec qr ∧ SVDSpec svd ∧ SVDFuncSpec (truncatedSvd svd) ∧
    exMPAc.Good ∧ exMPAc.len ≠ 1 ∧ exMPAc.ranks = [2] ∧
    (∃ y o, exMPAc.compress qr svd (some 1) none none true = .ok (y, o) ∧ y.ranks = [1] ∧ 0 < o) ∧
    (∃ y o, exMPAc.compress qr svd (some 2) (some (1 / 4)) (some .left) false = .ok (y, o) ∧ y.l = 0) := by
  obtain ⟨qr, hqr⟩ := exists_QRSpec (𝕜 := ℂ)
  obtain ⟨svd, h⟩ := exists_SVDSpec (𝕜 := ℂ)
  have hl : exMPAc.len ≠ 1 := by simp [exMPAc, MPA.len]
  refine ⟨qr, svd, hqr, h, truncatedSvd_spec h, exMPAc_good, hl, rfl, ?_, ?_⟩
  · obtain ⟨y, o, h1, h2, h3, h4, h5, -⟩ := C27_compress hqr h (truncatedSvd_spec h) exMPAc exMPAc_good hl
      (some 1) (by rintro _ ⟨⟩; norm_num) none (by simp) none (by simp) true
    obtain ⟨y', o', g1, g2⟩ := C27_overlap_pos hqr h exMPAc exMPAc_good hl
      (some 1) (by rintro _ ⟨⟩; norm_num) none (by simp) none (by simp)
      ⟨[[0], [0]], by simp [exMPAc, MPA.shape, IdxOK, InB, NDArray.ph], by
        simp [exMPAc, entry, mp, NDArray.at3, NDArray.rb, Finset.sum_range_succ]; norm_num⟩
    have e : (y, o) = (y', o') := by
      have := h1.symm.trans g1
      injection this
    injection e with e1 e2
    refine ⟨y, o, h1, ?_, by rw [e2]; exact g2⟩
    have hr : exMPAc.ranks = [2] := rfl
    rw [hr] at h5
    have hp := ranks_pos_of_good h2
    have h4' := h4 1 rfl
    cases hy : y.ranks with
    | nil => rw [hy] at h5; cases h5
    | cons a l =>
      rw [hy] at h5 hp h4'
      cases h5 with
      | cons ha hl' =>
        cases hl'
        have := hp a (by simp)
        have := h4' a (by simp)
        have : a = 1 := by omega
        rw [this]
  · obtain ⟨y, o, h1, h2, h3, h4, h5, -, -, -, -, -, -, h6, -⟩ := C27_compress hqr h (truncatedSvd_spec h)
      exMPAc exMPAc_good hl
      (some 2) (by rintro _ ⟨⟩; norm_num) (some (1 / 4)) (by rintro _ ⟨⟩; norm_num) (some .left) (by simp) false
    exact ⟨y, o, h1, (h6 rfl).1⟩

end Mpnum
