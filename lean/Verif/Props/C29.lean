import Verif.MPArray.CompressVarTwo
import Verif.Props.C06

/-! C29: `compress(method='var')` / `compression(method='var')`. -/

open Finset

namespace Mpnum

/-- `compress` and `compression` do the same, the former in place. -/
theorem compressVar_eq (qr : QR ℂ) (svd : SVD ℂ) (x : MPA ℂ) (m : ℕ) (start : Option (MPA ℂ)) (rank : Option ℕ) (k : ℕ)
    (cplx : Bool) (rs : RandState) :
    x.compressVar qr svd m start rank k cplx rs = x.compressionVar qr svd m start rank k cplx rs := by
  unfold MPA.compressVar
  cases x.compressionVar qr svd m start rank k cplx rs <;> rfl

theorem sumSites_star_mul_self (S : List (List ℕ)) (f : List (List ℕ) → ℂ) :
    (sumSites S fun i => star (f i) * f i) = ((sumSites S fun i => ‖f i‖ ^ 2 : ℝ) : ℂ) := by
  simp only [star_mul_self_eq]
  exact sumSites_ofReal _ _

theorem compressionVar_copy {qr : QR ℂ} {svd : SVD ℂ} (hqr : QRSpec qr) {x : MPA ℂ} (hx : x.Good) {m k : ℕ}
    {start : Option (MPA ℂ)} {rank : Option ℕ} {cplx : Bool} {rs : RandState}
    (h : x.len = 1 ∨ ∃ r R, StartOK x start rank r ∧ x.maxRank = .ok R ∧ R < r) :
    ∃ y, x.compressionVar qr svd m start rank k cplx rs = .ok (y, sumSites x.shape fun i => ‖x.val i‖ ^ 2) ∧
      y.Good ∧ y.shape = x.shape ∧ List.Forall₂ (· ≤ ·) y.ranks x.ranks ∧ ∀ i, IdxOK i x.shape → y.val i = x.val i := by
  obtain ⟨y, h1, h2⟩ := norm_ok hqr hx
  have e : x.frob ^ 2 = sumSites x.shape fun i => ‖x.val i‖ ^ 2 := by
    rw [MPA.frob, Real.sq_sqrt (sumSites_nonneg fun _ => sq_nonneg _)]
  refine ⟨y, ?_, h2.good, h2.same.shape, h2.ranks.ranks, h2.same.val⟩
  rw [← e]
  unfold MPA.compressionVar
  by_cases hlen : x.len = 1
  · rw [if_pos hlen, hx.valid.copy_ok, ok_bind, h1]; rfl
  · rw [if_neg hlen]
    rcases h with h | ⟨r, R, hs, hR, hr⟩
    · exact absurd h hlen
    · rcases hs with ⟨s', rfl, g1, g2, g3⟩ | ⟨rfl, rfl, g2⟩
      · simp only [g3, hR, ok_bind]
        rw [if_pos hr, hx.valid.copy_ok, ok_bind, h1]; rfl
      · simp only [hR, ok_bind]
        rw [if_pos hr, hx.valid.copy_ok, ok_bind, h1]; rfl

/-- C29: for every MPA `u` (of two or more sites), every start vector of its shape or random start vector of any rank,
every number of sweeps `≥ 1`, every number of varied sites between 1 and the length, and all QR and SVD routines:
variational compression succeeds; the result `c` is a valid MPA whose canonical form is true, of the same shape and with
no rank above `r`; the number returned is `<u|c> = <c|c>`, so that it is real and not negative, and
`‖u - c‖² = ‖u‖² - <u|c>`. -/
theorem C29_compression {qr : QR ℂ} (hqr : QRSpec qr) {svd : SVD ℂ} (hsvd : SVDSpec svd) (x : MPA ℂ) (hx : x.Good)
    (hlen : x.len ≠ 1) (start : Option (MPA ℂ)) (rank : Option ℕ) (r : ℕ) (hs : StartOK x start rank r)
    (m : ℕ) (hm : 1 ≤ m) (k : ℕ) (hk : 1 ≤ k) (hkn : k ≤ x.len) (cplx : Bool) (rs : RandState) :
    ∃ (y : MPA ℂ) (o : ℝ), x.compressionVar qr svd m start rank k cplx rs = .ok (y, o) ∧
      x.compressVar qr svd m start rank k cplx rs = .ok (y, o) ∧
      y.Good ∧ y.shape = x.shape ∧ (∀ q ∈ y.ranks, q ≤ r) ∧
      (sumSites x.shape fun i => star (x.val i) * y.val i) = (o : ℂ) ∧
      (sumSites x.shape fun i => star (y.val i) * y.val i) = (o : ℂ) ∧
      (sumSites x.shape fun i => ‖x.val i - y.val i‖ ^ 2) = (sumSites x.shape fun i => ‖x.val i‖ ^ 2) - o ∧
      0 ≤ o ∧ o ≤ sumSites x.shape fun i => ‖x.val i‖ ^ 2 := by
  rw [compressVar_eq]
  have hxl : 1 ≤ x.len := List.length_pos_of_ne_nil hx.valid.ne
  obtain ⟨R, hR, hR0, hRle⟩ := MPA.maxRank_ok hx hlen
  obtain ⟨y, o, h1, h2, h3, h4, h5, h6⟩ : ∃ (y : MPA ℂ) (o : ℝ), x.compressionVar qr svd m start rank k cplx rs = .ok (y, o) ∧
      y.Good ∧ y.shape = x.shape ∧ (∀ q ∈ y.ranks, q ≤ r) ∧
      (sumSites x.shape fun i => star (x.val i) * y.val i) = (o : ℂ) ∧
      (sumSites x.shape fun i => ‖y.val i‖ ^ 2) = o := by
    by_cases hr : r ≤ R
    · obtain ⟨s, s1, s2, s3, s4⟩ := varStart_ok (qr := qr) hx hs cplx rs
      obtain ⟨y, o, h1, h2, -⟩ := compressionVar_ok hqr hsvd hx hlen hs hR hr hk hkn m cplx rs s1
      have hsl : s.len ≠ 1 := by
        have := congrArg List.length s3
        simp only [MPA.shape, List.length_map] at this
        show s.lt.length ≠ 1
        rw [this]; exact hlen
      obtain ⟨M, M1, M2, M3⟩ := MPA.maxRank_ok s2 hsl
      refine ⟨y, o, h1, h2.good, h2.shape, fun q hq => (h2.rank M M1 q hq).trans (maxRank_le s4 M1),
        h2.overlap (by omega), ?_⟩
      have := h2.norm
      rw [sumSites_star_mul_self] at this
      exact Complex.ofReal_injective this
    · obtain ⟨y, h1, h2, h3, h4, h5⟩ := compressionVar_copy (svd := svd) hqr hx (m := m) (k := k) (cplx := cplx) (rs := rs)
        (Or.inr ⟨r, R, hs, hR, by omega⟩)
      refine ⟨y, _, h1, h2, h3, ?_, ?_, ?_⟩
      · intro q hq
        obtain ⟨q', hq', hle⟩ := forall₂_exists_right h4 hq
        have := hRle q' (by simpa using hq')
        omega
      · rw [← sumSites_star_mul_self]
        exact sumSites_congr fun i hi => by rw [h5 i hi]
      · exact sumSites_congr fun i hi => by rw [h5 i hi]
  have hp := pythagoras h5 h6
  have h0 : 0 ≤ o := by rw [← h6]; exact sumSites_nonneg fun _ => sq_nonneg _
  refine ⟨y, o, h1, h1, h2, h3, h4, h5, ?_, hp, h0, ?_⟩
  · rw [sumSites_star_mul_self, h6]
  · have : 0 ≤ sumSites x.shape fun i => ‖x.val i - y.val i‖ ^ 2 := sumSites_nonneg fun _ => sq_nonneg _
    linarith

/-- C29: with `var_sites=1` or `var_sites=2` the squared error after `m` sweeps is at most that of the start vector, and a larger number
of sweeps never gives a larger error. -/
theorem C29_monotone {qr : QR ℂ} (hqr : QRSpec qr) {svd : SVD ℂ} (hsvd : SVDSpec svd) (x : MPA ℂ) (hx : x.Good)
    (hlen : x.len ≠ 1) (s : MPA ℂ) (hs : s.Good) (hss : s.shape = x.shape) (k : ℕ) (hk : 1 ≤ k)
    (hk2 : k ≤ 2) (m m' : ℕ) (hm : m ≤ m') (cplx : Bool)
    (rs : RandState) :
    ∃ (y y' : MPA ℂ) (o o' : ℝ), x.compressionVar qr svd m (some s) none k cplx rs = .ok (y, o) ∧
      x.compressionVar qr svd m' (some s) none k cplx rs = .ok (y', o') ∧
      (sumSites x.shape fun i => ‖x.val i - y'.val i‖ ^ 2) ≤ (sumSites x.shape fun i => ‖x.val i - y.val i‖ ^ 2) ∧
      (sumSites x.shape fun i => ‖x.val i - y.val i‖ ^ 2) ≤ (sumSites x.shape fun i => ‖x.val i - s.val i‖ ^ 2) := by
  have hsl : s.len ≠ 1 := by
    have := congrArg List.length hss
    simp only [MPA.shape, List.length_map] at this
    show s.lt.length ≠ 1
    rw [this]; exact hlen
  have hxl : 1 ≤ x.len := List.length_pos_of_ne_nil hx.valid.ne
  obtain ⟨R, hR, hR0, hRle⟩ := MPA.maxRank_ok hx hlen
  obtain ⟨r, r1, r2, r3⟩ := MPA.maxRank_ok hs hsl
  have hst : StartOK x (some s) none r := Or.inl ⟨s, rfl, hs, hss, r1⟩
  by_cases hr : r ≤ R
  · have hstep := fun m => compressionVar_ok hqr hsvd hx hlen hst hR hr hk (by omega) m cplx rs (s := s) rfl
    have key : ∀ m, ∃ y o, x.compressionVar qr svd m (some s) none k cplx rs = .ok (y, o) ∧ sqErr x y ≤ sqErr x s := by
      intro m
      induction m with
      | zero =>
        obtain ⟨y, o, h1, h2, -⟩ := hstep 0
        exact ⟨y, o, h1, le_of_eq (sumSites_congr fun i hi => by rw [h2.zero rfl i hi])⟩
      | succ m ih =>
        obtain ⟨y, o, h1, h2⟩ := ih
        obtain ⟨y0, o0, g1, -, y', o', g2, g3⟩ := hstep m
        rw [h1] at g1; cases g1
        exact ⟨y', o', g2, (g3 hk2).trans h2⟩
    have key2 : ∀ d, ∃ y y' o o', x.compressionVar qr svd m (some s) none k cplx rs = .ok (y, o) ∧
        x.compressionVar qr svd (m + d) (some s) none k cplx rs = .ok (y', o') ∧ sqErr x y' ≤ sqErr x y := by
      intro d
      induction d with
      | zero =>
        obtain ⟨y, o, h1, -⟩ := key m
        exact ⟨y, y, o, o, h1, h1, le_rfl⟩
      | succ d ih =>
        obtain ⟨y, y', o, o', h1, h2, h3⟩ := ih
        obtain ⟨y0, o0, g1, -, y'', o'', g2, g3⟩ := hstep (m + d)
        rw [h2] at g1; cases g1
        exact ⟨y, y'', o, o'', h1, g2, (g3 hk2).trans h3⟩
    obtain ⟨y, y', o, o', h1, h2, h3⟩ := key2 (m' - m)
    rw [show m + (m' - m) = m' by omega] at h2
    obtain ⟨y0, o0, g1, g2⟩ := key m
    rw [h1] at g1; cases g1
    exact ⟨y, y', o, o', h1, h2, h3, g2⟩
  · have h := fun m => compressionVar_copy (svd := svd) hqr hx (m := m) (k := k) (cplx := cplx) (rs := rs)
      (Or.inr ⟨r, R, hst, hR, by omega⟩)
    obtain ⟨y, h1, -, -, -, h5⟩ := h m
    obtain ⟨y', g1, -, -, -, g5⟩ := h m'
    have e : ∀ z : MPA ℂ, (∀ i, IdxOK i x.shape → z.val i = x.val i) →
        (sumSites x.shape fun i => ‖x.val i - z.val i‖ ^ 2) = 0 := by
      intro z hz
      rw [sumSites_congr (g := fun _ => (0 : ℝ)) fun i hi => by rw [hz i hi]; simp]
      exact sumSites_zero _
    refine ⟨y, y', _, _, h1, g1, by rw [e y h5, e y' g5], ?_⟩
    rw [e y h5]
    exact sumSites_nonneg fun _ => sq_nonneg _

/-- C29: one site, or a requested rank above all ranks of the MPA: nothing changes and the squared norm is returned. -/
theorem C29_unchanged {qr : QR ℂ} (hqr : QRSpec qr) (svd : SVD ℂ) (x : MPA ℂ) (hx : x.Good) (m k : ℕ)
    (start : Option (MPA ℂ)) (rank : Option ℕ) (cplx : Bool) (rs : RandState)
    (h : x.len = 1 ∨ ∃ r, StartOK x start rank r ∧ ∀ q ∈ x.ranks, q < r) :
    ∃ y, x.compressionVar qr svd m start rank k cplx rs = .ok (y, sumSites x.shape fun i => ‖x.val i‖ ^ 2) ∧
      y.Good ∧ y.shape = x.shape ∧ ∀ i, IdxOK i x.shape → y.val i = x.val i := by
  have h' : x.len = 1 ∨ ∃ r R, StartOK x start rank r ∧ x.maxRank = .ok R ∧ R < r := by
    by_cases hlen : x.len = 1
    · exact Or.inl hlen
    · rcases h with h | ⟨r, h1, h2⟩
      · exact Or.inl h
      · obtain ⟨R, hR, hR0, -⟩ := MPA.maxRank_ok hx hlen
        refine Or.inr ⟨r, R, h1, hR, ?_⟩
        have hr0 : 0 < r := by
          unfold MPA.maxRank at hR
          cases hrk : x.ranks with
          | nil => rw [hrk] at hR; cases hR
          | cons d ds => have := h2 d (by rw [hrk]; simp); omega
        have := maxRank_le (r := r - 1) (s := x) (fun q hq => by have := h2 q hq; omega) hR
        omega
  obtain ⟨y, h1, h2, h3, -, h5⟩ := compressionVar_copy (svd := svd) hqr hx (m := m) (k := k) (cplx := cplx) (rs := rs) h'
  exact ⟨y, h1, h2, h3, h5⟩

/-- C29: without start vector and rank there is a `ValueError`. -/
theorem C29_missing_rank (qr : QR ℂ) (svd : SVD ℂ) (x : MPA ℂ) (hlen : x.len ≠ 1) (m k : ℕ) (cplx : Bool)
    (rs : RandState) : x.compressionVar qr svd m none none k cplx rs = .error .value := by
  unfold MPA.compressionVar
  rw [if_neg hlen]; rfl

/-- C29: a start vector with another shape on some site (as far as both have sites) is rejected. -/
theorem C29_wrong_shape (qr : QR ℂ) (svd : SVD ℂ) (x : MPA ℂ) (hlen : x.len ≠ 1) (s : MPA ℂ) (hs : s.Valid) (r R : ℕ)
    (hr : s.maxRank = .ok r) (hR : x.maxRank = .ok R) (hle : r ≤ R) (i : ℕ) (a b : List ℕ) (ha : x.shape[i]? = some a)
    (hb : s.shape[i]? = some b) (hab : a ≠ b) (rank : Option ℕ) (m k : ℕ) (cplx : Bool) (rs : RandState) :
    x.compressionVar qr svd m (some s) rank k cplx rs = .error .assertion := by
  unfold MPA.compressionVar
  rw [if_neg hlen]
  simp only [hr, hR, ok_bind]
  rw [if_neg (by omega), hs.copy_ok, ok_bind, pyAssert, if_neg (by
    intro h
    have := h (a, b) (by
      rw [List.mem_iff_getElem?]
      exact ⟨i, by rw [List.getElem?_zip_eq_some]; exact ⟨ha, hb⟩⟩)
    exact hab this)]
  rfl

/-- The sweeps do nothing if there are none or if more sites are to be varied than there are. -/
theorem adaptRun_none {qr : QR ℂ} {svd : SVD ℂ} {H y : MPA ℂ} {k M n m : ℕ} (h : m = 0 ∧ k = n ∨ n < k) :
    ∃ st, (adaptOps qr svd H k M).run qr k n m (onesNd 2) y = .ok st ∧ st.vec = y := by
  have hnk : n - k = 0 := by omega
  unfold SweepOps.run SweepOps.initRight
  rw [hnk]
  simp only [List.range_zero, List.reverse_nil, List.foldlM_nil, pure_bind]
  rcases h with ⟨rfl, -⟩ | h
  · exact ⟨_, rfl, rfl⟩
  · have hsw : ∀ st i, (adaptOps qr svd H k M).sweep qr k n st i = .ok st := by
      intro st i
      unfold SweepOps.sweep
      rw [hnk, show n + 1 - k = 0 by omega]
      rfl
    have : ∀ (L : List ℕ) st, L.foldlM ((adaptOps qr svd H k M).sweep qr k n) st = .ok st := by
      intro L
      induction L with
      | nil => intro st; rfl
      | cons a L ih => intro st; rw [List.foldlM_cons, hsw, ok_bind, ih]
    exact ⟨_, this _ _, rfl⟩

theorem MPA.adaptTo_many {qr : QR ℂ} {svd : SVD ℂ} (hqr : QRSpec qr) {H x : MPA ℂ} {D : List ℕ}
    (hHs : H.shape = singles D) (hx : x.Good) (hxs : x.shape = singles D) {k : ℕ}
    (hkn : D.length < k) (hn : D.length ≠ 1) {m : ℕ} :
    ∃ y, x.adaptTo qr svd H m k = .ok (y, x.frob ^ 2) ∧ CanonStepSpec x y := by
  have hlen : ∀ z : MPA ℂ, z.shape = singles D → z.lt.length = D.length := fun z hz => by
    have := congrArg List.length (show physShape z.lt = singles D from hz)
    rwa [physShape_length, singles_length] at this
  have hone : ∀ z : MPA ℂ, z.shape = singles D → z.OneLeg := by
    intro z hz s hs
    rw [hz] at hs
    obtain ⟨d, _, rfl⟩ := List.mem_map.1 hs
    rfl
  obtain ⟨y, y1, y2, y3, y4⟩ := MPA.canonicalize_right_first hqr hx
  have hys : y.shape = singles D := by rw [y2.same.1, hxs]
  obtain ⟨M, M1, M2, M3⟩ := MPA.maxRank_ok y2.good (by show y.lt.length ≠ 1; rw [hlen y hys]; exact hn)
  have hnl : H.len = D.length := hlen H hHs
  obtain ⟨st, s1, rfl⟩ := adaptRun_none (qr := qr) (svd := svd) (H := H) (y := y) (k := k) (M := M) (n := D.length) (m := m)
    (Or.inr hkn)
  obtain ⟨z, z1, z2⟩ := norm_ok hqr y2.good
  refine ⟨z, ?_, y2.trans z2⟩
  unfold MPA.adaptTo
  rw [pyAssert_true (hone x hxs), ok_bind, pyAssert_true (hone H hHs), ok_bind, y1, ok_bind, M1, ok_bind, hnl, s1, ok_bind,
    z1, y2.same.frob]
  rfl

/-- A finding: with `num_sweeps=0` or with `var_sites` larger than the number of sites nothing is varied: the start
vector itself is returned without complaint, together with *its* squared norm. -/
theorem C29_start_returned {qr : QR ℂ} (hqr : QRSpec qr) {svd : SVD ℂ} (hsvd : SVDSpec svd) (x : MPA ℂ) (hx : x.Good)
    (hlen : x.len ≠ 1) (s : MPA ℂ) (hs : s.Good) (hss : s.shape = x.shape) (r R : ℕ) (hr : s.maxRank = .ok r)
    (hR : x.maxRank = .ok R) (hle : r ≤ R) (m k : ℕ) (hmk : m = 0 ∧ 1 ≤ k ∨ x.len < k) (cplx : Bool) (rs : RandState) :
    ∃ y, x.compressionVar qr svd m (some s) none k cplx rs = .ok (y, sumSites x.shape fun i => ‖s.val i‖ ^ 2) ∧
      y.shape = x.shape ∧ ∀ i, IdxOK i x.shape → y.val i = s.val i := by
  have hst : StartOK x (some s) none r := Or.inl ⟨s, rfl, hs, hss, hr⟩
  have fin : ∀ {o : ℝ} {y : MPA ℂ}, VarOut x s 0 y o → o = sumSites x.shape fun i => ‖s.val i‖ ^ 2 := by
    intro o y h
    have := h.norm
    rw [sumSites_star_mul_self] at this
    rw [← Complex.ofReal_injective this]
    exact sumSites_congr fun i hi => by rw [h.zero rfl i hi]
  rcases Nat.lt_or_ge x.len k with hk | hk
  · obtain ⟨xr, x1, x2, x3, x4, x5⟩ := ravel_good hx
    obtain ⟨sr, s1, s2, s3, s4, s5⟩ := ravel_good hs
    rw [hss] at s3 s5
    set D := x.shape.map List.prod with hD
    have hDl : D.length = x.len := by simp [hD, MPA.shape, MPA.len]
    obtain ⟨y, h1, h2⟩ := MPA.adaptTo_many (m := m) hqr (svd := svd) x3 s2 s3 (by rw [hDl]; exact hk)
      (by rw [hDl]; exact hlen)
    obtain ⟨z, z1, z2, z3, z4, z5⟩ := unravel_good h2.good (good_shape_pos hx) (h2.same.shape.trans s3)
    refine ⟨z, ?_, z3, ?_⟩
    · rw [compressionVar_red hlen hst hR hle m cplx rs rfl x1 s1, h1, ok_bind]
      simp only [z1, ok_bind]
      have : sr.frob ^ 2 = sumSites x.shape fun i => ‖s.val i‖ ^ 2 := by
        rw [MPA.frob, Real.sq_sqrt (sumSites_nonneg fun _ => sq_nonneg _), s3, sumSites_singles,
          ← sumSites_flat x.shape fun i => ‖sr.val i‖ ^ 2]
        exact sumSites_congr fun i hi => by rw [s5 i hi]
      rw [this]; rfl
    · intro i hi
      obtain ⟨I, hI, hI', -⟩ := flatSites_ok hi
      rw [z5 i hi, hI, h2.same.val _ (by rw [s3]; exact idxOK_singles hI'), ← hI, s5 i hi]
  · obtain ⟨y, o, h1, h2, -⟩ := compressionVar_ok hqr hsvd hx hlen hst hR hle (k := k) (by omega) hk m cplx rs (s := s) rfl
    obtain rfl : m = 0 := by omega
    exact ⟨y, by rw [← fin h2]; exact h1, h2.shape, h2.zero rfl⟩

theorem exMPAc_norm_pos : 0 < sumSites exMPAc.shape fun i => ‖exMPAc.val i‖ ^ 2 := by
  have hi : IdxOK [[0], [0]] exMPAc.shape := by simp [exMPAc, MPA.shape, IdxOK, InB, NDArray.ph]
  refine lt_of_lt_of_le ?_ (sumSites_ge_term (fun _ => sq_nonneg _) hi)
  have : exMPAc.val [[0], [0]] ≠ 0 := by
    simp [exMPAc, MPA.val, entry, mp, NDArray.at3, NDArray.rb, Finset.sum_range_succ]
    norm_num
  positivity

/-- A finding: in these cases the number returned is not the overlap with the MPA that was to be compressed. -/
theorem C29_overlap_fails (rs : RandState) : ∃ (qr : QR ℂ) (svd : SVD ℂ) (x s y : MPA ℂ) (o : ℝ), QRSpec qr ∧ SVDSpec svd ∧
    x.Good ∧ s.Good ∧ s.shape = x.shape ∧ x.len = 2 ∧ x.compressionVar qr svd 5 (some s) none 3 true rs = .ok (y, o) ∧
    (sumSites x.shape fun i => star (x.val i) * y.val i) ≠ (o : ℂ) := by
  obtain ⟨qr, hqr⟩ := exists_QRSpec (𝕜 := ℂ)
  obtain ⟨svd, hsvd⟩ := exists_SVDSpec (𝕜 := ℂ)
  obtain ⟨s, -, h2, h3⟩ := C06_imul exMPAc exMPAc_good.valid 2
  have hs : s.Good := ⟨h2.valid, h3 exMPAc_good.canon, allPos_of h2.valid (by rw [h2.shape]; exact good_shape_pos exMPAc_good)
    (by rw [h2.ranks]; exact ranks_pos_of_good exMPAc_good)⟩
  have hR : exMPAc.maxRank = .ok 2 := rfl
  have hlen : exMPAc.len = 2 := rfl
  obtain ⟨y, h4, h5, h6⟩ := C29_start_returned hqr hsvd exMPAc exMPAc_good (by rw [hlen]; omega) s hs h2.shape 2 2
    (by rw [maxRank_of_ranks h2.ranks, hR]) hR le_rfl 5 3 (Or.inr (by rw [hlen]; omega)) true rs
  refine ⟨qr, svd, exMPAc, s, y, _, hqr, hsvd, exMPAc_good, hs, h2.shape, hlen, h4, ?_⟩
  have e1 : (sumSites exMPAc.shape fun i => ‖s.val i‖ ^ 2) = 4 * sumSites exMPAc.shape fun i => ‖exMPAc.val i‖ ^ 2 := by
    rw [mul_sumSites]
    refine sumSites_congr fun i hi => ?_
    rw [h2.val i hi, norm_mul, mul_pow]; norm_num
  have e2 : (sumSites exMPAc.shape fun i => star (exMPAc.val i) * y.val i)
      = 2 * ((sumSites exMPAc.shape fun i => ‖exMPAc.val i‖ ^ 2 : ℝ) : ℂ) := by
    rw [← sumSites_star_mul_self, mul_sumSites]
    refine sumSites_congr fun i hi => ?_
    rw [h6 i hi, h2.val i hi]; ring
  rw [e1, e2]
  have hp := exMPAc_norm_pos
  intro h
  have h' : (2 : ℝ) * (sumSites exMPAc.shape fun i => ‖exMPAc.val i‖ ^ 2)
      = 4 * sumSites exMPAc.shape fun i => ‖exMPAc.val i‖ ^ 2 := by exact_mod_cast h
  linarith

theorem startOK_pos {x : MPA ℂ} (hx : x.Good) (hlen : x.len ≠ 1) {start : Option (MPA ℂ)} {rank : Option ℕ} {r : ℕ}
    (hs : StartOK x start rank r) : 0 < r := by
  rcases hs with ⟨s, -, g1, g2, g3⟩ | ⟨-, -, g2⟩
  · obtain ⟨M, M1, M2, -⟩ := MPA.maxRank_ok g1 (by
      have := congrArg List.length g2
      simp only [MPA.shape, List.length_map] at this
      show s.lt.length ≠ 1
      rw [this]; exact hlen)
    rw [M1] at g3; cases g3
    exact M2
  · exact g2

/-- C29: on a chain of two sites, one or more sweeps with `var_sites=2` give, from every start vector, a best approximation:
no tensor of rank at most `r` and so no MPA with ranks at most `r` is closer, and the error and the returned number are
those of SVD compression to rank `r`. -/
theorem C29_two_sites {qr : QR ℂ} (hqr : QRSpec qr) {svd : SVD ℂ} (hsvd : SVDSpec svd) (x : MPA ℂ) (hx : x.Good)
    (hlen : x.len = 2) (start : Option (MPA ℂ)) (rank : Option ℕ) (r : ℕ) (hs : StartOK x start rank r)
    (m : ℕ) (hm : 1 ≤ m) (cplx : Bool) (rs : RandState) (direction : Option Dir) (hd : direction ≠ some .other) :
    ∃ (y y' : MPA ℂ) (o : ℝ), x.compressionVar qr svd m start rank 2 cplx rs = .ok (y, o) ∧
      x.compress qr svd (some r) none direction true = .ok (y', o) ∧
      (sumSites x.shape fun i => ‖x.val i - y.val i‖ ^ 2) = (sumSites x.shape fun i => ‖x.val i - y'.val i‖ ^ 2) ∧
      (∀ g : List (List ℕ) → ℂ, RankLe x.shape 1 r g →
        (sumSites x.shape fun i => ‖x.val i - y.val i‖ ^ 2) ≤ sumSites x.shape fun i => ‖x.val i - g i‖ ^ 2) ∧
      ∀ z : MPA ℂ, z.Valid → z.shape = x.shape → (∀ q ∈ z.ranks, q ≤ r) →
        (sumSites x.shape fun i => ‖x.val i - y.val i‖ ^ 2) ≤ sumSites x.shape fun i => ‖x.val i - z.val i‖ ^ 2 := by
  have hl1 : x.len ≠ 1 := by omega
  have hr0 := startOK_pos hx hl1 hs
  obtain ⟨y, o, h1, -, h2, h3, h4, -, -, h7, -⟩ := C29_compression hqr hsvd x hx hl1 start rank r hs m hm 2 (by norm_num)
    (by omega) cplx rs
  obtain ⟨y', o', g1, g2, g3, g4, -, -, -, g7, -⟩ := C27_compress hqr hsvd (truncatedSvd_spec hsvd) x hx hl1 (some (r : ℤ))
    (by rintro _ ⟨⟩; exact_mod_cast hr0) none (by simp) direction hd true
  obtain ⟨y'', o'', k1, -, -, -, k5⟩ := C55_two_sites hqr hsvd x hx hlen r hr0 direction hd
  have g1' : x.compress qr svd (some (r : ℤ)) none direction true = .ok (y', o') := g1
  rw [g1'] at k1; cases k1
  obtain ⟨R, hR, hR0, hRle⟩ := MPA.maxRank_ok hx hl1
  have hbest : ∀ g : List (List ℕ) → ℂ, RankLe x.shape 1 r g →
      (sumSites x.shape fun i => ‖x.val i - y.val i‖ ^ 2) ≤ sumSites x.shape fun i => ‖x.val i - g i‖ ^ 2 := by
    intro g hg
    rcases Nat.lt_or_ge R r with hlt | hle
    · obtain ⟨w, w1, w2, w3, -, w5⟩ := compressionVar_copy (svd := svd) hqr hx (m := m) (k := 2) (start := start) (rank := rank)
        (cplx := cplx) (rs := rs) (Or.inr ⟨r, R, hs, hR, hlt⟩)
      rw [h1] at w1; cases w1
      have : (sumSites x.shape fun i => ‖x.val i - y.val i‖ ^ 2) = sumSites x.shape fun i => ‖x.val i - x.val i‖ ^ 2 :=
        sumSites_congr fun i hi => by rw [w5 i hi]
      rw [this, sumSites_congr (g := fun i => 0 * ‖x.val i - g i‖ ^ 2) fun i _ => by simp, ← mul_sumSites, zero_mul]
      exact sumSites_nonneg fun _ => sq_nonneg _
    · obtain ⟨m, rfl⟩ := Nat.exists_eq_succ_of_ne_zero (by omega : m ≠ 0)
      exact compressionVar_two hqr hsvd hx hlen hs hR hle m cplx rs h1 hg
  have hvalid : ∀ z : MPA ℂ, z.Valid → z.shape = x.shape → (∀ q ∈ z.ranks, q ≤ r) →
      (sumSites x.shape fun i => ‖x.val i - y.val i‖ ^ 2) ≤ sumSites x.shape fun i => ‖x.val i - z.val i‖ ^ 2 := by
    intro z hz hzs hq
    refine hbest _ ?_
    rw [← hzs]
    refine rankLe_of_ranks hz hq le_rfl ?_
    have := congrArg List.length hzs
    simp only [MPA.shape, List.length_map] at this
    show 1 < z.lt.length
    rw [this]; show 1 < x.len; omega
  have e : (sumSites x.shape fun i => ‖x.val i - y.val i‖ ^ 2) = (sumSites x.shape fun i => ‖x.val i - y'.val i‖ ^ 2) :=
    le_antisymm (hvalid y' g2.valid g3 fun q hq => by exact_mod_cast g4 r rfl q hq) (k5 y h2.valid h3 h4)
  have : o = o' := by linarith
  subst this
  exact ⟨y, y', o, h1, g1', e, hbest, hvalid⟩

/-- Non-vacuity: the hypotheses of `C29_compression` hold for compressing an MPA of rank 2 to rank 1, with a random start
vector and with a given one; those of `C29_monotone` hold for the same start vector, those of `C29_two_sites` for both, and
there are tensors of rank 1 to compare with. -/
example (rs : RandState) : ∃ (qr : QR ℂ) (svd : SVD ℂ) (s : MPA ℂ), QRSpec qr ∧ SVDSpec svd ∧ exMPAc.Good ∧
    exMPAc.len = 2 ∧ exMPAc.ranks = [2] ∧ StartOK exMPAc none (some 1) 1 ∧ s.Good ∧ s.shape = exMPAc.shape ∧
    StartOK exMPAc (some s) none 1 ∧
    RankLe exMPAc.shape 1 1 s.val ∧
    (∃ y o, exMPAc.compressionVar qr svd 3 none (some 1) 2 true rs = .ok (y, o) ∧ ∀ q ∈ y.ranks, q ≤ 1) ∧
    ∃ y o, exMPAc.compressionVar qr svd 3 (some s) none 1 true rs = .ok (y, o) ∧ ∀ q ∈ y.ranks, q ≤ 1 := by
  obtain ⟨qr, hqr⟩ := exists_QRSpec (𝕜 := ℂ)
  obtain ⟨svd, hsvd⟩ := exists_SVDSpec (𝕜 := ℂ)
  have h0 : StartOK exMPAc none (some 1) 1 := Or.inr ⟨rfl, rfl, one_pos⟩
  obtain ⟨s, s1, s2, s3, s4⟩ := varStart_ok (qr := qr) exMPAc_good h0 true rs
  have hl : exMPAc.len = 2 := rfl
  have hsl : s.len ≠ 1 := by
    have := congrArg List.length s3
    simp only [MPA.shape, List.length_map] at this
    show s.lt.length ≠ 1
    rw [this]; simp [exMPAc]
  obtain ⟨M, M1, M2, M3⟩ := MPA.maxRank_ok s2 hsl
  have hM : M = 1 := by have := maxRank_le s4 M1; omega
  subst hM
  have h1 : StartOK exMPAc (some s) none 1 := Or.inl ⟨s, rfl, s2, s3, M1⟩
  obtain ⟨y, o, a1, -, -, -, a2, -⟩ := C29_compression hqr hsvd exMPAc exMPAc_good (by rw [hl]; omega) _ _ 1 h0 3 (by omega) 2
    (by omega) (by rw [hl]) true rs
  obtain ⟨y', o', b1, -, -, -, b2, -⟩ := C29_compression hqr hsvd exMPAc exMPAc_good (by rw [hl]; omega) _ _ 1 h1 3 (by omega) 1
    (by omega) (by rw [hl]; omega) true rs
  exact ⟨qr, svd, s, hqr, hsvd, exMPAc_good, hl, rfl, h0, s2, s3, h1,
    by rw [← s3]; exact rankLe_of_ranks s2.valid s4 le_rfl (by have := hsl; have := List.length_pos_of_ne_nil s2.valid.ne; show 1 < s.lt.length; have : s.lt.length ≠ 1 := hsl; omega),
    ⟨y, o, a1, a2⟩, y', o', b1, b2⟩

end Mpnum
