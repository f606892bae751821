import Verif.MPArray.CompressVarMain

/-!
# Variational compression of a chain of two sites

With `var_sites = 2` the block of a chain of two sites is the whole chain, so that one sweep finds a best approximation.
-/

open Finset

namespace Mpnum

/-- The bond of two sites after right-canonicalising the second one. -/
theorem lcanonStep_two {R : Type} [CommRing R] [StarRing R] {qr : QR R} (hqr : QRSpec qr) {x y : MPA R} (hx : x.Good)
    {t u : NDArray R} (hlt : x.lt = [t, u]) (hr : x.r = 2) (hy : x.lcanonStep qr 1 = .ok y) :
    ∃ t' u', y.lt = [t', u'] ∧ u'.lb = min (u.ph ++ [u.rb]).prod u.lb := by
  have hloc := hx.valid.chain.isLocal
  have htm : t ∈ x.lt := by rw [hlt]; simp
  have hum : u ∈ x.lt := by rw [hlt]; simp
  have htl := hloc t htm
  have hul := hloc u hum
  have htu : t.rb = u.lb := by
    have hch := hx.valid.chain
    rw [hlt] at hch
    exact hch.2.2.2.1.symm
  have hurb := hx.pos.rb hum hul
  have hulb := hx.pos.lb hum hul
  have huph := hx.pos.ph hum hul
  obtain ⟨mat, e1, e2, e3⟩ := rmat_ok hul hulb
  have hMpos : 0 < (u.ph ++ [u.rb]).prod := by rw [List.prod_append]; simpa using Nat.mul_pos huph hurb
  obtain ⟨hT1, hT2⟩ := T2 e2
  obtain ⟨q1, q2, q3, q4⟩ := hqr mat.T _ _ hT1
  obtain ⟨hQ1, hQ2⟩ := T2 q1
  obtain ⟨hR1, hR2⟩ := T2 q2
  obtain ⟨u', f1, f2, f3⟩ := runmat_ok (v := (qr mat.T).1.T) (r := u.rb) (P := u.ph) hQ1 hMpos
  obtain ⟨t', g1, g2, g3⟩ := matdot_right (m := (qr mat.T).2.T) (u := t) htl (by rw [htu]; exact hR1)
  have hupd := MPA.update_pair_right (x := x) (pre := []) (post := []) hlt (NDArray.isLocal_of_shape g2)
    (NDArray.isLocal_of_shape f2) (NDArray.lb_of_shape g2).symm
    ((NDArray.rb_of_shape g2).trans (NDArray.lb_of_shape f2).symm) (NDArray.rb_of_shape f2).symm
    (by rw [hr]; simp)
  refine ⟨t', u', ?_, NDArray.lb_of_shape f2⟩
  unfold MPA.lcanonStep at hy
  have hsite1 : x.site 1 = .ok u := by
    have := MPA.site_ok (x := x) (pre := [t]) (post := []) (t := u) (by simp [hlt])
    simpa using this
  have hsite0 : x.site (1 - 1) = .ok t := by
    have := MPA.site_ok (x := x) (pre := []) (post := [u]) (t := t) (by simp [hlt])
    simpa using this
  have hdl : u.shape.tail = u.ph ++ [u.rb] := by
    rw [NDArray.shape_local hul, List.tail_cons]
  rw [hsite1, ok_bind, e1, ok_bind] at hy
  simp only [hsite0, ok_bind, hdl] at hy
  rw [f1, g1] at hy
  simp only [ok_bind] at hy
  simp only [List.length_nil, Nat.cast_zero, zero_add] at hupd
  rw [show (1 - 1 : ℤ) = 0 by norm_num, show (1 + 1 : ℤ) = 2 by norm_num, hupd] at hy
  cases hy
  rfl

/-- Right-canonicalising a chain of two sites keeps the bond unless the second site does not need it. -/
theorem canonicalize_two {R : Type} [CommRing R] [StarRing R] {qr : QR R} (hqr : QRSpec qr) {x y : MPA R} (hx : x.Good)
    {t u : NDArray R} (hlt : x.lt = [t, u]) (hy : x.canonicalize qr .none (.int 1) = .ok y) {M : ℕ} (hM : y.maxRank = .ok M) :
    min (u.ph ++ [u.rb]).prod u.lb ≤ M := by
  have hlen : x.len = 2 := by simp [MPA.len, hlt]
  have h0 := hx.valid.l_nonneg
  have h1 := hx.valid.l_lt_r
  have h2 := hx.valid.r_le
  unfold MPA.canonicalize at hy
  rw [if_neg (by simp [CArg.isNone])] at hy
  simp only [CArg.left, CArg.right, hlen] at hy
  norm_num [pyGuard] at hy
  rw [if_neg (by omega)] at hy
  split_ifs at hy with hr
  · have hr2 : x.r = 2 := by rw [hlen] at h2; push_cast at h2; omega
    unfold MPA.lcanonicalize at hy
    rw [pyAssert_true (by rw [hlen]; norm_num), ok_bind, hr2,
      show pyRange (2 - 1) (1 - 1) (-1) = [1] from rfl, List.foldlM_cons] at hy
    obtain ⟨z, hz, hy⟩ := bind_ok_inv hy
    cases hy
    obtain ⟨t', u', e1, e2⟩ := lcanonStep_two hqr hx hlt hr2 hz
    rw [← e2]
    simp [MPA.maxRank, MPA.ranks, e1] at hM
    omega
  · cases hy
    simp [MPA.maxRank, MPA.ranks, hlt] at hM
    omega

/-- A tensor with two sites and rank at most `r` has a chain with bond `r`. -/
theorem chain_rank (a b r : ℕ) (f : List (List ℕ) → ℂ) (X Y : ℕ → ℕ → ℂ)
    (h : ∀ i < a, ∀ j < b, f [[i], [j]] = ∑ c ∈ range r, X i c * Y c j) : ∃ mid : List (NDArray ℂ), Chained 1 mid 1 ∧
    physShape mid = singles [a, b] ∧ (∀ t ∈ mid.tail, t.lb ≤ r) ∧ ∀ I, InB I [a, b] → f (singles I) = entry mid (singles I) := by
  refine ⟨[⟨[1, a, r], fun i => X (i.getD 1 0) (i.getD 2 0)⟩, ⟨[r, b, 1], fun i => Y (i.getD 0 0) (i.getD 1 0)⟩],
    ?_, ?_, ?_, ?_⟩
  · exact ⟨by simp [NDArray.IsLocal, NDArray.ndim], rfl, by simp [NDArray.IsLocal, NDArray.ndim], rfl, rfl⟩
  · rfl
  · simp [NDArray.lb]
  · intro I hI
    obtain ⟨i, j, rfl, hi, hj⟩ : ∃ i j, I = [i, j] ∧ i < a ∧ j < b := by
      match I, hI with
      | [i, j], .cons h1 (.cons h2 .nil) => exact ⟨i, j, rfl, h1, h2⟩
    show f [[i], [j]] = mp _ [[i], [j]] 0 0
    rw [mp_pair ⟨by simp [NDArray.IsLocal, NDArray.ndim], rfl, by simp [NDArray.IsLocal, NDArray.ndim], rfl, rfl⟩ 0 [i] [j] 0
      one_pos, h i hi j hj]
    rfl

theorem varStart_maxRank {qr : QR ℂ} {x : MPA ℂ} (hx : x.Good) {S T : List ℕ} (hST : x.shape = [S, T])
    {startmpa : Option (MPA ℂ)} {rank : Option ℕ} {r : ℕ}
    (hs : StartOK x startmpa rank r) (cplx : Bool) (rs : RandState) {s : MPA ℂ} (hst : varStart qr x startmpa r cplx rs = .ok s) :
    ∃ q, s.ranks = [q] ∧ min r (min S.prod T.prod) ≤ q := by
  have hlen : x.len = 2 := by
    have := congrArg List.length hST
    simp only [MPA.shape, List.length_map] at this
    exact this
  have h2 : ∀ z : MPA ℂ, z.shape = x.shape → ∃ q, z.ranks = [q] := by
    intro z hz
    have : z.lt.length = 2 := by
      have := congrArg List.length hz
      simp only [MPA.shape, List.length_map] at this
      rw [this]; exact hlen
    obtain ⟨t, u, h⟩ := List.length_eq_two.1 this
    exact ⟨u.lb, by simp [MPA.ranks, h]⟩
  rcases hs with ⟨s', rfl, h1, hsh, h3⟩ | ⟨rfl, -, hr⟩
  · cases hst
    obtain ⟨q, hq⟩ := h2 s hsh
    rw [MPA.maxRank, hq] at h3
    cases h3
    exact ⟨q, hq, min_le_left _ _⟩
  · obtain ⟨s', s'', h3, h4, -⟩ := randomMpa_ok qr (n := x.len) (List.length_pos_of_ne_nil hx.valid.ne)
      (ldim := .nested x.shape) (by simp [LdimArg.Fits, MPA.shape, MPA.len]) (rank := .scalar r) trivial false cplx rs
    simp only [varStart, h3, Except.map] at hst
    cases hst
    have := h4.ranks
    simp only [wantedRanks, LdimArg.legs, RankArg.at, hST] at this
    simp at this
    exact ⟨_, this, le_rfl⟩

/-- One sweep of variational compression with `var_sites = 2` finds a best approximation of a chain of two sites. -/
theorem compressionVar_two {qr : QR ℂ} {svd : SVD ℂ} (hqr : QRSpec qr) (hsvd : SVDSpec svd) {x : MPA ℂ} (hx : x.Good)
    (hlen : x.len = 2) {startmpa : Option (MPA ℂ)} {rank : Option ℕ} {r : ℕ} (hs : StartOK x startmpa rank r)
    {R : ℕ} (hR : x.maxRank = .ok R) (hr : r ≤ R) (m : ℕ) (cplx : Bool) (rs : RandState) {y : MPA ℂ} {o : ℝ}
    (hy : x.compressionVar qr svd (m + 1) startmpa rank 2 cplx rs = .ok (y, o))
    {g : List (List ℕ) → ℂ} (hg : RankLe x.shape 1 r g) :
    tdist x.shape x.val y.val ≤ tdist x.shape x.val g := by
  obtain ⟨s, hst, sg, ss, -⟩ := varStart_ok (qr := qr) hx hs cplx rs
  obtain ⟨xr, x1, x2, x3, x4, x5⟩ := ravel_good hx
  obtain ⟨sr, s1, s2, s3, s4, s5⟩ := ravel_good sg
  rw [ss] at s3 s5
  obtain ⟨S, T, hST⟩ := List.length_eq_two.1 (show x.shape.length = 2 by simpa only [MPA.shape, List.length_map] using (show x.lt.length = 2 from hlen))
  obtain ⟨q₀, hsr, hq₀⟩ := varStart_maxRank hx hST hs cplx rs hst
  have hpos := good_shape_pos hx
  set D := x.shape.map List.prod with hD
  have hDe : D = [S.prod, T.prod] := by rw [hD, hST]; rfl
  have hDl : D.length = 2 := by rw [hDe]; rfl
  rw [compressionVar_red (by omega) hs hR hr (m + 1) cplx rs hst x1 s1] at hy
  obtain ⟨-, -, -, -, w, o', w1, -, w3⟩ := MPA.adaptTo_ok hqr hsvd x2 x3 s2 s3 (k := 2) (by norm_num) (by rw [hDl])
    (by rw [hDl]; norm_num) m
  obtain ⟨w', o'', w1', w2', -⟩ := MPA.adaptTo_ok hqr hsvd x2 x3 s2 s3 (k := 2) (by norm_num) (by rw [hDl])
    (by rw [hDl]; norm_num) (m + 1)
  rw [w1] at w1'; cases w1'
  obtain ⟨v, v1, v2, v3, v4, v5⟩ := unravel_good w2'.good hpos w2'.shape
  rw [w1, ok_bind] at hy
  simp only [v1, ok_bind] at hy
  cases hy
  obtain ⟨c, c1, c2, c3, c4⟩ := MPA.canonicalize_right_first hqr s2
  have hcl : c.len ≠ 1 := by
    rw [c2.len]
    have := congrArg List.length s3
    simp only [MPA.shape, List.length_map, singles] at this
    show sr.lt.length ≠ 1
    rw [this, hDl]; norm_num
  obtain ⟨M, M1, M2, M3⟩ := MPA.maxRank_ok c2.good hcl
  set gf : List (List ℕ) → ℂ := fun I => g [unravelIdx S ((I.getD 0 []).headD 0), unravelIdx T ((I.getD 1 []).headD 0)]
    with hgf
  have hgv : ∀ i, IdxOK i x.shape → gf (flatSites x.shape i) = g i := by
    intro i hi
    rw [hST] at hi ⊢
    match i, hi with
    | [p, q], .cons h1 (.cons h2 .nil) => simp [hgf, flatSites, unravel_ravel h1, unravel_ravel h2]
  have hAC : AdaptC D 2 M gf := by
    refine ⟨hDl.symm, le_rfl, ?_⟩
    obtain ⟨t, u, htu⟩ := List.length_eq_two.1 (show sr.lt.length = 2 by
      have := congrArg List.length s3
      simp only [MPA.shape, List.length_map, singles] at this
      rw [this, hDl])
    have hM := canonicalize_two hqr s2 htu c1 M1
    have hu : u.lb = q₀ := by
      rw [hsr] at s4
      simpa [MPA.ranks, htu] using s4
    have hph : u.ph = [T.prod] := by
      have := s3
      simp [MPA.shape, htu, hDe, singles] at this
      exact this.2
    have hrb : u.rb = 1 := by
      have := s2.valid.chain
      rw [htu] at this
      exact this.2.2.2.2
    rw [hph, hrb, hu] at hM
    have hch : ∀ (r' : ℕ) (X Y : ℕ → ℕ → ℂ), r' ≤ M → (∀ i < S.prod, ∀ j < T.prod, gf [[i], [j]] = ∑ c ∈ range r', X i c * Y c j) →
        ∃ mid : List (NDArray ℂ), Chained 1 mid 1 ∧ physShape mid = singles D ∧ (∀ t ∈ mid.tail, t.lb ≤ M) ∧
          ∀ I, InB I D → gf (singles I) = entry mid (singles I) := by
      intro r' X Y hr' h
      obtain ⟨mid, m1, m2, m3, m4⟩ := chain_rank S.prod T.prod r' gf X Y h
      rw [hDe]
      exact ⟨mid, m1, m2, fun t ht => (m3 t ht).trans hr', m4⟩
    by_cases hT : T.prod ≤ M
    · refine hch T.prod (fun i c => gf [[i], [c]]) (fun c j => if c = j then 1 else 0) hT fun i _ j hj => ?_
      rw [sum_eq_single_of_mem j (mem_range.2 hj) fun c _ hne => by simp [hne]]
      simp
    by_cases hS : S.prod ≤ M
    · refine hch S.prod (fun i c => if c = i then 1 else 0) (fun c j => gf [[c], [j]]) hS fun i hi j _ => ?_
      rw [sum_eq_single_of_mem i (mem_range.2 hi) fun c _ hne => by simp [hne]]
      simp
    · obtain ⟨X, Y, hXY⟩ := hg
      simp only [List.prod_append, List.prod_cons, List.prod_nil, mul_one] at hM
      refine hch r (fun i c => X [unravelIdx S i] c) (fun c j => Y c [unravelIdx T j]) (by omega) fun i hi j hj => ?_
      have := hXY [unravelIdx S i] [unravelIdx T j] (by rw [hST]; exact .cons (unravelIdx_inB hi) .nil)
        (by rw [hST]; exact .cons (unravelIdx_inB hj) .nil)
      rw [← this]
      rfl
  have key := w3 c M c1 M1 _ hAC
  rw [← sumSites_flat x.shape fun i => ‖xr.val i - w.val i‖ ^ 2, ← sumSites_flat x.shape fun i => ‖xr.val i - gf i‖ ^ 2] at key
  unfold tdist
  rw [sumSites_congr (g := fun i => ‖xr.val (flatSites x.shape i) - w.val (flatSites x.shape i)‖ ^ 2)
      fun i hi => by rw [v5 i hi, x5 i hi],
    sumSites_congr (f := fun i => ‖x.val i - g i‖ ^ 2)
      (g := fun i => ‖xr.val (flatSites x.shape i) - gf (flatSites x.shape i)‖ ^ 2)
      fun i hi => by rw [x5 i hi, hgv i hi]]
  exact key

end Mpnum
