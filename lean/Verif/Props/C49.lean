import Verif.Factory
import Verif.Props.C02
import Verif.Props.C30
import Verif.Props.C33

/-!
# C49 — constructors of /repo/mpnum/factory.py: deterministic objects and shapes
-/

open Finset

namespace Mpnum

variable {R : Type}

/-! ### specification -/

/-- The legs of each of `n` sites described by the argument `ldim`. -/
def LdimArg.legs (n : ℕ) : LdimArg → List (List ℕ)
  | .scalar d => List.replicate n [d]
  | .flat ds => List.replicate n ds
  | .nested dss => dss

/-- The argument `ldim` fits to `n ≥ 1` sites. -/
def LdimArg.Fits (n : ℕ) : LdimArg → Prop
  | .scalar _ => True
  | .flat ds => ds ≠ []
  | .nested dss => dss.length = n

/-- The rank wanted at bond `c`. -/
def RankArg.at (c : ℕ) : RankArg → ℕ
  | .scalar r => r
  | .each rs => rs.getD c 0

/-- The argument `rank` fits to `n` sites. -/
def RankArg.Fits (n : ℕ) : RankArg → Prop
  | .scalar _ => True
  | .each rs => rs.length + 1 = n

/-- The ranks of the result: as wanted, but (unless forced) not more than the product of the leg sizes
on either side. -/
def wantedRanks (S : List (List ℕ)) (rank : RankArg) (force : Bool) : List ℕ :=
  (List.range (S.length - 1)).map fun c =>
    if force then rank.at c
    else min (rank.at c) (min (S.take (c + 1)).flatten.prod (S.drop (c + 1)).flatten.prod)

/-! ### shapes -/

theorem legs_length {n : ℕ} {ldim : LdimArg} (h : ldim.Fits n) : (ldim.legs n).length = n := by
  cases ldim <;> simp_all [LdimArg.legs, LdimArg.Fits]

theorem legs_ok {n : ℕ} (hn : 0 < n) {ldim : LdimArg} (h : ldim.Fits n) : ldim.sites n = .ok (ldim.legs n) := by
  cases ldim with
  | scalar d => rfl
  | flat ds => cases ds with
    | nil => exact absurd rfl h
    | cons d ds => rfl
  | nested dss => cases dss with
    | nil => simp [LdimArg.Fits] at h; omega
    | cons d ds => rfl

theorem chained_zip3 : ∀ (ld : List (List ℕ)) (rk : List ℕ) (a b : ℕ) (ts : List (NDArray R)),
    rk.length + 1 = ld.length →
    ts.map NDArray.shape = List.zipWith3 (fun a d b => a :: (d ++ [b])) (a :: rk) ld (rk ++ [b]) →
    Chained a ts b ∧ physShape ts = ld ∧ ts.map NDArray.lb = a :: rk
  | [], _, _, _, _, h, _ => by simp at h
  | [d], [], a, b, ts, _, hs => by
    match ts, hs with
    | _ :: _ :: _, hs => simp [List.zipWith3] at hs
    | [t], hs =>
      have hs : t.shape = a :: (d ++ [b]) := by simpa [List.zipWith3] using hs
      exact ⟨⟨NDArray.isLocal_of_shape hs, NDArray.lb_of_shape hs, NDArray.rb_of_shape hs⟩,
        by simp [physShape, NDArray.ph_of_shape hs], by simp [NDArray.lb_of_shape hs]⟩
  | [d], _ :: _, _, _, _, h, _ => by simp at h
  | d :: e :: ld, [], _, _, _, h, _ => by simp at h
  | d :: e :: ld, r :: rk, a, b, ts, h, hs => by
    match ts, hs with
    | t :: ts, hs =>
      simp only [List.map_cons, List.cons_append, List.zipWith3, List.cons.injEq] at hs
      obtain ⟨hs1, hs2⟩ := hs
      obtain ⟨h1, h2, h3⟩ := chained_zip3 (e :: ld) rk r b ts (by simpa using h) hs2
      refine ⟨⟨NDArray.isLocal_of_shape hs1, NDArray.lb_of_shape hs1, ?_⟩, ?_, ?_⟩
      · rw [NDArray.rb_of_shape hs1]; exact h1
      · simp only [physShape, List.map_cons, NDArray.ph_of_shape hs1, List.cons.injEq, true_and]; exact h2
      · simp only [List.map_cons, NDArray.lb_of_shape hs1, h3]

theorem bonds_eq {n : ℕ} {rank : RankArg} (h : rank.Fits n) :
    rank.bonds n = (List.range (n - 1)).map rank.at := by
  cases rank with
  | scalar r =>
    apply List.ext_getElem <;> simp [RankArg.bonds, RankArg.at]
  | each rs =>
    simp only [RankArg.Fits] at h
    apply List.ext_getElem
    · simp [RankArg.bonds]; omega
    · intro i h1 h2
      have h1 : i < rs.length := h1
      simp [RankArg.bonds, RankArg.at, List.getD_eq_getElem?_getD, h1]

/-- `_generate` asks for tensors of the right shapes. -/
theorem generateShapes_ok {n : ℕ} (hn : 0 < n) {ldim : LdimArg} (hl : ldim.Fits n) {rank : RankArg}
    (hr : rank.Fits n) (force : Bool) :
    ∃ shapes, generateShapes n ldim rank force = .ok shapes ∧
      ∀ ts : List (NDArray R), ts.map NDArray.shape = shapes →
        Chained 1 ts 1 ∧ physShape ts = ldim.legs n ∧ ts.length = n ∧
          ts.tail.map NDArray.lb = wantedRanks (ldim.legs n) rank force := by
  have hlen := legs_length hl
  have hrk : (if force then rank.bonds n else List.zipWith min (rank.bonds n) (fullRank (ldim.legs n)))
      = wantedRanks (ldim.legs n) rank force := by
    rw [bonds_eq hr, fullRank_spec, wantedRanks, hlen]
    cases force with
    | true => rfl
    | false =>
      simp only [Bool.false_eq_true, if_false]
      apply List.ext_getElem <;> simp
  have hwl : (wantedRanks (ldim.legs n) rank force).length = n - 1 := by simp [wantedRanks, hlen]
  refine ⟨List.zipWith3 (fun a d b => a :: (d ++ [b])) (1 :: wantedRanks (ldim.legs n) rank force) (ldim.legs n)
      (wantedRanks (ldim.legs n) rank force ++ [1]), ?_, ?_⟩
  · unfold generateShapes
    rw [legs_ok hn hl, ok_bind]
    simp only [hrk]
    rw [pyAssert_true hlen, ok_bind, pyAssert_true (by rw [hwl]; omega), ok_bind]
    rfl
  · intro ts hts
    obtain ⟨h1, h2, h3⟩ := chained_zip3 _ _ 1 1 ts (by rw [hwl, hlen]; omega) hts
    refine ⟨h1, h2, ?_, ?_⟩
    · have := congrArg List.length h2
      simpa [physShape, hlen] using this
    · rw [List.map_tail, h3]; rfl

/-- `rank` must have one entry for each bond if it is forced; without `force_rank` it must not be
shorter (a longer sequence is cut silently). -/
theorem C49_generate_reject (n : ℕ) (ldim : LdimArg) (rs : List ℕ) (hn : 0 < n) (hl : ldim.Fits n) :
    (rs.length + 1 ≠ n → generateShapes n ldim (.each rs) true = .error .assertion) ∧
    (rs.length + 1 < n → generateShapes n ldim (.each rs) false = .error .assertion) := by
  have hlen := legs_length hl
  constructor
  · intro h
    unfold generateShapes
    rw [legs_ok hn hl, ok_bind]
    simp only [if_true]
    rw [pyAssert_true hlen, ok_bind, pyAssert_false (by simp [RankArg.bonds]; omega)]
    rfl
  · intro h
    unfold generateShapes
    rw [legs_ok hn hl, ok_bind]
    simp only [Bool.false_eq_true, if_false]
    rw [pyAssert_true hlen, ok_bind, pyAssert_false (by simp [RankArg.bonds]; omega)]
    rfl

theorem C49_generate_long_rank_cut (rs : List ℕ) :
    ∃ s, generateShapes 2 (.scalar 2) (.each (1 :: rs)) false = .ok s := by
  refine ⟨[[1, 2, 1], [1, 2, 1]], ?_⟩
  unfold generateShapes
  rw [show (LdimArg.scalar 2).sites 2 = .ok [[2], [2]] from rfl, ok_bind]
  have : List.zipWith min ((RankArg.each (1 :: rs)).bonds 2) (fullRank [[2], [2]]) = [1] := by
    simp [RankArg.bonds, fullRank, List.range_succ]
  simp only [Bool.false_eq_true, if_false, this]
  rfl

theorem C49_generate_ldim_reject (n : ℕ) (dss : List (List ℕ)) (rank : RankArg) (force : Bool) (hne : dss ≠ [])
    (h : dss.length ≠ n) : generateShapes n (.nested dss) rank force = .error .assertion := by
  unfold generateShapes
  have : (LdimArg.nested dss).sites n = .ok dss := by
    cases dss with
    | nil => exact absurd rfl hne
    | cons => rfl
  rw [this, ok_bind]
  simp only
  rw [pyAssert_false h]
  rfl

/-! ### zero -/

theorem mp_zeros [CommSemiring R] (S : List (List ℕ)) (hS : S ≠ []) (idx : List (List ℕ)) (h : idx.length = S.length)
    (a b : ℕ) : mp (S.map (NDArray.zeros (R := R))) idx a b = 0 := by
  match S, idx, h, hS with
  | s :: S, i :: idx, _, _ => simp [mp, NDArray.zeros, NDArray.at3]

/-- `zero` has the wanted shape and ranks, and all its entries are zero. -/
theorem C49_zero [CommSemiring R] (n : ℕ) (hn : 0 < n) (ldim : LdimArg) (hl : ldim.Fits n) (rank : RankArg)
    (hr : rank.Fits n) (force : Bool) :
    ∃ x : MPA R, factoryZero n ldim rank force = .ok x ∧ x.Valid ∧ x.shape = ldim.legs n ∧
      x.ranks = wantedRanks (ldim.legs n) rank force ∧ ∀ idx, IdxOK idx x.shape → x.val idx = 0 := by
  obtain ⟨shapes, h1, h2⟩ := generateShapes_ok (R := R) hn hl hr force
  obtain ⟨g1, g2, g3, g4⟩ := h2 (shapes.map NDArray.zeros) (by simp [NDArray.zeros, Function.comp_def])
  have hne : shapes.map (NDArray.zeros (R := R)) ≠ [] := by
    intro h; rw [h] at g3; simp at g3; omega
  refine ⟨⟨_, 0, _⟩, ?_, valid_mk hne g1, g2, g4, ?_⟩
  · unfold factoryZero
    rw [h1, ok_bind, mkMPA_ok hne g1]
  · intro idx hidx
    have hl := idxOK_length hidx
    exact mp_zeros shapes (by simpa using hne) idx (by simpa [MPA.shape] using hl) 0 0

/-! ### identity -/

/-- `eye` is the identity operator: its entry at row `I` and column `J` is 1 if `I = J` and 0
otherwise; its ranks are 1. -/
theorem C49_eye [CommSemiring R] (n : ℕ) (hn : 0 < n) (ldim : EyeArg) (D : List ℕ)
    (hD : match ldim with | .scalar d => D = List.replicate n d | .each ds => D = ds ∧ ds.length = n) :
    ∃ x : MPA R, factoryEye n ldim = .ok x ∧ x.Valid ∧ x.shape = pairs D D ∧ x.ranks = List.replicate (n - 1) 1 ∧
      ∀ I J, InB I D → InB J D → x.val (pairs I J) = if I = J then 1 else 0 := by
  have hDn : D.length = n := by
    cases ldim with
    | scalar d => simp [hD]
    | each ds => simp [hD.1, hD.2]
  have hDne : D ≠ [] := by rintro rfl; simp at hDn; omega
  obtain ⟨x, h1, h2, h3, h4, h5⟩ := C04_from_kron (R := R) (D.map NDArray.eye) (by simpa using hDne)
  have hsh : (D.map (NDArray.eye (R := R))).map NDArray.shape = pairs D D := by
    simp [NDArray.eye, pairs, Function.comp_def]
  refine ⟨x, ?_, h2, by rw [h3, hsh], by rw [h4]; simp [hDn], ?_⟩
  · unfold factoryEye
    cases ldim with
    | scalar d =>
      simp only at hD
      rw [ok_bind, ← hD]; exact h1
    | each ds =>
      simp only
      rw [pyAssert_true hD.2, ok_bind, show (pure ds : Py (List ℕ)) = .ok ds from rfl, ok_bind, ← hD.1]
      exact h1
  · intro I J hI hJ
    rw [h5 _ (by rw [hsh]; exact pairs_idxOK hI hJ)]
    clear h1 h2 h3 h4 h5 hsh hDne hDn hD hn
    induction hI generalizing J with
    | nil => cases hJ; simp
    | @cons i d I D hi hI ih =>
      cases hJ with
      | @cons j _ J _ hj hJ =>
        simp only [List.map_cons, pairs, List.zipWith_cons_cons, List.prod_cons, List.cons.injEq]
        rw [ih J hJ]
        by_cases h : i = j <;> by_cases h' : I = J <;> simp [NDArray.eye, h, h']

theorem C49_eye_length [Zero R] [One R] (n : ℕ) (ds : List ℕ) (h : ds.length ≠ n) :
    factoryEye (R := R) n (.each ds) = .error .assertion := by
  unfold factoryEye
  simp only
  rw [pyAssert_false h]
  rfl

/-! ### diagonal -/

theorem diag_mid_mp [CommSemiring R] (d : ℕ) (m : ℕ) (right : NDArray R) (v : ℕ → R)
    (hr : right.rb = 1) (hg : ∀ a i, a < d → i < d → right.at3 a [i] 0 = if a = i then v i else 0) :
    ∀ (I : List ℕ) (a : ℕ), a < d → InB I (List.replicate (m + 1) d) →
      mp (List.replicate m (NDArray.diag3 d) ++ [right]) (singles I) a 0 = if ∀ i ∈ I, i = a then v a else 0 := by
  induction m with
  | zero =>
    intro I a ha hI
    cases hI with
    | @cons i _ I _ hi hI =>
      cases hI
      simp [mp, hr, hg a i ha hi]
      by_cases h : a = i
      · simp [h]
      · simp [h, Ne.symm h]
  | succ m ih =>
    intro I a ha hI
    rw [List.replicate_succ] at hI
    cases hI with
    | @cons i _ I _ hi hI =>
      simp only [List.replicate_succ, List.cons_append, singles, List.map_cons, mp]
      have hrb : (NDArray.diag3 (R := R) d).rb = d := rfl
      rw [hrb]
      have hat : ∀ c, (NDArray.diag3 (R := R) d).at3 a [i] c = if a = i ∧ i = c then 1 else 0 := by
        intro c; simp [NDArray.at3, NDArray.diag3]
      rw [Finset.sum_congr rfl fun c hc => by
        rw [hat c, show List.map (fun i => [i]) I = singles I from rfl, ih I c (Finset.mem_range.1 hc) hI]]
      by_cases h : a = i
      · subst h
        rw [Finset.sum_eq_single a]
        · simp
        · intro c _ hc; simp [Ne.symm hc]
        · intro h; exact absurd (Finset.mem_range.2 ha) h
      · have : ¬ i = a := fun h' => h h'.symm
        simp [h, this]

/-- `diagonal_mpa(entries, sites)` has the given entries on the diagonal and zeros elsewhere, rank
`len(entries)`, and its claim to be left-canonical is true. -/
theorem C49_diagonal [CommRing R] [StarRing R] (qr : QR R) (entries : NDArray R) (d : ℕ) (he : entries.shape = [d])
    (n : ℕ) (hn : 0 < n) :
    ∃ x, diagonalMpa qr entries n = .ok x ∧ x.Valid ∧ x.CanonOK ∧ x.l = n - 1 ∧ x.r = n ∧
      x.shape = List.replicate n [d] ∧ x.ranks = List.replicate (n - 1) d ∧
      ∀ I, InB I (List.replicate n d) →
        x.val (singles I) = if ∀ i ∈ I, i = I.headD 0 then entries.get [I.headD 0] else 0 := by
  have hnd : entries.ndim = 1 := by simp [NDArray.ndim, he]
  obtain ⟨m, rfl⟩ : ∃ m, n = m + 1 := ⟨n - 1, by omega⟩
  cases m with
  | zero =>
    have hs : entries.addBonds.shape = 1 :: ([d] ++ [1]) := by simp [NDArray.addBonds, he]
    have hch : Chained 1 [entries.addBonds] 1 :=
      ⟨NDArray.isLocal_of_shape hs, NDArray.lb_of_shape hs, NDArray.rb_of_shape hs⟩
    refine ⟨⟨[entries.addBonds], 0, 1⟩, ?_, valid_mk (by simp) hch, canonOK_mk _, by simp, by simp, ?_, ?_, ?_⟩
    · unfold diagonalMpa
      rw [pyAssert_true (by simp), ok_bind, hnd, show pyGuard (1 = 1) PyErr.notImplemented = .ok () from rfl, ok_bind,
        if_pos (by simp)]
      unfold fromArray extractFactorsArg
      simp only [Option.getD_none, hnd, Bool.false_eq_true, if_false]
      have : entries.addBonds.ndim = 1 + 2 := by simp [NDArray.ndim, hs]
      rw [this, List.replicate_succ, extractFactors, if_pos this, ok_bind]
      exact mkLT_ok (by simp) hch (by simp) (by simp) (by simp) (by simp)
    · simp [MPA.shape, NDArray.ph_of_shape hs]
    · simp [MPA.ranks]
    · intro I hI
      cases hI with
      | @cons i _ I _ hi hI =>
        cases hI
        simp [MPA.val, entry, mp, NDArray.rb_of_shape hs]
        simp [NDArray.at3, NDArray.addBonds]
  | succ m =>
    have hL : (NDArray.eye (R := R) d).reshape [1, (d : ℤ), (d : ℤ)] = .ok ((NDArray.eye d).reshapeTo [1, d, d]) :=
      NDArray.reshape_nat (s := [1, d, d]) (by simp [NDArray.eye])
    have hR : entries.diag.reshape [(d : ℤ), (d : ℤ), 1] = .ok (entries.diag.reshapeTo [d, d, 1]) :=
      NDArray.reshape_nat (s := [d, d, 1]) (by simp [NDArray.diag, NDArray.size, he])
    set left := (NDArray.eye (R := R) d).reshapeTo [1, d, d] with hleft
    set right := entries.diag.reshapeTo [d, d, 1] with hright
    have hds : entries.diag.shape = [d, d] := by simp [NDArray.diag, NDArray.size, he]
    have hlat : ∀ i b, i < d → b < d → left.at3 0 [i] b = if i = b then 1 else 0 := by
      intro i b hi hb
      have h1 : ravelIdx [1, d, d] [0, i, b] = ravelIdx [d, d] [i, b] := by simp [ravelIdx]
      show (NDArray.eye (R := R) d).get (unravelIdx (NDArray.eye (R := R) d).shape (ravelIdx [1, d, d] [0, i, b])) = _
      rw [h1, show (NDArray.eye d : NDArray R).shape = [d, d] from rfl, unravel_ravel (by simp [InB, hi, hb])]
      simp [NDArray.eye]
    have hrat : ∀ a i, a < d → i < d → right.at3 a [i] 0 = if a = i then entries.get [i] else 0 := by
      intro a i ha hi
      have h1 : ravelIdx [d, d, 1] [a, i, 0] = ravelIdx [d, d] [a, i] := by simp [ravelIdx]
      show entries.diag.get (unravelIdx entries.diag.shape (ravelIdx [d, d, 1] [a, i, 0])) = _
      rw [h1, hds, unravel_ravel (by simp [InB, ha, hi])]
      simp only [NDArray.diag, List.getD_cons_zero, List.getD_cons_succ]
      split_ifs with h
      · rw [h]
      · rfl
    have hls : left.shape = 1 :: ([d] ++ [d]) := rfl
    have hrs : right.shape = d :: ([d] ++ [1]) := rfl
    have hms : (NDArray.diag3 (R := R) d).shape = d :: ([d] ++ [d]) := rfl
    have hmid : ∀ m, Chained d (List.replicate m (NDArray.diag3 (R := R) d) ++ [right]) 1 := by
      intro m
      induction m with
      | zero => exact ⟨NDArray.isLocal_of_shape hrs, NDArray.lb_of_shape hrs, NDArray.rb_of_shape hrs⟩
      | succ m ih => exact ⟨NDArray.isLocal_of_shape hms, NDArray.lb_of_shape hms, ih⟩
    set ts := left :: (List.replicate m (NDArray.diag3 (R := R) d) ++ [right]) with hts
    have hch : Chained 1 ts 1 := ⟨NDArray.isLocal_of_shape hls, NDArray.lb_of_shape hls, hmid m⟩
    have htl : ts.length = m + 2 := by simp [hts]
    refine ⟨⟨ts, ((m + 1 : ℕ) : ℤ), ((m + 2 : ℕ) : ℤ)⟩, ?_, ⟨by simp [hts], hch, by show (0 : ℤ) ≤ ((m + 1 : ℕ) : ℤ); omega, by push_cast; omega, by
      show _ ≤ ((ts.length : ℕ) : ℤ); rw [htl]⟩, ?_, by push_cast; ring, by push_cast; ring, ?_, ?_, ?_⟩
    · unfold diagonalMpa
      rw [pyAssert_true (by positivity), ok_bind, hnd, show pyGuard (1 = 1) PyErr.notImplemented = .ok () from rfl,
        ok_bind, if_neg (by push_cast; omega)]
      simp only [he, List.headD_cons]
      rw [hL, ok_bind, hR, ok_bind]
      rw [show ((((m + 1 + 1 : ℕ) : ℤ) - 2).toNat) = m by omega]
      have := mkLT_ok (ts := ts) (by simp [hts]) hch (cl := ((m + 1 + 1 : ℕ) : ℤ) - 1) (cr := ((m + 1 + 1 : ℕ) : ℤ))
        (by omega) (by rw [htl]; omega) (by omega) (by rw [htl])
      rw [this]
      simp only [Except.ok.injEq, MPA.mk.injEq, true_and]
      push_cast
      exact ⟨by ring, trivial⟩
    · intro k t hk
      have hkl : k < m + 2 := by rw [← htl]; exact (List.getElem?_eq_some_iff.1 hk).1
      refine ⟨fun h => ?_, fun h => ?_⟩
      · have hk' : k < m + 1 := by simpa using h
        cases k with
        | zero =>
          have : t = left := by simpa [hts] using hk.symm
          subst this
          intro b hb b' hb'
          rw [NDArray.rb_of_shape hls] at hb hb'
          rw [NDArray.lb_of_shape hls, NDArray.ph_of_shape hls]
          simp only [range_one, sum_singleton, sumIdx]
          rw [Finset.sum_congr rfl fun i hi => by
            rw [hlat i b (Finset.mem_range.1 hi) hb, hlat i b' (Finset.mem_range.1 hi) hb']]
          by_cases hbb : b = b'
          · subst hbb; simp [hb]
          · rw [if_neg hbb]
            refine Finset.sum_eq_zero fun i _ => ?_
            by_cases hi : i = b
            · subst hi; simp [hbb]
            · simp [hi]
        | succ k =>
          have : t = NDArray.diag3 d := by
            rw [hts, List.getElem?_cons_succ, List.getElem?_append_left (by simp; omega),
              List.getElem?_replicate] at hk
            rw [if_pos (by omega)] at hk
            exact (Option.some.inj hk).symm
          subst this
          intro b hb b' hb'
          rw [NDArray.rb_of_shape hms] at hb hb'
          rw [NDArray.lb_of_shape hms, NDArray.ph_of_shape hms]
          have hat : ∀ a i c, (NDArray.diag3 (R := R) d).at3 a [i] c = if a = i ∧ i = c then 1 else 0 := by
            intro a i c; simp [NDArray.at3, NDArray.diag3]
          simp only [sumIdx, hat]
          by_cases hbb : b = b'
          · subst hbb
            rw [if_pos rfl, Finset.sum_eq_single b]
            · rw [Finset.sum_eq_single b] <;> simp +contextual [hb]
            · intro a _ ha
              refine Finset.sum_eq_zero fun i _ => ?_
              by_cases h1 : a = i ∧ i = b
              · exact absurd (h1.1.trans h1.2) ha
              · simp [h1]
            · intro h; exact absurd (Finset.mem_range.2 hb) h
          · rw [if_neg hbb]
            refine Finset.sum_eq_zero fun a _ => Finset.sum_eq_zero fun i _ => ?_
            by_cases h1 : a = i ∧ i = b
            · have : ¬ (a = i ∧ i = b') := fun h2 => hbb (h1.2.symm.trans h2.2)
              simp [this]
            · simp [h1]
      · exfalso
        have : ((m + 2 : ℕ) : ℤ) ≤ (k : ℤ) := h
        omega
    · simp [MPA.shape, hts, NDArray.ph_of_shape hls, NDArray.ph_of_shape hrs, NDArray.ph_of_shape hms,
        List.replicate_succ]
      rw [← List.replicate_succ', List.replicate_succ]
    · simp [MPA.ranks, hts, NDArray.lb_of_shape hrs, NDArray.lb_of_shape hms]
      rw [← List.replicate_succ']
    · intro I hI
      rw [List.replicate_succ] at hI
      cases hI with
      | @cons i _ I _ hi hI =>
        simp only [MPA.val, entry, hts, singles, List.map_cons, mp, NDArray.rb_of_shape hls, List.headD_cons]
        rw [Finset.sum_congr rfl fun c hc => by
          rw [hlat i c hi (Finset.mem_range.1 hc), show List.map (fun i => [i]) I = singles I from rfl,
            diag_mid_mp d m right (fun i => entries.get [i]) (NDArray.rb_of_shape hrs) hrat I c
              (Finset.mem_range.1 hc) hI]]
        rw [Finset.sum_eq_single i]
        · simp
        · intro c _ hc; simp [Ne.symm hc]
        · intro h; exact absurd (Finset.mem_range.2 hi) h

theorem C49_diagonal_legs [Zero R] [One R] (qr : QR R) (entries : NDArray R) (n : ℤ) :
    (n ≤ 0 → diagonalMpa qr entries n = .error .assertion) ∧
    (0 < n → entries.ndim ≠ 1 → diagonalMpa qr entries n = .error .notImplemented) := by
  refine ⟨fun h => ?_, fun h h' => ?_⟩
  · unfold diagonalMpa; rw [pyAssert_false (by omega)]; rfl
  · unfold diagonalMpa; rw [pyAssert_true h, ok_bind, pyGuard, if_neg h']; rfl

/-- Three sites, entries 5, 7: the concrete case of the theorems above. -/
example : ∃ x : MPA ℤ, diagonalMpa (fun a => (a, a)) ⟨[2], fun i => if i = [0] then 5 else 7⟩ 3 = .ok x ∧
    x.ranks = [2, 2] ∧ x.val [[1], [1], [1]] = 7 ∧ x.val [[1], [0], [1]] = 0 := by
  obtain ⟨x, h1, _, _, _, _, _, h3, h4⟩ := C49_diagonal (R := ℤ) (fun a => (a, a)) ⟨[2], fun i => if i = [0] then 5 else 7⟩
    2 rfl 3 (by norm_num)
  refine ⟨x, h1, h3, ?_, ?_⟩
  · have := h4 [1, 1, 1] (by simp [InB])
    simpa using this
  · have := h4 [1, 0, 1] (by simp [InB])
    simpa using this

example : wantedRanks ((LdimArg.scalar 2).legs 4) (.scalar 3) false = [2, 3, 2] := by decide

end Mpnum
