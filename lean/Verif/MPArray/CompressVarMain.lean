import Verif.MPArray.CompressVarRun
import Verif.Props.C15
import Verif.Props.C27
import Verif.Props.C49Random

/-!
# The result of variational compression
-/

open Finset

namespace Mpnum

/-- The position of every site, flattened. -/
def flatSites (S idx : List (List ℕ)) : List (List ℕ) := List.zipWith (fun s i => [ravelIdx s i]) S idx

theorem sumSites_flat {M : Type} [AddCommMonoid M] (S : List (List ℕ)) (G : List (List ℕ) → M) :
    (sumSites S fun i => G (flatSites S i)) = sumIdx (S.map List.prod) fun I => G (singles I) := by
  induction S generalizing G with
  | nil => rfl
  | cons s S ih =>
    rw [sumSites_cons, List.map_cons, sumIdx_cons]
    have := fun n => ih fun is => G ([n] :: is)
    simp only [flatSites, List.zipWith_cons_cons] at this ⊢
    rw [sumIdx_ravel s fun n => sumSites S fun is => G ([n] :: List.zipWith (fun s i => [ravelIdx s i]) S is)]
    exact sum_congr rfl fun n _ => this n

theorem flatSites_ok {S idx : List (List ℕ)} (hi : IdxOK idx S) : ∃ I, flatSites S idx = singles I ∧
    InB I (S.map List.prod) ∧ SameRowMajor (singles (S.map List.prod)) S (flatSites S idx) idx := by
  induction hi with
  | nil => exact ⟨[], rfl, List.Forall₂.nil, rfl⟩
  | @cons a b as bs h _ ih =>
    obtain ⟨I, h1, h2, h3⟩ := ih
    refine ⟨ravelIdx b a :: I, ?_, List.Forall₂.cons (ravelIdx_lt h) h2, ?_⟩
    · simp only [flatSites, List.zipWith_cons_cons, singles, List.map_cons] at h1 ⊢
      rw [h1]
    · simp only [SameRowMajor, flatSites, List.zipWith_cons_cons, singles, List.map_cons] at h3 ⊢
      rw [h3]; simp

/-- `ravel` of a good MPA. -/
theorem ravel_good {x : MPA ℂ} (hx : x.Good) : ∃ y, x.ravel = .ok y ∧ y.Good ∧ y.shape = singles (x.shape.map List.prod) ∧
    y.ranks = x.ranks ∧ ∀ idx, IdxOK idx x.shape → y.val (flatSites x.shape idx) = x.val idx := by
  have hp := ranks_pos_of_good hx
  obtain ⟨y, h1, h2, h3, h4, h5, h6, h7, h8⟩ := C15_ravel x hx.valid hp
  refine ⟨y, h1, ⟨h2, h8 hx.canon, allPos_of h2 ?_ (by rw [h4]; exact hp)⟩, by rw [h3, singles, List.map_map]; rfl, h4, h7⟩
  rw [h3]
  intro s hs d hd
  obtain ⟨s', hs', rfl⟩ := List.mem_map.1 hs
  rw [List.mem_singleton.1 hd]
  refine list_prod_pos fun e he => ?_
  obtain ⟨t, ht, rfl⟩ := List.mem_map.1 (show s' ∈ x.lt.map NDArray.ph from hs')
  exact hx.pos t ht e (List.mem_of_mem_tail (List.mem_of_mem_dropLast he))

/-- Undoing `ravel`. -/
theorem unravel_good {z : MPA ℂ} (hz : z.Good) {S : List (List ℕ)} (hS : ∀ s ∈ S, ∀ d ∈ s, 0 < d)
    (hzs : z.shape = singles (S.map List.prod)) :
    ∃ y, z.reshape (.list (S.map fun s => s.map fun d : ℕ => (d : ℤ))) = .ok y ∧ y.Good ∧ y.shape = S ∧
      y.ranks = z.ranks ∧ ∀ idx, IdxOK idx S → y.val idx = z.val (flatSites S idx) := by
  have hp := ranks_pos_of_good hz
  obtain ⟨y, h1, h2, h3, h4, h5, h6, h7, h8⟩ := C15_reshape z hz.valid
    (S.map fun s => (s.map fun d : ℕ => (d : ℤ), s)) (by
      rw [hzs, singles, List.map_map, List.forall₂_map_left_iff, List.forall₂_map_right_iff, List.forall₂_same]
      exact fun s _ => ⟨by simp, Or.inl rfl⟩) (Or.inr hp)
  rw [List.map_map] at h1 h3
  have h3' : y.shape = S := by rw [h3]; simp [Function.comp_def]
  refine ⟨y, h1, ⟨h2, h8 hz.canon, allPos_of h2 (by rw [h3']; exact hS) (by rw [h4]; exact hp)⟩, h3', h4, ?_⟩
  intro idx hi
  obtain ⟨I, i1, i2, i3⟩ := flatSites_ok hi
  refine h7 _ idx ?_ (by rw [h3']; exact hi) ?_
  · rw [hzs, i1]; exact idxOK_singles i2
  · rw [hzs, h3']; exact i3

/-- The arguments `startmpa` and `rank` fit to `x` and determine the rank `r`. -/
def StartOK (x : MPA ℂ) (startmpa : Option (MPA ℂ)) (rank : Option ℕ) (r : ℕ) : Prop :=
  (∃ s, startmpa = some s ∧ s.Good ∧ s.shape = x.shape ∧ s.maxRank = .ok r) ∨
    (startmpa = none ∧ rank = some r ∧ 0 < r)

/-- The vector with which the sweeps start. -/
noncomputable def varStart (qr : QR ℂ) (x : MPA ℂ) (startmpa : Option (MPA ℂ)) (r : ℕ) (cplx : Bool) (rs : RandState) :
    Py (MPA ℂ) :=
  match startmpa with
  | some s => .ok s
  | none => (randomMpa qr x.len (.nested x.shape) (.scalar r) false false cplx rs).map Prod.fst

theorem maxRank_le {s : MPA ℂ} {r : ℕ} (h : ∀ q ∈ s.ranks, q ≤ r) {m : ℕ} (hm : s.maxRank = .ok m) : m ≤ r := by
  unfold MPA.maxRank at hm
  cases hr : s.ranks with
  | nil => rw [hr] at hm; cases hm
  | cons d ds =>
    rw [hr] at hm h
    cases hm
    have : ∀ (ds : List ℕ) (d : ℕ), d ≤ r → (∀ q ∈ ds, q ≤ r) → ds.foldl max d ≤ r := by
      intro ds
      induction ds with
      | nil => intro d h _; exact h
      | cons e es ih =>
        intro d h1 h2
        exact ih _ (max_le h1 (h2 e (by simp))) fun q hq => h2 q (by simp [hq])
    exact this ds d (h d (by simp)) fun q hq => h q (by simp [hq])

theorem good_shape_pos {x : MPA ℂ} (hx : x.Good) : ∀ s ∈ x.shape, ∀ d ∈ s, 0 < d := by
  intro s hs d hd
  obtain ⟨t, ht, rfl⟩ := List.mem_map.1 (show s ∈ x.lt.map NDArray.ph from hs)
  exact hx.pos t ht d (List.mem_of_mem_tail (List.mem_of_mem_dropLast hd))

theorem varStart_ok {qr : QR ℂ} {x : MPA ℂ} (hx : x.Good) {startmpa : Option (MPA ℂ)} {rank : Option ℕ} {r : ℕ}
    (hs : StartOK x startmpa rank r) (cplx : Bool) (rs : RandState) :
    ∃ s, varStart qr x startmpa r cplx rs = .ok s ∧ s.Good ∧ s.shape = x.shape ∧ ∀ q ∈ s.ranks, q ≤ r := by
  rcases hs with ⟨s, rfl, h1, h2, h3⟩ | ⟨rfl, -, h2⟩
  · refine ⟨s, rfl, h1, h2, ?_⟩
    intro q hq
    unfold MPA.maxRank at h3
    cases hr : s.ranks with
    | nil => rw [hr] at hq; simp at hq
    | cons d ds =>
      rw [hr] at h3 hq
      cases h3
      obtain ⟨a, b⟩ := le_foldl_max ds d
      rcases List.mem_cons.1 hq with rfl | hq
      · exact a
      · exact b q hq
  · obtain ⟨s, s', h3, h4, -⟩ := randomMpa_ok qr (n := x.len) (List.length_pos_of_ne_nil hx.valid.ne)
      (ldim := .nested x.shape) (by simp [LdimArg.Fits, MPA.shape, MPA.len]) (rank := .scalar r) trivial false cplx rs
    refine ⟨s, by simp only [varStart, h3]; rfl, h4.good ⟨good_shape_pos hx, fun c _ => h2⟩, h4.shape, ?_⟩
    rw [h4.ranks]
    intro q hq
    obtain ⟨c, -, rfl⟩ := List.mem_map.1 hq
    simp [RankArg.at]

/-- The result of variational compression with `m` sweeps. -/
structure VarOut (x s : MPA ℂ) (m : ℕ) (y : MPA ℂ) (o : ℝ) : Prop where
  good : y.Good
  shape : y.shape = x.shape
  rank : ∀ M, s.maxRank = .ok M → ∀ q ∈ y.ranks, q ≤ M
  norm : (sumSites x.shape fun i => star (y.val i) * y.val i) = (o : ℂ)
  overlap : m ≠ 0 → (sumSites x.shape fun i => star (x.val i) * y.val i) = (o : ℂ)
  zero : m = 0 → ∀ i, IdxOK i x.shape → y.val i = s.val i

theorem maxRank_of_ranks {x y : MPA ℂ} (h : y.ranks = x.ranks) : y.maxRank = x.maxRank := by
  unfold MPA.maxRank; rw [h]

/-- The squared error `‖x - y‖²`. -/
noncomputable def sqErr (x y : MPA ℂ) : ℝ := sumSites x.shape fun i => ‖x.val i - y.val i‖ ^ 2

theorem compressionVar_red {qr : QR ℂ} {svd : SVD ℂ} {x : MPA ℂ}
    (hlen : x.len ≠ 1) {startmpa : Option (MPA ℂ)} {rank : Option ℕ} {r : ℕ} (hs : StartOK x startmpa rank r)
    {R : ℕ} (hR : x.maxRank = .ok R) (hr : r ≤ R) {k : ℕ} (m : ℕ) (cplx : Bool)
    (rs : RandState) {s : MPA ℂ} (hst : varStart qr x startmpa r cplx rs = .ok s) {xr sr : MPA ℂ} (x1 : x.ravel = .ok xr)
    (s1 : s.ravel = .ok sr) : x.compressionVar qr svd m startmpa rank k cplx rs = (do
      let (compr, overlap) ← sr.adaptTo qr svd xr m k
      let compr ← compr.reshape (.list (x.shape.map fun s => s.map fun d : ℕ => (d : ℤ)))
      return (compr, overlap)) := by
  unfold MPA.compressionVar
  rw [if_neg hlen]
  rcases hs with ⟨s', rfl, h1, h2, h3⟩ | ⟨rfl, rfl, h2⟩
  · obtain rfl : s' = s := by simpa [varStart] using hst
    simp only [h3, hR, ok_bind]
    rw [if_neg (by omega), h1.valid.copy_ok, ok_bind, pyAssert, if_pos (by
      intro p hp
      rw [h2] at hp
      obtain ⟨a, _, rfl⟩ : ∃ a ∈ x.shape, (a, a) = p := by
        rw [List.zip_eq_zipWith, List.zipWith_self] at hp
        simpa using hp
      rfl)]
    simp only [ok_bind, pure_bind, s1, x1]
  · simp only [hR, ok_bind]
    rw [if_neg (by omega)]
    cases hrm : randomMpa qr x.len (.nested x.shape) (.scalar r) false false cplx rs with
    | error e => simp [varStart, hrm, Except.map] at hst
    | ok z =>
      have : z.1 = s := by simpa [varStart, hrm, Except.map] using hst
      obtain ⟨z1, z2⟩ := z
      cases this
      simp only [ok_bind, pure_bind, s1, x1]

theorem compressionVar_ok {qr : QR ℂ} {svd : SVD ℂ} (hqr : QRSpec qr) (hsvd : SVDSpec svd) {x : MPA ℂ} (hx : x.Good)
    (hlen : x.len ≠ 1) {startmpa : Option (MPA ℂ)} {rank : Option ℕ} {r : ℕ} (hs : StartOK x startmpa rank r)
    {R : ℕ} (hR : x.maxRank = .ok R) (hr : r ≤ R) {k : ℕ} (hk : 0 < k) (hkn : k ≤ x.len) (m : ℕ) (cplx : Bool)
    (rs : RandState) {s : MPA ℂ} (hst : varStart qr x startmpa r cplx rs = .ok s) :
    ∃ y o, x.compressionVar qr svd m startmpa rank k cplx rs = .ok (y, o) ∧ VarOut x s m y o ∧
      ∃ y' o', x.compressionVar qr svd (m + 1) startmpa rank k cplx rs = .ok (y', o') ∧
        (k ≤ 2 → sqErr x y' ≤ sqErr x y) := by
  obtain ⟨s', hst', sg, ss, -⟩ := varStart_ok (qr := qr) hx hs cplx rs
  rw [hst] at hst'; cases hst'
  obtain ⟨xr, x1, x2, x3, x4, x5⟩ := ravel_good hx
  obtain ⟨sr, s1, s2, s3, s4, s5⟩ := ravel_good sg
  rw [ss] at s3 s5
  set D := x.shape.map List.prod with hD
  have hDl : D.length = x.len := by simp [hD, MPA.shape, MPA.len]
  have hred : ∀ m, x.compressionVar qr svd m startmpa rank k cplx rs = (do
      let (compr, overlap) ← sr.adaptTo qr svd xr m k
      let compr ← compr.reshape (.list (x.shape.map fun s => s.map fun d : ℕ => (d : ℤ)))
      return (compr, overlap)) := by
    intro m
    exact compressionVar_red hlen hs hR hr m cplx rs hst x1 s1
  obtain ⟨y, o, y1, y2, y', o', y1', y3, -⟩ := MPA.adaptTo_ok hqr hsvd x2 x3 s2 s3 hk (by rw [hDl]; exact hkn)
    (by rw [hDl]; exact hlen) m
  obtain ⟨y0, o0, y1'', y2', -⟩ := MPA.adaptTo_ok hqr hsvd x2 x3 s2 s3 hk (by rw [hDl]; exact hkn)
    (by rw [hDl]; exact hlen) (m + 1)
  rw [y1'] at y1''; cases y1''
  have hpos := good_shape_pos hx
  obtain ⟨z, z1, z2, z3, z4, z5⟩ := unravel_good y2.good hpos y2.shape
  obtain ⟨z', z1', z2', z3', z4', z5'⟩ := unravel_good y2'.good hpos y2'.shape
  have e1 : (sumSites x.shape fun i => star (z.val i) * z.val i) = (o : ℂ) := by
    rw [← y2.norm, ← sumSites_flat x.shape fun i => star (y.val i) * y.val i]
    exact sumSites_congr fun i hi => by rw [z5 i hi]
  refine ⟨z, o, by rw [hred, y1, ok_bind]; simp only [z1, ok_bind]; rfl, ⟨z2, z3, ?_, e1, ?_, ?_⟩, z', o',
    by rw [hred, y1', ok_bind]; simp only [z1', ok_bind]; rfl, ?_⟩
  · intro M hM q hq
    rw [z4] at hq
    exact y2.rank M (by rw [maxRank_of_ranks s4, hM]) q hq
  · intro hm
    have := y2.overlap hm
    rw [y2.norm, ← sumSites_flat x.shape fun i => star (xr.val i) * y.val i] at this
    rw [← this]
    exact sumSites_congr fun i hi => by rw [z5 i hi, x5 i hi]
  · rintro rfl i hi
    obtain ⟨I, hI, hI', -⟩ := flatSites_ok hi
    rw [z5 i hi, hI, y2.zero rfl I hI', ← hI, s5 i hi]
  · intro hk1
    have := y3 hk1
    rw [← sumSites_flat x.shape fun i => ‖xr.val i - y'.val i‖ ^ 2, ← sumSites_flat x.shape fun i => ‖xr.val i - y.val i‖ ^ 2]
      at this
    unfold sqErr
    rw [sumSites_congr (g := fun i => ‖xr.val (flatSites x.shape i) - y'.val (flatSites x.shape i)‖ ^ 2)
        fun i hi => by rw [z5' i hi, x5 i hi],
      sumSites_congr (f := fun i => ‖x.val i - z.val i‖ ^ 2)
        (g := fun i => ‖xr.val (flatSites x.shape i) - y.val (flatSites x.shape i)‖ ^ 2)
        fun i hi => by rw [z5 i hi, x5 i hi]]
    exact this

end Mpnum
