import Verif.Props.C49
import Verif.Props.C09
import Verif.Props.C06
import Verif.Props.C20
import Verif.Props.C07
import Verif.Props.C42
import Verif.MPArray.CutLemmas

/-!
# C49 — random objects of /repo/mpnum/factory.py

All statements hold for every state of the random generator, i.e. for all values that `randn` and
`rand` may return.
-/

open Finset

namespace Mpnum

/-! ### computations with a random generator -/

theorem rng_bind_ok {α β : Type} {m : Rng α} {f : α → Rng β} {s s' : RandState} {a : α} (h : m s = .ok (a, s')) :
    (m >>= f) s = f a s' := by
  show (m s >>= fun p => f p.1 p.2) = _
  rw [h]; rfl

theorem rng_lift_ok {α : Type} {x : Py α} {s : RandState} {a : α} (h : x = .ok a) :
    (liftM x : Rng α) s = .ok (a, s) := by
  subst h; rfl

theorem rng_bind_inv {α β : Type} {m : Rng α} {f : α → Rng β} {s : RandState} {r : β × RandState}
    (h : (m >>= f) s = .ok r) : ∃ a s', m s = .ok (a, s') ∧ f a s' = .ok r := by
  have h' : (m s >>= fun p => f p.1 p.2) = .ok r := h
  cases hm : m s with
  | error e => rw [hm] at h'; cases h'
  | ok p => rw [hm] at h'; exact ⟨p.1, p.2, rfl, h'⟩

theorem rng_lift_inv {α : Type} {x : Py α} {s : RandState} {r : α × RandState}
    (h : (liftM x : Rng α) s = .ok r) : x = .ok r.1 ∧ r.2 = s := by
  cases x with
  | error e => cases h
  | ok a =>
    have h' : (Except.ok (a, s) : Py (α × RandState)) = .ok r := h
    cases h'
    exact ⟨rfl, rfl⟩

theorem randn_ok (shape : List ℕ) (s : RandState) : ∃ a s', randn shape s = .ok (a, s') ∧ a.shape = shape ∧
    s'.uniform = s.uniform ∧ ∀ i, ∃ x : ℝ, a.get i = (x : ℂ) :=
  ⟨_, _, rfl, rfl, rfl, fun i => ⟨_, rfl⟩⟩

theorem zrandn_ok (shape : List ℕ) (s : RandState) : ∃ a s', zrandn shape s = .ok (a, s') ∧ a.shape = shape ∧
    s'.uniform = s.uniform :=
  ⟨_, _, rfl, rfl, rfl⟩

theorem randfun_ok (c : Bool) (shape : List ℕ) (s : RandState) : ∃ a s', randfun c shape s = .ok (a, s') ∧
    a.shape = shape ∧ s'.uniform = s.uniform ∧ (c = false → ∀ i, ∃ x : ℝ, a.get i = (x : ℂ)) := by
  cases c with
  | true =>
    obtain ⟨a, s', h1, h2, h3⟩ := zrandn_ok shape s
    exact ⟨a, s', h1, h2, h3, by simp⟩
  | false =>
    obtain ⟨a, s', h1, h2, h3, h4⟩ := randn_ok shape s
    exact ⟨a, s', h1, h2, h3, fun _ => h4⟩

theorem draw_ok (c : Bool) : ∀ (shapes : List (List ℕ)) (s : RandState),
    ∃ ts s', shapes.mapM (randfun c) s = .ok (ts, s') ∧ ts.map NDArray.shape = shapes ∧ s'.uniform = s.uniform ∧
      (c = false → ∀ t ∈ ts, ∀ i, ∃ x : ℝ, t.get i = (x : ℂ))
  | [], s => ⟨[], s, rfl, rfl, rfl, by simp⟩
  | sh :: shapes, s => by
    obtain ⟨a, s1, h1, h2, h3, h4⟩ := randfun_ok c sh s
    obtain ⟨ts, s2, g1, g2, g3, g4⟩ := draw_ok c shapes s1
    refine ⟨a :: ts, s2, ?_, by simp [h2, g2], by rw [g3, h3], ?_⟩
    · rw [List.mapM_cons, rng_bind_ok h1, rng_bind_ok g1]; rfl
    · intro hc t ht
      rcases List.mem_cons.1 ht with rfl | ht
      · exact h4 hc
      · exact g4 hc t ht

/-! ### random_mpa -/

/-- The object has the wanted shape and ranks and claims no canonical form. -/
structure HasShape (S : List (List ℕ)) (rank : RankArg) (force : Bool) (x : MPA ℂ) : Prop where
  valid : x.Valid
  shape : x.shape = S
  ranks : x.ranks = wantedRanks S rank force
  form : x.l = 0 ∧ x.r = x.len

theorem randomMpa_ok (qr : QR ℂ) {n : ℕ} (hn : 0 < n) {ldim : LdimArg} (hl : ldim.Fits n) {rank : RankArg}
    (hr : rank.Fits n) (force c : Bool) (s : RandState) :
    ∃ x s', randomMpa qr n ldim rank false force c s = .ok (x, s') ∧ HasShape (ldim.legs n) rank force x ∧
      s'.uniform = s.uniform ∧ (c = false → ∀ t ∈ x.lt, ∀ i, ∃ v : ℝ, t.get i = (v : ℂ)) ∧
      randomMpa qr n ldim rank true force c s = (divByNorm qr x).map fun z => (z, s') := by
  obtain ⟨shapes, h1, h2⟩ := generateShapes_ok (R := ℂ) hn hl hr force
  obtain ⟨ts, s', g1, g2, g3, g4⟩ := draw_ok c shapes s
  obtain ⟨k1, k2, k3, k4⟩ := h2 ts g2
  have hne : ts ≠ [] := by rintro rfl; simp at k3; omega
  have hrun : ∀ nm, randomMpa qr n ldim rank nm force c s
      = (liftM (if nm then divByNorm qr ⟨ts, 0, ts.length⟩ else .ok ⟨ts, 0, ts.length⟩ : Py (MPA ℂ)) : Rng (MPA ℂ)) s' := by
    intro nm
    unfold randomMpa
    rw [rng_bind_ok (rng_lift_ok h1)]
    unfold drawMpa
    rw [rng_bind_ok g1, rng_bind_ok (rng_lift_ok (mkMPA_ok hne k1))]
  refine ⟨⟨ts, 0, ts.length⟩, s', ?_, ⟨valid_mk hne k1, k2, k4, rfl, rfl⟩, g3, g4, ?_⟩
  · rw [hrun false]; rfl
  · rw [hrun true]
    simp only [if_true]
    cases divByNorm qr ⟨ts, 0, ts.length⟩ <;> rfl

theorem mp_real {ts : List (NDArray ℂ)} (h : ∀ t ∈ ts, ∀ i, ∃ v : ℝ, t.get i = (v : ℂ)) :
    ∀ (idx : List (List ℕ)) (a b : ℕ), ∃ v : ℝ, mp ts idx a b = (v : ℂ) := by
  induction ts with
  | nil => intro idx a b; exact ⟨if a = b then 1 else 0, by simp; split_ifs <;> simp⟩
  | cons t ts ih =>
    intro idx a b
    cases idx with
    | nil => exact ⟨if a = b then 1 else 0, by simp [mp]; split_ifs <;> simp⟩
    | cons i idx =>
      have h1 : ∀ i, ∃ v : ℝ, t.get i = (v : ℂ) := h t (by simp)
      choose f hf using h1
      choose g hg using ih (fun t ht => h t (by simp [ht]))
      refine ⟨∑ c ∈ range t.rb, f (a :: (i ++ [c])) * g idx c b, ?_⟩
      simp only [mp, NDArray.at3, hf, hg]
      push_cast
      rfl

/-- `random_mpa` without normalisation always succeeds and has the wanted shape and ranks; with
`dtype=np.float_` all entries are real. -/
theorem C49_random_mpa (qr : QR ℂ) (n : ℕ) (hn : 0 < n) (ldim : LdimArg) (hl : ldim.Fits n) (rank : RankArg)
    (hr : rank.Fits n) (force isComplex : Bool) (s : RandState) :
    ∃ x s', randomMpa qr n ldim rank false force isComplex s = .ok (x, s') ∧ HasShape (ldim.legs n) rank force x ∧
      (isComplex = false → ∀ idx, (x.val idx).im = 0) := by
  obtain ⟨x, s', h1, h2, _, h4, _⟩ := randomMpa_ok qr hn hl hr force isComplex s
  refine ⟨x, s', h1, h2, fun hc idx => ?_⟩
  obtain ⟨v, hv⟩ := mp_real (h4 hc) idx 0 0
  show (mp x.lt idx 0 0).im = 0
  rw [hv, Complex.ofReal_im]

/-- All sizes and ranks that were asked for are positive. -/
def PosArgs (S : List (List ℕ)) (rank : RankArg) : Prop :=
  (∀ s ∈ S, ∀ d ∈ s, 0 < d) ∧ ∀ c, c + 1 < S.length → 0 < rank.at c

theorem wantedRanks_pos {S : List (List ℕ)} {rank : RankArg} (h : PosArgs S rank) (force : Bool) :
    ∀ r ∈ wantedRanks S rank force, 0 < r := by
  intro r hr
  obtain ⟨c, hc, rfl⟩ := List.mem_map.1 hr
  have hc : c < S.length - 1 := List.mem_range.1 hc
  have h1 := h.2 c (by omega)
  have h2 : ∀ T : List (List ℕ), T ⊆ S → 0 < T.flatten.prod := fun T hT =>
    flatten_pos fun p hp d hd => h.1 p (hT hp) d hd
  split
  · exact h1
  · exact lt_min h1 (lt_min (h2 _ (List.take_subset _ _)) (h2 _ (List.drop_subset _ _)))

theorem HasShape.good {S : List (List ℕ)} {rank : RankArg} {force : Bool} {x : MPA ℂ} (h : HasShape S rank force x)
    (hp : PosArgs S rank) : x.Good := by
  refine ⟨h.valid, ?_, allPos_of h.valid (by rw [h.shape]; exact hp.1) ?_⟩
  · have : x = ⟨x.lt, 0, x.lt.length⟩ := by
      cases x; simp only [MPA.mk.injEq, true_and]; exact ⟨h.form.1, h.form.2⟩
    rw [this]; exact canonOK_mk _
  · rw [h.ranks]; exact wantedRanks_pos hp force

theorem MPA.Valid.copy_ok {R : Type} {x : MPA R} (h : x.Valid) : x.copy = .ok x := by
  have h1 := h.l_nonneg
  have h2 := h.l_lt_r
  have h3 := h.r_le
  have h4 : x.len = x.lt.length := rfl
  exact mkLT_ok h.ne h.chain h1 (by omega) (by omega) (by omega)

theorem frob_scale {x z : MPA ℂ} {c : ℂ} (hs : z.shape = x.shape)
    (h : ∀ idx, IdxOK idx x.shape → z.val idx = c * x.val idx) : z.frob = ‖c‖ * x.frob := by
  unfold MPA.frob
  rw [hs, sumSites_congr (fun idx hi => by rw [h idx hi, norm_mul, mul_pow]), ← mul_sumSites,
    Real.sqrt_mul (by positivity), Real.sqrt_sq (by positivity)]

/-- `mpa /= norm(mpa.copy())` for an object that is not zero. -/
theorem divByNorm_ok {qr : QR ℂ} (hqr : QRSpec qr) {x : MPA ℂ} (hx : x.Good) (h0 : x.frob ≠ 0) :
    ∃ z, divByNorm qr x = .ok z ∧ z.Valid ∧ z.shape = x.shape ∧ z.ranks = x.ranks ∧ z.l = x.l ∧ z.r = x.r ∧
      z.frob = 1 ∧ ∀ idx, IdxOK idx x.shape → z.val idx = x.val idx / ((x.frob : ℝ) : ℂ) := by
  obtain ⟨y, hy, _⟩ := norm_ok hqr hx
  have hne : ((x.frob : ℝ) : ℂ) ≠ 0 := by exact_mod_cast h0
  obtain ⟨z, h1, h2, _⟩ := C06_imul x hx.valid (1 / ((x.frob : ℝ) : ℂ))
  refine ⟨z, ?_, h2.valid, h2.shape, h2.ranks, h2.form.1, h2.form.2, ?_, ?_⟩
  · unfold divByNorm
    rw [hx.valid.copy_ok, ok_bind, hy, ok_bind]
    show (if ((x.frob : ℝ) : ℂ) = 0 then Except.error PyErr.zeroDiv else x.imul (1 / ((x.frob : ℝ) : ℂ))) = _
    rw [if_neg hne]
    exact h1
  · rw [frob_scale h2.shape h2.val, norm_div, norm_one, Complex.norm_real, Real.norm_eq_abs,
      abs_of_nonneg (show 0 ≤ x.frob from Real.sqrt_nonneg _)]
    field_simp
  · intro idx hi
    rw [h2.val idx hi]; ring

/-- `mpa /= norm(mpa.copy())` fails for the zero tensor (numpy divides by zero). -/
theorem divByNorm_inv {qr : QR ℂ} (hqr : QRSpec qr) {x z : MPA ℂ} (hx : x.Good) (h : divByNorm qr x = .ok z) :
    x.frob ≠ 0 := by
  intro h0
  obtain ⟨y, hy, _⟩ := norm_ok hqr hx
  unfold divByNorm at h
  rw [hx.valid.copy_ok, ok_bind, hy, ok_bind] at h
  change (if ((x.frob : ℝ) : ℂ) = 0 then Except.error PyErr.zeroDiv else x.imul (1 / ((x.frob : ℝ) : ℂ))) = _ at h
  rw [if_pos (by exact_mod_cast h0)] at h
  cases h

theorem sumSites_eq_zero : ∀ {S : List (List ℕ)} {f : List (List ℕ) → ℝ} (_ : ∀ i, 0 ≤ f i) (_ : sumSites S f = 0),
    ∀ i, IdxOK i S → f i = 0
  | [], f, hf, h, i, hi => by
    cases hi; exact h
  | s :: S, f, hf, h, i, hi => by
    cases hi with
    | cons h1 h2 =>
      rename_i i0 is
      have hz : sumSites S (fun is => f (i0 :: is)) = 0 := by
        refine le_antisymm ?_ (sumSites_nonneg fun _ => hf _)
        rw [← h]
        exact sumIdx_ge_term (f := fun i => sumSites S fun is => f (i :: is)) (fun i => sumSites_nonneg fun _ => hf _) h1
      exact sumSites_eq_zero (fun _ => hf _) hz is h2

/-- What a normalised result `z` looks like, compared to `x`. -/
structure NormalizedFrom (x z : MPA ℂ) : Prop where
  valid : z.Valid
  shape : z.shape = x.shape
  ranks : z.ranks = x.ranks
  form : z.l = x.l ∧ z.r = x.r
  norm : (sumSites z.shape fun i => ‖z.val i‖ ^ 2) = 1
  val : ∀ idx, IdxOK idx x.shape → z.val idx = x.val idx / ((x.frob : ℝ) : ℂ)

theorem divByNorm_spec {qr : QR ℂ} (hqr : QRSpec qr) {x : MPA ℂ} (hx : x.Good) (h0 : x.frob ≠ 0) :
    ∃ z, divByNorm qr x = .ok z ∧ NormalizedFrom x z := by
  obtain ⟨z, h1, h2, h3, h4, h5, h6, h7, h8⟩ := divByNorm_ok hqr hx h0
  refine ⟨z, h1, h2, h3, h4, ⟨h5, h6⟩, ?_, h8⟩
  have := congrArg (· ^ 2) h7
  simp only [MPA.frob, one_pow] at this
  rwa [Real.sq_sqrt (sumSites_nonneg fun i => by positivity)] at this

/-- `random_mpa(normalized=True)`: the tensor that `random_mpa` would return otherwise, divided by its
norm, unless it is zero. -/
theorem C49_random_mpa_normalized {qr : QR ℂ} (hqr : QRSpec qr) (n : ℕ) (hn : 0 < n) (ldim : LdimArg)
    (hl : ldim.Fits n) (rank : RankArg) (hr : rank.Fits n) (hp : PosArgs (ldim.legs n) rank) (force isComplex : Bool)
    (s : RandState) :
    ∃ x s', randomMpa qr n ldim rank false force isComplex s = .ok (x, s') ∧ HasShape (ldim.legs n) rank force x ∧
      ((∃ idx, IdxOK idx x.shape ∧ x.val idx ≠ 0) →
        ∃ z, randomMpa qr n ldim rank true force isComplex s = .ok (z, s') ∧ NormalizedFrom x z) := by
  obtain ⟨x, s', h1, h2, _, _, h5⟩ := randomMpa_ok qr hn hl hr force isComplex s
  refine ⟨x, s', h1, h2, ?_⟩
  rintro ⟨idx, hi, hx⟩
  have h0 : x.frob ≠ 0 := by
    intro h0
    have h0' : (sumSites x.shape fun i => ‖x.val i‖ ^ 2) = 0 := by
      have := congrArg (· ^ 2) h0
      simp only [MPA.frob] at this
      rwa [Real.sq_sqrt (sumSites_nonneg fun i => by positivity), zero_pow two_ne_zero] at this
    have := sumSites_eq_zero (fun i => by positivity) h0' idx hi
    exact hx (by simpa using this)
  obtain ⟨z, g1, g2⟩ := divByNorm_spec hqr (h2.good hp) h0
  exact ⟨z, by rw [h5, g1]; rfl, g2⟩

theorem randomMpa_inv {qr : QR ℂ} (hqr : QRSpec qr) {n : ℕ} (hn : 0 < n) {ldim : LdimArg} (hl : ldim.Fits n)
    {rank : RankArg} (hr : rank.Fits n) (hp : PosArgs (ldim.legs n) rank) {force c : Bool} {s s' : RandState}
    {z : MPA ℂ} (h : randomMpa qr n ldim rank true force c s = .ok (z, s')) :
    HasShape (ldim.legs n) rank force z ∧ (sumSites z.shape fun i => ‖z.val i‖ ^ 2) = 1 ∧
      s'.uniform = s.uniform := by
  obtain ⟨x, s1, h1, h2, h3, _, h5⟩ := randomMpa_ok qr hn hl hr force c s
  rw [h5] at h
  cases hd : divByNorm qr x with
  | error e => rw [hd] at h; cases h
  | ok z' =>
    rw [hd] at h
    cases h
    have h0 := divByNorm_inv hqr (h2.good hp) hd
    obtain ⟨z', g1, g2⟩ := divByNorm_spec hqr (h2.good hp) h0
    rw [hd] at g1; cases g1
    refine ⟨⟨g2.valid, by rw [g2.shape, h2.shape], by rw [g2.ranks, h2.ranks], by rw [g2.form.1, h2.form.1], ?_⟩,
      g2.norm, h3⟩
    rw [g2.form.2, h2.form.2]
    show (x.len : ℤ) = z.len
    have := congrArg List.length g2.shape
    simp only [MPA.shape, physShape, List.length_map] at this
    show (x.lt.length : ℤ) = z.lt.length
    rw [this]

/-- `random_mps` (with random numbers that are not all zero): the wanted shape and ranks, norm 1. -/
theorem C49_random_mps {qr : QR ℂ} (hqr : QRSpec qr) (n : ℕ) (hn : 0 < n) (ldim : LdimArg) (hl : ldim.Fits n)
    (rank : RankArg) (hr : rank.Fits n) (hp : PosArgs (ldim.legs n) rank) (force : Bool) (s s' : RandState) (z : MPA ℂ)
    (h : randomMps qr n ldim rank force s = .ok (z, s')) :
    HasShape (ldim.legs n) rank force z ∧ (sumSites z.shape fun i => ‖z.val i‖ ^ 2) = 1 :=
  let ⟨h1, h2, _⟩ := randomMpa_inv hqr hn hl hr hp h
  ⟨h1, h2⟩

/-! ### random_mpo -/

theorem hermSite_ok {t : NDArray ℂ} {d : ℕ} (ht : t.IsLocal) (hp : t.ph = [d, d]) :
    ∃ u, hermSite t = .ok u ∧ u.shape = t.shape ∧ ∀ a < t.lb, ∀ b < t.rb, ∀ p < d, ∀ q < d,
      u.at3 a [p, q] b = t.at3 a [p, q] b + star (t.at3 a [q, p] b) := by
  have hs : t.shape = [t.lb, d, d, t.rb] := by rw [NDArray.shape_local ht, hp]; rfl
  obtain ⟨sh, g⟩ := t
  generalize hlb : NDArray.lb (⟨sh, g⟩ : NDArray ℂ) = l at *
  generalize hrb : NDArray.rb (⟨sh, g⟩ : NDArray ℂ) = r at *
  simp only at hs
  subst hs
  obtain ⟨c, h1, h2, h3⟩ := NDArray.add_ok (a := (⟨[l, d, d, r], g⟩ : NDArray ℂ))
    (b := (NDArray.transposeTo ⟨[l, d, d, r], g⟩ [0, 2, 1, 3]).conj) rfl
  refine ⟨c, h1, h2, ?_⟩
  intro a ha b hb p hp q hq
  show c.get (a :: ([p, q] ++ [b])) = _
  rw [h3 _ (by simp [InB, ha, hb, hp, hq])]
  rfl

theorem NDArray.IsLocal.of_shape {t u : NDArray ℂ} (ht : t.IsLocal) (h : u.shape = t.shape) :
    u.IsLocal ∧ u.lb = t.lb ∧ u.rb = t.rb ∧ u.ph = t.ph := by
  obtain ⟨sh, g⟩ := u
  obtain ⟨sh', g'⟩ := t
  cases h
  exact ⟨ht, rfl, rfl, rfl⟩

theorem same_shapes : ∀ {ts us : List (NDArray ℂ)} {l r : ℕ} (_ : us.map NDArray.shape = ts.map NDArray.shape)
    (_ : Chained l ts r), Chained l us r ∧ physShape us = physShape ts ∧ us.tail.map NDArray.lb = ts.tail.map NDArray.lb ∧
      us.map NDArray.lb = ts.map NDArray.lb
  | [], [], l, r, _, h => ⟨h, rfl, rfl, rfl⟩
  | t :: ts, u :: us, l, r, h, hc => by
    simp only [List.map_cons, List.cons.injEq] at h
    obtain ⟨h1, h2, h3⟩ := hc
    obtain ⟨g1, g2, g3, g4⟩ := h1.of_shape h.1
    obtain ⟨k1, k2, k3, k4⟩ := same_shapes h.2 h3
    refine ⟨⟨g1, by rw [g2, h2], by rw [g3]; exact k1⟩, ?_, k4, ?_⟩
    · simp only [physShape, List.map_cons] at k2 ⊢
      rw [g4, k2]
    · simp only [List.map_cons, g2, k4]
  | [], _ :: _, _, _, h, _ => by simp at h
  | _ :: _, [], _, _, h, _ => by simp at h

theorem herm_list : ∀ {ts : List (NDArray ℂ)} {l r : ℕ} {D : List ℕ} (_ : Chained l ts r) (_ : physShape ts = pairs D D),
    ∃ us, ts.mapM hermSite = .ok us ∧ us.map NDArray.shape = ts.map NDArray.shape ∧
      ∀ I J, InB I D → InB J D → ∀ a < l, ∀ b < r, mp us (pairs J I) a b = star (mp us (pairs I J) a b)
  | [], l, r, D, hc, hp => by
    refine ⟨[], rfl, rfl, ?_⟩
    intro I J _ _ a _ b _
    simp only [mp_nil]
    split_ifs <;> simp
  | t :: ts, l, r, D, hc, hp => by
    cases D with
    | nil => simp [physShape, pairs] at hp
    | cons d D =>
      simp only [physShape, pairs, List.map_cons, List.zipWith_cons_cons, List.cons.injEq] at hp
      obtain ⟨h1, h2, h3⟩ := hc
      obtain ⟨u, g1, g2, g3⟩ := hermSite_ok h1 hp.1
      obtain ⟨us, k1, k2, k3⟩ := herm_list h3 hp.2
      refine ⟨u :: us, by rw [List.mapM_cons, g1, ok_bind, k1]; rfl, by simp [g2, k2], ?_⟩
      intro I J hI hJ a ha b hb
      cases hI with
      | cons hi hI =>
        cases hJ with
        | cons hj hJ =>
          rename_i i I j J
          simp only [pairs, List.zipWith_cons_cons, mp_cons, star_sum, star_mul']
          rw [(h1.of_shape g2).2.2.1]
          refine Finset.sum_congr rfl fun c hc => ?_
          rw [g3 a (h2 ▸ ha) c (Finset.mem_range.1 hc) j hj i hi, g3 a (h2 ▸ ha) c (Finset.mem_range.1 hc) i hi j hj,
            k3 I J hI hJ c (Finset.mem_range.1 hc) b hb]
          simp only [star_add, star_star]
          rw [add_comm]

theorem hermMpo_ok {x : MPA ℂ} {D : List ℕ} (hx : x.Valid) (hs : x.shape = pairs D D) :
    ∃ z, hermMpo x = .ok z ∧ z.Valid ∧ z.shape = x.shape ∧ z.ranks = x.ranks ∧ z.l = 0 ∧ z.r = z.len ∧
      ∀ I J, InB I D → InB J D → z.val (pairs J I) = star (z.val (pairs I J)) := by
  obtain ⟨us, h1, h2, h3⟩ := herm_list hx.chain hs
  obtain ⟨g1, g2, g3, _⟩ := same_shapes h2 hx.chain
  have hne : us ≠ [] := by
    rintro rfl
    exact hx.ne (by simpa using h2.symm)
  refine ⟨⟨us, 0, us.length⟩, ?_, valid_mk hne g1, g2, g3, rfl, rfl, fun I J hI hJ => h3 I J hI hJ 0 one_pos 0 one_pos⟩
  unfold hermMpo
  rw [h1, ok_bind]
  exact mkMPA_ok hne g1

/-- `random_mpo` without normalisation: the wanted shape and ranks; Hermitian if asked for.  With
normalisation, the same operator divided by its Frobenius norm (unless it is zero), still Hermitian. -/
theorem C49_random_mpo {qr : QR ℂ} (hqr : QRSpec qr) (n : ℕ) (hn : 0 < n) (d : ℕ) (rank : RankArg) (hr : rank.Fits n)
    (hp : 0 < d ∧ ∀ c, c + 1 < n → 0 < rank.at c) (hermitian force : Bool) (s : RandState) :
    ∃ x s', randomMpo qr n d rank hermitian false force s = .ok (x, s') ∧
      HasShape (List.replicate n [d, d]) rank force x ∧
      (hermitian = true → ∀ I J, InB I (List.replicate n d) → InB J (List.replicate n d) →
        x.val (pairs J I) = star (x.val (pairs I J))) ∧
      ((∃ idx, IdxOK idx x.shape ∧ x.val idx ≠ 0) →
        ∃ z, randomMpo qr n d rank hermitian true force s = .ok (z, s') ∧ NormalizedFrom x z ∧
          (hermitian = true → ∀ I J, InB I (List.replicate n d) → InB J (List.replicate n d) →
            z.val (pairs J I) = star (z.val (pairs I J)))) := by
  obtain ⟨x0, s', h1, h2, _, _, _⟩ := randomMpa_ok qr hn (ldim := .flat [d, d]) (by simp [LdimArg.Fits]) hr force true s
  have hpa : PosArgs (List.replicate n [d, d]) rank := by
    refine ⟨?_, by simpa using hp.2⟩
    intro s hs e he
    rw [List.eq_of_mem_replicate hs] at he
    simp only [List.mem_cons, List.not_mem_nil, or_false, or_self] at he
    rw [he]; exact hp.1
  have hpairs : List.replicate n [d, d] = pairs (List.replicate n d) (List.replicate n d) := by
    simp [pairs]
  obtain ⟨y, g1, g2, g3, g4, g5, g6, g7⟩ := hermMpo_ok h2.valid (h2.shape.trans hpairs)
  obtain ⟨x, k1, k2, k3⟩ : ∃ x, (if hermitian then hermMpo x0 else .ok x0 : Py (MPA ℂ)) = .ok x ∧
      HasShape (List.replicate n [d, d]) rank force x ∧ (hermitian = true → ∀ I J, InB I (List.replicate n d) →
        InB J (List.replicate n d) → x.val (pairs J I) = star (x.val (pairs I J))) := by
    cases hermitian with
    | false => exact ⟨x0, rfl, h2, by simp⟩
    | true => exact ⟨y, g1, ⟨g2, g3.trans h2.shape, g4.trans h2.ranks, g5, g6⟩, fun _ => g7⟩
  have hrun : ∀ nm, randomMpo qr n d rank hermitian nm force s
      = (liftM (if nm then divByNorm qr x else .ok x : Py (MPA ℂ)) : Rng (MPA ℂ)) s' := by
    intro nm
    unfold randomMpo
    rw [rng_bind_ok h1, rng_bind_ok (rng_lift_ok k1)]
  refine ⟨x, s', by rw [hrun]; rfl, k2, k3, ?_⟩
  rintro ⟨idx, hi, hv⟩
  have h0 : x.frob ≠ 0 := by
    intro h0
    have h0' : (sumSites x.shape fun i => ‖x.val i‖ ^ 2) = 0 := by
      have := congrArg (· ^ 2) h0
      simp only [MPA.frob] at this
      rwa [Real.sq_sqrt (sumSites_nonneg fun i => by positivity), zero_pow two_ne_zero] at this
    have := sumSites_eq_zero (fun i => by positivity) h0' idx hi
    exact hv (by simpa using this)
  obtain ⟨z, l1, l2⟩ := divByNorm_spec hqr (k2.good hpa) h0
  refine ⟨z, by rw [hrun]; exact rng_lift_ok l1, l2, ?_⟩
  intro hh I J hI hJ
  have hok : ∀ {I J}, InB I (List.replicate n d) → InB J (List.replicate n d) → IdxOK (pairs I J) x.shape := by
    intro I J hI hJ
    rw [k2.shape, hpairs]; exact pairs_idxOK hI hJ
  rw [l2.val _ (hok hJ hI), l2.val _ (hok hI hJ), k3 hh I J hI hJ]
  simp

/-! ### random_mpdo -/

theorem unitaryHaar_inv {qr : QR ℂ} (hqr : QRSpec qr) {n : ℕ} {s s' : RandState} {u : NDArray ℂ}
    (h : unitaryHaar qr n s = .ok (u, s')) :
    u.shape = [n, n] ∧ s'.uniform = s.uniform ∧ ∀ i < n, ∀ j < n,
      ∑ k ∈ range n, u.get [i, k] * star (u.get [j, k]) = if i = j then 1 else 0 := by
  unfold unitaryHaar at h
  obtain ⟨z, s1, h1, h2⟩ := rng_bind_inv h
  obtain ⟨z', s2, g1, g2, g3⟩ := zrandn_ok [n, n] s
  rw [h1] at g1
  cases g1
  set A : NDArray ℂ := ⟨z.shape, fun i => z.get i / ((Real.sqrt 2 : ℝ) : ℂ)⟩ with hA
  obtain ⟨h3, h4⟩ := rng_lift_inv h2
  obtain ⟨q1, _, _, q4⟩ := hqr A n n g2
  simp only [min_self] at q1 q4
  unfold haarPhases at h3
  obtain ⟨_, hd, h5⟩ := bind_ok_inv h3
  have hne : ∀ k < n, (qr A).2.get [k, k] ≠ 0 := by
    by_contra hc
    unfold pyGuard at hd
    rw [if_neg hc] at hd
    cases hd
  cases h5
  refine ⟨rfl, by have h4' : s' = s1 := h4
                  rw [h4', g3], ?_⟩
  -- the columns of `q` are orthonormal, so its rows are as well
  let Q : Matrix (Fin n) (Fin n) ℂ := Matrix.of fun i k => (qr A).1.get [i, k]
  have hQ : Q.conjTranspose * Q = 1 := by
    ext k k'
    rw [Matrix.mul_apply, Matrix.one_apply]
    have := q4 k k.2 k' k'.2
    rw [Finset.sum_range] at this
    simp only [Q, Matrix.conjTranspose_apply, Matrix.of_apply]
    rw [this]
    simp [Fin.ext_iff]
  have hQ' := mul_eq_one_comm.1 hQ
  intro i hi j hj
  have e := congrFun (congrFun hQ' ⟨i, hi⟩) ⟨j, hj⟩
  rw [Matrix.mul_apply, Matrix.one_apply] at e
  simp only [Q, Matrix.conjTranspose_apply, Matrix.of_apply, Fin.mk.injEq] at e
  rw [← e, Finset.sum_range]
  refine Finset.sum_congr rfl fun k _ => ?_
  have h0 := hne k k.2
  set d := (qr A).2.get [(k : ℕ), (k : ℕ)] with hd'
  show (qr A).1.get [i, (k : ℕ)] * (d / ((‖d‖ : ℝ) : ℂ)) * star ((qr A).1.get [j, (k : ℕ)] * (d / ((‖d‖ : ℝ) : ℂ))) = _
  have hph : ∀ d : ℂ, d ≠ 0 → d / ((‖d‖ : ℝ) : ℂ) * star (d / ((‖d‖ : ℝ) : ℂ)) = 1 := by
    intro d hd
    have hn : ((‖d‖ : ℝ) : ℂ) ≠ 0 := by exact_mod_cast norm_ne_zero_iff.2 hd
    rw [star_div₀, div_mul_div_comm, div_eq_one_iff_eq (by simpa using hd)]
    have : star ((‖d‖ : ℝ) : ℂ) = ((‖d‖ : ℝ) : ℂ) := Complex.conj_ofReal _
    rw [this]
    have := Complex.mul_conj' d
    rw [← sq]; exact this
  have := hph _ h0
  rw [star_mul']
  generalize d / ((‖d‖ : ℝ) : ℂ) = e at this ⊢
  linear_combination (qr A).1.get [i, (k : ℕ)] * star ((qr A).1.get [j, (k : ℕ)]) * this

theorem transpose2 {u : NDArray ℂ} {n m : ℕ} (h : u.shape = [n, m]) :
    ∃ v, u.transpose [1, 0] = .ok v ∧ v.shape = [m, n] ∧ ∀ i j, v.get [j, i] = u.get [i, j] := by
  obtain ⟨sh, g⟩ := u
  cases h
  exact ⟨_, rfl, rfl, fun i j => rfl⟩

/-- The two sites next to a bond are multiplied by a unitary matrix and its inverse. -/
theorem scrambleStep_ok {x : MPA ℂ} (hx : x.Valid) (hf : x.l = 0 ∧ x.r = x.len) {n r : ℕ} (hn : n + 1 < x.lt.length)
    (hr : x.ranks[n]? = some r) {u : NDArray ℂ} (hu : u.shape = [r, r])
    (hU : ∀ i < r, ∀ j < r, ∑ k ∈ range r, u.get [i, k] * star (u.get [j, k]) = if i = j then 1 else 0) :
    ∃ z, scrambleStep x n u = .ok z ∧ z.Valid ∧ z.l = 0 ∧ z.r = z.len ∧ z.len = x.len ∧ z.shape = x.shape ∧
      z.ranks = x.ranks ∧ ∀ idx, IdxOK idx x.shape → z.val idx = x.val idx := by
  obtain ⟨pre, t, w, post, hlt, hpre⟩ := MPA.split_at hn
  have hc := hx.chain
  rw [hlt] at hc
  obtain ⟨m, c1, c2⟩ := chained_append.1 hc
  obtain ⟨t1, t2, w1, w2, c3⟩ := c2
  have hrb : t.rb = r := by
    have : x.ranks[n]? = some w.lb := by
      simp only [MPA.ranks, hlt, List.getElem?_map, List.getElem?_tail]
      rw [List.getElem?_append_right (by omega)]
      have : n + 1 - pre.length = 1 := by omega
      rw [this]; rfl
    rw [this] at hr
    rw [← w2]; simpa using hr
  obtain ⟨t', a1, a2, a3⟩ := matdot_right t1 (m := u) (k := r) (by rw [hrb]; exact hu)
  obtain ⟨ut, b1, b2, b3⟩ := transpose2 hu
  obtain ⟨w', d1, d2, d3⟩ := matdot_left w1 (m := ut.conj) (k := r) (by rw [w2, hrb]; exact b2)
  have ht'rb : t'.rb = r := NDArray.rb_of_shape a2
  have ht'l := NDArray.isLocal_of_shape a2
  have hw'l := NDArray.isLocal_of_shape d2
  have hrp := replace_pair (t' := t') (u' := w') hc (by rw [ht'rb]; exact a2) (by rw [ht'rb]; exact d2) (by
    intro a _ b _ p p' hp hp'
    rw [ht'rb, hrb]
    have e1 : ∀ c, t'.at3 a p c = ∑ x ∈ range r, t.at3 a p x * u.get [x, c] := fun c => by
      rw [a3 a p c hp.length_eq, hrb]
    have e2 : ∀ c, w'.at3 c p' b = ∑ y ∈ range r, star (u.get [y, c]) * w.at3 y p' b := fun c => by
      rw [d3 c p' b hp'.length_eq, w2, hrb]
      refine Finset.sum_congr rfl fun y _ => ?_
      show star (ut.get [c, y]) * _ = _
      rw [b3]
    simp only [e1, e2, Finset.sum_mul_sum]
    rw [Finset.sum_comm]
    refine Finset.sum_congr rfl fun x hxr => ?_
    rw [Finset.sum_comm]
    have : ∀ y ∈ range r, ∑ c ∈ range r, t.at3 a p x * u.get [x, c] * (star (u.get [y, c]) * w.at3 y p' b)
        = if x = y then t.at3 a p x * w.at3 y p' b else 0 := by
      intro y hy
      have := hU x (Finset.mem_range.1 hxr) y (Finset.mem_range.1 hy)
      calc _ = t.at3 a p x * (∑ c ∈ range r, u.get [x, c] * star (u.get [y, c])) * w.at3 y p' b := by
            rw [Finset.mul_sum, Finset.sum_mul]
            exact Finset.sum_congr rfl fun c _ => by ring
        _ = _ := by rw [this]; split_ifs <;> simp
    rw [Finset.sum_congr rfl this, Finset.sum_ite_eq]
    simp only [hxr, if_true])
  obtain ⟨k1, k2, k3⟩ := hrp
  have hx1 : x.lt[n]? = some t := by rw [hlt, ← hpre]; simp
  have hx2 : (x.lt.set n t') = pre ++ t' :: w :: post := by
    rw [hlt, ← hpre]; simp
  have hlen : (x.lt.length : ℤ) = x.r := hf.2.symm
  refine ⟨⟨pre ++ t' :: w' :: post, 0, x.r⟩, ?_, ⟨by simp, k1, le_refl _, ?_, ?_⟩, rfl, ?_, ?_, ?_, ?_, ?_⟩
  · unfold scrambleStep
    have hs1 : x.site n = .ok t := by rw [← hpre]; exact MPA.site_ok hlt
    rw [hs1, ok_bind, a1, ok_bind, MPA.updateInt_ok x hx1 ht'l (NDArray.lb_of_shape a2).symm (by rw [ht'rb, hrb]),
      MPA.update1_ok x (by simp only [MPA.len]; omega)]
    simp only [reduceCtorEq, false_and, if_false, ok_bind, b1, hx2]
    have hs2 : (⟨pre ++ t' :: w :: post, min (n : ℤ) x.l, max ((n : ℤ) + 1) x.r⟩ : MPA ℂ).site ((n : ℤ) + 1) = .ok w := by
      have := MPA.site_ok (x := ⟨pre ++ t' :: w :: post, min (n : ℤ) x.l, max ((n : ℤ) + 1) x.r⟩)
        (pre := pre ++ [t']) (post := post) (t := w) (by simp)
      simpa [hpre] using this
    have hcast : ((n : ℤ) + 1) = ((n + 1 : ℕ) : ℤ) := by push_cast; ring
    rw [hs2, ok_bind, d1, ok_bind, hcast, MPA.updateInt_ok (pos := n + 1) (u := w) _ ?_ hw'l ?_ ?_ ,
      MPA.update1_ok _ (by simp only [MPA.len, List.length_append, List.length_cons]; omega)]
    · simp only [reduceCtorEq, false_and, if_false, Except.ok.injEq, MPA.mk.injEq]
      refine ⟨?_, ?_, ?_⟩
      · rw [← hpre, List.set_append_right _ _ (by omega)]
        simp
      · rw [hf.1]; omega
      · have := hlt ▸ hlen
        simp only [List.length_append, List.length_cons] at this
        omega
    · rw [← hpre, List.getElem?_append_right (by omega)]
      simp
    · rw [NDArray.lb_of_shape d2, w2, hrb]
    · rw [NDArray.rb_of_shape d2]
  · have := hx.l_lt_r; rw [hf.1] at this; exact this
  · have := hx.r_le
    simp only [hlt, List.length_append, List.length_cons, MPA.len] at this ⊢
    omega
  · rw [hf.2]; simp [MPA.len, hlt]
  · simp [MPA.len, hlt]
  · show physShape _ = physShape x.lt
    rw [k2, hlt]
  · show (List.tail _).map NDArray.lb = x.lt.tail.map NDArray.lb
    rw [hlt, List.map_tail, List.map_tail]
    simp only [List.map_append, List.map_cons, NDArray.lb_of_shape a2, NDArray.lb_of_shape d2, w2, hrb]
  · intro idx hi
    show mp _ idx 0 0 = mp x.lt idx 0 0
    rw [hlt]
    exact k3 idx (by have : x.shape = physShape x.lt := rfl
                     rw [this, hlt] at hi; exact hi) 0 one_pos 0

theorem scramble_inv {qr : QR ℂ} (hqr : QRSpec qr) : ∀ {rs : List ℕ} {n : ℕ} {x z : MPA ℂ} {s s' : RandState}
    (_ : x.Valid) (_ : x.l = 0 ∧ x.r = x.len) (_ : x.ranks.drop n = rs) (_ : scramble qr rs n x s = .ok (z, s')),
    z.Valid ∧ z.l = 0 ∧ z.r = z.len ∧ z.shape = x.shape ∧ z.ranks = x.ranks ∧
      ∀ idx, IdxOK idx x.shape → z.val idx = x.val idx
  | [], n, x, z, s, s', hx, hf, hd, h => by
    have : (Except.ok (x, s) : Py (MPA ℂ × RandState)) = .ok (z, s') := h
    cases this
    exact ⟨hx, hf.1, hf.2, rfl, rfl, fun _ _ => rfl⟩
  | r :: rs, n, x, z, s, s', hx, hf, hd, h => by
    obtain ⟨u, s1, h1, h2⟩ := rng_bind_inv h
    obtain ⟨y, s2, h3, h4⟩ := rng_bind_inv h2
    obtain ⟨h5, _⟩ := rng_lift_inv h3
    obtain ⟨u1, _, u3⟩ := unitaryHaar_inv hqr h1
    have hn : x.ranks[n]? = some r := by
      have := congrArg (·[0]?) hd
      simpa using this
    have hlen : n + 1 < x.lt.length := by
      have := (List.getElem?_eq_some_iff.1 hn).1
      simp [MPA.ranks] at this
      omega
    obtain ⟨y', g1, g2, g3, g4, g5, g6, g7, g8⟩ := scrambleStep_ok hx hf hlen hn u1 u3
    rw [g1] at h5
    cases h5
    obtain ⟨k1, k2, k3, k4, k5, k6⟩ := scramble_inv hqr (n := n + 1) g2 ⟨g3, g4⟩ (by
      rw [g7, ← List.drop_drop, hd]; rfl) h4
    exact ⟨k1, k2, k3, k4.trans g6, k5.trans g7, fun idx hi => (k6 idx (by rw [g6]; exact hi)).trans (g8 idx hi)⟩

theorem times_inv {α : Type} {f : Rng α} {P : α → Prop}
    (hf : ∀ s a s', f s = .ok (a, s') → P a ∧ s'.uniform = s.uniform) : ∀ {n : ℕ} {s s' : RandState} {as : List α},
    Rng.times f n s = .ok (as, s') → as.length = n ∧ (∀ a ∈ as, P a) ∧ s'.uniform = s.uniform
  | 0, s, s', as, h => by
    have : (Except.ok ([], s) : Py (List α × RandState)) = .ok (as, s') := h
    cases this
    exact ⟨rfl, by simp, rfl⟩
  | n + 1, s, s', as, h => by
    obtain ⟨a, s1, h1, h2⟩ := rng_bind_inv h
    obtain ⟨as', s2, h3, h4⟩ := rng_bind_inv h2
    have : (Except.ok (a :: as', s2) : Py (List α × RandState)) = .ok (as, s') := h4
    cases this
    obtain ⟨g1, g2⟩ := hf _ _ _ h1
    obtain ⟨k1, k2, k3⟩ := times_inv hf h3
    refine ⟨by simp [k1], ?_, by rw [k3, g2]⟩
    intro b hb
    rcases List.mem_cons.1 hb with rfl | hb
    · exact g1
    · exact k2 b hb

theorem wantedRanks_one {D : List ℕ} (hD : ∀ d ∈ D, 0 < d) :
    wantedRanks (singles D) (.scalar 1) false = List.replicate (D.length - 1) 1 := by
  have hpos : ∀ T : List (List ℕ), T ⊆ singles D → 0 < T.flatten.prod := by
    intro T hT
    refine flatten_pos fun p hp d hd => ?_
    obtain ⟨e, he, rfl⟩ := List.mem_map.1 (hT hp)
    simp only [List.mem_singleton] at hd
    rw [hd]; exact hD e he
  unfold wantedRanks
  rw [List.eq_replicate_iff]
  refine ⟨by simp, ?_⟩
  intro b hb
  obtain ⟨c, _, rfl⟩ := List.mem_map.1 hb
  simp only [Bool.false_eq_true, if_false, RankArg.at]
  have h1 := hpos _ (List.take_subset (c + 1) (singles D))
  have h2 := hpos _ (List.drop_subset (c + 1) (singles D))
  omega

/-- The data of one pure state of the mixture. -/
structure PureTerm (D : List ℕ) (ψ : MPA ℂ) : Prop where
  valid : ψ.Valid
  shape : ψ.shape = singles D
  ranks : ψ.ranks = List.replicate (D.length - 1) 1
  norm : (sumIdx D fun I => ψ.val (singles I) * star (ψ.val (singles I))) = 1

theorem sumSites_singles {M : Type} [AddCommMonoid M] : ∀ (D : List ℕ) (f : List (List ℕ) → M),
    sumSites (singles D) f = sumIdx D fun I => f (singles I)
  | [], f => rfl
  | d :: D, f => by
    simp only [singles, List.map_cons, sumSites_cons, sumIdx_cons, sumIdx_nil]
    exact Finset.sum_congr rfl fun i _ => sumSites_singles D fun is => f ([i] :: is)

theorem weightedMpo_ok {D : List ℕ} {ψ : MPA ℂ} (h : PureTerm D ψ) (w : ℝ) :
    ∃ z, weightedMpo w ψ = .ok z ∧ z.Valid ∧ z.shape = pairs D D ∧ z.ranks = List.replicate (D.length - 1) 1 ∧
      ∀ I J, InB I D → InB J D → z.val (pairs I J) = (w : ℂ) * (ψ.val (singles I) * star (ψ.val (singles J))) := by
  obtain ⟨z, h1, h2, h3, h4⟩ := C33_mps_to_mpo ψ D h.valid h.shape
  obtain ⟨y, g1, g2, g3, _⟩ := C33_mps_to_pmps ψ D h.valid h.shape
  have hzr : z.ranks = List.replicate (D.length - 1) 1 := by
    unfold mpsToMpo at h1
    rw [g1, ok_bind] at h1
    rw [C33_pmps_to_mpo_ranks y D _ g2 z h1, g3, h.ranks]
    simp
  obtain ⟨v, k1, k2, _⟩ := C06_mul z h2 ((w : ℝ) : ℂ)
  refine ⟨v, ?_, k2.valid, k2.shape.trans h3, k2.ranks.trans hzr, ?_⟩
  · unfold weightedMpo
    rw [h1, ok_bind]; exact k1
  · intro I J hI hJ
    rw [k2.val _ (by rw [h3]; exact pairs_idxOK hI hJ), h4 I J hI hJ]

theorem weighted_list {D : List ℕ} : ∀ {ps : List (ℝ × MPA ℂ)} (_ : ∀ p ∈ ps, PureTerm D p.2),
    ∃ zs, (ps.mapM fun p => weightedMpo p.1 p.2 : Py _) = .ok zs ∧ zs.length = ps.length ∧
      (∀ z ∈ zs, z.Valid ∧ z.shape = pairs D D ∧ z.ranks = List.replicate (D.length - 1) 1) ∧
      ∀ I J, InB I D → InB J D → (zs.map fun z => z.val (pairs I J)).sum
        = (ps.map fun p => (p.1 : ℂ) * (p.2.val (singles I) * star (p.2.val (singles J)))).sum
  | [], _ => ⟨[], rfl, rfl, by simp, by simp⟩
  | p :: ps, h => by
    obtain ⟨z, h1, h2, h3, h4, h5⟩ := weightedMpo_ok (h p (by simp)) p.1
    obtain ⟨zs, g1, g2, g3, g4⟩ := weighted_list (ps := ps) fun p hp => h p (by simp [hp])
    refine ⟨z :: zs, by rw [List.mapM_cons, h1, ok_bind, g1]; rfl, by simp [g2], ?_, ?_⟩
    · intro y hy
      rcases List.mem_cons.1 hy with rfl | hy
      · exact ⟨h2, h3, h4⟩
      · exact g3 y hy
    · intro I J hI hJ
      rw [List.map_cons, List.sum_cons, List.map_cons, List.sum_cons, h5 I J hI hJ, g4 I J hI hJ]

section
open scoped ComplexOrder MatrixOrder Matrix

theorem psd_mixture {D : List ℕ} : ∀ {ps : List (ℝ × MPA ℂ)} (_ : ∀ p ∈ ps, 0 ≤ p.1),
    Psd D fun I J => (ps.map fun p => (p.1 : ℂ) * (p.2.val (singles I) * star (p.2.val (singles J)))).sum
  | [], _ => by
    show Matrix.PosSemidef _
    convert Matrix.PosSemidef.zero using 1
    ext I J
    simp
  | p :: ps, h => by
    have h1 : (Matrix.vecMulVec (fun I : {I // InB I D} => p.2.val (singles I))
        (star fun I : {I // InB I D} => p.2.val (singles I))).PosSemidef := Matrix.posSemidef_vecMulVec_self_star _
    have h2 := h1.smul (show (0 : ℂ) ≤ (p.1 : ℂ) by exact_mod_cast h p (by simp))
    have h3 := h2.add (psd_mixture (D := D) (ps := ps) fun p hp => h p (by simp [hp]))
    show Matrix.PosSemidef _
    convert h3 using 1
    ext I J
    simp [Matrix.vecMulVec_apply]

end

theorem sumIdx_list_sum {M : Type} [AddCommMonoid M] {α : Type} (D : List ℕ) (f : α → List ℕ → M) : ∀ (as : List α),
    (sumIdx D fun I => (as.map fun a => f a I).sum) = (as.map fun a => sumIdx D (f a)).sum
  | [] => by simp [sumIdx_zero]
  | a :: as => by
    simp only [List.map_cons, List.sum_cons]
    rw [sumIdx_add, sumIdx_list_sum D f as]

theorem pureTerm_of_randomMps {qr : QR ℂ} (hqr : QRSpec qr) {n : ℕ} (hn : 0 < n) {ldim : LdimArg} (hl : ldim.Fits n)
    {D : List ℕ} (hD : ldim.legs n = singles D) (hpos : ∀ d ∈ D, 0 < d) {s s' : RandState} {a : MPA ℂ}
    (ha : randomMps qr n ldim (.scalar 1) false s = .ok (a, s')) : PureTerm D a ∧ s'.uniform = s.uniform := by
  obtain ⟨g1, g2, g3⟩ := randomMpa_inv hqr hn hl (rank := .scalar 1) trivial
    ⟨by rw [hD]; intro t ht d hd
        obtain ⟨e, he, rfl⟩ := List.mem_map.1 ht
        simp only [List.mem_singleton] at hd
        rw [hd]; exact hpos e he, fun _ _ => one_pos⟩ ha
  refine ⟨⟨g1.valid, g1.shape.trans hD, ?_, ?_⟩, g3⟩
  · rw [g1.ranks, hD, wantedRanks_one hpos]
  · rw [g1.shape, hD, sumSites_singles] at g2
    have := congrArg (fun r : ℝ => (r : ℂ)) g2
    simp only [Complex.ofReal_one] at this
    rw [← this]
    refine Eq.trans (sumIdx_congr fun I _ => ?_)
      (sumIdx_ofReal (𝕜 := ℂ) D fun I => ‖a.val (singles I)‖ ^ 2)
    show _ = Complex.ofReal (‖a.val (singles I)‖ ^ 2)
    rw [Complex.ofReal_pow]
    exact Complex.mul_conj' _

theorem mpdo_core {qr : QR ℂ} (hqr : QRSpec qr) {n : ℕ} {D : List ℕ} (hDn : D.length = n) {rank : ℕ}
    {psis : List (MPA ℂ)} (p1 : psis.length = rank) (p2 : ∀ ψ ∈ psis, PureTerm D ψ) {us ws : List ℝ}
    (hul : us.length = rank) (hus0 : ∀ u ∈ us, 0 ≤ u) (h3 : normWeights us = .ok ws) :
    ∃ terms rho, ((List.zip ws psis).mapM fun p => weightedMpo p.1 p.2 : Py _) = .ok terms ∧
      sumup terms none = .ok rho ∧ rho.Valid ∧ (rho.l = 0 ∧ rho.r = rho.len) ∧ rho.ranks = List.replicate (n - 1) rank ∧
      ∀ s sig s', scramble qr rho.ranks 0 rho s = .ok (sig, s') →
        ∃ z, divByTrace sig = .ok z ∧ IsMpo z D ∧ z.ranks = List.replicate (n - 1) rank ∧ z.l = 0 ∧ z.r = z.len ∧
          IsState D fun I J => z.val (pairs I J) := by
  -- the weights
  unfold normWeights at h3
  obtain ⟨_, hg, h3⟩ := bind_ok_inv h3
  have hs0 : us.sum ≠ 0 := by
    by_contra hc
    unfold pyGuard at hg
    rw [if_neg (by simpa using hc)] at hg
    cases hg
  have hws : ws = us.map (· / us.sum) := by
    have : (Except.ok (us.map (· / us.sum)) : Py (List ℝ)) = .ok ws := h3
    cases this; rfl
  have hwl : ws.length = rank := by rw [hws]; simp [hul]
  have hw0 : ∀ w ∈ ws, 0 ≤ w := by
    rw [hws]
    intro w hw
    obtain ⟨u, hu', rfl⟩ := List.mem_map.1 hw
    exact div_nonneg (hus0 u hu') (List.sum_nonneg hus0)
  have hw1 : ws.sum = 1 := by
    rw [hws]
    simp only [div_eq_mul_inv]
    rw [List.sum_map_mul_right, List.map_id']
    exact mul_inv_cancel₀ hs0
  -- the mixture
  obtain ⟨terms, g1, g2, g3, g4⟩ := weighted_list (D := D) (ps := List.zip ws psis) (fun p hp =>
    p2 p.2 (List.of_mem_zip hp).2)
  have hzl : terms.length = rank := by rw [g2, List.length_zip, hwl, p1, min_self]
  have hr0 : rank ≠ 0 := by
    rintro rfl
    rw [List.length_eq_zero_iff.1 hul] at hs0
    exact hs0 rfl
  obtain ⟨rho, k1, k2⟩ := C07_sumup terms none (pairs D D) (by rintro rfl; simp at hzl; omega)
    (fun m hm => ⟨(g3 m hm).1, (g3 m hm).2.1⟩) (by simp)
  have hrr : rho.ranks = List.replicate (n - 1) rank := by
    have hlen : rho.ranks.length = n - 1 := by
      have := congrArg List.length k2.shape
      simp only [MPA.shape, physShape, List.length_map, pairs, List.length_zipWith, min_self] at this
      simp only [MPA.ranks, List.length_map, List.length_tail, this, hDn]
    refine List.ext_getElem? fun k => ?_
    by_cases hk : k < n - 1
    · rw [k2.ranks k (by simp [pairs]; omega)]
      rw [List.getElem?_replicate, if_pos hk]
      congr 1
      have hc : ∀ {vs : List ℂ} {ms : List (MPA ℂ)}, vs.length = ms.length → (∀ m ∈ ms, m ∈ terms) →
          ((List.zip vs ms).map fun w => w.2.ranks.getD k 0).sum = ms.length := by
        intro vs ms
        induction ms generalizing vs with
        | nil => intro hl _; simp
        | cons m ms ih =>
          intro hl hm
          cases vs with
          | nil => simp at hl
          | cons v vs =>
            simp only [List.zip_cons_cons, List.map_cons, List.sum_cons, List.length_cons]
            rw [ih (by simpa using hl) fun m hm' => hm m (by simp [hm']), (g3 m (hm m (by simp))).2.2]
            rw [List.getD_eq_getElem?_getD, List.getElem?_replicate, if_pos (by omega)]
            simp [add_comm]
      rw [hc (by simp) (fun _ h => h), hzl]
    · rw [List.getElem?_eq_none (by omega), List.getElem?_eq_none (by simp; omega)]
  refine ⟨terms, rho, g1, k1, k2.valid, k2.form, hrr, ?_⟩
  intro s sig s' h6
  obtain ⟨q1, q2, q3, q4, q5, q6⟩ := scramble_inv hqr (n := 0) k2.valid k2.form rfl h6
  have hval : ∀ I J, InB I D → InB J D → sig.val (pairs I J)
      = ((List.zip ws psis).map fun p => (p.1 : ℂ) * (p.2.val (singles I) * star (p.2.val (singles J)))).sum := by
    intro I J hI hJ
    rw [q6 _ (by rw [k2.shape]; exact pairs_idxOK hI hJ), k2.val _ (pairs_idxOK hI hJ), ← g4 I J hI hJ]
    have hc : ∀ ms : List (MPA ℂ), ((List.zip (List.replicate ms.length (1 : ℂ)) ms).map fun w => w.1 * w.2.val (pairs I J)).sum
        = (ms.map fun z => z.val (pairs I J)).sum := by
      intro ms
      induction ms with
      | nil => rfl
      | cons m ms ih =>
        simp only [List.length_cons, List.replicate_succ, List.zip_cons_cons, List.map_cons, List.sum_cons, one_mul]
        rw [ih]
    exact hc terms
  have htr : (sumIdx D fun I => sig.val (pairs I I)) = 1 := by
    rw [sumIdx_congr fun I hI => hval I I hI hI, sumIdx_list_sum]
    have hc : ∀ {vs : List ℝ} {ms : List (MPA ℂ)}, vs.length = ms.length → (∀ m ∈ ms, PureTerm D m) →
        ((List.zip vs ms).map fun p => sumIdx D fun I => (p.1 : ℂ) * (p.2.val (singles I) * star (p.2.val (singles I)))).sum
          = ((vs.sum : ℝ) : ℂ) := by
      intro vs ms
      induction ms generalizing vs with
      | nil => intro hl _; have := List.length_eq_zero_iff.1 hl; subst this; simp
      | cons m ms ih =>
        intro hl hm
        cases vs with
        | nil => simp at hl
        | cons v vs =>
          simp only [List.zip_cons_cons, List.map_cons, List.sum_cons]
          rw [ih (by simpa using hl) fun m hm' => hm m (by simp [hm']), ← mul_sumIdx, (hm m (by simp)).norm]
          push_cast; ring
    rw [hc (by rw [hwl, p1]) p2, hw1, Complex.ofReal_one]
  have hpd : pairs D D = D.map fun d => [d, d] := by simp [pairs]
  have hpi : ∀ I : List ℕ, pairs I I = I.map fun d => [d, d] := by intro I; simp [pairs]
  obtain ⟨T, t1, t2, t3⟩ := C20_trace_mpo sig q1 D (by rw [q4, k2.shape, hpd])
  have hT : T.get [] = 1 := by
    rw [t3, ← htr]
    exact sumIdx_congr fun I _ => by rw [hpi]
  obtain ⟨v, v1, v2, _⟩ := C06_imul sig q1 (1 / (1 : ℂ))
  have hvv : ∀ I J, InB I D → InB J D → v.val (pairs I J) = sig.val (pairs I J) := by
    intro I J hI hJ
    rw [v2.val _ (by rw [q4, k2.shape]; exact pairs_idxOK hI hJ)]
    simp
  refine ⟨v, ?_, ⟨v2.valid, by rw [v2.shape, q4, k2.shape]⟩, by rw [v2.ranks, q5, hrr], by rw [v2.form.1, q2], ?_, ?_, ?_⟩
  · unfold divByTrace
    rw [t1, ok_bind]
    unfold MPA.itruediv
    rw [hT, if_neg one_ne_zero, v1]
  · rw [v2.form.2, q3]
    have := congrArg List.length v2.shape
    simp only [MPA.shape, physShape, List.length_map] at this
    show (sig.lt.length : ℤ) = v.lt.length
    rw [this]
  · have := psd_mixture (D := D) (ps := List.zip ws psis) fun p hp => hw0 _ (List.of_mem_zip hp).1
    unfold Psd at this ⊢
    convert this using 1
    ext I J
    simp only [Matrix.of_apply]
    rw [hvv I J I.2 J.2, hval I J I.2 J.2]
  · rw [← htr]
    exact sumIdx_congr fun I hI => hvv I I hI hI

/-- `random_mpdo` returns a density operator of the wanted local dimensions and rank: Hermitian and
positive semidefinite (`PosSemidef`), of trace one, whatever numbers are drawn (as long as no division
by zero occurs). -/
theorem C49_random_mpdo {qr : QR ℂ} (hqr : QRSpec qr) (n : ℕ) (hn : 0 < n) (ldim : LdimArg) (hl : ldim.Fits n)
    (D : List ℕ) (hD : ldim.legs n = singles D) (hpos : ∀ d ∈ D, 0 < d) (rank : ℕ) (s s' : RandState)
    (hu : ∀ k, 0 ≤ s.uniform k) (z : MPA ℂ) (h : randomMpdo qr n ldim rank s = .ok (z, s')) :
    IsMpo z D ∧ z.ranks = List.replicate (n - 1) rank ∧ z.l = 0 ∧ z.r = z.len ∧
      IsState D fun I J => z.val (pairs I J) := by
  have hDn : D.length = n := by
    have := legs_length hl
    rw [hD] at this; simpa using this
  obtain ⟨psis, s1, h1, h⟩ := rng_bind_inv h
  obtain ⟨us, s2, h2, h⟩ := rng_bind_inv h
  obtain ⟨ws, s3, h3, h⟩ := rng_bind_inv h
  obtain ⟨terms, s4, h4, h⟩ := rng_bind_inv h
  obtain ⟨rho, s5, h5, h⟩ := rng_bind_inv h
  obtain ⟨sig, s6, h6, h⟩ := rng_bind_inv h
  obtain ⟨h3, _⟩ := rng_lift_inv h3
  obtain ⟨h4, _⟩ := rng_lift_inv h4
  obtain ⟨h5, _⟩ := rng_lift_inv h5
  obtain ⟨h, _⟩ := rng_lift_inv h
  obtain ⟨p1, p2, p3⟩ := times_inv (P := PureTerm D) (fun s a s' ha => pureTerm_of_randomMps hqr hn hl hD hpos ha) h1
  have hus : us = (List.range rank).map s1.uniform := by
    have : (Except.ok ((List.range rank).map s1.uniform, _) : Py (List ℝ × RandState)) = .ok (us, s2) := h2
    cases this; rfl
  obtain ⟨terms', rho', g1, g2, g3, g4, g5, g6⟩ := mpdo_core hqr hDn p1 p2 (us := us) (by rw [hus]; simp) (by
    rw [hus, p3]
    intro u hu'
    obtain ⟨k, _, rfl⟩ := List.mem_map.1 hu'
    exact hu k) h3
  rw [h4] at g1
  cases g1
  rw [h5] at g2
  cases g2
  obtain ⟨z', k1, k2⟩ := g6 _ _ _ h6
  rw [h] at k1
  cases k1
  exact k2

/-! ### a concrete run -/

/-- A generator that returns only ones. -/
noncomputable def exRand : RandState := ⟨fun _ => 1, fun _ => 1⟩

theorem exRand_mpa (qr : QR ℂ) : randomMpa qr 2 (.scalar 2) (.scalar 1) false false true exRand
    = .ok (⟨[⟨[1, 2, 1], fun _ => ((1 : ℝ) : ℂ) + Complex.I * ((1 : ℝ) : ℂ)⟩,
      ⟨[1, 2, 1], fun _ => ((1 : ℝ) : ℂ) + Complex.I * ((1 : ℝ) : ℂ)⟩], 0, 2⟩, exRand) := rfl

theorem one_add_I_ne : ((1 : ℝ) : ℂ) + Complex.I * ((1 : ℝ) : ℂ) ≠ 0 := by
  intro h
  have := congrArg Complex.re h
  simp at this

theorem unitaryHaar_one {qr : QR ℂ} (hqr : QRSpec qr) : ∃ u, unitaryHaar qr 1 exRand = .ok (u, exRand) := by
  set A : NDArray ℂ := ⟨[1, 1], fun _ => (((1 : ℝ) : ℂ) + Complex.I * ((1 : ℝ) : ℂ)) / ((Real.sqrt 2 : ℝ) : ℂ)⟩ with hA
  obtain ⟨_, _, q3, _⟩ := hqr A 1 1 rfl
  have h0 := q3 0 one_pos 0 one_pos
  have hne : (qr A).2.get [0, 0] ≠ 0 := by
    intro h
    simp only [min_self, Finset.sum_range_one, h, mul_zero] at h0
    have h2 : ((Real.sqrt 2 : ℝ) : ℂ) ≠ 0 := by
      exact_mod_cast (Real.sqrt_ne_zero'.2 (by norm_num))
    exact div_ne_zero one_add_I_ne h2 h0.symm
  obtain ⟨u, hu⟩ : ∃ u, haarPhases 1 (qr A).1 (qr A).2 = .ok u := by
    unfold haarPhases pyGuard
    rw [if_pos (by intro k hk
                   obtain rfl : k = 0 := by omega
                   exact hne)]
    exact ⟨_, rfl⟩
  have hz : zrandn [1, 1] exRand = .ok (⟨[1, 1], fun _ => ((1 : ℝ) : ℂ) + Complex.I * ((1 : ℝ) : ℂ)⟩, exRand) := rfl
  exact ⟨u, (rng_bind_ok hz).trans (rng_lift_ok hu)⟩

example : ∃ qr : QR ℂ, QRSpec qr ∧ ∃ z s', randomMpdo qr 2 (.scalar 2) 1 exRand = .ok (z, s') ∧
    (LdimArg.scalar 2).legs 2 = singles [2, 2] ∧ (∀ k, 0 ≤ exRand.uniform k) := by
  obtain ⟨qr, hqr⟩ := exists_QRSpec (𝕜 := ℂ)
  refine ⟨qr, hqr, ?_⟩
  have hD : (LdimArg.scalar 2).legs 2 = singles [2, 2] := rfl
  obtain ⟨x, s1, h1, h2, h3⟩ := C49_random_mpa_normalized hqr 2 (by norm_num) (.scalar 2) trivial (.scalar 1) trivial
    ⟨by rw [hD]; simp, fun _ _ => one_pos⟩ false true exRand
  rw [exRand_mpa] at h1
  cases h1
  obtain ⟨ψ, g1, _⟩ := h3 ⟨[[0], [0]], by simp [MPA.shape, physShape, NDArray.ph, IdxOK, InB], by
    simp only [MPA.val, entry, mp, NDArray.at3, NDArray.rb]
    simp [one_add_I_ne]
    have := one_add_I_ne
    simpa using this⟩
  have hψ : randomMps qr 2 (.scalar 2) (.scalar 1) false exRand = .ok (ψ, exRand) := g1
  obtain ⟨k1, _⟩ := pureTerm_of_randomMps hqr (by norm_num) (by trivial) hD (by simp) hψ
  have hw : normWeights [1] = .ok [1 / ([1] : List ℝ).sum] := by
    unfold normWeights pyGuard
    rw [if_pos (by simp)]
    rfl
  obtain ⟨terms, rho, r1, r2, r3, r4, r5, r6⟩ := mpdo_core hqr (n := 2) (D := [2, 2]) rfl (rank := 1) (psis := [ψ]) rfl
    (by simpa using k1) (us := [1]) rfl (by simp) hw
  obtain ⟨u, hu⟩ := unitaryHaar_one hqr
  obtain ⟨u1, _, u3⟩ := unitaryHaar_inv hqr hu
  have hlen : rho.lt.length = 2 := by
    have := congrArg List.length r5
    simp [MPA.ranks] at this
    omega
  obtain ⟨sig, t1, _⟩ := scrambleStep_ok r3 r4 (n := 0) (r := 1) (by omega) (by rw [r5]; rfl) u1 u3
  have hsc : scramble qr rho.ranks 0 rho exRand = .ok (sig, exRand) := by
    rw [r5]
    show (unitaryHaar qr 1 >>= _) exRand = _
    rw [rng_bind_ok hu, rng_bind_ok (rng_lift_ok t1)]
    rfl
  obtain ⟨z, z1, _⟩ := r6 _ _ _ hsc
  refine ⟨z, exRand, ?_, hD, fun _ => zero_le_one⟩
  unfold randomMpdo
  have ht : Rng.times (randomMps qr 2 (.scalar 2) (.scalar 1) false) 1 exRand = .ok ([ψ], exRand) := by
    show (randomMps qr 2 (.scalar 2) (.scalar 1) false >>= _) exRand = _
    rw [rng_bind_ok hψ]
    rfl
  have hr : rand 1 exRand = .ok ([1], exRand) := rfl
  rw [rng_bind_ok ht, rng_bind_ok hr, rng_bind_ok (rng_lift_ok hw), rng_bind_ok (rng_lift_ok r1),
    rng_bind_ok (rng_lift_ok r2), rng_bind_ok hsc]
  exact rng_lift_ok z1

end Mpnum
