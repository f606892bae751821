import Verif.Linalg.EigMain
import Verif.Oracle.Eigs
import Verif.Props.C49Random

/-!
# C37: what `eig` returns

With `var_sites = 1` and at least one sweep, `eig` returns a number and a unit vector `v` with `eigval = <v|H|v>`.
-/

open Finset

namespace Mpnum

/-- The arguments `startvec` and `startvec_rank` of `eig`: a given start vector is an MPS with the local dimensions of
the operator; otherwise the rank of the random one is not zero. -/
structure StartArgs (D : List ℕ) (startvec : Option (MPA ℂ)) (startRank : Option ℕ) : Prop where
  given : ∀ v, startvec = some v → v.Good ∧ v.shape = singles D
  rank : startvec = none → startRank ≠ some 0

/-- The expectation value `<f|H|f>` for the entries `f` of a vector. -/
noncomputable def energy (D : List ℕ) (H : MPA ℂ) (f : List ℕ → ℂ) : ℂ := braket D D f (fun I J => H.val (pairs I J)) f

/-- `<f|f>` -/
noncomputable def normSq (D : List ℕ) (f : List ℕ → ℂ) : ℝ := sumIdx D fun I => ‖f I‖ ^ 2

/-- `H` is Hermitian: `H[I, J]` is the conjugate of `H[J, I]`. -/
def IsHerm (H : MPA ℂ) (D : List ℕ) : Prop := ∀ I J, InB I D → InB J D → H.val (pairs I J) = star (H.val (pairs J I))

/-- The entries of an MPS. -/
def vec (y : MPA ℂ) (I : List ℕ) : ℂ := y.val (singles I)

theorem firstDims_pairs (D : List ℕ) : firstDims (pairs D D) = .ok (singles D) := by
  induction D with
  | nil => rfl
  | cons d D ih =>
    show (([d, d] :: pairs D D).mapM _ : Py _) = _
    unfold firstDims at ih
    rw [List.mapM_cons, ih]; rfl

theorem lb_le_of_ranks {x : MPA ℂ} (hx : x.Valid) {M : ℕ} (hM : 1 ≤ M) (h : ∀ r ∈ x.ranks, r ≤ M) :
    ∀ t ∈ x.lt, t.lb ≤ M := by
  intro t ht
  have hc := hx.chain
  unfold MPA.ranks at h
  cases hxl : x.lt with
  | nil => rw [hxl] at ht; simp at ht
  | cons u us =>
    rw [hxl] at ht hc h
    rcases List.mem_cons.1 ht with rfl | ht
    · rw [hc.2.1]; exact hM
    · exact h _ (List.mem_map.2 ⟨t, ht, rfl⟩)

/-- The start vector. -/
theorem eigStart_cases {qr : QR ℂ} (hqr : QRSpec qr) {D : List ℕ} (hne : D ≠ []) (hpos : ∀ d ∈ D, 0 < d) {sv : Option (MPA ℂ)}
    {sr : Option ℕ} (hs : StartArgs D sv sr) (rs : RandState) :
    (∃ e, eigStart qr D.length (pairs D D) sv sr rs = .error e ∧ sv = none ∧
      ((e = .value ∧ (sr = none ∨ sr = some 1)) ∨ e = .zeroDiv)) ∨
    ∃ v, eigStart qr D.length (pairs D D) sv sr rs = .ok v ∧ v.Good ∧ v.shape = singles D ∧ (∀ x, sv = some x → v = x) ∧
      (sv = none → normSq D (vec v) = 1 ∧ ∃ r, sr = some r ∧ ∀ q ∈ v.ranks, q ≤ r) := by
  cases sv with
  | some x =>
    obtain ⟨h1, h2⟩ := hs.given x rfl
    exact Or.inr ⟨x, h1.valid.copy_ok, h1, h2, fun _ h => Option.some.inj h, fun h => by cases h⟩
  | none =>
    cases sr with
    | none => exact Or.inl ⟨.value, rfl, rfl, Or.inl ⟨rfl, Or.inl rfl⟩⟩
    | some r =>
      have hr0 : r ≠ 0 := fun h => hs.rank rfl (by rw [h])
      by_cases hr1 : r = 1
      · subst hr1
        exact Or.inl ⟨.value, rfl, rfl, Or.inl ⟨rfl, Or.inr rfl⟩⟩
      · have hn : 0 < D.length := List.length_pos_of_ne_nil hne
        obtain ⟨x, s', x1, x2, -⟩ := randomMpa_ok qr hn (ldim := .nested (singles D)) (by
          simp [LdimArg.Fits, singles]) (rank := .scalar r) trivial false true rs
        have hp : PosArgs (LdimArg.legs D.length (.nested (singles D))) (.scalar r) := by
          refine ⟨?_, fun c _ => by simp [RankArg.at]; omega⟩
          intro s hs d hd
          obtain ⟨e, he, rfl⟩ := List.mem_map.1 (show s ∈ singles D from hs)
          simp at hd; subst hd; exact hpos _ he
        have xg := x2.good hp
        have xs : x.shape = singles D := x2.shape
        obtain ⟨y, y1, y2, -, -⟩ := MPA.canonicalize_right_first hqr xg
        obtain ⟨z, z1, z2⟩ := norm_ok hqr y2.good
        have hrun : eigStart qr D.length (pairs D D) none (some r) rs = z.itruediv ((y.frob : ℝ) : ℂ) := by
          unfold eigStart
          simp only [if_neg hr1]
          rw [firstDims_pairs]
          simp only [ok_bind, pure_bind, x1, y1, z1]
        rw [hrun]
        by_cases h0 : y.frob = 0
        · rw [h0, Complex.ofReal_zero]
          refine Or.inl ⟨.zeroDiv, ?_, rfl, Or.inr rfl⟩
          simp [MPA.itruediv]
        · have hne0 : ((y.frob : ℝ) : ℂ) ≠ 0 := by exact_mod_cast h0
          obtain ⟨v, v1, v2, v3⟩ := C06_imul z z2.good.valid (1 / ((y.frob : ℝ) : ℂ))
          have hzs : z.shape = singles D := by rw [z2.same.1, y2.same.1, xs]
          have hvs : v.shape = singles D := by rw [v2.shape, hzs]
          have hbx : ∀ q ∈ x.ranks, q ≤ r := by
            rw [x2.ranks]
            intro q hq
            obtain ⟨c, _, rfl⟩ := List.mem_map.1 hq
            simp only [Bool.false_eq_true, if_false, RankArg.at]
            omega
          have hbz := SweepInv.bound_of_ranksLe z2.ranks (SweepInv.bound_of_ranksLe y2.ranks
            (lb_le_of_ranks xg.valid (by omega) hbx))
          refine Or.inr ⟨v, ?_, ?_, hvs, fun _ h => (by cases h), fun _ => ⟨?_, r, rfl, ?_⟩⟩
          · show (if ((y.frob : ℝ) : ℂ) = 0 then Except.error PyErr.zeroDiv else z.imul (1 / ((y.frob : ℝ) : ℂ))) = _
            rw [if_neg hne0, v1]
          · refine ⟨v2.valid, v3 z2.good.canon, allPos_of v2.valid ?_ ?_⟩
            · rw [hvs]
              intro s hs d hd
              obtain ⟨e, he, rfl⟩ := List.mem_map.1 hs
              simp at hd; subst hd; exact hpos _ he
            · rw [v2.ranks]
              intro q hq
              obtain ⟨t, ht, rfl⟩ := List.mem_map.1 hq
              have ht' := List.mem_of_mem_tail ht
              refine z2.good.pos t ht' _ ?_
              have hloc : t.IsLocal := by
                have hc : ∀ {ts : List (NDArray ℂ)} {a b : ℕ}, Chained a ts b → ∀ t ∈ ts, t.IsLocal := by
                  intro ts
                  induction ts with
                  | nil => simp
                  | cons u us ih =>
                    rintro a b ⟨h1, h2, h3⟩ t ht
                    rcases List.mem_cons.1 ht with rfl | ht
                    · exact h1
                    · exact ih h3 t ht
                exact hc z2.good.valid.chain t ht'
              rw [NDArray.shape_local hloc]; simp
          · have hf : v.frob = 1 := by
              rw [frob_scale v2.shape v2.val, z2.same.frob, norm_div, norm_one, Complex.norm_real, Real.norm_eq_abs,
                abs_of_nonneg (show 0 ≤ y.frob from Real.sqrt_nonneg _)]
              field_simp
            have := congrArg (· ^ 2) hf
            simp only [MPA.frob, one_pow] at this
            rw [Real.sq_sqrt (sumSites_nonneg fun i => by positivity), hvs] at this
            unfold normSq vec
            rw [← this]
            exact (sumSites_singles D fun i => ‖v.val i‖ ^ 2).symm
          · rw [v2.ranks]
            intro q hq
            obtain ⟨t, ht, rfl⟩ := List.mem_map.1 hq
            exact hbz t (List.mem_of_mem_tail ht)

theorem normSq_eq (D : List ℕ) (f : List ℕ → ℂ) : (sumIdx D fun I => star (f I) * f I) = ((normSq D f : ℝ) : ℂ) :=
  norm_sq_sum f

/-- A bound on the ranks of an object. -/
def maxLb (v : MPA ℂ) : ℕ := (v.lt.map NDArray.lb).foldr max 0

theorem le_maxLb (v : MPA ℂ) : ∀ t ∈ v.lt, t.lb ≤ maxLb v := by
  have : ∀ (L : List ℕ), ∀ x ∈ L, x ≤ L.foldr max 0 := by
    intro L
    induction L with
    | nil => simp
    | cons a L ih =>
      intro x hx
      rcases List.mem_cons.1 hx with rfl | hx
      · simp
      · exact (ih x hx).trans (by simp)
  intro t ht
  exact this _ _ (List.mem_map.2 ⟨t, ht, rfl⟩)

/-- Errors that `eig` can raise once it has a start vector `v`. -/
def EigErr (Pe : PyErr → Prop) (m : ℕ) (v : MPA ℂ) (e : PyErr) : Prop :=
  Pe e ∨ (e = .unbound ∧ m = 0) ∨ (e = .assertion ∧ twoRanksOne v)

theorem eigRun_cases {E : Type} {qr : QR ℂ} {svd : SVD ℂ} {eigs : EigsFun} {k : ℕ} {D : List ℕ}
    {Hf : List ℕ → List ℕ → ℂ} {EL ER : List (NDArray ℂ) → E → Prop} {o : SweepOps ℂ E ℂ}
    (ho : OpsFor qr svd eigs k D Hf EL ER o) (hqr : QRSpec qr) (hsvd : SVDSpec svd)
    {herm mono : Prop} {Pe : PyErr → Prop} {B : ℝ}
    (heigs : EigsSpec herm Pe eigs) (hherm : herm → ∀ I J, InB I D → InB J D → Hf I J = star (Hf J I))
    (hmono : mono → k = 1 ∧ EigsMin eigs ∧ ∀ I J, InB I D → InB J D → Hf I J = star (Hf J I)) (hk : 0 < k)
    (hkn : k ≤ D.length) {v : MPA ℂ} (hv : v.Good) (hvs : v.shape = singles D) {e0 : E} (he : EL [] e0) (hf : ER [] e0)
    (hB : mono → 0 < normSq D (vec v) ∧ (braket D D (vec v) Hf (vec v)).re ≤ B * normSq D (vec v)) (m : ℕ) :
    (∃ e, eigRun qr o e0 D.length m k v = .error e ∧ EigErr Pe m v e) ∨
      ∃ x, eigRun qr o e0 D.length m k v = .ok x ∧ EigOut D Hf k (maxLb v) mono B x := by
  have h := eigRun_rel hqr (sweepSpec_self (B := B) ho hqr hsvd heigs hherm hmono hk (maxLb v)) hk hkn hv hvs (le_maxLb v)
    (e₁ := e0) (e₂ := e0) ⟨he, rfl⟩ ⟨hf, rfl⟩ ⟨fun _ h => (by cases h), hB⟩ m
  cases hx : eigRun qr o e0 D.length m k v with
  | error e => rw [hx] at h; exact Or.inl ⟨e, rfl, h.2⟩
  | ok x => rw [hx] at h; exact Or.inr ⟨x, rfl, h.2⟩

/-- `eig` with the start vector made explicit. -/
theorem eig_eq {qr : QR ℂ} {svd : SVD ℂ} {eigs : EigsFun} {H : MPA ℂ} {D : List ℕ} (hH : IsMpo H D) {m k : ℕ}
    (hk : k < D.length) (sv : Option (MPA ℂ)) (sr : Option ℕ) (rs : RandState) :
    eig qr svd eigs H m k sv sr rs = (eigStart qr D.length (pairs D D) sv sr rs >>= fun v =>
      eigRun qr (eigOps qr svd eigs H k) (onesNd 3) D.length m k v) := by
  unfold eig
  have hl : H.len = D.length := isMpo_length hH
  have hsh : H.shape = pairs D D := hH.shape
  have : (pyAssert (k < H.len) : Py Unit) = .ok () := by rw [pyAssert, if_pos (by omega)]
  rw [this, ok_bind, hl, hsh]

/-- `eig` rejects `var_sites ≥ len(mpo)`. -/
theorem C37_var_sites_too_large (qr : QR ℂ) (svd : SVD ℂ) (eigs : EigsFun) (H : MPA ℂ) (m k : ℕ) (hk : H.len ≤ k)
    (sv : Option (MPA ℂ)) (sr : Option ℕ) (rs : RandState) : eig qr svd eigs H m k sv sr rs = .error .assertion := by
  unfold eig
  have : (pyAssert (k < H.len) : Py Unit) = .error .assertion := by rw [pyAssert, if_neg (by omega)]
  rw [this]; rfl

/-- A successful call, together with its start vector. -/
theorem eig_inv {qr : QR ℂ} {svd : SVD ℂ} (hqr : QRSpec qr) (hsvd : SVDSpec svd) {herm mono : Prop} {Pe : PyErr → Prop}
    {eigs : EigsFun} (heigs : EigsSpec herm Pe eigs) {H : MPA ℂ} {D : List ℕ} (hH : IsMpo H D) (hD : ∀ d ∈ D, 0 < d)
    (hherm : herm → IsHerm H D) {k : ℕ} (hmono : mono → k = 1 ∧ EigsMin eigs ∧ IsHerm H D) (hk : 0 < k)
    {sv : Option (MPA ℂ)} {sr : Option ℕ} {rs : RandState} (hs : StartArgs D sv sr) {m : ℕ} {lam : ℂ} {y : MPA ℂ}
    (h : eig qr svd eigs H m k sv sr rs = .ok (lam, y)) :
    k < D.length ∧ ∃ v, eigStart qr D.length (pairs D D) sv sr rs = .ok v ∧ v.Good ∧ v.shape = singles D ∧
      (∀ x, sv = some x → v = x) ∧ (sv = none → normSq D (vec v) = 1 ∧ ∃ r, sr = some r ∧ ∀ q ∈ v.ranks, q ≤ r) ∧
      ∀ B : ℝ, (mono → 0 < normSq D (vec v) ∧ (energy D H (vec v)).re ≤ B * normSq D (vec v)) →
        EigOut D (fun I J => H.val (pairs I J)) k (maxLb v) mono B (lam, y) := by
  have hkn : k < D.length := by
    by_contra h0
    rw [C37_var_sites_too_large qr svd eigs H m k (by rw [show H.len = D.length from isMpo_length hH]; omega)] at h
    cases h
  rw [eig_eq hH hkn] at h
  have hne : D ≠ [] := by rintro rfl; simp at hkn
  rcases eigStart_cases hqr hne hD hs rs with ⟨e, h1, _⟩ | ⟨v, h1, h2, h3, h4, h5⟩
  · rw [h1] at h; cases h
  · rw [h1, ok_bind] at h
    refine ⟨hkn, v, h1, h2, h3, h4, h5, fun B hB => ?_⟩
    rcases eigRun_cases (B := B) (eigOps_opsFor qr svd eigs hH hk) hqr hsvd heigs hherm hmono hk hkn.le h2 h3
      (mpoL_nil H D) (mpoR_nil hH) hB m with ⟨e, g1, _⟩ | ⟨x, g1, g2⟩
    · rw [g1] at h; cases h
    · rw [g1] at h; cases h; exact g2

/-- What the property claims: the returned vector is an MPS of norm one with the local dimensions of the operator, and
the eigenvalue is its expectation value, which is also what `norm` and `sandwich` compute. -/
structure EigValue (qr : QR ℂ) (D : List ℕ) (H : MPA ℂ) (lam : ℂ) (y : MPA ℂ) : Prop where
  good : y.Good
  shape : y.shape = singles D
  norm : normSq D (vec y) = 1
  value : energy D H (vec y) = lam
  apiNorm : ∃ z, Mpnum.norm qr y = .ok (1, z)
  apiValue : sandwich H y none = .ok lam

theorem eigValue_of_out {qr : QR ℂ} (hqr : QRSpec qr) {H : MPA ℂ} {D : List ℕ} (hH : IsMpo H D) {M : ℕ} {mono : Prop}
    {B : ℝ} {lam : ℂ} {y : MPA ℂ} (h : EigOut D (fun I J => H.val (pairs I J)) 1 M mono B (lam, y)) :
    EigValue qr D H lam y := by
  obtain ⟨w, w1, w2, w3, w4⟩ := h.prop.value lam rfl
  have hw := w4 rfl
  have hn : normSq D (vec y) = 1 := by
    have : (sumIdx D fun I => star (vec y I) * vec y I) = 1 := by
      rw [← w1]
      refine sumIdx_congr fun I hI => ?_
      have := hw I hI
      simp only [vec]
      rw [this]
    rw [normSq_eq] at this
    exact Complex.ofReal_eq_one.1 this
  have he : energy D H (vec y) = lam := by
    rw [← w2]
    exact braket_congr hw hw fun _ _ _ _ => rfl
  have hs : y.shape = singles D := h.shape
  refine ⟨h.good, hs, hn, he, ?_, ?_⟩
  · obtain ⟨z, z1, _⟩ := norm_ok hqr h.good
    have : y.frob = 1 := by
      unfold MPA.frob
      rw [hs, sumSites_singles D fun i => ‖y.val i‖ ^ 2, show (sumIdx D fun I => ‖y.val (singles I)‖ ^ 2) = 1 from hn,
        Real.sqrt_one]
    exact ⟨z, by rw [← this]; exact z1⟩
  · rw [C36_sandwich_default H y D ⟨hH.valid, hH.shape, rfl⟩ ⟨h.good.valid, hs⟩]
    exact congrArg Except.ok he

/-- C37: for every operator, every local solver that returns normalised eigenvectors of the matrices it is given, every
start vector (given or random) and every number of sweeps.  (Without sweeps `eig` does not return.) -/
theorem C37_value {qr : QR ℂ} {svd : SVD ℂ} (hqr : QRSpec qr) (hsvd : SVDSpec svd) {Pe : PyErr → Prop} {eigs : EigsFun}
    (heigs : EigsSpec False Pe eigs) (H : MPA ℂ) (D : List ℕ) (hH : IsMpo H D) (hD : ∀ d ∈ D, 0 < d)
    (sv : Option (MPA ℂ)) (sr : Option ℕ) (rs : RandState) (hs : StartArgs D sv sr) (m : ℕ) (lam : ℂ) (y : MPA ℂ)
    (h : eig qr svd eigs H m 1 sv sr rs = .ok (lam, y)) : EigValue qr D H lam y := by
  obtain ⟨_, v, _, _, _, _, _, h6⟩ := eig_inv (mono := False) hqr hsvd heigs hH hD (fun h => h.elim) (fun h => h.elim)
    one_pos hs h
  exact eigValue_of_out hqr hH (h6 0 fun h => h.elim)

/-- C37 for a Hermitian operator and a local solver that only handles Hermitian matrices (as the default one,
`scipy.sparse.linalg.eigsh`).  The eigenvalue is real. -/
theorem C37_value_hermitian {qr : QR ℂ} {svd : SVD ℂ} (hqr : QRSpec qr) (hsvd : SVDSpec svd) {Pe : PyErr → Prop}
    {eigs : EigsFun} (heigs : EigsSpec True Pe eigs) (H : MPA ℂ) (D : List ℕ) (hH : IsMpo H D) (hD : ∀ d ∈ D, 0 < d)
    (hherm : IsHerm H D) (sv : Option (MPA ℂ)) (sr : Option ℕ) (rs : RandState) (hs : StartArgs D sv sr) (m : ℕ) (lam : ℂ)
    (y : MPA ℂ) (h : eig qr svd eigs H m 1 sv sr rs = .ok (lam, y)) : EigValue qr D H lam y ∧ lam.im = 0 := by
  obtain ⟨_, v, _, _, _, _, _, h6⟩ := eig_inv (mono := False) hqr hsvd heigs hH hD (fun _ => hherm) (fun h => h.elim)
    one_pos hs h
  have hv := eigValue_of_out hqr hH (h6 0 fun h => h.elim)
  refine ⟨hv, Complex.conj_eq_iff_im.1 ?_⟩
  rw [← hv.value, energy, show (starRingEnd ℂ) (braket D D (vec y) (fun I J => H.val (pairs I J)) (vec y))
    = star (braket D D (vec y) (fun I J => H.val (pairs I J)) (vec y)) from rfl]
  unfold braket
  rw [star_sumIdx, sumIdx_congr (g := fun I => sumIdx D fun J => star (vec y J) * H.val (pairs J I) * vec y I)
    fun I hI => by
      rw [star_sumIdx]
      refine sumIdx_congr fun J hJ => ?_
      rw [star_mul', star_mul', star_star, ← hherm J I hJ hI]; ring]
  rw [sumIdx_comm]

/-- For any number of sites varied at once: there is a unit vector `w` whose expectation value is the returned eigenvalue,
and the returned vector `y` is `w` after the ranks were cut: `<w|y> = <y|y>`, so that the norm of `y` is at most one.  The
ranks of `y` are not larger than the largest rank of the start vector. -/
theorem C37_var_sites {qr : QR ℂ} {svd : SVD ℂ} (hqr : QRSpec qr) (hsvd : SVDSpec svd) {Pe : PyErr → Prop}
    {eigs : EigsFun} (heigs : EigsSpec False Pe eigs) (H : MPA ℂ) (D : List ℕ) (hH : IsMpo H D) (hD : ∀ d ∈ D, 0 < d)
    (k : ℕ) (hk : 0 < k) (v : MPA ℂ) (hv : v.Good) (hvs : v.shape = singles D) (sr : Option ℕ) (rs : RandState) (m : ℕ)
    (lam : ℂ) (y : MPA ℂ) (h : eig qr svd eigs H m k (some v) sr rs = .ok (lam, y)) :
    y.Good ∧ y.shape = singles D ∧ (∀ M, 1 ≤ M → (∀ q ∈ v.ranks, q ≤ M) → ∀ q ∈ y.ranks, q ≤ M) ∧
      ∃ w : List ℕ → ℂ, normSq D w = 1 ∧ energy D H w = lam ∧
        (sumIdx D fun I => star (w I) * vec y I) = ((normSq D (vec y) : ℝ) : ℂ) ∧ normSq D (vec y) ≤ 1 := by
  obtain ⟨_, v', _, _, _, e, _, h6⟩ := eig_inv (mono := False) hqr hsvd heigs hH hD (fun h => h.elim) (fun h => h.elim)
    hk ⟨fun x hx => by cases hx; exact ⟨hv, hvs⟩, fun h => by cases h⟩ h
  obtain rfl := e v rfl
  have ho := h6 0 fun h => h.elim
  obtain ⟨w, w1, w2, w3, w4⟩ := ho.prop.value lam rfl
  have hw : normSq D w = 1 := by rw [normSq_eq] at w1; exact Complex.ofReal_eq_one.1 w1
  have hwy : (sumIdx D fun I => star (w I) * vec y I) = ((normSq D (vec y) : ℝ) : ℂ) := by
    rw [← normSq_eq]; exact w3
  refine ⟨ho.good, ho.shape, ?_, w, hw, w2, hwy, ?_⟩
  · intro M hM hr q hq
    obtain ⟨t, ht, rfl⟩ := List.mem_map.1 hq
    have h1 := ho.rank t (List.mem_of_mem_tail ht)
    have h2 : maxLb v' ≤ M := by
      have := lb_le_of_ranks hv.valid hM hr
      unfold maxLb
      have aux : ∀ L : List ℕ, (∀ x ∈ L, x ≤ M) → L.foldr max 0 ≤ M := by
        intro L
        induction L with
        | nil => simp
        | cons a L ih => intro hL; simp only [List.foldr_cons]; exact max_le (hL a (by simp)) (ih fun x hx => hL x (by simp [hx]))
      refine aux _ fun x hx => ?_
      obtain ⟨t, ht, rfl⟩ := List.mem_map.1 hx
      exact this t ht
    exact h1.trans h2
  · -- 0 ≤ |w - y|^2 = 1 - <y|y>
    have hexp : (normSq D fun I => w I - vec y I) = 1 - normSq D (vec y) := by
      have e1 : (((normSq D fun I => w I - vec y I) : ℝ) : ℂ) = ((1 - normSq D (vec y) : ℝ) : ℂ) := by
        have e2 : (sumIdx D fun I => star (vec y I) * w I) = ((normSq D (vec y) : ℝ) : ℂ) := by
          have := congrArg star hwy
          rw [star_sumIdx, show star ((normSq D (vec y) : ℝ) : ℂ) = ((normSq D (vec y) : ℝ) : ℂ) from Complex.conj_ofReal _]
            at this
          rw [← this]
          exact sumIdx_congr fun I _ => by rw [star_mul', star_star, mul_comm]
        rw [← normSq_eq, sumIdx_eq_sum]
        simp only [star_sub, sub_mul, mul_sub, Finset.sum_sub_distrib]
        simp only [← sumIdx_eq_sum]
        rw [hwy, e2, normSq_eq, normSq_eq, hw]
        push_cast; ring
      exact_mod_cast e1
    have h0 : 0 ≤ normSq D fun I => w I - vec y I := by
      unfold normSq; rw [sumIdx_eq_sum]; exact Finset.sum_nonneg fun _ _ => by positivity
    linarith

/-- The eigenvalue is never below a lower bound of the operator: `eig` can only give upper bounds on the lowest
eigenvalue. -/
theorem C37_lower_bound {qr : QR ℂ} {svd : SVD ℂ} (hqr : QRSpec qr) (hsvd : SVDSpec svd) {Pe : PyErr → Prop}
    {eigs : EigsFun} (heigs : EigsSpec True Pe eigs) (H : MPA ℂ) (D : List ℕ) (hH : IsMpo H D) (hD : ∀ d ∈ D, 0 < d)
    (hherm : IsHerm H D) (c : ℝ) (hc : ∀ w : List ℕ → ℂ, c * normSq D w ≤ (energy D H w).re)
    (k : ℕ) (hk : 0 < k) (sv : Option (MPA ℂ)) (sr : Option ℕ) (rs : RandState) (hs : StartArgs D sv sr) (m : ℕ) (lam : ℂ)
    (y : MPA ℂ) (h : eig qr svd eigs H m k sv sr rs = .ok (lam, y)) : c ≤ lam.re := by
  obtain ⟨_, v, _, _, _, _, _, h6⟩ := eig_inv (mono := False) hqr hsvd heigs hH hD (fun _ => hherm) (fun h => h.elim) hk hs h
  obtain ⟨w, w1, w2, -, -⟩ := (h6 0 fun h => h.elim).prop.value lam rfl
  have hw : normSq D w = 1 := by rw [normSq_eq] at w1; exact Complex.ofReal_eq_one.1 w1
  have := hc w
  rw [hw, mul_one] at this
  rw [← w2]; exact this

/-- With one site at a time and a local solver that returns a lowest eigenvalue, the result is never above the
expectation value of the start vector. -/
theorem C37_not_above_start {qr : QR ℂ} {svd : SVD ℂ} (hqr : QRSpec qr) (hsvd : SVDSpec svd) {Pe : PyErr → Prop}
    {eigs : EigsFun} (heigs : EigsSpec True Pe eigs) (hmin : EigsMin eigs) (H : MPA ℂ) (D : List ℕ) (hH : IsMpo H D)
    (hD : ∀ d ∈ D, 0 < d) (hherm : IsHerm H D) (v : MPA ℂ) (hv : v.Good) (hvs : v.shape = singles D)
    (hv0 : normSq D (vec v) ≠ 0) (sr : Option ℕ) (rs : RandState) (m : ℕ) (lam : ℂ) (y : MPA ℂ)
    (h : eig qr svd eigs H m 1 (some v) sr rs = .ok (lam, y)) :
    lam.re ≤ (energy D H (vec v)).re / normSq D (vec v) := by
  have hpos : 0 < normSq D (vec v) := by
    refine lt_of_le_of_ne ?_ hv0.symm
    unfold normSq; rw [sumIdx_eq_sum]; exact Finset.sum_nonneg fun _ _ => by positivity
  obtain ⟨_, v', _, _, _, e, _, h6⟩ := eig_inv (mono := True) hqr hsvd heigs hH hD (fun _ => hherm)
    (fun _ => ⟨rfl, hmin, hherm⟩) one_pos ⟨fun x hx => by cases hx; exact ⟨hv, hvs⟩, fun h => by cases h⟩ h
  obtain rfl := e v rfl
  have ho := h6 ((energy D H (vec v')).re / normSq D (vec v')) fun _ => ⟨hpos, by rw [div_mul_cancel₀ _ hpos.ne']⟩
  have hval := eigValue_of_out hqr hH ho
  have := (ho.prop.energy trivial).2
  change (energy D H (vec y)).re ≤ _ * normSq D (vec y) at this
  rwa [hval.value, hval.norm, mul_one] at this

theorem run_succ {E : Type} (o : SweepOps ℂ E ℂ) (qr : QR ℂ) (k n m : ℕ) (e0 : E) (v : MPA ℂ) :
    o.run qr k n (m + 1) e0 v = (o.run qr k n m e0 v >>= fun s => o.sweep qr k n s m) := by
  unfold SweepOps.run
  cases o.initRight k n e0 v with
  | error e => rfl
  | ok r =>
    rw [ok_bind, ok_bind, List.range_succ, List.foldlM_append]
    refine congrArg _ (funext fun s => ?_)
    rw [List.foldlM_cons]
    cases o.sweep qr k n s m <;> rfl

/-- One more sweep does not increase the result. -/
theorem C37_more_sweeps {qr : QR ℂ} {svd : SVD ℂ} (hqr : QRSpec qr) (hsvd : SVDSpec svd) {Pe : PyErr → Prop}
    {eigs : EigsFun} (heigs : EigsSpec True Pe eigs) (hmin : EigsMin eigs) (H : MPA ℂ) (D : List ℕ) (hH : IsMpo H D)
    (hD : ∀ d ∈ D, 0 < d) (hherm : IsHerm H D) (sv : Option (MPA ℂ)) (sr : Option ℕ) (rs : RandState)
    (hs : StartArgs D sv sr) (m : ℕ) (lam lam' : ℂ) (y y' : MPA ℂ) (h : eig qr svd eigs H m 1 sv sr rs = .ok (lam, y))
    (h' : eig qr svd eigs H (m + 1) 1 sv sr rs = .ok (lam', y')) : lam'.re ≤ lam.re := by
  obtain ⟨hkn, v, v1, v2, v3, _, _, h6⟩ := eig_inv (mono := False) hqr hsvd heigs hH hD (fun _ => hherm)
    (fun h => h.elim) one_pos hs h
  have hval := eigValue_of_out hqr hH (h6 0 fun h => h.elim)
  obtain ⟨w, w1, w2, w3, w4⟩ := (h6 0 fun h => h.elim).prop.value lam rfl
  rw [eig_eq hH hkn, v1, ok_bind] at h h'
  unfold eigRun at h h'
  obtain ⟨_, ha, h⟩ := bind_ok_inv h
  rw [ha, ok_bind] at h'
  obtain ⟨u, hu, h⟩ := bind_ok_inv h
  rw [hu, ok_bind] at h'
  obtain ⟨st, hst, h⟩ := bind_ok_inv h
  rw [run_succ, hst, ok_bind] at h'
  obtain ⟨st', hst', h'⟩ := bind_ok_inv h'
  obtain ⟨u', c1, c2, c3, c4⟩ := MPA.canonicalize_right_first hqr v2
  rw [hu] at c1
  cases c1
  have hus : u.shape = singles D := by rw [c2.same.1, v3]
  have hul : u.lt.length = D.length := by
    have := congrArg List.length (show physShape u.lt = singles D from hus)
    rwa [physShape_length, singles_length] at this
  have ho := eigOps_opsFor qr svd eigs hH (k := 1) one_pos
  have hrun := run_inv hqr (sweepSpec_self (mono := False) (B := 0) ho hqr hsvd heigs (fun _ => hherm) (fun h => h.elim) one_pos
    (maxLb v)) one_pos hkn.le c2.good hul hus (SweepInv.bound_of_ranksLe c2.ranks (le_maxLb v)) c4
    (e₁ := onesNd 3) (e₂ := onesNd 3) ⟨mpoL_nil H D, rfl⟩ ⟨mpoR_nil hH, rfl⟩ ⟨fun _ h => (by cases h), fun h => h.elim⟩ m
  rw [hst] at hrun
  obtain ⟨i1, i2, i3⟩ := hrun
  have hm : m ≠ 0 := by
    intro h0
    rw [i2.2 h0] at h
    cases h
  have hyst : st.val = some lam ∧ st.vec = y := by
    cases hv : st.val with
    | none => rw [hv] at h; cases h
    | some a => rw [hv] at h; cases h; exact ⟨rfl, rfl⟩
  obtain ⟨j1, j2, j3, j4⟩ := i3 hm
  have hJ : EigJ D (fun I J => H.val (pairs I J)) 1 True lam.re st.vec.val st.val := by
    rw [hyst.1, hyst.2]
    refine ⟨fun l hl => by cases hl; exact ⟨w, w1, w2, w3, w4⟩, fun _ => ?_⟩
    change 0 < normSq D (vec y) ∧ (energy D H (vec y)).re ≤ lam.re * normSq D (vec y)
    rw [hval.norm, hval.value]
    exact ⟨one_pos, by rw [mul_one]⟩
  have hat : SweepAt D.length 1 (maxLb v) (singles D) (fun pre e e' => MpoL H D pre e ∧ e' = e)
      (fun post e e' => MpoR H D post e ∧ e' = e) (EigJ D (fun I J => H.val (pairs I J)) 1 True lam.re) 0 st st :=
    ⟨{ j1 with prop := hJ }, j2, j3, j4⟩
  have hsw := sweep_inv hqr (sweepSpec_self (mono := True) (B := lam.re) ho hqr hsvd heigs (fun _ => hherm)
    (fun _ => ⟨rfl, hmin, hherm⟩) one_pos (maxLb v)) one_pos hkn.le m (s₁ := st) (s₂ := st) (by rw [if_neg hm]; exact hat)
  rw [hst'] at hsw
  obtain ⟨k1, _, _, _⟩ := hsw
  have hyst' : st'.val = some lam' ∧ st'.vec = y' := by
    cases hv : st'.val with
    | none => rw [hv] at h'; cases h'
    | some a => rw [hv] at h'; cases h'; exact ⟨rfl, rfl⟩
  have hp := k1.prop
  rw [hyst'.1, hyst'.2] at hp
  obtain ⟨x, x1, x2, x3, x4⟩ := hp.value lam' rfl
  have hx := x4 rfl
  have e1 : energy D H (vec y') = lam' := by rw [← x2]; exact braket_congr hx hx fun _ _ _ _ => rfl
  have e2 : normSq D (vec y') = 1 := by
    rw [normSq_eq] at x1
    have := Complex.ofReal_eq_one.1 x1
    rw [← this]
    exact sumIdx_congr fun I hI => by rw [show vec y' I = x I from hx I hI]
  have := (hp.energy trivial).2
  change (energy D H (vec y')).re ≤ _ * normSq D (vec y') at this
  rwa [e1, e2, mul_one] at this

/-- `eig` returns, for a given start vector without two consecutive ranks one, at least one sweep and a local solver
that does not fail. -/
theorem C37_returns {qr : QR ℂ} {svd : SVD ℂ} (hqr : QRSpec qr) (hsvd : SVDSpec svd)
    {eigs : EigsFun} (heigs : EigsSpec False (fun _ => False) eigs) (H : MPA ℂ) (D : List ℕ) (hH : IsMpo H D)
    (k : ℕ) (hk : 0 < k) (hkn : k < D.length) (v : MPA ℂ) (hv : v.Good) (hvs : v.shape = singles D)
    (hv1 : ¬ twoRanksOne v) (sr : Option ℕ) (rs : RandState) (m : ℕ) (hm : m ≠ 0) :
    ∃ lam y, eig qr svd eigs H m k (some v) sr rs = .ok (lam, y) := by
  rw [eig_eq hH hkn]
  have : eigStart qr D.length (pairs D D) (some v) sr rs = .ok v := hv.valid.copy_ok
  rw [this, ok_bind]
  rcases eigRun_cases (mono := False) (B := 0) (eigOps_opsFor qr svd eigs hH hk) hqr hsvd heigs (fun h => h.elim)
    (fun h => h.elim) hk hkn.le hv hvs (mpoL_nil H D) (mpoR_nil hH) (fun h => h.elim) m with ⟨e, g1, g2⟩ | ⟨x, g1, g2⟩
  · rcases g2 with h | h | h
    · exact h.elim
    · exact absurd h.2 hm
    · exact absurd h.2 hv1
  · exact ⟨x.1, x.2, g1⟩

/-- Two consecutive ranks one in the start vector are rejected. -/
theorem C37_two_ranks_one (qr : QR ℂ) (svd : SVD ℂ) (eigs : EigsFun) (H : MPA ℂ) (D : List ℕ) (hH : IsMpo H D)
    (k : ℕ) (hkn : k < D.length) (v : MPA ℂ) (hv : v.Valid) (hv1 : twoRanksOne v) (sr : Option ℕ) (rs : RandState) (m : ℕ) :
    eig qr svd eigs H m k (some v) sr rs = .error .assertion := by
  rw [eig_eq hH hkn]
  have : eigStart qr D.length (pairs D D) (some v) sr rs = .ok v := hv.copy_ok
  rw [this, ok_bind]
  unfold eigRun
  have : (pyAssert (¬ twoRanksOne v) : Py Unit) = .error .assertion := by
    rw [pyAssert, if_neg (by simpa using hv1)]
  rw [this]; rfl

/-- Without a sweep, `eig` ends with an `UnboundLocalError` whatever the local solver does. -/
theorem C37_no_sweeps {qr : QR ℂ} {svd : SVD ℂ} (hqr : QRSpec qr) (hsvd : SVDSpec svd) (eigs : EigsFun) (H : MPA ℂ)
    (D : List ℕ) (hH : IsMpo H D) (k : ℕ) (hk : 0 < k) (hkn : k < D.length) (v : MPA ℂ) (hv : v.Good)
    (hvs : v.shape = singles D) (hv1 : ¬ twoRanksOne v) (sr : Option ℕ) (rs : RandState) :
    eig qr svd eigs H 0 k (some v) sr rs = .error .unbound := by
  rw [eig_eq hH hkn]
  have : eigStart qr D.length (pairs D D) (some v) sr rs = .ok v := hv.valid.copy_ok
  rw [this, ok_bind]
  obtain ⟨eigs', he', -, -⟩ := exists_eigs
  have e : eigRun qr (eigOps qr svd eigs H k) (onesNd 3) D.length 0 k v
      = eigRun qr (eigOps qr svd eigs' H k) (onesNd 3) D.length 0 k v := rfl
  rw [e]
  rcases eigRun_cases (mono := False) (B := 0) (eigOps_opsFor qr svd eigs' hH hk) hqr hsvd he' (fun h => h.elim)
    (fun h => h.elim) hk hkn.le hv hvs (mpoL_nil H D) (mpoR_nil hH) (fun h => h.elim) 0 with ⟨e, g1, g2⟩ | ⟨x, g1, g2⟩
  · rcases g2 with h | h | h
    · exact h.elim
    · rw [g1, h.1]
    · exact absurd h.2 hv1
  · exfalso
    unfold eigRun at g1
    obtain ⟨_, _, g1⟩ := bind_ok_inv g1
    obtain ⟨u, _, g1⟩ := bind_ok_inv g1
    obtain ⟨st, hst, g1⟩ := bind_ok_inv g1
    have : st.val = none := by
      unfold SweepOps.run at hst
      obtain ⟨r, _, hst⟩ := bind_ok_inv hst
      cases hst; rfl
    rw [this] at g1
    cases g1

/-! ### the hypotheses can be met -/

theorem exV3_good : exV3.Good := by
  refine ⟨exV3_isMps.valid, ?_, exV3_pos⟩
  have : exV3 = ⟨exV3.lt, 0, exV3.lt.length⟩ := by simp [exV3]
  rw [this]; exact canonOK_mk _

theorem exV3_ranks : ¬ twoRanksOne exV3 := by simp [twoRanksOne, MPA.ranks, exV3, NDArray.lb]

/-- Three sites, an operator of rank two and a start vector of rank two: `eig` returns and its result is as claimed. -/
example : ∃ (qr : QR ℂ) (svd : SVD ℂ) (eigs : EigsFun) (lam : ℂ) (y : MPA ℂ),
    eig qr svd eigs exH3 2 1 (some exV3) none ⟨fun _ => 0, fun _ => 0⟩ = .ok (lam, y) ∧ EigValue qr [2, 2, 2] exH3 lam y := by
  obtain ⟨qr, hqr⟩ := exists_QRSpec (𝕜 := ℂ)
  obtain ⟨svd, hsvd⟩ := exists_SVDSpec (𝕜 := ℂ)
  obtain ⟨eigs, he, -, -⟩ := exists_eigs
  obtain ⟨lam, y, h⟩ := C37_returns hqr hsvd he exH3 [2, 2, 2] exH3_isMpo 1 one_pos (by simp) exV3 exV3_good
    exV3_isMps.shape exV3_ranks none ⟨fun _ => 0, fun _ => 0⟩ 2 two_ne_zero
  exact ⟨qr, svd, eigs, lam, y, h, C37_value hqr hsvd he exH3 [2, 2, 2] exH3_isMpo (by simp) _ _ _
    ⟨fun x hx => by cases hx; exact ⟨exV3_good, exV3_isMps.shape⟩, fun h => by cases h⟩ 2 lam y h⟩

end Mpnum
