import Verif.Props.C49Random
import Verif.Props.C25
import Verif.Props.C32

/-!
# C49 — random dense operators and random local Hamiltonians (/repo/mpnum/factory.py)
-/

open Finset

namespace Mpnum

/-- The entry of a dense operator in global form: all row indices first. -/
theorem dense_reshape {a : NDArray ℂ} {m d : ℕ} (ha : a.shape = [d ^ m, d ^ m]) :
    ∃ b, a.reshape ((List.replicate (2 * m) d).map fun n : ℕ => (n : ℤ)) = .ok b ∧
      b.shape = List.replicate m d ++ List.replicate m d ∧
      ∀ I J, InB I (List.replicate m d) → InB J (List.replicate m d) →
        b.get (I ++ J) = a.get [ravelIdx (List.replicate m d) I, ravelIdx (List.replicate m d) J] := by
  have h2 : List.replicate (2 * m) d = List.replicate m d ++ List.replicate m d := by
    rw [two_mul, List.replicate_add]
  have hp : (List.replicate (2 * m) d).prod = a.shape.prod := by
    rw [ha, h2]; simp [pow_add]
  refine ⟨_, NDArray.reshape_nat hp, h2, ?_⟩
  intro I J hI hJ
  show a.get (unravelIdx a.shape (ravelIdx (List.replicate (2 * m) d) (I ++ J))) = _
  have hl : ∀ {I}, InB I (List.replicate m d) → ravelIdx (List.replicate m d) I < d ^ m := by
    intro I hI
    simpa using ravelIdx_lt hI
  have : ravelIdx (List.replicate (2 * m) d) (I ++ J)
      = ravelIdx a.shape [ravelIdx (List.replicate m d) I, ravelIdx (List.replicate m d) J] := by
    rw [h2, ravelIdx_append _ _ hI.length_eq, ha]
    simp [ravelIdx]
  rw [this, unravel_ravel]
  rw [ha]
  exact .cons (hl hI) (.cons (hl hJ) .nil)

theorem sumIdx_ravel_replicate {M : Type} [AddCommMonoid M] (m d : ℕ) (f : ℕ → M) :
    (sumIdx (List.replicate m d) fun I => f (ravelIdx (List.replicate m d) I)) = ∑ i ∈ range (d ^ m), f i := by
  rw [sumIdx_ravel]; simp

theorem divNpNorm_inv {a b : NDArray ℂ} (h : divNpNorm a = .ok b) :
    npNorm a ≠ 0 ∧ b.shape = a.shape ∧ (∀ i, b.get i = a.get i / ((npNorm a : ℝ) : ℂ)) ∧
      (sumIdx b.shape fun i => ‖b.get i‖ ^ 2) = 1 := by
  unfold divNpNorm at h
  obtain ⟨_, hg, h⟩ := bind_ok_inv h
  have h0 : npNorm a ≠ 0 := by
    by_contra hc
    unfold pyGuard at hg
    rw [if_neg (by simpa using hc)] at hg
    cases hg
  cases h
  refine ⟨h0, rfl, fun _ => rfl, ?_⟩
  show (sumIdx a.shape fun i => ‖a.get i / ((npNorm a : ℝ) : ℂ)‖ ^ 2) = 1
  have hs : npNorm a ^ 2 = sumIdx a.shape fun i => ‖a.get i‖ ^ 2 :=
    Real.sq_sqrt (sumIdx_nonneg fun i => by positivity)
  have : ∀ i, ‖a.get i / ((npNorm a : ℝ) : ℂ)‖ ^ 2 = (npNorm a ^ 2)⁻¹ * ‖a.get i‖ ^ 2 := by
    intro i
    rw [norm_div, div_pow, Complex.norm_real, Real.norm_eq_abs, sq_abs]
    ring
  simp only [this]
  rw [← mul_sumIdx, ← hs]
  exact inv_mul_cancel₀ (pow_ne_zero 2 h0)

/-- `_random_vec`: a unit vector with the wanted number of legs. -/
theorem C49_random_vec (sites ldim : ℕ) (isComplex : Bool) (s s' : RandState) (v : NDArray ℂ)
    (h : randomVec sites ldim isComplex s = .ok (v, s')) :
    v.shape = List.replicate sites ldim ∧ (sumIdx v.shape fun i => ‖v.get i‖ ^ 2) = 1 := by
  obtain ⟨a, s1, h1, h2⟩ := rng_bind_inv h
  obtain ⟨b, s2, g1, g2, _, _⟩ := randfun_ok isComplex (List.replicate sites ldim) s
  rw [h1] at g1
  cases g1
  obtain ⟨_, k2, _, k4⟩ := divNpNorm_inv (rng_lift_inv h2).1
  exact ⟨k2.trans g2, k4⟩

theorem addAdj_ok {a : NDArray ℂ} {n : ℕ} (h : a.shape = [n, n]) : ∃ b, addAdj a = .ok b ∧ b.shape = [n, n] ∧
    ∀ i < n, ∀ j < n, b.get [i, j] = a.get [i, j] + star (a.get [j, i]) := by
  obtain ⟨t, h1, h2, h3⟩ := transpose2 h
  obtain ⟨c, g1, g2, g3⟩ := NDArray.add_ok (a := a) (b := t.conj) (by rw [h]; exact h2)
  refine ⟨c, ?_, g2.trans h, ?_⟩
  · unfold addAdj
    rw [h1, ok_bind]; exact g1
  · intro i hi j hj
    rw [g3 _ (by rw [h]; exact .cons hi (.cons hj .nil))]
    show _ + star (t.get [i, j]) = _
    rw [h3]

/-- `_random_op`: an operator in global form; Hermitian and of unit norm if asked for. -/
theorem C49_random_op (sites ldim : ℕ) (hermitian normalized isComplex : Bool) (s s' : RandState) (op : NDArray ℂ)
    (h : randomOp sites ldim hermitian normalized isComplex s = .ok (op, s')) :
    op.shape = List.replicate sites ldim ++ List.replicate sites ldim ∧ s'.uniform = s.uniform ∧
    (hermitian = true → ∀ I J, InB I (List.replicate sites ldim) → InB J (List.replicate sites ldim) →
      op.get (J ++ I) = star (op.get (I ++ J))) ∧
    (normalized = true → (sumIdx (List.replicate sites ldim) fun I => sumIdx (List.replicate sites ldim) fun J =>
      ‖op.get (I ++ J)‖ ^ 2) = 1) := by
  obtain ⟨a, s1, h1, h⟩ := rng_bind_inv h
  obtain ⟨b, s2, h2, h⟩ := rng_bind_inv h
  obtain ⟨c, s3, h3, h⟩ := rng_bind_inv h
  obtain ⟨h, e1⟩ := rng_lift_inv h
  obtain ⟨h2, e2⟩ := rng_lift_inv h2
  obtain ⟨h3, e3⟩ := rng_lift_inv h3
  obtain ⟨a', s4, g1, g2, g3, _⟩ := randfun_ok isComplex [ldim ^ sites, ldim ^ sites] s
  rw [h1] at g1
  cases g1
  have hu : s'.uniform = s.uniform := by
    have e1 : s' = s3 := e1
    have e2 : s2 = s1 := e2
    have e3 : s3 = s2 := e3
    rw [e1, e3, e2, g3]
  have hb : b.shape = [ldim ^ sites, ldim ^ sites] ∧ (hermitian = true → ∀ i < ldim ^ sites, ∀ j < ldim ^ sites,
      b.get [j, i] = star (b.get [i, j])) := by
    cases hermitian with
    | false => cases h2; exact ⟨g2, by simp⟩
    | true =>
      obtain ⟨b', k1, k2, k3⟩ := addAdj_ok g2
      have h2 : addAdj a = .ok b := h2
      rw [k1] at h2
      cases h2
      refine ⟨k2, fun _ i hi j hj => ?_⟩
      rw [k3 i hi j hj, k3 j hj i hi, star_add, star_star, add_comm]
  have hc : c.shape = [ldim ^ sites, ldim ^ sites] ∧ (hermitian = true → ∀ i < ldim ^ sites, ∀ j < ldim ^ sites,
      c.get [j, i] = star (c.get [i, j])) ∧ (normalized = true → (sumIdx c.shape fun i => ‖c.get i‖ ^ 2) = 1) := by
    cases normalized with
    | false => cases h3; exact ⟨hb.1, hb.2, by simp⟩
    | true =>
      obtain ⟨_, k2, k3, k4⟩ := divNpNorm_inv (show divNpNorm b = .ok c from h3)
      refine ⟨k2.trans hb.1, fun hh i hi j hj => ?_, fun _ => k4⟩
      rw [k3, k3, hb.2 hh i hi j hj, star_div₀]
      congr 1
      exact (Complex.conj_ofReal _).symm
  obtain ⟨op', k1, k2, k3⟩ := dense_reshape hc.1
  rw [h] at k1
  cases k1
  have hl : ∀ {I}, InB I (List.replicate sites ldim) → ravelIdx (List.replicate sites ldim) I < ldim ^ sites := by
    intro I hI
    simpa using ravelIdx_lt hI
  refine ⟨k2, hu, fun hh I J hI hJ => ?_, fun hn => ?_⟩
  · rw [k3 J I hJ hI, k3 I J hI hJ]
    exact hc.2.1 hh _ (hl hI) _ (hl hJ)
  · have := hc.2.2 hn
    rw [hc.1] at this
    simp only [sumIdx_cons, sumIdx_nil] at this
    rw [← this, ← sumIdx_ravel_replicate]
    refine sumIdx_congr fun I hI => ?_
    rw [← sumIdx_ravel_replicate]
    refine sumIdx_congr fun J hJ => ?_
    rw [k3 I J hI hJ]

/-- A Hermitian operator on `m` sites of dimension `d` with Frobenius norm one. -/
structure IsLocalHam (m d : ℕ) (x : MPA ℂ) : Prop where
  mpo : IsMpo x (List.replicate m d)
  herm : ∀ I J, InB I (List.replicate m d) → InB J (List.replicate m d) → x.val (pairs J I) = star (x.val (pairs I J))
  norm : (sumIdx (List.replicate m d) fun I => sumIdx (List.replicate m d) fun J => ‖x.val (pairs I J)‖ ^ 2) = 1

theorem getLocalHam_ok {qr : QR ℂ} (hqr : QRSpec qr) {d m : ℕ} (hd : 0 < d) (hm : 0 < m) {s s' : RandState}
    {op : NDArray ℂ} (h1 : randomOp m d true true true s = .ok (op, s')) :
    ∃ x, getLocalHam qr d m s = .ok (x, s') ∧ IsLocalHam m d x ∧ s'.uniform = s.uniform := by
  obtain ⟨g1, g2, g3, g4⟩ := C49_random_op m d true true true s s' op h1
  have hDl : (List.replicate m d).length = m := by simp
  have hpos : ∀ p ∈ pairs (List.replicate m d) (List.replicate m d), ∀ e ∈ p, 0 < e := by
    intro p hp e he
    simp only [pairs, List.zipWith_replicate, List.mem_replicate, ne_eq] at hp
    rw [hp.2] at he
    simp at he
    omega
  have hby := byLeg_pairs (I := List.replicate m d) (J := List.replicate m d) rfl
  have hbs := bySite_pairs (I := List.replicate m d) (J := List.replicate m d) rfl
  rw [hDl] at hby hbs
  obtain ⟨lo, k1, k2, k3⟩ := C32_global_to_local op m 2 hm [] []
    (fun n k => if k = 0 then (List.replicate m d).getD n 0 else (List.replicate m d).getD n 0)
    (by rw [hby, g1]; simp)
  simp only [List.length_nil] at k1
  rw [hbs] at k2
  have hval : ∀ I J, InB I (List.replicate m d) → InB J (List.replicate m d) →
      lo.get (pairs I J).flatten = op.get (I ++ J) := by
    intro I J hI hJ
    have hI' : I.length = m := by rw [hI.length_eq, hDl]
    have hJ' : J.length = I.length := by rw [hJ.length_eq, hI.length_eq]
    have := k3 [] (fun n k => if k = 0 then I.getD n 0 else J.getD n 0) [] rfl rfl
    have e1 := bySite_pairs hJ'.symm
    have e2 := byLeg_pairs hJ'.symm
    rw [hI'] at e1 e2
    rw [e1, e2] at this
    simpa using this
  obtain ⟨x, l1, l2⟩ := C02_from_array_const hqr lo 2 (by norm_num) (pairs (List.replicate m d) (List.replicate m d))
    (by intro h0
        have := congrArg List.length h0
        simp [pairs] at this
        omega) (by
      intro p hp
      simp only [pairs, List.zipWith_replicate, List.mem_replicate, ne_eq] at hp
      rw [hp.2]; rfl) hpos (by simpa using k2)
  obtain ⟨B, b1, b2⟩ := l2.dense
  obtain ⟨B', c1, c2, c3⟩ := C01_to_array x l2.valid
  rw [b1] at c1
  cases c1
  have hx : ∀ I J, InB I (List.replicate m d) → InB J (List.replicate m d) → x.val (pairs I J) = op.get (I ++ J) := by
    intro I J hI hJ
    rw [← c3 _ (by rw [l2.shape]; exact pairs_idxOK hI hJ), ← hval I J hI hJ]
    refine b2.2 _ ?_
    rw [c2, l2.shape]
    exact pairs_flatten_inB hI hJ
  refine ⟨x, ?_, ⟨⟨l2.valid, l2.shape⟩, fun I J hI hJ => ?_, ?_⟩, g2⟩
  · unfold getLocalHam
    rw [rng_bind_ok h1, rng_bind_ok (rng_lift_ok k1)]
    exact rng_lift_ok l1
  · rw [hx J I hJ hI, hx I J hI hJ, g3 rfl I J hI hJ]
  · rw [← g4 rfl]
    refine sumIdx_congr fun I hI => sumIdx_congr fun J hJ => ?_
    rw [hx I J hI hJ]

theorem getLocalHam_inv {qr : QR ℂ} (hqr : QRSpec qr) {d m : ℕ} (hd : 0 < d) (hm : 0 < m) {s s' : RandState} {x : MPA ℂ}
    (h : getLocalHam qr d m s = .ok (x, s')) : IsLocalHam m d x ∧ s'.uniform = s.uniform := by
  have h' := h
  obtain ⟨op, s1, h1, _⟩ := rng_bind_inv h
  obtain ⟨x', g1, g2, g3⟩ := getLocalHam_ok hqr hd hm h1
  rw [h'] at g1
  cases g1
  exact ⟨g2, g3⟩

theorem prod_eye (d : ℕ) : ∀ {I J : List ℕ} (_ : I.length = J.length),
    ((pairs I J).map (NDArray.eye (R := ℂ) d).get).prod = if I = J then 1 else 0
  | [], [], _ => by simp [pairs]
  | i :: I, j :: J, h => by
    have ih := prod_eye d (I := I) (J := J) (by simpa using h)
    simp only [pairs, List.zipWith_cons_cons, List.map_cons, List.prod_cons] at ih ⊢
    rw [ih]
    simp only [NDArray.eye, List.getD_cons_zero, List.getD_cons_succ, List.cons.injEq]
    by_cases h1 : i = j <;> by_cases h2 : I = J <;> simp [h1, h2]

theorem embedVal_pairs {x : MPA ℂ} {m d : ℕ} (hx : x.len = m) {I J : List ℕ} (h : I.length = J.length) (a : ℕ) :
    embedVal (NDArray.eye d) x a (pairs I J)
      = (if I.take a = J.take a then 1 else 0) * x.val (pairs ((I.drop a).take m) ((J.drop a).take m))
        * (if I.drop (a + m) = J.drop (a + m) then 1 else 0) := by
  unfold embedVal
  have h1 : (pairs I J).take a = pairs (I.take a) (J.take a) := List.take_zipWith
  have h2 : ∀ n, (pairs I J).drop n = pairs (I.drop n) (J.drop n) := fun n => List.drop_zipWith
  have h3 : (pairs (I.drop a) (J.drop a)).take m = pairs ((I.drop a).take m) ((J.drop a).take m) := List.take_zipWith
  rw [h1, h2, h2, hx, h3, prod_eye d (by simp [h]), prod_eye d (by simp [h])]

/-- Specification: the sum of operators on `m` neighbouring sites, the `k`-th one starting at site `k`
and acting as the identity elsewhere. -/
def sumOfLocal (m : ℕ) (hams : List (MPA ℂ)) (I J : List ℕ) : ℂ :=
  (List.zipWith (fun (x : MPA ℂ) a => (if I.take a = J.take a then 1 else 0)
    * x.val (pairs ((I.drop a).take m) ((J.drop a).take m))
    * (if I.drop (a + m) = J.drop (a + m) then 1 else 0)) hams (List.range hams.length)).sum

/-- `random_local_ham` returns a Hermitian operator that is a sum of Hermitian terms of unit norm on
`intlen` neighbouring sites. -/
theorem C49_random_local_ham {qr : QR ℂ} (hqr : QRSpec qr) (sites ldim intlen : ℕ) (hd : 0 < ldim) (hm : 0 < intlen)
    (randstate : Option RandState) (s s' : RandState) (z : MPA ℂ)
    (h : randomLocalHam qr sites ldim intlen randstate s = .ok (z, s')) :
    intlen ≤ sites ∧ IsMpo z (List.replicate sites ldim) ∧
    (∃ hams, hams.length = sites + 1 - intlen ∧ (∀ x ∈ hams, IsLocalHam intlen ldim x) ∧
      ∀ I J, InB I (List.replicate sites ldim) → InB J (List.replicate sites ldim) →
        z.val (pairs I J) = sumOfLocal intlen hams I J) ∧
    ∀ I J, InB I (List.replicate sites ldim) → InB J (List.replicate sites ldim) →
      z.val (pairs J I) = star (z.val (pairs I J)) := by
  obtain ⟨_, s1, h1, h⟩ := rng_bind_inv h
  obtain ⟨hams, s2, h2, h⟩ := rng_bind_inv h
  obtain ⟨h, _⟩ := rng_lift_inv h
  obtain ⟨h1, _⟩ := rng_lift_inv h1
  have hle : intlen ≤ sites := by
    by_contra hc
    rw [pyAssert_false hc] at h1
    cases h1
  obtain ⟨g1, g2, _⟩ := times_inv (fun s a s' ha => getLocalHam_inv hqr hd hm ha) h2
  have hlen : ∀ x ∈ hams, x.len = intlen := by
    intro x hx
    have := congrArg List.length (g2 x hx).mpo.shape
    simp only [MPA.shape, physShape, List.length_map, pairs, List.length_zipWith, List.length_replicate, min_self] at this
    exact this
  have hne : hams ≠ [] := by rintro rfl; simp at g1; omega
  have hpr : ∀ n, pairs (List.replicate n ldim) (List.replicate n ldim) = List.replicate n [ldim, ldim] := by
    intro n; simp [pairs]
  have hfit : List.Forall₂ (EmbedFits (NDArray.eye (R := ℂ) ldim) (List.replicate sites [ldim, ldim])) hams
      (List.range hams.length) := by
    rw [List.forall₂_iff_get]
    refine ⟨by simp, ?_⟩
    intro k hk hk'
    simp only [List.get_eq_getElem, List.getElem_range]
    have hx := g2 _ (List.getElem_mem hk)
    refine ⟨hx.mpo.valid, sites - (k + intlen), ?_⟩
    rw [hx.mpo.shape, hpr]
    show _ = List.replicate k [ldim, ldim] ++ _ ++ List.replicate _ [ldim, ldim]
    rw [← List.replicate_add, ← List.replicate_add]
    congr 1
    omega
  obtain ⟨z', k1, k2⟩ := C25_local_sum hams intlen (NDArray.eye ldim) none (List.replicate sites [ldim, ldim]) hne hlen
    (by simp; omega) hfit
  have hdef : localSum hams none none none = localSum hams (some (NDArray.eye ldim)) none none := by
    cases hams with
    | nil => exact absurd rfl hne
    | cons x hams =>
      refine C25_local_sum_default x hams ldim (List.replicate (intlen - 1) [ldim, ldim]) none ?_
      rw [(g2 x (by simp)).mpo.shape, hpr]
      obtain ⟨m, rfl⟩ : ∃ m, intlen = m + 1 := ⟨intlen - 1, by omega⟩
      rfl
  rw [hdef, k1] at h
  cases h
  have hval : ∀ I J, InB I (List.replicate sites ldim) → InB J (List.replicate sites ldim) →
      z.val (pairs I J) = sumOfLocal intlen hams I J := by
    intro I J hI hJ
    rw [k2.val _ (by rw [← hpr]; exact pairs_idxOK hI hJ)]
    unfold sumOfLocal
    congr 1
    have hIJ : I.length = J.length := by rw [hI.length_eq, hJ.length_eq]
    have : ∀ {xs : List (MPA ℂ)} {as : List ℕ}, (∀ x ∈ xs, x.len = intlen) →
        List.zipWith (fun x a => embedVal (NDArray.eye ldim) x a (pairs I J)) xs as
        = List.zipWith (fun (x : MPA ℂ) a => (if I.take a = J.take a then 1 else 0)
          * x.val (pairs ((I.drop a).take intlen) ((J.drop a).take intlen))
          * (if I.drop (a + intlen) = J.drop (a + intlen) then 1 else 0)) xs as := by
      intro xs
      induction xs with
      | nil => intros; rfl
      | cons x xs ih =>
        intro as hx
        cases as with
        | nil => rfl
        | cons a as =>
          simp only [List.zipWith_cons_cons]
          rw [embedVal_pairs (hx x (by simp)) hIJ, ih fun y hy => hx y (by simp [hy])]
    exact this hlen
  refine ⟨hle, ⟨k2.valid, by rw [k2.shape, hpr]⟩, ⟨hams, g1, g2, hval⟩, ?_⟩
  intro I J hI hJ
  rw [hval J I hJ hI, hval I J hI hJ]
  unfold sumOfLocal
  have hIl : I.length = sites := by rw [hI.length_eq]; simp
  have hJl : J.length = sites := by rw [hJ.length_eq]; simp
  have key : ∀ {xs : List (MPA ℂ)} {as : List ℕ}, (∀ x ∈ xs, IsLocalHam intlen ldim x) → (∀ a ∈ as, a + intlen ≤ sites) →
      (List.zipWith (fun (x : MPA ℂ) a => (if J.take a = I.take a then 1 else 0)
          * x.val (pairs ((J.drop a).take intlen) ((I.drop a).take intlen))
          * (if J.drop (a + intlen) = I.drop (a + intlen) then 1 else 0)) xs as).sum
      = star (List.zipWith (fun (x : MPA ℂ) a => (if I.take a = J.take a then 1 else 0)
          * x.val (pairs ((I.drop a).take intlen) ((J.drop a).take intlen))
          * (if I.drop (a + intlen) = J.drop (a + intlen) then 1 else 0)) xs as).sum := by
    intro xs
    induction xs with
    | nil => intros; simp
    | cons x xs ih =>
      intro as hx ha
      cases as with
      | nil => simp
      | cons a as =>
        simp only [List.zipWith_cons_cons, List.sum_cons, star_add]
        rw [ih (fun y hy => hx y (by simp [hy])) (fun b hb => ha b (by simp [hb]))]
        congr 1
        have hw : ∀ {K : List ℕ}, InB K (List.replicate sites ldim) →
            InB ((K.drop a).take intlen) (List.replicate intlen ldim) := by
          intro K hK
          have h1 := List.forall₂_take intlen (List.forall₂_drop a hK)
          have : ((List.replicate sites ldim).drop a).take intlen = List.replicate intlen ldim := by
            rw [List.drop_replicate, List.take_replicate, min_eq_left]
            have := ha a (by simp)
            omega
          rw [this] at h1
          exact h1
        rw [(hx x (by simp)).herm _ _ (hw hI) (hw hJ), star_mul', star_mul']
        have e1 : ∀ (p q : List ℕ), star (if p = q then (1 : ℂ) else 0) = if q = p then 1 else 0 := by
          intro p q
          by_cases hpq : p = q
          · simp [hpq]
          · rw [if_neg hpq, if_neg (Ne.symm hpq), star_zero]
        rw [e1, e1]
  refine key g2 ?_
  intro a ha
  have := List.mem_range.1 ha
  omega

/-- `random_local_ham` does not use its argument `randstate`: the terms are always drawn from the global
generator, so a seeded `RandomState` does not make the result reproducible. -/
theorem C49_local_ham_ignores_randstate (qr : QR ℂ) (sites ldim intlen : ℕ) (r r' : Option RandState) :
    randomLocalHam qr sites ldim intlen r = randomLocalHam qr sites ldim intlen r' := rfl

/-- The other functions do draw from the generator that is passed: two generators give different
results. -/
theorem C49_random_mpa_uses_randstate (qr : QR ℂ) : ∃ s t : RandState, ∃ x y s' t',
    randomMpa qr 1 (.scalar 1) (.scalar 1) false false false s = .ok (x, s') ∧
    randomMpa qr 1 (.scalar 1) (.scalar 1) false false false t = .ok (y, t') ∧ x.val [[0]] ≠ y.val [[0]] := by
  refine ⟨⟨fun _ => 1, fun _ => 1⟩, ⟨fun _ => 2, fun _ => 1⟩, _, _, _, _, rfl, rfl, ?_⟩
  simp [MPA.val, entry, mp, NDArray.at3, NDArray.rb]

/-! ### _random_state -/

section
open scoped ComplexOrder MatrixOrder Matrix

/-- `_random_state`: a density operator in global form. -/
theorem C49_random_state (sites ldim : ℕ) (s s' : RandState) (rho : NDArray ℂ)
    (h : randomState sites ldim s = .ok (rho, s')) :
    rho.shape = List.replicate sites ldim ++ List.replicate sites ldim ∧
      IsState (List.replicate sites ldim) fun I J => rho.get (I ++ J) := by
  obtain ⟨mat, s1, h1, h⟩ := rng_bind_inv h
  obtain ⟨h, _⟩ := rng_lift_inv h
  obtain ⟨mat', s2, g1, g2, _⟩ := zrandn_ok [ldim ^ sites, ldim ^ sites] s
  rw [h1] at g1
  cases g1
  set N := ldim ^ sites with hN
  obtain ⟨mt, m1, m2, m3⟩ := transpose2 g2
  obtain ⟨c, c1, c2, c3⟩ := matdot_mat (a := mt.conj) (b := mat) m2 g2
  unfold stateOf at h
  rw [m1, ok_bind, c1, ok_bind] at h
  obtain ⟨nr, n1, h⟩ := bind_ok_inv h
  unfold divNpTrace at n1
  obtain ⟨T, t1, n1⟩ := bind_ok_inv n1
  obtain ⟨_, t2, n1⟩ := bind_ok_inv n1
  have hT0 : T.get [] ≠ 0 := by
    by_contra hc
    unfold pyGuard at t2
    rw [if_neg (by simpa using hc)] at t2
    cases t2
  cases n1
  have hT : T.get [] = ∑ i ∈ range N, c.get [i, i] := by
    obtain ⟨sh, g⟩ := c
    simp only at c2
    subst c2
    have : NDArray.trace (⟨[N, N], g⟩ : NDArray ℂ) 0 1 = .ok T := t1
    unfold NDArray.trace at this
    cases this
    show ∑ k ∈ range (min N N), g [k, k] = _
    rw [min_self]
  have hcv : ∀ i j, c.get [i, j] = ∑ k ∈ range N, star (mat.get [k, i]) * mat.get [k, j] := by
    intro i j
    rw [c3]
    refine Finset.sum_congr rfl fun k _ => ?_
    show star (mt.get [i, k]) * _ = _
    rw [m3]
  obtain ⟨b, k1, k2, k3⟩ := dense_reshape (a := ⟨c.shape, fun i => c.get i / T.get []⟩) (m := sites) (d := ldim) c2
  rw [h] at k1
  cases k1
  refine ⟨k2, ?_, ?_⟩
  · have hpsd : (Matrix.of fun i j : Fin N => c.get [(i : ℕ), (j : ℕ)]).PosSemidef := by
      have := Matrix.posSemidef_conjTranspose_mul_self (Matrix.of fun i j : Fin N => mat.get [(i : ℕ), (j : ℕ)])
      convert this using 1
      ext i j
      rw [Matrix.mul_apply, Matrix.of_apply, hcv, Finset.sum_range]
      rfl
    have htr : 0 ≤ T.get [] := by
      rw [hT, Finset.sum_range]
      exact hpsd.trace_nonneg
    have h2 := (hpsd.smul (inv_nonneg.2 htr)).submatrix fun I : {I // InB I (List.replicate sites ldim)} =>
      (⟨ravelIdx (List.replicate sites ldim) I, by simpa using ravelIdx_lt I.2⟩ : Fin N)
    unfold Psd
    convert h2 using 1
    ext I J
    simp only [Matrix.of_apply, Matrix.submatrix_apply, Matrix.smul_apply, smul_eq_mul]
    rw [k3 I J I.2 J.2]
    exact div_eq_inv_mul _ _
  · rw [sumIdx_congr fun I hI => k3 I I hI hI]
    rw [sumIdx_ravel_replicate sites ldim fun i => c.get [i, i] / T.get [], ← Finset.sum_div, ← hT, div_self hT0]

end

/-! ### concrete runs -/

theorem exRand_npNorm (n : ℕ) (hn : 0 < n) (a : NDArray ℂ) (ha : a.shape = [n, n]) (c : ℂ) (hc : c ≠ 0)
    (h : a.get [0, 0] = c) : npNorm a ≠ 0 := by
  intro h0
  have h1 : (sumIdx a.shape fun i => ‖a.get i‖ ^ 2) = 0 := by
    have := congrArg (· ^ 2) h0
    simp only [npNorm] at this
    rwa [Real.sq_sqrt (sumIdx_nonneg fun i => by positivity), zero_pow two_ne_zero] at this
  have h2 := sumIdx_ge_term (f := fun i => ‖a.get i‖ ^ 2) (fun i => by positivity)
    (show InB [0, 0] a.shape by rw [ha]; exact .cons hn (.cons hn .nil))
  rw [h1, h] at h2
  have : 0 < ‖c‖ := norm_pos_iff.2 hc
  have : 0 < ‖c‖ ^ 2 := by positivity
  linarith

theorem exRand_op (m d : ℕ) (hd : 0 < d) : ∃ op, randomOp m d true true true exRand = .ok (op, exRand) := by
  have hz : randfun true [d ^ m, d ^ m] exRand
      = .ok (⟨[d ^ m, d ^ m], fun _ => ((1 : ℝ) : ℂ) + Complex.I * ((1 : ℝ) : ℂ)⟩, exRand) := rfl
  have hpos : 0 < d ^ m := by positivity
  obtain ⟨b, h1, h2, h3⟩ := addAdj_ok (a := ⟨[d ^ m, d ^ m], fun _ => ((1 : ℝ) : ℂ) + Complex.I * ((1 : ℝ) : ℂ)⟩) rfl
  have h0 := exRand_npNorm _ hpos b h2 2 two_ne_zero (by
    rw [h3 0 hpos 0 hpos]
    apply Complex.ext <;> simp
    norm_num)
  obtain ⟨c, hc⟩ : ∃ c, divNpNorm b = .ok c := by
    unfold divNpNorm pyGuard
    rw [if_pos (by simpa using h0)]
    exact ⟨_, rfl⟩
  obtain ⟨_, c2, _, _⟩ := divNpNorm_inv hc
  obtain ⟨op, k1, _⟩ := dense_reshape (c2.trans h2)
  refine ⟨op, ?_⟩
  unfold randomOp
  rw [rng_bind_ok hz]
  simp only [if_true]
  rw [rng_bind_ok (rng_lift_ok h1), rng_bind_ok (rng_lift_ok hc)]
  exact rng_lift_ok k1

example : ∃ qr : QR ℂ, QRSpec qr ∧ ∃ z s', randomLocalHam qr 3 2 2 none exRand = .ok (z, s') := by
  obtain ⟨qr, hqr⟩ := exists_QRSpec (𝕜 := ℂ)
  refine ⟨qr, hqr, ?_⟩
  obtain ⟨op, ho⟩ := exRand_op 2 2 (by norm_num)
  obtain ⟨x, hx, h1, _⟩ := getLocalHam_ok hqr (by norm_num) (by norm_num) ho
  have ht : Rng.times (getLocalHam qr 2 2) 2 exRand = .ok ([x, x], exRand) := by
    show (getLocalHam qr 2 2 >>= _) exRand = _
    rw [rng_bind_ok hx]
    show (Rng.times (getLocalHam qr 2 2) 1 >>= _) exRand = _
    have h1 : Rng.times (getLocalHam qr 2 2) 1 exRand = .ok ([x], exRand) := by
      show (getLocalHam qr 2 2 >>= _) exRand = _
      rw [rng_bind_ok hx]
      rfl
    rw [rng_bind_ok h1]
    rfl
  have hl : x.len = 2 := by
    have := congrArg List.length h1.mpo.shape
    simpa [MPA.shape, MPA.len, physShape, pairs] using this
  obtain ⟨z, hz, _⟩ := C25_local_sum [x, x] 2 (NDArray.eye 2) none (List.replicate 3 [2, 2]) (by simp) (by simp [hl]) rfl
    (by
      refine .cons ⟨h1.mpo.valid, 1, ?_⟩ (.cons ⟨h1.mpo.valid, 0, ?_⟩ .nil)
      · rw [h1.mpo.shape]; rfl
      · rw [h1.mpo.shape]; rfl)
  have hdef := C25_local_sum_default x [x] 2 [[2, 2]] none (by rw [h1.mpo.shape]; rfl)
  refine ⟨z, exRand, ?_⟩
  unfold randomLocalHam
  rw [rng_bind_ok (rng_lift_ok (pyAssert_true (by norm_num))), rng_bind_ok ht]
  exact rng_lift_ok (hdef.trans hz)

end Mpnum
