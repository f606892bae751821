import Verif.Props.C37

/-!
# C38: `eig_sum` works with the sum of its operators

`eig_sum(mpas, …)` takes a list of MPOs and of MPSs; an MPS stands for the projector onto it.
-/

open Finset

namespace Mpnum

/-- The left vector of site `p`, built up from the left end of `v` (linalg.py:517-518, 642-644). -/
def SweepOps.leftVec {E : Type} (o : SweepOps ℂ E ℂ) (e0 : E) (v : MPA ℂ) (p : ℕ) : Py E :=
  (List.range p).foldlM (fun e (i : ℕ) => do o.addL i e (← v.site (i : ℤ))) e0

/-- The right vector of site `p`, built up from the right end of `v` (linalg.py:499-502, 624-627). -/
def SweepOps.rightVec {E : Type} (o : SweepOps ℂ E ℂ) (e0 : E) (v : MPA ℂ) (p : ℕ) : Py E :=
  (List.range (v.len - p)).foldlM (fun e (i : ℕ) => do
    let j := v.len - 1 - i
    o.addR j e (← v.site (j : ℤ))) e0

section
variable {E : Type} {qr : QR ℂ} {svd : SVD ℂ} {eigs : EigsFun} {k : ℕ} {D : List ℕ} {Hf : List ℕ → List ℕ → ℂ}
  {EL ER : List (NDArray ℂ) → E → Prop} {o : SweepOps ℂ E ℂ}

theorem leftVec_ok (ho : OpsFor qr svd eigs k D Hf EL ER o) {v : MPA ℂ} (hv : IsMps v D) {e0 : E} (he : EL [] e0) {p : ℕ}
    (hp : p + k ≤ D.length) : ∃ e, o.leftVec e0 v p = .ok e ∧ EL (v.lt.take p) e := by
  induction p with
  | zero => exact ⟨e0, rfl, by simpa using he⟩
  | succ p ih =>
    obtain ⟨e, h1, h2⟩ := ih (by omega)
    have hl := isMps_length hv
    obtain ⟨W, hW⟩ := cutAt_ok hv.valid (p := p) (by omega)
    have hlen : (v.lt.take p).length = p := by rw [List.length_take]; omega
    obtain ⟨e', g1, g2⟩ := ho.addL (v.lt.take p) W W.rb e h2 (chained_concat.2 ⟨hW.chainL, hW.isLocal, rfl⟩)
      (by rw [hlen, ← hW.left, physShape_take, show physShape v.lt = singles D from hv.shape, singles_take])
      (by rw [hlen]; omega)
    rw [hlen] at g1
    refine ⟨e', ?_, by rw [hW.left]; exact g2⟩
    unfold SweepOps.leftVec at h1 ⊢
    rw [List.range_succ, List.foldlM_append, h1, ok_bind, List.foldlM_cons, hW.site, ok_bind, g1]
    rfl

theorem rightVec_ok (ho : OpsFor qr svd eigs k D Hf EL ER o) {v : MPA ℂ} (hv : IsMps v D) {e0 : E} (he : ER [] e0) :
    ∀ q, q ≤ D.length → ∃ e, o.rightVec e0 v (D.length - q) = .ok e ∧ ER (v.lt.drop (D.length - q)) e := by
  have hl := isMps_length hv
  have hlen : v.len = D.length := hl
  intro q
  induction q with
  | zero =>
    intro _
    refine ⟨e0, ?_, ?_⟩
    · unfold SweepOps.rightVec; rw [hlen]; simp
    · rw [Nat.sub_zero, ← hl, List.drop_length]; exact he
  | succ q ih =>
    intro hq
    obtain ⟨e, h1, h2⟩ := ih (by omega)
    obtain ⟨W, hW⟩ := cutAt_ok hv.valid (p := D.length - (q + 1)) (by omega)
    have hd : D.length - (q + 1) + 1 = D.length - q := by omega
    have hR := hW.right
    have hC := hW.chainR
    rw [hd] at hR hC
    obtain ⟨e', g1, g2⟩ := ho.addR (v.lt.drop (D.length - q)) W W.lb e (D.length - (q + 1)) h2 ⟨hW.isLocal, rfl, hC⟩
      (by rw [← hR, physShape_drop, show physShape v.lt = singles D from hv.shape, singles_drop])
      (by rw [List.length_drop]; omega)
    refine ⟨e', ?_, by rw [hR]; exact g2⟩
    unfold SweepOps.rightVec at h1 ⊢
    rw [hlen, show D.length - (D.length - q) = q by omega] at h1
    rw [hlen, show D.length - (D.length - (q + 1)) = q + 1 by omega, List.range_succ, List.foldlM_append, h1, ok_bind,
      List.foldlM_cons]
    simp only [show D.length - 1 - q = D.length - (q + 1) by omega]
    rw [hW.site, ok_bind, g1]
    rfl

end

theorem blockAt_of {v : MPA ℂ} {D : List ℕ} (hv : IsMps v D) (hp : AllPos v.lt) {p k : ℕ} (hpk : p + k ≤ D.length) :
    ∃ l r, (v.lt.take p).length = p ∧ BlockAt D k (v.lt.take p) ((v.lt.drop p).take k) (v.lt.drop (p + k)) l r := by
  have hl := isMps_length hv
  obtain ⟨l, r, h1, h2, h3⟩ := chain3 hv.valid p k
  refine ⟨l, r, by rw [List.length_take]; omega, h1, h2, h3, ?_, by rw [List.length_take, List.length_drop]; omega, ?_⟩
  · rw [← splitBlk]; exact hv.shape
  · rw [← splitBlk]; exact hp

/-- C38: for every vector `v`, every block of `k` sites and every MPO `H` whose entries are the sums of the entries of
the operators in `mpas`, the local operator formed by `eig_sum` is the one formed by `eig` for `H`. -/
theorem C38_local_op (qr : QR ℂ) (svd : SVD ℂ) (eigs : EigsFun) (mpas : List (MPA ℂ)) (D : List ℕ) (hne : mpas ≠ [])
    (hm : ∀ m ∈ mpas, SumTerm D m) (H : MPA ℂ) (hH : IsMpo H D)
    (hsum : ∀ I J, InB I D → InB J D → H.val (pairs I J) = sumOp mpas I J) (v : MPA ℂ) (hv : IsMps v D)
    (hvp : AllPos v.lt) (p k : ℕ) (hk : 0 < k) (hpk : p + k ≤ D.length) :
    ∃ lv rv op lv' rv' op',
      (eigSumOps qr svd eigs mpas k).leftVec (mpas.map fun x => onesNd (1 + firstNdims x)) v p = .ok lv ∧
      (eigSumOps qr svd eigs mpas k).rightVec (mpas.map fun x => onesNd (1 + firstNdims x)) v (p + k) = .ok rv ∧
      eigSumOp mpas lv rv p k = .ok (some op) ∧
      (eigOps qr svd eigs H k).leftVec (onesNd 3) v p = .ok lv' ∧
      (eigOps qr svd eigs H k).rightVec (onesNd 3) v (p + k) = .ok rv' ∧
      eigLocalOp lv' ((H.lt.drop p).take k) rv' = .ok op' ∧ op.Eqv op' := by
  obtain ⟨l, r, hl, hb⟩ := blockAt_of hv hvp hpk
  have ho := eigSumOps_opsFor qr svd eigs (D := D) hne hk
  have ho' := eigOps_opsFor qr svd eigs hH hk
  have hq : D.length - (D.length - (p + k)) = p + k := by omega
  obtain ⟨lv, a1, a2⟩ := leftVec_ok ho hv (termL_nil hm) hpk
  obtain ⟨rv, b1, b2⟩ := rightVec_ok ho hv (termR_nil hm) (D.length - (p + k)) (by omega)
  obtain ⟨lv', c1, c2⟩ := leftVec_ok ho' hv (mpoL_nil H D) hpk
  obtain ⟨rv', d1, d2⟩ := rightVec_ok ho' hv (mpoR_nil hH) (D.length - (p + k)) (by omega)
  rw [hq] at b1 b2 d1 d2
  obtain ⟨op, e1, e2⟩ := eigSumOp_ok hk hb hne a2 b2
  obtain ⟨op', f1, f2⟩ := mpo_op hH hk hb c2 d2
  rw [hl] at e1 e2 f1 f2
  have hD : D.take p ++ (D.drop p).take k ++ D.drop (p + k) = D := (splitBlk D _ _).symm
  exact ⟨lv, rv, op, lv', rv', op', a1, b1, e1, c1, d1, f1, (e2.congr (Hf' := fun I J => H.val (pairs I J))
    (by rw [hD]; exact hsum)).eqv f2⟩

theorem firstDims_singles (D : List ℕ) : firstDims (singles D) = .ok (singles D) := by
  induction D with
  | nil => rfl
  | cons d D ih =>
    show (([d] :: singles D).mapM _ : Py _) = _
    unfold firstDims at ih
    rw [List.mapM_cons, ih]; rfl

theorem eigStart_congr (qr : QR ℂ) (n : ℕ) {S S' : List (List ℕ)} (h : firstDims S = firstDims S') (sv : Option (MPA ℂ))
    (sr : Option ℕ) (rs : RandState) : eigStart qr n S sv sr rs = eigStart qr n S' sv sr rs := by
  unfold eigStart
  rw [h]

theorem sumTerm_length {D : List ℕ} {m : MPA ℂ} (h : SumTerm D m) : m.len = D.length := by
  rcases h with h | ⟨h, _⟩
  · exact isMpo_length h
  · exact isMps_length h

/-- `eig_sum` with the start vector made explicit. -/
theorem eigSum_eq {qr : QR ℂ} {svd : SVD ℂ} {eigs : EigsFun} {mpas : List (MPA ℂ)} {D : List ℕ} (hne : mpas ≠ [])
    (hm : ∀ m ∈ mpas, SumTerm D m) {m k : ℕ} (hk : k < D.length) (sv : Option (MPA ℂ)) (sr : Option ℕ) (rs : RandState) :
    eigSum qr svd eigs mpas m k sv sr rs = (eigStart qr D.length (pairs D D) sv sr rs >>= fun v =>
      eigRun qr (eigSumOps qr svd eigs mpas k) (mpas.map fun x => onesNd (1 + firstNdims x)) D.length m k v) := by
  cases mpas with
  | nil => exact absurd rfl hne
  | cons a as =>
    have hl : a.len = D.length := sumTerm_length (hm a (by simp))
    have hall : ∀ x ∈ a :: as, x.len = a.len := fun x hx => by rw [hl, sumTerm_length (hm x hx)]
    have hS : firstDims a.shape = firstDims (pairs D D) := by
      rw [firstDims_pairs]
      rcases hm a (by simp) with h | ⟨h, _⟩
      · rw [h.shape, firstDims_pairs]
      · rw [h.shape, firstDims_singles]
    unfold eigSum
    have h1 : (pyAssert (∀ x ∈ a :: as, x.len = a.len) : Py Unit) = .ok () := by rw [pyAssert, if_pos hall]
    have h2 : (pyAssert (k < a.len) : Py Unit) = .ok () := by rw [pyAssert, if_pos (by omega)]
    simp only [h1, h2, ok_bind]
    rw [hl, eigStart_congr qr _ hS]

/-- C38: `eig_sum` gives the same result (or error) as `eig` for the sum of the operators, for every start vector, every
number of sweeps and of sites, if the local solver depends on nothing but the entries of the matrix and its start
vector. -/
theorem C38_eig_sum {qr : QR ℂ} {svd : SVD ℂ} (hqr : QRSpec qr) (hsvd : SVDSpec svd) {Pe : PyErr → Prop} {eigs : EigsFun}
    (heigs : EigsSpec False Pe eigs) (hext : EigsExt eigs) (mpas : List (MPA ℂ)) (D : List ℕ) (hD : ∀ d ∈ D, 0 < d)
    (hne : mpas ≠ []) (hm : ∀ m ∈ mpas, SumTerm D m) (H : MPA ℂ) (hH : IsMpo H D)
    (hsum : ∀ I J, InB I D → InB J D → H.val (pairs I J) = sumOp mpas I J) (k : ℕ) (hk : 0 < k)
    (sv : Option (MPA ℂ)) (sr : Option ℕ) (rs : RandState) (hs : StartArgs D sv sr) (m : ℕ) :
    eigSum qr svd eigs mpas m k sv sr rs = eig qr svd eigs H m k sv sr rs := by
  by_cases hkn : k < D.length
  · rw [eigSum_eq hne hm hkn, eig_eq hH hkn]
    have hDne : D ≠ [] := by rintro rfl; simp at hkn
    rcases eigStart_cases hqr hDne hD hs rs with ⟨e, h1, _⟩ | ⟨v, h1, h2, h3, _, _⟩
    · rw [h1]; rfl
    · rw [h1, ok_bind, ok_bind]
      have ho := eigSumOps_opsFor qr svd eigs (D := D) hne hk
      have ho' : OpsFor qr svd eigs k D (sumOp mpas) (MpoL H D) (MpoR H D) (eigOps qr svd eigs H k) := by
        have h0 := eigOps_opsFor qr svd eigs hH hk
        refine ⟨h0.addL, h0.addR, ?_⟩
        intro pre mid post l r e f he hf c1 c2 c3 hs hmid hpos
        obtain ⟨op, o1, o2⟩ := h0.step pre mid post l r e f he hf c1 c2 c3 hs hmid hpos
        refine ⟨op, o1, o2.congr ?_⟩
        rw [(splitBlk D pre.length k).symm]
        exact fun I J hI hJ => (hsum I J hI hJ).symm
      have h := eigRun_rel hqr (sweepSpec_two ho ho' hqr hsvd heigs hext (fun h => h.elim) hk (maxLb v)) hk hkn.le h2 h3
        (le_maxLb v) (e₁ := mpas.map fun x => onesNd (1 + firstNdims x)) (e₂ := onesNd 3)
        ⟨termL_nil hm, mpoL_nil H D⟩ ⟨termR_nil hm, mpoR_nil hH⟩ ⟨fun _ h => (by cases h), fun h => h.elim⟩ m
      cases hx : eigRun qr (eigSumOps qr svd eigs mpas k) (mpas.map fun x => onesNd (1 + firstNdims x)) D.length m k v with
      | error e =>
        cases hy : eigRun qr (eigOps qr svd eigs H k) (onesNd 3) D.length m k v with
        | error e' => rw [hx, hy] at h; rw [h.1]
        | ok y => rw [hx, hy] at h; exact h.elim
      | ok x =>
        cases hy : eigRun qr (eigOps qr svd eigs H k) (onesNd 3) D.length m k v with
        | error e' => rw [hx, hy] at h; exact h.elim
        | ok y => rw [hx, hy] at h; rw [h.1]
  · rw [C37_var_sites_too_large qr svd eigs H m k (by rw [show H.len = D.length from isMpo_length hH]; omega)]
    cases mpas with
    | nil => exact absurd rfl hne
    | cons a as =>
      have hl : a.len = D.length := sumTerm_length (hm a (by simp))
      have hall : ∀ x ∈ a :: as, x.len = a.len := fun x hx => by rw [hl, sumTerm_length (hm x hx)]
      unfold eigSum
      have h1 : (pyAssert (∀ x ∈ a :: as, x.len = a.len) : Py Unit) = .ok () := by rw [pyAssert, if_pos hall]
      have h2 : (pyAssert (k < a.len) : Py Unit) = .error .assertion := by rw [pyAssert, if_neg (by omega)]
      simp only [h1, h2, ok_bind]
      rfl

/-- Operators of different lengths are rejected. -/
theorem C38_different_lengths (qr : QR ℂ) (svd : SVD ℂ) (eigs : EigsFun) (a : MPA ℂ) (as : List (MPA ℂ))
    (h : ∃ x ∈ as, x.len ≠ a.len) (m k : ℕ) (sv : Option (MPA ℂ)) (sr : Option ℕ) (rs : RandState) :
    eigSum qr svd eigs (a :: as) m k sv sr rs = .error .assertion := by
  unfold eigSum
  have h1 : (pyAssert (∀ x ∈ a :: as, x.len = a.len) : Py Unit) = .error .assertion := by
    rw [pyAssert, if_neg]
    intro h0
    obtain ⟨x, hx, hxl⟩ := h
    exact hxl (h0 x (by simp [hx]))
  simp only [h1]
  rfl

/-- For two MPOs: `eig_sum([a, b], …) = eig(a + b, …)`. -/
theorem C38_two_mpos {qr : QR ℂ} {svd : SVD ℂ} (hqr : QRSpec qr) (hsvd : SVDSpec svd) {Pe : PyErr → Prop} {eigs : EigsFun}
    (heigs : EigsSpec False Pe eigs) (hext : EigsExt eigs) (a b : MPA ℂ) (D : List ℕ) (hD : ∀ d ∈ D, 0 < d)
    (ha : IsMpo a D) (hb : IsMpo b D) (k : ℕ) (hk : 0 < k) (sv : Option (MPA ℂ)) (sr : Option ℕ) (rs : RandState)
    (hs : StartArgs D sv sr) (m : ℕ) :
    ∃ c, a.add b = .ok c ∧ eigSum qr svd eigs [a, b] m k sv sr rs = eig qr svd eigs c m k sv sr rs := by
  obtain ⟨c, h1, h2, h3, h4, _⟩ := C05_add a b ha.valid hb.valid (by rw [ha.shape, hb.shape])
  refine ⟨c, h1, C38_eig_sum hqr hsvd heigs hext [a, b] D hD (by simp) ?_ c ⟨h2, by rw [h3, ha.shape]⟩ ?_ k hk sv sr rs hs m⟩
  · intro x hx
    simp only [List.mem_cons, List.not_mem_nil, or_false] at hx
    rcases hx with rfl | rfl
    · exact Or.inl ha
    · exact Or.inl hb
  · intro I J hI hJ
    have : IdxOK (pairs I J) (pairs D D) := by
      have : ∀ {I J D : List ℕ}, InB I D → InB J D → IdxOK (pairs I J) (pairs D D) := by
        intro I J D hI
        induction hI generalizing J with
        | nil => intro hJ; cases hJ; exact List.Forall₂.nil
        | cons h1 _ ih =>
          intro hJ
          cases hJ with
          | cons g1 g2 => exact List.Forall₂.cons (by simp [h1, g1]) (ih g2)
      exact this hI hJ
    rw [h4 _ (by rw [ha.shape]; exact this)]
    simp [sumOp, termOp_mpo ha, termOp_mpo hb]

/-- C37 for `eig_sum`: with one site at a time, the eigenvalue is the expectation value of the sum of the operators in
the returned unit vector. -/
theorem C38_value {qr : QR ℂ} {svd : SVD ℂ} (hqr : QRSpec qr) (hsvd : SVDSpec svd) {Pe : PyErr → Prop} {eigs : EigsFun}
    (heigs : EigsSpec False Pe eigs) (mpas : List (MPA ℂ)) (D : List ℕ) (hD : ∀ d ∈ D, 0 < d)
    (hne : mpas ≠ []) (hm : ∀ m ∈ mpas, SumTerm D m) (h1 : 1 < D.length) (sv : Option (MPA ℂ)) (sr : Option ℕ) (rs : RandState)
    (hs : StartArgs D sv sr) (m : ℕ) (lam : ℂ) (y : MPA ℂ) (h : eigSum qr svd eigs mpas m 1 sv sr rs = .ok (lam, y)) :
    y.Good ∧ y.shape = singles D ∧ normSq D (vec y) = 1 ∧ braket D D (vec y) (sumOp mpas) (vec y) = lam := by
  rw [eigSum_eq hne hm h1] at h
  rcases eigStart_cases hqr (by rintro rfl; simp at h1) hD hs rs with ⟨e, g1, _⟩ | ⟨v, g1, g2, g3, _, _⟩
  · rw [g1] at h; cases h
  · rw [g1, ok_bind] at h
    rcases eigRun_cases (mono := False) (B := 0) (eigSumOps_opsFor qr svd eigs hne one_pos) hqr hsvd heigs (fun h => h.elim)
      (fun h => h.elim) one_pos h1.le g2 g3 (termL_nil hm) (termR_nil hm) (fun h => h.elim) m with ⟨e, k1, _⟩ | ⟨x, k1, k2⟩
    · rw [k1] at h; cases h
    · rw [k1] at h; cases h
      obtain ⟨w, w1, w2, w3, w4⟩ := k2.prop.value lam rfl
      have hw := w4 rfl
      refine ⟨k2.good, k2.shape, ?_, ?_⟩
      · rw [normSq_eq] at w1
        rw [← Complex.ofReal_eq_one.1 w1]
        exact sumIdx_congr fun I hI => by rw [show vec y I = w I from hw I hI]
      · rw [← w2]; exact braket_congr hw hw fun _ _ _ _ => rfl

/-! ### the hypotheses can be met -/

/-- An operator and a projector on three sites. -/
example (qr : QR ℂ) (svd : SVD ℂ) (eigs : EigsFun) : ∃ lv rv op,
    (eigSumOps qr svd eigs [exH3, exV3] 1).leftVec ([exH3, exV3].map fun x => onesNd (1 + firstNdims x)) exV3 1 = .ok lv ∧
    (eigSumOps qr svd eigs [exH3, exV3] 1).rightVec ([exH3, exV3].map fun x => onesNd (1 + firstNdims x)) exV3 2 = .ok rv ∧
    eigSumOp [exH3, exV3] lv rv 1 1 = .ok (some op) := by
  have hm : ∀ m ∈ [exH3, exV3], SumTerm [2, 2, 2] m := by
    intro m hm
    simp only [List.mem_cons, List.not_mem_nil, or_false] at hm
    rcases hm with rfl | rfl
    · exact Or.inl exH3_isMpo
    · exact Or.inr ⟨exV3_isMps, exV3_pos⟩
  obtain ⟨l, r, hl, hb⟩ := blockAt_of exV3_isMps exV3_pos (p := 1) (k := 1) (by simp)
  have ho := eigSumOps_opsFor qr svd eigs (mpas := [exH3, exV3]) (D := [2, 2, 2]) (by simp) one_pos
  obtain ⟨lv, a1, a2⟩ := leftVec_ok ho exV3_isMps (termL_nil hm) (p := 1) (by simp)
  obtain ⟨rv, b1, b2⟩ := rightVec_ok ho exV3_isMps (termR_nil hm) 1 (by simp)
  obtain ⟨op, e1, _⟩ := eigSumOp_ok one_pos hb (by simp) a2 b2
  exact ⟨lv, rv, op, a1, b1, by rw [hl] at e1; exact e1⟩

/-- `eig_sum` for an operator and a projector returns. -/
example : ∃ (qr : QR ℂ) (svd : SVD ℂ) (eigs : EigsFun) (lam : ℂ) (y : MPA ℂ),
    eigSum qr svd eigs [exH3, exV3] 2 1 (some exV3) none ⟨fun _ => 0, fun _ => 0⟩ = .ok (lam, y) ∧
      normSq [2, 2, 2] (vec y) = 1 := by
  obtain ⟨qr, hqr⟩ := exists_QRSpec (𝕜 := ℂ)
  obtain ⟨svd, hsvd⟩ := exists_SVDSpec (𝕜 := ℂ)
  obtain ⟨eigs, he, -, -⟩ := exists_eigs
  have hm : ∀ m ∈ [exH3, exV3], SumTerm [2, 2, 2] m := by
    intro m hm
    simp only [List.mem_cons, List.not_mem_nil, or_false] at hm
    rcases hm with rfl | rfl
    · exact Or.inl exH3_isMpo
    · exact Or.inr ⟨exV3_isMps, exV3_pos⟩
  have hs : StartArgs [2, 2, 2] (some exV3) none :=
    ⟨fun x hx => by cases hx; exact ⟨exV3_good, exV3_isMps.shape⟩, fun h => by cases h⟩
  have hrun : ∃ x, eigSum qr svd eigs [exH3, exV3] 2 1 (some exV3) none ⟨fun _ => 0, fun _ => 0⟩ = .ok x := by
    rw [eigSum_eq (by simp) hm (by simp),
      show eigStart qr _ (pairs [2, 2, 2] [2, 2, 2]) (some exV3) none _ = .ok exV3 from exV3_good.valid.copy_ok, ok_bind]
    rcases eigRun_cases (mono := False) (B := 0) (eigSumOps_opsFor qr svd eigs (mpas := [exH3, exV3]) (by simp) one_pos) hqr hsvd
      he (fun h => h.elim) (fun h => h.elim) one_pos (by simp) exV3_good exV3_isMps.shape (termL_nil hm) (termR_nil hm)
      (fun h => h.elim) 2 with ⟨e, _, k2⟩ | ⟨x, k1, _⟩
    · rcases k2 with h | h | h
      · exact h.elim
      · exact absurd h.2 (by simp)
      · exact absurd h.2 exV3_ranks
    · exact ⟨x, k1⟩
  obtain ⟨⟨lam, y⟩, hx⟩ := hrun
  exact ⟨qr, svd, eigs, lam, y, hx, (C38_value hqr hsvd he _ _ (by simp) (by simp) hm (by simp) _ _ _ hs 2 lam y hx).2.2.1⟩

end Mpnum
