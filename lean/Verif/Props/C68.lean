import Verif.Props.C60Sample
import Verif.Props.C47
import Verif.Props.C45

/-!
# C68: estimates from samples converge to the Born probabilities

`sample` followed by `est_pmf` or `est_lfun`, as one randomised program. -/

open Finset Classical

namespace Mpnum

/-- Specification: the probability that a randomised function raises an exception or returns a value without the property
`P`. -/
noncomputable def Rand.failProb {α : Type} (m : Rand α) (P : α → Prop) : ENNReal :=
  (show PMF (Except PyErr α) from ExceptT.run m).toOuterMeasure {r | ¬ ∃ a, r = .ok a ∧ P a}

/-- The result of `sample` as the array it is: one row per sample, or one integer per sample. -/
def SampleOut.array (width : ℕ) : SampleOut → NDArray ℤ
  | .rows r => rowsArray width r
  | .packed p => ⟨[p.length], fun i => p.getD (i.getD 0 0) 0⟩

section law
variable {dims : List ℕ} {n : ℕ}

/-- The rows for given numbers of the outcomes. -/
def rowsOf (dims : List ℕ) {n : ℕ} (x : Fin n → Fin dims.prod) : List (List ℕ) := List.ofFn fun k => unravelIdx dims (x k)

theorem rowsOf_inB (x : Fin n → Fin dims.prod) : ∀ r ∈ rowsOf dims x, InB r dims := by
  intro r hr
  obtain ⟨k, rfl⟩ := List.mem_ofFn.1 hr
  exact unravelIdx_inB (x k).2

theorem rowsOf_inj {x y : Fin n → Fin dims.prod} (h : rowsOf dims x = rowsOf dims y) : x = y := by
  have := List.ofFn_injective h
  funext k
  have hk := congrArg (ravelIdx dims) (congrFun this k)
  rw [ravel_unravel (x k).2, ravel_unravel (y k).2] at hk
  exact Fin.ext hk

theorem exists_rowsOf {rows : List (List ℕ)} (hn : rows.length = n) (h : ∀ r ∈ rows, InB r dims) :
    ∃ x : Fin n → Fin dims.prod, rowsOf dims x = rows := by
  subst hn
  refine ⟨fun k => ⟨ravelIdx dims rows[k], ravelIdx_lt (h _ (List.getElem_mem _))⟩, ?_⟩
  unfold rowsOf
  refine List.ext_getElem (by simp) fun k h1 h2 => ?_
  rw [List.getElem_ofFn]
  exact unravel_ravel (h _ (List.getElem_mem _))

theorem iid_total (p : Fin dims.prod → ℝ) (hp : ∑ y, p y = 1) : ∑ x : Fin n → Fin dims.prod, (∏ i, p (x i)) = 1 := by
  have h2 := Finset.prod_univ_sum (fun _ : Fin n => (univ : Finset (Fin dims.prod))) (fun _ y => p y)
  rw [Fintype.piFinset_univ] at h2
  rw [← h2]; simp [hp]

/-- The distribution of `n` independent outcomes. -/
noncomputable def iidPMF (p : Fin dims.prod → ℝ) (h0 : ∀ y, 0 ≤ p y) (hp : ∑ y, p y = 1) (n : ℕ) : PMF (Fin n → Fin dims.prod) :=
  PMF.ofFintype (fun x => ENNReal.ofReal (∏ k, p (x k))) (by
    rw [← ENNReal.ofReal_sum_of_nonneg fun x _ => prod_nonneg fun k _ => h0 _, iid_total p hp, ENNReal.ofReal_one])

/-- The probability of a failure, as a sum over all possible samples. -/
theorem failProb_sample {O : List ℕ} (hO : ∀ o ∈ O, 0 < o) {q : List ℕ → ENNReal} {pack : Option (Option (ℤ × ℤ))}
    {m : Rand SampleOut} (hm : SampleLaw O q n (sampleCode O pack) m) (p : Fin (nsDims O).prod → ℝ) (h0 : ∀ y, 0 ≤ p y)
    (hp : ∑ y, p y = 1) (hq : ∀ Y, InB Y O → ∀ y : Fin (nsDims O).prod, squeezeIdx O Y = unravelIdx (nsDims O) y →
      q Y = ENNReal.ofReal (p y)) {β : Type} (f : SampleOut → Py β) (P : β → Prop) :
    Rand.failProb (m >>= fun s => Rand.lift (f s)) P
      = ∑ x : Fin n → Fin (nsDims O).prod,
        if ∃ a, f (sampleCode O pack (rowsOf (nsDims O) x)) = .ok a ∧ P a then 0 else ENNReal.ofReal (∏ k, p (x k)) := by
  let ν := iidPMF p h0 hp n
  let m' : Rand SampleOut := ExceptT.mk (ν.map fun x => .ok (sampleCode O pack (rowsOf (nsDims O) x)))
  have hm' : SampleLaw O q n (sampleCode O pack) m' := by
    constructor
    · intro Ys hl hY
      have hr : ∀ r ∈ Ys.map (squeezeIdx O), InB r (nsDims O) := by
        intro r hr
        obtain ⟨Y, h, rfl⟩ := List.mem_map.1 hr
        exact squeeze_inB (hY Y h)
      obtain ⟨x, hx⟩ := exists_rowsOf (n := n) (by simpa using hl) hr
      show (ν.map fun x => (.ok (sampleCode O pack (rowsOf (nsDims O) x)) : Except PyErr SampleOut)) (.ok _) = _
      rw [PMF.map_apply, tsum_eq_single x]
      · rw [if_pos (by rw [hx])]
        show ENNReal.ofReal (∏ k, p (x k)) = _
        rw [ENNReal.ofReal_prod_of_nonneg fun k _ => h0 _]
        have : Ys.map q = List.ofFn fun k => ENNReal.ofReal (p (x k)) := by
          refine List.ext_getElem (by simp [hl]) fun k h1 h2 => ?_
          rw [List.getElem_map, List.getElem_ofFn]
          refine hq _ (hY _ (List.getElem_mem _)) _ ?_
          have hk : k < (rowsOf (nsDims O) x).length := by simpa [rowsOf] using h2
          have := List.getElem_of_eq hx hk
          simp only [rowsOf, List.getElem_ofFn, List.getElem_map] at this
          exact this.symm
        rw [this, List.prod_ofFn]
      · intro y hy
        rw [if_neg]
        intro h
        exact hy (rowsOf_inj ((sampleCode_inj hr (rowsOf_inB y) (Except.ok.inj h)).symm.trans hx.symm))
    · intro r hr
      have : r ∈ (ν.map fun x => (.ok (sampleCode O pack (rowsOf (nsDims O) x)) : Except PyErr SampleOut)).support :=
        (PMF.mem_support_iff _ _).2 hr
      rw [PMF.support_map] at this
      obtain ⟨x, _, rfl⟩ := this
      have : ∀ rows : List (List ℕ), (∀ r ∈ rows, InB r (nsDims O)) → ∃ Ys : List (List ℕ), Ys.length = rows.length ∧ (∀ Y ∈ Ys, InB Y O) ∧
          Ys.map (squeezeIdx O) = rows := by
        intro rows
        induction rows with
        | nil => exact fun _ => ⟨[], rfl, by simp, rfl⟩
        | cons r rows ih =>
          intro h
          obtain ⟨Ys, h1, h2, h3⟩ := ih fun r hr => h r (by simp [hr])
          obtain ⟨Y, h4, h5⟩ := exists_squeeze hO (h r (by simp))
          exact ⟨Y :: Ys, by simp [h1], by simpa using ⟨h4, h2⟩, by rw [List.map_cons, h3, h5]⟩
      obtain ⟨Ys, h1, h2, h3⟩ := this _ (rowsOf_inB x)
      exact ⟨_, rfl, Ys, by rw [h1]; simp [rowsOf], h2, by rw [h3]⟩
  rw [C46_methods_agree O q n _ m m' hm hm']
  have hrun : (show PMF (Except PyErr β) from ExceptT.run (m' >>= fun s => Rand.lift (f s)))
      = ν.map fun x => f (sampleCode O pack (rowsOf (nsDims O) x)) := by
    show (ν.map fun x => (.ok (sampleCode O pack (rowsOf (nsDims O) x)) : Except PyErr SampleOut)).bind _ = _
    rw [PMF.bind_map]
    rfl
  unfold Rand.failProb
  rw [hrun, PMF.toOuterMeasure_map_apply, PMF.toOuterMeasure_apply_fintype]
  refine sum_congr rfl fun x _ => ?_
  by_cases h : ∃ a, f (sampleCode O pack (rowsOf (nsDims O) x)) = .ok a ∧ P a
  · rw [if_pos h, Set.indicator_of_notMem]
    exact fun h' => h' h
  · rw [if_neg h, Set.indicator_of_mem]
    · rfl
    · exact h

theorem rowsArray_samples (x : Fin n → Fin dims.prod) :
    IsSamples dims n (rowsArray dims.length (rowsOf dims x)) ∧
      ∀ k : Fin n, sampleRow (rowsArray dims.length (rowsOf dims x)) k = outcomeRow dims (x k) := by
  have hrow : ∀ k : Fin n, (rowsOf dims x).getD k [] = unravelIdx dims (x k) := by
    intro k
    rw [List.getD_eq_getElem _ _ (by simp [rowsOf])]
    simp [rowsOf]
  have hlen : ∀ k : Fin n, (unravelIdx dims (x k)).length = dims.length := fun k => inB_length (unravelIdx_inB (x k).2)
  refine ⟨⟨by simp [rowsArray, rowsOf], fun k hk j hj => ?_⟩, fun k => ?_⟩
  · have h : InB (unravelIdx dims (x ⟨k, hk⟩)) dims := unravelIdx_inB (x ⟨k, hk⟩).2
    have := (List.forall₂_iff_get.1 h).2 j (by rw [hlen]; exact hj) hj
    simp only [List.get_eq_getElem] at this
    show 0 ≤ ((((rowsOf dims x).getD k []).getD j 0 : ℕ) : ℤ) ∧ ((((rowsOf dims x).getD k []).getD j 0 : ℕ) : ℤ) < _
    rw [hrow ⟨k, hk⟩, List.getD_eq_getElem _ _ (by rw [hlen]; exact hj), List.getD_eq_getElem _ _ hj]
    exact ⟨by positivity, by exact_mod_cast this⟩
  · unfold sampleRow outcomeRow
    refine List.ext_getElem (by simp [rowsArray, hlen]) fun j h1 h2 => ?_
    simp only [List.getElem_map, List.getElem_range, rowsArray, List.getD_cons_zero, List.getD_cons_succ, hrow]
    rw [List.getD_eq_getElem _ _ (by simpa using h2)]

/-- The estimate for given samples: relative frequencies. -/
theorem estPmf_code {O : List ℕ} (hne : nsDims O ≠ []) (hsz : (nsDims O).prod ≤ intpMax)
    (pack : Option (Option (ℤ × ℤ))) (x : Fin n → Fin (nsDims O).prod) :
    ∃ e, estPmf O ((sampleCode O pack (rowsOf (nsDims O) x)).array (nsDims O).length) = .ok e ∧ e.shape = nsDims O ∧
      ∀ y : Fin (nsDims O).prod, ((e.get (unravelIdx (nsDims O) y) : ℚ) : ℝ) = (∑ k, if x k = y then (1 : ℝ) else 0) / n := by
  obtain ⟨f, hf⟩ : ∃ f : ℕ → ℕ, f = fun k => if h : k < n then (x ⟨k, h⟩ : ℕ) else 0 := ⟨_, rfl⟩
  have hfk : ∀ k : Fin n, f k = x k := fun k => by rw [hf]; simp
  have key : ∀ s p : NDArray ℤ, s.shape ≠ [] → s.shape.getD 0 0 = n →
      (if 1 < s.ndim then packSamples O s none else .ok s) = .ok p → p.shape = [n] →
      (∀ k : Fin n, p.get [(k : ℕ)] = ((x k : ℕ) : ℤ)) → ∃ e, estPmf O s = .ok e ∧ e.shape = nsDims O ∧
      ∀ y : Fin (nsDims O).prod, ((e.get (unravelIdx (nsDims O) y) : ℚ) : ℝ) = (∑ k, if x k = y then (1 : ℝ) else 0) / n := by
    intro s p h1 h2 h3 h4 h5
    obtain ⟨e, e1, e2, e3, _⟩ := estPmf_core O n s p f true hne h1 h2 h3 h4 fun k hk => by
      have := hfk ⟨k, hk⟩
      simp only at this
      rw [h5 ⟨k, hk⟩, this]
      exact ⟨rfl, (x ⟨k, hk⟩).2⟩
    refine ⟨e, e1, e2, fun y => ?_⟩
    rw [e3 _ (unravelIdx_inB y.2), ravel_unravel y.2, if_pos rfl]
    push_cast
    congr 1
    rw [Finset.card_filter, Finset.sum_range]
    push_cast
    refine sum_congr rfl fun k _ => ?_
    rw [hfk]
    simp only [Fin.ext_iff]
  cases pack with
  | none =>
    obtain ⟨hs, hrow⟩ := rowsArray_samples x
    obtain ⟨p, h1, h2, h3⟩ := C44_pack O n _ hne hsz hs
    obtain ⟨g1, _, _, _, g2⟩ := pack_get hs.1 h1
    show ∃ e, estPmf O (rowsArray (nsDims O).length (rowsOf (nsDims O) x)) = .ok e ∧ _
    refine key _ p (by rw [hs.1]; simp) (by rw [hs.1]; rfl) ?_ g1 fun k => ?_
    · rw [if_pos (by rw [NDArray.ndim, hs.1]; simp)]
      exact h1
    · rw [g2, hrow k, outcomeRow, List.map_map,
        show Int.toNat ∘ (fun m : ℕ => (m : ℤ)) = id from funext fun m => rfl, List.map_id, ravel_unravel (x k).2]
  | some dtype =>
    have hl : (rowsOf (nsDims O) x).length = n := by simp [rowsOf]
    have hsh : ((sampleCode O (some dtype) (rowsOf (nsDims O) x)).array (nsDims O).length).shape = [n] := by
      simp [sampleCode, SampleOut.array, hl]
    refine key _ _ (by rw [hsh]; simp) (by rw [hsh]; rfl) (if_neg (by rw [NDArray.ndim, hsh]; simp)) hsh fun k => ?_
    show (List.map _ (rowsOf (nsDims O) x)).getD k 0 = _
    rw [List.getD_eq_getElem _ _ (by simp [hl]), List.getElem_map]
    simp only [rowsOf, List.getElem_ofFn, Fin.eta]
    rw [hornerVal_eq (unravelIdx_inB (x k).2), ravel_unravel (x k).2]

/-! ### variances -/

theorem iid_var {N : ℕ} (p : Fin N → ℝ) (hp : ∑ y, p y = 1) (hn : 0 < n) (G : Fin N → ℝ) :
    ∑ x : Fin n → Fin N, (∏ i, p (x i)) * ((∑ k, G (x k)) / n - ∑ y, G y * p y) ^ 2
      = ((∑ y, G y ^ 2 * p y) - (∑ y, G y * p y) ^ 2) / n := by
  have i0 : ∑ x : Fin n → Fin N, (∏ i, p (x i)) = 1 := by
    have h2 := Finset.prod_univ_sum (fun _ : Fin n => (univ : Finset (Fin N))) (fun _ y => p y)
    rw [Fintype.piFinset_univ] at h2
    rw [← h2]; simp [hp]
  have i1 := iid_sum (n := n) p hp G
  have i2 := iid_sum_sq (n := n) p hp G
  have hn0 : (n : ℝ) ≠ 0 := by exact_mod_cast hn.ne'
  generalize (∑ y, G y * p y) = μ at *
  generalize (∑ y, G y ^ 2 * p y) = m2 at *
  have e : ∀ x : Fin n → Fin N, (∏ k, p (x k)) * ((∑ k, G (x k)) / n - μ) ^ 2
      = (∏ k, p (x k)) * (∑ k, G (x k)) ^ 2 * (1 / n ^ 2)
        - (∏ k, p (x k)) * (∑ k, G (x k)) * (2 * μ / n) + (∏ k, p (x k)) * μ ^ 2 := by
    intro x; field_simp; ring
  simp only [e, sum_add_distrib, sum_sub_distrib, ← sum_mul]
  rw [i2, i1, i0]
  field_simp
  ring

/-- Markov's inequality for a finite sum. -/
theorem markov_sum {ι : Type} [Fintype ι] (w G : ι → ℝ) (good : ι → Prop) [DecidablePred good] (c V : ℝ) (hc : 0 < c) (hw : ∀ x, 0 ≤ w x)
    (hG : ∀ x, 0 ≤ G x) (hbad : ∀ x, G x < c → good x) (hV : ∑ x, w x * G x ≤ V) :
    (∑ x, if good x then 0 else ENNReal.ofReal (w x)) ≤ ENNReal.ofReal (V / c) := by
  have h : ∀ x, (if good x then 0 else ENNReal.ofReal (w x)) ≤ ENNReal.ofReal (w x * G x / c) := by
    intro x
    split_ifs with hx
    · exact zero_le
    · refine ENNReal.ofReal_le_ofReal ?_
      rw [le_div_iff₀ hc]
      have : c ≤ G x := not_lt.1 fun h => hx (hbad x h)
      exact mul_le_mul_of_nonneg_left this (hw x)
  refine (sum_le_sum fun x _ => h x).trans ?_
  rw [← ENNReal.ofReal_sum_of_nonneg fun x _ => div_nonneg (mul_nonneg (hw x) (hG x)) hc.le, ← sum_div]
  exact ENNReal.ofReal_le_ofReal (div_le_div_of_nonneg_right hV hc.le)

/-- Chebyshev's inequality for a function of the samples. -/
theorem failProb_le {O : List ℕ} (hO : ∀ o ∈ O, 0 < o) {q : List ℕ → ENNReal} {pack : Option (Option (ℤ × ℤ))}
    {m : Rand SampleOut} (hm : SampleLaw O q n (sampleCode O pack) m) (p : Fin (nsDims O).prod → ℝ) (h0 : ∀ y, 0 ≤ p y)
    (hp : ∑ y, p y = 1) (hq : ∀ Y, InB Y O → ∀ y : Fin (nsDims O).prod, squeezeIdx O Y = unravelIdx (nsDims O) y →
      q Y = ENNReal.ofReal (p y)) {β : Type} (f : SampleOut → Py β) (P : β → Prop)
    (G : (Fin n → Fin (nsDims O).prod) → ℝ) (c V : ℝ) (hc : 0 < c) (hG : ∀ x, 0 ≤ G x)
    (hgood : ∀ x, G x < c → ∃ a, f (sampleCode O pack (rowsOf (nsDims O) x)) = .ok a ∧ P a)
    (hV : ∑ x : Fin n → Fin (nsDims O).prod, (∏ k, p (x k)) * G x ≤ V) :
    Rand.failProb (m >>= fun s => Rand.lift (f s)) P ≤ ENNReal.ofReal (V / c) := by
  rw [failProb_sample hO hm p h0 hp hq f P]
  have h := markov_sum (fun x : Fin n → Fin (nsDims O).prod => ∏ k, p (x k)) G
    (fun x => ∃ a, f (sampleCode O pack (rowsOf (nsDims O) x)) = .ok a ∧ P a) c V hc (fun x => prod_nonneg fun k _ => h0 _) hG hgood hV
  convert h

end law

/-! ### the theorems -/

section main
variable {qr : QR ℂ} {x : MPA ℂ} {O D : List ℕ} {n : ℕ} {pack : Option (Option (ℤ × ℤ))}

theorem born_nonneg_array {ρ : List ℕ → List ℕ → ℂ} {p : NDArray ℝ} (hx : PovmArg x O D) (hp : BornArray x O D ρ p) :
    (∀ y : Fin (nsDims O).prod, 0 ≤ p.get (unravelIdx (nsDims O) y)) ∧
      (∑ y : Fin (nsDims O).prod, p.get (unravelIdx (nsDims O) y) = 1) ∧
      ∀ Y, InB Y O → ∀ y : Fin (nsDims O).prod, squeezeIdx O Y = unravelIdx (nsDims O) y →
        bornProb D x.elem ρ Y = ENNReal.ofReal (p.get (unravelIdx (nsDims O) y)) := by
  refine ⟨fun y => ?_, ?_, fun Y hY y h => ?_⟩
  · obtain ⟨Y, h1, h2⟩ := exists_squeeze hx.pos (unravelIdx_inB (s := nsDims O) y.2)
    rw [← h2]
    exact hp.nonneg Y h1
  · have := hp.sum
    rw [hp.shape, ← sum_unravel, Finset.sum_range] at this
    exact this
  · unfold bornProb
    rw [← h, ← hp.born Y hY, Complex.ofReal_re]

/-- C68: the whole estimated distribution is close to the distribution returned by `pmf_as_array`: with `n` samples, the
Euclidean distance is `δ` or more with probability at most `1/(n δ²)`; an exception is counted as a failure. -/
theorem C68_est_pmf_all (hqr : QRSpec qr) {ρ : List ℕ → List ℕ → ℂ} (hρ : IsState D ρ) {mode : PovmMode} {ψ : MPA ℂ}
    (hψ : StateIn D ρ mode ψ) (hx : SampleArg x O D n pack) (hsz : (nsDims O).prod ≤ intpMax) (hn : 0 < n)
    {method : SampleMethod} (hme : method = .cond ∨ method = .direct) {g : ℕ} (hg : 0 < g) {eps : ℝ} (he : 0 ≤ eps) :
    ∃ p, pmfAsArray qr x ψ mode eps .auto = .ok (p, ψ) ∧ ∀ δ : ℝ, 0 < δ →
      Rand.failProb (do
          let s ← povmSample qr x ψ n method g mode pack eps
          Rand.lift (estPmf O (s.array (nsDims O).length)))
        (fun e => e.shape = p.shape ∧ sumIdx p.shape (fun y => (((e.get y : ℚ) : ℝ) - p.get y) ^ 2) < δ ^ 2)
        ≤ ENNReal.ofReal (1 / (n * δ ^ 2)) := by
  obtain ⟨p, h1, hp⟩ := hψ.array hρ hqr hx.arg he
  refine ⟨p, h1, fun δ hδ => ?_⟩
  obtain ⟨law, _⟩ := hψ.sample hρ hqr hx hme hg he
  obtain ⟨b0, b1, b2⟩ := born_nonneg_array hx.arg hp
  rw [← div_div]
  obtain ⟨P, hP⟩ : ∃ P : Fin (nsDims O).prod → ℝ, P = fun y : Fin _ => p.get (unravelIdx (nsDims O) y) := ⟨_, rfl⟩
  have hPx : ∀ y : Fin (nsDims O).prod, p.get (unravelIdx (nsDims O) y) = P y := fun y => by rw [hP]
  simp only [hPx] at b0 b1 b2
  have hn0 : (0 : ℝ) < n := by exact_mod_cast hn
  refine failProb_le hx.arg.pos law P b0 b1 b2 (fun s => estPmf O (s.array (nsDims O).length)) _
    (fun x => ∑ y, ((∑ k, if x k = y then (1 : ℝ) else 0) / n - P y) ^ 2) (δ ^ 2)
    (1 / n) (pow_pos hδ 2) (fun x => sum_nonneg fun y _ => sq_nonneg _) (fun x hx' => ?_) ?_
  · obtain ⟨e, e1, e2, e3⟩ := estPmf_code hx.outcomes hsz pack x
    refine ⟨e, e1, by rw [e2, hp.shape], ?_⟩
    rw [hp.shape, ← sum_unravel, Finset.sum_range]
    simp only [e3, hPx]
    exact hx'
  · simp only [mul_sum]
    rw [sum_comm]
    have hv : ∀ y, ∑ x : Fin n → Fin (nsDims O).prod, (∏ k, P (x k)) * ((∑ k, if x k = y then (1 : ℝ) else 0) / n - P y) ^ 2
        = (P y - P y ^ 2) / n := by
      intro y
      have := iid_var (n := n) P b1 hn (fun z => if z = y then (1 : ℝ) else 0)
      simpa using this
    simp only [hv]
    rw [← sum_div]
    refine div_le_div_of_nonneg_right ?_ hn0.le
    rw [sum_sub_distrib, b1]
    have : 0 ≤ ∑ y, P y ^ 2 := sum_nonneg fun y _ => sq_nonneg _
    linarith

/-- C68: the estimated probability of every outcome `Y` is close to the probability `p` given by the Born rule: with `n`
samples, it is wrong by `δ` or more with probability at most `p (1 - p) / (n δ²)`. -/
theorem C68_est_pmf (hqr : QRSpec qr) {ρ : List ℕ → List ℕ → ℂ} (hρ : IsState D ρ) {mode : PovmMode} {ψ : MPA ℂ}
    (hψ : StateIn D ρ mode ψ) (hx : SampleArg x O D n pack) (hsz : (nsDims O).prod ≤ intpMax) (hn : 0 < n)
    {method : SampleMethod} (hme : method = .cond ∨ method = .direct) {g : ℕ} (hg : 0 < g) {eps : ℝ} (he : 0 ≤ eps)
    (Y : List ℕ) (hY : InB Y O) (δ : ℝ) (hδ : 0 < δ) :
    Rand.failProb (do
        let s ← povmSample qr x ψ n method g mode pack eps
        Rand.lift (estPmf O (s.array (nsDims O).length)))
      (fun e => e.shape = nsDims O ∧ |((e.get (squeezeIdx O Y) : ℚ) : ℝ) - (bornRule D (x.elem Y) ρ).re| < δ)
      ≤ ENNReal.ofReal ((bornRule D (x.elem Y) ρ).re * (1 - (bornRule D (x.elem Y) ρ).re) / (n * δ ^ 2)) := by
  obtain ⟨p, h1, hp⟩ := hψ.array hρ hqr hx.arg he
  obtain ⟨law, _⟩ := hψ.sample hρ hqr hx hme hg he
  obtain ⟨b0, b1, b2⟩ := born_nonneg_array hx.arg hp
  rw [← div_div]
  obtain ⟨P, hP⟩ : ∃ P : Fin (nsDims O).prod → ℝ, P = fun y : Fin _ => p.get (unravelIdx (nsDims O) y) := ⟨_, rfl⟩
  have hPx : ∀ y : Fin (nsDims O).prod, p.get (unravelIdx (nsDims O) y) = P y := fun y => by rw [hP]
  simp only [hPx] at b0 b1 b2
  have hin : InB (squeezeIdx O Y) (nsDims O) := squeeze_inB hY
  set y : Fin (nsDims O).prod := ⟨ravelIdx (nsDims O) (squeezeIdx O Y), ravelIdx_lt hin⟩ with hy
  have hyu : unravelIdx (nsDims O) y = squeezeIdx O Y := unravel_ravel hin
  have hPy : (bornRule D (x.elem Y) ρ).re = P y := by
    rw [← hp.born Y hY, Complex.ofReal_re, hP]
    simp only [hyu]
  rw [hPy]
  refine failProb_le hx.arg.pos law P b0 b1 b2 (fun s => estPmf O (s.array (nsDims O).length)) _
    (fun x => ((∑ k, if x k = y then (1 : ℝ) else 0) / n - P y) ^ 2) (δ ^ 2)
    (P y * (1 - P y) / n) (pow_pos hδ 2) (fun x => sq_nonneg _) (fun x hx' => ?_) ?_
  · obtain ⟨e, e1, e2, e3⟩ := estPmf_code hx.outcomes hsz pack x
    refine ⟨e, e1, e2, ?_⟩
    rw [← hyu, e3]
    exact abs_lt_of_sq_lt_sq hx' hδ.le
  · have := iid_var (n := n) P b1 hn (fun z => if z = y then (1 : ℝ) else 0)
    refine le_of_eq ?_
    have h2 : P y * (1 - P y) = P y - P y ^ 2 := by ring
    rw [h2]
    simpa using this

/-- C68: the estimates are consistent: the probability that the estimated probability of `Y` is wrong by `δ` or more tends
to zero when the number of samples grows. -/
theorem C68_consistent (hqr : QRSpec qr) {ρ : List ℕ → List ℕ → ℂ} (hρ : IsState D ρ) {mode : PovmMode} {ψ : MPA ℂ}
    (hψ : StateIn D ρ mode ψ) (hx : ∀ n, 0 < n → SampleArg x O D n pack) (hsz : (nsDims O).prod ≤ intpMax)
    {method : SampleMethod} (hme : method = .cond ∨ method = .direct) {g : ℕ} (hg : 0 < g) {eps : ℝ} (he : 0 ≤ eps)
    (Y : List ℕ) (hY : InB Y O) (δ : ℝ) (hδ : 0 < δ) :
    Filter.Tendsto (fun n : ℕ => Rand.failProb (do
        let s ← povmSample qr x ψ n method g mode pack eps
        Rand.lift (estPmf O (s.array (nsDims O).length)))
      (fun e => |((e.get (squeezeIdx O Y) : ℚ) : ℝ) - (bornRule D (x.elem Y) ρ).re| < δ)) Filter.atTop (nhds 0) := by
  set q := (bornRule D (x.elem Y) ρ).re
  have hlim : Filter.Tendsto (fun n : ℕ => ENNReal.ofReal (q * (1 - q) / (n * δ ^ 2))) Filter.atTop (nhds 0) := by
    rw [← ENNReal.ofReal_zero]
    refine ENNReal.tendsto_ofReal ?_
    have h1 : Filter.Tendsto (fun n : ℕ => q * (1 - q) / δ ^ 2 * (n : ℝ)⁻¹) Filter.atTop (nhds (q * (1 - q) / δ ^ 2 * 0)) :=
      (tendsto_natCast_atTop_atTop.inv_tendsto_atTop).const_mul _
    rw [mul_zero] at h1
    refine h1.congr fun n => ?_
    rw [div_eq_mul_inv, div_eq_mul_inv, mul_inv]
    ring
  refine tendsto_of_tendsto_of_tendsto_of_le_of_le' tendsto_const_nhds hlim (Filter.Eventually.of_forall fun n => zero_le)
    (Filter.eventually_atTop.2 ⟨1, fun n hn => ?_⟩)
  refine le_trans ?_ (C68_est_pmf hqr hρ hψ (hx n hn) hsz hn hme hg he Y hY δ hδ)
  unfold Rand.failProb
  refine MeasureTheory.OuterMeasure.mono _ fun r hr h => hr ?_
  obtain ⟨a, h1, h2⟩ := h
  exact ⟨a, h1, h2.2⟩

/-- C68: `est_lfun` from samples is close to the expectation value of `f = Σ c_i f_i` for the probabilities returned by
`pmf_as_array`: with `n` samples, it is wrong by `δ` or more with probability at most `Var(f) / (n δ²)`. -/
theorem C68_est_lfun (hqr : QRSpec qr) {ρ : List ℕ → List ℕ → ℂ} (hρ : IsState D ρ) {mode : PovmMode} {ψ : MPA ℂ}
    (hψ : StateIn D ρ mode ψ) (hx : SampleArg x O D n none) (hn : 2 ≤ n)
    {method : SampleMethod} (hme : method = .cond ∨ method = .direct) {g : ℕ} (hg : 0 < g) {eps : ℝ} (he : 0 ≤ eps)
    (c : NDArray ℝ) (funs : Option (List OutFun)) (hc : c.shape = [(theFuns (nsDims O) funs).length]) :
    ∃ p, pmfAsArray qr x ψ mode eps .auto = .ok (p, ψ) ∧ ∀ δ : ℝ, 0 < δ →
      Rand.failProb (do
          let s ← povmSample qr x ψ n method g mode none eps
          Rand.lift (estLfun O (some c) funs (s.array (nsDims O).length) none eps))
        (fun r => r.1.shape = [] ∧ |r.1.get [] - expect (nsDims O) p.get (linComb (nsDims O) c funs)| < δ)
        ≤ ENNReal.ofReal (variance (nsDims O) p.get (linComb (nsDims O) c funs) / (n * δ ^ 2)) := by
  obtain ⟨p, h1, hp⟩ := hψ.array hρ hqr hx.arg he
  refine ⟨p, h1, fun δ hδ => ?_⟩
  obtain ⟨law, _⟩ := hψ.sample hρ hqr hx hme hg he
  obtain ⟨b0, b1, b2⟩ := born_nonneg_array hx.arg hp
  rw [← div_div]
  obtain ⟨P, hP⟩ : ∃ P : Fin (nsDims O).prod → ℝ, P = fun y : Fin _ => p.get (unravelIdx (nsDims O) y) := ⟨_, rfl⟩
  have hPx : ∀ y : Fin (nsDims O).prod, p.get (unravelIdx (nsDims O) y) = P y := fun y => by rw [hP]
  simp only [hPx] at b0 b1 b2
  obtain ⟨F, hF⟩ : ∃ F, F = linComb (nsDims O) c funs := ⟨_, rfl⟩
  obtain ⟨G, hG⟩ : ∃ G : Fin (nsDims O).prod → ℝ, G = fun y : Fin _ => F (outcomeRow (nsDims O) y) := ⟨_, rfl⟩
  have hμ : expect (nsDims O) p.get F = ∑ y, G y * P y := by
    rw [expect_eq, Finset.sum_range, hG, hP]
  have hm2 : expect (nsDims O) p.get (fun y => F y ^ 2) = ∑ y, G y ^ 2 * P y := by
    rw [expect_eq, Finset.sum_range, hG, hP]
  refine failProb_le hx.arg.pos law P b0 b1 b2 (fun s => estLfun O (some c) funs (s.array (nsDims O).length) none eps) _
    (fun x => ((∑ k, G (x k)) / n - ∑ y, G y * P y) ^ 2) (δ ^ 2)
    (variance (nsDims O) p.get (linComb (nsDims O) c funs) / n) (pow_pos hδ 2) (fun x => sq_nonneg _) (fun x hx' => ?_) ?_
  · obtain ⟨hs, hrow⟩ := rowsArray_samples x
    refine ⟨_, C47_est_lfun O c funs n _ none eps he (fun _ => hx.outcomes) hs.1 hc (by simp) (by simp [totalWeight]; omega), rfl, ?_⟩
    rw [← hF, hμ]
    have hmean : sampleMean n (sampleRow (SampleOut.array (nsDims O).length (sampleCode O none (rowsOf (nsDims O) x)))) (weightOf none) F
        = (∑ k, G (x k)) / n := by
      unfold sampleMean
      rw [Finset.sum_range, Finset.sum_range]
      have : ∀ k : Fin n, sampleRow (SampleOut.array (nsDims O).length (sampleCode O none (rowsOf (nsDims O) x))) k = outcomeRow (nsDims O) (x k) := hrow
      simp only [weightOf, Option.map_none, Option.getD_none, one_mul, this, hG]
      simp
    show |sampleMean n _ _ F - _| < δ
    rw [hmean]
    exact abs_lt_of_sq_lt_sq hx' hδ.le
  · refine le_of_eq ?_
    rw [iid_var (n := n) P b1 (by omega) G, ← hF]
    unfold variance
    rw [hm2, hμ]

end main

end Mpnum
