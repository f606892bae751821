import Verif.Props.C58Est
import Verif.Props.C57Example

/-! # C58: weights below one, single samples, and an example -/

open Finset Classical

namespace Mpnum

theorem countSamples_small (ts : List LfunTerm) (h : ∀ t ∈ ts, 0 ≤ t.weight ∧ t.weight < 1) (i : List ℕ) :
    countSamples ts i = 0 := by
  unfold countSamples
  induction ts with
  | nil => rfl
  | cons t ts ih =>
    rw [List.foldl_cons]
    have h0 : (if t.myout = i then truncInt ((0 : ℤ) + t.weight) else 0) = 0 := by
      split
      · have := h t (by simp)
        unfold truncInt
        rw [Int.cast_zero, zero_add, if_pos this.1, Int.floor_eq_zero_iff]
        exact this
      · rfl
    rw [h0]
    exact ih fun t ht => h t (by simp [ht])

/-- C58: weights below one are rounded down to zero: whatever the POVMs are, `lfun_from` then reports that the POVMs in
`other` are not sufficient.  (So the property holds for whole numbers only.) -/
theorem C58_weights_truncated (t : LfTarget) (os : List LfOther) (D : List ℕ)
    (ha : ∀ o ∈ os, EstArgs t.povm o.povm t.dims o.dims D) (hos : os ≠ []) (hc : t.coeff.shape = nsDims t.dims)
    (hnz : ∃ Y, InB Y t.dims ∧ t.coeff.get (squeezeIdx t.dims Y) ≠ 0)
    (p : LfOther → Py (NDArray ℝ)) (w : LfOther → ℝ) (hw : ∀ o ∈ os, 0 ≤ w o ∧ w o < 1) (eps : ℝ) (heps : 0 ≤ eps) :
    lfunFrom [t.povm] (os.map fun o => (o.povm, p o)) [t.coeff] (some (os.map w)) eps = .ok none := by
  have hx : IsMpPovm t.povm t.dims D := by
    obtain ⟨o, ho⟩ := List.exists_mem_of_ne_nil _ hos
    exact (ha o ho).self
  have h1 : ∃ tss, (os.mapM ((fun q => lfunTerms t.povm q.1 q.2 t.coeff eps) ∘ fun o : LfOther => (o.povm, w o))) = .ok tss ∧
      List.Forall₂ (fun o ts => TermsOf eps t.povm o.povm t.dims o.dims D t.coeff (w o) ts) os tss := by
    clear hw hos
    induction os with
    | nil => exact ⟨[], rfl, .nil⟩
    | cons o os ih =>
      obtain ⟨tss, h1, h2⟩ := ih fun o ho => ha o (by simp [ho])
      obtain ⟨ts, h3, h4⟩ := lfunTerms_ok (ha o (by simp)) (w o) t.coeff heps
      refine ⟨ts :: tss, ?_, .cons h4 h2⟩
      rw [List.mapM_cons, h1]
      simp only [Function.comp, h3, ok_bind]; rfl
  obtain ⟨tss, h1, h2⟩ := h1
  have hsmall : ∀ s ∈ tss.flatten, 0 ≤ s.weight ∧ s.weight < 1 := by
    intro s hs
    clear h1 ha hos
    induction h2 with
    | nil => simp at hs
    | cons h _ ih =>
      rw [List.flatten_cons, List.mem_append] at hs
      rcases hs with hs | hs
      · rw [h.weight s hs]; exact hw _ (by simp)
      · exact ih (fun o ho => hw o (by simp [ho])) hs
  have hone : ∃ fs, lfunEstimatorOne t.povm (os.map LfOther.povm) (os.map w) t.coeff eps
      = .ok (fs, ⟨nsDims t.dims, countSamples tss.flatten⟩) := by
    unfold lfunEstimatorOne
    rw [hx.outdims, pyAssert_true hc, ok_bind, List.zip_map', List.mapM_map, h1, ok_bind]
    exact ⟨_, rfl⟩
  obtain ⟨fs, hone⟩ := hone
  have hes : ∃ fs', lfunEstimator [t.povm] (os.map LfOther.povm) [t.coeff] (os.map w) eps
      = .ok (fs', [⟨nsDims t.dims, countSamples tss.flatten⟩]) := by
    unfold lfunEstimator
    rw [pyAssert_true (by simp), ok_bind, pyAssert_true (by simp), ok_bind]
    simp only [List.zip_cons_cons, List.zip_nil_right, List.mapM_cons, List.mapM_nil, hone]
    exact ⟨_, rfl⟩
  obtain ⟨fs', hes⟩ := hes
  unfold lfunFrom
  simp only [Option.getD_some, List.map_map, Function.comp_def, hes]
  rw [ok_bind]
  simp only
  rw [if_pos]
  · rfl
  · obtain ⟨Y, hY, hnz⟩ := hnz
    exact ⟨_, List.mem_singleton.2 rfl, squeezeIdx t.dims Y, squeeze_inB hY, hnz, countSamples_small _ hsmall _⟩

theorem mapM_only_error {α β : Type} {f : α → Py β} {e : PyErr} : ∀ {l : List α},
    (∀ a ∈ l, (∃ b, f a = .ok b) ∨ f a = .error e) → (∃ a ∈ l, f a = .error e) → l.mapM f = .error e := by
  intro l
  induction l with
  | nil => rintro - ⟨a, h, -⟩; simp at h
  | cons a l ih =>
    intro h1 h2
    rw [List.mapM_cons]
    rcases h1 a (by simp) with ⟨b, hb⟩ | hb
    · rw [hb, ok_bind, ih (fun a ha => h1 a (by simp [ha]))]
      · rfl
      · obtain ⟨c, hc, he⟩ := h2
        rcases List.mem_cons.1 hc with rfl | hc
        · rw [hb] at he; cases he
        · exact ⟨c, hc, he⟩
    · rw [hb]; rfl

/-- C58: a POVM in `other` with a single sample makes `est_lfun_from` fail with a `ZeroDivisionError`, also if this
POVM is not needed. -/
theorem C58_single_sample (ts : List LfTarget) (qs : List Sampled) (D : List ℕ) (ha : LfArgs ts (qs.map Sampled.src) D)
    (hs : ∀ q ∈ qs, SamplesAre q.src.dims q.src.weight q.arr q.out) (h1 : ∃ q ∈ qs, q.src.weight = 1)
    (eps : ℝ) (heps : 0 ≤ eps) (hm : ¬ Missing ts (qs.map Sampled.src) D eps) :
    estLfunFrom (ts.map LfTarget.povm) (qs.map fun q => q.src.povm) (ts.map LfTarget.coeff) (qs.map Sampled.arr) eps
      = .error .zeroDiv := by
  obtain ⟨os, hos⟩ : ∃ os, os = qs.map Sampled.src := ⟨_, rfl⟩
  rw [← hos] at ha hm
  obtain ⟨fs, n, hf, h2, h3⟩ := lfunEstimator_ok ha.args ha.self ha.coeff heps ha.weight
  have hmiss : Insufficient n (ts.map LfTarget.coeff) ↔ Missing ts os D eps := by
    rw [insufficient_iff ha.pos h2]
    unfold Missing
    simp only [total_eq_zero ha.weight]
  have hw : ((qs.map Sampled.arr).map fun s => ((s.shape.headD 0 : ℕ) : ℝ)) = os.map fun o => (o.weight : ℝ) := by
    rw [hos, List.map_map, List.map_map]
    exact List.map_congr_left fun q hq => by simp [(hs q hq).shape]
  have hp : (qs.map fun q => q.src.povm) = os.map LfOther.povm := by rw [hos, List.map_map]; rfl
  have hlen : fs.length = qs.length := by
    have := h3.length_eq
    rw [hos, List.length_map] at this
    exact this.symm
  unfold estLfunFrom
  rw [hw, hp]
  simp only [hf]
  rw [ok_bind]
  simp only
  rw [if_neg fun h' => hm (hmiss.1 h'), ← hp, List.zip_map', mapM_only_error (e := .zeroDiv)]
  · rfl
  · intro a h
    obtain ⟨h', h''⟩ := List.of_mem_zip (a := a.1) (b := a.2) h
    obtain ⟨q, hq, he⟩ := List.mem_map.1 h''
    rw [← he]
    simp only
    rw [(ha.other q.src (by rw [hos]; exact List.mem_map_of_mem hq)).outdims]
    have hpos := ha.weight q.src (by rw [hos]; exact List.mem_map_of_mem hq)
    by_cases hq2 : 2 ≤ q.src.weight
    · exact .inl ⟨_, C47_est_lfun q.src.dims (coeffArr a.1) (some (a.1.map Prod.fst)) q.src.weight q.arr none eps heps (by simp)
        (hs q hq).shape (by simp [coeffArr, theFuns]) (by simp) (by simp [totalWeight]; omega)⟩
    · exact .inr (C47_est_lfun_few q.src.dims (some (coeffArr a.1)) (some (a.1.map Prod.fst)) q.src.weight q.arr eps (by simp)
        (hs q hq).shape (by omega) fun c hc => by cases hc; simp [coeffArr, theFuns])
  · obtain ⟨q, hq, hq1⟩ := h1
    obtain ⟨i, hi, rfl⟩ := List.getElem_of_mem hq
    refine ⟨(fs[i]'(by omega), qs[i].arr, qs[i].src.povm), ?_, ?_⟩
    · rw [List.mem_iff_getElem]
      exact ⟨i, by simp [hlen, hi], by simp⟩
    · simp only
      rw [(ha.other qs[i].src (by rw [hos]; exact List.mem_map_of_mem (List.getElem_mem hi))).outdims]
      exact C47_est_lfun_few qs[i].src.dims (some (coeffArr _)) (some (fs[i].map Prod.fst)) qs[i].src.weight qs[i].arr eps (by simp)
        (hs _ hq).shape (by omega) fun c hc => by cases hc; simp [coeffArr, theFuns]

/-! ### The hypotheses are met: a measurement in a basis, estimated from the same measurement and from a measurement
with losses -/

/-- The wanted function: the probability of the outcome `0` plus three times the probability of the outcome `1`. -/
noncomputable def exTarget : LfTarget := ⟨povm1 2 basisElem, [2], ⟨[2], fun i => if i = [0] then 1 else 3⟩⟩

noncomputable def exOthers : List LfOther := [⟨povm1 2 basisElem, [2], 2⟩, ⟨povm1 3 lossyElem, [3], 3⟩]

theorem exArgs : LfArgs [exTarget] exOthers [2] where
  args := by
    intro t ht o ho
    obtain rfl := List.mem_singleton.1 ht
    rcases List.mem_cons.1 ho with rfl | ho
    · exact basis_args
    · obtain rfl := List.mem_singleton.1 ho
      exact lossy_args
  coeff := by
    intro t ht
    obtain rfl := List.mem_singleton.1 ht
    rfl
  weight := by
    intro o ho
    rcases List.mem_cons.1 ho with rfl | ho
    · simp
    · obtain rfl := List.mem_singleton.1 ho
      simp
  ne := by simp [exOthers]
  ne' := by simp

theorem exNotMissing : ¬ Missing [exTarget] exOthers [2] 1e-10 := by
  rintro ⟨t, ht, Y, hY, -, h⟩
  obtain rfl := List.mem_singleton.1 ht
  obtain ⟨y, rfl, hy⟩ := inB_one hY
  exact h ⟨povm1 2 basisElem, [2], 2⟩ (by simp [exOthers]) [y] hY ((basis_match hy hy).2 rfl)

theorem exProp : ∀ t ∈ [exTarget], ∀ o ∈ exOthers, ∀ Y Z, InB Y t.dims → InB Z (keptDims t.dims o.dims) →
      MatchTol 1e-10 [2] (t.povm.elem Y) (o.povm.coarseElem t.dims o.dims Z) →
      ∃ a : ℝ, 0 < a ∧ ∀ I J, InB I [2] → InB J [2] → t.povm.elem Y I J = a * o.povm.coarseElem t.dims o.dims Z I J := by
  intro t ht o ho Y Z hY hZ hm
  obtain rfl := List.mem_singleton.1 ht
  obtain ⟨y, rfl, hy⟩ := inB_one hY
  rcases List.mem_cons.1 ho with rfl | ho
  · obtain ⟨z, rfl, hz⟩ := inB_one (show InB Z [2] from hZ)
    obtain rfl := (basis_match hy hz).1 hm
    refine ⟨1, one_pos, fun I J _ _ => ?_⟩
    rw [show (exTarget.povm.elem [y]) = (povm1 2 basisElem).elem [y] from rfl]
    simp only
    rw [show exTarget.dims = [2] from rfl, basis_coarse hz]
    simp
  · obtain rfl := List.mem_singleton.1 ho
    obtain ⟨z, rfl, hz⟩ := inB_one (show InB Z [3] from hZ)
    obtain rfl := (lossy_match hy hz).1 hm
    refine ⟨2, two_pos, fun I J hI hJ => ?_⟩
    obtain ⟨i, rfl, hi⟩ := inB_one hI
    obtain ⟨j, rfl, hj⟩ := inB_one hJ
    rw [show (exTarget.povm.elem [y]) = (povm1 2 basisElem).elem [y] from rfl]
    simp only
    rw [show exTarget.dims = [2] from rfl, lossy_coarse hz, povm1_elem, povm1_elem]
    unfold lossyElem
    rw [if_neg (by omega)]
    push_cast
    ring

/-- The first basis state. -/
noncomputable def exRho : List ℕ → List ℕ → ℂ := fun I J => if I = [0] ∧ J = [0] then 1 else 0

noncomputable def exPmf (o : LfOther) : NDArray ℝ := ⟨nsDims o.dims, fun z =>
  if o.dims = [2] then (if z = [0] then 1 else 0) else (if z = [1] then 0 else 1 / 2)⟩

theorem exDist : ∀ o ∈ exOthers, OutcomeDist o.dims [2] o.povm.elem exRho (exPmf o).get := by
  intro o ho
  rcases List.mem_cons.1 ho with rfl | ho
  · refine ⟨fun z _ => ?_, ?_, fun Y hY => ?_⟩
    · simp only [exPmf, if_true]; split <;> norm_num
    · simp [exPmf, nsDims, sumIdx_cons, Finset.sum_range_succ]
    · obtain ⟨y, rfl, hy⟩ := inB_one hY
      simp only [bornRule, sumIdx_cons, sumIdx_nil, Finset.sum_range_succ, Finset.sum_range_zero, povm1_elem, basisElem,
        exRho, exPmf, squeezeIdx]
      interval_cases y <;> simp
  · obtain rfl := List.mem_singleton.1 ho
    refine ⟨fun z _ => ?_, ?_, fun Y hY => ?_⟩
    · simp only [exPmf]; split <;> split <;> norm_num
    · simp [exPmf, nsDims, sumIdx_cons, Finset.sum_range_succ]
      norm_num
    · obtain ⟨y, rfl, hy⟩ := inB_one hY
      simp only [bornRule, sumIdx_cons, sumIdx_nil, Finset.sum_range_succ, Finset.sum_range_zero, povm1_elem, lossyElem,
        basisElem, exRho, exPmf, squeezeIdx]
      interval_cases y <;> simp

theorem exWanted : wanted [exTarget] [2] exRho = 1 := by
  simp [wanted, exTarget, bornRule, sumIdx_cons, Finset.sum_range_succ, povm1_elem, basisElem, exRho, squeezeIdx]

/-- Non-vacuity of C58: two and three samples. -/
example : ∃ est var : (∀ k : Fin exOthers.length, Fin exOthers[k].weight → Fin (nsDims exOthers[k].dims).prod) → ℝ, (∀ s, estLfunFrom [povm1 2 basisElem] [povm1 2 basisElem, povm1 3 lossyElem] [exTarget.coeff]
      (List.ofFn fun k : Fin exOthers.length => samplesOf (nsDims exOthers[k].dims) exOthers[k].weight (s k)) 1e-10
        = .ok (some (est s, var s))) ∧
      jointMean (fun k : Fin exOthers.length => samplesProb (exPmf exOthers[k]) exOthers[k]) est = 1 := by
  obtain ⟨est, var, h1, h2, -⟩ := C58_unbiased [exTarget] exOthers [2] exArgs (by
    intro o ho
    rcases List.mem_cons.1 ho with rfl | ho
    · exact le_rfl
    · obtain rfl := List.mem_singleton.1 ho
      norm_num) 1e-10 (by norm_num) exNotMissing exRho exPmf exDist exProp
  rw [exWanted] at h2
  exact ⟨est, var, h1, h2⟩

/-- Non-vacuity of C58: the value from the probabilities. -/
example : ∃ v, lfunFrom [povm1 2 basisElem] (exOthers.map fun o => (o.povm, .ok (exPmf o))) [exTarget.coeff]
    (some [(2 : ℕ), (3 : ℕ)]) 1e-10 = .ok (some (1, v)) := by
  have h := (C58_lfun_from [exTarget] exOthers [2] exArgs exPmf (fun o ho => ⟨by
      simp only [exOthers, List.mem_cons, List.not_mem_nil, or_false] at ho
      rcases ho with rfl | rfl <;> decide, rfl, (exDist o ho).nonneg, (exDist o ho).sum⟩)
    _ (.inl rfl) 1e-10 (by norm_num)).2 exNotMissing
  rw [C58_value _ _ _ exArgs _ exNotMissing exRho exPmf exDist exProp, exWanted] at h
  exact ⟨_, h⟩

/-- Non-vacuity of `C58_weights_truncated`: with the weights `1/2` the result is `nan`. -/
example : lfunFrom [povm1 2 basisElem] (exOthers.map fun o => (o.povm, .ok (exPmf o))) [exTarget.coeff]
    (some [1 / 2, 1 / 2]) 1e-10 = .ok none :=
  C58_weights_truncated exTarget exOthers [2] (exArgs.args _ (by simp)) exArgs.ne rfl
    ⟨[0], by simp [exTarget], by simp [exTarget, squeezeIdx]⟩ (fun o => .ok (exPmf o)) (fun _ => 1 / 2)
    (fun _ _ => by norm_num) 1e-10 (by norm_num)

end Mpnum
