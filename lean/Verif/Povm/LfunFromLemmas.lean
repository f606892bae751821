import Verif.Povm.LfunFrom
import Verif.Props.C57
import Verif.Props.C47

/-! # Lemmas about `lfun_from` and `est_lfun_from` -/

open Finset Classical

namespace Mpnum

/-- Specification: the element `M` is reported as a multiple of the element `N` with the tolerance `eps`. -/
def MatchTol (eps : ℝ) (D : List ℕ) (M N : List ℕ → List ℕ → ℂ) : Prop :=
  |‖hsInner D M N‖ ^ 2 / (hsNormSq D M * hsNormSq D N) - 1| ≤ eps

/-- Specification: the factor between two matching elements; zero if they do not match. -/
noncomputable def factorTol (eps : ℝ) (D : List ℕ) (M N : List ℕ → List ℕ → ℂ) : ℝ :=
  if MatchTol eps D M N then √(hsNormSq D M / hsNormSq D N) else 0

/-- Specification: the number of elements of the other POVM which match the element `Y`. -/
noncomputable def matches_ (eps : ℝ) (x y : MPA ℂ) (O O' D Y : List ℕ) : ℕ :=
  ((idxSet (keptDims O O')).filter fun Z => MatchTol eps D (x.elem Y) (y.coarseElem O O' Z)).card

theorem argwhere_mem {m : NDArray Bool} {o : List ℕ} (h : o ∈ argwhere m) : InB o m.shape ∧ m.get o = true := by
  unfold argwhere at h
  obtain ⟨h1, h2⟩ := List.mem_filter.1 h
  obtain ⟨k, hk, rfl⟩ := List.mem_map.1 h1
  exact ⟨unravelIdx_inB (List.mem_range.1 hk), h2⟩

theorem argwhere_map_sum (m : NDArray Bool) (G : List ℕ → ℝ) :
    ((argwhere m).map G).sum = sumIdx m.shape fun o => if m.get o = true then G o else 0 := by
  have hf : ∀ (l : List (List ℕ)), ((l.filter fun i => m.get i).map G).sum
      = (l.map fun o => if m.get o = true then G o else 0).sum := by
    intro l
    induction l with
    | nil => rfl
    | cons o l ih =>
      rw [List.filter_cons]
      by_cases h : m.get o = true <;> simp [h, ih]
  rw [← sum_unravel]
  unfold argwhere
  rw [hf, List.map_map]
  rfl

theorem otherSupport_length {O O' : List ℕ} (h : O.length = O'.length) :
    (otherSupport O O').length = (nsDims (keptDims O O')).length := by
  have := congrArg List.length (otherSupport_pick h (W := O') rfl (fun _ => ()) (fun _ => ()) (fun _ _ => rfl))
  rw [List.length_map, List.length_map] at this
  rw [this]
  clear this
  induction O generalizing O' with
  | nil => cases O' <;> simp_all [keptDims, keepOut, squeezeIdx, nsDims]
  | cons s O ih =>
    cases O' with
    | nil => simp at h
    | cons o O' =>
      have := ih (by simpa using h)
      simp only [keptDims, keepOut, List.zipWith_cons_cons, squeezeIdx, nsDims, List.filter_cons] at this ⊢
      by_cases hs : 1 < s <;> by_cases ho : 1 < o <;> simp [hs, ho, this]

/-- The functions that belong to one POVM. -/
structure TermsOf (eps : ℝ) (x y : MPA ℂ) (O O' D : List ℕ) (coeff : NDArray ℝ) (w : ℝ) (ts : List LfunTerm) : Prop where
  weight : ∀ t ∈ ts, t.weight = w
  myout : ∀ t ∈ ts, ∃ Y, InB Y O ∧ t.myout = squeezeIdx O Y
  count : ∀ Y, InB Y O → (ts.map fun t => if t.myout = squeezeIdx O Y then (1 : ℝ) else 0).sum = matches_ eps x y O O' D Y
  value : ∀ (F : List ℕ → ℝ) (W : List ℕ), InB W O' →
    (ts.map fun t => t.c * F t.myout * t.fn ((squeezeIdx O' W).map fun z : ℕ => (z : ℤ))).sum
      = sumIdx O fun Y => coeff.get (squeezeIdx O Y) * w * factorTol eps D (x.elem Y) (y.coarseElem O O' (keepOut O W))
          * F (squeezeIdx O Y)

theorem lfunTerms_ok {x y : MPA ℂ} {O O' D : List ℕ} (ha : EstArgs x y O O' D) (w : ℝ) (coeff : NDArray ℝ) {eps : ℝ}
    (heps : 0 ≤ eps) : ∃ ts, lfunTerms x y w coeff eps = .ok ts ∧ TermsOf eps x y O O' D coeff w ts := by
  obtain ⟨m, f, h1, h2, -⟩ := C56_match_elems x y O O' D ha.self ha.other ha.posO ha.posO' ha.ne ha.elems ha.elems'
    [] (by simp) eps heps
  have h3 := h2 (by simp [NoDuplicates])
  have hK : ∀ o ∈ keptDims O O', 0 < o := keptDims_pos ha.posO'
  have hsl := otherSupport_length ha.lenO
  unfold lfunTerms
  rw [h3, ok_bind, ha.self.outdims, ha.other.outdims]
  simp only
  rw [pyAssert_true (by rw [NDArray.ndim, h1.mshape, hsl]; simp), ok_bind]
  refine ⟨_, rfl, ?_, ?_, ?_, ?_⟩
  · intro t ht
    obtain ⟨o, -, rfl⟩ := List.mem_map.1 ht
    rfl
  · intro t ht
    obtain ⟨o, ho, rfl⟩ := List.mem_map.1 ht
    obtain ⟨ho, -⟩ := argwhere_mem ho
    rw [h1.mshape] at ho
    obtain ⟨i, j, rfl, hi, hj⟩ := inB_append_split ho
    obtain ⟨Y, hY, rfl⟩ := exists_squeeze ha.posO hi
    refine ⟨Y, hY, ?_⟩
    simp only
    rw [← inB_length hi, List.take_left' rfl]
  · intro Y hY
    rw [List.map_map]
    simp only [Function.comp_def]
    rw [argwhere_sum m (nsDims O) (nsDims (keptDims O O')) h1.mshape (squeeze_inB hY) fun _ => 1,
      sumIdx_squeeze hK, sumIdx_eq_sum]
    unfold matches_
    rw [Finset.card_filter]
    push_cast
    refine Finset.sum_congr rfl fun Z hZ => ?_
    have := h1.cos Y Z hY (mem_idxSet.1 hZ)
    by_cases h : MatchTol eps D (x.elem Y) (y.coarseElem O O' Z)
    · rw [if_pos (this.2 h), if_pos h]
    · rw [if_neg fun h' => h (this.1 h'), if_neg h]
  · intro F W hW
    rw [List.map_map]
    simp only [Function.comp_def]
    rw [argwhere_map_sum, h1.mshape, sumIdx_append, sumIdx_squeeze ha.posO]
    refine sumIdx_congr fun Y hY => ?_
    rw [sumIdx_squeeze hK]
    have hkeep := keepOut_inB ha.lenO hW
    have hpick : ((otherSupport O O').map fun p => ((squeezeIdx O' W).map fun z : ℕ => (z : ℤ)).getD p 0)
        = (squeezeIdx (keptDims O O') (keepOut O W)).map fun z : ℕ => (z : ℤ) := by
      refine otherSupport_pick ha.lenO (inB_length hW).symm _ _ fun i hi => ?_
      rw [List.getD_eq_getElem _ _ (by simpa using hi), List.getElem_map]
    have hlen : (squeezeIdx O Y).length = (nsDims O).length := inB_length (squeeze_inB hY)
    rw [sumIdx_eq_sum, Finset.sum_eq_single (keepOut O W)]
    · have hc := h1.cos Y _ hY hkeep
      have hf := h1.factor Y _ hY hkeep
      rw [← hlen]
      simp only [List.take_left', List.drop_left', matchFun, hpick, if_true, mul_one]
      unfold factorTol
      by_cases h : MatchTol eps D (x.elem Y) (y.coarseElem O O' (keepOut O W))
      · rw [if_pos (hc.2 h), if_pos h, hf, if_pos (hc.2 h)]
        rfl
      · rw [if_neg fun h' => h (hc.1 h'), if_neg h]
        ring
    · intro Z hZ hne
      have he : ¬ ((squeezeIdx (keptDims O O') (keepOut O W)).map (fun z : ℕ => (z : ℤ))
          = (squeezeIdx (keptDims O O') Z).map fun z : ℕ => (z : ℤ)) := by
        intro he
        have := List.map_injective_iff.2 (Nat.cast_injective (R := ℤ)) he
        exact hne (squeeze_inj (mem_idxSet.1 hZ) hkeep this.symm)
      rw [← hlen]
      simp only [List.take_left', List.drop_left', matchFun, hpick, if_neg he, mul_zero, ite_self]
    · intro h
      exact absurd (mem_idxSet.2 hkeep) h

theorem truncInt_nat (n : ℕ) : truncInt (n : ℝ) = n := by
  unfold truncInt
  rw [if_pos (by positivity)]
  exact Int.floor_natCast n

/-- The number of samples for an outcome if all weights are natural numbers. -/
theorem countSamples_nat (ts : List LfunTerm) (h : ∀ t ∈ ts, ∃ w : ℕ, t.weight = w) (i : List ℕ) :
    ∃ n : ℕ, countSamples ts i = n ∧ (n : ℝ) = (ts.map fun t => if t.myout = i then t.weight else 0).sum := by
  have key : ∀ (ts : List LfunTerm) (a : ℕ), (∀ t ∈ ts, ∃ w : ℕ, t.weight = w) → ∃ n : ℕ,
      ts.foldl (fun n t => if t.myout = i then truncInt (n + t.weight) else n) (a : ℤ) = n ∧
      (n : ℝ) = a + (ts.map fun t => if t.myout = i then t.weight else 0).sum := by
    intro ts
    induction ts with
    | nil => intro a _; exact ⟨a, rfl, by simp⟩
    | cons t ts ih =>
      intro a h
      obtain ⟨w, hw⟩ := h t (by simp)
      simp only [List.foldl_cons, List.map_cons, List.sum_cons]
      by_cases ht : t.myout = i
      · obtain ⟨n, h1, h2⟩ := ih (a + w) fun t ht => h t (by simp [ht])
        refine ⟨n, ?_, ?_⟩
        · rw [if_pos ht, hw, ← h1, ← truncInt_nat (a + w)]
          push_cast
          rfl
        · rw [h2, if_pos ht, hw]; push_cast; ring
      · obtain ⟨n, h1, h2⟩ := ih a fun t ht => h t (by simp [ht])
        exact ⟨n, by rw [if_neg ht, h1], by rw [h2, if_neg ht]; ring⟩
  obtain ⟨n, h1, h2⟩ := key ts 0 h
  exact ⟨n, by simpa [countSamples] using h1, by simpa using h2⟩

/-- One of the POVMs that were measured: the number of outcomes on each site and the weight. -/
structure LfOther where
  povm : MPA ℂ
  dims : List ℕ
  weight : ℕ

/-- One of the POVMs whose probabilities are wanted, with the coefficients. -/
structure LfTarget where
  povm : MPA ℂ
  dims : List ℕ
  coeff : NDArray ℝ

/-- Specification: the total weight of the estimates of the probability of `Y`. -/
noncomputable def LfTarget.total (t : LfTarget) (os : List LfOther) (D : List ℕ) (eps : ℝ) (Y : List ℕ) : ℕ :=
  (os.map fun o => o.weight * matches_ eps t.povm o.povm t.dims o.dims D Y).sum

/-- Specification: the function of the outcomes `W` of the POVM `o` which contributes to the estimate for `t`. -/
noncomputable def LfTarget.est (t : LfTarget) (os : List LfOther) (D : List ℕ) (eps : ℝ) (o : LfOther) (W : List ℕ) : ℝ :=
  sumIdx t.dims fun Y => t.coeff.get (squeezeIdx t.dims Y)
    * (o.weight * factorTol eps D (t.povm.elem Y) (o.povm.coarseElem t.dims o.dims (keepOut t.dims W)) / t.total os D eps Y)

/-- Value of a list of functions with coefficients. -/
noncomputable def fnValue (l : List (OutFun × Option ℝ)) (row : List ℤ) : ℝ := (l.map fun q => q.2.getD 0 * q.1 row).sum

theorem forall₂_map_mem {α β γ : Type} {P : α → β → Prop} {Q : α → γ → Prop} {g : β → γ} :
    ∀ {l : List α} {m : List β}, List.Forall₂ P l m → (∀ a ∈ l, ∀ b, P a b → Q a (g b)) → List.Forall₂ Q l (m.map g)
  | _, _, .nil, _ => .nil
  | _, _, .cons h t, hq => .cons (hq _ (by simp) _ h) (forall₂_map_mem t fun a ha b hb => hq a (by simp [ha]) b hb)

theorem le_sum_of_mem {l : List ℕ} {a : ℕ} (h : a ∈ l) : a ≤ l.sum := List.single_le_sum (by simp) a h

theorem lfunEstimatorOne_ok {t : LfTarget} {os : List LfOther} {D : List ℕ}
    (ha : ∀ o ∈ os, EstArgs t.povm o.povm t.dims o.dims D) (hx : IsMpPovm t.povm t.dims D)
    (hc : t.coeff.shape = nsDims t.dims) {eps : ℝ} (heps : 0 ≤ eps) (hw : ∀ o ∈ os, 0 < o.weight) :
    ∃ fs n, lfunEstimatorOne t.povm (os.map LfOther.povm) (os.map fun o => (o.weight : ℝ)) t.coeff eps = .ok (fs, n) ∧
      n.shape = nsDims t.dims ∧ (∀ Y, InB Y t.dims → n.get (squeezeIdx t.dims Y) = t.total os D eps Y) ∧
      List.Forall₂ (fun o l => (∀ f ∈ l, f.2 ≠ none) ∧ ∀ W, InB W o.dims →
        fnValue l ((squeezeIdx o.dims W).map fun z : ℕ => (z : ℤ)) = t.est os D eps o W) os fs := by
  unfold lfunEstimatorOne
  rw [hx.outdims, pyAssert_true hc, ok_bind]
  have hzip : (os.map LfOther.povm).zip (os.map fun o => (o.weight : ℝ)) = os.map fun o => (o.povm, (o.weight : ℝ)) := by
    rw [List.zip_map']
  rw [hzip, List.mapM_map]
  have h1 : ∃ tss, (os.mapM ((fun q => lfunTerms t.povm q.1 q.2 t.coeff eps) ∘ fun o : LfOther => (o.povm, (o.weight : ℝ)))) = .ok tss ∧
      List.Forall₂ (fun o ts => TermsOf eps t.povm o.povm t.dims o.dims D t.coeff o.weight ts) os tss := by
    clear hzip hw
    induction os with
    | nil => exact ⟨[], rfl, .nil⟩
    | cons o os ih =>
      obtain ⟨tss, h1, h2⟩ := ih fun o ho => ha o (by simp [ho])
      obtain ⟨ts, h3, h4⟩ := lfunTerms_ok (ha o (by simp)) o.weight t.coeff heps
      refine ⟨ts :: tss, ?_, .cons h4 h2⟩
      rw [List.mapM_cons, h1]
      simp only [Function.comp, h3, ok_bind]; rfl
  obtain ⟨tss, h1, h2⟩ := h1
  rw [h1, ok_bind]
  have hcount : ∀ Y, InB Y t.dims → countSamples tss.flatten (squeezeIdx t.dims Y) = t.total os D eps Y := by
    intro Y hY
    have hnat : ∀ s ∈ tss.flatten, ∃ w : ℕ, s.weight = w := by
      intro s hs
      clear h1 hzip hw ha
      induction h2 with
      | nil => simp at hs
      | cons h _ ih =>
        rw [List.flatten_cons, List.mem_append] at hs
        rcases hs with hs | hs
        · exact ⟨_, h.weight s hs⟩
        · exact ih hs
    obtain ⟨n, h3, h4⟩ := countSamples_nat _ hnat (squeezeIdx t.dims Y)
    rw [h3]
    have : (n : ℝ) = t.total os D eps Y := by
      rw [h4]
      unfold LfTarget.total
      clear h1 hzip hw ha h3 h4 hnat
      induction h2 with
      | nil => simp
      | cons h _ ih =>
        rw [List.flatten_cons, List.map_append, List.sum_append, ih, List.map_cons, List.sum_cons]
        push_cast
        congr 1
        rw [← h.count Y hY, ← List.sum_map_mul_left]
        congr 1
        refine List.map_congr_left fun s hs => ?_
        rw [h.weight s hs]
        split <;> simp
    exact_mod_cast this
  refine ⟨_, _, rfl, rfl, hcount, forall₂_map_mem h2 ?_⟩
  intro o ho ts hts
  have hpos : ∀ s ∈ ts, countSamples tss.flatten s.myout ≠ 0 := by
    intro s hs
    obtain ⟨Y, hY, he⟩ := hts.myout s hs
    rw [he, hcount Y hY]
    have hm : 0 < matches_ eps t.povm o.povm t.dims o.dims D Y := by
      have h0 : (0 : ℝ) < matches_ eps t.povm o.povm t.dims o.dims D Y := by
        rw [← hts.count Y hY]
        refine lt_of_lt_of_le one_pos (List.single_le_sum (fun a ha => ?_) 1 (List.mem_map.2 ⟨s, hs, if_pos he⟩))
        obtain ⟨_, _, rfl⟩ := List.mem_map.1 ha
        split <;> norm_num
      exact_mod_cast h0
    have : o.weight * matches_ eps t.povm o.povm t.dims o.dims D Y ≤ t.total os D eps Y :=
      le_sum_of_mem (List.mem_map.2 ⟨o, ho, rfl⟩)
    have := Nat.mul_pos (hw o ho) hm
    have : 0 < t.total os D eps Y := by omega
    exact_mod_cast this.ne'
  constructor
  · intro f hf
    obtain ⟨s, hs, rfl⟩ := List.mem_map.1 hf
    simp [hpos s hs]
  · intro W hW
    unfold fnValue LfTarget.est
    rw [List.map_map]
    have := hts.value (fun i => 1 / (countSamples tss.flatten i : ℝ)) W hW
    have e : (ts.map fun s => s.c * (1 / (countSamples tss.flatten s.myout : ℝ)) * s.fn ((squeezeIdx o.dims W).map fun z : ℕ => (z : ℤ)))
        = ts.map ((fun q : OutFun × Option ℝ => q.2.getD 0 * q.1 ((squeezeIdx o.dims W).map fun z : ℕ => (z : ℤ))) ∘ fun s =>
          (s.fn, if countSamples tss.flatten s.myout = 0 then none else some (s.c / countSamples tss.flatten s.myout))) := by
      refine List.map_congr_left fun s hs => ?_
      simp only [Function.comp, if_neg (hpos s hs), Option.getD_some]
      ring
    rw [← e, this]
    refine sumIdx_congr fun Y hY => ?_
    rw [hcount Y hY]
    push_cast
    ring

theorem fnValue_append (l m : List (OutFun × Option ℝ)) (row : List ℤ) : fnValue (l ++ m) row = fnValue l row + fnValue m row := by
  simp [fnValue]

theorem forall₂_zipWith_append {os : List LfOther} {A B : LfOther → List ℕ → ℝ} {l m : List (List (OutFun × Option ℝ))}
    (h : List.Forall₂ (fun o l => (∀ f ∈ l, f.2 ≠ none) ∧ ∀ W, InB W o.dims →
        fnValue l ((squeezeIdx o.dims W).map fun z : ℕ => (z : ℤ)) = A o W) os l)
    (h' : List.Forall₂ (fun o l => (∀ f ∈ l, f.2 ≠ none) ∧ ∀ W, InB W o.dims →
        fnValue l ((squeezeIdx o.dims W).map fun z : ℕ => (z : ℤ)) = B o W) os m) :
    List.Forall₂ (fun o l => (∀ f ∈ l, f.2 ≠ none) ∧ ∀ W, InB W o.dims →
        fnValue l ((squeezeIdx o.dims W).map fun z : ℕ => (z : ℤ)) = A o W + B o W) os (List.zipWith (· ++ ·) l m) := by
  induction h generalizing m with
  | nil => cases h'; exact .nil
  | cons h _ ih =>
    cases h' with
    | cons g t =>
      refine .cons ⟨fun f hf => ?_, fun W hW => ?_⟩ (ih t)
      · rcases List.mem_append.1 hf with hf | hf
        · exact h.1 f hf
        · exact g.1 f hf
      · rw [fnValue_append, h.2 W hW, g.2 W hW]

theorem lfunEstimator_ok {ts : List LfTarget} {os : List LfOther} {D : List ℕ}
    (ha : ∀ t ∈ ts, ∀ o ∈ os, EstArgs t.povm o.povm t.dims o.dims D) (hx : ∀ t ∈ ts, IsMpPovm t.povm t.dims D)
    (hc : ∀ t ∈ ts, t.coeff.shape = nsDims t.dims) {eps : ℝ} (heps : 0 ≤ eps) (hw : ∀ o ∈ os, 0 < o.weight) :
    ∃ fs n, lfunEstimator (ts.map LfTarget.povm) (os.map LfOther.povm) (ts.map LfTarget.coeff)
        (os.map fun o => (o.weight : ℝ)) eps = .ok (fs, n) ∧
      List.Forall₂ (fun t n => n.shape = nsDims t.dims ∧
        ∀ Y, InB Y t.dims → n.get (squeezeIdx t.dims Y) = t.total os D eps Y) ts n ∧
      List.Forall₂ (fun o l => (∀ f ∈ l, f.2 ≠ none) ∧ ∀ W, InB W o.dims →
        fnValue l ((squeezeIdx o.dims W).map fun z : ℕ => (z : ℤ)) = (ts.map fun t => t.est os D eps o W).sum) os fs := by
  unfold lfunEstimator
  rw [pyAssert_true (by simp), ok_bind, pyAssert_true (by simp), ok_bind, List.zip_map', List.mapM_map]
  have h1 : ∃ ps, (ts.mapM ((fun q => lfunEstimatorOne q.2 (os.map LfOther.povm) (os.map fun o => (o.weight : ℝ)) q.1 eps)
        ∘ fun t : LfTarget => (t.coeff, t.povm))) = .ok ps ∧
      List.Forall₂ (fun t p => (p.2.shape = nsDims t.dims ∧
          ∀ Y, InB Y t.dims → p.2.get (squeezeIdx t.dims Y) = t.total os D eps Y) ∧
        List.Forall₂ (fun o l => (∀ f ∈ l, f.2 ≠ none) ∧ ∀ W, InB W o.dims →
          fnValue l ((squeezeIdx o.dims W).map fun z : ℕ => (z : ℤ)) = t.est os D eps o W) os p.1) ts ps := by
    induction ts with
    | nil => exact ⟨[], rfl, .nil⟩
    | cons t ts ih =>
      obtain ⟨ps, h1, h2⟩ := ih (fun t ht => ha t (by simp [ht])) (fun t ht => hx t (by simp [ht])) (fun t ht => hc t (by simp [ht]))
      obtain ⟨fs, n, h3, h4, h5, h6⟩ := lfunEstimatorOne_ok (ha t (by simp)) (hx t (by simp)) (hc t (by simp)) heps hw
      refine ⟨(fs, n) :: ps, ?_, .cons ⟨⟨h4, h5⟩, h6⟩ h2⟩
      rw [List.mapM_cons, h1]
      simp only [Function.comp, h3, ok_bind]; rfl
  obtain ⟨ps, h1, h2⟩ := h1
  rw [h1, ok_bind]
  refine ⟨_, _, rfl, forall₂_map_mem h2 fun t _ p h => h.1, ?_⟩
  have key : ∀ {ts : List LfTarget} {ps : List (List (List (OutFun × Option ℝ)) × NDArray ℤ)} (_ : List.Forall₂ (fun t p => (p.2.shape = nsDims t.dims ∧
          ∀ Y, InB Y t.dims → p.2.get (squeezeIdx t.dims Y) = t.total os D eps Y) ∧
        List.Forall₂ (fun o l => (∀ f ∈ l, f.2 ≠ none) ∧ ∀ W, InB W o.dims →
          fnValue l ((squeezeIdx o.dims W).map fun z : ℕ => (z : ℤ)) = t.est os D eps o W) os p.1) ts ps)
      (A : LfOther → List ℕ → ℝ) (acc : List (List (OutFun × Option ℝ)))
      (_ : List.Forall₂ (fun o l => (∀ f ∈ l, f.2 ≠ none) ∧ ∀ W, InB W o.dims →
          fnValue l ((squeezeIdx o.dims W).map fun z : ℕ => (z : ℤ)) = A o W) os acc),
      List.Forall₂ (fun o l => (∀ f ∈ l, f.2 ≠ none) ∧ ∀ W, InB W o.dims →
          fnValue l ((squeezeIdx o.dims W).map fun z : ℕ => (z : ℤ)) = A o W + (ts.map fun t => t.est os D eps o W).sum) os
        (ps.foldl (fun acc p => List.zipWith (· ++ ·) acc p.1) acc) := by
    intro ts ps h
    induction h with
    | nil => intro A acc h; simpa using h
    | cons h _ ih =>
      intro A acc hacc
      have := ih _ _ (forall₂_zipWith_append hacc h.2)
      simp only [List.foldl_cons, List.map_cons, List.sum_cons]
      simpa only [add_assoc] using this
  have := key h2 (fun _ _ => 0) (List.replicate (os.map LfOther.povm).length []) (by
    clear h1 h2 key hw ha
    induction os with
    | nil => exact .nil
    | cons o os ih => exact .cons ⟨by simp, fun W _ => rfl⟩ ih)
  simpa only [zero_add] using this

theorem insufficient_iff {ts : List LfTarget} {n : List (NDArray ℤ)} {os : List LfOther} {D : List ℕ} {eps : ℝ}
    (hpos : ∀ t ∈ ts, ∀ o ∈ t.dims, 0 < o)
    (h : List.Forall₂ (fun t n => n.shape = nsDims t.dims ∧
        ∀ Y, InB Y t.dims → n.get (squeezeIdx t.dims Y) = t.total os D eps Y) ts n) :
    Insufficient n (ts.map LfTarget.coeff) ↔
      ∃ t ∈ ts, ∃ Y, InB Y t.dims ∧ t.coeff.get (squeezeIdx t.dims Y) ≠ 0 ∧ t.total os D eps Y = 0 := by
  unfold Insufficient
  induction h with
  | nil => simp
  | cons h _ ih =>
    rename_i t n ts ns _
    have := ih fun t ht => hpos t (by simp [ht])
    simp only [List.map_cons, List.zip_cons_cons, List.mem_cons, exists_eq_or_imp]
    rw [this]
    refine or_congr ?_ Iff.rfl
    constructor
    · rintro ⟨i, h1, h2, h3⟩
      rw [h.1] at h1
      obtain ⟨Y, hY, rfl⟩ := exists_squeeze (hpos t (by simp)) h1
      refine ⟨Y, hY, h2, ?_⟩
      have h4 := h.2 Y hY
      rw [h3] at h4
      exact_mod_cast h4.symm
    · rintro ⟨Y, hY, h2, h3⟩
      refine ⟨_, by rw [h.1]; exact squeeze_inB hY, h2, ?_⟩
      rw [h.2 Y hY, h3]; rfl

theorem linComb_fnValue (dims : List ℕ) (l : List (OutFun × Option ℝ)) (row : List ℤ) :
    linComb dims (coeffArr l) (some (l.map Prod.fst)) row = fnValue l row := by
  unfold linComb coeffArr theFuns fnValue
  simp only [Option.getD_some, List.length_map, List.getD_cons_zero]
  induction l with
  | nil => rfl
  | cons q l ih =>
    rw [List.length_cons, Finset.sum_range_succ']
    simp only [List.map_cons, List.getD_cons_succ, List.getD_cons_zero, List.sum_cons]
    rw [ih, add_comm]

end Mpnum
