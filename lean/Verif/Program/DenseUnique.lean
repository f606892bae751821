import Verif.Program.Dense

/-!
# The dense semantics is a function

Apart from `read`, `set`, `vleg2leg`, `split` and compressions, a statement has at most one result on dense tensors.
-/

namespace Mpnum

namespace Prog

theorem castList_inj : Function.Injective (fun q : List ℕ => q.map fun k : ℕ => (k : ℤ)) :=
  List.map_injective_iff.2 fun _ _ h => Int.natCast_inj.1 h

theorem sumLegs_unique {S : List (List ℕ)} {axes axes' : SumAxes} {legs legs' : List (List ℕ)} (h : SumLegs S axes legs)
    (h' : SumLegs S axes' legs') (e : axes = axes') : legs = legs' := by
  cases h with
  | none => cases h' <;> first | rfl | cases e
  | int a =>
    cases h' with
    | int b => obtain rfl : a = b := by simpa using e
               rfl
    | _ => cases e
  | ints as =>
    cases h' with
    | ints bs => obtain rfl := castList_inj (SumAxes.ints.inj e); rfl
    | _ => cases e
  | empty => cases h' <;> first | rfl | cases e
  | each a as h1 =>
    cases h' with
    | each b bs h2 =>
      have := SumAxes.each.inj e
      have inj : Function.Injective (Option.map fun l : List ℕ => l.map fun a : ℕ => (a : ℤ)) :=
        Option.map_injective castList_inj
      have := (List.map_injective_iff.2 inj) this
      rw [this]
    | _ => cases e

/-- The calls that leave no choice. -/
def Fun.det : Fun → Prop
  | .vleg2leg _ => False
  | .splitLeft _ => False
  | .splitRight _ => False
  | _ => True

/-- The in-place methods that leave no choice. -/
def InFun.det : InFun → Prop
  | .compressSvd _ _ _ _ => False
  | _ => True

/-- The statements that leave no choice. -/
def Stmt.det : Stmt → Prop
  | .read _ _ _ => False
  | .set _ _ _ => False
  | .call _ f _ => f.det
  | .inplace f _ _ => f.det
  | _ => True

theorem embFits_unique {e : NDArray ℂ} {S S' : List (List ℕ)} {t : Ten} {a : ℕ} (h : EmbFits e S t a) (h' : EmbFits e S' t a)
    (hl : S.length = S'.length) : S = S' := by
  obtain ⟨b, rfl⟩ := h
  obtain ⟨b', rfl⟩ := h'
  simp only [List.length_append, List.length_replicate] at hl
  obtain rfl : b = b' := by omega
  rfl

theorem embFits_all_unique {e : NDArray ℂ} {S S' : List (List ℕ)} {ts : List Ten} {as : List ℕ} (hne : ts ≠ [])
    (h : List.Forall₂ (EmbFits e S) ts as) (h' : List.Forall₂ (EmbFits e S') ts as) (hl : S.length = S'.length) : S = S' := by
  cases h with
  | nil => exact (hne rfl).elim
  | cons h1 _ => cases h' with
    | cons h2 _ => exact embFits_unique h1 h2 hl

theorem starts_inj {ts : List Ten} : ∀ {as bs : List ℕ}, ts.length = as.length → ts.length = bs.length →
    List.zipWith (fun (t : Ten) (a : ℕ) => (⟨some (a : ℤ), some ((a : ℤ) + (t.shape.length : ℤ)), none⟩ : PySlice)) ts as =
      List.zipWith (fun (t : Ten) (a : ℕ) => (⟨some (a : ℤ), some ((a : ℤ) + (t.shape.length : ℤ)), none⟩ : PySlice)) ts bs →
    as = bs := by
  induction ts with
  | nil => intro as bs h1 h2 _; simp at h1 h2; rw [List.length_eq_zero_iff.1 h1.symm, List.length_eq_zero_iff.1 h2.symm]
  | cons t ts ih =>
    intro as bs h1 h2 e
    match as, bs, h1, h2, e with
    | a :: as, b :: bs, h1, h2, e =>
      simp only [List.zipWith_cons_cons, List.cons.injEq, PySlice.mk.injEq, Option.some.injEq, Int.natCast_inj] at e
      rw [e.1.1, ih (by simpa using h1) (by simpa using h2) e.2]

theorem pairs_inj {D D' A A' : List ℕ} (hl : D.length = A.length) (hl' : D'.length = A'.length)
    (h : List.zipWith (fun d a => [d, a]) D A = List.zipWith (fun d a => [d, a]) D' A') : D = D' ∧ A = A' := by
  induction D generalizing A D' A' with
  | nil =>
    obtain rfl := List.length_eq_zero_iff.1 hl.symm
    match D', A', hl', h with
    | [], [], _, _ => exact ⟨rfl, rfl⟩
    | d' :: D', a' :: A', _, h => simp at h
  | cons d D ih =>
    match A, D', A', hl, hl', h with
    | a :: A, [], [], _, _, h => simp at h
    | a :: A, d' :: D', a' :: A', hl, hl', h =>
      simp only [List.zipWith_cons_cons, List.cons.injEq, and_true] at h
      obtain ⟨e1, e2⟩ := ih (by simpa using hl) (by simpa using hl') h.2
      exact ⟨by rw [h.1.1, e1], by rw [h.1.2, e2]⟩

theorem den_unique {f g : Fun} {ts : List Ten} {t u : Ten} (h : Den f ts t) (h' : Den g ts u) (e : f = g) (hd : f.det) :
    t = u := by
  cases h with
  | copy t => cases h' <;> first | rfl | cases e
  | plus t => cases h' <;> first | rfl | cases e
  | T t => cases h' <;> first | rfl | cases e
  | transposeNone t => cases h' <;> first | rfl | cases e
  | transpose t n axes hn ha =>
    cases h' with
    | transpose _ n' axes' hn' ha' =>
      obtain rfl := castList_inj (Option.some.inj (Fun.transpose.inj e))
      have : n = n' := by simpa using ha.length_eq.symm.trans ha'.length_eq
      subst this
      rfl
    | _ => cases e
  | adj t => cases h' <;> first | rfl | cases e
  | conj t => cases h' <;> first | rfl | cases e
  | reverse t => cases h' <;> first | rfl | cases e
  | add s t hs => cases h' <;> first | rfl | cases e
  | sub s t hs => cases h' <;> first | rfl | cases e
  | mul c t => cases h' <;> first | (cases e; rfl) | cases e
  | neg t => cases h' <;> first | rfl | cases e
  | truediv c t hc => cases h' <;> first | (cases e; rfl) | cases e
  | reshape t new hn =>
    cases h' with
    | reshape _ new' hn' =>
      obtain rfl := (List.map_injective_iff.2 castList_inj) (NewShapes.list.inj (Fun.reshape.inj e))
      rfl
    | _ => cases e
  | ravel t => cases h' <;> first | rfl | cases e
  | groupSites t k n hk hn =>
    cases h' with
    | groupSites _ k' n' hk' hn' =>
      cases e
      obtain rfl : n = n' := Nat.eq_of_mul_eq_mul_right hk (hn.symm.trans hn')
      rfl
    | _ => cases e
  | splitSites t k m hk hm hl =>
    cases h' with
    | splitSites _ k' m' hk' hm' hl' =>
      cases e
      rcases hS : t.shape with _ | ⟨s, S⟩
      · rfl
      · have h1 := hl s (by rw [hS]; simp)
        have h2 := hl' s (by rw [hS]; simp)
        obtain rfl : m = m' := Nat.eq_of_mul_eq_mul_left hk (h1.symm.trans h2)
        rfl
    | _ => cases e
  | vleg2leg t pos D u hp hD hu => exact hd.elim
  | splitLeft => exact hd.elim
  | splitRight => exact hd.elim
  | sum t axes legs hs hl hr =>
    cases h' with
    | sum _ axes' legs' hs' hl' hr' =>
      cases e
      rw [sumLegs_unique hs hs' rfl]
    | _ => cases e
  | get t idx hl hi => cases h' <;> first | (cases e; rfl) | cases e
  | padRanks t rank force => cases h' <;> first | rfl | cases e
  | padRanksNone t force hl => cases h' <;> first | rfl | cases e
  | dot s t axes hs => cases h' <;> first | (cases e; rfl) | cases e
  | sumup _ S w hne hs hw =>
    cases h' with
    | sumup _ S' w' hne' hs' hw' =>
      cases e
      obtain ⟨t, ht⟩ := List.exists_mem_of_ne_nil ts hne
      rw [← hs t ht, hs' t ht]
    | _ => cases e
  | sumupNone _ S hne hs =>
    cases h' with
    | sumupNone _ S' hne' hs' =>
      obtain ⟨t, ht⟩ := List.exists_mem_of_ne_nil ts hne
      rw [← hs t ht, hs' t ht]
    | _ => cases e
  | partialdot s t a axes ha hs =>
    cases h' with
    | partialdot _ _ a' axes' ha' hs' =>
      obtain ⟨e1, rfl⟩ := Fun.partialdot.inj e
      obtain rfl := Int.natCast_inj.1 e1
      rfl
    | partialdot' _ _ a' axes' hlt' ha' hs' => omega
    | _ => cases e
  | partialdot' s t a axes hlt ha hs =>
    cases h' with
    | partialdot _ _ a' axes' ha' hs' => omega
    | partialdot' _ _ a' axes' hlt' ha' hs' =>
      obtain ⟨e1, rfl⟩ := Fun.partialdot.inj e
      obtain rfl := Int.natCast_inj.1 e1
      rfl
    | _ => cases e
  | chain _ hne => cases h' <;> first | rfl | cases e
  | inject t p n e0 hp he =>
    cases h' with
    | inject _ p' n' e' hp' he' =>
      obtain ⟨e1, e2⟩ := Fun.inject.inj e
      obtain rfl : p = p' := by simpa using e1
      obtain ⟨rfl, rfl⟩ : n = n' ∧ e0 = e' := by simpa using e2
      rfl
    | _ => cases e
  | localouter s t hl => cases h' <;> first | rfl | cases e
  | prune t => cases h' <;> first | rfl | cases e
  | partialtrace t axes hl ha => cases h' <;> first | (cases e; rfl) | cases e
  | embedSlice t e0 a n ha he =>
    cases h' with
    | embedSlice _ e' a' n' ha' he' =>
      obtain ⟨rfl, e2, e3⟩ := Fun.embedSlice.inj e
      obtain rfl := Option.some.inj e3
      simp only [PySlice.mk.injEq, Option.some.injEq, Int.natCast_inj] at e2
      obtain rfl := e2.1
      rfl
    | _ => cases e
  | localSum _ e0 w length S hne hw hS he hf =>
    cases h' with
    | localSum _ e' w' length' S' hne' hw' hS' he' hf' =>
      obtain ⟨e1, e2⟩ := Fun.localSum.inj e
      obtain rfl := Option.some.inj e1
      obtain ⟨t, ht⟩ := List.exists_mem_of_ne_nil ts hne
      obtain rfl : w = w' := (hw t ht).symm.trans (hw' t ht)
      rw [embFits_all_unique hne hf hf' (by omega)]
    | localSumSlices => simp at e
    | _ => cases e
  | localSumSlices _ starts e0 S hne he hf =>
    cases h' with
    | localSumSlices _ starts' e' S' hne' he' hf' =>
      obtain ⟨e1, e2, e3⟩ := Fun.localSum.inj e
      obtain rfl := Option.some.inj e1
      obtain rfl := starts_inj hf.length_eq hf'.length_eq (Option.some.inj e3)
      rw [embFits_all_unique hne hf hf' (Option.some.inj e2)]
    | localSum => simp at e
    | _ => cases e
  | mpsToPmps t D hs =>
    cases h' with
    | mpsToPmps _ D' hs' =>
      obtain rfl : D = D' := (List.map_injective_iff.2 fun a b h => by simpa using h) (hs.symm.trans hs')
      rfl
    | _ => cases e
  | pmpsToMps t D hs =>
    cases h' with
    | pmpsToMps _ D' hs' =>
      obtain rfl : D = D' := (List.map_injective_iff.2 fun a b h => by simpa using h) (hs.symm.trans hs')
      rfl
    | _ => cases e
  | pmpsToMpo t D A hl hs =>
    cases h' with
    | pmpsToMpo _ D' A' hl' hs' =>
      obtain ⟨rfl, rfl⟩ := pairs_inj hl hl' (hs.symm.trans hs')
      rfl
    | _ => cases e
  | mpsToMpo t D hs =>
    cases h' with
    | mpsToMpo _ D' hs' =>
      obtain rfl : D = D' := (List.map_injective_iff.2 fun a b h => by simpa using h) (hs.symm.trans hs')
      rfl
    | _ => cases e

theorem inDen_unique {f : InFun} {s : Ten} {ts : List Ten} {t u : Ten} (h : InDen f s ts t) (h' : InDen f s ts u) (hd : f.det) :
    t = u := by
  cases h <;> cases h' <;> first | rfl | exact hd.elim

theorem makeDen_unique {f g : Make} {ts : List (NDArray ℂ)} {t u : Ten} (h : MakeDen f ts t) (h' : MakeDen g ts u) (e : f = g) :
    t = u := by
  cases h with
  | mpArray _ _ _ _ => cases h' <;> first | rfl | cases e
  | fromKron _ _ _ => cases h' <;> first | rfl | cases e
  | fromArray A S hne hlast hp hs =>
    cases h' with
    | fromArray _ S' hne' hlast' hp' hs' =>
      have e1 : S.map List.length = S'.map List.length := by simpa using e
      have e2 : S.flatten = S'.flatten := hs.symm.trans hs'
      obtain rfl := List.eq_iff_flatten_eq.2 ⟨e2, e1⟩
      rfl
    | _ => cases e

theorem tens_unique {d : DVals} {ys : List ℕ} {ts us : List Ten} (h : d.tens ys ts) (h' : d.tens ys us) : ts = us := by
  induction h generalizing us with
  | nil => cases h'; rfl
  | cons h1 _ ih =>
    cases h' with
    | cons h2 k => rw [Option.some.inj (h1.symm.trans h2), ih k]

theorem arrs_unique {d : DVals} {as : List ℕ} {ts us : List (NDArray ℂ)} (h : d.arrs as ts) (h' : d.arrs as us) : ts = us := by
  induction h generalizing us with
  | nil => cases h'; rfl
  | cons h1 _ ih =>
    cases h' with
    | cons h2 k =>
      obtain ⟨b, hb⟩ := h1
      obtain ⟨c, hc⟩ := h2
      have := Option.some.inj (hb.symm.trans hc)
      rw [(Prod.mk.inj this).1, ih k]

theorem dstep_unique {d d1 d2 : DVals} {st : Stmt} (h : DStep d st d1) (h' : DStep d st d2) (hd : st.det) : d1 = d2 := by
  cases h with
  | array a A => cases h'; rfl
  | write a A B hb => cases h'; rfl
  | read => exact hd.elim
  | set => exact hd.elim
  | make x f as ts t ha hf =>
    cases h' with
    | make _ _ _ ts' t' ha' hf' => obtain rfl := arrs_unique ha ha'; rw [makeDen_unique hf hf' rfl]
  | call x f ys ts t hy hf =>
    cases h' with
    | call _ _ _ ts' t' hy' hf' => obtain rfl := tens_unique hy hy'; rw [den_unique hf hf' rfl hd]
  | same x y t hy =>
    cases h' with
    | same _ _ t' hy' => rw [Option.some.inj (hy.symm.trans hy')]
  | wrap x y t hy =>
    cases h' with
    | wrap _ _ t' hy' => rw [Option.some.inj (hy.symm.trans hy')]
  | inplace f x ys s ts t hx hy hf =>
    cases h' with
    | inplace _ _ _ s' ts' t' hx' hy' hf' =>
      obtain rfl := tens_unique hy hy'
      obtain rfl := Option.some.inj (hx.symm.trans hx')
      rw [inDen_unique hf hf' hd]
  | move x y t hy =>
    cases h' with
    | move _ _ t' hy' => rw [Option.some.inj (hy.symm.trans hy')]
  | rebind x y s t hx hy =>
    cases h' with
    | rebind _ _ s' t' hx' hy' => rw [Option.some.inj (hy.symm.trans hy')]

theorem drun_unique {d d1 d2 : DVals} {P : List Stmt} (h : DRun d P d1) (h' : DRun d P d2) (hd : ∀ st ∈ P, st.det) : d1 = d2 := by
  induction h with
  | nil => cases h'; rfl
  | cons d st d' P d'' h1 _ ih =>
    cases h' with
    | cons _ _ e' _ _ k1 k2 =>
      obtain rfl := dstep_unique h1 k1 (hd st (by simp))
      exact ih k2 fun s hs => hd s (by simp [hs])

/-- If no statement leaves a choice, a program is safe if it has an execution on dense tensors. -/
theorem safe_of_drun {d d' : DVals} {P : List Stmt} (h : DRun d P d') (hd : ∀ st ∈ P, st.det) : Safe d P := by
  induction h with
  | nil => trivial
  | cons d st d' P d'' h1 _ ih =>
    refine ⟨⟨d', h1⟩, fun e he => ?_⟩
    obtain rfl := dstep_unique h1 he (hd st (by simp))
    exact ih fun s hs => hd s (by simp [hs])

end Prog

end Mpnum
