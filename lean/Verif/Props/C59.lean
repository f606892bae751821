import Verif.Povm.PovmLists
import Verif.Props.C40
import Verif.Props.C43
import Mathlib.Analysis.Matrix.Order

/-!
# C59: the constructors of MP-POVMs return POVMs

`IsMeasurement O D x.elem` says that the elements of the MP-POVM `x` are positive semidefinite and sum to the identity. -/

open Finset

namespace Mpnum

section
open scoped ComplexOrder MatrixOrder Matrix Kronecker

/-- Specification: tensor product of operators; the first operator acts on the first `k` sites. -/
def tensorOp (k : ℕ) (M N : List ℕ → List ℕ → ℂ) (I J : List ℕ) : ℂ :=
  M (I.take k) (J.take k) * N (I.drop k) (J.drop k)

theorem inB_take_append {I D E : List ℕ} (h : InB I (D ++ E)) : InB (I.take D.length) D ∧ InB (I.drop D.length) E := by
  obtain ⟨A, B, rfl, h1, h2⟩ := inB_append_split h
  have := inB_length h1
  rw [List.take_left' this, List.drop_left' this]
  exact ⟨h1, h2⟩

/-- The indices of two groups of sites. -/
def idxEquiv (D E : List ℕ) : {I // InB I (D ++ E)} ≃ {I // InB I D} × {I // InB I E} where
  toFun I := (⟨I.1.take D.length, (inB_take_append I.2).1⟩, ⟨I.1.drop D.length, (inB_take_append I.2).2⟩)
  invFun p := ⟨p.1.1 ++ p.2.1, inB_append p.1.2 p.2.2⟩
  left_inv I := by ext1; exact List.take_append_drop _ _
  right_inv p := by
    obtain ⟨⟨A, hA⟩, ⟨B, hB⟩⟩ := p
    have := inB_length hA
    ext1 <;> ext1
    · exact List.take_left' this
    · exact List.drop_left' this

theorem psd_tensor {D E : List ℕ} {M N : List ℕ → List ℕ → ℂ} (hM : Psd D M) (hN : Psd E N) :
    Psd (D ++ E) (tensorOp D.length M N) := by
  unfold Psd at *
  exact (hM.kronecker hN).submatrix (idxEquiv D E)

theorem psd_congr {D : List ℕ} {M N : List ℕ → List ℕ → ℂ} (h : ∀ I J, InB I D → InB J D → M I J = N I J) (hN : Psd D N) :
    Psd D M := by
  unfold Psd at *
  convert hN using 1
  ext I J
  exact h I J I.2 J.2

theorem psd_id (D : List ℕ) : Psd D fun I J => if I = J then 1 else 0 := by
  unfold Psd
  have : (Matrix.of fun I J : {I // InB I D} => if (I : List ℕ) = J then (1 : ℂ) else 0) = 1 := by
    ext I J
    simp [Matrix.one_apply, Subtype.ext_iff]
  rw [this]
  exact Matrix.PosSemidef.one

theorem IsMeasurement.congr {O D : List ℕ} {M N : List ℕ → List ℕ → List ℕ → ℂ}
    (h : ∀ Y I J, InB Y O → InB I D → InB J D → M Y I J = N Y I J) (hN : IsMeasurement O D N) : IsMeasurement O D M := by
  refine ⟨fun Y hY => psd_congr (fun I J hI hJ => h Y I J hY hI hJ) (hN.psd Y hY), fun I J hI hJ => ?_⟩
  rw [← hN.sum I J hI hJ]
  exact sumIdx_congr fun Y hY => h Y I J hY hI hJ

/-- Tensor products of POVMs are POVMs. -/
theorem IsMeasurement.tensor {O D P E : List ℕ} {M N : List ℕ → List ℕ → List ℕ → ℂ} (hM : IsMeasurement O D M)
    (hN : IsMeasurement P E N) :
    IsMeasurement (O ++ P) (D ++ E) fun Y => tensorOp D.length (M (Y.take O.length)) (N (Y.drop O.length)) := by
  refine ⟨fun Y hY => psd_tensor (hM.psd _ (inB_take_append hY).1) (hN.psd _ (inB_take_append hY).2), fun I J hI hJ => ?_⟩
  obtain ⟨A, B, rfl, h1, h2⟩ := inB_append_split hI
  obtain ⟨A', B', rfl, h3, h4⟩ := inB_append_split hJ
  rw [sumIdx_append]
  have l1 := inB_length h1
  have l3 := inB_length h3
  have : ∀ Y, InB Y O → ∀ Z, InB Z P → tensorOp D.length (M ((Y ++ Z).take O.length)) (N ((Y ++ Z).drop O.length)) (A ++ B) (A' ++ B')
      = M Y A A' * N Z B B' := by
    intro Y hY Z hZ
    have := inB_length hY
    unfold tensorOp
    rw [List.take_left' this, List.drop_left' this, List.take_left' l1, List.drop_left' l1, List.take_left' l3, List.drop_left' l3]
  rw [sumIdx_congr fun Y hY => sumIdx_congr fun Z hZ => this Y hY Z hZ]
  simp only [← mul_sumIdx, ← sumIdx_mul]
  rw [hM.sum A A' h1 h3, hN.sum B B' h2 h4]
  by_cases e1 : A = A'
  · subst e1
    by_cases e2 : B = B'
    · subst e2; simp
    · rw [if_neg e2, if_neg (fun h => e2 (List.append_cancel_left h))]; simp
  · rw [if_neg e1, if_neg (fun h => e1 (List.append_inj_left h (l1.trans l3.symm)))]; simp

theorem isMeasurement_nil : IsMeasurement [] [] fun _ _ _ => 1 := by
  refine ⟨fun Y _ => psd_congr (fun I J hI hJ => ?_) (psd_id []), fun I J hI hJ => ?_⟩
  · rw [inB_nil_right.1 hI, inB_nil_right.1 hJ]; simp
  · rw [inB_nil_right.1 hI, inB_nil_right.1 hJ]; simp [sumIdx]

/-! ### chains -/

theorem chain_measurement : ∀ {qs : List (MPA ℂ × List ℕ × List ℕ)} {z : MPA ℂ},
    (∀ q ∈ qs, IsMpPovm q.1 q.2.1 q.2.2 ∧ IsMeasurement q.2.1 q.2.2 q.1.elem) → z.lt = qs.flatMap (fun q => q.1.lt) →
    IsMeasurement (qs.flatMap fun q => q.2.1) (qs.flatMap fun q => q.2.2) z.elem
  | [], z, _, hz => by
    refine IsMeasurement.congr ?_ isMeasurement_nil
    intro Y I J hY hI hJ
    rw [inB_nil_right.1 hY, inB_nil_right.1 hI, inB_nil_right.1 hJ]
    simp [MPA.elem, MPA.val, hz, entry, mp]
  | q :: qs, z, h, hz => by
    have ih := chain_measurement (qs := qs) (z := ⟨qs.flatMap fun q => q.1.lt, 0, 0⟩) (fun p hp => h p (by simp [hp])) rfl
    obtain ⟨h1, h2⟩ := h q (by simp)
    rw [List.flatMap_cons, List.flatMap_cons]
    refine IsMeasurement.congr ?_ (h2.tensor ih)
    intro Y I J hY hI hJ
    obtain ⟨Y, Y', rfl, a1, a2⟩ := inB_append_split hY
    obtain ⟨I, I', rfl, b1, b2⟩ := inB_append_split hI
    obtain ⟨J, J', rfl, c1, c2⟩ := inB_append_split hJ
    have a1 := inB_length a1
    have b1 := inB_length b1
    have c1 := inB_length c1
    rw [elem_append h1 (y := ⟨qs.flatMap fun q => q.1.lt, 0, 0⟩) (by rw [hz, List.flatMap_cons]) (a1.trans h1.len) b1 c1]
    unfold tensorOp
    rw [List.take_left' a1, List.drop_left' a1, List.take_left' b1, List.drop_left' b1, List.take_left' c1, List.drop_left' c1]

/-- C59: `chain` of POVMs is a POVM. -/
theorem C59_chain (qs : List (MPA ℂ × List ℕ × List ℕ)) (hne : qs ≠ [])
    (h : ∀ q ∈ qs, IsMpPovm q.1 q.2.1 q.2.2 ∧ IsMeasurement q.2.1 q.2.2 q.1.elem) :
    ∃ z, chainPovm (qs.map Prod.fst) = .ok z ∧ IsMpPovm z (qs.flatMap fun q => q.2.1) (qs.flatMap fun q => q.2.2) ∧
      IsMeasurement (qs.flatMap fun q => q.2.1) (qs.flatMap fun q => q.2.2) z.elem := by
  obtain ⟨z, h1, h2, _, _, h3⟩ := chainPovm_ok hne fun q hq => (h q hq).1
  exact ⟨z, h1, h3, chain_measurement h h2⟩

/-! ### local POVMs -/

theorem IsPovm.measurement {a : NDArray ℂ} {n d : ℕ} (h : IsPovm a n d) :
    IsMeasurement [n] [d] fun Y I J => a.get [Y.headD 0, I.headD 0, J.headD 0] := by
  have e : ∀ I : {I // InB I [d]}, I.1.headD 0 < d := by
    rintro ⟨I, hI⟩
    obtain ⟨i, I, rfl, h1, h2⟩ := inB_cons_split hI
    exact h1
  refine ⟨fun Y hY => ?_, fun I J hI hJ => ?_⟩
  · obtain ⟨y, Y, rfl, h1, h2⟩ := inB_cons_split hY
    exact (h.psd y h1).submatrix fun I : {I // InB I [d]} => (⟨I.1.headD 0, e I⟩ : Fin d)
  · obtain ⟨i, I, rfl, h1, h2⟩ := inB_cons_split hI
    obtain ⟨j, J, rfl, h3, h4⟩ := inB_cons_split hJ
    rw [inB_nil_right.1 h2, inB_nil_right.1 h4]
    have := congrFun (congrFun h.sum ⟨i, h1⟩) ⟨j, h3⟩
    rw [Matrix.sum_apply, Matrix.one_apply] at this
    simp only [sumIdx, List.headD_cons]
    simpa [elemMatrix] using this

/-- Tensor products of local POVMs are POVMs. -/
theorem local_measurement {d : ℕ} : ∀ {as : List (NDArray ℂ × ℕ)}, (∀ a ∈ as, IsPovm a.1 a.2 d) →
    IsMeasurement (as.map Prod.snd) (as.map fun _ => d) fun Y I J => (List.zipWith (fun a i => a.1.get i) as (triples Y I J)).prod
  | [], _ => by
    refine IsMeasurement.congr (fun Y I J _ _ _ => ?_) isMeasurement_nil
    simp
  | a :: as, h => by
    have ih := local_measurement (as := as) fun b hb => h b (by simp [hb])
    refine IsMeasurement.congr ?_ ((h a (by simp)).measurement.tensor ih)
    intro Y I J hY hI hJ
    obtain ⟨y, Y, rfl, h1, h2⟩ := inB_cons_split hY
    obtain ⟨i, I, rfl, h3, h4⟩ := inB_cons_split hI
    obtain ⟨j, J, rfl, h5, h6⟩ := inB_cons_split hJ
    simp [tensorOp]

/-- C59: `from_local_povm` of a POVM is a POVM. -/
theorem C59_from_local_povm (a : NDArray ℂ) (o d width : ℕ) (ha : IsPovm a o d) (ho : o ≤ 255) (hw : 0 < width) :
    ∃ z, fromLocalPovm a width = .ok z ∧ IsMpPovm z (List.replicate width o) (List.replicate width d) ∧
      IsMeasurement (List.replicate width o) (List.replicate width d) z.elem := by
  obtain ⟨z, h1, h2, _, h3⟩ := C43_from_local_povm a o d width ha.shape ho hw
  refine ⟨z, h1, h2, ?_⟩
  have := local_measurement (d := d) (as := List.replicate width (a, o)) (by
    intro b hb; rw [List.eq_of_mem_replicate hb]; exact ha)
  rw [List.map_replicate, List.map_replicate] at this
  refine IsMeasurement.congr ?_ this
  intro Y I J hY hI hJ
  rw [h3 Y I J hY hI hJ]
  congr 1
  have hl : (triples Y I J).length = width := by
    rw [triples_length ((inB_length hY).trans (by rw [inB_length hI]; simp)) ((inB_length hI).trans (inB_length hJ).symm), inB_length hY]
    simp
  apply List.ext_getElem <;> simp [hl]

/-- C59: too many outcomes on one site are rejected. -/
theorem C59_too_many (a : NDArray ℂ) (o d width : ℕ) (ha : a.shape = [o, d, d]) (ho : 255 < o) (hw : 0 < width) :
    fromLocalPovm a width = .error .assertion := by
  obtain ⟨e, g1, g2, g3, g4, g5⟩ := C04_from_kron (List.replicate width a) (by
    intro h
    have := congrArg List.length h
    simp at this; omega)
  unfold fromLocalPovm
  rw [g1, ok_bind]
  by_contra hne
  have hcheck : ∃ y, e.povmCheck = .ok y ∨ e.povmCheck = .error .assertion := by
    unfold MPA.povmCheck pyAssert
    refine ⟨e, ?_⟩
    split_ifs <;> first | exact .inl rfl | exact .inr rfl
  obtain ⟨y, hy | hy⟩ := hcheck
  · obtain ⟨O, D, hOD⟩ := (povmCheck_iff g2).1 ⟨y, hy⟩
    have hs := hOD.shape
    rw [g3, List.map_replicate, ha] at hs
    have h0 : (triples O D D).length = width := by rw [← hs]; simp
    rw [triples_length hOD.len rfl] at h0
    cases O with
    | nil => simp at h0; omega
    | cons o' O =>
      cases D with
      | nil => have := hOD.len; simp at this
      | cons d' D =>
        cases width with
        | zero => omega
        | succ w =>
          rw [List.replicate_succ, triples_cons] at hs
          have := hOD.small o' (by simp)
          simp at hs
          omega
  · exact hne hy

/-! ### `eye`, `embed`, `block` and `repeat` -/

theorem inB_replicate_one : ∀ {n : ℕ} {Y : List ℕ}, InB Y (List.replicate n 1) → Y = List.replicate n 0
  | 0, Y, h => by simpa using h
  | n + 1, Y, h => by
    obtain ⟨y, Y, rfl, h1, h2⟩ := inB_cons_split h
    rw [inB_replicate_one h2, List.replicate_succ, Nat.lt_one_iff.1 h1]

theorem sumIdx_replicate_one {M : Type} [AddCommMonoid M] : ∀ (n : ℕ) (f : List ℕ → M),
    sumIdx (List.replicate n 1) f = f (List.replicate n 0)
  | 0, f => rfl
  | n + 1, f => by
    rw [List.replicate_succ, sumIdx_cons]
    simp only [range_one, sum_singleton]
    rw [sumIdx_replicate_one n]
    rfl

/-- C59: `eye` is a POVM. -/
theorem C59_eye (ds : List ℕ) (hne : ds ≠ []) :
    ∃ e : MPA ℂ, povmEye ds = .ok e ∧ IsMpPovm e (List.replicate ds.length 1) ds ∧
      IsMeasurement (List.replicate ds.length 1) ds e.elem := by
  obtain ⟨e, h1, h2, _, h3⟩ := C43_eye (R := ℂ) ds hne
  refine ⟨e, h1, h2, ?_, ?_⟩
  · intro Y hY
    rw [inB_replicate_one hY]
    exact psd_congr h3 (psd_id ds)
  · intro I J hI hJ
    rw [sumIdx_replicate_one, h3 I J hI hJ]

theorem embedded_measurement {x z : MPA ℂ} {O D P Q : List ℕ} (hz : Embedded x O D P Q z) (hx : IsMeasurement O D x.elem) :
    IsMeasurement (List.replicate P.length 1 ++ O ++ List.replicate Q.length 1) (P ++ D ++ Q) z.elem := by
  have hid : ∀ P : List ℕ, IsMeasurement (List.replicate P.length 1) P fun _ I J => if I = J then 1 else 0 := fun P =>
    ⟨fun _ _ => psd_id P, fun I J _ _ => sumIdx_replicate_one _ _⟩
  refine IsMeasurement.congr ?_ (((hid P).tensor hx).tensor (hid Q))
  intro Y I J hY hI hJ
  obtain ⟨Y, Y'', rfl, a1, a2⟩ := inB_append_split hY
  obtain ⟨Y', Y, rfl, a3, a4⟩ := inB_append_split a1
  obtain ⟨I, I'', rfl, b1, b2⟩ := inB_append_split hI
  obtain ⟨I', I, rfl, b3, b4⟩ := inB_append_split b1
  obtain ⟨J, J'', rfl, c1, c2⟩ := inB_append_split hJ
  obtain ⟨J', J, rfl, c3, c4⟩ := inB_append_split c1
  have hy : List.drop (List.replicate P.length 1).length (List.take (List.replicate P.length 1 ++ O).length (Y' ++ Y ++ Y'')) = Y := by
    rw [List.take_left' (inB_length a1), List.drop_left' (inB_length a3)]
  rw [hy, inB_replicate_one a3, inB_replicate_one a2, hz.elem Y a4 I J b4 c4 I' J' b3 c3 I'' J'' b2 c2]
  unfold tensorOp
  rw [List.take_left' (inB_length b1), List.drop_left' (inB_length b1), List.take_left' (inB_length c1), List.drop_left' (inB_length c1),
    List.take_left' (inB_length b3), List.take_left' (inB_length c3), List.drop_left' (inB_length b3), List.drop_left' (inB_length c3)]
  by_cases e1 : I' = J' <;> by_cases e2 : I'' = J'' <;> simp [e1, e2]

/-- C59: `embed` of a POVM is a POVM. -/
theorem C59_embed (x : MPA ℂ) (O D : List ℕ) (hx : IsMpPovm x O D) (hm : IsMeasurement O D x.elem) (s : ℕ) (ds : List ℕ)
    (ld : LocalDim) (hld : ld = .list ds ∨ ∃ d, ld = .one d ∧ ds = List.replicate ds.length d) (hs : s + D.length ≤ ds.length) :
    ∃ z, povmEmbed x ds.length s ld = .ok z ∧
      IsMeasurement (List.replicate (ds.take s).length 1 ++ O ++ List.replicate (ds.drop (s + D.length)).length 1)
        (ds.take s ++ D ++ ds.drop (s + D.length)) z.elem := by
  obtain ⟨z, h1, h2⟩ := C43_embed x O D hx s ds ld hld hs
  exact ⟨z, h1, embedded_measurement h2 hm⟩

/-- C59: all items of `block` of a POVM are POVMs. -/
theorem C59_block (x : MPA ℂ) (O : List ℕ) (k d n : ℕ) (hx : IsMpPovm x O (List.replicate k d))
    (hm : IsMeasurement O (List.replicate k d) x.elem) :
    ∃ zs, povmBlock x n = .ok zs ∧
      List.Forall₂ (fun s z => IsMeasurement (List.replicate s 1 ++ O ++ List.replicate (n - s - k) 1)
          (List.replicate s d ++ List.replicate k d ++ List.replicate (n - s - k) d) z.elem) (List.range (n + 1 - k)) zs := by
  obtain ⟨zs, h1, h2⟩ := C43_block x O k d n hx
  refine ⟨zs, h1, h2.imp fun s z hz => ?_⟩
  simpa using embedded_measurement hz hm

/-- C59: `repeat` of a POVM is a POVM if the chain consists of complete copies. -/
theorem C59_repeat (x : MPA ℂ) (O D : List ℕ) (hx : IsMpPovm x O D) (hm : IsMeasurement O D x.elem) (n : ℕ) (hn : 0 < n)
    (hcut : n % D.length = 0) :
    ∃ z, povmRepeat x n = .ok z ∧ z.len = n ∧ IsMeasurement (cyclic O n 0) (cyclic D n 0) z.elem := by
  obtain ⟨z, h1, h2, h3, h4, _⟩ := C43_repeat x O D hx n hn (.inl hcut)
  refine ⟨z, h1, h2, ?_⟩
  have hlx : x.lt.length = D.length := hx.lenx
  have hD0 : 0 < D.length := by
    rw [← hlx]; exact List.length_pos_iff.2 hx.valid.ne
  have cyc : ∀ {α : Type} (l : List α) (d : α), l.length = D.length → cyclic l n d = (List.replicate (n / D.length) l).flatten := by
    intro α l d hl
    rw [← cyclic_eq l (List.length_pos_iff.1 (by omega)) d n, hl, hcut, List.take_zero, List.append_nil]
  have := chain_measurement (qs := List.replicate (n / D.length) (x, O, D)) (z := z) (by
    intro q hq; rw [List.eq_of_mem_replicate hq]; exact ⟨hx, hm⟩) (by
    rw [h3, cyc _ _ hlx]; simp [List.flatMap])
  rw [cyc _ _ hx.len, cyc _ _ rfl]
  simpa [List.flatMap] using this

end

end Mpnum
