import Verif.Linalg.EigRun

/-!
# What the sweeps of `eig` and `eig_sum` achieve
-/

open Finset

namespace Mpnum

/-- What holds after every local step.  `f` are the entries of the vector and `val` the last eigenvalue.  There is a
unit vector `w` whose expectation value is the eigenvalue and of which `f` is a truncation; nothing is truncated if
blocks have one site.  If `mono` holds, the expectation value per norm is at most `B`. -/
structure EigJ (D : List ℕ) (Hf : List ℕ → List ℕ → ℂ) (k : ℕ) (mono : Prop) (B : ℝ) (f : List (List ℕ) → ℂ)
    (val : Option ℂ) : Prop where
  value : ∀ lam, val = some lam → ∃ w : List ℕ → ℂ, (sumIdx D fun I => star (w I) * w I) = 1 ∧ braket D D w Hf w = lam ∧
    (sumIdx D fun I => star (w I) * f (singles I)) = (sumIdx D fun I => star (f (singles I)) * f (singles I)) ∧
    (k = 1 → ∀ I, InB I D → f (singles I) = w I)
  energy : mono → 0 < (sumIdx D fun I => ‖f (singles I)‖ ^ 2) ∧
    (braket D D (fun I => f (singles I)) Hf fun I => f (singles I)).re ≤ B * sumIdx D fun I => ‖f (singles I)‖ ^ 2

theorem braket_congr {R : Type} [CommRing R] [StarRing R] {D A : List ℕ} {b b' a a' : List ℕ → R}
    {H H' : List ℕ → List ℕ → R}
    (hb : ∀ I, InB I D → b I = b' I) (ha : ∀ I, InB I A → a I = a' I)
    (hH : ∀ I J, InB I D → InB J A → H I J = H' I J) : braket D A b H a = braket D A b' H' a' := by
  unfold braket
  refine sumIdx_congr fun I hI => sumIdx_congr fun J hJ => ?_
  rw [hb I hI, ha J hJ, hH I J hI hJ]

theorem idxOK_singles {I D : List ℕ} (h : InB I D) : IdxOK (singles I) (singles D) := by
  induction h with
  | nil => exact List.Forall₂.nil
  | cons h1 _ ih => exact List.Forall₂.cons (by simpa using h1) ih

theorem EigJ.congr {D : List ℕ} {Hf : List ℕ → List ℕ → ℂ} {k : ℕ} {mono : Prop} {B : ℝ} {f g : List (List ℕ) → ℂ}
    {val : Option ℂ} (hfg : ∀ idx, IdxOK idx (singles D) → g idx = f idx) (h : EigJ D Hf k mono B f val) :
    EigJ D Hf k mono B g val := by
  have e : ∀ I, InB I D → g (singles I) = f (singles I) := fun I hI => hfg _ (idxOK_singles hI)
  refine ⟨fun lam hl => ?_, fun hm => ?_⟩
  · obtain ⟨w, w1, w2, w3, w4⟩ := h.value lam hl
    refine ⟨w, w1, w2, ?_, fun hk I hI => (e I hI).trans (w4 hk I hI)⟩
    rw [sumIdx_congr (g := fun I => star (w I) * f (singles I)) fun I hI => by rw [e I hI], w3]
    exact sumIdx_congr fun I hI => by rw [e I hI]
  · obtain ⟨h1, h2⟩ := h.energy hm
    rw [braket_congr (b' := fun I => f (singles I)) (a' := fun I => f (singles I)) (H' := Hf) e e fun _ _ _ _ => rfl,
      sumIdx_congr (g := fun I => ‖f (singles I)‖ ^ 2) fun I hI => by rw [e I hI]]
    exact ⟨h1, h2⟩

theorem norm_sq_sum {D : List ℕ} (w : List ℕ → ℂ) :
    (sumIdx D fun I => star (w I) * w I) = ((sumIdx D fun I => ‖w I‖ ^ 2 : ℝ) : ℂ) := by
  rw [sumIdx_eq_sum, sumIdx_eq_sum, Complex.ofReal_sum]
  refine Finset.sum_congr rfl fun I _ => ?_
  rw [show star (w I) = (starRingEnd ℂ) (w I) from rfl, mul_comm, Complex.mul_conj, Complex.normSq_eq_norm_sq]

section
variable {E E' : Type} {qr : QR ℂ} {svd : SVD ℂ} {eigs : EigsFun} {k : ℕ} {D : List ℕ}
  {Hf : List ℕ → List ℕ → ℂ} {EL ER : List (NDArray ℂ) → E → Prop} {o : SweepOps ℂ E ℂ}
  {EL' ER' : List (NDArray ℂ) → E' → Prop} {o' : SweepOps ℂ E' ℂ}

/-- What the tests before the sweeps and the local solver guarantee, for one block. -/
structure StepOut (D : List ℕ) (Hf : List ℕ → List ℕ → ℂ) (k : ℕ) (mono : Prop) (B : ℝ) (pre mid post : List (NDArray ℂ))
    (l r M : ℕ) (x : ℂ × List (NDArray ℂ)) : Prop where
  chain : Chained l x.2 r
  phys : physShape x.2 = physShape mid
  pos : AllPos x.2
  rank : ∀ t ∈ x.2.tail, t.lb ≤ M
  prop : EigJ D Hf k mono B (entry (pre ++ x.2 ++ post)) (some x.1)

theorem step_out (hqr : QRSpec qr) (hsvd : SVDSpec svd) {herm mono : Prop} {Pe : PyErr → Prop} {B : ℝ}
    (heigs : EigsSpec herm Pe eigs) (hherm : herm → ∀ I J, InB I D → InB J D → Hf I J = star (Hf J I))
    (hmono : mono → k = 1 ∧ EigsMin eigs ∧ ∀ I J, InB I D → InB J D → Hf I J = star (Hf J I)) (hk : 0 < k) {M : ℕ}
    {pre mid post : List (NDArray ℂ)} {l r : ℕ} {val : Option ℂ} (hb : BlockAt D k pre mid post l r)
    (hl : ∀ t ∈ pre, LCanon t) (hr : ∀ t ∈ post, RCanon t) (hM : ∀ t ∈ pre ++ mid ++ post, t.lb ≤ M)
    (hJ : EigJ D Hf k mono B (entry (pre ++ mid ++ post)) val) {op : NDArray ℂ}
    (hop : IsLocalOp Hf (D.take pre.length) ((D.drop pre.length).take k) (D.drop (pre.length + k)) pre post l r op) :
    (∃ e, eigMinimize2 qr svd eigs op mid = .error e ∧ Pe e) ∨
      ∃ x, eigMinimize2 qr svd eigs op mid = .ok x ∧ StepOut D Hf k mono B pre mid post l r M x := by
  have hD : D.take pre.length ++ (D.drop pre.length).take k ++ D.drop (pre.length + k) = D := (splitBlk D _ _).symm
  have hlen := hb.total
  have hlP : (D.take pre.length).length = pre.length := by rw [List.length_take]; omega
  have hlD : ((D.drop pre.length).take k).length = k := by rw [List.length_take, List.length_drop]; omega
  have hmD := hb.mid_phys
  have hph : physShape pre = singles (D.take pre.length) ∧ physShape post = singles (D.drop (pre.length + k)) := by
    have h := hb.phys
    rw [physShape_append, physShape_append] at h
    constructor
    · have h2 := congrArg (List.take pre.length) h
      rw [List.append_assoc, List.take_append_of_le_length (by simp [physShape]),
        List.take_of_length_le (by simp [physShape]), singles_take] at h2
      exact h2
    · have h2 := congrArg (List.drop (pre.length + k)) h
      rw [List.drop_append, List.drop_eq_nil_of_le (by simp [physShape, hb.len]), List.nil_append, singles_drop] at h2
      simpa [physShape, hb.len] using h2
  have hmne : mid ≠ [] := by intro h0; have := hb.len; rw [h0] at this; simp at this; omega
  rcases localStep_ok (M := M) hqr hsvd heigs hop (by rw [hD]; exact hherm) hb.c1 hb.c2 hb.c3 hph.1 hmD hph.2 hl hr hmne
      (fun t ht => hb.pos t (by simp [ht])) (fun t ht => hM t (by simp [ht])) with h | ⟨lam, us, X, h1, h2, h3⟩
  · exact Or.inl h
  · refine Or.inr ⟨(lam, us), h1, h2.chain, by rw [h2.phys, hmD], h2.pos, h2.rank, ?_⟩
    have g1 := h2.norm
    have g2 := h2.value
    have g3 := h2.overlap
    have g4 := fun hk1 : k = 1 => h2.single (hlD.trans hk1)
    rw [hD] at g1 g2 g3 g4 h3
    refine ⟨fun lam' hl' => ?_, fun hm => ?_⟩
    · cases hl'
      exact ⟨_, g1, g2, g3, g4⟩
    · obtain ⟨hk1, hmin, hH⟩ := hmono hm
      obtain ⟨e1, e2⟩ := hJ.energy hm
      obtain ⟨A, _, hA⟩ := ltensToArray_ok hb.c2 hmne
      have hAs : A.shape = l :: ((D.drop pre.length).take k ++ [r]) := by
        rw [hA.1, hmD, singles, singles_flatten']
      have hbv : ∀ I, InB I D → blockVec pre A post (D.take pre.length).length ((D.drop pre.length).take k).length I
          = entry (pre ++ mid ++ post) (singles I) := by
        intro I hI
        rw [← hD] at hI
        exact blockVec_rep hb.c1 hb.c2 hA hph.1 hmD hI
      have h4 := h3 hmin hH A hAs
      rw [braket_congr (b' := fun I => entry (pre ++ mid ++ post) (singles I))
          (a' := fun I => entry (pre ++ mid ++ post) (singles I)) (H' := Hf) hbv hbv fun _ _ _ _ => rfl,
        sumIdx_congr (g := fun I => ‖entry (pre ++ mid ++ post) (singles I)‖ ^ 2) fun I hI => by rw [hbv I hI]] at h4
      have hle : lam.re ≤ B := le_of_mul_le_mul_right (h4.trans e2) e1
      have hn := g1
      rw [norm_sq_sum] at hn
      have hn' := Complex.ofReal_eq_one.1 hn
      have hf := g4 hk1
      rw [braket_congr (b' := blockVec pre X post (D.take pre.length).length ((D.drop pre.length).take k).length)
          (a' := blockVec pre X post (D.take pre.length).length ((D.drop pre.length).take k).length) (H' := Hf) hf hf
          fun _ _ _ _ => rfl, g2,
        sumIdx_congr (g := fun I => ‖blockVec pre X post (D.take pre.length).length
          ((D.drop pre.length).take k).length I‖ ^ 2) fun I hI => by rw [hf I hI], hn']
      exact ⟨one_pos, by simpa using hle⟩

/-- One set of operations, compared with itself. -/
theorem sweepSpec_self (ho : OpsFor qr svd eigs k D Hf EL ER o) (hqr : QRSpec qr) (hsvd : SVDSpec svd)
    {herm mono : Prop} {Pe : PyErr → Prop} {B : ℝ}
    (heigs : EigsSpec herm Pe eigs) (hherm : herm → ∀ I J, InB I D → InB J D → Hf I J = star (Hf J I))
    (hmono : mono → k = 1 ∧ EigsMin eigs ∧ ∀ I J, InB I D → InB J D → Hf I J = star (Hf J I)) (hk : 0 < k) (M : ℕ) :
    SweepSpec D.length k M (singles D) Pe (fun pre e e' => EL pre e ∧ e' = e) (fun post e e' => ER post e ∧ e' = e)
      (EigJ D Hf k mono B) o o := by
  refine ⟨fun f g v hfg h => h.congr hfg, ?_, ?_, ?_⟩
  · rintro pre t d e _ ⟨he, rfl⟩ hc hs hlt _
    rw [singles_take] at hs
    obtain ⟨e', h1, h2⟩ := ho.addL pre t d _ he hc hs hlt
    exact ⟨e', e', h1, h1, h2, rfl⟩
  · rintro post t d e _ p ⟨he, rfl⟩ hc hs hlen _ _
    rw [singles_drop] at hs
    obtain ⟨e', h1, h2⟩ := ho.addR post t d _ p he hc hs hlen
    exact ⟨e', e', h1, h1, h2, rfl⟩
  · rintro pre mid post l r e _ f _ val ⟨he, rfl⟩ ⟨hf, rfl⟩ c1 c2 c3 hs hlen hpos hl hr hM hJ
    obtain ⟨op, h1, h2⟩ := ho.step pre mid post l r _ _ he hf c1 c2 c3 hs hlen hpos
    rw [h1]
    rcases step_out hqr hsvd heigs hherm hmono hk ⟨c1, c2, c3, hs, hlen, hpos⟩ hl hr hM hJ h2 with
      ⟨e, g1, g2⟩ | ⟨x, g1, g2⟩
    · rw [g1]; exact ⟨rfl, g2⟩
    · rw [g1]; exact ⟨rfl, g2.chain, g2.phys, g2.pos, g2.rank, g2.prop⟩

/-- Two sets of operations that form the local operators of the same operator. -/
theorem sweepSpec_two (ho : OpsFor qr svd eigs k D Hf EL ER o) (ho' : OpsFor qr svd eigs k D Hf EL' ER' o')
    (hqr : QRSpec qr) (hsvd : SVDSpec svd) {herm : Prop} {Pe : PyErr → Prop}
    (heigs : EigsSpec herm Pe eigs) (hext : EigsExt eigs)
    (hherm : herm → ∀ I J, InB I D → InB J D → Hf I J = star (Hf J I)) (hk : 0 < k) (M : ℕ) :
    SweepSpec D.length k M (singles D) Pe (fun pre e e' => EL pre e ∧ EL' pre e') (fun post e e' => ER post e ∧ ER' post e')
      (EigJ D Hf k False 0) o o' := by
  refine ⟨fun f g v hfg h => h.congr hfg, ?_, ?_, ?_⟩
  · rintro pre t d e e₂ ⟨he, he₂⟩ hc hs hlt _
    rw [singles_take] at hs
    obtain ⟨e', h1, h2⟩ := ho.addL pre t d _ he hc hs hlt
    obtain ⟨e'', h1', h2'⟩ := ho'.addL pre t d _ he₂ hc hs hlt
    exact ⟨e', e'', h1, h1', h2, h2'⟩
  · rintro post t d e e₂ p ⟨he, he₂⟩ hc hs hlen _ _
    rw [singles_drop] at hs
    obtain ⟨e', h1, h2⟩ := ho.addR post t d _ p he hc hs hlen
    obtain ⟨e'', h1', h2'⟩ := ho'.addR post t d _ p he₂ hc hs hlen
    exact ⟨e', e'', h1, h1', h2, h2'⟩
  · rintro pre mid post l r e e₂ f f₂ val ⟨he, he₂⟩ ⟨hf, hf₂⟩ c1 c2 c3 hs hlen hpos hl hr hM hJ
    obtain ⟨op, h1, h2⟩ := ho.step pre mid post l r _ _ he hf c1 c2 c3 hs hlen hpos
    obtain ⟨op', h1', h2'⟩ := ho'.step pre mid post l r _ _ he₂ hf₂ c1 c2 c3 hs hlen hpos
    have hee : eigMinimize2 qr svd eigs op' mid = eigMinimize2 qr svd eigs op mid := by
      unfold eigMinimize2
      simp only [hext op' op _ (h2'.eqv h2)]
    rw [h1, h1', hee]
    rcases step_out hqr hsvd heigs hherm (fun h : False => h.elim) hk ⟨c1, c2, c3, hs, hlen, hpos⟩ hl hr hM hJ h2 with
      ⟨e, g1, g2⟩ | ⟨x, g1, g2⟩
    · rw [g1]; exact ⟨rfl, g2⟩
    · rw [g1]; exact ⟨rfl, g2.chain, g2.phys, g2.pos, g2.rank, g2.prop⟩

end

namespace MPA

theorem canonicalize_right_first {R : Type} [CommRing R] [StarRing R] {qr : QR R} (hqr : QRSpec qr) {x : MPA R}
    (hx : x.Good) : ∃ y, x.canonicalize qr .none (.int 1) = .ok y ∧ CanonStepSpec x y ∧ y.l = 0 ∧ y.r = 1 := by
  have h0 := hx.valid.l_nonneg
  have h1 := hx.valid.l_lt_r
  have h2 := hx.valid.r_le
  have hlen : 0 < x.len := List.length_pos_of_ne_nil hx.valid.ne
  obtain ⟨y, y1, y2, y3, y4⟩ := canonicalize_ok hqr hx (left := .none) (right := .int 1) rfl
    (tl := 0) (tr := 1) (by simp [target, CArg.left]) (by simp [target, CArg.right]) le_rfl one_pos (by omega)
  refine ⟨y, y1, y2, ?_, ?_⟩
  · rw [y3]; split_ifs <;> omega
  · rw [y4]; split_ifs <;> omega

end MPA

/-- What `eig` and `eig_sum` return, for two sets of operations at once. -/
structure EigOut (D : List ℕ) (Hf : List ℕ → List ℕ → ℂ) (k M : ℕ) (mono : Prop) (B : ℝ) (x : ℂ × MPA ℂ) : Prop where
  good : x.2.Good
  shape : x.2.shape = singles D
  rank : ∀ t ∈ x.2.lt, t.lb ≤ M
  l : x.2.l = 0
  r : x.2.r = k
  prop : EigJ D Hf k mono B x.2.val (some x.1)

theorem eigRun_rel {E₁ E₂ : Type} {qr : QR ℂ} (hqr : QRSpec qr) {D : List ℕ} {Hf : List ℕ → List ℕ → ℂ} {k M : ℕ}
    {mono : Prop} {B : ℝ} {P : PyErr → Prop} {EL ER : List (NDArray ℂ) → E₁ → E₂ → Prop} {o₁ : SweepOps ℂ E₁ ℂ}
    {o₂ : SweepOps ℂ E₂ ℂ} (hs : SweepSpec D.length k M (singles D) P EL ER (EigJ D Hf k mono B) o₁ o₂) (hk : 0 < k)
    (hkn : k ≤ D.length) {v : MPA ℂ} (hv : v.Good) (hshape : v.shape = singles D) (hb : ∀ t ∈ v.lt, t.lb ≤ M)
    {e₁ : E₁} {e₂ : E₂} (he : EL [] e₁ e₂) (hf : ER [] e₁ e₂) (hJ : EigJ D Hf k mono B v.val none) (m : ℕ) :
    PyRel (fun e => P e ∨ (e = .unbound ∧ m = 0) ∨ (e = .assertion ∧ twoRanksOne v))
      (fun x y => x = y ∧ EigOut D Hf k M mono B x)
      (eigRun qr o₁ e₁ D.length m k v) (eigRun qr o₂ e₂ D.length m k v) := by
  unfold eigRun
  by_cases ht : twoRanksOne v
  · have : (pyAssert (¬ twoRanksOne v) : Py Unit) = .error .assertion := by
      rw [pyAssert, if_neg (by simpa using ht)]
    rw [this]
    exact ⟨rfl, Or.inr (Or.inr ⟨rfl, ht⟩)⟩
  · have : (pyAssert (¬ twoRanksOne v) : Py Unit) = .ok () := by rw [pyAssert, if_pos ht]
    rw [this, ok_bind, ok_bind]
    obtain ⟨y, y1, y2, y3, y4⟩ := MPA.canonicalize_right_first hqr hv
    rw [y1, ok_bind, ok_bind]
    have hys : y.shape = singles D := by rw [y2.same.1, hshape]
    have hyl : y.lt.length = D.length := by
      have := congrArg List.length (show physShape y.lt = singles D from hys)
      rwa [physShape_length, singles_length] at this
    have hyJ : EigJ D Hf k mono B y.val none := hJ.congr fun idx hi => y2.same.2 idx (by rw [hshape]; exact hi)
    have hrun := (run_inv hqr hs hk hkn y2.good hyl hys (SweepInv.bound_of_ranksLe y2.ranks hb) y4 he hf hyJ m).mono_err
      (P' := fun e => P e ∨ (e = .unbound ∧ m = 0) ∨ (e = .assertion ∧ twoRanksOne v)) fun e he => Or.inl he
    refine hrun.bind fun t₁ t₂ h => ?_
    obtain ⟨h1, h2, h3⟩ := h
    rw [h1.val, h1.vec]
    cases hval : t₁.val with
    | none => exact ⟨rfl, Or.inr (Or.inl ⟨rfl, h2.1 hval⟩)⟩
    | some a =>
      have hm : m ≠ 0 := fun h0 => by rw [h2.2 h0] at hval; cases hval
      obtain ⟨_, k2, k3, _⟩ := h3 hm
      refine ⟨rfl, h1.good, h1.shape, h1.bound, by simpa using k2, by simpa using k3, ?_⟩
      have := h1.prop
      rw [hval] at this
      exact this

end Mpnum
