import Verif.Linalg.Eig
import Verif.Props.C36
import Verif.Props.C49Random

/-!
# Lemmas on the local step of `eig`
-/

open Finset

namespace Mpnum

/-! ### the contract of `eigs` -/

/-- `w`, `V` are what `eigs` may return for an operator on `ℂ^N`: one eigenvalue and one eigenvector of length one, as a
vector or as a matrix with one column. -/
def EigPair (N : ℕ) (op w V : NDArray ℂ) : Prop :=
  ∃ (lam : ℂ) (x : ℕ → ℂ),
    ((V.shape = [N] ∧ w.shape.prod = 1 ∧ ∀ i < N, V.get [i] = x i) ∨
      (V.shape = [N, 1] ∧ w.shape = [1] ∧ ∀ i < N, V.get [i, 0] = x i)) ∧
    w.get (w.shape.map fun _ => 0) = lam ∧
    (∑ i ∈ range N, star (x i) * x i = 1) ∧ ∀ i < N, ∑ j ∈ range N, op.get [i, j] * x j = lam * x i

/-- The matrix is Hermitian. -/
def HermMat (N : ℕ) (op : NDArray ℂ) : Prop := ∀ i < N, ∀ j < N, op.get [i, j] = star (op.get [j, i])

/-- Contract of the argument `eigs`: for every operator (every Hermitian operator, if `herm` holds) on a space of positive
dimension it returns an eigenpair or raises an exception that satisfies `P`. -/
def EigsSpec (herm : Prop) (P : PyErr → Prop) (eigs : EigsFun) : Prop :=
  ∀ (N : ℕ) (op v0 : NDArray ℂ), 0 < N → op.shape = [N, N] → (herm → HermMat N op) → v0.shape = [N] →
    match eigs op v0 with
    | .error e => P e
    | .ok (w, V) => EigPair N op w V

/-- The eigenvalue is the smallest one of a Hermitian operator (`which='SA'`): it is a lower bound of the Rayleigh
quotient. -/
def EigsMin (eigs : EigsFun) : Prop :=
  ∀ (N : ℕ) (op v0 w V : NDArray ℂ), 0 < N → op.shape = [N, N] → HermMat N op → v0.shape = [N] → eigs op v0 = .ok (w, V) →
    ∀ y : ℕ → ℂ, (w.get (w.shape.map fun _ => 0)).re * ∑ i ∈ range N, ‖y i‖ ^ 2
      ≤ (∑ i ∈ range N, ∑ j ∈ range N, star (y i) * op.get [i, j] * y j).re

/-- `eigs` looks only at the entries of the operator. -/
def EigsExt (eigs : EigsFun) : Prop :=
  ∀ op op' v0 : NDArray ℂ, op.Eqv op' → eigs op v0 = eigs op' v0

/-! ### the vector with a block put in place -/

section
variable {R : Type} [CommRing R] [StarRing R]

theorem opSpec_congr {Hf Hf' : List ℕ → List ℕ → R} {P D Q : List ℕ} {pre post : List (NDArray R)} {a' b' a b : ℕ}
    {i j : List ℕ} (hi : InB i D) (hj : InB j D)
    (h : ∀ I J, InB I (P ++ D ++ Q) → InB J (P ++ D ++ Q) → Hf' I J = Hf I J) :
    opSpec Hf' P Q pre post a' i b' a j b = opSpec Hf P Q pre post a' i b' a j b := by
  unfold opSpec
  refine sumIdx_congr fun I₁ h1 => sumIdx_congr fun I₃ h3 => sumIdx_congr fun J₁ g1 => sumIdx_congr fun J₃ g3 => ?_
  rw [h _ _ (inB_append (inB_append h1 hi) h3) (inB_append (inB_append g1 hj) g3)]

theorem IsLocalOp.congr {Hf Hf' : List ℕ → List ℕ → R} {P D Q : List ℕ} {pre post : List (NDArray R)} {l r : ℕ}
    {op : NDArray R} (h : IsLocalOp Hf P D Q pre post l r op)
    (hH : ∀ I J, InB I (P ++ D ++ Q) → InB J (P ++ D ++ Q) → Hf' I J = Hf I J) :
    IsLocalOp Hf' P D Q pre post l r op :=
  ⟨h.shape, fun a' ha' i hi b' hb' a ha j hj b hb => by
    rw [h.val a' ha' i hi b' hb' a ha j hj b hb, opSpec_congr hi hj hH]⟩

/-- Entry of a local operator at flat indices. -/
theorem IsLocalOp.get_flat {Hf : List ℕ → List ℕ → R} {P D Q : List ℕ} {pre post : List (NDArray R)} {l r : ℕ}
    {op : NDArray R} (h : IsLocalOp Hf P D Q pre post l r op) {x y : ℕ} (hx : x < (l :: (D ++ [r])).prod)
    (hy : y < (l :: (D ++ [r])).prod) :
    ∃ a' i b' a j b, a' < l ∧ InB i D ∧ b' < r ∧ a < l ∧ InB j D ∧ b < r ∧
      x = ravelIdx (l :: (D ++ [r])) (a' :: (i ++ [b'])) ∧ y = ravelIdx (l :: (D ++ [r])) (a :: (j ++ [b])) ∧
      op.get [x, y] = opSpec Hf P Q pre post a' i b' a j b := by
  obtain ⟨a', i, b', h1, h2, h3, h4⟩ := inB_local_split (unravelIdx_inB hx)
  obtain ⟨a, j, b, g1, g2, g3, g4⟩ := inB_local_split (unravelIdx_inB hy)
  have ex := ravel_unravel hx
  have ey := ravel_unravel hy
  rw [h1] at ex
  rw [g1] at ey
  refine ⟨a', i, b', a, j, b, h2, h3, h4, g2, g3, g4, ex.symm, ey.symm, ?_⟩
  rw [← h.val a' h2 i h3 b' h4 a g2 j g3 b g4, ex, ey]

/-- Two local operators for the same operator have the same entries. -/
theorem IsLocalOp.eqv {Hf : List ℕ → List ℕ → R} {P D Q : List ℕ} {pre post : List (NDArray R)} {l r : ℕ}
    {op op' : NDArray R} (h : IsLocalOp Hf P D Q pre post l r op) (h' : IsLocalOp Hf P D Q pre post l r op') :
    op.Eqv op' := by
  refine ⟨h.shape.trans h'.shape.symm, ?_⟩
  intro i hi
  rw [h.shape] at hi
  obtain ⟨x, i', rfl, hx, hi⟩ := inB_cons_split hi
  obtain ⟨y, i', rfl, hy, hi⟩ := inB_cons_split hi
  rw [inB_nil_right] at hi
  subst hi
  obtain ⟨a', i, b', a, j, b, h1, h2, h3, h4, h5, h6, ex, ey, e⟩ := h.get_flat hx hy
  rw [e, ex, ey, h'.val a' h1 i h2 b' h3 a h4 j h5 b h6]

theorem opSpec_star {Hf : List ℕ → List ℕ → R} {P D Q : List ℕ} {pre post : List (NDArray R)} {a' b' a b : ℕ}
    {i j : List ℕ} (hi : InB i D) (hj : InB j D)
    (h : ∀ I J, InB I (P ++ D ++ Q) → InB J (P ++ D ++ Q) → Hf I J = star (Hf J I)) :
    opSpec Hf P Q pre post a' i b' a j b = star (opSpec Hf P Q pre post a j b a' i b') := by
  unfold opSpec
  simp only [star_sumIdx]
  have comm4 : ∀ f : List ℕ → List ℕ → List ℕ → List ℕ → R,
      (sumIdx P fun I₁ => sumIdx Q fun I₃ => sumIdx P fun J₁ => sumIdx Q fun J₃ => f I₁ I₃ J₁ J₃)
        = sumIdx P fun J₁ => sumIdx Q fun J₃ => sumIdx P fun I₁ => sumIdx Q fun I₃ => f I₁ I₃ J₁ J₃ := by
    intro f
    simp only [sumIdx_eq_sum]
    refine Eq.trans (sum_congr rfl fun _ _ => sum_comm) ?_
    refine Eq.trans sum_comm ?_
    refine sum_congr rfl fun J₁ _ => ?_
    refine Eq.trans (sum_congr rfl fun _ _ => sum_comm) ?_
    exact sum_comm
  rw [comm4]
  refine sumIdx_congr fun J₁ g1 => sumIdx_congr fun J₃ g3 => sumIdx_congr fun I₁ h1 => sumIdx_congr fun I₃ h3 => ?_
  rw [h _ _ (inB_append (inB_append h1 hi) h3) (inB_append (inB_append g1 hj) g3)]
  simp only [star_mul', star_star]
  ring

/-- The vector with a tensor for a block of sites is the vector with the sites of the block contracted. -/
theorem blockVec_rep {pre us post : List (NDArray R)} {G : NDArray R} {l r : ℕ} {P D Q : List ℕ} (h1 : Chained 1 pre l)
    (h2 : Chained l us r) (hG : Rep l us r G) (hP : physShape pre = singles P)
    (hD : physShape us = singles D) {I : List ℕ} (hI : InB I (P ++ D ++ Q)) :
    blockVec pre G post P.length D.length I = entry (pre ++ us ++ post) (singles I) := by
  obtain ⟨I12, I₃, rfl, h12, h3⟩ := inB_append_split hI
  obtain ⟨I₁, i, rfl, hI₁, hi⟩ := inB_append_split h12
  have n1 := inB_length hI₁
  have n2 := inB_length hi
  have nP : pre.length = P.length := by
    have := congrArg List.length hP; rw [physShape_length, singles_length] at this; exact this
  have nD : us.length = D.length := by
    have := congrArg List.length hD; rw [physShape_length, singles_length] at this; exact this
  have hGs : G.shape = l :: (D ++ [r]) := by
    rw [hG.1, hD]; congr 2; exact singles_flatten' D
  have hb : blockVec pre G post P.length D.length (I₁ ++ i ++ I₃)
      = entry (pre ++ G :: post) (singles I₁ ++ i :: singles I₃) := by
    rw [blockVec]
    congr 2
    · rw [List.append_assoc, ← n1, List.take_left]
    · rw [List.append_assoc, ← n1, List.drop_left, ← n2, List.take_left,
        show I₁.length + i.length = (I₁ ++ i).length by simp, ← List.append_assoc, List.drop_left]
  rw [hb, center_entry h1 hGs (by rw [singles_length]; omega), singles_append, singles_append, List.append_assoc,
    List.append_assoc, entry, mp_append h1 (by rw [singles_length]; omega) one_pos, sum_product]
  refine sum_congr rfl fun a ha => ?_
  rw [mp_append h2 (by rw [singles_length]; omega) (mem_range.1 ha), mul_sum]
  refine sum_congr rfl fun b hb => ?_
  have := hG.2 a (mem_range.1 ha) b (mem_range.1 hb) (singles i) (by rw [hD]; exact singles_idxOK hi)
  rw [show (singles i).flatten = i from singles_flatten' i] at this
  show _ * G.get (a :: (i ++ [b])) = _
  rw [this]; ring

/-- Inner products of vectors that differ on a block only, with canonical tensors around it. -/
theorem block_inner {pre post : List (NDArray R)} {X Y : NDArray R} {l r : ℕ} {P D Q : List ℕ} (h1 : Chained 1 pre l)
    (h3 : Chained r post 1) (hP : physShape pre = singles P) (hQ : physShape post = singles Q)
    (hl : ∀ t ∈ pre, LCanon t) (hr : ∀ t ∈ post, RCanon t)
    (hX : X.shape = l :: (D ++ [r])) (hY : Y.shape = l :: (D ++ [r])) :
    (sumIdx (P ++ D ++ Q) fun I => star (blockVec pre X post P.length D.length I) * blockVec pre Y post P.length D.length I)
      = sumIdx (l :: (D ++ [r])) fun x => star (X.get x) * Y.get x := by
  have cX : Chained l [X] r := ⟨by simp [NDArray.IsLocal, NDArray.ndim, hX], NDArray.lb_of_shape hX, NDArray.rb_of_shape hX⟩
  have cY : Chained l [Y] r := ⟨by simp [NDArray.IsLocal, NDArray.ndim, hY], NDArray.lb_of_shape hY, NDArray.rb_of_shape hY⟩
  have pX : physShape [X] = [D] := by simp [physShape, NDArray.ph_of_shape hX]
  have pY : physShape [Y] = [D] := by simp [physShape, NDArray.ph_of_shape hY]
  have h := center_inner h1 cX cY h3 hl hr (pY.trans pX.symm)
  rw [physShape_append, physShape_append, hP, hQ, pX] at h
  rw [sumIdx_append, sumIdx_append]
  rw [sumSites_append, sumSites_append, sumSites_singles] at h
  refine Eq.trans (sumIdx_congr fun I₁ hI₁ => ?_) (h.trans ?_)
  · simp only [sumSites_cons, sumSites_nil]
    refine sumIdx_congr fun i hi => ?_
    rw [sumSites_singles]
    refine sumIdx_congr fun I₃ _ => ?_
    have n1 := inB_length hI₁
    have n2 := inB_length hi
    have hb : ∀ G : NDArray R, blockVec pre G post P.length D.length (I₁ ++ i ++ I₃)
        = entry (pre ++ [G] ++ post) (singles I₁ ++ [i] ++ singles I₃) := by
      intro G
      rw [blockVec, show pre ++ [G] ++ post = pre ++ G :: post by simp,
        show singles I₁ ++ [i] ++ singles I₃ = singles I₁ ++ i :: singles I₃ by simp]
      congr 2
      · rw [List.append_assoc, ← n1, List.take_left]
      · rw [List.append_assoc, ← n1, List.drop_left, ← n2, List.take_left,
          show I₁.length + i.length = (I₁ ++ i).length by simp, ← List.append_assoc, List.drop_left]
    rw [hb, hb]
  · simp only [sumSites_cons, sumSites_nil, sumIdx_append, sumIdx_cons, sumIdx_nil]
    rw [← sumIdx_sum_comm]
    refine sumIdx_congr fun i _ => sum_congr rfl fun a _ => sum_congr rfl fun b hb => ?_
    rw [mp_single (by rw [NDArray.rb_of_shape hX]; exact mem_range.1 hb),
      mp_single (by rw [NDArray.rb_of_shape hY]; exact mem_range.1 hb)]
    rfl

end

theorem maxLeftBond_ok {ts : List (NDArray ℂ)} (hne : ts ≠ []) :
    ∃ m, maxLeftBond ts = .ok m ∧ (∃ t ∈ ts, t.lb = m) ∧ ∀ t ∈ ts, t.lb ≤ m := by
  obtain ⟨t, ts, rfl⟩ := List.exists_cons_of_ne_nil hne
  refine ⟨_, rfl, ?_, ?_⟩
  · have gen : ∀ (ts : List (NDArray ℂ)) (m : ℕ) (S : List (NDArray ℂ)), (∃ t ∈ S, t.lb = m) →
        ∃ t ∈ S ++ ts, t.lb = (ts.map NDArray.lb).foldl max m := by
      intro ts
      induction ts with
      | nil => intro m S h; simpa using h
      | cons u us ih =>
        intro m S h
        have := ih (max m u.lb) (S ++ [u]) (by
          rcases max_choice m u.lb with e | e
          · obtain ⟨t, h1, h2⟩ := h; exact ⟨t, by simp [h1], by rw [e, h2]⟩
          · exact ⟨u, by simp, e.symm⟩)
        simpa using this
    simpa using gen ts t.lb [t] ⟨t, by simp, rfl⟩
  · have gen : ∀ (ts : List (NDArray ℂ)) (m : ℕ), m ≤ (ts.map NDArray.lb).foldl max m ∧
        ∀ t ∈ ts, t.lb ≤ (ts.map NDArray.lb).foldl max m := by
      intro ts
      induction ts with
      | nil => intro m; simp
      | cons u us ih =>
        intro m
        obtain ⟨h1, h2⟩ := ih (max m u.lb)
        refine ⟨(le_max_left _ _).trans h1, ?_⟩
        intro t ht
        rcases List.mem_cons.1 ht with rfl | ht
        · exact (le_max_right _ _).trans h1
        · exact h2 t ht
    intro u hu
    rcases List.mem_cons.1 hu with rfl | hu
    · exact (gen ts u.lb).1
    · exact (gen ts t.lb).2 u hu

theorem eigsVector_ok {N : ℕ} {op w V : NDArray ℂ} (h : EigPair N op w V) :
    ∃ v, eigsVector w V = .ok v ∧ v.shape = [N] ∧ (∑ i ∈ range N, star (v.get [i]) * v.get [i] = 1) ∧
      ∀ i < N, ∑ j ∈ range N, op.get [i, j] * v.get [j] = w.get (w.shape.map fun _ => 0) * v.get [i] := by
  obtain ⟨lam, x, hx, h1, h2, h3⟩ := h
  have key : ∀ v : NDArray ℂ, (∀ i < N, v.get [i] = x i) → (∑ i ∈ range N, star (v.get [i]) * v.get [i] = 1) ∧
      ∀ i < N, ∑ j ∈ range N, op.get [i, j] * v.get [j] = w.get (w.shape.map fun _ => 0) * v.get [i] := by
    intro v hv
    refine ⟨?_, ?_⟩
    · rw [← h2]; exact sum_congr rfl fun i hi => by rw [hv i (mem_range.1 hi)]
    · intro i hi
      rw [h1, hv i hi, ← h3 i hi]
      exact sum_congr rfl fun j hj => by rw [hv j (mem_range.1 hj)]
  unfold eigsVector
  rcases hx with ⟨a1, a2, a3⟩ | ⟨a1, a2, a3⟩
  · rw [if_pos (by simp [NDArray.ndim, a1]), if_pos (by simpa [NDArray.size] using a2)]
    exact ⟨V, rfl, a1, key V a3⟩
  · rw [if_neg (by simp [NDArray.ndim, a1]), if_pos (by simp [NDArray.ndim, a1]), if_pos ⟨a2, by simp [a1]⟩]
    exact ⟨_, rfl, by simp [a1], key _ fun i hi => by simpa using a3 i hi⟩

/-- Result of the local step: `X` is the eigenvector as a tensor for the whole block, `us` are the new tensors. -/
structure LocalStep (Hf : List ℕ → List ℕ → ℂ) (P D Q : List ℕ) (pre post : List (NDArray ℂ)) (l r M : ℕ) (lam : ℂ)
    (us : List (NDArray ℂ)) (X : NDArray ℂ) : Prop where
  shape : X.shape = l :: (D ++ [r])
  chain : Chained l us r
  phys : physShape us = singles D
  pos : AllPos us
  rank : ∀ t ∈ us.tail, t.lb ≤ M
  norm : (sumIdx (P ++ D ++ Q) fun I => star (blockVec pre X post P.length D.length I) *
    blockVec pre X post P.length D.length I) = 1
  value : braket (P ++ D ++ Q) (P ++ D ++ Q) (blockVec pre X post P.length D.length) Hf
    (blockVec pre X post P.length D.length) = lam
  overlap : (sumIdx (P ++ D ++ Q) fun I => star (blockVec pre X post P.length D.length I) *
      entry (pre ++ us ++ post) (singles I))
    = sumIdx (P ++ D ++ Q) fun I => star (entry (pre ++ us ++ post) (singles I)) * entry (pre ++ us ++ post) (singles I)
  single : D.length = 1 → ∀ I, InB I (P ++ D ++ Q) →
    entry (pre ++ us ++ post) (singles I) = blockVec pre X post P.length D.length I

theorem quad_flat {Sh : List ℕ} {op : NDArray ℂ} (x : ℕ → ℂ) :
    (sumIdx Sh fun p => sumIdx Sh fun q => star (x (ravelIdx Sh p)) * op.get [ravelIdx Sh p, ravelIdx Sh q] *
      x (ravelIdx Sh q)) = ∑ i ∈ range Sh.prod, ∑ j ∈ range Sh.prod, star (x i) * op.get [i, j] * x j := by
  rw [sumIdx_ravel Sh fun i => sumIdx Sh fun q => star (x i) * op.get [i, ravelIdx Sh q] * x (ravelIdx Sh q)]
  refine sum_congr rfl fun i _ => ?_
  rw [sumIdx_ravel Sh fun j => star (x i) * op.get [i, j] * x j]

/-- The local operator of a Hermitian operator is Hermitian. -/
theorem IsLocalOp.herm {Hf : List ℕ → List ℕ → ℂ} {P D Q : List ℕ} {pre post : List (NDArray ℂ)} {l r : ℕ}
    {op : NDArray ℂ} (h : IsLocalOp Hf P D Q pre post l r op)
    (hH : ∀ I J, InB I (P ++ D ++ Q) → InB J (P ++ D ++ Q) → Hf I J = star (Hf J I)) :
    HermMat (l :: (D ++ [r])).prod op := by
  intro x hx y hy
  obtain ⟨a', i, b', a, j, b, h1, h2, h3, h4, h5, h6, ex, ey, e⟩ := h.get_flat hx hy
  rw [e, ex, ey, h.val a h4 j h5 b h6 a' h1 i h2 b' h3, opSpec_star h2 h5 hH]

theorem localStep_ok {qr : QR ℂ} {svd : SVD ℂ} (hqr : QRSpec qr) (hsvd : SVDSpec svd) {herm : Prop} {Pe : PyErr → Prop}
    {eigs : EigsFun} (heigs : EigsSpec herm Pe eigs) {Hf : List ℕ → List ℕ → ℂ} {P D Q : List ℕ}
    {pre mid post : List (NDArray ℂ)} {l r M : ℕ} {op : NDArray ℂ} (hop : IsLocalOp Hf P D Q pre post l r op)
    (hherm : herm → ∀ I J, InB I (P ++ D ++ Q) → InB J (P ++ D ++ Q) → Hf I J = star (Hf J I))
    (h1 : Chained 1 pre l) (h2 : Chained l mid r) (h3 : Chained r post 1)
    (hP : physShape pre = singles P) (hD : physShape mid = singles D) (hQ : physShape post = singles Q)
    (hl : ∀ t ∈ pre, LCanon t) (hr : ∀ t ∈ post, RCanon t) (hne : mid ≠ []) (hpos : AllPos mid)
    (hM : ∀ t ∈ mid, t.lb ≤ M) :
    (∃ e, eigMinimize2 qr svd eigs op mid = .error e ∧ Pe e) ∨
    ∃ lam us X, eigMinimize2 qr svd eigs op mid = .ok (lam, us) ∧ LocalStep Hf P D Q pre post l r M lam us X ∧
      (EigsMin eigs → (∀ I J, InB I (P ++ D ++ Q) → InB J (P ++ D ++ Q) → Hf I J = star (Hf J I)) →
        ∀ Y : NDArray ℂ, Y.shape = l :: (D ++ [r]) →
        lam.re * (sumIdx (P ++ D ++ Q) fun I => ‖blockVec pre Y post P.length D.length I‖ ^ 2)
          ≤ (braket (P ++ D ++ Q) (P ++ D ++ Q) (blockVec pre Y post P.length D.length) Hf
            (blockVec pre Y post P.length D.length)).re) := by
  obtain ⟨m, m1, m2, m3⟩ := maxLeftBond_ok hne
  obtain ⟨L, l1, l2⟩ := ltensToArray_ok h2 hne
  have nD : mid.length = D.length := by
    have := congrArg List.length hD; rw [physShape_length, singles_length] at this; exact this
  obtain ⟨hl0, hr0⟩ := chained_pos hne hpos h2
  have hDpos : ∀ d ∈ D, 0 < d := by
    intro d hd
    have : [d] ∈ physShape mid := by rw [hD]; exact List.mem_map.2 ⟨d, hd, rfl⟩
    obtain ⟨t, ht, hte⟩ := List.mem_map.1 this
    refine hpos t ht d ?_
    have : d ∈ t.ph := by rw [hte]; simp
    exact List.mem_of_mem_tail (List.mem_of_mem_dropLast this)
  set Sh := l :: (D ++ [r]) with hSh
  have hN : 0 < Sh.prod := by
    refine list_prod_pos fun d hd => ?_
    rw [hSh] at hd
    simp only [List.mem_cons, List.mem_append, List.not_mem_nil, or_false] at hd
    rcases hd with rfl | hd | rfl
    · exact hl0
    · exact hDpos d hd
    · exact hr0
  have hLs : L.shape = Sh := by
    rw [l2.1, hD, hSh]; congr 2; exact singles_flatten' D
  have hspec := heigs Sh.prod op L.flat hN hop.shape (fun hh => hop.herm (hherm hh))
    (by simp [NDArray.flat, NDArray.size, hLs])
  unfold eigMinimize2
  rw [m1, ok_bind, l1, ok_bind]
  cases heq : eigs op L.flat with
  | error e =>
    rw [heq] at hspec
    exact Or.inl ⟨e, rfl, hspec⟩
  | ok wV =>
  obtain ⟨w, V⟩ := wV
  rw [heq] at hspec
  simp only at hspec
  obtain ⟨v, v1, v2, v3, v4⟩ := eigsVector_ok hspec
  refine Or.inr ?_
  simp only [ok_bind, v1]
  have hre : v.reshape (L.shape.map fun d : ℕ => (d : ℤ)) = .ok (v.reshapeTo Sh) := by
    rw [hLs]; exact NDArray.reshape_nat (by simp [v2])
  rw [hre, ok_bind]
  set X := v.reshapeTo Sh with hX
  set lam := w.get (w.shape.map fun _ => 0) with hlam
  have hXs : X.shape = Sh := rfl
  have hXg : ∀ i, X.get i = v.get [ravelIdx Sh i] := by
    intro i
    rw [hX, NDArray.reshapeTo_get, v2, unravelIdx_single]
  have hnorm : (sumIdx (P ++ D ++ Q) fun I => star (blockVec pre X post P.length D.length I) *
      blockVec pre X post P.length D.length I) = 1 := by
    rw [block_inner h1 h3 hP hQ hl hr hXs hXs, ← v3, ← sumIdx_ravel Sh fun i => star (v.get [i]) * v.get [i]]
    exact sumIdx_congr fun i _ => by rw [hXg]
  have hval : braket (P ++ D ++ Q) (P ++ D ++ Q) (blockVec pre X post P.length D.length) Hf
      (blockVec pre X post P.length D.length) = lam := by
    rw [← hop.form h1 hP hXs hXs]
    simp only [hXg]
    rw [quad_flat (Sh := Sh) (op := op) fun i => v.get [i]]
    have : ∀ i ∈ range Sh.prod, ∑ j ∈ range Sh.prod, star (v.get [i]) * op.get [i, j] * v.get [j]
        = lam * (star (v.get [i]) * v.get [i]) := by
      intro i hi
      rw [show lam * (star (v.get [i]) * v.get [i]) = star (v.get [i]) * (lam * v.get [i]) by ring,
        ← v4 i (mem_range.1 hi), mul_sum]
      exact sum_congr rfl fun j _ => by ring
    rw [sum_congr rfl this, ← mul_sum, v3, mul_one]
  have hmin : EigsMin eigs → (∀ I J, InB I (P ++ D ++ Q) → InB J (P ++ D ++ Q) → Hf I J = star (Hf J I)) →
      ∀ Y : NDArray ℂ, Y.shape = Sh →
        lam.re * (sumIdx (P ++ D ++ Q) fun I => ‖blockVec pre Y post P.length D.length I‖ ^ 2)
          ≤ (braket (P ++ D ++ Q) (P ++ D ++ Q) (blockVec pre Y post P.length D.length) Hf
            (blockVec pre Y post P.length D.length)).re := by
    intro hmin hH Y hY
    have := hmin Sh.prod op L.flat w V hN hop.shape (hop.herm hH)
      (by simp [NDArray.flat, NDArray.size, hLs]) heq (fun i => Y.get (unravelIdx Sh i))
    have e1 : (sumIdx (P ++ D ++ Q) fun I => ‖blockVec pre Y post P.length D.length I‖ ^ 2)
        = ∑ i ∈ range Sh.prod, ‖Y.get (unravelIdx Sh i)‖ ^ 2 := by
      rw [sum_unravel Sh fun x => ‖Y.get x‖ ^ 2]
      have := block_inner h1 h3 hP hQ hl hr hY hY
      have conv : ∀ (S : List ℕ) (g : List ℕ → ℂ), (sumIdx S fun I => star (g I) * g I)
          = ((sumIdx S fun I => ‖g I‖ ^ 2 : ℝ) : ℂ) := by
        intro S g
        rw [sumIdx_eq_sum, sumIdx_eq_sum, Complex.ofReal_sum]
        refine sum_congr rfl fun i _ => ?_
        have := RCLike.conj_mul (g i)
        simpa using this
      rw [conv, conv] at this
      exact_mod_cast this
    rw [e1, ← hop.form h1 hP hY hY]
    refine this.trans (le_of_eq ?_)
    rw [← quad_flat (Sh := Sh) (op := op) fun i => Y.get (unravelIdx Sh i)]
    congr 1
    refine sumIdx_congr fun p hp => sumIdx_congr fun q hq => ?_
    rw [unravel_ravel hp, unravel_ravel hq]
  by_cases hk : mid.length = 1
  · rw [if_pos hk]
    obtain ⟨d, hDd⟩ : ∃ d, D = [d] := by
      rw [nD] at hk
      exact List.length_eq_one_iff.1 hk
    have cX : Chained l [X] r :=
      ⟨by simp [NDArray.IsLocal, NDArray.ndim, hXs, hSh], NDArray.lb_of_shape hXs, NDArray.rb_of_shape hXs⟩
    have pX : physShape [X] = singles D := by
      simp [physShape, NDArray.ph_of_shape hXs, hDd, singles]
    have rX : Rep l [X] r X := by
      have := rep_single (t := X) cX.1
      rwa [NDArray.lb_of_shape hXs, NDArray.rb_of_shape hXs] at this
    have hbv : ∀ I, InB I (P ++ D ++ Q) → entry (pre ++ [X] ++ post) (singles I)
        = blockVec pre X post P.length D.length I := fun I hI => (blockVec_rep h1 cX rX hP pX hI).symm
    refine ⟨lam, [X], X, rfl, ⟨hXs, cX, pX, ?_, by simp, hnorm, hval, ?_, fun _ => hbv⟩, hmin⟩
    · intro t ht d' hd'
      rw [List.mem_singleton] at ht
      subst ht
      rw [hXs] at hd'
      rw [hSh] at hd'
      simp only [List.mem_cons, List.mem_append, List.not_mem_nil, or_false] at hd'
      rcases hd' with rfl | hd' | rfl
      · exact hl0
      · exact hDpos _ hd'
      · exact hr0
    · exact sumIdx_congr fun I hI => by rw [hbv I hI]
  · rw [if_neg hk]
    obtain ⟨t0, ht0, hlb⟩ := m2
    have hmpos : 0 < m := by
      rw [← hlb]
      have : t0.IsLocal := by
        obtain ⟨a, b, rfl⟩ := List.append_of_mem ht0
        obtain ⟨c, -, h⟩ := chained_append.1 h2
        exact h.1
      exact hpos.lb ht0 this
    have hmM : m ≤ M := hlb ▸ hM t0 ht0
    have hlen0 : 0 < mid.length := List.length_pos_of_ne_nil hne
    obtain ⟨us, u1, u2, u3, u4⟩ := splitBlock_ok (qr := qr) (svd := svd) hqr hsvd (rank := (m : ℤ)) (by exact_mod_cast hmpos)
      (X := X) (l := l) (r := r) (D := D) hXs hl0 hr0 hDpos (by omega)
    rw [u1, ok_bind]
    have une : us ≠ [] := by
      intro h0
      have := u2.shape
      rw [h0] at this
      have := congrArg List.length this
      simp [physShape] at this
      rw [nD] at hlen0; rw [← this] at hlen0; simp at hlen0
    have uph : physShape us = singles D := u2.shape
    obtain ⟨G, -, g2⟩ := ltensToArray_ok u2.chain une
    have hGs : G.shape = Sh := by
      rw [g2.1, uph, hSh]; congr 2; exact singles_flatten' D
    have hbv : ∀ I, InB I (P ++ D ++ Q) → blockVec pre G post P.length D.length I
        = entry (pre ++ us ++ post) (singles I) := fun I hI => blockVec_rep h1 u2.chain g2 hP uph hI
    have hconv : ∀ F : NDArray ℂ, (sumIdx Sh fun x => star (F.get x) * G.get x)
        = ∑ i ∈ range l, sumSites (D.map fun d => [d]) fun I => ∑ j ∈ range r,
          star (F.get (i :: (I.flatten ++ [j]))) * mp us I i j := by
      intro F
      rw [hSh, sumIdx_cons]
      refine sum_congr rfl fun a ha => ?_
      rw [sumIdx_append]
      rw [show (D.map fun d => [d]) = singles D from rfl, sumSites_singles]
      refine sumIdx_congr fun i hi => ?_
      rw [sumIdx_cons]
      refine sum_congr rfl fun b hb => ?_
      rw [sumIdx_nil]
      have e := g2.2 a (mem_range.1 ha) b (mem_range.1 hb) (singles i) (by rw [uph]; exact singles_idxOK hi)
      rw [show (singles i).flatten = i from singles_flatten' i] at e ⊢
      rw [e]
    have hov : (sumIdx Sh fun x => star (X.get x) * G.get x) = sumIdx Sh fun x => star (G.get x) * G.get x := by
      rw [hconv, hconv, u4]
      refine sum_congr rfl fun a ha => sumSites_congr fun I hI => sum_congr rfl fun b hb => ?_
      rw [g2.2 a (mem_range.1 ha) b (mem_range.1 hb) I (by rw [uph]; exact hI)]
    refine ⟨lam, us, X, rfl, ⟨hXs, u2.chain, uph, u2.pos, ?_, hnorm, hval, ?_, ?_⟩, hmin⟩
    · intro t ht
      have := u3 t ht
      have : t.lb ≤ m := by exact_mod_cast this
      omega
    · have e1 : (sumIdx (P ++ D ++ Q) fun I => star (blockVec pre X post P.length D.length I) *
          entry (pre ++ us ++ post) (singles I)) = sumIdx Sh fun x => star (X.get x) * G.get x := by
        rw [← block_inner h1 h3 hP hQ hl hr hXs hGs]
        exact sumIdx_congr fun I hI => by rw [hbv I hI]
      have e2 : (sumIdx (P ++ D ++ Q) fun I => star (entry (pre ++ us ++ post) (singles I)) *
          entry (pre ++ us ++ post) (singles I)) = sumIdx Sh fun x => star (G.get x) * G.get x := by
        rw [← block_inner h1 h3 hP hQ hl hr hGs hGs]
        exact sumIdx_congr fun I hI => by rw [hbv I hI]
      rw [e1, e2, hov]
    · intro h0; rw [nD] at hk; exact absurd h0 hk

end Mpnum
