import Verif.Props.C34
import Verif.Props.C35
import Verif.Props.C25
import Verif.Props.C43

/-! # C74: reduced states are states, agree with each other, and determine local expectation values -/

open Finset

namespace Mpnum

variable {R : Type}

/-- Specification: `f` is a Hermitian positive semidefinite matrix with multi-indices from `D`. -/
structure PsdOn {𝕜 : Type} [RCLike 𝕜] (f : List ℕ → List ℕ → 𝕜) (D : List ℕ) : Prop where
  herm : ∀ I J, InB I D → InB J D → f J I = star (f I J)
  psd : ∀ v : List ℕ → 𝕜, ∃ r : ℝ, 0 ≤ r ∧ (sumIdx D fun I => sumIdx D fun J => star (v I) * f I J * v J) = (r : 𝕜)

/-- The operator on the sites `D` which the MPO `x` represents. -/
def MPA.op [CommRing R] (x : MPA R) (I J : List ℕ) : R := x.val (pairs I J)

/-- The one reduced state that `reductions_mpo(x, startsites=[s], stopsites=[e])` yields. -/
def ReducesTo [CommRing R] (x : MPA R) (s e : ℕ) (z : MPA R) : Prop :=
  reductionsMpo x none (some [(s : ℤ)]) (some [(e : ℤ)]) = .ok [z]

section
variable [CommRing R]

theorem reducesTo_ok {x : MPA R} {D : List ℕ} (hx : IsMpo x D) {s e : ℕ} (h : s < e) (he : e ≤ D.length) :
    ∃ z, ReducesTo x s e z ∧ IsMpo z ((D.drop s).take (e - s)) ∧
      ∀ I J, InB I ((D.drop s).take (e - s)) → InB J ((D.drop s).take (e - s)) →
        z.val (pairs I J) = margOp x.op (D.take s) (D.drop e) I J := by
  obtain ⟨zs, h1, h2⟩ := C34_reductions_mpo x D hx [(s, e)] (by simpa using ⟨h, he⟩)
  cases h2 with
  | cons h3 h4 =>
    cases h4
    exact ⟨_, h1, h3.1, h3.2.2⟩

theorem margOp_margOp (f : List ℕ → List ℕ → R) (P Q P' Q' I J : List ℕ) :
    margOp (margOp f P Q) P' Q' I J = margOp f (P ++ P') (Q' ++ Q) I J := by
  unfold margOp
  rw [sumIdx_append]
  conv_rhs => rw [sumIdx_comm]
  refine sumIdx_congr fun L' _ => ?_
  rw [sumIdx_comm]
  refine sumIdx_congr fun L _ => ?_
  rw [sumIdx_append]
  refine sumIdx_congr fun M' _ => sumIdx_congr fun M _ => ?_
  simp only [List.append_assoc]

theorem margOp_congr_on {f g : List ℕ → List ℕ → R} {P W Q I J : List ℕ} (hI : InB I W) (hJ : InB J W)
    (h : ∀ I J, InB I (P ++ W ++ Q) → InB J (P ++ W ++ Q) → f I J = g I J) : margOp f P Q I J = margOp g P Q I J :=
  sumIdx_congr fun _ hL => sumIdx_congr fun _ hM =>
    h _ _ (inB_append (inB_append hL hI) hM) (inB_append (inB_append hL hJ) hM)

/-- C74: the reduced state of a reduced state is the reduced state: the reduction of the sites `c..d` of the
reduction of the sites `s..e` is the reduction of the sites `s+c..s+d`. -/
theorem C74_consistent (x : MPA R) (D : List ℕ) (hx : IsMpo x D) (s e c d : ℕ) (h : s < e) (he : e ≤ D.length)
    (hc : c < d) (hd : d ≤ e - s) :
    ∃ z z' y, ReducesTo x s e z ∧ ReducesTo z c d z' ∧ ReducesTo x (s + c) (s + d) y ∧ y.Same z' := by
  obtain ⟨z, z1, z2, z3⟩ := reducesTo_ok hx h he
  have hl : ((D.drop s).take (e - s)).length = e - s := by simp; omega
  obtain ⟨z', p1, p2, p3⟩ := reducesTo_ok z2 hc (by omega)
  obtain ⟨y, y1, y2, y3⟩ := reducesTo_ok hx (s := s + c) (e := s + d) (by omega) (by omega)
  have hW : (((D.drop s).take (e - s)).drop c).take (d - c) = (D.drop (s + c)).take (s + d - (s + c)) := by
    rw [List.drop_take, List.take_take, List.drop_drop]
    congr 1; omega
  rw [hW] at p2 p3
  refine ⟨z, z', y, z1, p1, y1, p2.shape.trans y2.shape.symm, fun idx hi => ?_⟩
  rw [y2.shape] at hi
  obtain ⟨I, J, rfl, hI, hJ⟩ := idxOK_pairs rfl hi
  rw [p3 I J hI hJ, y3 I J hI hJ]
  have e1 : D.take s ++ ((D.drop s).take (e - s)).take c = D.take (s + c) := by
    rw [List.take_take, min_eq_left (by omega), ← List.take_add]
  have e2 : ((D.drop s).take (e - s)).drop d ++ D.drop e = D.drop (s + d) := by
    rw [List.drop_take, List.drop_drop]
    conv_rhs => rw [← List.take_append_drop (e - s - d) (D.drop (s + d)), List.drop_drop]
    rw [show s + d + (e - s - d) = e by omega]
  rw [← e1, ← e2, ← margOp_margOp]
  refine margOp_congr_on hI hJ fun I J hI hJ => z3 I J ?_ ?_ <;> [skip; skip] <;>
    (rw [show ((D.drop s).take (e - s)).take c ++ (D.drop (s + c)).take (s + d - (s + c)) ++ ((D.drop s).take (e - s)).drop d
        = (D.drop s).take (e - s) by
      rw [← hW, List.append_assoc, show d = c + (d - c) by omega, Nat.add_sub_cancel_left, ← List.drop_drop,
        List.take_append_drop, List.take_append_drop]] at *
     assumption)

/-- Only the indices with `L` on the first and `M` on the last sites count. -/
theorem sumIdx_window {P W Q L M : List ℕ} (hL : InB L P) (hM : InB M Q) (g : List ℕ → R) :
    (sumIdx (P ++ W ++ Q) fun X => if X.take P.length = L ∧ X.drop (P.length + W.length) = M then g X else 0)
      = sumIdx W fun I => g (L ++ I ++ M) := by
  rw [sumIdx_append, sumIdx_append, ← sumIdx_delta hL fun L' => sumIdx W fun I => g (L' ++ I ++ M)]
  refine sumIdx_congr fun L' hL' => ?_
  have hl : L'.length = P.length := hL'.length_eq
  have key : ∀ I, InB I W → (sumIdx Q fun M' => if (L' ++ I ++ M').take P.length = L ∧
      (L' ++ I ++ M').drop (P.length + W.length) = M then g (L' ++ I ++ M') else 0)
      = if L = L' then g (L' ++ I ++ M) else 0 := by
    intro I hI
    have hi : I.length = W.length := hI.length_eq
    by_cases h : L = L'
    · rw [if_pos h, ← sumIdx_delta hM fun M' => g (L' ++ I ++ M')]
      refine sumIdx_congr fun M' _ => ?_
      have e1 : (L' ++ I ++ M').take P.length = L := by
        rw [List.append_assoc, ← hl, List.take_left, h]
      have e2 : (L' ++ I ++ M').drop (P.length + W.length) = M' := by
        rw [← hl, ← hi, ← List.length_append, List.drop_left]
      rw [e1, e2]
      simp [eq_comm]
    · rw [if_neg h]
      refine (sumIdx_congr fun M' _ => if_neg fun hh => h ?_).trans (sumIdx_zero Q)
      rw [← hh.1, List.append_assoc, ← hl, List.take_left]
  rw [sumIdx_congr key]
  by_cases h : L = L'
  · simp [h]
  · simp [h, sumIdx_zero]

/-- The expectation value of `1 ⊗ O ⊗ 1` is that of `O` in the reduced state. -/
theorem margOp_expect {P W Q : List ℕ} (E o f : List ℕ → List ℕ → R)
    (hE : ∀ L L' I J M M', InB L P → InB L' P → InB I W → InB J W → InB M Q → InB M' Q →
      E (L ++ I ++ M) (L' ++ J ++ M') = if L = L' ∧ M = M' then o I J else 0) :
    (sumIdx (P ++ W ++ Q) fun X => sumIdx (P ++ W ++ Q) fun Y => E X Y * f Y X)
      = sumIdx W fun I => sumIdx W fun J => o I J * margOp f P Q J I := by
  rw [sumIdx_append, sumIdx_append]
  have h1 : ∀ L, InB L P → ∀ I, InB I W → ∀ M, InB M Q →
      (sumIdx (P ++ W ++ Q) fun Y => E (L ++ I ++ M) Y * f Y (L ++ I ++ M))
        = sumIdx W fun J => o I J * f (L ++ J ++ M) (L ++ I ++ M) := by
    intro L hL I hI M hM
    rw [sumIdx_congr (g := fun Y => if Y.take P.length = L ∧ Y.drop (P.length + W.length) = M
      then E (L ++ I ++ M) Y * f Y (L ++ I ++ M) else 0), sumIdx_window hL hM]
    · refine sumIdx_congr fun J hJ => ?_
      rw [hE L L I J M M hL hL hI hJ hM hM, if_pos ⟨rfl, rfl⟩]
    · intro Y hY
      obtain ⟨X, M', rfl, hX, hM'⟩ := inB_append_split hY
      obtain ⟨L', J, rfl, hL', hJ⟩ := inB_append_split hX
      have hl : L'.length = P.length := hL'.length_eq
      have hj : J.length = W.length := hJ.length_eq
      have e1 : (L' ++ J ++ M').take P.length = L' := by rw [List.append_assoc, ← hl, List.take_left]
      have e2 : (L' ++ J ++ M').drop (P.length + W.length) = M' := by
        rw [← hl, ← hj, ← List.length_append, List.drop_left]
      rw [e1, e2]
      split_ifs with h
      · rfl
      · rw [hE L L' I J M M' hL hL' hI hJ hM hM', if_neg fun hh => h ⟨hh.1.symm, hh.2.symm⟩, zero_mul]
  rw [sumIdx_congr fun L hL => sumIdx_congr fun I hI => sumIdx_congr fun M hM => h1 L hL I hI M hM]
  rw [sumIdx_comm]
  refine sumIdx_congr fun I _ => ?_
  unfold margOp
  rw [sumIdx_congr fun J _ => (mul_sumIdx _ _ _).trans (sumIdx_congr fun L _ => mul_sumIdx _ _ _)]
  conv_rhs => rw [sumIdx_comm]
  refine sumIdx_congr fun L _ => ?_
  rw [sumIdx_comm]

theorem prod_eye_pairs {d : ℕ} {L L' : List ℕ} (h : L.length = L'.length) :
    ((pairs L L').map (NDArray.eye d : NDArray R).get).prod = if L = L' then 1 else 0 := by
  induction L generalizing L' with
  | nil => cases L' with
    | nil => simp [pairs]
    | cons => simp at h
  | cons a L ih => cases L' with
    | nil => simp at h
    | cons b L' =>
      have := ih (L' := L') (by simpa using h)
      simp only [pairs, List.zipWith_cons_cons, List.map_cons, List.prod_cons] at this ⊢
      rw [this]
      simp only [NDArray.eye, List.getD_cons_zero, List.getD_cons_succ, List.cons.injEq]
      by_cases h1 : a = b <;> by_cases h2 : L = L' <;> simp [h1, h2]

theorem embedVal_eye {o : MPA R} {W : List ℕ} (ho : IsMpo o W) {d a : ℕ} {L L' I J M M' : List ℕ} (hL : L.length = a)
    (hL' : L'.length = a) (hI : InB I W) (hJ : InB J W) (hM : M.length = M'.length) :
    embedVal (NDArray.eye d) o a (pairs (L ++ I ++ M) (L' ++ J ++ M')) = if L = L' ∧ M = M' then o.op I J else 0 := by
  have hi : I.length = o.len := hI.length_eq.trans ho.len.symm
  have hj : J.length = o.len := hJ.length_eq.trans ho.len.symm
  have h1 : (pairs L L').length = a := by simp [pairs, hL, hL']
  have h2 : (pairs I J).length = o.len := by simp [pairs, hi, hj]
  rw [pairs_append (by simp [hL, hL', hi, hj]), pairs_append (by rw [hL, hL'])]
  unfold embedVal MPA.op
  rw [List.append_assoc, ← h1, List.take_left, List.drop_left, ← h2, List.take_left, ← List.append_assoc,
    ← List.length_append, List.drop_left, prod_eye_pairs (by rw [hL, hL']), prod_eye_pairs hM]
  by_cases e1 : L = L' <;> by_cases e2 : M = M' <;> simp [e1, e2]

/-- Specification: `t` is the trace of `y @ x`, computed with `dot` and `trace`. -/
def ExpectsTo (y x : MPA R) (t : R) : Prop :=
  ∃ p A, dot y x ([-1], [0]) = .ok p ∧ trace p (.same 0 1) = .ok A ∧ A.shape = [] ∧ A.get [] = t

theorem expects_ok {x y : MPA R} {D : List ℕ} (hy : IsMpo y D) (hx : IsMpo x D) :
    ExpectsTo y x (sumIdx D fun I => sumIdx D fun K => y.op I K * x.op K I) := by
  obtain ⟨p, h1, h2, h3, h4⟩ := C08_matrix_product y x hy.valid hx.valid D D D rfl rfl hy.shape hx.shape
  obtain ⟨A, a1, a2, a3⟩ := C20_trace_mpo p h2 D (by rw [h3, List.zipWith_self])
  refine ⟨p, A, h1, a1, a2, ?_⟩
  rw [a3]
  refine sumIdx_congr fun I hI => ?_
  have := h4 I I hI hI
  rw [List.zipWith_self] at this
  exact this

/-- C74: the expectation value of an operator on the sites `a, …` is its expectation value in the reduced state of
these sites: `trace(dot(embed_slice(n, slice(a, a + len(o)), o, eye(d)), x)) = trace(dot(o, z))`, where `z` is what
`reductions_mpo` yields for these sites. -/
theorem C74_expectation (x o : MPA R) (W : List ℕ) (a b d : ℕ) (ho : IsMpo o W)
    (hx : IsMpo x (List.replicate a d ++ W ++ List.replicate b d)) :
    ∃ O z t, embedSlice x.len (sliceOf o a) o (some (NDArray.eye d)) = .ok O ∧ ReducesTo x a (a + W.length) z ∧
      ExpectsTo O x t ∧ ExpectsTo o z t := by
  have hol : o.len = W.length := ho.len
  have hxl : x.len = a + W.length + b := by have := hx.len; simpa [MPA.len, Nat.add_assoc] using this
  obtain ⟨O, o1, o2, -, -, o3, -, o4⟩ := C25_embed_slice o (NDArray.eye d) a x.len ho.valid (by omega)
  have hW : 0 < W.length := by rw [← hol]; exact List.length_pos_of_ne_nil ho.valid.ne
  obtain ⟨z, z1, z2, z3⟩ := reducesTo_ok hx (s := a) (e := a + W.length) (by omega) (by simp)
  have e0 : List.drop a (List.replicate a d ++ W ++ List.replicate b d) = W ++ List.replicate b d := by
    rw [List.append_assoc]; exact List.drop_left' (by simp)
  have e1 : List.take (a + W.length - a) (List.drop a (List.replicate a d ++ W ++ List.replicate b d)) = W := by
    rw [e0, Nat.add_sub_cancel_left, List.take_left]
  have e2 : List.take a (List.replicate a d ++ W ++ List.replicate b d) = List.replicate a d := by
    rw [List.append_assoc]; exact List.take_left' (by simp)
  have e3 : List.drop (a + W.length) (List.replicate a d ++ W ++ List.replicate b d) = List.replicate b d :=
    List.drop_left' (by simp)
  rw [e1] at z2 z3
  rw [e2, e3] at z3
  have hO : IsMpo O (List.replicate a d ++ W ++ List.replicate b d) := by
    refine ⟨o2, ?_⟩
    rw [o3, ho.shape, hxl, hol, Nat.add_sub_cancel_left, pairs_append (by simp), pairs_append (by simp)]
    simp [pairs, NDArray.eye]
  refine ⟨O, z, _, o1, z1, expects_ok hO hx, ?_⟩
  rw [margOp_expect O.op o.op x.op]
  · have := expects_ok ho z2
    rwa [sumIdx_congr fun I hI => sumIdx_congr fun J hJ => by
      rw [show z.op J I = margOp x.op (List.replicate a d) (List.replicate b d) J I from z3 J I hJ hI]] at this
  · intro L L' I J M M' hL hL' hI hJ hM hM'
    unfold MPA.op at *
    rw [o4 _ (by rw [hO.shape]; exact pairs_idxOK (inB_append (inB_append hL hI) hM) (inB_append (inB_append hL' hJ) hM'))]
    exact embedVal_eye ho (by simpa using hL.length_eq) (by simpa using hL'.length_eq) hI hJ
      (hM.length_eq.trans hM'.length_eq.symm)

theorem forall₂_fits {s : List (List ℕ)} {mpas : List (MPA R)} {starts : List ℕ} {d n : ℕ}
    (h : List.Forall₂ (fun o a => IsMpo o (List.replicate o.len d) ∧ a + o.len ≤ n) mpas starts)
    (hs : s = List.replicate n [d, d]) : List.Forall₂ (EmbedFits (NDArray.eye d) s) mpas starts := by
  refine h.imp fun o a ho => ⟨ho.1.valid, n - (a + o.len), ?_⟩
  rw [hs, ho.1.shape]
  simp only [pairs, NDArray.eye, List.zipWith_replicate, min_self, ← List.replicate_add]
  congr 1; omega

/-- C74: the energy of a sum of local terms is the sum of the energies of the terms in the reduced states:
`trace(dot(local_sum(hs, eye(d), n, slices), x)) = Σ_i trace(dot(h_i, z_i))`, where the `z_i` are what `reductions_mpo` yields
for the sites of the terms.  The terms can have any widths and positions. -/
theorem C74_energy (x : MPA R) (n d : ℕ) (hx : IsMpo x (List.replicate n d)) (hs : List (MPA R)) (starts : List ℕ)
    (hne : hs ≠ [])
    (hh : List.Forall₂ (fun o a => IsMpo o (List.replicate o.len d) ∧ a + o.len ≤ n) hs starts) :
    ∃ H zs ts, localSum hs (some (NDArray.eye d)) (some n) (some (List.zipWith sliceOf hs starts)) = .ok H ∧
      reductionsMpo x none (some (starts.map fun a : ℕ => (a : ℤ)))
        (some (List.zipWith (fun (o : MPA R) (a : ℕ) => ((a + o.len : ℕ) : ℤ)) hs starts)) = .ok zs ∧
      List.Forall₂ (fun (oz : MPA R × MPA R) t => ExpectsTo oz.1 oz.2 t) (hs.zip zs) ts ∧ zs.length = hs.length ∧
      ExpectsTo H x ts.sum := by
  obtain ⟨H, h1, h2⟩ := C25_local_sum_slices hs starts (NDArray.eye d) (List.replicate n [d, d]) hne (forall₂_fits hh rfl)
  rw [List.length_replicate] at h1
  have hl := hh.length_eq
  have hpos : ∀ (o : MPA R) (a : ℕ), IsMpo o (List.replicate o.len d) ∧ a + o.len ≤ n → 0 < o.len := fun o a h =>
    List.length_pos_of_ne_nil h.1.valid.ne
  obtain ⟨zs, z1, z2⟩ := C34_reductions_mpo x _ hx (List.zipWith (fun (o : MPA R) (a : ℕ) => (a, a + o.len)) hs starts) (by
    intro w hw
    obtain ⟨k, hk, rfl⟩ := List.getElem_of_mem hw
    simp only [List.length_zipWith] at hk
    have := List.Forall₂.get hh (i := k) (by omega) (by omega)
    have h0 := hpos _ _ this
    simp only [List.get_eq_getElem, List.getElem_zipWith, List.length_replicate] at this h0 ⊢
    omega)
  have hz1 : (List.zipWith (fun (o : MPA R) (a : ℕ) => (a, a + o.len)) hs starts).map (fun w => (w.1 : ℤ))
      = starts.map fun a : ℕ => (a : ℤ) := by
    apply List.ext_getElem
    · simp [hl]
    · simp
  have hz2 : (List.zipWith (fun (o : MPA R) (a : ℕ) => (a, a + o.len)) hs starts).map (fun w => (w.2 : ℤ))
      = List.zipWith (fun (o : MPA R) (a : ℕ) => ((a + o.len : ℕ) : ℤ)) hs starts := by
    apply List.ext_getElem
    · simp
    · simp
  rw [hz1, hz2] at z1
  have hzl : zs.length = hs.length := by
    have := z2.length_eq
    simp only [List.length_zipWith] at this
    omega
  have hH : IsMpo H (List.replicate n d) := ⟨h2.valid, by
    rw [h2.shape]; simp [pairs]⟩
  refine ⟨H, zs, (hs.zip zs).map fun oz => sumIdx (List.replicate oz.1.len d) fun I =>
    sumIdx (List.replicate oz.1.len d) fun J => oz.1.op I J * oz.2.op J I, h1, z1, ?_, hzl, ?_⟩
  · rw [List.forall₂_map_right_iff, List.forall₂_same]
    intro oz hoz
    obtain ⟨k, hk, rfl⟩ := List.getElem_of_mem hoz
    simp only [List.length_zip] at hk
    have g1 := List.Forall₂.get hh (i := k) (by omega) (by omega)
    have g2 := List.Forall₂.get z2 (i := k) (by simp; omega) (by omega)
    simp only [List.get_eq_getElem, List.getElem_zipWith, List.drop_replicate, List.take_replicate,
      Nat.add_sub_cancel_left] at g1 g2
    rw [min_eq_left (by omega)] at g2
    simp only [List.getElem_zip]
    exact expects_ok g1.1 g2.1
  · have := expects_ok hH hx
    have key : (sumIdx (List.replicate n d) fun I => sumIdx (List.replicate n d) fun K => H.op I K * x.op K I)
        = ((List.zipWith (fun o a => sumIdx (List.replicate n d) fun I => sumIdx (List.replicate n d) fun K =>
            embedVal (NDArray.eye d) o a (pairs I K) * x.op K I) hs starts)).sum := by
      rw [sumIdx_congr fun I hI => sumIdx_congr fun K hK => by
        rw [show H.op I K = _ from h2.val (pairs I K) (by
          have := pairs_idxOK hI hK
          simpa [pairs] using this)]]
      clear z1 z2 h1 h2 hh hne hz1 hz2 hzl
      induction hs generalizing starts with
      | nil => simp [sumIdx_zero]
      | cons o hs ih =>
        cases starts with
        | nil => simp [sumIdx_zero]
        | cons a starts =>
          simp only [List.zipWith_cons_cons, List.sum_cons, add_mul, sumIdx_add]
          rw [ih starts (by simpa using hl)]
    rw [key] at this
    convert this using 2
    apply List.ext_getElem
    · simp; omega
    · intro k hk hk'
      simp only [List.length_zipWith, List.length_map, List.length_zip] at hk hk'
      have g1 := List.Forall₂.get hh (i := k) (by omega) (by omega)
      have g2 := List.Forall₂.get z2 (i := k) (by simp; omega) (by omega)
      simp only [List.get_eq_getElem, List.getElem_zipWith, List.drop_replicate, List.take_replicate,
        Nat.add_sub_cancel_left] at g1 g2
      rw [min_eq_left (show hs[k].len ≤ n - starts[k] by omega), min_eq_left (show starts[k] ≤ n by omega)] at g2
      simp only [List.getElem_map, List.getElem_zip, List.getElem_zipWith]
      have hsplit : List.replicate n d = List.replicate starts[k] d ++ List.replicate hs[k].len d ++
          List.replicate (n - (starts[k] + hs[k].len)) d := by
        rw [← List.replicate_add, ← List.replicate_add]; congr 1; omega
      generalize hs[k] = o, starts[k] = a, zs[k] = z at *
      rw [hsplit]
      rw [margOp_expect (fun I J => embedVal (NDArray.eye d) o a (pairs I J)) o.op x.op]
      · refine sumIdx_congr fun I hI => sumIdx_congr fun J hJ => ?_
        rw [show z.op J I = _ from g2.2.2 J I hJ hI]; rfl
      · intro L L' I J M M' hL hL' hI hJ hM hM'
        exact embedVal_eye g1.1 (by simpa using hL.length_eq) (by simpa using hL'.length_eq) hI hJ
          (hM.length_eq.trans hM'.length_eq.symm)

end

section
variable {𝕜 : Type} [RCLike 𝕜]

theorem margOp_psd {f : List ℕ → List ℕ → 𝕜} {P W Q : List ℕ} (h : PsdOn f (P ++ W ++ Q)) : PsdOn (margOp f P Q) W := by
  constructor
  · intro I J hI hJ
    unfold margOp
    rw [star_sumIdx]
    refine sumIdx_congr fun L hL => ?_
    rw [star_sumIdx]
    exact sumIdx_congr fun M hM => h.herm _ _ (inB_append (inB_append hL hI) hM) (inB_append (inB_append hL hJ) hM)
  · intro v
    let u : List ℕ → List ℕ → List ℕ → 𝕜 := fun L M X =>
      if X.take P.length = L ∧ X.drop (P.length + W.length) = M then v ((X.drop P.length).take W.length) else 0
    choose r hr hr' using fun L M => h.psd (u L M)
    refine ⟨sumIdx P fun L => sumIdx Q fun M => r L M, sumIdx_nonneg fun L => sumIdx_nonneg fun M => hr L M, ?_⟩
    rw [← sumIdx_ofReal]
    have key : ∀ L, InB L P → ∀ M, InB M Q → ((r L M : ℝ) : 𝕜)
        = sumIdx W fun I => sumIdx W fun J => star (v I) * f (L ++ I ++ M) (L ++ J ++ M) * v J := by
      intro L hL M hM
      have hmid : ∀ I, InB I W → ((L ++ I ++ M).drop P.length).take W.length = I := by
        intro I hI
        rw [List.append_assoc, ← hL.length_eq, List.drop_left, ← hI.length_eq, List.take_left]
      have e1 : ∀ X, (sumIdx (P ++ W ++ Q) fun Y => star (u L M X) * f X Y * u L M Y)
          = sumIdx W fun J => star (u L M X) * f X (L ++ J ++ M) * v J := by
        intro X
        rw [sumIdx_congr (g := fun Y => if Y.take P.length = L ∧ Y.drop (P.length + W.length) = M
          then star (u L M X) * f X Y * v ((Y.drop P.length).take W.length) else 0), sumIdx_window hL hM]
        · exact sumIdx_congr fun J hJ => by rw [hmid J hJ]
        · intro Y _
          simp only [u]
          split_ifs <;> simp
      rw [← hr' L M, sumIdx_congr fun X _ => e1 X]
      rw [sumIdx_congr (g := fun X => if X.take P.length = L ∧ X.drop (P.length + W.length) = M
          then (sumIdx W fun J => star (v ((X.drop P.length).take W.length)) * f X (L ++ J ++ M) * v J) else 0),
        sumIdx_window hL hM]
      · exact sumIdx_congr fun I hI => by rw [hmid I hI]
      · intro X _
        simp only [u]
        split_ifs
        · rfl
        · simp [sumIdx_zero]
    rw [sumIdx_congr fun L hL => (sumIdx_ofReal _ _).symm.trans (sumIdx_congr fun M hM => key L hL M hM)]
    have e2 : ∀ I J, star (v I) * margOp f P Q I J * v J
        = sumIdx P fun L => sumIdx Q fun M => star (v I) * f (L ++ I ++ M) (L ++ J ++ M) * v J := by
      intro I J
      unfold margOp
      rw [mul_sumIdx, sumIdx_mul]
      refine sumIdx_congr fun L _ => ?_
      rw [mul_sumIdx, sumIdx_mul]
    simp only [e2, sumIdx_comm W P, sumIdx_comm W Q]

theorem window_join {D : List ℕ} {s e : ℕ} (h : s ≤ e) :
    D.take s ++ (D.drop s).take (e - s) ++ D.drop e = D := by
  have : D.drop e = (D.drop s).drop (e - s) := by rw [List.drop_drop]; congr 1; omega
  rw [this, List.append_assoc, List.take_append_drop, List.take_append_drop]

theorem PsdOn.congr {f g : List ℕ → List ℕ → 𝕜} {D : List ℕ} (h : PsdOn f D)
    (hfg : ∀ I J, InB I D → InB J D → g I J = f I J) : PsdOn g D := by
  refine ⟨fun I J hI hJ => by rw [hfg J I hJ hI, hfg I J hI hJ, h.herm I J hI hJ], fun v => ?_⟩
  obtain ⟨r, h0, h1⟩ := h.psd v
  refine ⟨r, h0, ?_⟩
  rw [← h1]
  exact sumIdx_congr fun I hI => sumIdx_congr fun J hJ => by rw [hfg I J hI hJ]

/-- C74: the reduced states that `reductions_mpo` yields for a Hermitian positive semidefinite MPO, in any order and for
any windows, are Hermitian and positive semidefinite and have the trace of the full operator. -/
theorem C74_states (x : MPA 𝕜) (D : List ℕ) (hx : IsMpo x D) (hp : PsdOn x.op D) (ws : List (ℕ × ℕ))
    (hw : ∀ w ∈ ws, w.1 < w.2 ∧ w.2 ≤ D.length) :
    ∃ zs T, reductionsMpo x none (some (ws.map fun w => (w.1 : ℤ))) (some (ws.map fun w => (w.2 : ℤ))) = .ok zs ∧
      trace x (.same 0 1) = .ok T ∧
      List.Forall₂ (fun w z => PsdOn z.op ((D.drop w.1).take (w.2 - w.1)) ∧
        ∃ T', trace z (.same 0 1) = .ok T' ∧ T'.get [] = T.get []) ws zs := by
  obtain ⟨zs, h1, h2⟩ := C34_reductions_mpo x D hx ws hw
  obtain ⟨T, t1, -, t2⟩ := C20_trace_mpo x hx.valid D (by rw [hx.shape]; simp [pairs, List.zipWith_self])
  refine ⟨zs, T, h1, t1, ?_⟩
  refine (List.forall₂_iff_get.2 ⟨h2.length_eq, fun i hi hi' => ?_⟩)
  obtain ⟨g1, -, g2⟩ := h2.get hi hi'
  have hwi := hw _ (List.get_mem ws ⟨i, hi⟩)
  generalize ws.get ⟨i, hi⟩ = w at *
  generalize zs.get ⟨i, hi'⟩ = z at *
  have hs := window_join (D := D) hwi.1.le
  constructor
  · refine PsdOn.congr (margOp_psd (P := D.take w.1) (Q := D.drop w.2) (f := x.op) (by rw [hs]; exact hp)) g2
  · obtain ⟨T', k1, -, k2⟩ := C20_trace_mpo z g1.valid ((D.drop w.1).take (w.2 - w.1)) (by rw [g1.shape]; simp only [pairs, List.zipWith_self])
    refine ⟨T', k1, ?_⟩
    rw [k2, t2]
    have hd : ∀ I : List ℕ, (I.map fun i => [i, i]) = pairs I I := fun I => by simp [pairs, List.zipWith_self]
    simp only [hd]
    rw [sumIdx_congr fun I hI => g2 I I hI hI, C34_trace, hs]

/-- The squared norm of a PMPS is the trace of its density operator. -/
theorem dm_trace {x : MPA 𝕜} {D A : List ℕ} (hx : IsPmps x D A) : (sumIdx D fun I => dm x A I I) = ((x.frob ^ 2 : ℝ) : 𝕜) := by
  have hfr : x.frob ^ 2 = sumSites x.shape fun i => ‖x.val i‖ ^ 2 := by
    rw [MPA.frob, Real.sq_sqrt (sumSites_nonneg fun _ => by positivity)]
  rw [hfr, hx.shape, sumSites_pairs D A hx.len, ← sumIdx_ofReal]
  refine sumIdx_congr fun I _ => ?_
  rw [dm, ← sumIdx_ofReal]
  refine sumIdx_congr fun K _ => ?_
  rw [mul_comm, star_mul_self_eq]

/-- C74: the reduced states that `reductions_pmps` yields have the norm of the given PMPS. -/
theorem C74_pmps_norm {qr : QR 𝕜} (hqr : QRSpec qr) (x : MPA 𝕜) (D A : List ℕ) (hx : IsPmps x D A) (hg : x.Good)
    (ws : List (ℕ × ℕ)) (hw : ∀ w ∈ ws, w.1 < w.2 ∧ w.2 ≤ D.length) :
    ∃ zs y, reductionsPmps qr x none (some (ws.map fun w => (w.1 : ℤ))) (some (ws.map fun w => (w.2 : ℤ))) = .ok (zs, y) ∧
      zs.length = ws.length ∧ ∀ z ∈ zs, z.frob = x.frob := by
  obtain ⟨zs, y, h1, h2, -⟩ := C35_reductions_pmps hqr x D A hx hg ws hw
  refine ⟨zs, y, h1, h2.length_eq.symm, fun z hz => ?_⟩
  obtain ⟨i, hi, rfl⟩ := List.getElem_of_mem hz
  obtain ⟨A', g1, -, g2⟩ := h2.get (i := i) (by rw [h2.length_eq]; exact hi) hi
  have hwi := hw _ (List.get_mem ws ⟨i, by rw [h2.length_eq]; exact hi⟩)
  generalize ws.get ⟨i, _⟩ = w at *
  have e1 := dm_trace g1
  rw [sumIdx_congr fun I hI => g2 I I hI hI, C34_trace, window_join hwi.1.le, dm_trace hx] at e1
  have e2 : x.frob ^ 2 = zs[i].frob ^ 2 := by exact_mod_cast e1
  exact ((sq_eq_sq₀ (Real.sqrt_nonneg _) (Real.sqrt_nonneg _)).1 e2).symm

/-- C74: the reduced states of a normalized PMPS, as MPOs, are density operators. -/
theorem C74_pmps_states {qr : QR 𝕜} (hqr : QRSpec qr) (x : MPA 𝕜) (D A : List ℕ) (hx : IsPmps x D A) (hg : x.Good)
    (h1 : x.frob = 1) (ws : List (ℕ × ℕ)) (hw : ∀ w ∈ ws, w.1 < w.2 ∧ w.2 ≤ D.length) :
    ∃ zs y, reductionsPmps qr x none (some (ws.map fun w => (w.1 : ℤ))) (some (ws.map fun w => (w.2 : ℤ))) = .ok (zs, y) ∧
      List.Forall₂ (fun w z => ∃ m T, pmpsToMpo z = .ok m ∧ PsdOn m.op ((D.drop w.1).take (w.2 - w.1)) ∧
        trace m (.same 0 1) = .ok T ∧ T.get [] = 1) ws zs := by
  obtain ⟨zs, y, k1, -, k3⟩ := C74_pmps_norm hqr x D A hx hg ws hw
  obtain ⟨zs', y', g1, g2, -⟩ := C35_reductions_pmps hqr x D A hx hg ws hw
  rw [k1] at g1
  obtain ⟨rfl, rfl⟩ := Prod.mk.inj (Except.ok.inj g1)
  refine ⟨zs, y, k1, List.forall₂_iff_get.2 ⟨g2.length_eq, fun i hi hi' => ?_⟩⟩
  obtain ⟨A', a1, -, -⟩ := g2.get hi hi'
  obtain ⟨m, m1, m2, m3, T, m4, m5⟩ := C33_psd_trace _ _ _ a1
  refine ⟨m, T, m1, ⟨m2, m3⟩, m4, ?_⟩
  rw [m5, k3 _ (List.get_mem zs ⟨i, hi'⟩), h1]
  simp

end
/-- Witness for `C74_states`: the MPO of any PMPS is a positive semidefinite MPO. -/
theorem C74_psd_reachable {𝕜 : Type} [RCLike 𝕜] (p : MPA 𝕜) (D A : List ℕ) (hp : IsPmps p D A) :
    ∃ z, pmpsToMpo p = .ok z ∧ IsMpo z D ∧ PsdOn z.op D := by
  obtain ⟨z, h1, h2, h3, -⟩ := C33_psd_trace p D A hp
  obtain ⟨z', g1, g2, g3, -⟩ := C33_pmps_to_mpo p D A hp
  rw [h1] at g1
  obtain rfl := Except.ok.inj g1
  exact ⟨z, h1, ⟨g2, g3⟩, ⟨h2, h3⟩⟩

/-- Witnesses: sites `1..2` of sites `0..2`, an operator on the second of two sites, and two terms in the order 1, 0. -/
example : (∃ z z' y, ReducesTo exMPO 0 2 z ∧ ReducesTo z 1 2 z' ∧ ReducesTo exMPO (0 + 1) (0 + 2) y ∧ y.Same z') ∧
    (∃ O z t, embedSlice exMPO.len (sliceOf exSite 1) exSite (some (NDArray.eye 2)) = .ok O ∧
      ReducesTo exMPO 1 (1 + [2].length) z ∧ ExpectsTo O exMPO t ∧ ExpectsTo exSite z t) ∧
    List.Forall₂ (fun o a => IsMpo o (List.replicate o.len 2) ∧ a + o.len ≤ 2) [exSite, exSite] [1, 0] := by
  have hx : IsMpo exMPO [2, 2] := ⟨exMPO_valid, rfl⟩
  have ho : IsMpo exSite [2] := ⟨exSite_valid, rfl⟩
  have hl : exSite.len = 1 := rfl
  refine ⟨C74_consistent exMPO [2, 2] hx 0 2 1 2 (by simp) (by simp) (by simp) (by simp),
    C74_expectation exMPO exSite [2] 1 0 2 ho hx, .cons ⟨ho, by rw [hl]⟩ (.cons ⟨ho, by rw [hl]; omega⟩ .nil)⟩

end Mpnum
