import Verif.Props.C60Block
import Verif.Props.C59Pauli
import Verif.Props.C41
import Verif.Props.C66

/-!
# C67: informational completeness of product measurements

`pauli_povm(d)` determines every operator on one site (C41).  Here: tensor products of such measurements determine every
operator on the chain. -/

open Finset

namespace Mpnum

/-- Specification: an operator on sites with dimensions `D` is determined by its traces with the operators in `S`. -/
def InfoComplete (D : List ℕ) (S : Set (List ℕ → List ℕ → ℂ)) : Prop :=
  ∀ ρ σ : List ℕ → List ℕ → ℂ, (∀ M ∈ S, bornRule D M ρ = bornRule D M σ) → ∀ I J, InB I D → InB J D → ρ I J = σ I J

/-- The elements of the MP-POVM `x` with `O` outcomes. -/
def MPA.elems (x : MPA ℂ) (O : List ℕ) : Set (List ℕ → List ℕ → ℂ) := {M | ∃ Y, InB Y O ∧ M = x.elem Y}

/-- The elements of the POVM `a` with `n` outcomes on one site. -/
def siteElems (a : NDArray ℂ) (n : ℕ) : Set (List ℕ → List ℕ → ℂ) :=
  {M | ∃ k < n, M = fun I J => a.get [k, I.headD 0, J.headD 0]}

theorem bornRule_congr_left {D : List ℕ} {M M' ρ : List ℕ → List ℕ → ℂ} {c : ℂ}
    (h : ∀ I J, InB I D → InB J D → M I J = c * M' I J) : bornRule D M ρ = c * bornRule D M' ρ := by
  unfold bornRule
  rw [mul_sumIdx]
  refine sumIdx_congr fun I hI => ?_
  rw [mul_sumIdx]
  refine sumIdx_congr fun J hJ => ?_
  rw [h I J hI hJ, mul_assoc]

/-- Only the values count, and multiples of the operators are as good. -/
theorem InfoComplete.of {D : List ℕ} {S T : Set (List ℕ → List ℕ → ℂ)} (hS : InfoComplete D S)
    (h : ∀ M ∈ S, ∃ N ∈ T, ∃ c : ℂ, ∀ I J, InB I D → InB J D → M I J = c * N I J) : InfoComplete D T := by
  intro ρ σ hT
  refine hS ρ σ fun M hM => ?_
  obtain ⟨N, hN, c, hc⟩ := h M hM
  rw [bornRule_congr_left hc, bornRule_congr_left hc, hT N hN]

theorem born_tensor {D E : List ℕ} {M N ρ : List ℕ → List ℕ → ℂ} :
    bornRule (D ++ E) (tensorOp D.length M N) ρ
      = bornRule D M fun J I => bornRule E N fun L K => ρ (J ++ L) (I ++ K) := by
  unfold bornRule
  rw [sumIdx_append]
  refine sumIdx_congr fun I hI => ?_
  simp only [sumIdx_append]
  rw [sumIdx_comm]
  refine sumIdx_congr fun J hJ => ?_
  rw [mul_sumIdx]
  refine sumIdx_congr fun K hK => ?_
  rw [mul_sumIdx]
  refine sumIdx_congr fun L hL => ?_
  unfold tensorOp
  have a := inB_length hI
  have b := inB_length hJ
  rw [List.take_left' a, List.drop_left' a, List.take_left' b, List.drop_left' b, mul_assoc]

/-- Products of operators that determine every operator on two groups of sites determine every operator on all of them. -/
theorem InfoComplete.tensor {D E : List ℕ} {S T : Set (List ℕ → List ℕ → ℂ)} (hS : InfoComplete D S) (hT : InfoComplete E T) :
    InfoComplete (D ++ E) {P | ∃ M ∈ S, ∃ N ∈ T, P = tensorOp D.length M N} := by
  intro ρ σ h I J hI hJ
  obtain ⟨I, K, rfl, h1, h2⟩ := inB_append_split hI
  obtain ⟨J, L, rfl, h3, h4⟩ := inB_append_split hJ
  refine hT (fun K L => ρ (I ++ K) (J ++ L)) (fun K L => σ (I ++ K) (J ++ L)) (fun N hN => ?_) K L h2 h4
  refine hS (fun I J => bornRule E N fun K L => ρ (I ++ K) (J ++ L)) (fun I J => bornRule E N fun K L => σ (I ++ K) (J ++ L))
    (fun M hM => ?_) I J h1 h3
  rw [← born_tensor, ← born_tensor]
  exact h _ ⟨M, hM, N, hN, rfl⟩

theorem infoComplete_nil {S : Set (List ℕ → List ℕ → ℂ)} (h : ∃ M ∈ S, M [] [] ≠ 0) : InfoComplete [] S := by
  intro ρ σ hρ I J hI hJ
  obtain ⟨M, hM, h0⟩ := h
  have := hρ M hM
  rw [inB_nil_right.1 hI, inB_nil_right.1 hJ]
  simpa [bornRule, h0] using this

/-! ### chains -/

theorem chain_complete : ∀ {qs : List (MPA ℂ × List ℕ × List ℕ)} {z : MPA ℂ},
    (∀ q ∈ qs, IsMpPovm q.1 q.2.1 q.2.2 ∧ InfoComplete q.2.2 (q.1.elems q.2.1)) → z.lt = qs.flatMap (fun q => q.1.lt) →
    InfoComplete (qs.flatMap fun q => q.2.2) (z.elems (qs.flatMap fun q => q.2.1))
  | [], z, _, hz => by
    refine infoComplete_nil ⟨z.elem [], ⟨[], by simp, rfl⟩, ?_⟩
    simp [MPA.elem, MPA.val, hz, entry, mp]
  | q :: qs, z, h, hz => by
    have ih := chain_complete (qs := qs) (z := ⟨qs.flatMap fun q => q.1.lt, 0, 0⟩) (fun p hp => h p (by simp [hp])) rfl
    obtain ⟨h1, h2⟩ := h q (by simp)
    rw [List.flatMap_cons, List.flatMap_cons]
    refine (h2.tensor ih).of ?_
    rintro _ ⟨_, ⟨Y, hY, rfl⟩, _, ⟨Z, hZ, rfl⟩, rfl⟩
    refine ⟨_, ⟨Y ++ Z, inB_append hY hZ, rfl⟩, 1, fun I J hI hJ => ?_⟩
    obtain ⟨I, I', rfl, b1, b2⟩ := inB_append_split hI
    obtain ⟨J, J', rfl, c1, c2⟩ := inB_append_split hJ
    have b1 := inB_length b1
    have c1 := inB_length c1
    rw [elem_append h1 (y := ⟨qs.flatMap fun q => q.1.lt, 0, 0⟩) (by rw [hz, List.flatMap_cons]) ((inB_length hY).trans h1.len) b1 c1]
    unfold tensorOp
    rw [List.take_left' b1, List.drop_left' b1, List.take_left' c1, List.drop_left' c1, one_mul]

/-- C67: `chain` of informationally complete MP-POVMs is informationally complete. -/
theorem C67_chain (qs : List (MPA ℂ × List ℕ × List ℕ)) (hne : qs ≠ [])
    (h : ∀ q ∈ qs, IsMpPovm q.1 q.2.1 q.2.2 ∧ InfoComplete q.2.2 (q.1.elems q.2.1)) :
    ∃ z, chainPovm (qs.map Prod.fst) = .ok z ∧
      InfoComplete (qs.flatMap fun q => q.2.2) (z.elems (qs.flatMap fun q => q.2.1)) := by
  obtain ⟨z, h1, h2, _, _, h3⟩ := chainPovm_ok hne fun q hq => (h q hq).1
  exact ⟨z, h1, chain_complete h h2⟩

/-! ### products of measurements on one site -/

/-- Operators whose factors on the sites are in `S`. -/
def SiteProducts (S : Set (List ℕ → List ℕ → ℂ)) : ℕ → Set (List ℕ → List ℕ → ℂ)
  | 0 => {fun _ _ => 1}
  | n + 1 => {P | ∃ M ∈ S, ∃ N ∈ SiteProducts S n, P = tensorOp 1 M N}

theorem siteProducts_complete {d : ℕ} {S : Set (List ℕ → List ℕ → ℂ)} (hS : InfoComplete [d] S) :
    ∀ n, InfoComplete (List.replicate n d) (SiteProducts S n)
  | 0 => infoComplete_nil ⟨_, rfl, one_ne_zero⟩
  | n + 1 => hS.tensor (siteProducts_complete hS n)

/-- The trace with an element of a POVM on one site, in terms of matrices. -/
theorem bornRule_site (a : NDArray ℂ) (d k : ℕ) (ρ : List ℕ → List ℕ → ℂ) :
    bornRule [d] (fun I J => a.get [k, I.headD 0, J.headD 0]) ρ = born a k (Matrix.of fun i j : Fin d => ρ [i] [j]) := by
  unfold born bornRule
  simp [Matrix.trace, Matrix.mul_apply, elemMatrix, sumIdx, Finset.sum_range]

theorem site_complete {a : NDArray ℂ} {n d : ℕ}
    (h : ∀ rho sigma : Matrix (Fin d) (Fin d) ℂ, (∀ k < n, born a k rho = born a k sigma) → rho = sigma) :
    InfoComplete [d] (siteElems a n) := by
  intro ρ σ hM I J hI hJ
  obtain ⟨i, I, rfl, h1, h2⟩ := inB_cons_split hI
  obtain ⟨j, J, rfl, h3, h4⟩ := inB_cons_split hJ
  rw [inB_nil_right.1 h2, inB_nil_right.1 h4]
  have := h (Matrix.of fun i j : Fin d => ρ [i] [j]) (Matrix.of fun i j : Fin d => σ [i] [j]) fun k hk => by
    rw [← bornRule_site, ← bornRule_site]
    exact hM _ ⟨k, hk, rfl⟩
  exact congrFun (congrFun this ⟨i, h1⟩) ⟨j, h3⟩

theorem siteProducts_elem {a : NDArray ℂ} {o d : ℕ} : ∀ {n : ℕ} {P : List ℕ → List ℕ → ℂ}, P ∈ SiteProducts (siteElems a o) n →
    ∃ Y, InB Y (List.replicate n o) ∧ ∀ I J, InB I (List.replicate n d) → InB J (List.replicate n d) →
      P I J = ((triples Y I J).map a.get).prod
  | 0, P, hP => by
    obtain rfl : P = fun _ _ => 1 := hP
    exact ⟨[], by simp, fun I J hI hJ => by simp⟩
  | n + 1, P, ⟨M, ⟨k, hk, hM⟩, N, hN, hP⟩ => by
    obtain ⟨Y, hY, h⟩ := siteProducts_elem (d := d) hN
    refine ⟨k :: Y, by rw [List.replicate_succ, inB_cons]; exact ⟨hk, hY⟩, fun I J hI hJ => ?_⟩
    rw [List.replicate_succ] at hI hJ
    obtain ⟨i, I, rfl, h1, h2⟩ := inB_cons_split hI
    obtain ⟨j, J, rfl, h3, h4⟩ := inB_cons_split hJ
    rw [triples_cons, List.map_cons, List.prod_cons, ← h I J h2 h4, hP, hM]
    rfl

/-- C67: `from_local_povm` is informationally complete exactly if the POVM on one site is. -/
theorem C67_from_local_povm (a : NDArray ℂ) (o d width : ℕ) (ha : a.shape = [o, d, d]) (ho : o ≤ 255) (hw : 0 < width) :
    ∃ z, fromLocalPovm a width = .ok z ∧
      (InfoComplete (List.replicate width d) (z.elems (List.replicate width o)) ↔ InfoComplete [d] (siteElems a o)) := by
  obtain ⟨z, h1, h2, _, h3⟩ := C43_from_local_povm a o d width ha ho hw
  refine ⟨z, h1, fun h ρ σ hρ I J hI hJ => ?_, fun h => ?_⟩
  · obtain ⟨w, rfl⟩ : ∃ w, width = w + 1 := ⟨width - 1, by omega⟩
    let τ : List ℕ → List ℕ → ℂ := fun K L => if K = List.replicate w 0 ∧ L = List.replicate w 0 then 1 else 0
    have key : ∀ y < o, ∀ Y, InB Y (List.replicate w o) → ∀ ρ, bornRule (List.replicate (w + 1) d) (z.elem (y :: Y)) (tensorOp 1 ρ τ)
        = bornRule [d] (fun I J => a.get [y, I.headD 0, J.headD 0]) ρ
          * bornRule (List.replicate w d) (fun K L => ((triples Y K L).map a.get).prod) τ := by
      intro y hy Y hY ρ
      have : bornRule (List.replicate (w + 1) d) (z.elem (y :: Y)) (tensorOp 1 ρ τ)
          = 1 * bornRule ([d] ++ List.replicate w d) (tensorOp [d].length (fun I J => a.get [y, I.headD 0, J.headD 0])
            fun K L => ((triples Y K L).map a.get).prod) (tensorOp 1 ρ τ) := by
        refine bornRule_congr_left fun I J hI hJ => ?_
        rw [h3 _ _ _ (by rw [List.replicate_succ, inB_cons]; exact ⟨hy, hY⟩) hI hJ]
        rw [List.replicate_succ] at hI hJ
        obtain ⟨i, I, rfl, _, _⟩ := inB_cons_split hI
        obtain ⟨j, J, rfl, _, _⟩ := inB_cons_split hJ
        simp [tensorOp]
      rw [this, one_mul, born_tensor]
      unfold bornRule
      rw [sumIdx_mul]
      refine sumIdx_congr fun I hI => ?_
      rw [sumIdx_mul]
      refine sumIdx_congr fun J hJ => ?_
      rw [mul_assoc]
      congr 1
      rw [mul_sumIdx]
      refine sumIdx_congr fun K hK => ?_
      rw [mul_sumIdx]
      refine sumIdx_congr fun L hL => ?_
      have a : I.length = 1 := inB_length hI
      have b : J.length = 1 := inB_length hJ
      beta_reduce
      unfold tensorOp
      rw [List.take_left' a, List.drop_left' a, List.take_left' b, List.drop_left' b]
      ring
    have hPQ := h (tensorOp 1 ρ τ) (tensorOp 1 σ τ) (by
      rintro _ ⟨Y, hY, rfl⟩
      rw [List.replicate_succ] at hY
      obtain ⟨y, Y, rfl, hy, hY⟩ := inB_cons_split hY
      rw [key y hy Y hY, key y hy Y hY, hρ _ ⟨y, hy, rfl⟩])
    obtain ⟨i, I, rfl, i1, i2⟩ := inB_cons_split hI
    obtain ⟨j, J, rfl, j1, j2⟩ := inB_cons_split hJ
    rw [inB_nil_right.1 i2, inB_nil_right.1 j2]
    have h0 : InB (List.replicate w 0) (List.replicate w d) := by
      clear * - i1
      induction w with
      | zero => simp
      | succ w ih => rw [List.replicate_succ, List.replicate_succ, inB_cons]; exact ⟨by omega, ih⟩
    have := hPQ (i :: List.replicate w 0) (j :: List.replicate w 0) (by rw [List.replicate_succ, inB_cons]; exact ⟨i1, h0⟩)
      (by rw [List.replicate_succ, inB_cons]; exact ⟨j1, h0⟩)
    simpa [tensorOp, τ] using this
  · refine (siteProducts_complete h width).of fun P hP => ?_
    obtain ⟨Y, hY, hv⟩ := siteProducts_elem (d := d) hP
    exact ⟨_, ⟨Y, hY, rfl⟩, 1, fun I J hI hJ => by rw [hv I J hI hJ, h3 Y I J hY hI hJ, one_mul]⟩

theorem pauli_site (d : ℕ) (hd : 2 ≤ d) {a : NDArray ℂ} (ha : pauliPovm d = .ok a) {n : ℕ} (hs : a.shape = [n, d, d]) :
    InfoComplete [d] (siteElems a n) := by
  obtain ⟨b, m, h1, h2, _, h3⟩ := C41_info_complete d hd
  rw [h1] at ha
  obtain rfl := Except.ok.inj ha
  rw [h2] at hs
  obtain rfl : m = n := by simpa using hs
  exact site_complete h3

/-- C67: `pauli_mpp(n, d)` is informationally complete. -/
theorem C67_pauli_mpp (n d : ℕ) (hn : 0 < n) (hd : 2 ≤ d) (ho : pauliOutcomes d ≤ 255) :
    ∃ z, pauliMpp n d = .ok z ∧
      InfoComplete (List.replicate n d) (z.elems (List.replicate n (pauliOutcomes d))) := by
  obtain ⟨a, z, h1, h2, h3, _⟩ := C59_pauli_mpp n d hn hd ho
  obtain ⟨z', g1, g2⟩ := C67_from_local_povm a _ d n h2.shape ho hn
  refine ⟨z', ?_, g2.2 (pauli_site d hd h1 h2.shape)⟩
  unfold pauliMpp
  rw [h1, ok_bind, g1]

/-! ### `pauli_mpps` -/

theorem siteProducts_parts {parts : List (NDArray ℂ)} {o d : ℕ} : ∀ {n : ℕ} {P : List ℕ → List ℕ → ℂ},
    P ∈ SiteProducts {M | ∃ a ∈ parts, M ∈ siteElems a o} n →
    ∃ c Y, InB c (List.replicate n parts.length) ∧ InB Y (List.replicate n o) ∧
      ∀ as, List.Forall₂ (fun m a => parts[m]? = some a) c as → ∀ I J, InB I (List.replicate n d) → InB J (List.replicate n d) →
        P I J = (List.zipWith NDArray.get as (triples Y I J)).prod
  | 0, P, hP => by
    obtain rfl : P = fun _ _ => 1 := hP
    refine ⟨[], [], by simp, by simp, fun as _ I J hI hJ => by simp⟩
  | n + 1, P, ⟨M, ⟨a, ha, k, hk, hM⟩, N, hN, hP⟩ => by
    obtain ⟨c, Y, hc, hY, h⟩ := siteProducts_parts (d := d) hN
    obtain ⟨m, hm, hma⟩ := List.getElem_of_mem ha
    refine ⟨m :: c, k :: Y, by rw [List.replicate_succ, inB_cons]; exact ⟨hm, hc⟩,
      by rw [List.replicate_succ, inB_cons]; exact ⟨hk, hY⟩, ?_⟩
    intro as has I J hI hJ
    rw [List.replicate_succ] at hI hJ
    obtain ⟨i, I, rfl, h1, h2⟩ := inB_cons_split hI
    obtain ⟨j, J, rfl, h3, h4⟩ := inB_cons_split hJ
    cases has with
    | cons hb has =>
      rw [List.getElem?_eq_getElem hm, hma] at hb
      obtain rfl := Option.some.inj hb
      rw [triples_cons, List.zipWith_cons_cons, List.prod_cons, ← h _ has I J h2 h4, hP, hM]
      rfl

/-- C67: the MP-POVMs `pauli_mpps(n, d)` together are informationally complete. -/
theorem C67_pauli_mpps (n d : ℕ) (hn : 0 < n) (hd : 2 ≤ d) (ho : d * (d - 1) ≤ 255) :
    ∃ zs, pauliMpps n d = .ok zs ∧
      InfoComplete (List.replicate n d) {M | ∃ z ∈ zs, M ∈ z.elems (List.replicate n (d * (d - 1)))} := by
  obtain ⟨parts, zs, h1, h2, h3, h4, _, h5⟩ := C59_pauli_mpps n d hn hd ho
  refine ⟨zs, h4, ?_⟩
  obtain ⟨parts', a, g1, g2, g3, g4⟩ := C59_pauli_elems d hd
  rw [h1] at g1
  obtain rfl := Except.ok.inj g1
  obtain ⟨a', k1, k2⟩ := C40_pauli_povm d hd
  rw [g2] at k1
  obtain rfl := Except.ok.inj k1
  have hsite : InfoComplete [d] {M | ∃ a ∈ parts, M ∈ siteElems a (d * (d - 1))} := by
    refine (pauli_site d hd g2 k2.shape).of ?_
    rintro _ ⟨k, hk, rfl⟩
    have hdd : 0 < d * (d - 1) := Nat.mul_pos (by omega) (by omega)
    have hm : k / (d * (d - 1)) < parts.length := by
      rw [Nat.div_lt_iff_lt_mul hdd, h2]
      split_ifs at hk ⊢ with h
      · subst h; omega
      · exact hk
    refine ⟨_, ⟨parts[k / (d * (d - 1))], List.getElem_mem hm, k % (d * (d - 1)), Nat.mod_lt _ hdd, rfl⟩, ((1 / (parts.length : ℝ) : ℝ) : ℂ), fun I J hI hJ => ?_⟩
    have := g4 (k / (d * (d - 1))) _ (List.getElem?_eq_getElem hm) (k % (d * (d - 1))) (Nat.mod_lt _ hdd) (I.headD 0) (J.headD 0)
    rw [Nat.mul_comm, Nat.div_add_mod] at this
    exact this
  refine (siteProducts_complete hsite n).of fun P hP => ?_
  obtain ⟨c, Y, hc, hY, hv⟩ := siteProducts_parts (d := d) hP
  obtain ⟨z, as, z1, z2, _, _, z3⟩ := h5 c hc
  exact ⟨_, ⟨z, List.mem_of_getElem? z1, Y, hY, rfl⟩, 1, fun I J hI hJ => by
    rw [hv as z2 I J hI hJ, z3 Y I J hY hI hJ, one_mul]⟩

/-! ### states -/

/-- The bonds of a POVM are positive: otherwise all its elements would be zero. -/
theorem povmArg_of {x : MPA ℂ} {O D : List ℕ} (hx : IsMpPovm x O D) (hO : ∀ o ∈ O, 0 < o) (hD : ∀ d ∈ D, 0 < d)
    (hm : IsMeasurement O D x.elem) : PovmArg x O D := by
  refine ⟨hx, hO, fun r hr => ?_, hm⟩
  by_contra h0
  obtain ⟨k, hk, hkr⟩ := List.getElem_of_mem hr
  have hrl : x.ranks.length = x.len - 1 := by simp [MPA.ranks, MPA.len]
  have hk' : k + 1 < x.len := by omega
  obtain ⟨X, Y, hXY⟩ := rankLe_bond hx.valid (k := k + 1) (by omega) hk'
  have hz : x.ranks.getD (k + 1 - 1) 0 = 0 := by
    rw [Nat.add_sub_cancel, List.getD_eq_getElem _ _ hk, hkr]; omega
  have hzero : ∀ i, IdxOK i x.shape → x.val i = 0 := by
    intro i hi
    have := hXY (i.take (k + 1)) (i.drop (k + 1)) (List.forall₂_take _ hi) (List.forall₂_drop _ hi)
    rw [List.take_append_drop, hz] at this
    simpa using this
  have hI : InB (List.replicate D.length 0) D := by
    clear * - hD
    induction D with
    | nil => simp
    | cons d D ih =>
      rw [List.length_cons, List.replicate_succ, inB_cons]
      exact ⟨hD d (by simp), ih fun e he => hD e (by simp [he])⟩
  have := hm.sum _ _ hI hI
  rw [if_pos rfl, sumIdx_congr (f := fun Y => x.elem Y _ _) (g := fun _ => (0 : ℂ)) fun Y hY => hzero _ (by rw [hx.shape]; exact triples_idxOK hY hI hI), sumIdx_zero] at this
  exact zero_ne_one this

/-- C67: a state is determined by its `pmf_as_array` for an informationally complete measurement. -/
theorem C67_tomography {qr : QR ℂ} (hqr : QRSpec qr) (x : MPA ℂ) (O D : List ℕ) (hx : PovmArg x O D)
    (hc : InfoComplete D (x.elems O)) (mode mode' : PovmMode) (ψ ψ' : MPA ℂ) (ρ ρ' : List ℕ → List ℕ → ℂ)
    (hψ : StateIn D ρ mode ψ) (hψ' : StateIn D ρ' mode' ψ') (hρ : IsState D ρ) (hρ' : IsState D ρ') (eps : ℝ) (he : 0 ≤ eps) :
    ∃ p p', pmfAsArray qr x ψ mode eps .auto = .ok (p, ψ) ∧ pmfAsArray qr x ψ' mode' eps .auto = .ok (p', ψ') ∧
      (p.Eqv p' ↔ ∀ I J, InB I D → InB J D → ρ I J = ρ' I J) := by
  obtain ⟨p, h1, h2⟩ := hψ.array hρ hqr hx he
  obtain ⟨p', h3, h4⟩ := hψ'.array hρ' hqr hx he
  refine ⟨p, p', h1, h3, fun h => hc ρ ρ' ?_, fun h => ⟨h2.shape.trans h4.shape.symm, fun i hi => ?_⟩⟩
  · rintro _ ⟨Y, hY, rfl⟩
    rw [← h2.born Y hY, ← h4.born Y hY, h.2 _ (by rw [h2.shape]; exact squeeze_inB hY)]
  · rw [h2.shape] at hi
    obtain ⟨Y, hY, rfl⟩ := exists_squeeze hx.pos hi
    have := (h2.born Y hY).trans ((born_congr h).trans (h4.born Y hY).symm)
    exact_mod_cast this

/-- C67: a state of a chain is determined by its probabilities for `pauli_mpp(n, d)`, however the state is represented. -/
theorem C67_pauli_tomography {qr : QR ℂ} (hqr : QRSpec qr) (n d : ℕ) (hn : 0 < n) (hd : 2 ≤ d) (ho : pauliOutcomes d ≤ 255) :
    ∃ z, pauliMpp n d = .ok z ∧ ∀ (mode mode' : PovmMode) (ψ ψ' : MPA ℂ) (ρ ρ' : List ℕ → List ℕ → ℂ),
      StateIn (List.replicate n d) ρ mode ψ → StateIn (List.replicate n d) ρ' mode' ψ' →
      IsState (List.replicate n d) ρ → IsState (List.replicate n d) ρ' → ∀ eps : ℝ, 0 ≤ eps →
      ∃ p p', pmfAsArray qr z ψ mode eps .auto = .ok (p, ψ) ∧ pmfAsArray qr z ψ' mode' eps .auto = .ok (p', ψ') ∧
        (p.Eqv p' ↔ ∀ I J, InB I (List.replicate n d) → InB J (List.replicate n d) → ρ I J = ρ' I J) := by
  obtain ⟨a, z, h1, h2, h3, h4, h5, _⟩ := C59_pauli_mpp n d hn hd ho
  obtain ⟨z', g1, g2⟩ := C67_pauli_mpp n d hn hd ho
  rw [h3] at g1
  obtain rfl := Except.ok.inj g1
  have hpos : 0 < pauliOutcomes d := by
    unfold pauliOutcomes
    have : 0 < d * (d - 1) := Nat.mul_pos (by omega) (by omega)
    split_ifs <;> omega
  have hx := povmArg_of h4 (by intro o ho; rw [List.eq_of_mem_replicate ho]; exact hpos)
    (by intro e he; rw [List.eq_of_mem_replicate he]; omega) h5
  exact ⟨z, h3, fun mode mode' ψ ψ' ρ ρ' a b c e eps he => C67_tomography hqr z _ _ hx g2 mode mode' ψ ψ' ρ ρ' a b c e eps he⟩

theorem bornArray_eqv {x : MPA ℂ} {O D : List ℕ} {ρ ρ' : List ℕ → List ℕ → ℂ} {p p' : NDArray ℝ} (hx : PovmArg x O D)
    (h : BornArray x O D ρ p) (h' : BornArray x O D ρ' p') :
    p.Eqv p' ↔ ∀ M ∈ x.elems O, bornRule D M ρ = bornRule D M ρ' := by
  constructor
  · rintro e _ ⟨Y, hY, rfl⟩
    rw [← h.born Y hY, ← h'.born Y hY, e.2 _ (by rw [h.shape]; exact squeeze_inB hY)]
  · refine fun e => ⟨h.shape.trans h'.shape.symm, fun i hi => ?_⟩
    rw [h.shape] at hi
    obtain ⟨Y, hY, rfl⟩ := exists_squeeze hx.pos hi
    have := (h.born Y hY).trans ((e _ ⟨Y, hY, rfl⟩).trans (h'.born Y hY).symm)
    exact_mod_cast this

/-- C67: a state of a chain is determined by its probabilities for the measurements `pauli_mpps(n, d)`. -/
theorem C67_pauli_mpps_tomography {qr : QR ℂ} (hqr : QRSpec qr) (n d : ℕ) (hn : 0 < n) (hd : 2 ≤ d) (ho : d * (d - 1) ≤ 255) :
    ∃ zs, pauliMpps n d = .ok zs ∧ ∀ (mode mode' : PovmMode) (ψ ψ' : MPA ℂ) (ρ ρ' : List ℕ → List ℕ → ℂ),
      StateIn (List.replicate n d) ρ mode ψ → StateIn (List.replicate n d) ρ' mode' ψ' →
      IsState (List.replicate n d) ρ → IsState (List.replicate n d) ρ' → ∀ eps : ℝ, 0 ≤ eps →
      ∃ ps ps', pmfAsArrayList qr zs ψ mode eps = .ok (ps, ψ) ∧ pmfAsArrayList qr zs ψ' mode' eps = .ok (ps', ψ') ∧
        (List.Forall₂ NDArray.Eqv ps ps' ↔
          ∀ I J, InB I (List.replicate n d) → InB J (List.replicate n d) → ρ I J = ρ' I J) := by
  obtain ⟨parts, zs, h1, h2, h3, h4, hlen, h5⟩ := C59_pauli_mpps n d hn hd ho
  obtain ⟨zs', g1, g2⟩ := C67_pauli_mpps n d hn hd ho
  rw [h4] at g1
  obtain rfl := Except.ok.inj g1
  have hpos : 0 < d * (d - 1) := Nat.mul_pos (by omega) (by omega)
  have hz : ∀ z ∈ zs, PovmArg z (List.replicate n (d * (d - 1))) (List.replicate n d) := by
    intro z hz
    obtain ⟨m, hm, hmz⟩ := List.getElem_of_mem hz
    have hp : (List.replicate n parts.length).prod = zs.length := by rw [List.prod_replicate, hlen]
    obtain ⟨c, hc, hcm⟩ : ∃ c, InB c (List.replicate n parts.length) ∧ ravelIdx (List.replicate n parts.length) c = m :=
      ⟨unravelIdx (List.replicate n parts.length) m, unravelIdx_inB (hp ▸ hm), ravel_unravel (hp ▸ hm)⟩
    obtain ⟨z', as, z1, _, z2, z3, _⟩ := h5 c hc
    rw [hcm, List.getElem?_eq_getElem hm, hmz] at z1
    obtain rfl := Option.some.inj z1
    exact povmArg_of z2 (by intro o ho; rw [List.eq_of_mem_replicate ho]; exact hpos)
      (by intro e he; rw [List.eq_of_mem_replicate he]; omega) z3
  refine ⟨zs, h4, fun mode mode' ψ ψ' ρ ρ' a b c e eps he => ?_⟩
  have hne : zs ≠ [] := by
    intro h
    rw [h, h2] at hlen
    have h32 : 0 < (if d = 2 then 3 else 2) := by split_ifs <;> omega
    have := Nat.pow_pos (n := n) h32
    simp only [List.length_nil] at hlen
    omega
  let qs := zs.map fun z => (z, List.replicate n (d * (d - 1)))
  have hq : ∀ q ∈ qs, PovmArg q.1 q.2 (List.replicate n d) := by
    intro q hq
    obtain ⟨z, hzm, rfl⟩ := List.mem_map.1 hq
    exact hz z hzm
  have hqs : qs.map Prod.fst = zs := by
    simp only [qs, List.map_map]
    exact List.map_id' _
  obtain ⟨ps, p1, p2⟩ := C60_list_pmf_as_array hqr qs (List.replicate n d) (by simpa [qs] using hne) hq mode ψ ρ a c eps he
  obtain ⟨ps', p3, p4⟩ := C60_list_pmf_as_array hqr qs (List.replicate n d) (by simpa [qs] using hne) hq mode' ψ' ρ' b e eps he
  rw [hqs] at p1 p3
  refine ⟨ps, ps', p1, p3, ?_⟩
  have key : List.Forall₂ NDArray.Eqv ps ps' ↔ ∀ z ∈ zs, ∀ M ∈ z.elems (List.replicate n (d * (d - 1))),
      bornRule (List.replicate n d) M ρ = bornRule (List.replicate n d) M ρ' := by
    rw [List.forall₂_map_left_iff] at p2 p4
    clear * - p2 p4 hz
    induction zs generalizing ps ps' with
    | nil => cases p2; cases p4; simp
    | cons z zs ih =>
      cases p2 with
      | cons x1 x2 =>
        cases p4 with
        | cons y1 y2 =>
          rw [List.forall₂_cons, ih (fun z h => hz z (by simp [h])) _ x2 _ y2, bornArray_eqv (hz z (by simp)) x1 y1]
          simp
  rw [key]
  constructor
  · intro h
    refine g2 ρ ρ' ?_
    rintro M ⟨z, hzm, hM⟩
    exact h z hzm M hM
  · exact fun h z _ M _ => born_congr h

/-- C67: for an informationally complete MP-POVM, `block_pmfs_as_array` of two states agree exactly if their reductions
to all windows agree. -/
theorem C67_block {qr : QR ℂ} (hqr : QRSpec qr) (x : MPA ℂ) (O : List ℕ) (k d n : ℕ) (hk : k ≤ n)
    (hx : PovmArg x O (List.replicate k d)) (hc : InfoComplete (List.replicate k d) (x.elems O)) (m m' : StateMode)
    (ψ ψ' : MPA ℂ) (ρ ρ' : List ℕ → List ℕ → ℂ)
    (hψ : StateIn (List.replicate n d) ρ (.mode m) ψ) (hρ : IsState (List.replicate n d) ρ)
    (hψ' : StateIn (List.replicate n d) ρ' (.mode m') ψ') (hρ' : IsState (List.replicate n d) ρ') (eps : ℝ) (he : 0 ≤ eps) :
    ∃ ps ps', blockPmfsAsArray qr x ψ (.mode m) eps none = .ok ps ∧ blockPmfsAsArray qr x ψ' (.mode m') eps none = .ok ps' ∧
      (List.Forall₂ NDArray.Eqv ps ps' ↔ ∀ s < n + 1 - k, ∀ I J, InB I (List.replicate k d) → InB J (List.replicate k d) →
        margOp ρ (List.replicate s d) (List.replicate (n - s - k) d) I J
          = margOp ρ' (List.replicate s d) (List.replicate (n - s - k) d) I J) := by
  obtain ⟨ps, h1, h2⟩ := C60_block_default hqr x ψ O k d n hk hx m ρ hψ hρ eps he
  obtain ⟨ps', h3, h4⟩ := C60_block_default hqr x ψ' O k d n hk hx m' ρ' hψ' hρ' eps he
  refine ⟨ps, ps', h1, h3, ?_⟩
  have key : ∀ (l : List ℕ) (ps ps' : List (NDArray ℝ)),
      List.Forall₂ (fun s p => BornArray x O (List.replicate k d) (margOp ρ (List.replicate s d) (List.replicate (n - s - k) d)) p) l ps →
      List.Forall₂ (fun s p => BornArray x O (List.replicate k d) (margOp ρ' (List.replicate s d) (List.replicate (n - s - k) d)) p) l ps' →
      (List.Forall₂ NDArray.Eqv ps ps' ↔ ∀ s ∈ l, ∀ I J, InB I (List.replicate k d) → InB J (List.replicate k d) →
        margOp ρ (List.replicate s d) (List.replicate (n - s - k) d) I J
          = margOp ρ' (List.replicate s d) (List.replicate (n - s - k) d) I J) := by
    intro l
    induction l with
    | nil => intro ps ps' a b; cases a; cases b; simp
    | cons s l ih =>
      intro ps ps' a b
      cases a with
      | cons a1 a2 =>
        cases b with
        | cons b1 b2 =>
          rw [List.forall₂_cons, ih _ _ a2 b2, bornArray_eqv hx a1 b1, List.forall_mem_cons]
          exact and_congr ⟨fun h => hc _ _ h, fun h M _ => born_congr h⟩ Iff.rfl
  rw [key _ _ _ h2 h4]
  simp

/-! ### examples -/

/-- C67, sharpness: measuring `x_povm(2)` on every qubit is not informationally complete. -/
theorem C67_x_incomplete (n : ℕ) (hn : 0 < n) : ∃ a z, xPovm 2 = .ok a ∧ fromLocalPovm a n = .ok z ∧
    ¬ InfoComplete (List.replicate n 2) (z.elems (List.replicate n 2)) := by
  obtain ⟨a, h1, rho, sigma, hne, h2⟩ := C41_x_not_complete
  have hs : a.shape = [2, 2, 2] := by
    obtain ⟨b, g1, g2⟩ := C40_x_povm 2 le_rfl
    rw [h1] at g1
    obtain rfl := Except.ok.inj g1
    simpa using g2.shape
  obtain ⟨z, k1, k2⟩ := C67_from_local_povm a 2 2 n hs (by omega) hn
  refine ⟨a, z, h1, k1, fun h => hne ?_⟩
  have hc := k2.1 h
  let ext : Matrix (Fin 2) (Fin 2) ℂ → List ℕ → List ℕ → ℂ := fun m I J => m (Fin.ofNat 2 (I.headD 0)) (Fin.ofNat 2 (J.headD 0))
  have he : ∀ m : Matrix (Fin 2) (Fin 2) ℂ, (Matrix.of fun i j : Fin 2 => ext m [i] [j]) = m := by
    intro m
    ext i j
    simp [ext]
  have := hc (ext rho) (ext sigma) (by
    rintro _ ⟨k, hk, rfl⟩
    rw [bornRule_site, bornRule_site, he, he]
    exact h2 k hk)
  ext i j
  have := this [i] [j] (by simp; omega) (by simp; omega)
  simpa [ext] using this

example : ∃ z, pauliMpp 3 2 = .ok z ∧ InfoComplete [2, 2, 2] (z.elems [6, 6, 6]) :=
  C67_pauli_mpp 3 2 (by omega) le_rfl (by decide)

example : ∃ zs, pauliMpps 3 4 = .ok zs ∧ InfoComplete [4, 4, 4] {M | ∃ z ∈ zs, M ∈ z.elems [12, 12, 12]} :=
  C67_pauli_mpps 3 4 (by omega) (by omega) (by omega)

end Mpnum
