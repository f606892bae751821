import Verif.Povm.MatchDot
import Verif.Props.C42
import Verif.Props.C43
import Verif.Linalg.ContractLemmas
import Verif.Povm.PmfSymm

/-!
# Lemmas about `match_elems` -/

open Finset Classical

namespace Mpnum

variable {R : Type}

/-- Specification: the number of outcomes which remain on each site when the outcomes `O'` are discarded on
the sites where the other POVM has a single outcome. -/
def keptDims (O O' : List ℕ) : List ℕ := List.zipWith (fun s o => if 1 < s then o else 1) O O'

/-- Specification: the element of the POVM `y` for the outcome `Z` if its outcomes are discarded on all sites
where `O` has a single outcome: the sum of all elements which agree with `Z` on the other sites. -/
def MPA.coarseElem [CommSemiring R] (y : MPA R) (O O' : List ℕ) (Z I J : List ℕ) : R :=
  sumIdx O' fun W => if squeezeIdx O W = squeezeIdx O Z then y.elem W I J else 0

theorem keptDims_length {O O' : List ℕ} (h : O.length = O'.length) : (keptDims O O').length = O'.length := by
  simp [keptDims, h]

theorem keptDims_pos {O O' : List ℕ} (h : ∀ o ∈ O', 0 < o) : ∀ o ∈ keptDims O O', 0 < o := by
  intro o ho
  obtain ⟨n, hn, rfl⟩ := List.getElem_of_mem ho
  simp only [keptDims, List.getElem_zipWith]
  split
  · exact h _ (List.getElem_mem _)
  · omega

theorem keptDims_small {O O' : List ℕ} (h : ∀ o ∈ O', o ≤ 255) : ∀ o ∈ keptDims O O', o ≤ 255 := by
  intro o ho
  obtain ⟨n, hn, rfl⟩ := List.getElem_of_mem ho
  simp only [keptDims, List.getElem_zipWith]
  split
  · exact h _ (List.getElem_mem _)
  · omega

section
variable [CommRing R]

theorem discard_val : ∀ {O O' Z W : List ℕ}, O.length = O'.length → InB Z (keptDims O O') → InB W O' →
    (List.zipWith (fun a i => NDArray.get a i)
      (List.zipWith (fun s o => discardSite (R := R) (1 < s) o) O O') (pairs Z W)).prod
      = if squeezeIdx O W = squeezeIdx O Z then 1 else 0
  | [], [], Z, W, _, hZ, hW => by
    cases hZ; cases hW; simp [squeezeIdx, pairs]
  | s :: O, o :: O', z :: Z, w :: W, h, hZ, hW => by
    simp only [keptDims, List.zipWith_cons_cons, inB_cons] at hZ hW
    have ih := discard_val (O := O) (O' := O') (Z := Z) (W := W) (by simpa using h) hZ.2 hW.2
    simp only [pairs, List.zipWith_cons_cons, List.prod_cons] at ih ⊢
    rw [ih]
    by_cases hs : 1 < s
    · simp only [discardSite, hs, if_true, squeezeIdx]
      by_cases hzw : z = w
      · subst hzw
        simp [NDArray.eye]
      · simp [NDArray.eye, hzw, Ne.symm hzw]
    · simp [discardSite, hs, squeezeIdx]
  | _ :: _, _ :: _, [], _, _, hZ, _ => by simp [keptDims] at hZ
  | _ :: _, _ :: _, _ :: _, [], _, _, hW => by simp at hW
  | [], _ :: _, _, _, h, _, _ => by simp at h
  | _ :: _, [], _, _, h, _, _ => by simp at h

theorem discard_shape : ∀ (O O' : List ℕ),
    ((List.zipWith (fun s o => discardSite (R := R) (1 < s) o) O O').map NDArray.shape) = pairs (keptDims O O') O'
  | [], _ => by simp [keptDims, pairs]
  | _ :: _, [] => by simp [keptDims, pairs]
  | s :: O, o :: O' => by
    have ih := discard_shape O O'
    simp only [keptDims, pairs, List.zipWith_cons_cons, List.map_cons] at ih ⊢
    rw [ih]
    by_cases hs : 1 < s <;> simp [discardSite, hs, NDArray.eye]

theorem discard_ok {x y : MPA R} {O O' D : List ℕ} (hx : IsMpPovm x O D) (hy : IsMpPovm y O' D) :
    ∃ z, discardOutcomes x y = .ok z ∧ IsMpPovm z (keptDims O O') D ∧
      ∀ Z I J, InB Z (keptDims O O') → InB I D → InB J D → z.elem Z I J = y.coarseElem O O' Z I J := by
  have hl : O.length = O'.length := hx.len.trans hy.len.symm
  have hne : List.zipWith (fun s o => discardSite (R := R) (1 < s) o) O O' ≠ [] := by
    intro h
    have := congrArg List.length h
    have h1 := hx.lenx
    have h2 := List.length_pos_iff.2 hx.valid.ne
    have h3 := hx.len
    simp only [List.length_zipWith, List.length_nil] at this
    omega
  obtain ⟨tr, t1, t2, t3, t4, t5⟩ := C04_from_kron _ hne
  rw [discard_shape] at t3 t5
  obtain ⟨z, z1, z2, z3, z4, z5, z6, z7⟩ := dot_discard t2 hy.valid (keptDims_length hl) hy.len rfl t3 hy.shape
  have hz : IsMpPovm z (keptDims O O') D := ⟨z2, (keptDims_length hl).trans hy.len, z3, keptDims_small hy.small⟩
  refine ⟨z, ?_, hz, ?_⟩
  · unfold discardOutcomes
    rw [hx.outdims, hy.outdims, t1, ok_bind, z1, ok_bind, hz.check]
  · intro Z I J hZ hI hJ
    unfold MPA.elem MPA.coarseElem
    rw [z7 Z I J hZ hI hJ]
    refine sumIdx_congr fun W hW => ?_
    rw [t5 _ (pairs_idxOK hZ hW), discard_val hl hZ hW]
    split <;> simp [MPA.elem]

theorem diag3_val : ∀ {O Y A B : List ℕ}, InB Y O → InB A O → InB B O →
    (List.zipWith (fun a i => NDArray.get a i) (O.map (diag3 (R := R))) (triples Y A B)).prod
      = if Y = A ∧ A = B then 1 else 0
  | [], Y, A, B, hY, hA, hB => by
    cases hY; cases hA; cases hB; simp
  | o :: O, y :: Y, a :: A, b :: B, hY, hA, hB => by
    simp only [inB_cons] at hY hA hB
    have ih := diag3_val (O := O) (Y := Y) (A := A) (B := B) hY.2 hA.2 hB.2
    simp only [List.map_cons, triples_cons, List.zipWith_cons_cons, List.prod_cons]
    rw [ih]
    simp only [diag3, List.getD_cons_zero, List.getD_cons_succ, List.cons.injEq]
    split_ifs with h1 h2 h3 h3 h4 <;> simp_all
  | _ :: _, [], _, _, hY, _, _ => by simp at hY
  | _ :: _, _ :: _, [], _, _, hA, _ => by simp at hA
  | _ :: _, _ :: _, _ :: _, [], _, _, hB => by simp at hB

theorem diag3_shape (O : List ℕ) : (O.map (diag3 (R := R))).map NDArray.shape = triples O O O := by
  induction O with
  | nil => rfl
  | cons o O ih => simp only [List.map_cons, triples_cons, ih]; rfl

section
variable [StarRing R]

theorem conjPovm_ok {x : MPA R} {O D : List ℕ} (hx : IsMpPovm x O D) :
    ∃ c, conjPovm x = .ok c ∧ IsMpPovm c O D ∧ ∀ Y I J, c.elem Y I J = star (x.elem Y I J) := by
  obtain ⟨c, h1, h2, h3, _, _, h4, _⟩ := C14_conj x hx.valid
  have hc : IsMpPovm c O D := ⟨h2, hx.len, h3.trans hx.shape, hx.small⟩
  exact ⟨c, by unfold conjPovm; rw [h1, ok_bind, hc.check], hc, fun Y I J => h4 _⟩

/-- Specification: the inner product of two matrices. -/
def hsInner (D : List ℕ) (M N : List ℕ → List ℕ → R) : R := sumIdx D fun I => sumIdx D fun J => star (M I J) * N I J

theorem normSq_ok {x : MPA R} {O D : List ℕ} (hx : IsMpPovm x O D) :
    ∃ z, elemNormSq x = .ok z ∧ z.Valid ∧ z.shape = singles O ∧
      ∀ Y, InB Y O → z.val (singles Y) = hsInner D (x.elem Y) (x.elem Y) := by
  obtain ⟨c, c1, c2, c3⟩ := conjPovm_ok hx
  obtain ⟨g, g1, g2, g3, _, g4⟩ := dot_inner c2.valid hx.valid hx.len hx.len rfl c2.shape hx.shape
  have hne : O.map (diag3 (R := R)) ≠ [] := by
    intro h
    have := congrArg List.length h
    have h1 := hx.lenx
    have h2 := List.length_pos_iff.2 hx.valid.ne
    have h3 := hx.len
    simp at this
    subst this
    simp at h3; omega
  obtain ⟨e, e1, e2, e3, _, e4⟩ := C04_from_kron _ hne
  rw [diag3_shape] at e3 e4
  obtain ⟨z, z1, z2, z3, z4⟩ := dot_diag e2 g2 rfl rfl e3 g3
  refine ⟨z, ?_, z2, z3, ?_⟩
  · unfold elemNormSq
    rw [c1, ok_bind, g1, ok_bind, hx.outdims, e1, ok_bind, z1]
  · intro Y hY
    rw [z4 Y hY]
    have : ∀ A, InB A O → (sumIdx O fun B => e.val (triples Y A B) * g.val (pairs A B))
        = if Y = A then g.val (pairs A A) else 0 := by
      intro A hA
      rw [← sumIdx_delta (L := A) hA fun B => if Y = A then g.val (pairs A B) else 0]
      refine sumIdx_congr fun B hB => ?_
      rw [e4 _ (triples_idxOK hY hA hB), diag3_val hY hA hB]
      by_cases h1 : Y = A <;> by_cases h2 : A = B <;> simp [h1, h2]
    rw [sumIdx_congr this, sumIdx_delta hY fun A => g.val (pairs A A), g4 Y Y hY hY]
    unfold hsInner
    refine sumIdx_congr fun I _ => sumIdx_congr fun J _ => ?_
    have := c3 Y I J
    unfold MPA.elem at this ⊢
    rw [this]

theorem hsInner_ok {x y : MPA R} {O K D : List ℕ} (hx : IsMpPovm x O D) (hy : IsMpPovm y K D) :
    ∃ c z, conjPovm x = .ok c ∧ dot c y ([1, 2], [1, 2]) = .ok z ∧ z.Valid ∧ z.shape = pairs O K ∧
      ∀ Y Z, InB Y O → InB Z K → z.val (pairs Y Z) = hsInner D (x.elem Y) (y.elem Z) := by
  obtain ⟨c, c1, c2, c3⟩ := conjPovm_ok hx
  obtain ⟨g, g1, g2, g3, _, g4⟩ := dot_inner c2.valid hy.valid hx.len hy.len rfl c2.shape hy.shape
  refine ⟨c, g, c1, g1, g2, g3, ?_⟩
  intro Y Z hY hZ
  rw [g4 Y Z hY hZ]
  refine sumIdx_congr fun I _ => sumIdx_congr fun J _ => ?_
  have := c3 Y I J
  unfold MPA.elem at this ⊢
  rw [this]

end
end

/-! ### dense form without the single outcomes -/

theorem pruneArr_ok [CommRing R] [StarRing R] {p : MPA R} {O : List ℕ} (hO : ∀ o ∈ O, 0 < o) (hp : p.Valid)
    (hs : p.shape = singles O) :
    ∃ q a, prune p true = .ok q ∧ q.toArray = .ok a ∧ a.shape = nsDims O ∧
      ∀ Y, InB Y O → a.get (squeezeIdx O Y) = p.val (singles Y) := by
  obtain ⟨y, g1, g2, _, _, g3, _, g4⟩ := C21_prune_singletons p hp
  obtain ⟨a, k1, k2, k3⟩ := C01_to_array y g2
  refine ⟨y, a, g1, k1, ?_, ?_⟩
  · rw [k2, g3, pruned_flatten, hs]
    clear hs g3 g4
    induction O with
    | nil => rfl
    | cons o O ih =>
      have ih := ih fun o ho => hO o (by simp [ho])
      have h0 := hO o (by simp)
      unfold nsDims at ih ⊢
      rw [show singles (o :: O) = [o] :: singles O from rfl, List.map_cons, List.flatten_cons, ih, List.filter_cons]
      by_cases h1 : o = 1
      · simp [h1]
      · rw [if_neg (by simpa using h1), if_pos (by simp; omega)]; rfl
  · intro Y hY
    have hok : IdxOK (singles Y) p.shape := by rw [hs]; exact singles_idxOK hY
    have e := g4 (singles Y) hok
    have hin : IdxOK (pruned (dropSingle p.shape (singles Y))) y.shape := by
      rw [g3, hs]
      refine idxOK_pruned ?_
      clear * - hY
      induction hY with
      | nil => exact .nil
      | @cons y o Y O h1 _ ih =>
        unfold dropSingle singles at ih ⊢
        simp only [List.map_cons, List.zipWith_cons_cons]
        refine .cons ?_ ih
        split
        · exact .nil
        · simpa using h1
    rw [← e, ← k3 _ hin, pruned_flatten, hs, dropSingle_flatten hO hY]


/-- The sites where the first list has a single outcome have a single outcome in the second one. -/
def Narrower (O K : List ℕ) : Prop := List.Forall₂ (fun s k => ¬ 1 < s → k = 1) O K

theorem keptDims_narrower : ∀ {O O' : List ℕ}, O.length = O'.length → Narrower O (keptDims O O')
  | [], [], _ => .nil
  | s :: O, o :: O', h => by
    refine .cons ?_ (keptDims_narrower (by simpa using h))
    intro hs
    simp [hs]
  | [], _ :: _, h => by simp at h
  | _ :: _, [], h => by simp at h

theorem squeeze_twice : ∀ (O Y : List ℕ), O.length = Y.length → squeezeIdx (nsDims O) (squeezeIdx O Y) = squeezeIdx O Y
  | [], Y, _ => by cases Y <;> rfl
  | o :: O, y :: Y, h => by
    have ih := squeeze_twice O Y (by simpa using h)
    unfold nsDims at ih ⊢
    by_cases ho : 1 < o
    · simp [squeezeIdx, ho, ih]
    · simp [squeezeIdx, ho, ih]
  | _ :: _, [], h => by simp at h

theorem squeeze_narrow {O K : List ℕ} (h : Narrower O K) : ∀ {Z : List ℕ}, Z.length = K.length →
    squeezeIdx (squeezeIdx O K) (squeezeIdx O Z) = squeezeIdx K Z := by
  induction h with
  | nil => intro Z h; cases Z <;> rfl
  | @cons s k O K h1 _ ih =>
    intro Z hl
    cases Z with
    | nil => simp at hl
    | cons z Z =>
      have ih := ih (Z := Z) (by simpa using hl)
      by_cases hs : 1 < s
      · simp only [squeezeIdx, hs, if_true, ih]
      · simp only [squeezeIdx, hs, if_false, ih, h1 hs, Nat.lt_irrefl]

theorem nsDims_narrow {O K : List ℕ} (h : Narrower O K) : nsDims (squeezeIdx O K) = nsDims K := by
  have := squeeze_narrow h (Z := K) rfl
  rwa [squeezeIdx_self, squeezeIdx_self] at this

theorem squeeze_pairs_shape {O K : List ℕ} (h : Narrower O K) (hO : ∀ o ∈ O, 0 < o) (hK : ∀ o ∈ K, 0 < o) :
    (((pairs O K).map fun s => if s.prod = 1 then [] else s).filter (fun s => decide (s ≠ [])))
      = pairs (nsDims O) (squeezeIdx O K) := by
  induction h with
  | nil => rfl
  | @cons s k O K h1 _ ih =>
    have ih := ih (fun o h => hO o (by simp [h])) (fun o h => hK o (by simp [h]))
    have h0 := hO s (by simp)
    have h0' := hK k (by simp)
    unfold pairs nsDims at ih ⊢
    by_cases hs : 1 < s
    · have : ¬ (s * k = 1) := by
        intro h; have := Nat.eq_one_of_mul_eq_one_right h; omega
      simp only [List.zipWith_cons_cons, List.map_cons, List.prod_cons, List.prod_nil, mul_one, this, if_false, squeezeIdx,
        hs, if_true, decide_true, List.filter_cons]
      simpa using ih
    · obtain rfl : s = 1 := by omega
      obtain rfl := h1 hs
      simpa [squeezeIdx] using ih

theorem squeeze_pairs_idx {O K : List ℕ} (h : Narrower O K) (hO : ∀ o ∈ O, 0 < o) (hK : ∀ o ∈ K, 0 < o) :
    ∀ {Y Z : List ℕ}, InB Y O → InB Z K → ((dropSingle (pairs O K) (pairs Y Z)).filter (fun s => decide (s ≠ [])))
      = pairs (squeezeIdx O Y) (squeezeIdx O Z) := by
  induction h with
  | nil => intro Y Z hY hZ; cases hY; cases hZ; rfl
  | @cons s k O K h1 _ ih =>
    intro Y Z hY hZ
    obtain ⟨y, Y, rfl, hy, hY⟩ := inB_cons_split hY
    obtain ⟨z, Z, rfl, hz, hZ⟩ := inB_cons_split hZ
    have ih := ih (fun o h => hO o (by simp [h])) (fun o h => hK o (by simp [h])) hY hZ
    have h0 := hO s (by simp)
    have h0' := hK k (by simp)
    unfold dropSingle pairs at ih ⊢
    by_cases hs : 1 < s
    · have : ¬ (s * k = 1) := by
        intro h; have := Nat.eq_one_of_mul_eq_one_right h; omega
      simp only [List.zipWith_cons_cons, List.prod_cons, List.prod_nil, mul_one, this, if_false, squeezeIdx,
        hs, if_true]
      simpa using ih
    · obtain rfl : s = 1 := by omega
      obtain rfl := h1 hs
      simpa [squeezeIdx] using ih

theorem squeeze_inB_other {O K : List ℕ} (h : O.length = K.length) : ∀ {Z : List ℕ}, InB Z K →
    InB (squeezeIdx O Z) (squeezeIdx O K) := by
  intro Z hZ
  induction hZ generalizing O with
  | nil => cases O with
    | nil => exact .nil
    | cons => simp at h
  | @cons z k Z K h1 _ ih => cases O with
    | nil => simp at h
    | cons o O =>
      have := ih (O := O) (by simpa using h)
      by_cases ho : 1 < o
      · simp only [squeezeIdx, ho, if_true]; exact .cons h1 this
      · simp only [squeezeIdx, ho, if_false]; exact this

theorem narrower_length {O K : List ℕ} (h : Narrower O K) : O.length = K.length := List.Forall₂.length_eq h

theorem squeeze_length_other {O K : List ℕ} (h : O.length = K.length) : (squeezeIdx O K).length = (nsDims O).length := by
  exact squeezeIdx_length h.symm

theorem pairs_len {I J : List ℕ} (h : I.length = J.length) : (pairs I J).length = I.length := by
  simp [pairs, h]

/-- Dense form of a chain with two legs per site, in global order. -/
theorem pruneGlobal_ok [CommRing R] [StarRing R] {p : MPA R} {O K : List ℕ} (h : Narrower O K) (hO : ∀ o ∈ O, 0 < o)
    (hK : ∀ o ∈ K, 0 < o) (hp : p.Valid) (hs : p.shape = pairs O K) :
    ∃ q a, prune p true = .ok q ∧ q.toArrayGlobal = .ok a ∧ a.shape = nsDims O ++ squeezeIdx O K ∧
      ∀ Y Z, InB Y O → InB Z K → a.get (squeezeIdx O Y ++ squeezeIdx O Z) = p.val (pairs Y Z) := by
  obtain ⟨q, g1, g2, _, _, g3, _, g4⟩ := C21_prune_singletons p hp
  obtain ⟨b, k1, k2, k3⟩ := C01_to_array q g2
  have hlen := narrower_length h
  have hsq := squeeze_length_other hlen
  by_cases hne : nsDims O = []
  · have hsh : q.shape = [[]] := by
      rw [g3, hs]; unfold pruned
      rw [squeeze_pairs_shape h hO hK, hne]
      rfl
    have hsqK : squeezeIdx O K = [] := by
      rw [hne] at hsq; exact List.length_eq_zero_iff.1 hsq
    have hl : q.len = 1 := by
      have := congrArg List.length hsh
      simpa [MPA.shape, MPA.len] using this
    have hbs : b.shape = [] := by rw [k2, hsh]; rfl
    obtain ⟨a, a1, a2, a3⟩ := localToGlobal_ok (a := b) (sites := 1) (plegs := 0) (by omega) (L := []) (P := [])
      (d := fun _ _ => 0) (by rw [hbs]; rfl)
    refine ⟨q, a, g1, ?_, ?_, ?_⟩
    · unfold MPA.toArrayGlobal
      rw [k1, ok_bind, hl]; exact a1
    · rw [a2, hne, hsqK]; rfl
    · intro Y Z hY hZ
      have e1 : squeezeIdx O Y = [] := by
        have := inB_length (squeeze_inB hY)
        rw [show O.filter (1 < ·) = [] from hne] at this
        exact List.length_eq_zero_iff.1 this
      have e2 : squeezeIdx O Z = [] := by
        have := inB_length (squeeze_inB_other hlen hZ)
        rw [hsqK] at this
        exact List.length_eq_zero_iff.1 this
      have := a3 [] (fun _ _ => 0) [] rfl rfl
      rw [e1, e2]
      refine Eq.trans this ?_
      have hok : IdxOK (pairs Y Z) p.shape := by rw [hs]; exact pairs_idxOK hY hZ
      rw [← g4 _ hok, hs]
      unfold pruned
      rw [squeeze_pairs_idx h hO hK hY hZ, e1, e2]
      have := k3 [[]] (by rw [hsh]; exact .cons .nil .nil)
      exact this
  · have hsh : q.shape = pairs (nsDims O) (squeezeIdx O K) := by
      rw [g3, hs]; unfold pruned
      rw [squeeze_pairs_shape h hO hK, if_neg]
      intro h0
      have := congrArg List.length h0
      rw [pairs_len hsq.symm] at this
      exact hne (List.length_eq_zero_iff.1 this)
    have hl : q.len = (nsDims O).length := by
      have := congrArg List.length hsh
      rw [pairs_len hsq.symm] at this
      simpa [MPA.shape, MPA.len] using this
    have hpos : 0 < (nsDims O).length := List.length_pos_iff.2 hne
    obtain ⟨a, a1, a2, a3⟩ := localToGlobal_ok (a := b) (sites := (nsDims O).length) (plegs := 2) hpos (L := []) (P := [])
      (d := fun n k => if k = 0 then (nsDims O).getD n 0 else (squeezeIdx O K).getD n 0) (by
        rw [k2, hsh, bySite_pairs hsq.symm]; simp)
    refine ⟨q, a, g1, ?_, ?_, ?_⟩
    · unfold MPA.toArrayGlobal
      rw [k1, ok_bind, hl]; exact a1
    · rw [a2, byLeg_pairs hsq.symm]; simp
    · intro Y Z hY hZ
      have lY : (squeezeIdx O Y).length = (nsDims O).length := squeezeIdx_length (inB_length hY)
      have lZ : (squeezeIdx O Z).length = (nsDims O).length := squeezeIdx_length ((inB_length hZ).trans hlen.symm)
      have := a3 [] (fun n k => if k = 0 then (squeezeIdx O Y).getD n 0 else (squeezeIdx O Z).getD n 0) [] rfl rfl
      rw [← lY, bySite_pairs (by omega), byLeg_pairs (by omega)] at this
      have hok : IdxOK (pairs Y Z) p.shape := by rw [hs]; exact pairs_idxOK hY hZ
      have e := g4 _ hok
      rw [hs] at e
      have e3 : pruned (dropSingle (pairs O K) (pairs Y Z)) = pairs (squeezeIdx O Y) (squeezeIdx O Z) := by
        unfold pruned
        rw [squeeze_pairs_idx h hO hK hY hZ, if_neg]
        intro h0
        have := congrArg List.length h0
        rw [pairs_len (by omega)] at this
        simp only [List.length_nil] at this
        omega
      rw [e3] at e
      rw [← e, ← k3 _ (by rw [hsh]; exact pairs_idxOK (squeeze_inB hY) (squeeze_inB_other hlen hZ))]
      simpa using this

theorem innerAbsSq_ok {p : MPA ℂ} {O K : List ℕ} (h : Narrower O K) (hO : ∀ o ∈ O, 0 < o)
    (hK : ∀ o ∈ K, 0 < o) (hp : p.Valid) (hs : p.shape = pairs O K) :
    ∃ a, innerAbsSq p = .ok a ∧ a.shape = nsDims O ++ nsDims K ∧
      ∀ Y Z, InB Y O → InB Z K → a.get (squeezeIdx O Y ++ squeezeIdx K Z) = ‖p.val (pairs Y Z)‖ ^ 2 := by
  obtain ⟨q, a, g1, g2, g3, g4⟩ := pruneGlobal_ok h hO hK hp hs
  have hlen := narrower_length h
  have hfil : a.shape.filter (1 < ·) = nsDims O ++ nsDims K := by
    rw [g3, List.filter_append]
    congr 1
    · unfold nsDims; rw [List.filter_filter]; simp
    · exact nsDims_narrow h
  have hpos : ∀ d ∈ squeezeIdx O K, 0 < d := by
    have := pos_of_inB (squeeze_inB_other hlen (Z := K.map fun _ => 0) (by
      clear * - hK
      induction K with
      | nil => exact .nil
      | cons k K ih => exact .cons (hK k (by simp)) (ih fun o h => hK o (by simp [h]))))
    exact this
  have hpos' : ∀ d ∈ a.shape, 0 < d := by
    intro d hd
    rw [g3, List.mem_append] at hd
    rcases hd with hd | hd
    · exact hO d (List.mem_filter.1 hd).1
    · exact hpos d hd
  refine ⟨(⟨a.shape, fun i => ‖a.get i‖ ^ 2⟩ : NDArray ℝ).reshapeTo (nsDims O ++ nsDims K), ?_, rfl, ?_⟩
  · unfold innerAbsSq
    rw [g1, ok_bind, g2, ok_bind]
    simp only [hfil]
    refine NDArray.reshape_nat ?_
    show _ = a.shape.prod
    rw [← hfil]
    exact filter_prod hpos'
  · intro Y Z hY hZ
    have hi : InB (squeezeIdx O Y ++ squeezeIdx O Z) a.shape := by
      rw [g3]; exact inB_append (squeeze_inB hY) (squeeze_inB_other hlen hZ)
    have e : squeezeIdx a.shape (squeezeIdx O Y ++ squeezeIdx O Z) = squeezeIdx O Y ++ squeezeIdx K Z := by
      rw [g3, squeezeIdx_append (D := nsDims O) _ _ (squeezeIdx_length (inB_length hY)), squeeze_twice O Y (inB_length hY).symm,
        squeeze_narrow h (inB_length hZ)]
    rw [NDArray.reshapeTo_get, ← e, ← hfil, squeeze_ravel hi]
    show ‖a.get _‖ ^ 2 = _
    rw [unravel_ravel hi, g4 Y Z hY hZ]

theorem prunedReal_ok {p : MPA ℂ} {O : List ℕ} (hO : ∀ o ∈ O, 0 < o) (hp : p.Valid) (hs : p.shape = singles O) :
    ∃ a, prunedReal p = .ok a ∧ a.shape = nsDims O ∧
      ∀ Y, InB Y O → a.get (squeezeIdx O Y) = (p.val (singles Y)).re := by
  obtain ⟨q, a, g1, g2, g3, g4⟩ := pruneArr_ok hO hp hs
  refine ⟨⟨a.shape, fun i => (a.get i).re⟩, ?_, g3, ?_⟩
  · unfold prunedReal
    rw [g1, ok_bind, g2, ok_bind]; rfl
  · intro Y hY
    show (a.get _).re = _
    rw [g4 Y hY]

end Mpnum
