import Verif.Props.C14
import Mathlib.Data.List.GetD

/-!
# C14, continued: ranks, and applying the same operation twice
-/

open Finset

namespace Mpnum

variable {R : Type} [CommRing R] [StarRing R]

theorem transpose_lb {x : MPA R} (hx : x.Valid) {f : NDArray R → Py (NDArray R)} {π : NDArray R → List ℕ}
    (hπ : ∀ t ∈ x.lt, (π t).Perm (List.range t.ph.length))
    (hf : ∀ t ∈ x.lt, f t = localTranspose t (some ((π t).map fun k : ℕ => (k : ℤ))))
    {us : List (NDArray R)} (h : x.lt.mapM f = .ok us) : us.map NDArray.lb = x.lt.map NDArray.lb := by
  have hloc := hx.chain.isLocal
  have h2 := mapM_ok_iff.1 h
  clear h
  revert hπ hf hloc h2
  generalize x.lt = ts
  intro hπ hf hloc h2
  induction h2 with
  | nil => rfl
  | @cons t u ts us h1 _ ih =>
    rw [List.map_cons, List.map_cons, ih (fun a ha => hπ a (by simp [ha])) (fun a ha => hf a (by simp [ha]))
      (fun a ha => hloc a (by simp [ha]))]
    obtain ⟨v, a, b, _⟩ := localTranspose_perm (hπ t (by simp)) (hloc t (by simp)) rfl
    rw [← hf t (by simp), h1] at a
    injection a with a
    rw [a, NDArray.lb_of_shape b]

theorem transposeNone_lb {x : MPA R} (hx : x.Valid) {us : List (NDArray R)}
    (h : (x.lt.mapM fun t => localTranspose t none) = .ok us) : us.map NDArray.lb = x.lt.map NDArray.lb :=
  transpose_lb hx (π := fun t => (List.range t.ph.length).reverse)
    (fun _ _ => reverse_perm_range _) (fun t ht => localTranspose_none t (hx.chain.isLocal t ht)) h

/-- C14: transposition, conjugation and the adjoint keep the bond dimensions (`reverse` reverses them:
`C14_reverse`). -/
theorem C14_ranks (x y : MPA R) (hx : x.Valid) :
    (x.T = .ok y → y.ranks = x.ranks) ∧ (x.conj = .ok y → y.ranks = x.ranks) ∧
    (x.adj = .ok y → y.ranks = x.ranks) ∧
    (∀ (n : ℕ) (axes : List ℕ), (∀ s ∈ x.shape, s.length = n) → axes.Perm (List.range n) →
      x.transpose (some (axes.map fun k : ℕ => (k : ℤ))) = .ok y → y.ranks = x.ranks) := by
  refine ⟨fun h => ?_, fun h => ?_, fun h => ?_, fun n axes hn ha h => ?_⟩
  · obtain ⟨us, h1, h2, h3, _⟩ := transposeNone_core hx
    unfold MPA.T at h
    rw [h1, ok_bind, (keep_form hx h2 h3).1] at h
    injection h with h
    subst h
    simp only [MPA.ranks, List.map_tail, transposeNone_lb hx h1]
  · have hg := (keep_form hx (us := x.lt.map NDArray.conj)
      (chained_map_same (f := NDArray.conj) (fun t => rfl) hx.chain) (by simp [MPA.len])).1
    unfold MPA.conj at h
    rw [hg] at h
    injection h with h
    subst h
    simp only [MPA.ranks, List.map_tail, List.map_map]; rfl
  · obtain ⟨us, h1, h2, h3, _⟩ := transposeNone_core hx
    have hne : us.map NDArray.conj ≠ [] := by
      intro h
      have h0 := congrArg List.length h
      rw [List.length_map, h3] at h0
      exact hx.ne (List.length_eq_zero_iff.1 h0)
    have hc : Chained 1 (us.map NDArray.conj) 1 := chained_map_same (f := NDArray.conj) (fun t => rfl) h2
    unfold MPA.adj at h
    rw [h1, ok_bind, mkMPA_ok hne hc] at h
    injection h with h
    subst h
    simp only [MPA.ranks, List.map_tail, List.map_map]
    rw [← transposeNone_lb hx h1]; rfl
  · have hn' : ∀ t ∈ x.lt, t.ph.length = n := fun t ht => hn _ (List.mem_map.2 ⟨t, ht, rfl⟩)
    have hπ : ∀ t ∈ x.lt, axes.Perm (List.range t.ph.length) := fun t ht => by rw [hn' t ht]; exact ha
    obtain ⟨us, h1, h2, h3, _⟩ := transpose_core hx
      (f := fun t => localTranspose t (some (axes.map fun k : ℕ => (k : ℤ)))) (π := fun _ => axes)
      hπ (fun t _ => rfl)
    unfold MPA.transpose at h
    rw [h1, ok_bind, (keep_form hx h2 h3).1] at h
    injection h with h
    subst h
    simp only [MPA.ranks, List.map_tail]
    rw [transpose_lb hx (π := fun _ => axes) hπ (fun t _ => rfl) h1]

/-- `y` has the same shape, bond dimensions and entries as `x`. -/
def SameTensor (x y : MPA R) : Prop :=
  y.shape = x.shape ∧ y.ranks = x.ranks ∧ ∀ idx, IdxOK idx x.shape → y.val idx = x.val idx

omit [CommRing R] [StarRing R] in
theorem idxOK_map {g : List ℕ → List ℕ} (hg : ∀ p s, InB p s → InB (g p) (g s)) {idx sh : List (List ℕ)}
    (h : IdxOK idx sh) : IdxOK (idx.map g) (sh.map g) := by
  induction idx generalizing sh with
  | nil => cases sh with
    | nil => simp
    | cons s sh => simp [IdxOK] at h
  | cons i is ih => cases sh with
    | nil => simp [IdxOK] at h
    | cons s sh =>
      simp only [List.map_cons, idxOK_cons] at h ⊢
      exact ⟨hg _ _ h.1, ih h.2⟩

theorem map_reverse_reverse (l : List (List ℕ)) : (l.map List.reverse).map List.reverse = l := by
  simp [List.map_map, Function.comp_def]

/-- C14: transposing twice, conjugating twice, taking the adjoint twice or reversing the chain twice gives
back the tensor; the first two also keep the canonical form. -/
theorem C14_twice (x : MPA R) (hx : x.Valid) :
    (∃ y z, x.T = .ok y ∧ y.T = .ok z ∧ SameTensor x z ∧ z.l = x.l ∧ z.r = x.r) ∧
    (∃ y z, x.conj = .ok y ∧ y.conj = .ok z ∧ SameTensor x z ∧ z.l = x.l ∧ z.r = x.r) ∧
    (∃ y z, x.adj = .ok y ∧ y.adj = .ok z ∧ SameTensor x z) ∧
    (∃ y z, x.reverse = .ok y ∧ y.reverse = .ok z ∧ SameTensor x z) := by
  have hrev : ∀ p s : List ℕ, InB p s → InB p.reverse s.reverse := fun p s h => by
    simpa [InB] using h
  refine ⟨?_, ?_, ?_, ?_⟩
  · obtain ⟨y, a1, a2, a3, a4, a5, a6, _⟩ := C14_T x hx
    obtain ⟨z, b1, b2, b3, b4, b5, b6, _⟩ := C14_T y a2
    refine ⟨y, z, a1, b1, ⟨by rw [b3, a3, map_reverse_reverse], ?_, fun idx hi => ?_⟩, by rw [b4, a4], by rw [b5, a5]⟩
    · rw [(C14_ranks y z a2).1 b1, (C14_ranks x y hx).1 a1]
    · have := b6 (idx.map List.reverse) (by rw [a3]; exact idxOK_map hrev hi)
      rw [map_reverse_reverse, a6 idx hi] at this
      exact this
  · obtain ⟨y, a1, a2, a3, a4, a5, a6, _⟩ := C14_conj x hx
    obtain ⟨z, b1, b2, b3, b4, b5, b6, _⟩ := C14_conj y a2
    refine ⟨y, z, a1, b1, ⟨by rw [b3, a3], ?_, fun idx hi => by rw [b6, a6, star_star]⟩, by rw [b4, a4], by rw [b5, a5]⟩
    rw [(C14_ranks y z a2).2.1 b1, (C14_ranks x y hx).2.1 a1]
  · obtain ⟨y, a1, a2, a3, _, a6⟩ := C14_adj x hx
    obtain ⟨z, b1, b2, b3, _, b6⟩ := C14_adj y a2
    refine ⟨y, z, a1, b1, by rw [b3, a3, map_reverse_reverse], ?_, fun idx hi => ?_⟩
    · rw [(C14_ranks y z a2).2.2.1 b1, (C14_ranks x y hx).2.2.1 a1]
    · have := b6 (idx.map List.reverse) (by rw [a3]; exact idxOK_map hrev hi)
      rw [map_reverse_reverse, a6 idx hi, star_star] at this
      exact this
  · obtain ⟨y, a1, a2, a3, _, a5, a6⟩ := C14_reverse x hx
    obtain ⟨z, b1, b2, b3, _, b5, b6⟩ := C14_reverse y a2
    refine ⟨y, z, a1, b1, by rw [b3, a3, List.reverse_reverse], by rw [b5, a5, List.reverse_reverse], fun idx hi => ?_⟩
    have hi' : IdxOK idx.reverse y.shape := by
      rw [a3]; exact List.rel_reverse hi
    have := b6 idx.reverse hi'
    rw [List.reverse_reverse, a6 idx hi] at this
    exact this

/-- C14: transposing with `axes` and then with the inverse permutation gives back the tensor and the
canonical form. -/
theorem C14_transpose_inverse (x : MPA R) (hx : x.Valid) (n : ℕ) (hn : ∀ s ∈ x.shape, s.length = n)
    (axes inv : List ℕ) (ha : axes.Perm (List.range n)) (hb : inv.Perm (List.range n))
    (hinv : ∀ k < n, axes.getD (inv.getD k 0) 0 = k) :
    ∃ y z, x.transpose (some (axes.map fun k : ℕ => (k : ℤ))) = .ok y ∧
      y.transpose (some (inv.map fun k : ℕ => (k : ℤ))) = .ok z ∧ SameTensor x z ∧ z.l = x.l ∧ z.r = x.r := by
  have hal : axes.length = n := by simpa using ha.length_eq
  have hbl : inv.length = n := by simpa using hb.length_eq
  have key : ∀ p : List ℕ, p.length = n →
      (inv.map fun k => (axes.map fun k => p.getD k 0).getD k 0) = p := by
    intro p hp
    apply List.ext_getElem
    · simp [hbl, hp]
    · intro i h1 h2
      have hi : i < n := by omega
      have hk : inv[i]'(by omega) < n := by
        have := hb.subset (List.getElem_mem (l := inv) (by omega : i < inv.length))
        simpa using this
      have h3 := hinv i hi
      rw [List.getD_eq_getElem inv _ (by omega), List.getD_eq_getElem axes _ (by omega)] at h3
      rw [List.getElem_map, List.getD_eq_getElem _ _ (by simp; omega), List.getElem_map, h3,
        List.getD_eq_getElem _ _ h2]
  have keys : ∀ l : List (List ℕ), (∀ p ∈ l, p.length = n) →
      (l.map fun p => axes.map fun k => p.getD k 0).map (fun p => inv.map fun k => p.getD k 0) = l := by
    intro l hl
    rw [List.map_map]
    conv_rhs => rw [← List.map_id l]
    exact List.map_congr_left fun p hp => key p (hl p hp)
  obtain ⟨y, a1, a2, a3, a4, a5, a6, _⟩ := C14_transpose x hx n hn axes ha
  have hny : ∀ s ∈ y.shape, s.length = n := by
    intro s hs
    rw [a3] at hs
    obtain ⟨s', _, rfl⟩ := List.mem_map.1 hs
    simp [hal]
  obtain ⟨z, b1, b2, b3, b4, b5, b6, _⟩ := C14_transpose y a2 n hny inv hb
  refine ⟨y, z, a1, b1, ⟨by rw [b3, a3, keys _ hn], ?_, fun idx hi => ?_⟩, by rw [b4, a4], by rw [b5, a5]⟩
  · rw [(C14_ranks y z a2).2.2.2 n inv hny hb b1, (C14_ranks x y hx).2.2.2 n axes hn ha a1]
  · have hidx : ∀ p ∈ idx, p.length = n := by
      intro p hp
      obtain ⟨s, hs, h⟩ : ∃ s ∈ x.shape, InB p s := by
        revert hp hi
        generalize x.shape = sh
        intro hi hp
        clear a6 b6
        induction hi with
        | nil => simp at hp
        | cons h1 _ ih =>
          rcases List.mem_cons.1 hp with rfl | hp
          · exact ⟨_, by simp, h1⟩
          · obtain ⟨s, hs, h⟩ := ih hp
            exact ⟨s, by simp [hs], h⟩
      rw [inB_length h]; exact hn s hs
    have hok : IdxOK (idx.map fun p => axes.map fun k => p.getD k 0) y.shape := by
      rw [a3]
      have hi2 := hi
      revert hi2 hn
      generalize x.shape = sh
      intro hn hi2
      clear a6 b6 hi
      induction hi2 with
      | nil => simp
      | @cons i s is sh h1 _ ih =>
        simp only [List.map_cons, idxOK_cons]
        exact ⟨permIdx_inB ha (hn s (by simp)) h1,
          ih (fun p hp => hidx p (by simp [hp])) fun s hs => hn s (by simp [hs])⟩
    have := b6 _ hok
    rw [keys idx hidx, a6 idx hi] at this
    exact this

/-- Non-vacuity of `C14_transpose_inverse`: a permutation of three legs which is not its own inverse, and a
two-site array with three legs per site. -/
example : [1, 2, 0].Perm (List.range 3) ∧ [2, 0, 1].Perm (List.range 3) ∧
    (∀ k < 3, [1, 2, 0].getD ([2, 0, 1].getD k 0) 0 = k) ∧ [1, 2, 0].getD ([1, 2, 0].getD 0 0) 0 ≠ 0 := by
  decide

end Mpnum
