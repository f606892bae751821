import Verif.Povm.ElemSum
import Verif.Props.C45

/-! # The samples used by `est_pmf_from` -/

open Finset Classical

namespace Mpnum

variable {R : Type}

/-- Specification: the outcome `W` of a POVM with the entries set to zero on the sites where `O` has a single
outcome: these entries do not matter there. -/
def keepOut (O W : List ℕ) : List ℕ := List.zipWith (fun s w => if 1 < s then w else 0) O W

theorem keepOut_inB : ∀ {O O' W : List ℕ}, O.length = O'.length → InB W O' → InB (keepOut O W) (keptDims O O')
  | [], [], W, _, h => by
    obtain rfl : W = [] := by simpa using h
    exact .nil
  | s :: O, o :: O', W, hl, h => by
    obtain ⟨w, W, rfl, h1, h2⟩ := inB_cons_split h
    have := keepOut_inB (by simpa using hl) h2
    simp only [keepOut, keptDims, List.zipWith_cons_cons, inB_cons] at this ⊢
    exact ⟨by split <;> omega, this⟩

theorem squeeze_keepOut : ∀ {O W : List ℕ}, O.length = W.length → squeezeIdx O (keepOut O W) = squeezeIdx O W
  | [], [], _ => rfl
  | s :: O, w :: W, h => by
    have := squeeze_keepOut (O := O) (W := W) (by simpa using h)
    simp only [keepOut, List.zipWith_cons_cons, squeezeIdx] at this ⊢
    split <;> rename_i h1 <;> simp [this]

/-- Two outcomes agree on the sites that are kept. -/
theorem keepOut_iff : ∀ {O O' W Z : List ℕ}, O.length = O'.length → InB W O' → InB Z (keptDims O O') →
    (squeezeIdx O W = squeezeIdx O Z ↔ keepOut O W = Z)
  | [], [], W, Z, _, h, h' => by
    obtain rfl : W = [] := by simpa using h
    obtain rfl : Z = [] := by simpa [keptDims] using h'
    simp [keepOut]
  | s :: O, o :: O', W, Z, hl, h, h' => by
    obtain ⟨w, W, rfl, h1, h2⟩ := inB_cons_split h
    obtain ⟨z, Z, rfl, h3, h4⟩ := inB_cons_split h'
    have := keepOut_iff (O := O) (O' := O') (by simpa using hl) h2 h4
    simp only [keepOut, List.zipWith_cons_cons, squeezeIdx, List.cons.injEq] at this ⊢
    by_cases hs : 1 < s
    · simp only [hs, if_true, List.cons.injEq, this]
    · simp only [hs, if_false, this] at h3 ⊢
      constructor
      · exact fun h => ⟨by omega, h⟩
      · exact fun h => h.2

/-- Specification: row `k` of `s` holds the outcome `W k`, without the sites which have a single outcome. -/
structure SamplesAre (O : List ℕ) (n : ℕ) (s : NDArray ℤ) (W : ℕ → List ℕ) : Prop where
  shape : s.shape = [n, (nsDims O).length]
  inB : ∀ k, k < n → InB (W k) O
  row : ∀ k, k < n → ∀ j, s.get [k, j] = (((squeezeIdx O (W k)).getD j 0 : ℕ) : ℤ) ∨ (nsDims O).length ≤ j

theorem samplesAre_of {O : List ℕ} (hO : ∀ o ∈ O, 0 < o) {n : ℕ} {s : NDArray ℤ} (h : IsSamples (nsDims O) n s) :
    ∃ W, SamplesAre O n s W := by
  have key : ∀ k, ∃ W, k < n → InB W O ∧ squeezeIdx O W = (sampleRow s k).map Int.toNat := by
    intro k
    by_cases hk : k < n
    · obtain ⟨W, h1, h2⟩ := exists_squeeze hO (sampleRow_inB h hk)
      exact ⟨W, fun _ => ⟨h1, h2⟩⟩
    · exact ⟨[], fun h => absurd h hk⟩
  choose W hW using key
  refine ⟨W, h.1, fun k hk => (hW k hk).1, fun k hk j => ?_⟩
  by_cases hj : (nsDims O).length ≤ j
  · exact Or.inr hj
  · left
    rw [(hW k hk).2]
    have hj' : j < (nsDims O).length := by omega
    have hl : (sampleRow s k).length = (nsDims O).length := by
      simp [sampleRow, h.1]
    rw [List.getD_eq_getElem _ _ (by simpa [hl] using hj'), List.getElem_map]
    simp only [sampleRow, List.getElem_map, List.getElem_range]
    have := h.2 k hk j hj'
    omega

theorem zipIdx_pick {α : Type} (L : List (ℕ × ℕ)) (v : List α) (g : ℕ → α) (k : ℕ) (hl : L.length = v.length)
    (h : ∀ (i : ℕ) (hi : i < v.length), g (k + i) = v[i]) :
    ((L.zipIdx k).filter fun q => 1 < q.1.1).map (fun q => g q.2)
      = ((L.zip v).filter fun q => 1 < q.1.1).map Prod.snd := by
  induction L generalizing v k with
  | nil => simp
  | cons p L ih =>
    cases v with
    | nil => simp at hl
    | cons a v =>
      have h0 : g k = a := h 0 (by simp)
      have := ih v (k + 1) (by simpa using hl) fun i hi => by
        have := h (i + 1) (by simpa using hi)
        rw [show k + 1 + i = k + (i + 1) by omega, this]; simp
      rw [List.zipIdx_cons, List.zip_cons_cons, List.filter_cons, List.filter_cons]
      simp only
      split <;> simp [this, h0]

theorem pick_squeeze : ∀ {O O' W : List ℕ}, O.length = O'.length → O'.length = W.length →
    ((((O.zip O').filter fun q => 1 < q.2).zip (squeezeIdx O' W)).filter fun q => 1 < q.1.1).map Prod.snd
      = squeezeIdx (keptDims O O') (keepOut O W)
  | [], [], [], _, _ => rfl
  | s :: O, o :: O', w :: W, h1, h2 => by
    have ih := pick_squeeze (O := O) (O' := O') (W := W) (by simpa using h1) (by simpa using h2)
    simp only [keptDims, keepOut, List.zip_cons_cons, List.filter_cons, squeezeIdx, List.zipWith_cons_cons] at ih ⊢
    by_cases ho : 1 < o <;> by_cases hs : 1 < s <;> simp [ho, hs, ih]

theorem filter_zip_length (O O' W : List ℕ) (h : O.length = O'.length) (h2 : O'.length = W.length) :
    ((O.zip O').filter fun q => 1 < q.2).length = (squeezeIdx O' W).length := by
  induction O' generalizing O W with
  | nil => cases O <;> simp_all [squeezeIdx]
  | cons o O' ih =>
    cases O with
    | nil => simp at h
    | cons s O =>
      cases W with
      | nil => simp at h2
      | cons w W =>
        have := ih O W (by simpa using h) (by simpa using h2)
        simp only [List.zip_cons_cons, List.filter_cons, squeezeIdx]
        by_cases ho : 1 < o <;> simp [ho, this]

theorem otherSupport_pick {O O' W : List ℕ} (h1 : O.length = O'.length) (h2 : O'.length = W.length) {α : Type}
    (c : ℕ → α) (g : ℕ → α) (hg : ∀ (i : ℕ) (hi : i < (squeezeIdx O' W).length), g i = c (squeezeIdx O' W)[i]) :
    (otherSupport O O').map g = (squeezeIdx (keptDims O O') (keepOut O W)).map c := by
  rw [← pick_squeeze h1 h2]
  unfold otherSupport
  rw [List.map_map]
  have := zipIdx_pick ((O.zip O').filter fun q => 1 < q.2) ((squeezeIdx O' W).map c) g 0
    (by rw [filter_zip_length O O' W h1 h2]; simp) (fun i hi => by
      rw [List.length_map] at hi
      rw [Nat.zero_add, hg i hi, List.getElem_map])
  simp only [Function.comp_def]
  rw [this, List.zip_map_right, List.filter_map, List.map_map, List.map_map]
  rfl

theorem otherOut_eq {O O' : List ℕ} (h : O.length = O'.length) :
    ((otherSupport O O').map fun p => (nsDims O').getD p 0).filter (1 < ·) = nsDims (keptDims O O') := by
  have := otherSupport_pick h (W := O') rfl id (fun p => (nsDims O').getD p 0) (by
    intro i hi
    rw [squeezeIdx_self] at hi
    rw [List.getD_eq_getElem (nsDims O') _ hi]
    simp [squeezeIdx_self, nsDims])
  rw [this, List.map_id]
  clear this
  induction O generalizing O' with
  | nil => cases O' <;> simp_all [keptDims, keepOut, squeezeIdx, nsDims]
  | cons s O ih =>
    cases O' with
    | nil => simp at h
    | cons o O' =>
      have := ih (by simpa using h)
      simp only [keptDims, keepOut, List.zipWith_cons_cons, squeezeIdx, nsDims, List.filter_cons] at this ⊢
      by_cases hs : 1 < s <;> by_cases ho : 1 < o <;> simp [hs, ho, this]

theorem otherSupport_row {O O' : List ℕ} (h : O.length = O'.length) {n : ℕ} {s : NDArray ℤ} {W : ℕ → List ℕ}
    (hs : SamplesAre O' n s W) {k : ℕ} (hk : k < n) :
    ((otherSupport O O').map fun p => s.get [k, p])
      = (squeezeIdx (keptDims O O') (keepOut O (W k))).map fun z : ℕ => (z : ℤ) := by
  have hin := squeeze_inB (hs.inB k hk)
  refine otherSupport_pick h (inB_length (hs.inB k hk)).symm _ _ fun i hi => ?_
  rcases hs.row k hk i with h1 | h1
  · rw [h1, List.getD_eq_getElem _ _ hi]
  · have := inB_length hin
    simp only [nsDims] at h1
    omega

theorem otherSupport_nil {O O' : List ℕ} (h : O.length = O'.length) :
    otherSupport O O' = [] ↔ nsDims (keptDims O O') = [] := by
  have := otherSupport_pick h (W := O') rfl id (fun p => (nsDims O').getD p 0) (by
    intro i hi
    rw [squeezeIdx_self] at hi
    rw [List.getD_eq_getElem (nsDims O') _ hi]
    simp [squeezeIdx_self, nsDims])
  have hl := congrArg List.length this
  rw [List.length_map, List.map_id] at hl
  have hl2 : (squeezeIdx (keptDims O O') (keepOut O O')).length = (nsDims (keptDims O O')).length := by
    clear this hl
    induction O generalizing O' with
    | nil => cases O' <;> simp_all [keptDims, keepOut, squeezeIdx, nsDims]
    | cons s O ih =>
      cases O' with
      | nil => simp at h
      | cons o O' =>
        have := ih (by simpa using h)
        simp only [keptDims, keepOut, List.zipWith_cons_cons, squeezeIdx, nsDims, List.filter_cons] at this ⊢
        by_cases hs : 1 < s <;> by_cases ho : 1 < o <;> simp [hs, ho, this]
  rw [← List.length_eq_zero_iff, ← List.length_eq_zero_iff, hl, hl2]

theorem wrapIdx_row {d j : List ℕ} (h : InB j d) : List.zipWith wrapIdx d (j.map fun z : ℕ => (z : ℤ)) = j := by
  induction h with
  | nil => rfl
  | cons h1 _ ih =>
    simp only [List.map_cons, List.zipWith_cons_cons, ih]
    congr 1

/-- A sum over the list of all matching pairs. -/
theorem argwhere_sum (m : NDArray Bool) (a b : List ℕ) (hm : m.shape = a ++ b) {i : List ℕ} (hi : InB i a)
    (F : List ℕ → ℝ) :
    ((argwhere m).map fun o => if o.take a.length = i then F o else 0).sum
      = sumIdx b fun j => if m.get (i ++ j) = true then F (i ++ j) else 0 := by
  have hf : ∀ (l : List (List ℕ)) (G : List ℕ → ℝ), ((l.filter fun i => m.get i).map G).sum
      = (l.map fun o => if m.get o = true then G o else 0).sum := by
    intro l G
    induction l with
    | nil => rfl
    | cons o l ih =>
      rw [List.filter_cons]
      by_cases h : m.get o = true <;> simp [h, ih]
  have h1 : ((argwhere m).map fun o => if o.take a.length = i then F o else 0).sum
      = sumIdx (a ++ b) fun o => if m.get o = true then (if o.take a.length = i then F o else 0) else 0 := by
    rw [← sum_unravel, ← hm]
    unfold argwhere
    rw [hf, List.map_map]
    rfl
  rw [h1, sumIdx_append]
  rw [← sumIdx_delta hi fun i' => sumIdx b fun j => if m.get (i' ++ j) = true then F (i' ++ j) else 0]
  refine sumIdx_congr fun i' hi' => ?_
  have hl : i'.length = a.length := inB_length hi'
  by_cases he : i = i'
  · subst he
    rw [if_pos rfl]
    refine sumIdx_congr fun j _ => ?_
    rw [← hl, List.take_left', if_pos rfl]
    rfl
  · rw [if_neg he]
    have : ∀ j, (if m.get (i' ++ j) = true then (if (i' ++ j).take a.length = i then F (i' ++ j) else 0) else 0)
        = (0 : ℝ) := by
      intro j
      rw [← hl, List.take_left' rfl, if_neg (Ne.symm he)]
      simp
    simp only [this]
    rw [sumIdx_eq_sum]; simp

end Mpnum
