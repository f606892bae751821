import Verif.Np.Lemmas

/-! Lemmas about transposition, `rollaxis` and `tensordot` in the numpy model. -/

open Finset

namespace Mpnum

variable {R : Type}

theorem idxOf_range {n p : ℕ} (h : p < n) : (List.range n).idxOf p = p := by
  have := List.Nodup.idxOf_getElem (List.nodup_range (n := n)) p (by simpa using h)
  simpa using this

theorem getD_map_getD {l : List ℕ} {perm : List ℕ} {m : ℕ} (h : m < perm.length) :
    (perm.map fun p => l.getD p 0).getD m 0 = l.getD (perm.getD m 0) 0 := by
  simp [List.getD_eq_getElem?_getD, h]

theorem map_getD_range (l : List ℕ) : ((List.range l.length).map fun p => l.getD p 0) = l := by
  apply List.ext_getElem
  · simp
  · intro i h1 h2; simp at h1; simp [h2]

theorem map_getD_range' {l : List ℕ} {n : ℕ} (h : l.length = n) :
    ((List.range n).map fun p => l.getD p 0) = l := by subst h; exact map_getD_range l

theorem getD_append_lt {l m : List ℕ} {n : ℕ} (h : n < l.length) : (l ++ m).getD n 0 = l.getD n 0 := by
  simp [List.getD_eq_getElem?_getD, List.getElem?_append_left h]

theorem getD_append_ge (l m : List ℕ) (n : ℕ) : (l ++ m).getD (l.length + n) 0 = m.getD n 0 := by
  rw [List.getD_eq_getElem?_getD, List.getElem?_append_right (by omega)]
  simp

theorem getD_append_len {l m : List ℕ} {n k : ℕ} (h : k = l.length + n) :
    (l ++ m).getD k 0 = m.getD n 0 := by
  subst h; exact getD_append_ge l m n

theorem ext_getD {l m : List ℕ} (h : l.length = m.length)
    (h2 : ∀ p < l.length, l.getD p 0 = m.getD p 0) : l = m := by
  apply List.ext_getElem h
  intro p h3 h4
  have := h2 p h3
  simpa [List.getD_eq_getElem?_getD, List.getElem?_eq_getElem h3, List.getElem?_eq_getElem h4]
    using this

namespace NDArray

/-! ### transpose -/

theorem transposeTo_shape (a : NDArray R) (perm : List ℕ) :
    (a.transposeTo perm).shape = perm.map fun p => a.shape.getD p 0 := rfl

/-- Characterisation of the transposed array: the entry at the permuted index is the old entry. -/
theorem transposeTo_get_perm {a : NDArray R} {perm j : List ℕ}
    (hperm : perm.Perm (List.range a.ndim)) (hj : j.length = a.ndim) :
    (a.transposeTo perm).get (perm.map fun p => j.getD p 0) = a.get j := by
  show a.get _ = _
  congr 1
  conv_rhs => rw [← map_getD_range' hj]
  apply List.map_congr_left
  intro p hp
  have hp' : p ∈ perm := hperm.mem_iff.2 hp
  have hlt : perm.idxOf p < perm.length := List.idxOf_lt_length_iff.2 hp'
  rw [getD_map_getD hlt]
  congr 1
  rw [List.getD_eq_getElem?_getD, List.getElem?_eq_getElem hlt]
  simp

theorem mapM_pyIndex_nat {n : ℕ} {ax : List ℕ} (h : ∀ a ∈ ax, a < n) :
    (ax.map (fun k : ℕ => (k : ℤ))).mapM (pyIndex n) = .ok ax := by
  rw [mapM_ok_iff]
  induction ax with
  | nil => simp
  | cons a ax ih =>
    simp only [List.map_cons, List.forall₂_cons]
    exact ⟨pyIndex_nat (h a (by simp)), ih fun b hb => h b (by simp [hb])⟩

theorem transpose_ok {a : NDArray R} {perm : List ℕ} (hperm : perm.Perm (List.range a.ndim)) :
    a.transpose (perm.map (fun k : ℕ => (k : ℤ))) = .ok (a.transposeTo perm) := by
  unfold transpose
  have h1 : (perm.map (fun k : ℕ => (k : ℤ))).mapM
      (fun ax => (pyIndex a.ndim ax).mapError fun _ => PyErr.value) = .ok perm := by
    rw [mapM_ok_iff]
    have hmem : ∀ p ∈ perm, p < a.ndim := fun p hp => by simpa using hperm.mem_iff.1 hp
    clear hperm
    induction perm with
    | nil => simp
    | cons p perm ih =>
      simp only [List.map_cons, List.forall₂_cons]
      refine ⟨?_, ih fun b hb => hmem b (by simp [hb])⟩
      rw [pyIndex_nat (hmem p (by simp))]; rfl
  rw [h1]
  have h2 : perm.length = a.ndim := by simpa using hperm.length_eq
  have h3 : perm.Nodup := hperm.nodup_iff.2 List.nodup_range
  show (if _ then _ else _) = _
  rw [if_pos ⟨h2, h3⟩]

/-! ### rollaxis -/

theorem erase_range (n a : ℕ) (h : a < n) :
    (List.range n).erase a = List.range a ++ (List.range (n - a - 1)).map (· + (a + 1)) := by
  have h1 : List.range n = List.range a ++ a :: (List.range (n - a - 1)).map (· + (a + 1)) := by
    have : n = a + (n - a - 1 + 1) := by omega
    conv_lhs => rw [this, List.range_add, List.range_succ_eq_map]
    simp only [List.map_cons, List.map_map, Nat.add_zero]
    congr 2
    apply List.map_congr_left
    intro x _; simp; omega
  rw [h1, List.erase_append_right _ (by simp), List.erase_cons_head]

theorem map_getD_erase_range {j : List ℕ} {a : ℕ} (h : a < j.length) :
    (((List.range j.length).erase a).map fun p => j.getD p 0) = j.eraseIdx a := by
  rw [erase_range _ _ h, List.map_append, List.map_map]
  apply List.ext_getElem
  · simp [List.length_eraseIdx, h]; omega
  · intro i h1 h2
    simp only [List.length_eraseIdx, h, if_true] at h2
    rw [List.getElem_append]
    split
    · rename_i h3
      simp only [List.length_map, List.length_range] at h3
      rw [List.getElem_eraseIdx_of_lt (h' := h3)]
      simp [show i < j.length by omega]
    · rename_i h3
      simp only [List.length_map, List.length_range, not_lt] at h3
      rw [List.getElem_eraseIdx_of_ge (h' := h3)]
      simp only [List.getElem_map, List.getElem_range, Function.comp, List.length_map,
        List.length_range]
      have : i - a + (a + 1) = i + 1 := by omega
      simp [this, show i + 1 < j.length by omega]

theorem rollPerm_map {j : List ℕ} {axis start : ℕ} (h : axis < j.length) :
    ((rollPerm j.length axis start).map fun p => j.getD p 0)
      = (j.eraseIdx axis).insertIdx (if axis < start then start - 1 else start) (j.getD axis 0) := by
  unfold rollPerm
  generalize (if axis < start then start - 1 else start) = st
  simp only
  by_cases h1 : axis = st
  · rw [if_pos h1, map_getD_range, ← h1]
    have : j.getD axis 0 = j[axis] := by simp [h]
    rw [this, List.insertIdx_eraseIdx_getElem h]
  · rw [if_neg h1, ← map_getD_erase_range h]
    exact List.map_insertIdx _ _ _ _

theorem rollPerm_perm {n axis start : ℕ} (h : axis < n) (hs : start ≤ n) :
    (rollPerm n axis start).Perm (List.range n) := by
  unfold rollPerm
  have hst : (if axis < start then start - 1 else start) ≠ axis →
      (if axis < start then start - 1 else start) ≤ n - 1 := by
    split_ifs <;> omega
  generalize (if axis < start then start - 1 else start) = st at hst
  simp only
  by_cases h1 : axis = st
  · rw [if_pos h1]
  · rw [if_neg h1]
    have hlen : ((List.range n).erase axis).length = n - 1 := by
      rw [List.length_erase_of_mem (by simpa using h)]; simp
    have hm : axis ∈ List.range n := by simpa using h
    refine (List.perm_insertIdx axis _ ?_).trans (List.perm_cons_erase hm).symm
    rw [hlen]
    exact hst (Ne.symm h1)

/-- Entry of a rolled array. -/
theorem rollaxisTo_get {a : NDArray R} {axis start : ℕ} {j : List ℕ} (hj : j.length = a.ndim)
    (h : axis < a.ndim) (hs : start ≤ a.ndim) :
    (a.rollaxisTo axis start).get
      ((j.eraseIdx axis).insertIdx (if axis < start then start - 1 else start) (j.getD axis 0))
      = a.get j := by
  rw [← rollPerm_map (by omega), hj]
  exact transposeTo_get_perm (rollPerm_perm h hs) hj

theorem rollaxisTo_shape {a : NDArray R} {axis start : ℕ}
    (h : axis < a.ndim) :
    (a.rollaxisTo axis start).shape
      = (a.shape.eraseIdx axis).insertIdx (if axis < start then start - 1 else start)
          (a.shape.getD axis 0) := by
  rw [← rollPerm_map h]
  rfl

theorem eraseIdx_append_cons (A B : List ℕ) (x : ℕ) : (A ++ x :: B).eraseIdx A.length = A ++ B := by
  rw [List.eraseIdx_append_of_length_le (by simp)]; simp

theorem insertIdx_append (A B : List ℕ) (x : ℕ) : (A ++ B).insertIdx A.length x = A ++ x :: B := by
  induction A with
  | nil => simp
  | cons a A ih => simp [ih]

theorem getD_append_cons (A B : List ℕ) (x : ℕ) : (A ++ x :: B).getD A.length 0 = x := by
  simp [List.getD_eq_getElem?_getD]

/-- Rolling an axis to the left: entries. -/
theorem rollaxisTo_left_get {a : NDArray R} {A B C : List ℕ} {x axis start : ℕ}
    (hA : start = A.length) (hB : axis = A.length + B.length)
    (hn : A.length + B.length + 1 + C.length = a.ndim) :
    (a.rollaxisTo axis start).get (A ++ x :: (B ++ C)) = a.get (A ++ B ++ x :: C) := by
  have hlt : ¬ axis < start := by omega
  have := rollaxisTo_get (a := a) (axis := axis) (start := start) (j := (A ++ B) ++ x :: C)
    (by simp; omega) (by omega) (by omega)
  rw [if_neg hlt] at this
  rw [show axis = (A ++ B).length by simp [hB], eraseIdx_append_cons, getD_append_cons,
    List.append_assoc A B C, hA, insertIdx_append] at this
  rw [show axis = (A ++ B).length by simp [hB], hA]
  exact this

theorem rollaxisTo_left_shape {a : NDArray R} {A B C : List ℕ} {x axis start : ℕ}
    (hs : a.shape = A ++ B ++ x :: C) (hA : start = A.length) (hB : axis = A.length + B.length) :
    (a.rollaxisTo axis start).shape = A ++ x :: (B ++ C) := by
  have hn : a.ndim = A.length + B.length + 1 + C.length := by simp [ndim, hs]; omega
  rw [rollaxisTo_shape (by omega), if_neg (by omega), hs,
    show axis = (A ++ B).length by simp [hB], eraseIdx_append_cons, getD_append_cons,
    List.append_assoc A B C, hA, insertIdx_append]

/-- Rolling an axis to the right: entries. -/
theorem rollaxisTo_right_get {a : NDArray R} {A B C : List ℕ} {x axis start : ℕ}
    (hA : axis = A.length) (hB : start = A.length + B.length + 1)
    (hn : A.length + B.length + 1 + C.length = a.ndim) :
    (a.rollaxisTo axis start).get (A ++ B ++ x :: C) = a.get (A ++ x :: (B ++ C)) := by
  have hlt : axis < start := by omega
  have := rollaxisTo_get (a := a) (axis := axis) (start := start) (j := A ++ x :: (B ++ C))
    (by simp; omega) (by omega) (by omega)
  rw [if_pos hlt, hA, eraseIdx_append_cons, getD_append_cons, ← List.append_assoc A B C,
    show start - 1 = (A ++ B).length by simp [hB], insertIdx_append] at this
  rw [hA]
  simpa using this

theorem rollaxisTo_right_shape {a : NDArray R} {A B C : List ℕ} {x axis start : ℕ}
    (hs : a.shape = A ++ x :: (B ++ C)) (hA : axis = A.length) (hB : start = A.length + B.length + 1) :
    (a.rollaxisTo axis start).shape = A ++ B ++ x :: C := by
  have hn : a.ndim = A.length + B.length + 1 + C.length := by simp [ndim, hs]; omega
  rw [rollaxisTo_shape (by omega), if_pos (by omega), hs, hA, eraseIdx_append_cons,
    getD_append_cons, ← List.append_assoc A B C, show start - 1 = (A ++ B).length by simp [hB],
    insertIdx_append]

theorem rollaxis_ok {a : NDArray R} {axis start : ℕ} (h : axis < a.ndim) (hs : start ≤ a.ndim) :
    a.rollaxis axis start = .ok (a.rollaxisTo axis start) := by
  simp [rollaxis, h, hs]

/-! ### asm -/

@[simp] theorem asm_length (n : ℕ) (ax k f : List ℕ) : (asm n ax k f).length = n := by simp [asm]

theorem asm_getD {n p : ℕ} (ax k f : List ℕ) (h : p < n) :
    (asm n ax k f).getD p 0 = (k ++ f).getD ((ax ++ freeAxes n ax).idxOf p) 0 := by
  simp [asm, List.getD_eq_getElem?_getD, h]

theorem asm_mem {n p : ℕ} {ax k f : List ℕ} (h : p < n) (hp : p ∈ ax) (hk : k.length = ax.length) :
    (asm n ax k f).getD p 0 = k.getD (ax.idxOf p) 0 := by
  rw [asm_getD _ _ _ h, List.idxOf_append_of_mem hp, getD_append_lt]
  rw [hk]; exact List.idxOf_lt_length_iff.2 hp

theorem asm_not_mem {n p : ℕ} {ax k f : List ℕ} (h : p < n) (hp : p ∉ ax) (hk : k.length = ax.length) :
    (asm n ax k f).getD p 0 = f.getD ((freeAxes n ax).idxOf p) 0 := by
  rw [asm_getD _ _ _ h, List.idxOf_append_of_notMem hp, ← hk, getD_append_ge]

theorem freeAxes_single_last (n : ℕ) : freeAxes (n + 1) [n] = List.range n := by
  unfold freeAxes
  rw [List.range_succ, List.filter_append]
  have : (List.range n).filter (fun x => decide (x ∉ [n])) = List.range n := by
    rw [List.filter_eq_self]; intro a ha; simp at ha; simp; omega
  rw [this]; simp

theorem freeAxes_single_zero (n : ℕ) : freeAxes (n + 1) [0] = (List.range n).map (· + 1) := by
  unfold freeAxes
  rw [List.range_succ_eq_map, List.filter_cons]
  simp only [List.mem_singleton, not_true_eq_false, decide_false, Bool.false_eq_true, if_false]
  rw [List.filter_eq_self]
  intro a ha; simp at ha; obtain ⟨b, _, rfl⟩ := ha; simp

theorem freeAxes_nil (n : ℕ) : freeAxes n [] = List.range n := by
  unfold freeAxes; rw [List.filter_eq_self]; simp

theorem asm_single_last {n c : ℕ} {f : List ℕ} (hf : f.length = n) :
    asm (n + 1) [n] [c] f = f ++ [c] := by
  apply ext_getD (by simp [hf])
  intro p h1
  have hp : p < n + 1 := by simpa using h1
  by_cases hpn : p = n
  · subst hpn
    rw [asm_mem (ax := [p]) (k := [c]) hp (by simp) rfl, getD_append_len (n := 0) (by omega)]
    simp
  · rw [asm_not_mem (ax := [n]) (k := [c]) hp (by simpa using hpn) rfl, freeAxes_single_last,
      idxOf_range (by omega), getD_append_lt (by omega)]

theorem idxOf_map_succ (l : List ℕ) (p : ℕ) : (l.map (· + 1)).idxOf (p + 1) = l.idxOf p := by
  induction l with
  | nil => rfl
  | cons a l ih =>
    simp only [List.map_cons, List.idxOf_cons, ih]
    by_cases h : a = p
    · simp [h]
    · simp [h, beq_eq_false_iff_ne.2]

theorem asm_single_zero {n c : ℕ} {f : List ℕ} (hf : f.length = n) :
    asm (n + 1) [0] [c] f = c :: f := by
  apply ext_getD (by simp [hf])
  intro p h1
  have hp : p < n + 1 := by simpa using h1
  cases p with
  | zero => rw [asm_mem (ax := [0]) (k := [c]) hp (by simp) rfl]; simp
  | succ q =>
    rw [asm_not_mem (ax := [0]) (k := [c]) hp (by simp) rfl, freeAxes_single_zero, idxOf_map_succ,
      idxOf_range (by omega)]
    simp

theorem freeAxes_bonds {n : ℕ} {ax : List ℕ} (hax : ∀ a ∈ ax, a < n) :
    freeAxes (n + 2) (ax.map (· + 1)) = 0 :: ((freeAxes n ax).map (· + 1) ++ [n + 1]) := by
  unfold freeAxes
  rw [List.range_succ, List.filter_append, List.range_succ_eq_map, List.filter_cons]
  have h0 : decide (0 ∉ ax.map (· + 1)) = true := by simp
  have hn : ([n + 1] : List ℕ).filter (fun x => decide (x ∉ ax.map (· + 1))) = [n + 1] := by
    rw [List.filter_eq_self]
    intro a ha
    simp at ha; subst ha
    simp only [decide_eq_true_eq, List.mem_map, not_exists, not_and]
    intro x hx; have := hax x hx; omega
  rw [if_pos h0, hn]
  simp only [List.cons_append]
  congr 2
  rw [List.filter_map]
  congr 1
  apply List.filter_congr
  intro x _
  simp [Function.comp]

theorem asm_bonds {n l r : ℕ} {ax k f : List ℕ} (hax : ∀ a ∈ ax, a < n)
    (hk : k.length = ax.length) (hf : f.length = (freeAxes n ax).length) :
    asm (n + 2) (ax.map (· + 1)) k (l :: (f ++ [r])) = l :: (asm n ax k f ++ [r]) := by
  apply ext_getD (by simp)
  intro p h1
  have hp : p < n + 2 := by simpa using h1
  cases p with
  | zero =>
    rw [asm_not_mem hp (by simp) (by simp [hk]), freeAxes_bonds hax]
    simp
  | succ q =>
    by_cases hq : q = n
    · subst hq
      rw [asm_not_mem hp ?_ (by simp [hk]), freeAxes_bonds hax]
      · have : (0 :: ((freeAxes q ax).map (· + 1) ++ [q + 1])).idxOf (q + 1)
            = (freeAxes q ax).length + 1 := by
          rw [List.idxOf_cons_ne _ (by omega), List.idxOf_append_of_notMem]
          · simp
          · simp [freeAxes]
        rw [this]
        simp only [List.getD_cons_succ]
        rw [getD_append_len (n := 0) (by omega), getD_append_len (n := 0) (by simp)]
      · simp only [List.mem_map, not_exists, not_and]
        intro x hx; have := hax x hx; omega
    · have hq' : q < n := by omega
      simp only [List.getD_cons_succ]
      rw [getD_append_lt (by simpa using hq')]
      by_cases hm : q ∈ ax
      · rw [asm_mem hp (by simpa using hm) (by simp [hk]), asm_mem hq' hm hk, idxOf_map_succ]
      · have hfree : q ∈ freeAxes n ax := by simp [freeAxes, hq', hm]
        have hidx : (freeAxes n ax).idxOf q < (freeAxes n ax).length :=
          List.idxOf_lt_length_iff.2 hfree
        rw [asm_not_mem hp (by simpa using hm) (by simp [hk]), asm_not_mem hq' hm hk,
          freeAxes_bonds hax, List.idxOf_cons_ne _ (by omega),
          List.idxOf_append_of_mem (by simpa using hfree), idxOf_map_succ]
        simp only [List.getD_cons_succ]
        rw [getD_append_lt (by omega)]

/-! ### tensordot -/

theorem tensordot_ok [AddCommMonoid R] [Mul R] {a b : NDArray R} {axa axb : List ℕ}
    (ha : ∀ p ∈ axa, p < a.ndim) (hb : ∀ p ∈ axb, p < b.ndim)
    (hs : (axa.map fun p => a.shape.getD p 0) = (axb.map fun p => b.shape.getD p 0))
    (hna : axa.Nodup) (hnb : axb.Nodup) :
    a.tensordot b (axa.map (fun k : ℕ => (k : ℤ))) (axb.map (fun k : ℕ => (k : ℤ)))
      = .ok (a.tensordotTo b axa axb) := by
  unfold tensordot
  rw [mapM_pyIndex_nat ha, mapM_pyIndex_nat hb]
  show (if _ then _ else _) = _
  rw [if_pos ⟨hs, hna, hnb⟩]

/-- Contraction of the last axis with the first axis. -/
theorem matdot_ok [AddCommMonoid R] [Mul R] {a b : NDArray R} {sa sb : List ℕ} {k : ℕ}
    (ha : a.shape = sa ++ [k]) (hb : b.shape = k :: sb) :
    ∃ c, a.tensordot b [-1] [0] = .ok c ∧ c.shape = sa ++ sb ∧
      ∀ i j, i.length = sa.length → j.length = sb.length →
        c.get (i ++ j) = ∑ x ∈ range k, a.get (i ++ [x]) * b.get (x :: j) := by
  have hna : a.ndim = sa.length + 1 := by simp [ndim, ha]
  have hnb : b.ndim = sb.length + 1 := by simp [ndim, hb]
  refine ⟨a.tensordotTo b [sa.length] [0], ?_, ?_, ?_⟩
  · unfold tensordot
    have h1 : ([-1] : List ℤ).mapM (pyIndex a.ndim) = .ok [sa.length] := by
      rw [mapM_ok_iff]
      refine List.Forall₂.cons ?_ List.Forall₂.nil
      have := pyIndex_neg (n := a.ndim) (i := 1) (by omega) (by omega)
      simpa [hna] using this
    have h2 : ([0] : List ℤ).mapM (pyIndex b.ndim) = .ok [0] := by
      rw [mapM_ok_iff]
      refine List.Forall₂.cons ?_ List.Forall₂.nil
      exact pyIndex_nat (n := b.ndim) (i := 0) (by omega)
    rw [h1, h2]
    show (if _ then _ else _) = _
    rw [if_pos]
    refine ⟨?_, by simp, by simp⟩
    simp [ha, hb]
  · show List.map _ _ ++ List.map _ _ = _
    rw [hna, hnb, freeAxes_single_last, freeAxes_single_zero, ha, hb]
    congr 1
    · conv_rhs => rw [← map_getD_range sa]
      apply List.map_congr_left
      intro p hp
      rw [getD_append_lt (by simpa using hp)]
    · rw [List.map_map]
      conv_rhs => rw [← map_getD_range sb]
      apply List.map_congr_left
      intro p _
      simp
  · intro i j hi hj
    show sumIdx _ _ = _
    rw [hna, hnb, freeAxes_single_last]
    simp only [List.map_cons, List.map_nil, List.length_range, sumIdx_cons, sumIdx_nil]
    rw [show a.shape.getD sa.length 0 = k by rw [ha]; exact getD_append_cons _ _ _]
    refine Finset.sum_congr rfl fun x _ => ?_
    rw [← hi, List.take_left, List.drop_left, asm_single_last rfl, asm_single_zero hj]

end NDArray

end Mpnum
