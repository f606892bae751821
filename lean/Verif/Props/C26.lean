import Verif.MPArray.LocalSum

/-!
# C26: `regular_slices`
-/

namespace Mpnum

/-- C26: for positive `offset`, `0 < width ≤ length` and `offset` dividing `length - width` there are
`(length - width) / offset + 1` slices; slice `i` is `[offset * i : offset * i + width]`, inside the
range; the first begins at zero, the last ends at `length`. -/
theorem C26_regular_slices (length width offset : ℕ) (hw : width ≤ length) (ho : 0 < offset)
    (hd : offset ∣ length - width) :
    ∃ sl, regularSlices length width offset = .ok sl ∧
      sl.length = (length - width) / offset + 1 ∧
      (∀ i, ∀ hi : i < sl.length, ∃ a : ℕ, a = offset * i ∧
        sl[i] = ⟨some (a : ℤ), some ((a : ℤ) + width), none⟩ ∧ a + width ≤ length) ∧
      (∃ s, sl.head? = some s ∧ s.start = some 0) ∧
      ∃ s, sl.getLast? = some s ∧ s.stop = some (length : ℤ) := by
  obtain ⟨m, hm⟩ := hd
  have hm' : (length : ℤ) - width = offset * m := by
    have : (length : ℤ) - width = ((length - width : ℕ) : ℤ) := by omega
    rw [this, hm]; push_cast; rfl
  have hdiv : (length - width) / offset = m := by rw [hm]; exact Nat.mul_div_cancel_left m ho
  have hnum : (((length : ℤ) - width).fdiv offset + 1).toNat = m + 1 := by
    rw [hm', Int.fdiv_eq_ediv_of_nonneg _ (by omega), Int.mul_ediv_cancel_left _ (by omega)]
    omega
  refine ⟨(List.range (m + 1)).map fun i : ℕ =>
    (⟨some ((offset : ℤ) * i), some ((offset : ℤ) * i + width), none⟩ : PySlice), ?_, ?_⟩
  · unfold regularSlices
    rw [if_neg (by omega), pyAssert_true (by rw [hm', Int.fmod_eq_emod_of_nonneg _ (by omega)]; simp), ok_bind]
    simp only [hnum]
    rfl
  rw [hdiv]
  refine ⟨by simp, ?_, ?_, ?_⟩
  · intro i hi
    simp only [List.length_map, List.length_range] at hi
    refine ⟨offset * i, rfl, by simp, ?_⟩
    have : offset * i ≤ offset * m := Nat.mul_le_mul_left _ (by omega)
    omega
  · refine ⟨_, by rw [List.range_succ_eq_map]; rfl, by simp⟩
  · refine ⟨_, by rw [List.range_succ, List.map_append, List.map_singleton, List.getLast?_concat], ?_⟩
    simp only [Option.some.injEq]
    rw [← hm']; ring

/-- C26: if `offset ≤ width`, every site of the chain is inside one of the slices. -/
theorem C26_cover (length width offset : ℕ) (hw : width ≤ length) (ho : 0 < offset)
    (hd : offset ∣ length - width) (hc : offset ≤ width) (k : ℕ) (hk : k < length) :
    ∃ sl, regularSlices length width offset = .ok sl ∧
      ∃ s ∈ sl, ∃ a b : ℤ, s = ⟨some a, some b, none⟩ ∧ a ≤ k ∧ k < b := by
  obtain ⟨sl, h1, h2, h3, _⟩ := C26_regular_slices length width offset hw ho hd
  refine ⟨sl, h1, ?_⟩
  obtain ⟨m, hm⟩ := hd
  have hdiv : (length - width) / offset = m := by rw [hm]; exact Nat.mul_div_cancel_left m ho
  rw [hdiv] at h2
  by_cases hkm : k / offset < m
  · obtain ⟨a, rfl, h5, _⟩ := h3 (k / offset) (by omega)
    refine ⟨_, List.getElem_mem (by omega : k / offset < sl.length), _, _, h5, ?_, ?_⟩
    · have := Nat.mul_div_le k offset
      omega
    · have := Nat.lt_mul_div_succ k ho
      rw [Nat.mul_add] at this
      omega
  · obtain ⟨a, rfl, h5, _⟩ := h3 m (by omega)
    refine ⟨_, List.getElem_mem (by omega : m < sl.length), _, _, h5, ?_, ?_⟩
    · have h6 : offset * m ≤ offset * (k / offset) := Nat.mul_le_mul_left _ (by omega)
      have := Nat.mul_div_le k offset
      omega
    · omega

/-- C26: otherwise the last slice could not end at the end of the chain: `AssertionError`. -/
theorem C26_not_divisible (length width offset : ℤ) (ho : offset ≠ 0) (hd : ¬ offset ∣ length - width) :
    regularSlices length width offset = .error .assertion := by
  unfold regularSlices
  rw [if_neg ho, pyAssert_false, error_bind]
  intro h
  exact hd (Int.dvd_of_fmod_eq_zero h)

/-- C26: `offset = 0`. -/
theorem C26_zero_offset (length width : ℤ) : regularSlices length width 0 = .error .zeroDiv := rfl

/-- C26: no slices if the width exceeds the length. -/
theorem C26_too_wide (length width offset : ℤ) (ho : 0 < offset) (hw : length < width)
    (hd : offset ∣ length - width) : regularSlices length width offset = .ok [] := by
  unfold regularSlices
  rw [if_neg (by omega), pyAssert_true (by
    rw [Int.fmod_eq_emod_of_nonneg _ (by omega)]; exact Int.emod_eq_zero_of_dvd hd), ok_bind]
  have : ((length - width).fdiv offset + 1).toNat = 0 := by
    obtain ⟨m, hm⟩ := hd
    rw [hm, Int.fdiv_eq_ediv_of_nonneg _ (by omega), Int.mul_ediv_cancel_left _ (by omega)]
    have : m < 0 := by
      by_contra h
      have := Int.mul_nonneg (show (0 : ℤ) ≤ offset by omega) (show (0 : ℤ) ≤ m by omega)
      omega
    omega
  simp only [this]; rfl

/-- Non-vacuity: the example of the docstring. -/
example : 3 ≤ 7 ∧ 0 < 2 ∧ 2 ∣ 7 - 3 ∧ 2 ≤ 3 ∧
    regularSlices 7 3 2 = .ok [⟨some 0, some 3, none⟩, ⟨some 2, some 5, none⟩, ⟨some 4, some 7, none⟩] :=
  ⟨by decide, by decide, by decide, by decide, rfl⟩

end Mpnum
