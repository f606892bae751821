import Verif.Np.Lemmas

/-! # Removing legs of dimension one -/

namespace Mpnum

/-- The index that remains when the legs of dimension one (of an array with shape `D`) are removed. -/
def squeezeIdx : List ℕ → List ℕ → List ℕ
  | d :: D, i :: I => if 1 < d then i :: squeezeIdx D I else squeezeIdx D I
  | _, _ => []

theorem squeezeIdx_self (D : List ℕ) : squeezeIdx D D = D.filter (1 < ·) := by
  induction D with
  | nil => rfl
  | cons d D ih =>
    rw [squeezeIdx, List.filter_cons, ih]
    by_cases h : 1 < d <;> simp [h]

theorem squeeze_inB {I D : List ℕ} (h : InB I D) : InB (squeezeIdx D I) (D.filter (1 < ·)) := by
  unfold InB at *
  induction h with
  | nil => simp [squeezeIdx]
  | cons h1 _ ih =>
    rw [squeezeIdx, List.filter_cons]
    rename_i a b _ _ _
    by_cases h : 1 < b
    · simp [h, h1, ih]
    · simpa [h] using ih

theorem filter_prod {D : List ℕ} (h : ∀ d ∈ D, 0 < d) : (D.filter (1 < ·)).prod = D.prod := by
  induction D with
  | nil => rfl
  | cons d D ih =>
    have h0 := h d (by simp)
    rw [List.filter_cons]
    split
    · rw [List.prod_cons, List.prod_cons, ih fun e he => h e (by simp [he])]
    · rename_i h1
      have : d = 1 := by simp at h1; omega
      rw [List.prod_cons, this, ih fun e he => h e (by simp [he])]; simp

theorem pos_of_inB {I D : List ℕ} (h : InB I D) : ∀ d ∈ D, 0 < d := by
  unfold InB at h
  induction h with
  | nil => simp
  | cons h1 _ ih =>
    intro d hd
    rcases List.mem_cons.1 hd with rfl | hd
    · omega
    · exact ih d hd

theorem squeeze_ravel {I D : List ℕ} (h : InB I D) :
    ravelIdx (D.filter (1 < ·)) (squeezeIdx D I) = ravelIdx D I := by
  induction D generalizing I with
  | nil => simp
  | cons d D ih =>
    obtain ⟨i, I, rfl, h1, h2⟩ := inB_cons_split h
    have hp := pos_of_inB h2
    rw [squeezeIdx, List.filter_cons, ravelIdx_cons]
    by_cases hd : 1 < d
    · simp only [hd, if_true, decide_true, ravelIdx_cons]
      rw [ih h2, filter_prod hp]
    · obtain rfl : i = 0 := by omega
      simp only [hd, if_false, decide_false, Bool.false_eq_true]
      rw [ih h2]; simp

theorem squeezeIdx_length {I D : List ℕ} (h : I.length = D.length) :
    (squeezeIdx D I).length = (D.filter (1 < ·)).length := by
  induction D generalizing I with
  | nil => simp [squeezeIdx]
  | cons d D ih =>
    cases I with
    | nil => simp at h
    | cons i I =>
      have := ih (I := I) (by simpa using h)
      rw [squeezeIdx, List.filter_cons]
      by_cases hd : 1 < d <;> simp [hd, this]

/-- Every index of the squeezed array comes from an index of the array. -/
theorem exists_squeeze {D J : List ℕ} (hD : ∀ d ∈ D, 0 < d) (h : InB J (D.filter (1 < ·))) :
    ∃ I, InB I D ∧ squeezeIdx D I = J := by
  induction D generalizing J with
  | nil => 
    obtain rfl : J = [] := by simpa using h
    exact ⟨[], by simp, rfl⟩
  | cons d D ih =>
    rw [List.filter_cons] at h
    by_cases hd : 1 < d
    · simp only [hd, decide_true, if_true] at h
      obtain ⟨j, J, rfl, h1, h2⟩ := inB_cons_split h
      obtain ⟨I, hI, rfl⟩ := ih (fun e he => hD e (by simp [he])) h2
      exact ⟨j :: I, by simp [h1, hI], by simp [squeezeIdx, hd]⟩
    · simp only [hd, decide_false, Bool.false_eq_true, if_false] at h
      obtain ⟨I, hI, rfl⟩ := ih (fun e he => hD e (by simp [he])) h
      exact ⟨0 :: I, by simp [hD d (by simp), hI], by simp [squeezeIdx, hd]⟩

end Mpnum
