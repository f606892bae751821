import Verif.Valid

/-! Chains of left- or right-canonical local tensors are isometries: contracting everything around a
centre leaves the plain inner product of the centre. -/

open Finset

namespace Mpnum

variable {R : Type} [CommRing R] [StarRing R]

theorem isoL {l : ℕ} {ts : List (NDArray R)} (h : Chained 1 ts l) (hc : ∀ t ∈ ts, LCanon t)
    (F G : ℕ → R) :
    (sumSites (physShape ts) fun i => star (∑ a ∈ range l, mp ts i 0 a * F a) *
      (∑ a ∈ range l, mp ts i 0 a * G a)) = ∑ a ∈ range l, star (F a) * G a := by
  have e : ∀ i, star (∑ a ∈ range l, mp ts i 0 a * F a) * (∑ a ∈ range l, mp ts i 0 a * G a)
      = ∑ a ∈ range l, ∑ a' ∈ range l, (star (F a) * G a') * (star (mp ts i 0 a) * mp ts i 0 a') := by
    intro i
    rw [star_sum, Finset.sum_mul_sum]
    refine Finset.sum_congr rfl fun a _ => Finset.sum_congr rfl fun a' _ => ?_
    rw [star_mul']; ring
  simp only [e]
  rw [sumSites_sum_comm]
  refine Finset.sum_congr rfl fun a ha => ?_
  rw [sumSites_sum_comm]
  have : ∀ a' ∈ range l, (sumSites (physShape ts) fun i => (star (F a) * G a') *
      (star (mp ts i 0 a) * mp ts i 0 a')) = if a = a' then star (F a) * G a' else 0 := by
    intro a' ha'
    rw [← mul_sumSites]
    have := lcanon_sum h hc (b := a) (b' := a') (by simpa using ha) (by simpa using ha')
    rw [Finset.sum_range_one] at this
    rw [this]; split <;> simp
  rw [Finset.sum_congr rfl this, Finset.sum_ite_eq, if_pos ha]

theorem isoR {r : ℕ} {ts : List (NDArray R)} (h : Chained r ts 1) (hc : ∀ t ∈ ts, RCanon t)
    (F G : ℕ → R) :
    (sumSites (physShape ts) fun i => star (∑ a ∈ range r, F a * mp ts i a 0) *
      (∑ a ∈ range r, G a * mp ts i a 0)) = ∑ a ∈ range r, star (F a) * G a := by
  have e : ∀ i, star (∑ a ∈ range r, F a * mp ts i a 0) * (∑ a ∈ range r, G a * mp ts i a 0)
      = ∑ a ∈ range r, ∑ a' ∈ range r, (star (F a) * G a') * (mp ts i a' 0 * star (mp ts i a 0)) := by
    intro i
    rw [star_sum, Finset.sum_mul_sum]
    refine Finset.sum_congr rfl fun a _ => Finset.sum_congr rfl fun a' _ => ?_
    rw [star_mul']; ring
  simp only [e]
  rw [sumSites_sum_comm]
  refine Finset.sum_congr rfl fun a ha => ?_
  rw [sumSites_sum_comm]
  have : ∀ a' ∈ range r, (sumSites (physShape ts) fun i => (star (F a) * G a') *
      (mp ts i a' 0 * star (mp ts i a 0))) = if a = a' then star (F a) * G a' else 0 := by
    intro a' ha'
    rw [← mul_sumSites]
    have := rcanon_sum h hc (a := a') (a' := a) (by simpa using ha') (by simpa using ha)
    rw [Finset.sum_range_one] at this
    rw [this]
    by_cases hh : a = a'
    · simp [hh]
    · simp [hh, Ne.symm hh]
  rw [Finset.sum_congr rfl this, Finset.sum_ite_eq, if_pos ha]

/-- Inner product of two tensors that differ only in the centre `mid`, all sites around the centre
being canonical. -/
theorem center_inner {l r : ℕ} {pre mid mid' post : List (NDArray R)}
    (h1 : Chained 1 pre l) (h2 : Chained l mid r) (h2' : Chained l mid' r) (h3 : Chained r post 1)
    (hl : ∀ t ∈ pre, LCanon t) (hr : ∀ t ∈ post, RCanon t) (hs : physShape mid' = physShape mid) :
    (sumSites (physShape (pre ++ mid ++ post)) fun i =>
      star (entry (pre ++ mid ++ post) i) * entry (pre ++ mid' ++ post) i)
    = sumSites (physShape mid) fun i => ∑ a ∈ range l, ∑ b ∈ range r,
        star (mp mid i a b) * mp mid' i a b := by
  have hps : physShape (pre ++ mid ++ post) = physShape pre ++ (physShape mid ++ physShape post) := by
    simp [physShape]
  rw [hps, sumSites_append]
  simp only [sumSites_append]
  rw [show (sumSites (physShape pre) fun i => sumSites (physShape mid) fun j =>
      sumSites (physShape post) fun k => star (entry (pre ++ mid ++ post) (i ++ (j ++ k))) *
        entry (pre ++ mid' ++ post) (i ++ (j ++ k)))
      = sumSites (physShape pre) fun i => sumSites (physShape mid) fun j =>
      sumSites (physShape post) fun k =>
        star (∑ a ∈ range l, mp pre i 0 a * ∑ b ∈ range r, mp mid j a b * mp post k b 0) *
        (∑ a ∈ range l, mp pre i 0 a * ∑ b ∈ range r, mp mid' j a b * mp post k b 0) from ?_]
  · rw [sumSites_comm]
    refine sumSites_congr fun j hj => ?_
    rw [sumSites_comm]
    simp only [isoL h1 hl]
    rw [sumSites_sum_comm]
    refine Finset.sum_congr rfl fun a _ => ?_
    exact isoR h3 hr _ _
  · refine sumSites_congr fun i hi => sumSites_congr fun j hj => sumSites_congr fun k hk => ?_
    have key : ∀ m : List (NDArray R), Chained l m r → physShape m = physShape mid →
        entry (pre ++ m ++ post) (i ++ (j ++ k))
          = ∑ a ∈ range l, mp pre i 0 a * ∑ b ∈ range r, mp m j a b * mp post k b 0 := by
      intro m hm hp
      unfold entry
      rw [List.append_assoc, mp_append h1 (by simpa [physShape] using idxOK_length hi) one_pos]
      refine Finset.sum_congr rfl fun a ha => ?_
      rw [mp_append hm (by have := idxOK_length hj; rw [← hp] at this; simpa [physShape] using this)
        (by simpa using ha)]
    rw [key mid h2 rfl, key mid' h2' hs]

/-- The squared norm is that of the centre site. -/
theorem center_norm {pre post : List (NDArray R)} {t : NDArray R}
    (h : Chained 1 (pre ++ t :: post) 1)
    (hl : ∀ t ∈ pre, LCanon t) (hr : ∀ t ∈ post, RCanon t) :
    (sumSites (physShape (pre ++ t :: post)) fun i =>
      star (entry (pre ++ t :: post) i) * entry (pre ++ t :: post) i)
    = sumIdx t.shape fun i => star (t.get i) * t.get i := by
  obtain ⟨l, h1, h2, h3, h4⟩ := chained_append.1 h
  have hc : Chained l [t] t.rb := ⟨h2, h3, rfl⟩
  have := center_inner h1 hc hc h4 hl hr rfl
  simp only [List.append_assoc, List.singleton_append] at this
  rw [this, NDArray.shape_local h2, sumIdx_cons, h3]
  simp only [physShape, List.map_cons, List.map_nil, sumSites_cons, sumSites_nil]
  rw [sumIdx_sum_comm]
  refine Finset.sum_congr rfl fun a _ => ?_
  rw [sumIdx_append]
  refine sumIdx_congr fun p _ => ?_
  simp only [sumIdx_cons, sumIdx_nil]
  refine Finset.sum_congr rfl fun b hb => ?_
  rw [mp_single (by simpa using hb)]; rfl

end Mpnum
