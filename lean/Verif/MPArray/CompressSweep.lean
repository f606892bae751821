import Verif.MPArray.CompressLemmas

/-! The sweeps of SVD compression: the compressed tensor is the orthogonal projection of the original
one at every step, and each step keeps the largest Schmidt values of a bipartition. -/

open Finset

namespace Mpnum

section pure
variable {R : Type} [CommRing R] [StarRing R]

/-- The part right of the bond is the projection of `f` on the (orthonormal) left part. -/
def ProjR (f : List (List ℕ) → R) (pre post : List (NDArray R)) (d : ℕ) : Prop :=
  ∀ b < d, ∀ j, IdxOK j (physShape post) →
    mp post j b 0 = sumSites (physShape pre) fun i => star (mp pre i 0 b) * f (i ++ j)

/-- The part left of the bond is the projection of `f` on the (orthonormal) right part. -/
def ProjL (f : List (List ℕ) → R) (pre post : List (NDArray R)) (d : ℕ) : Prop :=
  ∀ b < d, ∀ j, IdxOK j (physShape pre) →
    mp pre j 0 b = sumSites (physShape post) fun i => f (j ++ i) * star (mp post i b 0)

theorem sumSites_single {A : Type} [AddCommMonoid A] (s : List ℕ) (f : List (List ℕ) → A) :
    sumSites [s] f = sumIdx s fun p => f [p] := by simp

theorem projR_step {f : List (List ℕ) → R} {pre post : List (NDArray R)} {t u t' u' : NDArray R} {k : ℕ}
    (hch : Chained 1 (pre ++ t :: u :: post) 1)
    (h : ProjR f pre (t :: u :: post) t.lb)
    (ht : t'.shape = t.lb :: (t.ph ++ [k])) (hu : u'.shape = k :: (u.ph ++ [u.rb]))
    (proj : ∀ b < k, ∀ q, InB q u.ph → ∀ c, u'.at3 b q c
      = ∑ z ∈ range u.lb, (∑ a ∈ range t.lb, sumIdx t.ph fun q' => star (t'.at3 a q' b) * t.at3 a q' z) * u.at3 z q c) :
    ProjR f (pre ++ [t']) (u' :: post) k := by
  intro b hb j hj
  obtain ⟨m, hc1, h1, h2, h3, h4, h5⟩ := chained_append.1 hch
  have el : t'.lb = t.lb := NDArray.lb_of_shape ht
  have ep : t'.ph = t.ph := NDArray.ph_of_shape ht
  have er : t'.rb = k := NDArray.rb_of_shape ht
  have eup : u'.ph = u.ph := NDArray.ph_of_shape hu
  have eur : u'.rb = u.rb := NDArray.rb_of_shape hu
  have hps : physShape (u' :: post) = u.ph :: physShape post := by simp [physShape, eup]
  rw [hps] at hj
  cases hj with
  | @cons q _ js _ hq hjs =>
  -- left side
  have hL : mp (u' :: post) (q :: js) b 0
      = ∑ a ∈ range t.lb, sumIdx t.ph fun q' => star (t'.at3 a q' b) * mp (t :: u :: post) (q' :: q :: js) a 0 := by
    rw [mp_cons, eur]
    simp only [proj b hb q hq]
    have e1 : ∀ c ∈ range u.rb, (∑ z ∈ range u.lb, (∑ a ∈ range t.lb, sumIdx t.ph fun q' =>
          star (t'.at3 a q' b) * t.at3 a q' z) * u.at3 z q c) * mp post js c 0
        = ∑ a ∈ range t.lb, sumIdx t.ph fun q' => star (t'.at3 a q' b) *
            ((∑ z ∈ range t.rb, t.at3 a q' z * u.at3 z q c) * mp post js c 0) := by
      intro c _
      rw [h4, Finset.sum_mul]
      have : ∀ z ∈ range t.rb, (∑ a ∈ range t.lb, sumIdx t.ph fun q' =>
          star (t'.at3 a q' b) * t.at3 a q' z) * u.at3 z q c * mp post js c 0
          = ∑ a ∈ range t.lb, sumIdx t.ph fun q' => star (t'.at3 a q' b) * (t.at3 a q' z * u.at3 z q c * mp post js c 0) := by
        intro z _
        rw [Finset.sum_mul, Finset.sum_mul]
        refine Finset.sum_congr rfl fun a _ => ?_
        rw [sumIdx_mul, sumIdx_mul]
        exact sumIdx_congr fun q' _ => by ring
      rw [Finset.sum_congr rfl this, Finset.sum_comm]
      refine Finset.sum_congr rfl fun a _ => ?_
      rw [← sumIdx_sum_comm]
      refine sumIdx_congr fun q' _ => ?_
      rw [Finset.sum_mul, Finset.mul_sum]
    rw [Finset.sum_congr rfl e1, Finset.sum_comm]
    refine Finset.sum_congr rfl fun a _ => ?_
    rw [← sumIdx_sum_comm]
    refine sumIdx_congr fun q' _ => ?_
    rw [← Finset.mul_sum, mp_pair_eq]
  rw [hL]
  -- right side
  have hps' : physShape (pre ++ [t']) = physShape pre ++ [t.ph] := by simp [physShape, ep]
  rw [hps', sumSites_append]
  have hR : ∀ i, IdxOK i (physShape pre) → (sumSites [t.ph] fun i' =>
      star (mp (pre ++ [t']) (i ++ i') 0 b) * f (i ++ i' ++ q :: js))
      = ∑ a ∈ range t.lb, sumIdx t.ph fun q' => star (t'.at3 a q' b) * (star (mp pre i 0 a) * f (i ++ q' :: q :: js)) := by
    intro i hi
    rw [sumSites_single, ← sumIdx_sum_comm]
    refine sumIdx_congr fun q' _ => ?_
    rw [mp_concat (by rw [el, h2]; exact hc1) (by simpa [physShape] using idxOK_length hi) one_pos (by rw [er]; exact hb),
      star_sum, Finset.sum_mul, el]
    refine Finset.sum_congr rfl fun a _ => ?_
    rw [star_mul', List.append_assoc, List.singleton_append]; ring
  rw [sumSites_congr hR, sumSites_sum_comm]
  refine Finset.sum_congr rfl fun a ha => ?_
  rw [sumSites_sumIdx_comm]
  refine sumIdx_congr fun q' hq' => ?_
  rw [← mul_sumSites]
  congr 1
  exact h a (by simpa using ha) (q' :: q :: js) (List.Forall₂.cons hq' (List.Forall₂.cons hq hjs))

theorem projL_step {f : List (List ℕ) → R} {pre post : List (NDArray R)} {t u t' u' : NDArray R} {k : ℕ}
    (hch : Chained 1 (pre ++ t :: u :: post) 1)
    (h : ProjL f (pre ++ [t, u]) post u.rb)
    (ht : t'.shape = t.lb :: (t.ph ++ [k])) (hu : u'.shape = k :: (u.ph ++ [u.rb]))
    (proj : ∀ a, ∀ q, InB q t.ph → ∀ b < k, t'.at3 a q b
      = ∑ z ∈ range t.rb, t.at3 a q z * (∑ c ∈ range u.rb, sumIdx u.ph fun q' => u.at3 z q' c * star (u'.at3 b q' c))) :
    ProjL f (pre ++ [t']) (u' :: post) k := by
  intro b hb j hj
  obtain ⟨m, hc1, h1, h2, h3, h4, h5⟩ := chained_append.1 hch
  have el : t'.lb = t.lb := NDArray.lb_of_shape ht
  have ep : t'.ph = t.ph := NDArray.ph_of_shape ht
  have er : t'.rb = k := NDArray.rb_of_shape ht
  have eup : u'.ph = u.ph := NDArray.ph_of_shape hu
  have eur : u'.rb = u.rb := NDArray.rb_of_shape hu
  have hps : physShape (pre ++ [t']) = physShape pre ++ [t.ph] := by simp [physShape, ep]
  rw [hps] at hj
  obtain ⟨i, j', rfl, hi, hj'⟩ := idxOK_append_split hj
  cases hj' with
  | @cons q _ js _ hq hjs =>
  cases hjs
  have hil : i.length = pre.length := by simpa [physShape] using idxOK_length hi
  have hpre : Chained 1 pre t.lb := by rw [h2]; exact hc1
  -- left side
  have hL : mp (pre ++ [t']) (i ++ [q]) 0 b
      = ∑ c ∈ range u.rb, sumIdx u.ph fun q' => mp (pre ++ [t, u]) (i ++ [q, q']) 0 c * star (u'.at3 b q' c) := by
    rw [mp_concat (by rw [el]; exact hpre) hil one_pos (by rw [er]; exact hb), el]
    simp only [fun a => proj a q hq b hb]
    have e2 : ∀ c ∈ range u.rb, (sumIdx u.ph fun q' => mp (pre ++ [t, u]) (i ++ [q, q']) 0 c * star (u'.at3 b q' c))
        = ∑ a ∈ range t.lb, ∑ z ∈ range t.rb, mp pre i 0 a * (t.at3 a q z *
          (sumIdx u.ph fun q' => u.at3 z q' c * star (u'.at3 b q' c))) := by
      intro c hc
      have e3 : ∀ q', mp (pre ++ [t, u]) (i ++ [q, q']) 0 c
          = ∑ a ∈ range t.lb, ∑ z ∈ range t.rb, mp pre i 0 a * (t.at3 a q z * u.at3 z q' c) := by
        intro q'
        rw [mp_append hpre hil one_pos]
        refine Finset.sum_congr rfl fun a _ => ?_
        rw [mp_cons, Finset.mul_sum]
        refine Finset.sum_congr rfl fun z _ => ?_
        rw [mp_single (by simpa using hc)]
      simp only [e3, Finset.sum_mul]
      rw [sumIdx_sum_comm]
      refine Finset.sum_congr rfl fun a _ => ?_
      rw [sumIdx_sum_comm]
      refine Finset.sum_congr rfl fun z _ => ?_
      rw [← mul_assoc, mul_sumIdx]
      exact sumIdx_congr fun q' _ => by ring
    rw [Finset.sum_congr rfl e2, Finset.sum_comm]
    refine Finset.sum_congr rfl fun a _ => ?_
    rw [Finset.mul_sum, Finset.sum_comm]
    refine Finset.sum_congr rfl fun z _ => ?_
    rw [← Finset.mul_sum, ← Finset.mul_sum]
  rw [hL]
  have hps' : physShape (u' :: post) = u.ph :: physShape post := by simp [physShape, eup]
  rw [hps', sumSites_cons]
  have hR : ∀ q', InB q' u.ph → (sumSites (physShape post) fun is =>
      f (i ++ [q] ++ q' :: is) * star (mp (u' :: post) (q' :: is) b 0))
      = ∑ c ∈ range u.rb, mp (pre ++ [t, u]) (i ++ [q, q']) 0 c * star (u'.at3 b q' c) := by
    intro q' hq'
    have e4 : ∀ c ∈ range u.rb, mp (pre ++ [t, u]) (i ++ [q, q']) 0 c * star (u'.at3 b q' c)
        = sumSites (physShape post) fun is => f (i ++ [q] ++ q' :: is) * (star (mp post is c 0) * star (u'.at3 b q' c)) := by
      intro c hc
      rw [h c (by simpa using hc) (i ++ [q, q']) (by
        have : physShape (pre ++ [t, u]) = physShape pre ++ [t.ph, u.ph] := by simp [physShape]
        rw [this]
        exact idxOK_append hi (.cons hq (.cons hq' .nil))), sumSites_mul]
      refine sumSites_congr fun is _ => ?_
      rw [mul_assoc]
      congr 2
      simp
    rw [Finset.sum_congr rfl e4, ← sumSites_sum_comm]
    refine sumSites_congr fun is _ => ?_
    rw [mp_cons, eur, star_sum, Finset.mul_sum]
    refine Finset.sum_congr rfl fun c _ => ?_
    rw [star_mul']; ring
  rw [sumIdx_congr hR, sumIdx_sum_comm]

/-- End of a sweep to the right: overlap with the projected tensor. -/
theorem projR_end {f : List (List ℕ) → R} {pre : List (NDArray R)} {w : NDArray R}
    (hch : Chained 1 (pre ++ [w]) 1) (h : ProjR f pre [w] w.lb) :
    (sumSites (physShape (pre ++ [w])) fun i => star (f i) * entry (pre ++ [w]) i)
      = sumIdx w.shape fun i => star (w.get i) * w.get i := by
  obtain ⟨hc1, hw, hr⟩ := chained_concat.1 hch
  have hps : physShape (pre ++ [w]) = physShape pre ++ [w.ph] := by simp [physShape]
  rw [hps, sumSites_append, NDArray.shape_local hw, sumIdx_cons]
  have e : ∀ i, IdxOK i (physShape pre) → (sumSites [w.ph] fun j => star (f (i ++ j)) * entry (pre ++ [w]) (i ++ j))
      = ∑ a ∈ range w.lb, sumIdx w.ph fun p => (star (f (i ++ [p])) * mp pre i 0 a) * w.at3 a p 0 := by
    intro i hi
    rw [sumSites_single, ← sumIdx_sum_comm]
    refine sumIdx_congr fun p _ => ?_
    unfold entry
    rw [mp_concat hc1 (by simpa [physShape] using idxOK_length hi) one_pos (by omega), Finset.mul_sum]
    exact Finset.sum_congr rfl fun a _ => by ring
  rw [sumSites_congr e, sumSites_sum_comm]
  refine Finset.sum_congr rfl fun a ha => ?_
  rw [sumSites_sumIdx_comm, sumIdx_append]
  refine sumIdx_congr fun p hp => ?_
  rw [← sumSites_mul, hr, sumIdx_cons, Finset.sum_range_one]
  simp only [sumIdx_nil]
  show _ * w.at3 a p 0 = star (w.at3 a p 0) * w.at3 a p 0
  congr 1
  have := h a (by simpa using ha) [p] (by simpa [physShape] using hp)
  rw [mp_single (by omega)] at this
  rw [this, star_sumSites]
  exact sumSites_congr fun i _ => by rw [star_mul', star_star]; ring

/-- End of a sweep to the left. -/
theorem projL_end {f : List (List ℕ) → R} {post : List (NDArray R)} {w : NDArray R}
    (hch : Chained 1 (w :: post) 1) (h : ProjL f [w] post w.rb) :
    (sumSites (physShape (w :: post)) fun i => star (f i) * entry (w :: post) i)
      = sumIdx w.shape fun i => star (w.get i) * w.get i := by
  obtain ⟨hw, hl, hc1⟩ := hch
  have hps : physShape (w :: post) = w.ph :: physShape post := by simp [physShape]
  rw [hps, sumSites_cons, NDArray.shape_local hw, sumIdx_cons, hl, Finset.sum_range_one, sumIdx_append]
  refine sumIdx_congr fun p hp => ?_
  rw [sumIdx_cons]
  simp only [sumIdx_nil]
  have e : ∀ is, IdxOK is (physShape post) → star (f (p :: is)) * entry (w :: post) (p :: is)
      = ∑ c ∈ range w.rb, (star (f (p :: is)) * mp post is c 0) * w.at3 0 p c := by
    intro is _
    unfold entry
    rw [mp_cons, Finset.mul_sum]
    exact Finset.sum_congr rfl fun c _ => by ring
  rw [sumSites_congr e, sumSites_sum_comm]
  refine Finset.sum_congr rfl fun c hc => ?_
  rw [← sumSites_mul]
  show _ * w.at3 0 p c = star (w.at3 0 p c) * w.at3 0 p c
  congr 1
  have := h c (by simpa using hc) [p] (by simpa [physShape] using hp)
  rw [mp_single (by simpa using hc)] at this
  rw [this, star_sumSites]
  exact sumSites_congr fun i _ => by rw [star_mul', star_star]; simp

end pure

end Mpnum
