import Verif.MPArray.CompressSweep
import Verif.SpecSvd

/-! One step of a sweep truncates a Schmidt decomposition. -/

open Finset

namespace Mpnum

variable {𝕜 : Type} [RCLike 𝕜]

/-- Left Schmidt vectors in a sweep to the right. -/
noncomputable def wR (pre : List (NDArray 𝕜)) (t U : NDArray 𝕜) (i : List (List ℕ)) (b : ℕ) : 𝕜 :=
  ∑ a ∈ range t.lb, mp pre i.dropLast 0 a * U.get [ravelIdx (t.lb :: t.ph) (a :: i.getLastD []), b]

/-- Right Schmidt vectors in a sweep to the right. -/
noncomputable def zR (t V : NDArray 𝕜) (post : List (NDArray 𝕜)) (b : ℕ) (j : List (List ℕ)) : 𝕜 :=
  ∑ z ∈ range t.rb, V.get [b, z] * mp post j z 0

/-- Left Schmidt vectors in a sweep to the left. -/
noncomputable def wL (pre : List (NDArray 𝕜)) (u U : NDArray 𝕜) (i : List (List ℕ)) (b : ℕ) : 𝕜 :=
  ∑ z ∈ range u.lb, mp pre i 0 z * U.get [z, b]

/-- Right Schmidt vectors in a sweep to the left. -/
noncomputable def zL (u V : NDArray 𝕜) (post : List (NDArray 𝕜)) (b : ℕ) (j : List (List ℕ)) : 𝕜 :=
  ∑ c ∈ range u.rb, V.get [b, ravelIdx (u.ph ++ [u.rb]) (j.headD [] ++ [c])] * mp post j.tail c 0

/-- Value of a chain split at a site whose tensor is `Σ_b U s V`. -/
theorem val_split {pre post : List (NDArray 𝕜)} {t : NDArray 𝕜} (hch : Chained 1 (pre ++ t :: post) 1)
    {i j : List (List ℕ)} {p : List ℕ} (hi : IdxOK i (physShape pre)) :
    entry (pre ++ t :: post) (i ++ p :: j)
      = ∑ a ∈ range t.lb, ∑ z ∈ range t.rb, mp pre i 0 a * t.at3 a p z * mp post j z 0 := by
  obtain ⟨m, hc1, h1, h2, h3⟩ := chained_append.1 hch
  unfold entry
  rw [mp_append hc1 (by simpa [physShape] using idxOK_length hi) one_pos, h2]
  refine Finset.sum_congr rfl fun a _ => ?_
  rw [mp_cons, Finset.mul_sum]
  exact Finset.sum_congr rfl fun z _ => by ring

theorem schmidt_right {svd : SVD 𝕜} (hsvd : SVDSpec svd) {pre post : List (NDArray 𝕜)}
    {t mat : NDArray 𝕜} (hch : Chained 1 (pre ++ t :: post) 1)
    (hL : ∀ w ∈ pre, LCanon w) (hR : ∀ w ∈ post, RCanon w)
    (e2 : mat.shape = [(t.lb :: t.ph).prod, t.rb])
    (e3 : ∀ i b, InB i (t.lb :: t.ph) → b < t.rb → mat.get [ravelIdx (t.lb :: t.ph) i, b] = t.get (i ++ [b])) :
    IsSchmidt (physShape (pre ++ t :: post)) (pre.length + 1) (entry (pre ++ t :: post))
      (wR pre t (svd mat).1) (svd mat).2.1 (zR t (svd mat).2.2 post) := by
  obtain ⟨h1, h2, h3, h4, h5, h6, h7, h8⟩ := hsvd mat _ _ e2
  obtain ⟨m, hc1, g1, g2, g3⟩ := chained_append.1 hch
  have hpre : Chained 1 pre t.lb := by rw [g2]; exact hc1
  have htake : (physShape (pre ++ t :: post)).take (pre.length + 1) = physShape pre ++ [t.ph] := by
    simp [physShape, List.take_append]
  have hdrop : (physShape (pre ++ t :: post)).drop (pre.length + 1) = physShape post := by
    simp [physShape, List.drop_append]
  refine ⟨h4, h5, ?_, ?_, ?_⟩
  · intro b hb b' hb'
    rw [h2] at hb hb'
    rw [htake, sumSites_append]
    have e : ∀ i, IdxOK i (physShape pre) → (sumSites [t.ph] fun j => star (wR pre t (svd mat).1 (i ++ j) b) *
        wR pre t (svd mat).1 (i ++ j) b')
        = sumIdx t.ph fun p => star (∑ a ∈ range t.lb, mp pre i 0 a * (svd mat).1.get [ravelIdx (t.lb :: t.ph) (a :: p), b]) *
          (∑ a ∈ range t.lb, mp pre i 0 a * (svd mat).1.get [ravelIdx (t.lb :: t.ph) (a :: p), b']) := by
      intro i _
      rw [sumSites_single]
      simp [wR]
    rw [sumSites_congr e, sumSites_sumIdx_comm]
    simp only [isoL hpre hL]
    rw [← h6 b (by omega) b' (by omega),
      ← sumIdx_ravel (t.lb :: t.ph) (fun z => star ((svd mat).1.get [z, b]) * (svd mat).1.get [z, b']), sumIdx_cons,
      sumIdx_sum_comm]
  · intro b hb b' hb'
    rw [h2] at hb hb'
    rw [hdrop]
    have := isoR g3 hR (fun z => (svd mat).2.2.get [b, z]) (fun z => (svd mat).2.2.get [b', z])
    unfold zR
    rw [this]
    have h7' := h7 b' (by omega) b (by omega)
    rw [show (if b = b' then (1 : 𝕜) else 0) = if b' = b then 1 else 0 by simp [eq_comm], ← h7']
    exact Finset.sum_congr rfl fun z _ => mul_comm _ _
  · intro i j hi hj
    rw [htake] at hi
    rw [hdrop] at hj
    obtain ⟨i, ip, rfl, hi', hp⟩ := idxOK_append_split hi
    cases hp with
    | @cons p _ js _ hp hjs =>
    cases hjs
    rw [List.append_assoc, List.singleton_append, val_split hch hi', h2]
    simp only [wR, zR, List.dropLast_concat, List.getLastD_concat]
    have e : ∀ a ∈ range t.lb, ∀ z ∈ range t.rb, mp pre i 0 a * t.at3 a p z * mp post j z 0
        = ∑ b ∈ range (min (t.lb :: t.ph).prod t.rb), (mp pre i 0 a * (svd mat).1.get [ravelIdx (t.lb :: t.ph) (a :: p), b]) *
          (((svd mat).2.1.getD b 0 : ℝ) : 𝕜) * ((svd mat).2.2.get [b, z] * mp post j z 0) := by
      intro a ha z hz
      have ha : a < t.lb := by simpa using ha
      have hz : z < t.rb := by simpa using hz
      have hv : t.at3 a p z = mat.get [ravelIdx (t.lb :: t.ph) (a :: p), z] := (e3 (a :: p) z (inB_cons' ha hp) hz).symm
      rw [hv, h8 _ (ravelIdx_lt (inB_cons' ha hp)) z hz, Finset.mul_sum, Finset.sum_mul]
      exact Finset.sum_congr rfl fun b _ => by ring
    rw [Finset.sum_congr rfl fun a ha => Finset.sum_congr rfl fun z hz => e a ha z hz]
    have e' : ∀ a ∈ range t.lb, ∑ z ∈ range t.rb, ∑ b ∈ range (min (t.lb :: t.ph).prod t.rb), (mp pre i 0 a * (svd mat).1.get [ravelIdx (t.lb :: t.ph) (a :: p), b]) *
          (((svd mat).2.1.getD b 0 : ℝ) : 𝕜) * ((svd mat).2.2.get [b, z] * mp post j z 0)
        = ∑ b ∈ range (min (t.lb :: t.ph).prod t.rb), (mp pre i 0 a * (svd mat).1.get [ravelIdx (t.lb :: t.ph) (a :: p), b]) *
          (((svd mat).2.1.getD b 0 : ℝ) : 𝕜) * ∑ z ∈ range t.rb, ((svd mat).2.2.get [b, z] * mp post j z 0) := by
      intro a _
      rw [Finset.sum_comm]
      exact Finset.sum_congr rfl fun b _ => by rw [Finset.mul_sum]
    rw [Finset.sum_congr rfl e', Finset.sum_comm]
    refine Finset.sum_congr rfl fun b _ => ?_
    rw [Finset.sum_mul, Finset.sum_mul]

theorem schmidt_left {svd : SVD 𝕜} (hsvd : SVDSpec svd) {pre post : List (NDArray 𝕜)}
    {u mat : NDArray 𝕜} (hch : Chained 1 (pre ++ u :: post) 1)
    (hL : ∀ w ∈ pre, LCanon w) (hR : ∀ w ∈ post, RCanon w)
    (e2 : mat.shape = [u.lb, (u.ph ++ [u.rb]).prod])
    (e3 : ∀ a j, a < u.lb → InB j (u.ph ++ [u.rb]) → mat.get [a, ravelIdx (u.ph ++ [u.rb]) j] = u.get (a :: j)) :
    IsSchmidt (physShape (pre ++ u :: post)) pre.length (entry (pre ++ u :: post))
      (wL pre u (svd mat).1) (svd mat).2.1 (zL u (svd mat).2.2 post) := by
  obtain ⟨h1, h2, h3, h4, h5, h6, h7, h8⟩ := hsvd mat _ _ e2
  obtain ⟨m, hc1, g1, g2, g3⟩ := chained_append.1 hch
  have hpre : Chained 1 pre u.lb := by rw [g2]; exact hc1
  have htake : (physShape (pre ++ u :: post)).take pre.length = physShape pre := by
    simp [physShape]
  have hdrop : (physShape (pre ++ u :: post)).drop pre.length = u.ph :: physShape post := by
    simp [physShape]
  refine ⟨h4, h5, ?_, ?_, ?_⟩
  · intro b hb b' hb'
    rw [h2] at hb hb'
    rw [htake]
    unfold wL
    rw [isoL hpre hL (fun z => (svd mat).1.get [z, b]) (fun z => (svd mat).1.get [z, b'])]
    exact h6 b (by omega) b' (by omega)
  · intro b hb b' hb'
    rw [h2] at hb hb'
    rw [hdrop, sumSites_cons]
    have := fun q => isoR g3 hR (fun c => (svd mat).2.2.get [b, ravelIdx (u.ph ++ [u.rb]) (q ++ [c])])
      (fun c => (svd mat).2.2.get [b', ravelIdx (u.ph ++ [u.rb]) (q ++ [c])])
    simp only [zL, List.headD_cons, List.tail_cons, this]
    have h7' := h7 b' (by omega) b (by omega)
    rw [show (if b = b' then (1 : 𝕜) else 0) = if b' = b then 1 else 0 by simp [eq_comm], ← h7',
      ← sumIdx_ravel (u.ph ++ [u.rb]) (fun z => (svd mat).2.2.get [b', z] * star ((svd mat).2.2.get [b, z])), sumIdx_append]
    refine sumIdx_congr fun q _ => ?_
    rw [sumIdx_cons]
    exact Finset.sum_congr rfl fun c _ => by rw [mul_comm]; rfl
  · intro i j hi hj
    rw [htake] at hi
    rw [hdrop] at hj
    cases hj with
    | @cons p _ js _ hp hjs =>
    rw [val_split hch hi, h2]
    simp only [wL, zL, List.headD_cons, List.tail_cons]
    have e : ∀ z ∈ range u.lb, ∀ c ∈ range u.rb, mp pre i 0 z * u.at3 z p c * mp post js c 0
        = ∑ b ∈ range (min u.lb (u.ph ++ [u.rb]).prod), (mp pre i 0 z * (svd mat).1.get [z, b]) *
          (((svd mat).2.1.getD b 0 : ℝ) : 𝕜) * ((svd mat).2.2.get [b, ravelIdx (u.ph ++ [u.rb]) (p ++ [c])] * mp post js c 0) := by
      intro z hz c hc
      have hz : z < u.lb := by simpa using hz
      have hj : InB (p ++ [c]) (u.ph ++ [u.rb]) := inB_append hp (by simpa using hc)
      have hv : u.at3 z p c = mat.get [z, ravelIdx (u.ph ++ [u.rb]) (p ++ [c])] := (e3 z (p ++ [c]) hz hj).symm
      rw [hv, h8 z hz _ (ravelIdx_lt hj), Finset.mul_sum, Finset.sum_mul]
      exact Finset.sum_congr rfl fun b _ => by ring
    rw [Finset.sum_congr rfl fun a ha => Finset.sum_congr rfl fun z hz => e a ha z hz]
    have e' : ∀ z ∈ range u.lb, ∑ c ∈ range u.rb, ∑ b ∈ range (min u.lb (u.ph ++ [u.rb]).prod), (mp pre i 0 z * (svd mat).1.get [z, b]) *
          (((svd mat).2.1.getD b 0 : ℝ) : 𝕜) * ((svd mat).2.2.get [b, ravelIdx (u.ph ++ [u.rb]) (p ++ [c])] * mp post js c 0)
        = ∑ b ∈ range (min u.lb (u.ph ++ [u.rb]).prod), (mp pre i 0 z * (svd mat).1.get [z, b]) *
          (((svd mat).2.1.getD b 0 : ℝ) : 𝕜) * ∑ c ∈ range u.rb, ((svd mat).2.2.get [b, ravelIdx (u.ph ++ [u.rb]) (p ++ [c])] * mp post js c 0) := by
      intro a _
      rw [Finset.sum_comm]
      exact Finset.sum_congr rfl fun b _ => by rw [Finset.mul_sum]
    rw [Finset.sum_congr rfl e', Finset.sum_comm]
    refine Finset.sum_congr rfl fun b _ => ?_
    rw [Finset.sum_mul, Finset.sum_mul]

/-- Value after a step of the sweep to the right. -/
theorem stepR_val {x y : MPA 𝕜} {pre post : List (NDArray 𝕜)} {t u t' u' mat : NDArray 𝕜}
    {p : NDArray 𝕜 × List ℝ × NDArray 𝕜 × ℕ} (hst : MPA.StepR x pre post t u t' u' mat p y) (hx : x.Good)
    (htu : t.rb = u.lb) {i j : List (List ℕ)}
    (hi : IdxOK i (physShape pre ++ [t.ph])) (hj : IdxOK j (physShape (u :: post))) :
    y.val (i ++ j) = ∑ b ∈ range p.2.2.2, wR pre t p.1 i b * ((p.2.1.getD b 0 : ℝ) : 𝕜) * zR t p.2.2.1 (u :: post) b j := by
  have hch := (hst.good hx).valid.chain
  rw [hst.lt] at hch
  obtain ⟨i, ip, rfl, hi', hp⟩ := idxOK_append_split hi
  cases hp with
  | @cons q _ js _ hq hjs =>
  cases hjs
  show entry y.lt _ = _
  rw [hst.lt, List.append_assoc, List.singleton_append, val_split hch hi', NDArray.lb_of_shape hst.tshape,
    NDArray.rb_of_shape hst.tshape]
  have hps : physShape (u :: post) = u.ph :: physShape post := rfl
  rw [hps] at hj
  cases hj with
  | @cons q' _ js _ hq' hjs =>
  have hz : ∀ b < p.2.2.2, mp (u' :: post) (q' :: js) b 0
      = ((p.2.1.getD b 0 : ℝ) : 𝕜) * zR t p.2.2.1 (u :: post) b (q' :: js) := by
    intro b hb
    rw [mp_cons, NDArray.rb_of_shape hst.ushape]
    simp only [hst.uval b hb q' hq', zR, mp_cons, Finset.mul_sum, Finset.sum_mul]
    rw [Finset.sum_comm, htu]
    exact Finset.sum_congr rfl fun z _ => Finset.sum_congr rfl fun c _ => by ring
  rw [Finset.sum_comm]
  refine Finset.sum_congr rfl fun b hb => ?_
  have hb : b < p.2.2.2 := by simpa using hb
  rw [hz b hb, ← Finset.sum_mul, wR, ← mul_assoc]
  congr 2
  simp only [List.dropLast_concat, List.getLastD_concat]
  refine Finset.sum_congr rfl fun a ha => ?_
  rw [hst.tval a (by simpa using ha) q hq b hb]

/-- Value after a step of the sweep to the left. -/
theorem stepL_val {x y : MPA 𝕜} {pre post : List (NDArray 𝕜)} {t u t' u' mat : NDArray 𝕜}
    {p : NDArray 𝕜 × List ℝ × NDArray 𝕜 × ℕ} (hst : MPA.StepL x pre post t u t' u' mat p y) (hx : x.Good)
    (hpre : Chained 1 pre t.lb) (htu : t.rb = u.lb) {i j : List (List ℕ)}
    (hi : IdxOK i (physShape (pre ++ [t]))) (hj : IdxOK j (u.ph :: physShape post)) :
    y.val (i ++ j) = ∑ b ∈ range p.2.2.2, wL (pre ++ [t]) u p.1 i b * ((p.2.1.getD b 0 : ℝ) : 𝕜) * zL u p.2.2.1 post b j := by
  have hch := (hst.good hx).valid.chain
  rw [hst.lt] at hch
  have hps : physShape (pre ++ [t]) = physShape pre ++ [t.ph] := by simp [physShape]
  rw [hps] at hi
  obtain ⟨i, ip, rfl, hi', hp⟩ := idxOK_append_split hi
  cases hp with
  | @cons q _ js _ hq hjs =>
  cases hjs
  show entry y.lt _ = _
  rw [hst.lt, List.append_assoc, List.singleton_append, val_split hch hi', NDArray.lb_of_shape hst.tshape,
    NDArray.rb_of_shape hst.tshape]
  cases hj with
  | @cons q' _ js _ hq' hjs =>
  rw [Finset.sum_comm]
  refine Finset.sum_congr rfl fun b hb => ?_
  have hb : b < p.2.2.2 := by simpa using hb
  rw [← Finset.sum_mul]
  congr 1
  · simp only [hst.tval _ q hq b hb, wL]
    have hil : i.length = pre.length := by simpa [physShape] using idxOK_length hi'
    have e : ∀ z ∈ range u.lb, mp (pre ++ [t]) (i ++ [q]) 0 z * p.1.get [z, b] * ((p.2.1.getD b 0 : ℝ) : 𝕜)
        = ∑ a ∈ range t.lb, mp pre i 0 a * (t.at3 a q z * (p.1.get [z, b] * ((p.2.1.getD b 0 : ℝ) : 𝕜))) := by
      intro z hz
      rw [mp_concat hpre hil one_pos (by rw [htu]; simpa using hz), Finset.sum_mul, Finset.sum_mul]
      exact Finset.sum_congr rfl fun a _ => by ring
    rw [Finset.sum_mul, Finset.sum_congr rfl e, Finset.sum_comm, htu]
    refine Finset.sum_congr rfl fun a _ => ?_
    rw [Finset.mul_sum]
  · simp only [zL, List.headD_cons, List.tail_cons]
    rw [mp_cons, NDArray.rb_of_shape hst.ushape]
    refine Finset.sum_congr rfl fun c hc => ?_
    rw [hst.uval b hb q' hq' c (by simpa using hc)]

end Mpnum
