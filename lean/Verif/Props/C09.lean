import Verif.MPArray.Norm
import Verif.MPArray.Inner
import Verif.Props.C10
import Verif.Props.C06

/-!
# C09: `inner` is the Hilbert-Schmidt inner product, `norm` the Frobenius norm
-/

open Finset

namespace Mpnum

/-- C09: `inner(a, b)` is the sum of `conj(A_i) * B_i` over all physical indices. -/
theorem C09_inner {R : Type} [CommRing R] [StarRing R] (x y : MPA R) (hx : x.Valid) (hy : y.Valid)
    (hs : x.shape = y.shape) (hpx : ∀ r ∈ x.ranks, 0 < r) (hpy : ∀ r ∈ y.ranks, 0 < r) :
    inner x y = .ok (sumSites x.shape fun i => star (x.val i) * y.val i) :=
  inner_ok hx hy hs hpx hpy

variable {𝕜 : Type} [RCLike 𝕜]

theorem star_mul_self_eq (z : 𝕜) : star z * z = ((‖z‖ ^ 2 : ℝ) : 𝕜) := by
  rw [RCLike.star_def, RCLike.conj_mul]; push_cast; rfl

theorem sumIdx_ofReal (s : List ℕ) (f : List ℕ → ℝ) :
    (sumIdx s fun i => ((f i : ℝ) : 𝕜)) = ((sumIdx s f : ℝ) : 𝕜) := by
  induction s generalizing f with
  | nil => rfl
  | cons d s ih =>
    simp only [sumIdx_cons, ih]
    push_cast; rfl

theorem sumSites_ofReal (s : List (List ℕ)) (f : List (List ℕ) → ℝ) :
    (sumSites s fun i => ((f i : ℝ) : 𝕜)) = ((sumSites s f : ℝ) : 𝕜) := by
  induction s generalizing f with
  | nil => rfl
  | cons s ss ih =>
    simp only [sumSites_cons, ih]
    exact sumIdx_ofReal s _

theorem sumIdx_nonneg {s : List ℕ} {f : List ℕ → ℝ} (h : ∀ i, 0 ≤ f i) : 0 ≤ sumIdx s f := by
  induction s generalizing f with
  | nil => exact h []
  | cons d s ih => exact Finset.sum_nonneg fun i _ => ih fun _ => h _

theorem sumSites_nonneg {s : List (List ℕ)} {f : List (List ℕ) → ℝ} (h : ∀ i, 0 ≤ f i) :
    0 ≤ sumSites s f := by
  induction s generalizing f with
  | nil => exact h []
  | cons d s ih => exact sumIdx_nonneg fun i => ih fun _ => h _

/-- Frobenius norm of the tensor represented by an MPA. -/
noncomputable def MPA.frob (x : MPA 𝕜) : ℝ := Real.sqrt (sumSites x.shape fun i => ‖x.val i‖ ^ 2)

theorem frob_center {pre post : List (NDArray 𝕜)} {t : NDArray 𝕜}
    (h : Chained 1 (pre ++ t :: post) 1)
    (hl : ∀ t ∈ pre, LCanon t) (hr : ∀ t ∈ post, RCanon t) :
    (sumSites (physShape (pre ++ t :: post)) fun i => ‖entry (pre ++ t :: post) i‖ ^ 2)
      = sumIdx t.shape fun i => ‖t.get i‖ ^ 2 := by
  have := center_norm h hl hr
  simp only [star_mul_self_eq] at this
  rw [sumSites_ofReal, sumIdx_ofReal] at this
  exact_mod_cast this

theorem MPA.Same.frob {x y : MPA 𝕜} (h : x.Same y) : y.frob = x.frob := by
  unfold MPA.frob
  rw [h.shape]
  congr 1
  exact sumSites_congr fun i hi => by rw [h.val i hi]

theorem norm_ok {qr : QR 𝕜} (hqr : QRSpec qr) {x : MPA 𝕜} (hx : x.Good) :
    ∃ y, norm qr x = .ok (x.frob, y) ∧ MPA.CanonStepSpec x y := by
  obtain ⟨y, h1, h2, h3, h4⟩ := MPA.canonicalize_none hqr hx
  refine ⟨y, ?_, h2⟩
  unfold norm
  rw [h1, ok_bind, ← h2.same.frob]
  have hcan := h2.good.canon
  have hch := h2.good.valid.chain
  by_cases hr : y.r = 1
  · rw [if_pos hr]
    obtain ⟨t, ts, hts⟩ := List.exists_cons_of_ne_nil h2.good.valid.ne
    have e : y.site 0 = .ok t := MPA.site_ok (pre := []) (post := ts) hts
    rw [e, ok_bind]
    rw [hts] at hch
    have := frob_center (pre := []) (post := ts) (t := t) hch (by simp) (by
      intro u hu
      obtain ⟨n, hn⟩ := List.mem_iff_getElem?.1 hu
      exact (hcan (n + 1) u (by rw [hts]; simpa using hn)).2 (by rw [hr]; push_cast; omega))
    unfold MPA.frob npNorm
    rw [← this, show y.shape = physShape y.lt from rfl, hts]
    simp only [MPA.val, hts]
    rfl
  · have hl : y.l = y.len - 1 := by
      rw [h2.len]
      split at h3 <;> omega
    rw [if_neg hr, if_pos hl]
    obtain ⟨ts, t, hts⟩ : ∃ ts t, y.lt = ts ++ [t] :=
      ⟨_, _, (List.dropLast_append_getLast h2.good.valid.ne).symm⟩
    have hlen : y.len = ts.length + 1 := by simp [MPA.len, hts]
    have e : y.site (-1) = .ok t := by
      unfold MPA.site
      rw [show pyIndex y.len (-1) = .ok ts.length by
        rw [hlen]; unfold pyIndex; simp]
      rw [ok_bind, hts]; simp
    rw [e, ok_bind]
    rw [hts] at hch
    have := frob_center (pre := ts) (post := []) (t := t) hch (by
      intro u hu
      obtain ⟨n, hn⟩ := List.mem_iff_getElem?.1 hu
      have hlt : n < ts.length := (List.getElem?_eq_some_iff.1 hn).1
      exact (hcan n u (by rw [hts, List.getElem?_append_left hlt]; exact hn)).1
        (by rw [hl, hlen]; push_cast; omega)) (by simp)
    unfold MPA.frob npNorm
    rw [← this, show y.shape = physShape y.lt from rfl, hts]
    simp only [MPA.val, hts]
    rfl

theorem ranks_pos_of_good {R : Type} [CommRing R] [StarRing R] {x : MPA R} (hx : x.Good) :
    ∀ r ∈ x.ranks, 0 < r := by
  intro r hr
  obtain ⟨t, ht, rfl⟩ := List.mem_map.1 hr
  exact hx.pos.lb (List.mem_of_mem_tail ht) (hx.valid.chain.isLocal t (List.mem_of_mem_tail ht))

/-- C09: for every MPA and every starting canonical form, `norm(a)` returns the Frobenius norm,
its square is `inner(a, a)`, and afterwards `a` represents the same tensor and satisfies the same
invariants as before. -/
theorem C09_norm {qr : QR 𝕜} (hqr : QRSpec qr) (x : MPA 𝕜) (hx : x.Good) :
    ∃ (v : ℝ) (y : MPA 𝕜), norm qr x = .ok (v, y) ∧
      v = Real.sqrt (sumSites x.shape fun i => ‖x.val i‖ ^ 2) ∧
      inner x x = .ok ((v ^ 2 : ℝ) : 𝕜) ∧
      y.Good ∧ y.shape = x.shape ∧ ∀ idx, IdxOK idx x.shape → y.val idx = x.val idx := by
  obtain ⟨y, h1, h2⟩ := norm_ok hqr hx
  refine ⟨_, y, h1, rfl, ?_, h2.good, h2.same.shape, h2.same.val⟩
  rw [inner_ok hx.valid hx.valid rfl (ranks_pos_of_good hx) (ranks_pos_of_good hx)]
  congr 1
  simp only [star_mul_self_eq]
  rw [sumSites_ofReal, MPA.frob, Real.sq_sqrt (sumSites_nonneg fun _ => by positivity)]

/-- A valid MPA without canonical claims and with positive physical dimensions and ranks is good. -/
theorem allPos_of {R : Type} {x : MPA R} (hx : x.Valid) (hs : ∀ s ∈ x.shape, ∀ d ∈ s, 0 < d)
    (hr : ∀ r ∈ x.ranks, 0 < r) : AllPos x.lt := by
  have aux : ∀ (l r : ℕ) (ts : List (NDArray R)), 0 < l → 0 < r → Chained l ts r →
      (∀ q ∈ ts.tail.map NDArray.lb, 0 < q) → (∀ t ∈ ts, ∀ d ∈ t.ph, 0 < d) → AllPos ts := by
    intro l r ts
    induction ts generalizing l with
    | nil => intro _ _ _ _ _ t ht; simp at ht
    | cons u us ih =>
      intro hl hr hc hq hp
      obtain ⟨h1, h2, h3⟩ := hc
      have hrb : 0 < u.rb := by
        cases us with
        | nil => simp at h3; omega
        | cons v vs => rw [← h3.2.1]; exact hq _ (by simp)
      intro t ht d hd
      rcases List.mem_cons.1 ht with rfl | ht
      · rw [NDArray.shape_local h1] at hd
        simp only [List.mem_cons, List.mem_append, List.not_mem_nil, or_false] at hd
        rcases hd with hd | hd | hd
        · omega
        · exact hp t (by simp) d hd
        · omega
      · refine ih u.rb hrb hr h3 ?_ (fun t ht => hp t (by simp [ht])) t ht d hd
        intro q hq'
        obtain ⟨w, hw, rfl⟩ := List.mem_map.1 hq'
        exact hq _ (List.mem_map.2 ⟨w, List.mem_of_mem_tail hw, rfl⟩)
  refine aux 1 1 x.lt one_pos one_pos hx.chain hr ?_
  intro t ht d hd
  exact hs t.ph (List.mem_map.2 ⟨t, ht, rfl⟩) d hd

theorem shape_pos_of_good {R : Type} [CommRing R] [StarRing R] {x : MPA R} (hx : x.Good) :
    ∀ s ∈ x.shape, ∀ d ∈ s, 0 < d := by
  intro s hs d hd
  obtain ⟨t, ht, rfl⟩ := List.mem_map.1 hs
  refine hx.pos t ht d ?_
  rw [NDArray.shape_local (hx.valid.chain.isLocal t ht)]; simp [hd]

/-- C09: `normdist(a, b)` is the Frobenius norm of the difference. -/
theorem C09_normdist {qr : QR 𝕜} (hqr : QRSpec qr) (x y : MPA 𝕜) (hx : x.Good) (hy : y.Good)
    (hs : x.shape = y.shape) :
    normdist qr x y = .ok (Real.sqrt (sumSites x.shape fun i => ‖x.val i - y.val i‖ ^ 2)) := by
  obtain ⟨z, h1, h2, h3, h4, h5, h6⟩ := C05_sub x y hx.valid hy.valid hs
  have hzr : ∀ r ∈ z.ranks, 0 < r := by
    intro r hr
    obtain ⟨k, hk⟩ := List.mem_iff_getElem?.1 hr
    have hlen : z.len = x.len := by
      have := congrArg List.length h3; simpa [MPA.shape, MPA.len] using this
    have hk' : k + 1 < x.len := by
      have := (List.getElem?_eq_some_iff.1 hk).1
      simp [MPA.ranks, MPA.len] at this hlen ⊢
      omega
    rw [h5 k hk'] at hk
    have hx0 : 0 < x.ranks.getD k 0 := by
      have hkx : k < x.ranks.length := by simp [MPA.ranks, MPA.len] at hk' ⊢; omega
      rw [List.getD_eq_getElem?_getD, List.getElem?_eq_getElem hkx, Option.getD_some]
      exact ranks_pos_of_good hx _ (List.getElem_mem hkx)
    injection hk with hk
    omega
  have hz : z.Good := ⟨h2, by rw [show z = ⟨z.lt, 0, z.lt.length⟩ from by
      cases z; simp [MPA.len] at h6; simp [h6]]; exact canonOK_mk _,
    allPos_of h2 (by rw [h3]; exact shape_pos_of_good hx) hzr⟩
  obtain ⟨w, g1, _⟩ := norm_ok hqr hz
  unfold normdist
  rw [h1, ok_bind, g1]
  show Except.ok z.frob = _
  unfold MPA.frob
  rw [h3]
  congr 2
  exact sumSites_congr fun i hi => by rw [h4 i hi]

/-- Non-vacuity: a QR routine exists, and `norm` of the example MPA returns its Frobenius norm. -/
example : exMPAc.Good ∧ ∃ qr : QR ℂ, QRSpec qr ∧ ∃ y, norm qr exMPAc = .ok (exMPAc.frob, y) := by
  obtain ⟨qr, hqr⟩ := exists_QRSpec (𝕜 := ℂ)
  obtain ⟨y, h, _⟩ := norm_ok hqr exMPAc_good
  exact ⟨exMPAc_good, qr, hqr, y, h⟩

end Mpnum
