import Verif.Props.C09
import Verif.MPArray.OpenCompress
import Mathlib.Analysis.InnerProductSpace.PiL2

/-!
# C71: `inner`, `norm` and `normdist` are the inner product, norm and metric of a Hilbert space

The laws are stated about the results of calls.  `norm` canonicalizes its argument in place, so its model returns the value
and the new state.
-/

open Finset

namespace Mpnum

variable {𝕜 : Type} [RCLike 𝕜]

/-- The tensor represented by an MPA of shape `S` as a vector of a Euclidean space. -/
noncomputable def MPA.vec (S : List (List ℕ)) (x : MPA 𝕜) : EuclideanSpace 𝕜 (siteSet S) :=
  WithLp.toLp 2 fun i => x.val i.1

theorem frob_vec (x : MPA 𝕜) : x.frob = ‖x.vec x.shape‖ := by
  rw [EuclideanSpace.norm_eq, MPA.frob, sumSites_eq_sum, ← Finset.sum_coe_sort]
  rfl

theorem inner_vec (S : List (List ℕ)) (x y : MPA 𝕜) :
    (sumSites S fun i => star (x.val i) * y.val i) = Inner.inner 𝕜 (x.vec S) (y.vec S) := by
  rw [PiLp.inner_apply, sumSites_eq_sum, ← Finset.sum_coe_sort]
  refine Finset.sum_congr rfl fun i _ => ?_
  rw [RCLike.inner_apply, mul_comm]
  rfl

theorem vec_add {S : List (List ℕ)} {x y z : MPA 𝕜} (h : ∀ i, IdxOK i S → z.val i = x.val i + y.val i) :
    z.vec S = x.vec S + y.vec S := by
  ext i; exact h i.1 (mem_siteSet.1 i.2)

theorem vec_sub {S : List (List ℕ)} {x y z : MPA 𝕜} (h : ∀ i, IdxOK i S → z.val i = x.val i - y.val i) :
    z.vec S = x.vec S - y.vec S := by
  ext i; exact h i.1 (mem_siteSet.1 i.2)

theorem vec_smul {S : List (List ℕ)} {x z : MPA 𝕜} {c : 𝕜} (h : ∀ i, IdxOK i S → z.val i = c * x.val i) :
    z.vec S = c • x.vec S := by
  ext i; exact h i.1 (mem_siteSet.1 i.2)

theorem vec_eq_iff {S : List (List ℕ)} {x y : MPA 𝕜} : x.vec S = y.vec S ↔ ∀ i, IdxOK i S → x.val i = y.val i := by
  constructor
  · intro h i hi
    exact congrFun (congrArg WithLp.ofLp h) ⟨i, mem_siteSet.2 hi⟩
  · intro h; ext i; exact h i.1 (mem_siteSet.1 i.2)

theorem vec_eq_zero_iff {S : List (List ℕ)} {x : MPA 𝕜} : x.vec S = 0 ↔ ∀ i, IdxOK i S → x.val i = 0 := by
  constructor
  · intro h i hi
    exact congrFun (congrArg WithLp.ofLp h) ⟨i, mem_siteSet.2 hi⟩
  · intro h; ext i; exact h i.1 (mem_siteSet.1 i.2)

/-- Sums of good MPAs are good. -/
theorem good_of_add {R : Type} [CommRing R] [StarRing R] {x y z : MPA R} (hx : x.Good) (h2 : z.Valid)
    (h3 : z.shape = x.shape)
    (h5 : ∀ k, k + 1 < x.len → z.ranks[k]? = some (x.ranks.getD k 0 + y.ranks.getD k 0)) (h6 : z.l = 0 ∧ z.r = z.len) :
    z.Good := by
  have hzr : ∀ r ∈ z.ranks, 0 < r := by
    intro r hr
    obtain ⟨k, hk⟩ := List.mem_iff_getElem?.1 hr
    have hlen : z.len = x.len := by
      have := congrArg List.length h3; simpa [MPA.shape, MPA.len] using this
    have hk' : k + 1 < x.len := by
      have := (List.getElem?_eq_some_iff.1 hk).1
      simp [MPA.ranks, MPA.len] at this hlen ⊢
      omega
    rw [h5 k hk'] at hk
    have hx0 : 0 < x.ranks.getD k 0 := by
      have hkx : k < x.ranks.length := by simp [MPA.ranks, MPA.len] at hk' ⊢; omega
      rw [List.getD_eq_getElem?_getD, List.getElem?_eq_getElem hkx, Option.getD_some]
      exact ranks_pos_of_good hx _ (List.getElem_mem hkx)
    injection hk with hk
    omega
  exact ⟨h2, by rw [show z = ⟨z.lt, 0, z.lt.length⟩ from by
      cases z; simp [MPA.len] at h6; simp [h6]]; exact canonOK_mk _,
    allPos_of h2 (by rw [h3]; exact shape_pos_of_good hx) hzr⟩

theorem good_add {x y : MPA 𝕜} (hx : x.Good) (hy : y.Good) (hs : x.shape = y.shape) :
    ∃ z, x.add y = .ok z ∧ z.Good ∧ z.shape = x.shape ∧ ∀ i, IdxOK i x.shape → z.val i = x.val i + y.val i := by
  obtain ⟨z, h1, h2, h3, h4, h5, h6⟩ := C05_add x y hx.valid hy.valid hs
  exact ⟨z, h1, good_of_add hx h2 h3 h5 h6, h3, h4⟩

theorem good_mul {x : MPA 𝕜} (hx : x.Good) (c : 𝕜) :
    ∃ z, x.mul c = .ok z ∧ z.Good ∧ z.shape = x.shape ∧ ∀ i, IdxOK i x.shape → z.val i = c * x.val i := by
  obtain ⟨z, h1, h2, h3⟩ := C06_mul x hx.valid c
  exact ⟨z, h1, ⟨h2.valid, h3 hx.canon, allPos_of h2.valid (by rw [h2.shape]; exact shape_pos_of_good hx)
    (by rw [h2.ranks]; exact ranks_pos_of_good hx)⟩, h2.shape, h2.val⟩

theorem inner_good {x y : MPA 𝕜} (hx : x.Good) (hy : y.Good) (hs : x.shape = y.shape) :
    inner x y = .ok (Inner.inner 𝕜 (x.vec x.shape) (y.vec x.shape)) := by
  rw [inner_ok hx.valid hy.valid hs (ranks_pos_of_good hx) (ranks_pos_of_good hy), inner_vec]

theorem normdist_vec {qr : QR 𝕜} (hqr : QRSpec qr) {x y : MPA 𝕜} (hx : x.Good) (hy : y.Good) (hs : x.shape = y.shape) :
    normdist qr x y = .ok ‖x.vec x.shape - y.vec x.shape‖ := by
  rw [C09_normdist hqr x y hx hy hs, EuclideanSpace.norm_eq, sumSites_eq_sum, ← Finset.sum_coe_sort]
  rfl

/-- C71: `inner(y, x)` is the complex conjugate of `inner(x, y)`. -/
theorem C71_inner_conj (x y : MPA 𝕜) (hx : x.Good) (hy : y.Good) (hs : x.shape = y.shape) :
    ∃ p, inner x y = .ok p ∧ inner y x = .ok (star p) := by
  refine ⟨_, inner_good hx hy hs, ?_⟩
  rw [inner_good hy hx hs.symm, ← hs]
  exact congrArg _ (inner_conj_symm _ _).symm

/-- C71: `inner` is linear in its second argument and conjugate linear in its first. -/
theorem C71_inner_linear (x y z : MPA 𝕜) (c : 𝕜) (hx : x.Good) (hy : y.Good) (hz : z.Good) (hs : x.shape = y.shape)
    (hs' : x.shape = z.shape) :
    ∃ a b, inner x y = .ok a ∧ inner x z = .ok b ∧
      (do let w ← y.add z; inner x w) = .ok (a + b) ∧
      (do let w ← y.mul c; inner x w) = .ok (c * a) ∧
      (do let w ← y.add z; inner w x) = .ok (star a + star b) ∧
      (do let w ← x.mul c; inner w y) = .ok (star c * a) := by
  obtain ⟨w, w1, w2, w3, w4⟩ := good_add hy hz (hs.symm.trans hs')
  obtain ⟨u, u1, u2, u3, u4⟩ := good_mul hy c
  obtain ⟨v, v1, v2, v3, v4⟩ := good_mul hx c
  refine ⟨_, _, inner_good hx hy hs, inner_good hx hz hs', ?_, ?_, ?_, ?_⟩
  · rw [w1, ok_bind, inner_good hx w2 (hs.trans w3.symm), vec_add (S := x.shape) (z := w) (by rw [hs]; exact w4), inner_add_right]
  · rw [u1, ok_bind, inner_good hx u2 (hs.trans u3.symm), vec_smul (S := x.shape) (z := u) (by rw [hs]; exact u4),
      inner_smul_right]
  · rw [w1, ok_bind, inner_good w2 hx (w3.trans hs.symm), w3, ← hs, vec_add (S := x.shape) (z := w) (by rw [hs]; exact w4),
      inner_add_left, ← inner_conj_symm, ← inner_conj_symm (z.vec x.shape)]
    rfl
  · rw [v1, ok_bind, inner_good v2 hy (v3.trans hs), v3, vec_smul v4, inner_smul_left]
    rfl

/-- C71: `norm(x)` is not negative, and zero only for the zero tensor. -/
theorem C71_norm_definite {qr : QR 𝕜} (hqr : QRSpec qr) (x : MPA 𝕜) (hx : x.Good) :
    ∃ v x', norm qr x = .ok (v, x') ∧ 0 ≤ v ∧ (v = 0 ↔ ∀ i, IdxOK i x.shape → x.val i = 0) := by
  obtain ⟨x', h, -⟩ := norm_ok hqr hx
  refine ⟨_, x', h, Real.sqrt_nonneg _, ?_⟩
  rw [frob_vec, norm_eq_zero, vec_eq_zero_iff]

/-- C71, Cauchy-Schwarz inequality: `|inner(x, y)| <= norm(x) * norm(y)`. -/
theorem C71_cauchy_schwarz {qr : QR 𝕜} (hqr : QRSpec qr) (x y : MPA 𝕜) (hx : x.Good) (hy : y.Good)
    (hs : x.shape = y.shape) :
    ∃ p v w x' y', inner x y = .ok p ∧ norm qr x = .ok (v, x') ∧ norm qr y = .ok (w, y') ∧ ‖p‖ ≤ v * w := by
  obtain ⟨x', h, -⟩ := norm_ok hqr hx
  obtain ⟨y', h', -⟩ := norm_ok hqr hy
  refine ⟨_, _, _, x', y', inner_good hx hy hs, h, h', ?_⟩
  rw [frob_vec, frob_vec, ← hs]
  exact norm_inner_le_norm _ _

/-- C71: `norm(x + y) <= norm(x) + norm(y)` and `norm(c * x) = |c| * norm(x)`. -/
theorem C71_norm {qr : QR 𝕜} (hqr : QRSpec qr) (x y : MPA 𝕜) (c : 𝕜) (hx : x.Good) (hy : y.Good) (hs : x.shape = y.shape) :
    ∃ v w s m x' y' s' m', norm qr x = .ok (v, x') ∧ norm qr y = .ok (w, y') ∧
      (do let z ← x.add y; norm qr z) = .ok (s, s') ∧ (do let z ← x.mul c; norm qr z) = .ok (m, m') ∧
      s ≤ v + w ∧ m = ‖c‖ * v := by
  obtain ⟨z, z1, z2, z3, z4⟩ := good_add hx hy hs
  obtain ⟨u, u1, u2, u3, u4⟩ := good_mul hx c
  obtain ⟨x', h, -⟩ := norm_ok hqr hx
  obtain ⟨y', h', -⟩ := norm_ok hqr hy
  obtain ⟨s', hz, -⟩ := norm_ok hqr z2
  obtain ⟨m', hu, -⟩ := norm_ok hqr u2
  refine ⟨_, _, _, _, x', y', s', m', h, h', by rw [z1, ok_bind]; exact hz, by rw [u1, ok_bind]; exact hu, ?_, ?_⟩
  · rw [frob_vec, frob_vec, frob_vec, ← hs, z3, vec_add z4]
    exact norm_add_le _ _
  · rw [frob_vec, frob_vec, u3, vec_smul u4, norm_smul]

/-- C71: `normdist` is a metric on tensors: not negative, zero exactly for equal tensors, symmetric, with the triangle
inequality. -/
theorem C71_metric {qr : QR 𝕜} (hqr : QRSpec qr) (x y z : MPA 𝕜) (hx : x.Good) (hy : y.Good) (hz : z.Good)
    (hs : x.shape = y.shape) (hs' : y.shape = z.shape) :
    ∃ a b c, normdist qr x y = .ok a ∧ normdist qr y z = .ok b ∧ normdist qr x z = .ok c ∧
      normdist qr y x = .ok a ∧ 0 ≤ a ∧ (a = 0 ↔ ∀ i, IdxOK i x.shape → x.val i = y.val i) ∧ c ≤ a + b := by
  refine ⟨_, _, _, normdist_vec hqr hx hy hs, normdist_vec hqr hy hz hs', normdist_vec hqr hx hz (hs.trans hs'), ?_,
    norm_nonneg _, ?_, ?_⟩
  · rw [normdist_vec hqr hy hx hs.symm, ← hs, norm_sub_rev]
  · rw [norm_eq_zero, sub_eq_zero, vec_eq_iff]
  · rw [← hs]
    exact norm_sub_le_norm_sub_add_norm_sub _ _ _

/-- C71: `normdist(x, y)**2 = norm(x)**2 + norm(y)**2 - 2 Re inner(x, y)`. -/
theorem C71_normdist_sq {qr : QR 𝕜} (hqr : QRSpec qr) (x y : MPA 𝕜) (hx : x.Good) (hy : y.Good)
    (hs : x.shape = y.shape) :
    ∃ a p v w x' y', normdist qr x y = .ok a ∧ inner x y = .ok p ∧ norm qr x = .ok (v, x') ∧ norm qr y = .ok (w, y') ∧
      a ^ 2 = v ^ 2 + w ^ 2 - 2 * RCLike.re p := by
  obtain ⟨x', h, -⟩ := norm_ok hqr hx
  obtain ⟨y', h', -⟩ := norm_ok hqr hy
  refine ⟨_, _, _, _, x', y', normdist_vec hqr hx hy hs, inner_good hx hy hs, h, h', ?_⟩
  rw [frob_vec, frob_vec, ← hs, @norm_sub_sq 𝕜]
  ring

/-- The hypotheses are met: two different MPAs of the same shape that are not zero, and a QR routine. -/
example : exMPAc.Good ∧ (∃ z, exMPAc.mul 2 = .ok z ∧ z.Good ∧ exMPAc.shape = z.shape ∧
    ∀ i, IdxOK i exMPAc.shape → z.val i = 2 * exMPAc.val i) ∧ (∃ i, IdxOK i exMPAc.shape ∧ exMPAc.val i ≠ 0) ∧
    ∃ qr : QR ℂ, QRSpec qr := by
  obtain ⟨z, h1, h2, h3, h4⟩ := good_mul exMPAc_good 2
  exact ⟨exMPAc_good, ⟨z, h1, h2, h3.symm, h4⟩, ⟨[[0], [0]], by simp [exMPAc, MPA.shape, NDArray.ph, IdxOK, InB], by
    simp [exMPAc, MPA.val, entry, mp, NDArray.at3, NDArray.rb, Finset.sum_range_succ]
    norm_num⟩, exists_QRSpec⟩

end Mpnum
