import Verif.Props.C87
import Verif.Props.C08Vector
import Verif.Povm.RoundingPmf

/-!
# C87: `inner(b, dot(H, a))`

The second way to compute a matrix element, by first applying the operator to the state.
-/

open Finset

namespace Mpnum

variable {𝕜 : Type} [RCLike 𝕜]

/-- The norm of the tensor is at most the product of the norms of the local tensors. -/
theorem frob_le_prod {x : MPA 𝕜} (hx : x.Valid) : x.frob ≤ (x.lt.map npNorm).prod := by
  have h0 : 0 ≤ (x.lt.map npNorm).prod := List.prod_nonneg fun y hy => by
    obtain ⟨t, _, rfl⟩ := List.mem_map.1 hy
    exact npNorm_nonneg' _
  refine Real.sqrt_le_iff.2 ⟨h0, ?_⟩
  have hf : List.Forall₂ LOp (x.lt.map npNorm) x.lt := by
    rw [List.forall₂_map_left_iff, List.forall₂_same]
    exact fun t ht => lop_frob (hx.chain.isLocal t ht)
  have := lop_chain hf hx.chain fun _ => 1
  simp only [range_one, sum_singleton, mul_one, norm_one, one_pow] at this
  rw [sumSites_eq_sum]
  exact this

theorem dotF_prod {ε : ℝ} (hε : 0 ≤ ε) {td : TDot 𝕜} (htd : TdNear ε td) {axes : List ℤ × List ℤ} :
    ∀ {ls rs zs zs' : List (NDArray 𝕜)}, ls.length = rs.length → zipM (fun l r => localDot l r axes) ls rs = .ok zs →
      zipM (fun l r => localDotF td l r axes) ls rs = .ok zs' →
      (zs'.map npNorm).prod ≤ (1 + ε) ^ ls.length * ((ls.map npNorm).prod * (rs.map npNorm).prod)
  | [], [], zs, zs', _, _, h2 => by
    cases h2
    simp
  | l :: ls, r :: rs, zs, zs', hl, h1, h2 => by
    obtain ⟨z, a1, h1⟩ := bind_ok_inv h1
    obtain ⟨zs1, a2, h1⟩ := bind_ok_inv h1
    obtain ⟨z', b1, h2⟩ := bind_ok_inv h2
    obtain ⟨zs1', b2, h2⟩ := bind_ok_inv h2
    cases h1
    cases h2
    have ih := dotF_prod hε htd (by simpa using hl) a2 b2
    obtain ⟨w, k1, k2, k3⟩ := localDotF_near htd a1
    rw [show localDotF td l r axes = .ok z' from b1] at k1
    obtain rfl := Except.ok.inj k1
    have h3 : npNorm z' ≤ (1 + ε) * (npNorm l * npNorm r) := by
      have := npNorm_le_add k2
      have := localDot_norm a1
      linarith
    have h4 : 0 ≤ (zs1'.map npNorm).prod := List.prod_nonneg fun y hy => by
      obtain ⟨t, _, rfl⟩ := List.mem_map.1 hy
      exact npNorm_nonneg' _
    have h5 : 0 ≤ (1 + ε) * (npNorm l * npNorm r) := (npNorm_nonneg' _).trans h3
    simp only [List.map_cons, List.prod_cons, List.length_cons]
    refine (mul_le_mul h3 ih h4 h5).trans (le_of_eq ?_)
    rw [pow_succ]
    ring

/-- C87: `inner(b, dot(H, a))` succeeds and its result differs from `⟨b|H|a⟩` by at most `(1 + ε)^(3n - 1) - 1` times the product of the norms
of all local tensors. -/
theorem C87_inner_dot {ε : ℝ} (hε : 0 ≤ ε) {td : TDot 𝕜} (htd : TdNear ε td) (H a b : MPA 𝕜) (D A : List ℕ)
    (hH : IsMpoRect H D A) (ha : IsMps a A) (hb : IsMps b D) (hpH : ∀ r ∈ H.ranks, 0 < r) (hpa : ∀ r ∈ a.ranks, 0 < r)
    (hpb : ∀ r ∈ b.ranks, 0 < r) :
    ∃ z s, dotF td H a ([-1], [0]) = .ok z ∧ innerF td b z = .ok s ∧
      ‖braket D A (fun I => b.val (singles I)) (fun I J => H.val (pairs I J)) (fun J => a.val (singles J)) - s‖ ≤
        ((1 + ε) ^ (3 * H.len - 1) - 1) * ((H.lt.map npNorm).prod * (a.lt.map npNorm).prod * (b.lt.map npNorm).prod) := by
  have hda := dotArgs_vec hH.len hH.shape ha.shape
  obtain ⟨z, z', h1, h2, h3, h4, h5, h6, -, -, -, h7⟩ := C78_dot hε htd H a ([-1], [0]) hH.valid ha.valid hda
  obtain ⟨y, k1, -, k3, k4, k5⟩ := C08_matrix_vector H a hH.valid ha.valid D A hH.len hH.shape ha.shape
  rw [h1] at k1
  obtain rfl := Except.ok.inj k1
  have hpz : ∀ r ∈ z'.ranks, 0 < r := by
    rw [h6, k4]
    intro r hr
    obtain ⟨n, hn, rfl⟩ := List.getElem_of_mem hr
    rw [List.getElem_zipWith]
    exact Nat.mul_pos (hpH _ (List.getElem_mem _)) (hpa _ (List.getElem_mem _))
  obtain ⟨s, g1, g2⟩ := C78_inner hε htd b z' hb.valid h4 (by rw [hb.shape, h5, k3]) hpb hpz
  refine ⟨z', s, h2, g1, ?_⟩
  -- the exact inner product
  have hbr : braket D A (fun I => b.val (singles I)) (fun I J => H.val (pairs I J)) (fun J => a.val (singles J))
      = sumSites b.shape fun i => star (b.val i) * z.val i := by
    rw [hb.shape, sumSites_singles]
    unfold braket
    refine sumIdx_congr fun I hI => ?_
    rw [k5 I hI]
    simp only [sumIdx_eq_sum, mul_sum]
    exact sum_congr rfl fun _ _ => by ring
  have hlen : b.len = H.len := by
    have e1 := congrArg List.length hH.shape
    have e2 := congrArg List.length hb.shape
    simp [MPA.shape, pairs, singles, hH.len] at e1 e2
    unfold MPA.len
    have := hH.len
    omega
  have hprod : (z'.lt.map npNorm).prod ≤ (1 + ε) ^ H.len * ((H.lt.map npNorm).prod * (a.lt.map npNorm).prod) := by
    unfold dot at h1
    unfold dotF at h2
    obtain ⟨_, _, h1⟩ := bind_ok_inv h1
    obtain ⟨zs, h1, _⟩ := bind_ok_inv h1
    obtain ⟨_, _, h2⟩ := bind_ok_inv h2
    obtain ⟨zs', h2, hz'⟩ := bind_ok_inv h2
    have : z'.lt = zs' := by
      unfold mkMPA mkLT at hz'
      obtain ⟨_, _, hz'⟩ := bind_ok_inv hz'
      obtain ⟨_, _, hz'⟩ := bind_ok_inv hz'
      obtain ⟨_, _, hz'⟩ := bind_ok_inv hz'
      obtain ⟨_, _, hz'⟩ := bind_ok_inv hz'
      cases hz'
      rfl
    rw [this]
    exact dotF_prod hε htd hda.len h1 h2
  set PH := (H.lt.map npNorm).prod with hPH
  set Pa := (a.lt.map npNorm).prod with hPa
  set Pb := (b.lt.map npNorm).prod with hPb
  have hnn : ∀ x : MPA 𝕜, 0 ≤ (x.lt.map npNorm).prod := fun x => List.prod_nonneg fun y hy => by
    obtain ⟨t, _, rfl⟩ := List.mem_map.1 hy
    exact npNorm_nonneg' _
  have hPb0 : 0 ≤ Pb := hnn b
  -- the error of the product
  have e1 : ‖(sumSites b.shape fun i => star (b.val i) * z.val i) - sumSites b.shape fun i => star (b.val i) * z'.val i‖
      ≤ Pb * (((1 + ε) ^ H.len - 1) * (PH * Pa)) := by
    rw [sumSites_eq_sum, sumSites_eq_sum, ← sum_sub_distrib]
    simp only [← mul_sub]
    have hc := cauchy_sq (siteSet b.shape) (fun i => star (b.val i)) fun i => z.val i - z'.val i
    simp only [norm_star] at hc
    have hd : ∑ i ∈ siteSet b.shape, ‖b.val i‖ ^ 2 = b.frob ^ 2 := by
      unfold MPA.frob
      rw [Real.sq_sqrt (by rw [sumSites_eq_sum]; exact sum_nonneg fun _ _ => sq_nonneg _), sumSites_eq_sum]
    have hd' : ∑ i ∈ siteSet b.shape, ‖z.val i - z'.val i‖ ^ 2 = z.dist z' ^ 2 := by
      unfold MPA.dist
      rw [Real.sq_sqrt (by rw [sumSites_eq_sum]; exact sum_nonneg fun _ _ => sq_nonneg _), sumSites_eq_sum, k3, hb.shape]
    rw [hd, hd', ← mul_pow] at hc
    have hz0 : 0 ≤ z.dist z' := Real.sqrt_nonneg _
    have hb0 : 0 ≤ b.frob := Real.sqrt_nonneg _
    refine (abs_le_of_sq_le_sq' hc (mul_nonneg hb0 hz0)).2.trans ?_
    exact mul_le_mul (frob_le_prod hb.valid) h7 hz0 hPb0
  rw [hbr]
  have hpos : 0 < H.len := List.length_pos_of_ne_nil hH.valid.ne
  have h1e : (1 : ℝ) ≤ (1 + ε) ^ (2 * H.len - 1) := one_le_pow₀ (by linarith)
  have e2 : ((1 + ε) ^ (2 * b.len - 1) - 1) * (Pb * (z'.lt.map npNorm).prod)
      ≤ ((1 + ε) ^ (2 * H.len - 1) - 1) * (Pb * ((1 + ε) ^ H.len * (PH * Pa))) := by
    rw [hlen]
    exact mul_le_mul_of_nonneg_left (mul_le_mul_of_nonneg_left hprod hPb0) (by linarith)
  have e3 : (1 + ε) ^ (3 * H.len - 1) = (1 + ε) ^ (2 * H.len - 1) * (1 + ε) ^ H.len := by
    rw [← pow_add]
    congr 1
    omega
  refine (norm_sub_le_norm_sub_add_norm_sub _ (sumSites b.shape fun i => star (b.val i) * z'.val i) _).trans ?_
  refine (add_le_add e1 (g2.trans e2)).trans (le_of_eq ?_)
  rw [e3]
  ring

/-- Non-vacuity: three sites, with a function for `numpy.tensordot` that is not exact. -/
example : ∃ z s, dotF (tdScaled (1 / 1000)) exH3 exV3 ([-1], [0]) = .ok z ∧ innerF (tdScaled (1 / 1000)) exV3 z = .ok s ∧
    ‖braket [2, 2, 2] [2, 2, 2] (fun I => exV3.val (singles I)) (fun I J => exH3.val (pairs I J)) (fun J => exV3.val (singles J)) - s‖ ≤
      ((1 + 1 / 1000) ^ (3 * exH3.len - 1) - 1) *
        ((exH3.lt.map npNorm).prod * (exV3.lt.map npNorm).prod * (exV3.lt.map npNorm).prod) :=
  C87_inner_dot (by norm_num) (tdScaled_near (by norm_num)) _ _ _ _ _ ⟨exH3_isMpo.valid, exH3_isMpo.shape, rfl⟩ exV3_isMps exV3_isMps
    (by simp [exH3, MPA.ranks, NDArray.lb]) (by simp [exV3, MPA.ranks, NDArray.lb]) (by simp [exV3, MPA.ranks, NDArray.lb])

end Mpnum
