import Verif.RoundingDm
import Verif.Povm.RoundingExpect
import Verif.Props.C21
import Verif.Props.C42
import Verif.Props.C90
import Verif.Props.C83

/-!
# C92: `pmps_dm_to_array` and `mps_to_mpo` in floating point arithmetic

`pmpsDmToArrayF` (RoundingDm.lean) is `pmps_dm_to_array` with a function `td` in the place of `numpy.tensordot`.
-/

open Finset

namespace Mpnum

variable {𝕜 : Type} [RCLike 𝕜]

/-- C92: the array returned by `pmps_dm_to_array` is the density matrix up to rounding errors of two contractions per site.  Legs of
dimension one are removed. -/
theorem C92_dm_to_array {ε : ℝ} (hε : 0 ≤ ε) {td : TDot 𝕜} (htd : TdNear ε td) (x : MPA 𝕜) (D A : List ℕ) (hx : IsPmps x D A)
    (hr : ∀ r ∈ x.ranks, 0 < r) (hD : ∀ d ∈ D, 0 < d) :
    ∃ a, pmpsDmToArrayF td x false = .ok a ∧ a.shape = (pairs D D).flatten.filter (1 < ·) ∧
      opDist D (dm x A) (fun I J => a.get (squeezeIdx (pairs D D).flatten (pairs I J).flatten)) ≤
        ((1 + ε) ^ (2 * x.len) - 1) * (x.lt.map npNorm).prod ^ 2 := by
  obtain ⟨a, h1, h2, h3⟩ := C33_dm_to_array x D A hx hr hD
  obtain ⟨a', g1, g2⟩ := pmpsDmToArray_near hε htd h1
  refine ⟨a', g1, g2.shape.trans h2, ?_⟩
  have hpos : ∀ d ∈ (pairs D D).flatten, 0 < d := by
    intro d hd
    obtain ⟨s, hs, hd⟩ := List.mem_flatten.1 hd
    obtain ⟨n, hn, rfl⟩ := List.getElem_of_mem hs
    simp only [List.getElem_zipWith, List.mem_cons, List.not_mem_nil, or_false, or_self] at hd
    rw [hd]
    exact hD _ (List.getElem_mem _)
  have e : opDist D (dm x A) (fun I J => a'.get (squeezeIdx (pairs D D).flatten (pairs I J).flatten)) = arrDist a a' := by
    unfold opDist arrDist
    congr 1
    rw [h2]
    have h4 := sumIdx_squeeze hpos fun i => ‖a.get i - a'.get i‖ ^ 2
    unfold nsDims at h4
    rw [h4, ← sumSites_flatten, sumSites_pairs D D rfl]
    exact sumIdx_congr fun I hI => sumIdx_congr fun J hJ => by rw [h3 I J hI hJ]
  rw [e]
  exact g2.dist

/-- C92: `pmps_dm_to_array` with `global_=True`. -/
theorem C92_dm_to_array_global {ε : ℝ} (hε : 0 ≤ ε) {td : TDot 𝕜} (htd : TdNear ε td) (x : MPA 𝕜) (D A : List ℕ) (hx : IsPmps x D A)
    (hr : ∀ r ∈ x.ranks, 0 < r) (hD : ∀ d ∈ D, 0 < d) (d : ℕ) (hd : ∃ e ∈ D, 1 < e) (hsame : ∀ e ∈ D, 1 < e → e = d) :
    ∃ a, pmpsDmToArrayF td x true = .ok a ∧ a.shape = D.filter (1 < ·) ++ D.filter (1 < ·) ∧
      opDist D (dm x A) (fun I J => a.get (squeezeIdx D I ++ squeezeIdx D J)) ≤
        ((1 + ε) ^ (2 * x.len) - 1) * (x.lt.map npNorm).prod ^ 2 := by
  obtain ⟨a, h1, h2, h3⟩ := C33_dm_to_array_global x D A hx hr hD d hd hsame
  obtain ⟨a', g1, g2⟩ := pmpsDmToArray_near hε htd h1
  refine ⟨a', g1, g2.shape.trans h2, ?_⟩
  have e : opDist D (dm x A) (fun I J => a'.get (squeezeIdx D I ++ squeezeIdx D J)) = arrDist a a' := by
    unfold opDist arrDist
    congr 1
    rw [h2, sumIdx_append]
    have h4 := fun f : List ℕ → ℝ => sumIdx_squeeze hD f
    unfold nsDims at h4
    rw [h4]
    refine sumIdx_congr fun I hI => ?_
    rw [h4]
    exact sumIdx_congr fun J hJ => by rw [h3 I J hI hJ]
  rw [e]
  exact g2.dist

/-- C92: with the exact `numpy.tensordot` the model computes `pmps_dm_to_array`. -/
theorem C92_dm_model_exact (x : MPA 𝕜) (global : Bool) : pmpsDmToArrayF NDArray.tensordot x global = pmpsDmToArray x global := rfl

/-- `mps_to_mpo` (mpsmpo.py:402-408) with the function `td` for `numpy.tensordot`. -/
def mpsToMpoF (td : TDot 𝕜) (x : MPA 𝕜) : Py (MPA 𝕜) := do
  let y ← mpsToPmps x
  pmpsToMpoF td y

/-- C92: `mps_to_mpo` of a pure state is the projector up to rounding errors of one contraction per site. -/
theorem C92_mps_to_mpo {ε : ℝ} (hε : 0 ≤ ε) {td : TDot 𝕜} (htd : TdNear ε td) (x : MPA 𝕜) (D : List ℕ) (hx : x.Valid)
    (hs : x.shape = singles D) :
    ∃ z, mpsToMpoF td x = .ok z ∧ IsMpo z D ∧ z.ranks = x.ranks.map (· ^ 2) ∧
      opDist D (fun I J => x.val (singles I) * star (x.val (singles J))) (fun I J => z.val (pairs I J)) ≤
        ((1 + ε) ^ x.len - 1) * (x.lt.map npNorm).prod ^ 2 := by
  obtain ⟨y, h1, h2, h3, h4⟩ := C33_mps_to_pmps x D hx hs
  obtain ⟨z, g1, g2, g3, g4⟩ := C90_pmps_to_mpo hε htd y D _ h2
  obtain ⟨w, k1, _, _, k4⟩ := C33_mps_to_mpo x D hx hs
  obtain ⟨v, l1, _, _, l4⟩ := C33_pmps_to_mpo y D _ h2
  have hw : w = v := by
    unfold mpsToMpo at k1
    rw [h1, ok_bind, l1] at k1
    exact (Except.ok.inj k1).symm
  subst hw
  have hlen : y.len = x.len := by
    have := congrArg List.length (mpsToPmps_norms h1)
    simpa [MPA.len] using this
  refine ⟨z, by unfold mpsToMpoF; rw [h1, ok_bind, g1], g2, by rw [g3, h3], ?_⟩
  rw [hlen, mpsToPmps_norms h1] at g4
  refine le_trans (le_of_eq ?_) g4
  unfold opDist
  congr 1
  exact sumIdx_congr fun I hI => sumIdx_congr fun J hJ => by
    dsimp only
    rw [← k4 I J hI hJ, l4 I J hI hJ]

/-- C92: with the exact `numpy.tensordot` the model computes `mps_to_mpo`. -/
theorem C92_mps_model_exact (x : MPA 𝕜) : mpsToMpoF NDArray.tensordot x = mpsToMpo x := by
  unfold mpsToMpoF mpsToMpo
  simp only [C90_pmps_model_exact]

/-! ### `prune` -/

theorem LApprox.strip {ε : ℝ} (hε : 0 ≤ ε) {ts ts' : List (NDArray 𝕜)} {G M : ℝ} (h : LApprox ε G M ts ts') :
    LApprox 0 (G / (1 + ε) ^ ts.length) M ts ts' := by
  have h0 : (1 + ε) ≠ 0 := by positivity
  induction h with
  | nil => simpa using LApprox.nil
  | cons h _ ih =>
    have := LApprox.cons h ih
    convert this using 1
    rw [List.length_cons, pow_succ]
    field_simp
    ring

theorem pruneF_near {ε : ℝ} (hε : 0 ≤ ε) {td : TDot 𝕜} (htd : TdNear ε td) {x y : MPA 𝕜} {b : Bool} (hy : prune x b = .ok y) (hyv : y.Valid) :
    ∃ z, pruneF td x b = .ok z ∧ z.Valid ∧ z.shape = y.shape ∧ z.ranks = y.ranks ∧
      y.dist z ≤ ((1 + ε) ^ x.len / (1 + ε) ^ y.len - 1) * (x.lt.map npNorm).prod := by
  obtain ⟨us', h1, h2⟩ := LApprox.prune hε htd (LApprox.refl x.lt) rfl hy hyv hy
  obtain ⟨d1, d2, d3⟩ := chained_same_shapes h2.shapes hyv.chain
  have hne' : us' ≠ [] := by
    rintro rfl
    exact hyv.ne (List.length_eq_zero_iff.1 h2.shapes.length_eq)
  have hv := valid_mk hne' d1
  refine ⟨_, h1, hv, d2, ?_, ?_⟩
  · simp only [MPA.ranks, List.map_tail] at d3 ⊢
    rw [d3]
  · have := LApprox.mpaDist hyv (h2.strip hε) hv d2
    rwa [mul_one] at this

/-- C92: `prune` merges the sites without legs up to rounding errors of one contraction per site that is removed. -/
theorem C92_prune {ε : ℝ} (hε : 0 ≤ ε) {td : TDot 𝕜} (htd : TdNear ε td) (x : MPA 𝕜) (hx : x.Valid) :
    ∃ y z : MPA 𝕜, (y.shape = pruned x.shape ∧ ∀ idx, IdxOK idx x.shape → y.val (pruned idx) = x.val idx) ∧
      pruneF td x false = .ok z ∧ z.Valid ∧ z.shape = pruned x.shape ∧ z.ranks.Sublist x.ranks ∧
      y.dist z ≤ ((1 + ε) ^ x.len / (1 + ε) ^ z.len - 1) * (x.lt.map npNorm).prod := by
  obtain ⟨y, h1, h2, _, _, h3, h4, h5, _⟩ := C21_prune x hx
  obtain ⟨z, g1, g2, g3, g4, g5⟩ := pruneF_near hε htd h1 h2
  have hlen : z.len = y.len := by simpa [MPA.shape, MPA.len] using congrArg List.length g3
  exact ⟨y, z, ⟨h3, h5⟩, g1, g2, g3.trans h3, by rw [g4]; exact h4, by rw [hlen]; exact g5⟩

/-- C92: `prune` with `singletons=True` also removes legs of dimension one. -/
theorem C92_prune_singletons {ε : ℝ} (hε : 0 ≤ ε) {td : TDot 𝕜} (htd : TdNear ε td) (x : MPA 𝕜) (hx : x.Valid) :
    ∃ y z : MPA 𝕜, (y.shape = pruned (x.shape.map fun s => if s.prod = 1 then [] else s) ∧
        ∀ idx, IdxOK idx x.shape → y.val (pruned (dropSingle x.shape idx)) = x.val idx) ∧
      pruneF td x true = .ok z ∧ z.Valid ∧ z.shape = y.shape ∧ z.ranks.Sublist x.ranks ∧
      y.dist z ≤ ((1 + ε) ^ x.len / (1 + ε) ^ z.len - 1) * (x.lt.map npNorm).prod := by
  obtain ⟨y, h1, h2, _, _, h3, h4, h5⟩ := C21_prune_singletons x hx
  obtain ⟨z, g1, g2, g3, g4, g5⟩ := pruneF_near hε htd h1 h2
  have hlen : z.len = y.len := by simpa [MPA.shape, MPA.len] using congrArg List.length g3
  exact ⟨y, z, ⟨h3, h5⟩, g1, g2, g3, by rw [g4]; exact h4, by rw [hlen]; exact g5⟩

/-! ### Non-vacuity -/

/-- The density matrix of an entangled state of two spins as an array, with a function for `numpy.tensordot` that is not exact. -/
example : ∃ a, pmpsDmToArrayF (tdScaled (1 / 1000)) exState2 true = .ok a ∧ a.shape = [2, 2, 2, 2] ∧
    opDist [2, 2] (dm exState2 [1, 1]) (fun I J => a.get (squeezeIdx [2, 2] I ++ squeezeIdx [2, 2] J)) ≤
      ((1 + 1 / 1000) ^ (2 * exState2.len) - 1) * (exState2.lt.map npNorm).prod ^ 2 :=
  C92_dm_to_array_global (by norm_num) (tdScaled_near (𝕜 := ℂ) (δ := 1 / 1000) (by norm_num)) exState2 [2, 2] [1, 1]
    exState2_isPmps (by simp [exState2, MPA.ranks, NDArray.lb]) (by simp) 2 ⟨2, by simp, by norm_num⟩ (by simp)

/-- A site of dimension one: its legs are removed. -/
example : ∃ a, pmpsDmToArrayF (tdScaled (1 / 1000)) exPmps false = .ok a ∧ a.shape = [2, 2] := by
  obtain ⟨a, h1, h2, _⟩ := C92_dm_to_array (by norm_num) (tdScaled_near (𝕜 := ℂ) (δ := 1 / 1000) (by norm_num)) exPmps [2, 1] [1, 3]
    exPmps_isPmps (by simp [exPmps, MPA.ranks, NDArray.lb]) (by simp)
  exact ⟨a, h1, h2⟩

/-- The projector of a pure state of three spins. -/
example : ∃ z, mpsToMpoF (tdScaled (1 / 1000)) exV3 = .ok z ∧ IsMpo z [2, 2, 2] := by
  obtain ⟨z, h1, h2, _⟩ := C92_mps_to_mpo (by norm_num) (tdScaled_near (𝕜 := ℂ) (δ := 1 / 1000) (by norm_num)) exV3 [2, 2, 2]
    exV3_isMps.valid exV3_isMps.shape
  exact ⟨z, h1, h2⟩

/-- Four sites with legs `()`, `(2,)`, `()`, `(2,)`. -/
noncomputable def exHoles : MPA ℂ :=
  ⟨[⟨[1, 2], fun i => match i with | [_, b] => (b : ℂ) + 1 | _ => 0⟩,
    ⟨[2, 2, 2], fun i => match i with | [a, p, b] => (a : ℂ) + 2 * p - b | _ => 0⟩,
    ⟨[2, 3], fun i => match i with | [a, b] => (a : ℂ) * b + Complex.I | _ => 0⟩,
    ⟨[3, 2, 1], fun i => match i with | [a, p, _] => (a : ℂ) - p | _ => 0⟩], 0, 4⟩

theorem exHoles_valid : exHoles.Valid :=
  ⟨by simp [exHoles], by simp [exHoles, NDArray.IsLocal, NDArray.ndim, NDArray.lb, NDArray.rb],
    by simp [exHoles], by simp [exHoles], by simp [exHoles, MPA.len]⟩

/-- Two of four sites are removed: the error is that of two contractions. -/
example : ∃ y z : MPA ℂ, pruneF (tdScaled (1 / 1000)) exHoles false = .ok z ∧ z.shape = [[2], [2]] ∧
    y.val [[1], [0]] = exHoles.val [[], [1], [], [0]] ∧
    y.dist z ≤ ((1 + 1 / 1000) ^ 2 - 1) * (exHoles.lt.map npNorm).prod := by
  obtain ⟨y, z, ⟨_, h1⟩, h2, _, h3, _, h4⟩ := C92_prune (by norm_num) (tdScaled_near (𝕜 := ℂ) (δ := 1 / 1000) (by norm_num)) exHoles
    exHoles_valid
  have hs : z.shape = [[2], [2]] := h3
  have hl : z.len = 2 := by simpa [MPA.shape, MPA.len] using congrArg List.length hs
  have hI : IdxOK [[], [1], [], [0]] exHoles.shape :=
    .cons .nil (.cons (.cons (by decide) .nil) (.cons .nil (.cons (.cons (by decide) .nil) .nil)))
  refine ⟨y, z, h2, hs, h1 _ hI, h4.trans (le_of_eq ?_)⟩
  rw [hl, show exHoles.len = 4 from rfl]
  norm_num

end Mpnum
