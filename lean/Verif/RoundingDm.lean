import Verif.Povm.RoundingPmf
import Verif.Props.C33

/-!
# `pmps_dm_to_array` in inexact arithmetic (/repo/mpnum/mpsmpo.py:161-190)

The function with a function `td` for `numpy.tensordot` that is only approximately right.  All other steps move the entries only; they
are exact.
-/

open Finset

namespace Mpnum

variable {𝕜 : Type}

section defs
variable [One 𝕜] [Star 𝕜]

/-- The loop body of `pmps_dm_to_array` (mpsmpo.py:176-184) with the function `td` for `numpy.tensordot`. -/
def dmStepF (td : TDot 𝕜) (out lt : NDArray 𝕜) : Py (NDArray 𝕜) := do
  let out ← td out lt [1] [0]
  let out ← td out lt.conj [1, 3] [0, 2]
  let out ← out.rollaxis 3 2
  out.reshape [-1, ((out.shape.getD 3 0 : ℕ) : ℤ), ((out.shape.getD 4 0 : ℕ) : ℤ)]

/-- `pmps_dm_to_array` (mpsmpo.py:161-190) with the function `td` for `numpy.tensordot`. -/
def pmpsDmToArrayF (td : TDot 𝕜) (x : MPA 𝕜) (global : Bool) : Py (NDArray 𝕜) := do
  let out ← x.lt.foldlM (dmStepF td) ⟨[1, 1, 1], fun _ => 1⟩
  let outShape ← dmOutShape x.shape
  let out ← out.reshape (outShape.map fun n : ℕ => (n : ℤ))
  (if global then do
    pyAssert (outShape.toFinset.card = 1)
    localToGlobal out (outShape.length / 2)
  else .ok out : Py (NDArray 𝕜))

end defs

variable [RCLike 𝕜]

theorem rollaxis_npNorm {a c : NDArray 𝕜} {axis start : ℕ} (h : a.rollaxis axis start = .ok c) : npNorm c = npNorm a := by
  obtain ⟨z, h1, h2, h3⟩ := rollaxis_dist (a := a) (b := zeroLike a) rfl h
  refine npNorm_move z ?_ h3
  unfold NDArray.rollaxis at h1
  split at h1
  · cases h1; intro i; rfl
  · cases h1

theorem Approx.rollaxis {g N : ℝ} {a a' c : NDArray 𝕜} (ha : Approx g N a a') {axis start : ℕ} (h : a.rollaxis axis start = .ok c) :
    ∃ c', a'.rollaxis axis start = .ok c' ∧ Approx g N c c' := by
  obtain ⟨c', h1, h2, h3⟩ := rollaxis_dist ha.shape h
  exact ⟨c', h1, h2, (rollaxis_npNorm h).le.trans ha.norm, h3.le.trans ha.dist⟩

theorem Approx.localToGlobal {g N : ℝ} {a a' c : NDArray 𝕜} (ha : Approx g N a a') {sites : ℕ}
    (h : Mpnum.localToGlobal a sites = .ok c) : ∃ c', Mpnum.localToGlobal a' sites = .ok c' ∧ Approx g N c c' := by
  have hnd : a'.ndim = a.ndim := by unfold NDArray.ndim; rw [ha.shape]
  unfold Mpnum.localToGlobal permuteLegs at h ⊢
  rw [hnd]
  dsimp only at h ⊢
  split at h
  · cases h
  · rename_i hs
    rw [if_neg hs]
    obtain ⟨u, h1, h⟩ := bind_ok_inv h
    obtain ⟨c', g1, g2⟩ := ha.transpose h
    exact ⟨c', by rw [h1, ok_bind, g1], g2⟩

theorem dmStep_near {ε g N : ℝ} (hε : 0 ≤ ε) {td : TDot 𝕜} (htd : TdNear ε td) {p p' c t : NDArray 𝕜}
    (hp : Approx g N p p') (h : dmStep p t = .ok c) :
    ∃ c', dmStepF td p' t = .ok c' ∧ Approx (g * (1 + ε) ^ 2) (N * npNorm t ^ 2) c c' := by
  unfold dmStep at h
  obtain ⟨a, h1, h⟩ := bind_ok_inv h
  obtain ⟨b, h2, h⟩ := bind_ok_inv h
  obtain ⟨d, h3, h⟩ := bind_ok_inv h
  obtain ⟨a', g1, k1⟩ := hp.tensordot hε htd (.refl _) h1
  obtain ⟨b', g2, k2⟩ := k1.tensordot hε htd (.refl _) h2
  obtain ⟨d', g3, k3⟩ := k2.rollaxis h3
  obtain ⟨c', g4, k4⟩ := k3.reshape h
  refine ⟨c', ?_, ?_⟩
  · unfold dmStepF
    rw [g1, ok_bind, g2, ok_bind, g3, ok_bind, k3.shape]
    exact g4
  · rw [conj_npNorm] at k4
    convert k4 using 1 <;> ring

theorem dmFold_near {ε : ℝ} (hε : 0 ≤ ε) {td : TDot 𝕜} (htd : TdNear ε td) :
    ∀ (ts : List (NDArray 𝕜)) {g N : ℝ} {p p' c : NDArray 𝕜}, Approx g N p p' → ts.foldlM dmStep p = .ok c →
      ∃ c', ts.foldlM (dmStepF td) p' = .ok c' ∧ Approx (g * (1 + ε) ^ (2 * ts.length)) (N * (ts.map npNorm).prod ^ 2) c c'
  | [], g, N, p, p', c, hp, h => by
    cases h
    exact ⟨p', rfl, by simpa using hp⟩
  | t :: ts, g, N, p, p', c, hp, h => by
    rw [List.foldlM_cons] at h ⊢
    obtain ⟨d, h1, h⟩ := bind_ok_inv h
    obtain ⟨d', g1, k1⟩ := dmStep_near hε htd hp h1
    obtain ⟨c', g2, k2⟩ := dmFold_near hε htd ts k1 h
    refine ⟨c', by rw [g1, ok_bind, g2], ?_⟩
    rw [List.map_cons, List.prod_cons]
    convert k2 using 1
    · rw [List.length_cons]
      ring
    · ring

theorem pmpsDmToArray_near {ε : ℝ} (hε : 0 ≤ ε) {td : TDot 𝕜} (htd : TdNear ε td) {x : MPA 𝕜} {global : Bool} {c : NDArray 𝕜}
    (h : pmpsDmToArray x global = .ok c) :
    ∃ c', pmpsDmToArrayF td x global = .ok c' ∧ Approx ((1 + ε) ^ (2 * x.len)) ((x.lt.map npNorm).prod ^ 2) c c' := by
  unfold pmpsDmToArray at h
  obtain ⟨p, h1, h⟩ := bind_ok_inv h
  obtain ⟨s, h2, h⟩ := bind_ok_inv h
  obtain ⟨q, h3, h⟩ := bind_ok_inv h
  obtain ⟨p', g1, k1⟩ := dmFold_near hε htd _ (Approx.refl _) h1
  have hone : npNorm (⟨[1, 1, 1], fun _ => 1⟩ : NDArray 𝕜) = 1 := by
    unfold npNorm
    simp [sumIdx]
  rw [hone, one_mul, one_mul] at k1
  obtain ⟨q', g3, k3⟩ := k1.reshape h3
  unfold pmpsDmToArrayF
  rw [g1, ok_bind, h2, ok_bind, g3, ok_bind]
  cases global
  · cases h
    exact ⟨q', rfl, k3⟩
  · simp only [if_true] at h ⊢
    obtain ⟨u, h4, h⟩ := bind_ok_inv h
    obtain ⟨c', g5, k5⟩ := k3.localToGlobal h
    exact ⟨c', by rw [h4, ok_bind, g5], k5⟩

end Mpnum
