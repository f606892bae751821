import Verif.MP
import Mathlib.Analysis.RCLike.Basic

/-! Specification of Schmidt decompositions of a tensor across a bond and of their truncation. -/

open Finset

namespace Mpnum

variable {𝕜 : Type} [RCLike 𝕜]

/-- A Schmidt decomposition (singular value decomposition) of the tensor `f` with physical shape `S`
for the bipartition into the first `k` sites and the rest: orthonormal vectors `W · b` of the left part,
orthonormal vectors `Z b ·` of the right part, and singular values `s`, non-negative and in
non-increasing order. -/
structure IsSchmidt (S : List (List ℕ)) (k : ℕ) (f : List (List ℕ) → 𝕜)
    (W : List (List ℕ) → ℕ → 𝕜) (s : List ℝ) (Z : ℕ → List (List ℕ) → 𝕜) : Prop where
  sorted : s.Pairwise (· ≥ ·)
  nonneg : ∀ a ∈ s, 0 ≤ a
  orthW : ∀ b < s.length, ∀ b' < s.length,
    (sumSites (S.take k) fun i => star (W i b) * W i b') = if b = b' then 1 else 0
  orthZ : ∀ b < s.length, ∀ b' < s.length,
    (sumSites (S.drop k) fun j => star (Z b j) * Z b' j) = if b = b' then 1 else 0
  dec : ∀ i j, IdxOK i (S.take k) → IdxOK j (S.drop k) →
    f (i ++ j) = ∑ b ∈ range s.length, W i b * ((s.getD b 0 : ℝ) : 𝕜) * Z b j

/-- The tensor `f` has the singular values `s` for the bipartition after `k` sites. -/
def SingVals (S : List (List ℕ)) (k : ℕ) (f : List (List ℕ) → 𝕜) (s : List ℝ) : Prop :=
  ∃ W Z, IsSchmidt S k f W s Z

/-- `g` arises from `f`, whose singular values for the bipartition after `k` sites are `s`, by keeping
the `t` largest singular values only. -/
def SchmidtCut (S : List (List ℕ)) (k : ℕ) (f g : List (List ℕ) → 𝕜) (s : List ℝ) (t : ℕ) : Prop :=
  ∃ W Z, IsSchmidt S k f W s Z ∧ t ≤ s.length ∧
    ∀ i j, IdxOK i (S.take k) → IdxOK j (S.drop k) →
      g (i ++ j) = ∑ b ∈ range t, W i b * ((s.getD b 0 : ℝ) : 𝕜) * Z b j

/-- Successive truncation of the bipartitions listed in `ks`; `out` lists the singular values found
and the number of those kept, which obey `keep`. -/
inductive CutSeq (S : List (List ℕ)) (keep : List ℝ → ℕ → Prop) :
    List ℕ → (List (List ℕ) → 𝕜) → (List (List ℕ) → 𝕜) → List (List ℝ × ℕ) → Prop
  | nil {f g} (h : ∀ i, IdxOK i S → g i = f i) : CutSeq S keep [] f g []
  | cons {k ks f h g s t out} (hc : SchmidtCut S k f h s t) (hk : keep s t)
      (hs : CutSeq S keep ks h g out) : CutSeq S keep (k :: ks) f g ((s, t) :: out)

/-- Number of singular values kept according to the arguments `rank` and `relerr`: the smallest
positive number of the largest singular values whose sum is at least the fraction `1 - relerr` of the
sum of all (all of them, if `relerr` is not given), but at most `rank`. -/
def Keep (rank : ℤ) (relerr : Option ℝ) (s : List ℝ) (t : ℕ) : Prop :=
  match relerr with
  | none => (t : ℤ) = min rank s.length
  | some e => ∃ r : ℕ, IsLeast {r : ℕ | 0 < r ∧ (1 - e) * s.sum ≤ (s.take r).sum} r ∧ (t : ℤ) = min rank r

end Mpnum
