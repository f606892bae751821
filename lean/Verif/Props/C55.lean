import Verif.Props.C27
import Verif.MPArray.OpenCompress
import Verif.Oracle.EckartYoung
import Mathlib.Algebra.Order.Chebyshev
import Mathlib.Data.List.GetD

/-! C55: SVD compression against the best approximation with the same bonds. -/

open Finset Matrix

namespace Mpnum

variable {𝕜 : Type} [RCLike 𝕜]

/-- Specification: the tensor `y` has at most rank `r` for the bipartition after `k` sites. -/
def RankLe (S : List (List ℕ)) (k r : ℕ) (y : List (List ℕ) → 𝕜) : Prop :=
  ∃ (X : List (List ℕ) → ℕ → 𝕜) (Y : ℕ → List (List ℕ) → 𝕜), ∀ i j, IdxOK i (S.take k) → IdxOK j (S.drop k) →
    y (i ++ j) = ∑ c ∈ range r, X i c * Y c j

/-- Specification: the squared distance of two tensors. -/
def tdist (S : List (List ℕ)) (f g : List (List ℕ) → 𝕜) : ℝ := sumSites S fun i => ‖f i - g i‖ ^ 2

theorem tdist_congr {S : List (List ℕ)} {f g f' g' : List (List ℕ) → 𝕜} (hf : ∀ i, IdxOK i S → f' i = f i)
    (hg : ∀ i, IdxOK i S → g' i = g i) : tdist S f' g' = tdist S f g :=
  sumSites_congr fun i hi => by rw [hf i hi, hg i hi]

/-! ### A bipartition as a matrix -/

/-- Number of indices of a part -/
def nIdx (T : List (List ℕ)) : ℕ := (siteSet T).card

/-- The indices of a part, numbered -/
noncomputable def idxAt (T : List (List ℕ)) (a : Fin (nIdx T)) : List (List ℕ) := ((siteSet T).equivFin.symm a : siteSet T)

theorem idxAt_ok {T : List (List ℕ)} (a : Fin (nIdx T)) : IdxOK (idxAt T a) T :=
  mem_siteSet.1 ((siteSet T).equivFin.symm a : siteSet T).2

theorem sumSites_idxAt {M : Type} [AddCommMonoid M] (T : List (List ℕ)) (F : List (List ℕ) → M) :
    sumSites T F = ∑ a, F (idxAt T a) := by
  rw [sumSites_eq_sum, ← Finset.sum_coe_sort]
  exact (Equiv.sum_comp (siteSet T).equivFin.symm (fun i : siteSet T => F i)).symm

theorem idxAt_surj {T : List (List ℕ)} {i : List (List ℕ)} (hi : IdxOK i T) : ∃ a, idxAt T a = i :=
  ⟨(siteSet T).equivFin ⟨i, mem_siteSet.2 hi⟩, by simp [idxAt]⟩

/-- The tensor as a matrix for the bipartition after `k` sites -/
noncomputable def bip (S : List (List ℕ)) (k : ℕ) (f : List (List ℕ) → 𝕜) : Matrix (Fin (nIdx (S.take k))) (Fin (nIdx (S.drop k))) 𝕜 :=
  Matrix.of fun a b => f (idxAt _ a ++ idxAt _ b)

theorem sumSites_split {M : Type} [AddCommMonoid M] (S : List (List ℕ)) (k : ℕ) (F : List (List ℕ) → M) :
    sumSites S F = sumSites (S.take k) fun i => sumSites (S.drop k) fun j => F (i ++ j) := by
  conv_lhs => rw [← List.take_append_drop k S]
  rw [sumSites_append]

theorem frobSq_bip (S : List (List ℕ)) (k : ℕ) (f : List (List ℕ) → 𝕜) : frobSq (bip S k f) = sumSites S fun i => ‖f i‖ ^ 2 := by
  rw [sumSites_split S k, sumSites_idxAt]
  simp only [sumSites_idxAt (S.drop k)]
  rfl

/-- Orthonormal vectors of the left part as a matrix -/
noncomputable def matW (T : List (List ℕ)) (W : List (List ℕ) → ℕ → 𝕜) (t : ℕ) : Matrix (Fin (nIdx T)) (Fin t) 𝕜 :=
  Matrix.of fun a b => W (idxAt T a) b

/-- Orthonormal vectors of the right part as a matrix -/
noncomputable def matZ (T : List (List ℕ)) (Z : ℕ → List (List ℕ) → 𝕜) (t : ℕ) : Matrix (Fin t) (Fin (nIdx T)) 𝕜 :=
  Matrix.of fun b a => Z b (idxAt T a)

theorem matW_orth {T : List (List ℕ)} {W : List (List ℕ) → ℕ → 𝕜} {t : ℕ}
    (h : ∀ b < t, ∀ b' < t, (sumSites T fun i => star (W i b) * W i b') = if b = b' then 1 else 0) :
    (matW T W t)ᴴ * matW T W t = 1 := by
  ext b b'
  have := h b b.2 b' b'.2
  rw [sumSites_idxAt] at this
  rw [Matrix.mul_apply, Matrix.one_apply]
  simp only [Matrix.conjTranspose_apply, matW, Matrix.of_apply]
  rw [this]
  simp [Fin.ext_iff]

theorem matZ_orth {T : List (List ℕ)} {Z : ℕ → List (List ℕ) → 𝕜} {t : ℕ}
    (h : ∀ b < t, ∀ b' < t, (sumSites T fun j => star (Z b j) * Z b' j) = if b = b' then 1 else 0) :
    matZ T Z t * (matZ T Z t)ᴴ = 1 := by
  ext b b'
  have := h b' b'.2 b b.2
  rw [sumSites_idxAt] at this
  rw [Matrix.mul_apply, Matrix.one_apply]
  simp only [Matrix.conjTranspose_apply, matZ, Matrix.of_apply]
  rw [Finset.sum_congr rfl fun _ _ => mul_comm _ _, this]
  simp [Fin.ext_iff, eq_comm]

theorem schmidt_getD_anti {s : List ℝ} (h : s.Pairwise (· ≥ ·)) (i j : ℕ) (hij : i ≤ j) (hj : j < s.length) : s.getD j 0 ≤ s.getD i 0 := by
  rw [List.getD_eq_getElem _ _ hj, List.getD_eq_getElem _ _ (by omega)]
  rcases Nat.eq_or_lt_of_le hij with rfl | hlt
  · exact le_rfl
  · exact List.pairwise_iff_getElem.1 h i j (by omega) hj hlt

/-- Eckart–Young for a bipartition -/
theorem schmidt_tail_le {S : List (List ℕ)} {k r : ℕ} {f y : List (List ℕ) → 𝕜} {W : List (List ℕ) → ℕ → 𝕜} {s : List ℝ}
    {Z : ℕ → List (List ℕ) → 𝕜} (h : IsSchmidt S k f W s Z) (hy : RankLe S k r y) :
    ∑ c ∈ Ico r s.length, s.getD c 0 ^ 2 ≤ tdist S f y := by
  obtain ⟨X, Y, hy⟩ := hy
  have key := eckart_young (A := bip S k f) (matW_orth h.orthW) (matZ_orth h.orthZ) (s := fun c => s.getD c 0)
    (schmidt_getD_anti h.sorted) (fun i hi => by
      rw [List.getD_eq_getElem _ _ hi]; exact h.nonneg _ (List.getElem_mem _)) (by
      ext a b
      rw [Matrix.mul_apply]
      simp only [Matrix.mul_diagonal, matW, matZ, bip, Matrix.of_apply]
      rw [h.dec _ _ (idxAt_ok a) (idxAt_ok b),
        ← Fin.sum_univ_eq_sum_range (fun c => W (idxAt _ a) c * ((s.getD c 0 : ℝ) : 𝕜) * Z c (idxAt _ b))])
    (matW (S.take k) X r) (matZ (S.drop k) Y r)
  refine key.trans (le_of_eq ?_)
  have : bip S k f - matW (S.take k) X r * matZ (S.drop k) Y r = bip S k fun i => f i - y i := by
    ext a b
    rw [Matrix.sub_apply, Matrix.mul_apply]
    simp only [matW, matZ, bip, Matrix.of_apply]
    rw [hy _ _ (idxAt_ok a) (idxAt_ok b), ← Fin.sum_univ_eq_sum_range (fun c => X (idxAt _ a) c * Y c (idxAt _ b))]
  rw [this, frobSq_bip]
  rfl

/-! ### Truncations are projections -/

/-- The projection of the left part onto the first `t` vectors -/
def projLeft (S : List (List ℕ)) (k : ℕ) (W : List (List ℕ) → ℕ → 𝕜) (t : ℕ) (g : List (List ℕ) → 𝕜) (i : List (List ℕ)) : 𝕜 :=
  ∑ b ∈ range t, W (i.take k) b * sumSites (S.take k) fun i' => star (W i' b) * g (i' ++ i.drop k)

/-- The projection of the right part onto the first `t` vectors -/
def projRight (S : List (List ℕ)) (k : ℕ) (Z : ℕ → List (List ℕ) → 𝕜) (t : ℕ) (g : List (List ℕ) → 𝕜) (i : List (List ℕ)) : 𝕜 :=
  ∑ b ∈ range t, (sumSites (S.drop k) fun j' => g (i.take k ++ j') * star (Z b j')) * Z b (i.drop k)

theorem take_drop_idx {S i j : List (List ℕ)} {k : ℕ} (hk : k ≤ S.length) (hi : IdxOK i (S.take k)) :
    (i ++ j).take k = i ∧ (i ++ j).drop k = j := by
  have : i.length = k := by rw [idxOK_length hi, List.length_take]; omega
  constructor
  · rw [← this]; simp
  · rw [← this]; simp

theorem projLeft_norm {S : List (List ℕ)} {k t : ℕ} (hk : k ≤ S.length) {W : List (List ℕ) → ℕ → 𝕜}
    (h : ∀ b < t, ∀ b' < t, (sumSites (S.take k) fun i => star (W i b) * W i b') = if b = b' then 1 else 0) (g : List (List ℕ) → 𝕜) :
    (sumSites S fun i => ‖projLeft S k W t g i‖ ^ 2) ≤ sumSites S fun i => ‖g i‖ ^ 2 := by
  have hQ := matW_orth h
  rw [← frobSq_bip S k, ← frobSq_bip S k]
  have : bip S k (projLeft S k W t g) = matW (S.take k) W t * ((matW (S.take k) W t)ᴴ * bip S k g) := by
    ext a b
    rw [Matrix.mul_apply]
    simp only [Matrix.mul_apply, Matrix.conjTranspose_apply, matW, bip, Matrix.of_apply, projLeft]
    rw [(take_drop_idx hk (idxAt_ok a)).1, (take_drop_idx hk (idxAt_ok a)).2,
      Fin.sum_univ_eq_sum_range (fun c => W (idxAt _ a) c * ∑ x, star (W (idxAt _ x) c) * g (idxAt _ x ++ idxAt _ b))]
    exact Finset.sum_congr rfl fun c _ => by rw [sumSites_idxAt]
  rw [this, frobSq_isometry hQ]
  exact frobSq_proj_le hQ _

theorem projRight_norm {S : List (List ℕ)} {k t : ℕ} (hk : k ≤ S.length) {Z : ℕ → List (List ℕ) → 𝕜}
    (h : ∀ b < t, ∀ b' < t, (sumSites (S.drop k) fun j => star (Z b j) * Z b' j) = if b = b' then 1 else 0) (g : List (List ℕ) → 𝕜) :
    (sumSites S fun i => ‖projRight S k Z t g i‖ ^ 2) ≤ sumSites S fun i => ‖g i‖ ^ 2 := by
  have hQ := matZ_orth h
  rw [← frobSq_bip S k, ← frobSq_bip S k]
  have : bip S k (projRight S k Z t g) = (bip S k g * (matZ (S.drop k) Z t)ᴴ) * matZ (S.drop k) Z t := by
    ext a b
    rw [Matrix.mul_apply]
    simp only [Matrix.mul_apply, Matrix.conjTranspose_apply, matZ, bip, Matrix.of_apply, projRight]
    rw [(take_drop_idx hk (idxAt_ok a)).1, (take_drop_idx hk (idxAt_ok a)).2,
      Fin.sum_univ_eq_sum_range (fun c => (∑ x, g (idxAt _ a ++ idxAt _ x) * star (Z c (idxAt _ x))) * Z c (idxAt _ b))]
    exact Finset.sum_congr rfl fun c _ => by rw [sumSites_idxAt]
  rw [this, frobSq_coisometry hQ, ← frobSq_conjTranspose, ← frobSq_conjTranspose (bip S k g), Matrix.conjTranspose_mul]
  exact frobSq_proj_le (by rw [Matrix.conjTranspose_conjTranspose, hQ]) _

theorem projLeft_sub (S : List (List ℕ)) (k : ℕ) (W : List (List ℕ) → ℕ → 𝕜) (t : ℕ) (f g : List (List ℕ) → 𝕜) (i : List (List ℕ)) :
    projLeft S k W t f i - projLeft S k W t g i = projLeft S k W t (fun i => f i - g i) i := by
  simp only [projLeft]
  rw [← Finset.sum_sub_distrib]
  refine Finset.sum_congr rfl fun b _ => ?_
  rw [← mul_sub, sumSites_idxAt, sumSites_idxAt, sumSites_idxAt, ← Finset.sum_sub_distrib]
  simp only [mul_sub]

theorem projRight_sub (S : List (List ℕ)) (k : ℕ) (Z : ℕ → List (List ℕ) → 𝕜) (t : ℕ) (f g : List (List ℕ) → 𝕜) (i : List (List ℕ)) :
    projRight S k Z t f i - projRight S k Z t g i = projRight S k Z t (fun i => f i - g i) i := by
  simp only [projRight]
  rw [← Finset.sum_sub_distrib]
  refine Finset.sum_congr rfl fun b _ => ?_
  rw [← sub_mul, sumSites_idxAt, sumSites_idxAt, sumSites_idxAt, ← Finset.sum_sub_distrib]
  simp only [sub_mul]

theorem projLeft_cut {S : List (List ℕ)} {k t : ℕ} (hk : k ≤ S.length) {f h : List (List ℕ) → 𝕜} {W : List (List ℕ) → ℕ → 𝕜} {s : List ℝ}
    {Z : ℕ → List (List ℕ) → 𝕜} (hf : IsSchmidt S k f W s Z) (ht : t ≤ s.length)
    (hh : ∀ i j, IdxOK i (S.take k) → IdxOK j (S.drop k) → h (i ++ j) = ∑ b ∈ range t, W i b * ((s.getD b 0 : ℝ) : 𝕜) * Z b j)
    (i : List (List ℕ)) (hi : IdxOK i S) : h i = projLeft S k W t f i := by
  obtain ⟨i, j, rfl, hi, hj⟩ := idxOK_split k hi
  rw [hh i j hi hj, projLeft, (take_drop_idx hk hi).1, (take_drop_idx hk hi).2]
  refine Finset.sum_congr rfl fun b hb => ?_
  have hb' : b < t := by simpa using hb
  rw [mul_assoc]
  congr 1
  rw [sumSites_congr (g := fun i' => ∑ c ∈ range s.length, (star (W i' b) * W i' c) * (((s.getD c 0 : ℝ) : 𝕜) * Z c j)) fun i' hi' => by
    rw [hf.dec i' j hi' hj, Finset.mul_sum]
    exact Finset.sum_congr rfl fun c _ => by ring, sumSites_sum_comm]
  rw [Finset.sum_congr rfl fun c hc => by rw [← sumSites_mul, hf.orthW b (by omega) c (by simpa using hc)]]
  rw [Finset.sum_eq_single b (fun c _ hc => by rw [if_neg (Ne.symm hc), zero_mul]) (fun hb => absurd (by simp; omega) hb), if_pos rfl, one_mul]

theorem projRight_cut {S : List (List ℕ)} {k t : ℕ} (hk : k ≤ S.length) {f h : List (List ℕ) → 𝕜} {W : List (List ℕ) → ℕ → 𝕜} {s : List ℝ}
    {Z : ℕ → List (List ℕ) → 𝕜} (hf : IsSchmidt S k f W s Z) (ht : t ≤ s.length)
    (hh : ∀ i j, IdxOK i (S.take k) → IdxOK j (S.drop k) → h (i ++ j) = ∑ b ∈ range t, W i b * ((s.getD b 0 : ℝ) : 𝕜) * Z b j)
    (i : List (List ℕ)) (hi : IdxOK i S) : h i = projRight S k Z t f i := by
  obtain ⟨i, j, rfl, hi, hj⟩ := idxOK_split k hi
  rw [hh i j hi hj, projRight, (take_drop_idx hk hi).1, (take_drop_idx hk hi).2]
  refine Finset.sum_congr rfl fun b hb => ?_
  have hb' : b < t := by simpa using hb
  congr 1
  rw [sumSites_congr (g := fun j' => ∑ c ∈ range s.length, (star (Z b j') * Z c j') * (W i c * ((s.getD c 0 : ℝ) : 𝕜))) fun j' hj' => by
    rw [hf.dec i j' hi hj', Finset.sum_mul]
    exact Finset.sum_congr rfl fun c _ => by ring, sumSites_sum_comm]
  rw [Finset.sum_congr rfl fun c hc => by rw [← sumSites_mul, hf.orthZ b (by omega) c (by simpa using hc)]]
  rw [Finset.sum_eq_single b (fun c _ hc => by rw [if_neg (Ne.symm hc), zero_mul]) (fun hb => absurd (by simp; omega) hb), if_pos rfl, one_mul]

/-- A projection of the left part does not increase the rank at bonds on its right. -/
theorem projLeft_rank {S : List (List ℕ)} {k k' r t : ℕ} (hk : k ≤ k') (hk' : k' ≤ S.length) (W : List (List ℕ) → ℕ → 𝕜)
    {y : List (List ℕ) → 𝕜} (hy : RankLe S k' r y) : RankLe S k' r (projLeft S k W t y) := by
  obtain ⟨X, Y, hy⟩ := hy
  refine ⟨fun i c => projLeft S k W t (fun i => X i c) i, Y, ?_⟩
  intro i j hi hj
  have hl : i.length = k' := by rw [idxOK_length hi, List.length_take]; omega
  simp only [projLeft, Finset.sum_mul]
  rw [Finset.sum_comm]
  refine Finset.sum_congr rfl fun b _ => ?_
  rw [List.take_append_of_le_length (by omega), List.drop_append_of_le_length (by omega)]
  simp only [mul_assoc]
  rw [← Finset.mul_sum]
  congr 1
  rw [sumSites_congr (g := fun i' => ∑ c ∈ range r, star (W i' b) * X (i' ++ i.drop k) c * Y c j) fun i' hi' => by
    rw [← List.append_assoc, hy _ _ ?_ hj, Finset.mul_sum]
    · exact Finset.sum_congr rfl fun c _ => by ring
    · have e : (S.take k').take k = S.take k := by rw [List.take_take, min_eq_left hk]
      obtain ⟨p, q, rfl, hp, hq⟩ := idxOK_split k hi
      rw [(take_drop_idx (S := S.take k') (by simp; omega) hp).2]
      rw [← e] at hi'
      exact idxOK_join hi' hq, sumSites_sum_comm]
  exact Finset.sum_congr rfl fun c _ => by rw [sumSites_mul]

/-- A projection of the right part does not increase the rank at bonds on its left. -/
theorem projRight_rank {S : List (List ℕ)} {k k' r t : ℕ} (hk : k' ≤ k) (hk' : k ≤ S.length) (Z : ℕ → List (List ℕ) → 𝕜)
    {y : List (List ℕ) → 𝕜} (hy : RankLe S k' r y) : RankLe S k' r (projRight S k Z t y) := by
  obtain ⟨X, Y, hy⟩ := hy
  refine ⟨X, fun c j => ∑ b ∈ range t, (sumSites (S.drop k) fun j' => Y c (j.take (k - k') ++ j') * star (Z b j')) * Z b (j.drop (k - k')), ?_⟩
  intro i j hi hj
  have hl : i.length = k' := by rw [idxOK_length hi, List.length_take]; omega
  simp only [projRight, Finset.mul_sum]
  rw [Finset.sum_comm]
  refine Finset.sum_congr rfl fun b _ => ?_
  have e1 : (i ++ j).take k = i ++ j.take (k - k') := by rw [List.take_append, hl, List.take_of_length_le (by omega)]
  have e2 : (i ++ j).drop k = j.drop (k - k') := by rw [List.drop_append, hl, List.drop_eq_nil_of_le (by omega), List.nil_append]
  rw [e1, e2]
  simp only [← mul_assoc]
  rw [← Finset.sum_mul]
  congr 1
  rw [sumSites_congr (g := fun j' => ∑ c ∈ range r, X i c * (Y c (j.take (k - k') ++ j') * star (Z b j'))) fun j' hj' => by
    rw [List.append_assoc, hy _ _ hi ?_, Finset.sum_mul]
    · exact Finset.sum_congr rfl fun c _ => by ring
    · obtain ⟨p, q, rfl, hp, hq⟩ := idxOK_split (k - k') hj
      have e : (S.drop k').drop (k - k') = S.drop k := by rw [List.drop_drop]; congr 1; omega
      rw [(take_drop_idx (S := S.drop k') (by simp; omega) hp).1]
      rw [← e] at hj'
      exact idxOK_join hp hj', sumSites_sum_comm]
  exact Finset.sum_congr rfl fun c _ => by rw [mul_sumSites]

/-! ### Sequences of truncations -/

theorem tail_le_tail {s : List ℝ} {r t : ℕ} (ht : t ≤ s.length) (hr : min r s.length ≤ t) :
    ((s.drop t).map fun a => a ^ 2).sum ≤ ∑ c ∈ Ico r s.length, s.getD c 0 ^ 2 := by
  rw [← sqSum_drop s ht, sqSum, sqSum, ← Finset.sum_Ico_eq_sub _ ht]
  rcases le_or_gt r t with h | h
  · exact Finset.sum_le_sum_of_subset_of_nonneg (Finset.Ico_subset_Ico_left h) fun _ _ _ => sq_nonneg _
  · rw [Finset.Ico_eq_empty_of_le (a := t) (by omega), Finset.sum_empty]
    exact Finset.sum_nonneg fun _ _ => sq_nonneg _

theorem cutSeq_le_right {S : List (List ℕ)} {keep : List ℝ → ℕ → Prop} {ks : List ℕ} {f g : List (List ℕ) → 𝕜} {out : List (List ℝ × ℕ)}
    (hs : CutSeq S keep ks f g out) {r : ℕ} (hkeep : ∀ s t, keep s t → min r s.length ≤ t) (hks : ks.Pairwise (· < ·))
    (hle : ∀ k ∈ ks, k ≤ S.length) (Y : ℕ → List (List ℕ) → 𝕜) (hY : ∀ k ∈ ks, RankLe S k r (Y k)) :
    (out.map fun o => ((o.1.drop o.2).map fun a => a ^ 2).sum).sum ≤ (ks.map fun k => tdist S f (Y k)).sum := by
  induction hs generalizing Y with
  | nil => simp
  | @cons k ks f h g s t out hc hk hs ih =>
    obtain ⟨W, Z, h1, h2, h3⟩ := hc
    rw [List.pairwise_cons] at hks
    have hkS := hle k (by simp)
    rw [List.map_cons, List.sum_cons, List.map_cons, List.sum_cons]
    refine add_le_add ((tail_le_tail h2 (hkeep _ _ hk)).trans (schmidt_tail_le h1 (hY k (by simp)))) ?_
    refine (ih hks.2 (fun k' hk' => hle k' (by simp [hk'])) (fun k' => projLeft S k W t (Y k')) fun k' hk' =>
      projLeft_rank (hks.1 k' hk').le (hle k' (by simp [hk'])) W (hY k' (by simp [hk']))).trans ?_
    refine List.sum_le_sum fun k' _ => ?_
    rw [tdist, sumSites_congr (g := fun i => ‖projLeft S k W t (fun i => f i - Y k' i) i‖ ^ 2) fun i hi => by
      rw [projLeft_cut hkS h1 h2 h3 i hi, projLeft_sub]]
    exact projLeft_norm hkS (fun b hb b' hb' => h1.orthW b (by omega) b' (by omega)) _

theorem cutSeq_le_left {S : List (List ℕ)} {keep : List ℝ → ℕ → Prop} {ks : List ℕ} {f g : List (List ℕ) → 𝕜} {out : List (List ℝ × ℕ)}
    (hs : CutSeq S keep ks f g out) {r : ℕ} (hkeep : ∀ s t, keep s t → min r s.length ≤ t) (hks : ks.Pairwise (· > ·))
    (hle : ∀ k ∈ ks, k ≤ S.length) (Y : ℕ → List (List ℕ) → 𝕜) (hY : ∀ k ∈ ks, RankLe S k r (Y k)) :
    (out.map fun o => ((o.1.drop o.2).map fun a => a ^ 2).sum).sum ≤ (ks.map fun k => tdist S f (Y k)).sum := by
  induction hs generalizing Y with
  | nil => simp
  | @cons k ks f h g s t out hc hk hs ih =>
    obtain ⟨W, Z, h1, h2, h3⟩ := hc
    rw [List.pairwise_cons] at hks
    have hkS := hle k (by simp)
    rw [List.map_cons, List.sum_cons, List.map_cons, List.sum_cons]
    refine add_le_add ((tail_le_tail h2 (hkeep _ _ hk)).trans (schmidt_tail_le h1 (hY k (by simp)))) ?_
    refine (ih hks.2 (fun k' hk' => hle k' (by simp [hk'])) (fun k' => projRight S k Z t (Y k')) fun k' hk' =>
      projRight_rank (hks.1 k' hk').le hkS Z (hY k' (by simp [hk']))).trans ?_
    refine List.sum_le_sum fun k' _ => ?_
    rw [tdist, sumSites_congr (g := fun i => ‖projRight S k Z t (fun i => f i - Y k' i) i‖ ^ 2) fun i hi => by
      rw [projRight_cut hkS h1 h2 h3 i hi, projRight_sub]]
    exact projRight_norm hkS (fun b hb b' hb' => h1.orthZ b (by omega) b' (by omega)) _

/-! ### The theorems -/

/-- C55: if, for every bond, `Y k` is some tensor with at most rank `rank` at this bond, then the squared error of
`compress(rank=rank)` is at most the sum of the squared distances to these tensors. -/
theorem C55_bonds {qr : QR 𝕜} (hqr : QRSpec qr) {svd : SVD 𝕜} (h : SVDSpec svd)
    (x : MPA 𝕜) (hx : x.Good) (hlen : x.len ≠ 1) (rank : ℕ) (hr : 0 < rank) (direction : Option Dir) (hd : direction ≠ some .other) :
    ∃ (y : MPA 𝕜) (o : ℝ), x.compress qr svd (some rank) none direction true = .ok (y, o) ∧ y.Good ∧ y.shape = x.shape ∧
      (∀ q ∈ y.ranks, q ≤ rank) ∧
      ∀ Y : ℕ → List (List ℕ) → 𝕜, (∀ k, 1 ≤ k → k < x.len → RankLe x.shape k rank (Y k)) →
        tdist x.shape x.val y.val ≤ ∑ k ∈ Ico 1 x.len, tdist x.shape x.val (Y k) := by
  obtain ⟨r, y, o, h1, h2, h3, h4, h5, h6⟩ := MPA.compressSvd_ok hqr h (truncatedSvd_spec h) x hx hlen
    (some rank) (by rintro _ ⟨⟩; exact_mod_cast hr) none (by simp) direction hd true
  cases (show r = (rank : ℤ) from h2)
  refine ⟨y, o, h4, h5.good, h5.shape, fun q hq => by exact_mod_cast h5.rank_le q hq, ?_⟩
  intro Y hY
  have hSl : x.shape.length = x.len := by simp [MPA.shape, MPA.len]
  have hp := pythagoras h5.overlap h5.norm
  have hkeep : ∀ (s : List ℝ) (t : ℕ), Keep (rank : ℤ) none s t → min rank s.length ≤ t := by
    intro s t hk
    have : (t : ℤ) = min (rank : ℤ) s.length := hk
    omega
  rcases h6 with ⟨-, -, -, hc⟩ | ⟨-, -, -, hc⟩
  · obtain ⟨full, c1, -⟩ := hc rfl rfl
    have hb := cutSeq_le_right c1 hkeep (List.pairwise_lt_range') (fun k hk => by rw [List.mem_range'_1] at hk; omega) Y
      (fun k hk => by rw [List.mem_range'_1] at hk; exact hY k hk.1 (by omega))
    rw [← c1.norm_lost, h5.norm, ← hp] at hb
    refine hb.trans (le_of_eq ?_)
    rw [← List.sum_toFinset _ (List.nodup_range')]
    refine Finset.sum_congr ?_ fun _ _ => rfl
    ext k
    simp only [List.mem_toFinset, List.mem_range'_1, Finset.mem_Ico]
    omega
  · obtain ⟨full, c1, -⟩ := hc rfl rfl
    have hpw : ((List.range (x.len - 1)).map fun j => x.len - 1 - j).Pairwise (· > ·) := by
      rw [List.pairwise_map]
      refine (List.pairwise_lt_range).imp_of_mem fun {a b} ha hb hab => ?_
      simp only [List.mem_range] at ha hb
      omega
    have hmem : ∀ k ∈ (List.range (x.len - 1)).map fun j => x.len - 1 - j, 1 ≤ k ∧ k < x.len := by
      intro k hk
      simp only [List.mem_map, List.mem_range] at hk
      obtain ⟨j, hj, rfl⟩ := hk
      omega
    have hb := cutSeq_le_left c1 hkeep hpw (fun k hk => by have := hmem k hk; omega) Y
      (fun k hk => hY k (hmem k hk).1 (hmem k hk).2)
    rw [← c1.norm_lost, h5.norm, ← hp] at hb
    refine hb.trans (le_of_eq ?_)
    rw [← List.sum_toFinset _ (hpw.imp fun h => Nat.ne_of_gt h)]
    refine Finset.sum_congr ?_ fun _ _ => rfl
    ext k
    simp only [List.mem_toFinset, List.mem_map, List.mem_range, Finset.mem_Ico]
    constructor
    · rintro ⟨j, hj, rfl⟩; omega
    · intro hk; exact ⟨x.len - 1 - k, by omega, by omega⟩

/-- An MPA has at most the ranks of its bonds. -/
theorem rankLe_of_ranks {z : MPA 𝕜} (hz : z.Valid) {r : ℕ} (hr : ∀ q ∈ z.ranks, q ≤ r) {k : ℕ} (h1 : 1 ≤ k) (hk : k < z.len) :
    RankLe z.shape k r z.val := by
  have hsplit : z.lt = z.lt.take k ++ z.lt.drop k := (List.take_append_drop k z.lt).symm
  have hch := hz.chain
  rw [hsplit] at hch
  obtain ⟨m, hc1, hc2⟩ := chained_append.1 hch
  have hkl : k < z.lt.length := hk
  have hm : m ≤ r := by
    refine hr m ?_
    rw [MPA.ranks_eq]
    have hd : z.lt.drop k = z.lt[k] :: z.lt.drop (k + 1) := List.drop_eq_getElem_cons hkl
    rw [hd] at hc2
    have hml : z.lt[k].lb = m := hc2.2.1
    obtain ⟨k', rfl⟩ : ∃ k', k = k' + 1 := ⟨k - 1, by omega⟩
    rw [← hml, List.mem_iff_getElem]
    refine ⟨k', by simp; omega, by simp⟩
  refine ⟨fun i c => if c < m then mp (z.lt.take k) i 0 c else 0, fun c j => mp (z.lt.drop k) j c 0, ?_⟩
  intro i j hi hj
  have hil : i.length = (z.lt.take k).length := by
    have := idxOK_length hi
    simpa [MPA.shape] using this
  show entry z.lt (i ++ j) = _
  unfold entry
  conv_lhs => rw [hsplit]
  rw [mp_append hc1 hil one_pos]
  beta_reduce
  rw [← Finset.sum_subset (Finset.range_mono hm) fun c _ hc => by rw [if_neg (by simpa using hc), zero_mul]]
  exact Finset.sum_congr rfl fun c hc => by rw [if_pos (by simpa using hc)]

/-- C55: quasi-optimality.  No MPA whose bonds are at most `rank` is closer to the original than the result of
`compress(rank=rank)` by more than the factor `sqrt(len - 1)`. -/
theorem C55_quasi_optimal {qr : QR 𝕜} (hqr : QRSpec qr) {svd : SVD 𝕜} (h : SVDSpec svd)
    (x : MPA 𝕜) (hx : x.Good) (hlen : x.len ≠ 1) (rank : ℕ) (hr : 0 < rank) (direction : Option Dir) (hd : direction ≠ some .other) :
    ∃ (y : MPA 𝕜) (o : ℝ), x.compress qr svd (some rank) none direction true = .ok (y, o) ∧ y.Good ∧ y.shape = x.shape ∧
      (∀ q ∈ y.ranks, q ≤ rank) ∧
      ∀ z : MPA 𝕜, z.Valid → z.shape = x.shape → (∀ q ∈ z.ranks, q ≤ rank) →
        (sumSites x.shape fun i => ‖x.val i - y.val i‖ ^ 2)
          ≤ ((x.len - 1 : ℕ) : ℝ) * sumSites x.shape fun i => ‖x.val i - z.val i‖ ^ 2 := by
  obtain ⟨y, o, h1, h2, h3, h4, h5⟩ := C55_bonds hqr h x hx hlen rank hr direction hd
  refine ⟨y, o, h1, h2, h3, h4, fun z hz hs hq => ?_⟩
  have hl : z.len = x.len := by
    have := congrArg List.length hs
    simpa [MPA.shape, MPA.len] using this
  refine (h5 (fun _ => z.val) fun k k1 k2 => ?_).trans (le_of_eq ?_)
  · rw [← hs]
    exact rankLe_of_ranks hz hq k1 (by omega)
  · rw [Finset.sum_const, Nat.card_Ico, nsmul_eq_mul]
    rfl

/-- C55: for two sites the result is a best approximation. -/
theorem C55_two_sites {qr : QR 𝕜} (hqr : QRSpec qr) {svd : SVD 𝕜} (h : SVDSpec svd)
    (x : MPA 𝕜) (hx : x.Good) (hlen : x.len = 2) (rank : ℕ) (hr : 0 < rank) (direction : Option Dir) (hd : direction ≠ some .other) :
    ∃ (y : MPA 𝕜) (o : ℝ), x.compress qr svd (some rank) none direction true = .ok (y, o) ∧ y.Good ∧ y.shape = x.shape ∧
      (∀ q ∈ y.ranks, q ≤ rank) ∧
      ∀ z : MPA 𝕜, z.Valid → z.shape = x.shape → (∀ q ∈ z.ranks, q ≤ rank) →
        (sumSites x.shape fun i => ‖x.val i - y.val i‖ ^ 2) ≤ sumSites x.shape fun i => ‖x.val i - z.val i‖ ^ 2 := by
  obtain ⟨y, o, h1, h2, h3, h4, h5⟩ := C55_quasi_optimal hqr h x hx (by omega) rank hr direction hd
  refine ⟨y, o, h1, h2, h3, h4, fun z hz hs hq => ?_⟩
  have := h5 z hz hs hq
  rw [hlen] at this
  simpa using this

/-- The squares of the singular values of `f` after the first `r` ones, for the bipartition after `k` sites. -/
theorem schmidt_trunc_dist {S : List (List ℕ)} {k r : ℕ} {f : List (List ℕ) → 𝕜} {s : List ℝ} (h : SingVals S k f s) (hk : k ≤ S.length) :
    ∃ g, RankLe S k r g ∧ tdist S f g = ∑ c ∈ Ico r s.length, s.getD c 0 ^ 2 := by
  obtain ⟨W, Z, h⟩ := h
  refine ⟨fun i => ∑ c ∈ range s.length, W (i.take k) c * (if c < r then ((s.getD c 0 : ℝ) : 𝕜) else 0) * Z c (i.drop k),
    ⟨fun i c => if c < s.length then W i c * ((s.getD c 0 : ℝ) : 𝕜) else 0, Z, ?_⟩, ?_⟩
  · intro i j hi hj
    beta_reduce
    rw [(take_drop_idx hk hi).1, (take_drop_idx hk hi).2]
    have e1 : ∀ c, W i c * (if c < r then ((s.getD c 0 : ℝ) : 𝕜) else 0) * Z c j
        = if c ∈ range r then W i c * ((s.getD c 0 : ℝ) : 𝕜) * Z c j else 0 := by
      intro c; by_cases hc : c < r <;> simp [hc]
    have e2 : ∀ c, (if c < s.length then W i c * ((s.getD c 0 : ℝ) : 𝕜) else 0) * Z c j
        = if c ∈ range s.length then W i c * ((s.getD c 0 : ℝ) : 𝕜) * Z c j else 0 := by
      intro c; by_cases hc : c < s.length <;> simp [hc]
    simp only [e1, e2]
    rw [Finset.sum_ite_mem, Finset.sum_ite_mem, Finset.inter_comm]
  · rw [← svd_trunc_error (s := fun c => s.getD c 0) (matW_orth h.orthW) (matZ_orth h.orthZ) r, tdist, ← frobSq_bip S k]
    congr 1
    ext a b
    rw [Matrix.sub_apply, Matrix.mul_apply, Matrix.mul_apply]
    simp only [Matrix.mul_diagonal, matW, matZ, bip, Matrix.of_apply]
    rw [h.dec _ _ (idxAt_ok a) (idxAt_ok b), (take_drop_idx hk (idxAt_ok a)).1, (take_drop_idx hk (idxAt_ok a)).2,
      ← Fin.sum_univ_eq_sum_range (fun c => W (idxAt _ a) c * ((s.getD c 0 : ℝ) : 𝕜) * Z c (idxAt _ b)),
      ← Fin.sum_univ_eq_sum_range (fun c => W (idxAt _ a) c * (if c < r then ((s.getD c 0 : ℝ) : 𝕜) else 0) * Z c (idxAt _ b))]

/-- C55: the squared error of `compress(rank=rank)` is at most the sum over all bonds of the squares of the singular values
of the *original* tensor after the first `rank` ones; and at least this number for every single bond. -/
theorem C55_singular_values {qr : QR 𝕜} (hqr : QRSpec qr) {svd : SVD 𝕜} (h : SVDSpec svd)
    (x : MPA 𝕜) (hx : x.Good) (hlen : x.len ≠ 1) (rank : ℕ) (hr : 0 < rank) (direction : Option Dir) (hd : direction ≠ some .other)
    (s : ℕ → List ℝ) (hs : ∀ k, 1 ≤ k → k < x.len → SingVals x.shape k x.val (s k)) :
    ∃ (y : MPA 𝕜) (o : ℝ), x.compress qr svd (some rank) none direction true = .ok (y, o) ∧
      tdist x.shape x.val y.val ≤ ∑ k ∈ Ico 1 x.len, ∑ c ∈ Ico rank (s k).length, (s k).getD c 0 ^ 2 ∧
      ∀ k, 1 ≤ k → k < x.len → ∑ c ∈ Ico rank (s k).length, (s k).getD c 0 ^ 2 ≤ tdist x.shape x.val y.val := by
  obtain ⟨y, o, h1, h2, h3, h4, h5⟩ := C55_bonds hqr h x hx hlen rank hr direction hd
  have hSl : x.shape.length = x.len := by simp [MPA.shape, MPA.len]
  have hl : y.len = x.len := by
    have := congrArg List.length h3
    simpa [MPA.shape, MPA.len] using this
  refine ⟨y, o, h1, ?_, ?_⟩
  · have hg : ∀ k, ∃ g, 1 ≤ k → k < x.len → RankLe x.shape k rank g ∧ tdist x.shape x.val g = ∑ c ∈ Ico rank (s k).length, (s k).getD c 0 ^ 2 := by
      intro k
      by_cases hk : 1 ≤ k ∧ k < x.len
      · obtain ⟨g, hg⟩ := schmidt_trunc_dist (r := rank) (hs k hk.1 hk.2) (by omega)
        exact ⟨g, fun _ _ => hg⟩
      · exact ⟨fun _ => 0, fun a b => absurd ⟨a, b⟩ hk⟩
    choose Y hY using hg
    refine (h5 Y fun k k1 k2 => (hY k k1 k2).1).trans (le_of_eq ?_)
    refine Finset.sum_congr rfl fun k hk => ?_
    rw [Finset.mem_Ico] at hk
    exact (hY k hk.1 hk.2).2
  · intro k k1 k2
    obtain ⟨W, Z, hWZ⟩ := hs k k1 k2
    have := rankLe_of_ranks h2.valid h4 k1 (by omega)
    rw [h3] at this
    exact schmidt_tail_le hWZ this

/-! ### `relerr` -/

theorem sum_sq_le_sq_sum {l : List ℝ} (h : ∀ a ∈ l, 0 ≤ a) : (l.map fun a => a ^ 2).sum ≤ l.sum ^ 2 := by
  induction l with
  | nil => simp
  | cons a l ih =>
    have ha := h a (by simp)
    have hl : 0 ≤ l.sum := List.sum_nonneg fun b hb => h b (by simp [hb])
    have := ih fun b hb => h b (by simp [hb])
    rw [List.map_cons, List.sum_cons, List.sum_cons]
    nlinarith [mul_nonneg ha hl]

theorem sq_sum_le (l : List ℝ) : l.sum ^ 2 ≤ l.length * (l.map fun a => a ^ 2).sum := by
  have h := sq_sum_le_card_mul_sum_sq (s := (Finset.univ : Finset (Fin l.length))) (f := fun i => l[i])
  have e : (l.map fun a => a ^ 2).sum = ∑ i : Fin l.length, l[i] ^ 2 := by
    rw [← List.sum_ofFn]
    congr 1
    refine List.ext_getElem (by simp) fun n h1 h2 => by simp
  rw [e]
  simpa [Fin.sum_univ_def] using h

theorem relerr_tail {s : List ℝ} (hs : ∀ a ∈ s, 0 ≤ a) {e : ℝ} {t : ℕ} (h : (1 - e) * s.sum ≤ (s.take t).sum) :
    ((s.drop t).map fun a => a ^ 2).sum ≤ e ^ 2 * (s.length * (s.map fun a => a ^ 2).sum) := by
  have hd : ∀ a ∈ s.drop t, 0 ≤ a := fun a ha => hs a (List.mem_of_mem_drop ha)
  have h0 : 0 ≤ (s.drop t).sum := List.sum_nonneg hd
  have e1 : (s.take t).sum + (s.drop t).sum = s.sum := List.sum_take_add_sum_drop s t
  have h1 : (s.drop t).sum ≤ e * s.sum := by linarith
  calc ((s.drop t).map fun a => a ^ 2).sum ≤ (s.drop t).sum ^ 2 := sum_sq_le_sq_sum hd
    _ ≤ (e * s.sum) ^ 2 := by nlinarith
    _ = e ^ 2 * s.sum ^ 2 := by ring
    _ ≤ _ := mul_le_mul_of_nonneg_left (sq_sum_le s) (sq_nonneg e)

theorem cutSeq_relerr {S : List (List ℕ)} {keep : List ℝ → ℕ → Prop} {ks : List ℕ} {f g : List (List ℕ) → 𝕜} {out : List (List ℝ × ℕ)}
    (hs : CutSeq S keep ks f g out) {e : ℝ} (hkeep : ∀ o ∈ out, (1 - e) * o.1.sum ≤ (o.1.take o.2).sum) :
    (out.map fun o => ((o.1.drop o.2).map fun a => a ^ 2).sum).sum
      ≤ e ^ 2 * ((out.map fun o => (o.1.length : ℝ)).sum * sumSites S fun i => ‖f i‖ ^ 2) := by
  induction hs with
  | nil => simp
  | @cons k ks f h g s t out hc hk hs ih =>
    obtain ⟨W, Z, h1, h2, h3⟩ := hc
    have hf : (s.map fun a => a ^ 2).sum = sumSites S fun i => ‖f i‖ ^ 2 := by
      have := sqSum_drop s (Nat.zero_le _)
      rw [h1.norm_part le_rfl h1.dec]
      simpa [sqSum] using this.symm
    have hle : (sumSites S fun i => ‖h i‖ ^ 2) ≤ sumSites S fun i => ‖f i‖ ^ 2 := by
      rw [h1.norm_part h2 h3, h1.norm_part le_rfl h1.dec]
      exact Finset.sum_le_sum_of_subset_of_nonneg (Finset.range_mono h2) fun _ _ _ => sq_nonneg _
    have a1 := relerr_tail (fun a ha => h1.nonneg a ha) (hkeep (s, t) (by simp))
    have a2 := ih fun o ho => hkeep o (by simp [ho])
    have hn : 0 ≤ (out.map fun o => (o.1.length : ℝ)).sum := List.sum_nonneg fun a ha => by
      simp only [List.mem_map] at ha
      obtain ⟨o, -, rfl⟩ := ha
      positivity
    rw [hf] at a1
    rw [List.map_cons, List.sum_cons, List.map_cons, List.sum_cons]
    have a3 : e ^ 2 * ((out.map fun o => (o.1.length : ℝ)).sum * sumSites S fun i => ‖h i‖ ^ 2)
        ≤ e ^ 2 * ((out.map fun o => (o.1.length : ℝ)).sum * sumSites S fun i => ‖f i‖ ^ 2) :=
      mul_le_mul_of_nonneg_left (mul_le_mul_of_nonneg_left hle hn) (sq_nonneg e)
    calc _ ≤ e ^ 2 * (s.length * sumSites S fun i => ‖f i‖ ^ 2) + e ^ 2 * ((out.map fun o => (o.1.length : ℝ)).sum * sumSites S fun i => ‖f i‖ ^ 2) :=
        add_le_add a1 (a2.trans a3)
      _ = _ := by ring

theorem CutSeq.keep_mem {S : List (List ℕ)} {keep : List ℝ → ℕ → Prop} {ks : List ℕ} {f g : List (List ℕ) → 𝕜} {out : List (List ℝ × ℕ)}
    (hs : CutSeq S keep ks f g out) {o : List ℝ × ℕ} (ho : o ∈ out) : (∀ a ∈ o.1, 0 ≤ a) ∧ keep o.1 o.2 := by
  induction hs with
  | nil => simp at ho
  | cons hc hk hs ih =>
    rcases List.mem_cons.1 ho with rfl | ho
    · obtain ⟨W, Z, h1, -⟩ := hc
      exact ⟨h1.nonneg, hk⟩
    · exact ih ho

theorem sum_lengths_le {out : List (List ℝ × ℕ)} {d : List ℕ} (h : List.Forall₂ (fun o d => o.1.length ≤ d) out d) :
    (out.map fun o => (o.1.length : ℝ)).sum ≤ (d.sum : ℕ) := by
  induction h with
  | nil => simp
  | cons h _ ih =>
    rw [List.map_cons, List.sum_cons, List.sum_cons, Nat.cast_add]
    exact add_le_add (by exact_mod_cast h) ih

/-- C55: with `relerr=e` alone the squared error is at most `e²` times the sum of the bond dimensions times the squared norm. -/
theorem C55_relerr {qr : QR 𝕜} (hqr : QRSpec qr) {svd : SVD 𝕜} (h : SVDSpec svd)
    (x : MPA 𝕜) (hx : x.Good) (hlen : x.len ≠ 1) (e : ℝ) (he : 0 ≤ e ∧ e ≤ 1) (direction : Option Dir) (hd : direction ≠ some .other) :
    ∃ (y : MPA 𝕜) (o : ℝ), x.compress qr svd none (some e) direction true = .ok (y, o) ∧
      (sumSites x.shape fun i => ‖x.val i - y.val i‖ ^ 2) ≤ e ^ 2 * ((x.ranks.sum : ℕ) * sumSites x.shape fun i => ‖x.val i‖ ^ 2) := by
  obtain ⟨r, y, o, h1, h2, h3, h4, h5, h6⟩ := MPA.compressSvd_ok hqr h (truncatedSvd_spec h) x hx hlen
    none (by simp) (some e) (by rintro _ ⟨⟩; exact he) direction hd true
  refine ⟨y, o, h4, ?_⟩
  have hp := pythagoras h5.overlap h5.norm
  have hall : ∀ q ∈ x.ranks, (q : ℤ) ≤ r := h3 rfl
  have hn : 0 ≤ sumSites x.shape fun i => ‖x.val i‖ ^ 2 := sumSites_nonneg fun _ => sq_nonneg _
  have main : ∀ (ks : List ℕ) (full : List (List ℝ × ℕ)) (d : List ℕ), CutSeq x.shape (Keep r (some e)) ks x.val y.val full →
      List.Forall₂ (fun o d => o.1.length ≤ d) full d → (∀ q ∈ d, q ∈ x.ranks) → d.sum = x.ranks.sum →
      (sumSites x.shape fun i => ‖x.val i - y.val i‖ ^ 2) ≤ e ^ 2 * ((x.ranks.sum : ℕ) * sumSites x.shape fun i => ‖x.val i‖ ^ 2) := by
    intro ks full d c1 c3 hdm hds
    have hb := cutSeq_relerr c1 (e := e) (fun o ho => by
      obtain ⟨q, hq1, hq2⟩ := forall₂_exists_right c3 ho
      have hq := hall q (hdm q hq1)
      obtain ⟨hn, r', hr', ht⟩ := c1.keep_mem ho
      rcases le_total (r' : ℤ) r with hle | hle
      · have : o.2 = r' := by omega
        rw [this]; exact hr'.1.2
      · have hnn : 0 ≤ o.1.sum := List.sum_nonneg hn
        rw [List.take_of_length_le (by omega)]
        nlinarith [he.1])
    rw [← c1.norm_lost, h5.norm, ← hp] at hb
    refine hb.trans (mul_le_mul_of_nonneg_left (mul_le_mul_of_nonneg_right ?_ hn) (sq_nonneg e))
    rw [← hds]
    exact sum_lengths_le c3
  rcases h6 with ⟨-, -, -, hc⟩ | ⟨-, -, -, hc⟩
  · obtain ⟨full, c1, -, c3⟩ := hc rfl rfl
    exact main _ full _ c1 c3 (fun q hq => hq) rfl
  · obtain ⟨full, c1, -, c3⟩ := hc rfl rfl
    exact main _ full _ c1 c3 (fun q hq => by simpa using hq) (List.sum_reverse _)

/-- Concrete case: routines which meet the contracts exist, and the theorems apply to a two-site MPA with bond 2. -/
example : ∃ (qr : QR ℂ) (svd : SVD ℂ) (y : MPA ℂ) (o : ℝ), QRSpec qr ∧ SVDSpec svd ∧
    exMPAc.compress qr svd (some 1) none none true = .ok (y, o) ∧ exMPAc.ranks = [2] ∧
    ∀ z : MPA ℂ, z.Valid → z.shape = exMPAc.shape → (∀ q ∈ z.ranks, q ≤ 1) →
      (sumSites exMPAc.shape fun i => ‖exMPAc.val i - y.val i‖ ^ 2) ≤ sumSites exMPAc.shape fun i => ‖exMPAc.val i - z.val i‖ ^ 2 := by
  obtain ⟨qr, hqr⟩ := exists_QRSpec (𝕜 := ℂ)
  obtain ⟨svd, h⟩ := exists_SVDSpec (𝕜 := ℂ)
  obtain ⟨y, o, h1, -, -, -, h2⟩ := C55_two_sites hqr h exMPAc exMPAc_good rfl 1 one_pos none (by simp)
  exact ⟨qr, svd, y, o, hqr, h, h1, rfl, h2⟩

end Mpnum
