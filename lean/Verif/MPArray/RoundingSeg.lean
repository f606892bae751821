import Verif.MPArray.RoundingDot
import Verif.MPArray.RoundingCompress

/-! Operator norms of segments of chains that are canonical up to `ε` on both sides of a site. -/

open Finset

namespace Mpnum

variable {𝕜 : Type} [RCLike 𝕜]

/-- The operator norm of a chain, from the right bond to the other legs, is at most `c`. -/
def LSegOp (c : ℝ) (ts : List (NDArray 𝕜)) : Prop := ∀ l m, Chained l ts m → ∀ v : ℕ → 𝕜,
  ∑ a ∈ range l, ∑ i ∈ siteSet (physShape ts), ‖∑ b ∈ range m, mp ts i a b * v b‖ ^ 2 ≤ c ^ 2 * ∑ b ∈ range m, ‖v b‖ ^ 2

theorem segOp_of_rop {ts : List (NDArray 𝕜)} {cs : List ℝ} (h : List.Forall₂ ROp cs ts) : SegOp cs.prod ts :=
  fun _ _ hc v => rop_chain h hc v

theorem lsegOp_of_lop {ts : List (NDArray 𝕜)} {cs : List ℝ} (h : List.Forall₂ LOp cs ts) : LSegOp cs.prod ts :=
  fun _ _ hc v => lop_chain h hc v

theorem segOp_nil : SegOp 1 ([] : List (NDArray 𝕜)) := by simpa using segOp_of_rop (𝕜 := 𝕜) List.Forall₂.nil

theorem SegOp.mono {c d : ℝ} (hc : 0 ≤ c) (hd : c ≤ d) {ts : List (NDArray 𝕜)} (h : SegOp c ts) : SegOp d ts := fun l m hm v =>
  (h l m hm v).trans (mul_le_mul_of_nonneg_right (pow_le_pow_left₀ hc hd 2) (Finset.sum_nonneg fun _ _ => sq_nonneg _))

theorem LSegOp.mono {c d : ℝ} (hc : 0 ≤ c) (hd : c ≤ d) {ts : List (NDArray 𝕜)} (h : LSegOp c ts) : LSegOp d ts := fun l m hm v =>
  (h l m hm v).trans (mul_le_mul_of_nonneg_right (pow_le_pow_left₀ hc hd 2) (Finset.sum_nonneg fun _ _ => sq_nonneg _))

theorem SegOp.append {c d : ℝ} {A B : List (NDArray 𝕜)} (hA : SegOp c A) (hB : SegOp d B) : SegOp (c * d) (A ++ B) := by
  intro l m hm v
  obtain ⟨k, h1, h2⟩ := chained_append.1 hm
  have e : physShape (A ++ B) = physShape A ++ physShape B := by simp [physShape]
  rw [e, sum_siteSet_append]
  calc _ = ∑ i ∈ siteSet (physShape A), ∑ j ∈ siteSet (physShape B), ∑ b ∈ range m,
        ‖∑ y ∈ range k, (∑ a ∈ range l, v a * mp A i a y) * mp B j y b‖ ^ 2 := by
        refine Finset.sum_congr rfl fun i hi => Finset.sum_congr rfl fun j _ => Finset.sum_congr rfl fun b _ => ?_
        congr 2
        simp only [Finset.sum_mul]
        rw [Finset.sum_comm]
        refine Finset.sum_congr rfl fun a ha => ?_
        rw [mp_append h1 (chain_len hi) (by simpa using ha), Finset.mul_sum]
        exact Finset.sum_congr rfl fun y _ => by ring
    _ ≤ ∑ i ∈ siteSet (physShape A), d ^ 2 * ∑ y ∈ range k, ‖∑ a ∈ range l, v a * mp A i a y‖ ^ 2 :=
        Finset.sum_le_sum fun i _ => hB k m h2 _
    _ ≤ d ^ 2 * (c ^ 2 * ∑ a ∈ range l, ‖v a‖ ^ 2) := by
        rw [← Finset.mul_sum]; exact mul_le_mul_of_nonneg_left (hA l k h1 v) (sq_nonneg _)
    _ = _ := by ring

theorem LSegOp.append {c d : ℝ} {A B : List (NDArray 𝕜)} (hA : LSegOp c A) (hB : LSegOp d B) : LSegOp (c * d) (A ++ B) := by
  intro l m hm v
  obtain ⟨k, h1, h2⟩ := chained_append.1 hm
  have e : physShape (A ++ B) = physShape A ++ physShape B := by simp [physShape]
  rw [e]
  calc _ = ∑ j ∈ siteSet (physShape B), ∑ a ∈ range l, ∑ i ∈ siteSet (physShape A),
        ‖∑ y ∈ range k, mp A i a y * ∑ b ∈ range m, mp B j y b * v b‖ ^ 2 := by
        rw [Finset.sum_comm (s := siteSet (physShape B))]
        refine Finset.sum_congr rfl fun a ha => ?_
        rw [sum_siteSet_append, Finset.sum_comm]
        refine Finset.sum_congr rfl fun j _ => Finset.sum_congr rfl fun i hi => ?_
        congr 2
        simp only [Finset.mul_sum]
        rw [Finset.sum_comm]
        refine Finset.sum_congr rfl fun b _ => ?_
        rw [mp_append h1 (chain_len hi) (by simpa using ha), Finset.sum_mul]
        exact Finset.sum_congr rfl fun y _ => by ring
    _ ≤ ∑ j ∈ siteSet (physShape B), c ^ 2 * ∑ y ∈ range k, ‖∑ b ∈ range m, mp B j y b * v b‖ ^ 2 :=
        Finset.sum_le_sum fun j _ => hA l k h1 _
    _ ≤ c ^ 2 * (d ^ 2 * ∑ b ∈ range m, ‖v b‖ ^ 2) := by
        rw [← Finset.mul_sum]
        refine mul_le_mul_of_nonneg_left ?_ (sq_nonneg _)
        rw [Finset.sum_comm]
        exact hB k m h2 v
    _ = _ := by ring

/-- An operator norm bounds the norm of the entries. -/
theorem frob_of_op {ι : Type} {I : Finset ι} {m : ℕ} {T : ι → ℕ → 𝕜} {c : ℝ}
    (h : ∀ v : ℕ → 𝕜, ∑ i ∈ I, ‖∑ b ∈ range m, T i b * v b‖ ^ 2 ≤ c ^ 2 * ∑ b ∈ range m, ‖v b‖ ^ 2) :
    ∑ i ∈ I, ∑ b ∈ range m, ‖T i b‖ ^ 2 ≤ m * c ^ 2 := by
  rw [Finset.sum_comm]
  calc _ ≤ ∑ _b ∈ range m, c ^ 2 := by
        refine Finset.sum_le_sum fun b hb => ?_
        have := h fun b' => if b' = b then 1 else 0
        rw [Finset.sum_eq_single b (fun b' _ hb' => by simp [hb']) (fun hn => absurd hb hn)] at this
        simp only [if_true, norm_one, one_pow, mul_one] at this
        refine le_trans (le_of_eq ?_) this
        refine Finset.sum_congr rfl fun i _ => ?_
        rw [Finset.sum_eq_single b (fun b' _ hb' => by simp [hb']) (fun hn => absurd hb hn)]
        simp
    _ = _ := by rw [Finset.sum_const, card_range, nsmul_eq_mul]

/-- The transposed map has the same operator norm. -/
theorem op_transpose {ι : Type} {I : Finset ι} {m : ℕ} {T : ι → ℕ → 𝕜} {c : ℝ}
    (h : ∀ v : ℕ → 𝕜, ∑ i ∈ I, ‖∑ b ∈ range m, T i b * v b‖ ^ 2 ≤ c ^ 2 * ∑ b ∈ range m, ‖v b‖ ^ 2) (u : ι → 𝕜) :
    ∑ b ∈ range m, ‖∑ i ∈ I, u i * T i b‖ ^ 2 ≤ c ^ 2 * ∑ i ∈ I, ‖u i‖ ^ 2 := by
  set g : ℕ → 𝕜 := fun b => ∑ i ∈ I, u i * T i b with hg
  set S := ∑ b ∈ range m, ‖g b‖ ^ 2 with hS
  have hS0 : 0 ≤ S := Finset.sum_nonneg fun _ _ => sq_nonneg _
  have hU : 0 ≤ ∑ i ∈ I, ‖u i‖ ^ 2 := Finset.sum_nonneg fun _ _ => sq_nonneg _
  have e : ((S : ℝ) : 𝕜) = ∑ i ∈ I, u i * ∑ b ∈ range m, T i b * star (g b) := by
    rw [hS]; push_cast
    have : ∀ b ∈ range m, ((‖g b‖ : ℝ) : 𝕜) ^ 2 = ∑ i ∈ I, u i * (T i b * star (g b)) := by
      intro b _
      have := star_mul_self_eq (g b)
      push_cast at this
      rw [← this, mul_comm]
      conv_lhs => rw [hg]
      simp only
      rw [Finset.sum_mul]
      exact Finset.sum_congr rfl fun i _ => by ring
    rw [Finset.sum_congr rfl this, Finset.sum_comm]
    exact Finset.sum_congr rfl fun i _ => by rw [Finset.mul_sum]
  have h1 : S ^ 2 ≤ (∑ i ∈ I, ‖u i‖ ^ 2) * (c ^ 2 * S) := by
    have h2 := cauchy_sq I u fun i => ∑ b ∈ range m, T i b * star (g b)
    rw [← e] at h2
    simp only [RCLike.norm_ofReal, sq_abs] at h2
    refine h2.trans (mul_le_mul_of_nonneg_left ?_ hU)
    have := h fun b => star (g b)
    simpa only [norm_star] using this
  rcases hS0.eq_or_lt with h0 | h0
  · rw [← h0]; positivity
  · nlinarith

theorem segOp_of_lop {ts : List (NDArray 𝕜)} {cs : List ℝ} (h : List.Forall₂ LOp cs ts) {D : ℕ} (hD : ∀ t ∈ ts, t.rb ≤ D) (hne : ts ≠ []) :
    SegOp (Real.sqrt D * cs.prod) ts := by
  intro l m hc v
  have hm : m ≤ D := by
    obtain ⟨ts', t, rfl⟩ : ∃ ts' t, ts = ts' ++ [t] := ⟨_, _, (List.dropLast_append_getLast hne).symm⟩
    obtain ⟨k, h1, h2⟩ := chained_append.1 hc
    have : t.rb = m := h2.2.2
    rw [← this]
    exact hD t (by simp)
  have hF := frob_of_op (I := range l ×ˢ siteSet (physShape ts)) (m := m) (T := fun ai b => mp ts ai.2 ai.1 b) (c := cs.prod) fun w => by
    rw [Finset.sum_product]; exact lop_chain h hc w
  rw [Finset.sum_product] at hF
  have hU : 0 ≤ ∑ a ∈ range l, ‖v a‖ ^ 2 := Finset.sum_nonneg fun _ _ => sq_nonneg _
  calc _ ≤ ∑ i ∈ siteSet (physShape ts), ∑ b ∈ range m, (∑ a ∈ range l, ‖v a‖ ^ 2) * ∑ a ∈ range l, ‖mp ts i a b‖ ^ 2 :=
        Finset.sum_le_sum fun i _ => Finset.sum_le_sum fun b _ => cauchy_sq _ _ _
    _ = (∑ a ∈ range l, ‖v a‖ ^ 2) * ∑ a ∈ range l, ∑ i ∈ siteSet (physShape ts), ∑ b ∈ range m, ‖mp ts i a b‖ ^ 2 := by
        simp only [← Finset.mul_sum]
        congr 1
        rw [Finset.sum_comm (s := range l)]
        exact Finset.sum_congr rfl fun i _ => Finset.sum_comm
    _ ≤ (∑ a ∈ range l, ‖v a‖ ^ 2) * (D * cs.prod ^ 2) := by
        refine mul_le_mul_of_nonneg_left (hF.trans (mul_le_mul_of_nonneg_right (by exact_mod_cast hm) (sq_nonneg _))) hU
    _ = _ := by rw [mul_pow, Real.sq_sqrt (Nat.cast_nonneg _)]; ring

theorem lsegOp_of_rop {ts : List (NDArray 𝕜)} {cs : List ℝ} (h : List.Forall₂ ROp cs ts) {D : ℕ} (hD : ∀ t ∈ ts, t.lb ≤ D) (hne : ts ≠ []) :
    LSegOp (Real.sqrt D * cs.prod) ts := by
  intro l m hc v
  have hm : l ≤ D := by
    cases ts with
    | nil => exact absurd rfl hne
    | cons t ts => rw [← hc.2.1]; exact hD t (by simp)
  have hF := frob_of_op (I := siteSet (physShape ts) ×ˢ range m) (m := l) (T := fun ib a => mp ts ib.1 a ib.2) (c := cs.prod) fun w => by
    rw [Finset.sum_product]
    refine le_trans (le_of_eq ?_) (rop_chain h hc w)
    exact Finset.sum_congr rfl fun i _ => Finset.sum_congr rfl fun b _ => by
      congr 2; exact Finset.sum_congr rfl fun a _ => mul_comm _ _
  rw [Finset.sum_product] at hF
  have hU : 0 ≤ ∑ a ∈ range m, ‖v a‖ ^ 2 := Finset.sum_nonneg fun _ _ => sq_nonneg _
  calc _ ≤ ∑ a ∈ range l, ∑ i ∈ siteSet (physShape ts), (∑ b ∈ range m, ‖mp ts i a b‖ ^ 2) * ∑ b ∈ range m, ‖v b‖ ^ 2 :=
        Finset.sum_le_sum fun i _ => Finset.sum_le_sum fun b _ => cauchy_sq _ _ _
    _ = (∑ i ∈ siteSet (physShape ts), ∑ b ∈ range m, ∑ a ∈ range l, ‖mp ts i a b‖ ^ 2) * ∑ b ∈ range m, ‖v b‖ ^ 2 := by
        simp only [← Finset.sum_mul]
        congr 1
        rw [Finset.sum_comm]
        exact Finset.sum_congr rfl fun i _ => Finset.sum_comm
    _ ≤ (D * cs.prod ^ 2) * ∑ b ∈ range m, ‖v b‖ ^ 2 :=
        mul_le_mul_of_nonneg_right (hF.trans (mul_le_mul_of_nonneg_right (by exact_mod_cast hm) (sq_nonneg _))) hU
    _ = _ := by rw [mul_pow, Real.sq_sqrt (Nat.cast_nonneg _)]

/-! ### weights -/

/-- A chain with weights: the tensors of the first part have at most these operator norms from the right bond, those of the second
part from the left bond. -/
structure Weighted (A B : List (ℝ × NDArray 𝕜)) (D : ℕ) : Prop where
  one : 1 ≤ D
  nonneg : ∀ q ∈ A ++ B, 0 ≤ q.1
  left : ∀ q ∈ A, LOp q.1 q.2
  right : ∀ q ∈ B, ROp q.1 q.2
  rb : ∀ q ∈ A, q.2.rb ≤ D
  lb : ∀ q ∈ B, q.2.lb ≤ D

theorem wfor {P : ℝ → NDArray 𝕜 → Prop} {A : List (ℝ × NDArray 𝕜)} (h : ∀ q ∈ A, P q.1 q.2) :
    List.Forall₂ P (A.map Prod.fst) (A.map Prod.snd) := by
  rw [List.forall₂_map_left_iff, List.forall₂_map_right_iff, List.forall₂_same]
  exact h

theorem wprod_nn {A : List (ℝ × NDArray 𝕜)} (h : ∀ q ∈ A, 0 ≤ q.1) : 0 ≤ (A.map Prod.fst).prod :=
  List.prod_nonneg fun a ha => by obtain ⟨q, hq, rfl⟩ := List.mem_map.1 ha; exact h q hq

theorem Weighted.seg {A B : List (ℝ × NDArray 𝕜)} {D : ℕ} (h : Weighted A B D) :
    SegOp (Real.sqrt D * ((A ++ B).map Prod.fst).prod) ((A ++ B).map Prod.snd) := by
  have hs : 1 ≤ Real.sqrt D := Real.one_le_sqrt.2 (by exact_mod_cast h.one)
  have hB := segOp_of_rop (wfor h.right)
  have hA : SegOp (Real.sqrt D * (A.map Prod.fst).prod) (A.map Prod.snd) := by
    by_cases hne : A = []
    · subst hne
      simpa using segOp_nil.mono zero_le_one hs
    · refine segOp_of_lop (wfor h.left) (fun t ht => ?_) (by simpa using hne)
      obtain ⟨q, hq, rfl⟩ := List.mem_map.1 ht
      exact h.rb q hq
  have := hA.append hB
  rwa [mul_assoc, ← List.prod_append, ← List.map_append, ← List.map_append] at this

theorem Weighted.lseg {A B : List (ℝ × NDArray 𝕜)} {D : ℕ} (h : Weighted A B D) :
    LSegOp (Real.sqrt D * ((A ++ B).map Prod.fst).prod) ((A ++ B).map Prod.snd) := by
  have hs : 1 ≤ Real.sqrt D := Real.one_le_sqrt.2 (by exact_mod_cast h.one)
  have hA := lsegOp_of_lop (wfor h.left)
  have hB : LSegOp (Real.sqrt D * (B.map Prod.fst).prod) (B.map Prod.snd) := by
    by_cases hne : B = []
    · subst hne
      have : LSegOp 1 ([] : List (NDArray 𝕜)) := by simpa using lsegOp_of_lop (𝕜 := 𝕜) List.Forall₂.nil
      simpa using this.mono zero_le_one hs
    · refine lsegOp_of_rop (wfor h.right) (fun t ht => ?_) (by simpa using hne)
      obtain ⟨q, hq, rfl⟩ := List.mem_map.1 ht
      exact h.lb q hq
  have := hA.append hB
  rw [mul_left_comm, ← List.prod_append, ← List.map_append, ← List.map_append] at this
  exact this

/-- A segment of a chain with weights is a chain with weights. -/
theorem Weighted.infix {A B : List (ℝ × NDArray 𝕜)} {D : ℕ} (h : Weighted A B D) {pre mid post : List (ℝ × NDArray 𝕜)}
    (he : A ++ B = pre ++ (mid ++ post)) : ∃ A' B', mid = A' ++ B' ∧ Weighted A' B' D := by
  have key : ∃ A' B', mid = A' ++ B' ∧ (∀ q ∈ A', q ∈ A) ∧ (∀ q ∈ B', q ∈ B) := by
    rcases List.append_eq_append_iff.1 he with ⟨w, h1, h2⟩ | ⟨w, h1, h2⟩
    · exact ⟨[], mid, rfl, by simp, fun q hq => by rw [h2]; simp [hq]⟩
    · rcases List.append_eq_append_iff.1 h2 with ⟨u, h3, h4⟩ | ⟨u, h3, h4⟩
      · exact ⟨mid, [], by simp, fun q hq => by rw [h1, h3]; simp [hq], by simp⟩
      · exact ⟨w, u, h3, fun q hq => by rw [h1]; simp [hq], fun q hq => by rw [h4]; simp [hq]⟩
  obtain ⟨A', B', rfl, hA, hB⟩ := key
  refine ⟨A', B', rfl, h.one, fun q hq => h.nonneg q ?_, fun q hq => h.left q (hA q hq), fun q hq => h.right q (hB q hq),
    fun q hq => h.rb q (hA q hq), fun q hq => h.lb q (hB q hq)⟩
  rcases List.mem_append.1 hq with hq | hq
  · exact List.mem_append_left _ (hA q hq)
  · exact List.mem_append_right _ (hB q hq)

end Mpnum
