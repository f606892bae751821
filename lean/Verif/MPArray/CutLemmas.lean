import Verif.MPArray.CompressMain

/-! Consequences of a sequence of truncated Schmidt decompositions. -/

open Finset

namespace Mpnum

variable {𝕜 : Type} [RCLike 𝕜]

/-- Sum of the squares of the first `t` elements. -/
def sqSum (s : List ℝ) (t : ℕ) : ℝ := ∑ b ∈ range t, s.getD b 0 ^ 2

theorem idxOK_split {S : List (List ℕ)} (k : ℕ) {i : List (List ℕ)} (h : IdxOK i S) :
    ∃ a b, i = a ++ b ∧ IdxOK a (S.take k) ∧ IdxOK b (S.drop k) := by
  rw [← List.take_append_drop k S] at h
  obtain ⟨a, b, h1, h2, h3⟩ := idxOK_append_split h
  exact ⟨a, b, h1, h2, h3⟩

theorem idxOK_join {S : List (List ℕ)} {k : ℕ} {a b : List (List ℕ)} (h1 : IdxOK a (S.take k))
    (h2 : IdxOK b (S.drop k)) : IdxOK (a ++ b) S := by
  have := idxOK_append h1 h2
  rwa [List.take_append_drop] at this

theorem IsSchmidt.norm_part {S : List (List ℕ)} {k : ℕ} {f : List (List ℕ) → 𝕜}
    {W : List (List ℕ) → ℕ → 𝕜} {s : List ℝ} {Z : ℕ → List (List ℕ) → 𝕜} (h : IsSchmidt S k f W s Z)
    {t : ℕ} (ht : t ≤ s.length) {g : List (List ℕ) → 𝕜}
    (hg : ∀ i j, IdxOK i (S.take k) → IdxOK j (S.drop k) →
      g (i ++ j) = ∑ b ∈ range t, W i b * ((s.getD b 0 : ℝ) : 𝕜) * Z b j) :
    (sumSites S fun i => ‖g i‖ ^ 2) = sqSum s t := by
  have key : (sumSites S fun i => star (g i) * g i) = ((sqSum s t : ℝ) : 𝕜) := by
    have e0 : (sumSites S fun i => star (g i) * g i)
        = sumSites (S.take k) fun i => sumSites (S.drop k) fun j => star (g (i ++ j)) * g (i ++ j) := by
      conv_lhs => rw [← List.take_append_drop k S]
      rw [sumSites_append]
    rw [e0]
    have e1 : ∀ i, IdxOK i (S.take k) → (sumSites (S.drop k) fun j => star (g (i ++ j)) * g (i ++ j))
        = ∑ b ∈ range t, (star (W i b) * W i b) * ((s.getD b 0 : ℝ) : 𝕜) ^ 2 := by
      intro i hi
      have : ∀ j, IdxOK j (S.drop k) → star (g (i ++ j)) * g (i ++ j)
          = ∑ b ∈ range t, ∑ b' ∈ range t,
            (star (W i b) * ((s.getD b 0 : ℝ) : 𝕜) * (W i b' * ((s.getD b' 0 : ℝ) : 𝕜))) *
              (star (Z b j) * Z b' j) := by
        intro j hj
        rw [hg i j hi hj, star_sum, Finset.sum_mul_sum]
        refine Finset.sum_congr rfl fun b _ => Finset.sum_congr rfl fun b' _ => ?_
        rw [star_mul', star_mul', show star ((s.getD b 0 : ℝ) : 𝕜) = ((s.getD b 0 : ℝ) : 𝕜) from RCLike.conj_ofReal _]
        ring
      rw [sumSites_congr this, sumSites_sum_comm]
      refine Finset.sum_congr rfl fun b hb => ?_
      rw [sumSites_sum_comm]
      have hb' : b < t := by simpa using hb
      rw [Finset.sum_eq_single b]
      · rw [← mul_sumSites, h.orthZ b (by omega) b (by omega), if_pos rfl]; ring
      · intro c hc hcb
        have hc' : c < t := by simpa using hc
        rw [← mul_sumSites, h.orthZ b (by omega) c (by omega), if_neg (Ne.symm hcb), mul_zero]
      · intro hh; exact absurd hb hh
    rw [sumSites_congr e1, sumSites_sum_comm]
    unfold sqSum
    push_cast
    refine Finset.sum_congr rfl fun b hb => ?_
    have hb' : b < t := by simpa using hb
    rw [← sumSites_mul, h.orthW b (by omega) b (by omega), if_pos rfl, one_mul]
  rw [sumSites_normSq] at key
  exact_mod_cast key

theorem sqSum_nonneg (s : List ℝ) (t : ℕ) : 0 ≤ sqSum s t := Finset.sum_nonneg fun _ _ => sq_nonneg _

theorem sqSum_drop (s : List ℝ) {t : ℕ} (ht : t ≤ s.length) :
    sqSum s s.length - sqSum s t = ((s.drop t).map fun a => a ^ 2).sum := by
  unfold sqSum
  obtain ⟨n, hn⟩ := Nat.exists_eq_add_of_le ht
  rw [hn, Finset.sum_range_add, add_sub_cancel_left]
  clear ht
  have hl : (s.drop t).length = n := by simp [hn]
  have : ∀ b, s.getD (t + b) 0 = (s.drop t).getD b 0 := by
    intro b; simp [List.getD_eq_getElem?_getD, List.getElem?_drop]
  simp only [this]
  generalize s.drop t = l at hl
  subst hl
  clear hn this
  induction l with
  | nil => simp
  | cons a l ih =>
    rw [List.length_cons, Finset.sum_range_succ']
    simp only [List.getD_cons_succ, List.getD_cons_zero, List.map_cons, List.sum_cons]
    rw [ih]; ring

/-- The norm lost in a sequence of truncations. -/
theorem CutSeq.norm_lost {S : List (List ℕ)} {keep : List ℝ → ℕ → Prop} {ks : List ℕ}
    {f g : List (List ℕ) → 𝕜} {out : List (List ℝ × ℕ)} (hs : CutSeq S keep ks f g out) :
    (sumSites S fun i => ‖f i‖ ^ 2) - (sumSites S fun i => ‖g i‖ ^ 2)
      = (out.map fun o => ((o.1.drop o.2).map fun a => a ^ 2).sum).sum := by
  induction hs with
  | nil h =>
    rename_i f g
    have : (sumSites S fun i => ‖f i‖ ^ 2) = sumSites S fun i => ‖g i‖ ^ 2 :=
      sumSites_congr fun i hi => by rw [h i hi]
    rw [this]; simp
  | cons hc hk hs ih =>
    obtain ⟨W, Z, h1, h2, h3⟩ := hc
    rw [List.map_cons, List.sum_cons, ← ih, ← sqSum_drop _ h2, ← h1.norm_part h2 h3,
      ← h1.norm_part le_rfl h1.dec]
    ring

/-- A truncation sequence that keeps at least one singular value per bond does not produce zero. -/
theorem CutSeq.norm_pos {S : List (List ℕ)} {keep : List ℝ → ℕ → Prop} {ks : List ℕ}
    {f g : List (List ℕ) → 𝕜} {out : List (List ℝ × ℕ)} (hs : CutSeq S keep ks f g out)
    (hkeep : ∀ s t, keep s t → 0 < s.length → 0 < t) (hf : 0 < sumSites S fun i => ‖f i‖ ^ 2) :
    0 < sumSites S fun i => ‖g i‖ ^ 2 := by
  induction hs with
  | nil h =>
    rename_i f g
    have : (sumSites S fun i => ‖g i‖ ^ 2) = sumSites S fun i => ‖f i‖ ^ 2 :=
      sumSites_congr fun i hi => by rw [h i hi]
    rw [this]; exact hf
  | cons hc hk hs ih =>
    obtain ⟨W, Z, h1, h2, h3⟩ := hc
    refine ih ?_
    rw [h1.norm_part h2 h3]
    rw [h1.norm_part le_rfl h1.dec] at hf
    rename_i s t _
    have hlen : 0 < s.length := by
      rcases Nat.eq_zero_or_pos s.length with h0 | h0
      · rw [h0] at hf; simp [sqSum] at hf
      · exact h0
    have ht := hkeep _ _ hk hlen
    have hs0 : 0 < s.getD 0 0 := by
      rcases lt_or_ge 0 (s.getD 0 0) with h0 | h0
      · exact h0
      · exfalso
        have hall : ∀ b ∈ range s.length, s.getD b 0 ^ 2 = 0 := by
          intro b hb
          have hb' : b < s.length := by simpa using hb
          have e0 : s.getD 0 0 = s[0] := by simp [List.getD_eq_getElem?_getD, hlen]
          have eb : s.getD b 0 = s[b] := by simp [List.getD_eq_getElem?_getD, hb']
          have hn : 0 ≤ s[b] := h1.nonneg _ (List.getElem_mem _)
          have hle : s[b] ≤ s[0] := by
            rcases Nat.eq_zero_or_pos b with rfl | hbp
            · exact le_refl _
            · exact List.pairwise_iff_getElem.1 h1.sorted 0 b hlen hb' hbp
          have : s[b] = 0 := by rw [e0] at h0; linarith
          rw [eb, this]; norm_num
        rw [sqSum, Finset.sum_eq_zero hall] at hf
        exact lt_irrefl _ hf
    unfold sqSum
    exact Finset.sum_pos' (fun _ _ => sq_nonneg _) ⟨0, by simpa using ht, by positivity⟩

theorem Keep.pos {rank : ℤ} (hr : 0 < rank) {relerr : Option ℝ} {s : List ℝ} {t : ℕ}
    (h : Keep rank relerr s t) (hs : 0 < s.length) : 0 < t := by
  cases relerr with
  | none => have : (t : ℤ) = min rank s.length := h; omega
  | some e =>
    obtain ⟨r, ⟨⟨h1, _⟩, _⟩, h2⟩ := h
    omega

theorem SingVals.congr {S : List (List ℕ)} {k : ℕ} {f g : List (List ℕ) → 𝕜} {s : List ℝ}
    (h : SingVals S k f s) (hfg : ∀ i, IdxOK i S → g i = f i) : SingVals S k g s := by
  obtain ⟨W, Z, h1⟩ := h
  exact ⟨W, Z, h1.sorted, h1.nonneg, h1.orthW, h1.orthZ, fun i j hi hj =>
    (hfg _ (idxOK_join hi hj)).trans (h1.dec i j hi hj)⟩

/-- If nothing is cut away, all the singular values are those of the tensor at the start. -/
theorem CutSeq.full {S : List (List ℕ)} {rank : ℤ} {ks : List ℕ}
    {f g : List (List ℕ) → 𝕜} {out : List (List ℝ × ℕ)} (hs : CutSeq S (Keep rank none) ks f g out)
    (hl : ∀ o ∈ out, (o.1.length : ℤ) ≤ rank) :
    (∀ i, IdxOK i S → g i = f i) ∧ (∀ o ∈ out, o.2 = o.1.length) ∧
      List.Forall₂ (fun k o => SingVals S k f o.1) ks out := by
  induction hs with
  | nil h => exact ⟨h, by simp, .nil⟩
  | cons hc hk hs ih =>
    rename_i s t _
    have hle : (s.length : ℤ) ≤ rank := hl _ (List.mem_cons_self ..)
    have ht : t = s.length := by
      have : (t : ℤ) = min rank s.length := hk
      omega
    obtain ⟨W, Z, h1, h2, h3⟩ := hc
    subst ht
    have hfh : ∀ i, IdxOK i S → _ = _ := fun i hi => by
      obtain ⟨a, b, rfl, ha, hb⟩ := idxOK_split _ hi
      exact (h3 a b ha hb).trans (h1.dec a b ha hb).symm
    obtain ⟨i1, i2, i3⟩ := ih fun o ho => hl o (List.mem_cons_of_mem _ ho)
    refine ⟨fun i hi => (i1 i hi).trans (hfh i hi), ?_, .cons ⟨W, Z, h1⟩ ?_⟩
    · intro o ho
      rcases List.mem_cons.1 ho with rfl | ho
      · rfl
      · exact i2 o ho
    · exact i3.imp fun k o h => h.congr fun i hi => (hfh i hi).symm

theorem forall₂_le_trans {α : Type} {g : α → ℕ} {a : List α} {b c : List ℕ}
    (h : List.Forall₂ (fun o d => g o ≤ d) a b) (h' : List.Forall₂ (· ≤ ·) b c) :
    List.Forall₂ (fun o d => g o ≤ d) a c := by
  induction h generalizing c with
  | nil => cases h'; exact .nil
  | cons h _ ih => cases h' with
    | cons h1 h2 => exact .cons (h.trans h1) (ih h2)

theorem forall₂_exists_right {α β : Type} {r : α → β → Prop} {a : List α} {b : List β}
    (h : List.Forall₂ r a b) {x : α} (hx : x ∈ a) : ∃ y ∈ b, r x y := by
  induction h with
  | nil => simp at hx
  | cons h1 _ ih =>
    rcases List.mem_cons.1 hx with rfl | hx
    · exact ⟨_, List.mem_cons_self .., h1⟩
    · obtain ⟨y, hy, hr⟩ := ih hx
      exact ⟨y, List.mem_cons_of_mem _ hy, hr⟩

theorem sumIdx_ge_term {s : List ℕ} {f : List ℕ → ℝ} (h : ∀ i, 0 ≤ f i) {i : List ℕ} (hi : InB i s) :
    f i ≤ sumIdx s f := by
  induction s generalizing f i with
  | nil => cases hi; exact le_refl _
  | cons d s ih =>
    cases hi with
    | cons h1 h2 =>
      rename_i a l
      rw [sumIdx_cons]
      refine (ih (f := fun l => f (a :: l)) (fun _ => h _) h2).trans ?_
      exact Finset.single_le_sum (f := fun a => sumIdx s fun i => f (a :: i))
        (fun _ _ => sumIdx_nonneg fun _ => h _) (by simpa using h1)

theorem sumSites_ge_term {s : List (List ℕ)} {f : List (List ℕ) → ℝ} (h : ∀ i, 0 ≤ f i)
    {i : List (List ℕ)} (hi : IdxOK i s) : f i ≤ sumSites s f := by
  induction s generalizing f i with
  | nil => cases hi; exact le_refl _
  | cons d s ih =>
    cases hi with
    | cons h1 h2 =>
      rename_i a l
      rw [sumSites_cons]
      refine (ih (f := fun l => f (a :: l)) (fun _ => h _) h2).trans ?_
      exact sumIdx_ge_term (f := fun a => sumSites s fun i => f (a :: i)) (fun _ => sumSites_nonneg fun _ => h _) h1

end Mpnum
