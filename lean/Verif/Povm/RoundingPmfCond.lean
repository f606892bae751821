import Verif.Povm.RoundingPmf
import Verif.Povm.PmfLemmas
import Verif.MPArray.RoundingSeg

/-!
# Measurements on canonical states as maps that do not increase errors

A segment of a measurement of a product of local measurements on a left-canonical state maps the matrix that describes the sites to the
left to a family of matrices.  The theorems of this file bound the norm of this family by the norm of the matrix, with a factor which
does not grow with the number of sites.
-/

open Finset

namespace Mpnum

variable {𝕜 : Type} [RCLike 𝕜]

/-- One site of a measurement in Kraus form: outcomes `o`, two further legs `d` and `k`, bonds `l` and `r`. -/
structure KSite (𝕜 : Type) where
  o : ℕ
  d : ℕ
  k : ℕ
  l : ℕ
  r : ℕ
  w : ℕ → ℕ → ℕ → ℕ → ℕ → 𝕜

/-- The matrix for the outcome `y`. -/
def KSite.act (s : KSite 𝕜) (y : ℕ) (E : ℕ → ℕ → 𝕜) (b b' : ℕ) : 𝕜 :=
  ∑ a ∈ range s.l, ∑ a' ∈ range s.l, E a a' * ∑ i ∈ range s.d, ∑ κ ∈ range s.k, s.w a y i κ b * star (s.w a' y i κ b')

/-- The squared norm of the family of matrices for all outcomes. -/
def measSq (m : ℕ) : List (KSite 𝕜) → (ℕ → ℕ → 𝕜) → ℝ
  | [], E => ∑ a ∈ range m, ∑ a' ∈ range m, ‖E a a'‖ ^ 2
  | s :: ss, E => ∑ y ∈ range s.o, measSq m ss (s.act y E)

/-- The bonds fit together. -/
def KChained : ℕ → List (KSite 𝕜) → ℕ → Prop
  | l, [], m => l = m
  | l, s :: ss, m => s.l = l ∧ KChained s.r ss m

/-- The operator norm of the map from the right bond to the other legs is at most `c`. -/
def KSite.Op (c : ℝ) (s : KSite 𝕜) : Prop := ∀ v : ℕ → 𝕜,
  ∑ a ∈ range s.l, ∑ y ∈ range s.o, ∑ i ∈ range s.d, ∑ κ ∈ range s.k, ‖∑ b ∈ range s.r, s.w a y i κ b * v b‖ ^ 2
    ≤ c ^ 2 * ∑ b ∈ range s.r, ‖v b‖ ^ 2

/-- `E` between a family of matrices and its adjoint. -/
def conjBy {ι : Type} (I : Finset ι) (n : ℕ) (u : ι → ℕ → ℕ → 𝕜) (E : ℕ → ℕ → 𝕜) (a a' : ℕ) : 𝕜 :=
  ∑ a0 ∈ range n, ∑ a0' ∈ range n, E a0 a0' * ∑ z ∈ I, u z a0 a * star (u z a0' a')

theorem conjBy_norm {ι : Type} {I : Finset ι} {n m : ℕ} {u : ι → ℕ → ℕ → 𝕜} {c : ℝ}
    (h : ∀ v : ℕ → 𝕜, ∑ z ∈ I, ∑ a0 ∈ range n, ‖∑ a ∈ range m, u z a0 a * v a‖ ^ 2 ≤ c ^ 2 * ∑ a ∈ range m, ‖v a‖ ^ 2)
    (E : ℕ → ℕ → 𝕜) :
    ∑ a ∈ range m, ∑ a' ∈ range m, ‖conjBy I n u E a a'‖ ^ 2
      ≤ c ^ 2 * (∑ a0 ∈ range n, ∑ a0' ∈ range n, ‖E a0 a0'‖ ^ 2) * ∑ z ∈ I, ∑ a0 ∈ range n, ∑ a ∈ range m, ‖u z a0 a‖ ^ 2 := by
  have hT : ∀ v : ℕ → 𝕜, ∑ x ∈ I ×ˢ range n, ‖∑ a ∈ range m, star (u x.1 x.2 a) * v a‖ ^ 2 ≤ c ^ 2 * ∑ a ∈ range m, ‖v a‖ ^ 2 := by
    intro v
    rw [Finset.sum_product]
    have := h fun a => star (v a)
    simp only [norm_star] at this
    refine le_trans (le_of_eq ?_) this
    refine sum_congr rfl fun z _ => sum_congr rfl fun a0 _ => ?_
    rw [← norm_star]
    congr 2
    rw [star_sum]
    exact sum_congr rfl fun a _ => by rw [star_mul', star_star]
  have key : ∀ a, ∑ a' ∈ range m, ‖conjBy I n u E a a'‖ ^ 2
      ≤ c ^ 2 * ((∑ a0 ∈ range n, ∑ a0' ∈ range n, ‖E a0 a0'‖ ^ 2) * ∑ z ∈ I, ∑ a0 ∈ range n, ‖u z a0 a‖ ^ 2) := by
    intro a
    have := op_transpose hT fun x => ∑ a0 ∈ range n, E a0 x.2 * u x.1 a0 a
    have e1 : ∀ a', conjBy I n u E a a' = ∑ x ∈ I ×ˢ range n, (∑ a0 ∈ range n, E a0 x.2 * u x.1 a0 a) * star (u x.1 x.2 a') := by
      intro a'
      unfold conjBy
      rw [Finset.sum_product, Finset.sum_comm]
      rw [Finset.sum_comm (s := I)]
      refine sum_congr rfl fun a0' _ => ?_
      simp only [mul_sum, sum_mul]
      rw [Finset.sum_comm]
      exact sum_congr rfl fun z _ => sum_congr rfl fun a0 _ => by ring
    simp only [e1]
    refine this.trans (mul_le_mul_of_nonneg_left ?_ (sq_nonneg _))
    calc _ ≤ ∑ x ∈ I ×ˢ range n, (∑ a0 ∈ range n, ‖E a0 x.2‖ ^ 2) * ∑ a0 ∈ range n, ‖u x.1 a0 a‖ ^ 2 :=
          sum_le_sum fun x _ => cauchy_sq _ _ _
      _ = _ := by
          rw [Finset.sum_product, Finset.mul_sum]
          refine sum_congr rfl fun z _ => ?_
          simp only
          rw [← sum_mul, Finset.sum_comm]
  calc _ ≤ ∑ a ∈ range m, c ^ 2 * ((∑ a0 ∈ range n, ∑ a0' ∈ range n, ‖E a0 a0'‖ ^ 2) * ∑ z ∈ I, ∑ a0 ∈ range n, ‖u z a0 a‖ ^ 2) :=
        sum_le_sum fun a _ => key a
    _ = _ := by
        rw [← mul_sum, ← mul_sum, mul_assoc]
        congr 2
        rw [Finset.sum_comm]
        exact sum_congr rfl fun z _ => Finset.sum_comm

theorem act_conjBy (s : KSite 𝕜) (y : ℕ) {ι : Type} (I : Finset ι) (n : ℕ) (u : ι → ℕ → ℕ → 𝕜) (E : ℕ → ℕ → 𝕜) :
    s.act y (conjBy I n u E) = conjBy (I ×ˢ range s.d ×ˢ range s.k) n
      (fun z a0 b => ∑ a ∈ range s.l, u z.1 a0 a * s.w a y z.2.1 z.2.2 b) E := by
  funext b b'
  unfold KSite.act conjBy
  simp only [star_sum, star_mul', mul_sum, sum_mul, Finset.sum_product]
  simp only [← sum_product']
  refine sum_nbij' (fun ⟨a, a', i, κ, a0, a0', z⟩ => ⟨a0, a0', z, i, κ, a', a⟩)
    (fun ⟨a0, a0', z, i, κ, a', a⟩ => ⟨a, a', i, κ, a0, a0', z⟩) ?_ ?_ ?_ ?_ ?_
  all_goals rintro ⟨x1, x2, x3, x4, x5, x6, x7⟩ h
  all_goals simp only [mem_product] at h ⊢
  · tauto
  · tauto
  · ring

theorem pull_sum (A Y I K : Finset ℕ) (x : ℝ) (g : ℕ → ℕ → ℕ → ℕ → ℝ) :
    ∑ y ∈ Y, ∑ i ∈ I, ∑ κ ∈ K, x * ∑ a ∈ A, g a y i κ = x * ∑ a ∈ A, ∑ y ∈ Y, ∑ i ∈ I, ∑ κ ∈ K, g a y i κ := by
  simp only [← mul_sum]
  congr 1
  rw [Finset.sum_comm (s := A)]
  refine sum_congr rfl fun y _ => ?_
  rw [Finset.sum_comm (s := A)]
  exact sum_congr rfl fun i _ => Finset.sum_comm

theorem op_step {s : KSite 𝕜} {c d : ℝ} {n : ℕ} (hd : s.Op d) {η ι : Type} {H : Finset η} {I : Finset ι} {u : η → ι → ℕ → ℕ → 𝕜}
    (h : ∀ v : ℕ → 𝕜, ∑ x ∈ H, ∑ z ∈ I, ∑ a0 ∈ range n, ‖∑ a ∈ range s.l, u x z a0 a * v a‖ ^ 2 ≤ c ^ 2 * ∑ a ∈ range s.l, ‖v a‖ ^ 2)
    (v : ℕ → 𝕜) :
    ∑ x ∈ H ×ˢ range s.o, ∑ z ∈ I ×ˢ range s.d ×ˢ range s.k, ∑ a0 ∈ range n,
      ‖∑ b ∈ range s.r, (∑ a ∈ range s.l, u x.1 z.1 a0 a * s.w a x.2 z.2.1 z.2.2 b) * v b‖ ^ 2 ≤ (c * d) ^ 2 * ∑ b ∈ range s.r, ‖v b‖ ^ 2 := by
  have e : ∀ (x : η × ℕ) (z : ι × ℕ × ℕ) (a0 : ℕ), ∑ b ∈ range s.r, (∑ a ∈ range s.l, u x.1 z.1 a0 a * s.w a x.2 z.2.1 z.2.2 b) * v b
      = ∑ a ∈ range s.l, u x.1 z.1 a0 a * ∑ b ∈ range s.r, s.w a x.2 z.2.1 z.2.2 b * v b := by
    intro x z a0
    simp only [sum_mul, mul_sum]
    rw [Finset.sum_comm]
    exact sum_congr rfl fun _ _ => sum_congr rfl fun _ _ => by ring
  simp only [e]
  calc _ = ∑ y ∈ range s.o, ∑ i ∈ range s.d, ∑ κ ∈ range s.k, ∑ x ∈ H, ∑ z ∈ I, ∑ a0 ∈ range n,
        ‖∑ a ∈ range s.l, u x z a0 a * ∑ b ∈ range s.r, s.w a y i κ b * v b‖ ^ 2 := by
        simp only [← sum_product']
        refine sum_nbij' (fun ⟨⟨x, y⟩, ⟨z, i, κ⟩, a0⟩ => ⟨y, i, κ, x, z, a0⟩)
          (fun ⟨y, i, κ, x, z, a0⟩ => ⟨⟨x, y⟩, ⟨z, i, κ⟩, a0⟩) ?_ ?_ ?_ ?_ ?_
        · rintro ⟨⟨x, y⟩, ⟨z, i, κ⟩, a0⟩ h
          simp only [mem_product] at h ⊢
          tauto
        · rintro ⟨y, i, κ, x, z, a0⟩ h
          simp only [mem_product] at h ⊢
          tauto
        · rintro ⟨⟨x, y⟩, ⟨z, i, κ⟩, a0⟩ h
          rfl
        · rintro ⟨y, i, κ, x, z, a0⟩ h
          rfl
        · rintro ⟨⟨x, y⟩, ⟨z, i, κ⟩, a0⟩ h
          rfl
    _ ≤ ∑ y ∈ range s.o, ∑ i ∈ range s.d, ∑ κ ∈ range s.k,
        c ^ 2 * ∑ a ∈ range s.l, ‖∑ b ∈ range s.r, s.w a y i κ b * v b‖ ^ 2 :=
        sum_le_sum fun y _ => sum_le_sum fun i _ => sum_le_sum fun κ _ => h fun a => ∑ b ∈ range s.r, s.w a y i κ b * v b
    _ = c ^ 2 * ∑ a ∈ range s.l, ∑ y ∈ range s.o, ∑ i ∈ range s.d, ∑ κ ∈ range s.k,
        ‖∑ b ∈ range s.r, s.w a y i κ b * v b‖ ^ 2 := by
        exact pull_sum _ _ _ _ _ _
    _ ≤ c ^ 2 * (d ^ 2 * ∑ b ∈ range s.r, ‖v b‖ ^ 2) := mul_le_mul_of_nonneg_left (hd v) (sq_nonneg _)
    _ = _ := by ring

theorem measSq_bound {n m : ℕ} (E : ℕ → ℕ → 𝕜) :
    ∀ {ss : List (KSite 𝕜)} {cs : List ℝ}, List.Forall₂ KSite.Op cs ss → ∀ {l : ℕ}, KChained l ss m →
      ∀ {η ι : Type} (H : Finset η) (I : Finset ι) (u : η → ι → ℕ → ℕ → 𝕜) (c : ℝ),
        (∀ v : ℕ → 𝕜, ∑ x ∈ H, ∑ z ∈ I, ∑ a0 ∈ range n, ‖∑ a ∈ range l, u x z a0 a * v a‖ ^ 2 ≤ c ^ 2 * ∑ a ∈ range l, ‖v a‖ ^ 2) →
        ∑ x ∈ H, measSq m ss (conjBy I n (u x) E)
          ≤ m * ((c * cs.prod) ^ 2) ^ 2 * ∑ a0 ∈ range n, ∑ a0' ∈ range n, ‖E a0 a0'‖ ^ 2
  | [], cs, hs, l, hl, η, ι, H, I, u, c, h => by
    cases hs
    obtain rfl : l = m := hl
    have hE : 0 ≤ ∑ a0 ∈ range n, ∑ a0' ∈ range n, ‖E a0 a0'‖ ^ 2 := sum_nonneg fun _ _ => sum_nonneg fun _ _ => sq_nonneg _
    have hF := frob_of_op (I := H ×ˢ I ×ˢ range n) (m := l) (T := fun x a => u x.1 x.2.1 x.2.2 a) (c := c) fun v => by
      simpa only [Finset.sum_product] using h v
    simp only [Finset.sum_product] at hF
    simp only [measSq, List.prod_nil, mul_one]
    calc _ ≤ ∑ x ∈ H, c ^ 2 * (∑ a0 ∈ range n, ∑ a0' ∈ range n, ‖E a0 a0'‖ ^ 2) *
            ∑ z ∈ I, ∑ a0 ∈ range n, ∑ a ∈ range l, ‖u x z a0 a‖ ^ 2 := by
          refine sum_le_sum fun x hx => conjBy_norm (fun v => ?_) E
          refine le_trans ?_ (h v)
          exact single_le_sum (f := fun x => ∑ z ∈ I, ∑ a0 ∈ range n, ‖∑ a ∈ range l, u x z a0 a * v a‖ ^ 2)
            (fun _ _ => sum_nonneg fun _ _ => sum_nonneg fun _ _ => sq_nonneg _) hx
      _ = c ^ 2 * (∑ a0 ∈ range n, ∑ a0' ∈ range n, ‖E a0 a0'‖ ^ 2) *
            ∑ x ∈ H, ∑ z ∈ I, ∑ a0 ∈ range n, ∑ a ∈ range l, ‖u x z a0 a‖ ^ 2 := (mul_sum _ _ _).symm
      _ ≤ c ^ 2 * (∑ a0 ∈ range n, ∑ a0' ∈ range n, ‖E a0 a0'‖ ^ 2) * (l * c ^ 2) :=
          mul_le_mul_of_nonneg_left hF (mul_nonneg (sq_nonneg _) hE)
      _ = _ := by ring
  | s :: ss, _, .cons (a := d) (l₁ := cs) hd hs, l, hl, η, ι, H, I, u, c, h => by
    obtain ⟨rfl, hl⟩ := hl
    have := measSq_bound (n := n) E hs hl (H ×ˢ range s.o) (I ×ˢ range s.d ×ˢ range s.k)
      (fun x z a0 b => ∑ a ∈ range s.l, u x.1 z.1 a0 a * s.w a x.2 z.2.1 z.2.2 b) (c * d) (op_step hd h)
    rw [List.prod_cons, ← mul_assoc]
    refine le_trans (le_of_eq ?_) this
    rw [Finset.sum_product]
    refine sum_congr rfl fun x _ => ?_
    rw [measSq]
    exact sum_congr rfl fun y _ => by rw [act_conjBy]

/-- The norm of the matrices for all outcomes of a chain of measurements. -/
theorem measSq_le {l m : ℕ} (E : ℕ → ℕ → 𝕜) {ss : List (KSite 𝕜)} {cs : List ℝ} (hs : List.Forall₂ KSite.Op cs ss)
    (hl : KChained l ss m) : measSq m ss E ≤ m * (cs.prod ^ 2) ^ 2 * ∑ a ∈ range l, ∑ a' ∈ range l, ‖E a a'‖ ^ 2 := by
  have := measSq_bound E hs hl (n := l) {()} {()} (fun _ _ a0 a => if a0 = a then 1 else 0) 1 (fun v => by
    simp only [sum_singleton, one_pow, one_mul, ite_mul, zero_mul]
    refine le_of_eq (sum_congr rfl fun a ha => ?_)
    rw [Finset.sum_ite_eq, if_pos ha])
  simp only [sum_singleton, one_mul] at this
  refine le_trans (le_of_eq ?_) this
  have hsw : ∀ a ∈ range l, ∀ a' ∈ range l, conjBy {()} l (fun (_ : Unit) a0 a => if a0 = a then (1 : 𝕜) else 0) E a a' = E a a' := by
    intro a ha a' ha'
    unfold conjBy
    simp only [sum_singleton]
    rw [Finset.sum_eq_single a (fun b _ hb => by simp [hb]) (fun h => absurd ha h),
      Finset.sum_eq_single a' (fun b _ hb => by simp [hb]) (fun h => absurd ha' h)]
    simp
  clear this
  cases ss with
  | nil =>
    obtain rfl : l = m := hl
    simp only [measSq]
    exact sum_congr rfl fun a ha => sum_congr rfl fun a' ha' => by rw [hsw a ha a' ha']
  | cons s ss =>
    obtain ⟨rfl, hl⟩ := hl
    simp only [measSq]
    refine sum_congr rfl fun y _ => ?_
    congr 1
    funext b b'
    unfold KSite.act
    exact sum_congr rfl fun a ha => sum_congr rfl fun a' ha' => by rw [hsw a ha a' ha']

/-- The site of an MP-POVM with bonds of size 1 and the site of the state, written in Kraus form. -/
structure IsKraus (q : NDArray 𝕜 × NDArray 𝕜) (s : KSite 𝕜) : Prop where
  povm : q.1.shape = [1, s.o, s.d, s.d, 1]
  state : q.2.shape = [s.l, s.d, s.k, s.r]
  kraus : ∀ y < s.o, ∀ a < s.l, ∀ a' < s.l, ∀ b < s.r, ∀ b' < s.r,
    ∑ i ∈ range s.d, ∑ j ∈ range s.d, ∑ κ ∈ range s.k, q.1.get [0, y, i, j, 0] * (q.2.get [a, j, κ, b] * star (q.2.get [a', i, κ, b']))
      = ∑ i ∈ range s.d, ∑ κ ∈ range s.k, s.w a y i κ b * star (s.w a' y i κ b')

theorem IsKraus.step {q : NDArray 𝕜 × NDArray 𝕜} {s : KSite 𝕜} (h : IsKraus q s) {p : NDArray 𝕜} {P : ℕ} (hp : p.shape = [P, 1, s.l, s.l]) :
    ∃ c, pmfStep p q = .ok c ∧ c.shape = [P * s.o, 1, s.r, s.r] ∧ ∀ x < P, ∀ y < s.o, ∀ b < s.r, ∀ b' < s.r,
      c.get [x * s.o + y, 0, b, b'] = s.act y (fun a a' => p.get [x, 0, a, a']) b b' := by
  obtain ⟨c, h1, h2, h3⟩ := pmfStep_ok hp h.povm h.state
  refine ⟨c, h1, h2, fun x hx y hy b hb b' hb' => ?_⟩
  rw [h3 x hx y hy 0 (by omega) b hb b' hb', sum_range_one]
  unfold KSite.act
  refine sum_congr rfl fun a ha => sum_congr rfl fun a' ha' => ?_
  rw [h.kraus y hy a (mem_range.1 ha) a' (mem_range.1 ha') b hb b' hb']

theorem act_congr (s : KSite 𝕜) (y : ℕ) {E F : ℕ → ℕ → 𝕜} (h : ∀ a < s.l, ∀ a' < s.l, E a a' = F a a') : s.act y E = s.act y F := by
  funext b b'
  unfold KSite.act
  exact sum_congr rfl fun a ha => sum_congr rfl fun a' ha' => by rw [h a (mem_range.1 ha) a' (mem_range.1 ha')]

theorem act_sub (s : KSite 𝕜) (y : ℕ) (E F : ℕ → ℕ → 𝕜) (x : 𝕜) (b b' : ℕ) :
    s.act y (fun a a' => E a a' - x * F a a') b b' = s.act y E b b' - x * s.act y F b b' := by
  unfold KSite.act
  simp only [mul_sum (a := x), ← sum_sub_distrib]
  exact sum_congr rfl fun a _ => sum_congr rfl fun a' _ => by ring

theorem measSq_congr {l m : ℕ} {ss : List (KSite 𝕜)} (hl : KChained l ss m) {E F : ℕ → ℕ → 𝕜}
    (h : ∀ a < l, ∀ a' < l, E a a' = F a a') : measSq m ss E = measSq m ss F := by
  cases ss with
  | nil =>
    obtain rfl : l = m := hl
    simp only [measSq]
    exact sum_congr rfl fun a ha => sum_congr rfl fun a' ha' => by rw [h a (mem_range.1 ha) a' (mem_range.1 ha')]
  | cons s ss =>
    obtain ⟨rfl, hl⟩ := hl
    simp only [measSq]
    exact sum_congr rfl fun y _ => by rw [act_congr s y h]

/-- The loop of `_pmf_as_array_pmps_ltr` over a segment, from two different intermediate results. -/
theorem kraus_fold (x : 𝕜) {m : ℕ} : ∀ {qs : List (NDArray 𝕜 × NDArray 𝕜)} {ss : List (KSite 𝕜)}, List.Forall₂ IsKraus qs ss →
    ∀ {l P : ℕ}, KChained l ss m → ∀ {p p' : NDArray 𝕜}, p.shape = [P, 1, l, l] → p'.shape = [P, 1, l, l] →
      ∃ c c' N, qs.foldlM pmfStep p = .ok c ∧ qs.foldlM pmfStep p' = .ok c' ∧ c.shape = [N, 1, m, m] ∧ c'.shape = [N, 1, m, m] ∧
        (∑ n ∈ range N, ∑ b ∈ range m, ∑ b' ∈ range m, ‖c.get [n, 0, b, b'] - x * c'.get [n, 0, b, b']‖ ^ 2)
          = ∑ n ∈ range P, measSq m ss fun a a' => p.get [n, 0, a, a'] - x * p'.get [n, 0, a, a']
  | _, _, .nil, l, P, hl, p, p', hp, hp' => by
    obtain rfl : l = m := hl
    exact ⟨p, p', P, rfl, rfl, hp, hp', rfl⟩
  | _, _, .cons (a := q) (b := s) (l₁ := qs) (l₂ := ss) hq hs, l, P, hl, p, p', hp, hp' => by
    obtain ⟨rfl, hl⟩ := hl
    obtain ⟨d, h1, h2, h3⟩ := hq.step hp
    obtain ⟨d', g1, g2, g3⟩ := hq.step hp'
    obtain ⟨c, c', N, k1, k2, k3, k4, k5⟩ := kraus_fold x hs hl h2 g2
    refine ⟨c, c', N, ?_, ?_, k3, k4, ?_⟩
    · rw [List.foldlM_cons, h1, ok_bind, k1]
    · rw [List.foldlM_cons, g1, ok_bind, k2]
    · rw [k5, sum_range_mul]
      refine sum_congr rfl fun n hn => ?_
      rw [measSq]
      refine sum_congr rfl fun y hy => measSq_congr hl fun b hb b' hb' => ?_
      rw [h3 n (mem_range.1 hn) y (mem_range.1 hy) b hb b' hb', g3 n (mem_range.1 hn) y (mem_range.1 hy) b hb b' hb', act_sub]

theorem sum_idx4 {M : Type} [AddCommMonoid M] (N m : ℕ) (f : List ℕ → M) :
    sumIdx [N, 1, m, m] f = ∑ n ∈ range N, ∑ b ∈ range m, ∑ b' ∈ range m, f [n, 0, b, b'] := by
  simp [sumIdx]

/-- The amplification of errors and of norms in a segment of the loop of `_pmf_as_array_pmps_ltr`. -/
theorem kraus_amp {m : ℕ} {qs : List (NDArray 𝕜 × NDArray 𝕜)} {ss : List (KSite 𝕜)} (hq : List.Forall₂ IsKraus qs ss)
    {cs : List ℝ} (hs : List.Forall₂ KSite.Op cs ss) {l P : ℕ} (hl : KChained l ss m) {p p' : NDArray 𝕜}
    (hp : p.shape = [P, 1, l, l]) (hp' : p'.shape = [P, 1, l, l]) :
    ∃ c c' N, qs.foldlM pmfStep p = .ok c ∧ qs.foldlM pmfStep p' = .ok c' ∧ c.shape = [N, 1, m, m] ∧ c'.shape = [N, 1, m, m] ∧
      arrDist c c' ≤ Real.sqrt m * cs.prod ^ 2 * arrDist p p' ∧ npNorm c ≤ Real.sqrt m * cs.prod ^ 2 * npNorm p := by
  obtain ⟨c, c', N, h1, h2, h3, h4, h5⟩ := kraus_fold 1 hq hl hp hp'
  obtain ⟨c2, c2', N2, g1, g2, g3, g4, g5⟩ := kraus_fold 0 hq hl hp hp'
  obtain rfl : c2 = c := by rw [h1] at g1; exact (Except.ok.inj g1).symm
  obtain rfl : N2 = N := by rw [h3] at g3; exact (List.cons.inj g3).1.symm
  have key : ∀ E : ℕ → ℕ → ℕ → 𝕜, ∑ n ∈ range P, measSq m ss (E n)
      ≤ m * (cs.prod ^ 2) ^ 2 * ∑ n ∈ range P, ∑ a ∈ range l, ∑ a' ∈ range l, ‖E n a a'‖ ^ 2 := by
    intro E
    rw [mul_sum]
    exact sum_le_sum fun n _ => measSq_le (E n) hs hl
  have hfac : 0 ≤ Real.sqrt m * cs.prod ^ 2 := by positivity
  have hsq : ((m : ℝ) * (cs.prod ^ 2) ^ 2) = (Real.sqrt m * cs.prod ^ 2) ^ 2 := by
    rw [mul_pow, Real.sq_sqrt (Nat.cast_nonneg _)]
  refine ⟨c2, c', N2, h1, h2, h3, h4, ?_, ?_⟩
  · unfold arrDist
    rw [← Real.sqrt_sq hfac, ← Real.sqrt_mul (sq_nonneg _), ← hsq]
    refine Real.sqrt_le_sqrt ?_
    rw [h3, hp, sum_idx4, sum_idx4]
    simp only [one_mul] at h5
    rw [h5]
    exact key fun n a a' => p.get [n, 0, a, a'] - p'.get [n, 0, a, a']
  · unfold npNorm
    rw [← Real.sqrt_sq hfac, ← Real.sqrt_mul (sq_nonneg _), ← hsq]
    refine Real.sqrt_le_sqrt ?_
    rw [h3, hp, sum_idx4, sum_idx4]
    simp only [zero_mul, sub_zero] at g5
    rw [g5]
    exact key fun n a a' => p.get [n, 0, a, a']

/-- What the next theorems need of a list of sites: Kraus forms with operator norm at most `c`, bonds of size at most `R`. -/
structure KGood (c : ℝ) (R : ℕ) (l : ℕ) (qs : List (NDArray 𝕜 × NDArray 𝕜)) (ss : List (KSite 𝕜)) (m : ℕ) : Prop where
  kraus : List.Forall₂ IsKraus qs ss
  op : ∀ s ∈ ss, s.Op c
  rank : ∀ s ∈ ss, s.r ≤ R
  left : l ≤ R
  chain : KChained l ss m

theorem kchained_take {R : ℕ} : ∀ {ss : List (KSite 𝕜)} {l m : ℕ} (n : ℕ), KChained l ss m → (∀ s ∈ ss, s.r ≤ R) → l ≤ R →
    ∃ k ≤ R, KChained l (ss.take n) k
  | [], l, m, n, _, _, hR => ⟨l, hR, by simp [KChained]⟩
  | s :: ss, l, m, 0, _, _, hR => ⟨l, hR, by simp [KChained]⟩
  | s :: ss, l, m, n + 1, h, hr, hR => by
    obtain ⟨k, h1, h2⟩ := kchained_take n h.2 (fun t ht => hr t (by simp [ht])) (hr s (by simp))
    exact ⟨k, h1, h.1, h2⟩

theorem forall₂_replicate {c : ℝ} : ∀ {ss : List (KSite 𝕜)}, (∀ s ∈ ss, s.Op c) → List.Forall₂ KSite.Op (List.replicate ss.length c) ss
  | [], _ => .nil
  | s :: ss, h => by
    rw [List.length_cons, List.replicate_succ]
    exact .cons (h s (by simp)) (forall₂_replicate fun t ht => h t (by simp [ht]))

/-- The amplification of errors and of norms in the beginning of a list of sites. -/
theorem KGood.amp {c : ℝ} (hc : 1 ≤ c) {R l m : ℕ} {mid tail : List (NDArray 𝕜 × NDArray 𝕜)} {ss : List (KSite 𝕜)}
    (h : KGood c R l (mid ++ tail) ss m) {N : ℕ} (hN : ss.length ≤ N) {P : ℕ} {p p' : NDArray 𝕜} (hp : p.shape = [P, 1, l, l])
    (hp' : p'.shape = [P, 1, l, l]) :
    ∃ e e', mid.foldlM pmfStep p = .ok e ∧ mid.foldlM pmfStep p' = .ok e' ∧ e'.shape = e.shape ∧
      arrDist e e' ≤ Real.sqrt R * (c ^ N) ^ 2 * arrDist p p' ∧ npNorm e ≤ Real.sqrt R * (c ^ N) ^ 2 * npNorm p := by
  obtain ⟨k, hk, hl⟩ := kchained_take mid.length h.chain h.rank h.left
  have h1 : List.Forall₂ IsKraus mid (ss.take mid.length) := by
    have := List.forall₂_take mid.length h.kraus
    rwa [List.take_left] at this
  have h2 := forall₂_replicate (ss := ss.take mid.length) fun s hs => h.op s (List.mem_of_mem_take hs)
  obtain ⟨e, e', N', g1, g2, g3, g4, g5, g6⟩ := kraus_amp h1 h2 hl hp hp'
  rw [List.prod_replicate] at g5 g6
  have hle : Real.sqrt k * (c ^ (ss.take mid.length).length) ^ 2 ≤ Real.sqrt R * (c ^ N) ^ 2 := by
    refine mul_le_mul (Real.sqrt_le_sqrt (by exact_mod_cast hk)) ?_ (by positivity) (by positivity)
    refine pow_le_pow_left₀ (by positivity) (pow_le_pow_right₀ hc ?_) 2
    rw [List.length_take]
    omega
  exact ⟨e, e', g1, g2, g4.trans g3.symm, g5.trans (mul_le_mul_of_nonneg_right hle (arrDist_nonneg _ _)),
    g6.trans (mul_le_mul_of_nonneg_right hle (npNorm_nonneg' _))⟩

/-- The error of the loop of `_pmf_as_array_pmps_ltr` grows with the number of sites as if every site added the same error. -/
theorem kraus_gron {ε : ℝ} (hε : 0 ≤ ε) {td : TDot 𝕜} (htd : TdNear ε td) {c : ℝ} (hc : 1 ≤ c) {R m N : ℕ} {ν B : ℝ} :
    ∀ {qs : List (NDArray 𝕜 × NDArray 𝕜)} {ss : List (KSite 𝕜)} {l P : ℕ} {E I : NDArray 𝕜} {A : ℝ}, KGood c R l qs ss m →
      ss.length ≤ N → (∀ q ∈ qs, npNorm q.1 * npNorm q.2 ^ 2 ≤ ν) → E.shape = [P, 1, l, l] → I.shape = [P, 1, l, l] →
      (∀ mid tail, qs = mid ++ tail → ∀ e i, mid.foldlM pmfStep E = .ok e → mid.foldlM pmfStep I = .ok i →
        npNorm e ≤ B ∧ arrDist e i ≤ A) →
      ∃ e i, qs.foldlM pmfStep E = .ok e ∧ qs.foldlM (pmfStepF td) I = .ok i ∧ i.shape = e.shape ∧
        arrDist e i ≤ (A + B) * (1 + Real.sqrt R * (c ^ N) ^ 2 * (((1 + ε) ^ 3 - 1) * ν)) ^ qs.length - B
  | [], ss, l, P, E, I, A, hg, hN, hν, hE, hI, h => by
    refine ⟨E, I, rfl, rfl, hI.trans hE.symm, ?_⟩
    have := (h [] [] rfl E I rfl rfl).2
    simpa using this
  | q :: qs, ss, l, P, E, I, A, hg, hN, hν, hE, hI, h => by
    set x := Real.sqrt R * (c ^ N) ^ 2 * (((1 + ε) ^ 3 - 1) * ν) with hx
    have hκ : 0 ≤ Real.sqrt R * (c ^ N) ^ 2 := by positivity
    have h3 : (1 : ℝ) ≤ (1 + ε) ^ 3 := one_le_pow₀ (by linarith)
    obtain ⟨kr, op, rank, left, chain⟩ := id hg
    cases kr with
    | cons hq kr =>
      rename_i s ss
      obtain ⟨rfl, hl⟩ := chain
      obtain ⟨E', e1, e2, _⟩ := hq.step hE
      obtain ⟨J, j1, j2, _⟩ := hq.step hI
      obtain ⟨I', i1, i2⟩ := pmfStep_near hε htd (.refl I) j1
      rw [one_mul] at i2
      have hg' : KGood c R s.r qs ss m := ⟨kr, fun t ht => op t (by simp [ht]), fun t ht => rank t (by simp [ht]), rank s (by simp), hl⟩
      have hEI := h [] (q :: qs) rfl E I rfl rfl
      have hI1 : npNorm I ≤ A + B := (npNorm_le_add (hI.trans hE.symm)).trans (by linarith)
      have hv0 : 0 ≤ npNorm q.1 * npNorm q.2 ^ 2 := mul_nonneg (npNorm_nonneg' _) (sq_nonneg _)
      have hd : arrDist J I' ≤ ((1 + ε) ^ 3 - 1) * ν * (A + B) := by
        refine i2.dist.trans ?_
        have : npNorm I * (npNorm q.1 * npNorm q.2 ^ 2) ≤ (A + B) * ν :=
          mul_le_mul hI1 (hν q (by simp)) hv0 ((npNorm_nonneg' I).trans hI1)
        calc _ ≤ ((1 + ε) ^ 3 - 1) * ((A + B) * ν) := mul_le_mul_of_nonneg_left this (by linarith)
          _ = _ := by ring
      obtain ⟨e, i, g1, g2, g3, g4⟩ := kraus_gron (N := N) (B := B) (A := A + x * (A + B)) hε htd hc hg' (by simp at hN; omega)
        (fun r hr => hν r (by simp [hr])) e2 (i2.shape.trans j2) (fun mid tail ht e i he hi => by
          subst ht
          obtain ⟨f, f', k1, k2, k3, k4, _⟩ := hg'.amp hc (N := N) (by simp at hN; omega) j2 (i2.shape.trans j2)
          rw [hi] at k2
          cases k2
          have := h (q :: mid) tail rfl e f (by rw [List.foldlM_cons, e1, ok_bind, he]) (by rw [List.foldlM_cons, j1, ok_bind, k1])
          refine ⟨this.1, ?_⟩
          have hsh : f.shape = e.shape := by
            obtain ⟨e0, f0, w1, w2, w3, _⟩ := hg'.amp hc (N := N) (by simp at hN; omega) e2 j2
            rw [he] at w1
            rw [k1] at w2
            cases w1
            cases w2
            exact w3
          calc arrDist e i ≤ arrDist e f + arrDist f i := arrDist_tri _ hsh
            _ ≤ A + Real.sqrt R * (c ^ N) ^ 2 * (((1 + ε) ^ 3 - 1) * ν * (A + B)) :=
                add_le_add this.2 (k4.trans (mul_le_mul_of_nonneg_left hd hκ))
            _ = _ := by rw [hx]; ring)
      refine ⟨e, i, by rw [List.foldlM_cons, e1, ok_bind, g1], by rw [List.foldlM_cons, i1, ok_bind, g2], g3, g4.trans (le_of_eq ?_)⟩
      rw [List.length_cons, pow_succ]
      ring

end Mpnum
