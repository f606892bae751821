import Verif.Linalg.RoundingSandwich
import Verif.MPArray.RoundingSeg

/-!
# The norm of a step of `sandwich` with canonical tensors

A step with tensors of operator norms `α` and `β` in either direction makes the norm larger by a factor of at most `α β ‖W‖`.
-/

open Finset

namespace Mpnum

variable {𝕜 : Type} [RCLike 𝕜]

/-- The operator norm from the right bond, after transposition: contract the left bond and the physical leg. -/
def COpL (c : ℝ) (d p e : ℕ) (t : ℕ → ℕ → ℕ → 𝕜) : Prop := ∀ f : ℕ → ℕ → 𝕜,
  ∑ a ∈ range e, ‖∑ i ∈ range d, ∑ s ∈ range p, f i s * t i s a‖ ^ 2 ≤ c ^ 2 * ∑ i ∈ range d, ∑ s ∈ range p, ‖f i s‖ ^ 2

/-- The operator norm from the left bond: contract the left bond. -/
def COpR (c : ℝ) (d p e : ℕ) (t : ℕ → ℕ → ℕ → 𝕜) : Prop := ∀ f : ℕ → 𝕜,
  ∑ s ∈ range p, ∑ a ∈ range e, ‖∑ i ∈ range d, f i * t i s a‖ ^ 2 ≤ c ^ 2 * ∑ i ∈ range d, ‖f i‖ ^ 2

theorem copL_of_lop {c : ℝ} {T : NDArray 𝕜} {d p e : ℕ} (hT : T.shape = [d, p, e]) (h : LOp c T) :
    COpL c d p e fun i s a => T.get [i, s, a] := by
  intro f
  have h1 : ∀ v : ℕ → 𝕜, ∑ x ∈ range d ×ˢ range p, ‖∑ b ∈ range e, T.get [x.1, x.2, b] * v b‖ ^ 2 ≤ c ^ 2 * ∑ b ∈ range e, ‖v b‖ ^ 2 := by
    intro v
    have := h v
    have e1 : T.lb = d := by simp [NDArray.lb, hT]
    have e2 : T.rb = e := by simp [NDArray.rb, hT]
    have e3 : T.ph = [p] := by simp [NDArray.ph, hT]
    rw [e1, e2, e3] at this
    simpa [sum_product, sumIdx_cons, NDArray.at3] using this
  have := op_transpose h1 fun x => f x.1 x.2
  simpa only [sum_product] using this

theorem copR_of_rop {c : ℝ} {T : NDArray 𝕜} {d p e : ℕ} (hT : T.shape = [d, p, e]) (h : ROp c T) :
    COpR c d p e fun i s a => T.get [i, s, a] := by
  intro f
  have := h f
  have e1 : T.lb = d := by simp [NDArray.lb, hT]
  have e2 : T.rb = e := by simp [NDArray.rb, hT]
  have e3 : T.ph = [p] := by simp [NDArray.ph, hT]
  rw [e1, e2, e3] at this
  simpa [sumIdx_cons, NDArray.at3] using this

theorem copL_star {c : ℝ} {d p e : ℕ} {t : ℕ → ℕ → ℕ → 𝕜} (h : COpL c d p e t) : COpL c d p e fun i s a => star (t i s a) := by
  intro f
  have := h fun i s => star (f i s)
  simp only [norm_star] at this
  refine le_trans (le_of_eq (sum_congr rfl fun a _ => ?_)) this
  rw [← norm_star]
  simp only [star_sum, star_mul', star_star]

theorem copR_star {c : ℝ} {d p e : ℕ} {t : ℕ → ℕ → ℕ → 𝕜} (h : COpR c d p e t) : COpR c d p e fun i s a => star (t i s a) := by
  intro f
  have := h fun i => star (f i)
  simp only [norm_star] at this
  refine le_trans (le_of_eq (sum_congr rfl fun s _ => sum_congr rfl fun a _ => ?_)) this
  rw [← norm_star]
  simp only [star_sum, star_mul', star_star]

theorem rot3 {M : Type} [AddCommMonoid M] {A B C : Finset ℕ} (f : ℕ → ℕ → ℕ → M) :
    ∑ a ∈ A, ∑ b ∈ B, ∑ c ∈ C, f a b c = ∑ b ∈ B, ∑ c ∈ C, ∑ a ∈ A, f a b c := by
  rw [sum_comm]
  exact sum_congr rfl fun _ _ => sum_comm

theorem rot4 {M : Type} [AddCommMonoid M] {A B C D : Finset ℕ} (f : ℕ → ℕ → ℕ → ℕ → M) :
    ∑ a ∈ A, ∑ b ∈ B, ∑ c ∈ C, ∑ d ∈ D, f a b c d = ∑ b ∈ B, ∑ c ∈ C, ∑ d ∈ D, ∑ a ∈ A, f a b c d := by
  rw [sum_comm]
  exact sum_congr rfl fun _ _ => rot3 _

theorem cauchy_sq2 {A B : Finset ℕ} (f g : ℕ → ℕ → 𝕜) :
    ‖∑ a ∈ A, ∑ b ∈ B, f a b * g a b‖ ^ 2 ≤ (∑ a ∈ A, ∑ b ∈ B, ‖f a b‖ ^ 2) * ∑ a ∈ A, ∑ b ∈ B, ‖g a b‖ ^ 2 := by
  have := cauchy_sq (A ×ˢ B) (fun x => f x.1 x.2) fun x => g x.1 x.2
  simpa only [sum_product] using this

theorem cauchy_sq3 {A B C : Finset ℕ} (f g : ℕ → ℕ → ℕ → 𝕜) :
    ‖∑ a ∈ A, ∑ b ∈ B, ∑ c ∈ C, f a b c * g a b c‖ ^ 2 ≤
      (∑ a ∈ A, ∑ b ∈ B, ∑ c ∈ C, ‖f a b c‖ ^ 2) * ∑ a ∈ A, ∑ b ∈ B, ∑ c ∈ C, ‖g a b c‖ ^ 2 := by
  have := cauchy_sq (A ×ˢ B ×ˢ C) (fun x => f x.1 x.2.1 x.2.2) fun x => g x.1 x.2.1 x.2.2
  simpa only [sum_product] using this

variable {d w d' e v e' p q : ℕ} {l : ℕ → ℕ → ℕ → 𝕜} {t u : ℕ → ℕ → ℕ → 𝕜} {W : ℕ → ℕ → ℕ → ℕ → 𝕜} {α β : ℝ}

/-- The sum of the squares of a left vector. -/
noncomputable def sq3 (d w d' : ℕ) (l : ℕ → ℕ → ℕ → 𝕜) : ℝ := ∑ i ∈ range d, ∑ x ∈ range w, ∑ z ∈ range d', ‖l i x z‖ ^ 2

/-- The sum of the squares of a tensor of an MPO. -/
noncomputable def sq4 (w q p v : ℕ) (W : ℕ → ℕ → ℕ → ℕ → 𝕜) : ℝ :=
  ∑ x ∈ range w, ∑ r ∈ range q, ∑ s ∈ range p, ∑ y ∈ range v, ‖W x r s y‖ ^ 2

theorem half_L (ht : COpL α d p e t) :
    ∑ a ∈ range e, ∑ y ∈ range v, ∑ z ∈ range d', ∑ r ∈ range q,
      ‖∑ x ∈ range w, ∑ s ∈ range p, (∑ i ∈ range d, l i x z * t i s a) * W x r s y‖ ^ 2 ≤ α ^ 2 * (sq3 d w d' l * sq4 w q p v W) := by
  have e1 : ∀ a y z r, (∑ x ∈ range w, ∑ s ∈ range p, (∑ i ∈ range d, l i x z * t i s a) * W x r s y)
      = ∑ i ∈ range d, ∑ s ∈ range p, (∑ x ∈ range w, l i x z * W x r s y) * t i s a := by
    intro a y z r
    simp only [sum_mul]
    rw [sum_comm]
    rw [show (∑ i ∈ range d, ∑ s ∈ range p, ∑ x ∈ range w, l i x z * W x r s y * t i s a)
      = ∑ s ∈ range p, ∑ i ∈ range d, ∑ x ∈ range w, l i x z * W x r s y * t i s a from sum_comm]
    refine sum_congr rfl fun s _ => ?_
    rw [sum_comm]
    exact sum_congr rfl fun _ _ => sum_congr rfl fun _ _ => by ring
  simp only [e1]
  rw [rot4]
  calc _ ≤ ∑ y ∈ range v, ∑ z ∈ range d', ∑ r ∈ range q, α ^ 2 *
        ∑ i ∈ range d, ∑ s ∈ range p, ‖∑ x ∈ range w, l i x z * W x r s y‖ ^ 2 :=
        sum_le_sum fun y _ => sum_le_sum fun z _ => sum_le_sum fun r _ => ht _
    _ ≤ ∑ y ∈ range v, ∑ z ∈ range d', ∑ r ∈ range q, α ^ 2 *
        ∑ i ∈ range d, ∑ s ∈ range p, (∑ x ∈ range w, ‖l i x z‖ ^ 2) * ∑ x ∈ range w, ‖W x r s y‖ ^ 2 :=
        sum_le_sum fun y _ => sum_le_sum fun z _ => sum_le_sum fun r _ => mul_le_mul_of_nonneg_left
          (sum_le_sum fun i _ => sum_le_sum fun s _ => cauchy_sq _ _ _) (sq_nonneg _)
    _ = α ^ 2 * ((∑ z ∈ range d', ∑ i ∈ range d, ∑ x ∈ range w, ‖l i x z‖ ^ 2) *
        ∑ y ∈ range v, ∑ r ∈ range q, ∑ s ∈ range p, ∑ x ∈ range w, ‖W x r s y‖ ^ 2) := by
        simp only [← mul_sum]
        congr 1
        rw [mul_sum]
        refine sum_congr rfl fun y _ => ?_
        rw [sum_mul]
        refine sum_congr rfl fun z _ => ?_
        rw [mul_sum]
        refine sum_congr rfl fun r _ => ?_
        rw [sum_mul]
    _ = _ := by
        unfold sq3 sq4
        rw [rot3, rot4 (A := range v)]
        congr 2
        rw [rot4 (A := range w)]
        exact sum_congr rfl fun r _ => sum_congr rfl fun s _ => sum_comm

theorem half_R (ht : COpR α d p e t) :
    ∑ a ∈ range e, ∑ y ∈ range v, ∑ z ∈ range d', ∑ r ∈ range q,
      ‖∑ x ∈ range w, ∑ s ∈ range p, (∑ i ∈ range d, l i x z * t i s a) * W x r s y‖ ^ 2 ≤ α ^ 2 * (sq3 d w d' l * sq4 w q p v W) := by
  calc _ ≤ ∑ a ∈ range e, ∑ y ∈ range v, ∑ z ∈ range d', ∑ r ∈ range q,
        (∑ x ∈ range w, ∑ s ∈ range p, ‖∑ i ∈ range d, l i x z * t i s a‖ ^ 2) * ∑ x ∈ range w, ∑ s ∈ range p, ‖W x r s y‖ ^ 2 :=
        sum_le_sum fun a _ => sum_le_sum fun y _ => sum_le_sum fun z _ => sum_le_sum fun r _ => cauchy_sq2 _ _
    _ = (∑ a ∈ range e, ∑ z ∈ range d', ∑ x ∈ range w, ∑ s ∈ range p, ‖∑ i ∈ range d, l i x z * t i s a‖ ^ 2) *
        ∑ y ∈ range v, ∑ r ∈ range q, ∑ x ∈ range w, ∑ s ∈ range p, ‖W x r s y‖ ^ 2 := by
        rw [sum_mul]
        refine sum_congr rfl fun a _ => ?_
        rw [mul_sum]
        refine sum_congr rfl fun y _ => ?_
        rw [sum_mul]
        refine sum_congr rfl fun z _ => ?_
        rw [mul_sum]
    _ ≤ (α ^ 2 * sq3 d w d' l) * sq4 w q p v W := by
        refine mul_le_mul ?_ (le_of_eq ?_) ?_ ?_
        · calc _ = ∑ z ∈ range d', ∑ x ∈ range w, ∑ s ∈ range p, ∑ a ∈ range e, ‖∑ i ∈ range d, l i x z * t i s a‖ ^ 2 := rot4 _
            _ ≤ ∑ z ∈ range d', ∑ x ∈ range w, α ^ 2 * ∑ i ∈ range d, ‖l i x z‖ ^ 2 :=
                sum_le_sum fun z _ => sum_le_sum fun x _ => ht _
            _ = _ := by
                simp only [← mul_sum]
                unfold sq3
                rw [sum_comm]
                exact congrArg (α ^ 2 * ·) (rot3 _).symm
        · unfold sq4
          rw [rot4]
          exact sum_comm
        · positivity
        · unfold sq3; positivity
    _ = _ := by ring

theorem step_L (hu : COpL β d' q e' u) (h : ∑ a ∈ range e, ∑ y ∈ range v, ∑ z ∈ range d', ∑ r ∈ range q,
      ‖∑ x ∈ range w, ∑ s ∈ range p, (∑ i ∈ range d, l i x z * t i s a) * W x r s y‖ ^ 2 ≤ α ^ 2 * (sq3 d w d' l * sq4 w q p v W)) :
    ∑ a ∈ range e, ∑ y ∈ range v, ∑ c ∈ range e', ‖∑ z ∈ range d', ∑ r ∈ range q,
      (∑ x ∈ range w, ∑ s ∈ range p, (∑ i ∈ range d, l i x z * t i s a) * W x r s y) * u z r c‖ ^ 2
      ≤ β ^ 2 * (α ^ 2 * (sq3 d w d' l * sq4 w q p v W)) := by
  refine le_trans (sum_le_sum fun a _ => sum_le_sum fun y _ => hu _) ?_
  simp only [← mul_sum]
  exact mul_le_mul_of_nonneg_left h (sq_nonneg _)

theorem step_R1 (ht : COpR α d p e t) (hu : COpR β d' q e' u) :
    ∑ a ∈ range e, ∑ c ∈ range e', ∑ x ∈ range w, ∑ s ∈ range p, ∑ r ∈ range q,
      ‖∑ z ∈ range d', (∑ i ∈ range d, l i x z * t i s a) * u z r c‖ ^ 2 ≤ β ^ 2 * (α ^ 2 * sq3 d w d' l) := by
  have h1 : ∀ a, ∑ c ∈ range e', ∑ x ∈ range w, ∑ s ∈ range p, ∑ r ∈ range q,
      ‖∑ z ∈ range d', (∑ i ∈ range d, l i x z * t i s a) * u z r c‖ ^ 2
      ≤ β ^ 2 * ∑ x ∈ range w, ∑ s ∈ range p, ∑ z ∈ range d', ‖∑ i ∈ range d, l i x z * t i s a‖ ^ 2 := by
    intro a
    rw [rot4, mul_sum]
    refine sum_le_sum fun x _ => ?_
    rw [mul_sum]
    exact sum_le_sum fun s _ => hu _
  refine (sum_le_sum fun a _ => h1 a).trans ?_
  rw [← mul_sum, rot4]
  refine mul_le_mul_of_nonneg_left ?_ (sq_nonneg _)
  have h2 : ∀ x, ∑ s ∈ range p, ∑ z ∈ range d', ∑ a ∈ range e, ‖∑ i ∈ range d, l i x z * t i s a‖ ^ 2
      ≤ α ^ 2 * ∑ z ∈ range d', ∑ i ∈ range d, ‖l i x z‖ ^ 2 := by
    intro x
    rw [sum_comm, mul_sum]
    exact sum_le_sum fun z _ => ht _
  refine (sum_le_sum fun x _ => h2 x).trans (le_of_eq ?_)
  rw [← mul_sum]
  unfold sq3
  rw [rot3 (A := range d)]

theorem step_assoc (a y c : ℕ) : (∑ z ∈ range d', ∑ r ∈ range q,
      (∑ x ∈ range w, ∑ s ∈ range p, (∑ i ∈ range d, l i x z * t i s a) * W x r s y) * u z r c)
      = ∑ x ∈ range w, ∑ s ∈ range p, ∑ r ∈ range q, (∑ z ∈ range d', (∑ i ∈ range d, l i x z * t i s a) * u z r c) * W x r s y := by
  generalize hP : (fun x z s => ∑ i ∈ range d, l i x z * t i s a) = P
  have hP' : ∀ x z s, ∑ i ∈ range d, l i x z * t i s a = P x z s := fun x z s => by rw [← hP]
  simp only [hP', sum_mul]
  calc _ = ∑ r ∈ range q, ∑ x ∈ range w, ∑ s ∈ range p, ∑ z ∈ range d', P x z s * W x r s y * u z r c := rot4 _
    _ = ∑ x ∈ range w, ∑ s ∈ range p, ∑ z ∈ range d', ∑ r ∈ range q, P x z s * W x r s y * u z r c := rot4 _
    _ = _ := sum_congr rfl fun x _ => sum_congr rfl fun s _ => by
        rw [sum_comm]
        exact sum_congr rfl fun r _ => sum_congr rfl fun z _ => by ring

theorem step_RR (ht : COpR α d p e t) (hu : COpR β d' q e' u) :
    ∑ a ∈ range e, ∑ y ∈ range v, ∑ c ∈ range e', ‖∑ z ∈ range d', ∑ r ∈ range q,
      (∑ x ∈ range w, ∑ s ∈ range p, (∑ i ∈ range d, l i x z * t i s a) * W x r s y) * u z r c‖ ^ 2
      ≤ β ^ 2 * (α ^ 2 * (sq3 d w d' l * sq4 w q p v W)) := by
  simp only [step_assoc]
  have hb := step_R1 (l := l) (w := w) ht hu
  revert hb
  generalize hQ : (fun x s r a c => ∑ z ∈ range d', (∑ i ∈ range d, l i x z * t i s a) * u z r c) = Q
  have hQ' : ∀ x s r a c, (∑ z ∈ range d', (∑ i ∈ range d, l i x z * t i s a) * u z r c) = Q x s r a c := fun x s r a c => by rw [← hQ]
  simp only [hQ']
  intro hb
  calc _ ≤ ∑ a ∈ range e, ∑ y ∈ range v, ∑ c ∈ range e', (∑ x ∈ range w, ∑ s ∈ range p, ∑ r ∈ range q, ‖Q x s r a c‖ ^ 2) *
        ∑ x ∈ range w, ∑ s ∈ range p, ∑ r ∈ range q, ‖W x r s y‖ ^ 2 :=
        sum_le_sum fun a _ => sum_le_sum fun y _ => sum_le_sum fun c _ => cauchy_sq3 _ _
    _ = (∑ a ∈ range e, ∑ c ∈ range e', ∑ x ∈ range w, ∑ s ∈ range p, ∑ r ∈ range q, ‖Q x s r a c‖ ^ 2) *
        ∑ y ∈ range v, ∑ x ∈ range w, ∑ s ∈ range p, ∑ r ∈ range q, ‖W x r s y‖ ^ 2 := by
        rw [sum_mul]
        refine sum_congr rfl fun a _ => ?_
        rw [mul_sum]
        refine sum_congr rfl fun y _ => ?_
        rw [sum_mul]
    _ = (∑ a ∈ range e, ∑ c ∈ range e', ∑ x ∈ range w, ∑ s ∈ range p, ∑ r ∈ range q, ‖Q x s r a c‖ ^ 2) * sq4 w q p v W := by
        unfold sq4
        rw [rot4 (A := range v)]
        exact congrArg _ (sum_congr rfl fun x _ => sum_comm)
    _ ≤ (β ^ 2 * (α ^ 2 * sq3 d w d' l)) * sq4 w q p v W := by
        refine mul_le_mul_of_nonneg_right hb ?_
        unfold sq4
        positivity
    _ = _ := by ring

/-- The sum of a step, written with the other order of the two states. -/
theorem step_swap (a y c : ℕ) : (∑ z ∈ range d', ∑ r ∈ range q,
      (∑ x ∈ range w, ∑ s ∈ range p, (∑ i ∈ range d, l i x z * t i s a) * W x r s y) * u z r c)
    = ∑ i ∈ range d, ∑ s ∈ range p, (∑ x ∈ range w, ∑ r ∈ range q, (∑ z ∈ range d', l i x z * u z r c) * W x r s y) * t i s a := by
  have e1 : ∀ z r, (∑ x ∈ range w, ∑ s ∈ range p, (∑ i ∈ range d, l i x z * t i s a) * W x r s y) * u z r c
      = ∑ x ∈ range w, ∑ s ∈ range p, ∑ i ∈ range d, l i x z * t i s a * W x r s y * u z r c := by
    intro z r
    simp only [sum_mul]
  have e2 : ∀ i s, (∑ x ∈ range w, ∑ r ∈ range q, (∑ z ∈ range d', l i x z * u z r c) * W x r s y) * t i s a
      = ∑ x ∈ range w, ∑ r ∈ range q, ∑ z ∈ range d', l i x z * t i s a * W x r s y * u z r c := by
    intro i s
    simp only [sum_mul]
    exact sum_congr rfl fun x _ => sum_congr rfl fun r _ => sum_congr rfl fun z _ => by ring
  simp only [e1, e2]
  calc _ = ∑ z ∈ range d', ∑ x ∈ range w, ∑ s ∈ range p, ∑ r ∈ range q, ∑ i ∈ range d, l i x z * t i s a * W x r s y * u z r c :=
        sum_congr rfl fun z _ => rot3 _
    _ = ∑ x ∈ range w, ∑ s ∈ range p, ∑ r ∈ range q, ∑ z ∈ range d', ∑ i ∈ range d, l i x z * t i s a * W x r s y * u z r c := rot4 _
    _ = ∑ x ∈ range w, ∑ s ∈ range p, ∑ r ∈ range q, ∑ i ∈ range d, ∑ z ∈ range d', l i x z * t i s a * W x r s y * u z r c :=
        sum_congr rfl fun x _ => sum_congr rfl fun s _ => sum_congr rfl fun r _ => sum_comm
    _ = ∑ x ∈ range w, ∑ s ∈ range p, ∑ i ∈ range d, ∑ r ∈ range q, ∑ z ∈ range d', l i x z * t i s a * W x r s y * u z r c :=
        sum_congr rfl fun x _ => sum_congr rfl fun s _ => sum_comm
    _ = ∑ s ∈ range p, ∑ i ∈ range d, ∑ x ∈ range w, ∑ r ∈ range q, ∑ z ∈ range d', l i x z * t i s a * W x r s y * u z r c :=
        rot3 _
    _ = _ := sum_comm

theorem step_LR (ht : COpL α d p e t) (hu : COpR β d' q e' u) :
    ∑ a ∈ range e, ∑ y ∈ range v, ∑ c ∈ range e', ‖∑ z ∈ range d', ∑ r ∈ range q,
      (∑ x ∈ range w, ∑ s ∈ range p, (∑ i ∈ range d, l i x z * t i s a) * W x r s y) * u z r c‖ ^ 2
      ≤ β ^ 2 * (α ^ 2 * (sq3 d w d' l * sq4 w q p v W)) := by
  rw [sum_congr rfl fun a _ => sum_congr rfl fun y _ => sum_congr rfl fun c _ => by rw [step_swap a y c]]
  have h := step_L ht (half_R (d' := d) (v := v) (w := w) (q := p) (l := fun z x i => l i x z) (W := fun x s r y => W x r s y) hu)
  have e1 : sq3 d' w d (fun z x i => l i x z) = sq3 d w d' l := by
    unfold sq3
    rw [rot3, sum_comm]
  have e2 : sq4 w p q v (fun x s r y => W x r s y) = sq4 w q p v W := by
    unfold sq4
    exact sum_congr rfl fun _ _ => sum_comm
  rw [e1, e2] at h
  calc _ = ∑ c ∈ range e', ∑ y ∈ range v, ∑ a ∈ range e, ‖∑ i ∈ range d, ∑ s ∈ range p,
        (∑ x ∈ range w, ∑ r ∈ range q, (∑ z ∈ range d', l i x z * u z r c) * W x r s y) * t i s a‖ ^ 2 := by
        rw [rot3, sum_comm]
    _ ≤ _ := h
    _ = _ := by ring

/-- The operator norm of a tensor in one of the two directions is at most `c`. -/
def EOp (c : ℝ) (t : NDArray 𝕜) : Prop := LOp c t ∨ ROp c t

/-- A step with tensors that have a bounded operator norm in any direction. -/
theorem stepOp_of_eop {W T U : NDArray 𝕜} (hα : 0 ≤ α) (hβ : 0 ≤ β) (hT : EOp α T) (hU : EOp β U) : StepOp (α * npNorm W * β) W T U := by
  intro L M d w d' e v e' p q sL sW sT sU h
  obtain ⟨N, n1, n2, n3⟩ := eigLeftvecAdd_ok sL sW sT sU
  rw [h] at n1
  obtain rfl := Except.ok.inj n1
  have hb : ∑ a ∈ range e, ∑ y ∈ range v, ∑ c ∈ range e', ‖M.get [a, y, c]‖ ^ 2
      ≤ β ^ 2 * (α ^ 2 * (sq3 d w d' (fun i x z => L.get [i, x, z]) * sq4 w q p v fun x r s y => W.get [x, r, s, y])) := by
    simp only [n3]
    rcases hU with hU | hU
    · refine step_L (u := fun z r c => star (U.get [z, r, c])) (copL_star (copL_of_lop sU hU)) ?_
      rcases hT with hT | hT
      · exact half_L (copL_of_lop sT hT)
      · exact half_R (copR_of_rop sT hT)
    · rcases hT with hT | hT
      · exact step_LR (u := fun z r c => star (U.get [z, r, c])) (copL_of_lop sT hT) (copR_star (copR_of_rop sU hU))
      · exact step_RR (u := fun z r c => star (U.get [z, r, c])) (copR_of_rop sT hT) (copR_star (copR_of_rop sU hU))
  have hW : npNorm W ^ 2 = sq4 w q p v fun x r s y => W.get [x, r, s, y] := by
    unfold npNorm sq4
    rw [Real.sq_sqrt (by rw [sumIdx_eq_sum]; exact Finset.sum_nonneg fun _ _ => sq_nonneg _), sW]
    simp [sumIdx_cons]
  refine (abs_le_of_sq_le_sq' ?_ (mul_nonneg (mul_nonneg (mul_nonneg hα (npNorm_nonneg' _)) hβ) (npNorm_nonneg' _))).2
  rw [npNorm_eq3 n2]
  refine hb.trans (le_of_eq ?_)
  rw [mul_pow, mul_pow, mul_pow, npNorm_eq3 sL, hW]
  unfold sq3
  ring

end Mpnum
