import Verif.MPArray.RoundingOpen
import Verif.MPArray.RanksKept
import Verif.MPArray.AddLemmas

/-!
Operator norms of the chain built by `+`.

A segment of the sum consists of the corresponding segments of the summands.  At each end, the bonds of the summands are either
joined (inside of the chain) or shared (at the ends of the chain).
-/

open Finset

namespace Mpnum

variable {𝕜 : Type} [RCLike 𝕜]

/-- The part of a vector on the left bond that belongs to the second summand. -/
def vSnd (joined : Bool) (l : ℕ) (v : ℕ → 𝕜) : ℕ → 𝕜 := fun a => if joined then v (l + a) else v a

/-- The size of a joined or shared bond. -/
def bond (joined : Bool) (l l' : ℕ) : ℕ := if joined then l + l' else l

/-- `z` is a local tensor of the sum of two chains, `t` and `u` are the local tensors of the summands. -/
structure SumSite (jl jr : Bool) (t u z : NDArray 𝕜) : Prop where
  lt : t.IsLocal
  lu : u.IsLocal
  lz : z.IsLocal
  pt : t.ph = z.ph
  pu : u.ph = z.ph
  lb : z.lb = bond jl t.lb u.lb
  lb' : jl = false → u.lb = t.lb
  rb : z.rb = bond jr t.rb u.rb
  rb' : jr = false → u.rb = t.rb
  fst : jr = true → ∀ (v : ℕ → 𝕜) p, InB p z.ph → ∀ b < t.rb, ∑ a ∈ range z.lb, v a * z.at3 a p b = ∑ a ∈ range t.lb, v a * t.at3 a p b
  snd : jr = true → ∀ (v : ℕ → 𝕜) p, InB p z.ph → ∀ b < u.rb,
    ∑ a ∈ range z.lb, v a * z.at3 a p (t.rb + b) = ∑ a ∈ range u.lb, vSnd jl t.lb v a * u.at3 a p b
  both : jr = false → ∀ (v : ℕ → 𝕜) p, InB p z.ph → ∀ b < t.rb,
    ∑ a ∈ range z.lb, v a * z.at3 a p b = ∑ a ∈ range t.lb, v a * t.at3 a p b + ∑ a ∈ range u.lb, vSnd jl t.lb v a * u.at3 a p b
  norm : nsq z ≤ nsq t + nsq u

/-- Local tensors of the summands and of the sum, with a weight. -/
structure SItem (𝕜 : Type) where
  s : ℝ
  t : NDArray 𝕜
  u : NDArray 𝕜
  z : NDArray 𝕜

/-- A segment of the sum of two chains. -/
def SSeg : Bool → Bool → List (SItem 𝕜) → Prop
  | _, _, [] => True
  | jl, jr, [i] => SumSite jl jr i.t i.u i.z
  | jl, jr, i :: j :: is => SumSite jl true i.t i.u i.z ∧ SSeg true jr (j :: is)

theorem SSeg.tail {jl jr : Bool} {i : SItem 𝕜} {is : List (SItem 𝕜)} (h : SSeg jl jr (i :: is)) : SSeg true jr is := by
  cases is with
  | nil => trivial
  | cons j is => exact h.2

theorem SSeg.drop {jr : Bool} {a b : List (SItem 𝕜)} {jl : Bool} (h : SSeg jl jr (a ++ b)) : ∃ jl', SSeg jl' jr b := by
  induction a generalizing jl with
  | nil => exact ⟨jl, h⟩
  | cons i a ih => exact ih (SSeg.tail h)

theorem SSeg.take {jr : Bool} {a b : List (SItem 𝕜)} {jl : Bool} (h : SSeg jl jr (a ++ b)) : ∃ jr', SSeg jl jr' a := by
  induction a generalizing jl with
  | nil => exact ⟨true, trivial⟩
  | cons i a ih =>
    cases a with
    | nil =>
      cases b with
      | nil => exact ⟨jr, h⟩
      | cons j b => exact ⟨true, h.1⟩
    | cons j a =>
      obtain ⟨jr', h'⟩ := ih h.2
      exact ⟨jr', h.1, h'⟩

theorem SSeg.ph {is : List (SItem 𝕜)} {jl jr : Bool} (h : SSeg jl jr is) :
    physShape (is.map SItem.t) = physShape (is.map SItem.z) ∧ physShape (is.map SItem.u) = physShape (is.map SItem.z) := by
  induction is generalizing jl with
  | nil => exact ⟨rfl, rfl⟩
  | cons i is ih =>
    obtain ⟨h1, h2⟩ := ih h.tail
    have hi : i.t.ph = i.z.ph ∧ i.u.ph = i.z.ph := by
      cases is with
      | nil => exact ⟨SumSite.pt h, SumSite.pu h⟩
      | cons j is => exact ⟨h.1.pt, h.1.pu⟩
    exact ⟨by show i.t.ph :: _ = i.z.ph :: _; rw [hi.1]; exact congrArg _ h1,
      by show i.u.ph :: _ = i.z.ph :: _; rw [hi.2]; exact congrArg _ h2⟩

/-- A segment of the sum, applied to a vector on its left bond. -/
theorem SSeg.act {is : List (SItem 𝕜)} (hne : is ≠ []) {jl jr : Bool} (h : SSeg jl jr is) {l l' k m m' n : ℕ}
    (ht : Chained l (is.map SItem.t) m) (hu : Chained l' (is.map SItem.u) m') (hz : Chained k (is.map SItem.z) n) :
    k = bond jl l l' ∧ (jl = false → l' = l) ∧ n = bond jr m m' ∧ (jr = false → m' = m) ∧
    ∀ (v : ℕ → 𝕜) I, IdxOK I (physShape (is.map SItem.z)) →
      (jr = true → ∀ b < m, ∑ a ∈ range k, v a * mp (is.map SItem.z) I a b = ∑ a ∈ range l, v a * mp (is.map SItem.t) I a b) ∧
      (jr = true → ∀ b < m', ∑ a ∈ range k, v a * mp (is.map SItem.z) I a (m + b)
        = ∑ a ∈ range l', vSnd jl l v a * mp (is.map SItem.u) I a b) ∧
      (jr = false → ∀ b < m, ∑ a ∈ range k, v a * mp (is.map SItem.z) I a b
        = ∑ a ∈ range l, v a * mp (is.map SItem.t) I a b + ∑ a ∈ range l', vSnd jl l v a * mp (is.map SItem.u) I a b) := by
  induction is generalizing jl l l' k with
  | nil => exact absurd rfl hne
  | cons i is ih =>
    cases is with
    | nil =>
      have hs : SumSite jl jr i.t i.u i.z := h
      obtain ⟨-, rfl, h1⟩ := ht
      obtain ⟨-, rfl, h2⟩ := hu
      obtain ⟨-, rfl, h3⟩ := hz
      obtain rfl : i.t.rb = m := h1
      obtain rfl : i.u.rb = m' := h2
      obtain rfl : i.z.rb = n := h3
      refine ⟨hs.lb, hs.lb', hs.rb, hs.rb', fun v I hI => ?_⟩
      obtain ⟨p, rfl, hp⟩ : ∃ p, I = [p] ∧ InB p i.z.ph := by
        cases hI with
        | cons h1 h2 => cases h2; exact ⟨_, rfl, h1⟩
      have e : ∀ (w : NDArray 𝕜) a b, b < w.rb → mp [w] [p] a b = w.at3 a p b := by
        intro w a b hb
        simp only [mp_cons, mp_nil, mul_ite, mul_one, mul_zero]
        rw [Finset.sum_ite_eq', if_pos (by simpa using hb)]
      simp only [List.map_cons, List.map_nil]
      refine ⟨fun hj b hb => ?_, fun hj b hb => ?_, fun hj b hb => ?_⟩
      · have hb' : b < i.z.rb := by rw [hs.rb, hj]; simp only [bond, if_true]; omega
        simp only [e i.z _ _ hb', e i.t _ _ hb]
        exact hs.fst hj v p hp b hb
      · have hb' : i.t.rb + b < i.z.rb := by rw [hs.rb, hj]; simp only [bond, if_true]; omega
        simp only [e i.z _ _ hb', e i.u _ _ hb]
        exact hs.snd hj v p hp b hb
      · have hb' : b < i.z.rb := by rw [hs.rb, hj]; exact hb
        have hb2 : b < i.u.rb := by rw [hs.rb' hj]; exact hb
        simp only [e i.z _ _ hb', e i.t _ _ hb, e i.u _ _ hb2]
        exact hs.both hj v p hp b hb
    | cons j is =>
      obtain ⟨hs, hr⟩ : SumSite jl true i.t i.u i.z ∧ SSeg true jr (j :: is) := h
      obtain ⟨-, h1, ht⟩ := ht
      obtain ⟨-, h2, hu⟩ := hu
      obtain ⟨-, h3, hz⟩ := hz
      subst h1; subst h2; subst h3
      obtain ⟨-, -, k1, k2, k3⟩ := ih (by simp) hr ht hu hz
      refine ⟨hs.lb, hs.lb', k1, k2, fun v I hI => ?_⟩
      obtain ⟨p, I, rfl, hp, hI⟩ : ∃ p I', I = p :: I' ∧ InB p i.z.ph ∧ IdxOK I' (physShape ((j :: is).map SItem.z)) := by
        cases hI with
        | cons h1 h2 => exact ⟨_, _, rfl, h1, h2⟩
      have e : ∀ (w : NDArray 𝕜) (ws : List (NDArray 𝕜)) (L : ℕ) (v : ℕ → 𝕜) (b : ℕ), ∑ a ∈ range L, v a * mp (w :: ws) (p :: I) a b
          = ∑ c ∈ range w.rb, (∑ a ∈ range L, v a * w.at3 a p c) * mp ws I c b := by
        intro w ws L v b
        simp only [mp_cons, Finset.mul_sum, Finset.sum_mul]
        rw [Finset.sum_comm]
        exact Finset.sum_congr rfl fun c _ => Finset.sum_congr rfl fun a _ => by ring
      obtain ⟨q1, q2, q3⟩ := k3 (fun c => ∑ a ∈ range i.z.lb, v a * i.z.at3 a p c) I hI
      have e1 : ∀ b, ∑ c ∈ range i.t.rb, (∑ a ∈ range i.z.lb, v a * i.z.at3 a p c) * mp ((j :: is).map SItem.t) I c b
          = ∑ a ∈ range i.t.lb, v a * mp ((i :: j :: is).map SItem.t) (p :: I) a b := by
        intro b
        rw [show (i :: j :: is).map SItem.t = i.t :: (j :: is).map SItem.t from rfl, e]
        exact Finset.sum_congr rfl fun c hc => by rw [hs.fst rfl v p hp c (by simpa using hc)]
      have e2 : ∀ b, ∑ c ∈ range i.u.rb, vSnd true i.t.rb (fun c => ∑ a ∈ range i.z.lb, v a * i.z.at3 a p c) c
          * mp ((j :: is).map SItem.u) I c b = ∑ a ∈ range i.u.lb, vSnd jl i.t.lb v a * mp ((i :: j :: is).map SItem.u) (p :: I) a b := by
        intro b
        rw [show (i :: j :: is).map SItem.u = i.u :: (j :: is).map SItem.u from rfl, e]
        refine Finset.sum_congr rfl fun c hc => ?_
        rw [← hs.snd rfl v p hp c (by simpa using hc)]
        simp only [vSnd, if_true]
      refine ⟨fun hj b hb => ?_, fun hj b hb => ?_, fun hj b hb => ?_⟩
      · rw [show (i :: j :: is).map SItem.z = i.z :: (j :: is).map SItem.z from rfl, e, q1 hj b hb, e1]
      · rw [show (i :: j :: is).map SItem.z = i.z :: (j :: is).map SItem.z from rfl, e, q2 hj b hb, e2]
      · rw [show (i :: j :: is).map SItem.z = i.z :: (j :: is).map SItem.z from rfl, e, q3 hj b hb, e1, e2]

theorem vSnd_sum (jl : Bool) {l l' k : ℕ} (hk : k = bond jl l l') (hl : jl = false → l' = l) (v : ℕ → 𝕜) :
    ∑ a ∈ range l, ‖v a‖ ^ 2 + ∑ a ∈ range l', ‖vSnd jl l v a‖ ^ 2 ≤ 2 * ∑ a ∈ range k, ‖v a‖ ^ 2 := by
  have h0 : 0 ≤ ∑ a ∈ range k, ‖v a‖ ^ 2 := Finset.sum_nonneg fun _ _ => sq_nonneg _
  cases jl with
  | true =>
    subst hk
    simp only [bond, vSnd, if_true] at h0 ⊢
    rw [Finset.sum_range_add] at h0 ⊢
    linarith
  | false =>
    subst hk
    rw [hl rfl]
    simp only [bond, vSnd] at h0 ⊢
    simp only [Bool.false_eq_true, if_false] at h0 ⊢
    linarith

/-- The operator norm of a segment of the sum. -/
theorem SSeg.op {is : List (SItem 𝕜)} {jl jr : Bool} (h : SSeg jl jr is) {c : ℝ} (hc : 0 ≤ c) {l l' m m' : ℕ}
    (ht : Chained l (is.map SItem.t) m) (hu : Chained l' (is.map SItem.u) m')
    (h1 : SegOp c (is.map SItem.t)) (h2 : SegOp c (is.map SItem.u)) : SegOp (2 * c) (is.map SItem.z) := by
  by_cases hne : is = []
  · subst hne
    exact h1.mono hc (by linarith)
  intro k n hz v
  obtain ⟨k1, k2, k3, k4, k5⟩ := h.act hne ht hu hz
  obtain ⟨p1, p2⟩ := h.ph
  have hv := vSnd_sum jl k1 k2 v
  have a1 := h1 l m ht v
  have a2 := h2 l' m' hu (vSnd jl l v)
  rw [p1] at a1
  rw [p2] at a2
  set X := ∑ a ∈ range l, ‖v a‖ ^ 2 with hX
  set Y := ∑ a ∈ range l', ‖vSnd jl l v a‖ ^ 2 with hY
  have hX0 : 0 ≤ X := Finset.sum_nonneg fun _ _ => sq_nonneg _
  have hY0 : 0 ≤ Y := Finset.sum_nonneg fun _ _ => sq_nonneg _
  cases jr with
  | true =>
    have e : ∑ i ∈ siteSet (physShape (is.map SItem.z)), ∑ b ∈ range n, ‖∑ a ∈ range k, v a * mp (is.map SItem.z) i a b‖ ^ 2
        = ∑ i ∈ siteSet (physShape (is.map SItem.z)), ∑ b ∈ range m, ‖∑ a ∈ range l, v a * mp (is.map SItem.t) i a b‖ ^ 2
          + ∑ i ∈ siteSet (physShape (is.map SItem.z)), ∑ b ∈ range m', ‖∑ a ∈ range l', vSnd jl l v a * mp (is.map SItem.u) i a b‖ ^ 2 := by
      rw [← Finset.sum_add_distrib]
      refine Finset.sum_congr rfl fun i hi => ?_
      rw [mem_siteSet] at hi
      obtain ⟨q1, q2, -⟩ := k5 v i hi
      rw [k3]
      simp only [bond, if_true]
      rw [Finset.sum_range_add]
      congr 1
      · exact Finset.sum_congr rfl fun b hb => by rw [q1 rfl b (by simpa using hb)]
      · exact Finset.sum_congr rfl fun b hb => by rw [q2 rfl b (by simpa using hb)]
    rw [e]
    nlinarith [sq_nonneg c]
  | false =>
    have e : ∑ i ∈ siteSet (physShape (is.map SItem.z)), ∑ b ∈ range n, ‖∑ a ∈ range k, v a * mp (is.map SItem.z) i a b‖ ^ 2
        = ∑ i ∈ siteSet (physShape (is.map SItem.z)), ∑ b ∈ range m, ‖∑ a ∈ range l, v a * mp (is.map SItem.t) i a b
          + ∑ a ∈ range l', vSnd jl l v a * mp (is.map SItem.u) i a b‖ ^ 2 := by
      refine Finset.sum_congr rfl fun i hi => ?_
      rw [mem_siteSet] at hi
      obtain ⟨-, -, q3⟩ := k5 v i hi
      rw [k3]
      simp only [bond]
      exact Finset.sum_congr rfl fun b hb => by rw [q3 rfl b (by simpa using hb)]
    rw [e]
    have hp : ∀ x y : 𝕜, ‖x + y‖ ^ 2 ≤ 2 * ‖x‖ ^ 2 + 2 * ‖y‖ ^ 2 := fun x y => by
      have := norm_add_le x y
      nlinarith [sq_nonneg (‖x‖ - ‖y‖), norm_nonneg (x + y), norm_nonneg x, norm_nonneg y]
    refine (Finset.sum_le_sum fun i _ => Finset.sum_le_sum fun b _ => hp _ _).trans ?_
    simp only [Finset.sum_add_distrib, ← Finset.mul_sum]
    rw [k4 rfl] at a2
    nlinarith [sq_nonneg c]

/-! ### the local tensors built by `+` -/

theorem sumSite_block {t u z : NDArray 𝕜} (ht : t.IsLocal) (hu : u.IsLocal) (hp : u.ph = t.ph)
    (hs : z.shape = (t.lb + u.lb) :: (t.ph ++ [t.rb + u.rb])) (hg : ∀ a p b, InB p t.ph → z.at3 a p b = blockGet [t, u] a p b) :
    SumSite true true t u z := by
  have e1 := NDArray.lb_of_shape hs
  have e2 := NDArray.rb_of_shape hs
  have e3 := NDArray.ph_of_shape hs
  have g1 : ∀ a p b, InB p t.ph → a < t.lb → b < t.rb → z.at3 a p b = t.at3 a p b := fun a p b hp ha hb => by
    rw [hg a p b hp]; simp [blockGet, ha, hb]
  have g2 : ∀ a p b, InB p t.ph → b < t.rb → z.at3 (t.lb + a) p b = 0 := fun a p b hp hb => by
    rw [hg _ p b hp]; simp [blockGet, hb]
  have g3 : ∀ a p b, InB p t.ph → a < t.lb → z.at3 a p (t.rb + b) = 0 := fun a p b hp ha => by
    rw [hg _ p _ hp]; simp [blockGet, ha]
  have g4 : ∀ a p b, InB p t.ph → a < u.lb → b < u.rb → z.at3 (t.lb + a) p (t.rb + b) = u.at3 a p b := fun a p b hp ha hb => by
    rw [hg _ p _ hp]; simp [blockGet, ha, hb]
  refine ⟨ht, hu, NDArray.isLocal_of_shape hs, e3.symm, by rw [hp, e3], e1, by simp, e2, by simp, fun _ v p hp b hb => ?_,
    fun _ v p hp b hb => ?_, by simp, le_of_eq ?_⟩
  · rw [e3] at hp
    rw [e1, Finset.sum_range_add, Finset.sum_congr rfl fun a ha => by rw [g1 a p b hp (by simpa using ha) hb],
      Finset.sum_eq_zero (s := range u.lb) fun a _ => by rw [g2 a p b hp hb, mul_zero], add_zero]
  · rw [e3] at hp
    rw [e1, Finset.sum_range_add, Finset.sum_eq_zero (s := range t.lb) fun a ha => by
      rw [g3 a p b hp (by simpa using ha), mul_zero], zero_add]
    simp only [vSnd, if_true]
    exact Finset.sum_congr rfl fun a ha => by rw [g4 a p b hp (by simpa using ha) hb]
  · rw [nsq_local (NDArray.isLocal_of_shape hs), nsq_local ht, nsq_local hu, e1, e2, e3, hp, Finset.sum_range_add]
    congr 1
    · refine Finset.sum_congr rfl fun a ha => sumIdx_congr fun p hp => ?_
      have ha : a < t.lb := by simpa using ha
      rw [Finset.sum_range_add, Finset.sum_congr rfl fun b hb => by rw [g1 a p b hp ha (by simpa using hb)],
        Finset.sum_eq_zero (s := range u.rb) fun b _ => by rw [g3 a p b hp ha]; simp, add_zero]
    · refine Finset.sum_congr rfl fun a ha => sumIdx_congr fun p hp => ?_
      have ha : a < u.lb := by simpa using ha
      rw [Finset.sum_range_add, Finset.sum_eq_zero (s := range t.rb) fun b hb => by rw [g2 a p b hp (by simpa using hb)]; simp, zero_add]
      exact Finset.sum_congr rfl fun b hb => by rw [g4 a p b hp ha (by simpa using hb)]

theorem sumSite_first {t u z : NDArray 𝕜} (ht : t.IsLocal) (hu : u.IsLocal) (hp : u.ph = t.ph) (hl : u.lb = t.lb)
    (hs : z.shape = t.lb :: (t.ph ++ [t.rb + u.rb])) (hg : ∀ a p b, p.length = t.ph.length → z.at3 a p b = colGet [t, u] a p b) :
    SumSite false true t u z := by
  have e1 := NDArray.lb_of_shape hs
  have e2 := NDArray.rb_of_shape hs
  have e3 := NDArray.ph_of_shape hs
  have g1 : ∀ a p b, InB p t.ph → b < t.rb → z.at3 a p b = t.at3 a p b := fun a p b hp hb => by
    rw [hg a p b (inB_length hp)]; simp [colGet, hb]
  have g4 : ∀ a p b, InB p t.ph → b < u.rb → z.at3 a p (t.rb + b) = u.at3 a p b := fun a p b hp hb => by
    rw [hg _ p _ (inB_length hp)]; simp [colGet, hb]
  refine ⟨ht, hu, NDArray.isLocal_of_shape hs, e3.symm, by rw [hp, e3], e1, fun _ => hl, e2, by simp, fun _ v p hp b hb => ?_,
    fun _ v p hp b hb => ?_, by simp, le_of_eq ?_⟩
  · rw [e3] at hp
    rw [e1]
    exact Finset.sum_congr rfl fun a ha => by rw [g1 a p b hp hb]
  · rw [e3] at hp
    rw [e1, hl]
    exact Finset.sum_congr rfl fun a ha => by rw [g4 a p b hp hb]; rfl
  · rw [nsq_local (NDArray.isLocal_of_shape hs), nsq_local ht, nsq_local hu, e1, e2, e3, hp, hl, ← Finset.sum_add_distrib]
    refine Finset.sum_congr rfl fun a _ => ?_
    simp only [sumIdx_eq_sum]
    rw [← Finset.sum_add_distrib]
    refine Finset.sum_congr rfl fun p hp => ?_
    rw [mem_idxSet] at hp
    rw [Finset.sum_range_add]
    congr 1
    · exact Finset.sum_congr rfl fun b hb => by rw [g1 a p b hp (by simpa using hb)]
    · exact Finset.sum_congr rfl fun b hb => by rw [g4 a p b hp (by simpa using hb)]

theorem sumSite_last {t u z : NDArray 𝕜} (ht : t.IsLocal) (hu : u.IsLocal) (hp : u.ph = t.ph) (hr : u.rb = t.rb)
    (hs : z.shape = (t.lb + u.lb) :: (t.ph ++ [t.rb])) (hg : ∀ a p b, InB p t.ph → z.at3 a p b = rowGet [t, u] a p b) :
    SumSite true false t u z := by
  have e1 := NDArray.lb_of_shape hs
  have e2 := NDArray.rb_of_shape hs
  have e3 := NDArray.ph_of_shape hs
  have g1 : ∀ a p b, InB p t.ph → a < t.lb → z.at3 a p b = t.at3 a p b := fun a p b hp ha => by
    rw [hg a p b hp]; simp [rowGet, ha]
  have g4 : ∀ a p b, InB p t.ph → a < u.lb → z.at3 (t.lb + a) p b = u.at3 a p b := fun a p b hp ha => by
    rw [hg _ p _ hp]; simp [rowGet, ha]
  refine ⟨ht, hu, NDArray.isLocal_of_shape hs, e3.symm, by rw [hp, e3], e1, by simp, e2, fun _ => hr, by simp, by simp,
    fun _ v p hp b hb => ?_, le_of_eq ?_⟩
  · rw [e3] at hp
    rw [e1, Finset.sum_range_add]
    congr 1
    · exact Finset.sum_congr rfl fun a ha => by rw [g1 a p b hp (by simpa using ha)]
    · exact Finset.sum_congr rfl fun a ha => by rw [g4 a p b hp (by simpa using ha)]; rfl
  · rw [nsq_local (NDArray.isLocal_of_shape hs), nsq_local ht, nsq_local hu, e1, e2, e3, hp, hr, Finset.sum_range_add]
    congr 1
    · exact Finset.sum_congr rfl fun a ha => sumIdx_congr fun p hp => Finset.sum_congr rfl fun b _ => by
        rw [g1 a p b hp (by simpa using ha)]
    · exact Finset.sum_congr rfl fun a ha => sumIdx_congr fun p hp => Finset.sum_congr rfl fun b _ => by
        rw [g4 a p b hp (by simpa using ha)]

/-! ### the mirror image -/

/-- The mirror image of an item. -/
def SItem.rev (i : SItem 𝕜) : SItem 𝕜 := ⟨i.s, i.t.rev3, i.u.rev3, i.z.rev3⟩

/-- The mirror image of a segment. -/
def srev (is : List (SItem 𝕜)) : List (SItem 𝕜) := (is.map SItem.rev).reverse

theorem srev_cons (i : SItem 𝕜) (is : List (SItem 𝕜)) : srev (i :: is) = srev is ++ [i.rev] := by simp [srev]

theorem srev_ne {is : List (SItem 𝕜)} (h : is ≠ []) : srev is ≠ [] := by simpa [srev] using h

theorem SSeg.concat {is : List (SItem 𝕜)} (hne : is ≠ []) {jl jr : Bool} (h : SSeg jl true is) {i : SItem 𝕜}
    (hi : SumSite true jr i.t i.u i.z) : SSeg jl jr (is ++ [i]) := by
  induction is generalizing jl with
  | nil => exact absurd rfl hne
  | cons j is ih =>
    cases is with
    | nil => exact ⟨h, hi⟩
    | cons k is => exact ⟨h.1, ih (by simp) h.2⟩

theorem sumSite_block_rev {t u z : NDArray 𝕜} (hp : u.ph = t.ph)
    (hs : z.shape = (t.lb + u.lb) :: (t.ph ++ [t.rb + u.rb])) (hg : ∀ a p b, InB p t.ph → z.at3 a p b = blockGet [t, u] a p b) :
    SumSite true true t.rev3 u.rev3 z.rev3 := by
  refine sumSite_block (rev3_local t) (rev3_local u) (by rw [rev3_ph, rev3_ph, hp]) ?_ fun a p b hi => ?_
  · rw [rev3_shape, NDArray.rb_of_shape hs, NDArray.ph_of_shape hs, NDArray.lb_of_shape hs]
    simp only [rev3_lb, rev3_rb, rev3_ph]
  · rw [rev3_ph] at hi
    rw [rev3_at3, hg b p a hi]
    simp only [blockGet, rev3_lb, rev3_rb, rev3_at3]
    split_ifs <;> rfl

theorem sumSite_first_rev {t u z : NDArray 𝕜} (hp : u.ph = t.ph) (hl : u.lb = t.lb)
    (hs : z.shape = t.lb :: (t.ph ++ [t.rb + u.rb])) (hg : ∀ a p b, p.length = t.ph.length → z.at3 a p b = colGet [t, u] a p b) :
    SumSite true false t.rev3 u.rev3 z.rev3 := by
  refine sumSite_last (rev3_local t) (rev3_local u) (by rw [rev3_ph, rev3_ph, hp]) (by rw [rev3_rb, rev3_rb, hl]) ?_ fun a p b hi => ?_
  · rw [rev3_shape, NDArray.rb_of_shape hs, NDArray.ph_of_shape hs, NDArray.lb_of_shape hs]
    simp only [rev3_lb, rev3_rb, rev3_ph]
  · rw [rev3_ph] at hi
    rw [rev3_at3, hg b p a (inB_length hi)]
    simp only [colGet, rowGet, rev3_lb, rev3_at3]

theorem sumSite_last_rev {t u z : NDArray 𝕜} (hp : u.ph = t.ph) (hr : u.rb = t.rb)
    (hs : z.shape = (t.lb + u.lb) :: (t.ph ++ [t.rb])) (hg : ∀ a p b, z.at3 a p b = rowGet [t, u] a p b) :
    SumSite false true t.rev3 u.rev3 z.rev3 := by
  refine sumSite_first (rev3_local t) (rev3_local u) (by rw [rev3_ph, rev3_ph, hp]) (by rw [rev3_lb, rev3_lb, hr]) ?_ fun a p b hi => ?_
  · rw [rev3_shape, NDArray.rb_of_shape hs, NDArray.ph_of_shape hs, NDArray.lb_of_shape hs]
    simp only [rev3_lb, rev3_rb, rev3_ph]
  · rw [rev3_at3, hg b p a]
    simp only [colGet, rowGet, rev3_rb, rev3_at3]

theorem sumRest_struct (n : ℕ) {ts us : List (NDArray 𝕜)} {ws : List ℝ} (h1 : ts.length = n + 1) (h2 : us.length = n + 1)
    (h3 : ws.length = n + 1) {l l' : ℕ} (ht : Chained l ts 1) (hu : Chained l' us 1) (hp : physShape us = physShape ts) :
    ∃ is : List (SItem 𝕜), sumRest (n + 1) [ts, us] = .ok (is.map SItem.z) ∧ is.map SItem.t = ts ∧ is.map SItem.u = us ∧
      is.map SItem.s = ws ∧ SSeg true false is ∧ SSeg false true (srev is) := by
  induction n generalizing ts us ws l l' with
  | zero =>
    obtain ⟨t, rfl⟩ := List.length_eq_one_iff.1 h1
    obtain ⟨u, rfl⟩ := List.length_eq_one_iff.1 h2
    obtain ⟨w, rfl⟩ := List.length_eq_one_iff.1 h3
    have htl := ht.1
    have hul := hu.1
    have htr : t.rb = 1 := ht.2.2
    have hur : u.rb = 1 := hu.2.2
    have hph : u.ph = t.ph := by simpa [physShape] using hp
    obtain ⟨z, z1, z2, z3⟩ := concat_first_ok (ts := [t, u]) (P := t.ph) (r := 1) (by simp) (by
      intro w hw
      simp only [List.mem_cons, List.not_mem_nil, or_false] at hw
      rcases hw with rfl | rfl
      · rw [← htr]; exact NDArray.shape_local htl
      · rw [← hur, ← hph]; exact NDArray.shape_local hul)
    refine ⟨[⟨w, t, u, z⟩], ?_, rfl, rfl, rfl, sumSite_last htl hul hph (by rw [htr, hur]) (by rw [z2, htr]; simp) (fun a p b _ => z3 a p b),
      sumSite_last_rev hph (by rw [htr, hur]) (by rw [z2, htr]; simp) z3⟩
    show (nexts [[t], [u]] >>= _) = _
    rw [show nexts [[t], [u]] = .ok [t, u] from rfl, ok_bind, z1]
    rfl
  | succ n ih =>
    obtain ⟨t, ts, rfl⟩ := List.exists_cons_of_length_eq_add_one h1
    obtain ⟨u, us, rfl⟩ := List.exists_cons_of_length_eq_add_one h2
    obtain ⟨w, ws, rfl⟩ := List.exists_cons_of_length_eq_add_one h3
    obtain ⟨htl, -, ht⟩ := ht
    obtain ⟨hul, -, hu⟩ := hu
    have hph : u.ph = t.ph ∧ physShape us = physShape ts := by simpa [physShape] using hp
    obtain ⟨is, k1, k2, k3, k4, k5, k6⟩ := ih (ts := ts) (us := us) (ws := ws) (by simpa using h1) (by simpa using h2) (by simpa using h3)
      ht hu hph.2
    obtain ⟨z, z1, z2, z3⟩ := localAdd_ok (ts := [t, u]) (P := t.ph) (by simp) (by
      intro w hw
      simp only [List.mem_cons, List.not_mem_nil, or_false] at hw
      rcases hw with rfl | rfl
      · exact NDArray.shape_local htl
      · rw [← hph.1]; exact NDArray.shape_local hul)
    refine ⟨⟨w, t, u, z⟩ :: is, ?_, by simp [k2], by simp [k3], by simp [k4], ?_⟩
    · show (nexts [t :: ts, u :: us] >>= _) = _
      rw [show nexts [t :: ts, u :: us] = .ok [t, u] from rfl, ok_bind, z1, ok_bind]
      show (sumRest (n + 1) [ts, us] >>= _) = _
      rw [k1]; rfl
    · have hs := sumSite_block htl hul hph.1 (by rw [z2]; simp) z3
      have hne : is ≠ [] := by rintro rfl; simp [← k2] at h1
      refine ⟨?_, ?_⟩
      · cases is with
        | nil => exact absurd rfl hne
        | cons i is => exact ⟨hs, k5⟩
      · rw [srev_cons]
        exact SSeg.concat (srev_ne hne) k6 (sumSite_block_rev hph.1 (by rw [z2]; simp) z3)

/-- The local tensors of `x + y` for at least two sites. -/
theorem MPA.add_struct {x y z : MPA 𝕜} (hx : x.Valid) (hy : y.Valid) (hs : y.shape = x.shape) (hn : 2 ≤ x.len) (hz : x.add y = .ok z)
    {ws : List ℝ} (hw : ws.length = x.len) :
    ∃ is : List (SItem 𝕜), z.lt = is.map SItem.z ∧ x.lt = is.map SItem.t ∧ y.lt = is.map SItem.u ∧ is.map SItem.s = ws ∧
      SSeg false false is ∧ SSeg false false (srev is) := by
  obtain ⟨xl, a, b⟩ := x
  obtain ⟨yl, a', b'⟩ := y
  have hlen : yl.length = xl.length := by
    have := congrArg List.length hs
    simpa [MPA.shape] using this
  simp only [MPA.len] at hn hw
  obtain ⟨n, hn⟩ : ∃ n, xl.length = n + 2 := ⟨xl.length - 2, by omega⟩
  obtain ⟨t, ts, rfl⟩ := List.exists_cons_of_length_eq_add_one hn
  obtain ⟨u, us, rfl⟩ := List.exists_cons_of_length_eq_add_one (hlen.trans hn)
  obtain ⟨w, ws, rfl⟩ := List.exists_cons_of_length_eq_add_one (hw.trans hn)
  obtain ⟨htl, htb, ht⟩ := hx.chain
  obtain ⟨hul, hub, hu⟩ := hy.chain
  have hph : u.ph = t.ph ∧ physShape us = physShape ts := by simpa [MPA.shape, physShape] using hs
  obtain ⟨is, k1, k2, k3, k4, k5, k6⟩ := sumRest_struct n (ts := ts) (us := us) (ws := ws) (by simpa using hn)
    (by simpa using hlen.trans hn) (by simpa using hw.trans hn) ht hu hph.2
  obtain ⟨c, z1, z2, z3⟩ := concat_last_ok (ts := [t, u]) (P := t.ph) (l := 1) (by simp) (by
      intro w hw
      simp only [List.mem_cons, List.not_mem_nil, or_false] at hw
      rcases hw with rfl | rfl
      · rw [← htb]; exact NDArray.shape_local htl
      · rw [← hub, ← hph.1]; exact NDArray.shape_local hul)
  refine ⟨⟨w, t, u, c⟩ :: is, ?_, by simp [k2], by simp [k3], by simp [k4], ?_⟩
  · unfold MPA.add at hz
    rw [pyAssert_true (by simpa [MPA.len] using hlen.symm)] at hz
    change (if _ then _ else _) = _ at hz
    rw [if_neg (by simp only [MPA.len]; omega)] at hz
    rw [show nexts [t :: ts, u :: us] = .ok [t, u] from rfl, ok_bind, z1, ok_bind] at hz
    have e : (⟨t :: ts, a, b⟩ : MPA 𝕜).len - 1 = n + 1 := by simp only [MPA.len]; omega
    rw [e] at hz
    simp only [List.tail_cons] at hz
    rw [k1, ok_bind] at hz
    rw [mkMPA_lt hz]; rfl
  · have hs := sumSite_first htl hul hph.1 (by rw [htb, hub]) (by rw [z2, htb]; simp) z3
    have hne : is ≠ [] := by rintro rfl; simp [← k2] at hn
    refine ⟨?_, ?_⟩
    · cases is with
      | nil => exact absurd rfl hne
      | cons i is => exact ⟨hs, k5⟩
    · rw [srev_cons]
      exact SSeg.concat (srev_ne hne) k6 (sumSite_first_rev hph.1 (by rw [htb, hub]) (by rw [z2, htb]; simp) z3)

end Mpnum
