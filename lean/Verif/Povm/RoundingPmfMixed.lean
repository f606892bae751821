import Verif.Povm.RoundingPmfCond

/-!
# Measurements on states in mixed canonical form as maps that do not increase errors

A site which is right-canonical is, from left to right, a map which does not increase the trace norm of the matrix that describes the
sites to the left.  The theorems of this file use the adjoint of this map, which does not increase operator norms.  Together with
`RoundingPmfCond.lean` this bounds the amplification of errors for canonical states with any centre.
-/

open Finset

namespace Mpnum

variable {𝕜 : Type} [RCLike 𝕜]

/-- The operator norm of the map from the left bond to the other legs is at most `c`. -/
def KSite.ROp (c : ℝ) (s : KSite 𝕜) : Prop := ∀ v : ℕ → 𝕜,
  ∑ y ∈ range s.o, ∑ i ∈ range s.d, ∑ κ ∈ range s.k, ∑ b ∈ range s.r, ‖∑ a ∈ range s.l, s.w a y i κ b * v a‖ ^ 2
    ≤ c ^ 2 * ∑ a ∈ range s.l, ‖v a‖ ^ 2

/-- The operator norm of the matrix `H` is at most `x`. -/
def MatOp (l : ℕ) (x : ℝ) (H : ℕ → ℕ → 𝕜) : Prop := ∀ v : ℕ → 𝕜,
  ∑ a ∈ range l, ‖∑ a' ∈ range l, H a a' * v a'‖ ^ 2 ≤ x ^ 2 * ∑ a ∈ range l, ‖v a‖ ^ 2

/-- The bilinear pairing of two matrices. -/
def matPair (l : ℕ) (H E : ℕ → ℕ → 𝕜) : 𝕜 := ∑ a ∈ range l, ∑ a' ∈ range l, H a a' * E a a'

/-- The transpose of the map `act`. -/
def KSite.coact (s : KSite 𝕜) (H : ℕ → ℕ → ℕ → 𝕜) (a a' : ℕ) : 𝕜 :=
  ∑ y ∈ range s.o, ∑ i ∈ range s.d, ∑ κ ∈ range s.k, ∑ b ∈ range s.r, ∑ b' ∈ range s.r,
    H y b b' * (s.w a y i κ b * star (s.w a' y i κ b'))

theorem coact_pair (s : KSite 𝕜) (H : ℕ → ℕ → ℕ → 𝕜) (E : ℕ → ℕ → 𝕜) :
    matPair s.l (s.coact H) E = ∑ y ∈ range s.o, matPair s.r (H y) (s.act y E) := by
  unfold matPair KSite.coact KSite.act
  simp only [sum_mul, mul_sum]
  simp only [← sum_product']
  refine sum_nbij' (fun ⟨a, a', y, i, κ, b, b'⟩ => ⟨y, b, b', a, a', i, κ⟩) (fun ⟨y, b, b', a, a', i, κ⟩ => ⟨a, a', y, i, κ, b, b'⟩) ?_ ?_ ?_ ?_ ?_
  all_goals rintro ⟨x1, x2, x3, x4, x5, x6, x7⟩ h
  all_goals simp only [mem_product] at h ⊢
  · tauto
  · tauto
  · ring

theorem coact_op {s : KSite 𝕜} {c x : ℝ} (hs : s.ROp c) {H : ℕ → ℕ → ℕ → 𝕜} (hH : ∀ y < s.o, MatOp s.r x (H y)) :
    MatOp s.l (c ^ 2 * x) (s.coact H) := by
  intro v
  set I : Finset (ℕ × ℕ × ℕ × ℕ) := range s.o ×ˢ range s.d ×ˢ range s.k ×ˢ range s.r with hI
  set g : ℕ → ℕ → ℕ → ℕ → 𝕜 := fun y i κ b' => ∑ a' ∈ range s.l, star (s.w a' y i κ b') * v a' with hg
  have h1 : ∑ y ∈ range s.o, ∑ i ∈ range s.d, ∑ κ ∈ range s.k, ∑ b ∈ range s.r, ‖g y i κ b‖ ^ 2 ≤ c ^ 2 * ∑ a ∈ range s.l, ‖v a‖ ^ 2 := by
    have := hs fun a => star (v a)
    simp only [norm_star] at this
    refine le_trans (le_of_eq ?_) this
    refine sum_congr rfl fun y _ => sum_congr rfl fun i _ => sum_congr rfl fun κ _ => sum_congr rfl fun b _ => ?_
    rw [hg, ← norm_star]
    congr 2
    rw [star_sum]
    exact sum_congr rfl fun a _ => by rw [star_mul', star_star]
  have hT : ∀ u : ℕ → 𝕜, ∑ z ∈ I, ‖∑ a ∈ range s.l, s.w a z.1 z.2.1 z.2.2.1 z.2.2.2 * u a‖ ^ 2 ≤ c ^ 2 * ∑ a ∈ range s.l, ‖u a‖ ^ 2 := by
    intro u
    rw [hI]
    simp only [Finset.sum_product]
    exact hs u
  have h2 := op_transpose (T := fun (z : ℕ × ℕ × ℕ × ℕ) a => s.w a z.1 z.2.1 z.2.2.1 z.2.2.2) hT
    fun z => ∑ b' ∈ range s.r, H z.1 z.2.2.2 b' * g z.1 z.2.1 z.2.2.1 b'
  have e : ∀ a, ∑ a' ∈ range s.l, s.coact H a a' * v a'
      = ∑ z ∈ I, (∑ b' ∈ range s.r, H z.1 z.2.2.2 b' * g z.1 z.2.1 z.2.2.1 b') * s.w a z.1 z.2.1 z.2.2.1 z.2.2.2 := by
    intro a
    rw [hI, hg]
    unfold KSite.coact
    simp only [Finset.sum_product]
    simp only [sum_mul, mul_sum]
    simp only [← sum_product']
    refine sum_nbij' (fun ⟨a', y, i, κ, b, b'⟩ => ⟨y, i, κ, b, b', a'⟩) (fun ⟨y, i, κ, b, b', a'⟩ => ⟨a', y, i, κ, b, b'⟩) ?_ ?_ ?_ ?_ ?_
    all_goals rintro ⟨x1, x2, x3, x4, x5, x6⟩ h
    all_goals simp only [mem_product] at h ⊢
    · tauto
    · tauto
    · ring
  simp only [e]
  refine h2.trans ?_
  have h3 : ∑ z ∈ I, ‖∑ b' ∈ range s.r, H z.1 z.2.2.2 b' * g z.1 z.2.1 z.2.2.1 b'‖ ^ 2 ≤ x ^ 2 * (c ^ 2 * ∑ a ∈ range s.l, ‖v a‖ ^ 2) := by
    rw [hI]
    simp only [Finset.sum_product]
    refine le_trans ?_ (mul_le_mul_of_nonneg_left h1 (sq_nonneg x))
    rw [mul_sum]
    refine sum_le_sum fun y hy => ?_
    rw [mul_sum]
    refine sum_le_sum fun i _ => ?_
    rw [mul_sum]
    exact sum_le_sum fun κ _ => hH y (mem_range.1 hy) (g y i κ)
  calc _ ≤ c ^ 2 * (x ^ 2 * (c ^ 2 * ∑ a ∈ range s.l, ‖v a‖ ^ 2)) := mul_le_mul_of_nonneg_left h3 (sq_nonneg _)
    _ = _ := by ring

/-- The matrix at the end of a segment, for the outcomes `Y`. -/
def outMat : List (KSite 𝕜) → List ℕ → (ℕ → ℕ → 𝕜) → ℕ → ℕ → 𝕜
  | s :: ss, y :: Y, E => outMat ss Y (s.act y E)
  | _, _, E => E

/-- The transpose of the map of a segment. -/
def coFold : List (KSite 𝕜) → (List ℕ → ℕ → ℕ → 𝕜) → ℕ → ℕ → 𝕜
  | [], G => G []
  | s :: ss, G => s.coact fun y => coFold ss fun Y => G (y :: Y)

theorem measSq_out (m : ℕ) : ∀ (ss : List (KSite 𝕜)) (E : ℕ → ℕ → 𝕜),
    measSq m ss E = sumIdx (ss.map KSite.o) fun Y => ∑ b ∈ range m, ∑ b' ∈ range m, ‖outMat ss Y E b b'‖ ^ 2
  | [], E => by simp [measSq, outMat]
  | s :: ss, E => by
    rw [measSq, List.map_cons, sumIdx_cons]
    exact sum_congr rfl fun y _ => measSq_out m ss _

theorem coFold_pair {m : ℕ} : ∀ {ss : List (KSite 𝕜)} {l : ℕ}, KChained l ss m → ∀ (G : List ℕ → ℕ → ℕ → 𝕜) (E : ℕ → ℕ → 𝕜),
    matPair l (coFold ss G) E = sumIdx (ss.map KSite.o) fun Y => matPair m (G Y) (outMat ss Y E)
  | [], l, hl, G, E => by
    obtain rfl : l = m := hl
    simp [coFold, outMat]
  | s :: ss, l, hl, G, E => by
    obtain ⟨rfl, hl⟩ := hl
    rw [coFold, coact_pair, List.map_cons, sumIdx_cons]
    exact sum_congr rfl fun y _ => coFold_pair hl _ _

theorem coFold_op {m : ℕ} {c x : ℝ} : ∀ {ss : List (KSite 𝕜)} {l : ℕ}, KChained l ss m → (∀ s ∈ ss, s.ROp c) →
    ∀ {G : List ℕ → ℕ → ℕ → 𝕜}, (∀ Y, InB Y (ss.map KSite.o) → MatOp m x (G Y)) → MatOp l ((c ^ ss.length) ^ 2 * x) (coFold ss G)
  | [], l, hl, _, G, h => by
    obtain rfl : l = m := hl
    simpa [coFold] using h [] (by simp)
  | s :: ss, l, hl, hs, G, h => by
    obtain ⟨rfl, hl⟩ := hl
    have := coact_op (hs s (by simp)) (x := (c ^ ss.length) ^ 2 * x) (H := fun y => coFold ss fun Y => G (y :: Y)) fun y hy =>
      coFold_op hl (fun t ht => hs t (by simp [ht])) fun Y hY => h (y :: Y) (List.Forall₂.cons hy hY)
    rw [coFold]
    convert this using 1
    rw [List.length_cons, pow_succ]
    ring

/-- The norm of the matrices for all outcomes of a chain of right-canonical sites. -/
theorem measSq_le_right {l m : ℕ} (E : ℕ → ℕ → 𝕜) {ss : List (KSite 𝕜)} {c : ℝ} (hs : ∀ s ∈ ss, s.ROp c) (hl : KChained l ss m) :
    measSq m ss E ≤ l * ((c ^ ss.length) ^ 2) ^ 2 * ∑ a ∈ range l, ∑ a' ∈ range l, ‖E a a'‖ ^ 2 := by
  set S := measSq m ss E with hS
  set C := (c ^ ss.length) ^ 2 with hC
  have hSo := measSq_out m ss E
  rw [← hS] at hSo
  have hS0 : 0 ≤ S := by
    rw [hSo, sumIdx_eq_sum]
    exact sum_nonneg fun _ _ => sum_nonneg fun _ _ => sum_nonneg fun _ _ => sq_nonneg _
  have hG : ∀ Y, InB Y (ss.map KSite.o) → MatOp m (Real.sqrt S) fun b b' => star (outMat ss Y E b b') := by
    intro Y hY v
    rw [Real.sq_sqrt hS0]
    have h1 : ∑ b ∈ range m, ∑ b' ∈ range m, ‖outMat ss Y E b b'‖ ^ 2 ≤ S := by
      rw [hSo, sumIdx_eq_sum]
      exact single_le_sum (f := fun Y => ∑ b ∈ range m, ∑ b' ∈ range m, ‖outMat ss Y E b b'‖ ^ 2)
        (fun _ _ => sum_nonneg fun _ _ => sum_nonneg fun _ _ => sq_nonneg _) (mem_idxSet.2 hY)
    refine le_trans ?_ (mul_le_mul_of_nonneg_right h1 (sum_nonneg fun _ _ => sq_nonneg _))
    rw [sum_mul]
    refine sum_le_sum fun b _ => ?_
    have := cauchy_sq (range m) (fun b' => star (outMat ss Y E b b')) v
    simpa only [norm_star] using this
  have hop := coFold_op hl hs hG
  have hF := frob_of_op (I := range l) hop
  have hp := coFold_pair hl (fun Y b b' => star (outMat ss Y E b b')) E
  have hp' : matPair l (coFold ss fun Y b b' => star (outMat ss Y E b b')) E = ((S : ℝ) : 𝕜) := by
    rw [hp, hSo, sumIdx_eq_sum, sumIdx_eq_sum]
    push_cast
    refine sum_congr rfl fun Y _ => sum_congr rfl fun b _ => sum_congr rfl fun b' _ => ?_
    rw [star_mul_self_eq]
    push_cast
    rfl
  have hcs := cauchy_sq (range l ×ˢ range l) (fun x => coFold ss (fun Y b b' => star (outMat ss Y E b b')) x.1 x.2) fun x => E x.1 x.2
  rw [Finset.sum_product, Finset.sum_product, Finset.sum_product] at hcs
  simp only at hcs
  unfold matPair at hp'
  rw [hp', RCLike.norm_ofReal, sq_abs] at hcs
  have hE : 0 ≤ ∑ a ∈ range l, ∑ a' ∈ range l, ‖E a a'‖ ^ 2 := sum_nonneg fun _ _ => sum_nonneg fun _ _ => sq_nonneg _
  have h2 : S ^ 2 ≤ l * C ^ 2 * (∑ a ∈ range l, ∑ a' ∈ range l, ‖E a a'‖ ^ 2) * S := by
    refine hcs.trans ((mul_le_mul_of_nonneg_right hF hE).trans (le_of_eq ?_))
    rw [mul_pow, Real.sq_sqrt hS0]
    ring
  rcases hS0.eq_or_lt with h0 | h0
  · rw [← h0]
    positivity
  · nlinarith

theorem measSq_append {m k : ℕ} {x : ℝ} {tt : List (KSite 𝕜)}
    (ht : ∀ F : ℕ → ℕ → 𝕜, measSq m tt F ≤ x * ∑ a ∈ range k, ∑ a' ∈ range k, ‖F a a'‖ ^ 2) :
    ∀ (ss : List (KSite 𝕜)) (E : ℕ → ℕ → 𝕜), measSq m (ss ++ tt) E ≤ x * measSq k ss E
  | [], E => by simpa [measSq] using ht E
  | s :: ss, E => by
    rw [List.cons_append, measSq, measSq, mul_sum]
    exact sum_le_sum fun y _ => measSq_append ht ss _

/-- All segments of a chain amplify norms at most by the factor `κ`. -/
structure KAmp (κ : ℝ) (l : ℕ) (qs : List (NDArray 𝕜 × NDArray 𝕜)) (ss : List (KSite 𝕜)) (m : ℕ) : Prop where
  kraus : List.Forall₂ IsKraus qs ss
  chain : KChained l ss m
  amp : ∀ p q l m, KChained l ((ss.drop p).take q) m → ∀ E : ℕ → ℕ → 𝕜,
    measSq m ((ss.drop p).take q) E ≤ κ ^ 2 * ∑ a ∈ range l, ∑ a' ∈ range l, ‖E a a'‖ ^ 2

theorem kchained_append {l m : ℕ} : ∀ {ss tt : List (KSite 𝕜)}, KChained l (ss ++ tt) m ↔ ∃ k, KChained l ss k ∧ KChained k tt m
  | [], tt => by simp [KChained]
  | s :: ss, tt => by
    simp only [List.cons_append, KChained]
    rw [kchained_append]
    constructor
    · rintro ⟨h, k, h1, h2⟩; exact ⟨k, ⟨h, h1⟩, h2⟩
    · rintro ⟨k, ⟨h, h1⟩, h2⟩; exact ⟨h, k, h1, h2⟩

theorem kchained_end {R : ℕ} : ∀ {ss : List (KSite 𝕜)} {l m : ℕ}, KChained l ss m → ss ≠ [] → (∀ s ∈ ss, s.r ≤ R) → m ≤ R
  | [], _, _, _, h, _ => absurd rfl h
  | [s], l, m, h, _, hr => by
    obtain ⟨_, h⟩ := h
    rw [← show s.r = m from h]
    exact hr s (by simp)
  | s :: t :: ss, l, m, h, _, hr => kchained_end h.2 (by simp) fun x hx => hr x (by simp [List.mem_cons.1 hx])

/-- A chain whose first part is left-canonical and whose second part is right-canonical, up to factors. -/
theorem kamp_mixed {κ c : ℝ} {R N l m : ℕ} {qs : List (NDArray 𝕜 × NDArray 𝕜)} {ss tt : List (KSite 𝕜)} (hR : 1 ≤ R) (hc : 1 ≤ c)
    (hκ : κ = R * (c ^ N) ^ 2) (kraus : List.Forall₂ IsKraus qs (ss ++ tt)) (chain : KChained l (ss ++ tt) m)
    (hN : (ss ++ tt).length ≤ N) (hs : ∀ s ∈ ss, s.Op c ∧ s.r ≤ R) (ht : ∀ s ∈ tt, s.ROp c ∧ s.l ≤ R) : KAmp κ l qs (ss ++ tt) m := by
  refine ⟨kraus, chain, fun p q l m hl E => ?_⟩
  set A := (ss.drop p).take q with hA
  set B := (tt.drop (p - ss.length)).take (q - (ss.drop p).length) with hB
  have e : ((ss ++ tt).drop p).take q = A ++ B := by rw [List.drop_append, List.take_append]
  rw [e] at hl ⊢
  obtain ⟨k, h1, h2⟩ := kchained_append.1 hl
  have hA' : ∀ s ∈ A, s.Op c ∧ s.r ≤ R := fun s h => hs s (List.mem_of_mem_drop (List.mem_of_mem_take h))
  have hB' : ∀ s ∈ B, s.ROp c ∧ s.l ≤ R := fun s h => ht s (List.mem_of_mem_drop (List.mem_of_mem_take h))
  have hlen : A.length + B.length ≤ N := by
    rw [← List.length_append, ← e, List.length_take, List.length_drop]
    omega
  have hR' : (1 : ℝ) ≤ R := by exact_mod_cast hR
  have hE : 0 ≤ ∑ a ∈ range l, ∑ a' ∈ range l, ‖E a a'‖ ^ 2 := sum_nonneg fun _ _ => sum_nonneg fun _ _ => sq_nonneg _
  have kA : measSq k A E ≤ R * ((c ^ A.length) ^ 2) ^ 2 * ∑ a ∈ range l, ∑ a' ∈ range l, ‖E a a'‖ ^ 2 := by
    by_cases hne : A = []
    · rw [hne] at h1 ⊢
      obtain rfl : l = k := h1
      simp only [measSq, List.length_nil, pow_zero, one_pow, mul_one]
      exact le_mul_of_one_le_left hE hR'
    · have hk := kchained_end h1 hne fun s h => (hA' s h).2
      have := measSq_le E (forall₂_replicate fun s h => (hA' s h).1) h1
      rw [List.prod_replicate] at this
      refine this.trans (mul_le_mul_of_nonneg_right (mul_le_mul_of_nonneg_right (by exact_mod_cast hk) (sq_nonneg _)) hE)
  have kB : ∀ F : ℕ → ℕ → 𝕜, measSq m B F ≤ R * ((c ^ B.length) ^ 2) ^ 2 * ∑ a ∈ range k, ∑ a' ∈ range k, ‖F a a'‖ ^ 2 := by
    intro F
    have hF : 0 ≤ ∑ a ∈ range k, ∑ a' ∈ range k, ‖F a a'‖ ^ 2 := sum_nonneg fun _ _ => sum_nonneg fun _ _ => sq_nonneg _
    by_cases hne : B = []
    · rw [hne] at h2 ⊢
      obtain rfl : k = m := h2
      simp only [measSq, List.length_nil, pow_zero, one_pow, mul_one]
      exact le_mul_of_one_le_left hF hR'
    · have hk : k ≤ R := by
        obtain ⟨s, B', e⟩ := List.exists_cons_of_ne_nil hne
        rw [e] at h2
        rw [← h2.1]
        exact (hB' s (by simp [e])).2
      refine (measSq_le_right F (fun s h => (hB' s h).1) h2).trans
        (mul_le_mul_of_nonneg_right (mul_le_mul_of_nonneg_right (by exact_mod_cast hk) (sq_nonneg _)) hF)
  calc _ ≤ R * ((c ^ B.length) ^ 2) ^ 2 * measSq k A E := measSq_append kB A E
    _ ≤ R * ((c ^ B.length) ^ 2) ^ 2 * (R * ((c ^ A.length) ^ 2) ^ 2 * ∑ a ∈ range l, ∑ a' ∈ range l, ‖E a a'‖ ^ 2) :=
        mul_le_mul_of_nonneg_left kA (by positivity)
    _ = (R * (c ^ (A.length + B.length)) ^ 2) ^ 2 * ∑ a ∈ range l, ∑ a' ∈ range l, ‖E a a'‖ ^ 2 := by ring
    _ ≤ _ := by
        rw [hκ]
        refine mul_le_mul_of_nonneg_right (pow_le_pow_left₀ (by positivity) ?_ 2) hE
        refine mul_le_mul_of_nonneg_left ?_ (by positivity)
        exact pow_le_pow_left₀ (by positivity) (pow_le_pow_right₀ hc hlen) 2

theorem KAmp.tail {κ : ℝ} {l m : ℕ} {q : NDArray 𝕜 × NDArray 𝕜} {qs : List (NDArray 𝕜 × NDArray 𝕜)} {s : KSite 𝕜} {ss : List (KSite 𝕜)}
    (h : KAmp κ l (q :: qs) (s :: ss) m) : KAmp κ s.r qs ss m := by
  refine ⟨(List.forall₂_cons.1 h.kraus).2, h.chain.2, fun p q l m hl E => ?_⟩
  exact h.amp (p + 1) q l m hl E

/-- The amplification of errors and of norms in the beginning of a list of sites. -/
theorem KAmp.prefix {κ : ℝ} (hκ : 0 ≤ κ) {l m : ℕ} {mid tail : List (NDArray 𝕜 × NDArray 𝕜)} {ss : List (KSite 𝕜)}
    (h : KAmp κ l (mid ++ tail) ss m) {P : ℕ} {p p' : NDArray 𝕜} (hp : p.shape = [P, 1, l, l]) (hp' : p'.shape = [P, 1, l, l]) :
    ∃ e e', mid.foldlM pmfStep p = .ok e ∧ mid.foldlM pmfStep p' = .ok e' ∧ e'.shape = e.shape ∧
      arrDist e e' ≤ κ * arrDist p p' ∧ npNorm e ≤ κ * npNorm p := by
  have hch := h.chain
  rw [← List.take_append_drop mid.length ss] at hch
  obtain ⟨k, hl, _⟩ := kchained_append.1 hch
  have hq : List.Forall₂ IsKraus mid (ss.take mid.length) := by
    have := List.forall₂_take mid.length h.kraus
    rwa [List.take_left] at this
  obtain ⟨c, c', N, h1, h2, h3, h4, h5⟩ := kraus_fold 1 hq hl hp hp'
  obtain ⟨c2, c2', N2, g1, g2, g3, g4, g5⟩ := kraus_fold 0 hq hl hp hp'
  obtain rfl : c2 = c := by rw [h1] at g1; exact (Except.ok.inj g1).symm
  obtain rfl : N2 = N := by rw [h3] at g3; exact (List.cons.inj g3).1.symm
  have key : ∀ E : ℕ → ℕ → ℕ → 𝕜, ∑ n ∈ range P, measSq k (ss.take mid.length) (E n)
      ≤ κ ^ 2 * ∑ n ∈ range P, ∑ a ∈ range l, ∑ a' ∈ range l, ‖E n a a'‖ ^ 2 := by
    intro E
    rw [mul_sum]
    exact sum_le_sum fun n _ => by simpa using h.amp 0 mid.length l k (by simpa using hl) (E n)
  refine ⟨c2, c', h1, h2, h4.trans h3.symm, ?_, ?_⟩
  · unfold arrDist
    rw [← Real.sqrt_sq hκ, ← Real.sqrt_mul (sq_nonneg _)]
    refine Real.sqrt_le_sqrt ?_
    rw [h3, hp, sum_idx4, sum_idx4]
    simp only [one_mul] at h5
    rw [h5]
    exact key fun n a a' => p.get [n, 0, a, a'] - p'.get [n, 0, a, a']
  · unfold npNorm
    rw [← Real.sqrt_sq hκ, ← Real.sqrt_mul (sq_nonneg _)]
    refine Real.sqrt_le_sqrt ?_
    rw [h3, hp, sum_idx4, sum_idx4]
    simp only [zero_mul, sub_zero] at g5
    rw [g5]
    exact key fun n a a' => p.get [n, 0, a, a']

/-- The error of the loop of `_pmf_as_array_pmps_ltr` grows with the number of sites as if every site added the same error. -/
theorem kamp_gron {ε : ℝ} (hε : 0 ≤ ε) {td : TDot 𝕜} (htd : TdNear ε td) {κ : ℝ} (hκ : 0 ≤ κ) {m : ℕ} {ν B : ℝ} :
    ∀ {qs : List (NDArray 𝕜 × NDArray 𝕜)} {ss : List (KSite 𝕜)} {l P : ℕ} {E I : NDArray 𝕜} {A : ℝ}, KAmp κ l qs ss m →
      (∀ q ∈ qs, npNorm q.1 * npNorm q.2 ^ 2 ≤ ν) → E.shape = [P, 1, l, l] → I.shape = [P, 1, l, l] →
      (∀ mid tail, qs = mid ++ tail → ∀ e i, mid.foldlM pmfStep E = .ok e → mid.foldlM pmfStep I = .ok i →
        npNorm e ≤ B ∧ arrDist e i ≤ A) →
      ∃ e i, qs.foldlM pmfStep E = .ok e ∧ qs.foldlM (pmfStepF td) I = .ok i ∧ i.shape = e.shape ∧
        arrDist e i ≤ (A + B) * (1 + κ * (((1 + ε) ^ 3 - 1) * ν)) ^ qs.length - B
  | [], ss, l, P, E, I, A, hg, hν, hE, hI, h => by
    refine ⟨E, I, rfl, rfl, hI.trans hE.symm, ?_⟩
    have := (h [] [] rfl E I rfl rfl).2
    simpa using this
  | q :: qs, ss, l, P, E, I, A, hg, hν, hE, hI, h => by
    set x := κ * (((1 + ε) ^ 3 - 1) * ν) with hx
    have h3 : (1 : ℝ) ≤ (1 + ε) ^ 3 := one_le_pow₀ (by linarith)
    have kr := hg.kraus
    cases kr with
    | cons hq kr =>
      rename_i s ss
      obtain ⟨rfl, hl⟩ := hg.chain
      obtain ⟨E', e1, e2, _⟩ := hq.step hE
      obtain ⟨J, j1, j2, _⟩ := hq.step hI
      obtain ⟨I', i1, i2⟩ := pmfStep_near hε htd (.refl I) j1
      rw [one_mul] at i2
      have hg' := hg.tail
      have hEI := h [] (q :: qs) rfl E I rfl rfl
      have hI1 : npNorm I ≤ A + B := (npNorm_le_add (hI.trans hE.symm)).trans (by linarith)
      have hv0 : 0 ≤ npNorm q.1 * npNorm q.2 ^ 2 := mul_nonneg (npNorm_nonneg' _) (sq_nonneg _)
      have hd : arrDist J I' ≤ ((1 + ε) ^ 3 - 1) * ν * (A + B) := by
        refine i2.dist.trans ?_
        have : npNorm I * (npNorm q.1 * npNorm q.2 ^ 2) ≤ (A + B) * ν :=
          mul_le_mul hI1 (hν q (by simp)) hv0 ((npNorm_nonneg' I).trans hI1)
        calc _ ≤ ((1 + ε) ^ 3 - 1) * ((A + B) * ν) := mul_le_mul_of_nonneg_left this (by linarith)
          _ = _ := by ring
      obtain ⟨e, i, g1, g2, g3, g4⟩ := kamp_gron (B := B) (A := A + x * (A + B)) hε htd hκ hg'
        (fun r hr => hν r (by simp [hr])) e2 (i2.shape.trans j2) (fun mid tail ht e i he hi => by
          subst ht
          obtain ⟨f, f', k1, k2, k3, k4, _⟩ := hg'.prefix hκ j2 (i2.shape.trans j2)
          rw [hi] at k2
          cases k2
          have := h (q :: mid) tail rfl e f (by rw [List.foldlM_cons, e1, ok_bind, he]) (by rw [List.foldlM_cons, j1, ok_bind, k1])
          refine ⟨this.1, ?_⟩
          have hsh : f.shape = e.shape := by
            obtain ⟨e0, f0, w1, w2, w3, _⟩ := hg'.prefix hκ e2 j2
            rw [he] at w1
            rw [k1] at w2
            cases w1
            cases w2
            exact w3
          calc arrDist e i ≤ arrDist e f + arrDist f i := arrDist_tri _ hsh
            _ ≤ A + κ * (((1 + ε) ^ 3 - 1) * ν * (A + B)) :=
                add_le_add this.2 (k4.trans (mul_le_mul_of_nonneg_left hd hκ))
            _ = _ := by rw [hx]; ring)
      refine ⟨e, i, by rw [List.foldlM_cons, e1, ok_bind, g1], by rw [List.foldlM_cons, i1, ok_bind, g2], g3, g4.trans (le_of_eq ?_)⟩
      rw [List.length_cons, pow_succ]
      ring

/-- The loop of `_pmf_as_array_pmps_ltr` for such a chain. -/
theorem kamp_partial {ε : ℝ} (hε : 0 ≤ ε) {td : TDot 𝕜} (htd : TdNear ε td) {κ : ℝ} (hκ : 0 ≤ κ) {m : ℕ} {ν : ℝ}
    {qs : List (NDArray 𝕜 × NDArray 𝕜)} {ss : List (KSite 𝕜)} (hg : KAmp κ 1 qs ss m)
    (hν : ∀ q ∈ qs, npNorm q.1 * npNorm q.2 ^ 2 ≤ ν) :
    ∃ e i, qs.foldlM pmfStep ⟨[1, 1, 1, 1], fun _ => 1⟩ = .ok e ∧ qs.foldlM (pmfStepF td) ⟨[1, 1, 1, 1], fun _ => 1⟩ = .ok i ∧
      Approx ((1 + κ * (((1 + ε) ^ 3 - 1) * ν)) ^ qs.length) κ e i := by
  have hone : (⟨[1, 1, 1, 1], fun _ => 1⟩ : NDArray 𝕜).shape = [1, 1, 1, 1] := rfl
  have hno : ∀ mid tail, qs = mid ++ tail → ∀ e, mid.foldlM pmfStep ⟨[1, 1, 1, 1], fun _ => 1⟩ = .ok e → npNorm e ≤ κ := by
    intro mid tail ht e he
    rw [ht] at hg
    obtain ⟨f, f', k1, _, _, _, k5⟩ := hg.prefix hκ hone hone
    rw [he] at k1
    cases k1
    rwa [npNorm_one, mul_one] at k5
  obtain ⟨e, i, g1, g2, g3, g4⟩ := kamp_gron (B := κ) (A := 0) hε htd hκ hg hν hone hone (by
    intro mid tail ht e i he hi
    have := hno mid tail ht e he
    rw [he] at hi
    cases hi
    exact ⟨this, le_of_eq (arrDist_self _)⟩)
  refine ⟨e, i, g1, g2, g3, hno qs [] (by simp) e g1, g4.trans (le_of_eq ?_)⟩
  ring

/-- Both ends: the errors of the two halves and of the last product. -/
theorem pmfSymmAt_approx {ε : ℝ} (hε : 0 ≤ ε) {td : TDot 𝕜} (htd : TdNear ε td) {x ψ : MPA 𝕜} {n : ℕ} {gl gr Nl Nr : ℝ}
    {c : NDArray 𝕜} (h : pmfSymmAt x ψ n = .ok c)
    (hL : ∀ left, mkPovm (x.lt.take n) = .ok left → ∃ e i, pmfLtrPartial left ψ = .ok e ∧ pmfLtrPartialF td left ψ = .ok i ∧ Approx gl Nl e i)
    (hR : ∀ right st right1 st1, mkPovm (x.lt.drop n) = .ok right → right.reverse = .ok right1 → mkMPA (ψ.lt.drop n) = .ok st →
      st.reverse = .ok st1 → ∃ e i, pmfLtrPartial right1 st1 = .ok e ∧ pmfLtrPartialF td right1 st1 = .ok i ∧ Approx gr Nr e i) :
    ∃ c', pmfSymmAtF td x ψ n = .ok c' ∧ Approx (gl * gr * (1 + ε)) (Nl * Nr) c c' := by
  unfold pmfSymmAt at h
  obtain ⟨left, h1, h⟩ := bind_ok_inv h
  obtain ⟨pl, h2, h⟩ := bind_ok_inv h
  obtain ⟨pl1, h3, h⟩ := bind_ok_inv h
  obtain ⟨right, h4, h⟩ := bind_ok_inv h
  obtain ⟨right1, h5, h⟩ := bind_ok_inv h
  obtain ⟨right2, h6, h⟩ := bind_ok_inv h
  obtain ⟨st, h7, h⟩ := bind_ok_inv h
  obtain ⟨st1, h8, h⟩ := bind_ok_inv h
  obtain ⟨pr, h9, h⟩ := bind_ok_inv h
  obtain ⟨u, h10, h⟩ := bind_ok_inv h
  obtain ⟨pr1, h11, h⟩ := bind_ok_inv h
  obtain ⟨pr2, h12, h⟩ := bind_ok_inv h
  obtain ⟨p, h13, h14⟩ := bind_ok_inv h
  have e2 : right2 = right1 := povmCheck_same h6
  rw [e2] at h6 h9
  obtain ⟨e, pl', g1, g2, k2⟩ := hL left h1
  rw [h2] at g1
  cases g1
  obtain ⟨pl1', g3, k3⟩ := k2.reshape h3
  obtain ⟨e, pr', g8, g9, k9⟩ := hR right st right1 st1 h4 h5 h7 h8
  rw [h9] at g8
  cases g8
  obtain ⟨pr1', g11, k11⟩ := k9.reshape h11
  obtain ⟨pr2', g12, k12⟩ := k11.transpose h12
  obtain ⟨p', g13, k13⟩ := k3.tensordot hε htd k12 h13
  obtain ⟨c', g14, k14⟩ := k13.reshape h14
  refine ⟨c', ?_, k14⟩
  unfold pmfSymmAtF
  rw [h1, ok_bind, g2, ok_bind, k2.shape, g3, ok_bind, h4, ok_bind, h5, ok_bind, h6, ok_bind, h7, ok_bind, h8, ok_bind, g9, ok_bind]
  simp only
  rw [k9.shape, h10, ok_bind, g11, ok_bind, show pr1'.ndim = pr1.ndim by unfold NDArray.ndim; rw [k11.shape], g12, ok_bind, g13,
    ok_bind, g14]

end Mpnum
