import Mathlib.Algebra.Field.GeomSum
import Mathlib.Algebra.Algebra.Basic
import Mathlib.Data.Complex.Basic
import Mathlib.LinearAlgebra.Matrix.NonsingularInverse
import Mathlib.Tactic

/-!
# Quadratic forms in Clifford generators on a ring with a twisted boundary

Helpers for C63: a quadratic expression in two families of anticommuting operators on a ring is diagonalised
by plane waves.
-/

namespace Mpnum

open Finset

variable {N : ℕ} {E : Type} [Ring E] [Algebra ℂ E]

/-- `a` and `b` are two families of anticommuting operators with square one. -/
structure Cliff (a b : Fin N → E) : Prop where
  aa : ∀ i j, a i * a j + a j * a i = if i = j then 2 else 0
  bb : ∀ i j, b i * b j + b j * b i = if i = j then 2 else 0
  ab : ∀ i j, a i * b j + b j * a i = 0

/-- A linear combination. -/
noncomputable def comb (w : Fin N → ℂ) (a : Fin N → E) : E := ∑ j, w j • a j

theorem comb_mul (v w : Fin N → ℂ) (a b : Fin N → E) :
    comb v a * comb w b = ∑ i, ∑ j, (v i * w j) • (a i * b j) := by
  unfold comb
  rw [Finset.sum_mul_sum]
  refine sum_congr rfl fun i _ => sum_congr rfl fun j _ => ?_
  rw [smul_mul_smul_comm]

theorem comb_anti {a b : Fin N → E} {c : Fin N → Fin N → E} (h : ∀ i j, a i * b j + b j * a i = c i j) (v w : Fin N → ℂ) :
    comb v a * comb w b + comb w b * comb v a = ∑ i, ∑ j, (v i * w j) • c i j := by
  rw [comb_mul, comb_mul, Finset.sum_comm (γ := Fin N) (s := univ) (t := univ) (f := fun i j => (w i * v j) • (b i * a j)),
    ← sum_add_distrib]
  refine sum_congr rfl fun i _ => ?_
  rw [← sum_add_distrib]
  refine sum_congr rfl fun j _ => ?_
  rw [← h i j, smul_add, mul_comm (w j)]

theorem comb_anti_delta {a b : Fin N → E} {c : ℂ} (h : ∀ i j, a i * b j + b j * a i = if i = j then c • 1 else 0)
    (v w : Fin N → ℂ) : comb v a * comb w b + comb w b * comb v a = (c * ∑ i, v i * w i) • 1 := by
  rw [comb_anti h]
  rw [mul_sum, sum_smul]
  refine sum_congr rfl fun i _ => ?_
  rw [sum_eq_single i]
  · rw [if_pos rfl, smul_smul, mul_comm]
  · intro j _ hj
    rw [if_neg (Ne.symm hj), smul_zero]
  · simp

theorem comb_anti_zero {a b : Fin N → E} (h : ∀ i j, a i * b j + b j * a i = 0) (v w : Fin N → ℂ) :
    comb v a * comb w b + comb w b * comb v a = 0 := by
  rw [comb_anti h]
  simp

/-- The plane waves of a ring of `N` sites on which a wave picks up the factor `q` when it goes around once. -/
structure Modes (N : ℕ) (q : ℂ) where
  om : Fin N → ℂ
  r : Fin N → Fin N
  pow : ∀ l, om l ^ N = q
  inj : ∀ l m, om l = om m → l = m
  ne : ∀ l, om l ≠ 0
  om_r : ∀ l, om (r l) = (om l)⁻¹

namespace Modes

variable {q : ℂ} (M : Modes N q)

theorem r_r (l : Fin N) : M.r (M.r l) = l := M.inj _ _ (by rw [M.om_r, M.om_r, inv_inv])

include M in
theorem q_ne (hN : N ≠ 0) : q ≠ 0 := by
  let l : Fin N := ⟨0, by omega⟩
  rw [← M.pow l]
  exact pow_ne_zero _ (M.ne l)

theorem orth (l m : Fin N) : ∑ j : Fin N, M.om l ^ (j : ℕ) * (M.om m)⁻¹ ^ (j : ℕ) = if l = m then (N : ℂ) else 0 := by
  have hN : N ≠ 0 := by have := l.2; omega
  simp only [← mul_pow]
  rw [Fin.sum_univ_eq_sum_range (fun j => (M.om l * (M.om m)⁻¹) ^ j)]
  split_ifs with h
  · subst h
    simp [mul_inv_cancel₀ (M.ne l)]
  · rw [geom_sum_eq]
    · rw [mul_pow, inv_pow, M.pow, M.pow, mul_inv_cancel₀ (M.q_ne hN)]
      simp
    · intro e
      exact h (M.inj _ _ (by rw [mul_inv_eq_one₀ (M.ne m)] at e; exact e))

theorem dual (i j : Fin N) : ∑ l : Fin N, M.om l ^ (i : ℕ) * (M.om l)⁻¹ ^ (j : ℕ) = if i = j then (N : ℂ) else 0 := by
  have hN : (N : ℂ) ≠ 0 := by have := i.2; exact_mod_cast (show N ≠ 0 by omega)
  let U : Matrix (Fin N) (Fin N) ℂ := fun l j => M.om l ^ (j : ℕ)
  let W : Matrix (Fin N) (Fin N) ℂ := fun j m => (N : ℂ)⁻¹ * (M.om m)⁻¹ ^ (j : ℕ)
  have h : U * W = 1 := by
    ext l m
    rw [Matrix.mul_apply, Matrix.one_apply]
    have := M.orth l m
    calc _ = (N : ℂ)⁻¹ * ∑ j : Fin N, M.om l ^ (j : ℕ) * (M.om m)⁻¹ ^ (j : ℕ) := by
          rw [mul_sum]; exact sum_congr rfl fun j _ => by simp only [U, W]; ring
      _ = _ := by rw [this]; split_ifs <;> simp [hN]
  have h2 : W * U = 1 := mul_eq_one_comm.1 h
  have h3 := congrFun (congrFun h2 j) i
  rw [Matrix.mul_apply, Matrix.one_apply] at h3
  calc _ = (N : ℂ) * ∑ l, W j l * U l i := by
        rw [mul_sum]
        exact sum_congr rfl fun l _ => by simp only [U, W]; field_simp
    _ = _ := by rw [h3]; simp only [eq_comm (a := j)]; split_ifs <;> simp

/-- The plane wave `l` in the family `a`. -/
noncomputable def P (l : Fin N) (a : Fin N → E) : E := comb (fun j => M.om l ^ (j : ℕ)) a

/-- The plane wave `-l` in the family `a`. -/
noncomputable def Q (l : Fin N) (a : Fin N → E) : E := comb (fun j => (M.om l)⁻¹ ^ (j : ℕ)) a

theorem P_r (l : Fin N) (a : Fin N → E) : M.P (M.r l) a = M.Q l a := by
  unfold P Q
  simp only [M.om_r]

theorem Q_r (l : Fin N) (a : Fin N → E) : M.Q (M.r l) a = M.P l a := by
  rw [← P_r, r_r]

/-- A sum over all waves in the reversed order. -/
theorem sum_r {X : Type} [AddCommMonoid X] (f : Fin N → X) : ∑ l, f (M.r l) = ∑ l, f l :=
  Equiv.sum_comp (⟨M.r, M.r, M.r_r, M.r_r⟩ : Fin N ≃ Fin N) f

/-- The family one site further, with the factor `q` at the boundary. -/
noncomputable def sh [NeZero N] (q : ℂ) (a : Fin N → E) (i : Fin N) : E :=
  if h : (i : ℕ) + 1 < N then a ⟨i + 1, h⟩ else q • a 0

theorem sh_eq [NeZero N] (a : Fin N → E) (i : Fin N) :
    (N : ℂ) • sh q a i = ∑ l, M.om l ^ ((i : ℕ) + 1) • M.Q l a := by
  have key : ∀ k : Fin N, ∑ l, M.om l ^ (k : ℕ) • M.Q l a = (N : ℂ) • a k := by
    intro k
    unfold Q comb
    simp only [smul_sum, smul_smul]
    rw [sum_comm]
    simp only [← sum_smul, M.dual]
    rw [sum_eq_single k]
    · rw [if_pos rfl]
    · intro j _ hj
      rw [if_neg (Ne.symm hj), zero_smul]
    · simp
  unfold sh
  split_ifs with h
  · rw [← key ⟨i + 1, h⟩]
  · have hi : (i : ℕ) + 1 = N := by have := i.2; omega
    rw [hi]
    simp only [M.pow]
    rw [← smul_sum, smul_comm, ← key 0]
    simp

/-- The dispersion. -/
noncomputable def mu (g : ℂ) (l : Fin N) : ℂ := ((1 + g) * M.om l + (1 - g) * (M.om l)⁻¹) / 2

theorem hop [NeZero N] (a b : Fin N → E) (g : ℂ) :
    (N : ℂ) • ∑ i, ((1 + g) • (sh q a i * b i) + (1 - g) • (a i * sh q b i))
      = ∑ l, (2 * M.mu g l) • (M.Q l a * M.P l b) := by
  have h1 : (N : ℂ) • ∑ i, sh q a i * b i = ∑ l, M.om l • (M.Q l a * M.P l b) := by
    rw [smul_sum]
    simp only [← smul_mul_assoc, M.sh_eq, sum_mul]
    rw [sum_comm]
    refine sum_congr rfl fun l _ => ?_
    unfold P comb
    rw [mul_sum, ]
    refine sum_congr rfl fun i _ => ?_
    simp only [smul_mul_assoc, mul_smul_comm, smul_smul]
    rw [pow_succ]
  have h2 : (N : ℂ) • ∑ i, a i * sh q b i = ∑ l, (M.om l)⁻¹ • (M.Q l a * M.P l b) := by
    rw [smul_sum, ← M.sum_r fun l => (M.om l)⁻¹ • (M.Q l a * M.P l b)]
    simp only [← mul_smul_comm, M.sh_eq, mul_sum]
    rw [sum_comm]
    refine sum_congr rfl fun l _ => ?_
    rw [M.P_r, M.Q_r, M.om_r, inv_inv]
    unfold P comb
    simp only [mul_smul_comm]
    rw [sum_mul, smul_sum]
    refine sum_congr rfl fun i _ => ?_
    simp only [smul_mul_assoc, mul_smul_comm, smul_smul]
    rw [pow_succ']
  rw [sum_add_distrib, ← smul_sum, ← smul_sum, smul_add, smul_comm, h1, smul_comm, h2, smul_sum, smul_sum, ← sum_add_distrib]
  refine sum_congr rfl fun l _ => ?_
  rw [smul_smul, smul_smul, ← add_smul]
  congr 1
  unfold mu
  ring

/-- The operators in which the quadratic form is a sum of squares. -/
noncomputable def T (u : Fin N → ℂ) (a b : Fin N → E) (l : Fin N) : E := M.P l a + u l • M.P l b

/-- Their adjoints. -/
noncomputable def Td (v : Fin N → ℂ) (a b : Fin N → E) (l : Fin N) : E := M.Q l a + v l • M.Q l b

/-- The quadratic form on the ring. -/
noncomputable def quad [NeZero N] (q g : ℂ) (a b : Fin N → E) : E :=
  (Complex.I / 4) • ∑ i, ((1 + g) • (sh q a i * b i) + (1 - g) • (a i * sh q b i))

theorem PQ {a b : Fin N → E} (h : ∀ i j, a i * a j + a j * a i = if i = j then 2 else 0) (l : Fin N) :
    M.Q l a * M.P l a + M.P l a * M.Q l a = (2 * N : ℂ) • 1 := by
  unfold P Q
  rw [comb_anti_delta (c := 2)]
  · congr 2
    rw [sum_congr rfl fun i _ => mul_comm _ _, M.orth l l, if_pos rfl]
  · intro i j
    rw [h i j]
    split_ifs
    · rw [← Algebra.algebraMap_eq_smul_one]; exact (map_ofNat (algebraMap ℂ E) 2).symm
    · rfl

theorem sum_QP {a : Fin N → E} (h : ∀ i j, a i * a j + a j * a i = if i = j then 2 else 0) {lam : Fin N → ℂ}
    (hl : ∀ l, lam (M.r l) = lam l) : ∑ l, lam l • (M.Q l a * M.P l a) = (N * ∑ l, lam l) • 1 := by
  have h1 : ∑ l, lam l • (M.Q l a * M.P l a) = ∑ l, lam l • (M.P l a * M.Q l a) := by
    rw [← M.sum_r]
    refine sum_congr rfl fun l _ => ?_
    rw [M.P_r, M.Q_r, hl]
  have h2 : (2 : ℂ) • ∑ l, lam l • (M.Q l a * M.P l a) = (2 : ℂ) • (N * ∑ l, lam l) • (1 : E) := by
    rw [two_smul]
    nth_rw 2 [h1]
    rw [← sum_add_distrib]
    simp only [← smul_add, M.PQ (b := a) h, smul_smul, ← sum_smul]
    congr 1
    rw [← sum_mul]
    ring
  have := congrArg (fun x => (2 : ℂ)⁻¹ • x) h2
  simpa using this

/-- The quadratic form is a constant plus a sum of squares. -/
theorem quad_squares [NeZero N] {a b : Fin N → E} (hab : Cliff a b) {g : ℂ} {lam u v : Fin N → ℂ}
    (hl : ∀ l, lam (M.r l) = lam l) (hu : ∀ l, lam l * u l = Complex.I * M.mu g l)
    (huv : ∀ l, lam l * (u l * v l) = lam l) (hv : ∀ l, v (M.r l) = - u l) :
    ∑ l, lam l • (M.Td v a b l * M.T u a b l) = (2 * N * ∑ l, lam l) • 1 + (4 * N : ℂ) • quad q g a b := by
  have e : ∀ l, lam l • (M.Td v a b l * M.T u a b l) = lam l • (M.Q l a * M.P l a) + lam l • (M.Q l b * M.P l b)
      + (lam l * u l) • (M.Q l a * M.P l b) + (lam l * v l) • (M.Q l b * M.P l a) := by
    intro l
    unfold T Td
    rw [add_mul, mul_add, mul_add]
    simp only [smul_mul_assoc, mul_smul_comm, smul_smul, smul_add]
    rw [show lam l * (u l * v l) = lam l from huv l]
    abel
  have e2 : ∑ l, (lam l * v l) • (M.Q l b * M.P l a) = ∑ l, (lam l * u l) • (M.Q l a * M.P l b) := by
    rw [← M.sum_r]
    refine sum_congr rfl fun l _ => ?_
    rw [M.P_r, M.Q_r, hl, hv, mul_neg, neg_smul, ← smul_neg]
    congr 1
    rw [neg_eq_iff_add_eq_zero, add_comm]
    exact comb_anti_zero hab.ab _ _
  simp only [e, sum_add_distrib]
  rw [e2, M.sum_QP hab.aa hl, M.sum_QP hab.bb hl]
  have e3 : (4 * N : ℂ) • quad q g a b = ∑ l, (2 * (lam l * u l)) • (M.Q l a * M.P l b) := by
    unfold quad
    rw [smul_smul, show (4 * N : ℂ) * (Complex.I / 4) = Complex.I * N by ring, mul_smul, M.hop, smul_sum]
    refine sum_congr rfl fun l _ => ?_
    rw [smul_smul, hu]
    congr 1
    ring
  rw [e3, ← add_smul, add_assoc, ← sum_add_distrib]
  congr 1
  · congr 1
    ring
  · refine sum_congr rfl fun l _ => ?_
    rw [← add_smul, two_mul]

/-! ### The state that all `T` annihilate -/

section State

variable {V : Type} [AddCommGroup V] [Module ℂ V] {a b : Fin N → Module.End ℂ V}

/-- The annihilation operator of the wave `m`. -/
noncomputable def K (a b : Fin N → E) (m : Fin N) : E := M.Q m a + Complex.I • M.Q m b

theorem cliff_comb_a {a b : Fin N → E} (h : Cliff a b) (v w : Fin N → ℂ) :
    comb v a * comb w a + comb w a * comb v a = (2 * ∑ i, v i * w i) • 1 := by
  refine comb_anti_delta (c := 2) (fun i j => ?_) v w
  rw [h.aa i j]
  split_ifs
  · rw [← Algebra.algebraMap_eq_smul_one]; exact (map_ofNat (algebraMap ℂ E) 2).symm
  · rfl

theorem cliff_comb_b {a b : Fin N → E} (h : Cliff a b) (v w : Fin N → ℂ) :
    comb v b * comb w b + comb w b * comb v b = (2 * ∑ i, v i * w i) • 1 := by
  refine comb_anti_delta (c := 2) (fun i j => ?_) v w
  rw [h.bb i j]
  split_ifs
  · rw [← Algebra.algebraMap_eq_smul_one]; exact (map_ofNat (algebraMap ℂ E) 2).symm
  · rfl

/-- The anticommutator of two linear combinations of all generators. -/
theorem cliff_anti {a b : Fin N → E} (h : Cliff a b) (v w : Fin N → ℂ) (x y : ℂ) :
    (comb v a + x • comb v b) * (comb w a + y • comb w b) + (comb w a + y • comb w b) * (comb v a + x • comb v b)
      = (2 * (∑ i, v i * w i) * (1 + x * y)) • 1 := by
  have h1 := cliff_comb_a h v w
  have h2 := cliff_comb_b h v w
  have h3 := comb_anti_zero h.ab v w
  have h4 := comb_anti_zero h.ab w v
  calc _ = (comb v a * comb w a + comb w a * comb v a) + (x * y) • (comb v b * comb w b + comb w b * comb v b)
      + y • (comb v a * comb w b + comb w b * comb v a) + x • (comb w a * comb v b + comb v b * comb w a) := by
        simp only [add_mul, mul_add, smul_mul_assoc, mul_smul_comm, smul_smul, smul_add]
        rw [mul_comm y x]
        abel
    _ = _ := by
        rw [h1, h2, h3, h4, smul_smul, ← add_smul]
        simp only [smul_zero, add_zero]
        congr 1
        ring

theorem KT {a b : Fin N → E} (h : Cliff a b) (u : Fin N → ℂ) (m l : Fin N) :
    M.K a b m * M.T u a b l + M.T u a b l * M.K a b m = (if m = l then 2 * N * (1 + Complex.I * u l) else 0 : ℂ) • 1 := by
  unfold K T P Q
  rw [cliff_anti h]
  congr 1
  rw [sum_congr rfl fun i _ => mul_comm _ _, M.orth l m]
  simp only [eq_comm (a := m)]
  split_ifs <;> ring

theorem TT {a b : Fin N → E} (h : Cliff a b) {u : Fin N → ℂ} (hu : ∀ l, u l * u (M.r l) = -1) (m l : Fin N) :
    M.T u a b m * M.T u a b l + M.T u a b l * M.T u a b m = 0 := by
  unfold T P
  rw [cliff_anti h]
  have := M.orth m (M.r l)
  rw [M.om_r, inv_inv] at this
  rw [this]
  split_ifs with e
  · rw [e, mul_comm (u (M.r l)), hu]
    simp
  · simp

theorem TT_self {a b : Fin N → E} (h : Cliff a b) {u : Fin N → ℂ} (hu : ∀ l, u l * u (M.r l) = -1) (l : Fin N) :
    M.T u a b l * M.T u a b l = 0 := by
  have := M.TT h hu l l
  rw [← two_smul ℂ] at this
  exact (smul_eq_zero.1 this).resolve_left two_ne_zero

/-- The product of the `T` of a list of waves, applied to a vector. -/
noncomputable def prodT (u : Fin N → ℂ) (a b : Fin N → Module.End ℂ V) (Om : V) : List (Fin N) → V
  | [] => Om
  | l :: L => M.T u a b l (prodT u a b Om L)

theorem end_anti {x y : Module.End ℂ V} {c : ℂ} (h : x * y + y * x = c • 1) (w : V) : x (y w) = c • w - y (x w) := by
  have := congrArg (fun f : Module.End ℂ V => f w) h
  simp only [LinearMap.add_apply, Module.End.mul_apply, LinearMap.smul_apply, Module.End.one_apply] at this
  rw [← this]
  abel

theorem K_prodT (h : Cliff a b) {u : Fin N → ℂ} {Om : V} (hO : ∀ m, M.K a b m Om = 0) {m : Fin N} :
    ∀ L : List (Fin N), m ∉ L → M.K a b m (M.prodT u a b Om L) = 0
  | [], _ => hO m
  | l :: L, hm => by
    rw [List.mem_cons, not_or] at hm
    rw [prodT, end_anti (M.KT h u m l), if_neg hm.1, K_prodT h hO L hm.2]
    simp

theorem prodT_ne (h : Cliff a b) {u : Fin N → ℂ} {Om : V} (hO : ∀ m, M.K a b m Om = 0) (hne : Om ≠ 0) :
    ∀ L : List (Fin N), L.Nodup → (∀ l ∈ L, 1 + Complex.I * u l ≠ 0) → M.prodT u a b Om L ≠ 0
  | [], _, _ => hne
  | l :: L, hd, hu => by
    rw [List.nodup_cons] at hd
    intro e
    have := end_anti (M.KT h u l l) (M.prodT u a b Om L)
    rw [prodT] at e
    rw [e, M.K_prodT h hO L hd.1, if_pos rfl, map_zero, map_zero, sub_zero] at this
    have hN : (N : ℂ) ≠ 0 := by have := l.2; exact_mod_cast (show N ≠ 0 by omega)
    rcases smul_eq_zero.1 this.symm with h0 | h0
    · exact mul_ne_zero (mul_ne_zero two_ne_zero hN) (hu l (by simp)) h0
    · exact prodT_ne h hO hne L hd.2 (fun l hl => hu l (by simp [hl])) h0

theorem T_prodT (h : Cliff a b) {u : Fin N → ℂ} {Om : V} (hu : ∀ l, u l * u (M.r l) = -1) {m : Fin N} :
    ∀ L : List (Fin N), m ∈ L → M.T u a b m (M.prodT u a b Om L) = 0
  | l :: L, hm => by
    rw [prodT]
    by_cases e : m = l
    · subst e
      rw [← Module.End.mul_apply, M.TT_self h hu]
      rfl
    · have hm' : m ∈ L := by simpa [e] using hm
      rw [end_anti (c := 0) (by rw [zero_smul]; exact M.TT h hu m l), T_prodT h hu L hm']
      simp

/-- There is a vector that all `T` annihilate; it is the product of the `T` of the waves with `u l ≠ i`. -/
theorem exists_ground (h : Cliff a b) {u : Fin N → ℂ} {Om : V} (hO : ∀ m, M.K a b m Om = 0) (hne : Om ≠ 0)
    (hu : ∀ l, u l * u (M.r l) = -1) {L : List (Fin N)} (hL : ∀ l, l ∈ L ↔ u l ≠ Complex.I) (hd : L.Nodup) :
    M.prodT u a b Om L ≠ 0 ∧ ∀ l, M.T u a b l (M.prodT u a b Om L) = 0 := by
  refine ⟨M.prodT_ne h hO hne L hd fun l hl e => (hL l).1 hl ?_, fun l => ?_⟩
  · have : Complex.I * (1 + Complex.I * u l) = 0 := by rw [e, mul_zero]
    have h2 : Complex.I * (1 + Complex.I * u l) = Complex.I - u l := by
      rw [mul_add, ← mul_assoc, Complex.I_mul_I]; ring
    rw [h2] at this
    exact (sub_eq_zero.1 this).symm
  · by_cases hl : l ∈ L
    · exact M.T_prodT h hu L hl
    · have e : u l = Complex.I := by
        by_contra e
        exact hl ((hL l).2 e)
      have e2 : u (M.r l) = Complex.I := by
        have := hu l
        rw [e] at this
        have h2 : Complex.I * (Complex.I * u (M.r l)) = - Complex.I := by rw [this]; ring
        rw [← mul_assoc, Complex.I_mul_I] at h2
        linear_combination -h2
      have : M.T u a b l = M.K a b (M.r l) := by
        unfold T K
        rw [M.Q_r, M.Q_r, e]
      rw [this]
      exact M.K_prodT h hO L fun h' => (hL _).1 h' e2

end State

end Modes

end Mpnum
