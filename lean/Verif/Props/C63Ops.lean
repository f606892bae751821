import Verif.Props.C63Alg
import Mathlib.Analysis.Complex.Basic

/-!
# The operators of the cyclic XY model on spin configurations

Helpers for C63: the Jordan-Wigner operators of a chain of spins one-half, and the Hamiltonian of the cyclic XY
model in terms of them.
-/

namespace Mpnum

namespace XY

open Finset Modes

variable {N : ℕ}

/-- Configurations of `N` spins. -/
abbrev Cfg (N : ℕ) := Fin N → Bool

/-- Vectors. -/
abbrev Vec (N : ℕ) := Cfg N → ℂ

/-- The eigenvalue of `σ^z`. -/
def zz (x : Bool) : ℂ := cond x (-1) 1

@[simp] theorem zz_not (x : Bool) : zz (!x) = - zz x := by cases x <;> simp [zz]
@[simp] theorem zz_mul (x : Bool) : zz x * zz x = 1 := by cases x <;> simp [zz]
@[simp] theorem zz_conj (x : Bool) : (starRingEnd ℂ) (zz x) = zz x := by cases x <;> simp [zz]

/-- Flip the spin at `j`. -/
def flip (j : Fin N) (s : Cfg N) : Cfg N := Function.update s j (!s j)

theorem flip_same (j : Fin N) (s : Cfg N) : flip j s j = !s j := by simp [flip]

theorem flip_ne {i j : Fin N} (h : i ≠ j) (s : Cfg N) : flip j s i = s i := by simp [flip, h]

theorem flip_flip (j : Fin N) (s : Cfg N) : flip j (flip j s) = s := by
  funext i
  by_cases h : i = j
  · subst h; simp [flip_same]
  · rw [flip_ne h, flip_ne h]

theorem flip_comm (i j : Fin N) (s : Cfg N) : flip i (flip j s) = flip j (flip i s) := by
  by_cases h : i = j
  · rw [h]
  funext k
  by_cases hi : k = i
  · subst hi
    rw [flip_same, flip_ne h, flip_ne h, flip_same]
  · by_cases hj : k = j
    · subst hj
      rw [flip_ne hi, flip_same, flip_same, flip_ne hi]
    · rw [flip_ne hi, flip_ne hj, flip_ne hj, flip_ne hi]

/-- The product of the `σ^z` of the first `k` spins. -/
def sg (k : ℕ) (s : Cfg N) : ℂ := ∏ l : Fin N, if (l : ℕ) < k then zz (s l) else 1

theorem sg_mul (k : ℕ) (s : Cfg N) : sg k s * sg k s = 1 := by
  unfold sg
  rw [← prod_mul_distrib]
  refine prod_eq_one fun l _ => ?_
  split_ifs <;> simp

theorem sg_conj (k : ℕ) (s : Cfg N) : (starRingEnd ℂ) (sg k s) = sg k s := by
  unfold sg
  rw [map_prod]
  refine prod_congr rfl fun l _ => ?_
  split_ifs <;> simp

theorem sg_zero (s : Cfg N) : sg 0 s = 1 := by simp [sg]

theorem sg_succ (i : Fin N) (s : Cfg N) : sg ((i : ℕ) + 1) s = sg i s * zz (s i) := by
  unfold sg
  rw [← mul_prod_erase univ _ (mem_univ i), ← mul_prod_erase univ (fun l : Fin N => if (l : ℕ) < i then _ else _) (mem_univ i),
    if_pos (Nat.lt_succ_self _), if_neg (lt_irrefl _), one_mul, mul_comm]
  congr 1
  refine prod_congr rfl fun l hl => ?_
  have : (l : ℕ) ≠ i := fun h => (mem_erase.1 hl).1 (Fin.ext h)
  by_cases h : (l : ℕ) < i
  · rw [if_pos h, if_pos (by omega)]
  · rw [if_neg h, if_neg (by omega)]

theorem sg_flip (k : ℕ) (i : Fin N) (s : Cfg N) : sg k (flip i s) = if (i : ℕ) < k then - sg k s else sg k s := by
  have e : ∏ l ∈ univ.erase i, (if (l : ℕ) < k then zz (flip i s l) else 1) = ∏ l ∈ univ.erase i, (if (l : ℕ) < k then zz (s l) else 1) := by
    refine prod_congr rfl fun l hl => ?_
    rw [flip_ne (mem_erase.1 hl).1]
  unfold sg
  rw [← mul_prod_erase univ _ (mem_univ i), e, ← mul_prod_erase univ (fun l : Fin N => if (l : ℕ) < k then zz (s l) else 1) (mem_univ i), flip_same]
  split_ifs <;> simp

/-- Flip a spin with a factor that depends on the configuration. -/
def op (φ : Cfg N → ℂ) (j : Fin N) : Module.End ℂ (Vec N) where
  toFun f s := φ s * f (flip j s)
  map_add' f g := by funext s; simp [mul_add]
  map_smul' c f := by funext s; simp; ring

/-- The two Jordan-Wigner families `(σ^z ⋯ σ^z) σ^x` and `(σ^z ⋯ σ^z) σ^y`. -/
noncomputable def ma (j : Fin N) : Module.End ℂ (Vec N) := op (fun s => sg j s) j

noncomputable def mb (j : Fin N) : Module.End ℂ (Vec N) := op (fun s => -Complex.I * zz (s j) * sg j s) j

theorem op_mul_apply (φ ψ : Cfg N → ℂ) (i j : Fin N) (f : Vec N) (s : Cfg N) :
    (op φ i * op ψ j) f s = φ s * ψ (flip i s) * f (flip j (flip i s)) := by
  simp [op, mul_assoc]

theorem op_anti {φ ψ : Cfg N → ℂ} {i j : Fin N} {c : ℂ}
    (h : ∀ s, φ s * ψ (flip i s) + ψ s * φ (flip j s) = c) (hc : i ≠ j → c = 0) : op φ i * op ψ j + op ψ j * op φ i = c • 1 := by
  refine LinearMap.ext fun f => funext fun s => ?_
  rw [LinearMap.add_apply, Pi.add_apply, op_mul_apply, op_mul_apply, flip_comm i j, ← add_mul, h s]
  by_cases e : i = j
  · subst e
    rw [flip_flip]; rfl
  · rw [hc e]; simp

theorem cliff : Cliff (ma (N := N)) mb := by
  have two : (2 : ℂ) • (1 : Module.End ℂ (Vec N)) = 2 := by
    rw [← Algebra.algebraMap_eq_smul_one]; exact map_ofNat (algebraMap ℂ _) 2
  refine ⟨fun i j => ?_, fun i j => ?_, fun i j => ?_⟩
  · unfold ma
    split_ifs with h
    · subst h
      rw [← two]
      refine op_anti (fun s => ?_) (by simp)
      rw [sg_flip, if_neg (lt_irrefl _), sg_mul]; norm_num
    · rw [← zero_smul ℂ (1 : Module.End ℂ (Vec N))]
      refine op_anti (fun s => ?_) (fun _ => rfl)
      rw [sg_flip, sg_flip]
      have : (i : ℕ) ≠ j := fun e => h (Fin.ext e)
      split_ifs <;> first | omega | ring
  · unfold mb
    split_ifs with h
    · subst h
      rw [← two]
      refine op_anti (fun s => ?_) (by simp)
      rw [sg_flip, if_neg (lt_irrefl _), flip_same, zz_not]
      have h1 := sg_mul i s
      have h2 := zz_mul (s i)
      have h3 := Complex.I_mul_I
      linear_combination (-2 * Complex.I * Complex.I * (zz (s i) * zz (s i))) * h1 - 2 * Complex.I * Complex.I * h2 - 2 * h3
    · rw [← zero_smul ℂ (1 : Module.End ℂ (Vec N))]
      refine op_anti (fun s => ?_) (fun _ => rfl)
      rw [sg_flip, sg_flip, flip_ne h, flip_ne (Ne.symm h)]
      have : (i : ℕ) ≠ j := fun e => h (Fin.ext e)
      split_ifs <;> first | omega | ring
  · unfold ma mb
    rw [← zero_smul ℂ (1 : Module.End ℂ (Vec N))]
    refine op_anti (fun s => ?_) (fun _ => rfl)
    rw [sg_flip, sg_flip]
    by_cases h : i = j
    · subst h
      rw [if_neg (lt_irrefl _), flip_same, zz_not]
      ring
    · rw [flip_ne (Ne.symm h)]
      have : (i : ℕ) ≠ j := fun e => h (Fin.ext e)
      split_ifs <;> first | omega | ring

/-- All spins up. -/
def vac : Vec N := fun s => if s = fun _ => false then 1 else 0

theorem vac_ne : (vac : Vec N) ≠ 0 := by
  intro h
  have := congrFun h (fun _ => false)
  simp [vac] at this

theorem K_vac {q : ℂ} (M : Modes N q) (m : Fin N) : M.K ma mb m vac = 0 := by
  have h : ∀ j : Fin N, ma j vac + Complex.I • mb j vac = (0 : Vec N) := by
    intro j
    funext s
    simp only [ma, mb, op, LinearMap.coe_mk, AddHom.coe_mk, Pi.add_apply, Pi.smul_apply, smul_eq_mul, Pi.zero_apply]
    by_cases e : flip j s = fun _ => false
    · have : s j = true := by
        have := congrFun e j
        rw [flip_same] at this
        simpa using this
      rw [this]
      simp only [zz, cond_true]
      have h3 := Complex.I_mul_I
      linear_combination sg j s * vac (flip j s) * h3
    · have : vac (flip j s) = 0 := by simp [vac, e]
      rw [this]
      ring
  unfold K Q comb
  rw [LinearMap.add_apply, LinearMap.smul_apply, LinearMap.sum_apply, LinearMap.sum_apply, smul_sum, ← sum_add_distrib]
  refine sum_eq_zero fun j _ => ?_
  rw [LinearMap.smul_apply, LinearMap.smul_apply, smul_comm, ← smul_add, h j, smul_zero]

/-! ### Parity -/

/-- The product of all `σ^z`. -/
def par : Module.End ℂ (Vec N) where
  toFun f s := sg N s * f s
  map_add' f g := by funext s; simp [mul_add]
  map_smul' c f := by funext s; simp; ring

theorem par_par (f : Vec N) : par (par f) = f := by
  funext s
  change sg N s * (sg N s * f s) = f s
  rw [← mul_assoc, sg_mul, one_mul]

theorem par_op (φ : Cfg N → ℂ) (j : Fin N) (f : Vec N) : par (op φ j f) = - op φ j (par f) := by
  funext s
  change sg N s * (φ s * f (flip j s)) = - (φ s * (sg N (flip j s) * f (flip j s)))
  rw [sg_flip, if_pos j.2]
  ring

theorem par_comb (φ : Fin N → Cfg N → ℂ) (w : Fin N → ℂ) (f : Vec N) :
    par (comb w (fun j => op (φ j) j) f) = - comb w (fun j => op (φ j) j) (par f) := by
  unfold comb
  rw [LinearMap.sum_apply, LinearMap.sum_apply, map_sum, ← sum_neg_distrib]
  refine sum_congr rfl fun j _ => ?_
  rw [LinearMap.smul_apply, map_smul, par_op, LinearMap.smul_apply, smul_neg]

theorem par_T {q : ℂ} (M : Modes N q) (u : Fin N → ℂ) (l : Fin N) (f : Vec N) :
    par (M.T u ma mb l f) = - M.T u ma mb l (par f) := by
  unfold T P
  rw [LinearMap.add_apply, map_add, LinearMap.smul_apply, map_smul, LinearMap.add_apply, LinearMap.smul_apply]
  have h1 := par_comb (N := N) (fun j s => sg j s) (fun j => M.om l ^ (j : ℕ)) f
  have h2 := par_comb (N := N) (fun j s => -Complex.I * zz (s j) * sg j s) (fun j => M.om l ^ (j : ℕ)) f
  rw [show (fun j : Fin N => op (fun s => sg j s) j) = ma from rfl] at h1
  rw [show (fun j : Fin N => op (fun s => -Complex.I * zz (s j) * sg j s) j) = mb from rfl] at h2
  rw [h1, h2, smul_neg, neg_add]

theorem par_vac : par (vac : Vec N) = vac := by
  funext s
  change sg N s * vac s = vac s
  by_cases h : s = fun _ => false
  · subst h
    have : sg N (fun _ : Fin N => false) = 1 := by
      unfold sg
      exact prod_eq_one fun l _ => by split_ifs <;> rfl
    rw [this, one_mul]
  · have : vac s = 0 := by simp [vac, h]
    rw [this, mul_zero]

theorem par_prodT {q : ℂ} (M : Modes N q) (u : Fin N → ℂ) : ∀ L : List (Fin N),
    par (M.prodT u ma mb vac L) = (-1 : ℂ) ^ L.length • M.prodT u ma mb vac L
  | [] => by simp [prodT, par_vac]
  | l :: L => by
    rw [prodT, par_T, par_prodT M u L, map_smul, List.length_cons, pow_succ, mul_neg_one, neg_smul]

/-! ### The Hamiltonian -/

/-- The Hamiltonian of the cyclic XY model. -/
noncomputable def ham [NeZero N] (g : ℂ) : Module.End ℂ (Vec N) where
  toFun f s := ∑ i : Fin N, ((1 + g) / 4 * f (flip i (flip (i + 1) s)) - (1 - g) / 4 * (zz (s i) * zz (s (i + 1)) * f (flip i (flip (i + 1) s))))
  map_add' f g := by
    funext s
    rw [Pi.add_apply, ← sum_add_distrib]
    exact sum_congr rfl fun i _ => by simp only [Pi.add_apply]; ring
  map_smul' c f := by
    funext s
    simp only [RingHom.id_apply, Pi.smul_apply, smul_eq_mul]
    rw [mul_sum]
    exact sum_congr rfl fun i _ => by ring

theorem par_ham [NeZero N] (g : ℂ) (f : Vec N) : par (ham g f) = ham g (par f) := by
  funext s
  change sg N s * ∑ i : Fin N, _ = ∑ i : Fin N, _
  rw [mul_sum]
  refine sum_congr rfl fun i _ => ?_
  change _ = (1 + g) / 4 * (sg N (flip i (flip (i + 1) s)) * f (flip i (flip (i + 1) s))) - (1 - g) / 4 * (zz (s i) * zz (s (i + 1)) * (sg N (flip i (flip (i + 1) s)) * f (flip i (flip (i + 1) s))))
  rw [sg_flip, if_pos i.2, sg_flip, if_pos (i + 1).2]
  ring

theorem val_succ [NeZero N] (i : Fin N) : ((i + 1 : Fin N) : ℕ) = ((i : ℕ) + 1) % N := by
  rw [Fin.val_add, show ((1 : Fin N) : ℕ) = 1 % N from rfl, Nat.add_mod_mod]

/-- On the vectors of a given parity, the Hamiltonian is a quadratic form in the Jordan-Wigner operators. -/
theorem ham_eq_quad [NeZero N] (hN : 2 ≤ N) (g : ℂ) {p : ℂ} (hp : p * p = 1) {f : Vec N} (hf : par f = p • f) :
    ham g f = quad (-p) g ma mb f := by
  have hf' : ∀ s, sg N s * f s = p * f s := fun s => congrFun hf s
  funext s
  unfold quad
  rw [LinearMap.smul_apply, LinearMap.sum_apply, Pi.smul_apply, Finset.sum_apply, smul_eq_mul, mul_sum]
  change ∑ i : Fin N, _ = _
  refine sum_congr rfl fun i _ => ?_
  rw [LinearMap.add_apply, LinearMap.smul_apply, LinearMap.smul_apply, Pi.add_apply, Pi.smul_apply, Pi.smul_apply, smul_eq_mul, smul_eq_mul]
  have hI := Complex.I_mul_I
  have hz := zz_mul (s i)
  have hs := sg_mul i s
  unfold sh
  split_ifs with h
  · have e : (⟨(i : ℕ) + 1, h⟩ : Fin N) = i + 1 := by
      apply Fin.ext
      rw [val_succ]
      exact (Nat.mod_eq_of_lt h).symm
    have hne : i ≠ i + 1 := by
      intro h'
      have := congrArg Fin.val h'
      rw [← e] at this
      simp at this
    rw [e]
    have hv : ((i + 1 : Fin N) : ℕ) = (i : ℕ) + 1 := by rw [← e]
    unfold ma mb
    rw [op_mul_apply, op_mul_apply, flip_ne hne, hv, sg_flip, sg_flip, hv, if_neg (by omega), if_pos (by omega), sg_succ,
      flip_ne (Ne.symm hne), flip_comm (i + 1) i]
    set F := f (flip i (flip (i + 1) s))
    linear_combination ((1 + g) / 4 * F * (Complex.I * Complex.I) * (zz (s i) * zz (s i)) + (1 - g) / 4 * F * (Complex.I * Complex.I) * (- zz (s i) * zz (s (i + 1)))) * hs
      + (1 + g) / 4 * F * (Complex.I * Complex.I) * hz + ((1 + g) / 4 * F + (1 - g) / 4 * F * (- zz (s i) * zz (s (i + 1)))) * hI
  · have hi : (i : ℕ) + 1 = N := by have := i.2; omega
    have e : i + 1 = 0 := by
      apply Fin.ext
      rw [val_succ, hi]
      simp
    have h0 : ((0 : Fin N) : ℕ) = 0 := rfl
    have hne : i ≠ 0 := by
      intro h'
      have := congrArg Fin.val h'
      omega
    rw [e]
    unfold ma mb
    rw [smul_mul_assoc, mul_smul_comm, LinearMap.smul_apply, LinearMap.smul_apply, Pi.smul_apply, Pi.smul_apply, smul_eq_mul, smul_eq_mul,
      op_mul_apply, op_mul_apply, flip_ne hne, h0, sg_zero, sg_flip, if_pos (by rw [h0]; omega), flip_ne (Ne.symm hne), sg_zero, flip_comm 0 i]
    have hF := hf' (flip i (flip 0 s))
    set F := f (flip i (flip 0 s))
    rw [sg_flip, if_pos i.2, sg_flip, if_pos (by rw [h0]; omega), neg_neg] at hF
    have hsN : sg N s = sg i s * zz (s i) := by rw [← sg_succ, hi]
    rw [hsN] at hF
    have hF2 : sg i s * F = p * zz (s i) * F := by linear_combination zz (s i) * hF - sg i s * F * hz
    have e3 : Complex.I / 4 * ((1 + g) * (-p * (1 * (-Complex.I * zz (s i) * -sg (↑i) s) * F)) +
        (1 - g) * (-p * (sg (↑i) s * (-Complex.I * zz (s 0) * 1) * F)))
        = (1 + g) / 4 * (p * zz (s i)) * (sg i s * F) - (1 - g) / 4 * (p * zz (s 0)) * (sg i s * F) := by
      linear_combination ((1 - g) / 4 * (p * zz (s 0)) * (sg i s * F) - (1 + g) / 4 * (p * zz (s i)) * (sg i s * F)) * hI
    rw [e3, hF2]
    linear_combination ((1 - g) / 4 * zz (s 0) * zz (s i) * F - (1 + g) / 4 * F * (zz (s i) * zz (s i))) * hp - (1 + g) / 4 * F * hz

end XY

end Mpnum
