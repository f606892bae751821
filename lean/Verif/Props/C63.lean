import Verif.Props.C37
import Verif.Props.C50
import Verif.Props.C63Ground
import Verif.Oracle.Eigs

/-!
# C63: the ground state energy of the cyclic XY model

`cXY_E0(N, gamma)` is the smallest eigenvalue of the Hamiltonian built by `cXY_local_terms`, `mpo_cH` and `sparse_cH`
for `-1 ≤ gamma ≤ 1`, for every number of sites it accepts.  For other values of `gamma` the returned number is
larger than the smallest eigenvalue.
-/

namespace Mpnum

open Finset

/-! ### Specification -/

/-- `E` is the smallest eigenvalue of the matrix `H`, whose rows and columns are multi-indices inside of `D`: it is an
eigenvalue, there is no eigenvalue with a smaller real part, and it is a lower bound of `<v|H|v> / <v|v>`. -/
structure IsGroundEnergy (D : List ℕ) (H : List ℕ → List ℕ → ℂ) (E : ℝ) : Prop where
  eigen : ∃ v : List ℕ → ℂ, (∃ I, InB I D ∧ v I ≠ 0) ∧ ∀ I, InB I D → (sumIdx D fun J => H I J * v J) = E * v I
  least : ∀ (F : ℂ) (v : List ℕ → ℂ), (∃ I, InB I D ∧ v I ≠ 0) →
    (∀ I, InB I D → (sumIdx D fun J => H I J * v J) = F * v I) → E ≤ F.re
  bound : ∀ v : List ℕ → ℂ, E * sumIdx D (fun I => ‖v I‖ ^ 2)
    ≤ (sumIdx D fun I => sumIdx D fun J => (starRingEnd ℂ) (v I) * H I J * v J).re

theorem IsGroundEnergy.congr {D : List ℕ} {H H' : List ℕ → List ℕ → ℂ} {E : ℝ} (h : IsGroundEnergy D H E)
    (e : ∀ I J, InB I D → InB J D → H' I J = H I J) : IsGroundEnergy D H' E := by
  have e1 : ∀ (v : List ℕ → ℂ) (I : List ℕ), InB I D → (sumIdx D fun J => H' I J * v J) = sumIdx D fun J => H I J * v J :=
    fun v I hI => sumIdx_congr fun J hJ => by rw [e I J hI hJ]
  refine ⟨?_, fun F v h0 hv => h.least F v h0 fun I hI => by rw [← e1 v I hI]; exact hv I hI, fun v => ?_⟩
  · obtain ⟨v, h0, hv⟩ := h.eigen
    exact ⟨v, h0, fun I hI => by rw [e1 v I hI]; exact hv I hI⟩
  · rw [sumIdx_congr (g := fun I => sumIdx D fun J => (starRingEnd ℂ) (v I) * H I J * v J) fun I hI =>
      sumIdx_congr fun J hJ => by rw [e I J hI hJ]]
    exact h.bound v

/-! ### Configurations and multi-indices -/

namespace XY

variable {N : ℕ}

/-- The multi-index of a configuration. -/
def cfgL (s : Cfg N) : List ℕ := List.ofFn fun j => (s j).toNat

theorem cfgL_inB (s : Cfg N) : InB (cfgL s) (List.replicate N 2) := by
  refine List.forall₂_iff_get.2 ⟨by simp [cfgL], fun i h1 h2 => ?_⟩
  simp only [cfgL, List.get_eq_getElem, List.getElem_ofFn, List.getElem_replicate]
  cases s _ <;> simp

theorem cfgL_getD (s : Cfg N) (j : Fin N) : (cfgL s).getD j 0 = (s j).toNat := by
  rw [cfgL, List.getD_eq_getElem _ _ (by simp)]
  simp

theorem cfgL_surj {I : List ℕ} (h : InB I (List.replicate N 2)) : cfgL (fun j : Fin N => decide (I.getD j 0 = 1)) = I := by
  have hl : I.length = N := by simpa using h.length_eq
  refine List.ext_getElem (by simp [cfgL, hl]) fun i h1 h2 => ?_
  have := (List.forall₂_iff_get.1 h).2 i h2 (by simpa [hl] using h2)
  simp only [List.get_eq_getElem, List.getElem_replicate] at this
  simp only [cfgL, List.getElem_ofFn]
  rw [List.getD_eq_getElem _ _ h2]
  interval_cases I[i] <;> simp

theorem toNat_inj' {a b : Bool} (h : a.toNat = b.toNat) : a = b := by
  cases a <;> cases b <;> simp_all

theorem cfgL_inj {s t : Cfg N} (h : cfgL s = cfgL t) : s = t := by
  funext j
  have := congrArg (fun L => L.getD j 0) h
  simp only [cfgL_getD] at this
  exact toNat_inj' this

theorem sumIdx_cfg {X : Type} [AddCommMonoid X] (f : List ℕ → X) : sumIdx (List.replicate N 2) f = ∑ s : Cfg N, f (cfgL s) := by
  rw [sumIdx_eq_sum]
  refine (sum_bij (fun s _ => cfgL s) (fun s _ => mem_idxSet.2 (cfgL_inB s)) (fun s _ t _ h => cfgL_inj h) (fun I hI => ?_) (fun s _ => rfl)).symm
  exact ⟨_, mem_univ _, cfgL_surj (mem_idxSet.1 hI)⟩

/-- A term with two flips. -/
theorem sum_actsOn {σ : ℕ → ℕ → ℂ} (h0 : ∀ x, σ x x = 0) {i j : Fin N} (hij : i ≠ j) (s : Cfg N) (f : Vec N) :
    ∑ t : Cfg N, actsOn (twice σ) i j (cfgL s) (cfgL t) * f t
      = σ (s i).toNat (!s i).toNat * σ (s j).toNat (!s j).toNat * f (flip i (flip j s)) := by
  have hl : (cfgL s).length = N := by simp [cfgL]
  rw [sum_eq_single (flip i (flip j s))]
  · unfold actsOn
    rw [if_pos, twice, List.getD_cons_zero, List.getD_cons_zero, List.getD_cons_succ, List.getD_cons_zero, List.getD_cons_succ, List.getD_cons_zero,
      cfgL_getD, cfgL_getD, cfgL_getD, cfgL_getD, flip_same, flip_ne hij, flip_ne (Ne.symm hij), flip_same]
    intro m hm hi hj
    rw [hl] at hm
    have h1 := cfgL_getD s ⟨m, hm⟩
    have h2 := cfgL_getD (flip i (flip j s)) ⟨m, hm⟩
    rw [flip_ne (fun e => hi (by rw [← e])), flip_ne (fun e => hj (by rw [← e]))] at h2
    exact h1.trans h2.symm
  · intro t _ ht
    unfold actsOn
    split_ifs with h
    · rw [twice, List.getD_cons_zero, List.getD_cons_zero, List.getD_cons_succ, List.getD_cons_zero, List.getD_cons_succ, List.getD_cons_zero,
        cfgL_getD, cfgL_getD, cfgL_getD, cfgL_getD]
      by_cases e1 : t i = s i
      · rw [e1, h0]; ring
      · by_cases e2 : t j = s j
        · rw [e2, h0]; ring
        · exfalso
          apply ht
          funext m
          by_cases m1 : m = i
          · subst m1
            rw [flip_same, flip_ne hij]
            cases h1 : t m <;> cases h2 : s m <;> simp_all
          · by_cases m2 : m = j
            · subst m2
              rw [flip_ne m1, flip_same]
              cases h1 : t m <;> cases h2 : s m <;> simp_all
            · rw [flip_ne m1, flip_ne m2]
              have := h m (by rw [hl]; exact m.2) (fun e => m1 (Fin.ext e)) (fun e => m2 (Fin.ext e))
              rw [cfgL_getD, cfgL_getD] at this
              exact (toNat_inj' this).symm
    · rw [zero_mul]
  · simp

/-- The Hamiltonian on multi-indices is the one on configurations. -/
theorem xyOp_ham [NeZero N] (hN : 2 ≤ N) (g : ℝ) (s : Cfg N) (f : Vec N) :
    ∑ t : Cfg N, xyOp N g (cfgL s) (cfgL t) * f t = ham g f s := by
  unfold xyOp
  simp only [sum_mul]
  rw [sum_comm, ham_apply, ← Fin.sum_univ_eq_sum_range (fun i => ∑ t : Cfg N, ((1 + (g : ℂ)) * actsOn (twice spinX) i ((i + 1) % N) (cfgL s) (cfgL t)
    + (1 - g) * actsOn (twice spinY) i ((i + 1) % N) (cfgL s) (cfgL t)) * f t)]
  refine sum_congr rfl fun i _ => ?_
  have hne : i ≠ i + 1 := by
    intro e
    have := congrArg Fin.val e
    rw [val_succ] at this
    have h := i.2
    by_cases h' : (i : ℕ) + 1 = N
    · rw [h', Nat.mod_self] at this; omega
    · rw [Nat.mod_eq_of_lt (a := (i : ℕ) + 1) (by omega)] at this; omega
  have hx := sum_actsOn (σ := spinX) (fun x => by simp [spinX]) hne s f
  have hy := sum_actsOn (σ := spinY) (fun x => by simp [spinY]) hne s f
  rw [val_succ] at hx hy
  calc _ = (1 + (g : ℂ)) * ∑ t : Cfg N, actsOn (twice spinX) i (((i : ℕ) + 1) % N) (cfgL s) (cfgL t) * f t
      + (1 - g) * ∑ t : Cfg N, actsOn (twice spinY) i (((i : ℕ) + 1) % N) (cfgL s) (cfgL t) * f t := by
        rw [mul_sum, mul_sum, ← sum_add_distrib]
        exact sum_congr rfl fun t _ => by ring
    _ = _ := by
        rw [hx, hy]
        have ex : ∀ b : Bool, spinX b.toNat (!b).toNat = 1 / 2 := by intro b; cases b <;> simp [spinX]
        have ey : ∀ b : Bool, spinY b.toNat (!b).toNat = - Complex.I * zz b / 2 := by
          intro b; cases b <;> simp [spinY, zz]
        rw [ex, ex, ey, ey]
        have hI := Complex.I_mul_I
        linear_combination (1 - (g : ℂ)) / 4 * zz (s i) * zz (s (i + 1)) * f (flip i (flip (i + 1) s)) * hI

/-- A smallest energy on configurations is a smallest eigenvalue on multi-indices. -/
theorem isGroundEnergy_of [NeZero N] (hN : 2 ≤ N) {g E : ℝ} (h : IsGround (N := N) g E) :
    IsGroundEnergy (List.replicate N 2) (xyOp N g) E := by
  have happ : ∀ (v : List ℕ → ℂ) (s : Cfg N), (sumIdx (List.replicate N 2) fun J => xyOp N g (cfgL s) J * v J) = ham g (fun t => v (cfgL t)) s := by
    intro v s
    rw [sumIdx_cfg]
    exact xyOp_ham hN g s fun t => v (cfgL t)
  have hbound : ∀ v : List ℕ → ℂ, E * sumIdx (List.replicate N 2) (fun I => ‖v I‖ ^ 2)
      ≤ (sumIdx (List.replicate N 2) fun I => sumIdx (List.replicate N 2) fun J => (starRingEnd ℂ) (v I) * xyOp N g I J * v J).re := by
    intro v
    have hb := h.1 fun t => v (cfgL t)
    have e1 : (ip (fun t : Cfg N => v (cfgL t)) fun t => v (cfgL t)).re = sumIdx (List.replicate N 2) fun I => ‖v I‖ ^ 2 := by
      rw [sumIdx_cfg, ip, Complex.re_sum]
      refine sum_congr rfl fun s _ => ?_
      rw [← Complex.normSq_eq_conj_mul_self, Complex.ofReal_re, Complex.normSq_eq_norm_sq]
    have e2 : (sumIdx (List.replicate N 2) fun I => sumIdx (List.replicate N 2) fun J => (starRingEnd ℂ) (v I) * xyOp N g I J * v J)
        = ip (fun t : Cfg N => v (cfgL t)) (ham g fun t => v (cfgL t)) := by
      rw [sumIdx_cfg, ip]
      refine sum_congr rfl fun s _ => ?_
      rw [← happ v s, mul_sumIdx]
      simp only [mul_assoc]
    rw [e1] at hb
    rw [e2]
    exact hb
  refine ⟨?_, ?_, hbound⟩
  · obtain ⟨f, f0, hf⟩ := h.2
    refine ⟨fun I => f fun j => decide (I.getD j 0 = 1), ?_, ?_⟩
    · have : ∃ s, f s ≠ 0 := by
        by_contra hc
        push Not at hc
        exact f0 (funext hc)
      obtain ⟨s, hs⟩ := this
      refine ⟨cfgL s, cfgL_inB s, ?_⟩
      have : (fun j : Fin N => decide ((cfgL s).getD j 0 = 1)) = s := cfgL_inj (cfgL_surj (cfgL_inB s))
      beta_reduce
      rw [this]
      exact hs
    · intro I hI
      have hs : ∀ s : Cfg N, (fun j : Fin N => decide ((cfgL s).getD j 0 = 1)) = s := fun s => cfgL_inj (cfgL_surj (cfgL_inB s))
      rw [← cfgL_surj hI, happ]
      simp only [hs, hf]
      rfl
  · intro F v h0 hv
    have hb := hbound v
    have e : (sumIdx (List.replicate N 2) fun I => sumIdx (List.replicate N 2) fun J => (starRingEnd ℂ) (v I) * xyOp N g I J * v J)
        = F * ((sumIdx (List.replicate N 2) fun I => ‖v I‖ ^ 2 : ℝ) : ℂ) := by
      rw [sumIdx_congr (g := fun I => F * ((‖v I‖ ^ 2 : ℝ) : ℂ)) fun I hI => ?_]
      · rw [← mul_sumIdx, sumIdx_eq_sum, sumIdx_eq_sum, Complex.ofReal_sum]
      · simp only [mul_assoc]
        rw [← mul_sumIdx, hv I hI]
        rw [show (‖v I‖ ^ 2 : ℝ) = Complex.normSq (v I) by rw [Complex.normSq_eq_norm_sq], Complex.normSq_eq_conj_mul_self]
        ring
    rw [e, Complex.re_mul_ofReal] at hb
    obtain ⟨I, hI, hI0⟩ := h0
    have hpos : 0 < sumIdx (List.replicate N 2) fun I => ‖v I‖ ^ 2 := by
      rw [sumIdx_eq_sum]
      exact sum_pos' (fun _ _ => by positivity) ⟨I, mem_idxSet.2 hI, by positivity⟩
    exact le_of_mul_le_mul_right hb hpos

end XY

theorem actsOn_star {σ : ℕ → ℕ → ℂ} (h : ∀ x y, star (σ x y) = σ y x) {I J : List ℕ} (hl : I.length = J.length) (i j : ℕ) :
    star (actsOn (twice σ) i j J I) = actsOn (twice σ) i j I J := by
  unfold actsOn
  have e : (∀ m < J.length, m ≠ i → m ≠ j → J.getD m 0 = I.getD m 0) ↔ ∀ m < I.length, m ≠ i → m ≠ j → I.getD m 0 = J.getD m 0 := by
    rw [hl]
    exact forall₂_congr fun m _ => ⟨fun h a b => (h a b).symm, fun h a b => (h a b).symm⟩
  simp only [e]
  split_ifs
  · unfold twice
    rw [star_mul', h, h]
  · exact star_zero _

/-- The Hamiltonian is Hermitian. -/
theorem xyOp_star (N : ℕ) (g : ℝ) {I J : List ℕ} (hl : I.length = J.length) : star (xyOp N g J I) = xyOp N g I J := by
  unfold xyOp
  rw [star_sum]
  refine sum_congr rfl fun i _ => ?_
  have hx : ∀ x y, star (spinX x y) = spinX y x := by
    intro x y
    unfold spinX
    simp only [eq_comm (a := y)]
    split_ifs <;> simp
  have hy : ∀ x y, star (spinY x y) = spinY y x := by
    intro x y
    unfold spinY
    rcases lt_trichotomy x y with h | h | h
    · rw [if_neg h.ne, if_pos h, if_neg h.ne', if_neg h.not_gt]; simp
    · rw [if_pos h, if_pos h.symm]; simp
    · rw [if_neg h.ne', if_neg h.not_gt, if_neg h.ne, if_pos h]; simp
  rw [star_add, star_mul', star_mul', actsOn_star hx hl, actsOn_star hy hl]
  simp

/-! ### The property -/

theorem cXYE0_ok {N : ℕ} (hN : N % 4 = 2) (gamma : ℝ) : cXYE0 N gamma
    = .ok (-(1 / 2) * ∑ l ∈ range N, √(1 - (1 - gamma ^ 2) * Real.sin (2 * Real.pi * l / N) ^ 2)) := by
  have hN0 : (N : ℝ) ≠ 0 := by
    have : N ≠ 0 := by rintro rfl; simp at hN
    exact_mod_cast this
  unfold cXYE0
  have : (pyGuard (¬ ((N : ℤ) % 2 ≠ 0 ∨ (N : ℤ) % 4 = 0)) PyErr.value : Py Unit) = .ok () := by
    unfold pyGuard
    rw [if_pos (by omega)]
  rw [this, ok_bind]
  simp only [Int.toNat_natCast]
  congr 2
  refine sum_congr rfl fun l _ => ?_
  have e : 2 * Real.pi / ((N : ℤ) : ℝ) * ((l : ℝ) - ((N : ℤ) : ℝ) / 2) = 2 * Real.pi * l / N - Real.pi := by
    push_cast
    field_simp
  rw [e, Real.sin_sub_pi, neg_sq]

/-- C63: `cXY_E0` accepts exactly the odd multiples of two. -/
theorem C63_accepts (N : ℤ) (gamma : ℝ) :
    ((∃ m : ℤ, N = 2 * (2 * m + 1)) ↔ ∃ E, cXYE0 N gamma = .ok E) ∧
      ((¬ ∃ m : ℤ, N = 2 * (2 * m + 1)) ↔ cXYE0 N gamma = .error .value) := by
  have h : (∃ m : ℤ, N = 2 * (2 * m + 1)) ↔ ¬ (N % 2 ≠ 0 ∨ N % 4 = 0) := by
    constructor
    · rintro ⟨m, rfl⟩; omega
    · intro h; exact ⟨N / 4, by omega⟩
  unfold cXYE0 pyGuard
  by_cases c : ¬ (N % 2 ≠ 0 ∨ N % 4 = 0)
  · have h' := h.2 c
    rw [if_pos c, ok_bind]
    exact ⟨⟨fun _ => ⟨_, rfl⟩, fun _ => h'⟩, ⟨fun x => (x h').elim, fun x => (nomatch x)⟩⟩
  · have h' : ¬ ∃ m : ℤ, N = 2 * (2 * m + 1) := fun x => c (h.1 x)
    rw [if_neg c]
    exact ⟨⟨fun x => (h' x).elim, fun ⟨E, e⟩ => (nomatch e)⟩, ⟨fun _ => rfl, fun _ => h'⟩⟩

/-- C63: for `-1 ≤ gamma ≤ 1` and every number of sites that is an odd multiple of two, `cXY_E0` returns the smallest
eigenvalue of the operators `mpo_cH(cXY_local_terms(N, gamma))` and `sparse_cH(cXY_local_terms(N, gamma))`. -/
theorem C63_ground_energy {qr : QR ℂ} (hqr : QRSpec qr) (N : ℕ) (hN : N % 4 = 2) (gamma : ℝ) (hg : |gamma| ≤ 1) :
    ∃ terms z A E, cXYLocalTerms qr N gamma = .ok terms ∧ mpoCH terms = .ok z ∧ sparseCH (terms.map .mpo) 2 = .ok (some A) ∧
      cXYE0 N gamma = .ok E ∧ IsMpo z (List.replicate N 2) ∧ A.shape = [2 ^ N, 2 ^ N] ∧
      IsGroundEnergy (List.replicate N 2) (fun I J => z.val (pairs I J)) E ∧ IsGroundEnergy (List.replicate N 2)
        (fun I J => A.get [ravelIdx (List.replicate N 2) I, ravelIdx (List.replicate N 2) J]) E := by
  have hN2 : 2 ≤ N := by omega
  have : NeZero N := ⟨by omega⟩
  obtain ⟨terms, z, A, h1, h2, h3, h4, h5, h6⟩ := C50_xy_hamiltonian hqr N hN2 gamma
  have hG := XY.isGroundEnergy_of hN2 (XY.ground (N := N) hN hg rfl)
  exact ⟨terms, z, A, _, h1, h2, h3, cXYE0_ok hN gamma, h4, by rw [h5.shape]; simp, hG.congr h6, hG.congr h5.get⟩

/-- For other values of `gamma` the smallest eigenvalue is `|gamma| * cXY_E0(N, 1 / gamma)` and the number returned by
`cXY_E0(N, gamma)` is larger.  The documentation does not restrict `gamma`. -/
theorem C63_large_gamma {qr : QR ℂ} (hqr : QRSpec qr) (N : ℕ) (hN : N % 4 = 2) (gamma : ℝ) (hg : 1 < |gamma|) :
    ∃ terms z E E', cXYLocalTerms qr N gamma = .ok terms ∧ mpoCH terms = .ok z ∧ cXYE0 N gamma = .ok E ∧
      cXYE0 N gamma⁻¹ = .ok E' ∧ IsGroundEnergy (List.replicate N 2) (fun I J => z.val (pairs I J)) (|gamma| * E') ∧
      |gamma| * E' < E := by
  have hN2 : 2 ≤ N := by omega
  have : NeZero N := ⟨by omega⟩
  have g0 : gamma ≠ 0 := by rintro rfl; simp at hg; linarith
  obtain ⟨terms, z, A, h1, h2, h3, h4, h5, h6⟩ := C50_xy_hamiltonian hqr N hN2 gamma
  have hinv : |gamma⁻¹| ≤ 1 := by rw [abs_inv]; exact inv_le_one_of_one_le₀ hg.le
  have hG := XY.isGroundEnergy_of hN2 (XY.ground_inv (N := N) (by omega) g0 (XY.ground (N := N) hN hinv rfl))
  refine ⟨terms, z, _, _, h1, h2, cXYE0_ok hN gamma, cXYE0_ok hN gamma⁻¹, hG.congr h6, ?_⟩
  have := XY.energy_large hN hg
  linarith

/-- A user who computes the ground state of the model with `mp.linalg.eig`, for any number of sites varied at once and any
number of sweeps, never gets an energy below `cXY_E0`. -/
theorem C63_eig {qr : QR ℂ} {svd : SVD ℂ} (hqr : QRSpec qr) (hsvd : SVDSpec svd) {Pe : PyErr → Prop} {eigs : EigsFun}
    (heigs : EigsSpec True Pe eigs) (N : ℕ) (gamma : ℝ) (hg : |gamma| ≤ 1) {E : ℝ} (hE : cXYE0 N gamma = .ok E)
    {terms : List (MPA ℂ)} (ht : cXYLocalTerms qr N gamma = .ok terms) {H : MPA ℂ} (hH : mpoCH terms = .ok H)
    (k : ℕ) (hk : 0 < k) (sv : Option (MPA ℂ)) (sr : Option ℕ) (rs : RandState) (hs : StartArgs (List.replicate N 2) sv sr)
    (m : ℕ) (lam : ℂ) (y : MPA ℂ) (h : eig qr svd eigs H m k sv sr rs = .ok (lam, y)) : E ≤ lam.re := by
  have hN : N % 4 = 2 := by
    obtain ⟨m, hm⟩ := ((C63_accepts N gamma).1).2 ⟨E, hE⟩
    omega
  have hN2 : 2 ≤ N := by omega
  obtain ⟨terms', z, A, E', h1, h2, h3, h4, h5, h6, h7, h8⟩ := C63_ground_energy hqr N hN gamma hg
  obtain ⟨terms'', z', A', g1, g2, _, _, _, g6⟩ := C50_xy_hamiltonian hqr N hN2 gamma
  rw [ht] at h1 g1
  cases h1
  cases g1
  rw [hH] at h2 g2
  cases h2
  cases g2
  rw [hE] at h4
  cases h4
  have hherm : IsHerm H (List.replicate N 2) := by
    intro I J hI hJ
    rw [g6 I J hI hJ, g6 J I hJ hI, xyOp_star N gamma (by rw [hI.length_eq, hJ.length_eq])]
  exact C37_lower_bound hqr hsvd heigs H (List.replicate N 2) h5 (by simp) hherm E (fun w => h7.bound w) k hk sv sr rs hs m lam y h

/-! ### The hypotheses can be met -/

/-- Six sites and `gamma = 1/2`: the ground state energy is negative. -/
example : ∃ (qr : QR ℂ) (terms : List (MPA ℂ)) (z : MPA ℂ) (E : ℝ), QRSpec qr ∧ cXYLocalTerms qr 6 (1 / 2) = .ok terms ∧
    mpoCH terms = .ok z ∧ cXYE0 6 (1 / 2) = .ok E ∧ E < 0 ∧
    IsGroundEnergy [2, 2, 2, 2, 2, 2] (fun I J => z.val (pairs I J)) E := by
  obtain ⟨qr, hqr⟩ := exists_QRSpec (𝕜 := ℂ)
  obtain ⟨terms, z, A, E, h1, h2, h3, h4, h5, h6, h7, h8⟩ := C63_ground_energy hqr 6 rfl (1 / 2) (by rw [abs_of_pos] <;> norm_num)
  refine ⟨qr, terms, z, E, hqr, h1, h2, h4, ?_, h7⟩
  have e := cXYE0_ok (N := 6) rfl (1 / 2)
  rw [h4] at e
  cases e
  rw [sum_range_succ']
  have : 0 ≤ ∑ l ∈ range 5, √(1 - (1 - (1 / 2 : ℝ) ^ 2) * Real.sin (2 * Real.pi * ((l + 1 : ℕ) : ℝ) / (6 : ℕ)) ^ 2) :=
    sum_nonneg fun _ _ => Real.sqrt_nonneg _
  have h0 : √(1 - (1 - (1 / 2 : ℝ) ^ 2) * Real.sin (2 * Real.pi * ((0 : ℕ) : ℝ) / (6 : ℕ)) ^ 2) = 1 := by simp
  rw [h0]
  linarith

/-- Two sites and `gamma = 2`: the function returns `-1` and the smallest eigenvalue is `-2`. -/
example : ∃ (qr : QR ℂ) (terms : List (MPA ℂ)) (z : MPA ℂ), QRSpec qr ∧ cXYLocalTerms qr 2 2 = .ok terms ∧
    mpoCH terms = .ok z ∧ cXYE0 2 2 = .ok (-1) ∧ IsGroundEnergy [2, 2] (fun I J => z.val (pairs I J)) (-2) := by
  obtain ⟨qr, hqr⟩ := exists_QRSpec (𝕜 := ℂ)
  obtain ⟨terms, z, E, E', h1, h2, h3, h4, h5, h6⟩ := C63_large_gamma hqr 2 rfl 2 (by rw [abs_of_pos] <;> norm_num)
  have e : ∀ g : ℝ, cXYE0 2 g = .ok (-1) := by
    intro g
    have := cXYE0_ok (N := 2) rfl g
    push_cast at this
    rw [this, sum_range_succ, sum_range_one]
    have : 2 * Real.pi * ((1 : ℕ) : ℝ) / 2 = Real.pi := by push_cast; ring
    rw [this]
    simp
    norm_num
  have e' := e (2 : ℝ)⁻¹
  push_cast at h4
  rw [h4] at e'
  cases e'
  refine ⟨qr, terms, z, hqr, h1, h2, e 2, ?_⟩
  have : |(2 : ℝ)| * -1 = -2 := by norm_num
  rw [this] at h5
  exact h5

/-- A start vector on six sites. -/
noncomputable def exV6 : MPA ℂ :=
  ⟨[⟨[1, 2, 2], fun _ => 1⟩, ⟨[2, 2, 2], fun _ => 1⟩, ⟨[2, 2, 2], fun _ => 1⟩, ⟨[2, 2, 2], fun _ => 1⟩, ⟨[2, 2, 2], fun _ => 1⟩,
    ⟨[2, 2, 1], fun _ => 1⟩], 0, 6⟩

theorem exV6_good : exV6.Good := by
  refine ⟨⟨by simp [exV6], by simp [exV6, NDArray.IsLocal, NDArray.ndim, NDArray.lb, NDArray.rb], by simp [exV6],
    by simp [exV6], by simp [exV6, MPA.len]⟩, ?_, ?_⟩
  · have : exV6 = ⟨exV6.lt, 0, exV6.lt.length⟩ := by simp [exV6]
    rw [this]; exact canonOK_mk _
  · intro t ht d hd
    simp only [exV6, List.mem_cons, List.not_mem_nil, or_false] at ht
    rcases ht with rfl | rfl | rfl | rfl | rfl | rfl <;> simp at hd <;> omega

/-- Two sweeps of `eig` on the XY model with six sites return, and the energy is not below `cXY_E0`. -/
example : ∃ (qr : QR ℂ) (svd : SVD ℂ) (eigs : EigsFun) (terms : List (MPA ℂ)) (H : MPA ℂ) (E : ℝ) (lam : ℂ) (y : MPA ℂ),
    cXYLocalTerms qr 6 (1 / 2) = .ok terms ∧ mpoCH terms = .ok H ∧ cXYE0 6 (1 / 2) = .ok E ∧
    eig qr svd eigs H 2 1 (some exV6) none ⟨fun _ => 0, fun _ => 0⟩ = .ok (lam, y) ∧ E ≤ lam.re := by
  obtain ⟨qr, hqr⟩ := exists_QRSpec (𝕜 := ℂ)
  obtain ⟨svd, hsvd⟩ := exists_SVDSpec (𝕜 := ℂ)
  obtain ⟨eigs, he, -, -⟩ := exists_eigs
  have hg : |(1 / 2 : ℝ)| ≤ 1 := by rw [abs_of_pos] <;> norm_num
  obtain ⟨terms, z, A, E, h1, h2, h3, h4, h5, h6, h7, h8⟩ := C63_ground_energy hqr 6 rfl (1 / 2) hg
  have hs : exV6.shape = singles (List.replicate 6 2) := rfl
  obtain ⟨lam, y, h⟩ := C37_returns hqr hsvd he z (List.replicate 6 2) h5 1 one_pos (by simp) exV6 exV6_good hs
    (by simp [twoRanksOne, MPA.ranks, exV6, NDArray.lb]) none ⟨fun _ => 0, fun _ => 0⟩ 2 two_ne_zero
  have he' : EigsSpec True (fun _ => False) eigs := fun n op v0 hn ho _ hv => he n op v0 hn ho (fun h => h.elim) hv
  exact ⟨qr, svd, eigs, terms, z, E, lam, y, h1, h2, h4, h, C63_eig hqr hsvd he' 6 (1 / 2) hg h4 h1 h2 1 one_pos _ _ _
    ⟨fun x hx => by cases hx; exact ⟨exV6_good, hs⟩, fun h => by cases h⟩ 2 lam y h⟩

end Mpnum
