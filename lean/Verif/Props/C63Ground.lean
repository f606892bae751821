import Verif.Props.C63Ops
import Verif.Props.C63Sum

/-!
# The ground state energy of the cyclic XY model on spin configurations

Helpers for C63.
-/

namespace Mpnum

namespace XY

open Finset Modes

variable {N : ℕ}

local notation "conj" => starRingEnd ℂ

/-- The inner product. -/
noncomputable def ip (f g : Vec N) : ℂ := ∑ s, conj (f s) * g s

theorem ip_add_right (f g h : Vec N) : ip f (g + h) = ip f g + ip f h := by
  unfold ip
  rw [← sum_add_distrib]
  exact sum_congr rfl fun s _ => by rw [Pi.add_apply, mul_add]

theorem ip_add_left (f g h : Vec N) : ip (f + g) h = ip f h + ip g h := by
  unfold ip
  rw [← sum_add_distrib]
  exact sum_congr rfl fun s _ => by rw [Pi.add_apply, map_add, add_mul]

theorem ip_smul_right (c : ℂ) (f g : Vec N) : ip f (c • g) = c * ip f g := by
  unfold ip
  rw [mul_sum]
  exact sum_congr rfl fun s _ => by rw [Pi.smul_apply, smul_eq_mul]; ring

theorem ip_smul_left (c : ℂ) (f g : Vec N) : ip (c • f) g = conj c * ip f g := by
  unfold ip
  rw [mul_sum]
  exact sum_congr rfl fun s _ => by rw [Pi.smul_apply, smul_eq_mul, map_mul]; ring

theorem ip_sum_right {ι : Type} (t : Finset ι) (f : Vec N) (g : ι → Vec N) : ip f (∑ i ∈ t, g i) = ∑ i ∈ t, ip f (g i) := by
  unfold ip
  rw [sum_comm]
  exact sum_congr rfl fun s _ => by rw [Finset.sum_apply, mul_sum]

theorem ip_sum_left {ι : Type} (t : Finset ι) (f : ι → Vec N) (g : Vec N) : ip (∑ i ∈ t, f i) g = ∑ i ∈ t, ip (f i) g := by
  unfold ip
  rw [sum_comm]
  exact sum_congr rfl fun s _ => by rw [Finset.sum_apply, map_sum, sum_mul]

theorem ip_self_nonneg (f : Vec N) : 0 ≤ (ip f f).re := by
  unfold ip
  rw [Complex.re_sum]
  refine sum_nonneg fun s _ => ?_
  rw [← Complex.normSq_eq_conj_mul_self, Complex.ofReal_re]
  exact Complex.normSq_nonneg _

theorem ip_op {φ : Cfg N → ℂ} {j : Fin N} (h : ∀ s, conj (φ (flip j s)) = φ s) (f g : Vec N) : ip (op φ j f) g = ip f (op φ j g) := by
  unfold ip
  rw [← Equiv.sum_comp (⟨flip j, flip j, flip_flip j, flip_flip j⟩ : Cfg N ≃ Cfg N)]
  refine sum_congr rfl fun s _ => ?_
  change conj (φ (flip j s) * f (flip j (flip j s))) * g (flip j s) = conj (f s) * (φ s * g (flip j s))
  rw [flip_flip, map_mul, h s]
  ring

theorem ip_ma (j : Fin N) (f g : Vec N) : ip (ma j f) g = ip f (ma j g) :=
  ip_op (fun s => by rw [sg_conj, sg_flip, if_neg (lt_irrefl _)]) f g

theorem ip_mb (j : Fin N) (f g : Vec N) : ip (mb j f) g = ip f (mb j g) :=
  ip_op (fun s => by
    rw [map_mul, map_mul, sg_conj, sg_flip, if_neg (lt_irrefl _), flip_same, zz_not, map_neg, map_neg, zz_conj, Complex.conj_I]
    ring) f g

theorem ip_comb {a : Fin N → Module.End ℂ (Vec N)} (ha : ∀ j f g, ip (a j f) g = ip f (a j g)) (w : Fin N → ℂ) (f g : Vec N) :
    ip (comb w a f) g = ip f (comb (fun j => conj (w j)) a g) := by
  unfold comb
  rw [LinearMap.sum_apply, LinearMap.sum_apply, ip_sum_left, ip_sum_right]
  refine sum_congr rfl fun j _ => ?_
  rw [LinearMap.smul_apply, LinearMap.smul_apply, ip_smul_left, ip_smul_right, ha]

theorem ip_par (f g : Vec N) : ip (par f) g = ip f (par g) := by
  unfold ip
  refine sum_congr rfl fun s _ => ?_
  change conj (sg N s * f s) * g s = conj (f s) * (sg N s * g s)
  rw [map_mul, sg_conj]
  ring

/-! ### The waves -/

section Waves

variable {q : ℂ} (M : Modes N q)

/-- The phase in the operators `T`. -/
noncomputable def ph (g : ℝ) (l : Fin N) : ℂ := Complex.I * M.mu g l / (‖M.mu g l‖ : ℂ)

variable (hM : ∀ l, (M.om l)⁻¹ = conj (M.om l))

include hM in
theorem mu_conj (g : ℝ) (l : Fin N) : conj (M.mu g l) = M.mu g (M.r l) := by
  unfold mu
  rw [M.om_r, inv_inv, hM]
  simp only [map_div₀, map_add, map_sub, map_mul, map_one, Complex.conj_ofReal, Complex.conj_conj, map_ofNat]

include hM in
theorem norm_mu_r (g : ℝ) (l : Fin N) : ‖M.mu g (M.r l)‖ = ‖M.mu g l‖ := by
  rw [← mu_conj M hM, Complex.norm_conj]

include hM in
theorem ip_T (g : ℝ) (l : Fin N) (f h : Vec N) :
    ip (M.T (ph M g) ma mb l f) h = ip f (M.Td (fun l => conj (ph M g l)) ma mb l h) := by
  unfold T Td P Q
  rw [LinearMap.add_apply, LinearMap.add_apply, LinearMap.smul_apply, LinearMap.smul_apply, ip_add_left, ip_add_right, ip_smul_left, ip_smul_right,
    ip_comb ip_ma, ip_comb ip_mb]
  simp only [map_pow, hM]

include hM in
theorem squares [NeZero N] (g : ℝ) : ∑ l, (‖M.mu g l‖ : ℂ) • (M.Td (fun l => conj (ph M g l)) ma mb l * M.T (ph M g) ma mb l)
    = (2 * N * ∑ l, (‖M.mu g l‖ : ℂ)) • 1 + (4 * N : ℂ) • quad q g (ma (N := N)) mb := by
  refine M.quad_squares cliff (fun l => by rw [norm_mu_r M hM]) (fun l => ?_) (fun l => ?_) (fun l => ?_)
  · unfold ph
    by_cases h : M.mu g l = 0
    · simp [h]
    · have : (‖M.mu g l‖ : ℂ) ≠ 0 := by simpa using h
      field_simp
  · unfold ph
    by_cases h : M.mu g l = 0
    · simp [h]
    · have h1 : (‖M.mu g l‖ : ℂ) ≠ 0 := by simpa using h
      have h2 : M.mu g l * conj (M.mu g l) = (‖M.mu g l‖ : ℂ) ^ 2 := by
        rw [Complex.mul_conj, Complex.normSq_eq_norm_sq]; push_cast; rfl
      rw [map_div₀, map_mul, Complex.conj_I, Complex.conj_ofReal]
      have hI := Complex.I_mul_I
      field_simp
      linear_combination (-Complex.I * Complex.I) * h2 - (‖M.mu g l‖ : ℂ) ^ 2 * hI
  · unfold ph
    rw [norm_mu_r M hM, map_div₀, map_mul, Complex.conj_I, Complex.conj_ofReal, ← mu_conj M hM, Complex.conj_conj]
    ring

include hM in
/-- The energy of a vector of a given parity is bounded below. -/
theorem sector_bound (hN : 2 ≤ N) [NeZero N] (g : ℝ) {p : ℂ} (hp : p * p = 1) (hq : q = -p) {f : Vec N} (hf : par f = p • f) :
    -(1 / 2) * (∑ l, ‖M.mu g l‖) * (ip f f).re ≤ (ip f (ham g f)).re := by
  have h := congrArg (fun x : Module.End ℂ (Vec N) => (ip f (x f)).re) (squares M hM g)
  simp only [LinearMap.sum_apply, LinearMap.smul_apply, LinearMap.add_apply, Module.End.one_apply, Module.End.mul_apply] at h
  rw [ip_sum_right, ip_add_right, ip_smul_right, ip_smul_right] at h
  simp only [ip_smul_right, ← ip_T M hM] at h
  have hq' : ham g f = quad q g ma mb f := by rw [ham_eq_quad hN g hp hf, hq]
  rw [← hq', show (2 * N * ∑ l, (‖M.mu g l‖ : ℂ) : ℂ) = ((2 * N * ∑ l, ‖M.mu g l‖ : ℝ) : ℂ) by push_cast; rfl,
    show (4 * N : ℂ) = ((4 * N : ℝ) : ℂ) by push_cast; rfl, Complex.add_re, Complex.re_ofReal_mul, Complex.re_ofReal_mul, Complex.re_sum] at h
  have hpos : 0 ≤ ∑ l, ((‖M.mu g l‖ : ℂ) * ip (M.T (ph M g) ma mb l f) (M.T (ph M g) ma mb l f)).re := by
    refine sum_nonneg fun l _ => ?_
    rw [Complex.re_ofReal_mul]
    exact mul_nonneg (norm_nonneg _) (ip_self_nonneg _)
  rw [h] at hpos
  have hN' : (0 : ℝ) < N := by exact_mod_cast (show 0 < N by omega)
  have : 0 ≤ N * (2 * (∑ l, ‖M.mu g l‖) * (ip f f).re + 4 * (ip f (ham g f)).re) := by linarith
  have := (mul_nonneg_iff_of_pos_left hN').1 this
  linarith

include hM in
/-- A vector that all `T` annihilate is an eigenvector. -/
theorem sector_eigen (hN : 2 ≤ N) [NeZero N] (g : ℝ) {p : ℂ} (hp : p * p = 1) (hq : q = -p) {f : Vec N} (hf : par f = p • f)
    (hT : ∀ l, M.T (ph M g) ma mb l f = 0) : ham g f = ((-(1 / 2) * ∑ l, ‖M.mu g l‖ : ℝ) : ℂ) • f := by
  have h := congrArg (fun x : Module.End ℂ (Vec N) => x f) (squares M hM g)
  simp only [LinearMap.sum_apply, LinearMap.smul_apply, LinearMap.add_apply, Module.End.one_apply, Module.End.mul_apply, hT, map_zero,
    smul_zero, sum_const_zero] at h
  have hq' : ham g f = quad q g ma mb f := by rw [ham_eq_quad hN g hp hf, hq]
  rw [← hq'] at h
  have hN' : (N : ℂ) ≠ 0 := by exact_mod_cast (show N ≠ 0 by omega)
  funext s
  have hs := congrFun h s
  simp only [Pi.zero_apply, Pi.add_apply, Pi.smul_apply, smul_eq_mul] at hs ⊢
  have : (N : ℂ) * (2 * (∑ l, (‖M.mu g l‖ : ℂ)) * f s + 4 * ham g f s) = 0 := by linear_combination -hs
  have := (mul_eq_zero.1 this).resolve_left hN'
  push_cast
  linear_combination this / 4

include hM in
/-- If no energy is zero and the boundary is periodic, there is an eigenvector with the smallest energy. -/
theorem exists_eigen (hN : N % 2 = 0) (hN2 : 2 ≤ N) [NeZero N] (hq : q = 1) (g : ℝ) (hmu : ∀ l, M.mu g l ≠ 0)
    (l1 : Fin N) (hl1 : M.om l1 = -1) :
    ∃ f : Vec N, f ≠ 0 ∧ ham g f = ((-(1 / 2) * ∑ l, ‖M.mu g l‖ : ℝ) : ℂ) • f := by
  classical
  have hnz : ∀ l, (‖M.mu g l‖ : ℂ) ≠ 0 := fun l => by simpa using hmu l
  have hu : ∀ l, ph M g l * ph M g (M.r l) = -1 := by
    intro l
    unfold ph
    rw [norm_mu_r M hM, ← mu_conj M hM]
    have h2 : M.mu g l * conj (M.mu g l) = (‖M.mu g l‖ : ℂ) ^ 2 := by
      rw [Complex.mul_conj, Complex.normSq_eq_norm_sq]; push_cast; rfl
    have hI := Complex.I_mul_I
    have := hnz l
    field_simp
    linear_combination (Complex.I * Complex.I) * h2 + (‖M.mu g l‖ : ℂ) ^ 2 * hI
  set S := univ.filter fun l => ph M g l ≠ Complex.I with hS
  have hL : ∀ l, l ∈ S.toList ↔ ph M g l ≠ Complex.I := by intro l; simp [hS]
  obtain ⟨h1, h2⟩ := M.exists_ground cliff (K_vac M) vac_ne hu hL (nodup_toList S)
  refine ⟨_, h1, ?_⟩
  -- the parity of the number of waves
  have hr : ∀ l, ph M g l ≠ Complex.I → ph M g (M.r l) ≠ Complex.I := by
    intro l h e
    apply h
    have := hu l
    rw [e] at this
    linear_combination (-Complex.I) * this - ph M g l * -Complex.I_mul_I
  have hph : ∀ l, M.om l = 1 → ph M g l = Complex.I := by
    intro l h
    have : M.mu g l = 1 := by unfold mu; rw [h]; norm_num
    unfold ph
    rw [this]
    simp
  have hph1 : ph M g l1 ≠ Complex.I := by
    have : M.mu g l1 = -1 := by unfold mu; rw [hl1]; norm_num; ring
    unfold ph
    rw [this]
    intro e
    simp at e
    have := congrArg Complex.im e
    simp at this
    norm_num at this
  have hr1 : M.r l1 = l1 := M.inj _ _ (by rw [M.om_r, hl1]; norm_num)
  have hodd : (S.card : ZMod 2) = 1 := by
    have hm : l1 ∈ S := by simp [hS, hph1]
    have h0 : ∑ l ∈ S.erase l1, (1 : ZMod 2) = 0 := by
      refine sum_involution (fun l _ => M.r l) (fun l _ => by decide) (fun l hl _ => ?_) (fun l hl => ?_) (fun l _ => M.r_r l)
      · intro e
        have hom := M.om_r l
        rw [e] at hom
        have hsq : M.om l * M.om l = 1 := by
          nth_rw 2 [hom]
          exact mul_inv_cancel₀ (M.ne l)
        rcases mul_self_eq_one_iff.1 hsq with h | h
        · have := (mem_filter.1 (mem_erase.1 hl).2).2
          exact this (hph l h)
        · exact (mem_erase.1 hl).1 (M.inj _ _ (by rw [h, hl1]))
      · rw [mem_erase] at hl ⊢
        refine ⟨fun e => hl.1 ?_, ?_⟩
        · rw [← M.r_r l, e, hr1]
        · rw [hS, mem_filter] at hl ⊢
          exact ⟨mem_univ _, hr l hl.2.2⟩
    rw [← card_erase_add_one hm]
    rw [sum_const, nsmul_one] at h0
    push_cast
    rw [h0, zero_add]
  have hodd' : Odd S.card := by
    rw [← ZMod.natCast_eq_one_iff_odd]
    exact hodd
  refine sector_eigen M hM hN2 g (p := -1) (by norm_num) (by rw [hq]; norm_num) ?_ h2
  rw [par_prodT, length_toList, hodd'.neg_one_pow]

end Waves

/-! ### Momenta -/

/-- A wave with momentum `k`. -/
noncomputable def wave (k : ℝ) : ℂ := Complex.exp (k * Complex.I)

theorem wave_inv (k : ℝ) : (wave k)⁻¹ = conj (wave k) := by
  unfold wave
  rw [← Complex.exp_neg, ← Complex.exp_conj, map_mul, Complex.conj_I, Complex.conj_ofReal]
  ring_nf

theorem wave_neg (k : ℝ) : wave (-k) = (wave k)⁻¹ := by
  unfold wave
  rw [← Complex.exp_neg]
  push_cast
  ring_nf

theorem wave_add_two_pi (k : ℝ) : wave (k + 2 * Real.pi) = wave k := by
  unfold wave
  push_cast
  rw [add_mul, Complex.exp_add, Complex.exp_two_pi_mul_I, mul_one]

theorem wave_pow (k : ℝ) (n : ℕ) : wave k ^ n = wave (n * k) := by
  unfold wave
  rw [← Complex.exp_nat_mul]
  push_cast
  ring_nf

theorem wave_inj {x y : ℝ} (h : wave x = wave y) (hxy : |x - y| < 2 * Real.pi) : x = y := by
  unfold wave at h
  rw [Complex.exp_eq_exp_iff_exists_int] at h
  obtain ⟨n, hn⟩ := h
  have e : x = y + n * (2 * Real.pi) := by
    have := congrArg Complex.im hn
    simpa using this
  have hpi := Real.pi_pos
  have hn0 : n = 0 := by
    by_contra hne
    have h1 : (1 : ℝ) ≤ |(n : ℝ)| := by exact_mod_cast Int.one_le_abs hne
    have : |x - y| = |(n : ℝ)| * (2 * Real.pi) := by
      rw [e, add_sub_cancel_left, abs_mul, abs_of_pos (by positivity : (0 : ℝ) < 2 * Real.pi)]
    rw [this] at hxy
    nlinarith
  rw [e, hn0]; simp

theorem mu_wave (k g : ℝ) :
    ((1 + g) * wave k + (1 - g) * (wave k)⁻¹) / 2 = (Real.cos k : ℂ) + (g * Real.sin k : ℝ) * Complex.I := by
  rw [wave_inv, wave, Complex.exp_mul_I, map_add, map_mul, Complex.conj_I, ← Complex.ofReal_cos, ← Complex.ofReal_sin, Complex.conj_ofReal,
    Complex.conj_ofReal]
  push_cast
  ring

theorem norm_mu_wave (k g : ℝ) : ‖((1 + g) * wave k + (1 - g) * (wave k)⁻¹) / 2‖ = √(1 - (1 - g ^ 2) * Real.sin k ^ 2) := by
  rw [mu_wave, Complex.norm_add_mul_I]
  congr 1
  have := Real.sin_sq_add_cos_sq k
  rw [mul_pow]
  linear_combination this

/-- The waves of the periodic ring. -/
noncomputable def perModes (N : ℕ) [NeZero N] : Modes N 1 where
  om l := wave (2 * Real.pi * l / N)
  r l := -l
  pow l := by
    have : (N : ℝ) ≠ 0 := by exact_mod_cast NeZero.ne N
    rw [wave_pow, show (N : ℝ) * (2 * Real.pi * (l : ℕ) / N) = (l : ℕ) * (2 * Real.pi) by field_simp, ← wave_pow]
    have : wave (2 * Real.pi) = 1 := by
      have := wave_add_two_pi 0
      rw [zero_add] at this
      rw [this]
      simp [wave]
    rw [this, one_pow]
  inj l m h := by
    have hN : (0 : ℝ) < N := by exact_mod_cast Nat.pos_of_ne_zero (NeZero.ne N)
    have hpi := Real.pi_pos
    have h1 : (l : ℝ) < N := by exact_mod_cast l.2
    have h2 : (m : ℝ) < N := by exact_mod_cast m.2
    have h3 : (0 : ℝ) ≤ (l : ℕ) := Nat.cast_nonneg _
    have h4 : (0 : ℝ) ≤ (m : ℕ) := Nat.cast_nonneg _
    have := wave_inj h (by
      rw [← sub_div, ← mul_sub, abs_div, abs_of_pos hN, div_lt_iff₀ hN, abs_mul, abs_of_pos (by positivity : (0 : ℝ) < 2 * Real.pi)]
      refine mul_lt_mul_of_pos_left ?_ (by positivity)
      rw [abs_lt]
      constructor <;> linarith)
    have : ((l : ℕ) : ℝ) = (m : ℕ) := by
      field_simp at this
      linarith
    exact Fin.ext (by exact_mod_cast this)
  ne l := Complex.exp_ne_zero _
  om_r l := by
    have hN : (N : ℝ) ≠ 0 := by exact_mod_cast NeZero.ne N
    rw [← wave_neg]
    by_cases h : l = 0
    · subst h
      simp
    · have : ((-l : Fin N) : ℕ) = N - l := by
        rw [Fin.val_neg, if_neg h]
      rw [this, Nat.cast_sub l.2.le, ← wave_add_two_pi (-_)]
      congr 1
      field_simp
      ring

/-- The waves of the antiperiodic ring. -/
noncomputable def antiModes (N : ℕ) [NeZero N] : Modes N (-1) where
  om l := wave (Real.pi * (2 * l + 1) / N)
  r l := l.rev
  pow l := by
    have : (N : ℝ) ≠ 0 := by exact_mod_cast NeZero.ne N
    rw [wave_pow, show (N : ℝ) * (Real.pi * (2 * (l : ℕ) + 1) / N) = (2 * (l : ℕ) + 1 : ℕ) * Real.pi by push_cast; field_simp, ← wave_pow]
    have : wave Real.pi = -1 := by simp [wave]
    rw [this, pow_succ, pow_mul]
    norm_num
  inj l m h := by
    have hN : (0 : ℝ) < N := by exact_mod_cast Nat.pos_of_ne_zero (NeZero.ne N)
    have hpi := Real.pi_pos
    have h1 : (l : ℝ) < N := by exact_mod_cast l.2
    have h2 : (m : ℝ) < N := by exact_mod_cast m.2
    have h3 : (0 : ℝ) ≤ (l : ℕ) := Nat.cast_nonneg _
    have h4 : (0 : ℝ) ≤ (m : ℕ) := Nat.cast_nonneg _
    have := wave_inj h (by
      rw [← sub_div, ← mul_sub, abs_div, abs_of_pos hN, div_lt_iff₀ hN, abs_mul, abs_of_pos hpi,
        show (2 * ((l : ℕ) : ℝ) + 1 - (2 * (m : ℕ) + 1)) = 2 * ((l : ℕ) - (m : ℕ)) by ring, abs_mul, abs_of_pos (by norm_num : (0 : ℝ) < 2), ← mul_assoc,
        mul_comm Real.pi 2]
      refine mul_lt_mul_of_pos_left ?_ (by positivity)
      rw [abs_lt]
      constructor <;> linarith)
    have : ((l : ℕ) : ℝ) = (m : ℕ) := by
      field_simp at this
      linarith
    exact Fin.ext (by exact_mod_cast this)
  ne l := Complex.exp_ne_zero _
  om_r l := by
    have hN : (N : ℝ) ≠ 0 := by exact_mod_cast NeZero.ne N
    rw [← wave_neg, Fin.val_rev, Nat.cast_sub (by have := l.2; omega), ← wave_add_two_pi (-_)]
    congr 1
    push_cast
    field_simp
    ring

/-! ### The ground state -/

/-- The smallest energy of the cyclic XY model. -/
theorem ground [NeZero N] (hN : N % 4 = 2) {g : ℝ} (hg : |g| ≤ 1) {E : ℝ}
    (hE : E = -(1 / 2) * ∑ l ∈ range N, √(1 - (1 - g ^ 2) * Real.sin (2 * Real.pi * l / N) ^ 2)) :
    (∀ f : Vec N, E * (ip f f).re ≤ (ip f (ham g f)).re) ∧ ∃ f : Vec N, f ≠ 0 ∧ ham g f = (E : ℂ) • f := by
  have hN2 : 2 ≤ N := by omega
  have hN0 : (N : ℝ) ≠ 0 := by exact_mod_cast NeZero.ne N
  have g2 : g ^ 2 ≤ 1 := by rw [sq_le_one_iff_abs_le_one]; exact hg
  have hle := (sum_energy_le hN (c := 1 - g ^ 2) (by linarith) (by linarith [sq_nonneg g])).1
  have e1 : ∑ l, ‖(perModes N).mu g l‖ = ∑ l ∈ range N, √(1 - (1 - g ^ 2) * Real.sin (2 * Real.pi * l / N) ^ 2) := by
    rw [← Fin.sum_univ_eq_sum_range fun l : ℕ => √(1 - (1 - g ^ 2) * Real.sin (2 * Real.pi * l / N) ^ 2)]
    exact sum_congr rfl fun l _ => norm_mu_wave _ _
  have e2 : ∑ l, ‖(antiModes N).mu g l‖ = ∑ l ∈ range N, √(1 - (1 - g ^ 2) * Real.sin (Real.pi * (2 * l + 1) / N) ^ 2) := by
    rw [← Fin.sum_univ_eq_sum_range fun l : ℕ => √(1 - (1 - g ^ 2) * Real.sin (Real.pi * (2 * l + 1) / N) ^ 2)]
    exact sum_congr rfl fun l _ => norm_mu_wave _ _
  refine ⟨fun f => ?_, ?_⟩
  · -- the two parities
    set fp : Vec N := (1 / 2 : ℂ) • (f + par f) with hfp
    set fm : Vec N := (1 / 2 : ℂ) • (f + (-1 : ℂ) • par f) with hfm
    have hf : f = fp + fm := by
      funext s
      simp only [hfp, hfm, Pi.add_apply, Pi.smul_apply, smul_eq_mul]
      ring
    have pp : par fp = (1 : ℂ) • fp := by
      rw [hfp, map_smul, map_add, par_par, one_smul, add_comm]
    have pm : par fm = (-1 : ℂ) • fm := by
      rw [hfm, map_smul, map_add, map_smul, par_par, smul_comm (-1 : ℂ), smul_add (-1 : ℂ), smul_smul (-1 : ℂ), add_comm]
      norm_num
    have cross : ∀ x y : Vec N, ∀ c d : ℂ, par x = c • x → par y = d • y → conj c ≠ d → ip x y = 0 := by
      intro x y c d hx hy hcd
      have := ip_par x y
      rw [hx, hy, ip_smul_left, ip_smul_right] at this
      have : (conj c - d) * ip x y = 0 := by rw [sub_mul, this, sub_self]
      exact (mul_eq_zero.1 this).resolve_left (sub_ne_zero.2 hcd)
    have hpp : par (ham g fp) = (1 : ℂ) • ham g fp := by rw [par_ham, pp, map_smul]
    have hpm : par (ham g fm) = (-1 : ℂ) • ham g fm := by rw [par_ham, pm, map_smul]
    have n1 : conj (1 : ℂ) ≠ -1 := by rw [map_one]; norm_num
    have n2 : conj (-1 : ℂ) ≠ 1 := by rw [map_neg, map_one]; norm_num
    have x1 : ip f f = ip fp fp + ip fm fm := by
      conv_lhs => rw [hf]
      rw [ip_add_left, ip_add_right, ip_add_right, cross fp fm _ _ pp pm n1, cross fm fp _ _ pm pp n2]
      ring
    have x2 : ip f (ham g f) = ip fp (ham g fp) + ip fm (ham g fm) := by
      conv_lhs => rw [hf]
      rw [map_add, ip_add_left, ip_add_right, ip_add_right, cross fp _ _ _ pp hpm n1, cross fm _ _ _ pm hpp n2]
      ring
    have b1 := sector_bound (antiModes N) (fun l => wave_inv _) hN2 g (p := 1) (by norm_num) rfl pp
    have b2 := sector_bound (perModes N) (fun l => wave_inv _) hN2 g (p := -1) (by norm_num) (by norm_num) pm
    rw [e2] at b1
    rw [e1, ← hE] at b2
    rw [x1, x2, Complex.add_re, Complex.add_re]
    have i1 := ip_self_nonneg fp
    have : E * (ip fp fp).re ≤ -(1 / 2) * (∑ l ∈ range N, √(1 - (1 - g ^ 2) * Real.sin (Real.pi * (2 * l + 1) / N) ^ 2)) * (ip fp fp).re := by
      refine mul_le_mul_of_nonneg_right ?_ i1
      rw [hE]
      linarith
    linarith
  · rw [hE, ← e1]
    refine exists_eigen (perModes N) (fun l => wave_inv _) (by omega) hN2 rfl g (fun l h => ?_) ⟨N / 2, by omega⟩ ?_
    · have hc : Real.cos (2 * Real.pi * (l : ℕ) / N) = 0 := by
        have := congrArg Complex.re ((mu_wave (2 * Real.pi * (l : ℕ) / N) g).symm.trans h)
        rw [Complex.add_re, Complex.ofReal_re, Complex.re_ofReal_mul, Complex.I_re, mul_zero, add_zero, Complex.zero_re] at this
        exact this
      have hw : (perModes N).om l ^ 2 = -1 := by
        change wave _ ^ 2 = -1
        have hs := Real.sin_sq_add_cos_sq (2 * Real.pi * (l : ℕ) / N)
        rw [hc] at hs
        rw [wave, Complex.exp_mul_I, ← Complex.ofReal_cos, ← Complex.ofReal_sin, hc, Complex.ofReal_zero, zero_add, mul_pow, Complex.I_sq,
          ← Complex.ofReal_pow, show Real.sin (2 * Real.pi * (l : ℕ) / N) ^ 2 = 1 by linarith]
        simp
      have hp := (perModes N).pow l
      obtain ⟨m, hm⟩ : ∃ m, N = 2 * (2 * m + 1) := ⟨N / 4, by omega⟩
      have : (perModes N).om l ^ N = ((perModes N).om l ^ 2) ^ (2 * m + 1) := by
        rw [← pow_mul, ← hm]
      rw [this, hw, pow_succ, pow_mul] at hp
      norm_num at hp
    · change wave (2 * Real.pi * ((N / 2 : ℕ) : ℝ) / N) = -1
      have : ((N / 2 : ℕ) : ℝ) = N / 2 := by
        rw [Nat.cast_div (by omega) (by norm_num)]; norm_num
      rw [this, show 2 * Real.pi * ((N : ℝ) / 2) / N = Real.pi by field_simp]
      simp [wave]

/-! ### Anisotropies larger than one -/

/-- The smallest energy is `E`. -/
def IsGround [NeZero N] (g E : ℝ) : Prop :=
  (∀ f : Vec N, E * (ip f f).re ≤ (ip f (ham g f)).re) ∧ ∃ f : Vec N, f ≠ 0 ∧ ham g f = (E : ℂ) • f

theorem IsGround.transfer [NeZero N] {g h E c : ℝ} (hE : IsGround (N := N) h E) (hc : 0 < c) (U U' : Vec N → Vec N)
    (hU : ∀ f, U (U' f) = f) (hU0 : U 0 = 0) (hU' : ∀ f, U' (U f) = f) (hs : ∀ (c : ℂ) f, U (c • f) = c • U f)
    (hip : ∀ f g, ip (U f) (U g) = ip f g) (hh : ∀ f, ham g (U f) = (c : ℂ) • U (ham h f)) : IsGround (N := N) g (c * E) := by
  refine ⟨fun f => ?_, ?_⟩
  · rw [← hU f, hh, ip_smul_right, hip, hip, Complex.re_ofReal_mul, mul_assoc]
    exact mul_le_mul_of_nonneg_left (hE.1 _) hc.le
  · obtain ⟨f, f0, hf⟩ := hE.2
    refine ⟨U f, fun e => f0 ?_, ?_⟩
    · have e0 : U' (U 0) = 0 := hU' 0
      rw [hU0] at e0
      rw [← hU' f, e, e0]
    · rw [hh, hf, hs, smul_smul]
      push_cast
      rfl

/-- Flip every second spin. -/
def flipOdd (s : Cfg N) : Cfg N := fun j => if (j : ℕ) % 2 = 1 then !s j else s j

theorem flipOdd_flipOdd (s : Cfg N) : flipOdd (flipOdd s) = s := by
  funext j
  unfold flipOdd
  split_ifs <;> simp

theorem flipOdd_flip (j : Fin N) (s : Cfg N) : flipOdd (flip j s) = flip j (flipOdd s) := by
  funext i
  by_cases h : i = j
  · subst h
    unfold flipOdd
    rw [flip_same, flip_same]
    split_ifs <;> rfl
  · unfold flipOdd
    rw [flip_ne h, flip_ne h]

/-- Neighbours on a ring with an even number of sites have different parities. -/
theorem odd_succ [NeZero N] (hN : N % 2 = 0) (i : Fin N) : ((i + 1 : Fin N) : ℕ) % 2 = 1 ↔ ¬ (i : ℕ) % 2 = 1 := by
  rw [val_succ]
  have := i.2
  by_cases h : (i : ℕ) + 1 = N
  · rw [h, Nat.mod_self]; omega
  · rw [Nat.mod_eq_of_lt (a := (i : ℕ) + 1) (by omega)]; omega

theorem zz_flipOdd [NeZero N] (hN : N % 2 = 0) (i : Fin N) (s : Cfg N) :
    zz (flipOdd s i) * zz (flipOdd s (i + 1)) = - (zz (s i) * zz (s (i + 1))) := by
  unfold flipOdd
  have := odd_succ hN i
  by_cases h : (i : ℕ) % 2 = 1
  · rw [if_pos h, if_neg (by rw [this]; simpa using h), zz_not]; ring
  · rw [if_neg h, if_pos (this.2 h), zz_not]; ring

theorem ham_apply [NeZero N] (g : ℂ) (f : Vec N) (s : Cfg N) : ham g f s = ∑ i : Fin N, ((1 + g) / 4 * f (flip i (flip (i + 1) s))
    - (1 - g) / 4 * (zz (s i) * zz (s (i + 1)) * f (flip i (flip (i + 1) s)))) := rfl

theorem ham_flipOdd [NeZero N] (hN : N % 2 = 0) {g : ℝ} (hg : g ≠ 0) (f : Vec N) :
    ham g (fun s => f (flipOdd s)) = (g : ℂ) • fun s => ham ((g⁻¹ : ℝ) : ℂ) f (flipOdd s) := by
  funext s
  have hg' : (g : ℂ) ≠ 0 := by exact_mod_cast hg
  rw [Pi.smul_apply, smul_eq_mul, ham_apply, ham_apply, mul_sum]
  refine sum_congr rfl fun i _ => ?_
  rw [flipOdd_flip, flipOdd_flip, zz_flipOdd hN]
  push_cast
  field_simp
  ring

/-- The sign of the number of flipped odd spins. -/
def sgOdd (s : Cfg N) : ℂ := ∏ l : Fin N, if (l : ℕ) % 2 = 1 then zz (s l) else 1

theorem sgOdd_mul (s : Cfg N) : sgOdd s * sgOdd s = 1 := by
  unfold sgOdd
  rw [← prod_mul_distrib]
  refine prod_eq_one fun l _ => ?_
  split_ifs <;> simp

theorem sgOdd_conj (s : Cfg N) : conj (sgOdd s) = sgOdd s := by
  unfold sgOdd
  rw [map_prod]
  refine prod_congr rfl fun l _ => ?_
  split_ifs <;> simp

theorem sgOdd_flip (i : Fin N) (s : Cfg N) : sgOdd (flip i s) = if (i : ℕ) % 2 = 1 then - sgOdd s else sgOdd s := by
  have e : ∏ l ∈ univ.erase i, (if (l : ℕ) % 2 = 1 then zz (flip i s l) else 1) = ∏ l ∈ univ.erase i, (if (l : ℕ) % 2 = 1 then zz (s l) else 1) := by
    refine prod_congr rfl fun l hl => ?_
    rw [flip_ne (mem_erase.1 hl).1]
  unfold sgOdd
  rw [← mul_prod_erase univ _ (mem_univ i), e, ← mul_prod_erase univ (fun l : Fin N => if (l : ℕ) % 2 = 1 then zz (s l) else 1) (mem_univ i), flip_same]
  split_ifs <;> simp

theorem ham_sgOdd [NeZero N] (hN : N % 2 = 0) (g : ℂ) (f : Vec N) :
    ham g (fun s => sgOdd s * f s) = (-1 : ℂ) • fun s => sgOdd s * ham g f s := by
  funext s
  rw [Pi.smul_apply, smul_eq_mul, ham_apply, ham_apply, mul_sum, mul_sum]
  refine sum_congr rfl fun i _ => ?_
  have e : sgOdd (flip i (flip (i + 1) s)) = - sgOdd s := by
    rw [sgOdd_flip, sgOdd_flip]
    have := odd_succ hN i
    by_cases h : (i : ℕ) % 2 = 1
    · rw [if_pos h, if_neg (by rw [this]; simpa using h)]
    · rw [if_neg h, if_pos (this.2 h)]
  rw [e]
  ring

theorem ip_flipOdd (f g : Vec N) : ip (fun s => f (flipOdd s)) (fun s => g (flipOdd s)) = ip f g := by
  unfold ip
  exact Equiv.sum_comp (⟨flipOdd, flipOdd, flipOdd_flipOdd, flipOdd_flipOdd⟩ : Cfg N ≃ Cfg N) fun s => conj (f s) * g s

theorem ip_sgOdd (f g : Vec N) : ip (fun s => sgOdd s * f s) (fun s => sgOdd s * g s) = ip f g := by
  unfold ip
  refine sum_congr rfl fun s _ => ?_
  rw [map_mul, sgOdd_conj]
  linear_combination (conj (f s) * g s) * sgOdd_mul s

/-- Rotations of every second spin map the model with anisotropy `1 / g` to the one with anisotropy `g`. -/
theorem ground_inv [NeZero N] (hN : N % 2 = 0) {g E : ℝ} (hg : g ≠ 0) (hE : IsGround (N := N) g⁻¹ E) : IsGround (N := N) g (|g| * E) := by
  rcases lt_or_gt_of_ne hg with h | h
  · refine hE.transfer (c := |g|) (abs_pos.2 hg) (fun f s => sgOdd s * f (flipOdd s)) (fun f s => sgOdd (flipOdd s) * f (flipOdd s)) ?_ ?_ ?_ ?_ ?_ ?_
    · intro f; funext s
      simp only [flipOdd_flipOdd]
      rw [← mul_assoc, sgOdd_mul, one_mul]
    · funext s; simp
    · intro f; funext s
      simp only [flipOdd_flipOdd]
      rw [← mul_assoc, sgOdd_mul, one_mul]
    · intro c f; funext s; simp; ring
    · intro f g
      rw [ip_sgOdd, ip_flipOdd]
    · intro f
      rw [ham_sgOdd hN g (fun s => f (flipOdd s)), ham_flipOdd hN hg]
      funext s
      rw [abs_of_neg h]
      simp only [Pi.smul_apply, smul_eq_mul]
      push_cast
      ring
  · refine hE.transfer (c := |g|) (abs_pos.2 hg) (fun f s => f (flipOdd s)) (fun f s => f (flipOdd s)) ?_ ?_ ?_ ?_ ?_ ?_
    · intro f; funext s; simp only [flipOdd_flipOdd]
    · rfl
    · intro f; funext s; simp only [flipOdd_flipOdd]
    · intro c f; rfl
    · exact ip_flipOdd
    · intro f
      rw [ham_flipOdd hN hg, abs_of_pos h]

theorem sum_range_shift {f : ℕ → ℝ} {n : ℕ} (hf : ∀ l, f (l + n) = f l) : ∀ m, ∑ l ∈ range n, f (l + m) = ∑ l ∈ range n, f l
  | 0 => rfl
  | m + 1 => by
    have h1 := sum_range_succ (fun l => f (l + m)) n
    have h2 := sum_range_succ' (fun l => f (l + m)) n
    rw [h1] at h2
    simp only [add_assoc, add_comm 1 m] at h2
    rw [add_comm n m, hf m, zero_add] at h2
    rw [← sum_range_shift hf m]
    linarith

/-- For an anisotropy larger than one, the formula for the energy gives the smallest energy in the wrong sector. -/
theorem energy_large {N : ℕ} (hN : N % 4 = 2) {g : ℝ} (hg : 1 < |g|) :
    ∑ l ∈ range N, √(1 - (1 - g ^ 2) * Real.sin (2 * Real.pi * l / N) ^ 2)
      < |g| * ∑ l ∈ range N, √(1 - (1 - g⁻¹ ^ 2) * Real.sin (2 * Real.pi * l / N) ^ 2) := by
  have g0 : g ≠ 0 := by rintro rfl; simp at hg; linarith
  have hg2 : 1 < g ^ 2 := by rw [← sq_abs]; nlinarith
  have hi : g⁻¹ ^ 2 < 1 := by rw [inv_pow]; exact inv_lt_one_of_one_lt₀ hg2
  have hlt := (sum_energy_le hN (c := 1 - g⁻¹ ^ 2) (by linarith) (by linarith [sq_nonneg g⁻¹])).2 (by linarith)
  have hN0 : (N : ℝ) ≠ 0 := by
    have : N ≠ 0 := by rintro rfl; simp at hN
    exact_mod_cast this
  refine lt_of_eq_of_lt ?_ (mul_lt_mul_of_pos_left hlt (by linarith))
  obtain ⟨m, hm⟩ : ∃ m, N = 2 * (2 * m + 1) := ⟨N / 4, by omega⟩
  rw [← sum_range_shift (f := fun l : ℕ => √(1 - (1 - g⁻¹ ^ 2) * Real.sin (Real.pi * (2 * l + 1) / N) ^ 2)) (n := N) ?_ m, mul_sum]
  · refine sum_congr rfl fun l _ => ?_
    have e : Real.pi * (2 * ((l + m : ℕ) : ℝ) + 1) / N = 2 * Real.pi * l / N + Real.pi / 2 := by
      have : (N : ℝ) = 2 * (2 * m + 1) := by exact_mod_cast hm
      push_cast
      rw [div_add_div _ _ hN0 two_ne_zero, div_eq_div_iff hN0 (mul_ne_zero hN0 two_ne_zero)]
      rw [this]
      ring
    rw [e, Real.sin_add_pi_div_two, Real.cos_sq', ← Real.sqrt_sq (abs_nonneg g), ← Real.sqrt_mul (sq_nonneg _), sq_abs]
    congr 1
    field_simp
    ring
  · intro l
    have : Real.pi * (2 * ((l + N : ℕ) : ℝ) + 1) / N = Real.pi * (2 * l + 1) / N + 2 * Real.pi := by
      push_cast
      field_simp
      ring
    rw [this, Real.sin_add_two_pi]

end XY

end Mpnum
