import Verif.Props.C68
import Verif.Props.C60Examples

/-! # Examples for C68 -/

namespace Mpnum

/-- The entangled state of C60: 10000 samples give a distribution within 1/10 with probability 99/100 or more. -/
example : ∃ qr : QR ℂ, QRSpec qr ∧ ∃ p, pmfAsArray qr exPovm2 exState2 (.mode .pmps) 0 .auto = .ok (p, exState2) ∧
    Rand.failProb (do
        let s ← povmSample qr exPovm2 exState2 10000 .cond 1 (.mode .pmps) (some none) 0
        Rand.lift (estPmf [2, 2] (s.array (nsDims [2, 2]).length)))
      (fun e => e.shape = p.shape ∧ sumIdx p.shape (fun y => (((e.get y : ℚ) : ℝ) - p.get y) ^ 2) < (1 / 10) ^ 2)
      ≤ ENNReal.ofReal (1 / 100) := by
  obtain ⟨qr, hqr⟩ := exists_QRSpec (𝕜 := ℂ)
  obtain ⟨p, h1, h2⟩ := C68_est_pmf_all hqr exState2_state exState2_in
    (x := exPovm2) (O := [2, 2]) (D := [2, 2]) (n := 10000) (pack := some none)
    ⟨exPovm2_arg, by simp, by decide, by show _ ≤ _; decide⟩ (by decide) (by norm_num) (method := .cond) (.inl rfl) (g := 1)
    one_pos (eps := 0) le_rfl
  refine ⟨qr, hqr, p, h1, (h2 (1 / 10) (by norm_num)).trans (ENNReal.ofReal_le_ofReal (by norm_num))⟩

/-- The hypotheses of `C68_est_lfun` are met: the number of times the outcome is `[0, 0]`. -/
example : ∃ qr : QR ℂ, QRSpec qr ∧ ∃ p, pmfAsArray qr exPovm2 exState2 (.mode .pmps) 0 .auto = .ok (p, exState2) ∧
    ∀ δ : ℝ, 0 < δ → Rand.failProb (do
        let s ← povmSample qr exPovm2 exState2 50 .direct 1 (.mode .pmps) none 0
        Rand.lift (estLfun [2, 2] (some ⟨[1], fun _ => 1⟩) (some [fun y => if y = [0, 0] then 1 else 0])
          (s.array (nsDims [2, 2]).length) none 0))
      (fun r => r.1.shape = [] ∧ |r.1.get [] - expect (nsDims [2, 2]) p.get (linComb (nsDims [2, 2]) ⟨[1], fun _ => 1⟩
        (some [fun y => if y = [0, 0] then 1 else 0]))| < δ)
      ≤ ENNReal.ofReal (variance (nsDims [2, 2]) p.get (linComb (nsDims [2, 2]) ⟨[1], fun _ => 1⟩
        (some [fun y => if y = [0, 0] then 1 else 0])) / ((50 : ℕ) * δ ^ 2)) := by
  obtain ⟨qr, hqr⟩ := exists_QRSpec (𝕜 := ℂ)
  obtain ⟨p, h1, h2⟩ := C68_est_lfun hqr exState2_state exState2_in
    (x := exPovm2) (O := [2, 2]) (D := [2, 2]) (n := 50)
    ⟨exPovm2_arg, by simp, by decide, trivial⟩ (by norm_num) (method := .direct) (.inr rfl) (g := 1)
    one_pos (eps := 0) le_rfl ⟨[1], fun _ => 1⟩ (some [fun y => if y = [0, 0] then 1 else 0]) rfl
  exact ⟨qr, hqr, p, h1, h2⟩

end Mpnum
