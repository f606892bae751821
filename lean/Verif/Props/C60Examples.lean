import Verif.Props.C60Block
import Verif.Props.C60Sample

/-!
# C60: the hypotheses are met by concrete measurements of an entangled state -/

open Finset Classical
open scoped ComplexOrder

namespace Mpnum

theorem exState2_good : exState2.Good := by
  refine ⟨exState2_isPmps.valid, ?_, ?_⟩
  · intro k t hk
    have hk2 : k < exState2.lt.length := (List.getElem?_eq_some_iff.mp hk).1
    simp only [exState2, List.length_cons, List.length_nil] at hk2 ⊢
    exact ⟨fun h => by omega, fun h => by omega⟩
  · simp [AllPos, exState2, NDArray.lb, NDArray.ph]

theorem exState2_in : StateIn [2, 2] (dm exState2 [1, 1]) (.mode .pmps) exState2 :=
  .pmps [1, 1] exState2_isPmps exState2_good fun _ _ _ _ => rfl

theorem exState2_state : IsState [2, 2] (dm exState2 [1, 1]) := ⟨C42_pmps_psd _ _ _, exState2_trace⟩

theorem exPovm2_arg : PovmArg exPovm2 [2, 2] [2, 2] :=
  ⟨exPovm2_isMpPovm, by simp, by simp [MPA.ranks, exPovm2, NDArray.lb], exPovm2_measurement⟩

/-- Measurement of one site in the computational basis. -/
noncomputable def exPovm1 : MPA ℂ :=
  ⟨[⟨[1, 2, 2, 2, 1], fun i => match i with | [_, y, p, q, _] => if p = y ∧ q = y then 1 else 0 | _ => 0⟩], 0, 1⟩

theorem exPovm1_isMpPovm : IsMpPovm exPovm1 [2] [2] :=
  ⟨⟨by simp [exPovm1], by simp [exPovm1, NDArray.IsLocal, NDArray.ndim, NDArray.lb, NDArray.rb],
    by simp [exPovm1], by simp [exPovm1], by simp [exPovm1, MPA.len]⟩, rfl, rfl, by simp⟩

theorem exPovm1_elem (y p q : ℕ) : exPovm1.elem [y] [p] [q] = if p = y ∧ q = y then 1 else 0 := by
  simp [MPA.elem, MPA.val, entry, exPovm1, triples, pairs, mp, NDArray.at3, NDArray.rb]

theorem exInB_one {I : List ℕ} {d : ℕ} (h : InB I [d]) : ∃ i, I = [i] ∧ i < d := by
  match I, h with
  | [i], .cons h .nil => exact ⟨i, rfl, h⟩

theorem exState2_val' (p p' : ℕ) : exState2.val [[p, 0], [p', 0]]
    = if p = 0 ∧ p' = 0 then 3 / 5 else if p = 1 ∧ p' = 1 then 4 / 5 * Complex.I else 0 := exState2_val p p' 0 0

theorem exPovm1_arg : PovmArg exPovm1 [2] [2] := by
  refine ⟨exPovm1_isMpPovm, by simp, by simp [MPA.ranks, exPovm1], ?_, ?_⟩
  · intro Y hY
    obtain ⟨y, rfl, hy⟩ := exInB_one hY
    unfold Psd
    have : (Matrix.of fun I J : {I // InB I [2]} => exPovm1.elem [y] I J)
        = Matrix.vecMulVec (fun I : {I // InB I [2]} => if (I : List ℕ) = [y] then (1 : ℂ) else 0)
          (star fun I : {I // InB I [2]} => if (I : List ℕ) = [y] then (1 : ℂ) else 0) := by
      ext ⟨I, hI⟩ ⟨J, hJ⟩
      obtain ⟨i, rfl, _⟩ := exInB_one hI
      obtain ⟨j, rfl, _⟩ := exInB_one hJ
      simp only [Matrix.of_apply, Matrix.vecMulVec_apply, exPovm1_elem, Pi.star_apply]
      by_cases h1 : i = y <;> by_cases h2 : j = y <;> simp [h1, h2]
    rw [this]
    exact Matrix.posSemidef_vecMulVec_self_star _
  · intro I J hI hJ
    obtain ⟨i, rfl, h1⟩ := exInB_one hI
    obtain ⟨j, rfl, h2⟩ := exInB_one hJ
    simp only [sumIdx, exPovm1_elem, Finset.sum_range_succ, Finset.sum_range_zero]
    interval_cases i <;> interval_cases j <;> simp

/-- The measurement of every single site of the entangled state: outcome 0 has the probability 9/25 on both sites. -/
example : ∃ qr : QR ℂ, QRSpec qr ∧ ∃ p q, blockPmfsAsArray qr exPovm1 exState2 (.mode .pmps) 0 none = .ok [p, q] ∧
    p.shape = [2] ∧ p.get [0] = 9 / 25 ∧ q.get [0] = 9 / 25 := by
  obtain ⟨qr, hqr⟩ := exists_QRSpec (𝕜 := ℂ)
  obtain ⟨ps, h1, h2⟩ := C60_block_default hqr exPovm1 exState2 [2] 1 2 2 (by omega) exPovm1_arg .pmps _ exState2_in exState2_state 0 le_rfl
  have hr : List.range (2 + 1 - 1) = [0, 1] := rfl
  rw [hr] at h2
  cases h2 with
  | @cons _ p _ _ hp h2 =>
    cases h2 with
    | @cons _ q _ _ hq h2 =>
      cases h2
      refine ⟨qr, hqr, p, q, h1, hp.shape, ?_, ?_⟩
      · have := hp.born [0] (by simp)
        rw [show squeezeIdx [2] [0] = [0] from rfl] at this
        apply Complex.ofReal_injective
        rw [this]
        simp only [bornRule, margOp, dm, sumIdx, exState2_val, exPovm1_elem, List.replicate, Finset.sum_range_succ, Finset.sum_range_zero]
        simp [exState2_val']
        norm_num
      · have := hq.born [0] (by simp)
        rw [show squeezeIdx [2] [0] = [0] from rfl] at this
        apply Complex.ofReal_injective
        rw [this]
        simp only [bornRule, margOp, dm, sumIdx, exState2_val, exPovm1_elem, List.replicate, Finset.sum_range_succ, Finset.sum_range_zero]
        simp [exState2_val']
        norm_num

/-- The hypotheses of the list functions with two MP-POVMs are met. -/
example : ∃ qr : QR ℂ, QRSpec qr ∧
    (∃ ps, pmfAsArrayList qr [exPovm2, exPovm2] exState2 (.mode .pmps) 0 = .ok (ps, exState2) ∧ ps.length = 2) ∧
    (∃ ps ψ', pmfList qr [exPovm2, exPovm2] exState2 (.mode .pmps) = .ok (ps, ψ') ∧ ps.length = 2) ∧
    (∃ ps, blockPmfsAsArrayList qr [exPovm1, exPovm1, exPovm1] exState2 (.mode .pmps) 0
      (some ⟨some 1, some [1, 0, 1], none⟩) = .ok ps ∧ ps.length = 3) ∧
    (∀ Ys Zs : List (List ℕ), Ys.length = 3 → Zs.length = 3 → (∀ Y ∈ Ys, InB Y [2, 2]) → (∀ Z ∈ Zs, InB Z [2, 2]) →
      (sampleList qr 3 .cond (1 : ℕ) (.mode .pmps) (some none) 0 [exPovm2, exPovm2] exState2).prob
          [sampleCode [2, 2] (some none) (Ys.map (squeezeIdx [2, 2])), sampleCode [2, 2] (some none) (Zs.map (squeezeIdx [2, 2]))]
        = (Ys.map (bornProb [2, 2] exPovm2.elem (dm exState2 [1, 1]))).prod
          * (Zs.map (bornProb [2, 2] exPovm2.elem (dm exState2 [1, 1]))).prod) := by
  obtain ⟨qr, hqr⟩ := exists_QRSpec (𝕜 := ℂ)
  have hq : ∀ q ∈ [(exPovm2, [2, 2]), (exPovm2, [2, 2])], PovmArg q.1 q.2 [2, 2] := by
    simp [exPovm2_arg]
  obtain ⟨ps, h1, h2⟩ := C60_list_pmf_as_array hqr [(exPovm2, [2, 2]), (exPovm2, [2, 2])] [2, 2] (by simp) hq _ exState2 _ exState2_in
    exState2_state 0 le_rfl
  obtain ⟨ps', ψ', g1, g2, _⟩ := C60_list_pmf hqr [(exPovm2, [2, 2]), (exPovm2, [2, 2])] [2, 2] (by simp) hq _ exState2 _ exState2_in
  obtain ⟨ps'', k1, k2⟩ := C60_list_block hqr exState2 [2, 2] .pmps _ exState2_in exState2_state 0 le_rfl ⟨some 1, some [1, 0, 1], none⟩
    [(1, 2), (0, 1), (1, 2)] (Windows.starts 1 [1, 0, 1] (by simp)) [(exPovm1, [2]), (exPovm1, [2]), (exPovm1, [2])]
    (.cons exPovm1_arg (.cons exPovm1_arg (.cons exPovm1_arg .nil)))
  refine ⟨qr, hqr, ⟨ps, h1, h2.length_eq.symm⟩, ⟨ps', ψ', g1, g2.length_eq.symm⟩, ⟨ps'', k1, ?_⟩, fun Ys Zs hY hZ hYs hZs => ?_⟩
  · rw [← k2.length_eq]; rfl
  · have hs : ∀ q ∈ [(exPovm2, [2, 2]), (exPovm2, [2, 2])], SampleArg q.1 q.2 [2, 2] 3 (some none) := by
      have : SampleArg exPovm2 [2, 2] [2, 2] 3 (some none) := ⟨exPovm2_arg, by simp, by decide, by show _ ≤ _; decide⟩
      simp [this]
    have := (C60_list_sample hqr [2, 2] _ exState2_state (.mode .pmps) 3 (some none) .cond (.inl rfl) 1 one_pos 0 le_rfl _ hs
      exState2 exState2_in).1 [Ys, Zs] (.cons ⟨hY, hYs⟩ (.cons ⟨hZ, hZs⟩ .nil))
    simpa using this

end Mpnum
