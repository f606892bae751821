import Verif.Props.C57Example

/-! # C57: estimates of probabilities from samples of a list of POVMs -/

open Finset Classical

namespace Mpnum

/-- A POVM and its samples: the number of outcomes on each site, the number of samples, the array of samples and the
outcomes. -/
structure Source where
  povm : MPA ℂ
  dims : List ℕ
  n : ℕ
  samples : NDArray ℤ
  outcome : ℕ → List ℕ

/-- Specification: the conditions under which `est_pmf_from` returns a result. -/
def Source.Accepted (q : Source) (x : MPA ℂ) (O D : List ℕ) (eps : ℝ) : Prop :=
  (∃ Y, InB Y O ∧ IsGiven x q.povm O q.dims D Y) → ∃ c,
    IdentityFraction D (givenSum x O (IsGiven x q.povm O q.dims D)) (∃ Y, InB Y O ∧ ¬ IsGiven x q.povm O q.dims D Y) eps c ∧
    0 < q.n ∧ |(sumIdx O fun Y => estimate x q.povm O q.dims D q.n q.outcome Y) - c| ≤ eps

/-- Specification: the weight of the estimate of the probability of `Y` from one of the POVMs. -/
noncomputable def Source.weight (q : Source) (x : MPA ℂ) (O D Y : List ℕ) : ℕ :=
  if IsGiven x q.povm O q.dims D Y then usedSamples x q.povm O q.dims D q.n q.outcome else 0

theorem source_ok {qr : QR ℂ} (hqr : QRSpec qr) {x : MPA ℂ} {O D : List ℕ} {q : Source}
    (ha : EstArgs x q.povm O q.dims D) (hs : SamplesAre q.dims q.n q.samples q.outcome) {eps : ℝ} (heps : 0 ≤ eps) :
    (q.Accepted x O D eps → ∃ e, estPmfFrom qr x q.povm q.samples eps = .ok e ∧
      ∀ Y, InB Y O → (if (e.1.get (squeezeIdx O Y)).isSome then e.2 else 0) = q.weight x O D Y ∧
        (e.1.get (squeezeIdx O Y)).getD 0 * (e.2 : ℝ)
          = q.weight x O D Y * estimate x q.povm O q.dims D q.n q.outcome Y) ∧
    (¬ q.Accepted x O D eps → estPmfFrom qr x q.povm q.samples eps = .error .assertion) := by
  obtain ⟨h1, h2, h3⟩ := C57_est_pmf_from hqr x q.povm O q.dims D ha q.n q.samples q.outcome hs eps heps
  unfold Source.Accepted Source.weight
  by_cases hg : ∃ Y, InB Y O ∧ IsGiven x q.povm O q.dims D Y
  · constructor
    · intro h
      obtain ⟨c, hc, hn, hle⟩ := h hg
      obtain ⟨e, he, -, hv⟩ := h2 hg c hc hn hle
      refine ⟨_, he, fun Y hY => ?_⟩
      simp only
      rw [hv Y hY]
      by_cases hY' : IsGiven x q.povm O q.dims D Y
      · simp only [if_pos hY', Option.isSome_some, if_true, Option.getD_some]
        exact ⟨trivial, mul_comm _ _⟩
      · simp [if_neg hY']
    · intro h
      refine h3 hg fun c hc => ?_
      by_contra hcon
      push Not at hcon
      exact h fun _ => ⟨c, hc, Nat.pos_of_ne_zero hcon.1, hcon.2⟩
  · constructor
    · intro _
      obtain ⟨e, he, -, hv⟩ := h1 fun Y hY hY' => hg ⟨Y, hY, hY'⟩
      refine ⟨_, he, fun Y hY => ?_⟩
      simp only
      rw [hv Y hY, if_neg fun h => hg ⟨Y, hY, h⟩]
      simp
    · intro h
      exact absurd (fun h' => absurd h' hg) h

/-- C57: the numbers of MP-POVMs and of sets of samples must agree. -/
theorem C57_mpps_lengths (qr : QR ℂ) (x : MPA ℂ) (mpps : List (MPA ℂ)) (samples : List (NDArray ℤ)) (eps : ℝ)
    (h : mpps.length ≠ samples.length) : estPmfFromMpps qr x mpps samples eps = .error .assertion := by
  unfold estPmfFromMpps
  rw [pyAssert, if_neg h]
  rfl

/-- C57: `est_pmf_from_mpps(other, samples, eps)` returns the average of the estimates from the individual POVMs,
weighted with the numbers of samples that were used.  There is no value if no sample was used.  If one of the POVMs
is rejected, so is the list. -/
theorem C57_est_pmf_from_mpps {qr : QR ℂ} (hqr : QRSpec qr) (x : MPA ℂ) (O D : List ℕ) (hx : IsMpPovm x O D)
    (qs : List Source) (ha : ∀ q ∈ qs, EstArgs x q.povm O q.dims D)
    (hs : ∀ q ∈ qs, SamplesAre q.dims q.n q.samples q.outcome) (eps : ℝ) (heps : 0 ≤ eps) :
    ((∀ q ∈ qs, q.Accepted x O D eps) →
      ∃ p used, estPmfFromMpps qr x (qs.map Source.povm) (qs.map Source.samples) eps = .ok (p, used) ∧
        p.shape = nsDims O ∧ used.shape = nsDims O ∧
        ∀ Y, InB Y O → used.get (squeezeIdx O Y) = (qs.map fun q => q.weight x O D Y).sum ∧
          p.get (squeezeIdx O Y) = if (qs.map fun q => q.weight x O D Y).sum = 0 then none
            else some ((qs.map fun q => q.weight x O D Y * estimate x q.povm O q.dims D q.n q.outcome Y).sum
              / ((qs.map fun q => q.weight x O D Y).sum : ℕ))) ∧
    ((∃ q ∈ qs, ¬ q.Accepted x O D eps) →
      estPmfFromMpps qr x (qs.map Source.povm) (qs.map Source.samples) eps = .error .assertion) := by
  have hzip : (qs.map Source.povm).zip (qs.map Source.samples) = qs.map fun q => (q.povm, q.samples) := by
    rw [List.zip_map']
  unfold estPmfFromMpps
  rw [pyAssert_true (by simp), ok_bind, hzip, List.mapM_map, hx.outdims]
  constructor
  · intro hacc
    have : ∃ es, (qs.mapM ((fun q => estPmfFrom qr x q.1 q.2 eps) ∘ fun q : Source => (q.povm, q.samples))) = .ok es ∧
        ∀ Y, InB Y O → (es.map fun e => if (e.1.get (squeezeIdx O Y)).isSome then e.2 else 0)
            = (qs.map fun q => q.weight x O D Y) ∧
          (es.map fun e => (e.1.get (squeezeIdx O Y)).getD 0 * (e.2 : ℝ))
            = (qs.map fun q => q.weight x O D Y * estimate x q.povm O q.dims D q.n q.outcome Y) := by
      clear hzip
      induction qs with
      | nil => exact ⟨[], rfl, by simp⟩
      | cons q qs ih =>
        obtain ⟨es, h1, h2⟩ := ih (fun q hq => ha q (by simp [hq])) (fun q hq => hs q (by simp [hq]))
          (fun q hq => hacc q (by simp [hq]))
        obtain ⟨e, h3, h4⟩ := (source_ok hqr (ha q (by simp)) (hs q (by simp)) heps).1 (hacc q (by simp))
        refine ⟨e :: es, ?_, fun Y hY => ?_⟩
        · rw [List.mapM_cons, h1]
          simp only [Function.comp, h3, ok_bind]; rfl
        · simp only [List.map_cons]
          rw [(h4 Y hY).1, (h4 Y hY).2, (h2 Y hY).1, (h2 Y hY).2]
          exact ⟨rfl, rfl⟩
    obtain ⟨es, h1, h2⟩ := this
    rw [h1, ok_bind]
    refine ⟨_, _, rfl, rfl, rfl, fun Y hY => ?_⟩
    simp only
    rw [(h2 Y hY).1, (h2 Y hY).2]
    exact ⟨rfl, rfl⟩
  · rintro ⟨q, hq, hr⟩
    have : (qs.mapM ((fun q => estPmfFrom qr x q.1 q.2 eps) ∘ fun q : Source => (q.povm, q.samples))) = .error .assertion := by
      clear hzip
      induction qs with
      | nil => simp at hq
      | cons p qs ih =>
        rw [List.mapM_cons]
        obtain ⟨h3, h4⟩ := source_ok hqr (ha p (by simp)) (hs p (by simp)) heps
        by_cases hp : p.Accepted x O D eps
        · obtain ⟨e, h3, -⟩ := h3 hp
          simp only [Function.comp, h3, ok_bind]
          rcases List.mem_cons.1 hq with rfl | hq
          · exact absurd hp hr
          · have := ih (fun q hq => ha q (by simp [hq])) (fun q hq => hs q (by simp [hq])) hq
            rw [this]; rfl
        · simp only [Function.comp, h4 hp]; rfl
    rw [this]; rfl

/-- Non-vacuity: two sources, both measurements in the computational basis; all samples are used. -/
example {qr : QR ℂ} (hqr : QRSpec qr) (n m : ℕ) (hn : 0 < n) (hm : 0 < m) (s t : NDArray ℤ) (W V : ℕ → List ℕ)
    (hs : SamplesAre [2] n s W) (ht : SamplesAre [2] m t V) :
    ∃ r, estPmfFromMpps qr (povm1 2 basisElem) [povm1 2 basisElem, povm1 2 basisElem] [s, t] (1 / 8) = .ok r := by
  have hacc : ∀ (n : ℕ) (hn : 0 < n) (s : NDArray ℤ) (W : ℕ → List ℕ) (hs : SamplesAre [2] n s W),
      (⟨povm1 2 basisElem, [2], n, s, W⟩ : Source).Accepted (povm1 2 basisElem) [2] [2] (1 / 8) := by
    intro n hn s W hs _
    refine ⟨1, C57_fraction_exact [2] (by simp) _ 1 one_pos (fun I J hI hJ => basis_givenSum hI hJ) _ _ (by norm_num)
        (fun _ => le_rfl) (fun _ => rfl), hn, ?_⟩
    have := basis_estimates n hn W hs.inB
    simp only
    rw [this]; norm_num
  obtain ⟨p, used, h, -⟩ := (C57_est_pmf_from_mpps hqr _ [2] [2] basis_args.self
    [⟨povm1 2 basisElem, [2], n, s, W⟩, ⟨povm1 2 basisElem, [2], m, t, V⟩] (by simp [basis_args]) (by simp [hs, ht])
    (1 / 8) (by norm_num)).1 (by
      intro q hq
      rcases List.mem_cons.1 hq with rfl | hq
      · exact hacc n hn s W hs
      · obtain rfl := List.mem_singleton.1 hq
        exact hacc m hm t V ht)
  exact ⟨_, h⟩

end Mpnum
