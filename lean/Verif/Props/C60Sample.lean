import Verif.Props.C60

/-!
# C60: `MPPovmList.sample` -/

open Finset Classical

namespace Mpnum

/-- Specification: the conditions on the arguments of `sample` for one MP-POVM. -/
structure SampleArg (x : MPA ℂ) (O D : List ℕ) (n : ℕ) (pack : Option (Option (ℤ × ℤ))) : Prop where
  arg : PovmArg x O D
  small : ∀ o ∈ O, o ≤ 255
  outcomes : nsDims O ≠ []
  pack : PackOK O n pack

theorem StateIn.sample {D : List ℕ} {ρ : List ℕ → List ℕ → ℂ} {mode : PovmMode} {ψ : MPA ℂ} (h : StateIn D ρ mode ψ)
    (hρ : IsState D ρ) {qr : QR ℂ} (hqr : QRSpec qr) {x : MPA ℂ} {O : List ℕ} {n : ℕ} {pack : Option (Option (ℤ × ℤ))}
    (hx : SampleArg x O D n pack) {method : SampleMethod} (hme : method = .cond ∨ method = .direct) {g : ℕ} (hg : 0 < g)
    {eps : ℝ} (he : 0 ≤ eps) :
    SampleLaw O (bornProb D x.elem ρ) n (sampleCode O pack) (povmSample qr x ψ n method g mode pack eps) ∧
      ∃ ψ', sampleState qr x ψ method mode eps = .ok ψ' ∧ StateIn D ρ mode ψ' := by
  have hlen : x.len = ψ.len := by rw [h.len]; exact hx.arg.povm.lenx
  rcases hme with rfl | rfl
  · obtain ⟨p, ψ', h1, h2, h3, _⟩ := h.pmf hqr hx.arg
    refine ⟨C46_cond qr x ψ ψ' p O D ρ hx.arg.povm hlen hx.arg.pos hx.small hx.outcomes hx.arg.measurement hρ mode h1 h2 n g hg
      pack hx.pack eps he, ψ', ?_, h3⟩
    unfold sampleState
    simp only [h1, ok_bind]
    rfl
  · obtain ⟨a, h1, h2⟩ := h.raw hqr hx.arg
    obtain ⟨p, g1, _⟩ := h.array hρ hqr hx.arg he
    refine ⟨C46_direct qr x ψ ψ a O D ρ hx.arg.povm hlen hx.arg.pos hx.small hx.outcomes hx.arg.measurement hρ mode h1 h2 n g
      pack hx.pack eps he, ψ, ?_, h⟩
    unfold sampleState
    simp only [g1, ok_bind]
    rfl

/-- C60: `MPPovmList.sample` draws independent samples from all MP-POVMs: the probability of any sequence of
results is the product of the probabilities of all samples.  It always succeeds and returns one result per MP-POVM. -/
theorem C60_list_sample {qr : QR ℂ} (hqr : QRSpec qr) (D : List ℕ) (ρ : List ℕ → List ℕ → ℂ) (hρ : IsState D ρ)
    (mode : PovmMode) (n : ℕ) (pack : Option (Option (ℤ × ℤ))) (method : SampleMethod) (hme : method = .cond ∨ method = .direct)
    (g : ℕ) (hg : 0 < g) (eps : ℝ) (he : 0 ≤ eps) (qs : List (MPA ℂ × List ℕ)) (hq : ∀ q ∈ qs, SampleArg q.1 q.2 D n pack)
    (ψ : MPA ℂ) (hψ : StateIn D ρ mode ψ) :
    (∀ S : List (List (List ℕ)), List.Forall₂ (fun q Ys => Ys.length = n ∧ ∀ Y ∈ Ys, InB Y q.2) qs S →
      (sampleList qr n method g mode pack eps (qs.map Prod.fst) ψ).prob
          (List.zipWith (fun (q : MPA ℂ × List ℕ) Ys => sampleCode q.2 pack (Ys.map (squeezeIdx q.2))) qs S)
        = (List.zipWith (fun (q : MPA ℂ × List ℕ) Ys => (Ys.map (bornProb D q.1.elem ρ)).prod) qs S).prod) ∧
    (sampleList qr n method g mode pack eps (qs.map Prod.fst) ψ).Sure fun r =>
      ∃ S : List (List (List ℕ)), List.Forall₂ (fun q Ys => Ys.length = n ∧ ∀ Y ∈ Ys, InB Y q.2) qs S ∧
        r = List.zipWith (fun (q : MPA ℂ × List ℕ) Ys => sampleCode q.2 pack (Ys.map (squeezeIdx q.2))) qs S := by
  induction qs generalizing ψ with
  | nil =>
    refine ⟨fun S hS => ?_, ?_⟩
    · cases hS
      show (pure [] : Rand (List SampleOut)).prob [] = 1
      rw [Rand.prob_pure]
      simp
    · exact Rand.sure_lift ⟨[], rfl, [], .nil, rfl⟩
  | cons q qs ih =>
    obtain ⟨⟨law1, law2⟩, ψ', h1, h2⟩ := hψ.sample hρ hqr (hq q (by simp)) hme hg he
    obtain ⟨ih1, ih2⟩ := ih (fun p hp => hq p (by simp [hp])) ψ' h2
    rw [List.map_cons]
    unfold sampleList
    rw [h1]
    simp only [Rand.lift_ok_bind]
    refine ⟨fun S hS => ?_, ?_⟩
    · cases hS with
      | @cons _ Ys _ S hY hS =>
        rw [List.zipWith_cons_cons, List.zipWith_cons_cons, List.prod_cons,
          Rand.prob_bind_single (a := sampleCode q.2 pack (Ys.map (squeezeIdx q.2))), law1 Ys hY.1 hY.2,
          Rand.prob_bind_single (a := List.zipWith (fun (q : MPA ℂ × List ℕ) Ys => sampleCode q.2 pack (Ys.map (squeezeIdx q.2))) qs S),
          ih1 S hS, Rand.prob_pure, if_pos rfl, mul_one]
        · intro a' ha _
          rw [Rand.prob_pure, if_neg]
          exact fun h => ha (List.cons.inj h).2
        · intro a' ha _
          refine Rand.prob_bind_zero _ _ _ fun b => ?_
          rw [Rand.prob_pure, if_neg]
          exact fun h => ha (List.cons.inj h).1
    · refine law2.bind fun a ⟨Ys, y1, y2, y3⟩ => ih2.bind fun b ⟨S, s1, s2⟩ => ?_
      rw [Rand.pure_eq]
      refine Rand.sure_lift ⟨_, rfl, Ys :: S, .cons ⟨y1, y2⟩ s1, ?_⟩
      rw [List.zipWith_cons_cons, y3, s2]

/-! ### estimates -/

/-- C60: `MPPovmList.est_pmf_from(other, samples)` returns the results of `est_pmf_from_mpps` of all MP-POVMs of `self`
(see C57 for their values), if they have as many sites as those of `other`. -/
theorem C60_list_est {qr : QR ℂ} (hqr : QRSpec qr) (D : List ℕ) (xs : List (MPA ℂ × List ℕ)) (hne : xs ≠ [])
    (qs : List Source) (hne' : qs ≠ []) (ha : ∀ x ∈ xs, ∀ q ∈ qs, EstArgs x.1 q.povm x.2 q.dims D)
    (hs : ∀ q ∈ qs, SamplesAre q.dims q.n q.samples q.outcome) (eps : ℝ) (heps : 0 ≤ eps)
    (hacc : ∀ x ∈ xs, ∀ q ∈ qs, q.Accepted x.1 x.2 D eps) :
    ∃ es, estPmfFromList qr (xs.map Prod.fst) (qs.map Source.povm) (qs.map Source.samples) eps = .ok es ∧
      List.Forall₂ (fun x e => e.1.shape = nsDims x.2 ∧ e.2.shape = nsDims x.2 ∧
        ∀ Y, InB Y x.2 → e.2.get (squeezeIdx x.2 Y) = (qs.map fun q => q.weight x.1 x.2 D Y).sum ∧
          e.1.get (squeezeIdx x.2 Y) = if (qs.map fun q => q.weight x.1 x.2 D Y).sum = 0 then none
            else some ((qs.map fun q => q.weight x.1 x.2 D Y * estimate x.1 q.povm x.2 q.dims D q.n q.outcome Y).sum
              / ((qs.map fun q => q.weight x.1 x.2 D Y).sum : ℕ))) xs es := by
  have hl : ∃ x y, firstPovm (xs.map Prod.fst) = .ok x ∧ firstPovm (qs.map Source.povm) = .ok y ∧ x.len = y.len := by
    cases xs with
    | nil => exact absurd rfl hne
    | cons x xs =>
      cases qs with
      | nil => exact absurd rfl hne'
      | cons q qs =>
        have := ha x (by simp) q (by simp)
        exact ⟨x.1, q.povm, rfl, rfl, this.self.lenx.trans this.other.lenx.symm⟩
  obtain ⟨x, y, h1, h2, h3⟩ := hl
  unfold estPmfFromList
  rw [h1, ok_bind, h2, ok_bind, pyAssert_true h3, ok_bind, List.mapM_map]
  obtain ⟨q0, hq0⟩ := List.exists_mem_of_ne_nil qs hne'
  refine mapM_forall₂ fun x hx => ?_
  obtain ⟨p, used, g1, g2, g3, g4⟩ := (C57_est_pmf_from_mpps hqr x.1 x.2 D (ha x hx q0 hq0).self qs (ha x hx) hs eps heps).1 (hacc x hx)
  exact ⟨(p, used), g1, g2, g3, g4⟩

/-- C60: the number of sites is compared, and the lists may not be empty. -/
theorem C60_list_est_reject (qr : QR ℂ) (x y : MPA ℂ) (xs ys : List (MPA ℂ)) (samples : List (NDArray ℤ)) (eps : ℝ) :
    (x.len ≠ y.len → estPmfFromList qr (x :: xs) (y :: ys) samples eps = .error .assertion) ∧
    estPmfFromList qr [] (y :: ys) samples eps = .error .index ∧ estPmfFromList qr (x :: xs) [] samples eps = .error .index := by
  refine ⟨fun h => ?_, rfl, rfl⟩
  unfold estPmfFromList firstPovm
  simp only [ok_bind]
  rw [pyAssert_false h]
  rfl

end Mpnum
