import Mathlib.MeasureTheory.Constructions.Pi
import Mathlib.MeasureTheory.Constructions.BorelSpace.Basic
import Mathlib.Analysis.Normed.Module.FiniteDimension
import Mathlib.Analysis.RCLike.Lemmas
import Mathlib.LinearAlgebra.Dual.Lemmas
import Mathlib.MeasureTheory.Constructions.BorelSpace.Complex

/-! Random vectors with independent entries of an atomless law are almost surely in general position.  Nothing here is
about the code. -/

open MeasureTheory Finset

namespace Mpnum

theorem ae_pi_insertNth {E : Type} [MeasurableSpace E] (μ : Measure E) [SigmaFinite μ] {n : ℕ} (i : Fin (n + 1))
    {P : (Fin (n + 1) → E) → Prop} (hP : MeasurableSet {ω | P ω})
    (h : ∀ᵐ ω' ∂(Measure.pi fun _ : Fin n => μ), ∀ᵐ x ∂μ, P (i.insertNth x ω')) :
    ∀ᵐ ω ∂(Measure.pi fun _ : Fin (n + 1) => μ), P ω := by
  have hmp := measurePreserving_piFinSuccAbove (fun _ : Fin (n + 1) => μ) i
  let e := MeasurableEquiv.piFinSuccAbove (fun _ : Fin (n + 1) => E) i
  have hs := hmp.symm e
  rw [← hs.map_eq, ae_map_iff e.symm.measurable.aemeasurable hP]
  have hQ : MeasurableSet {y : E × (Fin n → E) | P (e.symm y)} := e.symm.measurable hP
  rw [Measure.ae_prod_iff_ae_ae hQ, Measure.ae_ae_comm hQ]
  exact h

variable {𝕜 : Type} [RCLike 𝕜] [MeasurableSpace 𝕜] [BorelSpace 𝕜]

omit [MeasurableSpace 𝕜] [BorelSpace 𝕜] in
theorem rclike_secondCountable : SecondCountableTopology 𝕜 := by
  haveI : ProperSpace 𝕜 := FiniteDimensional.proper_rclike 𝕜 𝕜
  infer_instance

/-- A vector of independent entries with an atomless law almost surely avoids every proper subspace. -/
theorem ae_not_mem_subspace (ν : Measure 𝕜) [SigmaFinite ν] [NullSingletonClass ν] {n : ℕ} (W : Submodule 𝕜 (Fin n → 𝕜)) (hW : W ≠ ⊤) :
    ∀ᵐ x ∂(Measure.pi fun _ : Fin n => ν), x ∉ W := by
  obtain ⟨φ, hφ, hle⟩ := Submodule.exists_le_ker_of_lt_top W hW.lt_top
  obtain ⟨k, hk⟩ : ∃ k, φ (Pi.single k 1) ≠ 0 := by
    by_contra hc
    push Not at hc
    refine hφ (LinearMap.pi_ext' fun i => LinearMap.ext_ring ?_)
    simpa using hc i
  haveI : SecondCountableTopology 𝕜 := rclike_secondCountable
  have hm : MeasurableSet {x : Fin n → 𝕜 | φ x ≠ 0} := by
    have : Continuous φ := φ.continuous_of_finiteDimensional
    exact (isOpen_ne.preimage this).measurableSet
  suffices h : ∀ᵐ x ∂(Measure.pi fun _ : Fin n => ν), φ x ≠ 0 by
    filter_upwards [h] with x hx hxW
    exact hx (hle hxW)
  cases n with
  | zero => exact k.elim0
  | succ n =>
    refine ae_pi_insertNth ν k hm (Filter.Eventually.of_forall fun ω' => ?_)
    have hsub : {x : 𝕜 | ¬ φ (k.insertNth x ω') ≠ 0}.Subsingleton := by
      intro x hx y hy
      simp only [ne_eq, not_not, Set.mem_setOf_eq] at hx hy
      have e : (k.insertNth x ω' : Fin (n + 1) → 𝕜) - k.insertNth y ω' = (x - y) • Pi.single k 1 := by
        ext i
        refine k.succAboveCases ?_ (fun j => ?_) i <;> simp
      have := congrArg φ e
      rw [map_sub, hx, hy, sub_zero, map_smul, smul_eq_mul] at this
      rcases mul_eq_zero.1 this.symm with h | h
      · exact sub_eq_zero.1 h
      · exact absurd h hk
    exact hsub.measure_zero ν

/-- The images of the first vectors under a linear map are almost surely independent, up to the rank of the map. -/
theorem ae_linearIndependent {n m : ℕ} (μ : Measure (Fin n → 𝕜)) [SigmaFinite μ]
    (hμ : ∀ W : Submodule 𝕜 (Fin n → 𝕜), W ≠ ⊤ → ∀ᵐ x ∂μ, x ∉ W) (T : (Fin n → 𝕜) →ₗ[𝕜] (Fin m → 𝕜)) (p : ℕ) :
    ∀ (j : ℕ) (hj : j ≤ p), j ≤ Module.finrank 𝕜 (LinearMap.range T) →
      ∀ᵐ ω ∂(Measure.pi fun _ : Fin p => μ), LinearIndependent 𝕜 fun i : Fin j => T (ω (Fin.castLE hj i)) := by
  haveI : SecondCountableTopology 𝕜 := rclike_secondCountable
  have hT : Continuous T := T.continuous_of_finiteDimensional
  have hmeas : ∀ (p j : ℕ) (hj : j ≤ p), MeasurableSet {ω : Fin p → Fin n → 𝕜 | LinearIndependent 𝕜 fun i : Fin j => T (ω (Fin.castLE hj i))} := by
    intro p j hj
    have h1 : IsOpen {f : Fin j → Fin m → 𝕜 | LinearIndependent 𝕜 f} := isOpen_setOfPred_linearIndependent
    have h2 : Continuous fun ω : Fin p → Fin n → 𝕜 => fun i : Fin j => T (ω (Fin.castLE hj i)) :=
      continuous_pi fun i => hT.comp (continuous_apply _)
    exact (h1.preimage h2).measurableSet
  induction p with
  | zero =>
    intro j hj _
    obtain rfl : j = 0 := by omega
    exact Filter.Eventually.of_forall fun ω => linearIndependent_empty_type
  | succ p ih =>
    intro j hj hr
    refine ae_pi_insertNth μ (Fin.last p) (hmeas _ _ _) ?_
    rcases Nat.lt_or_ge p j with h | h
    · obtain rfl : j = p + 1 := by omega
      filter_upwards [ih p le_rfl (by omega)] with ω' hω'
      let S := Submodule.span 𝕜 (Set.range fun i : Fin p => T (ω' i))
      have hS : S.comap T ≠ ⊤ := by
        intro htop
        have hle : LinearMap.range T ≤ S := by
          rw [LinearMap.range_eq_map, ← htop]
          exact Submodule.map_comap_le T S
        have h1 := Submodule.finrank_mono hle
        have h2 : Module.finrank 𝕜 S ≤ p := by
          have := finrank_range_le_card (R := 𝕜) fun i : Fin p => T (ω' i)
          rw [Fintype.card_fin] at this
          exact this
        omega
      filter_upwards [hμ _ hS] with x hx
      rw [Fin.insertNth_last']
      have e : (fun i : Fin (p + 1) => T ((Fin.snoc ω' x : Fin (p + 1) → Fin n → 𝕜) (Fin.castLE hj i))) = Fin.snoc (fun i => T (ω' i)) (T x) := by
        funext i
        refine Fin.lastCases ?_ (fun i => ?_) i <;> simp [Fin.castLE_rfl]
      rw [e]
      exact LinearIndependent.finSnoc hω' hx
    · filter_upwards [ih j h hr] with ω' hω'
      refine Filter.Eventually.of_forall fun x => ?_
      rw [Fin.insertNth_last']
      have e : (fun i : Fin j => T ((Fin.snoc ω' x : Fin (p + 1) → Fin n → 𝕜) (Fin.castLE hj i))) = fun i : Fin j => T (ω' (Fin.castLE h i)) := by
        funext i
        rw [show Fin.castLE hj i = Fin.castSucc (Fin.castLE h i) from rfl, Fin.snoc_castSucc]
      rw [e]
      exact hω'

/-- If the rank of the map does not exceed the number of vectors, their images almost surely span its range. -/
theorem ae_span_range {n m : ℕ} (μ : Measure (Fin n → 𝕜)) [SigmaFinite μ]
    (hμ : ∀ W : Submodule 𝕜 (Fin n → 𝕜), W ≠ ⊤ → ∀ᵐ x ∂μ, x ∉ W) (T : (Fin n → 𝕜) →ₗ[𝕜] (Fin m → 𝕜)) (p : ℕ)
    (hp : Module.finrank 𝕜 (LinearMap.range T) ≤ p) :
    ∀ᵐ ω ∂(Measure.pi fun _ : Fin p => μ), LinearMap.range T ≤ Submodule.span 𝕜 (Set.range fun i => T (ω i)) := by
  filter_upwards [ae_linearIndependent μ hμ T p _ hp le_rfl] with ω hω
  have h1 : Submodule.span 𝕜 (Set.range fun i : Fin (Module.finrank 𝕜 (LinearMap.range T)) => T (ω (Fin.castLE hp i))) = LinearMap.range T := by
    refine Submodule.eq_of_le_of_finrank_le ?_ ?_
    · rw [Submodule.span_le]
      rintro _ ⟨i, rfl⟩
      exact ⟨_, rfl⟩
    · rw [finrank_span_eq_card hω, Fintype.card_fin]
  rw [← h1]
  refine Submodule.span_mono ?_
  rintro _ ⟨i, rfl⟩
  exact ⟨_, rfl⟩

end Mpnum
