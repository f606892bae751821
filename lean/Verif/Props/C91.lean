import Verif.Povm.RoundingExpect
import Verif.Props.C46
import Verif.Props.C83

/-!
# C91: outcome probabilities of density matrices in floating point arithmetic
-/

open Finset
open scoped ComplexOrder

namespace Mpnum

variable {𝕜 : Type} [RCLike 𝕜]

/-- Specification: the distance (2-norm over all outcomes) of the numbers `f` from those represented by `p`. -/
noncomputable def outcomeDist (O : List ℕ) (f : List ℕ → 𝕜) (p : MPA 𝕜) : ℝ :=
  Real.sqrt (sumIdx O fun Y => ‖f Y - p.val (singles Y)‖ ^ 2)

theorem outcomeDist_eq {p p' : MPA 𝕜} {O : List ℕ} (hs : p.shape = singles O) {f : List ℕ → 𝕜}
    (hf : ∀ Y, InB Y O → p.val (singles Y) = f Y) : outcomeDist O f p' = p.dist p' := by
  unfold outcomeDist MPA.dist
  rw [hs, sumSites_singles]
  congr 1
  exact sumIdx_congr fun Y hY => by rw [hf Y hY]

/-- The exact item of `expectations` for the window at `s` is approximated by `p'`. -/
def ItemNear (δ ε : ℝ) (x ρ : MPA 𝕜) (O D E : List ℕ) (s : ℕ) (p' : MPA 𝕜) : Prop :=
  ∃ p : MPA 𝕜, IsPmf x O D (margOp (fun I J => ρ.val (pairs I J)) (E.take s) (E.drop (s + D.length))) p ∧ p'.Valid ∧ p'.shape = p.shape ∧
    LApprox 0 ((1 + δ) ^ (E.length - D.length) * (1 + ε) ^ (E.length + 2))
      (Real.sqrt ((E.take s).prod * (E.drop (s + D.length)).prod : ℕ) * ((x.lt.map npNorm).prod * (ρ.lt.map npNorm).prod)) p.lt p'.lt

/-- The item of `expectations` for the window of one reduced operator. -/
theorem window_near {δ ε : ℝ} (hε : 0 ≤ ε) {td : TDot 𝕜} (htd : TdNear ε td)
    {x pm ρ z' : MPA 𝕜} {O D E : List ℕ} (hx : IsMpPovm x O D) (hpm : povmProbMap x = .ok pm) (hO : ∀ o ∈ O, 0 < o)
    (hr : ∀ r ∈ x.ranks, 0 < r) (hr' : ∀ r ∈ ρ.ranks, 0 < r) {s : ℕ} (hw : (E.drop s).take D.length = D)
    (h : WindowNear δ ε ρ E (s, s + D.length) z') :
    ∃ p', applyPmapF td pm z' = .ok p' ∧ ItemNear δ ε x ρ O D E s p' := by
  obtain ⟨z, a1, a2, a3, a4, a5, a6⟩ := h
  dsimp only at a1 a2 a3 a4 a5 a6
  rw [Nat.add_sub_cancel_left] at a1 a2 a3 a4 a6
  rw [hw] at a1 a3 a4
  have hzr : ∀ r ∈ z.ranks, 0 < r := by
    rw [a2]
    intro r hr
    exact hr' r (List.mem_of_mem_drop (List.mem_of_mem_take hr))
  obtain ⟨p, b1, b2, b3, b4⟩ := applyPmap_ok hx hpm hO hr a1 hzr
  obtain ⟨n1, n2⟩ := probMap_norms hpm
  have hDE : D.length ≤ E.length := by
    have := congrArg List.length hw
    rw [List.length_take, List.length_drop] at this
    omega
  obtain ⟨p', c1, c2, c3, c4, c5⟩ := applyPmapF_near hε htd a6 (n1.trans (hx.lenx.trans a1.len.symm)) a1.valid a4.valid hzr a5 b1 b2
  refine ⟨p', c1, p, ⟨b2, b3, fun Y hY => (b4 Y hY).trans (born_congr a3)⟩, c2, c3, ?_⟩
  rw [n1, n2, show x.len = D.length from hx.lenx] at c5
  convert c5 using 1
  · rw [show E.length + 2 = D.length + (E.length - D.length + 2) by omega, pow_add (1 + ε) D.length]
    ring
  · ring

theorem ItemNear.dist_le {δ ε : ℝ} {x ρ p' : MPA 𝕜} {O D E : List ℕ} {s : ℕ} (h : ItemNear δ ε x ρ O D E s p') :
    p'.Valid ∧ p'.shape = singles O ∧
      outcomeDist O (fun Y => bornRule D (x.elem Y)
          (margOp (fun I J => ρ.val (pairs I J)) (E.take s) (E.drop (s + D.length)))) p' ≤
        ((1 + δ) ^ (E.length - D.length) * (1 + ε) ^ (E.length + 2) - 1) *
          (Real.sqrt ((E.take s).prod * (E.drop (s + D.length)).prod : ℕ) * ((x.lt.map npNorm).prod * (ρ.lt.map npNorm).prod)) := by
  obtain ⟨p, ⟨b2, b3, b4⟩, c2, c3, c5⟩ := h
  refine ⟨c2, c3.trans b3, ?_⟩
  rw [outcomeDist_eq b3 b4]
  exact LApprox.mpaDist b2 c5 c2 c3

theorem mapM_windows {α β : Type} {f : α → Py β} {P : ℕ → α → Prop} {Q : ℕ → β → Prop} {ss : List ℕ} {zs : List α}
    (h : List.Forall₂ P ss zs) (hf : ∀ s ∈ ss, ∀ z, P s z → ∃ p, f z = .ok p ∧ Q s p) :
    ∃ ps, zs.mapM f = .ok ps ∧ List.Forall₂ Q ss ps := by
  induction h with
  | nil => exact ⟨[], rfl, .nil⟩
  | cons h _ ih =>
    obtain ⟨p, h1, h2⟩ := hf _ (by simp) _ h
    obtain ⟨ps, h3, h4⟩ := ih fun s hs => hf s (by simp [hs])
    exact ⟨p :: ps, by rw [List.mapM_cons, h1, ok_bind, h3]; rfl, .cons h2 h4⟩

theorem expectationsMpdoF_near {δ ε : ℝ} (hδ : 0 ≤ δ) (hε : 0 ≤ ε) {tr : TraceFn 𝕜} (htr : TrNear δ tr) {td : TDot 𝕜} (htd : TdNear ε td)
    {x ρ : MPA 𝕜} {O D E : List ℕ} (hx : IsMpPovm x O D) (hO : ∀ o ∈ O, 0 < o) (hr : ∀ r ∈ x.ranks, 0 < r) (hρ : IsMpo ρ E)
    (hr' : ∀ r ∈ ρ.ranks, 0 < r) (hE : Fits D E) :
    ∃ ps, expectationsMpdoF tr td x ρ = .ok ps ∧ List.Forall₂ (ItemNear δ ε x ρ O D E) (List.range (E.length + 1 - D.length)) ps := by
  have hlx : x.len = D.length := hx.lenx
  have hD0 : 0 < D.length := by
    rw [← hlx]; exact List.length_pos_iff.2 hx.valid.ne
  obtain ⟨pm, h1, _⟩ := probMap_ok hx hO hr
  obtain ⟨zs, g1, g2⟩ := reductionsMpoF_width hδ hε htr htd ρ E hρ D.length hD0 hE.1
  obtain ⟨ps, k1, k2⟩ := mapM_windows (f := applyPmapF td pm) g2 fun s hs z hz =>
    window_near hε htd hx h1 hO hr hr' (hE.2 s (List.mem_range.1 hs)) hz
  refine ⟨ps, ?_, k2⟩
  unfold expectationsMpdoF
  rw [pyAssert_true (by rw [hlx, show ρ.len = E.length from hρ.len]; exact hE.1), ok_bind, h1, ok_bind, hlx, g1, ok_bind, k1]

/-- C91: `expectations` of a density matrix in MPO form succeeds in floating point arithmetic.  There is one item for every position of the MP-POVM,
from left to right, of the exact shape.  The numbers differ from the Born probabilities of the reduced states (2-norm over all outcomes) by at most
`(1 + δ)^(n - w) (1 + ε)^(n + 2) - 1` times the square root of the dimension of the space that is traced out times the product of the norms of
all local tensors of the MP-POVM and the state. -/
theorem C91_expectations {δ ε : ℝ} (hδ : 0 ≤ δ) (hε : 0 ≤ ε) {tr : TraceFn 𝕜} (htr : TrNear δ tr) {td : TDot 𝕜} (htd : TdNear ε td)
    (x ρ : MPA 𝕜) (O D E : List ℕ) (hx : IsMpPovm x O D) (hO : ∀ o ∈ O, 0 < o) (hr : ∀ r ∈ x.ranks, 0 < r) (hρ : IsMpo ρ E)
    (hr' : ∀ r ∈ ρ.ranks, 0 < r) (hE : Fits D E) :
    ∃ ps, expectationsMpdoF tr td x ρ = .ok ps ∧
      List.Forall₂ (fun s p => p.Valid ∧ p.shape = singles O ∧
        outcomeDist O (fun Y => bornRule D (x.elem Y)
            (margOp (fun I J => ρ.val (pairs I J)) (E.take s) (E.drop (s + D.length)))) p ≤
          ((1 + δ) ^ (E.length - D.length) * (1 + ε) ^ (E.length + 2) - 1) *
            (Real.sqrt ((E.take s).prod * (E.drop (s + D.length)).prod : ℕ) * ((x.lt.map npNorm).prod * (ρ.lt.map npNorm).prod)))
        (List.range (E.length + 1 - D.length)) ps := by
  obtain ⟨ps, h1, h2⟩ := expectationsMpdoF_near hδ hε htr htd hx hO hr hρ hr' hE
  exact ⟨ps, h1, h2.imp fun s p h => h.dist_le⟩

/-- C91: the probabilities of the outcomes on all sites (`pmf`, the only item of `expectations`). -/
theorem C91_pmf {δ ε : ℝ} (hδ : 0 ≤ δ) (hε : 0 ≤ ε) {tr : TraceFn 𝕜} (htr : TrNear δ tr) {td : TDot 𝕜} (htd : TdNear ε td)
    (x ρ : MPA 𝕜) (O D : List ℕ) (hx : IsMpPovm x O D) (hO : ∀ o ∈ O, 0 < o) (hr : ∀ r ∈ x.ranks, 0 < r) (hρ : IsMpo ρ D)
    (hr' : ∀ r ∈ ρ.ranks, 0 < r) :
    ∃ p, expectationsMpdoF tr td x ρ = .ok [p] ∧ p.Valid ∧ p.shape = singles O ∧
      outcomeDist O (fun Y => bornRule D (x.elem Y) fun I J => ρ.val (pairs I J)) p ≤
        ((1 + ε) ^ (x.len + 2) - 1) * ((x.lt.map npNorm).prod * (ρ.lt.map npNorm).prod) := by
  obtain ⟨ps, h1, h2⟩ := C91_expectations hδ hε htr htd x ρ O D D hx hO hr hρ hr' (fits_self D)
  rw [Nat.add_sub_cancel_left] at h2
  cases h2 with
  | cons h2 h3 =>
    cases h3
    refine ⟨_, h1, h2.1, h2.2.1, ?_⟩
    have h := h2.2.2
    simp only [List.take_zero, Nat.zero_add, List.drop_length, List.prod_nil, Nat.sub_self, pow_zero, one_mul, Nat.cast_one, Real.sqrt_one] at h
    rw [show x.len = D.length from hx.lenx]
    refine le_trans (le_of_eq ?_) h
    unfold outcomeDist
    congr 1
    refine sumIdx_congr fun Y _ => ?_
    dsimp only
    rw [born_congr (ρ' := margOp (fun I J => ρ.val (pairs I J)) [] [])]
    intro I J _ _
    simp [margOp]

/-- Specification: the bound of the rounding error of `pmf_as_array`, the relative error of `2 n + 1` products for `n` sites times the product of the
norms of all local tensors. -/
noncomputable def mpdoErr (ε : ℝ) (x ρ : MPA 𝕜) : ℝ :=
  ((1 + ε) ^ (2 * x.len + 1) - 1) * ((x.lt.map npNorm).prod * (ρ.lt.map npNorm).prod)

/-- C91: before the final projection, `pmf_as_array` of a density matrix in MPO form has the shape of the exact result and differs from the
Born probabilities by at most `mpdoErr`. -/
theorem C91_probabilities {δ ε : ℝ} (hδ : 0 ≤ δ) (hε : 0 ≤ ε) {tr : TraceFn 𝕜} (htr : TrNear δ tr) {td : TDot 𝕜} (htd : TdNear ε td)
    (x ρ : MPA 𝕜) (O D : List ℕ) (hx : IsMpPovm x O D) (hO : ∀ o ∈ O, 0 < o) (hr : ∀ r ∈ x.ranks, 0 < r) (hρ : IsMpo ρ D)
    (hr' : ∀ r ∈ ρ.ranks, 0 < r) (mode : PovmMode) (hm : mode = .auto ∨ mode = .mode .mpdo) (impl : PmfImpl)
    (hi : impl = .auto ∨ impl = .default) :
    ∃ a, pmfRawF td (pmfSlowF tr td x) x ρ mode impl = .ok (a, ρ) ∧ a.shape = nsDims O ∧
      bornDist x O D (fun I J => ρ.val (pairs I J)) a ≤ mpdoErr ε x ρ := by
  obtain ⟨ps, h1, h2⟩ := expectationsMpdoF_near hδ hε htr htd hx hO hr hρ hr' (fits_self D)
  rw [Nat.add_sub_cancel_left] at h2
  cases h2 with
  | @cons _ p' _ _ h2 h3 =>
  cases h3
  obtain ⟨p, hp, q1, q2, q3⟩ := h2
  have hp' : IsPmf x O D (fun I J => ρ.val (pairs I J)) p := by
    refine ⟨hp.1, hp.2.1, fun Y hY => (hp.2.2 Y hY).trans (born_congr ?_)⟩
    intro I J _ _
    simp [margOp]
  simp only [List.take_zero, Nat.zero_add, List.drop_length, List.prod_nil, Nat.sub_self, pow_zero, one_mul, Nat.cast_one, Real.sqrt_one] at q3
  obtain ⟨A, g1, g2⟩ := pmf_prune hO hp'
  obtain ⟨y, g3, g4, _⟩ := C21_prune_singletons p hp.1
  obtain ⟨y₀, g5, _⟩ := C21_prune_singletons p' q1
  rw [g3, ok_bind] at g1
  obtain ⟨us', k1, k2⟩ := q3.prune hε htd q2 g3 g4 g5
  have hlen : p.len = D.length := by
    have := congrArg List.length hp.2.1
    rw [← hx.len]
    simpa [MPA.shape, MPA.len] using this
  have hD0 : 0 < D.length := by
    rw [← hx.lenx]; exact List.length_pos_iff.2 hx.valid.ne
  rw [hlen, show (1 + ε) ^ D.length * (1 + ε) ^ (D.length + 2) = (1 + ε) ^ (2 * D.length + 1) * (1 + ε) by
    rw [← pow_add, ← pow_succ]; congr 1; omega] at k2
  obtain ⟨A', m1, m2, m3⟩ := LApprox.toArray hε htd g4 k2 (l := 0) (r := us'.length)
  obtain ⟨B, b1, b2, b3⟩ := C01_to_array y g4
  obtain rfl := Except.ok.inj (b1.symm.trans g1)
  rw [arrErr_eq b2 b3] at m3
  refine ⟨A', ?_, by rw [m2, ← b2]; exact g2.1, bornDist_le hO g2 ?_⟩
  · have hslow : pmfSlowF tr td x ρ = .ok (A', ρ) := by
      unfold pmfSlowF
      rw [h1, ok_bind]
      simp only
      rw [k1, ok_bind, m1, ok_bind]
      rfl
    unfold pmfRawF
    rw [pyAssert_true (by rw [show x.len = D.length from hx.lenx]; exact hρ.len.symm), ok_bind]
    have hn1 : mode ≠ .mode .mps := by rcases hm with rfl | rfl <;> simp
    have hn2 : mode ≠ .mode .pmps := by rcases hm with rfl | rfl <;> simp
    rcases hi with rfl | rfl
    · simp [hn1, hn2, ok_bind, hslow]
    · simp [ok_bind, hslow]
  · unfold mpdoErr
    rw [show x.len = D.length from hx.lenx]
    exact m3

/-- C91: if the error times the square root of the number of outcomes is at most `eps < 1`, `pmf_as_array` never rejects a state and returns a
probability distribution close to the Born probabilities; an operator whose trace is too far from one is rejected. -/
theorem C91_pmf_as_array {δ ε : ℝ} (hδ : 0 ≤ δ) (hε : 0 ≤ ε) {tr : TraceFn ℂ} (htr : TrNear δ tr) {td : TDot ℂ} (htd : TdNear ε td)
    (x ρ : MPA ℂ) (O D : List ℕ) (hx : IsMpPovm x O D) (hO : ∀ o ∈ O, 0 < o) (hr : ∀ r ∈ x.ranks, 0 < r) (hM : IsMeasurement O D x.elem)
    (hρ : IsMpo ρ D) (hr' : ∀ r ∈ ρ.ranks, 0 < r) (hpsd : Psd D fun I J => ρ.val (pairs I J))
    (mode : PovmMode) (hm : mode = .auto ∨ mode = .mode .mpdo) (impl : PmfImpl) (hi : impl = .auto ∨ impl = .default) (eps : ℝ) :
    (IsState D (fun I J => ρ.val (pairs I J)) → Real.sqrt O.prod * mpdoErr ε x ρ ≤ eps → eps < 1 → ∃ p : NDArray ℝ,
      pmfAsArrayF td (pmfSlowF tr td x) x ρ mode eps impl = .ok (p, ρ) ∧ p.shape = nsDims O ∧ (∀ Y, InB Y O → 0 ≤ p.get (squeezeIdx O Y)) ∧
      sumIdx p.shape p.get = 1 ∧
      (sumIdx O fun Y => |p.get (squeezeIdx O Y) - (bornRule D (x.elem Y) fun I J => ρ.val (pairs I J)).re|) ≤
        2 * (Real.sqrt O.prod * mpdoErr ε x ρ)) ∧
    (eps < |(sumIdx D fun I => (ρ.val (pairs I I)).re) - 1| - Real.sqrt O.prod * mpdoErr ε x ρ →
      ∃ e, pmfAsArrayF td (pmfSlowF tr td x) x ρ mode eps impl = .error e) := by
  obtain ⟨a, h1, h2, h3⟩ := C91_probabilities hδ hε htr htd x ρ O D hx hO hr hρ hr' mode hm impl hi
  exact pmfAsArrayF_of hO h1 h2 h3 hM hpsd

/-- C91: with the exact functions the implementation `'default'` is the one of the exact model. -/
theorem C91_slow_exact (qr : QR 𝕜) (x state : MPA 𝕜) (mode : PovmMode) (h : resolveMode state mode = .mpdo) (impl : PmfImpl)
    (hi : impl = .auto ∨ impl = .default) (hm : mode = .auto ∨ mode = .mode .mpdo) :
    pmfRawF NDArray.tensordot (pmfSlowF NDArray.trace NDArray.tensordot x) x state mode impl = pmfRaw qr x state mode impl := by
  rw [← pmfRawF_exact]
  have hn1 : mode ≠ .mode .mps := by rcases hm with rfl | rfl <;> simp
  have hn2 : mode ≠ .mode .pmps := by rcases hm with rfl | rfl <;> simp
  have key : ∀ f g : MPA 𝕜 → Py (NDArray 𝕜 × MPA 𝕜), f state = g state →
      pmfRawF NDArray.tensordot f x state mode impl = pmfRawF NDArray.tensordot g x state mode impl := by
    intro f g hfg
    unfold pmfRawF
    congr 1
    funext _
    rcases hi with rfl | rfl
    · simp [hn1, hn2, ok_bind, hfg]
    · simp [ok_bind, hfg]
  refine key _ _ ?_
  dsimp only
  rw [← expectationsMpdoF_exact qr x state mode h]
  unfold pmfSlowF
  simp only [bind_assoc, pure_bind, pruneF_exact, MPA.toArrayF_exact]
  congr 1

/-- C91: with the exact functions the model computes `expectations`. -/
theorem C91_model_exact (qr : QR 𝕜) (x state : MPA 𝕜) (mode : PovmMode) (h : resolveMode state mode = .mpdo) :
    (do let ps ← expectationsMpdoF NDArray.trace NDArray.tensordot x state; return (ps, state)) = expectations qr x state mode :=
  expectationsMpdoF_exact qr x state mode h

/-! ### Non-vacuity -/

/-- A measurement of two neighbouring sites of three, with functions for `numpy.trace` and `numpy.tensordot` that are not exact. -/
example : ∃ p₁ p₂, expectationsMpdoF (trScaled (1 / 1000)) (tdScaled (1 / 1000)) exPovm2 exH3 = .ok [p₁, p₂] ∧ p₁.shape = [[2], [2]] ∧
    outcomeDist [2, 2] (fun Y => bornRule [2, 2] (exPovm2.elem Y) (margOp (fun I J => exH3.val (pairs I J)) [2] [])) p₂ ≤
      ((1 + 1 / 1000) ^ 1 * (1 + 1 / 1000) ^ 5 - 1) *
        (Real.sqrt (2 : ℕ) * ((exPovm2.lt.map npNorm).prod * (exH3.lt.map npNorm).prod)) := by
  have hx : IsMpo exH3 [2, 2, 2] := ⟨exH3_isMpo.valid, exH3_isMpo.shape⟩
  obtain ⟨ps, h1, h2⟩ := C91_expectations (by norm_num) (by norm_num) (trScaled_near (𝕜 := ℂ) (δ := 1 / 1000) (by norm_num))
    (tdScaled_near (𝕜 := ℂ) (δ := 1 / 1000) (by norm_num)) exPovm2 exH3 [2, 2] [2, 2] [2, 2, 2] exPovm2_isMpPovm (by simp)
    (by simp [exPovm2, MPA.ranks, NDArray.lb]) hx (by simp [exH3, MPA.ranks, NDArray.lb]) ⟨by simp, by
      intro s hs
      have : s < 2 := hs
      interval_cases s <;> rfl⟩
  rw [show List.range ([2, 2, 2].length + 1 - [2, 2].length) = [0, 1] from rfl] at h2
  cases h2 with
  | @cons _ p₁ _ _ a1 h2 =>
  cases h2 with
  | @cons _ p₂ _ _ a2 h2 =>
  cases h2
  exact ⟨p₁, p₂, h1, a1.2.1, a2.2.2⟩

/-- The density matrix of the state with the amplitudes `3/5` and `4/5`. -/
noncomputable def exDensity : MPA ℂ :=
  ⟨[⟨[1, 2, 2, 1], fun i => match i with
      | [_, p, q, _] => (if p = 0 then 3 / 5 else 4 / 5) * (if q = 0 then 3 / 5 else 4 / 5)
      | _ => 0⟩,
    ⟨[1, 1, 1, 1], fun _ => 1⟩], 0, 2⟩

theorem exDensity_isMpo : IsMpo exDensity [2, 1] :=
  ⟨⟨by simp [exDensity], by simp [exDensity, NDArray.IsLocal, NDArray.ndim, NDArray.lb, NDArray.rb], by simp [exDensity], by simp [exDensity],
    by simp [exDensity, MPA.len]⟩, rfl⟩

theorem exDensity_val (p p' q q' : ℕ) :
    exDensity.val (pairs [p, p'] [q, q']) = (if p = 0 then 3 / 5 else 4 / 5) * (if q = 0 then 3 / 5 else 4 / 5) := by
  simp [MPA.val, entry, exDensity, pairs, mp, NDArray.at3, NDArray.rb]

theorem exDensity_state : IsState [2, 1] fun I J => exDensity.val (pairs I J) := by
  constructor
  · unfold Psd
    have : (Matrix.of fun I J : {I // InB I [2, 1]} => exDensity.val (pairs I J))
        = Matrix.vecMulVec (fun I : {I // InB I [2, 1]} => if (I : List ℕ).getD 0 0 = 0 then (3 / 5 : ℂ) else 4 / 5)
          (star fun I : {I // InB I [2, 1]} => if (I : List ℕ).getD 0 0 = 0 then (3 / 5 : ℂ) else 4 / 5) := by
      ext ⟨I, hI⟩ ⟨J, hJ⟩
      obtain ⟨i, i', rfl, _, _⟩ := inB_pair hI
      obtain ⟨j, j', rfl, _, _⟩ := inB_pair hJ
      simp only [Matrix.of_apply, Matrix.vecMulVec_apply, exDensity_val, Pi.star_apply]
      by_cases h1 : i = 0 <;> by_cases h2 : j = 0 <;> simp [h1, h2]
    rw [this]
    exact Matrix.posSemidef_vecMulVec_self_star _
  · simp only [sumIdx, exDensity_val, Finset.sum_range_succ, Finset.sum_range_zero]
    norm_num

theorem exMpdoErr : Real.sqrt (([2, 1] : List ℕ).prod : ℕ) * mpdoErr (1 / 10 ^ 13) exPovm exDensity ≤ 1 / 10 ^ 11 := by
  have a1 : ∀ t, exDensity.lt[0]? = some t → npNorm t = 1 := by
    rintro t ⟨rfl⟩
    unfold npNorm
    simp [sumIdx, Finset.sum_range_succ]
    norm_num
  have a2 : ∀ t, exPovm.lt[0]? = some t → npNorm t = Real.sqrt 2 := by
    rintro t ⟨rfl⟩
    unfold npNorm
    simp [sumIdx, Finset.sum_range_succ]
    norm_num
  have a3 : npNorm (⟨[1, 1, 1, 1, 1], fun _ => 1⟩ : NDArray ℂ) = 1 := by
    unfold npNorm
    simp [sumIdx]
  have a4 : npNorm (⟨[1, 1, 1, 1], fun _ => 1⟩ : NDArray ℂ) = 1 := by
    unfold npNorm
    simp [sumIdx]
  have e1 : (exPovm.lt.map npNorm).prod = Real.sqrt 2 := by
    simp only [exPovm, List.map_cons, List.map_nil, List.prod_cons, List.prod_nil, a3]
    rw [a2 _ rfl]
    norm_num
  have e2 : (exDensity.lt.map npNorm).prod = 1 := by
    simp only [exDensity, List.map_cons, List.map_nil, List.prod_cons, List.prod_nil, a4]
    rw [a1 _ rfl]
    norm_num
  unfold mpdoErr
  rw [e1, e2, show Real.sqrt (([2, 1] : List ℕ).prod : ℕ) = Real.sqrt 2 by norm_num, show exPovm.len = 2 from rfl]
  have h3 : Real.sqrt 2 * Real.sqrt 2 = 2 := Real.mul_self_sqrt (by norm_num)
  calc Real.sqrt 2 * (((1 + 1 / 10 ^ 13 : ℝ) ^ (2 * 2 + 1) - 1) * (Real.sqrt 2 * 1))
      = ((1 + 1 / 10 ^ 13 : ℝ) ^ (2 * 2 + 1) - 1) * 2 := by
        linear_combination ((1 + 1 / 10 ^ 13 : ℝ) ^ (2 * 2 + 1) - 1) * h3
    _ ≤ _ := by norm_num

/-- The probabilities of a measurement of two sites, with functions for `numpy.trace` and `numpy.tensordot` that are not exact and the default
tolerance `10⁻¹⁰`. -/
example : ∃ p : NDArray ℝ,
    pmfAsArrayF (tdScaled (1 / 10 ^ 13)) (pmfSlowF (trScaled (1 / 10 ^ 13)) (tdScaled (1 / 10 ^ 13)) exPovm) exPovm exDensity .auto
      (1 / 10 ^ 10) .auto = .ok (p, exDensity) ∧ p.shape = [2] ∧ sumIdx p.shape p.get = 1 := by
  obtain ⟨p, h1, h2, h3, h4, h5⟩ := (C91_pmf_as_array (by positivity) (by positivity) (trScaled_near (𝕜 := ℂ) (δ := 1 / 10 ^ 13) (by positivity))
    (tdScaled_near (𝕜 := ℂ) (δ := 1 / 10 ^ 13) (by positivity)) exPovm exDensity _ _ exPovm_isMpPovm (by simp)
    (by simp [exPovm, MPA.ranks, NDArray.lb]) exPovm_measurement exDensity_isMpo (by simp [exDensity, MPA.ranks, NDArray.lb]) exDensity_state.psd
    .auto (.inl rfl) .auto (.inl rfl) (1 / 10 ^ 10)).1 exDensity_state (exMpdoErr.trans (by norm_num)) (by norm_num)
  exact ⟨p, h1, h2, h4⟩

end Mpnum
