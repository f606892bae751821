import Verif.Povm.PovmSpec
import Verif.Povm.PmfSymm
import Mathlib.Analysis.Matrix.Order
import Verif.Props.C21
import Verif.Props.C48

/-! # C42: probabilities of MP-POVMs follow the Born rule -/

open Finset

namespace Mpnum

variable {R : Type}

section
variable [CommRing R] [StarRing R]

/-- Specification: `ps` are the probability mass functions of the MP-POVM `x` (outcomes `O`, dimensions `D`) for
the reduced states of the state `ρ` (dimensions `E`) on all windows of neighbouring sites, from left to right. -/
def BornWindows (x : MPA R) (O D : List ℕ) (ρ : List ℕ → List ℕ → R) (E : List ℕ) (ps : List (MPA R)) : Prop :=
  List.Forall₂ (fun s p => p.Valid ∧ p.shape = singles O ∧ ∀ Y, InB Y O →
      p.val (singles Y) = bornRule D (x.elem Y) (margOp ρ (E.take s) (E.drop (s + D.length))))
    (List.range (E.length + 1 - D.length)) ps

/-- Specification: the MP-POVM fits every window. -/
def Fits (D E : List ℕ) : Prop := D.length ≤ E.length ∧ ∀ s < E.length + 1 - D.length, (E.drop s).take D.length = D

theorem born_congr {D : List ℕ} {M ρ ρ' : List ℕ → List ℕ → R} (h : ∀ I J, InB I D → InB J D → ρ I J = ρ' I J) :
    bornRule D M ρ = bornRule D M ρ' :=
  sumIdx_congr fun I hI => sumIdx_congr fun J hJ => by rw [h J I hJ hI]

theorem mapM_born {x pm : MPA R} {O D E : List ℕ} {ρ : List ℕ → List ℕ → R} (hx : IsMpPovm x O D)
    {f : MPA R → Py (MPA R)} {P : ℕ → MPA R → Prop} {ss : List ℕ} {zs : List (MPA R)} (h : List.Forall₂ P ss zs)
    (hf : ∀ s ∈ ss, ∀ z, P s z → ∃ p, f z = .ok p ∧ p.Valid ∧ p.shape = singles O ∧ ∀ Y, InB Y O →
      p.val (singles Y) = bornRule D (x.elem Y) (margOp ρ (E.take s) (E.drop (s + D.length)))) :
    ∃ ps, zs.mapM f = .ok ps ∧ List.Forall₂ (fun s p => p.Valid ∧ p.shape = singles O ∧ ∀ Y, InB Y O →
      p.val (singles Y) = bornRule D (x.elem Y) (margOp ρ (E.take s) (E.drop (s + D.length)))) ss ps := by
  induction h with
  | nil => exact ⟨[], rfl, .nil⟩
  | cons h _ ih =>
    obtain ⟨p, h1, h2⟩ := hf _ (by simp) _ h
    obtain ⟨ps, h3, h4⟩ := ih fun s hs => hf s (by simp [hs])
    exact ⟨p :: ps, by rw [List.mapM_cons, h1, ok_bind, h3]; rfl, .cons h2 h4⟩

theorem ndims_of_shape {x : MPA R} (hx : x.Valid) {n : ℕ} : (∀ m ∈ x.ndims, m = n) ↔ ∀ s ∈ x.shape, s.length = n := by
  unfold MPA.ndims MPA.shape
  simp only [List.mem_map, forall_exists_index, and_imp, forall_apply_eq_imp_iff₂]
  refine forall₂_congr fun t ht => ?_
  rw [NDArray.ndim_local (hx.chain.isLocal t ht)]
  omega

theorem resolve_mpo {x : MPA R} {D : List ℕ} (hx : IsMpo x D) : resolveMode x .auto = .mpdo := by
  have hl : ∀ s ∈ x.shape, s.length = 2 := by
    intro s hs
    rw [hx.shape] at hs
    obtain ⟨n, hn, rfl⟩ := List.getElem_of_mem hs; simp
  unfold resolveMode
  rw [if_neg, if_pos ((ndims_of_shape hx.valid).2 hl)]
  rw [ndims_of_shape hx.valid]
  intro h
  obtain ⟨t, ts, hts⟩ := List.exists_cons_of_ne_nil hx.valid.ne
  have hm : t.ph ∈ x.shape := by simp [MPA.shape, hts]
  have := h _ hm
  have := hl _ hm
  omega

theorem resolve_mps {x : MPA R} {D : List ℕ} (hx : x.Valid) (hs : x.shape = singles D) : resolveMode x .auto = .mps := by
  unfold resolveMode
  rw [if_pos]
  rw [ndims_of_shape hx, hs]
  intro s hs
  obtain ⟨n, hn, rfl⟩ := List.getElem_of_mem hs; simp

/-- C42: `expectations` of a density matrix in MPO form (mode `'mpdo'` or `'auto'`). -/
theorem C42_expectations_mpdo (qr : QR R) (x ρ : MPA R) (O D E : List ℕ) (hx : IsMpPovm x O D) (hO : ∀ o ∈ O, 0 < o)
    (hr : ∀ r ∈ x.ranks, 0 < r) (hρ : IsMpo ρ E) (hr' : ∀ r ∈ ρ.ranks, 0 < r) (hE : Fits D E)
    (mode : PovmMode) (hm : mode = .auto ∨ mode = .mode .mpdo) :
    ∃ ps, expectations qr x ρ mode = .ok (ps, ρ) ∧ BornWindows x O D (fun I J => ρ.val (pairs I J)) E ps := by
  have hlx : x.len = D.length := hx.lenx
  have hlρ : ρ.len = E.length := hρ.len
  have hD0 : 0 < D.length := by
    rw [← hlx]; exact List.length_pos_iff.2 hx.valid.ne
  obtain ⟨pm, h1, _⟩ := probMap_ok hx hO hr
  obtain ⟨zs, g1, g2⟩ := C34_width ρ E hρ D.length hD0 hE.1
  obtain ⟨ps, k1, k2⟩ := mapM_born (x := x) (pm := pm) (O := O) (D := D) (E := E) (ρ := fun I J => ρ.val (pairs I J)) hx
    (f := applyPmap pm) g2 (by
      intro s hs z ⟨a1, a2, a3⟩
      have hw := hE.2 s (List.mem_range.1 hs)
      rw [hw] at a1 a3
      obtain ⟨p, b1, b2, b3, b4⟩ := applyPmap_ok hx h1 hO hr a1 (by
        rw [a2]
        intro r hr
        exact hr' r (List.mem_of_mem_drop (List.mem_of_mem_take hr)))
      exact ⟨p, b1, b2, b3, fun Y hY => (b4 Y hY).trans (born_congr a3)⟩)
  refine ⟨ps, ?_, k2⟩
  have hres : resolveMode ρ mode = .mpdo := by
    rcases hm with rfl | rfl
    · exact resolve_mpo hρ
    · rfl
  unfold expectations
  rw [pyAssert_true (by rw [hlx, hlρ]; exact hE.1), ok_bind, h1, ok_bind, hres]
  simp only
  rw [hlx, g1, ok_bind, k1]
  rfl

theorem pmps_apply {x pm : MPA R} {O D : List ℕ} (hx : IsMpPovm x O D) (hpm : povmProbMap x = .ok pm)
    (hO : ∀ o ∈ O, 0 < o) (hr : ∀ r ∈ x.ranks, 0 < r) {z : MPA R} {A : List ℕ} (hz : IsPmps z D A) (hzr : ∀ r ∈ z.ranks, 0 < r) :
    ∃ p, (do let rho ← pmpsToMpo z; applyPmap pm rho : Py (MPA R)) = .ok p ∧ p.Valid ∧ p.shape = singles O ∧
      ∀ Y, InB Y O → p.val (singles Y) = bornRule D (x.elem Y) (dm z A) := by
  obtain ⟨ρ, h1, h2, h3, h4⟩ := C33_pmps_to_mpo z D A hz
  have h5 := C33_pmps_to_mpo_ranks z D A hz ρ h1
  obtain ⟨p, b1, b2, b3, b4⟩ := applyPmap_ok hx hpm hO hr (ρ := ρ) ⟨h2, h3⟩ (by
    rw [h5]
    intro r hr
    obtain ⟨q, hq, rfl⟩ := List.mem_map.1 hr
    have := hzr q hq
    positivity)
  exact ⟨p, by rw [h1, ok_bind, b1], b2, b3, fun Y hY => (b4 Y hY).trans (born_congr h4)⟩

/-- C42: `expectations` of a PMPS (mode `'pmps'`).  The operand is brought to another canonical form in place
but represents the same tensor afterwards. -/
theorem C42_expectations_pmps {qr : QR R} (hqr : QRSpec qr) (x ψ : MPA R) (O D E A : List ℕ) (hx : IsMpPovm x O D)
    (hO : ∀ o ∈ O, 0 < o) (hr : ∀ r ∈ x.ranks, 0 < r) (hψ : IsPmps ψ E A) (hg : ψ.Good) (hE : Fits D E) :
    ∃ ps ψ', expectations qr x ψ (.mode .pmps) = .ok (ps, ψ') ∧ BornWindows x O D (dm ψ A) E ps ∧
      ψ.Same ψ' ∧ ψ'.Good := by
  have hlx : x.len = D.length := hx.lenx
  have hlρ : ψ.len = E.length := hψ.lenD
  have hD0 : 0 < D.length := by
    rw [← hlx]; exact List.length_pos_iff.2 hx.valid.ne
  obtain ⟨pm, h1, _⟩ := probMap_ok hx hO hr
  obtain ⟨zs, y, g1, g2, g3⟩ := C35_width hqr ψ E A hψ hg D.length hD0 hE.1
  unfold PmpsReductions at g2
  rw [List.forall₂_map_left_iff] at g2
  obtain ⟨ps, k1, k2⟩ := mapM_born (x := x) (pm := pm) (O := O) (D := D) (E := E) (ρ := dm ψ A) hx
    (f := fun z => do let rho ← pmpsToMpo z; applyPmap pm rho) g2 (by
      intro s hs z ⟨A', a1, a2, a3⟩
      have hw := hE.2 s (List.mem_range.1 hs)
      simp only [Nat.add_sub_cancel_left] at a1 a3
      rw [hw] at a1 a3
      obtain ⟨p, b1, b2, b3, b4⟩ := pmps_apply hx h1 hO hr a1 a2
      exact ⟨p, b1, b2, b3, fun Y hY => (b4 Y hY).trans (born_congr a3)⟩)
  refine ⟨ps, y, ?_, k2, g3⟩
  unfold expectations
  rw [pyAssert_true (by rw [hlx, hlρ]; exact hE.1), ok_bind, h1, ok_bind]
  simp only [resolveMode]
  rw [hlx, g1, ok_bind]
  simp only
  rw [k1]
  rfl

/-- C42: `expectations` of a pure state (mode `'mps'` or `'auto'`). -/
theorem C42_expectations_mps {qr : QR R} (hqr : QRSpec qr) (x ψ : MPA R) (O D E : List ℕ) (hx : IsMpPovm x O D)
    (hO : ∀ o ∈ O, 0 < o) (hr : ∀ r ∈ x.ranks, 0 < r) (hψ : ψ.Good) (hs : ψ.shape = singles E) (hE : Fits D E)
    (mode : PovmMode) (hm : mode = .auto ∨ mode = .mode .mps) :
    ∃ ps, expectations qr x ψ mode = .ok (ps, ψ) ∧ BornWindows x O D (pureDm ψ) E ps := by
  have hlx : x.len = D.length := hx.lenx
  have hlρ : ψ.len = E.length := by
    have := congrArg List.length hs
    simpa [MPA.shape, MPA.len] using this
  have hD0 : 0 < D.length := by
    rw [← hlx]; exact List.length_pos_iff.2 hx.valid.ne
  obtain ⟨pm, h1, _⟩ := probMap_ok hx hO hr
  obtain ⟨φ, f1, f2, f3, f4⟩ := mps_pmps_good hψ hs
  obtain ⟨zs, y, g1, g2, g3⟩ := C35_width hqr φ E _ f2 f3 D.length hD0 hE.1
  have g2 := pmpsReductions_congr f4 (by
    intro q hq
    obtain ⟨s, hs, rfl⟩ := List.mem_map.1 hq
    have := List.mem_range.1 hs
    have := hE.1
    dsimp only
    omega) g2
  rw [List.forall₂_map_left_iff] at g2
  obtain ⟨ps, k1, k2⟩ := mapM_born (x := x) (pm := pm) (O := O) (D := D) (E := E) (ρ := pureDm ψ) hx
    (f := fun z => do let rho ← pmpsToMpo z; applyPmap pm rho) g2 (by
      intro s hs z ⟨A', a1, a2, a3⟩
      have hw := hE.2 s (List.mem_range.1 hs)
      simp only [Nat.add_sub_cancel_left] at a1 a3
      rw [hw] at a1 a3
      obtain ⟨p, b1, b2, b3, b4⟩ := pmps_apply hx h1 hO hr a1 a2
      exact ⟨p, b1, b2, b3, fun Y hY => (b4 Y hY).trans (born_congr a3)⟩)
  refine ⟨ps, ?_, k2⟩
  have hres : resolveMode ψ mode = .mps := by
    rcases hm with rfl | rfl
    · exact resolve_mps hψ.valid hs
    · rfl
  unfold expectations
  rw [pyAssert_true (by rw [hlx, hlρ]; exact hE.1), ok_bind, h1, ok_bind, hres]
  simp only
  unfold reductionsMpsAsPmps
  rw [f1, ok_bind, hlx, g1, ok_bind]
  simp only [ok_bind]
  rw [show (pure zs : Py (List (MPA R))) = .ok zs from rfl, ok_bind, k1]
  rfl

/-- C42: all other modes are rejected, and so is a state which is shorter than the MP-POVM. -/
theorem C42_expectations_reject (qr : QR R) (x ψ : MPA R) (mode : PovmMode) :
    (ψ.len < x.len → expectations qr x ψ mode = .error .assertion) ∧
    (resolveMode ψ mode = .other → ∃ e, expectations qr x ψ mode = .error e) := by
  constructor
  · intro h
    unfold expectations pyAssert
    rw [if_neg (by omega)]; rfl
  · intro h
    unfold expectations
    rw [h]
    cases pyAssert (x.len ≤ ψ.len) with
    | error e => exact ⟨e, rfl⟩
    | ok _ =>
      rw [ok_bind]
      cases povmProbMap x with
      | error e => exact ⟨e, rfl⟩
      | ok _ => exact ⟨_, rfl⟩

/-! ### `pmf` -/

/-- Specification: `p` is the probability mass function of the MP-POVM `x` for the state `ρ`. -/
def IsPmf (x : MPA R) (O D : List ℕ) (ρ : List ℕ → List ℕ → R) (p : MPA R) : Prop :=
  p.Valid ∧ p.shape = singles O ∧ ∀ Y, InB Y O → p.val (singles Y) = bornRule D (x.elem Y) ρ

theorem bornWindows_full {x : MPA R} {O D : List ℕ} {ρ : List ℕ → List ℕ → R} {ps : List (MPA R)}
    (h : BornWindows x O D ρ D ps) : ∃ p, ps = [p] ∧ IsPmf x O D ρ p := by
  unfold BornWindows at h
  rw [Nat.add_sub_cancel_left] at h
  cases h with
  | cons h1 h2 =>
    cases h2
    refine ⟨_, rfl, h1.1, h1.2.1, fun Y hY => (h1.2.2 Y hY).trans (born_congr ?_)⟩
    intro I J hI hJ
    simp [margOp]

theorem fits_self (D : List ℕ) : Fits D D :=
  ⟨le_refl _, fun s hs => by
    obtain rfl : s = 0 := by omega
    simp⟩

/-- C42: `pmf` of a density matrix in MPO form. -/
theorem C42_pmf_mpdo (qr : QR R) (x ρ : MPA R) (O D : List ℕ) (hx : IsMpPovm x O D) (hO : ∀ o ∈ O, 0 < o)
    (hr : ∀ r ∈ x.ranks, 0 < r) (hρ : IsMpo ρ D) (hr' : ∀ r ∈ ρ.ranks, 0 < r)
    (mode : PovmMode) (hm : mode = .auto ∨ mode = .mode .mpdo) :
    ∃ p, povmPmf qr x ρ mode = .ok (p, ρ) ∧ IsPmf x O D (fun I J => ρ.val (pairs I J)) p := by
  obtain ⟨ps, h1, h2⟩ := C42_expectations_mpdo qr x ρ O D D hx hO hr hρ hr' (fits_self D) mode hm
  obtain ⟨p, rfl, h3⟩ := bornWindows_full h2
  refine ⟨p, ?_, h3⟩
  unfold povmPmf
  rw [pyAssert_true (by rw [show x.len = D.length from hx.lenx]; exact hρ.len.symm), ok_bind, h1, ok_bind]

/-- C42: `pmf` of a PMPS. -/
theorem C42_pmf_pmps {qr : QR R} (hqr : QRSpec qr) (x ψ : MPA R) (O D A : List ℕ) (hx : IsMpPovm x O D)
    (hO : ∀ o ∈ O, 0 < o) (hr : ∀ r ∈ x.ranks, 0 < r) (hψ : IsPmps ψ D A) (hg : ψ.Good) :
    ∃ p ψ', povmPmf qr x ψ (.mode .pmps) = .ok (p, ψ') ∧ IsPmf x O D (dm ψ A) p ∧ ψ.Same ψ' ∧ ψ'.Good := by
  obtain ⟨ps, ψ', h1, h2, h4⟩ := C42_expectations_pmps hqr x ψ O D D A hx hO hr hψ hg (fits_self D)
  obtain ⟨p, rfl, h3⟩ := bornWindows_full h2
  refine ⟨p, ψ', ?_, h3, h4⟩
  unfold povmPmf
  rw [pyAssert_true (by rw [show x.len = D.length from hx.lenx]; exact hψ.lenD.symm), ok_bind, h1, ok_bind]

/-- C42: `pmf` of a pure state. -/
theorem C42_pmf_mps {qr : QR R} (hqr : QRSpec qr) (x ψ : MPA R) (O D : List ℕ) (hx : IsMpPovm x O D)
    (hO : ∀ o ∈ O, 0 < o) (hr : ∀ r ∈ x.ranks, 0 < r) (hψ : ψ.Good) (hs : ψ.shape = singles D)
    (mode : PovmMode) (hm : mode = .auto ∨ mode = .mode .mps) :
    ∃ p, povmPmf qr x ψ mode = .ok (p, ψ) ∧ IsPmf x O D (pureDm ψ) p := by
  obtain ⟨ps, h1, h2⟩ := C42_expectations_mps hqr x ψ O D D hx hO hr hψ hs (fits_self D) mode hm
  obtain ⟨p, rfl, h3⟩ := bornWindows_full h2
  refine ⟨p, ?_, h3⟩
  have hl : ψ.len = D.length := by
    have := congrArg List.length hs
    simpa [MPA.shape, MPA.len] using this
  unfold povmPmf
  rw [pyAssert_true (by rw [show x.len = D.length from hx.lenx, hl]), ok_bind, h1, ok_bind]

/-- C42: `pmf` and `pmf_as_array` reject states of another length. -/
theorem C42_pmf_reject (qr : QR R) (x ψ : MPA R) (mode : PovmMode) (impl : PmfImpl) (h : x.len ≠ ψ.len) :
    povmPmf qr x ψ mode = .error .assertion ∧ pmfRaw qr x ψ mode impl = .error .assertion := by
  constructor
  · unfold povmPmf pyAssert
    rw [if_neg h]; rfl
  · unfold pmfRaw pyAssert
    rw [if_neg h]; rfl

/-! ### `pmf_as_array`, before the projection -/

/-- Specification: the array `a` contains the probabilities of the MP-POVM `x` for the state `ρ`.  Sites with only
one outcome have no axis. -/
def IsPmfArray (x : MPA R) (O D : List ℕ) (ρ : List ℕ → List ℕ → R) (a : NDArray R) : Prop :=
  a.shape = nsDims O ∧ ∀ Y, InB Y O → a.get (squeezeIdx O Y) = bornRule D (x.elem Y) ρ

theorem dropSingle_flatten : ∀ {O Y : List ℕ}, (∀ o ∈ O, 0 < o) → InB Y O →
    (dropSingle (singles O) (singles Y)).flatten = squeezeIdx O Y
  | [], [], _, _ => rfl
  | o :: O, y :: Y, h, hY => by
    have ih := dropSingle_flatten (O := O) (Y := Y) (fun o ho => h o (by simp [ho])) (by rw [inB_cons] at hY; exact hY.2)
    have h0 := h o (by simp)
    unfold dropSingle singles at ih ⊢
    simp only [List.map_cons, List.zipWith_cons_cons, List.flatten_cons, ih, List.prod_cons, List.prod_nil, mul_one, squeezeIdx]
    by_cases h1 : o = 1
    · simp [h1]
    · rw [if_neg h1, if_pos (by omega)]; rfl
  | [], _ :: _, _, h => by simp at h
  | _ :: _, [], _, h => by simp at h

theorem pmf_prune {x p : MPA R} {O D : List ℕ} {ρ : List ℕ → List ℕ → R} (hO : ∀ o ∈ O, 0 < o) (h : IsPmf x O D ρ p) :
    ∃ a, (do let p ← prune p true; p.toArray : Py (NDArray R)) = .ok a ∧ IsPmfArray x O D ρ a := by
  obtain ⟨h1, h2, h3⟩ := h
  obtain ⟨y, g1, g2, _, _, g3, _, g4⟩ := C21_prune_singletons p h1
  obtain ⟨a, k1, k2, k3⟩ := C01_to_array y g2
  refine ⟨a, by rw [g1, ok_bind, k1], ?_, ?_⟩
  · rw [k2, g3, pruned_flatten, h2]
    clear h2 h3 g3 g4
    induction O with
    | nil => rfl
    | cons o O ih =>
      have ih := ih fun o ho => hO o (by simp [ho])
      have h0 := hO o (by simp)
      unfold nsDims at ih ⊢
      rw [show singles (o :: O) = [o] :: singles O from rfl, List.map_cons, List.flatten_cons, ih, List.filter_cons]
      by_cases h1 : o = 1
      · simp [h1]
      · rw [if_neg (by simpa using h1), if_pos (by simp; omega)]; rfl
  · intro Y hY
    have hok : IdxOK (singles Y) p.shape := by rw [h2]; exact singles_idxOK hY
    have e := g4 (singles Y) hok
    have hin : IdxOK (pruned (dropSingle p.shape (singles Y))) y.shape := by
      rw [g3, h2]
      refine idxOK_pruned ?_
      clear * - hY
      induction hY with
      | nil => exact .nil
      | @cons y o Y O h1 _ ih =>
        unfold dropSingle singles at ih ⊢
        simp only [List.map_cons, List.zipWith_cons_cons]
        refine .cons ?_ ih
        split
        · exact .nil
        · simpa using h1
    rw [← h3 Y hY, ← e, ← k3 _ hin, pruned_flatten, h2, dropSingle_flatten hO hY]

/-- C42: `pmf_as_array` of a density matrix in MPO form. -/
theorem C42_array_mpdo (qr : QR R) (x ρ : MPA R) (O D : List ℕ) (hx : IsMpPovm x O D) (hO : ∀ o ∈ O, 0 < o)
    (hr : ∀ r ∈ x.ranks, 0 < r) (hρ : IsMpo ρ D) (hr' : ∀ r ∈ ρ.ranks, 0 < r)
    (mode : PovmMode) (hm : mode = .auto ∨ mode = .mode .mpdo) (impl : PmfImpl) (hi : impl = .auto ∨ impl = .default) :
    ∃ a, pmfRaw qr x ρ mode impl = .ok (a, ρ) ∧ IsPmfArray x O D (fun I J => ρ.val (pairs I J)) a := by
  obtain ⟨ps, h1, h2⟩ := C42_expectations_mpdo qr x ρ O D D hx hO hr hρ hr' (fits_self D) mode hm
  obtain ⟨p, rfl, h3⟩ := bornWindows_full h2
  obtain ⟨a, h4, h5⟩ := pmf_prune hO h3
  refine ⟨a, ?_, h5⟩
  obtain ⟨q, h6, h7⟩ := bind_ok_inv h4
  unfold pmfRaw
  rw [pyAssert_true (by rw [show x.len = D.length from hx.lenx]; exact hρ.len.symm), ok_bind]
  have hn1 : mode ≠ .mode .mps := by rcases hm with rfl | rfl <;> simp
  have hn2 : mode ≠ .mode .pmps := by rcases hm with rfl | rfl <;> simp
  rcases hi with rfl | rfl
  · simp [hn1, hn2, ok_bind, h1, h6, h7]
  · simp [ok_bind, h1, h6, h7]

/-- C42: the two fast paths of `pmf_as_array` for a PMPS, `'pmps-ltr'` and `'pmps-symm'` (the latter chosen by
default); the argument is not changed. -/
theorem C42_array_pmps_fast (qr : QR R) (x ψ : MPA R) (O D A : List ℕ) (hx : IsMpPovm x O D)
    (hO : ∀ o ∈ O, 0 < o) (hψ : IsPmps ψ D A) (mode : PovmMode) (impl : PmfImpl)
    (hi : (impl = .auto ∧ mode = .mode .pmps) ∨ impl = .ltr ∨ impl = .symm) :
    ∃ a, pmfRaw qr x ψ mode impl = .ok (a, ψ) ∧ IsPmfArray x O D (dm ψ A) a := by
  have hlx : x.len = D.length := hx.lenx
  have hl : x.len = ψ.len := by rw [hlx]; exact hψ.lenD.symm
  have hD0 : 0 < D.length := by
    rw [← hlx]; exact List.length_pos_iff.2 hx.valid.ne
  obtain ⟨a, h1, h2⟩ := pmfLtr_ok hx hψ hO
  unfold pmfRaw
  rw [pyAssert_true hl, ok_bind]
  by_cases h1l : x.len = 1
  · refine ⟨a, ?_, h2⟩
    rcases hi with ⟨rfl, rfl⟩ | rfl | rfl <;> simp [ok_bind, h1l, h1]
  · obtain ⟨b, g1, g2⟩ := pmfSymm_ok hx hψ hO (by omega)
    rcases hi with ⟨rfl, rfl⟩ | rfl | rfl
    · exact ⟨b, by simp [ok_bind, h1l, g1], g2⟩
    · exact ⟨a, by simp [ok_bind, h1], h2⟩
    · exact ⟨b, by simp [ok_bind, h1l, g1], g2⟩

/-- C42: `pmf_as_array` of a PMPS with `impl='default'`. -/
theorem C42_array_pmps_default {qr : QR R} (hqr : QRSpec qr) (x ψ : MPA R) (O D A : List ℕ) (hx : IsMpPovm x O D)
    (hO : ∀ o ∈ O, 0 < o) (hr : ∀ r ∈ x.ranks, 0 < r) (hψ : IsPmps ψ D A) (hg : ψ.Good) :
    ∃ a ψ', pmfRaw qr x ψ (.mode .pmps) .default = .ok (a, ψ') ∧ IsPmfArray x O D (dm ψ A) a ∧
      ψ.Same ψ' ∧ ψ'.Good := by
  obtain ⟨ps, ψ', h1, h2, g⟩ := C42_expectations_pmps hqr x ψ O D D A hx hO hr hψ hg (fits_self D)
  obtain ⟨p, rfl, h3⟩ := bornWindows_full h2
  obtain ⟨a, h4, h5⟩ := pmf_prune hO h3
  refine ⟨a, ψ', ?_, h5, g⟩
  obtain ⟨q, h6, h7⟩ := bind_ok_inv h4
  unfold pmfRaw
  rw [pyAssert_true (by rw [show x.len = D.length from hx.lenx]; exact hψ.lenD.symm), ok_bind]
  simp [ok_bind, h1, h6, h7]

/-- C42: `pmf_as_array` of a pure state, via `pmf` or via the fast path for PMPSs. -/
theorem C42_array_mps {qr : QR R} (hqr : QRSpec qr) (x ψ : MPA R) (O D : List ℕ) (hx : IsMpPovm x O D)
    (hO : ∀ o ∈ O, 0 < o) (hr : ∀ r ∈ x.ranks, 0 < r) (hψ : ψ.Good) (hs : ψ.shape = singles D)
    (mode : PovmMode) (hm : mode = .auto ∨ mode = .mode .mps) (impl : PmfImpl) (hi : impl = .auto ∨ impl = .default) :
    ∃ a, pmfRaw qr x ψ mode impl = .ok (a, ψ) ∧ IsPmfArray x O D (pureDm ψ) a := by
  have hl : ψ.len = D.length := by
    have := congrArg List.length hs
    simpa [MPA.shape, MPA.len] using this
  have hlx : x.len = D.length := hx.lenx
  by_cases hfast : impl = .auto ∧ mode = .mode .mps
  · obtain ⟨rfl, rfl⟩ := hfast
    obtain ⟨φ, f1, f2, f3, f4⟩ := mps_pmps_good hψ hs
    obtain ⟨a, g1, g2⟩ := C42_array_pmps_fast qr x φ O D _ hx hO f2 (.mode .mps) .symm (.inr (.inr rfl))
    refine ⟨a, ?_, g2.1, fun Y hY => (g2.2 Y hY).trans (born_congr f4)⟩
    have hlφ : x.len = φ.len := by rw [hlx]; exact f2.lenD.symm
    unfold pmfRaw at g1 ⊢
    rw [pyAssert_true hlφ, ok_bind] at g1
    rw [pyAssert_true (by rw [hlx, hl]), ok_bind]
    by_cases h1 : x.len = 1
    · simp [h1, ok_bind, f1] at g1 ⊢
      obtain ⟨q, h6, h7⟩ := bind_ok_inv g1
      rw [h6, ok_bind]
      rw [(Prod.mk.inj (Except.ok.inj h7)).1]
    · simp [h1, ok_bind, f1] at g1 ⊢
      obtain ⟨q, h6, h7⟩ := bind_ok_inv g1
      rw [h6, ok_bind]
      rw [(Prod.mk.inj (Except.ok.inj h7)).1]
  · obtain ⟨ps, h1, h2⟩ := C42_expectations_mps hqr x ψ O D D hx hO hr hψ hs (fits_self D) mode hm
    obtain ⟨p, rfl, h3⟩ := bornWindows_full h2
    obtain ⟨a, h4, h5⟩ := pmf_prune hO h3
    refine ⟨a, ?_, h5⟩
    obtain ⟨q, h6, h7⟩ := bind_ok_inv h4
    unfold pmfRaw
    rw [pyAssert_true (by rw [hlx, hl]), ok_bind]
    have hn2 : mode ≠ .mode .pmps := by rcases hm with rfl | rfl <;> simp
    rcases hi with rfl | rfl
    · have hn1 : mode ≠ .mode .mps := fun h => hfast ⟨rfl, h⟩
      simp [hn1, hn2, ok_bind, h1, h6, h7]
    · simp [ok_bind, h1, h6, h7]

/-- C42: an unknown implementation is rejected. -/
theorem C42_array_unknown (qr : QR R) (x ψ : MPA R) (mode : PovmMode) (h : x.len = ψ.len) :
    pmfRaw qr x ψ mode .other = .error .value := by
  unfold pmfRaw
  rw [pyAssert_true h, ok_bind]
  simp [ok_bind]

/-- C42: all implementations which succeed agree. -/
theorem C42_agree (x : MPA R) (O D : List ℕ) (ρ : List ℕ → List ℕ → R) (hO : ∀ o ∈ O, 0 < o) (a b : NDArray R)
    (ha : IsPmfArray x O D ρ a) (hb : IsPmfArray x O D ρ b) : a.Eqv b := by
  refine ⟨ha.1.trans hb.1.symm, fun i hi => ?_⟩
  rw [ha.1] at hi
  obtain ⟨Y, hY, rfl⟩ := exists_squeeze hO hi
  rw [ha.2 Y hY, hb.2 Y hY]

end

/-! ### Probabilities -/

section
open scoped ComplexOrder MatrixOrder Matrix

/-- Specification: positive semidefinite operators. -/
def Psd (D : List ℕ) (M : List ℕ → List ℕ → ℂ) : Prop :=
  (Matrix.of fun I J : {I // InB I D} => M I J).PosSemidef

/-- Specification: `ρ` is a quantum state. -/
structure IsState (D : List ℕ) (ρ : List ℕ → List ℕ → ℂ) : Prop where
  psd : Psd D ρ
  trace : (sumIdx D fun I => ρ I I) = 1

/-- Specification: `M Y` are the elements of a POVM. -/
structure IsMeasurement (O D : List ℕ) (M : List ℕ → List ℕ → List ℕ → ℂ) : Prop where
  psd : ∀ Y, InB Y O → Psd D (M Y)
  sum : ∀ I J, InB I D → InB J D → (sumIdx O fun Y => M Y I J) = if I = J then 1 else 0

instance (D : List ℕ) : Fintype {I // InB I D} := Fintype.subtype (idxSet D) fun _ => mem_idxSet

theorem sumIdx_subtype {M : Type} [AddCommMonoid M] (D : List ℕ) (f : List ℕ → M) :
    sumIdx D f = ∑ I : {I // InB I D}, f I := by
  rw [sumIdx_eq_sum, Finset.sum_subtype (idxSet D) fun _ => mem_idxSet]

theorem trace_mul_psd {n : Type} [Fintype n] [DecidableEq n] {A B : Matrix n n ℂ} (hA : A.PosSemidef) (hB : B.PosSemidef) :
    0 ≤ (A * B).trace := by
  obtain ⟨C, rfl⟩ := CStarAlgebra.nonneg_iff_eq_star_mul_self.1 hB.nonneg
  rw [← mul_assoc, Matrix.trace_mul_comm, ← mul_assoc]
  exact (hA.mul_mul_conjTranspose_same C).trace_nonneg

/-- C42: Born probabilities are non-negative. -/
theorem C42_nonneg (D : List ℕ) (M ρ : List ℕ → List ℕ → ℂ) (hM : Psd D M) (hρ : Psd D ρ) :
    0 ≤ bornRule D M ρ := by
  have := trace_mul_psd hM hρ
  unfold bornRule
  rw [sumIdx_subtype]
  simp only [sumIdx_subtype]
  simpa [Matrix.trace, Matrix.mul_apply] using this

/-- C42: Born probabilities sum to one. -/
theorem C42_sum_one (O D : List ℕ) (M : List ℕ → List ℕ → List ℕ → ℂ) (ρ : List ℕ → List ℕ → ℂ)
    (hM : IsMeasurement O D M) (hρ : IsState D ρ) : (sumIdx O fun Y => bornRule D (M Y) ρ) = 1 := by
  rw [← hρ.trace]
  unfold bornRule
  rw [sumIdx_comm]
  refine sumIdx_congr fun I hI => ?_
  rw [sumIdx_comm]
  have : ∀ J, InB J D → (sumIdx O fun Y => M Y I J * ρ J I) = if J = I then ρ I I else 0 := by
    intro J hJ
    rw [← sumIdx_mul, hM.sum I J hI hJ]
    by_cases h : I = J
    · subst h; simp
    · rw [if_neg h, if_neg (Ne.symm h), zero_mul]
  rw [sumIdx_congr this, sumIdx_eq_sum, Finset.sum_ite_eq' (idxSet D) I, if_pos (mem_idxSet.2 hI)]

/-- C42: the density matrix of every PMPS is positive semidefinite. -/
theorem C42_pmps_psd (ψ : MPA ℂ) (D A : List ℕ) : Psd D (dm ψ A) := by
  unfold Psd
  have : (Matrix.of fun I J : {I // InB I D} => dm ψ A I J)
      = (Matrix.of fun (I : {I // InB I D}) (K : {I // InB I A}) => ψ.val (pairs I K))
        * (Matrix.of fun (I : {I // InB I D}) (K : {I // InB I A}) => ψ.val (pairs I K))ᴴ := by
    ext I J
    simp [Matrix.mul_apply, dm, sumIdx_subtype]
  rw [this]
  exact Matrix.posSemidef_self_mul_conjTranspose _

theorem sumIdx_squeeze {M : Type} [AddCommMonoid M] : ∀ {O : List ℕ} (_ : ∀ o ∈ O, 0 < o) (f : List ℕ → M),
    sumIdx (nsDims O) f = sumIdx O fun Y => f (squeezeIdx O Y)
  | [], _, _ => rfl
  | o :: O, h, f => by
    have h0 := h o (by simp)
    have ih := fun f => sumIdx_squeeze (M := M) (O := O) (fun o ho => h o (by simp [ho])) (f := f)
    unfold nsDims at ih ⊢
    by_cases h1 : o = 1
    · subst h1
      simp only [List.filter_cons, Nat.lt_irrefl, decide_false, sumIdx, Finset.sum_range_one, squeezeIdx, if_false]
      exact ih f
    · simp only [List.filter_cons, show 1 < o by omega, decide_true, if_true, sumIdx, squeezeIdx]
      exact Finset.sum_congr rfl fun _ _ => ih _

/-- C42: `pmf_as_array` of a valid state returns exactly the Born probabilities: whenever the computation before
the projection succeeds (see the other theorems), the projection accepts the probabilities and leaves them
unchanged.  They are non-negative and sum to one. -/
theorem C42_pmf_as_array (qr : QR ℂ) (x ψ ψ' : MPA ℂ) (O D : List ℕ) (ρ : List ℕ → List ℕ → ℂ) (hO : ∀ o ∈ O, 0 < o)
    (hM : IsMeasurement O D x.elem) (hρ : IsState D ρ) (mode : PovmMode) (impl : PmfImpl) (eps : ℝ) (he : 0 ≤ eps)
    (a : NDArray ℂ) (hraw : pmfRaw qr x ψ mode impl = .ok (a, ψ')) (ha : IsPmfArray x O D ρ a) :
    ∃ p : NDArray ℝ, pmfAsArray qr x ψ mode eps impl = .ok (p, ψ') ∧ p.shape = nsDims O ∧
      (∀ Y, InB Y O → (p.get (squeezeIdx O Y) : ℂ) = bornRule D (x.elem Y) ρ ∧ 0 ≤ p.get (squeezeIdx O Y)) ∧
      sumIdx p.shape p.get = 1 := by
  have hb : ∀ Y, InB Y O → 0 ≤ (bornRule D (x.elem Y) ρ).re ∧ (bornRule D (x.elem Y) ρ).im = 0 := by
    intro Y hY
    have := C42_nonneg D _ ρ (hM.psd Y hY) hρ.psd
    rw [Complex.le_def] at this
    exact ⟨by simpa using this.1, by simpa using this.2.symm⟩
  have hget : ∀ idx, InB idx a.shape → 0 ≤ (a.get idx).re ∧ (a.get idx).im = 0 := by
    intro idx hi
    rw [ha.1] at hi
    obtain ⟨Y, hY, rfl⟩ := exists_squeeze hO hi
    rw [ha.2 Y hY]
    exact hb Y hY
  have hclip : ∀ idx, InB idx a.shape → clip 0 (a.get idx).re = (a.get idx).re := by
    intro idx hi
    have := (hget idx hi).1
    unfold clip
    split
    · linarith
    · rfl
  have hsum : sumIdx a.shape (fun idx => (a.get idx).re) = 1 := by
    rw [ha.1, sumIdx_squeeze hO]
    have h1 := C42_sum_one O D x.elem ρ hM hρ
    have h2 : (sumIdx O fun Y => (bornRule D (x.elem Y) ρ).re) = 1 := by
      have h3 := congrArg Complex.re h1
      rw [sumIdx_eq_sum, Complex.re_sum, ← sumIdx_eq_sum] at h3
      simpa using h3
    rw [← h2]
    exact sumIdx_congr fun Y hY => by rw [ha.2 Y hY]
  have hcs : sumIdx a.shape (fun idx => clip 0 (a.get idx).re) = 1 := by
    rw [← hsum]; exact sumIdx_congr hclip
  obtain ⟨p, h1, h2, h3⟩ := (C48_result (.cplx a) eps eps 0).1 ⟨fun idx hi => .inr (by
      have := (hget idx hi).2
      show |(a.get idx).im| ≤ eps
      rw [this]; simpa using he), fun idx hi => by
      have := (hget idx hi).1
      show -eps ≤ (a.get idx).re
      linarith, by
      show |sumIdx a.shape (fun idx => clip 0 (a.get idx).re) - 1| ≤ eps
      rw [hcs]; simpa using he, fun hs => by
      have hs : a.shape = [] := hs
      rw [hs] at hsum
      have : (a.get []).re = 1 := by simpa [sumIdx] using hsum
      show 0 < (a.get []).re
      rw [this]; exact one_pos⟩
  have h3' : ∀ idx, InB idx a.shape → p.get idx = (a.get idx).re := by
    intro idx hi
    rw [h3 idx hi]
    show clip 0 (a.get idx).re / sumIdx a.shape (fun idx => clip 0 (a.get idx).re) = _
    rw [hcs, hclip idx hi, div_one]
  have h2 : p.shape = a.shape := h2
  refine ⟨p, ?_, h2.trans ha.1, ?_, ?_⟩
  · unfold pmfAsArray
    rw [hraw, ok_bind]
    simp only [h1, ok_bind]
    rfl
  · intro Y hY
    have hi : InB (squeezeIdx O Y) a.shape := by rw [ha.1]; exact squeeze_inB hY
    rw [h3' _ hi]
    refine ⟨?_, (hget _ hi).1⟩
    rw [← ha.2 Y hY]
    apply Complex.ext
    · simp
    · rw [(hget _ hi).2]; simp
  · rw [h2, ← hsum]
    exact sumIdx_congr h3'

/-! ### The hypotheses are met by a measurement of two sites, the second with only one outcome -/

/-- Measurement of the first of two sites in the computational basis. -/
noncomputable def exPovm : MPA ℂ :=
  ⟨[⟨[1, 2, 2, 2, 1], fun i => match i with | [_, y, p, q, _] => if p = y ∧ q = y then 1 else 0 | _ => 0⟩,
    ⟨[1, 1, 1, 1, 1], fun _ => 1⟩], 0, 2⟩

/-- A state with the amplitudes `3/5` and `4i/5`. -/
noncomputable def exState : MPA ℂ :=
  ⟨[⟨[1, 2, 1, 1], fun i => match i with | [_, p, _, _] => if p = 0 then 3 / 5 else 4 / 5 * Complex.I | _ => 0⟩,
    ⟨[1, 1, 1, 1], fun _ => 1⟩], 0, 2⟩

theorem exPovm_isMpPovm : IsMpPovm exPovm [2, 1] [2, 1] :=
  ⟨⟨by simp [exPovm], by simp [exPovm, NDArray.IsLocal, NDArray.ndim, NDArray.lb, NDArray.rb], by simp [exPovm], by simp [exPovm],
    by simp [exPovm, MPA.len]⟩, rfl, rfl, by simp⟩

theorem exState_isPmps : IsPmps exState [2, 1] [1, 1] :=
  ⟨⟨by simp [exState], by simp [exState, NDArray.IsLocal, NDArray.ndim, NDArray.lb, NDArray.rb], by simp [exState], by simp [exState],
    by simp [exState, MPA.len]⟩, rfl, rfl⟩

theorem exPovm_elem (y p q y' p' q' : ℕ) : exPovm.elem [y, y'] [p, p'] [q, q'] = if p = y ∧ q = y then 1 else 0 := by
  simp [MPA.elem, MPA.val, entry, exPovm, triples, pairs, mp, NDArray.at3, NDArray.rb]

theorem exState_val (p p' k k' : ℕ) : exState.val (pairs [p, p'] [k, k']) = if p = 0 then 3 / 5 else 4 / 5 * Complex.I := by
  simp [MPA.val, entry, exState, pairs, mp, NDArray.at3, NDArray.rb]

theorem inB_pair {I : List ℕ} {a b : ℕ} (h : InB I [a, b]) : ∃ i j, I = [i, j] ∧ i < a ∧ j < b := by
  obtain ⟨i, I, rfl, h1, h2⟩ := inB_cons_split h
  obtain ⟨j, I, rfl, h3, h4⟩ := inB_cons_split h2
  obtain rfl : I = [] := by simpa using h4
  exact ⟨i, j, rfl, h1, h3⟩

theorem exPovm_measurement : IsMeasurement [2, 1] [2, 1] exPovm.elem := by
  constructor
  · intro Y hY
    obtain ⟨y, y', rfl, hy, hy'⟩ := inB_pair hY
    unfold Psd
    have : (Matrix.of fun I J : {I // InB I [2, 1]} => exPovm.elem [y, y'] I J)
        = Matrix.vecMulVec (fun I : {I // InB I [2, 1]} => if (I : List ℕ).getD 0 0 = y then (1 : ℂ) else 0)
          (star fun I : {I // InB I [2, 1]} => if (I : List ℕ).getD 0 0 = y then (1 : ℂ) else 0) := by
      ext ⟨I, hI⟩ ⟨J, hJ⟩
      obtain ⟨i, i', rfl, _, _⟩ := inB_pair hI
      obtain ⟨j, j', rfl, _, _⟩ := inB_pair hJ
      simp only [Matrix.of_apply, Matrix.vecMulVec_apply, exPovm_elem, Pi.star_apply]
      by_cases h1 : i = y <;> by_cases h2 : j = y <;> simp [h1, h2]
    rw [this]
    exact Matrix.posSemidef_vecMulVec_self_star _
  · intro I J hI hJ
    obtain ⟨i, i', rfl, h1, h2⟩ := inB_pair hI
    obtain ⟨j, j', rfl, h3, h4⟩ := inB_pair hJ
    obtain rfl : i' = 0 := by omega
    obtain rfl : j' = 0 := by omega
    simp only [sumIdx, exPovm_elem, Finset.sum_range_succ, Finset.sum_range_zero]
    interval_cases i <;> interval_cases j <;> simp

theorem exState_state : IsState [2, 1] (dm exState [1, 1]) := by
  refine ⟨C42_pmps_psd _ _ _, ?_⟩
  simp only [dm, sumIdx, exState_val, Finset.sum_range_succ, Finset.sum_range_zero]
  simp
  ring_nf
  simp
  norm_num

/-- The measurement of the example state gives the first outcome with probability `9/25`. -/
example (qr : QR ℂ) : ∃ p, pmfAsArray qr exPovm exState (.mode .pmps) 0 .auto = .ok (p, exState) ∧ p.shape = [2] ∧
    (p.get [0] : ℂ) = 9 / 25 := by
  obtain ⟨a, h1, h2⟩ := C42_array_pmps_fast qr exPovm exState _ _ _ exPovm_isMpPovm (by simp) exState_isPmps (.mode .pmps) .auto
    (.inl ⟨rfl, rfl⟩)
  obtain ⟨p, g1, g2, g3, _⟩ := C42_pmf_as_array qr exPovm exState exState [2, 1] [2, 1] _ (by simp) exPovm_measurement
    exState_state (.mode .pmps) .auto 0 (le_refl _) a h1 h2
  refine ⟨p, g1, g2, ?_⟩
  have := (g3 [0, 0] (by simp)).1
  rw [show squeezeIdx [2, 1] [0, 0] = [0] from rfl] at this
  rw [this]
  simp only [bornRule, dm, sumIdx, exState_val, exPovm_elem, Finset.sum_range_succ, Finset.sum_range_zero]
  simp
  norm_num

end

end Mpnum
