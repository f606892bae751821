import Verif.Props.C59
import Verif.Props.C46
import Verif.Props.C57Mpps

/-!
# C60: probabilities and samples for several states and for several MP-POVMs -/

open Finset Classical

namespace Mpnum

/-- Specification: the argument `ψ` with the argument `mode` stands for the operator `ρ` on sites with dimensions `D`. -/
inductive StateIn (D : List ℕ) (ρ : List ℕ → List ℕ → ℂ) : PovmMode → MPA ℂ → Prop
  | mpdo {mode : PovmMode} {ψ : MPA ℂ} (hm : mode = .auto ∨ mode = .mode .mpdo) (hψ : IsMpo ψ D) (hr : ∀ r ∈ ψ.ranks, 0 < r)
      (hρ : ∀ I J, InB I D → InB J D → ρ I J = ψ.val (pairs I J)) : StateIn D ρ mode ψ
  | pmps {ψ : MPA ℂ} (A : List ℕ) (hψ : IsPmps ψ D A) (hg : ψ.Good)
      (hρ : ∀ I J, InB I D → InB J D → ρ I J = dm ψ A I J) : StateIn D ρ (.mode .pmps) ψ
  | mps {mode : PovmMode} {ψ : MPA ℂ} (hm : mode = .auto ∨ mode = .mode .mps) (hψ : ψ.Good) (hs : ψ.shape = singles D)
      (hρ : ∀ I J, InB I D → InB J D → ρ I J = pureDm ψ I J) : StateIn D ρ mode ψ

/-- Specification: `x` is an MP-POVM whose elements are those of a POVM. -/
structure PovmArg (x : MPA ℂ) (O D : List ℕ) : Prop where
  povm : IsMpPovm x O D
  pos : ∀ o ∈ O, 0 < o
  ranks : ∀ r ∈ x.ranks, 0 < r
  measurement : IsMeasurement O D x.elem

/-- Specification: the array `p` contains the probabilities of the outcomes. -/
structure BornArray (x : MPA ℂ) (O D : List ℕ) (ρ : List ℕ → List ℕ → ℂ) (p : NDArray ℝ) : Prop where
  shape : p.shape = nsDims O
  born : ∀ Y, InB Y O → (p.get (squeezeIdx O Y) : ℂ) = bornRule D (x.elem Y) ρ
  nonneg : ∀ Y, InB Y O → 0 ≤ p.get (squeezeIdx O Y)
  sum : sumIdx p.shape p.get = 1

theorem isState_congr {D : List ℕ} {ρ σ : List ℕ → List ℕ → ℂ} (h : ∀ I J, InB I D → InB J D → ρ I J = σ I J)
    (hσ : IsState D σ) : IsState D ρ :=
  ⟨psd_congr h hσ.psd, by rw [← hσ.trace]; exact sumIdx_congr fun I hI => h I I hI hI⟩

theorem StateIn.len {D : List ℕ} {ρ : List ℕ → List ℕ → ℂ} {mode : PovmMode} {ψ : MPA ℂ} (h : StateIn D ρ mode ψ) :
    ψ.len = D.length := by
  cases h with
  | mpdo _ hψ => exact hψ.len
  | pmps A hψ => exact hψ.lenD
  | mps _ _ hs =>
    have := congrArg List.length hs
    simpa [MPA.shape, MPA.len] using this

theorem isPmfArray_congr {x : MPA ℂ} {O D : List ℕ} {ρ σ : List ℕ → List ℕ → ℂ} (h : ∀ I J, InB I D → InB J D → ρ I J = σ I J)
    {a : NDArray ℂ} (ha : IsPmfArray x O D σ a) : IsPmfArray x O D ρ a :=
  ⟨ha.1, fun Y hY => (ha.2 Y hY).trans (born_congr fun I J hI hJ => (h I J hI hJ).symm)⟩

/-- The computed array, which does not change the state. -/
theorem StateIn.raw {D : List ℕ} {ρ : List ℕ → List ℕ → ℂ} {mode : PovmMode} {ψ : MPA ℂ} (h : StateIn D ρ mode ψ)
    {qr : QR ℂ} (hqr : QRSpec qr) {x : MPA ℂ} {O : List ℕ} (hx : PovmArg x O D) :
    ∃ a, pmfRaw qr x ψ mode .auto = .ok (a, ψ) ∧ IsPmfArray x O D ρ a := by
  cases h with
  | mpdo hm hψ hr hρ =>
    obtain ⟨a, h1, h2⟩ := C42_array_mpdo qr x ψ O D hx.povm hx.pos hx.ranks hψ hr mode hm .auto (.inl rfl)
    exact ⟨a, h1, isPmfArray_congr hρ h2⟩
  | pmps A hψ hg hρ =>
    obtain ⟨a, h1, h2⟩ := C42_array_pmps_fast qr x ψ O D A hx.povm hx.pos hψ (.mode .pmps) .auto (.inl ⟨rfl, rfl⟩)
    exact ⟨a, h1, isPmfArray_congr hρ h2⟩
  | mps hm hψ hs hρ =>
    obtain ⟨a, h1, h2⟩ := C42_array_mps hqr x ψ O D hx.povm hx.pos hx.ranks hψ hs mode hm .auto (.inl rfl)
    exact ⟨a, h1, isPmfArray_congr hρ h2⟩

theorem bornArray_ok {D : List ℕ} {ρ : List ℕ → List ℕ → ℂ} {mode : PovmMode} {ψ ψ' : MPA ℂ} {qr : QR ℂ} {x : MPA ℂ} {O : List ℕ}
    (hx : PovmArg x O D) (hρ : IsState D ρ) {a : NDArray ℂ} (h1 : pmfRaw qr x ψ mode .auto = .ok (a, ψ'))
    (h2 : IsPmfArray x O D ρ a) {eps : ℝ} (he : 0 ≤ eps) :
    ∃ p, pmfAsArray qr x ψ mode eps .auto = .ok (p, ψ') ∧ BornArray x O D ρ p := by
  obtain ⟨p, g1, g2, g3, g4⟩ := C42_pmf_as_array qr x ψ ψ' O D ρ hx.pos hx.measurement hρ mode .auto eps he a h1 h2
  exact ⟨p, g1, g2, fun Y hY => (g3 Y hY).1, fun Y hY => (g3 Y hY).2, g4⟩

theorem StateIn.array {D : List ℕ} {ρ : List ℕ → List ℕ → ℂ} {mode : PovmMode} {ψ : MPA ℂ} (h : StateIn D ρ mode ψ)
    (hρ : IsState D ρ) {qr : QR ℂ} (hqr : QRSpec qr) {x : MPA ℂ} {O : List ℕ} (hx : PovmArg x O D) {eps : ℝ} (he : 0 ≤ eps) :
    ∃ p, pmfAsArray qr x ψ mode eps .auto = .ok (p, ψ) ∧ BornArray x O D ρ p := by
  obtain ⟨a, h1, h2⟩ := h.raw hqr hx
  exact bornArray_ok hx hρ h1 h2 he

theorem isPmf_congr {x : MPA ℂ} {O D : List ℕ} {ρ σ : List ℕ → List ℕ → ℂ} (h : ∀ I J, InB I D → InB J D → ρ I J = σ I J)
    {p : MPA ℂ} (ha : IsPmf x O D σ p) : IsPmf x O D ρ p :=
  ⟨ha.1, ha.2.1, fun Y hY => (ha.2.2 Y hY).trans (born_congr fun I J hI hJ => (h I J hI hJ).symm)⟩

/-- The MPA of probabilities; the state afterwards stands for the same operator. -/
theorem StateIn.pmf {D : List ℕ} {ρ : List ℕ → List ℕ → ℂ} {mode : PovmMode} {ψ : MPA ℂ} (h : StateIn D ρ mode ψ)
    {qr : QR ℂ} (hqr : QRSpec qr) {x : MPA ℂ} {O : List ℕ} (hx : PovmArg x O D) :
    ∃ p ψ', povmPmf qr x ψ mode = .ok (p, ψ') ∧ IsPmf x O D ρ p ∧ StateIn D ρ mode ψ' ∧ ψ.Same ψ' := by
  cases h with
  | mpdo hm hψ hr hρ =>
    obtain ⟨p, h1, h2⟩ := C42_pmf_mpdo qr x ψ O D hx.povm hx.pos hx.ranks hψ hr mode hm
    exact ⟨p, ψ, h1, isPmf_congr hρ h2, .mpdo hm hψ hr hρ, MPA.Same.rfl' _⟩
  | pmps A hψ hg hρ =>
    obtain ⟨p, ψ', h1, h2, h3, h4⟩ := C42_pmf_pmps hqr x ψ O D A hx.povm hx.pos hx.ranks hψ hg
    refine ⟨p, ψ', h1, isPmf_congr hρ h2, .pmps A (same_isPmps hψ h3 h4.valid) h4 fun I J hI hJ => ?_, h3⟩
    rw [hρ I J hI hJ, dm_same hψ h3 hI hJ]
  | mps hm hψ hs hρ =>
    obtain ⟨p, h1, h2⟩ := C42_pmf_mps hqr x ψ O D hx.povm hx.pos hx.ranks hψ hs mode hm
    exact ⟨p, ψ, h1, isPmf_congr hρ h2, .mps hm hψ hs hρ, MPA.Same.rfl' _⟩

/-! ### one MP-POVM, several states -/

/-- C60: `pmfs_as_array` returns the probabilities for every state. -/
theorem C60_pmfs_as_array {qr : QR ℂ} (hqr : QRSpec qr) (x : MPA ℂ) (O D : List ℕ) (hx : PovmArg x O D) (mode : PovmMode)
    (states : List (MPA ℂ × (List ℕ → List ℕ → ℂ))) (hs : ∀ s ∈ states, StateIn D s.2 mode s.1 ∧ IsState D s.2) (eps : ℝ) (he : 0 ≤ eps) :
    ∃ ps, pmfsAsArray qr x (states.map Prod.fst) mode eps = .ok ps ∧ List.Forall₂ (fun s p => BornArray x O D s.2 p) states ps := by
  obtain ⟨ps, h1, h2⟩ := mapM_forall₂ (l := states) (f := fun s => do
      let r ← pmfAsArray qr x s.1 mode eps .auto
      return r.1) (P := fun s p => BornArray x O D s.2 p) fun s h => by
    obtain ⟨p, g1, g2⟩ := (hs s h).1.array (hs s h).2 hqr hx he
    exact ⟨p, by rw [g1]; rfl, g2⟩
  refine ⟨ps, ?_, h2⟩
  unfold pmfsAsArray
  rw [List.mapM_map]
  exact h1

/-! ### several MP-POVMs, one state -/

theorem overPovms_ok {α : Type} {f : MPA ℂ → MPA ℂ → Py (α × MPA ℂ)} {Inv : MPA ℂ → Prop}
    {P : MPA ℂ × List ℕ → α → Prop} : ∀ {qs : List (MPA ℂ × List ℕ)},
    (∀ q ∈ qs, ∀ ψ, Inv ψ → ∃ a ψ', f q.1 ψ = .ok (a, ψ') ∧ P q a ∧ Inv ψ') → ∀ {ψ : MPA ℂ}, Inv ψ →
    ∃ as ψ', overPovms f (qs.map Prod.fst) ψ = .ok (as, ψ') ∧ List.Forall₂ P qs as ∧ Inv ψ'
  | [], _, ψ, hi => ⟨[], ψ, rfl, .nil, hi⟩
  | q :: qs, h, ψ, hi => by
    obtain ⟨a, ψ', h1, h2, h3⟩ := h q (by simp) ψ hi
    obtain ⟨as, ψ'', g1, g2, g3⟩ := overPovms_ok (qs := qs) (fun p hp => h p (by simp [hp])) h3
    refine ⟨a :: as, ψ'', ?_, .cons h2 g2, g3⟩
    rw [List.map_cons]
    unfold overPovms
    rw [h1, ok_bind]
    simp only
    rw [g1, ok_bind]
    rfl

theorem first_ok {qs : List (MPA ℂ × List ℕ)} {D : List ℕ} (hne : qs ≠ []) (hq : ∀ q ∈ qs, PovmArg q.1 q.2 D) :
    ∃ x, firstPovm (qs.map Prod.fst) = .ok x ∧ x.len = D.length := by
  cases qs with
  | nil => exact absurd rfl hne
  | cons q qs => exact ⟨q.1, rfl, (hq q (by simp)).povm.lenx⟩

/-- C60: `MPPovmList.pmf` returns the probabilities of all MP-POVMs.  The state is unchanged as a tensor. -/
theorem C60_list_pmf {qr : QR ℂ} (hqr : QRSpec qr) (qs : List (MPA ℂ × List ℕ)) (D : List ℕ) (hne : qs ≠ [])
    (hq : ∀ q ∈ qs, PovmArg q.1 q.2 D) (mode : PovmMode) (ψ : MPA ℂ) (ρ : List ℕ → List ℕ → ℂ) (hψ : StateIn D ρ mode ψ) :
    ∃ ps ψ', pmfList qr (qs.map Prod.fst) ψ mode = .ok (ps, ψ') ∧ List.Forall₂ (fun q p => IsPmf q.1 q.2 D ρ p) qs ps ∧
      StateIn D ρ mode ψ' ∧ ψ.Same ψ' := by
  obtain ⟨x, h1, h2⟩ := first_ok hne hq
  obtain ⟨ps, ψ', g1, g2, g3⟩ := overPovms_ok (f := fun x state => povmPmf qr x state mode)
    (Inv := fun φ => StateIn D ρ mode φ ∧ ψ.Same φ) (P := fun q p => IsPmf q.1 q.2 D ρ p) (qs := qs) (by
      intro q hm φ hφ
      obtain ⟨p, φ', k1, k2, k3, k4⟩ := hφ.1.pmf hqr (hq q hm)
      exact ⟨p, φ', k1, k2, k3, hφ.2.trans k4⟩) (ψ := ψ) ⟨hψ, MPA.Same.rfl' _⟩
  refine ⟨ps, ψ', ?_, g2, g3⟩
  unfold pmfList
  rw [h1, ok_bind, pyAssert_true (by rw [hψ.len, h2]), ok_bind, g1]

/-- C60: `MPPovmList.pmf_as_array` returns the arrays of probabilities of all MP-POVMs and leaves the state alone. -/
theorem C60_list_pmf_as_array {qr : QR ℂ} (hqr : QRSpec qr) (qs : List (MPA ℂ × List ℕ)) (D : List ℕ) (hne : qs ≠ [])
    (hq : ∀ q ∈ qs, PovmArg q.1 q.2 D) (mode : PovmMode) (ψ : MPA ℂ) (ρ : List ℕ → List ℕ → ℂ) (hψ : StateIn D ρ mode ψ)
    (hρ : IsState D ρ) (eps : ℝ) (he : 0 ≤ eps) :
    ∃ ps, pmfAsArrayList qr (qs.map Prod.fst) ψ mode eps = .ok (ps, ψ) ∧
      List.Forall₂ (fun q p => BornArray q.1 q.2 D ρ p) qs ps := by
  obtain ⟨x, h1, h2⟩ := first_ok hne hq
  obtain ⟨ps, ψ', g1, g2, g3⟩ := overPovms_ok (f := fun x state => pmfAsArray qr x state mode eps .auto)
    (Inv := fun φ => φ = ψ) (P := fun q p => BornArray q.1 q.2 D ρ p) (qs := qs) (by
      rintro q hm φ rfl
      obtain ⟨p, k1, k2⟩ := hψ.array hρ hqr (hq q hm) he
      exact ⟨p, φ, k1, k2, rfl⟩) (ψ := ψ) rfl
  subst g3
  refine ⟨ps, ?_, g2⟩
  unfold pmfAsArrayList
  rw [h1, ok_bind, pyAssert_true (by rw [hψ.len, h2]), ok_bind, g1]

/-- C60: an empty list of MP-POVMs or a state of the wrong length is rejected. -/
theorem C60_list_reject (qr : QR ℂ) (xs : List (MPA ℂ)) (ψ : MPA ℂ) (mode : PovmMode) (eps : ℝ) :
    (pmfList qr [] ψ mode = .error .index ∧ pmfAsArrayList qr [] ψ mode eps = .error .index) ∧
    ∀ x, ψ.len ≠ x.len → pmfList qr (x :: xs) ψ mode = .error .assertion ∧
      pmfAsArrayList qr (x :: xs) ψ mode eps = .error .assertion := by
  refine ⟨⟨rfl, rfl⟩, fun x h => ?_⟩
  unfold pmfList pmfAsArrayList firstPovm
  simp only [ok_bind]
  rw [pyAssert_false h]
  exact ⟨rfl, rfl⟩

/-- C60: `MPPovmList.pmfs_as_array` measures MP-POVM number `i` on state number `i`. -/
theorem C60_list_pmfs_as_array {qr : QR ℂ} (hqr : QRSpec qr) (mode : PovmMode)
    (ts : List (MPA ℂ × List ℕ × List ℕ × MPA ℂ × (List ℕ → List ℕ → ℂ)))
    (ht : ∀ t ∈ ts, PovmArg t.1 t.2.1 t.2.2.1 ∧ StateIn t.2.2.1 t.2.2.2.2 mode t.2.2.2.1 ∧ IsState t.2.2.1 t.2.2.2.2) (eps : ℝ) (he : 0 ≤ eps) :
    ∃ ps, pmfsAsArrayList qr (ts.map fun t => t.1) (ts.map fun t => t.2.2.2.1) mode eps = .ok ps ∧
      List.Forall₂ (fun t p => BornArray t.1 t.2.1 t.2.2.1 t.2.2.2.2 p) ts ps := by
  obtain ⟨ps, h1, h2⟩ := mapM_forall₂ (l := ts) (f := fun t => do
      let r ← pmfAsArray qr t.1 t.2.2.2.1 mode eps .auto
      return r.1) (P := fun t p => BornArray t.1 t.2.1 t.2.2.1 t.2.2.2.2 p) fun t h => by
    obtain ⟨h1, h2, h3⟩ := ht t h
    obtain ⟨p, g1, g2⟩ := h2.array h3 hqr h1 he
    exact ⟨p, by rw [g1]; rfl, g2⟩
  refine ⟨ps, ?_, h2⟩
  unfold pmfsAsArrayList
  rw [List.zip_map', List.mapM_map]
  exact h1

/-- C60 (finding): MP-POVMs without a state, and states without an MP-POVM, are ignored silently. -/
theorem C60_list_pmfs_truncated (qr : QR ℂ) (xs ys ss ts : List (MPA ℂ)) (h : xs.length = ss.length) (he : ys = [] ∨ ts = [])
    (mode : PovmMode) (eps : ℝ) :
    pmfsAsArrayList qr (xs ++ ys) (ss ++ ts) mode eps = pmfsAsArrayList qr xs ss mode eps := by
  unfold pmfsAsArrayList
  rw [List.zip_append h]
  rcases he with rfl | rfl <;> simp

end Mpnum
