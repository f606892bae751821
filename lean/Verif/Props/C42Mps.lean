import Verif.Props.C42
import Verif.Props.C36

/-! # C42: the implementations for PMPS do not accept an MPS -/

open Finset

namespace Mpnum

variable {R : Type} [CommRing R] [StarRing R]

/-- The loop body of `_pmf_as_array_pmps_ltr` fails for the first tensor of an MPS: after two contractions only four axes are left, and the
third contraction asks for axis 4. -/
theorem pmfStep_mps {p m t : NDArray R} {a b s d s' : ℕ} (hp : p.shape = [a, b, s, s]) (ht : t.shape = [s, d, s']) :
    pmfStep p (m, t) = .error .index := by
  obtain ⟨sp, gp⟩ := p
  obtain ⟨st, gt⟩ := t
  simp only at hp ht
  subst hp; subst ht
  have h1 := NDArray.tensordot_ok (a := (⟨[a, b, s, s], gp⟩ : NDArray R)) (b := ⟨[s, d, s'], gt⟩) (axa := [2]) (axb := [0])
    (by simp [NDArray.ndim]) (by simp [NDArray.ndim]) (by simp) (by simp) (by simp)
  set c1 := (⟨[a, b, s, s], gp⟩ : NDArray R).tensordotTo ⟨[s, d, s'], gt⟩ [2] [0] with hc1
  have s1 : c1.shape = [a, b, s, d, s'] := rfl
  obtain ⟨k1, g1⟩ := c1
  simp only at s1
  subst s1
  have h2 := NDArray.tensordot_ok (a := (⟨[a, b, s, d, s'], g1⟩ : NDArray R)) (b := NDArray.conj ⟨[s, d, s'], gt⟩) (axa := [2, 4])
    (axb := [0, 2]) (by simp [NDArray.ndim]) (by simp [NDArray.ndim, NDArray.conj]) (by simp [NDArray.conj]) (by simp) (by simp)
  simp only [List.map_cons, List.map_nil, Nat.cast_ofNat, Nat.cast_zero] at h1 h2
  unfold pmfStep
  simp only
  rw [h1, ok_bind, h2, ok_bind]
  rfl

theorem pmfLtrPartial_mps {x ψ : MPA R} {D : List ℕ} (hx : x.lt ≠ []) (hψ : IsMps ψ D) : pmfLtrPartial x ψ = .error .index := by
  obtain ⟨lt, l, r⟩ := ψ
  obtain ⟨ms, xl, xr⟩ := x
  cases ms with
  | nil => exact absurd rfl hx
  | cons m ms =>
  cases lt with
  | nil => exact absurd rfl hψ.valid.ne
  | cons t ts =>
    have hsh := hψ.shape
    have hch := hψ.valid.chain
    cases D with
    | nil => simp [MPA.shape, physShape, singles] at hsh
    | cons d D =>
      have hph : t.ph = [d] := by
        simp only [MPA.shape, physShape, singles, List.map_cons, List.cons.injEq] at hsh
        exact hsh.1
      have ht : t.shape = [1, d, t.rb] := by
        have := NDArray.shape_local hch.1
        rw [hch.2.1, hph] at this
        simpa using this
      unfold pmfLtrPartial
      simp only [List.zip_cons_cons, List.foldlM_cons]
      rw [pmfStep_mps rfl ht]
      rfl

/-- C42 (finding): `pmf_as_array(state, 'mps', impl='pmps-ltr')` and `impl='pmps-symm'` are documented values but raise `IndexError` for
every MPS: the conversion of the MPS to a PMPS happens only if `impl='auto'`.  (`impl='auto'` and `impl='default'` work,
`C42_array_mps`.) -/
theorem C42_mps_fast_fails (qr : QR R) (x ψ : MPA R) (O D : List ℕ) (hx : IsMpPovm x O D) (hψ : IsMps ψ D) (mode : PovmMode)
    (impl : PmfImpl) (hi : impl = .ltr ∨ impl = .symm) : pmfRaw qr x ψ mode impl = .error .index := by
  have hlx : x.len = D.length := by
    have := congrArg List.length hx.shape
    have h2 := hx.len
    simpa [MPA.shape, MPA.len, physShape, triples, pairs, h2] using this
  have hlψ : ψ.len = D.length := by
    have := congrArg List.length hψ.shape
    simpa [MPA.shape, MPA.len, physShape, singles] using this
  have hltr : pmfLtr x ψ = .error .index := by
    unfold pmfLtr
    rw [pmfLtrPartial_mps hx.valid.ne hψ]
    rfl
  unfold pmfRaw
  rw [pyAssert_true (by rw [hlx, hlψ]), ok_bind]
  rcases hi with rfl | rfl
  · simp [ok_bind, hltr]
  · by_cases h1 : x.len = 1
    · simp [ok_bind, h1, hltr]
    · have hpos : 0 < x.len := List.length_pos_of_ne_nil hx.valid.ne
      have hs : pmfSymm x ψ = .error .index := by
        unfold pmfSymm
        rw [show pyGuard (1 < x.len) PyErr.value = .ok () from if_pos (by omega), ok_bind]
        set n := symmCut x ψ with hn
        have hn0 : 0 < n := by rw [hn]; unfold symmCut; exact Nat.succ_pos _
        have ne1 : x.lt.take n ≠ [] := List.ne_nil_of_length_pos (by
          rw [List.length_take]; have : 0 < x.lt.length := hpos; omega)
        have hch := hx.valid.chain
        rw [← List.take_append_drop n x.lt] at hch
        obtain ⟨k, hc1, -⟩ := chained_append.1 hch
        have m1 := mkPovm_part (O := O.take n) (D := D.take n) ne1 hc1 (by
          have := hx.shape
          rw [physShape, List.map_take, show x.lt.map NDArray.ph = _ from this]
          simp only [triples, pairs, List.take_zipWith]) (by simp [hx.len]) (fun o ho => hx.small o (List.mem_of_mem_take ho))
        unfold pmfSymmAt
        rw [m1, ok_bind, pmfLtrPartial_mps (by exact ne1) hψ]
        rfl
      simp [ok_bind, h1, hs]

/-- Non-vacuity: an MP-POVM and an MPS on two sites; without the argument `impl` the call succeeds. -/
example : ∃ qr : QR ℂ, QRSpec qr ∧ ∃ (x ψ : MPA ℂ) (a : NDArray ℂ), IsMpPovm x [2, 1] [2, 1] ∧ IsMps ψ [2, 1] ∧
    pmfRaw qr x ψ (.mode .mps) .ltr = .error .index ∧ pmfRaw qr x ψ (.mode .mps) .symm = .error .index ∧
    pmfRaw qr x ψ (.mode .mps) .auto = .ok (a, ψ) := by
  obtain ⟨qr, hqr⟩ := exists_QRSpec (𝕜 := ℂ)
  let ψ : MPA ℂ := ⟨[⟨[1, 2, 1], fun i => (i.sum : ℂ)⟩, ⟨[1, 1, 1], fun _ => 1⟩], 0, 2⟩
  have hc : Chained 1 ψ.lt 1 := ⟨by simp [NDArray.IsLocal, NDArray.ndim], rfl, by simp [NDArray.IsLocal, NDArray.ndim], rfl, rfl⟩
  have hv : ψ.Valid := ⟨by simp [ψ], hc, by simp [ψ], by simp [ψ], by simp [ψ, MPA.len]⟩
  have hg : ψ.Good := by
    refine ⟨hv, fun n t ht => ⟨fun h => ?_, fun h => ?_⟩, ?_⟩
    · simp [ψ] at h; omega
    · have : n < 2 := (List.getElem?_eq_some_iff.1 ht).1
      simp [ψ] at h; omega
    · intro t ht
      simp only [ψ, List.mem_cons, List.not_mem_nil, or_false] at ht
      rcases ht with rfl | rfl <;> simp
  have hm : IsMps ψ [2, 1] := ⟨hv, rfl⟩
  obtain ⟨a, ha, -⟩ := C42_array_mps hqr exPovm ψ _ _ exPovm_isMpPovm (by simp) (by simp [exPovm, MPA.ranks, NDArray.lb]) hg rfl (.mode .mps)
    (.inr rfl) .auto (.inl rfl)
  exact ⟨qr, hqr, exPovm, ψ, a, exPovm_isMpPovm, hm, C42_mps_fast_fails qr _ _ _ _ exPovm_isMpPovm hm _ _ (.inl rfl),
    C42_mps_fast_fails qr _ _ _ _ exPovm_isMpPovm hm _ _ (.inr rfl), ha⟩

end Mpnum
