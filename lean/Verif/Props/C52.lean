import Verif.Props.C27

/-! C52: `singularvals` yields the Schmidt coefficients of every cut and never changes the tensor. -/

open Finset

namespace Mpnum

variable {𝕜 : Type} [RCLike 𝕜]

/-- C52: whenever the consumer stops (after `k` arrays), the `i`-th array obtained consists of the
singular values of the tensor for the bipartition after `i + 1` sites, and the MPA still is a valid
MPA with a true canonical form which represents the same tensor. -/
theorem C52_singularvals {qr : QR 𝕜} (hqr : QRSpec qr) {svd : SVD 𝕜} (h : SVDSpec svd)
    (x : MPA 𝕜) (hx : x.Good) (k : ℕ) :
    ∃ (z : MPA 𝕜) (svs : List (List ℝ)), x.singularvals qr svd k = .ok (z, svs) ∧
      z.Good ∧ z.shape = x.shape ∧ (∀ i, IdxOK i x.shape → z.val i = x.val i) ∧
      svs.length = min k (x.len - 1) ∧
      ∀ (i : ℕ) (sv : List ℝ), svs[i]? = some sv → SingVals x.shape (i + 1) x.val sv := by
  have hlp : 0 < x.len := List.length_pos_of_ne_nil hx.valid.ne
  unfold MPA.singularvals
  by_cases hk : k = 0
  · rw [if_pos hk]
    exact ⟨x, [], rfl, hx, rfl, fun _ _ => rfl, by simp [hk], by simp⟩
  rw [if_neg hk]
  by_cases hlen : x.len = 1
  · rw [if_pos hlen]
    exact ⟨x, [], rfl, hx, rfl, fun _ _ => rfl, by simp [hlen], by simp⟩
  rw [if_neg hlen]
  obtain ⟨y, a1, a2, a3⟩ := MPA.canon_right hqr hx true
  simp only [if_true] at a1
  obtain ⟨m, m1, m2, m3⟩ := MPA.maxRank_ok a2.good (by rw [a2.len]; exact hlen)
  rw [a1, ok_bind, m1, ok_bind, MPA.svdArgs_ok (by exact_mod_cast m2) (by simp), ok_bind]
  obtain ⟨n, hn⟩ : ∃ n, min k (x.len - 1) = n + 1 := ⟨min k (x.len - 1) - 1, by omega⟩
  rw [hn]
  simp only [Nat.add_sub_cancel]
  have hr : (0 : ℤ) < m := by exact_mod_cast m2
  have hf := truncatedSvd_spec h
  obtain ⟨z, out, b1, b2⟩ := MPA.sweepR_ok h hf hr (relerr := none) a2.good n (by rw [a2.len]; omega)
  obtain ⟨z', out', c1, c2⟩ := MPA.sweepR_ok h hf hr (relerr := none) a2.good (n + 1) (by rw [a2.len]; omega)
  -- the last step of the longer sweep starts with the computation of the last array
  have hstep : ∃ lt u sv v t, MPA.svdSiteR svd (truncatedSvd svd) m none z n = .ok (lt, u, sv, v, t) ∧
      out' = out ++ [(sv, t)] := by
    rw [MPA.pyRange_up, show (((n + 1 : ℕ) : ℤ) - 0).toNat = n + 1 by omega, List.range_succ, List.map_append,
      List.foldlM_append] at c1
    rw [MPA.pyRange_up, show ((n : ℤ) - 0).toNat = n by omega] at b1
    rw [b1, ok_bind] at c1
    simp only [List.map_cons, List.map_nil, List.foldlM_cons, List.foldlM_nil] at c1
    rw [show (0 : ℤ) + (n : ℤ) * 1 = n by omega] at c1
    unfold MPA.svdStepR at c1
    simp only at c1
    cases hs : MPA.svdSiteR svd (truncatedSvd svd) m none z n with
    | error e => rw [hs] at c1; cases c1
    | ok p =>
      obtain ⟨lt, u, sv, v, t⟩ := p
      rw [hs, ok_bind] at c1
      simp only at c1
      cases hu : MPA.svdUpdateR z n lt u sv v t with
      | error e => rw [hu] at c1; cases c1
      | ok w =>
        rw [hu] at c1
        refine ⟨lt, u, sv, v, t, rfl, ?_⟩
        have : (w, out ++ [(sv, t)]) = (z', out') := by injection c1
        injection this with _ e2
        exact e2.symm
  obtain ⟨lt, u, sv, v, t, s1, s2⟩ := hstep
  refine ⟨z, out'.map Prod.fst, ?_, b2.good, b2.shape.trans a2.same.shape, ?_, ?_, ?_⟩
  · rw [b1, ok_bind]
    simp only
    rw [s1, ok_bind, s2]; simp
  · have hbond : ∀ {j : ℕ} {full : List (List ℝ × ℕ)}, List.Forall₂ (fun o d => o.1.length ≤ d) full
        (((y.lt.map NDArray.lb).drop 1).take j) → ∀ o ∈ full, (o.1.length : ℤ) ≤ m := by
      intro j full hfull o ho
      obtain ⟨d, d1, d2⟩ := forall₂_exists_right hfull ho
      have := m3 d (by rw [MPA.ranks_eq, ← List.drop_one]; exact List.mem_of_mem_take d1)
      omega
    obtain ⟨full, f1, f2, f3⟩ := b2.cuts rfl (by simp) (a3 rfl)
    intro i hi
    rw [(f1.full (hbond f3)).1 i (by rw [a2.same.shape]; exact hi)]
    exact a2.same.val i hi
  · rw [List.length_map, c2.outlen]
  · have hbond : ∀ {j : ℕ} {full : List (List ℝ × ℕ)}, List.Forall₂ (fun o d => o.1.length ≤ d) full
        (((y.lt.map NDArray.lb).drop 1).take j) → ∀ o ∈ full, (o.1.length : ℤ) ≤ m := by
      intro j full hfull o ho
      obtain ⟨d, d1, d2⟩ := forall₂_exists_right hfull ho
      have := m3 d (by rw [MPA.ranks_eq, ← List.drop_one]; exact List.mem_of_mem_take d1)
      omega
    obtain ⟨full, f1, f2, f3⟩ := c2.cuts rfl (by simp) (a3 rfl)
    obtain ⟨-, g2, g3⟩ := f1.full (hbond f3)
    intro i sv' hi
    rw [f2, List.map_map, List.getElem?_map] at hi
    cases ho : full[i]? with
    | none => rw [ho] at hi; simp at hi
    | some o =>
      rw [ho] at hi
      simp only [Option.map_some, Option.some.injEq, Function.comp] at hi
      have hos : yieldOf none o.1 o.2 = o.1 := by
        have := g2 o (List.mem_of_getElem? ho)
        simp [yieldOf, this]
      rw [hos] at hi
      subst hi
      have hlt : i < full.length := (List.getElem?_eq_some_iff.1 ho).1
      have hl := g3.length_eq
      have hk' : (List.range' 1 (n + 1))[i]? = some (i + 1) := by
        have hh : i < n + 1 := by rw [← hl] at hlt; simpa using hlt
        rw [List.getElem?_range' hh]; congr 1; omega
      have hk2 : i < (List.range' 1 (n + 1)).length := by rw [hl]; exact hlt
      have := List.forall₂_iff_get.1 g3 |>.2 i hk2 hlt
      simp only [List.get_eq_getElem] at this
      rw [List.getElem?_eq_getElem hk2] at hk'
      rw [List.getElem?_eq_getElem hlt] at ho
      simp only [Option.some.injEq] at hk' ho
      rw [hk', ho, a2.same.shape] at this
      exact this.congr fun i hi => (a2.same.val i hi).symm

/-- Non-vacuity: the theorem applies to a two-site MPA; exactly one array is obtained from it. -/
example : ∃ (qr : QR ℂ) (svd : SVD ℂ), QRSpec qr ∧ SVDSpec svd ∧ exMPAc.Good ∧
    ∃ z sv, exMPAc.singularvals qr svd 5 = .ok (z, [sv]) ∧ SingVals exMPAc.shape 1 exMPAc.val sv := by
  obtain ⟨qr, hqr⟩ := exists_QRSpec (𝕜 := ℂ)
  obtain ⟨svd, h⟩ := exists_SVDSpec (𝕜 := ℂ)
  obtain ⟨z, svs, h1, -, -, -, h5, h6⟩ := C52_singularvals hqr h exMPAc exMPAc_good 5
  have hl : svs.length = 1 := h5
  obtain ⟨sv, rfl⟩ := List.length_eq_one_iff.1 hl
  exact ⟨qr, svd, hqr, h, exMPAc_good, z, sv, h1, h6 0 sv rfl⟩

end Mpnum
