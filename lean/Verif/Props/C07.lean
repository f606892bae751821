import Verif.MPArray.SumCore
import Verif.Props.C05

/-!
# C07: `sumup`
-/

open Finset

namespace Mpnum

variable {R : Type}

section
variable [CommSemiring R]

/-- C07: `sumup(mpas)` and `sumup(mpas, weights)` for MPAs of the same shape and as many weights as
MPAs. -/
theorem C07_sumup (mpas : List (MPA R)) (weights : Option (List R)) (s : List (List ℕ))
    (hne : mpas ≠ []) (hv : ∀ m ∈ mpas, m.Valid ∧ m.shape = s)
    (hw : ∀ w, weights = some w → w.length = mpas.length) :
    ∃ z, sumup mpas weights = .ok z ∧
      SumSpec (List.zip (weights.getD (List.replicate mpas.length 1)) mpas) s z := by
  obtain ⟨first, rest, rfl⟩ := List.exists_cons_of_ne_nil hne
  set mpas := first :: rest with hm
  have hlen : ∀ m ∈ mpas, m.len = s.length := by
    intro m hm'; rw [← (hv m hm').2]; simp [MPA.shape, MPA.len]
  obtain ⟨ps, hps⟩ := exists_pairs (mpas.map MPA.lt) (by
    intro it hit
    obtain ⟨m, hm', rfl⟩ := List.mem_map.1 hit
    exact (hv m hm').1.ne)
  have hpl : ps.length = mpas.length := by
    have := congrArg List.length hps; simpa using this.symm
  set w := weights.getD (List.replicate mpas.length 1) with hwd
  have hwl : w.length = mpas.length := by
    cases hww : weights with
    | none => simp [hwd, hww]
    | some w' => simp only [hwd, hww, Option.getD_some]; exact hw w' hww
  -- the weighted first tensors
  set hs' := (match weights with
    | none => ps.map Prod.fst
    | some w => List.zipWith NDArray.smul w (ps.map Prod.fst)) with hhs
  obtain ⟨hA, hB⟩ := sum_core (List.zip w mpas) s
    (by
      have : (List.zip w mpas).length = mpas.length := by simp [hwl]
      intro h; rw [h] at this; simp [hm] at this)
    (by
      rintro ⟨c, m⟩ h
      exact hv m (List.of_mem_zip h).2)
    (List.zip hs' (ps.map Prod.snd))
    (by
      have hfor : ∀ (w : List R) (ms : List (MPA R)) (ps : List (NDArray R × List (NDArray R))),
          ms.map MPA.lt = ps.map (fun p => p.1 :: p.2) → w.length = ms.length →
          List.Forall₂ (fun (w : R × MPA R) (p : NDArray R × List (NDArray R)) =>
            ∃ t, w.2.lt = t :: p.2 ∧ p.1.shape = t.shape ∧ ∀ i, p.1.get i = w.1 * t.get i)
            (List.zip w ms) (List.zip (List.zipWith NDArray.smul w (ps.map Prod.fst)) (ps.map Prod.snd)) := by
        intro w
        induction w with
        | nil => intro ms ps _ h2; cases ms with
          | nil => exact .nil
          | cons => simp at h2
        | cons c w ih =>
          intro ms ps h1 h2
          cases ms with
          | nil => simp at h2
          | cons m ms =>
            cases ps with
            | nil => simp at h1
            | cons p ps =>
              simp only [List.map_cons, List.cons.injEq] at h1
              exact .cons ⟨p.1, h1.1, rfl, fun i => rfl⟩ (ih ms ps h1.2 (by simpa using h2))
      cases hww : weights with
      | some w' =>
        have e : hs' = List.zipWith NDArray.smul w (ps.map Prod.fst) := by simp [hhs, hwd, hww]
        rw [e]
        exact hfor w mpas ps hps hwl
      | none =>
        have e1 : hs' = ps.map Prod.fst := by simp [hhs, hww]
        have e2 : w = List.replicate mpas.length 1 := by simp [hwd, hww]
        rw [e1, e2]
        clear_value mpas
        clear hne hv hw hlen hpl hwd hwl hhs e1 e2 hm
        induction mpas generalizing ps with
        | nil => cases ps with
          | nil => exact .nil
          | cons => simp at hps
        | cons m ms ih =>
          cases ps with
          | nil => simp at hps
          | cons p ps =>
            simp only [List.map_cons, List.cons.injEq] at hps
            exact .cons ⟨p.1, hps.1, rfl, by simp⟩ (ih ps hps.2))
  have hl1 : hs'.length = ps.length := by
    cases hww : weights with
    | none => simp [hhs, hww]
    | some w' => simp [hhs, hww, hw w' hww, hpl]
  have hfst : (List.zip hs' (ps.map Prod.snd)).map Prod.fst = hs' := by
    rw [List.map_fst_zip]; simp [hl1]
  have hsnd : (List.zip hs' (ps.map Prod.snd)).map Prod.snd = ps.map Prod.snd := by
    rw [List.map_snd_zip]; simp [hl1]
  rw [hfst, hsnd] at hB
  rw [hfst] at hA
  have hk : ((weights.map List.length).getD mpas.length) = mpas.length := by
    cases hww : weights with
    | none => simp
    | some w' => simp [hw w' hww]
  unfold sumup
  rw [show mpas.head? = some first from rfl]
  have hfl : first.len = s.length := hlen first (by simp [hm])
  have hassert : pyAssert (∀ m ∈ mpas, m.len = first.len) = .ok () := by
    unfold pyAssert; rw [if_pos]; intro m hm'; rw [hlen m hm', hfl]
  have htake : (mpas.map MPA.lt).take mpas.length = ps.map fun p => p.1 :: p.2 := by
    rw [← hps]; simp
  have hdrop : (mpas.map MPA.lt).drop mpas.length = [] := by simp
  simp only [Option.elim_some, hk, htake, hdrop, List.append_nil, map_tail_pairs]
  show ∃ z, (pyAssert (∀ m ∈ mpas, m.len = first.len) >>= _) = _ ∧ _
  rw [hassert]
  show ∃ z, (nexts _ >>= _) = _ ∧ _
  rw [nexts_pairs]
  show ∃ z, (if first.len = 1 then _ else _) = _ ∧ _
  split
  · rename_i h1
    obtain ⟨c, h1', h2, h3, h4⟩ := hA (by omega)
    obtain ⟨z, hz, hsp⟩ := sumSpec_mk (List.cons_ne_nil c []) h2 h3 (by omega) h4
    refine ⟨z, ?_, hsp⟩
    show (pySum hs' >>= _) = _
    rw [h1']; exact hz
  · rename_i h1
    have h0 : 0 < s.length := by
      rw [← hfl]; exact List.length_pos_of_ne_nil (hv first (by simp [hm])).1.ne
    obtain ⟨c, cs, h1', h2, h3, h4, h5, h6⟩ := hB (s.length - 2) (by omega)
    obtain ⟨z, hz, hsp⟩ := sumSpec_mk (List.cons_ne_nil c cs) h3 h4
      (fun k hk => h5 k (by omega)) h6
    refine ⟨z, ?_, hsp⟩
    show (concatLast hs' >>= _) = _
    rw [h1']
    show (sumRest (first.len - 1) _ >>= _) = _
    rw [show first.len - 1 = s.length - 2 + 1 by omega, h2]; exact hz

/-- C07, error branches. -/
theorem C07_sumup_empty (w : Option (List R)) : sumup ([] : List (MPA R)) w = .error .index := rfl

theorem C07_sumup_length (mpas : List (MPA R)) (w : Option (List R)) (m m' : MPA R)
    (hm : m ∈ mpas) (hm' : m' ∈ mpas) (h : m.len ≠ m'.len) :
    sumup mpas w = .error .assertion := by
  cases mpas with
  | nil => cases hm
  | cons f rest =>
    unfold sumup
    simp only [List.head?_cons, Option.elim_some]
    show (pyAssert (∀ m ∈ f :: rest, m.len = f.len) >>= _) = _
    rw [show pyAssert (∀ m ∈ f :: rest, m.len = f.len) = .error .assertion by
      unfold pyAssert; rw [if_neg]; intro hall; exact h (by rw [hall m hm, hall m' hm'])]
    rfl

end

/-- The hypotheses of `C07_sumup` are met by three MPAs of different ranks with weights. -/
example : ∃ (mpas : List (MPA ℤ)) (w : List ℤ), mpas.length = 3 ∧ w.length = mpas.length ∧ (∀ m ∈ mpas, m.Valid ∧ m.shape = [[2, 3], [2]]) ∧
    mpas.map MPA.ranks = [[1], [2], [3]] := by
  let a : ℕ → NDArray ℤ := fun r => ⟨[1, 2, 3, r], fun i => (i.getD 1 0 : ℤ) + i.getD 3 0⟩
  let b : ℕ → NDArray ℤ := fun r => ⟨[r, 2, 1], fun i => (i.getD 0 0 : ℤ) - i.getD 1 0⟩
  have hv : ∀ r, (⟨[a r, b r], 0, 2⟩ : MPA ℤ).Valid ∧ (⟨[a r, b r], 0, 2⟩ : MPA ℤ).shape = [[2, 3], [2]] := fun r =>
    ⟨valid_mk (by simp) ⟨by simp [a, NDArray.IsLocal, NDArray.ndim], rfl, by simp [b, NDArray.IsLocal, NDArray.ndim], rfl, rfl⟩, rfl⟩
  exact ⟨[⟨[a 1, b 1], 0, 2⟩, ⟨[a 2, b 2], 0, 2⟩, ⟨[a 3, b 3], 0, 2⟩], [1, -2, 5], rfl, rfl, by simp [hv], rfl⟩

end Mpnum
