import Verif.Props.C15
import Verif.Props.C16
import Verif.Props.C02More

/-!
C14, C15 and C16: `transpose`, `reshape` and `split_sites` reject an argument that does not fit to *some* site.
-/

open Finset

namespace Mpnum

variable {R : Type}

/-- A loop in which one site fails, and in which no site fails with another exception. -/
theorem mapM_some_error {α β : Type} {f : α → Py β} {l : List α} {e : PyErr} (h : ∀ a ∈ l, (∃ b, f a = .ok b) ∨ f a = .error e) {a : α}
    (ha : a ∈ l) (he : f a = .error e) : l.mapM f = .error e := by
  induction l with
  | nil => cases ha
  | cons b l ih =>
    rw [List.mapM_cons]
    rcases h b (by simp) with ⟨c, hc⟩ | hc
    · rcases List.mem_cons.1 ha with rfl | ha
      · rw [he] at hc; cases hc
      · rw [hc, ih (fun a ha => h a (by simp [ha])) ha]; rfl
    · rw [hc]; rfl

theorem localTranspose_invalid {t : NDArray R} (ht : t.IsLocal) {axes : List ℕ} (h : ¬ axes.Perm (List.range t.ph.length)) :
    localTranspose t (some (axes.map fun k : ℕ => (k : ℤ))) = .error .value := by
  have hnd := NDArray.ndim_local ht
  have := transpose_error t (0 :: (axes.map (· + 1) ++ [t.ph.length + 1])) (fun hp => h ?_)
  · rw [← this]
    unfold localTranspose
    simp only [List.map_cons, List.map_append, List.map_map, Function.comp_def, hnd]
    push_cast
    simp
    ring_nf
  · rw [hnd, List.range_succ, List.range_succ_eq_map, List.cons_append, List.perm_cons,
      List.perm_append_right_iff] at hp
    have := hp.map Nat.pred
    rw [List.map_map, List.map_map] at this
    have e : ∀ l : List ℕ, l.map (Nat.pred ∘ fun x => x + 1) = l := fun l => by
      simp [Function.comp_def]
    rw [e] at this
    exact this.trans (by rw [show (Nat.pred ∘ Nat.succ) = id from rfl, List.map_id])

/-- C14: axes that are not a permutation of the legs of every site are rejected with `ValueError`; by `C14_transpose`, all others are
accepted. -/
theorem C14_transpose_rejects [CommRing R] [StarRing R] (x : MPA R) (hx : x.Valid) (axes : List ℕ) (s : List ℕ) (hs : s ∈ x.shape)
    (h : ¬ axes.Perm (List.range s.length)) : x.transpose (some (axes.map fun k : ℕ => (k : ℤ))) = .error .value := by
  obtain ⟨t, ht, rfl⟩ := List.mem_map.1 hs
  unfold MPA.transpose
  rw [mapM_some_error (e := .value) (fun u hu => ?_) ht (localTranspose_invalid (hx.chain.isLocal t ht) h)]
  · rfl
  · have hul := hx.chain.isLocal u hu
    by_cases hp : axes.Perm (List.range u.ph.length)
    · obtain ⟨v, hv, _⟩ := localTranspose_perm (perm := axes) (n := u.ph.length) hp hul rfl
      exact .inl ⟨v, hv⟩
    · exact .inr (localTranspose_invalid hul hp)

theorem localReshape_invalid {t : NDArray R} (ht : t.IsLocal) (hl : 0 < t.lb) (hr : 0 < t.rb) {s : List ℕ} (hs : s.prod ≠ t.ph.prod) :
    localReshape t (s.map fun k : ℕ => (k : ℤ)) = .error .value := by
  unfold localReshape NDArray.reshape
  have e : ((t.lb : ℤ) :: (s.map (fun n : ℕ => (n : ℤ)) ++ [(t.rb : ℤ)]))
      = (t.lb :: (s ++ [t.rb])).map fun n : ℕ => (n : ℤ) := by simp
  rw [e]
  have : NDArray.resolveShape t.size ((t.lb :: (s ++ [t.rb])).map fun n : ℕ => (n : ℤ)) = .error .value := by
    unfold NDArray.resolveShape
    have f1 : ((t.lb :: (s ++ [t.rb])).map fun n : ℕ => (n : ℤ)).filter (· < 0) = [] := by
      rw [List.filter_eq_nil_iff]
      intro a ha
      obtain ⟨k, _, rfl⟩ := List.mem_map.1 ha
      simp
    have f2 : ((t.lb :: (s ++ [t.rb])).map fun n : ℕ => (n : ℤ)).filter (0 ≤ ·)
        = (t.lb :: (s ++ [t.rb])).map fun n : ℕ => (n : ℤ) := by
      rw [List.filter_eq_self]
      intro a ha
      obtain ⟨k, _, rfl⟩ := List.mem_map.1 ha
      simp
    simp only [f1, f2]
    rw [if_neg]
    rw [List.map_map]
    simp only [Function.comp_def, Int.toNat_natCast, List.map_id']
    rw [NDArray.size, NDArray.shape_local ht]
    simp only [List.prod_cons, List.prod_append, List.prod_nil, mul_one]
    intro h
    have h' := Nat.eq_of_mul_eq_mul_left hl h
    exact hs (Nat.eq_of_mul_eq_mul_right hr h')
  rw [this]; rfl

/-- C15: if the new shape of any site has a different number of entries, `reshape` raises `ValueError`. -/
theorem C15_reshape_rejects [CommRing R] [StarRing R] (x : MPA R) (hx : x.Valid) (hb : ∀ r ∈ x.ranks, 0 < r) (ss : List (List ℕ)) (k : ℕ)
    (p s : List ℕ) (hp : x.shape[k]? = some p) (hk : ss[k]? = some s) (hs : s.prod ≠ p.prod) :
    x.reshape (.list (ss.map fun s => s.map fun k : ℕ => (k : ℤ))) = .error .value := by
  have hne : ss ≠ [] := by rintro rfl; simp at hk
  obtain ⟨s0, ss0, rfl⟩ := List.exists_cons_of_ne_nil hne
  unfold MPA.reshape
  have hn : x.newShapes (.list ((s0 :: ss0).map fun s => s.map fun k : ℕ => (k : ℤ)))
      = .ok ((s0 :: ss0).map fun s => s.map fun k : ℕ => (k : ℤ)) := rfl
  rw [hn, ok_bind]
  have hp' : x.lt[k]?.map NDArray.ph = some p := by rw [← List.getElem?_map]; exact hp
  obtain ⟨t, ht, rfl⟩ := Option.map_eq_some_iff.1 hp'
  have hmem : (t, s.map fun k : ℕ => (k : ℤ)) ∈ x.lt.zip ((s0 :: ss0).map fun s => s.map fun k : ℕ => (k : ℤ)) := by
    refine List.mem_of_getElem? (i := k) ?_
    rw [List.getElem?_zip_eq_some, List.getElem?_map, hk]
    exact ⟨ht, rfl⟩
  have htm := List.mem_of_getElem? ht
  have hbp := bonds_pos hx hb
  rw [mapM_some_error (e := .value) (fun u hu => ?_) hmem
    (localReshape_invalid (hx.chain.isLocal t htm) (hbp t htm).1 (hbp t htm).2 hs)]
  · rfl
  · obtain ⟨h1, h2⟩ := List.of_mem_zip hu
    obtain ⟨q, _, hq⟩ := List.mem_map.1 h2
    rw [← hq]
    have hul := hx.chain.isLocal _ h1
    by_cases hpr : q.prod = u.1.ph.prod
    · obtain ⟨v, hv, _⟩ := localReshape_ok hul hpr
      exact .inl ⟨v, hv⟩
    · exact .inr (localReshape_invalid hul (hbp _ h1).1 (hbp _ h1).2 hpr)

/-- C16: `split_sites(k)` raises `AssertionError` if the number of legs of any site is not a multiple of `k`. -/
theorem C16_split_sites_rejects [CommRing R] [StarRing R] {qr : QR R} (hqr : QRSpec qr) (x : MPA R) (hx : x.Valid) (hpos : AllPos x.lt)
    (k : ℕ) (hk : 0 < k) (s : List ℕ) (hs : s ∈ x.shape) (h : ¬ k ∣ s.length) : x.splitSites qr k = .error .assertion := by
  obtain ⟨t, ht, rfl⟩ := List.mem_map.1 hs
  unfold MPA.splitSites
  have hnd : ∀ u ∈ x.lt, u.ndim - 2 = u.ph.length := fun u hu => by rw [NDArray.ndim_local (hx.chain.isLocal u hu)]; omega
  rw [mapM_some_error (e := .assertion) (a := t) (fun u hu => ?_) ht]
  · rfl
  · rw [if_neg (by omega), hnd t ht, pyAssert_false (by rwa [Nat.dvd_iff_mod_eq_zero] at h)]; rfl
  · rw [if_neg (by omega), hnd u hu]
    by_cases hd : k ∣ u.ph.length
    · rw [pyAssert_true (by rwa [Nat.dvd_iff_mod_eq_zero] at hd), ok_bind]
      left
      have hul := hx.chain.isLocal u hu
      have hsh := NDArray.shape_local hul
      have hup : 0 < u.lb ∧ (∀ d ∈ u.ph, 0 < d) ∧ 0 < u.rb := by
        have := hpos u hu
        rw [hsh] at this
        exact ⟨this _ (by simp), fun d hd => this d (by simp [hd]), this _ (by simp)⟩
      have hud := NDArray.ndim_local hul
      obtain ⟨m, hm⟩ := hd
      rcases Nat.eq_zero_or_pos m with rfl | hm0
      · rw [hm]
        refine ⟨[u], ?_⟩
        unfold extractFactorsArg
        simp only [List.replicate_succ, extractFactors, mul_zero, Nat.zero_div]
        rw [if_pos (by omega)]
      · have hdiv : u.ph.length / k = m := by rw [hm, Nat.mul_div_cancel_left _ hk]
        rw [hdiv]
        unfold extractFactorsArg
        obtain ⟨P, h1, h2, -, h4, extra, h5⟩ := extract_fit hqr .recursion (l := u.lb) (r := u.rb) (s := u.ph) (t := u) hup.1 hup.2.2
          hup.2.1 hsh ((legsFit_replicate (N := u.ndim + 1) hm0 (by omega)).2
            ⟨by rw [hm]; exact Nat.mul_pos hk hm0, ⟨k, by rw [hm, mul_comm]⟩⟩)
        obtain ⟨ts, k1, _⟩ := extract_ok hqr .recursion extra P h1 h4 (fun p hp d hd =>
          hup.2.1 d (by rw [← h2]; exact List.mem_flatten.2 ⟨p, hp, hd⟩)) u.lb u.rb u hup.1 hup.2.2 (by rw [h2]; exact hsh)
        exact ⟨ts, by rw [← h5] at k1; exact k1⟩
    · exact .inr (by rw [pyAssert_false (by rwa [Nat.dvd_iff_mod_eq_zero] at hd)]; rfl)

/-- Non-vacuity: in `exOp` the second site has the shape `(3, 2)`. -/
example : exOp.Valid ∧ (∀ r ∈ exOp.ranks, 0 < r) ∧ exOp.shape = [[2, 3], [3, 2]] ∧ ¬ [0].Perm (List.range [3, 2].length) ∧
    [3, 3].prod ≠ [3, 2].prod ∧ ¬ 3 ∣ [3, 2].length :=
  ⟨exOp_valid, by decide, rfl, fun h => by simpa using h.length_eq, by decide, by decide⟩

end Mpnum
