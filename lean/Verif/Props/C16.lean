import Verif.MPArray.Group
import Verif.Props.C14
import Verif.Props.C02

/-!
# C16: group_sites and split_sites
-/

open Finset

namespace Mpnum

variable {R : Type}

/-- Two MPAs represent the same dense tensor: `x.to_array()` and `y.to_array()` exist and agree. -/
def SameDense [CommSemiring R] (x y : MPA R) : Prop :=
  ∃ A B, x.toArray = .ok A ∧ y.toArray = .ok B ∧ B.Eqv A

theorem sameDense_of [CommSemiring R] {x y : MPA R} (hx : x.Valid) (hy : y.Valid)
    (hs : y.shape.flatten = x.shape.flatten)
    (hv : ∀ idx, IdxOK idx x.shape → ∃ idx', IdxOK idx' y.shape ∧ idx'.flatten = idx.flatten ∧
      y.val idx' = x.val idx) : SameDense x y := by
  obtain ⟨A, a1, a2, a3⟩ := C01_to_array x hx
  obtain ⟨B, b1, b2, b3⟩ := C01_to_array y hy
  refine ⟨A, B, a1, b1, by rw [a2, b2, hs], ?_⟩
  intro i hi
  rw [b2, hs] at hi
  obtain ⟨idx, rfl, hidx⟩ := C01_all_entries x i hi
  obtain ⟨idx', h1, h2, h3⟩ := hv idx hidx
  rw [a3 idx hidx, ← h2, b3 idx' h1, h3]

theorem SameDense.trans [CommSemiring R] {x y z : MPA R} (h : SameDense x y) (h' : SameDense y z) :
    SameDense x z := by
  obtain ⟨A, B, h1, h2, h3⟩ := h
  obtain ⟨B', C, g1, g2, g3⟩ := h'
  rw [h2] at g1
  injection g1 with g1
  subst g1
  exact ⟨A, C, h1, g2, g3.1.trans h3.1, fun i hi => (g3.2 i hi).trans (h3.2 i (g3.1 ▸ hi))⟩

theorem idxOK_chunks {k n : ℕ} {idx s : List (List ℕ)} (h : IdxOK idx s) :
    List.Forall₂ IdxOK (chunks k n idx) (chunks k n s) := by
  induction n generalizing idx s with
  | zero => exact .nil
  | succ n ih => exact .cons (List.forall₂_take _ h) (ih (List.forall₂_drop _ h))

theorem map_flatten_flatten {α : Type} (L : List (List (List α))) :
    (L.map List.flatten).flatten = L.flatten.flatten := by
  induction L with
  | nil => rfl
  | cons a L ih => simp [ih]

theorem idxOK_map_flatten {I S : List (List (List ℕ))} (h : List.Forall₂ IdxOK I S) :
    IdxOK (I.map List.flatten) (S.map List.flatten) := by
  induction h with
  | nil => exact .nil
  | cons h _ ih => exact .cons (idxOK_flatten h) ih

section
variable [CommRing R] [StarRing R]

/-- C16: `x.group_sites(k)` merges the sites in groups of `k`; site `j` of the result has the legs of
sites `j k, ..., j k + k - 1`, and the dense tensor is the same. -/
theorem C16_group_sites (x : MPA R) (hx : x.Valid) (k n : ℕ) (hk : 0 < k) (hn : x.len = n * k) :
    ∃ y, x.groupSites k = .ok y ∧ y.Valid ∧ y.len = n ∧
      y.shape = (chunks k n x.shape).map List.flatten ∧
      (∀ idx, IdxOK idx x.shape → y.val ((chunks k n idx).map List.flatten) = x.val idx) ∧
      SameDense x y ∧ (x.CanonOK → y.CanonOK) ∧ (AllPos x.lt → AllPos y.lt) := by
  have hn0 : 0 < n := by
    rcases Nat.eq_zero_or_pos n with rfl | h
    · have : x.lt.length = 0 := by simpa [MPA.len] using hn
      exact absurd (List.length_eq_zero_iff.1 this) hx.ne
    · exact h
  have hlen : x.lt.length = n * k := hn
  have hslen : x.shape.length = n * k := by rw [MPA.shape, List.length_map]; exact hn
  have key : ∃ y, x.groupSites k = .ok y ∧ y.Valid ∧ y.len = n ∧
      y.shape = (chunks k n x.shape).map List.flatten ∧
      (∀ idx, IdxOK idx x.shape → y.val ((chunks k n idx).map List.flatten) = x.val idx) ∧
      (x.CanonOK → y.CanonOK) ∧ (AllPos x.lt → AllPos y.lt) := by
    unfold MPA.groupSites
    rw [if_neg (by omega), if_neg (by rw [hn]; simp)]
    by_cases h1 : k = 1
    · subst h1
      rw [if_pos rfl]
      have e : ∀ (m : ℕ) (l : List (List ℕ)), l.length = m → (chunks 1 m l).map List.flatten = l := by
        intro m
        induction m with
        | zero => intro l hl; simp at hl; subst hl; rfl
        | succ m ih =>
          intro l hl
          cases l with
          | nil => simp at hl
          | cons a l => simp [chunks, ih l (by simpa using hl)]
      refine ⟨x, rfl, hx, by simpa using hn, ?_, ?_, id, id⟩
      · rw [e n _ (by simpa using hslen)]
      · intro idx hi
        rw [e n _ (by rw [idxOK_length hi]; simpa using hslen)]
    · rw [if_neg h1]
      have hch : ((pyRange 0 x.len k).map fun i => (x.lt.drop i.toNat).take k) = chunks k n x.lt := by
        rw [hn, pyRange_step n k hk, List.map_map, ← chunks_range]
        apply List.map_congr_left
        intro j _
        simp only [Function.comp, Int.toNat_natCast]
      have hfl := chunks_flatten hlen
      obtain ⟨us, g1, g2, g3⟩ := groups_ok (G := chunks k n x.lt) (l := 1) (r := 1)
        (fun g hg h => by
          have := chunks_mem_length hlen g hg
          rw [h] at this; simp at this; omega) (by rw [hfl]; exact hx.chain)
      have hul : us.length = n := by have := g2.length_eq; simpa using this.symm
      have hune : us ≠ [] := by intro h; rw [h] at hul; simp at hul; omega
      have hphys : us.map NDArray.ph = (chunks k n x.shape).map List.flatten := by
        rw [MPA.shape, chunks_map, List.map_map]
        clear hul hune g1 g3 hch hfl
        generalize chunks k n x.lt = G at g2
        induction g2 with
        | nil => rfl
        | cons h _ ih => simp only [List.map_cons, ih, h.ph]; rfl
      refine ⟨_, by rw [hch, g1]; exact mkMPA_ok hune g3, valid_mk hune g3, hul, hphys, ?_,
        fun _ => canonOK_mk _, ?_⟩
      rotate_left
      · intro hp u hu
        have hmem : ∀ g ∈ chunks k n x.lt, g ≠ [] ∧ AllPos g := by
          intro g hg
          refine ⟨fun h => ?_, fun t ht => hp t ?_⟩
          · have := chunks_mem_length hlen g hg
            rw [h] at this; simp at this; omega
          · rw [← hfl]; exact List.mem_flatten.2 ⟨g, hg, ht⟩
        clear hul hune g1 g3 hch hfl hphys
        generalize chunks k n x.lt = G at g2 hmem
        induction g2 with
        | nil => simp at hu
        | cons h _ ih =>
          rcases List.mem_cons.1 hu with rfl | hu
          · exact merged_pos h (hmem _ (by simp)).1 (hmem _ (by simp)).2
          · exact ih hu fun g hg => hmem g (by simp [hg])
      intro idx hi
      have hmp := mp_merge g2 g3 (idx := chunks k n idx) (a := 0) (b := 0) (by
        have := idxOK_chunks (k := k) (n := n) hi
        rw [MPA.shape, chunks_map] at this
        exact this) one_pos
      rw [hfl, chunks_flatten (by rw [idxOK_length hi, hslen])] at hmp
      exact hmp
  obtain ⟨y, h1, h2, h3, h4, h5, h6⟩ := key
  refine ⟨y, h1, h2, h3, h4, h5, ?_, h6⟩
  refine sameDense_of hx h2 ?_ ?_
  · rw [h4, map_flatten_flatten, chunks_flatten hslen]
  · intro idx hi
    refine ⟨_, ?_, ?_, h5 idx hi⟩
    · rw [h4]; exact idxOK_map_flatten (idxOK_chunks hi)
    · rw [map_flatten_flatten, chunks_flatten (by rw [idxOK_length hi, hslen])]

omit [StarRing R] in
/-- C16: a length that is not a multiple of `k` is rejected with `ValueError`. -/
theorem C16_group_sites_invalid (x : MPA R) (k : ℕ) (hk : 0 < k) (h : ¬ k ∣ x.len) :
    x.groupSites k = .error .value := by
  unfold MPA.groupSites
  rw [if_neg (by omega), if_pos (by rwa [Nat.dvd_iff_mod_eq_zero] at h)]

/-- C16: `x.split_sites(k)` splits every site with `k m` legs (`m ≥ 1`) into `k` sites with `m` legs;
the dense tensor is the same. -/
theorem C16_split_sites {qr : QR R} (hqr : QRSpec qr) (x : MPA R) (hx : x.Valid)
    (hpos : AllPos x.lt) (k m : ℕ) (hk : 0 < k) (hm : 0 < m) (hl : ∀ s ∈ x.shape, s.length = k * m) :
    ∃ y, x.splitSites qr k = .ok y ∧ y.Valid ∧ y.len = x.len * k ∧
      y.shape = x.shape.flatMap (chunks m k) ∧
      (∀ idx, IdxOK idx x.shape → y.val (idx.flatMap (chunks m k)) = x.val idx) ∧
      SameDense x y ∧ y.CanonOK := by
  have hloc := hx.chain.isLocal
  have hl' : ∀ t ∈ x.lt, t.ph.length = k * m := fun t ht => hl _ (List.mem_map.2 ⟨t, ht, rfl⟩)
  obtain ⟨ps, h1, h2, h3⟩ := mapM_pairs (xs := x.lt) (f := fun t =>
      (if k = 0 then .error .zeroDiv
      else do
        pyAssert ((t.ndim - 2) % k = 0)
        extractFactorsArg qr (.const ((t.ndim - 2) / k)) t : Py (List (NDArray R))))
    (P := fun t ts => t ∈ x.lt ∧ Merged ts t ∧ physShape ts = chunks m k t.ph) (by
      intro t ht
      obtain ⟨ts, a, b, c⟩ := splitSite_ok hqr (hloc t ht) (hpos t ht) hk hm (hl' t ht)
      refine ⟨ts, ?_, ht, b, c⟩
      have e1 : t.ndim - 2 = k * m := by rw [NDArray.ndim_local (hloc t ht), hl' t ht]; omega
      rw [if_neg (by omega), e1, pyAssert_true (by simp), ok_bind, Nat.mul_div_cancel_left _ hk]
      exact a)
  have hF : List.Forall₂ Merged (ps.map Prod.snd) (ps.map Prod.fst) := by
    rw [List.forall₂_map_left_iff, List.forall₂_map_right_iff, List.forall₂_same]
    exact fun p hp => (h3 p hp).2.1
  have hc := hx.chain
  rw [← h2] at hc
  have hG := merged_chain hF hc
  have hsh : physShape (ps.map Prod.snd).flatten = x.shape.flatMap (chunks m k) := by
    rw [MPA.shape, ← h2, physShape, List.map_flatten, List.flatMap, List.map_map, List.map_map,
      List.map_map]
    congr 1
    apply List.map_congr_left
    intro p hp
    exact (h3 p hp).2.2
  have hlen : (ps.map Prod.snd).flatten.length = x.len * k := by
    have e := congrArg List.length hsh
    rw [physShape, List.length_map, List.length_flatMap] at e
    rw [e]
    simp [MPA.shape, MPA.len, Function.comp_def]
  have hxl : 0 < x.len := List.length_pos_of_ne_nil hx.ne
  have hne : (ps.map Prod.snd).flatten ≠ [] := by
    intro h; rw [h] at hlen
    have := Nat.mul_pos hxl hk
    simp at hlen; omega
  have hv := valid_mk hne hG
  have hval : ∀ idx, IdxOK idx x.shape →
      IdxOK (idx.flatMap (chunks m k)) (x.shape.flatMap (chunks m k)) ∧
      (idx.flatMap (chunks m k)).flatten = idx.flatten ∧
      entry (ps.map Prod.snd).flatten (idx.flatMap (chunks m k)) = x.val idx := by
    intro idx hi
    have hi' : IdxOK idx (ps.map fun p => p.1.ph) := by
      rw [show x.shape = x.lt.map NDArray.ph from rfl, ← h2, List.map_map] at hi; exact hi
    have hl2 : ∀ p ∈ ps, p.1.ph.length = k * m := fun p hp => hl' _ (h3 p hp).1
    have aux : List.Forall₂ IdxOK (idx.map (chunks m k)) (ps.map fun p => chunks m k p.1.ph) ∧
        (idx.map (chunks m k)).map List.flatten = idx := by
      clear h1 h2 h3 hF hc hG hsh hlen hne hv hi
      induction ps generalizing idx with
      | nil => cases idx with
        | nil => exact ⟨.nil, rfl⟩
        | cons i is => simp [IdxOK] at hi'
      | cons p ps ih =>
        cases idx with
        | nil => simp [IdxOK] at hi'
        | cons i is =>
          simp only [List.map_cons, idxOK_cons] at hi'
          obtain ⟨g1, g2⟩ := ih is hi'.2 fun q hq => hl2 q (by simp [hq])
          have hil : i.length = k * m := by rw [inB_length hi'.1]; exact hl2 p (by simp)
          have hch : ∀ (n : ℕ) (i s : List ℕ), InB i s → IdxOK (chunks m n i) (chunks m n s) := by
            intro n
            induction n with
            | zero => intro i s _; exact .nil
            | succ n ih =>
              intro i s h
              exact .cons (List.forall₂_take _ h) (ih _ _ (List.forall₂_drop _ h))
          exact ⟨.cons (hch k _ _ hi'.1) g1, by simp only [List.map_cons, g2, chunks_flatten hil]⟩
    have hps : ps.map (fun p => chunks m k p.1.ph) = (ps.map Prod.snd).map physShape := by
      rw [List.map_map]
      apply List.map_congr_left
      intro p hp
      exact ((h3 p hp).2.2).symm
    refine ⟨?_, ?_, ?_⟩
    · have e1 : x.shape.flatMap (chunks m k) = (ps.map fun p => chunks m k p.1.ph).flatten := by
        rw [MPA.shape, ← h2, List.flatMap, List.map_map, List.map_map]; rfl
      rw [e1, List.flatMap]
      have := aux.1
      clear aux
      generalize idx.map (chunks m k) = I at this
      generalize ps.map (fun p => chunks m k p.1.ph) = S at this
      induction this with
      | nil => exact .nil
      | cons a _ ih => exact idxOK_append a ih
    · rw [List.flatMap, ← map_flatten_flatten, aux.2]
    · have := mp_merge hF hc (idx := idx.map (chunks m k)) (a := 0) (b := 0) (hps ▸ aux.1) one_pos
      rw [aux.2, h2] at this
      exact this.symm
  refine ⟨_, by unfold MPA.splitSites; rw [h1]; exact mkMPA_ok hne hG, hv, hlen, hsh,
    fun idx hi => (hval idx hi).2.2, ?_, canonOK_mk _⟩
  refine sameDense_of hx hv ?_ ?_
  · show (physShape (ps.map Prod.snd).flatten).flatten = _
    rw [hsh, List.flatMap, ← map_flatten_flatten, List.map_map]
    conv_rhs => rw [← List.map_id x.shape]
    congr 1
    apply List.map_congr_left
    intro s hs
    exact chunks_flatten (hl s hs)
  · intro idx hi
    obtain ⟨g1, g2, g3⟩ := hval idx hi
    exact ⟨_, by show IdxOK _ (physShape (ps.map Prod.snd).flatten); rw [hsh]; exact g1, g2, g3⟩

omit [CommRing R] [StarRing R] in
/-- C16: a site whose number of legs is not a multiple of `k` is rejected (here the first one). -/
theorem C16_split_sites_invalid (qr : QR R) (x : MPA R) (hx : x.Valid) (k : ℕ) (hk : 0 < k) (s : List ℕ)
    (hs : x.shape.head? = some s) (h : ¬ k ∣ s.length) :
    x.splitSites qr k = .error .assertion := by
  obtain ⟨t, ts, hts⟩ := List.exists_cons_of_ne_nil hx.ne
  have ht : t.IsLocal := hx.chain.isLocal t (by rw [hts]; simp)
  have hst : s = t.ph := by simpa [MPA.shape, hts, eq_comm] using hs
  subst hst
  have e1 : t.ndim - 2 = t.ph.length := by rw [NDArray.ndim_local ht]; omega
  unfold MPA.splitSites
  rw [hts, List.mapM_cons, if_neg (by omega), e1,
    pyAssert_false (by rwa [Nat.dvd_iff_mod_eq_zero] at h)]
  rfl

/-- C16: `split_sites(k)` after `group_sites(k)` restores the shape of every site and the dense
tensor, for MPAs with the same positive number of legs on all sites. -/
theorem C16_round_trip {qr : QR R} (hqr : QRSpec qr) (x : MPA R) (hx : x.Valid) (hpos : AllPos x.lt)
    (k n m : ℕ) (hk : 0 < k) (hm : 0 < m) (hn : x.len = n * k) (hl : ∀ s ∈ x.shape, s.length = m) :
    ∃ y z, x.groupSites k = .ok y ∧ y.splitSites qr k = .ok z ∧ z.shape = x.shape ∧
      (∀ idx, IdxOK idx x.shape → z.val idx = x.val idx) ∧ SameDense x z := by
  obtain ⟨y, h1, h2, h3, h4, h5, h6, _, hypos⟩ := C16_group_sites x hx k n hk hn
  have hslen : x.shape.length = n * k := by rw [MPA.shape, List.length_map]; exact hn
  have hcl := chunks_mem_length hslen
  have hsub : ∀ c ∈ chunks k n x.shape, ∀ s ∈ c, s ∈ x.shape := by
    intro c hc s hs
    rw [← chunks_flatten hslen]
    exact List.mem_flatten.2 ⟨c, hc, hs⟩
  have hyl : ∀ s ∈ y.shape, s.length = k * m := by
    intro s hs
    rw [h4] at hs
    obtain ⟨c, hc, rfl⟩ := List.mem_map.1 hs
    rw [flatten_length_const (n := m) fun s hs => hl s (hsub c hc s hs), hcl c hc]
  obtain ⟨z, g1, g2, g3, g4, g5, g6, _⟩ := C16_split_sites hqr y h2 (hypos hpos) k m hk hm hyl
  have hcc : ∀ (L : List (List ℕ)), L.length = n * k → (∀ s ∈ L, s.length = m) →
      ((chunks k n L).map List.flatten).flatMap (chunks m k) = L := by
    intro L hL hm'
    rw [List.flatMap, List.map_map]
    have : (chunks k n L).map (chunks m k ∘ List.flatten) = (chunks k n L).map id := by
      apply List.map_congr_left
      intro c hc
      simp only [Function.comp, id]
      have := chunks_of_flatten (k := m) (L := c) fun s hs => hm' s (by
        rw [← chunks_flatten hL]; exact List.mem_flatten.2 ⟨c, hc, hs⟩)
      rw [chunks_mem_length hL c hc] at this
      exact this
    rw [this, List.map_id, chunks_flatten hL]
  refine ⟨y, z, h1, g1, ?_, ?_, h6.trans g6⟩
  · rw [g4, h4, hcc _ hslen hl]
  · intro idx hi
    have hil : ∀ i ∈ idx, i.length = m := by
      intro i hi'
      clear g1 g2 g3 g4 g5 g6 h1 h2 h3 h4 h5 h6 hypos hcl hsub hyl hcc hslen
      generalize x.shape = S at hi hl
      induction hi with
      | nil => simp at hi'
      | cons a _ ih =>
        rcases List.mem_cons.1 hi' with rfl | hi'
        · rw [inB_length a]; exact hl _ (by simp)
        · exact ih hi' (fun s hs => hl s (by simp [hs]))
    rw [← h5 idx hi, ← g5 _ (by rw [h4]; exact idxOK_map_flatten (idxOK_chunks hi)),
      hcc idx (by rw [idxOK_length hi, hslen]) hil]

end

/-- Non-vacuity of the C16 theorems: the example MPA over `ℂ` meets the hypotheses for `k = 2`. -/
example : ∃ qr : QR ℂ, QRSpec qr ∧ exMPAc.Valid ∧ AllPos exMPAc.lt ∧ exMPAc.len = 1 * 2 ∧
    (∀ s ∈ exMPAc.shape, s.length = 1) ∧ ¬ 3 ∣ exMPAc.len := by
  obtain ⟨qr, hqr⟩ := exists_QRSpec (𝕜 := ℂ)
  refine ⟨qr, hqr, exMPAc_good.valid, exMPAc_good.pos, rfl, ?_, by decide⟩
  simp [exMPAc, MPA.shape, NDArray.ph]

/-- A finding: a site without legs is not split, so the result is shorter than `len * k`. -/
theorem C16_split_no_legs (qr : QR ℤ) : ∃ x y : MPA ℤ, x.Valid ∧ x.len = 1 ∧
    x.splitSites qr 2 = .ok y ∧ y.len = 1 := by
  refine ⟨⟨[⟨[1, 1], fun _ => 1⟩], 0, 1⟩, _, ?_, rfl, rfl, rfl⟩
  exact ⟨by simp, by simp [NDArray.IsLocal, NDArray.ndim, NDArray.lb, NDArray.rb], by simp, by simp,
    by simp [MPA.len]⟩

end Mpnum
