import Verif.Valid

/-! Chains transformed site by site. -/

open Finset

namespace Mpnum

variable {R : Type}

/-! ### sums over all indices of a shape as sums over a finite set -/

/-- The set of indices inside of a shape. -/
def idxSet (s : List ℕ) : Finset (List ℕ) := (allIdx s).toFinset

theorem mem_idxSet {s i : List ℕ} : i ∈ idxSet s ↔ InB i s := by
  unfold idxSet; rw [List.mem_toFinset, mem_allIdx]

theorem sumIdx_eq_sum [AddCommMonoid R] (s : List ℕ) (f : List ℕ → R) :
    sumIdx s f = ∑ i ∈ idxSet s, f i := by
  induction s generalizing f with
  | nil =>
    have : idxSet [] = {[]} := by
      ext i; rw [mem_idxSet]; simp
    rw [this]; simp
  | cons d s ih =>
    rw [sumIdx_cons]
    simp only [ih]
    rw [Finset.sum_sigma']
    refine Finset.sum_bij' (fun p _ => p.1 :: p.2) (fun i _ => ⟨i.headD 0, i.tail⟩) ?_ ?_ ?_ ?_ ?_
    · rintro ⟨j, i⟩ h
      rw [Finset.mem_sigma, Finset.mem_range, mem_idxSet] at h
      exact mem_idxSet.2 (List.Forall₂.cons h.1 h.2)
    · intro i h
      rw [mem_idxSet] at h
      cases h with
      | cons h1 h2 => rw [Finset.mem_sigma, Finset.mem_range, mem_idxSet]; exact ⟨h1, h2⟩
    · rintro ⟨j, i⟩ _; rfl
    · intro i h
      rw [mem_idxSet] at h
      cases h with
      | cons h1 h2 => rfl
    · rintro ⟨j, i⟩ _; rfl

/-- Change of variables in a sum over all indices. -/
theorem sumIdx_bij [AddCommMonoid R] {s s' : List ℕ} (φ ψ : List ℕ → List ℕ) (g : List ℕ → R)
    (h1 : ∀ i, InB i s' → InB (φ i) s) (h2 : ∀ i, InB i s → InB (ψ i) s')
    (h3 : ∀ i, InB i s' → ψ (φ i) = i) (h4 : ∀ i, InB i s → φ (ψ i) = i) :
    (sumIdx s' fun i => g (φ i)) = sumIdx s g := by
  rw [sumIdx_eq_sum, sumIdx_eq_sum]
  exact Finset.sum_bij' (fun i _ => φ i) (fun i _ => ψ i)
    (fun i h => mem_idxSet.2 (h1 i (mem_idxSet.1 h))) (fun i h => mem_idxSet.2 (h2 i (mem_idxSet.1 h)))
    (fun i h => h3 i (mem_idxSet.1 h)) (fun i h => h4 i (mem_idxSet.1 h)) (fun i h => rfl)

/-! ### monadic maps -/

theorem mapM_pairs {α β : Type} {f : α → Py β} {P : α → β → Prop} {xs : List α}
    (h : ∀ x ∈ xs, ∃ u, f x = .ok u ∧ P x u) :
    ∃ ps : List (α × β), xs.mapM f = .ok (ps.map Prod.snd) ∧ ps.map Prod.fst = xs ∧
      ∀ p ∈ ps, P p.1 p.2 := by
  induction xs with
  | nil => exact ⟨[], rfl, rfl, by simp⟩
  | cons x xs ih =>
    obtain ⟨u, h1, h2⟩ := h x (by simp)
    obtain ⟨ps, g1, g2, g3⟩ := ih fun y hy => h y (by simp [hy])
    refine ⟨(x, u) :: ps, ?_, by simp [g2], ?_⟩
    · rw [List.mapM_cons, h1, ok_bind, g1]; rfl
    · intro p hp
      rcases List.mem_cons.1 hp with rfl | hp
      · exact h2
      · exact g3 p hp

/-! ### linear maps on the physical legs of each site -/

/-- `u` arises from the local tensor `t` by a linear map on the physical legs: the entry of `u` at
the physical index `p` is the sum over `k` inside of `K` of the entries of `t` at `φ p k`. -/
structure SLin [AddCommMonoid R] (t u : NDArray R) (K : List ℕ) (φ : List ℕ → List ℕ → List ℕ) :
    Prop where
  loc : u.IsLocal
  lb : u.lb = t.lb
  rb : u.rb = t.rb
  at3 : ∀ a < t.lb, ∀ b < t.rb, ∀ p, InB p u.ph → u.at3 a p b = sumIdx K fun k => t.at3 a (φ p k) b

/-- Index of the untransformed chain. -/
def linIdx {σ : Type} (φ : σ → List ℕ → List ℕ → List ℕ) :
    List σ → List (List ℕ) → List (List ℕ) → List (List ℕ)
  | s :: ss, p :: ps, k :: ks => φ s p k :: linIdx φ ss ps ks
  | _, _, _ => []

section
variable {σ : Type} {T U : σ → NDArray R} {K : σ → List ℕ} {φ : σ → List ℕ → List ℕ → List ℕ}

theorem chained_lin [AddCommMonoid R] {sites : List σ} (h : ∀ s ∈ sites, SLin (T s) (U s) (K s) (φ s))
    {l r : ℕ} (hc : Chained l (sites.map T) r) : Chained l (sites.map U) r := by
  induction sites generalizing l with
  | nil => exact hc
  | cons s ss ih =>
    obtain ⟨h1, h2, h3⟩ := hc
    have hs := h s (by simp)
    exact ⟨hs.loc, hs.lb.trans h2, by
      rw [hs.rb]; exact ih (fun s' h' => h s' (by simp [h'])) h3⟩

theorem mp_lin [CommSemiring R] {sites : List σ} (h : ∀ s ∈ sites, SLin (T s) (U s) (K s) (φ s))
    {l r : ℕ} (hc : Chained l (sites.map T) r) {idx : List (List ℕ)}
    (hi : IdxOK idx (physShape (sites.map U))) {a b : ℕ} (ha : a < l) :
    mp (sites.map U) idx a b
      = sumSites (sites.map K) fun ks => mp (sites.map T) (linIdx φ sites idx ks) a b := by
  induction sites generalizing l idx a with
  | nil => simp
  | cons s ss ih =>
    obtain ⟨h1, h2, h3⟩ := hc
    have hs := h s (by simp)
    cases idx with
    | nil => simp [physShape, IdxOK] at hi
    | cons p ps =>
      simp only [physShape, List.map_cons, idxOK_cons] at hi
      obtain ⟨hp, hps⟩ := hi
      simp only [List.map_cons, mp_cons, sumSites_cons, linIdx]
      rw [hs.rb]
      have e : ∀ c ∈ range (T s).rb, (U s).at3 a p c * mp (ss.map U) ps c b
          = sumIdx (K s) fun k => sumSites (ss.map K) fun ks =>
            (T s).at3 a (φ s p k) c * mp (ss.map T) (linIdx φ ss ps ks) c b := by
        intro c hc
        have hc : c < (T s).rb := by simpa using hc
        rw [hs.at3 a (by omega) c hc p hp, ih (fun s' h' => h s' (by simp [h'])) h3 hps hc, sumIdx_mul]
        refine sumIdx_congr fun k _ => ?_
        rw [mul_sumSites]
      rw [Finset.sum_congr rfl e, ← sumIdx_sum_comm]
      refine sumIdx_congr fun k _ => ?_
      rw [← sumSites_sum_comm]

end

/-! ### relabelling of the physical legs -/

/-- `u` arises from the local tensor `t` by relabelling the physical index. -/
structure SPull (t u : NDArray R) (φ : List ℕ → List ℕ) : Prop where
  loc : u.IsLocal
  lb : u.lb = t.lb
  rb : u.rb = t.rb
  at3 : ∀ a < t.lb, ∀ b < t.rb, ∀ p, InB p u.ph → u.at3 a p b = t.at3 a (φ p) b

section
variable {σ : Type} {T U : σ → NDArray R} {φ : σ → List ℕ → List ℕ}

theorem chained_pull {sites : List σ} (h : ∀ s ∈ sites, SPull (T s) (U s) (φ s))
    {l r : ℕ} (hc : Chained l (sites.map T) r) : Chained l (sites.map U) r := by
  induction sites generalizing l with
  | nil => exact hc
  | cons s ss ih =>
    obtain ⟨h1, h2, h3⟩ := hc
    have hs := h s (by simp)
    exact ⟨hs.loc, hs.lb.trans h2, by
      rw [hs.rb]; exact ih (fun s' h' => h s' (by simp [h'])) h3⟩

theorem mp_pull [CommSemiring R] {sites : List σ} (h : ∀ s ∈ sites, SPull (T s) (U s) (φ s))
    {l r : ℕ} (hc : Chained l (sites.map T) r) {idx : List (List ℕ)}
    (hi : IdxOK idx (physShape (sites.map U))) {a b : ℕ} (ha : a < l) :
    mp (sites.map U) idx a b = mp (sites.map T) (List.zipWith φ sites idx) a b := by
  induction sites generalizing l idx a with
  | nil => simp
  | cons s ss ih =>
    obtain ⟨h1, h2, h3⟩ := hc
    have hs := h s (by simp)
    cases idx with
    | nil => simp [physShape, IdxOK] at hi
    | cons p ps =>
      simp only [physShape, List.map_cons, idxOK_cons] at hi
      obtain ⟨hp, hps⟩ := hi
      simp only [List.map_cons, mp_cons, List.zipWith_cons_cons]
      rw [hs.rb]
      refine Finset.sum_congr rfl fun c hc => ?_
      have hc : c < (T s).rb := by simpa using hc
      rw [hs.at3 a (by omega) c hc p hp, ih (fun s' h' => h s' (by simp [h'])) h3 hps hc]

end

section canon
variable [CommRing R] [StarRing R] {t u : NDArray R} {φ : List ℕ → List ℕ}

theorem lcanon_pull (h : SPull t u φ)
    (hb : ∀ g : List ℕ → R, (sumIdx u.ph fun p => g (φ p)) = sumIdx t.ph g) (hc : LCanon t) :
    LCanon u := by
  intro b h1 b' h2
  rw [h.rb] at h1 h2
  rw [← hc b h1 b' h2, h.lb]
  refine Finset.sum_congr rfl fun a ha => ?_
  have ha : a < t.lb := by simpa using ha
  rw [← hb]
  refine sumIdx_congr fun p hp => ?_
  rw [h.at3 a ha b h1 p hp, h.at3 a ha b' h2 p hp]

theorem rcanon_pull (h : SPull t u φ)
    (hb : ∀ g : List ℕ → R, (sumIdx u.ph fun p => g (φ p)) = sumIdx t.ph g) (hc : RCanon t) :
    RCanon u := by
  intro b h1 b' h2
  rw [h.lb] at h1 h2
  rw [← hc b h1 b' h2, h.rb]
  refine Finset.sum_congr rfl fun a ha => ?_
  have ha : a < t.rb := by simpa using ha
  rw [← hb]
  refine sumIdx_congr fun p hp => ?_
  rw [h.at3 b h1 a ha p hp, h.at3 b' h2 a ha p hp]

end canon

/-- The result of a site-wise relabelling which keeps the canonical form of `x`. -/
theorem keep_form {x : MPA R} (hx : x.Valid) {us : List (NDArray R)} (hc : Chained 1 us 1)
    (hl : us.length = x.len) :
    mkLT us (some x.l) (some x.r) = .ok ⟨us, x.l, x.r⟩ ∧ (⟨us, x.l, x.r⟩ : MPA R).Valid := by
  have h0 := hx.l_nonneg
  have h1 := hx.l_lt_r
  have h2 := hx.r_le
  have hne : us ≠ [] := by
    intro h; rw [h] at hl; simp at hl
    have := hx.ne; apply this; exact List.length_eq_zero_iff.1 hl.symm
  refine ⟨mkLT_ok hne hc h0 (by rw [hl]; omega) (by omega) (by rw [hl]; omega), ?_⟩
  exact ⟨hne, hc, h0, h1, by rw [MPA.len, hl]; exact h2⟩

theorem canonOK_map [CommRing R] [StarRing R] {σ : Type} {T U : σ → NDArray R} {sites : List σ}
    {l r : ℤ} (h : ∀ s ∈ sites, (LCanon (T s) → LCanon (U s)) ∧ (RCanon (T s) → RCanon (U s)))
    (hc : (⟨sites.map T, l, r⟩ : MPA R).CanonOK) : (⟨sites.map U, l, r⟩ : MPA R).CanonOK := by
  intro n u hu
  simp only [List.getElem?_map, Option.map_eq_some_iff] at hu
  obtain ⟨s, hs, rfl⟩ := hu
  have hm : s ∈ sites := List.mem_of_getElem? hs
  obtain ⟨g1, g2⟩ := hc n (T s) (by simp [hs])
  exact ⟨fun hn => (h s hm).1 (g1 hn), fun hn => (h s hm).2 (g2 hn)⟩

/-- `φ : indices of s' → indices of s` and `ψ` are inverse to each other. -/
structure BijIdx (s s' : List ℕ) (φ ψ : List ℕ → List ℕ) : Prop where
  φ_inB : ∀ i, InB i s' → InB (φ i) s
  ψ_inB : ∀ i, InB i s → InB (ψ i) s'
  ψφ : ∀ i, InB i s' → ψ (φ i) = i
  φψ : ∀ i, InB i s → φ (ψ i) = i

theorem BijIdx.sum [AddCommMonoid R] {s s' : List ℕ} {φ ψ : List ℕ → List ℕ} (h : BijIdx s s' φ ψ)
    (g : List ℕ → R) : (sumIdx s' fun i => g (φ i)) = sumIdx s g :=
  sumIdx_bij φ ψ g h.1 h.2 h.3 h.4

/-- A relabelling of the physical legs site by site. -/
theorem pull_core [CommRing R] [StarRing R] {x : MPA R} (hx : x.Valid) {σ : Type} {sites : List σ}
    {T : σ → NDArray R} (hT : sites.map T = x.lt) {f : σ → Py (NDArray R)}
    {φ ψ : σ → List ℕ → List ℕ} {q : σ → List ℕ}
    (hf : ∀ s ∈ sites, ∃ u, f s = .ok u ∧ SPull (T s) u (φ s) ∧ u.ph = q s)
    (hb : ∀ s ∈ sites, BijIdx (T s).ph (q s) (φ s) (ψ s)) :
    ∃ us, sites.mapM f = .ok us ∧ Chained 1 us 1 ∧ us.length = x.len ∧ physShape us = sites.map q ∧
      us.tail.map NDArray.lb = x.ranks ∧
      (∀ idx, IdxOK idx (physShape us) → entry us idx = x.val (List.zipWith φ sites idx)) ∧
      (∀ idx, IdxOK idx x.shape → IdxOK (List.zipWith ψ sites idx) (physShape us) ∧
        entry us (List.zipWith ψ sites idx) = x.val idx) ∧
      (x.CanonOK → (⟨us, x.l, x.r⟩ : MPA R).CanonOK) := by
  obtain ⟨ps, h1, h2, h3⟩ := mapM_pairs (xs := sites) (f := f)
    (P := fun s u => s ∈ sites ∧ SPull (T s) u (φ s) ∧ u.ph = q s)
    (fun s hs => by obtain ⟨u, a, b, c⟩ := hf s hs; exact ⟨u, a, hs, b, c⟩)
  have hpull : ∀ p ∈ ps, SPull (T (Prod.fst p)) (Prod.snd p) (φ p.1) := fun p hp => (h3 p hp).2.1
  have hbij : ∀ p ∈ ps, BijIdx (T (Prod.fst p)).ph (q p.1) (φ p.1) (ψ p.1) := fun p hp => hb _ (h3 p hp).1
  have hlt : (ps.map fun p => T p.1) = x.lt := by rw [← hT, ← h2, List.map_map]; rfl
  have hc := hx.chain
  rw [← hlt] at hc
  have hph : physShape (ps.map Prod.snd) = ps.map fun p => q p.1 := by
    unfold physShape
    rw [List.map_map]
    apply List.map_congr_left
    intro p hp
    exact (h3 p hp).2.2
  have hpull' : ∀ idx, IdxOK idx (physShape (ps.map Prod.snd)) →
      entry (ps.map Prod.snd) idx = x.val (List.zipWith φ sites idx) := by
    intro idx hi
    show mp (ps.map Prod.snd) idx 0 0 = mp x.lt _ 0 0
    rw [mp_pull hpull hc hi one_pos, hlt, ← h2, List.zipWith_map_left]
  refine ⟨ps.map Prod.snd, h1, chained_pull hpull hc, ?_, ?_, ?_, hpull', ?_, ?_⟩
  · rw [MPA.len, ← hT, ← h2]; simp
  · rw [hph, ← h2, List.map_map]; rfl
  · rw [MPA.ranks, ← hlt, ← List.map_tail, ← List.map_tail, List.map_map, List.map_map]
    apply List.map_congr_left
    intro p hp
    exact (hpull p (List.mem_of_mem_tail hp)).lb
  · intro idx hi
    have hi' : IdxOK idx (ps.map fun p => (T p.1).ph) := by
      rw [show x.shape = x.lt.map NDArray.ph from rfl, ← hlt, List.map_map] at hi; exact hi
    have hok : IdxOK (List.zipWith ψ sites idx) (physShape (ps.map Prod.snd)) ∧
        List.zipWith φ sites (List.zipWith ψ sites idx) = idx := by
      rw [hph, ← h2]
      clear hph hpull hpull' hc h3 h2 h1 hi hlt hf
      induction ps generalizing idx with
      | nil => cases idx with
        | nil => simp
        | cons i is => simp [IdxOK] at hi'
      | cons p ps ih =>
        cases idx with
        | nil => simp [IdxOK] at hi'
        | cons i is =>
          simp only [List.map_cons, idxOK_cons] at hi'
          have hp := hbij p (by simp)
          obtain ⟨g1, g2⟩ := ih (fun q hq => hbij q (by simp [hq])) _ hi'.2
          simp only [List.map_cons, List.zipWith_cons_cons, idxOK_cons]
          exact ⟨⟨hp.ψ_inB i hi'.1, g1⟩, by rw [hp.φψ i hi'.1, g2]⟩
    refine ⟨hok.1, ?_⟩
    rw [hpull' _ hok.1, hok.2]
  · intro hcan
    have hx' : (⟨ps.map (fun p => T p.1), x.l, x.r⟩ : MPA R).CanonOK := by rw [hlt]; exact hcan
    refine canonOK_map (fun p hp => ?_) hx'
    have hb : ∀ g : List ℕ → R, (sumIdx p.2.ph fun i => g (φ p.1 i)) = sumIdx (T p.1).ph g := by
      intro g
      rw [(h3 p hp).2.2]
      exact (hbij p hp).sum g
    exact ⟨lcanon_pull (hpull p hp) hb, rcanon_pull (hpull p hp) hb⟩

theorem linIdx_zipWith3 {σ : Type} (φ : σ → List ℕ → List ℕ → List ℕ) (ss : List σ)
    (ps ks : List (List ℕ)) : linIdx φ ss ps ks = List.zipWith3 φ ss ps ks := by
  induction ss generalizing ps ks with
  | nil => rfl
  | cons s ss ih =>
    cases ps with
    | nil => rfl
    | cons p ps =>
      cases ks with
      | nil => rfl
      | cons k ks => simp [linIdx, List.zipWith3, ih]

/-- A linear map of the physical legs site by site. -/
theorem lin_core [CommSemiring R] {x : MPA R} (hx : x.Valid) {σ : Type} {sites : List σ}
    {T : σ → NDArray R} (hT : sites.map T = x.lt) {f : σ → Py (NDArray R)} {K : σ → List ℕ}
    {φ : σ → List ℕ → List ℕ → List ℕ} {q : σ → List ℕ}
    (hf : ∀ s ∈ sites, ∃ u, f s = .ok u ∧ SLin (T s) u (K s) (φ s) ∧ u.ph = q s) :
    ∃ us, sites.mapM f = .ok us ∧ us ≠ [] ∧ Chained 1 us 1 ∧ us.length = x.len ∧
      physShape us = sites.map q ∧ us.tail.map NDArray.lb = x.ranks ∧
      (∀ idx, IdxOK idx (sites.map q) → entry us idx
        = sumSites (sites.map K) fun ks => x.val (List.zipWith3 φ sites idx ks)) := by
  obtain ⟨ps, h1, h2, h3⟩ := mapM_pairs (xs := sites) (f := f)
    (P := fun s u => s ∈ sites ∧ SLin (T s) u (K s) (φ s) ∧ u.ph = q s)
    (fun s hs => by obtain ⟨u, a, b, c⟩ := hf s hs; exact ⟨u, a, hs, b, c⟩)
  have hpull : ∀ p ∈ ps, SLin (T (Prod.fst p)) (Prod.snd p) (K p.1) (φ p.1) :=
    fun p hp => (h3 p hp).2.1
  have hlt : (ps.map fun p => T p.1) = x.lt := by rw [← hT, ← h2, List.map_map]; rfl
  have hc := hx.chain
  rw [← hlt] at hc
  have hph : physShape (ps.map Prod.snd) = ps.map fun p => q p.1 := by
    unfold physShape
    rw [List.map_map]
    apply List.map_congr_left
    intro p hp
    exact (h3 p hp).2.2
  have hq : (ps.map fun p => q p.1) = sites.map q := by rw [← h2, List.map_map]; rfl
  have hlen : (ps.map Prod.snd).length = x.len := by rw [MPA.len, ← hT, ← h2]; simp
  refine ⟨ps.map Prod.snd, h1, ?_, chained_lin hpull hc, hlen, hph.trans hq, ?_, ?_⟩
  · intro h0; rw [h0] at hlen
    exact hx.ne (List.length_eq_zero_iff.1 hlen.symm)
  · rw [MPA.ranks, ← hlt, ← List.map_tail, ← List.map_tail, List.map_map, List.map_map]
    apply List.map_congr_left
    intro p hp
    exact (hpull p (List.mem_of_mem_tail hp)).lb
  · intro idx hi
    rw [← hq, ← hph] at hi
    show mp (ps.map Prod.snd) idx 0 0 = _
    rw [mp_lin hpull hc hi one_pos, hlt]
    simp only [← linIdx_zipWith3]
    have e : sites.map K = ps.map fun p => K p.1 := by rw [← h2, List.map_map]; rfl
    have e2 : ∀ ks, linIdx (fun p : σ × NDArray R => φ p.1) ps idx ks = linIdx φ sites idx ks := by
      intro ks
      rw [← h2]
      clear hi hlen hq hph hc hlt hpull h3 h2 h1 e
      induction ps generalizing idx ks with
      | nil => rfl
      | cons p ps ih =>
        cases idx with
        | nil => rfl
        | cons i is =>
          cases ks with
          | nil => rfl
          | cons k ks => simp [linIdx, ih]
    rw [e]
    simp only [e2]
    rfl

/-- All bonds of a valid MPA with positive ranks are positive. -/
theorem bonds_pos {x : MPA R} (hx : x.Valid) (hr : ∀ r ∈ x.ranks, 0 < r) :
    ∀ t ∈ x.lt, 0 < t.lb ∧ 0 < t.rb := by
  have aux : ∀ (l r : ℕ) (ts : List (NDArray R)), 0 < l → 0 < r → Chained l ts r →
      (∀ q ∈ ts.tail.map NDArray.lb, 0 < q) → ∀ t ∈ ts, 0 < t.lb ∧ 0 < t.rb := by
    intro l r ts
    induction ts generalizing l with
    | nil => intro _ _ _ _ t ht; simp at ht
    | cons u us ih =>
      intro hl hr hc hq
      obtain ⟨h1, h2, h3⟩ := hc
      have hrb : 0 < u.rb := by
        cases us with
        | nil => simp at h3; omega
        | cons v vs => rw [← h3.2.1]; exact hq _ (by simp)
      intro t ht
      rcases List.mem_cons.1 ht with rfl | ht
      · exact ⟨by omega, hrb⟩
      · refine ih u.rb hrb hr h3 ?_ t ht
        intro q hq'
        obtain ⟨w, hw, rfl⟩ := List.mem_map.1 hq'
        exact hq _ (List.mem_map.2 ⟨w, List.mem_of_mem_tail hw, rfl⟩)
  exact aux 1 1 x.lt one_pos one_pos hx.chain hr

end Mpnum
