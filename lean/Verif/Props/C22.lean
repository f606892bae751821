import Verif.MPArray.Chain
import Verif.Props.C08
import Verif.MPArray.Pick

/-! # C22: chain and localouter -/

open Finset

namespace Mpnum

variable {R : Type}

/-- C22: `chain(xs)` has the sites of all MPAs one after the other, and its entries are the products
of the entries of the MPAs; the ranks between two MPAs are one. -/
theorem C22_chain [CommSemiring R] (xs : List (MPA R)) (hne : xs ≠ []) (h : ∀ x ∈ xs, x.Valid) :
    ∃ y, chain xs = .ok y ∧ y.Valid ∧ y.l = 0 ∧ y.r = y.len ∧ y.shape = xs.flatMap MPA.shape ∧
      y.ranks = List.intercalate [1] (xs.map MPA.ranks) ∧
      ∀ I : List (List (List ℕ)), List.Forall₂ IdxOK I (xs.map MPA.shape) →
        y.val I.flatten = (List.zipWith (fun (x : MPA R) i => x.val i) xs I).prod := by
  obtain ⟨x, xs', rfl⟩ := List.exists_cons_of_ne_nil hne
  have hc := chained_flatMap h
  have hn : (x :: xs').flatMap MPA.lt ≠ [] := by
    intro h0
    rw [List.flatMap_cons] at h0
    exact (h x (by simp)).ne (List.append_eq_nil_iff.1 h0).1
  refine ⟨⟨(x :: xs').flatMap MPA.lt, 0, _⟩, ?_, valid_mk hn hc, rfl, rfl, ?_, ?_,
    fun I hI => mp_flatMap h hI⟩
  · have := mkMPA_ok hn hc
    rw [← this, List.flatMap_cons]; rfl
  · rw [MPA.shape, List.map_flatMap]; rfl
  · rw [MPA.ranks]
    clear hc hn hne
    dsimp only
    induction xs' generalizing x with
    | nil => simp [MPA.ranks]
    | cons z zs ih =>
      rw [List.flatMap_cons, List.tail_append_of_ne_nil (h x (by simp)).ne, List.map_append]
      have hz := (h z (by simp)).ne
      obtain ⟨t, ts, ht⟩ := List.exists_cons_of_ne_nil hz
      have hlb : t.lb = 1 := by
        have := (h z (by simp)).chain
        rw [ht] at this
        exact this.2.1
      have hcons : ((z :: zs).flatMap MPA.lt).map NDArray.lb
          = 1 :: ((z :: zs).flatMap MPA.lt).tail.map NDArray.lb := by
        rw [List.flatMap_cons, ht]
        simp [hlb]
      rw [hcons, ih z fun y hy => h y (by simp [hy])]
      simp [List.intercalate, MPA.ranks]

/-- C22, error branch: `chain([])` raises `ValueError`. -/
theorem C22_chain_empty : chain ([] : List (MPA R)) = .error .value := rfl

theorem pidx_free {ss : List (PSite R)} {ks fs : List (List ℕ)} {F : PSite R → List ℕ → List ℕ → List ℕ}
    (hF : ∀ s ∈ ss, F s = fun _ f => f) (hk : ks.length = ss.length) (hf : fs.length = ss.length) :
    pidx F ss ks fs = fs := by
  induction ss generalizing ks fs with
  | nil => cases fs with
    | nil => rfl
    | cons => simp at hf
  | cons s ss ih =>
    cases ks with
    | nil => simp at hk
    | cons k ks => cases fs with
      | nil => simp at hf
      | cons f fs =>
        simp only [pidx, hF s (by simp)]
        rw [ih (fun s' h => hF s' (by simp [h])) (by simpa using hk) (by simpa using hf)]

/-- C22: `localouter(x, y)` has at each site the legs of `x` followed by the legs of `y`; its entries
are the products of the entries of `x` and `y`; ranks multiply. -/
theorem C22_localouter [CommSemiring R] (x y : MPA R) (hx : x.Valid) (hy : y.Valid)
    (hlen : x.len = y.len) :
    ∃ z, localouter x y = .ok z ∧ z.Valid ∧ z.l = 0 ∧ z.r = z.len ∧
      z.shape = List.zipWith (· ++ ·) x.shape y.shape ∧
      z.ranks = List.zipWith (· * ·) x.ranks y.ranks ∧
      ∀ f g, IdxOK f x.shape → IdxOK g y.shape →
        z.val (List.zipWith (· ++ ·) f g) = x.val f * y.val g := by
  obtain ⟨ts, hz, hl, hr, hP⟩ := zipM_triples
    (f := fun l r => localDot (insertLeg l) (insertLeg r) ([1], [1]))
    (P := fun l r z => PSite.OK ⟨l, r, z, [], l.ph, r.ph, fun _ f => f, fun _ f => f⟩)
    (ls := x.lt) (rs := y.lt) hlen (by
      intro l r hm
      exact localouter_site (hx.chain.isLocal l (List.of_mem_zip hm).1)
        (hy.chain.isLocal r (List.of_mem_zip hm).2))
  obtain ⟨g, hg⟩ : ∃ g : NDArray R × NDArray R × NDArray R → PSite R, g = fun t =>
    ⟨t.1, t.2.1, t.2.2, [], t.1.ph, t.2.1.ph, fun _ f => f, fun _ f => f⟩ := ⟨_, rfl⟩
  have hok : ∀ s ∈ ts.map g, s.OK := by
    intro s hs
    obtain ⟨t, ht, rfl⟩ := List.mem_map.1 hs
    rw [hg]
    exact hP t ht
  have e1 : (ts.map g).map PSite.l = x.lt := by rw [List.map_map, ← hl, hg]; rfl
  have e2 : (ts.map g).map PSite.r = y.lt := by rw [List.map_map, ← hr, hg]; rfl
  have e3 : (ts.map g).map PSite.z = ts.map fun t => t.2.2 := by rw [List.map_map, hg]; rfl
  have e4 : (ts.map g).map PSite.SL = x.shape := by
    rw [MPA.shape, ← hl, List.map_map, List.map_map, hg]; rfl
  have e5 : (ts.map g).map PSite.SR = y.shape := by
    rw [MPA.shape, ← hr, List.map_map, List.map_map, hg]; rfl
  have e6 : (ts.map g).map PSite.K = (ts.map g).map fun _ => [] := by
    refine List.map_congr_left fun s hs => ?_
    obtain ⟨t, ht, rfl⟩ := List.mem_map.1 hs
    rw [hg]
  obtain ⟨hc, hs⟩ := chained_prod hok (by rw [e1]; exact hx.chain) (by rw [e2]; exact hy.chain)
  rw [e3, e4, e5] at hs
  rw [e3] at hc
  have hne : (ts.map fun t => t.2.2) ≠ [] := by
    intro h0
    have : ts = [] := by simpa using h0
    apply hx.ne; rw [← hl, this]; rfl
  obtain ⟨zs, hzs⟩ : ∃ zs, zs = ts.map fun t => t.2.2 := ⟨_, rfl⟩
  rw [← hzs] at hc hs hne hz e3
  refine ⟨⟨zs, 0, zs.length⟩, ?_, valid_mk hne hc, rfl, rfl, hs, ?_, ?_⟩
  · unfold localouter
    rw [pyAssert_true hlen, ok_bind]
    simp only [hz, ok_bind]
    exact mkMPA_ok hne hc
  · have hlb : ∀ t ∈ ts, t.2.2.lb = t.1.lb * t.2.1.lb := fun t ht =>
      NDArray.lb_of_shape (hP t ht).1
    have : ∀ us : List (NDArray R × NDArray R × NDArray R), (∀ t ∈ us, t.2.2.lb = t.1.lb * t.2.1.lb) →
        (us.map fun t => t.2.2).map NDArray.lb = List.zipWith (· * ·)
          ((us.map fun t => t.1).map NDArray.lb) ((us.map fun t => t.2.1).map NDArray.lb) := by
      intro us hus
      induction us with
      | nil => rfl
      | cons u us ih =>
        simp only [List.map_cons, List.zipWith_cons_cons, hus u (by simp)]
        rw [ih (fun t ht => hus t (by simp [ht]))]
    simp only [MPA.ranks]
    rw [hzs, ← hl, ← hr, ← List.map_tail, ← List.map_tail, ← List.map_tail]
    exact this ts.tail fun t ht => hlb t (List.mem_of_mem_tail ht)
  · intro f g' hf hg'
    have := mp_prod hok (by rw [e1]; exact hx.chain) (by rw [e2]; exact hy.chain)
      (by rw [e4]; exact hf) (by rw [e5]; exact hg') (a := 0) (a' := 0) (b := 0) (b' := 0)
      one_pos one_pos one_pos one_pos
    have hlx : ts.length = x.lt.length := by rw [← hl]; simp
    rw [e1, e2, e3, e6, sumSites_empty, pidx_free, pidx_free] at this
    · exact this
    · intro s hs; obtain ⟨t, ht, rfl⟩ := List.mem_map.1 hs; rw [hg]
    · simp
    · have := idxOK_length hg'
      rw [this]; simp only [MPA.shape, List.length_map, hlx]; exact hlen.symm
    · intro s hs; obtain ⟨t, ht, rfl⟩ := List.mem_map.1 hs; rw [hg]
    · simp
    · have := idxOK_length hf
      rw [this]; simp only [MPA.shape, List.length_map, hlx]

/-- C22, error branch: `localouter` of MPAs of different length. -/
theorem C22_localouter_length [CommSemiring R] (x y : MPA R) (h : x.len ≠ y.len) :
    localouter x y = .error .assertion := by
  unfold localouter
  rw [pyAssert_false h]; rfl

example : (∀ x ∈ [exMPA, exMPA], x.Valid) ∧
    List.Forall₂ IdxOK [[[1], [2]], [[0], [1]]] ([exMPA, exMPA].map MPA.shape) ∧
    (List.zipWith (fun (x : MPA ℤ) i => x.val i) [exMPA, exMPA] [[[1], [2]], [[0], [2]]]).prod ≠ 0 := by
  refine ⟨by simp [exMPA_valid], ?_, by decide⟩
  simp [exMPA, MPA.shape, NDArray.ph, IdxOK, InB]

example : exMPA.Valid ∧ exMPO.Valid ∧ exMPA.len = exMPO.len := ⟨exMPA_valid, exMPO_valid, rfl⟩

end Mpnum
