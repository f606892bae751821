import Verif.Props.C59

/-! # C59: the Pauli MP-POVMs -/

open Finset

namespace Mpnum

/-- The number of outcomes of `pauli_povm(d)`. -/
def pauliOutcomes (d : ℕ) : ℕ := if d = 2 then 6 else 2 * (d * (d - 1))

/-- C59: `pauli_mpp(n, d)` is a POVM whose elements are all tensor products of the elements of `pauli_povm(d)`. -/
theorem C59_pauli_mpp (n d : ℕ) (hn : 0 < n) (hd : 2 ≤ d) (ho : pauliOutcomes d ≤ 255) :
    ∃ a z, pauliPovm d = .ok a ∧ IsPovm a (pauliOutcomes d) d ∧ pauliMpp n d = .ok z ∧
      IsMpPovm z (List.replicate n (pauliOutcomes d)) (List.replicate n d) ∧
      IsMeasurement (List.replicate n (pauliOutcomes d)) (List.replicate n d) z.elem ∧
      ∀ Y I J, InB Y (List.replicate n (pauliOutcomes d)) → InB I (List.replicate n d) → InB J (List.replicate n d) →
        z.elem Y I J = ((triples Y I J).map a.get).prod := by
  obtain ⟨a, h1, h2⟩ := C40_pauli_povm d hd
  obtain ⟨z, g1, g2, g3⟩ := C59_from_local_povm a (pauliOutcomes d) d n h2 ho hn
  obtain ⟨z', k1, _, _, k2⟩ := C43_from_local_povm a (pauliOutcomes d) d n h2.shape ho hn
  rw [g1] at k1
  obtain rfl := Except.ok.inj k1
  refine ⟨a, z, h1, h2, ?_, g2, g3, k2⟩
  unfold pauliMpp
  rw [h1, ok_bind, g1]

/-- C59 (finding): for local dimension 12 and more, there is no `pauli_mpp`. -/
theorem C59_pauli_mpp_large (n d : ℕ) (hn : 0 < n) (hd : 12 ≤ d) : pauliMpp n d = .error .assertion := by
  obtain ⟨a, h1, h2⟩ := C40_pauli_povm d (by omega)
  unfold pauliMpp
  rw [h1, ok_bind]
  refine C59_too_many a _ d n h2.shape ?_ hn
  rw [if_neg (by omega)]
  have : 12 * (12 - 1) ≤ d * (d - 1) := Nat.mul_le_mul hd (by omega)
  omega

/-- C59, for the bound in `C59_pauli_mpp`: every dimension up to 11 has few enough outcomes. -/
theorem C59_pauli_outcomes (d : ℕ) (hd : d ≤ 11) : pauliOutcomes d ≤ 255 := by
  unfold pauliOutcomes
  split_ifs
  · omega
  · have : d * (d - 1) ≤ 11 * 10 := Nat.mul_le_mul hd (by omega)
    omega

/-- C59: dimension one and no sites are rejected. -/
theorem C59_pauli_reject (n d : ℕ) :
    (d ≤ 1 → pauliMpp n d = .error .assertion ∧ pauliMpps n d = .error .assertion) ∧
    (∃ e, pauliMpp 0 d = .error e) ∧ ∃ e, pauliMpps 0 d = .error e := by
  have hp : d ≤ 1 → pauliParts d = .error .assertion := by
    intro h
    unfold pauliParts
    rw [pyAssert, if_neg (by omega)]; rfl
  refine ⟨fun h => ⟨?_, ?_⟩, ?_, ?_⟩
  · unfold pauliMpp
    rw [C40_pauli_povm_small d h]; rfl
  · unfold pauliMpps
    rw [hp h]; rfl
  · unfold pauliMpp
    cases pauliPovm d with
    | error e => exact ⟨e, rfl⟩
    | ok a => exact ⟨_, rfl⟩
  · unfold pauliMpps
    cases pauliParts d with
    | error e => exact ⟨e, rfl⟩
    | ok ps =>
      rw [ok_bind]
      cases ps.mapM (fun a => fromLocalPovm a 1) with
      | error e => exact ⟨e, rfl⟩
      | ok parts => exact ⟨_, rfl⟩

/-! ### the list of all tensor products -/

theorem flatMap_getElem? {α β : Type} {l : List α} {f : α → List β} {s : ℕ} (h : ∀ a ∈ l, (f a).length = s) {m r : ℕ} {a : α}
    (hm : l[m]? = some a) (hr : r < s) : (l.flatMap f)[m * s + r]? = (f a)[r]? := by
  induction l generalizing m with
  | nil => simp at hm
  | cons b l ih =>
    have hb := h b (by simp)
    rw [List.flatMap_cons]
    cases m with
    | zero =>
      obtain rfl : b = a := by simpa using hm
      rw [zero_mul, zero_add, List.getElem?_append_left (by omega)]
    | succ m =>
      rw [List.getElem?_append_right (by rw [hb, Nat.succ_mul]; omega), hb,
        show (m + 1) * s + r - s = m * s + r by rw [Nat.succ_mul]; omega]
      exact ih (fun c hc => h c (by simp [hc])) (by simpa using hm)

theorem itProduct_length {α : Type} (l : List α) (n : ℕ) : (itProduct l n).length = l.length ^ n := by
  induction n with
  | zero => rfl
  | succ n ih =>
    unfold itProduct
    rw [List.length_flatMap]
    simp [ih, pow_succ, mul_comm]

theorem itProduct_map {α β : Type} (f : α → β) (l : List α) (n : ℕ) :
    itProduct (l.map f) n = (itProduct l n).map (List.map f) := by
  induction n with
  | zero => rfl
  | succ n ih =>
    unfold itProduct
    rw [ih, List.flatMap_map, List.map_flatMap]
    congr 1
    funext a
    simp

/-- Item number `c` (mixed radix, most significant digit first) is the tuple with positions `c`. -/
theorem itProduct_get {α : Type} (l : List α) (n : ℕ) (c : List ℕ) (hc : InB c (List.replicate n l.length)) :
    ∃ t, (itProduct l n)[ravelIdx (List.replicate n l.length) c]? = some t ∧ List.Forall₂ (fun m a => l[m]? = some a) c t := by
  induction n generalizing c with
  | zero =>
    obtain rfl : c = [] := by simpa using hc
    exact ⟨[], rfl, .nil⟩
  | succ n ih =>
    obtain ⟨m, c, rfl, h1, h2⟩ := inB_cons_split hc
    obtain ⟨t, g1, g2⟩ := ih c h2
    refine ⟨l[m] :: t, ?_, .cons (List.getElem?_eq_getElem h1) g2⟩
    unfold itProduct
    rw [List.replicate_succ, ravelIdx_cons, List.prod_replicate,
      flatMap_getElem? (s := l.length ^ n) (by simp [itProduct_length]) (List.getElem?_eq_getElem h1)
        (by have := ravelIdx_lt h2; rwa [List.prod_replicate] at this), List.getElem?_map, g1]
    rfl

theorem mem_itProduct {α : Type} {l : List α} {n : ℕ} {t : List α} (h : t ∈ itProduct l n) : t.length = n ∧ ∀ a ∈ t, a ∈ l := by
  induction n generalizing t with
  | zero =>
    obtain rfl : t = [] := by simpa [itProduct] using h
    simp
  | succ n ih =>
    unfold itProduct at h
    obtain ⟨a, ha, h⟩ := List.mem_flatMap.1 h
    obtain ⟨s, hs, rfl⟩ := List.mem_map.1 h
    obtain ⟨h1, h2⟩ := ih hs
    refine ⟨by simp [h1], fun b hb => ?_⟩
    rcases List.mem_cons.1 hb with rfl | hb
    · exact ha
    · exact h2 b hb

/-- A one-site MP-POVM and its array of elements. -/
def SiteOf (o d : ℕ) (q : MPA ℂ × NDArray ℂ) : Prop :=
  IsMpPovm q.1 [o] [d] ∧ IsPovm q.2 o d ∧ ∀ y i j, y < o → i < d → j < d → q.1.elem [y] [i] [j] = q.2.get [y, i, j]

theorem sites_elem {o d : ℕ} : ∀ {qs : List (MPA ℂ × NDArray ℂ)} {z : MPA ℂ}, (∀ q ∈ qs, SiteOf o d q) →
    z.lt = qs.flatMap (fun q => q.1.lt) → ∀ {Y I J : List ℕ}, InB Y (qs.map fun _ => o) → InB I (qs.map fun _ => d) →
    InB J (qs.map fun _ => d) → z.elem Y I J = (List.zipWith (fun q i => q.2.get i) qs (triples Y I J)).prod
  | [], z, _, hz, Y, I, J, hY, hI, hJ => by
    rw [inB_nil_right.1 hY, inB_nil_right.1 hI, inB_nil_right.1 hJ]
    simp [MPA.elem, MPA.val, hz, entry, mp]
  | q :: qs, z, h, hz, Y, I, J, hY, hI, hJ => by
    obtain ⟨y, Y, rfl, a1, a2⟩ := inB_cons_split hY
    obtain ⟨i, I, rfl, b1, b2⟩ := inB_cons_split hI
    obtain ⟨j, J, rfl, c1, c2⟩ := inB_cons_split hJ
    obtain ⟨h1, _, h3⟩ := h q (by simp)
    have ih := sites_elem (qs := qs) (z := ⟨qs.flatMap fun q => q.1.lt, 0, 0⟩) (fun p hp => h p (by simp [hp])) rfl a2 b2 c2
    rw [show y :: Y = [y] ++ Y from rfl, show i :: I = [i] ++ I from rfl, show j :: J = [j] ++ J from rfl,
      elem_append h1 (y := ⟨qs.flatMap fun q => q.1.lt, 0, 0⟩) (Y := [y]) (I := [i]) (J := [j]) (by rw [hz, List.flatMap_cons]) rfl rfl rfl, ih, h3 y i j a1 b1 c1]
    simp

/-- The parts of the Pauli POVM. -/
theorem pauliParts_ok (d : ℕ) (hd : 2 ≤ d) :
    ∃ parts, pauliParts d = .ok parts ∧ parts.length = (if d = 2 then 3 else 2) ∧ ∀ a ∈ parts, IsPovm a (d * (d - 1)) d := by
  obtain ⟨x, hx, px⟩ := C40_x_povm d hd
  obtain ⟨y, hy, py⟩ := C40_y_povm d hd
  unfold pauliParts
  rw [hx, hy, pyAssert_true (by omega), ok_bind]
  by_cases h2 : d = 2
  · subst h2
    refine ⟨[x, y, zPovm 2], rfl, rfl, ?_⟩
    simp [px, py, C40_z_povm 2]
  · refine ⟨[x, y], by rw [if_neg h2]; rfl, by rw [if_neg h2]; rfl, ?_⟩
    simp [px, py]

/-- C59: `pauli_mpps(n, d)` is the list of all tensor products of the POVMs from `pauli_parts(d)`, where the choice for the
last site changes fastest: item number `c_1 ... c_n` (digits to the base of the number of parts) measures part `c_k` on
site `k`.  Every item is a POVM. -/
theorem C59_pauli_mpps (n d : ℕ) (hn : 0 < n) (hd : 2 ≤ d) (ho : d * (d - 1) ≤ 255) :
    ∃ parts zs, pauliParts d = .ok parts ∧ parts.length = (if d = 2 then 3 else 2) ∧ (∀ a ∈ parts, IsPovm a (d * (d - 1)) d) ∧
      pauliMpps n d = .ok zs ∧ zs.length = parts.length ^ n ∧
      ∀ c, InB c (List.replicate n parts.length) → ∃ z as, zs[ravelIdx (List.replicate n parts.length) c]? = some z ∧
        List.Forall₂ (fun m a => parts[m]? = some a) c as ∧
        IsMpPovm z (List.replicate n (d * (d - 1))) (List.replicate n d) ∧
        IsMeasurement (List.replicate n (d * (d - 1))) (List.replicate n d) z.elem ∧
        ∀ Y I J, InB Y (List.replicate n (d * (d - 1))) → InB I (List.replicate n d) → InB J (List.replicate n d) →
          z.elem Y I J = (List.zipWith NDArray.get as (triples Y I J)).prod := by
  obtain ⟨parts, h1, h2, h3⟩ := pauliParts_ok d hd
  -- the one-site MP-POVMs
  have hsite : ∀ l : List (NDArray ℂ), (∀ a ∈ l, IsPovm a (d * (d - 1)) d) → ∃ qs : List (MPA ℂ × NDArray ℂ),
      l.mapM (fun a => fromLocalPovm a 1) = .ok (qs.map Prod.fst) ∧ qs.map Prod.snd = l ∧ ∀ q ∈ qs, SiteOf (d * (d - 1)) d q := by
    intro l
    induction l with
    | nil => exact fun _ => ⟨[], rfl, rfl, by simp⟩
    | cons a l ih =>
      intro h
      obtain ⟨qs, g1, g2, g3⟩ := ih fun b hb => h b (by simp [hb])
      obtain ⟨z, k1, k2, _, k4⟩ := C43_from_local_povm a (d * (d - 1)) d 1 (h a (by simp)).shape ho one_pos
      refine ⟨(z, a) :: qs, ?_, by simp [g2], ?_⟩
      · rw [List.mapM_cons, k1, ok_bind, g1]; rfl
      · intro q hq
        rcases List.mem_cons.1 hq with rfl | hq
        · refine ⟨k2, h _ (by simp), fun y i j hy hi hj => ?_⟩
          have := k4 [y] [i] [j] (by simpa using hy) (by simpa using hi) (by simpa using hj)
          simpa using this
        · exact g3 q hq
  obtain ⟨qs, g1, g2, g3⟩ := hsite parts h3
  have hchain : ∀ t ∈ itProduct qs n, ∃ z, chainPovm (t.map Prod.fst) = .ok z ∧
      (z.lt = t.flatMap (fun q => q.1.lt) ∧ IsMpPovm z (List.replicate n (d * (d - 1))) (List.replicate n d)) := by
    intro t ht
    obtain ⟨l1, l2⟩ := mem_itProduct ht
    obtain ⟨z, c1, c2, _, _, c3⟩ := chainPovm_ok (qs := t.map fun q => (q.1, [d * (d - 1)], [d]))
      (by intro h0; rw [List.map_eq_nil_iff] at h0; subst h0; simp at l1; omega)
      (by
        intro q hq
        obtain ⟨p, hp, rfl⟩ := List.mem_map.1 hq
        exact (g3 p (l2 p hp)).1)
    refine ⟨z, ?_, ?_, ?_⟩
    · rw [List.map_map] at c1; exact c1
    · rw [c2, List.flatMap_map]
    · have e : ∀ m : ℕ, (t.map fun q => (q.1, [d * (d - 1)], [d])).flatMap (fun _ => [m]) = List.replicate n m := by
        intro m
        rw [List.flatMap_map, ← l1]
        clear c1 c2 c3 l1 l2 ht
        induction t with
        | nil => rfl
        | cons a t ih => rw [List.flatMap_cons, ih, List.length_cons, List.replicate_succ]; rfl
      have e1 : (t.map fun q => (q.1, [d * (d - 1)], [d])).flatMap (fun q => q.2.1) = List.replicate n (d * (d - 1)) := by
        rw [← e, List.flatMap_map, List.flatMap_map]
      have e2 : (t.map fun q => (q.1, [d * (d - 1)], [d])).flatMap (fun q => q.2.2) = List.replicate n d := by
        rw [← e, List.flatMap_map, List.flatMap_map]
      rwa [e1, e2] at c3
  obtain ⟨zs, m1, m2⟩ := mapM_forall₂ (f := fun t : List (MPA ℂ × NDArray ℂ) => chainPovm (t.map Prod.fst)) hchain
  have hlen := m2.length_eq
  have hpq : parts.length = qs.length := by rw [← g2]; simp
  refine ⟨parts, zs, h1, h2, h3, ?_, ?_, ?_⟩
  · unfold pauliMpps
    rw [h1, ok_bind, g1, ok_bind, itProduct_map, List.mapM_map]
    rw [show (itProduct qs n).mapM (chainPovm ∘ List.map Prod.fst) = .ok zs from m1, ok_bind]
    unfold mkPovmList
    rw [pyAssert_true]
    · rfl
    · have : ∀ z ∈ zs, z.len = n := by
        intro z hz
        obtain ⟨i, hi, rfl⟩ := List.getElem_of_mem hz
        have := ((List.forall₂_iff_get.1 m2).2 i (by omega) hi).2.lenx
        unfold MPA.len
        simpa using this
      intro x hx y hy
      rw [this x hx, this y (List.mem_of_mem_head? hy)]
  · rw [← hlen, itProduct_length, hpq]
  · intro c hc
    rw [hpq] at hc ⊢
    obtain ⟨t, t1, t2⟩ := itProduct_get qs n c hc
    obtain ⟨k, hk, hkt⟩ : ∃ k, ∃ hk : k < (itProduct qs n).length, k = ravelIdx (List.replicate n qs.length) c ∧ (itProduct qs n)[k] = t := by
      obtain ⟨hk, e⟩ := List.getElem?_eq_some_iff.1 t1
      exact ⟨_, hk, rfl, e⟩
    have hz := (List.forall₂_iff_get.1 m2).2 k hk (by omega)
    simp only [List.get_eq_getElem, hkt.2] at hz
    have ht : t ∈ itProduct qs n := by rw [← hkt.2]; exact List.getElem_mem hk
    obtain ⟨l1, l2⟩ := mem_itProduct ht
    have hr : ∀ m : ℕ, (t.map fun _ => m) = List.replicate n m := by
      intro m; rw [List.map_const', l1]
    have helem : ∀ Y I J, InB Y (List.replicate n (d * (d - 1))) → InB I (List.replicate n d) → InB J (List.replicate n d) →
          (zs[k]'(by omega)).elem Y I J = (List.zipWith NDArray.get (t.map Prod.snd) (triples Y I J)).prod := by
      intro Y I J hY hI hJ
      rw [sites_elem (fun q hq => g3 q (l2 q hq)) hz.1 (by rwa [hr]) (by rwa [hr]) (by rwa [hr]), List.zipWith_map_left]
    refine ⟨zs[k]'(by omega), t.map Prod.snd, ?_, ?_, hz.2, ?_, helem⟩
    · rw [← hkt.1]; exact List.getElem?_eq_getElem _
    · rw [List.forall₂_map_right_iff, ← g2]
      refine t2.imp fun m q hq => ?_
      rw [List.getElem?_map, hq]; rfl
    · have := local_measurement (d := d) (as := t.map fun q => (q.2, d * (d - 1))) (by
        intro a ha
        obtain ⟨q, hq, rfl⟩ := List.mem_map.1 ha
        exact (g3 q (l2 q hq)).2.1)
      rw [List.map_map, List.map_map] at this
      have e1 : t.map (Prod.snd ∘ fun q : MPA ℂ × NDArray ℂ => (q.2, d * (d - 1))) = List.replicate n (d * (d - 1)) := hr _
      have e2 : t.map ((fun _ => d) ∘ fun q : MPA ℂ × NDArray ℂ => (q.2, d * (d - 1))) = List.replicate n d := hr _
      rw [e1, e2] at this
      refine IsMeasurement.congr (fun Y I J hY hI hJ => ?_) this
      rw [helem Y I J hY hI hJ, List.zipWith_map_left, List.zipWith_map_left]

/-- C59 (finding): for local dimension 17 and more, there is no `pauli_mpps`. -/
theorem C59_pauli_mpps_large (n d : ℕ) (hd : 17 ≤ d) : pauliMpps n d = .error .assertion := by
  obtain ⟨parts, h1, h2, h3⟩ := pauliParts_ok d (by omega)
  unfold pauliMpps
  rw [h1, ok_bind]
  cases parts with
  | nil => simp at h2; split_ifs at h2
  | cons a parts =>
    rw [List.mapM_cons, C59_too_many a _ d 1 (h3 a (by simp)).shape ?_ one_pos]
    · rfl
    · have : 17 * (17 - 1) ≤ d * (d - 1) := Nat.mul_le_mul hd (by omega)
      omega

/-- C59, for the bound in `C59_pauli_mpps`: every dimension up to 16 has few enough outcomes. -/
theorem C59_parts_outcomes (d : ℕ) (hd : d ≤ 16) : d * (d - 1) ≤ 255 := by
  have : d * (d - 1) ≤ 16 * 15 := Nat.mul_le_mul hd (by omega)
  omega

/-! ### the elements -/

/-- C59: `pauli_povm(d)` contains the elements of `pauli_parts(d)`, part by part, all with the same weight. -/
theorem C59_pauli_elems (d : ℕ) (hd : 2 ≤ d) :
    ∃ parts a, pauliParts d = .ok parts ∧ pauliPovm d = .ok a ∧ parts.length = (if d = 2 then 3 else 2) ∧
      ∀ m p, parts[m]? = some p → ∀ k < d * (d - 1), ∀ i j,
        a.get [m * (d * (d - 1)) + k, i, j] = (1 / (parts.length : ℝ) : ℝ) * p.get [k, i, j] := by
  obtain ⟨parts, h1, h2, h3⟩ := pauliParts_ok d hd
  obtain ⟨a, h4, _⟩ := C40_pauli_povm d hd
  refine ⟨parts, a, h1, h4, h2, ?_⟩
  intro m p hp k hk i j
  have h5 := h4
  unfold pauliPovm at h5
  rw [h1, ok_bind] at h5
  unfold concatPovm at h5
  obtain ⟨_, _, h5⟩ := bind_ok_inv h5
  have hfl : (List.zipWith (fun (p : NDArray ℂ) (w : ℝ) => (povmElems p).map fun e => e.smul (w : ℂ))
      parts (List.replicate parts.length (1 / (parts.length : ℝ)))).flatten
      = parts.flatMap fun p => (povmElems p).map fun e => e.smul ((1 / (parts.length : ℝ) : ℝ) : ℂ) := by
    rw [List.flatMap]
    congr 1
    apply List.ext_getElem <;> simp
  rw [hfl] at h5
  obtain ⟨b, g1, _, g3⟩ := asArray_ok (d := d) (es := parts.flatMap fun p => (povmElems p).map fun e => e.smul ((1 / (parts.length : ℝ) : ℝ) : ℂ))
    (by
      intro h0
      have hmem := List.mem_of_getElem? hp
      have := List.flatMap_eq_nil_iff.1 h0 p hmem
      rw [povmElems_get (h3 p hmem).shape] at this
      have := congrArg List.length this
      simp only [List.length_map, List.length_range, List.length_nil] at this
      omega) (by
      intro e he
      obtain ⟨q, hq, he⟩ := List.mem_flatMap.1 he
      rw [povmElems_get (h3 q hq).shape, List.map_map] at he
      obtain ⟨l, _, rfl⟩ := List.mem_map.1 he
      rfl)
  rw [h5] at g1
  obtain rfl := Except.ok.inj g1
  refine (g3 (m * (d * (d - 1)) + k) (NDArray.smul ((1 / (parts.length : ℝ) : ℝ) : ℂ) ⟨[d, d], fun i => p.get (k :: i)⟩) ?_ [i, j]).trans rfl
  rw [flatMap_getElem? (s := d * (d - 1)) (by
    intro q hq
    rw [povmElems_get (h3 q hq).shape]; simp) hp hk, povmElems_get (h3 p (List.mem_of_getElem? hp)).shape]
  simp [hk]

/-- Specification: matrix elements of the Pauli matrices `X`, `Y` and `Z`. -/
def pauliMatrix : ℕ → ℕ → ℕ → ℂ
  | 0, 0, 1 => 1
  | 0, 1, 0 => 1
  | 1, 0, 1 => -Complex.I
  | 1, 1, 0 => Complex.I
  | 2, 0, 0 => 1
  | 2, 1, 1 => -1
  | _, _, _ => 0

theorem qubit_part (w : ℂ) : ∃ v, povmVectors w 2 = .ok v ∧ ∀ s < 2, ∀ i < 2, ∀ j < 2,
    (fromVectors v).get [s, i, j] = (if i = 0 then 1 else (-1) ^ s * w) * star (if j = 0 then 1 else (-1) ^ s * w) / 2 := by
  obtain ⟨v, h1, _, _, h4⟩ := xyPovm_ok w (le_refl 2)
  refine ⟨v, h1, fun s hs i hi j hj => ?_⟩
  have hp : povmRows w (povmPairs 2) = [(0, 1, w), (0, 1, -w)] := rfl
  rw [hp] at h4
  rw [h4 s (0, 1, (-1) ^ s * w) (by
    interval_cases s <;> simp) i j]
  norm_num
  unfold rowVal
  interval_cases i <;> interval_cases j <;> simp

/-- C59: the single-qubit Pauli POVM.  Outcome `2 m + s` has the element `(1 + (-1)^s σ_m) / 6`. -/
theorem C59_pauli_qubit : ∃ a, pauliPovm 2 = .ok a ∧ ∀ m < 3, ∀ s < 2, ∀ i < 2, ∀ j < 2,
    a.get [2 * m + s, i, j] = ((if i = j then 1 else 0) + (-1) ^ s * pauliMatrix m i j) / 6 := by
  obtain ⟨parts, a, h1, h2, h3, h4⟩ := C59_pauli_elems 2 le_rfl
  refine ⟨a, h2, ?_⟩
  obtain ⟨x, x1, x2⟩ := qubit_part 1
  obtain ⟨y, y1, y2⟩ := qubit_part Complex.I
  have hparts : parts = [fromVectors x, fromVectors y, zPovm 2] := by
    unfold pauliParts xPovm yPovm at h1
    rw [x1, y1] at h1
    exact (Except.ok.inj h1).symm
  subst hparts
  intro m hm s hs i hi j hj
  have key : ∀ p, [fromVectors x, fromVectors y, zPovm 2][m]? = some p → a.get [2 * m + s, i, j] = (1 / 3 : ℝ) * p.get [s, i, j] := by
    intro p hp
    have := h4 m p hp s (by omega) i j
    rw [show m * (2 * (2 - 1)) + s = 2 * m + s by omega] at this
    exact this
  have hI : Complex.I * Complex.I = -1 := Complex.I_mul_I
  interval_cases m
  · rw [key _ rfl, x2 s hs i hi j hj]
    interval_cases s <;> interval_cases i <;> interval_cases j <;> simp [pauliMatrix] <;> norm_num
  · rw [key _ rfl, y2 s hs i hi j hj]
    interval_cases s <;> interval_cases i <;> interval_cases j <;> simp [pauliMatrix] <;> norm_num <;> ring_nf
  · rw [key _ rfl]
    interval_cases s <;> interval_cases i <;> interval_cases j <;> simp [pauliMatrix, zPovm, fromVectors] <;> norm_num

/-- The example in the documentation of `pauli_mpp`: outcome `(1, 3)` on two qubits is `minus X` and `minus Y`. -/
example : ∃ z, pauliMpp 2 2 = .ok z ∧ ∀ i j i' j', i < 2 → j < 2 → i' < 2 → j' < 2 →
    z.elem [1, 3] [i, i'] [j, j'] = ((if i = j then 1 else 0) - pauliMatrix 0 i j) / 6 * (((if i' = j' then 1 else 0) - pauliMatrix 1 i' j') / 6) := by
  obtain ⟨a, z, h1, _, h2, _, _, h3⟩ := C59_pauli_mpp 2 2 (by omega) (by omega) (by decide)
  obtain ⟨b, g1, g2⟩ := C59_pauli_qubit
  rw [h1] at g1
  obtain rfl := Except.ok.inj g1
  refine ⟨z, h2, fun i j i' j' hi hj hi' hj' => ?_⟩
  rw [h3 [1, 3] [i, i'] [j, j'] (by simp [pauliOutcomes]) (by simp [hi, hi']) (by simp [hj, hj'])]
  have e1 := g2 0 (by omega) 1 (by omega) i hi j hj
  have e2 := g2 1 (by omega) 1 (by omega) i' hi' j' hj'
  simp only [mul_zero, zero_add, mul_one] at e1 e2
  simp only [triples_cons, triples_nil, List.map_cons, List.map_nil, List.prod_cons, List.prod_nil, mul_one]
  rw [e1, show (3 : ℕ) = 2 + 1 from rfl, e2]
  ring

example : ∃ zs, pauliMpps 2 3 = .ok zs ∧ zs.length = 4 := by
  obtain ⟨parts, zs, _, h1, _, h2, h3, _⟩ := C59_pauli_mpps 2 3 (by omega) (by omega) (by decide)
  refine ⟨zs, h2, ?_⟩
  rw [h3, h1]; decide

end Mpnum
