import Verif.Props.C42
import Verif.Props.C22
import Verif.Props.C02

/-! # C43: `embed`, `block` and `repeat` measure the intended sites -/

open Finset

namespace Mpnum

variable {R : Type}

section
variable [CommRing R] [StarRing R]

omit [StarRing R] in
theorem entry_append_one {ts us : List (NDArray R)} (h : Chained 1 ts 1) {i j : List (List ℕ)} (hi : i.length = ts.length) :
    entry (ts ++ us) (i ++ j) = entry ts i * entry us j := by
  unfold entry
  rw [mp_append h hi (by omega)]
  simp

omit [CommRing R] [StarRing R] in
theorem triples_flat2 {O D O' D' : List ℕ} (h : O.length = D.length) :
    triples (O ++ O') (D ++ D') (D ++ D') = triples O D D ++ triples O' D' D' := triples_append h rfl

omit [CommRing R] [StarRing R] in
/-- Chaining MP-POVMs gives an MP-POVM. -/
theorem chainPovm_ok {qs : List (MPA R × List ℕ × List ℕ)} (hne : qs ≠ []) (h : ∀ q ∈ qs, IsMpPovm q.1 q.2.1 q.2.2) :
    ∃ z, chainPovm (qs.map Prod.fst) = .ok z ∧ z.lt = qs.flatMap (fun q => q.1.lt) ∧ z.l = 0 ∧ z.r = z.len ∧
      IsMpPovm z (qs.flatMap fun q => q.2.1) (qs.flatMap fun q => q.2.2) := by
  obtain ⟨q, qs, rfl⟩ := List.exists_cons_of_ne_nil hne
  have hc : Chained 1 ((q :: qs).flatMap fun q => q.1.lt) 1 := by
    have := chained_flatMap (xs := (q :: qs).map Prod.fst) (by
      intro x hx
      obtain ⟨q, hq, rfl⟩ := List.mem_map.1 hx
      exact (h q hq).valid)
    rwa [List.flatMap_map] at this
  have hn : ((q :: qs).flatMap fun q => q.1.lt) ≠ [] := by
    rw [List.flatMap_cons]
    intro h0
    exact (h q (by simp)).valid.ne (List.append_eq_nil_iff.1 h0).1
  have hl : ((q :: qs).flatMap fun q => q.2.1).length = ((q :: qs).flatMap fun q => q.2.2).length := by
    generalize q :: qs = ps at h
    induction ps with
    | nil => rfl
    | cons p ps ih =>
      rw [List.flatMap_cons, List.flatMap_cons, List.length_append, List.length_append, ih fun q hq => h q (by simp [hq]),
        (h p (by simp)).len]
  have hs : physShape ((q :: qs).flatMap fun q => q.1.lt)
      = triples ((q :: qs).flatMap fun q => q.2.1) ((q :: qs).flatMap fun q => q.2.2) ((q :: qs).flatMap fun q => q.2.2) := by
    clear hl hn hc hne
    generalize q :: qs = ps at h
    induction ps with
    | nil => rfl
    | cons p ps ih =>
      have hp := h p (by simp)
      rw [List.flatMap_cons, List.flatMap_cons, List.flatMap_cons, triples_flat2 hp.len, ← ih fun q hq => h q (by simp [hq])]
      show List.map _ (p.1.lt ++ _) = _
      rw [List.map_append]
      congr 1
      exact hp.shape
  have ho : ∀ o ∈ (q :: qs).flatMap fun q => q.2.1, o ≤ 255 := by
    intro o ho
    obtain ⟨p, hp, ho⟩ := List.mem_flatMap.1 ho
    exact (h p hp).small o ho
  have hv : (⟨(q :: qs).flatMap fun q => q.1.lt, 0, ((q :: qs).flatMap fun q => q.1.lt).length⟩ : MPA R).Valid := valid_mk hn hc
  have hz : IsMpPovm (⟨(q :: qs).flatMap fun q => q.1.lt, 0, ((q :: qs).flatMap fun q => q.1.lt).length⟩ : MPA R)
      ((q :: qs).flatMap fun q => q.2.1) ((q :: qs).flatMap fun q => q.2.2) := ⟨hv, hl, hs, ho⟩
  refine ⟨_, ?_, rfl, rfl, rfl, hz⟩
  unfold chainPovm
  have : chain ((q :: qs).map Prod.fst) = .ok ⟨(q :: qs).flatMap fun q => q.1.lt, 0, ((q :: qs).flatMap fun q => q.1.lt).length⟩ := by
    rw [List.map_cons]
    show mkMPA (q.1.lt ++ (qs.map Prod.fst).flatMap MPA.lt) = _
    rw [List.flatMap_map, show q.1.lt ++ qs.flatMap (fun q => q.1.lt) = (q :: qs).flatMap fun q => q.1.lt from rfl]
    exact mkMPA_ok hn hc
  rw [this, ok_bind]
  exact hz.check

/-! ### no measurement -/

omit [StarRing R] in
theorem eyeSite_ok (d : ℕ) : ∃ e : NDArray R, eyeSite d = .ok e ∧ e.shape = [1, d, d] ∧
    ∀ i j, i < d → j < d → e.get [0, i, j] = if i = j then 1 else 0 := by
  refine ⟨(NDArray.eye d).reshapeTo [1, d, d], ?_, rfl, ?_⟩
  · unfold eyeSite
    exact NDArray.reshape_nat (s := [1, d, d]) (by simp [NDArray.eye])
  · intro i j hi hj
    rw [NDArray.reshapeTo_get]
    have h1 : ravelIdx [1, d, d] [0, i, j] = ravelIdx [d, d] [i, j] := by simp
    rw [h1, show (NDArray.eye d : NDArray R).shape = [d, d] from rfl, unravel_ravel (by simp [hi, hj])]
    rfl

omit [CommRing R] [StarRing R] in
theorem inB_replicate_zero (n : ℕ) : InB (List.replicate n 0) (List.replicate n 1) := by
  induction n with
  | zero => exact .nil
  | succ n ih => exact .cons one_pos ih

theorem povmEye_ok {ds : List ℕ} (hne : ds ≠ []) :
    ∃ e : MPA R, povmEye ds = .ok e ∧ IsMpPovm e (List.replicate ds.length 1) ds ∧
      e.ranks = List.replicate (ds.length - 1) 1 ∧
      ∀ I J, InB I ds → InB J ds → e.elem (List.replicate ds.length 0) I J = if I = J then 1 else 0 := by
  have hm : ∀ ds : List ℕ, ∃ fs : List (NDArray R), ds.mapM eyeSite = .ok fs ∧ fs.length = ds.length ∧
      fs.map NDArray.shape = triples (List.replicate ds.length 1) ds ds ∧
      ∀ I J, InB I ds → InB J ds → (List.zipWith (fun a i => NDArray.get a i) fs
        (triples (List.replicate ds.length 0) I J)).prod = if I = J then 1 else 0 := by
    intro ds
    induction ds with
    | nil =>
      refine ⟨[], rfl, rfl, rfl, ?_⟩
      intro I J hI hJ
      obtain rfl : I = [] := by simpa using hI
      obtain rfl : J = [] := by simpa using hJ
      simp
    | cons d ds ih =>
      obtain ⟨fs, h1, h2, h3, h4⟩ := ih
      obtain ⟨e, g1, g2, g3⟩ := eyeSite_ok (R := R) d
      refine ⟨e :: fs, ?_, by simp [h2], ?_, ?_⟩
      · rw [List.mapM_cons, g1, ok_bind, h1]; rfl
      · rw [List.map_cons, g2, h3]; rfl
      · intro I J hI hJ
        obtain ⟨i, I, rfl, a1, a2⟩ := inB_cons_split hI
        obtain ⟨j, J, rfl, b1, b2⟩ := inB_cons_split hJ
        rw [List.length_cons, List.replicate_succ, triples_cons, List.zipWith_cons_cons, List.prod_cons, g3 i j a1 b1, h4 I J a2 b2]
        by_cases hij : i = j <;> by_cases hIJ : I = J <;> simp [hij, hIJ]
  obtain ⟨fs, h1, h2, h3, h4⟩ := hm ds
  obtain ⟨e, g1, g2, g3, g4, g5⟩ := C04_from_kron fs (by
    intro h; subst h; exact hne (List.length_eq_zero_iff.1 (by simpa using h2.symm)))
  have hp : IsMpPovm e (List.replicate ds.length 1) ds :=
    ⟨g2, by simp, by rw [g3, h3], by intro o ho; rw [List.eq_of_mem_replicate ho]; omega⟩
  refine ⟨e, ?_, hp, by rw [g4, h2], ?_⟩
  · unfold povmEye
    rw [h1, ok_bind, g1, ok_bind]
    exact hp.check
  · intro I J hI hJ
    unfold MPA.elem
    rw [g5 _ (by rw [h3]; exact triples_idxOK (inB_replicate_zero ds.length) hI hJ), h4 I J hI hJ]

/-- C43: `eye` measures nothing: it has one outcome, whose element is the identity. -/
theorem C43_eye (ds : List ℕ) (hne : ds ≠ []) :
    ∃ e : MPA R, povmEye ds = .ok e ∧ IsMpPovm e (List.replicate ds.length 1) ds ∧
      e.ranks = List.replicate (ds.length - 1) 1 ∧
      ∀ I J, InB I ds → InB J ds → e.elem (List.replicate ds.length 0) I J = if I = J then 1 else 0 := povmEye_ok hne

/-- C43: `from_local_povm`: the elements are the tensor products of the local elements. -/
theorem C43_from_local_povm (a : NDArray R) (o d width : ℕ) (ha : a.shape = [o, d, d]) (ho : o ≤ 255) (hw : 0 < width) :
    ∃ z, fromLocalPovm a width = .ok z ∧ IsMpPovm z (List.replicate width o) (List.replicate width d) ∧
      z.ranks = List.replicate (width - 1) 1 ∧
      ∀ Y I J, InB Y (List.replicate width o) → InB I (List.replicate width d) → InB J (List.replicate width d) →
        z.elem Y I J = ((triples Y I J).map a.get).prod := by
  obtain ⟨e, g1, g2, g3, g4, g5⟩ := C04_from_kron (List.replicate width a) (by
    intro h
    have := congrArg List.length h
    simp at this; omega)
  have hs : (List.replicate width a).map NDArray.shape = triples (List.replicate width o) (List.replicate width d) (List.replicate width d) := by
    rw [List.map_replicate, ha]
    clear g1 g2 g3 g4 g5 hw
    induction width with
    | zero => rfl
    | succ n ih => simp only [List.replicate_succ, triples_cons, ih]
  have hp : IsMpPovm e (List.replicate width o) (List.replicate width d) :=
    ⟨g2, by simp, by rw [g3, hs], by intro k hk; rw [List.eq_of_mem_replicate hk]; exact ho⟩
  refine ⟨e, ?_, hp, by rw [g4, List.length_replicate], ?_⟩
  · unfold fromLocalPovm
    rw [g1, ok_bind]
    exact hp.check
  · intro Y I J hY hI hJ
    unfold MPA.elem
    rw [g5 _ (by rw [hs]; exact triples_idxOK hY hI hJ)]
    congr 1
    have hl : (triples Y I J).length = width := by
      have h1 := inB_length hY
      have h2 := inB_length hI
      have h3 := inB_length hJ
      simp only [List.length_replicate] at h1 h2 h3
      rw [triples_length (by omega) (by omega), h1]
    generalize triples Y I J = T at hl
    clear * - hl
    induction T generalizing width with
    | nil => cases width <;> simp_all
    | cons t T ih => cases width with
      | zero => simp at hl
      | succ n =>
        simp only [List.replicate_succ, List.zipWith_cons_cons, List.map_cons]
        rw [ih n (by simpa using hl)]

/-! ### `embed` -/

/-- Specification: `z` measures `x` (outcomes `O`, dimensions `D`) and nothing on the sites to the left (dimensions
`P`) and to the right (dimensions `Q`). -/
structure Embedded (x : MPA R) (O D P Q : List ℕ) (z : MPA R) : Prop where
  povm : IsMpPovm z (List.replicate P.length 1 ++ O ++ List.replicate Q.length 1) (P ++ D ++ Q)
  elem : ∀ Y, InB Y O → ∀ I J, InB I D → InB J D → ∀ L L', InB L P → InB L' P → ∀ M M', InB M Q → InB M' Q →
    z.elem (List.replicate P.length 0 ++ Y ++ List.replicate Q.length 0) (L ++ I ++ M) (L' ++ J ++ M')
      = if L = L' ∧ M = M' then x.elem Y I J else 0

omit [StarRing R] in
theorem elem_append {x y z : MPA R} {O D : List ℕ} (hx : IsMpPovm x O D) (hz : z.lt = x.lt ++ y.lt)
    {Y I J Y' I' J' : List ℕ} (hY : Y.length = D.length) (hI : I.length = D.length) (hJ : J.length = D.length) :
    z.elem (Y ++ Y') (I ++ I') (J ++ J') = x.elem Y I J * y.elem Y' I' J' := by
  unfold MPA.elem MPA.val
  rw [hz, triples_append (by omega) (by omega), entry_append_one hx.valid.chain (by
    rw [triples_length (by omega) (by omega), hx.lenx, hY])]

theorem embed_pieces {x : MPA R} {O D P Q : List ℕ} (hx : IsMpPovm x O D) :
    ∃ z left right, (if P = [] then .ok [] else do let e ← povmEye P; return [e] : Py (List (MPA R))) = .ok left ∧
      (if Q = [] then .ok [] else do let e ← povmEye Q; return [e] : Py (List (MPA R))) = .ok right ∧
      chainPovm (left ++ [x] ++ right) = .ok z ∧ Embedded x O D P Q z := by
  have piece : ∀ P : List ℕ, ∃ (left : List (MPA R)) (ql : List (MPA R × List ℕ × List ℕ)) (u : List (NDArray R)),
      (if P = [] then .ok [] else do let e ← povmEye P; return [e] : Py (List (MPA R))) = .ok left ∧
      ql.map Prod.fst = left ∧ (∀ q ∈ ql, IsMpPovm q.1 q.2.1 q.2.2) ∧ (ql.flatMap fun q => q.1.lt) = u ∧
      (ql.flatMap fun q => q.2.1) = List.replicate P.length 1 ∧ (ql.flatMap fun q => q.2.2) = P ∧ Chained 1 u 1 ∧
      u.length = P.length ∧
      ∀ L L', InB L P → InB L' P → entry u (triples (List.replicate P.length 0) L L') = if L = L' then 1 else 0 := by
    intro P
    by_cases hP : P = []
    · subst hP
      refine ⟨[], [], [], rfl, rfl, by simp, rfl, rfl, rfl, rfl, rfl, ?_⟩
      intro L L' h h'
      obtain rfl : L = [] := by simpa using h
      obtain rfl : L' = [] := by simpa using h'
      simp [entry, mp]
    · obtain ⟨e, h1, h2, _, h3⟩ := povmEye_ok (R := R) hP
      refine ⟨[e], [(e, List.replicate P.length 1, P)], e.lt, ?_, rfl, by simpa using h2, by simp, by simp, by simp, h2.valid.chain,
        h2.lenx, h3⟩
      rw [if_neg hP, h1]; rfl
  obtain ⟨left, ql, u, a1, a2, a3, a4, a5, a6, a7, a8, a9⟩ := piece P
  obtain ⟨right, qr, v, b1, b2, b3, b4, b5, b6, b7, b8, b9⟩ := piece Q
  obtain ⟨z, c1, c2, c3, c4, c5⟩ := chainPovm_ok (qs := ql ++ [(x, O, D)] ++ qr) (by simp) (by
    intro q hq
    simp only [List.mem_append, List.mem_cons, List.not_mem_nil, or_false] at hq
    rcases hq with (hq | rfl) | hq
    · exact a3 q hq
    · exact hx
    · exact b3 q hq)
  refine ⟨z, left, right, a1, b1, ?_, ?_, ?_⟩
  · rw [← c1, List.map_append, List.map_append, a2, b2]; rfl
  · have := c5
    simp only [List.flatMap_append, a5, a6, b5, b6, List.flatMap_cons, List.flatMap_nil, List.append_nil] at this
    exact this
  · intro Y hY I J hI hJ L L' hL hL' M M' hM hM'
    have hz : z.lt = u ++ (x.lt ++ v) := by
      rw [c2]
      simp only [List.flatMap_append, a4, b4, List.flatMap_cons, List.flatMap_nil, List.append_nil, List.append_assoc]
    have lL := inB_length hL
    have lL' := inB_length hL'
    have lY := inB_length hY
    have lI := inB_length hI
    have lJ := inB_length hJ
    have lO := hx.len
    unfold MPA.elem MPA.val
    rw [hz, List.append_assoc, List.append_assoc, List.append_assoc, triples_append (by simp [lL]) (by omega),
      triples_append (by omega) (by omega), entry_append_one a7 (by rw [triples_length (by simp [lL]) (by omega)]; simp [a8]),
      entry_append_one hx.valid.chain (by rw [triples_length (by omega) (by omega), hx.lenx]; omega), a9 L L' hL hL', b9 M M' hM hM']
    by_cases h1 : L = L' <;> by_cases h2 : M = M' <;> simp [h1, h2]

/-- C43: `embed` on the sites `s, …, s + len(self) - 1` of `n` sites. -/
theorem C43_embed (x : MPA R) (O D : List ℕ) (hx : IsMpPovm x O D) (s : ℕ) (ds : List ℕ) (ld : LocalDim)
    (hld : ld = .list ds ∨ ∃ d, ld = .one d ∧ ds = List.replicate ds.length d) (hs : s + D.length ≤ ds.length) :
    ∃ z, povmEmbed x ds.length s ld = .ok z ∧ Embedded x O D (ds.take s) (ds.drop (s + D.length)) z := by
  obtain ⟨z, left, right, h1, h2, h3, h4⟩ := embed_pieces (P := ds.take s) (Q := ds.drop (s + D.length)) hx
  refine ⟨z, ?_, h4⟩
  have hlx : (x.len : ℤ) = D.length := by rw [show x.len = D.length from hx.lenx]
  have hD0 : 0 < D.length := by
    rw [← hx.lenx]; exact List.length_pos_iff.2 hx.valid.ne
  have hds : ld.dims ds.length = ds := by
    rcases hld with rfl | ⟨d, rfl, h⟩
    · rfl
    · rw [LocalDim.dims, Int.toNat_natCast]; exact h.symm
  have e1 : pySlice ds 0 (s : ℤ) = ds.take s := by
    have := pySlice_nat ds (b := 0) (e := s) (by omega) (by omega)
    simpa using this
  have e2 : 0 < (ds.length : ℤ) - D.length - s → pySlice ds (-((ds.length : ℤ) - D.length - s)) ds.length = ds.drop (s + D.length) := by
    intro hpos
    unfold pySlice
    have c1 : pyClamp ds.length (-((ds.length : ℤ) - D.length - s)) = s + D.length := by
      unfold pyClamp; split <;> omega
    have c2 : pyClamp ds.length (ds.length : ℤ) = ds.length := pyClamp_nat (le_refl _)
    rw [c1, c2]
    exact List.take_of_length_le (by simp)
  unfold povmEmbed
  simp only [hds, hlx]
  rw [pyAssert_true trivial, ok_bind, pyAssert_true (by omega), ok_bind]
  have f1 : (if 0 < (s : ℤ) then do
      let e ← povmEye (pySlice ds 0 (s : ℤ))
      return [e] else .ok [] : Py (List (MPA R))) = .ok left := by
    rw [e1, ← h1]
    by_cases h0 : s = 0
    · subst h0; simp
    · rw [if_pos (by omega), if_neg]
      intro h
      have := congrArg List.length h
      rw [List.length_take, List.length_nil] at this
      omega
  have f2 : (if 0 < (ds.length : ℤ) - D.length - s then do
      let e ← povmEye (pySlice ds (-((ds.length : ℤ) - D.length - s)) ds.length)
      return [e] else .ok [] : Py (List (MPA R))) = .ok right := by
    rw [← h2]
    by_cases h0 : 0 < (ds.length : ℤ) - D.length - s
    · rw [if_pos h0, e2 h0, if_neg]
      intro h
      have := congrArg List.length h
      simp at this
      omega
    · rw [if_neg h0, if_pos]
      exact List.drop_eq_nil_of_le (by omega)
  rw [f1, ok_bind, f2, ok_bind, h3]

omit [StarRing R] in
theorem sumIdx_delta {P : List ℕ} {L : List ℕ} (hL : InB L P) (f : List ℕ → R) :
    (sumIdx P fun L' => if L = L' then f L' else 0) = f L := by
  rw [sumIdx_eq_sum, Finset.sum_ite_eq (idxSet P) L, if_pos (mem_idxSet.2 hL)]

/-- C43: the probabilities of the embedded MP-POVM are those of the original MP-POVM for the reduced state. -/
theorem C43_embed_born (x z : MPA R) (O D P Q : List ℕ) (hz : Embedded x O D P Q z) (ρ : List ℕ → List ℕ → R) (Y : List ℕ)
    (hY : InB Y O) :
    bornRule (P ++ D ++ Q) (z.elem (List.replicate P.length 0 ++ Y ++ List.replicate Q.length 0)) ρ
      = bornRule D (x.elem Y) (margOp ρ P Q) := by
  unfold bornRule
  rw [sumIdx_append, sumIdx_append]
  have h1 : ∀ L, InB L P → ∀ I, InB I D → ∀ M, InB M Q →
      (sumIdx (P ++ D ++ Q) fun J => z.elem (List.replicate P.length 0 ++ Y ++ List.replicate Q.length 0) (L ++ I ++ M) J * ρ J (L ++ I ++ M))
        = sumIdx D fun J => x.elem Y I J * ρ (L ++ J ++ M) (L ++ I ++ M) := by
    intro L hL I hI M hM
    rw [sumIdx_append, sumIdx_append]
    have : ∀ L', InB L' P → (sumIdx D fun J => sumIdx Q fun M' =>
        z.elem (List.replicate P.length 0 ++ Y ++ List.replicate Q.length 0) (L ++ I ++ M) (L' ++ J ++ M') * ρ (L' ++ J ++ M') (L ++ I ++ M))
        = if L = L' then (sumIdx D fun J => x.elem Y I J * ρ (L' ++ J ++ M) (L ++ I ++ M)) else 0 := by
      intro L' hL'
      have h2 : ∀ J, InB J D → (sumIdx Q fun M' =>
          z.elem (List.replicate P.length 0 ++ Y ++ List.replicate Q.length 0) (L ++ I ++ M) (L' ++ J ++ M') * ρ (L' ++ J ++ M') (L ++ I ++ M))
          = if L = L' then x.elem Y I J * ρ (L' ++ J ++ M) (L ++ I ++ M) else 0 := by
        intro J hJ
        by_cases hLL : L = L'
        · rw [if_pos hLL, ← sumIdx_delta hM fun M' => x.elem Y I J * ρ (L' ++ J ++ M') (L ++ I ++ M)]
          refine sumIdx_congr fun M' hM' => ?_
          rw [hz.elem Y hY I J hI hJ L L' hL hL' M M' hM hM']
          by_cases hMM : M = M' <;> simp [hLL, hMM]
        · rw [if_neg hLL]
          rw [show (0 : R) = sumIdx Q fun _ => 0 by rw [sumIdx_eq_sum]; simp]
          refine sumIdx_congr fun M' hM' => ?_
          rw [hz.elem Y hY I J hI hJ L L' hL hL' M M' hM hM', if_neg (fun h => hLL h.1), zero_mul]
      rw [sumIdx_congr h2]
      by_cases hLL : L = L'
      · simp [hLL]
      · simp only [hLL, if_false]
        rw [sumIdx_eq_sum]; simp
    rw [sumIdx_congr this, sumIdx_delta hL]
  rw [sumIdx_congr fun L hL => sumIdx_congr fun I hI => sumIdx_congr fun M hM => h1 L hL I hI M hM]
  rw [sumIdx_comm]
  refine sumIdx_congr fun I hI => ?_
  unfold margOp
  have : ∀ J, InB J D → (x.elem Y I J * sumIdx P fun L => sumIdx Q fun M => ρ (L ++ J ++ M) (L ++ I ++ M))
      = sumIdx P fun L => sumIdx Q fun M => x.elem Y I J * ρ (L ++ J ++ M) (L ++ I ++ M) := by
    intro J _
    rw [mul_sumIdx]
    exact sumIdx_congr fun L _ => mul_sumIdx _ _ _
  rw [sumIdx_congr this]
  conv_rhs => rw [sumIdx_comm]
  refine sumIdx_congr fun L _ => ?_
  conv_rhs => rw [sumIdx_comm]

omit [StarRing R] in
/-- C43: `embed` rejects a window beyond the end and a wrong number of local dimensions. -/
theorem C43_embed_reject (x : MPA R) (n s : ℤ) :
    (∀ ds : List ℕ, (ds.length : ℤ) ≠ n → povmEmbed x n s (.list ds) = .error .assertion) ∧
    (∀ ld, n - x.len < s → povmEmbed x n s ld = .error .assertion) := by
  constructor
  · intro ds h
    unfold povmEmbed pyAssert
    simp only [LocalDim.dims, h, if_false]
    rfl
  · intro ld h
    unfold povmEmbed
    simp only
    unfold pyAssert
    rw [if_neg (c := 0 ≤ n - (x.len : ℤ) - s) (by omega)]
    by_cases h0 : ((ld.dims n).length : ℤ) = n
    · rw [if_pos h0]; rfl
    · rw [if_neg h0]; rfl

/-- C43 (finding): a negative `startsite` is not rejected; the result has more sites than requested. -/
theorem C43_embed_negative (x : MPA R) (O D : List ℕ) (hx : IsMpPovm x O D) (n s : ℕ) (hs : 0 < s) (d : ℕ)
    (hn : D.length + 1 ≤ n + s) (hns : n + s ≤ D.length + n) :
    ∃ z, povmEmbed x n (-(s : ℤ)) (.one d) = .ok z ∧ z.len = n + s := by
  have hlx : (x.len : ℤ) = D.length := by rw [show x.len = D.length from hx.lenx]
  obtain ⟨z, left, right, h1, h2, h3, h4⟩ := embed_pieces (P := []) (Q := List.replicate (n + s - D.length) d) hx
  refine ⟨z, ?_, ?_⟩
  · unfold povmEmbed
    have hdd : (LocalDim.one d).dims n = List.replicate n d := by rw [LocalDim.dims, Int.toNat_natCast]
    simp only [hlx, hdd]
    rw [pyAssert_true (by simp), ok_bind, pyAssert_true (by omega), ok_bind, if_neg (by omega), ok_bind, if_pos (by omega)]
    have e2 : pySlice (List.replicate n d) (-((n : ℤ) - D.length - -(s : ℤ))) (List.replicate n d).length
        = List.replicate (n + s - D.length) d := by
      unfold pySlice
      rw [pyClamp_nat (le_refl _)]
      have c1 : pyClamp (List.replicate n d).length (-((n : ℤ) - D.length - -(s : ℤ))) = D.length - s := by
        rw [List.length_replicate]
        unfold pyClamp; split <;> omega
      rw [c1, List.drop_replicate, List.take_replicate, List.length_replicate]
      congr 1
      omega
    rw [e2]
    rw [if_pos rfl] at h1
    rw [if_neg (by intro h; have := congrArg List.length h; simp at this; omega)] at h2
    obtain rfl := Except.ok.inj h1
    rw [h2, ok_bind, h3]
  · show z.lt.length = _
    rw [h4.povm.lenx]
    simp
    omega

/-! ### `block` -/

/-- C43: `block` embeds the MP-POVM at every position, from left to right. -/
theorem C43_block (x : MPA R) (O : List ℕ) (k d n : ℕ) (hx : IsMpPovm x O (List.replicate k d)) :
    ∃ zs, povmBlock x n = .ok zs ∧
      List.Forall₂ (fun s z => Embedded x O (List.replicate k d) (List.replicate s d) (List.replicate (n - s - k) d) z)
        (List.range (n + 1 - k)) zs := by
  have hlx : x.lt.length = k := by rw [hx.lenx]; simp
  have hk0 : 0 < k := by rw [← hlx]; exact List.length_pos_iff.2 hx.valid.ne
  have hd : x.hdims.headD 0 = d := by
    rw [hx.hdims]
    cases k with
    | zero => omega
    | succ k => rfl
  have hr : pyRange 0 ((n : ℤ) - (x.len : ℤ) + 1) 1 = (List.range (n + 1 - k)).map fun s : ℕ => (s : ℤ) := by
    rw [MPA.pyRange_up, show ((n : ℤ) - (x.len : ℤ) + 1 - 0).toNat = n + 1 - k by
      rw [show x.len = k from hlx]; omega]
    apply List.map_congr_left
    intro s _
    omega
  have hm : ∀ l : List ℕ, (∀ s ∈ l, s < n + 1 - k) →
      ∃ zs, (l.map fun s : ℕ => (s : ℤ)).mapM (fun s => povmEmbed x n s (.one d)) = .ok zs ∧
      List.Forall₂ (fun s z => Embedded x O (List.replicate k d) (List.replicate s d) (List.replicate (n - s - k) d) z) l zs := by
    intro l
    induction l with
    | nil => exact fun _ => ⟨[], rfl, .nil⟩
    | cons s l ih =>
      intro h
      obtain ⟨zs, h1, h2⟩ := ih fun s hs => h s (by simp [hs])
      have hs := h s (by simp)
      obtain ⟨z, g1, g2⟩ := C43_embed x O _ hx s (List.replicate n d) (.one d) (.inr ⟨d, rfl, by simp⟩) (by simp; omega)
      rw [List.length_replicate] at g1
      rw [List.take_replicate, List.drop_replicate, List.length_replicate, min_eq_left (by omega),
        show n - (s + k) = n - s - k by omega] at g2
      exact ⟨z :: zs, by rw [List.map_cons, List.mapM_cons, g1, ok_bind, h1]; rfl, .cons g2 h2⟩
  obtain ⟨zs, h1, h2⟩ := hm (List.range (n + 1 - k)) (by simp)
  refine ⟨zs, ?_, h2⟩
  have hlen : ∀ z ∈ zs, z.len = n := by
    intro z hz
    obtain ⟨i, hi, rfl⟩ := List.getElem_of_mem hz
    have hl := h2.length_eq
    have hi' : i < (List.range (n + 1 - k)).length := by omega
    have := (List.forall₂_iff_get.1 h2).2 i hi' hi
    have hl := this.povm.lenx
    simp only [List.get_eq_getElem, List.getElem_range] at hl
    show zs[i].lt.length = n
    rw [hl]
    simp at hi'
    simp
    omega
  unfold povmBlock
  simp only [hd]
  rw [pyAssert_true (by rw [hx.hdims]; intro e he; exact List.eq_of_mem_replicate he), ok_bind, hr, h1, ok_bind]
  unfold mkPovmList
  rw [pyAssert_true]
  · rfl
  · intro x hx y hy
    rw [hlen x hx, hlen y (List.mem_of_mem_head? hy)]

/-- C43: `block` requires equal local dimensions. -/
theorem C43_block_reject (x : MPA R) (n : ℤ) (h : ∃ e ∈ x.hdims, e ≠ x.hdims.headD 0) :
    povmBlock x n = .error .assertion := by
  unfold povmBlock pyAssert
  simp only
  rw [if_neg]
  · rfl
  · obtain ⟨e, he, hne⟩ := h
    intro h; exact hne (h e he)

/-! ### `repeat` -/

/-- Specification: the list `l`, repeated periodically until there are `n` items. -/
def cyclic {α : Type} (l : List α) (n : ℕ) (d : α) : List α := (List.range n).map fun k => l.getD (k % l.length) d

omit [CommRing R] [StarRing R] in
theorem cyclic_eq {α : Type} (l : List α) (hl : l ≠ []) (d : α) (n : ℕ) :
    (List.replicate (n / l.length) l).flatten ++ l.take (n % l.length) = cyclic l n d := by
  have h0 : 0 < l.length := List.length_pos_iff.2 hl
  induction n using Nat.strong_induction_on with
  | _ n ih =>
    by_cases hn : n < l.length
    · rw [Nat.div_eq_of_lt hn, Nat.mod_eq_of_lt hn]
      unfold cyclic
      apply List.ext_getElem
      · simp; omega
      · intro i h1 h2
        simp at h2
        simp [Nat.mod_eq_of_lt (show i < l.length by omega), show i < l.length by omega]
    · obtain ⟨m, rfl⟩ : ∃ m, n = l.length + m := ⟨n - l.length, by omega⟩
      have := ih m (by omega)
      rw [Nat.add_div_left m h0, Nat.add_mod_left, List.replicate_succ, List.flatten_cons, List.append_assoc, this]
      unfold cyclic
      rw [List.range_add, List.map_append, List.map_map]
      congr 1
      · apply List.ext_getElem
        · simp
        · intro i h1 h2
          simp at h2
          simp [Nat.mod_eq_of_lt h2, h2]
      · apply List.map_congr_left
        intro k _
        simp

omit [StarRing R] in
theorem entry_replicate {x : MPA R} {O D : List ℕ} (hx : IsMpPovm x O D) {us : List (NDArray R)} {Y' I' J' : List ℕ} :
    ∀ {Ys Is Js : List (List ℕ)}, Is.length = Ys.length → Js.length = Ys.length → (∀ Y ∈ Ys, Y.length = D.length) →
      (∀ Y ∈ Is, Y.length = D.length) → (∀ Y ∈ Js, Y.length = D.length) →
      entry ((List.replicate Ys.length x.lt).flatten ++ us) (triples (Ys.flatten ++ Y') (Is.flatten ++ I') (Js.flatten ++ J'))
        = (List.zipWith3 x.elem Ys Is Js).prod * entry us (triples Y' I' J')
  | [], [], [], _, _, _, _, _ => by simp [List.zipWith3]
  | Y :: Ys, I :: Is, J :: Js, h1, h2, hY, hI, hJ => by
    have ih := entry_replicate hx (us := us) (Y' := Y') (I' := I') (J' := J') (Ys := Ys) (Is := Is) (Js := Js) (by simpa using h1)
      (by simpa using h2) (fun Y h => hY Y (by simp [h])) (fun Y h => hI Y (by simp [h])) (fun Y h => hJ Y (by simp [h]))
    have a1 := hY Y (by simp)
    have a2 := hI I (by simp)
    have a3 := hJ J (by simp)
    simp only [List.length_cons, List.replicate_succ, List.flatten_cons, List.append_assoc, List.zipWith3, List.prod_cons]
    rw [triples_append (by omega) (by omega), entry_append_one hx.valid.chain (by
      rw [triples_length (by omega) (by omega), hx.lenx, a1]), ih, mul_assoc]
    rfl
  | [], _ :: _, _, h, _, _, _, _ => by simp at h
  | [], [], _ :: _, _, h, _, _, _ => by simp at h
  | _ :: _, [], _, h, _, _, _, _ => by simp at h
  | _ :: _, _ :: _, [], _, h, _, _, _ => by simp at h

/-- C43: `repeat` tiles the chain with the MP-POVM; the last copy may be cut where the MP-POVM factorizes. -/
theorem C43_repeat (x : MPA R) (O D : List ℕ) (hx : IsMpPovm x O D) (n : ℕ) (hn : 0 < n)
    (hcut : n % D.length = 0 ∨ x.ranks.getD (n % D.length - 1) 0 = 1) :
    ∃ z, povmRepeat x n = .ok z ∧ z.len = n ∧ z.lt = cyclic x.lt n ⟨[], fun _ => 0⟩ ∧
      IsMpPovm z (cyclic O n 0) (cyclic D n 0) ∧
      ∀ (Ys Is Js : List (List ℕ)) (Y' I' J' : List ℕ), Ys.length = n / D.length → Is.length = n / D.length → Js.length = n / D.length →
        (∀ Y ∈ Ys, InB Y O) → (∀ I ∈ Is, InB I D) → (∀ J ∈ Js, InB J D) →
        z.elem (Ys.flatten ++ Y') (Is.flatten ++ I') (Js.flatten ++ J')
          = (List.zipWith3 x.elem Ys Is Js).prod * entry (x.lt.take (n % D.length)) (triples Y' I' J') := by
  have hlx : x.lt.length = D.length := hx.lenx
  have hD0 : 0 < D.length := by
    rw [← hlx]; exact List.length_pos_iff.2 hx.valid.ne
  have hDn : D ≠ [] := List.length_pos_iff.1 hD0
  have hOn : O ≠ [] := List.length_pos_iff.1 (by rw [hx.len]; exact hD0)
  have hsplit : n / D.length * D.length + n % D.length = n := by rw [mul_comm]; exact Nat.div_add_mod n D.length
  -- the last piece
  have hlast : ∃ (last : List (MPA R)) (ql : List (MPA R × List ℕ × List ℕ)),
      (if 0 < n % D.length then do
        pyAssert (x.ranks.getD (n % D.length - 1) 0 = 1)
        let y ← mkPovm (x.lt.take (n % D.length))
        return [y] else .ok [] : Py (List (MPA R))) = .ok last ∧ ql.map Prod.fst = last ∧
      (∀ q ∈ ql, IsMpPovm q.1 q.2.1 q.2.2) ∧ (ql.flatMap fun q => q.1.lt) = x.lt.take (n % D.length) ∧
      (ql.flatMap fun q => q.2.1) = O.take (n % D.length) ∧ (ql.flatMap fun q => q.2.2) = D.take (n % D.length) ∧
      (0 < n % D.length → ql ≠ []) := by
    by_cases h0 : n % D.length = 0
    · refine ⟨[], [], ?_, rfl, by simp, by simp [h0], by simp [h0], by simp [h0], by omega⟩
      rw [if_neg (by omega)]
    · have hr : x.ranks.getD (n % D.length - 1) 0 = 1 := hcut.resolve_left h0
      have hml : n % D.length < D.length := Nat.mod_lt _ hD0
      obtain ⟨r, c1, c2⟩ := chained_append.1 (by rw [List.take_append_drop (n % D.length) x.lt]; exact hx.valid.chain :
        Chained 1 (x.lt.take (n % D.length) ++ x.lt.drop (n % D.length)) 1)
      have hr1 : r = 1 := by
        rw [← hr]
        unfold MPA.ranks
        obtain ⟨t, ts, hts⟩ := List.exists_cons_of_ne_nil (List.ne_nil_of_length_pos (l := x.lt.drop (n % D.length)) (by simp; omega))
        have ht : x.lt[n % D.length]'(by omega) = t := by
          have := List.getElem_drop (xs := x.lt) (i := n % D.length) (j := 0) (h := by simp; omega)
          simp only [Nat.add_zero] at this
          rw [← this]
          simp [hts]
        rw [List.getD_eq_getElem _ _ (by simp; omega)]
        rw [hts] at c2
        simp only [List.getElem_map, List.getElem_tail]
        simp only [show n % D.length - 1 + 1 = n % D.length by omega, ht]
        exact c2.2.1.symm
      subst hr1
      have hne : x.lt.take (n % D.length) ≠ [] := List.ne_nil_of_length_pos (by rw [List.length_take]; omega)
      have hs : physShape (x.lt.take (n % D.length)) = triples (O.take (n % D.length)) (D.take (n % D.length)) (D.take (n % D.length)) := by
        rw [physShape, List.map_take, show x.lt.map NDArray.ph = _ from hx.shape]
        simp only [triples, pairs, List.take_zipWith]
      have ho : ∀ o ∈ O.take (n % D.length), o ≤ 255 := fun o ho => hx.small o (List.mem_of_mem_take ho)
      have hlO : (O.take (n % D.length)).length = (D.take (n % D.length)).length := by simp [hx.len]
      have hm := mkPovm_part hne c1 hs hlO ho
      refine ⟨[⟨x.lt.take (n % D.length), 0, (x.lt.take (n % D.length)).length⟩],
        [(⟨x.lt.take (n % D.length), 0, (x.lt.take (n % D.length)).length⟩, O.take (n % D.length), D.take (n % D.length))],
        ?_, rfl, ?_, by simp, by simp, by simp, by simp⟩
      · rw [if_pos (by omega), pyAssert_true hr, ok_bind, hm]; rfl
      · intro q hq
        rw [List.mem_singleton] at hq
        subst hq
        exact ⟨valid_mk hne c1, hlO, hs, ho⟩
  obtain ⟨last, ql, a1, a2, a3, a4, a5, a6, a7⟩ := hlast
  obtain ⟨z, c1, c2, c3, c4, c5⟩ := chainPovm_ok (qs := List.replicate (n / D.length) (x, O, D) ++ ql) (by
    intro h
    obtain ⟨b1, b2⟩ := List.append_eq_nil_iff.1 h
    have : n / D.length = 0 := by
      have := congrArg List.length b1
      simpa using this
    rw [this] at hsplit
    exact a7 (by omega) b2) (by
    intro q hq
    rcases List.mem_append.1 hq with hq | hq
    · rw [List.eq_of_mem_replicate hq]; exact hx
    · exact a3 q hq)
  have hfm : ∀ {β : Type} (f : MPA R × List ℕ × List ℕ → List β),
      (List.replicate (n / D.length) (x, O, D) ++ ql).flatMap f = (List.replicate (n / D.length) (f (x, O, D))).flatten ++ ql.flatMap f := by
    intro β f
    rw [List.flatMap_append]
    congr 1
    rw [List.flatMap_def, List.map_replicate]
  rw [hfm] at c2
  rw [hfm, hfm] at c5
  simp only [a4] at c2
  simp only [a5, a6] at c5
  have e1 := cyclic_eq x.lt hx.valid.ne ⟨[], fun _ => 0⟩ n
  have e2 := cyclic_eq O hOn 0 n
  have e3 := cyclic_eq D hDn 0 n
  rw [hlx] at e1
  rw [hx.len] at e2
  refine ⟨z, ?_, ?_, ?_, ?_, ?_⟩
  · unfold povmRepeat
    simp only [show x.len = D.length from hlx]
    rw [a1, ok_bind, ← a2, ← c1, List.map_append, List.map_replicate]
  · show z.lt.length = n
    rw [c2, e1]
    simp [cyclic]
  · rw [c2, e1]
  · rwa [e2, e3] at c5
  · intro Ys Is Js Y' I' J' l1 l2 l3 hY hI hJ
    unfold MPA.elem MPA.val
    rw [c2, ← l1]
    exact entry_replicate hx (by omega) (by omega) (fun Y h => (inB_length (hY Y h)).trans hx.len) (fun Y h => inB_length (hI Y h))
      (fun Y h => inB_length (hJ Y h))

omit [StarRing R] in
/-- C43: `repeat` rejects a cut where the MP-POVM does not factorize, and the empty chain. -/
theorem C43_repeat_reject (x : MPA R) (n : ℕ) :
    (0 < n % x.len → x.ranks.getD (n % x.len - 1) 0 ≠ 1 → povmRepeat x n = .error .assertion) ∧
    (0 < x.len → povmRepeat x 0 = .error .value) := by
  constructor
  · intro h1 h2
    unfold povmRepeat pyAssert
    simp only
    rw [if_pos h1, if_neg h2]
    rfl
  · intro h
    unfold povmRepeat
    simp [ok_bind, chainPovm, chain]

/-! ### lists of MP-POVMs -/

omit [CommRing R] [StarRing R] in
theorem foldl_min_const {l : List ℕ} {m : ℕ} (h : ∀ a ∈ l, a = m) : l.foldl min m = m := by
  induction l with
  | nil => rfl
  | cons a l ih =>
    rw [List.foldl_cons, h a (by simp), min_self]
    exact ih fun b hb => h b (by simp [hb])

omit [CommRing R] [StarRing R] in
theorem interleave_forall₂ {α β γ : Type} {P : ℕ → β → γ → Prop} {m : ℕ} {qs : List β} {bs : List (List γ)}
    (h : List.Forall₂ (fun q b => List.Forall₂ (fun s z => P s q z) (List.range m) b) qs bs) :
    List.Forall₂ (fun p z => P p.1 p.2 z) ((List.range m).flatMap fun s => qs.map fun q => (s, q)) (interleave bs) := by
  cases h with
  | nil => simp [interleave]
  | @cons q b qs bs h1 h2 =>
    have hl : ∀ c ∈ b :: bs, c.length = m := by
      intro c hc
      obtain ⟨i, hi, rfl⟩ := List.getElem_of_mem hc
      have hf := List.Forall₂.cons (R := fun q b => List.Forall₂ (fun s z => P s q z) (List.range m) b) h1 h2
      have hlen := hf.length_eq
      have := ((List.forall₂_iff_get.1 hf).2 i (by omega) hi).length_eq
      simpa using this.symm
    have hn : (bs.map List.length).foldl min b.length = m := by
      rw [hl b (by simp)]
      exact foldl_min_const (by
        intro a ha
        obtain ⟨c, hc, rfl⟩ := List.mem_map.1 ha
        exact hl c (by simp [hc]))
    unfold interleave
    simp only [hn]
    have hf := List.Forall₂.cons (R := fun q b => List.Forall₂ (fun s z => P s q z) (List.range m) b) h1 h2
    clear h1 h2 hn
    generalize q :: qs = qs at hf
    generalize b :: bs = bs at hf hl
    have key : ∀ s < m, List.Forall₂ (fun p z => P p.1 p.2 z) (qs.map fun q => (s, q)) (bs.flatMap fun c => (c.drop s).take 1) := by
      intro s hs
      induction hf with
      | nil => simp
      | @cons q b qs bs h1 h2 ih =>
        have hb := hl b (by simp)
        rw [List.map_cons, List.flatMap_cons, List.take_one_drop_eq_of_lt_length (by omega)]
        refine .cons ?_ (ih fun c hc => hl c (by simp [hc]))
        have := (List.forall₂_iff_get.1 h1).2 s (by simpa using hs) (by omega)
        simpa using this
    have : ∀ l : List ℕ, (∀ s ∈ l, s < m) → List.Forall₂ (fun p z => P p.1 p.2 z) (l.flatMap fun s => qs.map fun q => (s, q))
        (l.flatMap fun i => bs.flatMap fun c => (c.drop i).take 1) := by
      intro l
      induction l with
      | nil => simp
      | cons s l ih =>
        intro h
        rw [List.flatMap_cons, List.flatMap_cons]
        exact List.rel_append (key s (h s (by simp))) (ih fun s hs => h s (by simp [hs]))
    exact this _ (by simp)

omit [CommRing R] [StarRing R] in
theorem mapM_forall₂ {α β : Type} {f : α → Py β} {P : α → β → Prop} : ∀ {l : List α} (_ : ∀ a ∈ l, ∃ b, f a = .ok b ∧ P a b),
    ∃ bs, l.mapM f = .ok bs ∧ List.Forall₂ P l bs
  | [], _ => ⟨[], rfl, .nil⟩
  | a :: l, h => by
    obtain ⟨b, h1, h2⟩ := h a (by simp)
    obtain ⟨bs, h3, h4⟩ := mapM_forall₂ (l := l) fun a ha => h a (by simp [ha])
    exact ⟨b :: bs, by rw [List.mapM_cons, h1, ok_bind, h3]; rfl, .cons h2 h4⟩

/-- C43: `block` of a list of MP-POVMs: for every position from left to right, all embedded MP-POVMs in the order
of the list. -/
theorem C43_list_block (qs : List (MPA R × List ℕ)) (k d n : ℕ) (hq : ∀ q ∈ qs, IsMpPovm q.1 q.2 (List.replicate k d)) :
    ∃ zs, povmListBlock (qs.map Prod.fst) n = .ok zs ∧
      List.Forall₂ (fun p z => Embedded p.2.1 p.2.2 (List.replicate k d) (List.replicate p.1 d) (List.replicate (n - p.1 - k) d) z)
        ((List.range (n + 1 - k)).flatMap fun s => qs.map fun q => (s, q)) zs := by
  obtain ⟨bs, h1, h2⟩ := mapM_forall₂ (l := qs) (f := fun q => povmBlock q.1 n) fun q h => C43_block q.1 q.2 k d n (hq q h)
  have h3 := interleave_forall₂ (α := Unit) (P := fun s (q : MPA R × List ℕ) z =>
    Embedded q.1 q.2 (List.replicate k d) (List.replicate s d) (List.replicate (n - s - k) d) z) h2
  refine ⟨interleave bs, ?_, h3⟩
  have hlen : ∀ z ∈ interleave bs, z.len = n := by
    intro z hz
    obtain ⟨i, hi, rfl⟩ := List.getElem_of_mem hz
    have hl := h3.length_eq
    have := (List.forall₂_iff_get.1 h3).2 i (by omega) hi
    have hmem := List.get_mem ((List.range (n + 1 - k)).flatMap fun s => qs.map fun q => (s, q)) ⟨i, by omega⟩
    generalize ((List.range (n + 1 - k)).flatMap fun s => qs.map fun q => (s, q)).get ⟨i, by omega⟩ = p at this hmem
    obtain ⟨s, hs, hp⟩ := List.mem_flatMap.1 hmem
    obtain ⟨q, hqm, rfl⟩ := List.mem_map.1 hp
    have hl := this.povm.lenx
    have hs := List.mem_range.1 hs
    show (interleave bs)[i].lt.length = n
    simp only [List.get_eq_getElem] at hl
    rw [hl]
    simp
    omega
  unfold povmListBlock
  rw [show (qs.map Prod.fst).mapM (fun x => povmBlock x (n : ℤ)) = .ok bs by
    rw [List.mapM_map]; exact h1, ok_bind]
  unfold mkPovmList
  rw [pyAssert_true]
  · rfl
  · intro x hx y hy
    rw [hlen x hx, hlen y (List.mem_of_mem_head? hy)]

/-- C43: `repeat` of a list of MP-POVMs repeats every one of them. -/
theorem C43_list_repeat (qs : List (MPA R × List ℕ × List ℕ)) (n : ℕ) (hn : 0 < n) (hq : ∀ q ∈ qs, IsMpPovm q.1 q.2.1 q.2.2)
    (hcut : ∀ q ∈ qs, n % q.2.2.length = 0 ∨ q.1.ranks.getD (n % q.2.2.length - 1) 0 = 1) :
    ∃ zs, povmListRepeat (qs.map Prod.fst) n = .ok zs ∧
      List.Forall₂ (fun q z => povmRepeat q.1 n = .ok z ∧ z.len = n ∧ IsMpPovm z (cyclic q.2.1 n 0) (cyclic q.2.2 n 0)) qs zs := by
  obtain ⟨zs, h1, h2⟩ := mapM_forall₂ (l := qs) (f := fun q => povmRepeat q.1 n)
    (P := fun q z => povmRepeat q.1 n = .ok z ∧ z.len = n ∧ IsMpPovm z (cyclic q.2.1 n 0) (cyclic q.2.2 n 0)) fun q h => by
      obtain ⟨z, g1, g2, _, g3, _⟩ := C43_repeat q.1 _ _ (hq q h) n hn (hcut q h)
      exact ⟨z, g1, g1, g2, g3⟩
  refine ⟨zs, ?_, h2⟩
  have hlen : ∀ z ∈ zs, z.len = n := by
    intro z hz
    obtain ⟨i, hi, rfl⟩ := List.getElem_of_mem hz
    have hl := h2.length_eq
    exact ((List.forall₂_iff_get.1 h2).2 i (by omega) hi).2.1
  unfold povmListRepeat
  rw [show (qs.map Prod.fst).mapM (fun x => povmRepeat x n) = .ok zs by
    rw [List.mapM_map]; exact h1, ok_bind]
  unfold mkPovmList
  rw [pyAssert_true]
  · rfl
  · intro x hx y hy
    rw [hlen x hx, hlen y (List.mem_of_mem_head? hy)]

end

/-- The measurement of the first of two sites, on sites 1 and 2 of four sites: site 1 is measured. -/
example : ∃ z, povmEmbed exPovm 4 1 (.list [3, 2, 1, 3]) = .ok z ∧ IsMpPovm z [1, 2, 1, 1] [3, 2, 1, 3] ∧
    z.elem [0, 1, 0, 0] [2, 1, 0, 1] [2, 1, 0, 1] = 1 ∧ z.elem [0, 1, 0, 0] [2, 1, 0, 1] [2, 1, 0, 2] = 0 := by
  obtain ⟨z, h1, h2, h3⟩ := C43_embed exPovm _ _ exPovm_isMpPovm 1 [3, 2, 1, 3] (.list [3, 2, 1, 3]) (.inl rfl) (by simp)
  refine ⟨z, h1, h2, ?_, ?_⟩
  · have := h3 [1, 0] (by simp) [1, 0] [1, 0] (by simp) (by simp) [2] [2] (by simp) (by simp) [1] [1] (by simp) (by simp)
    simpa [exPovm_elem] using this
  · have := h3 [1, 0] (by simp) [1, 0] [1, 0] (by simp) (by simp) [2] [2] (by simp) (by simp) [1] [2] (by simp) (by simp)
    simpa [exPovm_elem] using this

example : ∃ z, povmRepeat exPovm 5 = .ok z ∧ IsMpPovm z [2, 1, 2, 1, 2] [2, 1, 2, 1, 2] := by
  obtain ⟨z, h1, _, _, h2, _⟩ := C43_repeat exPovm _ _ exPovm_isMpPovm 5 (by omega) (.inr rfl)
  exact ⟨z, h1, h2⟩

/-- Two MP-POVMs with the same tensor, which factorizes. -/
noncomputable def exGauge (c : ℂ) : MPA ℂ :=
  ⟨[⟨[1, 1, 1, 1, 1], fun _ => c⟩, ⟨[1, 1, 1, 1, 1], fun _ => c⁻¹⟩], 0, 2⟩

theorem exGauge_povm (c : ℂ) : IsMpPovm (exGauge c) [1, 1] [1, 1] :=
  ⟨⟨by simp [exGauge], by simp [exGauge, NDArray.IsLocal, NDArray.ndim, NDArray.lb, NDArray.rb], by simp [exGauge], by simp [exGauge],
    by simp [exGauge, MPA.len]⟩, rfl, rfl, by simp⟩

theorem exGauge_elem (c : ℂ) (hc : c ≠ 0) (y i j y' i' j' : ℕ) : (exGauge c).elem [y, y'] [i, i'] [j, j'] = 1 := by
  simp [MPA.elem, MPA.val, entry, exGauge, triples, pairs, mp, NDArray.at3, NDArray.rb, hc]

/-- C43 (finding): if the last copy is cut, the result of `repeat` depends on how the factors of the tensor are
scaled: two representations of the same MP-POVM are repeated to different tensors, one of which is not a POVM. -/
theorem C43_repeat_gauge :
    (∀ Y I J, InB Y [1, 1] → InB I [1, 1] → InB J [1, 1] → (exGauge 1).elem Y I J = (exGauge 2).elem Y I J) ∧
    ∃ z z', povmRepeat (exGauge 1) 3 = .ok z ∧ povmRepeat (exGauge 2) 3 = .ok z' ∧
      z.elem [0, 0, 0] [0, 0, 0] [0, 0, 0] = 1 ∧ z'.elem [0, 0, 0] [0, 0, 0] [0, 0, 0] = 2 := by
  constructor
  · intro Y I J hY hI hJ
    obtain ⟨y, y', rfl, _, _⟩ := inB_pair hY
    obtain ⟨i, i', rfl, _, _⟩ := inB_pair hI
    obtain ⟨j, j', rfl, _, _⟩ := inB_pair hJ
    rw [exGauge_elem _ one_ne_zero, exGauge_elem _ two_ne_zero]
  · have key : ∀ c : ℂ, c ≠ 0 → ∃ z, povmRepeat (exGauge c) 3 = .ok z ∧ z.elem [0, 0, 0] [0, 0, 0] [0, 0, 0] = c := by
      intro c hc
      obtain ⟨z, h1, _, _, _, h2⟩ := C43_repeat (exGauge c) _ _ (exGauge_povm c) 3 (by omega) (.inr rfl)
      refine ⟨z, h1, ?_⟩
      have := h2 [[0, 0]] [[0, 0]] [[0, 0]] [0] [0] [0] rfl rfl rfl (by simp) (by simp) (by simp)
      simp only [List.flatten_cons, List.flatten_nil, List.append_nil, List.cons_append, List.nil_append] at this
      rw [this]
      simp only [List.zipWith3, exGauge_elem c hc, List.prod_cons, List.prod_nil, one_mul]
      simp [exGauge, entry, mp, triples, pairs, NDArray.at3, NDArray.rb]
    obtain ⟨z, h1, h2⟩ := key 1 one_ne_zero
    obtain ⟨z', h3, h4⟩ := key 2 two_ne_zero
    exact ⟨z, z', h1, h3, h2, h4⟩

end Mpnum
