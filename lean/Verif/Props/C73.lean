import Verif.DType
import Verif.Props.C01
import Verif.Props.C05
import Verif.Props.C06
import Verif.Props.C25

/-!
# C73: element types

With arrays that carry an element type (Verif/DType.lean): when the functions which combine local
tensors of several MPAs keep all values, and which element type the results have.
-/

namespace Mpnum

namespace DT

theorem canCast_antisymm {a b : DT} (h : a.canCast b = true) (h' : b.canCast a = true) : a = b := by
  revert h h'; cases a <;> cases b <;> decide

theorem promote_le {a b c : DT} (h : a.canCast c = true) (h' : b.canCast c = true) :
    (promote a b).canCast c = true := by
  revert h h'; cases a <;> cases b <;> cases c <;> decide

theorem promote_le_iff {a b c : DT} :
    (promote a b).canCast c = true ↔ a.canCast c = true ∧ b.canCast c = true :=
  ⟨fun h => ⟨canCast_trans (canCast_left a b) h, canCast_trans (canCast_right a b) h⟩,
    fun h => promote_le h.1 h.2⟩

theorem foldl_le_iff (ds : List DT) (d D : DT) :
    (ds.foldl promote d).canCast D = true ↔ d.canCast D = true ∧ ∀ e ∈ ds, e.canCast D = true := by
  induction ds generalizing d with
  | nil => simp
  | cons a ds ih => rw [List.foldl_cons, ih, promote_le_iff]; simp [and_assoc]

/-- The type of a combination of arrays is the smallest one to which all of them can be cast. -/
theorem resultType_le_iff {ds : List DT} (h : ds ≠ []) (D : DT) :
    (resultType ds).canCast D = true ↔ ∀ e ∈ ds, e.canCast D = true := by
  cases ds with
  | nil => exact absurd rfl h
  | cons d ds => rw [resultType, foldl_le_iff]; simp

theorem pyMax_mem {ds : List DT} {m : DT} (h : pyMax ds = .ok m) : m ∈ ds := by
  cases ds with
  | nil => cases h
  | cons d ds =>
    have : ∀ (l : List DT) (d : DT), l.foldl (fun m e => if e.gt m then e else m) d ∈ d :: l := by
      intro l
      induction l with
      | nil => simp
      | cons a l ih =>
        intro d
        rw [List.foldl_cons]
        split
        · exact List.mem_cons_of_mem _ (ih a)
        · rcases List.mem_cons.1 (ih d) with h' | h'
          · rw [h']; simp
          · simp [h']
    cases h
    exact this ds d

end DT

theorem tLocalAdd_dt {ts : List TArr} (hc : DT.Compat (ts.map TArr.dt)) {c : TArr}
    (h : tLocalAdd ts = .ok c) (D : DT) :
    c.dt.canCast D = true ↔ ∀ t ∈ ts, t.dt.canCast D = true := by
  cases ts with
  | nil => cases h
  | cons t ts =>
    obtain ⟨m, hm, hk⟩ := DT.pyMax_ok hc (by simp)
    rw [tLocalAdd, hm, ok_bind] at h
    · obtain ⟨_, _, h⟩ := bind_ok_inv h
      cases h
      constructor
      · exact fun h u hu => DT.canCast_trans (hk _ (List.mem_map_of_mem hu)) h
      · intro h
        obtain ⟨u, hu, e⟩ := List.mem_map.1 (DT.pyMax_mem hm)
        have := h u hu
        rw [e] at this; exact this
    · simp

theorem tNexts_mem_iff : ∀ {its : List (List TArr)} {hs : List TArr}, tNexts its = .ok hs →
    ∀ P : TArr → Prop, (∀ it ∈ its, ∀ t ∈ it, P t) ↔
      (∀ t ∈ hs, P t) ∧ ∀ it ∈ its.map List.tail, ∀ t ∈ it, P t
  | [], hs, h, P => by
    simp only [tNexts, List.mapM_nil] at h; cases h; simp
  | it :: its, hs, h, P => by
    rw [tNexts, List.mapM_cons] at h
    obtain ⟨u, h1, h2⟩ := bind_ok_inv h
    obtain ⟨vs, h3, h4⟩ := bind_ok_inv h2
    cases h4
    have ih := tNexts_mem_iff (its := its) h3 P
    cases it with
    | nil => cases h1
    | cons a it =>
      cases h1
      simp only [List.mem_cons, List.map_cons, forall_eq_or_imp, List.tail_cons] at ih ⊢
      rw [ih]; tauto

theorem tSumRest_dt (D : DT) (es : List DT) (hc : DT.Compat es) : ∀ (n : ℕ) (its : List (List TArr))
    (cs : List TArr), (∀ it ∈ its, it.length = n) → (∀ it ∈ its, ∀ t ∈ it, t.dt ∈ es) →
    tSumRest n its = .ok cs →
    ((∀ c ∈ cs, c.dt.canCast D = true) ↔ ∀ it ∈ its, ∀ t ∈ it, t.dt.canCast D = true)
  | 0, its, cs, hl, _, h => by
    rw [tSumRest] at h; cases h
    constructor
    · intro _ it hi t ht
      rw [List.length_eq_zero_iff.1 (hl it hi)] at ht
      cases ht
    · simp
  | 1, its, cs, hl, he, h => by
    rw [tSumRest] at h
    obtain ⟨hs, h1, h⟩ := bind_ok_inv h
    obtain ⟨c, h2, h⟩ := bind_ok_inv h
    cases h
    rw [tNexts_mem_iff h1]
    have hne : hs.map TArr.dt ≠ [] := by
      intro h
      rw [List.map_eq_nil_iff.1 h] at h2
      cases h2
    simp only [List.mem_singleton, forall_eq]
    rw [tConcatenate_dt h2, DT.resultType_le_iff hne]
    simp only [List.mem_map, forall_exists_index, and_imp, forall_apply_eq_imp_iff₂]
    refine ⟨fun h => ⟨h, ?_⟩, fun h => h.1⟩
    intro it hi t ht
    have := hl it hi
    have : it.tail.length = 0 := by rw [List.length_tail]; omega
    rw [List.length_eq_zero_iff.1 this] at ht
    cases ht
  | n + 2, its, cs, hl, he, h => by
    rw [tSumRest] at h
    obtain ⟨hs, h1, h⟩ := bind_ok_inv h
    obtain ⟨c, h2, h⟩ := bind_ok_inv h
    obtain ⟨cs', h3, h⟩ := bind_ok_inv h
    cases h
    rw [tNexts_mem_iff h1]
    have hc' : DT.Compat (hs.map TArr.dt) := hc.mono (by
      intro d hd
      obtain ⟨t, ht, rfl⟩ := List.mem_map.1 hd
      obtain ⟨it, hi, hj⟩ := tNexts_mem h1 t ht
      exact he it hi t hj)
    simp only [List.mem_cons, forall_eq_or_imp]
    rw [tLocalAdd_dt hc' h2, tSumRest_dt D es hc (n + 1) (its.map List.tail) cs' ?_ ?_ h3]
    · intro it hi
      obtain ⟨it', hi', rfl⟩ := List.mem_map.1 hi
      rw [List.length_tail, hl it' hi']; rfl
    · intro it hi t ht
      obtain ⟨it', hi', rfl⟩ := List.mem_map.1 hi
      exact he it' hi' t (List.mem_of_mem_tail ht)

theorem tPySum_dt {ts : List TArr} {c : TArr} (h : tPySum ts = .ok c) (D : DT) :
    c.dt.canCast D = true ↔ ∀ t ∈ ts, t.dt.canCast D = true := by
  cases ts with
  | nil => cases h
  | cons t ts =>
    simp only [tPySum] at h
    induction ts generalizing t with
    | nil => cases h; simp
    | cons u ts ih =>
      rw [List.foldlM_cons] at h
      obtain ⟨s, h1, h⟩ := bind_ok_inv h
      rw [TArr.add] at h1
      obtain ⟨_, _, h1⟩ := bind_ok_inv h1
      cases h1
      have := ih _ h
      simp only [List.mem_cons, forall_eq_or_imp, TArr.store, DT.promote_le_iff] at this ⊢
      rw [this, and_assoc]

theorem tmk_lt {ts : List TArr} {z : TMPA} (h : TMPA.mk' ts = .ok z) : z.lt = ts := by
  rw [TMPA.mk', TMPA.mkLT] at h
  obtain ⟨_, _, h⟩ := bind_ok_inv h
  cases h; rfl

/-- Element types of a sum. -/
theorem tadd_dts {x y z : TMPA} (hc : DT.Compat (x.dts ++ y.dts)) (h : x.add y = .ok z) (D : DT) :
    (∀ d ∈ z.dts, d.canCast D = true) ↔
      (∀ d ∈ x.dts, d.canCast D = true) ∧ ∀ d ∈ y.dts, d.canCast D = true := by
  have hd : ∀ w : TMPA, (∀ d ∈ w.dts, d.canCast D = true) ↔ ∀ t ∈ w.lt, t.dt.canCast D = true := by
    intro w; simp [TMPA.dts]
  rw [hd, hd, hd]
  rw [TMPA.add] at h
  obtain ⟨_, hlen, h⟩ := bind_ok_inv h
  have hlen : x.lt.length = y.lt.length := by
    by_contra hn; rw [pyAssert_false hn] at hlen; cases hlen
  have hxy : (∀ it ∈ [x.lt, y.lt], ∀ t ∈ it, t.dt.canCast D = true) ↔
      (∀ t ∈ x.lt, t.dt.canCast D = true) ∧ ∀ t ∈ y.lt, t.dt.canCast D = true := by simp
  rw [← hxy]
  split at h
  · rename_i h1
    obtain ⟨hs, h2, h⟩ := bind_ok_inv h
    obtain ⟨s, h3, h⟩ := bind_ok_inv h
    rw [tmk_lt h, tNexts_mem_iff h2]
    simp only [List.mem_singleton, forall_eq]
    rw [tPySum_dt h3]
    refine ⟨fun h => ⟨h, ?_⟩, fun h => h.1⟩
    intro it hi t ht
    obtain ⟨it', hi', rfl⟩ := List.mem_map.1 hi
    have hl : it'.length = 1 := by
      simp only [List.mem_cons, List.not_mem_nil, or_false] at hi'
      rcases hi' with rfl | rfl <;> omega
    have : it'.tail.length = 0 := by rw [List.length_tail]; omega
    rw [List.length_eq_zero_iff.1 this] at ht
    cases ht
  · obtain ⟨hs, h2, h⟩ := bind_ok_inv h
    obtain ⟨c, h3, h⟩ := bind_ok_inv h
    obtain ⟨cs, h4, h⟩ := bind_ok_inv h
    rw [tmk_lt h, tNexts_mem_iff h2]
    have hne : hs.map TArr.dt ≠ [] := by
      intro h
      rw [List.map_eq_nil_iff.1 h] at h3
      cases h3
    have hm : ∀ it ∈ [x.lt.tail, y.lt.tail], ∀ t ∈ it, t.dt ∈ x.dts ++ y.dts := by
      intro it hi t ht
      simp only [TMPA.dts, List.mem_append, List.mem_map]
      simp only [List.mem_cons, List.not_mem_nil, or_false] at hi
      rcases hi with rfl | rfl
      · exact Or.inl ⟨t, List.mem_of_mem_tail ht, rfl⟩
      · exact Or.inr ⟨t, List.mem_of_mem_tail ht, rfl⟩
    simp only [List.mem_cons, forall_eq_or_imp]
    rw [tConcatenate_dt h3, DT.resultType_le_iff hne,
      tSumRest_dt D _ hc (x.lt.length - 1) [x.lt.tail, y.lt.tail] cs (by simp [hlen]) hm h4]
    simp

/-- Values and element type of `to_array`. -/
theorem ttoArray_spec (x : TMPA) : x.toArray.map TArr.arr = x.erase.toArray := by
  rw [TMPA.toArray, MPA.toArray]
  refine map_bind_congr (g := TArr.arr) ?_ fun a _ => ?_
  · show _ = ltensToArray (x.lt.map TArr.arr)
    cases x.lt with
    | nil => rfl
    | cons t ts => exact foldlM_arr tMatdot_arr ts t
  · refine map_store fun c hc => ?_
    rw [NDArray.dropBonds] at hc
    split at hc
    · cases hc; exact fun i => a.has _
    · cases hc

theorem ttoArray_dt {x : TMPA} {A : TArr} (h : x.toArray = .ok A) : A.dt = DT.resultType x.dts := by
  rw [TMPA.toArray] at h
  obtain ⟨a, h1, h⟩ := bind_ok_inv h
  obtain ⟨b, _, h⟩ := bind_ok_inv h
  cases h
  show a.dt = _
  rw [TMPA.dts]
  cases hx : x.lt with
  | nil => rw [hx] at h1; cases h1
  | cons t ts =>
    rw [hx] at h1
    simp only [tLtensToArray] at h1
    simp only [List.map_cons, DT.resultType]
    clear hx
    induction ts generalizing t with
    | nil => cases h1; rfl
    | cons u ts ih =>
      rw [List.foldlM_cons] at h1
      obtain ⟨s, h2, h1⟩ := bind_ok_inv h1
      rw [tMatdot] at h2
      obtain ⟨_, _, h2⟩ := bind_ok_inv h2
      cases h2
      exact ih _ h1

theorem map_eq_ok {α β : Type} {m : Py α} {f : α → β} {b : β} (h : m.map f = .ok b) :
    ∃ a, m = .ok a ∧ f a = b := by
  cases m with
  | error e => cases h
  | ok a => exact ⟨a, rfl, by cases h; rfl⟩

/-- C73: `to_array` of an MPA with any mixture of element types: all entries are exact, and the
element type is the smallest one to which all local tensors can be cast. -/
theorem C73_to_array (x : TMPA) (hx : x.erase.Valid) :
    ∃ A, x.toArray = .ok A ∧ A.arr.shape = x.erase.shape.flatten ∧
      (∀ idx, IdxOK idx x.erase.shape → A.arr.get idx.flatten = x.erase.val idx) ∧
      ∀ D : DT, A.dt.canCast D = true ↔ ∀ t ∈ x.lt, t.dt.canCast D = true := by
  obtain ⟨B, hB, h1, h2⟩ := C01_to_array x.erase hx
  obtain ⟨A, hA, rfl⟩ := map_eq_ok ((ttoArray_spec x).trans hB)
  refine ⟨A, hA, h1, h2, fun D => ?_⟩
  have hne : x.dts ≠ [] := by
    intro h
    exact hx.ne (by simp [TMPA.erase, List.map_eq_nil_iff.1 h])
  rw [ttoArray_dt hA, DT.resultType_le_iff hne]
  simp [TMPA.dts]

/-- C73: `mpa.dtype` is the element type of `mpa.to_array()` unless all local tensors hold integers;
then it is `float64`, while the array has integers. -/
theorem C73_dtype (x : TMPA) (A : TArr) (hA : x.toArray = .ok A) :
    ((∃ t ∈ x.lt, t.dt ≠ .i64) → x.dtype = A.dt) ∧
    ((∀ t ∈ x.lt, t.dt = .i64) → x.dtype = .f64 ∧ A.dt = .i64) := by
  have hd := ttoArray_dt hA
  have hne : x.dts ≠ [] := by
    intro h
    rw [TMPA.toArray, List.map_eq_nil_iff.1 h] at hA
    cases hA
  rw [hd, TMPA.dtype, DT.commonType]
  have hne' : (x.dts.map fun d => if d = .i64 then DT.f64 else d) ≠ [] := by simpa using hne
  constructor
  · rintro ⟨t, ht, hti⟩
    have htm : t.dt ∈ x.dts := List.mem_map_of_mem ht
    have hub : ∀ D : DT, t.dt.canCast D = true →
        ((∀ e ∈ (x.dts.map fun d => if d = .i64 then DT.f64 else d), e.canCast D = true)
          ↔ ∀ e ∈ x.dts, e.canCast D = true) := by
      intro D htD
      simp only [List.mem_map, forall_exists_index, and_imp, forall_apply_eq_imp_iff₂]
      refine forall₂_congr fun e _ => ?_
      by_cases he : e = .i64
      · subst he
        simp only [if_true]
        revert htD hti
        generalize t.dt = d
        cases d <;> cases D <;> decide
      · rw [if_neg he]
    apply DT.canCast_antisymm
    · rw [DT.resultType_le_iff hne', hub _ (DT.canCast_resultType htm)]
      exact fun e he => DT.canCast_resultType he
    · rw [DT.resultType_le_iff hne, ← hub]
      · exact fun e he => DT.canCast_resultType he
      · refine DT.canCast_resultType ?_
        exact List.mem_map.2 ⟨t.dt, htm, by rw [if_neg hti]⟩
  · intro h
    have hall : ∀ d ∈ x.dts, d = .i64 := by
      intro d hd
      obtain ⟨t, ht, rfl⟩ := List.mem_map.1 hd
      exact h t ht
    obtain ⟨d, hd⟩ := List.exists_mem_of_ne_nil _ hne
    have hdi := hall d hd
    subst hdi
    constructor
    · apply DT.canCast_antisymm
      · rw [DT.resultType_le_iff hne']
        intro e he
        obtain ⟨e', he', rfl⟩ := List.mem_map.1 he
        rw [hall e' he']; rfl
      · exact DT.canCast_resultType (List.mem_map.2 ⟨_, hd, rfl⟩)
    · apply DT.canCast_antisymm
      · rw [DT.resultType_le_iff hne]
        intro e he
        rw [hall e he]; rfl
      · exact DT.canCast_resultType hd

/-- C73: the sum of two MPAs whose element types can all be compared (one of any two can be cast safely
to the other) is exact: every entry of the dense sum is the sum of the entries, and its element
type is numpy's type for the sum of the two arrays. -/
theorem C73_add (x y : TMPA) (hx : x.erase.Valid) (hy : y.erase.Valid)
    (hs : x.erase.shape = y.erase.shape) (hc : DT.Compat (x.dts ++ y.dts)) :
    ∃ z A B C, x.add y = .ok z ∧ x.toArray = .ok A ∧ y.toArray = .ok B ∧ z.toArray = .ok C ∧
      C.arr.shape = A.arr.shape ∧ C.dt = DT.promote A.dt B.dt ∧
      ∀ i, InB i A.arr.shape → C.arr.get i = A.arr.get i + B.arr.get i := by
  obtain ⟨z', hz', hzv, hzs, hzval, _⟩ := C05_add x.erase y.erase hx hy hs
  obtain ⟨z, hz, rfl⟩ := map_eq_ok ((tadd_erase x y hc).trans hz')
  obtain ⟨A, hA, hAs, hAg, hAd⟩ := C73_to_array x hx
  obtain ⟨B, hB, hBs, hBg, hBd⟩ := C73_to_array y hy
  obtain ⟨C, hC, hCs, hCg, hCd⟩ := C73_to_array z hzv
  refine ⟨z, A, B, C, hz, hA, hB, hC, by rw [hCs, hAs, hzs], ?_, ?_⟩
  · have key : ∀ D : DT, C.dt.canCast D = true ↔ (DT.promote A.dt B.dt).canCast D = true := by
      intro D
      rw [DT.promote_le_iff, hAd, hBd, hCd]
      have := tadd_dts hc hz D
      simpa [TMPA.dts] using this
    exact DT.canCast_antisymm ((key _).2 (DT.canCast_refl _)) ((key _).1 (DT.canCast_refl _))
  · intro i hi
    rw [hAs] at hi
    obtain ⟨idx, rfl, hidx⟩ := C01_all_entries x.erase i hi
    rw [hCg idx (by rw [hzs]; exact hidx), hAg idx hidx, hBg idx (hs ▸ hidx), hzval idx hidx]

/-- C73: the difference of two MPAs, as `C73_add`. -/
theorem C73_sub (x y : TMPA) (hx : x.erase.Valid) (hy : y.erase.Valid)
    (hs : x.erase.shape = y.erase.shape) (hc : DT.Compat (x.dts ++ y.dts)) :
    ∃ z A B C, x.sub y = .ok z ∧ x.toArray = .ok A ∧ y.toArray = .ok B ∧ z.toArray = .ok C ∧
      C.arr.shape = A.arr.shape ∧
      ∀ i, InB i A.arr.shape → C.arr.get i = A.arr.get i - B.arr.get i := by
  obtain ⟨z', hz', hzv, hzs, hzval, _⟩ := C05_sub x.erase y.erase hx hy hs
  obtain ⟨z, hz, rfl⟩ := map_eq_ok ((tsub_erase x y hc).trans hz')
  obtain ⟨A, hA, hAs, hAg, hAd⟩ := C73_to_array x hx
  obtain ⟨B, hB, hBs, hBg, hBd⟩ := C73_to_array y hy
  obtain ⟨C, hC, hCs, hCg, hCd⟩ := C73_to_array z hzv
  refine ⟨z, A, B, C, hz, hA, hB, hC, by rw [hCs, hAs, hzs], ?_⟩
  intro i hi
  rw [hAs] at hi
  obtain ⟨idx, rfl, hidx⟩ := C01_all_entries x.erase i hi
  rw [hCg idx (by rw [hzs]; exact hidx), hAg idx hidx, hBg idx (hs ▸ hidx), hzval idx hidx]

/-- C73: multiplication of an MPA of any element types by a Python number is exact. -/
theorem C73_mul (x : TMPA) (hx : x.erase.Valid) (c : PyNum) :
    ∃ z A C, x.mul c = .ok z ∧ x.toArray = .ok A ∧ z.toArray = .ok C ∧
      C.arr.shape = A.arr.shape ∧ ∀ i, InB i A.arr.shape → C.arr.get i = c.val * A.arr.get i := by
  obtain ⟨z', hz', hsp, _⟩ := C06_mul x.erase hx c.val
  obtain ⟨z, hz, rfl⟩ := map_eq_ok ((tmul_erase x c).trans hz')
  obtain ⟨A, hA, hAs, hAg, hAd⟩ := C73_to_array x hx
  obtain ⟨C, hC, hCs, hCg, hCd⟩ := C73_to_array z hsp.valid
  refine ⟨z, A, C, hz, hA, hC, by rw [hCs, hAs, hsp.shape], ?_⟩
  intro i hi
  rw [hAs] at hi
  obtain ⟨idx, rfl, hidx⟩ := C01_all_entries x.erase i hi
  rw [hCg idx (by rw [hsp.shape]; exact hidx), hAg idx hidx, hsp.val idx hidx]

/-- C73: `sumup` of MPAs whose element types can all be compared does the same as without element
types (C07), with or without weights, including errors. -/
theorem C73_sumup (xs : List TMPA) (w : Option (List PyNum))
    (hc : DT.Compat (xs.flatMap TMPA.dts)) :
    (tSumup xs w).map TMPA.erase = sumup (xs.map TMPA.erase) (w.map (List.map PyNum.val)) :=
  tsumup_erase xs w hc

/-- C73: `local_sum` without slices either raises `TypeError` or does the same as without element types
(C25), whatever the element types are: it never changes values silently. -/
theorem C73_local_sum (xs : List TMPA) (e : Option TArr) (n : Option ℕ) :
    tLocalSum xs e n none = .error .type ∨
      (tLocalSum xs e n none).map TMPA.erase
        = localSum (xs.map TMPA.erase) (e.map TArr.arr) n none := by
  exact tLocalSumIdentity_or xs e

/-- C73: `local_sum` does the same as without element types if all local tensors are of the same kind
(integer, real or complex) and the embedding tensor (by default a real identity) is of the same
or a lower kind. -/
theorem C73_local_sum_kind (xs : List TMPA) (e : Option TArr) (n : Option ℕ) (k : ℕ)
    (hk : ∀ x ∈ xs, ∀ t ∈ x.lt, t.dt.kind = k)
    (he : match e with
      | none => 1 ≤ k
      | some e => e.dt.kind ≤ k) :
    (tLocalSum xs e n none).map TMPA.erase
      = localSum (xs.map TMPA.erase) (e.map TArr.arr) n none :=
  tLocalSumIdentity_erase hk he

theorem tEmbedSlice_erase (n : ℕ) (sl : PySlice) (x : TMPA) (e : Option TArr) :
    (tEmbedSlice n sl x e).map TMPA.erase = embedSlice n sl x.erase (e.map TArr.arr) := by
  have hx : x.erase.len = x.lt.length := by simp [TMPA.erase, MPA.len]
  rw [tEmbedSlice, embedSlice, hx]
  refine map_bind_congr (g := id)
    (by cases sliceIndices sl.start sl.stop sl.step n <;> rfl) fun q _ => ?_
  obtain ⟨start, stop, step⟩ := q
  refine map_bind_congr (map_pyAssert Iff.rfl) fun _ _ => ?_
  refine map_bind_congr (map_pyAssert Iff.rfl) fun _ _ => ?_
  refine map_bind_congr (tEmbedLten_arr x e) fun el _ => ?_
  rw [tmk_erase]
  simp [TMPA.erase]

theorem tEmbedLten_dt {x : TMPA} {e : Option TArr} {el : TArr} (h : tEmbedLten x e = .ok el) :
    el.dt = (e.map TArr.dt).getD .f64 := by
  cases e with
  | some e => cases h; rfl
  | none =>
    simp only [tEmbedLten] at h
    split at h
    · cases h
    · split at h
      · cases h; rfl
      · cases h
    · cases h

theorem tEmbedSlice_dts {n : ℕ} {sl : PySlice} {x z : TMPA} {e : Option TArr}
    (h : tEmbedSlice n sl x e = .ok z) : ∀ d ∈ z.dts, d ∈ x.dts ∨ d = (e.map TArr.dt).getD .f64 := by
  rw [tEmbedSlice] at h
  obtain ⟨⟨start, stop, step⟩, _, h⟩ := bind_ok_inv h
  obtain ⟨_, _, h⟩ := bind_ok_inv h
  obtain ⟨_, _, h⟩ := bind_ok_inv h
  obtain ⟨el, hel, h⟩ := bind_ok_inv h
  intro d hd
  rw [TMPA.dts, tmk_lt h] at hd
  obtain ⟨t, ht, rfl⟩ := List.mem_map.1 hd
  rcases List.mem_append.1 ht with ht | ht
  · rcases List.mem_append.1 ht with ht | ht
    · rw [List.eq_of_mem_replicate ht]; exact Or.inr (tEmbedLten_dt hel)
    · exact Or.inl (List.mem_map_of_mem ht)
  · rw [List.eq_of_mem_replicate ht]; exact Or.inr (tEmbedLten_dt hel)

/-- C73: `local_sum` with any slices: if the element types of the terms and of the embedding tensor (by
default `float64`) can all be compared, it raises `TypeError` or does the same as without element
types. -/
theorem C73_local_sum_slices (xs : List TMPA) (e : Option TArr) (n : Option ℕ)
    (sl : Option (List PySlice))
    (hc : DT.Compat (xs.flatMap TMPA.dts ++ [(e.map TArr.dt).getD .f64])) :
    tLocalSum xs e n sl = .error .type ∨
      (tLocalSum xs e n sl).map TMPA.erase
        = localSum (xs.map TMPA.erase) (e.map TArr.arr) n sl := by
  rw [tLocalSum, localSum]
  cases localSumSlices n sl with
  | error er => exact Or.inr rfl
  | ok o =>
    cases o with
    | none => exact tLocalSumIdentity_or xs e
    | some q =>
      obtain ⟨m, sl'⟩ := q
      right
      simp only [ok_bind]
      have h1 := mapM_map_congr (f := fun q : TMPA × PySlice => tEmbedSlice m q.2 q.1 e)
        (f' := fun q : MPA ℂ × PySlice => embedSlice m q.2 q.1 (e.map TArr.arr))
        (g := fun q => (q.1.erase, q.2)) (k := TMPA.erase) (xs.zip sl')
        (fun q _ => tEmbedSlice_erase m q.2 q.1 e)
      have e1 : (xs.zip sl').map (fun q => (q.1.erase, q.2)) = (xs.map TMPA.erase).zip sl' := by
        rw [List.zip_map_left]; rfl
      rw [e1] at h1
      refine map_bind_congr h1 fun es hes => ?_
      refine tsumup_erase es none (hc.mono ?_)
      intro d hd
      obtain ⟨z, hz, hdz⟩ := List.mem_flatMap.1 hd
      obtain ⟨q, hq, hzq⟩ := mapM_ok_mem' hes z hz
      rcases tEmbedSlice_dts hzq d hdz with h | h
      · exact List.mem_append_left _
          (List.mem_flatMap.2 ⟨q.1, (List.of_mem_zip (a := q.1) (b := q.2) hq).1, h⟩)
      · exact List.mem_append_right _ (by simp [h])

/-! ### where values or whole calls are lost -/

/-- A local tensor with one entry. -/
noncomputable def oneEntry (d : DT) (v : ℂ) (h : d.Has v) : TArr :=
  ⟨d, ⟨[1, 1, 1], fun _ => v⟩, fun _ => h⟩

/-- Three sites with the entry one. -/
noncomputable def exOnes (d : DT) : TMPA :=
  let t := oneEntry d 1 (DT.Has.one d)
  ⟨[t, t, t], 0, 3⟩

/-- Three sites with the entries `1`, `i`, `1` in single precision. -/
noncomputable def exImag : TMPA :=
  let t := oneEntry .c64 1 rfl
  ⟨[t, oneEntry .c64 Complex.I rfl, t], 0, 3⟩

theorem exOnes_valid (d : DT) : (exOnes d).erase.Valid :=
  ⟨by simp [TMPA.erase, exOnes], by
      simp [TMPA.erase, exOnes, oneEntry, NDArray.IsLocal, NDArray.ndim, NDArray.lb, NDArray.rb],
    by simp [TMPA.erase, exOnes], by simp [TMPA.erase, exOnes], by simp [TMPA.erase, exOnes, MPA.len]⟩

theorem exImag_valid : exImag.erase.Valid :=
  ⟨by simp [TMPA.erase, exImag], by
      simp [TMPA.erase, exImag, oneEntry, NDArray.IsLocal, NDArray.ndim, NDArray.lb, NDArray.rb],
    by simp [TMPA.erase, exImag], by simp [TMPA.erase, exImag], by simp [TMPA.erase, exImag, MPA.len]⟩

/-- Without comparable element types the sum is wrong: adding an MPA of type `complex64` to one of type
`float64` discards the imaginary parts on the inner sites, without any error. -/
theorem C73_add_lossy : ∃ z A B C, (exOnes .f64).add exImag = .ok z ∧
    (exOnes .f64).toArray = .ok A ∧ exImag.toArray = .ok B ∧ z.toArray = .ok C ∧
    A.arr.get [0, 0, 0] + B.arr.get [0, 0, 0] = 1 + Complex.I ∧ C.arr.get [0, 0, 0] = 1 := by
  obtain ⟨z, hz, hv, hs, h1⟩ : ∃ z, (exOnes .f64).add exImag = .ok z ∧ z.erase.Valid ∧
      z.erase.shape = [[1], [1], [1]] ∧ z.erase.val [[0], [0], [0]] = 1 := by
    refine ⟨_, rfl, ⟨?_, ?_, ?_, ?_, ?_⟩, ?_, ?_⟩
    · simp [TMPA.erase]
    · simp [TMPA.erase, NDArray.IsLocal, NDArray.ndim, NDArray.lb, NDArray.rb, TArr.store,
        oneEntry, TArr.conv, NDArray.zeros, NDArray.ph]
    · simp [TMPA.erase]
    · simp [TMPA.erase]
    · simp [TMPA.erase, MPA.len]
    · rfl
    · simp [TMPA.erase, MPA.val, entry, mp, NDArray.at3, TArr.store, oneEntry, TArr.conv,
        NDArray.zeros, Finset.sum_range_succ, DT.cast, NDArray.concatGet, NDArray.ndim, NDArray.lb,
        NDArray.rb, NDArray.ph, DT.resultType, DT.promote, DT.gt, DT.canCast, bidx]
  obtain ⟨A, hA, _, hAg, _⟩ := C73_to_array (exOnes .f64) (exOnes_valid _)
  obtain ⟨B, hB, _, hBg, _⟩ := C73_to_array exImag exImag_valid
  obtain ⟨C, hC, _, hCg, _⟩ := C73_to_array z hv
  refine ⟨z, A, B, C, hz, hA, hB, hC, ?_, ?_⟩
  · rw [show ([0, 0, 0] : List ℕ) = [[0], [0], [0]].flatten from rfl, hAg _ ?_, hBg _ ?_]
    · simp [TMPA.erase, MPA.val, entry, mp, NDArray.at3, NDArray.rb, exOnes, exImag, oneEntry]
    · simp [TMPA.erase, MPA.shape, exImag, oneEntry, NDArray.ph, IdxOK, InB]
    · simp [TMPA.erase, MPA.shape, exOnes, oneEntry, NDArray.ph, IdxOK, InB]
  · rw [show ([0, 0, 0] : List ℕ) = [[0], [0], [0]].flatten from rfl, hCg _ ?_, h1]
    rw [hs]; simp [IdxOK, InB]

/-- The order of the terms matters for `local_sum`: a real term before a complex one raises
`TypeError`, the other order works. -/
theorem C73_local_sum_order (e : TArr) (he : e = ⟨.f64, ⟨[1], fun _ => 1⟩, fun _ => DT.Has.one _⟩) :
    tLocalSum [exOnes .f64, exOnes .c128] (some e) none none = .error .type ∧
    ∃ z, tLocalSum [exOnes .c128, exOnes .f64] (some e) none none = .ok z := by
  subst he
  exact ⟨rfl, _, rfl⟩

/-- Two sites with two legs each and integer entries. -/
noncomputable def exInt : TMPA :=
  let t : TArr := ⟨.i64, ⟨[1, 1, 1, 1], fun _ => 1⟩, fun _ => DT.Has.one _⟩
  ⟨[t, t], 0, 2⟩

/-- Terms with integer entries and the default embedding (a real identity): `local_sum` raises
`TypeError` for three terms, but works for two. -/
theorem C73_local_sum_int :
    tLocalSum [exInt, exInt, exInt] none none none = .error .type ∧
    ∃ z, tLocalSum [exInt, exInt] none none none = .ok z :=
  ⟨rfl, _, rfl⟩

/-- The hypotheses of the theorems are satisfied by MPAs of different types, with a result that has
values. -/
theorem C73_examples :
    DT.Compat ((exOnes .f32).dts ++ exImag.dts) ∧ DT.Compat ((exOnes .i64).dts ++ (exOnes .f64).dts) ∧
    (exOnes .f32).erase.Valid ∧ exImag.erase.Valid ∧ (exOnes .f32).erase.shape = exImag.erase.shape ∧
    ¬ DT.Compat ((exOnes .f64).dts ++ exImag.dts) ∧
    (∃ z, (exOnes .f32).add exImag = .ok z) ∧ (∀ x ∈ [exInt, exInt], ∀ t ∈ x.lt, t.dt.kind = 0) := by
  refine ⟨?_, ?_, exOnes_valid _, exImag_valid, rfl, ?_, ⟨_, rfl⟩, ?_⟩
  · intro a ha b hb
    simp only [exOnes, exImag, TMPA.dts, oneEntry, List.map_cons, List.map_nil, List.cons_append,
      List.nil_append, List.mem_cons, List.not_mem_nil, or_false, or_self] at ha hb
    rcases ha with rfl | rfl | rfl | rfl <;> rcases hb with rfl | rfl | rfl | rfl <;> decide
  · intro a ha b hb
    simp only [exOnes, TMPA.dts, oneEntry, List.map_cons, List.map_nil, List.cons_append,
      List.nil_append, List.mem_cons, List.not_mem_nil, or_false, or_self] at ha hb
    rcases ha with rfl | rfl | rfl | rfl <;> rcases hb with rfl | rfl | rfl | rfl <;> decide
  · intro h
    have := h .f64 (by simp [exOnes, TMPA.dts, oneEntry]) .c64 (by simp [exImag, TMPA.dts, oneEntry])
    revert this; decide
  · intro x hx t ht
    simp only [List.mem_cons, List.not_mem_nil, or_false, or_self] at hx
    subst hx
    simp only [exInt, List.mem_cons, List.not_mem_nil, or_false, or_self] at ht
    subst ht; rfl

end Mpnum
