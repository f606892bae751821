import Verif.MPArray.PartialDot
import Verif.MPArray.Pick

/-! # C24: partialdot -/

open Finset

namespace Mpnum

variable {R : Type}

theorem mp_window [CommSemiring R] {A B C Z : List (NDArray R)} {l r : ℕ} {K : List (List ℕ)}
    {c : List (List ℕ) → R} {φ : List (List ℕ) → List (List ℕ)} {i f j : List (List ℕ)}
    (hA : Chained 1 A l) (hB : Chained l B r) (hZ : Chained l Z r)
    (hi : i.length = A.length) (hf : f.length = Z.length)
    (hφ : ∀ k, IdxOK k K → (φ k).length = B.length)
    (h : ∀ a < l, ∀ b < r, mp Z f a b = sumSites K fun k => mp B (φ k) a b * c k) :
    entry (A ++ Z ++ C) (i ++ f ++ j)
      = sumSites K fun k => entry (A ++ B ++ C) (i ++ φ k ++ j) * c k := by
  unfold entry
  have e1 : ∀ (W : List (NDArray R)) (w : List (List ℕ)), Chained l W r → w.length = W.length →
      mp (A ++ W ++ C) (i ++ w ++ j) 0 0
        = ∑ a ∈ range l, ∑ b ∈ range r, mp A i 0 a * (mp W w a b * mp C j b 0) := by
    intro W w hW hw
    rw [List.append_assoc, List.append_assoc, mp_append hA hi one_pos]
    refine Finset.sum_congr rfl fun a ha => ?_
    rw [mp_append hW hw (Finset.mem_range.1 ha), Finset.mul_sum]
  rw [e1 Z f hZ hf]
  have e2 : ∀ a ∈ range l, ∀ b ∈ range r, mp A i 0 a * (mp Z f a b * mp C j b 0)
      = sumSites K fun k => mp A i 0 a * (mp B (φ k) a b * mp C j b 0) * c k := by
    intro a ha b hb
    rw [h a (Finset.mem_range.1 ha) b (Finset.mem_range.1 hb), sumSites_mul, mul_sumSites]
    refine sumSites_congr fun k _ => ?_
    ring
  rw [Finset.sum_congr rfl fun a ha => Finset.sum_congr rfl fun b hb => e2 a ha b hb]
  simp only [← sumSites_sum_comm]
  refine sumSites_congr fun k hk => ?_
  rw [e1 B (φ k) hB (hφ k hk), Finset.sum_mul]
  refine Finset.sum_congr rfl fun a _ => ?_
  rw [Finset.sum_mul]

theorem mergeIdx_length {axes : List ℤ} {S ks fs : List (List ℕ)} (hk : ks.length = S.length)
    (hf : fs.length = S.length) : (mergeIdx axes S ks fs).length = S.length := by
  unfold mergeIdx
  induction S generalizing ks fs with
  | nil => rfl
  | cons s S ih =>
    cases ks with
    | nil => simp at hk
    | cons k ks => cases fs with
      | nil => simp at hf
      | cons f fs =>
        simp only [List.zipWith3, List.length_cons]
        rw [ih (by simpa using hk) (by simpa using hf)]

theorem zipWith_ones_right {l : List ℕ} {n : ℕ} (h : l.length = n) :
    List.zipWith (· * ·) l (List.replicate n 1) = l := by
  subst h
  induction l with
  | nil => rfl
  | cons a l ih => simp [List.replicate_succ, ih]

theorem zipWith_ones_left {l : List ℕ} {n : ℕ} (h : l.length = n) :
    List.zipWith (· * ·) (List.replicate n 1) l = l := by
  subst h
  induction l with
  | nil => rfl
  | cons a l ih => simp [List.replicate_succ, ih]

theorem ranks_window {y : MPA R} (hy : y.Valid) (s n : ℕ) :
    List.replicate s 1 ++ y.ranks ++ List.replicate n 1
      = (List.replicate s 1 ++ y.lt.map NDArray.lb ++ List.replicate n 1).tail := by
  obtain ⟨t, ts, hts⟩ := List.exists_cons_of_ne_nil hy.ne
  have h1 := hy.chain
  rw [hts] at h1
  simp only [MPA.ranks, hts, List.tail_cons, List.map_cons, h1.2.1]
  cases s with
  | zero => rfl
  | succ s =>
    rw [show List.replicate (s + 1) 1 ++ ts.map NDArray.lb = List.replicate s 1 ++ 1 :: ts.map NDArray.lb by
      rw [List.replicate_succ']; simp]
    rfl

/-- C24, second factor shorter (or equally long): `partialdot(x, y, s, axes)` contracts the legs `axes`
of `y` and of the sites `s, …, s + len(y) - 1` of `x`.  The other sites of `x` keep their legs.  The
entries are the sums over all values of the contracted legs of the products of the entries. -/
theorem C24_second_shorter [CommSemiring R] (x y : MPA R) (hx : x.Valid) (hy : y.Valid) (s : ℕ)
    (axes : List ℤ × List ℤ) (hs : s + y.len ≤ x.len)
    (h : DotLegs ((x.shape.drop s).take y.len) y.shape axes) :
    ∃ z, partialdot x y (s : ℤ) axes = .ok z ∧ z.Valid ∧ z.l = 0 ∧ z.r = z.len ∧
      z.shape = x.shape.take s ++ List.zipWith (· ++ ·)
          (((x.shape.drop s).take y.len).map fun d => freeDims d (axesOf axes.1 d.length))
          (y.shape.map fun d => freeDims d (axesOf axes.2 d.length)) ++ x.shape.drop (s + y.len) ∧
      z.ranks = List.zipWith (· * ·) x.ranks
        (List.replicate s 1 ++ y.ranks ++ List.replicate (x.len - (s + y.len)) 1) ∧
      ∀ i f g j, IdxOK i (x.shape.take s) → IdxOK j (x.shape.drop (s + y.len)) →
        IdxOK f (((x.shape.drop s).take y.len).map fun d => freeDims d (axesOf axes.1 d.length)) →
        IdxOK g (y.shape.map fun d => freeDims d (axesOf axes.2 d.length)) →
        z.val (i ++ List.zipWith (· ++ ·) f g ++ j)
          = sumSites (((x.shape.drop s).take y.len).map fun d => conDims d (axesOf axes.1 d.length))
            fun k => x.val (i ++ mergeIdx axes.1 ((x.shape.drop s).take y.len) k f ++ j)
              * y.val (mergeIdx axes.2 y.shape k g) := by
  obtain ⟨hsp, hA, hB⟩ := window_split x.lt (s := s) (n := y.len) hs
  obtain ⟨A, hAe⟩ : ∃ A, A = x.lt.take s := ⟨_, rfl⟩
  obtain ⟨B, hBe⟩ : ∃ B, B = (x.lt.drop s).take y.len := ⟨_, rfl⟩
  obtain ⟨C, hCe⟩ : ∃ C, C = x.lt.drop (s + y.len) := ⟨_, rfl⟩
  have sA : x.shape.take s = A.map NDArray.ph := by rw [hAe, MPA.shape, List.map_take]
  have sB : (x.shape.drop s).take y.len = B.map NDArray.ph := by
    rw [hBe, MPA.shape, List.map_take, List.map_drop]
  have sC : x.shape.drop (s + y.len) = C.map NDArray.ph := by rw [hCe, MPA.shape, List.map_drop]
  rw [sA, sB, sC]
  rw [sB] at h
  rw [← hAe, ← hBe, ← hCe] at hsp
  rw [← hAe] at hA
  rw [← hBe] at hB
  have hch := hx.chain
  rw [hsp] at hch
  obtain ⟨r, hch, hC⟩ := chained_append.1 hch
  obtain ⟨l, hcA, hcB⟩ := chained_append.1 hch
  obtain ⟨Z, hZ, hZl, hcZ, hZs, hZb, hZv⟩ := dot_chain hcB hy.chain h
  rw [mul_one, mul_one] at hcZ
  have hcall : Chained 1 (A ++ Z ++ C) 1 :=
    chained_append.2 ⟨r, chained_append.2 ⟨l, hcA, hcZ⟩, hC⟩
  have hlx : x.len = s + y.len + C.length := by
    have := congrArg List.length hsp
    simp only [List.length_append, hA, hB] at this
    exact this
  have hne : A ++ Z ++ C ≠ [] := by
    intro h0
    have h1 := congrArg List.length h0
    simp only [List.length_append, hA, hZl, hB, List.length_nil] at h1
    have : 0 < x.len := List.length_pos_of_ne_nil hx.ne
    omega
  refine ⟨⟨A ++ Z ++ C, 0, _⟩, ?_, valid_mk hne hcall, rfl, rfl, ?_, ?_, ?_⟩
  · unfold partialdot
    simp only
    rw [if_neg (by omega)]
    have : zipM (dotOptR (axes.1.map adaptAxis, axes.2.map adaptAxis)) x.lt
        (padNone x.len (s : ℤ) y.lt) = .ok (A ++ Z ++ C) := by
      unfold padNone
      rw [hsp, Int.toNat_natCast]
      refine zipM_append (zipM_append (zipM_dotOptR_none hA.le) (by simp [hA]) ?_)
        (by simp only [List.length_append, hA, hB, List.length_replicate, List.length_map]; rfl) (zipM_dotOptR_none ?_)
      · rw [zipM_dotOptR_some]; exact hZ
      · omega
    rw [this, ok_bind, mkMPA_ok hne hcall]
  · show (A ++ Z ++ C).map NDArray.ph = _
    rw [List.map_append, List.map_append, hZs]; rfl
  · have e0 : C.length = x.len - (s + y.len) := by omega
    show ((A ++ Z ++ C).tail.map NDArray.lb) = List.zipWith _ (x.lt.tail.map NDArray.lb) _
    rw [List.map_tail, List.map_tail, hsp, ← e0, ranks_window hy, ← List.tail_zipWith]
    congr 1
    simp only [List.map_append]
    rw [List.zipWith_append (by simp [hA, hB]; rfl), List.zipWith_append (by simp [hA]), hZb,
      ← hA, zipWith_ones_right (by simp), zipWith_ones_right (by simp)]
  · intro i f g j hi hj hf hg
    show entry (A ++ Z ++ C) _ = _
    have hfl := idxOK_length hf
    have hgl := idxOK_length hg
    have hil := idxOK_length hi
    have hyl : y.lt.length = y.len := rfl
    simp only [List.length_map, MPA.shape] at hfl hgl hil
    have := mp_window (A := A) (B := B) (C := C) (Z := Z) (i := i) (j := j)
      (f := List.zipWith (· ++ ·) f g)
      (K := (B.map NDArray.ph).map fun d => conDims d (axesOf axes.1 d.length))
      (φ := fun k => mergeIdx axes.1 (B.map NDArray.ph) k f)
      (c := fun k => entry y.lt (mergeIdx axes.2 y.shape k g)) hcA hcB hcZ hil
      (by rw [List.length_zipWith, hfl, hgl, hZl]; omega) (by
        intro k hk
        have := idxOK_length hk
        simp only [List.length_map] at this
        rw [mergeIdx_length]
        · simp
        · simp only [List.length_map]; omega
        · simp only [List.length_map]; omega) (by
        intro a ha b hb
        have := hZv f g hf hg a ha 0 one_pos b hb 0 one_pos
        simp only [mul_one, add_zero] at this
        exact this)
    rw [this]
    refine sumSites_congr fun k _ => ?_
    rw [MPA.val, MPA.val, hsp]

/-- C24, first factor shorter: `partialdot(x, y, s, axes)` contracts `x` with the sites
`s, …, s + len(x) - 1` of `y`. -/
theorem C24_first_shorter [CommSemiring R] (x y : MPA R) (hx : x.Valid) (hy : y.Valid) (s : ℕ)
    (axes : List ℤ × List ℤ) (hlt : x.len < y.len) (hs : s + x.len ≤ y.len)
    (h : DotLegs x.shape ((y.shape.drop s).take x.len) axes) :
    ∃ z, partialdot x y (s : ℤ) axes = .ok z ∧ z.Valid ∧ z.l = 0 ∧ z.r = z.len ∧
      z.shape = y.shape.take s ++ List.zipWith (· ++ ·)
          (x.shape.map fun d => freeDims d (axesOf axes.1 d.length))
          (((y.shape.drop s).take x.len).map fun d => freeDims d (axesOf axes.2 d.length))
        ++ y.shape.drop (s + x.len) ∧
      z.ranks = List.zipWith (· * ·)
        (List.replicate s 1 ++ x.ranks ++ List.replicate (y.len - (s + x.len)) 1) y.ranks ∧
      ∀ i f g j, IdxOK i (y.shape.take s) → IdxOK j (y.shape.drop (s + x.len)) →
        IdxOK f (x.shape.map fun d => freeDims d (axesOf axes.1 d.length)) →
        IdxOK g (((y.shape.drop s).take x.len).map fun d => freeDims d (axesOf axes.2 d.length)) →
        z.val (i ++ List.zipWith (· ++ ·) f g ++ j)
          = sumSites (x.shape.map fun d => conDims d (axesOf axes.1 d.length))
            fun k => x.val (mergeIdx axes.1 x.shape k f)
              * y.val (i ++ mergeIdx axes.2 ((y.shape.drop s).take x.len) k g ++ j) := by
  obtain ⟨hsp, hA, hB⟩ := window_split y.lt (s := s) (n := x.len) hs
  obtain ⟨A, hAe⟩ : ∃ A, A = y.lt.take s := ⟨_, rfl⟩
  obtain ⟨B, hBe⟩ : ∃ B, B = (y.lt.drop s).take x.len := ⟨_, rfl⟩
  obtain ⟨C, hCe⟩ : ∃ C, C = y.lt.drop (s + x.len) := ⟨_, rfl⟩
  have sA : y.shape.take s = A.map NDArray.ph := by rw [hAe, MPA.shape, List.map_take]
  have sB : (y.shape.drop s).take x.len = B.map NDArray.ph := by
    rw [hBe, MPA.shape, List.map_take, List.map_drop]
  have sC : y.shape.drop (s + x.len) = C.map NDArray.ph := by rw [hCe, MPA.shape, List.map_drop]
  rw [sA, sB, sC]
  rw [sB] at h
  rw [← hAe, ← hBe, ← hCe] at hsp
  rw [← hAe] at hA
  rw [← hBe] at hB
  have hch := hy.chain
  rw [hsp] at hch
  obtain ⟨r, hch, hC⟩ := chained_append.1 hch
  obtain ⟨l, hcA, hcB⟩ := chained_append.1 hch
  obtain ⟨Z, hZ, hZl, hcZ, hZs, hZb, hZv⟩ := dot_chain hx.chain hcB h
  rw [one_mul, one_mul] at hcZ
  have hcall : Chained 1 (A ++ Z ++ C) 1 :=
    chained_append.2 ⟨r, chained_append.2 ⟨l, hcA, hcZ⟩, hC⟩
  have hxl : x.lt.length = x.len := rfl
  have hly : y.len = s + x.len + C.length := by
    have := congrArg List.length hsp
    simp only [List.length_append, hA, hB] at this
    exact this
  have hne : A ++ Z ++ C ≠ [] := by
    intro h0
    have h1 := congrArg List.length h0
    simp only [List.length_append, hA, hZl, hxl, List.length_nil] at h1
    omega
  refine ⟨⟨A ++ Z ++ C, 0, _⟩, ?_, valid_mk hne hcall, rfl, rfl, ?_, ?_, ?_⟩
  · unfold partialdot
    simp only
    rw [if_pos hlt]
    have : zipM (dotOptL (axes.1.map adaptAxis, axes.2.map adaptAxis)) (padNone y.len (s : ℤ) x.lt)
        y.lt = .ok (A ++ Z ++ C) := by
      unfold padNone
      rw [hsp, Int.toNat_natCast]
      refine zipM_append (zipM_append (zipM_dotOptL_none hA.le) (by simp [hA]) ?_)
        (by simp only [List.length_append, hA, hB, List.length_replicate, List.length_map]; rfl) (zipM_dotOptL_none ?_)
      · rw [zipM_dotOptL_some]; exact hZ
      · omega
    rw [this, ok_bind, mkMPA_ok hne hcall]
  · show (A ++ Z ++ C).map NDArray.ph = _
    rw [List.map_append, List.map_append, hZs]; rfl
  · have e0 : C.length = y.len - (s + x.len) := by omega
    show ((A ++ Z ++ C).tail.map NDArray.lb) = List.zipWith _ _ (y.lt.tail.map NDArray.lb)
    rw [List.map_tail, List.map_tail, hsp, ← e0, ranks_window hx, ← List.tail_zipWith]
    congr 1
    simp only [List.map_append]
    rw [List.zipWith_append (by simp [hA, hB]; rfl), List.zipWith_append (by simp [hA]), hZb,
      ← hA, zipWith_ones_left (by simp), zipWith_ones_left (by simp)]
  · intro i f g j hi hj hf hg
    show entry (A ++ Z ++ C) _ = _
    have hfl := idxOK_length hf
    have hgl := idxOK_length hg
    have hil := idxOK_length hi
    simp only [List.length_map, MPA.shape] at hfl hgl hil
    have := mp_window (A := A) (B := B) (C := C) (Z := Z) (i := i) (j := j)
      (f := List.zipWith (· ++ ·) f g)
      (K := x.shape.map fun d => conDims d (axesOf axes.1 d.length))
      (φ := fun k => mergeIdx axes.2 (B.map NDArray.ph) k g)
      (c := fun k => entry x.lt (mergeIdx axes.1 x.shape k f)) hcA hcB hcZ hil
      (by rw [List.length_zipWith, hfl, hgl, hZl]; omega) (by
        intro k hk
        have := idxOK_length hk
        simp only [List.length_map, MPA.shape] at this
        rw [mergeIdx_length]
        · simp
        · simp only [List.length_map]; omega
        · simp only [List.length_map]; omega) (by
        intro a ha b hb
        have := hZv f g hf hg 0 one_pos a ha 0 one_pos b hb
        simp only [zero_mul, zero_add] at this
        rw [show (List.map NDArray.ph x.lt) = x.shape from rfl] at this
        rw [this]
        exact sumSites_congr fun k _ => mul_comm _ _)
    rw [this]
    refine sumSites_congr fun k _ => ?_
    rw [mul_comm, MPA.val, MPA.val, hsp]

/-- The statement of C24 does not extend to shorter factors which stick out at the right end: the
sites which stick out are ignored silently.  Here `y` covers sites 1 and 2 of an MPO with two sites;
the second site of `y` has no effect. -/
theorem C24_overhang_ignored :
    ∃ z, partialdot exMPO exMPO 1 ([-1], [0]) = .ok z ∧ z.ranks = [2] ∧ z.lt.map NDArray.rb = [2, 2] :=
  ⟨_, rfl, by decide, by decide⟩

/-- A negative `start_at` is treated as zero. -/
theorem C24_negative_start [AddCommMonoid R] [Mul R] (x y : MPA R) (n : ℕ)
    (axes : List ℤ × List ℤ) : partialdot x y (-(n : ℤ)) axes = partialdot x y 0 axes := by
  unfold partialdot padNone
  rw [Int.toNat_neg_natCast]; rfl

/-- For equal lengths and `start_at = 0`, `partialdot` is `dot`. -/
theorem C24_equal_length [AddCommMonoid R] [Mul R] (x y : MPA R) (axes : List ℤ × List ℤ)
    (h : x.len = y.len) : partialdot x y 0 axes = dot x y axes := by
  unfold partialdot dot
  simp only
  rw [if_neg (by omega), pyAssert_true h, ok_bind]
  congr 1
  rw [← zipM_dotOptR_some]
  simp only [padNone, Int.toNat_zero, List.replicate_zero, List.nil_append]
  have : ∀ (ls rs : List (NDArray R)) (n : ℕ) (ax), ls.length = rs.length →
      zipM (dotOptR ax) ls (rs.map some ++ List.replicate n none)
        = zipM (dotOptR ax) ls (rs.map some) := by
    intro ls rs n ax hl
    induction ls generalizing rs with
    | nil => cases rs <;> cases n <;> rfl
    | cons l ls ih =>
      cases rs with
      | nil => simp at hl
      | cons r rs =>
        simp only [List.map_cons, List.cons_append, zipM]
        rw [ih rs (by simpa using hl)]
  exact this _ _ _ _ h

/-- A single-site operator, for the examples. -/
def exSite : MPA ℤ := ⟨[⟨[1, 2, 2, 1], fun i => (i.getD 1 0 : ℤ) - 2 * i.getD 2 0⟩], 0, 1⟩

theorem exSite_valid : exSite.Valid :=
  ⟨by simp [exSite], by simp [exSite, NDArray.IsLocal, NDArray.ndim, NDArray.lb, NDArray.rb],
    by simp [exSite], by simp [exSite], by simp [exSite, MPA.len]⟩

/-- Non-vacuity: a single-site operator acting on the second site of an MPO from the right and from
the left. -/
example : exMPO.Valid ∧ exSite.Valid ∧ 1 + exSite.len ≤ exMPO.len ∧ exSite.len < exMPO.len ∧
    DotLegs ((exMPO.shape.drop 1).take exSite.len) exSite.shape ([-1], [0]) ∧
    DotLegs exSite.shape ((exMPO.shape.drop 1).take exSite.len) ([-1], [0]) := by
  have h : ∀ s ∈ [[2, 2]], ∀ a ∈ [(-1 : ℤ), 0], AxesIn [a] s.length ∧ (axesOf [a] s.length).Nodup := by
    intro s hs a ha
    simp at hs; subst hs
    refine ⟨?_, by simp [axesOf]⟩
    intro b hb
    simp at hb ha
    subst hb
    rcases ha with rfl | rfl <;> simp
  exact ⟨exMPO_valid, exSite_valid, by decide, by decide,
    ⟨rfl, fun s hs => h s hs _ (by simp), fun s hs => h s hs _ (by simp), by decide⟩,
    ⟨rfl, fun s hs => h s hs _ (by simp), fun s hs => h s hs _ (by simp), by decide⟩⟩

end Mpnum
