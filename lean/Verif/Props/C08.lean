import Verif.MPArray.Dot
import Verif.MPArray.SumCore
import Verif.Props.C01

/-!
# C08: `dot`
-/

open Finset

namespace Mpnum

variable {R : Type}

/-- The physical index of one factor of `dot`: at every site (leg sizes `s`), the contracted legs
`axes` carry the index `k`, the remaining legs carry `f`. -/
def mergeIdx (axes : List ℤ) (S ks fs : List (List ℕ)) : List (List ℕ) :=
  List.zipWith3 (fun s k f => NDArray.asm s.length (axesOf axes s.length) k f) S ks fs

/-- Admissible arguments of `dot`: equal lengths, axes valid and without repetition at every site,
and equal sizes of the contracted legs. -/
structure DotArgs (x y : MPA R) (axes : List ℤ × List ℤ) : Prop where
  len : x.len = y.len
  axl : ∀ s ∈ x.shape, AxesIn axes.1 s.length ∧ (axesOf axes.1 s.length).Nodup
  axr : ∀ s ∈ y.shape, AxesIn axes.2 s.length ∧ (axesOf axes.2 s.length).Nodup
  dims : x.shape.map (fun s => conDims s (axesOf axes.1 s.length)) =
    y.shape.map (fun s => conDims s (axesOf axes.2 s.length))

/-- C08: `dot(x, y, axes)` exists for all admissible arguments; the result has at every site the free
legs of `x` followed by the free legs of `y`; its entries are the sums over all values of the
contracted legs of the products of the entries of `x` and `y`; ranks multiply. -/
theorem C08_dot [CommSemiring R] (x y : MPA R) (axes : List ℤ × List ℤ) (hx : x.Valid) (hy : y.Valid)
    (h : DotArgs x y axes) :
    ∃ z, dot x y axes = .ok z ∧ z.Valid ∧ z.l = 0 ∧ z.r = z.len ∧
      z.shape = List.zipWith (· ++ ·) (x.shape.map fun s => freeDims s (axesOf axes.1 s.length))
        (y.shape.map fun s => freeDims s (axesOf axes.2 s.length)) ∧
      z.ranks = List.zipWith (· * ·) x.ranks y.ranks ∧
      ∀ f g, IdxOK f (x.shape.map fun s => freeDims s (axesOf axes.1 s.length)) →
        IdxOK g (y.shape.map fun s => freeDims s (axesOf axes.2 s.length)) →
        z.val (List.zipWith (· ++ ·) f g)
          = sumSites (x.shape.map fun s => conDims s (axesOf axes.1 s.length)) fun k =>
              x.val (mergeIdx axes.1 x.shape k f) * y.val (mergeIdx axes.2 y.shape k g) := by
  obtain ⟨hlen, hal, har, hdim⟩ := h
  have hdz : ∀ l r, (l, r) ∈ x.lt.zip y.lt →
      conDims l.ph (axesOf axes.1 l.ph.length) = conDims r.ph (axesOf axes.2 r.ph.length) := by
    intro l r hm
    obtain ⟨n, hn, he⟩ := List.mem_iff_getElem.1 hm
    simp only [List.getElem_zip, Prod.mk.injEq] at he
    have h1 : n < x.lt.length := by simp at hn; omega
    have h2 : n < y.lt.length := by simp at hn; omega
    have := congrArg (fun q => q[n]?) hdim
    simp only [MPA.shape, List.map_map, List.getElem?_map, List.getElem?_eq_getElem h1,
      List.getElem?_eq_getElem h2, he.1, he.2, Option.map_some, Option.some.injEq] at this
    exact this
  obtain ⟨ts, hz, hl, hr, hP⟩ := zipM_triples
    (f := fun l r => localDot l r (axes.1.map adaptAxis, axes.2.map adaptAxis))
    (P := fun l r z => PSite.OK ⟨l, r, z, conDims l.ph (axesOf axes.1 l.ph.length),
      freeDims l.ph (axesOf axes.1 l.ph.length), freeDims r.ph (axesOf axes.2 r.ph.length),
      NDArray.asm l.ph.length (axesOf axes.1 l.ph.length),
      NDArray.asm r.ph.length (axesOf axes.2 r.ph.length)⟩)
    (ls := x.lt) (rs := y.lt) hlen (by
      intro l r hm
      have hml : l ∈ x.lt := (List.of_mem_zip hm).1
      have hmr : r ∈ y.lt := (List.of_mem_zip hm).2
      have hll := hx.chain.isLocal l hml
      have hrl := hy.chain.isLocal r hmr
      have hln : l.ndim = l.ph.length + 2 := by rw [NDArray.ndim, NDArray.shape_local hll]; simp
      have hrn : r.ndim = r.ph.length + 2 := by rw [NDArray.ndim, NDArray.shape_local hrl]; simp
      obtain ⟨h1, h2⟩ := hal l.ph (List.mem_map_of_mem hml)
      obtain ⟨h3, h4⟩ := har r.ph (List.mem_map_of_mem hmr)
      exact localDot_ok hll hrl (by rw [hln]; exact mapM_adapt h1) (by rw [hrn]; exact mapM_adapt h3)
        (axesOf_lt h1) (axesOf_lt h3) h2 h4 (hdz l r hm))
  set g : NDArray R × NDArray R × NDArray R → PSite R := fun t =>
    ⟨t.1, t.2.1, t.2.2, conDims t.1.ph (axesOf axes.1 t.1.ph.length),
      freeDims t.1.ph (axesOf axes.1 t.1.ph.length), freeDims t.2.1.ph (axesOf axes.2 t.2.1.ph.length),
      NDArray.asm t.1.ph.length (axesOf axes.1 t.1.ph.length),
      NDArray.asm t.2.1.ph.length (axesOf axes.2 t.2.1.ph.length)⟩ with hg
  have hok : ∀ s ∈ ts.map g, s.OK := by
    intro s hs
    obtain ⟨t, ht, rfl⟩ := List.mem_map.1 hs
    exact hP t ht
  have e1 : (ts.map g).map PSite.l = x.lt := by rw [List.map_map, ← hl]; rfl
  have e2 : (ts.map g).map PSite.r = y.lt := by rw [List.map_map, ← hr]; rfl
  have e3 : (ts.map g).map PSite.z = ts.map fun t => t.2.2 := by rw [List.map_map]; rfl
  have e4 : (ts.map g).map PSite.SL = x.shape.map fun s => freeDims s (axesOf axes.1 s.length) := by
    rw [MPA.shape, ← hl, List.map_map, List.map_map, List.map_map]; rfl
  have e5 : (ts.map g).map PSite.SR = y.shape.map fun s => freeDims s (axesOf axes.2 s.length) := by
    rw [MPA.shape, ← hr, List.map_map, List.map_map, List.map_map]; rfl
  have e6 : (ts.map g).map PSite.K = x.shape.map fun s => conDims s (axesOf axes.1 s.length) := by
    rw [MPA.shape, ← hl, List.map_map, List.map_map, List.map_map]; rfl
  have e7 : ∀ ks fs, pidx PSite.F (ts.map g) ks fs = mergeIdx axes.1 x.shape ks fs := by
    intro ks fs
    rw [mergeIdx, MPA.shape, ← hl, List.map_map]
    exact pidx_map (fun _ _ _ => rfl) _ _ _
  have e8 : ∀ ks fs, pidx PSite.G (ts.map g) ks fs = mergeIdx axes.2 y.shape ks fs := by
    intro ks fs
    rw [mergeIdx, MPA.shape, ← hr, List.map_map]
    exact pidx_map (fun _ _ _ => rfl) _ _ _
  obtain ⟨hc, hs⟩ := chained_prod hok (by rw [e1]; exact hx.chain) (by rw [e2]; exact hy.chain)
  rw [e3, e4, e5] at hs
  rw [e3] at hc
  have hne : (ts.map fun t => t.2.2) ≠ [] := by
    intro h0
    have : ts = [] := by simpa using h0
    apply hx.ne; rw [← hl, this]; rfl
  obtain ⟨zs, hzs⟩ : ∃ zs, zs = ts.map fun t => t.2.2 := ⟨_, rfl⟩
  rw [← hzs] at hc hs hne hz e3
  refine ⟨⟨zs, 0, zs.length⟩, ?_, valid_mk hne hc, rfl, rfl, hs, ?_, ?_⟩
  · unfold dot
    rw [pyAssert_true hlen, ok_bind]
    simp only [hz, ok_bind]
    exact mkMPA_ok hne hc
  · have hlb : ∀ t ∈ ts, t.2.2.lb = t.1.lb * t.2.1.lb := fun t ht =>
      NDArray.lb_of_shape (hP t ht).1
    have : ∀ us : List (NDArray R × NDArray R × NDArray R), (∀ t ∈ us, t.2.2.lb = t.1.lb * t.2.1.lb) →
        (us.map fun t => t.2.2).map NDArray.lb = List.zipWith (· * ·)
          ((us.map fun t => t.1).map NDArray.lb) ((us.map fun t => t.2.1).map NDArray.lb) := by
      intro us hus
      induction us with
      | nil => rfl
      | cons u us ih =>
        simp only [List.map_cons, List.zipWith_cons_cons, hus u (by simp)]
        rw [ih (fun t ht => hus t (by simp [ht]))]
    simp only [MPA.ranks]
    rw [hzs, ← hl, ← hr, ← List.map_tail, ← List.map_tail, ← List.map_tail]
    exact this ts.tail fun t ht => hlb t (List.mem_of_mem_tail ht)
  · intro f g' hf hg'
    have := mp_prod hok (by rw [e1]; exact hx.chain) (by rw [e2]; exact hy.chain)
      (by rw [e4]; exact hf) (by rw [e5]; exact hg') (a := 0) (a' := 0) (b := 0) (b' := 0)
      one_pos one_pos one_pos one_pos
    rw [e1, e2, e3, e6] at this
    simp only [e7, e8] at this
    exact this

/-- C08, error branch: factors of different length are rejected. -/
theorem C08_dot_length [CommSemiring R] (x y : MPA R) (axes : List ℤ × List ℤ) (h : x.len ≠ y.len) :
    dot x y axes = .error .assertion := by
  unfold dot
  rw [pyAssert_false h]; rfl

end Mpnum

namespace Mpnum

variable {R : Type}

theorem zipWith_left {A B : List ℕ} (h : A.length = B.length) :
    List.zipWith (fun a (_ : ℕ) => [a]) A B = A.map fun m => [m] := by
  induction A generalizing B with
  | nil => rfl
  | cons a A ih => cases B with
    | nil => simp at h
    | cons b B => simp [ih (B := B) (by simpa using h)]

theorem zipWith_right {A B : List ℕ} (h : A.length = B.length) :
    List.zipWith (fun (_ : ℕ) b => [b]) A B = B.map fun m => [m] := by
  induction A generalizing B with
  | nil => cases B with
    | nil => rfl
    | cons b B => simp at h
  | cons a A ih => cases B with
    | nil => simp at h
    | cons b B => simp [ih (B := B) (by simpa using h)]

theorem mergeIdx_last : ∀ (A B I K : List ℕ), A.length = B.length → I.length = A.length →
    K.length = A.length →
    mergeIdx [-1] (List.zipWith (fun m n => [m, n]) A B) (K.map fun m => [m]) (I.map fun m => [m])
      = List.zipWith (fun i k => [i, k]) I K
  | [], _, I, K, _, hI, hK => by
    cases I <;> cases K <;> simp_all [mergeIdx, List.zipWith3]; omega
  | a :: A, B, I, K, hB, hI, hK => by
    match B, I, K with
    | [], _, _ => simp at hB
    | _ :: _, [], _ => simp at hI
    | _ :: _, _ :: _, [] => simp at hK
    | b :: B, i :: I, k :: K =>
      have := mergeIdx_last A B I K (by simpa using hB) (by simpa using hI) (by simpa using hK)
      simp only [mergeIdx] at this
      simp only [mergeIdx, List.zipWith_cons_cons, List.map_cons, List.zipWith3, this]
      rfl

theorem mergeIdx_first : ∀ (A B I K : List ℕ), A.length = B.length → I.length = A.length →
    K.length = A.length →
    mergeIdx [0] (List.zipWith (fun m n => [m, n]) A B) (K.map fun m => [m]) (I.map fun m => [m])
      = List.zipWith (fun k i => [k, i]) K I
  | [], _, I, K, _, hI, hK => by
    cases I <;> cases K <;> simp_all [mergeIdx, List.zipWith3]; omega
  | a :: A, B, I, K, hB, hI, hK => by
    match B, I, K with
    | [], _, _ => simp at hB
    | _ :: _, [], _ => simp at hI
    | _ :: _, _ :: _, [] => simp at hK
    | b :: B, i :: I, k :: K =>
      have := mergeIdx_first A B I K (by simpa using hB) (by simpa using hI) (by simpa using hK)
      simp only [mergeIdx] at this
      simp only [mergeIdx, List.zipWith_cons_cons, List.map_cons, List.zipWith3, this]
      rfl

/-- C08 for operators and the default axes `(-1, 0)`: `dot(x, y)` is the matrix product.  `x` has two
legs of sizes `(m, n)` and `y` has two legs of sizes `(n, p)` at every site (sizes may differ from
site to site). -/
theorem C08_matrix_product [CommSemiring R] (x y : MPA R) (hx : x.Valid) (hy : y.Valid)
    (M N P : List ℕ) (hM : M.length = N.length) (hP : P.length = N.length)
    (hxs : x.shape = List.zipWith (fun m n => [m, n]) M N)
    (hys : y.shape = List.zipWith (fun n p => [n, p]) N P) :
    ∃ z, dot x y ([-1], [0]) = .ok z ∧ z.Valid ∧
      z.shape = List.zipWith (fun m p => [m, p]) M P ∧
      ∀ I J, InB I M → InB J P →
        z.val (List.zipWith (fun i j => [i, j]) I J) = sumIdx N fun K =>
          x.val (List.zipWith (fun i k => [i, k]) I K) *
          y.val (List.zipWith (fun k j => [k, j]) K J) := by
  have hxl : x.len = N.length := by
    have := congrArg List.length hxs; simpa [MPA.shape, MPA.len, hM] using this
  have hyl : y.len = N.length := by
    have := congrArg List.length hys; simpa [MPA.shape, MPA.len, hP] using this
  have f1 : ∀ (A B : List ℕ), A.length = B.length → ((List.zipWith (fun m n => [m, n]) A B).map fun s =>
      freeDims s (axesOf [-1] s.length)) = A.map fun m => [m] := fun A B h => by
    rw [List.map_zipWith]; exact zipWith_left h
  have f2 : ∀ (A B : List ℕ), A.length = B.length → ((List.zipWith (fun m n => [m, n]) A B).map fun s =>
      freeDims s (axesOf [0] s.length)) = B.map fun m => [m] := fun A B h => by
    rw [List.map_zipWith]; exact zipWith_right h
  have c1 : ∀ (A B : List ℕ), A.length = B.length → ((List.zipWith (fun m n => [m, n]) A B).map fun s =>
      conDims s (axesOf [-1] s.length)) = B.map fun m => [m] := fun A B h => by
    rw [List.map_zipWith]; exact zipWith_right h
  have c2 : ∀ (A B : List ℕ), A.length = B.length → ((List.zipWith (fun m n => [m, n]) A B).map fun s =>
      conDims s (axesOf [0] s.length)) = A.map fun m => [m] := fun A B h => by
    rw [List.map_zipWith]; exact zipWith_left h
  have hax : ∀ (A B : List ℕ), ∀ s ∈ List.zipWith (fun m n => [m, n]) A B, s.length = 2 := by
    intro A B s hs
    induction A generalizing B with
    | nil => simp at hs
    | cons a A ih =>
      cases B with
      | nil => simp at hs
      | cons b B =>
        rcases List.mem_cons.1 hs with rfl | hs
        · rfl
        · exact ih B hs
  obtain ⟨z, h1, h2, -, -, h3, -, h4⟩ := C08_dot x y ([-1], [0]) hx hy
    ⟨by omega, by
      intro s hs; rw [hxs] at hs; rw [hax _ _ s hs]
      exact ⟨by intro a ha; simp at ha; omega, by simp [axesOf]⟩, by
      intro s hs; rw [hys] at hs; rw [hax _ _ s hs]
      exact ⟨by intro a ha; simp at ha; omega, by simp [axesOf]⟩, by
      rw [hxs, hys, c1 M N hM, c2 N P hP.symm]⟩
  refine ⟨z, h1, h2, ?_, ?_⟩
  · rw [h3, hxs, hys, f1 M N hM, f2 N P hP.symm, List.zipWith_map]; rfl
  · intro I J hI hJ
    have lift : ∀ {A B : List ℕ}, InB A B → IdxOK (A.map fun m => [m]) (B.map fun m => [m]) := by
      intro A B hAB
      induction hAB with
      | nil => exact .nil
      | cons h _ ih => exact .cons (.cons h .nil) ih
    have key := h4 (I.map fun m => [m]) (J.map fun m => [m])
      (by rw [hxs, f1 M N hM]; exact lift hI) (by rw [hys, f2 N P hP.symm]; exact lift hJ)
    rw [List.zipWith_map] at key
    have e : (List.zipWith (fun i j => [i, j]) I J)
        = List.zipWith (fun a b => [a] ++ [b]) I J := rfl
    rw [e, key, hxs, hys, c1 M N hM]
    have s1 : ∀ (B : List ℕ) (F : List (List ℕ) → R),
        sumSites (B.map fun m => [m]) F = sumIdx B fun K => F (K.map fun m => [m]) := by
      intro B
      induction B with
      | nil => intro F; rfl
      | cons b B ih =>
        intro F
        simp only [List.map_cons, sumSites, sumIdx, ih]
    rw [s1]
    refine sumIdx_congr fun K hK => ?_
    have hIl := inB_length hI
    have hJl := inB_length hJ
    have hKl := inB_length hK
    congr 2
    · exact mergeIdx_last M N I K hM hIl (by omega)
    · exact mergeIdx_first N P J K hP.symm (by omega) (by omega)

/-- Two sites with two legs each, inner rank 2. -/
def exMPO : MPA ℤ :=
  ⟨[⟨[1, 2, 2, 2], fun i => match i with | [_, p, q, b] => (p : ℤ) + 2 * b + q * b + 1 | _ => 0⟩,
    ⟨[2, 2, 2, 1], fun i => match i with | [a, p, q, _] => (a : ℤ) * p - q | _ => 0⟩], 0, 2⟩

theorem exMPO_valid : exMPO.Valid :=
  ⟨by simp [exMPO], by simp [exMPO, NDArray.IsLocal, NDArray.ndim, NDArray.lb, NDArray.rb],
    by simp [exMPO], by simp [exMPO], by simp [exMPO, MPA.len]⟩

/-- The hypotheses of `C08_dot` and `C08_matrix_product` are met, and the result is not trivial. -/
example : exMPO.Valid ∧ DotArgs exMPO exMPO ([-1], [0]) ∧
    exMPO.shape = List.zipWith (fun m n => [m, n]) [2, 2] [2, 2] ∧
    (sumIdx [2, 2] fun K => exMPO.val (List.zipWith (fun i k => [i, k]) [0, 1] K) *
      exMPO.val (List.zipWith (fun k j => [k, j]) K [1, 0])) = -9 := by
  refine ⟨exMPO_valid, ⟨rfl, ?_, ?_, by decide⟩, by decide, by decide⟩
  · intro s hs
    have : s = [2, 2] := by simpa [exMPO, MPA.shape, NDArray.ph] using hs
    subst this
    exact ⟨by intro a ha; simp at ha; subst ha; decide, by decide⟩
  · intro s hs
    have : s = [2, 2] := by simpa [exMPO, MPA.shape, NDArray.ph] using hs
    subst this
    exact ⟨by intro a ha; simp at ha; subst ha; decide, by decide⟩

end Mpnum
