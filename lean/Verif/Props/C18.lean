import Verif.MPArray.Sum
import Verif.Props.C01

/-! # C18: sum over physical legs -/

open Finset

namespace Mpnum

variable {R : Type}

/-- The physical legs `legs` summed at each site, for an MPA with physical shape `S` and the argument
`axes`, as documented for `MPArray.sum`. -/
inductive SumLegs (S : List (List ℕ)) : SumAxes → List (List ℕ) → Prop
  /-- `None`: all legs of all sites -/
  | none : SumLegs S .none (S.map fun s => List.range s.length)
  /-- a single integer: this leg at each site -/
  | int (a : ℕ) : SumLegs S (.int a) (S.map fun _ => [a])
  /-- a sequence of integers (possibly empty): these legs at each site -/
  | ints (as : List ℕ) : SumLegs S (.ints (as.map fun a : ℕ => (a : ℤ))) (S.map fun _ => as)
  /-- an empty sequence: no legs -/
  | empty : SumLegs S (.each []) (S.map fun _ => [])
  /-- one entry for each site, `None` meaning all legs; the first entry must not be `None` -/
  | each (a : List ℕ) (as : List (Option (List ℕ))) (h : (some a :: as).length = S.length) :
      SumLegs S (.each ((some a :: as).map (Option.map fun l => l.map fun a : ℕ => (a : ℤ))))
        (List.zipWith (fun o s => o.getD (List.range s.length)) (some a :: as) S)

/-- The index with the entries `k` at the summed legs and the entries `f` at the others. -/
def mergeLegs (S legs f k : List (List ℕ)) : List (List ℕ) :=
  List.zipWith3 (fun (p : List ℕ × List ℕ) f k => NDArray.asm p.1.length p.2 k f) (S.zip legs) f k

theorem zipWith_const_left {α β γ : Type} (f : β → γ) (as : List α) (bs : List β)
    (h : as.length = bs.length) : List.zipWith (fun _ b => f b) as bs = bs.map f := by
  induction as generalizing bs with
  | nil => cases bs with
    | nil => rfl
    | cons b bs => simp at h
  | cons a as ih => cases bs with
    | nil => simp at h
    | cons b bs => simp [ih bs (by simpa using h)]

theorem zip_map_swap {α β γ : Type} (f : α → β) (as : List α) (cs : List γ) :
    (as.map f).zip cs = (cs.zip as).map fun p => (f p.2, p.1) := by
  induction as generalizing cs with
  | nil => simp
  | cons a as ih => cases cs with
    | nil => simp
    | cons c cs => simp [ih]

/-- The axes of the code are the documented legs, shifted by one for the left bond. -/
theorem siteAxes_ok {S legs : List (List ℕ)} {axes : SumAxes} (h : SumLegs S axes legs) :
    legs.length = S.length ∧ siteAxes axes (S.map List.length)
      = .ok (legs.map fun l => l.map fun a => ((a + 1 : ℕ) : ℤ)) := by
  cases h with
  | none => refine ⟨by simp, ?_⟩; simp [siteAxes]
  | int a => refine ⟨by simp, ?_⟩; simp only [siteAxes, List.map_map]; rfl
  | ints as =>
    refine ⟨by simp, ?_⟩
    simp only [siteAxes, List.map_map]
    rfl
  | empty => refine ⟨by simp, ?_⟩; simp only [siteAxes, List.map_map]; rfl
  | each a as h =>
    refine ⟨by simp at h ⊢; omega, ?_⟩
    simp only [List.map_cons, Option.map_some, siteAxes]
    rw [if_pos (by simpa using h)]
    congr 1
    cases S with
    | nil => simp at h
    | cons s S =>
      simp only [List.map_cons, List.zipWith_cons_cons, Option.getD_some, List.cons.injEq]
      refine ⟨by simp, ?_⟩
      have h : as.length = S.length := by simpa using h
      clear * - h
      induction as generalizing S with
      | nil => simp
      | cons o os ih =>
        cases S with
        | nil => simp at h
        | cons s S =>
          simp only [List.map_cons, List.zipWith_cons_cons, List.cons.injEq]
          refine ⟨?_, ih S (by simpa using h)⟩
          cases o <;> simp

/-- C18: for every documented value of `axes`, `x.sum(axes)` is the sum of the dense tensor over the
listed legs.  The result is an MPA with the remaining legs and the ranks of `x`, or, if no legs
remain, a number (array of shape `()`). -/
theorem C18_sum [CommSemiring R] (x : MPA R) (hx : x.Valid) (axes : SumAxes) (legs : List (List ℕ))
    (h : SumLegs x.shape axes legs)
    (hl : ∀ p ∈ x.shape.zip legs, p.2.Nodup ∧ ∀ a ∈ p.2, a < p.1.length) :
    let rest := List.zipWith freeDims x.shape legs
    let value : List (List ℕ) → R := fun f =>
      sumSites (List.zipWith conDims x.shape legs) fun k => x.val (mergeLegs x.shape legs f k)
    (rest.flatten ≠ [] ∧ ∃ y, x.sum axes = .ok (.inr y) ∧ y.Valid ∧ y.l = 0 ∧ y.r = y.len ∧
        y.shape = rest ∧ y.ranks = x.ranks ∧ ∀ f, IdxOK f rest → y.val f = value f) ∨
    (rest.flatten = [] ∧ ∃ A, x.sum axes = .ok (.inl A) ∧ A.shape = [] ∧
        A.get [] = value (x.shape.map fun _ => [])) := by
  intro rest value
  obtain ⟨hlen, hsa⟩ := siteAxes_ok h
  have hT : (legs.zip x.lt).map Prod.snd = x.lt := List.map_snd_zip (by simp [hlen, MPA.shape])
  have hL : (legs.zip x.lt).map Prod.fst = legs := List.map_fst_zip (by simp [hlen, MPA.shape])
  have hloc : ∀ p ∈ legs.zip x.lt, p.2.IsLocal := fun p hp => hx.chain.isLocal _ (List.of_mem_zip hp).2
  have hlegs : ∀ p ∈ legs.zip x.lt, p.1.Nodup ∧ ∀ a ∈ p.1, a < p.2.ph.length := by
    intro p hp
    apply hl (p.2.ph, p.1)
    rw [List.mem_iff_getElem] at hp ⊢
    obtain ⟨n, hn, rfl⟩ := hp
    exact ⟨n, by simpa [MPA.shape, and_comm] using hn, by simp [MPA.shape]⟩
  obtain ⟨us, hm, hne, hc, hul, hph, hrk, hval⟩ := lin_core hx (sites := legs.zip x.lt)
    (T := Prod.snd) hT
    (f := fun p => if (p.1.map fun a => ((a + 1 : ℕ) : ℤ)) = [] then Except.ok p.2
        else p.2.sum (p.1.map fun a => ((a + 1 : ℕ) : ℤ)))
    (K := fun p => conDims p.2.ph p.1) (φ := fun p f k => NDArray.asm p.2.ph.length p.1 k f)
    (q := fun p => freeDims p.2.ph p.1)
    (fun p hp => sum_site (hloc p hp) (hlegs p hp).2 (hlegs p hp).1)
  have hzip : x.shape.zip legs = (legs.zip x.lt).map fun p => (p.2.ph, p.1) := by
    exact zip_map_swap _ _ _
  have hrest : (legs.zip x.lt).map (fun p => freeDims p.2.ph p.1) = rest := by
    show _ = List.zipWith freeDims x.shape legs
    rw [← List.map_uncurry_zip_eq_zipWith, hzip, List.map_map]; rfl
  have hcon : (legs.zip x.lt).map (fun p => conDims p.2.ph p.1) = List.zipWith conDims x.shape legs := by
    rw [← List.map_uncurry_zip_eq_zipWith, hzip, List.map_map]; rfl
  have hmerge : ∀ f k, List.zipWith3 (fun (p : List ℕ × NDArray R) f k =>
      NDArray.asm p.2.ph.length p.1 k f) (legs.zip x.lt) f k = mergeLegs x.shape legs f k := by
    intro f k
    rw [mergeLegs, hzip]
    generalize legs.zip x.lt = l
    induction l generalizing f k with
    | nil => rfl
    | cons p l ih =>
      cases f with
      | nil => rfl
      | cons f fs => cases k with
        | nil => rfl
        | cons k ks => simp [List.zipWith3, ih]
  rw [hrest, hcon] at hval
  simp only [hmerge] at hval
  rw [hrest] at hph
  have hnd : x.ndims = x.shape.map List.length := by
    rw [MPA.ndims, MPA.shape, List.map_map]
    apply List.map_congr_left
    intro t ht
    rw [ndim_ph (hx.chain.isLocal t ht)]; simp
  have hcode : ((legs.map fun l => l.map fun a => ((a + 1 : ℕ) : ℤ)).zip x.lt).mapM (fun p =>
      if p.1 = [] then Except.ok p.2 else p.2.sum p.1) = .ok us := by
    rw [← hm, List.zip_map_left, List.mapM_map]
    rfl
  have hndus : (⟨us, 0, us.length⟩ : MPA R).ndims.sum = rest.flatten.length := by
    rw [← hph, List.length_flatten, physShape, List.map_map, MPA.ndims]
    congr 1
    apply List.map_congr_left
    intro t ht
    show t.ndim - 2 = t.ph.length
    rw [ndim_ph (hc.isLocal t ht)]; simp
  have hv := valid_mk hne hc
  by_cases h0 : rest.flatten = []
  · right
    obtain ⟨A, hA, hAs, hAg⟩ := C01_to_array _ hv
    refine ⟨h0, A, ?_, ?_, ?_⟩
    · unfold MPA.sum
      rw [hnd, hsa, ok_bind]
      rw [hcode, ok_bind, mkMPA_ok hne hc, ok_bind, if_pos (by rw [hndus, h0]; rfl), hA]
      rfl
    · rw [hAs, ← h0, ← hph]; rfl
    · have hidx : IdxOK (x.shape.map fun _ => []) rest := by
        have hall : ∀ s ∈ rest, s = [] := List.flatten_eq_nil_iff.1 h0
        have : rest = x.shape.map fun _ => [] := by
          apply List.ext_getElem
          · show (List.zipWith freeDims x.shape legs).length = _
            simp [hlen]
          · intro n h1 h2
            rw [hall _ (List.getElem_mem h1)]; simp
        rw [this]
        unfold IdxOK
        rw [List.forall₂_same]
        intro a ha
        obtain ⟨_, _, rfl⟩ := List.mem_map.1 ha
        exact List.Forall₂.nil
      have := hAg (x.shape.map fun _ => []) (by
        show IdxOK _ (physShape us); rw [hph]; exact hidx)
      rw [show (x.shape.map fun _ => ([] : List ℕ)).flatten = [] by simp] at this
      rw [this]
      exact hval _ hidx
  · left
    refine ⟨h0, ⟨us, 0, us.length⟩, ?_, hv, rfl, rfl, hph, hrk, hval⟩
    unfold MPA.sum
    rw [hnd, hsa, ok_bind]
    rw [hcode, ok_bind, mkMPA_ok hne hc, ok_bind, if_neg (by
      rw [hndus]; exact fun h => h0 (List.length_eq_zero_iff.1 h))]
    rfl

/-- C18: `x.sum()` is the sum of all entries of the dense tensor. -/
theorem C18_sum_all [CommSemiring R] (x : MPA R) (hx : x.Valid) :
    ∃ A, x.sum .none = .ok (.inl A) ∧ A.shape = [] ∧ A.get [] = sumSites x.shape x.val := by
  have hz : x.shape.zip (x.shape.map fun s => List.range s.length)
      = x.shape.map fun s => (s, List.range s.length) := by
    conv_lhs => rw [← List.map_id x.shape, List.map_map, List.zip_map']
    simp
  have hrest : List.zipWith freeDims x.shape (x.shape.map fun s => List.range s.length)
      = x.shape.map fun _ => [] := by
    rw [← List.map_uncurry_zip_eq_zipWith, hz, List.map_map]
    exact List.map_congr_left fun s _ => freeDims_range s
  have hcon : List.zipWith conDims x.shape (x.shape.map fun s => List.range s.length) = x.shape := by
    rw [← List.map_uncurry_zip_eq_zipWith, hz, List.map_map]
    conv_rhs => rw [← List.map_id x.shape]
    exact List.map_congr_left fun s _ => conDims_range s
  have h := C18_sum x hx .none _ .none (by
    intro p hp
    rw [hz] at hp
    obtain ⟨s, _, rfl⟩ := List.mem_map.1 hp
    exact ⟨List.nodup_range, by simp⟩)
  rcases h with ⟨h0, _⟩ | ⟨_, A, hA, hs, hg⟩
  · exact absurd (by rw [hrest]; simp) h0
  · rename_i h0
    refine ⟨A, hA, hs, ?_⟩
    rw [hg, hcon]
    refine sumSites_congr fun k hk => ?_
    congr 1
    rw [mergeLegs, hz]
    clear h0 hg hs hA hcon hrest hz hx
    generalize x.shape = S at *
    induction S generalizing k with
    | nil => cases k with
      | nil => rfl
      | cons => simp [IdxOK] at hk
    | cons s S ih =>
      cases k with
      | nil => simp [IdxOK] at hk
      | cons k ks =>
        rw [idxOK_cons] at hk
        simp only [List.map_cons, List.zipWith3]
        rw [ih ks hk.2, asm_range (inB_length hk.1)]

/-- C18, error branch: a list of per-site axes of the wrong length is rejected. -/
theorem C18_sum_length [AddCommMonoid R] [Mul R] (x : MPA R) (a : List ℤ) (as : List (Option (List ℤ)))
    (h : (some a :: as).length ≠ x.len) : x.sum (.each (some a :: as)) = .error .assertion := by
  have e : siteAxes (.each (some a :: as)) x.ndims = .error .assertion :=
    if_neg (by simpa [MPA.ndims, MPA.len] using h)
  unfold MPA.sum
  rw [e]; rfl

/-- Disagreement with the documentation of `sum` ("Sequence of (sequences or None)"): if the first
entry of the sequence is `None`, the call raises `TypeError`. -/
theorem C18_first_none [AddCommMonoid R] [Mul R] (x : MPA R) (as : List (Option (List ℤ))) :
    x.sum (.each (none :: as)) = .error .type := rfl

/-- The hypotheses of `C18_sum` are met for per-site axes including `None`, with a non-trivial
result. -/
example : exMPA.Valid ∧ SumLegs exMPA.shape (.each [some [], none]) [[], [0]] ∧
    (∀ p ∈ exMPA.shape.zip [[], [0]], p.2.Nodup ∧ ∀ a ∈ p.2, a < p.1.length) ∧
    List.zipWith freeDims exMPA.shape [[], [0]] = [[2], []] ∧
    (sumSites (List.zipWith conDims exMPA.shape [[], [0]]) fun k =>
      exMPA.val (mergeLegs exMPA.shape [[], [0]] [[1], []] k)) = -6 := by
  refine ⟨exMPA_valid, SumLegs.each (S := exMPA.shape) [] [none] rfl, by decide, by decide, by decide⟩

/-- Negative legs do not count from the last physical leg: `sum(-1)` sums over a bond and is
rejected by the constructor here. -/
theorem C18_negative_axis : exMPA.sum (.int (-1)) = .error .assertion := by
  rfl

end Mpnum
