import Verif.NamedArray

/-! # C53: named arrays

`x.at' σ` is the entry of the named array `x` if every axis name `n` has the index `σ n`. -/

open Finset

namespace Mpnum

variable {R N : Type} [DecidableEq N]

/-- C53: what the constructor accepts. -/
theorem C53_init (a : NDArray R) (names : List N) :
    (∃ x, NamedArray.mk' a names = .ok x) ↔ a.shape.length = names.length ∧ names.Nodup := by
  constructor
  · rintro ⟨x, hx⟩
    unfold NamedArray.mk' pyAssert at hx
    split_ifs at hx with h1 h2
    · exact ⟨h1, h2⟩
    all_goals simp [bind, Except.bind] at hx
  · rintro ⟨h1, h2⟩
    exact ⟨_, NamedArray.mk'_ok h1 h2⟩

/-- C53: `x.tensordot(y, axes)` contracts exactly the named axes: each pair of names `(n, m)` in `axes`
gets a common index over which the product is summed; all other names are kept. -/
theorem C53_tensordot [AddCommMonoid R] [Mul R] (x y : NamedArray N R) (hx : x.WF) (hy : y.WF)
    (axes : List (N × N)) (h1 : ∀ p ∈ axes, p.1 ∈ x.names) (h2 : ∀ p ∈ axes, p.2 ∈ y.names)
    (hd : ∀ p ∈ axes, x.dim p.1 = y.dim p.2) (n1 : (axes.map Prod.fst).Nodup)
    (n2 : (axes.map Prod.snd).Nodup)
    (hn : ∀ n ∈ x.names, n ∈ y.names → n ∈ axes.map Prod.fst ∨ n ∈ axes.map Prod.snd) :
    ∃ z, x.tensordot y axes = .ok z ∧
      z.names = x.names.filter (· ∉ axes.map Prod.fst) ++ y.names.filter (· ∉ axes.map Prod.snd) ∧
      (∀ n ∈ x.names, n ∉ axes.map Prod.fst → z.dim n = x.dim n) ∧
      (∀ n ∈ y.names, n ∉ axes.map Prod.snd → z.dim n = y.dim n) ∧
      ∀ σ, z.at' σ = sumIdx (axes.map fun p => x.dim p.1) fun k =>
        x.at' (upd σ (axes.map Prod.fst) k) * y.at' (upd σ (axes.map Prod.snd) k) := by
  obtain ⟨z, g1, _, g2, g3, g4, g5⟩ := NamedArray.tensordot_ok hx hy h1 h2 hd n1 n2 hn
  exact ⟨z, g1, g2, g3, g4, g5⟩

/-- C53: contraction of one pair of names. -/
theorem C53_tensordot_one [AddCommMonoid R] [Mul R] (x y : NamedArray N R) (hx : x.WF) (hy : y.WF)
    (n m : N) (h1 : n ∈ x.names) (h2 : m ∈ y.names) (hd : x.dim n = y.dim m)
    (hn : ∀ k ∈ x.names, k ∈ y.names → k = n ∨ k = m) :
    ∃ z, x.tensordot y [(n, m)] = .ok z ∧
      z.names = x.names.filter (· ≠ n) ++ y.names.filter (· ≠ m) ∧
      ∀ σ, z.at' σ = ∑ i ∈ range (x.dim n),
        x.at' (Function.update σ n i) * y.at' (Function.update σ m i) := by
  obtain ⟨z, g1, g2, _, _, g5⟩ := C53_tensordot x y hx hy [(n, m)] (by simpa using h1)
    (by simpa using h2) (by simpa using hd) (by simp) (by simp) (by simpa using hn)
  refine ⟨z, g1, by simpa using g2, fun σ => ?_⟩
  rw [g5]
  simp only [List.map_cons, List.map_nil, sumIdx]
  refine sum_congr rfl fun i _ => ?_
  have : ∀ k : N, upd σ [k] [i] = Function.update σ k i := by
    intro k; funext j
    unfold upd
    by_cases hj : j = k
    · subst hj; simp
    · simp [hj]
  rw [this, this]

/-- C53: `x.rename(translate)` renames simultaneously: the axis called `n` is called
`renamed translate n` afterwards, whatever the order of the pairs and whether old and new names
overlap. -/
theorem C53_rename (x : NamedArray N R) (hx : x.WF) (translate : List (N × N))
    (h : ∀ p ∈ translate, p.1 ∈ x.names) (hd : (translate.map Prod.fst).Nodup)
    (hn : (x.names.map (NamedArray.renamed translate)).Nodup) :
    ∃ z, x.rename translate = .ok z ∧ z.names = x.names.map (NamedArray.renamed translate) ∧
      (∀ n ∈ x.names, z.dim (NamedArray.renamed translate n) = x.dim n) ∧
      ∀ σ, z.at' σ = x.at' (σ ∘ NamedArray.renamed translate) := by
  obtain ⟨z, g1, _, g2, g3, g4⟩ := NamedArray.rename_ok hx h hd hn
  exact ⟨z, g1, g2, g3, g4⟩

/-- C53: two names can be swapped. -/
theorem C53_swap (x : NamedArray N R) (hx : x.WF) (n m : N) (h1 : n ∈ x.names) (h2 : m ∈ x.names) :
    ∃ z, x.rename [(n, m), (m, n)] = .ok z ∧ z.names = x.names.map (Equiv.swap n m) ∧
      ∀ σ, z.at' σ = x.at' (σ ∘ Equiv.swap n m) := by
  have hr : ∀ k, NamedArray.renamed [(n, m), (m, n)] k = Equiv.swap n m k := by
    intro k
    unfold NamedArray.renamed
    by_cases hk : n = k
    · subst hk; simp
    · by_cases hk2 : m = k
      · subst hk2; simp [hk]
      · simp only [List.find?_cons, hk, decide_false, hk2]
        rw [Equiv.swap_apply_of_ne_of_ne (Ne.symm hk) (Ne.symm hk2)]
        rfl
  have hf : NamedArray.renamed [(n, m), (m, n)] = Equiv.swap n m := funext hr
  by_cases hnm : n = m
  · subst hnm
    have hl := NamedArray.rename_loop hx (translate := [(n, n), (n, n)])
      (by intro p hp; simp only [List.mem_cons, List.not_mem_nil, or_false, or_self] at hp; rw [hp]; exact h1) id
    rw [List.map_id] at hl
    have he : x.names.map ([(n, n), (n, n)].foldl (fun f p k => if k = p.1 then p.2 else f k) id)
        = x.names := by
      conv_rhs => rw [← List.map_id x.names]
      refine List.map_congr_left fun k _ => ?_
      simp only [List.foldl_cons, List.foldl_nil]
      split_ifs with h
      · exact h.symm
      · rfl
    rw [he] at hl
    refine ⟨x, ?_, by simp, fun σ => by simp⟩
    unfold NamedArray.rename
    rw [hl]
    simp only [bind, Except.bind]
    exact NamedArray.mk'_ok hx.len hx.nodup
  · obtain ⟨z, g1, g2, _, g4⟩ := C53_rename x hx [(n, m), (m, n)]
      (by simp [h1, h2]) (by simpa using hnm)
      (by rw [hf]; exact (List.nodup_map_iff (Equiv.swap n m).injective).2 hx.nodup)
    rw [hf] at g2 g4
    exact ⟨z, g1, g2, g4⟩

/-- C53, error branch: renaming to duplicate names. -/
theorem C53_rename_duplicate (x : NamedArray N R) (hx : x.WF) (translate : List (N × N))
    (h : ∀ p ∈ translate, p.1 ∈ x.names) (hd : (translate.map Prod.fst).Nodup)
    (hn : ¬ (x.names.map (NamedArray.renamed translate)).Nodup) :
    x.rename translate = .error .assertion := by
  have hl := NamedArray.rename_loop hx h id
  rw [List.map_id] at hl
  have he : (translate.foldl (fun f p n => if n = p.1 then p.2 else f n) (id : N → N))
      = NamedArray.renamed translate := by
    funext n
    rw [NamedArray.foldl_renamed hd]; rfl
  rw [he] at hl
  unfold NamedArray.rename
  rw [hl]
  simp only [bind, Except.bind, NamedArray.mk', pyAssert]
  rw [if_pos (by simpa using hx.len), if_neg hn]

/-- C53, error branch: an unknown name. -/
theorem C53_rename_unknown (x : NamedArray N R) (n m : N) (ps : List (N × N)) (h : n ∉ x.names) :
    x.rename ((n, m) :: ps) = .error .value := by
  unfold NamedArray.rename
  simp only [List.foldlM_cons, NamedArray.axispos, if_neg h]
  rfl

/-- C53: `to_array(order)` has the named axes in the requested order. -/
theorem C53_to_array (x : NamedArray N R) (hx : x.WF) (order : List N) (ho : order.Perm x.names) :
    ∃ a, x.toArray order = .ok a ∧ a.shape = order.map x.dim ∧
      ∀ σ, a.get (order.map σ) = x.at' σ := NamedArray.toArray_ok hx ho

/-- C53, error branch: an order which is not a permutation of the names. -/
theorem C53_to_array_error (x : NamedArray N R) (hx : x.WF) (order : List N)
    (ho : ¬ order.Perm x.names) : x.toArray order = .error .value := by
  unfold NamedArray.toArray
  by_cases hm : ∀ n ∈ order, n ∈ x.names
  · rw [NamedArray.mapM_axispos hm]
    simp only [bind, Except.bind]
    have hlt : ∀ p ∈ order.map x.names.idxOf, p < x.arr.ndim := by
      intro p hp
      obtain ⟨n, hn, rfl⟩ := List.mem_map.1 hp
      have : x.arr.ndim = x.names.length := hx.len
      rw [this]; exact List.idxOf_lt_length_iff.2 (hm n hn)
    unfold NDArray.transpose
    have : ((order.map x.names.idxOf).map fun k : ℕ => (k : ℤ)).mapM
        (fun ax => (pyIndex x.arr.ndim ax).mapError fun _ => PyErr.value)
        = .ok (order.map x.names.idxOf) := by
      generalize order.map x.names.idxOf = l at hlt
      induction l with
      | nil => rfl
      | cons p l ih =>
        rw [List.map_cons, List.mapM_cons, ih fun q hq => hlt q (by simp [hq])]
        have := hlt p (by simp)
        simp only [pyIndex, Nat.cast_nonneg, Nat.cast_lt, this, and_self, if_true]
        rfl
    rw [this]
    simp only [bind, Except.bind]
    rw [if_neg]
    rintro ⟨h1, h2⟩
    apply ho
    have hnd : order.Nodup := h2.of_map _
    have hl : order.length = x.names.length := by
      rw [List.length_map] at h1; rw [h1]; exact hx.len
    exact (List.subperm_of_subset hnd hm).perm_of_length_le hl.ge
  · have : ∀ l : List N, (¬ ∀ n ∈ l, n ∈ x.names) → l.mapM x.axispos = .error .value := by
      intro l
      induction l with
      | nil => intro h; exact absurd (by simp) h
      | cons n l ih =>
        intro h
        rw [List.mapM_cons]
        by_cases hn : n ∈ x.names
        · simp only [NamedArray.axispos, if_pos hn]
          rw [ih fun h' => h (by
            intro k hk
            rcases List.mem_cons.1 hk with rfl | hk
            · exact hn
            · exact h' k hk)]
          rfl
        · simp only [NamedArray.axispos, if_neg hn]; rfl
    rw [this order hm]; rfl

/-- Non-vacuity: a matrix with named axes, contracted with a copy of itself with renamed axes. -/
example : ∃ (x y : NamedArray String ℤ), x.WF ∧ y.WF ∧ "b" ∈ x.names ∧ "b" ∈ y.names ∧
    x.dim "b" = y.dim "b" ∧ (∀ k ∈ x.names, k ∈ y.names → k = "b" ∨ k = "b") ∧
    x.dim "a" ≠ x.dim "b" :=
  ⟨⟨⟨[2, 3], fun i => i.sum⟩, ["a", "b"]⟩, ⟨⟨[3, 4], fun i => i.prod⟩, ["b", "c"]⟩,
    ⟨rfl, by decide⟩, ⟨rfl, by decide⟩, by decide, by decide, by decide, by decide, by decide⟩

end Mpnum
