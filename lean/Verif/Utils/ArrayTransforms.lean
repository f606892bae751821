import Verif.Np.Contract

/-! # Model of mpnum/utils/array_transforms.py -/

namespace Mpnum

variable {R : Type}

/-- The middle part of the axis order on mpnum/utils/array_transforms.py:43. -/
def gtlOrder (left sites plegs : ℕ) : List ℕ :=
  (List.range sites).flatMap fun i => (List.range plegs).map fun j => left + i + sites * j

/-- The middle part of the axis order on mpnum/utils/array_transforms.py:78. -/
def ltgOrder (left sites plegs : ℕ) : List ℕ :=
  (List.range plegs).flatMap fun j => (List.range sites).map fun i => left + plegs * i + j

/-- Common part of mpnum/utils/array_transforms.py:38-46 and 73-81: the number of axes is checked and
the axes are permuted.  The number of remaining axes is an integer (it can be negative if the skips
are too large); `sites = 0` is a `ZeroDivisionError`. -/
def permuteLegs (order : ℕ → ℕ → ℕ → List ℕ) (a : NDArray R) (sites left right : ℕ) :
    Py (NDArray R) := do
  let ndim : ℤ := a.ndim - (left + right)
  if sites = 0 then .error .zeroDiv else do
    pyAssert (ndim % sites = 0)
    let plegs : ℤ := ndim / sites
    a.transpose ((List.range left ++ order left sites plegs.toNat).map (fun k : ℕ => (k : ℤ)) ++
      ((List.range right).map fun k : ℕ => (a.ndim : ℤ) - right + k))

/-- mpnum/utils/array_transforms.py:14-46 `global_to_local` -/
def globalToLocal (a : NDArray R) (sites : ℕ) (left right : ℕ := 0) : Py (NDArray R) :=
  permuteLegs gtlOrder a sites left right

/-- mpnum/utils/array_transforms.py:49-81 `local_to_global` -/
def localToGlobal (a : NDArray R) (sites : ℕ) (left right : ℕ := 0) : Py (NDArray R) :=
  permuteLegs ltgOrder a sites left right

/-- Specification: the values `j n k` (leg `k` of site `n`) grouped by site. -/
def bySite (sites plegs : ℕ) (j : ℕ → ℕ → ℕ) : List ℕ :=
  (List.range sites).flatMap fun n => (List.range plegs).map fun k => j n k

/-- Specification: the values `j n k` (leg `k` of site `n`) grouped by leg. -/
def byLeg (sites plegs : ℕ) (j : ℕ → ℕ → ℕ) : List ℕ :=
  (List.range plegs).flatMap fun k => (List.range sites).map fun n => j n k

/-- All values `f i j` for `i < m`, `j < n`, in row-major order. -/
def grid (m n : ℕ) (f : ℕ → ℕ → ℕ) : List ℕ :=
  (List.range m).flatMap fun i => (List.range n).map fun j => f i j

theorem grid_length (m n : ℕ) (f : ℕ → ℕ → ℕ) : (grid m n f).length = m * n := by
  simp [grid, List.length_flatMap]

theorem grid_succ (m n : ℕ) (f : ℕ → ℕ → ℕ) :
    grid (m + 1) n f = grid m n f ++ (List.range n).map fun j => f m j := by
  simp [grid, List.range_succ, List.flatMap_append]

theorem grid_getElem? {m n i j : ℕ} (f : ℕ → ℕ → ℕ) (hi : i < m) (hj : j < n) :
    (grid m n f)[i * n + j]? = some (f i j) := by
  induction m with
  | zero => omega
  | succ m ih =>
    rw [grid_succ]
    rcases Nat.lt_succ_iff_lt_or_eq.1 hi with h | rfl
    · rw [List.getElem?_append_left]
      · exact ih h
      · rw [grid_length]
        calc i * n + j < i * n + n := by omega
          _ = (i + 1) * n := by ring
          _ ≤ m * n := Nat.mul_le_mul_right _ h
    · rw [List.getElem?_append_right (by rw [grid_length]; omega), grid_length,
        Nat.add_sub_cancel_left, List.getElem?_map, List.getElem?_range hj]
      rfl

theorem grid_getD {m n i j : ℕ} (f : ℕ → ℕ → ℕ) (hi : i < m) (hj : j < n) :
    (grid m n f).getD (i * n + j) 0 = f i j := by
  rw [List.getD_eq_getElem?_getD, grid_getElem? f hi hj]; rfl

theorem grid_map {m n : ℕ} (f : ℕ → ℕ → ℕ) (g : ℕ → ℕ) :
    (grid m n f).map g = grid m n fun i j => g (f i j) := by
  simp [grid, List.map_flatMap, Function.comp_def]

theorem grid_congr {m n : ℕ} {f g : ℕ → ℕ → ℕ} (h : ∀ i < m, ∀ j < n, f i j = g i j) :
    grid m n f = grid m n g := by
  unfold grid
  refine List.flatMap_congr fun i hi => List.map_congr_left fun j hj => ?_
  exact h i (List.mem_range.1 hi) j (List.mem_range.1 hj)

theorem range_grid (m n : ℕ) : List.range (m * n) = grid m n fun i j => i * n + j := by
  induction m with
  | zero => simp [grid]
  | succ m ih =>
    rw [grid_succ, ← ih, Nat.succ_mul, List.range_add]

theorem mem_grid {m n x : ℕ} {f : ℕ → ℕ → ℕ} : x ∈ grid m n f ↔ ∃ i < m, ∃ j < n, f i j = x := by
  simp [grid]

theorem nodup_grid {m n : ℕ} {f : ℕ → ℕ → ℕ}
    (h : ∀ i < m, ∀ j < n, ∀ i' < m, ∀ j' < n, f i j = f i' j' → i = i' ∧ j = j') :
    (grid m n f).Nodup := by
  unfold grid
  rw [List.nodup_flatMap]
  constructor
  · intro i hi
    refine (List.nodup_map_iff_inj_on List.nodup_range).2 fun j hj j' hj' he => ?_
    exact (h i (List.mem_range.1 hi) j (List.mem_range.1 hj) i (List.mem_range.1 hi) j'
      (List.mem_range.1 hj') he).2
  · refine List.Pairwise.imp_of_mem (R := fun a b => a ≠ b) ?_ List.nodup_range
    intro i i' hi hi' hne x hx hx'
    obtain ⟨j, hj, rfl⟩ := List.mem_map.1 hx
    obtain ⟨j', hj', he⟩ := List.mem_map.1 hx'
    exact hne (h i (List.mem_range.1 hi) j (List.mem_range.1 hj) i' (List.mem_range.1 hi') j'
      (List.mem_range.1 hj') he.symm).1

theorem grid_perm_range {m n : ℕ} {f : ℕ → ℕ → ℕ} (hlt : ∀ i < m, ∀ j < n, f i j < m * n)
    (h : ∀ i < m, ∀ j < n, ∀ i' < m, ∀ j' < n, f i j = f i' j' → i = i' ∧ j = j') :
    (grid m n f).Perm (List.range (m * n)) := by
  refine (List.subperm_of_subset (nodup_grid h) ?_).perm_of_length_le (by simp [grid_length])
  intro x hx
  obtain ⟨i, hi, j, hj, rfl⟩ := mem_grid.1 hx
  exact List.mem_range.2 (hlt i hi j hj)

theorem div_mod_inj {n a b a' b' : ℕ} (hb : b < n) (hb' : b' < n) (h : b + n * a = b' + n * a') :
    a = a' ∧ b = b' := by
  have h1 : (b + n * a) / n = (b' + n * a') / n := by rw [h]
  have h2 : (b + n * a) % n = (b' + n * a') % n := by rw [h]
  have hn : 0 < n := by omega
  rw [Nat.add_mul_div_left _ _ hn, Nat.add_mul_div_left _ _ hn, Nat.div_eq_of_lt hb,
    Nat.div_eq_of_lt hb'] at h1
  rw [Nat.add_mul_mod_self_left, Nat.add_mul_mod_self_left, Nat.mod_eq_of_lt hb,
    Nat.mod_eq_of_lt hb'] at h2
  omega

/-- The general permutation: middle axes in the order `f`. -/
theorem permuteLegs_ok {order : ℕ → ℕ → ℕ → List ℕ} {a : NDArray R} {sites plegs left right : ℕ}
    (hs : 0 < sites) (hn : a.ndim = left + sites * plegs + right) {σ : List ℕ}
    (ho : order left sites plegs = σ.map (left + ·)) (hσ : σ.Perm (List.range (sites * plegs))) :
    ∃ b, permuteLegs order a sites left right = .ok b ∧
      (∀ L M P, a.shape = L ++ M ++ P → L.length = left → P.length = right →
        b.shape = L ++ (σ.map fun p => M.getD p 0) ++ P) ∧
      ∀ L M P : List ℕ, L.length = left → M.length = sites * plegs → P.length = right →
        b.get (L ++ (σ.map fun p => M.getD p 0) ++ P) = a.get (L ++ M ++ P) := by
  obtain ⟨perm, hperm⟩ : ∃ perm, perm = List.range left ++ σ.map (left + ·) ++
    (List.range right).map (left + sites * plegs + ·) := ⟨_, rfl⟩
  have hpr : perm.Perm (List.range a.ndim) := by
    rw [hn, hperm, List.range_add, List.range_add]
    exact (List.Perm.refl _).append (hσ.map _) |>.append (List.Perm.refl _)
  have hmap : ∀ L M P : List ℕ, L.length = left → M.length = sites * plegs → P.length = right →
      (perm.map fun p => (L ++ M ++ P).getD p 0) = L ++ (σ.map fun p => M.getD p 0) ++ P := by
    intro L M P hL hM hP
    rw [hperm, List.map_append, List.map_append, List.map_map, List.map_map]
    congr 1
    · congr 1
      · conv_rhs => rw [← map_getD_range' hL]
        refine List.map_congr_left fun p hp => ?_
        have := List.mem_range.1 hp
        rw [List.append_assoc, getD_append_lt (by omega)]
      · refine List.map_congr_left fun p hp => ?_
        have hp' : p < sites * plegs := List.mem_range.1 (hσ.mem_iff.1 hp)
        simp only [Function.comp]
        rw [List.append_assoc, getD_append_len (n := p) (by omega), getD_append_lt (by omega)]
    · conv_rhs => rw [← map_getD_range' hP]
      refine List.map_congr_left fun p hp => ?_
      simp only [Function.comp]
      rw [getD_append_len (n := p) (by simp only [List.length_append]; omega)]
  refine ⟨a.transposeTo perm, ?_, ?_, ?_⟩
  · unfold permuteLegs
    simp only
    rw [if_neg (by omega)]
    have hnd : (a.ndim : ℤ) - (left + right) = ((plegs : ℤ)) * sites := by
      rw [hn]; push_cast; ring
    rw [hnd, pyAssert, if_pos (by simp), Int.mul_ediv_cancel _ (by omega)]
    simp only [bind, Except.bind, Int.toNat_natCast]
    rw [ho, ← NDArray.transpose_ok hpr, hperm]
    congr 1
    rw [List.map_append (l₂ := (List.range right).map _)]
    congr 1
    rw [List.map_map]
    refine List.map_congr_left fun k _ => ?_
    simp only [Function.comp]
    rw [hn]; push_cast; ring
  · intro L M P hs' hL hP
    have hM : M.length = sites * plegs := by
      have := congrArg List.length hs'
      simp only [List.length_append] at this
      have h2 : a.ndim = a.shape.length := rfl
      omega
    rw [NDArray.transposeTo_shape, hs', hmap L M P hL hM hP]
  · intro L M P hL hM hP
    rw [← hmap L M P hL hM hP]
    exact NDArray.transposeTo_get_perm hpr (by rw [hn]; simp only [List.length_append]; omega)

theorem gtlOrder_eq (left sites plegs : ℕ) :
    gtlOrder left sites plegs = (grid sites plegs fun i j => i + sites * j).map (left + ·) := by
  rw [grid_map]; unfold gtlOrder grid
  simp only [Nat.add_assoc]

theorem ltgOrder_eq (left sites plegs : ℕ) :
    ltgOrder left sites plegs = (grid plegs sites fun j i => j + plegs * i).map (left + ·) := by
  rw [grid_map]; unfold ltgOrder grid
  refine List.flatMap_congr fun j _ => List.map_congr_left fun i _ => by
    dsimp only; omega

theorem gtl_perm (m n : ℕ) : (grid m n fun i j => i + m * j).Perm (List.range (m * n)) := by
  refine grid_perm_range ?_ ?_
  · intro i hi j hj
    calc i + m * j < m + m * j := by omega
      _ = m * (j + 1) := by ring
      _ ≤ m * n := Nat.mul_le_mul_left _ hj
  · intro i hi j hj i' hi' j' hj' h
    have := div_mod_inj hi hi' h
    exact ⟨this.2, this.1⟩

theorem map_byLeg {sites plegs : ℕ} (j : ℕ → ℕ → ℕ) :
    ((grid sites plegs fun i k => i + sites * k).map fun p => (byLeg sites plegs j).getD p 0)
      = bySite sites plegs j := by
  rw [grid_map]
  refine grid_congr fun i hi k hk => ?_
  have := grid_getD (m := plegs) (n := sites) (fun k i => j i k) hk hi
  rw [Nat.add_comm, Nat.mul_comm]
  exact this

theorem map_bySite {sites plegs : ℕ} (j : ℕ → ℕ → ℕ) :
    ((grid plegs sites fun k i => k + plegs * i).map fun p => (bySite sites plegs j).getD p 0)
      = byLeg sites plegs j := map_byLeg (sites := plegs) (plegs := sites) fun k i => j i k

theorem globalToLocal_ok {a : NDArray R} {sites plegs : ℕ} (hs : 0 < sites)
    {L P : List ℕ} {d : ℕ → ℕ → ℕ} (ha : a.shape = L ++ byLeg sites plegs d ++ P) :
    ∃ b, globalToLocal a sites L.length P.length = .ok b ∧
      b.shape = L ++ bySite sites plegs d ++ P ∧
      ∀ (l : List ℕ) (j : ℕ → ℕ → ℕ) (r : List ℕ), l.length = L.length → r.length = P.length →
        b.get (l ++ bySite sites plegs j ++ r) = a.get (l ++ byLeg sites plegs j ++ r) := by
  have hlen : ∀ j, (byLeg sites plegs j).length = sites * plegs := fun j => by
    rw [Nat.mul_comm]; exact grid_length plegs sites _
  have hn : a.ndim = L.length + sites * plegs + P.length := by
    unfold NDArray.ndim; rw [ha]; simp only [List.length_append, hlen]
  obtain ⟨b, h1, h2, h3⟩ := permuteLegs_ok hs hn (gtlOrder_eq _ _ _) (gtl_perm _ _)
  refine ⟨b, h1, ?_, ?_⟩
  · rw [h2 L _ P ha rfl rfl, map_byLeg]
  · intro l j r hl hr
    rw [← h3 l _ r hl (hlen j) hr, map_byLeg]

theorem localToGlobal_ok {a : NDArray R} {sites plegs : ℕ} (hs : 0 < sites)
    {L P : List ℕ} {d : ℕ → ℕ → ℕ} (ha : a.shape = L ++ bySite sites plegs d ++ P) :
    ∃ b, localToGlobal a sites L.length P.length = .ok b ∧
      b.shape = L ++ byLeg sites plegs d ++ P ∧
      ∀ (l : List ℕ) (j : ℕ → ℕ → ℕ) (r : List ℕ), l.length = L.length → r.length = P.length →
        b.get (l ++ byLeg sites plegs j ++ r) = a.get (l ++ bySite sites plegs j ++ r) := by
  have hlen : ∀ j, (bySite sites plegs j).length = sites * plegs := fun j => grid_length sites plegs _
  have hn : a.ndim = L.length + sites * plegs + P.length := by
    unfold NDArray.ndim; rw [ha]; simp only [List.length_append, hlen]
  have hp : (grid plegs sites fun k i => k + plegs * i).Perm (List.range (sites * plegs)) := by
    rw [Nat.mul_comm]; exact gtl_perm plegs sites
  obtain ⟨b, h1, h2, h3⟩ := permuteLegs_ok hs hn (ltgOrder_eq _ _ _) hp
  refine ⟨b, h1, ?_, ?_⟩
  · rw [h2 L _ P ha rfl rfl, map_bySite]
  · intro l j r hl hr
    rw [← h3 l _ r hl (hlen j) hr, map_bySite]

end Mpnum
