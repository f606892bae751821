import Verif.MPArray.AddLemmas

/-!
# Model of `block_diag` of /repo/mpnum/utils/extmath.py
-/

open Finset

namespace Mpnum

variable {R : Type}

namespace NDArray

/-- `res[slice(start₀, stop₀), …] += v` (extmath.py:97): the remaining axes are not sliced, `v` is
broadcast to the view; `ValueError` if that is not possible. -/
def addLead [Add R] (res v : NDArray R) (start stop : List ℕ) : Py (NDArray R) :=
  let target := List.zipWith (· - ·) stop start ++ res.shape.drop start.length
  if bshape v.shape target = some target then
    .ok ⟨res.shape, fun idx =>
      if ((start.zip stop).zip idx).all fun q => decide (q.1.1 ≤ q.2 ∧ q.2 < q.1.2) then
        res.get idx + v.get (bidx v.shape
          (List.zipWith (· - ·) (idx.take start.length) start ++ idx.drop start.length))
      else res.get idx⟩
  else .error .value

end NDArray

/-- The loop of `block_diag` (extmath.py:94-98); `k` is `nr_axes`. -/
def blockDiagLoop [Add R] (k : ℕ) : List (NDArray R) → NDArray R → List ℕ → Py (NDArray R)
  | [], res, _ => .ok res
  | t :: ts, res, start => do
    let stop := List.zipWith (· + ·) start (t.shape.take k)
    let res ← res.addLead t start stop
    blockDiagLoop k ts res stop

/-- `axes_order` of `block_diag` (extmath.py:80-86). -/
def blockDiagOrder (n : ℕ) (axes : List ℤ) : List ℤ :=
  let ax := axes.map fun a : ℤ => if a < 0 then a + (n : ℤ) else a
  ax ++ ((List.range n).map fun k : ℕ => (k : ℤ)).filter (· ∉ ax)

/-- `block_diag(summands, axes)` (extmath.py:46-104); `IndexError` for an empty list.
`np.argsort(axes_order)` is the inverse permutation.  Element types are not part of the model. -/
def blockDiag [Zero R] [Add R] (ts : List (NDArray R)) (axes : List ℤ) : Py (NDArray R) :=
  match ts with
  | [] => .error .index
  | t :: _ => do
    let n := t.ndim
    let order := blockDiagOrder n axes
    let us ← ts.mapM fun t => t.transpose order
    let k := axes.length
    let sizes := us.foldl (fun s u => List.zipWith (· + ·) s (u.shape.take k)) (List.replicate k 0)
    let res := NDArray.zeros (sizes ++ ((us.head?.map NDArray.shape).getD []).drop k)
    let res ← blockDiagLoop k us res (List.replicate k 0)
    res.transpose ((List.range n).map fun p : ℕ => ((order.idxOf (p : ℤ) : ℕ) : ℤ))

/-! ### `axes = (0, -1)` -/

/-- `axes_order` for `axes = (0, -1)` and `m` physical legs. -/
def bdPerm (m : ℕ) : List ℕ := 0 :: (m + 1) :: (List.range m).map (· + 1)

theorem bdPerm_perm (m : ℕ) : (bdPerm m).Perm (List.range (m + 2)) := by
  rw [List.perm_ext_iff_of_nodup]
  · intro a
    simp only [bdPerm, List.mem_cons, List.mem_map, List.mem_range]
    constructor
    · rintro (h | h | ⟨b, hb, rfl⟩) <;> omega
    · intro h
      rcases Nat.eq_zero_or_pos a with h0 | h0
      · exact Or.inl h0
      · rcases Nat.lt_or_ge a (m + 1) with h1 | h1
        · exact Or.inr (Or.inr ⟨a - 1, by omega, by omega⟩)
        · exact Or.inr (Or.inl (by omega))
  · rw [bdPerm, List.nodup_cons, List.nodup_cons]
    refine ⟨by simp, by simp, List.nodup_range.map fun _ _ h => by omega⟩
  · exact List.nodup_range

theorem bdPerm_map (m a b : ℕ) {p : List ℕ} (hp : p.length = m) :
    (bdPerm m).map (fun q => (a :: (p ++ [b])).getD q 0) = a :: b :: p := by
  simp only [bdPerm, List.map_cons, List.getD_cons_zero, List.map_map]
  congr 2
  · rw [← hp, getD_last]
  · conv_rhs => rw [← map_getD_range' hp]
    refine List.map_congr_left fun q hq => ?_
    have hq : q < p.length := by simpa [hp] using hq
    exact getD_bonds_aux hq
where
  getD_bonds_aux {q : ℕ} {p : List ℕ} {a b : ℕ} (h : q < p.length) :
    (a :: (p ++ [b])).getD (q + 1) 0 = p.getD q 0 := by
      rw [List.getD_cons_succ, getD_append_lt h]

theorem blockDiagOrder_eq (m : ℕ) :
    blockDiagOrder (m + 2) [0, -1] = (bdPerm m).map fun k : ℕ => (k : ℤ) := by
  have hax : ([0, -1] : List ℤ).map (fun a => if a < 0 then a + ((m + 2 : ℕ) : ℤ) else a)
      = [0, ((m + 1 : ℕ) : ℤ)] := by
    simp; omega
  unfold blockDiagOrder
  simp only [hax]
  have : ((List.range (m + 2)).map fun k : ℕ => (k : ℤ)).filter (· ∉ [0, ((m + 1 : ℕ) : ℤ)])
      = ((List.range m).map (· + 1)).map fun k : ℕ => (k : ℤ) := by
    rw [List.filter_map, List.range_succ, List.filter_append, List.range_succ_eq_map,
      List.filter_cons]
    have h0 : ((fun x : ℤ => decide (x ∉ [0, ((m + 1 : ℕ) : ℤ)])) ∘ fun k : ℕ => (k : ℤ)) 0
        = false := by simp
    have h1 : ((fun x : ℤ => decide (x ∉ [0, ((m + 1 : ℕ) : ℤ)])) ∘ fun k : ℕ => (k : ℤ)) (m + 1)
        = false := by simp
    rw [h0, List.filter_singleton, h1]
    simp only [Bool.false_eq_true, if_false, cond_false, List.append_nil]
    congr 1
    rw [List.filter_eq_self]
    intro a ha
    obtain ⟨b, hb, rfl⟩ := List.mem_map.1 ha
    have hb : b < m := by simpa using hb
    simp
    omega
  rw [this]
  rfl

theorem bdPerm_inv (m : ℕ) : ((List.range (m + 2)).map fun p => (bdPerm m).idxOf p)
    = 0 :: ((List.range m).map (· + 2) ++ [1]) := by
  rw [List.range_succ, List.map_append, List.range_succ_eq_map]
  simp only [List.map_cons, List.map_map, List.cons_append, List.map_nil]
  congr 1
  congr 1
  · refine List.map_congr_left fun q hq => ?_
    have hq : q < m := by simpa using hq
    show (bdPerm m).idxOf (q + 1) = q + 2
    unfold bdPerm
    rw [List.idxOf_cons_ne _ (by omega), List.idxOf_cons_ne _ (by omega), NDArray.idxOf_map_succ,
      idxOf_range hq]
  · unfold bdPerm
    rw [List.idxOf_cons_ne _ (by omega), List.idxOf_cons_self]

theorem bdInv_map (m a b : ℕ) {p : List ℕ} (hp : p.length = m) :
    (0 :: ((List.range m).map (· + 2) ++ [1])).map (fun q => (a :: b :: p).getD q 0)
      = a :: (p ++ [b]) := by
  simp only [List.map_cons, List.map_append, List.map_map, List.getD_cons_zero, List.map_nil]
  congr 1
  congr 1
  conv_rhs => rw [← map_getD_range' hp]
  refine List.map_congr_left fun q _ => ?_
  rfl

theorem bdInv_perm (m : ℕ) : (0 :: ((List.range m).map (· + 2) ++ [1])).Perm (List.range (m + 2)) := by
  rw [List.perm_ext_iff_of_nodup]
  · intro a
    simp only [List.mem_cons, List.mem_append, List.mem_map, List.mem_range]
    constructor
    · rintro (h | ⟨b, hb, rfl⟩ | h)
      · omega
      · omega
      · simp at h; omega
    · intro h
      rcases Nat.lt_or_ge a 2 with h0 | h0
      · rcases Nat.eq_zero_or_pos a with h1 | h1
        · exact Or.inl h1
        · exact Or.inr (Or.inr (by simp; omega))
      · exact Or.inr (Or.inl ⟨a - 2, by omega, by omega⟩)
  · rw [List.nodup_cons, List.nodup_append]
    refine ⟨by simp, List.nodup_range.map fun _ _ h => by omega, by simp, ?_⟩
    intro a ha b hb
    obtain ⟨c, _, rfl⟩ := List.mem_map.1 ha
    simp at hb
    omega
  · exact List.nodup_range

theorem blockDiagLoop_ok [AddMonoid R] {P : List ℕ} (us : List (NDArray R × NDArray R))
    (h : ∀ t ∈ us, t.2.shape = t.1.lb :: t.1.rb :: P ∧
      ∀ a b p, p.length = P.length → t.2.get (a :: b :: p) = t.1.at3 a p b) :
    ∀ (res : NDArray R) (pl pr L Rr : ℕ), res.shape = L :: Rr :: P →
      (∀ a b p, pl ≤ a ∨ pr ≤ b → res.get (a :: b :: p) = 0) →
      ∃ c, blockDiagLoop 2 (us.map Prod.snd) res [pl, pr] = .ok c ∧ c.shape = L :: Rr :: P ∧
        ∀ a b p, InB p P → c.get (a :: b :: p) =
          if a < pl ∨ b < pr then res.get (a :: b :: p)
          else blockGet (us.map Prod.fst) (a - pl) p (b - pr) := by
  induction us with
  | nil =>
    intro res pl pr L Rr hs hz
    refine ⟨res, rfl, hs, ?_⟩
    intro a b p hp
    split
    · rfl
    · exact hz a b p (by omega)
  | cons t us ih =>
    intro res pl pr L Rr hs hz
    obtain ⟨ht, htg⟩ := h t (by simp)
    simp only [List.map_cons, blockDiagLoop]
    have hstop : List.zipWith (· + ·) [pl, pr] (t.2.shape.take 2) = [pl + t.1.lb, pr + t.1.rb] := by
      rw [ht]; rfl
    rw [hstop]
    have htarget : List.zipWith (· - ·) [pl + t.1.lb, pr + t.1.rb] [pl, pr]
        ++ res.shape.drop ([pl, pr] : List ℕ).length = t.2.shape := by
      rw [hs, ht]; simp
    unfold NDArray.addLead
    simp only [htarget]
    rw [if_pos (bshape_self _), ok_bind]
    obtain ⟨new, hnew⟩ : ∃ new : NDArray R, new = ⟨res.shape, fun idx =>
      if (([pl, pr].zip [pl + t.1.lb, pr + t.1.rb]).zip idx).all
          fun q => decide (q.1.1 ≤ q.2 ∧ q.2 < q.1.2) then
        res.get idx + t.2.get (bidx t.2.shape
          (List.zipWith (· - ·) (idx.take ([pl, pr] : List ℕ).length) [pl, pr]
            ++ idx.drop ([pl, pr] : List ℕ).length))
      else res.get idx⟩ := ⟨_, rfl⟩
    rw [← hnew]
    have hnewget : ∀ a b p, InB p P → new.get (a :: b :: p) =
        if pl ≤ a ∧ a < pl + t.1.lb ∧ pr ≤ b ∧ b < pr + t.1.rb then
          res.get (a :: b :: p) + t.1.at3 (a - pl) p (b - pr) else res.get (a :: b :: p) := by
      intro a b p hp
      rw [hnew]
      simp only [List.zip_cons_cons, List.zip_nil_left, List.all_cons, List.all_nil, Bool.and_true,
        Bool.and_eq_true, decide_eq_true_eq, List.length_cons, List.length_nil, List.take_succ_cons,
        List.take_zero, List.zipWith_cons_cons, List.zipWith_nil_right, List.drop_succ_cons,
        List.drop_zero, List.cons_append, List.nil_append]
      by_cases hc : pl ≤ a ∧ a < pl + t.1.lb ∧ pr ≤ b ∧ b < pr + t.1.rb
      · rw [if_pos (by tauto), if_pos hc, bidx_self, htg _ _ _ (inB_length hp)]
        rw [ht]
        exact .cons (by omega) (.cons (by omega) hp)
      · rw [if_neg (by tauto), if_neg hc]
    have hnewz : ∀ a b p, (pl + t.1.lb ≤ a ∨ pr + t.1.rb ≤ b) → new.get (a :: b :: p) = 0 := by
      intro a b p hab
      rw [hnew]
      simp only [List.zip_cons_cons, List.zip_nil_left, List.all_cons, List.all_nil, Bool.and_true,
        Bool.and_eq_true, decide_eq_true_eq]
      rw [if_neg (by omega)]
      exact hz a b p (by omega)
    obtain ⟨c, hc, hcs, hcg⟩ := ih (fun t ht => h t (by simp [ht])) new (pl + t.1.lb)
      (pr + t.1.rb) L Rr (by rw [hnew]; exact hs) hnewz
    refine ⟨c, hc, hcs, ?_⟩
    intro a b p hp
    rw [hcg a b p hp, hnewget a b p hp]
    by_cases h1 : a < pl ∨ b < pr
    · rw [if_pos (by omega), if_neg (by omega), if_pos h1]
    · rw [if_neg h1]
      simp only [blockGet]
      by_cases h2 : a < pl + t.1.lb
      · rw [if_pos (by omega), if_pos (show a - pl < t.1.lb by omega)]
        by_cases h3 : b < pr + t.1.rb
        · rw [if_pos (by omega), if_pos (by omega), hz a b p (by omega), zero_add]
        · rw [if_neg (by omega), if_neg (by omega)]; exact hz a b p (by omega)
      · rw [if_neg (show ¬ a - pl < t.1.lb by omega)]
        by_cases h3 : b < pr + t.1.rb
        · rw [if_pos (by omega), if_neg (by omega), if_pos (by omega)]; exact hz a b p (by omega)
        · rw [if_neg (by omega), if_neg (by omega), Nat.sub_add_eq, Nat.sub_add_eq]

/-- `block_diag(ts, axes=(0, -1))` of local tensors with equal physical legs: block diagonal in the
virtual legs. -/
theorem blockDiag_ok [AddMonoid R] {ts : List (NDArray R)} {P : List ℕ} (hne : ts ≠ [])
    (h : ∀ t ∈ ts, t.shape = t.lb :: (P ++ [t.rb])) :
    ∃ c, blockDiag ts [0, -1] = .ok c ∧
      c.shape = (ts.map NDArray.lb).sum :: (P ++ [(ts.map NDArray.rb).sum]) ∧
      ∀ a p b, InB p P → c.at3 a p b = blockGet ts a p b := by
  obtain ⟨m, hm⟩ : ∃ m, m = P.length := ⟨_, rfl⟩
  have hnd : ∀ t ∈ ts, t.ndim = m + 2 := fun t ht => by rw [NDArray.ndim, h t ht]; simp [hm]
  have htr : ∀ t ∈ ts, t.transpose (blockDiagOrder (m + 2) [0, -1]) = .ok (t.transposeTo (bdPerm m)) := by
    intro t ht
    rw [blockDiagOrder_eq]
    exact NDArray.transpose_ok (by rw [hnd t ht]; exact bdPerm_perm m)
  have hts : ∀ t ∈ ts, (t.transposeTo (bdPerm m)).shape = t.lb :: t.rb :: P := by
    intro t ht
    rw [NDArray.transposeTo_shape, h t ht]
    conv_lhs => rw [bdPerm_map m t.lb t.rb hm.symm]
  have htg : ∀ t ∈ ts, ∀ a b p, p.length = P.length →
      (t.transposeTo (bdPerm m)).get (a :: b :: p) = t.at3 a p b := by
    intro t ht a b p hp
    rw [← bdPerm_map m a b (p := p) (by omega),
      NDArray.transposeTo_get_perm (by rw [hnd t ht]; exact bdPerm_perm m)
        (by rw [hnd t ht]; simp; omega)]
    rfl
  obtain ⟨t, us, rfl⟩ := List.exists_cons_of_ne_nil hne
  obtain ⟨ts, hts'⟩ : ∃ ts, ts = t :: us := ⟨_, rfl⟩
  have hmap : ts.mapM (fun t => t.transpose (blockDiagOrder (m + 2) [0, -1]))
      = .ok (ts.map fun t => t.transposeTo (bdPerm m)) := by
    rw [hts']
    exact mapM_ok_iff.2 (by
      rw [List.forall₂_map_right_iff, List.forall₂_same]
      exact htr)
  have hsz : ∀ (vs : List (NDArray R)), (∀ v ∈ vs, v ∈ ts) → ∀ l r,
      (vs.map fun t => t.transposeTo (bdPerm m)).foldl
        (fun s u => List.zipWith (· + ·) s (u.shape.take 2)) [l, r]
      = [l + (vs.map NDArray.lb).sum, r + (vs.map NDArray.rb).sum] := by
    intro vs
    induction vs with
    | nil => intro _ l r; simp
    | cons v vs ih =>
      intro hv l r
      have : (v.transposeTo (bdPerm m)).shape = v.lb :: v.rb :: P :=
        hts v (by rw [← hts']; exact hv v (by simp))
      simp only [List.map_cons, List.foldl_cons, this, List.take_succ_cons, List.take_zero,
        List.zipWith_cons_cons, List.zipWith_nil_right, List.sum_cons]
      rw [ih (fun v hv' => hv v (by simp [hv']))]
      simp only [add_assoc]
  obtain ⟨c, hc, hcs, hcg⟩ := blockDiagLoop_ok (P := P) (ts.map fun t => (t, t.transposeTo (bdPerm m)))
    (by
      intro q hq
      obtain ⟨v, hv, rfl⟩ := List.mem_map.1 hq
      rw [hts'] at hv
      exact ⟨hts v hv, htg v hv⟩)
    (NDArray.zeros ((ts.map NDArray.lb).sum :: (ts.map NDArray.rb).sum :: P)) 0 0 _ _ rfl
    (fun _ _ _ _ => rfl)
  rw [List.map_map] at hc
  rw [List.map_map] at hcg
  have e1 : (Prod.snd ∘ fun t : NDArray R => (t, t.transposeTo (bdPerm m)))
      = fun t => t.transposeTo (bdPerm m) := rfl
  have e2 : (Prod.fst ∘ fun t : NDArray R => (t, t.transposeTo (bdPerm m))) = id := rfl
  rw [e1] at hc
  rw [e2, List.map_id] at hcg
  have hcn : c.ndim = m + 2 := by rw [NDArray.ndim, hcs]; simp [hm]
  refine ⟨c.transposeTo (0 :: ((List.range m).map (· + 2) ++ [1])), ?_, ?_, ?_⟩
  · unfold blockDiag
    simp only
    rw [hnd t (by simp), ← hts', hmap, ok_bind]
    have hz : (List.replicate ([0, -1] : List ℤ).length 0 : List ℕ) = [0, 0] := rfl
    rw [hz]
    have hl : ([0, -1] : List ℤ).length = 2 := rfl
    rw [hl, hsz ts (fun _ h => h) 0 0, zero_add, zero_add]
    have hh : ((List.map (fun t : NDArray R => t.transposeTo (bdPerm m)) ts).head?.map
        NDArray.shape).getD [] = t.lb :: t.rb :: P := by
      rw [hts']
      exact hts t (by simp)
    rw [hh]
    have hd : [(ts.map NDArray.lb).sum, (ts.map NDArray.rb).sum] ++ (t.lb :: t.rb :: P).drop 2
        = (ts.map NDArray.lb).sum :: (ts.map NDArray.rb).sum :: P := rfl
    rw [hd, hc, ok_bind]
    have hinv : ((List.range (m + 2)).map fun p : ℕ => (((blockDiagOrder (m + 2) [0, -1]).idxOf (p : ℤ) : ℕ) : ℤ))
        = (0 :: ((List.range m).map (· + 2) ++ [1])).map fun k : ℕ => (k : ℤ) := by
      rw [← bdPerm_inv, List.map_map, blockDiagOrder_eq]
      refine List.map_congr_left fun p _ => ?_
      show ((((bdPerm m).map fun k : ℕ => (k : ℤ)).idxOf (p : ℤ) : ℕ) : ℤ) = ((bdPerm m).idxOf p : ℤ)
      congr 1
      generalize bdPerm m = l
      induction l with
      | nil => rfl
      | cons q l ih =>
        by_cases hq : q = p
        · subst hq; simp
        · rw [List.map_cons, List.idxOf_cons_ne _ (by exact_mod_cast hq), List.idxOf_cons_ne _ hq, ih]
    rw [hinv]
    exact NDArray.transpose_ok (by rw [hcn]; exact bdInv_perm m)
  · rw [NDArray.transposeTo_shape, hcs, bdInv_map m _ _ hm.symm, hts']
  · intro a p b hp
    have hpl := inB_length hp
    unfold NDArray.at3
    rw [← bdInv_map m a b (p := p) (by omega),
      NDArray.transposeTo_get_perm (by rw [hcn]; exact bdInv_perm m) (by rw [hcn]; simp; omega),
      hcg a b p hp, if_neg (by omega), hts']
    simp

end Mpnum
