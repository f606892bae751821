import Verif.MPArray.Add

open Finset

namespace Mpnum

variable {R : Type}

theorem bshapeRev_self (s : List ℕ) : bshapeRev s s = some s := by
  induction s with
  | nil => rfl
  | cons d s ih => simp [bshapeRev, ih]

theorem bshape_self (s : List ℕ) : bshape s s = some s := by
  simp [bshape, bshapeRev_self]

theorem bidx_self {s idx : List ℕ} (h : InB idx s) : bidx s idx = idx := by
  unfold bidx
  rw [inB_length h, Nat.sub_self, List.drop_zero]
  induction h with
  | nil => rfl
  | @cons i d is s h _ ih =>
    simp only [List.zipWith_cons_cons, ih, List.cons.injEq, and_true]
    split
    · omega
    · rfl

theorem assignable_self (s : List ℕ) : NDArray.assignable s s = true := by
  simp [NDArray.assignable, bshape_self]

theorem NDArray.add_ok [Add R] {a b : NDArray R} (h : b.shape = a.shape) :
    ∃ c, a.add b = .ok c ∧ c.shape = a.shape ∧
      ∀ idx, InB idx a.shape → c.get idx = a.get idx + b.get idx := by
  refine ⟨⟨a.shape, fun idx => a.get (bidx a.shape idx) + b.get (bidx a.shape idx)⟩,
    by unfold NDArray.add; rw [h, bshape_self], rfl, ?_⟩
  intro idx hi
  simp [bidx_self hi]

/-! ### block structures, recursively over the summands -/

/-- Entry of the block diagonal sum of local tensors. -/
def blockGet [Zero R] : List (NDArray R) → ℕ → List ℕ → ℕ → R
  | [], _, _, _ => 0
  | t :: ts, a, p, b =>
    if a < t.lb then (if b < t.rb then t.at3 a p b else 0)
    else if b < t.rb then 0 else blockGet ts (a - t.lb) p (b - t.rb)

/-- Entry of the concatenation along the left bond. -/
def rowGet [Zero R] : List (NDArray R) → ℕ → List ℕ → ℕ → R
  | [], _, _, _ => 0
  | t :: ts, a, p, b => if a < t.lb then t.at3 a p b else rowGet ts (a - t.lb) p b

/-- Entry of the concatenation along the right bond. -/
def colGet [Zero R] : List (NDArray R) → ℕ → List ℕ → ℕ → R
  | [], _, _, _ => 0
  | t :: ts, a, p, b => if b < t.rb then t.at3 a p b else colGet ts a p (b - t.rb)

/-- Select from consecutive ranges. -/
def pick [Zero R] : List (ℕ × (ℕ → R)) → ℕ → R
  | [], _ => 0
  | (l, f) :: fs, a => if a < l then f a else pick fs (a - l)

theorem sum_block_pick [Semiring R] (hs : List (NDArray R)) (gs : List (ℕ → R))
    (hl : gs.length = hs.length) (a : ℕ) (p : List ℕ) :
    ∑ c ∈ range (hs.map NDArray.rb).sum,
      blockGet hs a p c * pick (List.zip (hs.map NDArray.rb) gs) c
    = pick (List.zipWith (fun h g => (h.lb, fun a => ∑ c ∈ range h.rb, h.at3 a p c * g c)) hs gs) a := by
  induction hs generalizing gs a with
  | nil => simp [pick]
  | cons h hs ih =>
    cases gs with
    | nil => simp at hl
    | cons g gs =>
      simp only [List.map_cons, List.sum_cons, List.zip_cons_cons, List.zipWith_cons_cons, pick,
        Finset.sum_range_add]
      have h1 : ∑ c ∈ range h.rb, blockGet (h :: hs) a p c *
          (if c < h.rb then g c else pick (List.zip (hs.map NDArray.rb) gs) (c - h.rb))
          = if a < h.lb then ∑ c ∈ range h.rb, h.at3 a p c * g c else 0 := by
        split
        · refine Finset.sum_congr rfl fun c hc => ?_
          have hc : c < h.rb := by simpa using hc
          simp [blockGet, *]
        · refine Finset.sum_eq_zero fun c hc => ?_
          have hc : c < h.rb := by simpa using hc
          simp [blockGet, *]
      have h2 : ∑ c ∈ range (hs.map NDArray.rb).sum, blockGet (h :: hs) a p (h.rb + c) *
          (if h.rb + c < h.rb then g (h.rb + c)
            else pick (List.zip (hs.map NDArray.rb) gs) (h.rb + c - h.rb))
          = if a < h.lb then 0 else
            pick (List.zipWith (fun h g => (h.lb, fun a => ∑ c ∈ range h.rb, h.at3 a p c * g c)) hs gs)
              (a - h.lb) := by
        split
        · refine Finset.sum_eq_zero fun c _ => ?_
          simp [blockGet, *]
        · rw [← ih gs (by simpa using hl)]
          refine Finset.sum_congr rfl fun c _ => ?_
          simp [blockGet, *]
      rw [h1, h2]
      split <;> simp

theorem sum_col_pick [Semiring R] (hs : List (NDArray R)) (gs : List (ℕ → R))
    (hl : gs.length = hs.length) (a : ℕ) (p : List ℕ) :
    ∑ c ∈ range (hs.map NDArray.rb).sum,
      colGet hs a p c * pick (List.zip (hs.map NDArray.rb) gs) c
    = (List.zipWith (fun h g => ∑ c ∈ range h.rb, h.at3 a p c * g c) hs gs).sum := by
  induction hs generalizing gs with
  | nil => simp
  | cons h hs ih =>
    cases gs with
    | nil => simp at hl
    | cons g gs =>
      simp only [List.map_cons, List.sum_cons, List.zip_cons_cons, List.zipWith_cons_cons, pick,
        Finset.sum_range_add]
      congr 1
      · refine Finset.sum_congr rfl fun c hc => ?_
        have hc : c < h.rb := by simpa using hc
        simp [colGet, *]
      · rw [← ih gs (by simpa using hl)]
        refine Finset.sum_congr rfl fun c _ => ?_
        simp [colGet]

/-! ### the numpy operations produce these block structures -/

theorem set_last (l r d : ℕ) (p : List ℕ) :
    (l :: (p ++ [r])).set (p.length + 1) d = l :: (p ++ [d]) := by
  rw [List.set_cons_succ, List.set_append_right _ _ (le_refl _)]; simp

theorem getD_last (l r : ℕ) (p : List ℕ) : (l :: (p ++ [r])).getD (p.length + 1) 0 = r := by
  simp

theorem sum_map_getD_zero {ts : List (NDArray R)} (f : NDArray R → ℕ) (g : NDArray R → ℕ)
    (h : ∀ t ∈ ts, f t = g t) : (ts.map f).sum = (ts.map g).sum := by
  rw [List.map_congr_left h]

theorem concat_first_ok [Zero R] {ts : List (NDArray R)} {P : List ℕ} {r : ℕ} (hne : ts ≠ [])
    (h : ∀ t ∈ ts, t.shape = t.lb :: (P ++ [r])) :
    ∃ c, NDArray.concatenate ts 0 = .ok c ∧ c.shape = (ts.map NDArray.lb).sum :: (P ++ [r]) ∧
      ∀ a p b, c.at3 a p b = rowGet ts a p b := by
  obtain ⟨t, us, rfl⟩ := List.exists_cons_of_ne_nil hne
  have hget : ∀ ts : List (NDArray R), (∀ t ∈ ts, t.shape = t.lb :: (P ++ [r])) → ∀ a p b,
      NDArray.concatGet 0 ts (a :: (p ++ [b])) = rowGet ts a p b := by
    intro ts
    induction ts with
    | nil => intro _ a p b; rfl
    | cons t ts ih =>
      intro h a p b
      have ht := h t (by simp)
      have e : t.shape.getD 0 0 = t.lb := by rw [ht]; rfl
      simp only [NDArray.concatGet, List.getD_cons_zero, e, rowGet, NDArray.at3]
      split
      · rfl
      · rw [List.set_cons_zero]; exact ih (fun t ht => h t (by simp [ht])) _ _ _
  unfold NDArray.concatenate
  have hs := h t (by simp)
  dsimp only
  rw [if_pos]
  · refine ⟨_, rfl, ?_, fun a p b => hget _ h a p b⟩
    dsimp only
    rw [hs, List.set_cons_zero]
    congr 1
    exact sum_map_getD_zero _ _ fun u hu => by rw [h u hu]; rfl
  · refine ⟨by simp [NDArray.ndim, hs], ?_⟩
    intro b hb
    have hb' := h b hb
    refine ⟨by simp [NDArray.ndim, hs, hb'], ?_⟩
    rw [hb', hs]; rfl

theorem concat_last_ok [Zero R] {ts : List (NDArray R)} {P : List ℕ} {l : ℕ} (hne : ts ≠ [])
    (h : ∀ t ∈ ts, t.shape = l :: (P ++ [t.rb])) :
    ∃ c, concatLast ts = .ok c ∧ c.shape = l :: (P ++ [(ts.map NDArray.rb).sum]) ∧
      ∀ a p b, p.length = P.length → c.at3 a p b = colGet ts a p b := by
  obtain ⟨t, us, rfl⟩ := List.exists_cons_of_ne_nil hne
  have hget : ∀ ts : List (NDArray R), (∀ t ∈ ts, t.shape = l :: (P ++ [t.rb])) → ∀ a p b,
      p.length = P.length →
      NDArray.concatGet (P.length + 1) ts (a :: (p ++ [b])) = colGet ts a p b := by
    intro ts
    induction ts with
    | nil => intro _ a p b _; rfl
    | cons t ts ih =>
      intro h a p b hp
      have ht := h t (by simp)
      have e : t.shape.getD (P.length + 1) 0 = t.rb := by rw [ht, getD_last]
      have e2 : (a :: (p ++ [b])).getD (P.length + 1) 0 = b := by rw [← hp, getD_last]
      have e3 : ∀ d, (a :: (p ++ [b])).set (P.length + 1) d = a :: (p ++ [d]) := by
        intro d; rw [← hp, set_last]
      simp only [NDArray.concatGet, e, e2, e3, colGet, NDArray.at3]
      split
      · rfl
      · exact ih (fun t ht => h t (by simp [ht])) _ _ _ hp
  have hs := h t (by simp)
  have hnd : t.ndim = P.length + 2 := by simp [NDArray.ndim, hs]
  unfold concatLast NDArray.concatenate
  simp only [List.head?_cons, Option.map_some, Option.getD_some, hnd, Nat.add_one_sub_one]
  rw [if_pos]
  · refine ⟨_, rfl, ?_, fun a p b hp => hget _ h a p b hp⟩
    dsimp only
    rw [hs, set_last]
    congr 3
    exact sum_map_getD_zero _ _ fun u hu => by rw [h u hu, getD_last]
  · refine ⟨by omega, ?_⟩
    intro b hb
    have hb' := h b hb
    refine ⟨by simp [NDArray.ndim, hb'], ?_⟩
    rw [hb', hs, set_last, set_last]

theorem localAddLoop_ok [Zero R] {P : List ℕ} (ts : List (NDArray R))
    (h : ∀ t ∈ ts, t.shape = t.lb :: (P ++ [t.rb])) :
    ∀ (res : NDArray R) (pl pr L Rr : ℕ), res.shape = L :: (P ++ [Rr]) →
      (∀ a p b, pl ≤ a ∨ pr ≤ b → res.at3 a p b = 0) →
      ∃ c, localAddLoop ts res pl pr = .ok c ∧ c.shape = L :: (P ++ [Rr]) ∧
        ∀ a p b, InB p P → c.at3 a p b =
          if a < pl ∨ b < pr then res.at3 a p b else blockGet ts (a - pl) p (b - pr) := by
  induction ts with
  | nil =>
    intro res pl pr L Rr hs hz
    refine ⟨res, rfl, hs, ?_⟩
    intro a p b hp
    split
    · rfl
    · exact hz a p b (by omega)
  | cons t ts ih =>
    intro res pl pr L Rr hs hz
    have ht := h t (by simp)
    have hph : res.ph = P := NDArray.ph_of_shape hs
    have hnd : res.ndim = P.length + 2 := by simp [NDArray.ndim, hs]
    have hdrop : t.shape.drop (t.shape.length - res.ndim) = t.shape := by
      rw [ht, hnd]; simp
    simp only [localAddLoop]
    unfold NDArray.assignBlock
    rw [if_pos (by rw [Nat.add_sub_cancel_left, Nat.add_sub_cancel_left, hph, ← ht];
                   exact assignable_self _), hdrop]
    set new : NDArray R := ⟨res.shape, fun idx =>
      let a := idx.headD 0
      let b := idx.getLastD 0
      if pl ≤ a ∧ a < pl + t.lb ∧ pr ≤ b ∧ b < pr + t.rb then
        t.get (bidx t.shape ((a - pl) :: (idx.tail.dropLast ++ [b - pr])))
      else res.get idx⟩ with hnew
    have hlast : ∀ (a : ℕ) (p : List ℕ) (b : ℕ), (a :: (p ++ [b])).getLastD 0 = b := by
      intro a p b
      rw [← List.cons_append, List.getLastD_eq_getLast?, List.getLast?_concat]; rfl
    have hnewget : ∀ a p b, new.at3 a p b =
        if pl ≤ a ∧ a < pl + t.lb ∧ pr ≤ b ∧ b < pr + t.rb then
          t.get (bidx t.shape ((a - pl) :: (p ++ [b - pr]))) else res.at3 a p b := by
      intro a p b
      simp only [hnew, NDArray.at3, List.headD_cons, hlast, List.tail_cons, List.dropLast_concat]
    obtain ⟨c, hc, hcs, hcg⟩ := ih (fun t ht => h t (by simp [ht])) new (pl + t.lb) (pr + t.rb) L Rr hs
      (by
        intro a p b hab
        rw [hnewget, if_neg (by omega)]
        exact hz a p b (by omega))
    refine ⟨c, hc, hcs, ?_⟩
    intro a p b hp
    rw [hcg a p b hp, hnewget]
    by_cases h1 : a < pl ∨ b < pr
    · rw [if_pos (by omega), if_neg (by omega), if_pos h1]
    · rw [if_neg h1]
      simp only [blockGet]
      by_cases h2 : a < pl + t.lb
      · rw [if_pos (by omega), if_pos (show a - pl < t.lb by omega)]
        by_cases h3 : b < pr + t.rb
        · rw [if_pos (by omega), if_pos (by omega), bidx_self]; rfl
          rw [ht]; exact inB_local (by omega) hp (by omega)
        · rw [if_neg (by omega), if_neg (by omega)]; exact hz a p b (by omega)
      · rw [if_neg (show ¬ a - pl < t.lb by omega)]
        by_cases h3 : b < pr + t.rb
        · rw [if_pos (by omega), if_neg (by omega), if_pos (by omega)]; exact hz a p b (by omega)
        · rw [if_neg (by omega), if_neg (by omega), Nat.sub_add_eq, Nat.sub_add_eq]

theorem localAdd_ok [Zero R] {ts : List (NDArray R)} {P : List ℕ} (hne : ts ≠ [])
    (h : ∀ t ∈ ts, t.shape = t.lb :: (P ++ [t.rb])) :
    ∃ c, localAdd ts = .ok c ∧
      c.shape = (ts.map NDArray.lb).sum :: (P ++ [(ts.map NDArray.rb).sum]) ∧
      ∀ a p b, InB p P → c.at3 a p b = blockGet ts a p b := by
  obtain ⟨t, us, rfl⟩ := List.exists_cons_of_ne_nil hne
  have hph : t.ph = P := NDArray.ph_of_shape (h t (by simp))
  obtain ⟨c, hc, hcs, hcg⟩ := localAddLoop_ok (t :: us) h
    (NDArray.zeros (((t :: us).map NDArray.lb).sum :: (P ++ [((t :: us).map NDArray.rb).sum]))) 0 0
    _ _ rfl (fun a p b _ => rfl)
  refine ⟨c, by unfold localAdd; dsimp only; rw [hph]; exact hc, hcs, ?_⟩
  intro a p b hp
  rw [hcg a p b hp, if_neg (by omega)]; simp

end Mpnum
