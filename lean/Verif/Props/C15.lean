import Verif.MPArray.Reshape
import Verif.Props.C14

/-!
# C15: reshape and ravel
-/

open Finset

namespace Mpnum

variable {R : Type}

/-- Specification of numpy's shape argument: `s` stands for the shape `q` of an array with `size`
entries: it is `q`, or `q` with one entry replaced by `-1` (all other entries positive). -/
def ShapeArg (size : ℕ) (s : List ℤ) (q : List ℕ) : Prop :=
  q.prod = size ∧ (s = q.map (fun k : ℕ => (k : ℤ)) ∨
    ∃ u v d, q = u ++ [d] ++ v ∧ (∀ k ∈ u ++ v, 0 < k) ∧
      s = u.map (fun k : ℕ => (k : ℤ)) ++ [-1] ++ v.map (fun k : ℕ => (k : ℤ)))

/-- `idx` (for the site shapes `s`) and `idx'` (for `s'`) have the same row-major position on every
site. -/
def SameRowMajor (s s' : List (List ℕ)) (idx idx' : List (List ℕ)) : Prop :=
  List.zipWith ravelIdx s idx = List.zipWith ravelIdx s' idx'

theorem prod_pos_of {l : List ℕ} (h : ∀ k ∈ l, 0 < k) : 0 < l.prod := by
  induction l with
  | nil => simp
  | cons a l ih => rw [List.prod_cons]; exact Nat.mul_pos (h a (by simp)) (ih fun k hk => h k (by simp [hk]))

theorem localReshape_arg {t : NDArray R} (h : t.IsLocal) {s : List ℤ} {q : List ℕ}
    (hs : ShapeArg t.ph.prod s q) (hp : (∀ d ∈ s, 0 ≤ d) ∨ 0 < t.lb ∧ 0 < t.rb) :
    ∃ u, localReshape t s = .ok u ∧ SPull t u (relabel t.ph q) ∧ u.ph = q := by
  obtain ⟨h1, h2 | ⟨u, v, d, rfl, h3, rfl⟩⟩ := hs
  · subst h2
    obtain ⟨w, g1, g2, g3⟩ := localReshape_ok h h1
    refine ⟨w, g1, ⟨NDArray.isLocal_of_shape g2, NDArray.lb_of_shape g2, NDArray.rb_of_shape g2, ?_⟩,
      NDArray.ph_of_shape g2⟩
    intro a ha b hb p hp
    rw [NDArray.ph_of_shape g2] at hp
    exact g3 a ha b hb p hp
  · have hp : 0 < t.lb ∧ 0 < t.rb := by
      rcases hp with hp | hp
      · have := hp (-1) (by simp); omega
      · exact hp
    obtain ⟨w, g1, g2, g3⟩ := localReshape_infer h (q := u) (q' := v) (d := d)
      (by rw [← h1]; simp; ring)
      (by
        have := prod_pos_of h3
        rw [List.prod_append] at this
        exact Nat.mul_pos (Nat.mul_pos hp.1 hp.2) this)
    refine ⟨w, g1, ⟨NDArray.isLocal_of_shape g2, NDArray.lb_of_shape g2, NDArray.rb_of_shape g2, ?_⟩,
      NDArray.ph_of_shape g2⟩
    intro a ha b hb p hp
    rw [NDArray.ph_of_shape g2] at hp
    exact g3 a ha b hb p hp

theorem zip_map_fst' {α β γ : Type} {xs : List α} {ys : List β} (f : β → γ) :
    ((xs.zip ys).map fun p => (p.1, f p.2)) = xs.zip (ys.map f) := by
  induction xs generalizing ys with
  | nil => rfl
  | cons x xs ih => cases ys with
    | nil => rfl
    | cons y ys => simp [ih]

theorem mapM_map_py {α β γ : Type} (g : α → β) (f : β → Py γ) (xs : List α) :
    (xs.map g).mapM f = xs.mapM fun x => f (g x) := by
  rw [List.mapM_map]; rfl

/-- `reshape` for a list of arguments, one per site; `new` lists the arguments together with the
shapes they stand for. -/
theorem reshape_core [CommRing R] [StarRing R] (x : MPA R) (hx : x.Valid)
    (new : List (List ℤ × List ℕ))
    (hn : List.Forall₂ (fun p n => ShapeArg p.prod n.1 n.2) x.shape new)
    (hp : (∀ n ∈ new, ∀ d ∈ n.1, 0 ≤ d) ∨ ∀ r ∈ x.ranks, 0 < r) :
    ∃ us, ((x.lt.zip (new.map Prod.fst)).mapM fun ts => localReshape ts.1 ts.2) = .ok us ∧
      mkLT us (some x.l) (some x.r) = .ok ⟨us, x.l, x.r⟩ ∧ (⟨us, x.l, x.r⟩ : MPA R).Valid ∧
      physShape us = new.map Prod.snd ∧ us.tail.map NDArray.lb = x.ranks ∧
      (∀ idx idx', IdxOK idx x.shape → IdxOK idx' (physShape us) →
        SameRowMajor x.shape (physShape us) idx idx' → entry us idx' = x.val idx) ∧
      (x.CanonOK → (⟨us, x.l, x.r⟩ : MPA R).CanonOK) := by
  have hlen : x.lt.length = new.length := by have := hn.length_eq; simpa [MPA.shape] using this
  have hsite : ∀ s ∈ x.lt.zip new, s.1 ∈ x.lt ∧ s.2 ∈ new ∧ ShapeArg s.1.ph.prod s.2.1 s.2.2 := by
    intro s hs
    refine ⟨(List.of_mem_zip hs).1, (List.of_mem_zip hs).2, ?_⟩
    have h' : List.Forall₂ (fun (t : NDArray R) n => ShapeArg t.ph.prod n.1 n.2) x.lt new := by
      rw [MPA.shape, List.forall₂_map_left_iff] at hn; exact hn
    exact (List.forall₂_iff_zip.1 h').2 hs
  have hpos := bonds_pos hx
  obtain ⟨us, h1, h2, h3, h4, h5, h6, h7, h8⟩ := pull_core hx (sites := x.lt.zip new) (T := Prod.fst)
    (List.map_fst_zip (le_of_eq hlen)) (f := fun s => localReshape s.1 s.2.1)
    (φ := fun s => relabel s.1.ph s.2.2) (ψ := fun s => relabel s.2.2 s.1.ph) (q := fun s => s.2.2)
    (fun s hs => localReshape_arg (hx.chain.isLocal _ (hsite s hs).1) (hsite s hs).2.2 (by
      rcases hp with hp | hp
      · exact Or.inl (hp _ (hsite s hs).2.1)
      · exact Or.inr (bonds_pos hx hp _ (hsite s hs).1)))
    (fun s hs => bijIdx_relabel (hsite s hs).2.2.1)
  obtain ⟨g1, g2⟩ := keep_form hx h2 h3
  have hsh : physShape us = new.map Prod.snd := by
    rw [h4, ← List.map_snd_zip (le_of_eq hlen.symm) (l₁ := x.lt) (l₂ := new), List.map_map,
      List.map_snd_zip (le_of_eq hlen.symm)]; rfl
  refine ⟨us, ?_, g1, g2, hsh, h5, ?_, h8⟩
  · rw [← zip_map_fst', mapM_map_py]; exact h1
  · intro idx idx' hi hi' hsame
    obtain ⟨e1, e2⟩ := h7 idx hi
    rw [← e2]
    congr 1
    rw [hsh] at hi' hsame
    unfold SameRowMajor at hsame
    have hi0 : IdxOK idx (x.lt.map NDArray.ph) := hi
    have hsame0 : List.zipWith ravelIdx (x.lt.map NDArray.ph) idx
        = List.zipWith ravelIdx (new.map Prod.snd) idx' := hsame
    clear h1 h2 h3 h4 h5 h6 h7 h8 g1 g2 hsh e1 e2 hi hsame hn hp hsite hpos hx
    generalize x.lt = ts at *
    induction ts generalizing new idx idx' with
    | nil =>
      have : new = [] := by simpa [eq_comm] using hlen
      subst this
      cases idx' with
      | nil => rfl
      | cons i is => simp [IdxOK] at hi'
    | cons t ts ih =>
      cases new with
      | nil => simp at hlen
      | cons n ns =>
        cases idx with
        | nil => simp [IdxOK] at hi0
        | cons i is =>
          cases idx' with
          | nil => simp [IdxOK] at hi'
          | cons i' is' =>
            simp only [List.map_cons, idxOK_cons, List.zipWith_cons_cons, List.cons.injEq] at *
            rw [List.zip_cons_cons, List.zipWith_cons_cons,
              ← ih (new := ns) (idx := is) (idx' := is') (hlen := by simpa using hlen) (hi' := hi'.2) (hi0 := hi0.2) (hsame0 := hsame0.2)]
            congr 1
            unfold relabel
            simp only
            rw [hsame0.1, unravel_ravel hi'.1]

section
variable [CommRing R] [StarRing R]

/-- C15: `x.reshape([s_0, s_1, ...])` with one new shape per site (each may contain one `-1`): entries
with the same row-major position on every site agree; ranks and the canonical form are kept, and
the claimed form stays true. -/
theorem C15_reshape (x : MPA R) (hx : x.Valid) (new : List (List ℤ × List ℕ))
    (hn : List.Forall₂ (fun p n => ShapeArg p.prod n.1 n.2) x.shape new)
    (hp : (∀ n ∈ new, ∀ d ∈ n.1, 0 ≤ d) ∨ ∀ r ∈ x.ranks, 0 < r) :
    ∃ y, x.reshape (.list (new.map Prod.fst)) = .ok y ∧ y.Valid ∧ y.shape = new.map Prod.snd ∧
      y.ranks = x.ranks ∧ y.l = x.l ∧ y.r = x.r ∧
      (∀ idx idx', IdxOK idx x.shape → IdxOK idx' y.shape → SameRowMajor x.shape y.shape idx idx' →
        y.val idx' = x.val idx) ∧ (x.CanonOK → y.CanonOK) := by
  obtain ⟨us, h1, h2, h3, h4, h5, h6, h7⟩ := reshape_core x hx new hn hp
  refine ⟨_, ?_, h3, h4, h5, rfl, rfl, h6, h7⟩
  have hne : new ≠ [] := by
    rintro rfl
    have := hn.length_eq
    simp [MPA.shape] at this; exact hx.ne this
  obtain ⟨n, ns, rfl⟩ := List.exists_cons_of_ne_nil hne
  unfold MPA.reshape
  have : x.newShapes (.list ((n :: ns).map Prod.fst)) = .ok ((n :: ns).map Prod.fst) := rfl
  rw [this, ok_bind, h1]; exact h2

/-- C15: `x.reshape(s)` with one shape uses this shape on every site. -/
theorem C15_reshape_one (x : MPA R) (hx : x.Valid) (s : List ℤ) (hs : s ≠ []) (q : List ℕ → List ℕ)
    (hn : ∀ p ∈ x.shape, ShapeArg p.prod s (q p))
    (hp : (∀ d ∈ s, 0 ≤ d) ∨ ∀ r ∈ x.ranks, 0 < r) :
    ∃ y, x.reshape (.one s) = .ok y ∧ y.Valid ∧ y.shape = x.shape.map q ∧
      y.ranks = x.ranks ∧ y.l = x.l ∧ y.r = x.r ∧
      (∀ idx idx', IdxOK idx x.shape → IdxOK idx' y.shape → SameRowMajor x.shape y.shape idx idx' →
        y.val idx' = x.val idx) ∧ (x.CanonOK → y.CanonOK) := by
  have hF : List.Forall₂ (fun (p : List ℕ) (n : List ℤ × List ℕ) => ShapeArg p.prod n.1 n.2)
      x.shape (x.shape.map fun p => (s, q p)) := by
    rw [List.forall₂_map_right_iff, List.forall₂_same]
    exact hn
  obtain ⟨us, h1, h2, h3, h4, h5, h6, h7⟩ := reshape_core x hx (x.shape.map fun p => (s, q p)) hF (by
      rcases hp with hp | hp
      · left
        intro n hn
        obtain ⟨p, _, rfl⟩ := List.mem_map.1 hn
        exact hp
      · exact Or.inr hp)
  refine ⟨_, ?_, h3, h4.trans ?_, h5, rfl, rfl, h6, h7⟩
  · unfold MPA.reshape
    have : x.newShapes (.one s) = .ok (List.replicate x.len s) := by
      cases s with
      | nil => exact absurd rfl hs
      | cons => rfl
    rw [this, ok_bind]
    have e : List.replicate x.len s = (x.shape.map fun p => (s, q p)).map Prod.fst := by
      rw [List.map_map, MPA.shape, List.map_map]
      simp [Function.comp_def, List.map_const', MPA.len]
    rw [e, h1]; exact h2
  · rw [List.map_map]; rfl

/-- C15: `x.ravel()` has one leg per site, which is the row-major position of the legs of `x`. -/
theorem C15_ravel (x : MPA R) (hx : x.Valid) (hp : ∀ r ∈ x.ranks, 0 < r) :
    ∃ y, x.ravel = .ok y ∧ y.Valid ∧ y.shape = x.shape.map (fun s => [s.prod]) ∧
      y.ranks = x.ranks ∧ y.l = x.l ∧ y.r = x.r ∧
      (∀ idx, IdxOK idx x.shape →
        y.val (List.zipWith (fun s i => [ravelIdx s i]) x.shape idx) = x.val idx) ∧
      (x.CanonOK → y.CanonOK) := by
  obtain ⟨y, h1, h2, h3, h4, h5, h6, h7, h8⟩ := C15_reshape_one x hx [-1] (by simp) (fun s => [s.prod])
    (fun p _ => ⟨by simp, Or.inr ⟨[], [], p.prod, by simp, by simp, by simp⟩⟩) (Or.inr hp)
  refine ⟨y, h1, h2, h3, h4, h5, h6, ?_, h8⟩
  intro idx hi
  have hz : IdxOK (List.zipWith (fun s i => [ravelIdx s i]) x.shape idx) y.shape ∧
      SameRowMajor x.shape y.shape idx (List.zipWith (fun s i => [ravelIdx s i]) x.shape idx) := by
    rw [h3]
    clear h3 h7
    generalize x.shape = sh at hi
    unfold SameRowMajor
    induction sh generalizing idx with
    | nil => simp
    | cons s sh ih =>
      cases idx with
      | nil => simp [IdxOK] at hi
      | cons i is =>
        rw [idxOK_cons] at hi
        obtain ⟨g1, g2⟩ := ih is hi.2
        simp only [List.zipWith_cons_cons, List.map_cons, idxOK_cons, List.cons.injEq]
        refine ⟨⟨?_, g1⟩, ?_, g2⟩
        · have := ravelIdx_lt hi.1
          simpa [InB] using this
        · simp
  exact h7 idx _ hi hz.1 hz.2

/-- C15: `x.reshape('prune')` drops the legs of size 1. -/
theorem C15_reshape_prune (x : MPA R) (hx : x.Valid) (hs : ∀ s ∈ x.shape, ∀ d ∈ s, 0 < d) :
    ∃ y, x.reshape .prune = .ok y ∧ y.Valid ∧ y.shape = x.shape.map (fun s => s.filter (1 < ·)) ∧
      y.ranks = x.ranks ∧ y.l = x.l ∧ y.r = x.r ∧
      (∀ idx idx', IdxOK idx x.shape → IdxOK idx' y.shape → SameRowMajor x.shape y.shape idx idx' →
        y.val idx' = x.val idx) ∧ (x.CanonOK → y.CanonOK) := by
  have hpr : ∀ s : List ℕ, (∀ d ∈ s, 0 < d) → (s.filter (1 < ·)).prod = s.prod := by
    intro s
    induction s with
    | nil => intro _; rfl
    | cons d s ih =>
      intro h
      have h0 := h d (by simp)
      rw [List.filter_cons]
      split
      · rw [List.prod_cons, List.prod_cons, ih fun e he => h e (by simp [he])]
      · rename_i h1
        have : d = 1 := by simp at h1; omega
        rw [List.prod_cons, this, ih fun e he => h e (by simp [he])]; simp
  have hF : List.Forall₂ (fun (p : List ℕ) (n : List ℤ × List ℕ) => ShapeArg p.prod n.1 n.2)
      x.shape (x.shape.map fun s => ((s.filter (1 < ·)).map (fun k : ℕ => (k : ℤ)), s.filter (1 < ·))) := by
    rw [List.forall₂_map_right_iff, List.forall₂_same]
    intro s hs'
    exact ⟨hpr s (hs s hs'), Or.inl rfl⟩
  obtain ⟨us, h1, h2, h3, h4, h5, h6, h7⟩ := reshape_core x hx _ hF (by
    left
    intro n hn
    obtain ⟨s, _, rfl⟩ := List.mem_map.1 hn
    intro d hd
    obtain ⟨k, _, rfl⟩ := List.mem_map.1 hd
    exact Int.natCast_nonneg k)
  refine ⟨_, ?_, h3, h4.trans (by rw [List.map_map]; rfl), h5, rfl, rfl, h6, h7⟩
  unfold MPA.reshape
  have : x.newShapes .prune = .ok ((x.shape.map fun s =>
      ((s.filter (1 < ·)).map (fun k : ℕ => (k : ℤ)), s.filter (1 < ·))).map Prod.fst) := by
    rw [List.map_map]; rfl
  rw [this, ok_bind, h1]; exact h2

end

/-- C15: a new shape with a different number of entries is rejected with `ValueError` (here for the
first site). -/
theorem C15_reshape_wrong_size (x : MPA R) (hx : x.Valid) (hb : ∀ r ∈ x.ranks, 0 < r)
    (s : List ℕ) (ss : List (List ℤ))
    (p : List ℕ) (hp : x.shape.head? = some p) (hs : s.prod ≠ p.prod) :
    x.reshape (.list (s.map (fun k : ℕ => (k : ℤ)) :: ss)) = .error .value := by
  obtain ⟨t, ts, hts⟩ := List.exists_cons_of_ne_nil hx.ne
  have ht : t.IsLocal := hx.chain.isLocal t (by rw [hts]; simp)
  have hb' := bonds_pos hx hb t (by rw [hts]; simp)
  have hst : p = t.ph := by simpa [MPA.shape, hts, eq_comm] using hp
  subst hst
  have key : localReshape t (s.map fun k : ℕ => (k : ℤ)) = .error .value := by
    unfold localReshape NDArray.reshape
    have e : ((t.lb : ℤ) :: (s.map (fun n : ℕ => (n : ℤ)) ++ [(t.rb : ℤ)]))
        = (t.lb :: (s ++ [t.rb])).map fun n : ℕ => (n : ℤ) := by simp
    rw [e]
    have : NDArray.resolveShape t.size ((t.lb :: (s ++ [t.rb])).map fun n : ℕ => (n : ℤ)) = .error .value := by
      unfold NDArray.resolveShape
      have f1 : ((t.lb :: (s ++ [t.rb])).map fun n : ℕ => (n : ℤ)).filter (· < 0) = [] := by
        rw [List.filter_eq_nil_iff]
        intro a ha
        obtain ⟨k, _, rfl⟩ := List.mem_map.1 ha
        simp
      have f2 : ((t.lb :: (s ++ [t.rb])).map fun n : ℕ => (n : ℤ)).filter (0 ≤ ·)
          = (t.lb :: (s ++ [t.rb])).map fun n : ℕ => (n : ℤ) := by
        rw [List.filter_eq_self]
        intro a ha
        obtain ⟨k, _, rfl⟩ := List.mem_map.1 ha
        simp
      simp only [f1, f2]
      rw [if_neg]
      rw [List.map_map]
      simp only [Function.comp_def, Int.toNat_natCast, List.map_id']
      rw [NDArray.size, NDArray.shape_local ht]
      simp only [List.prod_cons, List.prod_append, List.prod_nil, mul_one]
      intro h
      have h' := Nat.eq_of_mul_eq_mul_left hb'.1 h
      exact hs (Nat.eq_of_mul_eq_mul_right hb'.2 h')
    rw [this]; rfl
  unfold MPA.reshape
  have : x.newShapes (.list (s.map (fun k : ℕ => (k : ℤ)) :: ss))
      = .ok (s.map (fun k : ℕ => (k : ℤ)) :: ss) := rfl
  rw [this, ok_bind, hts, List.zip_cons_cons,
    mapM_first_error (f := fun ts : NDArray R × List ℤ => localReshape ts.1 ts.2) (x := (t, _)) key]; rfl

/-- C15: an empty sequence of shapes is rejected with `IndexError`. -/
theorem C15_reshape_empty (x : MPA R) : x.reshape (.list []) = .error .index := rfl

/-- Non-vacuity of the C15 theorems. -/
example : exOp.Valid ∧ (∀ r ∈ exOp.ranks, 0 < r) ∧
    List.Forall₂ (fun p (n : List ℤ × List ℕ) => ShapeArg p.prod n.1 n.2) exOp.shape
      [([-1, 2], [3, 2]), ([3, 1, 2], [3, 1, 2])] ∧
    IdxOK [[1, 2], [2, 1]] exOp.shape ∧ IdxOK [[2, 1], [2, 0, 1]] [[3, 2], [3, 1, 2]] ∧
    SameRowMajor exOp.shape [[3, 2], [3, 1, 2]] [[1, 2], [2, 1]] [[2, 1], [2, 0, 1]] := by
  refine ⟨exOp_valid, by decide, ?_, by simp [IdxOK, exOp, MPA.shape, NDArray.ph, InB],
    by simp [IdxOK, InB], by unfold SameRowMajor; decide⟩
  refine .cons ⟨rfl, Or.inr ⟨[], [2], 3, rfl, by decide, rfl⟩⟩ (.cons ⟨rfl, Or.inl rfl⟩ .nil)

/-- A finding: a list with too few shapes is not rejected as such; for an MPA whose canonical form
allows it the remaining sites are dropped silently (mparray.py:472 zips the two sequences). -/
theorem C15_short_list_truncates : ∃ (x y : MPA ℤ), x.Valid ∧ x.len = 2 ∧
    x.reshape (.list [[2]]) = .ok y ∧ y.len = 1 := by
  refine ⟨⟨[⟨[1, 2, 1], fun _ => 1⟩, ⟨[1, 2, 1], fun _ => 0⟩], 0, 1⟩, _, ?_, rfl, rfl, rfl⟩
  exact ⟨by simp, by simp [NDArray.IsLocal, NDArray.ndim, NDArray.lb, NDArray.rb], by simp, by simp,
    by simp [MPA.len]⟩

end Mpnum
