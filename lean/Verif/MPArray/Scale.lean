import Verif.MPArray.Add

open Finset

namespace Mpnum

variable {R : Type}

theorem mp_set_scale [CommSemiring R] {ts : List (NDArray R)} {pos : ℕ} {t t' : NDArray R} {c : R}
    (ht : ts[pos]? = some t) (hs : t'.shape = t.shape) (hg : ∀ i, t'.get i = c * t.get i)
    {idx : List (List ℕ)} (hl : idx.length = ts.length) (a b : ℕ) :
    mp (ts.set pos t') idx a b = c * mp ts idx a b := by
  induction ts generalizing pos idx a with
  | nil => simp at ht
  | cons u ts ih =>
    cases idx with
    | nil => simp at hl
    | cons i is =>
      cases pos with
      | zero =>
        have : u = t := by simpa using ht
        subst this
        simp only [List.set_cons_zero, mp_cons, NDArray.at3, hg, NDArray.rb, hs, Finset.mul_sum,
          mul_assoc]
      | succ pos =>
        simp only [List.set_cons_succ, mp_cons, Finset.mul_sum]
        refine Finset.sum_congr rfl fun x _ => ?_
        rw [ih (by simpa using ht) (by simpa using hl)]
        ring

theorem chained_set {l r : ℕ} {ts : List (NDArray R)} {pos : ℕ} {t t' : NDArray R}
    (h : Chained l ts r) (ht : ts[pos]? = some t) (hloc : t'.IsLocal) (hl : t'.lb = t.lb)
    (hr : t'.rb = t.rb) : Chained l (ts.set pos t') r := by
  induction ts generalizing pos l with
  | nil => simp at ht
  | cons u ts ih =>
    cases pos with
    | zero =>
      have : u = t := by simpa using ht
      subst this
      exact ⟨hloc, by rw [hl]; exact h.2.1, by rw [hr]; exact h.2.2⟩
    | succ pos =>
      exact ⟨h.1, h.2.1, ih h.2.2 (by simpa using ht)⟩

theorem map_set_same {α β : Type} (f : α → β) {ts : List α} {pos : ℕ} {t t' : α}
    (ht : ts[pos]? = some t) (h : f t' = f t) : (ts.set pos t').map f = ts.map f := by
  rw [List.map_set, h]
  apply List.ext_getElem?
  intro i
  rw [List.getElem?_set]
  split
  · rename_i hi
    subst hi
    obtain ⟨hlt, hget⟩ := List.getElem?_eq_some_iff.1 ht
    simp [hlt, hget]
  · rfl

theorem canonOK_set [CommRing R] [StarRing R] {ts : List (NDArray R)} {l r : ℤ} {pos : ℕ}
    {t' : NDArray R} (h : (⟨ts, l, r⟩ : MPA R).CanonOK) (h1 : l ≤ pos) (h2 : (pos : ℤ) < r) :
    (⟨ts.set pos t', l, r⟩ : MPA R).CanonOK := by
  intro n u hu
  by_cases hn : n = pos
  · subst hn
    exact ⟨fun h => by simp at h; omega, fun h => by simp at h; omega⟩
  · simp only [List.getElem?_set, if_neg (Ne.symm hn)] at hu
    exact h n u hu

/-- Replacing the site `l` of a valid MPA by a multiple of it. -/
theorem MPA.scale_ok [CommSemiring R] {x : MPA R} (hx : x.Valid) {pos : ℕ} {t t' : NDArray R} {c : R}
    (ht : x.lt[pos]? = some t) (hs : t'.shape = t.shape) (hg : ∀ i, t'.get i = c * t.get i) :
    (⟨x.lt.set pos t', x.l, x.r⟩ : MPA R).Valid ∧
      (⟨x.lt.set pos t', x.l, x.r⟩ : MPA R).shape = x.shape ∧
      (⟨x.lt.set pos t', x.l, x.r⟩ : MPA R).ranks = x.ranks ∧
      ∀ idx, IdxOK idx x.shape → (⟨x.lt.set pos t', x.l, x.r⟩ : MPA R).val idx = c * x.val idx := by
  have hloc : t.IsLocal := hx.chain.isLocal t (List.mem_of_getElem? ht)
  have hloc' : t'.IsLocal := by unfold NDArray.IsLocal NDArray.ndim at *; rw [hs]; exact hloc
  have hlb : t'.lb = t.lb := by simp [NDArray.lb, hs]
  refine ⟨⟨?_, chained_set hx.chain ht hloc' hlb (by simp [NDArray.rb, hs]), hx.l_nonneg,
    hx.l_lt_r, ?_⟩, ?_, ?_, ?_⟩
  · simp [hx.ne]
  · simpa [MPA.len] using hx.r_le
  · exact map_set_same _ ht (by simp [NDArray.ph, hs])
  · have := map_set_same NDArray.lb ht hlb
    simp only [MPA.ranks, List.map_tail, this]
  · intro idx hi
    exact mp_set_scale ht hs hg (by simpa [MPA.shape] using idxOK_length hi) 0 0

end Mpnum
