import Verif.Program.DenseLemmas
import Verif.MPArray.RanksKept
import Verif.Props.C14
import Verif.Props.C15
import Verif.Props.C16
import Verif.Props.C49Random

/-!
# Dense programs: transposition, sums, multiples, shapes of sites
-/

open Finset

namespace Mpnum

namespace Prog

variable {qr : QR ℂ}

/-- The call succeeds and its result represents the tensor. -/
def Makes (r : Py (MPA ℂ)) (u : Ten) : Prop := ∃ z, r = .ok z ∧ Reps z u

theorem map_reverse_pos {S : List (List ℕ)} (h : ∀ s ∈ S, ∀ d ∈ s, 0 < d) :
    ∀ s ∈ S.map List.reverse, ∀ d ∈ s, 0 < d := by
  intro s hs d hd
  obtain ⟨q, hq, rfl⟩ := List.mem_map.1 hs
  exact h q hq d (by simpa using hd)

theorem idxOK_map_reverse {j S : List (List ℕ)} (h : IdxOK j (S.map List.reverse)) : IdxOK (j.map List.reverse) S := by
  unfold IdxOK at h ⊢
  rw [List.forall₂_map_right_iff] at h
  rw [List.forall₂_map_left_iff]
  refine h.imp fun a b hab => ?_
  have := List.rel_reverse hab
  rwa [List.reverse_reverse] at this

theorem map_reverse_reverse (j : List (List ℕ)) : (j.map List.reverse).map List.reverse = j := by
  simp [List.map_map, Function.comp_def]

theorem den_copy {x : MPA ℂ} {t : Ten} (h : Reps x t) : Makes x.copy t := ⟨x, h.good.valid.copy_ok, h⟩

theorem den_T {x : MPA ℂ} {t : Ten} (h : Reps x t) :
    Makes x.T ⟨t.shape.map List.reverse, fun j => t.val (j.map List.reverse)⟩ := by
  obtain ⟨y, h1, h2, h3, -, -, h4, h5⟩ := C14_T x h.good.valid
  refine ⟨y, h1, reps_of h2 (h5 h.good.canon) (by rw [h3, h.shape]) (map_reverse_pos h.pos) ?_ ?_⟩
  · rw [MPA.transpose_ranks (axes := none) h1]; exact h.ranks
  · intro j hj
    have hj' := idxOK_map_reverse hj
    have := h4 (j.map List.reverse) (by rw [h.shape]; exact hj')
    rw [map_reverse_reverse] at this
    rw [this, h.val _ hj']

theorem den_adj {x : MPA ℂ} {t : Ten} (h : Reps x t) :
    Makes x.adj ⟨t.shape.map List.reverse, fun j => star (t.val (j.map List.reverse))⟩ := by
  obtain ⟨y, h1, h2, h3, h5, h4⟩ := C14_adj x h.good.valid
  refine ⟨y, h1, reps_of h2 h5 (by rw [h3, h.shape]) (map_reverse_pos h.pos) ?_ ?_⟩
  · rw [MPA.adj_ranks h1]; exact h.ranks
  · intro j hj
    have hj' := idxOK_map_reverse hj
    have := h4 (j.map List.reverse) (by rw [h.shape]; exact hj')
    rw [map_reverse_reverse] at this
    rw [this, h.val _ hj']

theorem den_transpose {x : MPA ℂ} {t : Ten} (h : Reps x t) (n : ℕ) (axes : List ℕ)
    (hn : ∀ s ∈ t.shape, s.length = n) (ha : axes.Perm (List.range n)) :
    Makes (x.transpose (some (axes.map fun k : ℕ => (k : ℤ)))) ⟨t.shape.map fun s => axes.map fun k => s.getD k 0,
      fun j => t.val (j.map fun p => (List.range n).map fun m => p.getD (axes.idxOf m) 0)⟩ := by
  obtain ⟨y, h1, h2, h3, -, -, h4, h5⟩ := C14_transpose x h.good.valid n (by rw [h.shape]; exact hn) axes ha
  have hmem : ∀ k, k ∈ axes ↔ k < n := fun k => by rw [ha.mem_iff, List.mem_range]
  have hnd : axes.Nodup := ha.nodup_iff.2 List.nodup_range
  have hlen : axes.length = n := by rw [ha.length_eq, List.length_range]
  refine ⟨y, h1, reps_of h2 (h5 h.good.canon) (by rw [h3, h.shape]) ?_ ?_ ?_⟩
  · intro s hs d hd
    obtain ⟨q, hq, rfl⟩ := List.mem_map.1 hs
    obtain ⟨k, hk, rfl⟩ := List.mem_map.1 hd
    have hk' : k < q.length := by rw [hn q hq]; exact (hmem k).1 hk
    rw [List.getD_eq_getElem _ _ hk']
    exact h.pos q hq _ (List.getElem_mem hk')
  · rw [MPA.transpose_ranks h1]; exact h.ranks
  · intro j hj
    have key : ∀ p s : List ℕ, s.length = n → InB p (axes.map fun k => s.getD k 0) →
        InB ((List.range n).map fun m => p.getD (axes.idxOf m) 0) s ∧
        (axes.map fun k => ((List.range n).map fun m => p.getD (axes.idxOf m) 0).getD k 0) = p := by
      intro p s hs hp
      have hpl : p.length = n := by rw [inB_length hp, List.length_map, hlen]
      constructor
      · refine inB_of_getD (by simp [hs]) ?_
        intro k hk
        rw [hs] at hk
        have hka := (hmem k).2 hk
        have hi := List.idxOf_lt_length_iff.2 hka
        have := inB_getD hp (n := axes.idxOf k) (by simpa using hi)
        rw [List.getD_eq_getElem _ _ (by simpa using hk)]
        simpa [List.getD_eq_getElem?_getD, hi] using this
      · apply List.ext_getElem (by simp [hpl, hlen])
        intro i hi1 hi2
        have hi : i < axes.length := by simpa using hi1
        have hai : axes[i] < n := (hmem _).1 (List.getElem_mem hi)
        rw [List.getElem_map, List.getD_eq_getElem _ _ (by simpa using hai), List.getElem_map, List.getElem_range,
          hnd.idxOf_getElem i hi, List.getD_eq_getElem _ _ hi2]
    have key2 : IdxOK (j.map fun p => (List.range n).map fun m => p.getD (axes.idxOf m) 0) t.shape ∧
        ((j.map fun p => (List.range n).map fun m => p.getD (axes.idxOf m) 0).map
          fun p => axes.map fun k => p.getD k 0) = j := by
      change IdxOK j (t.shape.map _) at hj
      clear h3 h4 h
      generalize t.shape = S at hj hn
      induction S generalizing j with
      | nil => cases hj; exact ⟨.nil, rfl⟩
      | cons s S ih =>
        cases hj with
        | @cons p _ j _ h1 h2 =>
          obtain ⟨i1, i2⟩ := ih j h2 fun s hs => hn s (by simp [hs])
          obtain ⟨k1, k2⟩ := key p s (hn s (by simp)) h1
          refine ⟨.cons k1 i1, ?_⟩
          rw [List.map_cons, List.map_cons, k2, i2]
    have := h4 _ (by rw [h.shape]; exact key2.1)
    rw [key2.2] at this
    rw [this, h.val _ key2.1]

theorem den_conj {x : MPA ℂ} {t : Ten} (h : Reps x t) : Makes x.conj ⟨t.shape, fun j => star (t.val j)⟩ := by
  obtain ⟨y, h1, h2, h3, -, -, h4, h5⟩ := C14_conj x h.good.valid
  refine ⟨y, h1, reps_of h2 (h5 h.good.canon) (by rw [h3, h.shape]) h.pos ?_ ?_⟩
  · have : y.lt = x.lt.map NDArray.conj := mkLT_lt h1
    rw [MPA.ranks_eq_of_lb (x := x) (by rw [this, List.map_map]; rfl)]; exact h.ranks
  · intro j hj
    rw [h4, h.val j hj]

theorem den_reverse {x : MPA ℂ} {t : Ten} (h : Reps x t) :
    Makes x.reverse ⟨t.shape.reverse, fun j => t.val j.reverse⟩ := by
  obtain ⟨y, h1, h2, h3, h5, hr, h4⟩ := C14_reverse x h.good.valid
  refine ⟨y, h1, reps_of h2 h5 (by rw [h3, h.shape]) ?_ ?_ ?_⟩
  · intro s hs; exact h.pos s (by simpa using hs)
  · rw [hr]; intro r hr; exact h.ranks r (by simpa using hr)
  · intro j hj
    have hj' : IdxOK j.reverse t.shape := by
      have := List.rel_reverse hj
      rwa [List.reverse_reverse] at this
    have := h4 j.reverse (by rw [h.shape]; exact hj')
    rw [List.reverse_reverse] at this
    rw [this, h.val _ hj']

theorem ranks_add_pos {x y z : MPA ℂ} (hx : ∀ r ∈ x.ranks, 0 < r) (hl : z.len = x.len)
    (hr : ∀ k, k + 1 < x.len → z.ranks[k]? = some (x.ranks.getD k 0 + y.ranks.getD k 0)) : ∀ r ∈ z.ranks, 0 < r := by
  intro r hr'
  obtain ⟨k, hk⟩ := List.mem_iff_getElem?.1 hr'
  have hkl : k < z.ranks.length := (List.getElem?_eq_some_iff.1 hk).1
  have hk1 : k + 1 < x.len := by
    rw [← hl]; simp only [MPA.ranks, List.length_map, List.length_tail] at hkl
    unfold MPA.len; omega
  rw [hr k hk1] at hk
  have hk2 : k < x.ranks.length := by
    simp only [MPA.ranks, List.length_map, List.length_tail]; unfold MPA.len at hk1; omega
  have : 0 < x.ranks.getD k 0 := by
    rw [List.getD_eq_getElem _ _ hk2]; exact hx _ (List.getElem_mem hk2)
  have := Option.some.inj hk
  omega

theorem len_of_shape {x y : MPA ℂ} (h : y.shape = x.shape) : y.len = x.len := by
  have := congrArg List.length h; simpa [MPA.shape, MPA.len] using this

theorem den_add {x y : MPA ℂ} {s t : Ten} (hx : Reps x s) (hy : Reps y t) (h : s.shape = t.shape) :
    Makes (x.add y) ⟨s.shape, fun j => s.val j + t.val j⟩ := by
  obtain ⟨z, h1, h2, h3, h4, h5, h6, h7⟩ := C05_add x y hx.good.valid hy.good.valid (by rw [hx.shape, hy.shape, h])
  refine ⟨z, h1, reps_of h2 (canonOK_form h6 h7) (by rw [h3, hx.shape]) hx.pos ?_ ?_⟩
  · exact ranks_add_pos hx.ranks (len_of_shape h3) h5
  · intro j hj
    rw [h4 j (by rw [hx.shape]; exact hj), hx.val j hj, hy.val j (by rw [← h]; exact hj)]

theorem den_sub {x y : MPA ℂ} {s t : Ten} (hx : Reps x s) (hy : Reps y t) (h : s.shape = t.shape) :
    Makes (x.sub y) ⟨s.shape, fun j => s.val j - t.val j⟩ := by
  obtain ⟨z, h1, h2, h3, h4, h5, h6, h7⟩ := C05_sub x y hx.good.valid hy.good.valid (by rw [hx.shape, hy.shape, h])
  refine ⟨z, h1, reps_of h2 (canonOK_form h6 h7) (by rw [h3, hx.shape]) hx.pos ?_ ?_⟩
  · exact ranks_add_pos hx.ranks (len_of_shape h3) h5
  · intro j hj
    rw [h4 j (by rw [hx.shape]; exact hj), hx.val j hj, hy.val j (by rw [← h]; exact hj)]

theorem reps_scale {x z : MPA ℂ} {t : Ten} {c : ℂ} (h : Reps x t) (hs : ScaleSpec c x z) (hc : x.CanonOK → z.CanonOK) :
    Reps z ⟨t.shape, fun j => c * t.val j⟩ := by
  refine reps_of hs.valid (hc h.good.canon) (by rw [hs.shape, h.shape]) h.pos (by rw [hs.ranks]; exact h.ranks) ?_
  intro j hj
  rw [hs.val j (by rw [h.shape]; exact hj), h.val j hj]

theorem den_mul {x : MPA ℂ} {t : Ten} (c : ℂ) (h : Reps x t) : Makes (x.mul c) ⟨t.shape, fun j => c * t.val j⟩ := by
  obtain ⟨z, h1, h2, h3⟩ := C06_mul x h.good.valid c
  exact ⟨z, h1, reps_scale h h2 h3⟩

theorem den_imul {x : MPA ℂ} {t : Ten} (c : ℂ) (h : Reps x t) : Makes (x.imul c) ⟨t.shape, fun j => c * t.val j⟩ := by
  obtain ⟨z, h1, h2, h3⟩ := C06_imul x h.good.valid c
  exact ⟨z, h1, reps_scale h h2 h3⟩

theorem makes_congr {r : Py (MPA ℂ)} {S : List (List ℕ)} {f g : List (List ℕ) → ℂ} (h : Makes r ⟨S, f⟩)
    (hfg : ∀ j, IdxOK j S → f j = g j) : Makes r ⟨S, g⟩ := by
  obtain ⟨z, h1, h2⟩ := h
  exact ⟨z, h1, h2.good, h2.shape, fun j hj => (h2.val j hj).trans (hfg j hj)⟩

theorem den_neg {x : MPA ℂ} {t : Ten} (h : Reps x t) : Makes x.neg ⟨t.shape, fun j => - t.val j⟩ :=
  makes_congr (den_mul (-1) h) fun j _ => by ring

theorem den_truediv {x : MPA ℂ} {t : Ten} (c : ℂ) (hc : c ≠ 0) (h : Reps x t) [DecidableEq ℂ] :
    Makes (x.truediv c) ⟨t.shape, fun j => t.val j / c⟩ := by
  unfold MPA.truediv
  rw [if_neg hc]
  exact makes_congr (den_mul (1 / c) h) fun j _ => by ring

theorem den_itruediv {x : MPA ℂ} {t : Ten} (c : ℂ) (hc : c ≠ 0) (h : Reps x t) [DecidableEq ℂ] :
    Makes (x.itruediv c) ⟨t.shape, fun j => t.val j / c⟩ := by
  unfold MPA.itruediv
  rw [if_neg hc]
  exact makes_congr (den_imul (1 / c) h) fun j _ => by ring

theorem relabel_sites {S new j : List (List ℕ)} (h : List.Forall₂ (fun s q => List.prod q = List.prod s) S new)
    (hj : IdxOK j new) : IdxOK (List.zipWith3 (fun s q i => unravelIdx s (ravelIdx q i)) S new j) S ∧
      SameRowMajor S new (List.zipWith3 (fun s q i => unravelIdx s (ravelIdx q i)) S new j) j := by
  induction h generalizing j with
  | nil => cases hj; exact ⟨.nil, rfl⟩
  | @cons s q S new h1 _ ih =>
    cases hj with
    | @cons i _ j _ h2 h3 =>
      obtain ⟨i1, i2⟩ := ih h3
      have hlt : ravelIdx q i < s.prod := by rw [← h1]; exact ravelIdx_lt h2
      refine ⟨.cons (unravelIdx_inB hlt) i1, ?_⟩
      unfold SameRowMajor at i2 ⊢
      rw [List.zipWith3, List.zipWith_cons_cons, List.zipWith_cons_cons, i2, ravel_unravel hlt]

theorem prod_pos_iff {l : List ℕ} (h : 0 < l.prod) : ∀ d ∈ l, 0 < d := by
  intro d hd
  exact Nat.pos_of_ne_zero fun h0 => by
    rw [h0] at hd
    exact absurd (List.prod_eq_zero hd) (by omega)

theorem reshape_pos {S new : List (List ℕ)} (h : List.Forall₂ (fun s q => List.prod q = List.prod s) S new)
    (hp : ∀ s ∈ S, ∀ d ∈ s, 0 < d) : ∀ s ∈ new, ∀ d ∈ s, 0 < d := by
  induction h with
  | nil => intro s hs; simp at hs
  | cons h1 _ ih =>
    intro s hs
    rcases List.mem_cons.1 hs with rfl | hs
    · exact prod_pos_iff (by rw [h1]; exact prod_pos_of (hp _ (by simp)))
    · exact ih (fun s hs => hp s (by simp [hs])) s hs

theorem den_reshape {x : MPA ℂ} {t : Ten} (h : Reps x t) (new : List (List ℕ))
    (hn : List.Forall₂ (fun s q => List.prod q = List.prod s) t.shape new) :
    Makes (x.reshape (.list (new.map fun q => q.map fun k : ℕ => (k : ℤ)))) ⟨new,
      fun j => t.val (List.zipWith3 (fun s q i => unravelIdx s (ravelIdx q i)) t.shape new j)⟩ := by
  obtain ⟨y, h1, h2, h3, h4, -, -, h5, h6⟩ := C15_reshape x h.good.valid
    (new.map fun q => (q.map fun k : ℕ => (k : ℤ), q)) (by
      rw [h.shape, List.forall₂_map_right_iff]
      exact hn.imp fun s q e => ⟨e, Or.inl rfl⟩) (Or.inr h.ranks)
  have e1 : (new.map fun q => (q.map fun k : ℕ => (k : ℤ), q)).map Prod.fst = new.map fun q => q.map fun k : ℕ => (k : ℤ) := by
    rw [List.map_map]; rfl
  have e2 : (new.map fun q => (q.map fun k : ℕ => (k : ℤ), q)).map Prod.snd = new := by
    rw [List.map_map]; exact List.map_id _
  rw [e1] at h1
  rw [e2] at h3
  refine ⟨y, h1, reps_of h2 (h6 h.good.canon) h3 (reshape_pos hn h.pos) (by rw [h4]; exact h.ranks) ?_⟩
  intro j hj
  obtain ⟨k1, k2⟩ := relabel_sites hn hj
  rw [h5 _ j (by rw [h.shape]; exact k1) (by rw [h3]; exact hj) (by rw [h.shape, h3]; exact k2), h.val _ k1]

theorem den_ravel {x : MPA ℂ} {t : Ten} (h : Reps x t) : Makes x.ravel ⟨t.shape.map fun s => [s.prod],
    fun j => t.val (List.zipWith (fun s i => unravelIdx s (i.headD 0)) t.shape j)⟩ := by
  obtain ⟨y, h1, h2, h3, h4, -, -, h5, h6⟩ := C15_ravel x h.good.valid h.ranks
  refine ⟨y, h1, reps_of h2 (h6 h.good.canon) (by rw [h3, h.shape]) ?_ (by rw [h4]; exact h.ranks) ?_⟩
  · intro s hs d hd
    obtain ⟨q, hq, rfl⟩ := List.mem_map.1 hs
    obtain rfl : d = q.prod := by simpa using hd
    exact prod_pos_of (h.pos q hq)
  · intro j hj
    have key : IdxOK (List.zipWith (fun s i => unravelIdx s (i.headD 0)) t.shape j) t.shape ∧
        List.zipWith (fun s i => [ravelIdx s i]) t.shape
          (List.zipWith (fun s i => unravelIdx s (i.headD 0)) t.shape j) = j := by
      change IdxOK j (t.shape.map _) at hj
      clear h3 h5 h
      generalize t.shape = S at hj
      induction S generalizing j with
      | nil => cases hj; exact ⟨.nil, rfl⟩
      | cons s S ih =>
        cases hj with
        | @cons i _ j _ k1 k2 =>
          obtain ⟨i1, i2⟩ := ih j k2
          cases k1 with
          | cons k3 k4 =>
            cases k4
            refine ⟨.cons (unravelIdx_inB k3) i1, ?_⟩
            simp only [List.zipWith_cons_cons, List.headD_cons]
            rw [i2, ravel_unravel k3]
    have := h5 _ (by rw [h.shape]; exact key.1)
    rw [h.shape, key.2] at this
    rw [this, h.val _ key.1]

theorem den_groupSites {x : MPA ℂ} {t : Ten} (h : Reps x t) (k n : ℕ) (hk : 0 < k) (hn : t.shape.length = n * k) :
    Makes (x.groupSites k) ⟨(chunks k n t.shape).map List.flatten, fun j => t.val (cutSites t.shape j.flatten)⟩ := by
  obtain ⟨y, h1, h2, -, h3, h4, -, h5, h6⟩ := C16_group_sites x h.good.valid k n hk (by rw [h.len, hn])
  have hsh : y.shape = (chunks k n t.shape).map List.flatten := by rw [h3, h.shape]
  refine ⟨y, h1, ⟨h2, h5 h.good.canon, h6 h.good.pos⟩, hsh, ?_⟩
  intro j hj
  have hf : ((chunks k n t.shape).map List.flatten).flatten = t.shape.flatten := by
    rw [map_flatten_flatten, chunks_flatten hn]
  obtain ⟨k1, k2⟩ := cutSites_ok hj hf
  have hl : (cutSites t.shape j.flatten).length = n * k := by rw [idxOK_length k1, hn]
  have key : (chunks k n (cutSites t.shape j.flatten)).map List.flatten = j := by
    refine idxOK_flatten_inj (idxOK_map_flatten (idxOK_chunks k1)) hj ?_
    rw [map_flatten_flatten, chunks_flatten hl, k2]
  have := h4 _ (by rw [h.shape]; exact k1)
  rw [key] at this
  rw [this, h.val _ k1]

end Prog

end Mpnum
