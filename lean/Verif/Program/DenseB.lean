import Verif.Program.DenseA
import Verif.Props.C17
import Verif.Props.C19
import Verif.Props.C21
import Verif.Props.C22
import Verif.Props.C30

/-!
# Dense programs: splitting, sums over legs, products, pruning and traces
-/

open Finset

namespace Mpnum

namespace Prog

variable {qr : QR ℂ}

/-- The factors of one site have positive bonds. -/
theorem splitSite_pos (hqr : QRSpec qr) {t : NDArray ℂ} (ht : t.IsLocal) (hpos : ∀ d ∈ t.shape, 0 < d) {k m : ℕ}
    (hk : 0 < k) (hm : 0 < m) (hl : t.ph.length = k * m) {ts : List (NDArray ℂ)}
    (h : extractFactorsArg qr (.const m) t = .ok ts) : ∀ u ∈ ts, 0 < u.lb := by
  have hs := NDArray.shape_local ht
  have hfl := chunks_flatten hl
  have hml := chunks_mem_length hl
  have hlast : (chunks m k t.ph).getLast? ≠ some [] := by
    intro h
    have := hml [] (List.mem_of_getLast? h)
    simp at this; omega
  have hnd : t.ndim = k * m + 2 := by rw [NDArray.ndim_local ht, hl]
  have hle : k ≤ k * m := Nat.le_mul_of_pos_right _ hm
  have hpos' : ∀ p ∈ chunks m k t.ph, ∀ d ∈ p, 0 < d := by
    intro p hp d hd
    apply hpos
    rw [hs]
    have : d ∈ t.ph := by rw [← hfl]; exact List.mem_flatten.2 ⟨p, hp, hd⟩
    simp [this]
  have hlb : 0 < t.lb := hpos _ (by rw [hs]; simp)
  have hrb : 0 < t.rb := hpos _ (by rw [hs]; simp)
  obtain ⟨ts', h1, h2, h3, -, -, h6⟩ := extract_ok hqr .recursion
    (List.replicate (t.ndim + 1 - k) m) (chunks m k t.ph)
    (by intro h; have := congrArg List.length h; simp at this; omega) (Or.inr hlast) hpos' t.lb t.rb t
    hlb hrb (by rw [hfl]; exact hs)
  have e : (chunks m k t.ph).map List.length = List.replicate k m := by
    rw [List.eq_replicate_iff]
    simp only [List.length_map, chunks_length, List.mem_map, true_and]
    rintro b ⟨p, hp, rfl⟩; exact hml p hp
  rw [e, ← List.replicate_add] at h1
  unfold extractFactorsArg at h
  simp only at h
  rw [show t.ndim + 1 = k + (t.ndim + 1 - k) by omega, h1] at h
  cases h
  have hsub : ∀ (P : List (List ℕ)), (∀ p ∈ P, p ∈ chunks m k t.ph) → 0 < P.flatten.prod :=
    fun P h => flatten_pos fun p hp => hpos' p (h p hp)
  cases ts with
  | nil => simp
  | cons v vs =>
    intro u hu
    rcases List.mem_cons.1 hu with rfl | hu
    · rw [h2.2.1]; exact hlb
    · have : u.lb ∈ (List.range ((chunks m k t.ph).length - 1)).map (cutRank t.lb t.rb (chunks m k t.ph)) := by
        rw [← h6]; exact List.mem_map_of_mem hu
      obtain ⟨c, -, hc⟩ := List.mem_map.1 this
      rw [← hc]
      unfold cutRank
      refine lt_min (Nat.mul_pos hlb (hsub _ fun p hp => List.mem_of_mem_take hp))
        (Nat.mul_pos (hsub _ fun p hp => List.mem_of_mem_drop hp) hrb)

theorem mapM_mem_ok {α β : Type} {f : α → Py β} : ∀ {xs : List α} {ys : List β}, xs.mapM f = .ok ys →
    ∀ y ∈ ys, ∃ x ∈ xs, f x = .ok y
  | [], ys, h => by cases h; simp
  | x :: xs, ys, h => by
    rw [List.mapM_cons] at h
    obtain ⟨a, h1, h2⟩ := bind_ok_inv h
    obtain ⟨as, h3, h4⟩ := bind_ok_inv h2
    cases h4
    intro y hy
    rcases List.mem_cons.1 hy with rfl | hy
    · exact ⟨x, by simp, h1⟩
    · obtain ⟨x', hx', e⟩ := mapM_mem_ok h3 y hy
      exact ⟨x', by simp [hx'], e⟩

theorem ranks_of_lb {z : MPA ℂ} (h : ∀ t ∈ z.lt, 0 < t.lb) : ∀ r ∈ z.ranks, 0 < r := by
  intro r hr
  obtain ⟨t, ht, rfl⟩ := List.mem_map.1 hr
  exact h t (List.mem_of_mem_tail ht)

theorem Reps.lb {x : MPA ℂ} {t : Ten} (h : Reps x t) : ∀ u ∈ x.lt, 0 < u.lb := fun u hu =>
  h.good.pos.lb hu (h.good.valid.chain.isLocal u hu)

theorem Reps.rb {x : MPA ℂ} {t : Ten} (h : Reps x t) : ∀ u ∈ x.lt, 0 < u.rb := fun u hu =>
  h.good.pos.rb hu (h.good.valid.chain.isLocal u hu)

theorem flatMap_chunks_flatten {k m : ℕ} {S : List (List ℕ)} (hl : ∀ s ∈ S, s.length = k * m) :
    (S.flatMap (chunks m k)).flatten = S.flatten := by
  induction S with
  | nil => rfl
  | cons s S ih =>
    rw [List.flatMap_cons, List.flatten_append, ih fun s hs => hl s (by simp [hs]), chunks_flatten (hl s (by simp)),
      List.flatten_cons]

theorem idxOK_chunks_one {m k : ℕ} {i s : List ℕ} (h : InB i s) : IdxOK (chunks m k i) (chunks m k s) := by
  induction k generalizing i s with
  | zero => exact .nil
  | succ n ih => exact .cons (List.forall₂_take _ h) (ih (List.forall₂_drop _ h))

theorem idxOK_flatMap_chunks {m k : ℕ} {i S : List (List ℕ)} (h : IdxOK i S) :
    IdxOK (i.flatMap (chunks m k)) (S.flatMap (chunks m k)) := by
  induction h with
  | nil => exact .nil
  | cons a _ ih => exact idxOK_append (idxOK_chunks_one a) ih

theorem mem_right {i S : List (List ℕ)} (h : IdxOK i S) {a : List ℕ} (ha : a ∈ i) : ∃ s ∈ S, InB a s := by
  induction h with
  | nil => simp at ha
  | cons h1 _ ih =>
    rcases List.mem_cons.1 ha with rfl | ha
    · exact ⟨_, by simp, h1⟩
    · obtain ⟨s, hs, e⟩ := ih ha
      exact ⟨s, by simp [hs], e⟩

theorem den_splitSites (hqr : QRSpec qr) {x : MPA ℂ} {t : Ten} (h : Reps x t) (k m : ℕ) (hk : 0 < k) (hm : 0 < m)
    (hl : ∀ s ∈ t.shape, s.length = k * m) :
    Makes (x.splitSites qr k) ⟨t.shape.flatMap (chunks m k), fun j => t.val (cutSites t.shape j.flatten)⟩ := by
  have hl' : ∀ s ∈ x.shape, s.length = k * m := by rw [h.shape]; exact hl
  obtain ⟨y, h1, h2, -, h3, h4, -, h5⟩ := C16_split_sites hqr x h.good.valid h.good.pos k m hk hm hl'
  have hf : (t.shape.flatMap (chunks m k)).flatten = t.shape.flatten := by
    exact flatMap_chunks_flatten hl
  refine ⟨y, h1, reps_of h2 h5 (by rw [h3, h.shape]) (pos_flatten hf h.pos) ?_ ?_⟩
  · unfold MPA.splitSites at h1
    obtain ⟨L, e1, e2⟩ := bind_ok_inv h1
    have e3 := mkMPA_lt e2
    refine ranks_of_lb fun u hu => ?_
    rw [e3] at hu
    obtain ⟨ts, hts, hu⟩ := List.mem_flatten.1 hu
    obtain ⟨v, hv, e⟩ := mapM_mem_ok e1 ts hts
    rw [if_neg (by omega)] at e
    obtain ⟨_, -, e⟩ := bind_ok_inv e
    have hvl := h.good.valid.chain.isLocal v hv
    have hvk : v.ph.length = k * m := hl' _ (List.mem_map.2 ⟨v, hv, rfl⟩)
    have : v.ndim - 2 = k * m := by rw [NDArray.ndim_local hvl, hvk]; omega
    rw [this, Nat.mul_div_cancel_left _ hk] at e
    exact splitSite_pos hqr hvl (h.good.pos v hv) hk hm hvk e u hu
  · intro j hj
    obtain ⟨k1, k2⟩ := cutSites_ok hj hf
    have key : (cutSites t.shape j.flatten).flatMap (chunks m k) = j := by
      refine idxOK_flatten_inj (S := t.shape.flatMap (chunks m k)) (idxOK_flatMap_chunks k1) hj ?_
      rw [flatMap_chunks_flatten fun s hs => ?_, k2]
      obtain ⟨p, hp, e⟩ := mem_right k1 hs
      rw [inB_length e, hl p hp]
    have := h4 _ (by rw [h.shape]; exact k1)
    rw [key] at this
    rw [this, h.val _ k1]

theorem den_sum {x : MPA ℂ} {t : Ten} (h : Reps x t) (axes : SumAxes) (legs : List (List ℕ))
    (hs : SumLegs t.shape axes legs) (hl : ∀ p ∈ t.shape.zip legs, p.2.Nodup ∧ ∀ a ∈ p.2, a < p.1.length)
    (hr : (List.zipWith freeDims t.shape legs).flatten ≠ []) :
    Makes (Fun.run qr (.sum axes) [x]) ⟨List.zipWith freeDims t.shape legs,
      fun f => sumSites (List.zipWith conDims t.shape legs) fun k => t.val (mergeLegs t.shape legs f k)⟩ := by
  have := C18_sum x h.good.valid axes legs (by rw [h.shape]; exact hs) (by rw [h.shape]; exact hl)
  simp only [h.shape] at this
  rcases this with ⟨-, y, h1, h2, h3, h4, h5, h6, h7⟩ | ⟨h0, -⟩
  · refine ⟨y, by simp only [Fun.run, h1, ok_bind], reps_of h2 (canonOK_form h3 h4) h5 (zipWith_free_pos h.pos)
      (by rw [h6]; exact h.ranks) ?_⟩
    intro j hj
    rw [h7 j hj]
    refine sumSites_congr fun k hk => h.val _ ?_
    exact mergeLegs_inB (fun p hp => (hl p hp).2) (siteAxes_ok hs).1 hk hj
  · exact absurd h0 hr

theorem den_get {x : MPA ℂ} {t : Ten} (h : Reps x t) (idx : List ℤ) (hl : idx.length = t.shape.length)
    (hi : ∀ p ∈ idx.zip t.shape, p.2 ≠ [] ∧ -((p.2.headD 0 : ℕ) : ℤ) ≤ p.1 ∧ p.1 < ((p.2.headD 0 : ℕ) : ℤ)) :
    Makes (x.get idx) ⟨t.shape.map List.tail, fun f => t.val (List.zipWith List.cons
      (List.zipWith (fun (i : ℤ) (s : List ℕ) => (i % ((s.headD 0 : ℕ) : ℤ)).toNat) idx t.shape) f)⟩ := by
  obtain ⟨y, h1, h2, h3, h4, h5, h6, h7⟩ := C19_get x h.good.valid idx (by rw [hl, h.len]) (by rw [h.shape]; exact hi)
  rw [h.shape] at h5 h7
  refine ⟨y, h1, reps_of h2 (canonOK_form h3 h4) h5 ?_ (by rw [h6]; exact h.ranks) ?_⟩
  · intro s hs d hd
    obtain ⟨q, hq, rfl⟩ := List.mem_map.1 hs
    exact h.pos q hq d (List.mem_of_mem_tail hd)
  · intro j hj
    rw [h7 j (by rw [h5]; exact hj)]
    refine h.val _ ?_
    have hj' : IdxOK j (t.shape.map List.tail) := hj
    clear hj h7 h5 h h1 h6
    generalize t.shape = S at *
    induction S generalizing idx j with
    | nil =>
      cases idx with
      | nil => exact .nil
      | cons _ _ => simp at hl
    | cons s S ih =>
      cases idx with
      | nil => simp at hl
      | cons i idx =>
        cases hj' with
        | @cons a _ j _ k1 k2 =>
          obtain ⟨e1, e2, e3⟩ := hi (i, s) (by simp)
          refine .cons ?_ (ih idx j (by simpa using hl) (fun p hp => hi p (by simp [hp])) k2)
          cases s with
          | nil => exact absurd rfl e1
          | cons d s =>
            refine .cons ?_ k1
            simp only [List.headD_cons] at e2 e3 ⊢
            have hd : (0 : ℤ) < d := by omega
            have := Int.emod_lt_of_pos i hd
            have := Int.emod_nonneg i (ne_of_gt hd)
            omega

theorem zipWith_max_pos {A B : List ℕ} (h : ∀ r ∈ A, 0 < r) : ∀ r ∈ List.zipWith max A B, 0 < r := by
  intro r hr
  obtain ⟨p, hp, rfl⟩ := mem_zipWith_pair hr
  exact lt_of_lt_of_le (h _ (List.of_mem_zip hp).1) (le_max_left _ _)

theorem zipWith_mul_pos {A B : List ℕ} (h : ∀ r ∈ A, 0 < r) (h' : ∀ r ∈ B, 0 < r) :
    ∀ r ∈ List.zipWith (· * ·) A B, 0 < r := by
  intro r hr
  obtain ⟨p, hp, rfl⟩ := mem_zipWith_pair hr
  exact Nat.mul_pos (h _ (List.of_mem_zip hp).1) (h' _ (List.of_mem_zip hp).2)

theorem den_padRanks {x : MPA ℂ} {t : Ten} (h : Reps x t) (rank : ℕ) (force : Bool) :
    Makes (x.padRanks (some rank) force) t := by
  obtain ⟨y, h1, h2, h3, h4, h5, h6, h7⟩ := C30_pad_ranks x h.good.valid rank force
  refine ⟨y, h1, reps_of h2 (canonOK_form h3 h4) (by rw [h5, h.shape]) h.pos
    (by rw [h6]; exact zipWith_max_pos h.ranks) ?_⟩
  intro j hj
  rw [h7 j (by rw [h.shape]; exact hj), h.val j hj]

theorem den_padRanksNone {x : MPA ℂ} {t : Ten} (h : Reps x t) (force : Bool) (hl : 2 ≤ t.shape.length) :
    Makes (x.padRanks none force) t := by
  obtain ⟨y, h1, h2, h3, h4, h5, h6, h7⟩ := padRanks_ok x h.good.valid (listMax x.ranks) force none
    (Or.inr ⟨rfl, by
      intro e
      have := ranks_length x
      rw [e, h.len] at this
      simp at this; omega, rfl⟩)
  refine ⟨y, h1, reps_of h2 (canonOK_form h3 h4) (by rw [h5, h.shape]) h.pos
    (by rw [h6]; exact zipWith_max_pos h.ranks) ?_⟩
  intro j hj
  rw [h7 j (by rw [h.shape]; exact hj), h.val j hj]

theorem freeShape_length (S : List (List ℕ)) (axes : List ℤ) : (freeShape S axes).length = S.length := by
  simp [freeShape]

theorem den_dot {x y : MPA ℂ} {s t : Ten} (hx : Reps x s) (hy : Reps y t) (axes : List ℤ × List ℤ)
    (h : DotLegs s.shape t.shape axes) :
    Makes (Mpnum.dot x y axes) ⟨List.zipWith (· ++ ·) (freeShape s.shape axes.1) (freeShape t.shape axes.2),
      fun j => sumSites (conShape s.shape axes.1) fun k =>
        s.val (mergeIdx axes.1 s.shape k (frontIdx (freeShape s.shape axes.1) j)) *
        t.val (mergeIdx axes.2 t.shape k (backIdx (freeShape s.shape axes.1) j))⟩ := by
  obtain ⟨z, h1, h2, h3, h4, h5, h6, h7⟩ := C08_dot x y axes hx.good.valid hy.good.valid
    ⟨by rw [hx.len, hy.len]; exact h.len, by rw [hx.shape]; exact h.axl, by rw [hy.shape]; exact h.axr, by
      rw [hx.shape, hy.shape]; exact h.dims⟩
  rw [hx.shape, hy.shape] at h5
  simp only [hx.shape, hy.shape] at h7
  refine ⟨z, h1, reps_of h2 (canonOK_form h3 h4) h5 (zipWith_append_pos (freeShape_pos hx.pos) (freeShape_pos hy.pos))
    (by rw [h6]; exact zipWith_mul_pos hx.ranks hy.ranks) ?_⟩
  intro j hj
  obtain ⟨k1, k2, k3⟩ := frontBack (by rw [freeShape_length, freeShape_length]; exact h.len) hj
  have := h7 _ _ k1 k2
  rw [k3] at this
  rw [this]
  refine sumSites_congr fun k hk => ?_
  rw [hx.val _ (mergeIdx_inB (fun s hs => (h.axl s hs).1) hk k1),
    hy.val _ (mergeIdx_inB (fun s hs => (h.axr s hs).1) (by rw [conShape, ← h.dims]; exact hk) k2)]

theorem den_localouter {x y : MPA ℂ} {s t : Ten} (hx : Reps x s) (hy : Reps y t) (h : s.shape.length = t.shape.length) :
    Makes (Mpnum.localouter x y) ⟨List.zipWith (· ++ ·) s.shape t.shape,
      fun j => s.val (frontIdx s.shape j) * t.val (backIdx s.shape j)⟩ := by
  obtain ⟨z, h1, h2, h3, h4, h5, h6, h7⟩ := C22_localouter x y hx.good.valid hy.good.valid (by rw [hx.len, hy.len, h])
  rw [hx.shape, hy.shape] at h5
  refine ⟨z, h1, reps_of h2 (canonOK_form h3 h4) h5 (zipWith_append_pos hx.pos hy.pos)
    (by rw [h6]; exact zipWith_mul_pos hx.ranks hy.ranks) ?_⟩
  intro j hj
  obtain ⟨k1, k2, k3⟩ := frontBack h hj
  have := h7 _ _ (by rw [hx.shape]; exact k1) (by rw [hy.shape]; exact k2)
  rw [k3] at this
  rw [this, hx.val _ k1, hy.val _ k2]

theorem den_prune {x : MPA ℂ} {t : Ten} (h : Reps x t) :
    Makes (Mpnum.prune x false) ⟨pruned t.shape, fun j => t.val (cutSites t.shape j.flatten)⟩ := by
  obtain ⟨y, h1, h2, h3, h4, h5, h6, h7, -⟩ := C21_prune x h.good.valid
  rw [h.shape] at h5 h7
  have hf : (pruned t.shape).flatten = t.shape.flatten := pruned_flatten _
  refine ⟨y, h1, reps_of h2 (canonOK_form h3 h4) h5 (pos_flatten hf h.pos) (fun r hr => h.ranks r (h6.subset hr)) ?_⟩
  intro j hj
  obtain ⟨k1, k2⟩ := cutSites_ok hj hf
  have key : pruned (cutSites t.shape j.flatten) = j :=
    idxOK_flatten_inj (idxOK_pruned k1) hj (by rw [pruned_flatten, k2])
  have := h7 _ k1
  rw [key] at this
  rw [this, h.val _ k1]

theorem traceRest_pos {os : List (Option (ℤ × ℤ))} {S : List (List ℕ)} (h : ∀ s ∈ S, ∀ d ∈ s, 0 < d) :
    ∀ s ∈ List.zipWith traceRest os S, ∀ d ∈ s, 0 < d := by
  intro s hs
  obtain ⟨p, hp, rfl⟩ := mem_zipWith_pair hs
  have := h _ (List.of_mem_zip hp).2
  rcases p with ⟨_ | ⟨i, j⟩, s⟩
  · exact this
  · exact freeDims_pos this

theorem den_partialtrace {x : MPA ℂ} {t : Ten} (h : Reps x t) (axes : TraceAxes)
    (hl : (axes.sites t.shape.length).length = t.shape.length)
    (ha : ∀ p ∈ (axes.sites t.shape.length).zip t.shape, TraceOK p.1 p.2) :
    Makes (Mpnum.partialtrace x axes) ⟨pruned (List.zipWith traceRest (axes.sites t.shape.length) t.shape),
        fun j => sumSites (List.zipWith traceDims (axes.sites t.shape.length) t.shape) fun k =>
          t.val (List.zipWith3 (fun (p : Option (ℤ × ℤ) × List ℕ) f k => traceMerge p.1 p.2 f k)
            ((axes.sites t.shape.length).zip t.shape)
            (cutSites (List.zipWith traceRest (axes.sites t.shape.length) t.shape) j.flatten) k)⟩ := by
  obtain ⟨y, h1, h2, h3, h4, h5, h6, h7⟩ := C20_partialtrace x h.good.valid axes
    ⟨by rw [h.len]; exact hl, by rw [h.len, h.shape]; exact ha⟩
  rw [h.shape, h.len] at h5 h7
  have hf : (pruned (List.zipWith traceRest (axes.sites t.shape.length) t.shape)).flatten
      = (List.zipWith traceRest (axes.sites t.shape.length) t.shape).flatten := pruned_flatten _
  refine ⟨y, h1, reps_of h2 (canonOK_form h3 h4) h5 (pos_flatten hf (traceRest_pos h.pos))
    (fun r hr => h.ranks r (h6.subset hr)) ?_⟩
  intro j hj
  obtain ⟨k1, k2⟩ := cutSites_ok hj hf
  have key := idxOK_flatten_inj (idxOK_pruned k1) hj (by rw [pruned_flatten, k2])
  have := h7 _ k1
  rw [key] at this
  rw [this]
  refine sumSites_congr fun k hk => h.val _ ?_
  exact traceMerges_inB hl ha k1 hk

theorem den_vleg2leg {x : MPA ℂ} {t : Ten} (h : Reps x t) (pos : ℕ) (hp : pos + 1 < t.shape.length) :
    ∃ (D : ℕ) (u : List (List ℕ) → ℂ), 0 < D ∧
      (∀ j, IdxOK j t.shape → ∑ c ∈ Finset.range D, u (cutAt pos c c j) = t.val j) ∧
      Makes (x.vleg2leg pos) ⟨cutAt pos D D t.shape, u⟩ := by
  have hlt : pos < x.ranks.length := by rw [ranks_length, h.len]; omega
  have hD : x.ranks[pos]? = some x.ranks[pos] := List.getElem?_eq_getElem hlt
  have hD0 : 0 < x.ranks[pos] := h.ranks _ (List.getElem_mem hlt)
  obtain ⟨y, h1, h2, h3, h4, h5, h6⟩ := C17_vleg2leg x h.good.valid pos _ hD
  rw [h.shape] at h3 h5
  refine ⟨_, y.val, hD0, fun j hj => (h5 j hj).trans (h.val j hj), y, h1, reps_of h2 (h6 h.good.canon) h3 ?_ ?_
    fun _ _ => rfl⟩
  · intro s hs d hd
    simp only [cutAt] at hs
    obtain ⟨n, hn, rfl⟩ := List.mem_iff_getElem.1 hs
    simp only [List.getElem_modify] at hd
    have hn' : n < t.shape.length := by simpa using hn
    have hpos := h.pos _ (List.getElem_mem hn')
    split at hd <;> split at hd <;>
      (try simp only [List.mem_cons, List.mem_append, List.not_mem_nil, or_false] at hd) <;> grind
  · rw [h4]
    intro r hr
    rcases List.mem_or_eq_of_mem_set hr with hr | rfl
    · exact h.ranks r hr
    · exact one_pos

theorem cutAt_pos {S : List (List ℕ)} (h : ∀ s ∈ S, ∀ d ∈ s, 0 < d) {pos D : ℕ} (hD : 0 < D) :
    ∀ s ∈ cutAt pos D D S, ∀ d ∈ s, 0 < d := by
  intro s hs d hd
  simp only [cutAt] at hs
  obtain ⟨n, hn, rfl⟩ := List.mem_iff_getElem.1 hs
  simp only [List.getElem_modify] at hd
  have hn' : n < S.length := by simpa using hn
  have hpos := h _ (List.getElem_mem hn')
  split at hd <;> split at hd <;>
    (try simp only [List.mem_cons, List.mem_append, List.not_mem_nil, or_false] at hd) <;> grind

theorem den_split {x : MPA ℂ} {t : Ten} (h : Reps x t) (pos : ℕ) (hp : pos + 1 < t.shape.length) :
    ∃ (D : ℕ) (a b : List (List ℕ) → ℂ), 0 < D ∧
      (∀ j, IdxOK j t.shape → ∑ c ∈ Finset.range D,
        a ((cutAt pos c c j).take (pos + 1)) * b ((cutAt pos c c j).drop (pos + 1)) = t.val j) ∧
      Makes (Fun.run qr (.splitLeft pos) [x]) ⟨(cutAt pos D D t.shape).take (pos + 1), a⟩ ∧
      Makes (Fun.run qr (.splitRight pos) [x]) ⟨(cutAt pos D D t.shape).drop (pos + 1), b⟩ := by
  have hlt : pos < x.ranks.length := by rw [ranks_length, h.len]; omega
  have hD : x.ranks[pos]? = some x.ranks[pos] := List.getElem?_eq_getElem hlt
  have hD0 : 0 < x.ranks[pos] := h.ranks _ (List.getElem_mem hlt)
  obtain ⟨y, z, h1, h2, h3, h4, h5, h6, h7, h8, h9⟩ := C17_split x h.good.valid pos _ hD
  rw [h.shape] at h5 h8
  have hyl : y.shape.length = pos + 1 := (physShape_length y.lt).trans h4
  have hy : y.shape = (cutAt pos x.ranks[pos] x.ranks[pos] t.shape).take (pos + 1) := by
    rw [← h5, ← hyl, List.take_left]
  have hz : z.shape = (cutAt pos x.ranks[pos] x.ranks[pos] t.shape).drop (pos + 1) := by
    rw [← h5, ← hyl, List.drop_left]
  have hc := cutAt_pos (S := t.shape) (pos := pos) h.pos hD0
  refine ⟨_, y.val, z.val, hD0, fun j hj => (h8 j hj).trans (h.val j hj), ⟨y, ?_, ?_⟩, ⟨z, ?_, ?_⟩⟩
  · simp only [Fun.run, h1, ok_bind]
  · refine reps_of h2 (h9 h.good.canon).1 hy (fun s hs => hc s (List.mem_of_mem_take hs)) (fun r hr => ?_) fun _ _ => rfl
    rw [h6] at hr
    exact h.ranks r (List.mem_of_mem_take hr)
  · simp only [Fun.run, h1, ok_bind]
  · refine reps_of h3 (h9 h.good.canon).2 hz (fun s hs => hc s (List.mem_of_mem_drop hs)) (fun r hr => ?_) fun _ _ => rfl
    rw [h7] at hr
    exact h.ranks r (List.mem_of_mem_drop hr)

end Prog

end Mpnum
