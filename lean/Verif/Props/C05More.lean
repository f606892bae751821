import Verif.Props.C05

/-!
C05, all shapes: when `x + y` succeeds for MPAs of different physical shapes.

`_local_add` assigns the tensors of the summands to blocks of the new tensor (mparray.py:1856-1860), and numpy broadcasts in such an assignment;
the check of the shapes in this function is commented out (mparray.py:1843-1846).
-/

open Finset

namespace Mpnum

variable {R : Type}

/-- Specification: an array with leg sizes `q` broadcasts to the leg sizes `p` (same number of legs): every leg has the same size or size one. -/
def BroadcastsTo (q p : List ℕ) : Prop := List.Forall₂ (fun e d => e = d ∨ e = 1) q p

theorem BroadcastsTo.rfl' (p : List ℕ) : BroadcastsTo p p := List.forall₂_same.2 fun _ _ => .inl rfl

/-- Specification: the shapes `S`, `T` of MPAs for which `+` succeeds: the legs agree on the first and on the last site, and those of the
second summand broadcast to those of the first one on all sites. -/
structure AddShapes (S T : List (List ℕ)) : Prop where
  first : T.head? = S.head?
  last : T.getLast? = S.getLast?
  inner : List.Forall₂ BroadcastsTo T S

/-- Specification: the index of an entry of an array with leg sizes `q` that is repeated at the index `i` by broadcasting. -/
def clipLegs (q i : List ℕ) : List ℕ := List.zipWith (fun d j => if d = 1 then 0 else j) q i

/-- Specification: the same for all sites. -/
def clipIdx (T idx : List (List ℕ)) : List (List ℕ) := List.zipWith clipLegs T idx

theorem bshapeRev_iff : ∀ {v t : List ℕ}, v.length = t.length → (bshapeRev v t = some t ↔ List.Forall₂ (fun e d => e = d ∨ e = 1) v t)
  | [], [], _ => by simp [bshapeRev]
  | d :: s, e :: t, h => by
    have ih := bshapeRev_iff (v := s) (t := t) (by simpa using h)
    rw [List.forall₂_cons, ← ih]
    simp only [bshapeRev]
    cases hb : bshapeRev s t with
    | none => simp
    | some u =>
      simp only [Option.some.injEq]
      by_cases h1 : d = e
      · simp [h1]
      · by_cases h2 : d = 1
        · subst h2
          rw [if_neg h1, if_pos rfl]
          simp
        · rw [if_neg h1, if_neg h2]
          constructor
          · intro h3
            split at h3
            · simp only [Option.some.injEq, List.cons.injEq] at h3
              exact absurd h3.1 h1
            · cases h3
          · rintro ⟨h3 | h3, _⟩
            · exact absurd h3 h1
            · exact absurd h3 h2

theorem bshape_iff {v t : List ℕ} (h : v.length = t.length) : bshape v t = some t ↔ BroadcastsTo v t := by
  unfold bshape BroadcastsTo
  rw [← List.forall₂_reverse_iff, ← bshapeRev_iff (by simpa using h)]
  cases bshapeRev v.reverse t.reverse with
  | none => simp
  | some u =>
    simp only [Option.map_some, Option.some.injEq]
    exact ⟨fun h => by rw [← h, List.reverse_reverse], fun h => by rw [h, List.reverse_reverse]⟩

theorem assignable_iff {v t : List ℕ} (h : v.length = t.length) : NDArray.assignable v t = true ↔ BroadcastsTo v t := by
  unfold NDArray.assignable
  rw [h, Nat.sub_self]
  simp [bshape_iff h]

theorem bidx_same {s i : List ℕ} (h : i.length ≤ s.length) : bidx s i = clipLegs s i := by
  unfold bidx clipLegs
  rw [Nat.sub_eq_zero_of_le h, List.drop_zero]

theorem clipLegs_clip : ∀ {q p i : List ℕ}, BroadcastsTo q p → clipLegs q (clipLegs p i) = clipLegs q i
  | [], [], _, _ => by simp [clipLegs]
  | e :: q, d :: p, [], _ => by simp [clipLegs]
  | e :: q, d :: p, j :: i, h => by
    rw [BroadcastsTo, List.forall₂_cons] at h
    have ih := clipLegs_clip (i := i) h.2
    unfold clipLegs at ih ⊢
    simp only [List.zipWith_cons_cons, ih, List.cons.injEq, and_true]
    rcases h.1 with rfl | rfl
    · split <;> simp_all
    · simp

theorem clipLegs_length (q i : List ℕ) : (clipLegs q i).length = min q.length i.length := by simp [clipLegs]

theorem clipLegs_inB : ∀ {q p i : List ℕ}, BroadcastsTo q p → InB i p → InB (clipLegs q i) q
  | [], [], [], _, _ => by simp [clipLegs]
  | e :: q, d :: p, j :: i, h, hi => by
    rw [BroadcastsTo, List.forall₂_cons] at h
    rw [inB_cons] at hi
    have ih := clipLegs_inB h.2 hi.2
    unfold clipLegs at ih ⊢
    rw [List.zipWith_cons_cons, inB_cons]
    refine ⟨?_, ih⟩
    rcases h.1 with rfl | rfl
    · split
      · omega
      · exact hi.1
    · simp

theorem clipLegs_id {q i : List ℕ} (h : InB i q) : clipLegs q i = i := by
  induction h with
  | nil => rfl
  | cons h _ ih =>
    unfold clipLegs at ih ⊢
    rw [List.zipWith_cons_cons, ih]
    split
    · congr 1; omega
    · rfl

theorem bidx_clip {s s' i : List ℕ} (h : BroadcastsTo s s') : bidx s (bidx s' i) = bidx s i := by
  have hl : s.length = s'.length := List.Forall₂.length_eq h
  have h1 : bidx s' i = clipLegs s' (i.drop (i.length - s'.length)) := rfl
  have h2 : bidx s i = clipLegs s (i.drop (i.length - s.length)) := rfl
  rw [h1, bidx_same (by rw [clipLegs_length]; omega), h2, clipLegs_clip h, hl]

/-- The tensor `v` broadcast to physical legs `p`. -/
def NDArray.bcast (p : List ℕ) (v : NDArray R) : NDArray R := ⟨v.lb :: (p ++ [v.rb]), fun i => v.get (bidx v.shape i)⟩

theorem NDArray.bcast_lb (p : List ℕ) (v : NDArray R) : (v.bcast p).lb = v.lb := NDArray.lb_of_shape rfl
theorem NDArray.bcast_rb (p : List ℕ) (v : NDArray R) : (v.bcast p).rb = v.rb := NDArray.rb_of_shape (by rfl)
theorem NDArray.bcast_ph (p : List ℕ) (v : NDArray R) : (v.bcast p).ph = p := NDArray.ph_of_shape (by rfl)

theorem broadcasts_shape {v : NDArray R} (hv : v.IsLocal) {p : List ℕ} (h : BroadcastsTo v.ph p) : BroadcastsTo v.shape (v.lb :: (p ++ [v.rb])) := by
  rw [NDArray.shape_local hv]
  exact .cons (.inl rfl) (List.rel_append h (.cons (.inl rfl) .nil))

theorem broadcasts_shape_inv {v : NDArray R} (hv : v.IsLocal) {p : List ℕ} (hl : v.ph.length = p.length)
    (h : BroadcastsTo v.shape (v.lb :: (p ++ [v.rb]))) : BroadcastsTo v.ph p := by
  rw [NDArray.shape_local hv, BroadcastsTo, List.forall₂_cons] at h
  have := List.forall₂_take v.ph.length h.2
  rw [List.take_left, hl, List.take_left] at this
  exact this

theorem assignBlock_bcast {res v : NDArray R} {l0 r0 : ℕ} (hv : v.IsLocal) (hres : res.ndim = v.shape.length)
    (h : BroadcastsTo v.ph res.ph) :
    res.assignBlock v l0 (l0 + v.lb) r0 (r0 + v.rb) = res.assignBlock (v.bcast res.ph) l0 (l0 + v.lb) r0 (r0 + v.rb) := by
  have hb := broadcasts_shape hv h
  have hlen : v.shape.length = (v.bcast res.ph).shape.length := List.Forall₂.length_eq hb
  unfold NDArray.assignBlock
  rw [Nat.add_sub_cancel_left, Nat.add_sub_cancel_left, if_pos (show NDArray.assignable v.shape (v.lb :: (res.ph ++ [v.rb])) = true from (assignable_iff hlen).2 hb),
    if_pos (show NDArray.assignable (v.bcast res.ph).shape (v.lb :: (res.ph ++ [v.rb])) = true from (assignable_iff rfl).2 (BroadcastsTo.rfl' _))]
  rw [hres, ← hlen, Nat.sub_self, List.drop_zero, List.drop_zero]
  congr 2
  funext idx
  simp only
  split
  · show _ = v.get (bidx v.shape (bidx _ _))
    rw [show bidx v.shape (bidx (NDArray.bcast res.ph v).shape _) = _ from bidx_clip hb]
  · rfl

theorem assignBlock_fail {res v : NDArray R} {l0 r0 : ℕ} (hv : v.IsLocal) (hl : v.ph.length = res.ph.length)
    (h : ¬ BroadcastsTo v.ph res.ph) : res.assignBlock v l0 (l0 + v.lb) r0 (r0 + v.rb) = .error .value := by
  have hlen : v.shape.length = (v.lb :: (res.ph ++ [v.rb])).length := by rw [NDArray.shape_local hv]; simp [hl]
  unfold NDArray.assignBlock
  rw [Nat.add_sub_cancel_left, Nat.add_sub_cancel_left, if_neg]
  intro h'
  exact h (broadcasts_shape_inv hv hl ((assignable_iff hlen).1 h'))

section
variable [Zero R]

theorem localAdd_two {t u : NDArray R} (ht : t.IsLocal) :
    ∃ res : NDArray R, res.ph = t.ph ∧ res.ndim = t.ndim ∧ ∀ v : NDArray R, v.lb = u.lb → v.rb = u.rb →
      localAdd [t, v] = (res.assignBlock v t.lb (t.lb + v.lb) t.rb (t.rb + v.rb) : Py (NDArray R)) := by
  set z : NDArray R := NDArray.zeros ((t.lb + u.lb) :: (t.ph ++ [t.rb + u.rb])) with hz
  have hzph : z.ph = t.ph := NDArray.ph_of_shape (by rfl)
  have hass : ∃ res : NDArray R, z.assignBlock t 0 (0 + t.lb) 0 (0 + t.rb) = .ok res ∧ res.shape = z.shape := by
    unfold NDArray.assignBlock
    rw [if_pos]
    · exact ⟨_, rfl, rfl⟩
    · rw [Nat.add_sub_cancel_left, Nat.add_sub_cancel_left, hzph, ← NDArray.shape_local ht]
      exact (assignable_iff rfl).2 (BroadcastsTo.rfl' _)
  obtain ⟨res, h1, h2⟩ := hass
  refine ⟨res, ?_, ?_, fun v hl hr => ?_⟩
  · rw [← hzph]; unfold NDArray.ph; rw [h2]
  · unfold NDArray.ndim; rw [h2, NDArray.shape_local ht]; simp [hz, NDArray.zeros]
  · have e : localAdd [t, v] = localAddLoop [t, v] z 0 0 := by
      unfold localAdd
      simp only [List.map_cons, List.map_nil, List.sum_cons, List.sum_nil, Nat.add_zero, hl, hr]
      rfl
    rw [e, localAddLoop, h1, ok_bind, localAddLoop, Nat.zero_add, Nat.zero_add]
    cases res.assignBlock v t.lb (t.lb + v.lb) t.rb (t.rb + v.rb) <;> rfl

theorem localAdd_bcast {t u : NDArray R} (ht : t.IsLocal) (hu : u.IsLocal) (h : BroadcastsTo u.ph t.ph) :
    localAdd [t, u] = localAdd [t, u.bcast t.ph] := by
  obtain ⟨res, h1, h2, h3⟩ := localAdd_two (u := u) ht
  rw [h3 u rfl rfl, h3 _ (NDArray.bcast_lb _ _) (NDArray.bcast_rb _ _), NDArray.bcast_lb, NDArray.bcast_rb]
  have hl : u.ph.length = t.ph.length := List.Forall₂.length_eq h
  rw [assignBlock_bcast hu (by rw [h2, NDArray.ndim, NDArray.shape_local ht, NDArray.shape_local hu]; simp [hl]) (by rw [h1]; exact h), h1]

theorem localAdd_fail {t u : NDArray R} (ht : t.IsLocal) (hu : u.IsLocal) (hl : u.ph.length = t.ph.length) (h : ¬ BroadcastsTo u.ph t.ph) :
    localAdd [t, u] = .error .value := by
  obtain ⟨res, h1, h2, h3⟩ := localAdd_two (u := u) ht
  rw [h3 u rfl rfl, assignBlock_fail hu (by rw [h1, hl]) (by rw [h1]; exact h)]

/-- Concatenation of two tensors along one bond if the other bonds agree. -/
theorem concat_fail {t u : NDArray R} {ax : ℕ} (h : u.shape.set ax 0 ≠ t.shape.set ax 0) : NDArray.concatenate [t, u] ax = .error .value := by
  unfold NDArray.concatenate
  simp only
  rw [if_neg]
  intro h'
  exact h (h'.2 u (by simp)).2

end

/-- The sites behind the first one, with the shapes of the second summand broadcast to those of the first one except on the last site. -/
def bcasts : List (NDArray R) → List (NDArray R) → List (NDArray R)
  | _, [u] => [u]
  | t :: ts, u :: us => u.bcast t.ph :: bcasts ts us
  | _, us => us

/-- `AddShapes` without the condition on the first site. -/
def RestShapes (ts us : List (NDArray R)) : Prop :=
  (physShape us).getLast? = (physShape ts).getLast? ∧ List.Forall₂ BroadcastsTo (physShape us) (physShape ts)

theorem restShapes_cons {t u : NDArray R} {ts us : List (NDArray R)} (ht : ts ≠ []) (hu : us ≠ []) :
    RestShapes (t :: ts) (u :: us) ↔ BroadcastsTo u.ph t.ph ∧ RestShapes ts us := by
  obtain ⟨t', ts, rfl⟩ := List.exists_cons_of_ne_nil ht
  obtain ⟨u', us, rfl⟩ := List.exists_cons_of_ne_nil hu
  unfold RestShapes physShape
  simp only [List.map_cons, List.getLast?_cons_cons, List.forall₂_cons]
  tauto

theorem restShapes_single {t u : NDArray R} : RestShapes [t] [u] ↔ u.ph = t.ph := by
  unfold RestShapes physShape
  simp only [List.map_cons, List.map_nil, List.getLast?_singleton, Option.some.injEq, List.forall₂_cons, List.forall₂_nil_right_iff, and_true]
  exact ⟨fun h => h.1, fun h => ⟨h, by rw [h]; exact BroadcastsTo.rfl' _⟩⟩

theorem sumRest_succ [Zero R] (n : ℕ) (t u : NDArray R) (ts us : List (NDArray R)) :
    sumRest (n + 2) [t :: ts, u :: us] = (do
      let c ← localAdd [t, u]
      let cs ← sumRest (n + 1) [ts, us]
      return c :: cs) := rfl

theorem sumRest_one [Zero R] (t u : NDArray R) (ts us : List (NDArray R)) :
    sumRest 1 [t :: ts, u :: us] = (do
      let c ← NDArray.concatenate [t, u] 0
      return [c]) := rfl

theorem sumRest_bcast [Zero R] (n : ℕ) : ∀ {ts us : List (NDArray R)} {l l' : ℕ}, ts.length = n + 1 → us.length = n + 1 → Chained l ts 1 →
    Chained l' us 1 → (physShape us).map List.length = (physShape ts).map List.length →
    (RestShapes ts us → sumRest (n + 1) [ts, us] = sumRest (n + 1) [ts, bcasts ts us]) ∧
    (¬ RestShapes ts us → sumRest (n + 1) [ts, us] = .error .value) := by
  induction n with
  | zero =>
    intro ts us l l' h1 h2 ht hu hleg
    obtain ⟨t, rfl⟩ := List.length_eq_one_iff.1 h1
    obtain ⟨u, rfl⟩ := List.length_eq_one_iff.1 h2
    refine ⟨fun _ => rfl, fun h => ?_⟩
    rw [sumRest_one, concat_fail]
    · rfl
    · intro h'
      apply h
      rw [restShapes_single]
      rw [NDArray.shape_local ht.1, NDArray.shape_local hu.1, show t.rb = 1 from ht.2.2, show u.rb = 1 from hu.2.2] at h'
      simpa using h'
  | succ n ih =>
    intro ts us l l' h1 h2 ht hu hleg
    obtain ⟨t, ts, rfl⟩ := List.exists_cons_of_length_eq_add_one h1
    obtain ⟨u, us, rfl⟩ := List.exists_cons_of_length_eq_add_one h2
    have hts : ts ≠ [] := List.ne_nil_of_length_pos (by simp at h1; omega)
    have hus : us ≠ [] := List.ne_nil_of_length_pos (by simp at h2; omega)
    simp only [physShape, List.map_cons, List.cons.injEq] at hleg
    obtain ⟨i1, i2⟩ := ih (ts := ts) (us := us) (by simpa using h1) (by simpa using h2) ht.2.2 hu.2.2 (by simpa [physShape] using hleg.2)
    have hb : bcasts (t :: ts) (u :: us) = u.bcast t.ph :: bcasts ts us := by
      obtain ⟨u', us, rfl⟩ := List.exists_cons_of_ne_nil hus
      rfl
    rw [restShapes_cons hts hus, hb, sumRest_succ, sumRest_succ]
    refine ⟨fun ⟨h1, h2⟩ => ?_, fun h => ?_⟩
    · rw [localAdd_bcast ht.1 hu.1 h1, i1 h2]
    · by_cases hbc : BroadcastsTo u.ph t.ph
      · rw [i2 fun h' => h ⟨hbc, h'⟩]
        rw [localAdd_bcast ht.1 hu.1 hbc]
        obtain ⟨c, hc, -⟩ := localAdd_ok (ts := [t, u.bcast t.ph]) (P := t.ph) (by simp) (by
          intro v hv
          simp only [List.mem_cons, List.not_mem_nil, or_false] at hv
          rcases hv with rfl | rfl
          · exact NDArray.shape_local ht.1
          · rw [NDArray.bcast_lb, NDArray.bcast_rb]; rfl)
        rw [hc]; rfl
      · rw [localAdd_fail ht.1 hu.1 hleg.1 hbc]; rfl

theorem bcasts_spec [CommSemiring R] : ∀ {ts us : List (NDArray R)} {l' : ℕ}, Chained l' us 1 → RestShapes ts us → us ≠ [] →
    Chained l' (bcasts ts us) 1 ∧ physShape (bcasts ts us) = physShape ts ∧ (bcasts ts us).length = us.length ∧
    ∀ idx, IdxOK idx (physShape ts) → ∀ a < l', ∀ b < 1, mp (bcasts ts us) idx a b = mp us (clipIdx (physShape us) idx) a b
  | _, [], _, _, _, h => absurd rfl h
  | [], u :: us, _, _, h, _ => by
    have := List.Forall₂.length_eq h.2
    simp [physShape] at this
  | [t], [u], l', hu, h, _ => by
    have hp := restShapes_single.1 h
    refine ⟨hu, by simp [bcasts, physShape, hp], rfl, fun idx hi a ha b hb => ?_⟩
    cases hi with
    | cons h1 h2 =>
      cases h2
      simp only [bcasts, clipIdx, physShape, List.map_cons, List.map_nil, List.zipWith_cons_cons, List.zipWith_nil_right]
      rw [hp, clipLegs_id h1]
  | t :: t' :: ts, [u], _, _, h, _ => by
    have := List.Forall₂.length_eq h.2
    simp [physShape] at this
  | [t], u :: u' :: us, _, _, h, _ => by
    have := List.Forall₂.length_eq h.2
    simp [physShape] at this
  | t :: t' :: ts, u :: u' :: us, l', hu, h, _ => by
    obtain ⟨hb, hr⟩ := (restShapes_cons (by simp) (by simp)).1 h
    obtain ⟨i1, i2, i3, i4⟩ := bcasts_spec (ts := t' :: ts) hu.2.2 hr (by simp)
    have e : bcasts (t :: t' :: ts) (u :: u' :: us) = u.bcast t.ph :: bcasts (t' :: ts) (u' :: us) := rfl
    rw [e]
    refine ⟨⟨NDArray.isLocal_of_shape (t := u.bcast t.ph) (p := t.ph) rfl, by rw [NDArray.bcast_lb]; exact hu.2.1, by rw [NDArray.bcast_rb]; exact i1⟩, ?_, by simp [i3],
      fun idx hi a ha b hb' => ?_⟩
    · simp only [physShape, List.map_cons, NDArray.bcast_ph] at i2 ⊢
      rw [i2]
    · cases hi with
      | @cons i _ is _ h1 h2 =>
        have ec : clipIdx (physShape (u :: u' :: us)) (i :: is) = clipLegs u.ph i :: clipIdx (physShape (u' :: us)) is := rfl
        rw [ec, mp_cons, mp_cons, NDArray.bcast_rb]
        refine Finset.sum_congr rfl fun c hc => ?_
        have hc : c < u.rb := by simpa using hc
        rw [i4 is h2 c hc b hb']
        congr 1
        have hsh := NDArray.shape_local hu.1
        have hl : i.length = t.ph.length := inB_length h1
        have hl2 : u.ph.length = t.ph.length := List.Forall₂.length_eq hb
        show u.get (bidx u.shape (a :: (i ++ [c]))) = u.get (a :: (clipLegs u.ph i ++ [c]))
        congr 1
        rw [bidx_same (by rw [hsh]; simp; omega), hsh]
        unfold clipLegs
        rw [List.zipWith_cons_cons, List.zipWith_append (by omega)]
        simp only [List.zipWith_cons_cons, List.zipWith_nil_right]
        have hlb := hu.2.1
        congr 2
        · split
          · omega
          · rfl
        · congr 1
          split
          · omega
          · rfl

/-- C05, all shapes with the same number of legs on every site: `x + y` for two or more sites succeeds exactly if the legs agree on the first and
the last site and those of `y` broadcast to those of `x` on the others.  The result then has the shape of `x`, and its entries are those of `x`
plus the repeated entries of `y`.  In all other cases there is a `ValueError`.

A finding: MPAs of different shapes are not always rejected, and `x + y` can succeed where `y + x` fails (`C05_add_not_symmetric`). -/
theorem C05_add_outcomes [CommSemiring R] (x y : MPA R) (hx : x.Valid) (hy : y.Valid) (hl : x.len = y.len) (hn : 2 ≤ x.len)
    (hlegs : y.shape.map List.length = x.shape.map List.length) :
    (AddShapes x.shape y.shape → ∃ z, x.add y = .ok z ∧ z.Valid ∧ z.shape = x.shape ∧
      ∀ idx, IdxOK idx x.shape → z.val idx = x.val idx + y.val (clipIdx y.shape idx)) ∧
    (¬ AddShapes x.shape y.shape → x.add y = .error .value) := by
  obtain ⟨lx, xl, xr⟩ := x
  obtain ⟨ly, yl, yr⟩ := y
  cases lx with
  | nil => exact absurd rfl hx.ne
  | cons t ts =>
  cases ly with
  | nil => exact absurd rfl hy.ne
  | cons u us =>
  have hlt : ts.length = us.length := by simpa [MPA.len] using hl
  obtain ⟨n, hts⟩ : ∃ n, ts.length = n + 1 := ⟨ts.length - 1, by simp [MPA.len] at hn; omega⟩
  have hus : us.length = n + 1 := by omega
  have hxc := hx.chain
  have hyc := hy.chain
  have htne : ts ≠ [] := List.ne_nil_of_length_pos (by omega)
  have hune : us ≠ [] := List.ne_nil_of_length_pos (by omega)
  simp only [MPA.shape, physShape, List.map_cons, List.cons.injEq] at hlegs
  have hrest := sumRest_bcast n hts hus hxc.2.2 hyc.2.2 (by simpa [physShape] using hlegs.2)
  have hshape : AddShapes (MPA.shape ⟨t :: ts, xl, xr⟩) (MPA.shape ⟨u :: us, yl, yr⟩) ↔ u.ph = t.ph ∧ RestShapes ts us := by
    have hlast : ∀ (w : NDArray R) (ws : List (NDArray R)), ws ≠ [] → (physShape (w :: ws)).getLast? = (physShape ws).getLast? := by
      intro w ws h
      obtain ⟨v, vs, rfl⟩ := List.exists_cons_of_ne_nil h
      simp [physShape, List.getLast?_cons_cons]
    constructor
    · rintro ⟨h1, h2, h3⟩
      change (physShape (u :: us)).getLast? = (physShape (t :: ts)).getLast? at h2
      change List.Forall₂ BroadcastsTo (physShape (u :: us)) (physShape (t :: ts)) at h3
      rw [hlast t ts htne, hlast u us hune] at h2
      simp only [physShape, List.map_cons, List.forall₂_cons] at h3
      exact ⟨by simpa [MPA.shape, physShape] using h1, h2, h3.2⟩
    · rintro ⟨h1, h2, h3⟩
      refine ⟨by simp [MPA.shape, physShape, h1], ?_, ?_⟩
      · change (physShape (u :: us)).getLast? = (physShape (t :: ts)).getLast?
        rw [hlast t ts htne, hlast u us hune]; exact h2
      · simp only [MPA.shape, physShape, List.map_cons, List.forall₂_cons]
        exact ⟨by rw [h1]; exact BroadcastsTo.rfl' _, h3⟩
  have hlen1 : (MPA.len ⟨t :: ts, xl, xr⟩ : ℕ) = n + 2 := by simp [MPA.len, hts]
  have hadd : ∀ vs : List (NDArray R), vs.length = ts.length → ∀ a b : ℤ,
      MPA.add ⟨t :: ts, xl, xr⟩ ⟨u :: vs, a, b⟩ = (do
        let c ← concatLast [t, u]
        let cs ← sumRest (n + 1) [ts, vs]
        mkMPA (c :: cs)) := by
    intro vs hvs a b
    unfold MPA.add
    rw [pyAssert_true (by simp [MPA.len, hvs]), ok_bind, if_neg (by rw [hlen1]; omega), hlen1]
    rfl
  rw [hshape, hadd us hlt.symm]
  refine ⟨fun ⟨h1, h2⟩ => ?_, fun h => ?_⟩
  · obtain ⟨b1, b2, b3, b4⟩ := bcasts_spec (ts := ts) hyc.2.2 h2 hune
    have hvy : (⟨u :: bcasts ts us, 0, (u :: bcasts ts us).length⟩ : MPA R).Valid :=
      valid_mk (by simp) ⟨hyc.1, hyc.2.1, b1⟩
    obtain ⟨z, z1, z2, z3, z4, -⟩ := C05_add _ _ hx hvy (by
      simp only [MPA.shape, physShape, List.map_cons] at b2 ⊢
      rw [b2, h1])
    rw [hadd _ (by rw [b3, hlt]), ← hrest.1 h2] at z1
    refine ⟨z, z1, z2, z3, fun idx hi => ?_⟩
    rw [z4 idx hi]
    congr 1
    cases hi with
    | @cons i _ is _ k1 k2 =>
      show mp (u :: bcasts ts us) (i :: is) 0 0 = mp (u :: us) (clipLegs u.ph i :: clipIdx (physShape us) is) 0 0
      rw [mp_cons, mp_cons, h1, clipLegs_id k1]
      exact Finset.sum_congr rfl fun c hc => by rw [b4 is k2 c (by simpa using hc) 0 (by omega)]
  · by_cases h1 : u.ph = t.ph
    · rw [hrest.2 fun h' => h ⟨h1, h'⟩]
      obtain ⟨c, hc, -⟩ := concat_last_ok (ts := [t, u]) (l := 1) (P := t.ph) (by simp) (by
        intro v hv
        simp only [List.mem_cons, List.not_mem_nil, or_false] at hv
        rcases hv with rfl | rfl
        · rw [NDArray.shape_local hxc.1, show v.lb = 1 from hxc.2.1]
        · rw [NDArray.shape_local hyc.1, show v.lb = 1 from hyc.2.1, h1])
      rw [hc]; rfl
    · unfold concatLast
      rw [concat_fail]
      · rfl
      · intro h'
        apply h1
        have hl' : u.ph.length = t.ph.length := hlegs.1
        simp only [List.head?_cons, Option.map_some, Option.getD_some, NDArray.ndim] at h'
        rw [NDArray.shape_local hxc.1, NDArray.shape_local hyc.1, show t.lb = 1 from hxc.2.1, show u.lb = 1 from hyc.2.1] at h'
        have h2 := congrArg (fun l => (List.tail l).take t.ph.length) h'
        simpa [hl'] using h2

/-- Specification: leg sizes that numpy broadcasts against each other (same number of legs). -/
def LegsCompatible (p q : List ℕ) : Prop := List.Forall₂ (fun d e => d = e ∨ d = 1 ∨ e = 1) p q

/-- Specification: the leg sizes of the result. -/
def bcastLegs (p q : List ℕ) : List ℕ := List.zipWith (fun d e => if d = 1 then e else d) p q

theorem bshapeRev_merge : ∀ {p q : List ℕ}, p.length = q.length →
    (LegsCompatible p q → bshapeRev p q = some (bcastLegs p q)) ∧ (¬ LegsCompatible p q → bshapeRev p q = none)
  | [], [], _ => ⟨fun _ => rfl, fun h => absurd .nil h⟩
  | d :: p, e :: q, h => by
    obtain ⟨i1, i2⟩ := bshapeRev_merge (p := p) (q := q) (by simpa using h)
    unfold LegsCompatible at i1 i2 ⊢
    unfold bcastLegs at i1 ⊢
    rw [List.forall₂_cons, List.zipWith_cons_cons]
    simp only [bshapeRev]
    refine ⟨fun ⟨h1, h2⟩ => ?_, fun h' => ?_⟩
    · rw [i1 h2]
      rcases h1 with rfl | rfl | rfl
      · by_cases h1 : d = 1 <;> simp
      · by_cases h1 : (1 : ℕ) = e <;> simp [h1]
      · by_cases h1 : d = 1 <;> simp [h1]
    · by_cases hc : List.Forall₂ (fun d e => d = e ∨ d = 1 ∨ e = 1) p q
      · rw [i1 hc]
        have h1 : ¬ (d = e ∨ d = 1 ∨ e = 1) := fun h1 => h' ⟨h1, hc⟩
        simp only [not_or] at h1
        simp [h1.1, h1.2.1, h1.2.2]
      · rw [i2 hc]

theorem bshape_merge {p q : List ℕ} (h : p.length = q.length) :
    (LegsCompatible p q → bshape p q = some (bcastLegs p q)) ∧ (¬ LegsCompatible p q → bshape p q = none) := by
  obtain ⟨h1, h2⟩ := bshapeRev_merge (p := p.reverse) (q := q.reverse) (by simpa using h)
  unfold bshape
  unfold LegsCompatible at h1 h2 ⊢
  rw [List.forall₂_reverse_iff] at h1 h2
  refine ⟨fun hc => ?_, fun hc => by rw [h2 hc]; rfl⟩
  rw [h1 hc]
  unfold bcastLegs
  rw [Option.map_some, ← List.reverse_zipWith h, List.reverse_reverse]

/-- C05, one site, all shapes with the same number of legs: `x + y` is the sum of the tensors with the broadcasting of numpy, in both directions. -/
theorem C05_add_single [CommSemiring R] (x y : MPA R) (hx : x.Valid) (hy : y.Valid) (hxl : x.len = 1) (hyl : y.len = 1) (p q : List ℕ)
    (hp : x.shape = [p]) (hq : y.shape = [q]) (hlegs : p.length = q.length) :
    (LegsCompatible p q → ∃ z, x.add y = .ok z ∧ z.Valid ∧ z.shape = [bcastLegs p q] ∧
      ∀ i, InB i (bcastLegs p q) → z.val [i] = x.val [clipLegs p i] + y.val [clipLegs q i]) ∧
    (¬ LegsCompatible p q → x.add y = .error .value) := by
  obtain ⟨lx, xl, xr⟩ := x
  obtain ⟨ly, yl, yr⟩ := y
  obtain ⟨t, rfl⟩ := List.length_eq_one_iff.1 hxl
  obtain ⟨u, rfl⟩ := List.length_eq_one_iff.1 hyl
  have ht := hx.chain
  have hu := hy.chain
  simp only [MPA.shape, physShape, List.map_cons, List.map_nil, List.cons.injEq, and_true] at hp hq
  subst hp hq
  have st : t.shape = 1 :: (t.ph ++ [1]) := by rw [NDArray.shape_local ht.1, show t.lb = 1 from ht.2.1, show t.rb = 1 from ht.2.2]
  have su : u.shape = 1 :: (u.ph ++ [1]) := by rw [NDArray.shape_local hu.1, show u.lb = 1 from hu.2.1, show u.rb = 1 from hu.2.2]
  have hadd : MPA.add ⟨[t], xl, xr⟩ ⟨[u], yl, yr⟩ = (do
      let s ← t.add u
      mkMPA [s]) := by
    unfold MPA.add
    rw [pyAssert_true (by rw [hxl, hyl]), ok_bind, if_pos hxl]
    show (([u].foldlM NDArray.add t) >>= fun s => mkMPA [s]) = _
    simp
  obtain ⟨b1, b2⟩ := bshape_merge (p := t.shape) (q := u.shape) (by rw [st, su]; simp [hlegs])
  have hc : LegsCompatible t.shape u.shape ↔ LegsCompatible t.ph u.ph := by
    rw [st, su]
    unfold LegsCompatible
    rw [List.forall₂_cons]
    constructor
    · intro h
      have := List.forall₂_take t.ph.length h.2
      rw [List.take_left, hlegs, List.take_left] at this
      exact this
    · intro h
      exact ⟨.inl rfl, List.rel_append h (.cons (.inl rfl) .nil)⟩
  rw [hc] at b1 b2
  rw [hadd]
  unfold NDArray.add
  refine ⟨fun h => ?_, fun h => by rw [b2 h]; rfl⟩
  rw [b1 h]
  have hm : bcastLegs t.shape u.shape = 1 :: (bcastLegs t.ph u.ph ++ [1]) := by
    rw [st, su]
    unfold bcastLegs
    rw [List.zipWith_cons_cons, List.zipWith_append hlegs]
    rfl
  have hml : (bcastLegs t.ph u.ph).length = t.ph.length := by simp [bcastLegs, hlegs]
  set c : NDArray R := ⟨bcastLegs t.shape u.shape, fun idx => t.get (bidx t.shape idx) + u.get (bidx u.shape idx)⟩ with hcdef
  have hch : Chained 1 [c] 1 := ⟨NDArray.isLocal_of_shape hm, NDArray.lb_of_shape hm, NDArray.rb_of_shape hm⟩
  refine ⟨⟨[c], 0, 1⟩, ?_, valid_mk (by simp) hch, ?_, fun i hi => ?_⟩
  · show mkMPA [c] = _
    exact mkMPA_ok (by simp) hch
  · simp only [MPA.shape, physShape, List.map_cons, List.map_nil, NDArray.ph_of_shape (t := c) hm]
  · have hbi : ∀ v : NDArray R, v.shape = 1 :: (v.ph ++ [1]) → v.ph.length = t.ph.length →
        bidx v.shape (0 :: (i ++ [0])) = 0 :: (clipLegs v.ph i ++ [0]) := by
      intro v hv hl
      have hil : i.length = v.ph.length := by rw [inB_length hi, hml, hl]
      rw [bidx_same (by rw [hv]; simp; omega), hv]
      unfold clipLegs
      rw [List.zipWith_cons_cons, List.zipWith_append hil.symm]
      rfl
    have hval : ∀ (v : NDArray R) (a b : ℤ) (j : List ℕ), v.rb = 1 → MPA.val ⟨[v], a, b⟩ [j] = v.get (0 :: (j ++ [0])) := by
      intro v a b j hv
      show mp [v] [j] 0 0 = _
      rw [mp_cons, hv]
      simp [mp, NDArray.at3]
    rw [hval c _ _ _ hch.2.2, hval t _ _ _ ht.2.2, hval u _ _ _ hu.2.2, ← hbi t st rfl, ← hbi u su hlegs.symm]

/-- The hypotheses of `C05_add_single` are met, with broadcasting in both directions. -/
example : ∃ x y : MPA ℤ, x.Valid ∧ y.Valid ∧ x.len = 1 ∧ y.len = 1 ∧ x.shape = [[2, 1]] ∧ y.shape = [[1, 3]] ∧ LegsCompatible [2, 1] [1, 3] ∧
    bcastLegs [2, 1] [1, 3] = [2, 3] := by
  let a : ℕ → ℕ → NDArray ℤ := fun d e => ⟨[1, d, e, 1], fun i => (i.getD 1 0 : ℤ) + 1⟩
  have hv : ∀ d e, (⟨[a d e], 0, 1⟩ : MPA ℤ).Valid := fun d e =>
    valid_mk (by simp) ⟨by simp [a, NDArray.IsLocal, NDArray.ndim], rfl, rfl⟩
  exact ⟨_, _, hv 2 1, hv 1 3, rfl, rfl, rfl, rfl, by simp [LegsCompatible], rfl⟩

/-- C05, a finding and an example that meets the hypotheses of `C05_add_outcomes`: `x + y` succeeds although the shapes differ, and `y + x` raises
`ValueError`. -/
theorem C05_add_not_symmetric : ∃ x y : MPA ℤ, x.Valid ∧ y.Valid ∧ x.shape = [[2], [3], [2]] ∧ y.shape = [[2], [1], [2]] ∧
    (∃ z, x.add y = .ok z ∧ z.Valid ∧ z.shape = x.shape ∧
      ∀ i < 2, ∀ j < 3, ∀ k < 2, z.val [[i], [j], [k]] = x.val [[i], [j], [k]] + y.val [[i], [0], [k]]) ∧
    y.add x = .error .value := by
  let a : ℕ → NDArray ℤ := fun d => ⟨[1, d, 1], fun i => (i.getD 1 0 : ℤ) + 1⟩
  have ha : ∀ d, (a d).IsLocal := fun d => by simp [a, NDArray.IsLocal, NDArray.ndim]
  have hv : ∀ d e f, (⟨[a d, a e, a f], 0, 3⟩ : MPA ℤ).Valid := fun d e f =>
    valid_mk (by simp) ⟨ha d, rfl, ha e, rfl, ha f, rfl, rfl⟩
  refine ⟨⟨[a 2, a 3, a 2], 0, 3⟩, ⟨[a 2, a 1, a 2], 0, 3⟩, hv _ _ _, hv _ _ _, rfl, rfl, ?_, ?_⟩
  · obtain ⟨z, h1, h2, h3, h4⟩ := (C05_add_outcomes _ _ (hv 2 3 2) (hv 2 1 2) rfl (by simp [MPA.len]) rfl).1
      ⟨rfl, rfl, by
        show List.Forall₂ BroadcastsTo [[2], [1], [2]] [[2], [3], [2]]
        simp [BroadcastsTo]⟩
    refine ⟨z, h1, h2, h3, fun i hi j hj k hk => ?_⟩
    rw [h4 [[i], [j], [k]] (by
      show IdxOK _ [[2], [3], [2]]
      exact .cons (.cons hi .nil) (.cons (.cons hj .nil) (.cons (.cons hk .nil) .nil)))]
    rfl
  · refine (C05_add_outcomes _ _ (hv 2 1 2) (hv 2 3 2) rfl (by simp [MPA.len]) rfl).2 fun h => ?_
    have := h.inner
    change List.Forall₂ BroadcastsTo [[2], [3], [2]] [[2], [1], [2]] at this
    simp [BroadcastsTo] at this

/-! ### Different numbers of legs -/

theorem assignBlock_extra {res v : NDArray R} {l0 l1 r0 r1 : ℕ} (h : res.ph.length < v.ph.length) (hv : v.IsLocal) (h1 : v.lb ≠ 1) :
    res.assignBlock v l0 l1 r0 r1 = .error .value := by
  unfold NDArray.assignBlock
  rw [if_neg]
  unfold NDArray.assignable
  rw [NDArray.shape_local hv]
  obtain ⟨k, hk⟩ : ∃ k, (v.lb :: (v.ph ++ [v.rb])).length - ((l1 - l0) :: (res.ph ++ [r1 - r0])).length = k + 1 :=
    ⟨v.ph.length - res.ph.length - 1, by simp; omega⟩
  rw [hk]
  simp [h1]

theorem localAdd_value [Zero R] (t u : NDArray R) : (∃ c, localAdd [t, u] = .ok c) ∨ localAdd [t, u] = .error .value := by
  have hb : ∀ (res v : NDArray R) (a b c d : ℕ), (∃ z, res.assignBlock v a b c d = .ok z) ∨ res.assignBlock v a b c d = .error .value := by
    intro res v a b c d
    unfold NDArray.assignBlock
    split
    · exact .inl ⟨_, rfl⟩
    · exact .inr rfl
  simp only [localAdd, localAddLoop]
  obtain ⟨z, hz⟩ | hz := hb (NDArray.zeros (([t, u].map NDArray.lb).sum :: (t.ph ++ [([t, u].map NDArray.rb).sum]))) t 0 (0 + t.lb) 0 (0 + t.rb)
  · rw [hz, ok_bind]
    obtain ⟨w, hw⟩ | hw := hb z u (0 + t.lb) (0 + t.lb + u.lb) (0 + t.rb) (0 + t.rb + u.rb)
    · rw [hw]; exact .inl ⟨w, rfl⟩
    · rw [hw]; exact .inr rfl
  · rw [hz]; exact .inr rfl

theorem localAdd_extra [Zero R] {t u : NDArray R} (hu : u.IsLocal) (h : t.ph.length < u.ph.length) (h1 : u.lb ≠ 1) :
    localAdd [t, u] = .error .value := by
  simp only [localAdd, localAddLoop]
  generalize hz : (NDArray.zeros (([t, u].map NDArray.lb).sum :: (t.ph ++ [([t, u].map NDArray.rb).sum])) : NDArray R) = z
  have hp : z.ph = t.ph := by rw [← hz]; simp [NDArray.zeros, NDArray.ph]
  cases hw : z.assignBlock t 0 (0 + t.lb) 0 (0 + t.rb) with
  | error e =>
    unfold NDArray.assignBlock at hw
    split at hw
    · cases hw
    · cases hw; rfl
  | ok w =>
    have hs : w.ph = t.ph := by
      unfold NDArray.assignBlock at hw
      split at hw
      · cases hw; exact hp
      · cases hw
    rw [ok_bind, assignBlock_extra (by rw [hs]; exact h) hu h1]
    rfl

theorem sumRest_extra [Zero R] : ∀ {ts us : List (NDArray R)}, ts.length = us.length → (∀ u ∈ us, u.IsLocal) → ∀ k, (hk : k + 1 < us.length) →
    ∀ (hk' : k < ts.length), (ts[k]).ph.length < (us[k]).ph.length → (us[k]).lb ≠ 1 → sumRest ts.length [ts, us] = .error .value
  | [], _, _, _, _, _, hk', _, _ => by simp at hk'
  | [t], us, hl, _, k, hk, _, _, _ => by simp at hl; omega
  | t :: t2 :: ts, [], hl, _, _, _, _, _, _ => by simp at hl
  | t :: t2 :: ts, u :: us, hl, hloc, k, hk, hk', h, h1 => by
    have e : sumRest (t :: t2 :: ts).length [t :: t2 :: ts, u :: us]
        = (localAdd [t, u] >>= fun c => sumRest (t2 :: ts).length [t2 :: ts, us] >>= fun cs => .ok (c :: cs)) := rfl
    rw [e]
    cases k with
    | zero =>
      rw [localAdd_extra (hloc u (by simp)) (by simpa using h) (by simpa using h1)]
      rfl
    | succ k =>
      obtain ⟨c, hc⟩ | hc := localAdd_value t u
      · rw [hc, ok_bind, sumRest_extra (ts := t2 :: ts) (us := us) (by simpa using hl) (fun v hv => hloc v (by simp [hv])) k
          (by simp at hk; omega) (by simp at hk' ⊢; omega) (by simpa using h) (by simpa using h1)]
        rfl
      · rw [hc]; rfl

/-- C05: if the second operand has more legs than the first on a site `k` that is neither the first nor the last one, and the bond to the left
of this site has a rank other than one, then `x + y` raises a `ValueError`. -/
theorem C05_add_extra_legs [CommSemiring R] (x y : MPA R) (hx : x.Valid) (hy : y.Valid) (hl : x.len = y.len) (k : ℕ) (hk0 : 0 < k)
    (hk : k + 1 < x.len) (h : ((x.shape.getD k []).length < (y.shape.getD k []).length)) (hr : y.ranks.getD (k - 1) 0 ≠ 1) :
    x.add y = .error .value := by
  obtain ⟨lx, xl, xr⟩ := x
  obtain ⟨ly, yl, yr⟩ := y
  cases lx with
  | nil => exact absurd rfl hx.ne
  | cons t ts =>
  cases ly with
  | nil => exact absurd rfl hy.ne
  | cons u us =>
  obtain ⟨k, rfl⟩ : ∃ j, k = j + 1 := ⟨k - 1, by omega⟩
  have hlt : ts.length = us.length := by simpa [MPA.len] using hl
  have hk1 : k + 1 < ts.length := by simp [MPA.len] at hk; omega
  have hrest : sumRest ts.length [ts, us] = .error .value := by
    refine sumRest_extra hlt (fun v hv => hy.chain.isLocal v (by simp [hv])) k (by omega) (by omega) ?_ ?_
    · simpa [MPA.shape, List.getD_eq_getElem?_getD, show k < ts.length by omega, show k < us.length by omega] using h
    · simpa [MPA.ranks, List.getD_eq_getElem?_getD, show k < us.length by omega] using hr
  unfold MPA.add
  rw [pyAssert_true hl, ok_bind]
  have hne : ¬ ((⟨t :: ts, xl, xr⟩ : MPA R).len = 1) := by simp [MPA.len] at hk ⊢; intro h0; rw [h0] at hk; simp at hk
  rw [if_neg hne]
  have e : nexts [t :: ts, u :: us] = .ok [t, u] := rfl
  simp only [e, ok_bind]
  have e2 : (⟨t :: ts, xl, xr⟩ : MPA R).len - 1 = ts.length := by simp [MPA.len]
  simp only [e2, List.tail_cons, hrest]
  have hc : (∃ c, concatLast [t, u] = .ok c) ∨ concatLast [t, u] = .error .value := by
    unfold concatLast NDArray.concatenate
    dsimp only
    split
    · exact .inl ⟨_, rfl⟩
    · exact .inr rfl
  obtain ⟨c, hc⟩ | hc := hc
  · rw [hc]; rfl
  · rw [hc]; rfl

/-- Two MPAs on three sites: the second one has two legs on the middle site. -/
example : (⟨[⟨[1, 2, 2], fun _ => 1⟩, ⟨[2, 3, 2], fun _ => 1⟩, ⟨[2, 2, 1], fun _ => 1⟩], 0, 3⟩ : MPA ℤ).add
    ⟨[⟨[1, 2, 2], fun _ => 1⟩, ⟨[2, 1, 3, 2], fun _ => 1⟩, ⟨[2, 2, 1], fun _ => 1⟩], 0, 3⟩ = .error .value := by
  refine C05_add_extra_legs _ _ ?_ ?_ rfl 1 (by norm_num) (by simp [MPA.len]) (by simp [MPA.shape, NDArray.ph]) (by simp [MPA.ranks, NDArray.lb])
  · exact ⟨by simp, by simp [NDArray.IsLocal, NDArray.ndim, NDArray.lb, NDArray.rb], by simp, by simp, by simp [MPA.len]⟩
  · exact ⟨by simp, by simp [NDArray.IsLocal, NDArray.ndim, NDArray.lb, NDArray.rb], by simp, by simp, by simp [MPA.len]⟩

end Mpnum
