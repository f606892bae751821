import Verif.Program.DenseB
import Verif.Props.C23
import Verif.Props.C33

/-!
# Dense programs: products on windows, tensor products, local sums, conversions
-/

open Finset

namespace Mpnum

namespace Prog

variable {qr : QR ℂ}

theorem mkMPA_form {R : Type} {ts : List (NDArray R)} {y : MPA R} (h : mkMPA ts = .ok y) : y.l = 0 ∧ y.r = y.len := by
  unfold mkMPA mkLT at h
  simp only [pyAssert] at h
  split_ifs at h
  all_goals first
    | (cases h; simp_all [MPA.len])
    | exact absurd h (by rintro ⟨⟩)

/-! ### Sums -/

theorem forall₂_left {α β : Type} {r : α → β → Prop} {a : List α} {b : List β} (h : List.Forall₂ r a b) {x : α}
    (hx : x ∈ a) : ∃ y ∈ b, r x y := forall₂_exists_right h hx

theorem sum_ranks_pos' {ws : List (ℂ × MPA ℂ)} {s : List (List ℕ)} {z : MPA ℂ} (h : SumSpec ws s z) (hne : ws ≠ [])
    (hs : ∀ w ∈ ws, w.2.shape = s) (hr : ∀ w ∈ ws, ∀ d ∈ w.2.ranks, 0 < d) : ∀ d ∈ z.ranks, 0 < d := by
  intro d hd
  obtain ⟨k, hk, rfl⟩ := List.getElem_of_mem hd
  have hl : ∀ y : MPA ℂ, y.shape = s → y.ranks.length = s.length - 1 := by
    intro y hy
    rw [← hy]
    simp [MPA.ranks, MPA.shape]
  have hk' := hk
  rw [hl z h.shape] at hk'
  have := h.ranks k (by omega)
  rw [List.getElem?_eq_getElem hk, Option.some.injEq] at this
  rw [this]
  obtain ⟨y, ys, rfl⟩ := List.exists_cons_of_ne_nil hne
  simp only [List.map_cons, List.sum_cons]
  have hy := hl y.2 (hs y (by simp))
  have : 0 < y.2.ranks.getD k 0 := by
    have hk2 : k < y.2.ranks.length := by omega
    rw [List.getD_eq_getElem?_getD, List.getElem?_eq_getElem hk2]
    exact hr y (by simp) _ (List.getElem_mem hk2)
  omega

theorem reps_shape_pos {S : List (List ℕ)} {xs : List (MPA ℂ)} {ts : List Ten} (h : List.Forall₂ Reps xs ts) (hne : ts ≠ [])
    (hs : ∀ t ∈ ts, t.shape = S) : ∀ s ∈ S, ∀ d ∈ s, 0 < d := by
  cases h with
  | nil => exact absurd rfl hne
  | @cons _ t _ _ h1 _ =>
    rw [← hs t (by simp)]
    exact h1.pos

theorem zip_weights {xs : List (MPA ℂ)} {ts : List Ten} {S j : List (List ℕ)} (h : List.Forall₂ Reps xs ts)
    (hs : ∀ t ∈ ts, t.shape = S) (hj : IdxOK j S) (w : List ℂ) :
    ((List.zip w xs).map fun p => p.1 * p.2.val j) = (List.zip w ts).map fun p => p.1 * p.2.val j := by
  induction h generalizing w with
  | nil => simp
  | cons h1 _ ih =>
    cases w with
    | nil => rfl
    | cons c w =>
      simp only [List.zip_cons_cons, List.map_cons, ih (fun t ht => hs t (by simp [ht])) w]
      rw [h1.val j (by rw [hs _ (by simp)]; exact hj)]

theorem sumup_ok' {xs : List (MPA ℂ)} {ts : List Ten} (h : List.Forall₂ Reps xs ts) (S : List (List ℕ))
    (weights : Option (List ℂ)) (hne : ts ≠ []) (hs : ∀ t ∈ ts, t.shape = S)
    (hw : ∀ w, weights = some w → w.length = ts.length) :
    Makes (Mpnum.sumup xs weights) ⟨S, fun j =>
      ((List.zip (weights.getD (List.replicate ts.length 1)) ts).map fun p => p.1 * p.2.val j).sum⟩ := by
  have hl := h.length_eq
  have hmem : ∀ x ∈ xs, x.Good ∧ x.shape = S := by
    intro x hx
    obtain ⟨t, ht, hr⟩ := forall₂_left h hx
    exact ⟨hr.good, by rw [hr.shape, hs t ht]⟩
  obtain ⟨z, h1, h2⟩ := C07_sumup xs weights S (by rintro rfl; exact hne (List.length_eq_zero_iff.1 hl.symm))
    (fun x hx => ⟨(hmem x hx).1.valid, (hmem x hx).2⟩) (by rw [hl]; exact hw)
  refine ⟨z, h1, reps_of h2.valid (canonOK_form h2.form.1 h2.form.2) h2.shape (reps_shape_pos h hne hs) ?_ ?_⟩
  · refine sum_ranks_pos' h2 ?_ (fun w hw => (hmem w.2 (List.of_mem_zip hw).2).2)
      fun w hw => ranks_pos_of_good (hmem w.2 (List.of_mem_zip hw).2).1
    intro h0
    have h3 := congrArg List.length h0
    have h4 : (weights.getD (List.replicate xs.length 1)).length = xs.length := by
      cases weights with
      | none => simp
      | some w => rw [Option.getD_some, hw w rfl, hl]
    have h5 : 0 < ts.length := List.length_pos_of_ne_nil hne
    simp only [List.length_zip, h4, List.length_nil] at h3
    omega
  · intro j hj
    rw [h2.val j hj, hl, zip_weights h hs hj]

theorem den_sumup {xs : List (MPA ℂ)} {ts : List Ten} (h : List.Forall₂ Reps xs ts) (S : List (List ℕ)) (w : List ℂ)
    (hne : ts ≠ []) (hs : ∀ t ∈ ts, t.shape = S) (hw : w.length = ts.length) :
    Makes (Mpnum.sumup xs (some w)) ⟨S, fun j => ((List.zip w ts).map fun p => p.1 * p.2.val j).sum⟩ :=
  sumup_ok' h S (some w) hne hs (by simpa using hw)

theorem den_sumupNone {xs : List (MPA ℂ)} {ts : List Ten} (h : List.Forall₂ Reps xs ts) (S : List (List ℕ))
    (hne : ts ≠ []) (hs : ∀ t ∈ ts, t.shape = S) :
    Makes (Mpnum.sumup xs none) ⟨S, fun j => (ts.map fun t => t.val j).sum⟩ := by
  refine makes_congr (sumup_ok' h S none hne hs (by simp)) fun j _ => ?_
  congr 1
  simp only [Option.getD_none]
  clear h hne hs
  induction ts with
  | nil => rfl
  | cons z zs ih => simp only [List.length_cons, List.replicate_succ, List.zip_cons_cons, List.map_cons, ih, one_mul]

/-! ### Tensor products -/

theorem chain_split {xs : List (MPA ℂ)} {ts : List Ten} (h : List.Forall₂ Reps xs ts) {j : List (List ℕ)}
    (hj : IdxOK j (ts.flatMap Ten.shape)) : ∃ I : List (List (List ℕ)), j = I.flatten ∧
      List.Forall₂ IdxOK I (xs.map MPA.shape) ∧
      (List.zipWith (fun (x : MPA ℂ) i => x.val i) xs I).prod = chainVal ts j := by
  induction h generalizing j with
  | nil =>
    cases hj
    exact ⟨[], rfl, .nil, rfl⟩
  | @cons x t xs ts h1 _ ih =>
    obtain ⟨a, b, rfl, ha, hb⟩ := idxOK_append_split (by simpa using hj : IdxOK j (t.shape ++ ts.flatMap Ten.shape))
    obtain ⟨I, rfl, hI, hv⟩ := ih hb
    refine ⟨a :: I, rfl, .cons (by rw [h1.shape]; exact ha) hI, ?_⟩
    have hal := idxOK_length ha
    simp only [List.zipWith_cons_cons, List.prod_cons, chainVal, hv, ← hal, List.take_left, List.drop_left, h1.val a ha]

theorem mem_intercalate_one {L : List (List ℕ)} {r : ℕ} (h : r ∈ List.intercalate [1] L) : r = 1 ∨ ∃ l ∈ L, r ∈ l := by
  simp only [List.intercalate, List.mem_flatten] at h
  obtain ⟨l, hl, hr⟩ := h
  have aux : ∀ L : List (List ℕ), l ∈ List.intersperse [1] L → l = [1] ∨ l ∈ L := by
    intro L
    induction L with
    | nil => simp
    | cons a L ih =>
      cases L with
      | nil => intro h; right; simpa using h
      | cons b L =>
        intro h
        simp only [List.intersperse_cons₂, List.mem_cons] at h
        rcases h with rfl | rfl | h
        · simp
        · simp
        · rcases ih h with h | h
          · exact Or.inl h
          · right; simp only [List.mem_cons] at h ⊢; exact Or.inr h
  rcases aux L hl with rfl | h
  · left; simpa using hr
  · exact Or.inr ⟨l, h, hr⟩

theorem den_chain {xs : List (MPA ℂ)} {ts : List Ten} (h : List.Forall₂ Reps xs ts) (hne : ts ≠ []) :
    Makes (Mpnum.chain xs) ⟨ts.flatMap Ten.shape, chainVal ts⟩ := by
  have hl := h.length_eq
  have hsh : xs.flatMap MPA.shape = ts.flatMap Ten.shape := by
    clear hl hne
    induction h with
    | nil => rfl
    | cons h1 _ ih => rw [List.flatMap_cons, List.flatMap_cons, ih, h1.shape]
  obtain ⟨y, h1, h2, h3, h4, h5, h6, h7⟩ := C22_chain xs (by rintro rfl; exact hne (List.length_eq_zero_iff.1 hl.symm)) fun x hx => by
    obtain ⟨t, -, hr⟩ := forall₂_left h hx
    exact hr.good.valid
  refine ⟨y, h1, reps_of h2 (canonOK_form h3 h4) (h5.trans hsh) ?_ ?_ ?_⟩
  · intro s hs
    rw [← hsh] at hs
    obtain ⟨x, hx, hs⟩ := List.mem_flatMap.1 hs
    obtain ⟨t, -, hr⟩ := forall₂_left h hx
    rw [hr.shape] at hs
    exact hr.pos s hs
  · intro r hr
    rw [h6] at hr
    rcases mem_intercalate_one hr with rfl | ⟨l, hl, hr⟩
    · exact one_pos
    · obtain ⟨x, hx, rfl⟩ := List.mem_map.1 hl
      obtain ⟨t, -, hrp⟩ := forall₂_left h hx
      exact hrp.ranks r hr
  · intro j hj
    obtain ⟨I, rfl, hI, hv⟩ := chain_split h hj
    rw [h7 I hI]
    exact hv

/-! ### Windows -/

theorem three_split {j A B C : List (List ℕ)} (h : IdxOK j (A ++ B ++ C)) : ∃ a b c, j = a ++ b ++ c ∧ IdxOK a A ∧
    IdxOK b B ∧ IdxOK c C ∧ j.take A.length = a ∧ (j.drop A.length).take B.length = b ∧ j.drop (A.length + B.length) = c := by
  obtain ⟨ab, c, rfl, hab, hc⟩ := idxOK_append_split h
  obtain ⟨a, b, rfl, ha, hb⟩ := idxOK_append_split hab
  have h1 := idxOK_length ha
  have h2 := idxOK_length hb
  refine ⟨a, b, c, rfl, ha, hb, hc, ?_, ?_, ?_⟩
  · rw [← h1, List.append_assoc, List.take_left]
  · rw [← h1, ← h2, List.append_assoc, List.drop_left, List.take_left]
  · rw [← h1, ← h2, ← List.length_append, List.drop_left]

theorem window_shape {S : List (List ℕ)} {a n : ℕ} (h : a + n ≤ S.length) :
    (S.take a).length = a ∧ ((S.drop a).take n).length = n ∧ S = S.take a ++ (S.drop a).take n ++ S.drop (a + n) := by
  refine ⟨by simp; omega, by simp; omega, ?_⟩
  rw [List.append_assoc, ← List.drop_drop, List.take_append_drop, List.take_append_drop]

theorem window_pos {S : List (List ℕ)} {F : List (List ℕ)} (a n : ℕ) (h : ∀ s ∈ S, ∀ d ∈ s, 0 < d)
    (hF : ∀ s ∈ F, ∀ d ∈ s, 0 < d) : ∀ s ∈ S.take a ++ F ++ S.drop n, ∀ d ∈ s, 0 < d := by
  intro s hs
  simp only [List.mem_append] at hs
  rcases hs with (hs | hs) | hs
  · exact h s (List.mem_of_mem_take hs)
  · exact hF s hs
  · exact h s (List.mem_of_mem_drop hs)

theorem ones_pos (a b : ℕ) {l : List ℕ} (h : ∀ r ∈ l, 0 < r) : ∀ r ∈ List.replicate a 1 ++ l ++ List.replicate b 1, 0 < r := by
  intro r hr
  simp only [List.mem_append, List.mem_replicate] at hr
  rcases hr with (⟨-, rfl⟩ | hr) | ⟨-, rfl⟩
  · exact one_pos
  · exact h r hr
  · exact one_pos

theorem den_partialdot {x y : MPA ℂ} {s t : Ten} (hx : Reps x s) (hy : Reps y t) (a : ℕ) (axes : List ℤ × List ℤ)
    (ha : a + t.shape.length ≤ s.shape.length) (h : DotLegs ((s.shape.drop a).take t.shape.length) t.shape axes) :
    Makes (Mpnum.partialdot x y a axes)
        ⟨s.shape.take a ++ List.zipWith (· ++ ·) (freeShape ((s.shape.drop a).take t.shape.length) axes.1)
            (freeShape t.shape axes.2) ++ s.shape.drop (a + t.shape.length),
          fun j => sumSites (conShape ((s.shape.drop a).take t.shape.length) axes.1) fun k =>
            s.val (j.take a ++ mergeIdx axes.1 ((s.shape.drop a).take t.shape.length) k
                (frontIdx (freeShape ((s.shape.drop a).take t.shape.length) axes.1) ((j.drop a).take t.shape.length)) ++
              j.drop (a + t.shape.length)) *
            t.val (mergeIdx axes.2 t.shape k
              (backIdx (freeShape ((s.shape.drop a).take t.shape.length) axes.1) ((j.drop a).take t.shape.length)))⟩ := by
  obtain ⟨z, h1, h2, h3, h4, h5, h6, h7⟩ := C24_second_shorter x y hx.good.valid hy.good.valid a axes
    (by rw [hx.len, hy.len]; exact ha) (by rw [hx.shape, hy.shape, hy.len]; exact h)
  rw [hx.shape, hy.shape, hy.len] at h5
  simp only [hx.shape, hy.shape, hy.len] at h7
  obtain ⟨w1, w2, w3⟩ := window_shape ha
  have hposW : ∀ q ∈ (s.shape.drop a).take t.shape.length, ∀ d ∈ q, 0 < d := fun q hq =>
    hx.pos q (List.mem_of_mem_drop (List.mem_of_mem_take hq))
  have hzl : (List.zipWith (· ++ ·) (freeShape ((s.shape.drop a).take t.shape.length) axes.1)
      (freeShape t.shape axes.2)).length = t.shape.length := by
    rw [List.length_zipWith, freeShape_length, freeShape_length, w2, Nat.min_self]
  refine ⟨z, h1, reps_of h2 (canonOK_form h3 h4) h5
    (window_pos _ _ hx.pos (zipWith_append_pos (freeShape_pos hposW) (freeShape_pos hy.pos)))
    (by rw [h6]; exact zipWith_mul_pos hx.ranks (ones_pos _ _ hy.ranks)) ?_⟩
  intro j hj
  obtain ⟨i, f, c, rfl, hi, hf, hc, e1, e2, e3⟩ := three_split hj
  rw [w1] at e1 e2 e3
  rw [hzl] at e2 e3
  obtain ⟨k1, k2, k3⟩ := frontBack (by rw [freeShape_length, freeShape_length, w2]) hf
  have := h7 i _ _ c hi hc k1 k2
  rw [k3] at this
  rw [this]
  simp only [e1, e2, e3]
  refine sumSites_congr fun k hk => ?_
  have m1 := mergeIdx_inB (fun s hs => (h.axl s hs).1) hk k1
  rw [hy.val _ (mergeIdx_inB (fun s hs => (h.axr s hs).1) (by rw [conShape, ← h.dims]; exact hk) k2)]
  rw [hx.val _ (by
    have := idxOK_append (idxOK_append hi m1) hc
    rwa [← w3] at this)]

theorem den_partialdot' {x y : MPA ℂ} {s t : Ten} (hx : Reps x s) (hy : Reps y t) (a : ℕ) (axes : List ℤ × List ℤ)
    (hlt : s.shape.length < t.shape.length) (ha : a + s.shape.length ≤ t.shape.length)
    (h : DotLegs s.shape ((t.shape.drop a).take s.shape.length) axes) :
    Makes (Mpnum.partialdot x y a axes)
        ⟨t.shape.take a ++ List.zipWith (· ++ ·) (freeShape s.shape axes.1)
            (freeShape ((t.shape.drop a).take s.shape.length) axes.2) ++ t.shape.drop (a + s.shape.length),
          fun j => sumSites (conShape s.shape axes.1) fun k =>
            s.val (mergeIdx axes.1 s.shape k
              (frontIdx (freeShape s.shape axes.1) ((j.drop a).take s.shape.length))) *
            t.val (j.take a ++ mergeIdx axes.2 ((t.shape.drop a).take s.shape.length) k
                (backIdx (freeShape s.shape axes.1) ((j.drop a).take s.shape.length)) ++
              j.drop (a + s.shape.length))⟩ := by
  obtain ⟨z, h1, h2, h3, h4, h5, h6, h7⟩ := C24_first_shorter x y hx.good.valid hy.good.valid a axes
    (by rw [hx.len, hy.len]; exact hlt) (by rw [hx.len, hy.len]; exact ha) (by rw [hx.shape, hy.shape, hx.len]; exact h)
  rw [hx.shape, hy.shape, hx.len] at h5
  simp only [hx.shape, hy.shape, hx.len] at h7
  obtain ⟨w1, w2, w3⟩ := window_shape ha
  have hposW : ∀ q ∈ (t.shape.drop a).take s.shape.length, ∀ d ∈ q, 0 < d := fun q hq =>
    hy.pos q (List.mem_of_mem_drop (List.mem_of_mem_take hq))
  have hzl : (List.zipWith (· ++ ·) (freeShape s.shape axes.1)
      (freeShape ((t.shape.drop a).take s.shape.length) axes.2)).length = s.shape.length := by
    rw [List.length_zipWith, freeShape_length, freeShape_length, w2, Nat.min_self]
  refine ⟨z, h1, reps_of h2 (canonOK_form h3 h4) h5
    (window_pos _ _ hy.pos (zipWith_append_pos (freeShape_pos hx.pos) (freeShape_pos hposW)))
    (by rw [h6]; exact zipWith_mul_pos (ones_pos _ _ hx.ranks) hy.ranks) ?_⟩
  intro j hj
  obtain ⟨i, f, c, rfl, hi, hf, hc, e1, e2, e3⟩ := three_split hj
  rw [w1] at e1 e2 e3
  rw [hzl] at e2 e3
  obtain ⟨k1, k2, k3⟩ := frontBack (by rw [freeShape_length, freeShape_length, w2]) hf
  have := h7 i _ _ c hi hc k1 k2
  rw [k3] at this
  rw [this]
  simp only [e1, e2, e3]
  refine sumSites_congr fun k hk => ?_
  have m2 := mergeIdx_inB (fun s hs => (h.axr s hs).1) (by rw [conShape, ← h.dims]; exact hk) k2
  rw [hx.val _ (mergeIdx_inB (fun s hs => (h.axl s hs).1) hk k1), hy.val _ (by
    have := idxOK_append (idxOK_append hi m2) hc
    rwa [← w3] at this)]

theorem den_inject {x : MPA ℂ} {t : Ten} (h : Reps x t) (p n : ℕ) (e : NDArray ℂ) (hp : p ≤ t.shape.length)
    (he : PosShape e) : Makes (Mpnum.inject x [(p : ℤ)] [.copies n (some e)])
        ⟨t.shape.take p ++ List.replicate n e.shape ++ t.shape.drop p,
          fun j => t.val (j.take p ++ j.drop (p + n)) * (((j.drop p).take n).map e.get).prod⟩ := by
  obtain ⟨y, h1, h2, h3, h4, h5, h6, h7⟩ := C23_inject_one x h.good.valid p n (by rw [h.len]; exact hp) e
  rw [h.shape] at h5 h7
  refine ⟨y, h1, reps_of h2 (canonOK_form h3 h4) h5 (window_pos _ _ h.pos ?_) ?_ ?_⟩
  · intro s hs
    rw [List.eq_of_mem_replicate hs]
    exact he
  · intro r hr
    rcases h6 r hr with rfl | hr
    · exact one_pos
    · exact h.ranks r hr
  · intro j hj
    obtain ⟨a, b, c, rfl, ha, hb, hc, e1, e2, e3⟩ := three_split hj
    have hpl : (t.shape.take p).length = p := by simp; omega
    rw [hpl] at e1 e2 e3
    rw [List.length_replicate] at e2 e3
    have hac := idxOK_append ha hc
    rw [List.take_append_drop] at hac
    have := h7 (a ++ c) b hac hb
    have hal := (idxOK_length ha).trans hpl
    rw [← hal, List.take_left, List.drop_left] at this
    rw [this]
    simp only [e1, e2, e3]
    rw [h.val _ hac]

theorem embVal_eq {x : MPA ℂ} {t : Ten} (h : Reps x t) (e : NDArray ℂ) {a : ℕ} {j : List (List ℕ)}
    {b : ℕ} (hj : IdxOK j (List.replicate a e.shape ++ t.shape ++ List.replicate b e.shape)) :
    embedVal e x a j = embVal e t a j := by
  obtain ⟨i, f, c, rfl, hi, hf, hc, e1, e2, e3⟩ := three_split hj
  rw [List.length_replicate] at e1 e2 e3
  unfold embedVal embVal
  rw [h.len, e1, e2, e3, h.val f hf]

theorem emb_pos {e : NDArray ℂ} {S : List (List ℕ)} (a b : ℕ) (he : PosShape e) (h : ∀ s ∈ S, ∀ d ∈ s, 0 < d) :
    ∀ s ∈ List.replicate a e.shape ++ S ++ List.replicate b e.shape, ∀ d ∈ s, 0 < d := by
  intro s hs
  simp only [List.mem_append, List.mem_replicate] at hs
  rcases hs with (⟨-, rfl⟩ | hs) | ⟨-, rfl⟩
  · exact he
  · exact h s hs
  · exact he

theorem den_embedSlice {x : MPA ℂ} {t : Ten} (h : Reps x t) (e : NDArray ℂ) (a n : ℕ) (hn : a + t.shape.length ≤ n)
    (he : PosShape e) :
    Makes (Mpnum.embedSlice n ⟨some (a : ℤ), some ((a : ℤ) + (t.shape.length : ℤ)), none⟩ x (some e))
        ⟨List.replicate a e.shape ++ t.shape ++ List.replicate (n - (a + t.shape.length)) e.shape, embVal e t a⟩ := by
  obtain ⟨z, h1, h2, h3, h4, h5, h6, h7⟩ := C25_embed_slice x e a n h.good.valid (by rw [h.len]; exact hn)
  rw [h.shape, h.len] at h5
  unfold sliceOf at h1
  rw [h.len] at h1
  refine ⟨z, h1, reps_of h2 (canonOK_form h3 h4) h5 (emb_pos _ _ he h.pos) (by rw [h6]; exact ones_pos _ _ h.ranks) ?_⟩
  intro j hj
  rw [h7 j (by rw [h5]; exact hj), embVal_eq h e hj]

theorem embFits_all {e : NDArray ℂ} {S : List (List ℕ)} {xs : List (MPA ℂ)} {ts : List Ten} {starts : List ℕ}
    (h : List.Forall₂ Reps xs ts) (hf : List.Forall₂ (EmbFits e S) ts starts) :
    List.Forall₂ (EmbedFits e S) xs starts ∧
      ∀ j, IdxOK j S → List.zipWith (fun x a => embedVal e x a j) xs starts
        = List.zipWith (fun t a => embVal e t a j) ts starts := by
  induction h generalizing starts with
  | nil => cases hf; exact ⟨.nil, fun _ _ => rfl⟩
  | cons h1 _ ih =>
    cases hf with
    | cons f1 f2 =>
      obtain ⟨i1, i2⟩ := ih f2
      obtain ⟨b, hb⟩ := f1
      refine ⟨.cons ⟨h1.good.valid, b, by rw [h1.shape]; exact hb⟩ i1, fun j hj => ?_⟩
      rw [List.zipWith_cons_cons, List.zipWith_cons_cons, i2 j hj, embVal_eq h1 e (by rw [← hb]; exact hj)]

theorem embFits_pos {e : NDArray ℂ} {S : List (List ℕ)} {xs : List (MPA ℂ)} {ts : List Ten} {starts : List ℕ}
    (h : List.Forall₂ Reps xs ts) (hne : ts ≠ []) (he : PosShape e) (hf : List.Forall₂ (EmbFits e S) ts starts) :
    ∀ s ∈ S, ∀ d ∈ s, 0 < d := by
  cases h with
  | nil => exact absurd rfl hne
  | cons h1 _ =>
    cases hf with
    | cons f1 _ =>
      obtain ⟨b, rfl⟩ := f1
      exact emb_pos _ _ he h1.pos

theorem reps_localSum {e : NDArray ℂ} {S : List (List ℕ)} {xs : List (MPA ℂ)} {ts : List Ten} {starts : List ℕ} {z : MPA ℂ}
    (h : List.Forall₂ Reps xs ts) (hne : ts ≠ []) (he : PosShape e) (hf : List.Forall₂ (EmbFits e S) ts starts)
    (hz : LocalSumSpec e xs starts S z) :
    Reps z ⟨S, fun j => (List.zipWith (fun t a => embVal e t a j) ts starts).sum⟩ := by
  refine reps_of hz.valid (canonOK_form hz.form.1 hz.form.2) hz.shape (embFits_pos h hne he hf) (hz.ranks_pos ?_) ?_
  · intro x hx
    obtain ⟨t, -, hr⟩ := forall₂_left h hx
    exact hr.ranks
  · intro j hj
    rw [hz.val j hj, (embFits_all h hf).2 j hj]

theorem den_localSum {xs : List (MPA ℂ)} {ts : List Ten} (h : List.Forall₂ Reps xs ts) (e : NDArray ℂ) (w : ℕ)
    (length : Option ℕ) (S : List (List ℕ)) (hne : ts ≠ [])
    (hw : ∀ t ∈ ts, t.shape.length = w) (hS : S.length + 1 = ts.length + w) (he : PosShape e)
    (hf : List.Forall₂ (EmbFits e S) ts (List.range ts.length)) :
    Makes (Mpnum.localSum xs (some e) length none)
        ⟨S, fun j => (List.zipWith (fun t a => embVal e t a j) ts (List.range ts.length)).sum⟩ := by
  have hl := h.length_eq
  obtain ⟨z, h1, h2⟩ := C25_local_sum xs w e length S (by rintro rfl; exact hne (List.length_eq_zero_iff.1 hl.symm)) (by
    intro x hx
    obtain ⟨t, ht, hr⟩ := forall₂_left h hx
    rw [hr.len, hw t ht]) (by rw [hl]; exact hS) (by rw [hl]; exact (embFits_all h hf).1)
  rw [hl] at h2
  exact ⟨z, h1, reps_localSum h hne he hf h2⟩

theorem den_localSumSlices {xs : List (MPA ℂ)} {ts : List Ten} (h : List.Forall₂ Reps xs ts) (starts : List ℕ)
    (e : NDArray ℂ) (S : List (List ℕ)) (hne : ts ≠ []) (he : PosShape e)
    (hf : List.Forall₂ (EmbFits e S) ts starts) :
    Makes (Mpnum.localSum xs (some e) (some S.length) (some (List.zipWith (fun (t : Ten) (a : ℕ) =>
          (⟨some (a : ℤ), some ((a : ℤ) + (t.shape.length : ℤ)), none⟩ : PySlice)) ts starts)))
        ⟨S, fun j => (List.zipWith (fun t a => embVal e t a j) ts starts).sum⟩ := by
  have hl := h.length_eq
  have hsl : List.zipWith (fun (t : Ten) (a : ℕ) =>
      (⟨some (a : ℤ), some ((a : ℤ) + (t.shape.length : ℤ)), none⟩ : PySlice)) ts starts = List.zipWith sliceOf xs starts := by
    clear hf hl hne
    induction h generalizing starts with
    | nil => rfl
    | cons h1 _ ih =>
      cases starts with
      | nil => rfl
      | cons a as => rw [List.zipWith_cons_cons, List.zipWith_cons_cons, ih as, sliceOf, h1.len]
  rw [hsl]
  obtain ⟨z, h1, h2⟩ := C25_local_sum_slices xs starts e S (by rintro rfl; exact hne (List.length_eq_zero_iff.1 hl.symm)) (embFits_all h hf).1
  exact ⟨z, h1, reps_localSum h hne he hf h2⟩

end Prog

end Mpnum
