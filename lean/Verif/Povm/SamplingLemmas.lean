import Verif.Povm.Sampling
import Verif.Props.C18
import Verif.Props.C21
import Verif.Props.C42
import Verif.Props.C44

/-! # Lemmas on randomised functions and on the arrays used in sampling -/

open Finset Classical

namespace Mpnum

/-! ### randomised functions -/

namespace Rand

variable {α β : Type}

theorem bind_def (m : Rand α) (f : α → Rand β) :
    (m >>= f) = ExceptT.mk (PMF.bind m.run fun r => match r with
      | .ok a => (f a).run
      | .error e => PMF.pure (.error e)) := by
  show ExceptT.mk (PMF.bind m.run (ExceptT.bindCont f)) = _
  congr 2
  funext r
  cases r <;> rfl

@[simp] theorem lift_ok_bind (a : α) (f : α → Rand β) : (lift (.ok a) >>= f) = f a := by
  rw [bind_def]; unfold lift
  show PMF.bind (PMF.pure _) _ = _
  rw [PMF.pure_bind]; rfl

@[simp] theorem lift_error_bind (e : PyErr) (f : α → Rand β) : (lift (.error e : Py α) >>= f) = lift (.error e) := by
  rw [bind_def]; unfold lift
  show PMF.bind (PMF.pure _) _ = _
  rw [PMF.pure_bind]; rfl

theorem lift_bind (x : Py α) (f : α → Py β) : lift (x >>= f) = (lift x >>= fun a => lift (f a)) := by
  cases x with
  | ok a => rw [lift_ok_bind]; rfl
  | error e => rw [lift_error_bind]; rfl

theorem pure_eq (a : α) : (pure a : Rand α) = lift (.ok a) := rfl

theorem prob_lift (x : Py α) (a : α) : (lift x).prob a = if x = .ok a then 1 else 0 := by
  unfold prob lift
  show (PMF.pure x) (.ok a) = _
  rw [PMF.pure_apply]
  by_cases h : x = .ok a
  · simp [h]
  · rw [if_neg h, if_neg (fun h' => h h'.symm)]

theorem prob_pure (a b : α) : (pure a : Rand α).prob b = if a = b then 1 else 0 := by
  rw [pure_eq, prob_lift]; simp

/-- One possible way to obtain `b`. -/
theorem prob_bind_ge (m : Rand α) (f : α → Rand β) (a : α) (b : β) :
    m.prob a * (f a).prob b ≤ (m >>= f).prob b := by
  rw [bind_def]
  show _ ≤ (PMF.bind m.run _) (Except.ok b)
  rw [PMF.bind_apply]
  exact ENNReal.le_tsum (f := fun r : Py α => m.run r * (match r with
      | .ok a => (f a).run
      | .error e => PMF.pure (.error e) : PMF (Py β)) (.ok b)) (.ok a)

/-- If `b` is reached through `a` only, then its probability is the product. -/
theorem prob_bind_single (m : Rand α) (f : α → Rand β) (a : α) (b : β)
    (h : ∀ a', a' ≠ a → m.prob a' ≠ 0 → (f a').prob b = 0) :
    (m >>= f).prob b = m.prob a * (f a).prob b := by
  rw [bind_def]
  show (PMF.bind m.run _) (Except.ok b) = _
  rw [PMF.bind_apply, tsum_eq_single (.ok a)]
  · rfl
  · intro r hr
    cases r with
    | error e => simp
    | ok a' =>
      by_cases h0 : m.prob a' = 0
      · show m.prob a' * _ = 0
        rw [h0, zero_mul]
      · have : (f a').prob b = 0 := h a' (fun e => hr (by rw [e])) h0
        show _ * (f a').prob b = 0
        rw [this, mul_zero]

theorem prob_bind_zero (m : Rand α) (f : α → Rand β) (b : β)
    (h : ∀ a, (f a).prob b = 0) : (m >>= f).prob b = 0 := by
  rw [bind_def]
  show (PMF.bind m.run _) (Except.ok b) = _
  rw [PMF.bind_apply, ENNReal.tsum_eq_zero]
  intro r
  cases r with
  | error e => simp
  | ok a =>
    show _ * (f a).prob b = 0
    rw [h a, mul_zero]

theorem prob_times (m : Rand α) : ∀ (n : ℕ) (as : List α),
    (m.times n).prob as = if as.length = n then (as.map m.prob).prod else 0
  | 0, as => by
    show (pure [] : Rand (List α)).prob as = _
    rw [prob_pure]
    cases as <;> simp
  | n + 1, [] => by
    rw [if_neg (by simp)]
    unfold times
    exact prob_bind_zero _ _ _ fun a => prob_bind_zero _ _ _ fun as => by simp [prob_pure]
  | n + 1, a :: as => by
    unfold times
    rw [prob_bind_single _ _ a, prob_bind_single _ _ as, prob_times m n as, prob_pure, if_pos rfl, mul_one]
    · simp only [List.length_cons, add_left_inj, List.map_cons, List.prod_cons]
      by_cases h : as.length = n
      · simp [h]
      · simp [h]
    · intro as' h _
      rw [prob_pure, if_neg (by simpa using h)]
    · intro a' h _
      exact prob_bind_zero _ _ _ fun as => by rw [prob_pure, if_neg (by simp [h])]

/-- Lower bounds with total weight one are the exact probabilities; everything else (also an
exception) has probability zero. -/
theorem prob_exact (m : Rand α) (S : Finset α) (q : α → ENNReal) (hq : ∀ a ∈ S, q a ≤ m.prob a)
    (hs : ∑ a ∈ S, q a = 1) :
    (∀ a ∈ S, m.prob a = q a) ∧ (∀ a ∉ S, m.prob a = 0) ∧ ∀ e, m.run (.error e) = 0 := by
  have htot : ∑' r, m.run r = 1 := PMF.tsum_coe _
  have himg : ∀ T : Finset (Py α), ∑ r ∈ T, m.run r ≤ 1 := fun T => by
    rw [← htot]; exact ENNReal.sum_le_tsum T
  have hS : ∑ r ∈ S.image Except.ok, m.run r = ∑ a ∈ S, m.prob a := by
    rw [sum_image (fun a _ b _ h => Except.ok.inj h)]; rfl
  have h1 : ∑ a ∈ S, m.prob a ≤ 1 := by rw [← hS]; exact himg _
  have h2 : ∑ a ∈ S, m.prob a = 1 := le_antisymm h1 (by rw [← hs]; exact sum_le_sum hq)
  have hout : ∀ r ∉ S.image Except.ok, m.run r = 0 := by
    intro r hr
    have := himg (insert r (S.image Except.ok))
    rw [sum_insert hr, hS, h2] at this
    by_contra h0
    have h3 : (1 : ENNReal) < m.run r + 1 := by
      rw [add_comm]; exact ENNReal.lt_add_right ENNReal.one_ne_top h0
    exact absurd this (not_le.2 h3)
  refine ⟨?_, ?_, ?_⟩
  · intro a ha
    refine le_antisymm ?_ (hq a ha)
    by_contra hlt
    have : ∑ a ∈ S, q a < ∑ a ∈ S, m.prob a := by
      rw [← add_sum_erase _ _ ha, ← add_sum_erase _ _ ha]
      refine ENNReal.add_lt_add_of_lt_of_le ?_ (not_le.1 hlt) (sum_le_sum fun b hb => hq b (mem_of_mem_erase hb))
      intro htop
      have : ∑ a ∈ S, q a = ⊤ := by rw [← add_sum_erase _ _ ha, htop, add_top]
      rw [hs] at this
      exact ENNReal.one_ne_top this
    rw [hs, h2] at this
    exact lt_irrefl _ this
  · intro a ha
    exact hout (.ok a) (by simpa using ha)
  · intro e
    exact hout (.error e) (by simp)

/-- With probability one, `m` returns a value with the property `P` (and no exception). -/
def Sure (m : Rand α) (P : α → Prop) : Prop := ∀ r, m.run r ≠ 0 → ∃ a, r = .ok a ∧ P a

theorem sure_of_exact {m : Rand α} {P : α → Prop} (h1 : ∀ a, ¬ P a → m.prob a = 0)
    (h2 : ∀ e, m.run (.error e) = 0) : m.Sure P := by
  intro r hr
  cases r with
  | error e => exact absurd (h2 e) hr
  | ok a => exact ⟨a, rfl, by by_contra h; exact hr (h1 a h)⟩

theorem Sure.prob {m : Rand α} {P : α → Prop} (h : m.Sure P) {a : α} (ha : m.prob a ≠ 0) : P a := by
  obtain ⟨b, hb, hP⟩ := h (.ok a) ha
  exact Except.ok.inj hb ▸ hP

theorem sure_lift {x : Py α} {P : α → Prop} (h : ∃ a, x = .ok a ∧ P a) : (lift x).Sure P := by
  obtain ⟨a, rfl, hP⟩ := h
  intro r hr
  have : r = .ok a := by
    by_contra hne
    apply hr
    show (PMF.pure (Except.ok a : Py α)) r = 0
    rw [PMF.pure_apply, if_neg hne]
  exact ⟨a, this, hP⟩

theorem Sure.bind {m : Rand α} {P : α → Prop} (hm : m.Sure P) {f : α → Rand β} {Q : β → Prop}
    (hf : ∀ a, P a → (f a).Sure Q) : (m >>= f).Sure Q := by
  intro r hr
  rw [bind_def] at hr
  change (PMF.bind m.run _) r ≠ 0 at hr
  rw [PMF.bind_apply, Ne, ENNReal.tsum_eq_zero] at hr
  push Not at hr
  obtain ⟨s, hs⟩ := hr
  have h1 : m.run s ≠ 0 := fun h => hs (by rw [h, zero_mul])
  obtain ⟨a, rfl, ha⟩ := hm s h1
  exact hf a ha r fun h => hs (by
    show _ * (f a).run r = 0
    rw [h, mul_zero])

theorem Sure.times {m : Rand α} {P : α → Prop} (hm : m.Sure P) :
    ∀ n, (m.times n).Sure fun as => as.length = n ∧ ∀ a ∈ as, P a
  | 0 => sure_lift ⟨[], rfl, rfl, by simp⟩
  | n + 1 => by
    unfold Rand.times
    refine hm.bind fun a ha => (Sure.times hm n).bind fun as has => ?_
    rw [pure_eq]
    refine sure_lift ⟨_, rfl, by simp [has.1], ?_⟩
    intro b hb
    rcases List.mem_cons.1 hb with rfl | hb
    · exact ha
    · exact has.2 b hb

end Rand

theorem rngChoice_prob (p : List ℝ) (h : (∀ a ∈ p, 0 ≤ a) ∧ p.sum = 1) (c : ℕ) :
    (rngChoice p).prob c = ENNReal.ofReal (p.getD c 0) := by
  unfold rngChoice
  rw [dif_pos h]
  show ((choicePMF p h).map Except.ok) (.ok c) = _
  rw [PMF.map_apply, tsum_eq_single c]
  · simp [choicePMF]
  · intro c' hc'
    rw [if_neg (by simpa using fun e => hc' e.symm)]

theorem flatList_sum {R : Type} [AddCommMonoid R] (a : NDArray R) : a.flatList.sum = sumIdx a.shape a.get := by
  rw [← sum_unravel]
  unfold NDArray.flatList NDArray.size
  generalize a.shape.prod = n
  induction n with
  | zero => rfl
  | succ n ih => rw [List.range_succ, List.map_append, List.sum_append, ih, sum_range_succ]; simp

theorem flatList_getD (a : NDArray ℝ) {i : List ℕ} (hi : InB i a.shape) :
    a.flatList.getD (ravelIdx a.shape i) 0 = a.get i := by
  have := ravelIdx_lt hi
  unfold NDArray.flatList
  rw [List.getD_eq_getElem?_getD, List.getElem?_map, List.getElem?_range (by exact this)]
  simp [unravel_ravel hi]

theorem flatList_ok (a : NDArray ℝ) (h0 : ∀ i, InB i a.shape → 0 ≤ a.get i) (h1 : sumIdx a.shape a.get = 1) :
    (∀ x ∈ a.flatList, 0 ≤ x) ∧ a.flatList.sum = 1 := by
  refine ⟨?_, by rw [flatList_sum, h1]⟩
  intro x hx
  unfold NDArray.flatList at hx
  obtain ⟨c, hc, rfl⟩ := List.mem_map.1 hx
  exact h0 _ (unravelIdx_inB (by simpa [NDArray.size] using hc))

theorem choice_prob (a : NDArray ℝ) (h0 : ∀ i, InB i a.shape → 0 ≤ a.get i) (h1 : sumIdx a.shape a.get = 1)
    {i : List ℕ} (hi : InB i a.shape) :
    (rngChoice a.flatList).prob (ravelIdx a.shape i) = ENNReal.ofReal (a.get i) := by
  rw [rngChoice_prob _ (flatList_ok a h0 h1), flatList_getD a hi]

/-! ### fixing the first outcomes -/

section
variable {R : Type} [CommRing R] [StarRing R]

/-- New index of a site of `getMixed`. -/
def mixIdx (p : Option ℤ × NDArray R) (f : List ℕ) : List ℕ :=
  match p.1 with
  | some i => i.toNat :: f
  | none => f

/-- Remaining legs of a site of `getMixed`. -/
def mixLegs (p : Option ℤ × NDArray R) : List ℕ :=
  match p.1 with
  | some _ => p.2.ph.tail
  | none => p.2.ph

theorem getMixed_ok {x : MPA R} (hx : x.Valid) {N1 N2 : List ℕ} (hs : x.shape = singles (N1 ++ N2))
    {y : List ℕ} (hy : InB y N1) :
    ∃ q, x.getMixed (y.map (fun i : ℕ => some (i : ℤ)) ++ List.replicate N2.length none) = .ok q ∧ q.Valid ∧
      q.shape = N1.map (fun _ => []) ++ singles N2 ∧
      ∀ z, InB z N2 → q.val (N1.map (fun _ => []) ++ singles z) = x.val (singles (y ++ z)) := by
  have hyl := inB_length hy
  have hlen : x.len = N1.length + N2.length := by
    have := congrArg List.length hs
    simpa [MPA.shape, MPA.len] using this
  set ind := y.map (fun i : ℕ => some (i : ℤ)) ++ List.replicate N2.length (none : Option ℤ) with hind
  have hil : ind.length = x.len := by simp [hind, hyl, hlen]
  have hT : (ind.zip x.lt).map Prod.snd = x.lt := List.map_snd_zip (by rw [hil]; exact le_rfl)
  have key : ∀ (y N1 : List ℕ) (ts : List (NDArray R)), InB y N1 → (ts.map NDArray.ph = singles (N1 ++ N2)) →
      (∀ p ∈ (y.map (fun i : ℕ => some (i : ℤ)) ++ List.replicate N2.length (none : Option ℤ)).zip ts,
        ∃ d, p.2.ph = [d] ∧ ∀ i, p.1 = some i → 0 ≤ i ∧ i < d) ∧
      ((y.map (fun i : ℕ => some (i : ℤ)) ++ List.replicate N2.length (none : Option ℤ)).zip ts).map mixLegs
        = N1.map (fun _ => []) ++ singles N2 ∧
      ∀ z, InB z N2 → List.zipWith mixIdx
        ((y.map (fun i : ℕ => some (i : ℤ)) ++ List.replicate N2.length (none : Option ℤ)).zip ts)
        (N1.map (fun _ => []) ++ singles z) = singles (y ++ z) := by
    intro y N1 ts hy
    induction hy generalizing ts with
    | nil =>
      intro h
      simp only [List.map_nil, List.nil_append] at h ⊢
      have : ∀ (N2 : List ℕ) (ts : List (NDArray R)), ts.map NDArray.ph = singles N2 →
          (∀ p ∈ (List.replicate N2.length (none : Option ℤ)).zip ts,
            ∃ d, p.2.ph = [d] ∧ ∀ i, p.1 = some i → 0 ≤ i ∧ i < d) ∧
          ((List.replicate N2.length (none : Option ℤ)).zip ts).map mixLegs = singles N2 ∧
          ∀ z, InB z N2 → List.zipWith mixIdx ((List.replicate N2.length (none : Option ℤ)).zip ts) (singles z)
            = singles z := by
        intro N2
        induction N2 with
        | nil => intro ts _; refine ⟨by simp, by simp, ?_⟩; intro z hz; cases hz; simp
        | cons d N ih =>
          intro ts h
          cases ts with
          | nil => simp at h
          | cons t ts =>
            simp only [List.map_cons, List.cons.injEq] at h
            obtain ⟨g1, g2, g3⟩ := ih ts h.2
            refine ⟨?_, ?_, ?_⟩
            · intro p hp
              simp only [List.length_cons, List.replicate_succ, List.zip_cons_cons, List.mem_cons] at hp
              rcases hp with rfl | hp
              · exact ⟨d, h.1, by simp⟩
              · exact g1 p hp
            · simp only [List.length_cons, List.replicate_succ, List.zip_cons_cons, List.map_cons, g2]
              simp [mixLegs, h.1]
            · intro z hz
              cases hz with
              | cons hz1 hz2 =>
                simp only [List.length_cons, List.replicate_succ, List.zip_cons_cons, List.map_cons,
                  List.zipWith_cons_cons, g3 _ hz2]
                rfl
      exact this N2 ts h
    | @cons a d y N1 h1 h2 ih =>
      intro h
      cases ts with
      | nil => simp at h
      | cons t ts =>
        simp only [List.cons_append, List.map_cons, List.cons.injEq] at h
        obtain ⟨g1, g2, g3⟩ := ih ts h.2
        refine ⟨?_, ?_, ?_⟩
        · intro p hp
          simp only [List.map_cons, List.cons_append, List.zip_cons_cons, List.mem_cons] at hp
          rcases hp with rfl | hp
          · refine ⟨d, h.1, ?_⟩
            intro i hi
            simp only [Option.some.injEq] at hi
            omega
          · exact g1 p hp
        · simp only [List.map_cons, List.cons_append, List.zip_cons_cons, g2]
          simp [mixLegs, h.1]
        · intro z hz
          simp only [List.map_cons, List.cons_append, List.zip_cons_cons, List.zipWith_cons_cons, g3 z hz]
          simp [mixIdx]
  obtain ⟨k1, k2, k3⟩ := key y N1 x.lt hy hs
  obtain ⟨us, h1, h2, h3, h4, h5, h6, h7⟩ := pull_values hx (sites := ind.zip x.lt) (T := Prod.snd) hT
    (f := fun p => getMixedSite p.2 p.1) (φ := mixIdx) (q := mixLegs) (by
      intro p hp
      obtain ⟨d, hd, hi⟩ := k1 p hp
      have hloc := hx.chain.isLocal _ (List.of_mem_zip hp).2
      have hn := ndim_ph hloc
      rw [hd] at hn
      simp only [List.length_cons, List.length_nil] at hn
      cases hp1 : p.1 with
      | none =>
        refine ⟨p.2, ?_, ⟨hloc, rfl, rfl, ?_⟩, ?_⟩
        · simp [getMixedSite, hn]
        · intro a _ b _ f _; simp [mixIdx, hp1]
        · simp [mixLegs, hp1]
      | some i =>
        obtain ⟨i0, i1⟩ := hi i hp1
        obtain ⟨g1, g2⟩ := takeAt_pull hloc (p := 0) (by rw [hd]; simp) i.toNat
        refine ⟨p.2.takeAt 1 i.toNat, ?_, ⟨g1.loc, g1.lb, g1.rb, ?_⟩, ?_⟩
        · simp only [getMixedSite, MPA.getSite]
          rw [if_neg (by omega)]
          unfold NDArray.take
          rw [if_pos (by omega), NDArray.shape_local hloc, hd]
          show (pyIndex d i >>= _) = _
          obtain ⟨j, rfl⟩ := Int.eq_ofNat_of_zero_le i0
          rw [pyIndex_nat (by omega), ok_bind]; rfl
        · intro a ha b hb f hf
          rw [g1.at3 a ha b hb f hf]
          simp [mixIdx, hp1, insAt]
        · rw [g2]; simp [mixLegs, hp1, delAt])
  rw [k2] at h5 h7
  refine ⟨⟨us, 0, us.length⟩, ?_, valid_mk h2 h3, h5, ?_⟩
  · unfold MPA.getMixed
    rw [pyAssert_true hil, ok_bind, h1, ok_bind]
    exact mkMPA_ok h2 h3
  · intro z hz
    show entry us _ = _
    rw [h7 _ ?_, k3 z hz]
    refine List.rel_append ?_ (singles_idxOK hz)
    rw [List.forall₂_map_left_iff, List.forall₂_map_right_iff]
    exact List.forall₂_same.2 fun _ _ => .nil

/-- mppovm.py:672-673: the array of joint values for fixed first outcomes. -/
theorem condArr_ok {x : MPA R} (hx : x.Valid) {N1 N2 : List ℕ} (hs : x.shape = singles (N1 ++ N2))
    {y : List ℕ} (hy : InB y N1) :
    ∃ q q' a, x.getMixed (y.map (fun i : ℕ => some (i : ℤ)) ++ List.replicate N2.length none) = .ok q ∧
      prune q false = .ok q' ∧ q'.toArray = .ok a ∧ a.shape = N2 ∧
      ∀ z, InB z N2 → a.get z = x.val (singles (y ++ z)) := by
  obtain ⟨q, h1, h2, h3, h4⟩ := getMixed_ok hx hs hy
  obtain ⟨q', g1, g2, _, _, g3, _, g4, _⟩ := C21_prune q h2
  obtain ⟨a, k1, k2, k3⟩ := C01_to_array q' g2
  have fl : ∀ (M : List ℕ) (z : List ℕ), (M.map (fun _ => ([] : List ℕ)) ++ singles z).flatten = z := by
    intro M z
    induction M with
    | nil => induction z with
      | nil => rfl
      | cons a z ih => simpa using ih
    | cons m M ih => simpa using ih
  refine ⟨q, q', a, h1, g1, k1, ?_, ?_⟩
  · rw [k2, g3, pruned_flatten, h3, fl]
  · intro z hz
    have hi : IdxOK (N1.map (fun _ => ([] : List ℕ)) ++ singles z) q.shape := by
      rw [h3]
      refine List.rel_append ?_ (singles_idxOK hz)
      rw [List.forall₂_map_left_iff, List.forall₂_map_right_iff]
      exact List.forall₂_same.2 fun _ _ => .nil
    have := k3 _ (g3 ▸ idxOK_pruned hi)
    rw [pruned_flatten, fl] at this
    rw [this, g4 _ hi, h4 z hz]

end

/-! ### marginals -/

section
variable {R : Type} [CommRing R] [StarRing R]

/-- Legs summed by `sumLast`. -/
theorem sumLast_legs (N : List ℕ) (d : ℕ) :
    SumLegs (singles (N ++ [d])) (.each (List.replicate N.length (some []) ++ [some [0]]))
      (N.map (fun _ => []) ++ [[0]]) := by
  cases N with
  | nil => exact SumLegs.each (S := singles [d]) [0] [] rfl
  | cons n N =>
    have := SumLegs.each (S := singles (n :: N ++ [d])) [] (List.replicate N.length (some []) ++ [some [0]])
      (by simp)
    have e1 : (some [] :: (List.replicate N.length (some ([] : List ℕ)) ++ [some [0]])).map
        (Option.map fun l => l.map fun a : ℕ => (a : ℤ))
        = List.replicate (n :: N).length (some ([] : List ℤ)) ++ [some [0]] := by
      simp [List.replicate_succ]
    have e2 : List.zipWith (fun (o : Option (List ℕ)) (s : List ℕ) => o.getD (List.range s.length))
        (some [] :: (List.replicate N.length (some ([] : List ℕ)) ++ [some [0]])) (singles (n :: N ++ [d]))
        = (n :: N).map (fun _ => []) ++ [[0]] := by
      simp only [List.cons_append, List.map_cons, List.zipWith_cons_cons, Option.getD_some, List.cons.injEq,
        true_and]
      clear this e1
      induction N with
      | nil => simp
      | cons m N ih => simp only [List.length_cons, List.replicate_succ, List.cons_append, List.map_cons,
          List.zipWith_cons_cons, ih, Option.getD_some]
    rw [e1, e2] at this
    exact this

theorem sumLast_facts (N : List ℕ) (d : ℕ) :
    (∀ p ∈ (singles (N ++ [d])).zip (N.map (fun _ => ([] : List ℕ)) ++ [[0]]),
      p.2.Nodup ∧ ∀ a ∈ p.2, a < p.1.length) ∧
    List.zipWith freeDims (singles (N ++ [d])) (N.map (fun _ => ([] : List ℕ)) ++ [[0]]) = singles N ++ [[]] ∧
    List.zipWith conDims (singles (N ++ [d])) (N.map (fun _ => ([] : List ℕ)) ++ [[0]])
      = N.map (fun _ => ([] : List ℕ)) ++ [[d]] := by
  induction N with
  | nil => refine ⟨by simp, ?_, ?_⟩ <;> simp [freeDims, conDims, NDArray.freeAxes]
  | cons n N ih =>
    obtain ⟨h1, h2, h3⟩ := ih
    refine ⟨?_, ?_, ?_⟩
    · intro p hp
      simp only [List.cons_append, List.map_cons, List.zip_cons_cons, List.mem_cons] at hp
      rcases hp with rfl | hp
      · simp
      · exact h1 p hp
    · simp only [List.cons_append, List.map_cons, List.zipWith_cons_cons, h2]
      simp [freeDims, NDArray.freeAxes]
    · simp only [List.cons_append, List.map_cons, List.zipWith_cons_cons, h3]
      simp [conDims]

theorem sumLast_sites {M : Type} [AddCommMonoid M] (N : List ℕ) (d : ℕ) (F : List (List ℕ) → M) :
    sumSites (N.map (fun _ => ([] : List ℕ)) ++ [[d]]) F
      = ∑ j ∈ range d, F (N.map (fun _ => ([] : List ℕ)) ++ [[j]]) := by
  induction N generalizing F with
  | nil => simp [sumSites, sumIdx]
  | cons n N ih => simp only [List.map_cons, List.cons_append, sumSites, sumIdx, ih]

theorem sumLast_merge {N y : List ℕ} (d j : ℕ) (hy : y.length = N.length) :
    mergeLegs (singles (N ++ [d])) (N.map (fun _ => ([] : List ℕ)) ++ [[0]]) (singles y ++ [[]])
      (N.map (fun _ => ([] : List ℕ)) ++ [[j]]) = singles (y ++ [j]) := by
  induction N generalizing y with
  | nil =>
    cases y with
    | nil => simp [mergeLegs, List.zipWith3, NDArray.asm]
    | cons a y => simp at hy
  | cons n N ih =>
    cases y with
    | nil => simp at hy
    | cons a y =>
      have := ih (y := y) (by simpa using hy)
      simp only [mergeLegs] at this
      simp only [mergeLegs, List.cons_append, List.map_cons, List.zip_cons_cons, List.zipWith3, this]
      simp [NDArray.asm, NDArray.freeAxes]

end

/-- Summing the outcomes of the last site (mppovm.py:697), all outcomes are gone. -/
theorem sumLast_one {p : MPA ℂ} (hp : p.Valid) {d : ℕ} (hs : p.shape = singles [d]) :
    ∃ A, sumLast 0 p = .ok (.inl A) ∧ A.get [] = ∑ j ∈ range d, p.val [[j]] := by
  obtain ⟨f1, f2, f3⟩ := sumLast_facts [] d
  rcases C18_sum p hp _ _ (by rw [hs]; exact sumLast_legs [] d) (by rw [hs]; exact f1) with
    ⟨h, _⟩ | ⟨_, A, h1, _, h3⟩
  · rw [hs] at h; exact absurd (by rw [show singles [d] = singles ([] ++ [d]) from rfl, f2]; rfl) h
  · refine ⟨A, h1, ?_⟩
    rw [h3, hs]
    show sumSites (List.zipWith conDims (singles ([] ++ [d])) _) _ = _
    rw [f3, sumLast_sites]
    refine sum_congr rfl fun j _ => ?_
    have := sumLast_merge (N := []) (y := []) d j rfl
    simp only [List.nil_append, List.map_nil] at this ⊢
    rw [show (singles [d]).map (fun _ => ([] : List ℕ)) = [[]] from rfl, this]
    rfl

/-- mppovm.py:697-699: the marginal distribution without the last site. -/
theorem sumLast_more {p : MPA ℂ} (hp : p.Valid) {N : List ℕ} {d : ℕ} (hN : N ≠ [])
    (hs : p.shape = singles (N ++ [d])) :
    ∃ q q', sumLast N.length p = .ok (.inr q) ∧ prune q false = .ok q' ∧ q'.Valid ∧ q'.shape = singles N ∧
      ∀ y, InB y N → q'.val (singles y) = ∑ j ∈ range d, p.val (singles (y ++ [j])) := by
  obtain ⟨f1, f2, f3⟩ := sumLast_facts N d
  have flt : ∀ z : List ℕ, (singles z).filter (fun s => decide (s ≠ [])) = singles z := by
    intro z; induction z with
    | nil => rfl
    | cons a z ih => simp
  have prn : ∀ z : List ℕ, z ≠ [] → pruned (singles z ++ [[]]) = singles z := by
    intro z hz
    have : (singles z ++ [[]]).filter (fun s => decide (s ≠ [])) = singles z := by
      rw [List.filter_append, flt]; simp
    unfold pruned
    rw [this, if_neg (by simpa using hz)]
  rcases C18_sum p hp _ _ (by rw [hs]; exact sumLast_legs N d) (by rw [hs]; exact f1) with
    ⟨_, q, h1, h2, _, _, h3, _, h4⟩ | ⟨h, _⟩
  · rw [hs, f2] at h3 h4
    rw [f3] at h4
    obtain ⟨q', g1, g2, _, _, g3, _, g4, _⟩ := C21_prune q h2
    rw [h3, prn N hN] at g3
    refine ⟨q, q', h1, g1, g2, g3, ?_⟩
    intro y hy
    have hyl := inB_length hy
    have hi : IdxOK (singles y ++ [[]]) (singles N ++ [[]]) :=
      List.rel_append (singles_idxOK hy) (.cons .nil .nil)
    have := g4 _ (by rw [h3]; exact hi)
    rw [prn y (by rintro rfl; exact hN (List.length_eq_zero_iff.1 hyl.symm))] at this
    rw [this, h4 _ hi]
    beta_reduce
    rw [sumLast_sites]
    exact sum_congr rfl fun j _ => by rw [sumLast_merge d j hyl]
  · rw [hs, f2] at h
    exfalso
    cases N with
    | nil => exact hN rfl
    | cons n N => simp at h

/-- `ms = marginal_pmf[1:]` for the distribution `F` of outcomes with dimensions `N`. -/
structure MargList (N : List ℕ) (F : List ℕ → ℂ) (ms : List (MPA ℂ)) : Prop where
  len : ms.length = N.length
  get : ∀ k < N.length, ∃ m, ms[k]? = some m ∧ m.Valid ∧ m.shape = singles (N.take (k + 1)) ∧
    ∀ y, InB y (N.take (k + 1)) → m.val (singles y) = sumIdx (N.drop (k + 1)) fun z => F (y ++ z)

theorem marginalPmf_ok : ∀ (N : List ℕ) (F : List ℕ → ℂ) (p : MPA ℂ), N ≠ [] → p.Valid → p.shape = singles N →
    (∀ y, InB y N → p.val (singles y) = F y) →
    ∃ A ms, marginalPmf (N.length - 1) p = .ok (A, ms) ∧ A.get [] = sumIdx N F ∧ MargList N F ms := by
  intro N
  induction N using List.reverseRecOn with
  | nil => intro F p h; exact absurd rfl h
  | append_singleton N d ih =>
    intro F p _ hp hs hF
    by_cases hN : N = []
    · subst hN
      obtain ⟨A, h1, h2⟩ := sumLast_one hp hs
      have hnd : p.ndims.getLastD 0 ≠ 0 := by
        have : p.ndims = p.shape.map List.length := by
          rw [MPA.ndims, MPA.shape, List.map_map]
          exact List.map_congr_left fun t ht => by rw [ndim_ph (hp.chain.isLocal t ht)]; simp
        rw [this, hs]; simp
      refine ⟨A, [p], ?_, ?_, rfl, ?_⟩
      · show marginalPmf 0 p = _
        unfold marginalPmf
        rw [pyGuard, if_pos hnd, ok_bind, h1]
        rfl
      · rw [h2]
        show _ = ∑ i ∈ range d, F [i]
        refine sum_congr rfl fun j hj => hF [j] (.cons (by simpa using hj) .nil)
      · intro k hk
        have : k = 0 := by simpa using hk
        subst this
        exact ⟨p, rfl, hp, hs, fun y hy => by
          have := hF y hy
          simpa [sumIdx] using this⟩
    · obtain ⟨q, q', h1, h2, h3, h4, h5⟩ := sumLast_more hp hN hs
      obtain ⟨A, ms, g1, g2, g3, g4⟩ := ih (fun y => ∑ j ∈ range d, F (y ++ [j])) q' hN h3 h4 (by
        intro y hy
        rw [h5 y hy]
        exact sum_congr rfl fun j hj => hF _ (inB_append hy (.cons (by simpa using hj) .nil)))
      have hl : (N ++ [d]).length - 1 = (N.length - 1) + 1 := by
        have := List.length_pos_iff.2 hN
        simp; omega
      refine ⟨A, ms ++ [p], ?_, ?_, by simp [g3], ?_⟩
      · rw [hl]
        unfold marginalPmf
        rw [show N.length - 1 + 1 = N.length by have := List.length_pos_iff.2 hN; omega, h1]
        show (prune q false >>= _) = _
        rw [h2, ok_bind, g1]; rfl
      · rw [g2, sumIdx_append]; rfl
      · intro k hk
        by_cases hk' : k < N.length
        · obtain ⟨m, k1, k2, k3, k4⟩ := g4 k hk'
          refine ⟨m, by rw [List.getElem?_append_left (by omega)]; exact k1, k2, ?_, ?_⟩
          · rw [List.take_append_of_le_length (by omega)]; exact k3
          · intro y hy
            rw [List.take_append_of_le_length (by omega)] at hy
            rw [k4 y hy, List.drop_append_of_le_length (by omega), sumIdx_append]
            refine sumIdx_congr fun z _ => ?_
            show _ = ∑ j ∈ range d, F (y ++ (z ++ [j]))
            exact sum_congr rfl fun j _ => by rw [List.append_assoc]
        · have : k = N.length := by simp at hk; omega
          subst this
          refine ⟨p, by rw [← g3]; simp, hp, ?_, ?_⟩
          · rw [hs, List.take_of_length_le (by simp)]
          · intro y hy
            rw [List.take_of_length_le (by simp)] at hy
            rw [List.drop_of_length_le (by simp), hF y hy]
            simp [sumIdx]

end Mpnum
