import Verif.MPArray.Interrupt
import Verif.MPArray.RanksKept
import Verif.MPArray.CompressMain

/-! # Lemmas about interrupted methods -/

open Finset

namespace Mpnum

namespace IP

variable {R α β : Type}

theorem self_bind (k : MPA R → IP R β) (s : Obj R) : (self >>= k) s = k s.mpa s := rfl

theorem pure_bind' (a : α) (k : α → IP R β) (s : Obj R) : ((pure a : IP R α) >>= k) s = k a s := rfl

theorem lift_bind {v : Py α} {a : α} (h : v = .ok a) (k : α → IP R β) (s : Obj R) : (lift v >>= k) s = k a s := by
  subst h; rfl

theorem lift_error {v : Py α} {e : PyErr} (h : v = .error e) (k : α → IP R β) (s : Obj R) :
    (lift v >>= k) s = (.error e, s) := by
  subst h; rfl

theorem become_bind (x : MPA R) (k : Unit → IP R β) (s : Obj R) : (become x >>= k) s = k () ⟨s.clock, x⟩ := rfl

theorem point_none {irq : Irq} {p : Pt} {s : Obj R} (h : irq s.clock p = none) (k : Unit → IP R β) :
    (point irq p >>= k) s = k () ⟨s.clock + 1, s.mpa⟩ := by
  show andThen (point irq p) k s = _
  unfold andThen point
  rw [h]

theorem point_some {irq : Irq} {p : Pt} {s : Obj R} {e : PyErr} (h : irq s.clock p = some e) (k : Unit → IP R β) :
    (point irq p >>= k) s = (.error e, ⟨s.clock + 1, s.mpa⟩) := by
  show andThen (point irq p) k s = _
  unfold andThen point
  rw [h]

/-- The method `m`, started on `x`, ends either as described by `Q` or with an exception raised by a numerical routine;
the object satisfies `I` in both cases. -/
def Run (irq : Irq) (m : IP R α) (x : MPA R) (I : MPA R → Prop) (Q : α → MPA R → Prop) : Prop :=
  ∀ c, I (m ⟨c, x⟩).2.mpa ∧
    ((∃ a, (m ⟨c, x⟩).1 = .ok a ∧ Q a (m ⟨c, x⟩).2.mpa) ∨ ∃ e n, irq n .call = some e ∧ (m ⟨c, x⟩).1 = .error e)

theorem Run.bind {irq : Irq} {m : IP R α} {k : α → IP R β} {x : MPA R} {I : MPA R → Prop} {Q : α → MPA R → Prop}
    {Q' : β → MPA R → Prop} (h : Run irq m x I Q) (h' : ∀ a y, I y → Q a y → Run irq (k a) y I Q') :
    Run irq (m >>= k) x I Q' := by
  intro c
  obtain ⟨h1, h2⟩ := h c
  have e : (m >>= k) ⟨c, x⟩ = (match m ⟨c, x⟩ with
    | (.ok a, s') => k a s'
    | (.error e, s') => (.error e, s')) := rfl
  generalize hm : m ⟨c, x⟩ = p at h1 h2 e
  obtain ⟨res, c', y⟩ := p
  simp only at h1 h2 e
  rcases h2 with ⟨a, ha, hq⟩ | ⟨er, n, hn, ha⟩
  · subst ha
    rw [e]
    exact h' a y h1 hq c'
  · subst ha
    rw [e]
    exact ⟨h1, .inr ⟨er, n, hn, rfl⟩⟩

theorem Run.weaken {irq : Irq} {m : IP R α} {x : MPA R} {I I' : MPA R → Prop} {Q Q' : α → MPA R → Prop}
    (h : Run irq m x I Q) (hI : ∀ y, I y → I' y) (hQ : ∀ a y, I y → Q a y → Q' a y) : Run irq m x I' Q' := by
  intro c
  obtain ⟨h1, h2⟩ := h c
  refine ⟨hI _ h1, ?_⟩
  rcases h2 with ⟨a, ha, hq⟩ | h2
  · exact .inl ⟨a, ha, hQ _ _ h1 hq⟩
  · exact .inr h2

theorem run_pure {irq : Irq} {x : MPA R} {I : MPA R → Prop} {Q : α → MPA R → Prop} (a : α) (hI : I x) (hQ : Q a x) :
    Run irq (pure a : IP R α) x I Q := fun _ => ⟨hI, .inl ⟨a, rfl, hQ⟩⟩

theorem run_self_bind {irq : Irq} {x : MPA R} {k : MPA R → IP R β} {I : MPA R → Prop} {Q : β → MPA R → Prop}
    (h : Run irq (k x) x I Q) : Run irq (self >>= k) x I Q := h

theorem run_lift_bind {irq : Irq} {x : MPA R} {v : Py α} {a : α} (hv : v = .ok a) {k : α → IP R β} {I : MPA R → Prop}
    {Q : β → MPA R → Prop} (h : Run irq (k a) x I Q) : Run irq (lift v >>= k) x I Q := by
  subst hv; exact h

theorem run_point_bind {irq : Irq} {x : MPA R} {k : Unit → IP R β} {I : MPA R → Prop} {Q : β → MPA R → Prop} (hI : I x)
    (h : Run irq (k ()) x I Q) : Run irq (point irq .call >>= k) x I Q := by
  intro c
  cases hi : irq c .call with
  | none => rw [point_none (s := ⟨c, x⟩) hi]; exact h (c + 1)
  | some e => rw [point_some (s := ⟨c, x⟩) hi]; exact ⟨hI, .inr ⟨e, c, hi, rfl⟩⟩

/-- One step of a loop: it takes the object from `x` to `y`, or stops at `x`. -/
def Step (irq : Irq) (m : IP R Unit) (x y : MPA R) : Prop :=
  Run irq m x (fun z => z = x ∨ z = y) (fun _ z => z = y) ∧
    ∀ c, (∃ e, (m ⟨c, x⟩).1 = .error e) → (m ⟨c, x⟩).2.mpa = x

/-- A loop whose steps can be stopped at any time stops after a part of its steps. -/
theorem forEach_run {σ : Type} {irq : Irq} {f : α → IP R Unit} {g : σ → α → Py σ} (π : σ → MPA R)
    (hstep : ∀ a st st', g st a = .ok st' → Step irq (f a) (π st) (π st')) (l : List α) (st st' : σ)
    (h : l.foldlM g st = .ok st') :
    Run irq (forEach f l) (π st) (fun z => ∃ pre, pre <+: l ∧ ∃ st'', pre.foldlM g st = .ok st'' ∧ z = π st'')
      (fun _ z => z = π st') := by
  induction l generalizing st with
  | nil =>
    cases h
    exact run_pure _ ⟨[], List.prefix_refl _, _, rfl, rfl⟩ rfl
  | cons a l ih =>
    rw [List.foldlM_cons] at h
    obtain ⟨s1, h1, h2⟩ := bind_ok_inv h
    obtain ⟨k1, k2⟩ := hstep a st s1 h1
    intro c
    show _ ∧ _
    have e : forEach f (a :: l) ⟨c, π st⟩ = andThen (f a) (fun _ => forEach f l) ⟨c, π st⟩ := by rw [forEach]; rfl
    unfold andThen at e
    obtain ⟨q1, q2⟩ := k1 c
    have q3 := k2 c
    generalize f a ⟨c, π st⟩ = p at q1 q2 q3 e
    obtain ⟨res, c', y⟩ := p
    simp only at q1 q2 q3 e
    rcases q2 with ⟨u, hu, hy⟩ | ⟨er, n, hn, hu⟩
    · subst hu
      simp only at e
      rw [e, hy]
      obtain ⟨i1, i2⟩ := ih s1 h2 c'
      refine ⟨?_, i2⟩
      obtain ⟨pre, p1, st'', p2, p3⟩ := i1
      exact ⟨a :: pre, (List.prefix_cons_inj a).2 p1, st'', by rw [List.foldlM_cons, h1]; exact p2, p3⟩
    · subst hu
      rw [e]
      refine ⟨⟨[], List.nil_prefix, st, rfl, q3 ⟨er, rfl⟩⟩, .inr ⟨er, n, hn, rfl⟩⟩

end IP

open IP

theorem prefix_range_map {α : Type} {F : ℕ → α} {n : ℕ} {pre : List α} (h : pre <+: (List.range n).map F) :
    ∃ m ≤ n, pre = (List.range m).map F := by
  refine ⟨min pre.length n, Nat.min_le_right _ _, ?_⟩
  have h1 := List.prefix_iff_eq_take.1 h
  rw [← List.map_take, List.take_range] at h1
  exact h1

namespace MPA

variable {R : Type}

theorem updateLoopI_ok {irq : Irq} (hw : ∀ n, irq n .write = none) (ts : List (NDArray R)) (is : List ℤ)
    (cs : Option (List (Option Canon))) (x y : MPA R) (h : x.updateLoop ts is cs = .ok y) (c : ℕ) :
    ∃ c', updateLoopI irq ts is cs ⟨c, x⟩ = (.ok (), ⟨c', y⟩) := by
  induction ts generalizing is cs x c with
  | nil =>
    unfold updateLoop at h
    cases h
    exact ⟨c, by unfold updateLoopI; rfl⟩
  | cons t ts ih =>
    cases is with
    | nil =>
      unfold updateLoop at h
      cases h
      exact ⟨c, by unfold updateLoopI; rfl⟩
    | cons i is =>
      cases cs with
      | none =>
        unfold updateLoop at h
        obtain ⟨x', h1, h2⟩ := bind_ok_inv h
        obtain ⟨c', hc⟩ := ih is none x' h2 (c + 1)
        refine ⟨c', ?_⟩
        unfold updateLoopI
        rw [point_none (hw _), self_bind, lift_bind h1, become_bind, hc]
      | some cs =>
        cases cs with
        | nil =>
          unfold updateLoop at h
          cases h
          exact ⟨c, by unfold updateLoopI; rfl⟩
        | cons d cs =>
          unfold updateLoop at h
          obtain ⟨x', h1, h2⟩ := bind_ok_inv h
          obtain ⟨c', hc⟩ := ih is (some cs) x' h2 (c + 1)
          refine ⟨c', ?_⟩
          unfold updateLoopI
          rw [point_none (hw _), self_bind, lift_bind h1, become_bind, hc]

theorem updateSliceI_ok {irq : Irq} (hw : ∀ n, irq n .write = none) {start stop step : Option ℤ} {ts : List (NDArray R)}
    {cs : CanonArg} {x y : MPA R} (h : x.updateSlice start stop step ts cs = .ok y) (c : ℕ) :
    ∃ c', updateSliceI irq start stop step ts cs ⟨c, x⟩ = (.ok (), ⟨c', y⟩) := by
  unfold updateSlice at h
  obtain ⟨⟨s, e, st⟩, h1, h⟩ := bind_ok_inv h
  simp only at h
  obtain ⟨ps, h2, h⟩ := bind_ok_inv h
  obtain ⟨first, h3, h⟩ := bind_ok_inv h
  obtain ⟨_, h4, h⟩ := bind_ok_inv h
  obtain ⟨_, h5, h⟩ := bind_ok_inv h
  obtain ⟨pe, h6, h⟩ := bind_ok_inv h
  obtain ⟨_, h7, h⟩ := bind_ok_inv h
  obtain ⟨c', hc⟩ := updateLoopI_ok hw _ _ _ _ _ h c
  refine ⟨c', ?_⟩
  unfold updateSliceI
  rw [self_bind, lift_bind h1]
  simp only
  rw [lift_bind h2]
  cases ts with
  | nil => cases h3
  | cons t ts =>
  cases h3
  rw [lift_bind rfl, lift_bind h4, lift_bind h5, lift_bind h6, lift_bind h7, hc]

/-- The last part of a step: two calls may fail before the update. -/
theorem step_of_update {irq : Irq} (hw : ∀ n, irq n .write = none) {start stop step : Option ℤ} {ts : List (NDArray R)}
    {cs : CanonArg} {x y : MPA R} (h : x.updateSlice start stop step ts cs = .ok y) :
    Step irq (updateSliceI irq start stop step ts cs) x y := by
  constructor
  · intro c
    obtain ⟨c', hc⟩ := updateSliceI_ok hw h c
    rw [hc]
    exact ⟨.inr rfl, .inl ⟨(), rfl, rfl⟩⟩
  · rintro c ⟨e, he⟩
    obtain ⟨c', hc⟩ := updateSliceI_ok hw h c
    rw [hc] at he; cases he

theorem Step.point {irq : Irq} {k : Unit → IP R Unit} {x y : MPA R} (h : Step irq (k ()) x y) :
    Step irq (point irq .call >>= k) x y := by
  refine ⟨run_point_bind (.inl rfl) h.1, ?_⟩
  intro c he
  cases hi : irq c .call with
  | none =>
    rw [point_none (s := ⟨c, x⟩) hi] at he ⊢
    exact h.2 _ he
  | some e => rw [point_some (s := ⟨c, x⟩) hi]

theorem Step.lift {irq : Irq} {α : Type} {v : Py α} {a : α} (hv : v = .ok a) {k : α → IP R Unit} {x y : MPA R}
    (h : Step irq (k a) x y) : Step irq (IP.lift v >>= k) x y := by
  subst hv; exact h

theorem Step.self {irq : Irq} {k : MPA R → IP R Unit} {x y : MPA R} (h : Step irq (k x) x y) :
    Step irq (IP.self >>= k) x y := h

section canon

variable [AddCommMonoid R] [Mul R]

theorem rcanonStepI_step {irq : Irq} (hw : ∀ n, irq n .write = none) (qr : QR R) (site : ℤ) {x y : MPA R}
    (h : x.rcanonStep qr site = .ok y) : Step irq (rcanonStepI qr irq site) x y := by
  unfold rcanonStep at h
  obtain ⟨ltens, h1, h⟩ := bind_ok_inv h
  obtain ⟨mat, h2, h⟩ := bind_ok_inv h
  rcases hq : qr mat with ⟨q, r⟩
  simp only [hq] at h
  obtain ⟨next, h3, h⟩ := bind_ok_inv h
  obtain ⟨t1, h4, h⟩ := bind_ok_inv h
  obtain ⟨t2, h5, h⟩ := bind_ok_inv h
  unfold rcanonStepI
  refine Step.self (Step.lift h1 (Step.lift h2 (Step.point ?_)))
  simp only [hq]
  exact Step.lift h3 (Step.lift h4 (Step.point (Step.lift h5 (step_of_update hw h))))

theorem lcanonStepI_step {irq : Irq} (hw : ∀ n, irq n .write = none) (qr : QR R) (site : ℤ) {x y : MPA R}
    (h : x.lcanonStep qr site = .ok y) : Step irq (lcanonStepI qr irq site) x y := by
  unfold lcanonStep at h
  obtain ⟨ltens, h1, h⟩ := bind_ok_inv h
  obtain ⟨mat, h2, h⟩ := bind_ok_inv h
  rcases hq : qr mat.T with ⟨q, r⟩
  simp only [hq] at h
  obtain ⟨prev, h3, h⟩ := bind_ok_inv h
  obtain ⟨t1, h4, h⟩ := bind_ok_inv h
  obtain ⟨t2, h5, h⟩ := bind_ok_inv h
  unfold lcanonStepI
  refine Step.self (Step.lift h1 (Step.lift h2 (Step.point ?_)))
  simp only [hq]
  exact Step.lift h3 (Step.point (Step.lift h4 (Step.lift h5 (step_of_update hw h))))

end canon

section good

variable [CommRing R] [StarRing R]

theorem rcanonicalizeI_run {irq : Irq} (hw : ∀ n, irq n .write = none) {qr : QR R} (hqr : QRSpec qr) {x : MPA R}
    (hx : x.Good) {c : ℤ} (h0 : 0 ≤ c) (h1 : c < x.len) :
    Run irq (rcanonicalizeI qr irq c) x (CanonStepSpec x) (fun _ y => x.rcanonicalize qr c = .ok y) := by
  obtain ⟨y, g1, g2, -, -⟩ := rcanonicalize_ok hqr hx h0 h1
  have hf : (pyRange x.l c 1).foldlM (rcanonStep qr) x = .ok y := by
    unfold rcanonicalize at g1
    rwa [pyAssert_true ⟨h0, h1⟩, ok_bind] at g1
  unfold rcanonicalizeI
  refine run_self_bind (run_lift_bind (pyAssert_true ⟨h0, h1⟩) ?_)
  refine (forEach_run (g := rcanonStep qr) id (fun a st st' h => rcanonStepI_step hw qr a h) _ x y hf).weaken ?_ ?_
  · rintro z ⟨pre, p1, st, p2, rfl⟩
    rw [pyRange_up] at p1
    obtain ⟨m, hm, rfl⟩ := prefix_range_map p1
    obtain ⟨y', k1, k2, -⟩ := rcanon_loop hqr hx m (by have := hx.valid.l_lt_r; have := hx.valid.r_le; omega)
    rw [k1] at p2; cases p2
    exact k2
  · rintro _ z - rfl
    exact g1

theorem lcanonicalizeI_run {irq : Irq} (hw : ∀ n, irq n .write = none) {qr : QR R} (hqr : QRSpec qr) {x : MPA R}
    (hx : x.Good) {c : ℤ} (h0 : 0 < c) (h1 : c ≤ x.len) :
    Run irq (lcanonicalizeI qr irq c) x (CanonStepSpec x) (fun _ y => x.lcanonicalize qr c = .ok y) := by
  obtain ⟨y, g1, g2, -, -⟩ := lcanonicalize_ok hqr hx h0 h1
  have hf : (pyRange (x.r - 1) (c - 1) (-1)).foldlM (lcanonStep qr) x = .ok y := by
    unfold lcanonicalize at g1
    rwa [pyAssert_true ⟨h0, h1⟩, ok_bind] at g1
  unfold lcanonicalizeI
  refine run_self_bind (run_lift_bind (pyAssert_true ⟨h0, h1⟩) ?_)
  refine (forEach_run (g := lcanonStep qr) id (fun a st st' h => lcanonStepI_step hw qr a h) _ x y hf).weaken ?_ ?_
  · rintro z ⟨pre, p1, st, p2, rfl⟩
    rw [pyRange_down] at p1
    obtain ⟨m, hm, rfl⟩ := prefix_range_map p1
    obtain ⟨y', k1, k2, -⟩ := lcanon_loop hqr hx m (by have := hx.valid.l_lt_r; have := hx.valid.l_nonneg; omega)
    rw [k1] at p2; cases p2
    exact k2
  · rintro _ z - rfl
    exact g1

/-- Whatever the arguments: the object stays a good MPA of the same tensor, and the outcome is the one without
interruption or the exception of a numerical routine. -/
theorem canonicalizeI_run {irq : Irq} (hw : ∀ n, irq n .write = none) {qr : QR R} (hqr : QRSpec qr) {x : MPA R}
    (hx : x.Good) (left right : CArg) (y : MPA R) (h : x.canonicalize qr left right = .ok y) :
    Run irq (canonicalizeI qr irq left right) x (CanonStepSpec x) (fun _ z => z = y) := by
  have hlr := hx.valid.l_lt_r
  have hl0 := hx.valid.l_nonneg
  have hrle := hx.valid.r_le
  unfold canonicalizeI
  unfold canonicalize at h
  refine run_self_bind ?_
  split
  · rename_i hn
    rw [if_pos hn] at h
    split
    · rename_i hc
      rw [if_pos hc] at h
      refine (lcanonicalizeI_run hw hqr hx one_pos (by omega)).weaken (fun _ h => h) ?_
      intro _ z _ hz
      rw [hz] at h; cases h; rfl
    · rename_i hc
      rw [if_neg hc] at h
      refine (rcanonicalizeI_run hw hqr hx (by omega) (by omega)).weaken (fun _ h => h) ?_
      intro _ z _ hz
      rw [hz] at h; cases h; rfl
  · rename_i hn
    rw [if_neg hn] at h
    extract_lets tl0 tr0 tl tr at h ⊢
    obtain ⟨_, h1, h⟩ := bind_ok_inv h
    obtain ⟨_, h2, h⟩ := bind_ok_inv h
    obtain ⟨_, h3, h⟩ := bind_ok_inv h
    have q1 : 0 ≤ tl ∧ tl ≤ x.len := by
      by_contra hc; rw [pyGuard, if_neg hc] at h1; cases h1
    have q2 : 0 ≤ tr ∧ tr ≤ x.len := by
      by_contra hc; rw [pyGuard, if_neg hc] at h2; cases h2
    have q3 : tl < tr := by
      by_contra hc; rw [pyGuard, if_neg hc] at h3; cases h3
    refine run_lift_bind h1 (run_lift_bind h2 (run_lift_bind h3 ?_))
    have key : ∀ y', CanonStepSpec x y' → (if x.r > tr then lcanonicalize qr y' tr else Except.ok y') = .ok y →
        Run irq (if x.r > tr then lcanonicalizeI qr irq tr else pure ()) y' (CanonStepSpec x) (fun _ z => z = y) := by
      intro y' hy' h'
      split
      · rename_i hb
        rw [if_pos hb] at h'
        refine (lcanonicalizeI_run hw hqr hy'.good (by omega) (by rw [hy'.len]; omega)).weaken (fun _ h => hy'.trans h) ?_
        intro _ z _ hz
        rw [hz] at h'; cases h'; rfl
      · rename_i hb
        rw [if_neg hb] at h'
        cases h'
        exact run_pure _ hy' rfl
    by_cases ha : x.l < tl
    · rw [if_pos ha] at h ⊢
      obtain ⟨y', h4, h5⟩ := bind_ok_inv h
      refine (rcanonicalizeI_run hw hqr hx q1.1 (by omega)).bind fun _ z hz hz' => ?_
      rw [h4] at hz'; cases hz'
      exact key _ hz h5
    · rw [if_neg ha] at h ⊢
      exact key x (CanonStepSpec.rfl' hx) h

/-- If `canonicalize` rejects its arguments, then the object is not touched. -/
theorem canonicalizeI_reject {irq : Irq} {qr : QR R} (hqr : QRSpec qr) {x : MPA R} (hx : x.Good) (left right : CArg)
    (e : PyErr) (h : x.canonicalize qr left right = .error e) (c : ℕ) :
    canonicalizeI qr irq left right ⟨c, x⟩ = (.error e, ⟨c, x⟩) := by
  have hlr := hx.valid.l_lt_r
  have hl0 := hx.valid.l_nonneg
  have hrle := hx.valid.r_le
  unfold canonicalizeI
  unfold canonicalize at h
  rw [self_bind]
  split
  · rename_i hn
    rw [if_pos hn] at h
    split at h
    · obtain ⟨y, g, -⟩ := lcanonicalize_ok hqr hx one_pos (by omega)
      rw [g] at h; cases h
    · obtain ⟨y, g, -⟩ := rcanonicalize_ok hqr hx (c := x.len - 1) (by omega) (by omega)
      rw [g] at h; cases h
  · rename_i hn
    rw [if_neg hn] at h
    extract_lets tl0 tr0 tl tr at h ⊢
    by_cases q1 : 0 ≤ tl ∧ tl ≤ x.len
    · have h1 : pyGuard (0 ≤ tl ∧ tl ≤ x.len) .index = .ok () := if_pos q1
      rw [h1, ok_bind] at h
      rw [lift_bind h1]
      by_cases q2 : 0 ≤ tr ∧ tr ≤ x.len
      · have h2 : pyGuard (0 ≤ tr ∧ tr ≤ x.len) .index = .ok () := if_pos q2
        rw [h2, ok_bind] at h
        rw [lift_bind h2]
        by_cases q3 : tl < tr
        · exfalso
          have h3 : pyGuard (tl < tr) .value = .ok () := if_pos q3
          rw [h3, ok_bind] at h
          have key : ∀ y', CanonStepSpec x y' → (if x.r > tr then lcanonicalize qr y' tr else Except.ok y') ≠ .error e := by
            intro y' hy' h'
            split at h'
            · obtain ⟨z, g, -⟩ := lcanonicalize_ok hqr hy'.good (c := tr) (by omega) (by rw [hy'.len]; omega)
              rw [g] at h'; cases h'
            · cases h'
          by_cases ha : x.l < tl
          · rw [if_pos ha] at h
            obtain ⟨z, g, g2, -⟩ := rcanonicalize_ok hqr hx q1.1 (by omega)
            rw [g, ok_bind] at h
            exact key z g2 h
          · rw [if_neg ha] at h
            exact key x (CanonStepSpec.rfl' hx) h
        · have h3 : pyGuard (tl < tr) PyErr.value = .error .value := if_neg q3
          rw [h3] at h; cases h
          rw [lift_error h3]
      · have h2 : pyGuard (0 ≤ tr ∧ tr ≤ x.len) PyErr.index = .error .index := if_neg q2
        rw [h2] at h; cases h
        rw [lift_error h2]
    · have h1 : pyGuard (0 ≤ tl ∧ tl ≤ x.len) PyErr.index = .error .index := if_neg q1
      rw [h1] at h; cases h
      rw [lift_error h1]

end good

end MPA

/-! ### the sweeps of SVD compression -/

section proj
variable {R : Type} [CommRing R] [StarRing R]

/-- In the middle of a sweep to the right the tensor is an orthogonal projection of the original one. -/
theorem projR_mid {f : List (List ℕ) → R} {pre post : List (NDArray R)} {d : ℕ} (hc : Chained 1 pre d)
    (hl : ∀ t ∈ pre, LCanon t) (h : ProjR f pre post d) :
    (sumSites (physShape (pre ++ post)) fun i => star (f i) * entry (pre ++ post) i)
      = sumSites (physShape (pre ++ post)) fun i => star (entry (pre ++ post) i) * entry (pre ++ post) i := by
  have hps : physShape (pre ++ post) = physShape pre ++ physShape post := by simp [physShape]
  have hen : ∀ i, IdxOK i (physShape pre) → ∀ j, entry (pre ++ post) (i ++ j)
      = ∑ c ∈ range d, mp pre i 0 c * mp post j c 0 := by
    intro i hi j
    exact mp_append hc (by simpa [physShape] using idxOK_length hi) one_pos
  rw [hps, sumSites_append, sumSites_append, sumSites_comm,
    sumSites_comm (physShape pre) (physShape post) (fun i j => star (entry (pre ++ post) (i ++ j)) * _)]
  refine sumSites_congr fun j hj => ?_
  have e1 : (sumSites (physShape pre) fun i => star (entry (pre ++ post) (i ++ j)) * entry (pre ++ post) (i ++ j))
      = sumSites (physShape pre) fun i => star (∑ a ∈ range d, mp pre i 0 a * mp post j a 0) *
      (∑ a ∈ range d, mp pre i 0 a * mp post j a 0) :=
    sumSites_congr fun i hi => by rw [hen i hi j]
  rw [e1, isoL hc hl]
  have e2 : (sumSites (physShape pre) fun i => star (f (i ++ j)) * entry (pre ++ post) (i ++ j))
      = sumSites (physShape pre) fun i => ∑ a ∈ range d, (star (f (i ++ j)) * mp pre i 0 a) * mp post j a 0 :=
    sumSites_congr fun i hi => by
      rw [hen i hi j, Finset.mul_sum]
      exact Finset.sum_congr rfl fun a _ => by ring
  rw [e2, sumSites_sum_comm]
  refine Finset.sum_congr rfl fun a ha => ?_
  rw [← sumSites_mul]
  congr 1
  rw [h a (by simpa using ha) j hj, star_sumSites]
  exact sumSites_congr fun i _ => by rw [star_mul', star_star]; ring

/-- In the middle of a sweep to the left. -/
theorem projL_mid {f : List (List ℕ) → R} {pre post : List (NDArray R)} {d : ℕ} (hp : Chained 1 pre d)
    (hc : Chained d post 1) (hr : ∀ t ∈ post, RCanon t) (h : ProjL f pre post d) :
    (sumSites (physShape (pre ++ post)) fun i => star (f i) * entry (pre ++ post) i)
      = sumSites (physShape (pre ++ post)) fun i => star (entry (pre ++ post) i) * entry (pre ++ post) i := by
  have hps : physShape (pre ++ post) = physShape pre ++ physShape post := by simp [physShape]
  have hen : ∀ i, IdxOK i (physShape pre) → ∀ j, entry (pre ++ post) (i ++ j)
      = ∑ c ∈ range d, mp pre i 0 c * mp post j c 0 := by
    intro i hi j
    exact mp_append hp (by simpa [physShape] using idxOK_length hi) one_pos
  rw [hps, sumSites_append, sumSites_append]
  refine sumSites_congr fun i hi => ?_
  have e1 : (sumSites (physShape post) fun j => star (entry (pre ++ post) (i ++ j)) * entry (pre ++ post) (i ++ j))
      = sumSites (physShape post) fun j => star (∑ a ∈ range d, mp pre i 0 a * mp post j a 0) *
      (∑ a ∈ range d, mp pre i 0 a * mp post j a 0) :=
    sumSites_congr fun j _ => by rw [hen i hi j]
  rw [e1, isoR hc hr]
  have e2 : (sumSites (physShape post) fun j => star (f (i ++ j)) * entry (pre ++ post) (i ++ j))
      = sumSites (physShape post) fun j => ∑ a ∈ range d, (star (f (i ++ j)) * mp post j a 0) * mp pre i 0 a :=
    sumSites_congr fun j _ => by
      rw [hen i hi j, Finset.mul_sum]
      exact Finset.sum_congr rfl fun a _ => by ring
  rw [e2, sumSites_sum_comm]
  refine Finset.sum_congr rfl fun a ha => ?_
  rw [← sumSites_mul]
  congr 1
  rw [h a (by simpa using ha) i hi, star_sumSites]
  exact sumSites_congr fun i _ => by rw [star_mul', star_star]

end proj

namespace MPA

variable {𝕜 : Type} [RCLike 𝕜]

/-- What an object is at any time during SVD compression of `x`: a good MPA of the same shape with no larger bonds, and
an orthogonal projection of `x`. -/
structure Proj (x y : MPA 𝕜) : Prop where
  good : y.Good
  len : y.len = x.len
  shape : y.shape = x.shape
  ranks_le : y.RanksLe x
  overlap : (sumSites x.shape fun i => star (x.val i) * y.val i) = ((sumSites x.shape fun i => ‖y.val i‖ ^ 2 : ℝ) : 𝕜)

theorem CanonStepSpec.proj {x y : MPA 𝕜} (h : CanonStepSpec x y) : Proj x y where
  good := h.good
  len := h.len
  shape := h.same.shape
  ranks_le := h.ranks
  overlap := by
    rw [← sumSites_normSq]
    exact sumSites_congr fun i hi => by rw [h.same.val i hi]

theorem Proj.of_canon {x y z : MPA 𝕜} (h : CanonStepSpec x y) (h' : Proj y z) : Proj x z where
  good := h'.good
  len := h'.len.trans h.len
  shape := h'.shape.trans h.same.shape
  ranks_le := h'.ranks_le.trans h.ranks
  overlap := by
    have := h'.overlap
    rw [h.same.shape] at this
    rw [← this]
    exact sumSites_congr fun i hi => by rw [h.same.val i hi]

theorem SweepR.toProj {svd : SVD 𝕜} {f : SVDFunc 𝕜} {rank : ℤ} {relerr : Option ℝ} {x y : MPA 𝕜} {k : ℕ}
    {out : List (List ℝ × ℕ)} (h : SweepR svd f rank relerr x k y out) : Proj x y := by
  obtain ⟨pre, post, d, p1, p2, p3, p4, p5⟩ := h.proj
  have hsh : x.shape = physShape (pre ++ post) := by
    rw [← h.shape]; simp [MPA.shape, physShape, p1]
  have hyv : ∀ i, y.val i = entry (pre ++ post) i := by
    intro i; show entry y.lt i = _; rw [p1]
  refine ⟨h.good, h.len, h.shape, h.ranks_le, ?_⟩
  rw [← sumSites_normSq, hsh]
  simp only [hyv]
  exact projR_mid p3 p4 p5

theorem SweepL.toProj {svd : SVD 𝕜} {f : SVDFunc 𝕜} {rank : ℤ} {relerr : Option ℝ} {x y : MPA 𝕜} {k : ℕ}
    {out : List (List ℝ × ℕ)} (h : SweepL svd f rank relerr x k y out) : Proj x y := by
  obtain ⟨pre, post, d, p1, p2, p3, p4, p5⟩ := h.proj
  have hsh : x.shape = physShape (pre ++ post) := by
    rw [← h.shape]; simp [MPA.shape, physShape, p1]
  have hyv : ∀ i, y.val i = entry (pre ++ post) i := by
    intro i; show entry y.lt i = _; rw [p1]
  refine ⟨h.good, h.len, h.shape, h.ranks_le, ?_⟩
  rw [← sumSites_normSq, hsh]
  simp only [hyv]
  have hch := h.good.valid.chain
  rw [p1] at hch
  obtain ⟨d', c1, c2⟩ := chained_append.1 hch
  cases hpost : post with
  | nil =>
    rw [hpost] at p3 p5 c2
    simp only [chained_nil] at p3 c2
    subst p3; subst c2
    exact projL_mid c1 (by simp) (by simp) p5
  | cons a b =>
    rw [← hpost]
    have : d' = d := by
      rw [hpost] at p3 c2
      exact c2.2.1.symm.trans p3.2.1
    subst this
    exact projL_mid c1 p3 p4 p5

theorem svdStepRI_step {irq : Irq} (hw : ∀ n, irq n .write = none) (svd : SVD 𝕜) (f : SVDFunc 𝕜) (rank : ℤ)
    (relerr : Option ℝ) (site : ℤ) {st st' : MPA 𝕜 × List (List ℝ × ℕ)}
    (h : svdStepR svd f rank relerr st site = .ok st') : Step irq (svdStepRI svd f irq rank relerr site) st.1 st'.1 := by
  unfold svdStepR svdSiteR svdUpdateR at h
  obtain ⟨⟨ltens, u, sv, v, k⟩, h1, h⟩ := bind_ok_inv h
  obtain ⟨lt', h11, h1⟩ := bind_ok_inv h1
  obtain ⟨mat, h12, h1⟩ := bind_ok_inv h1
  have hj := Except.ok.inj h1
  obtain ⟨rfl, hp⟩ : lt' = ltens ∧ svdPickR svd f rank relerr lt'.rb mat = (u, sv, v, k) := by
    constructor
    · exact congrArg Prod.fst hj
    · exact congrArg Prod.snd hj
  simp only at h
  obtain ⟨y, h2, h⟩ := bind_ok_inv h
  cases h
  obtain ⟨t1, h21, h2⟩ := bind_ok_inv h2
  obtain ⟨w, h22, h2⟩ := bind_ok_inv h2
  obtain ⟨next, h23, h2⟩ := bind_ok_inv h2
  obtain ⟨t2, h24, h2⟩ := bind_ok_inv h2
  unfold svdStepRI
  refine Step.self (Step.lift h11 (Step.lift h12 (Step.point ?_)))
  simp only [hp]
  exact Step.lift h21 (Step.lift h22 (Step.lift h23 (Step.point (Step.lift h24 (step_of_update hw h2)))))

theorem svdStepLI_step {irq : Irq} (hw : ∀ n, irq n .write = none) (svd : SVD 𝕜) (f : SVDFunc 𝕜) (rank : ℤ)
    (relerr : Option ℝ) (site : ℤ) {st st' : MPA 𝕜 × List (List ℝ × ℕ)}
    (h : svdStepL svd f rank relerr st site = .ok st') : Step irq (svdStepLI svd f irq rank relerr site) st.1 st'.1 := by
  unfold svdStepL svdSiteL svdUpdateL at h
  obtain ⟨⟨ltens, u, sv, v, k⟩, h1, h⟩ := bind_ok_inv h
  obtain ⟨lt', h11, h1⟩ := bind_ok_inv h1
  obtain ⟨mat, h12, h1⟩ := bind_ok_inv h1
  have hj := Except.ok.inj h1
  obtain ⟨rfl, hp⟩ : lt' = ltens ∧ svdPickL svd f rank relerr lt'.lb mat = (u, sv, v, k) := by
    constructor
    · exact congrArg Prod.fst hj
    · exact congrArg Prod.snd hj
  simp only at h
  obtain ⟨y, h2, h⟩ := bind_ok_inv h
  cases h
  obtain ⟨prev, h21, h2⟩ := bind_ok_inv h2
  obtain ⟨w, h22, h2⟩ := bind_ok_inv h2
  obtain ⟨t1, h23, h2⟩ := bind_ok_inv h2
  obtain ⟨t2, h24, h2⟩ := bind_ok_inv h2
  unfold svdStepLI
  refine Step.self (Step.lift h11 (Step.lift h12 (Step.point ?_)))
  simp only [hp]
  exact Step.lift h21 (Step.lift h22 (Step.point (Step.lift h23 (Step.lift h24 (step_of_update hw h2)))))

theorem compressSvdRI_run {irq : Irq} (hw : ∀ n, irq n .write = none) {svd : SVD 𝕜} {f : SVDFunc 𝕜} (h : SVDSpec svd)
    (hf : SVDFuncSpec f) {rank : ℤ} (hr : 0 < rank) {relerr : Option ℝ} (he : ∀ e, relerr = some e → 0 ≤ e ∧ e ≤ 1)
    {x : MPA 𝕜} (hx : x.Good) (hlen : x.len ≠ 1) :
    Run irq (compressSvdRI svd f irq rank relerr) x (Proj x)
      (fun o y => ∃ out, x.compressSvdR svd f rank relerr = .ok (y, out, o)) := by
  have hlp : 0 < x.len := List.length_pos_of_ne_nil hx.valid.ne
  obtain ⟨y, out, o, g1, g2, -, -, -, g3⟩ := compressSvdR_ok h hf hr he hx hlen
  have g1' := g1
  unfold compressSvdR at g1'
  rw [svdArgs_ok hr he, ok_bind] at g1'
  obtain ⟨⟨y', out'⟩, k1, k2⟩ := bind_ok_inv g1'
  simp only at k2
  obtain ⟨t, k3, k4⟩ := bind_ok_inv k2
  cases k4
  unfold compressSvdRI
  refine run_lift_bind (svdArgs_ok hr he) (run_self_bind ?_)
  refine ((forEach_run (g := svdStepR svd f rank relerr) Prod.fst
    (fun a st st' hs => svdStepRI_step hw svd f rank relerr a hs) _ (x, []) (y, out) k1).weaken
    (I' := Proj x) ?_ (Q' := fun _ z => z = y) (fun _ z _ hz => hz)).bind ?_
  · rintro z ⟨pre, p1, st, p2, rfl⟩
    rw [show ((x.len : ℤ) - 1) = ((x.len - 1 : ℕ) : ℤ) by omega, pyRange_up] at p1
    obtain ⟨m, hm, rfl⟩ := prefix_range_map p1
    obtain ⟨y', out', q1, q2⟩ := sweepR_ok h hf hr (relerr := relerr) hx m (by omega)
    rw [pyRange_up] at q1
    have hmm : ((m : ℤ) - 0).toNat = m := by omega
    rw [hmm] at q1
    rw [q1] at p2; cases p2
    exact q2.toProj
  · rintro _ z hz rfl
    refine run_self_bind (run_lift_bind k3 (run_point_bind hz (run_pure _ hz ⟨out, g1⟩)))

theorem compressSvdLI_run {irq : Irq} (hw : ∀ n, irq n .write = none) {svd : SVD 𝕜} {f : SVDFunc 𝕜} (h : SVDSpec svd)
    (hf : SVDFuncSpec f) {rank : ℤ} (hr : 0 < rank) {relerr : Option ℝ} (he : ∀ e, relerr = some e → 0 ≤ e ∧ e ≤ 1)
    {x : MPA 𝕜} (hx : x.Good) (hlen : x.len ≠ 1) :
    Run irq (compressSvdLI svd f irq rank relerr) x (Proj x)
      (fun o y => ∃ out, x.compressSvdL svd f rank relerr = .ok (y, out, o)) := by
  have hlp : 0 < x.len := List.length_pos_of_ne_nil hx.valid.ne
  obtain ⟨y, out, o, g1, g2, -, -, -, g3⟩ := compressSvdL_ok h hf hr he hx hlen
  have g1' := g1
  unfold compressSvdL at g1'
  rw [svdArgs_ok hr he, ok_bind] at g1'
  obtain ⟨⟨y', out'⟩, k1, k2⟩ := bind_ok_inv g1'
  simp only at k2
  obtain ⟨t, k3, k4⟩ := bind_ok_inv k2
  cases k4
  unfold compressSvdLI
  refine run_lift_bind (svdArgs_ok hr he) (run_self_bind ?_)
  refine ((forEach_run (g := svdStepL svd f rank relerr) Prod.fst
    (fun a st st' hs => svdStepLI_step hw svd f rank relerr a hs) _ (x, []) (y, out) k1).weaken
    (I' := Proj x) ?_ (Q' := fun _ z => z = y) (fun _ z _ hz => hz)).bind ?_
  · rintro z ⟨pre, p1, st, p2, rfl⟩
    rw [pyRange_down] at p1
    obtain ⟨m, hm, rfl⟩ := prefix_range_map p1
    obtain ⟨y', out', q1, q2⟩ := sweepL_ok h hf hr (relerr := relerr) hx m (by omega)
    rw [q1] at p2; cases p2
    exact q2.toProj
  · rintro _ z hz rfl
    refine run_self_bind (run_lift_bind k3 (run_point_bind hz (run_pure _ hz ⟨out, g1⟩)))

end MPA

end Mpnum
