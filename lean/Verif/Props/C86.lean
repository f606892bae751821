import Verif.MPArray.ThreadsLemmas
import Verif.Props.C70

/-!
# C86: threads

Programs that run in several threads and change only objects of their own, while all of them may read shared objects, give
for every schedule the results they give alone.
-/

namespace Mpnum

/-! ### What a thread accesses -/

namespace Thr

variable {R α β : Type}

/-- The thread writes only to objects in `own` and reads only objects in `own` and `shared`, as long as the objects in
`shared` are those of `σ`. -/
def Within (own shared : Set ℕ) (σ : Heap R) : Thr R α → Prop
  | done _ => True
  | read p k => p ∈ own ∧ (∀ x, (k x).Within own shared σ) ∨ p ∈ shared ∧ (k (σ p)).Within own shared σ
  | write p _ k => p ∈ own ∧ k.Within own shared σ

variable {own shared : Set ℕ} {σ : Heap R}

theorem Within.bind {t : Thr R α} {f : α → Thr R β} (h : t.Within own shared σ) (hf : ∀ a, (f a).Within own shared σ) :
    (t >>= f).Within own shared σ := by
  show (t.andThen f).Within own shared σ
  induction t with
  | done v => cases v with
    | error e => trivial
    | ok a => exact hf a
  | read p k ih =>
    rcases h with h | h
    · exact .inl ⟨h.1, fun x => ih x (h.2 x)⟩
    · exact .inr ⟨h.1, ih _ h.2⟩
  | write p g k ih => exact ⟨h.1, ih h.2⟩

theorem within_lift (v : Py α) : (lift v : Thr R α).Within own shared σ := trivial

theorem within_pure (a : α) : (pure a : Thr R α).Within own shared σ := trivial

variable {p : ℕ}

/-- A single read. -/
theorem within_read (hp : p ∈ own ∨ p ∈ shared) (g : MPA R → Py α) :
    (read p fun x => done (g x) : Thr R α).Within own shared σ :=
  hp.elim (fun h => .inl ⟨h, fun _ => trivial⟩) fun h => .inr ⟨h, trivial⟩

theorem within_len (hp : p ∈ own ∨ p ∈ shared) : (getLen p : Thr R ℕ).Within own shared σ := within_read hp _

theorem within_site (hp : p ∈ own ∨ p ∈ shared) (i : ℤ) : (getSite p i : Thr R _).Within own shared σ := within_read hp _

theorem within_l (hp : p ∈ own ∨ p ∈ shared) : (getL p : Thr R ℤ).Within own shared σ := within_read hp _

theorem within_r (hp : p ∈ own ∨ p ∈ shared) : (getR p : Thr R ℤ).Within own shared σ := within_read hp _

theorem within_shrink (hp : p ∈ own) (i : ℤ) : (shrink p i : Thr R Unit).Within own shared σ :=
  (within_l (.inl hp)).bind fun _ => Within.bind ⟨hp, trivial⟩ fun _ => (within_r (.inl hp)).bind fun _ => ⟨hp, trivial⟩

theorem within_update1 (hp : p ∈ own) (i : ℤ) (t : NDArray R) (c : Option Canon) :
    (update1 p i t c).Within own shared σ := by
  unfold update1
  refine (within_len (.inl hp)).bind fun n => (within_lift _).bind fun pos => Within.bind ⟨hp, trivial⟩ fun _ => ?_
  rcases c with _ | (_ | _)
  · exact within_shrink hp i
  · refine (within_l (.inl hp)).bind fun l => ?_
    split
    · exact (within_l (.inl hp)).bind fun _ => ⟨hp, trivial⟩
    · exact within_shrink hp i
  · refine (within_r (.inl hp)).bind fun l => ?_
    split
    · exact (within_r (.inl hp)).bind fun _ => ⟨hp, trivial⟩
    · exact within_shrink hp i

theorem within_updateLoop (hp : p ∈ own) : ∀ (ts : List (NDArray R)) (is : List ℤ) (c : Option (List (Option Canon))),
    (updateLoop p ts is c).Within own shared σ
  | [], is, c => by cases c <;> trivial
  | t :: ts, [], c => by cases c <;> trivial
  | t :: ts, i :: is, none => (within_update1 hp i t none).bind fun _ => within_updateLoop hp ts is none
  | t :: ts, i :: is, some [] => trivial
  | t :: ts, i :: is, some (c :: cs) => (within_update1 hp i t c).bind fun _ => within_updateLoop hp ts is (some cs)

theorem within_updateSlice (hp : p ∈ own) (a b c : Option ℤ) (ts : List (NDArray R)) (d : CanonArg) :
    (updateSlice p a b c ts d).Within own shared σ :=
  (within_len (.inl hp)).bind fun _ => (within_lift _).bind fun _ => (within_site (.inl hp) _).bind fun _ =>
    (within_lift _).bind fun _ => (within_lift _).bind fun _ => (within_lift _).bind fun _ =>
      (within_site (.inl hp) _).bind fun _ => (within_lift _).bind fun _ => within_updateLoop hp _ _ _

theorem within_updateInt (hp : p ∈ own) (i : ℤ) (t : NDArray R) (c : Option Canon) :
    (updateInt p i t c).Within own shared σ :=
  (within_site (.inl hp) _).bind fun _ => (within_lift _).bind fun _ => (within_lift _).bind fun _ =>
    (within_lift _).bind fun _ => within_update1 hp _ _ _

theorem within_forEach {f : α → Thr R Unit} (hf : ∀ a, (f a).Within own shared σ) : ∀ l : List α,
    (forEach f l).Within own shared σ
  | [] => trivial
  | a :: l => (hf a).bind fun _ => within_forEach hf l

section canon
variable [AddCommMonoid R] [Mul R]

theorem within_rcanonStep (hp : p ∈ own) (qr : QR R) (i : ℤ) : (rcanonStep qr p i).Within own shared σ :=
  (within_site (.inl hp) _).bind fun _ => (within_lift _).bind fun _ => (within_site (.inl hp) _).bind fun _ =>
    (within_lift _).bind fun _ => (within_lift _).bind fun _ => within_updateSlice hp _ _ _ _ _

theorem within_lcanonStep (hp : p ∈ own) (qr : QR R) (i : ℤ) : (lcanonStep qr p i).Within own shared σ :=
  (within_site (.inl hp) _).bind fun _ => (within_lift _).bind fun _ => (within_site (.inl hp) _).bind fun _ =>
    (within_lift _).bind fun _ => (within_lift _).bind fun _ => within_updateSlice hp _ _ _ _ _

theorem within_rcanonicalize (hp : p ∈ own) (qr : QR R) (i : ℤ) : (rcanonicalize qr p i).Within own shared σ :=
  (within_len (.inl hp)).bind fun _ => (within_lift _).bind fun _ => (within_l (.inl hp)).bind fun _ =>
    (within_r (.inl hp)).bind fun _ => within_forEach (fun _ => within_rcanonStep hp qr _) _

theorem within_lcanonicalize (hp : p ∈ own) (qr : QR R) (i : ℤ) : (lcanonicalize qr p i).Within own shared σ :=
  (within_len (.inl hp)).bind fun _ => (within_lift _).bind fun _ => (within_l (.inl hp)).bind fun _ =>
    (within_r (.inl hp)).bind fun _ => within_forEach (fun _ => within_lcanonStep hp qr _) _

theorem within_canonicalize (hp : p ∈ own) (qr : QR R) (left right : CArg) :
    (canonicalize qr p left right).Within own shared σ := by
  unfold canonicalize
  refine (within_l (.inl hp)).bind fun l => (within_r (.inl hp)).bind fun r => (within_len (.inl hp)).bind fun n => ?_
  split
  · split
    · exact within_lcanonicalize hp qr _
    · exact within_rcanonicalize hp qr _
  · refine (within_lift _).bind fun _ => (within_lift _).bind fun _ => (within_lift _).bind fun _ => ?_
    refine Within.bind ?_ fun _ => ?_
    · split <;> rename_i h1 <;> split <;> first | exact within_rcanonicalize hp qr _ | trivial
    · split <;> rename_i h1 <;> split <;> first | exact within_lcanonicalize hp qr _ | trivial

end canon

theorem within_imul [Mul R] (hp : p ∈ own) (fact : R) : (imul p fact).Within own shared σ :=
  (within_l (.inl hp)).bind fun _ => (within_r (.inl hp)).bind fun _ => (within_site (.inl hp) _).bind fun _ =>
    within_updateInt hp _ _ _

theorem within_getSites (hp : p ∈ own ∨ p ∈ shared) : ∀ m i : ℕ, (getSites p i m : Thr R _).Within own shared σ
  | 0, _ => trivial
  | m + 1, _ => (within_site hp _).bind fun _ => (within_getSites hp m _).bind fun _ => trivial

theorem within_snapshot (hp : p ∈ own ∨ p ∈ shared) : (snapshot p : Thr R _).Within own shared σ :=
  (within_len hp).bind fun _ => (within_getSites hp _ _).bind fun _ => (within_l hp).bind fun _ =>
    (within_r hp).bind fun _ => trivial

theorem within_normRest {𝕜 : Type} [RCLike 𝕜] {σ : Heap 𝕜} (hp : p ∈ own ∨ p ∈ shared) :
    (normRest p : Thr 𝕜 ℝ).Within own shared σ := by
  unfold normRest
  refine (within_l hp).bind fun l => (within_r hp).bind fun r => (within_len hp).bind fun n => ?_
  split
  · exact (within_site hp _).bind fun _ => trivial
  · split
    · exact (within_site hp _).bind fun _ => trivial
    · trivial

theorem within_norm {𝕜 : Type} [RCLike 𝕜] {σ : Heap 𝕜} (hp : p ∈ own) (qr : QR 𝕜) : (norm qr p).Within own shared σ :=
  (within_canonicalize hp qr _ _).bind fun _ => within_normRest (.inl hp)

/-! ### Calls on shared objects that find nothing to do -/

section settled
variable {𝕜 : Type} [RCLike 𝕜] {σ : Heap 𝕜}

theorem shared_l {f : ℤ → Thr 𝕜 β} (hp : p ∈ shared) (h : (f (σ p).l).Within own shared σ) :
    (getL p >>= f).Within own shared σ := .inr ⟨hp, h⟩

theorem shared_r {f : ℤ → Thr 𝕜 β} (hp : p ∈ shared) (h : (f (σ p).r).Within own shared σ) :
    (getR p >>= f).Within own shared σ := .inr ⟨hp, h⟩

theorem shared_len {f : ℕ → Thr 𝕜 β} (hp : p ∈ shared) (h : (f (σ p).len).Within own shared σ) :
    (getLen p >>= f).Within own shared σ := .inr ⟨hp, h⟩

theorem pyRange_empty_up {a b : ℤ} (h : b ≤ a) : pyRange a b 1 = [] := by
  unfold pyRange
  simp
  omega

theorem pyRange_empty_down {a b : ℤ} (h : a ≤ b) : pyRange a b (-1) = [] := by
  unfold pyRange
  simp
  omega

theorem settled_rcanonicalize (hp : p ∈ shared) (qr : QR 𝕜) {i : ℤ} (h : i ≤ (σ p).l) :
    (rcanonicalize qr p i).Within own shared σ := by
  unfold rcanonicalize
  refine shared_len hp ((within_lift _).bind fun _ => shared_l hp (shared_r hp ?_))
  rw [pyRange_empty_up h]
  trivial

theorem settled_lcanonicalize (hp : p ∈ shared) (qr : QR 𝕜) {i : ℤ} (h : (σ p).r ≤ i) :
    (lcanonicalize qr p i).Within own shared σ := by
  unfold lcanonicalize
  refine shared_len hp ((within_lift _).bind fun _ => shared_l hp (shared_r hp ?_))
  rw [pyRange_empty_down (by omega)]
  trivial

theorem settled_canonicalize (hp : p ∈ shared) (qr : QR 𝕜) {left right : CArg} (hs : Prog.Settled (σ p) left right) :
    (canonicalize qr p left right).Within own shared σ := by
  unfold canonicalize
  refine shared_l hp (shared_r hp (shared_len hp ?_))
  unfold Prog.Settled at hs
  split
  · rename_i hn
    rw [if_pos (by simpa using hn)] at hs
    split
    · rename_i hlt
      refine settled_lcanonicalize hp qr ?_
      rcases hs with h | h <;> omega
    · rename_i hlt
      refine settled_rcanonicalize hp qr ?_
      rcases hs with h | h <;> omega
  · rename_i hn
    rw [if_neg (by simpa using hn)] at hs
    simp only
    refine (within_lift _).bind fun _ => (within_lift _).bind fun _ => (within_lift _).bind fun _ => ?_
    rw [if_neg (by omega), if_neg (by omega)]
    trivial

theorem settled_norm (hp : p ∈ shared) (qr : QR 𝕜) (hs : Prog.Settled (σ p) .none .none) :
    (norm qr p).Within own shared σ :=
  (settled_canonicalize hp qr hs).bind fun _ => within_normRest (.inr hp)

/-- A method that only reads, on a shared object. -/
theorem shared_getSites (hp : p ∈ shared) : ∀ (m i : ℕ) (f : List (NDArray 𝕜) → Thr 𝕜 β), i + m = (σ p).lt.length →
    (f ((σ p).lt.drop i)).Within own shared σ → (getSites p i m >>= f : Thr 𝕜 β).Within own shared σ
  | 0, i, f, hi, h => by
    rw [List.drop_of_length_le (by omega)] at h
    exact h
  | m + 1, i, f, hi, h => by
    have hlt : i < (σ p).lt.length := by omega
    have hs : (σ p).site (i : ℤ) = .ok (σ p).lt[i] := by
      unfold MPA.site
      have : pyIndex (σ p).len (i : ℤ) = .ok i := by
        unfold pyIndex MPA.len
        simp [hlt]
      rw [this, ok_bind]
      simp [List.getElem?_eq_getElem hlt]
    refine .inr ⟨hp, ?_⟩
    show (((done ((σ p).site (i : ℤ))).andThen fun t => (getSites p (i + 1) m).andThen fun ts => done (.ok (t :: ts))).andThen
      f).Within own shared σ
    rw [hs]
    have h1 := shared_getSites hp m (i + 1) (fun ts => f ((σ p).lt[i] :: ts)) (by omega) (by
      rw [List.drop_eq_getElem_cons hlt] at h
      exact h)
    have e : ∀ t : Thr 𝕜 (List (NDArray 𝕜)), ((t.andThen fun ts => done (.ok ((σ p).lt[i] :: ts))).andThen f)
        = t.andThen fun ts => f ((σ p).lt[i] :: ts) := by
      intro t
      induction t with
      | done v => cases v <;> rfl
      | read p k ih => simp only [andThen]; congr 1; funext x; exact ih x
      | write p g k ih => simp only [andThen]; congr 1
    show (((getSites p (i + 1) m).andThen fun ts => done (.ok ((σ p).lt[i] :: ts))).andThen f).Within own shared σ
    rw [e]
    exact h1

theorem andThen_assoc {γ : Type} (t : Thr R α) (f : α → Thr R β) (g : β → Thr R γ) :
    (t.andThen f).andThen g = t.andThen fun a => (f a).andThen g := by
  induction t with
  | done v => cases v <;> rfl
  | read p k ih => simp only [andThen]; congr 1; funext x; exact ih x
  | write p g k ih => simp only [andThen]; congr 1

theorem shared_snapshot {f : MPA 𝕜 → Thr 𝕜 β} (hp : p ∈ shared) (h : (f (σ p)).Within own shared σ) :
    (snapshot p >>= f).Within own shared σ := by
  show (andThen (andThen _ _) _).Within own shared σ
  rw [andThen_assoc]
  refine shared_len hp ?_
  show (andThen (andThen _ _) _).Within own shared σ
  rw [andThen_assoc]
  refine shared_getSites hp _ _ _ (by simp [MPA.len]) ?_
  exact .inr ⟨hp, .inr ⟨hp, h⟩⟩

end settled

section compress
variable {𝕜 : Type} [RCLike 𝕜] {σ : Heap 𝕜}

theorem within_svdStepR (hp : p ∈ own) (svd : SVD 𝕜) (f : SVDFunc 𝕜) (rank : ℤ) (relerr : Option ℝ) (i : ℤ) :
    (svdStepR svd f rank relerr p i).Within own shared σ :=
  (within_site (.inl hp) _).bind fun _ => (within_lift _).bind fun _ => (within_lift _).bind fun _ =>
    (within_lift _).bind fun _ => (within_site (.inl hp) _).bind fun _ => (within_lift _).bind fun _ =>
      within_updateSlice hp _ _ _ _ _

theorem within_svdStepL (hp : p ∈ own) (svd : SVD 𝕜) (f : SVDFunc 𝕜) (rank : ℤ) (relerr : Option ℝ) (i : ℤ) :
    (svdStepL svd f rank relerr p i).Within own shared σ :=
  (within_site (.inl hp) _).bind fun _ => (within_lift _).bind fun _ => (within_site (.inl hp) _).bind fun _ =>
    (within_lift _).bind fun _ => (within_lift _).bind fun _ => (within_lift _).bind fun _ =>
      within_updateSlice hp _ _ _ _ _

theorem within_compressSvdR (hp : p ∈ own) (svd : SVD 𝕜) (f : SVDFunc 𝕜) (rank : ℤ) (relerr : Option ℝ) :
    (compressSvdR svd f rank relerr p).Within own shared σ :=
  (within_lift _).bind fun _ => (within_len (.inl hp)).bind fun _ =>
    (within_forEach (fun _ => within_svdStepR hp svd f rank relerr _) _).bind fun _ =>
      (within_site (.inl hp) _).bind fun _ => trivial

theorem within_compressSvdL (hp : p ∈ own) (svd : SVD 𝕜) (f : SVDFunc 𝕜) (rank : ℤ) (relerr : Option ℝ) :
    (compressSvdL svd f rank relerr p).Within own shared σ :=
  (within_lift _).bind fun _ => (within_len (.inl hp)).bind fun _ =>
    (within_forEach (fun _ => within_svdStepL hp svd f rank relerr _) _).bind fun _ =>
      (within_site (.inl hp) _).bind fun _ => trivial

theorem within_compressSvd (hp : p ∈ own) (qr : QR 𝕜) (svd : SVD 𝕜) (f : SVDFunc 𝕜) (rank : Option ℤ) (relerr : Option ℝ)
    (direction : Option Dir) (canon : Bool) : (compressSvd qr svd f p rank relerr direction canon).Within own shared σ := by
  unfold compressSvd
  refine (within_len (.inl hp)).bind fun n => ?_
  split
  · exact (within_norm hp qr).bind fun _ => trivial
  · refine (within_l (.inl hp)).bind fun l => (within_r (.inl hp)).bind fun r => (within_len (.inl hp)).bind fun n => ?_
    have key : ∀ (d : Dir) (rank : ℤ), (match d with
        | .right => (if canon then canonicalize qr p .none (.int 1) else pure ()) >>= fun _ =>
          compressSvdR svd f rank relerr p
        | .left => (if canon then getLen p >>= fun n => canonicalize qr p (.int (n - 1)) .none else pure ()) >>= fun _ =>
          compressSvdL svd f rank relerr p
        | .other => lift (.error .value) : Thr 𝕜 ℝ).Within own shared σ := by
      intro d rank
      cases d with
      | other => trivial
      | right =>
        refine Within.bind ?_ fun _ => within_compressSvdR hp _ _ _ _
        cases canon with
        | true => exact within_canonicalize hp qr _ _
        | false => trivial
      | left =>
        refine Within.bind ?_ fun _ => within_compressSvdL hp _ _ _ _
        cases canon with
        | true => exact (within_len (.inl hp)).bind fun _ => within_canonicalize hp qr _ _
        | false => trivial
    cases rank with
    | some r => exact key _ _
    | none => exact Within.bind (within_read (.inl hp) _) fun _ => key _ _

end compress

/-! ### Runs of a thread while other objects change -/

/-- Number of steps a thread makes when it runs alone. -/
def steps : Thr R α → Heap R → ℕ
  | done _, _ => 0
  | read p k, h => (k (h p)).steps h + 1
  | write p f k, h => k.steps (Function.update h p (f (h p))) + 1

/-- Outcome and number of steps depend only on the objects that the thread may access. -/
theorem run_congr (hd : Disjoint own shared) : ∀ (t : Thr R α) (h h' : Heap R), t.Within own shared σ →
    (∀ p, p ∈ own ∨ p ∈ shared → h p = h' p) → (∀ p ∈ shared, h p = σ p) →
    (t.run h).1 = (t.run h').1 ∧ (∀ p, p ∈ own ∨ p ∈ shared → (t.run h).2 p = (t.run h').2 p) ∧
      t.steps h = t.steps h' := by
  intro t
  induction t with
  | done v => exact fun h h' _ he _ => ⟨rfl, he, rfl⟩
  | read p k ih =>
    intro h h' hw he hσ
    have e : h p = h' p := he p (hw.elim (fun h => .inl h.1) fun h => .inr h.1)
    have hk : (k (h p)).Within own shared σ := hw.elim (fun g => g.2 _) fun g => by rw [hσ p g.1]; exact g.2
    obtain ⟨i1, i2, i3⟩ := ih (h p) h h' hk he hσ
    rw [e] at i1 i2 i3
    simp only [run, steps, e]
    exact ⟨i1, i2, by rw [i3]⟩
  | write p f k ih =>
    intro h h' hw he hσ
    have e : h p = h' p := he p (.inl hw.1)
    obtain ⟨i1, i2, i3⟩ := ih (Function.update h p (f (h p))) (Function.update h' p (f (h' p))) hw.2 (by
      intro q hq
      by_cases hqp : q = p
      · subst hqp; simp [e]
      · simp [hqp, he q hq]) (by
      intro q hq
      have hqp : q ≠ p := fun e => Set.disjoint_left.mp hd hw.1 (e ▸ hq)
      simp [hqp, hσ q hq])
    exact ⟨i1, i2, by simp only [steps]; rw [i3]⟩

/-- A step of the thread. -/
theorem step_run (t : Thr R α) (h : Heap R) : (t.step h).1.run (t.step h).2 = t.run h := by
  cases t <;> rfl

theorem step_steps (t : Thr R α) (h : Heap R) : (t.step h).1.steps (t.step h).2 = t.steps h - 1 := by
  cases t <;> rfl

theorem step_within (t : Thr R α) (h : Heap R) (hw : t.Within own shared σ) (hσ : ∀ p ∈ shared, h p = σ p) :
    (t.step h).1.Within own shared σ ∧ ∀ p, p ∉ own → (t.step h).2 p = h p := by
  cases t with
  | done v => exact ⟨trivial, fun _ _ => rfl⟩
  | read p k =>
    refine ⟨?_, fun _ _ => rfl⟩
    show (k (h p)).Within own shared σ
    rcases hw with hw | hw
    · exact hw.2 _
    · rw [hσ p hw.1]; exact hw.2
  | write p f k =>
    refine ⟨hw.2, fun q hq => ?_⟩
    have : q ≠ p := fun e => hq (e ▸ hw.1)
    simp [step, this]

theorem steps_zero {t : Thr R α} {h : Heap R} (hs : t.steps h = 0) : ∃ v, t = done v := by
  cases t with
  | done v => exact ⟨v, rfl⟩
  | read p k => simp [steps] at hs
  | write p f k => simp [steps] at hs

end Thr

theorem Prog.within {𝕜 α : Type} [RCLike 𝕜] (la : Routines 𝕜) {own shared : Set ℕ} {σ : Heap 𝕜} (g : Prog 𝕜 α)
    (hg : g.Respects own shared σ) : (g.thr la).Within own shared σ := by
  induction g with
  | ret v => trivial
  | look p k ih =>
    rcases hg with hg | hg
    · exact (Thr.within_snapshot (.inl hg.1)).bind fun x => ih x (hg.2 x)
    · exact Thr.shared_snapshot hg.1 (ih _ hg.2)
  | new p x k ih => exact ⟨hg.1, ih hg.2⟩
  | canonicalize p left right k ih =>
    refine Thr.Within.bind ?_ fun _ => ih hg.2
    exact hg.1.elim (fun h => Thr.within_canonicalize h la.qr _ _) fun h => Thr.settled_canonicalize h.1 la.qr h.2
  | norm p k ih =>
    refine Thr.Within.bind ?_ fun v => ih v (hg.2 v)
    exact hg.1.elim (fun h => Thr.within_norm h la.qr) fun h => Thr.settled_norm h.1 la.qr h.2
  | compress p _ _ _ _ k ih => exact (Thr.within_compressSvd hg.1 _ _ _ _ _ _ _).bind fun v => ih v (hg.2 v)
  | imul p fact k ih => exact (Thr.within_imul hg.1 fact).bind fun _ => ih hg.2
  | assign p index t k ih => exact (Thr.within_updateInt hg.1 _ _ _).bind fun _ => ih hg.2
  | update p start stop step ts c k ih => exact (Thr.within_updateSlice hg.1 _ _ _ _ _).bind fun _ => ih hg.2

section sched
variable {R ι α : Type} [DecidableEq ι]

/-- What holds after any schedule of threads that are separated from each other. -/
structure Separated (own : ι → Set ℕ) (shared : Set ℕ) (w w' : World R ι α) (cnt : ι → ℕ) : Prop where
  within : ∀ i, (w'.thr i).Within (own i) shared w.heap
  out : ∀ i, ((w'.thr i).run w'.heap).1 = ((w.thr i).run w.heap).1
  obj : ∀ i p, p ∈ own i ∨ p ∈ shared → ((w'.thr i).run w'.heap).2 p = ((w.thr i).run w.heap).2 p
  steps : ∀ i, (w'.thr i).steps w'.heap = (w.thr i).steps w.heap - cnt i
  rest : ∀ p, (∀ i, p ∉ own i) → w'.heap p = w.heap p

theorem separated_exec {own : ι → Set ℕ} {shared : Set ℕ} (hown : ∀ i j, i ≠ j → Disjoint (own i) (own j))
    (hsh : ∀ i, Disjoint (own i) shared) (w : World R ι α) (hw : ∀ i, (w.thr i).Within (own i) shared w.heap) (sched : List ι) :
    Separated own shared w (w.exec sched) (fun i => sched.count i) := by
  induction sched using List.reverseRecOn with
  | nil => exact ⟨hw, fun _ => rfl, fun _ _ _ => rfl, fun _ => rfl, fun _ _ => rfl⟩
  | append_singleton l j ih =>
    have he : w.exec (l ++ [j]) = (w.exec l).step j := by simp [World.exec, List.foldl_append]
    rw [he]
    generalize w.exec l = v at ih
    have hσ : ∀ p ∈ shared, v.heap p = w.heap p := fun p hp => ih.rest p fun i hi => Set.disjoint_left.mp (hsh i) hi hp
    obtain ⟨g1, g2⟩ := Thr.step_within (v.thr j) v.heap (ih.within j) hσ
    have other : ∀ i, i ≠ j → ∀ p, p ∈ own i ∨ p ∈ shared → (v.step j).heap p = v.heap p := by
      intro i hij p hp
      refine g2 p fun hj => ?_
      rcases hp with hp | hp
      · exact Set.disjoint_left.mp (hown i j hij) hp hj
      · exact Set.disjoint_left.mp (hsh j) hj hp
    have same : (v.step j).thr j = ((v.thr j).step v.heap).1 := by simp [World.step]
    have diff : ∀ i, i ≠ j → (v.step j).thr i = v.thr i := fun i hi => by simp [World.step, hi]
    have hheap : (v.step j).heap = ((v.thr j).step v.heap).2 := rfl
    refine ⟨fun i => ?_, fun i => ?_, fun i p hp => ?_, fun i => ?_, fun p hp => ?_⟩
    · by_cases hi : i = j
      · subst hi; rw [same]; exact g1
      · rw [diff i hi]; exact ih.within i
    · by_cases hi : i = j
      · subst hi; rw [same, hheap, Thr.step_run]; exact ih.out i
      · rw [diff i hi, (Thr.run_congr (hsh i) _ _ _ (ih.within i) (other i hi) fun p hp => (other i hi p (.inr hp)).trans (hσ p hp)).1]; exact ih.out i
    · by_cases hi : i = j
      · subst hi; rw [same, hheap, Thr.step_run]; exact ih.obj i p hp
      · rw [diff i hi, (Thr.run_congr (hsh i) _ _ _ (ih.within i) (other i hi) fun p hp => (other i hi p (.inr hp)).trans (hσ p hp)).2.1 p hp]; exact ih.obj i p hp
    · by_cases hi : i = j
      · subst hi
        rw [same, hheap, Thr.step_steps, ih.steps i]
        simp
        omega
      · rw [diff i hi, (Thr.run_congr (hsh i) _ _ _ (ih.within i) (other i hi) fun p hp => (other i hi p (.inr hp)).trans (hσ p hp)).2.2, ih.steps i]
        simp [List.count_append, List.count_singleton, Ne.symm hi]
    · rw [← ih.rest p hp]
      exact g2 p (hp j)

end sched

/-- The threads before their first step. -/
noncomputable def startThreads {𝕜 ι α : Type} [RCLike 𝕜] (la : Routines 𝕜) (g : ι → Prog 𝕜 α) (h : Heap 𝕜) : World 𝕜 ι α :=
  ⟨fun i => (g i).thr la, h⟩

section main
variable {𝕜 ι α : Type} [RCLike 𝕜] [DecidableEq ι]

/-- C86: any number of threads, each of which changes only objects of its own (by `canonicalize`, `norm`, `compress`,
`*=`, `lt[i] = t`, `lt.update`, or by creating them) and otherwise only looks at shared objects, or calls `norm` or `canonicalize` on shared objects that
have the canonical form already, after any schedule: a thread that has ended has the outcome
that its program has alone, a result or an exception; if it has a result, its objects are as after the program alone; and
all other objects are as they were. -/
theorem C86_separate (la : Routines 𝕜) (g : ι → Prog 𝕜 α) (own : ι → Set ℕ) (shared : Set ℕ)
    (hown : ∀ i j, i ≠ j → Disjoint (own i) (own j)) (hsh : ∀ i, Disjoint (own i) shared)
    (h : Heap 𝕜) (hg : ∀ i, (g i).Respects (own i) shared h) (sched : List ι) :
    let w := (startThreads la g h).exec sched
    (∀ i v, w.thr i = .done v →
      (∀ a h', (g i).seq la h = .ok (a, h') → v = .ok a ∧ ∀ p ∈ own i, w.heap p = h' p) ∧
      (∀ e, (g i).seq la h = .error e → v = .error e)) ∧
    (∀ p, (∀ i, p ∉ own i) → w.heap p = h p) := by
  intro w
  have hs := separated_exec hown hsh (startThreads la g h) (fun i => (g i).within la (hg i)) sched
  refine ⟨fun i v hv => ?_, hs.rest⟩
  have e1 := hs.out i
  have e2 := hs.obj i
  have hv' : ((startThreads la g h).exec sched).thr i = .done v := hv
  rw [hv'] at e1 e2
  have hr := Prog.run_eq la (g i) h
  constructor
  · intro a h' hok
    rw [hok] at hr
    have hr' : ((startThreads la g h).thr i).run (startThreads la g h).heap = (.ok a, h') := hr
    rw [hr'] at e1 e2
    exact ⟨e1, fun p hp => e2 p (.inl hp)⟩
  · intro e hok
    rw [hok] at hr
    exact e1.trans hr

/-- C86: no thread waits for another one: there is a number of steps after which a thread has ended, whatever the other
threads do in between. -/
theorem C86_progress (la : Routines 𝕜) (g : ι → Prog 𝕜 α) (own : ι → Set ℕ) (shared : Set ℕ)
    (hown : ∀ i j, i ≠ j → Disjoint (own i) (own j)) (hsh : ∀ i, Disjoint (own i) shared)
    (h : Heap 𝕜) (hg : ∀ i, (g i).Respects (own i) shared h) (i : ι) :
    ∃ n, ∀ sched : List ι, n ≤ sched.count i → ∃ v, ((startThreads la g h).exec sched).thr i = .done v := by
  refine ⟨((startThreads la g h).thr i).steps (startThreads la g h).heap, fun sched hn => ?_⟩
  have hs := separated_exec hown hsh (startThreads la g h) (fun i => (g i).within la (hg i)) sched
  exact Thr.steps_zero ((hs.steps i).trans (by omega))

end main

end Mpnum
