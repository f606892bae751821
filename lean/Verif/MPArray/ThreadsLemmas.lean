import Verif.MPArray.Threads

/-! # Threads that run alone do what the functions on values say (proofs) -/

namespace Mpnum

namespace Thr

variable {R α β : Type}

theorem run_bind (t : Thr R α) (f : α → Thr R β) (h : Heap R) :
    (t >>= f).run h = match t.run h with
      | (.ok a, h') => (f a).run h'
      | (.error e, h') => (.error e, h') := by
  show (t.andThen f).run h = _
  induction t generalizing h with
  | done v => cases v <;> rfl
  | read p k ih => exact ih (h p) h
  | write p g k ih => exact ih _

/-- The thread alone ends like the function on the value of the object at `p`, and changes no other object. -/
def Runs (p : ℕ) (t : Thr R α) (h : Heap R) (m : Py (α × MPA R)) : Prop :=
  match m with
  | .ok (a, y) => t.run h = (.ok a, Function.update h p y)
  | .error e => (t.run h).1 = .error e

variable {p : ℕ} {h : Heap R}

theorem Runs.pure (a : α) : Runs p (Pure.pure a : Thr R α) h (.ok (a, h p)) := by
  show ((done (.ok a) : Thr R α).run h) = _
  rw [Function.update_eq_self]
  rfl

theorem Runs.bind {t : Thr R α} {f : α → Thr R β} {m : Py (α × MPA R)} {g : α × MPA R → Py (β × MPA R)}
    (h1 : Runs p t h m) (h2 : ∀ a y, m = .ok (a, y) → Runs p (f a) (Function.update h p y) (g (a, y))) :
    Runs p (t >>= f) h (m >>= g) := by
  cases m with
  | error e =>
    have h1' : (t.run h).1 = .error e := h1
    show ((t >>= f).run h).1 = .error e
    rw [run_bind]
    generalize t.run h = q at h1'
    obtain ⟨v, h'⟩ := q
    simp only at h1'
    subst h1'
    rfl
  | ok q =>
    obtain ⟨a, y⟩ := q
    have h1' : t.run h = (.ok a, Function.update h p y) := h1
    have h3 := h2 a y rfl
    show Runs p (t >>= f) h (g (a, y))
    unfold Runs at h3 ⊢
    rw [run_bind, h1']
    simp only
    cases hg : g (a, y) with
    | error e => rw [hg] at h3; exact h3
    | ok q =>
      rw [hg] at h3
      obtain ⟨b, z⟩ := q
      simp only at h3 ⊢
      rw [h3, Function.update_idem]

theorem Runs.lift {v : Py α} {f : α → Thr R β} {g : α → Py (β × MPA R)} (h2 : ∀ a, v = .ok a → Runs p (f a) h (g a)) :
    Runs p (Thr.lift v >>= f) h (v >>= g) := by
  cases v with
  | error e => rfl
  | ok a => exact h2 a rfl

/-- The end of a thread without result. -/
theorem Runs.lift_end {v : Py α} {f : α → Thr R β} {e : PyErr} (hv : v = .error e) {m : Py (β × MPA R)}
    (hm : m = .error e) : Runs p (Thr.lift v >>= f) h m := by
  subst hm hv; rfl

theorem Runs.site {i : ℤ} {f : NDArray R → Thr R β} {g : NDArray R → Py (β × MPA R)} {x : MPA R} (hx : h p = x)
    (h2 : ∀ a, x.site i = .ok a → Runs p (f a) h (g a)) : Runs p (getSite p i >>= f) h (x.site i >>= g) := by
  subst hx
  exact Runs.lift h2

theorem Runs.len {f : ℕ → Thr R β} {m : Py (β × MPA R)} (h2 : Runs p (f (h p).len) h m) :
    Runs p (getLen p >>= f) h m := h2

theorem Runs.l {f : ℤ → Thr R β} {m : Py (β × MPA R)} (h2 : Runs p (f (h p).l) h m) : Runs p (getL p >>= f) h m := h2

theorem Runs.r {f : ℤ → Thr R β} {m : Py (β × MPA R)} (h2 : Runs p (f (h p).r) h m) : Runs p (getR p >>= f) h m := h2

theorem Runs.set {f : Unit → Thr R β} {m : Py (β × MPA R)} {g : MPA R → MPA R}
    (h2 : Runs p (f ()) (Function.update h p (g (h p))) m) : Runs p (write p g (done (.ok ())) >>= f) h m := by
  have hr : (write p g (done (.ok ())) >>= f).run h = (f ()).run (Function.update h p (g (h p))) := rfl
  unfold Runs at h2 ⊢
  rw [hr]
  cases m with
  | error e => exact h2
  | ok q => simp only at h2 ⊢; rw [h2, Function.update_idem]

/-- A method without result. -/
abbrev RunsU (p : ℕ) (t : Thr R Unit) (h : Heap R) (m : Py (MPA R)) : Prop := Runs p t h (m.map fun y => ((), y))

theorem set_ends (g : MPA R → MPA R) : RunsU p (write p g (done (.ok ()))) h (.ok (g (h p))) := rfl

theorem RunsU.pure {x : MPA R} (hx : h p = x) : RunsU p (Pure.pure ()) h (.ok x) := by
  subst hx; exact Runs.pure ()

theorem map_bind {γ : Type} (m : Py α) (g : α → Py β) (k : β → γ) :
    (m >>= g).map k = (m >>= fun a => (g a).map k) := by
  cases m <;> rfl

theorem bind_map {γ : Type} (m : Py α) (g : β → Py γ) (k : α → β) : ((m.map k) >>= g) = (m >>= fun a => g (k a)) := by
  cases m <;> rfl

/-- Two methods one after the other. -/
theorem RunsU.bind {t : Thr R Unit} {f : Unit → Thr R β} {m : Py (MPA R)} {g : MPA R → Py (β × MPA R)}
    (h1 : RunsU p t h m) (h2 : ∀ y, m = .ok y → Runs p (f ()) (Function.update h p y) (g y)) :
    Runs p (t >>= f) h (m >>= g) := by
  have := Runs.bind (g := fun q => g q.2) (f := f) h1 (fun a y hy => by
    cases m with
    | error e => cases hy
    | ok z => cases hy; exact h2 _ rfl)
  rwa [bind_map] at this

theorem shrink_runs (index : ℤ) {x : MPA R} (hx : h p = x) :
    RunsU p (shrink p index) h (.ok ⟨x.lt, min index x.l, max (index + 1) x.r⟩) := by
  subst hx
  refine Runs.l (Runs.set (Runs.r ?_))
  have := set_ends (p := p) (h := Function.update h p (⟨(h p).lt, min index (h p).l, (h p).r⟩ : MPA R))
    (fun x => ⟨x.lt, x.l, max (index + 1) (h p).r⟩)
  simp only [Function.update_self] at this ⊢
  exact this

theorem update1_runs (index : ℤ) (t : NDArray R) (c : Option Canon) {x : MPA R} (hx : h p = x) :
    RunsU p (update1 p index t c) h (x.update1 index t c) := by
  subst hx
  unfold update1 MPA.update1 RunsU
  refine Runs.len ?_
  rw [map_bind]
  refine Runs.lift fun pos hpos => ?_
  refine Runs.set ?_
  set h' := Function.update h p (⟨(h p).lt.set pos t, (h p).l, (h p).r⟩ : MPA R) with hh'
  have hp : h' p = ⟨(h p).lt.set pos t, (h p).l, (h p).r⟩ := by rw [hh', Function.update_self]
  have hs := shrink_runs index hp
  rcases c with _ | (_ | _)
  · rw [if_neg (by simp), if_neg (by simp)]
    exact hs
  · refine Runs.l ?_
    rw [hp]
    simp only [true_and, reduceCtorEq, false_and, if_false, Option.some.injEq]
    split
    · refine Runs.l ?_
      have := set_ends (p := p) (h := h') (fun x => ⟨x.lt, max (index + 1) (h p).l, x.r⟩)
      simp only [hp] at this ⊢
      exact this
    · exact hs
  · refine Runs.r ?_
    rw [hp]
    simp only [true_and, reduceCtorEq, false_and, if_false, Option.some.injEq]
    split
    · refine Runs.r ?_
      have := set_ends (p := p) (h := h') (fun x => ⟨x.lt, x.l, min index (h p).r⟩)
      simp only [hp] at this ⊢
      exact this
    · exact hs

theorem updateLoop_runs : ∀ (ts : List (NDArray R)) (is : List ℤ) (c : Option (List (Option Canon))) (h : Heap R) (x : MPA R),
    h p = x → RunsU p (updateLoop p ts is c) h (x.updateLoop ts is c)
  | [], is, c, h, x, hx => by
    cases c <;> exact RunsU.pure hx
  | t :: ts, [], c, h, x, hx => by
    cases c <;> exact RunsU.pure hx
  | t :: ts, i :: is, none, h, x, hx => by
    unfold updateLoop MPA.updateLoop RunsU
    rw [map_bind]
    exact RunsU.bind (update1_runs i t none hx) fun y _ => updateLoop_runs ts is none _ y (Function.update_self ..)
  | t :: ts, i :: is, some [], h, x, hx => RunsU.pure hx
  | t :: ts, i :: is, some (c :: cs), h, x, hx => by
    unfold updateLoop MPA.updateLoop RunsU
    rw [map_bind]
    exact RunsU.bind (update1_runs i t c hx) fun y _ => updateLoop_runs ts is (some cs) _ y (Function.update_self ..)

theorem site_eq {x : MPA R} {i : ℤ} {pos : ℕ} (hp : pyIndex x.len i = .ok pos) :
    ∃ t, x.site i = .ok t ∧ ∀ d, x.lt.getD pos d = t := by
  have hlt : pos < x.lt.length := by
    unfold pyIndex at hp
    split_ifs at hp <;> cases hp <;> (unfold MPA.len at *; omega)
  refine ⟨x.lt[pos], ?_, fun d => by simp [List.getD, hlt]⟩
  unfold MPA.site
  rw [hp, ok_bind]
  simp [List.getElem?_eq_getElem hlt]

theorem site_err {x : MPA R} {i : ℤ} {e : PyErr} (hp : pyIndex x.len i = .error e) : x.site i = .error e := by
  unfold MPA.site
  rw [hp]; rfl

/-- Reading the tensor at site `i`, where the function on values looks it up. -/
theorem Runs.site' {i : ℤ} {f : NDArray R → Thr R β} {x : MPA R} (hx : h p = x) {g : ℕ → Py (β × MPA R)}
    (h2 : ∀ pos, pyIndex x.len i = .ok pos → ∀ t, x.site i = .ok t → (∀ d, x.lt.getD pos d = t) → Runs p (f t) h (g pos)) :
    Runs p (getSite p i >>= f) h (pyIndex x.len i >>= g) := by
  subst hx
  have hr : Runs p (getSite p i >>= f) h (pyIndex (h p).len i >>= g)
      ↔ Runs p (Thr.lift ((h p).site i) >>= f) h (pyIndex (h p).len i >>= g) := Iff.rfl
  rw [hr]
  cases hp : pyIndex (h p).len i with
  | error e => exact Runs.lift_end (p := p) (site_err hp) rfl
  | ok pos =>
    obtain ⟨t, h3, h4⟩ := site_eq hp
    rw [h3]
    exact h2 pos hp t h3 h4

theorem updateSlice_runs (start stop step : Option ℤ) (ts : List (NDArray R)) (c : CanonArg) {x : MPA R} (hx : h p = x) :
    RunsU p (updateSlice p start stop step ts c) h (x.updateSlice start stop step ts c) := by
  unfold updateSlice MPA.updateSlice RunsU
  refine Runs.len ?_
  rw [hx, map_bind]
  refine Runs.lift fun q _ => ?_
  obtain ⟨s, e, st⟩ := q
  simp only [map_bind]
  refine Runs.site' hx fun ps _ t1 _ ht1 => ?_
  refine Runs.lift fun first _ => ?_
  rw [ht1]
  refine Runs.lift fun _ _ => Runs.lift fun _ _ => ?_
  refine Runs.site' hx fun pe _ t2 _ ht2 => ?_
  rw [ht2]
  refine Runs.lift fun _ _ => ?_
  exact updateLoop_runs _ _ _ _ _ hx

theorem updateInt_runs (index : ℤ) (t : NDArray R) {x : MPA R} (hx : h p = x) :
    RunsU p (updateInt p index t none) h (x.updateInt index t .none) := by
  unfold updateInt MPA.updateInt RunsU
  rw [map_bind]
  refine Runs.site' hx fun ps _ t1 _ ht1 => ?_
  simp only [map_bind, ht1]
  refine Runs.lift fun _ _ => Runs.lift fun _ _ => Runs.lift fun _ _ => ?_
  exact update1_runs index t none hx

theorem forEach_runs {f : α → Thr R Unit} {g : MPA R → α → Py (MPA R)}
    (hf : ∀ (h : Heap R) x a, h p = x → RunsU p (f a) h (g x a)) :
    ∀ (l : List α) (h : Heap R) (x : MPA R), h p = x → RunsU p (forEach f l) h (l.foldlM g x)
  | [], h, x, hx => RunsU.pure hx
  | a :: l, h, x, hx => by
    unfold forEach RunsU
    rw [List.foldlM_cons, map_bind]
    exact RunsU.bind (hf h x a hx) fun y _ => forEach_runs hf l _ y (Function.update_self ..)

section canon
variable [AddCommMonoid R] [Mul R]

theorem rcanonStep_runs (qr : QR R) (site : ℤ) {x : MPA R} (hx : h p = x) :
    RunsU p (rcanonStep qr p site) h (x.rcanonStep qr site) := by
  unfold rcanonStep MPA.rcanonStep RunsU
  rw [map_bind]
  refine Runs.site hx fun lt _ => ?_
  rw [map_bind]
  refine Runs.lift fun mat _ => ?_
  rcases qr mat with ⟨q, r⟩
  simp only [map_bind]
  refine Runs.site hx fun next _ => Runs.lift fun t1 _ => Runs.lift fun t2 _ => ?_
  exact updateSlice_runs _ _ _ _ _ hx

theorem lcanonStep_runs (qr : QR R) (site : ℤ) {x : MPA R} (hx : h p = x) :
    RunsU p (lcanonStep qr p site) h (x.lcanonStep qr site) := by
  unfold lcanonStep MPA.lcanonStep RunsU
  rw [map_bind]
  refine Runs.site hx fun lt _ => ?_
  rw [map_bind]
  refine Runs.lift fun mat _ => ?_
  rcases qr mat.T with ⟨q, r⟩
  simp only [map_bind]
  refine Runs.site hx fun prev _ => Runs.lift fun t1 _ => Runs.lift fun t2 _ => ?_
  exact updateSlice_runs _ _ _ _ _ hx

theorem rcanonicalize_runs (qr : QR R) (toSite : ℤ) {x : MPA R} (hx : h p = x) :
    RunsU p (rcanonicalize qr p toSite) h (x.rcanonicalize qr toSite) := by
  unfold rcanonicalize MPA.rcanonicalize RunsU
  refine Runs.len ?_
  rw [map_bind, hx]
  refine Runs.lift fun _ _ => Runs.l (Runs.r ?_)
  rw [hx]
  exact forEach_runs (fun h x a hx => rcanonStep_runs qr a hx) _ h x hx

theorem lcanonicalize_runs (qr : QR R) (toSite : ℤ) {x : MPA R} (hx : h p = x) :
    RunsU p (lcanonicalize qr p toSite) h (x.lcanonicalize qr toSite) := by
  unfold lcanonicalize MPA.lcanonicalize RunsU
  refine Runs.len ?_
  rw [map_bind, hx]
  refine Runs.lift fun _ _ => Runs.l (Runs.r ?_)
  rw [hx]
  exact forEach_runs (fun h x a hx => lcanonStep_runs qr a hx) _ h x hx

theorem canonicalize_runs (qr : QR R) (left right : CArg) {x : MPA R} (hx : h p = x) :
    RunsU p (canonicalize qr p left right) h (x.canonicalize qr left right) := by
  unfold canonicalize MPA.canonicalize RunsU
  refine Runs.l (Runs.r (Runs.len ?_))
  rw [hx]
  split
  · split
    · exact lcanonicalize_runs qr 1 hx
    · exact rcanonicalize_runs qr _ hx
  · simp only
    generalize (if CArg.left x.len left < 0 then CArg.left x.len left + (x.len : ℤ) else CArg.left x.len left) = tl
    generalize (if CArg.right x.len right < 0 then CArg.right x.len right + (x.len : ℤ) else CArg.right x.len right) = tr
    simp only [map_bind]
    refine Runs.lift fun _ _ => Runs.lift fun _ _ => Runs.lift fun _ _ => ?_
    have fin : ∀ y : MPA R, RunsU p (if x.r > tr then lcanonicalize qr p tr else pure ()) (Function.update h p y)
        (if x.r > tr then y.lcanonicalize qr tr else .ok y) := by
      intro y
      split
      · exact lcanonicalize_runs qr _ (Function.update_self ..)
      · exact RunsU.pure (Function.update_self ..)
    by_cases hl : x.l < tl
    · rw [if_pos hl, if_pos hl, map_bind]
      exact RunsU.bind (rcanonicalize_runs qr _ hx) fun y _ => fin y
    · rw [if_neg hl, if_neg hl, map_bind]
      exact RunsU.bind (RunsU.pure hx) fun y _ => fin y

end canon

theorem imul_runs [Mul R] (fact : R) {x : MPA R} (hx : h p = x) : RunsU p (imul p fact) h (x.imul fact) := by
  unfold imul MPA.imul RunsU
  refine Runs.l (Runs.r ?_)
  rw [hx, map_bind]
  refine Runs.site' hx fun pos hpos t ht h4 => ?_
  have h5 : (x.lt[pos]?).elim (Except.error PyErr.index) Except.ok = .ok t := by
    have := ht
    unfold MPA.site at this
    rw [hpos, ok_bind] at this
    cases hg : x.lt[pos]? with
    | none => rw [hg] at this; cases this
    | some u => rw [hg] at this; exact this
  rw [h5, ok_bind]
  exact updateInt_runs _ _ hx

theorem getSites_run (h : Heap R) : ∀ (m i : ℕ), i + m = (h p).lt.length →
    (getSites p i m : Thr R (List (NDArray R))).run h = (.ok ((h p).lt.drop i), h)
  | 0, i, hi => by
    rw [List.drop_of_length_le (by omega)]
    rfl
  | m + 1, i, hi => by
    have hlt : i < (h p).lt.length := by omega
    have hs : (h p).site (i : ℤ) = .ok (h p).lt[i] := by
      unfold MPA.site
      have : pyIndex (h p).len (i : ℤ) = .ok i := by
        unfold pyIndex MPA.len
        simp [hlt]
      rw [this, ok_bind]
      simp [List.getElem?_eq_getElem hlt]
    unfold getSites
    rw [run_bind]
    have : (getSite p (i : ℤ) : Thr R _).run h = ((h p).site (i : ℤ), h) := rfl
    rw [this, hs]
    simp only
    rw [run_bind, getSites_run h m (i + 1) (by omega)]
    simp only
    rw [List.drop_eq_getElem_cons hlt]
    rfl

theorem snapshot_run (h : Heap R) : (snapshot p : Thr R (MPA R)).run h = (.ok (h p), h) := by
  unfold snapshot
  rw [run_bind]
  show (getSites p 0 (h p).len >>= _ : Thr R (MPA R)).run h = _
  rw [run_bind, getSites_run h _ 0 (by simp [MPA.len])]
  rfl

section norm
variable {𝕜 : Type} [RCLike 𝕜]

theorem normRest_runs {h : Heap 𝕜} {y : MPA 𝕜} (hy : h p = y) :
    Runs p (normRest p) h (if y.r = 1 then y.site 0 >>= fun t => pure (npNorm t, y)
      else if y.l = y.len - 1 then y.site (-1) >>= fun t => pure (npNorm t, y) else .error .value) := by
  unfold normRest
  refine Runs.l (Runs.r (Runs.len ?_))
  rw [hy]
  have fin : ∀ v : ℝ, Runs p (pure v : Thr 𝕜 ℝ) h (pure (v, y)) := by
    intro v
    have := Runs.pure (p := p) (h := h) v
    rw [hy] at this
    exact this
  split
  · exact Runs.site hy fun t _ => fin _
  · split
    · exact Runs.site hy fun t _ => fin _
    · rfl

theorem norm_runs (qr : QR 𝕜) {h : Heap 𝕜} {x : MPA 𝕜} (hx : h p = x) :
    Runs p (norm qr p) h (Mpnum.norm qr x) :=
  RunsU.bind (canonicalize_runs qr _ _ hx) fun _ _ => normRest_runs (Function.update_self ..)

/-- `forEach_runs` for a loop that also collects something. -/
theorem forEach_runs_st {σ : Type} {f : α → Thr R Unit} {g : MPA R × σ → α → Py (MPA R × σ)}
    (hf : ∀ (h : Heap R) st a, h p = st.1 → RunsU p (f a) h ((g st a).map Prod.fst)) :
    ∀ (l : List α) (h : Heap R) (st : MPA R × σ), h p = st.1 → RunsU p (forEach f l) h ((l.foldlM g st).map Prod.fst)
  | [], h, x, hx => RunsU.pure hx
  | a :: l, h, x, hx => by
    unfold forEach RunsU
    rw [List.foldlM_cons, map_bind, map_bind]
    have h1 := hf h x a hx
    cases hg : g x a with
    | error e =>
      rw [hg] at h1
      exact RunsU.bind (m := .error e) (g := fun y => .ok ((), y)) h1 fun y hy => by cases hy
    | ok y =>
      rw [hg] at h1
      exact RunsU.bind (m := .ok y.1) (g := fun _ => ((l.foldlM g y).map Prod.fst).map fun y => ((), y)) h1 fun z hz => by
        cases hz
        exact forEach_runs_st hf l _ y (Function.update_self ..)

theorem svdStepR_runs (svd : SVD 𝕜) (f : SVDFunc 𝕜) (rank : ℤ) (relerr : Option ℝ) {h : Heap 𝕜}
    (st : MPA 𝕜 × List (List ℝ × ℕ)) (site : ℤ) (hx : h p = st.1) :
    RunsU p (svdStepR svd f rank relerr p site) h ((MPA.svdStepR svd f rank relerr st site).map Prod.fst) := by
  unfold svdStepR MPA.svdStepR MPA.svdSiteR RunsU
  simp only [map_bind, bind_assoc, pure_bind]
  refine Runs.site hx fun lt _ => Runs.lift fun mat _ => ?_
  rcases svdPickR svd f rank relerr lt.rb mat with ⟨u, sv, v, k⟩
  unfold MPA.svdUpdateR
  simp only [map_bind, bind_assoc, pure_bind]
  refine Runs.lift fun t1 _ => Runs.lift fun w _ => Runs.site hx fun next _ => Runs.lift fun t2 _ => ?_
  have := updateSlice_runs (p := p) (h := h) (some site) (some (site + 2)) none [t1, t2] (.seq [some .left, none]) hx
  unfold RunsU at this
  cases hm : st.1.updateSlice (some site) (some (site + 2)) none [t1, t2] (.seq [some .left, none]) <;>
    (rw [hm] at this; exact this)

theorem svdStepL_runs (svd : SVD 𝕜) (f : SVDFunc 𝕜) (rank : ℤ) (relerr : Option ℝ) {h : Heap 𝕜}
    (st : MPA 𝕜 × List (List ℝ × ℕ)) (site : ℤ) (hx : h p = st.1) :
    RunsU p (svdStepL svd f rank relerr p site) h ((MPA.svdStepL svd f rank relerr st site).map Prod.fst) := by
  unfold svdStepL MPA.svdStepL MPA.svdSiteL RunsU
  simp only [map_bind, bind_assoc, pure_bind]
  refine Runs.site hx fun lt _ => Runs.lift fun mat _ => ?_
  rcases svdPickL svd f rank relerr lt.lb mat with ⟨u, sv, v, k⟩
  unfold MPA.svdUpdateL
  simp only [map_bind, bind_assoc, pure_bind]
  refine Runs.site hx fun prev _ => Runs.lift fun w _ => Runs.lift fun t1 _ => Runs.lift fun t2 _ => ?_
  have := updateSlice_runs (p := p) (h := h) (some (site - 1)) (some (site + 1)) none [t1, t2] (.seq [none, some .right]) hx
  unfold RunsU at this
  cases hm : st.1.updateSlice (some (site - 1)) (some (site + 1)) none [t1, t2] (.seq [none, some .right]) <;>
    (rw [hm] at this; exact this)

/-- The end of a sweep. -/
theorem sweepEnd_runs {h : Heap 𝕜} {y : MPA 𝕜} (hy : h p = y) (i : ℤ) :
    Runs p (getSite p i >>= fun t => pure (MPA.absSq t)) h (y.site i >>= fun t => pure (MPA.absSq t, y)) := by
  refine Runs.site hy fun t _ => ?_
  have := Runs.pure (p := p) (h := h) (MPA.absSq t)
  rw [hy] at this
  exact this

theorem compressSvdR_runs (svd : SVD 𝕜) (f : SVDFunc 𝕜) (rank : ℤ) (relerr : Option ℝ) {h : Heap 𝕜} {x : MPA 𝕜}
    (hx : h p = x) :
    Runs p (compressSvdR svd f rank relerr p) h ((x.compressSvdR svd f rank relerr).map fun q => (q.2.2, q.1)) := by
  unfold compressSvdR MPA.compressSvdR
  simp only [map_bind]
  refine Runs.lift fun _ _ => Runs.len ?_
  rw [hx]
  have h1 := forEach_runs_st (p := p) (fun h st a hs => svdStepR_runs svd f rank relerr st a hs)
    (pyRange 0 ((x.len : ℤ) - 1) 1) h (x, []) hx
  cases hm : (pyRange 0 ((x.len : ℤ) - 1) 1).foldlM (MPA.svdStepR svd f rank relerr) (x, []) with
  | error e =>
    rw [hm] at h1
    exact RunsU.bind (m := .error e) (g := fun y => .ok (0, y)) h1 fun y hy => by cases hy
  | ok y =>
    rw [hm] at h1
    exact RunsU.bind (m := .ok y.1) (g := fun z => z.site (-1) >>= fun t => pure (MPA.absSq t, z)) h1 fun z hz => by
      cases hz
      exact sweepEnd_runs (Function.update_self ..) _

theorem compressSvdL_runs (svd : SVD 𝕜) (f : SVDFunc 𝕜) (rank : ℤ) (relerr : Option ℝ) {h : Heap 𝕜} {x : MPA 𝕜}
    (hx : h p = x) :
    Runs p (compressSvdL svd f rank relerr p) h ((x.compressSvdL svd f rank relerr).map fun q => (q.2.2, q.1)) := by
  unfold compressSvdL MPA.compressSvdL
  simp only [map_bind]
  refine Runs.lift fun _ _ => Runs.len ?_
  rw [hx]
  have h1 := forEach_runs_st (p := p) (fun h st a hs => svdStepL_runs svd f rank relerr st a hs)
    (pyRange ((x.len : ℤ) - 1) 0 (-1)) h (x, []) hx
  cases hm : (pyRange ((x.len : ℤ) - 1) 0 (-1)).foldlM (MPA.svdStepL svd f rank relerr) (x, []) with
  | error e =>
    rw [hm] at h1
    exact RunsU.bind (m := .error e) (g := fun y => .ok (0, y)) h1 fun y hy => by cases hy
  | ok y =>
    rw [hm] at h1
    exact RunsU.bind (m := .ok y.1) (g := fun z => z.site 0 >>= fun t => pure (MPA.absSq t, z)) h1 fun z hz => by
      cases hz
      exact sweepEnd_runs (Function.update_self ..) _

theorem compressSvd_runs (qr : QR 𝕜) (svd : SVD 𝕜) (f : SVDFunc 𝕜) (rank : Option ℤ) (relerr : Option ℝ)
    (direction : Option Dir) (canon : Bool) {h : Heap 𝕜} {x : MPA 𝕜} (hx : h p = x) :
    Runs p (compressSvd qr svd f p rank relerr direction canon) h
      ((x.compressSvd qr svd f rank relerr direction canon).map fun q => (q.2, q.1)) := by
  unfold compressSvd MPA.compressSvd
  refine Runs.len ?_
  rw [hx]
  by_cases hl : x.len = 1
  · rw [if_pos hl, if_pos hl, map_bind]
    refine Runs.bind (norm_runs qr hx) fun v y _ => ?_
    have := Runs.pure (p := p) (h := Function.update h p y) (v ^ 2)
    rw [Function.update_self] at this
    exact this
  · rw [if_neg hl, if_neg hl]
    refine Runs.l (Runs.r (Runs.len ?_))
    rw [hx]
    have key : ∀ r : ℤ, Runs p (match direction.getD (if (x.len : ℤ) - x.r > x.l then Dir.left else Dir.right) with
        | .right => (if canon then canonicalize qr p .none (.int 1) else pure ()) >>= fun _ =>
          compressSvdR svd f r relerr p
        | .left => (if canon then getLen p >>= fun n => canonicalize qr p (.int (n - 1)) .none else pure ()) >>= fun _ =>
          compressSvdL svd f r relerr p
        | .other => lift (.error .value)) h
      (Except.map (fun q : MPA 𝕜 × ℝ => (q.2, q.1)) (match direction.getD (if (x.len : ℤ) - x.r > x.l then Dir.left else Dir.right) with
        | .right => (if canon then x.canonicalize qr .none (.int 1) else .ok x) >>= fun y =>
          y.compressSvdR svd f r relerr >>= fun q => pure (q.1, q.2.2)
        | .left => (if canon then x.canonicalize qr (.int (x.len - 1)) .none else .ok x) >>= fun y =>
          y.compressSvdL svd f r relerr >>= fun q => pure (q.1, q.2.2)
        | .other => .error .value)) := by
      intro r
      cases direction.getD (if (x.len : ℤ) - x.r > x.l then Dir.left else Dir.right) with
      | other => rfl
      | right =>
        simp only [map_bind]
        refine RunsU.bind ?_ fun y _ => ?_
        · cases canon with
          | true => exact canonicalize_runs qr _ _ hx
          | false => exact RunsU.pure hx
        · have := compressSvdR_runs svd f r relerr (p := p) (h := Function.update h p y) (Function.update_self ..)
          cases hm : y.compressSvdR svd f r relerr <;> (rw [hm] at this; exact this)
      | left =>
        simp only [map_bind]
        refine RunsU.bind ?_ fun y _ => ?_
        · cases canon with
          | true =>
            refine Runs.len ?_
            rw [hx]
            exact canonicalize_runs qr _ _ hx
          | false => exact RunsU.pure hx
        · have := compressSvdL_runs svd f r relerr (p := p) (h := Function.update h p y) (Function.update_self ..)
          cases hm : y.compressSvdL svd f r relerr <;> (rw [hm] at this; exact this)
    cases rank with
    | some r =>
      have := key r
      cases canon <;> exact this
    | none =>
      simp only
      have hmr : ∀ k : ℤ → Thr 𝕜 ℝ, Runs p (getMaxRank p >>= k) h = Runs p (lift (x.maxRank.map fun m : ℕ => (m : ℤ)) >>= k) h := by
        intro k
        rw [← hx]
        rfl
      rw [map_bind]
      refine (congrFun (hmr _) _).mpr ?_
      refine Runs.lift fun r _ => ?_
      have := key r
      cases canon <;> exact this

end norm

end Thr

/-- A program that runs alone has the outcome of the sequential program. -/
theorem Prog.run_eq {𝕜 α : Type} [RCLike 𝕜] (la : Routines 𝕜) : ∀ (g : Prog 𝕜 α) (h : Heap 𝕜),
    match g.seq la h with
    | .ok (a, h') => (g.thr la).run h = (.ok a, h')
    | .error e => ((g.thr la).run h).1 = .error e := by
  intro g
  induction g with
  | ret v =>
    intro h
    cases v <;> rfl
  | look p k ih =>
    intro h
    have := ih (h p) h
    have hr : ((Prog.look p k).thr la).run h = ((k (h p)).thr la).run h := by
      show (Thr.snapshot p >>= fun x => (k x).thr la : Thr 𝕜 α).run h = _
      rw [Thr.run_bind, Thr.snapshot_run]
    rw [hr]
    exact this
  | new p x k ih =>
    intro h
    exact ih _
  | canonicalize p left right k ih =>
    intro h
    have hc := Thr.canonicalize_runs la.qr left right (p := p) (h := h) rfl
    show match ((h p).canonicalize la.qr left right >>= fun y => k.seq la (Function.update h p y)) with
      | .ok (a, h') => (Thr.canonicalize la.qr p left right >>= fun _ => k.thr la : Thr 𝕜 α).run h = (.ok a, h')
      | .error e => ((Thr.canonicalize la.qr p left right >>= fun _ => k.thr la : Thr 𝕜 α).run h).1 = .error e
    rw [Thr.run_bind]
    cases hm : (h p).canonicalize la.qr left right with
    | error e =>
      rw [hm] at hc
      have hc' : ((Thr.canonicalize la.qr p left right).run h).1 = .error e := hc
      generalize (Thr.canonicalize la.qr p left right).run h = q at hc'
      obtain ⟨v, h'⟩ := q
      simp only at hc'
      subst hc'
      rfl
    | ok y =>
      rw [hm] at hc
      have hc' : (Thr.canonicalize la.qr p left right).run h = (.ok (), Function.update h p y) := hc
      rw [hc']
      exact ih _
  | norm p k ih =>
    intro h
    have hc := Thr.norm_runs la.qr (p := p) (h := h) rfl
    show match (Mpnum.norm la.qr (h p) >>= fun q => (k q.1).seq la (Function.update h p q.2)) with
      | .ok (a, h') => (Thr.norm la.qr p >>= fun v => (k v).thr la : Thr 𝕜 α).run h = (.ok a, h')
      | .error e => ((Thr.norm la.qr p >>= fun v => (k v).thr la : Thr 𝕜 α).run h).1 = .error e
    rw [Thr.run_bind]
    cases hm : Mpnum.norm la.qr (h p) with
    | error e =>
      rw [hm] at hc
      have hc' : ((Thr.norm la.qr p).run h).1 = .error e := hc
      generalize (Thr.norm la.qr p).run h = q at hc'
      obtain ⟨v, h'⟩ := q
      simp only at hc'
      subst hc'
      rfl
    | ok y =>
      rw [hm] at hc
      obtain ⟨v, y⟩ := y
      have hc' : (Thr.norm la.qr p).run h = (.ok v, Function.update h p y) := hc
      rw [hc']
      exact ih _ _
  | compress p rank relerr direction canon k ih =>
    intro h
    have hc := Thr.compressSvd_runs la.qr la.svd la.f rank relerr direction canon (p := p) (h := h) rfl
    set T := Thr.compressSvd la.qr la.svd la.f p rank relerr direction canon with hT
    show match ((h p).compressSvd la.qr la.svd la.f rank relerr direction canon >>= fun q =>
        (k q.2).seq la (Function.update h p q.1)) with
      | .ok (a, h') => (T >>= fun v => (k v).thr la : Thr 𝕜 α).run h = (.ok a, h')
      | .error e => ((T >>= fun v => (k v).thr la : Thr 𝕜 α).run h).1 = .error e
    rw [Thr.run_bind]
    cases hm : (h p).compressSvd la.qr la.svd la.f rank relerr direction canon with
    | error e =>
      rw [hm] at hc
      have hc' : (T.run h).1 = .error e := hc
      generalize T.run h = q at hc'
      obtain ⟨v, h'⟩ := q
      simp only at hc'
      subst hc'
      rfl
    | ok y =>
      rw [hm] at hc
      obtain ⟨y, v⟩ := y
      have hc' : T.run h = (.ok v, Function.update h p y) := hc
      rw [hc']
      exact ih _ _
  | imul p fact k ih =>
    intro h
    have hc := Thr.imul_runs fact (p := p) (h := h) rfl
    show match ((h p).imul fact >>= fun y => k.seq la (Function.update h p y)) with
      | .ok (a, h') => (Thr.imul p fact >>= fun _ => k.thr la : Thr 𝕜 α).run h = (.ok a, h')
      | .error e => ((Thr.imul p fact >>= fun _ => k.thr la : Thr 𝕜 α).run h).1 = .error e
    rw [Thr.run_bind]
    cases hm : (h p).imul fact with
    | error e =>
      rw [hm] at hc
      have hc' : ((Thr.imul p fact).run h).1 = .error e := hc
      generalize (Thr.imul p fact).run h = q at hc'
      obtain ⟨v, h'⟩ := q
      simp only at hc'
      subst hc'
      rfl
    | ok y =>
      rw [hm] at hc
      have hc' : (Thr.imul p fact).run h = (.ok (), Function.update h p y) := hc
      rw [hc']
      exact ih _
  | assign p index t k ih =>
    intro h
    have hc := Thr.updateInt_runs (p := p) (h := h) index t rfl
    show match ((h p).updateInt index t .none >>= fun y => k.seq la (Function.update h p y)) with
      | .ok (a, h') => (Thr.updateInt p index t none >>= fun _ => k.thr la : Thr 𝕜 α).run h = (.ok a, h')
      | .error e => ((Thr.updateInt p index t none >>= fun _ => k.thr la : Thr 𝕜 α).run h).1 = .error e
    rw [Thr.run_bind]
    cases hm : (h p).updateInt index t .none with
    | error e =>
      rw [hm] at hc
      have hc' : ((Thr.updateInt p index t none).run h).1 = .error e := hc
      generalize (Thr.updateInt p index t none).run h = q at hc'
      obtain ⟨v, h'⟩ := q
      simp only at hc'
      subst hc'
      rfl
    | ok y =>
      rw [hm] at hc
      have hc' : (Thr.updateInt p index t none).run h = (.ok (), Function.update h p y) := hc
      rw [hc']
      exact ih _
  | update p start stop step ts c k ih =>
    intro h
    have hc := Thr.updateSlice_runs (p := p) (h := h) start stop step ts c rfl
    show match ((h p).updateSlice start stop step ts c >>= fun y => k.seq la (Function.update h p y)) with
      | .ok (a, h') => (Thr.updateSlice p start stop step ts c >>= fun _ => k.thr la : Thr 𝕜 α).run h = (.ok a, h')
      | .error e => ((Thr.updateSlice p start stop step ts c >>= fun _ => k.thr la : Thr 𝕜 α).run h).1 = .error e
    rw [Thr.run_bind]
    cases hm : (h p).updateSlice start stop step ts c with
    | error e =>
      rw [hm] at hc
      have hc' : ((Thr.updateSlice p start stop step ts c).run h).1 = .error e := hc
      generalize (Thr.updateSlice p start stop step ts c).run h = q at hc'
      obtain ⟨v, h'⟩ := q
      simp only at hc'
      subst hc'
      rfl
    | ok y =>
      rw [hm] at hc
      have hc' : (Thr.updateSlice p start stop step ts c).run h = (.ok (), Function.update h p y) := hc
      rw [hc']
      exact ih _

end Mpnum
