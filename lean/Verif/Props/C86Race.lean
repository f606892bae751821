import Verif.Props.C86
import Verif.Props.C49Random

/-!
# C86, limits: threads that use the same object

`norm` changes its argument in place.  Two threads that compute the norm of one object, or one that computes it while
another one reads the object, are not separated, and the guarantee ends.
-/

open Finset

namespace Mpnum

/-! ### Several norms of one shared object, each of a copy -/

/-- `norm(x.copy())`, where `x` is at the address 0 and the copy at `q`. -/
noncomputable def normOfCopy (q : ℕ) : Prog ℂ ℝ :=
  .look 0 fun x => match x.copy with
    | .ok y => .new q y (.norm q fun v => .ret (.ok v))
    | .error e => .ret (.error e)

/-- C86: any number of threads compute the norm of one object, each of its own copy, under any schedule: every thread that
has ended has the Frobenius norm, and the object is untouched. -/
theorem C86_norm_of_copies {la : Routines ℂ} (hqr : QRSpec la.qr) (n : ℕ) (h : Heap ℂ) (hx : (h 0).Good) (sched : List (Fin n)) :
    let w := (startThreads la (fun i : Fin n => normOfCopy (i + 1)) h).exec sched
    (∀ i v, w.thr i = .done v → v = .ok (h 0).frob) ∧ w.heap 0 = h 0 := by
  intro w
  have hs := C86_separate la (fun i : Fin n => normOfCopy (i + 1)) (fun i => {(i : ℕ) + 1}) {0}
    (fun i j hij => by
      rw [Set.disjoint_singleton]
      intro e
      exact hij (Fin.ext (by omega)))
    (fun i => by rw [Set.disjoint_singleton]; omega)
    h (fun i => .inr ⟨rfl, by
      beta_reduce
      cases (h 0).copy with
      | error e => trivial
      | ok y => exact ⟨rfl, .inl rfl, fun _ => trivial⟩⟩) sched
  obtain ⟨h1, h2⟩ := hs
  refine ⟨fun i v hv => ?_, h2 0 fun i => by simp⟩
  obtain ⟨y, hy, -⟩ := norm_ok hqr hx
  have hseq : (normOfCopy ((i : ℕ) + 1)).seq la h = .ok ((h 0).frob,
      Function.update (Function.update h ((i : ℕ) + 1) (h 0)) ((i : ℕ) + 1) y) := by
    unfold normOfCopy
    simp only [Prog.seq, hx.valid.copy_ok, Function.update_self, hy, ok_bind]
    rfl
  exact ((h1 i v hv).1 _ _ hseq).1

/-- C86: any number of threads call `norm` on one object that already has a fully left- or right-canonical form, under any
schedule: every thread that has ended has the Frobenius norm, and the object is untouched. -/
theorem C86_norm_shared {la : Routines ℂ} (hqr : QRSpec la.qr) {ι : Type} [DecidableEq ι] (h : Heap ℂ) (hx : (h 0).Good)
    (hc : (h 0).r = 1 ∨ (h 0).l = (h 0).len - 1) (sched : List ι) :
    let w := (startThreads la (fun _ : ι => (.norm 0 fun v => .ret (.ok v) : Prog ℂ ℝ)) h).exec sched
    (∀ i v, w.thr i = .done v → v = .ok (h 0).frob) ∧ w.heap 0 = h 0 := by
  intro w
  have hS : Prog.Settled (h 0) .none .none := by
    unfold Prog.Settled
    rw [if_pos ⟨rfl, rfl⟩]
    have h1 := hx.valid.l_nonneg
    have h2 := hx.valid.l_lt_r
    exact hc.imp id fun h => ⟨h, by omega⟩
  obtain ⟨h1, h2⟩ := C86_separate la (fun _ : ι => (.norm 0 fun v => .ret (.ok v) : Prog ℂ ℝ)) (fun _ => ∅) {0}
    (fun i j hij => by simp) (fun i => by simp) h (fun i => ⟨.inr ⟨rfl, hS⟩, fun _ => trivial⟩) sched
  refine ⟨fun i v hv => ?_, h2 0 fun i => by simp⟩
  obtain ⟨y, hy, -⟩ := norm_ok hqr hx
  have hseq : (.norm 0 fun v => .ret (.ok v) : Prog ℂ ℝ).seq la h = .ok ((h 0).frob, Function.update h 0 y) := by
    simp only [Prog.seq, hy, ok_bind]
    rfl
  exact ((h1 i v hv).1 _ _ hseq).1

/-! ### A thread that runs for some steps -/

section solo
variable {R α β ι : Type}

/-- A thread comes from one state to another one by steps of its own. -/
def Solo (a b : Thr R α × Heap R) : Prop := ∃ n, (fun q : Thr R α × Heap R => q.1.step q.2)^[n] a = b

theorem Solo.refl (a : Thr R α × Heap R) : Solo a a := ⟨0, rfl⟩

theorem Solo.trans {a b c : Thr R α × Heap R} (h1 : Solo a b) (h2 : Solo b c) : Solo a c := by
  obtain ⟨m, h1⟩ := h1
  obtain ⟨n, h2⟩ := h2
  exact ⟨n + m, by rw [Function.iterate_add_apply, h1, h2]⟩

theorem Solo.head {a b : Thr R α × Heap R} (h : Solo (a.1.step a.2) b) : Solo a b := by
  obtain ⟨n, h⟩ := h
  exact ⟨n + 1, h⟩

/-- A thread can run to its end. -/
theorem Solo.run (t : Thr R α) (h : Heap R) : Solo (t, h) (.done (t.run h).1, (t.run h).2) := by
  induction t generalizing h with
  | done v => exact .refl _
  | read p k ih => exact .head (ih (h p) h)
  | write p f k ih => exact .head (ih _)

theorem Solo.bind {t t' : Thr R α} {h h' : Heap R} (hs : Solo (t, h) (t', h')) (f : α → Thr R β) :
    Solo (t >>= f, h) (t' >>= f, h') := by
  obtain ⟨n, hs⟩ := hs
  induction n generalizing t h with
  | zero => cases hs; exact .refl _
  | succ n ih =>
    cases t with
    | done v =>
      have : (fun q : Thr R α × Heap R => q.1.step q.2)^[n] (.done v, h) = (t', h') := hs
      exact ih this
    | read p k => exact .head (ih hs)
    | write p g k => exact .head (ih hs)

theorem Solo.exec [DecidableEq ι] {w : World R ι α} {i : ι} {t : Thr R α} {h : Heap R}
    (hs : Solo (w.thr i, w.heap) (t, h)) : ∃ l, w.exec l = ⟨Function.update w.thr i t, h⟩ := by
  obtain ⟨n, hs⟩ := hs
  induction n generalizing w with
  | zero =>
    cases hs
    exact ⟨[], by simp [World.exec]⟩
  | succ n ih =>
    have : (fun q : Thr R α × Heap R => q.1.step q.2)^[n] ((w.step i).thr i, (w.step i).heap) = (t, h) := by
      rw [← hs, Function.iterate_succ_apply]
      simp [World.step]
    obtain ⟨l, hl⟩ := ih this
    refine ⟨i :: l, ?_⟩
    show (w.step i).exec l = _
    rw [hl]
    simp [World.step]

theorem Solo.lift {v : Py α} {a : α} (hv : v = .ok a) {f : α → Thr R β} {h : Heap R} {c : Thr R β × Heap R}
    (hs : Solo (f a, h) c) : Solo (Thr.lift v >>= f, h) c := by
  subst hv; exact hs

theorem Solo.site {p : ℕ} {i : ℤ} {t : NDArray R} {h : Heap R} (hv : (h p).site i = .ok t) {f : NDArray R → Thr R β}
    {c : Thr R β × Heap R} (hs : Solo (f t, h) c) : Solo (Thr.getSite p i >>= f, h) c := by
  refine .head ?_
  show Solo ((Thr.done ((h p).site i)).andThen f, h) c
  rw [hv]
  exact hs

theorem Solo.len {p : ℕ} {h : Heap R} {f : ℕ → Thr R β} {c : Thr R β × Heap R} (hs : Solo (f (h p).len, h) c) :
    Solo (Thr.getLen p >>= f, h) c := .head hs

theorem Solo.l {p : ℕ} {h : Heap R} {f : ℤ → Thr R β} {c : Thr R β × Heap R} (hs : Solo (f (h p).l, h) c) :
    Solo (Thr.getL p >>= f, h) c := .head hs

theorem Solo.r {p : ℕ} {h : Heap R} {f : ℤ → Thr R β} {c : Thr R β × Heap R} (hs : Solo (f (h p).r, h) c) :
    Solo (Thr.getR p >>= f, h) c := .head hs

end solo

/-! ### Two threads that compute the norm of the same object -/

/-- What remains of `norm` of two sites just before its first assignment. -/
noncomputable def beforeWrite (qr : QR ℂ) (p : ℕ) (t1 t2 : NDArray ℂ) : Thr ℂ ℝ :=
  (Thr.updateLoop p [t1, t2] [0, 1] (some [some .left, none]) >>= fun _ => Thr.forEach (Thr.rcanonStep qr p) []) >>=
    fun _ => Thr.normRest p

theorem norm_solo {qr : QR ℂ} {p : ℕ} {h : Heap ℂ} {x y : MPA ℂ} {u v : NDArray ℂ} (hx2 : x = ⟨[u, v], 0, 2⟩) (hp : h p = x)
    (hy : x.rcanonStep qr 0 = .ok y) :
    ∃ t1 t2, y = ⟨[t1, t2], 1, 2⟩ ∧ Solo (Thr.norm qr p, h) (beforeWrite qr p t1 t2, h) := by
  have hl : x.len = 2 := by rw [hx2]; rfl
  have hxl : x.l = 0 := by rw [hx2]
  have hxr : x.r = 2 := by rw [hx2]
  unfold MPA.rcanonStep at hy
  obtain ⟨ltens, h1, h2⟩ := bind_ok_inv hy
  obtain ⟨mat, h3, h4⟩ := bind_ok_inv h2
  rcases hq : qr mat with ⟨q, r⟩
  simp only [hq] at h4
  obtain ⟨next, h5, h6⟩ := bind_ok_inv h4
  obtain ⟨t1, h7, h8⟩ := bind_ok_inv h6
  obtain ⟨t2, h9, h10⟩ := bind_ok_inv h8
  obtain ⟨-, hyy⟩ := updateSliceI_between hx2 .value 0 h10
  refine ⟨t1, t2, hyy, ?_⟩
  unfold MPA.updateSlice at h10
  obtain ⟨⟨s, e', st⟩, k1, k⟩ := bind_ok_inv h10
  simp only at k
  obtain ⟨ps, k2, k⟩ := bind_ok_inv k
  obtain ⟨first, k3, k⟩ := bind_ok_inv k
  obtain ⟨_, k4, k⟩ := bind_ok_inv k
  obtain ⟨_, k5, k⟩ := bind_ok_inv k
  obtain ⟨pe, k6, k⟩ := bind_ok_inv k
  obtain ⟨_, k7, -⟩ := bind_ok_inv k
  cases k3
  have k1' : sliceIndices (some 0) (some 2) none 2 = .ok (0, 2, 1) := by decide
  rw [hl] at k1
  have k1'' := k1
  rw [show (0 : ℤ) + 2 = 2 from rfl, k1'] at k1''
  cases k1''
  obtain ⟨a, a1, a2⟩ := Thr.site_eq k2
  obtain ⟨b, b1, b2⟩ := Thr.site_eq k6
  rw [a2] at k4
  rw [b2] at k7
  unfold Thr.norm beforeWrite
  refine Solo.bind ?_ _
  unfold Thr.canonicalize
  refine Solo.l (Solo.r (Solo.len ?_))
  rw [hp, hl, hxl, hxr, if_pos (show (CArg.none.isNone && CArg.none.isNone) = true from rfl), if_neg (by norm_num)]
  unfold Thr.rcanonicalize
  refine Solo.len (Solo.lift (pyAssert_true (by rw [hp, hl]; norm_num)) (Solo.l (Solo.r ?_)))
  rw [hp, hxl]
  have hr : pyRange 0 (((2 : ℕ) : ℤ) - 1) 1 = [0] := by decide
  rw [hr]
  show Solo (Thr.rcanonStep qr p 0 >>= fun _ => Thr.forEach (Thr.rcanonStep qr p) [], h) _
  refine Solo.bind ?_ _
  unfold Thr.rcanonStep
  refine Solo.site (by rw [hp]; exact h1) (Solo.lift h3 ?_)
  simp only [hq]
  refine Solo.site (by rw [hp]; exact h5) (Solo.lift h7 (Solo.lift h9 ?_))
  unfold Thr.updateSlice
  refine Solo.len ?_
  rw [hp, hl]
  refine Solo.lift k1 ?_
  simp only
  refine Solo.site (by rw [hp]; exact a1) (Solo.lift rfl (Solo.lift k4 (Solo.lift k5 ?_)))
  refine Solo.site (by rw [hp]; exact b1) (Solo.lift k7 ?_)
  have hr2 : pyRange 0 2 1 = [0, 1] := by decide
  rw [hr2]
  exact .refl _

/-- The object between the two assignments of `norm`, for the example of C70. -/
theorem exTwo_half {qr : QR ℂ} (hqr : QRSpec qr) : ∃ t1 t2 : NDArray ℂ, exTwo.rcanonStep qr 0 = .ok ⟨[t1, t2], 1, 2⟩ ∧
    (⟨[t1, ⟨[1, 1, 1], fun _ => 1⟩], 0, 2⟩ : MPA ℂ).Good ∧
    (⟨[t1, ⟨[1, 1, 1], fun _ => 1⟩], 0, 2⟩ : MPA ℂ).shape = exTwo.shape ∧
    ‖(⟨[t1, ⟨[1, 1, 1], fun _ => 1⟩], 0, 2⟩ : MPA ℂ).val [[0], [0]]‖ = 1 := by
  obtain ⟨y, g1, gy, gs, g3, g4, -, -⟩ := MPA.rcanonStep_ok hqr exTwo_good (by simp [exTwo, MPA.len])
  obtain ⟨t1, t2, hy, -⟩ := norm_solo (qr := qr) (p := 0) (h := fun _ => exTwo) (x := exTwo) rfl rfl g1
  subst hy
  have hph : t1.ph = [1] := by
    have : [t1.ph, t2.ph] = [[1], [1]] := gs.shape
    simpa using (List.cons.inj this).1
  have hlb : t1.lb = 1 := gy.valid.chain.2.1
  have hrb : t1.rb = 1 := by
    have e1 : t2.lb = t1.rb := gy.valid.chain.2.2.2.1
    have e2 : List.Forall₂ (· ≤ ·) [t1.lb, t2.lb] [1, 1] := g3
    have e3 : t2.lb ≤ 1 := by
      cases e2 with
      | cons _ h => cases h with
        | cons h _ => exact h
    have hs : t1.shape = t1.lb :: (t1.ph ++ [t1.rb]) := NDArray.shape_local gy.valid.chain.1
    have := gy.pos t1 (by simp) t1.rb (by rw [hs]; simp)
    omega
  have hloc : t1.IsLocal := gy.valid.chain.1
  have hL : LCanon t1 := (gy.canon 0 t1 rfl).1 (by simp)
  have h00 := hL 0 (by omega) 0 (by omega)
  simp only [hlb, hph, Finset.sum_range_one, sumIdx_cons, sumIdx_nil] at h00
  refine ⟨t1, t2, g1, ⟨⟨by simp, ?_, by simp, by simp, by simp [MPA.len]⟩, canonOK_mk _, ?_⟩, ?_, ?_⟩
  · exact ⟨hloc, hlb, by simp [NDArray.IsLocal, NDArray.ndim], by simp [hrb, NDArray.lb], by simp [NDArray.rb]⟩
  · intro t ht d hd
    simp only [List.mem_cons, List.not_mem_nil, or_false] at ht
    rcases ht with rfl | rfl
    · exact gy.pos _ (by simp) d hd
    · simp at hd; omega
  · have hph' : t1.shape.tail.dropLast = [1] := hph
    simp [MPA.shape, exTwo, hph', physShape, NDArray.ph]
  · have e2 : MPA.val (⟨[t1, ⟨[1, 1, 1], fun _ => 1⟩], 0, 2⟩ : MPA ℂ) [[0], [0]] = t1.at3 0 [0] 0 := by
      show mp _ _ 0 0 = _
      rw [mp_cons, hrb, Finset.sum_range_one]
      simp [mp_cons, NDArray.rb, NDArray.at3]
    rw [e2]
    have e3 : ‖t1.at3 0 [0] 0‖ ^ 2 = 1 := by
      have h01 : star (t1.at3 0 [0] 0) * t1.at3 0 [0] 0 = 1 := by simpa using h00
      have := congrArg (‖·‖) h01
      simpa [sq] using this
    nlinarith [norm_nonneg (t1.at3 0 [0] 0)]

theorem exTwo_frob (x : MPA ℂ) (hs : x.shape = exTwo.shape) : x.frob = ‖x.val [[0], [0]]‖ := by
  have e : exTwo.shape = [[1], [1]] := by simp [MPA.shape, exTwo, physShape, NDArray.ph]
  unfold MPA.frob
  rw [hs, e]
  simp [sumSites_cons, sumIdx_cons]

theorem exTwo_val : exTwo.val [[0], [0]] = 2 := by
  simp [MPA.val, exTwo, entry, mp_cons, NDArray.rb, NDArray.at3]

theorem Solo.run_eq {R α : Type} {a b : Thr R α × Heap R} (hs : Solo a b) : b.1.run b.2 = a.1.run a.2 := by
  obtain ⟨n, hs⟩ := hs
  induction n generalizing a with
  | zero => cases hs; rfl
  | succ n ih =>
    have := ih (a := a.1.step a.2) hs
    rw [this]
    exact Thr.step_run _ _

theorem beforeWrite_run (qr : QR ℂ) {p : ℕ} {t1 t2 a b : NDArray ℂ} {l : ℤ} {h : Heap ℂ} (hp : h p = ⟨[a, b], l, 2⟩)
    (hl : l = 0 ∨ l = 1) :
    (beforeWrite qr p t1 t2).run h = (.ok (npNorm t2), Function.update h p ⟨[t1, t2], 1, 2⟩) := by
  have h1 := Thr.updateLoop_runs (p := p) [t1, t2] [0, 1] (some [some .left, none]) h _ hp
  have h2 : MPA.updateLoop (⟨[a, b], l, 2⟩ : MPA ℂ) [t1, t2] [0, 1] (some [some .left, none]) = .ok ⟨[t1, t2], 1, 2⟩ := by
    rcases hl with rfl | rfl <;> rfl
  rw [h2] at h1
  have h1' : (Thr.updateLoop p [t1, t2] [0, 1] (some [some .left, none])).run h
      = (.ok (), Function.update h p ⟨[t1, t2], 1, 2⟩) := h1
  have h3 := Thr.normRest_runs (p := p) (h := Function.update h p (⟨[t1, t2], 1, 2⟩ : MPA ℂ)) (Function.update_self ..)
  rw [if_neg (by simp), if_pos (by simp [MPA.len])] at h3
  have h4 : (⟨[t1, t2], 1, 2⟩ : MPA ℂ).site (-1) = .ok t2 := rfl
  rw [h4, ok_bind] at h3
  have h3' : (Thr.normRest p).run (Function.update h p (⟨[t1, t2], 1, 2⟩ : MPA ℂ)) = (.ok (npNorm t2),
    Function.update (Function.update h p (⟨[t1, t2], 1, 2⟩ : MPA ℂ)) p ⟨[t1, t2], 1, 2⟩) := h3
  unfold beforeWrite
  rw [Thr.run_bind, Thr.run_bind, h1']
  simp only
  show (Thr.normRest p).run _ = _
  rw [h3', Function.update_idem]

/-- The first thread has made one of its two assignments. -/
theorem race_first {la : Routines ℂ} (hqr : QRSpec la.qr) (g : Bool → Prog ℂ ℝ) (hg : g true = .norm 0 fun v => .ret (.ok v)) :
    ∃ (t1 t2 : NDArray ℂ) (T1 : Thr ℂ ℝ) (l1 : List Bool), npNorm t2 = 2 ∧
    (⟨[t1, ⟨[1, 1, 1], fun _ => 1⟩], 0, 2⟩ : MPA ℂ).Good ∧
    (⟨[t1, ⟨[1, 1, 1], fun _ => 1⟩], 0, 2⟩ : MPA ℂ).shape = exTwo.shape ∧
    ‖(⟨[t1, ⟨[1, 1, 1], fun _ => 1⟩], 0, 2⟩ : MPA ℂ).val [[0], [0]]‖ = 1 ∧
    (startThreads la g (fun _ => exTwo)).exec l1 = ⟨Function.update (startThreads la g (fun _ => exTwo)).thr true T1,
      Function.update (fun _ => exTwo) 0 ⟨[t1, ⟨[1, 1, 1], fun _ => 1⟩], 0, 2⟩⟩ ∧
    T1.run (Function.update (fun _ => exTwo) 0 ⟨[t1, ⟨[1, 1, 1], fun _ => 1⟩], 0, 2⟩)
      = (.ok 2, Function.update (fun _ => exTwo) 0 ⟨[t1, t2], 1, 2⟩) ∧
    (⟨[t1, t2], 1, 2⟩ : MPA ℂ).val [[0], [0]] = 2 := by
  obtain ⟨t1, t2, e1, e2, e3, e4⟩ := exTwo_half hqr
  obtain ⟨t1', t2', f1, f2⟩ := norm_solo (qr := la.qr) (p := 0) (h := fun _ => exTwo) (x := exTwo) rfl rfl e1
  cases f1
  have hrun := beforeWrite_run la.qr (p := 0) (t1 := t1) (t2 := t2) (h := fun _ => exTwo) (l := 0) rfl (.inl rfl)
  have hnorm : npNorm t2 = 2 := by
    obtain ⟨y, k1, -⟩ := norm_ok hqr exTwo_good
    have k2 := Thr.norm_runs la.qr (p := 0) (h := fun _ => exTwo) (x := exTwo) rfl
    rw [k1] at k2
    have k3 : (Thr.norm la.qr 0).run (fun _ => exTwo) = (.ok exTwo.frob, Function.update (fun _ => exTwo) 0 y) := k2
    have k4 := f2.run_eq
    simp only at k4
    rw [k3, hrun] at k4
    have := Except.ok.inj (congrArg Prod.fst k4)
    rw [this, exTwo_frob exTwo rfl, exTwo_val]
    simp
  obtain ⟨T, hs⟩ : ∃ T, Solo (beforeWrite la.qr 0 t1 t2, fun _ => exTwo)
      (T, Function.update (fun _ => exTwo) 0 ⟨[t1, ⟨[1, 1, 1], fun _ => 1⟩], 0, 2⟩) := ⟨_, 2, rfl⟩
  have hs' := (f2.trans hs).bind (fun v => (.done (.ok v) : Thr ℂ ℝ))
  obtain ⟨l1, hl1⟩ := Solo.exec (w := startThreads la g (fun _ => exTwo)) (i := true) (by
    have : (startThreads la g (fun _ => exTwo)).thr true = Thr.norm la.qr 0 >>= fun v => (.done (.ok v) : Thr ℂ ℝ) := by
      show (g true).thr la = _
      rw [hg]; rfl
    rw [this]
    exact hs')
  refine ⟨t1, t2, _, l1, hnorm, e2, e3, e4, hl1, ?_, ?_⟩
  swap
  · obtain ⟨y, k1, -, k2, -, -, -, -⟩ := MPA.rcanonStep_ok hqr exTwo_good (by simp [exTwo, MPA.len])
    have k3 : exTwo.rcanonStep la.qr 0 = .ok y := k1
    rw [e1] at k3
    cases k3
    rw [k2.val [[0], [0]] (by simp [exTwo, MPA.shape, physShape, NDArray.ph, IdxOK, InB]), exTwo_val]
  have := hs'.run_eq
  simp only at this
  rw [this, Thr.run_bind, ← f2.run_eq, hrun, hnorm]
  rfl

/-- C86, a limit of the guarantee (finding): two threads that call `norm` on the same object, for every QR routine: there is
a schedule after which both calls have returned without exception, one with the norm 2 and the other one with 1, and the
object is a valid MPA that represents another tensor than before. -/
theorem C86_norm_race {la : Routines ℂ} (hqr : QRSpec la.qr) : ∃ sched : List Bool,
    let w := (startThreads la (fun _ : Bool => (.norm 0 fun v => .ret (.ok v) : Prog ℂ ℝ)) (fun _ => exTwo)).exec sched
    w.thr true = .done (.ok 2) ∧ w.thr false = .done (.ok 1) ∧ exTwo.frob = 2 ∧ (w.heap 0).Good ∧
      IdxOK [[0], [0]] exTwo.shape ∧ (w.heap 0).val [[0], [0]] ≠ exTwo.val [[0], [0]] := by
  set g : Bool → Prog ℂ ℝ := fun _ => .norm 0 fun v => .ret (.ok v) with hg
  obtain ⟨t1, t2, T1, l1, c1, c2, c3, c4, c5, c6, c7⟩ := race_first hqr g rfl
  set x' : MPA ℂ := ⟨[t1, ⟨[1, 1, 1], fun _ => 1⟩], 0, 2⟩ with hx'
  set h1 : Heap ℂ := Function.update (fun _ => exTwo) 0 x' with hh1
  have h10 : h1 0 = x' := Function.update_self ..
  set w1 : World ℂ Bool ℝ := ⟨Function.update (startThreads la g (fun _ => exTwo)).thr true T1, h1⟩ with hw1
  -- the second thread, up to its first assignment
  obtain ⟨y, gy, gy2, gy3, -, -, -, -⟩ := MPA.rcanonStep_ok hqr c2 (by simp [hx', MPA.len])
  obtain ⟨s1, s2, rfl, d2⟩ := norm_solo (qr := la.qr) (p := 0) (h := h1) (x := x') hx' h10 gy
  have hnorm : npNorm s2 = 1 := by
    obtain ⟨y, k1, -⟩ := norm_ok hqr c2
    have k2 := Thr.norm_runs la.qr (p := 0) (h := h1) (x := x') h10
    rw [k1] at k2
    have k3 : (Thr.norm la.qr 0).run h1 = (.ok x'.frob, Function.update h1 0 y) := k2
    have k4 := d2.run_eq
    simp only at k4
    rw [k3, beforeWrite_run la.qr (h10.trans hx') (.inl rfl)] at k4
    have := Except.ok.inj (congrArg Prod.fst k4)
    rw [this, exTwo_frob x' c3, c4]
  have d2' := d2.bind (fun v => (.done (.ok v) : Thr ℂ ℝ))
  obtain ⟨l2, hl2⟩ := Solo.exec (w := w1) (i := false) (by
    have : w1.thr false = Thr.norm la.qr 0 >>= fun v => (.done (.ok v) : Thr ℂ ℝ) := by
      simp [hw1, startThreads, hg, Prog.thr]
    rw [this]
    exact d2')
  set B : Thr ℂ ℝ := beforeWrite la.qr 0 s1 s2 >>= fun v => .done (.ok v) with hB
  set w2 : World ℂ Bool ℝ := ⟨Function.update w1.thr false B, h1⟩ with hw2
  -- the first thread, to its end
  set h3 : Heap ℂ := Function.update (fun _ => exTwo) 0 ⟨[t1, t2], 1, 2⟩ with hh3
  obtain ⟨l3, hl3⟩ := Solo.exec (w := w2) (i := true) (t := .done (.ok 2)) (h := h3) (by
    have : w2.thr true = T1 := by simp [hw2, hw1]
    rw [this]
    have := Solo.run T1 h1
    rw [c6] at this
    exact this)
  set w3 : World ℂ Bool ℝ := ⟨Function.update w2.thr true (.done (.ok 2)), h3⟩ with hw3
  -- the second thread, to its end
  have hrun : B.run h3 = (.ok 1, Function.update h3 0 ⟨[s1, s2], 1, 2⟩) := by
    rw [hB, Thr.run_bind, beforeWrite_run la.qr (h := h3) (p := 0) (Function.update_self ..) (.inr rfl), hnorm]
    rfl
  obtain ⟨l4, hl4⟩ := Solo.exec (w := w3) (i := false) (t := .done (.ok 1)) (h := Function.update h3 0 ⟨[s1, s2], 1, 2⟩) (by
    have : w3.thr false = B := by simp [hw3, hw2]
    rw [this]
    have := Solo.run B h3
    rw [hrun] at this
    exact this)
  refine ⟨l1 ++ l2 ++ l3 ++ l4, ?_⟩
  have hfin : (startThreads la g (fun _ => exTwo)).exec (l1 ++ l2 ++ l3 ++ l4)
      = ⟨Function.update w3.thr false (.done (.ok 1)), Function.update h3 0 ⟨[s1, s2], 1, 2⟩⟩ := by
    rw [← hl4, ← hl3, ← hl2, ← c5]
    simp [World.exec, List.foldl_append]
  intro w
  have hw : w = _ := hfin
  rw [hw]
  refine ⟨by simp [hw3], by simp, ?_, ?_, ?_, ?_⟩
  · rw [exTwo_frob exTwo rfl, exTwo_val]; simp
  · simpa using gy2
  · simp [exTwo, MPA.shape, physShape, NDArray.ph, IdxOK, InB]
  · simp only [Function.update_self]
    rw [gy3.val [[0], [0]] (by rw [c3]; simp [exTwo, MPA.shape, physShape, NDArray.ph, IdxOK, InB]), exTwo_val]
    intro he
    rw [he] at c4
    norm_num at c4

/-- C86, a limit of the guarantee (finding): one thread calls `norm` on an object while another one only reads it, for every
QR routine: there is a schedule after which the reader has seen an entry with modulus 1, where the tensor has always had
the entry 2. -/
theorem C86_torn_read {la : Routines ℂ} (hqr : QRSpec la.qr) : ∃ sched : List Bool,
    let w := (startThreads la (fun b : Bool => bif b then .norm 0 fun v => .ret (.ok v)
      else (.look 0 fun x => .ret (.ok ‖x.val [[0], [0]]‖) : Prog ℂ ℝ)) (fun _ => exTwo)).exec sched
    w.thr true = .done (.ok 2) ∧ w.thr false = .done (.ok 1) ∧ exTwo.val [[0], [0]] = 2 ∧
      (w.heap 0).val [[0], [0]] = 2 := by
  set g : Bool → Prog ℂ ℝ := fun b : Bool => bif b then .norm 0 fun v => .ret (.ok v)
      else (.look 0 fun x => .ret (.ok ‖x.val [[0], [0]]‖) : Prog ℂ ℝ) with hg
  obtain ⟨t1, t2, T1, l1, c1, c2, c3, c4, c5, c6, c7⟩ := race_first hqr g rfl
  set x' : MPA ℂ := ⟨[t1, ⟨[1, 1, 1], fun _ => 1⟩], 0, 2⟩ with hx'
  set h1 : Heap ℂ := Function.update (fun _ => exTwo) 0 x' with hh1
  have h10 : h1 0 = x' := Function.update_self ..
  set w1 : World ℂ Bool ℝ := ⟨Function.update (startThreads la g (fun _ => exTwo)).thr true T1, h1⟩ with hw1
  obtain ⟨l2, hl2⟩ := Solo.exec (w := w1) (i := false) (t := .done (.ok 1)) (h := h1) (by
    have e : w1.thr false = Thr.snapshot 0 >>= fun x => (.done (.ok ‖x.val [[0], [0]]‖) : Thr ℂ ℝ) := by
      simp [hw1, startThreads, hg, Prog.thr]
    have hr : (w1.thr false).run h1 = (.ok 1, h1) := by
      rw [e, Thr.run_bind, Thr.snapshot_run, h10, ← c4]
      rfl
    have := Solo.run (w1.thr false) h1
    rw [hr] at this
    exact this)
  set w2 : World ℂ Bool ℝ := ⟨Function.update w1.thr false (.done (.ok 1)), h1⟩ with hw2
  set h3 : Heap ℂ := Function.update (fun _ => exTwo) 0 ⟨[t1, t2], 1, 2⟩ with hh3
  obtain ⟨l3, hl3⟩ := Solo.exec (w := w2) (i := true) (t := .done (.ok 2)) (h := h3) (by
    have : w2.thr true = T1 := by simp [hw2, hw1]
    rw [this]
    have := Solo.run T1 h1
    rw [c6] at this
    exact this)
  refine ⟨l1 ++ l2 ++ l3, ?_⟩
  have hfin : (startThreads la g (fun _ => exTwo)).exec (l1 ++ l2 ++ l3)
      = ⟨Function.update w2.thr true (.done (.ok 2)), h3⟩ := by
    rw [← hl3, ← hl2, ← c5]
    simp [World.exec, List.foldl_append]
  intro w
  have hw : w = _ := hfin
  rw [hw]
  refine ⟨by simp, by simp [hw2], exTwo_val, ?_⟩
  simp only [hh3, Function.update_self]
  exact c7

/-- Non-vacuity: routines that meet the contracts exist; two programs that share the object 0, one of which compresses a
copy and asks for its norm, while the other one canonicalises a copy and multiplies it, meet the hypotheses of
`C86_separate`; and there is a schedule after which the norms of two copies are known. -/
example : ∃ (la : Routines ℂ) (g : Bool → Prog ℂ ℝ) (own : Bool → Set ℕ), QRSpec la.qr ∧ SVDSpec la.svd ∧ exTwo.Good ∧
    (∀ i j, i ≠ j → Disjoint (own i) (own j)) ∧ (∀ i, Disjoint (own i) {0}) ∧ (∀ i, (g i).Respects (own i) {0} fun _ => exTwo) ∧
    ∃ sched : List (Fin 2), ∀ i,
      ((startThreads la (fun i : Fin 2 => normOfCopy (i + 1)) fun _ => exTwo).exec sched).thr i = .done (.ok 2) := by
  obtain ⟨qr, hqr⟩ := exists_QRSpec (𝕜 := ℂ)
  obtain ⟨svd, h⟩ := exists_SVDSpec (𝕜 := ℂ)
  refine ⟨⟨qr, svd, truncatedSvd svd⟩, fun b => bif b
    then .look 0 fun x => .new 1 x (.compress 1 (some 1) none none true fun _ => .norm 1 fun v => .ret (.ok v))
    else .look 0 fun x => .new 2 x (.canonicalize 2 .none .afull (.imul 2 3 (.ret (.ok 0)))),
    fun b => bif b then {1} else {2}, hqr, h, exTwo_good, ?_, ?_, ?_, ?_⟩
  · rintro (_ | _) (_ | _) hij <;> simp at hij ⊢
  · rintro (_ | _) <;> simp
  · rintro (_ | _)
    · exact .inr ⟨rfl, rfl, .inl rfl, rfl, trivial⟩
    · exact .inr ⟨rfl, rfl, rfl, fun _ => ⟨.inl rfl, fun _ => trivial⟩⟩
  · set la : Routines ℂ := ⟨qr, svd, truncatedSvd svd⟩
    have hp := fun i => C86_progress la (fun i : Fin 2 => normOfCopy (i + 1)) (fun i => {(i : ℕ) + 1}) {0}
      (fun i j hij => by
        rw [Set.disjoint_singleton]
        intro e
        exact hij (Fin.ext (by omega)))
      (fun i => by rw [Set.disjoint_singleton]; omega)
      (fun _ => exTwo) (fun i => .inr ⟨rfl, by
        beta_reduce
        cases exTwo.copy with
        | error e => trivial
        | ok y => exact ⟨rfl, .inl rfl, fun _ => trivial⟩⟩) i
    obtain ⟨n0, h0⟩ := hp 0
    obtain ⟨n1, h1⟩ := hp 1
    refine ⟨List.replicate n0 0 ++ List.replicate n1 1, fun i => ?_⟩
    have hd : ∃ v, ((startThreads la (fun i : Fin 2 => normOfCopy (i + 1)) fun _ => exTwo).exec
        (List.replicate n0 0 ++ List.replicate n1 1)).thr i = .done v := by
      fin_cases i
      · exact h0 _ (by simp [List.count_append])
      · exact h1 _ (by simp [List.count_append])
    obtain ⟨v, hv⟩ := hd
    have := (C86_norm_of_copies (la := la) hqr 2 (fun _ => exTwo) exTwo_good _).1 i v hv
    rw [hv, this, exTwo_frob exTwo rfl, exTwo_val]
    simp

/-- Non-vacuity of `C86_norm_shared`: a right-canonical object. -/
example : ∃ x : MPA ℂ, x.Good ∧ (x.r = 1 ∨ x.l = x.len - 1) ∧ x.len = 2 ∧ x.frob = 2 := by
  obtain ⟨qr, hqr⟩ := exists_QRSpec (𝕜 := ℂ)
  obtain ⟨y, g1, gy, gs, g3, g4, g5, g6⟩ := MPA.rcanonStep_ok hqr exTwo_good (by simp [exTwo, MPA.len])
  obtain ⟨t1, t2, hy, -⟩ := norm_solo (qr := qr) (p := 0) (h := fun _ => exTwo) (x := exTwo) rfl rfl g1
  subst hy
  refine ⟨_, gy, .inr (by simp [MPA.len]), rfl, ?_⟩
  rw [exTwo_frob _ gs.shape, gs.val [[0], [0]] (by simp [exTwo, MPA.shape, physShape, NDArray.ph, IdxOK, InB]), exTwo_val]
  simp

end Mpnum
