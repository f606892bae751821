import Verif.Program.DenseD
import Verif.Program.DenseUnique
import Verif.Props.C51
import Verif.Props.C01

/-!
# C54: programs compute what they would compute on dense tensors

A program that keeps to the shapes (`Safe`: stated for dense tensors only) never raises, and at every point each variable has the
shape and the entries that the same program on dense tensors (`DRun`) gives it, with a canonical form that is what it claims to be.
-/

namespace Mpnum

namespace Prog

variable {qr : QR ℂ} {svd : SVD ℂ}

theorem reps_one {xs : List (MPA ℂ)} {t : Ten} (h : List.Forall₂ Reps xs [t]) : ∃ x, xs = [x] ∧ Reps x t := by
  cases h with
  | cons h1 h2 => cases h2; exact ⟨_, rfl, h1⟩

theorem reps_two {xs : List (MPA ℂ)} {s t : Ten} (h : List.Forall₂ Reps xs [s, t]) :
    ∃ x y, xs = [x, y] ∧ Reps x s ∧ Reps y t := by
  cases h with
  | cons h1 h2 => obtain ⟨y, rfl, hy⟩ := reps_one h2; exact ⟨_, _, rfl, h1, hy⟩

/-- **C54, calls.** A call that is allowed on dense tensors does not raise, and its result represents the tensor that
the call has on dense tensors. -/
theorem C54_call (hqr : QRSpec qr) {f : Fun} {xs : List (MPA ℂ)} {ts : List Ten} {t : Ten} (h : List.Forall₂ Reps xs ts)
    (hf : Den f ts t) : ∃ z u, f.run qr xs = .ok z ∧ Den f ts u ∧ Reps z u := by
  have mk : ∀ {r : Py (MPA ℂ)} {u : Ten}, f.run qr xs = r → Makes r u → Den f ts u →
      ∃ z u, f.run qr xs = .ok z ∧ Den f ts u ∧ Reps z u := fun {r u} e m d => by
    obtain ⟨z, hz, hr⟩ := m
    exact ⟨z, u, e.trans hz, d, hr⟩
  cases hf with
  | copy t => obtain ⟨x, rfl, hx⟩ := reps_one h; exact mk rfl (den_copy hx) (.copy t)
  | plus t => obtain ⟨x, rfl, hx⟩ := reps_one h; exact ⟨x, t, rfl, .plus t, hx⟩
  | T t => obtain ⟨x, rfl, hx⟩ := reps_one h; exact mk rfl (den_T hx) (.T t)
  | transposeNone t => obtain ⟨x, rfl, hx⟩ := reps_one h; exact mk rfl (den_T hx) (.transposeNone t)
  | transpose t n axes hn ha =>
    obtain ⟨x, rfl, hx⟩ := reps_one h; exact mk rfl (den_transpose hx n axes hn ha) (.transpose t n axes hn ha)
  | adj t => obtain ⟨x, rfl, hx⟩ := reps_one h; exact mk rfl (den_adj hx) (.adj t)
  | conj t => obtain ⟨x, rfl, hx⟩ := reps_one h; exact mk rfl (den_conj hx) (.conj t)
  | reverse t => obtain ⟨x, rfl, hx⟩ := reps_one h; exact mk rfl (den_reverse hx) (.reverse t)
  | add s t hs => obtain ⟨x, y, rfl, hx, hy⟩ := reps_two h; exact mk rfl (den_add hx hy hs) (.add s t hs)
  | sub s t hs => obtain ⟨x, y, rfl, hx, hy⟩ := reps_two h; exact mk rfl (den_sub hx hy hs) (.sub s t hs)
  | mul c t => obtain ⟨x, rfl, hx⟩ := reps_one h; exact mk rfl (den_mul c hx) (.mul c t)
  | neg t => obtain ⟨x, rfl, hx⟩ := reps_one h; exact mk rfl (den_neg hx) (.neg t)
  | truediv c t hc => obtain ⟨x, rfl, hx⟩ := reps_one h; classical exact mk rfl (den_truediv c hc hx) (.truediv c t hc)
  | reshape t new hn =>
    obtain ⟨x, rfl, hx⟩ := reps_one h; exact mk rfl (den_reshape hx new hn) (.reshape t new hn)
  | ravel t => obtain ⟨x, rfl, hx⟩ := reps_one h; exact mk rfl (den_ravel hx) (.ravel t)
  | groupSites t k n hk hn =>
    obtain ⟨x, rfl, hx⟩ := reps_one h; exact mk rfl (den_groupSites hx k n hk hn) (.groupSites t k n hk hn)
  | splitSites t k m hk hm hl =>
    obtain ⟨x, rfl, hx⟩ := reps_one h
    exact mk rfl (den_splitSites hqr hx k m hk hm hl) (.splitSites t k m hk hm hl)
  | vleg2leg t pos D u hp hD hu =>
    obtain ⟨x, rfl, hx⟩ := reps_one h
    obtain ⟨D', u', hD', hu', m⟩ := den_vleg2leg hx pos hp
    exact mk rfl m (.vleg2leg t pos D' u' hp hD' hu')
  | splitLeft t pos D a b hp hD hab =>
    obtain ⟨x, rfl, hx⟩ := reps_one h
    obtain ⟨D', a', b', hD', hab', m, _⟩ := den_split (qr := qr) hx pos hp
    exact mk rfl m (.splitLeft t pos D' a' b' hp hD' hab')
  | splitRight t pos D a b hp hD hab =>
    obtain ⟨x, rfl, hx⟩ := reps_one h
    obtain ⟨D', a', b', hD', hab', _, m⟩ := den_split (qr := qr) hx pos hp
    exact mk rfl m (.splitRight t pos D' a' b' hp hD' hab')
  | sum t axes legs hs hl hr =>
    obtain ⟨x, rfl, hx⟩ := reps_one h; exact mk rfl (den_sum hx axes legs hs hl hr) (.sum t axes legs hs hl hr)
  | get t idx hl hi => obtain ⟨x, rfl, hx⟩ := reps_one h; exact mk rfl (den_get hx idx hl hi) (.get t idx hl hi)
  | padRanks t rank force =>
    obtain ⟨x, rfl, hx⟩ := reps_one h; exact mk rfl (den_padRanks hx rank force) (.padRanks t rank force)
  | padRanksNone t force hl =>
    obtain ⟨x, rfl, hx⟩ := reps_one h; exact mk rfl (den_padRanksNone hx force hl) (.padRanksNone t force hl)
  | dot s t axes hs => obtain ⟨x, y, rfl, hx, hy⟩ := reps_two h; exact mk rfl (den_dot hx hy axes hs) (.dot s t axes hs)
  | sumup _ S w hne hs hw => exact mk rfl (den_sumup h S w hne hs hw) (.sumup ts S w hne hs hw)
  | sumupNone _ S hne hs => exact mk rfl (den_sumupNone h S hne hs) (.sumupNone ts S hne hs)
  | partialdot s t a axes ha hs =>
    obtain ⟨x, y, rfl, hx, hy⟩ := reps_two h
    exact mk rfl (den_partialdot hx hy a axes ha hs) (.partialdot s t a axes ha hs)
  | partialdot' s t a axes hlt ha hs =>
    obtain ⟨x, y, rfl, hx, hy⟩ := reps_two h
    exact mk rfl (den_partialdot' hx hy a axes hlt ha hs) (.partialdot' s t a axes hlt ha hs)
  | chain _ hne => exact mk rfl (den_chain h hne) (.chain ts hne)
  | inject t p n e hp he =>
    obtain ⟨x, rfl, hx⟩ := reps_one h; exact mk rfl (den_inject hx p n e hp he) (.inject t p n e hp he)
  | localouter s t hl =>
    obtain ⟨x, y, rfl, hx, hy⟩ := reps_two h; exact mk rfl (den_localouter hx hy hl) (.localouter s t hl)
  | prune t => obtain ⟨x, rfl, hx⟩ := reps_one h; exact mk rfl (den_prune hx) (.prune t)
  | partialtrace t axes hl ha =>
    obtain ⟨x, rfl, hx⟩ := reps_one h; exact mk rfl (den_partialtrace hx axes hl ha) (.partialtrace t axes hl ha)
  | embedSlice t e a n ha he =>
    obtain ⟨x, rfl, hx⟩ := reps_one h; exact mk rfl (den_embedSlice hx e a n ha he) (.embedSlice t e a n ha he)
  | localSum _ e w length S hne hw hS he hf =>
    exact mk rfl (den_localSum h e w length S hne hw hS he hf) (.localSum ts e w length S hne hw hS he hf)
  | localSumSlices _ starts e S hne he hf =>
    exact mk rfl (den_localSumSlices h starts e S hne he hf) (.localSumSlices ts starts e S hne he hf)
  | mpsToPmps t D hs => obtain ⟨x, rfl, hx⟩ := reps_one h; exact mk rfl (den_mpsToPmps hx D hs) (.mpsToPmps t D hs)
  | pmpsToMps t D hs => obtain ⟨x, rfl, hx⟩ := reps_one h; exact mk rfl (den_pmpsToMps hx D hs) (.pmpsToMps t D hs)
  | pmpsToMpo t D A hl hs =>
    obtain ⟨x, rfl, hx⟩ := reps_one h; exact mk rfl (den_pmpsToMpo hx D A hl hs) (.pmpsToMpo t D A hl hs)
  | mpsToMpo t D hs => obtain ⟨x, rfl, hx⟩ := reps_one h; exact mk rfl (den_mpsToMpo hx D hs) (.mpsToMpo t D hs)

/-- **C54, in-place methods.** The same for the methods that change their first operand. -/
theorem C54_inplace (hqr : QRSpec qr) (hsvd : SVDSpec svd) {f : InFun} {x : MPA ℂ} {s : Ten} (hx : Reps x s)
    {xs : List (MPA ℂ)} {ts : List Ten} {t : Ten} (h : List.Forall₂ Reps xs ts) (hf : InDen f s ts t) :
    ∃ z u, f.run qr svd x xs = .ok z ∧ InDen f s ts u ∧ Reps z u := by
  have mk : ∀ {r : Py (MPA ℂ)} {u : Ten}, f.run qr svd x xs = r → Makes r u → InDen f s ts u →
      ∃ z u, f.run qr svd x xs = .ok z ∧ InDen f s ts u ∧ Reps z u := fun {r u} e m d => by
    obtain ⟨z, hz, hr⟩ := m
    exact ⟨z, u, e.trans hz, d, hr⟩
  cases hf with
  | canonicalizeNone _ => cases h; exact mk rfl (in_canonicalizeNone hqr hx) (.canonicalizeNone _)
  | canonicalize _ left right hne h0 h1 h2 =>
    cases h; exact mk rfl (in_canonicalize hqr hx left right hne h0 h1 h2) (.canonicalize _ left right hne h0 h1 h2)
  | norm _ => cases h; exact mk rfl (in_norm hqr hx) (.norm _)
  | imul c _ => cases h; exact mk rfl (den_imul c hx) (.imul c _)
  | itruediv c _ hc => cases h; classical exact mk rfl (den_itruediv c hc hx) (.itruediv c _ hc)
  | compressSvd _ rank relerr direction canon u hr he hd hu hu' =>
    cases h
    obtain ⟨u, hu, hu', m⟩ := in_compressSvd hqr hsvd hx rank relerr direction canon hr he hd
    exact mk rfl m (.compressSvd _ rank relerr direction canon u hr he hd hu hu')

/-- **C54, constructors.** The same for the constructors. -/
theorem C54_make (hqr : QRSpec qr) {f : Make} {ts : List (NDArray ℂ)} {t : Ten} (hf : MakeDen f ts t) :
    ∃ z, f.run qr ts = .ok z ∧ Reps z t := by
  cases hf with
  | mpArray _ hne hc hp => exact make_mpArray ts hne hc hp
  | fromKron _ hne hp => exact make_fromKron ts hne hp
  | fromArray A S hne hlast hp hs => exact make_fromArray hqr A S hne hlast hp hs

theorem bound_mpas {v : Vals} {d : DVals} (h : RepsAll v d) {ys : List ℕ} {ts : List Ten} (hy : d.tens ys ts) :
    ∃ xs, (ys.mapM fun y => bound (v.mpa y)) = .ok xs ∧ List.Forall₂ Reps xs ts := by
  induction hy with
  | nil => exact ⟨[], rfl, .nil⟩
  | @cons y t ys ts h1 _ ih =>
    obtain ⟨xs, hx, hr⟩ := ih
    obtain ⟨z, hz, hzr⟩ := h.some y t h1
    refine ⟨z :: xs, ?_, .cons hzr hr⟩
    rw [List.mapM_cons, hz, hx]
    rfl

theorem bound_arrs {v : Vals} {d : DVals} (h : RepsAll v d) {as : List ℕ} {ts : List (NDArray ℂ)} (ha : d.arrs as ts) :
    ∃ ws, (as.mapM fun a => bound (v.arr a)) = .ok ws ∧ ws.map Prod.fst = ts := by
  induction ha with
  | nil => exact ⟨[], rfl, rfl⟩
  | @cons a A as ts h1 _ ih =>
    obtain ⟨ws, hw, hr⟩ := ih
    obtain ⟨b, hb⟩ := h1
    refine ⟨(A, b) :: ws, ?_, by rw [List.map_cons, hr]⟩
    rw [List.mapM_cons, h.arr, hb]
    rw [h.arr] at hw
    rw [hw]
    rfl

theorem repsAll_bind {v : Vals} {d : DVals} (h : RepsAll v d) (x : ℕ) {z : MPA ℂ} {t : Ten} (hz : Reps z t) :
    RepsAll { v with mpa := upd v.mpa x (some z) } { d with ten := upd d.ten x (some t) } := by
  refine ⟨fun y hy => ?_, fun y s hy => ?_, h.arr⟩
  · by_cases e : y = x
    · subst e; rw [show ({ d with ten := upd d.ten y (some t) } : DVals).ten y = some t from upd_self _ _ _] at hy; cases hy
    · exact (upd_ne _ _ e).trans (h.none y (by rw [← hy]; exact (upd_ne _ _ e).symm))
  · by_cases e : y = x
    · subst e
      rw [show ({ d with ten := upd d.ten y (some t) } : DVals).ten y = some t from upd_self _ _ _] at hy
      obtain rfl := Option.some.inj hy
      exact ⟨z, upd_self _ _ _, hz⟩
    · obtain ⟨w, hw, hr⟩ := h.some y s (by rw [← hy]; exact (upd_ne _ _ e).symm)
      exact ⟨w, (upd_ne _ _ e).trans hw, hr⟩

theorem repsAll_unbind {v : Vals} {d : DVals} (h : RepsAll v d) (x : ℕ) :
    RepsAll { v with mpa := upd v.mpa x none } { d with ten := upd d.ten x none } := by
  refine ⟨fun y hy => ?_, fun y s hy => ?_, h.arr⟩
  · by_cases e : y = x
    · subst e; exact upd_self _ _ _
    · exact (upd_ne _ _ e).trans (h.none y (by rw [← hy]; exact (upd_ne _ _ e).symm))
  · by_cases e : y = x
    · subst e
      rw [show ({ d with ten := upd d.ten y none } : DVals).ten y = none from upd_self _ _ _] at hy
      cases hy
    · obtain ⟨w, hw, hr⟩ := h.some y s (by rw [← hy]; exact (upd_ne _ _ e).symm)
      exact ⟨w, (upd_ne _ _ e).trans hw, hr⟩

theorem repsAll_bindArr {v : Vals} {d : DVals} (h : RepsAll v d) (a : ℕ) (A : NDArray ℂ × Bool) :
    RepsAll { v with arr := upd v.arr a (some A) } { d with arr := upd d.arr a (some A) } :=
  ⟨h.none, h.some, by rw [h.arr]⟩

/-- The statement assigns a local tensor. -/
def Stmt.assigns : Stmt → Prop
  | .set _ _ _ => True
  | _ => False

/-- The assignment of a local tensor either fails the check of the bonds, or it leaves a well-formed MPA whose claims are true. -/
theorem reps_set {x : MPA ℂ} {t : Ten} (h : Reps x t) (i : ℕ) (A : NDArray ℂ) (hi : i < t.shape.length) (hA : PosShape A) :
    x.updateInt i A .none = .error .assertion ∨
      ∃ y, x.updateInt i A .none = .ok y ∧ Reps y ⟨t.shape.set i (A.shape.drop 1).dropLast, y.val⟩ := by
  have hl : i < x.len := by
    have := congrArg List.length h.shape
    rw [show x.shape.length = x.lt.length from physShape_length x.lt] at this
    unfold MPA.len
    omega
  rcases hy : x.updateInt i A .none with e | y
  · left
    unfold MPA.updateInt at hy
    rw [pyIndex_nat hl, ok_bind] at hy
    unfold pyAssert at hy
    simp only at hy
    split at hy
    · simp only [ok_bind] at hy
      split at hy
      · simp only [ok_bind] at hy
        split at hy
        · simp only [ok_bind, MPA.update1_ok x hl] at hy
          cases hy
        · cases hy; rfl
      · cases hy; rfl
    · cases hy; rfl
  · right
    have hlt : y.lt = x.lt.set i A := by
      unfold MPA.updateInt at hy
      obtain ⟨_, _, hy⟩ := bind_ok_inv hy
      obtain ⟨_, _, hy⟩ := bind_ok_inv hy
      obtain ⟨_, _, hy⟩ := bind_ok_inv hy
      obtain ⟨_, _, hy⟩ := bind_ok_inv hy
      rw [MPA.update1_ok x hl] at hy
      obtain rfl := Except.ok.inj hy
      simp only
      rw [if_neg (by simp), if_neg (by simp)]
    obtain ⟨hv, hc⟩ := C12_update_partial x h.good.valid h.good.canon i A none ⟨(by simp), (by simp)⟩ (by simp) (by simp) y hy
    refine ⟨y, rfl, ⟨hv, hc, ?_⟩, ?_, fun _ _ => rfl⟩
    · intro u hu
      rw [hlt] at hu
      rcases List.mem_or_eq_of_mem_set hu with hu | rfl
      · exact h.good.pos u hu
      · exact hA
    · show physShape y.lt = _
      rw [hlt, ← h.shape]
      simp only [MPA.shape, physShape, List.map_set, NDArray.ph, List.drop_one]

/-- **C54, one statement.** A statement that is allowed on dense tensors does not raise, and the new values are those of a
step of the dense program. -/
theorem C54_step (hqr : QRSpec qr) (hsvd : SVDSpec svd) {v : Vals} {d : DVals} (h : RepsAll v d) {st : Stmt}
    (hns : ¬ st.assigns) (hs : ∃ d', DStep d st d') : ∃ v' d', vstep qr svd v st = .ok v' ∧ DStep d st d' ∧ RepsAll v' d' := by
  obtain ⟨_, hs⟩ := hs
  cases hs with
  | array a A => exact ⟨_, _, rfl, .array a A, repsAll_bindArr h a (A, true)⟩
  | write a A B hb =>
    refine ⟨_, _, ?_, .write a A B hb, repsAll_bindArr h a (A, true)⟩
    simp only [vstep, h.arr, hb, bound, ok_bind, if_true]
  | read a x i t A hx hi =>
    obtain ⟨z, hz, hr⟩ := h.some x t hx
    obtain ⟨T, hT⟩ : ∃ T, z.site (i : ℤ) = .ok T := by
      have hl : i < z.lt.length := by
        have := congrArg List.length hr.shape
        rw [show z.shape.length = z.lt.length from physShape_length z.lt] at this
        omega
      refine ⟨z.lt[i], ?_⟩
      have := MPA.site_ok (x := z) (pre := z.lt.take i) (t := z.lt[i]) (post := z.lt.drop (i + 1)) (by simp)
      rwa [List.length_take, min_eq_left hl.le] at this
    refine ⟨_, _, ?_, .read a x i t T hx hi, repsAll_bindArr h a (T, false)⟩
    simp only [vstep, hz, bound, ok_bind, hT]
    rfl
  | set => exact (hns trivial).elim
  | make x f as ts t ha hf =>
    obtain ⟨ws, hw, hts⟩ := bound_arrs h ha
    obtain ⟨z, hz, hr⟩ := C54_make hqr hf
    exact ⟨_, _, vstep_make svd hw (by rw [hts]; exact hz), .make x f as ts t ha hf, repsAll_bind h x hr⟩
  | call x f ys ts t hy hf =>
    obtain ⟨xs, hx, hr⟩ := bound_mpas h hy
    obtain ⟨z, u, hz, hu, hzr⟩ := C54_call hqr hr hf
    exact ⟨_, _, vstep_call svd hx hz, .call x f ys ts u hy hu, repsAll_bind h x hzr⟩
  | same x y t hy =>
    obtain ⟨z, hz, hr⟩ := h.some y t hy
    refine ⟨_, _, ?_, .same x y t hy, repsAll_bind h x hr⟩
    simp only [vstep, hz, bound, ok_bind]
    rfl
  | wrap x y t hy =>
    obtain ⟨z, hz, hr⟩ := h.some y t hy
    refine ⟨_, _, ?_, .wrap x y t hy, repsAll_bind h x hr⟩
    simp only [vstep, hz, bound, ok_bind]
    rfl
  | inplace f x ys s ts t hx hy hf =>
    obtain ⟨w, hw, hwr⟩ := h.some x s hx
    obtain ⟨xs, hxs, hr⟩ := bound_mpas h hy
    obtain ⟨z, u, hz, hu, hzr⟩ := C54_inplace hqr hsvd hwr hr hf
    exact ⟨_, _, vstep_inplace (by rw [hw]; rfl) hxs hz, .inplace f x ys s ts u hx hy hu, repsAll_bind h x hzr⟩
  | move x y t hy =>
    obtain ⟨z, hz, hr⟩ := h.some y t hy
    refine ⟨_, _, ?_, .move x y t hy, repsAll_bind (repsAll_unbind h y) x hr⟩
    simp only [vstep, hz, bound, ok_bind]
    rfl
  | rebind x y s t hx hy =>
    obtain ⟨z, hz, hr⟩ := h.some y t hy
    obtain ⟨w, hw, _⟩ := h.some x s hx
    refine ⟨_, _, ?_, .rebind x y s t hx hy, repsAll_bind (repsAll_unbind h y) x hr⟩
    simp only [vstep, hz, hw, bound, ok_bind]
    rfl

/-- **C12, all histories.** A program all of whose statements are allowed on dense tensors, assignments of local tensors by
non-negative index included, either ends because such an assignment failed the check of the bonds, or all its variables
are well-formed MPAs whose claims about the canonical form are true (`Reps`), with the shapes and the entries of the
dense program. -/
theorem C12_history_partial (hqr : QRSpec qr) (hsvd : SVDSpec svd) {P : List Stmt} {v : Vals} {d : DVals} (h : RepsAll v d)
    (hP : Safe d P) : (vrun qr svd v P = .error .assertion ∧ ∃ st ∈ P, st.assigns) ∨
      ∃ v' d', vrun qr svd v P = .ok v' ∧ DRun d P d' ∧ RepsAll v' d' := by
  induction P generalizing v d with
  | nil => exact Or.inr ⟨v, d, rfl, .nil d, h⟩
  | cons st P ih =>
    have key : (vstep qr svd v st = .error .assertion ∧ st.assigns) ∨
        ∃ v' d', vstep qr svd v st = .ok v' ∧ DStep d st d' ∧ RepsAll v' d' := by
      by_cases ha : st.assigns
      · obtain ⟨_, hs⟩ := hP.1
        cases hs with
        | set x i a t A b u hx hA hi hp =>
          obtain ⟨z, hz, hr⟩ := h.some x t hx
          rcases reps_set hr i A hi hp with e | ⟨y, e, hy⟩
          · refine Or.inl ⟨?_, ha⟩
            simp only [vstep, hz, h.arr, hA, bound, ok_bind, e]
            rfl
          · refine Or.inr ⟨_, _, ?_, .set x i a t A b y.val hx hA hi hp, repsAll_bind h x hy⟩
            simp only [vstep, hz, h.arr, hA, bound, ok_bind, e]
            rfl
        | _ => exact ha.elim
      · exact Or.inr (C54_step hqr hsvd h ha hP.1)
    rcases key with ⟨e, ha⟩ | ⟨v1, d1, h1, h2, h3⟩
    · refine Or.inl ⟨?_, st, by simp, ha⟩
      simp only [vrun, e]
      rfl
    · rcases ih h3 (hP.2 d1 h2) with ⟨e, s, hs, ha⟩ | ⟨v2, d2, k1, k2, k3⟩
      · exact Or.inl ⟨(vrun_cons h1).trans e, s, by simp [hs], ha⟩
      · exact Or.inr ⟨v2, d2, (vrun_cons h1).trans k1, .cons d st d1 P d2 h2 k2, k3⟩

/-- **C54.** A program all of whose statements are allowed on dense tensors never raises, and at its end every variable
represents the tensor that the dense program gives it: same shape, same entries, and a canonical form that is what it claims to be.
(Every prefix of the program is a program, so this holds at every point.) -/
theorem C54_program (hqr : QRSpec qr) (hsvd : SVDSpec svd) {P : List Stmt} {v : Vals} {d : DVals} (h : RepsAll v d)
    (hP : Safe d P) (hns : ∀ st ∈ P, ¬ st.assigns) : ∃ v' d', vrun qr svd v P = .ok v' ∧ DRun d P d' ∧ RepsAll v' d' := by
  rcases C12_history_partial hqr hsvd h hP with ⟨_, st, hst, ha⟩ | h
  · exact (hns st hst ha).elim
  · exact h

/-- No variable is bound. -/
def DVals.empty : DVals := ⟨fun _ => none, fun _ => none⟩

theorem repsAll_empty : RepsAll Store.empty.vals DVals.empty :=
  ⟨fun _ _ => rfl, fun _ _ h => (by cases h), rfl⟩

/-- What can be seen of the tensor `t` in the MPA `z`: `to_array` gives all entries, and the claims about the canonical
form are true. -/
def Shows (z : MPA ℂ) (t : Ten) : Prop :=
  z.CanonOK ∧ z.shape = t.shape ∧
    ∃ A, z.toArray = .ok A ∧ A.shape = t.shape.flatten ∧ ∀ j, IdxOK j t.shape → A.get j.flatten = t.val j

theorem reps_shows {z : MPA ℂ} {t : Ten} (h : Reps z t) : Shows z t := by
  obtain ⟨A, hA, hs, hv⟩ := C01_to_array z h.good.valid
  refine ⟨h.good.canon, h.shape, A, hA, by rw [hs, h.shape], fun j hj => ?_⟩
  rw [hv j (by rw [h.shape]; exact hj), h.val j hj]

/-- **C54, arrays.** The same in terms of `to_array`, for programs that start with nothing. -/
theorem C54_to_array (hqr : QRSpec qr) (hsvd : SVDSpec svd) {P : List Stmt} (hP : Safe DVals.empty P)
    (hns : ∀ st ∈ P, ¬ st.assigns) : ∃ v d, vrun qr svd Store.empty.vals P = .ok v ∧ DRun DVals.empty P d ∧
      ∀ x t, d.ten x = some t → ∃ z, v.mpa x = some z ∧ Shows z t := by
  obtain ⟨v, d, h1, h2, h3⟩ := C54_program hqr hsvd repsAll_empty hP hns
  refine ⟨v, d, h1, h2, fun x t hx => ?_⟩
  obtain ⟨z, hz, hr⟩ := h3.some x t hx
  exact ⟨z, hz, reps_shows hr⟩

/-- **C54, objects.** The same for all executions with objects, references and views (C51), as long as the program does
not use a second name for an object. -/
theorem C54_objects (hqr : QRSpec qr) (hsvd : SVDSpec svd) {P : List Stmt} (hP : Safe DVals.empty P)
    (hns : ∀ st ∈ P, ¬ st.assigns) (hpl : Plain qr svd ∅ Store.empty.vals P) {res : Py Store} (h : Run qr svd Store.empty P res) :
    ∃ s d, res = .ok s ∧ DRun DVals.empty P d ∧ ∀ x t, d.ten x = some t → ∃ z, s.mpa x = some z ∧ Shows z t := by
  obtain ⟨v, d, h1, h2, h3⟩ := C54_to_array hqr hsvd hP hns
  have hv := C51_value_semantics hpl h
  rw [h1] at hv
  cases res with
  | error e => cases hv
  | ok s => obtain rfl := Except.ok.inj hv; exact ⟨s, d, rfl, h2, h3⟩

theorem det_not_assigns {st : Stmt} (h : st.det) : ¬ st.assigns := by
  cases st <;> first | exact id | exact fun _ => h

/-- **C12, all histories, in terms of the values.** Starting with nothing, whenever such a program has run without an
exception, every MPA is well-formed, and every site it reports as left- or right-canonical is one. -/
theorem C12_program_partial (hqr : QRSpec qr) (hsvd : SVDSpec svd) {P : List Stmt} (hP : Safe DVals.empty P) {v : Vals}
    (h : vrun qr svd Store.empty.vals P = .ok v) {x : ℕ} {z : MPA ℂ} (hz : v.mpa x = some z) : z.Valid ∧ z.CanonOK := by
  rcases C12_history_partial hqr hsvd repsAll_empty hP with ⟨e, _⟩ | ⟨v', d, e, _, hr⟩
  · rw [e] at h; cases h
  · obtain rfl := Except.ok.inj (e.symm.trans h)
    rcases hd : d.ten x with _ | t
    · rw [hr.none x hd] at hz; cases hz
    · obtain ⟨w, hw, hwr⟩ := hr.some x t hd
      obtain rfl := Option.some.inj (hz.symm.trans hw)
      exact ⟨hwr.good.valid, hwr.good.canon⟩

/-- **C54, unique results.** If the program has an execution on dense tensors, and no statement leaves a choice (no
compression, `vleg2leg` or `split`, no access to local tensors), it does not raise, and all its variables show the tensors of this
execution. -/
theorem C54_determined (hqr : QRSpec qr) (hsvd : SVDSpec svd) {P : List Stmt} {d : DVals} (hP : DRun DVals.empty P d)
    (hd : ∀ st ∈ P, st.det) : ∃ v, vrun qr svd Store.empty.vals P = .ok v ∧
      (∀ x, d.ten x = none → v.mpa x = none) ∧ ∀ x t, d.ten x = some t → ∃ z, v.mpa x = some z ∧ Shows z t := by
  obtain ⟨v, e, h1, h2, h3⟩ := C54_program hqr hsvd repsAll_empty (safe_of_drun hP hd) fun st hst => det_not_assigns (hd st hst)
  obtain rfl := drun_unique h2 hP hd
  refine ⟨v, h1, h3.none, fun x t hx => ?_⟩
  obtain ⟨z, hz, hr⟩ := h3.some x t hx
  exact ⟨z, hz, reps_shows hr⟩

/-- The tensor itself is one of the results that the specification allows for a compression. -/
theorem inDen_compress_self (t : Ten) (rank : Option ℤ) (relerr : Option ℝ) (direction : Option Dir) (canon : Bool)
    (hr : ∀ r, rank = some r → 0 < r) (he : ∀ e, relerr = some e → 0 ≤ e ∧ e ≤ 1) (hd : direction ≠ some .other) :
    InDen (.compressSvd rank relerr direction canon) t [] ⟨t.shape, t.val⟩ := by
  refine .compressSvd t rank relerr direction canon t.val hr he hd rfl ?_
  rw [sub_self]
  unfold Ten.sq
  rw [sumSites_congr (g := fun _ => 0) fun j _ => by simp]
  exact sumSites_zero _

/-- A program with calls, a change in place, and a compression whose result is used. -/
noncomputable def exDense : List Stmt :=
  [.array 0 (exMPAc.lt.getD 0 ⟨[], fun _ => 0⟩), .array 1 (exMPAc.lt.getD 1 ⟨[], fun _ => 0⟩), .make 0 .mpArray [0, 1],
    .call 1 .conj [0], .inplace (.imul 2) 1 [], .inplace (.canonicalize .none .none) 1 [],
    .inplace (.compressSvd (some 1) none none true) 1 [], .call 2 .add [0, 1], .call 3 .chain [2, 0]]

/-- Non-vacuity: the example program is safe. -/
theorem exDense_safe : Safe DVals.empty exDense := by
  have hm : MakeDen .mpArray exMPAc.lt ⟨exMPAc.shape, exMPAc.val⟩ :=
    .mpArray exMPAc.lt exMPAc_good.valid.ne exMPAc_good.valid.chain exMPAc_good.pos
  refine ⟨⟨_, .array _ _⟩, fun d1 h1 => ?_⟩
  cases h1
  refine ⟨⟨_, .array _ _⟩, fun d1 h1 => ?_⟩
  cases h1
  have ha : (DVals.mk DVals.empty.ten (upd (upd DVals.empty.arr 0 (some (exMPAc.lt.getD 0 ⟨[], fun _ => 0⟩, true))) 1
      (some (exMPAc.lt.getD 1 ⟨[], fun _ => 0⟩, true)))).arrs [0, 1] exMPAc.lt :=
    .cons ⟨true, rfl⟩ (.cons ⟨true, rfl⟩ .nil)
  refine ⟨⟨_, .make 0 _ _ _ _ ha hm⟩, fun d1 h1 => ?_⟩
  cases h1 with
  | make _ _ _ ts t ha' hf =>
  obtain rfl := arrs_unique ha ha'
  obtain rfl := makeDen_unique hm hf rfl
  refine ⟨⟨_, .call 1 _ _ _ _ (.cons rfl .nil) (.conj ⟨exMPAc.shape, exMPAc.val⟩)⟩, fun d1 h1 => ?_⟩
  obtain rfl := dstep_unique (.call 1 _ _ _ _ (.cons rfl .nil) (.conj ⟨exMPAc.shape, exMPAc.val⟩)) h1 trivial
  refine ⟨⟨_, .inplace _ 1 _ _ _ _ rfl .nil (.imul 2 _)⟩, fun d1 h1 => ?_⟩
  obtain rfl := dstep_unique (.inplace _ 1 _ _ _ _ rfl .nil (.imul 2 _)) h1 trivial
  refine ⟨⟨_, .inplace _ 1 _ _ _ _ rfl .nil (.canonicalizeNone _)⟩, fun d1 h1 => ?_⟩
  obtain rfl := dstep_unique (.inplace _ 1 _ _ _ _ rfl .nil (.canonicalizeNone _)) h1 trivial
  refine ⟨⟨_, .inplace _ 1 _ _ _ _ rfl .nil (inDen_compress_self _ _ _ _ _ (fun r h => by cases h; norm_num)
    (fun e h => by cases h) (by simp))⟩, fun d1 h1 => ?_⟩
  cases h1 with
  | inplace _ _ _ s ts t hx hy hf =>
  cases hf with
  | compressSvd _ _ _ _ _ u _ _ _ _ _ =>
  obtain rfl := Option.some.inj hx
  refine ⟨⟨_, .call 2 _ _ _ _ (.cons rfl (.cons rfl .nil)) (.add ⟨exMPAc.shape, exMPAc.val⟩ ⟨exMPAc.shape, u⟩ rfl)⟩,
    fun d1 h1 => ?_⟩
  obtain rfl := dstep_unique (.call 2 _ _ _ _ (.cons rfl (.cons rfl .nil))
    (.add ⟨exMPAc.shape, exMPAc.val⟩ ⟨exMPAc.shape, u⟩ rfl)) h1 trivial
  exact ⟨⟨_, .call 3 _ _ _ _ (.cons rfl (.cons rfl .nil)) (.chain _ (by simp))⟩, fun d1 h1 => trivial⟩

/-- A program that assigns a local tensor and uses the result. -/
noncomputable def exAssign : List Stmt :=
  [.array 0 (exMPAc.lt.getD 0 ⟨[], fun _ => 0⟩), .array 1 (exMPAc.lt.getD 1 ⟨[], fun _ => 0⟩), .make 0 .mpArray [0, 1],
    .inplace .norm 0 [], .set 0 1 1, .call 1 .neg [0]]

/-- Non-vacuity of `C12_history_partial` and `C12_program_partial`. -/
theorem exAssign_safe : Safe DVals.empty exAssign := by
  have hm : MakeDen .mpArray exMPAc.lt ⟨exMPAc.shape, exMPAc.val⟩ :=
    .mpArray exMPAc.lt exMPAc_good.valid.ne exMPAc_good.valid.chain exMPAc_good.pos
  refine ⟨⟨_, .array _ _⟩, fun d1 h1 => ?_⟩
  cases h1
  refine ⟨⟨_, .array _ _⟩, fun d1 h1 => ?_⟩
  cases h1
  have ha : (DVals.mk DVals.empty.ten (upd (upd DVals.empty.arr 0 (some (exMPAc.lt.getD 0 ⟨[], fun _ => 0⟩, true))) 1
      (some (exMPAc.lt.getD 1 ⟨[], fun _ => 0⟩, true)))).arrs [0, 1] exMPAc.lt :=
    .cons ⟨true, rfl⟩ (.cons ⟨true, rfl⟩ .nil)
  refine ⟨⟨_, .make 0 _ _ _ _ ha hm⟩, fun d1 h1 => ?_⟩
  cases h1 with
  | make _ _ _ ts t ha' hf =>
  obtain rfl := arrs_unique ha ha'
  obtain rfl := makeDen_unique hm hf rfl
  refine ⟨⟨_, .inplace _ 0 _ _ _ _ rfl .nil (.norm _)⟩, fun d1 h1 => ?_⟩
  obtain rfl := dstep_unique (.inplace _ 0 _ _ _ _ rfl .nil (.norm _)) h1 trivial
  refine ⟨⟨_, .set 0 1 1 _ _ _ (fun _ => 0) rfl rfl (by simp [MPA.shape, physShape, exMPAc]) ?_⟩, fun d1 h1 => ?_⟩
  · exact fun d hd => exMPAc_good.pos _ (by simp [exMPAc]) d hd
  · obtain ⟨t, ht⟩ : ∃ t, d1.ten 0 = some t := by
      cases h1
      exact ⟨_, rfl⟩
    exact ⟨⟨_, .call 1 _ _ _ _ (.cons ht .nil) (.neg _)⟩, fun _ _ => trivial⟩

end Prog

end Mpnum
