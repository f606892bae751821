import Verif.Program.Store
import Verif.MPArray.RanksKept

/-!
# Programs without second names: every variable has its own value
-/

namespace Mpnum

namespace Prog

@[simp] theorem upd_self {α : Type} (f : ℕ → Option α) (x v) : upd f x v x = v := by simp [upd]

theorem upd_ne {α : Type} (f : ℕ → Option α) {x y : ℕ} (v) (h : y ≠ x) : upd f x v y = f y := by simp [upd, h]

/-- No two MPA variables have the same `LocalTensors` object, and arrays that can be written to and have not been given
away share their buffer with nothing. -/
structure Sep (s : Store) (T : Set ℕ) : Prop where
  obj : ∀ x o, s.mvar x = some o → ∃ k, s.objs[o]? = some k ∧ k < s.lts.length
  inj : ∀ x y k, s.ltId x = some k → s.ltId y = some k → x = y
  mref : ∀ o ∈ s.lts, ∀ r ∈ o.refs, r.buf < s.bufs.length
  aref : ∀ a r, s.avar a = some r → r.buf < s.bufs.length
  clean : ∀ a r, a ∉ T → s.avar a = some r → r.writable = true →
    (∀ o ∈ s.lts, ∀ q ∈ o.refs, q.buf ≠ r.buf) ∧ ∀ a' r', a' ≠ a → s.avar a' = some r' → r'.buf ≠ r.buf

theorem Sep.ltId_lt {s : Store} {T} (h : Sep s T) {x k} (hk : s.ltId x = some k) : k < s.lts.length := by
  unfold Store.ltId at hk
  rcases hm : s.mvar x with _ | o
  · simp [hm] at hk
  · obtain ⟨k', h1, h2⟩ := h.obj x o hm
    simp [hm, h1] at hk
    omega

theorem Sep.ltId_some {s : Store} {T} (h : Sep s T) {x o} (hm : s.mvar x = some o) : ∃ k, s.ltId x = some k := by
  obtain ⟨k, h1, _⟩ := h.obj x o hm
  exact ⟨k, by simp [Store.ltId, hm, h1]⟩

theorem ltOf_mem {s : Store} {x o} (h : s.ltOf x = some o) : o ∈ s.lts := by
  unfold Store.ltOf at h
  rcases hk : s.ltId x with _ | k
  · simp [hk] at h
  · simp [hk] at h
    exact List.mem_of_getElem? h

/-- New buffers do not change the arrays that are there. -/
theorem deref_append {s : Store} {r : Ref} (h : r.buf < s.bufs.length) (new) :
    ({ s with bufs := s.bufs ++ new } : Store).deref r = s.deref r := by
  simp [Store.deref, List.getD_eq_getElem?_getD, List.getElem?_append_left h]

theorem map_deref_append {s : Store} {refs : List Ref} (h : ∀ r ∈ refs, r.buf < s.bufs.length) (new) :
    refs.map ({ s with bufs := s.bufs ++ new } : Store).deref = refs.map s.deref :=
  List.map_congr_left fun r hr => deref_append (h r hr) new

theorem vals_append {s : Store} {T} (h : Sep s T) (new) :
    ({ s with bufs := s.bufs ++ new } : Store).vals = s.vals := by
  ext1
  · funext x
    change Option.map _ (s.ltOf x) = Option.map _ (s.ltOf x)
    rcases ho : s.ltOf x with _ | o
    · rfl
    · simp [Store.ltVal, map_deref_append (h.mref o (ltOf_mem ho)) new]
  · funext a
    change Option.map _ (s.avar a) = Option.map _ (s.avar a)
    rcases ho : s.avar a with _ | r
    · rfl
    · simp [deref_append (h.aref a r ho) new]

theorem Sep.append {s : Store} {T} (h : Sep s T) (new) : Sep { s with bufs := s.bufs ++ new } T where
  obj := h.obj
  inj := h.inj
  mref o ho r hr := by
    have := h.mref o ho r hr
    simp only [List.length_append]; omega
  aref a r ha := by
    have := h.aref a r ha
    simp only [List.length_append]; omega
  clean := h.clean

/-- Buffers of clean arrays are not among those of MPAs. -/
theorem mem_mbufs {s : Store} {xs : List ℕ} {b : ℕ} (h : b ∈ s.mbufs xs) : ∃ o ∈ s.lts, ∃ q ∈ o.refs, q.buf = b := by
  unfold Store.mbufs at h
  rw [List.mem_flatMap] at h
  obtain ⟨x, _, hx⟩ := h
  rcases ho : s.ltOf x with _ | o
  · simp [ho] at hx
  · simp [ho] at hx
    obtain ⟨q, hq, e⟩ := hx
    exact ⟨o, ltOf_mem ho, q, hq, e⟩

theorem mem_abufs {s : Store} {as : List ℕ} {b : ℕ} (h : b ∈ s.abufs as) : ∃ a ∈ as, ∃ r, s.avar a = some r ∧ r.buf = b := by
  unfold Store.abufs at h
  rw [List.mem_flatMap] at h
  obtain ⟨a, ha, hx⟩ := h
  rcases ho : s.avar a with _ | r
  · simp [ho] at hx
  · simp [ho] at hx
    exact ⟨a, ha, r, ho, hx.symm⟩

/-- Assigning a new object to a variable. -/
theorem bindNew_sim {s : Store} {T T' : Set ℕ} (h : Sep s T) {ow} {z : MPA ℂ} {s' refs} (x : ℕ)
    (hT : ∀ a, a ∉ T' → a ∉ T)
    (how : ∀ a r, a ∉ T' → s.avar a = some r → r.writable = true → r.buf ∉ ow) (hh : Holds s ow z.lt s' refs) :
    Sep (s'.bindNew x ⟨refs, z.l, z.r⟩) T' ∧
      (s'.bindNew x ⟨refs, z.l, z.r⟩).vals = { s.vals with mpa := upd s.vals.mpa x (some z) } := by
  obtain ⟨⟨new, rfl⟩, hv, hr, ho⟩ := hh
  have h' := h.append new
  set s' : Store := { s with bufs := s.bufs ++ new } with hs'
  have hid : ∀ y, (s'.bindNew x ⟨refs, z.l, z.r⟩).ltId y = if y = x then some s'.lts.length else s'.ltId y := by
    intro y
    unfold Store.ltId Store.bindNew
    by_cases hy : y = x
    · simp [upd, hy]
    · simp only [upd, hy, if_false]
      rcases hm : s'.mvar y with _ | o
      · rfl
      · obtain ⟨k, h1, _⟩ := h'.obj y o hm
        simp only [Option.bind_some]
        rw [List.getElem?_append_left]
        exact (List.getElem?_eq_some_iff.1 h1).1
  have hlt : ∀ y, (s'.bindNew x ⟨refs, z.l, z.r⟩).ltOf y = if y = x then some ⟨refs, z.l, z.r⟩ else s'.ltOf y := by
    intro y
    unfold Store.ltOf
    rw [hid]
    by_cases hy : y = x
    · simp [hy, Store.bindNew]
    · simp only [hy, if_false]
      rcases hk : s'.ltId y with _ | k
      · rfl
      · have := h'.ltId_lt hk
        simp [Store.bindNew, List.getElem?_append_left this]
  refine ⟨⟨?_, ?_, ?_, ?_, ?_⟩, ?_⟩
  · intro y o hy
    have : ∃ k, (s'.bindNew x ⟨refs, z.l, z.r⟩).ltId y = some k ∧ k < (s'.bindNew x ⟨refs, z.l, z.r⟩).lts.length := by
      rw [hid]
      by_cases hyx : y = x
      · exact ⟨_, by rw [if_pos hyx], by simp [Store.bindNew]⟩
      · rw [if_neg hyx]
        have hm : s'.mvar y = some o := by simpa [Store.bindNew, upd, hyx] using hy
        obtain ⟨k, hk⟩ := h'.ltId_some hm
        have := h'.ltId_lt hk
        exact ⟨k, hk, by simp only [Store.bindNew, List.length_append, List.length_singleton]; omega⟩
    obtain ⟨k, h1, h2⟩ := this
    refine ⟨k, ?_, h2⟩
    simpa [Store.ltId, hy] using h1
  · intro y y' k h1 h2
    rw [hid] at h1 h2
    by_cases hy : y = x <;> by_cases hy' : y' = x
    · rw [hy, hy']
    · rw [if_pos hy] at h1; rw [if_neg hy'] at h2
      have := h'.ltId_lt h2
      simp at h1; omega
    · rw [if_neg hy] at h1; rw [if_pos hy'] at h2
      have := h'.ltId_lt h1
      simp at h2; omega
    · rw [if_neg hy] at h1; rw [if_neg hy'] at h2
      exact h'.inj y y' k h1 h2
  · intro o hom r hrm
    rcases List.mem_append.1 hom with hom | hom
    · exact h'.mref o hom r hrm
    · rw [List.mem_singleton] at hom
      subst hom
      exact hr r hrm
  · exact h'.aref
  · intro a r ha hav hw
    obtain ⟨h1, h2⟩ := h'.clean a r (hT a ha) hav hw
    refine ⟨fun o hom q hq => ?_, h2⟩
    rcases List.mem_append.1 hom with hom | hom
    · exact h1 o hom q hq
    · rw [List.mem_singleton] at hom
      subst hom
      intro e
      have hlt := h.aref a r hav
      exact how a r ha hav hw (e ▸ ho q hq (by omega))
  · rw [← vals_append h new]
    ext1
    · funext y
      change Option.map _ ((s'.bindNew x ⟨refs, z.l, z.r⟩).ltOf y) = _
      rw [hlt]
      by_cases hy : y = x
      · simp only [hy, if_true, Option.map_some, upd]
        congr 1
        obtain ⟨zl, z1, z2⟩ := z
        exact congrArg (fun t => MPA.mk t z1 z2) hv
      · simp only [hy, if_false, upd]
        rfl
    · rfl

/-- Replacing the tensors of an object. -/
theorem setLt_sim {s : Store} {T T' : Set ℕ} (h : Sep s T) {ow} {z : MPA ℂ} {s' refs} (x : ℕ) (hx : (s.mpa x).isSome)
    (hT : ∀ a, a ∉ T' → a ∉ T)
    (how : ∀ a r, a ∉ T' → s.avar a = some r → r.writable = true → r.buf ∉ ow) (hh : Holds s ow z.lt s' refs) :
    Sep (s'.setLt x ⟨refs, z.l, z.r⟩) T' ∧
      (s'.setLt x ⟨refs, z.l, z.r⟩).vals = { s.vals with mpa := upd s.vals.mpa x (some z) } := by
  obtain ⟨⟨new, rfl⟩, hv, hr, ho⟩ := hh
  have h' := h.append new
  set s' : Store := { s with bufs := s.bufs ++ new } with hs'
  obtain ⟨k, hk⟩ : ∃ k, s'.ltId x = some k := by
    change ∃ k, s.ltId x = some k
    unfold Store.mpa Store.ltOf at hx
    rcases hk : s.ltId x with _ | k
    · simp [hk] at hx
    · exact ⟨k, rfl⟩
  have hkl := h'.ltId_lt hk
  have hset : s'.setLt x ⟨refs, z.l, z.r⟩ = { s' with lts := s'.lts.set k ⟨refs, z.l, z.r⟩ } := by
    simp [Store.setLt, hk]
  rw [hset]
  refine ⟨⟨?_, h'.inj, ?_, h'.aref, ?_⟩, ?_⟩
  · intro y o hy
    obtain ⟨k', h1, h2⟩ := h'.obj y o hy
    exact ⟨k', h1, by simpa using h2⟩
  · intro o hom r hrm
    rcases List.mem_or_eq_of_mem_set hom with hom | hom
    · exact h'.mref o hom r hrm
    · subst hom
      exact hr r hrm
  · intro a r ha hav hw
    obtain ⟨h1, h2⟩ := h'.clean a r (hT a ha) hav hw
    refine ⟨fun o hom q hq => ?_, h2⟩
    rcases List.mem_or_eq_of_mem_set hom with hom | hom
    · exact h1 o hom q hq
    · subst hom
      intro e
      have hlt := h.aref a r hav
      exact how a r ha hav hw (e ▸ ho q hq (by omega))
  · rw [← vals_append h new]
    ext1
    · funext y
      change Option.map _ ((s'.ltId y).bind fun j => (s'.lts.set k ⟨refs, z.l, z.r⟩)[j]?) = upd s'.mpa x (some z) y
      by_cases hy : y = x
      · subst hy
        simp only [hk, Option.bind_some, upd_self, List.getElem?_set_self hkl, Option.map_some]
        congr 1
        obtain ⟨zl, z1, z2⟩ := z
        exact congrArg (fun t => MPA.mk t z1 z2) hv
      · rw [upd_ne _ _ hy]
        change _ = Option.map _ ((s'.ltId y).bind fun j => s'.lts[j]?)
        rcases hj : s'.ltId y with _ | j
        · rfl
        · have : k ≠ j := fun e => hy (h'.inj y x j hj (e ▸ hk))
          simp only [Option.bind_some, List.getElem?_set_ne this]
          rfl
    · rfl

theorem bound_ok {α : Type} {o : Option α} {a : α} (h : bound o = .ok a) : o = some a := by
  cases o with
  | none => cases h
  | some b => exact congrArg some (Except.ok.inj h)

/-- One statement. -/
theorem step_sim {qr : QR ℂ} {svd : SVD ℂ} {s : Store} {T : Set ℕ} (h : Sep s T) {st : Stmt} (hp : plainStmt T s.vals st)
    {res : Py Store} (hst : Step qr svd s st res) :
    match res with
    | .error e => vstep qr svd s.vals st = .error e
    | .ok s' => vstep qr svd s.vals st = .ok s'.vals ∧ Sep s' (given T st) := by
  cases st with
  | array a A =>
    obtain rfl : res = _ := hst
    refine ⟨?_, ?_⟩
    · refine congrArg Except.ok ?_
      have hva := vals_append h [A]
      ext1
      · exact (congrArg Vals.mpa hva).symm
      · funext b
        change upd s.vals.arr a _ b = Option.map _ (upd s.avar a _ b)
        by_cases hb : b = a
        · subst hb
          simp [Store.deref]
        · rw [upd_ne _ _ hb, upd_ne _ _ hb]
          exact (congrFun (congrArg Vals.arr hva) b).symm
    · have h' := h.append [A]
      refine ⟨h'.obj, h'.inj, h'.mref, ?_, ?_⟩
      · intro b r hb
        change upd s.avar a _ b = _ at hb
        by_cases hba : b = a
        · subst hba
          simp at hb; subst hb
          simp
        · rw [upd_ne _ _ hba] at hb
          exact h'.aref b r hb
      · intro b r hbT hb hw
        change upd s.avar a _ b = _ at hb
        by_cases hba : b = a
        · subst hba
          simp at hb; subst hb
          refine ⟨fun o ho q hq => ?_, fun a' r' hne ha' => ?_⟩
          · have := h.mref o ho q hq
            simp only; omega
          · change upd s.avar b _ a' = _ at ha'
            rw [upd_ne _ _ hne] at ha'
            have := h.aref a' r' ha'
            simp only; omega
        · rw [upd_ne _ _ hba] at hb
          have hbT' : b ∉ T := fun hT => hbT ⟨hT, hba⟩
          obtain ⟨h1, h2⟩ := h'.clean b r hbT' hb hw
          refine ⟨h1, fun a' r' hne ha' => ?_⟩
          change upd s.avar a _ a' = _ at ha'
          by_cases haa : a' = a
          · subst haa
            simp at ha'; subst ha'
            have := h.aref b r hb
            simp only; omega
          · rw [upd_ne _ _ haa] at ha'
            exact h2 a' r' hne ha'
  | write a A =>
    unfold Step at hst
    rcases ha : s.avar a with _ | r
    · simp only [ha] at hst
      subst hst
      have : s.vals.arr a = none := by simp [Store.vals, Store.arr, ha]
      simp [vstep, this, bound]
    · simp only [ha] at hst
      have hv : s.vals.arr a = some (s.deref r, r.writable) := by simp [Store.vals, Store.arr, ha]
      by_cases hw : r.writable = true
      · rw [if_pos hw] at hst
        obtain ⟨B, hB, rfl⟩ := hst
        have haT : a ∉ T := hp
        obtain ⟨h1, h2⟩ := h.clean a r haT ha hw
        have hne : ∀ q : Ref, q.buf ≠ r.buf → ({ s with bufs := s.bufs.set r.buf B } : Store).deref q = s.deref q := by
          intro q hq
          simp [Store.deref, List.getD_eq_getElem?_getD, List.getElem?_set_ne (Ne.symm hq)]
        refine ⟨?_, ?_⟩
        · simp only [vstep, hv, bound, ok_bind, hw, if_true]
          refine congrArg Except.ok ?_
          ext1
          · funext y
            change Option.map _ (s.ltOf y) = Option.map _ (s.ltOf y)
            rcases ho : s.ltOf y with _ | o
            · rfl
            · simp only [Option.map_some, Store.ltVal]
              congr 2
              exact List.map_congr_left fun q hq => (hne q (h1 o (ltOf_mem ho) q hq)).symm
          · funext b
            change upd s.arr a _ b = Option.map _ (s.avar b)
            by_cases hb : b = a
            · subst hb
              have hl := h.aref b r ha
              simp [ha, hw, Store.deref, List.getD_eq_getElem?_getD, hl, hB]
            · rw [upd_ne _ _ hb]
              change Option.map _ (s.avar b) = _
              rcases hbv : s.avar b with _ | q
              · rfl
              · simp only [Option.map_some, hne q (h2 b q hb hbv)]
        · refine ⟨h.obj, h.inj, ?_, ?_, h.clean⟩
          · intro o ho q hq
            simpa using h.mref o ho q hq
          · intro b q hb
            simpa using h.aref b q hb
      · rw [if_neg hw] at hst
        subst hst
        simp [vstep, hv, bound, ok_bind, hw]
  | read a x i =>
    unfold Step at hst
    rcases hx : s.ltOf x with _ | o
    · simp only [hx] at hst
      subst hst
      have : s.vals.mpa x = none := by simp [Store.vals, Store.mpa, hx]
      simp [vstep, this, bound]
    · simp only [hx] at hst
      have hv : s.vals.mpa x = some (s.ltVal o) := by simp [Store.vals, Store.mpa, hx]
      rcases hi : pyIndex o.refs.length i with e | k
      · simp only [hi] at hst
        subst hst
        simp [vstep, hv, bound, ok_bind, MPA.site, MPA.len, Store.ltVal, hi]
      · simp only [hi] at hst
        rcases hr : o.refs[k]? with _ | r
        · simp only [hr] at hst
          subst hst
          simp [vstep, hv, bound, ok_bind, MPA.site, MPA.len, Store.ltVal, hi, hr]
        · simp only [hr] at hst
          subst hst
          refine ⟨?_, ?_⟩
          · have hsite : (s.ltVal o).site i = .ok (s.deref r) := by
              simp [MPA.site, MPA.len, Store.ltVal, hi, hr, ok_bind]
            simp only [vstep, hv, bound, ok_bind, hsite]
            refine congrArg Except.ok ?_
            ext1
            · rfl
            · funext b
              change upd s.arr a _ b = Option.map _ (upd s.avar a _ b)
              by_cases hb : b = a
              · subst hb
                simp [Store.deref]
              · rw [upd_ne _ _ hb, upd_ne _ _ hb]
                rfl
          · have hro := h.mref o (ltOf_mem hx) r (List.mem_of_getElem? hr)
            refine ⟨h.obj, h.inj, h.mref, ?_, ?_⟩
            · intro b q hb
              change upd s.avar a _ b = _ at hb
              by_cases hba : b = a
              · subst hba
                simp at hb; subst hb
                exact hro
              · rw [upd_ne _ _ hba] at hb
                exact h.aref b q hb
            · intro b q hbT hb hw
              change upd s.avar a _ b = _ at hb
              by_cases hba : b = a
              · subst hba
                simp at hb; subst hb
                cases hw
              · rw [upd_ne _ _ hba] at hb
                have hbT' : b ∉ T := fun hT => hbT ⟨hT, hba⟩
                obtain ⟨h1, h2⟩ := h.clean b q hbT' hb hw
                refine ⟨h1, fun a' r' hne ha' => ?_⟩
                change upd s.avar a _ a' = _ at ha'
                by_cases haa : a' = a
                · subst haa
                  simp at ha'; subst ha'
                  exact h1 o (ltOf_mem hx) r (List.mem_of_getElem? hr)
                · rw [upd_ne _ _ haa] at ha'
                  exact h2 a' r' hne ha'
  | make x f as =>
    unfold Step at hst
    have hve : vstep qr svd s.vals (.make x f as) =
        ((as.mapM fun a => bound (s.arr a)) >>= fun vs => f.run qr (vs.map Prod.fst)) >>= fun z =>
          .ok { s.vals with mpa := upd s.vals.mpa x (some z) } := by
      simp only [vstep, Store.vals]
      rw [bind_assoc]
      rfl
    rw [hve]
    rcases hz : ((as.mapM fun a => bound (s.arr a)) >>= fun vs => f.run qr (vs.map Prod.fst)) with e | z
    · simp only [hz] at hst
      subst hst
      rfl
    · simp only [hz] at hst
      obtain ⟨s', refs, hh, rfl⟩ := hst
      obtain ⟨h1, h2⟩ := bindNew_sim (T' := T ∪ {a | a ∈ as}) h x (fun a ha hT => ha (Or.inl hT)) (by
        intro a r ha hav hw hm
        obtain ⟨a', ha', r', hr', e⟩ := mem_abufs hm
        have haT : a ∉ T := fun hT => ha (Or.inl hT)
        refine (h.clean a r haT hav hw).2 a' r' ?_ hr' e
        rintro rfl
        exact ha (Or.inr ha')) hh
      exact ⟨by rw [h2]; rfl, h1⟩
  | set x i a =>
    unfold Step at hst
    have hve : vstep qr svd s.vals (.set x i a) = (do
      let z ← bound (s.mpa x)
      let t ← bound (s.arr a)
      z.updateInt i t.1 .none) >>= fun z => .ok { s.vals with mpa := upd s.vals.mpa x (some z) } := by
      simp only [vstep, Store.vals, bind_assoc]
      rfl
    rw [hve]
    rcases hz : (do
      let z ← bound (s.mpa x)
      let t ← bound (s.arr a)
      z.updateInt i t.1 .none : Py (MPA ℂ)) with e | z
    · simp only [hz] at hst
      subst hst
      rfl
    · simp only [hz] at hst
      obtain ⟨s', refs, hh, rfl⟩ := hst
      obtain ⟨z0, hz0, _⟩ := bind_ok_inv hz
      obtain ⟨h1, h2⟩ := setLt_sim (T' := T ∪ {a}) h x (by rw [bound_ok hz0]; rfl) (fun a ha hT => ha (Or.inl hT)) (by
        intro b r hb hav hw hm
        have hbT : b ∉ T := fun hT => hb (Or.inl hT)
        obtain ⟨c1, c2⟩ := h.clean b r hbT hav hw
        rcases List.mem_append.1 hm with hm | hm
        · obtain ⟨o, ho, q, hq, e⟩ := mem_mbufs hm
          exact c1 o ho q hq e
        · obtain ⟨a', ha', r', hr', e⟩ := mem_abufs hm
          rw [List.mem_singleton] at ha'
          subst ha'
          exact c2 a' r' (fun e => hb (Or.inr e.symm)) hr' e) hh
      exact ⟨by rw [h2]; rfl, h1⟩
  | call x f ys =>
    unfold Step at hst
    have hcl : ∀ ow : List ℕ, (∀ b ∈ ow, b ∈ s.mbufs ys) → ∀ a r, a ∉ T → s.avar a = some r → r.writable = true → r.buf ∉ ow := by
      intro ow how a r ha hav hw hm
      obtain ⟨o, ho, q, hq, e⟩ := mem_mbufs (how _ hm)
      exact (h.clean a r ha hav hw).1 o ho q hq e
    have hsh : ∀ b ∈ f.shares (s.mbufs ys), b ∈ s.mbufs ys := by
      intro b hb
      cases f <;> first | exact hb | cases hb
    rcases hvs : (ys.mapM fun y => bound (s.mpa y)) with e | vs
    · simp only [hvs] at hst
      subst hst
      simp only [vstep, Store.vals, hvs]
      rfl
    · simp only [hvs] at hst
      rcases hz : f.run qr vs with e | z
      · simp only [hz] at hst
        subst hst
        simp only [vstep, Store.vals, hvs, ok_bind, hz]
        rfl
      · simp only [hz] at hst
        obtain ⟨s', refs, hh, rfl⟩ := hst.2 (hp vs hvs)
        obtain ⟨h1, h2⟩ := bindNew_sim (T' := T) h x (fun a ha => ha) (hcl _ hsh) hh
        refine ⟨?_, h1⟩
        rw [h2]
        simp only [vstep, Store.vals, hvs, ok_bind, hz]
        rfl
  | same x y => exact absurd hp id
  | wrap x y => exact absurd hp id
  | inplace f x ys =>
    unfold Step at hst
    have hve : vstep qr svd s.vals (.inplace f x ys) = (do
      let z ← bound (s.mpa x)
      let vs ← ys.mapM fun y => bound (s.mpa y)
      f.run qr svd z vs) >>= fun z => .ok { s.vals with mpa := upd s.vals.mpa x (some z) } := by
      simp only [vstep, Store.vals, bind_assoc]
      rfl
    rw [hve]
    rcases hz : (do
      let z ← bound (s.mpa x)
      let vs ← ys.mapM fun y => bound (s.mpa y)
      f.run qr svd z vs : Py (MPA ℂ)) with e | z
    · simp only [hz] at hst
      subst hst
      rfl
    · simp only [hz] at hst
      obtain ⟨s', refs, hh, rfl⟩ := hst
      obtain ⟨z0, hz0, _⟩ := bind_ok_inv hz
      obtain ⟨h1, h2⟩ := setLt_sim (T' := T) h x (by rw [bound_ok hz0]; rfl) (fun a ha => ha) (by
        intro a r ha hav hw hm
        obtain ⟨o, ho, q, hq, e⟩ := mem_mbufs hm
        exact (h.clean a r ha hav hw).1 o ho q hq e) hh
      exact ⟨by rw [h2]; rfl, h1⟩
  | move x t =>
    unfold Step at hst
    rcases ht : s.mpa t with _ | z
    · simp only [ht] at hst
      subst hst
      simp only [vstep, Store.vals, ht, bound]
      rfl
    · simp only [ht] at hst
      subst hst
      have hid : ∀ y, ({ s with mvar := upd (upd s.mvar t none) x (s.mvar t) } : Store).ltId y =
          if y = x then s.ltId t else if y = t then none else s.ltId y := by
        intro y
        unfold Store.ltId
        by_cases hy : y = x
        · simp [hy]
        · by_cases hyt : y = t
          · subst hyt; simp [upd, hy]
          · simp [upd, hy, hyt]
      refine ⟨?_, ⟨?_, ?_, h.mref, h.aref, h.clean⟩⟩
      · simp only [vstep, Store.vals, ht, bound, ok_bind]
        refine congrArg Except.ok ?_
        ext1
        · funext y
          simp only [Store.mpa, Store.ltOf]
          rw [hid]
          by_cases hy : y = x
          · subst hy
            simp only [upd_self, if_true]
            exact ht.symm
          · rw [upd_ne _ _ hy, if_neg hy]
            by_cases hyt : y = t
            · subst hyt; simp
            · rw [upd_ne _ _ hyt, if_neg hyt]
              rfl
        · rfl
      · intro y o hy
        change upd (upd s.mvar t none) x (s.mvar t) y = _ at hy
        by_cases hyx : y = x
        · subst hyx
          rw [upd_self] at hy
          exact h.obj t o hy
        · rw [upd_ne _ _ hyx] at hy
          by_cases hyt : y = t
          · subst hyt; simp at hy
          · rw [upd_ne _ _ hyt] at hy
            exact h.obj y o hy
      · intro y y' k h1 h2
        rw [hid] at h1 h2
        by_cases hy : y = x <;> by_cases hy' : y' = x
        · rw [hy, hy']
        · rw [if_pos hy] at h1; rw [if_neg hy'] at h2
          by_cases hyt : y' = t
          · rw [if_pos hyt] at h2; cases h2
          · rw [if_neg hyt] at h2
            exact absurd (h.inj t y' k h1 h2).symm hyt
        · rw [if_neg hy] at h1; rw [if_pos hy'] at h2
          by_cases hyt : y = t
          · rw [if_pos hyt] at h1; cases h1
          · rw [if_neg hyt] at h1
            exact absurd (h.inj t y k h2 h1).symm hyt
        · rw [if_neg hy] at h1; rw [if_neg hy'] at h2
          by_cases hyt : y = t
          · rw [if_pos hyt] at h1; cases h1
          · by_cases hyt' : y' = t
            · rw [if_pos hyt'] at h2; cases h2
            · rw [if_neg hyt] at h1; rw [if_neg hyt'] at h2
              exact h.inj y y' k h1 h2
  | rebind x t =>
    unfold Step at hst
    rcases hx : s.mvar x with _ | o
    · simp only [hx] at hst
      subst hst
      have : s.mpa x = none := by simp [Store.mpa, Store.ltOf, Store.ltId, hx]
      simp only [vstep, Store.vals, this, bound]
      rfl
    · obtain ⟨kx, hkx⟩ := h.ltId_some hx
      have hkxl := h.ltId_lt hkx
      have hmx : s.mpa x = some (s.ltVal s.lts[kx]) := by
        simp [Store.mpa, Store.ltOf, hkx, hkxl]
      rcases ht : s.ltId t with _ | k
      · simp only [hx, ht] at hst
        subst hst
        have : s.mpa t = none := by simp [Store.mpa, Store.ltOf, ht]
        simp only [vstep, Store.vals, this, hmx, bound]
        rfl
      · simp only [hx, ht] at hst
        subst hst
        have hkl := h.ltId_lt ht
        have hmt : s.mpa t = some (s.ltVal s.lts[k]) := by
          simp [Store.mpa, Store.ltOf, ht, hkl]
        obtain ⟨_, hox, _⟩ := h.obj x o hx
        have hol : o < s.objs.length := (List.getElem?_eq_some_iff.1 hox).1
        have hid : ∀ y, ({ s with objs := s.objs.set o k, mvar := if x = t then s.mvar else upd s.mvar t none } : Store).ltId y
            = if y = x then some k else if y = t then none else s.ltId y := by
          intro y
          unfold Store.ltId
          by_cases hy : y = x
          · subst hy
            have : (if y = t then s.mvar else upd s.mvar t none) y = some o := by
              by_cases hyt : y = t
              · rw [if_pos hyt, hx]
              · rw [if_neg hyt, upd_ne _ _ hyt, hx]
            simp only [this, Option.bind_some, List.getElem?_set_self hol, if_true]
          · rw [if_neg hy]
            by_cases hyt : y = t
            · subst hyt
              simp [Ne.symm hy]
            · have : (if x = t then s.mvar else upd s.mvar t none) y = s.mvar y := by
                by_cases hxt : x = t
                · rw [if_pos hxt]
                · rw [if_neg hxt, upd_ne _ _ hyt]
              simp only [this, if_neg hyt]
              rcases hm : s.mvar y with _ | o'
              · rfl
              · simp only [Option.bind_some]
                have hne : o ≠ o' := by
                  rintro rfl
                  refine hy (h.inj y x kx ?_ hkx)
                  unfold Store.ltId at hkx ⊢
                  rw [hm]; rw [hx] at hkx; exact hkx
                rw [List.getElem?_set_ne hne]
        refine ⟨?_, ⟨?_, ?_, h.mref, h.aref, h.clean⟩⟩
        · simp only [vstep, Store.vals, hmx, hmt, bound, ok_bind]
          refine congrArg Except.ok ?_
          ext1
          · funext y
            simp only [Store.mpa, Store.ltOf]
            rw [hid]
            by_cases hy : y = x
            · subst hy
              simp [hkl]
              rfl
            · rw [upd_ne _ _ hy, if_neg hy]
              by_cases hyt : y = t
              · subst hyt; simp
              · rw [upd_ne _ _ hyt, if_neg hyt]
                rfl
          · rfl
        · intro y o' hy
          have hsome : ∃ j, ({ s with objs := s.objs.set o k, mvar := if x = t then s.mvar else upd s.mvar t none } : Store).ltId y
              = some j ∧ j < s.lts.length := by
            rw [hid]
            by_cases hyx : y = x
            · exact ⟨k, by rw [if_pos hyx], hkl⟩
            · rw [if_neg hyx]
              change (if x = t then s.mvar else upd s.mvar t none) y = some o' at hy
              by_cases hyt : y = t
              · subst hyt
                simp [Ne.symm hyx] at hy
              · have : (if x = t then s.mvar else upd s.mvar t none) y = s.mvar y := by
                  by_cases hxt : x = t
                  · rw [if_pos hxt]
                  · rw [if_neg hxt, upd_ne _ _ hyt]
                rw [this] at hy
                obtain ⟨j, hj⟩ := h.ltId_some hy
                exact ⟨j, by rw [if_neg hyt, hj], h.ltId_lt hj⟩
          obtain ⟨j, hj, hjl⟩ := hsome
          refine ⟨j, ?_, hjl⟩
          unfold Store.ltId at hj
          rw [hy] at hj
          exact hj
        · intro y y' j h1 h2
          rw [hid] at h1 h2
          by_cases hy : y = x <;> by_cases hy' : y' = x
          · rw [hy, hy']
          · rw [if_pos hy] at h1; rw [if_neg hy'] at h2
            by_cases hyt : y' = t
            · rw [if_pos hyt] at h2; cases h2
            · rw [if_neg hyt] at h2
              obtain rfl := Option.some.inj h1
              exact absurd (h.inj y' t _ h2 ht) hyt
          · rw [if_neg hy] at h1; rw [if_pos hy'] at h2
            by_cases hyt : y = t
            · rw [if_pos hyt] at h1; cases h1
            · rw [if_neg hyt] at h1
              obtain rfl := Option.some.inj h2
              exact absurd (h.inj y t _ h1 ht) hyt
          · rw [if_neg hy] at h1; rw [if_neg hy'] at h2
            by_cases hyt : y = t
            · rw [if_pos hyt] at h1; cases h1
            · by_cases hyt' : y' = t
              · rw [if_pos hyt'] at h2; cases h2
              · rw [if_neg hyt] at h1; rw [if_neg hyt'] at h2
                exact h.inj y y' j h1 h2

/-- Programs. -/
theorem prog_sim {qr : QR ℂ} {svd : SVD ℂ} : ∀ {P : List Stmt} {s : Store} {T : Set ℕ}, Sep s T →
    Plain qr svd T s.vals P → ∀ {res : Py Store}, Run qr svd s P res →
    vrun qr svd s.vals P = res.map Store.vals
  | [], s, T, _, _, res, hr => by
    cases hr
    rfl
  | st :: P, s, T, h, hp, res, hr => by
    cases hr with
    | cons h1 h2 =>
      obtain ⟨e, hs⟩ := step_sim h hp.1 h1
      have := prog_sim hs (hp.2 _ e) h2
      simp only [vrun, e, ok_bind, this]
    | error h1 =>
      have e := step_sim h hp.1 h1
      simp only at e
      simp only [vrun, e]
      rfl

end Prog

end Mpnum
