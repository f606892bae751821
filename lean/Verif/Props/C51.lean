import Verif.Program.StoreProofs
import Verif.Props.C10
import Verif.Props.C49Random

/-!
# C51: operations do not modify their operands

`Store` has buffers, `LocalTensors` objects, `MPArray` objects and variables that refer to each other; `vrun` is what the
same program does if each variable simply has a value of its own.
-/

namespace Mpnum

namespace Prog

/-- The MPA variables a statement assigns to or works on in place. -/
def Stmt.changes : Stmt → List ℕ
  | .make x _ _ => [x]
  | .set x _ _ => [x]
  | .call x _ _ => [x]
  | .same x _ => [x]
  | .wrap x _ => [x]
  | .inplace _ x _ => [x]
  | .move x t => [x, t]
  | .rebind x t => [x, t]
  | _ => []

/-- Nothing has been computed yet. -/
def Store.empty : Store := ⟨[], [], [], fun _ => none, fun _ => none⟩

theorem sep_empty : Sep Store.empty ∅ where
  obj x o h := by cases h
  inj x y k h := by simp [Store.empty, Store.ltId] at h
  mref o h := by cases h
  aref a r h := by cases h
  clean a r _ h := by cases h

/-- **C51.** In every execution of a program that starts with nothing and does not itself make a second name for an MPA, each
variable behaves as if it had a value of its own: results, later values of all variables and exceptions are those of
`vrun`.  It does not matter which of the tensors are views of others. -/
theorem C51_value_semantics {qr : QR ℂ} {svd : SVD ℂ} {P : List Stmt} (hP : Plain qr svd ∅ Store.empty.vals P) {res : Py Store}
    (h : Run qr svd Store.empty P res) : vrun qr svd Store.empty.vals P = res.map Store.vals :=
  prog_sim sep_empty hP h

/-- The same, starting from any state in which nothing has two names. -/
theorem C51_value_semantics_from {qr : QR ℂ} {svd : SVD ℂ} {s : Store} {T : Set ℕ} (hs : Sep s T) {P : List Stmt}
    (hP : Plain qr svd T s.vals P) {res : Py Store} (h : Run qr svd s P res) :
    vrun qr svd s.vals P = res.map Store.vals :=
  prog_sim hs hP h

theorem vstep_frame {qr : QR ℂ} {svd : SVD ℂ} {v v' : Vals} {st : Stmt} (h : vstep qr svd v st = .ok v') {y : ℕ}
    (hy : y ∉ st.changes) : v'.mpa y = v.mpa y := by
  have hu : ∀ {x : ℕ} (f : ℕ → Option (MPA ℂ)) (z), y ≠ x → upd f x z y = f y := fun f z h => upd_ne f z h
  cases st with
  | array a A => cases h; rfl
  | write a A =>
    obtain ⟨t, _, h⟩ := bind_ok_inv h
    split at h
    · cases h; rfl
    · cases h
  | read a x i =>
    obtain ⟨z, _, h⟩ := bind_ok_inv h
    obtain ⟨t, _, h⟩ := bind_ok_inv h
    cases h; rfl
  | make x f as =>
    obtain ⟨z, _, h⟩ := bind_ok_inv h
    obtain ⟨t, _, h⟩ := bind_ok_inv h
    cases h; exact hu _ _ (by simpa [Stmt.changes] using hy)
  | set x i a =>
    obtain ⟨z, _, h⟩ := bind_ok_inv h
    obtain ⟨t, _, h⟩ := bind_ok_inv h
    obtain ⟨t, _, h⟩ := bind_ok_inv h
    cases h; exact hu _ _ (by simpa [Stmt.changes] using hy)
  | call x f ys =>
    obtain ⟨z, _, h⟩ := bind_ok_inv h
    obtain ⟨t, _, h⟩ := bind_ok_inv h
    cases h; exact hu _ _ (by simpa [Stmt.changes] using hy)
  | same x z =>
    obtain ⟨z, _, h⟩ := bind_ok_inv h
    cases h; exact hu _ _ (by simpa [Stmt.changes] using hy)
  | wrap x z =>
    obtain ⟨z, _, h⟩ := bind_ok_inv h
    cases h; exact hu _ _ (by simpa [Stmt.changes] using hy)
  | inplace f x ys =>
    obtain ⟨z, _, h⟩ := bind_ok_inv h
    obtain ⟨t, _, h⟩ := bind_ok_inv h
    obtain ⟨t, _, h⟩ := bind_ok_inv h
    cases h; exact hu _ _ (by simpa [Stmt.changes] using hy)
  | move x t =>
    obtain ⟨z, _, h⟩ := bind_ok_inv h
    simp only [Stmt.changes, List.mem_cons, List.not_mem_nil, or_false, not_or] at hy
    cases h
    change upd (upd _ _ _) _ _ _ = _
    rw [hu _ _ hy.1, hu _ _ hy.2]
  | rebind x t =>
    obtain ⟨z, _, h⟩ := bind_ok_inv h
    obtain ⟨z, _, h⟩ := bind_ok_inv h
    simp only [Stmt.changes, List.mem_cons, List.not_mem_nil, or_false, not_or] at hy
    cases h
    change upd (upd _ _ _) _ _ _ = _
    rw [hu _ _ hy.1, hu _ _ hy.2]

theorem vrun_frame {qr : QR ℂ} {svd : SVD ℂ} {y : ℕ} : ∀ {P : List Stmt} {v v' : Vals}, vrun qr svd v P = .ok v' →
    (∀ st ∈ P, y ∉ st.changes) → v'.mpa y = v.mpa y
  | [], _, _, h, _ => by cases h; rfl
  | st :: P, v, v', h, hy => by
    obtain ⟨w, hw, h⟩ := bind_ok_inv h
    rw [vrun_frame h fun s hs => hy s (List.mem_cons_of_mem _ hs), vstep_frame hw (hy st List.mem_cons_self)]

/-- **C51.** An MPA changes only by the statements that name it on the left or work in place on it: after any number of calls
with it as an operand, and after any later changes of the results, its tensors and its canonical form are the same. -/
theorem C51_operands_unchanged {qr : QR ℂ} {svd : SVD ℂ} {s s' : Store} {T : Set ℕ} (hs : Sep s T) {P : List Stmt}
    (hP : Plain qr svd T s.vals P) (h : Run qr svd s P (.ok s')) {y : ℕ} (hy : ∀ st ∈ P, y ∉ st.changes) :
    s'.mpa y = s.mpa y := by
  have := prog_sim hs hP h
  exact vrun_frame this hy

/-- `compression(method='svd')` (mparray.py:812-828) as a program: `t = y.copy(); t.compress(…); return t`. -/
def compressionSvdProg (x t y : ℕ) (rank : Option ℤ) (relerr : Option ℝ) (direction : Option Dir) (canon : Bool) : List Stmt :=
  [.call t .copy [y], .inplace (.compressSvd rank relerr direction canon) t [], .move x t]

/-- **C51.** `x = y.compression(method='svd', …)` leaves `y` and all others as they are and gives `x` the value computed from
the value of `y`. -/
theorem C51_compression_unchanged {qr : QR ℂ} {svd : SVD ℂ} {s s' : Store} {T : Set ℕ} (hs : Sep s T) {x t y : ℕ}
    (hyt : y ≠ t) {rank relerr direction canon} {z : MPA ℂ} (hz : z.Valid) (hyz : s.mpa y = some z)
    (h : Run qr svd s (compressionSvdProg x t y rank relerr direction canon) (.ok s')) :
    (∀ u, u ≠ x → u ≠ t → s'.mpa u = s.mpa u) ∧
      ∃ c ov, z.compress qr svd rank relerr direction canon = .ok (c, ov) ∧ s'.mpa x = some c := by
  have hpl : Plain qr svd T s.vals (compressionSvdProg x t y rank relerr direction canon) := by
    refine ⟨fun vs _ => ?_, fun v' _ => ⟨trivial, fun v'' _ => ⟨trivial, fun _ _ => trivial⟩⟩⟩
    exact id
  have hv : vrun qr svd s.vals _ = .ok s'.vals := prog_sim hs hpl h
  refine ⟨fun u hux hut => vrun_frame hv fun st hst => ?_, ?_⟩
  · simp only [compressionSvdProg, List.mem_cons, List.not_mem_nil, or_false] at hst
    rcases hst with rfl | rfl | rfl <;> simp [Stmt.changes, hux, hut]
  · obtain ⟨v1, h1, hv⟩ := bind_ok_inv hv
    obtain ⟨v2, h2, hv⟩ := bind_ok_inv hv
    obtain ⟨v3, h3, hv⟩ := bind_ok_inv hv
    have e1 : vstep qr svd s.vals (.call t .copy [y]) = .ok { s.vals with mpa := upd s.mpa t (some z) } := by
      simp [vstep, Store.vals, hyz, bound, ok_bind, Fun.run, hz.copy_ok]
    obtain rfl := Except.ok.inj (e1.symm.trans h1)
    obtain ⟨z', hz', h2⟩ := bind_ok_inv h2
    simp [bound] at hz'
    subst hz'
    obtain ⟨vs, hvs, h2⟩ := bind_ok_inv h2
    obtain rfl : [] = vs := Except.ok.inj hvs
    obtain ⟨c, hc, h2⟩ := bind_ok_inv h2
    cases h2
    obtain ⟨⟨c', ov⟩, hcc, e⟩ := bind_ok_inv hc
    obtain rfl : c' = c := Except.ok.inj e
    refine ⟨c', ov, hcc, ?_⟩
    obtain ⟨z', hz', h3⟩ := bind_ok_inv h3
    simp [bound] at hz'
    subst hz'
    cases h3
    have := congrArg (fun v : Vals => v.mpa x) (Except.ok.inj hv)
    exact this.symm.trans (upd_self _ _ _)

/-- **C51.** A tensor read from an MPA cannot be written to. -/
theorem C51_read_only {qr : QR ℂ} {svd : SVD ℂ} {s s' : Store} {a x : ℕ} {i : ℤ} {A : NDArray ℂ} {res : Py Store}
    (h1 : Step qr svd s (.read a x i) (.ok s')) (h2 : Step qr svd s' (.write a A) res) : res = .error .value := by
  unfold Step at h1
  rcases hx : s.ltOf x with _ | o
  · simp [hx] at h1
  · simp only [hx] at h1
    rcases hi : pyIndex o.refs.length i with e | k
    · simp [hi] at h1
    · simp only [hi] at h1
      rcases hr : o.refs[k]? with _ | r
      · simp [hr] at h1
      · simp only [hr] at h1
        obtain rfl := Except.ok.inj h1
        simpa [Step] using h2

/-- **C51.** A copy is a deep copy: writing to an array made before, even one of those in the original, does not change it. -/
theorem C51_copy_is_deep {qr : QR ℂ} {svd : SVD ℂ} {s s1 s2 : Store} {T : Set ℕ} (hs : Sep s T) {x y a : ℕ} {z : MPA ℂ}
    (hz : z.Valid) (hxz : s.mpa x = some z) (ha : (s.avar a).isSome) {A : NDArray ℂ}
    (h1 : Step qr svd s (.call y .copy [x]) (.ok s1)) (h2 : Step qr svd s1 (.write a A) (.ok s2)) : s2.mpa y = some z := by
  obtain ⟨r, hr⟩ := Option.isSome_iff_exists.1 ha
  unfold Step at h1
  simp only [List.mapM_cons, List.mapM_nil, hxz, bound, ok_bind, pure_bind] at h1
  have hrun : Fun.run qr .copy [z] = .ok z := hz.copy_ok
  change (match Fun.run qr .copy [z] with | .error e => _ | .ok z => _) at h1
  rw [hrun] at h1
  obtain ⟨s', refs, hh, e⟩ := h1.2 id
  obtain rfl := Except.ok.inj e
  have hhold := hh
  obtain ⟨_, hval⟩ := bindNew_sim (T' := T) hs y (fun _ h => h) (fun _ _ _ _ _ => List.not_mem_nil) hh
  obtain ⟨⟨new, rfl⟩, hv, hrg, ho⟩ := hhold
  have hrl := hs.aref a r hr
  unfold Step at h2
  have hav : ((⟨s.bufs ++ new, s.lts, s.objs, s.mvar, s.avar⟩ : Store).bindNew y ⟨refs, z.l, z.r⟩).avar a = some r := hr
  simp only [hav] at h2
  by_cases hw : r.writable = true
  · rw [if_pos hw] at h2
    obtain ⟨B, hB, e⟩ := h2
    obtain rfl := Except.ok.inj e
    have hmy := congrFun (congrArg Vals.mpa hval) y
    simp only [upd_self] at hmy
    rw [← hmy]
    change Option.map _ (Store.ltOf _ y) = Option.map _ (Store.ltOf _ y)
    have hlt : ∀ bufs, (({ ((⟨s.bufs ++ new, s.lts, s.objs, s.mvar, s.avar⟩ : Store).bindNew y ⟨refs, z.l, z.r⟩) with
        bufs := bufs }) : Store).ltOf y = some ⟨refs, z.l, z.r⟩ := by
      intro bufs
      simp [Store.ltOf, Store.ltId, Store.bindNew]
    rw [hlt (List.set _ _ _)]
    have := hlt (s.bufs ++ new)
    change ((⟨s.bufs ++ new, s.lts, s.objs, s.mvar, s.avar⟩ : Store).bindNew y ⟨refs, z.l, z.r⟩).ltOf y = _ at this
    rw [this]
    simp only [Option.map_some, Store.ltVal]
    congr 2
    refine List.map_congr_left fun q hq => ?_
    have hne : r.buf ≠ q.buf := by
      intro e
      exact absurd (ho q hq (by omega)) List.not_mem_nil
    simp [Store.deref, List.getD_eq_getElem?_getD, List.getElem?_set_ne hne, Store.bindNew]
  · rw [if_neg hw] at h2
    cases h2

/-! ### there are executions -/

/-- All tensors can be put into new buffers. -/
theorem holds_fresh (s : Store) (ow : List ℕ) (ts : List (NDArray ℂ)) : ∃ s' refs, Holds s ow ts s' refs := by
  refine ⟨{ s with bufs := s.bufs ++ ts }, (List.range ts.length).map fun i => ⟨s.bufs.length + i, id, true⟩,
    ⟨ts, rfl⟩, ?_, ?_, ?_⟩
  · apply List.ext_getElem
    · simp
    · intro i h1 h2
      simp [Store.deref, List.getD_eq_getElem?_getD, h2]
  · intro r hr
    simp only [List.mem_map, List.mem_range] at hr
    obtain ⟨i, hi, rfl⟩ := hr
    simp only [List.length_append]; omega
  · intro r hr hlt
    simp only [List.mem_map, List.mem_range] at hr
    obtain ⟨i, hi, rfl⟩ := hr
    simp only at hlt; omega

/-- Arrays that can be written to are not views with repeated entries. -/
def WSurj (s : Store) : Prop := ∀ a r, s.avar a = some r → r.writable = true → Function.Surjective r.view

theorem step_exists (qr : QR ℂ) (svd : SVD ℂ) {s : Store} (hs : WSurj s) (st : Stmt) :
    ∃ res, Step qr svd s st res ∧ ∀ s', res = .ok s' → WSurj s' := by
  have hmk : ∀ (x : ℕ) (ow : List ℕ) (z : MPA ℂ), ∃ s' refs, Holds s ow z.lt s' refs ∧
      WSurj (s'.bindNew x ⟨refs, z.l, z.r⟩) ∧ WSurj (s'.setLt x ⟨refs, z.l, z.r⟩) := by
    intro x ow z
    obtain ⟨s', refs, hh⟩ := holds_fresh s ow z.lt
    refine ⟨s', refs, hh, ?_, ?_⟩ <;>
    · obtain ⟨⟨new, rfl⟩, _⟩ := hh
      exact hs
  cases st with
  | array a A =>
    refine ⟨_, rfl, ?_⟩
    intro s' e
    obtain rfl := Except.ok.inj e
    intro b r hb hw
    change upd s.avar a _ b = _ at hb
    by_cases hba : b = a
    · subst hba
      simp at hb; subst hb
      exact Function.surjective_id
    · rw [upd_ne _ _ hba] at hb
      exact hs b r hb hw
  | write a A =>
    simp only [Step]
    rcases ha : s.avar a with _ | r
    · exact ⟨_, rfl, fun s' e => by cases e⟩
    · try simp only
      by_cases hw : r.writable = true
      · obtain ⟨B, hB⟩ := hs a r ha hw A
        refine ⟨_, by rw [if_pos hw]; exact ⟨B, hB, rfl⟩, fun s' e => ?_⟩
        obtain rfl := Except.ok.inj e
        exact hs
      · exact ⟨_, by rw [if_neg hw], fun s' e => by cases e⟩
  | read a x i =>
    simp only [Step]
    rcases s.ltOf x with _ | o
    · exact ⟨_, rfl, fun s' e => by cases e⟩
    · try simp only
      rcases pyIndex o.refs.length i with e | k
      · exact ⟨_, rfl, fun s' e => by cases e⟩
      · try simp only
        rcases o.refs[k]? with _ | r
        · exact ⟨_, rfl, fun s' e => by cases e⟩
        · refine ⟨_, rfl, fun s' e => ?_⟩
          obtain rfl := Except.ok.inj e
          intro b q hb hw
          change upd s.avar a _ b = _ at hb
          by_cases hba : b = a
          · subst hba
            simp at hb; subst hb
            cases hw
          · rw [upd_ne _ _ hba] at hb
            exact hs b q hb hw
  | make x f as =>
    simp only [Step]
    rcases ((as.mapM fun a => bound (s.arr a)) >>= fun vs => f.run qr (vs.map Prod.fst)) with e | z
    · exact ⟨_, rfl, fun s' e => by cases e⟩
    · obtain ⟨s', refs, hh, h1, _⟩ := hmk x (s.abufs as) z
      refine ⟨_, ⟨s', refs, hh, rfl⟩, fun s'' e => ?_⟩
      obtain rfl := Except.ok.inj e
      exact h1
  | set x i a =>
    simp only [Step]
    split
    · exact ⟨_, rfl, fun s' e => by cases e⟩
    · rename_i z _
      obtain ⟨s', refs, hh, _, h2⟩ := hmk x (s.mbufs [x] ++ s.abufs [a]) z
      refine ⟨_, ⟨s', refs, hh, rfl⟩, fun s'' e => ?_⟩
      obtain rfl := Except.ok.inj e
      exact h2
  | call x f ys =>
    simp only [Step]
    rcases (ys.mapM fun y => bound (s.mpa y)) with e | vs
    · exact ⟨_, rfl, fun s' e => by cases e⟩
    · try simp only
      rcases f.run qr vs with e | z
      · exact ⟨_, rfl, fun s' e => by cases e⟩
      · by_cases hr : f.returnsSelf vs
        · refine ⟨_, ⟨fun _ => rfl, fun h => absurd hr h⟩, fun s'' e => ?_⟩
          obtain rfl := Except.ok.inj e
          exact hs
        · obtain ⟨s', refs, hh, h1, _⟩ := hmk x (f.shares (s.mbufs ys)) z
          refine ⟨_, ⟨fun h => absurd h hr, fun _ => ⟨s', refs, hh, rfl⟩⟩, fun s'' e => ?_⟩
          obtain rfl := Except.ok.inj e
          exact h1
  | same x y =>
    simp only [Step]
    rcases s.mpa y with _ | z
    · exact ⟨_, rfl, fun s' e => by cases e⟩
    · refine ⟨_, rfl, fun s' e => ?_⟩
      obtain rfl := Except.ok.inj e
      exact hs
  | wrap x y =>
    simp only [Step]
    rcases s.ltId y with _ | z
    · exact ⟨_, rfl, fun s' e => by cases e⟩
    · refine ⟨_, rfl, fun s' e => ?_⟩
      obtain rfl := Except.ok.inj e
      exact hs
  | inplace f x ys =>
    simp only [Step]
    split
    · exact ⟨_, rfl, fun s' e => by cases e⟩
    · rename_i z _
      obtain ⟨s', refs, hh, _, h2⟩ := hmk x (s.mbufs (x :: ys)) z
      refine ⟨_, ⟨s', refs, hh, rfl⟩, fun s'' e => ?_⟩
      obtain rfl := Except.ok.inj e
      exact h2
  | move x t =>
    simp only [Step]
    rcases s.mpa t with _ | z
    · exact ⟨_, rfl, fun s' e => by cases e⟩
    · refine ⟨_, rfl, fun s' e => ?_⟩
      obtain rfl := Except.ok.inj e
      exact hs
  | rebind x t =>
    rcases hm : s.mvar x with _ | o <;> rcases hk : s.ltId t with _ | k <;> simp only [Step, hm, hk]
    · exact ⟨_, rfl, fun s' e => by cases e⟩
    · exact ⟨_, rfl, fun s' e => by cases e⟩
    · exact ⟨_, rfl, fun s' e => by cases e⟩
    · refine ⟨_, rfl, fun s' e => ?_⟩
      obtain rfl := Except.ok.inj e
      exact hs

theorem run_exists (qr : QR ℂ) (svd : SVD ℂ) : ∀ (P : List Stmt) {s : Store}, WSurj s → ∃ res, Run qr svd s P res
  | [], s, _ => ⟨_, .nil s⟩
  | st :: P, s, hs => by
    obtain ⟨res, h1, h2⟩ := step_exists qr svd hs st
    cases res with
    | error e => exact ⟨_, .error h1⟩
    | ok s' =>
      obtain ⟨res, h3⟩ := run_exists qr svd P (h2 s' rfl)
      exact ⟨res, .cons h1 h3⟩

/-- Every program has an execution; together with `C51_value_semantics`: if `vrun` gives values, there is an execution that
ends with these values, and all of them do. -/
theorem C51_executions (qr : QR ℂ) (svd : SVD ℂ) (P : List Stmt) : ∃ res, Run qr svd Store.empty P res :=
  run_exists qr svd P (fun a r h => by cases h)

/-! ### second names -/

/-- **C51, limit.** `+x`, `x.group_sites(1)` and `x.split(pos)` with `pos` outside of the chain return `x` itself: any later
in-place operation on the result changes `x` as well. -/
theorem C51_returns_operand {qr : QR ℂ} {svd : SVD ℂ} {s s1 s2 : Store} {T : Set ℕ} (hs : Sep s T) {x y : ℕ} {z : MPA ℂ}
    (hxz : s.mpa x = some z) {f : Fun} (hf : f.returnsSelf [z]) {g : InFun}
    (h1 : Step qr svd s (.call y f [x]) (.ok s1)) (h2 : Step qr svd s1 (.inplace g y []) (.ok s2)) :
    ∃ z', g.run qr svd z [] = .ok z' ∧ s2.mpa y = some z' ∧ s2.mpa x = some z' := by
  obtain ⟨k, hk⟩ : ∃ k, s.ltId x = some k := by
    unfold Store.mpa Store.ltOf at hxz
    rcases hk : s.ltId x with _ | k
    · simp [hk] at hxz
    · exact ⟨k, rfl⟩
  have hkl := hs.ltId_lt hk
  unfold Step at h1
  simp only [List.mapM_cons, List.mapM_nil, hxz, bound, ok_bind, pure_bind] at h1
  change (match Fun.run qr f [z] with | .error e => _ | .ok z => _) at h1
  rcases hrun : Fun.run qr f [z] with e | w
  · rw [hrun] at h1; cases h1
  · rw [hrun] at h1
    have e := h1.1 hf
    obtain rfl := Except.ok.inj e
    simp only [List.headD_cons] at h2
    set s1 : Store := { s with mvar := upd s.mvar y (s.mvar x) } with hs1
    have hidy : s1.ltId y = some k := by simpa [Store.ltId, hs1] using hk
    have hidx : s1.ltId x = some k := by
      by_cases hxy : x = y
      · rw [hxy]; exact hidy
      · simpa [Store.ltId, hs1, upd, hxy] using hk
    have hmy : s1.mpa y = some z := by
      rw [← hxz]
      simp only [Store.mpa, Store.ltOf, hidy, hk]
      rfl
    unfold Step at h2
    simp only [hmy, bound, ok_bind, List.mapM_nil, pure_bind] at h2
    change (match g.run qr svd z [] with | .error e => _ | .ok z => _) at h2
    rcases hg : g.run qr svd z [] with e | z'
    · rw [hg] at h2; cases h2
    · rw [hg] at h2
      obtain ⟨s', refs, hh, e⟩ := h2
      obtain rfl := Except.ok.inj e
      obtain ⟨⟨new, rfl⟩, hv, hr, ho⟩ := hh
      have key : ∀ u, s1.ltId u = some k →
          (Store.setLt { s1 with bufs := s1.bufs ++ new } y ⟨refs, z'.l, z'.r⟩).mpa u = some z' := by
        intro u hu
        have hset : Store.setLt { s1 with bufs := s1.bufs ++ new } y ⟨refs, z'.l, z'.r⟩ =
            { s1 with bufs := s1.bufs ++ new, lts := s1.lts.set k ⟨refs, z'.l, z'.r⟩ } := by
          have : Store.ltId { s1 with bufs := s1.bufs ++ new } y = some k := hidy
          simp [Store.setLt, this]
        rw [hset]
        change Option.map _ ((s1.ltId u).bind fun j => (s1.lts.set k ⟨refs, z'.l, z'.r⟩)[j]?) = _
        have hkl' : k < s1.lts.length := hkl
        rw [hu]
        simp only [Option.bind_some, List.getElem?_set_self hkl', Option.map_some]
        congr 1
        obtain ⟨zl, a1, a2⟩ := z'
        exact congrArg (fun t => MPA.mk t a1 a2) hv
      exact ⟨z', rfl, key y hidy, key x hidx⟩

/-- **C51, limit.** `MPArray(x.lt)` is a new object but has the `LocalTensors` of `x`: any later in-place operation on it changes
`x` as well. -/
theorem C51_wrap_shares {qr : QR ℂ} {svd : SVD ℂ} {s s1 s2 : Store} {T : Set ℕ} (hs : Sep s T) {x y : ℕ} {z : MPA ℂ}
    (hxz : s.mpa x = some z) {g : InFun}
    (h1 : Step qr svd s (.wrap y x) (.ok s1)) (h2 : Step qr svd s1 (.inplace g y []) (.ok s2)) :
    ∃ z', g.run qr svd z [] = .ok z' ∧ s2.mpa y = some z' ∧ s2.mpa x = some z' := by
  obtain ⟨k, hk⟩ : ∃ k, s.ltId x = some k := by
    unfold Store.mpa Store.ltOf at hxz
    rcases hk : s.ltId x with _ | k
    · simp [hk] at hxz
    · exact ⟨k, rfl⟩
  have hkl := hs.ltId_lt hk
  unfold Step at h1
  simp only [hk] at h1
  obtain rfl := Except.ok.inj h1
  set s1 : Store := { s with objs := s.objs ++ [k], mvar := upd s.mvar y (some s.objs.length) } with hs1
  have hidy : s1.ltId y = some k := by simp [Store.ltId, hs1]
  have hidx : s1.ltId x = some k := by
    by_cases hxy : x = y
    · rw [hxy]; exact hidy
    · unfold Store.ltId at hk ⊢
      rcases hm : s.mvar x with _ | o
      · simp [hm] at hk
      · simp only [hm, Option.bind_some] at hk
        have ho : o < s.objs.length := (List.getElem?_eq_some_iff.1 hk).1
        simp only [hs1, upd, hxy, if_false, hm, Option.bind_some]
        rw [List.getElem?_append_left ho, hk]
  have hmy : s1.mpa y = some z := by
    rw [← hxz]
    simp only [Store.mpa, Store.ltOf, hidy, hk]
    rfl
  unfold Step at h2
  simp only [hmy, bound, ok_bind, List.mapM_nil, pure_bind] at h2
  change (match g.run qr svd z [] with | .error e => _ | .ok z => _) at h2
  rcases hg : g.run qr svd z [] with e | z'
  · rw [hg] at h2; cases h2
  · rw [hg] at h2
    obtain ⟨s', refs, hh, e⟩ := h2
    obtain rfl := Except.ok.inj e
    obtain ⟨⟨new, rfl⟩, hv, hr, ho⟩ := hh
    have key : ∀ u, s1.ltId u = some k →
        (Store.setLt { s1 with bufs := s1.bufs ++ new } y ⟨refs, z'.l, z'.r⟩).mpa u = some z' := by
      intro u hu
      have hset : Store.setLt { s1 with bufs := s1.bufs ++ new } y ⟨refs, z'.l, z'.r⟩ =
          { s1 with bufs := s1.bufs ++ new, lts := s1.lts.set k ⟨refs, z'.l, z'.r⟩ } := by
        have : Store.ltId { s1 with bufs := s1.bufs ++ new } y = some k := hidy
        simp [Store.setLt, this]
      rw [hset]
      change Option.map _ ((s1.ltId u).bind fun j => (s1.lts.set k ⟨refs, z'.l, z'.r⟩)[j]?) = _
      have hkl' : k < s1.lts.length := hkl
      rw [hu]
      simp only [Option.bind_some, List.getElem?_set_self hkl', Option.map_some]
      congr 1
      obtain ⟨zl, a1, a2⟩ := z'
      exact congrArg (fun t => MPA.mk t a1 a2) hv
    exact ⟨z', rfl, key y hidy, key x hidx⟩

/-- **C51, limit.** `MPArray([a])` keeps the array `a` itself (mpstruct.py:61): after a later write to `a` the MPA has the new
entries. (The array has shape `(1, …, 1)`, as the constructor wants.) -/
theorem C51_user_array {qr : QR ℂ} {svd : SVD ℂ} {s : Store} {x a : ℕ} {r : Ref} (hr : s.avar a = some r)
    (hrl : r.buf < s.bufs.length) (hw : r.writable = true) (hsurj : Function.Surjective r.view) {z : MPA ℂ}
    (hz : mkMPA [s.deref r] = .ok z) (hzl : z.lt = [s.deref r]) (B : NDArray ℂ) :
    ∃ s1 s2, Step qr svd s (.make x .mpArray [a]) (.ok s1) ∧ s1.mpa x = some z ∧
      Step qr svd s1 (.write a B) (.ok s2) ∧ s2.mpa x = some { z with lt := [B] } := by
  obtain ⟨B', hB⟩ := hsurj B
  refine ⟨s.bindNew x ⟨[r], z.l, z.r⟩, { s.bindNew x ⟨[r], z.l, z.r⟩ with bufs := s.bufs.set r.buf B' }, ?_, ?_, ?_, ?_⟩
  · have harr : s.arr a = some (s.deref r, r.writable) := by simp [Store.arr, hr]
    have hm : (([a].mapM fun a => bound (s.arr a)) >>= fun vs => Make.run qr .mpArray (vs.map Prod.fst)) = .ok z := by
      simp only [List.mapM_cons, List.mapM_nil, harr, bound, ok_bind, pure_bind]
      exact hz
    simp only [Step, hm]
    refine ⟨s, [r], ⟨⟨[], by simp⟩, by simp [hzl], by simpa using hrl, ?_⟩, rfl⟩
    intro q hq _
    rw [List.mem_singleton] at hq
    subst hq
    simp [Store.abufs, hr]
  · simp only [Store.mpa, Store.ltOf, Store.ltId, Store.bindNew, upd_self, Option.bind_some, List.getElem?_concat_length,
      Option.map_some, Store.ltVal]
    obtain ⟨zl, a1, a2⟩ := z
    simp only at hzl
    simp [hzl, Store.deref]
  · unfold Step
    have : (s.bindNew x ⟨[r], z.l, z.r⟩).avar a = some r := hr
    simp only [this]
    rw [if_pos hw]
    exact ⟨B', hB, rfl⟩
  · simp only [Store.mpa, Store.ltOf, Store.ltId, Store.bindNew, upd_self, Option.bind_some, List.getElem?_concat_length,
      Option.map_some, Store.ltVal]
    simp [Store.deref, List.getD_eq_getElem?_getD, hrl, hB]

/-! ### examples -/

theorem vrun_cons {qr : QR ℂ} {svd : SVD ℂ} {v v' : Vals} {st : Stmt} {P : List Stmt} (h : vstep qr svd v st = .ok v') :
    vrun qr svd v (st :: P) = vrun qr svd v' P := by
  simp only [vrun, h, ok_bind]

theorem vstep_make {qr : QR ℂ} (svd : SVD ℂ) {v : Vals} {x : ℕ} {f : Make} {as : List ℕ} {ts} {z : MPA ℂ}
    (h1 : (as.mapM fun a => bound (v.arr a)) = .ok ts) (h2 : f.run qr (ts.map Prod.fst) = .ok z) :
    vstep qr svd v (.make x f as) = .ok { v with mpa := upd v.mpa x (some z) } := by
  simp only [vstep, h1, h2, ok_bind]
  rfl

theorem vstep_call {qr : QR ℂ} (svd : SVD ℂ) {v : Vals} {x : ℕ} {f : Fun} {ys : List ℕ} {vs} {z : MPA ℂ}
    (h1 : (ys.mapM fun y => bound (v.mpa y)) = .ok vs) (h2 : f.run qr vs = .ok z) :
    vstep qr svd v (.call x f ys) = .ok { v with mpa := upd v.mpa x (some z) } := by
  simp only [vstep, h1, h2, ok_bind]
  rfl

theorem vstep_inplace {qr : QR ℂ} {svd : SVD ℂ} {v : Vals} {x : ℕ} {f : InFun} {ys : List ℕ} {vs} {z z' : MPA ℂ}
    (h0 : bound (v.mpa x) = .ok z) (h1 : (ys.mapM fun y => bound (v.mpa y)) = .ok vs) (h2 : f.run qr svd z vs = .ok z') :
    vstep qr svd v (.inplace f x ys) = .ok { v with mpa := upd v.mpa x (some z') } := by
  simp only [vstep, h0, h1, h2, ok_bind]
  rfl

/-- A program with calls, an in-place change of a result and a compression. -/
noncomputable def exProg : List Stmt :=
  [.array 0 (exMPAc.lt.getD 0 ⟨[], fun _ => 0⟩), .array 1 (exMPAc.lt.getD 1 ⟨[], fun _ => 0⟩), .make 0 .mpArray [0, 1],
    .call 1 .neg [0], .inplace (.imul 2) 1 [], .call 2 .add [0, 1]]

theorem exProg_plain (qr : QR ℂ) (svd : SVD ℂ) : Plain qr svd ∅ Store.empty.vals exProg :=
  ⟨trivial, fun _ _ => ⟨trivial, fun _ _ => ⟨trivial, fun _ _ => ⟨fun _ _ => id, fun _ _ =>
    ⟨trivial, fun _ _ => ⟨fun _ _ => id, fun _ _ => trivial⟩⟩⟩⟩⟩⟩

/-- Non-vacuity: the example program has executions, all of them end without an exception, and at the end `0` is still the
MPA it was, although `1 = -0` has been doubled in place. -/
example (qr : QR ℂ) (svd : SVD ℂ) : (∃ res, Run qr svd Store.empty exProg res) ∧
    ∀ res, Run qr svd Store.empty exProg res → ∃ s z, res = .ok s ∧ s.mpa 0 = some exMPAc ∧ s.mpa 2 = some z ∧
      ∀ idx, IdxOK idx exMPAc.shape → z.val idx = - exMPAc.val idx := by
  refine ⟨C51_executions qr svd exProg, fun res h => ?_⟩
  have hv := C51_value_semantics (exProg_plain qr svd) h
  obtain ⟨y, hy, hyv, hys, _, hyval⟩ := C06_neg exMPAc exMPAc_good.valid
  obtain ⟨w, hw, hws, _⟩ := C06_imul y hyv 2
  obtain ⟨z, hz, _, _, hzval, _⟩ := C05_add exMPAc w exMPAc_good.valid hws.valid (by rw [hws.shape, hys])
  have hmk : mkMPA [exMPAc.lt.getD 0 ⟨[], fun _ => 0⟩, exMPAc.lt.getD 1 ⟨[], fun _ => 0⟩] = .ok exMPAc :=
    mkMPA_ok (ts := exMPAc.lt) exMPAc_good.valid.ne exMPAc_good.valid.chain
  have hrun : ∃ v, vrun qr svd Store.empty.vals exProg = .ok v ∧ v.mpa 0 = some exMPAc ∧ v.mpa 2 = some z := by
    have a0 : Store.empty.vals.arr = fun _ => none := rfl
    have s1 := vstep_make (qr := qr) svd (v := ⟨Store.empty.vals.mpa, upd (upd Store.empty.vals.arr 0
      (some (exMPAc.lt.getD 0 ⟨[], fun _ => 0⟩, true))) 1 (some (exMPAc.lt.getD 1 ⟨[], fun _ => 0⟩, true))⟩)
      (x := 0) (f := .mpArray) (as := [0, 1]) rfl hmk
    refine ⟨⟨upd (upd (upd (upd Store.empty.vals.mpa 0 (some exMPAc)) 1 (some y)) 1 (some w)) 2 (some z), upd (upd
        Store.empty.vals.arr 0 (some (exMPAc.lt.getD 0 ⟨[], fun _ => 0⟩, true))) 1
        (some (exMPAc.lt.getD 1 ⟨[], fun _ => 0⟩, true))⟩, ?_, ?_, ?_⟩
    · refine (vrun_cons (v' := ⟨_, upd _ _ _⟩) rfl).trans ((vrun_cons (v' := ⟨_, upd _ _ _⟩) rfl).trans ?_)
      refine (vrun_cons s1).trans ?_
      refine (vrun_cons (vstep_call svd (f := .neg) (ys := [0]) (vs := [exMPAc]) rfl hy)).trans ?_
      refine (vrun_cons (vstep_inplace (f := .imul 2) (ys := []) (vs := []) (z := y) rfl rfl hw)).trans ?_
      exact (vrun_cons (vstep_call svd (f := .add) (ys := [0, 1]) (vs := [exMPAc, w]) rfl hz)).trans rfl
    · rfl
    · rfl
  obtain ⟨v, h1, h2, h3⟩ := hrun
  rw [h1] at hv
  cases res with
  | error e => cases hv
  | ok s =>
    obtain rfl := Except.ok.inj hv
    refine ⟨s, z, rfl, h2, h3, fun idx hi => ?_⟩
    rw [hzval idx hi, hws.val idx (by rw [hys]; exact hi), hyval idx hi]
    ring

end Prog

end Mpnum
