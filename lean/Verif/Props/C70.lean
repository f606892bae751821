import Verif.MPArray.InterruptLemmas
import Verif.Props.C27

/-!
# C70: in-place methods that are interrupted

`canonicalize`, `norm`, `compress` and `*=` change their object step by step.  A numerical routine they call may raise an
exception at any step.  The theorems say in which state the object is then.
-/

open Finset

namespace Mpnum

open IP

/-- How a call may end (specification): without exception it has the result and the final object of the call that is not
interrupted; with an exception, it is the one the uninterrupted call raises, or one raised by a numerical routine. -/
def EndsLike {R α : Type} (irq : Irq) (out : Py α × Obj R) (plain : Py (MPA R × α)) : Prop :=
  match out.1 with
  | .ok a => plain = .ok (out.2.mpa, a)
  | .error e => plain = .error e ∨ ∃ n, irq n .call = some e

theorem EndsLike.of_run {R α : Type} {irq : Irq} {m : IP R α} {x : MPA R} {I : MPA R → Prop} {plain : Py (MPA R × α)}
    (h : Run irq m x I fun a y => plain = .ok (y, a)) (c : ℕ) : I (m ⟨c, x⟩).2.mpa ∧ EndsLike irq (m ⟨c, x⟩) plain := by
  obtain ⟨h1, h2⟩ := h c
  refine ⟨h1, ?_⟩
  unfold EndsLike
  rcases h2 with ⟨a, ha, hq⟩ | ⟨e, n, hn, he⟩
  · rw [ha]; exact hq
  · rw [he]; exact .inr ⟨n, hn⟩

section canon
variable {R : Type} [CommRing R] [StarRing R]

/-- C70: `canonicalize` with any arguments, on any MPA with a true canonical form, interrupted by an exception of a
numerical routine at any step or not at all: afterwards the object is a valid MPA of the same shape, it represents the
same tensor, what it says about its canonical form is true, and no bond has grown. -/
theorem C70_canonicalize {irq : Irq} (hw : ∀ n, irq n .write = none) {qr : QR R} (hqr : QRSpec qr) (x : MPA R)
    (hx : x.Good) (left right : CArg) (c : ℕ) :
    let out := MPA.canonicalizeI qr irq left right ⟨c, x⟩
    out.2.mpa.Good ∧ out.2.mpa.shape = x.shape ∧ (∀ idx, IdxOK idx x.shape → out.2.mpa.val idx = x.val idx) ∧
      out.2.mpa.RanksLe x ∧ EndsLike irq out ((x.canonicalize qr left right).map fun y => (y, ())) := by
  intro out
  cases h : x.canonicalize qr left right with
  | error e =>
    have := MPA.canonicalizeI_reject (irq := irq) hqr hx left right e h c
    have ho : out = (.error e, ⟨c, x⟩) := this
    rw [ho]
    exact ⟨hx, rfl, fun _ _ => rfl, MPA.RanksLe.rfl' x, .inl rfl⟩
  | ok y =>
    obtain ⟨h1, h2⟩ := EndsLike.of_run (plain := Except.ok (y, ()))
      ((MPA.canonicalizeI_run hw hqr hx left right y h).weaken (fun _ h => h)
        (fun _ z _ (hz : z = y) => by rw [hz])) c
    exact ⟨h1.good, h1.same.shape, h1.same.val, h1.ranks, h2⟩

/-- C70: a rejected `canonicalize` does not touch the object. -/
theorem C70_canonicalize_rejected {irq : Irq} {qr : QR R} (hqr : QRSpec qr) (x : MPA R) (hx : x.Good)
    (left right : CArg) (e : PyErr) (h : x.canonicalize qr left right = .error e) (c : ℕ) :
    MPA.canonicalizeI qr irq left right ⟨c, x⟩ = (.error e, ⟨c, x⟩) :=
  MPA.canonicalizeI_reject hqr hx left right e h c

/-- C70: after an interruption at any step, calling `canonicalize` again with the same (admissible) arguments reaches the
requested form, for the same tensor as if nothing had happened. -/
theorem C70_canonicalize_again {irq : Irq} (hw : ∀ n, irq n .write = none) {qr : QR R} (hqr : QRSpec qr) (x : MPA R)
    (hx : x.Good) (left right : CArg) (hne : ¬ (left = .none ∧ right = .none))
    (h0 : 0 ≤ target x.len (left.left x.len))
    (h1 : target x.len (left.left x.len) < target x.len (right.right x.len))
    (h2 : target x.len (right.right x.len) ≤ x.len) (c : ℕ) :
    ∃ z, (MPA.canonicalizeI qr irq left right ⟨c, x⟩).2.mpa.canonicalize qr left right = .ok z ∧ z.Good ∧
      z.shape = x.shape ∧ (∀ idx, IdxOK idx x.shape → z.val idx = x.val idx) ∧
      target x.len (left.left x.len) ≤ z.l ∧ z.r ≤ target x.len (right.right x.len) := by
  obtain ⟨g1, g2, g3, -, -⟩ := C70_canonicalize hw hqr x hx left right c
  generalize (MPA.canonicalizeI qr irq left right ⟨c, x⟩).2.mpa = y at g1 g2 g3
  have hl : y.len = x.len := by
    have := congrArg List.length g2
    simpa [MPA.shape, MPA.len] using this
  obtain ⟨z, k1, -, k2, k3, -⟩ := C11_reaches hqr y g1 left right hne (by rw [hl]; exact h0) (by rw [hl]; exact h1)
    (by rw [hl]; exact h2)
  obtain ⟨q1, -, q2, q3, -⟩ := C10_canonicalize hqr y g1 left right z k1
  rw [hl] at k2 k3
  exact ⟨z, k1, q1, q2.trans g2, fun i hi => (q3 i (by rw [g2]; exact hi)).trans (g3 i hi), k2, k3⟩

omit [StarRing R] in
/-- C70: `mpa *= fact` either leaves the object as it was or has done all of its work. -/
theorem C70_imul (irq : Irq) (x y : MPA R) (fact : R) (h : x.imul fact = .ok y) (c : ℕ) :
    let out := MPA.imulI irq fact ⟨c, x⟩
    (out.1 = .ok () ∧ out.2.mpa = y) ∨ ((∃ e n p, irq n p = some e ∧ out.1 = .error e) ∧ out.2.mpa = x) := by
  unfold MPA.imul at h
  obtain ⟨pos, h1, h⟩ := bind_ok_inv h
  obtain ⟨t, h2, h⟩ := bind_ok_inv h
  intro out
  have ho : out = (MPA.imulI irq fact) ⟨c, x⟩ := rfl
  unfold MPA.imulI at ho
  rw [self_bind, lift_bind h1, lift_bind h2] at ho
  cases hi : irq c .call with
  | some e =>
    rw [point_some (s := ⟨c, x⟩) hi] at ho
    rw [ho]; exact .inr ⟨⟨e, c, .call, hi, rfl⟩, rfl⟩
  | none =>
    rw [point_none (s := ⟨c, x⟩) hi, lift_bind h] at ho
    cases hj : irq (c + 1) .write with
    | some e =>
      rw [point_some (s := ⟨c + 1, x⟩) hj] at ho
      rw [ho]; exact .inr ⟨⟨e, c + 1, .write, hj, rfl⟩, rfl⟩
    | none =>
      rw [point_none (s := ⟨c + 1, x⟩) hj] at ho
      rw [ho]; exact .inl ⟨rfl, rfl⟩

end canon

section norm
variable {𝕜 : Type} [RCLike 𝕜]

theorem normI_run {irq : Irq} (hw : ∀ n, irq n .write = none) {qr : QR 𝕜} (hqr : QRSpec qr) {x : MPA 𝕜} (hx : x.Good) :
    Run irq (MPA.normI qr irq) x (MPA.CanonStepSpec x) (fun v y => norm qr x = .ok (v, y)) := by
  obtain ⟨p, h1⟩ : ∃ p, norm qr x = .ok p := ⟨_, (norm_ok hqr hx).choose_spec.1⟩
  have h1' := h1
  unfold norm at h1'
  obtain ⟨y', k1, k2⟩ := bind_ok_inv h1'
  unfold MPA.normI
  refine (MPA.canonicalizeI_run hw hqr hx _ _ y' k1).bind ?_
  rintro _ z hz rfl
  refine run_self_bind (run_point_bind hz ?_)
  split
  · rename_i hr
    rw [if_pos hr] at k2
    obtain ⟨t, t1, t2⟩ := bind_ok_inv k2
    cases t2
    exact run_lift_bind t1 (run_pure _ hz h1)
  · rename_i hr
    rw [if_neg hr] at k2
    split
    · rename_i hl
      rw [if_pos hl] at k2
      obtain ⟨t, t1, t2⟩ := bind_ok_inv k2
      cases t2
      exact run_lift_bind t1 (run_pure _ hz h1)
    · rename_i hl
      rw [if_neg hl] at k2
      cases k2

/-- C70: `norm`, interrupted at any step: the object has the same tensor and a true canonical form; if the call returns,
then the value is the Frobenius norm. -/
theorem C70_norm {irq : Irq} (hw : ∀ n, irq n .write = none) {qr : QR 𝕜} (hqr : QRSpec qr) (x : MPA 𝕜) (hx : x.Good)
    (c : ℕ) :
    let out := MPA.normI qr irq ⟨c, x⟩
    out.2.mpa.Good ∧ out.2.mpa.shape = x.shape ∧ (∀ idx, IdxOK idx x.shape → out.2.mpa.val idx = x.val idx) ∧
      out.2.mpa.RanksLe x ∧ EndsLike irq out (.ok (out.2.mpa, x.frob)) := by
  intro out
  obtain ⟨y, h1, -⟩ := norm_ok hqr hx
  obtain ⟨k1, k2⟩ := normI_run hw hqr hx c
  refine ⟨k1.good, k1.same.shape, k1.same.val, k1.ranks, ?_⟩
  unfold EndsLike
  rcases k2 with ⟨v, hv, hn⟩ | ⟨e, n, hn, he⟩
  · rw [h1] at hn; cases hn
    have : out.1 = .ok x.frob := hv
    rw [this]
  · have : out.1 = .error e := he
    rw [this]; exact .inr ⟨n, hn⟩

/-- The part of `compress` after the canonicalisation, for arguments that are not admissible. -/
theorem run_bad {irq : Irq} {x : MPA 𝕜} {α : Type} (m : IP 𝕜 Unit) (k : IP 𝕜 α) (e : PyErr)
    (hk : ∀ s, k s = (.error e, s)) (h : Run irq m x (MPA.CanonStepSpec x) fun _ _ => True) (c : ℕ) :
    MPA.CanonStepSpec x ((m >>= fun _ => k) ⟨c, x⟩).2.mpa ∧
      (((m >>= fun _ => k) ⟨c, x⟩).1 = .error e ∨
        ∃ e' n, irq n .call = some e' ∧ ((m >>= fun _ => k) ⟨c, x⟩).1 = .error e') := by
  obtain ⟨h1, h2⟩ := h c
  have ee : (m >>= fun _ => k) ⟨c, x⟩ = andThen m (fun _ => k) ⟨c, x⟩ := rfl
  unfold andThen at ee
  generalize m ⟨c, x⟩ = p at h1 h2 ee
  obtain ⟨res, c', y⟩ := p
  simp only at h1 h2 ee
  rcases h2 with ⟨a, rfl, -⟩ | ⟨e', n, hn, rfl⟩
  · simp only [hk] at ee
    rw [ee]
    exact ⟨h1, .inl rfl⟩
  · simp only at ee
    rw [ee]
    exact ⟨h1, .inr ⟨e', n, hn, rfl⟩⟩

/-- The state of the object while `compress(method='svd')` works on it (specification): a valid MPA of the same shape,
with a true canonical form and no larger bonds, which is an orthogonal projection `c` of the original tensor `u`, so that
`<u|c> = <c|c>` and `‖u - c‖² = ‖u‖² - ‖c‖²`. -/
structure Partway (x y : MPA 𝕜) : Prop where
  good : y.Good
  shape : y.shape = x.shape
  ranks : y.RanksLe x
  overlap : (sumSites x.shape fun i => star (x.val i) * y.val i) = ((sumSites x.shape fun i => ‖y.val i‖ ^ 2 : ℝ) : 𝕜)
  error : (sumSites x.shape fun i => ‖x.val i - y.val i‖ ^ 2)
    = (sumSites x.shape fun i => ‖x.val i‖ ^ 2) - sumSites x.shape fun i => ‖y.val i‖ ^ 2

theorem MPA.Proj.partway {x y : MPA 𝕜} (h : MPA.Proj x y) : Partway x y :=
  ⟨h.good, h.shape, h.ranks_le, h.overlap, pythagoras h.overlap rfl⟩

theorem svdArgs_error {rank : ℤ} {relerr : Option ℝ} (h : ¬ (0 < rank ∧ ∀ e, relerr = some e → 0 ≤ e ∧ e ≤ 1)) :
    MPA.svdArgs rank relerr = .error .assertion := by
  unfold MPA.svdArgs
  by_cases hr : 0 < rank
  · rw [pyAssert_true (show rank > 0 from hr), ok_bind]
    cases relerr with
    | none => exact absurd ⟨hr, by simp⟩ h
    | some e =>
      simp only
      rw [if_neg]
      intro he
      exact h ⟨hr, fun e' h' => by cases h'; exact he⟩
  · unfold pyAssert
    rw [if_neg (show ¬ rank > 0 from hr)]
    rfl

/-- One of the two directions of `compress`. -/
theorem compress_branch {irq : Irq} {x : MPA 𝕜} {plainC : Py (MPA 𝕜)} {m : IP 𝕜 Unit} {k : IP 𝕜 ℝ}
    {plainK : MPA 𝕜 → Py (MPA 𝕜 × List (List ℝ × ℕ) × ℝ)}
    (hm : ∃ z, plainC = .ok z ∧ Run irq m x (MPA.CanonStepSpec x) fun _ z' => z' = z)
    (hk : (∀ z, MPA.CanonStepSpec x z → Run irq k z (MPA.Proj z) fun o y => ∃ out, plainK z = .ok (y, out, o)) ∨
      ((∀ s, k s = (.error .assertion, s)) ∧ ∀ z, plainK z = .error .assertion)) (c : ℕ) :
    MPA.Proj x ((m >>= fun _ => k) ⟨c, x⟩).2.mpa ∧ EndsLike irq ((m >>= fun _ => k) ⟨c, x⟩)
      (plainC >>= fun y => plainK y >>= fun p => pure (p.1, p.2.2)) := by
  obtain ⟨z, hz, hr⟩ := hm
  rw [hz, ok_bind]
  rcases hk with hk | ⟨hk1, hk2⟩
  · have hc : MPA.CanonStepSpec x z ∨ True := .inr trivial
    refine EndsLike.of_run ((hr.weaken (I' := MPA.Proj x) (fun _ h => h.proj)
      (Q' := fun _ z' => z' = z ∧ MPA.CanonStepSpec x z') fun _ z' hI hq => ⟨hq, hI⟩).bind ?_) c
    rintro _ y - ⟨rfl, hy⟩
    refine (hk y hy).weaken (fun _ h => MPA.Proj.of_canon hy h) ?_
    rintro o y' - ⟨out, ho⟩
    rw [ho, ok_bind]; rfl
  · obtain ⟨h1, h2⟩ := run_bad m k .assertion hk1 (hr.weaken (fun _ h => h) (Q' := fun _ _ => True) fun _ _ _ _ => trivial) c
    refine ⟨h1.proj, ?_⟩
    unfold EndsLike
    rcases h2 with h2 | ⟨e', n, hn, h2⟩
    · rw [h2, hk2]; exact .inl rfl
    · rw [h2]; exact .inr ⟨n, hn⟩

theorem compressSvdI_ends {irq : Irq} (hw : ∀ n, irq n .write = none) {qr : QR 𝕜} (hqr : QRSpec qr) {svd : SVD 𝕜}
    {f : SVDFunc 𝕜} (h : SVDSpec svd) (hf : SVDFuncSpec f) (x : MPA 𝕜) (hx : x.Good) (rank : Option ℤ)
    (relerr : Option ℝ) (direction : Option Dir) (canon : Bool) (c : ℕ) :
    MPA.Proj x (MPA.compressSvdI qr svd f irq rank relerr direction canon ⟨c, x⟩).2.mpa ∧
      EndsLike irq (MPA.compressSvdI qr svd f irq rank relerr direction canon ⟨c, x⟩)
        (x.compressSvd qr svd f rank relerr direction canon) := by
  by_cases hlen : x.len = 1
  · unfold MPA.compressSvd MPA.compressSvdI
    rw [if_pos hlen, self_bind, if_pos hlen]
    obtain ⟨y, h1, h2⟩ := norm_ok hqr hx
    refine EndsLike.of_run (((normI_run hw hqr hx).weaken (I' := MPA.Proj x) (fun _ h => h.proj)
      fun _ _ _ h => h).bind ?_) c
    intro v z hz hv
    refine run_pure _ hz ?_
    rw [hv]; rfl
  · have hr : ∃ r : ℤ, x.EffRank rank r := by
      cases rank with
      | some r => exact ⟨r, rfl⟩
      | none =>
        obtain ⟨m, h1, -⟩ := MPA.maxRank_ok hx hlen
        exact ⟨m, by unfold MPA.EffRank; rw [h1]; rfl⟩
    obtain ⟨r, hr⟩ := hr
    rw [MPA.compressSvd_eq qr svd f x hlen hr relerr direction canon]
    have heq : MPA.compressSvdI qr svd f irq rank relerr direction canon ⟨c, x⟩ = (match x.effDir direction with
      | .right => (if canon then MPA.canonicalizeI qr irq .none (.int 1) else pure ()) >>= fun _ =>
          MPA.compressSvdRI svd f irq r relerr
      | .left => (if canon then MPA.canonicalizeI qr irq (.int (x.len - 1)) .none else pure ()) >>= fun _ =>
          MPA.compressSvdLI svd f irq r relerr
      | .other => lift (.error .value)) ⟨c, x⟩ := by
      unfold MPA.compressSvdI
      rw [self_bind, if_neg hlen]
      unfold MPA.effDir
      have hl : ∀ k : ℤ → IP 𝕜 ℝ, (lift (match rank with
        | some r => Except.ok r
        | none => x.maxRank.map (fun m : ℕ => (m : ℤ))) >>= k) ⟨c, x⟩ = k r ⟨c, x⟩ := by
        intro k
        cases rank with
        | some r' => cases hr; rfl
        | none => exact lift_bind hr _ _
      refine (hl _).trans ?_
      cases direction.getD (if (x.len : ℤ) - x.r > x.l then Dir.left else Dir.right) <;> cases canon <;> rfl
    rw [heq]
    cases x.effDir direction with
    | other =>
      exact ⟨(MPA.CanonStepSpec.rfl' hx).proj, .inl rfl⟩
    | right =>
      have hp : (do
          let y ← if canon then x.canonicalize qr .none (.int 1) else .ok x
          let (z, _, o) ← y.compressSvdR svd f r relerr
          return (z, o) : Py (MPA 𝕜 × ℝ)) = ((if canon then x.canonicalize qr .none (.int 1) else .ok x) >>= fun y =>
            y.compressSvdR svd f r relerr >>= fun p => pure (p.1, p.2.2)) := by
        cases canon <;> rfl
      simp only
      refine (congrArg (fun z => _ ∧ EndsLike irq _ z) hp).mpr ?_
      refine compress_branch (k := MPA.compressSvdRI svd f irq r relerr) (plainK := fun y => y.compressSvdR svd f r relerr)
        ?_ ?_ c
      · obtain ⟨z, z1, -, -⟩ := MPA.canon_right hqr hx canon
        refine ⟨z, z1, ?_⟩
        cases canon with
        | true => exact MPA.canonicalizeI_run hw hqr hx _ _ z (by simpa using z1)
        | false =>
          cases z1
          exact run_pure _ (MPA.CanonStepSpec.rfl' hx) rfl
      · by_cases ha : 0 < r ∧ ∀ e, relerr = some e → 0 ≤ e ∧ e ≤ 1
        · left
          intro z hz
          exact MPA.compressSvdRI_run hw h hf ha.1 ha.2 hz.good (by rw [hz.len]; exact hlen)
        · right
          refine ⟨fun s => ?_, fun z => ?_⟩
          · unfold MPA.compressSvdRI
            exact lift_error (svdArgs_error ha) _ _
          · unfold MPA.compressSvdR
            rw [svdArgs_error ha]; rfl
    | left =>
      have hp : (do
          let y ← if canon then x.canonicalize qr (.int (x.len - 1)) .none else .ok x
          let (z, _, o) ← y.compressSvdL svd f r relerr
          return (z, o) : Py (MPA 𝕜 × ℝ)) = ((if canon then x.canonicalize qr (.int (x.len - 1)) .none else .ok x) >>= fun y =>
            y.compressSvdL svd f r relerr >>= fun p => pure (p.1, p.2.2)) := by
        cases canon <;> rfl
      simp only
      refine (congrArg (fun z => _ ∧ EndsLike irq _ z) hp).mpr ?_
      refine compress_branch (k := MPA.compressSvdLI svd f irq r relerr) (plainK := fun y => y.compressSvdL svd f r relerr)
        ?_ ?_ c
      · obtain ⟨z, z1, -, -⟩ := MPA.canon_left hqr hx canon
        refine ⟨z, z1, ?_⟩
        cases canon with
        | true => exact MPA.canonicalizeI_run hw hqr hx _ _ z (by simpa using z1)
        | false =>
          cases z1
          exact run_pure _ (MPA.CanonStepSpec.rfl' hx) rfl
      · by_cases ha : 0 < r ∧ ∀ e, relerr = some e → 0 ≤ e ∧ e ≤ 1
        · left
          intro z hz
          exact MPA.compressSvdLI_run hw h hf ha.1 ha.2 hz.good (by rw [hz.len]; exact hlen)
        · right
          refine ⟨fun s => ?_, fun z => ?_⟩
          · unfold MPA.compressSvdLI
            exact lift_error (svdArgs_error ha) _ _
          · unfold MPA.compressSvdL
            rw [svdArgs_error ha]; rfl

/-- C70: `compress(method='svd')` with any arguments (also with those it rejects), interrupted by an exception of a
numerical routine at any step or not at all: the object is always a valid MPA with a true canonical form, an orthogonal
projection of the original tensor; and if the call returns, then result and object are those of the call that is not
interrupted. -/
theorem C70_compress {irq : Irq} (hw : ∀ n, irq n .write = none) {qr : QR 𝕜} (hqr : QRSpec qr) {svd : SVD 𝕜}
    {f : SVDFunc 𝕜} (h : SVDSpec svd) (hf : SVDFuncSpec f) (x : MPA 𝕜) (hx : x.Good) (rank : Option ℤ)
    (relerr : Option ℝ) (direction : Option Dir) (canon : Bool) (c : ℕ) :
    let out := MPA.compressSvdI qr svd f irq rank relerr direction canon ⟨c, x⟩
    Partway x out.2.mpa ∧ EndsLike irq out (x.compressSvd qr svd f rank relerr direction canon) := by
  obtain ⟨h1, h2⟩ := compressSvdI_ends hw hqr h hf x hx rank relerr direction canon c
  exact ⟨h1.partway, h2⟩

end norm

/-- C70: `compress(method='var')` either leaves the object as it was or has done all of its work: wherever the variational
sweeps stop, they work on another object. -/
theorem C70_compress_var (irq : Irq) (qr : QR ℂ) (svd : SVD ℂ) (x : MPA ℂ) (numSweeps : ℕ) (startmpa : Option (MPA ℂ))
    (rank : Option ℕ) (varSites : ℕ) (cplx : Bool) (rs : RandState) (c : ℕ) :
    let out := MPA.compressVarI qr svd irq numSweeps startmpa rank varSites cplx rs ⟨c, x⟩
    (∃ o, out.1 = .ok o ∧ x.compressVar qr svd numSweeps startmpa rank varSites cplx rs = .ok (out.2.mpa, o)) ∨
      ((∃ e, out.1 = .error e) ∧ out.2.mpa = x) := by
  intro out
  have ho : out = MPA.compressVarI qr svd irq numSweeps startmpa rank varSites cplx rs ⟨c, x⟩ := rfl
  unfold MPA.compressVarI at ho
  rw [self_bind] at ho
  cases hi : irq c .call with
  | some e =>
    rw [point_some (s := ⟨c, x⟩) hi] at ho
    rw [ho]; exact .inr ⟨⟨e, rfl⟩, rfl⟩
  | none =>
    rw [point_none (s := ⟨c, x⟩) hi] at ho
    unfold MPA.compressVar
    cases hv : x.compressionVar qr svd numSweeps startmpa rank varSites cplx rs with
    | error e =>
      rw [lift_error hv] at ho
      rw [ho]; exact .inr ⟨⟨e, rfl⟩, rfl⟩
    | ok p =>
      rw [lift_bind hv] at ho
      simp only at ho
      cases hj : irq (c + 1) .write with
      | some e =>
        rw [point_some (s := ⟨c + 1, x⟩) hj] at ho
        rw [ho]; exact .inr ⟨⟨e, rfl⟩, rfl⟩
      | none =>
        rw [point_none (s := ⟨c + 1, x⟩) hj] at ho
        rw [ho]; exact .inl ⟨_, rfl, rfl⟩

/-! ### An exception between the two assignments of an update

`LocalTensors.update` assigns the new tensors of two sites one after the other (mpstruct.py:135-136).  The theorems above
need that nothing comes between the two assignments (`hw`); an asynchronous exception (`KeyboardInterrupt`) can. -/

/-- An exception raised at the program point number `n`, an assignment of a local tensor. -/
def irqWrite (n : ℕ) (e : PyErr) : Irq := fun m p => if m = n ∧ p = .write then some e else none

/-- The update of two sites, stopped between its two assignments. -/
theorem updateSliceI_between {R : Type} {x y : MPA R} {u v t1 t2 : NDArray R} (hx : x = ⟨[u, v], 0, 2⟩) (e : PyErr) (c : ℕ)
    (h : x.updateSlice (some 0) (some 2) none [t1, t2] (.seq [some .left, none]) = .ok y) :
    MPA.updateSliceI (irqWrite (c + 1) e) (some 0) (some 2) none [t1, t2] (.seq [some .left, none]) ⟨c, x⟩
      = (.error e, ⟨c + 2, ⟨[t1, v], 1, 2⟩⟩) ∧ y = ⟨[t1, t2], 1, 2⟩ := by
  subst hx
  unfold MPA.updateSlice at h
  obtain ⟨⟨s, e', st⟩, h1, h⟩ := bind_ok_inv h
  simp only at h
  obtain ⟨ps, h2, h⟩ := bind_ok_inv h
  obtain ⟨first, h3, h⟩ := bind_ok_inv h
  obtain ⟨_, h4, h⟩ := bind_ok_inv h
  obtain ⟨_, h5, h⟩ := bind_ok_inv h
  obtain ⟨pe, h6, h⟩ := bind_ok_inv h
  obtain ⟨_, h7, hloop⟩ := bind_ok_inv h
  cases h3
  have h1' : sliceIndices (some 0) (some 2) none 2 = .ok (0, 2, 1) := by decide
  have h1'' : sliceIndices (some 0) (some 2) none (MPA.len ⟨[u, v], 0, 2⟩) = .ok (0, 2, 1) := h1'
  rw [h1''] at h1; cases h1
  constructor
  · unfold MPA.updateSliceI
    rw [self_bind, lift_bind h1'']
    simp only
    rw [lift_bind h2, lift_bind rfl, lift_bind h4, lift_bind h5, lift_bind h6, lift_bind h7]
    have hr : pyRange 0 2 1 = [0, 1] := by decide
    rw [hr]
    show MPA.updateLoopI _ [t1, t2] [0, 1] (some [some .left, none]) _ = _
    unfold MPA.updateLoopI
    rw [point_none (by simp [irqWrite]), self_bind, lift_bind (a := (⟨[t1, v], 1, 2⟩ : MPA R)) (by rfl), become_bind]
    unfold MPA.updateLoopI
    rw [point_some (e := e) (by simp [irqWrite])]
  · have hr : pyRange 0 2 1 = [0, 1] := by decide
    rw [hr] at hloop
    have : MPA.updateLoop ⟨[u, v], 0, 2⟩ [t1, t2] [0, 1] (some [some .left, none]) = .ok ⟨[t1, t2], 1, 2⟩ := rfl
    have h' : MPA.updateLoop ⟨[u, v], 0, 2⟩ [t1, t2] [0, 1] (some [some .left, none]) = .ok y := hloop
    rw [this] at h'
    cases h'; rfl

/-- `canonicalize(left=1)` of two sites ends as its only step if that fails. -/
theorem canonicalizeI_of_step {R : Type} [CommRing R] [StarRing R] {qr : QR R} {irq : Irq} {x : MPA R} {u v : NDArray R}
    (hx2 : x = ⟨[u, v], 0, 2⟩) {e : PyErr} {s : Obj R} (hstep : MPA.rcanonStepI qr irq 0 ⟨0, x⟩ = (.error e, s)) :
    MPA.canonicalizeI qr irq (.int 1) .none ⟨0, x⟩ = (.error e, s) := by
  have hl : x.len = 2 := by rw [hx2]; rfl
  have hxl : x.l = 0 := by rw [hx2]
  have hr : pyRange 0 1 1 = [0] := by decide
  unfold MPA.canonicalizeI
  rw [self_bind, if_neg (by simp [CArg.isNone])]
  simp only
  have e1 : (if (CArg.int 1).left x.len < 0 then (CArg.int 1).left x.len + (x.len : ℤ)
      else (CArg.int 1).left x.len) = 1 := rfl
  have e2 : (if CArg.none.right x.len < 0 then CArg.none.right x.len + (x.len : ℤ)
      else CArg.none.right x.len) = 2 := by rw [hl]; rfl
  rw [e1, e2]
  rw [lift_bind (show pyGuard (0 ≤ (1 : ℤ) ∧ (1 : ℤ) ≤ x.len) PyErr.index = .ok () from if_pos (by rw [hl]; norm_num)),
    lift_bind (show pyGuard (0 ≤ (2 : ℤ) ∧ (2 : ℤ) ≤ x.len) PyErr.index = .ok () from if_pos (by rw [hl]; norm_num)),
    lift_bind (show pyGuard ((1 : ℤ) < 2) PyErr.value = .ok () from if_pos (by norm_num))]
  rw [if_pos (by rw [hxl]; norm_num)]
  have hrc : MPA.rcanonicalizeI qr irq 1 ⟨0, x⟩ = (.error e, s) := by
    unfold MPA.rcanonicalizeI
    rw [self_bind, lift_bind (pyAssert_true (by simp [hl]))]
    simp only
    rw [hxl, hr]
    unfold forEach
    show andThen _ _ _ = _
    unfold andThen
    rw [hstep]
  show andThen _ _ _ = _
  unfold andThen
  rw [hrc]

/-- `canonicalize(left=1)` of two sites, stopped between the two assignments of its only step. -/
theorem canonicalizeI_between {R : Type} [CommRing R] [StarRing R] {qr : QR R} (hqr : QRSpec qr) {x : MPA R}
    {u v : NDArray R} (hx : x.Good) (hx2 : x = ⟨[u, v], 0, 2⟩) (e : PyErr) :
    ∃ t1 t2, x.canonicalize qr (.int 1) .none = .ok ⟨[t1, t2], 1, 2⟩ ∧
      MPA.canonicalizeI qr (irqWrite 3 e) (.int 1) .none ⟨0, x⟩ = (.error e, ⟨4, ⟨[t1, v], 1, 2⟩⟩) := by
  have hl : x.len = 2 := by rw [hx2]; rfl
  have hxl : x.l = 0 := by rw [hx2]
  have hxr : x.r = 2 := by rw [hx2]
  obtain ⟨y, g1, -⟩ := MPA.rcanonStep_ok hqr hx (by rw [hl, hxl]; norm_num)
  rw [hxl] at g1
  have g1' := g1
  unfold MPA.rcanonStep at g1'
  obtain ⟨ltens, h1, h⟩ := bind_ok_inv g1'
  obtain ⟨mat, h2, h⟩ := bind_ok_inv h
  rcases hq : qr mat with ⟨q, r⟩
  simp only [hq] at h
  obtain ⟨next, h3, h⟩ := bind_ok_inv h
  obtain ⟨t1, h4, h⟩ := bind_ok_inv h
  obtain ⟨t2, h5, h⟩ := bind_ok_inv h
  obtain ⟨k1, k2⟩ := updateSliceI_between hx2 e 2 h
  have hstep : MPA.rcanonStepI qr (irqWrite 3 e) 0 ⟨0, x⟩ = (.error e, ⟨4, ⟨[t1, v], 1, 2⟩⟩) := by
    unfold MPA.rcanonStepI
    rw [self_bind, lift_bind h1, lift_bind h2, point_none (by simp [irqWrite])]
    simp only [hq]
    rw [lift_bind h3, lift_bind h4, point_none (by simp [irqWrite]), lift_bind h5]
    exact k1
  have hr : pyRange 0 1 1 = [0] := by decide
  refine ⟨t1, t2, ?_, ?_⟩
  · rw [← k2]
    rw [MPA.canonicalize_eq (by rfl) (tl := 1) (tr := 2) (by rw [hl]; decide) (by rw [hl]; decide)]
    rw [show pyGuard (0 ≤ (1 : ℤ) ∧ (1 : ℤ) ≤ x.len) PyErr.index = .ok () from if_pos (by rw [hl]; norm_num), ok_bind,
      show pyGuard (0 ≤ (2 : ℤ) ∧ (2 : ℤ) ≤ x.len) PyErr.index = .ok () from if_pos (by rw [hl]; norm_num), ok_bind,
      show pyGuard ((1 : ℤ) < 2) PyErr.value = .ok () from if_pos (by norm_num), ok_bind]
    rw [if_pos (by rw [hxl]; norm_num)]
    have hrc : MPA.rcanonicalize qr x 1 = .ok y := by
      unfold MPA.rcanonicalize
      rw [pyAssert_true (by rw [hl]; norm_num), ok_bind, hxl, hr, List.foldlM_cons, g1, ok_bind]
      rfl
    rw [hrc, ok_bind]
    beta_reduce
    rw [if_neg (by rw [hxr]; norm_num)]
  · exact canonicalizeI_of_step hx2 hstep

/-- Two sites with a bond of size 2, which is more than the first site needs. -/
noncomputable def exWide : MPA ℂ := ⟨[⟨[1, 1, 2], fun _ => 1⟩, ⟨[2, 1, 1], fun _ => 1⟩], 0, 2⟩

theorem exWide_good : exWide.Good := by
  refine ⟨⟨by simp [exWide], by simp [exWide, NDArray.IsLocal, NDArray.ndim, NDArray.lb, NDArray.rb],
    by simp [exWide], by simp [exWide], by simp [exWide, MPA.len]⟩, canonOK_mk _, ?_⟩
  intro t ht d hd
  simp only [exWide, List.mem_cons, List.not_mem_nil, or_false] at ht
  rcases ht with rfl | rfl <;> simp at hd <;> omega

/-- Two sites with a bond of size 1; the tensor has the one entry 2. -/
noncomputable def exTwo : MPA ℂ := ⟨[⟨[1, 1, 1], fun _ => 2⟩, ⟨[1, 1, 1], fun _ => 1⟩], 0, 2⟩

theorem exTwo_good : exTwo.Good := by
  refine ⟨⟨by simp [exTwo], by simp [exTwo, NDArray.IsLocal, NDArray.ndim, NDArray.lb, NDArray.rb],
    by simp [exTwo], by simp [exTwo], by simp [exTwo, MPA.len]⟩, canonOK_mk _, ?_⟩
  intro t ht d hd
  simp only [exTwo, List.mem_cons, List.not_mem_nil, or_false] at ht
  rcases ht with rfl | rfl <;> simp at hd <;> omega

/-- C70, a limit of the guarantee (finding): an exception between the two assignments of one update leaves, for every QR
routine, an object whose bonds do not fit … -/
theorem C70_between_assignments_invalid {qr : QR ℂ} (hqr : QRSpec qr) (e : PyErr) :
    let out := MPA.canonicalizeI qr (irqWrite 3 e) (.int 1) .none ⟨0, exWide⟩
    exWide.Good ∧ out.1 = .error e ∧ ¬ out.2.mpa.Valid := by
  obtain ⟨t1, t2, h1, h2⟩ := canonicalizeI_between hqr exWide_good rfl e
  intro out
  have ho : out = _ := h2
  refine ⟨exWide_good, by rw [ho], ?_⟩
  rw [ho]
  intro hv
  obtain ⟨g1, -, g2, -, -⟩ := C10_canonicalize hqr _ exWide_good _ _ _ h1
  have hph : t1.ph = [1] := by
    have : [t1.ph, t2.ph] = [[1], [1]] := g2
    simpa using (List.cons.inj this).1
  have hlb : t1.lb = 1 := g1.valid.chain.2.1
  have hrb : t1.rb = 2 := by
    have := hv.chain.2.2.2.1
    exact this.symm
  have hL : LCanon t1 := (g1.canon 0 t1 rfl).1 (by simp)
  have h00 := hL 0 (by omega) 0 (by omega)
  have h11 := hL 1 (by omega) 1 (by omega)
  have h01 := hL 0 (by omega) 1 (by omega)
  simp only [hlb, hph, Finset.sum_range_one, sumIdx_cons, sumIdx_nil] at h00 h11 h01
  simp at h00 h11 h01
  rcases h01 with h | h
  · rw [h] at h00; simp at h00
  · rw [h] at h11; simp at h11

/-- … or a valid object with a true canonical form that represents another tensor. -/
theorem C70_between_assignments_changed {qr : QR ℂ} (hqr : QRSpec qr) (e : PyErr) :
    let out := MPA.canonicalizeI qr (irqWrite 3 e) (.int 1) .none ⟨0, exTwo⟩
    exTwo.Good ∧ out.1 = .error e ∧ out.2.mpa.Good ∧ IdxOK [[0], [0]] exTwo.shape ∧
      out.2.mpa.val [[0], [0]] ≠ exTwo.val [[0], [0]] := by
  obtain ⟨t1, t2, h1, h2⟩ := canonicalizeI_between hqr exTwo_good rfl e
  intro out
  have ho : out = _ := h2
  obtain ⟨g1, -, g2, -, g3⟩ := C10_canonicalize hqr _ exTwo_good _ _ _ h1
  have hph : t1.ph = [1] := by
    have : [t1.ph, t2.ph] = [[1], [1]] := g2
    simpa using (List.cons.inj this).1
  have hlb : t1.lb = 1 := g1.valid.chain.2.1
  have hrb : t1.rb = 1 := by
    have e1 : t2.lb = t1.rb := g1.valid.chain.2.2.2.1
    have e2 : List.Forall₂ (· ≤ ·) [t1.lb, t2.lb] [1, 1] := g3
    have e3 : t2.lb ≤ 1 := by
      cases e2 with
      | cons _ h => cases h with
        | cons h _ => exact h
    have hs : t1.shape = t1.lb :: (t1.ph ++ [t1.rb]) := NDArray.shape_local g1.valid.chain.1
    have := g1.pos t1 (by simp) t1.rb (by rw [hs]; simp)
    omega
  have hloc : t1.IsLocal := g1.valid.chain.1
  have hL : LCanon t1 := (g1.canon 0 t1 rfl).1 (by simp)
  have h00 := hL 0 (by omega) 0 (by omega)
  simp only [hlb, hph, Finset.sum_range_one, sumIdx_cons, sumIdx_nil] at h00
  refine ⟨exTwo_good, by rw [ho], ?_, ?_, ?_⟩
  · rw [ho]
    refine ⟨⟨by simp, ?_, by simp, by simp, by simp [MPA.len]⟩, ?_, ?_⟩
    · exact ⟨hloc, hlb, by simp [NDArray.IsLocal, NDArray.ndim], by simp [hrb, NDArray.lb], by simp [NDArray.rb]⟩
    · intro n t hn
      match n with
      | 0 =>
        simp at hn
        subst hn
        exact ⟨fun _ => hL, fun h => by simp at h⟩
      | 1 =>
        exact ⟨fun h => by simp at h, fun h => by simp at h⟩
      | n + 2 => simp at hn
    · intro t ht d hd
      simp only [List.mem_cons, List.not_mem_nil, or_false] at ht
      rcases ht with rfl | rfl
      · exact g1.pos _ (by simp) d hd
      · simp at hd; omega
  · simp [exTwo, MPA.shape, physShape, NDArray.ph, IdxOK, InB]
  · rw [ho]
    have e1 : exTwo.val [[0], [0]] = 2 := by
      simp [MPA.val, exTwo, entry, mp_cons, NDArray.rb, NDArray.at3]
    rw [e1]
    have e2 : MPA.val (⟨[t1, ⟨[1, 1, 1], fun _ => 1⟩], 1, 2⟩ : MPA ℂ) [[0], [0]] = t1.at3 0 [0] 0 := by
      show mp _ _ 0 0 = _
      rw [mp_cons, hrb, Finset.sum_range_one]
      simp [mp_cons, NDArray.rb, NDArray.at3]
    rw [e2]
    intro h
    rw [h] at h00
    simp at h00
    norm_num at h00

/-- Non-vacuity: routines that meet the contracts exist; the example is good; an exception of the second call of a
numerical routine does stop `canonicalize`, and the object keeps its tensor. -/
example : ∃ (qr : QR ℂ) (svd : SVD ℂ) (irq : Irq), QRSpec qr ∧ SVDSpec svd ∧ SVDFuncSpec (truncatedSvd svd) ∧
    (∀ n, irq n .write = none) ∧ exMPAc.Good ∧
    (MPA.canonicalizeI qr irq (.int 1) .none ⟨0, exMPAc⟩).1 = .error .linalg ∧
    Partway exMPAc (MPA.compressSvdI qr svd (truncatedSvd svd) irq (some 1) none none true ⟨0, exMPAc⟩).2.mpa := by
  obtain ⟨qr, hqr⟩ := exists_QRSpec (𝕜 := ℂ)
  obtain ⟨svd, h⟩ := exists_SVDSpec (𝕜 := ℂ)
  have hf : SVDFuncSpec (truncatedSvd svd) := truncatedSvd_spec h
  refine ⟨qr, svd, fun n p => if n = 1 ∧ p = .call then some .linalg else none, hqr, h, hf, by simp, exMPAc_good, ?_, ?_⟩
  · have hx2 : exMPAc = ⟨[_, _], 0, 2⟩ := rfl
    refine (congrArg Prod.fst (canonicalizeI_of_step (s := ⟨2, exMPAc⟩) hx2 ?_)).trans rfl
    obtain ⟨y, g1, -⟩ := MPA.rcanonStep_ok hqr exMPAc_good (by simp [exMPAc, MPA.len])
    have g2 : MPA.rcanonStep qr exMPAc 0 = .ok y := g1
    unfold MPA.rcanonStep at g2
    obtain ⟨ltens, h1, h⟩ := bind_ok_inv g2
    obtain ⟨mat, h2, h⟩ := bind_ok_inv h
    rcases hq : qr mat with ⟨q, r⟩
    simp only [hq] at h
    obtain ⟨next, h3, h⟩ := bind_ok_inv h
    obtain ⟨t1, h4, h⟩ := bind_ok_inv h
    unfold MPA.rcanonStepI
    rw [self_bind, lift_bind h1, lift_bind h2, point_none (by simp)]
    simp only [hq]
    rw [lift_bind h3, lift_bind h4, point_some (e := .linalg) (by simp)]
  · exact (C70_compress (by simp) hqr h hf exMPAc exMPAc_good (some 1) none none true 0).1

end Mpnum
