import Mathlib.Algebra.Order.Chebyshev
import Verif.MPArray.RoundingInner
import Verif.Povm.RoundingPmf
import Verif.Props.C20
import Verif.Props.C78

/-!
# `partialtrace` and `trace` with rounding errors

`numpy.trace` and `numpy.tensordot` are parameters.
-/

open Finset

namespace Mpnum

section defs

variable {𝕜 : Type}

/-- A function in the place of `numpy.trace(a, axis1=i, axis2=j)`. -/
abbrev TraceFn (𝕜 : Type) := NDArray 𝕜 → ℤ → ℤ → Py (NDArray 𝕜)

/-- `_prune_ltens` (mparray.py:1465-1492), the loop, with the function `td` for `numpy.tensordot`. -/
def pruneGoF (td : TDot 𝕜) (last : NDArray 𝕜) : List (NDArray 𝕜) → Py (List (NDArray 𝕜))
  | [] => .ok [last]
  | t :: ts =>
    if t.ndim - 2 = 0 ∨ last.ndim - 2 = 0 then do
      let u ← td.matdot last t
      pruneGoF td u ts
    else do
      let us ← pruneGoF td t ts
      return last :: us

/-- `_prune_ltens` (mparray.py:1465-1492) with the function `td` for `numpy.tensordot`. -/
def pruneLtensF (td : TDot 𝕜) : List (NDArray 𝕜) → Py (List (NDArray 𝕜))
  | [] => .error .stopIteration
  | t :: ts => pruneGoF td t ts

/-- mparray.py:1542-1546 with the function `tr` for `numpy.trace`: one site. -/
def traceSiteF (tr : TraceFn 𝕜) (t : NDArray 𝕜) : Option (ℤ × ℤ) → Py (NDArray 𝕜)
  | none => .ok t
  | some (i, j) => tr t (adaptAxis i) (adaptAxis j)

/-- `partialtrace` (mparray.py:1509-1547) with the functions `tr` and `td` for `numpy.trace` and `numpy.tensordot`. -/
def partialtraceF (tr : TraceFn 𝕜) (td : TDot 𝕜) (x : MPA 𝕜) (axes : TraceAxes) : Py (MPA 𝕜) := do
  let axs ← traceSites axes x.len
  pyAssert ((x.ndims.zip axs).all (fun p => traceCheck p.1 p.2) = true)
  let ts ← (axs.zip x.lt).mapM fun p => traceSiteF tr p.2 p.1
  let us ← pruneLtensF td ts
  mkMPA us

/-- `trace` (mparray.py:1550-1566) with the functions `tr` and `td` for `numpy.trace` and `numpy.tensordot`. -/
def traceF (tr : TraceFn 𝕜) (td : TDot 𝕜) (x : MPA 𝕜) (axes : TraceAxes) : Py (NDArray 𝕜) := do
  let out ← partialtraceF tr td x axes
  let a ← out.toArrayF td
  pyAssert (a.size = 1)
  return a

end defs

section exact
variable {𝕜 : Type} [AddCommMonoid 𝕜] [Mul 𝕜]

theorem pruneGoF_exact : ∀ (ts : List (NDArray 𝕜)) (last : NDArray 𝕜), pruneGoF NDArray.tensordot last ts = pruneGo last ts
  | [], _ => rfl
  | t :: ts, last => by
    unfold pruneGoF pruneGo
    simp only [pruneGoF_exact ts]
    rfl

theorem partialtraceF_exact (x : MPA 𝕜) (axes : TraceAxes) : partialtraceF NDArray.trace NDArray.tensordot x axes = partialtrace x axes := by
  unfold partialtraceF partialtrace
  have h1 : ∀ ts : List (NDArray 𝕜), pruneLtensF NDArray.tensordot ts = pruneLtens ts := by
    intro ts
    cases ts with
    | nil => rfl
    | cons t ts => exact pruneGoF_exact ts t
  have h2 : (fun p : Option (ℤ × ℤ) × NDArray 𝕜 => traceSiteF NDArray.trace p.2 p.1) = fun p => traceSite p.2 p.1 := by
    funext p
    obtain ⟨o, t⟩ := p
    cases o <;> rfl
  simp only [h1, h2]

end exact

variable {𝕜 : Type} [RCLike 𝕜]

/-- Contract of `numpy.trace`: every entry of the result is a sum, computed with an error of at most `δ` relative to the sum of the absolute
values. -/
def TrNear (δ : ℝ) (tr : TraceFn 𝕜) : Prop :=
  ∀ (a : NDArray 𝕜) (i j : ℤ) (p q : ℕ), pyIndex a.ndim i = .ok p → pyIndex a.ndim j = .ok q → p ≠ q →
    ∃ c, tr a i j = .ok c ∧ c.shape = (a.traceTo p q).shape ∧ ∀ f, InB f c.shape →
      ‖(∑ k ∈ range (min (a.shape.getD p 0) (a.shape.getD q 0)), a.get (NDArray.asm a.ndim [p, q] [k, k] f)) - c.get f‖
        ≤ δ * ∑ k ∈ range (min (a.shape.getD p 0) (a.shape.getD q 0)), ‖a.get (NDArray.asm a.ndim [p, q] [k, k] f)‖

/-- The diagonal of an array has at most the norm of the array. -/
theorem diag_le (a : NDArray 𝕜) {p q : ℕ} (hp : p < a.ndim) (hq : q < a.ndim) (hpq : p ≠ q) :
    ∑ f ∈ idxSet (a.traceTo p q).shape, ∑ k ∈ range (min (a.shape.getD p 0) (a.shape.getD q 0)),
      ‖a.get (NDArray.asm a.ndim [p, q] [k, k] f)‖ ^ 2 ≤ npNorm a ^ 2 := by
  rw [npNorm_sq, nsq_asm a (ax := [p, q]) (by simp [hp, hq]) (by simp [hpq])]
  refine sum_le_sum fun f _ => ?_
  have e : ∀ F : List ℕ → ℝ, ∑ k ∈ idxSet ([p, q].map fun p => a.shape.getD p 0), F k
      = ∑ k ∈ range (a.shape.getD p 0), ∑ l ∈ range (a.shape.getD q 0), F [k, l] := by
    intro F
    rw [← sumIdx_eq_sum]
    simp [sumIdx_cons]
  rw [e]
  calc _ ≤ ∑ k ∈ range (min (a.shape.getD p 0) (a.shape.getD q 0)), ∑ l ∈ range (a.shape.getD q 0),
        ‖a.get (NDArray.asm a.ndim [p, q] [k, l] f)‖ ^ 2 := by
        refine sum_le_sum fun k hk => ?_
        exact single_le_sum (f := fun l => ‖a.get (NDArray.asm a.ndim [p, q] [k, l] f)‖ ^ 2) (fun _ _ => sq_nonneg _)
          (mem_range.2 ((mem_range.1 hk).trans_le (min_le_right _ _)))
    _ ≤ _ := sum_le_sum_of_subset_of_nonneg (range_subset_range.2 (min_le_left _ _))
        fun _ _ _ => sum_nonneg fun _ _ => sq_nonneg _

theorem traceTo_near {δ : ℝ} (hδ : 0 ≤ δ) {tr : TraceFn 𝕜} (h : TrNear δ tr) {a c : NDArray 𝕜} {i j : ℤ} {p q : ℕ}
    (hp : pyIndex a.ndim i = .ok p) (hq : pyIndex a.ndim j = .ok q) (hc : a.trace i j = .ok c) {d : ℕ} (hd : a.shape.getD p 0 ≤ d) :
    ∃ c', tr a i j = .ok c' ∧ Approx (1 + δ) (Real.sqrt d * npNorm a) c c' := by
  unfold NDArray.trace at hc
  rw [hp, ok_bind, hq, ok_bind] at hc
  obtain ⟨_, hg, hc⟩ := bind_ok_inv hc
  obtain rfl := Except.ok.inj hc
  have hpq : p ≠ q := by
    intro hpq
    rw [pyGuard, if_neg (not_not.2 hpq)] at hg
    cases hg
  obtain ⟨c', h1, h2, h3⟩ := h a i j p q hp hq hpq
  have hdiag := diag_le a (pyIndex_lt hp) (pyIndex_lt hq) hpq
  set m := min (a.shape.getD p 0) (a.shape.getD q 0) with hm
  have hmd : (m : ℝ) ≤ d := by exact_mod_cast (min_le_left _ _).trans hd
  set S : List ℕ → ℝ := fun f => ∑ k ∈ range m, ‖a.get (NDArray.asm a.ndim [p, q] [k, k] f)‖ with hS
  have hS0 : ∀ f, 0 ≤ S f := fun f => sum_nonneg fun _ _ => norm_nonneg _
  have hsum : ∑ f ∈ idxSet (a.traceTo p q).shape, S f ^ 2 ≤ (Real.sqrt d * npNorm a) ^ 2 := by
    rw [mul_pow, Real.sq_sqrt (Nat.cast_nonneg _)]
    calc _ ≤ ∑ f ∈ idxSet (a.traceTo p q).shape, m * ∑ k ∈ range m, ‖a.get (NDArray.asm a.ndim [p, q] [k, k] f)‖ ^ 2 := by
          refine sum_le_sum fun f _ => ?_
          have := sq_sum_le_card_mul_sum_sq (s := range m) (f := fun k => ‖a.get (NDArray.asm a.ndim [p, q] [k, k] f)‖)
          rwa [card_range] at this
      _ = m * ∑ f ∈ idxSet (a.traceTo p q).shape, ∑ k ∈ range m, ‖a.get (NDArray.asm a.ndim [p, q] [k, k] f)‖ ^ 2 := by rw [mul_sum]
      _ ≤ d * npNorm a ^ 2 := mul_le_mul hmd hdiag (sum_nonneg fun _ _ => sum_nonneg fun _ _ => sq_nonneg _) (Nat.cast_nonneg _)
  have hN : 0 ≤ Real.sqrt d * npNorm a := mul_nonneg (Real.sqrt_nonneg _) (npNorm_nonneg' _)
  refine ⟨c', h1, h2, ?_, ?_⟩
  · refine (abs_le_of_sq_le_sq' ?_ hN).2
    rw [npNorm_sq]
    unfold nsq
    rw [sumIdx_eq_sum]
    refine le_trans (sum_le_sum fun f _ => ?_) hsum
    exact pow_le_pow_left₀ (norm_nonneg _) (norm_sum_le (range m) fun k => a.get (NDArray.asm a.ndim [p, q] [k, k] f)) 2
  · rw [add_sub_cancel_left]
    refine (abs_le_of_sq_le_sq' ?_ (mul_nonneg hδ hN)).2
    rw [arrDist_sq, mul_pow]
    refine le_trans (sum_le_sum fun f hf => ?_) ((mul_sum _ _ _).symm.le.trans (mul_le_mul_of_nonneg_left hsum (sq_nonneg δ)))
    rw [← mul_pow]
    exact pow_le_pow_left₀ (norm_nonneg _) (h3 f (by rw [h2]; exact mem_idxSet.1 hf)) 2

/-! ### lists of tensors -/

/-- The tensors of two lists agree approximately; every tensor carries a factor for the contraction with the next one. -/
inductive LApprox (ε : ℝ) : ℝ → ℝ → List (NDArray 𝕜) → List (NDArray 𝕜) → Prop
  | nil : LApprox ε 1 1 [] []
  | cons {g N G M : ℝ} {t t' : NDArray 𝕜} {ts ts' : List (NDArray 𝕜)} (h : Approx g N t t') (hs : LApprox ε G M ts ts') :
      LApprox ε (g * (1 + ε) * G) (N * M) (t :: ts) (t' :: ts')

theorem LApprox.shapes {ε G M : ℝ} {ts ts' : List (NDArray 𝕜)} (h : LApprox ε G M ts ts') :
    List.Forall₂ (fun t u : NDArray 𝕜 => u.shape = t.shape) ts ts' := by
  induction h with
  | nil => exact .nil
  | cons h _ ih => exact .cons h.shape ih

theorem LApprox.pruneGo {ε : ℝ} (hε : 0 ≤ ε) {td : TDot 𝕜} (htd : TdNear ε td) : ∀ {ts ts' us : List (NDArray 𝕜)} {G M : ℝ}
    {g N : ℝ} {last last' : NDArray 𝕜}, LApprox ε G M ts ts' → Approx g N last last' → pruneGo last ts = .ok us →
    ∃ us', pruneGoF td last' ts' = .ok us' ∧ LApprox ε (g * (1 + ε) * G) (N * M) us us' := by
  intro ts
  induction ts with
  | nil =>
    intro ts' us G M g N last last' h hl hu
    cases h
    cases hu
    exact ⟨[last'], rfl, .cons hl .nil⟩
  | cons t ts ih =>
    intro ts' us G M g N last last' h hl hu
    cases h with
    | cons h hs =>
    rename_i g1 N1 G1 M1 t' ts'
    unfold Mpnum.pruneGo at hu
    unfold pruneGoF
    have e1 : t'.ndim = t.ndim := by unfold NDArray.ndim; rw [h.shape]
    have e2 : last'.ndim = last.ndim := by unfold NDArray.ndim; rw [hl.shape]
    rw [e1, e2]
    split at hu
    · rename_i hc
      rw [if_pos hc]
      obtain ⟨u, k1, k2⟩ := bind_ok_inv hu
      obtain ⟨u', k3, k4⟩ := hl.tensordot hε htd h k1
      obtain ⟨us', k5, k6⟩ := ih hs k4 k2
      refine ⟨us', ?_, ?_⟩
      · show (td last' t' [-1] [0] >>= fun u => pruneGoF td u ts') = _
        rw [k3, ok_bind, k5]
      · convert k6 using 1 <;> ring
    · rename_i hc
      rw [if_neg hc]
      obtain ⟨us1, k1, k2⟩ := bind_ok_inv hu
      obtain ⟨us', k5, k6⟩ := ih hs h k1
      cases k2
      exact ⟨last' :: us', by rw [k5, ok_bind]; rfl, .cons hl k6⟩

theorem LApprox.fold {ε : ℝ} (hε : 0 ≤ ε) {td : TDot 𝕜} (htd : TdNear ε td) : ∀ {ts ts' : List (NDArray 𝕜)} {G M : ℝ}
    {g N : ℝ} {A A' B : NDArray 𝕜}, LApprox ε G M ts ts' → Approx g N A A' → ts.foldlM matdot A = .ok B →
    ∃ B', ts'.foldlM td.matdot A' = .ok B' ∧ Approx (g * G) (N * M) B B' := by
  intro ts
  induction ts with
  | nil =>
    intro ts' G M g N A A' B h hA hB
    cases h
    cases hB
    exact ⟨A', rfl, by simpa using hA⟩
  | cons t ts ih =>
    intro ts' G M g N A A' B h hA hB
    cases h with
    | cons h hs =>
    rename_i g1 N1 G1 M1 t' ts'
    rw [List.foldlM_cons] at hB
    obtain ⟨C, k1, k2⟩ := bind_ok_inv hB
    obtain ⟨C', k3, k4⟩ := hA.tensordot hε htd h k1
    obtain ⟨B', k5, k6⟩ := ih hs k4 k2
    refine ⟨B', ?_, ?_⟩
    · rw [List.foldlM_cons]
      show (td A' t' [-1] [0] >>= fun u => ts'.foldlM td.matdot u) = _
      rw [k3, ok_bind, k5]
    · convert k6 using 1 <;> ring

/-- The weight of a site: the number of terms of the trace enters with its square root. -/
noncomputable def traceWeight (p : Option (ℤ × ℤ) × NDArray 𝕜) : ℝ := Real.sqrt (traceDims p.1 p.2.ph).prod * npNorm p.2

theorem traceSites_near {δ ε : ℝ} (hδ : 0 ≤ δ) {tr : TraceFn 𝕜} (h : TrNear δ tr) :
    ∀ {ps : List (Option (ℤ × ℤ) × NDArray 𝕜)} {ts : List (NDArray 𝕜)}, (∀ p ∈ ps, p.2.IsLocal ∧ TraceOK p.1 p.2.ph) →
      (ps.mapM fun p => traceSite p.2 p.1) = .ok ts →
      ∃ ts', (ps.mapM fun p => traceSiteF tr p.2 p.1) = .ok ts' ∧
        LApprox ε (((1 + δ) * (1 + ε)) ^ ps.length) (ps.map traceWeight).prod ts ts' := by
  intro ps
  induction ps with
  | nil =>
    intro ts _ ht
    cases ht
    exact ⟨[], rfl, by simpa using LApprox.nil⟩
  | cons p ps ih =>
    intro ts hp ht
    rw [List.mapM_cons] at ht ⊢
    obtain ⟨t, k1, ht⟩ := bind_ok_inv ht
    obtain ⟨ts1, k2, ht⟩ := bind_ok_inv ht
    cases ht
    obtain ⟨ts', k3, k4⟩ := ih (fun q hq => hp q (List.mem_cons_of_mem _ hq)) k2
    obtain ⟨hl, hok⟩ := hp p List.mem_cons_self
    have hsite : ∃ t', traceSiteF tr p.2 p.1 = .ok t' ∧ Approx (1 + δ) (traceWeight p) t t' := by
      obtain ⟨o, a⟩ := p
      cases o with
      | none =>
        obtain rfl : a = t := Except.ok.inj k1
        refine ⟨a, rfl, ?_⟩
        have : traceWeight ((none : Option (ℤ × ℤ)), a) = npNorm a := by simp [traceWeight, traceDims]
        rw [this]
        exact (Approx.refl a).mono (by linarith)
      | some ij =>
        obtain ⟨i, j⟩ := ij
        obtain ⟨o1, o2, o3, o4⟩ := hok
        have hnd : a.ndim = a.ph.length + 2 := by
          have := congrArg List.length (NDArray.shape_local hl)
          simpa [NDArray.ndim] using this
        obtain ⟨i1, i2⟩ := pyIndex_adapt o1
        obtain ⟨j1, j2⟩ := pyIndex_adapt o2
        rw [← hnd] at i1 j1
        refine traceTo_near hδ h i1 j1 k1 (d := (traceDims (some (i, j)) a.ph).prod) (le_of_eq ?_)
        rw [NDArray.shape_local hl]
        simp only [traceDims, List.prod_singleton, List.getD_cons_succ]
        rw [getD_append_lt i2]
    obtain ⟨t', g1, g2⟩ := hsite
    refine ⟨t' :: ts', by rw [g1, ok_bind, k3, ok_bind]; rfl, ?_⟩
    have := LApprox.cons g2 k4
    convert this using 1
    · rw [List.length_cons, pow_succ]; ring
    · rw [List.map_cons, List.prod_cons]

end Mpnum
