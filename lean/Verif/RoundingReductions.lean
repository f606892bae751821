import Verif.MPArray.RoundingSum
import Verif.Props.C34

/-!
# `reductions_mpo` with rounding errors

`numpy.trace` and `numpy.tensordot` are parameters.
-/

open Finset

namespace Mpnum

section defs

variable {𝕜 : Type}

/-- `get_remainder` (mpsmpo.py:250-269) with the functions `tr` and `td` for `numpy.trace` and `numpy.tensordot`; see `getRemainder`. -/
def getRemainderF (tr : TraceFn 𝕜) (td : TDot 𝕜) (x : MPA 𝕜) (left : Bool) : ℕ → RemCache 𝕜 → Py (NDArray 𝕜 × RemCache 𝕜)
  | 0, cache => match cache 0 with
    | some r => .ok (r, cache)
    | none => .error .recursion
  | n + 1, cache => match cache (n + 1) with
    | some r => .ok (r, cache)
    | none => do
      let (rem, cache) ← getRemainderF tr td x left n cache
      let t ← x.site (if left then (n : ℤ) else -((n : ℤ) + 1))
      let add ← tr t 1 2
      let r ← (if left then td.matdot rem add else td.matdot add rem : Py (NDArray 𝕜))
      return (r, fun m => if m = n + 1 then some r else cache m)

/-- `get_remainder` for any integer; see `getRem`. -/
def getRemF (tr : TraceFn 𝕜) (td : TDot 𝕜) (x : MPA 𝕜) (left : Bool) (k : ℤ) (cache : RemCache 𝕜) : Py (NDArray 𝕜 × RemCache 𝕜) :=
  if k < 0 then .error .recursion else getRemainderF tr td x left k.toNat cache

/-- The loop body of `reductions_mpo` (mpsmpo.py:272-282) with the functions `tr` and `td` for `numpy.trace` and `numpy.tensordot`. -/
def mpoWindowF (tr : TraceFn 𝕜) (td : TDot 𝕜) (x : MPA 𝕜) (w : ℤ × ℤ) (c : RemCache 𝕜 × RemCache 𝕜) :
    Py (MPA 𝕜 × (RemCache 𝕜 × RemCache 𝕜)) := do
  let ltens := pySlice x.lt w.1 w.2
  let (rem, cl) ← getRemF tr td x true w.1 c.1
  let ltens ← mapHeadM (fun t => td.matdot rem t) ltens
  let (rem, cr) ← getRemF tr td x false (x.len - w.2) c.2
  let ltens ← mapLastM (fun t => td.matdot t rem) ltens
  let z ← mkMPA ltens
  return (z, (cl, cr))

/-- `reductions_mpo` (mpsmpo.py:221-282) with the functions `tr` and `td` for `numpy.trace` and `numpy.tensordot`. -/
def reductionsMpoF [One 𝕜] (tr : TraceFn 𝕜) (td : TDot 𝕜) (x : MPA 𝕜) (width : Option ℤ)
    (startsites stopsites : Option (List ℤ)) : Py (List (MPA 𝕜)) := do
  let ws ← reductionsArgs x.len width startsites stopsites
  pyAssert (∀ s ∈ x.shape, s.length = 2)
  let (zs, _) ← yieldLoop (mpoWindowF tr td x) ws (RemCache.init, RemCache.init)
  return zs

end defs

section exact
variable {𝕜 : Type} [AddCommMonoid 𝕜] [Mul 𝕜]

theorem getRemainderF_exact (x : MPA 𝕜) (left : Bool) : ∀ (n : ℕ) (c : RemCache 𝕜),
    getRemainderF NDArray.trace NDArray.tensordot x left n c = getRemainder x left n c
  | 0, _ => rfl
  | n + 1, c => by
    unfold getRemainderF getRemainder
    rw [getRemainderF_exact x left n c]
    rfl

theorem mpoWindowF_exact (x : MPA 𝕜) : mpoWindowF NDArray.trace NDArray.tensordot x = mpoWindow x := by
  funext w c
  unfold mpoWindowF mpoWindow getRemF getRem
  simp only [getRemainderF_exact]
  rfl

theorem reductionsMpoF_exact [One 𝕜] (x : MPA 𝕜) (width : Option ℤ) (startsites stopsites : Option (List ℤ)) :
    reductionsMpoF NDArray.trace NDArray.tensordot x width startsites stopsites = reductionsMpo x width startsites stopsites := by
  unfold reductionsMpoF reductionsMpo
  rw [mpoWindowF_exact]

end exact

variable {𝕜 : Type} [RCLike 𝕜]

/-- The weight of a site that is traced out: the norm of the tensor times the square root of the number of terms. -/
noncomputable def outWeight (t : NDArray 𝕜) : ℝ := Real.sqrt (t.shape.getD 1 0 : ℕ) * npNorm t

theorem trace12_near {δ : ℝ} (hδ : 0 ≤ δ) {tr : TraceFn 𝕜} (h : TrNear δ tr) {t a : NDArray 𝕜} (ha : t.trace 1 2 = .ok a) :
    ∃ a', tr t 1 2 = .ok a' ∧ Approx (1 + δ) (outWeight t) a a' := by
  have ha' := ha
  unfold NDArray.trace at ha
  obtain ⟨p, hp, ha⟩ := bind_ok_inv ha
  obtain ⟨q, hq, ha⟩ := bind_ok_inv ha
  have hp1 : p = 1 := by
    unfold pyIndex at hp
    split_ifs at hp with h1 h2
    · exact (Except.ok.inj hp).symm
    · omega
  subst hp1
  exact traceTo_near hδ h hp hq ha' le_rfl

/-- The weight of the sites `0, …, n - 1` or of the last `n` sites. -/
noncomputable def envWeight (x : MPA 𝕜) (left : Bool) (n : ℕ) : ℝ :=
  ((if left then x.lt.take n else x.lt.drop (x.lt.length - n)).map outWeight).prod

/-- The dictionaries contain the same sites, with approximately the same values. -/
def CNear (δ ε : ℝ) (x : MPA 𝕜) (left : Bool) (c c' : RemCache 𝕜) : Prop :=
  ∀ n, (c n = none → c' n = none) ∧
    ∀ r, c n = some r → ∃ r', c' n = some r' ∧ Approx (((1 + δ) * (1 + ε)) ^ n) (envWeight x left n) r r'

theorem cnear_init {δ ε : ℝ} (x : MPA 𝕜) (left : Bool) : CNear δ ε x left RemCache.init RemCache.init := by
  intro n
  refine ⟨fun h => h, fun r hr => ⟨r, hr, ?_⟩⟩
  unfold RemCache.init at hr
  split_ifs at hr with hn
  subst hn
  obtain rfl := Option.some.inj hr
  have h1 := Approx.refl (⟨[1, 1], fun _ => 1⟩ : NDArray 𝕜)
  have h2 : npNorm (⟨[1, 1], fun _ => 1⟩ : NDArray 𝕜) = 1 := by
    have : npNorm (⟨[1, 1], fun _ => 1⟩ : NDArray 𝕜) ^ 2 = 1 := by
      rw [npNorm_sq]; unfold nsq; simp [sumIdx]
    exact (pow_eq_one_iff_of_nonneg (npNorm_nonneg' _) (by norm_num)).1 this
  rw [h2] at h1
  have h3 : envWeight x left 0 = 1 := by
    unfold envWeight
    cases left <;> simp
  rw [h3, pow_zero]
  exact h1

theorem getRemainderF_near {δ ε : ℝ} (hδ : 0 ≤ δ) (hε : 0 ≤ ε) {tr : TraceFn 𝕜} (htr : TrNear δ tr) {td : TDot 𝕜} (htd : TdNear ε td)
    (x : MPA 𝕜) (left : Bool) : ∀ (n : ℕ), n ≤ x.lt.length → ∀ {c c' c1 : RemCache 𝕜} {r : NDArray 𝕜}, CNear δ ε x left c c' →
      getRemainder x left n c = .ok (r, c1) →
      ∃ r' c1', getRemainderF tr td x left n c' = .ok (r', c1') ∧ Approx (((1 + δ) * (1 + ε)) ^ n) (envWeight x left n) r r' ∧
        CNear δ ε x left c1 c1'
  | 0, _, c, c', c1, r, hc, h => by
    unfold getRemainder at h
    unfold getRemainderF
    cases hc0 : c 0 with
    | none => rw [hc0] at h; cases h
    | some r0 =>
      rw [hc0] at h
      obtain ⟨rfl, rfl⟩ := Prod.mk.inj (Except.ok.inj h)
      obtain ⟨r', h1, h2⟩ := (hc 0).2 _ hc0
      rw [h1]
      exact ⟨r', c', rfl, h2, hc⟩
  | n + 1, hn, c, c', c1, r, hc, h => by
    unfold getRemainder at h
    unfold getRemainderF
    cases hc0 : c (n + 1) with
    | some r0 =>
      rw [hc0] at h
      obtain ⟨rfl, rfl⟩ := Prod.mk.inj (Except.ok.inj h)
      obtain ⟨r', h1, h2⟩ := (hc (n + 1)).2 _ hc0
      rw [h1]
      exact ⟨r', c', rfl, h2, hc⟩
    | none =>
      rw [hc0] at h
      rw [(hc (n + 1)).1 hc0]
      obtain ⟨⟨rem, c2⟩, h1, h⟩ := bind_ok_inv h
      obtain ⟨t, h2, h⟩ := bind_ok_inv h
      obtain ⟨add, h3, h⟩ := bind_ok_inv h
      obtain ⟨s, h4, h⟩ := bind_ok_inv h
      obtain ⟨rfl, rfl⟩ := Prod.mk.inj (Except.ok.inj h)
      obtain ⟨rem', c2', g1, g2, g3⟩ := getRemainderF_near hδ hε htr htd x left n (by omega) hc h1
      obtain ⟨add', g4, g5⟩ := trace12_near hδ htr h3
      have hlast : ∃ s', (if left then td.matdot rem' add' else td.matdot add' rem' : Py (NDArray 𝕜)) = .ok s' ∧
          Approx (((1 + δ) * (1 + ε)) ^ (n + 1)) (envWeight x left (n + 1)) s s' := by
        cases left with
        | true =>
          obtain ⟨s', k1, k2⟩ := g2.tensordot hε htd g5 h4
          refine ⟨s', k1, ?_⟩
          have ht : t = x.lt[n] := by
            have : x.site (n : ℤ) = .ok x.lt[n] := by
              unfold MPA.site
              rw [pyIndex_nat (show n < x.len from hn), ok_bind]
              simp [show n < x.lt.length from hn]
            exact Except.ok.inj (h2.symm.trans this)
          have e : envWeight x true (n + 1) = envWeight x true n * outWeight t := by
            unfold envWeight
            simp only [if_true]
            rw [List.take_succ_eq_append_getElem (show n < x.lt.length from hn), List.map_append, List.prod_append, ht]
            simp
          rw [e, pow_succ]
          convert k2 using 1
          ring
        | false =>
          obtain ⟨s', k1, k2⟩ := g5.tensordot hε htd g2 h4
          refine ⟨s', k1, ?_⟩
          have hlt : x.lt.length - (n + 1) < x.lt.length := by omega
          have ht : t = x.lt[x.lt.length - (n + 1)] := by
            have : x.site (-((n : ℤ) + 1)) = .ok x.lt[x.lt.length - (n + 1)] := by
              unfold MPA.site
              rw [show -((n : ℤ) + 1) = -((n + 1 : ℕ) : ℤ) by push_cast; ring,
                pyIndex_neg (by omega) (show n + 1 ≤ x.len from hn), ok_bind]
              simp [MPA.len, hlt]
            exact Except.ok.inj (h2.symm.trans this)
          have e : envWeight x false (n + 1) = outWeight t * envWeight x false n := by
            unfold envWeight
            simp only [Bool.false_eq_true, if_false]
            rw [List.drop_eq_getElem_cons hlt, List.map_cons, List.prod_cons, ht, show x.lt.length - (n + 1) + 1 = x.lt.length - n by omega]
          rw [e, pow_succ]
          convert k2 using 1
          ring
      obtain ⟨s', k1, k2⟩ := hlast
      refine ⟨s', fun m => if m = n + 1 then some s' else c2' m, ?_, k2, ?_⟩
      · simp only [g1, ok_bind, h2, g4, k1]
        rfl
      · intro m
        dsimp only
        by_cases hm : m = n + 1
        · subst hm
          rw [if_pos rfl, if_pos rfl]
          refine ⟨fun h => (Option.some_ne_none _ h).elim, fun r hr => ⟨s', rfl, ?_⟩⟩
          obtain rfl := Option.some.inj hr
          exact k2
        · rw [if_neg hm, if_neg hm]
          exact g3 m

theorem LApprox.refl (ts : List (NDArray 𝕜)) : LApprox 0 1 (ts.map npNorm).prod ts ts := by
  induction ts with
  | nil => exact .nil
  | cons t ts ih =>
    have := LApprox.cons (Approx.refl t) ih
    convert this using 1
    · norm_num
    · rw [List.map_cons, List.prod_cons]

theorem LApprox.head {κ ε : ℝ} (hε : 0 ≤ ε) {td : TDot 𝕜} (htd : TdNear ε td) {ts ts' us : List (NDArray 𝕜)} {G M g N : ℝ} {a a' : NDArray 𝕜}
    (h : LApprox κ G M ts ts') (ha : Approx g N a a') (hu : mapHeadM (fun t => matdot a t) ts = .ok us) :
    ∃ us', mapHeadM (fun t => td.matdot a' t) ts' = .ok us' ∧ LApprox κ (g * (1 + ε) * G) (N * M) us us' := by
  cases h with
  | nil => cases hu
  | @cons _ _ _ _ t t' ts ts' h1 h2 =>
    obtain ⟨u, k1, k2⟩ := bind_ok_inv hu
    cases k2
    obtain ⟨u', k3, k4⟩ := ha.tensordot hε htd h1 k1
    refine ⟨u' :: ts', ?_, ?_⟩
    · show (td a' t' [-1] [0] >>= fun b => Except.ok (b :: ts')) = _
      rw [k3, ok_bind]
    have := LApprox.cons k4 h2
    convert this using 1 <;> ring

theorem LApprox.last {κ ε : ℝ} (hε : 0 ≤ ε) {td : TDot 𝕜} (htd : TdNear ε td) {g N : ℝ} {a a' : NDArray 𝕜} (ha : Approx g N a a') :
    ∀ {ts ts' us : List (NDArray 𝕜)} {G M : ℝ}, LApprox κ G M ts ts' → mapLastM (fun t => matdot t a) ts = .ok us →
      ∃ us', mapLastM (fun t => td.matdot t a') ts' = .ok us' ∧ LApprox κ (g * (1 + ε) * G) (N * M) us us' := by
  intro ts
  induction ts with
  | nil => intro ts' us G M _ hu; cases hu
  | cons t ts ih =>
    intro ts' us G M h hu
    cases h with
    | @cons _ _ _ _ _ t' _ _ h1 h2 =>
    cases h2 with
    | nil =>
      obtain ⟨u, k1, k2⟩ := bind_ok_inv hu
      cases k2
      obtain ⟨u', k3, k4⟩ := h1.tensordot hε htd ha k1
      refine ⟨[u'], ?_, ?_⟩
      · show (td t' a' [-1] [0] >>= fun b => Except.ok [b]) = _
        rw [k3, ok_bind]
      have := LApprox.cons (ε := κ) k4 .nil
      convert this using 1 <;> ring
    | cons h3 h4 =>
      obtain ⟨vs, k1, k2⟩ := bind_ok_inv hu
      cases k2
      obtain ⟨vs', k3, k4⟩ := ih (.cons h3 h4) k1
      refine ⟨t' :: vs', ?_, ?_⟩
      · show (mapLastM (fun t => td.matdot t a') (_ :: _) >>= fun b => Except.ok (t' :: b)) = _
        rw [k3, ok_bind]
      have := LApprox.cons h1 k4
      convert this using 1 <;> ring

end Mpnum
