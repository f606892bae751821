import Verif.Props.C90
import Verif.Props.C42
import Verif.MPArray.RoundingInner

/-!
# `MPPovm.expectations` for density matrices with rounding errors

`numpy.trace` and `numpy.tensordot` are parameters.
-/

open Finset

namespace Mpnum

section defs
variable {𝕜 : Type}

/-- `mp.dot(pmap, rho_red.ravel())` (mppovm.py:356-392) with the function `td` for `numpy.tensordot`; see `applyPmap`. -/
def applyPmapF (td : TDot 𝕜) (pmap rho : MPA 𝕜) : Py (MPA 𝕜) := do
  let r ← rho.ravel
  dotF td pmap r ([-1], [0])

/-- `MPPovm.expectations` (mppovm.py:356-392) with `mode='mpdo'`, with the functions `tr` and `td` for `numpy.trace` and `numpy.tensordot`: all
items of the iterator.  The rearrangement of the entries in `probability_map` is exact. -/
def expectationsMpdoF [One 𝕜] (tr : TraceFn 𝕜) (td : TDot 𝕜) (x state : MPA 𝕜) : Py (List (MPA 𝕜)) := do
  pyAssert (x.len ≤ state.len)
  let pmap ← povmProbMap x
  let zs ← reductionsMpoF tr td state (some (x.len : ℤ)) none none
  zs.mapM (applyPmapF td pmap)

/-- `prune` (mparray.py:1495-1506) with the function `td` for `numpy.tensordot`. -/
def pruneF (td : TDot 𝕜) (x : MPA 𝕜) (singletons : Bool) : Py (MPA 𝕜) := do
  let x' ← if singletons && x.shape.any (fun p => p.prod == 1) then
      x.reshape (.list (x.shape.map fun p => if p.prod = 1 then [] else p.map fun k : ℕ => (k : ℤ)))
    else .ok x
  let us ← pruneLtensF td x'.lt
  mkMPA us

/-- The implementation `'default'` of `pmf_as_array` (mppovm.py:536-537) for density matrices, with the functions `tr` and `td` for `numpy.trace`
and `numpy.tensordot`. -/
def pmfSlowF [One 𝕜] (tr : TraceFn 𝕜) (td : TDot 𝕜) (x state : MPA 𝕜) : Py (NDArray 𝕜 × MPA 𝕜) := do
  let ps ← expectationsMpdoF tr td x state
  match ps with
  | p :: _ => do
    let p ← pruneF td p true
    let a ← p.toArrayF td
    return (a, state)
  | [] => .error .stopIteration

end defs

theorem expectationsMpdoF_exact {𝕜 : Type} [CommRing 𝕜] [StarRing 𝕜] (qr : QR 𝕜) (x state : MPA 𝕜) (mode : PovmMode)
    (h : resolveMode state mode = .mpdo) :
    (do let ps ← expectationsMpdoF NDArray.trace NDArray.tensordot x state; return (ps, state)) = expectations qr x state mode := by
  unfold expectationsMpdoF expectations
  rw [h, reductionsMpoF_exact]
  have : applyPmapF (𝕜 := 𝕜) NDArray.tensordot = applyPmap := rfl
  rw [this]
  simp only [bind_assoc]

variable {𝕜 : Type} [RCLike 𝕜]

theorem Approx.localDot {ε g g' N N' : ℝ} (hε : 0 ≤ ε) {td : TDot 𝕜} (h : TdNear ε td) {l l' r r' z : NDArray 𝕜} {axes : List ℤ × List ℤ}
    (hl : Approx g N l l') (hr : Approx g' N' r r') (hz : localDot l r axes = .ok z) :
    ∃ z', localDotF td l' r' axes = .ok z' ∧ Approx (g * g' * (1 + ε)) (N * N') z z' := by
  have hn := localDot_norm hz
  unfold Mpnum.localDot at hz
  obtain ⟨_, h0, hz⟩ := bind_ok_inv hz
  obtain ⟨t, h1, hz⟩ := bind_ok_inv hz
  obtain ⟨u, h2, hz⟩ := bind_ok_inv hz
  obtain ⟨v, h3, hz⟩ := bind_ok_inv hz
  obtain ⟨t', g1, g2⟩ := hl.tensordot hε h hr h1
  obtain ⟨u', k1, k2, k3⟩ := rollaxis_dist g2.shape h2
  obtain ⟨v', k4, k5, k6⟩ := rollaxis_dist k2 h3
  obtain ⟨z', k7, k8, k9⟩ := reshape_dist k5 hz
  have e1 : l'.ndim = l.ndim := by unfold NDArray.ndim; rw [hl.shape]
  have e2 : r'.ndim = r.ndim := by unfold NDArray.ndim; rw [hr.shape]
  have e3 : l'.lb = l.lb := by unfold NDArray.lb; rw [hl.shape]
  have e4 : l'.rb = l.rb := by unfold NDArray.rb; rw [hl.shape]
  have e5 : r'.lb = r.lb := by unfold NDArray.lb; rw [hr.shape]
  have e6 : r'.rb = r.rb := by unfold NDArray.rb; rw [hr.shape]
  refine ⟨z', ?_, k8, ?_, ?_⟩
  · unfold localDotF
    simp only
    rw [h0, ok_bind, g1, ok_bind, e1, e2, k1, ok_bind, k4, ok_bind]
    rw [show v'.ndim = v.ndim by unfold NDArray.ndim; rw [k5], k5, e3, e4, e5, e6]
    exact k7
  · exact hn.trans (mul_le_mul hl.norm hr.norm (npNorm_nonneg' _) ((npNorm_nonneg' _).trans hl.norm))
  · rw [k9, k6, k3]
    exact g2.dist

theorem LApprox.zipDot {ε : ℝ} (hε : 0 ≤ ε) {td : TDot 𝕜} (h : TdNear ε td) {axes : List ℤ × List ℤ} :
    ∀ {ps vs vs' us : List (NDArray 𝕜)} {G M : ℝ}, ps.length = vs.length → LApprox 0 G M vs vs' →
      zipM (fun l r => localDot l r axes) ps vs = .ok us →
      ∃ us', zipM (fun l r => localDotF td l r axes) ps vs' = .ok us' ∧
        LApprox 0 ((1 + ε) ^ ps.length * G) ((ps.map npNorm).prod * M) us us' := by
  intro ps
  induction ps with
  | nil =>
    intro vs vs' us G M hl hv hu
    obtain rfl : vs = [] := List.length_eq_zero_iff.1 hl.symm
    cases hv
    cases hu
    exact ⟨[], rfl, by simpa using LApprox.nil⟩
  | cons p ps ih =>
    intro vs vs' us G M hl hv hu
    cases hv with
    | nil => cases hl
    | @cons g N G M t t' ts ts' h1 h2 =>
    unfold zipM at hu
    obtain ⟨u, k1, hu⟩ := bind_ok_inv hu
    obtain ⟨us, k2, hu⟩ := bind_ok_inv hu
    cases hu
    obtain ⟨u', k3, k4⟩ := (Approx.refl p).localDot hε h h1 k1
    obtain ⟨us', k5, k6⟩ := ih (Nat.succ.inj hl) h2 k2
    refine ⟨u' :: us', ?_, ?_⟩
    · unfold zipM
      rw [k3, ok_bind, k5, ok_bind]
      rfl
    · have := LApprox.cons k4 k6
      convert this using 1
      · rw [List.length_cons, pow_succ]; ring
      · rw [List.map_cons, List.prod_cons]; ring

theorem LApprox.reshapes : ∀ {vs vs' us : List (NDArray 𝕜)} {G M : ℝ} {ss : List (List ℤ)}, LApprox 0 G M vs vs' →
    vs.length = ss.length → ((vs.zip ss).mapM fun ts => localReshape ts.1 ts.2) = .ok us →
      ∃ us', ((vs'.zip ss).mapM fun ts => localReshape ts.1 ts.2) = .ok us' ∧ LApprox 0 G M us us' := by
  intro vs
  induction vs with
  | nil =>
    intro vs' us G M ss hv hl hu
    cases hv
    cases hu
    exact ⟨[], rfl, .nil⟩
  | cons t vs ih =>
    intro vs' us G M ss hv hl hu
    cases ss with
    | nil => cases hl
    | cons s ss =>
    cases hv with
    | @cons g N G M _ t' _ ts' h1 h2 =>
    rw [List.zip_cons_cons, List.mapM_cons] at hu
    obtain ⟨u, k1, hu⟩ := bind_ok_inv hu
    obtain ⟨us, k2, hu⟩ := bind_ok_inv hu
    cases hu
    obtain ⟨us', k5, k6⟩ := ih h2 (Nat.succ.inj hl) k2
    have e3 : t'.lb = t.lb := by unfold NDArray.lb; rw [h1.shape]
    have e4 : t'.rb = t.rb := by unfold NDArray.rb; rw [h1.shape]
    unfold localReshape at k1
    dsimp only at k1
    obtain ⟨u', k3, k4⟩ := h1.reshape k1
    refine ⟨u' :: us', ?_, .cons k4 k6⟩
    rw [List.zip_cons_cons, List.mapM_cons]
    dsimp only
    unfold localReshape at k5 ⊢
    rw [e3, e4, k3, ok_bind, k5, ok_bind]
    rfl

/-- `ravel` of a chain of approximate tensors. -/
theorem LApprox.ravel {z z' v v' : MPA 𝕜} {G M : ℝ} (h : LApprox 0 G M z.lt z'.lt) (hv : z.ravel = .ok v) (hv' : z'.ravel = .ok v') :
    LApprox 0 G M v.lt v'.lt := by
  unfold MPA.ravel MPA.reshape MPA.newShapes at hv hv'
  rw [ok_bind] at hv hv'
  obtain ⟨ts, h1, hv⟩ := bind_ok_inv hv
  obtain ⟨ts', h1', hv'⟩ := bind_ok_inv hv'
  have hl : z'.len = z.len := h.shapes.length_eq.symm
  rw [hl] at h1'
  obtain ⟨us', k1, k2⟩ := h.reshapes (by rw [List.length_replicate]; rfl) h1
  obtain rfl := Except.ok.inj (k1.symm.trans h1')
  rw [mkLT_lt hv, mkLT_lt hv']
  exact k2

theorem applyPmapF_near {ε : ℝ} (hε : 0 ≤ ε) {td : TDot 𝕜} (htd : TdNear ε td) {pm z z' p : MPA 𝕜} {G M : ℝ} (h : LApprox 0 G M z.lt z'.lt)
    (hl : pm.len = z.len) (hz : z.Valid) (hz' : z'.Valid) (hr : ∀ r ∈ z.ranks, 0 < r) (hr' : z'.ranks = z.ranks) (hp : applyPmap pm z = .ok p)
    (hpv : p.Valid) :
    ∃ p', applyPmapF td pm z' = .ok p' ∧ p'.Valid ∧ p'.shape = p.shape ∧ p'.ranks = p.ranks ∧
      LApprox 0 ((1 + ε) ^ pm.len * G) ((pm.lt.map npNorm).prod * M) p.lt p'.lt := by
  unfold applyPmap at hp
  obtain ⟨v, h1, hp⟩ := bind_ok_inv hp
  obtain ⟨v', h1', _⟩ := C15_ravel z' hz' (by rw [hr']; exact hr)
  have hv := h.ravel h1 h1'
  unfold dot at hp
  obtain ⟨_, h2, hp⟩ := bind_ok_inv hp
  obtain ⟨us, h3, hp⟩ := bind_ok_inv hp
  obtain rfl := mkMPA_eq hp
  have hlen : pm.lt.length = v.lt.length := by
    unfold pyAssert at h2
    split_ifs at h2 with h2'
    exact h2'
  obtain ⟨us', k1, k2⟩ := hv.zipDot hε htd hlen h3
  obtain ⟨d1, d2, d3⟩ := chained_same_shapes k2.shapes hpv.chain
  have hne' : us' ≠ [] := by
    rintro rfl
    exact hpv.ne (List.length_eq_zero_iff.1 k2.shapes.length_eq)
  refine ⟨⟨us', 0, us'.length⟩, ?_, valid_mk hne' d1, d2, ?_, k2⟩
  · unfold applyPmapF dotF
    rw [h1', ok_bind, pyAssert_true (show pm.len = v'.len from hlen.trans hv.shapes.length_eq), ok_bind, k1, ok_bind]
    exact mkMPA_ok hne' d1
  · simp only [MPA.ranks, List.map_tail] at d3 ⊢
    rw [d3]

theorem mapM_norms {α : Type} {f : α → Py (NDArray 𝕜)} {g : α → NDArray 𝕜} (hf : ∀ t u, f t = .ok u → npNorm u = npNorm (g t)) :
    ∀ {ts : List α} {us : List (NDArray 𝕜)}, ts.mapM f = .ok us → (us.map npNorm).prod = (ts.map fun t => npNorm (g t)).prod := by
  intro ts
  induction ts with
  | nil => intro us h; cases h; rfl
  | cons t ts ih =>
    intro us h
    rw [List.mapM_cons] at h
    obtain ⟨u, k1, h⟩ := bind_ok_inv h
    obtain ⟨us, k2, h⟩ := bind_ok_inv h
    cases h
    rw [List.map_cons, List.prod_cons, List.map_cons, List.prod_cons, ih k2, hf _ _ k1]

theorem mapM_length_ok {α β : Type} {f : α → Py β} : ∀ {l : List α} {r : List β}, l.mapM f = .ok r → r.length = l.length := by
  intro l
  induction l with
  | nil => intro r h; cases h; rfl
  | cons t ts ih =>
    intro us h
    rw [List.mapM_cons] at h
    obtain ⟨u, k1, h⟩ := bind_ok_inv h
    obtain ⟨us, k2, h⟩ := bind_ok_inv h
    cases h
    rw [List.length_cons, List.length_cons, ih k2]

/-- The local tensors of `probability_map` have the norms of those of the MP-POVM. -/
theorem probMap_norms {x pm : MPA 𝕜} (h : povmProbMap x = .ok pm) : pm.len = x.len ∧ (pm.lt.map npNorm).prod = (x.lt.map npNorm).prod := by
  unfold povmProbMap at h
  obtain ⟨y, h1, h⟩ := bind_ok_inv h
  obtain ⟨y', h2, h⟩ := bind_ok_inv h
  have hy : y' = y := by
    unfold MPA.povmCheck at h2
    obtain ⟨_, _, h2⟩ := bind_ok_inv h2
    obtain ⟨_, _, h2⟩ := bind_ok_inv h2
    obtain ⟨_, _, h2⟩ := bind_ok_inv h2
    exact (Except.ok.inj h2).symm
  rw [hy] at h
  clear h2 hy y'
  unfold MPA.transpose at h1
  obtain ⟨ts, k1, h1⟩ := bind_ok_inv h1
  unfold MPA.reshape at h
  obtain ⟨ss, k2, h⟩ := bind_ok_inv h
  obtain ⟨us, k3, h⟩ := bind_ok_inv h
  have hy : y.lt = ts := mkLT_lt h1
  have hss : ss = x.shape.map fun s => [((s.getD 0 0 : ℕ) : ℤ), -1] := by
    unfold MPA.newShapes at k2
    split at k2 <;> rename_i he
    · cases he
    · cases he
    · cases k2
    · cases he
    · injection he with he
      rw [he]
      exact (Except.ok.inj k2).symm
  have hts : ts.length = x.lt.length := mapM_length_ok k1
  have hsl : ss.length = x.lt.length := by rw [hss, List.length_map]; simp [MPA.shape]
  have hz : (y.lt.zip ss).length = x.lt.length := by rw [List.length_zip, hy, hts, hsl, min_self]
  rw [show pm.len = us.length by rw [← mkLT_lt h]; rfl, mkLT_lt h]
  refine ⟨(mapM_length_ok k3).trans hz, ?_⟩
  rw [mapM_norms (g := fun t => t.1) (fun t u ht => by unfold localReshape at ht; exact reshape_npNorm ht) k3,
    ← mapM_norms (f := fun t : NDArray 𝕜 => localTranspose t (some [0, 2, 1])) (g := fun t => t) (fun t u ht => by
      unfold localTranspose at ht; exact transpose_npNorm ht) k1]
  have e : (y.lt.zip ss).map (fun t => npNorm t.1) = ((y.lt.zip ss).map Prod.fst).map npNorm := by rw [List.map_map]; rfl
  rw [e, List.map_fst_zip (by rw [hy, hts, hsl]), hy]

/-- `prune` in two steps. -/
theorem prune_bind {R : Type} [AddCommMonoid R] [Mul R] (x : MPA R) (b : Bool) : Mpnum.prune x b =
    ((if (b && x.shape.any (fun p => p.prod == 1)) = true then
      x.reshape (.list (x.shape.map fun p => if p.prod = 1 then [] else p.map fun k : ℕ => (k : ℤ))) else .ok x : Py (MPA R)) >>= fun x' =>
        pruneLtens x'.lt >>= fun us => mkMPA us) := by
  unfold Mpnum.prune
  split <;> rfl

theorem pruneF_bind {R : Type} (td : TDot R) (x : MPA R) (b : Bool) : pruneF td x b =
    ((if (b && x.shape.any (fun p => p.prod == 1)) = true then
      x.reshape (.list (x.shape.map fun p => if p.prod = 1 then [] else p.map fun k : ℕ => (k : ℤ))) else .ok x : Py (MPA R)) >>= fun x' =>
        pruneLtensF td x'.lt >>= fun us => mkMPA us) := by
  unfold pruneF
  split <;> rfl

theorem pruneF_exact {R : Type} [AddCommMonoid R] [Mul R] (x : MPA R) (b : Bool) : pruneF NDArray.tensordot x b = Mpnum.prune x b := by
  have h1 : ∀ ts : List (NDArray R), pruneLtensF NDArray.tensordot ts = pruneLtens ts := by
    intro ts
    cases ts with
    | nil => rfl
    | cons t ts => exact pruneGoF_exact ts t
  rw [pruneF_bind, prune_bind]
  simp only [h1]

theorem LApprox.weaken {ε : ℝ} {ts ts' : List (NDArray 𝕜)} {G M : ℝ} (h : LApprox 0 G M ts ts') :
    LApprox ε ((1 + ε) ^ ts.length * G) M ts ts' := by
  induction h with
  | nil => simpa using LApprox.nil
  | cons h _ ih =>
    have := LApprox.cons h ih
    convert this using 1
    rw [List.length_cons, pow_succ]
    ring

theorem LApprox.prune {ε : ℝ} (hε : 0 ≤ ε) {td : TDot 𝕜} (htd : TdNear ε td) {p p' y y₀ : MPA 𝕜} {b : Bool} {G M : ℝ}
    (h : LApprox 0 G M p.lt p'.lt) (hs : p'.shape = p.shape) (hy : prune p b = .ok y) (hyv : y.Valid) (hy' : prune p' b = .ok y₀) :
    ∃ us', pruneF td p' b = .ok ⟨us', 0, us'.length⟩ ∧ LApprox ε ((1 + ε) ^ p.len * G) M y.lt us' := by
  rw [prune_bind] at hy hy'
  obtain ⟨r, h1, hy⟩ := bind_ok_inv hy
  obtain ⟨r', h1', hy'⟩ := bind_ok_inv hy'
  obtain ⟨us, h2, hy⟩ := bind_ok_inv hy
  have hrr : LApprox 0 G M r.lt r'.lt ∧ r.lt.length = p.len := by
    rw [hs] at h1'
    split at h1 <;> rename_i hc
    · rw [if_pos hc] at h1'
      unfold MPA.reshape at h1 h1'
      obtain ⟨ss, k2, h1⟩ := bind_ok_inv h1
      obtain ⟨ts, k3, h1⟩ := bind_ok_inv h1
      obtain ⟨ss', k2', h1'⟩ := bind_ok_inv h1'
      obtain ⟨ts', k3', h1'⟩ := bind_ok_inv h1'
      have hss : ∀ (q : MPA 𝕜) (l s : List (List ℤ)), q.newShapes (.list l) = .ok s → s = l := by
        intro q l s hq
        cases l with
        | nil => cases hq
        | cons a l => exact (Except.ok.inj hq).symm
      have e1 := hss _ _ _ k2
      have e2 := hss _ _ _ k2'
      rw [e2] at k3'
      rw [e1] at k3
      have hl : p.lt.length = (p.shape.map fun p => if p.prod = 1 then [] else p.map fun k : ℕ => (k : ℤ)).length := by
        simp [MPA.shape]
      obtain ⟨us', m1, m2⟩ := h.reshapes hl k3
      obtain rfl := Except.ok.inj (m1.symm.trans k3')
      rw [mkLT_lt h1, mkLT_lt h1']
      refine ⟨m2, (mapM_length_ok k3).trans ?_⟩
      rw [List.length_zip, ← hl, min_self]
      rfl
    · rw [if_neg hc] at h1'
      cases h1
      cases h1'
      exact ⟨h, rfl⟩
  obtain ⟨hrr, hlen⟩ := hrr
  have hw := hrr.weaken (ε := ε)
  rw [hlen] at hw
  have hgo : ∃ us', pruneLtensF td r'.lt = .ok us' ∧ LApprox ε ((1 + ε) ^ p.len * G) M us us' := by
    generalize r.lt = rl at hw h2
    generalize r'.lt = rl' at hw
    generalize (1 + ε) ^ p.len * G = H at hw ⊢
    cases hw with
    | nil => cases h2
    | cons k1 k2 => exact LApprox.pruneGo hε htd k2 k1 h2
  obtain ⟨us', g1, g2⟩ := hgo
  obtain rfl := mkMPA_eq hy
  obtain ⟨d1, d2, d3⟩ := chained_same_shapes g2.shapes hyv.chain
  have hne' : us' ≠ [] := by
    rintro rfl
    exact hyv.ne (List.length_eq_zero_iff.1 g2.shapes.length_eq)
  refine ⟨us', ?_, g2⟩
  rw [pruneF_bind, h1', ok_bind, g1, ok_bind]
  exact mkMPA_ok hne' d1

end Mpnum
