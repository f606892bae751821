import Verif.Povm.MpPovm
import Verif.MPArray.RoundingInner
import Verif.MPArray.RoundingDot
import Verif.MPArray.RanksKept

/-!
# `pmf_as_array` in inexact arithmetic (/repo/mpnum/povm/mppovm.py:412-547)

The fast implementations of `pmf_as_array` with a function `td` for `numpy.tensordot` that is only approximately right.  All other
steps move the entries only; they are exact.  The implementation `'default'` is a parameter here.
-/

open Finset

namespace Mpnum

variable {𝕜 : Type}

section defs
variable [One 𝕜] [Star 𝕜]

/-- The loop body of `_pmf_as_array_pmps_ltr` (mppovm.py:442-456) with the function `td` for `numpy.tensordot`. -/
def pmfStepF (td : TDot 𝕜) (p : NDArray 𝕜) (q : NDArray 𝕜 × NDArray 𝕜) : Py (NDArray 𝕜) := do
  let p ← td p q.2 [2] [0]
  let p ← td p q.2.conj [2, 4] [0, 2]
  let p ← td p q.1 [1, 2, 4] [0, 3, 2]
  let p ← p.transpose [0, 3, 4, 1, 2]
  let s := p.shape
  p.reshape [((s.getD 0 0 * s.getD 1 0 : ℕ) : ℤ), ((s.getD 2 0 : ℕ) : ℤ), ((s.getD 3 0 : ℕ) : ℤ), ((s.getD 4 0 : ℕ) : ℤ)]

/-- `_pmf_as_array_pmps_ltr` with `partial=True` (mppovm.py:412-458) with the function `td` for `numpy.tensordot`. -/
def pmfLtrPartialF (td : TDot 𝕜) (x state : MPA 𝕜) : Py (NDArray 𝕜) :=
  (x.lt.zip state.lt).foldlM (pmfStepF td) ⟨[1, 1, 1, 1], fun _ => 1⟩

/-- `_pmf_as_array_pmps_ltr` (mppovm.py:412-462) with the function `td` for `numpy.tensordot`. -/
def pmfLtrF (td : TDot 𝕜) (x state : MPA 𝕜) : Py (NDArray 𝕜) := do
  let p ← pmfLtrPartialF td x state
  let s := nsDims x.outdims
  pyAssert (p.shape = [s.prod, 1, 1, 1])
  p.reshape (s.map fun n : ℕ => (n : ℤ))

/-- The second half of `_pmf_as_array_pmps_symm` (mppovm.py:495-512), for a cut at `nLeft`, with the function `td` for
`numpy.tensordot`. -/
def pmfSymmAtF (td : TDot 𝕜) (x state : MPA 𝕜) (nLeft : ℕ) : Py (NDArray 𝕜) := do
  let left ← mkPovm (x.lt.take nLeft)
  let pl ← pmfLtrPartialF td left state
  let pl ← pl.reshape [((pl.shape.getD 0 0 : ℕ) : ℤ), -1]
  let right ← mkPovm (x.lt.drop nLeft)
  let right ← right.reverse
  let right ← right.povmCheck
  let stateRight ← mkMPA (state.lt.drop nLeft)
  let stateRight ← stateRight.reverse
  let pr ← pmfLtrPartialF td right stateRight
  let sRight := nsDims (x.outdims.drop nLeft).reverse
  pyAssert (pr.shape.getD 0 0 = sRight.prod)
  let pr ← pr.reshape (sRight.map (fun n : ℕ => (n : ℤ)) ++ [-1])
  let pr ← pr.transpose (((List.range pr.ndim).reverse).map fun n : ℕ => (n : ℤ))
  let p ← td pl pr [1] [0]
  p.reshape ((nsDims x.outdims).map fun n : ℕ => (n : ℤ))

/-- `_pmf_as_array_pmps_symm` (mppovm.py:464-512) with the function `td` for `numpy.tensordot`. -/
def pmfSymmF (td : TDot 𝕜) (x state : MPA 𝕜) : Py (NDArray 𝕜) := do
  pyGuard (1 < x.len) .value
  pmfSymmAtF td x state (symmCut x state)

/-- `pmf_as_array` (mppovm.py:514-547) before `project_pmf`, with the function `td` for `numpy.tensordot`.  The parameter `slow` is
the implementation `'default'` (mppovm.py:536-537). -/
def pmfRawF (td : TDot 𝕜) (slow : MPA 𝕜 → Py (NDArray 𝕜 × MPA 𝕜)) (x state : MPA 𝕜) (mode : PovmMode) (impl : PmfImpl) :
    Py (NDArray 𝕜 × MPA 𝕜) := do
  pyAssert (x.len = state.len)
  let (st, impl, conv) ← (if impl = .auto then
      (if mode = .mode .mps then do
        let s ← mpsToPmps state
        return (s, PmfImpl.symm, true)
      else .ok (state, if mode = .mode .pmps then PmfImpl.symm else PmfImpl.default, false))
    else .ok (state, impl, false) : Py (MPA 𝕜 × PmfImpl × Bool))
  let impl := if x.len = 1 ∧ impl = .symm then PmfImpl.ltr else impl
  match impl with
  | .symm => do
    let p ← pmfSymmF td x st
    return (p, state)
  | .ltr => do
    let p ← pmfLtrF td x st
    return (p, state)
  | .default => do
    let (a, y) ← slow st
    return (a, if conv then state else y)
  | _ => .error .value

end defs

/-- With an exact `numpy.tensordot` these are the functions of `MpPovm.lean`. -/
theorem pmfRawF_exact [CommRing 𝕜] [StarRing 𝕜] (qr : QR 𝕜) (x state : MPA 𝕜) (mode : PovmMode) (impl : PmfImpl) :
    pmfRawF NDArray.tensordot (fun st => do
        let (ps, y) ← expectations qr x st mode
        match ps with
        | p :: _ => do
          let p ← prune p true
          let a ← p.toArray
          return (a, y)
        | [] => .error .stopIteration) x state mode impl
      = pmfRaw qr x state mode impl := by
  unfold pmfRawF pmfRaw
  congr 1
  funext _
  congr 1
  funext q
  obtain ⟨st, impl', conv⟩ := q
  simp only
  generalize (if x.len = 1 ∧ impl' = PmfImpl.symm then PmfImpl.ltr else impl') = im
  cases im with
  | auto => rfl
  | symm => rfl
  | ltr => rfl
  | other => rfl
  | default =>
    cases expectations qr x st mode with
    | error e => rfl
    | ok w =>
      obtain ⟨ps, y⟩ := w
      cases ps with
      | nil => rfl
      | cons p ps =>
        simp only [ok_bind]
        cases prune p true with
        | error e => rfl
        | ok p' =>
          simp only [ok_bind]
          cases p'.toArray with
          | error e => rfl
          | ok a => rfl

variable [RCLike 𝕜]

/-! ### distances of arrays -/

theorem arrDist_l2 (a b : NDArray 𝕜) : arrDist a b = l2 {()} (idxSet a.shape) fun _ i => a.get i - b.get i := by
  unfold arrDist l2
  rw [Finset.sum_singleton, sumIdx_eq_sum]

theorem npNorm_l2 (a : NDArray 𝕜) : npNorm a = l2 {()} (idxSet a.shape) fun _ i => a.get i := by
  unfold npNorm l2
  rw [Finset.sum_singleton, sumIdx_eq_sum]

theorem arrDist_tri {a b : NDArray 𝕜} (c : NDArray 𝕜) (h : b.shape = a.shape) : arrDist a c ≤ arrDist a b + arrDist b c := by
  rw [arrDist_l2, arrDist_l2, arrDist_l2, h]
  exact l2_tri _ _ _ _ _

theorem npNorm_le_add {a b : NDArray 𝕜} (h : b.shape = a.shape) : npNorm b ≤ arrDist a b + npNorm a := by
  rw [arrDist_l2, npNorm_l2, npNorm_l2, h, l2_rev]
  exact l2_le_add _ _ _ _

/-- The difference of two arrays. -/
def subArr (a b : NDArray 𝕜) : NDArray 𝕜 := ⟨a.shape, fun i => a.get i - b.get i⟩

theorem npNorm_subArr (a b : NDArray 𝕜) : npNorm (subArr a b) = arrDist a b := rfl

theorem tensordot_diff_left {a a' b c : NDArray 𝕜} (hs : a'.shape = a.shape) {axa axb : List ℤ} (h : a.tensordot b axa axb = .ok c) :
    ∃ c', a'.tensordot b axa axb = .ok c' ∧ c'.shape = c.shape ∧ arrDist c c' ≤ arrDist a a' * npNorm b := by
  obtain ⟨pa, pb, h1, h2, h3, rfl⟩ := tensordot_inv h
  have hnd : a'.ndim = a.ndim := by unfold NDArray.ndim; rw [hs]
  refine ⟨a'.tensordotTo b pa pb, ?_, ?_, ?_⟩
  · unfold NDArray.tensordot
    rw [hnd, h1, ok_bind, h2, ok_bind, hs, if_pos h3]
  · unfold NDArray.tensordotTo
    simp only [hnd, hs]
  · have h4 : (subArr a a').tensordot b axa axb = .ok ((subArr a a').tensordotTo b pa pb) := by
      unfold NDArray.tensordot
      rw [show (subArr a a').ndim = a.ndim from rfl, h1, ok_bind, h2, ok_bind, show (subArr a a').shape = a.shape from rfl, if_pos h3]
    refine le_trans (le_of_eq ?_) (tensordot_norm h4)
    unfold arrDist npNorm
    congr 1
    refine sumIdx_congr fun i _ => ?_
    congr 2
    unfold NDArray.tensordotTo
    simp only [hnd, hs, show (subArr a a').ndim = a.ndim from rfl, show (subArr a a').shape = a.shape from rfl]
    rw [sumIdx_eq_sum, sumIdx_eq_sum, sumIdx_eq_sum, ← Finset.sum_sub_distrib]
    exact Finset.sum_congr rfl fun k _ => by simp only [subArr]; ring

theorem tensordot_diff_right {a b b' c : NDArray 𝕜} (hs : b'.shape = b.shape) {axa axb : List ℤ} (h : a.tensordot b axa axb = .ok c) :
    ∃ c', a.tensordot b' axa axb = .ok c' ∧ c'.shape = c.shape ∧ arrDist c c' ≤ npNorm a * arrDist b b' := by
  obtain ⟨pa, pb, h1, h2, h3, rfl⟩ := tensordot_inv h
  have hnd : b'.ndim = b.ndim := by unfold NDArray.ndim; rw [hs]
  refine ⟨a.tensordotTo b' pa pb, ?_, ?_, ?_⟩
  · unfold NDArray.tensordot
    rw [hnd, h1, ok_bind, h2, ok_bind, hs, if_pos h3]
  · unfold NDArray.tensordotTo
    simp only [hnd, hs]
  · have h4 : a.tensordot (subArr b b') axa axb = .ok (a.tensordotTo (subArr b b') pa pb) := by
      unfold NDArray.tensordot
      rw [show (subArr b b').ndim = b.ndim from rfl, h1, ok_bind, h2, ok_bind, show (subArr b b').shape = b.shape from rfl, if_pos h3]
    refine le_trans (le_of_eq ?_) (tensordot_norm h4)
    unfold arrDist npNorm
    congr 1
    refine sumIdx_congr fun i _ => ?_
    congr 2
    unfold NDArray.tensordotTo
    simp only [hnd, show (subArr b b').ndim = b.ndim from rfl]
    rw [sumIdx_eq_sum, sumIdx_eq_sum, sumIdx_eq_sum, ← Finset.sum_sub_distrib]
    exact Finset.sum_congr rfl fun k _ => by simp only [subArr]; ring

/-- `p'` is an approximation of `p` with the relative error `g - 1` with respect to the bound `N` of the norm of `p`. -/
structure Approx (g N : ℝ) (p p' : NDArray 𝕜) : Prop where
  shape : p'.shape = p.shape
  norm : npNorm p ≤ N
  dist : arrDist p p' ≤ (g - 1) * N

theorem Approx.refl (p : NDArray 𝕜) : Approx 1 (npNorm p) p p :=
  ⟨rfl, le_refl _, by rw [sub_self, zero_mul]; simp [arrDist, sumIdx_eq_sum]⟩

theorem Approx.norm' {g N : ℝ} {p p' : NDArray 𝕜} (h : Approx g N p p') : npNorm p' ≤ g * N := by
  have h1 := npNorm_le_add h.shape
  have h2 := h.dist
  have h3 := h.norm
  linarith

theorem Approx.tensordot {ε g g' N N' : ℝ} (hε : 0 ≤ ε) {td : TDot 𝕜} (htd : TdNear ε td) {a a' b b' c : NDArray 𝕜} (ha : Approx g N a a')
    (hb : Approx g' N' b b') {axa axb : List ℤ} (h : a.tensordot b axa axb = .ok c) :
    ∃ c', td a' b' axa axb = .ok c' ∧ Approx (g * g' * (1 + ε)) (N * N') c c' := by
  obtain ⟨c1, h1, h2, h3⟩ := tensordot_diff_left ha.shape h
  obtain ⟨c2, h4, h5, h6⟩ := tensordot_diff_right hb.shape h1
  obtain ⟨c3, h7, h8, h9⟩ := htd _ _ _ _ _ h4
  have hN : 0 ≤ N := (npNorm_nonneg' _).trans ha.norm
  have hN' : 0 ≤ N' := (npNorm_nonneg' _).trans hb.norm
  refine ⟨c3, h7, h8.trans (h5.trans h2), (tensordot_norm h).trans
    (mul_le_mul ha.norm hb.norm (npNorm_nonneg' _) hN), ?_⟩
  have e1 : arrDist c c1 ≤ (g - 1) * N * N' :=
    h3.trans (mul_le_mul ha.dist hb.norm (npNorm_nonneg' _) ((arrDist_nonneg _ _).trans ha.dist))
  have e2 : arrDist c1 c2 ≤ g * N * ((g' - 1) * N') :=
    h6.trans (mul_le_mul ha.norm' hb.dist (arrDist_nonneg _ _) ((npNorm_nonneg' _).trans ha.norm'))
  have e3 : arrDist c2 c3 ≤ ε * (g * N * (g' * N')) :=
    h9.trans (mul_le_mul_of_nonneg_left (mul_le_mul ha.norm' hb.norm' (npNorm_nonneg' _) ((npNorm_nonneg' _).trans ha.norm')) hε)
  have e4 := arrDist_tri c3 h2
  have e5 := arrDist_tri c3 h5
  nlinarith

theorem npNorm_move {a : NDArray 𝕜} {c : NDArray 𝕜} (z : NDArray 𝕜) (hz : ∀ i, z.get i = 0) (h : arrDist c z = arrDist a (zeroLike a)) :
    npNorm c = npNorm a := by
  rw [arrDist_zeroLike] at h
  rw [← h]
  unfold arrDist npNorm
  simp [hz]

theorem perm_of_nodup {perm : List ℕ} {n : ℕ} (h1 : perm.length = n) (h2 : perm.Nodup) (h3 : ∀ p ∈ perm, p < n) :
    perm.Perm (List.range n) := by
  refine (List.subperm_of_subset h2 fun p hp => List.mem_range.2 (h3 p hp)).perm_of_length_le ?_
  simp [h1]

theorem transpose_dist {a b c : NDArray 𝕜} (hs : b.shape = a.shape) {axes : List ℤ} (h : a.transpose axes = .ok c) :
    ∃ c', b.transpose axes = .ok c' ∧ c'.shape = c.shape ∧ arrDist c c' = arrDist a b := by
  have hnd : b.ndim = a.ndim := by unfold NDArray.ndim; rw [hs]
  unfold NDArray.transpose at h ⊢
  obtain ⟨perm, h1, h⟩ := bind_ok_inv h
  rw [hnd, h1, ok_bind]
  split at h
  case isTrue hp =>
    cases h
    rw [if_pos hp]
    refine ⟨_, rfl, by unfold NDArray.transposeTo; simp only [hs], arrDist_transposeTo hs (perm_of_nodup hp.1 hp.2 ?_)⟩
    rw [mapM_ok_iff] at h1
    intro p hp'
    obtain ⟨n, hn, rfl⟩ := List.getElem_of_mem hp'
    have := (List.forall₂_iff_get.1 h1).2 n (by rw [h1.length_eq]; exact hn) hn
    simp only [List.get_eq_getElem] at this
    cases hi : pyIndex a.ndim (axes[n]'(by rw [h1.length_eq]; exact hn)) with
    | error e => rw [hi] at this; cases this
    | ok k =>
      rw [hi] at this
      have e : k = perm[n] := Except.ok.inj this
      rw [← e]
      unfold pyIndex at hi
      split_ifs at hi
      all_goals (cases hi; omega)
  case isFalse => cases h

theorem prod_known {s : List ℤ} (q : ℕ) (h : s.filter (· < 0) = []) :
    (s.map fun d => if d < 0 then q else d.toNat).prod = ((s.filter (0 ≤ ·)).map Int.toNat).prod := by
  induction s with
  | nil => rfl
  | cons d s ih =>
    by_cases hd : d < 0
    · simp [hd] at h
    · simp only [List.filter_cons, hd, decide_false, Bool.false_eq_true, if_false] at h
      simp [hd, show 0 ≤ d by omega, List.filter_cons, ← ih h]

theorem prod_infer {s : List ℤ} (q : ℕ) {u : ℤ} (h : s.filter (· < 0) = [u]) :
    (s.map fun d => if d < 0 then q else d.toNat).prod = ((s.filter (0 ≤ ·)).map Int.toNat).prod * q := by
  induction s with
  | nil => simp at h
  | cons d s ih =>
    by_cases hd : d < 0
    · simp only [List.filter_cons, hd, decide_true, if_true, List.cons.injEq] at h
      have := prod_known q h.2
      simp [hd, List.filter_cons, show ¬ 0 ≤ d by omega, this, mul_comm]
    · simp only [List.filter_cons, hd, decide_false, Bool.false_eq_true, if_false] at h
      simp [hd, show 0 ≤ d by omega, List.filter_cons, ih h, mul_assoc]

theorem resolveShape_prod {size : ℕ} {s : List ℤ} {t : List ℕ} (h : NDArray.resolveShape size s = .ok t) : t.prod = size := by
  unfold NDArray.resolveShape at h
  simp only at h
  split at h
  case h_1 hu =>
    split at h
    case isTrue hk =>
      cases h
      rw [← hk, ← prod_known 0 hu]
      congr 1
      refine List.map_congr_left fun d hd => ?_
      rw [if_neg]
      intro hn
      have : d ∈ s.filter (· < 0) := by simp [hd, hn]
      rw [hu] at this
      simp at this
    case isFalse => cases h
  case h_2 u hu =>
    split at h
    case isTrue hk =>
      cases h
      rw [prod_infer _ hu]
      exact Nat.mul_div_cancel' (Nat.dvd_of_mod_eq_zero hk.2.2)
    case isFalse => cases h
  case h_3 => cases h

theorem reshape_dist' {a b c : NDArray 𝕜} (hs : b.shape = a.shape) {s : List ℤ} (h : a.reshape s = .ok c) :
    ∃ c', b.reshape s = .ok c' ∧ c'.shape = c.shape ∧ arrDist c c' = arrDist a b := by
  have hsz : b.size = a.size := by unfold NDArray.size; rw [hs]
  unfold NDArray.reshape at h ⊢
  rw [hsz]
  cases ht : NDArray.resolveShape a.size s with
  | error e => rw [ht] at h; cases h
  | ok t =>
    rw [ht] at h
    cases h
    exact ⟨b.reshapeTo _, rfl, rfl, arrDist_reshapeTo hs (resolveShape_prod ht).symm⟩

theorem transpose_npNorm {a c : NDArray 𝕜} {axes : List ℤ} (h : a.transpose axes = .ok c) : npNorm c = npNorm a := by
  obtain ⟨z, h1, h2, h3⟩ := transpose_dist (a := a) (b := zeroLike a) rfl h
  refine npNorm_move z ?_ h3
  unfold NDArray.transpose at h1
  obtain ⟨perm, _, h1⟩ := bind_ok_inv h1
  split at h1
  · cases h1; intro i; rfl
  · cases h1

theorem reshape_npNorm {a c : NDArray 𝕜} {s : List ℤ} (h : a.reshape s = .ok c) : npNorm c = npNorm a := by
  obtain ⟨z, h1, h2, h3⟩ := reshape_dist' (a := a) (b := zeroLike a) rfl h
  refine npNorm_move z ?_ h3
  unfold NDArray.reshape at h1
  cases ht : NDArray.resolveShape (zeroLike a).size s with
  | error e => rw [ht] at h1; cases h1
  | ok t => rw [ht] at h1; cases h1; intro i; rfl

theorem Approx.transpose {g N : ℝ} {a a' c : NDArray 𝕜} (ha : Approx g N a a') {axes : List ℤ} (h : a.transpose axes = .ok c) :
    ∃ c', a'.transpose axes = .ok c' ∧ Approx g N c c' := by
  obtain ⟨c', h1, h2, h3⟩ := transpose_dist ha.shape h
  exact ⟨c', h1, h2, (transpose_npNorm h).le.trans ha.norm, h3.le.trans ha.dist⟩

theorem Approx.reshape {g N : ℝ} {a a' c : NDArray 𝕜} (ha : Approx g N a a') {s : List ℤ} (h : a.reshape s = .ok c) :
    ∃ c', a'.reshape s = .ok c' ∧ Approx g N c c' := by
  obtain ⟨c', h1, h2, h3⟩ := reshape_dist' ha.shape h
  exact ⟨c', h1, h2, (reshape_npNorm h).le.trans ha.norm, h3.le.trans ha.dist⟩

/-! ### the loop -/

/-- The product of the norms which bounds the error of the probabilities: the local tensors of the POVM and twice those of the state. -/
noncomputable def pmfScale (qs : List (NDArray 𝕜 × NDArray 𝕜)) : ℝ := (qs.map fun q => npNorm q.1 * npNorm q.2 ^ 2).prod

theorem pmfStep_near {ε g N : ℝ} (hε : 0 ≤ ε) {td : TDot 𝕜} (htd : TdNear ε td) {p p' c : NDArray 𝕜} {q : NDArray 𝕜 × NDArray 𝕜}
    (hp : Approx g N p p') (h : pmfStep p q = .ok c) :
    ∃ c', pmfStepF td p' q = .ok c' ∧ Approx (g * (1 + ε) ^ 3) (N * (npNorm q.1 * npNorm q.2 ^ 2)) c c' := by
  unfold pmfStep at h
  obtain ⟨a, h1, h⟩ := bind_ok_inv h
  obtain ⟨b, h2, h⟩ := bind_ok_inv h
  obtain ⟨d, h3, h⟩ := bind_ok_inv h
  obtain ⟨e, h4, h⟩ := bind_ok_inv h
  obtain ⟨a', g1, k1⟩ := hp.tensordot hε htd (.refl _) h1
  obtain ⟨b', g2, k2⟩ := k1.tensordot hε htd (.refl _) h2
  obtain ⟨d', g3, k3⟩ := k2.tensordot hε htd (.refl _) h3
  obtain ⟨e', g4, k4⟩ := k3.transpose h4
  obtain ⟨c', g5, k5⟩ := k4.reshape h
  refine ⟨c', ?_, ?_⟩
  · unfold pmfStepF
    rw [g1, ok_bind, g2, ok_bind, g3, ok_bind, g4, ok_bind]
    simp only
    rw [k4.shape]
    exact g5
  · rw [conj_npNorm] at k5
    convert k5 using 1 <;> ring

theorem pmfFold_near {ε : ℝ} (hε : 0 ≤ ε) {td : TDot 𝕜} (htd : TdNear ε td) :
    ∀ (qs : List (NDArray 𝕜 × NDArray 𝕜)) {g N : ℝ} {p p' c : NDArray 𝕜}, Approx g N p p' → qs.foldlM pmfStep p = .ok c →
      ∃ c', qs.foldlM (pmfStepF td) p' = .ok c' ∧ Approx (g * (1 + ε) ^ (3 * qs.length)) (N * pmfScale qs) c c'
  | [], g, N, p, p', c, hp, h => by
    cases h
    exact ⟨p', rfl, by simpa [pmfScale] using hp⟩
  | q :: qs, g, N, p, p', c, hp, h => by
    rw [List.foldlM_cons] at h ⊢
    obtain ⟨d, h1, h⟩ := bind_ok_inv h
    obtain ⟨d', g1, k1⟩ := pmfStep_near hε htd hp h1
    obtain ⟨c', g2, k2⟩ := pmfFold_near hε htd qs k1 h
    refine ⟨c', by rw [g1, ok_bind, g2], ?_⟩
    rw [show pmfScale (q :: qs) = npNorm q.1 * npNorm q.2 ^ 2 * pmfScale qs by simp [pmfScale], ← mul_assoc]
    convert k2 using 1
    rw [List.length_cons]
    ring

theorem npNorm_one : npNorm (⟨[1, 1, 1, 1], fun _ => 1⟩ : NDArray 𝕜) = 1 := by
  unfold npNorm
  simp [sumIdx]

theorem pmfLtrPartial_near {ε : ℝ} (hε : 0 ≤ ε) {td : TDot 𝕜} (htd : TdNear ε td) {x ψ : MPA 𝕜} {c : NDArray 𝕜}
    (h : pmfLtrPartial x ψ = .ok c) :
    ∃ c', pmfLtrPartialF td x ψ = .ok c' ∧ Approx ((1 + ε) ^ (3 * (x.lt.zip ψ.lt).length)) (pmfScale (x.lt.zip ψ.lt)) c c' := by
  obtain ⟨c', h1, h2⟩ := pmfFold_near hε htd _ (Approx.refl _) h
  refine ⟨c', h1, ?_⟩
  rw [npNorm_one, one_mul, one_mul] at h2
  exact h2

theorem pmfLtr_near {ε : ℝ} (hε : 0 ≤ ε) {td : TDot 𝕜} (htd : TdNear ε td) {x ψ : MPA 𝕜} {c : NDArray 𝕜}
    (h : pmfLtr x ψ = .ok c) :
    ∃ c', pmfLtrF td x ψ = .ok c' ∧ Approx ((1 + ε) ^ (3 * (x.lt.zip ψ.lt).length)) (pmfScale (x.lt.zip ψ.lt)) c c' := by
  unfold pmfLtr at h
  obtain ⟨p, h1, h⟩ := bind_ok_inv h
  obtain ⟨u, h2, h⟩ := bind_ok_inv h
  obtain ⟨p', g1, k1⟩ := pmfLtrPartial_near hε htd h1
  obtain ⟨c', g2, k2⟩ := k1.reshape h
  refine ⟨c', ?_, k2⟩
  unfold pmfLtrF
  rw [g1, ok_bind]
  simp only
  rw [k1.shape, h2, ok_bind, g2]

/-! ### both ends -/

theorem reverse_norms {x y : MPA 𝕜} (h : x.reverse = .ok y) : y.lt.map npNorm = (x.lt.map npNorm).reverse := by
  unfold MPA.reverse at h
  obtain ⟨ts, h1, h⟩ := bind_ok_inv h
  have e : y.lt = ts := mkLT_lt h
  rw [e, ← List.map_reverse]
  rw [mapM_ok_iff] at h1
  clear h e
  generalize x.lt.reverse = us at h1 ⊢
  induction h1 with
  | nil => rfl
  | cons a _ ih => rw [List.map_cons, List.map_cons, ih, transpose_npNorm a]

theorem reverse_length {x y : MPA 𝕜} (h : x.reverse = .ok y) : y.lt.length = x.lt.length := by
  simpa using congrArg List.length (reverse_norms h)

theorem pmfScale_zip (xs ts : List (NDArray 𝕜)) :
    pmfScale (xs.zip ts) = (List.zipWith (fun m t : ℝ => m * t ^ 2) (xs.map npNorm) (ts.map npNorm)).prod := by
  unfold pmfScale
  congr 1
  rw [List.zipWith_map, List.zip, List.map_zipWith]

theorem povmCheck_same {x y : MPA 𝕜} (h : x.povmCheck = .ok y) : y = x := by
  unfold MPA.povmCheck at h
  obtain ⟨_, _, h⟩ := bind_ok_inv h
  obtain ⟨_, _, h⟩ := bind_ok_inv h
  obtain ⟨_, _, h⟩ := bind_ok_inv h
  cases h
  rfl

theorem mkPovm_lt {ts : List (NDArray 𝕜)} {x : MPA 𝕜} (h : mkPovm ts = .ok x) : x.lt = ts := by
  unfold mkPovm at h
  obtain ⟨y, h1, h⟩ := bind_ok_inv h
  have := povmCheck_same h
  rw [this]
  exact mkLT_lt h1

theorem zip_take_left {α β : Type} (n : ℕ) (xs : List α) (ys : List β) : (xs.take n).zip ys = (xs.take n).zip (ys.take n) := by
  induction n generalizing xs ys with
  | zero => simp
  | succ n ih =>
    cases xs with
    | nil => simp
    | cons x xs =>
      cases ys with
      | nil => simp
      | cons y ys => simp [ih xs ys]

theorem pmfSymmAt_near {ε : ℝ} (hε : 0 ≤ ε) {td : TDot 𝕜} (htd : TdNear ε td) {x ψ : MPA 𝕜} (hl : x.lt.length = ψ.lt.length) {n : ℕ}
    {c : NDArray 𝕜} (h : pmfSymmAt x ψ n = .ok c) :
    ∃ c', pmfSymmAtF td x ψ n = .ok c' ∧ Approx ((1 + ε) ^ (3 * x.lt.length + 1)) (pmfScale (x.lt.zip ψ.lt)) c c' := by
  unfold pmfSymmAt at h
  obtain ⟨left, h1, h⟩ := bind_ok_inv h
  obtain ⟨pl, h2, h⟩ := bind_ok_inv h
  obtain ⟨pl1, h3, h⟩ := bind_ok_inv h
  obtain ⟨right, h4, h⟩ := bind_ok_inv h
  obtain ⟨right1, h5, h⟩ := bind_ok_inv h
  obtain ⟨right2, h6, h⟩ := bind_ok_inv h
  obtain ⟨st, h7, h⟩ := bind_ok_inv h
  obtain ⟨st1, h8, h⟩ := bind_ok_inv h
  obtain ⟨pr, h9, h⟩ := bind_ok_inv h
  obtain ⟨u, h10, h⟩ := bind_ok_inv h
  obtain ⟨pr1, h11, h⟩ := bind_ok_inv h
  obtain ⟨pr2, h12, h⟩ := bind_ok_inv h
  obtain ⟨p, h13, h⟩ := bind_ok_inv h
  obtain ⟨pl', g2, k2⟩ := pmfLtrPartial_near hε htd h2
  obtain ⟨pl1', g3, k3⟩ := k2.reshape h3
  obtain ⟨pr', g9, k9⟩ := pmfLtrPartial_near hε htd h9
  obtain ⟨pr1', g11, k11⟩ := k9.reshape h11
  obtain ⟨pr2', g12, k12⟩ := k11.transpose h12
  obtain ⟨p', g13, k13⟩ := k3.tensordot hε htd k12 h13
  obtain ⟨c', g14, k14⟩ := k13.reshape h
  refine ⟨c', ?_, ?_⟩
  · unfold pmfSymmAtF
    rw [h1, ok_bind, g2, ok_bind, k2.shape, g3, ok_bind, h4, ok_bind, h5, ok_bind, h6, ok_bind, h7, ok_bind, h8, ok_bind, g9, ok_bind]
    simp only
    rw [k9.shape, h10, ok_bind, g11, ok_bind, show pr1'.ndim = pr1.ndim by unfold NDArray.ndim; rw [k11.shape], g12, ok_bind, g13,
      ok_bind, g14]
  · have e1 : left.lt = x.lt.take n := mkPovm_lt h1
    have e2 : right.lt = x.lt.drop n := mkPovm_lt h4
    have e3 : right2 = right1 := povmCheck_same h6
    have e4 : st.lt = ψ.lt.drop n := mkLT_lt h7
    have e5 := reverse_norms h5
    have e6 := reverse_norms h8
    rw [e2] at e5
    rw [e4] at e6
    have hlen : (left.lt.zip ψ.lt).length + (right2.lt.zip st1.lt).length = x.lt.length := by
      have := reverse_length h5
      have := reverse_length h8
      rw [e3, List.length_zip, List.length_zip, e1, List.length_take]
      rw [e2, List.length_drop] at *
      rw [e4, List.length_drop] at *
      omega
    have hsc : pmfScale (left.lt.zip ψ.lt) * pmfScale (right2.lt.zip st1.lt) = pmfScale (x.lt.zip ψ.lt) := by
      rw [e3, pmfScale_zip right1.lt, e5, e6, ← List.reverse_zipWith (by simp [hl]), List.prod_reverse, ← pmfScale_zip, e1]
      unfold pmfScale
      rw [← List.prod_append, ← List.map_append]
      congr 2
      conv_rhs => rw [← List.take_append_drop n (x.lt.zip ψ.lt)]
      rw [zip_take_left]
      unfold List.zip
      rw [List.drop_zipWith, List.take_zipWith]
    rw [hsc] at k14
    convert k14 using 1
    rw [← hlen]
    ring

theorem Approx.mono {g g' N : ℝ} {p p' : NDArray 𝕜} (h : Approx g N p p') (hg : g ≤ g') : Approx g' N p p' :=
  ⟨h.shape, h.norm, h.dist.trans (mul_le_mul_of_nonneg_right (by linarith) ((npNorm_nonneg' _).trans h.norm))⟩

/-- `pmf_as_array` with a fast implementation inherits what holds for both fast implementations. -/
theorem pmfRaw_transfer {td : TDot 𝕜} (slow : MPA 𝕜 → Py (NDArray 𝕜 × MPA 𝕜)) {qr : QR 𝕜} {x ψ y : MPA 𝕜} {mode : PovmMode}
    {impl : PmfImpl} (hi : (impl = .auto ∧ mode = .mode .pmps) ∨ impl = .ltr ∨ impl = .symm) {P : NDArray 𝕜 → NDArray 𝕜 → Prop}
    (hlen : x.lt.length = ψ.lt.length) (hltr : ∀ {c}, pmfLtr x ψ = .ok c → ∃ c', pmfLtrF td x ψ = .ok c' ∧ P c c')
    (hsymm : ∀ {c}, pmfSymm x ψ = .ok c → ∃ c', pmfSymmF td x ψ = .ok c' ∧ P c c')
    {c : NDArray 𝕜} (h : pmfRaw qr x ψ mode impl = .ok (c, y)) :
    ∃ c', pmfRawF td slow x ψ mode impl = .ok (c', y) ∧ P c c' := by
  unfold pmfRaw at h
  rw [pyAssert_true (show x.len = ψ.len from hlen), ok_bind] at h
  unfold pmfRawF
  rw [pyAssert_true (show x.len = ψ.len from hlen), ok_bind]
  have key : ∀ im : PmfImpl, im = .ltr ∨ im = .symm → (match im with
      | .symm => (do
        let p ← pmfSymm x ψ
        return (p, ψ) : Py (NDArray 𝕜 × MPA 𝕜))
      | _ => do
        let p ← pmfLtr x ψ
        return (p, ψ)) = .ok (c, y) →
      ∃ c', (match im with
      | .symm => (do
        let p ← pmfSymmF td x ψ
        return (p, ψ) : Py (NDArray 𝕜 × MPA 𝕜))
      | _ => do
        let p ← pmfLtrF td x ψ
        return (p, ψ)) = .ok (c', y) ∧ P c c' := by
    intro im him h
    rcases him with rfl | rfl
    · obtain ⟨q, h1, h⟩ := bind_ok_inv h
      obtain ⟨q', h2, h3⟩ := hltr h1
      cases h
      exact ⟨q', by simp only [h2, ok_bind]; rfl, h3⟩
    · obtain ⟨q, h1, h⟩ := bind_ok_inv h
      obtain ⟨q', h2, h3⟩ := hsymm h1
      cases h
      exact ⟨q', by simp only [h2, ok_bind]; rfl, h3⟩
  by_cases h1 : x.len = 1
  · rcases hi with ⟨rfl, rfl⟩ | rfl | rfl <;> simp [ok_bind, h1] at h ⊢ <;> simpa [h1] using key .ltr (.inl rfl) (by simpa using h)
  · rcases hi with ⟨rfl, rfl⟩ | rfl | rfl <;> simp [ok_bind, h1] at h ⊢
    · exact key .symm (.inr rfl) h
    · exact key .ltr (.inl rfl) h
    · exact key .symm (.inr rfl) h

/-- Both fast implementations have an error of at most `3 n + 1` products. -/
theorem pmfRaw_near {ε : ℝ} (hε : 0 ≤ ε) {td : TDot 𝕜} (htd : TdNear ε td) (slow : MPA 𝕜 → Py (NDArray 𝕜 × MPA 𝕜)) {qr : QR 𝕜}
    {x ψ y : MPA 𝕜} {mode : PovmMode} {impl : PmfImpl} (hi : (impl = .auto ∧ mode = .mode .pmps) ∨ impl = .ltr ∨ impl = .symm)
    {c : NDArray 𝕜} (h : pmfRaw qr x ψ mode impl = .ok (c, y)) :
    ∃ c', pmfRawF td slow x ψ mode impl = .ok (c', y) ∧
      Approx ((1 + ε) ^ (3 * x.len + 1)) (pmfScale (x.lt.zip ψ.lt)) c c' := by
  have hlen : x.lt.length = ψ.lt.length := by
    by_contra hn
    unfold pmfRaw at h
    rw [show pyAssert (x.len = ψ.len) = .error .assertion from if_neg hn] at h
    cases h
  have hltr : ∀ {c}, pmfLtr x ψ = .ok c → ∃ c', pmfLtrF td x ψ = .ok c' ∧
      Approx ((1 + ε) ^ (3 * x.len + 1)) (pmfScale (x.lt.zip ψ.lt)) c c' := by
    intro c h
    obtain ⟨c', h1, h2⟩ := pmfLtr_near hε htd h
    refine ⟨c', h1, h2.mono ?_⟩
    rw [List.length_zip, ← hlen, min_self]
    exact pow_le_pow_right₀ (by linarith) (Nat.le_succ _)
  have hsymm : ∀ {c}, pmfSymm x ψ = .ok c → ∃ c', pmfSymmF td x ψ = .ok c' ∧
      Approx ((1 + ε) ^ (3 * x.len + 1)) (pmfScale (x.lt.zip ψ.lt)) c c' := by
    intro c h
    unfold pmfSymm at h
    obtain ⟨u, h1, h⟩ := bind_ok_inv h
    obtain ⟨c', h2, h3⟩ := pmfSymmAt_near hε htd hlen h
    exact ⟨c', by unfold pmfSymmF; rw [h1, ok_bind, h2], h3⟩
  exact pmfRaw_transfer slow hi (P := Approx ((1 + ε) ^ (3 * x.len + 1)) (pmfScale (x.lt.zip ψ.lt))) hlen hltr hsymm h

end Mpnum
