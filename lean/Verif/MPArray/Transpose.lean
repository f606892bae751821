import Verif.Sitewise
import Verif.MPArray.Inner

/-!
# Model of `T`, `transpose`, `adj`, `conj`, `reverse` (/repo/mpnum/mparray.py)
-/

open Finset

namespace Mpnum

variable {R : Type}

/-- `_local_transpose` (mparray.py:1889-1903) -/
def localTranspose (t : NDArray R) (axes : Option (List ℤ)) : Py (NDArray R) :=
  let last : ℤ := (t.ndim : ℤ) - 1
  let ax : List ℤ := match axes with
    | none => ((List.range (t.ndim - 2)).map fun k : ℕ => (k : ℤ) + 1).reverse
    | some ax => ax.map (· + 1)
  t.transpose (0 :: (ax ++ [last]))

namespace MPA

/-- `MPArray.T` (mparray.py:311-319) -/
def T (x : MPA R) : Py (MPA R) := do
  let ts ← x.lt.mapM fun t => localTranspose t none
  mkLT ts (some x.l) (some x.r)

/-- `MPArray.transpose` (mparray.py:321-337) -/
def transpose (x : MPA R) (axes : Option (List ℤ)) : Py (MPA R) := do
  let ts ← x.lt.mapM fun t => localTranspose t axes
  mkLT ts (some x.l) (some x.r)

/-- `MPArray.adj` (mparray.py:339-342): no canonical form is kept. -/
def adj [Star R] (x : MPA R) : Py (MPA R) := do
  let ts ← x.lt.mapM fun t => localTranspose t none
  mkMPA (ts.map NDArray.conj)

/-- `MPArray.conj` (mparray.py:344-347) -/
def conj [Star R] (x : MPA R) : Py (MPA R) := mkLT (x.lt.map NDArray.conj) (some x.l) (some x.r)

/-- `MPArray.reverse` (mparray.py:583-587) -/
def reverse (x : MPA R) : Py (MPA R) := do
  let ts ← x.lt.reverse.mapM fun t => t.transpose
    (((t.ndim : ℤ) - 1) :: (((List.range (t.ndim - 2)).map fun k : ℕ => (k : ℤ) + 1) ++ [0]))
  mkMPA ts

end MPA

/-! ### one site -/

/-- Legs `perm[0], perm[1], ...` of the index `p`. -/
abbrev permIdx (perm p : List ℕ) : List ℕ := perm.map fun m => p.getD m 0

/-- Inverse of `permIdx`. -/
def unpermIdx (perm q : List ℕ) : List ℕ := (List.range perm.length).map fun m => q.getD (perm.idxOf m) 0

theorem inB_of_getD {p s : List ℕ} (hl : p.length = s.length)
    (h : ∀ m < s.length, p.getD m 0 < s.getD m 0) : InB p s := by
  induction s generalizing p with
  | nil => simp at hl; subst hl; simp
  | cons d s ih =>
    cases p with
    | nil => simp at hl
    | cons i p =>
      refine List.Forall₂.cons (by simpa using h 0 (by simp)) (ih (by simpa using hl) fun m hm => ?_)
      simpa using h (m + 1) (by simpa using hm)

theorem getD_map_of_lt {l : List ℕ} {f : ℕ → ℕ} {m : ℕ} (h : m < l.length) :
    (l.map f).getD m 0 = f (l.getD m 0) := by
  simp [List.getD_eq_getElem?_getD, h]

section perm
variable {perm : List ℕ} {n : ℕ} (hp : perm.Perm (List.range n))
include hp

theorem perm_length : perm.length = n := by simpa using hp.length_eq

theorem perm_lt {m : ℕ} (h : m ∈ perm) : m < n := by simpa using hp.mem_iff.1 h

theorem perm_mem {m : ℕ} (h : m < n) : m ∈ perm := hp.mem_iff.2 (by simpa using h)

theorem permIdx_inB {p s : List ℕ} (hs : s.length = n) (h : InB p s) :
    InB (permIdx perm p) (permIdx perm s) := by
  refine inB_of_getD (by simp) fun m hm => ?_
  have hm : m < perm.length := by simpa using hm
  rw [getD_map_of_lt hm, getD_map_of_lt hm]
  refine inB_getD h ?_
  rw [hs]
  refine perm_lt hp ?_
  rw [List.getD_eq_getElem?_getD, List.getElem?_eq_getElem hm]; simp

theorem permIdx_unperm {q : List ℕ} (hq : q.length = n) : permIdx perm (unpermIdx perm q) = q := by
  have hl := perm_length hp
  have hnd : perm.Nodup := hp.nodup_iff.2 List.nodup_range
  apply List.ext_getElem
  · simp [hl, hq]
  · intro i h1 h2
    simp only [List.length_map] at h1
    have hi : perm[i] < perm.length := by rw [hl]; exact perm_lt hp (List.getElem_mem h1)
    have e : (unpermIdx perm q).getD perm[i] 0 = q.getD (perm.idxOf perm[i]) 0 := by
      rw [unpermIdx, getD_map_of_lt (by simpa using hi), List.getD_eq_getElem?_getD (l := List.range _),
        List.getElem?_range hi, Option.getD_some]
    rw [List.getElem_map, e, hnd.idxOf_getElem,
      List.getD_eq_getElem?_getD, List.getElem?_eq_getElem h2, Option.getD_some]

theorem unperm_permIdx {p : List ℕ} (hl : p.length = n) : unpermIdx perm (permIdx perm p) = p := by
  have hpl := perm_length hp
  apply List.ext_getElem
  · simp [unpermIdx, hpl, hl]
  · intro i h1 h2
    have hi : i < n := by rw [← hl]; exact h2
    have hm := perm_mem hp hi
    simp only [unpermIdx, List.getElem_map, List.getElem_range]
    have hlt : perm.idxOf i < perm.length := List.idxOf_lt_length_iff.2 hm
    rw [getD_map_of_lt hlt, List.getD_eq_getElem?_getD (l := perm), List.getElem?_eq_getElem hlt,
      Option.getD_some, List.getElem_idxOf, List.getD_eq_getElem?_getD, List.getElem?_eq_getElem h2,
      Option.getD_some]

theorem unperm_inB {q s : List ℕ} (hs : s.length = n) (h : InB q (permIdx perm s)) :
    InB (unpermIdx perm q) s := by
  have hl := perm_length hp
  refine inB_of_getD (by simp [unpermIdx, hl, hs]) fun m hm => ?_
  rw [hs] at hm
  have hm' := perm_mem hp hm
  have hlt : perm.idxOf m < perm.length := List.idxOf_lt_length_iff.2 hm'
  rw [unpermIdx, getD_map_of_lt (by simpa [hl] using hm), List.getD_eq_getElem?_getD (l := List.range _),
      List.getElem?_range (by rw [hl]; exact hm), Option.getD_some]
  have := inB_getD h (n := perm.idxOf m) (by simpa using hlt)
  rwa [getD_map_of_lt hlt, List.getD_eq_getElem?_getD (l := perm), List.getElem?_eq_getElem hlt,
      Option.getD_some, List.getElem_idxOf] at this

/-- `_local_transpose` with a permutation of the physical legs. -/
theorem localTranspose_perm {t : NDArray R} (h : t.IsLocal) (hn : t.ph.length = n) :
    ∃ u, localTranspose t (some (perm.map fun k : ℕ => (k : ℤ))) = .ok u ∧
      u.shape = t.lb :: (permIdx perm t.ph ++ [t.rb]) ∧
      SPull t u (unpermIdx perm) ∧
      (∀ a b p, p.length = n → u.at3 a (permIdx perm p) b = t.at3 a p b) := by
  have hnd := NDArray.ndim_local h
  have hpl := perm_length hp
  set full : List ℕ := 0 :: (perm.map (· + 1) ++ [n + 1]) with hfull
  have hfp : full.Perm (List.range t.ndim) := by
    rw [hnd, hn, hfull, List.range_succ, List.range_succ_eq_map]
    refine List.Perm.trans ?_ (List.Perm.refl _)
    rw [List.cons_append]
    refine List.Perm.cons _ (List.Perm.append ?_ (List.Perm.refl _))
    exact hp.map _
  have hget : ∀ j : List ℕ, ∀ a b, (full.map fun m => (a :: (j ++ [b])).getD m 0)
      = a :: ((perm.map fun m => (j ++ [b]).getD m 0) ++ [(j ++ [b]).getD n 0]) := by
    intro j a b
    simp [hfull, List.map_map, Function.comp_def]
  have hin : ∀ j : List ℕ, j.length = n → ∀ b, (perm.map fun m => (j ++ [b]).getD m 0) = permIdx perm j ∧
      (j ++ [b]).getD n 0 = b := by
    intro j hj b
    constructor
    · apply List.map_congr_left
      intro m hm
      exact getD_append_lt (by rw [hj]; exact perm_lt hp hm)
    · have := getD_append_ge j [b] 0
      rw [hj] at this; simpa using this
  have hsh : (t.transposeTo full).shape = t.lb :: (permIdx perm t.ph ++ [t.rb]) := by
    rw [NDArray.transposeTo_shape, NDArray.shape_local h, hget, (hin t.ph hn t.rb).1, (hin t.ph hn t.rb).2]
  have hat : ∀ a b p, p.length = n → (t.transposeTo full).at3 a (permIdx perm p) b = t.at3 a p b := by
    intro a b p hpn
    have := NDArray.transposeTo_get_perm (a := t) (perm := full) (j := a :: (p ++ [b])) hfp
      (by simp [hnd, hpn, hn])
    rw [hget, (hin p hpn b).1, (hin p hpn b).2] at this
    exact this
  refine ⟨t.transposeTo full, ?_, hsh, ⟨NDArray.isLocal_of_shape hsh, NDArray.lb_of_shape hsh,
    NDArray.rb_of_shape hsh, ?_⟩, hat⟩
  · have := NDArray.transpose_ok (a := t) hfp
    rw [← this]
    unfold localTranspose
    simp only [hfull, hnd, hn, List.map_cons, List.map_append, List.map_map, Function.comp_def]
    push_cast
    simp
    ring_nf
  · intro a _ b _ p hpp
    rw [NDArray.ph_of_shape hsh] at hpp
    have hl : p.length = n := by have := inB_length hpp; simpa [hpl] using this
    rw [← hat a b _ (by simp [unpermIdx, hpl]), permIdx_unperm hp hl]

/-- Change of variables for transposed legs. -/
theorem sumIdx_perm [AddCommMonoid R] {s : List ℕ} (hs : s.length = n) (g : List ℕ → R) :
    (sumIdx (permIdx perm s) fun q => g (unpermIdx perm q)) = sumIdx s g := by
  have hpl := perm_length hp
  refine sumIdx_bij (unpermIdx perm) (permIdx perm) g ?_ ?_ ?_ ?_
  · exact fun i hi => unperm_inB hp hs hi
  · exact fun i hi => permIdx_inB hp hs hi
  · intro i hi
    exact permIdx_unperm hp (by have := inB_length hi; simpa [hpl] using this)
  · intro i hi
    exact unperm_permIdx hp (by have := inB_length hi; omega)

end perm

theorem permIdx_reverse (p : List ℕ) : permIdx (List.range p.length).reverse p = p.reverse := by
  unfold permIdx
  rw [List.map_reverse, map_getD_range]

theorem localTranspose_none (t : NDArray R) (h : t.IsLocal) :
    localTranspose t none = localTranspose t (some ((List.range t.ph.length).reverse.map fun k : ℕ => (k : ℤ))) := by
  unfold localTranspose
  simp only [NDArray.ndim_local h, Nat.add_sub_cancel, List.map_map, List.map_reverse]
  rfl

/-! ### reversal of the chain -/

theorem reverseSite_ok {t : NDArray R} (h : t.IsLocal) :
    ∃ u, t.transpose (((t.ndim : ℤ) - 1) ::
        (((List.range (t.ndim - 2)).map fun k : ℕ => (k : ℤ) + 1) ++ [0])) = .ok u ∧
      u.shape = t.rb :: (t.ph ++ [t.lb]) ∧ ∀ a b p, p.length = t.ph.length → u.at3 b p a = t.at3 a p b := by
  have hnd := NDArray.ndim_local h
  set n := t.ph.length with hn
  set full : List ℕ := (n + 1) :: ((List.range n).map (· + 1) ++ [0]) with hfull
  have hfp : full.Perm (List.range t.ndim) := by
    rw [hnd, hfull, List.range_succ, List.range_succ_eq_map]
    refine (List.perm_append_singleton _ _).symm.trans ?_
    refine List.Perm.append ?_ (List.Perm.refl _)
    exact List.perm_append_singleton _ _
  have hget : ∀ j : List ℕ, j.length = n → ∀ a b, (full.map fun m => (a :: (j ++ [b])).getD m 0)
      = b :: (j ++ [a]) := by
    intro j hj a b
    have e1 : (j ++ [b]).getD n 0 = b := by
      have := getD_append_ge j [b] 0
      rw [hj] at this; simpa using this
    have e2 : ((List.range n).map fun m => (j ++ [b]).getD m 0) = j := by
      conv_rhs => rw [← map_getD_range' hj]
      apply List.map_congr_left
      intro m hm
      exact getD_append_lt (by rw [hj]; simpa using hm)
    rw [hfull]
    simp only [List.map_cons, List.map_append, List.map_map, Function.comp_def, List.getD_cons_succ,
      List.map_nil, List.getD_cons_zero]
    rw [e1, e2]
  refine ⟨t.transposeTo full, ?_, ?_, ?_⟩
  · rw [← NDArray.transpose_ok (a := t) hfp]
    simp only [hfull, hnd, List.map_cons, List.map_append, List.map_map, Function.comp_def]
    push_cast
    simp
    ring_nf
  · rw [NDArray.transposeTo_shape, NDArray.shape_local h, hget _ hn.symm]
  · intro a b p hp
    have := NDArray.transposeTo_get_perm (a := t) (perm := full) (j := a :: (p ++ [b])) hfp
      (by simp [hnd, hp])
    rw [hget p hp] at this
    exact this

theorem chained_reverse {ps : List (NDArray R × NDArray R)}
    (h : ∀ p ∈ ps, p.2.IsLocal ∧ p.2.lb = p.1.rb ∧ p.2.rb = p.1.lb) {l r : ℕ}
    (hc : Chained l (ps.map Prod.fst) r) : Chained r (ps.reverse.map Prod.snd) l := by
  induction ps generalizing l with
  | nil => exact Eq.symm hc
  | cons p ps ih =>
    obtain ⟨h1, h2, h3⟩ := hc
    rw [List.reverse_cons, List.map_append]
    obtain ⟨g1, g2, g3⟩ := h p (by simp)
    exact chained_concat.2 ⟨by rw [g2]; exact ih (fun q hq => h q (by simp [hq])) h3, g1,
      g3.trans h2⟩

theorem mp_reverse [CommSemiring R] {ps : List (NDArray R × NDArray R)}
    (h : ∀ p ∈ ps, p.2.IsLocal ∧ p.2.lb = p.1.rb ∧ p.2.rb = p.1.lb ∧
      ∀ a b i, i.length = p.1.ph.length → p.2.at3 b i a = p.1.at3 a i b) {l r : ℕ}
    (hc : Chained l (ps.map Prod.fst) r) {idx : List (List ℕ)}
    (hi : IdxOK idx (physShape (ps.map Prod.fst))) {a b : ℕ} (ha : a < l) (hb : b < r) :
    mp (ps.reverse.map Prod.snd) idx.reverse b a = mp (ps.map Prod.fst) idx a b := by
  induction ps generalizing l idx a with
  | nil => simp [eq_comm]
  | cons p ps ih =>
    obtain ⟨h1, h2, h3⟩ := hc
    cases idx with
    | nil => simp [physShape, IdxOK] at hi
    | cons i is =>
      simp only [physShape, List.map_cons, idxOK_cons] at hi
      obtain ⟨hi1, hi2⟩ := hi
      obtain ⟨g1, g2, g3, g4⟩ := h p (by simp)
      have hrev := chained_reverse (fun q hq => by
        obtain ⟨a, b, c, _⟩ := h q (by simp [hq]); exact ⟨a, b, c⟩) h3
      rw [List.reverse_cons, List.reverse_cons, List.map_append]
      have hl : is.reverse.length = (ps.reverse.map Prod.snd).length := by
        have := idxOK_length hi2; simpa using this
      simp only [List.map_cons, List.map_nil]
      rw [mp_concat (by rw [g2]; exact hrev) hl hb (by omega), g2, mp_cons]
      refine Finset.sum_congr rfl fun c hc => ?_
      have hc : c < p.1.rb := by simpa using hc
      rw [g4 a c i (inB_length hi1), ih (fun q hq => h q (by simp [hq])) h3 hi2 hc, mul_comm]

end Mpnum
