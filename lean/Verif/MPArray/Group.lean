import Verif.Sitewise
import Verif.MPArray.FromArray
import Verif.MPArray.Inner

/-!
# Model of `group_sites`, `split_sites` (/repo/mpnum/mparray.py)
-/

open Finset

namespace Mpnum

variable {R : Type}

namespace MPA

/-- `MPArray.group_sites` (mparray.py:480-499).  Modelled for `sites_per_group ≥ 0`; `len % 0` raises
`ZeroDivisionError`.  For `sites_per_group = 1` the code returns `self`. -/
def groupSites [AddCommMonoid R] [Mul R] (x : MPA R) (k : ℕ) : Py (MPA R) :=
  if k = 0 then .error .zeroDiv
  else if x.len % k ≠ 0 then .error .value
  else if k = 1 then .ok x
  else do
    let ltens ← ((pyRange 0 x.len k).map fun i => (x.lt.drop i.toNat).take k).mapM ltensToArray
    mkMPA ltens

/-- `MPArray.split_sites` (mparray.py:501-518), for `sites_per_group ≥ 0`. -/
def splitSites (qr : QR R) (x : MPA R) (k : ℕ) : Py (MPA R) := do
  let ltens ← x.lt.mapM fun t =>
    if k = 0 then .error .zeroDiv
    else do
      pyAssert ((t.ndim - 2) % k = 0)
      extractFactorsArg qr (.const ((t.ndim - 2) / k)) t
  mkMPA ltens.flatten

end MPA

/-- The list cut into `n` pieces of length `k`. -/
def chunks {α : Type} (k : ℕ) : ℕ → List α → List (List α)
  | 0, _ => []
  | n + 1, l => l.take k :: chunks k n (l.drop k)

section chunks
variable {α β : Type}

@[simp] theorem chunks_length (k n : ℕ) (l : List α) : (chunks k n l).length = n := by
  induction n generalizing l with
  | zero => rfl
  | succ n ih => simp [chunks, ih]

theorem chunks_flatten {k n : ℕ} {l : List α} (h : l.length = n * k) : (chunks k n l).flatten = l := by
  induction n generalizing l with
  | zero => simp at h; simp [chunks, h]
  | succ n ih =>
    simp only [chunks, List.flatten_cons]
    rw [ih (by rw [List.length_drop, h]; simp [Nat.succ_mul]), List.take_append_drop]

theorem chunks_mem_length {k n : ℕ} {l : List α} (h : l.length = n * k) : ∀ c ∈ chunks k n l, c.length = k := by
  induction n generalizing l with
  | zero => simp [chunks]
  | succ n ih =>
    intro c hc
    rcases List.mem_cons.1 hc with rfl | hc
    · rw [List.length_take, h, Nat.succ_mul]; omega
    · exact ih (by rw [List.length_drop, h]; simp [Nat.succ_mul]) c hc

theorem chunks_map (f : α → β) (k n : ℕ) (l : List α) :
    chunks k n (l.map f) = (chunks k n l).map (List.map f) := by
  induction n generalizing l with
  | zero => rfl
  | succ n ih => simp [chunks, ← ih]

theorem chunks_of_flatten {k : ℕ} {L : List (List α)} (h : ∀ c ∈ L, c.length = k) :
    chunks k L.length L.flatten = L := by
  induction L with
  | nil => rfl
  | cons c L ih =>
    have hc := h c (by simp)
    simp only [List.length_cons, chunks, List.flatten_cons]
    rw [List.take_left' hc, List.drop_left' hc, ih fun d hd => h d (by simp [hd])]

theorem chunks_range (k n : ℕ) (l : List α) :
    ((List.range n).map fun j => (l.drop (j * k)).take k) = chunks k n l := by
  induction n generalizing l with
  | zero => rfl
  | succ n ih =>
    rw [List.range_succ_eq_map, List.map_cons, List.map_map, chunks, ← ih]
    simp [Function.comp_def, List.drop_drop, Nat.succ_mul, Nat.add_comm]

theorem pyRange_step (n k : ℕ) (hk : 0 < k) :
    pyRange 0 ((n * k : ℕ) : ℤ) k = (List.range n).map fun j : ℕ => ((j * k : ℕ) : ℤ) := by
  unfold pyRange
  rw [if_pos (by omega)]
  have : (((n * k : ℕ) : ℤ) - 0 + k - 1) / k = n := by
    rw [Int.ediv_eq_iff_of_pos (by omega)]
    push_cast
    constructor
    · nlinarith
    · nlinarith
  rw [this]
  simp

end chunks

/-- The site `u` is the contraction of the group of sites `g`. -/
structure Merged [Semiring R] (g : List (NDArray R)) (u : NDArray R) : Prop where
  loc : u.IsLocal
  chain : Chained u.lb g u.rb
  rep : Rep u.lb g u.rb u

section merge
variable [CommSemiring R]

theorem Merged.ph {g : List (NDArray R)} {u : NDArray R} (h : Merged g u) :
    u.ph = (physShape g).flatten := NDArray.ph_of_shape h.rep.1

theorem merged_chain {G : List (List (NDArray R))} {us : List (NDArray R)}
    (h : List.Forall₂ Merged G us) {l r : ℕ} (hc : Chained l us r) : Chained l G.flatten r := by
  induction h generalizing l with
  | nil => exact hc
  | cons h1 h2 ih =>
    obtain ⟨c1, c2, c3⟩ := hc
    rw [List.flatten_cons]
    exact chained_append.2 ⟨_, c2 ▸ h1.chain, ih c3⟩

theorem mp_merge {G : List (List (NDArray R))} {us : List (NDArray R)}
    (h : List.Forall₂ Merged G us) {l r : ℕ} (hc : Chained l us r) {idx : List (List (List ℕ))}
    (hi : List.Forall₂ IdxOK idx (G.map physShape)) {a b : ℕ} (ha : a < l) :
    mp us (idx.map List.flatten) a b = mp G.flatten idx.flatten a b := by
  induction h generalizing l idx a with
  | nil => cases hi; rfl
  | cons h1 h2 ih =>
    rename_i g u G us
    cases hi with
    | cons i1 i2 =>
      rename_i i is
      obtain ⟨c1, c2, c3⟩ := hc
      simp only [List.map_cons, List.flatten_cons, mp_cons]
      have hl : i.length = g.length := by have := idxOK_length i1; simpa [physShape] using this
      rw [mp_append h1.chain hl (by omega)]
      refine Finset.sum_congr rfl fun c hc => ?_
      have hc : c < u.rb := by simpa using hc
      rw [ih c3 i2 hc]
      congr 1
      exact h1.rep.2 a (by omega) c hc i i1

theorem groups_ok {G : List (List (NDArray R))} (hne : ∀ g ∈ G, g ≠ []) {l r : ℕ}
    (hc : Chained l G.flatten r) :
    ∃ us, G.mapM ltensToArray = .ok us ∧ List.Forall₂ Merged G us ∧ Chained l us r := by
  induction G generalizing l with
  | nil => exact ⟨[], rfl, .nil, hc⟩
  | cons g G ih =>
    rw [List.flatten_cons] at hc
    obtain ⟨m, h1, h2⟩ := chained_append.1 hc
    obtain ⟨us, g1, g2, g3⟩ := ih (fun g' h' => hne g' (by simp [h'])) h2
    obtain ⟨u, e1, e2⟩ := ltensToArray_ok h1 (hne g (by simp))
    have hlb := NDArray.lb_of_shape e2.1
    have hrb := NDArray.rb_of_shape e2.1
    refine ⟨u :: us, ?_, .cons ⟨NDArray.isLocal_of_shape e2.1, ?_, ?_⟩ g2,
      NDArray.isLocal_of_shape e2.1, hlb, ?_⟩
    · rw [List.mapM_cons, e1, ok_bind, g1, ok_bind]; rfl
    · rw [hlb, hrb]; exact h1
    · rw [hlb, hrb]; exact e2
    · rw [hrb]; exact g3

end merge

theorem chained_pos {g : List (NDArray R)} (hne : g ≠ []) (hp : AllPos g) {l r : ℕ}
    (hc : Chained l g r) : 0 < l ∧ 0 < r := by
  induction g generalizing l with
  | nil => exact absurd rfl hne
  | cons t ts ih =>
    obtain ⟨h1, h2, h3⟩ := hc
    have hs := NDArray.shape_local h1
    have ht := hp t (by simp)
    rw [hs] at ht
    refine ⟨h2 ▸ ht t.lb (by simp), ?_⟩
    cases ts with
    | nil => rw [← chained_nil.1 h3]; exact ht t.rb (by simp)
    | cons u us => exact (ih (by simp) (fun v hv => hp v (by simp [hv])) h3).2

theorem merged_pos [CommSemiring R] {g : List (NDArray R)} {u : NDArray R} (h : Merged g u) (hne : g ≠ [])
    (hp : AllPos g) : ∀ d ∈ u.shape, 0 < d := by
  have h0 := chained_pos hne hp h.chain
  intro d hd
  rw [h.rep.1] at hd
  simp only [List.mem_cons, List.mem_append, List.not_mem_nil, or_false] at hd
  rcases hd with rfl | hd | rfl
  · exact h0.1
  · obtain ⟨s, hs, hd⟩ := List.mem_flatten.1 hd
    obtain ⟨t, ht, rfl⟩ := List.mem_map.1 hs
    exact hp t ht d (by rw [NDArray.shape_local (h.chain.isLocal t ht)]; simp [hd])
  · exact h0.2

/-- One site split into `k` sites of `m` legs. -/
theorem splitSite_ok [CommRing R] [StarRing R] {qr : QR R} (hqr : QRSpec qr) {t : NDArray R}
    (ht : t.IsLocal) (hpos : ∀ d ∈ t.shape, 0 < d) {k m : ℕ} (hk : 0 < k) (hm : 0 < m)
    (hl : t.ph.length = k * m) :
    ∃ ts, extractFactorsArg qr (.const m) t = .ok ts ∧ Merged ts t ∧
      physShape ts = chunks m k t.ph := by
  have hs := NDArray.shape_local ht
  have hfl := chunks_flatten hl
  have hml := chunks_mem_length hl
  have hlast : (chunks m k t.ph).getLast? ≠ some [] := by
    intro h
    have := hml [] (List.mem_of_getLast? h)
    simp at this; omega
  have hnd : t.ndim = k * m + 2 := by rw [NDArray.ndim_local ht, hl]
  have hle : k ≤ k * m := Nat.le_mul_of_pos_right _ hm
  have hpos' : ∀ p ∈ chunks m k t.ph, ∀ d ∈ p, 0 < d := by
    intro p hp d hd
    apply hpos
    rw [hs]
    have : d ∈ t.ph := by rw [← hfl]; exact List.mem_flatten.2 ⟨p, hp, hd⟩
    simp [this]
  obtain ⟨ts, h1, h2, h3, h4, h5, h6⟩ := extract_ok hqr .recursion
    (List.replicate (t.ndim + 1 - k) m) (chunks m k t.ph)
    (by intro h; have := congrArg List.length h; simp at this; omega) (Or.inr hlast) hpos' t.lb t.rb t
    (hpos _ (by rw [hs]; simp)) (hpos _ (by rw [hs]; simp)) (by rw [hfl]; exact hs)
  refine ⟨ts, ?_, ⟨ht, h2, h4⟩, h3⟩
  have e : (chunks m k t.ph).map List.length = List.replicate k m := by
    rw [List.eq_replicate_iff]
    simp only [List.length_map, chunks_length, List.mem_map, true_and]
    rintro b ⟨p, hp, rfl⟩; exact hml p hp
  rw [e, ← List.replicate_add] at h1
  unfold extractFactorsArg
  simp only
  rw [show t.ndim + 1 = k + (t.ndim + 1 - k) by omega, h1]

end Mpnum
