import Verif.MPArray.LocalSum
import Mathlib.Algebra.BigOperators.Intervals

/-!
# The automaton of `_local_sum_identity`

`LS.blocks p` are the vectors which the sites `p, p + 1, …` produce at the bond before site `p`: one
channel for finished terms, one block per term which has begun, one channel for terms which have not
begun yet.
-/

open Finset

namespace Mpnum

variable {R : Type}

theorem Chained.adj {l r : ℕ} {ts : List (NDArray R)} (h : Chained l ts r) {k : ℕ}
    (hk : k + 1 < ts.length) : (ts[k]'(by omega)).rb = ts[k + 1].lb := by
  induction ts generalizing l k with
  | nil => simp at hk
  | cons t ts ih =>
    cases ts with
    | nil => simp at hk
    | cons u us =>
      cases k with
      | zero => exact h.2.2.2.1.symm
      | succ k => exact ih h.2.2 (k := k) (by simpa using hk)

theorem Chained.first {l r : ℕ} {ts : List (NDArray R)} (h : Chained l ts r) (hk : 0 < ts.length) :
    ts[0].lb = l := by
  cases ts with
  | nil => simp at hk
  | cons t ts => exact h.2.1

theorem Chained.final {l r : ℕ} {ts : List (NDArray R)} (h : Chained l ts r) {k : ℕ}
    (hk : k + 1 = ts.length) : (ts[k]'(by omega)).rb = r := by
  induction ts generalizing l k with
  | nil => simp at hk
  | cons t ts ih =>
    cases ts with
    | nil =>
      simp at hk; subst hk
      exact h.2.2
    | cons u us =>
      cases k with
      | zero => simp at hk
      | succ k => exact ih h.2.2 (k := k) (by simpa using hk)

namespace LS

variable (mpas : List (MPA R)) (w : ℕ) (e : NDArray R) (P : ℕ → List ℕ)

/-- Local tensors of term `i`. -/
def T (i : ℕ) : List (NDArray R) := (mpas[i]?.map MPA.lt).getD []

/-- Hypotheses: `mpas` are MPAs of length `w`, term `i` fits the sites `i, …, i + w - 1` of a chain
with leg sizes `P`; wherever a term is missing, the legs are those of the embedding tensor. -/
structure OK : Prop where
  hw : 0 < w
  hN : 0 < mpas.length
  len : ∀ i < mpas.length, (T mpas i).length = w
  chain : ∀ i < mpas.length, Chained 1 (T mpas i) 1
  ph : ∀ i < mpas.length, ∀ k (hk : k < (T mpas i).length), ((T mpas i)[k]).ph = P (i + k)
  emb : ∀ q, q + 1 < mpas.length + w → (w ≤ q ∨ q + 1 < mpas.length) → e.shape = P q

/-- Local tensor of term `i` at site `p`. -/
def t [Zero R] (i p : ℕ) : NDArray R := (T mpas i)[p - i]?.getD (NDArray.zeros [])

variable {mpas w e P}

theorem t_eq [Zero R] (h : OK mpas w e P) {i p : ℕ} (hi : i < mpas.length) (hp : i ≤ p) (hp' : p < i + w) :
    ∃ hk : p - i < (T mpas i).length, t mpas i p = (T mpas i)[p - i] := by
  have hk : p - i < (T mpas i).length := by rw [h.len i hi]; omega
  exact ⟨hk, by rw [t, List.getElem?_eq_getElem hk]; rfl⟩

theorem t_shape [Zero R] (h : OK mpas w e P) {i p : ℕ} (hi : i < mpas.length) (hp : i ≤ p)
    (hp' : p < i + w) :
    (t mpas i p).shape = (t mpas i p).lb :: (P p ++ [(t mpas i p).rb]) := by
  obtain ⟨hk, e1⟩ := t_eq h hi hp hp'
  have h2 := h.ph i hi _ hk
  rw [show i + (p - i) = p by omega] at h2
  rw [e1, ← h2]
  exact NDArray.shape_local ((h.chain i hi).isLocal _ (List.getElem_mem hk))

theorem t_first [Zero R] (h : OK mpas w e P) {p : ℕ} (hi : p < mpas.length) : (t mpas p p).lb = 1 := by
  obtain ⟨hk, e1⟩ := t_eq h hi le_rfl (by have := h.hw; omega)
  rw [e1]
  simp only [Nat.sub_self]
  exact (h.chain p hi).first (by omega)

theorem t_end [Zero R] (h : OK mpas w e P) {i p : ℕ} (hi : i < mpas.length) (hp : i + w = p + 1) :
    (t mpas i p).rb = 1 := by
  have := h.hw
  obtain ⟨hk, e1⟩ := t_eq h hi (show i ≤ p by omega) (by omega)
  rw [e1]
  exact (h.chain i hi).final (by rw [h.len i hi]; omega)

theorem t_next [Zero R] (h : OK mpas w e P) {i p : ℕ} (hi : i < mpas.length) (hp : i ≤ p)
    (hp' : p + 1 < i + w) : (t mpas i p).rb = (t mpas i (p + 1)).lb := by
  obtain ⟨hk, e1⟩ := t_eq h hi hp (by omega)
  obtain ⟨hk', e2⟩ := t_eq h hi (show i ≤ p + 1 by omega) hp'
  rw [e1, e2]
  have := (h.chain i hi).adj (k := p - i) (by omega)
  rw [this]
  congr 1
  have e3 : p + 1 - i = p - i + 1 := by omega
  simp only [e3]

/-! ### the modified local tensors -/

/-- The tensor of one term at site `p`, with `o` (zero or one) rows for finished terms and `o'` (zero or
one) columns for terms which have not begun. -/
def HOK [Zero R] (e t h : NDArray R) (P : List ℕ) (o o' : ℕ) : Prop :=
  h.shape = (o + t.lb) :: (P ++ [t.rb + o']) ∧
    ∀ a < o + t.lb, ∀ q, InB q P → ∀ c < t.rb + o', h.at3 a q c =
      if a < o then (if c < t.rb then e.get q else 0)
      else if c < t.rb then t.at3 (a - o) q c else e.get q

theorem addBonds_at3 (e : NDArray R) (a : ℕ) (q : List ℕ) (c : ℕ) : e.addBonds.at3 a q c = e.get q := by
  simp [NDArray.at3, NDArray.addBonds]

theorem hok_plain [Zero R] {e t : NDArray R} {P : List ℕ} (h : t.shape = t.lb :: (P ++ [t.rb])) :
    HOK e t t P 0 0 := by
  refine ⟨by simpa using h, ?_⟩
  intro a _ q _ c hc
  rw [if_neg (by omega), if_pos (by omega)]; rfl

theorem hok_head [Zero R] {e t : NDArray R} {P : List ℕ} (h : t.shape = t.lb :: (P ++ [t.rb]))
    (hr : t.rb = 1) (he : e.shape = P) :
    ∃ h, NDArray.concatenate [e.addBonds, t] 0 = .ok h ∧ HOK e t h P 1 0 := by
  have hes : e.addBonds.shape = 1 :: (P ++ [1]) := by rw [← he]; rfl
  obtain ⟨c, h1, h2, h3⟩ := concat_first_ok (ts := [e.addBonds, t]) (P := P) (r := 1) (by simp) (by
    intro u hu
    simp only [List.mem_cons, List.not_mem_nil, or_false] at hu
    rcases hu with rfl | rfl
    · rw [hes, NDArray.lb_of_shape hes]
    · rw [← hr]; exact h)
  refine ⟨c, h1, ?_, ?_⟩
  · rw [h2, hr]
    simp [NDArray.lb_of_shape hes]
  · intro a ha q _ b hb
    rw [h3]
    simp only [rowGet, NDArray.lb_of_shape hes, addBonds_at3]
    by_cases h4 : a < 1
    · rw [if_pos h4, if_pos h4, if_pos (by omega)]
    · rw [if_neg h4, if_neg h4, if_pos (by omega), if_pos (by omega)]

theorem hok_last [Zero R] {e t h re : NDArray R} {P : List ℕ} {o : ℕ} (hh : HOK e t h P o 0)
    (hre : re.shape = (o + t.lb) :: (P ++ [1]))
    (hrg : ∀ a < o + t.lb, ∀ q, re.at3 a q 0 = if a < o then 0 else e.get q) :
    ∃ h', concatLast [h, re] = .ok h' ∧ HOK e t h' P o 1 := by
  have hs := hh.1
  obtain ⟨c, h1, h2, h3⟩ := concat_last_ok (ts := [h, re]) (P := P) (l := o + t.lb) (by simp) (by
    intro u hu
    simp only [List.mem_cons, List.not_mem_nil, or_false] at hu
    rcases hu with rfl | rfl
    · rw [hs, NDArray.rb_of_shape hs]
    · rw [hre, NDArray.rb_of_shape hre])
  refine ⟨c, h1, ?_, ?_⟩
  · rw [h2]
    simp [NDArray.rb_of_shape hre, NDArray.rb_of_shape hs]
  · intro a ha q hq b hb
    rw [h3 a q b (inB_length hq)]
    simp only [colGet, NDArray.rb_of_shape hs, NDArray.rb_of_shape hre, add_zero]
    by_cases h4 : b < t.rb
    · rw [if_pos h4, hh.2 a ha q hq b (by omega)]
    · have h5 : b - t.rb = 0 := by omega
      rw [if_neg h4, h5, if_pos one_pos, hrg a ha]
      simp only [if_neg h4]

theorem hok_rightEmbed [Zero R] {e : NDArray R} {P : List ℕ} {w p n : ℕ} (he : e.shape = P)
    (hn : w = 1 → n = 1) :
    ∃ re, rightEmbed e.addBonds w p n = .ok re ∧
      re.shape = ((if w = 1 ∧ w ≤ p then 1 else 0) + 1) :: (P ++ [1]) ∧
      ∀ a < (if w = 1 ∧ w ≤ p then 1 else 0) + 1, ∀ q,
        re.at3 a q 0 = if a < (if w = 1 ∧ w ≤ p then 1 else 0) then 0 else e.get q := by
  have hes : e.addBonds.shape = 1 :: (P ++ [1]) := by rw [← he]; rfl
  unfold rightEmbed
  by_cases hc : w = 1 ∧ w ≤ p
  · rw [if_pos hc, if_pos hc, pyAssert_true (hn hc.1), ok_bind]
    have hzs : (NDArray.zeros e.addBonds.shape : NDArray R).shape = 1 :: (P ++ [1]) := hes
    obtain ⟨c, h1, h2, h3⟩ := concat_first_ok
      (ts := [NDArray.zeros e.addBonds.shape, e.addBonds]) (P := P) (r := 1) (by simp) (by
      intro u hu
      simp only [List.mem_cons, List.not_mem_nil, or_false] at hu
      rcases hu with rfl | rfl
      · rw [hzs, NDArray.lb_of_shape hzs]
      · rw [hes, NDArray.lb_of_shape hes])
    refine ⟨c, h1, ?_, ?_⟩
    · rw [h2]
      simp [NDArray.lb_of_shape hes, NDArray.lb_of_shape hzs]
    · intro a ha q
      rw [h3]
      simp only [rowGet, NDArray.lb_of_shape hes, NDArray.lb_of_shape hzs, addBonds_at3]
      by_cases h4 : a < 1
      · rw [if_pos h4, if_pos h4]; rfl
      · rw [if_neg h4, if_neg h4, if_pos (by omega)]
  · rw [if_neg hc, if_neg hc]
    refine ⟨_, rfl, hes, ?_⟩
    intro a _ q
    rw [addBonds_at3, if_neg (by omega)]

theorem forall₂_split {α β : Type} {Q : α → β → Prop} {l₁ l₂ : List α} {m : List β}
    (h : List.Forall₂ Q (l₁ ++ l₂) m) :
    ∃ m₁ m₂, List.Forall₂ Q l₁ m₁ ∧ List.Forall₂ Q l₂ m₂ ∧ m = m₁ ++ m₂ := by
  induction l₁ generalizing m with
  | nil => exact ⟨[], m, .nil, h, rfl⟩
  | cons a l₁ ih =>
    cases h with
    | cons h1 h2 =>
      obtain ⟨m₁, m₂, h3, h4, rfl⟩ := ih h2
      exact ⟨_ :: m₁, m₂, .cons h1 h3, h4, rfl⟩

theorem forall₂_imp_mem {α β : Type} {Q S : α → β → Prop} {l : List α} {m : List β}
    (h : List.Forall₂ Q l m) (hi : ∀ a b, a ∈ l → Q a b → S a b) : List.Forall₂ S l m := by
  induction h with
  | nil => exact .nil
  | cons h1 _ ih => exact .cons (hi _ _ (by simp) h1) (ih fun a b ha => hi a b (by simp [ha]))

theorem forall₂_mem_right {α β : Type} {Q : α → β → Prop} {l : List α} {m : List β}
    (h : List.Forall₂ Q l m) {b : β} (hb : b ∈ m) : ∃ a ∈ l, Q a b := by
  induction h with
  | nil => simp at hb
  | cons h1 _ ih =>
    rcases List.mem_cons.1 hb with rfl | hb
    · exact ⟨_, by simp, h1⟩
    · obtain ⟨a, ha, hq⟩ := ih hb
      exact ⟨a, by simp [ha], hq⟩

theorem mapM_range_ok {β : Type} [Nonempty β] {n : ℕ} {f : ℕ → Py β} (Q : ℕ → β → Prop)
    (h : ∀ p ∈ List.range n, ∃ u, f p = .ok u ∧ Q p u) :
    ∃ us, (List.range n).mapM f = .ok us ∧ us.length = n ∧ ∀ k, ∀ hk : k < us.length, Q k us[k] := by
  choose! g hg using h
  refine ⟨(List.range n).map g, ?_, by simp, ?_⟩
  · rw [mapM_ok_iff, List.forall₂_map_right_iff, List.forall₂_same]
    exact fun p hp => (hg p hp).1
  · intro k hk
    simp only [List.length_map, List.length_range] at hk
    simp only [List.getElem_map, List.getElem_range]
    exact (hg k (by simpa using hk)).2

/-- Rows for finished terms of term `i` at site `p`. -/
def oRow (w i p : ℕ) : ℕ := if w ≤ p ∧ i + w = p + 1 then 1 else 0

/-- Columns for terms which have not begun of term `i` at site `p`. -/
def oCol (n i p : ℕ) : ℕ := if p + 1 < n ∧ i = p then 1 else 0

theorem startsites_mem {n w p i : ℕ} (_ : 0 < w) : i ∈ startsites n w p ↔ i < n ∧ i ≤ p ∧ p < i + w := by
  unfold startsites
  rw [List.mem_range'_1]
  omega

theorem ltenAt_ok [Zero R] (h : OK mpas w e P) {i p : ℕ} (hi : i < mpas.length) (hp : i ≤ p)
    (hp' : p < i + w) : ltenAt mpas i (p - i) = .ok (t mpas i p) := by
  obtain ⟨hk, e1⟩ := t_eq h hi hp hp'
  have hT : T mpas i = mpas[i].lt := by simp [T, hi]
  unfold ltenAt
  rw [List.getElem?_eq_getElem hi]
  simp only
  rw [← hT, List.getElem?_eq_getElem hk, e1]

/-- The local tensors which are handed to `block_diag`. -/
theorem site_hs [CommSemiring R] (h : OK mpas w e P) {p : ℕ} (hp : p + 1 < mpas.length + w) :
    ∃ hs, localSumSite mpas e.addBonds w p = blockDiag hs [0, -1] ∧
      List.Forall₂ (fun i u => HOK e (t mpas i p) u (P p) (oRow w i p) (oCol mpas.length i p))
        (startsites mpas.length w p) hs := by
  have hw := h.hw
  have hmem : ∀ i ∈ startsites mpas.length w p, i < mpas.length ∧ i ≤ p ∧ p < i + w :=
    fun i hi => (startsites_mem hw).1 hi
  have h0 : (startsites mpas.length w p).mapM (fun i => ltenAt mpas i (p - i))
      = .ok ((startsites mpas.length w p).map fun i => t mpas i p) := by
    rw [mapM_ok_iff, List.forall₂_map_right_iff, List.forall₂_same]
    intro i hi
    obtain ⟨h1, h2, h3⟩ := hmem i hi
    exact ltenAt_ok h h1 h2 h3
  -- rows
  have h1 : ∃ hs1, (if w ≤ p then embedHead e.addBonds ((startsites mpas.length w p).map fun i => t mpas i p)
        else .ok ((startsites mpas.length w p).map fun i => t mpas i p)) = .ok hs1 ∧
      List.Forall₂ (fun i u => HOK e (t mpas i p) u (P p) (oRow w i p) 0)
        (startsites mpas.length w p) hs1 := by
    by_cases hwp : w ≤ p
    · rw [if_pos hwp]
      have hst : startsites mpas.length w p
          = (p + 1 - w) :: List.range' (p + 1 - w + 1) (min mpas.length (p + 1) - (p + 1 - w) - 1) := by
        unfold startsites
        obtain ⟨m, hm⟩ : ∃ m, min mpas.length (p + 1) - (p + 1 - w) = m + 1 :=
          ⟨min mpas.length (p + 1) - (p + 1 - w) - 1, by omega⟩
        rw [hm, List.range'_succ]; rfl
      have hm0 := hmem (p + 1 - w) (by rw [hst]; simp)
      obtain ⟨c, hc, hc'⟩ := hok_head (e := e) (t_shape h hm0.1 hm0.2.1 hm0.2.2)
        (t_end h hm0.1 (by omega)) (h.emb p hp (Or.inl hwp))
      have hrest : ∀ i ∈ List.range' (p + 1 - w + 1) (min mpas.length (p + 1) - (p + 1 - w) - 1),
          HOK e (t mpas i p) (t mpas i p) (P p) (oRow w i p) 0 := by
        intro i hi
        have hm := hmem i (by rw [hst]; exact List.mem_cons_of_mem _ hi)
        rw [List.mem_range'_1] at hi
        rw [oRow, if_neg (by omega)]
        exact hok_plain (t_shape h hm.1 hm.2.1 hm.2.2)
      rw [hst]
      refine ⟨c :: (List.range' (p + 1 - w + 1) (min mpas.length (p + 1) - (p + 1 - w) - 1)).map
        fun i => t mpas i p, ?_, .cons ?_ ?_⟩
      · simp only [List.map_cons, embedHead]
        rw [hc]; rfl
      · rw [oRow, if_pos (by omega)]; exact hc'
      · rw [List.forall₂_map_right_iff, List.forall₂_same]
        exact hrest
    · rw [if_neg hwp]
      refine ⟨_, rfl, ?_⟩
      rw [List.forall₂_map_right_iff, List.forall₂_same]
      intro i hi
      obtain ⟨h1, h2, h3⟩ := hmem i hi
      rw [oRow, if_neg (by omega)]
      exact hok_plain (t_shape h h1 h2 h3)
  obtain ⟨hs1, e1, hf1⟩ := h1
  -- columns
  have h2 : ∃ hs2, (if p + 1 < mpas.length then
        (do
          let re ← rightEmbed e.addBonds w p hs1.length
          embedLast re hs1)
        else .ok hs1) = .ok hs2 ∧
      List.Forall₂ (fun i u => HOK e (t mpas i p) u (P p) (oRow w i p) (oCol mpas.length i p))
        (startsites mpas.length w p) hs2 := by
    by_cases hpn : p + 1 < mpas.length
    · rw [if_pos hpn]
      have hlen : hs1.length = min mpas.length (p + 1) - (p + 1 - w) := by
        rw [← hf1.length_eq]; simp [startsites]
      obtain ⟨re, r1, r2, r3⟩ := hok_rightEmbed (e := e) (P := P p) (w := w) (p := p) (n := hs1.length)
        (h.emb p hp (Or.inr hpn)) (by intro; omega)
      rw [r1, ok_bind]
      have hst : startsites mpas.length w p = List.range' (p + 1 - w) (p - (p + 1 - w)) ++ [p] := by
        unfold startsites
        have hm : min mpas.length (p + 1) - (p + 1 - w) = (p - (p + 1 - w)) + 1 := by omega
        rw [hm, List.range'_concat]
        congr 2
        omega
      rw [hst] at hf1 ⊢
      obtain ⟨A, B, hA, hB, rfl⟩ := forall₂_split hf1
      cases hB with
      | @cons _ z _ _ hz hB' =>
      cases hB'
      have hm := hmem p (by rw [hst]; simp)
      have ho : oRow w p p = if w = 1 ∧ w ≤ p then 1 else 0 := by
        unfold oRow
        congr 1
        rw [eq_iff_iff]; omega
      have hfst := t_first h hm.1
      obtain ⟨z', hz1, hz2⟩ := hok_last hz (re := re) (by rw [hfst, ho]; exact r2)
        (by rw [hfst, ho]; exact r3)
      refine ⟨A ++ [z'], ?_, List.rel_append ?_ (.cons ?_ .nil)⟩
      · unfold embedLast
        rw [List.getLast?_append, List.getLast?_singleton]
        simp only [Option.some_or]
        rw [hz1, ok_bind, List.dropLast_concat]; rfl
      · refine forall₂_imp_mem hA fun i u hi hu => ?_
        rw [List.mem_range'_1] at hi
        rw [oCol, if_neg (by omega)]; exact hu
      · rw [oCol, if_pos ⟨hpn, rfl⟩]; exact hz2
    · rw [if_neg hpn]
      refine ⟨hs1, rfl, hf1.imp fun i u hu => ?_⟩
      rw [oCol, if_neg (by omega)]; exact hu
  obtain ⟨hs2, e2, hf2⟩ := h2
  refine ⟨hs2, ?_, hf2⟩
  unfold localSumSite
  rw [h0, ok_bind]
  by_cases c1 : w ≤ p <;> by_cases c2 : p + 1 < mpas.length <;>
    simp only [c1, c2, if_true, if_false] at e1 e2 ⊢
  · rw [e1, ok_bind]
    cases h3 : rightEmbed e.addBonds w p hs1.length with
    | error x => rw [h3] at e2; cases e2
    | ok re => rw [h3, ok_bind] at e2; rw [ok_bind, e2, ok_bind]
  · rw [e1, ok_bind]; cases e2; rfl
  · cases e1
    cases h3 : rightEmbed e.addBonds w p
        ((startsites mpas.length w p).map fun i => t mpas i p).length with
    | error x => rw [h3] at e2; cases e2
    | ok re =>
      rw [h3, ok_bind] at e2
      rw [ok_bind, h3, ok_bind, e2, ok_bind]
  · cases e1; cases e2; rfl

/-! ### values -/

theorem hok_bact [CommSemiring R] {e t h : NDArray R} {P q : List ℕ} {o o' : ℕ} (hh : HOK e t h P o o')
    (hq : InB q P) (ho : o ≤ 1) (ho' : o' ≤ 1) {x y : ℕ → R} {fE z : R}
    (h1 : o = 1 → fE = ∑ c ∈ range t.rb, e.get q * y c)
    (h2 : ∀ a < t.lb, x a = (∑ c ∈ range t.rb, t.at3 a q c * y c) + if o' = 1 then e.get q * z else 0) :
    BAct P q h (List.replicate o (1, fun _ => fE) ++ [(t.lb, x)])
      ([(t.rb, y)] ++ List.replicate o' (1, fun _ => z)) := by
  have b1 : bsize (List.replicate o (1, fun _ => fE) ++ [(t.lb, x)]) = o + t.lb := by
    rw [bsize_append]; simp [bsize]
  have b2 : bsize ([(t.rb, y)] ++ List.replicate o' (1, fun _ => z)) = t.rb + o' := by
    rw [bsize_append]; simp [bsize]
  refine ⟨by rw [b1, b2]; exact hh.1, ?_⟩
  rw [b1, b2]
  intro a ha
  rw [Finset.sum_range_add]
  have e1 : ∀ c ∈ range t.rb, h.at3 a q c * pick ([(t.rb, y)] ++ List.replicate o' (1, fun _ => z)) c
      = (if a < o then e.get q else t.at3 (a - o) q c) * y c := by
    intro c hc
    rw [Finset.mem_range] at hc
    rw [hh.2 a ha q hq c (by omega)]
    simp only [List.singleton_append, pick, if_pos hc]
  have e2 : ∀ c ∈ range o', h.at3 a q (t.rb + c) *
        pick ([(t.rb, y)] ++ List.replicate o' (1, fun _ => z)) (t.rb + c)
      = (if a < o then 0 else e.get q) * z := by
    intro c hc
    rw [Finset.mem_range] at hc
    have hc0 : c = 0 := by omega
    have ho1 : o' = 1 := by omega
    subst hc0 ho1
    rw [hh.2 a ha q hq _ (by omega)]
    simp [pick]
  rw [Finset.sum_congr rfl e1, Finset.sum_congr rfl e2]
  by_cases h3 : a < o
  · have ho1 : o = 1 := by omega
    have ha0 : a = 0 := by omega
    subst ho1 ha0
    simp [pick, h1]
  · have e3 : pick (List.replicate o (1, fun _ => fE) ++ [(t.lb, x)]) a = x (a - o) := by
      have : o = 0 ∨ o = 1 := by omega
      rcases this with rfl | rfl
      · simp only [List.replicate_zero, List.nil_append, pick]
        rw [if_pos (by omega)]; rfl
      · simp only [List.replicate_one, List.singleton_append, pick]
        rw [if_neg (by omega), if_pos (by omega)]
    rw [e3, h2 _ (by omega)]
    simp only [if_neg h3, Finset.sum_const, Finset.card_range]
    have : o' = 0 ∨ o' = 1 := by omega
    rcases this with rfl | rfl <;> simp

theorem bact_same [CommSemiring R] {P q : List ℕ} {u : NDArray R} {rows cols cols' : List (ℕ × (ℕ → R))}
    (h : BAct P q u rows cols) (hs : SameBlocks cols cols') : BAct P q u rows cols' := by
  refine ⟨by rw [← hs.bsize]; exact h.1, ?_⟩
  intro a ha
  rw [← h.2 a ha, ← hs.bsize]
  exact Finset.sum_congr rfl fun c _ => by rw [hs.pick]

section vals
variable [CommSemiring R] (mpas : List (MPA R)) (w : ℕ) (e : NDArray R) (idx : List (List ℕ))

/-- The embedding tensor at site `p`. -/
def ev (p : ℕ) : R := e.get (idx.getD p [])

/-- Finished term: the embedding tensor on the remaining sites. -/
def E (p : ℕ) : R := ∏ q ∈ Ico p (mpas.length + w - 1), ev e idx q

/-- Term `i`, which has begun before site `p`. -/
def F (i p a : ℕ) : R := mp ((T mpas i).drop (p - i)) (idx.drop p) a 0 * E mpas w e idx (i + w)

/-- The terms which have not begun before site `p`. -/
def S (p : ℕ) : R := ∑ i ∈ Ico p mpas.length, (∏ q ∈ Ico p i, ev e idx q) * F mpas w e idx i i 0

/-- Terms which have begun before site `p` and are not finished. -/
def started (p : ℕ) : List ℕ := List.range' (p + 1 - w) (min mpas.length p - (p + 1 - w))

/-- The blocks at the bond before site `p`. -/
def blocks (p : ℕ) : List (ℕ × (ℕ → R)) :=
  (if w ≤ p then [(1, fun _ => E mpas w e idx p)] else [])
    ++ (started mpas w p).map (fun i => ((t mpas i p).lb, F mpas w e idx i p))
    ++ (if p < mpas.length then [(1, fun _ => S mpas w e idx p)] else [])

/-- Vector of term `i` before site `p`. -/
def X (p i : ℕ) : ℕ → R := if i = p then fun _ => S mpas w e idx p else F mpas w e idx i p

/-- Blocks before site `p` of term `i`. -/
def rowsOf (p i : ℕ) : List (ℕ × (ℕ → R)) :=
  List.replicate (oRow w i p) (1, fun _ => E mpas w e idx p) ++ [((t mpas i p).lb, X mpas w e idx p i)]

/-- Blocks after site `p` of term `i`. -/
def colsOf (p i : ℕ) : List (ℕ × (ℕ → R)) :=
  [((t mpas i p).rb, F mpas w e idx i (p + 1))]
    ++ List.replicate (oCol mpas.length i p) (1, fun _ => S mpas w e idx (p + 1))

variable {mpas w e idx}

theorem E_step {p : ℕ} (hp : p + 1 < mpas.length + w) :
    E mpas w e idx p = ev e idx p * E mpas w e idx (p + 1) := by
  unfold E
  rw [Finset.prod_eq_prod_Ico_succ_bot (by omega)]

theorem S_step {p : ℕ} (hp : p < mpas.length) :
    S mpas w e idx p = F mpas w e idx p p 0 + ev e idx p * S mpas w e idx (p + 1) := by
  unfold S
  rw [Finset.sum_eq_sum_Ico_succ_bot hp, Finset.mul_sum]
  congr 1
  · simp
  · refine Finset.sum_congr rfl fun i hi => ?_
    rw [Finset.mem_Ico] at hi
    rw [Finset.prod_eq_prod_Ico_succ_bot (by omega), mul_assoc]

theorem F_step (h : OK mpas w e P) {i p : ℕ} (hi : i < mpas.length) (hp : i ≤ p) (hp' : p < i + w)
    (hl : p < idx.length) (a : ℕ) :
    F mpas w e idx i p a
      = ∑ c ∈ range (t mpas i p).rb, (t mpas i p).at3 a (idx.getD p []) c * F mpas w e idx i (p + 1) c := by
  obtain ⟨hk, e1⟩ := t_eq h hi hp hp'
  unfold F
  rw [List.drop_eq_getElem_cons hk, List.drop_eq_getElem_cons hl, mp_cons, Finset.sum_mul, ← e1,
    show p - i + 1 = p + 1 - i by omega]
  refine Finset.sum_congr rfl fun c _ => ?_
  rw [mul_assoc]
  simp [hl]

theorem F_end (h : OK mpas w e P) {i p : ℕ} (hi : i < mpas.length) (hp : i + w = p + 1) :
    F mpas w e idx i (p + 1) 0 = E mpas w e idx (p + 1) := by
  unfold F
  rw [List.drop_eq_nil_of_le (by rw [h.len i hi]; omega), hp]
  simp [mp]

theorem term_bact (h : OK mpas w e P) {i p : ℕ} (hM : p + 1 < mpas.length + w)
    (hi : i ∈ startsites mpas.length w p) (hl : p < idx.length)
    (hq : InB (idx.getD p []) (P p)) {u : NDArray R}
    (hu : HOK e (t mpas i p) u (P p) (oRow w i p) (oCol mpas.length i p)) :
    BAct (P p) (idx.getD p []) u (rowsOf mpas w e idx p i) (colsOf mpas w e idx p i) := by
  obtain ⟨m1, m2, m3⟩ := (startsites_mem h.hw).1 hi
  refine hok_bact hu hq (by unfold oRow; split <;> omega) (by unfold oCol; split <;> omega) ?_ ?_
  · intro ho
    have h1 : w ≤ p ∧ i + w = p + 1 := by
      by_contra hc
      rw [oRow, if_neg hc] at ho; omega
    rw [t_end h m1 h1.2, Finset.sum_range_one, F_end h m1 h1.2, E_step hM]; rfl
  · intro a ha
    unfold X
    by_cases hip : i = p
    · subst hip
      rw [t_first h m1] at ha
      have ha0 : a = 0 := by omega
      subst ha0
      simp only [if_true]
      rw [S_step m1, F_step h m1 le_rfl m3 hl]
      congr 1
      by_cases hc : i + 1 < mpas.length
      · have ho : oCol mpas.length i i = 1 := if_pos ⟨hc, rfl⟩
        rw [if_pos ho]; rfl
      · have ho : oCol mpas.length i i = 0 := if_neg (by omega)
        rw [ho, if_neg (by omega)]
        unfold S
        rw [Finset.Ico_eq_empty (by omega)]; simp
    · have ho : oCol mpas.length i p = 0 := if_neg (by omega)
      rw [if_neg hip, ho, if_neg (by omega), add_zero]
      exact F_step h m1 m2 m3 hl a

theorem rows_eq (h : OK mpas w e P) {p : ℕ} (hM : p + 1 < mpas.length + w) :
    (startsites mpas.length w p).flatMap (rowsOf mpas w e idx p) = blocks mpas w e idx p := by
  have hw := h.hw
  have e1 : (startsites mpas.length w p).flatMap (rowsOf mpas w e idx p)
      = (if w ≤ p then [(1, fun _ => E mpas w e idx p)] else [])
        ++ (startsites mpas.length w p).map fun i => ((t mpas i p).lb, X mpas w e idx p i) := by
    have key : ∀ l : List ℕ, (∀ i ∈ l, ¬ (w ≤ p ∧ i + w = p + 1)) →
        l.flatMap (rowsOf mpas w e idx p) = l.map fun i => ((t mpas i p).lb, X mpas w e idx p i) := by
      intro l hl
      induction l with
      | nil => rfl
      | cons i l ih =>
        rw [List.flatMap_cons, ih fun j hj => hl j (by simp [hj]), List.map_cons, rowsOf, oRow,
          if_neg (hl i (by simp))]
        rfl
    by_cases hwp : w ≤ p
    · rw [if_pos hwp]
      have hst : startsites mpas.length w p
          = (p + 1 - w) :: List.range' (p + 1 - w + 1) (min mpas.length (p + 1) - (p + 1 - w) - 1) := by
        unfold startsites
        obtain ⟨m, hm⟩ : ∃ m, min mpas.length (p + 1) - (p + 1 - w) = m + 1 :=
          ⟨min mpas.length (p + 1) - (p + 1 - w) - 1, by omega⟩
        rw [hm, List.range'_succ]; rfl
      rw [hst, List.flatMap_cons, key _ (by
        intro i hi
        rw [List.mem_range'_1] at hi
        omega), rowsOf, oRow, if_pos (by omega)]
      rfl
    · rw [if_neg hwp, key _ (by intro i _; omega)]; rfl
  rw [e1]
  unfold blocks
  rw [List.append_assoc]
  congr 1
  have key : ∀ l : List ℕ, (∀ i ∈ l, i ≠ p) →
      (l.map fun i => ((t mpas i p).lb, X mpas w e idx p i))
        = l.map fun i => ((t mpas i p).lb, F mpas w e idx i p) := by
    intro l hl
    refine List.map_congr_left fun i hi => ?_
    rw [X, if_neg (hl i hi)]
  by_cases hpn : p < mpas.length
  · have hst : startsites mpas.length w p = started mpas w p ++ [p] := by
      unfold startsites started
      have hm : min mpas.length (p + 1) - (p + 1 - w) = (p - (p + 1 - w)) + 1 := by omega
      rw [hm, List.range'_concat, show min mpas.length p = p by omega]
      congr 2
      omega
    rw [hst, List.map_append, if_pos hpn, key]
    · simp only [List.map_cons, List.map_nil]
      rw [X, if_pos rfl, t_first h hpn]
    · intro i hi
      unfold started at hi
      rw [List.mem_range'_1] at hi
      omega
  · have hst : startsites mpas.length w p = started mpas w p := by
      unfold startsites started
      congr 1
      omega
    rw [hst, if_neg hpn, List.append_nil, key]
    intro i hi
    unfold started at hi
    rw [List.mem_range'_1] at hi
    omega

theorem cols_eq (h : OK mpas w e P) {p : ℕ} (hM : p + 1 < mpas.length + w) :
    SameBlocks ((startsites mpas.length w p).flatMap (colsOf mpas w e idx p))
      (blocks mpas w e idx (p + 1)) := by
  have hw := h.hw
  have e1 : (startsites mpas.length w p).flatMap (colsOf mpas w e idx p)
      = (startsites mpas.length w p).map (fun i => ((t mpas i p).rb, F mpas w e idx i (p + 1)))
        ++ (if p + 1 < mpas.length then [(1, fun _ => S mpas w e idx (p + 1))] else []) := by
    have key : ∀ l : List ℕ, (∀ i ∈ l, ¬ (p + 1 < mpas.length ∧ i = p)) →
        l.flatMap (colsOf mpas w e idx p)
          = l.map fun i => ((t mpas i p).rb, F mpas w e idx i (p + 1)) := by
      intro l hl
      induction l with
      | nil => rfl
      | cons i l ih =>
        rw [List.flatMap_cons, ih fun j hj => hl j (by simp [hj]), List.map_cons, colsOf, oCol,
          if_neg (hl i (by simp))]
        rfl
    by_cases hpn : p + 1 < mpas.length
    · rw [if_pos hpn]
      have hst : startsites mpas.length w p = List.range' (p + 1 - w) (p - (p + 1 - w)) ++ [p] := by
        unfold startsites
        have hm : min mpas.length (p + 1) - (p + 1 - w) = (p - (p + 1 - w)) + 1 := by omega
        rw [hm, List.range'_concat]
        congr 2
        omega
      rw [hst, List.flatMap_append, key _ (by
        intro i hi
        rw [List.mem_range'_1] at hi
        omega)]
      simp only [List.map_append, List.flatMap_cons, List.flatMap_nil, List.map_cons, List.map_nil,
        List.append_nil, colsOf]
      rw [oCol, if_pos ⟨hpn, rfl⟩, List.append_assoc]
      rfl
    · rw [if_neg hpn, key _ (by intro i _; omega), List.append_nil]
  rw [e1]
  unfold blocks
  refine List.rel_append ?_ ?_
  · have key : SameBlocks ((started mpas w (p + 1)).map fun i => ((t mpas i p).rb, F mpas w e idx i (p + 1)))
        ((started mpas w (p + 1)).map fun i => ((t mpas i (p + 1)).lb, F mpas w e idx i (p + 1))) := by
      unfold SameBlocks
      rw [List.forall₂_map_left_iff, List.forall₂_map_right_iff, List.forall₂_same]
      intro i hi
      unfold started at hi
      rw [List.mem_range'_1] at hi
      exact ⟨t_next h (by omega) (by omega) (by omega), fun _ _ => rfl⟩
    by_cases hwp : w ≤ p + 1
    · have hst : startsites mpas.length w p = (p + 1 - w) :: started mpas w (p + 1) := by
        unfold startsites started
        obtain ⟨m, hm⟩ : ∃ m, min mpas.length (p + 1) - (p + 1 - w) = m + 1 :=
          ⟨min mpas.length (p + 1) - (p + 1 - w) - 1, by omega⟩
        rw [hm, List.range'_succ]
        congr 2 <;> omega
      rw [hst, if_pos hwp, List.map_cons, List.singleton_append]
      refine .cons ⟨t_end h (by omega) (by omega), ?_⟩ key
      intro a ha
      simp only at ha ⊢
      rw [t_end h (by omega) (by omega)] at ha
      have : a = 0 := by omega
      subst this
      exact F_end h (by omega) (by omega)
    · have hst : startsites mpas.length w p = started mpas w (p + 1) := by
        unfold startsites started
        congr 1 <;> omega
      rw [hst, if_neg hwp, List.nil_append]
      exact key
  · exact List.forall₂_same.2 fun q _ => ⟨rfl, fun _ _ => rfl⟩

theorem bsize_rows {ss : List ℕ} {hs : List (NDArray R)} {p : ℕ} {P : ℕ → List ℕ}
    (h : List.Forall₂ (fun i u => HOK e (t mpas i p) u (P p) (oRow w i p) (oCol mpas.length i p)) ss hs) :
    (hs.map NDArray.lb).sum = bsize (ss.flatMap (rowsOf mpas w e idx p)) := by
  induction h with
  | nil => rfl
  | cons h1 _ ih =>
    rw [List.map_cons, List.sum_cons, List.flatMap_cons, bsize_append, ih, NDArray.lb_of_shape h1.1, rowsOf,
      bsize_append]
    simp [bsize]

theorem bsize_cols {ss : List ℕ} {hs : List (NDArray R)} {p : ℕ} {P : ℕ → List ℕ}
    (h : List.Forall₂ (fun i u => HOK e (t mpas i p) u (P p) (oRow w i p) (oCol mpas.length i p)) ss hs) :
    (hs.map NDArray.rb).sum = bsize (ss.flatMap (colsOf mpas w e idx p)) := by
  induction h with
  | nil => rfl
  | cons h1 _ ih =>
    rw [List.map_cons, List.sum_cons, List.flatMap_cons, bsize_append, ih, NDArray.rb_of_shape h1.1, colsOf,
      bsize_append]
    simp [bsize]

omit [CommSemiring R] in
theorem chained_of_shapes {ts : List (NDArray R)} {D : ℕ → ℕ} {P : ℕ → List ℕ}
    (h : ∀ k, ∀ hk : k < ts.length, ts[k].shape = D k :: (P k ++ [D (k + 1)])) :
    Chained (D 0) ts (D ts.length) := by
  induction ts generalizing D P with
  | nil => rfl
  | cons t ts ih =>
    have h0 := h 0 (by simp)
    simp only [List.getElem_cons_zero, Nat.zero_add] at h0
    refine ⟨NDArray.isLocal_of_shape h0, NDArray.lb_of_shape h0, ?_⟩
    rw [NDArray.rb_of_shape h0]
    exact ih (D := fun k => D (k + 1)) (P := fun k => P (k + 1)) fun k hk => by
      have := h (k + 1) (by simpa using hk)
      simpa using this

/-- One site of the automaton. -/
theorem site_ok (h : OK mpas w e P) {p : ℕ} (hp : p + 1 < mpas.length + w) :
    ∃ u, localSumSite mpas e.addBonds w p = .ok u ∧
      u.shape = bsize (blocks mpas w e idx p) :: (P p ++ [bsize (blocks mpas w e idx (p + 1))]) ∧
      ∀ idx : List (List ℕ), p < idx.length → InB (idx.getD p []) (P p) →
        BAct (P p) (idx.getD p []) u (blocks mpas w e idx p) (blocks mpas w e idx (p + 1)) := by
  have hw := h.hw
  obtain ⟨hs, e1, hf⟩ := site_hs h hp
  have hne : hs ≠ [] := by
    intro h0
    subst h0
    have := hf.length_eq
    simp only [startsites, List.length_range', List.length_nil] at this
    have := h.hN
    omega
  obtain ⟨u, u1, u2, u3⟩ := blockDiag_ok (ts := hs) (P := P p) hne (by
    clear e1 hne
    intro v hv
    obtain ⟨i, _, hi⟩ := forall₂_mem_right hf hv
    rw [hi.1, NDArray.lb_of_shape hi.1, NDArray.rb_of_shape hi.1])
  refine ⟨u, by rw [e1, u1], ?_, ?_⟩
  · rw [u2, bsize_rows hf (idx := idx), bsize_cols hf (idx := idx), rows_eq h hp,
      (cols_eq h hp).bsize]
  · intro idx hl hq
    have := bact_blockDiag hq u2 u3
      (rc := (startsites mpas.length w p).map fun i => (rowsOf mpas w e idx p i, colsOf mpas w e idx p i)) (by
        rw [List.forall₂_map_right_iff]
        exact (forall₂_imp_mem hf fun i v hi hv => term_bact h hp hi hl hq hv).flip)
    rw [List.flatMap_map, List.flatMap_map] at this
    have e2 : (startsites mpas.length w p).flatMap (rowsOf mpas w e idx p) = blocks mpas w e idx p :=
      rows_eq h hp
    simp only at this
    rw [e2] at this
    exact bact_same this (cols_eq h hp)

theorem blocks_zero (h : OK mpas w e P) : blocks mpas w e idx 0 = [(1, fun _ => S mpas w e idx 0)] := by
  have := h.hw
  have := h.hN
  unfold blocks started
  rw [if_neg (by omega), if_pos (by omega), show min mpas.length 0 - (0 + 1 - w) = 0 by omega]
  rfl

theorem blocks_end (h : OK mpas w e P) :
    blocks mpas w e idx (mpas.length + w - 1) = [(1, fun _ => 1)] := by
  have := h.hw
  have := h.hN
  unfold blocks started E
  rw [if_pos (by omega), if_neg (by omega),
    show min mpas.length (mpas.length + w - 1) - (mpas.length + w - 1 + 1 - w) = 0 by omega]
  simp

/-- The automaton of `_local_sum_identity`. -/
theorem core (h : OK mpas w e P) :
    ∃ us, (List.range (mpas.length + w - 1)).mapM (localSumSite mpas e.addBonds w) = .ok us ∧
      us.length = mpas.length + w - 1 ∧ Chained 1 us 1 ∧
      (∀ k, ∀ hk : k < us.length, us[k].ph = P k ∧ us[k].lb = bsize (blocks mpas w e [] k)) ∧
      ∀ idx : List (List ℕ), idx.length = us.length → (∀ k < us.length, InB (idx.getD k []) (P k)) →
        entry us idx = S mpas w e idx 0 := by
  have hsite : ∀ p ∈ List.range (mpas.length + w - 1), ∃ u, localSumSite mpas e.addBonds w p = .ok u ∧
      u.shape = bsize (blocks mpas w e [] p) :: (P p ++ [bsize (blocks mpas w e [] (p + 1))]) ∧
      ∀ idx : List (List ℕ), p < idx.length → InB (idx.getD p []) (P p) →
        BAct (P p) (idx.getD p []) u (blocks mpas w e idx p) (blocks mpas w e idx (p + 1)) := by
    intro p hp
    rw [List.mem_range] at hp
    exact site_ok h (by omega)
  have : Nonempty (NDArray R) := ⟨e⟩
  obtain ⟨us, hus, hl, hall⟩ := mapM_range_ok _ hsite
  refine ⟨us, hus, hl, ?_, ?_, ?_⟩
  · have := chained_of_shapes (ts := us) (D := fun p => bsize (blocks mpas w e [] p)) (P := P)
      fun k hk => (hall k hk).1
    rw [hl] at this
    simp only [blocks_zero h, blocks_end h] at this
    simpa [bsize] using this
  · intro k hk
    exact ⟨NDArray.ph_of_shape (hall k hk).1, NDArray.lb_of_shape (hall k hk).1⟩
  · intro idx hil hidx
    unfold entry
    rw [mp_blocks (B := blocks mpas w e idx) (P := P) hil
      (fun k hk => (hall k hk).2 idx (by omega) (hidx k hk)) 0 (by rw [hl]; exact blocks_end h)
      (by rw [blocks_zero h]; simp [bsize]) rfl, blocks_zero h]
    simp [pick]

theorem bsize_blocks_pos (h : OK mpas w e P) (hD : ∀ i < mpas.length, ∀ u ∈ T mpas i, 0 < u.lb) (p : ℕ)
    (hp : p < mpas.length + w - 1) : 0 < bsize (blocks mpas w e idx p) := by
  have hw := h.hw
  have hN := h.hN
  unfold blocks
  rw [bsize_append, bsize_append]
  by_cases h1 : w ≤ p
  · rw [if_pos h1]; simp [bsize]
  by_cases h3 : p < mpas.length
  · rw [if_pos h3]; simp [bsize]
  have h2 : mpas.length - 1 ∈ started mpas w p := by
    unfold started
    rw [List.mem_range'_1]
    omega
  have hpos : 0 < (t mpas (mpas.length - 1) p).lb := by
    obtain ⟨hk, e1⟩ := t_eq h (i := mpas.length - 1) (p := p) (by omega) (by omega) (by omega)
    rw [e1]
    exact hD _ (by omega) _ (List.getElem_mem hk)
  have : (t mpas (mpas.length - 1) p).lb ≤ bsize ((started mpas w p).map (fun i => ((t mpas i p).lb, F mpas w e idx i p))) := by
    have aux : ∀ l : List ℕ, ∀ i ∈ l, (t mpas i p).lb ≤ bsize (l.map (fun i => ((t mpas i p).lb, F mpas w e idx i p))) := by
      intro l
      induction l with
      | nil => simp
      | cons j l ih =>
        intro i hi
        rw [List.map_cons, bsize_cons]
        rcases List.mem_cons.1 hi with rfl | hi
        · exact Nat.le_add_right _ _
        · exact (ih i hi).trans (Nat.le_add_left _ _)
    exact aux _ _ h2
  omega

theorem bsize_blocks_le (h : OK mpas w e P) {D : ℕ}
    (hD : ∀ i < mpas.length, ∀ u ∈ T mpas i, u.lb ≤ D) (p : ℕ) :
    bsize (blocks mpas w e idx p) ≤ (w - 1) * D + 2 := by
  have hw := h.hw
  unfold blocks
  rw [bsize_append, bsize_append]
  have h1 : bsize (if w ≤ p then [(1, fun _ => E mpas w e idx p)] else []) ≤ 1 := by
    split <;> simp [bsize]
  have h3 : bsize (if p < mpas.length then [(1, fun _ => S mpas w e idx p)] else []) ≤ 1 := by
    split <;> simp [bsize]
  have h2 : bsize ((started mpas w p).map (fun i => ((t mpas i p).lb, F mpas w e idx i p)))
      ≤ (started mpas w p).length * D := by
    have hm : ∀ i ∈ started mpas w p, (t mpas i p).lb ≤ D := by
      intro i hi
      unfold started at hi
      rw [List.mem_range'_1] at hi
      obtain ⟨hk, e1⟩ := t_eq h (i := i) (p := p) (by omega) (by omega) (by omega)
      rw [e1]
      exact hD i (by omega) _ (List.getElem_mem hk)
    generalize started mpas w p = l at hm
    induction l with
    | nil => simp [bsize]
    | cons i l ih =>
      rw [List.map_cons, bsize_cons, List.length_cons]
      have := ih fun j hj => hm j (by simp [hj])
      have := hm i (by simp)
      simp only
      rw [Nat.add_mul]
      omega
  have h4 : (started mpas w p).length ≤ w - 1 := by
    unfold started
    rw [List.length_range']
    omega
  have := Nat.mul_le_mul_right D h4
  omega

end vals

end LS

end Mpnum
