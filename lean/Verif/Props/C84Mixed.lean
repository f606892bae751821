import Verif.Props.C84
import Verif.Props.C74
import Verif.MPArray.RoundingNorm

/-!
# C84 for canonical states with any centre and for all fast implementations

The error of the probabilities of local measurements is, to first order, linear in the number of sites for every state which is canonical
around some site, no matter where this site is and whether the network is contracted from the left or from both ends.
-/

open Finset

namespace Mpnum

theorem exists_left {α β : Type} {P : α → β → Prop} : ∀ {xs : List α} {ys : List β}, List.Forall₂ P xs ys → ∀ y ∈ ys, ∃ x ∈ xs, P x y
  | _, _, .cons (a := a) h t, y, hy => by
    rcases List.mem_cons.1 hy with rfl | hy
    · exact ⟨a, by simp, h⟩
    · obtain ⟨x, h1, h2⟩ := exists_left t y hy
      exact ⟨x, by simp [h1], h2⟩

/-- The Kraus forms of local measurements and the sites of a PMPS. -/
theorem kraus_of {dm r : ℕ} : ∀ {ms ts : List (NDArray ℂ)} {O D A : List ℕ} {l : ℕ}, physShape ms = triples O D D →
    O.length = D.length → D.length = A.length → physShape ts = pairs D A → Chained l ts r → (∀ m ∈ ms, ∃ o d, IsLocalMeasurement m o d) →
    (∀ d ∈ D, d ≤ dm) →
    ∃ ss, List.Forall₂ IsKraus (ms.zip ts) ss ∧ KChained l ss r ∧
      List.Forall₂ (fun t s => (∀ c, LOp c t → s.Op c) ∧ (∀ c, ROp c t → s.ROp c) ∧ s.l = t.lb ∧ s.r = t.rb) ts ss ∧
      ∀ q ∈ ms.zip ts, npNorm q.1 ≤ Real.sqrt dm
  | ms, ts, [], [], [], l, h1, _, _, h2, hc, _, _ => by
    have e1 : ms = [] := by simpa [physShape, triples, pairs] using h1
    have e2 : ts = [] := by simpa [physShape, pairs] using h2
    subst e1 e2
    exact ⟨[], .nil, hc, .nil, by simp⟩
  | [], ts, o :: O, d :: D, k :: A, l, h1, _, _, h2, hc, _, _ => by simp [physShape] at h1
  | m :: ms, [], o :: O, d :: D, k :: A, l, h1, _, _, h2, hc, _, _ => by
    simp [physShape, pairs] at h2
  | m :: ms, t :: ts, o :: O, d :: D, k :: A, l, h1, g1, g2, h2, hc, hM, hD => by
    rw [triples_cons] at h1
    rw [show pairs (d :: D) (k :: A) = [d, k] :: pairs D A from rfl] at h2
    simp only [physShape, List.map_cons, List.cons.injEq] at h1 h2
    obtain ⟨hl, hlb, hc⟩ := hc
    obtain ⟨o', d', hm⟩ := hM m (by simp)
    have e1 : m.ph = [o', d', d'] := by simp [NDArray.ph, hm.shape]
    rw [h1.1] at e1
    simp only [List.cons.injEq, and_true] at e1
    obtain ⟨rfl, rfl, _⟩ := e1
    have hts : t.shape = [l, d, k, t.rb] := by
      rw [NDArray.shape_local hl, h2.1, hlb]
      rfl
    obtain ⟨s, k1, k2, k2', k3, k4⟩ := exists_kraus hm hts
    obtain ⟨ss, f1, f2, f3, f4⟩ := kraus_of h1.2 (by simpa using g1) (by simpa using g2) h2.2 hc
      (fun x hx => hM x (by simp [hx])) (fun x hx => hD x (by simp [hx]))
    refine ⟨s :: ss, .cons k1 f1, ⟨k3, by rw [k4]; exact f2⟩, .cons ⟨k2, k2', k3.trans hlb.symm, k4⟩ f3, ?_⟩
    intro q hq
    rw [List.zip_cons_cons] at hq
    rcases List.mem_cons.1 hq with rfl | hq
    · exact hm.norm_le.trans (Real.sqrt_le_sqrt (by exact_mod_cast hD d (by simp)))
    · exact f4 q hq

theorem rop_norm {t : NDArray ℂ} (ht : t.IsLocal) {c : ℝ} (h : ROp c t) : npNorm t ^ 2 ≤ t.lb * c ^ 2 := by
  have := frob_of_op (I := idxSet t.ph ×ˢ range t.rb) (m := t.lb) (T := fun x a => t.at3 a x.1 x.2) (c := c) fun v => by
    rw [Finset.sum_product]
    have := h v
    simp only [sumIdx_eq_sum] at this
    refine le_trans (le_of_eq ?_) this
    exact sum_congr rfl fun p _ => sum_congr rfl fun b _ => by
      congr 2
      exact sum_congr rfl fun a _ => mul_comm _ _
  rw [npNorm_sq, nsq_local ht]
  simp only [Finset.sum_product, sumIdx_eq_sum] at this ⊢
  refine le_trans (le_of_eq ?_) this
  rw [Finset.sum_comm]
  refine sum_congr rfl fun p _ => Finset.sum_comm

/-- Specification: canonical up to the factor `c` around some place in the chain.  The sites to the left of this place have, as maps from
the right bond, and those to the right have, as maps from the left bond, operator norms of at most `c`. -/
def CanonicalUpTo (c : ℝ) (ts : List (NDArray ℂ)) : Prop :=
  ∃ T₁ T₂, ts = T₁ ++ T₂ ∧ (∀ t ∈ T₁, LOp c t) ∧ (∀ t ∈ T₂, ROp c t)

theorem CanonicalUpTo.take {c : ℝ} {ts : List (NDArray ℂ)} (h : CanonicalUpTo c ts) (n : ℕ) : CanonicalUpTo c (ts.take n) := by
  obtain ⟨T₁, T₂, rfl, h1, h2⟩ := h
  exact ⟨T₁.take n, T₂.take (n - T₁.length), List.take_append, fun t ht => h1 t (List.mem_of_mem_take ht),
    fun t ht => h2 t (List.mem_of_mem_take ht)⟩

theorem CanonicalUpTo.drop {c : ℝ} {ts : List (NDArray ℂ)} (h : CanonicalUpTo c ts) (n : ℕ) : CanonicalUpTo c (ts.drop n) := by
  obtain ⟨T₁, T₂, rfl, h1, h2⟩ := h
  exact ⟨T₁.drop n, T₂.drop (n - T₁.length), List.drop_append, fun t ht => h1 t (List.mem_of_mem_drop ht),
    fun t ht => h2 t (List.mem_of_mem_drop ht)⟩

/-- `u` is `t` with the bonds exchanged. -/
def SwapBonds (t u : NDArray ℂ) : Prop := u.shape = t.rb :: (t.ph ++ [t.lb]) ∧ ∀ a b p, p.length = t.ph.length → u.at3 b p a = t.at3 a p b

theorem SwapBonds.rop {t u : NDArray ℂ} (h : SwapBonds t u) {c : ℝ} (ht : LOp c t) : ROp c u := by
  intro v
  rw [NDArray.ph_of_shape h.1, NDArray.lb_of_shape h.1, NDArray.rb_of_shape h.1, sumIdx_eq_sum, Finset.sum_comm]
  refine le_trans (le_of_eq ?_) (ht v)
  refine sum_congr rfl fun a _ => ?_
  rw [sumIdx_eq_sum]
  refine sum_congr rfl fun p hp => ?_
  congr 2
  exact sum_congr rfl fun b _ => by rw [h.2 a b p (inB_length (mem_idxSet.1 hp)), mul_comm]

theorem SwapBonds.lop {t u : NDArray ℂ} (h : SwapBonds t u) {c : ℝ} (ht : ROp c t) : LOp c u := by
  intro v
  rw [NDArray.ph_of_shape h.1, NDArray.lb_of_shape h.1, NDArray.rb_of_shape h.1]
  simp only [sumIdx_eq_sum]
  rw [Finset.sum_comm]
  have := ht v
  rw [sumIdx_eq_sum] at this
  refine le_trans (le_of_eq ?_) this
  refine sum_congr rfl fun p hp => sum_congr rfl fun b _ => ?_
  congr 2
  exact sum_congr rfl fun a _ => by rw [h.2 a b p (inB_length (mem_idxSet.1 hp)), mul_comm]

theorem SwapBonds.measurement {m u : NDArray ℂ} (h : SwapBonds m u) {o d : ℕ} (hm : IsLocalMeasurement m o d) : IsLocalMeasurement u o d := by
  have e1 : m.lb = 1 := by simp [NDArray.lb, hm.shape]
  have e2 : m.rb = 1 := by simp [NDArray.rb, hm.shape]
  have e3 : m.ph = [o, d, d] := by simp [NDArray.ph, hm.shape]
  have hs := h.1
  rw [e1, e2, e3] at hs
  refine ⟨by simpa using hs, IsMeasurement.congr ?_ hm.meas⟩
  intro Y I J hY hI hJ
  obtain ⟨y, rfl, _⟩ := exInB_one hY
  obtain ⟨i, rfl, _⟩ := exInB_one hI
  obtain ⟨j, rfl, _⟩ := exInB_one hJ
  have := h.2 0 0 [y, i, j] (by rw [e3]; rfl)
  simpa [NDArray.at3] using this

theorem reverse_sites {x y : MPA ℂ} (hx : ∀ t ∈ x.lt, t.IsLocal) (h : x.reverse = .ok y) : List.Forall₂ SwapBonds x.lt.reverse y.lt := by
  unfold MPA.reverse at h
  obtain ⟨ts, h1, h⟩ := bind_ok_inv h
  rw [show y.lt = ts from mkLT_lt h]
  rw [mapM_ok_iff] at h1
  have hl : ∀ t ∈ x.lt.reverse, t.IsLocal := fun t ht => hx t (by simpa using ht)
  clear h
  generalize x.lt.reverse = us at h1 hl ⊢
  induction h1 with
  | nil => exact .nil
  | cons a _ ih =>
    rename_i t u ts us _
    refine .cons ?_ (ih fun t ht => hl t (by simp [ht]))
    obtain ⟨w, w1, w2, w3⟩ := reverseSite_ok (hl t (by simp))
    rw [w1] at a
    cases a
    exact ⟨w2, w3⟩

theorem CanonicalUpTo.reverse {c : ℝ} {ts us : List (NDArray ℂ)} (h : CanonicalUpTo c ts) (hr : List.Forall₂ SwapBonds ts.reverse us) :
    CanonicalUpTo c us := by
  obtain ⟨T₁, T₂, rfl, h1, h2⟩ := h
  rw [List.reverse_append] at hr
  refine ⟨us.take T₂.reverse.length, us.drop T₂.reverse.length, (List.take_append_drop _ _).symm, ?_, ?_⟩
  · intro u hu
    have := List.forall₂_take T₂.reverse.length hr
    rw [List.take_left] at this
    obtain ⟨t, ht, hs⟩ := exists_left this u hu
    exact hs.lop (h2 t (by simpa using ht))
  · intro u hu
    have := List.forall₂_drop T₂.reverse.length hr
    rw [List.drop_left] at this
    obtain ⟨t, ht, hs⟩ := exists_left this u hu
    exact hs.rop (h1 t (by simpa using ht))

/-- The factor by which errors are amplified at most. -/
noncomputable def canonAmp (n R : ℕ) (c : ℝ) : ℝ := R * (c ^ n) ^ 2

/-- The relative error of one site. -/
noncomputable def siteErr (ε : ℝ) (d R : ℕ) (c : ℝ) : ℝ := ((1 + ε) ^ 3 - 1) * (Real.sqrt d * (R * c ^ 2))

theorem partial_mixed {ε : ℝ} (hε : 0 ≤ ε) {td : TDot ℂ} (htd : TdNear ε td) {ms ts : List (NDArray ℂ)} {O D A : List ℕ} {r s : ℕ}
    (h : NetOK ms ts O D A 1 r 1 s) (hM : ∀ m ∈ ms, ∃ o d, IsLocalMeasurement m o d) {c : ℝ} (hc : 1 ≤ c) {R d N : ℕ} (hR : 1 ≤ R)
    (hT : CanonicalUpTo c ts) (hb : ∀ t ∈ ts, t.lb ≤ R ∧ t.rb ≤ R) (hD : ∀ e ∈ D, e ≤ d) (hN : ts.length ≤ N) :
    ∃ e i, (ms.zip ts).foldlM pmfStep ⟨[1, 1, 1, 1], fun _ => 1⟩ = .ok e ∧
      (ms.zip ts).foldlM (pmfStepF td) ⟨[1, 1, 1, 1], fun _ => 1⟩ = .ok i ∧
      Approx ((1 + canonAmp N R c * siteErr ε d R c) ^ ts.length) (canonAmp N R c) e i := by
  obtain ⟨ss, f1, f2, f3, f4⟩ := kraus_of (dm := d) h.shm h.lenO h.lenA.symm h.sht h.cht hM hD
  obtain ⟨T₁, T₂, rfl, h1, h2⟩ := hT
  have hss : ss = ss.take T₁.length ++ ss.drop T₁.length := (List.take_append_drop _ _).symm
  have hlen : ss.length = (T₁ ++ T₂).length := f3.length_eq.symm
  have hκ : 0 ≤ canonAmp N R c := by unfold canonAmp; positivity
  have hamp : KAmp (canonAmp N R c) 1 (ms.zip (T₁ ++ T₂)) ss s := by
    rw [hss] at f1 f2 ⊢
    refine kamp_mixed hR hc rfl f1 f2 (by rw [← hss, hlen]; exact hN) ?_ ?_
    · intro x hx
      have := List.forall₂_take T₁.length f3
      rw [List.take_left] at this
      obtain ⟨t, ht, k1, _, _, k4⟩ := exists_left this x hx
      exact ⟨k1 c (h1 t ht), by rw [k4]; exact (hb t (by simp [ht])).2⟩
    · intro x hx
      have := List.forall₂_drop T₁.length f3
      rw [List.drop_left] at this
      obtain ⟨t, ht, _, k2, k3, _⟩ := exists_left this x hx
      exact ⟨k2 c (h2 t ht), by rw [k3]; exact (hb t (by simp [ht])).1⟩
  have hν : ∀ q ∈ ms.zip (T₁ ++ T₂), npNorm q.1 * npNorm q.2 ^ 2 ≤ Real.sqrt d * (R * c ^ 2) := by
    intro q hq
    have hq2 := (List.of_mem_zip hq).2
    refine mul_le_mul (f4 q hq) ?_ (sq_nonneg _) (Real.sqrt_nonneg _)
    have hloc := h.cht.isLocal q.2 hq2
    rcases List.mem_append.1 hq2 with hq2' | hq2'
    · exact (lop_norm hloc (h1 _ hq2')).trans (mul_le_mul_of_nonneg_right (by exact_mod_cast (hb _ hq2).2) (sq_nonneg _))
    · exact (rop_norm hloc (h2 _ hq2')).trans (mul_le_mul_of_nonneg_right (by exact_mod_cast (hb _ hq2).1) (sq_nonneg _))
  obtain ⟨e, i, g1, g2, g3⟩ := kamp_partial hε htd hκ hamp hν
  refine ⟨e, i, g1, g2, ?_⟩
  have e1 : (ms.zip (T₁ ++ T₂)).length = (T₁ ++ T₂).length := by rw [f1.length_eq, hlen]
  rw [e1] at g3
  exact g3

theorem pmfSymmAt_mixed {ε : ℝ} (hε : 0 ≤ ε) {td : TDot ℂ} (htd : TdNear ε td) {x ψ : MPA ℂ} {O D A : List ℕ} (hx : IsMpPovm x O D)
    (hM : ∀ m ∈ x.lt, ∃ o d, IsLocalMeasurement m o d) (hψ : IsPmps ψ D A) {c : ℝ} (hc : 1 ≤ c) {R d : ℕ} (hR : 1 ≤ R)
    (hT : CanonicalUpTo c ψ.lt) (hb : ∀ t ∈ ψ.lt, t.lb ≤ R ∧ t.rb ≤ R) (hD : ∀ e ∈ D, e ≤ d) {n : ℕ} (hn : n < D.length) {p : NDArray ℂ}
    (h : pmfSymmAt x ψ n = .ok p) :
    ∃ p', pmfSymmAtF td x ψ n = .ok p' ∧
      Approx ((1 + canonAmp x.len R c * siteErr ε d R c) ^ x.len * (1 + ε)) (canonAmp x.len R c ^ 2) p p' := by
  have hnet := netOK_full hx hψ
  obtain ⟨r, s, h1, h2⟩ := netOK_split hnet n
  have hlen : x.len = ψ.len := hx.lenx.trans hψ.lenD.symm
  have hlen' : ψ.lt.length = x.len := hlen.symm
  have hL : ∀ left, mkPovm (x.lt.take n) = .ok left → ∃ e i, pmfLtrPartial left ψ = .ok e ∧ pmfLtrPartialF td left ψ = .ok i ∧
      Approx ((1 + canonAmp x.len R c * siteErr ε d R c) ^ (ψ.lt.take n).length) (canonAmp x.len R c) e i := by
    intro left hl
    have := partial_mixed hε htd h1 (fun m hm => hM m (List.mem_of_mem_take hm)) hc hR (hT.take n)
      (fun t ht => hb t (List.mem_of_mem_take ht)) (fun e he => hD e (List.mem_of_mem_take he)) (N := x.len)
      (by rw [List.length_take, hlen']; omega)
    rw [← zip_take_left] at this
    unfold pmfLtrPartial pmfLtrPartialF
    rwa [mkPovm_lt hl]
  have hRt : ∀ right st right1 st1, mkPovm (x.lt.drop n) = .ok right → right.reverse = .ok right1 → mkMPA (ψ.lt.drop n) = .ok st →
      st.reverse = .ok st1 → ∃ e i, pmfLtrPartial right1 st1 = .ok e ∧ pmfLtrPartialF td right1 st1 = .ok i ∧
      Approx ((1 + canonAmp x.len R c * siteErr ε d R c) ^ (ψ.lt.drop n).length) (canonAmp x.len R c) e i := by
    intro right st right1 st1 k1 k2 k3 k4
    have hlx : x.lt.length = D.length := hx.lenx
    have hlψ : ψ.lt.length = D.length := hψ.lenD
    have ne2 : x.lt.drop n ≠ [] := List.ne_nil_of_length_pos (by rw [List.length_drop]; omega)
    have ne3 : ψ.lt.drop n ≠ [] := List.ne_nil_of_length_pos (by rw [List.length_drop]; omega)
    have e1 : right.lt = x.lt.drop n := mkPovm_lt k1
    have e2 : st.lt = ψ.lt.drop n := mkLT_lt k3
    have s1 := reverse_sites (by rw [e1]; exact h2.chm.isLocal) k2
    have s2 := reverse_sites (by rw [e2]; exact h2.cht.isLocal) k4
    obtain ⟨rl, ra, rb⟩ := right
    obtain ⟨sl, sa, sb⟩ := st
    simp only at e1 e2 s1 s2
    subst e1 e2
    obtain ⟨us, b1, b2, b3, _⟩ := reverse_part ne2 h2.chm ra rb
    obtain ⟨vs, c1, c2, c3, _⟩ := reverse_part ne3 h2.cht sa sb
    rw [b1] at k2
    rw [c1] at k4
    cases k2
    cases k4
    simp only at s1 s2
    have hrevnet : NetOK us vs (O.drop n).reverse (D.drop n).reverse (A.drop n).reverse 1 r 1 s :=
      ⟨b2, c2, by rw [b3, h2.shm, triples_reverse h2.lenO rfl], by rw [c3, h2.sht, pairs_rev h2.lenA.symm],
        by simp [h2.lenO], by simp [h2.lenA]⟩
    have hvl : vs.length = (ψ.lt.drop n).length := by rw [← s2.length_eq, List.length_reverse]
    have := partial_mixed hε htd hrevnet (fun m hm => by
        obtain ⟨t, ht, hs⟩ := exists_left s1 m hm
        obtain ⟨o, e, ho⟩ := hM t (List.mem_of_mem_drop (by simpa using ht))
        exact ⟨o, e, hs.measurement ho⟩) hc hR ((hT.drop n).reverse s2)
      (fun t ht => by
        obtain ⟨u, hu, hs⟩ := exists_left s2 t ht
        have := hb u (List.mem_of_mem_drop (by simpa using hu))
        rw [NDArray.lb_of_shape hs.1, NDArray.rb_of_shape hs.1]
        exact ⟨this.2, this.1⟩)
      (fun e he => hD e (List.mem_of_mem_drop (by simpa using he))) (N := x.len) (by rw [hvl, List.length_drop, hlen']; omega)
    rw [hvl] at this
    exact this
  obtain ⟨p', g1, g2⟩ := pmfSymmAt_approx hε htd h hL hRt
  refine ⟨p', g1, ?_⟩
  rw [← pow_add, ← List.length_append, List.take_append_drop, hlen'] at g2
  rw [sq]
  exact g2

/-- Specification: the bound of the rounding error for `n` sites of dimension at most `d`, bonds of size at most `R` and canonical up to
the factor `c`. -/
noncomputable def pmfMixedErr (ε : ℝ) (n d R : ℕ) (c : ℝ) : ℝ :=
  canonAmp n R c ^ 2 * ((1 + canonAmp n R c * siteErr ε d R c) ^ n * (1 + ε) - 1)

/-- C84: the probabilities of local measurements on a state which is canonical, up to a factor, around any place of the chain, with all
fast implementations. -/
theorem C84_mixed {ε : ℝ} (hε : 0 ≤ ε) {td : TDot ℂ} (htd : TdNear ε td) (slow : MPA ℂ → Py (NDArray ℂ × MPA ℂ))
    (x ψ : MPA ℂ) (O D A : List ℕ) (hx : IsMpPovm x O D) (hO : ∀ o ∈ O, 0 < o) (hM : ∀ m ∈ x.lt, ∃ o d, IsLocalMeasurement m o d)
    (hψ : IsPmps ψ D A) (c : ℝ) (hc : 1 ≤ c) (R d : ℕ) (hT : CanonicalUpTo c ψ.lt) (hb : ∀ t ∈ ψ.lt, t.lb ≤ R ∧ t.rb ≤ R)
    (hD : ∀ e ∈ D, e ≤ d) (mode : PovmMode) (impl : PmfImpl) (hi : (impl = .auto ∧ mode = .mode .pmps) ∨ impl = .ltr ∨ impl = .symm) :
    ∃ a, pmfRawF td slow x ψ mode impl = .ok (a, ψ) ∧ a.shape = nsDims O ∧ bornDist x O D (dm ψ A) a ≤ pmfMixedErr ε x.len d R c := by
  obtain ⟨qr, _⟩ := exists_QRSpec (𝕜 := ℂ)
  obtain ⟨p, h1, h2⟩ := C42_array_pmps_fast qr x ψ O D A hx hO hψ mode impl hi
  have hlen : x.lt.length = ψ.lt.length := hx.lenx.trans hψ.lenD.symm
  have hR : 1 ≤ R := by
    obtain ⟨t, ts, e⟩ := List.exists_cons_of_ne_nil hψ.valid.ne
    have hl := hψ.valid.chain
    rw [e] at hl
    rw [← hl.2.1]
    exact (hb t (by simp [e])).1
  have hR' : (1 : ℝ) ≤ R := by exact_mod_cast hR
  have h3 : (0 : ℝ) ≤ (1 + ε) ^ 3 - 1 := by linarith [one_le_pow₀ (n := 3) (by linarith : 1 ≤ 1 + ε)]
  have hκ : 1 ≤ canonAmp x.len R c := one_le_mul_of_one_le_of_one_le hR' (one_le_pow₀ (one_le_pow₀ hc))
  have hη : 0 ≤ siteErr ε d R c := by unfold siteErr; positivity
  have hgr : 1 ≤ (1 + canonAmp x.len R c * siteErr ε d R c) ^ x.len := one_le_pow₀ (by nlinarith)
  obtain ⟨a, g1, g2, g3⟩ := pmfRaw_transfer (td := td) slow hi (P := fun p p' => p'.shape = p.shape ∧
      arrDist p p' ≤ pmfMixedErr ε x.len d R c) hlen (by
    intro p hp
    obtain ⟨e, i, k1, k2, k3⟩ := partial_mixed hε htd (netOK_full hx hψ) hM hc hR hT hb hD (N := x.len) (le_of_eq hlen.symm)
    unfold pmfLtr at hp
    obtain ⟨q, w1, w2⟩ := bind_ok_inv hp
    obtain ⟨u, w3, w4⟩ := bind_ok_inv w2
    have hq : q = e := by
      unfold pmfLtrPartial at w1
      rw [k1] at w1
      exact (Except.ok.inj w1).symm
    subst hq
    obtain ⟨a, v1, v2⟩ := k3.reshape w4
    refine ⟨a, ?_, v2.shape, v2.dist.trans ?_⟩
    · unfold pmfLtrF pmfLtrPartialF
      rw [k2, ok_bind]
      simp only
      rw [k3.shape, w3, ok_bind, v1]
    · unfold pmfMixedErr
      rw [← hlen]
      rw [show x.lt.length = x.len from rfl]
      set κ := canonAmp x.len R c
      set g := (1 + κ * siteErr ε d R c) ^ x.len
      nlinarith [mul_nonneg (sub_nonneg.2 hκ) (sub_nonneg.2 hgr), mul_nonneg (sq_nonneg κ) (mul_nonneg (le_trans zero_le_one hgr) hε),
        mul_nonneg (mul_nonneg (le_trans zero_le_one hκ) (sub_nonneg.2 hκ)) (sub_nonneg.2 hgr)]) (by
    intro p hp
    unfold pmfSymm at hp
    obtain ⟨u, w1, w2⟩ := bind_ok_inv hp
    have hgt : 1 < x.len := by
      by_contra hng
      unfold pyGuard at w1
      rw [if_neg hng] at w1
      cases w1
    have hcut := symmCut_bounds hx hψ (by rw [← hx.lenx]; exact hgt)
    obtain ⟨p', v1, v2⟩ := pmfSymmAt_mixed hε htd hx hM hψ hc hR hT hb hD hcut.2 w2
    exact ⟨p', by unfold pmfSymmF; rw [w1, ok_bind, v1], v2.shape, v2.dist.trans (le_of_eq (by unfold pmfMixedErr; ring))⟩) h1
  exact ⟨a, g1, g2.trans h2.1, bornDist_le hO h2 g3⟩

/-! ### states canonical around one site -/

theorem lop_of_norm {t : NDArray ℂ} (ht : t.IsLocal) {c : ℝ} (h : npNorm t ≤ c) : LOp c t := by
  intro v
  have h0 := npNorm_nonneg' t
  have hn : (∑ a ∈ range t.lb, sumIdx t.ph fun p => ∑ b ∈ range t.rb, ‖t.at3 a p b‖ ^ 2) ≤ c ^ 2 := by
    rw [← nsq_local ht, ← npNorm_sq]
    exact pow_le_pow_left₀ h0 h 2
  refine le_trans ?_ (mul_le_mul_of_nonneg_right hn (sum_nonneg fun _ _ => sq_nonneg _))
  rw [sum_mul]
  refine sum_le_sum fun a _ => ?_
  rw [sumIdx_eq_sum, sumIdx_eq_sum, sum_mul]
  exact sum_le_sum fun p _ => cauchy_sq _ _ _

theorem rop_of_norm {t : NDArray ℂ} (ht : t.IsLocal) {c : ℝ} (h : npNorm t ≤ c) : ROp c t := by
  intro v
  have h0 := npNorm_nonneg' t
  have hn : (∑ p ∈ idxSet t.ph, ∑ b ∈ range t.rb, ∑ a ∈ range t.lb, ‖t.at3 a p b‖ ^ 2) ≤ c ^ 2 := by
    refine le_trans (le_of_eq ?_) (pow_le_pow_left₀ h0 h 2)
    rw [npNorm_sq, nsq_local ht]
    simp only [sumIdx_eq_sum]
    rw [Finset.sum_comm (s := range t.lb)]
    exact sum_congr rfl fun p _ => Finset.sum_comm
  refine le_trans ?_ (mul_le_mul_of_nonneg_right hn (sum_nonneg fun _ _ => sq_nonneg _))
  rw [sumIdx_eq_sum, sum_mul]
  refine sum_le_sum fun p _ => ?_
  rw [sum_mul]
  refine sum_le_sum fun b _ => (cauchy_sq _ _ _).trans (le_of_eq (mul_comm _ _))

theorem lop_mono {t : NDArray ℂ} {c c' : ℝ} (h0 : 0 ≤ c) (h : c ≤ c') (ht : LOp c t) : LOp c' t := fun v =>
  (ht v).trans (mul_le_mul_of_nonneg_right (pow_le_pow_left₀ h0 h 2) (sum_nonneg fun _ _ => sq_nonneg _))

theorem rop_mono {t : NDArray ℂ} {c c' : ℝ} (h0 : 0 ≤ c) (h : c ≤ c') (ht : ROp c t) : ROp c' t := fun v =>
  (ht v).trans (mul_le_mul_of_nonneg_right (pow_le_pow_left₀ h0 h 2) (sum_nonneg fun _ _ => sq_nonneg _))

/-- A state of norm at most one which is canonical up to `δ` around one site. -/
theorem canonicalUpTo_of {δ : ℝ} (hδ : 0 ≤ δ) (h1 : δ < 1) {ψ : MPA ℂ} (hψ : ψ.NearGood δ) (hr : ψ.r = ψ.l + 1) (hn : ψ.frob ≤ 1) :
    CanonicalUpTo (1 / (1 - δ) ^ ψ.len) ψ.lt := by
  have hl0 := hψ.valid.l_nonneg
  have hrl := hψ.valid.r_le
  obtain ⟨k, hk⟩ : ∃ k : ℕ, (k : ℤ) = ψ.l := ⟨ψ.l.toNat, by omega⟩
  have hlt : k < ψ.lt.length := by
    have : ψ.r ≤ ψ.lt.length := hrl
    omega
  have hlen : 0 < ψ.len := by
    show 0 < ψ.lt.length
    omega
  have hd : 0 < 1 - δ := by linarith
  have hd1 : 1 - δ ≤ 1 := by linarith
  have hpow : ∀ m ≤ ψ.len, 1 / (1 - δ) ^ m ≤ 1 / (1 - δ) ^ ψ.len := fun m hm =>
    one_div_le_one_div_of_le (by positivity) (pow_le_pow_of_le_one hd.le hd1 hm)
  have hc : 1 + δ ≤ 1 / (1 - δ) ^ ψ.len := by
    refine le_trans ?_ (hpow 1 hlen)
    rw [pow_one, le_div_iff₀ hd]
    nlinarith
  have hcen : npNorm ψ.lt[k] ≤ 1 / (1 - δ) ^ ψ.len := by
    have := (hψ.center hδ h1.le hr hk (List.getElem?_eq_getElem hlt)).1.trans hn
    refine le_trans ?_ (hpow (ψ.len - 1) (by omega))
    rwa [le_div_iff₀ (by positivity), mul_comm]
  refine ⟨ψ.lt.take k, ψ.lt.drop k, (List.take_append_drop _ _).symm, ?_, ?_⟩
  · intro t ht
    obtain ⟨n, hn⟩ := List.mem_iff_getElem?.1 ht
    have hn' := (List.getElem?_eq_some_iff.1 hn).1
    rw [List.length_take] at hn'
    rw [List.getElem?_take_of_lt (by omega)] at hn
    exact lop_mono (by linarith) hc ((hψ.canon n t hn).1 (by omega)).1
  · intro t ht
    obtain ⟨n, hn⟩ := List.mem_iff_getElem?.1 ht
    rw [List.getElem?_drop] at hn
    rcases Nat.eq_zero_or_pos n with rfl | hpos
    · rw [add_zero, List.getElem?_eq_getElem hlt] at hn
      obtain rfl := Option.some.inj hn
      exact rop_of_norm (hψ.valid.chain.isLocal _ (List.getElem_mem _)) hcen
    · exact rop_mono (by linarith) hc ((hψ.canon _ t hn).2 (by push_cast; omega)).1

/-- The sites which `mps_to_pmps` makes. -/
theorem mpsToPmps_sites {x y : MPA ℂ} {D : List ℕ} (hx : x.Valid) (hs : x.shape = singles D) (h : mpsToPmps x = .ok y) :
    List.Forall₂ (fun t u => SPull t u (fun p => p.take 1) ∧ ∃ d, t.ph = [d] ∧ u.ph = [d, 1]) x.lt y.lt := by
  have hf : ∀ t ∈ x.lt, ∃ u, t.reshape ((t.shape.take 2 ++ [1, t.shape.getD 2 0]).map fun n : ℕ => (n : ℤ)) = .ok u ∧
      SPull t u (fun p => p.take 1) ∧ ∃ d, t.ph = [d] ∧ u.ph = [d, 1] := by
    intro t ht
    have htl := hx.chain.isLocal t ht
    have hsh := NDArray.shape_local htl
    have hph : ∃ d, t.ph = [d] := by
      have : t.ph ∈ x.shape := List.mem_map.2 ⟨t, ht, rfl⟩
      rw [hs] at this
      obtain ⟨d, _, h⟩ := List.mem_map.1 this
      exact ⟨d, h.symm⟩
    obtain ⟨d, hd⟩ := hph
    rw [hd] at hsh
    have hsh' : t.shape.take 2 ++ [1, t.shape.getD 2 0] = t.lb :: ([d, 1] ++ [t.rb]) := by rw [hsh]; rfl
    rw [hsh']
    refine ⟨_, NDArray.reshape_nat (by rw [hsh]; simp), ⟨?_, ?_, ?_, ?_⟩, d, hd, ?_⟩
    · exact NDArray.isLocal_of_shape (NDArray.reshapeTo_shape _ _)
    · exact NDArray.lb_of_shape (NDArray.reshapeTo_shape _ _)
    · exact NDArray.rb_of_shape (NDArray.reshapeTo_shape _ _)
    · intro a ha b hb p hp
      rw [NDArray.ph_of_shape (NDArray.reshapeTo_shape _ _)] at hp
      unfold NDArray.at3
      rw [NDArray.reshapeTo_local (p := [d]) (q := [d, 1]) hsh (by simp) ha hp hb]
      obtain ⟨i, p', rfl, hi, hp⟩ := inB_cons_split hp
      obtain ⟨j, p', rfl, hj, hp⟩ := inB_cons_split hp
      rw [inB_nil_right] at hp
      subst hp
      obtain rfl : j = 0 := by omega
      simp [hi]
    · exact NDArray.ph_of_shape (NDArray.reshapeTo_shape _ _)
  unfold mpsToPmps at h
  obtain ⟨_, _, h⟩ := bind_ok_inv h
  obtain ⟨ts, h1, h⟩ := bind_ok_inv h
  rw [show y.lt = ts from mkLT_lt h]
  rw [mapM_ok_iff] at h1
  clear h hs hx
  generalize x.lt = us at h1 hf ⊢
  induction h1 with
  | nil => exact .nil
  | cons a _ ih =>
    rename_i t u ts us _
    refine .cons ?_ (ih fun t ht => hf t (by simp [ht]))
    obtain ⟨w, w1, w2⟩ := hf t (by simp)
    rw [w1] at a
    cases a
    exact w2

theorem pull_lop {t u : NDArray ℂ} (h : SPull t u (fun p => p.take 1) ∧ ∃ d, t.ph = [d] ∧ u.ph = [d, 1]) {c : ℝ} (ht : LOp c t) : LOp c u := by
  obtain ⟨h, d, h1, h2⟩ := h
  intro v
  have := ht v
  rw [h.lb, h.rb, h2]
  rw [h1] at this
  refine le_trans (le_of_eq ?_) this
  refine sum_congr rfl fun a ha => ?_
  simp only [sumIdx_cons, sumIdx_nil, sum_range_one]
  refine sum_congr rfl fun i hi => ?_
  congr 2
  refine sum_congr rfl fun b hb => ?_
  rw [h.at3 a (mem_range.1 ha) b (mem_range.1 hb) [i, 0] (by rw [h2]; simpa using hi)]
  rfl

theorem pull_rop {t u : NDArray ℂ} (h : SPull t u (fun p => p.take 1) ∧ ∃ d, t.ph = [d] ∧ u.ph = [d, 1]) {c : ℝ} (ht : ROp c t) : ROp c u := by
  obtain ⟨h, d, h1, h2⟩ := h
  intro v
  have := ht v
  rw [h.lb, h.rb, h2]
  rw [h1] at this
  refine le_trans (le_of_eq ?_) this
  simp only [sumIdx_cons, sumIdx_nil, sum_range_one]
  refine sum_congr rfl fun i hi => sum_congr rfl fun b hb => ?_
  congr 2
  refine sum_congr rfl fun a ha => ?_
  rw [h.at3 a (mem_range.1 ha) b (mem_range.1 hb) [i, 0] (by rw [h2]; simpa using hi)]
  rfl

/-- C84: a state that was brought into canonical form around one site, up to `δ` (see C75), and has at most norm one. -/
theorem C84_canonicalized {ε δ : ℝ} (hε : 0 ≤ ε) (hδ : 0 ≤ δ) (h1 : δ < 1) {td : TDot ℂ} (htd : TdNear ε td)
    (slow : MPA ℂ → Py (NDArray ℂ × MPA ℂ)) (x ψ : MPA ℂ) (O D A : List ℕ) (hx : IsMpPovm x O D) (hO : ∀ o ∈ O, 0 < o)
    (hM : ∀ m ∈ x.lt, ∃ o d, IsLocalMeasurement m o d) (hψ : IsPmps ψ D A) (hg : ψ.NearGood δ) (hr : ψ.r = ψ.l + 1) (hn : ψ.frob ≤ 1)
    (R d : ℕ) (hb : ∀ t ∈ ψ.lt, t.lb ≤ R ∧ t.rb ≤ R) (hD : ∀ e ∈ D, e ≤ d) (mode : PovmMode) (impl : PmfImpl)
    (hi : (impl = .auto ∧ mode = .mode .pmps) ∨ impl = .ltr ∨ impl = .symm) :
    ∃ a, pmfRawF td slow x ψ mode impl = .ok (a, ψ) ∧ a.shape = nsDims O ∧
      bornDist x O D (dm ψ A) a ≤ pmfMixedErr ε x.len d R (1 / (1 - δ) ^ x.len) := by
  have hlen : x.len = ψ.len := hx.lenx.trans hψ.lenD.symm
  have hd : 0 < 1 - δ := by linarith
  rw [hlen]
  have := C84_mixed hε htd slow x ψ O D A hx hO hM hψ (1 / (1 - δ) ^ ψ.len) (by
    rw [le_div_iff₀ (by positivity), one_mul]
    exact pow_le_one₀ hd.le (by linarith)) R d (canonicalUpTo_of hδ h1 hg hr hn) hb hD mode impl hi
  rwa [hlen] at this

/-- C84: the same for a pure state with `mode='mps'`. -/
theorem C84_canonicalized_mps {ε δ : ℝ} (hε : 0 ≤ ε) (hδ : 0 ≤ δ) (h1 : δ < 1) {td : TDot ℂ} (htd : TdNear ε td)
    (slow : MPA ℂ → Py (NDArray ℂ × MPA ℂ)) (x ψ : MPA ℂ) (O D : List ℕ) (hx : IsMpPovm x O D) (hO : ∀ o ∈ O, 0 < o)
    (hM : ∀ m ∈ x.lt, ∃ o d, IsLocalMeasurement m o d) (hs : ψ.shape = singles D) (hg : ψ.NearGood δ) (hr : ψ.r = ψ.l + 1)
    (hn : ψ.frob ≤ 1) (R d : ℕ) (hb : ∀ t ∈ ψ.lt, t.lb ≤ R ∧ t.rb ≤ R) (hD : ∀ e ∈ D, e ≤ d) :
    ∃ a, pmfRawF td slow x ψ (.mode .mps) .auto = .ok (a, ψ) ∧ a.shape = nsDims O ∧
      bornDist x O D (pureDm ψ) a ≤ pmfMixedErr ε x.len d R (1 / (1 - δ) ^ x.len) := by
  obtain ⟨φ, f1, f2, _, f5⟩ := C33_mps_to_pmps ψ D hg.valid hs
  have f4 : ∀ I J, InB I D → InB J D → dm φ (List.replicate D.length 1) I J = pureDm ψ I J := by
    intro I J hI hJ
    unfold dm pureDm
    rw [sumIdx_ones, f5 I hI, f5 J hJ]
  have hl : ψ.len = D.length := by
    have := congrArg List.length hs
    simpa [MPA.shape, MPA.len] using this
  have hlx : x.len = D.length := hx.lenx
  have hlφ : x.len = φ.len := by rw [hlx]; exact f2.lenD.symm
  have hd : 0 < 1 - δ := by linarith
  have hT : CanonicalUpTo (1 / (1 - δ) ^ x.len) φ.lt := by
    have hst := mpsToPmps_sites hg.valid hs f1
    obtain ⟨T₁, T₂, e, k1, k2⟩ := canonicalUpTo_of hδ h1 hg hr hn
    rw [hl, ← hlx] at k1 k2
    rw [e] at hst
    refine ⟨φ.lt.take T₁.length, φ.lt.drop T₁.length, (List.take_append_drop _ _).symm, ?_, ?_⟩
    · intro u hu
      have := List.forall₂_take T₁.length hst
      rw [List.take_left] at this
      obtain ⟨t, ht, hp⟩ := exists_left this u hu
      exact pull_lop hp (k1 t ht)
    · intro u hu
      have := List.forall₂_drop T₁.length hst
      rw [List.drop_left] at this
      obtain ⟨t, ht, hp⟩ := exists_left this u hu
      exact pull_rop hp (k2 t ht)
  obtain ⟨a, g1, g2, g3⟩ := C84_mixed hε htd slow x φ O D _ hx hO hM f2 (1 / (1 - δ) ^ x.len) (by
    rw [le_div_iff₀ (by positivity), one_mul]
    exact pow_le_one₀ hd.le (by linarith)) R d hT (fun u hu => by
      obtain ⟨t, ht, hp⟩ := exists_left (mpsToPmps_sites hg.valid hs f1) u hu
      rw [hp.1.lb, hp.1.rb]
      exact hb t ht) hD (.mode .mps) .symm (.inr (.inr rfl))
  refine ⟨a, ?_, g2, ?_⟩
  · unfold pmfRawF at g1 ⊢
    rw [pyAssert_true hlφ, ok_bind] at g1
    rw [pyAssert_true (by rw [hlx, hl]), ok_bind]
    by_cases h1 : x.len = 1
    · simp [h1, ok_bind, f1] at g1 ⊢
      obtain ⟨q, h6, h7⟩ := bind_ok_inv g1
      rw [h6, ok_bind]
      rw [(Prod.mk.inj (Except.ok.inj h7)).1]
    · simp [h1, ok_bind, f1] at g1 ⊢
      obtain ⟨q, h6, h7⟩ := bind_ok_inv g1
      rw [h6, ok_bind]
      rw [(Prod.mk.inj (Except.ok.inj h7)).1]
  · have e2 : bornDist x O D (dm φ (List.replicate D.length 1)) a = bornDist x O D (pureDm ψ) a := by
      unfold bornDist
      congr 1
      exact sumIdx_congr fun Y _ => by rw [born_congr f4]
    rw [← e2]
    exact g3

/-- C84: the bound for an exactly canonical state is, to first order, linear in the number of sites. -/
theorem C84_first_order {ε : ℝ} (hε : 0 ≤ ε) (n d R : ℕ)
    (hn : n * (R ^ 2 * Real.sqrt d * ((1 + ε) ^ 3 - 1)) + ε ≤ 1) :
    pmfMixedErr ε n d R 1 ≤ 2 * R ^ 2 * (n * (R ^ 2 * Real.sqrt d * ((1 + ε) ^ 3 - 1)) + ε) := by
  unfold pmfMixedErr canonAmp siteErr
  have h0 : 0 ≤ (1 + ε) ^ 3 - 1 := by linarith [one_le_pow₀ (n := 3) (by linarith : 1 ≤ 1 + ε)]
  simp only [one_pow, mul_one]
  rw [show (R : ℝ) * (((1 + ε) ^ 3 - 1) * (Real.sqrt d * R)) = R ^ 2 * Real.sqrt d * ((1 + ε) ^ 3 - 1) by ring]
  set y := (R : ℝ) ^ 2 * Real.sqrt d * ((1 + ε) ^ 3 - 1) with hy
  have hy0 : 0 ≤ y := by positivity
  have e1 : (1 + y) ^ n * (1 + ε) ≤ Real.exp (n * y + ε) := by
    rw [Real.exp_add, Real.exp_nat_mul]
    exact mul_le_mul (pow_le_pow_left₀ (by linarith) (by linarith [Real.add_one_le_exp y]) _) (by linarith [Real.add_one_le_exp ε])
      (by linarith) (by positivity)
  have e2 := Real.abs_exp_sub_one_le (x := n * y + ε) (by rw [abs_of_nonneg (by positivity)]; exact hn)
  rw [abs_of_nonneg (a := (n : ℝ) * y + ε) (by positivity)] at e2
  have e3 : (1 + y) ^ n * (1 + ε) - 1 ≤ 2 * (n * y + ε) := by linarith [le_abs_self (Real.exp (n * y + ε) - 1)]
  calc (R : ℝ) ^ 2 * ((1 + y) ^ n * (1 + ε) - 1) ≤ R ^ 2 * (2 * (n * y + ε)) := mul_le_mul_of_nonneg_left e3 (by positivity)
    _ = _ := by ring

/-- C84: `pmf_as_array` for local measurements on a normalized state in canonical form around any site. -/
theorem C84_pmf_as_array {ε : ℝ} (hε : 0 ≤ ε) {td : TDot ℂ} (htd : TdNear ε td) (slow : MPA ℂ → Py (NDArray ℂ × MPA ℂ))
    (x ψ : MPA ℂ) (O D A : List ℕ) (hx : IsMpPovm x O D) (hO : ∀ o ∈ O, 0 < o) (hM : ∀ m ∈ x.lt, ∃ o d, IsLocalMeasurement m o d)
    (hψ : IsPmps ψ D A) (hg : ψ.Good) (hr : ψ.r = ψ.l + 1) (hs : IsState D (dm ψ A)) (R d : ℕ) (hb : ∀ t ∈ ψ.lt, t.lb ≤ R ∧ t.rb ≤ R)
    (hD : ∀ e ∈ D, e ≤ d) (mode : PovmMode) (impl : PmfImpl) (hi : (impl = .auto ∧ mode = .mode .pmps) ∨ impl = .ltr ∨ impl = .symm)
    (hn : x.len * (R ^ 2 * Real.sqrt d * ((1 + ε) ^ 3 - 1)) + ε ≤ 1) (eps δ : ℝ)
    (hδ : δ = Real.sqrt O.prod * (2 * R ^ 2 * (x.len * (R ^ 2 * Real.sqrt d * ((1 + ε) ^ 3 - 1)) + ε))) (he : δ ≤ eps) (he1 : eps < 1) :
    ∃ p : NDArray ℝ, pmfAsArrayF td slow x ψ mode eps impl = .ok (p, ψ) ∧ p.shape = nsDims O ∧
      (∀ Y, InB Y O → 0 ≤ p.get (squeezeIdx O Y)) ∧ sumIdx p.shape p.get = 1 ∧
      (sumIdx O fun Y => |p.get (squeezeIdx O Y) - (bornRule D (x.elem Y) (dm ψ A)).re|) ≤ 2 * δ := by
  have hfr : ψ.frob ≤ 1 := by
    have h1 := hs.trace
    rw [dm_trace hψ] at h1
    have h2 : ψ.frob ^ 2 = 1 := Complex.ofReal_eq_one.1 h1
    exact (abs_le_of_sq_le_sq' (by rw [h2, one_pow]) zero_le_one).2
  obtain ⟨a, h1, h2, h3⟩ := C84_canonicalized hε (le_refl 0) zero_lt_one htd slow x ψ O D A hx hO hM hψ
    (C75_good (le_refl 0) zero_le_one hg) hr hfr R d hb hD mode impl hi
  rw [show (1 : ℝ) / (1 - 0) ^ x.len = 1 by simp] at h3
  have hmeas : IsMeasurement O D x.elem := local_measurements hx.shape hx.len hM
  subst hδ
  exact (pmfAsArrayF_of hO h1 h2 (h3.trans (C84_first_order hε _ _ _ hn)) hmeas hs.psd).1 hs he he1

/-! ### the hypotheses are met: the GHZ state in canonical form around its last site -/

theorem exGhz_good (n : ℕ) : (⟨exGhzLt n, n + 1, n + 2⟩ : MPA ℂ).Good := by
  have hv := (exGhz_pmps n).valid
  refine ⟨⟨hv.ne, hv.chain, by positivity, by simp, by simp [exGhzLt, MPA.len]; omega⟩, ?_, ?_⟩
  · intro i t ht
    have hi := (List.getElem?_eq_some_iff.1 ht).1
    refine ⟨fun _ => (exGhz_canon n t (List.mem_of_getElem? ht)).1, fun h => ?_⟩
    simp [exGhzLt] at hi h
    omega
  · intro t ht d hd
    simp only [exGhzLt, List.mem_cons, List.mem_append, List.mem_replicate, List.mem_nil_iff, or_false] at ht
    rcases ht with rfl | ⟨_, rfl⟩ | rfl <;> simp at hd <;> omega

theorem exGhz_state (n : ℕ) : IsState (List.replicate (n + 2) 2) (dm ⟨exGhzLt n, n + 1, n + 2⟩ (List.replicate (n + 2) 1)) := by
  have hψ : IsPmps ⟨exGhzLt n, n + 1, n + 2⟩ (List.replicate (n + 2) 2) (List.replicate (n + 2) 1) :=
    ⟨(exGhz_good n).valid, (exGhz_pmps n).len, (exGhz_pmps n).shape⟩
  refine ⟨C42_pmps_psd _ _ _, ?_⟩
  rw [dm_trace hψ]
  obtain ⟨t, hlast⟩ : ∃ t, (exGhzLt n)[n + 1]? = some t := ⟨_, by simp [exGhzLt]; rfl⟩
  have ht := hlast
  simp [exGhzLt] at ht
  have hc := MPA.NearGood.center (le_refl 0) zero_le_one (C75_good (le_refl 0) zero_le_one (exGhz_good n)) (by simp; ring) (c := n + 1)
    (by simp) hlast
  simp only [sub_zero, add_zero, one_pow, one_mul] at hc
  rw [← le_antisymm hc.1 hc.2, npNorm_sq, ← ht]
  have h2 := Real.sq_sqrt (show (0 : ℝ) ≤ 2 by norm_num)
  simp [nsq, sumIdx, Finset.sum_range_succ, div_pow]
  norm_num

/-- `pmf_as_array` accepts the GHZ state of up to 20 sites, whichever of the fast implementations is selected. -/
example (n : ℕ) (hn : n + 2 ≤ 20) (impl : PmfImpl) (hi : impl = .auto ∨ impl = .ltr ∨ impl = .symm) :
    ∃ p : NDArray ℝ, pmfAsArrayF (tdScaled (1 / 10 ^ 15)) (fun _ => .error .value) ⟨exZLt n, 0, n + 2⟩ ⟨exGhzLt n, n + 1, n + 2⟩
        (.mode .pmps) (1 / 10 ^ 8) impl = .ok (p, ⟨exGhzLt n, n + 1, n + 2⟩) ∧
      (sumIdx (List.replicate (n + 2) 2) fun Y => |p.get (squeezeIdx (List.replicate (n + 2) 2) Y) -
        (bornRule (List.replicate (n + 2) 2) ((⟨exZLt n, 0, n + 2⟩ : MPA ℂ).elem Y)
          (dm ⟨exGhzLt n, n + 1, n + 2⟩ (List.replicate (n + 2) 1))).re|) ≤ 2 / 10 ^ 8 := by
  have hlen : (⟨exZLt n, 0, n + 2⟩ : MPA ℂ).len = n + 2 := by simp [MPA.len, exZLt]
  have hn' : (((n + 2 : ℕ)) : ℝ) ≤ 20 := by exact_mod_cast hn
  have h2 : Real.sqrt ((2 : ℕ) : ℝ) ≤ 3 / 2 := Real.sqrt_le_iff.2 ⟨by norm_num, by norm_num⟩
  have h3 : (0 : ℝ) ≤ Real.sqrt ((2 : ℕ) : ℝ) := Real.sqrt_nonneg _
  have h5 : ((1 : ℝ) + 1 / 10 ^ 15) ^ 3 - 1 ≤ 4 / 10 ^ 15 := by norm_num
  have h6 : (0 : ℝ) ≤ (1 + 1 / 10 ^ 15) ^ 3 - 1 := by norm_num
  have h7 : (((⟨exZLt n, 0, n + 2⟩ : MPA ℂ).len : ℕ) : ℝ) * (((2 : ℕ) : ℝ) ^ 2 * Real.sqrt ((2 : ℕ) : ℝ) * ((1 + 1 / 10 ^ 15) ^ 3 - 1)) + 1 / 10 ^ 15
      ≤ 1 / 10 ^ 12 := by
    rw [hlen]
    calc _ ≤ (20 : ℝ) * (((2 : ℕ) : ℝ) ^ 2 * (3 / 2) * (4 / 10 ^ 15)) + 1 / 10 ^ 15 := by gcongr
      _ ≤ _ := by norm_num
  have h8 : Real.sqrt ((List.replicate (n + 2) 2).prod : ℕ) ≤ 1024 := by
    refine Real.sqrt_le_iff.2 ⟨by norm_num, ?_⟩
    rw [List.prod_replicate]
    have : 2 ^ (n + 2) ≤ 2 ^ 20 := Nat.pow_le_pow_right (by norm_num) hn
    calc ((2 ^ (n + 2) : ℕ) : ℝ) ≤ ((2 ^ 20 : ℕ) : ℝ) := by exact_mod_cast this
      _ ≤ _ := by norm_num
  have hδ : Real.sqrt ((List.replicate (n + 2) 2).prod : ℕ) * (2 * ((2 : ℕ) : ℝ) ^ 2 * ((((⟨exZLt n, 0, n + 2⟩ : MPA ℂ).len : ℕ) : ℝ) *
      (((2 : ℕ) : ℝ) ^ 2 * Real.sqrt ((2 : ℕ) : ℝ) * ((1 + 1 / 10 ^ 15) ^ 3 - 1)) + 1 / 10 ^ 15)) ≤ 1 / 10 ^ 8 := by
    calc _ ≤ (1024 : ℝ) * (2 * ((2 : ℕ) : ℝ) ^ 2 * (1 / 10 ^ 12)) := by gcongr
      _ ≤ _ := by norm_num
  have hψ : IsPmps ⟨exGhzLt n, n + 1, n + 2⟩ (List.replicate (n + 2) 2) (List.replicate (n + 2) 1) :=
    ⟨(exGhz_good n).valid, (exGhz_pmps n).len, (exGhz_pmps n).shape⟩
  obtain ⟨p, h, _, _, _, h1⟩ := C84_pmf_as_array (ε := 1 / 10 ^ 15) (by positivity) (tdScaled_near (𝕜 := ℂ) (by positivity))
    (fun _ => .error .value) ⟨exZLt n, 0, n + 2⟩ ⟨exGhzLt n, n + 1, n + 2⟩ _ _ _ (exZ_povm n)
    (fun o ho => by rw [(List.mem_replicate.1 ho).2]; norm_num) (exZ_local n) hψ (exGhz_good n) (by simp; ring) (exGhz_state n) 2 2
    (fun t ht => by
      simp only [exGhzLt, List.mem_cons, List.mem_append, List.mem_replicate, List.mem_nil_iff, or_false] at ht
      rcases ht with rfl | ⟨_, rfl⟩ | rfl <;> simp [NDArray.lb, NDArray.rb])
    (fun e he => by rw [(List.mem_replicate.1 he).2]) (.mode .pmps) impl (by rcases hi with h | h | h <;> simp [h])
    (h7.trans (by norm_num)) (1 / 10 ^ 8) _ rfl hδ (by norm_num)
  exact ⟨p, h, h1.trans (by linarith)⟩

end Mpnum
