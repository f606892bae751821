import Verif.Props.C76

/-! # C76: schedules in which an iterator yields wrong items or corrupts the object

The objects have one entry only, so that moduli can be followed through decompositions of which nothing but the
specification is known. -/

open Finset

namespace Mpnum

variable {𝕜 : Type} [RCLike 𝕜]

/-- A local tensor with `n` legs, all sizes 1, and an entry of modulus `a`. -/
structure One (n : ℕ) (t : NDArray 𝕜) (a : ℝ) : Prop where
  shape : t.shape = 1 :: (List.replicate n 1 ++ [1])
  val : ‖t.at3 0 (List.replicate n 0) 0‖ = a

theorem One.lb {n : ℕ} {t : NDArray 𝕜} {a : ℝ} (h : One n t a) : t.lb = 1 := NDArray.lb_of_shape h.shape
theorem One.rb {n : ℕ} {t : NDArray 𝕜} {a : ℝ} (h : One n t a) : t.rb = 1 := NDArray.rb_of_shape h.shape
theorem One.isLocal {n : ℕ} {t : NDArray 𝕜} {a : ℝ} (h : One n t a) : t.IsLocal := NDArray.isLocal_of_shape h.shape
theorem One.ph {n : ℕ} {t : NDArray 𝕜} {a : ℝ} (h : One n t a) : t.ph = List.replicate n 1 := NDArray.ph_of_shape h.shape

theorem One.lcanon {n : ℕ} {t : NDArray 𝕜} {a : ℝ} (h : One n t a) : LCanon t ↔ a = 1 := by
  have h0 : 0 ≤ a := h.val ▸ norm_nonneg _
  unfold LCanon
  simp only [h.rb, h.lb, h.ph, Nat.lt_one_iff, forall_eq, range_one, sum_singleton, if_true, sumIdx_ones, star_mul_self_eq, h.val]
  constructor
  · intro e
    have : (a ^ 2 : ℝ) = 1 := by exact_mod_cast e
    nlinarith
  · rintro rfl; simp

theorem One.rcanon {n : ℕ} {t : NDArray 𝕜} {a : ℝ} (h : One n t a) : RCanon t ↔ a = 1 := by
  have h0 : 0 ≤ a := h.val ▸ norm_nonneg _
  unfold RCanon
  simp only [h.rb, h.lb, h.ph, Nat.lt_one_iff, forall_eq, range_one, sum_singleton, if_true, sumIdx_ones]
  rw [mul_comm, star_mul_self_eq, h.val]
  constructor
  · intro e
    have : (a ^ 2 : ℝ) = 1 := by exact_mod_cast e
    nlinarith
  · rintro rfl; simp

/-- Local tensors of this kind with the moduli `as`. -/
def Ones (n : ℕ) (ts : List (NDArray 𝕜)) (as : List ℝ) : Prop := List.Forall₂ (One n) ts as

theorem Ones.chained {n : ℕ} {ts : List (NDArray 𝕜)} {as : List ℝ} (h : Ones n ts as) : Chained 1 ts 1 := by
  induction h with
  | nil => rfl
  | cons h _ ih => exact ⟨h.isLocal, h.lb, by rw [h.rb]; exact ih⟩

theorem Ones.phys {n : ℕ} {ts : List (NDArray 𝕜)} {as : List ℝ} (h : Ones n ts as) :
    physShape ts = List.replicate as.length (List.replicate n 1) := by
  induction h with
  | nil => rfl
  | cons h _ ih => rw [physShape, List.map_cons, h.ph]; exact congrArg _ ih

theorem Ones.value {n : ℕ} {ts : List (NDArray 𝕜)} {as : List ℝ} (h : Ones n ts as) :
    ‖entry ts (List.replicate as.length (List.replicate n 0))‖ = as.prod := by
  unfold entry
  induction h with
  | nil => simp [mp]
  | cons h _ ih =>
    simp only [List.length_cons, List.replicate_succ, mp, h.rb, range_one, sum_singleton, norm_mul, h.val, ih, List.prod_cons]

theorem ones_of {n : ℕ} : ∀ {ts : List (NDArray 𝕜)} {m : ℕ}, Chained 1 ts 1 → (∀ t ∈ ts, t.lb = 1) →
    physShape ts = List.replicate m (List.replicate n 1) → ∃ as, Ones n ts as ∧ as.length = m
  | [], m, _, _, hp => ⟨[], .nil, by cases m <;> simp_all [physShape, List.replicate_succ]⟩
  | t :: ts, m, hc, hl, hp => by
    cases m with
    | zero => simp [physShape] at hp
    | succ m =>
      simp only [physShape, List.map_cons, List.replicate_succ, List.cons.injEq] at hp
      have hrb : t.rb = 1 := by
        cases ts with
        | nil => exact hc.2.2
        | cons u us => exact hc.2.2.2.1.symm.trans (hl u (by simp))
      obtain ⟨as, h1, h2⟩ := ones_of (ts := ts) (m := m) (by have := hc.2.2; rwa [hrb] at this)
        (fun u hu => hl u (by simp [hu])) hp.2
      refine ⟨‖t.at3 0 (List.replicate n 0) 0‖ :: as, .cons ⟨?_, rfl⟩ h1, by simp [h2]⟩
      rw [NDArray.shape_local hc.1, hl t (by simp), hp.1, hrb]

theorem Ones.good {n : ℕ} {x : MPA 𝕜} {as : List ℝ} (h : Ones n x.lt as) (hn : as ≠ []) (h0 : 0 ≤ x.l) (h1 : x.l < x.r)
    (h2 : x.r ≤ as.length) (hc : ∀ (i : ℕ) (a : ℝ), as[i]? = some a → (i : ℤ) < x.l ∨ x.r ≤ i → a = 1) : x.Good := by
  have hlen := h.length_eq
  refine ⟨⟨?_, h.chained, h0, h1, by rw [MPA.len, hlen]; exact h2⟩, ?_, ?_⟩
  · intro h0
    rw [h0] at hlen
    exact hn (List.length_eq_zero_iff.1 hlen.symm)
  · intro i t ht
    obtain ⟨hi, rfl⟩ := List.getElem?_eq_some_iff.1 ht
    have hi' : i < as.length := hlen ▸ hi
    have ho : One n x.lt[i] as[i] := List.Forall₂.get h hi hi'
    exact ⟨fun hl => ho.lcanon.2 (hc i _ (List.getElem?_eq_getElem hi') (.inl hl)),
      fun hl => ho.rcanon.2 (hc i _ (List.getElem?_eq_getElem hi') (.inr hl))⟩
  · intro t ht d hd
    obtain ⟨a, _, ha⟩ := forall₂_exists_right h ht
    rw [ha.shape] at hd
    simp only [List.mem_cons, List.mem_append, List.mem_replicate, List.not_mem_nil, or_false] at hd
    omega

theorem Ones.val {n : ℕ} {x : MPA 𝕜} {as : List ℝ} (h : Ones n x.lt as) :
    ‖x.val (List.replicate as.length (List.replicate n 0))‖ = as.prod := h.value

/-- After a step which keeps the tensor, the sites outside `l..r` have modulus 1 and the product is the same. -/
theorem Ones.step {n : ℕ} {x y : MPA 𝕜} {as : List ℝ} (h : Ones n x.lt as) (hxy : MPA.CanonStepSpec x y) :
    ∃ bs, Ones n y.lt bs ∧ bs.length = as.length ∧ bs.prod = as.prod ∧
      ∀ (i : ℕ) (b : ℝ), bs[i]? = some b → (i : ℤ) < y.l ∨ y.r ≤ i → b = 1 := by
  have hlb : ∀ t ∈ y.lt, t.lb = 1 := by
    intro t ht
    obtain ⟨i, hi, rfl⟩ := List.getElem_of_mem ht
    have hlen : y.lt.length = x.lt.length := hxy.len
    have h1 : y.lt[i].lb ≤ x.lt[i].lb := by
      have := List.Forall₂.get hxy.ranks (i := i) (by simpa using hi) (by simpa [← hlen] using hi)
      simpa using this
    obtain ⟨a, _, ha⟩ := forall₂_exists_right h (List.getElem_mem (hlen ▸ hi : i < x.lt.length))
    have h2 := hxy.good.pos.lb (List.getElem_mem hi) (hxy.good.valid.chain.isLocal _ (List.getElem_mem hi))
    have h3 := ha.lb
    omega
  obtain ⟨bs, h1, h2⟩ := ones_of hxy.good.valid.chain hlb (hxy.same.shape.trans h.phys)
  refine ⟨bs, h1, h2, ?_, ?_⟩
  · rw [← h1.val, ← h.val, h2, hxy.same.val]
    rw [show x.shape = _ from h.phys]
    rw [IdxOK, List.forall₂_iff_get]
    refine ⟨by simp, fun i h1 h2 => ?_⟩
    simp [InB, List.forall₂_iff_get]
  · intro i b hb hi
    have hi' := (List.getElem?_eq_some_iff.1 hb).1
    have hiy : i < y.lt.length := h1.length_eq ▸ hi'
    rw [← (List.getElem?_eq_some_iff.1 hb).2]
    have ho : One n y.lt[i] bs[i] := List.Forall₂.get h1 hiy hi'
    have hc := hxy.good.canon i _ (List.getElem?_eq_getElem hiy)
    rcases hi with hi | hi
    · exact ho.lcanon.1 (hc.1 hi)
    · exact ho.rcanon.1 (hc.2 hi)

theorem eq_replicate_one {bs : List ℝ} (h : ∀ b ∈ bs, b = 1) : bs = List.replicate bs.length 1 := List.eq_replicate_iff.2 ⟨rfl, h⟩

/-- If only the site `k` is not canonical, it carries the product. -/
theorem Ones.centre {n : ℕ} {x y : MPA 𝕜} {as : List ℝ} (h : Ones n x.lt as) (hxy : MPA.CanonStepSpec x y) {k : ℕ}
    (hk : k < as.length) (hl : y.l = k) (hr : y.r = k + 1) :
    Ones n y.lt (List.replicate k 1 ++ as.prod :: List.replicate (as.length - k - 1) 1) := by
  obtain ⟨bs, h1, h2, h3, h4⟩ := h.step hxy
  have e1 : bs.take k = List.replicate k 1 := by
    refine List.eq_replicate_iff.2 ⟨by simp; omega, fun b hb => ?_⟩
    obtain ⟨i, hi, rfl⟩ := List.getElem_of_mem hb
    simp only [List.length_take] at hi
    exact h4 i _ (by rw [List.getElem_take, List.getElem?_eq_getElem]) (.inl (by omega))
  have e2 : bs.drop (k + 1) = List.replicate (as.length - k - 1) 1 := by
    refine List.eq_replicate_iff.2 ⟨by simp; omega, fun b hb => ?_⟩
    obtain ⟨i, hi, rfl⟩ := List.getElem_of_mem hb
    simp only [List.length_drop] at hi
    exact h4 (k + 1 + i) _ (by rw [List.getElem_drop, List.getElem?_eq_getElem]) (.inr (by push_cast; omega))
  have e3 : bs = List.replicate k 1 ++ bs[k] :: List.replicate (as.length - k - 1) 1 := by
    rw [← e1, ← e2, ← List.drop_eq_getElem_cons, List.take_append_drop]
  have e4 : bs[k] = as.prod := by
    rw [← h3]
    conv_rhs => rw [e3]
    simp
  rw [← e4, ← e3]
  exact h1

/-! ### `singularvals` -/

/-- The iterator is suspended after an item `[c]` at the bond right of `site`. -/
def SvHeld (g : Gen 𝕜) (site : ℕ) (c : ℝ) : Prop :=
  ∃ lt U V, g = .sv 1 site lt U [c] V 1 ∧ lt.shape = [1, 1, 1] ∧ U.shape = [1, 1] ∧ V.shape = [1, 1] ∧
    ‖U.get [0, 0]‖ = 1 ∧ ‖V.get [0, 0]‖ = 1 ∧ 0 ≤ c

theorem norm_one_of_star {z : 𝕜} (h : star z * z = 1) : ‖z‖ = 1 := by
  rw [star_mul_self_eq] at h
  have h1 : (‖z‖ ^ 2 : ℝ) = 1 := by exact_mod_cast h
  nlinarith [norm_nonneg z]

theorem sv_yield {svd : SVD 𝕜} (h : SVDSpec svd) {y : MPA 𝕜} {p q : List ℝ} {a : ℝ} (hy : Ones 1 y.lt (p ++ a :: q)) :
    ∃ g, svYield svd 1 p.length y = .ok (.svs [a], g) ∧ SvHeld g p.length a := by
  obtain ⟨pre, rest, e0, hpre, hrest⟩ : ∃ pre rest, y.lt = pre ++ rest ∧ pre.length = p.length ∧ List.Forall₂ (One 1) rest (a :: q) := by
    refine ⟨y.lt.take p.length, y.lt.drop p.length, by simp, by have := hy.length_eq; simp at this ⊢; omega, ?_⟩
    have := List.forall₂_drop p.length hy
    simpa using this
  cases hrest with
  | @cons t _ post _ ht hpost =>
  obtain ⟨mat, e1, e2, e3⟩ := lmat_ok ht.isLocal (by rw [ht.rb]; exact one_pos)
  have hm : mat.shape = [1, 1] := by rw [e2, ht.lb, ht.ph, ht.rb]; rfl
  have hmv : ‖mat.get [0, 0]‖ = a := by
    have := e3 [0, 0] 0 (by rw [ht.lb, ht.ph]; simp [InB]) (by rw [ht.rb]; exact one_pos)
    rw [ht.lb, ht.ph] at this
    rw [show ravelIdx (1 :: List.replicate 1 1) [0, 0] = 0 from rfl] at this
    rw [this]
    exact ht.val
  obtain ⟨s1, s2, s3, s4, s5, s6, s7, s8⟩ := h mat 1 1 hm
  obtain ⟨σ, hσ⟩ : ∃ σ, (svd mat).2.1 = [σ] := List.length_eq_one_iff.1 (by simpa using s2)
  have hU : ‖(svd mat).1.get [0, 0]‖ = 1 := norm_one_of_star (by simpa using s6 0 one_pos 0 one_pos)
  have hV : ‖(svd mat).2.2.get [0, 0]‖ = 1 := norm_one_of_star (by rw [mul_comm]; simpa using s7 0 one_pos 0 one_pos)
  have hσ0 : 0 ≤ σ := s5 σ (by simp [hσ])
  have hσa : σ = a := by
    have := s8 0 one_pos 0 one_pos
    simp only [min_self, range_one, sum_singleton, hσ, List.getD_cons_zero] at this
    rw [← hmv, this, norm_mul, norm_mul, hU, hV]
    simp [abs_of_nonneg hσ0]
  subst hσa
  have hf : truncatedSvd svd mat 1 = ((svd mat).1.cols 1, [σ], (svd mat).2.2.rows 1) := by
    simp [truncatedSvd, hσ]
  refine ⟨.sv 1 p.length t ((svd mat).1.cols 1) [σ] ((svd mat).2.2.rows 1) 1, ?_, t, _, _, rfl, ht.shape, ?_, ?_, ?_, ?_, hσ0⟩
  · unfold svYield MPA.svdSiteR
    have hs : y.site (p.length : ℤ) = .ok t := by rw [← hpre]; exact MPA.site_ok e0
    rw [hs, ok_bind, e1, ok_bind]
    simp only [svdPickR, Nat.cast_one, Int.toNat_one, hf]
    rfl
  · simp [NDArray.cols, s1]
  · simp [NDArray.rows, s3]
  · simpa [NDArray.cols] using hU
  · simpa [NDArray.rows] using hV

theorem sv_first {qr : QR 𝕜} (hqr : QRSpec qr) {svd : SVD 𝕜} (h : SVDSpec svd) {x : MPA 𝕜} (hx : x.Good) {as : List ℝ}
    (ha : Ones 1 x.lt as) (hlen : 2 ≤ as.length) :
    ∃ g y, Gen.next qr svd x .svNew = .ok (.svs [as.prod], g, y) ∧ SvHeld g 0 as.prod ∧ y.Good ∧
      Ones 1 y.lt (as.prod :: List.replicate (as.length - 1) 1) ∧ y.l = 0 ∧ y.r = 1 := by
  have hxl : x.len = as.length := ha.length_eq
  obtain ⟨y, a1, a2, a3⟩ := MPA.canon_right hqr hx true
  simp only [if_true] at a1
  have hyl := a2.good.valid.l_nonneg
  have hyr := a2.good.valid.l_lt_r
  have hyr' := a3 rfl
  have e1 : y.l = 0 := by omega
  have e2 : y.r = 1 := by omega
  have hy := ha.centre a2 (k := 0) (by omega) (by simpa using e1) (by simpa using e2)
  simp only [List.replicate_zero, List.nil_append, Nat.sub_zero] at hy
  obtain ⟨g, g1, g2⟩ := sv_yield h (p := []) hy
  have hmax : y.maxRank = .ok 1 := by
    obtain ⟨m, m1, m2, m3⟩ := MPA.maxRank_ok a2.good (by rw [a2.len]; omega)
    rw [m1]
    congr 1
    have hr : ∀ r ∈ y.ranks, r = 1 := by
      intro r hr
      obtain ⟨t, ht, rfl⟩ := List.mem_map.1 hr
      obtain ⟨a, _, ha⟩ := forall₂_exists_right hy (List.mem_of_mem_tail ht)
      exact ha.lb
    unfold MPA.maxRank at m1
    cases hrk : y.ranks with
    | nil => rw [hrk] at m1; cases m1
    | cons d ds =>
      rw [hrk] at m1 hr
      obtain rfl := Except.ok.inj m1
      have hd := hr d (by simp)
      subst hd
      have hds : ∀ e ∈ ds, e = 1 := fun e he => hr e (by simp [he])
      clear * - hds
      induction ds with
      | nil => rfl
      | cons e es ih => rw [List.foldl_cons, hds e (by simp)]; exact ih fun e' he' => hds e' (by simp [he'])
  refine ⟨g, y, ?_, g2, a2.good, hy, e1, e2⟩
  simp only [Gen.next]
  rw [if_neg (by omega), a1, ok_bind, hmax, ok_bind, MPA.svdArgs_ok (by simp) (by simp), ok_bind]
  simp only [List.length_nil] at g1
  rw [g1]
  rfl

theorem sv_later {qr : QR 𝕜} {svd : SVD 𝕜} (h : SVDSpec svd) {y : MPA 𝕜} {p q : List ℝ} {a b c : ℝ} {g : Gen 𝕜}
    (hg : SvHeld g p.length c) (hy : Ones 1 y.lt (p ++ a :: b :: q)) (hq : q ≠ []) (hl : (p.length : ℤ) ≤ y.l) :
    ∃ g' z, g.next qr svd y = .ok (.svs [c * b], g', z) ∧ SvHeld g' (p.length + 1) (c * b) ∧
      Ones 1 z.lt (p ++ 1 :: (c * b) :: q) ∧ z.l = p.length + 1 ∧ z.r = max ((p.length : ℤ) + 2) y.r := by
  obtain ⟨lt, U, V, rfl, hlt, hU, hV, hU1, hV1, hc⟩ := hg
  have hlen : y.len = p.length + 2 + q.length := by
    have := hy.length_eq
    simp only [List.length_append, List.length_cons] at this
    show y.lt.length = _
    omega
  have hq' : 0 < q.length := List.length_pos_of_ne_nil hq
  obtain ⟨pre, rest, e0, hpre, hrest, hpp⟩ : ∃ pre rest, y.lt = pre ++ rest ∧ pre.length = p.length ∧
      List.Forall₂ (One 1) rest (a :: b :: q) ∧ List.Forall₂ (One 1) pre p := by
    refine ⟨y.lt.take p.length, y.lt.drop p.length, by simp, by have : y.lt.length = _ := hlen; simp; omega, ?_, ?_⟩
    · simpa using List.forall₂_drop p.length hy
    · simpa using List.forall₂_take p.length hy
  cases hrest with
  | @cons t _ rest' _ ht hrest' =>
  cases hrest' with
  | @cons u _ post _ hu hpost =>
  have hUc : (U.cols 1).shape = [(1 :: [1]).prod, 1] := by simp [NDArray.cols, hU]
  obtain ⟨t', f1, f2, f3⟩ := MPA.lunmat_nat hUc
  obtain ⟨w, w1, w2, w3⟩ := mulB_svCol (sv := [c]) (k := 1) hV le_rfl (by simp)
  obtain ⟨u', g1, g2, g3⟩ := matdot_left (m := w) (u := u) (k := 1) hu.isLocal (by rw [hu.lb]; exact w2)
  have ho1 : One 1 t' 1 := by
    refine ⟨f2, ?_⟩
    have := f3 [0, 0] 0 (by simp [InB]) one_pos
    rw [show t'.at3 0 (List.replicate 1 0) 0 = t'.get ([0, 0] ++ [0]) from rfl, this]
    simpa [NDArray.cols, ravelIdx] using hU1
  have ho2 : One 1 u' (c * b) := by
    refine ⟨by rw [g2, hu.ph, hu.rb], ?_⟩
    rw [g3 0 (List.replicate 1 0) 0 (by rw [hu.ph]; simp), hu.lb]
    simp only [range_one, sum_singleton, w3 0 one_pos 0 one_pos, norm_mul, List.getD_cons_zero, hV1, hu.val]
    simp [abs_of_nonneg hc]
  have hupd := MPA.update_pair_left (x := y) e0 ho1.isLocal ho2.isLocal (ht.lb.trans ho1.lb.symm)
    (ho1.rb.trans ho2.lb.symm) (hu.rb.trans ho2.rb.symm) (by rw [hpre]; exact hl)
  have hz : Ones 1 (pre ++ t' :: u' :: post) (p ++ 1 :: (c * b) :: q) := List.rel_append hpp (.cons ho1 (.cons ho2 hpost))
  obtain ⟨g', y1, y2⟩ := sv_yield h (y := ⟨pre ++ t' :: u' :: post, pre.length + 1, max (pre.length + 2) y.r⟩)
    (p := p ++ [1]) (a := c * b) (q := q) (by simpa using hz)
  rw [List.length_append, List.length_singleton] at y1 y2
  refine ⟨g', ⟨pre ++ t' :: u' :: post, pre.length + 1, max (pre.length + 2) y.r⟩, ?_, y2, hz, by simp [hpre], by simp [hpre]⟩
  simp only [Gen.next]
  rw [if_neg (by omega)]
  have hu : y.svdUpdateR p.length lt U [c] V 1 = .ok ⟨pre ++ t' :: u' :: post, pre.length + 1, max (pre.length + 2) y.r⟩ := by
    unfold MPA.svdUpdateR
    have hsite1 : y.site ((p.length : ℤ) + 1) = .ok u := by
      have := MPA.site_ok (x := y) (pre := pre ++ [t]) (post := post) (t := u) (by simp [e0])
      simpa [hpre] using this
    rw [hlt]
    simp only [List.dropLast, List.map_cons, List.map_nil, Nat.cast_one]
    simp only [List.map_cons, List.map_nil, Nat.cast_one] at f1
    rw [f1, ok_bind, w1, ok_bind, hsite1, ok_bind, g1, ok_bind, ← hpre]
    exact hupd
  rw [hu, ok_bind, y1]
  rfl

/-- An object with the entries `as` at the sites and no claim about canonical form. -/
def flatMPA (legs : ℕ) (as : List 𝕜) : MPA 𝕜 :=
  ⟨as.map fun a => ⟨1 :: (List.replicate legs 1 ++ [1]), fun _ => a⟩, 0, as.length⟩

theorem flatMPA_ones (legs : ℕ) (as : List 𝕜) : Ones legs (flatMPA legs as).lt (as.map fun a => ‖a‖) := by
  unfold flatMPA Ones
  rw [List.forall₂_map_left_iff, List.forall₂_map_right_iff]
  exact List.forall₂_same.2 fun a _ => ⟨rfl, rfl⟩

theorem flatMPA_good (legs : ℕ) {as : List 𝕜} (h : as ≠ []) : (flatMPA legs as).Good := by
  refine (flatMPA_ones legs as).good (by simpa using h) le_rfl ?_ (by simp [flatMPA]) ?_
  · have := List.length_pos_of_ne_nil h
    simp [flatMPA]; omega
  · intro i a hi hh
    have := (List.getElem?_eq_some_iff.1 hi).1
    simp only [List.length_map] at this
    simp only [flatMPA] at hh
    omega

theorem run_next {qr : QR 𝕜} {svd : SVD 𝕜} {x y : MPA 𝕜} {gens : List (Gen 𝕜)} {k : ℕ} {g g' : Gen 𝕜} {i : Item 𝕜} {es : List Ev}
    {w : Shared 𝕜} {os : List (Got 𝕜)} (hg : gens[k]? = some g) (hn : g.next qr svd x = .ok (i, g', y))
    (hr : Shared.run qr svd ⟨y, gens.set k g'⟩ es = .ok (w, os)) :
    Shared.run qr svd ⟨x, gens⟩ (.next k :: es) = .ok (w, ⟨k, x, i⟩ :: os) := by
  simp only [Shared.run, Shared.step, hg, ok_bind, hn]
  simp only [pure, Except.pure, ok_bind, hr]
  rfl

theorem run_norm {qr : QR 𝕜} {svd : SVD 𝕜} {x y : MPA 𝕜} {gens : List (Gen 𝕜)} {v : ℝ} {es : List Ev}
    {w : Shared 𝕜} {os : List (Got 𝕜)} (hn : norm qr x = .ok (v, y))
    (hr : Shared.run qr svd ⟨y, gens⟩ es = .ok (w, os)) :
    Shared.run qr svd ⟨x, gens⟩ (.norm :: es) = .ok (w, os) := by
  simp only [Shared.run, Shared.step, hn, ok_bind]
  simp only [pure, Except.pure, ok_bind, hr]
  rfl

/-- C76, a defect: two `singularvals` iterators over one object, consumed alternately.  The only entry of the tensor
is 2; the second item of the second iterator is 4 instead of 2, and afterwards the entry has modulus 4. -/
theorem C76_singularvals_twice {qr : QR 𝕜} (hqr : QRSpec qr) {svd : SVD 𝕜} (h : SVDSpec svd) :
    (flatMPA 1 [(2 : 𝕜), 1, 1]).Good ∧
    ∃ w o, Shared.run qr svd ⟨flatMPA 1 [(2 : 𝕜), 1, 1], [.svNew, .svNew]⟩ [.next 0, .next 1, .next 0, .next 1] = .ok (w, o) ∧
      o.map Got.item = [.svs [2], .svs [2], .svs [2], .svs [4]] ∧
      ‖(flatMPA 1 [(2 : 𝕜), 1, 1]).val [[0], [0], [0]]‖ = 2 ∧ ‖w.obj.val [[0], [0], [0]]‖ = 4 := by
  have hx := flatMPA_good 1 (as := [(2 : 𝕜), 1, 1]) (by simp)
  have ho := flatMPA_ones 1 [(2 : 𝕜), 1, 1]
  simp only [List.map_cons, List.map_nil, norm_one, RCLike.norm_ofNat] at ho
  refine ⟨hx, ?_⟩
  obtain ⟨g0, y0, a1, a2, a3, a4, a5, a6⟩ := sv_first hqr h hx ho (by simp)
  simp only [List.prod_cons, List.prod_nil, mul_one, List.length_cons, List.length_nil] at a1 a2 a4
  obtain ⟨g1, y1, b1, b2, b3, b4, b5, b6⟩ := sv_first hqr h a3 a4 (by simp)
  simp [List.replicate_succ] at b1 b2 b4
  obtain ⟨g0', y2, c1, c2, c3, c4, c5⟩ := sv_later (qr := qr) h (p := []) (q := [1]) a2 b4 (by simp) (by simp [b5])
  simp only [List.nil_append, mul_one] at c1 c2 c3
  obtain ⟨g1', y3, d1, d2, d3, d4, d5⟩ := sv_later (qr := qr) h (p := []) (q := [1]) b2 c3 (by simp) (by simp [c4])
  have e4 : (2 : ℝ) * 2 = 4 := by norm_num
  rw [e4] at d1 d3
  refine ⟨_, _, run_next rfl a1 (run_next rfl b1 (run_next rfl c1 (run_next rfl d1 rfl))), rfl, ?_, ?_⟩
  · simpa using ho.val
  · simpa using d3.val

/-- C76, a defect: a call of `norm` between two items of `singularvals`.  The only entry of the tensor is 2; after the
next item it has modulus 4. -/
theorem C76_singularvals_norm {qr : QR 𝕜} (hqr : QRSpec qr) {svd : SVD 𝕜} (h : SVDSpec svd) :
    (flatMPA 1 [(2 : 𝕜), 1, 1, 1, 1]).Good ∧
    ∃ w o, Shared.run qr svd ⟨flatMPA 1 [(2 : 𝕜), 1, 1, 1, 1], [.svNew]⟩ [.next 0, .next 0, .next 0, .norm, .next 0] = .ok (w, o) ∧
      ‖(flatMPA 1 [(2 : 𝕜), 1, 1, 1, 1]).val [[0], [0], [0], [0], [0]]‖ = 2 ∧
      ‖w.obj.val [[0], [0], [0], [0], [0]]‖ = 4 := by
  have hx := flatMPA_good 1 (as := [(2 : 𝕜), 1, 1, 1, 1]) (by simp)
  have ho := flatMPA_ones 1 [(2 : 𝕜), 1, 1, 1, 1]
  simp only [List.map_cons, List.map_nil, norm_one, RCLike.norm_ofNat] at ho
  refine ⟨hx, ?_⟩
  obtain ⟨g0, y0, a1, a2, a3, a4, a5, a6⟩ := sv_first hqr h hx ho (by simp)
  simp [List.replicate_succ] at a1 a2 a4
  obtain ⟨g1, y1, b1, b2, b3, b4, b5⟩ := sv_later (qr := qr) h (p := []) (q := [1, 1, 1]) a2 a4 (by simp) (by simp [a5])
  simp only [List.nil_append, mul_one, List.length_nil, Nat.cast_zero, zero_add, a6] at b1 b2 b3 b4 b5
  obtain ⟨g2, y2, c1, c2, c3, c4, c5⟩ := sv_later (qr := qr) h (p := [1]) (q := [1, 1]) b2 b3 (by simp) (by simp [b4])
  simp only [List.singleton_append, mul_one, List.length_singleton, Nat.cast_one, b5] at c1 c2 c3 c4 c5
  have hy2 : y2.Good := by
    refine Ones.good c3 (by simp) (by omega) (by rw [c4, c5]; norm_num) (by rw [c5]; norm_num) ?_
    intro i a hi hh
    rw [c4, c5] at hh
    match i, hi with
    | 0, hi => simpa using hi.symm
    | 1, hi => simpa using hi.symm
    | 2, hi => norm_num at hh
    | 3, hi => simpa using hi.symm
    | 4, hi => simpa using hi.symm
  have hlen : y2.len = 5 := by
    have := c3.length_eq
    simpa [MPA.len] using this
  obtain ⟨v, y3, n1, n2, n3, n4⟩ : ∃ v y3, norm qr y2 = .ok (v, y3) ∧ MPA.CanonStepSpec y2 y3 ∧ y3.l = 4 ∧ y3.r = 5 := by
    obtain ⟨y, h1, h2⟩ := norm_ok hqr hy2
    obtain ⟨y', k1, k2, k3, k4⟩ := MPA.canonicalize_none hqr hy2
    have : y = y' := by
      unfold norm at h1
      rw [k1, ok_bind] at h1
      split at h1
      · obtain ⟨t, _, h1⟩ := bind_ok_inv h1
        exact (Prod.ext_iff.1 (Except.ok.inj h1)).2.symm
      · split at h1
        · obtain ⟨t, _, h1⟩ := bind_ok_inv h1
          exact (Prod.ext_iff.1 (Except.ok.inj h1)).2.symm
        · cases h1
    subst this
    rw [if_neg (by rw [c4, c5, hlen]; norm_num), hlen] at k3
    exact ⟨_, y, h1, h2, by omega, by omega⟩
  have hy3 := Ones.centre c3 n2 (k := 4) (by simp) (by simp [n3]) (by simp [n4])
  simp [List.replicate_succ] at hy3
  obtain ⟨g3, y4, d1, d2, d3, d4, d5⟩ := sv_later (qr := qr) h (p := [1, 1]) (q := [2]) c2 hy3 (by simp) (by simp [n3])
  refine ⟨_, _, run_next rfl a1 (run_next rfl b1 (run_next rfl c1 (run_norm n1 (run_next rfl d1 rfl)))), ?_, ?_⟩
  · simpa using ho.val
  · have := d3.val
    norm_num at this
    simpa [List.replicate_succ] using this

/-! ### `reductions_mpo` -/

/-- A 1×1 matrix with an entry of modulus `a`. -/
def IsNum (m : NDArray 𝕜) (a : ℝ) : Prop := m.shape = [1, 1] ∧ ‖m.get [0, 0]‖ = a

theorem num_mul {m k : NDArray 𝕜} {a b : ℝ} (hm : IsNum m a) (hk : IsNum k b) : ∃ r, matdot m k = .ok r ∧ IsNum r (a * b) := by
  obtain ⟨r, h1, h2, h3⟩ := NDArray.matdot_ok (a := m) (b := k) (sa := [1]) (sb := [1]) (k := 1) hm.1 hk.1
  refine ⟨r, h1, h2, ?_⟩
  have := h3 [0] [0] rfl rfl
  simp only [List.singleton_append, range_one, sum_singleton] at this
  rw [this, norm_mul, hm.2, hk.2]

theorem num_trace {t : NDArray 𝕜} {a : ℝ} (ht : One 2 t a) : ∃ u, t.trace 1 2 = .ok u ∧ IsNum u a := by
  obtain ⟨u, h1, h2, h3⟩ := trace_mat (t := t) (l := 1) (d := 1) (r := 1) ht.shape
  refine ⟨u, h1, h2, ?_⟩
  rw [h3]
  simpa [NDArray.at3] using ht.val

theorem num_init : IsNum (𝕜 := 𝕜) ⟨[1, 1], fun _ => 1⟩ 1 := ⟨rfl, by simp⟩

theorem one_mul_left {m t : NDArray 𝕜} {a b : ℝ} (hm : IsNum m a) (ht : One 2 t b) : ∃ r, matdot m t = .ok r ∧ One 2 r (a * b) := by
  obtain ⟨r, h1, h2, h3⟩ := matdot_left (m := m) (u := t) (k := 1) ht.isLocal (by rw [ht.lb]; exact hm.1)
  refine ⟨r, h1, by rw [h2, ht.ph, ht.rb], ?_⟩
  rw [h3 _ _ _ (by rw [ht.ph]; simp), ht.lb]
  simp [hm.2, ← ht.val]

theorem one_mul_right {m t : NDArray 𝕜} {a b : ℝ} (ht : One 2 t a) (hm : IsNum m b) : ∃ r, matdot t m = .ok r ∧ One 2 r (a * b) := by
  obtain ⟨r, h1, h2, h3⟩ := matdot_right (m := m) (u := t) (k := 1) ht.isLocal (by rw [ht.rb]; exact hm.1)
  refine ⟨r, h1, by rw [h2, ht.ph, ht.lb], ?_⟩
  rw [h3 _ _ _ (by rw [ht.ph]; simp), ht.rb]
  simp [hm.2, ← ht.val]

/-- The item of the window `s..s+1` of an MPO with three sites, from the remainders. -/
theorem mpo_item {x : MPA 𝕜} {w : ℤ × ℤ} {t L R : NDArray 𝕜} {a b c : ℝ} {cl cr cl' cr' : RemCache 𝕜}
    (hs : pySlice x.lt w.1 w.2 = [t]) (ht : One 2 t b) (hl : getRem x true w.1 cl = .ok (L, cl')) (hL : IsNum L a)
    (hr : getRem x false (x.len - w.2) cr = .ok (R, cr')) (hR : IsNum R c) :
    ∃ z, mpoWindow x w (cl, cr) = .ok (z, (cl', cr')) ∧ ‖z.val [[0, 0]]‖ = a * b * c := by
  obtain ⟨u, h1, h2⟩ := one_mul_left hL ht
  obtain ⟨v, h3, h4⟩ := one_mul_right h2 hR
  have hv : Ones 2 [v] [a * b * c] := .cons h4 .nil
  refine ⟨⟨[v], 0, 1⟩, ?_, ?_⟩
  · unfold mpoWindow
    simp only [hs, hl, ok_bind, mapHeadM, h1, hr]
    simp only [pure, Except.pure, ok_bind, mapLastM, h3, mkMPA_ok (ts := [v]) (by simp) hv.chained]
    rfl
  · simpa using hv.value

theorem rem_succ {x : MPA 𝕜} {left : Bool} {n : ℕ} {t r : NDArray 𝕜} {a b : ℝ} {c c' : RemCache 𝕜} (hc : c (n + 1) = none)
    (hr : getRemainder x left n c = .ok (r, c')) (hrn : IsNum r a) (hs : x.site (if left then (n : ℤ) else -((n : ℤ) + 1)) = .ok t)
    (ht : One 2 t b) :
    ∃ r', getRemainder x left (n + 1) c = .ok (r', fun m => if m = n + 1 then some r' else c' m) ∧ IsNum r' (a * b) := by
  obtain ⟨u, h1, h2⟩ := num_trace ht
  unfold getRemainder
  simp only [hc, hr, ok_bind, hs, h1]
  cases left with
  | true =>
    obtain ⟨r', h3, h4⟩ := num_mul hrn h2
    exact ⟨r', by simp only [if_true, h3, ok_bind]; rfl, h4⟩
  | false =>
    obtain ⟨r', h3, h4⟩ := num_mul h2 hrn
    exact ⟨r', by simp only [Bool.false_eq_true, if_false, h3, ok_bind]; rfl, by rwa [mul_comm]⟩

/-- C76, a defect: a call of `norm` between two items of `reductions_mpo`.  The only entry of the operator, and of all its
reductions, is 2; the second item has modulus 1, because the trace over the right part is remembered from before the
call, although the object represents the same operator throughout. -/
theorem C76_mpo_norm {qr : QR 𝕜} (hqr : QRSpec qr) {svd : SVD 𝕜} :
    IsMpo (flatMPA 2 [(2 : 𝕜), 1, 1]) [1, 1, 1] ∧ (flatMPA 2 [(2 : 𝕜), 1, 1]).Good ∧
    ∃ w x₁ z₀ z₁, Shared.run qr svd ⟨flatMPA 2 [(2 : 𝕜), 1, 1], [.mpoNew ⟨some 1, none, none⟩]⟩ [.next 0, .norm, .next 0]
        = .ok (w, [⟨0, flatMPA 2 [(2 : 𝕜), 1, 1], .mpa z₀⟩, ⟨0, x₁, .mpa z₁⟩]) ∧
      (flatMPA 2 [(2 : 𝕜), 1, 1]).Same w.obj ∧
      (∀ s, s < 3 → ‖margOp (fun I J => (flatMPA 2 [(2 : 𝕜), 1, 1]).val (pairs I J)) (List.replicate s 1) (List.replicate (2 - s) 1)
        [0] [0]‖ = 2) ∧
      ‖z₀.val [[0, 0]]‖ = 2 ∧ ‖z₁.val [[0, 0]]‖ = 1 := by
  have hx := flatMPA_good 2 (as := [(2 : 𝕜), 1, 1]) (by simp)
  have ho := flatMPA_ones 2 [(2 : 𝕜), 1, 1]
  simp only [List.map_cons, List.map_nil, norm_one, RCLike.norm_ofNat] at ho
  refine ⟨⟨hx.valid, ho.phys⟩, hx, ?_⟩
  generalize hX : flatMPA 2 [(2 : 𝕜), 1, 1] = x at *
  have hl0 : x.l = 0 := by rw [← hX]; rfl
  have hr0 : x.r = 3 := by rw [← hX]; rfl
  obtain ⟨a, b, c, hlt, ha, hb, hc⟩ : ∃ a b c, x.lt = [a, b, c] ∧ One 2 a 2 ∧ One 2 b 1 ∧ One 2 c 1 := by
    generalize x.lt = l at ho
    cases ho with
    | cons ha ho => cases ho with
      | cons hb ho => cases ho with
        | cons hc ho => cases ho; exact ⟨_, _, _, rfl, ha, hb, hc⟩
  have hlen : x.len = 3 := by simp [MPA.len, hlt]
  -- the first item
  have hi : (RemCache.init : RemCache 𝕜) 0 = some ⟨[1, 1], fun _ => 1⟩ := rfl
  have hl1 : getRem x true 0 RemCache.init = .ok (⟨[1, 1], fun _ => 1⟩, RemCache.init) := rfl
  have hz1 : getRemainder x false 0 RemCache.init = .ok (⟨[1, 1], fun _ => 1⟩, RemCache.init) := rfl
  obtain ⟨R1, k1, k2⟩ := rem_succ (t := c) rfl hz1 num_init (by simp [MPA.site, hlen, hlt, pyIndex]) hc
  obtain ⟨R2, k3, k4⟩ := rem_succ (t := b) rfl k1 k2 (by simp [MPA.site, hlen, hlt, pyIndex]) hb
  obtain ⟨z0, i1, i2⟩ := mpo_item (x := x) (w := (0, 1)) (t := a) (by rw [hlt]; rfl) ha hl1 num_init
    (show getRem x false (x.len - (1 : ℤ)) RemCache.init = .ok (R2, fun m => if m = 2 then some R2 else if m = 1 then some R1 else RemCache.init m) by
      rw [hlen, getRem, if_neg (by norm_num)]; exact k3) k4
  -- `norm`
  obtain ⟨v, y, n1, n2, n3, n4⟩ : ∃ v y, norm qr x = .ok (v, y) ∧ MPA.CanonStepSpec x y ∧ y.l = 2 ∧ y.r = 3 := by
    obtain ⟨y, h1, h2⟩ := norm_ok hqr hx
    obtain ⟨y', k1, k2, k3, k4⟩ := MPA.canonicalize_none hqr hx
    have : y = y' := by
      unfold norm at h1
      rw [k1, ok_bind] at h1
      split at h1
      · obtain ⟨t, _, h1⟩ := bind_ok_inv h1
        exact (Prod.ext_iff.1 (Except.ok.inj h1)).2.symm
      · split at h1
        · obtain ⟨t, _, h1⟩ := bind_ok_inv h1
          exact (Prod.ext_iff.1 (Except.ok.inj h1)).2.symm
        · cases h1
    subst this
    rw [if_neg (by rw [hl0, hr0, hlen]; norm_num), hlen] at k3
    exact ⟨_, y, h1, h2, by omega, by omega⟩
  have hy := ho.centre n2 (k := 2) (by simp) (by simp [n3]) (by simp [n4])
  simp [List.replicate_succ] at hy
  obtain ⟨a', b', c', hlt', ha', hb', hc'⟩ : ∃ a b c, y.lt = [a, b, c] ∧ One 2 a 1 ∧ One 2 b 1 ∧ One 2 c 2 := by
    generalize y.lt = l at hy
    cases hy with
    | cons ha ho => cases ho with
      | cons hb ho => cases ho with
        | cons hc ho => cases ho; exact ⟨_, _, _, rfl, ha, hb, hc⟩
  have hlen' : y.len = 3 := by simp [MPA.len, hlt']
  have hz2 : getRemainder y true 0 RemCache.init = .ok (⟨[1, 1], fun _ => 1⟩, RemCache.init) := rfl
  obtain ⟨L1, m1, m2⟩ := rem_succ (t := a') rfl hz2 num_init (by simp [MPA.site, hlen', hlt', pyIndex]) ha'
  obtain ⟨z1, j1, j2⟩ := mpo_item (x := y) (w := (1, 2)) (t := b') (cr := fun m => if m = 2 then some R2 else if m = 1 then some R1 else RemCache.init m)
    (by rw [hlt']; rfl) hb' (show getRem y true (1 : ℤ) RemCache.init = .ok (L1, fun m => if m = 1 then some L1 else RemCache.init m) by
      rw [getRem, if_neg (by norm_num)]; exact m1) m2 (by rw [hlen']; rfl) k2
  refine ⟨_, y, z0, z1, run_next rfl (i := .mpa z0)
    (g' := .mpo [(1, 2), (2, 3)] (RemCache.init, fun m => if m = 2 then some R2 else if m = 1 then some R1 else RemCache.init m)) (y := x) ?_
    (run_norm n1 (run_next rfl (i := .mpa z1) (y := y) (g' := .mpo [(2, 3)] (fun m => if m = 1 then some L1 else RemCache.init m, fun m => if m = 2 then some R2 else if m = 1 then some R1 else RemCache.init m)) ?_ rfl)), n2.same, ?_, ?_, ?_⟩
  · simp only [Gen.next, hlen, reductionsArgs, Option.getD_none]
    rw [show (pyRange 0 (((3 : ℕ) : ℤ) - 1 + 1) 1).map (fun s => (s, s + 1)) = [(0, 1), (1, 2), (2, 3)] from rfl, ok_bind,
      pyAssert_true, ok_bind]
    · simp only [mpoNext, i1, ok_bind]
      rfl
    · intro s hs
      rw [show x.shape = _ from ho.phys] at hs
      simp at hs
      simp [hs]
  · simp only [List.set_cons_zero, Gen.next, mpoNext, j1, ok_bind]
    rfl
  · intro s hs
    unfold margOp
    simp only [sumIdx_ones]
    have := ho.val
    simp [List.replicate_succ] at this
    match s, hs with
    | 0, _ => simpa [pairs] using this
    | 1, _ => simpa [pairs] using this
    | 2, _ => simpa [pairs] using this
  · rw [i2]; norm_num
  · rw [j2]; norm_num

end Mpnum
