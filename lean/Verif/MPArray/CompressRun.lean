import Verif.MPArray.CompressSchmidt

/-! Whole sweeps of SVD compression. -/

open Finset

namespace Mpnum

variable {𝕜 : Type} [RCLike 𝕜]

/-! ### number of kept singular values -/

theorem sum_take_le {s : List ℝ} (h : ∀ a ∈ s, 0 ≤ a) (r : ℕ) : 0 ≤ (s.take r).sum :=
  List.sum_nonneg fun a ha => h a (List.mem_of_mem_take ha)

theorem takeWhile_spec {α : Type} (p : α → Bool) (l : List α) :
    (∀ i, i < (l.takeWhile p).length → ∀ a, l[i]? = some a → p a = true) ∧
    (∀ a, l[(l.takeWhile p).length]? = some a → p a = false) := by
  induction l with
  | nil => simp
  | cons b l ih =>
    by_cases hb : p b = true
    · rw [List.takeWhile_cons_of_pos hb]
      refine ⟨?_, ?_⟩
      · intro i hi a ha
        cases i with
        | zero => simp at ha; rw [← ha]; exact hb
        | succ i => exact ih.1 i (by simpa using hi) a (by simpa using ha)
      · intro a ha
        exact ih.2 a (by simpa using ha)
    · rw [List.takeWhile_cons_of_neg hb]
      refine ⟨by simp, ?_⟩
      intro a ha
      simp at ha; rw [← ha]; simpa using hb

theorem rankRelerr_least {s : List ℝ} (h0 : ∀ a ∈ s, 0 ≤ a) (hne : s ≠ []) {e : ℝ} (he : 0 ≤ e) :
    IsLeast {r : ℕ | 0 < r ∧ (1 - e) * s.sum ≤ (s.take r).sum} (rankRelerr s e) ∧
      rankRelerr s e ≤ s.length := by
  have hlen : 0 < s.length := List.length_pos_iff.2 hne
  have hs0 : 0 ≤ s.sum := List.sum_nonneg h0
  unfold rankRelerr
  split
  · rename_i hz
    refine ⟨⟨⟨one_pos, ?_⟩, fun r hr => hr.1⟩, hlen⟩
    rw [hz, mul_zero]; exact sum_take_le h0 1
  · rename_i hz
    have hpos : 0 < s.sum := lt_of_le_of_ne hs0 (Ne.symm hz)
    obtain ⟨t1, t2⟩ := takeWhile_spec (fun c => decide (c < 1 - e)) (cumFrac s)
    have hcf : ∀ i < s.length, (cumFrac s)[i]? = some ((s.take (i + 1)).sum / s.sum) := by
      intro i hi
      unfold cumFrac
      rw [List.getElem?_map, List.getElem?_range hi]; rfl
    have hN : searchsorted (cumFrac s) (1 - e) = ((cumFrac s).takeWhile fun c => decide (c < 1 - e)).length := rfl
    rw [← hN] at t1 t2
    set N := searchsorted (cumFrac s) (1 - e) with hNd
    have hlt : N < s.length := by
      by_contra hc
      have := t1 (s.length - 1) (by omega) _ (hcf (s.length - 1) (by omega))
      rw [show s.length - 1 + 1 = s.length by omega, List.take_length, div_self hz] at this
      simp only [decide_eq_true_eq] at this
      linarith
    refine ⟨⟨⟨by omega, ?_⟩, ?_⟩, by omega⟩
    · have := t2 _ (hcf N hlt)
      simp only [decide_eq_false_iff_not, not_lt] at this
      rwa [le_div_iff₀ hpos] at this
    · rintro r ⟨hr0, hr⟩
      by_contra hc
      have hrN : r - 1 < N := by omega
      have := t1 (r - 1) hrN _ (hcf (r - 1) (by omega))
      rw [show r - 1 + 1 = r by omega] at this
      simp only [decide_eq_true_eq] at this
      rw [div_lt_iff₀ hpos] at this
      linarith

/-- Relation between the yielded singular values and all singular values. -/
def yieldOf (relerr : Option ℝ) (s : List ℝ) (t : ℕ) : List ℝ :=
  match relerr with
  | none => s.take t
  | some _ => s

theorem pickR_keep {svd : SVD 𝕜} (h : SVDSpec svd) {rank : ℤ} (hr : 0 < rank) {relerr : Option ℝ}
    (he : ∀ e, relerr = some e → 0 ≤ e) {A : NDArray 𝕜} {m n : ℕ} (hA : A.shape = [m, n])
    (hm : 0 < m) (hn : 0 < n) :
    Keep rank relerr (svd A).2.1 (svdPickR svd (truncatedSvd svd) rank relerr n A).2.2.2 ∧
    (svdPickR svd (truncatedSvd svd) rank relerr n A).2.1
      = yieldOf relerr (svd A).2.1 (svdPickR svd (truncatedSvd svd) rank relerr n A).2.2.2 ∧
    (svdPickR svd (truncatedSvd svd) rank relerr n A).1.get = (svd A).1.get ∧
    (svdPickR svd (truncatedSvd svd) rank relerr n A).2.2.1.get = (svd A).2.2.get := by
  obtain ⟨h1, h2, h3, h4, h5, -⟩ := h A m n hA
  cases relerr with
  | none =>
    refine ⟨?_, ?_, rfl, rfl⟩
    · simp only [Keep, svdPickR, truncatedSvd, List.length_take, h2]
      omega
    · simp only [yieldOf, svdPickR, truncatedSvd, List.length_take]
      congr 1; omega
  | some e =>
    have hne : (svd A).2.1 ≠ [] := by
      rw [← List.length_pos_iff, h2]; omega
    obtain ⟨g1, g2⟩ := rankRelerr_least h5 hne (he e rfl)
    rw [h2] at g2
    refine ⟨⟨_, g1, ?_⟩, rfl, rfl, rfl⟩
    have hk : (svdPickR svd (truncatedSvd svd) rank (some e) n A).2.2.2
        = min (min n m) (min rank.toNat (rankRelerr (svd A).2.1 e)) := by simp [svdPickR, h1]
    rw [hk]
    generalize rankRelerr (svd A).2.1 e = q at *
    omega

theorem pickL_keep {svd : SVD 𝕜} (h : SVDSpec svd) {rank : ℤ} (hr : 0 < rank) {relerr : Option ℝ}
    (he : ∀ e, relerr = some e → 0 ≤ e) {A : NDArray 𝕜} {m n : ℕ} (hA : A.shape = [m, n])
    (hm : 0 < m) (hn : 0 < n) :
    Keep rank relerr (svd A).2.1 (svdPickL svd (truncatedSvd svd) rank relerr m A).2.2.2 ∧
    (svdPickL svd (truncatedSvd svd) rank relerr m A).2.1
      = yieldOf relerr (svd A).2.1 (svdPickL svd (truncatedSvd svd) rank relerr m A).2.2.2 ∧
    (svdPickL svd (truncatedSvd svd) rank relerr m A).1.get = (svd A).1.get ∧
    (svdPickL svd (truncatedSvd svd) rank relerr m A).2.2.1.get = (svd A).2.2.get := by
  obtain ⟨h1, h2, h3, h4, h5, -⟩ := h A m n hA
  cases relerr with
  | none =>
    refine ⟨?_, ?_, rfl, rfl⟩
    · simp only [Keep, svdPickL, truncatedSvd, List.length_take, h2]
      omega
    · simp only [yieldOf, svdPickL, truncatedSvd, List.length_take]
      congr 1; omega
  | some e =>
    have hne : (svd A).2.1 ≠ [] := by
      rw [← List.length_pos_iff, h2]; omega
    obtain ⟨g1, g2⟩ := rankRelerr_least h5 hne (he e rfl)
    rw [h2] at g2
    refine ⟨⟨_, g1, ?_⟩, rfl, rfl, rfl⟩
    have hk : (svdPickL svd (truncatedSvd svd) rank (some e) m A).2.2.2
        = min (min m n) (min rank.toNat (rankRelerr (svd A).2.1 e)) := by simp [svdPickL, h3]
    rw [hk]
    generalize rankRelerr (svd A).2.1 e = q at *
    omega

theorem yieldOf_getD {relerr : Option ℝ} {s : List ℝ} {t b : ℕ} (hb : b < t) :
    (yieldOf relerr s t).getD b 0 = s.getD b 0 := by
  cases relerr with
  | none => exact getD_take _ _ _ _ hb
  | some e => rfl

theorem CutSeq.snoc {S : List (List ℕ)} {keep : List ℝ → ℕ → Prop} {ks : List ℕ}
    {f h g : List (List ℕ) → 𝕜} {out : List (List ℝ × ℕ)} (hs : CutSeq S keep ks f h out) {k : ℕ}
    {s : List ℝ} {t : ℕ} (hc : SchmidtCut S k h g s t) (hk : keep s t) :
    CutSeq S keep (ks ++ [k]) f g (out ++ [(s, t)]) := by
  induction hs with
  | nil hh =>
    obtain ⟨W, Z, h1, h2, h3⟩ := hc
    refine .cons ⟨W, Z, ⟨h1.sorted, h1.nonneg, h1.orthW, h1.orthZ, ?_⟩, h2, h3⟩ hk (.nil fun _ _ => rfl)
    intro i j hi hj
    rw [← h1.dec i j hi hj]
    refine (hh _ ?_).symm
    have := idxOK_append hi hj
    rwa [List.take_append_drop] at this
  | cons hc' hk' _ ih => exact .cons hc' hk' (ih hc)

theorem CutSeq.congr_right {S : List (List ℕ)} {keep : List ℝ → ℕ → Prop} {ks : List ℕ}
    {f g g' : List (List ℕ) → 𝕜} {out : List (List ℝ × ℕ)} (hs : CutSeq S keep ks f g out)
    (h : ∀ i, IdxOK i S → g' i = g i) : CutSeq S keep ks f g' out := by
  induction hs with
  | nil hh => exact .nil fun i hi => (h i hi).trans (hh i hi)
  | cons hc hk _ ih => exact .cons hc hk (ih h)

theorem CutSeq.congr_left {S : List (List ℕ)} {keep : List ℝ → ℕ → Prop} {ks : List ℕ}
    {f f' g : List (List ℕ) → 𝕜} {out : List (List ℝ × ℕ)} (hs : CutSeq S keep ks f g out)
    (h : ∀ i, IdxOK i S → f' i = f i) : CutSeq S keep ks f' g out := by
  cases hs with
  | nil hh => exact .nil fun i hi => (hh i hi).trans (h i hi).symm
  | cons hc hk hs =>
    obtain ⟨W, Z, h1, h2, h3⟩ := hc
    refine .cons ⟨W, Z, ⟨h1.sorted, h1.nonneg, h1.orthW, h1.orthZ, ?_⟩, h2, h3⟩ hk hs
    intro i j hi hj
    rw [← h1.dec i j hi hj]
    refine h _ ?_
    have := idxOK_append hi hj
    rwa [List.take_append_drop] at this

theorem chained_end_unique {R : Type} {l r r' : ℕ} {ts : List (NDArray R)} (h : Chained l ts r)
    (h' : Chained l ts r') : r = r' := by
  induction ts generalizing l with
  | nil => exact (h : l = r).symm.trans h'
  | cons t ts ih => exact ih h.2.2 h'.2.2

theorem chained_start_unique {R : Type} {l l' r : ℕ} {ts : List (NDArray R)} (h : Chained l ts r)
    (h' : Chained l' ts r) : l = l' := by
  cases ts with
  | nil => exact (h : l = r).trans (h' : l' = r).symm
  | cons t ts => exact h.2.1.symm.trans h'.2.1

namespace MPA

/-! ### one full step -/

theorem svdStepR_ok {svd : SVD 𝕜} {f : SVDFunc 𝕜} (h : SVDSpec svd) (hf : SVDFuncSpec f) {rank : ℤ}
    (hr : 0 < rank) {relerr : Option ℝ} {x : MPA 𝕜} {a₀ b₀ : ℕ} (hx : x.GoodO a₀ b₀) {pre post : List (NDArray 𝕜)}
    {t u : NDArray 𝕜} (hlt : x.lt = pre ++ t :: u :: post) (hl : (pre.length : ℤ) ≤ x.l)
    (out : List (List ℝ × ℕ)) :
    ∃ mat t' u' y,
      mat.shape = [(t.lb :: t.ph).prod, t.rb] ∧ 0 < (t.lb :: t.ph).prod ∧ 0 < t.rb ∧
      (∀ i b, InB i (t.lb :: t.ph) → b < t.rb → mat.get [ravelIdx (t.lb :: t.ph) i, b] = t.get (i ++ [b])) ∧
      PickOK mat (t.lb :: t.ph).prod t.rb rank (svdPickR svd f rank relerr t.rb mat) ∧
      svdSiteR svd f rank relerr x pre.length = .ok (t, svdPickR svd f rank relerr t.rb mat) ∧
      svdStepR svd f rank relerr (x, out) pre.length
        = .ok (y, out ++ [((svdPickR svd f rank relerr t.rb mat).2.1, (svdPickR svd f rank relerr t.rb mat).2.2.2)]) ∧
      StepR x pre post t u t' u' mat (svdPickR svd f rank relerr t.rb mat) y := by
  have htm : t ∈ x.lt := by rw [hlt]; simp
  have htl := hx.chain.isLocal t htm
  have htrb := hx.pos.rb htm htl
  have htlb := hx.pos.lb htm htl
  have htph := hx.pos.ph htm htl
  obtain ⟨mat, e1, e2, e3⟩ := lmat_ok htl htrb
  have hMpos : 0 < (t.lb :: t.ph).prod := by rw [List.prod_cons]; exact Nat.mul_pos htlb htph
  have hp := pickR_ok h hf hr (relerr := relerr) e2 hMpos htrb
  obtain ⟨t', u', y, g1, g2⟩ := svdUpdateR_ok hx hlt hl e3 hp
  have hs : svdSiteR svd f rank relerr x pre.length = .ok (t, svdPickR svd f rank relerr t.rb mat) := by
    unfold svdSiteR
    rw [site_ok (x := x) hlt, ok_bind, e1, ok_bind]; rfl
  refine ⟨mat, t', u', y, e2, hMpos, htrb, e3, hp, hs, ?_, g2⟩
  unfold svdStepR
  simp only
  rw [hs, ok_bind]
  simp only
  rw [g1, ok_bind]; rfl

theorem svdStepL_ok {svd : SVD 𝕜} {f : SVDFunc 𝕜} (h : SVDSpec svd) (hf : SVDFuncSpec f) {rank : ℤ}
    (hr : 0 < rank) {relerr : Option ℝ} {x : MPA 𝕜} (hx : x.Good) {pre post : List (NDArray 𝕜)}
    {t u : NDArray 𝕜} (hlt : x.lt = pre ++ t :: u :: post) (hl : x.r ≤ (pre.length : ℤ) + 2)
    (out : List (List ℝ × ℕ)) :
    ∃ mat t' u' y,
      mat.shape = [u.lb, (u.ph ++ [u.rb]).prod] ∧ 0 < (u.ph ++ [u.rb]).prod ∧ 0 < u.lb ∧
      (∀ a j, a < u.lb → InB j (u.ph ++ [u.rb]) → mat.get [a, ravelIdx (u.ph ++ [u.rb]) j] = u.get (a :: j)) ∧
      PickOK mat u.lb (u.ph ++ [u.rb]).prod rank (svdPickL svd f rank relerr u.lb mat) ∧
      svdStepL svd f rank relerr (x, out) ((pre.length : ℤ) + 1)
        = .ok (y, out ++ [((svdPickL svd f rank relerr u.lb mat).2.1, (svdPickL svd f rank relerr u.lb mat).2.2.2)]) ∧
      StepL x pre post t u t' u' mat (svdPickL svd f rank relerr u.lb mat) y := by
  have hum : u ∈ x.lt := by rw [hlt]; simp
  have hul := hx.valid.chain.isLocal u hum
  have hurb := hx.pos.rb hum hul
  have hulb := hx.pos.lb hum hul
  have huph := hx.pos.ph hum hul
  obtain ⟨mat, e1, e2, e3⟩ := rmat_ok hul hulb
  have hMpos : 0 < (u.ph ++ [u.rb]).prod := by rw [List.prod_append]; simpa using Nat.mul_pos huph hurb
  have hp := pickL_ok h hf hr (relerr := relerr) e2 hulb hMpos
  obtain ⟨t', u', y, g1, g2⟩ := svdUpdateL_ok hx.toO hlt hl e3 hp
  have hs : svdSiteL svd f rank relerr x ((pre.length : ℤ) + 1) = .ok (u, svdPickL svd f rank relerr u.lb mat) := by
    unfold svdSiteL
    have hsite1 : x.site ((pre.length : ℤ) + 1) = .ok u := by
      have := site_ok (x := x) (pre := pre ++ [t]) (post := post) (t := u) (by simp [hlt])
      simpa using this
    rw [hsite1, ok_bind, e1, ok_bind]; rfl
  refine ⟨mat, t', u', y, e2, hMpos, hulb, e3, hp, ?_, g2⟩
  unfold svdStepL
  simp only
  rw [hs, ok_bind]
  simp only
  rw [g1, ok_bind]; rfl

/-! ### the sweep to the right -/

/-- State after `k` steps of the sweep to the right from `x`. -/
structure SweepR (svd : SVD 𝕜) (f : SVDFunc 𝕜) (rank : ℤ) (relerr : Option ℝ) (x : MPA 𝕜) (k : ℕ)
    (y : MPA 𝕜) (out : List (List ℝ × ℕ)) : Prop where
  good : y.Good
  len : y.len = x.len
  shape : y.shape = x.shape
  l : (k : ℤ) ≤ y.l
  l_eq : k ≠ 0 → y.l = k
  r : y.r = if k = 0 then x.r else max x.r (k + 1)
  outlen : out.length = k
  bonds : y.lt.map NDArray.lb = 1 :: (out.map Prod.snd) ++ (x.lt.map NDArray.lb).drop (k + 1)
  rank_le : ∀ o ∈ out, (o.2 : ℤ) ≤ rank
  ranks_le : y.RanksLe x
  proj : ∃ pre post d, y.lt = pre ++ post ∧ pre.length = k ∧ Chained 1 pre d ∧
    (∀ t ∈ pre, LCanon t) ∧ ProjR x.val pre post d
  cuts : f = truncatedSvd svd → (∀ e, relerr = some e → 0 ≤ e) → x.r ≤ 1 →
    ∃ full : List (List ℝ × ℕ), CutSeq x.shape (Keep rank relerr) (List.range' 1 k) x.val y.val full ∧
      out = full.map (fun o => (yieldOf relerr o.1 o.2, o.2)) ∧
      List.Forall₂ (fun o d => o.1.length ≤ d) full (((x.lt.map NDArray.lb).drop 1).take k)

theorem bonds_split {D pre post : List ℕ} {a b : ℕ} {o : List ℕ} {m : ℕ}
    (h : pre ++ a :: b :: post = 1 :: o ++ D.drop (m + 1)) (ho : o.length = m) (hp : pre.length = m) :
    pre ++ [a] = 1 :: o ∧ b :: post = D.drop (m + 1) ∧ post = D.drop (m + 1 + 1) := by
  have h' : (pre ++ [a]) ++ (b :: post) = (1 :: o) ++ D.drop (m + 1) := by simpa using h
  obtain ⟨h1, h2⟩ := List.append_inj h' (by simp [ho, hp])
  refine ⟨h1, h2, ?_⟩
  have : D.drop (m + 1 + 1) = (D.drop (m + 1)).tail := by rw [List.tail_drop]
  rw [this, ← h2]; rfl

theorem sweepR_ok {svd : SVD 𝕜} {f : SVDFunc 𝕜} (h : SVDSpec svd) (hf : SVDFuncSpec f) {rank : ℤ}
    (hr : 0 < rank) {relerr : Option ℝ} {x : MPA 𝕜} (hx : x.Good) (k : ℕ) (hk : k + 1 ≤ x.len) :
    ∃ y out, (pyRange 0 k 1).foldlM (svdStepR svd f rank relerr) (x, []) = .ok (y, out) ∧
      SweepR svd f rank relerr x k y out := by
  induction k with
  | zero =>
    refine ⟨x, [], rfl, hx, rfl, rfl, hx.valid.l_nonneg, fun h => absurd rfl h, by simp, rfl, ?_, by simp,
      RanksLe.rfl' x, ⟨[], x.lt, 1, rfl, rfl, by simp, by simp, ?_⟩, ?_⟩
    · have hne := hx.valid.ne
      have hch := hx.valid.chain
      cases hxl : x.lt with
      | nil => exact absurd hxl hne
      | cons t ts =>
        rw [hxl] at hch
        simp [hch.2.1]
    · intro b hb j hj
      have : b = 0 := by omega
      subst this
      simp [physShape, MPA.val, entry]
    · intro _ _ _
      exact ⟨[], .nil fun _ _ => rfl, rfl, by simp⟩
  | succ k ih =>
    obtain ⟨y, out, h1, h2⟩ := ih (by omega)
    obtain ⟨pre, post', d, hlt', hpl, hpc, hpL, hpr⟩ := h2.proj
    have hylen : y.lt.length = x.len := h2.len
    obtain ⟨pre2, t, u, post, hlt, hpl2⟩ := split_at (ts := y.lt) (m := k) (by omega)
    have hpe : pre = pre2 ∧ post' = t :: u :: post := by
      rw [hlt'] at hlt
      exact List.append_inj hlt (by omega)
    obtain ⟨rfl, rfl⟩ := hpe
    obtain ⟨mat, t', u', z, m1, m2, m3, m4, m5, -, m6, m7⟩ :=
      svdStepR_ok h hf hr (relerr := relerr) h2.good.toO hlt (by rw [hpl]; exact h2.l) out
    have hch := h2.good.valid.chain
    have hch2 := hch
    rw [hlt] at hch2
    obtain ⟨dd, hc1, g1, g2, g3, g4, g5⟩ := chained_append.1 hch2
    have hdd : d = t.lb := by rw [chained_end_unique hpc hc1, g2]
    subst hdd
    have hb := h2.bonds
    rw [hlt] at hb
    simp only [List.map_append, List.map_cons] at hb
    obtain ⟨b1, b2, b3⟩ := bonds_split hb (by simp [h2.outlen]) (by simp [hpl])
    have hzs : z.shape = y.shape := by
      show physShape z.lt = physShape y.lt
      rw [m7.lt, hlt]
      simp [physShape, NDArray.ph_of_shape m7.tshape, NDArray.ph_of_shape m7.ushape]
    refine ⟨z, out ++ [((svdPickR svd f rank relerr t.rb mat).2.1, (svdPickR svd f rank relerr t.rb mat).2.2.2)], ?_, m7.good h2.good, ?_, hzs.trans h2.shape, ?_, ?_, ?_, ?_, ?_, ?_, ?_, ?_, ?_⟩
    · rw [pyRange_up] at h1 ⊢
      rw [show (((k + 1 : ℕ) : ℤ) - 0).toNat = k + 1 by omega, List.range_succ, List.map_append, List.foldlM_append]
      rw [show ((k : ℤ) - 0).toNat = k by omega] at h1
      rw [h1, ok_bind]
      simp only [List.map_cons, List.map_nil, List.foldlM_cons, List.foldlM_nil]
      rw [show (0 : ℤ) + (k : ℤ) * 1 = (pre.length : ℤ) by rw [hpl]; ring, m6]
      rfl
    · rw [← h2.len]
      show z.lt.length = y.lt.length
      rw [m7.lt, hlt]; simp
    · rw [m7.l, hpl]; push_cast; omega
    · intro _; rw [m7.l, hpl]; push_cast; rfl
    · rw [m7.r, h2.r, hpl, if_neg (Nat.succ_ne_zero k)]
      split
      · rename_i h0; subst h0; push_cast; rw [max_comm]
      · push_cast; omega
    · simp [h2.outlen]
    · rw [m7.lt]
      simp only [List.map_append, List.map_cons, NDArray.lb_of_shape m7.tshape, NDArray.lb_of_shape m7.ushape, List.map_nil]
      rw [← b3, show List.map NDArray.lb pre ++ t.lb :: (svdPickR svd f rank relerr t.rb mat).2.2.2 :: List.map NDArray.lb post
        = (List.map NDArray.lb pre ++ [t.lb]) ++ (svdPickR svd f rank relerr t.rb mat).2.2.2 :: List.map NDArray.lb post by simp, b1]
      simp
    · intro o ho
      simp only [List.mem_append, List.mem_singleton] at ho
      rcases ho with ho | rfl
      · exact h2.rank_le o ho
      · exact m5.le_rank
    · refine RanksLe.trans ?_ h2.ranks_le
      have := ranksLe_pair (x := y) (t' := t') (u' := u') (l' := z.l) (r' := z.r) hlt (NDArray.lb_of_shape m7.tshape)
        (by rw [NDArray.lb_of_shape m7.ushape, g4]; exact m5.le_n)
      unfold RanksLe at this ⊢
      rw [m7.lt]; exact this
    · refine ⟨pre ++ [t'], u' :: post, _, by rw [m7.lt]; simp, by simp [hpl], ?_, ?_,
        projR_step hch2 hpr m7.tshape m7.ushape m7.proj⟩
      · rw [chained_concat]
        exact ⟨by rw [NDArray.lb_of_shape m7.tshape]; exact hpc, NDArray.isLocal_of_shape m7.tshape,
          NDArray.rb_of_shape m7.tshape⟩
      · intro w hw
        simp only [List.mem_append, List.mem_singleton] at hw
        rcases hw with hw | rfl
        · exact hpL w hw
        · exact m7.lcanon
    · intro hft he hxr
      obtain ⟨full, c1, c2, c3⟩ := h2.cuts hft he hxr
      subst hft
      obtain ⟨k1, k2, k3, k4⟩ := pickR_keep h hr he m1 m2 m3
      have hRc : ∀ w ∈ u :: post, RCanon w := by
        intro w hw
        obtain ⟨n, hn, hnw⟩ := List.mem_iff_getElem.1 hw
        refine (h2.good.canon (k + 1 + n) w ?_).2 ?_
        · rw [hlt, List.getElem?_append_right (by omega), hpl2, show k + 1 + n - k = n + 1 by omega,
            List.getElem?_cons_succ, List.getElem?_eq_getElem hn, hnw]
        · rw [h2.r]; push_cast
          split <;> omega
      have hsch := schmidt_right h hch2 hpL hRc m1 m4
      refine ⟨full ++ [((svd mat).2.1, (svdPickR svd (truncatedSvd svd) rank relerr t.rb mat).2.2.2)], ?_, ?_, ?_⟩
      · rw [List.range'_1_concat]
        refine c1.snoc ⟨wR pre t (svd mat).1, zR t (svd mat).2.2 (u :: post), ?_, ?_, ?_⟩ k1
        · rw [show x.shape = physShape (pre ++ t :: u :: post) by rw [← hlt]; exact h2.shape.symm,
            show 1 + k = pre.length + 1 by omega]
          have : y.val = entry (pre ++ t :: u :: post) := by rw [← hlt]
          rw [this]
          exact hsch
        · have := m5.le_m
          have := m5.le_n
          have := (h mat _ _ m1).2.1
          omega
        · intro i j hi hj
          have hS : x.shape = physShape (pre ++ t :: u :: post) := by rw [← hlt]; exact h2.shape.symm
          have htake : x.shape.take (1 + k) = physShape pre ++ [t.ph] := by
            rw [hS, show 1 + k = pre.length + 1 by omega]; simp [physShape, List.take_append]
          have hdrop : x.shape.drop (1 + k) = physShape (u :: post) := by
            rw [hS, show 1 + k = pre.length + 1 by omega]; simp [physShape, List.drop_append]
          rw [htake] at hi
          rw [hdrop] at hj
          rw [stepR_val m7 h2.good g4.symm hi hj]
          refine Finset.sum_congr rfl fun b hb => ?_
          have e1 : wR pre t (svdPickR svd (truncatedSvd svd) rank relerr t.rb mat).1 i b = wR pre t (svd mat).1 i b := by
            unfold wR; rw [k3]
          have e2 : zR t (svdPickR svd (truncatedSvd svd) rank relerr t.rb mat).2.2.1 (u :: post) b j
              = zR t (svd mat).2.2 (u :: post) b j := by
            unfold zR; rw [k4]
          have e3 : (svdPickR svd (truncatedSvd svd) rank relerr t.rb mat).2.1.getD b 0 = (svd mat).2.1.getD b 0 := by
            rw [k2]; exact yieldOf_getD (by simpa using hb)
          rw [e1, e2, e3]
      · rw [List.map_append, c2]
        simp only [List.map_cons, List.map_nil]
        rw [← k2]
      · have hd : ((x.lt.map NDArray.lb).drop 1).take (k + 1)
            = ((x.lt.map NDArray.lb).drop 1).take k ++ [u.lb] := by
          have : (x.lt.map NDArray.lb)[k + 1]? = some u.lb := by
            have := congrArg (fun l => l[0]?) b2
            simpa using this.symm
          rw [List.take_add_one, List.getElem?_drop, show 1 + k = k + 1 by omega, this]
          rfl
        rw [hd]
        refine List.rel_append c3 (.cons ?_ .nil)
        have := (h mat _ _ m1).2.1
        simp only
        omega

/-! ### the sweep to the left -/

/-- State after `k` steps of the sweep to the left from `x`. -/
structure SweepL (svd : SVD 𝕜) (f : SVDFunc 𝕜) (rank : ℤ) (relerr : Option ℝ) (x : MPA 𝕜) (k : ℕ)
    (y : MPA 𝕜) (out : List (List ℝ × ℕ)) : Prop where
  good : y.Good
  len : y.len = x.len
  shape : y.shape = x.shape
  r : y.r ≤ (x.len : ℤ) - k
  r_eq : k ≠ 0 → y.r = (x.len : ℤ) - k
  l : y.l = if k = 0 then x.l else min x.l ((x.len : ℤ) - k - 1)
  outlen : out.length = k
  bonds : y.lt.map NDArray.lb = (x.lt.map NDArray.lb).take (x.len - k) ++ (out.map Prod.snd).reverse
  rank_le : ∀ o ∈ out, (o.2 : ℤ) ≤ rank
  ranks_le : y.RanksLe x
  proj : ∃ pre post d, y.lt = pre ++ post ∧ post.length = k ∧ Chained d post 1 ∧
    (∀ t ∈ post, RCanon t) ∧ ProjL x.val pre post d
  cuts : f = truncatedSvd svd → (∀ e, relerr = some e → 0 ≤ e) → (x.len : ℤ) - 1 ≤ x.l →
    ∃ full : List (List ℝ × ℕ),
      CutSeq x.shape (Keep rank relerr) ((List.range k).map fun j => x.len - 1 - j) x.val y.val full ∧
      out = full.map (fun o => (yieldOf relerr o.1 o.2, o.2)) ∧
      List.Forall₂ (fun o d => o.1.length ≤ d) full ((x.lt.map NDArray.lb).drop (x.len - k)).reverse

theorem sweepL_ok {svd : SVD 𝕜} {f : SVDFunc 𝕜} (h : SVDSpec svd) (hf : SVDFuncSpec f) {rank : ℤ}
    (hr : 0 < rank) {relerr : Option ℝ} {x : MPA 𝕜} (hx : x.Good) (k : ℕ) (hk : k + 1 ≤ x.len) :
    ∃ y out, ((List.range k).map fun j : ℕ => ((x.len : ℤ) - 1) + (j : ℤ) * (-1)).foldlM
        (svdStepL svd f rank relerr) (x, []) = .ok (y, out) ∧
      SweepL svd f rank relerr x k y out := by
  induction k with
  | zero =>
    have hl : x.lt.length = x.len := rfl
    refine ⟨x, [], rfl, hx, rfl, rfl, by simpa using hx.valid.r_le, fun h => absurd rfl h, by simp, rfl, ?_, by simp,
      RanksLe.rfl' x, ⟨x.lt, [], 1, by simp, rfl, by simp, by simp, ?_⟩, ?_⟩
    · simp only [Nat.sub_zero, List.map_nil, List.reverse_nil, List.append_nil]
      rw [List.take_of_length_le (by simp [hl])]
    · intro b hb j hj
      have : b = 0 := by omega
      subst this
      simp [physShape, MPA.val, entry]
    · intro _ _ _
      refine ⟨[], .nil fun _ _ => rfl, rfl, ?_⟩
      rw [List.drop_of_length_le (by simp [hl])]
      exact .nil
  | succ k ih =>
    obtain ⟨y, out, h1, h2⟩ := ih (by omega)
    obtain ⟨pre', post, d, hlt', hpl, hpc, hpR, hpr⟩ := h2.proj
    have hylen : y.lt.length = x.len := h2.len
    obtain ⟨pre, t, u, post2, hlt, hpl2⟩ := split_at (ts := y.lt) (m := x.len - k - 2) (by omega)
    have hlens : y.lt.length = pre.length + 2 + post2.length := by rw [hlt]; simp; omega
    have hpe : pre' = pre ++ [t, u] ∧ post = post2 := by
      rw [hlt', show pre ++ t :: u :: post2 = (pre ++ [t, u]) ++ post2 by simp] at hlt
      exact List.append_inj' hlt (by omega)
    obtain ⟨rfl, rfl⟩ := hpe
    have hpn : (pre.length : ℤ) = (x.len : ℤ) - k - 2 := by omega
    obtain ⟨mat, t', u', z, m1, m2, m3, m4, m5, m6, m7⟩ :=
      svdStepL_ok h hf hr (relerr := relerr) h2.good hlt (by have := h2.r; omega) out
    have hch := h2.good.valid.chain
    have hch2 := hch
    rw [hlt] at hch2
    obtain ⟨dd, hc1, g1, g2, g3, g4, g5⟩ := chained_append.1 hch2
    have hpre : Chained 1 pre t.lb := by rw [g2]; exact hc1
    have hb := h2.bonds
    rw [hlt] at hb
    simp only [List.map_append, List.map_cons] at hb
    have hD : (x.lt.map NDArray.lb).length = x.len := by simp [MPA.len]
    obtain ⟨b1, b2⟩ : List.map NDArray.lb pre ++ [t.lb, u.lb] = (x.lt.map NDArray.lb).take (x.len - k) ∧
        List.map NDArray.lb post = (out.map Prod.snd).reverse := by
      rw [show List.map NDArray.lb pre ++ t.lb :: u.lb :: List.map NDArray.lb post
        = (List.map NDArray.lb pre ++ [t.lb, u.lb]) ++ List.map NDArray.lb post by simp] at hb
      exact List.append_inj' hb (by simp [h2.outlen, hpl])
    have b3 : List.map NDArray.lb pre ++ [t.lb] = (x.lt.map NDArray.lb).take (x.len - (k + 1)) := by
      have := congrArg (fun l => l.take (x.len - (k + 1))) b1
      simp only [List.take_take] at this
      rw [min_eq_left (by omega)] at this
      rw [← this, show List.map NDArray.lb pre ++ [t.lb, u.lb] = (List.map NDArray.lb pre ++ [t.lb]) ++ [u.lb] by simp,
        List.take_append_of_le_length (by simp; omega), List.take_of_length_le (by simp; omega)]
    have b4 : (x.lt.map NDArray.lb)[x.len - (k + 1)]? = some u.lb := by
      have := congrArg (fun l => l[x.len - (k + 1)]?) b1
      rw [List.getElem?_take_of_lt (by omega), List.getElem?_append_right (by simp; omega)] at this
      rw [← this]
      simp only [List.length_map]
      rw [show x.len - (k + 1) - pre.length = 1 by omega]
      rfl
    have hzs : z.shape = y.shape := by
      show physShape z.lt = physShape y.lt
      rw [m7.lt, hlt]
      simp [physShape, NDArray.ph_of_shape m7.tshape, NDArray.ph_of_shape m7.ushape]
    refine ⟨z, out ++ [((svdPickL svd f rank relerr u.lb mat).2.1, (svdPickL svd f rank relerr u.lb mat).2.2.2)], ?_,
      m7.good h2.good, ?_, hzs.trans h2.shape, ?_, ?_, ?_, ?_, ?_, ?_, ?_, ?_, ?_⟩
    · rw [List.range_succ, List.map_append, List.foldlM_append, h1, ok_bind]
      simp only [List.map_cons, List.map_nil, List.foldlM_cons, List.foldlM_nil]
      rw [show (x.len : ℤ) - 1 + (k : ℤ) * (-1) = (pre.length : ℤ) + 1 by omega, m6]
      rfl
    · rw [← h2.len]
      show z.lt.length = y.lt.length
      rw [m7.lt, hlt]; simp
    · rw [m7.r]; push_cast; omega
    · intro _; rw [m7.r]; push_cast; omega
    · rw [m7.l, h2.l, hpn, if_neg (Nat.succ_ne_zero k)]
      split
      · rename_i h0; subst h0; push_cast; omega
      · push_cast; omega
    · simp [h2.outlen]
    · rw [m7.lt]
      simp only [List.map_append, List.map_cons, NDArray.lb_of_shape m7.tshape, NDArray.lb_of_shape m7.ushape, List.map_nil]
      rw [← b3, b2]
      simp
    · intro o ho
      simp only [List.mem_append, List.mem_singleton] at ho
      rcases ho with ho | rfl
      · exact h2.rank_le o ho
      · exact m5.le_rank
    · refine RanksLe.trans ?_ h2.ranks_le
      have := ranksLe_pair (x := y) (t' := t') (u' := u') (l' := z.l) (r' := z.r) hlt (NDArray.lb_of_shape m7.tshape)
        (by rw [NDArray.lb_of_shape m7.ushape]; exact m5.le_m)
      unfold RanksLe at this ⊢
      rw [m7.lt]; exact this
    · have hd : d = u.rb := chained_start_unique hpc g5
      subst hd
      refine ⟨pre ++ [t'], u' :: post, _, by rw [m7.lt]; simp, by simp [hpl], ?_, ?_,
        projL_step hch2 hpr m7.tshape m7.ushape m7.proj⟩
      · exact ⟨NDArray.isLocal_of_shape m7.ushape, NDArray.lb_of_shape m7.ushape,
          by rw [NDArray.rb_of_shape m7.ushape]; exact g5⟩
      · intro w hw
        simp only [List.mem_cons] at hw
        rcases hw with rfl | hw
        · exact m7.rcanon
        · exact hpR w hw
    · intro hft he hxl
      obtain ⟨full, c1, c2, c3⟩ := h2.cuts hft he hxl
      subst hft
      obtain ⟨k1, k2, k3, k4⟩ := pickL_keep h hr he m1 m3 m2
      have hLc : ∀ w ∈ pre ++ [t], LCanon w := by
        intro w hw
        obtain ⟨n, hn, hnw⟩ := List.mem_iff_getElem.1 hw
        have hn' : n < pre.length + 1 := by simpa using hn
        refine (h2.good.canon n w ?_).1 ?_
        · rw [hlt, show pre ++ t :: u :: post = (pre ++ [t]) ++ (u :: post) by simp,
            List.getElem?_append_left hn, List.getElem?_eq_getElem hn, hnw]
        · rw [h2.l]
          split <;> omega
      have hch3 : Chained 1 ((pre ++ [t]) ++ u :: post) 1 := by simpa using hch2
      have hsch := schmidt_left h hch3 hLc hpR m1 m4
      have hS : x.shape = physShape ((pre ++ [t]) ++ u :: post) := by
        rw [show (pre ++ [t]) ++ u :: post = y.lt by rw [hlt]; simp]; exact h2.shape.symm
      have hpos : x.len - 1 - k = (pre ++ [t]).length := by simp; omega
      refine ⟨full ++ [((svd mat).2.1, (svdPickL svd (truncatedSvd svd) rank relerr u.lb mat).2.2.2)], ?_, ?_, ?_⟩
      · rw [List.range_succ, List.map_append, List.map_cons, List.map_nil]
        refine c1.snoc ⟨wL (pre ++ [t]) u (svd mat).1, zL u (svd mat).2.2 post, ?_, ?_, ?_⟩ k1
        · rw [hS, hpos]
          have : y.val = entry ((pre ++ [t]) ++ u :: post) := by
            rw [show (pre ++ [t]) ++ u :: post = y.lt by rw [hlt]; simp]
          rw [this]
          exact hsch
        · have := m5.le_m
          have := m5.le_n
          have := (h mat _ _ m1).2.1
          omega
        · intro i j hi hj
          have htake : x.shape.take (x.len - 1 - k) = physShape (pre ++ [t]) := by
            rw [hS, hpos]; simp [physShape, List.take_append]
          have hdrop : x.shape.drop (x.len - 1 - k) = u.ph :: physShape post := by
            rw [hS, hpos]; simp [physShape, List.drop_append]
          rw [htake] at hi
          rw [hdrop] at hj
          rw [stepL_val m7 h2.good hpre g4.symm hi hj]
          refine Finset.sum_congr rfl fun b hb => ?_
          have e1 : wL (pre ++ [t]) u (svdPickL svd (truncatedSvd svd) rank relerr u.lb mat).1 i b
              = wL (pre ++ [t]) u (svd mat).1 i b := by
            unfold wL; rw [k3]
          have e2 : zL u (svdPickL svd (truncatedSvd svd) rank relerr u.lb mat).2.2.1 post b j
              = zL u (svd mat).2.2 post b j := by
            unfold zL; rw [k4]
          have e3 : (svdPickL svd (truncatedSvd svd) rank relerr u.lb mat).2.1.getD b 0 = (svd mat).2.1.getD b 0 := by
            rw [k2]; exact yieldOf_getD (by simpa using hb)
          rw [e1, e2, e3]
      · rw [List.map_append, c2]
        simp only [List.map_cons, List.map_nil]
        rw [← k2]
      · have hd : (x.lt.map NDArray.lb).drop (x.len - (k + 1))
            = u.lb :: (x.lt.map NDArray.lb).drop (x.len - k) := by
          rw [List.drop_eq_getElem?_toList_append, b4, show x.len - (k + 1) + 1 = x.len - k by omega]
          rfl
        rw [hd, List.reverse_cons]
        refine List.rel_append c3 (.cons ?_ .nil)
        have := (h mat _ _ m1).2.1
        simp only
        omega

end MPA

end Mpnum
