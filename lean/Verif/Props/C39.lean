import Verif.SpecialLemmas
import Verif.Props.C07
import Verif.Props.C09
import Verif.Props.C15
import Verif.Oracle.SVD
import Verif.MPArray.CompressMain
import Verif.Props.C27

/-!
# C39: `special.inner_prod_mps` and `special.sumup` for product MPAs
-/

open Finset

namespace Mpnum

section inner
variable {R : Type} [CommRing R] [StarRing R]

theorem dotVec3_ok {a b : NDArray R} {d l r : ℕ} (ha : a.shape = [d]) (hb : b.shape = [l, d, r]) :
    ∃ c, dotVec3 a b = .ok c ∧ c.shape = [l, r] ∧ ∀ i j, c.get [i, j] = ∑ x ∈ range d, a.get [x] * b.get [i, x, j] := by
  have hna : a.ndim = 1 := by simp [NDArray.ndim, ha]
  have hnb : b.ndim = 3 := by simp [NDArray.ndim, hb]
  refine ⟨a.tensordotTo b [0] [1], ?_, ?_, ?_⟩
  · unfold dotVec3 NDArray.tensordot
    have h1 : ([-1] : List ℤ).mapM (pyIndex a.ndim) = .ok [0] := by rw [hna]; rfl
    have h2 : ([1] : List ℤ).mapM (pyIndex b.ndim) = .ok [1] := by rw [hnb]; rfl
    rw [h1, h2]
    show (if _ then _ else _) = _
    rw [if_pos]
    exact ⟨by simp [ha, hb], by simp, by simp⟩
  · show List.map _ _ ++ List.map _ _ = _
    rw [hna, hnb, ha, hb]; rfl
  · intro i j
    show sumIdx _ _ = _
    rw [hna, hnb, ha]
    show (∑ x ∈ range d, _) = _
    rfl

/-- A product MPA: all ranks are 1. -/
def IsProduct (x : MPA R) : Prop := ∀ r ∈ x.ranks, r = 1

theorem innerProdLoop_ok : ∀ (ts us : List (NDArray R)) (D : List ℕ) (l : ℕ) (res : NDArray R),
    List.Forall₂ (fun t d => t.shape = [1, d, 1]) ts D → Chained l us 1 → physShape us = D.map (fun d => [d]) →
    res.shape = [1, l] →
    ∃ c, innerProdLoop res ts us = .ok c ∧
      c.get [0, 0] = ∑ a ∈ range l, res.get [0, a] *
        sumSites (D.map fun d => [d]) (fun i => star (mp ts i 0 0) * mp us i a 0)
  | [], us, D, l, res, hts, hus, hph, hres => by
    cases hts
    cases us with
    | cons u us => simp [physShape] at hph
    | nil =>
      have hl : l = 1 := hus
      subst hl
      refine ⟨res, rfl, ?_⟩
      simp [mp]
  | t :: ts, us, D, l, res, hts, hus, hph, hres => by
    cases hts with
    | @cons _ d _ D ht hts =>
    cases us with
    | nil => simp [physShape] at hph
    | cons u us =>
      simp only [physShape, List.map_cons, List.cons.injEq] at hph
      obtain ⟨hloc, hlb, hch⟩ := hus
      have hus' : u.shape = [l, d, u.rb] := by
        have := NDArray.shape_local hloc; rw [hph.1, hlb] at this; simpa using this
      obtain ⟨m, m1, m2, m3⟩ := dotVec3_ok (a := midConj t) (b := u) (d := d) (l := l) (r := u.rb)
        (by simp [midConj, NDArray.ph, ht]) hus'
      obtain ⟨r, r1, r2, r3⟩ := matdot_mat (a := res) (b := m) (l := 1) (m := l) (r := u.rb) hres m2
      obtain ⟨c, c1, c2⟩ := innerProdLoop_ok ts us D u.rb r hts hch hph.2 r2
      refine ⟨c, ?_, ?_⟩
      · rw [innerProdLoop, m1, ok_bind, r1, ok_bind, c1]
      · rw [c2]
        have htr : t.rb = 1 := by simp [NDArray.rb, ht]
        have e : ∀ b, r.get [0, b] = ∑ a ∈ range l, res.get [0, a] * ∑ x ∈ range d, star (t.at3 0 [x] 0) * u.at3 a [x] b := by
          intro b
          rw [r3]
          refine Finset.sum_congr rfl fun a _ => ?_
          rw [m3]; rfl
        simp only [e]
        simp only [List.map_cons, sumSites_cons, sumIdx_cons, sumIdx_nil, mp, htr, Finset.sum_range_one]
        have e2 : ∀ a, (∑ x ∈ range d, sumSites (D.map fun d => [d]) fun i =>
              star (t.at3 0 [x] 0 * mp ts i 0 0) * ∑ b ∈ range u.rb, u.at3 a [x] b * mp us i b 0)
            = ∑ b ∈ range u.rb, (∑ x ∈ range d, star (t.at3 0 [x] 0) * u.at3 a [x] b) *
              sumSites (D.map fun d => [d]) (fun i => star (mp ts i 0 0) * mp us i b 0) := by
          intro a
          have : ∀ x, (sumSites (D.map fun d => [d]) fun i =>
              star (t.at3 0 [x] 0 * mp ts i 0 0) * ∑ b ∈ range u.rb, u.at3 a [x] b * mp us i b 0)
              = ∑ b ∈ range u.rb, (star (t.at3 0 [x] 0) * u.at3 a [x] b) *
                sumSites (D.map fun d => [d]) (fun i => star (mp ts i 0 0) * mp us i b 0) := by
            intro x
            simp only [Finset.mul_sum, sumSites_sum_comm, mul_sumSites, star_mul]
            exact Finset.sum_congr rfl fun b _ => sumSites_congr fun i _ => by ring
          simp only [this]
          rw [Finset.sum_comm]
          exact Finset.sum_congr rfl fun b _ => by rw [Finset.sum_mul]
        simp only [e2]
        simp only [Finset.sum_mul, Finset.mul_sum]
        refine Eq.trans Finset.sum_comm ?_
        refine Finset.sum_congr rfl fun a _ => Finset.sum_congr rfl fun b _ => ?_
        refine Finset.sum_congr rfl fun x _ => by ring

theorem chained_ones {l r : ℕ} : ∀ {ts : List (NDArray R)}, ts ≠ [] → Chained l ts r → l = 1 → r = 1 →
    (∀ r ∈ ts.tail.map NDArray.lb, r = 1) → List.Forall₂ (fun t P => t.shape = 1 :: (P ++ [1])) ts (physShape ts)
  | [], hne, _, _, _, _ => absurd rfl hne
  | [t], _, h, hl, hr, _ => by
    subst hl hr
    obtain ⟨h1, h2, h3⟩ := h
    have h3 : t.rb = 1 := h3
    refine .cons ?_ .nil
    have := NDArray.shape_local h1
    rwa [h2, h3] at this
  | t :: u :: ts, _, h, hl, hr, h1 => by
    subst hl hr
    obtain ⟨a1, a2, a3⟩ := h
    have hu : u.lb = 1 := h1 _ (by simp)
    have a3' := a3
    obtain ⟨-, b2, -⟩ := a3'
    have htr : t.rb = 1 := by rw [← b2, hu]
    refine .cons ?_ (chained_ones (by simp) a3 htr rfl fun r hr => h1 r (by simp only [List.tail_cons, List.map_cons, List.mem_cons]; exact Or.inr hr))
    have := NDArray.shape_local a1
    rwa [a2, htr] at this

/-- C39: `inner_prod_mps(x, y)` for a product MPS `x` and an MPS `y` of the same shape is the inner product
`<x|y>`. -/
theorem C39_inner_prod_mps (x y : MPA R) (hx : x.Valid) (hy : y.Valid) (D : List ℕ)
    (hsx : x.shape = D.map fun d => [d]) (hsy : y.shape = D.map fun d => [d]) (hp : IsProduct x) :
    innerProdMps x y = .ok (sumSites (D.map fun d => [d]) fun i => star (x.val i) * y.val i) := by
  have hxD : physShape x.lt = D.map fun d => [d] := hsx
  have hts : List.Forall₂ (fun t d => t.shape = [1, d, 1]) x.lt D := by
    have hts := chained_ones hx.ne hx.chain rfl rfl hp
    rw [hxD, List.forall₂_map_right_iff] at hts
    exact hts
  have hyD : physShape y.lt = D.map fun d => [d] := hsy
  have hy1 := hy.chain
  have hnd : ∀ z : MPA R, z.shape = (D.map fun d => [d]) → ∀ n ∈ z.ndims, n = 1 := by
    intro z hz n hn
    have : z.ndims = z.shape.map List.length := by
      simp only [MPA.ndims, MPA.shape, List.map_map]
      refine List.map_congr_left fun t _ => ?_
      simp [NDArray.ph, NDArray.ndim]; omega
    rw [this, hz] at hn
    simp at hn; exact hn.2.symm
  unfold innerProdMps
  rw [pyAssert_true (b := ∀ r ∈ x.ranks, r = 1) hp, ok_bind, pyAssert_true (hnd x hsx), ok_bind, pyAssert_true (hnd y hsy), ok_bind]
  have hex := hx.ne
  have hey := hy.ne
  obtain ⟨xl, x1, x2⟩ := x
  obtain ⟨yl, y1, y2⟩ := y
  cases xl with
  | nil => exact absurd rfl hex
  | cons t ts =>
  cases yl with
  | nil => exact absurd rfl hey
  | cons u us =>
    cases hts with
    | @cons _ d _ D ht hts =>
    simp only [physShape, List.map_cons, List.cons.injEq] at hyD
    obtain ⟨hloc, hlb, hch⟩ := hy1
    have hus' : u.shape = [1, d, u.rb] := by
      have := NDArray.shape_local hloc; rw [hyD.1, hlb] at this; simpa using this
    obtain ⟨m, m1, m2, m3⟩ := dotVec3_ok (a := midConj t) (b := u) (d := d) (l := 1) (r := u.rb)
      (by simp [midConj, NDArray.ph, ht]) hus'
    obtain ⟨c, c1, c2⟩ := innerProdLoop_ok ts us D u.rb m hts hch hyD.2 m2
    show (dotVec3 (midConj t) u >>= fun res => innerProdLoop res ts us >>= fun r => .ok (r.get [0, 0])) = _
    rw [m1, ok_bind, c1, ok_bind, c2]
    have htr : t.rb = 1 := by simp [NDArray.rb, ht]
    congr 1
    show _ = sumSites ((d :: D).map fun d => [d]) fun i => star (mp (t :: ts) i 0 0) * mp (u :: us) i 0 0
    simp only [List.map_cons, sumSites_cons, sumIdx_cons, sumIdx_nil, mp, htr, Finset.sum_range_one]
    have e : ∀ b, m.get [0, b] = ∑ x ∈ range d, star (t.at3 0 [x] 0) * u.at3 0 [x] b := fun b => by rw [m3]; rfl
    have : ∀ x, (sumSites (D.map fun d => [d]) fun i =>
        star (t.at3 0 [x] 0 * mp ts i 0 0) * ∑ b ∈ range u.rb, u.at3 0 [x] b * mp us i b 0)
        = ∑ b ∈ range u.rb, (star (t.at3 0 [x] 0) * u.at3 0 [x] b) *
          sumSites (D.map fun d => [d]) (fun i => star (mp ts i 0 0) * mp us i b 0) := by
      intro x
      simp only [Finset.mul_sum, sumSites_sum_comm, mul_sumSites, star_mul]
      exact Finset.sum_congr rfl fun b _ => sumSites_congr fun i _ => by ring
    simp only [this, e]
    rw [Finset.sum_comm]
    exact Finset.sum_congr rfl fun b _ => by rw [Finset.sum_mul]

/-- C39: it is the value of `mparray.inner`. -/
theorem C39_inner_prod_mps_eq_inner (x y : MPA R) (hx : x.Valid) (hy : y.Valid) (D : List ℕ)
    (hsx : x.shape = D.map fun d => [d]) (hsy : y.shape = D.map fun d => [d]) (hp : IsProduct x)
    (hpy : ∀ r ∈ y.ranks, 0 < r) : innerProdMps x y = inner x y := by
  rw [C39_inner_prod_mps x y hx hy D hsx hsy hp, C09_inner x y hx hy (hsx.trans hsy.symm)
    (fun r hr => by rw [hp r hr]; exact one_pos) hpy, hsx]

/-- C39: a first argument that is no product, or legs other than one per site, are rejected. -/
theorem C39_inner_prod_mps_rejects (x y : MPA R)
    (h : ¬ IsProduct x ∨ (∃ n ∈ x.ndims, n ≠ 1) ∨ ∃ n ∈ y.ndims, n ≠ 1) : innerProdMps x y = .error .assertion := by
  unfold innerProdMps
  by_cases h1 : ∀ r ∈ x.ranks, r = 1
  · rw [pyAssert_true h1, ok_bind]
    by_cases h2 : ∀ n ∈ x.ndims, n = 1
    · rw [pyAssert_true h2, ok_bind]
      have h3 : ¬ ∀ n ∈ y.ndims, n = 1 := by
        rcases h with h | ⟨n, hn, hn1⟩ | ⟨n, hn, hn1⟩
        · exact absurd h1 h
        · exact absurd (h2 n hn) hn1
        · exact fun hh => hn1 (hh n hn)
      rw [pyAssert_false h3]; rfl
    · rw [pyAssert_false h2]; rfl
  · rw [pyAssert_false h1]; rfl

end inner

section sumup
variable {𝕜 : Type} [RCLike 𝕜]

/-- The weighted sum of the tensors that the MPAs represent. -/
def weightedSum (weights : Option (List 𝕜)) (mpas : List (MPA 𝕜)) (idx : List (List ℕ)) : 𝕜 :=
  ((List.zip (weights.getD (List.replicate mpas.length 1)) mpas).map fun p => p.1 * p.2.val idx).sum

theorem zip_sum_eq (ws : List 𝕜) (xs : List (List (NDArray 𝕜))) (h : ws.length = xs.length) (g : List (NDArray 𝕜) → 𝕜) :
    ((List.zip ws xs).map fun p => p.1 * g p.2).sum = ∑ s ∈ range xs.length, ws.getD s 0 * g (xs.getD s []) := by
  induction xs generalizing ws with
  | nil => simp
  | cons x xs ih =>
    cases ws with
    | nil => simp at h
    | cons w ws =>
      rw [List.length_cons, Finset.sum_range_succ', List.zip_cons_cons, List.map_cons, List.sum_cons, ih ws (by simpa using h)]
      simp [add_comm]

theorem getElem_zipWith_smul (ws : List 𝕜) (ts : List (NDArray 𝕜)) (s : ℕ) (h1 : s < ws.length) (h2 : s < ts.length)
    (a : ℕ) (p : List ℕ) (b : ℕ) :
    ((List.zipWith (fun w (t : NDArray 𝕜) => t.smul w) ws ts)[s]'(by simp; omega)).at3 a p b
      = ws.getD s 0 * (ts.getD s ⟨[], fun _ => 0⟩).at3 a p b := by
  rw [List.getElem_zipWith, getD_eq_getElem' h1, getD_eq_getElem' h2]
  rfl

theorem noTrunc_of {rank n : ℕ} : ∀ (PS : List (List ℕ)) (k : ℕ),
    (∀ j, 0 < j → j < PS.length → min (k * ((PS.take j).map List.prod).prod) n ≤ rank) → NoTrunc rank n k PS
  | [], _, _ => trivial
  | [_], _, _ => trivial
  | P :: Q :: PS, k, h => by
    refine ⟨by simpa using h 1 (by omega) (by simp), noTrunc_of (Q :: PS) _ ?_⟩
    intro j hj hl
    have := h (j + 1) (by omega) (by simp at hl ⊢; omega)
    simpa [mul_assoc] using this

theorem ranks_dropLast {R : Type} : ∀ {ts : List (NDArray R)} {l r : ℕ}, Chained l ts r →
    ts.tail.map NDArray.lb = ts.dropLast.map NDArray.rb
  | [], _, _, _ => rfl
  | [_], _, _, _ => rfl
  | t :: u :: ts, _, _, h => by
    obtain ⟨-, -, h⟩ := h
    have ih := ranks_dropLast h
    obtain ⟨-, h2, -⟩ := h
    rw [List.dropLast_cons_of_ne_nil (by simp), List.map_cons, ← ih, List.tail_cons, List.map_cons, h2]; rfl

theorem flatIdx_ok {S idx : List (List ℕ)} (h : IdxOK idx S) : IdxOK (flatIdx S idx) (S.map fun s => [s.prod]) := by
  induction h with
  | nil => exact .nil
  | cons h _ ih => exact .cons (by simpa using ravelIdx_lt h) ih

theorem flatIdx_same {S idx : List (List ℕ)} (h : IdxOK idx S) : SameRowMajor (S.map fun s => [s.prod]) S (flatIdx S idx) idx := by
  unfold SameRowMajor
  induction h with
  | nil => rfl
  | cons h _ ih =>
    simp only [flatIdx, List.map_cons, List.zipWith_cons_cons] at ih ⊢
    rw [ih]; congr 1
    simp [ravelIdx]

/-- C39: `special.sumup(mpas, rank, weights, svdfunc)` of product MPAs on two or more sites.  The result is a
valid MPA of the same shape whose ranks are at most `rank`.  It claims to be left-canonical up to the last
site, and this claim is true.  It is the orthogonal projection of the weighted sum, and it is equal to the
weighted sum if no cut of the chain needs a rank larger than `rank`. -/
theorem C39_sumup {f : SVDFunc 𝕜} (hf : SVDFuncFull f) (mpas : List (MPA 𝕜)) (S : List (List ℕ)) (rank : ℕ)
    (weights : Option (List 𝕜)) (hne : mpas ≠ []) (hS : 2 ≤ S.length) (hSp : ∀ s ∈ S, ∀ d ∈ s, 0 < d)
    (hv : ∀ x ∈ mpas, x.Valid ∧ x.shape = S ∧ IsProduct x) (hr : 0 < rank)
    (hw : ∀ w, weights = some w → w.length = mpas.length) :
    ∃ y, specialSumup f mpas rank weights = .ok y ∧ y.Valid ∧ y.shape = S ∧ y.l = S.length - 1 ∧ y.r = S.length ∧
      y.CanonOK ∧ (∀ r ∈ y.ranks, 0 < r ∧ r ≤ rank) ∧
      sumSites S (fun i => star (y.val i) * weightedSum weights mpas i) = sumSites S (fun i => star (y.val i) * y.val i) ∧
      ((∀ j, 0 < j → j < S.length → min mpas.length ((S.take j).map List.prod).prod ≤ rank) →
        ∀ idx, IdxOK idx S → y.val idx = weightedSum weights mpas idx) := by
  obtain ⟨P, Q, PS, rfl⟩ : ∃ P Q PS, S = P :: Q :: PS := by
    match S, hS with
    | P :: Q :: PS, _ => exact ⟨P, Q, PS, rfl⟩
  obtain ⟨first, rest, hmp⟩ := List.exists_cons_of_ne_nil hne
  have hfm : first ∈ mpas := by rw [hmp]; simp
  have hlen : ∀ x ∈ mpas, x.len = (P :: Q :: PS).length := by
    intro x hx; rw [← (hv x hx).2.1]; simp [MPA.len, MPA.shape]
  set n := mpas.length with hn
  have hnpos : 0 < n := List.length_pos_of_ne_nil hne
  set ws := weights.getD (List.replicate n 1) with hws
  have hwl : ws.length = n := by
    cases weights with
    | none => simp [hws]
    | some w => simpa [hws] using hw w rfl
  have hprod : ∀ x ∈ mpas.map MPA.lt, ProdLT (P :: Q :: PS) x := by
    intro x hx
    obtain ⟨m, hm, rfl⟩ := List.mem_map.1 hx
    have := chained_ones (hv m hm).1.ne (hv m hm).1.chain rfl rfl (hv m hm).2.2
    have e : physShape m.lt = P :: Q :: PS := (hv m hm).2.1
    rwa [e] at this
  obtain ⟨ps, hps0, hps, hpt⟩ := prodLT_heads _ hprod
  have hpl : ps.length = n := by have := congrArg List.length hps0; simpa using this.symm
  have hPpos : 0 < P.prod := List.prod_pos (hSp P (by simp))
  have hsne : ps.map Prod.fst ≠ [] := by
    intro h; have := congrArg List.length h; simp at this; rw [this] at hpl; simp at hpl; omega
  have hsh : ∀ t ∈ ps.map Prod.fst, t.shape = 1 :: (P ++ [1]) := by
    intro t ht
    obtain ⟨p, hp, rfl⟩ := List.mem_map.1 ht
    exact hps p hp
  -- the first site
  set hs := List.zipWith (fun w (t : NDArray 𝕜) => t.smul w) ws (ps.map Prod.fst) with hhs
  have hhl : hs.length = n := by simp [hhs, hwl, hpl]
  have hhsh : ∀ t ∈ hs, t.shape = 1 :: (P ++ [1]) := by
    intro t ht
    obtain ⟨i, hi, rfl⟩ := List.getElem_of_mem ht
    simp only [hhs, List.getElem_zipWith]
    exact hsh ((ps.map Prod.fst)[i]'(by simp [hhs] at hi ⊢; omega)) (List.getElem_mem _)
  have hrb : ∀ t ∈ hs, t.rb = 1 := fun t ht => (sh1_local (hhsh t ht)).2.2.1
  obtain ⟨c, c1, c2, c3⟩ := concat_last_ok (ts := hs) (P := P) (l := 1) (by
    intro h; rw [h] at hhl; simp at hhl; omega) (fun t ht => by rw [hhsh t ht, hrb t ht])
  rw [sum_map_ones _ _ hrb, hhl] at c2
  have hcl : c.lb = 1 := by simp [NDArray.lb, c2]
  have hcr : c.rb = n := by rw [NDArray.rb, c2, ← List.cons_append, List.getLastD_concat]
  have hcp : c.ph = P := by simp [NDArray.ph, c2]
  obtain ⟨A, m1, m2, m3⟩ := lmat_ok (t := c) (by simp [NDArray.IsLocal, NDArray.ndim, c2]) (by omega)
  simp only [hcl, hcp, hcr] at m1 m2 m3
  have hA : A.shape = [1 * P.prod, n] := by rw [m2]; simp
  have hAg : ∀ b < 1, ∀ q < P.prod, ∀ s < n, A.get [b * P.prod + q, s]
      = ws.getD s 0 * ((ps.map Prod.fst).getD s ⟨[], fun _ => 0⟩).at3 0 (unravelIdx P q) 0 := by
    intro b hb q hq s hs'
    have hb : b = 0 := by omega
    subst hb
    have hin := unravelIdx_inB hq
    have := m3 (0 :: unravelIdx P q) s (.cons (by simp) hin) hs'
    rw [show ravelIdx (1 :: P) (0 :: unravelIdx P q) = 0 * P.prod + q by simp [ravelIdx, ravel_unravel hq]] at this
    rw [this]
    have h3 := c3 0 (unravelIdx P q) s (inB_length hin)
    rw [colGet_ones _ hrb s (by omega)] at h3
    refine Eq.trans h3 ?_
    exact getElem_zipWith_smul ws (ps.map Prod.fst) s (by omega) (by simpa using by omega) _ _ _
  have hSp1 := split_of_svd hf (rank := rank) (r := rank) (M := fun _ s => ws.getD s 0) hr (le_refl _) (by omega) one_pos hPpos hnpos hA hAg
  have hfsp := hf.1 A (1 * P.prod) n rank hA (by omega) hnpos hr
  set k := (f A rank).2.1.length with hk
  obtain ⟨us, u1, u2⟩ := specialRest_ok hf hr hnpos PS Q (ps.map Prod.snd) (f A rank).2.1 (f A rank).2.2 k
    (fun p hp => by
      obtain ⟨s, hs', hp'⟩ := List.mem_flatten.1 hp
      exact hSp s (by simp at hs' ⊢; tauto) p hp') (by simpa using hpl) hpt hfsp.1 rfl hfsp.2.2.2.2.2.1
  have hR := RestOK.step hpl hps rfl hSp1 u2
  rw [← hps0] at hR
  set T := (f A rank).1.reshapeTo [1, P.prod, k] with hT
  set S := P :: Q :: PS with hSdef
  -- the MPA before the last reshape
  have hul : (T :: us).length = S.length := by
    have := congrArg List.length hR.phys; simpa [physShape] using this
  have hxv : (⟨T :: us, ((T :: us).length : ℤ) - 1, ((T :: us).length : ℤ)⟩ : MPA 𝕜).Valid :=
    ⟨by simp, hR.chain, by simp, by simp, le_refl _⟩
  set x : MPA 𝕜 := ⟨T :: us, ((T :: us).length : ℤ) - 1, ((T :: us).length : ℤ)⟩ with hx
  have hxs : x.shape = S.map fun s => [s.prod] := hR.phys
  have hxc : x.CanonOK := by
    intro j t ht
    have hj : j < (T :: us).length := (List.getElem?_eq_some_iff.1 ht).1
    refine ⟨fun h => ?_, fun h => absurd h (by show ¬ (((T :: us).length : ℤ) ≤ j); omega)⟩
    have h : (j : ℤ) < ((T :: us).length : ℤ) - 1 := h
    refine (hR.canon t ?_).1
    rw [List.mem_iff_getElem?]
    refine ⟨j, ?_⟩
    rw [List.getElem?_dropLast, if_pos (by omega)]; exact ht
  have hmk : mkLT (T :: us) (some (((T :: us).length : ℤ) - 1)) none = .ok x := by
    unfold mkLT
    simp only [Option.getD_some, Option.getD_none, pyAssert, adjOK_of_chained hR.chain]
    rw [if_pos (by simp), if_pos ⟨by simp, by omega⟩, if_pos ⟨by simp, by simp⟩]
    rfl
  obtain ⟨y, y1, y2, y3, y4, y5, y6, y7, y8⟩ := C15_reshape x hxv (S.map fun s => (s.map (fun k : ℕ => (k : ℤ)), s)) (by
      rw [hxs, List.forall₂_map_left_iff, List.forall₂_map_right_iff, List.forall₂_same]
      intro s _
      exact ⟨by simp, Or.inl rfl⟩) (Or.inl (by
      intro q hq d hd
      obtain ⟨s, -, rfl⟩ := List.mem_map.1 hq
      obtain ⟨k, -, rfl⟩ := List.mem_map.1 hd
      simp))
  have y3 : y.shape = S := by rw [y3, List.map_map]; simp [Function.comp_def]
  have hval : ∀ idx, IdxOK idx S → y.val idx = mp (T :: us) (flatIdx S idx) 0 0 := by
    intro idx hidx
    exact y7 (flatIdx S idx) idx (by rw [hxs]; exact flatIdx_ok hidx) (by rwa [y3]) (by rw [hxs, y3]; exact flatIdx_same hidx)
  have hsum : ∀ idx, prodSum n (fun _ s => ws.getD s 0) (mpas.map MPA.lt) 0 idx = weightedSum weights mpas idx := by
    intro idx
    have := zip_sum_eq ws (mpas.map MPA.lt) (by simpa using hwl) (fun t => mp t idx 0 0)
    rw [List.length_map] at this
    refine Eq.trans this.symm ?_
    rw [weightedSum, ← hws, List.zip_map_right, List.map_map]
    rfl
  refine ⟨y, ?_, y2, y3, by rw [y5]; show ((T :: us).length : ℤ) - 1 = _; rw [hul], by rw [y6]; show ((T :: us).length : ℤ) = _; rw [hul], y8 hxc, ?_, ?_, ?_⟩
  · unfold specialSumup
    have e1 : mpas.head?.elim (Except.error PyErr.index) Except.ok = .ok first := by rw [hmp]; rfl
    rw [e1, ok_bind, ← hn, ← hws]
    show (pyAssert _ >>= fun _ => pyAssert _ >>= fun _ => _) = _
    rw [pyAssert_true fun x hx => by rw [hlen x hx, hlen first hfm], ok_bind, pyAssert_true hwl, ok_bind,
      if_neg (show ¬ first.len = 1 by rw [hlen first hfm, hSdef]; simp)]
    rw [pyAssert_true (by
      intro x hx
      have h1 := (hv x hx).2.2
      have h2 : x.ranks ≠ [] := by
        intro h
        have := congrArg List.length h
        simp only [MPA.ranks, List.length_map, List.length_tail, List.length_nil] at this
        have := hlen x hx
        simp [MPA.len] at this; omega
      obtain ⟨r, rs, hrs⟩ := List.exists_cons_of_ne_nil h2
      have h1 : ∀ r ∈ x.ranks, r = 1 := h1
      rw [hrs] at h1 ⊢
      rw [List.foldr_cons, h1 r (by simp)]
      have : ∀ l : List ℕ, (∀ r ∈ l, r = 1) → l.foldr max 0 ≤ 1 := by
        intro l
        induction l with
        | nil => simp
        | cons a l ih => intro h; rw [List.foldr_cons, h a (by simp)]; exact max_le (le_refl _) (ih fun r hr => h r (by simp [hr]))
      exact max_eq_left (this rs fun r hr => h1 r (by simp [hr]))), ok_bind]
    unfold specialMany
    rw [hps0, nexts_pairs, ok_bind]
    show (concatLast hs >>= _) = _
    rw [c1, ok_bind, m1, ok_bind]
    have r1 := NDArray.reshape_infer (a := (f A rank).1) (d := P.prod) (s := [1]) (t := [k])
        (by rw [hfsp.2.2.2.2.1]; simp) (by simpa using hfsp.1)
    rw [show (f A rank).1.reshape [1, -1, (k : ℤ)] = .ok T from by simpa using r1, ok_bind]
    have e2 : (mpas.map fun x => x.lt.tail) = ps.map Prod.snd := by
      have := congrArg (List.map List.tail) hps0
      rw [map_tail_pairs, List.map_map] at this
      exact this
    have e3 : first.len - 1 = (Q :: PS).length := by rw [hlen first hfm]; rfl
    rw [e2, e3]
    show (specialRest f rank n (Q :: PS).length (ps.map Prod.snd) (f A rank).2.1 (f A rank).2.2 k >>= _) = _
    rw [u1, ok_bind, hmk, ok_bind, (hv first hfm).2.1]
    rw [← y1, List.map_map]; rfl
  · rw [y4]
    intro r hr
    have : x.ranks = (T :: us).dropLast.map NDArray.rb := ranks_dropLast hR.chain
    rw [this] at hr
    obtain ⟨t, ht, rfl⟩ := List.mem_map.1 hr
    exact (hR.canon t ht).2
  · have := hR.proj
    rw [Finset.sum_range_one, Finset.sum_range_one] at this
    rw [sumSites_congr fun i hi => by rw [hval i hi, ← hsum i], this]
    exact sumSites_congr fun i hi => by rw [hval i hi]
  · intro hex idx hidx
    rw [hval idx hidx, ← hsum idx]
    refine hR.full 1 (le_refl _) (noTrunc_of S 1 fun j hj hjl => ?_) 0 one_pos idx hidx
    have := hex j hj hjl
    rw [one_mul, min_comm]; exact this

/-- C39: a rank that is not smaller than the number of summands is sufficient: nothing is lost, and the result
is the tensor that `mparray.sumup` gives. -/
theorem C39_sumup_exact {f : SVDFunc 𝕜} (hf : SVDFuncFull f) (mpas : List (MPA 𝕜)) (S : List (List ℕ)) (rank : ℕ)
    (weights : Option (List 𝕜)) (hne : mpas ≠ []) (hS : 2 ≤ S.length) (hSp : ∀ s ∈ S, ∀ d ∈ s, 0 < d)
    (hv : ∀ x ∈ mpas, x.Valid ∧ x.shape = S ∧ IsProduct x) (hr : mpas.length ≤ rank)
    (hw : ∀ w, weights = some w → w.length = mpas.length) :
    ∃ y z, specialSumup f mpas rank weights = .ok y ∧ sumup mpas weights = .ok z ∧ y.shape = z.shape ∧
      ∀ idx, IdxOK idx S → y.val idx = weightedSum weights mpas idx ∧ y.val idx = z.val idx := by
  have hpos : 0 < mpas.length := List.length_pos_of_ne_nil hne
  obtain ⟨y, y1, -, y3, -, -, -, -, -, y9⟩ := C39_sumup hf mpas S rank weights hne hS hSp hv (by omega) hw
  obtain ⟨z, z1, z2⟩ := C07_sumup mpas weights S hne (fun m hm => ⟨(hv m hm).1, (hv m hm).2.1⟩) hw
  refine ⟨y, z, y1, z1, by rw [y3, z2.shape], fun idx hidx => ?_⟩
  have := y9 (fun j _ _ => by omega) idx hidx
  exact ⟨this, this.trans (z2.val idx hidx).symm⟩

/-- C39: the squared error is the difference of the squared norms, for every rank. -/
theorem C39_sumup_error {f : SVDFunc 𝕜} (hf : SVDFuncFull f) (mpas : List (MPA 𝕜)) (S : List (List ℕ)) (rank : ℕ)
    (weights : Option (List 𝕜)) (hne : mpas ≠ []) (hS : 2 ≤ S.length) (hSp : ∀ s ∈ S, ∀ d ∈ s, 0 < d)
    (hv : ∀ x ∈ mpas, x.Valid ∧ x.shape = S ∧ IsProduct x) (hr : 0 < rank)
    (hw : ∀ w, weights = some w → w.length = mpas.length) :
    ∃ y, specialSumup f mpas rank weights = .ok y ∧
      (sumSites S fun i => ‖weightedSum weights mpas i - y.val i‖ ^ 2)
        = (sumSites S fun i => ‖weightedSum weights mpas i‖ ^ 2) - sumSites S fun i => ‖y.val i‖ ^ 2 := by
  obtain ⟨y, y1, -, -, -, -, -, -, y8, -⟩ := C39_sumup hf mpas S rank weights hne hS hSp hv hr hw
  refine ⟨y, y1, ?_⟩
  rw [sumSites_normSq] at y8
  refine pythagoras ?_ rfl
  have := congrArg star y8
  rw [star_sumSites] at this
  simp only [star_mul, star_star] at this
  rw [this]
  simp

/-- C39: on one site the weighted sum is exact and the ranks do not matter. -/
theorem C39_sumup_single_site (f : SVDFunc 𝕜) (mpas : List (MPA 𝕜)) (s : List ℕ) (rank : ℕ)
    (weights : Option (List 𝕜)) (hne : mpas ≠ []) (hv : ∀ x ∈ mpas, x.Valid ∧ x.shape = [s])
    (hw : ∀ w, weights = some w → w.length = mpas.length) :
    ∃ y, specialSumup f mpas rank weights = .ok y ∧ y.Valid ∧ y.shape = [s] ∧ y.CanonOK ∧
      ∀ idx, IdxOK idx [s] → y.val idx = weightedSum weights mpas idx := by
  obtain ⟨first, rest, hmp⟩ := List.exists_cons_of_ne_nil hne
  have hfm : first ∈ mpas := by rw [hmp]; simp
  have hlen : ∀ x ∈ mpas, x.len = 1 := by
    intro x hx
    have : x.shape.length = 1 := by rw [(hv x hx).2]; rfl
    simpa [MPA.len, MPA.shape] using this
  set ws := weights.getD (List.replicate mpas.length 1) with hws
  have hwl : ws.length = mpas.length := by
    cases weights with
    | none => simp [hws]
    | some w => simpa [hws] using hw w rfl
  have hlt : ∀ x ∈ mpas, ∃ t : NDArray 𝕜, x.lt = [t] ∧ t.shape = 1 :: (s ++ [1]) := by
    intro x hx
    obtain ⟨t, ht⟩ := List.length_eq_one_iff.1 (hlen x hx)
    have h1 := (hv x hx).1.chain
    have h2 := (hv x hx).2
    rw [ht] at h1
    simp only [MPA.shape, ht, List.map_cons, List.map_nil, List.cons.injEq, and_true] at h2
    obtain ⟨a1, a2, a3⟩ := h1
    have a3 : t.rb = 1 := a3
    have := NDArray.shape_local a1
    rw [a2, a3, h2] at this
    exact ⟨t, ht, this⟩
  obtain ⟨ps, hps0, hps, -⟩ := prodLT_heads (P := s) (PS := []) (mpas.map MPA.lt) (by
    intro l hl
    obtain ⟨x, hx, rfl⟩ := List.mem_map.1 hl
    obtain ⟨t, h1, h2⟩ := hlt x hx
    rw [h1]; exact .cons h2 .nil)
  have hpl : ps.length = mpas.length := by have := congrArg List.length hps0; simpa using this.symm
  set hs := List.zipWith (fun w (t : NDArray 𝕜) => t.smul w) ws (ps.map Prod.fst) with hhs
  have hhl : hs.length = mpas.length := by simp [hhs, hwl, hpl]
  have hhsh : ∀ t ∈ hs, t.shape = 1 :: (s ++ [1]) := by
    intro t ht
    obtain ⟨i, hi, rfl⟩ := List.getElem_of_mem ht
    simp only [hhs, List.getElem_zipWith]
    have hi' : i < ps.length := by simp [hhs] at hi; omega
    have := hps (ps[i]) (List.getElem_mem _)
    simpa [NDArray.smul] using this
  have hpos : 0 < mpas.length := List.length_pos_of_ne_nil hne
  obtain ⟨c, c1, c2, c3⟩ := pySum_ok (ts := hs) (by intro h; rw [h] at hhl; simp at hhl; omega) hhsh
  have hloc : c.IsLocal := by simp [NDArray.IsLocal, NDArray.ndim, c2]
  have hch : Chained 1 [c] 1 := ⟨hloc, by simp [NDArray.lb, c2], by show c.rb = 1; rw [NDArray.rb, c2, ← List.cons_append, List.getLastD_concat]⟩
  refine ⟨⟨[c], 0, 1⟩, ?_, valid_mk (by simp) hch, by simp [MPA.shape, NDArray.ph, c2], canonOK_mk _, ?_⟩
  · unfold specialSumup
    have e1 : mpas.head?.elim (Except.error PyErr.index) Except.ok = .ok first := by rw [hmp]; rfl
    rw [e1, ok_bind, ← hws]
    show (pyAssert _ >>= fun _ => pyAssert _ >>= fun _ => _) = _
    rw [pyAssert_true fun x hx => by rw [hlen x hx, hlen first hfm], ok_bind, pyAssert_true hwl, ok_bind,
      if_pos (hlen first hfm), hps0, nexts_pairs, ok_bind]
    show (pySum hs >>= _) = _
    rw [c1, ok_bind]; exact mkMPA_ok (by simp) hch
  · intro idx hidx
    cases hidx with
    | @cons p _ idx _ hp hidx =>
    cases hidx
    have : entry [c] [p] = c.at3 0 p 0 := by
      show mp [c] [p] 0 0 = _
      rw [mp, (sh1_local c2).2.2.1]; simp [mp]
    show entry [c] [p] = _
    rw [this, NDArray.at3, c3 _ (.cons (by simp) (inB_append hp (by simp)))]
    have h2 := zip_sum_eq ws (mpas.map MPA.lt) (by simpa using hwl) (fun t => mp t [p] 0 0)
    rw [List.zip_map_right, List.map_map] at h2
    rw [weightedSum, ← hws]
    refine Eq.trans ?_ h2.symm
    rw [List.length_map, hps0]
    have h3 : ∀ (ws : List 𝕜) (ps : List (NDArray 𝕜 × List (NDArray 𝕜))), ws.length = ps.length →
        ((List.zipWith (fun w (t : NDArray 𝕜) => t.smul w) ws (ps.map Prod.fst)).map fun t => t.get (0 :: (p ++ [0]))).sum
          = ∑ s ∈ range ps.length, ws.getD s 0 * ((ps.map Prod.fst).getD s ⟨[], fun _ => 0⟩).get (0 :: (p ++ [0])) := by
      intro ws ps
      induction ps generalizing ws with
      | nil => intro _; simp
      | cons q ps ih =>
        intro h
        cases ws with
        | nil => simp at h
        | cons w ws =>
          rw [List.length_cons, Finset.sum_range_succ', List.map_cons, List.zipWith_cons_cons, List.map_cons, List.sum_cons,
            ih ws (by simpa using h)]
          simp [add_comm, NDArray.smul]
    rw [hhs, h3 ws ps (by omega), hpl]
    refine Finset.sum_congr rfl fun i hi => ?_
    have hi : i < ps.length := by rw [hpl]; simpa using hi
    congr 1
    rw [getD_eq_getElem' (by simpa using hi), getD_eq_getElem' (by simpa using hi), List.getElem_map, List.getElem_map]
    have hm : (ps[i].1 :: ps[i].2) ∈ mpas.map MPA.lt := by
      rw [hps0]; exact List.mem_map.2 ⟨ps[i], List.getElem_mem _, rfl⟩
    obtain ⟨x, hx, hxe⟩ := List.mem_map.1 hm
    obtain ⟨t, ht, -⟩ := hlt x hx
    rw [ht] at hxe
    have h5 : ps[i].2 = [] := by injection hxe with _ h; exact h.symm
    rw [h5, mp, (sh1_local (hps _ (List.getElem_mem _))).2.2.1]
    simp [mp, NDArray.at3]

/-- C39, error branches: no MPA at all, different numbers of sites, a wrong number of weights, a summand that is
no product. -/
theorem C39_sumup_rejects (f : SVDFunc 𝕜) (rank : ℕ) (weights : Option (List 𝕜)) (first : MPA 𝕜) (rest : List (MPA 𝕜)) :
    specialSumup f [] rank weights = .error .index ∧
    ((∃ x ∈ rest, x.len ≠ first.len) → specialSumup f (first :: rest) rank weights = .error .assertion) ∧
    ((∃ w, weights = some w ∧ w.length ≠ (first :: rest).length) → specialSumup f (first :: rest) rank weights = .error .assertion) ∧
    (2 ≤ first.len → (∃ x ∈ first :: rest, ∃ r ∈ x.ranks, 1 < r) →
      specialSumup f (first :: rest) rank weights = .error .assertion) := by
  have key : ∀ (P : Prop), (P → ¬ (∀ x ∈ first :: rest, x.len = first.len) ∨
      ¬ (weights.getD (List.replicate (first :: rest).length 1)).length = (first :: rest).length ∨
      (first.len ≠ 1 ∧ ¬ ∀ x ∈ first :: rest, x.ranks.foldr max 0 = 1)) → P →
      specialSumup f (first :: rest) rank weights = .error .assertion := by
    intro P h hP
    unfold specialSumup
    show (pyAssert _ >>= fun _ => pyAssert _ >>= fun _ => _) = _
    by_cases h1 : ∀ x ∈ first :: rest, x.len = first.len
    · rw [pyAssert_true h1, ok_bind]
      by_cases h2 : (weights.getD (List.replicate (first :: rest).length 1)).length = (first :: rest).length
      · rw [pyAssert_true h2, ok_bind]
        rcases h hP with h | h | ⟨h, h'⟩
        · exact absurd h1 h
        · exact absurd h2 h
        · rw [if_neg h, pyAssert_false h']; rfl
      · rw [pyAssert_false h2]; rfl
    · rw [pyAssert_false h1]; rfl
  refine ⟨rfl, key _ ?_, key _ ?_, fun hl => key _ ?_⟩
  · rintro ⟨x, hx, hne⟩
    exact Or.inl fun h => hne (h x (by simp [hx]))
  · rintro ⟨w, rfl, hne⟩
    exact Or.inr (Or.inl hne)
  · rintro ⟨x, hx, r, hr, h1⟩
    refine Or.inr (Or.inr ⟨by omega, fun h => ?_⟩)
    have h2 := h x hx
    have h3 : ∀ l : List ℕ, r ∈ l → r ≤ l.foldr max 0 := by
      intro l
      induction l with
      | nil => simp
      | cons a l ih =>
        intro h
        rcases List.mem_cons.1 h with rfl | h
        · exact le_max_left _ _
        · exact le_trans (ih h) (le_max_right _ _)
    have := h3 _ hr
    omega

/-- A product of two sites with the given vectors. -/
def exProduct (a b : ℕ → ℂ) : MPA ℂ :=
  ⟨[⟨[1, 2, 1], fun i => a (i.getD 1 0)⟩, ⟨[1, 3, 1], fun i => b (i.getD 1 0)⟩], 0, 2⟩

/-- Non-vacuity of the C39 theorems: the sum of three products on two sites, in two dimensions and three, with
rank 2. -/
example : ∃ f : SVDFunc ℂ, SVDFuncFull f ∧ ∃ mpas : List (MPA ℂ), mpas.length = 3 ∧
    (∀ x ∈ mpas, x.Valid ∧ x.shape = [[2], [3]] ∧ IsProduct x) ∧ (∀ s ∈ [[2], [3]], ∀ d ∈ s, 0 < d) ∧
    (∀ j, 0 < j → j < [[2], [3]].length → min mpas.length ((([[2], [3]] : List (List ℕ)).take j).map List.prod).prod ≤ 2) := by
  obtain ⟨svd, h⟩ := exists_SVDSpec (𝕜 := ℂ)
  refine ⟨_, truncatedSvd_full h, [exProduct (fun _ => 1) (fun _ => 1), exProduct (fun i => i) (fun _ => 2),
    exProduct (fun i => 1 - i) (fun i => i)], rfl, ?_, by simp, ?_⟩
  · intro x hx
    have : ∃ a b, x = exProduct a b := by
      simp only [List.mem_cons, List.not_mem_nil, or_false] at hx
      rcases hx with rfl | rfl | rfl <;> exact ⟨_, _, rfl⟩
    obtain ⟨a, b, rfl⟩ := this
    exact ⟨⟨by simp [exProduct], ⟨by simp [NDArray.IsLocal, NDArray.ndim], rfl, by simp [NDArray.IsLocal, NDArray.ndim], rfl, rfl⟩,
      by simp [exProduct], by simp [exProduct], by simp [exProduct, MPA.len]⟩, rfl, by simp [IsProduct, MPA.ranks, exProduct, NDArray.lb]⟩
  · intro j h1 h2
    have : j = 1 := by simp at h2; omega
    subst this; simp

/-- A finding: `inner_prod_mps` does not compare the lengths.  A second argument with more sites gives a
number (here the sum over one bond value only) where `mparray.inner` raises an `AssertionError`. -/
theorem C39_inner_prod_mps_length_unchecked : ∃ x y : MPA ℤ, x.Valid ∧ y.Valid ∧ x.len = 1 ∧ y.len = 2 ∧
    innerProdMps x y = .ok 5 ∧ inner x y = .error .assertion := by
  refine ⟨⟨[⟨[1, 1, 1], fun _ => 1⟩], 0, 1⟩,
    ⟨[⟨[1, 1, 2], fun i => 5 + (i.getD 2 0 : ℕ)⟩, ⟨[2, 1, 1], fun _ => 1⟩], 0, 2⟩,
    ⟨by simp, ⟨by simp [NDArray.IsLocal, NDArray.ndim], rfl, rfl⟩, by simp, by simp, by simp [MPA.len]⟩,
    ⟨by simp, ⟨by simp [NDArray.IsLocal, NDArray.ndim], rfl, by simp [NDArray.IsLocal, NDArray.ndim], rfl, rfl⟩,
      by simp, by simp, by simp [MPA.len]⟩, rfl, rfl, ?_, ?_⟩
  · rfl
  · rfl

end sumup
end Mpnum
