import Verif.Special
import Verif.MPArray.CompressLemmas
import Verif.MPArray.SumLemmas
import Verif.MPArray.Matricize
import Verif.Props.C34

/-! Lemmas about `special.sumup`. -/

open Finset

namespace Mpnum

variable {𝕜 : Type} [RCLike 𝕜]

/-- Contract for the argument `svdfunc` of `special.sumup`: the singular vectors and values returned are the
first `min(k, m, n)`, so that nothing is lost if `k` is not smaller than both dimensions. -/
def SVDFuncFull (f : SVDFunc 𝕜) : Prop :=
  SVDFuncSpec f ∧ ∀ (A : NDArray 𝕜) (m n k : ℕ), A.shape = [m, n] → 0 < m → 0 < n → 0 < k →
    (f A k).2.1.length = min k (min m n) ∧
    (min m n ≤ k → ∀ i < m, ∀ j < n, A.get [i, j] = ∑ c ∈ range (min m n),
      (f A k).1.get [i, c] * (((f A k).2.1.getD c 0 : ℝ) : 𝕜) * (f A k).2.2.get [c, j])

theorem truncatedSvd_full {svd : SVD 𝕜} (h : SVDSpec svd) : SVDFuncFull (truncatedSvd svd) := by
  refine ⟨truncatedSvd_spec h, ?_⟩
  intro A m n k hA hm hn hk
  obtain ⟨h1, h2, h3, -, -, -, -, h8⟩ := h A m n hA
  refine ⟨by simp only [truncatedSvd, List.length_take, h2]; omega, ?_⟩
  intro hle i hi j hj
  rw [h8 i hi j hj]
  refine Finset.sum_congr rfl fun c hc => ?_
  have hc : c < min m n := by simpa using hc
  show _ = (svd A).1.get [i, c] * _ * (svd A).2.2.get [c, j]
  congr 3
  simp only [truncatedSvd, h2]
  rw [getD_take _ _ _ _ (by omega)]

/-- All tensors of a product MPA: both ranks are 1. -/
def ProdLT (PS : List (List ℕ)) (x : List (NDArray 𝕜)) : Prop :=
  List.Forall₂ (fun t P => t.shape = 1 :: (P ++ [1])) x PS

theorem sh1_local {t : NDArray 𝕜} {P : List ℕ} (h : t.shape = 1 :: (P ++ [1])) :
    t.IsLocal ∧ t.lb = 1 ∧ t.rb = 1 ∧ t.ph = P := by
  refine ⟨by simp [NDArray.IsLocal, NDArray.ndim, h], by simp [NDArray.lb, h], ?_, ?_⟩
  · rw [NDArray.rb, h, ← List.cons_append, List.getLastD_concat]
  · simp [NDArray.ph, h]

/-- What is known after a factorisation `M b s * g s q ≈ ∑ c, T[b, q, c] * M' c s`. -/
structure SplitOK (rank k d n t : ℕ) (M g : ℕ → ℕ → 𝕜) (T : NDArray 𝕜) (M' : ℕ → ℕ → 𝕜) : Prop where
  shape : T.shape = [k, d, t]
  tpos : 0 < t
  tle : t ≤ rank
  tkd : t ≤ k * d
  canon : ∀ c < t, ∀ c' < t, ∑ b ∈ range k, ∑ q ∈ range d, star (T.at3 b [q] c) * T.at3 b [q] c' = if c = c' then 1 else 0
  proj : ∀ c < t, ∀ s < n, ∑ b ∈ range k, ∑ q ∈ range d, star (T.at3 b [q] c) * (M b s * g s q) = M' c s
  full : min (k * d) n ≤ rank → ∀ b < k, ∀ q < d, ∀ s < n, M b s * g s q = ∑ c ∈ range t, T.at3 b [q] c * M' c s

theorem sum_range_blocks (k d : ℕ) (g : ℕ → 𝕜) :
    ∑ i ∈ range (k * d), g i = ∑ b ∈ range k, ∑ q ∈ range d, g (b * d + q) := by
  have := sumIdx_ravel [k, d] g
  rw [show ([k, d] : List ℕ).prod = k * d by simp] at this
  rw [← this]
  simp [sumIdx, ravelIdx]

theorem split_of_svd {f : SVDFunc 𝕜} (hf : SVDFuncFull f) {rank k d n r : ℕ} (hr : 0 < r) (hrr : r ≤ rank)
    (hr2 : min (k * d) n ≤ rank → min (k * d) n ≤ r) (hk : 0 < k)
    (hd : 0 < d) (hn : 0 < n) {M g : ℕ → ℕ → 𝕜} {A : NDArray 𝕜} (hA : A.shape = [k * d, n])
    (hAg : ∀ b < k, ∀ q < d, ∀ s < n, A.get [b * d + q, s] = M b s * g s q) :
    SplitOK rank k d n (f A r).2.1.length M g ((f A r).1.reshapeTo [k, d, (f A r).2.1.length])
      (fun c s => (((f A r).2.1.getD c 0 : ℝ) : 𝕜) * (f A r).2.2.get [c, s]) := by
  obtain ⟨h1, h2, h3, h4, h5, h6, h7⟩ := hf.1 A (k * d) n r hA (Nat.mul_pos hk hd) hn hr
  obtain ⟨g1, g2⟩ := hf.2 A (k * d) n r hA (Nat.mul_pos hk hd) hn hr
  set t := (f A r).2.1.length with ht
  have hget : ∀ b < k, ∀ q < d, ∀ c < t, ((f A r).1.reshapeTo [k, d, t]).at3 b [q] c = (f A r).1.get [b * d + q, c] := by
    intro b hb q hq c hc
    have := NDArray.reshapeTo_blocks2 (a := (f A r).1) (S := [k * d]) (S' := [t]) (T := [k, d]) (T' := [t])
      (i := [b, q]) (j := [c]) h5 (by simp) rfl (by simp [hb, hq]) (by simp [hc])
    rw [NDArray.at3]
    refine Eq.trans this ?_
    have hlt : b * d + q < k * d := by nlinarith
    congr 1
    simp [ravelIdx, unravelIdx, Nat.mod_eq_of_lt hlt, Nat.mod_eq_of_lt hc]
  refine ⟨rfl, h1, by omega, h3, ?_, ?_, ?_⟩
  · intro c hc c' hc'
    rw [← h7.ucols c hc c' hc', sum_range_blocks]
    refine Finset.sum_congr rfl fun b hb => Finset.sum_congr rfl fun q hq => ?_
    rw [hget b (by simpa using hb) q (by simpa using hq) c hc, hget b (by simpa using hb) q (by simpa using hq) c' hc']
  · intro c hc s hs
    rw [← h7.uA c hc s hs, sum_range_blocks]
    refine Finset.sum_congr rfl fun b hb => Finset.sum_congr rfl fun q hq => ?_
    rw [hget b (by simpa using hb) q (by simpa using hq) c hc, hAg b (by simpa using hb) q (by simpa using hq) s hs]
  · intro hle b hb q hq s hs
    have hlt : b * d + q < k * d := by nlinarith
    rw [← hAg b hb q hq s hs, g2 (hr2 hle) _ hlt s hs]
    have : min (k * d) n = t := by have := hr2 hle; omega
    rw [this]
    refine Finset.sum_congr rfl fun c hc => ?_
    rw [hget b hb q hq c (by simpa using hc), mul_assoc]

theorem getD_eq_getElem' {α : Type} {l : List α} {z : α} {n : ℕ} (h : n < l.length) : l.getD n z = l[n] := by
  rw [List.getD_eq_getElem?_getD, List.getElem?_eq_getElem h]; rfl

theorem rowGet_ones (hs : List (NDArray 𝕜)) (h : ∀ t ∈ hs, t.lb = 1) (s : ℕ) (hsl : s < hs.length) (p : List ℕ) (b : ℕ) :
    rowGet hs s p b = (hs[s]).at3 0 p b := by
  induction hs generalizing s with
  | nil => simp at hsl
  | cons t ts ih =>
    rw [rowGet, h t (by simp)]
    cases s with
    | zero => simp
    | succ s =>
      rw [if_neg (by omega), Nat.add_sub_cancel]
      exact ih (fun t ht => h t (by simp [ht])) s (by simpa using hsl)

theorem colGet_ones (hs : List (NDArray 𝕜)) (h : ∀ t ∈ hs, t.rb = 1) (s : ℕ) (hsl : s < hs.length) (a : ℕ) (p : List ℕ) :
    colGet hs a p s = (hs[s]).at3 a p 0 := by
  induction hs generalizing s with
  | nil => simp at hsl
  | cons t ts ih =>
    rw [colGet, h t (by simp)]
    cases s with
    | zero => simp
    | succ s =>
      rw [if_neg (by omega), Nat.add_sub_cancel]
      exact ih (fun t ht => h t (by simp [ht])) s (by simpa using hsl)

theorem sum_map_ones {α : Type} (l : List α) (g : α → ℕ) (h : ∀ t ∈ l, g t = 1) : (l.map g).sum = l.length := by
  induction l with
  | nil => rfl
  | cons a l ih => rw [List.map_cons, List.sum_cons, h a (by simp), ih fun t ht => h t (by simp [ht])]; simp; omega

theorem ravelA_get {t : NDArray 𝕜} {P : List ℕ} (h : t.shape = 1 :: (P ++ [1])) (q : ℕ) (hq : q < P.prod) :
    (ravelA t).get [q] = t.at3 0 (unravelIdx P q) 0 := by
  unfold ravelA
  have e : t.shape.prod = P.prod := by rw [h]; simp
  have := NDArray.reshapeTo_blocks3 (a := t) (S := [1]) (S' := P) (S'' := [1]) (T := []) (T' := [P.prod]) (T'' := [])
    (i := []) (j := [q]) (k := []) (by rw [h]; rfl) (by simp) (by simp) (by simp) (by simp) (by simp [hq]) (by simp)
  rw [e]
  refine Eq.trans this ?_
  simp [ravelIdx, unravelIdx, NDArray.at3]

theorem flatten_replicate_getD {α : Type} (l : List α) (d p s : ℕ) (hp : p < d) (hs : s < l.length) (z : α) :
    ((List.replicate d l).flatten).getD (p * l.length + s) z = l.getD s z := by
  induction d generalizing p with
  | zero => omega
  | succ d ih =>
    rw [List.replicate_succ, List.flatten_cons]
    cases p with
    | zero => simp [List.getD_eq_getElem?_getD, List.getElem?_append_left hs]
    | succ p =>
      rw [List.getD_eq_getElem?_getD, List.getElem?_append_right (by nlinarith),
        show (p + 1) * l.length + s - l.length = p * l.length + s by rw [Nat.add_mul]; omega,
        ← List.getD_eq_getElem?_getD]
      exact ih p (by omega)

/-- The matrix of `_local_add_sparse`: column `q * n + s'` holds entry `q` of summand `s'` in row `s'`. -/
theorem localAddSparse_ok {hs : List (NDArray 𝕜)} {P : List ℕ} (hne : hs ≠ [])
    (h : ∀ t ∈ hs, t.shape = 1 :: (P ++ [1])) :
    ∃ c, localAddSparse (hs.map ravelA) = .ok c ∧ c.shape = [hs.length, P.prod * hs.length] ∧
      ∀ s < hs.length, ∀ q < P.prod, ∀ s', (hs' : s' < hs.length) →
        c.get [s, q * hs.length + s'] = if s = s' then (hs[s']).at3 0 (unravelIdx P q) 0 else 0 := by
  obtain ⟨t, us, rfl⟩ := List.exists_cons_of_ne_nil hne
  set hs := t :: us with hhs
  have hsh : ∀ t ∈ hs, (ravelA t).shape = [P.prod] := by
    intro t ht; simp [ravelA, NDArray.reshapeTo, h t ht]
  have hlen : (hs.map ravelA).length = hs.length := by simp
  obtain ⟨c, c1, c2, c3⟩ := concat_first_ok (ts := (hs.map ravelA).map rowVec) (P := []) (r := P.prod) (by simp [hhs]) (by
    intro u hu
    simp only [List.mem_map, exists_exists_and_eq_and] at hu
    obtain ⟨a, ha, rfl⟩ := hu
    simp [rowVec, hsh a ha, NDArray.lb])
  have hlb : ∀ u ∈ (hs.map ravelA).map rowVec, u.lb = 1 := by
    intro u hu
    obtain ⟨a, ha, rfl⟩ := List.mem_map.1 hu
    simp [rowVec, NDArray.lb]
  rw [sum_map_ones _ _ hlb, List.length_map, List.length_map] at c2
  have hcsh : c.shape = [hs.length, P.prod] := by simpa using c2
  have hcg : ∀ s, (hs' : s < hs.length) → ∀ q < P.prod, c.get [s, q] = (hs[s]).at3 0 (unravelIdx P q) 0 := by
    intro s hs' q hq
    have := c3 s [] q
    rw [rowGet_ones _ hlb s (by simpa using hs')] at this
    refine Eq.trans this ?_
    rw [List.getElem_map, List.getElem_map]
    show (ravelA hs[s]).get [q] = _
    exact ravelA_get (h _ (List.getElem_mem _)) q hq
  have hnd : c.ndim = 2 := by simp [NDArray.ndim, hcsh]
  refine ⟨cscMatrix (ravelA (c.rollaxisTo 1 0)) ((List.replicate P.prod (List.range hs.length)).flatten)
      (List.range (hs.length * P.prod + 1)) hs.length (P.prod * hs.length), ?_, rfl, ?_⟩
  · unfold localAddSparse
    have e1 : (hs.map ravelA).head?.elim (Except.error PyErr.index) Except.ok = .ok (ravelA t) := rfl
    rw [e1, ok_bind]
    show (NDArray.concatenate _ 0 >>= _) = _
    rw [c1, ok_bind, NDArray.rollaxis_ok (by omega) (by omega), ok_bind, hlen]
    rw [hsh t (by simp [hhs])]; rfl
  · intro s hs1 q hq s' hs'
    have hcol : q * hs.length + s' < hs.length * P.prod := by nlinarith
    simp only [cscMatrix, List.getD_cons_zero, List.getD_cons_succ]
    have r1 : ∀ j ≤ hs.length * P.prod, (List.range (hs.length * P.prod + 1)).getD j 0 = j := by
      intro j hj
      rw [getD_eq_getElem' (by simpa using by omega)]; simp
    rw [r1 _ (by omega), r1 _ (by omega), Finset.sum_Ico_succ_top (le_refl _), Finset.Ico_self, Finset.sum_empty, zero_add]
    have r2 : ((List.replicate P.prod (List.range hs.length)).flatten).getD (q * hs.length + s') 0 = s' := by
      have := flatten_replicate_getD (List.range hs.length) P.prod q s' hq (by simpa using hs') 0
      rw [List.length_range] at this
      rw [this, getD_eq_getElem' (by simpa using hs')]; simp
    rw [r2]
    have hroll : ∀ i j, (c.rollaxisTo 1 0).get [i, j] = c.get [j, i] := by
      intro i j
      have := NDArray.rollaxisTo_left_get (a := c) (A := []) (B := [j]) (C := []) (x := i) (axis := 1) (start := 0)
      simpa [hnd] using this
    have hrs : (c.rollaxisTo 1 0).shape = [P.prod, hs.length] := by
      have := NDArray.rollaxisTo_left_shape (a := c) (A := []) (B := [hs.length]) (C := []) (x := P.prod) (axis := 1) (start := 0)
      simpa [hnd, hcsh] using this
    have hdat : (ravelA (c.rollaxisTo 1 0)).get [q * hs.length + s'] = (hs[s']).at3 0 (unravelIdx P q) 0 := by
      rw [← hcg s' hs' q hq, ← hroll q s']
      unfold ravelA
      rw [NDArray.reshapeTo_get, hrs]
      congr 1
      have hdiv : (q * hs.length + s') / hs.length = q := by
        rw [Nat.add_div_of_dvd_right (by simp), Nat.mul_div_cancel _ (by omega), Nat.div_eq_of_lt hs']; simp
      simp [ravelIdx, unravelIdx, hdiv, Nat.mod_eq_of_lt hq, Nat.mod_eq_of_lt hs']
    rw [hdat]
    by_cases h : s = s' <;> simp [h, eq_comm]

/-- Flattened physical indices. -/
def flatIdx (PS idx : List (List ℕ)) : List (List ℕ) := List.zipWith (fun P i => [ravelIdx P i]) PS idx

/-- The sum of the products `xs` with coefficients `M b s`. -/
noncomputable def prodSum (n : ℕ) (M : ℕ → ℕ → 𝕜) (xs : List (List (NDArray 𝕜))) (b : ℕ) (idx : List (List ℕ)) : 𝕜 :=
  ∑ s ∈ range n, M b s * mp (xs.getD s []) idx 0 0

/-- No truncation happens with the given rank if `k` bounds the rank to the left. -/
def NoTrunc (rank n : ℕ) : ℕ → List (List ℕ) → Prop
  | _, [] => True
  | _, [_] => True
  | k, P :: Q :: PS => min (k * P.prod) n ≤ rank ∧ NoTrunc rank n (k * P.prod) (Q :: PS)

/-- What `specialRest` guarantees. -/
structure RestOK (rank n : ℕ) (M : ℕ → ℕ → 𝕜) (xs : List (List (NDArray 𝕜))) (k : ℕ) (PS : List (List ℕ))
    (us : List (NDArray 𝕜)) : Prop where
  chain : Chained k us 1
  phys : physShape us = PS.map fun P => [P.prod]
  canon : ∀ t ∈ us.dropLast, LCanon t ∧ 0 < t.rb ∧ t.rb ≤ rank
  proj : ∑ b ∈ range k, sumSites PS (fun idx => star (mp us (flatIdx PS idx) b 0) * prodSum n M xs b idx)
    = ∑ b ∈ range k, sumSites PS (fun idx => star (mp us (flatIdx PS idx) b 0) * mp us (flatIdx PS idx) b 0)
  full : ∀ K, k ≤ K → NoTrunc rank n K PS → ∀ b < k, ∀ idx, IdxOK idx PS → mp us (flatIdx PS idx) b 0 = prodSum n M xs b idx

theorem NoTrunc.mono {rank n : ℕ} : ∀ {PS : List (List ℕ)} {k K : ℕ}, k ≤ K → NoTrunc rank n K PS → NoTrunc rank n k PS
  | [], _, _, _, _ => trivial
  | [_], _, _, _, _ => trivial
  | P :: Q :: PS, k, K, h, hK => by
    have h1 : k * P.prod ≤ K * P.prod := Nat.mul_le_mul_right _ h
    exact ⟨by have := hK.1; omega, hK.2.mono h1⟩

/-- Sums over one site against an isometry. -/
theorem iso_sum {P : List ℕ} {k t : ℕ} (T : NDArray 𝕜) (Y : ℕ → 𝕜) (Z : ℕ → ℕ → 𝕜) :
    ∑ b ∈ range k, sumIdx P (fun p => star (∑ c ∈ range t, T.at3 b [ravelIdx P p] c * Y c) * Z b (ravelIdx P p))
      = ∑ c ∈ range t, star (Y c) * ∑ b ∈ range k, ∑ q ∈ range P.prod, star (T.at3 b [q] c) * Z b q := by
  have e : ∀ b, sumIdx P (fun p => star (∑ c ∈ range t, T.at3 b [ravelIdx P p] c * Y c) * Z b (ravelIdx P p))
      = ∑ c ∈ range t, star (Y c) * ∑ q ∈ range P.prod, star (T.at3 b [q] c) * Z b q := by
    intro b
    rw [sumIdx_ravel P fun q => star (∑ c ∈ range t, T.at3 b [q] c * Y c) * Z b q]
    simp only [star_sum, Finset.sum_mul, Finset.mul_sum, star_mul]
    rw [Finset.sum_comm]
    exact Finset.sum_congr rfl fun c _ => Finset.sum_congr rfl fun q _ => by ring
  rw [Finset.sum_congr rfl fun b _ => e b, Finset.sum_comm]
  exact Finset.sum_congr rfl fun c _ => by rw [Finset.mul_sum]

/-- One more site in front. -/
theorem RestOK.step {rank k d n t : ℕ} {M M' : ℕ → ℕ → 𝕜} {T : NDArray 𝕜} {xs : List (NDArray 𝕜 × List (NDArray 𝕜))}
    {P Q : List ℕ} {PS : List (List ℕ)} {us : List (NDArray 𝕜)} (hn : xs.length = n)
    (hsh : ∀ x ∈ xs, x.1.shape = 1 :: (P ++ [1])) (hd : P.prod = d)
    (hS : SplitOK rank k d n t M (fun s q => ((xs.map Prod.fst).getD s ⟨[], fun _ => 0⟩).at3 0 (unravelIdx P q) 0) T M')
    (hR : RestOK rank n M' (xs.map Prod.snd) t (Q :: PS) us) :
    RestOK rank n M (xs.map fun x => x.1 :: x.2) k (P :: Q :: PS) (T :: us) := by
  subst hd
  have hTl : T.lb = k := by simp [NDArray.lb, hS.shape]
  have hTr : T.rb = t := by simp [NDArray.rb, hS.shape]
  have hTp : T.ph = [P.prod] := by simp [NDArray.ph, hS.shape]
  have hloc : T.IsLocal := by simp [NDArray.IsLocal, NDArray.ndim, hS.shape]
  have hune : us ≠ [] := by
    rintro rfl; have := hR.phys; simp [physShape] at this
  -- products over all sites
  have hmp : ∀ s < n, ∀ p idx, InB p P → mp ((xs.map fun x => x.1 :: x.2).getD s []) (p :: idx) 0 0
      = ((xs.map Prod.fst).getD s ⟨[], fun _ => 0⟩).at3 0 (unravelIdx P (ravelIdx P p)) 0 * mp ((xs.map Prod.snd).getD s []) idx 0 0 := by
    intro s hs p idx hp
    have e1 : (xs.map fun x => x.1 :: x.2).getD s [] = (xs[s]'(by omega)).1 :: (xs[s]'(by omega)).2 := by
      rw [getD_eq_getElem' (by simpa using by omega)]; simp
    have e2 : (xs.map Prod.snd).getD s [] = (xs[s]'(by omega)).2 := by
      rw [getD_eq_getElem' (by simpa using by omega)]; simp
    have e3 : (xs.map Prod.fst).getD s ⟨[], fun _ => 0⟩ = (xs[s]'(by omega)).1 := by
      rw [getD_eq_getElem' (by simpa using by omega)]; simp
    rw [e1, e2, e3, mp, (sh1_local (hsh _ (List.getElem_mem _))).2.2.1, Finset.sum_range_one, unravel_ravel hp]
  have htgt : ∀ b p idx, InB p P → prodSum n M (xs.map fun x => x.1 :: x.2) b (p :: idx)
      = ∑ s ∈ range n, (M b s * ((xs.map Prod.fst).getD s ⟨[], fun _ => 0⟩).at3 0 (unravelIdx P (ravelIdx P p)) 0) *
          mp ((xs.map Prod.snd).getD s []) idx 0 0 := by
    intro b p idx hp
    refine Finset.sum_congr rfl fun s hs => ?_
    rw [hmp s (by simpa using hs) p idx hp, mul_assoc]
  have hR' : ∀ b p idx, mp (T :: us) (flatIdx (P :: Q :: PS) (p :: idx)) b 0
      = ∑ c ∈ range t, T.at3 b [ravelIdx P p] c * mp us (flatIdx (Q :: PS) idx) c 0 := by
    intro b p idx
    show mp (T :: us) ([ravelIdx P p] :: flatIdx (Q :: PS) idx) b 0 = _
    rw [mp, hTr]
  have hswap : ∀ F : ℕ → List (List ℕ) → 𝕜,
      ∑ b ∈ range k, sumSites (P :: Q :: PS) (fun idx => F b idx)
        = sumSites (Q :: PS) fun idx => ∑ b ∈ range k, sumIdx P fun p => F b (p :: idx) := by
    intro F
    rw [sumSites_sum_comm]
    refine Finset.sum_congr rfl fun b _ => ?_
    exact (sumSites_sumIdx_comm (Q :: PS) P fun idx p => F b (p :: idx)).symm
  refine ⟨⟨hloc, hTl, hTr ▸ hR.chain⟩, ?_, ?_, ?_, ?_⟩
  · have := hR.phys
    simp only [physShape, List.map_cons, hTp] at this ⊢
    rw [this]
  · intro u hu
    rw [List.dropLast_cons_of_ne_nil hune] at hu
    rcases List.mem_cons.1 hu with rfl | hu
    · refine ⟨?_, by rw [hTr]; exact hS.tpos, by rw [hTr]; exact hS.tle⟩
      intro c hc c' hc'
      rw [hTl, hTp, ← hS.canon c (by omega) c' (by omega)]
      simp [sumIdx]
    · exact hR.canon u hu
  · rw [hswap, hswap]
    have e1 : ∀ idx, ∑ b ∈ range k, sumIdx P (fun p => star (mp (T :: us) (flatIdx (P :: Q :: PS) (p :: idx)) b 0) *
          prodSum n M (xs.map fun x => x.1 :: x.2) b (p :: idx))
        = ∑ c ∈ range t, star (mp us (flatIdx (Q :: PS) idx) c 0) * prodSum n M' (xs.map Prod.snd) c idx := by
      intro idx
      rw [Finset.sum_congr rfl fun b _ => sumIdx_congr fun p hp => by rw [hR', htgt b p idx hp]]
      rw [iso_sum T (fun c => mp us (flatIdx (Q :: PS) idx) c 0) (fun b q => ∑ s ∈ range n,
        (M b s * ((xs.map Prod.fst).getD s ⟨[], fun _ => 0⟩).at3 0 (unravelIdx P q) 0) * mp ((xs.map Prod.snd).getD s []) idx 0 0)]
      refine Finset.sum_congr rfl fun c hc => ?_
      congr 1
      have e2 : ∀ s ∈ range n, M' c s * mp ((xs.map Prod.snd).getD s []) idx 0 0
          = ∑ b ∈ range k, ∑ q ∈ range P.prod, star (T.at3 b [q] c) *
            (M b s * ((xs.map Prod.fst).getD s ⟨[], fun _ => 0⟩).at3 0 (unravelIdx P q) 0 * mp ((xs.map Prod.snd).getD s []) idx 0 0) := by
        intro s hs
        rw [← hS.proj c (by simpa using hc) s (by simpa using hs), Finset.sum_mul]
        refine Finset.sum_congr rfl fun b _ => ?_
        rw [Finset.sum_mul]
        exact Finset.sum_congr rfl fun q _ => by ring
      symm
      rw [prodSum, Finset.sum_congr rfl e2, Finset.sum_comm]
      refine Finset.sum_congr rfl fun b _ => ?_
      rw [Finset.sum_comm]
      refine Finset.sum_congr rfl fun q _ => ?_
      rw [Finset.mul_sum]
    have e3 : ∀ idx, ∑ b ∈ range k, sumIdx P (fun p => star (mp (T :: us) (flatIdx (P :: Q :: PS) (p :: idx)) b 0) *
          mp (T :: us) (flatIdx (P :: Q :: PS) (p :: idx)) b 0)
        = ∑ c ∈ range t, star (mp us (flatIdx (Q :: PS) idx) c 0) * mp us (flatIdx (Q :: PS) idx) c 0 := by
      intro idx
      rw [Finset.sum_congr rfl fun b _ => sumIdx_congr fun p hp => by rw [hR']]
      rw [iso_sum T (fun c => mp us (flatIdx (Q :: PS) idx) c 0) (fun b q => ∑ c ∈ range t, T.at3 b [q] c * mp us (flatIdx (Q :: PS) idx) c 0)]
      refine Finset.sum_congr rfl fun c hc => ?_
      congr 1
      have e4 : ∑ b ∈ range k, ∑ q ∈ range P.prod, star (T.at3 b [q] c) * ∑ c' ∈ range t, T.at3 b [q] c' * mp us (flatIdx (Q :: PS) idx) c' 0
          = ∑ c' ∈ range t, (∑ b ∈ range k, ∑ q ∈ range P.prod, star (T.at3 b [q] c) * T.at3 b [q] c') * mp us (flatIdx (Q :: PS) idx) c' 0 := by
        simp only [Finset.mul_sum, Finset.sum_mul]
        symm
        rw [Finset.sum_comm]
        refine Finset.sum_congr rfl fun b _ => ?_
        rw [Finset.sum_comm]
        exact Finset.sum_congr rfl fun q _ => Finset.sum_congr rfl fun c' _ => by ring
      rw [e4, Finset.sum_eq_single c]
      · rw [hS.canon c (by simpa using hc) c (by simpa using hc), if_pos rfl, one_mul]
      · intro c' hc' hne
        rw [hS.canon c (by simpa using hc) c' (by simpa using hc'), if_neg (Ne.symm hne), zero_mul]
      · intro h; exact absurd hc h
    rw [sumSites_congr fun idx _ => e1 idx, sumSites_congr fun idx _ => e3 idx, sumSites_sum_comm, sumSites_sum_comm]
    exact hR.proj
  · intro K hK hNT b hb idx hidx
    cases hidx with
    | @cons p _ idx _ hp hidx =>
    have hkK : k * P.prod ≤ K * P.prod := Nat.mul_le_mul_right _ hK
    rw [hR', htgt b p idx hp]
    have e : ∀ c ∈ range t, T.at3 b [ravelIdx P p] c * mp us (flatIdx (Q :: PS) idx) c 0
        = ∑ s ∈ range n, T.at3 b [ravelIdx P p] c * M' c s * mp ((xs.map Prod.snd).getD s []) idx 0 0 := by
      intro c hc
      rw [hR.full (K * P.prod) (le_trans hS.tkd hkK) hNT.2 c (by simpa using hc) idx hidx, prodSum, Finset.mul_sum]
      exact Finset.sum_congr rfl fun s _ => by ring
    rw [Finset.sum_congr rfl e, Finset.sum_comm]
    refine Finset.sum_congr rfl fun s hs => ?_
    rw [← Finset.sum_mul, hS.full (by have := hNT.1; omega) b hb _ (ravelIdx_lt hp) s (by simpa using hs)]
theorem mulB_full {sv : List ℝ} {v : NDArray 𝕜} {k n : ℕ} (hv : v.shape = [k, n]) (hs : sv.length = k) :
    ∃ w, (svCol sv sv.length).mulB v = .ok w ∧ w.shape = [k, n] ∧
      ∀ a < k, ∀ j < n, w.get [a, j] = ((sv.getD a 0 : ℝ) : 𝕜) * v.get [a, j] := by
  have : v.rows k = v := by
    obtain ⟨s, g⟩ := v
    subst hv
    simp [NDArray.rows]
  rw [← this, hs]
  exact mulB_svCol hv (le_refl _) hs.ge

theorem exists_heads {α : Type} {n : ℕ} (xs : List (List α)) (h : ∀ x ∈ xs, x.length = n + 1) :
    ∃ ps : List (α × List α), xs = ps.map fun p => p.1 :: p.2 := by
  induction xs with
  | nil => exact ⟨[], rfl⟩
  | cons x xs ih =>
    obtain ⟨ps, rfl⟩ := ih fun x hx => h x (by simp [hx])
    cases x with
    | nil => have := h [] (by simp); simp at this
    | cons a x => exact ⟨(a, x) :: ps, rfl⟩

theorem prodLT_heads {P : List ℕ} {PS : List (List ℕ)} (xs : List (List (NDArray 𝕜))) (h : ∀ x ∈ xs, ProdLT (P :: PS) x) :
    ∃ ps : List (NDArray 𝕜 × List (NDArray 𝕜)), xs = ps.map (fun p => p.1 :: p.2) ∧
      (∀ p ∈ ps, p.1.shape = 1 :: (P ++ [1])) ∧ ∀ x ∈ ps.map Prod.snd, ProdLT PS x := by
  obtain ⟨ps, rfl⟩ := exists_heads (n := PS.length) xs fun x hx => by simpa using (h x hx).length_eq
  refine ⟨ps, rfl, ?_, ?_⟩
  · intro p hp
    exact (List.forall₂_cons.1 (h _ (List.mem_map.2 ⟨p, hp, rfl⟩))).1
  · intro x hx
    obtain ⟨p, hp, rfl⟩ := List.mem_map.1 hx
    exact (List.forall₂_cons.1 (h _ (List.mem_map.2 ⟨p, hp, rfl⟩))).2

theorem specialRest_ok {f : SVDFunc 𝕜} (hf : SVDFuncFull f) {rank n : ℕ} (hr : 0 < rank) (hn : 0 < n) :
    ∀ (PS : List (List ℕ)) (P : List ℕ) (xs : List (List (NDArray 𝕜))) (sv : List ℝ) (v : NDArray 𝕜) (k : ℕ),
      (∀ p ∈ (P :: PS).flatten, 0 < p) → xs.length = n → (∀ x ∈ xs, ProdLT (P :: PS) x) → 0 < k → sv.length = k → v.shape = [k, n] →
      ∃ us, specialRest f rank n (P :: PS).length xs sv v k = .ok us ∧
        RestOK rank n (fun c s => ((sv.getD c 0 : ℝ) : 𝕜) * v.get [c, s]) xs k (P :: PS) us := by
  intro PS
  induction PS with
  | nil =>
    intro P xs sv v k hpos hxn hx hk hsv hv
    obtain ⟨ps, rfl, hps, -⟩ := prodLT_heads xs hx
    have hpl : ps.length = n := by simpa using hxn
    have hPpos : 0 < P.prod := List.prod_pos (by simpa using hpos)
    have hne : ps.map Prod.fst ≠ [] := by
      intro h; have := congrArg List.length h; simp at this; rw [this] at hpl; simp at hpl; omega
    have hsh : ∀ t ∈ ps.map Prod.fst, t.shape = 1 :: (P ++ [1]) := by
      intro t ht
      obtain ⟨p, hp, rfl⟩ := List.mem_map.1 ht
      exact hps p hp
    have hlb : ∀ t ∈ ps.map Prod.fst, t.lb = 1 := fun t ht => (sh1_local (hsh t ht)).2.1
    obtain ⟨c, c1, c2, c3⟩ := concat_first_ok hne (fun t ht => by rw [hsh t ht, hlb t ht])
    rw [sum_map_ones _ _ hlb, List.length_map, hpl] at c2
    have hcl : c.lb = n := by simp [NDArray.lb, c2]
    have hcr : c.rb = 1 := by rw [NDArray.rb, c2, ← List.cons_append, List.getLastD_concat]
    have hcp : c.ph = P := by simp [NDArray.ph, c2]
    obtain ⟨mat, m1, m2, m3⟩ := rmat_ok (t := c) (by simp [NDArray.IsLocal, NDArray.ndim, c2]) (by omega)
    simp only [hcl, hcp, hcr] at m1 m2 m3
    obtain ⟨w, w1, w2, w3⟩ := mulB_full hv hsv
    obtain ⟨e, e1, e2, e3⟩ := matdot_mat (a := w) (b := mat) (l := k) (m := n) (r := (P ++ [1]).prod) w2 m2
    have hpp : (P ++ [1]).prod = P.prod := by simp
    rw [hpp] at e2
    refine ⟨[e.reshapeTo [k, P.prod, 1]], ?_, ?_⟩
    · show (do
        let hs ← nexts (ps.map fun p : NDArray 𝕜 × List (NDArray 𝕜) => p.1 :: p.2)
        let c ← NDArray.concatenate hs 0
        let c ← c.reshape [(n : ℤ), -1]
        let w ← (svCol sv sv.length).mulB v
        let c ← matdot w c
        let t ← c.reshape [(sv.length : ℤ), -1, 1]
        .ok [t]) = _
      rw [nexts_pairs, ok_bind, c1, ok_bind, m1, ok_bind, w1, ok_bind, e1, ok_bind, hsv]
      have := NDArray.reshape_infer (a := e) (d := P.prod) (s := [k]) (t := [1]) (by rw [e2]; simp) (by simpa using hk)
      rw [show e.reshape [(k : ℤ), -1, 1] = .ok (e.reshapeTo [k, P.prod, 1]) from by simpa using this]
      rfl
    · have hT : ∀ b < k, ∀ p, InB p P → (e.reshapeTo [k, P.prod, 1]).at3 b [ravelIdx P p] 0
          = ∑ s ∈ range n, (((sv.getD b 0 : ℝ) : 𝕜) * v.get [b, s]) * ((ps.map Prod.fst).getD s ⟨[], fun _ => 0⟩).at3 0 p 0 := by
        intro b hb p hp
        have hlt := ravelIdx_lt hp
        have := NDArray.reshapeTo_blocks2 (a := e) (S := [k]) (S' := [P.prod]) (T := [k]) (T' := [P.prod, 1])
          (i := [b]) (j := [ravelIdx P p, 0]) e2 rfl (by simp) (by simp [hb]) (by simp [hlt])
        rw [NDArray.at3]
        refine Eq.trans this ?_
        have hi : unravelIdx [k] (ravelIdx [k] [b]) ++ unravelIdx [P.prod] (ravelIdx [P.prod, 1] [ravelIdx P p, 0])
            = [b, ravelIdx P p] := by
          simp [ravelIdx, unravelIdx, Nat.mod_eq_of_lt hb, Nat.mod_eq_of_lt hlt]
        rw [hi, e3]
        refine Finset.sum_congr rfl fun s hs => ?_
        have hs : s < n := by simpa using hs
        rw [w3 b hb s hs]
        congr 1
        have hj := m3 s (p ++ [0]) hs (inB_append hp (by simp))
        have hrv : ravelIdx (P ++ [1]) (p ++ [0]) = ravelIdx P p := by
          rw [ravelIdx_append _ _ (inB_length hp)]; simp [ravelIdx]
        rw [hrv] at hj
        rw [hj]
        have := c3 s p 0
        rw [rowGet_ones _ hlb s (by simpa using by omega)] at this
        rw [getD_eq_getElem' (by simpa using by omega), ← this]; rfl
      have hmp1 : ∀ s < n, ∀ p, mp ((ps.map fun p => p.1 :: p.2).getD s []) [p] 0 0
          = ((ps.map Prod.fst).getD s ⟨[], fun _ => 0⟩).at3 0 p 0 := by
        intro s hs p
        have hx2 := hx ((ps.map fun p => p.1 :: p.2)[s]'(by simpa using by omega)) (List.getElem_mem _)
        rw [getD_eq_getElem' (by simpa using by omega), getD_eq_getElem' (by simpa using by omega)]
        rw [List.getElem_map] at hx2 ⊢
        rw [List.getElem_map]
        have : (ps[s]'(by omega)).2 = [] := by
          have := (List.forall₂_cons.1 hx2).2
          simpa using this
        rw [this, mp, (sh1_local (hps _ (List.getElem_mem _))).2.2.1]
        simp [mp]
      have hval : ∀ b < k, ∀ idx, IdxOK idx [P] → mp [e.reshapeTo [k, P.prod, 1]] (flatIdx [P] idx) b 0
          = prodSum n (fun c s => ((sv.getD c 0 : ℝ) : 𝕜) * v.get [c, s]) (ps.map fun p => p.1 :: p.2) b idx := by
        intro b hb idx hidx
        cases hidx with
        | @cons p _ idx _ hp hidx =>
        cases hidx
        show mp [e.reshapeTo [k, P.prod, 1]] [[ravelIdx P p]] b 0 = _
        have : mp [e.reshapeTo [k, P.prod, 1]] [[ravelIdx P p]] b 0 = (e.reshapeTo [k, P.prod, 1]).at3 b [ravelIdx P p] 0 := by
          rw [mp]
          show (∑ c ∈ range 1, _) = _
          simp [mp]
        rw [this, hT b hb p hp]
        exact Finset.sum_congr rfl fun s hs => by rw [hmp1 s (by simpa using hs)]
      refine ⟨⟨by simp [NDArray.IsLocal, NDArray.ndim, NDArray.reshapeTo], rfl, rfl⟩, rfl, by simp, ?_, ?_⟩
      · refine Finset.sum_congr rfl fun b hb => sumSites_congr fun idx hidx => ?_
        rw [hval b (by simpa using hb) idx hidx]
      · intro K _ _ b hb idx hidx
        exact hval b hb idx hidx
  | cons Q PS ih =>
    intro P xs sv v k hpos hxn hx hk hsv hv
    obtain ⟨ps, rfl, hps, hpt⟩ := prodLT_heads xs hx
    have hpl : ps.length = n := by simpa using hxn
    have hPpos : 0 < P.prod := List.prod_pos fun p hp => hpos p (by simp [hp])
    have hne : ps.map Prod.fst ≠ [] := by
      intro h; have := congrArg List.length h; simp at this; rw [this] at hpl; simp at hpl; omega
    have hsh : ∀ t ∈ ps.map Prod.fst, t.shape = 1 :: (P ++ [1]) := by
      intro t ht
      obtain ⟨p, hp, rfl⟩ := List.mem_map.1 ht
      exact hps p hp
    obtain ⟨c, c1, c2, c3⟩ := localAddSparse_ok hne hsh
    rw [List.length_map, hpl] at c2
    obtain ⟨w, w1, w2, w3⟩ := mulB_full hv hsv
    obtain ⟨e, e1, e2, e3⟩ := matdot_mat (a := w) (b := c) (l := k) (m := n) (r := P.prod * n) w2 c2
    set A := e.reshapeTo [k * P.prod, n] with hA
    have hAsh : A.shape = [k * P.prod, n] := rfl
    have r1 : e.reshape [-1, (n : ℤ)] = .ok A := by
      have := NDArray.reshape_infer (a := e) (d := k * P.prod) (s := []) (t := [n]) (by rw [e2]; simp [mul_assoc]) (by simpa using hn)
      simpa using this
    set B := A.reshapeTo [k * P.prod, n] with hB
    have hBsh : B.shape = [k * P.prod, n] := rfl
    have r2 : A.reshape [-1, (n : ℤ)] = .ok B := by
      have := NDArray.reshape_infer (a := A) (d := k * P.prod) (s := []) (t := [n]) (by rw [hAsh]; simp) (by simpa using hn)
      simpa using this
    have hBg : ∀ b < k, ∀ q < P.prod, ∀ s < n, B.get [b * P.prod + q, s]
        = (((sv.getD b 0 : ℝ) : 𝕜) * v.get [b, s]) * ((ps.map Prod.fst).getD s ⟨[], fun _ => 0⟩).at3 0 (unravelIdx P q) 0 := by
      intro b hb q hq s hs
      have hlt : b * P.prod + q < k * P.prod := by nlinarith
      have g1 : B.get [b * P.prod + q, s] = A.get [b * P.prod + q, s] := by
        have := NDArray.reshapeTo_blocks2 (a := A) (S := [k * P.prod]) (S' := [n]) (T := [k * P.prod]) (T' := [n])
          (i := [b * P.prod + q]) (j := [s]) hAsh rfl rfl (by simp [hlt]) (by simp [hs])
        refine Eq.trans this ?_
        congr 1
        simp [ravelIdx, unravelIdx, Nat.mod_eq_of_lt hlt, Nat.mod_eq_of_lt hs]
      have g2 : A.get [b * P.prod + q, s] = e.get [b, q * n + s] := by
        rw [hA, NDArray.reshapeTo_get, e2]
        congr 1
        have e5 : ravelIdx [k * P.prod, n] [b * P.prod + q, s] = ravelIdx [k, P.prod * n] [b, q * n + s] := by
          simp [ravelIdx]; ring
        rw [e5, unravel_ravel]
        have : q * n + s < P.prod * n := by nlinarith
        simp [hb, this]
      rw [g1, g2, e3, Finset.sum_eq_single s]
      · have := c3 s (by simpa using by omega) q hq s (by simpa using by omega)
        simp only [List.length_map, hpl] at this
        rw [w3 b hb s hs, this, if_pos trivial, getD_eq_getElem' (l := ps.map Prod.fst) (by simpa using by omega)]
      · intro s2 hs2 hne2
        have := c3 s2 (by simpa [hpl] using hs2) q hq s (by simpa using by omega)
        simp only [List.length_map, hpl] at this
        rw [this, if_neg hne2, mul_zero]
      · intro h; exact absurd (by simpa using hs) h
    set r := min rank (min (k * P.prod) n) with hrdef
    have hrpos : 0 < r := by have := Nat.mul_pos hk hPpos; omega
    have hS := split_of_svd hf (rank := rank) (r := r) hrpos (by omega) (by omega) hk hPpos hn hBsh hBg
    have hlen : (f B r).2.1.length = r := by
      have := (hf.2 B (k * P.prod) n r hBsh (Nat.mul_pos hk hPpos) hn hrpos).1; omega
    rw [hlen] at hS
    have hfsp := hf.1 B (k * P.prod) n r hBsh (Nat.mul_pos hk hPpos) hn hrpos
    rw [hlen] at hfsp
    obtain ⟨us, u1, u2⟩ := ih Q (ps.map Prod.snd) (f B r).2.1 (f B r).2.2 r
      (fun p hp => hpos p (by rw [List.flatten_cons]; exact List.mem_append_right _ hp)) (by simpa using hpl) hpt hrpos hlen hfsp.2.2.2.2.2.1
    refine ⟨(f B r).1.reshapeTo [k, P.prod, r] :: us, ?_, ?_⟩
    · show (do
        let hs ← nexts (ps.map fun p : NDArray 𝕜 × List (NDArray 𝕜) => p.1 :: p.2)
        let c ← localAddSparse (hs.map ravelA)
        let w ← (svCol sv sv.length).mulB v
        let c ← matdot w c
        let c ← c.reshape [-1, (n : ℤ)]
        let rankT := min rank (min (c.shape.getD 0 0) (c.shape.getD 1 0))
        let c ← c.reshape [-1, (n : ℤ)]
        let t ← (f c rankT).1.reshape [(k : ℤ), -1, (rankT : ℤ)]
        let ts ← specialRest f rank n (Q :: PS).length ((ps.map fun p : NDArray 𝕜 × List (NDArray 𝕜) => p.1 :: p.2).map List.tail) (f c rankT).2.1 (f c rankT).2.2 t.rb
        .ok (t :: ts)) = _
      rw [nexts_pairs, ok_bind, c1, ok_bind, w1, ok_bind, e1, ok_bind, r1, ok_bind]
      show (A.reshape [-1, (n : ℤ)] >>= fun c => (f c r).1.reshape [(k : ℤ), -1, (r : ℤ)] >>= _) = _
      rw [r2, ok_bind]
      have := NDArray.reshape_infer (a := (f B r).1) (d := P.prod) (s := [k]) (t := [r])
        (by rw [hfsp.2.2.2.2.1]; simp) (by simpa using Nat.mul_pos hk hrpos)
      rw [show (f B r).1.reshape [(k : ℤ), -1, (r : ℤ)] = .ok ((f B r).1.reshapeTo [k, P.prod, r]) from by simpa using this, ok_bind,
        map_tail_pairs]
      show (specialRest f rank n (Q :: PS).length (ps.map Prod.snd) (f B r).2.1 (f B r).2.2 r >>= _) = _
      rw [u1]; rfl
    · exact RestOK.step hpl hps rfl hS u2

end Mpnum
