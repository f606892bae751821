import Verif.Props.C58

/-! # C58: estimates of linear functions from samples of other POVMs -/

open Finset Classical

namespace Mpnum

/-- Specification: samples of one POVM: the array and the outcomes in it. -/
structure Sampled where
  src : LfOther
  arr : NDArray ℤ
  out : ℕ → List ℕ

/-- Specification: the average of `f` over the samples. -/
noncomputable def Sampled.mean (q : Sampled) (f : List ℕ → ℝ) : ℝ := (∑ k ∈ range q.src.weight, f (q.out k)) / q.src.weight

theorem sampleMean_eq {q : Sampled} (h : SamplesAre q.src.dims q.src.weight q.arr q.out) (f : OutFun) (g : List ℕ → ℝ)
    (hg : ∀ W, InB W q.src.dims → f ((squeezeIdx q.src.dims W).map fun z : ℕ => (z : ℤ)) = g W) :
    sampleMean q.src.weight (sampleRow q.arr) (weightOf none) f = q.mean g := by
  unfold sampleMean Sampled.mean
  have hr : ∀ k < q.src.weight, sampleRow q.arr k = (squeezeIdx q.src.dims (q.out k)).map fun z : ℕ => (z : ℤ) := by
    intro k hk
    have hl : (squeezeIdx q.src.dims (q.out k)).length = (nsDims q.src.dims).length := (squeeze_inB (h.inB k hk)).length_eq
    unfold sampleRow
    rw [h.shape]
    refine List.ext_getElem (by simp [hl]) fun j h1 h2 => ?_
    have hj : j < (nsDims q.src.dims).length := by simpa using h1
    rcases h.row k hk j with h3 | h3
    · rw [List.getElem_map, List.getElem_range, h3, List.getElem_map, List.getD_eq_getElem _ _ (by omega)]
    · omega
  have e1 : ∑ k ∈ range q.src.weight, weightOf none k * f (sampleRow q.arr k) = ∑ k ∈ range q.src.weight, g (q.out k) :=
    Finset.sum_congr rfl fun k hk => by
      have hk := mem_range.1 hk
      rw [hr k hk, hg _ (h.inB k hk)]; simp [weightOf]
  simp only [e1]
  simp [weightOf]

/-- C58: `est_lfun_from(other, coeff, samples)` returns the sum over the POVMs of the sample averages of the
estimator, and the estimated variance of this sum; `nan` exactly if a probability that is needed cannot be estimated. -/
theorem C58_est_lfun_from (ts : List LfTarget) (qs : List Sampled) (D : List ℕ) (ha : LfArgs ts (qs.map Sampled.src) D)
    (hs : ∀ q ∈ qs, SamplesAre q.src.dims q.src.weight q.arr q.out) (hn : ∀ q ∈ qs, 2 ≤ q.src.weight)
    (eps : ℝ) (heps : 0 ≤ eps) :
    (Missing ts (qs.map Sampled.src) D eps →
      estLfunFrom (ts.map LfTarget.povm) (qs.map fun q => q.src.povm) (ts.map LfTarget.coeff) (qs.map Sampled.arr) eps = .ok none) ∧
    (¬ Missing ts (qs.map Sampled.src) D eps →
      estLfunFrom (ts.map LfTarget.povm) (qs.map fun q => q.src.povm) (ts.map LfTarget.coeff) (qs.map Sampled.arr) eps
        = .ok (some ((qs.map fun q => q.mean (estFn ts (qs.map Sampled.src) D eps q.src)).sum,
            (qs.map fun q => (q.mean (fun W => estFn ts (qs.map Sampled.src) D eps q.src W ^ 2)
              - q.mean (estFn ts (qs.map Sampled.src) D eps q.src) ^ 2) / ((q.src.weight : ℝ) - 1)).sum))) := by
  obtain ⟨os, hos⟩ : ∃ os, os = qs.map Sampled.src := ⟨_, rfl⟩
  have hne : qs ≠ [] := fun h => ha.ne (by rw [h]; rfl)
  rw [← hos] at ha ⊢
  obtain ⟨fs, n, h1, h2, h3⟩ := lfunEstimator_ok ha.args ha.self ha.coeff heps ha.weight
  have hmiss : Insufficient n (ts.map LfTarget.coeff) ↔ Missing ts os D eps := by
    rw [insufficient_iff ha.pos h2]
    unfold Missing
    simp only [total_eq_zero ha.weight]
  have hw : ((qs.map Sampled.arr).map fun s => ((s.shape.headD 0 : ℕ) : ℝ)) = os.map fun o => (o.weight : ℝ) := by
    rw [hos, List.map_map, List.map_map]
    exact List.map_congr_left fun q hq => by simp [(hs q hq).shape]
  have hp : (qs.map fun q => q.src.povm) = os.map LfOther.povm := by rw [hos, List.map_map]; rfl
  unfold estLfunFrom
  rw [hw, hp]
  simp only [h1]
  rw [ok_bind]
  constructor
  · intro h
    simp only
    rw [if_pos (hmiss.2 h)]
    rfl
  · intro h
    simp only
    rw [if_neg fun h' => h (hmiss.1 h'), ← hp]
    have hz : ∀ {qs : List Sampled} {fs : List (List (OutFun × Option ℝ))},
        (∀ q ∈ qs, SamplesAre q.src.dims q.src.weight q.arr q.out ∧ 2 ≤ q.src.weight ∧ q.src.povm.outdims = q.src.dims) →
        ∀ {g : LfOther → List ℕ → ℝ}, List.Forall₂ (fun o l => (∀ f ∈ l, f.2 ≠ none) ∧ ∀ W, InB W o.dims →
          fnValue l ((squeezeIdx o.dims W).map fun z : ℕ => (z : ℤ)) = g o W) (qs.map Sampled.src) fs →
        (fs.zip ((qs.map Sampled.arr).zip (qs.map fun q => q.src.povm))).mapM (fun q =>
          estLfun q.2.2.outdims (some (coeffArr q.1)) (some (q.1.map Prod.fst)) q.2.1 none eps)
          = .ok (qs.map fun q => (scalarArr (q.mean (g q.src)),
              scalarArr ((q.mean (fun W => g q.src W ^ 2) - q.mean (g q.src) ^ 2) / ((q.src.weight : ℝ) - 1)))) := by
      intro qs
      induction qs with
      | nil => intro fs _ g h; cases h; rfl
      | cons q qs ih =>
        intro fs hq g h
        rw [List.map_cons] at h
        cases h with
        | @cons _ l _ fs hol hr =>
          obtain ⟨q1, q2, q3⟩ := hq q (by simp)
          rw [List.map_cons, List.map_cons, List.zip_cons_cons, List.zip_cons_cons, List.mapM_cons]
          simp only
          rw [q3, C47_est_lfun q.src.dims (coeffArr l) (some (l.map Prod.fst)) q.src.weight q.arr none eps heps (by simp) q1.shape
            (by simp [coeffArr, theFuns]) (by simp) (by simp [totalWeight]; omega), ok_bind,
            ih (fun q' hq' => hq q' (by simp [hq'])) hr, ok_bind, List.map_cons]
          rw [sampleMean_eq q1 _ (g q.src) fun W hW => by rw [linComb_fnValue, hol.2 W hW],
            sampleMean_eq q1 _ (fun W => g q.src W ^ 2) fun W hW => by rw [linComb_fnValue, hol.2 W hW]]
          simp only [totalWeight]
          rfl
    have h3' := h3
    rw [hos] at h3'
    rw [hz (fun q hq => ⟨hs q hq, hn q hq, (ha.other q.src (by rw [hos]; exact List.mem_map_of_mem hq)).outdims⟩) h3', ok_bind,
      sumResults_ok hne, ok_bind]
    rw [hos]
    rfl

/-! ### Unbiasedness -/

section joint
variable {ι : Type} [Fintype ι] [DecidableEq ι] {α : ι → Type} [∀ i, Fintype (α i)]

/-- Specification: the average over independent random variables `x i` with probabilities `P i`. -/
noncomputable def jointMean (P : ∀ i, α i → ℝ) (g : (∀ i, α i) → ℝ) : ℝ := ∑ x : ∀ i, α i, (∏ i, P i (x i)) * g x

variable {P : ∀ i, α i → ℝ} (hP : ∀ i, ∑ a, P i a = 1)
include hP

theorem joint_prod (f : ∀ i, α i → ℝ) : jointMean P (fun x => ∏ i, f i (x i)) = ∏ i, ∑ a, P i a * f i a := by
  unfold jointMean
  have := Finset.prod_univ_sum (fun i : ι => (univ : Finset (α i))) (fun i a => P i a * f i a)
  rw [Fintype.piFinset_univ] at this
  rw [this]
  exact Finset.sum_congr rfl fun x _ => by rw [Finset.prod_mul_distrib]

theorem joint_one (f : ∀ i, α i → ℝ) (j : ι) : jointMean P (fun x => f j (x j)) = ∑ a, P j a * f j a := by
  have h := joint_prod hP fun i a => if i = j then f i a else 1
  have e1 : ∀ x : ∀ i, α i, (∏ i, if i = j then f i (x i) else 1) = f j (x j) := by
    intro x; rw [Finset.prod_ite_eq' univ j fun i => f i (x i)]; simp
  simp only [e1] at h
  rw [h, Finset.prod_eq_single j (fun i _ hi => by simp [hi, hP i]) (by simp)]
  simp

theorem joint_two (f : ∀ i, α i → ℝ) (j k : ι) (hjk : j ≠ k) :
    jointMean P (fun x => f j (x j) * f k (x k)) = (∑ a, P j a * f j a) * ∑ a, P k a * f k a := by
  have h := joint_prod hP fun i a => if i = j ∨ i = k then f i a else 1
  have e1 : ∀ x : ∀ i, α i, (∏ i, if i = j ∨ i = k then f i (x i) else 1) = f j (x j) * f k (x k) := by
    intro x
    rw [← Finset.prod_filter, show (univ.filter fun i => i = j ∨ i = k) = {j, k} by ext; simp, Finset.prod_pair hjk]
  simp only [e1] at h
  rw [h, ← Finset.prod_subset (Finset.subset_univ {j, k}) (fun i _ hi => by
    have hi : ¬ (i = j ∨ i = k) := by simpa using hi
    simp [if_neg hi, hP i]), Finset.prod_pair hjk]
  simp

omit hP in
theorem joint_sum {β : Type} (s : Finset β) (g : β → (∀ i, α i) → ℝ) :
    jointMean P (fun x => ∑ b ∈ s, g b x) = ∑ b ∈ s, jointMean P (g b) := by
  unfold jointMean
  rw [Finset.sum_comm]
  exact Finset.sum_congr rfl fun x _ => Finset.mul_sum _ _ _

theorem joint_lin (f : ∀ i, α i → ℝ) : jointMean P (fun x => ∑ i, f i (x i)) = ∑ i, ∑ a, P i a * f i a := by
  rw [joint_sum]
  exact Finset.sum_congr rfl fun i _ => joint_one hP f i

theorem joint_sq (f : ∀ i, α i → ℝ) (hf : ∀ i, ∑ a, P i a * f i a = 0) :
    jointMean P (fun x => (∑ i, f i (x i)) ^ 2) = ∑ i, ∑ a, P i a * f i a ^ 2 := by
  have e : ∀ x : ∀ i, α i, (∑ i, f i (x i)) ^ 2 = ∑ i, ∑ j, f i (x i) * f j (x j) := by
    intro x; rw [sq, Finset.sum_mul_sum]
  simp only [e]
  rw [joint_sum]
  refine Finset.sum_congr rfl fun i _ => ?_
  rw [joint_sum, Finset.sum_eq_single i]
  · have := joint_one hP (fun i a => f i a ^ 2) i
    rw [← this]
    simp only [sq]
  · intro j _ hj
    rw [joint_two hP f i j hj.symm, hf i, zero_mul]
  · simp

end joint

/-- Mean, mean square deviation and mean estimated variance of the average of `g` over `n` samples. -/
theorem iid_mean {O : List ℕ} (hO : ∀ o ∈ O, 0 < o) (p : NDArray ℝ) (hsum : sumIdx (nsDims O) p.get = 1)
    (y : MPA ℂ) (n : ℕ) (hn : 2 ≤ n) (g : List ℕ → ℝ) :
    iidMean (nsDims O) p.get n (fun s => Sampled.mean ⟨⟨y, O, n⟩, samplesOf (nsDims O) n s, outcomesOf O n s⟩ g) = meanOf O p g ∧
    iidMean (nsDims O) p.get n (fun s =>
        (Sampled.mean ⟨⟨y, O, n⟩, samplesOf (nsDims O) n s, outcomesOf O n s⟩ g - meanOf O p g) ^ 2)
      = (meanOf O p (fun W => g W ^ 2) - meanOf O p g ^ 2) / n ∧
    iidMean (nsDims O) p.get n (fun s =>
        (Sampled.mean ⟨⟨y, O, n⟩, samplesOf (nsDims O) n s, outcomesOf O n s⟩ (fun W => g W ^ 2)
          - Sampled.mean ⟨⟨y, O, n⟩, samplesOf (nsDims O) n s, outcomesOf O n s⟩ g ^ 2) / ((n : ℝ) - 1))
      = (meanOf O p (fun W => g W ^ 2) - meanOf O p g ^ 2) / n := by
  obtain ⟨f, hf⟩ : ∃ f : OutFun, f = fun row => g (unsqueeze O (row.map Int.toNat)) := ⟨_, rfl⟩
  obtain ⟨c, hc⟩ : ∃ c : NDArray ℝ, c = ⟨[1], fun _ => 1⟩ := ⟨_, rfl⟩
  have hfg : ∀ W, InB W O → linComb (nsDims O) c (some [f]) ((squeezeIdx O W).map fun z : ℕ => (z : ℤ)) = g W := by
    intro W hW
    have h1 : linComb (nsDims O) c (some [f]) ((squeezeIdx O W).map fun z : ℕ => (z : ℤ))
        = f ((squeezeIdx O W).map fun z : ℕ => (z : ℤ)) := by
      simp [linComb, theFuns, hc]
    rw [h1, hf]
    simp only [List.map_map]
    have h2 : (squeezeIdx O W).map (Int.toNat ∘ fun z : ℕ => (z : ℤ)) = squeezeIdx O W := by
      rw [show (Int.toNat ∘ fun z : ℕ => (z : ℤ)) = id from rfl, List.map_id]
    rw [h2, squeeze_inj (unsqueeze_ok hO (squeeze_inB hW)).1 hW (unsqueeze_ok hO (squeeze_inB hW)).2]
  have hcs : c.shape = [(theFuns (nsDims O) (some [f])).length] := by rw [hc]; rfl
  obtain ⟨est, var, h1, h2, h3, h4⟩ := C47_unbiased O p.get hsum c (some [f]) n hn 0 le_rfl (by simp) hcs
  have hE := expect_meanOf hO p _ g hfg
  have hE2 := expect_meanOf hO p (fun y => linComb (nsDims O) c (some [f]) y ^ 2) (fun W => g W ^ 2)
    fun W hW => by rw [hfg W hW]
  unfold variance at h3 h4
  rw [hE] at h2
  rw [hE, hE2] at h3 h4
  have hest : ∀ s, est s = Sampled.mean ⟨⟨y, O, n⟩, samplesOf (nsDims O) n s, outcomesOf O n s⟩ g ∧
      var s = (Sampled.mean ⟨⟨y, O, n⟩, samplesOf (nsDims O) n s, outcomesOf O n s⟩ (fun W => g W ^ 2)
          - Sampled.mean ⟨⟨y, O, n⟩, samplesOf (nsDims O) n s, outcomesOf O n s⟩ g ^ 2) / ((n : ℝ) - 1) := by
    intro s
    have hsa := samplesAre_samplesOf hO n s
    have h5 := C47_est_lfun O c (some [f]) n (samplesOf (nsDims O) n s) none 0 le_rfl (by simp) hsa.shape hcs (by simp)
      (by simp [totalWeight]; omega)
    rw [h1 s] at h5
    have h6 := Except.ok.inj h5
    have e1 := congrArg (fun q : NDArray ℝ × NDArray ℝ => q.1.get []) h6
    have e2 := congrArg (fun q : NDArray ℝ × NDArray ℝ => q.2.get []) h6
    simp only [scalarArr] at e1 e2
    have m1 := sampleMean_eq (q := ⟨⟨y, O, n⟩, samplesOf (nsDims O) n s, outcomesOf O n s⟩) hsa _ g hfg
    have m2 := sampleMean_eq (q := ⟨⟨y, O, n⟩, samplesOf (nsDims O) n s, outcomesOf O n s⟩) hsa
      (fun y => linComb (nsDims O) c (some [f]) y ^ 2) (fun W => g W ^ 2) fun W hW => by rw [hfg W hW]
    simp only at m1 m2
    rw [m1] at e1 e2
    rw [m2] at e2
    exact ⟨e1, by rw [e2]; simp [totalWeight]⟩
  have he := funext fun s => (hest s).1
  have hv := funext fun s => (hest s).2
  rw [he] at h2 h3
  rw [hv] at h4
  exact ⟨h2, h3, h4⟩

/-- The probability of the samples `s` of one POVM. -/
noncomputable def samplesProb (p : NDArray ℝ) (o : LfOther) (s : Fin o.weight → Fin (nsDims o.dims).prod) : ℝ :=
  ∏ i, p.get (unravelIdx (nsDims o.dims) (s i))

/-- C58: for independent samples of all POVMs in `other`, the estimate is unbiased, its mean square error is the sum of
the variances of the single functions divided by the numbers of samples, and the returned variance is an unbiased
estimate of this mean square error. -/
theorem C58_unbiased (ts : List LfTarget) (os : List LfOther) (D : List ℕ) (ha : LfArgs ts os D)
    (hn : ∀ o ∈ os, 2 ≤ o.weight) (eps : ℝ) (heps : 0 ≤ eps) (hm : ¬ Missing ts os D eps)
    (ρ : List ℕ → List ℕ → ℂ) (p : LfOther → NDArray ℝ)
    (hP : ∀ o ∈ os, OutcomeDist o.dims D o.povm.elem ρ (p o).get)
    (hprop : ∀ t ∈ ts, ∀ o ∈ os, ∀ Y Z, InB Y t.dims → InB Z (keptDims t.dims o.dims) →
      MatchTol eps D (t.povm.elem Y) (o.povm.coarseElem t.dims o.dims Z) →
      ∃ a : ℝ, 0 < a ∧ ∀ I J, InB I D → InB J D → t.povm.elem Y I J = a * o.povm.coarseElem t.dims o.dims Z I J) :
    ∃ est var : (∀ k : Fin os.length, Fin os[k].weight → Fin (nsDims os[k].dims).prod) → ℝ,
      (∀ s, estLfunFrom (ts.map LfTarget.povm) (os.map LfOther.povm) (ts.map LfTarget.coeff)
          (List.ofFn fun k : Fin os.length => samplesOf (nsDims os[k].dims) os[k].weight (s k)) eps
        = .ok (some (est s, var s))) ∧
      jointMean (fun k => samplesProb (p os[k]) os[k]) est = wanted ts D ρ ∧
      jointMean (fun k => samplesProb (p os[k]) os[k]) (fun s => (est s - wanted ts D ρ) ^ 2)
        = (os.map fun o => (meanOf o.dims (p o) (fun W => estFn ts os D eps o W ^ 2)
            - meanOf o.dims (p o) (estFn ts os D eps o) ^ 2) / o.weight).sum ∧
      jointMean (fun k => samplesProb (p os[k]) os[k]) var
        = (os.map fun o => (meanOf o.dims (p o) (fun W => estFn ts os D eps o W ^ 2)
            - meanOf o.dims (p o) (estFn ts os D eps o) ^ 2) / o.weight).sum := by
  obtain ⟨q, hq⟩ : ∃ q : ∀ k : Fin os.length, (Fin os[k].weight → Fin (nsDims os[k].dims).prod) → Sampled,
      q = fun k s => ⟨os[k], samplesOf (nsDims os[k].dims) os[k].weight s, outcomesOf os[k].dims os[k].weight s⟩ := ⟨_, rfl⟩
  obtain ⟨f, hf⟩ : ∃ f : ∀ k : Fin os.length, (Fin os[k].weight → Fin (nsDims os[k].dims).prod) → ℝ,
      f = fun k s => (q k s).mean (estFn ts os D eps os[k]) := ⟨_, rfl⟩
  obtain ⟨v, hv⟩ : ∃ v : ∀ k : Fin os.length, (Fin os[k].weight → Fin (nsDims os[k].dims).prod) → ℝ,
      v = fun k s => ((q k s).mean (fun W => estFn ts os D eps os[k] W ^ 2) - (q k s).mean (estFn ts os D eps os[k]) ^ 2)
        / ((os[k].weight : ℝ) - 1) := ⟨_, rfl⟩
  have hmem : ∀ k : Fin os.length, os[k] ∈ os := fun k => List.getElem_mem _
  have hiid := fun k : Fin os.length => iid_mean (ha.pos' os[k] (hmem k)) (p os[k]) (hP _ (hmem k)).sum os[k].povm os[k].weight
    (hn _ (hmem k)) (estFn ts os D eps os[k])
  have hP1 : ∀ k : Fin os.length, ∑ s, samplesProb (p os[k]) os[k] s = 1 := by
    intro k
    have := iidMean_const (hP _ (hmem k)).sum os[k].weight 1
    unfold iidMean at this
    simpa [samplesProb] using this
  have hsum : ∀ F : LfOther → ℝ, (os.map F).sum = ∑ k : Fin os.length, F os[k] := by
    intro F
    rw [← List.sum_ofFn]
    congr 1
    exact List.ext_getElem (by simp) fun i h1 h2 => by simp
  have hval := C58_value ts os D ha eps hm ρ p hP hprop
  rw [hsum] at hval
  refine ⟨fun s => ∑ k, f k (s k), fun s => ∑ k, v k (s k), fun s => ?_, ?_, ?_, ?_⟩
  · obtain ⟨qs, hqs⟩ : ∃ qs, qs = List.ofFn fun k => q k (s k) := ⟨_, rfl⟩
    have e1 : qs.map Sampled.src = os := by
      rw [hqs, List.map_ofFn, hq]
      exact List.ext_getElem (by simp) fun i h1 h2 => by simp
    have e2 : qs.map Sampled.arr = List.ofFn fun k : Fin os.length => samplesOf (nsDims os[k].dims) os[k].weight (s k) := by
      rw [hqs, List.map_ofFn, hq]; rfl
    have e3 : (qs.map fun q => q.src.povm) = os.map LfOther.povm := by
      rw [← e1, List.map_map]; rfl
    have hqm : ∀ a ∈ qs, ∃ k, a = q k (s k) := by
      intro a h
      rw [hqs, List.mem_ofFn] at h
      obtain ⟨k, hk⟩ := h
      exact ⟨k, hk.symm⟩
    have h := (C58_est_lfun_from ts qs D (e1.symm ▸ ha) (fun a h => by
        obtain ⟨k, rfl⟩ := hqm a h
        rw [hq]
        exact samplesAre_samplesOf (ha.pos' _ (hmem k)) _ _) (fun a h => by
        obtain ⟨k, rfl⟩ := hqm a h
        rw [hq]
        exact hn _ (hmem k)) eps heps).2 (by rw [e1]; exact hm)
    rw [e1, e2, e3] at h
    rw [h, hqs, List.map_ofFn, List.map_ofFn, List.sum_ofFn, List.sum_ofFn, hf, hv, hq]
    rfl
  · rw [joint_lin hP1, ← hval]
    refine Finset.sum_congr rfl fun k _ => ?_
    rw [← (hiid k).1, hf, hq]
    rfl
  · obtain ⟨μ, hμ⟩ : ∃ μ : Fin os.length → ℝ, μ = fun k => meanOf os[k].dims (p os[k]) (estFn ts os D eps os[k]) := ⟨_, rfl⟩
    have e1 : ∀ s : ∀ k : Fin os.length, Fin os[k].weight → Fin (nsDims os[k].dims).prod,
        (∑ k, f k (s k)) - wanted ts D ρ = ∑ k, (f k (s k) - μ k) := by
      intro s
      rw [← hval, Finset.sum_sub_distrib, hμ]
    simp only [e1]
    rw [joint_sq hP1 (fun k s => f k s - μ k), hsum]
    · refine Finset.sum_congr rfl fun k _ => ?_
      rw [← (hiid k).2.1, hf, hq, hμ]
      rfl
    · intro k
      simp only [mul_sub, Finset.sum_sub_distrib, ← Finset.sum_mul]
      rw [hP1 k, one_mul, sub_eq_zero, hμ]
      simp only
      rw [← (hiid k).1, hf, hq]
      rfl
  · rw [joint_lin hP1, hsum]
    refine Finset.sum_congr rfl fun k _ => ?_
    rw [← (hiid k).2.2, hv, hq]
    rfl

end Mpnum
