import Verif.Props.C57

/-! # C57: examples -/

open Finset Classical

namespace Mpnum

/-- A POVM on one site of dimension two with `m` outcomes and the elements `A`. -/
noncomputable def povm1 (m : ℕ) (A : ℕ → ℕ → ℕ → ℂ) : MPA ℂ :=
  ⟨[⟨[1, m, 2, 2, 1], fun i => match i with | [_, y, p, q, _] => A y p q | _ => 0⟩], 0, 1⟩

/-- The measurement in the computational basis. -/
noncomputable def basisElem (y p q : ℕ) : ℂ := if p = y ∧ q = y then 1 else 0

/-- With probability one half the measurement in the computational basis, otherwise nothing is measured
(outcome two). -/
noncomputable def lossyElem (y p q : ℕ) : ℂ := if y = 2 then (if p = q then 1 / 2 else 0) else basisElem y p q / 2

theorem povm1_isMpPovm {m : ℕ} (hm : m ≤ 255) (A : ℕ → ℕ → ℕ → ℂ) : IsMpPovm (povm1 m A) [m] [2] :=
  ⟨⟨by simp [povm1], by simp [povm1, NDArray.IsLocal, NDArray.ndim, NDArray.lb, NDArray.rb], by simp [povm1], by simp [povm1],
    by simp [povm1, MPA.len]⟩, rfl, rfl, by simpa using hm⟩

theorem povm1_elem (m : ℕ) (A : ℕ → ℕ → ℕ → ℂ) (y p q : ℕ) : (povm1 m A).elem [y] [p] [q] = A y p q := by
  simp [MPA.elem, MPA.val, entry, povm1, triples, mp, NDArray.at3, NDArray.rb]

theorem inB_one {I : List ℕ} {a : ℕ} (h : InB I [a]) : ∃ i, I = [i] ∧ i < a := by
  obtain ⟨i, I, rfl, h1, h2⟩ := inB_cons_split h
  obtain rfl : I = [] := by simpa using h2
  exact ⟨i, rfl, h1⟩

theorem povm1_coarse (m : ℕ) (A : ℕ → ℕ → ℕ → ℂ) {z : ℕ} (hz : z < m) (I J : List ℕ) :
    (povm1 m A).coarseElem [2] [m] [z] I J = (povm1 m A).elem [z] I J := by
  unfold MPA.coarseElem
  have : ∀ W, InB W [m] → (if squeezeIdx [2] W = squeezeIdx [2] [z] then (povm1 m A).elem W I J else 0)
      = if [z] = W then (povm1 m A).elem W I J else 0 := by
    intro W hW
    obtain ⟨w, rfl, h3⟩ := inB_one hW
    simp [squeezeIdx, eq_comm]
  rw [sumIdx_congr this, sumIdx_delta (by simpa using hz)]

theorem norm_basis {y : ℕ} (hy : y < 2) : hsNormSq [2] ((povm1 2 basisElem).elem [y]) = 1 := by
  simp only [hsNormSq, sumIdx_cons, sumIdx_nil, Finset.sum_range_succ, Finset.sum_range_zero, povm1_elem, basisElem]
  interval_cases y <;> simp

theorem norm_lossy {y : ℕ} (hy : y < 3) : hsNormSq [2] ((povm1 3 lossyElem).elem [y]) = if y = 2 then 1 / 2 else 1 / 4 := by
  simp only [hsNormSq, sumIdx_cons, sumIdx_nil, Finset.sum_range_succ, Finset.sum_range_zero, povm1_elem, basisElem, lossyElem]
  interval_cases y <;> norm_num

theorem inner_lossy {y z : ℕ} (hy : y < 2) (hz : z < 3) :
    hsInner [2] ((povm1 2 basisElem).elem [y]) ((povm1 3 lossyElem).elem [z])
      = if z = 2 ∨ y = z then 1 / 2 else 0 := by
  simp only [hsInner, sumIdx_cons, sumIdx_nil, Finset.sum_range_succ, Finset.sum_range_zero, povm1_elem, basisElem, lossyElem]
  interval_cases y <;> interval_cases z <;> norm_num

theorem lossy_coarse {z : ℕ} (hz : z < 3) : (povm1 3 lossyElem).coarseElem [2] [3] [z] = (povm1 3 lossyElem).elem [z] := by
  funext I J; exact povm1_coarse 3 lossyElem hz I J

theorem lossy_match {y z : ℕ} (hy : y < 2) (hz : z < 3) :
    ElemMatch [2] ((povm1 2 basisElem).elem [y]) ((povm1 3 lossyElem).coarseElem [2] [3] [z]) ↔ y = z := by
  rw [lossy_coarse hz]
  unfold ElemMatch
  rw [inner_lossy hy hz, norm_basis hy, norm_lossy hz]
  interval_cases y <;> interval_cases z <;> norm_num [abs_le]

theorem lossy_factor {y z : ℕ} (hy : y < 2) (hz : z < 3) :
    elemFactor [2] ((povm1 2 basisElem).elem [y]) ((povm1 3 lossyElem).coarseElem [2] [3] [z]) = if y = z then 2 else 0 := by
  unfold elemFactor
  by_cases h : y = z
  · rw [if_pos ((lossy_match hy hz).2 h), if_pos h, lossy_coarse hz, norm_basis hy, norm_lossy hz, if_neg (by omega)]
    rw [show (1 : ℝ) / (1 / 4) = 2 ^ 2 by norm_num]
    exact Real.sqrt_sq (by norm_num)
  · rw [if_neg fun h' => h ((lossy_match hy hz).1 h'), if_neg h]

theorem lossy_args : EstArgs (povm1 2 basisElem) (povm1 3 lossyElem) [2] [3] [2] where
  self := povm1_isMpPovm (by norm_num) _
  other := povm1_isMpPovm (by norm_num) _
  posO := by simp
  posO' := by simp
  posD := by simp
  ranks := by simp [povm1, MPA.ranks]
  ne := by decide
  elems := by
    intro Y hY
    obtain ⟨y, rfl, hy⟩ := inB_one hY
    rw [norm_basis hy]; norm_num
  elems' := by
    intro Z hZ
    obtain ⟨z, rfl, hz⟩ := inB_one (show InB Z [3] from hZ)
    rw [lossy_coarse hz, norm_lossy hz]; split <;> norm_num

/-- The elements of the other POVM are positive and sum to the identity. -/
theorem lossy_sum (p q : ℕ) (hp : p < 2) (hq : q < 2) : ∑ z ∈ range 3, lossyElem z p q = if p = q then 1 else 0 := by
  simp only [Finset.sum_range_succ, Finset.sum_range_zero, lossyElem, basisElem]
  interval_cases p <;> interval_cases q <;> norm_num

theorem lossy_given (Y : List ℕ) (hY : InB Y [2]) : IsGiven (povm1 2 basisElem) (povm1 3 lossyElem) [2] [3] [2] Y := by
  obtain ⟨y, rfl, hy⟩ := inB_one hY
  exact ⟨[y], show InB [y] [3] by simp; omega, (lossy_match hy (by omega)).2 rfl⟩

theorem lossy_givenSum {I J : List ℕ} (hI : InB I [2]) (hJ : InB J [2]) :
    givenSum (povm1 2 basisElem) [2] (IsGiven (povm1 2 basisElem) (povm1 3 lossyElem) [2] [3] [2]) I J
      = if I = J then ((1 : ℝ) : ℂ) else 0 := by
  obtain ⟨i, rfl, hi⟩ := inB_one hI
  obtain ⟨j, rfl, hj⟩ := inB_one hJ
  unfold givenSum
  have : ∀ Y, InB Y [2] → (if IsGiven (povm1 2 basisElem) (povm1 3 lossyElem) [2] [3] [2] Y
      then (povm1 2 basisElem).elem Y [i] [j] else 0) = (povm1 2 basisElem).elem Y [i] [j] :=
    fun Y hY => if_pos (lossy_given Y hY)
  rw [sumIdx_congr this]
  simp only [sumIdx_cons, sumIdx_nil, Finset.sum_range_succ, Finset.sum_range_zero, povm1_elem, basisElem]
  interval_cases i <;> interval_cases j <;> simp

theorem lossy_estimates (n : ℕ) (W : ℕ → List ℕ) (hW : ∀ k < n, InB (W k) [3]) :
    (sumIdx [2] fun Y => estimate (povm1 2 basisElem) (povm1 3 lossyElem) [2] [3] [2] n W Y)
      = 2 * ((range n).filter fun k => W k ≠ [2]).card / n := by
  unfold estimate
  have e : ∀ y, y < 2 → ∑ k ∈ range n, elemFactor [2] ((povm1 2 basisElem).elem [y])
      ((povm1 3 lossyElem).coarseElem [2] [3] (keepOut [2] (W k))) = ∑ k ∈ range n, if W k = [y] then 2 else 0 := by
    intro y hy
    refine Finset.sum_congr rfl fun k hk => ?_
    obtain ⟨w, hw, hw3⟩ := inB_one (hW k (mem_range.1 hk))
    rw [hw, show keepOut [2] [w] = [w] from rfl, lossy_factor hy hw3]
    by_cases h : y = w <;> simp [h, eq_comm]
  simp only [sumIdx_cons, sumIdx_nil, Finset.sum_range_succ (n := 1), Finset.sum_range_succ (n := 0), Finset.sum_range_zero]
  rw [e 0 (by omega), e 1 (by omega), zero_add, ← add_div, ← Finset.sum_add_distrib, Finset.card_filter]
  congr 1
  push_cast
  rw [Finset.mul_sum]
  refine Finset.sum_congr rfl fun k hk => ?_
  obtain ⟨w, hw, hw3⟩ := inB_one (hW k (mem_range.1 hk))
  rw [hw]
  interval_cases w <;> simp

/-- C57, finding: the samples of a POVM whose elements determine all probabilities are rejected: for an odd number
of samples of the lossy measurement, `est_pmf_from` always raises an `AssertionError`, although every element has a
matching element and the sum of the elements is the identity.  The condition on the sum of the estimates is not
satisfied by every sample. -/
theorem C57_spurious {qr : QR ℂ} (hqr : QRSpec qr) (n : ℕ) (hn : Odd n) (s : NDArray ℤ) (W : ℕ → List ℕ)
    (hs : SamplesAre [3] n s W) (eps : ℝ) (heps : 0 ≤ eps) (hlt : eps < 1 / n) :
    estPmfFrom qr (povm1 2 basisElem) (povm1 3 lossyElem) s eps = .error .assertion := by
  have hn0 : (0 : ℝ) < n := by exact_mod_cast hn.pos
  refine (C57_est_pmf_from hqr _ _ [2] [3] [2] lossy_args n s W hs eps heps).2.2 ⟨[0], by simp, lossy_given _ (by simp)⟩ ?_
  intro c hc
  right
  obtain rfl : c = 1 := by
    rw [hc.value, hsNormSq_scalar fun I J hI hJ => lossy_givenSum hI hJ]
    norm_num
  rw [lossy_estimates n W hs.inB]
  refine hlt.trans_le ?_
  obtain ⟨a, ha⟩ : ∃ a, a = ((range n).filter fun k => W k ≠ [2]).card := ⟨_, rfl⟩
  rw [← ha]
  rw [show (2 * (a : ℝ) / n - 1) = (2 * a - n) / n by field_simp, abs_div, abs_of_pos hn0]
  refine div_le_div_of_nonneg_right ?_ hn0.le
  have : (2 * (a : ℤ) - n) ≠ 0 := by
    obtain ⟨b, rfl⟩ := hn
    push_cast; omega
  have h1 : 1 ≤ |2 * (a : ℤ) - n| := Int.one_le_abs this
  exact_mod_cast h1

/-! ### The hypotheses of the other theorems are met by two measurements in the same basis -/

theorem inner_basis {y z : ℕ} (hy : y < 2) (hz : z < 2) :
    hsInner [2] ((povm1 2 basisElem).elem [y]) ((povm1 2 basisElem).elem [z]) = if y = z then 1 else 0 := by
  simp only [hsInner, sumIdx_cons, sumIdx_nil, Finset.sum_range_succ, Finset.sum_range_zero, povm1_elem, basisElem]
  interval_cases y <;> interval_cases z <;> norm_num

theorem basis_coarse {z : ℕ} (hz : z < 2) : (povm1 2 basisElem).coarseElem [2] [2] [z] = (povm1 2 basisElem).elem [z] := by
  funext I J; exact povm1_coarse 2 basisElem hz I J

theorem basis_match {y z : ℕ} (hy : y < 2) (hz : z < 2) :
    ElemMatch [2] ((povm1 2 basisElem).elem [y]) ((povm1 2 basisElem).coarseElem [2] [2] [z]) ↔ y = z := by
  rw [basis_coarse hz]
  unfold ElemMatch
  rw [inner_basis hy hz, norm_basis hy, norm_basis hz]
  interval_cases y <;> interval_cases z <;> norm_num

theorem basis_factor {y z : ℕ} (hy : y < 2) (hz : z < 2) :
    elemFactor [2] ((povm1 2 basisElem).elem [y]) ((povm1 2 basisElem).coarseElem [2] [2] [z]) = if y = z then 1 else 0 := by
  unfold elemFactor
  by_cases h : y = z
  · rw [if_pos ((basis_match hy hz).2 h), if_pos h, basis_coarse hz, norm_basis hy, norm_basis hz]
    norm_num
  · rw [if_neg fun h' => h ((basis_match hy hz).1 h'), if_neg h]

theorem basis_args : EstArgs (povm1 2 basisElem) (povm1 2 basisElem) [2] [2] [2] where
  self := povm1_isMpPovm (by norm_num) _
  other := povm1_isMpPovm (by norm_num) _
  posO := by simp
  posO' := by simp
  posD := by simp
  ranks := by simp [povm1, MPA.ranks]
  ne := by decide
  elems := by
    intro Y hY
    obtain ⟨y, rfl, hy⟩ := inB_one hY
    rw [norm_basis hy]; norm_num
  elems' := by
    intro Z hZ
    obtain ⟨z, rfl, hz⟩ := inB_one (show InB Z [2] from hZ)
    rw [basis_coarse hz, norm_basis hz]; norm_num

theorem basis_given (Y : List ℕ) (hY : InB Y [2]) : IsGiven (povm1 2 basisElem) (povm1 2 basisElem) [2] [2] [2] Y := by
  obtain ⟨y, rfl, hy⟩ := inB_one hY
  exact ⟨[y], hY, (basis_match hy hy).2 rfl⟩

theorem basis_givenSum {I J : List ℕ} (hI : InB I [2]) (hJ : InB J [2]) :
    givenSum (povm1 2 basisElem) [2] (IsGiven (povm1 2 basisElem) (povm1 2 basisElem) [2] [2] [2]) I J
      = if I = J then ((1 : ℝ) : ℂ) else 0 := by
  rw [← lossy_givenSum hI hJ]
  unfold givenSum
  exact sumIdx_congr fun Y hY => by rw [if_pos (basis_given Y hY), if_pos (lossy_given Y hY)]

open scoped ComplexOrder in
theorem basis_psd (Y : List ℕ) (hY : InB Y [2]) : Psd [2] ((povm1 2 basisElem).elem Y) := by
  obtain ⟨y, rfl, hy⟩ := inB_one hY
  unfold Psd
  have : (Matrix.of fun I J : {I // InB I [2]} => (povm1 2 basisElem).elem [y] I J)
      = Matrix.vecMulVec (fun I : {I // InB I [2]} => if (I : List ℕ).getD 0 0 = y then (1 : ℂ) else 0)
        (star fun I : {I // InB I [2]} => if (I : List ℕ).getD 0 0 = y then (1 : ℂ) else 0) := by
    ext ⟨I, hI⟩ ⟨J, hJ⟩
    obtain ⟨i, rfl, _⟩ := inB_one hI
    obtain ⟨j, rfl, _⟩ := inB_one hJ
    simp only [Matrix.of_apply, Matrix.vecMulVec_apply, povm1_elem, basisElem, Pi.star_apply]
    by_cases h1 : i = y <;> by_cases h2 : j = y <;> simp [h1, h2]
  rw [this]
  exact Matrix.posSemidef_vecMulVec_self_star _

theorem basis_estimates (n : ℕ) (hn : 0 < n) (W : ℕ → List ℕ) (hW : ∀ k < n, InB (W k) [2]) :
    (sumIdx [2] fun Y => estimate (povm1 2 basisElem) (povm1 2 basisElem) [2] [2] [2] n W Y) = 1 := by
  unfold estimate
  have e : ∀ y, y < 2 → ∑ k ∈ range n, elemFactor [2] ((povm1 2 basisElem).elem [y])
      ((povm1 2 basisElem).coarseElem [2] [2] (keepOut [2] (W k))) = ∑ k ∈ range n, if W k = [y] then 1 else 0 := by
    intro y hy
    refine Finset.sum_congr rfl fun k hk => ?_
    obtain ⟨w, hw, hw3⟩ := inB_one (hW k (mem_range.1 hk))
    rw [hw, show keepOut [2] [w] = [w] from rfl, basis_factor hy hw3]
    by_cases h : y = w <;> simp [h, eq_comm]
  simp only [sumIdx_cons, sumIdx_nil, Finset.sum_range_succ (n := 1), Finset.sum_range_succ (n := 0), Finset.sum_range_zero]
  rw [e 0 (by omega), e 1 (by omega), zero_add, ← add_div, ← Finset.sum_add_distrib]
  have hn' : (n : ℝ) ≠ 0 := by exact_mod_cast hn.ne'
  rw [div_eq_one_iff_eq hn', Finset.sum_congr rfl (g := fun _ => (1 : ℝ))]
  · simp
  · intro k hk
    obtain ⟨w, hw, hw3⟩ := inB_one (hW k (mem_range.1 hk))
    rw [hw]
    interval_cases w <;> simp

/-- Non-vacuity of C57: every array of samples is accepted, and the estimates are unbiased up to the tolerance. -/
example {qr : QR ℂ} (hqr : QRSpec qr) (ρ : List ℕ → List ℕ → ℂ) (hρ : IsState [2] ρ) (P : List ℕ → ℝ)
    (hP : OutcomeDist [2] [2] (povm1 2 basisElem).elem ρ P) (n : ℕ) (hn : 0 < n) :
    iidMean [2] P n (fun s => estValue (estPmfFrom qr (povm1 2 basisElem) (povm1 2 basisElem) (samplesOf [2] n s) (1 / 8)) [0])
      ≤ (bornRule [2] ((povm1 2 basisElem).elem [0]) ρ).re + 1 / 8 := by
  refine (C57_unbiased hqr _ _ [2] [2] [2] basis_args basis_psd ?_ 1 one_pos (fun I J hI hJ => basis_givenSum hI hJ) ρ hρ P hP
    n hn (1 / 8) (by norm_num) (fun s => ?_) [0] (by simp) (basis_given _ (by simp))).2
  · intro Y Z hY hZ h
    obtain ⟨y, rfl, hy⟩ := inB_one hY
    obtain ⟨z, rfl, hz⟩ := inB_one (show InB Z [2] from hZ)
    obtain rfl := (basis_match hy hz).1 h
    exact ⟨1, one_pos, fun I J _ _ => by rw [basis_coarse hz]; simp⟩
  · have hs := samplesAre_samplesOf (O := [2]) (by simp) n s
    obtain ⟨e, he, -⟩ := (C57_est_pmf_from hqr _ _ [2] [2] [2] basis_args n _ _ hs (1 / 8) (by norm_num)).2.1
      ⟨[0], by simp, basis_given _ (by simp)⟩ 1
      (C57_fraction_exact [2] (by simp) _ 1 one_pos (fun I J hI hJ => basis_givenSum hI hJ) _ _ (by norm_num)
        (fun _ => le_rfl) (fun _ => rfl)) hn (by rw [basis_estimates n hn _ hs.inB]; norm_num)
    exact ⟨_, he⟩

end Mpnum
