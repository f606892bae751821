import Verif.Linalg.ContractLemmas

/-! Environments: the left and right vectors of linalg.py as sums over the sites they cover. -/

open Finset

namespace Mpnum

variable {R : Type} [CommRing R] [StarRing R]

/-- Sum exchange behind one step of a left or right vector with an operator in the middle. -/
theorem env_exchange {κ : Type} (K : Finset κ) (d w d' p q : ℕ) (A B C : κ → ℕ → R) (T : ℕ → ℕ → R)
    (W : ℕ → ℕ → ℕ → R) (U : ℕ → ℕ → R) :
    (∑ z ∈ range d', ∑ r ∈ range q, (∑ x ∈ range w, ∑ s ∈ range p,
        (∑ i ∈ range d, (∑ k ∈ K, A k i * B k x * C k z) * T i s) * W x r s) * U z r)
      = ∑ k ∈ K, ∑ r ∈ range q, ∑ s ∈ range p, (∑ i ∈ range d, A k i * T i s) * (∑ x ∈ range w, B k x * W x r s)
          * ∑ z ∈ range d', C k z * U z r := by
  have h1 : ∀ x z s, (∑ i ∈ range d, (∑ k ∈ K, A k i * B k x * C k z) * T i s)
      = ∑ k ∈ K, (∑ i ∈ range d, A k i * T i s) * B k x * C k z := by
    intro x z s
    simp only [sum_mul]
    rw [sum_comm]
    refine sum_congr rfl fun k _ => sum_congr rfl fun i _ => ?_
    ring
  have h2 : ∀ z r, (∑ x ∈ range w, ∑ s ∈ range p, (∑ k ∈ K, (∑ i ∈ range d, A k i * T i s) * B k x * C k z) * W x r s)
      = ∑ k ∈ K, C k z * ∑ s ∈ range p, (∑ i ∈ range d, A k i * T i s) * ∑ x ∈ range w, B k x * W x r s := by
    intro z r
    rw [sum_comm]
    simp only [sum_mul _ _ (W _ _ _), mul_sum _ _ (C _ _)]
    refine Eq.trans ?_ sum_comm
    refine sum_congr rfl fun s _ => ?_
    rw [sum_comm]
    refine sum_congr rfl fun k _ => ?_
    simp only [mul_sum]
    refine sum_congr rfl fun x _ => ?_
    ring
  simp only [h1, h2]
  have h3 : ∀ z r, (∑ k ∈ K, C k z * ∑ s ∈ range p, (∑ i ∈ range d, A k i * T i s) * ∑ x ∈ range w, B k x * W x r s) * U z r
      = ∑ k ∈ K, (∑ s ∈ range p, (∑ i ∈ range d, A k i * T i s) * ∑ x ∈ range w, B k x * W x r s) * (C k z * U z r) := by
    intro z r
    rw [sum_mul]
    refine sum_congr rfl fun k _ => ?_
    ring
  simp only [h3]
  have h4 : ∀ k r, (∑ s ∈ range p, (∑ i ∈ range d, A k i * T i s) * (∑ x ∈ range w, B k x * W x r s)
        * ∑ z ∈ range d', C k z * U z r)
      = ∑ z ∈ range d', (∑ s ∈ range p, (∑ i ∈ range d, A k i * T i s) * ∑ x ∈ range w, B k x * W x r s) * (C k z * U z r) := by
    intro k r
    rw [← sum_mul, ← mul_sum]
  simp only [h4]
  refine Eq.trans (sum_congr rfl fun z _ => sum_comm) ?_
  refine Eq.trans sum_comm ?_
  refine sum_congr rfl fun k _ => ?_
  exact sum_comm

/-- Specification of the left vector of a ket `ts`, operator `ws` and bra `us`: the sum over all row indices `I` and
column indices `J` of the sites covered. -/
structure LEnv (ws ts us : List (NDArray R)) (D A : List ℕ) (w d d' : ℕ) (e : NDArray R) : Prop where
  cw : Chained 1 ws w
  ct : Chained 1 ts d
  cu : Chained 1 us d'
  sw : physShape ws = pairs D A
  st : physShape ts = singles A
  su : physShape us = singles D
  len : D.length = A.length
  shape : e.shape = [d, w, d']
  val : ∀ a < d, ∀ y < w, ∀ c < d', e.get [a, y, c] = sumIdx D fun I => sumIdx A fun J =>
    mp ts (singles J) 0 a * mp ws (pairs I J) 0 y * star (mp us (singles I) 0 c)

theorem lEnv_nil : LEnv (R := R) [] [] [] [] [] 1 1 1 (onesNd 3) := by
  refine ⟨rfl, rfl, rfl, rfl, rfl, rfl, rfl, rfl, ?_⟩
  intro a ha y hy c hc
  obtain rfl : a = 0 := by omega
  obtain rfl : y = 0 := by omega
  obtain rfl : c = 0 := by omega
  simp [onesNd]

theorem physShape_concat (ts : List (NDArray R)) (t : NDArray R) : physShape (ts ++ [t]) = physShape ts ++ [t.ph] := by
  simp [physShape]

theorem physShape_length (ts : List (NDArray R)) : (physShape ts).length = ts.length := by simp [physShape]

theorem singles_append (I J : List ℕ) : singles (I ++ J) = singles I ++ singles J := by simp [singles]

theorem singles_length (I : List ℕ) : (singles I).length = I.length := by simp [singles]

theorem pairs_length {I J : List ℕ} (h : I.length = J.length) : (pairs I J).length = I.length := by
  simp [pairs, h]

theorem chained_step {l : ℕ} {ts : List (NDArray R)} {t : NDArray R} (h : Chained l ts t.lb) (ht : t.IsLocal) :
    Chained l (ts ++ [t]) t.rb := chained_concat.2 ⟨h, ht, rfl⟩

theorem lEnv_step {ws ts us : List (NDArray R)} {D A : List ℕ} {w d d' v b b' p q : ℕ} {e W T U : NDArray R}
    (h : LEnv ws ts us D A w d d' e) (hW : W.shape = [w, q, p, v]) (hT : T.shape = [d, p, b])
    (hU : U.shape = [d', q, b']) :
    ∃ N, eigLeftvecAdd e W T U = .ok N ∧
      LEnv (ws ++ [W]) (ts ++ [T]) (us ++ [U]) (D ++ [q]) (A ++ [p]) v b b' N := by
  obtain ⟨N, h1, h2, h3⟩ := eigLeftvecAdd_ok h.shape hW hT hU
  have lW : W.IsLocal := by simp [NDArray.IsLocal, NDArray.ndim, hW]
  have lT : T.IsLocal := by simp [NDArray.IsLocal, NDArray.ndim, hT]
  have lU : U.IsLocal := by simp [NDArray.IsLocal, NDArray.ndim, hU]
  have eW1 : W.lb = w := by simp [NDArray.lb, hW]
  have eT1 : T.lb = d := by simp [NDArray.lb, hT]
  have eU1 : U.lb = d' := by simp [NDArray.lb, hU]
  have eW2 : W.rb = v := by simp [NDArray.rb, hW]
  have eT2 : T.rb = b := by simp [NDArray.rb, hT]
  have eU2 : U.rb = b' := by simp [NDArray.rb, hU]
  have nW : ws.length = D.length := by
    have := congrArg List.length h.sw; rw [physShape_length, pairs_length h.len] at this; exact this
  have nT : ts.length = A.length := by
    have := congrArg List.length h.st; rw [physShape_length, singles_length] at this; exact this
  have nU : us.length = D.length := by
    have := congrArg List.length h.su; rw [physShape_length, singles_length] at this; exact this
  have cw : Chained 1 ws W.lb := eW1 ▸ h.cw
  have ct : Chained 1 ts T.lb := eT1 ▸ h.ct
  have cu : Chained 1 us U.lb := eU1 ▸ h.cu
  refine ⟨N, h1, eW2 ▸ chained_step cw lW, eT2 ▸ chained_step ct lT, eU2 ▸ chained_step cu lU, ?_, ?_, ?_,
    by simp [h.len], h2, ?_⟩
  · rw [physShape_concat, h.sw, pairs_append h.len]; simp [NDArray.ph, hW, pairs]
  · rw [physShape_concat, h.st, singles_append]; simp [NDArray.ph, hT, singles]
  · rw [physShape_concat, h.su, singles_append]; simp [NDArray.ph, hU, singles]
  · intro a ha y hy c hc
    rw [h3]
    have hv : ∀ z ∈ range d', ∀ x ∈ range w, ∀ i ∈ range d, e.get [i, x, z]
        = ∑ k ∈ idxSet D ×ˢ idxSet A, mp ts (singles k.2) 0 i * mp ws (pairs k.1 k.2) 0 x * star (mp us (singles k.1) 0 z) := by
      intro z hz x hx i hi
      rw [h.val i (by simpa using hi) x (by simpa using hx) z (by simpa using hz), sumIdx_eq_sum, sum_product]
      exact sum_congr rfl fun I _ => sumIdx_eq_sum _ _
    refine Eq.trans (b := ∑ z ∈ range d', ∑ r ∈ range q, (∑ x ∈ range w, ∑ s ∈ range p, (∑ i ∈ range d,
        (∑ k ∈ idxSet D ×ˢ idxSet A, mp ts (singles k.2) 0 i * mp ws (pairs k.1 k.2) 0 x * star (mp us (singles k.1) 0 z))
          * T.get [i, s, a]) * W.get [x, r, s, y]) * star (U.get [z, r, c])) ?_ ?_
    · refine sum_congr rfl fun z hz => sum_congr rfl fun r _ => ?_
      refine congrArg (· * _) (sum_congr rfl fun x hx => sum_congr rfl fun s _ => ?_)
      refine congrArg (· * _) (sum_congr rfl fun i hi => ?_)
      rw [hv z hz x hx i hi]
    rw [env_exchange (idxSet D ×ˢ idxSet A) d w d' p q (fun k i => mp ts (singles k.2) 0 i)
      (fun k x => mp ws (pairs k.1 k.2) 0 x) (fun k z => star (mp us (singles k.1) 0 z)) (fun i s => T.get [i, s, a])
      (fun x r s => W.get [x, r, s, y]) (fun z r => star (U.get [z, r, c])), sum_product]
    simp only [sumIdx_append, sumIdx_cons, sumIdx_nil]
    rw [sumIdx_eq_sum]
    refine sum_congr rfl fun I hI => ?_
    have hI' := inB_length (mem_idxSet.1 hI)
    rw [sum_comm]
    refine sum_congr rfl fun r _ => ?_
    rw [sumIdx_eq_sum]
    refine sum_congr rfl fun J hJ => sum_congr rfl fun s _ => ?_
    have hJ' := inB_length (mem_idxSet.1 hJ)
    rw [singles_append, singles_append, pairs_append (by have := h.len; omega),
      show singles [s] = [[s]] from rfl, show singles [r] = [[r]] from rfl, show pairs [r] [s] = [[r, s]] from rfl,
      mp_concat ct (by rw [singles_length]; omega) one_pos (by omega),
      mp_concat cw (by rw [pairs_length (by have := h.len; omega)]; omega) one_pos (by omega),
      mp_concat cu (by rw [singles_length]; omega) one_pos (by omega), star_sum, eW1, eT1, eU1]
    refine congrArg₂ (· * ·) (congrArg₂ (· * ·) rfl rfl) (sum_congr rfl fun z _ => ?_)
    rw [star_mul, mul_comm]
    rfl

end Mpnum
