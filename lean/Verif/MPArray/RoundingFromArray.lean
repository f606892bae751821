import Verif.MPArray.FromArray
import Verif.MPArray.RoundingNorm

/-!
Error analysis of `_extract_factors` (mparray.py:1781-1802) for QR decompositions with rounding errors.
-/

open Finset

namespace Mpnum

variable {𝕜 : Type} [RCLike 𝕜]

/-- Relative error of the factorisation of a tensor into `n` sites: `n - 1` decompositions, each with relative error `ε` and growth
`(1 + ε) ^ 2` of the errors of the later ones. -/
noncomputable def fromArrayErr (ε : ℝ) (n : ℕ) : ℝ := ε * ∑ j ∈ range (n - 1), ((1 + ε) ^ 2) ^ j

theorem fromArrayErr_one (ε : ℝ) : fromArrayErr ε 1 = 0 := by simp [fromArrayErr]

theorem fromArrayErr_succ (ε : ℝ) (n : ℕ) : fromArrayErr ε (n + 2) = ε + (1 + ε) * (fromArrayErr ε (n + 1) * (1 + ε)) := by
  unfold fromArrayErr
  simp only [Nat.add_succ_sub_one, Nat.add_zero]
  rw [Finset.sum_range_succ', pow_zero, mul_add, mul_one, add_comm]
  congr 1
  rw [Finset.mul_sum, Finset.mul_sum, Finset.sum_mul, Finset.mul_sum]
  exact Finset.sum_congr rfl fun j _ => by rw [pow_succ]; ring

theorem fromArrayErr_nonneg {ε : ℝ} (hε : 0 ≤ ε) (n : ℕ) : 0 ≤ fromArrayErr ε n :=
  mul_nonneg hε (Finset.sum_nonneg fun _ _ => by positivity)

/-- Squared 2-norm of the difference of the tensor `t` and of the product of the local tensors `ts`. -/
noncomputable def repErr (l : ℕ) (ts : List (NDArray 𝕜)) (r : ℕ) (t : NDArray 𝕜) : ℝ :=
  sumIdx [l] fun a => sumSites (physShape ts) fun i => ∑ b ∈ range r, ‖t.get (a ++ (i.flatten ++ [b])) - mp ts i (a.headD 0) b‖ ^ 2

/-- Sums over the matrix form of a tensor. -/
theorem sum_matricize {M : Type} [AddCommMonoid M] (s : List ℕ) (Q : List (List ℕ)) (r : ℕ) (F : ℕ → ℕ → M) :
    ∑ i ∈ range s.prod, ∑ j ∈ range (Q.flatten ++ [r]).prod, F i j
      = ∑ i ∈ idxSet s, ∑ is ∈ siteSet Q, ∑ b ∈ range r, F (ravelIdx s i) (ravelIdx (Q.flatten ++ [r]) (is.flatten ++ [b])) := by
  rw [← sumIdx_ravel, sumIdx_eq_sum]
  refine Finset.sum_congr rfl fun i _ => ?_
  rw [← sumIdx_ravel, sumIdx_append, ← sumSites_flatten Q, sumSites_eq_sum]
  rfl

theorem nsq_blocks {t : NDArray 𝕜} {s : List ℕ} {Q : List (List ℕ)} {r : ℕ} (h : t.shape = s ++ (Q.flatten ++ [r])) :
    nsq t = ∑ i ∈ idxSet s, ∑ is ∈ siteSet Q, ∑ b ∈ range r, ‖t.get (i ++ (is.flatten ++ [b]))‖ ^ 2 := by
  unfold nsq
  rw [h, sumIdx_append, sumIdx_eq_sum]
  refine Finset.sum_congr rfl fun i _ => ?_
  rw [sumIdx_append, ← sumSites_flatten Q, sumSites_eq_sum]
  rfl

/-- `_extract_factors` with a QR decomposition with relative error `ε`. -/
theorem extract_near {ε : ℝ} (hε : 0 ≤ ε) {qr : QR 𝕜} (hqr : QRNear ε qr) (e : PyErr) (extra : List ℕ) :
    ∀ (P : List (List ℕ)), P ≠ [] → (P.length = 1 ∨ P.getLast? ≠ some []) →
      (∀ p ∈ P, ∀ d ∈ p, 0 < d) →
      ∀ (l r : ℕ) (t : NDArray 𝕜), 0 < l → 0 < r → t.shape = l :: (P.flatten ++ [r]) →
      ∃ ts, extractFactors qr e (P.map List.length ++ extra) t = .ok ts ∧ Chained l ts r ∧
        physShape ts = P ∧ repErr l ts r t ≤ (fromArrayErr ε P.length * npNorm t) ^ 2 ∧ (∀ u ∈ ts.dropLast, LNear ε u) ∧ AllPos ts ∧
        ts.tail.map NDArray.lb = (List.range (P.length - 1)).map (cutRank l r P) := by
  intro P
  induction P with
  | nil => intro h; exact absurd rfl h
  | cons p P ih =>
    intro _ hlast hpos l r t hl hr hs
    cases P with
    | nil =>
      have hs' : t.shape = l :: (p ++ [r]) := by simpa using hs
      refine ⟨[t], ?_, ?_, ?_, ?_, by simp, ?_, by simp⟩
      · simp only [List.map_cons, List.map_nil, List.cons_append, extractFactors]
        rw [if_pos (by simp [NDArray.ndim, hs'])]
      · exact ⟨NDArray.isLocal_of_shape hs', NDArray.lb_of_shape hs', NDArray.rb_of_shape hs'⟩
      · simp [physShape, NDArray.ph_of_shape hs']
      · have h0 : repErr l [t] r t = 0 := by
          unfold repErr
          simp only [physShape, List.map_cons, List.map_nil, sumIdx_eq_sum, sumSites_eq_sum]
          refine Finset.sum_eq_zero fun a ha => Finset.sum_eq_zero fun i hi => Finset.sum_eq_zero fun c hc => ?_
          have hi := mem_siteSet.1 hi
          cases hi with
          | cons h1 h2 =>
            cases h2
            have ha' := mem_idxSet.1 ha
            cases ha' with
            | cons h3 h4 =>
              cases h4
              rw [mp_single (by rw [NDArray.rb_of_shape hs']; simpa using hc)]
              simp [NDArray.at3]
        rw [h0]; positivity
      · intro u hu d hd
        rw [List.mem_singleton.1 hu, hs'] at hd
        rcases List.mem_cons.1 hd with rfl | hd
        · exact hl
        · rcases List.mem_append.1 hd with hd | hd
          · exact hpos p (by simp) d hd
          · rw [List.mem_singleton.1 hd]; exact hr
    | cons q P =>
      set Q := q :: P with hQ
      have hQne : Q ≠ [] := by simp [hQ]
      have hlast' : Q.getLast? ≠ some [] := by
        rcases hlast with h | h
        · simp [hQ] at h
        · simpa [hQ] using h
      have hposQ : ∀ p ∈ Q, ∀ d ∈ p, 0 < d := fun p' hp' => hpos p' (by simp [hp'])
      have hposp : ∀ d ∈ p, 0 < d := hpos p (by simp)
      have hQfl : Q.flatten ≠ [] := by
        obtain ⟨z, hz⟩ : ∃ z, Q.getLast? = some z := ⟨_, List.getLast?_eq_some_getLast hQne⟩
        have hz' : z ∈ Q := List.mem_of_getLast? hz
        have hzne : z ≠ [] := by rintro rfl; exact hlast' hz
        obtain ⟨d, hd⟩ := List.exists_mem_of_ne_nil z hzne
        intro h
        have : d ∈ Q.flatten := List.mem_flatten.2 ⟨z, hz', hd⟩
        rw [h] at this; cases this
      have hs1 : t.shape = (l :: p) ++ (Q.flatten ++ [r]) := by simpa using hs
      have htake : t.shape.take (p.length + 1) = l :: p := by
        rw [hs1]; exact List.take_left' (by simp)
      have hdrop : t.shape.drop (p.length + 1) = Q.flatten ++ [r] := by
        rw [hs1]; exact List.drop_left' (by simp)
      set m := (l :: p).prod with hm
      set n := (Q.flatten ++ [r]).prod with hn
      have hpp : 0 < p.prod := list_prod_pos hposp
      have hmpos : 0 < m := by rw [hm, List.prod_cons]; exact Nat.mul_pos hl hpp
      have hQp : 0 < Q.flatten.prod := flatten_pos hposQ
      have hnpos : 0 < n := by
        rw [hn, List.prod_append]; simpa using Nat.mul_pos hQp hr
      set mat := t.reshapeTo [m, n] with hmat
      obtain ⟨hq1, hq2⟩ := hqr.shape mat m n rfl
      have hq3 := hqr.close mat m n rfl
      have hq4 := hqr.iso mat m n rfl
      have hq5 := hqr.size mat m n rfl
      set k := min m n with hk
      have hkpos : 0 < k := by omega
      set u := (qr mat).1.reshapeTo ((l :: p) ++ [k]) with hu
      set rest := (qr mat).2.reshapeTo (k :: (Q.flatten ++ [r])) with hrestdef
      obtain ⟨ts, h1, h2, h3, h4, h5, h7, h6⟩ :=
        ih hQne (Or.inr hlast') hposQ k r rest hkpos hr rfl
      have hus : u.shape = l :: (p ++ [k]) := by simp [hu]
      -- entries of the three matrices
      have hmatget : ∀ i j, InB i (l :: p) → InB j (Q.flatten ++ [r]) →
          mat.get [ravelIdx (l :: p) i, ravelIdx (Q.flatten ++ [r]) j] = t.get (i ++ j) := by
        intro i j hi hj
        have := NDArray.reshapeTo_blocks2 (a := t) (T := [m]) (T' := [n])
          (i := [ravelIdx (l :: p) i]) (j := [ravelIdx (Q.flatten ++ [r]) j]) hs1
          (by simp [hm]) (by simp [hn]) (by simp only [inB_cons, inB_nil, and_true]; exact ravelIdx_lt hi)
          (by simp only [inB_cons, inB_nil, and_true]; exact ravelIdx_lt hj)
        simp only [ravelIdx_single, unravel_ravel hi, unravel_ravel hj] at this
        exact this
      have huget : ∀ i b, InB i (l :: p) → b < k →
          u.get (i ++ [b]) = (qr mat).1.get [ravelIdx (l :: p) i, b] := by
        intro i b hi hb
        have := NDArray.reshapeTo_blocks2 (a := (qr mat).1) (S := [m]) (S' := [k]) (T := l :: p)
          (T' := [k]) (i := i) (j := [b]) hq1 (by simp [hm]) rfl hi (by simpa using hb)
        simp only [ravelIdx_single, unravelIdx_single, List.singleton_append] at this
        exact this
      have hrget : ∀ b j, b < k → InB j (Q.flatten ++ [r]) →
          rest.get (b :: j) = (qr mat).2.get [b, ravelIdx (Q.flatten ++ [r]) j] := by
        intro b j hb hj
        have := NDArray.reshapeTo_blocks2 (a := (qr mat).2) (S := [k]) (S' := [n]) (T := [k])
          (T' := Q.flatten ++ [r]) (i := [b]) (j := j) hq2 rfl (by simp [hn]) (by simpa using hb) hj
        simpa using this
      have hulb : u.lb = l := NDArray.lb_of_shape hus
      have hurb : u.rb = k := NDArray.rb_of_shape hus
      have huph : u.ph = p := NDArray.ph_of_shape hus
      have hch : Chained l (u :: ts) r := ⟨NDArray.isLocal_of_shape hus, hulb, hurb ▸ h2⟩
      have hmatnsq : nsq mat = nsq t := by
        rw [nsq_blocks (s := l :: p) (Q := Q) (r := r) hs1]
        unfold nsq
        rw [show mat.shape = [m, n] from rfl]
        show ∑ i ∈ range m, ∑ j ∈ range n, ‖mat.get [i, j]‖ ^ 2 = _
        rw [hm, hn, sum_matricize]
        refine Finset.sum_congr rfl fun i hi => Finset.sum_congr rfl fun is his => Finset.sum_congr rfl fun b hb => ?_
        rw [hmatget _ _ (mem_idxSet.1 hi) (inB_append (idxOK_flatten (mem_siteSet.1 his)) (by simpa using hb))]
      have hrestnsq : nsq rest = nsq (qr mat).2 := by
        rw [nsq_blocks (s := [k]) (Q := Q) (r := r) rfl]
        unfold nsq
        rw [hq2]
        show _ = ∑ i ∈ range k, ∑ j ∈ range n, ‖(qr mat).2.get [i, j]‖ ^ 2
        have := sum_matricize [k] Q r fun i j => ‖(qr mat).2.get [i, j]‖ ^ 2
        rw [List.prod_singleton] at this
        rw [hn, this]
        refine Finset.sum_congr rfl fun i hi => Finset.sum_congr rfl fun is his => Finset.sum_congr rfl fun b hb => ?_
        have hi := mem_idxSet.1 hi
        cases hi with
        | cons g1 g2 =>
          cases g2
          have := hrget _ _ g1 (inB_append (idxOK_flatten (mem_siteSet.1 his)) (t := [r]) (j := [b]) (by simpa using hb))
          rw [List.singleton_append, this, ravelIdx_single]
      have hrest : npNorm rest ≤ (1 + ε) * npNorm t := by
        refine (abs_le_of_sq_le_sq' ?_ (mul_nonneg (by linarith) (npNorm_nonneg' t))).2
        rw [mul_pow, npNorm_sq, npNorm_sq, hrestnsq, ← hmatnsq]
        exact hq5
      refine ⟨u :: ts, ?_, hch, ?_, ?_, ?_, ?_, ?_⟩
      · simp only [List.map_cons, List.cons_append, extractFactors]
        have hnd : t.ndim = p.length + 2 + Q.flatten.length := by
          simp [NDArray.ndim, hs1]; omega
        have hQlen : 0 < Q.flatten.length := List.length_pos_of_ne_nil hQfl
        rw [if_neg (by omega), if_neg (by omega), htake, hdrop]
        have e1 : t.reshape [((l :: p).prod : ℕ), -1] = .ok mat := by
          have := NDArray.reshape_infer (a := t) (d := n) (s := [m]) (t := [])
            (by rw [hs1, List.prod_append]; simp [hm, hn]) (by simpa using hmpos)
          exact this
        rw [e1]
        have e2 : (qr mat).2.shape.take 1 = [k] := by rw [hq2]; rfl
        have e3 : (qr mat).1.reshape ((l :: p ++ [k]).map (fun n : ℕ => (n : ℤ))) = .ok u :=
          NDArray.reshape_nat (by rw [hq1, List.prod_append]; simp only [hm, List.prod_cons])
        have e4 : (qr mat).2.reshape (([k] ++ (Q.flatten ++ [r])).map (fun n : ℕ => (n : ℤ)))
            = .ok rest := NDArray.reshape_nat (by rw [hq2]; simp [hn])
        show (do
          let unitary ← (qr mat).1.reshape
            ((l :: p ++ (qr mat).2.shape.take 1).map (fun n : ℕ => (n : ℤ)))
          let rest ← (qr mat).2.reshape
            (((qr mat).2.shape.take 1 ++ (Q.flatten ++ [r])).map (fun n : ℕ => (n : ℤ)))
          let tail ← extractFactors qr e (Q.map List.length ++ extra) rest
          return unitary :: tail) = _
        rw [e2, e3, e4]
        show (do
          let tail ← extractFactors qr e (Q.map List.length ++ extra) rest
          return u :: tail) = _
        rw [h1]; rfl
      · simp only [physShape, List.map_cons, huph] at h3 ⊢
        rw [h3]
      · -- the error
        have hlen : (p :: Q).length = P.length + 2 := by simp [hQ]
        have hlenQ : Q.length = P.length + 1 := by simp [hQ]
        have hT := npNorm_nonneg' t
        have hfa := fromArrayErr_nonneg hε (P.length + 1)
        rw [hlen, fromArrayErr_succ, add_mul]
        have hmi := mink3 (idxSet (l :: p)) (siteSet Q) (range r)
          (fun i is b => mat.get [ravelIdx (l :: p) i, ravelIdx (Q.flatten ++ [r]) (is.flatten ++ [b])]
            - ∑ c ∈ range k, (qr mat).1.get [ravelIdx (l :: p) i, c] * (qr mat).2.get [c, ravelIdx (Q.flatten ++ [r]) (is.flatten ++ [b])])
          (fun i is b => ∑ c ∈ range k, (qr mat).1.get [ravelIdx (l :: p) i, c]
            * ((qr mat).2.get [c, ravelIdx (Q.flatten ++ [r]) (is.flatten ++ [b])] - mp ts is c b))
          (x := ε * npNorm t) (y := (1 + ε) * (fromArrayErr ε (P.length + 1) * (1 + ε)) * npNorm t)
          (by positivity) (by positivity) ?_ ?_
        · refine le_trans (le_of_eq ?_) hmi
          unfold repErr
          have hps : physShape (u :: ts) = p :: Q := by
            simp only [physShape, List.map_cons, huph] at h3 ⊢
            rw [h3]
          have hsum : ∀ F : List ℕ → List (List ℕ) → ℕ → ℝ,
              (sumIdx [l] fun a => sumSites (p :: Q) fun i => ∑ b ∈ range r, F (a ++ i.headD []) i.tail b)
                = ∑ i ∈ idxSet (l :: p), ∑ is ∈ siteSet Q, ∑ b ∈ range r, F i is b := by
            intro F
            rw [show l :: p = [l] ++ p from rfl, ← sumIdx_eq_sum, sumIdx_append]
            refine sumIdx_congr fun a _ => ?_
            rw [sumSites_cons]
            refine sumIdx_congr fun i _ => ?_
            rw [sumSites_eq_sum]
            rfl
          rw [hps, ← hsum]
          refine sumIdx_congr fun a ha => sumSites_congr fun i hi => Finset.sum_congr rfl fun b hb => ?_
          cases hi with
          | @cons i0 _ is _ g1 g2 =>
            cases ha with
            | @cons a _ _ _ g3 g4 =>
              cases g4
              have hb : b < r := by simpa using hb
              have hai : InB (a :: i0) (l :: p) := inB_cons' g3 g1
              have hj : InB (is.flatten ++ [b]) (Q.flatten ++ [r]) := inB_append (idxOK_flatten g2) (by simpa using hb)
              simp only [List.headD_cons, List.tail_cons, List.flatten_cons, List.singleton_append]
              congr 2
              rw [hmatget _ _ hai hj, mp_cons, hurb]
              simp only [mul_sub, Finset.sum_sub_distrib]
              rw [sub_add_sub_cancel]
              congr 1
              · simp
              · refine Finset.sum_congr rfl fun c hc => ?_
                have := huget (a :: i0) c hai (by simpa using hc)
                rw [← this]; rfl
        · rw [mul_pow, npNorm_sq, ← hmatnsq, hm] at *
          refine le_trans (le_of_eq ?_) hq3
          exact (sum_matricize (l :: p) Q r fun i j =>
            ‖mat.get [i, j] - ∑ c ∈ range k, (qr mat).1.get [i, c] * (qr mat).2.get [c, j]‖ ^ 2).symm
        · have hrep : repErr k ts r rest = ∑ is ∈ siteSet Q, ∑ b ∈ range r, ∑ c ∈ range k,
              ‖(qr mat).2.get [c, ravelIdx (Q.flatten ++ [r]) (is.flatten ++ [b])] - mp ts is c b‖ ^ 2 := by
            unfold repErr
            rw [h3, sumIdx_cons]
            simp only [sumIdx_nil, sumSites_eq_sum]
            rw [Finset.sum_comm]
            refine Finset.sum_congr rfl fun is his => ?_
            rw [Finset.sum_comm]
            refine Finset.sum_congr rfl fun b hb => Finset.sum_congr rfl fun c hc => ?_
            rw [List.singleton_append, hrget _ _ (by simpa using hc)
              (inB_append (idxOK_flatten (mem_siteSet.1 his)) (by simpa using hb))]
            rfl
          have hb2 : (1 + ε) ^ 2 * repErr k ts r rest ≤ ((1 + ε) * (fromArrayErr ε (P.length + 1) * (1 + ε)) * npNorm t) ^ 2 := by
            rw [hlenQ] at h4
            have e1 : (1 + ε) * (fromArrayErr ε (P.length + 1) * npNorm rest)
                ≤ (1 + ε) * (fromArrayErr ε (P.length + 1) * (1 + ε)) * npNorm t := by
              rw [mul_assoc (1 + ε), mul_assoc (fromArrayErr _ _)]
              exact mul_le_mul_of_nonneg_left (mul_le_mul_of_nonneg_left hrest hfa) (by linarith)
            calc (1 + ε) ^ 2 * repErr k ts r rest ≤ (1 + ε) ^ 2 * (fromArrayErr ε (P.length + 1) * npNorm rest) ^ 2 :=
                  mul_le_mul_of_nonneg_left h4 (sq_nonneg _)
              _ = ((1 + ε) * (fromArrayErr ε (P.length + 1) * npNorm rest)) ^ 2 := by ring
              _ ≤ _ := pow_le_pow_left₀ (mul_nonneg (by linarith) (mul_nonneg hfa (npNorm_nonneg' _))) e1 2
          refine le_trans ?_ hb2
          rw [hrep, Finset.sum_comm, Finset.mul_sum]
          refine Finset.sum_le_sum fun is _ => ?_
          rw [Finset.sum_comm, Finset.mul_sum]
          refine Finset.sum_le_sum fun b _ => ?_
          have := (hq4 fun c => (qr mat).2.get [c, ravelIdx (Q.flatten ++ [r]) (is.flatten ++ [b])] - mp ts is c b).2
          refine le_trans (le_of_eq ?_) this
          rw [hm, ← sumIdx_ravel, sumIdx_eq_sum]
      · intro v hv
        have hts : ts ≠ [] := by
          intro h; rw [h] at h3; simp [physShape, hQ] at h3
        rw [List.dropLast_cons_of_ne_nil hts] at hv
        rcases List.mem_cons.1 hv with rfl | hv
        · have hiso : ∀ w : ℕ → 𝕜, (∑ a ∈ range u.lb, sumIdx u.ph fun p => ‖∑ b ∈ range u.rb, u.at3 a p b * w b‖ ^ 2)
              = ∑ i ∈ range m, ‖∑ c ∈ range k, (qr mat).1.get [i, c] * w c‖ ^ 2 := by
            intro w
            rw [hulb, huph, hurb, hm, ← sumIdx_ravel]
            refine sumIdx_congr (s := l :: p) (f := fun i => ‖∑ b ∈ range k, u.get (i ++ [b]) * w b‖ ^ 2) fun i hi => ?_
            rw [Finset.sum_congr rfl fun c hc => by rw [huget i c hi (by simpa using hc)]]
          refine ⟨fun w => ?_, fun w => ?_⟩
          · rw [hiso, hurb]; exact (hq4 w).2
          · rw [hiso, hurb]; exact (hq4 w).1
        · exact h5 v hv
      · intro v hv d hd
        rcases List.mem_cons.1 hv with rfl | hv
        · rw [hus] at hd
          rcases List.mem_cons.1 hd with rfl | hd
          · exact hl
          · rcases List.mem_append.1 hd with hd | hd
            · exact hposp d hd
            · rw [List.mem_singleton.1 hd]; exact hkpos
        · exact h7 v hv d hd
      · -- ranks
        have hts : ts = ts.head (by intro h; rw [h] at h3; simp [physShape, hQ] at h3) :: ts.tail := by
          simp
        simp only [List.tail_cons]
        have hlb : ts.map NDArray.lb = k :: ts.tail.map NDArray.lb := by
          cases ts with
          | nil => simp [physShape, hQ] at h3
          | cons v vs => simp [h2.2.1]
        rw [hlb, h6]
        have hlen : (p :: Q).length - 1 = (Q.length - 1) + 1 := by simp [hQ]
        rw [hlen, List.range_succ_eq_map, List.map_cons, List.map_map]
        congr 1
        · simp [cutRank, hk, hm, hn]
        · apply List.map_congr_left
          intro c _
          simp only [cutRank, Function.comp, List.take_succ_cons, List.drop_succ_cons,
            List.flatten_cons, List.prod_append]
          have hsplit : Q.flatten.prod = (Q.take (c + 1)).flatten.prod * (Q.drop (c + 1)).flatten.prod := by
            rw [← List.prod_append, ← List.flatten_append, List.take_append_drop]
          have hA : 0 < (Q.take (c + 1)).flatten.prod :=
            flatten_pos fun p' hp' => hposQ p' (List.mem_of_mem_take hp')
          have hkk : k = min (l * p.prod) (Q.flatten.prod * r) := by simp [hk, hm, hn]
          rw [hkk, hsplit]
          set A := (Q.take (c + 1)).flatten.prod
          set B := (Q.drop (c + 1)).flatten.prod
          rw [min_mul_of_nonneg _ _ (Nat.zero_le A), show l * (p.prod * A) = l * p.prod * A by ring]
          have : B * r ≤ A * B * r * A := by
            calc B * r = 1 * (B * r) * 1 := by ring
              _ ≤ A * (B * r) * A := by
                apply Nat.mul_le_mul _ hA
                exact Nat.mul_le_mul_right _ hA
              _ = A * B * r * A := by ring
          omega

end Mpnum
