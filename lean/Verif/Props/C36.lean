import Verif.Linalg.EnvMps
import Verif.MPArray.Group

/-!
# C36: `sandwich` and the local operators of `eig`

`sandwich(H, a, b) = <b|H a>`, and the local operator used by `eig` is the compression of `H` onto the local tensor.
-/

open Finset

namespace Mpnum

variable {R : Type} [CommRing R] [StarRing R]

/-- Specification: `<b|H|a>` for an operator and vectors given by their entries. -/
def braket (D A : List ℕ) (b : List ℕ → R) (H : List ℕ → List ℕ → R) (a : List ℕ → R) : R :=
  sumIdx D fun I => sumIdx A fun J => star (b I) * H I J * a J

/-- `x` is an MPS with the local dimensions `D`. -/
structure IsMps (x : MPA R) (D : List ℕ) : Prop where
  valid : x.Valid
  shape : x.shape = singles D

/-- `x` is an MPO with the row dimensions `D` and the column dimensions `A`. -/
structure IsMpoRect (x : MPA R) (D A : List ℕ) : Prop where
  valid : x.Valid
  shape : x.shape = pairs D A
  len : D.length = A.length

theorem mps_lten_shape {l r : ℕ} {t : NDArray R} {ts : List (NDArray R)} {d : ℕ} {D : List ℕ}
    (h : Chained l (t :: ts) r) (hs : physShape (t :: ts) = singles (d :: D)) :
    t.shape = [l, d, t.rb] ∧ Chained t.rb ts r ∧ physShape ts = singles D := by
  obtain ⟨h1, h2, h3⟩ := h
  have hs' : t.ph = [d] ∧ physShape ts = singles D := by simpa [physShape, singles] using hs
  refine ⟨?_, h3, hs'.2⟩
  rw [NDArray.shape_local h1, h2, hs'.1]; rfl

theorem mpo_lten_shape {l r : ℕ} {t : NDArray R} {ts : List (NDArray R)} {d a : ℕ} {D A : List ℕ}
    (h : Chained l (t :: ts) r) (hs : physShape (t :: ts) = pairs (d :: D) (a :: A)) :
    t.shape = [l, d, a, t.rb] ∧ Chained t.rb ts r ∧ physShape ts = pairs D A := by
  obtain ⟨h1, h2, h3⟩ := h
  have hs' : t.ph = [d, a] ∧ physShape ts = pairs D A := by simpa [physShape, pairs] using hs
  refine ⟨?_, h3, hs'.2⟩
  rw [NDArray.shape_local h1, h2, hs'.1]; rfl

theorem sandwichLoop_open : ∀ {ws ts us : List (NDArray R)} {D A : List ℕ} {wp tp up : List (NDArray R)} {D0 A0 : List ℕ}
    {w d d' w1 d1 d1' : ℕ} {e : NDArray R} (_ : LEnv wp tp up D0 A0 w d d' e) (_ : Chained w ws w1) (_ : Chained d ts d1)
    (_ : Chained d' us d1') (_ : physShape ws = pairs D A) (_ : physShape ts = singles A)
    (_ : physShape us = singles D) (_ : D.length = A.length),
    ∃ N, sandwichLoop e ws ts us = .ok N ∧
      LEnv (wp ++ ws) (tp ++ ts) (up ++ us) (D0 ++ D) (A0 ++ A) w1 d1 d1' N
  | [], ts, us, D, A, wp, tp, up, D0, A0, w, d, d', w1, d1, d1', e, h, hw, ht, hu, sw, st, su, hl => by
    have hD : D = [] := by
      cases D with
      | nil => rfl
      | cons x D => cases A with
        | nil => simp at hl
        | cons y A => exact absurd sw (by simp [physShape, pairs])
    subst hD
    have hA : A = [] := List.length_eq_zero_iff.1 hl.symm
    subst hA
    have : ts = [] := by
      cases ts with
      | nil => rfl
      | cons _ _ => exact absurd st (by simp [physShape, singles])
    subst this
    have : us = [] := by
      cases us with
      | nil => rfl
      | cons _ _ => exact absurd su (by simp [physShape, singles])
    subst this
    have e1 : w = w1 := hw
    have e2 : d = d1 := ht
    have e3 : d' = d1' := hu
    subst e1; subst e2; subst e3
    exact ⟨e, rfl, by simpa using h⟩
  | W :: ws, ts, us, D, A, wp, tp, up, D0, A0, w, d, d', w1, d1, d1', e, h, hw, ht, hu, sw, st, su, hl => by
    cases D with
    | nil => exact absurd sw (by simp [physShape, pairs])
    | cons q D =>
    cases A with
    | nil => simp at hl
    | cons p A =>
    cases ts with
    | nil => exact absurd st (by simp [physShape, singles])
    | cons T ts =>
    cases us with
    | nil => exact absurd su (by simp [physShape, singles])
    | cons U us =>
    obtain ⟨w1, w2, w3⟩ := mpo_lten_shape hw sw
    obtain ⟨t1, t2, t3⟩ := mps_lten_shape ht st
    obtain ⟨u1, u2, u3⟩ := mps_lten_shape hu su
    obtain ⟨N1, h1, h2⟩ := lEnv_step h w1 t1 u1
    obtain ⟨N, g1, g2⟩ := sandwichLoop_open h2 w2 t2 u2 w3 t3 u3 (by simpa using hl)
    refine ⟨N, ?_, by simpa using g2⟩
    show (eigLeftvecAdd e W T U >>= fun arr => sandwichLoop arr ws ts us) = _
    rw [h1, ok_bind, g1]

/-- `sandwich(H, a, b)` is `<b|H|a>`: the sum over all entries of the operator. -/
theorem C36_sandwich (H a b : MPA R) (D A : List ℕ) (hH : IsMpoRect H D A) (ha : IsMps a A) (hb : IsMps b D) :
    sandwich H a (some b) = .ok (braket D A (fun I => b.val (singles I)) (fun I J => H.val (pairs I J))
      (fun J => a.val (singles J))) := by
  obtain ⟨N, h1, h2⟩ := sandwichLoop_open lEnv_nil hH.valid.chain ha.valid.chain hb.valid.chain hH.shape ha.shape
    hb.shape hH.len
  have hs := h2.shape
  have hv := h2.val 0 one_pos 0 one_pos 0 one_pos
  unfold sandwich
  simp only [Option.getD_some, h1, ok_bind]
  rw [pyAssert, if_pos (by rw [hs]; rfl), ok_bind, hs]
  show Except.ok (N.get [0, 0, 0]) = _
  rw [hv]
  refine congrArg Except.ok ?_
  unfold braket
  refine sumIdx_congr fun I _ => sumIdx_congr fun J _ => ?_
  simp only [List.nil_append, MPA.val, entry]
  ring

/-- `sandwich(H, a)` is `<a|H|a>`. -/
theorem C36_sandwich_default (H a : MPA R) (D : List ℕ) (hH : IsMpoRect H D D) (ha : IsMps a D) :
    sandwich H a none = .ok (braket D D (fun I => a.val (singles I)) (fun I J => H.val (pairs I J))
      (fun J => a.val (singles J))) := C36_sandwich H a a D D hH ha ha

/-! ### local operators -/

/-- The vector with the entries of the chain in which the sites `p, …, p + k - 1` carry the one tensor `X`. -/
def blockVec (pre : List (NDArray R)) (X : NDArray R) (post : List (NDArray R)) (p k : ℕ) (I : List ℕ) : R :=
  entry (pre ++ X :: post) (singles (I.take p) ++ (I.drop p).take k :: singles (I.drop (p + k)))

theorem center_entry {pre post : List (NDArray R)} {X : NDArray R} {l r : ℕ} {D : List ℕ} (h1 : Chained 1 pre l)
    (hX : X.shape = l :: (D ++ [r])) {I₁ I₃ : List (List ℕ)} {i : List ℕ} (hn : I₁.length = pre.length) :
    entry (pre ++ X :: post) (I₁ ++ i :: I₃)
      = ∑ u ∈ range l ×ˢ range r, (mp pre I₁ 0 u.1 * mp post I₃ u.2 0) * X.at3 u.1 i u.2 := by
  rw [entry, mp_append h1 hn one_pos, sum_product]
  refine sum_congr rfl fun a _ => ?_
  rw [mp_cons, NDArray.rb_of_shape hX, mul_sum]
  refine sum_congr rfl fun b _ => ?_
  ring

theorem quad_exchange {κ υ : Type} (K : Finset κ) (U : Finset υ) (X' X : υ → R) (F : κ → υ → R) (H : κ → κ → R) :
    (∑ u ∈ U, ∑ v ∈ U, star (X' u) * (∑ k ∈ K, ∑ m ∈ K, star (F k u) * H k m * F m v) * X v)
      = ∑ k ∈ K, ∑ m ∈ K, star (∑ u ∈ U, F k u * X' u) * H k m * ∑ v ∈ U, F m v * X v := by
  have h1 : ∀ k m, star (∑ u ∈ U, F k u * X' u) * H k m * (∑ v ∈ U, F m v * X v)
      = ∑ u ∈ U, ∑ v ∈ U, star (X' u) * (star (F k u) * H k m * F m v) * X v := by
    intro k m
    rw [star_sum, sum_mul, sum_mul]
    refine sum_congr rfl fun u _ => ?_
    rw [mul_sum]
    refine sum_congr rfl fun v _ => ?_
    rw [star_mul']
    ring
  simp only [h1]
  simp only [mul_sum, sum_mul]
  refine Eq.symm (Eq.trans (sum_congr rfl fun k _ => sum_comm) ?_)
  refine Eq.trans sum_comm (sum_congr rfl fun u _ => ?_)
  refine Eq.trans (sum_congr rfl fun k _ => sum_comm) ?_
  exact sum_comm

/-- The sesquilinear form of a local operator is the form of the full operator on the vectors with the local tensors
put in place. -/
theorem IsLocalOp.form {Hf : List ℕ → List ℕ → R} {P D Q : List ℕ} {pre post : List (NDArray R)} {l r : ℕ}
    {op : NDArray R} (h : IsLocalOp Hf P D Q pre post l r op) (h1 : Chained 1 pre l) (hP : physShape pre = singles P)
    {X X' : NDArray R} (hX : X.shape = l :: (D ++ [r])) (hX' : X'.shape = l :: (D ++ [r])) :
    (sumIdx (l :: (D ++ [r])) fun x' => sumIdx (l :: (D ++ [r])) fun x =>
        star (X'.get x') * op.get [ravelIdx (l :: (D ++ [r])) x', ravelIdx (l :: (D ++ [r])) x] * X.get x)
      = braket (P ++ D ++ Q) (P ++ D ++ Q) (blockVec pre X' post P.length D.length) Hf
          (blockVec pre X post P.length D.length) := by
  have nP : pre.length = P.length := by
    have := congrArg List.length hP; rw [physShape_length, singles_length] at this; exact this
  have bv : ∀ (X : NDArray R), X.shape = l :: (D ++ [r]) → ∀ I₁, InB I₁ P → ∀ i, InB i D → ∀ I₃ : List ℕ,
      blockVec pre X post P.length D.length (I₁ ++ i ++ I₃)
        = ∑ u ∈ range l ×ˢ range r, (mp pre (singles I₁) 0 u.1 * mp post (singles I₃) u.2 0) * X.at3 u.1 i u.2 := by
    intro X hX I₁ hI₁ i hi I₃
    have n1 := inB_length hI₁
    have n2 := inB_length hi
    rw [← center_entry h1 hX (by rw [singles_length]; omega), blockVec]
    congr 2
    · rw [List.append_assoc, ← n1, List.take_left]
    · rw [List.append_assoc, ← n1, List.drop_left, ← n2, List.take_left,
        show I₁.length + i.length = (I₁ ++ i).length by simp, ← List.append_assoc, List.drop_left]
  have split : ∀ f : List ℕ → R, sumIdx (l :: (D ++ [r])) f
      = sumIdx D fun i => ∑ u ∈ range l ×ˢ range r, f (u.1 :: (i ++ [u.2])) := by
    intro f
    rw [sumIdx_cons]
    simp only [sumIdx_append, sumIdx_cons, sumIdx_nil, sum_product]
    exact (sumIdx_sum_comm _ _ _).symm
  rw [split]
  unfold braket
  have split3 : ∀ f : List ℕ → R, sumIdx (P ++ D ++ Q) f
      = sumIdx D fun i => ∑ k ∈ idxSet P ×ˢ idxSet Q, f (k.1 ++ i ++ k.2) := by
    intro f
    rw [sumIdx_append, sumIdx_append, sumIdx_comm]
    refine sumIdx_congr fun i _ => ?_
    rw [sum_product, sumIdx_eq_sum]
    exact sum_congr rfl fun I _ => sumIdx_eq_sum _ _
  rw [split3]
  refine sumIdx_congr fun i hi => ?_
  simp only [split, split3]
  simp only [← sumIdx_sum_comm]
  refine sumIdx_congr fun j hj => ?_
  have hop : ∀ u ∈ range l ×ˢ range r, ∀ v ∈ range l ×ˢ range r,
      op.get [ravelIdx (l :: (D ++ [r])) (u.1 :: (i ++ [u.2])), ravelIdx (l :: (D ++ [r])) (v.1 :: (j ++ [v.2]))]
      = ∑ k ∈ idxSet P ×ˢ idxSet Q, ∑ m ∈ idxSet P ×ˢ idxSet Q,
        star (mp pre (singles k.1) 0 u.1 * mp post (singles k.2) u.2 0) * Hf (k.1 ++ i ++ k.2) (m.1 ++ j ++ m.2)
          * (mp pre (singles m.1) 0 v.1 * mp post (singles m.2) v.2 0) := by
    intro u hu v hv
    rw [mem_product, mem_range, mem_range] at hu hv
    rw [h.val u.1 hu.1 i hi u.2 hu.2 v.1 hv.1 j hj v.2 hv.2]
    unfold opSpec
    simp only [sumIdx_eq_sum, sum_product]
  refine Eq.trans (sum_congr rfl fun u hu => sum_congr rfl fun v hv => by rw [hop u hu v hv]) ?_
  rw [quad_exchange (idxSet P ×ˢ idxSet Q) (range l ×ˢ range r) (fun u => X'.get (u.1 :: (i ++ [u.2])))
    (fun u => X.get (u.1 :: (j ++ [u.2]))) (fun k u => mp pre (singles k.1) 0 u.1 * mp post (singles k.2) u.2 0)
    (fun k m => Hf (k.1 ++ i ++ k.2) (m.1 ++ j ++ m.2))]
  refine sum_congr rfl fun k hk => sum_congr rfl fun m hm => ?_
  rw [mem_product, mem_idxSet, mem_idxSet] at hk hm
  rw [bv X' hX' k.1 hk.1 i hi k.2, bv X hX m.1 hm.1 j hj m.2]
  rfl

/-- The right vector of the sites behind a position, as built from right to left at the start of `eig`
(linalg.py:499-502). -/
def eigRightFold (ws ts : List (NDArray R)) : Py (NDArray R) :=
  (ws.zip ts).foldrM (fun p e => eigRightvecAdd e p.1 p.2) (onesNd 3)

theorem eigRightFold_ok : ∀ {ws ts : List (NDArray R)} {D : List ℕ} {w d : ℕ} (_ : Chained w ws 1) (_ : Chained d ts 1)
    (_ : physShape ws = pairs D D) (_ : physShape ts = singles D),
    ∃ N, eigRightFold ws ts = .ok N ∧ REnv ws ts D w d N
  | [], ts, D, w, d, hw, ht, sw, st => by
    have hD : D = [] := by
      cases D with
      | nil => rfl
      | cons x D => exact absurd sw (by simp [physShape, pairs])
    subst hD
    have : ts = [] := by
      cases ts with
      | nil => rfl
      | cons _ _ => exact absurd st (by simp [physShape, singles])
    subst this
    have e1 : w = 1 := hw
    have e2 : d = 1 := ht
    subst e1; subst e2
    exact ⟨onesNd 3, rfl, rEnv_nil⟩
  | W :: ws, ts, D, w, d, hw, ht, sw, st => by
    cases D with
    | nil => exact absurd sw (by simp [physShape, pairs])
    | cons q D =>
    cases ts with
    | nil => exact absurd st (by simp [physShape, singles])
    | cons T ts =>
    obtain ⟨w1, w2, w3⟩ := mpo_lten_shape hw sw
    obtain ⟨t1, t2, t3⟩ := mps_lten_shape ht st
    obtain ⟨N1, h1, h2⟩ := eigRightFold_ok w2 t2 w3 t3
    obtain ⟨N, g1, g2⟩ := rEnv_step h2 w1 t1
    refine ⟨N, ?_, g2⟩
    unfold eigRightFold at h1 ⊢
    rw [List.zip_cons_cons, List.foldrM_cons, h1, ok_bind]
    exact g1

theorem physShape_append (xs ys : List (NDArray R)) : physShape (xs ++ ys) = physShape xs ++ physShape ys := by
  simp [physShape]

/-- The local operator that `eig` forms for `k` sites from position `p` on is the compression of `H`: its matrix
elements between two local tensors are those of `H` between the vectors with these tensors put in place. -/
theorem C36_local_op (H v : MPA R) (D : List ℕ) (hH : IsMpo H D) (hv : IsMps v D) (p k : ℕ) (hk : 0 < k)
    (hpk : p + k ≤ D.length) (hpos : AllPos v.lt) (l r : ℕ) (hl : Chained 1 (v.lt.take p) l)
    (hr : Chained r (v.lt.drop (p + k)) 1) :
    ∃ lv rv op, sandwichLoop (onesNd 3) (H.lt.take p) (v.lt.take p) (v.lt.take p) = .ok lv ∧
      eigRightFold (H.lt.drop (p + k)) (v.lt.drop (p + k)) = .ok rv ∧
      eigLocalOp lv ((H.lt.drop p).take k) rv = .ok op ∧
      ∀ S, S = l :: ((D.drop p).take k ++ [r]) →
        op.shape = [S.prod, S.prod] ∧
        ∀ X X' : NDArray R, X.shape = S → X'.shape = S →
          (sumIdx S fun x' => sumIdx S fun x => star (X'.get x') * op.get [ravelIdx S x', ravelIdx S x] * X.get x)
            = braket D D (blockVec (v.lt.take p) X' (v.lt.drop (p + k)) p k) (fun I J => H.val (pairs I J))
                (blockVec (v.lt.take p) X (v.lt.drop (p + k)) p k) := by
  have nH : H.lt.length = D.length := by
    have := congrArg List.length hH.shape
    rw [show H.shape = physShape H.lt from rfl, physShape_length, pairs_length rfl] at this; exact this
  have nv : v.lt.length = D.length := by
    have := congrArg List.length hv.shape
    rw [show v.shape = physShape v.lt from rfl, physShape_length, singles_length] at this; exact this
  have dD : D = D.take p ++ (D.drop p).take k ++ D.drop (p + k) := by
    rw [List.append_assoc, ← List.drop_drop, List.take_append_drop, List.take_append_drop]
  have dH : H.lt = H.lt.take p ++ (H.lt.drop p).take k ++ H.lt.drop (p + k) := by
    rw [List.append_assoc, ← List.drop_drop, List.take_append_drop, List.take_append_drop]
  have ps : ∀ (ts : List (NDArray R)) a, physShape (ts.take a) = (physShape ts).take a := by
    intro ts a; simp [physShape, List.map_take]
  have ds : ∀ (ts : List (NDArray R)) a, physShape (ts.drop a) = (physShape ts).drop a := by
    intro ts a; simp [physShape, List.map_drop]
  have pt : ∀ a (X : List ℕ), (pairs X X).take a = pairs (X.take a) (X.take a) := by
    intro a X; simp [pairs, List.take_zipWith]
  have pd : ∀ a (X : List ℕ), (pairs X X).drop a = pairs (X.drop a) (X.drop a) := by
    intro a X; simp [pairs, List.drop_zipWith]
  have sH : physShape H.lt = pairs D D := hH.shape
  have sv : physShape v.lt = singles D := hv.shape
  have hc := hH.valid.chain
  rw [dH, chained_append] at hc
  obtain ⟨y', hc1, hc3⟩ := hc
  rw [chained_append] at hc1
  obtain ⟨y, hc1, hc2⟩ := hc1
  have hcv := hv.valid.chain
  have st : ∀ a, (singles D).take a = singles (D.take a) := by intro a; simp only [singles, List.map_take]
  have sd : ∀ a, (singles D).drop a = singles (D.drop a) := by intro a; simp only [singles, List.map_drop]
  have q1 : physShape (H.lt.take p) = pairs (D.take p) (D.take p) := by rw [ps, sH, pt]
  have q2 : physShape (v.lt.take p) = singles (D.take p) := by rw [ps, sv, st]
  have q3 : physShape (H.lt.drop (p + k)) = pairs (D.drop (p + k)) (D.drop (p + k)) := by rw [ds, sH, pd]
  have q4 : physShape (v.lt.drop (p + k)) = singles (D.drop (p + k)) := by rw [ds, sv, sd]
  have q5 : physShape ((H.lt.drop p).take k) = pairs ((D.drop p).take k) ((D.drop p).take k) := by
    rw [ps, ds, sH, pd, pt]
  obtain ⟨lv, a1, a2⟩ := sandwichLoop_open lEnv_nil hc1 hl hl q1 q2 q2 rfl
  obtain ⟨rv, b1, b2⟩ := eigRightFold_ok hc3 hr q3 q4
  rw [List.nil_append, List.nil_append, List.nil_append] at a2
  have hSpos : 0 < (l :: ((D.drop p).take k ++ [r])).prod := by
    have hl0 : 0 < l := by
      by_cases h0 : v.lt.take p = []
      · rw [h0] at hl; have : 1 = l := hl; omega
      · exact (chained_pos h0 (fun t ht => hpos t (List.mem_of_mem_take ht)) hl).2
    have hr0 : 0 < r := by
      by_cases h0 : v.lt.drop (p + k) = []
      · rw [h0] at hr; have : r = 1 := hr; omega
      · exact (chained_pos h0 (fun t ht => hpos t (List.mem_of_mem_drop ht)) hr).1
    have hD0 : ∀ d ∈ D, 0 < d := by
      intro d hd
      have : [d] ∈ physShape v.lt := by rw [sv]; exact List.mem_map_of_mem hd
      obtain ⟨t, ht, he⟩ := List.mem_map.1 this
      exact hpos t ht d (by rw [NDArray.shape_local (hcv.isLocal t ht), he]; simp)
    have hDk : 0 < ((D.drop p).take k).prod :=
      List.prod_pos fun d hd => hD0 d (List.mem_of_mem_drop (List.mem_of_mem_take hd))
    rw [List.prod_cons, List.prod_append, List.prod_singleton]
    positivity
  obtain ⟨op, c1, c2⟩ := eigLocalOp_isLocalOp a2 b2 hc2
    (by intro h; have := congrArg List.length h; simp at this; omega) q5 hSpos
  refine ⟨lv, rv, op, a1, b1, c1, ?_⟩
  rintro S rfl
  refine ⟨c2.shape, fun X X' hX hX' => ?_⟩
  have := c2.form hl q2 hX hX'
  rw [this, ← dD, ← dH]
  have n1 : (D.take p).length = p := by rw [List.length_take]; omega
  have n2 : ((D.drop p).take k).length = k := by rw [List.length_take, List.length_drop]; omega
  rw [n1, n2]

/-- `sandwich` does not compare the lengths of its arguments: `zip` stops at the end of the shortest one, so that the
remaining sites of a longer operator do not enter the result. -/
theorem C36_sandwich_unequal_lengths (W T : NDArray R) (ws : List (NDArray R)) (l r l' r' : ℕ) :
    sandwich ⟨W :: ws, l, r⟩ ⟨[T], l', r'⟩ none = sandwich ⟨[W], l, r⟩ ⟨[T], l', r'⟩ none := by
  have : ∀ arr : NDArray R, sandwichLoop arr (W :: ws) [T] [T] = sandwichLoop arr [W] [T] [T] := by
    intro arr
    show (eigLeftvecAdd arr W T T >>= fun arr => sandwichLoop arr ws [] [])
      = (eigLeftvecAdd arr W T T >>= fun arr => sandwichLoop arr [] [] [])
    refine congrArg _ (funext fun a => ?_)
    cases ws <;> rfl
  unfold sandwich
  simp only [Option.getD_none, this]

/-! ### a concrete case -/

/-- A three site MPS with bonds of dimension two. -/
noncomputable def exV3 : MPA ℂ :=
  ⟨[⟨[1, 2, 2], fun i => match i with | [_, p, b] => (p : ℂ) + 2 * b + 1 | _ => 0⟩,
    ⟨[2, 2, 2], fun i => match i with | [a, p, b] => (a : ℂ) * p - b + Complex.I | _ => 0⟩,
    ⟨[2, 2, 1], fun i => match i with | [a, p, _] => (a : ℂ) - 3 * p | _ => 0⟩], 0, 3⟩

/-- A three site Hermitian MPO with bonds of dimension two. -/
noncomputable def exH3 : MPA ℂ :=
  ⟨[⟨[1, 2, 2, 2], fun i => match i with | [_, p, q, b] => if p = q then (p : ℂ) + b else 1 | _ => 0⟩,
    ⟨[2, 2, 2, 2], fun i => match i with | [a, p, q, b] => if p = q then (a : ℂ) + 2 * b else p + q | _ => 0⟩,
    ⟨[2, 2, 2, 1], fun i => match i with | [a, p, q, _] => if p = q then 1 else (a : ℂ) | _ => 0⟩], 0, 3⟩

theorem exV3_isMps : IsMps exV3 [2, 2, 2] :=
  ⟨⟨by simp [exV3], by simp [exV3, NDArray.IsLocal, NDArray.ndim, NDArray.lb, NDArray.rb], by simp [exV3],
    by simp [exV3], by simp [exV3, MPA.len]⟩, rfl⟩

theorem exH3_isMpo : IsMpo exH3 [2, 2, 2] :=
  ⟨⟨by simp [exH3], by simp [exH3, NDArray.IsLocal, NDArray.ndim, NDArray.lb, NDArray.rb], by simp [exH3],
    by simp [exH3], by simp [exH3, MPA.len]⟩, rfl⟩

theorem exV3_pos : AllPos exV3.lt := by
  intro t ht d hd
  simp only [exV3, List.mem_cons, List.not_mem_nil, or_false] at ht
  rcases ht with rfl | rfl | rfl <;> simp at hd <;> omega

example : sandwich exH3 exV3 none = .ok (braket [2, 2, 2] [2, 2, 2] (fun I => exV3.val (singles I))
    (fun I J => exH3.val (pairs I J)) (fun J => exV3.val (singles J))) :=
  C36_sandwich_default _ _ _ ⟨exH3_isMpo.valid, exH3_isMpo.shape, rfl⟩ exV3_isMps

example : ∃ lv rv op, sandwichLoop (onesNd 3) (exH3.lt.take 1) (exV3.lt.take 1) (exV3.lt.take 1) = .ok lv ∧
    eigRightFold (exH3.lt.drop 2) (exV3.lt.drop 2) = .ok rv ∧ eigLocalOp lv ((exH3.lt.drop 1).take 1) rv = .ok op ∧
    op.shape = [8, 8] := by
  obtain ⟨lv, rv, op, h1, h2, h3, h4⟩ := C36_local_op exH3 exV3 [2, 2, 2] exH3_isMpo exV3_isMps 1 1 one_pos (by simp)
    exV3_pos 2 2 (by simp [exV3, NDArray.IsLocal, NDArray.ndim, NDArray.lb, NDArray.rb])
    (by simp [exV3, NDArray.IsLocal, NDArray.ndim, NDArray.lb, NDArray.rb])
  exact ⟨lv, rv, op, h1, h2, h3, (h4 _ rfl).1⟩

end Mpnum
