import Verif.Linalg.Env

/-! Right vectors and local operators of linalg.py as sums over the sites they cover. -/

open Finset

namespace Mpnum

variable {R : Type} [CommRing R] [StarRing R]

/-- Specification of the right vector of a vector `ts` and an operator `ws`. -/
structure REnv (ws ts : List (NDArray R)) (D : List ℕ) (w d : ℕ) (e : NDArray R) : Prop where
  cw : Chained w ws 1
  ct : Chained d ts 1
  sw : physShape ws = pairs D D
  st : physShape ts = singles D
  shape : e.shape = [d, w, d]
  val : ∀ a < d, ∀ y < w, ∀ c < d, e.get [a, y, c] = sumIdx D fun I => sumIdx D fun J =>
    mp ts (singles J) a 0 * mp ws (pairs I J) y 0 * star (mp ts (singles I) c 0)

theorem rEnv_nil : REnv (R := R) [] [] [] 1 1 (onesNd 3) := by
  refine ⟨rfl, rfl, rfl, rfl, rfl, ?_⟩
  intro a ha y hy c hc
  obtain rfl : a = 0 := by omega
  obtain rfl : y = 0 := by omega
  obtain rfl : c = 0 := by omega
  simp [onesNd]

theorem rEnv_step {ws ts : List (NDArray R)} {D : List ℕ} {w d v b p : ℕ} {e W T : NDArray R}
    (h : REnv ws ts D v b e) (hW : W.shape = [w, p, p, v]) (hT : T.shape = [d, p, b]) :
    ∃ N, eigRightvecAdd e W T = .ok N ∧ REnv (W :: ws) (T :: ts) (p :: D) w d N := by
  obtain ⟨N, h1, h2, h3⟩ := eigRightvecAdd_ok h.shape hW hT rfl
  have lW : W.IsLocal := by simp [NDArray.IsLocal, NDArray.ndim, hW]
  have lT : T.IsLocal := by simp [NDArray.IsLocal, NDArray.ndim, hT]
  have eW1 : W.lb = w := by simp [NDArray.lb, hW]
  have eT1 : T.lb = d := by simp [NDArray.lb, hT]
  have eW2 : W.rb = v := by simp [NDArray.rb, hW]
  have eT2 : T.rb = b := by simp [NDArray.rb, hT]
  refine ⟨N, h1, ⟨lW, eW1, eW2.symm ▸ h.cw⟩, ⟨lT, eT1, eT2.symm ▸ h.ct⟩, ?_, ?_, h2, ?_⟩
  · show W.ph :: physShape ws = _
    rw [h.sw]; simp [NDArray.ph, hW, pairs]
  · show T.ph :: physShape ts = _
    rw [h.st]; simp [NDArray.ph, hT, singles]
  · intro a ha y hy c hc
    rw [h3]
    have hv : ∀ z ∈ range b, ∀ x ∈ range v, ∀ i ∈ range b, e.get [i, x, z]
        = ∑ k ∈ idxSet D ×ˢ idxSet D, mp ts (singles k.2) i 0 * mp ws (pairs k.1 k.2) x 0 * star (mp ts (singles k.1) z 0) := by
      intro z hz x hx i hi
      rw [h.val i (by simpa using hi) x (by simpa using hx) z (by simpa using hz), sumIdx_eq_sum, sum_product]
      exact sum_congr rfl fun I _ => sumIdx_eq_sum _ _
    refine Eq.trans (b := ∑ z ∈ range b, ∑ r ∈ range p, (∑ x ∈ range v, ∑ s ∈ range p, (∑ i ∈ range b,
        (∑ k ∈ idxSet D ×ˢ idxSet D, mp ts (singles k.2) i 0 * mp ws (pairs k.1 k.2) x 0 * star (mp ts (singles k.1) z 0))
          * T.get [a, s, i]) * W.get [y, r, s, x]) * star (T.get [c, r, z])) ?_ ?_
    · refine sum_congr rfl fun z hz => sum_congr rfl fun r _ => ?_
      refine congrArg (· * _) (sum_congr rfl fun x hx => sum_congr rfl fun s _ => ?_)
      refine congrArg (· * _) (sum_congr rfl fun i hi => ?_)
      rw [hv z hz x hx i hi]
    rw [env_exchange (idxSet D ×ˢ idxSet D) b v b p p (fun k i => mp ts (singles k.2) i 0)
      (fun k x => mp ws (pairs k.1 k.2) x 0) (fun k z => star (mp ts (singles k.1) z 0)) (fun i s => T.get [a, s, i])
      (fun x r s => W.get [y, r, s, x]) (fun z r => star (T.get [c, r, z])), sum_product]
    simp only [sumIdx_cons]
    refine Eq.trans (sum_congr rfl fun I _ => sum_comm) ?_
    refine Eq.trans sum_comm ?_
    refine sum_congr rfl fun r _ => ?_
    rw [sumIdx_eq_sum]
    refine sum_congr rfl fun I _ => ?_
    refine Eq.trans sum_comm ?_
    refine sum_congr rfl fun s _ => ?_
    rw [sumIdx_eq_sum]
    refine sum_congr rfl fun J _ => ?_
    rw [show singles (s :: J) = [s] :: singles J from rfl, show singles (r :: I) = [r] :: singles I from rfl,
      show pairs (r :: I) (s :: J) = [r, s] :: pairs I J from rfl, mp_cons, mp_cons, mp_cons, star_sum, eW2, eT2]
    refine congrArg₂ (· * ·) (congrArg₂ (· * ·) ?_ ?_) ?_
    · exact sum_congr rfl fun i _ => mul_comm _ _
    · exact sum_congr rfl fun i _ => mul_comm _ _
    · refine sum_congr rfl fun z _ => ?_
      rw [star_mul]
      rfl

/-- Specification of the local operator for the sites between `pre` and `post`: the compression of the operator with
the entries `Hf` onto the vectors whose outer parts are `pre` and `post`.  Rows are labelled by `a', i, b'` and columns
by `a, j, b` (left bond, physical indices, right bond). -/
def opSpec (Hf : List ℕ → List ℕ → R) (P Q : List ℕ) (pre post : List (NDArray R)) (a' : ℕ) (i : List ℕ) (b' a : ℕ)
    (j : List ℕ) (b : ℕ) : R :=
  sumIdx P fun I₁ => sumIdx Q fun I₃ => sumIdx P fun J₁ => sumIdx Q fun J₃ =>
    star (mp pre (singles I₁) 0 a' * mp post (singles I₃) b' 0) * Hf (I₁ ++ i ++ I₃) (J₁ ++ j ++ J₃)
      * (mp pre (singles J₁) 0 a * mp post (singles J₃) b 0)

/-- `op` is the matrix of the local operator. -/
structure IsLocalOp (Hf : List ℕ → List ℕ → R) (P D Q : List ℕ) (pre post : List (NDArray R)) (l r : ℕ)
    (op : NDArray R) : Prop where
  shape : op.shape = [(l :: (D ++ [r])).prod, (l :: (D ++ [r])).prod]
  val : ∀ a' < l, ∀ i, InB i D → ∀ b' < r, ∀ a < l, ∀ j, InB j D → ∀ b < r,
    op.get [ravelIdx (l :: (D ++ [r])) (a' :: (i ++ [b'])), ravelIdx (l :: (D ++ [r])) (a :: (j ++ [b]))]
      = opSpec Hf P Q pre post a' i b' a j b

theorem op_exchange {κ μ : Type} (K : Finset κ) (K' : Finset μ) (w v : ℕ) (α γ : κ → R) (β : κ → ℕ → R)
    (M : ℕ → ℕ → R) (α' γ' : μ → R) (β' : μ → ℕ → R) :
    (∑ y' ∈ range v, (∑ y ∈ range w, (∑ k ∈ K, α k * β k y * γ k) * M y y') * ∑ m ∈ K', α' m * β' m y' * γ' m)
      = ∑ k ∈ K, ∑ m ∈ K', (γ k * γ' m) * (∑ y ∈ range w, β k y * ∑ y' ∈ range v, M y y' * β' m y') * (α k * α' m) := by
  have h1 : ∀ k m, (γ k * γ' m) * (∑ y ∈ range w, β k y * ∑ y' ∈ range v, M y y' * β' m y') * (α k * α' m)
      = ∑ y' ∈ range v, ∑ y ∈ range w, (α k * β k y * γ k) * M y y' * (α' m * β' m y' * γ' m) := by
    intro k m
    simp only [mul_sum, sum_mul]
    rw [sum_comm]
    refine sum_congr rfl fun y _ => sum_congr rfl fun y' _ => ?_
    ring
  simp only [h1]
  refine Eq.symm (Eq.trans (sum_congr rfl fun k _ => sum_comm) ?_)
  refine Eq.trans sum_comm (sum_congr rfl fun y' _ => ?_)
  simp only [sum_mul, mul_sum]
  rw [sum_comm]
  refine Eq.trans (sum_congr rfl fun m _ => sum_comm) ?_
  refine Eq.trans (sum_congr rfl fun m _ => ?_) rfl
  rfl

theorem eigLocalOp_isLocalOp {wp wm wq pre post : List (NDArray R)} {P D Q : List ℕ} {w v l r : ℕ} {lv rv : NDArray R}
    (hl : LEnv wp pre pre P P w l l lv) (hr : REnv wq post Q v r rv) (hm : Chained w wm v) (hne : wm ≠ [])
    (hsh : physShape wm = pairs D D) (hpos : 0 < (l :: (D ++ [r])).prod) :
    ∃ op, eigLocalOp lv wm rv = .ok op ∧
      IsLocalOp (fun I J => entry (wp ++ wm ++ wq) (pairs I J)) P D Q pre post l r op := by
  obtain ⟨N, h1, h2, h3⟩ := eigLocalOp_ok hl.shape hr.shape hm hne hsh hpos
  have nP : wp.length = P.length := by
    have := congrArg List.length hl.sw; rw [physShape_length, pairs_length rfl] at this; exact this
  have nD : wm.length = D.length := by
    have := congrArg List.length hsh; rw [physShape_length, pairs_length rfl] at this; exact this
  refine ⟨N, h1, h2, ?_⟩
  intro a' ha' i hi b' hb' a ha j hj b hb
  rw [h3 a i b a' j b' ha hi hb ha' hj hb']
  have hv : ∀ y ∈ range w, lv.get [a, y, a'] = ∑ k ∈ idxSet P ×ˢ idxSet P,
      mp pre (singles k.2) 0 a * mp wp (pairs k.1 k.2) 0 y * star (mp pre (singles k.1) 0 a') := by
    intro y hy
    rw [hl.val a ha y (by simpa using hy) a' ha', sumIdx_eq_sum, sum_product]
    exact sum_congr rfl fun I _ => sumIdx_eq_sum _ _
  have hw : ∀ y ∈ range v, rv.get [b, y, b'] = ∑ k ∈ idxSet Q ×ˢ idxSet Q,
      mp post (singles k.2) b 0 * mp wq (pairs k.1 k.2) y 0 * star (mp post (singles k.1) b' 0) := by
    intro y hy
    rw [hr.val b hb y (by simpa using hy) b' hb', sumIdx_eq_sum, sum_product]
    exact sum_congr rfl fun I _ => sumIdx_eq_sum _ _
  refine Eq.trans (b := ∑ y' ∈ range v, (∑ y ∈ range w, (∑ k ∈ idxSet P ×ˢ idxSet P,
      mp pre (singles k.2) 0 a * mp wp (pairs k.1 k.2) 0 y * star (mp pre (singles k.1) 0 a')) * mp wm (pairs i j) y y')
      * ∑ k ∈ idxSet Q ×ˢ idxSet Q,
      mp post (singles k.2) b 0 * mp wq (pairs k.1 k.2) y' 0 * star (mp post (singles k.1) b' 0)) ?_ ?_
  · refine sum_congr rfl fun y' hy' => congrArg₂ (· * ·) (sum_congr rfl fun y hy => ?_) (hw y' hy')
    rw [hv y hy]
  rw [op_exchange (idxSet P ×ˢ idxSet P) (idxSet Q ×ˢ idxSet Q) w v (fun k => mp pre (singles k.2) 0 a)
    (fun k => star (mp pre (singles k.1) 0 a')) (fun k y => mp wp (pairs k.1 k.2) 0 y) (fun y y' => mp wm (pairs i j) y y')
    (fun k => mp post (singles k.2) b 0) (fun k => star (mp post (singles k.1) b' 0)) (fun k y => mp wq (pairs k.1 k.2) y 0),
    sum_product]
  unfold opSpec
  simp only [sumIdx_eq_sum]
  refine sum_congr rfl fun I₁ hI₁ => ?_
  refine Eq.trans ?_ (sum_comm (s := idxSet P) (t := idxSet Q))
  refine sum_congr rfl fun J₁ hJ₁ => ?_
  rw [sum_product]
  refine sum_congr rfl fun I₃ _ => sum_congr rfl fun J₃ _ => ?_
  have nI := inB_length (mem_idxSet.1 hI₁)
  have nJ := inB_length (mem_idxSet.1 hJ₁)
  have ni := inB_length hi
  have nj := inB_length hj
  rw [star_mul', entry, List.append_assoc wp, List.append_assoc I₁, List.append_assoc J₁, pairs_append (nI.trans nJ.symm),
    pairs_append (ni.trans nj.symm), mp_append hl.cw (by rw [pairs_length (nI.trans nJ.symm)]; omega) one_pos]
  refine congrArg₂ (· * ·) (congrArg₂ (· * ·) rfl (sum_congr rfl fun y hy => congrArg₂ (· * ·) rfl ?_)) rfl
  rw [mp_append hm (by rw [pairs_length (ni.trans nj.symm)]; omega) (by simpa using hy)]

end Mpnum
