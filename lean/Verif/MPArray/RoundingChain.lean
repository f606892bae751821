import Verif.MPArray.RoundingL2

/-! A sweep of truncations along a chain of local tensors, with errors: distance to the original tensor. -/

open Finset

namespace Mpnum

variable {𝕜 : Type} [RCLike 𝕜]

namespace NDArray

/-- The local tensor as a matrix from the right bond. -/
def fl (t : NDArray 𝕜) (i : ℕ × List ℕ) (b : ℕ) : 𝕜 := t.at3 i.1 i.2 b

/-- The row indices of `t.fl`. -/
def rowSet (t : NDArray 𝕜) : Finset (ℕ × List ℕ) := range t.lb ×ˢ idxSet t.ph

/-- The local tensor with the given entries. -/
def mk3 (l : ℕ) (P : List ℕ) (r : ℕ) (F : ℕ → List ℕ → ℕ → 𝕜) : NDArray 𝕜 :=
  ⟨l :: (P ++ [r]), fun i => F (i.headD 0) i.tail.dropLast (i.tail.getLastD 0)⟩

variable {l r : ℕ} {P : List ℕ} {F : ℕ → List ℕ → ℕ → 𝕜}

theorem mk3_at3 (a : ℕ) (p : List ℕ) (b : ℕ) : (mk3 l P r F).at3 a p b = F a p b := by
  simp [mk3, at3]

theorem mk3_shape : (mk3 l P r F).shape = l :: (P ++ [r]) := rfl

theorem mk3_lb : (mk3 l P r F).lb = l := lb_of_shape mk3_shape

theorem mk3_rb : (mk3 l P r F).rb = r := rb_of_shape mk3_shape

theorem mk3_ph : (mk3 l P r F).ph = P := ph_of_shape mk3_shape

theorem mk3_local : (mk3 l P r F).IsLocal := isLocal_of_shape mk3_shape

end NDArray

/-- The tensor of a chain as a matrix from the left bond. -/
def cv (ts : List (NDArray 𝕜)) (a : ℕ) (j : List (List ℕ)) : 𝕜 := mp ts j a 0

theorem l2_regroup (l : ℕ) (P : List ℕ) (S : List (List ℕ)) (f : ℕ → List (List ℕ) → 𝕜) :
    l2 (range l) (siteSet (P :: S)) f = l2 (range l ×ˢ idxSet P) (siteSet S) fun i j => f i.1 (i.2 :: j) := by
  unfold l2
  congr 1
  rw [Finset.sum_product]
  refine Finset.sum_congr rfl fun a _ => ?_
  rw [sum_siteSet_cons]

theorem cv_cons (t : NDArray 𝕜) (ts : List (NDArray 𝕜)) (i : ℕ × List ℕ) (j : List (List ℕ)) :
    cv (t :: ts) i.1 (i.2 :: j) = mprod t.rb t.fl (cv ts) i j := rfl

theorem cv_orth {ts : List (NDArray 𝕜)} {r : ℕ} (h : Chained r ts 1) (hc : ∀ t ∈ ts, RCanon t) :
    OrthR (siteSet (physShape ts)) r (cv ts) := by
  intro k hk k' hk'
  have := rcanon_sum h hc hk hk'
  rw [Finset.sum_range_one, sumSites_eq_sum] at this
  exact this

theorem npNorm_fl {t : NDArray 𝕜} (ht : t.IsLocal) : npNorm t = l2 t.rowSet (range t.rb) t.fl := by
  rw [← Real.sqrt_sq (npNorm_nonneg' t), npNorm_sq, nsq_local ht]
  unfold l2 NDArray.rowSet NDArray.fl
  rw [Finset.sum_product]
  simp only [sumIdx_eq_sum]

/-- One step of the sweep: the centre `A` and its neighbour `B` become the isometry `T` and the centre `A'`, with relative
errors `c` (of the new centre) and `d` (of the choice of the subspace). -/
structure SvStep (c d : ℝ) (ρ : ℕ) (A B T A' : NDArray 𝕜) : Prop where
  tloc : T.IsLocal
  tlb : T.lb = A.lb
  tph : T.ph = A.ph
  orth : OrthC A.rowSet T.rb T.fl
  aloc : A'.IsLocal
  alb : A'.lb = T.rb
  aph : A'.ph = B.ph
  arb : A'.rb = B.rb
  next : l2 (range T.rb ×ˢ idxSet B.ph) (range B.rb)
      (fun i b => A'.fl i b - ∑ z ∈ range B.lb, madj A.rowSet T.fl A.fl i.1 z * B.at3 z i.2 b) ≤ c * npNorm A
  best : ∀ (r : ℕ) (X : ℕ × List ℕ → ℕ → 𝕜) (Y : ℕ → ℕ → 𝕜), r ≤ T.rb ∨ r ≤ ρ →
    l2 A.rowSet (range A.rb) (fun i b => A.fl i b - mprod T.rb T.fl (madj A.rowSet T.fl A.fl) i b)
      ≤ d * npNorm A + l2 A.rowSet (range A.rb) fun i b => A.fl i b - mprod r X Y i b

/-- A sweep over the chain `A :: Bs` with the result `Ys`. -/
inductive SvSweep (c d : ℝ) (ρ : ℕ) : NDArray 𝕜 → List (NDArray 𝕜) → List (NDArray 𝕜) → Prop
  | nil (A : NDArray 𝕜) : SvSweep c d ρ A [] [A]
  | cons {A B T A' : NDArray 𝕜} {Bs Ys : List (NDArray 𝕜)} (h : SvStep c d ρ A B T A') (hs : SvSweep c d ρ A' Bs Ys) :
      SvSweep c d ρ A (B :: Bs) (T :: Ys)

theorem head_norm {A : NDArray 𝕜} {Bs : List (NDArray 𝕜)} {l : ℕ} (hc : Chained l (A :: Bs) 1) (hB : ∀ B ∈ Bs, RCanon B) :
    l2 (range A.lb) (siteSet (physShape (A :: Bs))) (cv (A :: Bs)) = npNorm A := by
  rw [show physShape (A :: Bs) = A.ph :: physShape Bs from rfl, l2_regroup, npNorm_fl hc.1]
  exact l2_mprod_right (cv_orth hc.2.2 hB) _ _

/-- The distance of the result of a sweep from the tensor `M`, in terms of the distance of any other chain of small rank. -/
theorem svSweep_dist {c d : ℝ} {ρ : ℕ} (hc0 : 0 ≤ c) (hd0 : 0 ≤ d) {A : NDArray 𝕜} {Bs Ys : List (NDArray 𝕜)}
    (h : SvSweep c d ρ A Bs Ys) {l : ℕ} (hch : Chained l (A :: Bs) 1) (hB : ∀ B ∈ Bs, RCanon B)
    {zs : List (NDArray 𝕜)} {lz : ℕ} (hzc : Chained lz zs 1)
    (hz : List.Forall₂ (fun z y => z.ph = NDArray.ph y ∧ (z.rb ≤ y.rb ∨ z.rb ≤ ρ)) zs Ys)
    (G : ℕ → ℕ → 𝕜) (M : ℕ → List (List ℕ) → 𝕜) {X η δ E : ℝ}
    (hX : l2 (range A.lb) (siteSet (physShape (A :: Bs))) M ≤ X)
    (hη : l2 (range A.lb) (siteSet (physShape (A :: Bs))) (fun a j => M a j - cv (A :: Bs) a j) ≤ η)
    (hδ : l2 (range A.lb) (siteSet (physShape (A :: Bs))) (fun a j => M a j - mprod lz G (cv zs) a j) ≤ δ)
    (hE : (1 + c) ^ Bs.length * (X + η) ≤ E) :
    l2 (range A.lb) (siteSet (physShape (A :: Bs))) (fun a j => M a j - cv Ys a j) ^ 2
      ≤ Bs.length * (δ + 2 * (E - X) + d * E) ^ 2 + (E - X) ^ 2 ∧
    l2 (range A.lb) (siteSet (physShape (A :: Bs))) (cv Ys) ≤ E := by
  induction h generalizing l zs lz G M η with
  | nil A =>
    simp only [List.length_nil, pow_zero, one_mul, Nat.cast_zero, zero_mul, zero_add] at hE ⊢
    have h0 := (l2_nonneg _ _ _).trans hη
    constructor
    · exact pow_le_pow_left₀ (l2_nonneg _ _ _) (by linarith) 2
    · refine le_trans (l2_le_add _ _ _ M) ?_
      rw [l2_rev]
      linarith
  | @cons A B T A' Bs Ys h hs ih =>
    cases hz with
    | @cons z _ zs _ hz1 hz2 =>
      obtain ⟨hA, rfl, hch'⟩ := hch
      have hBl : B.lb = A.rb := hch'.2.1
      have hBs : ∀ B ∈ Bs, RCanon B := fun b hb => hB b (by simp [hb])
      have hrest := cv_orth hch' hB
      have hrest' := cv_orth hch'.2.2 hBs
      have hnA := head_norm (l := A.lb) ⟨hA, rfl, hch'⟩ hB
      set S := siteSet (physShape (B :: Bs)) with hS
      have hps : physShape (A :: B :: Bs) = A.ph :: physShape (B :: Bs) := rfl
      rw [hps] at hX hη hδ hnA ⊢
      rw [l2_regroup] at hX hη hδ hnA ⊢
      rw [l2_regroup]
      change l2 A.rowSet S _ ≤ _ at hX
      change l2 A.rowSet S _ ≤ _ at hη
      change l2 A.rowSet S _ ≤ _ at hδ
      change l2 A.rowSet S _ = _ at hnA
      change l2 A.rowSet S _ ^ 2 ≤ _ ∧ l2 A.rowSet S _ ≤ _
      set Mf : ℕ × List ℕ → List (List ℕ) → 𝕜 := fun i j => M i.1 (i.2 :: j) with hMf
      have hη0 : 0 ≤ η := (l2_nonneg _ _ _).trans hη
      have hX0 : 0 ≤ X := (l2_nonneg _ _ _).trans hX
      have hN : (fun (i : ℕ × List ℕ) j => cv (A :: B :: Bs) i.1 (i.2 :: j)) = mprod A.rb A.fl (cv (B :: Bs)) := by
        funext i j; rfl
      have hη' : l2 A.rowSet S (fun i j => Mf i j - mprod A.rb A.fl (cv (B :: Bs)) i j) ≤ η := hη
      have hnA' : l2 A.rowSet S (mprod A.rb A.fl (cv (B :: Bs))) = npNorm A := hnA
      -- size of the centre
      have hAX : npNorm A ≤ X + η := by
        rw [← hnA']
        refine (l2_le_add _ _ _ Mf).trans ?_
        rw [l2_rev]
        linarith
      have hpow : ∀ n : ℕ, 1 ≤ (1 + c) ^ n := fun n => one_le_pow₀ (by linarith)
      have hXE : X + η ≤ E := by
        refine le_trans ?_ hE
        exact le_mul_of_one_le_left (by linarith) (hpow _)
      -- the comparison chain
      set Zf : ℕ × List ℕ → ℕ → 𝕜 := fun i c => ∑ a ∈ range lz, G i.1 a * z.at3 a i.2 c with hZf
      have hδ' : l2 A.rowSet S (fun i j => Mf i j - mprod z.rb Zf (cv zs) i j) ≤ δ := by
        refine le_trans (le_of_eq (l2_congr fun i _ j _ => ?_)) hδ
        simp only [hMf]
        congr 1
        unfold mprod
        simp only [hZf, Finset.sum_mul]
        rw [Finset.sum_comm]
        refine Finset.sum_congr rfl fun a _ => ?_
        unfold cv
        rw [mp_cons, Finset.mul_sum]
        exact Finset.sum_congr rfl fun b _ => by ring
      -- first term
      have h1 : l2 A.rowSet S (fun i j => Mf i j - mprod T.rb T.fl (madj A.rowSet T.fl Mf) i j)
          ≤ δ + 2 * (E - X) + d * E := by
        have e1 := l2_compl_tri h.orth S Mf (mprod A.rb A.fl (cv (B :: Bs)))
        have e2 : l2 A.rowSet S (fun i j => mprod A.rb A.fl (cv (B :: Bs)) i j
              - mprod T.rb T.fl (madj A.rowSet T.fl (mprod A.rb A.fl (cv (B :: Bs)))) i j)
            = l2 A.rowSet (range A.rb) (fun i b => A.fl i b - mprod T.rb T.fl (madj A.rowSet T.fl A.fl) i b) := by
          rw [← l2_mprod_right hrest]
          refine l2_congr fun i _ j _ => ?_
          rw [mprod_sub_left]
          congr 1
          unfold mprod madj
          simp only [Finset.mul_sum, Finset.sum_mul]
          rw [Finset.sum_comm (s := range A.rb)]
          refine Finset.sum_congr rfl fun k _ => ?_
          rw [Finset.sum_comm]
          refine Finset.sum_congr rfl fun b _ => Finset.sum_congr rfl fun i' _ => ?_
          ring
        set Y' : ℕ → ℕ → 𝕜 := fun c b => madjR S (cv (B :: Bs)) (cv zs) c b with hY'
        have e3 := h.best z.rb Zf Y' hz1.2
        have e4 : l2 A.rowSet (range A.rb) (fun i b => A.fl i b - mprod z.rb Zf Y' i b)
            ≤ l2 A.rowSet S (fun i j => mprod A.rb A.fl (cv (B :: Bs)) i j - mprod z.rb Zf (cv zs) i j) := by
          refine le_trans (le_of_eq (l2_congr fun i _ b hb => ?_)) (l2_madjR_le hrest _ _)
          rw [madjR_sub, madjR_mprod hrest A.fl i (by simpa using hb)]
          congr 1
          unfold madjR mprod
          simp only [hY', madjR, Finset.mul_sum, Finset.sum_mul]
          rw [Finset.sum_comm]
          exact Finset.sum_congr rfl fun j _ => Finset.sum_congr rfl fun c _ => by ring
        have e5 := l2_tri A.rowSet S (mprod A.rb A.fl (cv (B :: Bs))) Mf (mprod z.rb Zf (cv zs))
        rw [l2_rev A.rowSet S (mprod A.rb A.fl (cv (B :: Bs))) Mf] at e5
        have e6 : d * npNorm A ≤ d * E := mul_le_mul_of_nonneg_left (hAX.trans hXE) hd0
        rw [e2] at e1
        linarith
      -- the rest of the sweep
      set M' : ℕ → List (List ℕ) → 𝕜 := madj A.rowSet T.fl Mf with hM'
      have hlb' : A'.lb = T.rb := h.alb
      have hps' : physShape (A' :: Bs) = physShape (B :: Bs) := by simp [physShape, h.aph]
      have hch2 : Chained A'.lb (A' :: Bs) 1 := ⟨h.aloc, rfl, by rw [h.arb]; exact hch'.2.2⟩
      have hX2 : l2 (range A'.lb) (siteSet (physShape (A' :: Bs))) M' ≤ X := by
        rw [hps', hlb']
        exact (l2_madj_le h.orth S Mf).trans hX
      have hη2 : l2 (range A'.lb) (siteSet (physShape (A' :: Bs))) (fun a j => M' a j - cv (A' :: Bs) a j) ≤ η + c * (X + η) := by
        rw [hps', hlb']
        refine (l2_tri _ _ _ (madj A.rowSet T.fl (mprod A.rb A.fl (cv (B :: Bs)))) _).trans (add_le_add ?_ ?_)
        · refine le_trans (le_of_eq (l2_congr fun k _ j _ => ?_)) ((l2_madj_le h.orth S _).trans hη')
          rw [madj_sub]
        · refine le_trans ?_ (h.next.trans (mul_le_mul_of_nonneg_left hAX hc0))
          rw [show physShape (B :: Bs) = B.ph :: physShape Bs from rfl, l2_regroup, ← l2_mprod_right hrest', l2_rev]
          refine le_of_eq (l2_congr fun i _ j _ => ?_)
          rw [mprod_sub_left]
          congr 1
          · rw [cv_cons, h.arb]
          · unfold madj mprod
            simp only [Finset.sum_mul, Finset.mul_sum]
            rw [Finset.sum_comm]
            simp only [cv, mp_cons, Finset.mul_sum]
            rw [Finset.sum_comm (s := range B.rb)]
            rw [hBl]
            refine Finset.sum_congr rfl fun b _ => ?_
            rw [Finset.sum_comm]
            refine Finset.sum_congr rfl fun c _ => Finset.sum_congr rfl fun i' _ => ?_
            ring
      have hδ2 : l2 (range A'.lb) (siteSet (physShape (A' :: Bs))) (fun a j => M' a j - mprod z.rb (madj A.rowSet T.fl Zf) (cv zs) a j)
          ≤ δ := by
        rw [hps', hlb']
        refine le_trans (le_of_eq (l2_congr fun k _ j _ => ?_)) ((l2_madj_le h.orth S _).trans hδ')
        rw [madj_sub]
        congr 1
        unfold madj mprod
        simp only [Finset.sum_mul, Finset.mul_sum]
        rw [Finset.sum_comm]
        exact Finset.sum_congr rfl fun i _ => Finset.sum_congr rfl fun c _ => by ring
      have hE2 : (1 + c) ^ Bs.length * (X + (η + c * (X + η))) ≤ E := by
        refine le_trans (le_of_eq ?_) hE
        rw [List.length_cons, pow_succ]
        ring
      obtain ⟨i1, i2⟩ := ih hch2 hBs hzc.2.2 hz2 (madj A.rowSet T.fl Zf) M' hX2 hη2 hδ2 hE2
      rw [hps', hlb'] at i1 i2
      constructor
      · have e := l2_pyth h.orth S Mf (cv Ys)
        have e0 : l2 A.rowSet S (fun i j => M i.1 (i.2 :: j) - cv (T :: Ys) i.1 (i.2 :: j))
            = l2 A.rowSet S (fun i j => Mf i j - mprod T.rb T.fl (cv Ys) i j) := rfl
        rw [e0, e]
        have := pow_le_pow_left₀ (l2_nonneg _ _ _) h1 2
        rw [List.length_cons]
        push_cast
        have i1' : l2 (range T.rb) S (fun k j => madj A.rowSet T.fl Mf k j - cv Ys k j) ^ 2
          ≤ Bs.length * (δ + 2 * (E - X) + d * E) ^ 2 + (E - X) ^ 2 := i1
        linarith
      · have e0 : l2 A.rowSet S (fun i j => cv (T :: Ys) i.1 (i.2 :: j)) = l2 A.rowSet S (mprod T.rb T.fl (cv Ys)) := rfl
        rw [e0, l2_mprod h.orth]
        exact i2

end Mpnum
