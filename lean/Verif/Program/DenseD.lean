import Verif.Program.DenseC
import Verif.Props.C02
import Verif.Props.C10
import Verif.Props.C27

/-!
# Dense programs: conversions, constructors, methods which change their object
-/

open Finset

namespace Mpnum

namespace Prog

variable {qr : QR ℂ}

/-! ### Conversions -/

theorem pairs_pos {D A : List ℕ} (h : ∀ s ∈ pairs D A, ∀ d ∈ s, 0 < d) (hl : D.length = A.length) :
    (∀ d ∈ D, 0 < d) ∧ ∀ a ∈ A, 0 < a := by
  induction D generalizing A with
  | nil =>
    cases A with
    | nil => simp
    | cons _ _ => simp at hl
  | cons d D ih =>
    cases A with
    | nil => simp at hl
    | cons a A =>
      obtain ⟨i1, i2⟩ := ih (A := A) (fun s hs => h s (by simp [pairs] at hs ⊢; exact Or.inr hs)) (by simpa using hl)
      have := h [d, a] (by simp [pairs])
      refine ⟨fun e he => ?_, fun e he => ?_⟩
      · rcases List.mem_cons.1 he with rfl | he
        · exact this _ (by simp)
        · exact i1 e he
      · rcases List.mem_cons.1 he with rfl | he
        · exact this _ (by simp)
        · exact i2 e he

theorem pairs_self (D : List ℕ) : pairs D D = D.map fun d => [d, d] := by
  induction D with
  | nil => rfl
  | cons d D ih => simp only [pairs, List.zipWith_cons_cons, List.map_cons] at ih ⊢; rw [ih]

theorem sq_pos {D : List ℕ} (h : ∀ d ∈ D, 0 < d) : ∀ s ∈ D.map (fun d => [d, d]), ∀ d ∈ s, 0 < d := by
  intro s hs d hd
  obtain ⟨e, he, rfl⟩ := List.mem_map.1 hs
  have : d = e := by simpa using hd
  subst this
  exact h d he

theorem singles_pos {D : List ℕ} (h : ∀ s ∈ singles D, ∀ d ∈ s, 0 < d) : ∀ d ∈ D, 0 < d := fun d hd =>
  h [d] (List.mem_map.2 ⟨d, hd, rfl⟩) d (by simp)

theorem pairs_fst {I J : List ℕ} (h : I.length = J.length) : (pairs I J).map (fun i => i.getD 0 0) = I := by
  induction I generalizing J with
  | nil => simp [pairs]
  | cons a I ih =>
    cases J with
    | nil => simp at h
    | cons b J => simp only [pairs, List.zipWith_cons_cons, List.map_cons] at ih ⊢; rw [ih (by simpa using h)]; rfl

theorem pairs_snd {I J : List ℕ} (h : I.length = J.length) : (pairs I J).map (fun i => i.getD 1 0) = J := by
  induction I generalizing J with
  | nil =>
    cases J with
    | nil => rfl
    | cons _ _ => simp at h
  | cons a I ih =>
    cases J with
    | nil => simp at h
    | cons b J => simp only [pairs, List.zipWith_cons_cons, List.map_cons] at ih ⊢; rw [ih (by simpa using h)]; rfl

theorem zip_fst (P : List (List ℕ)) (K : List ℕ) :
    List.zipWith (fun i a => [i.getD 0 0, a]) P K = pairs (P.map fun i => i.getD 0 0) K := by
  rw [pairs, List.zipWith_map_left]

theorem zip_snd (P : List (List ℕ)) (K : List ℕ) :
    List.zipWith (fun i a => [i.getD 1 0, a]) P K = pairs (P.map fun i => i.getD 1 0) K := by
  rw [pairs, List.zipWith_map_left]

theorem pmpsToMpo_form {x z : MPA ℂ} (h : pmpsToMpo x = .ok z) : z.l = 0 ∧ z.r = z.len := by
  unfold pmpsToMpo at h
  obtain ⟨y, -, h⟩ := bind_ok_inv h
  unfold Mpnum.dot at h
  obtain ⟨_, -, h⟩ := bind_ok_inv h
  obtain ⟨_, -, h⟩ := bind_ok_inv h
  exact mkMPA_form h

theorem den_pmpsToMpo {x : MPA ℂ} {t : Ten} (h : Reps x t) (D A : List ℕ) (hl : D.length = A.length)
    (hs : t.shape = List.zipWith (fun d a => [d, a]) D A) :
    Makes (Mpnum.pmpsToMpo x) ⟨D.map fun d => [d, d], fun j => sumIdx A fun k =>
        t.val (List.zipWith (fun i a => [i.getD 0 0, a]) j k) * star (t.val (List.zipWith (fun i a => [i.getD 1 0, a]) j k))⟩ := by
  have hx : IsPmps x D A := ⟨h.good.valid, hl, by rw [h.shape]; exact hs⟩
  obtain ⟨z, h1, h2, h3, h4⟩ := C33_pmps_to_mpo x D A hx
  have h5 := C33_pmps_to_mpo_ranks x D A hx z h1
  have hp := pairs_pos (D := D) (A := A) (by have := h.pos; rwa [hs] at this) hl
  obtain ⟨f1, f2⟩ := pmpsToMpo_form h1
  refine ⟨z, h1, reps_of h2 (canonOK_form f1 f2) (by rw [h3, pairs_self]) (sq_pos hp.1) ?_ ?_⟩
  · rw [h5]
    intro r hr
    obtain ⟨q, hq, rfl⟩ := List.mem_map.1 hr
    exact pow_pos (h.ranks q hq) 2
  · intro j hj
    obtain ⟨I, J, rfl, hI, hJ⟩ := idxOK_pairs rfl (by rw [pairs_self]; exact hj)
    rw [h4 I J hI hJ, dm]
    have hIJ : I.length = J.length := (inB_length hI).trans (inB_length hJ).symm
    refine sumIdx_congr fun K hK => ?_
    have e1 : List.zipWith (fun i a => [i.getD 0 0, a]) (pairs I J) K = pairs I K := by rw [zip_fst, pairs_fst hIJ]
    have e2 : List.zipWith (fun i a => [i.getD 1 0, a]) (pairs I J) K = pairs J K := by rw [zip_snd, pairs_snd hIJ]
    rw [e1, e2, h.val _ (by rw [hs]; exact pairs_idxOK hI hK), h.val _ (by rw [hs]; exact pairs_idxOK hJ hK)]

theorem mpsToPmps_form {x z : MPA ℂ} (h : mpsToPmps x = .ok z) : z.l = 0 ∧ z.r = z.len := by
  unfold mpsToPmps at h
  obtain ⟨_, -, h⟩ := bind_ok_inv h
  obtain ⟨_, -, h⟩ := bind_ok_inv h
  exact mkMPA_form h

theorem den_mpsToPmps {x : MPA ℂ} {t : Ten} (h : Reps x t) (D : List ℕ) (hs : t.shape = D.map fun d => [d]) :
    Makes (Mpnum.mpsToPmps x) ⟨D.map fun d => [d, 1], fun j => t.val (j.map fun i => i.take 1)⟩ := by
  obtain ⟨y, h1, h2, h3, h4⟩ := C33_mps_to_pmps x D h.good.valid (by rw [h.shape]; exact hs)
  obtain ⟨f1, f2⟩ := mpsToPmps_form h1
  have hp := singles_pos (D := D) (by have := h.pos; rwa [hs] at this)
  refine ⟨y, h1, reps_of h2.valid (canonOK_form f1 f2) (by rw [h2.shape, pairs_ones]) ?_ (by rw [h3]; exact h.ranks) ?_⟩
  · intro s hs d hd
    obtain ⟨e, he, rfl⟩ := List.mem_map.1 hs
    simp only [List.mem_cons, List.not_mem_nil, or_false] at hd
    rcases hd with rfl | rfl
    · exact hp _ he
    · exact one_pos
  · intro j hj
    obtain ⟨I, K, rfl, hI, hK⟩ := idxOK_pairs (D := D) (A := List.replicate D.length 1) (by simp)
      (by rw [pairs_ones]; exact hj)
    have hK' := inB_ones hK
    subst hK'
    rw [h4 I hI]
    have e1 : (pairs I (List.replicate D.length 0)).map (fun i => i.take 1) = singles I := by
      rw [replicate_pairs (inB_length hI), List.map_map]; rfl
    simp only [e1]
    exact h.val _ (by rw [hs]; exact singles_idxOK hI)

theorem den_pmpsToMps {x : MPA ℂ} {t : Ten} (h : Reps x t) (D : List ℕ) (hs : t.shape = D.map fun d => [d, 1]) :
    Makes (Mpnum.pmpsToMps x) ⟨D.map fun d => [d], fun j => t.val (j.map fun i => i ++ [0])⟩ := by
  have hx : IsPmps x D (List.replicate D.length 1) := ⟨h.good.valid, by simp, by rw [h.shape, hs, ← pairs_ones]⟩
  obtain ⟨y, h1, h2, h3, h4⟩ := C33_pmps_to_mps x D hx
  have hr : Makes (x.reshape (.list ((D.map fun d => [d]).map fun q => q.map fun k : ℕ => (k : ℤ)))) _ :=
    den_reshape h (D.map fun d => [d]) (by rw [hs]; clear *-; induction D with
      | nil => exact .nil
      | cons d D ih => exact .cons (by simp) ih)
  obtain ⟨z, z1, z2⟩ := hr
  have hyz : y = z := by
    have : pmpsToMps x = .ok z := by
      rw [← z1]
      unfold pmpsToMps
      rw [pyAssert_true (by
        rw [h.shape, hs]; intro s hs'; obtain ⟨d, -, rfl⟩ := List.mem_map.1 hs'; rfl), ok_bind,
        pyAssert_true (by rw [h.shape, hs]; intro s hs'; obtain ⟨d, -, rfl⟩ := List.mem_map.1 hs'; rfl), ok_bind,
        h.shape, hs, List.map_map, List.map_map]
      rfl
    rw [h1] at this
    cases this; rfl
  subst hyz
  refine ⟨y, h1, z2.good, h3, fun j hj => ?_⟩
  have hj' : IdxOK j (D.map fun d => [d]) := hj
  obtain ⟨I, rfl, hI⟩ : ∃ I, j = singles I ∧ InB I D := by
    clear h1 h2 h3 h4 z1 z2 hx hs hj
    induction D generalizing j with
    | nil => cases hj'; exact ⟨[], rfl, .nil⟩
    | cons d D ih =>
      cases hj' with
      | cons a b =>
        obtain ⟨I, rfl, hI⟩ := ih _ b
        cases a with
        | cons a1 a2 =>
          cases a2
          exact ⟨_ :: I, rfl, .cons a1 hI⟩
  rw [h4 I hI]
  have e1 : (singles I).map (fun i => i ++ [0]) = pairs I (List.replicate D.length 0) := by
    rw [replicate_pairs (inB_length hI), List.map_map]; rfl
  simp only [e1]
  exact h.val _ (by rw [hs, ← pairs_ones]; exact pairs_idxOK hI (inB_zeros _))

theorem den_mpsToMpo {x : MPA ℂ} {t : Ten} (h : Reps x t) (D : List ℕ) (hs : t.shape = D.map fun d => [d]) :
    Makes (Mpnum.mpsToMpo x) ⟨D.map fun d => [d, d],
        fun j => t.val (j.map fun i => [i.getD 0 0]) * star (t.val (j.map fun i => [i.getD 1 0]))⟩ := by
  obtain ⟨y, h1, h2⟩ := den_mpsToPmps h D hs
  obtain ⟨z, z1, z2⟩ := den_pmpsToMpo h2 D (List.replicate D.length 1) (by simp) (by rw [← pairs_ones])
  refine makes_congr ⟨z, ?_, z2⟩ fun j hj => ?_
  · unfold mpsToMpo
    rw [h1, ok_bind, z1]
  · obtain ⟨I, J, rfl, hI, hJ⟩ := idxOK_pairs rfl (by rw [pairs_self]; exact hj)
    have hIJ : I.length = J.length := (inB_length hI).trans (inB_length hJ).symm
    rw [sumIdx_ones]
    have e1 : (List.zipWith (fun i a => [i.getD 0 0, a]) (pairs I J) (List.replicate D.length 0)).map (fun i => i.take 1)
        = (pairs I J).map fun i => [i.getD 0 0] := by
      rw [zip_fst, pairs_fst hIJ, replicate_pairs (inB_length hI), List.map_map]
      conv_lhs => rw [← pairs_fst hIJ, List.map_map]
      rfl
    have e2 : (List.zipWith (fun i a => [i.getD 1 0, a]) (pairs I J) (List.replicate D.length 0)).map (fun i => i.take 1)
        = (pairs I J).map fun i => [i.getD 1 0] := by
      rw [zip_snd, pairs_snd hIJ, replicate_pairs (inB_length hJ), List.map_map]
      conv_lhs => rw [← pairs_snd hIJ, List.map_map]
      rfl
    simp only [e1, e2]

/-! ### Constructors -/

theorem make_mpArray (ts : List (NDArray ℂ)) (hne : ts ≠ []) (hc : Chained 1 ts 1) (hp : AllPos ts) :
    Makes (mkMPA ts) ⟨physShape ts, entry ts⟩ :=
  ⟨_, mkMPA_ok hne hc, ⟨valid_mk hne hc, canonOK_mk ts, hp⟩, rfl, fun _ _ => rfl⟩

theorem make_fromKron (ts : List (NDArray ℂ)) (hne : ts ≠ []) (hp : ∀ t ∈ ts, PosShape t) :
    Makes (Mpnum.fromKron ts) ⟨ts.map NDArray.shape, fun j => (List.zipWith (fun a i => NDArray.get a i) ts j).prod⟩ := by
  obtain ⟨x, h1, h2, h3, h4, h5⟩ := C04_from_kron ts hne
  have hf : x.l = 0 ∧ x.r = x.len := by
    unfold fromKron at h1
    first
      | exact mkMPA_form h1
      | (obtain ⟨_, -, h⟩ := bind_ok_inv h1; exact mkMPA_form h)
  refine ⟨x, h1, reps_of h2 (canonOK_form hf.1 hf.2) h3 ?_ ?_ h5⟩
  · intro s hs
    obtain ⟨t, ht, rfl⟩ := List.mem_map.1 hs
    exact hp t ht
  · rw [h4]
    intro r hr
    rw [List.eq_of_mem_replicate hr]
    exact one_pos

theorem make_fromArray (hqr : QRSpec qr) (A : NDArray ℂ) (S : List (List ℕ)) (hne : S ≠ [])
    (hlast : S.length = 1 ∨ S.getLast? ≠ some []) (hp : ∀ s ∈ S, ∀ d ∈ s, 0 < d) (hs : A.shape = S.flatten) :
    Makes (Mpnum.fromArray qr A (some (.each (S.map List.length))) false) ⟨S, fun j => A.get j.flatten⟩ := by
  obtain ⟨x, h1, h2⟩ := C02_from_array hqr A S hne hlast hp hs
  refine ⟨x, h1, reps_of h2.valid h2.canon h2.shape hp ?_ ?_⟩
  · rw [h2.ranks, fullRank_spec]
    intro r hr
    obtain ⟨c, -, rfl⟩ := List.mem_map.1 hr
    refine lt_min (List.prod_pos fun d hd => ?_) (List.prod_pos fun d hd => ?_)
    · obtain ⟨s, hs, hd⟩ := List.mem_flatten.1 hd
      exact hp s (List.mem_of_mem_take hs) d hd
    · obtain ⟨s, hs, hd⟩ := List.mem_flatten.1 hd
      exact hp s (List.mem_of_mem_drop hs) d hd
  · intro j hj
    obtain ⟨B, b1, b2⟩ := h2.dense
    obtain ⟨C, c1, c2, c3⟩ := C01_to_array x h2.valid
    rw [b1] at c1
    cases c1
    have hj' : IdxOK j S := hj
    rw [← c3 j (by rw [h2.shape]; exact hj)]
    exact b2.2 _ (by rw [c2, h2.shape]; exact idxOK_flatten hj')

/-! ### Methods which change their object -/

theorem reps_step {x y : MPA ℂ} {t : Ten} (h : Reps x t) (hs : MPA.CanonStepSpec x y) : Reps y t :=
  ⟨hs.good, by rw [hs.same.shape, h.shape], fun j hj => by
    rw [hs.same.val j (by rw [h.shape]; exact hj), h.val j hj]⟩

theorem in_canonicalizeNone (hqr : QRSpec qr) {x : MPA ℂ} {t : Ten} (h : Reps x t) :
    Makes (x.canonicalize qr .none .none) t := by
  obtain ⟨y, h1, h2, -⟩ := MPA.canonicalize_none hqr h.good
  exact ⟨y, h1, reps_step h h2⟩

theorem in_canonicalize (hqr : QRSpec qr) {x : MPA ℂ} {t : Ten} (h : Reps x t) (left right : CArg)
    (hne : ¬ (left = .none ∧ right = .none))
    (h0 : 0 ≤ target t.shape.length (left.left t.shape.length))
    (h1 : target t.shape.length (left.left t.shape.length) < target t.shape.length (right.right t.shape.length))
    (h2 : target t.shape.length (right.right t.shape.length) ≤ t.shape.length) :
    Makes (x.canonicalize qr left right) t := by
  obtain ⟨y, g1, g2, -⟩ := MPA.canonicalize_ok hqr h.good (left := left) (right := right) (by
    cases left <;> cases right <;> simp_all [CArg.isNone]) rfl rfl (by rw [h.len]; exact h0) (by rw [h.len]; exact h1)
    (by rw [h.len]; exact h2)
  exact ⟨y, g1, reps_step h g2⟩

theorem in_norm (hqr : QRSpec qr) {x : MPA ℂ} {t : Ten} (h : Reps x t) : Makes (InFun.run qr svd .norm x []) t := by
  obtain ⟨y, h1, h2⟩ := norm_ok hqr h.good
  exact ⟨y, by simp only [InFun.run, h1, ok_bind]; rfl, reps_step h h2⟩

theorem in_compressSvd (hqr : QRSpec qr) {svd : SVD ℂ} (hsvd : SVDSpec svd) {x : MPA ℂ} {t : Ten} (h : Reps x t)
    (rank : Option ℤ) (relerr : Option ℝ) (direction : Option Dir) (canon : Bool) (hr : ∀ r, rank = some r → 0 < r)
    (he : ∀ e, relerr = some e → 0 ≤ e ∧ e ≤ 1) (hd : direction ≠ some .other) :
    ∃ u : List (List ℕ) → ℂ,
      sumSites t.shape (fun j => star (t.val j) * u j) = sumSites t.shape (fun j => star (u j) * u j) ∧
      t.sq (fun j => t.val j - u j) = t.sq t.val - t.sq u ∧
      Makes (InFun.run qr svd (.compressSvd rank relerr direction canon) x []) ⟨t.shape, u⟩ := by
  have hx : ∀ f : (List (List ℕ)) → ℂ, sumSites x.shape (fun i => star (x.val i) * f i)
      = sumSites t.shape fun i => star (t.val i) * f i := by
    intro f
    rw [h.shape]
    exact sumSites_congr fun i hi => by rw [h.val i hi]
  have hx2 : sumSites x.shape (fun i => ‖x.val i‖ ^ 2) = t.sq t.val := by
    rw [h.shape, Ten.sq]
    exact sumSites_congr fun i hi => by rw [h.val i hi]
  by_cases hlen : x.len = 1
  · obtain ⟨y, h1, h2, h3, h4⟩ := C27_single_site hqr svd (truncatedSvd svd) x h.good hlen rank relerr direction canon
    refine ⟨t.val, rfl, ?_, y, ?_, h2, by rw [h3, h.shape], ?_⟩
    · simp only [Ten.sq, sub_self, norm_zero]
      norm_num [sumSites_zero]
    · simp only [InFun.run, MPA.compress, h1, ok_bind]; rfl
    · intro j hj
      rw [h4 j (by rw [h.shape]; exact hj), h.val j hj]
  · obtain ⟨y, o, h1, h2, h3, h4, h5, h6, h7, h8, -⟩ := C27_compress hqr hsvd (truncatedSvd_spec hsvd) x h.good hlen rank hr
      relerr he direction hd canon
    rw [hx] at h6
    rw [hx2] at h8
    rw [h.shape] at h7 h8
    refine ⟨y.val, h6.trans h7.symm, ?_, y, ?_, h2, by rw [h3, h.shape], fun _ _ => rfl⟩
    · have e1 : t.sq (fun j => t.val j - y.val j) = sumSites t.shape fun i => ‖x.val i - y.val i‖ ^ 2 :=
        sumSites_congr fun i hi => by rw [h.val i hi]
      rw [e1, h8]
      congr 1
      rw [sumSites_normSq] at h7
      exact_mod_cast h7.symm
    · simp only [InFun.run, MPA.compress, h1, ok_bind]; rfl

end Prog

end Mpnum
