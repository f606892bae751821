import Verif.Mpsmpo
import Verif.Np.Squeeze
import Verif.MPArray.RanksKept
import Verif.Props.C08
import Verif.Props.C09
import Verif.Props.C10
import Verif.Props.C14
import Verif.Props.C15
import Verif.Props.C20
import Verif.Props.C32
import Mathlib.Analysis.RCLike.Basic

/-! # C33: conversions between MPSs, PMPSs and MPOs -/

open Finset

namespace Mpnum

variable {R : Type}

/-- Specification: physical indices (or sizes) of sites with two legs. -/
abbrev pairs (I J : List ℕ) : List (List ℕ) := List.zipWith (fun i j => [i, j]) I J

/-- Specification: physical indices (or sizes) of sites with one leg. -/
abbrev singles (I : List ℕ) : List (List ℕ) := I.map fun i => [i]

/-- Specification: `x` is a PMPS with system dimensions `D` and ancilla dimensions `A`. -/
structure IsPmps (x : MPA R) (D A : List ℕ) : Prop where
  valid : x.Valid
  len : D.length = A.length
  shape : x.shape = pairs D A

/-- Specification: the density operator represented by a PMPS, `tr_anc |x><x|`. -/
def dm [CommRing R] [StarRing R] (x : MPA R) (A I J : List ℕ) : R :=
  sumIdx A fun K => x.val (pairs I K) * star (x.val (pairs J K))

theorem pairs_reverse (I J : List ℕ) : (pairs I J).map List.reverse = pairs J I := by
  unfold pairs
  rw [List.map_zipWith, List.zipWith_comm]
  rfl

theorem pairs_idxOK {I J D A : List ℕ} (hI : InB I D) (hJ : InB J A) : IdxOK (pairs I J) (pairs D A) := by
  unfold pairs IdxOK InB at *
  induction hI generalizing J A with
  | nil => simp
  | cons h1 _ ih =>
    cases hJ with
    | nil => simp
    | cons h2 h3 =>
      simp only [List.zipWith_cons_cons]
      exact List.Forall₂.cons (by simp [InB, h1, h2]) (ih h3)

theorem singles_idxOK {I D : List ℕ} (hI : InB I D) : IdxOK (singles I) (singles D) := by
  unfold singles IdxOK InB at *
  induction hI with
  | nil => simp
  | cons h1 _ ih => exact List.Forall₂.cons (by simp [h1]) ih

theorem idxOK_pairs {idx : List (List ℕ)} : ∀ {D A : List ℕ}, D.length = A.length → IdxOK idx (pairs D A) →
    ∃ I K, idx = pairs I K ∧ InB I D ∧ InB K A := by
  induction idx with
  | nil =>
    intro D A hl h
    cases D with
    | nil => cases A with
      | nil => exact ⟨[], [], rfl, by simp, by simp⟩
      | cons a A => simp at hl
    | cons d D => cases A with
      | nil => simp at hl
      | cons a A => simp [IdxOK] at h
  | cons i idx ih =>
    intro D A hl h
    cases D with
    | nil => simp [IdxOK] at h
    | cons d D => cases A with
      | nil => simp at hl
      | cons a A =>
        simp only [pairs, List.zipWith_cons_cons, idxOK_cons] at h
        obtain ⟨h1, h2⟩ := h
        obtain ⟨I, K, h3, h4, h5⟩ := ih (by simpa using hl) h2
        obtain ⟨x, i', rfl, hx, h1⟩ := inB_cons_split h1
        obtain ⟨y, i', rfl, hy, h1⟩ := inB_cons_split h1
        rw [inB_nil_right] at h1
        subst h1
        exact ⟨x :: I, y :: K, by simp [pairs, h3], by simp [hx, h4], by simp [hy, h5]⟩

theorem sumSites_pairs [AddCommMonoid R] : ∀ (D A : List ℕ), D.length = A.length → ∀ f : List (List ℕ) → R,
    sumSites (pairs D A) f = sumIdx D fun I => sumIdx A fun K => f (pairs I K)
  | [], [], _, f => by simp [pairs]
  | [], _ :: _, h, _ => by simp at h
  | _ :: _, [], h, _ => by simp at h
  | d :: D, a :: A, h, f => by
    have ih := sumSites_pairs D A (by simpa using h)
    simp only [pairs, List.zipWith_cons_cons, sumSites_cons, sumIdx_cons, sumIdx_nil] at ih ⊢
    refine sum_congr rfl fun i _ => ?_
    rw [sumIdx_sum_comm]
    refine sum_congr rfl fun k _ => ?_
    rw [ih]

section
variable [CommRing R] [StarRing R]

theorem dotArgs_pairs {x y : MPA R} {D A D' : List ℕ} (hD : D.length = A.length) (hD' : D'.length = A.length)
    (hx : x.shape = pairs D A) (hy : y.shape = pairs A D') : DotArgs x y ([-1], [0]) := by
  have hl : ∀ (A B : List ℕ), ∀ s ∈ pairs A B, s.length = 2 := by
    intro A B s hs
    obtain ⟨n, hn, rfl⟩ := List.getElem_of_mem hs
    simp
  refine ⟨?_, ?_, ?_, ?_⟩
  · have h1 := congrArg List.length hx
    have h2 := congrArg List.length hy
    simp [MPA.shape] at h1 h2
    unfold MPA.len
    omega
  · intro s hs
    rw [hx] at hs; rw [hl _ _ s hs]
    exact ⟨by intro a ha; simp at ha; omega, by simp [axesOf]⟩
  · intro s hs
    rw [hy] at hs; rw [hl _ _ s hs]
    exact ⟨by intro a ha; simp at ha; omega, by simp [axesOf]⟩
  · rw [hx, hy]
    unfold pairs
    rw [List.map_zipWith, List.map_zipWith]
    refine Eq.trans (b := A.map fun m => [m]) ?_ ?_
    · exact zipWith_right hD
    · exact (zipWith_left hD'.symm).symm

/-- C33: `pmps_to_mpo` returns the density operator of the PMPS as an MPO. -/
theorem C33_pmps_to_mpo (x : MPA R) (D A : List ℕ) (hx : IsPmps x D A) :
    ∃ z, pmpsToMpo x = .ok z ∧ z.Valid ∧ z.shape = pairs D D ∧
      ∀ I J, InB I D → InB J D → z.val (pairs I J) = dm x A I J := by
  obtain ⟨y, h1, h2, h3, _, h5⟩ := C14_adj x hx.valid
  obtain ⟨z, g1, g2, g3, g4⟩ := C08_matrix_product x y hx.valid h2 D A D hx.len hx.len hx.shape (by
    rw [h3, hx.shape]; exact pairs_reverse D A)
  refine ⟨z, ?_, g2, g3, ?_⟩
  · unfold pmpsToMpo; rw [h1, ok_bind]; exact g1
  · intro I J hI hJ
    rw [g4 I J hI hJ]
    refine sumIdx_congr fun K hK => ?_
    have := h5 (pairs J K) (by rw [hx.shape]; exact pairs_idxOK hJ hK)
    rw [pairs_reverse] at this
    exact congrArg _ this

/-- The ranks of the MPO are the squares of the ranks of the PMPS. -/
theorem C33_pmps_to_mpo_ranks (x : MPA R) (D A : List ℕ) (hx : IsPmps x D A) (z : MPA R) (hz : pmpsToMpo x = .ok z) :
    z.ranks = x.ranks.map (· ^ 2) := by
  obtain ⟨y, h1, h2, h3, _, h5⟩ := C14_adj x hx.valid
  obtain ⟨z', g1, -, -, -, -, g2, -⟩ := C08_dot x y ([-1], [0]) hx.valid h2 (dotArgs_pairs (D := D) (A := A) (D' := D) hx.len
    hx.len hx.shape (by rw [h3, hx.shape]; exact pairs_reverse D A))
  unfold pmpsToMpo at hz
  rw [h1, ok_bind, g1] at hz
  obtain rfl := Except.ok.inj hz
  rw [g2, MPA.adj_ranks h1]
  induction x.ranks with
  | nil => rfl
  | cons r rs ih => simp [ih, sq]

theorem C33_hermitian (x : MPA R) (A I J : List ℕ) : dm x A J I = star (dm x A I J) := by
  unfold dm
  rw [star_sumIdx]
  exact sumIdx_congr fun K _ => by rw [star_mul, star_star]

theorem replicate_pairs {D I : List ℕ} (h : I.length = D.length) : pairs I (List.replicate D.length 0) = I.map fun i => [i, 0] := by
  induction I generalizing D with
  | nil => simp [pairs]
  | cons i I ih =>
    cases D with
    | nil => simp at h
    | cons d D => simpa [pairs, List.replicate_succ] using ih (D := D) (by simpa using h)

theorem pairs_ones (D : List ℕ) : pairs D (List.replicate D.length 1) = D.map fun d => [d, 1] := by
  induction D with
  | nil => rfl
  | cons d D ih => simpa [pairs, List.replicate_succ] using ih

theorem inB_zeros (n : ℕ) : InB (List.replicate n 0) (List.replicate n 1) := by
  unfold InB
  induction n with
  | zero => simp
  | succ n ih => simp [List.replicate_succ, ih]

theorem inB_ones {n : ℕ} {K : List ℕ} (h : InB K (List.replicate n 1)) : K = List.replicate n 0 := by
  induction n generalizing K with
  | zero => simpa using h
  | succ n ih =>
    rw [List.replicate_succ] at h
    obtain ⟨a, K, rfl, h1, h2⟩ := inB_cons_split h
    rw [ih h2, List.replicate_succ]
    congr 1; omega

theorem sumIdx_ones [AddCommMonoid R] (n : ℕ) (f : List ℕ → R) : sumIdx (List.replicate n 1) f = f (List.replicate n 0) := by
  induction n generalizing f with
  | zero => simp
  | succ n ih => simp [List.replicate_succ, ih]

/-- C33: `mps_to_pmps` adds ancilla legs of dimension one. -/
theorem C33_mps_to_pmps (x : MPA R) (D : List ℕ) (hx : x.Valid) (hs : x.shape = singles D) :
    ∃ y, mpsToPmps x = .ok y ∧ IsPmps y D (List.replicate D.length 1) ∧ y.ranks = x.ranks ∧
      ∀ I, InB I D → y.val (pairs I (List.replicate D.length 0)) = x.val (singles I) := by
  have hf : ∀ t ∈ x.lt, ∃ u, t.reshape ((t.shape.take 2 ++ [1, t.shape.getD 2 0]).map fun n : ℕ => (n : ℤ)) = .ok u ∧
      SPull t u (fun p => p.take 1) ∧ u.ph = t.ph ++ [1] := by
    intro t ht
    have htl := hx.chain.isLocal t ht
    have hsh := NDArray.shape_local htl
    have hph : ∃ d, t.ph = [d] := by
      have : t.ph ∈ x.shape := List.mem_map.2 ⟨t, ht, rfl⟩
      rw [hs] at this
      obtain ⟨d, _, h⟩ := List.mem_map.1 this
      exact ⟨d, h.symm⟩
    obtain ⟨d, hd⟩ := hph
    rw [hd] at hsh
    have hsh' : t.shape.take 2 ++ [1, t.shape.getD 2 0] = t.lb :: ([d, 1] ++ [t.rb]) := by rw [hsh]; rfl
    rw [hsh']
    refine ⟨_, NDArray.reshape_nat (by rw [hsh]; simp), ⟨?_, ?_, ?_, ?_⟩, ?_⟩
    · exact NDArray.isLocal_of_shape (NDArray.reshapeTo_shape _ _)
    · exact NDArray.lb_of_shape (NDArray.reshapeTo_shape _ _)
    · exact NDArray.rb_of_shape (NDArray.reshapeTo_shape _ _)
    · intro a ha b hb p hp
      rw [NDArray.ph_of_shape (NDArray.reshapeTo_shape _ _)] at hp
      unfold NDArray.at3
      rw [NDArray.reshapeTo_local (p := [d]) (q := [d, 1]) hsh (by simp) ha hp hb]
      obtain ⟨i, p', rfl, hi, hp⟩ := inB_cons_split hp
      obtain ⟨j, p', rfl, hj, hp⟩ := inB_cons_split hp
      rw [inB_nil_right] at hp
      subst hp
      obtain rfl : j = 0 := by omega
      simp
    · rw [hd]
      exact NDArray.ph_of_shape (NDArray.reshapeTo_shape _ _)
  obtain ⟨us, h1, h2, h3, h4, h5, h6, _, _⟩ := pull_core hx (sites := x.lt) (T := id) (by simp)
    (f := fun t => t.reshape ((t.shape.take 2 ++ [1, t.shape.getD 2 0]).map fun n : ℕ => (n : ℤ)))
    (φ := fun _ p => p.take 1) (ψ := fun _ p => p ++ [0]) (q := fun t => t.ph ++ [1]) hf (by
      intro t ht
      have hph : ∃ d, t.ph = [d] := by
        have : t.ph ∈ x.shape := List.mem_map.2 ⟨t, ht, rfl⟩
        rw [hs] at this
        obtain ⟨d, _, h⟩ := List.mem_map.1 this
        exact ⟨d, h.symm⟩
      obtain ⟨d, hd⟩ := hph
      simp only [id, hd, List.singleton_append]
      refine ⟨?_, ?_, ?_, ?_⟩ <;> intro p hp
      · obtain ⟨i, p', rfl, hi, hp⟩ := inB_cons_split hp
        simpa using hi
      · obtain ⟨i, p', rfl, hi, hp⟩ := inB_cons_split hp
        rw [inB_nil_right] at hp; subst hp
        simpa using hi
      · obtain ⟨i, p', rfl, hi, hp⟩ := inB_cons_split hp
        obtain ⟨j, p', rfl, hj, hp⟩ := inB_cons_split hp
        rw [inB_nil_right] at hp; subst hp
        obtain rfl : j = 0 := by omega
        rfl
      · obtain ⟨i, p', rfl, hi, hp⟩ := inB_cons_split hp
        rw [inB_nil_right] at hp; subst hp
        rfl)
  have hne : us ≠ [] := by
    intro h; rw [h] at h3
    exact hx.ne (List.length_eq_zero_iff.1 h3.symm)
  have hps : physShape us = pairs D (List.replicate D.length 1) := by
    rw [h4, pairs_ones]
    have : x.lt.map (fun t => t.ph ++ [1]) = x.shape.map fun s => s ++ [1] := by
      unfold MPA.shape; rw [List.map_map]; rfl
    rw [this, hs, List.map_map]; rfl
  refine ⟨⟨us, 0, us.length⟩, ?_, ⟨valid_mk hne h2, by simp, hps⟩, h5, ?_⟩
  · unfold mpsToPmps
    rw [pyAssert_true (by rw [hs]; intro s hs'; obtain ⟨d, _, rfl⟩ := List.mem_map.1 hs'; rfl), ok_bind, h1, ok_bind]
    exact mkMPA_ok hne h2
  · intro I hI
    have := h6 (pairs I (List.replicate D.length 0)) (by rw [hps]; exact pairs_idxOK hI (inB_zeros _))
    show entry us _ = _
    rw [this]
    congr 1
    rw [replicate_pairs (inB_length hI)]
    have hl : x.lt.length = I.length := by
      rw [inB_length hI]
      have : x.shape.length = D.length := by rw [hs]; simp
      rw [← this, MPA.shape]; simp
    refine List.ext_getElem (by simp [hl]) fun n _ _ => by simp

/-- C33: `pmps_to_mps` removes ancilla legs of dimension one. -/
theorem C33_pmps_to_mps (x : MPA R) (D : List ℕ) (hx : IsPmps x D (List.replicate D.length 1)) :
    ∃ y, pmpsToMps x = .ok y ∧ y.Valid ∧ y.shape = singles D ∧
      ∀ I, InB I D → y.val (singles I) = x.val (pairs I (List.replicate D.length 0)) := by
  have hsh : x.shape = D.map fun d => [d, 1] := by rw [hx.shape, pairs_ones]
  obtain ⟨y, h1, h2, h3, _, _, _, h7, _⟩ := C15_reshape x hx.valid (D.map fun d : ℕ => ([(d : ℤ)], [d]))
    (by
      rw [hsh, List.forall₂_map_left_iff, List.forall₂_map_right_iff, List.forall₂_same]
      intro d _
      exact ⟨by simp, Or.inl (by simp)⟩)
    (Or.inl (by
      intro n hn
      obtain ⟨d, _, rfl⟩ := List.mem_map.1 hn
      simp))
  rw [List.map_map] at h1 h3
  refine ⟨y, ?_, h2, h3, ?_⟩
  · unfold pmpsToMps
    rw [hsh, pyAssert_true (by intro s hs; obtain ⟨d, _, rfl⟩ := List.mem_map.1 hs; rfl), ok_bind,
      pyAssert_true (by intro s hs; obtain ⟨d, _, rfl⟩ := List.mem_map.1 hs; rfl), ok_bind, List.map_map]
    exact h1
  · intro I hI
    refine h7 _ _ (by rw [hx.shape]; exact pairs_idxOK hI (inB_zeros _)) (by rw [h3]; exact singles_idxOK hI) ?_
    unfold SameRowMajor
    rw [hsh, h3, replicate_pairs (inB_length hI)]
    have hl := inB_length hI
    refine List.ext_getElem (by simp) fun n _ _ => by simp

/-- C33: ancilla dimensions other than one are rejected. -/
theorem C33_pmps_to_mps_reject (x : MPA R) (D A : List ℕ) (hx : IsPmps x D A) (hA : ∃ a ∈ A, a ≠ 1) :
    pmpsToMps x = .error .assertion := by
  unfold pmpsToMps
  rw [pyAssert_true (by
    rw [hx.shape]; intro s hs
    obtain ⟨n, hn, rfl⟩ := List.getElem_of_mem hs
    simp), ok_bind, pyAssert_false, error_bind]
  intro h
  obtain ⟨a, ha, hne⟩ := hA
  obtain ⟨n, hn, rfl⟩ := List.getElem_of_mem ha
  have hn' : n < D.length := by rw [hx.len]; exact hn
  have := h [D[n], A[n]] (by
    rw [hx.shape]
    refine List.mem_iff_getElem.2 ⟨n, by simp [hn, hn'], by simp⟩)
  exact hne this

/-- C33: converting to a PMPS and back gives the same vector. -/
theorem C33_round_trip (x : MPA R) (D : List ℕ) (hx : x.Valid) (hs : x.shape = singles D) :
    ∃ y z, mpsToPmps x = .ok y ∧ pmpsToMps y = .ok z ∧ z.Valid ∧ z.shape = x.shape ∧
      ∀ I, InB I D → z.val (singles I) = x.val (singles I) := by
  obtain ⟨y, h1, h2, _, h4⟩ := C33_mps_to_pmps x D hx hs
  obtain ⟨z, g1, g2, g3, g4⟩ := C33_pmps_to_mps y D h2
  exact ⟨y, z, h1, g1, g2, g3.trans hs.symm, fun I hI => (g4 I hI).trans (h4 I hI)⟩

/-- C33: `mps_to_mpo` returns `|psi><psi|`. -/
theorem C33_mps_to_mpo (x : MPA R) (D : List ℕ) (hx : x.Valid) (hs : x.shape = singles D) :
    ∃ z, mpsToMpo x = .ok z ∧ z.Valid ∧ z.shape = pairs D D ∧
      ∀ I J, InB I D → InB J D → z.val (pairs I J) = x.val (singles I) * star (x.val (singles J)) := by
  obtain ⟨y, h1, h2, _, h4⟩ := C33_mps_to_pmps x D hx hs
  obtain ⟨z, g1, g2, g3, g4⟩ := C33_pmps_to_mpo y D _ h2
  refine ⟨z, ?_, g2, g3, ?_⟩
  · unfold mpsToMpo; rw [h1, ok_bind]; exact g1
  · intro I J hI hJ
    rw [g4 I J hI hJ, dm, sumIdx_ones, h4 I hI, h4 J hJ]

end

section
variable {𝕜 : Type} [RCLike 𝕜]

/-- C33: the MPO returned by `pmps_to_mpo` is Hermitian and positive semidefinite, and its trace is the
squared norm of the PMPS. -/
theorem C33_psd_trace (x : MPA 𝕜) (D A : List ℕ) (hx : IsPmps x D A) :
    ∃ z, pmpsToMpo x = .ok z ∧
      (∀ I J, InB I D → InB J D → z.val (pairs J I) = star (z.val (pairs I J))) ∧
      (∀ v : List ℕ → 𝕜, ∃ r : ℝ, 0 ≤ r ∧
        (sumIdx D fun I => sumIdx D fun J => star (v I) * z.val (pairs I J) * v J) = (r : 𝕜)) ∧
      ∃ T, trace z (.same 0 1) = .ok T ∧ T.get [] = ((x.frob ^ 2 : ℝ) : 𝕜) := by
  obtain ⟨z, h1, h2, h3, h4⟩ := C33_pmps_to_mpo x D A hx
  refine ⟨z, h1, ?_, ?_, ?_⟩
  · intro I J hI hJ
    rw [h4 J I hJ hI, h4 I J hI hJ]; exact C33_hermitian x A I J
  · intro v
    refine ⟨sumIdx A fun K => ‖sumIdx D fun I => star (x.val (pairs I K)) * v I‖ ^ 2, sumIdx_nonneg fun _ => by positivity, ?_⟩
    rw [← sumIdx_ofReal]
    have e1 : (sumIdx D fun I => sumIdx D fun J => star (v I) * z.val (pairs I J) * v J)
        = sumIdx D fun I => sumIdx D fun J => sumIdx A fun K =>
          (star (v I) * x.val (pairs I K)) * (star (x.val (pairs J K)) * v J) := by
      refine sumIdx_congr fun I hI => sumIdx_congr fun J hJ => ?_
      rw [h4 I J hI hJ, dm, mul_sumIdx, sumIdx_mul]
      exact sumIdx_congr fun K _ => by ring
    rw [e1]
    simp only [sumIdx_comm D A]
    refine sumIdx_congr fun K _ => ?_
    rw [← star_mul_self_eq, star_sumIdx, sumIdx_mul]
    refine sumIdx_congr fun I _ => ?_
    rw [mul_sumIdx]
    refine sumIdx_congr fun J _ => ?_
    rw [star_mul, star_star]
  · obtain ⟨T, t1, t2, t3⟩ := C20_trace_mpo z h2 D (by rw [h3]; simp [pairs, List.zipWith_self])
    refine ⟨T, t1, ?_⟩
    rw [t3]
    have hfr : x.frob ^ 2 = sumSites x.shape fun i => ‖x.val i‖ ^ 2 := by
      rw [MPA.frob, Real.sq_sqrt (sumSites_nonneg fun _ => by positivity)]
    rw [hfr, hx.shape, sumSites_pairs D A hx.len, ← sumIdx_ofReal]
    refine sumIdx_congr fun I hI => ?_
    have hII : (I.map fun i => [i, i]) = pairs I I := by simp [pairs, List.zipWith_self]
    rw [hII, h4 I I hI hI, dm, ← sumIdx_ofReal]
    refine sumIdx_congr fun K _ => ?_
    rw [mul_comm, star_mul_self_eq]

end

/-! ### dense density matrices -/

theorem dm_td1 [AddCommMonoid R] [Mul R] {a b : NDArray R} {P u v d k w : ℕ} (ha : a.shape = [P, u, v])
    (hb : b.shape = [u, d, k, w]) :
    ∃ c, a.tensordot b [1] [0] = .ok c ∧ c.shape = [P, v, d, k, w] ∧
      ∀ p j i m y, c.get [p, j, i, m, y] = ∑ x ∈ range u, a.get [p, x, j] * b.get [x, i, m, y] := by
  obtain ⟨sa, ga⟩ := a
  obtain ⟨sb, gb⟩ := b
  simp only at ha hb
  subst ha; subst hb
  exact ⟨_, NDArray.tensordot_ok (axa := [1]) (axb := [0]) (by simp [NDArray.ndim]) (by simp [NDArray.ndim]) (by simp)
    (by simp) (by simp), rfl, fun _ _ _ _ _ => rfl⟩

theorem dm_td2 [AddCommMonoid R] [Mul R] {a b : NDArray R} {P v d k w d' w' : ℕ} (ha : a.shape = [P, v, d, k, w])
    (hb : b.shape = [v, d', k, w']) :
    ∃ c, a.tensordot b [1, 3] [0, 2] = .ok c ∧ c.shape = [P, d, w, d', w'] ∧
      ∀ p i y j z, c.get [p, i, y, j, z] = ∑ x ∈ range v, ∑ m ∈ range k, a.get [p, x, i, m, y] * b.get [x, j, m, z] := by
  obtain ⟨sa, ga⟩ := a
  obtain ⟨sb, gb⟩ := b
  simp only at ha hb
  subst ha; subst hb
  exact ⟨_, NDArray.tensordot_ok (axa := [1, 3]) (axb := [0, 2]) (by simp [NDArray.ndim]) (by simp [NDArray.ndim]) (by simp)
    (by simp) (by simp), rfl, fun _ _ _ _ _ => rfl⟩

theorem dm_roll {a : NDArray R} {P d w d' w' : ℕ} (ha : a.shape = [P, d, w, d', w']) :
    ∃ c, a.rollaxis 3 2 = .ok c ∧ c.shape = [P, d, d', w, w'] ∧
      ∀ p i j y z, c.get [p, i, j, y, z] = a.get [p, i, y, j, z] := by
  obtain ⟨sa, ga⟩ := a
  simp only at ha
  subst ha
  exact ⟨_, NDArray.rollaxis_ok (by simp [NDArray.ndim]) (by simp [NDArray.ndim]), rfl, fun _ _ _ _ _ => rfl⟩

section
variable [CommRing R] [StarRing R]

theorem dmStep_ok {out lt : NDArray R} {P l d k r : ℕ} (ho : out.shape = [P, l, l]) (hl : lt.shape = [l, d, k, r])
    (hr : 0 < r) :
    ∃ c, dmStep out lt = .ok c ∧ c.shape = [P * (d * d), r, r] ∧
      ∀ p < P, ∀ i < d, ∀ j < d, ∀ a < r, ∀ b < r, c.get [p * (d * d) + (i * d + j), a, b]
        = ∑ m ∈ range k, ∑ x ∈ range l, ∑ y ∈ range l, out.get [p, y, x] * lt.get [y, i, m, a] * star (lt.get [x, j, m, b]) := by
  obtain ⟨c1, h1, h2, h3⟩ := dm_td1 ho hl
  obtain ⟨c2, g1, g2, g3⟩ := dm_td2 (b := lt.conj) h2 hl
  obtain ⟨c3, k1, k2, k3⟩ := dm_roll g2
  have hres : c3.reshape [-1, ((c3.shape.getD 3 0 : ℕ) : ℤ), ((c3.shape.getD 4 0 : ℕ) : ℤ)]
      = .ok (c3.reshapeTo [P * (d * d), r, r]) := by
    have := NDArray.reshape_infer (a := c3) (d := P * (d * d)) (s := []) (t := [r, r]) (by rw [k2]; simp; ring)
      (by simp; positivity)
    rw [k2]
    simpa using this
  refine ⟨c3.reshapeTo [P * (d * d), r, r], ?_, rfl, ?_⟩
  · unfold dmStep
    rw [h1, ok_bind, g1, ok_bind, k1, ok_bind, hres]
  · intro p hp i hi j hj a ha b hb
    have e := NDArray.reshapeTo_blocks2 (a := c3) (S := [P, d, d]) (S' := [r, r]) (T := [P * (d * d)]) (T' := [r, r])
      (i := [p * (d * d) + (i * d + j)]) (j := [a, b]) k2 (by simp) rfl
      (by
        have h1 : i * d + j < d * d := by nlinarith
        have h2 : p * (d * d) + (i * d + j) < P * (d * d) := by nlinarith
        simpa using h2)
      (by simp [ha, hb])
    have e1 : unravelIdx [P, d, d] (ravelIdx [P * (d * d)] [p * (d * d) + (i * d + j)]) = [p, i, j] := by
      have := unravel_ravel (i := [p, i, j]) (s := [P, d, d]) (by simp [hp, hi, hj])
      rw [← this]
      congr 1
      simp
    have e2 : unravelIdx [r, r] (ravelIdx [r, r] [a, b]) = [a, b] := unravel_ravel (by simp [ha, hb])
    rw [e1, e2] at e
    simp only [List.cons_append, List.nil_append] at e
    rw [e, k3, g3, sum_comm]
    refine sum_congr rfl fun m _ => sum_congr rfl fun x _ => ?_
    rw [h3, sum_mul]
    exact sum_congr rfl fun y _ => rfl

/-- Partial result of `pmps_dm_to_array` for the sites `ts`. -/
def DmRep (ts : List (NDArray R)) (D A : List ℕ) (r : ℕ) (out : NDArray R) : Prop :=
  out.shape = [(pairs D D).flatten.prod, r, r] ∧
  ∀ I J, InB I D → InB J D → ∀ a < r, ∀ b < r,
    out.get [ravelIdx (pairs D D).flatten (pairs I J).flatten, a, b]
      = sumIdx A fun K => mp ts (pairs I K) 0 a * star (mp ts (pairs J K) 0 b)

theorem pairs_append {I J I' J' : List ℕ} (h : I.length = J.length) : pairs (I ++ I') (J ++ J') = pairs I J ++ pairs I' J' :=
  List.zipWith_append h

theorem pairs_flatten_inB {I J D A : List ℕ} (hI : InB I D) (hJ : InB J A) : InB (pairs I J).flatten (pairs D A).flatten :=
  idxOK_flatten (pairs_idxOK hI hJ)

theorem dmRep_step {ts : List (NDArray R)} {t out : NDArray R} {D A : List ℕ} {d k : ℕ} (hDA : D.length = A.length)
    (hrep : DmRep ts D A t.lb out)
    (hc : Chained 1 ts t.lb) (hts : physShape ts = pairs D A) (ht : t.IsLocal) (hp : t.ph = [d, k]) (hr : 0 < t.rb) :
    ∃ c, dmStep out t = .ok c ∧ DmRep (ts ++ [t]) (D ++ [d]) (A ++ [k]) t.rb c := by
  have hsh : t.shape = [t.lb, d, k, t.rb] := by rw [NDArray.shape_local ht, hp]; rfl
  obtain ⟨c, h1, h2, h3⟩ := dmStep_ok hrep.1 hsh hr
  have hfl : (pairs (D ++ [d]) (D ++ [d])).flatten = (pairs D D).flatten ++ [d, d] := by
    rw [pairs_append rfl, List.flatten_append]; rfl
  refine ⟨c, h1, ?_, ?_⟩
  · rw [h2, hfl, List.prod_append]; simp
  · intro I J hI hJ a ha b hb
    obtain ⟨I, I', rfl, hI1, hI'⟩ := inB_append_split hI
    obtain ⟨J, J', rfl, hJ1, hJ'⟩ := inB_append_split hJ
    clear hI hJ
    rename' hI1 => hI, hJ1 => hJ
    obtain ⟨i, _, rfl, hi, hI'⟩ := inB_cons_split hI'
    rw [inB_nil_right] at hI'; subst hI'
    obtain ⟨j, _, rfl, hj, hJ'⟩ := inB_cons_split hJ'
    rw [inB_nil_right] at hJ'; subst hJ'
    have hIJ : I.length = J.length := (inB_length hI).trans (inB_length hJ).symm
    have hlt := ravelIdx_lt (pairs_flatten_inB hI hJ)
    rw [pairs_append hIJ, hfl, List.flatten_append, show (pairs [i] [j]).flatten = [i, j] from rfl,
      ravelIdx_append _ _ (inB_length (pairs_flatten_inB hI hJ))]
    have e : ravelIdx [d, d] [i, j] = i * d + j := by simp
    rw [e, show [d, d].prod = d * d by simp, h3 _ hlt i hi j hj a ha b hb, sumIdx_append]
    have hlen : (physShape ts).length = ts.length := by simp [physShape]
    have hlen2 : ts.length = D.length := by rw [← hlen, hts]; simp [hDA]
    have e2 : ∀ K, InB K A → ∀ m < k, ∀ (I : List ℕ) (i : ℕ), I.length = D.length → ∀ a < t.rb,
        mp (ts ++ [t]) (pairs (I ++ [i]) (K ++ [m])) 0 a = ∑ y ∈ range t.lb, mp ts (pairs I K) 0 y * t.get [y, i, m, a] := by
      intro K hK m hm I i hl a ha
      have hKl := inB_length hK
      rw [pairs_append (by omega), show pairs [i] [m] = [[i, m]] from rfl, mp_concat hc (by simp; omega) one_pos ha]
      rfl
    have e3 : ∀ K, InB K A → (sumIdx [k] fun M => mp (ts ++ [t]) (pairs (I ++ [i]) (K ++ M)) 0 a
          * star (mp (ts ++ [t]) (pairs (J ++ [j]) (K ++ M)) 0 b))
        = ∑ m ∈ range k, ∑ x ∈ range t.lb, ∑ y ∈ range t.lb,
          mp ts (pairs I K) 0 y * star (mp ts (pairs J K) 0 x) * t.get [y, i, m, a] * star (t.get [x, j, m, b]) := by
      intro K hK
      simp only [sumIdx_cons, sumIdx_nil]
      refine sum_congr rfl fun m hm => ?_
      have hm := mem_range.1 hm
      rw [e2 K hK m hm I i (inB_length hI) a ha, e2 K hK m hm J j (inB_length hJ) b hb, star_sum, sum_mul_sum, sum_comm]
      refine sum_congr rfl fun x _ => sum_congr rfl fun y _ => ?_
      rw [star_mul]; ring
    rw [sumIdx_congr e3, sumIdx_sum_comm]
    refine sum_congr rfl fun m _ => ?_
    rw [sumIdx_sum_comm]
    refine sum_congr rfl fun x hx => ?_
    rw [sumIdx_sum_comm]
    refine sum_congr rfl fun y hy => ?_
    rw [hrep.2 I J hI hJ y (mem_range.1 hy) x (mem_range.1 hx), sumIdx_mul, sumIdx_mul]

theorem dmRep_fold : ∀ {us ts : List (NDArray R)} {out : NDArray R} {D A D' A' : List ℕ} {m r : ℕ}
    (_ : D.length = A.length) (_ : D'.length = A'.length)
    (_ : DmRep ts D A m out) (_ : Chained 1 ts m) (_ : physShape ts = pairs D A) (_ : Chained m us r)
    (_ : physShape us = pairs D' A') (_ : ∀ t ∈ us, 0 < t.rb),
    ∃ c, us.foldlM dmStep out = .ok c ∧ DmRep (ts ++ us) (D ++ D') (A ++ A') r c
  | [], ts, out, D, A, D', A', m, r, hDA, hDA', hrep, hc, hts, hu, hus, hpos => by
    have hD' : D' = [] := by
      have := congrArg List.length hus
      simp [physShape] at this
      exact List.length_eq_zero_iff.1 (by omega)
    have hA' : A' = [] := List.length_eq_zero_iff.1 (by rw [← hDA', hD']; rfl)
    subst hD'; subst hA'
    rw [chained_nil] at hu; subst hu
    exact ⟨out, rfl, by simpa using hrep⟩
  | t :: us, ts, out, D, A, D', A', m, r, hDA, hDA', hrep, hc, hts, hu, hus, hpos => by
    obtain ⟨h1, h2, h3⟩ := hu
    subst h2
    cases D' with
    | nil => simp [physShape] at hus
    | cons d D' =>
      cases A' with
      | nil => simp at hDA'
      | cons k A' =>
        have hus' : t.ph = [d, k] ∧ physShape us = pairs D' A' := by
          simpa [physShape, pairs] using hus
        obtain ⟨c, g1, g2⟩ := dmRep_step hDA hrep hc hts h1 hus'.1 (hpos t (by simp))
        obtain ⟨c', k1, k2⟩ := dmRep_fold (us := us) (D' := D') (A' := A') (by simp [hDA]) (by simpa using hDA') g2
          (chained_concat.2 ⟨hc, h1, rfl⟩)
          (by
            rw [pairs_append hDA, ← hts]
            simp [physShape, hus'.1])
          h3 hus'.2 (fun u hu => hpos u (by simp [hu]))
        refine ⟨c', ?_, by simpa using k2⟩
        rw [List.foldlM_cons, g1]; exact k1

theorem dmOutShape_ok {D A : List ℕ} (h : D.length = A.length) :
    dmOutShape (pairs D A) = .ok ((pairs D D).flatten.filter (1 < ·)) := by
  unfold dmOutShape
  rw [show pyGuard _ PyErr.value = .ok () from if_pos (by
    intro s hs
    obtain ⟨n, hn, rfl⟩ := List.getElem_of_mem hs
    simp), ok_bind]
  congr 1
  induction D generalizing A with
  | nil => rfl
  | cons d D ih =>
    cases A with
    | nil => simp at h
    | cons a A =>
      have ih := ih (A := A) (by simpa using h)
      simp only [pairs] at ih
      simp only [pairs, List.zipWith_cons_cons, List.map_cons, List.flatten_cons, ih, List.filter_append]
      by_cases hd : 1 < d <;> simp [hd]

theorem dm_initial : DmRep (R := R) [] [] [] 1 ⟨[1, 1, 1], fun _ => 1⟩ := by
  refine ⟨rfl, ?_⟩
  intro I J hI hJ a ha b hb
  rw [inB_nil_right] at hI hJ
  subst hI; subst hJ
  obtain rfl : a = 0 := by omega
  obtain rfl : b = 0 := by omega
  simp [pairs]

/-- C33: `pmps_dm_to_array(x)` is the density operator with the legs in the order system, system' of site
0, system, system' of site 1, ...; legs of dimension one are removed. -/
theorem C33_dm_to_array (x : MPA R) (D A : List ℕ) (hx : IsPmps x D A) (hr : ∀ r ∈ x.ranks, 0 < r) (hD : ∀ d ∈ D, 0 < d) :
    ∃ a, pmpsDmToArray x false = .ok a ∧ a.shape = (pairs D D).flatten.filter (1 < ·) ∧
      ∀ I J, InB I D → InB J D → a.get (squeezeIdx (pairs D D).flatten (pairs I J).flatten) = dm x A I J := by
  obtain ⟨c, h1, h2⟩ := dmRep_fold (us := x.lt) (ts := []) (D := []) (A := []) (D' := D) (A' := A) rfl hx.len dm_initial
    (by simp) rfl hx.valid.chain hx.shape (fun t ht => (bonds_pos hx.valid hr t ht).2)
  simp only [List.nil_append] at h2
  have hprod : ((pairs D D).flatten.filter (1 < ·)).prod = (pairs D D).flatten.prod := filter_prod (by
    intro d hd
    obtain ⟨s, hs, hd⟩ := List.mem_flatten.1 hd
    obtain ⟨n, hn, rfl⟩ := List.getElem_of_mem hs
    simp only [List.getElem_zipWith, List.mem_cons, List.not_mem_nil, or_false, or_self] at hd
    rw [hd]
    exact hD _ (List.getElem_mem _))
  refine ⟨c.reshapeTo ((pairs D D).flatten.filter (1 < ·)), ?_, rfl, ?_⟩
  · unfold pmpsDmToArray
    rw [h1, ok_bind, hx.shape, dmOutShape_ok hx.len, ok_bind, NDArray.reshape_nat (by rw [h2.1, hprod]; simp), ok_bind]
    simp
  · intro I J hI hJ
    have hin := pairs_flatten_inB hI hJ
    rw [NDArray.reshapeTo_get, squeeze_ravel hin, h2.1]
    have hlt := ravelIdx_lt hin
    have e : unravelIdx [(pairs D D).flatten.prod, 1, 1] (ravelIdx (pairs D D).flatten (pairs I J).flatten)
        = [ravelIdx (pairs D D).flatten (pairs I J).flatten, 0, 0] := by
      simp [Nat.mod_one]
    rw [e, h2.2 I J hI hJ 0 one_pos 0 one_pos]
    rfl

theorem squeeze_pairs {D I J : List ℕ} (hI : I.length = D.length) (hJ : J.length = D.length) :
    squeezeIdx (pairs D D).flatten (pairs I J).flatten = (pairs (squeezeIdx D I) (squeezeIdx D J)).flatten := by
  induction D generalizing I J with
  | nil => simp [squeezeIdx, pairs]
  | cons d D ih =>
    cases I with
    | nil => simp at hI
    | cons i I =>
      cases J with
      | nil => simp at hJ
      | cons j J =>
        have ih := ih (I := I) (J := J) (by simpa using hI) (by simpa using hJ)
        simp only [pairs, List.zipWith_cons_cons, List.flatten_cons, List.cons_append, List.nil_append, squeezeIdx] at ih ⊢
        by_cases hd : 1 < d <;> simp only [hd, if_true, if_false, List.zipWith_cons_cons, List.flatten_cons, List.cons_append,
          List.nil_append, ih]

theorem bySite_pairs {I J : List ℕ} (h : I.length = J.length) :
    bySite I.length 2 (fun n k => if k = 0 then I.getD n 0 else J.getD n 0) = (pairs I J).flatten := by
  have : pairs I J = (List.range I.length).map fun n => [I.getD n 0, J.getD n 0] := by
    refine List.ext_getElem (by simp [h]) fun n h1 h2 => ?_
    simp at h1 h2
    simp [h1]
  rw [this, bySite, List.flatMap_def]
  congr 1

theorem byLeg_pairs {I J : List ℕ} (h : I.length = J.length) :
    byLeg I.length 2 (fun n k => if k = 0 then I.getD n 0 else J.getD n 0) = I ++ J := by
  unfold byLeg
  have e1 : ((List.range I.length).map fun n => I.getD n 0) = I := map_getD_range I
  have e2 : ((List.range I.length).map fun n => J.getD n 0) = J := by rw [h]; exact map_getD_range J
  simp only [List.range_succ, List.range_zero, List.nil_append, List.flatMap_cons, List.flatMap_append, List.flatMap_nil, List.append_nil]
  simp only [if_true, one_ne_zero, if_false]
  rw [e1, e2]

/-- C33: `pmps_dm_to_array(x, global_=True)` has the system legs first and the other legs last; the system
dimensions larger than one must be equal. -/
theorem C33_dm_to_array_global (x : MPA R) (D A : List ℕ) (hx : IsPmps x D A) (hr : ∀ r ∈ x.ranks, 0 < r)
    (hD : ∀ d ∈ D, 0 < d) (d : ℕ) (hd : ∃ e ∈ D, 1 < e) (hsame : ∀ e ∈ D, 1 < e → e = d) :
    ∃ a, pmpsDmToArray x true = .ok a ∧ a.shape = D.filter (1 < ·) ++ D.filter (1 < ·) ∧
      ∀ I J, InB I D → InB J D → a.get (squeezeIdx D I ++ squeezeIdx D J) = dm x A I J := by
  obtain ⟨a, h1, h2, h3⟩ := C33_dm_to_array x D A hx hr hD
  have hsq : (pairs D D).flatten.filter (1 < ·) = (pairs (D.filter (1 < ·)) (D.filter (1 < ·))).flatten := by
    rw [← squeezeIdx_self, ← squeezeIdx_self, squeeze_pairs rfl rfl]
  obtain ⟨F, hF⟩ : ∃ F, F = D.filter (1 < ·) := ⟨_, rfl⟩
  rw [hsq, ← hF] at h2
  have hFlen : 0 < F.length := by
    obtain ⟨e, he, he1⟩ := hd
    rw [hF]
    exact List.length_pos_of_mem (List.mem_filter.2 ⟨he, by simpa using he1⟩)
  have hfl : (pairs F F).flatten.length = F.length * 2 := by
    rw [← bySite_pairs rfl]; exact grid_length F.length 2 _
  obtain ⟨b, g1, g2, g3⟩ := localToGlobal_ok (a := a) (sites := F.length) (plegs := 2) hFlen (L := []) (P := [])
    (d := fun n k => if k = 0 then F.getD n 0 else F.getD n 0) (by rw [bySite_pairs rfl, h2]; simp)
  rw [byLeg_pairs rfl] at g2
  refine ⟨b, ?_, by rw [g2, hF]; simp, ?_⟩
  · have hmain : pmpsDmToArray x true = (do
        let o ← pmpsDmToArray x false
        pyAssert (((pairs D D).flatten.filter (1 < ·)).toFinset.card = 1)
        localToGlobal o (((pairs D D).flatten.filter (1 < ·)).length / 2)) := by
      unfold pmpsDmToArray
      rw [hx.shape, dmOutShape_ok hx.len]
      cases x.lt.foldlM dmStep (⟨[1, 1, 1], fun _ => 1⟩ : NDArray R) with
      | error e => rfl
      | ok c =>
        rw [ok_bind, ok_bind, ok_bind, ok_bind]
        cases c.reshape (((pairs D D).flatten.filter (1 < ·)).map fun n : ℕ => (n : ℤ)) with
        | error e => rfl
        | ok c' => rfl
    rw [hmain, h1, ok_bind, pyAssert_true, ok_bind, hsq, ← hF, hfl, Nat.mul_div_cancel _ (by norm_num)]
    · exact g1
    · rw [card_eq_one]
      refine ⟨d, ?_⟩
      ext e
      simp only [List.mem_toFinset, List.mem_filter, decide_eq_true_eq, mem_singleton]
      constructor
      · rintro ⟨he, h1⟩
        obtain ⟨s, hs, he⟩ := List.mem_flatten.1 he
        obtain ⟨n, hn, rfl⟩ := List.getElem_of_mem hs
        simp only [List.getElem_zipWith, List.mem_cons, List.not_mem_nil, or_false, or_self] at he
        rw [he] at h1 ⊢
        exact hsame _ (List.getElem_mem _) h1
      · rintro rfl
        obtain ⟨e', he', h1'⟩ := hd
        obtain rfl := hsame e' he' h1'
        refine ⟨List.mem_flatten.2 ⟨[e', e'], ?_, by simp⟩, h1'⟩
        obtain ⟨n, hn, h⟩ := List.getElem_of_mem he'
        exact List.mem_iff_getElem.2 ⟨n, by simpa using hn, by simp [h]⟩
  · intro I J hI hJ
    have hlI := squeezeIdx_length (inB_length hI)
    have hlJ := squeezeIdx_length (inB_length hJ)
    rw [← hF] at hlI hlJ
    have := g3 [] (fun n k => if k = 0 then (squeezeIdx D I).getD n 0 else (squeezeIdx D J).getD n 0) [] rfl rfl
    rw [← hlI, byLeg_pairs (hlI.trans hlJ.symm), bySite_pairs (hlI.trans hlJ.symm)] at this
    simp only [List.nil_append, List.append_nil] at this
    rw [this, ← squeeze_pairs (inB_length hI) (inB_length hJ)]
    exact h3 I J hI hJ

end

/-- A PMPS for the examples: two sites with system dimensions 2, 1 and ancilla dimensions 1, 3. -/
noncomputable def exPmps : MPA ℂ :=
  ⟨[⟨[1, 2, 1, 2], fun i => match i with | [_, p, _, b] => (p : ℂ) + 2 * b + 1 | _ => 0⟩,
    ⟨[2, 1, 3, 1], fun i => match i with | [a, _, p, _] => (a : ℂ) * p - 1 | _ => 0⟩], 0, 2⟩

theorem exPmps_isPmps : IsPmps exPmps [2, 1] [1, 3] :=
  ⟨⟨by simp [exPmps], by simp [exPmps, NDArray.IsLocal, NDArray.ndim, NDArray.lb, NDArray.rb], by simp [exPmps], by simp [exPmps],
    by simp [exPmps, MPA.len]⟩, rfl, rfl⟩

example : ∃ z, pmpsToMpo exPmps = .ok z ∧ z.shape = [[2, 2], [1, 1]] := by
  obtain ⟨z, h1, _, h3, _⟩ := C33_pmps_to_mpo exPmps _ _ exPmps_isPmps
  exact ⟨z, h1, h3⟩

example : ∃ a, pmpsDmToArray exPmps true = .ok a ∧ a.shape = [2, 2] := by
  obtain ⟨a, h1, h2, _⟩ := C33_dm_to_array_global exPmps _ _ exPmps_isPmps (by simp [exPmps, MPA.ranks, NDArray.lb]) (by simp) 2
    ⟨2, by simp, by norm_num⟩ (by simp)
  exact ⟨a, h1, h2⟩

end Mpnum
