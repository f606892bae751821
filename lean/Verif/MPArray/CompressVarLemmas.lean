import Verif.MPArray.CompressVar
import Verif.Linalg.EigLemmas

/-!
# The environments and the local step of variational compression
-/

open Finset

namespace Mpnum

section
variable {R : Type} [CommRing R] [StarRing R]

theorem adaptAddL_ok {L T U : NDArray R} {d c e f p : ℕ} (hL : L.shape = [d, c]) (hT : T.shape = [d, p, e])
    (hU : U.shape = [c, p, f]) :
    ∃ N, adaptAddL L T U = .ok N ∧ N.shape = [e, f] ∧
      ∀ a y, N.get [a, y] = ∑ s ∈ range p, ∑ i ∈ range c, (∑ k ∈ range d, L.get [k, i] * T.get [k, s, a]) *
        star (U.get [i, s, y]) := by
  obtain ⟨l0, e1, i1⟩ := NamedArray.is_mk (a := L) (names := [AdAx.comprBond, .tgtBond])
    (δ := fun n => match n with | .comprBond => d | _ => c) hL (by decide)
  obtain ⟨t0, e2, i2⟩ := NamedArray.is_mk (a := T) (names := [AdAx.comprLeft, .comprPhys, .comprRight])
    (δ := fun n => match n with | .comprLeft => d | .comprPhys => p | _ => e) hT (by decide)
  obtain ⟨u0, e3, i3⟩ := NamedArray.is_mk (a := U) (names := [AdAx.tgtLeft, .tgtPhys, .tgtRight])
    (δ := fun n => match n with | .tgtLeft => c | .tgtPhys => p | _ => f) hU (by decide)
  obtain ⟨z1, f1, j1⟩ := i1.tensordot i2 [(.comprBond, .comprLeft)]
    (fun n => match n with | .tgtBond => c | .comprPhys => p | _ => e)
    [.tgtBond, .comprPhys, .comprRight] rfl (by simp) (by simp) (by simp) (by simp) (by simp) (by simp)
  obtain ⟨u1, e4, i4⟩ := i3.conj
  obtain ⟨z2, f2, j2⟩ := j1.tensordot i4 [(.comprPhys, .tgtPhys), (.tgtBond, .tgtLeft)]
    (fun n => match n with | .comprRight => e | _ => f)
    [.comprRight, .tgtRight] rfl (by simp) (by simp) (by simp) (by simp) (by simp) (by simp)
  obtain ⟨z3, f3, j3⟩ := j2.rename [(.comprRight, .comprBond), (.tgtRight, .tgtBond)]
    (fun n => match n with | .comprBond => e | _ => f)
    [.comprBond, .tgtBond] rfl (by simp) (by simp) (by decide) (by simp [NamedArray.renamed])
  obtain ⟨N, f4, f5, f6⟩ := j3.toArray (order := [.comprBond, .tgtBond]) (List.Perm.refl _)
  refine ⟨N, ?_, f5, ?_⟩
  · unfold adaptAddL
    simp only [e1, e2, e3, e4, f1, f2, f3, f4, ok_bind]
  · intro a y
    refine Eq.trans (f6 (fun n => match n with | .comprBond => a | _ => y)) ?_
    simp only [List.map_cons, List.map_nil, sumIdx_cons, sumIdx_nil]
    rfl

theorem adaptAddR_ok {L T U : NDArray R} {d c e f p : ℕ} (hL : L.shape = [e, f]) (hT : T.shape = [d, p, e])
    (hU : U.shape = [c, p, f]) :
    ∃ N, adaptAddR L T U = .ok N ∧ N.shape = [d, c] ∧
      ∀ a y, N.get [a, y] = ∑ s ∈ range p, ∑ i ∈ range f, (∑ k ∈ range e, L.get [k, i] * T.get [a, s, k]) *
        star (U.get [y, s, i]) := by
  obtain ⟨l0, e1, i1⟩ := NamedArray.is_mk (a := L) (names := [AdAx.comprBond, .tgtBond])
    (δ := fun n => match n with | .comprBond => e | _ => f) hL (by decide)
  obtain ⟨t0, e2, i2⟩ := NamedArray.is_mk (a := T) (names := [AdAx.comprLeft, .comprPhys, .comprRight])
    (δ := fun n => match n with | .comprLeft => d | .comprPhys => p | _ => e) hT (by decide)
  obtain ⟨u0, e3, i3⟩ := NamedArray.is_mk (a := U) (names := [AdAx.tgtLeft, .tgtPhys, .tgtRight])
    (δ := fun n => match n with | .tgtLeft => c | .tgtPhys => p | _ => f) hU (by decide)
  obtain ⟨z1, f1, j1⟩ := i1.tensordot i2 [(.comprBond, .comprRight)]
    (fun n => match n with | .tgtBond => f | .comprPhys => p | _ => d)
    [.tgtBond, .comprLeft, .comprPhys] rfl (by simp) (by simp) (by simp) (by simp) (by simp) (by simp)
  obtain ⟨u1, e4, i4⟩ := i3.conj
  obtain ⟨z2, f2, j2⟩ := j1.tensordot i4 [(.comprPhys, .tgtPhys), (.tgtBond, .tgtRight)]
    (fun n => match n with | .comprLeft => d | _ => c)
    [.comprLeft, .tgtLeft] rfl (by simp) (by simp) (by simp) (by simp) (by simp) (by simp)
  obtain ⟨z3, f3, j3⟩ := j2.rename [(.comprLeft, .comprBond), (.tgtLeft, .tgtBond)]
    (fun n => match n with | .comprBond => d | _ => c)
    [.comprBond, .tgtBond] rfl (by simp) (by simp) (by decide) (by simp [NamedArray.renamed])
  obtain ⟨N, f4, f5, f6⟩ := j3.toArray (order := [.comprBond, .tgtBond]) (List.Perm.refl _)
  refine ⟨N, ?_, f5, ?_⟩
  · unfold adaptAddR
    simp only [e1, e2, e3, e4, f1, f2, f3, f4, ok_bind]
  · intro a y
    refine Eq.trans (f6 (fun n => match n with | .comprBond => a | _ => y)) ?_
    simp only [List.map_cons, List.map_nil, sumIdx_cons, sumIdx_nil]
    rfl

/-- The left vector of `_adapt_to`: overlaps of the left part `ts` of the compressed vector with the left part `us` of
the target. -/
structure ALEnv (ts us : List (NDArray R)) (D : List ℕ) (d c : ℕ) (e : NDArray R) : Prop where
  ct : Chained 1 ts d
  cu : Chained 1 us c
  st : physShape ts = singles D
  su : physShape us = singles D
  shape : e.shape = [d, c]
  val : ∀ a < d, ∀ x < c, e.get [a, x] = sumIdx D fun I => mp ts (singles I) 0 a * star (mp us (singles I) 0 x)

/-- The same for the right vector. -/
structure AREnv (ts us : List (NDArray R)) (D : List ℕ) (d c : ℕ) (e : NDArray R) : Prop where
  ct : Chained d ts 1
  cu : Chained c us 1
  st : physShape ts = singles D
  su : physShape us = singles D
  shape : e.shape = [d, c]
  val : ∀ a < d, ∀ x < c, e.get [a, x] = sumIdx D fun I => mp ts (singles I) a 0 * star (mp us (singles I) x 0)

theorem aLEnv_nil : ALEnv (R := R) [] [] [] 1 1 (onesNd 2) := by
  refine ⟨rfl, rfl, rfl, rfl, rfl, ?_⟩
  intro a ha x hx
  obtain rfl : a = 0 := by omega
  obtain rfl : x = 0 := by omega
  simp [sumIdx_nil, mp, singles, onesNd]

theorem aREnv_nil : AREnv (R := R) [] [] [] 1 1 (onesNd 2) := by
  refine ⟨rfl, rfl, rfl, rfl, rfl, ?_⟩
  intro a ha x hx
  obtain rfl : a = 0 := by omega
  obtain rfl : x = 0 := by omega
  simp [sumIdx_nil, mp, singles, onesNd]

theorem aLEnv_step {ts us : List (NDArray R)} {D : List ℕ} {c d c' d' p : ℕ} {e T U : NDArray R}
    (h : ALEnv ts us D d c e) (hT : T.shape = [d, p, d']) (hU : U.shape = [c, p, c']) :
    ∃ N, adaptAddL e T U = .ok N ∧ ALEnv (ts ++ [T]) (us ++ [U]) (D ++ [p]) d' c' N := by
  obtain ⟨N, h1, h2, h3⟩ := adaptAddL_ok h.shape hT hU
  have lT : T.IsLocal := by simp [NDArray.IsLocal, NDArray.ndim, hT]
  have lU : U.IsLocal := by simp [NDArray.IsLocal, NDArray.ndim, hU]
  have eT1 : T.lb = d := by simp [NDArray.lb, hT]
  have eU1 : U.lb = c := by simp [NDArray.lb, hU]
  have eT2 : T.rb = d' := by simp [NDArray.rb, hT]
  have eU2 : U.rb = c' := by simp [NDArray.rb, hU]
  have nT : ts.length = D.length := by
    have := congrArg List.length h.st; rw [physShape_length, singles_length] at this; exact this
  have nU : us.length = D.length := by
    have := congrArg List.length h.su; rw [physShape_length, singles_length] at this; exact this
  have ct : Chained 1 ts T.lb := eT1 ▸ h.ct
  have cu : Chained 1 us U.lb := eU1 ▸ h.cu
  refine ⟨N, h1, eT2 ▸ chained_step ct lT, eU2 ▸ chained_step cu lU, ?_, ?_, h2, ?_⟩
  · rw [physShape_concat, h.st, singles_append]; simp [NDArray.ph, hT, singles]
  · rw [physShape_concat, h.su, singles_append]; simp [NDArray.ph, hU, singles]
  · intro a ha y hy
    rw [h3, sum_comm]
    refine Eq.trans (b := ∑ i ∈ range c, ∑ s ∈ range p, (∑ k ∈ range d,
      (∑ I ∈ idxSet D, mp ts (singles I) 0 k * star (mp us (singles I) 0 i)) * T.get [k, s, a]) *
        star (U.get [i, s, y])) ?_ ?_
    · refine sum_congr rfl fun i hi => sum_congr rfl fun s _ => congrArg (· * _) (sum_congr rfl fun k hk => ?_)
      rw [h.val k (by simpa using hk) i (by simpa using hi), sumIdx_eq_sum]
    rw [envMps_exchange (idxSet D) d c p (fun I k => mp ts (singles I) 0 k) (fun I i => star (mp us (singles I) 0 i))
      (fun k s => T.get [k, s, a]) (fun i s => star (U.get [i, s, y]))]
    simp only [sumIdx_append, sumIdx_cons, sumIdx_nil]
    rw [sumIdx_eq_sum]
    refine sum_congr rfl fun I hI => sum_congr rfl fun s _ => ?_
    have hI' := inB_length (mem_idxSet.1 hI)
    rw [singles_append, show singles [s] = [[s]] from rfl,
      mp_concat ct (by rw [singles_length]; omega) one_pos (by omega),
      mp_concat cu (by rw [singles_length]; omega) one_pos (by omega), star_sum, eU1, eT1]
    refine congrArg₂ (· * ·) rfl (sum_congr rfl fun z _ => ?_)
    rw [star_mul, mul_comm]
    rfl

theorem aREnv_step {ts us : List (NDArray R)} {D : List ℕ} {c d c' d' p : ℕ} {e T U : NDArray R}
    (h : AREnv ts us D d' c' e) (hT : T.shape = [d, p, d']) (hU : U.shape = [c, p, c']) :
    ∃ N, adaptAddR e T U = .ok N ∧ AREnv (T :: ts) (U :: us) (p :: D) d c N := by
  obtain ⟨N, h1, h2, h3⟩ := adaptAddR_ok h.shape hT hU
  have lT : T.IsLocal := by simp [NDArray.IsLocal, NDArray.ndim, hT]
  have lU : U.IsLocal := by simp [NDArray.IsLocal, NDArray.ndim, hU]
  have eT1 : T.lb = d := by simp [NDArray.lb, hT]
  have eU1 : U.lb = c := by simp [NDArray.lb, hU]
  have eT2 : T.rb = d' := by simp [NDArray.rb, hT]
  have eU2 : U.rb = c' := by simp [NDArray.rb, hU]
  refine ⟨N, h1, ⟨lT, eT1, eT2.symm ▸ h.ct⟩, ⟨lU, eU1, eU2.symm ▸ h.cu⟩, ?_, ?_, h2, ?_⟩
  · show T.ph :: physShape ts = _
    rw [h.st]; simp [NDArray.ph, hT, singles]
  · show U.ph :: physShape us = _
    rw [h.su]; simp [NDArray.ph, hU, singles]
  · intro a ha y hy
    rw [h3, sum_comm]
    refine Eq.trans (b := ∑ i ∈ range c', ∑ s ∈ range p, (∑ k ∈ range d',
      (∑ I ∈ idxSet D, mp ts (singles I) k 0 * star (mp us (singles I) i 0)) * T.get [a, s, k]) *
        star (U.get [y, s, i])) ?_ ?_
    · refine sum_congr rfl fun i hi => sum_congr rfl fun s _ => congrArg (· * _) (sum_congr rfl fun k hk => ?_)
      rw [h.val k (by simpa using hk) i (by simpa using hi), sumIdx_eq_sum]
    rw [envMps_exchange (idxSet D) d' c' p (fun I k => mp ts (singles I) k 0) (fun I i => star (mp us (singles I) i 0))
      (fun k s => T.get [a, s, k]) (fun i s => star (U.get [y, s, i]))]
    rw [sum_comm]
    simp only [sumIdx_cons]
    refine sum_congr rfl fun s _ => ?_
    rw [sumIdx_eq_sum]
    refine sum_congr rfl fun I hI => ?_
    show _ = mp (T :: ts) ([s] :: singles I) a 0 * star (mp (U :: us) ([s] :: singles I) y 0)
    simp only [mp_cons, star_sum, eT2, eU2]
    refine congrArg₂ (· * ·) (sum_congr rfl fun z _ => ?_) (sum_congr rfl fun z _ => ?_)
    · rw [mul_comm]; rfl
    · rw [star_mul]; rfl

theorem adaptBlock_ok {lv rv : NDArray R} {pre post upre um upost : List (NDArray R)} {P D Q : List ℕ} {c c' l r : ℕ}
    (hl : ALEnv pre upre P l c lv) (hr : AREnv post upost Q r c' rv) (hm : Chained c um c')
    (hsh : physShape um = singles D) (hne : um ≠ []) (hc : 0 < c) (hc' : 0 < c') :
    ∃ X, adaptBlock lv um rv = .ok X ∧ X.shape = l :: (D ++ [r]) ∧
      ∀ a < l, ∀ i, InB i D → ∀ b < r, X.get (a :: (i ++ [b]))
        = sumIdx P fun I₁ => sumIdx Q fun I₃ => star (mp pre (singles I₁) 0 a * mp post (singles I₃) b 0) *
          entry (upre ++ um ++ upost) (singles (I₁ ++ i ++ I₃)) := by
  obtain ⟨A, a1, a2⟩ := ltensToArray_ok hm hne
  have hAs : A.shape = c :: (D ++ [c']) := by
    rw [a2.1, hsh]; congr 2; exact singles_flatten' D
  have hlast : ∀ (x y : ℕ) (E : List ℕ), (x :: (E ++ [y])).getLastD 0 = y := by
    intro x y E
    rw [← List.cons_append, List.getLastD_eq_getLast?, List.getLast?_concat]; rfl
  have hre : A.reshape [(A.shape.headD 0 : ℤ), -1, (A.shape.getLastD 0 : ℤ)] = .ok (A.reshapeTo [c, D.prod, c']) := by
    rw [hAs, hlast]
    have := NDArray.reshape_infer (a := A) (s := [c]) (d := D.prod) (t := [c'])
      (by rw [hAs]; simp [mul_assoc]) (by simpa using ⟨hc, hc'⟩)
    simpa using this
  obtain ⟨M, hM⟩ : ∃ M, M = A.reshapeTo [c, D.prod, c'] := ⟨_, rfl⟩
  have hMs : M.shape = [c, D.prod, c'] := by rw [hM]; rfl
  have hMg : ∀ y < c, ∀ i, InB i D → ∀ z < c', M.get [y, ravelIdx D i, z] = mp um (singles i) y z := by
    intro y hy i hi z hz
    rw [hM]
    have := NDArray.reshapeTo_local (a := A) (l := c) (r := c') (x := y) (y := z) (p := D) (q := [D.prod])
      (i := [ravelIdx D i]) hAs (by simp) hy (by simpa using ravelIdx_lt hi) hz
    refine Eq.trans this ?_
    rw [ravelIdx_single, unravel_ravel hi]
    have e := a2.2 y hy z hz (singles i) (by rw [hsh]; exact singles_idxOK hi)
    rwa [show (singles i).flatten = i from singles_flatten' i] at e
  obtain ⟨l0, e1, i1⟩ := NamedArray.is_mk (a := lv) (names := [AdAx.comprLeft, .tgtLeft])
    (δ := fun n => match n with | .comprLeft => l | _ => c) hl.shape (by decide)
  obtain ⟨m0, e2, i2⟩ := NamedArray.is_mk (a := M) (names := [AdAx.tgtLeft, .tgtPhys, .tgtRight])
    (δ := fun n => match n with | .tgtLeft => c | .tgtPhys => D.prod | _ => c') hMs (by decide)
  obtain ⟨r0, e3, i3⟩ := NamedArray.is_mk (a := rv) (names := [AdAx.comprRight, .tgtRight])
    (δ := fun n => match n with | .comprRight => r | _ => c') hr.shape (by decide)
  obtain ⟨m1, e4, i4⟩ := i2.conj
  obtain ⟨z1, f1, j1⟩ := i1.tensordot i4 [(.tgtLeft, .tgtLeft)]
    (fun n => match n with | .comprLeft => l | .tgtPhys => D.prod | _ => c')
    [.comprLeft, .tgtPhys, .tgtRight] rfl (by simp) (by simp) (by simp) (by simp) (by simp) (by simp)
  obtain ⟨z2, f2, j2⟩ := j1.tensordot i3 [(.tgtRight, .tgtRight)]
    (fun n => match n with | .comprLeft => l | .tgtPhys => D.prod | _ => r)
    [.comprLeft, .tgtPhys, .comprRight] rfl (by simp) (by simp) (by simp) (by simp) (by simp) (by simp)
  obtain ⟨N, f3, f4, f5⟩ := j2.toArray (order := [.comprLeft, .tgtPhys, .comprRight]) (List.Perm.refl _)
  have hNs : N.shape = [l, D.prod, r] := f4
  have hNg : ∀ a < l, ∀ i, InB i D → ∀ b < r, N.get [a, ravelIdx D i, b]
      = ∑ z ∈ range c', (∑ y ∈ range c, lv.get [a, y] * star (mp um (singles i) y z)) * rv.get [b, z] := by
    intro a ha i hi b hb
    refine Eq.trans (f5 (fun n => match n with | .comprLeft => a | .tgtPhys => ravelIdx D i | _ => b)) ?_
    simp only [List.map_cons, List.map_nil, sumIdx_cons, sumIdx_nil]
    refine sum_congr rfl fun z hz => congrArg₂ (· * ·) (sum_congr rfl fun y hy => ?_) rfl
    rw [← hMg y (mem_range.1 hy) i hi z (mem_range.1 hz)]
    rfl
  have hCs : N.conj.shape = [l, D.prod, r] := hNs
  have hre2 : N.conj.reshape ((N.conj.shape.headD 0 : ℤ) :: (A.shape.tail.dropLast.map (fun d : ℕ => (d : ℤ)) ++
      [(N.conj.shape.getLastD 0 : ℤ)])) = .ok (N.conj.reshapeTo (l :: (D ++ [r]))) := by
    rw [hCs, hAs, List.tail_cons, List.dropLast_concat]
    have := NDArray.reshape_nat (a := N.conj) (s := l :: (D ++ [r])) (by rw [hCs]; simp)
    simpa using this
  refine ⟨N.conj.reshapeTo (l :: (D ++ [r])), ?_, rfl, ?_⟩
  · unfold adaptBlock
    simp only [a1, ok_bind, hre, ← hM, e1, e2, e3, e4, f1, f2, f3, hre2]
  · intro a ha i hi b hb
    have := NDArray.reshapeTo_local (a := N.conj) (l := l) (r := r) (x := a) (y := b) (p := [D.prod]) (q := D)
      (i := i) hCs (by simp) ha hi hb
    refine Eq.trans this ?_
    rw [unravelIdx_single]
    show star (N.get [a, ravelIdx D i, b]) = _
    rw [hNg a ha i hi b hb]
    have nP : upre.length = P.length := by
      have := congrArg List.length hl.su; rw [physShape_length, singles_length] at this; exact this
    have nD : um.length = D.length := by
      have := congrArg List.length hsh; rw [physShape_length, singles_length] at this; exact this
    refine Eq.trans (b := ∑ z ∈ range c', (∑ y ∈ range c, (∑ I ∈ idxSet P, mp upre (singles I) 0 y *
      star (mp pre (singles I) 0 a)) * mp um (singles i) y z) * ∑ I ∈ idxSet Q, mp upost (singles I) z 0 *
        star (mp post (singles I) b 0)) ?_ ?_
    · rw [star_sum]
      refine sum_congr rfl fun z hz => ?_
      rw [star_mul', star_sum, hr.val b hb z (mem_range.1 hz), star_sumIdx, sumIdx_eq_sum]
      refine congrArg₂ (· * ·) (sum_congr rfl fun y hy => ?_) (sum_congr rfl fun I _ => ?_)
      · rw [star_mul', star_star, hl.val a ha y (mem_range.1 hy), star_sumIdx, sumIdx_eq_sum]
        refine congrArg (· * _) (sum_congr rfl fun I _ => ?_)
        rw [star_mul', star_star, mul_comm]
      · rw [star_mul', star_star, mul_comm]
    rw [opMps_exchange (idxSet P) (idxSet Q) c c' (fun I => star (mp pre (singles I) 0 a)) (fun I => star (mp pre (singles I) 0 a))
      (fun I => star (mp post (singles I) b 0)) (fun I => star (mp post (singles I) b 0)) (fun I x => mp upre (singles I) 0 x)
      (fun x z => mp um (singles i) x z) (fun I z => mp upost (singles I) z 0)]
    simp only [sumIdx_eq_sum]
    refine sum_congr rfl fun I₁ hI₁ => sum_congr rfl fun I₃ _ => ?_
    have nI := inB_length (mem_idxSet.1 hI₁)
    have ni := inB_length hi
    rw [star_mul', mul_comm]
    refine congrArg₂ (· * ·) rfl ?_
    rw [entry, List.append_assoc upre, List.append_assoc I₁, singles_append, singles_append,
      mp_append hl.cu (by rw [singles_length]; omega) one_pos]
    refine sum_congr rfl fun x hx => ?_
    rw [mp_append hm (by rw [singles_length]; omega) (by simpa using hx)]

/-- The block tensor is the projection of the target: its overlap with any other block tensor is the overlap of the
corresponding vector with the target. -/
theorem block_proj {pre post : List (NDArray R)} {X Y : NDArray R} {l r : ℕ} {P D Q : List ℕ} {u : List ℕ → R}
    (h1 : Chained 1 pre l) (hP : physShape pre = singles P)
    (hY : Y.shape = l :: (D ++ [r]))
    (hX : ∀ a < l, ∀ i, InB i D → ∀ b < r, X.get (a :: (i ++ [b]))
      = sumIdx P fun I₁ => sumIdx Q fun I₃ => star (mp pre (singles I₁) 0 a * mp post (singles I₃) b 0) * u (I₁ ++ i ++ I₃)) :
    (sumIdx (P ++ D ++ Q) fun I => star (blockVec pre Y post P.length D.length I) * u I)
      = sumIdx (l :: (D ++ [r])) fun x => star (Y.get x) * X.get x := by
  have nP : pre.length = P.length := by
    have := congrArg List.length hP; rw [physShape_length, singles_length] at this; exact this
  have hb : ∀ I₁, InB I₁ P → ∀ i, InB i D → ∀ I₃, blockVec pre Y post P.length D.length (I₁ ++ i ++ I₃)
      = ∑ v ∈ range l ×ˢ range r, (mp pre (singles I₁) 0 v.1 * mp post (singles I₃) v.2 0) * Y.at3 v.1 i v.2 := by
    intro I₁ hI₁ i hi I₃
    have n1 := inB_length hI₁
    have n2 := inB_length hi
    rw [← center_entry h1 hY (by rw [singles_length]; omega), blockVec]
    congr 2
    · rw [List.append_assoc, ← n1, List.take_left]
    · rw [List.append_assoc, ← n1, List.drop_left, ← n2, List.take_left,
        show I₁.length + i.length = (I₁ ++ i).length by simp, ← List.append_assoc, List.drop_left]
  rw [sumIdx_append, sumIdx_append]
  have hL : (sumIdx P fun I₁ => sumIdx D fun i => sumIdx Q fun I₃ =>
        star (blockVec pre Y post P.length D.length (I₁ ++ i ++ I₃)) * u (I₁ ++ i ++ I₃))
      = ∑ I₁ ∈ idxSet P, ∑ i ∈ idxSet D, ∑ I₃ ∈ idxSet Q, ∑ v ∈ range l ×ˢ range r,
        star (Y.at3 v.1 i v.2) * (star (mp pre (singles I₁) 0 v.1 * mp post (singles I₃) v.2 0) * u (I₁ ++ i ++ I₃)) := by
    simp only [sumIdx_eq_sum]
    refine sum_congr rfl fun I₁ h1' => sum_congr rfl fun i hi => sum_congr rfl fun I₃ _ => ?_
    rw [hb I₁ (mem_idxSet.1 h1') i (mem_idxSet.1 hi) I₃, star_sum, sum_mul]
    refine sum_congr rfl fun v _ => ?_
    rw [star_mul']; ring
  have hR : (sumIdx (l :: (D ++ [r])) fun x => star (Y.get x) * X.get x)
      = ∑ a ∈ range l, ∑ i ∈ idxSet D, ∑ b ∈ range r, star (Y.at3 a i b) *
        ∑ I₁ ∈ idxSet P, ∑ I₃ ∈ idxSet Q, star (mp pre (singles I₁) 0 a * mp post (singles I₃) b 0) * u (I₁ ++ i ++ I₃) := by
    rw [sumIdx_cons]
    refine sum_congr rfl fun a ha => ?_
    rw [sumIdx_append, sumIdx_eq_sum]
    refine sum_congr rfl fun i hi => ?_
    rw [sumIdx_cons]
    refine sum_congr rfl fun b hb => ?_
    rw [sumIdx_nil, hX a (mem_range.1 ha) i (mem_idxSet.1 hi) b (mem_range.1 hb)]
    simp only [sumIdx_eq_sum]
    rfl
  rw [hL, hR]
  simp only [sum_product, mul_sum]
  rw [sum_comm]
  refine Eq.trans (sum_congr rfl fun i _ => ?_) sum_comm
  refine Eq.trans (sum_congr rfl fun I₁ _ => sum_comm) ?_
  rw [sum_comm]
  refine sum_congr rfl fun a _ => ?_
  refine Eq.trans (sum_congr rfl fun I₁ _ => sum_comm) sum_comm

end

end Mpnum
