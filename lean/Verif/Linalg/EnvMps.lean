import Verif.Linalg.EnvRight

/-! Left and right vectors and local operators of linalg.py for a projector given by an MPS. -/

open Finset

namespace Mpnum

variable {R : Type} [CommRing R] [StarRing R]

theorem eigLeftvecAddMps_ok {e P T : NDArray R} {c d c' d' p : ℕ} (he : e.shape = [c, d]) (hP : P.shape = [c, p, c'])
    (hT : T.shape = [d, p, d']) :
    ∃ N, eigLeftvecAddMps e P T = .ok N ∧ N.shape = [c', d'] ∧
      ∀ x y, N.get [x, y] = ∑ i ∈ range d, ∑ s ∈ range p, (∑ k ∈ range c, e.get [k, i] * star (P.get [k, s, x])) * T.get [i, s, y] := by
  obtain ⟨se, ge⟩ := e
  obtain ⟨sP, gP⟩ := P
  obtain ⟨sT, gT⟩ := T
  simp only at he hP hT
  subst he; subst hP; subst hT
  have h1 := NDArray.tensordot_ok (a := ⟨[c, d], ge⟩) (b := (NDArray.mk [c, p, c'] gP).conj) (axa := [0]) (axb := [0])
    (by simp [NDArray.ndim]) (by simp [NDArray.ndim, NDArray.conj]) (by simp [NDArray.conj]) (by simp) (by simp)
  obtain ⟨A, hA⟩ : ∃ A, A = NDArray.tensordotTo ⟨[c, d], ge⟩ (NDArray.mk [c, p, c'] gP).conj [0] [0] := ⟨_, rfl⟩
  have hs : A.shape = [d, p, c'] := by rw [hA]; rfl
  have hg : ∀ i s x, A.get [i, s, x] = ∑ k ∈ range c, ge [k, i] * star (gP [k, s, x]) := by intro i s x; rw [hA]; rfl
  rw [← hA] at h1
  clear hA
  obtain ⟨sA, gA⟩ := A
  simp only at hs hg
  subst hs
  have h2 := NDArray.tensordot_ok (a := ⟨[d, p, c'], gA⟩) (b := NDArray.mk [d, p, d'] gT) (axa := [0, 1]) (axb := [0, 1])
    (by simp [NDArray.ndim]) (by simp [NDArray.ndim]) (by simp) (by simp) (by simp)
  refine ⟨NDArray.tensordotTo ⟨[d, p, c'], gA⟩ (NDArray.mk [d, p, d'] gT) [0, 1] [0, 1], ?_, rfl, ?_⟩
  · unfold eigLeftvecAddMps
    have h1' : NDArray.tensordot ⟨[c, d], ge⟩ (NDArray.mk [c, p, c'] gP).conj [0] [0] = .ok ⟨[d, p, c'], gA⟩ := h1
    rw [h1', ok_bind]
    exact h2
  · intro x y
    refine Eq.trans (b := ∑ i ∈ range d, ∑ s ∈ range p, gA [i, s, x] * gT [i, s, y]) rfl ?_
    simp only [hg]

theorem eigRightvecAddMps_ok {e P T : NDArray R} {c d c' d' p : ℕ} (he : e.shape = [c', d']) (hP : P.shape = [c, p, c'])
    (hT : T.shape = [d, p, d']) :
    ∃ N, eigRightvecAddMps e P T = .ok N ∧ N.shape = [c, d] ∧
      ∀ x y, N.get [x, y] = ∑ i ∈ range d', ∑ s ∈ range p, (∑ k ∈ range c', e.get [k, i] * star (P.get [x, s, k])) * T.get [y, s, i] := by
  obtain ⟨se, ge⟩ := e
  obtain ⟨sP, gP⟩ := P
  obtain ⟨sT, gT⟩ := T
  simp only at he hP hT
  subst he; subst hP; subst hT
  have h1 := NDArray.tensordot_ok (a := ⟨[c', d'], ge⟩) (b := (NDArray.mk [c, p, c'] gP).conj) (axa := [0]) (axb := [2])
    (by simp [NDArray.ndim]) (by simp [NDArray.ndim, NDArray.conj]) (by simp [NDArray.conj]) (by simp) (by simp)
  obtain ⟨A, hA⟩ : ∃ A, A = NDArray.tensordotTo ⟨[c', d'], ge⟩ (NDArray.mk [c, p, c'] gP).conj [0] [2] := ⟨_, rfl⟩
  have hs : A.shape = [d', c, p] := by rw [hA]; rfl
  have hg : ∀ i x s, A.get [i, x, s] = ∑ k ∈ range c', ge [k, i] * star (gP [x, s, k]) := by intro i x s; rw [hA]; rfl
  rw [← hA] at h1
  clear hA
  obtain ⟨sA, gA⟩ := A
  simp only at hs hg
  subst hs
  have h2 := NDArray.tensordot_ok (a := ⟨[d', c, p], gA⟩) (b := NDArray.mk [d, p, d'] gT) (axa := [0, 2]) (axb := [2, 1])
    (by simp [NDArray.ndim]) (by simp [NDArray.ndim]) (by simp) (by simp) (by simp)
  refine ⟨NDArray.tensordotTo ⟨[d', c, p], gA⟩ (NDArray.mk [d, p, d'] gT) [0, 2] [2, 1], ?_, rfl, ?_⟩
  · unfold eigRightvecAddMps
    have h1' : NDArray.tensordot ⟨[c', d'], ge⟩ (NDArray.mk [c, p, c'] gP).conj [0] [2] = .ok ⟨[d', c, p], gA⟩ := h1
    rw [h1', ok_bind]
    exact h2
  · intro x y
    refine Eq.trans (b := ∑ i ∈ range d', ∑ s ∈ range p, gA [i, x, s] * gT [y, s, i]) rfl ?_
    simp only [hg]

theorem envMps_exchange {κ : Type} (K : Finset κ) (c d p : ℕ) (A B : κ → ℕ → R) (P T : ℕ → ℕ → R) :
    (∑ i ∈ range d, ∑ s ∈ range p, (∑ x ∈ range c, (∑ k ∈ K, A k x * B k i) * P x s) * T i s)
      = ∑ k ∈ K, ∑ s ∈ range p, (∑ x ∈ range c, A k x * P x s) * ∑ i ∈ range d, B k i * T i s := by
  have h1 : ∀ i s, (∑ x ∈ range c, (∑ k ∈ K, A k x * B k i) * P x s) * T i s
      = ∑ k ∈ K, (∑ x ∈ range c, A k x * P x s) * (B k i * T i s) := by
    intro i s
    simp only [sum_mul]
    rw [sum_comm]
    refine sum_congr rfl fun k _ => sum_congr rfl fun x _ => ?_
    ring
  simp only [h1, mul_sum _ _ (∑ x ∈ range c, A _ x * P x _)]
  rw [sum_comm]
  refine Eq.trans (sum_congr rfl fun s _ => sum_comm) ?_
  exact sum_comm

/-- Specification of the left vector for the projector onto an MPS `ps`. -/
structure LEnvMps (ps ts : List (NDArray R)) (D : List ℕ) (c d : ℕ) (e : NDArray R) : Prop where
  cp : Chained 1 ps c
  ct : Chained 1 ts d
  sp : physShape ps = singles D
  st : physShape ts = singles D
  shape : e.shape = [c, d]
  val : ∀ x < c, ∀ a < d, e.get [x, a] = sumIdx D fun I => star (mp ps (singles I) 0 x) * mp ts (singles I) 0 a

/-- Specification of the right vector for the projector onto an MPS `ps`. -/
structure REnvMps (ps ts : List (NDArray R)) (D : List ℕ) (c d : ℕ) (e : NDArray R) : Prop where
  cp : Chained c ps 1
  ct : Chained d ts 1
  sp : physShape ps = singles D
  st : physShape ts = singles D
  shape : e.shape = [c, d]
  val : ∀ x < c, ∀ a < d, e.get [x, a] = sumIdx D fun I => star (mp ps (singles I) x 0) * mp ts (singles I) a 0

theorem lEnvMps_nil : LEnvMps (R := R) [] [] [] 1 1 (onesNd 2) := by
  refine ⟨rfl, rfl, rfl, rfl, rfl, ?_⟩
  intro a ha y hy
  obtain rfl : a = 0 := by omega
  obtain rfl : y = 0 := by omega
  simp [onesNd]

theorem rEnvMps_nil : REnvMps (R := R) [] [] [] 1 1 (onesNd 2) := by
  refine ⟨rfl, rfl, rfl, rfl, rfl, ?_⟩
  intro a ha y hy
  obtain rfl : a = 0 := by omega
  obtain rfl : y = 0 := by omega
  simp [onesNd]

theorem lEnvMps_step {ps ts : List (NDArray R)} {D : List ℕ} {c d c' d' p : ℕ} {e W T : NDArray R}
    (h : LEnvMps ps ts D c d e) (hW : W.shape = [c, p, c']) (hT : T.shape = [d, p, d']) :
    ∃ N, eigLeftvecAddMps e W T = .ok N ∧ LEnvMps (ps ++ [W]) (ts ++ [T]) (D ++ [p]) c' d' N := by
  obtain ⟨N, h1, h2, h3⟩ := eigLeftvecAddMps_ok h.shape hW hT
  have lW : W.IsLocal := by simp [NDArray.IsLocal, NDArray.ndim, hW]
  have lT : T.IsLocal := by simp [NDArray.IsLocal, NDArray.ndim, hT]
  have eW1 : W.lb = c := by simp [NDArray.lb, hW]
  have eT1 : T.lb = d := by simp [NDArray.lb, hT]
  have eW2 : W.rb = c' := by simp [NDArray.rb, hW]
  have eT2 : T.rb = d' := by simp [NDArray.rb, hT]
  have nW : ps.length = D.length := by
    have := congrArg List.length h.sp; rw [physShape_length, singles_length] at this; exact this
  have nT : ts.length = D.length := by
    have := congrArg List.length h.st; rw [physShape_length, singles_length] at this; exact this
  have cw : Chained 1 ps W.lb := eW1 ▸ h.cp
  have ct : Chained 1 ts T.lb := eT1 ▸ h.ct
  refine ⟨N, h1, eW2 ▸ chained_step cw lW, eT2 ▸ chained_step ct lT, ?_, ?_, h2, ?_⟩
  · rw [physShape_concat, h.sp, singles_append]; simp [NDArray.ph, hW, singles]
  · rw [physShape_concat, h.st, singles_append]; simp [NDArray.ph, hT, singles]
  · intro x hx y hy
    rw [h3]
    refine Eq.trans (b := ∑ i ∈ range d, ∑ s ∈ range p, (∑ k ∈ range c,
      (∑ I ∈ idxSet D, star (mp ps (singles I) 0 k) * mp ts (singles I) 0 i) * star (W.get [k, s, x])) * T.get [i, s, y]) ?_ ?_
    · refine sum_congr rfl fun i hi => sum_congr rfl fun s _ => congrArg (· * _) (sum_congr rfl fun k hk => ?_)
      rw [h.val k (by simpa using hk) i (by simpa using hi), sumIdx_eq_sum]
    rw [envMps_exchange (idxSet D) c d p (fun I k => star (mp ps (singles I) 0 k)) (fun I i => mp ts (singles I) 0 i)
      (fun k s => star (W.get [k, s, x])) (fun i s => T.get [i, s, y])]
    simp only [sumIdx_append, sumIdx_cons, sumIdx_nil]
    rw [sumIdx_eq_sum]
    refine sum_congr rfl fun I hI => sum_congr rfl fun s _ => ?_
    have hI' := inB_length (mem_idxSet.1 hI)
    rw [singles_append, show singles [s] = [[s]] from rfl,
      mp_concat ct (by rw [singles_length]; omega) one_pos (by omega),
      mp_concat cw (by rw [singles_length]; omega) one_pos (by omega), star_sum, eW1, eT1]
    refine congrArg₂ (· * ·) (sum_congr rfl fun z _ => ?_) rfl
    rw [star_mul, mul_comm]
    rfl

theorem rEnvMps_step {ps ts : List (NDArray R)} {D : List ℕ} {c d c' d' p : ℕ} {e W T : NDArray R}
    (h : REnvMps ps ts D c' d' e) (hW : W.shape = [c, p, c']) (hT : T.shape = [d, p, d']) :
    ∃ N, eigRightvecAddMps e W T = .ok N ∧ REnvMps (W :: ps) (T :: ts) (p :: D) c d N := by
  obtain ⟨N, h1, h2, h3⟩ := eigRightvecAddMps_ok h.shape hW hT
  have lW : W.IsLocal := by simp [NDArray.IsLocal, NDArray.ndim, hW]
  have lT : T.IsLocal := by simp [NDArray.IsLocal, NDArray.ndim, hT]
  have eW1 : W.lb = c := by simp [NDArray.lb, hW]
  have eT1 : T.lb = d := by simp [NDArray.lb, hT]
  have eW2 : W.rb = c' := by simp [NDArray.rb, hW]
  have eT2 : T.rb = d' := by simp [NDArray.rb, hT]
  refine ⟨N, h1, ⟨lW, eW1, eW2.symm ▸ h.cp⟩, ⟨lT, eT1, eT2.symm ▸ h.ct⟩, ?_, ?_, h2, ?_⟩
  · show W.ph :: physShape ps = _
    rw [h.sp]; simp [NDArray.ph, hW, singles]
  · show T.ph :: physShape ts = _
    rw [h.st]; simp [NDArray.ph, hT, singles]
  · intro x hx y hy
    rw [h3]
    refine Eq.trans (b := ∑ i ∈ range d', ∑ s ∈ range p, (∑ k ∈ range c',
      (∑ I ∈ idxSet D, star (mp ps (singles I) k 0) * mp ts (singles I) i 0) * star (W.get [x, s, k])) * T.get [y, s, i]) ?_ ?_
    · refine sum_congr rfl fun i hi => sum_congr rfl fun s _ => congrArg (· * _) (sum_congr rfl fun k hk => ?_)
      rw [h.val k (by simpa using hk) i (by simpa using hi), sumIdx_eq_sum]
    rw [envMps_exchange (idxSet D) c' d' p (fun I k => star (mp ps (singles I) k 0)) (fun I i => mp ts (singles I) i 0)
      (fun k s => star (W.get [x, s, k])) (fun i s => T.get [y, s, i])]
    simp only [sumIdx_cons]
    rw [sum_comm]
    refine sum_congr rfl fun s _ => ?_
    rw [sumIdx_eq_sum]
    refine sum_congr rfl fun I hI => ?_
    rw [show singles (s :: I) = [s] :: singles I from rfl, mp_cons, mp_cons, star_sum, eW2, eT2]
    refine congrArg₂ (· * ·) (sum_congr rfl fun z _ => ?_) (sum_congr rfl fun z _ => mul_comm _ _)
    rw [star_mul]
    rfl

/-- One step of the loop of `_eig_local_op_mps`. -/
theorem eigLocalOpMpsStep_ok {op lt : NDArray R} {d m c p c' : ℕ} (ho : op.shape = [d, m, c]) (hl : lt.shape = [c, p, c'])
    (hd : 0 < d) (hc : 0 < c') :
    ∃ N, eigLocalOpMpsStep op lt = .ok N ∧ N.shape = [d, m * p, c'] ∧
      ∀ a < d, ∀ n < m, ∀ s < p, ∀ z < c', N.get [a, n * p + s, z] = ∑ x ∈ range c, op.get [a, n, x] * star (lt.get [x, s, z]) := by
  obtain ⟨so, go⟩ := op
  obtain ⟨sl, gl⟩ := lt
  simp only at ho hl
  subst ho; subst hl
  have h1 := NDArray.tensordot_ok (a := ⟨[d, m, c], go⟩) (b := (NDArray.mk [c, p, c'] gl).conj) (axa := [2]) (axb := [0])
    (by simp [NDArray.ndim]) (by simp [NDArray.ndim, NDArray.conj]) (by simp [NDArray.conj]) (by simp) (by simp)
  obtain ⟨A, hA⟩ : ∃ A, A = NDArray.tensordotTo ⟨[d, m, c], go⟩ (NDArray.mk [c, p, c'] gl).conj [2] [0] := ⟨_, rfl⟩
  have hs : A.shape = [d, m, p, c'] := by rw [hA]; rfl
  have hg : ∀ i n s x, A.get [i, n, s, x] = ∑ k ∈ range c, go [i, n, k] * star (gl [k, s, x]) := by
    intro i n s x; rw [hA]; rfl
  rw [← hA] at h1
  clear hA
  have h2 : A.reshape [(A.shape.getD 0 0 : ℤ), -1, (A.shape.getD 3 0 : ℤ)] = .ok (A.reshapeTo [d, m * p, c']) := by
    have := NDArray.reshape_infer (a := A) (s := [d]) (d := m * p) (t := [c']) (by rw [hs]; simp; ring)
      (by simp; exact ⟨hd, hc⟩)
    rw [hs]
    simpa using this
  refine ⟨A.reshapeTo [d, m * p, c'], ?_, rfl, ?_⟩
  · unfold eigLocalOpMpsStep
    have h1' : NDArray.tensordot ⟨[d, m, c], go⟩ (NDArray.mk [c, p, c'] gl).conj [2] [0] = .ok A := h1
    rw [h1', ok_bind, h2]
  · intro a ha n hn s hs' z hz
    have hlt : n * p + s < m * p := by
      calc n * p + s < n * p + p := by omega
        _ = (n + 1) * p := by ring
        _ ≤ m * p := Nat.mul_le_mul_right _ hn
    have := NDArray.reshapeTo_local (a := A) (l := d) (r := c') (x := a) (y := z) (p := [m, p]) (q := [m * p])
      (i := [n * p + s]) (by rw [hs]; rfl) (by simp) ha (by simpa using hlt) hz
    refine Eq.trans this ?_
    rw [ravelIdx_single]
    have hp : 0 < p := by omega
    have e1 : (n * p + s) / p = n := by
      rw [Nat.add_comm, Nat.add_mul_div_right _ _ hp, Nat.div_eq_of_lt hs', Nat.zero_add]
    have e2 : (n * p + s) % p = s := by rw [Nat.add_comm, Nat.add_mul_mod_self_right, Nat.mod_eq_of_lt hs']
    simp only [unravelIdx_cons, unravelIdx_nil, List.prod_cons, List.prod_nil, mul_one, e1, e2, Nat.div_one]
    exact hg a n s z

theorem localOpMps_fold : ∀ (ltens : List (NDArray R)) {op : NDArray R} {d m c c' : ℕ} {D : List ℕ}
    (_ : op.shape = [d, m, c]) (_ : Chained c ltens c') (_ : physShape ltens = singles D) (_ : 0 < d)
    (_ : ∀ t ∈ ltens, 0 < t.rb),
    ∃ N, ltens.foldlM eigLocalOpMpsStep op = .ok N ∧ N.shape = [d, m * D.prod, c'] ∧
      ∀ a < d, ∀ n < m, ∀ i, InB i D → ∀ z < c', N.get [a, n * D.prod + ravelIdx D i, z]
        = ∑ x ∈ range c, op.get [a, n, x] * star (mp ltens (singles i) x z)
  | [], op, d, m, c, c', D, ho, hch, hsh, hd, hp => by
    have hD : D = [] := by
      cases D with
      | nil => rfl
      | cons _ _ => exact absurd hsh (by simp [physShape, singles])
    subst hD
    have hcc : c = c' := hch
    subst hcc
    refine ⟨op, rfl, by simpa using ho, ?_⟩
    intro a ha n hn i hi z hz
    have : i = [] := by cases hi; rfl
    subst this
    simp only [List.prod_nil, mul_one, ravelIdx_nil, add_zero, mp_nil]
    rw [sum_eq_single z]
    · simp
    · intro x _ hx; simp [hx]
    · intro h; exact absurd (by simpa using hz) h
  | t :: ts, op, d, m, c, c', D, ho, hch, hsh, hd, hp => by
    obtain ⟨hl, hlb, hch'⟩ := hch
    cases D with
    | nil => exact absurd hsh (by simp [physShape, singles])
    | cons p D =>
    have hsh' : t.ph = [p] ∧ physShape ts = singles D := by simpa [physShape, singles] using hsh
    have ht : t.shape = [c, p, t.rb] := by
      have := NDArray.shape_local hl
      rw [this, hlb, hsh'.1]; rfl
    obtain ⟨N1, h1, h2, h3⟩ := eigLocalOpMpsStep_ok ho ht hd (hp t (by simp))
    obtain ⟨N, g1, g2, g3⟩ := localOpMps_fold ts h2 hch' hsh'.2 hd (fun u hu => hp u (by simp [hu]))
    refine ⟨N, ?_, by rw [g2]; simp [mul_assoc], ?_⟩
    · rw [List.foldlM_cons, h1]; exact g1
    · intro a ha n hn i hi z hz
      cases hi with
      | cons hs hi' =>
      rename_i s i
      have hlt : n * p + s < m * p := by
        calc n * p + s < n * p + p := by omega
          _ = (n + 1) * p := by ring
          _ ≤ m * p := Nat.mul_le_mul_right _ hn
      have := g3 a ha (n * p + s) hlt i hi' z hz
      rw [ravelIdx_cons, List.prod_cons, show n * (p * D.prod) + (s * D.prod + ravelIdx D i)
        = (n * p + s) * D.prod + ravelIdx D i by ring, this]
      rw [show singles (s :: i) = [s] :: singles i from rfl]
      have e : ∀ y ∈ range t.rb, N1.get [a, n * p + s, y] * star (mp ts (singles i) y z)
          = ∑ x ∈ range c, op.get [a, n, x] * star (t.get [x, s, y] * mp ts (singles i) y z) := by
        intro y hy
        rw [h3 a ha n hn s hs y (by simpa using hy), sum_mul]
        refine sum_congr rfl fun x _ => ?_
        rw [star_mul']; ring
      rw [sum_congr rfl e, sum_comm]
      refine sum_congr rfl fun x _ => ?_
      rw [mp_cons, star_sum, mul_sum]
      rfl

theorem opMps_exchange {κ μ : Type} (K : Finset κ) (K' : Finset μ) (c c' : ℕ) (α α' : κ → R) (β β' : μ → R)
    (A : κ → ℕ → R) (M : ℕ → ℕ → R) (B : μ → ℕ → R) :
    (∑ z ∈ range c', (∑ x ∈ range c, (∑ k ∈ K, A k x * α k) * M x z) * ∑ m ∈ K', B m z * β m)
      = ∑ k ∈ K, ∑ m ∈ K', (∑ x ∈ range c, A k x * ∑ z ∈ range c', M x z * B m z) * (α k * β m) := by
  have := op_exchange K K' c c' (fun _ => 1) α A M (fun _ => 1) β B
  simp only [one_mul, mul_one] at this
  rw [this]
  refine sum_congr rfl fun k _ => sum_congr rfl fun m _ => ?_
  ring

/-- The overlap vector formed by `_eig_local_op_mps` before the outer product. -/
theorem eigLocalOpMps_isLocalOp {pp pm pq pre post : List (NDArray R)} {P D Q : List ℕ} {c c' l r : ℕ} {lv rv : NDArray R}
    (hl : LEnvMps pp pre P c l lv) (hr : REnvMps pq post Q c' r rv) (hm : Chained c pm c')
    (hsh : physShape pm = singles D) (hpos : 0 < l) (hp : ∀ t ∈ pm, 0 < t.rb) :
    ∃ op, eigLocalOpMps lv pm rv = .ok op ∧
      IsLocalOp (fun I J => entry (pp ++ pm ++ pq) (singles I) * star (entry (pp ++ pm ++ pq) (singles J)))
        P D Q pre post l r op := by
  obtain ⟨t1, t2⟩ := T2 hl.shape
  have h0 : lv.T.reshape [(lv.T.shape.getD 0 0 : ℤ), 1, (lv.T.shape.getD 1 0 : ℤ)] = .ok (lv.T.reshapeTo [l, 1, c]) := by
    rw [t1]
    exact NDArray.reshape_nat (a := lv.T) (s := [l, 1, c]) (by rw [t1]; simp)
  have h0g : ∀ a < l, ∀ x < c, (lv.T.reshapeTo [l, 1, c]).get [a, 0, x] = lv.get [x, a] := by
    intro a ha x hx
    have := NDArray.reshapeTo_local (a := lv.T) (l := l) (r := c) (x := a) (y := x) (p := []) (q := [1]) (i := [0])
      (by rw [t1]; rfl) (by simp) ha (by simp) hx
    refine Eq.trans this ?_
    exact t2 x a
  obtain ⟨N, h1, h2, h3⟩ := localOpMps_fold pm (op := lv.T.reshapeTo [l, 1, c]) rfl hm hsh hpos hp
  rw [one_mul] at h2
  have hN : ∀ a < l, ∀ i, InB i D → ∀ z < c', N.get [a, ravelIdx D i, z]
      = ∑ x ∈ range c, lv.get [x, a] * star (mp pm (singles i) x z) := by
    intro a ha i hi z hz
    have := h3 a ha 0 one_pos i hi z hz
    rw [zero_mul, zero_add] at this
    rw [this]
    exact sum_congr rfl fun x hx => by rw [h0g a ha x (by simpa using hx)]
  have h4 : ∃ V, N.tensordot rv [2] [0] = .ok V ∧ V.shape = [l, D.prod, r] ∧
      ∀ a n b, V.get [a, n, b] = ∑ z ∈ range c', N.get [a, n, z] * rv.get [z, b] := by
    obtain ⟨sN, gN⟩ := N
    obtain ⟨sr, gr⟩ := rv
    have hs1 : sN = [l, D.prod, c'] := h2
    have hs2 : sr = [c', r] := hr.shape
    subst hs1; subst hs2
    exact ⟨_, NDArray.tensordot_ok (axa := [2]) (axb := [0]) (by simp [NDArray.ndim]) (by simp [NDArray.ndim]) (by simp)
      (by simp) (by simp), rfl, fun _ _ _ => rfl⟩
  obtain ⟨V, k1, k2, k3⟩ := h4
  have nP : pp.length = P.length := by
    have := congrArg List.length hl.sp; rw [physShape_length, singles_length] at this; exact this
  have nD : pm.length = D.length := by
    have := congrArg List.length hsh; rw [physShape_length, singles_length] at this; exact this
  have hV : ∀ a < l, ∀ i, InB i D → ∀ b < r, V.get [a, ravelIdx D i, b]
      = sumIdx P fun I₁ => sumIdx Q fun I₃ => star (entry (pp ++ pm ++ pq) (singles (I₁ ++ i ++ I₃)))
          * (mp pre (singles I₁) 0 a * mp post (singles I₃) b 0) := by
    intro a ha i hi b hb
    rw [k3]
    refine Eq.trans (b := ∑ z ∈ range c', (∑ x ∈ range c, (∑ I ∈ idxSet P, star (mp pp (singles I) 0 x) * mp pre (singles I) 0 a)
      * star (mp pm (singles i) x z)) * ∑ I ∈ idxSet Q, star (mp pq (singles I) z 0) * mp post (singles I) b 0) ?_ ?_
    · refine sum_congr rfl fun z hz => ?_
      rw [hN a ha i hi z (by simpa using hz), hr.val z (by simpa using hz) b hb, sumIdx_eq_sum]
      refine congrArg (· * _) (sum_congr rfl fun x hx => ?_)
      rw [hl.val x (by simpa using hx) a ha, sumIdx_eq_sum]
    rw [opMps_exchange (idxSet P) (idxSet Q) c c' (fun I => mp pre (singles I) 0 a) (fun I => mp pre (singles I) 0 a)
      (fun I => mp post (singles I) b 0) (fun I => mp post (singles I) b 0) (fun I x => star (mp pp (singles I) 0 x))
      (fun x z => star (mp pm (singles i) x z)) (fun I z => star (mp pq (singles I) z 0))]
    simp only [sumIdx_eq_sum]
    refine sum_congr rfl fun I₁ hI₁ => sum_congr rfl fun I₃ _ => congrArg (· * _) ?_
    have nI := inB_length (mem_idxSet.1 hI₁)
    have ni := inB_length hi
    rw [entry, List.append_assoc pp, List.append_assoc I₁, singles_append, singles_append,
      mp_append hl.cp (by rw [singles_length]; omega) one_pos, star_sum]
    refine sum_congr rfl fun x hx => ?_
    rw [star_mul', mp_append hm (by rw [singles_length]; omega) (by simpa using hx), star_sum]
    refine congrArg (_ * ·) (sum_congr rfl fun z _ => ?_)
    rw [star_mul']
  have hpr : (l :: (D ++ [r])).prod = [l, D.prod, r].prod := by simp
  refine ⟨outerConj V, ?_, ?_, ?_⟩
  · unfold eigLocalOpMps
    simp only [h0, ok_bind, h1, k1]
    rfl
  · show [V.shape.prod, V.shape.prod] = _
    rw [k2, hpr]
  · intro a' ha' i hi b' hb' a ha j hj b hb
    have rr : ∀ a < l, ∀ b < r, ∀ K, InB K D → unravelIdx V.shape (ravelIdx (l :: (D ++ [r])) (a :: (K ++ [b])))
        = [a, ravelIdx D K, b] := by
      intro a ha b hb K hK
      rw [k2, show ravelIdx (l :: (D ++ [r])) (a :: (K ++ [b])) = ravelIdx [l, D.prod, r] [a, ravelIdx D K, b] by
        have := ravelIdx_append (s := D) (t := [r]) (i := K) (j := [b]) (inB_length hK)
        simp [ravelIdx, this]]
      exact unravel_ravel (by simpa using ⟨ha, ravelIdx_lt hK, hb⟩)
    show star (V.get (unravelIdx V.shape _)) * V.get (unravelIdx V.shape _) = _
    simp only [List.getD_cons_zero, List.getD_cons_succ]
    rw [rr a' ha' b' hb' i hi, rr a ha b hb j hj, hV a' ha' i hi b' hb', hV a ha j hj b hb]
    unfold opSpec
    rw [star_sumIdx, sumIdx_mul]
    refine sumIdx_congr fun I₁ _ => ?_
    rw [star_sumIdx, sumIdx_mul]
    refine sumIdx_congr fun I₃ _ => ?_
    rw [mul_sumIdx]
    refine sumIdx_congr fun J₁ _ => ?_
    rw [mul_sumIdx]
    refine sumIdx_congr fun J₃ _ => ?_
    rw [star_mul', star_star]
    ring

end Mpnum
