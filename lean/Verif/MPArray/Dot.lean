import Verif.MPArray.ToArray
import Verif.Valid

/-!
# Model of `_local_dot`, `dot`, `inner`, `localouter`, `partialdot` (/repo/mpnum/mparray.py)
-/

open Finset

namespace Mpnum

variable {R : Type}

/-- `_local_dot` (mparray.py:1805-1831).  `axes` are the legs of the full local tensors; one
integer per side is modelled as a one-element list (the code does the same computation in both
cases). -/
def localDot [AddCommMonoid R] [Mul R] (l r : NDArray R) (axes : List ℤ × List ℤ) :
    Py (NDArray R) := do
  let clegsL := axes.1.length
  let clegsR := axes.2.length
  pyAssert (clegsL = clegsR)
  let res ← l.tensordot r axes.1 axes.2
  let res ← res.rollaxis (l.ndim - clegsL) 1
  let res ← res.rollaxis (l.ndim - clegsL) (l.ndim + r.ndim - clegsL - clegsR - 1)
  res.reshape ((l.lb * r.lb :: ((res.shape.drop 2).take (res.ndim - 4) ++ [l.rb * r.rb])).map
    fun n : ℕ => (n : ℤ))

/-- Translation of physical leg numbers to legs of the local tensors, mparray.py:1142-1147. -/
def adaptAxis (ax : ℤ) : ℤ := if ax ≥ 0 then ax + 1 else ax - 1

/-- `[f(l, r) for l, r in zip(ls, rs)]` for a function that may raise. -/
def zipM {α β γ : Type} (f : α → β → Py γ) : List α → List β → Py (List γ)
  | a :: as, b :: bs => do
    let c ← f a b
    let cs ← zipM f as bs
    return c :: cs
  | _, _ => .ok []

/-- `dot` (mparray.py:1118-1153) -/
def dot [AddCommMonoid R] [Mul R] (x y : MPA R) (axes : List ℤ × List ℤ) : Py (MPA R) := do
  pyAssert (x.len = y.len)
  let ltens ← zipM (fun l r => localDot l r (axes.1.map adaptAxis, axes.2.map adaptAxis)) x.lt y.lt
  mkMPA ltens

/-- `_local_reshape` (mparray.py:1877-1886) -/
def localReshape (t : NDArray R) (s : List ℤ) : Py (NDArray R) :=
  t.reshape ((t.lb : ℤ) :: (s ++ [(t.rb : ℤ)]))

/-- `_local_ravel` (mparray.py:1864-1874) -/
def localRavel (t : NDArray R) : Py (NDArray R) := localReshape t [-1]

/-- `inner` (mparray.py:1237-1253) -/
def inner [AddCommMonoid R] [Mul R] [Star R] (x y : MPA R) : Py R := do
  pyAssert (x.len = y.len)
  let ltens ← zipM (fun l r => do
    let l' ← localRavel l
    let r' ← localRavel r
    localDot l'.conj r' ([1], [1])) x.lt y.lt
  let a ← ltensToArray ltens
  let b ← a.dropBonds
  return b.get []

/-- `t[:, None]` -/
def insertLeg (t : NDArray R) : NDArray R :=
  ⟨t.shape.take 1 ++ 1 :: t.shape.drop 1, fun i => t.get (i.take 1 ++ i.drop 2)⟩

/-- `localouter` (mparray.py:1400-1413) -/
def localouter [AddCommMonoid R] [Mul R] (x y : MPA R) : Py (MPA R) := do
  pyAssert (x.len = y.len)
  let ltens ← zipM (fun l r => localDot (insertLeg l) (insertLeg r) ([1], [1])) x.lt y.lt
  mkMPA ltens

/-! ### chains of products of local tensors -/

/-- Data of one site of a product of two chains: contracted shape `K`, free shapes `SL`, `SR`, and
the physical indices `F k f`, `G k f` of both factors in terms of the contracted and free
indices. -/
structure PSite (R : Type) where
  l : NDArray R
  r : NDArray R
  z : NDArray R
  K : List ℕ
  SL : List ℕ
  SR : List ℕ
  F : List ℕ → List ℕ → List ℕ
  G : List ℕ → List ℕ → List ℕ

/-- `z` is the product of `l` and `r`: both virtual legs are merged row-major. -/
def PSite.OK [Semiring R] (s : PSite R) : Prop :=
  s.z.shape = (s.l.lb * s.r.lb) :: ((s.SL ++ s.SR) ++ [s.l.rb * s.r.rb]) ∧
  ∀ a < s.l.lb, ∀ a' < s.r.lb, ∀ b < s.l.rb, ∀ b' < s.r.rb, ∀ f g, InB f s.SL → InB g s.SR →
    s.z.at3 (a * s.r.lb + a') (f ++ g) (b * s.r.rb + b')
      = sumIdx s.K fun k => s.l.at3 a (s.F k f) b * s.r.at3 a' (s.G k g) b'

/-- Indices of the factors of a product of chains. -/
def pidx (F : PSite R → List ℕ → List ℕ → List ℕ) :
    List (PSite R) → List (List ℕ) → List (List ℕ) → List (List ℕ)
  | s :: ss, k :: ks, f :: fs => F s k f :: pidx F ss ks fs
  | _, _, _ => []

theorem mp_prod [CommSemiring R] {ss : List (PSite R)} (hok : ∀ s ∈ ss, s.OK)
    {lL lR rL rR : ℕ} (hL : Chained lL (ss.map PSite.l) rL) (hR : Chained lR (ss.map PSite.r) rR)
    {fs gs : List (List ℕ)} (hf : IdxOK fs (ss.map PSite.SL)) (hg : IdxOK gs (ss.map PSite.SR))
    {a a' b b' : ℕ} (ha : a < lL) (ha' : a' < lR) (hb : b < rL) (hb' : b' < rR) :
    mp (ss.map PSite.z) (List.zipWith (· ++ ·) fs gs) (a * lR + a') (b * rR + b')
      = sumSites (ss.map PSite.K) fun ks =>
          mp (ss.map PSite.l) (pidx PSite.F ss ks fs) a b *
          mp (ss.map PSite.r) (pidx PSite.G ss ks gs) a' b' := by
  induction ss generalizing lL lR fs gs a a' with
  | nil =>
    simp only [List.map_nil, Chained] at hL hR
    subst hL hR
    simp only [List.map_nil, mp, sumSites]
    by_cases h1 : a = b
    · subst h1
      by_cases h2 : a' = b'
      · simp [h2]
      · rw [if_neg (by omega), if_neg h2]; simp
    · rw [if_neg h1, if_neg]
      · simp
      · intro h
        apply h1
        have : (a * lR + a') / lR = (b * lR + b') / lR := by rw [h]
        have hp : 0 < lR := by omega
        rw [show a * lR + a' = a' + lR * a by ring, show b * lR + b' = b' + lR * b by ring,
          Nat.add_mul_div_left _ _ hp, Nat.add_mul_div_left _ _ hp, Nat.div_eq_of_lt ha',
          Nat.div_eq_of_lt hb'] at this
        omega
  | cons s ss ih =>
    cases hf with
    | @cons f _ fs _ hf hfs =>
    cases hg with
    | @cons g _ gs _ hg hgs =>
    obtain ⟨hL1, hL2, hL3⟩ := hL
    obtain ⟨hR1, hR2, hR3⟩ := hR
    subst hL2 hR2
    obtain ⟨hs, hget⟩ := hok s (by simp)
    simp only [List.map_cons, List.zipWith_cons_cons, mp_cons, NDArray.rb_of_shape hs]
    rw [sum_range_mul]
    have step : ∀ c ∈ range s.l.rb, ∀ c' ∈ range s.r.rb,
        s.z.at3 (a * s.r.lb + a') (f ++ g) (c * s.r.rb + c') *
          mp (ss.map PSite.z) (List.zipWith (· ++ ·) fs gs) (c * s.r.rb + c') (b * rR + b')
        = sumIdx s.K fun k => sumSites (ss.map PSite.K) fun ks =>
          (s.l.at3 a (s.F k f) c * mp (ss.map PSite.l) (pidx PSite.F ss ks fs) c b) *
          (s.r.at3 a' (s.G k g) c' * mp (ss.map PSite.r) (pidx PSite.G ss ks gs) c' b') := by
      intro c hc c' hc'
      have hc : c < s.l.rb := by simpa using hc
      have hc' : c' < s.r.rb := by simpa using hc'
      rw [hget a ha a' ha' c hc c' hc' f g hf hg,
        ih (fun s hs => hok s (by simp [hs])) hL3 hR3 hfs hgs hc hc', sumIdx_mul]
      refine sumIdx_congr fun k _ => ?_
      rw [mul_sumSites]
      refine sumSites_congr fun ks _ => ?_
      ring
    rw [Finset.sum_congr rfl fun c hc => Finset.sum_congr rfl fun c' hc' => step c hc c' hc']
    simp only [sumSites, ← sumIdx_sum_comm, ← sumSites_sum_comm]
    refine sumIdx_congr fun k _ => sumSites_congr fun ks _ => ?_
    simp only [pidx, mp_cons, Finset.sum_mul_sum]

theorem chained_prod [CommSemiring R] {ss : List (PSite R)} (hok : ∀ s ∈ ss, s.OK)
    {lL lR rL rR : ℕ} (hL : Chained lL (ss.map PSite.l) rL) (hR : Chained lR (ss.map PSite.r) rR) :
    Chained (lL * lR) (ss.map PSite.z) (rL * rR) ∧
      physShape (ss.map PSite.z) = List.zipWith (· ++ ·) (ss.map PSite.SL) (ss.map PSite.SR) := by
  induction ss generalizing lL lR with
  | nil =>
    simp only [List.map_nil, Chained] at hL hR
    subst hL hR; simp [physShape]
  | cons s ss ih =>
    obtain ⟨hL1, hL2, hL3⟩ := hL
    obtain ⟨hR1, hR2, hR3⟩ := hR
    subst hL2 hR2
    obtain ⟨hs, _⟩ := hok s (by simp)
    obtain ⟨h1, h2⟩ := ih (fun s hs => hok s (by simp [hs])) hL3 hR3
    refine ⟨⟨NDArray.isLocal_of_shape hs, NDArray.lb_of_shape hs, ?_⟩, ?_⟩
    · rw [NDArray.rb_of_shape hs]; exact h1
    · simp only [List.map_cons, List.zipWith_cons_cons, ← h2]
      simp [physShape, NDArray.ph_of_shape hs]

/-! ### `_local_dot` -/

/-- Sizes of the legs `ax` of a tensor with leg sizes `s`. -/
def conDims (s ax : List ℕ) : List ℕ := ax.map fun p => s.getD p 0

/-- Sizes of the other legs, in order. -/
def freeDims (s ax : List ℕ) : List ℕ := (NDArray.freeAxes s.length ax).map fun p => s.getD p 0

theorem getD_bonds {l r p : ℕ} {s : List ℕ} (h : p < s.length) :
    (l :: (s ++ [r])).getD (p + 1) 0 = s.getD p 0 := by
  rw [List.getD_cons_succ, getD_append_lt h]

theorem map_getD_bonds {l r : ℕ} {s ax : List ℕ} (h : ∀ a ∈ ax, a < s.length) :
    ((ax.map (· + 1)).map fun p => (l :: (s ++ [r])).getD p 0) = conDims s ax := by
  rw [List.map_map]
  exact List.map_congr_left fun p hp => getD_bonds (h p hp)

theorem freeAxes_lt {n : ℕ} {ax : List ℕ} : ∀ p ∈ NDArray.freeAxes n ax, p < n := by
  intro p hp; simp [NDArray.freeAxes] at hp; exact hp.1

theorem freeAxes_len {n : ℕ} {ax : List ℕ} (h : ∀ a ∈ ax, a < n) (hn : ax.Nodup) :
    (NDArray.freeAxes n ax).length + ax.length = n := by
  have h1 : (NDArray.freeAxes n ax ++ ax).Perm (List.range n) := by
    rw [List.perm_ext_iff_of_nodup]
    · intro a
      simp only [List.mem_append, NDArray.freeAxes, List.mem_filter, List.mem_range,
        decide_eq_true_eq]
      constructor
      · rintro (h' | h'); exact h'.1; exact h a h'
      · intro h'; by_cases ha : a ∈ ax
        · exact Or.inr ha
        · exact Or.inl ⟨h', ha⟩
    · rw [List.nodup_append]
      refine ⟨List.Nodup.filter _ List.nodup_range, hn, ?_⟩
      rintro a ha b hb rfl
      simp [NDArray.freeAxes] at ha
      exact ha.2 hb
    · exact List.nodup_range
  have := h1.length_eq
  simpa using this

theorem freeDims_length (s ax : List ℕ) :
    (freeDims s ax).length = (NDArray.freeAxes s.length ax).length := by simp [freeDims]

theorem localDot_ok [CommSemiring R] {l r : NDArray R} (hl : l.IsLocal) (hr : r.IsLocal)
    {axes : List ℤ × List ℤ} {axa axb : List ℕ}
    (h1 : axes.1.mapM (pyIndex l.ndim) = .ok (axa.map (· + 1)))
    (h2 : axes.2.mapM (pyIndex r.ndim) = .ok (axb.map (· + 1)))
    (ha : ∀ p ∈ axa, p < l.ph.length) (hb : ∀ p ∈ axb, p < r.ph.length)
    (hna : axa.Nodup) (hnb : axb.Nodup) (hd : conDims l.ph axa = conDims r.ph axb) :
    ∃ z, localDot l r axes = .ok z ∧
      PSite.OK ⟨l, r, z, conDims l.ph axa, freeDims l.ph axa, freeDims r.ph axb,
        NDArray.asm l.ph.length axa, NDArray.asm r.ph.length axb⟩ := by
  have hls := NDArray.shape_local hl
  have hrs := NDArray.shape_local hr
  have hln : l.ndim = l.ph.length + 2 := by rw [NDArray.ndim, hls]; simp
  have hrn : r.ndim = r.ph.length + 2 := by rw [NDArray.ndim, hrs]; simp
  have hlen : axa.length = axb.length := by
    have := congrArg List.length hd; simpa [conDims] using this
  have hla : axes.1.length = axa.length := by
    have := (mapM_ok_iff.1 h1).length_eq; simpa using this
  have hlb : axes.2.length = axb.length := by
    have := (mapM_ok_iff.1 h2).length_eq; simpa using this
  have hfa := freeAxes_len ha hna
  have hfb := freeAxes_len hb hnb
  set SL := freeDims l.ph axa with hSL
  set SR := freeDims r.ph axb with hSR
  have hSLl : SL.length = (NDArray.freeAxes l.ph.length axa).length := freeDims_length _ _
  have hSRl : SR.length = (NDArray.freeAxes r.ph.length axb).length := freeDims_length _ _
  -- tensordot
  set t := l.tensordotTo r (axa.map (· + 1)) (axb.map (· + 1)) with ht
  have htd : l.tensordot r axes.1 axes.2 = .ok t := by
    unfold NDArray.tensordot
    rw [h1, h2]
    show (if _ then _ else _) = _
    rw [if_pos]
    refine ⟨?_, hna.map (fun _ _ h => by omega), hnb.map (fun _ _ h => by omega)⟩
    rw [hls, hrs, map_getD_bonds ha, map_getD_bonds hb, hd]
  have hts : t.shape = (l.lb :: (SL ++ [l.rb])) ++ (r.lb :: (SR ++ [r.rb])) := by
    show List.map _ _ ++ List.map _ _ = _
    rw [hln, hrn, NDArray.freeAxes_bonds ha, NDArray.freeAxes_bonds hb]
    congr 1
    · rw [hls, List.map_cons, List.map_append, map_getD_bonds freeAxes_lt]
      simp [conDims, hSL, freeDims]
    · rw [hrs, List.map_cons, List.map_append, map_getD_bonds freeAxes_lt]
      simp [conDims, hSR, freeDims]
  have htg : ∀ a b a' b' f g, f.length = SL.length → g.length = SR.length →
      t.get ((a :: (f ++ [b])) ++ (a' :: (g ++ [b'])))
        = sumIdx (conDims l.ph axa) fun k => l.at3 a (NDArray.asm l.ph.length axa k f) b *
            r.at3 a' (NDArray.asm r.ph.length axb k g) b' := by
    intro a b a' b' f g hf hg
    show sumIdx _ _ = _
    have e1 : ((axa.map (· + 1)).map fun p => l.shape.getD p 0) = conDims l.ph axa := by
      rw [hls, map_getD_bonds ha]
    rw [e1]
    refine sumIdx_congr fun k hk => ?_
    have hkl : k.length = axa.length := by simpa [conDims] using inB_length hk
    have hfl : (NDArray.freeAxes l.ndim (axa.map (· + 1))).length = (a :: (f ++ [b])).length := by
      rw [hln, NDArray.freeAxes_bonds ha]; simp [hf, hSLl]
    rw [hfl, List.take_left, List.drop_left, hln, hrn, NDArray.asm_bonds ha hkl (by omega),
      NDArray.asm_bonds hb (by omega) (by omega)]
    rfl
  have htn : t.ndim = SL.length + SR.length + 4 := by
    rw [NDArray.ndim, hts]; simp; omega
  -- first rollaxis
  have hax : l.ndim - axes.1.length = SL.length + 2 := by omega
  set u := t.rollaxisTo (SL.length + 2) 1 with hu
  have hus : u.shape = [l.lb] ++ r.lb :: ((SL ++ [l.rb]) ++ (SR ++ [r.rb])) :=
    NDArray.rollaxisTo_left_shape (A := [l.lb]) (B := SL ++ [l.rb]) (C := SR ++ [r.rb])
      (by rw [hts]; simp) rfl (by simp; omega)
  have hug : ∀ a b a' b' f g, f.length = SL.length → g.length = SR.length →
      u.get ([a] ++ a' :: ((f ++ [b]) ++ (g ++ [b']))) = t.get ((a :: (f ++ [b])) ++ (a' :: (g ++ [b']))) := by
    intro a b a' b' f g hf hg
    have := NDArray.rollaxisTo_left_get (a := t) (A := [a]) (B := f ++ [b]) (C := g ++ [b'])
      (x := a') (axis := SL.length + 2) (start := 1) rfl
      (by simp; omega) (by rw [htn]; simp; omega)
    rw [hu, this]
    simp
  have hun : u.ndim = SL.length + SR.length + 4 := by
    rw [NDArray.ndim, hus]; simp; omega
  -- second rollaxis
  have hst : l.ndim + r.ndim - axes.1.length - axes.2.length - 1 = SL.length + SR.length + 3 := by
    omega
  set v := u.rollaxisTo (SL.length + 2) (SL.length + SR.length + 3) with hv
  have hvs : v.shape = (l.lb :: r.lb :: SL) ++ SR ++ l.rb :: [r.rb] :=
    NDArray.rollaxisTo_right_shape (A := l.lb :: r.lb :: SL) (B := SR) (C := [r.rb])
      (by rw [hus]; simp) (by simp) (by simp; omega)
  have hvg : ∀ a b a' b' f g, f.length = SL.length → g.length = SR.length →
      v.get ([a, a'] ++ ((f ++ g) ++ [b, b'])) = t.get ((a :: (f ++ [b])) ++ (a' :: (g ++ [b']))) := by
    intro a b a' b' f g hf hg
    rw [← hug a b a' b' f g hf hg]
    have := NDArray.rollaxisTo_right_get (a := u) (A := a :: a' :: f) (B := g) (C := [b'])
      (x := b) (axis := SL.length + 2) (start := SL.length + SR.length + 3) (by simp [hf])
      (by simp; omega) (by rw [hun]; simp; omega)
    simpa [hv] using this
  have hvn : v.ndim = SL.length + SR.length + 4 := by
    rw [NDArray.ndim, hvs]; simp; omega
  have hmid : (v.shape.drop 2).take (v.ndim - 4) = SL ++ SR := by
    rw [hvn, hvs]
    simp only [List.cons_append, List.drop_succ_cons, List.drop_zero]
    rw [Nat.add_sub_cancel, show SL.length + SR.length = (SL ++ SR).length by simp, List.take_left]
  -- reshape
  have hvs' : v.shape = [l.lb, r.lb] ++ ((SL ++ SR) ++ [l.rb, r.rb]) := by rw [hvs]; simp
  have hprod : (l.lb * r.lb :: ((SL ++ SR) ++ [l.rb * r.rb])).prod = v.shape.prod := by
    rw [hvs']; simp; ring
  refine ⟨v.reshapeTo (l.lb * r.lb :: ((SL ++ SR) ++ [l.rb * r.rb])), ?_, rfl, ?_⟩
  · unfold localDot
    simp only [hax, hst, htd, ok_bind]
    rw [pyAssert_true (by omega), ok_bind, NDArray.rollaxis_ok (by omega) (by omega), ok_bind, ← hu,
      NDArray.rollaxis_ok (by omega) (by omega), ok_bind, hmid]
    exact NDArray.reshape_nat hprod
  · intro a ha' a' ha'' b hb' b' hb'' f g hf hg
    dsimp only at *
    have hfl := inB_length hf
    have hgl := inB_length hg
    rw [← htg a b a' b' f g hfl hgl, ← hvg a b a' b' f g hfl hgl]
    have hidx : ∀ x x' n n' : ℕ, x' < n' → unravelIdx [n, n'] (x * n' + x') = [x, x'] := by
      intro x x' n n' h
      simp only [unravelIdx, List.prod_cons, List.prod_nil, mul_one, Nat.div_one]
      rw [show x * n' + x' = x' + n' * x by ring, Nat.add_mul_div_left _ _ (by omega),
        Nat.add_mul_mod_self_left, Nat.div_eq_of_lt h, Nat.mod_eq_of_lt h]; simp
    have hlt : ∀ x x' n n' : ℕ, x < n → x' < n' → x * n' + x' < n * n' := by
      intro x x' n n' h h'
      calc x * n' + x' < x * n' + n' := by omega
        _ = (x + 1) * n' := by ring
        _ ≤ n * n' := Nat.mul_le_mul_right _ h
    have := NDArray.reshapeTo_blocks3 (a := v) (S := [l.lb, r.lb]) (S' := SL ++ SR)
      (S'' := [l.rb, r.rb]) (T := [l.lb * r.lb]) (T' := SL ++ SR) (T'' := [l.rb * r.rb])
      (i := [a * r.lb + a']) (j := f ++ g) (k := [b * r.rb + b']) hvs' (by simp) rfl (by simp)
      (by simpa using hlt _ _ _ _ ha' ha'') (inB_append hf hg) (by simpa using hlt _ _ _ _ hb' hb'')
    simp only [ravelIdx_single] at this
    rw [hidx _ _ _ _ ha'', hidx _ _ _ _ hb'', unravel_ravel (inB_append hf hg)] at this
    exact this

end Mpnum

namespace Mpnum

variable {R : Type}

theorem zipM_triples {α β γ : Type} {f : α → β → Py γ} {P : α → β → γ → Prop} {ls : List α}
    {rs : List β} (hlen : ls.length = rs.length)
    (h : ∀ l r, (l, r) ∈ ls.zip rs → ∃ z, f l r = .ok z ∧ P l r z) :
    ∃ ts : List (α × β × γ), zipM f ls rs = .ok (ts.map fun t => t.2.2) ∧
      ts.map (fun t => t.1) = ls ∧ ts.map (fun t => t.2.1) = rs ∧ ∀ t ∈ ts, P t.1 t.2.1 t.2.2 := by
  induction ls generalizing rs with
  | nil =>
    cases rs with
    | nil => exact ⟨[], rfl, rfl, rfl, by simp⟩
    | cons r rs => simp at hlen
  | cons l ls ih =>
    cases rs with
    | nil => simp at hlen
    | cons r rs =>
      obtain ⟨z, hz, hP⟩ := h l r (by simp)
      obtain ⟨ts, h1, h2, h3, h4⟩ := ih (by simpa using hlen)
        (fun l' r' hm => h l' r' (by simp [hm]))
      refine ⟨(l, r, z) :: ts, ?_, by simp [h2], by simp [h3], ?_⟩
      · show (f l r >>= fun c => zipM f ls rs >>= fun cs => Except.ok (c :: cs)) = _
        rw [hz, h1]; rfl
      · intro t ht
        rcases List.mem_cons.1 ht with rfl | ht
        · exact hP
        · exact h4 t ht

theorem pidx_map {α : Type} {F : PSite R → List ℕ → List ℕ → List ℕ} {g : α → PSite R}
    {φ : α → List ℕ} {H : List ℕ → List ℕ → List ℕ → List ℕ}
    (h : ∀ t k f, F (g t) k f = H (φ t) k f) (ts : List α) (ks fs : List (List ℕ)) :
    pidx F (ts.map g) ks fs = List.zipWith3 H (ts.map φ) ks fs := by
  induction ts generalizing ks fs with
  | nil => rfl
  | cons t ts ih =>
    cases ks with
    | nil => rfl
    | cons k ks =>
      cases fs with
      | nil => rfl
      | cons f fs => simp [pidx, List.zipWith3, h, ih]

/-- A list of axes of a `k`-dimensional array, negative numbers counting from the end. -/
def axesOf (axes : List ℤ) (k : ℕ) : List ℕ :=
  axes.map fun a : ℤ => (if a < 0 then a + (k : ℤ) else a).toNat

/-- All axes are valid for a `k`-dimensional array. -/
def AxesIn (axes : List ℤ) (k : ℕ) : Prop := ∀ a ∈ axes, -(k : ℤ) ≤ a ∧ a < k

theorem axesOf_lt {axes : List ℤ} {k : ℕ} (h : AxesIn axes k) : ∀ p ∈ axesOf axes k, p < k := by
  intro p hp
  obtain ⟨a, ha, rfl⟩ := List.mem_map.1 hp
  have := h a ha
  split <;> omega

theorem mapM_adapt {axes : List ℤ} {k : ℕ} (h : AxesIn axes k) :
    (axes.map adaptAxis).mapM (pyIndex (k + 2)) = .ok ((axesOf axes k).map (· + 1)) := by
  rw [mapM_ok_iff, axesOf]
  simp only [List.forall₂_map_left_iff, List.forall₂_map_right_iff]
  rw [List.forall₂_same]
  intro a ha
  obtain ⟨h1, h2⟩ := h a ha
  have e : adaptAxis a = if a ≥ 0 then a + 1 else a - 1 := rfl
  by_cases h0 : a < 0
  · rw [if_neg (by omega)] at e
    rw [e, pyIndex, if_neg (by push_cast; omega), if_pos (by push_cast; omega), if_pos h0]
    congr 1; push_cast; omega
  · rw [if_pos (by omega)] at e
    rw [e, pyIndex, if_pos (by push_cast; omega), if_neg h0]
    congr 1; omega

end Mpnum
