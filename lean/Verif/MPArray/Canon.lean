import Verif.MPArray.Matricize

/-!
# Model of `canonicalize`, `_lcanonicalize`, `_rcanonicalize`, `norm` (/repo/mpnum/mparray.py)

The methods work in place.  The model returns the new state; when a method raises, the modelled
code has not touched the object before (all checks come first), except where noted.
-/

open Finset

namespace Mpnum

variable {R : Type}

namespace MPA

/-- `self._lt[index]` for an integer index (mpstruct.py:159-164). -/
def site (x : MPA R) (i : ℤ) : Py (NDArray R) := do
  let p ← pyIndex x.len i
  match x.lt[p]? with
  | some t => .ok t
  | none => .error .index

/-- Body of the loop of `_rcanonicalize` (mparray.py:683-691). -/
def rcanonStep [AddCommMonoid R] [Mul R] (qr : QR R) (x : MPA R) (site : ℤ) : Py (MPA R) := do
  let ltens ← x.site site
  let mat ← ltens.reshape [-1, (ltens.rb : ℤ)]
  let (q, r) := qr mat
  let next ← x.site (site + 1)
  let t1 ← q.reshape (ltens.shape.dropLast.map (fun n : ℕ => (n : ℤ)) ++ [-1])
  let t2 ← matdot r next
  x.updateSlice (some site) (some (site + 2)) none [t1, t2] (.seq [some .left, none])

/-- `_rcanonicalize` (mparray.py:673-691): left-canonicalises `lt[:to_site]`. -/
def rcanonicalize [AddCommMonoid R] [Mul R] (qr : QR R) (x : MPA R) (toSite : ℤ) : Py (MPA R) := do
  pyAssert (0 ≤ toSite ∧ toSite < x.len)
  (pyRange x.l toSite 1).foldlM (rcanonStep qr) x

/-- Body of the loop of `_lcanonicalize` (mparray.py:703-711). -/
def lcanonStep [AddCommMonoid R] [Mul R] (qr : QR R) (x : MPA R) (site : ℤ) : Py (MPA R) := do
  let ltens ← x.site site
  let mat ← ltens.reshape [(ltens.lb : ℤ), -1]
  let (q, r) := qr mat.T
  let prev ← x.site (site - 1)
  let t1 ← matdot prev r.T
  let t2 ← q.T.reshape (-1 :: ltens.shape.tail.map (fun n : ℕ => (n : ℤ)))
  x.updateSlice (some (site - 1)) (some (site + 1)) none [t1, t2] (.seq [none, some .right])

/-- `_lcanonicalize` (mparray.py:693-711): right-canonicalises `lt[to_site:]`. -/
def lcanonicalize [AddCommMonoid R] [Mul R] (qr : QR R) (x : MPA R) (toSite : ℤ) : Py (MPA R) := do
  pyAssert (0 < toSite ∧ toSite ≤ x.len)
  (pyRange (x.r - 1) (toSite - 1) (-1)).foldlM (lcanonStep qr) x

end MPA

/-- Values of the arguments `left`, `right` of `canonicalize`. -/
inductive CArg
  | none
  | afull
  | int (n : ℤ)

/-- mparray.py:652: `{None: 0, 'afull': len(self) - 1}.get(left, left)` -/
def CArg.left (len : ℕ) : CArg → ℤ
  | .none => 0
  | .afull => len - 1
  | .int n => n

/-- mparray.py:653: `{None: len(self), 'afull': 1}.get(right, right)` -/
def CArg.right (len : ℕ) : CArg → ℤ
  | .none => len
  | .afull => 1
  | .int n => n

def CArg.isNone : CArg → Bool
  | .none => true
  | _ => false

namespace MPA

/-- `canonicalize(left, right)` (mparray.py:592-671) -/
def canonicalize [AddCommMonoid R] [Mul R] (qr : QR R) (x : MPA R) (left right : CArg) :
    Py (MPA R) := do
  if left.isNone && right.isNone then
    if x.l < x.len - x.r then x.lcanonicalize qr 1
    else x.rcanonicalize qr (x.len - 1)
  else
    let tl := left.left x.len
    let tr := right.right x.len
    let tl := if tl < 0 then tl + x.len else tl
    let tr := if tr < 0 then tr + x.len else tr
    pyGuard (0 ≤ tl ∧ tl ≤ x.len) .index
    pyGuard (0 ≤ tr ∧ tr ≤ x.len) .index
    pyGuard (tl < tr) .value
    let y ← if x.l < tl then x.rcanonicalize qr tl else .ok x
    if x.r > tr then y.lcanonicalize qr tr else .ok y

end MPA

/-! ### proofs -/

/-- `y` represents the same tensor as `x`. -/
structure MPA.Same [Semiring R] (x y : MPA R) : Prop where
  shape : y.shape = x.shape
  val : ∀ idx, IdxOK idx x.shape → y.val idx = x.val idx

theorem MPA.Same.rfl' [Semiring R] (x : MPA R) : x.Same x := ⟨rfl, fun _ _ => rfl⟩

theorem MPA.Same.trans [Semiring R] {x y z : MPA R} (h : x.Same y) (h' : y.Same z) : x.Same z :=
  ⟨h'.shape.trans h.shape, fun idx hi => (h'.val idx (by rw [h.shape]; exact hi)).trans (h.val idx hi)⟩

/-- Sizes of the left bonds of `y` are at most those of `x`. -/
def MPA.RanksLe (y x : MPA R) : Prop :=
  List.Forall₂ (· ≤ ·) (y.lt.map NDArray.lb) (x.lt.map NDArray.lb)

theorem MPA.RanksLe.rfl' (x : MPA R) : x.RanksLe x := List.forall₂_same.2 fun _ _ => le_refl _

theorem MPA.RanksLe.trans {x y z : MPA R} (h : z.RanksLe y) (h' : y.RanksLe x) : z.RanksLe x := by
  unfold MPA.RanksLe at *
  revert h h'
  generalize z.lt.map NDArray.lb = a
  generalize y.lt.map NDArray.lb = b
  generalize x.lt.map NDArray.lb = c
  intro h h'
  induction h generalizing c with
  | nil => cases h'; exact .nil
  | cons h _ ih => cases h' with
    | cons h' h'' => exact .cons (h.trans h') (ih _ h'')

/-- A valid MPA with a true canonical form and no empty leg. -/
structure MPA.Good [CommRing R] [StarRing R] (x : MPA R) : Prop where
  valid : x.Valid
  canon : x.CanonOK
  pos : AllPos x.lt

/-- The same for a chain with open ends of dimensions `a` and `b` (such chains occur as blocks of sites). -/
structure MPA.GoodO [CommRing R] [StarRing R] (a b : ℕ) (x : MPA R) : Prop where
  ne : x.lt ≠ []
  chain : Chained a x.lt b
  l_nonneg : 0 ≤ x.l
  l_lt_r : x.l < x.r
  r_le : x.r ≤ x.len
  canon : x.CanonOK
  pos : AllPos x.lt

theorem MPA.Good.toO [CommRing R] [StarRing R] {x : MPA R} (h : x.Good) : x.GoodO 1 1 :=
  ⟨h.valid.ne, h.valid.chain, h.valid.l_nonneg, h.valid.l_lt_r, h.valid.r_le, h.canon, h.pos⟩

theorem MPA.GoodO.toGood [CommRing R] [StarRing R] {x : MPA R} (h : x.GoodO 1 1) : x.Good :=
  ⟨⟨h.ne, h.chain, h.l_nonneg, h.l_lt_r, h.r_le⟩, h.canon, h.pos⟩

/-- `y` represents the same tensor with open ends as `x`. -/
structure MPA.SameO [Semiring R] (a : ℕ) (x y : MPA R) : Prop where
  shape : y.shape = x.shape
  val : ∀ idx, IdxOK idx x.shape → ∀ i < a, ∀ j, mp y.lt idx i j = mp x.lt idx i j

theorem MPA.SameO.rfl' [Semiring R] (a : ℕ) (x : MPA R) : x.SameO a x := ⟨rfl, fun _ _ _ _ _ => rfl⟩

theorem MPA.SameO.trans [Semiring R] {a : ℕ} {x y z : MPA R} (h : x.SameO a y) (h' : y.SameO a z) : x.SameO a z :=
  ⟨h'.shape.trans h.shape, fun idx hi i hi' j =>
    (h'.val idx (by rw [h.shape]; exact hi) i hi' j).trans (h.val idx hi i hi' j)⟩

theorem MPA.SameO.toSame [Semiring R] {x y : MPA R} (h : x.SameO 1 y) : x.Same y :=
  ⟨h.shape, fun idx hi => h.val idx hi 0 one_pos 0⟩

/-- `y` differs from `x` in the sites `m` and `m + 1` only. -/
def MPA.PairChange (x y : MPA R) (m : ℤ) : Prop :=
  ∃ pre t u t' u' post, x.lt = pre ++ t :: u :: post ∧ y.lt = pre ++ t' :: u' :: post ∧ (pre.length : ℤ) = m

theorem AllPos.lb {ts : List (NDArray R)} (h : AllPos ts) {t : NDArray R} (ht : t ∈ ts)
    (hl : t.IsLocal) : 0 < t.lb := h t ht _ (by rw [NDArray.shape_local hl]; simp)

theorem AllPos.rb {ts : List (NDArray R)} (h : AllPos ts) {t : NDArray R} (ht : t ∈ ts)
    (hl : t.IsLocal) : 0 < t.rb := h t ht _ (by rw [NDArray.shape_local hl]; simp)

theorem AllPos.ph {ts : List (NDArray R)} (h : AllPos ts) {t : NDArray R} (ht : t ∈ ts)
    (hl : t.IsLocal) : 0 < t.ph.prod :=
  list_prod_pos fun d hd => h t ht d (by rw [NDArray.shape_local hl]; simp [hd])

namespace MPA

theorem site_ok {x : MPA R} {pre post : List (NDArray R)} {t : NDArray R}
    (hx : x.lt = pre ++ t :: post) : x.site (pre.length : ℤ) = .ok t := by
  unfold site
  rw [pyIndex_nat (by simp [MPA.len, hx]), ok_bind, hx]
  simp

/-- A list of sites split at position `m`. -/
theorem split_at {ts : List (NDArray R)} {m : ℕ} (h : m + 1 < ts.length) :
    ∃ pre t u post, ts = pre ++ t :: u :: post ∧ pre.length = m := by
  refine ⟨ts.take m, ts[m], ts[m + 1], ts.drop (m + 2), ?_, by simp; omega⟩
  rw [List.getElem_cons_drop, List.getElem_cons_drop, List.take_append_drop]

section
variable [CommRing R] [StarRing R]

/-- Consequences of replacing a pair of sites. -/
theorem good_pair {x : MPA R} {pre post : List (NDArray R)} {t u t' u' : NDArray R} {a b : ℕ}
    (hx : x.GoodO a b)
    (hlt : x.lt = pre ++ t :: u :: post)
    (ht : t'.shape = t.lb :: (t.ph ++ [t'.rb])) (hu : u'.shape = t'.rb :: (u.ph ++ [u.rb]))
    (hpos : 0 < t'.rb) {l' r' : ℤ} (h0 : 0 ≤ l') (h1 : l' < r') (h2 : r' ≤ x.len)
    (hcan : ∀ (n : ℕ) (w : NDArray R), (pre ++ t' :: u' :: post)[n]? = some w →
      ((n : ℤ) < l' → LCanon w) ∧ (r' ≤ (n : ℤ) → RCanon w))
    (hch : Chained a (pre ++ t' :: u' :: post) b) :
    (⟨pre ++ t' :: u' :: post, l', r'⟩ : MPA R).GoodO a b := by
  refine ⟨by simp, hch, h0, h1, by simpa [MPA.len, hlt] using h2, hcan, ?_⟩
  intro w hw d hd
  have hold : ∀ w ∈ x.lt, ∀ d ∈ w.shape, 0 < d := hx.pos
  rw [hlt] at hold
  have hloc := hx.chain.isLocal
  rw [hlt] at hloc
  have hts := NDArray.shape_local (hloc t (by simp))
  have hus := NDArray.shape_local (hloc u (by simp))
  simp only [List.mem_append, List.mem_cons] at hw
  rcases hw with hw | rfl | rfl | hw
  · exact hold w (by simp [hw]) d hd
  · rw [ht] at hd
    simp only [List.mem_cons, List.mem_append, List.not_mem_nil, or_false] at hd
    rcases hd with hd | hd | hd
    · exact hold t (by simp) d (by rw [hts]; simp [hd])
    · exact hold t (by simp) d (by rw [hts]; simp [hd])
    · rw [hd]; exact hpos
  · rw [hu] at hd
    simp only [List.mem_cons, List.mem_append, List.not_mem_nil, or_false] at hd
    rcases hd with hd | hd | hd
    · rw [hd]; exact hpos
    · exact hold u (by simp) d (by rw [hus]; simp [hd])
    · exact hold u (by simp) d (by rw [hus]; simp [hd])
  · exact hold w (by simp [hw]) d hd

omit [CommRing R] [StarRing R] in
theorem ranksLe_pair {x : MPA R} {pre post : List (NDArray R)} {t u t' u' : NDArray R} {l' r' : ℤ}
    (hlt : x.lt = pre ++ t :: u :: post) (h1 : t'.lb = t.lb) (h2 : u'.lb ≤ u.lb) :
    (⟨pre ++ t' :: u' :: post, l', r'⟩ : MPA R).RanksLe x := by
  unfold RanksLe
  rw [hlt]
  simp only [List.map_append, List.map_cons, h1]
  refine List.rel_append (List.forall₂_same.2 fun _ _ => le_refl _) ?_
  exact .cons (le_refl _) (.cons h2 (List.forall₂_same.2 fun _ _ => le_refl _))

omit [CommRing R] [StarRing R] in
theorem getElem?_mid {pre post : List (NDArray R)} {t u w : NDArray R} {n : ℕ}
    (h : (pre ++ t :: u :: post)[n]? = some w) :
    (n < pre.length ∧ pre[n]? = some w) ∨ (n = pre.length ∧ w = t) ∨ (n = pre.length + 1 ∧ w = u) ∨
      (pre.length + 2 ≤ n ∧ ∀ t' u', (pre ++ t' :: u' :: post)[n]? = some w) := by
  by_cases h1 : n < pre.length
  · left; rw [List.getElem?_append_left h1] at h; exact ⟨h1, h⟩
  · rw [List.getElem?_append_right (by omega)] at h
    rcases hn : n - pre.length with _ | _ | k
    · rw [hn] at h; right; left; simp at h; exact ⟨by omega, h.symm⟩
    · rw [hn] at h; right; right; left; simp at h; exact ⟨by omega, h.symm⟩
    · rw [hn] at h; right; right; right
      refine ⟨by omega, fun t' u' => ?_⟩
      rw [List.getElem?_append_right (by omega), hn]
      simpa using h

omit [CommRing R] [StarRing R] in
theorem getElem?_pre {pre post : List (NDArray R)} {w : NDArray R} {n : ℕ}
    (h : pre[n]? = some w) : (pre ++ post)[n]? = some w := by
  have hn : n < pre.length := (List.getElem?_eq_some_iff.1 h).1
  rw [List.getElem?_append_left hn]; exact h

/-- One step of left canonicalisation. -/
theorem rcanonStep_open {qr : QR R} (hqr : QRSpec qr) {x : MPA R} {a₀ b₀ : ℕ} (hx : x.GoodO a₀ b₀)
    (hlen : x.l + 1 < x.len) :
    ∃ y, x.rcanonStep qr x.l = .ok y ∧ y.GoodO a₀ b₀ ∧ x.SameO a₀ y ∧ y.RanksLe x ∧ y.len = x.len ∧
      y.l = x.l + 1 ∧ y.r = max x.r (x.l + 2) ∧ x.PairChange y x.l := by
  have hl0 := hx.l_nonneg
  have hlr := hx.l_lt_r
  obtain ⟨m, hm⟩ := Int.eq_ofNat_of_zero_le hl0
  obtain ⟨pre, t, u, post, hlt, hpl⟩ := split_at (ts := x.lt) (m := m) (by
    have : (x.len : ℤ) = x.lt.length := rfl
    omega)
  have hloc := hx.chain.isLocal
  have htm : t ∈ x.lt := by rw [hlt]; simp
  have hum : u ∈ x.lt := by rw [hlt]; simp
  have htl := hloc t htm
  have hul := hloc u hum
  have hch := hx.chain
  have htu : t.rb = u.lb := by
    rw [hlt] at hch
    obtain ⟨_, _, hc2⟩ := chained_append.1 hch
    exact hc2.2.2.2.1.symm
  have htrb := hx.pos.rb htm htl
  have htlb := hx.pos.lb htm htl
  have htph := hx.pos.ph htm htl
  obtain ⟨mat, e1, e2, e3⟩ := lmat_ok htl htrb
  set M := (t.lb :: t.ph).prod with hM
  have hMpos : 0 < M := by rw [hM, List.prod_cons]; exact Nat.mul_pos htlb htph
  obtain ⟨q1, q2, q3, q4⟩ := hqr mat _ _ e2
  set k := min M t.rb with hk
  have hkpos : 0 < k := by omega
  obtain ⟨t', f1, f2, f3⟩ := lunmat_ok (q := (qr mat).1) (l := t.lb) (P := t.ph) q1 hMpos
  obtain ⟨u', g1, g2, g3⟩ := matdot_left (m := (qr mat).2) (u := u) (k := k) hul (by rw [← htu]; exact q2)
  have ht'rb : t'.rb = k := NDArray.rb_of_shape f2
  have ht's : t'.shape = t.lb :: (t.ph ++ [t'.rb]) := by rw [ht'rb]; exact f2
  have hu's : u'.shape = t'.rb :: (u.ph ++ [u.rb]) := by rw [ht'rb]; exact g2
  have hch' := hch
  rw [hlt] at hch'
  obtain ⟨hc1, hc2, hc3⟩ := replace_pair hch' ht's hu's (by
    intro a ha b hb p p' hp hp'
    rw [ht'rb]
    have s1 : ∀ c ∈ range k, t'.at3 a p c * u'.at3 c p' b
        = ∑ z ∈ range t.rb, ((qr mat).1.get [ravelIdx (t.lb :: t.ph) (a :: p), c] * (qr mat).2.get [c, z])
            * u.at3 z p' b := by
      intro c hc
      have hc : c < k := by simpa using hc
      rw [g3 c p' b (inB_length hp'), Finset.mul_sum, htu]
      refine Finset.sum_congr rfl fun z _ => ?_
      rw [← f3 (a :: p) c (inB_cons' ha hp) hc]
      simp only [NDArray.at3, List.cons_append]
      ring
    rw [Finset.sum_congr rfl s1, Finset.sum_comm]
    refine Finset.sum_congr rfl fun z hz => ?_
    have hz : z < t.rb := by simpa using hz
    have hr := q3 (ravelIdx (t.lb :: t.ph) (a :: p)) (ravelIdx_lt (inB_cons' ha hp)) z hz
    rw [← Finset.sum_mul, hr, e3 _ _ (inB_cons' ha hp) hz]
    rfl)
  have hupd := update_pair_left (x := x) hlt (NDArray.isLocal_of_shape f2)
    (NDArray.isLocal_of_shape g2) (NDArray.lb_of_shape f2).symm
    ((NDArray.rb_of_shape f2).trans (NDArray.lb_of_shape g2).symm) (NDArray.rb_of_shape g2).symm
    (by rw [hm, hpl])
  have hlc : LCanon t' := lcanon_of_cols f2 f3 q4
  have hxlen : (x.len : ℤ) = pre.length + 2 + post.length := by
    simp [MPA.len, hlt]; ring
  have hrle := hx.r_le
  refine ⟨⟨pre ++ t' :: u' :: post, pre.length + 1, max (pre.length + 2) x.r⟩, ?_, ?_, ?_, ?_, ?_, ?_, ?_,
    ⟨pre, t, u, t', u', post, hlt, rfl, by omega⟩⟩
  · unfold rcanonStep
    have hsite : x.l = (pre.length : ℤ) := by rw [hm, hpl]
    have hsite1 : x.site ((pre.length : ℤ) + 1) = .ok u := by
      have := site_ok (x := x) (pre := pre ++ [t]) (post := post) (t := u) (by simp [hlt])
      simpa using this
    have hdl : t.shape.dropLast = t.lb :: t.ph := by
      rw [NDArray.shape_local htl, ← List.cons_append, List.dropLast_concat]
    rw [hsite, site_ok (x := x) hlt, ok_bind, e1, ok_bind]
    simp only [hsite1, ok_bind, hdl]
    rw [f1, ok_bind, g1, ok_bind]
    exact hupd
  · refine good_pair hx hlt ht's hu's (by omega) (by omega) (by omega) (by omega) ?_ hc1
    intro n w hw
    have hcold := hx.canon
    rcases getElem?_mid hw with ⟨h1, h2⟩ | ⟨h1, h2⟩ | ⟨h1, h2⟩ | ⟨h1, h2⟩
    · refine ⟨fun _ => (hcold n w (by rw [hlt]; exact getElem?_pre h2)).1 (by omega), fun h => ?_⟩
      exfalso; omega
    · refine ⟨fun _ => by rw [h2]; exact hlc, fun h => ?_⟩
      exfalso; omega
    · exact ⟨fun h => by exfalso; omega, fun h => by exfalso; omega⟩
    · refine ⟨fun h => by exfalso; omega, fun h => (hcold n w (by rw [hlt]; exact h2 t u)).2 (by omega)⟩
  · refine ⟨?_, ?_⟩
    · rw [show x.shape = physShape x.lt from rfl, hlt]; exact hc2
    · intro idx hi i hi0 j
      rw [show x.shape = physShape x.lt from rfl, hlt] at hi
      show mp (pre ++ t' :: u' :: post) idx i j = mp x.lt idx i j
      rw [hlt]; exact hc3 idx hi i hi0 j
  · exact ranksLe_pair hlt (NDArray.lb_of_shape f2) (by rw [NDArray.lb_of_shape g2]; omega)
  · simp [MPA.len, hlt]
  · show (pre.length : ℤ) + 1 = _
    rw [hm, hpl]
  · show max ((pre.length : ℤ) + 2) x.r = _
    rw [hm, hpl, max_comm]

theorem rcanonStep_ok {qr : QR R} (hqr : QRSpec qr) {x : MPA R} (hx : x.Good)
    (hlen : x.l + 1 < x.len) :
    ∃ y, x.rcanonStep qr x.l = .ok y ∧ y.Good ∧ x.Same y ∧ y.RanksLe x ∧ y.len = x.len ∧
      y.l = x.l + 1 ∧ y.r = max x.r (x.l + 2) := by
  obtain ⟨y, h1, h2, h3, h4, h5, h6, h7, -⟩ := rcanonStep_open hqr hx.toO hlen
  exact ⟨y, h1, h2.toGood, h3.toSame, h4, h5, h6, h7⟩

/-- One step of right canonicalisation. -/
theorem lcanonStep_open {qr : QR R} (hqr : QRSpec qr) {x : MPA R} {a₀ b₀ : ℕ} (hx : x.GoodO a₀ b₀)
    (hlen : 2 ≤ x.r) :
    ∃ y, x.lcanonStep qr (x.r - 1) = .ok y ∧ y.GoodO a₀ b₀ ∧ x.SameO a₀ y ∧ y.RanksLe x ∧ y.len = x.len ∧
      y.r = x.r - 1 ∧ y.l = min x.l (x.r - 2) ∧ x.PairChange y (x.r - 2) := by
  have hl0 := hx.l_nonneg
  have hlr := hx.l_lt_r
  have hrle := hx.r_le
  obtain ⟨m, hm⟩ := Int.eq_ofNat_of_zero_le (show 0 ≤ x.r - 2 by omega)
  obtain ⟨pre, t, u, post, hlt, hpl⟩ := split_at (ts := x.lt) (m := m) (by
    have : (x.len : ℤ) = x.lt.length := rfl
    omega)
  have hr2 : x.r = pre.length + 2 := by rw [hpl]; omega
  have hloc := hx.chain.isLocal
  have htm : t ∈ x.lt := by rw [hlt]; simp
  have hum : u ∈ x.lt := by rw [hlt]; simp
  have htl := hloc t htm
  have hul := hloc u hum
  have hch := hx.chain
  have htu : t.rb = u.lb := by
    rw [hlt] at hch
    obtain ⟨_, _, hc2⟩ := chained_append.1 hch
    exact hc2.2.2.2.1.symm
  have hurb := hx.pos.rb hum hul
  have hulb := hx.pos.lb hum hul
  have huph := hx.pos.ph hum hul
  obtain ⟨mat, e1, e2, e3⟩ := rmat_ok hul hulb
  set M := (u.ph ++ [u.rb]).prod with hM
  have hMpos : 0 < M := by rw [hM, List.prod_append]; simpa using Nat.mul_pos huph hurb
  obtain ⟨hT1, hT2⟩ := T2 e2
  obtain ⟨q1, q2, q3, q4⟩ := hqr mat.T _ _ hT1
  set k := min M u.lb with hk
  have hkpos : 0 < k := by omega
  obtain ⟨hQ1, hQ2⟩ := T2 q1
  obtain ⟨hR1, hR2⟩ := T2 q2
  obtain ⟨u', f1, f2, f3⟩ := runmat_ok (v := (qr mat.T).1.T) (r := u.rb) (P := u.ph) hQ1 hMpos
  obtain ⟨t', g1, g2, g3⟩ := matdot_right (m := (qr mat.T).2.T) (u := t) (k := k) htl
    (by rw [htu]; exact hR1)
  have ht'rb : t'.rb = k := NDArray.rb_of_shape g2
  have ht's : t'.shape = t.lb :: (t.ph ++ [t'.rb]) := by rw [ht'rb]; exact g2
  have hu's : u'.shape = t'.rb :: (u.ph ++ [u.rb]) := by rw [ht'rb]; exact f2
  have hch' := hch
  rw [hlt] at hch'
  obtain ⟨hc1, hc2, hc3⟩ := replace_pair hch' ht's hu's (by
    intro a ha b hb p p' hp hp'
    rw [ht'rb]
    have hj : InB (p' ++ [b]) (u.ph ++ [u.rb]) := inB_append hp' (by simpa using hb)
    have s1 : ∀ c ∈ range k, t'.at3 a p c * u'.at3 c p' b
        = ∑ z ∈ range t.rb, t.at3 a p z *
          ((qr mat.T).1.get [ravelIdx (u.ph ++ [u.rb]) (p' ++ [b]), c] * (qr mat.T).2.get [c, z]) := by
      intro c hc
      have hc : c < k := by simpa using hc
      rw [g3 a p c (inB_length hp), Finset.sum_mul]
      refine Finset.sum_congr rfl fun z _ => ?_
      have := f3 c (p' ++ [b]) hc hj
      rw [show u'.at3 c p' b = u'.get (c :: (p' ++ [b])) from rfl, this, hQ2, hR2]
      ring
    rw [Finset.sum_congr rfl s1, Finset.sum_comm]
    refine Finset.sum_congr rfl fun z hz => ?_
    have hz : z < u.lb := by rw [← htu]; simpa using hz
    have hr := q3 (ravelIdx (u.ph ++ [u.rb]) (p' ++ [b])) (ravelIdx_lt hj) z hz
    rw [← Finset.mul_sum, hr, hT2, e3 _ _ hz hj]
    rfl)
  have hupd := update_pair_right (x := x) hlt (NDArray.isLocal_of_shape g2)
    (NDArray.isLocal_of_shape f2) (NDArray.lb_of_shape g2).symm
    ((NDArray.rb_of_shape g2).trans (NDArray.lb_of_shape f2).symm) (NDArray.rb_of_shape f2).symm
    hr2.le
  have hrc : RCanon u' := rcanon_of_rows f2 f3 (by
    intro a ha a' ha'
    have := q4 a' ha' a ha
    rw [show (if a = a' then (1 : R) else 0) = if a' = a then 1 else 0 by simp [eq_comm], ← this]
    refine Finset.sum_congr rfl fun i _ => ?_
    rw [hQ2, hQ2]; ring)
  have hxlen : (x.len : ℤ) = pre.length + 2 + post.length := by
    simp [MPA.len, hlt]; ring
  refine ⟨⟨pre ++ t' :: u' :: post, min pre.length x.l, pre.length + 1⟩, ?_, ?_, ?_, ?_, ?_, ?_, ?_,
    ⟨pre, t, u, t', u', post, hlt, rfl, by omega⟩⟩
  · unfold lcanonStep
    have hsite : x.r - 1 = (pre.length : ℤ) + 1 := by omega
    have hsite1 : x.site ((pre.length : ℤ) + 1) = .ok u := by
      have := site_ok (x := x) (pre := pre ++ [t]) (post := post) (t := u) (by simp [hlt])
      simpa using this
    have hdl : u.shape.tail = u.ph ++ [u.rb] := by
      rw [NDArray.shape_local hul, List.tail_cons]
    rw [hsite, hsite1, ok_bind, e1, ok_bind, show (pre.length : ℤ) + 1 - 1 = pre.length by ring,
      show (pre.length : ℤ) + 1 + 1 = pre.length + 2 by ring]
    simp only [site_ok (x := x) hlt, ok_bind, hdl]
    rw [f1, g1]
    simp only [ok_bind]
    exact hupd
  · refine good_pair hx hlt ht's hu's (by omega) (by omega) (by omega) (by omega) ?_ hc1
    intro n w hw
    have hcold := hx.canon
    rcases getElem?_mid hw with ⟨h1, h2⟩ | ⟨h1, h2⟩ | ⟨h1, h2⟩ | ⟨h1, h2⟩
    · refine ⟨fun _ => (hcold n w (by rw [hlt]; exact getElem?_pre h2)).1 (by omega), fun h => ?_⟩
      exfalso; omega
    · exact ⟨fun h => by exfalso; omega, fun h => by exfalso; omega⟩
    · refine ⟨fun h => by exfalso; omega, fun _ => by rw [h2]; exact hrc⟩
    · refine ⟨fun h => by exfalso; omega, fun h => (hcold n w (by rw [hlt]; exact h2 t u)).2 (by omega)⟩
  · refine ⟨?_, ?_⟩
    · rw [show x.shape = physShape x.lt from rfl, hlt]; exact hc2
    · intro idx hi i hi0 j
      rw [show x.shape = physShape x.lt from rfl, hlt] at hi
      show mp (pre ++ t' :: u' :: post) idx i j = mp x.lt idx i j
      rw [hlt]; exact hc3 idx hi i hi0 j
  · exact ranksLe_pair hlt (NDArray.lb_of_shape g2) (by rw [NDArray.lb_of_shape f2]; omega)
  · simp [MPA.len, hlt]
  · show (pre.length : ℤ) + 1 = _
    omega
  · show min (pre.length : ℤ) x.l = _
    omega

theorem lcanonStep_ok {qr : QR R} (hqr : QRSpec qr) {x : MPA R} (hx : x.Good)
    (hlen : 2 ≤ x.r) :
    ∃ y, x.lcanonStep qr (x.r - 1) = .ok y ∧ y.Good ∧ x.Same y ∧ y.RanksLe x ∧ y.len = x.len ∧
      y.r = x.r - 1 ∧ y.l = min x.l (x.r - 2) := by
  obtain ⟨y, h1, h2, h3, h4, h5, h6, h7, -⟩ := lcanonStep_open hqr hx.toO hlen
  exact ⟨y, h1, h2.toGood, h3.toSame, h4, h5, h6, h7⟩

/-- Result of a canonicalisation: same tensor, smaller or equal ranks, true form. -/
structure CanonStepSpec (x y : MPA R) : Prop where
  good : y.Good
  same : x.Same y
  ranks : y.RanksLe x
  len : y.len = x.len

theorem CanonStepSpec.trans {x y z : MPA R} (h : CanonStepSpec x y) (h' : CanonStepSpec y z) :
    CanonStepSpec x z :=
  ⟨h'.good, h.same.trans h'.same, h'.ranks.trans h.ranks, h'.len.trans h.len⟩

theorem CanonStepSpec.rfl' {x : MPA R} (h : x.Good) : CanonStepSpec x x :=
  ⟨h, Same.rfl' x, RanksLe.rfl' x, rfl⟩

theorem rcanon_loop {qr : QR R} (hqr : QRSpec qr) {x : MPA R} (hx : x.Good) (n : ℕ)
    (hn : x.l + n < x.len) :
    ∃ y, ((List.range n).map fun k : ℕ => x.l + (k : ℤ) * 1).foldlM (rcanonStep qr) x = .ok y ∧
      CanonStepSpec x y ∧ y.l = x.l + n ∧ y.r = if n = 0 then x.r else max x.r (x.l + n + 1) := by
  induction n with
  | zero => exact ⟨x, rfl, CanonStepSpec.rfl' hx, by simp, by simp⟩
  | succ n ih =>
    obtain ⟨y, h1, h2, h3, h4⟩ := ih (by push_cast at hn; omega)
    obtain ⟨z, g1, g2, g3, g4, g5, g6, g7⟩ := rcanonStep_ok hqr h2.good (by
      rw [h3, h2.len]; push_cast at hn; omega)
    refine ⟨z, ?_, h2.trans ⟨g2, g3, g4, g5⟩, ?_, ?_⟩
    · rw [List.range_succ, List.map_append, List.foldlM_append, h1]
      show (List.foldlM (rcanonStep qr) y [x.l + (n : ℤ) * 1]) = _
      rw [show x.l + (n : ℤ) * 1 = y.l by rw [h3]; ring]
      simp only [List.foldlM_cons, List.foldlM_nil]
      rw [g1]; rfl
    · rw [g6, h3]; push_cast; ring
    · rw [g7, h3, h4, if_neg (Nat.succ_ne_zero n)]
      split
      · rename_i h0; subst h0; push_cast; congr 1; ring
      · push_cast; omega

theorem lcanon_loop {qr : QR R} (hqr : QRSpec qr) {x : MPA R} (hx : x.Good) (n : ℕ)
    (hn : 1 ≤ x.r - n) :
    ∃ y, ((List.range n).map fun k : ℕ => x.r - 1 + (k : ℤ) * (-1)).foldlM (lcanonStep qr) x = .ok y ∧
      CanonStepSpec x y ∧ y.r = x.r - n ∧ y.l = if n = 0 then x.l else min x.l (x.r - n - 1) := by
  induction n with
  | zero => exact ⟨x, rfl, CanonStepSpec.rfl' hx, by simp, by simp⟩
  | succ n ih =>
    obtain ⟨y, h1, h2, h3, h4⟩ := ih (by push_cast at hn; omega)
    obtain ⟨z, g1, g2, g3, g4, g5, g6, g7⟩ := lcanonStep_ok hqr h2.good (by
      rw [h3]; push_cast at hn; omega)
    refine ⟨z, ?_, h2.trans ⟨g2, g3, g4, g5⟩, ?_, ?_⟩
    · rw [List.range_succ, List.map_append, List.foldlM_append, h1]
      show (List.foldlM (lcanonStep qr) y [x.r - 1 + (n : ℤ) * (-1)]) = _
      rw [show x.r - 1 + (n : ℤ) * (-1) = y.r - 1 by rw [h3]; ring]
      simp only [List.foldlM_cons, List.foldlM_nil]
      rw [g1]; rfl
    · rw [g6, h3]; push_cast; ring
    · rw [g7, h3, h4, if_neg (Nat.succ_ne_zero n)]
      split
      · rename_i h0; subst h0; push_cast; congr 1; ring
      · push_cast; omega

theorem pyRange_up {a b : ℤ} : pyRange a b 1 = (List.range (b - a).toNat).map fun k : ℕ => a + (k : ℤ) * 1 := by
  unfold pyRange
  rw [if_pos (by omega)]
  have : (b - a + 1 - 1) / 1 = b - a := by omega
  rw [this]

theorem pyRange_down {a b : ℤ} :
    pyRange a b (-1) = (List.range (a - b).toNat).map fun k : ℕ => a + (k : ℤ) * (-1) := by
  unfold pyRange
  rw [if_neg (by omega), if_pos (by omega)]
  have : (a - b + - -1 - 1) / - -1 = a - b := by norm_num
  rw [this]

theorem rcanonicalize_ok {qr : QR R} (hqr : QRSpec qr) {x : MPA R} (hx : x.Good) {c : ℤ}
    (h0 : 0 ≤ c) (h1 : c < x.len) :
    ∃ y, x.rcanonicalize qr c = .ok y ∧ CanonStepSpec x y ∧ y.l = max x.l c ∧
      y.r = if x.l < c then max x.r (c + 1) else x.r := by
  have hlr := hx.valid.l_lt_r
  have hrle := hx.valid.r_le
  obtain ⟨y, g1, g2, g3, g4⟩ := rcanon_loop hqr hx (c - x.l).toNat (by omega)
  refine ⟨y, ?_, g2, by omega, ?_⟩
  · unfold rcanonicalize
    rw [pyAssert_true ⟨h0, h1⟩, pyRange_up]
    exact g1
  · rw [g4]
    by_cases h : x.l < c
    · rw [if_neg (by omega), if_pos h]; congr 1; omega
    · rw [if_pos (by omega), if_neg h]

theorem lcanonicalize_ok {qr : QR R} (hqr : QRSpec qr) {x : MPA R} (hx : x.Good) {c : ℤ}
    (h0 : 0 < c) (h1 : c ≤ x.len) :
    ∃ y, x.lcanonicalize qr c = .ok y ∧ CanonStepSpec x y ∧ y.r = min x.r c ∧
      y.l = if c < x.r then min x.l (c - 1) else x.l := by
  have hlr := hx.valid.l_lt_r
  have hl0 := hx.valid.l_nonneg
  have hrle := hx.valid.r_le
  obtain ⟨y, g1, g2, g3, g4⟩ := lcanon_loop hqr hx (x.r - c).toNat (by omega)
  refine ⟨y, ?_, g2, by omega, ?_⟩
  · unfold lcanonicalize
    rw [pyAssert_true ⟨h0, h1⟩, pyRange_down, show x.r - 1 - (c - 1) = x.r - c by ring]
    exact g1
  · rw [g4]
    by_cases h : c < x.r
    · rw [if_neg (by omega), if_pos h]; congr 1; omega
    · rw [if_pos (by omega), if_neg h]

end

end MPA

end Mpnum
