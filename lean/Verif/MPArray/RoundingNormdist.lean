import Verif.MPArray.RoundingAdd
import Verif.Props.C78Inner

/-!
Weights for the chain of `x ± y`.
-/

open Finset

namespace Mpnum

variable {𝕜 : Type} [RCLike 𝕜]

/-- An item of a chain without a second tensor. -/
def fitem (s : ℝ) (t : NDArray 𝕜) : FItem 𝕜 := ⟨s, t, t⟩

theorem fprod_le {ts ts' : List (FItem 𝕜)} (h0 : ∀ q ∈ ts, 0 ≤ q.s) (h : List.Forall₂ (· ≤ ·) (ts.map FItem.s) (ts'.map FItem.s)) :
    fprod ts ≤ fprod ts' := by
  induction ts generalizing ts' with
  | nil =>
    cases ts' with
    | nil => exact le_rfl
    | cons q ts' => cases h
  | cons q ts ih =>
    cases ts' with
    | nil => cases h
    | cons q' ts' =>
      cases h with
      | cons h1 h2 =>
        rw [fprod_cons, fprod_cons]
        exact mul_le_mul h1 (ih (fun r hr => h0 r (by simp [hr])) h2) (fprod_nonneg fun r hr => h0 r (by simp [hr]))
          ((h0 q (by simp)).trans h1)

/-- Weights can be increased. -/
theorem WChain.mono {κ ν : ℝ} (hκ : 0 ≤ κ) (hν : 0 ≤ ν) {ts ts' : List (FItem 𝕜)} (h : WChain κ ν ts)
    (ht : ts.map FItem.t = ts'.map FItem.t) (hs : List.Forall₂ (· ≤ ·) (ts.map FItem.s) (ts'.map FItem.s)) : WChain κ ν ts' := by
  have hlen : ts.length = ts'.length := by simpa using congrArg List.length ht
  have key : ∀ q' ∈ ts', ∃ q ∈ ts, q.t = q'.t ∧ q.s ≤ q'.s := by
    intro q' hq'
    obtain ⟨n, hn, rfl⟩ := List.mem_iff_getElem.1 hq'
    have hn' : n < ts.length := by omega
    refine ⟨ts[n], List.getElem_mem _, ?_, ?_⟩
    · have := List.getElem_of_eq ht (i := n) (by simpa using hn')
      simpa using this
    · have := hs.get (i := n) (by simpa using hn') (by simpa using hn)
      simpa using this
  refine ⟨?_, ?_, ?_⟩
  · intro q' hq'
    obtain ⟨q, hq, _, h2⟩ := key q' hq'
    exact (h.nonneg q hq).trans h2
  · intro q' hq'
    obtain ⟨q, hq, h1, h2⟩ := key q' hq'
    rw [← h1]
    exact (h.norm q hq).trans (mul_le_mul_of_nonneg_left h2 hν)
  · intro pre' mid' post' he
    have e1 : ts = ts.take pre'.length ++ ((ts.drop pre'.length).take mid'.length ++ (ts.drop pre'.length).drop mid'.length) := by
      rw [List.take_append_drop, List.take_append_drop]
    have emid : mid' = (ts'.drop pre'.length).take mid'.length := by rw [he]; simp
    have hseg := h.seg _ _ _ e1
    set mid := (ts.drop pre'.length).take mid'.length with hmid
    have et : mid.map FItem.t = mid'.map FItem.t := by
      rw [hmid, List.map_take, List.map_drop, ht]
      conv_rhs => rw [emid]
      rw [List.map_take, List.map_drop]
    have es : List.Forall₂ (· ≤ ·) (mid.map FItem.s) (mid'.map FItem.s) := by
      rw [hmid]
      conv => rhs; rw [emid]
      rw [List.map_take, List.map_drop, List.map_take, List.map_drop]
      exact List.forall₂_take _ (List.forall₂_drop _ hs)
    have h0 : ∀ q ∈ mid, 0 ≤ q.s := fun q hq => h.nonneg q (List.mem_of_mem_drop (List.mem_of_mem_take hq))
    rw [← et]
    exact hseg.mono (mul_nonneg hκ (fprod_nonneg h0)) (mul_le_mul_of_nonneg_left (fprod_le h0 es) hκ)

/-- Canonical chains with weights. -/
theorem Weighted.wchain {A B : List (ℝ × NDArray 𝕜)} {D : ℕ} (h : Weighted A B D) (hl : ∀ q ∈ A ++ B, q.2.IsLocal) :
    WChain (Real.sqrt D) (Real.sqrt D) ((A ++ B).map fun q => fitem q.1 q.2) := by
  refine ⟨?_, ?_, ?_⟩
  · intro q hq
    obtain ⟨p, hp, rfl⟩ := List.mem_map.1 hq
    exact h.nonneg p hp
  · intro q hq
    obtain ⟨p, hp, rfl⟩ := List.mem_map.1 hq
    exact h.norm hl p hp
  · intro pre mid post he
    obtain ⟨pre', r, hr, rfl, he2⟩ := List.map_eq_append_iff.1 he
    obtain ⟨mid', post', rfl, rfl, rfl⟩ := List.map_eq_append_iff.1 he2
    obtain ⟨A', B', rfl, hw⟩ := h.infix hr
    have := hw.seg
    unfold fprod
    rw [List.map_map, List.map_map]
    exact this

/-- Any chain, with the norms of the local tensors as weights. -/
theorem wchain_norms {ts : List (NDArray 𝕜)} (h : ∀ t ∈ ts, t.IsLocal) : WChain 1 1 (ts.map fun t => fitem (npNorm t) t) := by
  refine ⟨?_, ?_, ?_⟩
  · intro q hq
    obtain ⟨p, hp, rfl⟩ := List.mem_map.1 hq
    exact npNorm_nonneg' _
  · intro q hq
    obtain ⟨p, hp, rfl⟩ := List.mem_map.1 hq
    simp [fitem]
  · intro pre mid post he
    obtain ⟨pre', r, rfl, rfl, he2⟩ := List.map_eq_append_iff.1 he
    obtain ⟨mid', post', rfl, rfl, rfl⟩ := List.map_eq_append_iff.1 he2
    have := segOp_norms (ts := mid') (ws := mid'.map fun t => (npNorm t, t)) (fun t ht => h t (by simp [ht]))
      (by rw [List.map_map]; exact List.map_id _) (by
        intro q hq
        obtain ⟨t, _, rfl⟩ := List.mem_map.1 hq
        exact le_rfl)
    rw [one_mul]
    unfold fprod
    rw [List.map_map] at this
    rw [List.map_map, List.map_map, show (FItem.t ∘ fun t : NDArray 𝕜 => fitem (npNorm t) t) = id from rfl, List.map_id]
    exact this

theorem SSeg.site {is : List (SItem 𝕜)} {jl jr : Bool} (h : SSeg jl jr is) : ∀ i ∈ is, ∃ a b, SumSite a b i.t i.u i.z := by
  induction is generalizing jl with
  | nil => simp
  | cons j is ih =>
    intro i hi
    rcases List.mem_cons.1 hi with rfl | hi
    · cases is with
      | nil => exact ⟨jl, jr, h⟩
      | cons k is => exact ⟨jl, true, h.1⟩
    · exact ih h.tail i hi

/-- The weights of a sum. -/
theorem SSeg.wchain {κ ν : ℝ} (hκ : 0 ≤ κ) (hν : 0 ≤ ν) {is : List (SItem 𝕜)} {jl jr : Bool} (h : SSeg jl jr is) {l r l' r' : ℕ}
    (hct : Chained l (is.map SItem.t) r) (hcu : Chained l' (is.map SItem.u) r')
    (ht : WChain κ ν (is.map fun i => fitem i.s i.t)) (hu : WChain κ ν (is.map fun i => fitem i.s i.u)) :
    WChain (2 * κ) (Real.sqrt 2 * ν) (is.map fun i => fitem i.s i.z) := by
  have h0 : ∀ i ∈ is, 0 ≤ i.s := fun i hi => ht.nonneg (fitem i.s i.t) (List.mem_map.2 ⟨i, hi, rfl⟩)
  refine ⟨?_, ?_, ?_⟩
  · intro q hq
    obtain ⟨i, hi, rfl⟩ := List.mem_map.1 hq
    exact h0 i hi
  · intro q hq
    obtain ⟨i, hi, rfl⟩ := List.mem_map.1 hq
    obtain ⟨a, b, hs⟩ := h.site i hi
    have h1 : npNorm i.t ≤ ν * i.s := ht.norm (fitem i.s i.t) (List.mem_map.2 ⟨i, hi, rfl⟩)
    have h2 : npNorm i.u ≤ ν * i.s := hu.norm (fitem i.s i.u) (List.mem_map.2 ⟨i, hi, rfl⟩)
    have hn : 0 ≤ ν * i.s := mul_nonneg hν (h0 i hi)
    show npNorm i.z ≤ Real.sqrt 2 * ν * i.s
    refine (abs_le_of_sq_le_sq' ?_ (by rw [mul_assoc]; exact mul_nonneg (Real.sqrt_nonneg _) hn)).2
    rw [mul_assoc, mul_pow, Real.sq_sqrt (by norm_num), npNorm_sq]
    have e1 := pow_le_pow_left₀ (npNorm_nonneg' i.t) h1 2
    have e2 := pow_le_pow_left₀ (npNorm_nonneg' i.u) h2 2
    rw [npNorm_sq] at e1 e2
    have := hs.norm
    linarith
  · intro pre mid post he
    obtain ⟨pre', r0, rfl, rfl, he2⟩ := List.map_eq_append_iff.1 he
    obtain ⟨mid', post', rfl, rfl, rfl⟩ := List.map_eq_append_iff.1 he2
    obtain ⟨a, ha⟩ := h.drop
    obtain ⟨b, hb⟩ := ha.take
    have s1 := ht.seg (pre'.map fun i => fitem i.s i.t) (mid'.map fun i => fitem i.s i.t) (post'.map fun i => fitem i.s i.t) (by simp)
    have s2 := hu.seg (pre'.map fun i => fitem i.s i.u) (mid'.map fun i => fitem i.s i.u) (post'.map fun i => fitem i.s i.u) (by simp)
    rw [List.map_append, List.map_append] at hct hcu
    obtain ⟨_, _, c1⟩ := hct.infix
    obtain ⟨_, _, c2⟩ := hcu.infix
    have hp : ∀ f : SItem 𝕜 → NDArray 𝕜, fprod (mid'.map fun i => fitem i.s (f i)) = (mid'.map SItem.s).prod := by
      intro f
      unfold fprod
      rw [List.map_map]; rfl
    have hm : ∀ f : SItem 𝕜 → NDArray 𝕜, (mid'.map fun i => fitem i.s (f i)).map FItem.t = mid'.map f := by
      intro f
      rw [List.map_map]; rfl
    rw [hp SItem.t, hm SItem.t] at s1
    rw [hp SItem.u, hm SItem.u] at s2
    rw [hp SItem.z, hm SItem.z, mul_assoc]
    refine hb.op (mul_nonneg hκ (List.prod_nonneg ?_)) c1 c2 s1 s2
    intro s hs
    obtain ⟨i, hi, rfl⟩ := List.mem_map.1 hs
    exact h0 i (by simp [hi])

theorem forall₂_max {a b : List ℝ} (h : a.length = b.length) :
    List.Forall₂ (· ≤ ·) a (List.zipWith max a b) ∧ List.Forall₂ (· ≤ ·) b (List.zipWith max a b) := by
  induction a generalizing b with
  | nil =>
    cases b with
    | nil => exact ⟨.nil, .nil⟩
    | cons q b => simp at h
  | cons p a ih =>
    cases b with
    | nil => simp at h
    | cons q b =>
      obtain ⟨h1, h2⟩ := ih (by simpa using h)
      exact ⟨.cons (le_max_left _ _) h1, .cons (le_max_right _ _) h2⟩

/-- The chain of `x + y` with the larger of the weights of both. -/
theorem MPA.add_wchain {κ ν : ℝ} (hκ : 0 ≤ κ) (hν : 0 ≤ ν) {x y z : MPA 𝕜} (hx : x.Valid) (hy : y.Valid) (hs : y.shape = x.shape)
    (hn : 2 ≤ x.len) (hz : x.add y = .ok z) (px : AllPos x.lt) {wx wy : List (FItem 𝕜)}
    (hwx : wx.map FItem.t = x.lt) (hwy : wy.map FItem.t = y.lt) (hcx : WChain κ ν wx) (hcy : WChain κ ν wy) :
    ∃ items : List (FItem 𝕜), z.lt = items.map FItem.t ∧ WChain (2 * κ) (Real.sqrt 2 * ν) items ∧
      fprod items = (List.zipWith max (wx.map FItem.s) (wy.map FItem.s)).prod ∧ AllPos z.lt := by
  have hlen : y.len = x.len := by
    have := congrArg List.length hs
    simpa [MPA.shape, MPA.len] using this
  have lx : wx.length = x.len := by rw [MPA.len, ← hwx]; simp
  have ly : wy.length = x.len := by rw [← hlen, MPA.len, ← hwy]; simp
  obtain ⟨is, h1, h2, h3, h4, h5, -⟩ := MPA.add_struct hx hy hs hn hz (ws := List.zipWith max (wx.map FItem.s) (wy.map FItem.s)) (by
    simp [lx, ly])
  obtain ⟨m1, m2⟩ := forall₂_max (a := wx.map FItem.s) (b := wy.map FItem.s) (by simp [lx, ly])
  have hc1 := hx.chain
  have hc2 := hy.chain
  rw [h2] at hc1
  rw [h3] at hc2
  have es : ∀ f : SItem 𝕜 → NDArray 𝕜, (is.map fun i => fitem i.s (f i)).map FItem.s = is.map SItem.s := by
    intro f; rw [List.map_map]; rfl
  have et : ∀ f : SItem 𝕜 → NDArray 𝕜, (is.map fun i => fitem i.s (f i)).map FItem.t = is.map f := by
    intro f; rw [List.map_map]; rfl
  have w1 : WChain κ ν (is.map fun i => fitem i.s i.t) := hcx.mono hκ hν (by rw [et SItem.t, hwx, h2]) (by rw [es SItem.t, h4]; exact m1)
  have w2 : WChain κ ν (is.map fun i => fitem i.s i.u) := hcy.mono hκ hν (by rw [et SItem.u, hwy, h3]) (by rw [es SItem.u, h4]; exact m2)
  refine ⟨is.map fun i => fitem i.s i.z, by rw [et SItem.z, h1], h5.wchain hκ hν hc1 hc2 w1 w2, ?_, ?_⟩
  · unfold fprod
    rw [es SItem.z, h4]
  · intro c hc d hd
    rw [h1] at hc
    obtain ⟨i, hi, rfl⟩ := List.mem_map.1 hc
    obtain ⟨a, b, hsum⟩ := h5.site i hi
    have hit : ∀ d ∈ i.t.shape, 0 < d := px i.t (by rw [h2]; exact List.mem_map_of_mem hi)
    rw [NDArray.shape_local hsum.lt] at hit
    rw [NDArray.shape_local hsum.lz, ← hsum.pt] at hd
    simp only [List.cons_append, List.mem_cons, List.mem_append, List.not_mem_nil, or_false] at hit hd
    have hl := hit i.t.lb (Or.inl rfl)
    have hr := hit i.t.rb (Or.inr (Or.inr rfl))
    rcases hd with rfl | hd | rfl
    · rw [hsum.lb]; unfold bond; split <;> omega
    · exact hit d (Or.inr (Or.inl hd))
    · rw [hsum.rb]; unfold bond; split <;> omega

/-! ### Models -/

/-- `sum` of the builtins for arrays, with the function `ad` for `numpy.add`. -/
def pySumF (ad : NDArray 𝕜 → NDArray 𝕜 → Py (NDArray 𝕜)) (ts : List (NDArray 𝕜)) : Py (NDArray 𝕜) :=
  match ts with
  | [] => .error .type
  | t :: ts => ts.foldlM ad t

/-- `MPArray.__add__` (mparray.py:349-360) with the function `ad` for `numpy.add`.  With more than one site, the local tensors are
only copied into larger arrays. -/
def MPA.addF (ad : NDArray 𝕜 → NDArray 𝕜 → Py (NDArray 𝕜)) (x y : MPA 𝕜) : Py (MPA 𝕜) := do
  pyAssert (x.len = y.len)
  if x.len = 1 then
    let hs ← nexts [x.lt, y.lt]
    let s ← pySumF ad hs
    mkMPA [s]
  else
    let hs ← nexts [x.lt, y.lt]
    let c ← concatLast hs
    let cs ← sumRest (x.len - 1) [x.lt.tail, y.lt.tail]
    mkMPA (c :: cs)

/-- `MPArray.__sub__` (mparray.py:362-363) with the function `ad` for `numpy.add`.  The multiplication by `-1` is exact in floating point
arithmetic. -/
def MPA.subF (ad : NDArray 𝕜 → NDArray 𝕜 → Py (NDArray 𝕜)) (x y : MPA 𝕜) : Py (MPA 𝕜) := do
  let y' ← y.mul (-1)
  x.addF ad y'

/-- `normdist` (mparray.py:1438-1446) with functions for the numerical routines. -/
noncomputable def normdistF (qr : QR 𝕜) (md : NDArray 𝕜 → NDArray 𝕜 → Py (NDArray 𝕜)) (nrm : NDArray 𝕜 → ℝ)
    (ad : NDArray 𝕜 → NDArray 𝕜 → Py (NDArray 𝕜)) (x y : MPA 𝕜) : Py ℝ := do
  let d ← x.subF ad y
  let (v, _) ← normF qr md nrm d
  return v

theorem addF_exact (x y : MPA 𝕜) : x.addF NDArray.add y = x.add y := rfl
theorem subF_exact (x y : MPA 𝕜) : x.subF NDArray.add y = x.sub y := rfl
theorem normdistF_exact (qr : QR 𝕜) (x y : MPA 𝕜) : normdistF qr matdot npNorm NDArray.add x y = normdist qr x y := rfl

/-- Contract of `numpy.add` for arrays of the same shape: each entry has the relative error `ε`. -/
def AdNear (ε : ℝ) (ad : NDArray 𝕜 → NDArray 𝕜 → Py (NDArray 𝕜)) : Prop := ∀ a b : NDArray 𝕜, a.shape = b.shape →
  ∃ c, ad a b = .ok c ∧ c.shape = a.shape ∧ ∀ i, InB i a.shape → ‖a.get i + b.get i - c.get i‖ ≤ ε * ‖a.get i + b.get i‖

/-- The 2-norm of the difference of `x + y` and `z`. -/
noncomputable def MPA.addErr (x y z : MPA 𝕜) : ℝ := Real.sqrt (sumSites x.shape fun i => ‖x.val i + y.val i - z.val i‖ ^ 2)

theorem addF_two (ad : NDArray 𝕜 → NDArray 𝕜 → Py (NDArray 𝕜)) {x y : MPA 𝕜} (h : x.len ≠ 1) : x.addF ad y = x.add y := by
  unfold MPA.addF MPA.add
  simp only [if_neg h]

theorem mp_one {c : NDArray 𝕜} (hb : c.rb = 1) (p : List ℕ) : entry [c] [p] = c.get (0 :: (p ++ [0])) := by
  unfold entry
  simp only [mp_cons, mp_nil, mul_ite, mul_one, mul_zero]
  rw [Finset.sum_ite_eq', if_pos (by simp [hb])]
  rfl

/-- The sum of two MPAs with one site. -/
theorem addF_one {ε : ℝ} {ad : NDArray 𝕜 → NDArray 𝕜 → Py (NDArray 𝕜)} (had : AdNear ε ad) {x y : MPA 𝕜} (hx : x.Valid)
    (hy : y.Valid) (hs : y.shape = x.shape) (h1 : x.len = 1) (px : AllPos x.lt) :
    ∃ z, x.addF ad y = .ok z ∧ z.Valid ∧ AllPos z.lt ∧ z.shape = x.shape ∧ z.l = 0 ∧ z.r = z.len ∧
      ∀ i, IdxOK i x.shape → ‖x.val i + y.val i - z.val i‖ ≤ ε * ‖x.val i + y.val i‖ := by
  obtain ⟨xl, a, b⟩ := x
  obtain ⟨yl, a', b'⟩ := y
  have hlen : yl.length = xl.length := by
    have := congrArg List.length hs
    simpa [MPA.shape] using this
  have hl1 : xl.length = 1 := h1
  obtain ⟨t, rfl⟩ := List.length_eq_one_iff.1 hl1
  obtain ⟨u, rfl⟩ := List.length_eq_one_iff.1 (hlen.trans hl1)
  obtain ⟨htl, htb, hte⟩ := hx.chain
  obtain ⟨hul, hub, hue⟩ := hy.chain
  have hte : t.rb = 1 := hte
  have hue : u.rb = 1 := hue
  have hph : u.ph = t.ph := by simpa [MPA.shape, physShape] using hs
  have hst : t.shape = 1 :: (t.ph ++ [1]) := by rw [NDArray.shape_local htl, htb, hte]
  have hsu : u.shape = 1 :: (t.ph ++ [1]) := by rw [NDArray.shape_local hul, hub, hue, hph]
  obtain ⟨c, k1, k2, k3⟩ := had t u (by rw [hst, hsu])
  have hcl : c.IsLocal := by unfold NDArray.IsLocal NDArray.ndim; rw [k2]; exact htl
  have hclb : c.lb = 1 := by unfold NDArray.lb; rw [k2, hst]; rfl
  have hcrb : c.rb = 1 := by unfold NDArray.rb at hte ⊢; rw [k2]; exact hte
  have hcph : c.ph = t.ph := by unfold NDArray.ph; rw [k2]
  have hch : Chained 1 [c] 1 := ⟨hcl, hclb, hcrb⟩
  refine ⟨⟨[c], 0, 1⟩, ?_, ⟨by simp, hch, le_rfl, by simp, by simp [MPA.len]⟩, ?_, ?_, rfl, rfl, ?_⟩
  · unfold MPA.addF
    rw [pyAssert_true (show MPA.len ⟨[t], a, b⟩ = MPA.len ⟨[u], a', b'⟩ from rfl), ok_bind, if_pos h1]
    show (pySumF ad [t, u] >>= _) = _
    rw [show pySumF ad [t, u] = .ok c by show (ad t u >>= _) = _; rw [k1]; rfl, ok_bind, mkMPA_ok (by simp) hch]
    rfl
  · intro w hw
    rw [List.mem_singleton] at hw
    rw [hw, k2]
    exact px t (by simp)
  · show [c.ph] = [t.ph]
    rw [hcph]
  · intro i hi
    obtain ⟨p, rfl, hp⟩ : ∃ p, i = [p] ∧ InB p t.ph := by
      cases hi with
      | cons h1 h2 => cases h2; exact ⟨_, rfl, h1⟩
    show ‖entry [t] [p] + entry [u] [p] - entry [c] [p]‖ ≤ ε * ‖entry [t] [p] + entry [u] [p]‖
    rw [mp_one hte, mp_one hue, mp_one hcrb]
    refine k3 _ ?_
    rw [hst]
    exact .cons one_pos (inB_append hp (.cons one_pos .nil))

end Mpnum
