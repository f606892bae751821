import Verif.Linalg.Contract
import Verif.Props.C34

/-! Entries of the arrays computed by the contractions of /repo/mpnum/linalg.py. -/

open Finset

namespace Mpnum

variable {R : Type} [CommRing R] [StarRing R]

namespace NamedArray

variable {N : Type} [DecidableEq N]

/-- A named array with the given names, dimensions and entries. -/
structure Is (x : NamedArray N R) (names : List N) (δ : N → ℕ) (f : (N → ℕ) → R) : Prop where
  wf : x.WF
  names_eq : x.names = names
  dims : ∀ n ∈ names, x.dim n = δ n
  val : ∀ σ, x.at' σ = f σ

omit [CommRing R] [StarRing R] in
theorem is_mk {a : NDArray R} {names : List N} {δ : N → ℕ} (h : a.shape = names.map δ) (h2 : names.Nodup) :
    ∃ z, mk' a names = .ok z ∧ z.Is names δ fun σ => a.get (names.map σ) := by
  have hl : a.shape.length = names.length := by rw [h]; simp
  refine ⟨⟨a, names⟩, mk'_ok hl h2, ⟨hl, h2⟩, rfl, ?_, fun σ => rfl⟩
  intro n hn
  unfold dim
  have hlt := List.idxOf_lt_length_iff.2 hn
  rw [h, List.getD_eq_getElem _ _ (by simpa using hlt), List.getElem_map, List.getElem_idxOf]

omit [StarRing R] in
theorem Is.tensordot {x y : NamedArray N R} {ns ms : List N} {δ ε : N → ℕ} {f g : (N → ℕ) → R}
    (hx : x.Is ns δ f) (hy : y.Is ms ε g) (axes : List (N × N)) (ζ : N → ℕ) (names : List N)
    (hn : names = ns.filter (· ∉ axes.map Prod.fst) ++ ms.filter (· ∉ axes.map Prod.snd))
    (h1 : ∀ p ∈ axes, p.1 ∈ ns ∧ p.2 ∈ ms ∧ δ p.1 = ε p.2)
    (n1 : (axes.map Prod.fst).Nodup) (n2 : (axes.map Prod.snd).Nodup)
    (hc : ∀ n ∈ ns, n ∈ ms → n ∈ axes.map Prod.fst ∨ n ∈ axes.map Prod.snd)
    (hζ1 : ∀ n ∈ ns, n ∉ axes.map Prod.fst → ζ n = δ n) (hζ2 : ∀ n ∈ ms, n ∉ axes.map Prod.snd → ζ n = ε n) :
    ∃ z, x.tensordot y axes = .ok z ∧ z.Is names ζ fun σ => sumIdx (axes.map fun p => δ p.1) fun k =>
      f (upd σ (axes.map Prod.fst) k) * g (upd σ (axes.map Prod.snd) k) := by
  obtain ⟨z, g1, g2, g3, g4, g5, g6⟩ := tensordot_ok hx.wf hy.wf (axes := axes)
    (fun p hp => by rw [hx.names_eq]; exact (h1 p hp).1) (fun p hp => by rw [hy.names_eq]; exact (h1 p hp).2.1)
    (fun p hp => by rw [hx.dims _ (h1 p hp).1, hy.dims _ (h1 p hp).2.1]; exact (h1 p hp).2.2) n1 n2
    (by rw [hx.names_eq, hy.names_eq]; exact hc)
  refine ⟨z, g1, g2, by rw [g3, hx.names_eq, hy.names_eq, hn], ?_, ?_⟩
  · intro n hn'
    rw [hn] at hn'
    simp only [List.mem_append, List.mem_filter, decide_eq_true_eq] at hn'
    rcases hn' with ⟨a, b⟩ | ⟨a, b⟩
    · rw [g4 n (by rw [hx.names_eq]; exact a) b, hx.dims n a, hζ1 n a b]
    · rw [g5 n (by rw [hy.names_eq]; exact a) b, hy.dims n a, hζ2 n a b]
  · intro σ
    rw [g6 σ]
    have : (axes.map fun p => x.dim p.1) = axes.map fun p => δ p.1 :=
      List.map_congr_left fun p hp => hx.dims _ (h1 p hp).1
    rw [this]
    refine sumIdx_congr fun k _ => ?_
    rw [hx.val, hy.val]

omit [CommRing R] [StarRing R] in
theorem Is.rename {x : NamedArray N R} {ns : List N} {δ : N → ℕ} {f : (N → ℕ) → R}
    (hx : x.Is ns δ f) (tr : List (N × N)) (ζ : N → ℕ) (names : List N) (hn : names = ns.map (renamed tr))
    (h1 : ∀ p ∈ tr, p.1 ∈ ns) (hd : (tr.map Prod.fst).Nodup) (hnd : names.Nodup)
    (hζ : ∀ n ∈ ns, ζ (renamed tr n) = δ n) :
    ∃ z, x.rename tr = .ok z ∧ z.Is names ζ fun σ => f (σ ∘ renamed tr) := by
  obtain ⟨z, g1, g2, g3, g4, g5⟩ := rename_ok hx.wf (translate := tr) (fun p hp => by rw [hx.names_eq]; exact h1 p hp) hd
    (by rw [hx.names_eq, ← hn]; exact hnd)
  refine ⟨z, g1, g2, by rw [g3, hx.names_eq, hn], ?_, fun σ => by rw [g5, hx.val]⟩
  intro n hn'
  rw [hn] at hn'
  obtain ⟨m, hm, rfl⟩ := List.mem_map.1 hn'
  rw [g4 m (by rw [hx.names_eq]; exact hm), hζ m hm, hx.dims m hm]

theorem Is.conj {x : NamedArray N R} {ns : List N} {δ : N → ℕ} {f : (N → ℕ) → R}
    (hx : x.Is ns δ f) : ∃ z, x.conj = .ok z ∧ z.Is ns δ fun σ => star (f σ) := by
  obtain ⟨z, g1, g2, g3, g4, g5⟩ := conj_ok hx.wf
  exact ⟨z, g1, g2, by rw [g3, hx.names_eq], fun n hn => by rw [g4, hx.dims n hn], fun σ => by rw [g5, hx.val]⟩

omit [CommRing R] [StarRing R] in
theorem Is.toArray {x : NamedArray N R} {ns : List N} {δ : N → ℕ} {f : (N → ℕ) → R}
    (hx : x.Is ns δ f) {order : List N} (ho : order.Perm ns) :
    ∃ a, x.toArray order = .ok a ∧ a.shape = order.map δ ∧ ∀ σ, a.get (order.map σ) = f σ := by
  obtain ⟨a, g1, g2, g3⟩ := toArray_ok hx.wf (order := order) (by rw [hx.names_eq]; exact ho)
  refine ⟨a, g1, ?_, fun σ => by rw [g3, hx.val]⟩
  rw [g2]
  exact List.map_congr_left fun n hn => hx.dims n (ho.subset hn)

end NamedArray

theorem eigLeftvecAdd_ok {L W T U : NDArray R} {d w d' e v e' p q : ℕ} (hL : L.shape = [d, w, d'])
    (hW : W.shape = [w, q, p, v]) (hT : T.shape = [d, p, e]) (hU : U.shape = [d', q, e']) :
    ∃ N, eigLeftvecAdd L W T U = .ok N ∧ N.shape = [e, v, e'] ∧
      ∀ a y c, N.get [a, y, c] = ∑ z ∈ range d', ∑ r ∈ range q, (∑ x ∈ range w, ∑ s ∈ range p,
        (∑ i ∈ range d, L.get [i, x, z] * T.get [i, s, a]) * W.get [x, r, s, y]) * star (U.get [z, r, c]) := by
  obtain ⟨l0, e1, i1⟩ := NamedArray.is_mk (a := L) (names := [Ax.mpsBond, .mpoBond, .ccMpsBond])
    (δ := fun n => match n with | .mpsBond => d | .mpoBond => w | _ => d') hL (by decide)
  obtain ⟨w0, e2, i2⟩ := NamedArray.is_mk (a := W) (names := [Ax.leftMpoBond, .physRow, .physCol, .rightMpoBond])
    (δ := fun n => match n with | .leftMpoBond => w | .physRow => q | .physCol => p | _ => v) hW (by decide)
  obtain ⟨t0, e3, i3⟩ := NamedArray.is_mk (a := T) (names := [Ax.leftMpsBond, .phys, .rightMpsBond])
    (δ := fun n => match n with | .leftMpsBond => d | .phys => p | _ => e) hT (by decide)
  obtain ⟨u0, e4, i4⟩ := NamedArray.is_mk (a := U) (names := [Ax.leftMpsBond, .phys, .rightMpsBond])
    (δ := fun n => match n with | .leftMpsBond => d' | .phys => q | _ => e') hU (by decide)
  obtain ⟨z1, f1, j1⟩ := i1.tensordot i3 [(.mpsBond, .leftMpsBond)]
    (fun n => match n with | .mpoBond => w | .ccMpsBond => d' | .phys => p | _ => e)
    [.mpoBond, .ccMpsBond, .phys, .rightMpsBond] rfl (by simp) (by simp) (by simp) (by simp) (by simp) (by simp)
  obtain ⟨z2, f2, j2⟩ := j1.rename [(.rightMpsBond, .mpsBond)]
    (fun n => match n with | .mpoBond => w | .ccMpsBond => d' | .phys => p | _ => e)
    [.mpoBond, .ccMpsBond, .phys, .mpsBond] rfl (by simp) (by simp) (by decide) (by simp [NamedArray.renamed])
  obtain ⟨z3, f3, j3⟩ := j2.tensordot i2 [(.mpoBond, .leftMpoBond), (.phys, .physCol)]
    (fun n => match n with | .ccMpsBond => d' | .mpsBond => e | .physRow => q | _ => v)
    [.ccMpsBond, .mpsBond, .physRow, .rightMpoBond] rfl (by simp) (by simp) (by simp) (by simp) (by simp) (by simp)
  obtain ⟨u1, e5, i5⟩ := i4.conj
  obtain ⟨z4, f4, j4⟩ := j3.tensordot i5 [(.ccMpsBond, .leftMpsBond), (.physRow, .phys)]
    (fun n => match n with | .mpsBond => e | .rightMpoBond => v | _ => e')
    [.mpsBond, .rightMpoBond, .rightMpsBond] rfl (by simp) (by simp) (by simp) (by simp) (by simp) (by simp)
  obtain ⟨z5, f5, j5⟩ := j4.rename [(.rightMpoBond, .mpoBond), (.rightMpsBond, .ccMpsBond)]
    (fun n => match n with | .mpsBond => e | .mpoBond => v | _ => e')
    [.mpsBond, .mpoBond, .ccMpsBond] rfl (by simp) (by simp) (by decide) (by simp [NamedArray.renamed])
  obtain ⟨N, f6, f7, f8⟩ := j5.toArray (order := [.mpsBond, .mpoBond, .ccMpsBond]) (List.Perm.refl _)
  refine ⟨N, ?_, f7, ?_⟩
  · unfold eigLeftvecAdd
    simp only [e1, e2, e3, e4, e5, f1, f2, f3, f4, f5, f6, ok_bind]
  · intro a y c
    have := f8 (fun n => match n with | .mpsBond => a | .mpoBond => y | _ => c)
    refine Eq.trans this ?_
    simp only [List.map_cons, List.map_nil, sumIdx_cons, sumIdx_nil]
    rfl

theorem eigRightvecAdd_ok {L W T : NDArray R} {d w e v p q : ℕ} (hL : L.shape = [e, v, e])
    (hW : W.shape = [w, q, p, v]) (hT : T.shape = [d, p, e]) (hpq : p = q) :
    ∃ N, eigRightvecAdd L W T = .ok N ∧ N.shape = [d, w, d] ∧
      ∀ a y c, N.get [a, y, c] = ∑ z ∈ range e, ∑ r ∈ range q, (∑ x ∈ range v, ∑ s ∈ range p,
        (∑ i ∈ range e, L.get [i, x, z] * T.get [a, s, i]) * W.get [y, r, s, x]) * star (T.get [c, r, z]) := by
  subst hpq
  obtain ⟨l0, e1, i1⟩ := NamedArray.is_mk (a := L) (names := [Ax.mpsBond, .mpoBond, .ccMpsBond])
    (δ := fun n => match n with | .mpsBond => e | .mpoBond => v | _ => e) hL (by decide)
  obtain ⟨w0, e2, i2⟩ := NamedArray.is_mk (a := W) (names := [Ax.leftMpoBond, .physRow, .physCol, .rightMpoBond])
    (δ := fun n => match n with | .leftMpoBond => w | .physRow => p | .physCol => p | _ => v) hW (by decide)
  obtain ⟨t0, e3, i3⟩ := NamedArray.is_mk (a := T) (names := [Ax.leftMpsBond, .phys, .rightMpsBond])
    (δ := fun n => match n with | .leftMpsBond => d | .phys => p | _ => e) hT (by decide)
  obtain ⟨z1, f1, j1⟩ := i1.tensordot i3 [(.mpsBond, .rightMpsBond)]
    (fun n => match n with | .mpoBond => v | .ccMpsBond => e | .leftMpsBond => d | _ => p)
    [.mpoBond, .ccMpsBond, .leftMpsBond, .phys] rfl (by simp) (by simp) (by simp) (by simp) (by simp) (by simp)
  obtain ⟨z2, f2, j2⟩ := j1.rename [(.leftMpsBond, .mpsBond)]
    (fun n => match n with | .mpoBond => v | .ccMpsBond => e | .phys => p | _ => d)
    [.mpoBond, .ccMpsBond, .mpsBond, .phys] rfl (by simp) (by simp) (by decide) (by simp [NamedArray.renamed])
  obtain ⟨z3, f3, j3⟩ := j2.tensordot i2 [(.mpoBond, .rightMpoBond), (.phys, .physCol)]
    (fun n => match n with | .ccMpsBond => e | .mpsBond => d | .physRow => p | _ => w)
    [.ccMpsBond, .mpsBond, .leftMpoBond, .physRow] rfl (by simp) (by simp) (by simp) (by simp) (by simp) (by simp)
  obtain ⟨u1, e5, i5⟩ := i3.conj
  obtain ⟨z4, f4, j4⟩ := j3.tensordot i5 [(.ccMpsBond, .rightMpsBond), (.physRow, .phys)]
    (fun n => match n with | .mpsBond => d | .leftMpoBond => w | _ => d)
    [.mpsBond, .leftMpoBond, .leftMpsBond] rfl (by simp) (by simp) (by simp) (by simp) (by simp) (by simp)
  obtain ⟨z5, f5, j5⟩ := j4.rename [(.leftMpoBond, .mpoBond), (.leftMpsBond, .ccMpsBond)]
    (fun n => match n with | .mpsBond => d | .mpoBond => w | _ => d)
    [.mpsBond, .mpoBond, .ccMpsBond] rfl (by simp) (by simp) (by decide) (by simp [NamedArray.renamed])
  obtain ⟨N, f6, f7, f8⟩ := j5.toArray (order := [.mpsBond, .mpoBond, .ccMpsBond]) (List.Perm.refl _)
  refine ⟨N, ?_, f7, ?_⟩
  · unfold eigRightvecAdd
    simp only [e1, e2, e3, e5, f1, f2, f3, f4, f5, f6, ok_bind]
  · intro a y c
    have := f8 (fun n => match n with | .mpsBond => a | .mpoBond => y | _ => c)
    refine Eq.trans this ?_
    simp only [List.map_cons, List.map_nil, sumIdx_cons, sumIdx_nil]
    rfl

theorem sub_assoc3 {A : Type} (x y z : List A) : x ++ (y ++ z) = x ++ y ++ z := (List.append_assoc x y z).symm

/-- The local tensors of an MPO on a block of sites, contracted to one tensor with one row and one column leg. -/
theorem mpoBlock_ok {ws : List (NDArray R)} {w v : ℕ} {D : List ℕ} (hch : Chained w ws v)
    (hne : ws ≠ []) (hsh : physShape ws = pairs D D) :
    ∃ A B, (match ws with | [] => Except.error PyErr.index | t :: ts => ts.foldlM matdot t) = .ok A ∧
      localToGlobal A ws.length 1 1 = .ok B ∧ B.shape = w :: (D ++ D ++ [v]) ∧
      ∀ I J y z, InB I D → InB J D → y < w → z < v →
        B.get (y :: (I ++ J ++ [z])) = mp ws (pairs I J) y z := by
  obtain ⟨A, h1, h2⟩ := ltensToArray_ok hch hne
  have hlen : ws.length = D.length := by
    have := congrArg List.length hsh
    simpa [physShape] using this
  have hpos : 0 < ws.length := List.length_pos_of_ne_nil hne
  have hs := h2.1
  rw [hsh, ← bySite_pairs rfl] at hs
  obtain ⟨B, g1, g2, g3⟩ := localToGlobal_ok (a := A) (sites := D.length) (plegs := 2) (by omega) (L := [w]) (P := [v])
    (d := fun n k => if k = 0 then D.getD n 0 else D.getD n 0) (by rw [hs]; simp)
  refine ⟨A, B, ?_, by rw [hlen]; exact g1, ?_, ?_⟩
  · cases ws with
    | nil => exact absurd rfl hne
    | cons t ts => exact h1
  · rw [g2, byLeg_pairs rfl]; simp
  · intro I J y z hI hJ hy hz
    have hIl := inB_length hI
    have hJl := inB_length hJ
    have := g3 [y] (fun n k => if k = 0 then I.getD n 0 else J.getD n 0) [z] rfl rfl
    rw [show D.length = I.length from hIl.symm, bySite_pairs (by omega), byLeg_pairs (by omega)] at this
    have h3 := h2.2 y hy z hz (pairs I J) (by rw [hsh]; exact pairs_idxOK hI hJ)
    rw [← h3]
    simpa using this

theorem eigLocalOp_ok {L Rv : NDArray R} {ws : List (NDArray R)} {d w d' e v e' : ℕ} {D : List ℕ}
    (hL : L.shape = [d, w, d']) (hR : Rv.shape = [e, v, e']) (hch : Chained w ws v) (hne : ws ≠ [])
    (hsh : physShape ws = pairs D D) (hpos : 0 < (d' :: (D ++ [e'])).prod) :
    ∃ N, eigLocalOp L ws Rv = .ok N ∧ N.shape = [(d' :: (D ++ [e'])).prod, (d :: (D ++ [e])).prod] ∧
      ∀ a I b a' J b', a < d → InB I D → b < e → a' < d' → InB J D → b' < e' →
        N.get [ravelIdx (d' :: (D ++ [e'])) (a' :: (I ++ [b'])), ravelIdx (d :: (D ++ [e])) (a :: (J ++ [b]))]
          = ∑ y' ∈ range v, (∑ y ∈ range w, L.get [a, y, a'] * mp ws (pairs I J) y y') * Rv.get [b, y', b'] := by
  obtain ⟨A, B, h1, h2, h3, h4⟩ := mpoBlock_ok hch hne hsh
  have hlen : ws.length = D.length := by
    have := congrArg List.length hsh
    simpa [physShape] using this
  have hs4 : [(B.shape.headD 0 : ℤ), (((B.shape.tail.take ws.length).prod : ℕ) : ℤ),
      (((B.shape.drop (1 + ws.length)).dropLast.prod : ℕ) : ℤ), (B.shape.getLastD 0 : ℤ)]
      = [w, D.prod, D.prod, v].map (fun n : ℕ => (n : ℤ)) := by
    rw [h3, hlen]
    have e1 : (w :: (D ++ D ++ [v])).tail.take D.length = D := by
      rw [List.tail_cons, List.append_assoc]; exact List.take_left
    have e2 : ((w :: (D ++ D ++ [v])).drop (1 + D.length)).dropLast = D := by
      rw [Nat.add_comm, List.drop_succ_cons, List.append_assoc, List.drop_left, List.dropLast_concat]
    have e3 : (w :: (D ++ D ++ [v])).getLastD 0 = v := by
      rw [← List.cons_append, List.getLastD_eq_getLast?, List.getLast?_concat]; rfl
    rw [e1, e2, e3]
    rfl
  have hre : B.reshape ([w, D.prod, D.prod, v].map (fun n : ℕ => (n : ℤ)))
      = .ok (B.reshapeTo [w, D.prod, D.prod, v]) :=
    NDArray.reshape_nat (by rw [h3]; simp [List.prod_append])
  obtain ⟨M, hM⟩ : ∃ M, M = B.reshapeTo [w, D.prod, D.prod, v] := ⟨_, rfl⟩
  have hMs : M.shape = [w, D.prod, D.prod, v] := by rw [hM]; rfl
  have hMg : ∀ I J y z, InB I D → InB J D → y < w → z < v →
      M.get [y, ravelIdx D I, ravelIdx D J, z] = mp ws (pairs I J) y z := by
    intro I J y z hI hJ hy hz
    rw [← h4 I J y z hI hJ hy hz, hM]
    have := NDArray.reshapeTo_blocks3 (a := B) (S := [w]) (S' := D) (S'' := D ++ [v]) (T := [w]) (T' := [D.prod])
      (T'' := [D.prod, v]) (i := [y]) (j := [ravelIdx D I]) (k := [ravelIdx D J, z]) (by rw [h3]; simp) rfl
      (by simp) (by simp) (by simpa using hy) (by simpa using ravelIdx_lt hI)
      (by simpa using ⟨ravelIdx_lt hJ, hz⟩)
    refine Eq.trans this ?_
    have r1 : ravelIdx [D.prod, v] [ravelIdx D J, z] = ravelIdx (D ++ [v]) (J ++ [z]) := by
      rw [ravelIdx_append _ _ (inB_length hJ)]; simp [ravelIdx]
    rw [r1, unravel_ravel (inB_append hJ (by simpa using hz))]
    simp only [ravelIdx_single, unravelIdx_single, unravel_ravel hI]
    simp
  obtain ⟨l0, e1, i1⟩ := NamedArray.is_mk (a := L) (names := [Ax.leftMpsBond, .leftMpoBond, .leftCcMpsBond])
    (δ := fun n => match n with | .leftMpsBond => d | .leftMpoBond => w | _ => d') hL (by decide)
  obtain ⟨w0, e2, i2⟩ := NamedArray.is_mk (a := M) (names := [Ax.leftMpoBond, .physRow, .physCol, .rightMpoBond])
    (δ := fun n => match n with | .leftMpoBond => w | .physRow => D.prod | .physCol => D.prod | _ => v) hMs (by decide)
  obtain ⟨r0, e3, i3⟩ := NamedArray.is_mk (a := Rv) (names := [Ax.rightMpsBond, .rightMpoBond, .rightCcMpsBond])
    (δ := fun n => match n with | .rightMpsBond => e | .rightMpoBond => v | _ => e') hR (by decide)
  obtain ⟨z1, f1, j1⟩ := i1.tensordot i2 [(.leftMpoBond, .leftMpoBond)]
    (fun n => match n with | .leftMpsBond => d | .leftCcMpsBond => d' | .physRow => D.prod | .physCol => D.prod | _ => v)
    [.leftMpsBond, .leftCcMpsBond, .physRow, .physCol, .rightMpoBond] rfl (by simp) (by simp) (by simp) (by simp)
    (by simp) (by simp)
  obtain ⟨z2, f2, j2⟩ := j1.tensordot i3 [(.rightMpoBond, .rightMpoBond)]
    (fun n => match n with | .leftMpsBond => d | .leftCcMpsBond => d' | .physRow => D.prod | .physCol => D.prod | .rightMpsBond => e | _ => e')
    [.leftMpsBond, .leftCcMpsBond, .physRow, .physCol, .rightMpsBond, .rightCcMpsBond] rfl (by simp) (by simp) (by simp)
    (by simp) (by simp) (by simp)
  obtain ⟨N, f3, f4, f5⟩ := j2.toArray (order := [.leftCcMpsBond, .physRow, .rightCcMpsBond, .leftMpsBond, .physCol,
    .rightMpsBond]) (by decide)
  have f4' : N.shape = [d', D.prod, e'] ++ [d, D.prod, e] := f4
  have hpr : ∀ a b, (a :: (D ++ [b])).prod = [a, D.prod, b].prod := by intro a b; simp
  have hre2 : N.reshape [(((N.shape.take 3).prod : ℕ) : ℤ), -1]
      = .ok (N.reshapeTo [(d' :: (D ++ [e'])).prod, (d :: (D ++ [e])).prod]) := by
    have := NDArray.reshape_infer (a := N) (s := [(d' :: (D ++ [e'])).prod]) (d := (d :: (D ++ [e])).prod) (t := [])
      (by rw [f4', List.prod_append, hpr, hpr]; simp) (by simpa using hpos)
    rw [f4', hpr] at *
    simpa using this
  refine ⟨N.reshapeTo [(d' :: (D ++ [e'])).prod, (d :: (D ++ [e])).prod], ?_, rfl, ?_⟩
  rotate_left
  · intro a I b a' J b' ha hI hb ha' hJ hb'
    have := NDArray.reshapeTo_blocks2 (a := N) (S := [d', D.prod, e']) (S' := [d, D.prod, e])
      (T := [(d' :: (D ++ [e'])).prod]) (T' := [(d :: (D ++ [e])).prod])
      (i := [ravelIdx (d' :: (D ++ [e'])) (a' :: (I ++ [b']))]) (j := [ravelIdx (d :: (D ++ [e])) (a :: (J ++ [b]))])
      f4' (by simp) (by simp)
      (by simpa using ravelIdx_lt (inB_cons' ha' (inB_append hI (show InB [b'] [e'] by simpa using hb'))))
      (by simpa using ravelIdx_lt (inB_cons' ha (inB_append hJ (show InB [b] [e] by simpa using hb))))
    refine Eq.trans this ?_
    have rr : ∀ (a b l r : ℕ) (K : List ℕ), InB K D → ravelIdx (l :: (D ++ [r])) (a :: (K ++ [b]))
        = ravelIdx [l, D.prod, r] [a, ravelIdx D K, b] := by
      intro a b l r K hK
      have := ravelIdx_append (s := D) (t := [r]) (i := K) (j := [b]) (inB_length hK)
      simp [ravelIdx, this]
    rw [ravelIdx_single, ravelIdx_single, rr _ _ _ _ _ hI, rr _ _ _ _ _ hJ,
      unravel_ravel (s := [d', D.prod, e']) (by simpa using ⟨ha', ravelIdx_lt hI, hb'⟩),
      unravel_ravel (s := [d, D.prod, e]) (by simpa using ⟨ha, ravelIdx_lt hJ, hb⟩)]
    have h8 := f5 (fun n => match n with | .leftCcMpsBond => a' | .physRow => ravelIdx D I | .rightCcMpsBond => b' | .leftMpsBond => a | .physCol => ravelIdx D J | _ => b)
    refine Eq.trans h8 ?_
    simp only [List.map_cons, List.map_nil, sumIdx_cons, sumIdx_nil]
    refine Finset.sum_congr rfl fun y' hy' => ?_
    refine congrArg₂ (· * ·) (Finset.sum_congr rfl fun y hy => ?_) rfl
    rw [← hMg I J y y' hI hJ (by simpa using hy) (by simpa using hy')]
    rfl
  · cases ws with
    | nil => exact absurd rfl hne
    | cons t ts =>
    have h1' : ts.foldlM matdot t = .ok A := h1
    unfold eigLocalOp
    simp only [h1', ok_bind, h2, hs4, hre, ← hM, e1, e2, e3, f1, f2, f3, hre2]

end Mpnum
