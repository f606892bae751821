import Verif.MPArray.ToArray
import Verif.Valid

/-!
# Model of `from_array`, `_extract_factors`, `from_kron`, `full_rank` (/repo/mpnum/mparray.py)
-/

open Finset

namespace Mpnum

variable {R : Type}

/-- A QR routine (`numpy.linalg.qr`, imported in mparray.py:25): matrix ↦ (q, r). -/
abbrev QR (R : Type) := NDArray R → NDArray R × NDArray R

/-- Contract of `numpy.linalg.qr` in reduced mode: for an `m × n` matrix `A`, `q` is `m × k` with
orthonormal columns, `r` is `k × n` with `k = min m n`, and `q r = A`. -/
def QRSpec [CommRing R] [StarRing R] (qr : QR R) : Prop :=
  ∀ (A : NDArray R) (m n : ℕ), A.shape = [m, n] →
    (qr A).1.shape = [m, min m n] ∧ (qr A).2.shape = [min m n, n] ∧
    (∀ i < m, ∀ j < n, ∑ k ∈ range (min m n), (qr A).1.get [i, k] * (qr A).2.get [k, j]
      = A.get [i, j]) ∧
    (∀ k < min m n, ∀ k' < min m n,
      ∑ i ∈ range m, star ((qr A).1.get [i, k]) * (qr A).1.get [i, k'] = if k = k' then 1 else 0)

/-- The argument `ndims` of `from_array`: one integer, or one integer per site. -/
inductive NdimsArg
  | const (n : ℕ)
  | each (ns : List ℕ)

/-- `_extract_factors` (mparray.py:1781-1802).  The list holds the values that `next(ndims)` will
return; `onEmpty` is the exception raised when it is exhausted. -/
def extractFactors (qr : QR R) (onEmpty : PyErr) : List ℕ → NDArray R → Py (List (NDArray R))
  | [], _ => .error onEmpty
  | c :: cs, t =>
    if t.ndim = c + 2 then .ok [t]
    else if t.ndim < c + 2 then .error .assertion
    else do
      let mat ← t.reshape [((t.shape.take (c + 1)).prod : ℕ), -1]
      let (unitary, rest) := qr mat
      let unitary ← unitary.reshape
        ((t.shape.take (c + 1) ++ rest.shape.take 1).map (fun n : ℕ => (n : ℤ)))
      let rest ← rest.reshape
        ((rest.shape.take 1 ++ t.shape.drop (c + 1)).map (fun n : ℕ => (n : ℤ)))
      let tail ← extractFactors qr onEmpty cs rest
      return unitary :: tail

/-- `_extract_factors(tens, ndims)` for both kinds of `ndims`.  A constant is used again in every
recursive call; with `ndims = 0` and physical legs left the recursion does not end
(`RecursionError`), otherwise it makes at most `tens.ndim` calls. -/
def extractFactorsArg (qr : QR R) (nd : NdimsArg) (t : NDArray R) : Py (List (NDArray R)) :=
  match nd with
  | .const n => extractFactors qr .recursion (List.replicate (t.ndim + 1) n) t
  | .each ns => extractFactors qr .stopIteration ns t

/-- `MPArray.from_array` (mparray.py:206-246); `ndims=None` means `array.ndim`. -/
def fromArray (qr : QR R) (array : NDArray R) (ndims : Option NdimsArg) (hasVirtual : Bool) :
    Py (MPA R) := do
  let nd := ndims.getD (.const array.ndim)
  let array := if hasVirtual then array else array.addBonds
  let ltens ← extractFactorsArg qr nd array
  mkLT ltens (some (ltens.length - 1)) (some ltens.length)

/-- `MPArray.from_kron` (mparray.py:248-257) -/
def fromKron (factors : List (NDArray R)) : Py (MPA R) := mkMPA (factors.map NDArray.addBonds)

/-- `full_rank` (mparray.py:2062-2086), leg sizes given as one tuple per site. -/
def fullRank (ldims : List (List ℕ)) : List ℕ :=
  let raveled := ldims.map List.prod
  (List.range (ldims.length - 1)).map fun c =>
    min (raveled.take (c + 1)).prod (raveled.drop (c + 1)).prod

section extract
variable [CommRing R] [StarRing R]

/-- Ranks produced by the factorisation of a tensor with outer bonds `l`, `r` and physical shape `P`:
the bond behind the first `c + 1` sites. -/
def cutRank (l r : ℕ) (P : List (List ℕ)) (c : ℕ) : ℕ :=
  min (l * (P.take (c + 1)).flatten.prod) ((P.drop (c + 1)).flatten.prod * r)

theorem flatten_pos {P : List (List ℕ)} (h : ∀ p ∈ P, ∀ d ∈ p, 0 < d) : 0 < P.flatten.prod := by
  apply list_prod_pos
  intro d hd
  obtain ⟨p, hp, hd⟩ := List.mem_flatten.1 hd
  exact h p hp d hd

theorem extract_ok {qr : QR R} (hqr : QRSpec qr) (e : PyErr) (extra : List ℕ) :
    ∀ (P : List (List ℕ)), P ≠ [] → (P.length = 1 ∨ P.getLast? ≠ some []) →
      (∀ p ∈ P, ∀ d ∈ p, 0 < d) →
      ∀ (l r : ℕ) (t : NDArray R), 0 < l → 0 < r → t.shape = l :: (P.flatten ++ [r]) →
      ∃ ts, extractFactors qr e (P.map List.length ++ extra) t = .ok ts ∧ Chained l ts r ∧
        physShape ts = P ∧ Rep l ts r t ∧ (∀ u ∈ ts.dropLast, LCanon u) ∧
        ts.tail.map NDArray.lb = (List.range (P.length - 1)).map (cutRank l r P) := by
  intro P
  induction P with
  | nil => intro h; exact absurd rfl h
  | cons p P ih =>
    intro _ hlast hpos l r t hl hr hs
    cases P with
    | nil =>
      have hs' : t.shape = l :: (p ++ [r]) := by simpa using hs
      refine ⟨[t], ?_, ?_, ?_, ?_, by simp, by simp⟩
      · simp only [List.map_cons, List.map_nil, List.cons_append, extractFactors]
        rw [if_pos (by simp [NDArray.ndim, hs'])]
      · exact ⟨NDArray.isLocal_of_shape hs', NDArray.lb_of_shape hs', NDArray.rb_of_shape hs'⟩
      · simp [physShape, NDArray.ph_of_shape hs']
      · have := rep_single (NDArray.isLocal_of_shape hs')
        rwa [NDArray.lb_of_shape hs', NDArray.rb_of_shape hs'] at this
    | cons q P =>
      set Q := q :: P with hQ
      have hQne : Q ≠ [] := by simp [hQ]
      have hlast' : Q.getLast? ≠ some [] := by
        rcases hlast with h | h
        · simp [hQ] at h
        · simpa [hQ] using h
      have hposQ : ∀ p ∈ Q, ∀ d ∈ p, 0 < d := fun p' hp' => hpos p' (by simp [hp'])
      have hposp : ∀ d ∈ p, 0 < d := hpos p (by simp)
      have hQfl : Q.flatten ≠ [] := by
        obtain ⟨z, hz⟩ : ∃ z, Q.getLast? = some z := ⟨_, List.getLast?_eq_some_getLast hQne⟩
        have hz' : z ∈ Q := List.mem_of_getLast? hz
        have hzne : z ≠ [] := by rintro rfl; exact hlast' hz
        obtain ⟨d, hd⟩ := List.exists_mem_of_ne_nil z hzne
        intro h
        have : d ∈ Q.flatten := List.mem_flatten.2 ⟨z, hz', hd⟩
        rw [h] at this; cases this
      have hs1 : t.shape = (l :: p) ++ (Q.flatten ++ [r]) := by simpa using hs
      have htake : t.shape.take (p.length + 1) = l :: p := by
        rw [hs1]; exact List.take_left' (by simp)
      have hdrop : t.shape.drop (p.length + 1) = Q.flatten ++ [r] := by
        rw [hs1]; exact List.drop_left' (by simp)
      set m := (l :: p).prod with hm
      set n := (Q.flatten ++ [r]).prod with hn
      have hpp : 0 < p.prod := list_prod_pos hposp
      have hmpos : 0 < m := by rw [hm, List.prod_cons]; exact Nat.mul_pos hl hpp
      have hQp : 0 < Q.flatten.prod := flatten_pos hposQ
      have hnpos : 0 < n := by
        rw [hn, List.prod_append]; simpa using Nat.mul_pos hQp hr
      set mat := t.reshapeTo [m, n] with hmat
      obtain ⟨hq1, hq2, hq3, hq4⟩ := hqr mat m n rfl
      set k := min m n with hk
      have hkpos : 0 < k := by omega
      set u := (qr mat).1.reshapeTo ((l :: p) ++ [k]) with hu
      set rest := (qr mat).2.reshapeTo (k :: (Q.flatten ++ [r])) with hrest
      obtain ⟨ts, h1, h2, h3, h4, h5, h6⟩ :=
        ih hQne (Or.inr hlast') hposQ k r rest hkpos hr rfl
      have hus : u.shape = l :: (p ++ [k]) := by simp [hu]
      -- entries of the three matrices
      have hmatget : ∀ i j, InB i (l :: p) → InB j (Q.flatten ++ [r]) →
          mat.get [ravelIdx (l :: p) i, ravelIdx (Q.flatten ++ [r]) j] = t.get (i ++ j) := by
        intro i j hi hj
        have := NDArray.reshapeTo_blocks2 (a := t) (T := [m]) (T' := [n])
          (i := [ravelIdx (l :: p) i]) (j := [ravelIdx (Q.flatten ++ [r]) j]) hs1
          (by simp [hm]) (by simp [hn]) (by simp only [inB_cons, inB_nil, and_true]; exact ravelIdx_lt hi)
          (by simp only [inB_cons, inB_nil, and_true]; exact ravelIdx_lt hj)
        simp only [ravelIdx_single, unravel_ravel hi, unravel_ravel hj] at this
        exact this
      have huget : ∀ i b, InB i (l :: p) → b < k →
          u.get (i ++ [b]) = (qr mat).1.get [ravelIdx (l :: p) i, b] := by
        intro i b hi hb
        have := NDArray.reshapeTo_blocks2 (a := (qr mat).1) (S := [m]) (S' := [k]) (T := l :: p)
          (T' := [k]) (i := i) (j := [b]) hq1 (by simp [hm]) rfl hi (by simpa using hb)
        simp only [ravelIdx_single, unravelIdx_single, List.singleton_append] at this
        exact this
      have hrget : ∀ b j, b < k → InB j (Q.flatten ++ [r]) →
          rest.get (b :: j) = (qr mat).2.get [b, ravelIdx (Q.flatten ++ [r]) j] := by
        intro b j hb hj
        have := NDArray.reshapeTo_blocks2 (a := (qr mat).2) (S := [k]) (S' := [n]) (T := [k])
          (T' := Q.flatten ++ [r]) (i := [b]) (j := j) hq2 rfl (by simp [hn]) (by simpa using hb) hj
        simpa using this
      have hulb : u.lb = l := NDArray.lb_of_shape hus
      have hurb : u.rb = k := NDArray.rb_of_shape hus
      have huph : u.ph = p := NDArray.ph_of_shape hus
      have hch : Chained l (u :: ts) r := ⟨NDArray.isLocal_of_shape hus, hulb, hurb ▸ h2⟩
      refine ⟨u :: ts, ?_, hch, ?_, ?_, ?_, ?_⟩
      · simp only [List.map_cons, List.cons_append, extractFactors]
        have hnd : t.ndim = p.length + 2 + Q.flatten.length := by
          simp [NDArray.ndim, hs1]; omega
        have hQlen : 0 < Q.flatten.length := List.length_pos_of_ne_nil hQfl
        rw [if_neg (by omega), if_neg (by omega), htake, hdrop]
        have e1 : t.reshape [((l :: p).prod : ℕ), -1] = .ok mat := by
          have := NDArray.reshape_infer (a := t) (d := n) (s := [m]) (t := [])
            (by rw [hs1, List.prod_append]; simp [hm, hn]) (by simpa using hmpos)
          exact this
        rw [e1]
        have e2 : (qr mat).2.shape.take 1 = [k] := by rw [hq2]; rfl
        have e3 : (qr mat).1.reshape ((l :: p ++ [k]).map (fun n : ℕ => (n : ℤ))) = .ok u :=
          NDArray.reshape_nat (by rw [hq1, List.prod_append]; simp only [hm, List.prod_cons])
        have e4 : (qr mat).2.reshape (([k] ++ (Q.flatten ++ [r])).map (fun n : ℕ => (n : ℤ)))
            = .ok rest := NDArray.reshape_nat (by rw [hq2]; simp [hn])
        show (do
          let unitary ← (qr mat).1.reshape
            ((l :: p ++ (qr mat).2.shape.take 1).map (fun n : ℕ => (n : ℤ)))
          let rest ← (qr mat).2.reshape
            (((qr mat).2.shape.take 1 ++ (Q.flatten ++ [r])).map (fun n : ℕ => (n : ℤ)))
          let tail ← extractFactors qr e (Q.map List.length ++ extra) rest
          return unitary :: tail) = _
        rw [e2, e3, e4]
        show (do
          let tail ← extractFactors qr e (Q.map List.length ++ extra) rest
          return u :: tail) = _
        rw [h1]; rfl
      · simp only [physShape, List.map_cons, huph] at h3 ⊢
        rw [h3]
      · refine ⟨?_, ?_⟩
        · rw [hs1]
          simp only [physShape, List.map_cons, huph] at h3 ⊢
          rw [h3]; simp
        · intro a ha b hb idx hi
          cases idx with
          | nil => cases hi
          | cons i is =>
            simp only [physShape, List.map_cons, idxOK_cons, huph] at hi
            have hi2 : IdxOK is Q := by rw [← h3]; exact hi.2
            have hai : InB (a :: i) (l :: p) := by simp [ha, hi.1]
            have hj : InB (is.flatten ++ [b]) (Q.flatten ++ [r]) :=
              inB_append (idxOK_flatten hi2) (by simp [hb])
            have e1 : a :: ((i :: is).flatten ++ [b]) = (a :: i) ++ (is.flatten ++ [b]) := by simp
            rw [e1, ← hmatget _ _ hai hj, ← hq3 _ (ravelIdx_lt hai) _ (ravelIdx_lt hj), mp_cons, hurb]
            refine Finset.sum_congr rfl fun x hx => ?_
            have hx' : x < k := by simpa using hx
            rw [← huget _ _ hai hx', ← hrget _ _ hx' hj, h4.2 x hx' b hb is hi.2]
            rfl
      · intro v hv
        have hts : ts ≠ [] := by
          intro h; rw [h] at h3; simp [physShape, hQ] at h3
        rw [List.dropLast_cons_of_ne_nil hts] at hv
        rcases List.mem_cons.1 hv with rfl | hv
        · intro b hb b' hb'
          rw [hurb] at hb hb'
          rw [hulb, huph]
          have e := hq4 b hb b' hb'
          rw [← e]
          have e2 : (∑ a ∈ range l, sumIdx p fun p' => star (u.at3 a p' b) * u.at3 a p' b')
              = sumIdx (l :: p) fun i => star (u.get (i ++ [b])) * u.get (i ++ [b']) := rfl
          have e3 := sumIdx_ravel (l :: p) (fun z => star ((qr mat).1.get [z, b]) *
            (qr mat).1.get [z, b'])
          rw [e2, hm, ← e3]
          refine sumIdx_congr fun i hi => ?_
          simp only [huget i b hi hb, huget i b' hi hb']
        · exact h5 v hv
      · -- ranks
        have hts : ts = ts.head (by intro h; rw [h] at h3; simp [physShape, hQ] at h3) :: ts.tail := by
          simp
        simp only [List.tail_cons]
        have hlb : ts.map NDArray.lb = k :: ts.tail.map NDArray.lb := by
          cases ts with
          | nil => simp [physShape, hQ] at h3
          | cons v vs => simp [h2.2.1]
        rw [hlb, h6]
        have hlen : (p :: Q).length - 1 = (Q.length - 1) + 1 := by simp [hQ]
        rw [hlen, List.range_succ_eq_map, List.map_cons, List.map_map]
        congr 1
        · simp [cutRank, hk, hm, hn]
        · apply List.map_congr_left
          intro c _
          simp only [cutRank, Function.comp, List.take_succ_cons, List.drop_succ_cons,
            List.flatten_cons, List.prod_append]
          have hsplit : Q.flatten.prod = (Q.take (c + 1)).flatten.prod * (Q.drop (c + 1)).flatten.prod := by
            rw [← List.prod_append, ← List.flatten_append, List.take_append_drop]
          have hA : 0 < (Q.take (c + 1)).flatten.prod :=
            flatten_pos fun p' hp' => hposQ p' (List.mem_of_mem_take hp')
          have hkk : k = min (l * p.prod) (Q.flatten.prod * r) := by simp [hk, hm, hn]
          rw [hkk, hsplit]
          set A := (Q.take (c + 1)).flatten.prod
          set B := (Q.drop (c + 1)).flatten.prod
          rw [min_mul_of_nonneg _ _ (Nat.zero_le A), show l * (p.prod * A) = l * p.prod * A by ring]
          have : B * r ≤ A * B * r * A := by
            calc B * r = 1 * (B * r) * 1 := by ring
              _ ≤ A * (B * r) * A := by
                apply Nat.mul_le_mul _ hA
                exact Nat.mul_le_mul_right _ hA
              _ = A * B * r * A := by ring
          omega

end extract

end Mpnum
