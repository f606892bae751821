import Verif.Povm.LocalPovm
import Mathlib.LinearAlgebra.Matrix.PosDef
import Mathlib.Analysis.Matrix.PosDef
import Mathlib.Analysis.RCLike.Basic
import Mathlib.Analysis.Complex.Order

/-! # C40: local POVMs are complete and positive -/

open Finset Classical
open scoped ComplexOrder

namespace Mpnum

/-- Specification: element `k` of an array of `d × d` matrices. -/
def elemMatrix (a : NDArray ℂ) (d k : ℕ) : Matrix (Fin d) (Fin d) ℂ := fun x y => a.get [k, x, y]

/-- Specification: `a` is a POVM with `n` elements on a `d`-dimensional system: its elements are
positive semidefinite and sum to the identity. -/
structure IsPovm (a : NDArray ℂ) (n d : ℕ) : Prop where
  shape : a.shape = [n, d, d]
  psd : ∀ k < n, (elemMatrix a d k).PosSemidef
  sum : ∑ k ∈ range n, elemMatrix a d k = 1

theorem posSemidef_of_entries {a : NDArray ℂ} {d k : ℕ} {v : ℕ → ℂ} {c : ℝ} (hc : 0 ≤ c)
    (h : ∀ x y, a.get [k, x, y] = (c : ℂ) * (v x * star (v y))) : (elemMatrix a d k).PosSemidef := by
  have : elemMatrix a d k = (c : ℂ) • Matrix.vecMulVec (fun x : Fin d => v x) (star fun x : Fin d => v x) := by
    ext x y
    simp only [elemMatrix, h, Matrix.smul_apply, Matrix.vecMulVec_apply, smul_eq_mul, Pi.star_apply]
  rw [this]
  exact (Matrix.posSemidef_vecMulVec_self_star _).smul (Complex.zero_le_real.2 hc)

theorem list_sum_getElem {M : Type} [AddCommMonoid M] (l : List M) (g : ℕ → M) {n : ℕ} (hn : l.length = n)
    (h : ∀ k q, l[k]? = some q → g k = q) : ∑ k ∈ range n, g k = l.sum := by
  induction l generalizing g n with
  | nil => subst hn; rfl
  | cons a l ih =>
    subst hn
    rw [List.length_cons, sum_range_succ', List.sum_cons, add_comm, h 0 a rfl,
      ih (fun k => g (k + 1)) rfl fun k q hq => h (k + 1) q hq]

theorem xyPovm_isPovm {w : ℂ} (hw : w * star w = 1) {d : ℕ} (hd : 2 ≤ d) :
    ∃ v, povmVectors w d = .ok v ∧ IsPovm (fromVectors v) (d * (d - 1)) d := by
  obtain ⟨v, h1, h2, h3, h4⟩ := xyPovm_ok w hd
  have hd1 : (0 : ℝ) < (d : ℝ) - 1 := by
    have : (2 : ℝ) ≤ d := by exact_mod_cast hd
    linarith
  have hd2 : ((d : ℂ) - 1) ≠ 0 := by
    have : ((d : ℝ) - 1 : ℝ) ≠ 0 := hd1.ne'
    intro h
    apply this
    have h' : (((d : ℝ) - 1 : ℝ) : ℂ) = 0 := by push_cast; exact h
    exact_mod_cast h'
  refine ⟨v, h1, by simp [fromVectors, h2], ?_, ?_⟩
  · intro k hk
    have hq : ∃ q, (povmRows w (povmPairs d))[k]? = some q := by
      rw [← h3] at hk
      exact ⟨_, List.getElem?_eq_getElem hk⟩
    obtain ⟨q, hq⟩ := hq
    refine posSemidef_of_entries (v := rowVal q) (c := 1 / (2 * ((d : ℝ) - 1))) (by positivity) ?_
    intro x y
    rw [h4 k q hq x y]
    push_cast
    ring
  · ext x y
    rw [Matrix.sum_apply]
    simp only [elemMatrix]
    rw [list_sum_getElem ((povmRows w (povmPairs d)).map fun q => rowVal q x * star (rowVal q y) / (2 * ((d : ℂ) - 1)))
      (fun k => (fromVectors v).get [k, x, y]) (by rw [List.length_map, h3]) (by
        intro k q hq
        rw [List.getElem?_map] at hq
        obtain ⟨q', hq', rfl⟩ := Option.map_eq_some_iff.1 hq
        exact h4 k q' hq' x y)]
    unfold povmRows
    rw [List.map_flatMap, List.flatMap_def, List.sum_flatten, List.map_map]
    have hterm : (povmPairs d).map (List.sum ∘ fun p => ([(p.1, p.2, w), (p.1, p.2, -w)] : List (ℕ × ℕ × ℂ)).map
        fun q => rowVal q x * star (rowVal q y) / (2 * ((d : ℂ) - 1)))
        = (povmPairs d).map fun p => (fun i : ℕ => (if (x : ℕ) = i then 1 else 0) * (if (y : ℕ) = i then 1 else 0) / ((d : ℂ) - 1)) p.1
          + (fun i : ℕ => (if (x : ℕ) = i then 1 else 0) * (if (y : ℕ) = i then 1 else 0) / ((d : ℂ) - 1)) p.2 := by
      refine List.map_congr_left fun p hp => ?_
      have hne : p.1 ≠ p.2 := (mem_povmPairs.1 hp).1.ne
      simp only [Function.comp_apply, List.map_cons, List.map_nil, List.sum_cons, List.sum_nil, add_zero]
      rw [rowVal_eq (q := (p.1, p.2, w)) hne, rowVal_eq (q := (p.1, p.2, w)) hne,
        rowVal_eq (q := (p.1, p.2, -w)) hne, rowVal_eq (q := (p.1, p.2, -w)) hne]
      have hs : ∀ (P : Prop) [Decidable P], star (if P then (1 : ℂ) else 0) = if P then 1 else 0 := by
        intro P _; split_ifs <;> simp
      simp only [star_add, star_mul', star_neg, hs]
      field_simp
      have h2 := hw
      generalize (if (x : ℕ) = p.1 then (1 : ℂ) else 0) = A
      generalize (if (x : ℕ) = p.2 then (1 : ℂ) else 0) = B
      generalize (if (y : ℕ) = p.1 then (1 : ℂ) else 0) = C
      generalize (if (y : ℕ) = p.2 then (1 : ℂ) else 0) = D
      linear_combination (2 * B * D) * hw
    rw [hterm, sum_pairs_add (d := d) (fun i : ℕ => (if (x : ℕ) = i then 1 else 0) * (if (y : ℕ) = i then 1 else 0) / ((d : ℂ) - 1)), mul_sum]
    rw [sum_congr rfl fun i _ => mul_div_cancel₀ _ hd2]
    rw [Matrix.one_apply]
    by_cases hxy : x = y
    · subst hxy
      simp [x.2]
    · have : (x : ℕ) ≠ y := fun h => hxy (Fin.ext h)
      rw [if_neg hxy]
      refine sum_eq_zero fun i _ => ?_
      by_cases hi : (x : ℕ) = i
      · rw [if_neg (c := (y : ℕ) = i) (fun h => this (hi.trans h.symm)), mul_zero]
      · rw [if_neg hi, zero_mul]

/-- C40: `x_povm(d)` is a POVM for every `d ≥ 2`. -/
theorem C40_x_povm (d : ℕ) (hd : 2 ≤ d) : ∃ a, xPovm d = .ok a ∧ IsPovm a (d * (d - 1)) d := by
  obtain ⟨v, h1, h2⟩ := xyPovm_isPovm (w := 1) (by simp) hd
  exact ⟨_, by unfold xPovm; rw [h1]; rfl, h2⟩

/-- C40: `y_povm(d)` is a POVM for every `d ≥ 2`. -/
theorem C40_y_povm (d : ℕ) (hd : 2 ≤ d) : ∃ a, yPovm d = .ok a ∧ IsPovm a (d * (d - 1)) d := by
  obtain ⟨v, h1, h2⟩ := xyPovm_isPovm (w := Complex.I) (by simp) hd
  exact ⟨_, by unfold yPovm; rw [h1]; rfl, h2⟩

/-- C40: `z_povm(d)` is a POVM for every `d`. -/
theorem C40_z_povm (d : ℕ) : IsPovm (zPovm d) d d := by
  have hget : ∀ k x y, (zPovm d).get [k, x, y]
      = ((1 : ℝ) : ℂ) * ((if k = x then 1 else 0) * star (if k = y then 1 else 0 : ℂ)) := by
    intro k x y; simp [zPovm, fromVectors]
  refine ⟨rfl, fun k hk => posSemidef_of_entries (v := fun x => if k = x then 1 else 0) zero_le_one
    fun x y => hget k x y, ?_⟩
  ext x y
  rw [Matrix.sum_apply, Matrix.one_apply]
  simp only [elemMatrix, hget]
  by_cases hxy : x = y
  · subst hxy
    simp [x.2]
  · have : (x : ℕ) ≠ y := fun h => hxy (Fin.ext h)
    rw [if_neg hxy]
    refine sum_eq_zero fun i _ => ?_
    by_cases hi : i = (x : ℕ)
    · rw [if_neg (c := i = (y : ℕ)) (fun h => this (hi.symm.trans h))]; simp
    · rw [if_neg hi]; simp

theorem povmElems_get {a : NDArray ℂ} {n d : ℕ} (hs : a.shape = [n, d, d]) :
    povmElems a = (List.range n).map fun k => ⟨[d, d], fun i => a.get (k :: i)⟩ := by
  unfold povmElems; rw [hs]; rfl

/-- The list of elements in `concat`. -/
theorem asArray_ok {es : List (NDArray ℂ)} {d : ℕ} (hne : es ≠ []) (h : ∀ e ∈ es, e.shape = [d, d]) :
    ∃ a, asArray es = .ok a ∧ a.shape = [es.length, d, d] ∧
      ∀ (k : ℕ) e, es[k]? = some e → ∀ j, a.get (k :: j) = e.get j := by
  obtain ⟨e, es, rfl⟩ := List.exists_cons_of_ne_nil hne
  refine ⟨_, if_pos fun f hf => ?_, ?_, ?_⟩
  · rw [h f (by simp [hf]), h e (by simp)]
  · simp [h e (by simp)]
  · intro k f hf j
    simp only [hf, Option.map_some, Option.getD_some]

theorem concat_elems {d : ℕ} : ∀ (povms : List (NDArray ℂ × ℕ)) (weights : List ℝ),
    povms.length = weights.length → (∀ p ∈ povms, IsPovm p.1 p.2 d) →
    ∀ es, es = (List.zipWith (fun (p : NDArray ℂ) (w : ℝ) => (povmElems p).map fun e => e.smul (w : ℂ))
      (povms.map Prod.fst) weights).flatten →
    es.length = (povms.map Prod.snd).sum ∧ (∀ e ∈ es, e.shape = [d, d]) ∧
    (∀ x y : Fin d, (es.map fun e => e.get [(x : ℕ), (y : ℕ)]).sum
      = (weights.sum : ℂ) * (1 : Matrix (Fin d) (Fin d) ℂ) x y) ∧
    ((∀ w ∈ weights, 0 ≤ w) → ∀ e ∈ es,
      (Matrix.of fun x y : Fin d => e.get [(x : ℕ), (y : ℕ)]).PosSemidef) := by
  intro povms
  induction povms with
  | nil =>
    intro weights hl _ es hes
    obtain rfl : weights = [] := List.length_eq_zero_iff.1 hl.symm
    subst hes
    simp
  | cons p povms ih =>
    intro weights hl hp es hes
    obtain ⟨w, ws, rfl⟩ := List.exists_cons_of_length_eq_add_one hl.symm
    obtain ⟨g1, g2, g3, g4⟩ := ih ws (by simpa using hl) (fun q hq => hp q (by simp [hq])) _ rfl
    have hpp := hp p (by simp)
    rw [List.map_cons, List.zipWith_cons_cons, List.flatten_cons, povmElems_get hpp.shape, List.map_map] at hes
    subst hes
    refine ⟨?_, ?_, ?_, ?_⟩
    · rw [List.length_append, g1]; simp
    · intro e he
      rcases List.mem_append.1 he with he | he
      · obtain ⟨k, _, rfl⟩ := List.mem_map.1 he; rfl
      · exact g2 e he
    · intro x y
      rw [List.map_append, List.sum_append, g3 x y, List.map_map, list_sum_range, List.sum_cons]
      have := congrFun (congrFun hpp.sum x) y
      rw [Matrix.sum_apply] at this
      simp only [elemMatrix] at this
      simp only [Function.comp, NDArray.smul]
      rw [← mul_sum, this]
      push_cast
      ring
    · intro hw e he
      rcases List.mem_append.1 he with he | he
      · obtain ⟨k, hk, rfl⟩ := List.mem_map.1 he
        have := (hpp.psd k (List.mem_range.1 hk)).smul (Complex.zero_le_real.2 (hw w (by simp)))
        convert this using 1
        ext x y
        rfl
      · exact g4 (fun v hv => hw v (by simp [hv])) e he

/-- C40: `concat(povms, weights)` of POVMs on the same system is a POVM if the weights are
non-negative and sum to one. -/
theorem C40_concat (d : ℕ) (povms : List (NDArray ℂ × ℕ)) (weights : List ℝ)
    (hl : povms.length = weights.length) (hp : ∀ p ∈ povms, IsPovm p.1 p.2 d)
    (hn : (povms.map Prod.snd).sum ≠ 0) (hw : ∀ w ∈ weights, 0 ≤ w) (hs : weights.sum = 1) :
    ∃ a, concatPovm (povms.map Prod.fst) weights = .ok a ∧ IsPovm a (povms.map Prod.snd).sum d := by
  obtain ⟨es, hes⟩ : ∃ es, es = (List.zipWith (fun (p : NDArray ℂ) (w : ℝ) =>
    (povmElems p).map fun e => e.smul (w : ℂ)) (povms.map Prod.fst) weights).flatten := ⟨_, rfl⟩
  obtain ⟨g1, g2, g3, g4⟩ := concat_elems povms weights hl hp es hes
  obtain ⟨a, h1, h2, h3⟩ := asArray_ok (es := es) (d := d) (by
    intro h0; rw [h0] at g1; exact hn g1.symm) g2
  refine ⟨a, ?_, by rw [h2, g1], ?_, ?_⟩
  · unfold concatPovm
    rw [pyAssert, if_pos (by rw [hs]; norm_num), ← hes]
    exact h1
  · intro k hk
    rw [← g1] at hk
    have he := List.getElem?_eq_getElem hk
    have := g4 hw _ (List.getElem_mem hk)
    convert this using 1
    ext x y
    exact h3 k _ he _
  · ext x y
    rw [Matrix.sum_apply]
    simp only [elemMatrix]
    rw [list_sum_getElem (es.map fun e => e.get [(x : ℕ), (y : ℕ)]) (fun k => a.get [k, x, y]) (by simpa using g1)
      (by
        intro k q hq
        rw [List.getElem?_map] at hq
        obtain ⟨e, he, rfl⟩ := Option.map_eq_some_iff.1 hq
        exact h3 k e he _), g3, hs]
    simp

/-- C40, error branch: weights which do not sum to one. -/
theorem C40_concat_weights (povms : List (NDArray ℂ)) (weights : List ℝ)
    (h : 3 / 20000000 ≤ |weights.sum - 1|) : concatPovm povms weights = .error .assertion := by
  unfold concatPovm
  rw [pyAssert, if_neg (not_lt.2 h)]; rfl

/-- C40: `pauli_povm(d)` is a POVM for every `d ≥ 2`. -/
theorem C40_pauli_povm (d : ℕ) (hd : 2 ≤ d) :
    ∃ a, pauliPovm d = .ok a ∧
      IsPovm a (if d = 2 then 6 else 2 * (d * (d - 1))) d := by
  obtain ⟨x, hx, px⟩ := C40_x_povm d hd
  obtain ⟨y, hy, py⟩ := C40_y_povm d hd
  have pz := C40_z_povm d
  by_cases h2 : d = 2
  · subst h2
    obtain ⟨a, h1, h2⟩ := C40_concat 2 [(x, 2), (y, 2), (zPovm 2, 2)] [1/3, 1/3, 1/3] rfl
      (by simp [px, py, pz]) (by simp) (by intro w hw; simp at hw; subst hw; norm_num) (by norm_num)
    refine ⟨a, ?_, by simpa using h2⟩
    unfold pauliPovm pauliParts
    rw [hx, hy]
    simp only [pyAssert, bind, Except.bind, if_true, show (1 : ℕ) < 2 by norm_num]
    simp only [List.map_cons, List.map_nil] at h1
    rw [← h1]
    simp [List.replicate]
  · have hpos : d * (d - 1) ≠ 0 := by
      have : 0 < d - 1 := by omega
      have : 0 < d := by omega
      positivity
    obtain ⟨a, h1, h3⟩ := C40_concat d [(x, d * (d - 1)), (y, d * (d - 1))] [1/2, 1/2] rfl
      (by simp [px, py]) (by simp; omega)
      (by intro w hw; simp at hw; subst hw; norm_num) (by norm_num)
    refine ⟨a, ?_, by
      rw [if_neg h2]
      simpa [two_mul] using h3⟩
    unfold pauliPovm pauliParts
    rw [hx, hy, pyAssert, if_pos (by omega)]
    simp only [bind, Except.bind, h2, if_false]
    simp only [List.map_cons, List.map_nil] at h1
    rw [← h1]
    simp [List.replicate]

/-- C40, error branch: dimension one. -/
theorem C40_pauli_povm_small (d : ℕ) (h : d ≤ 1) : pauliPovm d = .error .assertion := by
  unfold pauliPovm pauliParts
  rw [pyAssert, if_neg (by omega)]; rfl

end Mpnum
