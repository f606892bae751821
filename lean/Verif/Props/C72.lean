import Verif.Props.C71
import Verif.Props.C33
import Verif.Povm.PovmSpec

/-!
# C72: matrix product operators form an algebra with adjoint and trace

The laws are stated about the results of calls of `dot` with its default axes, `adj`, `trace`, `inner` and `norm`.
-/

open Finset

namespace Mpnum

variable {R : Type}

/-- Specification: `x` is an operator: at every site it has a leg of the output space (sizes `M`) and a leg of the input
space (sizes `N`). -/
structure IsOp (x : MPA R) (M N : List ℕ) : Prop where
  valid : x.Valid
  len : M.length = N.length
  shape : x.shape = pairs M N
  ranks : ∀ r ∈ x.ranks, 0 < r

/-- Specification: `x` is a vector with local dimensions `N`. -/
structure IsVec (x : MPA R) (N : List ℕ) : Prop where
  valid : x.Valid
  shape : x.shape = singles N
  ranks : ∀ r ∈ x.ranks, 0 < r

theorem zipWith_mul_pos {A B : List ℕ} (hA : ∀ r ∈ A, 0 < r) (hB : ∀ r ∈ B, 0 < r) :
    ∀ r ∈ List.zipWith (· * ·) A B, 0 < r := by
  intro r hr
  obtain ⟨n, hn, rfl⟩ := List.getElem_of_mem hr
  rw [List.getElem_zipWith]
  exact Nat.mul_pos (hA _ (List.getElem_mem _)) (hB _ (List.getElem_mem _))

theorem sumSites_vec [AddCommMonoid R] (D : List ℕ) (F : List (List ℕ) → R) :
    sumSites (singles D) F = sumIdx D fun K => F (singles K) := by
  induction D generalizing F with
  | nil => rfl
  | cons b B ih => simp only [singles, List.map_cons, sumSites, sumIdx, ih]

section
variable [CommRing R] [StarRing R]

theorem op_dot {x y : MPA R} {M N P : List ℕ} (hx : IsOp x M N) (hy : IsOp y N P) :
    ∃ z, dot x y ([-1], [0]) = .ok z ∧ IsOp z M P ∧ ∀ I J, InB I M → InB J P →
      z.val (pairs I J) = sumIdx N fun K => x.val (pairs I K) * y.val (pairs K J) := by
  obtain ⟨z, h1, h2, h3, h4⟩ := C08_matrix_product x y hx.valid hy.valid M N P hx.len hy.len.symm hx.shape hy.shape
  obtain ⟨z', g1, -, -, -, -, g2, -⟩ := C08_dot x y ([-1], [0]) hx.valid hy.valid
    (dotArgs_pairs hx.len hy.len.symm hx.shape hy.shape)
  rw [h1] at g1
  obtain rfl := Except.ok.inj g1
  exact ⟨z, h1, ⟨h2, hx.len.trans hy.len, h3, by rw [g2]; exact zipWith_mul_pos hx.ranks hy.ranks⟩, h4⟩

theorem op_vec {x y : MPA R} {M N : List ℕ} (hx : IsOp x M N) (hy : IsVec y N) :
    ∃ z, dot x y ([-1], [0]) = .ok z ∧ IsVec z M ∧ ∀ I, InB I M →
      z.val (singles I) = sumIdx N fun K => x.val (pairs I K) * y.val (singles K) := by
  obtain ⟨z, h1, h2, h3, h4, h5⟩ := dot_vector hx.valid hy.valid hx.len hx.shape hy.shape
  exact ⟨z, h1, ⟨h2, h3, by rw [h4]; exact zipWith_mul_pos hx.ranks hy.ranks⟩, h5⟩

theorem op_adj {x : MPA R} {M N : List ℕ} (hx : IsOp x M N) :
    ∃ z, x.adj = .ok z ∧ IsOp z N M ∧ ∀ I J, InB I M → InB J N → z.val (pairs J I) = star (x.val (pairs I J)) := by
  obtain ⟨z, h1, h2, h3, -, h4⟩ := C14_adj x hx.valid
  refine ⟨z, h1, ⟨h2, hx.len.symm, by rw [h3, hx.shape, pairs_reverse], by rw [MPA.adj_ranks h1]; exact hx.ranks⟩, ?_⟩
  intro I J hI hJ
  rw [← h4 _ (by rw [hx.shape]; exact pairs_idxOK hI hJ), pairs_reverse]

theorem op_same {x y : MPA R} {M N : List ℕ} (hx : IsOp x M N) (hy : IsOp y M N)
    (h : ∀ I J, InB I M → InB J N → y.val (pairs I J) = x.val (pairs I J)) : x.Same y := by
  refine ⟨hy.shape.trans hx.shape.symm, fun idx hi => ?_⟩
  rw [hx.shape] at hi
  obtain ⟨I, K, rfl, h1, h2⟩ := idxOK_pairs hx.len hi
  exact h I K h1 h2

theorem op_add {x y : MPA R} {M N : List ℕ} (hx : IsOp x M N) (hy : IsOp y M N) :
    ∃ z, x.add y = .ok z ∧ IsOp z M N ∧ ∀ I J, InB I M → InB J N →
      z.val (pairs I J) = x.val (pairs I J) + y.val (pairs I J) := by
  have hs := hx.shape.trans hy.shape.symm
  obtain ⟨z, h1, h2, h3, h4, h5, h6⟩ := C05_add x y hx.valid hy.valid hs
  refine ⟨z, h1, ⟨h2, hx.len, h3.trans hx.shape, ?_⟩, fun I J hI hJ => h4 _ (by rw [hx.shape]; exact pairs_idxOK hI hJ)⟩
  intro r hr
  obtain ⟨k, hk⟩ := List.mem_iff_getElem?.1 hr
  have hlen : z.len = x.len := by
    have := congrArg List.length h3; simpa [MPA.shape, MPA.len] using this
  have hk' : k + 1 < x.len := by
    have := (List.getElem?_eq_some_iff.1 hk).1
    simp [MPA.ranks, MPA.len] at this hlen ⊢
    omega
  rw [h5 k hk'] at hk
  have hx0 : 0 < x.ranks.getD k 0 := by
    have hkx : k < x.ranks.length := by simp [MPA.ranks, MPA.len] at hk' ⊢; omega
    rw [List.getD_eq_getElem?_getD, List.getElem?_eq_getElem hkx, Option.getD_some]
    exact hx.ranks _ (List.getElem_mem hkx)
  injection hk with hk
  omega

theorem op_trace {x : MPA R} {D : List ℕ} (hx : IsOp x D D) :
    ∃ A, trace x (.same 0 1) = .ok A ∧ A.shape = [] ∧ A.get [] = sumIdx D fun I => x.val (pairs I I) := by
  obtain ⟨A, h1, h2, h3⟩ := C20_trace_mpo x hx.valid D (by rw [hx.shape]; simp [pairs, List.zipWith_self])
  refine ⟨A, h1, h2, ?_⟩
  rw [h3]
  refine sumIdx_congr fun I _ => ?_
  rw [show pairs I I = I.map fun i => [i, i] from by simp [pairs, List.zipWith_self]]

/-- C72: `dot` is associative: `dot(dot(x, y), z)` and `dot(x, dot(y, z))` represent the same operator. -/
theorem C72_assoc {x y z : MPA R} {M N P Q : List ℕ} (hx : IsOp x M N) (hy : IsOp y N P) (hz : IsOp z P Q) :
    ∃ u v, (do let w ← dot x y ([-1], [0]); dot w z ([-1], [0])) = .ok u ∧
      (do let w ← dot y z ([-1], [0]); dot x w ([-1], [0])) = .ok v ∧ IsOp u M Q ∧ u.Same v := by
  obtain ⟨a, a1, a2, a3⟩ := op_dot hx hy
  obtain ⟨u, u1, u2, u3⟩ := op_dot a2 hz
  obtain ⟨b, b1, b2, b3⟩ := op_dot hy hz
  obtain ⟨v, v1, v2, v3⟩ := op_dot hx b2
  refine ⟨u, v, by rw [a1]; exact u1, by rw [b1]; exact v1, u2, op_same u2 v2 fun I J hI hJ => ?_⟩
  rw [u3 I J hI hJ, v3 I J hI hJ]
  have e1 : (sumIdx P fun K => a.val (pairs I K) * z.val (pairs K J)) = sumIdx P fun K => sumIdx N fun L =>
      x.val (pairs I L) * y.val (pairs L K) * z.val (pairs K J) :=
    sumIdx_congr fun K hK => by rw [a3 I K hI hK, sumIdx_mul]
  have e2 : (sumIdx N fun L => x.val (pairs I L) * b.val (pairs L J)) = sumIdx N fun L => sumIdx P fun K =>
      x.val (pairs I L) * y.val (pairs L K) * z.val (pairs K J) :=
    sumIdx_congr fun L hL => by
      rw [b3 L J hL hJ, mul_sumIdx]
      exact sumIdx_congr fun K _ => by ring
  rw [e1, e2, sumIdx_comm]

/-- C72: an operator applied to the result of another is the product applied to the vector. -/
theorem C72_assoc_vec {x y v : MPA R} {M N P : List ℕ} (hx : IsOp x M N) (hy : IsOp y N P) (hv : IsVec v P) :
    ∃ u w, (do let a ← dot x y ([-1], [0]); dot a v ([-1], [0])) = .ok u ∧
      (do let a ← dot y v ([-1], [0]); dot x a ([-1], [0])) = .ok w ∧ IsVec u M ∧ w.shape = u.shape ∧
      ∀ I, InB I M → w.val (singles I) = u.val (singles I) := by
  obtain ⟨a, a1, a2, a3⟩ := op_dot hx hy
  obtain ⟨u, u1, u2, u3⟩ := op_vec a2 hv
  obtain ⟨b, b1, b2, b3⟩ := op_vec hy hv
  obtain ⟨w, v1, v2, v3⟩ := op_vec hx b2
  refine ⟨u, w, by rw [a1]; exact u1, by rw [b1]; exact v1, u2, v2.shape.trans u2.shape.symm, fun I hI => ?_⟩
  rw [u3 I hI, v3 I hI]
  have e1 : (sumIdx P fun K => a.val (pairs I K) * v.val (singles K)) = sumIdx P fun K => sumIdx N fun L =>
      x.val (pairs I L) * y.val (pairs L K) * v.val (singles K) :=
    sumIdx_congr fun K hK => by rw [a3 I K hI hK, sumIdx_mul]
  have e2 : (sumIdx N fun L => x.val (pairs I L) * b.val (singles L)) = sumIdx N fun L => sumIdx P fun K =>
      x.val (pairs I L) * y.val (pairs L K) * v.val (singles K) :=
    sumIdx_congr fun L hL => by
      rw [b3 L hL, mul_sumIdx]
      exact sumIdx_congr fun K _ => by ring
  rw [e1, e2, sumIdx_comm]

/-- C72: `dot` distributes over sums on both sides. -/
theorem C72_distrib {x y z w : MPA R} {M N P : List ℕ} (hx : IsOp x M N) (hy : IsOp y N P) (hz : IsOp z N P)
    (hw : IsOp w M N) :
    ∃ a b c d, (do let s ← y.add z; dot x s ([-1], [0])) = .ok a ∧
      (do let p ← dot x y ([-1], [0]); let q ← dot x z ([-1], [0]); p.add q) = .ok b ∧ a.Same b ∧
      (do let s ← x.add w; dot s y ([-1], [0])) = .ok c ∧
      (do let p ← dot x y ([-1], [0]); let q ← dot w y ([-1], [0]); p.add q) = .ok d ∧ c.Same d := by
  obtain ⟨s, s1, s2, s3⟩ := op_add hy hz
  obtain ⟨a, a1, a2, a3⟩ := op_dot hx s2
  obtain ⟨p, p1, p2, p3⟩ := op_dot hx hy
  obtain ⟨q, q1, q2, q3⟩ := op_dot hx hz
  obtain ⟨b, b1, b2, b3⟩ := op_add p2 q2
  obtain ⟨t, t1, t2, t3⟩ := op_add hx hw
  obtain ⟨c, c1, c2, c3⟩ := op_dot t2 hy
  obtain ⟨r, r1, r2, r3⟩ := op_dot hw hy
  obtain ⟨d, d1, d2, d3⟩ := op_add p2 r2
  refine ⟨a, b, c, d, by rw [s1]; exact a1, by rw [p1, ok_bind, q1, ok_bind]; exact b1, op_same a2 b2 fun I J hI hJ => ?_,
    by rw [t1]; exact c1, by rw [p1, ok_bind, r1, ok_bind]; exact d1, op_same c2 d2 fun I J hI hJ => ?_⟩
  · rw [a3 I J hI hJ, b3 I J hI hJ, p3 I J hI hJ, q3 I J hI hJ, ← sumIdx_add]
    exact sumIdx_congr fun K hK => by rw [s3 K J hK hJ]; ring
  · rw [c3 I J hI hJ, d3 I J hI hJ, p3 I J hI hJ, r3 I J hI hJ, ← sumIdx_add]
    exact sumIdx_congr fun K hK => by rw [t3 I K hI hK]; ring

/-- C72: `dot(x, y).adj()` and `dot(y.adj(), x.adj())` represent the same operator, and `x.adj().adj()` represents `x`. -/
theorem C72_adj {x y : MPA R} {M N P : List ℕ} (hx : IsOp x M N) (hy : IsOp y N P) :
    ∃ u v w, (do let z ← dot x y ([-1], [0]); z.adj) = .ok u ∧
      (do let a ← y.adj; let b ← x.adj; dot a b ([-1], [0])) = .ok v ∧ u.Same v ∧
      (do let a ← x.adj; a.adj) = .ok w ∧ x.Same w := by
  obtain ⟨z, z1, z2, z3⟩ := op_dot hx hy
  obtain ⟨u, u1, u2, u3⟩ := op_adj z2
  obtain ⟨a, a1, a2, a3⟩ := op_adj hy
  obtain ⟨b, b1, b2, b3⟩ := op_adj hx
  obtain ⟨v, v1, v2, v3⟩ := op_dot a2 b2
  obtain ⟨w, w1, w2, w3⟩ := op_adj b2
  refine ⟨u, v, w, by rw [z1]; exact u1, by rw [a1, ok_bind, b1]; exact v1, op_same u2 v2 fun I J hI hJ => ?_,
    by rw [b1]; exact w1, op_same hx w2 fun I J hI hJ => ?_⟩
  · rw [v3 I J hI hJ, u3 J I hJ hI, z3 J I hJ hI, star_sumIdx]
    exact sumIdx_congr fun K hK => by rw [a3 K I hK hI, b3 J K hJ hK, star_mul]
  · rw [w3 J I hJ hI, b3 I J hI hJ, star_star]

/-- C72: `trace(dot(x, y)) = trace(dot(y, x))`. -/
theorem C72_trace_cyclic {x y : MPA R} {M N : List ℕ} (hx : IsOp x M N) (hy : IsOp y N M) :
    ∃ A B, (do let z ← dot x y ([-1], [0]); trace z (.same 0 1)) = .ok A ∧
      (do let z ← dot y x ([-1], [0]); trace z (.same 0 1)) = .ok B ∧ A.shape = [] ∧ B.shape = [] ∧ A.get [] = B.get [] := by
  obtain ⟨z, z1, z2, z3⟩ := op_dot hx hy
  obtain ⟨w, w1, w2, w3⟩ := op_dot hy hx
  obtain ⟨A, A1, A2, A3⟩ := op_trace z2
  obtain ⟨B, B1, B2, B3⟩ := op_trace w2
  refine ⟨A, B, by rw [z1]; exact A1, by rw [w1]; exact B1, A2, B2, ?_⟩
  rw [A3, B3]
  have e1 : (sumIdx M fun I => z.val (pairs I I)) = sumIdx M fun I => sumIdx N fun K =>
      x.val (pairs I K) * y.val (pairs K I) := sumIdx_congr fun I hI => z3 I I hI hI
  have e2 : (sumIdx N fun K => w.val (pairs K K)) = sumIdx N fun K => sumIdx M fun I =>
      x.val (pairs I K) * y.val (pairs K I) := sumIdx_congr fun K hK => by
    rw [w3 K K hK hK]; exact sumIdx_congr fun I _ => mul_comm _ _
  rw [e1, e2, sumIdx_comm]

/-- C72: `trace(dot(x.adj(), y)) = inner(x, y)`, and `trace(x.adj())` is the complex conjugate of `trace(x)`. -/
theorem C72_trace_inner {x y : MPA R} {M N : List ℕ} (hx : IsOp x M N) (hy : IsOp y M N) :
    ∃ A p, (do let a ← x.adj; let z ← dot a y ([-1], [0]); trace z (.same 0 1)) = .ok A ∧ inner x y = .ok p ∧
      A.shape = [] ∧ A.get [] = p := by
  obtain ⟨a, a1, a2, a3⟩ := op_adj hx
  obtain ⟨z, z1, z2, z3⟩ := op_dot a2 hy
  obtain ⟨A, A1, A2, A3⟩ := op_trace z2
  refine ⟨A, _, by rw [a1, ok_bind, z1, ok_bind]; exact A1, C09_inner x y hx.valid hy.valid
    (hx.shape.trans hy.shape.symm) hx.ranks hy.ranks, A2, ?_⟩
  rw [A3, hx.shape, sumSites_pairs M N hx.len, sumIdx_comm]
  refine sumIdx_congr fun K hK => ?_
  rw [z3 K K hK hK]
  exact sumIdx_congr fun I hI => by rw [a3 I K hI hK]

/-- C72: `trace(x.adj())` is the complex conjugate of `trace(x)`. -/
theorem C72_trace_adj {x : MPA R} {D : List ℕ} (hx : IsOp x D D) :
    ∃ A B, trace x (.same 0 1) = .ok A ∧ (do let y ← x.adj; trace y (.same 0 1)) = .ok B ∧ A.shape = [] ∧ B.shape = [] ∧
      B.get [] = star (A.get []) := by
  obtain ⟨a, a1, a2, a3⟩ := op_adj hx
  obtain ⟨A, A1, A2, A3⟩ := op_trace hx
  obtain ⟨B, B1, B2, B3⟩ := op_trace a2
  refine ⟨A, B, A1, by rw [a1]; exact B1, A2, B2, ?_⟩
  rw [A3, B3, star_sumIdx]
  exact sumIdx_congr fun I hI => a3 I I hI hI

/-- C72: `inner(v, dot(x, w)) = inner(dot(x.adj(), v), w)`: `adj` is the adjoint with respect to `inner`. -/
theorem C72_adjoint {x v w : MPA R} {M N : List ℕ} (hx : IsOp x M N) (hv : IsVec v M) (hw : IsVec w N) :
    ∃ p, (do let y ← dot x w ([-1], [0]); inner v y) = .ok p ∧
      (do let a ← x.adj; let y ← dot a v ([-1], [0]); inner y w) = .ok p := by
  obtain ⟨a, a1, a2, a3⟩ := op_adj hx
  obtain ⟨y, y1, y2, y3⟩ := op_vec hx hw
  obtain ⟨z, z1, z2, z3⟩ := op_vec a2 hv
  refine ⟨_, by rw [y1, ok_bind]; exact C09_inner v y hv.valid y2.valid (hv.shape.trans y2.shape.symm) hv.ranks y2.ranks, ?_⟩
  rw [a1, ok_bind, z1, ok_bind, C09_inner z w z2.valid hw.valid (z2.shape.trans hw.shape.symm) z2.ranks hw.ranks,
    z2.shape, hv.shape, sumSites_vec, sumSites_vec]
  congr 1
  have e1 : (sumIdx M fun I => star (v.val (singles I)) * y.val (singles I)) = sumIdx M fun I => sumIdx N fun K =>
      star (v.val (singles I)) * (x.val (pairs I K) * w.val (singles K)) :=
    sumIdx_congr fun I hI => by rw [y3 I hI, mul_sumIdx]
  have e2 : (sumIdx N fun K => star (z.val (singles K)) * w.val (singles K)) = sumIdx N fun K => sumIdx M fun I =>
      star (v.val (singles I)) * (x.val (pairs I K) * w.val (singles K)) :=
    sumIdx_congr fun K hK => by
      rw [z3 K hK, star_sumIdx, sumIdx_mul]
      exact sumIdx_congr fun I hI => by rw [a3 I K hI hK, star_mul, star_star]; ring
  refine Eq.trans e2 (Eq.trans ?_ e1.symm)
  rw [sumIdx_comm]

end

/-- C72: the expectation value `inner(v, dot(dot(x.adj(), x), v))` is the squared norm of `dot(x, v)`, hence real and not
negative. -/
theorem C72_positive {𝕜 : Type} [RCLike 𝕜] {x v : MPA 𝕜} {M N : List ℕ} (hx : IsOp x M N) (hv : IsVec v N) :
    ∃ n : ℝ, 0 ≤ n ∧ (do let z ← dot x v ([-1], [0]); inner z z) = .ok (n : 𝕜) ∧
      (do let a ← x.adj; let p ← dot a x ([-1], [0]); let z ← dot p v ([-1], [0]); inner v z) = .ok (n : 𝕜) := by
  obtain ⟨a, a1, a2, a3⟩ := op_adj hx
  obtain ⟨p, p1, p2, p3⟩ := op_dot a2 hx
  obtain ⟨z, z1, z2, z3⟩ := op_vec p2 hv
  obtain ⟨y, y1, y2, y3⟩ := op_vec hx hv
  obtain ⟨u, w, u1, u2, u3, u4, u5⟩ := C72_assoc_vec a2 hx hv
  rw [p1, ok_bind, z1] at u1
  obtain rfl := Except.ok.inj u1
  rw [y1, ok_bind] at u2
  obtain ⟨w', w1, w2, w3⟩ := op_vec a2 y2
  rw [w1] at u2
  obtain rfl := Except.ok.inj u2
  have hn : (sumIdx M fun I => star (y.val (singles I)) * y.val (singles I))
      = ((sumIdx M fun I => ‖y.val (singles I)‖ ^ 2 : ℝ) : 𝕜) := by
    rw [← sumIdx_ofReal]
    exact sumIdx_congr fun I _ => star_mul_self_eq _
  refine ⟨sumIdx M fun I => ‖y.val (singles I)‖ ^ 2, sumIdx_nonneg fun _ => by positivity, ?_, ?_⟩
  · rw [y1, ok_bind, C09_inner y y y2.valid y2.valid rfl y2.ranks y2.ranks, y2.shape, sumSites_vec, hn]
  · rw [a1, ok_bind, p1, ok_bind, z1, ok_bind, C09_inner v z hv.valid z2.valid (hv.shape.trans z2.shape.symm) hv.ranks
      z2.ranks, hv.shape, sumSites_vec, ← hn]
    congr 1
    have e1 : (sumIdx N fun K => star (v.val (singles K)) * z.val (singles K)) = sumIdx N fun K => sumIdx M fun I =>
        star (x.val (pairs I K) * v.val (singles K)) * y.val (singles I) := sumIdx_congr fun K hK => by
      rw [← u5 K hK, w3 K hK, mul_sumIdx]
      exact sumIdx_congr fun I hI => by rw [a3 I K hI hK, star_mul]; ring
    have e2 : (sumIdx M fun I => star (y.val (singles I)) * y.val (singles I)) = sumIdx M fun I => sumIdx N fun K =>
        star (x.val (pairs I K) * v.val (singles K)) * y.val (singles I) := sumIdx_congr fun I hI => by
      conv_lhs => rw [show star (y.val (singles I)) = sumIdx N fun K => star (x.val (pairs I K) * v.val (singles K)) by
        rw [y3 I hI, star_sumIdx]]
      rw [sumIdx_mul]
    rw [e1, e2, sumIdx_comm]

/-- The hypotheses are met, and the products are not trivial. -/
example : IsOp exMPO [2, 2] [2, 2] ∧ IsVec (⟨[⟨[1, 2, 1], fun i => (i.getD 1 0 : ℤ) + 1⟩, ⟨[1, 2, 1], fun _ => 1⟩], 0, 2⟩ : MPA ℤ) [2, 2] ∧
    (sumIdx [2, 2] fun K => exMPO.val (pairs [0, 1] K) * exMPO.val (pairs K [1, 0])) = -9 := by
  refine ⟨⟨exMPO_valid, rfl, by decide, by decide⟩, ⟨⟨by simp, by simp [NDArray.IsLocal, NDArray.ndim, NDArray.lb, NDArray.rb],
    by simp, by simp, by simp [MPA.len]⟩, by decide, by decide⟩, by decide⟩

end Mpnum
