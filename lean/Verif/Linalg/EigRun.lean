import Verif.Linalg.EigLemmas
import Verif.Linalg.EnvMps

/-!
# The sweeps of `eig` and `eig_sum`
-/

open Finset

namespace Mpnum

/-! ### the tensors of one site -/

theorem pairs_take (a : ℕ) (X : List ℕ) : (pairs X X).take a = pairs (X.take a) (X.take a) := by
  simp [pairs, List.take_zipWith]

theorem pairs_drop (a : ℕ) (X : List ℕ) : (pairs X X).drop a = pairs (X.drop a) (X.drop a) := by
  simp [pairs, List.drop_zipWith]

theorem singles_take (a : ℕ) (X : List ℕ) : (singles X).take a = singles (X.take a) := by
  simp only [singles, List.map_take]

theorem singles_drop (a : ℕ) (X : List ℕ) : (singles X).drop a = singles (X.drop a) := by
  simp only [singles, List.map_drop]

section
variable {R : Type}

theorem physShape_take (ts : List (NDArray R)) (a : ℕ) : physShape (ts.take a) = (physShape ts).take a := by
  simp [physShape, List.map_take]

theorem physShape_drop (ts : List (NDArray R)) (a : ℕ) : physShape (ts.drop a) = (physShape ts).drop a := by
  simp [physShape, List.map_drop]

/-- A chain cut at a site. -/
structure CutAt (x : MPA R) (p : ℕ) (W : NDArray R) : Prop where
  site : x.site (p : ℤ) = .ok W
  left : x.lt.take (p + 1) = x.lt.take p ++ [W]
  right : x.lt.drop p = W :: x.lt.drop (p + 1)
  chainL : Chained 1 (x.lt.take p) W.lb
  isLocal : W.IsLocal
  chainR : Chained W.rb (x.lt.drop (p + 1)) 1
  phys : (physShape x.lt)[p]? = some W.ph

theorem cutAt_ok {x : MPA R} (hx : x.Valid) {p : ℕ} (hp : p < x.lt.length) : ∃ W, CutAt x p W := by
  have hsp : x.lt = x.lt.take p ++ x.lt[p] :: x.lt.drop (p + 1) := by
    rw [List.getElem_cons_drop, List.take_append_drop]
  have hc := hx.chain
  rw [hsp] at hc
  obtain ⟨a, h1, h2⟩ := chained_append.1 hc
  obtain ⟨b1, b2, b3⟩ := h2
  refine ⟨x.lt[p], ?_, ?_, ?_, by rw [b2]; exact h1, b1, b3, ?_⟩
  · have := MPA.site_ok (x := x) hsp
    rwa [List.length_take, min_eq_left (by omega)] at this
  · rw [List.take_succ, List.getElem?_eq_getElem hp]; rfl
  · rw [List.getElem_cons_drop]
  · simp [physShape, hp]

end

/-- Adding a site to a chain whose shapes are known. -/
theorem concat_shape {pre : List (NDArray ℂ)} {t : NDArray ℂ} {d : ℕ} {D : List ℕ} (hc : Chained 1 (pre ++ [t]) d)
    (hs : physShape (pre ++ [t]) = singles (D.take (pre.length + 1))) (hn : pre.length < D.length) :
    t.shape = [t.lb, D[pre.length], d] ∧ Chained 1 pre t.lb ∧ physShape pre = singles (D.take pre.length) ∧
      D.take (pre.length + 1) = D.take pre.length ++ [D[pre.length]] := by
  have e : D.take (pre.length + 1) = D.take pre.length ++ [D[pre.length]] := by
    rw [List.take_succ, List.getElem?_eq_getElem hn]; rfl
  obtain ⟨h1, h2, h3⟩ := chained_concat.1 hc
  rw [e, singles_append, physShape_append] at hs
  obtain ⟨a, b⟩ := List.append_inj hs (by simp [physShape, singles]; omega)
  have hp : t.ph = [D[pre.length]] := by simpa [physShape, singles] using b
  refine ⟨?_, h1, a, e⟩
  rw [NDArray.shape_local h2, hp, h3]; rfl

theorem cons_shape {post : List (NDArray ℂ)} {t : NDArray ℂ} {d p : ℕ} {D : List ℕ} (hc : Chained d (t :: post) 1)
    (hs : physShape (t :: post) = singles (D.drop p)) (hp : p < D.length) :
    t.shape = [d, D[p], t.rb] ∧ Chained t.rb post 1 ∧ physShape post = singles (D.drop (p + 1)) ∧
      D.drop p = D[p] :: D.drop (p + 1) := by
  have e : D.drop p = D[p] :: D.drop (p + 1) := by rw [List.getElem_cons_drop]
  obtain ⟨h1, h2, h3⟩ := hc
  rw [e] at hs
  have hs' : t.ph :: physShape post = [D[p]] :: singles (D.drop (p + 1)) := hs
  rw [List.cons.injEq] at hs'
  refine ⟨?_, h3, hs'.2, e⟩
  rw [NDArray.shape_local h1, hs'.1, h2]; rfl

/-! ### what the operations of a sweep have to do -/

/-- The operations `o` form, for every block of `k` sites, the local operator of `Hf` and hand it to
`_eig_minimize_locally2`; `EL`, `ER` say which left and right vectors belong to the tensors of a vector. -/
structure OpsFor {E : Type} (qr : QR ℂ) (svd : SVD ℂ) (eigs : EigsFun) (k : ℕ) (D : List ℕ)
    (Hf : List ℕ → List ℕ → ℂ) (EL ER : List (NDArray ℂ) → E → Prop) (o : SweepOps ℂ E ℂ) : Prop where
  addL : ∀ (pre : List (NDArray ℂ)) t d e, EL pre e → Chained 1 (pre ++ [t]) d →
    physShape (pre ++ [t]) = singles (D.take (pre.length + 1)) → pre.length + k < D.length →
    ∃ e', o.addL pre.length e t = .ok e' ∧ EL (pre ++ [t]) e'
  addR : ∀ (post : List (NDArray ℂ)) t d e p, ER post e → Chained d (t :: post) 1 →
    physShape (t :: post) = singles (D.drop p) → p + 1 + post.length = D.length →
    ∃ e', o.addR p e t = .ok e' ∧ ER (t :: post) e'
  step : ∀ (pre mid post : List (NDArray ℂ)) l r e f, EL pre e → ER post f →
    Chained 1 pre l → Chained l mid r → Chained r post 1 → physShape (pre ++ mid ++ post) = singles D →
    mid.length = k → AllPos (pre ++ mid ++ post) →
    ∃ op, o.step pre.length e f mid = eigMinimize2 qr svd eigs op mid ∧
      IsLocalOp Hf (D.take pre.length) ((D.drop pre.length).take k) (D.drop (pre.length + k)) pre post l r op

/-- The left vectors of `eig` for an MPO. -/
def MpoL (H : MPA ℂ) (D : List ℕ) (pre : List (NDArray ℂ)) (e : NDArray ℂ) : Prop :=
  ∃ w d, LEnv (H.lt.take pre.length) pre pre (D.take pre.length) (D.take pre.length) w d d e

/-- The right vectors of `eig` for an MPO. -/
def MpoR (H : MPA ℂ) (D : List ℕ) (post : List (NDArray ℂ)) (e : NDArray ℂ) : Prop :=
  ∃ w d, REnv (H.lt.drop (D.length - post.length)) post (D.drop (D.length - post.length)) w d e

/-- The left vectors of `eig_sum` for the projector onto an MPS. -/
def MpsL (H : MPA ℂ) (D : List ℕ) (pre : List (NDArray ℂ)) (e : NDArray ℂ) : Prop :=
  ∃ c d, LEnvMps (H.lt.take pre.length) pre (D.take pre.length) c d e

/-- The right vectors of `eig_sum` for the projector onto an MPS. -/
def MpsR (H : MPA ℂ) (D : List ℕ) (post : List (NDArray ℂ)) (e : NDArray ℂ) : Prop :=
  ∃ c d, REnvMps (H.lt.drop (D.length - post.length)) post (D.drop (D.length - post.length)) c d e

theorem isMpo_length {H : MPA ℂ} {D : List ℕ} (hH : IsMpo H D) : H.lt.length = D.length := by
  have := congrArg List.length (show physShape H.lt = pairs D D from hH.shape)
  rwa [physShape_length, pairs_length rfl] at this

theorem isMps_length {H : MPA ℂ} {D : List ℕ} (hH : IsMps H D) : H.lt.length = D.length := by
  have := congrArg List.length (show physShape H.lt = singles D from hH.shape)
  rwa [physShape_length, singles_length] at this

theorem mpo_cut_shape {H : MPA ℂ} {D : List ℕ} (hH : IsMpo H D) {p : ℕ} (hp : p < D.length) {W : NDArray ℂ}
    (hW : CutAt H p W) : W.shape = [W.lb, D[p], D[p], W.rb] := by
  have := hW.phys
  rw [show physShape H.lt = pairs D D from hH.shape] at this
  have e : (pairs D D)[p]? = some [D[p], D[p]] := by simp [pairs, hp]
  rw [e, Option.some.injEq] at this
  rw [NDArray.shape_local hW.isLocal, ← this]; rfl

theorem mps_cut_shape {H : MPA ℂ} {D : List ℕ} (hH : IsMps H D) {p : ℕ} (hp : p < D.length) {W : NDArray ℂ}
    (hW : CutAt H p W) : W.shape = [W.lb, D[p], W.rb] := by
  have := hW.phys
  rw [show physShape H.lt = singles D from hH.shape] at this
  have e : (singles D)[p]? = some [D[p]] := by simp [singles, hp]
  rw [e, Option.some.injEq] at this
  rw [NDArray.shape_local hW.isLocal, ← this]; rfl

theorem mpoL_add {H : MPA ℂ} {D : List ℕ} (hH : IsMpo H D) {pre : List (NDArray ℂ)} {t e : NDArray ℂ} {d : ℕ}
    (he : MpoL H D pre e) (hc : Chained 1 (pre ++ [t]) d)
    (hs : physShape (pre ++ [t]) = singles (D.take (pre.length + 1))) (hp : pre.length < D.length) :
    ∃ N, (H.site (pre.length : ℤ) >>= fun W => eigLeftvecAdd e W t t) = .ok N ∧ MpoL H D (pre ++ [t]) N := by
  obtain ⟨w, d0, he⟩ := he
  obtain ⟨W, hW⟩ := cutAt_ok hH.valid (p := pre.length) (by rw [isMpo_length hH]; omega)
  obtain ⟨t1, t2, t3, t4⟩ := concat_shape hc hs hp
  have e1 : w = W.lb := chained_right_unique he.cw hW.chainL
  have e2 : d0 = t.lb := chained_right_unique he.ct t2
  subst e1; subst e2
  obtain ⟨N, n1, n2⟩ := lEnv_step he (mpo_cut_shape hH hp hW) t1 t1
  refine ⟨N, by rw [hW.site, ok_bind, n1], W.rb, d, ?_⟩
  rw [List.length_append, List.length_singleton, hW.left, t4]
  exact n2

theorem mpsL_add {H : MPA ℂ} {D : List ℕ} (hH : IsMps H D) {pre : List (NDArray ℂ)} {t e : NDArray ℂ} {d : ℕ}
    (he : MpsL H D pre e) (hc : Chained 1 (pre ++ [t]) d)
    (hs : physShape (pre ++ [t]) = singles (D.take (pre.length + 1))) (hp : pre.length < D.length) :
    ∃ N, (H.site (pre.length : ℤ) >>= fun W => eigLeftvecAddMps e W t) = .ok N ∧ MpsL H D (pre ++ [t]) N := by
  obtain ⟨w, d0, he⟩ := he
  obtain ⟨W, hW⟩ := cutAt_ok hH.valid (p := pre.length) (by rw [isMps_length hH]; omega)
  obtain ⟨t1, t2, t3, t4⟩ := concat_shape hc hs hp
  have e1 : w = W.lb := chained_right_unique he.cp hW.chainL
  have e2 : d0 = t.lb := chained_right_unique he.ct t2
  subst e1; subst e2
  obtain ⟨N, n1, n2⟩ := lEnvMps_step he (mps_cut_shape hH hp hW) t1
  refine ⟨N, by rw [hW.site, ok_bind, n1], W.rb, d, ?_⟩
  rw [List.length_append, List.length_singleton, hW.left, t4]
  exact n2

theorem mpoR_add {H : MPA ℂ} {D : List ℕ} (hH : IsMpo H D) {post : List (NDArray ℂ)} {t e : NDArray ℂ} {d p : ℕ}
    (he : MpoR H D post e) (hc : Chained d (t :: post) 1) (hs : physShape (t :: post) = singles (D.drop p))
    (hlen : p + 1 + post.length = D.length) :
    ∃ N, (H.site (p : ℤ) >>= fun W => eigRightvecAdd e W t) = .ok N ∧ MpoR H D (t :: post) N := by
  obtain ⟨w, d0, he⟩ := he
  have hp : p < D.length := by omega
  rw [show D.length - post.length = p + 1 by omega] at he
  obtain ⟨W, hW⟩ := cutAt_ok hH.valid (p := p) (by rw [isMpo_length hH]; omega)
  obtain ⟨t1, t2, t3, t4⟩ := cons_shape hc hs hp
  have e1 : w = W.rb := chained_left_unique he.cw hW.chainR
  have e2 : d0 = t.rb := chained_left_unique he.ct t2
  subst e1; subst e2
  obtain ⟨N, n1, n2⟩ := rEnv_step he (mpo_cut_shape hH hp hW) t1
  refine ⟨N, by rw [hW.site, ok_bind, n1], W.lb, d, ?_⟩
  rw [List.length_cons, show D.length - (post.length + 1) = p by omega, hW.right, t4]
  exact n2

theorem mpsR_add {H : MPA ℂ} {D : List ℕ} (hH : IsMps H D) {post : List (NDArray ℂ)} {t e : NDArray ℂ} {d p : ℕ}
    (he : MpsR H D post e) (hc : Chained d (t :: post) 1) (hs : physShape (t :: post) = singles (D.drop p))
    (hlen : p + 1 + post.length = D.length) :
    ∃ N, (H.site (p : ℤ) >>= fun W => eigRightvecAddMps e W t) = .ok N ∧ MpsR H D (t :: post) N := by
  obtain ⟨w, d0, he⟩ := he
  have hp : p < D.length := by omega
  rw [show D.length - post.length = p + 1 by omega] at he
  obtain ⟨W, hW⟩ := cutAt_ok hH.valid (p := p) (by rw [isMps_length hH]; omega)
  obtain ⟨t1, t2, t3, t4⟩ := cons_shape hc hs hp
  have e1 : w = W.rb := chained_left_unique he.cp hW.chainR
  have e2 : d0 = t.rb := chained_left_unique he.ct t2
  subst e1; subst e2
  obtain ⟨N, n1, n2⟩ := rEnvMps_step he (mps_cut_shape hH hp hW) t1
  refine ⟨N, by rw [hW.site, ok_bind, n1], W.lb, d, ?_⟩
  rw [List.length_cons, show D.length - (post.length + 1) = p by omega, hW.right, t4]
  exact n2

/-- The vector around a block of `k` sites. -/
structure BlockAt (D : List ℕ) (k : ℕ) (pre mid post : List (NDArray ℂ)) (l r : ℕ) : Prop where
  c1 : Chained 1 pre l
  c2 : Chained l mid r
  c3 : Chained r post 1
  phys : physShape (pre ++ mid ++ post) = singles D
  len : mid.length = k
  pos : AllPos (pre ++ mid ++ post)

theorem BlockAt.total {D : List ℕ} {k : ℕ} {pre mid post : List (NDArray ℂ)} {l r : ℕ}
    (h : BlockAt D k pre mid post l r) : pre.length + k + post.length = D.length := by
  have := congrArg List.length h.phys
  rw [physShape_length, singles_length] at this
  simp [h.len] at this; omega

theorem BlockAt.mid_phys {D : List ℕ} {k : ℕ} {pre mid post : List (NDArray ℂ)} {l r : ℕ}
    (h : BlockAt D k pre mid post l r) : physShape mid = singles ((D.drop pre.length).take k) := by
  have := h.phys
  rw [physShape_append, physShape_append] at this
  have h2 := congrArg (fun L => (L.drop pre.length).take k) this
  simp only [List.append_assoc] at h2
  rw [List.drop_append_of_le_length (by simp [physShape]), List.drop_eq_nil_of_le (by simp [physShape]),
    List.nil_append, List.take_append_of_le_length (by simp [physShape, h.len]),
    List.take_of_length_le (by simp [physShape, h.len]), singles_drop, singles_take] at h2
  exact h2

theorem BlockAt.bonds_pos {D : List ℕ} {k : ℕ} {pre mid post : List (NDArray ℂ)} {l r : ℕ}
    (h : BlockAt D k pre mid post l r) (hk : 0 < k) : 0 < l ∧ 0 < r :=
  chained_pos (by intro h0; have := h.len; rw [h0] at this; simp at this; omega)
    (fun t ht => h.pos t (by simp [ht])) h.c2

theorem BlockAt.prod_pos {D : List ℕ} {k : ℕ} {pre mid post : List (NDArray ℂ)} {l r : ℕ}
    (h : BlockAt D k pre mid post l r) (hk : 0 < k) : 0 < (l :: ((D.drop pre.length).take k ++ [r])).prod := by
  obtain ⟨hl0, hr0⟩ := h.bonds_pos hk
  refine list_prod_pos fun x hx => ?_
  simp only [List.mem_cons, List.mem_append, List.not_mem_nil, or_false] at hx
  rcases hx with rfl | hx | rfl
  · exact hl0
  · have : [x] ∈ physShape mid := by rw [h.mid_phys]; exact List.mem_map.2 ⟨x, hx, rfl⟩
    obtain ⟨t, ht, hte⟩ := List.mem_map.1 this
    refine h.pos t (by simp [ht]) x ?_
    have : x ∈ t.ph := by rw [hte]; simp
    exact List.mem_of_mem_tail (List.mem_of_mem_dropLast this)
  · exact hr0

theorem splitBlk {α : Type} (L : List α) (p k : ℕ) : L = L.take p ++ (L.drop p).take k ++ L.drop (p + k) := by
  rw [List.append_assoc, ← List.drop_drop, List.take_append_drop, List.take_append_drop]

theorem chain3 {H : MPA ℂ} (hv : H.Valid) (p k : ℕ) : ∃ y y', Chained 1 (H.lt.take p) y ∧
    Chained y ((H.lt.drop p).take k) y' ∧ Chained y' (H.lt.drop (p + k)) 1 := by
  have hc := hv.chain
  rw [splitBlk H.lt p k, chained_append] at hc
  obtain ⟨y', hc1, hc3⟩ := hc
  obtain ⟨y, hc1, hc2⟩ := chained_append.1 hc1
  exact ⟨y, y', hc1, hc2, hc3⟩

theorem mpo_op {H : MPA ℂ} {D : List ℕ} (hH : IsMpo H D) {k : ℕ} (hk : 0 < k) {pre mid post : List (NDArray ℂ)}
    {l r : ℕ} (hb : BlockAt D k pre mid post l r) {e f : NDArray ℂ} (he : MpoL H D pre e) (hf : MpoR H D post f) :
    ∃ op, eigLocalOp e ((H.lt.drop pre.length).take k) f = .ok op ∧
      IsLocalOp (fun I J => H.val (pairs I J)) (D.take pre.length) ((D.drop pre.length).take k)
        (D.drop (pre.length + k)) pre post l r op := by
  obtain ⟨w, d0, he⟩ := he
  obtain ⟨v, d1, hf⟩ := hf
  have hlen := hb.total
  rw [show D.length - post.length = pre.length + k by omega] at hf
  have e2 : d0 = l := chained_right_unique he.ct hb.c1
  have e3 : d1 = r := chained_left_unique hf.ct hb.c3
  subst e2; subst e3
  obtain ⟨y, y', hc1, hc2, hc3⟩ := chain3 hH.valid pre.length k
  have e4 : w = y := chained_right_unique he.cw hc1
  have e5 : v = y' := chained_left_unique hf.cw hc3
  subst e4; subst e5
  have q5 : physShape ((H.lt.drop pre.length).take k)
      = pairs ((D.drop pre.length).take k) ((D.drop pre.length).take k) := by
    rw [physShape_take, physShape_drop, show physShape H.lt = pairs D D from hH.shape, pairs_drop, pairs_take]
  have hne : (H.lt.drop pre.length).take k ≠ [] := by
    intro h0
    have := congrArg List.length h0
    simp [isMpo_length hH] at this; omega
  obtain ⟨op, o1, o2⟩ := eigLocalOp_isLocalOp he hf hc2 hne q5 (hb.prod_pos hk)
  rw [← splitBlk] at o2
  exact ⟨op, o1, o2⟩

theorem mps_op {H : MPA ℂ} {D : List ℕ} (hH : IsMps H D) (hHp : AllPos H.lt) {k : ℕ} (hk : 0 < k)
    {pre mid post : List (NDArray ℂ)} {l r : ℕ} (hb : BlockAt D k pre mid post l r) {e f : NDArray ℂ}
    (he : MpsL H D pre e) (hf : MpsR H D post f) :
    ∃ op, eigLocalOpMps e ((H.lt.drop pre.length).take k) f = .ok op ∧
      IsLocalOp (fun I J => H.val (singles I) * star (H.val (singles J))) (D.take pre.length)
        ((D.drop pre.length).take k) (D.drop (pre.length + k)) pre post l r op := by
  obtain ⟨w, d0, he⟩ := he
  obtain ⟨v, d1, hf⟩ := hf
  have hlen := hb.total
  rw [show D.length - post.length = pre.length + k by omega] at hf
  have e2 : d0 = l := chained_right_unique he.ct hb.c1
  have e3 : d1 = r := chained_left_unique hf.ct hb.c3
  subst e2; subst e3
  obtain ⟨y, y', hc1, hc2, hc3⟩ := chain3 hH.valid pre.length k
  have e4 : w = y := chained_right_unique he.cp hc1
  have e5 : v = y' := chained_left_unique hf.cp hc3
  subst e4; subst e5
  have q5 : physShape ((H.lt.drop pre.length).take k) = singles ((D.drop pre.length).take k) := by
    rw [physShape_take, physShape_drop, show physShape H.lt = singles D from hH.shape, singles_drop, singles_take]
  have hp : ∀ t ∈ (H.lt.drop pre.length).take k, 0 < t.rb := by
    intro t ht
    have ht' : t ∈ H.lt := List.mem_of_mem_drop (List.mem_of_mem_take ht)
    have hc : ∀ {ts : List (NDArray ℂ)} {a b : ℕ}, Chained a ts b → ∀ t ∈ ts, t.IsLocal := by
      intro ts
      induction ts with
      | nil => simp
      | cons u us ih =>
        rintro a b ⟨h1, h2, h3⟩ t ht
        rcases List.mem_cons.1 ht with rfl | ht
        · exact h1
        · exact ih h3 t ht
    have hloc := hc hH.valid.chain t ht'
    refine hHp t ht' _ ?_
    rw [NDArray.shape_local hloc]; simp
  obtain ⟨op, o1, o2⟩ := eigLocalOpMps_isLocalOp he hf hc2 q5 (hb.bonds_pos hk).1 hp
  rw [← splitBlk] at o2
  exact ⟨op, o1, o2⟩

theorem eigOps_opsFor (qr : QR ℂ) (svd : SVD ℂ) (eigs : EigsFun) {H : MPA ℂ} {D : List ℕ} (hH : IsMpo H D) {k : ℕ}
    (hk : 0 < k) :
    OpsFor qr svd eigs k D (fun I J => H.val (pairs I J)) (MpoL H D) (MpoR H D) (eigOps qr svd eigs H k) := by
  refine ⟨fun pre t d e he hc hs hlt => mpoL_add hH he hc hs (by omega),
    fun post t d e p he hc hs hlen => mpoR_add hH he hc hs hlen, ?_⟩
  intro pre mid post l r e f he hf c1 c2 c3 hs hmid hpos
  obtain ⟨op, o1, o2⟩ := mpo_op hH hk ⟨c1, c2, c3, hs, hmid, hpos⟩ he hf
  refine ⟨op, ?_, o2⟩
  show (eigLocalOp e _ f >>= fun op => eigMinimize2 qr svd eigs op mid) = _
  rw [o1, ok_bind]

/-! ### `eig_sum` -/

/-- An element of the list `mpas` of `eig_sum`: an MPO, or an MPS standing for the projector onto it. -/
def SumTerm (D : List ℕ) (m : MPA ℂ) : Prop := IsMpo m D ∨ IsMps m D ∧ AllPos m.lt

/-- The operator an element of `mpas` stands for. -/
noncomputable def termOp (m : MPA ℂ) (I J : List ℕ) : ℂ :=
  if firstNdims m = 2 then m.val (pairs I J) else m.val (singles I) * star (m.val (singles J))

theorem firstNdims_mpo {m : MPA ℂ} {D : List ℕ} (h : IsMpo m D) : firstNdims m = 2 := by
  have h0 : D ≠ [] := by
    rintro rfl
    exact h.valid.ne (List.length_eq_zero_iff.1 (isMpo_length h))
  obtain ⟨d, D, rfl⟩ := List.exists_cons_of_ne_nil h0
  rw [firstNdims, h.shape]; rfl

theorem firstNdims_mps {m : MPA ℂ} {D : List ℕ} (h : IsMps m D) : firstNdims m = 1 := by
  have h0 : D ≠ [] := by
    rintro rfl
    exact h.valid.ne (List.length_eq_zero_iff.1 (isMps_length h))
  obtain ⟨d, D, rfl⟩ := List.exists_cons_of_ne_nil h0
  rw [firstNdims, h.shape]; rfl

theorem termOp_mpo {m : MPA ℂ} {D : List ℕ} (h : IsMpo m D) : termOp m = fun I J => m.val (pairs I J) := by
  funext I J; rw [termOp, if_pos (firstNdims_mpo h)]

theorem termOp_mps {m : MPA ℂ} {D : List ℕ} (h : IsMps m D) :
    termOp m = fun I J => m.val (singles I) * star (m.val (singles J)) := by
  funext I J; rw [termOp, if_neg (by rw [firstNdims_mps h]; omega)]

/-- The left vector kept for one element of `mpas`. -/
def TermL (D : List ℕ) (pre : List (NDArray ℂ)) (m : MPA ℂ) (e : NDArray ℂ) : Prop :=
  (IsMpo m D ∧ MpoL m D pre e) ∨ (IsMps m D ∧ AllPos m.lt ∧ MpsL m D pre e)

/-- The right vector kept for one element of `mpas`. -/
def TermR (D : List ℕ) (post : List (NDArray ℂ)) (m : MPA ℂ) (e : NDArray ℂ) : Prop :=
  (IsMpo m D ∧ MpoR m D post e) ∨ (IsMps m D ∧ AllPos m.lt ∧ MpsR m D post e)

theorem eigSumTerm_ok {m : MPA ℂ} {D : List ℕ} {k : ℕ} (hk : 0 < k)
    {pre mid post : List (NDArray ℂ)} {l r : ℕ} (hb : BlockAt D k pre mid post l r) {e f : NDArray ℂ}
    (he : TermL D pre m e) (hf : TermR D post m f) :
    ∃ op, eigSumTerm m e f pre.length k = .ok op ∧
      IsLocalOp (termOp m) (D.take pre.length) ((D.drop pre.length).take k) (D.drop (pre.length + k)) pre post l r
        op := by
  rcases he with ⟨h1, he⟩ | ⟨h1, h1p, he⟩
  · have hf' : MpoR m D post f := by
      rcases hf with ⟨_, hf⟩ | ⟨h2, _, _⟩
      · exact hf
      · exact absurd ((firstNdims_mpo h1).symm.trans (firstNdims_mps h2)) (by omega)
    obtain ⟨op, o1, o2⟩ := mpo_op h1 hk hb he hf'
    exact ⟨op, by rw [eigSumTerm, if_pos (firstNdims_mpo h1), o1], by rw [termOp_mpo h1]; exact o2⟩
  · have hf' : MpsR m D post f := by
      rcases hf with ⟨h2, _⟩ | ⟨_, _, hf⟩
      · exact absurd ((firstNdims_mpo h2).symm.trans (firstNdims_mps h1)) (by omega)
      · exact hf
    obtain ⟨op, o1, o2⟩ := mps_op h1 h1p hk hb he hf'
    exact ⟨op, by rw [eigSumTerm, if_neg (by rw [firstNdims_mps h1]; omega), if_pos (firstNdims_mps h1), o1],
      by rw [termOp_mps h1]; exact o2⟩

theorem opSpec_add (F G : List ℕ → List ℕ → ℂ) (P Q : List ℕ) (pre post : List (NDArray ℂ)) (a' : ℕ) (i : List ℕ)
    (b' a : ℕ) (j : List ℕ) (b : ℕ) :
    opSpec (fun I J => F I J + G I J) P Q pre post a' i b' a j b
      = opSpec F P Q pre post a' i b' a j b + opSpec G P Q pre post a' i b' a j b := by
  simp only [opSpec, sumIdx_eq_sum, ← Finset.sum_add_distrib]
  refine Finset.sum_congr rfl fun _ _ => Finset.sum_congr rfl fun _ _ => ?_
  refine Finset.sum_congr rfl fun _ _ => Finset.sum_congr rfl fun _ _ => ?_
  ring

theorem IsLocalOp.add {F G : List ℕ → List ℕ → ℂ} {P D Q : List ℕ} {pre post : List (NDArray ℂ)} {l r : ℕ}
    {o t : NDArray ℂ} (ho : IsLocalOp F P D Q pre post l r o) (ht : IsLocalOp G P D Q pre post l r t) :
    ∃ s, o.add t = .ok s ∧ IsLocalOp (fun I J => F I J + G I J) P D Q pre post l r s := by
  obtain ⟨s, h1, h2, h3⟩ := NDArray.add_ok (a := o) (b := t) (by rw [ho.shape, ht.shape])
  refine ⟨s, h1, by rw [h2, ho.shape], ?_⟩
  intro a' ha' i hi b' hb' a ha j hj b hb
  have hm : ∀ x i y, x < l → InB i D → y < r → ravelIdx (l :: (D ++ [r])) (x :: (i ++ [y])) < (l :: (D ++ [r])).prod :=
    fun x i y hx hi hy => ravelIdx_lt
      (inB_cons.2 ⟨hx, inB_append hi (inB_cons.2 ⟨hy, List.Forall₂.nil⟩)⟩)
  rw [h3 _ (by rw [ho.shape]; exact inB_cons.2 ⟨hm _ _ _ ha' hi hb', inB_cons.2 ⟨hm _ _ _ ha hj hb, List.Forall₂.nil⟩⟩),
    ho.val a' ha' i hi b' hb' a ha j hj b hb, ht.val a' ha' i hi b' hb' a ha j hj b hb, opSpec_add]

/-- `Σ` of the operators of a list. -/
noncomputable def sumOp (mpas : List (MPA ℂ)) (I J : List ℕ) : ℂ := (mpas.map fun m => termOp m I J).sum

theorem eigSumOp_fold {D : List ℕ} {k : ℕ} (hk : 0 < k) {pre mid post : List (NDArray ℂ)} {l r : ℕ}
    (hb : BlockAt D k pre mid post l r) : ∀ (mpas : List (MPA ℂ)) (e f : List (NDArray ℂ)) (o : NDArray ℂ)
      (F : List ℕ → List ℕ → ℂ), List.Forall₂ (TermL D pre) mpas e → List.Forall₂ (TermR D post) mpas f →
      IsLocalOp F (D.take pre.length) ((D.drop pre.length).take k) (D.drop (pre.length + k)) pre post l r o →
      ∃ s, (mpas.zip (e.zip f)).foldlM (fun op p => do
          let t ← eigSumTerm p.1 p.2.1 p.2.2 pre.length k
          match op with
          | none => return some t
          | some o => return some (← o.add t)) (some o) = (.ok (some s) : Py (Option (NDArray ℂ))) ∧
        IsLocalOp (fun I J => F I J + sumOp mpas I J) (D.take pre.length) ((D.drop pre.length).take k)
          (D.drop (pre.length + k)) pre post l r s := by
  intro mpas
  induction mpas with
  | nil =>
    intro e f o F he hf ho
    cases he; cases hf
    exact ⟨o, rfl, by simpa [sumOp] using ho⟩
  | cons m mpas ih =>
    intro e f o F he hf ho
    cases he with
    | cons he1 he2 =>
      cases hf with
      | cons hf1 hf2 =>
        obtain ⟨t, t1, t2⟩ := eigSumTerm_ok hk hb he1 hf1
        obtain ⟨s, s1, s2⟩ := ho.add t2
        obtain ⟨u, u1, u2⟩ := ih _ _ s _ he2 hf2 s2
        refine ⟨u, ?_, ?_⟩
        · rw [List.zip_cons_cons, List.zip_cons_cons, List.foldlM_cons, t1, ok_bind]
          simp only [s1, ok_bind]
          exact u1
        · simpa [sumOp, add_assoc] using u2

theorem eigSumOp_ok {D : List ℕ} {k : ℕ} (hk : 0 < k) {pre mid post : List (NDArray ℂ)} {l r : ℕ}
    (hb : BlockAt D k pre mid post l r) {mpas : List (MPA ℂ)} (hne : mpas ≠ []) {e f : List (NDArray ℂ)}
    (he : List.Forall₂ (TermL D pre) mpas e) (hf : List.Forall₂ (TermR D post) mpas f) :
    ∃ s, eigSumOp mpas e f pre.length k = .ok (some s) ∧
      IsLocalOp (sumOp mpas) (D.take pre.length) ((D.drop pre.length).take k) (D.drop (pre.length + k)) pre post l r
        s := by
  cases he with
  | nil => exact absurd rfl hne
  | cons he1 he2 =>
    cases hf with
    | cons hf1 hf2 =>
      obtain ⟨t, t1, t2⟩ := eigSumTerm_ok hk hb he1 hf1
      obtain ⟨u, u1, u2⟩ := eigSumOp_fold hk hb _ _ _ t _ he2 hf2 t2
      refine ⟨u, ?_, ?_⟩
      · rw [eigSumOp, List.zip_cons_cons, List.zip_cons_cons, List.foldlM_cons, t1, ok_bind]
        exact u1
      · have e : ∀ (m : MPA ℂ) (ms : List (MPA ℂ)), (fun I J => termOp m I J + sumOp ms I J) = sumOp (m :: ms) := by
          intro m ms; funext I J; simp [sumOp]
        rw [← e]; exact u2

theorem termL_add {D : List ℕ} {pre : List (NDArray ℂ)} {t : NDArray ℂ} {d : ℕ} (hc : Chained 1 (pre ++ [t]) d)
    (hs : physShape (pre ++ [t]) = singles (D.take (pre.length + 1))) (hp : pre.length < D.length) {m : MPA ℂ}
    {e : NDArray ℂ} (h : TermL D pre m e) :
    ∃ N, (if firstNdims m = 2 then m.site (pre.length : ℤ) >>= fun W => eigLeftvecAdd e W t t
      else if firstNdims m = 1 then m.site (pre.length : ℤ) >>= fun W => eigLeftvecAddMps e W t
      else .error .value) = (.ok N : Py (NDArray ℂ)) ∧ TermL D (pre ++ [t]) m N := by
  rcases h with ⟨h1, he⟩ | ⟨h1, h1p, he⟩
  · obtain ⟨N, n1, n2⟩ := mpoL_add h1 he hc hs hp
    exact ⟨N, by rw [if_pos (firstNdims_mpo h1), n1], Or.inl ⟨h1, n2⟩⟩
  · obtain ⟨N, n1, n2⟩ := mpsL_add h1 he hc hs hp
    exact ⟨N, by rw [if_neg (by rw [firstNdims_mps h1]; omega), if_pos (firstNdims_mps h1), n1], Or.inr ⟨h1, h1p, n2⟩⟩

theorem termR_add {D : List ℕ} {post : List (NDArray ℂ)} {t : NDArray ℂ} {d p : ℕ} (hc : Chained d (t :: post) 1)
    (hs : physShape (t :: post) = singles (D.drop p)) (hlen : p + 1 + post.length = D.length) {m : MPA ℂ}
    {e : NDArray ℂ} (h : TermR D post m e) :
    ∃ N, (if firstNdims m = 2 then m.site (p : ℤ) >>= fun W => eigRightvecAdd e W t
      else if firstNdims m = 1 then m.site (p : ℤ) >>= fun W => eigRightvecAddMps e W t
      else .error .value) = (.ok N : Py (NDArray ℂ)) ∧ TermR D (t :: post) m N := by
  rcases h with ⟨h1, he⟩ | ⟨h1, h1p, he⟩
  · obtain ⟨N, n1, n2⟩ := mpoR_add h1 he hc hs hlen
    exact ⟨N, by rw [if_pos (firstNdims_mpo h1), n1], Or.inl ⟨h1, n2⟩⟩
  · obtain ⟨N, n1, n2⟩ := mpsR_add h1 he hc hs hlen
    exact ⟨N, by rw [if_neg (by rw [firstNdims_mps h1]; omega), if_pos (firstNdims_mps h1), n1], Or.inr ⟨h1, h1p, n2⟩⟩

theorem mapM_zip_forall₂ {α β γ : Type} {P : α → β → Prop} {Q : α → γ → Prop} {g : α × β → Py γ}
    (h : ∀ a b, P a b → ∃ c, g (a, b) = .ok c ∧ Q a c) {xs : List α} {ys : List β} (hp : List.Forall₂ P xs ys) :
    ∃ zs, (xs.zip ys).mapM g = .ok zs ∧ List.Forall₂ Q xs zs := by
  induction hp with
  | nil => exact ⟨[], rfl, List.Forall₂.nil⟩
  | cons h1 _ ih =>
    obtain ⟨c, c1, c2⟩ := h _ _ h1
    obtain ⟨zs, z1, z2⟩ := ih
    refine ⟨c :: zs, ?_, List.Forall₂.cons c2 z2⟩
    rw [List.zip_cons_cons, List.mapM_cons, c1, ok_bind, z1, ok_bind]; rfl

theorem eigSumOps_opsFor (qr : QR ℂ) (svd : SVD ℂ) (eigs : EigsFun) {mpas : List (MPA ℂ)} {D : List ℕ}
    (hne : mpas ≠ []) {k : ℕ} (hk : 0 < k) :
    OpsFor qr svd eigs k D (sumOp mpas) (fun pre e => List.Forall₂ (TermL D pre) mpas e)
      (fun post e => List.Forall₂ (TermR D post) mpas e) (eigSumOps qr svd eigs mpas k) := by
  refine ⟨fun pre t d e he hc hs hlt => ?_, fun post t d e p he hc hs hlen => ?_, ?_⟩
  · exact mapM_zip_forall₂ (fun m v hv => termL_add hc hs (by omega) hv) he
  · exact mapM_zip_forall₂ (fun m v hv => termR_add hc hs hlen hv) he
  · intro pre mid post l r e f he hf c1 c2 c3 hs hmid hpos
    obtain ⟨op, o1, o2⟩ := eigSumOp_ok hk ⟨c1, c2, c3, hs, hmid, hpos⟩ hne he hf
    refine ⟨op, ?_, o2⟩
    show (eigSumOp mpas e f pre.length k >>= _) = _
    rw [o1, ok_bind]

theorem mpoL_nil (H : MPA ℂ) (D : List ℕ) : MpoL H D [] (onesNd 3) := ⟨1, 1, lEnv_nil⟩

theorem mpsL_nil (H : MPA ℂ) (D : List ℕ) : MpsL H D [] (onesNd 2) := ⟨1, 1, lEnvMps_nil⟩

theorem mpoR_nil {H : MPA ℂ} {D : List ℕ} (hH : IsMpo H D) : MpoR H D [] (onesNd 3) := by
  refine ⟨1, 1, ?_⟩
  have := isMpo_length hH
  simp only [List.length_nil, Nat.sub_zero, ← this, List.drop_length]
  rw [this, List.drop_length]
  exact rEnv_nil

theorem mpsR_nil {H : MPA ℂ} {D : List ℕ} (hH : IsMps H D) : MpsR H D [] (onesNd 2) := by
  refine ⟨1, 1, ?_⟩
  have := isMps_length hH
  simp only [List.length_nil, Nat.sub_zero, ← this, List.drop_length]
  rw [this, List.drop_length]
  exact rEnvMps_nil

theorem termL_nil {D : List ℕ} {mpas : List (MPA ℂ)} (h : ∀ m ∈ mpas, SumTerm D m) :
    List.Forall₂ (TermL D []) mpas (mpas.map fun x => onesNd (1 + firstNdims x)) := by
  induction mpas with
  | nil => exact List.Forall₂.nil
  | cons m ms ih =>
    refine List.Forall₂.cons ?_ (ih fun x hx => h x (by simp [hx]))
    rcases h m (by simp) with h1 | ⟨h1, h1p⟩
    · simp only [firstNdims_mpo h1]; exact Or.inl ⟨h1, mpoL_nil m D⟩
    · simp only [firstNdims_mps h1]; exact Or.inr ⟨h1, h1p, mpsL_nil m D⟩

theorem termR_nil {D : List ℕ} {mpas : List (MPA ℂ)} (h : ∀ m ∈ mpas, SumTerm D m) :
    List.Forall₂ (TermR D []) mpas (mpas.map fun x => onesNd (1 + firstNdims x)) := by
  induction mpas with
  | nil => exact List.Forall₂.nil
  | cons m ms ih =>
    refine List.Forall₂.cons ?_ (ih fun x hx => h x (by simp [hx]))
    rcases h m (by simp) with h1 | ⟨h1, h1p⟩
    · simp only [firstNdims_mpo h1]; exact Or.inl ⟨h1, mpoR_nil h1⟩
    · simp only [firstNdims_mps h1]; exact Or.inr ⟨h1, h1p, mpsR_nil h1⟩

end Mpnum
