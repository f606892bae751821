import Verif.Props.C64
import Verif.MPArray.OpenTwo

/-! C66: lossless compression and minimal bonds. -/

open Finset

namespace Mpnum

variable {𝕜 : Type} [RCLike 𝕜]

/-- An MPA has at most the rank of its bond. -/
theorem rankLe_bond {z : MPA 𝕜} (hz : z.Valid) {k : ℕ} (h1 : 1 ≤ k) (hk : k < z.len) :
    RankLe z.shape k (z.ranks.getD (k - 1) 0) z.val := by
  have hsplit : z.lt = z.lt.take k ++ z.lt.drop k := (List.take_append_drop k z.lt).symm
  have hch := hz.chain
  rw [hsplit] at hch
  obtain ⟨m, hc1, hc2⟩ := chained_append.1 hch
  have hkl : k < z.lt.length := hk
  have hm : z.ranks.getD (k - 1) 0 = m := by
    have hd : z.lt.drop k = z.lt[k] :: z.lt.drop (k + 1) := List.drop_eq_getElem_cons hkl
    rw [hd] at hc2
    have hml : z.lt[k].lb = m := hc2.2.1
    obtain ⟨k', rfl⟩ : ∃ k', k = k' + 1 := ⟨k - 1, by omega⟩
    rw [← hml, MPA.ranks_eq, List.getD_eq_getElem _ _ (by simp; omega)]
    simp
  rw [hm]
  refine ⟨fun i c => mp (z.lt.take k) i 0 c, fun c j => mp (z.lt.drop k) j c 0, ?_⟩
  intro i j hi hj
  have hil : i.length = (z.lt.take k).length := by
    have := idxOK_length hi
    simpa [MPA.shape] using this
  show entry z.lt (i ++ j) = _
  unfold entry
  conv_lhs => rw [hsplit]
  rw [mp_append hc1 hil one_pos]

theorem RankLe.mono {S : List (List ℕ)} {k r r' : ℕ} {y : List (List ℕ) → 𝕜} (h : RankLe S k r y) (hr : r ≤ r') : RankLe S k r' y := by
  obtain ⟨X, Y, h⟩ := h
  refine ⟨fun i c => if c < r then X i c else 0, Y, fun i j hi hj => ?_⟩
  rw [h i j hi hj]
  beta_reduce
  refine Eq.trans (sum_congr rfl fun c hc => by rw [if_pos (mem_range.1 hc)]) (sum_subset (range_subset_range.2 hr) ?_)
  intro c _ hc
  rw [if_neg (by simpa using hc), zero_mul]

theorem RankLe.congr {S : List (List ℕ)} {k r : ℕ} {y y' : List (List ℕ) → 𝕜} (h : RankLe S k r y)
    (he : ∀ i, IdxOK i S → y' i = y i) : RankLe S k r y' := by
  obtain ⟨X, Y, h⟩ := h
  exact ⟨X, Y, fun i j hi hj => (he _ (idxOK_join hi hj)).trans (h i j hi hj)⟩

theorem list_zero_tail {s : List ℝ} (hn : ∀ a ∈ s, 0 ≤ a) {q : ℕ} : s.sum ≤ (s.take q).sum ↔ ∀ c, q ≤ c → s.getD c 0 = 0 := by
  induction s generalizing q with
  | nil => simp
  | cons a s ih =>
    have ih := @ih (fun b hb => hn b (by simp [hb]))
    cases q with
    | zero =>
      have hs := ih (q := 0)
      have ha := hn a (by simp)
      have hsn : 0 ≤ s.sum := List.sum_nonneg fun b hb => hn b (by simp [hb])
      simp only [List.take_zero, List.sum_nil, List.sum_cons, Nat.zero_le, true_imp_iff] at hs ⊢
      constructor
      · intro h c
        cases c with
        | zero => simp; linarith
        | succ c => simpa using hs.1 (by linarith) c
      · intro h
        have h0 := h 0
        have h1 := hs.2 fun c => by simpa using h (c + 1)
        simp at h0
        linarith
    | succ q =>
      rw [List.take_succ_cons, List.sum_cons, List.sum_cons, add_le_add_iff_left, ih (q := q)]
      constructor
      · intro h c hc
        obtain ⟨c, rfl⟩ : ∃ c', c = c' + 1 := ⟨c - 1, by omega⟩
        simpa using h c (by omega)
      · intro h c hc
        simpa using h (c + 1) (by omega)

/-- The number of nonzero singular values is the rank. -/
theorem rankLe_iff_singVals {S : List (List ℕ)} {k : ℕ} {f : List (List ℕ) → 𝕜} {s : List ℝ} (h : SingVals S k f s) (q : ℕ) :
    RankLe S k q f ↔ ∀ c, q ≤ c → s.getD c 0 = 0 := by
  obtain ⟨W, Z, h⟩ := h
  constructor
  · intro hq c hc
    have h0 := schmidt_tail_le h hq
    have e : tdist S f f = 0 := by
      unfold tdist
      rw [sumSites_congr (g := fun _ => (0 : ℝ)) fun i _ => by simp]
      exact sumSites_zero _
    rw [e] at h0
    by_cases hcl : c < s.length
    · have h1 := (sum_eq_zero_iff_of_nonneg fun c _ => sq_nonneg (s.getD c 0)).1 (le_antisymm h0 (sum_nonneg fun _ _ => sq_nonneg _))
      exact pow_eq_zero_iff (two_ne_zero) |>.1 (h1 c (mem_Ico.2 ⟨hc, hcl⟩))
    · exact List.getD_eq_default _ _ (by omega)
  · intro h0
    refine ⟨fun i c => if c < s.length then W i c * ((s.getD c 0 : ℝ) : 𝕜) else 0, Z, fun i j hi hj => ?_⟩
    rw [h.dec i j hi hj]
    have e1 : ∀ n, s.length ≤ n → ∑ b ∈ range s.length, W i b * ((s.getD b 0 : ℝ) : 𝕜) * Z b j
        = ∑ c ∈ range n, (if c < s.length then W i c * ((s.getD c 0 : ℝ) : 𝕜) else 0) * Z c j := by
      intro n hn
      refine Eq.trans (sum_congr rfl fun c hc => by rw [if_pos (mem_range.1 hc)]) (sum_subset (range_subset_range.2 hn) ?_)
      intro c _ hc
      rw [if_neg (by simpa using hc), zero_mul]
    rw [e1 (max q s.length) (le_max_right _ _)]
    symm
    refine sum_subset (range_subset_range.2 (le_max_left _ _)) fun c _ hc => ?_
    beta_reduce
    rw [h0 c (by simpa using hc)]
    simp

/-- Truncations with `relerr=0`: nothing is lost, and the numbers of singular values kept are the ranks. -/
theorem cutSeq_exact {S : List (List ℕ)} {rank : ℤ} {ks : List ℕ} {f g : List (List ℕ) → 𝕜} {out : List (List ℝ × ℕ)}
    (hs : CutSeq S (Keep rank (some 0)) ks f g out) (hpos : 0 < rank) (hr : ∀ k ∈ ks, RankLe S k rank.toNat f) :
    (∀ i, IdxOK i S → g i = f i) ∧ List.Forall₂ (fun k o => IsLeast {q | 0 < q ∧ RankLe S k q f} o.2) ks out := by
  induction hs with
  | nil h => exact ⟨h, .nil⟩
  | @cons k ks f h g s t out hc hk hs ih =>
    obtain ⟨W, Z, h1, h2, h3⟩ := hc
    have hsv : SingVals S k f s := ⟨W, Z, h1⟩
    obtain ⟨r, hl, ht⟩ := hk
    simp only [sub_zero, one_mul] at hl
    have hset : {r : ℕ | 0 < r ∧ s.sum ≤ (s.take r).sum} = {q | 0 < q ∧ RankLe S k q f} := by
      ext q
      simp only [Set.mem_setOf_eq]
      rw [list_zero_tail h1.nonneg, rankLe_iff_singVals hsv]
    rw [hset] at hl
    have hrt : r = t := by
      have := hl.2 ⟨by omega, hr k (by simp)⟩
      omega
    subst hrt
    have h0 := (rankLe_iff_singVals hsv r).1 hl.1.2
    have he : ∀ i, IdxOK i S → h i = f i := by
      intro i hi
      obtain ⟨i, j, rfl, hi, hj⟩ := idxOK_split k hi
      rw [h3 i j hi hj, h1.dec i j hi hj]
      refine sum_subset (range_subset_range.2 h2) fun c _ hc => ?_
      rw [h0 c (by simpa using hc)]
      simp
    obtain ⟨i1, i2⟩ := ih (fun k' hk' => (hr k' (by simp [hk'])).congr he)
    refine ⟨fun i hi => (i1 i hi).trans (he i hi), .cons hl (i2.imp fun k o ho => ?_)⟩
    have : {q | 0 < q ∧ RankLe S k q h} = {q | 0 < q ∧ RankLe S k q f} := by
      ext q
      exact and_congr_right fun _ => ⟨fun hh => hh.congr fun i hi => (he i hi).symm, fun hh => hh.congr he⟩
    rwa [this] at ho

/-- C66: if no bipartition has a rank above `rank`, then `compress(rank=rank)` does not change the tensor, whatever the bonds
are. -/
theorem C66_lossless {qr : QR 𝕜} (hqr : QRSpec qr) {svd : SVD 𝕜} (h : SVDSpec svd)
    (x : MPA 𝕜) (hx : x.Good) (hlen : x.len ≠ 1) (rank : ℕ) (hr : 0 < rank) (direction : Option Dir) (hd : direction ≠ some .other)
    (hrk : ∀ k, 1 ≤ k → k < x.len → RankLe x.shape k rank x.val) :
    ∃ (y : MPA 𝕜) (o : ℝ), x.compress qr svd (some rank) none direction true = .ok (y, o) ∧ y.Good ∧ y.shape = x.shape ∧
      (∀ q ∈ y.ranks, q ≤ rank) ∧ ∀ i, IdxOK i x.shape → y.val i = x.val i := by
  obtain ⟨y, o, h1, h2, h3, h4, h5⟩ := C55_bonds hqr h x hx hlen rank hr direction hd
  refine ⟨y, o, h1, h2, h3, h4, fun i hi => ?_⟩
  have h6 := h5 (fun _ => x.val) hrk
  have e : tdist x.shape x.val x.val = 0 := by
    unfold tdist
    rw [sumSites_congr (g := fun _ => (0 : ℝ)) fun i _ => by simp]
    exact sumSites_zero _
  simp only [e, sum_const_zero] at h6
  have h7 := (sumSites_ge_term (f := fun i => ‖x.val i - y.val i‖ ^ 2) (fun _ => sq_nonneg _) hi).trans h6
  have h8 : ‖x.val i - y.val i‖ = 0 := pow_eq_zero_iff (two_ne_zero) |>.1 (le_antisymm h7 (sq_nonneg _))
  rw [norm_eq_zero, sub_eq_zero] at h8
  exact h8.symm

/-- C66: `compress(relerr=0)` does not change the tensor, and every bond of the result is the smallest positive number which is
at least the rank of the bipartition.  The same holds with an additional argument `rank` if no bipartition has a larger rank. -/
theorem C66_minimal {qr : QR 𝕜} (hqr : QRSpec qr) {svd : SVD 𝕜} (h : SVDSpec svd)
    (x : MPA 𝕜) (hx : x.Good) (hlen : x.len ≠ 1) (rank : Option ℕ)
    (hrk : ∀ r, rank = some r → 0 < r ∧ ∀ k, 1 ≤ k → k < x.len → RankLe x.shape k r x.val)
    (direction : Option Dir) (hd : direction ≠ some .other) :
    ∃ (y : MPA 𝕜) (o : ℝ), x.compress qr svd (rank.map fun r : ℕ => (r : ℤ)) (some 0) direction true = .ok (y, o) ∧ y.Good ∧
      y.shape = x.shape ∧ (∀ i, IdxOK i x.shape → y.val i = x.val i) ∧ y.ranks.length = x.len - 1 ∧
      ∀ k, 1 ≤ k → k < x.len → IsLeast {q | 0 < q ∧ RankLe x.shape k q x.val} (y.ranks.getD (k - 1) 0) := by
  obtain ⟨r, y, o, h1, h2, h3, h4, h5, h6⟩ := MPA.compressSvd_ok hqr h (truncatedSvd_spec h) x hx hlen
    (rank.map fun r : ℕ => (r : ℤ)) (by
      intro r hr
      cases rank with
      | none => simp at hr
      | some q => simp at hr; have := (hrk q rfl).1; omega) (some 0) (by rintro _ ⟨⟩; exact ⟨le_rfl, zero_le_one⟩) direction hd true
  have hrank : ∀ k, 1 ≤ k → k < x.len → RankLe x.shape k r.toNat x.val := by
    intro k k1 k2
    cases hrk' : rank with
    | none => exact rankLe_of_ranks hx.valid (fun q hq => by have := h3 (by rw [hrk']; rfl) q hq; omega) k1 k2
    | some q =>
      rw [hrk'] at h2
      have : r = (q : ℤ) := h2
      rw [this]
      exact (hrk q hrk').2 k k1 k2
  have hyl : y.ranks.length = x.len - 1 := by
    rw [← h5.len, MPA.ranks_eq]; simp [MPA.len]
  refine ⟨y, o, h4, h5.good, h5.shape, ?_⟩
  rcases h6 with ⟨-, -, -, hc⟩ | ⟨-, -, -, hc⟩
  · obtain ⟨full, c1, c2, -⟩ := hc rfl rfl
    obtain ⟨e1, e2⟩ := cutSeq_exact c1 h1 (fun k hk => by rw [List.mem_range'_1] at hk; exact hrank k hk.1 (by omega))
    refine ⟨e1, hyl, fun k k1 k2 => ?_⟩
    rw [c2]
    have hfl : full.length = x.len - 1 := by rw [← hyl, c2, List.length_map]
    have := List.forall₂_iff_get.1 e2 |>.2 (k - 1) (by simp; omega) (by omega)
    simp only [List.get_eq_getElem, List.getElem_range', one_mul] at this
    rw [List.getD_eq_getElem _ _ (by simp; omega), List.getElem_map]
    rwa [show 1 + (k - 1) = k by omega] at this
  · obtain ⟨full, c1, c2, -⟩ := hc rfl rfl
    obtain ⟨e1, e2⟩ := cutSeq_exact c1 h1 (fun k hk => by
      simp only [List.mem_map, List.mem_range] at hk
      obtain ⟨j, hj, rfl⟩ := hk
      exact hrank _ (by omega) (by omega))
    refine ⟨e1, hyl, fun k k1 k2 => ?_⟩
    rw [c2]
    have hfl : full.length = x.len - 1 := by rw [← hyl, c2, List.length_reverse, List.length_map]
    have := List.forall₂_iff_get.1 e2 |>.2 (x.len - 1 - k) (by simp; omega) (by omega)
    simp only [List.get_eq_getElem, List.getElem_map, List.getElem_range] at this
    rw [List.getD_eq_getElem _ _ (by simp; omega), List.getElem_reverse, List.getElem_map]
    simp only [List.length_map, hfl]
    rw [show x.len - 1 - (x.len - 1 - k) = k by omega] at this
    simpa only [show x.len - 1 - 1 - (k - 1) = x.len - 1 - k by omega] using this

/-- C66: no MPA which represents the same tensor has a smaller bond anywhere than the result of `compress(relerr=0)`. -/
theorem C66_no_smaller {qr : QR 𝕜} (hqr : QRSpec qr) {svd : SVD 𝕜} (h : SVDSpec svd)
    (x : MPA 𝕜) (hx : x.Good) (hlen : x.len ≠ 1) (direction : Option Dir) (hd : direction ≠ some .other) :
    ∃ (y : MPA 𝕜) (o : ℝ), x.compress qr svd none (some 0) direction true = .ok (y, o) ∧
      ∀ z : MPA 𝕜, z.Good → z.shape = x.shape → (∀ i, IdxOK i x.shape → z.val i = x.val i) →
        List.Forall₂ (· ≤ ·) y.ranks z.ranks := by
  obtain ⟨y, o, h1, -, -, -, h5, h6⟩ := C66_minimal hqr h x hx hlen none (by simp) direction hd
  refine ⟨y, o, h1, fun z hz hs hv => ?_⟩
  have hzl : z.len = x.len := by
    have := congrArg List.length hs
    simpa [MPA.shape, MPA.len] using this
  have hzr : z.ranks.length = x.len - 1 := by rw [← hzl, MPA.ranks_eq]; simp [MPA.len]
  rw [List.forall₂_iff_get]
  refine ⟨by omega, fun n n1 n2 => ?_⟩
  have hb := rankLe_bond hz.valid (k := n + 1) (by omega) (by omega)
  rw [hs] at hb
  have := (h6 (n + 1) (by omega) (by omega)).2 ⟨?_, hb.congr fun i hi => (hv i hi).symm⟩
  · simpa only [Nat.add_sub_cancel, List.getD_eq_getElem _ _ n1, List.getD_eq_getElem _ _ n2, List.get_eq_getElem] using this
  · have := ranks_pos_of_good hz (z.ranks.get ⟨n, n2⟩) (List.get_mem _ _)
    simpa only [Nat.add_sub_cancel, List.getD_eq_getElem _ _ n2, List.get_eq_getElem] using this

/-- The vector `|00⟩` with a bond of 2, the second site right-canonical. -/
noncomputable def exDeg : MPA ℂ :=
  ⟨[⟨[1, 2, 2], fun i => if i = [0, 0, 0] then 1 else 0⟩,
    ⟨[2, 2, 1], fun i => match i with | [a, p, _] => if a = p then 1 else 0 | _ => 0⟩], 0, 1⟩

theorem exDeg_good : exDeg.Good := by
  refine ⟨⟨by simp [exDeg], by simp [exDeg, NDArray.IsLocal, NDArray.ndim, NDArray.lb, NDArray.rb],
    by simp [exDeg], by simp [exDeg], by simp [exDeg, MPA.len]⟩, ?_, ?_⟩
  · intro n t hn
    refine ⟨fun h => by simp [exDeg] at h; omega, fun h => ?_⟩
    match n with
    | 0 => simp [exDeg] at h
    | 1 =>
      simp only [exDeg, List.getElem?_cons_succ, List.getElem?_cons_zero, Option.some.injEq] at hn
      subst hn
      intro a ha a' ha'
      simp only [NDArray.lb, NDArray.rb, NDArray.ph, NDArray.at3] at ha ha' ⊢
      simp at ha ha'
      simp [sumIdx]
      interval_cases a <;> interval_cases a' <;> simp [sum_range_succ]
    | n + 2 => simp [exDeg] at hn
  · intro t ht d hd
    simp only [exDeg, List.mem_cons, List.not_mem_nil, or_false] at ht
    rcases ht with rfl | rfl <;> simp at hd <;> omega

theorem exDeg_rank : RankLe exDeg.shape 1 1 exDeg.val := by
  refine ⟨fun i _ => if i = [[0]] then 1 else 0, fun _ j => if j = [[0]] then 1 else 0, fun i j hi hj => ?_⟩
  obtain ⟨p, rfl, hp⟩ := idxOK_one (S := [2]) hi
  obtain ⟨q, rfl, hq⟩ := idxOK_one (S := [2]) hj
  obtain ⟨a, rfl, ha⟩ : ∃ a, p = [a] ∧ a < 2 := by
    cases hp with | cons h1 h0 => cases h0; exact ⟨_, rfl, h1⟩
  obtain ⟨b, rfl, hb⟩ : ∃ b, q = [b] ∧ b < 2 := by
    cases hq with | cons h1 h0 => cases h0; exact ⟨_, rfl, h1⟩
  show entry exDeg.lt [[a], [b]] = _
  interval_cases a <;> interval_cases b <;>
    simp [entry, exDeg, mp_cons, mp_nil, NDArray.lb, NDArray.rb, NDArray.at3, sum_range_succ]

/-- C66 (finding): the documented default of `relerr` is 0, but without `relerr` vanishing singular values are kept: `compress()`
leaves the bond of the vector `|00⟩` at 2, `compress(relerr=0)` reduces it to 1. -/
theorem C66_default_keeps_zeros {qr : QR ℂ} (hqr : QRSpec qr) {svd : SVD ℂ} (h : SVDSpec svd) :
    ∃ y y' o o', exDeg.compress qr svd none none (some .right) true = .ok (y, o) ∧ y.ranks = [2] ∧
      exDeg.compress qr svd none (some 0) (some .right) true = .ok (y', o') ∧ y'.ranks = [1] := by
  have hcan : exDeg.canonicalize qr .none (.int 1) = .ok exDeg := rfl
  have hsvd : ∃ y o, exDeg.compress qr svd none none (some .right) true = .ok (y, o) ∧ y.ranks = [2] := by
    obtain ⟨mat, t', u', z, m1, m2, m3, m4, m5, m6, m7, m8⟩ := MPA.svdStepR_ok h (truncatedSvd_spec h) (rank := 2)
      (by norm_num) (relerr := none) exDeg_good.toO (pre := []) (post := []) rfl (by simp [exDeg]) []
    have hs := (h mat _ _ m1).2.1
    have hk : (svdPickR svd (truncatedSvd svd) 2 none (exDeg.lt[0]'(by simp [exDeg])).rb mat).2.2.2 = 2 := by
      simp only [svdPickR, truncatedSvd, List.length_take, hs]
      simp [exDeg, NDArray.lb, NDArray.rb, NDArray.ph]
    have hzl : z.lt = [t', u'] := m8.lt
    have hcz : ∃ o, z.site (-1) = .ok o := ⟨u', by unfold MPA.site MPA.len; rw [hzl]; rfl⟩
    obtain ⟨w, hw⟩ := hcz
    refine ⟨z, MPA.absSq w, ?_, ?_⟩
    · simp only [List.length_nil, Nat.cast_zero] at m7
      unfold MPA.compress MPA.compressSvd
      rw [if_neg (by simp [exDeg, MPA.len])]
      simp only [Option.getD_some, if_true]
      rw [show exDeg.maxRank = .ok 2 from rfl, hcan]
      show (do let r ← exDeg.compressSvdR svd (truncatedSvd svd) 2 none
               return (r.1, r.2.2) : Py (MPA ℂ × ℝ)) = _
      unfold MPA.compressSvdR
      rw [MPA.svdArgs_ok (by norm_num) (by simp), ok_bind, show ((exDeg.len : ℤ) - 1) = 1 from rfl,
        show pyRange 0 1 1 = [0] by rfl, List.foldlM_cons, m7, ok_bind, List.foldlM_nil]
      simp only [pure, Except.pure, ok_bind]
      rw [hw]
      rfl
    · rw [MPA.ranks_eq, hzl]
      simp only [List.map_cons, List.map_nil, List.tail_cons]
      rw [NDArray.lb_of_shape m8.ushape]
      exact congrArg (fun n => [n]) hk
  obtain ⟨y, o, h1, h2⟩ := hsvd
  obtain ⟨y', o', g1, -, -, -, g2, g3⟩ := C66_minimal hqr h exDeg exDeg_good (by simp [exDeg, MPA.len]) none (by simp)
    (some .right) (by simp)
  refine ⟨y, y', o, o', h1, h2, g1, ?_⟩
  obtain ⟨q, hq⟩ : ∃ q, y'.ranks = [q] := List.length_eq_one_iff.1 g2
  have h3 := g3 1 le_rfl (by simp [exDeg, MPA.len])
  rw [hq] at h3
  have h4 := h3.2 ⟨one_pos, exDeg_rank⟩
  have h5 := h3.1.1
  simp only [Nat.sub_self, List.getD_cons_zero] at h4 h5
  rw [hq, show q = 1 by omega]

/-- Concrete case: routines which meet the contracts exist, and the vector `|00⟩` with a bond of 2 meets the hypotheses. -/
example : ∃ (qr : QR ℂ) (svd : SVD ℂ) (y : MPA ℂ) (o : ℝ), QRSpec qr ∧ SVDSpec svd ∧ exDeg.ranks = [2] ∧
    exDeg.compress qr svd (some 1) none none true = .ok (y, o) ∧ ∀ i, IdxOK i exDeg.shape → y.val i = exDeg.val i := by
  obtain ⟨qr, hqr⟩ := exists_QRSpec (𝕜 := ℂ)
  obtain ⟨svd, h⟩ := exists_SVDSpec (𝕜 := ℂ)
  obtain ⟨y, o, h1, -, -, -, h2⟩ := C66_lossless hqr h exDeg exDeg_good (by simp [exDeg, MPA.len]) 1 one_pos none (by simp)
    (fun k k1 k2 => by
      have : k = 1 := by simp [exDeg, MPA.len] at k2; omega
      rw [this]; exact exDeg_rank)
  exact ⟨qr, svd, y, o, hqr, h, rfl, h1, h2⟩

end Mpnum
