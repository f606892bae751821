import Verif.Program.Dense
import Verif.MPArray.CompressVarMain

/-!
# Lemmas about indices and representations for dense programs
-/

open Finset

namespace Mpnum

namespace Prog

theorem cutSites_flatten {i S : List (List ℕ)} (h : IdxOK i S) : cutSites S i.flatten = i := by
  induction h with
  | nil => rfl
  | @cons a s is S h _ ih =>
    have : a.length = s.length := inB_length h
    simp only [List.flatten_cons, cutSites]
    rw [List.take_left' this, List.drop_left' this, ih]

/-- The sites of an index of a shape with the same legs in other groups. -/
theorem cutSites_ok {j S S' : List (List ℕ)} (h : IdxOK j S') (hS : S'.flatten = S.flatten) :
    IdxOK (cutSites S j.flatten) S ∧ (cutSites S j.flatten).flatten = j.flatten := by
  obtain ⟨i, hi, hok⟩ := idxOK_flatten_split (ss := S) (i := j.flatten) (by rw [← hS]; exact idxOK_flatten h)
  rw [hi, cutSites_flatten hok]
  exact ⟨hok, rfl⟩

theorem frontBack {j F G : List (List ℕ)} (hl : F.length = G.length) (h : IdxOK j (List.zipWith (· ++ ·) F G)) :
    IdxOK (frontIdx F j) F ∧ IdxOK (backIdx F j) G ∧ List.zipWith (· ++ ·) (frontIdx F j) (backIdx F j) = j := by
  induction F generalizing G j with
  | nil =>
    cases G with
    | nil => cases h; exact ⟨.nil, .nil, rfl⟩
    | cons _ _ => simp at hl
  | cons s F ih =>
    cases G with
    | nil => simp at hl
    | cons g G =>
      cases h with
      | @cons a _ as _ h1 h2 =>
        obtain ⟨a1, a2, rfl, h3, h4⟩ := inB_append_split h1
        obtain ⟨i1, i2, i3⟩ := ih (by simpa using hl) h2
        have hla : a1.length = s.length := inB_length h3
        simp only [frontIdx, backIdx, List.zipWith_cons_cons] at i1 i2 i3 ⊢
        rw [List.take_left' hla, List.drop_left' hla]
        exact ⟨.cons h3 i1, .cons h4 i2, by rw [i3]⟩

theorem asm_inB {s ax k f : List ℕ} (hax : ∀ a ∈ ax, a < s.length) (hk : InB k (conDims s ax))
    (hf : InB f (freeDims s ax)) : InB (NDArray.asm s.length ax k f) s := by
  have hkl : k.length = ax.length := by have := inB_length hk; simpa [conDims] using this
  refine inB_of_getD (by simp) ?_
  intro p hp
  by_cases hm : p ∈ ax
  · rw [NDArray.asm_mem hp hm hkl]
    have hi : ax.idxOf p < ax.length := List.idxOf_lt_length_iff.2 hm
    have := inB_getD hk (n := ax.idxOf p) (by simpa [conDims] using hi)
    simpa [conDims, List.getD_eq_getElem?_getD, hi, List.getElem?_map] using this
  · rw [NDArray.asm_not_mem hp hm hkl]
    have hmem : p ∈ NDArray.freeAxes s.length ax := by
      unfold NDArray.freeAxes; simp [hp, hm]
    have hi := List.idxOf_lt_length_iff.2 hmem
    have := inB_getD hf (n := (NDArray.freeAxes s.length ax).idxOf p) (by simpa [freeDims] using hi)
    simpa [freeDims, List.getD_eq_getElem?_getD, hi, List.getElem?_map] using this

theorem mergeIdx_inB {axes : List ℤ} {S k f : List (List ℕ)} (ha : ∀ s ∈ S, AxesIn axes s.length)
    (hk : IdxOK k (conShape S axes)) (hf : IdxOK f (freeShape S axes)) : IdxOK (mergeIdx axes S k f) S := by
  induction S generalizing k f with
  | nil => cases hk; cases hf; exact .nil
  | cons s S ih =>
    cases hk with
    | cons k1 k2 => cases hf with
      | cons f1 f2 =>
        refine .cons (asm_inB (axesOf_lt (ha s (by simp))) k1 f1) ?_
        exact ih (fun s hs => ha s (by simp [hs])) k2 f2

theorem mergeLegs_inB {S legs k f : List (List ℕ)} (hl : ∀ p ∈ S.zip legs, ∀ a ∈ p.2, a < p.1.length)
    (hlen : legs.length = S.length)
    (hk : IdxOK k (List.zipWith conDims S legs)) (hf : IdxOK f (List.zipWith freeDims S legs)) :
    IdxOK (mergeLegs S legs f k) S := by
  induction S generalizing legs k f with
  | nil =>
    cases legs with
    | nil => cases hk; cases hf; exact .nil
    | cons _ _ => simp at hlen
  | cons s S ih =>
    cases legs with
    | nil => simp at hlen
    | cons l legs =>
      cases hk with
      | cons k1 k2 => cases hf with
        | cons f1 f2 =>
          refine .cons (asm_inB (fun a h => hl (s, l) (by simp) a h) k1 f1) ?_
          exact ih (fun p hp => hl p (by simp [hp])) (by simpa using hlen) k2 f2

theorem traceMerge_inB {o : Option (ℤ × ℤ)} {s f k : List ℕ} (h : TraceOK o s) (hf : InB f (traceRest o s))
    (hk : InB k (traceDims o s)) : InB (traceMerge o s f k) s := by
  rcases o with _ | ⟨i, j⟩
  · exact hf
  · obtain ⟨hi, hj, hne, hd⟩ := h
    cases hk with
    | @cons c _ _ _ hc hn =>
      cases hn
      have e : ∀ {a : ℤ}, (-(s.length : ℤ) ≤ a ∧ a < s.length) → axisOf a s.length < s.length := fun h => (pyIndex_adapt h).2
      refine asm_inB ?_ ?_ hf
      · intro a ha
        simp only [List.mem_cons, List.not_mem_nil, or_false] at ha
        rcases ha with rfl | rfl
        · exact e hi
        · exact e hj
      · simp only [conDims, List.map_cons, List.map_nil, List.headD_cons]
        exact .cons hc (.cons (by rw [← hd]; exact hc) .nil)

theorem traceMerges_inB {os : List (Option (ℤ × ℤ))} {S f k : List (List ℕ)} (hl : os.length = S.length)
    (h : ∀ p ∈ os.zip S, TraceOK p.1 p.2) (hf : IdxOK f (List.zipWith traceRest os S))
    (hk : IdxOK k (List.zipWith traceDims os S)) :
    IdxOK (List.zipWith3 (fun (p : Option (ℤ × ℤ) × List ℕ) f k => traceMerge p.1 p.2 f k) (os.zip S) f k) S := by
  induction S generalizing os f k with
  | nil =>
    cases os with
    | nil => cases hk; cases hf; exact .nil
    | cons _ _ => simp at hl
  | cons s S ih =>
    cases os with
    | nil => simp at hl
    | cons o os =>
      cases hk with
      | cons k1 k2 => cases hf with
        | cons f1 f2 =>
          refine .cons (traceMerge_inB (h (o, s) (by simp)) f1 k1) ?_
          exact ih (by simpa using hl) (fun p hp => h p (by simp [hp])) f2 k2

/-! ### representation -/

theorem Reps.pos {x : MPA ℂ} {t : Ten} (h : Reps x t) : ∀ s ∈ t.shape, ∀ d ∈ s, 0 < d := by
  rw [← h.shape]; exact good_shape_pos h.good

theorem Reps.len {x : MPA ℂ} {t : Ten} (h : Reps x t) : x.len = t.shape.length := by
  rw [← h.shape]; simp [MPA.shape, MPA.len]

theorem Reps.ranks {x : MPA ℂ} {t : Ten} (h : Reps x t) : ∀ r ∈ x.ranks, 0 < r := ranks_pos_of_good h.good

theorem canonOK_form {x : MPA ℂ} (hl : x.l = 0) (hr : x.r = x.len) : x.CanonOK := by
  obtain ⟨lt, l, r⟩ := x
  simp only [MPA.len] at hl hr
  subst hl; subst hr
  exact canonOK_mk lt

theorem reps_of {z : MPA ℂ} {u : Ten} (hv : z.Valid) (hc : z.CanonOK) (hs : z.shape = u.shape)
    (hp : ∀ s ∈ u.shape, ∀ d ∈ s, 0 < d) (hr : ∀ r ∈ z.ranks, 0 < r)
    (hval : ∀ j, IdxOK j u.shape → z.val j = u.val j) : Reps z u :=
  ⟨⟨hv, hc, allPos_of hv (by rw [hs]; exact hp) hr⟩, hs, hval⟩

theorem freeDims_pos {s ax : List ℕ} (h : ∀ d ∈ s, 0 < d) : ∀ d ∈ freeDims s ax, 0 < d := by
  intro d hd
  simp only [freeDims, List.mem_map] at hd
  obtain ⟨p, hp, rfl⟩ := hd
  have hlt : p < s.length := by
    unfold NDArray.freeAxes at hp; simp at hp; exact hp.1
  rw [List.getD_eq_getElem?_getD, List.getElem?_eq_getElem hlt]
  exact h _ (List.getElem_mem hlt)

theorem freeShape_pos {S : List (List ℕ)} {axes : List ℤ} (h : ∀ s ∈ S, ∀ d ∈ s, 0 < d) :
    ∀ s ∈ freeShape S axes, ∀ d ∈ s, 0 < d := by
  intro s hs
  obtain ⟨q, hq, rfl⟩ := List.mem_map.1 hs
  exact freeDims_pos (h q hq)

theorem mem_zipWith_pair {α β γ : Type} {f : α → β → γ} {as : List α} {bs : List β} {c : γ}
    (h : c ∈ List.zipWith f as bs) : ∃ p ∈ as.zip bs, c = f p.1 p.2 := by
  induction as generalizing bs with
  | nil => simp at h
  | cons a as ih =>
    cases bs with
    | nil => simp at h
    | cons b bs =>
      rcases List.mem_cons.1 h with rfl | h
      · exact ⟨(a, b), by simp, rfl⟩
      · obtain ⟨p, hp, e⟩ := ih h
        exact ⟨p, by simp [hp], e⟩

theorem zipWith_append_pos {F G : List (List ℕ)} (hF : ∀ s ∈ F, ∀ d ∈ s, 0 < d) (hG : ∀ s ∈ G, ∀ d ∈ s, 0 < d) :
    ∀ s ∈ List.zipWith (· ++ ·) F G, ∀ d ∈ s, 0 < d := by
  intro s hs d hd
  obtain ⟨p, hp, rfl⟩ := mem_zipWith_pair hs
  have := List.of_mem_zip hp
  rcases List.mem_append.1 hd with h | h
  · exact hF _ this.1 d h
  · exact hG _ this.2 d h

theorem zipWith_free_pos {S legs : List (List ℕ)} (h : ∀ s ∈ S, ∀ d ∈ s, 0 < d) :
    ∀ s ∈ List.zipWith freeDims S legs, ∀ d ∈ s, 0 < d := by
  intro s hs
  obtain ⟨p, hp, rfl⟩ := mem_zipWith_pair hs
  exact freeDims_pos (h _ (List.of_mem_zip hp).1)

theorem pos_flatten {S S' : List (List ℕ)} (hf : S'.flatten = S.flatten) (h : ∀ s ∈ S, ∀ d ∈ s, 0 < d) :
    ∀ s ∈ S', ∀ d ∈ s, 0 < d := by
  intro s hs d hd
  have : d ∈ S.flatten := by rw [← hf]; exact List.mem_flatten.2 ⟨s, hs, hd⟩
  obtain ⟨q, hq, hd'⟩ := List.mem_flatten.1 this
  exact h q hq d hd'

end Prog

end Mpnum
