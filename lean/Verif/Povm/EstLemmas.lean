import Verif.Povm.EstFrom
import Verif.Props.C56
import Verif.Props.C23
import Verif.Props.C49
import Verif.Props.C02
import Verif.Props.C09

/-! # Lemmas about `est_pmf_from` -/

open Finset Classical

namespace Mpnum

variable {R : Type}

/-- The elements of `l` on the sites with several outcomes. -/
def keepOn {α : Type} : List ℕ → List α → List α
  | d :: D, i :: I => if 1 < d then i :: keepOn D I else keepOn D I
  | _, _ => []

theorem keepOn_nat (O l : List ℕ) : keepOn O l = squeezeIdx O l := by
  induction O generalizing l with
  | nil => rfl
  | cons d O ih => cases l with
    | nil => rfl
    | cons a l => simp only [keepOn, squeezeIdx, ih]

theorem keepOn_singles (O l : List ℕ) : keepOn O (singles l) = singles (squeezeIdx O l) := by
  induction O generalizing l with
  | nil => rfl
  | cons d O ih => cases l with
    | nil => rfl
    | cons a l =>
      simp only [singles, List.map_cons, keepOn, squeezeIdx] at ih ⊢
      split <;> simp [ih]

/-- The runs: all elements of `l` in the holes. -/
def holeParts {α : Type} (support : List ℕ) (n a k : ℕ) (l : List α) : List (ℕ × List α) :=
  (((a :: support.map (· + 1)).zip (support ++ [n])).zipIdx k |>.filter fun q => q.1.1 < q.1.2).map
    fun q => (q.2, (l.drop q.1.1).take (q.1.2 - q.1.1))

theorem holesOf_eq (O support : List ℕ) : holesOf O support = holeParts support O.length 0 0 O := rfl

theorem weave_shift {α : Type} (k : ℕ) (ps : List ℕ) (hps : ∀ p ∈ ps.head?, k + 1 ≤ p) (a : α) (l : List α)
    (J : List (List α)) (hJ : J.length = ps.length) :
    weave (cutGo k ps (a :: l)) J = a :: weave (cutGo (k + 1) ps l) J := by
  cases ps with
  | nil =>
    cases J with
    | nil => simp [cutGo, weave]
    | cons j J => simp at hJ
  | cons p ps =>
    cases J with
    | nil => simp at hJ
    | cons j J =>
      have hp : k + 1 ≤ p := hps p (by simp)
      obtain ⟨e, he⟩ : ∃ e, p - k = e + 1 := ⟨p - k - 1, by omega⟩
      have he' : p - (k + 1) = e := by omega
      simp [cutGo, weave, he, he']

theorem holeParts_fst {α : Type} (support : List ℕ) (n a k : ℕ) (l : List α) :
    ∀ p ∈ (holeParts support n a k l).map Prod.fst, k ≤ p := by
  intro p hp
  simp only [holeParts, List.map_map, List.mem_map, List.mem_filter] at hp
  obtain ⟨q, ⟨hq, -⟩, rfl⟩ := hp
  exact List.le_snd_of_mem_zipIdx hq

theorem holeParts_chain {α : Type} (support : List ℕ) (n a k : ℕ) (l : List α) :
    ((holeParts support n a k l).map Prod.fst).IsChain (· < ·) := by
  induction support generalizing a k with
  | nil =>
    simp only [holeParts, List.map_nil, List.nil_append, List.zip_cons_cons, List.zip_nil_right, List.zipIdx_cons,
      List.zipIdx_nil]
    by_cases h : a < n <;> simp [h]
  | cons s support ih =>
    have : holeParts (s :: support) n a k l = (if a < s then [(k, (l.drop a).take (s - a))] else []) ++
        holeParts support n (s + 1) (k + 1) l := by
      simp only [holeParts, List.map_cons, List.cons_append, List.zip_cons_cons, List.zipIdx_cons]
      by_cases h : a < s <;> simp [h]
    rw [this]
    by_cases h : a < s
    · simp only [h, if_true, List.cons_append, List.nil_append, List.map_cons]
      rw [List.isChain_cons]
      refine ⟨fun p hp => ?_, ih _ _⟩
      have := holeParts_fst support n (s + 1) (k + 1) l p (List.mem_of_mem_head? hp)
      omega
    · simp only [h, if_false, List.nil_append]
      exact ih _ _

theorem holeParts_cons {α : Type} (s : ℕ) (support : List ℕ) (n a k : ℕ) (l : List α) :
    holeParts (s :: support) n a k l = (if a < s then [(k, (l.drop a).take (s - a))] else []) ++
        holeParts support n (s + 1) (k + 1) l := by
  simp only [holeParts, List.map_cons, List.cons_append, List.zip_cons_cons, List.zipIdx_cons]
  by_cases h : a < s <;> simp [h]

/-- Putting the elements in the holes back. -/
theorem weave_holes {α : Type} (l : List α) (support : List ℕ) (a k : ℕ) (ha : a ≤ l.length)
    (hs : support.IsChain (· < ·)) (hh : ∀ s ∈ support.head?, a ≤ s) (hn : ∀ s ∈ support, s < l.length) (m : List α)
    (hm : m.map some = support.map fun s => l[s]?) :
    weave (cutGo k ((holeParts support l.length a k l).map Prod.fst) m)
      ((holeParts support l.length a k l).map Prod.snd) = l.drop a := by
  induction support generalizing a k m with
  | nil =>
    simp only [List.map_nil, List.map_eq_nil_iff] at hm
    subst hm
    simp only [holeParts, List.map_nil, List.nil_append, List.zip_cons_cons, List.zip_nil_right, List.zipIdx_cons,
      List.zipIdx_nil]
    by_cases h : a < l.length
    · simp [h, cutGo, weave]
    · have : a = l.length := by omega
      simp [h, cutGo, weave, this]
  | cons s support ih =>
    cases m with
    | nil => simp at hm
    | cons b m =>
      simp only [List.map_cons, List.cons.injEq] at hm
      have has : a ≤ s := hh s (by simp)
      have hsl : s < l.length := hn s (by simp)
      have hb : l[s] = b := by
        have := hm.1
        rw [List.getElem?_eq_getElem hsl] at this
        exact (Option.some.inj this).symm
      have hrec : weave (cutGo k ((holeParts support l.length (s + 1) (k + 1) l).map Prod.fst) (b :: m))
          ((holeParts support l.length (s + 1) (k + 1) l).map Prod.snd) = b :: l.drop (s + 1) := by
        rw [weave_shift]
        · rw [ih (s + 1) (k + 1) (by omega) hs.tail ?_ (fun s' h' => hn s' (by simp [h'])) m hm.2]
          intro s' hs'
          have : s < s' := by
            cases support with
            | nil => simp at hs'
            | cons s'' support =>
              simp only [List.head?_cons, Option.mem_def, Option.some.injEq] at hs'
              subst hs'
              exact (List.isChain_cons_cons.1 hs).1
          omega
        · intro p hp
          exact holeParts_fst _ _ _ _ _ _ (List.mem_of_mem_head? hp)
        · simp
      rw [holeParts_cons]
      by_cases h : a < s
      · simp only [h, if_true, List.cons_append, List.nil_append, List.map_cons, cutGo, Nat.sub_self, List.take_zero,
          List.drop_zero, weave]
        rw [hrec, ← hb, List.getElem_cons_drop, List.take_drop, Nat.add_sub_cancel' has]
        conv_rhs => rw [← List.take_append_drop s l]
        rw [List.drop_append_of_le_length (by simp; omega)]
      · have : a = s := by omega
        subst this
        simp only [h, if_false, List.nil_append]
        rw [hrec, ← hb, List.getElem_cons_drop]

theorem keepOn_map_some {α : Type} (O : List ℕ) (l : List α) (h : l.length = O.length) :
    (keepOn O l).map some = ((List.range O.length).filter fun k => 1 < O.getD k 0).map fun s => l[s]? := by
  induction O generalizing l with
  | nil => rfl
  | cons d O ih =>
    cases l with
    | nil => simp at h
    | cons a l =>
      have h' : l.length = O.length := by simpa using h
      rw [List.length_cons, List.range_succ_eq_map, List.filter_cons]
      simp only [keepOn, List.getD_cons_zero, List.filter_map, Function.comp_def, Nat.succ_eq_add_one,
        List.getD_cons_succ]
      split <;> rename_i h1 <;> simp [h1, ih l h', Function.comp_def]

theorem nsoutpos_eq {x : MPA R} {O D : List ℕ} (hx : IsMpPovm x O D) :
    nsoutpos x = (List.range O.length).filter fun k => 1 < O.getD k 0 := by
  unfold nsoutpos MPA.len
  rw [hx.outdims, hx.lenx, hx.len]

theorem filter_range_chain (n : ℕ) (p : ℕ → Bool) : ((List.range n).filter p).IsChain (· < ·) := by
  rw [List.isChain_iff_pairwise]
  exact List.pairwise_lt_range.filter _

theorem inB_pad [CommSemiring R] {O Y : List ℕ} (h : InB Y O) (support : List ℕ) (n a k : ℕ) :
    List.Forall₂ (fun (j : List (List ℕ)) (t : List (NDArray R)) => IdxOK j (t.map NDArray.shape))
      ((holeParts support n a k (singles Y)).map Prod.snd)
      ((holeParts support n a k O).map fun q => q.2.map (NDArray.onesVec (R := R))) := by
  unfold holeParts
  rw [List.map_map, List.map_map, List.forall₂_map_left_iff, List.forall₂_map_right_iff, List.forall₂_same]
  intro q _
  simp only [Function.comp_apply, List.map_map]
  unfold IdxOK
  rw [List.forall₂_map_right_iff]
  have h1 : List.Forall₂ (fun (i : List ℕ) d => InB i [d]) (singles Y) O := by
    unfold singles
    rw [List.forall₂_map_left_iff]
    exact h.imp fun _ _ h => by simpa using h
  exact List.forall₂_take _ (List.forall₂_drop _ h1)

theorem prod_ones [CommSemiring R] (l : List (NDArray R)) (j : List (List ℕ)) (h : ∀ t ∈ l, ∃ d, t = NDArray.onesVec d) :
    (List.zipWith NDArray.get l j).prod = 1 := by
  induction l generalizing j with
  | nil => simp
  | cons t l ih =>
    cases j with
    | nil => simp
    | cons i j =>
      obtain ⟨d, rfl⟩ := h t (by simp)
      rw [List.zipWith_cons_cons, List.prod_cons, ih j fun t ht => h t (by simp [ht])]
      simp [NDArray.onesVec]

theorem squeezeIdx_all {O Y : List ℕ} (hY : InB Y O) (hbig : ∀ d ∈ O, 1 < d) : squeezeIdx O Y = Y := by
  induction hY with
  | nil => rfl
  | @cons a b l l' _ _ ih =>
    rw [squeezeIdx, if_pos (hbig b (by simp)), ih fun d hd => hbig d (by simp [hd])]

theorem squeezeIdx_self_ns (O : List ℕ) : squeezeIdx O O = nsDims O := squeezeIdx_self O

theorem fillHoles_ok [CommSemiring R] {x g : MPA R} {O D : List ℕ} (hx : IsMpPovm x O D) (hg : g.Valid)
    (hs : g.shape = singles (nsDims O)) (hr : ∀ r ∈ g.ranks, 0 < r) :
    ∃ y, fillHoles x (nsoutpos x) g = .ok y ∧ y.Valid ∧ y.shape = singles O ∧ (∀ r ∈ y.ranks, 0 < r) ∧
      ∀ Y, InB Y O → y.val (singles Y) = g.val (singles (squeezeIdx O Y)) := by
  have hglen : g.len = (nsDims O).length := by
    have := congrArg List.length hs; simpa [MPA.shape, MPA.len, singles] using this
  have hxlen : x.len = O.length := by rw [hx.len]; exact hx.lenx
  obtain ⟨sp, hsp⟩ : ∃ sp, sp = nsoutpos x := ⟨_, rfl⟩
  have hsp' := hsp.trans (nsoutpos_eq hx)
  have hkO : (keepOn O O).map some = sp.map fun s => O[s]? := by rw [hsp']; exact keepOn_map_some O O rfl
  have hsl : sp.length = (nsDims O).length := by
    have := congrArg List.length hkO
    simp only [List.length_map, keepOn_nat, squeezeIdx_self] at this
    exact this.symm
  rw [← hsp]
  unfold fillHoles
  rw [pyAssert_true (by rw [hsl, hglen]), ok_bind, pyAssert_true, ok_bind]
  swap
  · intro q hq
    obtain ⟨n, hn, rfl⟩ := List.getElem_of_mem hq
    rw [List.getElem_zip]
    simp only [List.length_zip] at hn
    have h1 := congrArg (fun l => l[n]?) hkO
    have hn' : n < sp.length := by omega
    have hn2 : n < (nsDims O).length := by omega
    simp only [keepOn_nat, squeezeIdx_self, List.getElem?_map] at h1
    rw [show (O.filter (1 < ·)) = nsDims O from rfl, List.getElem?_eq_getElem hn2,
      List.getElem?_eq_getElem hn'] at h1
    simp only [Option.map_some, Option.some.injEq] at h1
    simp only [hs, singles, List.getElem_map, hx.outdims]
    rw [show O.getD sp[n] 0 = O[sp[n]]?.getD 0 from List.getD_eq_getElem?_getD .., ← h1]
    rfl
  by_cases hall : sp.length = x.len
  · rw [if_pos hall]
    have hbig : ∀ d ∈ O, 1 < d := by
      have : (O.filter (1 < ·)).length = O.length := by
        rw [← hxlen, ← hall, hsl]; rfl
      intro d hd
      have h2 := List.filter_eq_self.1 (List.Sublist.eq_of_length List.filter_sublist this) d hd
      simpa using h2
    have hns : nsDims O = O := List.filter_eq_self.2 (by simpa using hbig)
    refine ⟨g, rfl, hg, by rw [hs, hns], hr, fun Y hY => ?_⟩
    rw [squeezeIdx_all hY hbig]
  · rw [if_neg hall]
    have hfst : ∀ {α β : Type} (l : List α) (l' : List β), (holeParts sp O.length 0 0 l).map Prod.fst
        = (holeParts sp O.length 0 0 l').map Prod.fst := by
      intro α β l l'
      simp [holeParts]
    have hchain : sp.IsChain (· < ·) := by rw [hsp']; exact filter_range_chain _ _
    have hlt : ∀ s ∈ sp, s < O.length := by
      intro s hs
      rw [hsp'] at hs
      exact List.mem_range.1 (List.mem_filter.1 hs).1
    have hw : ∀ {α : Type} (l : List α), l.length = O.length →
        weave (cutGo 0 ((holeParts sp O.length 0 0 O).map Prod.fst) (keepOn O l))
          ((holeParts sp O.length 0 0 l).map Prod.snd) = l := by
      intro α l hl
      have := weave_holes l sp 0 0 (Nat.zero_le _) hchain (fun _ _ => Nat.zero_le _) (by rw [hl]; exact hlt)
        (keepOn O l) (by rw [hsp']; exact keepOn_map_some O l hl)
      rw [hl, hfst l O] at this
      simpa using this
    have hle : ∀ p ∈ (holeParts sp O.length 0 0 O).map Prod.fst, p ≤ g.len := by
      intro p hp
      simp only [holeParts, List.map_map, List.mem_map, List.mem_filter] at hp
      obtain ⟨q, ⟨hq, -⟩, rfl⟩ := hp
      have := List.snd_lt_of_mem_zipIdx hq
      simp only [List.length_zip, List.length_cons, List.length_map, List.length_append, List.length_nil] at this
      simp only [Function.comp_apply]
      omega
    have hT : List.Forall₂ (fun (q : ℕ × InjItem R) t => Injects (legAt g.shape q.1) q.2 t)
        (((holeParts sp O.length 0 0 O).map Prod.fst).zip ((holeParts sp O.length 0 0 O).map fun h =>
          InjItem.seq (h.2.map fun d => some (NDArray.onesVec (R := R) d))))
        ((holeParts sp O.length 0 0 O).map fun q => q.2.map (NDArray.onesVec (R := R))) := by
      rw [List.zip_map', List.forall₂_map_left_iff, List.forall₂_map_right_iff, List.forall₂_same]
      intro q _
      simp only [Injects]
      rw [List.forall₂_map_left_iff, List.forall₂_map_right_iff, List.forall₂_same]
      intro d _
      rfl
    have hleg : ∀ q ∈ ((holeParts sp O.length 0 0 O).map Prod.fst).zip ((holeParts sp O.length 0 0 O).map fun h =>
          InjItem.seq (h.2.map fun d => some (NDArray.onesVec (R := R) d))),
        q.2.usesEye → g.shape.getD (min q.1 (g.len - 1)) [] ≠ [] := by
      rw [List.zip_map']
      intro q hq h
      obtain ⟨a, -, rfl⟩ := List.mem_map.1 hq
      simp [InjItem.usesEye] at h
    obtain ⟨y, y1, y2, -, -, y3, y4, y5⟩ := C23_inject g hg ((holeParts sp O.length 0 0 O).map Prod.fst)
      ((holeParts sp O.length 0 0 O).map fun h => .seq (h.2.map fun d => some (NDArray.onesVec d)))
      ((holeParts sp O.length 0 0 O).map fun q => q.2.map (NDArray.onesVec (R := R)))
      (holeParts_chain _ _ _ _ _) hle (by simp) hT hleg
    · refine ⟨y, ?_, y2, ?_, ?_, ?_⟩
      · rw [hx.outdims]
        simp only [holesOf_eq]
        rw [← y1, List.map_map]
        rfl
      · rw [y3, hs, ← squeezeIdx_self_ns, ← keepOn_singles]
        rw [← hw (singles O) (by simp [singles])]
        congr 1
        · congr 1
          rw [hw (singles O) (by simp [singles])]
        · simp only [holeParts, List.map_map]
          refine List.map_congr_left fun q _ => ?_
          simp [singles, NDArray.onesVec, Function.comp_def, List.map_drop, List.map_take]
      · intro r hr'
        rcases y4 r hr' with rfl | h
        · exact Nat.one_pos
        · exact hr r h
      · intro Y hY
        have hYs : InB (squeezeIdx O Y) (nsDims O) := squeeze_inB hY
        have := y5 (singles (squeezeIdx O Y)) ((holeParts sp O.length 0 0 (singles Y)).map Prod.snd)
          (by rw [hs]; exact singles_idxOK hYs) (inB_pad hY _ _ _ _)
        rw [← keepOn_singles, hw (singles Y) (by simp [singles, inB_length hY])] at this
        rw [this, keepOn_singles]
        have hone : ∀ (l : List R), (∀ a ∈ l, a = 1) → l.prod = 1 := fun l h => List.prod_eq_one h
        rw [hone, mul_one]
        intro a ha
        rw [List.mem_iff_getElem] at ha
        obtain ⟨n, hn, rfl⟩ := ha
        rw [List.getElem_zipWith]
        refine prod_ones _ _ fun t ht => ?_
        rw [List.getElem_map] at ht
        obtain ⟨d, -, rfl⟩ := List.mem_map.1 ht
        exact ⟨d, rfl⟩

end Mpnum
