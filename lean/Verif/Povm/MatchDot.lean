import Verif.Povm.Match
import Verif.Povm.PovmSpec
import Verif.Props.C46

/-!
# Contractions of MP-POVMs used by `match_elems` -/

open Finset

namespace Mpnum

variable {R : Type}

theorem sumSites_pairs2 [AddCommMonoid R] : ∀ {D E : List ℕ}, D.length = E.length → ∀ (F : List (List ℕ) → R),
    sumSites (pairs D E) F = sumIdx D fun I => sumIdx E fun J => F (pairs I J)
  | [], [], _, F => rfl
  | d :: D, e :: E, h, F => by
    have ih := sumSites_pairs2 (D := D) (E := E) (by simpa using h)
    show (∑ i ∈ range d, ∑ j ∈ range e, sumSites (pairs D E) fun is => F ([i, j] :: is)) = _
    simp only [ih, sumIdx_cons]
    refine Finset.sum_congr rfl fun i _ => ?_
    rw [sumIdx_sum_comm]
    rfl
  | [], _ :: _, h, _ => by simp at h
  | _ :: _, [], h, _ => by simp at h

theorem mergeIdx_triple_first : ∀ {O D E W I J : List ℕ}, O.length = D.length → D.length = E.length → W.length = O.length →
    I.length = D.length → J.length = E.length → mergeIdx [0] (triples O D E) (singles W) (pairs I J) = triples W I J
  | [], [], [], [], [], [], _, _, _, _, _ => rfl
  | o :: O, d :: D, e :: E, w :: W, i :: I, j :: J, h1, h2, h3, h4, h5 => by
    have ih := mergeIdx_triple_first (O := O) (D := D) (E := E) (W := W) (I := I) (J := J) (by simpa using h1)
      (by simpa using h2) (by simpa using h3) (by simpa using h4) (by simpa using h5)
    unfold mergeIdx at ih ⊢
    simp only [triples_cons, singles, List.map_cons, pairs, List.zipWith_cons_cons, List.zipWith3]
    simp only [singles, pairs] at ih
    rw [ih]
    rfl

theorem mergeIdx_triple_last : ∀ {O D E Y I J : List ℕ}, O.length = D.length → D.length = E.length → Y.length = O.length →
    I.length = D.length → J.length = E.length → mergeIdx [1, 2] (triples O D E) (pairs I J) (singles Y) = triples Y I J
  | [], [], [], [], [], [], _, _, _, _, _ => rfl
  | o :: O, d :: D, e :: E, w :: W, i :: I, j :: J, h1, h2, h3, h4, h5 => by
    have ih := mergeIdx_triple_last (O := O) (D := D) (E := E) (Y := W) (I := I) (J := J) (by simpa using h1)
      (by simpa using h2) (by simpa using h3) (by simpa using h4) (by simpa using h5)
    unfold mergeIdx at ih ⊢
    simp only [triples_cons, singles, List.map_cons, pairs, List.zipWith_cons_cons, List.zipWith3]
    simp only [singles, pairs] at ih
    rw [ih]
    rfl

theorem mergeIdx_pair_all : ∀ {A B M I J : List ℕ}, A.length = B.length → M.length = A.length →
    I.length = A.length → J.length = B.length → mergeIdx [0, 1] (pairs A B) (pairs I J) (M.map fun _ => []) = pairs I J
  | [], [], [], [], [], _, _, _, _ => rfl
  | a :: A, b :: B, m :: M, i :: I, j :: J, h1, h2, h3, h4 => by
    have ih := mergeIdx_pair_all (A := A) (B := B) (M := M) (I := I) (J := J) (by simpa using h1)
      (by simpa using h2) (by simpa using h3) (by simpa using h4)
    unfold mergeIdx at ih ⊢
    simp only [List.map_cons, pairs, List.zipWith_cons_cons, List.zipWith3]
    simp only [pairs] at ih
    rw [ih]
    rfl

theorem triples_map {α : Type} (f : ℕ → ℕ → ℕ → α) (g : List ℕ → α) (hg : ∀ o d e, g [o, d, e] = f o d e) :
    ∀ (O D E : List ℕ), (triples O D E).map g = List.zipWith3 f O D E
  | [], _, _ => rfl
  | o :: O, [], _ => rfl
  | o :: O, _ :: _, [] => rfl
  | o :: O, d :: D, e :: E => by rw [triples_cons, List.map_cons, hg, triples_map f g hg O D E]; rfl

theorem zipWith3_first : ∀ {O D E : List ℕ}, O.length = D.length → D.length = E.length →
    List.zipWith3 (fun o _ _ => [o]) O D E = singles O
  | [], [], [], _, _ => rfl
  | o :: O, d :: D, e :: E, h1, h2 => by
    rw [List.zipWith3, zipWith3_first (by simpa using h1) (by simpa using h2)]; rfl

theorem zipWith3_rest : ∀ {O D E : List ℕ}, O.length = D.length → D.length = E.length →
    List.zipWith3 (fun _ d e => [d, e]) O D E = pairs D E
  | [], [], [], _, _ => rfl
  | o :: O, d :: D, e :: E, h1, h2 => by
    rw [List.zipWith3, zipWith3_rest (by simpa using h1) (by simpa using h2)]; rfl

theorem mem_triples_length {O D E : List ℕ} : ∀ s ∈ triples O D E, s.length = 3 := by
  intro s hs
  obtain ⟨n, hn, rfl⟩ := List.getElem_of_mem hs
  simp [triples, pairs]

theorem mem_pairs_length {D E : List ℕ} : ∀ s ∈ pairs D E, s.length = 2 := by
  intro s hs
  obtain ⟨n, hn, rfl⟩ := List.getElem_of_mem hs
  simp [pairs]

section
variable [CommSemiring R]

/-- `dot` of two chains with the same number of legs on all sites. -/
theorem dot_struct {x y : MPA R} {axes : List ℤ × List ℤ} {m n : ℕ} (hx : x.Valid) (hy : y.Valid)
    (hm : ∀ s ∈ x.shape, s.length = m) (hn : ∀ s ∈ y.shape, s.length = n)
    (ha : AxesIn axes.1 m ∧ (axesOf axes.1 m).Nodup) (hb : AxesIn axes.2 n ∧ (axesOf axes.2 n).Nodup)
    {A C B : List (List ℕ)}
    (f1 : x.shape.map (fun s => freeDims s (axesOf axes.1 m)) = A)
    (c1 : x.shape.map (fun s => conDims s (axesOf axes.1 m)) = C)
    (f2 : y.shape.map (fun s => freeDims s (axesOf axes.2 n)) = B)
    (c2 : y.shape.map (fun s => conDims s (axesOf axes.2 n)) = C) :
    ∃ z, dot x y axes = .ok z ∧ z.Valid ∧ z.shape = List.zipWith (· ++ ·) A B ∧ z.l = 0 ∧ z.r = z.len ∧
      z.ranks = List.zipWith (· * ·) x.ranks y.ranks ∧
      ∀ f g, IdxOK f A → IdxOK g B → z.val (List.zipWith (· ++ ·) f g) = sumSites C fun k =>
        x.val (mergeIdx axes.1 x.shape k f) * y.val (mergeIdx axes.2 y.shape k g) := by
  have f1' : x.shape.map (fun s => freeDims s (axesOf axes.1 s.length)) = A := by
    rw [← f1]; exact List.map_congr_left fun s hs => by rw [hm s hs]
  have c1' : x.shape.map (fun s => conDims s (axesOf axes.1 s.length)) = C := by
    rw [← c1]; exact List.map_congr_left fun s hs => by rw [hm s hs]
  have f2' : y.shape.map (fun s => freeDims s (axesOf axes.2 s.length)) = B := by
    rw [← f2]; exact List.map_congr_left fun s hs => by rw [hn s hs]
  have c2' : y.shape.map (fun s => conDims s (axesOf axes.2 s.length)) = C := by
    rw [← c2]; exact List.map_congr_left fun s hs => by rw [hn s hs]
  obtain ⟨z, h1, h2, h3, h4, h5, h6, h7⟩ := C08_dot x y axes hx hy
    ⟨by
      have a := congrArg List.length c1'
      have b := congrArg List.length c2'
      simp [MPA.shape] at a b
      unfold MPA.len; omega, fun s hs => by rw [hm s hs]; exact ha, fun s hs => by rw [hn s hs]; exact hb,
      by rw [c1', c2']⟩
  rw [f1', f2'] at h5 h7
  rw [c1'] at h7
  exact ⟨z, h1, h2, h5, h3, h4, h6, h7⟩

theorem zipWith_singles_pairs : ∀ {Z I J : List ℕ}, Z.length = I.length → I.length = J.length →
    List.zipWith (· ++ ·) (singles Z) (pairs I J) = triples Z I J
  | [], [], [], _, _ => rfl
  | z :: Z, i :: I, j :: J, h1, h2 => by
    have := zipWith_singles_pairs (Z := Z) (I := I) (J := J) (by simpa using h1) (by simpa using h2)
    simp only [singles, pairs, List.map_cons, List.zipWith_cons_cons, triples_cons] at this ⊢
    rw [this]; rfl

theorem zipWith_singles_singles : ∀ {Z I : List ℕ}, Z.length = I.length →
    List.zipWith (· ++ ·) (singles Z) (singles I) = pairs Z I
  | [], [], _ => rfl
  | z :: Z, i :: I, h1 => by
    have := zipWith_singles_singles (Z := Z) (I := I) (by simpa using h1)
    simp only [singles, pairs, List.map_cons, List.zipWith_cons_cons] at this ⊢
    rw [this]; rfl

theorem dot_discard {x y : MPA R} (hx : x.Valid) (hy : y.Valid) {K O D E : List ℕ} (hK : K.length = O.length)
    (hO : O.length = D.length) (hD : D.length = E.length) (hxs : x.shape = pairs K O) (hys : y.shape = triples O D E) :
    ∃ z, dot x y ([-1], [0]) = .ok z ∧ z.Valid ∧ z.shape = triples K D E ∧ z.l = 0 ∧ z.r = z.len ∧
      z.ranks = List.zipWith (· * ·) x.ranks y.ranks ∧
      ∀ Z I J, InB Z K → InB I D → InB J E →
        z.val (triples Z I J) = sumIdx O fun W => x.val (pairs Z W) * y.val (triples W I J) := by
  obtain ⟨z, h1, h2, h3, h4, h5, h6, h7⟩ := dot_struct (axes := ([-1], [0])) (m := 2) (n := 3)
    (A := singles K) (C := singles O) (B := pairs D E) hx hy
    (by rw [hxs]; exact mem_pairs_length) (by rw [hys]; exact mem_triples_length)
    ⟨by intro a ha; simp at ha; omega, by simp [axesOf]⟩ ⟨by intro a ha; simp at ha; omega, by simp [axesOf]⟩
    (by rw [hxs, pairs, List.map_zipWith]; exact zipWith_left hK)
    (by rw [hxs, pairs, List.map_zipWith]; exact zipWith_right hK)
    (by rw [hys, triples_map (fun _ d e => [d, e]) _ (fun _ _ _ => rfl)]; exact zipWith3_rest hO hD)
    (by rw [hys, triples_map (fun o _ _ => [o]) _ (fun _ _ _ => rfl)]; exact zipWith3_first hO hD)
  refine ⟨z, h1, h2, ?_, h4, h5, h6, ?_⟩
  · rw [h3, zipWith_singles_pairs (by omega) hD]
  · intro Z I J hZ hI hJ
    have lZ := inB_length hZ
    have lI := inB_length hI
    have lJ := inB_length hJ
    have := h7 (singles Z) (pairs I J) (singles_idxOK hZ) (pairs_idxOK hI hJ)
    rw [zipWith_singles_pairs (by omega) (by omega)] at this
    rw [this, sumSites_singles]
    refine sumIdx_congr fun W hW => ?_
    have lW := inB_length hW
    congr 2
    · rw [hxs]; exact mergeIdx_last K O Z W hK lZ (by omega)
    · rw [hys]; exact mergeIdx_triple_first hO hD (by omega) (by omega) (by omega)

theorem dot_inner {x y : MPA R} (hx : x.Valid) (hy : y.Valid) {O K D E : List ℕ}
    (hO : O.length = D.length) (hK : K.length = D.length) (hD : D.length = E.length) (hxs : x.shape = triples O D E)
    (hys : y.shape = triples K D E) :
    ∃ z, dot x y ([1, 2], [1, 2]) = .ok z ∧ z.Valid ∧ z.shape = pairs O K ∧
      z.ranks = List.zipWith (· * ·) x.ranks y.ranks ∧
      ∀ Y Z, InB Y O → InB Z K →
        z.val (pairs Y Z) = sumIdx D fun I => sumIdx E fun J => x.val (triples Y I J) * y.val (triples Z I J) := by
  obtain ⟨z, h1, h2, h3, h4, h5, h6, h7⟩ := dot_struct (axes := ([1, 2], [1, 2])) (m := 3) (n := 3)
    (A := singles O) (C := pairs D E) (B := singles K) hx hy
    (by rw [hxs]; exact mem_triples_length) (by rw [hys]; exact mem_triples_length)
    ⟨by intro a ha; simp at ha; omega, by simp [axesOf]⟩ ⟨by intro a ha; simp at ha; omega, by simp [axesOf]⟩
    (by rw [hxs, triples_map (fun o _ _ => [o]) _ (fun _ _ _ => rfl)]; exact zipWith3_first hO hD)
    (by rw [hxs, triples_map (fun _ d e => [d, e]) _ (fun _ _ _ => rfl)]; exact zipWith3_rest hO hD)
    (by rw [hys, triples_map (fun o _ _ => [o]) _ (fun _ _ _ => rfl)]; exact zipWith3_first hK hD)
    (by rw [hys, triples_map (fun _ d e => [d, e]) _ (fun _ _ _ => rfl)]; exact zipWith3_rest hK hD)
  refine ⟨z, h1, h2, ?_, h6, ?_⟩
  · rw [h3, zipWith_singles_singles (by omega)]
  · intro Y Z hY hZ
    have lY := inB_length hY
    have lZ := inB_length hZ
    have := h7 (singles Y) (singles Z) (singles_idxOK hY) (singles_idxOK hZ)
    rw [zipWith_singles_singles (by omega)] at this
    rw [this, sumSites_pairs2 hD]
    refine sumIdx_congr fun I hI => sumIdx_congr fun J hJ => ?_
    have lI := inB_length hI
    have lJ := inB_length hJ
    congr 2
    · rw [hxs]; exact mergeIdx_triple_last hO hD (by omega) (by omega) (by omega)
    · rw [hys]; exact mergeIdx_triple_last hK hD (by omega) (by omega) (by omega)

theorem dot_diag {x y : MPA R} (hx : x.Valid) (hy : y.Valid) {O A B : List ℕ}
    (hO : O.length = A.length) (hA : A.length = B.length) (hxs : x.shape = triples O A B)
    (hys : y.shape = pairs A B) :
    ∃ z, dot x y ([1, 2], [0, 1]) = .ok z ∧ z.Valid ∧ z.shape = singles O ∧
      ∀ Y, InB Y O →
        z.val (singles Y) = sumIdx A fun I => sumIdx B fun J => x.val (triples Y I J) * y.val (pairs I J) := by
  obtain ⟨z, h1, h2, h3, h4, h5, h6, h7⟩ := dot_struct (axes := ([1, 2], [0, 1])) (m := 3) (n := 2)
    (A := singles O) (C := pairs A B) (B := O.map fun _ => []) hx hy
    (by rw [hxs]; exact mem_triples_length) (by rw [hys]; exact mem_pairs_length)
    ⟨by intro a ha; simp at ha; omega, by simp [axesOf]⟩ ⟨by intro a ha; simp at ha; omega, by simp [axesOf]⟩
    (by rw [hxs, triples_map (fun o _ _ => [o]) _ (fun _ _ _ => rfl)]; exact zipWith3_first hO hA)
    (by rw [hxs, triples_map (fun _ d e => [d, e]) _ (fun _ _ _ => rfl)]; exact zipWith3_rest hO hA)
    (by
      rw [hys, pairs, List.map_zipWith]
      apply List.ext_getElem
      · simp; omega
      · intro i _ _
        rw [List.getElem_zipWith, List.getElem_map]; rfl)
    (by
      rw [hys, pairs, List.map_zipWith]
      rfl)
  have e0 : ∀ Y : List ℕ, Y.length = O.length → List.zipWith (· ++ ·) (singles Y) (O.map fun _ => []) = singles Y := by
    intro Y hY
    apply List.ext_getElem <;> simp [hY, singles]
  refine ⟨z, h1, h2, ?_, ?_⟩
  · rw [h3, e0 O rfl]
  · intro Y hY
    have lY := inB_length hY
    have := h7 (singles Y) (O.map fun _ => []) (singles_idxOK hY) (by
      unfold IdxOK
      rw [List.forall₂_same]
      intro s hs
      obtain ⟨_, _, rfl⟩ := List.mem_map.1 hs
      simp)
    rw [e0 Y lY] at this
    rw [this, sumSites_pairs2 hA]
    refine sumIdx_congr fun I hI => sumIdx_congr fun J hJ => ?_
    have lI := inB_length hI
    have lJ := inB_length hJ
    congr 2
    · rw [hxs]; exact mergeIdx_triple_last hO hA (by omega) (by omega) (by omega)
    · rw [hys]; exact mergeIdx_pair_all hA (by omega) (by omega) (by omega)

end

end Mpnum
