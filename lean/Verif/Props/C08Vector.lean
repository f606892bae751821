import Verif.Props.C08
import Verif.Props.C36
import Verif.Linalg.EigMain

/-!
# C08 for an operator and a vector
-/

open Finset

namespace Mpnum

variable {R : Type}

theorem mergeIdx_vec : ∀ (A K : List ℕ), K.length = A.length → mergeIdx [0] (singles A) (singles K) (A.map fun _ => []) = singles K
  | [], K, h => by
    cases K with
    | nil => rfl
    | cons _ _ => simp at h
  | a :: A, K, h => by
    cases K with
    | nil => simp at h
    | cons k K =>
      have := mergeIdx_vec A K (by simpa using h)
      simp only [mergeIdx, singles] at this
      simp only [mergeIdx, singles, List.map_cons, List.zipWith3, this]
      rfl

theorem dotArgs_vec {x y : MPA R} {M N : List ℕ} (hM : M.length = N.length) (hx : x.shape = pairs M N) (hy : y.shape = singles N) :
    DotArgs x y ([-1], [0]) := by
  have h2 : ∀ s ∈ pairs M N, s.length = 2 := by
    intro s hs
    obtain ⟨n, hn, rfl⟩ := List.getElem_of_mem hs
    simp [pairs]
  have h1 : ∀ s ∈ singles N, s.length = 1 := by
    intro s hs
    obtain ⟨n, _, rfl⟩ := List.mem_map.1 hs
    rfl
  refine ⟨?_, ?_, ?_, ?_⟩
  · have h1 := congrArg List.length hx
    have h2 := congrArg List.length hy
    simp [MPA.shape, pairs, singles] at h1 h2
    unfold MPA.len
    omega
  · intro s hs
    rw [hx] at hs; rw [h2 s hs]
    exact ⟨by intro a ha; simp at ha; omega, by simp [axesOf]⟩
  · intro s hs
    rw [hy] at hs; rw [h1 s hs]
    exact ⟨by intro a ha; simp at ha; omega, by simp [axesOf]⟩
  · rw [hx, hy]
    unfold pairs singles
    rw [List.map_zipWith, List.map_map]
    exact zipWith_right hM

/-- C08 for an operator and a vector and the default axes `(-1, 0)`: `dot(x, y)` is the matrix-vector product. -/
theorem C08_matrix_vector [CommSemiring R] (x y : MPA R) (hx : x.Valid) (hy : y.Valid) (M N : List ℕ) (hM : M.length = N.length)
    (hxs : x.shape = pairs M N) (hys : y.shape = singles N) :
    ∃ z, dot x y ([-1], [0]) = .ok z ∧ z.Valid ∧ z.shape = singles M ∧ z.ranks = List.zipWith (· * ·) x.ranks y.ranks ∧
      ∀ I, InB I M → z.val (singles I) = sumIdx N fun K => x.val (pairs I K) * y.val (singles K) := by
  have f1 : ((pairs M N).map fun s => freeDims s (axesOf [-1] s.length)) = singles M := by
    unfold pairs singles
    rw [List.map_zipWith]; exact zipWith_left hM
  have f2 : ((singles N).map fun s => freeDims s (axesOf [0] s.length)) = N.map fun _ => [] := by
    unfold singles
    rw [List.map_map]; rfl
  have c1 : ((pairs M N).map fun s => conDims s (axesOf [-1] s.length)) = singles N := by
    unfold pairs singles
    rw [List.map_zipWith]; exact zipWith_right hM
  have z1 : ∀ (I : List ℕ), I.length = N.length → List.zipWith (· ++ ·) (singles I) (N.map fun _ => ([] : List ℕ)) = singles I := by
    intro I hI
    unfold singles
    rw [List.zipWith_map]
    refine List.ext_getElem (by simp [hI]) fun n h1 h2 => by simp
  obtain ⟨z, h1, h2, -, -, h3, h4, h5⟩ := C08_dot x y ([-1], [0]) hx hy (dotArgs_vec hM hxs hys)
  rw [hxs, hys] at h3 h5
  simp only [f1, f2, c1] at h3 h5
  refine ⟨z, h1, h2, by rw [h3, z1 M hM], h4, fun I hI => ?_⟩
  have hIl := inB_length hI
  have key := h5 (singles I) (N.map fun _ => []) (idxOK_singles hI) (by
    clear h1 h2 h3 h4 h5 hys hxs c1 f1 f2 z1 hM
    induction N with
    | nil => exact .nil
    | cons _ _ ih => exact .cons .nil ih)
  rw [z1 I (by omega)] at key
  rw [key]
  have s1 : ∀ (B : List ℕ) (F : List (List ℕ) → R), sumSites (singles B) F = sumIdx B fun K => F (singles K) := by
    intro B
    induction B with
    | nil => intro F; rfl
    | cons b B ih =>
      intro F
      simp only [singles, List.map_cons, sumSites, sumIdx]
      exact Finset.sum_congr rfl fun i _ => ih _
  rw [s1]
  refine sumIdx_congr fun K hK => ?_
  have hKl := inB_length hK
  congr 2
  · exact mergeIdx_last M N I K hM (by omega) (by omega)
  · exact mergeIdx_vec N K hKl

/-- The hypotheses are met: a three site operator and a three site vector. -/
example : ∃ z, dot exH3 exV3 ([-1], [0]) = .ok z ∧ z.shape = singles [2, 2, 2] := by
  obtain ⟨z, h1, _, h2, _⟩ := C08_matrix_vector exH3 exV3 exH3_isMpo.valid exV3_isMps.valid [2, 2, 2] [2, 2, 2] rfl exH3_isMpo.shape
    exV3_isMps.shape
  exact ⟨z, h1, h2⟩

end Mpnum
