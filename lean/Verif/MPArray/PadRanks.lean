import Verif.Valid
import Verif.MPArray.FromArray

/-! # Model of `MPArray.pad_ranks` (mpnum/mparray.py:987-1013) -/

open Finset

namespace Mpnum

variable {R : Type}

/-- `np.pad(lt, [(0, lp)] + [(0, 0)] * (lt.ndim - 2) + [(0, rp)], 'constant')`
(mpnum/mparray.py:1010-1011): zeros behind the first and behind the last axis. -/
def padBond [Zero R] (t : NDArray R) (lp rp : ℕ) : NDArray R :=
  ⟨(t.lb + lp) :: (t.ph ++ [t.rb + rp]),
   fun idx => if idx.headD 0 < t.lb ∧ idx.getLastD 0 < t.rb then t.get idx else 0⟩

/-- The generator on mpnum/mparray.py:1010-1012: `for lp, rp, lt in zip([0] + pad, pad + [0],
self.lt)`. -/
def padZip [Zero R] : List ℕ → List ℕ → List (NDArray R) → List (NDArray R)
  | lp :: lps, rp :: rps, t :: ts => padBond t lp rp :: padZip lps rps ts
  | _, _, _ => []

/-- mpnum/mparray.py:987-1013 `pad_ranks`.  `max(self.ranks)` raises `ValueError` if there is only one
site.  (Negative values of `rank` have the same effect as `0`.) -/
def MPA.padRanks [Zero R] (x : MPA R) (rank : Option ℕ) (force : Bool) : Py (MPA R) := do
  let rank ← match rank with
    | some r => .ok r
    | none => if x.ranks = [] then .error .value else .ok (x.ranks.foldl max 0)
  let ranks := if force then x.ranks.map fun _ => rank
    else (fullRank x.shape).map fun f => min f rank
  let pad := List.zipWith (fun s b => max s b - s) x.ranks ranks
  mkMPA (padZip (0 :: pad) (pad ++ [0]) x.lt)

theorem padBond_shape [Zero R] (t : NDArray R) (lp rp : ℕ) :
    (padBond t lp rp).shape = (t.lb + lp) :: (t.ph ++ [t.rb + rp]) := rfl

theorem padBond_at3 [Zero R] (t : NDArray R) (lp rp : ℕ) (a b : ℕ) (p : List ℕ) :
    (padBond t lp rp).at3 a p b = if a < t.lb ∧ b < t.rb then t.at3 a p b else 0 := by
  have h : (a :: (p ++ [b])).getLastD 0 = b := by rw [← List.cons_append, List.getLastD_concat]
  have h2 : (a :: (p ++ [b])).headD 0 = a := rfl
  unfold padBond NDArray.at3
  dsimp only
  split_ifs with g1 g2 g2
  · rfl
  · exact absurd (by rwa [h, h2] at g1) g2
  · exact absurd (by rwa [h, h2]) g1
  · rfl

theorem padZip_spec [CommSemiring R] : ∀ (ts : List (NDArray R)) (t : NDArray R) (ps : List ℕ) (lp rp l r : ℕ),
    Chained l (t :: ts) r → ps.length = ts.length →
    Chained (l + lp) (padZip (lp :: ps) (ps ++ [rp]) (t :: ts)) (r + rp) ∧
    physShape (padZip (lp :: ps) (ps ++ [rp]) (t :: ts)) = physShape (t :: ts) ∧
    (padZip (lp :: ps) (ps ++ [rp]) (t :: ts)).map NDArray.lb
      = List.zipWith (· + ·) ((t :: ts).map NDArray.lb) (lp :: ps) ∧
    ∀ idx, idx.length = (t :: ts).length → ∀ a < l, ∀ b < r,
      mp (padZip (lp :: ps) (ps ++ [rp]) (t :: ts)) idx a b = mp (t :: ts) idx a b := by
  intro ts
  induction ts with
  | nil =>
    intro t ps lp rp l r hc hl
    obtain rfl : ps = [] := List.length_eq_zero_iff.1 hl
    obtain ⟨h1, h2, h3⟩ := hc
    have hs := padBond_shape t lp rp
    rw [chained_nil] at h3
    simp only [List.nil_append, padZip]
    refine ⟨⟨NDArray.isLocal_of_shape hs, by rw [NDArray.lb_of_shape hs, h2], ?_⟩, ?_, ?_, ?_⟩
    · rw [chained_nil, NDArray.rb_of_shape hs, h3]
    · simp [physShape, NDArray.ph_of_shape hs]
    · simp [NDArray.lb_of_shape hs]
    · intro idx hi a ha b hb
      obtain ⟨p, rfl⟩ := List.length_eq_one_iff.1 hi
      rw [mp_single (by rw [NDArray.rb_of_shape hs]; omega), mp_single (by omega), padBond_at3, if_pos (by omega)]
  | cons u us ih =>
    intro t ps lp rp l r hc hl
    obtain ⟨p, ps, rfl⟩ := List.exists_cons_of_length_eq_add_one hl
    have hc' := hc
    obtain ⟨h1, h2, h3⟩ := hc
    obtain ⟨g1, g2, g3, g4⟩ := ih u ps p rp t.rb r h3 (by simpa using hl)
    have hs := padBond_shape t lp p
    have hz : padZip (lp :: p :: ps) (p :: ps ++ [rp]) (t :: u :: us)
        = padBond t lp p :: padZip (p :: ps) (ps ++ [rp]) (u :: us) := rfl
    rw [hz]
    refine ⟨⟨NDArray.isLocal_of_shape hs, by rw [NDArray.lb_of_shape hs, h2], ?_⟩, ?_, ?_, ?_⟩
    · rw [NDArray.rb_of_shape hs]; exact g1
    · have : physShape (padBond t lp p :: padZip (p :: ps) (ps ++ [rp]) (u :: us))
          = t.ph :: physShape (padZip (p :: ps) (ps ++ [rp]) (u :: us)) := by
        simp [physShape, NDArray.ph_of_shape hs]
      rw [this, g2]; rfl
    · rw [List.map_cons, g3, NDArray.lb_of_shape hs]; rfl
    · intro idx hi a ha b hb
      obtain ⟨q, qs, rfl⟩ := List.exists_cons_of_length_eq_add_one hi
      rw [mp_cons, mp_cons, NDArray.rb_of_shape hs, sum_range_add]
      rw [show (∑ x ∈ range p, (padBond t lp p).at3 a q (t.rb + x) *
          mp (padZip (p :: ps) (ps ++ [rp]) (u :: us)) qs (t.rb + x) b) = 0 from
        sum_eq_zero fun x _ => by rw [padBond_at3, if_neg (by omega), zero_mul], add_zero]
      refine sum_congr rfl fun c hcc => ?_
      have := mem_range.1 hcc
      rw [padBond_at3, if_pos (by omega), g4 qs (by simpa using hi) c this b hb]

end Mpnum
