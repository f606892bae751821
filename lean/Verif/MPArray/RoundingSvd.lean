import Verif.MPArray.RoundingShadow
import Verif.MPArray.CompressLemmas

/-!
# `compress(method='svd')` in inexact arithmetic (/repo/mpnum/mparray.py:713-962)

The functions of `Compress.lean` with the routines that round replaced by parameters.
-/

open Finset

namespace Mpnum

variable {𝕜 : Type} [RCLike 𝕜]

/-- The numerical routines used by `compress(method='svd')`. -/
structure Arith (𝕜 : Type) where
  /-- `numpy.linalg.qr` -/
  qr : QR 𝕜
  /-- `matdot` -/
  md : NDArray 𝕜 → NDArray 𝕜 → Py (NDArray 𝕜)
  /-- `*` with broadcasting -/
  mul : NDArray 𝕜 → NDArray 𝕜 → Py (NDArray 𝕜)
  /-- `numpy.linalg.svd` -/
  svd : SVD 𝕜
  /-- `np.searchsorted(np.cumsum(sv) / np.sum(sv), 1 - relerr) + 1` (mparray.py:919-920, 950-951) -/
  rank : List ℝ → ℝ → ℕ
  /-- `numpy.linalg.norm` -/
  nrm : NDArray 𝕜 → ℝ
  /-- `np.sum(np.abs(t)**2)` -/
  asq : NDArray 𝕜 → ℝ
  /-- `v**2` -/
  sq : ℝ → ℝ

/-- Exact arithmetic. -/
noncomputable def Arith.exact (qr : QR 𝕜) (svd : SVD 𝕜) : Arith 𝕜 :=
  ⟨qr, matdot, NDArray.mulB, svd, rankRelerr, npNorm, MPA.absSq, fun v => v ^ 2⟩

/-- The singular values of a local matrix and the number kept of them, sweep to the right (mparray.py:945-952) with
`svdfunc=truncated_svd`. -/
noncomputable def svdPickRF (ar : Arith 𝕜) (rank : ℤ) (relerr : Option ℝ) (bond : ℕ)
    (mat : NDArray 𝕜) : NDArray 𝕜 × List ℝ × NDArray 𝕜 × ℕ :=
  match relerr with
  | none =>
    let (u, sv, v) := truncatedSvd ar.svd mat rank.toNat
    (u, sv, v, sv.length)
  | some e =>
    let (u, sv, v) := ar.svd mat
    (u, sv, v, min (min bond (u.shape.getD 1 0)) (min rank.toNat (ar.rank sv e)))

/-- Sweep to the left (mparray.py:914-921). -/
noncomputable def svdPickLF (ar : Arith 𝕜) (rank : ℤ) (relerr : Option ℝ) (bond : ℕ)
    (mat : NDArray 𝕜) : NDArray 𝕜 × List ℝ × NDArray 𝕜 × ℕ :=
  match relerr with
  | none =>
    let (u, sv, v) := truncatedSvd ar.svd mat rank.toNat
    (u, sv, v, sv.length)
  | some e =>
    let (u, sv, v) := ar.svd mat
    (u, sv, v, min (min bond (v.shape.getD 0 0)) (min rank.toNat (ar.rank sv e)))

namespace MPA

/-- Loop body of `_compress_svd_r` (mparray.py:942-959). -/
noncomputable def svdStepRF (ar : Arith 𝕜) (rank : ℤ) (relerr : Option ℝ) (x : MPA 𝕜) (site : ℤ) : Py (MPA 𝕜) := do
  let ltens ← x.site site
  let mat ← ltens.reshape [-1, (ltens.rb : ℤ)]
  let (u, sv, v, k) := svdPickRF ar rank relerr ltens.rb mat
  let t1 ← (u.cols k).reshape (ltens.shape.dropLast.map (fun n : ℕ => (n : ℤ)) ++ [(k : ℤ)])
  let w ← ar.mul (svCol sv k) (v.rows k)
  let next ← x.site (site + 1)
  let t2 ← ar.md w next
  x.updateSlice (some site) (some (site + 2)) none [t1, t2] (.seq [some .left, none])

/-- `_compress_svd_r` (mparray.py:933-962) -/
noncomputable def compressSvdRF (ar : Arith 𝕜) (rank : ℤ) (relerr : Option ℝ) (x : MPA 𝕜) : Py (MPA 𝕜 × ℝ) := do
  svdArgs rank relerr
  let y ← (pyRange 0 (x.len - 1) 1).foldlM (svdStepRF ar rank relerr) x
  let t ← y.site (-1)
  return (y, ar.asq t)

/-- Loop body of `_compress_svd_l` (mparray.py:911-929). -/
noncomputable def svdStepLF (ar : Arith 𝕜) (rank : ℤ) (relerr : Option ℝ) (x : MPA 𝕜) (site : ℤ) : Py (MPA 𝕜) := do
  let ltens ← x.site site
  let mat ← ltens.reshape [(ltens.lb : ℤ), -1]
  let (u, sv, v, k) := svdPickLF ar rank relerr ltens.lb mat
  let prev ← x.site (site - 1)
  let w ← ar.mul (u.cols k) (svRow sv k)
  let t1 ← ar.md prev w
  let t2 ← (v.rows k).reshape ((k : ℤ) :: ltens.shape.tail.map (fun n : ℕ => (n : ℤ)))
  x.updateSlice (some (site - 1)) (some (site + 1)) none [t1, t2] (.seq [none, some .right])

/-- `_compress_svd_l` (mparray.py:901-931) -/
noncomputable def compressSvdLF (ar : Arith 𝕜) (rank : ℤ) (relerr : Option ℝ) (x : MPA 𝕜) : Py (MPA 𝕜 × ℝ) := do
  svdArgs rank relerr
  let y ← (pyRange (x.len - 1) 0 (-1)).foldlM (svdStepLF ar rank relerr) x
  let t ← y.site 0
  return (y, ar.asq t)

/-- `compress('svd', ...)` (mparray.py:713-859) with the default `svdfunc=truncated_svd` and the arithmetic `ar`. -/
noncomputable def compressF (ar : Arith 𝕜) (x : MPA 𝕜) (rank : Option ℤ) (relerr : Option ℝ) (direction : Option Dir)
    (canon : Bool) : Py (MPA 𝕜 × ℝ) := do
  if x.len = 1 then
    let (v, y) ← normF ar.qr ar.md ar.nrm x
    return (y, ar.sq v)
  let default : Dir := if (x.len : ℤ) - x.r > x.l then .left else .right
  let rank : ℤ ← match rank with
    | some r => .ok r
    | none => x.maxRank.map (fun m : ℕ => (m : ℤ))
  match direction.getD default with
  | .right =>
    let y ← if canon then x.canonicalizeF ar.qr ar.md .none (.int 1) else .ok x
    y.compressSvdRF ar rank relerr
  | .left =>
    let y ← if canon then x.canonicalizeF ar.qr ar.md (.int (x.len - 1)) .none else .ok x
    y.compressSvdLF ar rank relerr
  | .other => .error .value

theorem svdStepRF_exact (qr : QR 𝕜) (svd : SVD 𝕜) (rank : ℤ) (relerr : Option ℝ) (st : MPA 𝕜 × List (List ℝ × ℕ)) (site : ℤ) :
    svdStepRF (Arith.exact qr svd) rank relerr st.1 site
      = (svdStepR svd (truncatedSvd svd) rank relerr st site).map Prod.fst := by
  unfold svdStepRF svdStepR svdSiteR svdUpdateR
  have hp : ∀ b m, svdPickRF (Arith.exact qr svd) rank relerr b m = svdPickR svd (truncatedSvd svd) rank relerr b m := by
    intro b m; cases relerr <;> rfl
  simp only [hp]
  cases st.1.site site with
  | error e => rfl
  | ok t =>
    simp only [ok_bind]
    cases t.reshape [-1, (t.rb : ℤ)] with
    | error e => rfl
    | ok mat =>
      simp only [ok_bind, pure, Except.pure, bind_assoc]
      simp only [Arith.exact]
      generalize svdPickR svd (truncatedSvd svd) rank relerr t.rb mat = p
      obtain ⟨u, sv, v, k⟩ := p
      simp only
      cases (u.cols k).reshape (t.shape.dropLast.map (fun n : ℕ => (n : ℤ)) ++ [(k : ℤ)]) with
      | error e => rfl
      | ok t1 =>
        simp only [ok_bind]
        cases (svCol sv k).mulB (v.rows k) with
        | error e => rfl
        | ok w =>
          simp only [ok_bind]
          cases st.1.site (site + 1) with
          | error e => rfl
          | ok nx =>
            simp only [ok_bind]
            cases matdot w nx with
            | error e => rfl
            | ok t2 =>
              simp only [ok_bind]
              cases st.1.updateSlice (some site) (some (site + 2)) none [t1, t2] (.seq [some .left, none]) with
              | error e => rfl
              | ok y => rfl

theorem svdStepLF_exact (qr : QR 𝕜) (svd : SVD 𝕜) (rank : ℤ) (relerr : Option ℝ) (st : MPA 𝕜 × List (List ℝ × ℕ)) (site : ℤ) :
    svdStepLF (Arith.exact qr svd) rank relerr st.1 site
      = (svdStepL svd (truncatedSvd svd) rank relerr st site).map Prod.fst := by
  unfold svdStepLF svdStepL svdSiteL svdUpdateL
  have hp : ∀ b m, svdPickLF (Arith.exact qr svd) rank relerr b m = svdPickL svd (truncatedSvd svd) rank relerr b m := by
    intro b m; cases relerr <;> rfl
  simp only [hp]
  cases st.1.site site with
  | error e => rfl
  | ok t =>
    simp only [ok_bind]
    cases t.reshape [(t.lb : ℤ), -1] with
    | error e => rfl
    | ok mat =>
      simp only [ok_bind, pure, Except.pure, bind_assoc]
      simp only [Arith.exact]
      generalize svdPickL svd (truncatedSvd svd) rank relerr t.lb mat = p
      obtain ⟨u, sv, v, k⟩ := p
      simp only
      cases st.1.site (site - 1) with
      | error e => rfl
      | ok nx =>
        simp only [ok_bind]
        cases (u.cols k).mulB (svRow sv k) with
        | error e => rfl
        | ok w =>
          simp only [ok_bind]
          cases matdot nx w with
          | error e => rfl
          | ok t1 =>
            simp only [ok_bind]
            cases (v.rows k).reshape ((k : ℤ) :: t.shape.tail.map (fun n : ℕ => (n : ℤ))) with
            | error e => rfl
            | ok t2 =>
              simp only [ok_bind]
              cases st.1.updateSlice (some (site - 1)) (some (site + 1)) none [t1, t2] (.seq [none, some .right]) with
              | error e => rfl
              | ok y => rfl

theorem foldlM_fst {α β γ : Type} {f : α → γ → Py α} {g : α × β → γ → Py (α × β)}
    (h : ∀ st c, f st.1 c = (g st c).map Prod.fst) (l : List γ) (st : α × β) :
    l.foldlM f st.1 = (l.foldlM g st).map Prod.fst := by
  induction l generalizing st with
  | nil => rfl
  | cons c l ih =>
    rw [List.foldlM_cons, List.foldlM_cons, h]
    cases hg : g st c with
    | error e => rfl
    | ok st' =>
      simp only [ok_bind, Except.map]
      rw [ih]
      rfl

/-- With exact arithmetic, this is the model of `compress`. -/
theorem compressF_exact (qr : QR 𝕜) (svd : SVD 𝕜) (x : MPA 𝕜) (rank : Option ℤ) (relerr : Option ℝ) (direction : Option Dir)
    (canon : Bool) : x.compressF (Arith.exact qr svd) rank relerr direction canon = x.compress qr svd rank relerr direction canon := by
  have hR : ∀ (y : MPA 𝕜) (r : ℤ), y.compressSvdRF (Arith.exact qr svd) r relerr
      = (y.compressSvdR svd (truncatedSvd svd) r relerr).map fun z => (z.1, z.2.2) := by
    intro y r
    unfold compressSvdRF compressSvdR
    cases svdArgs r relerr with
    | error e => rfl
    | ok _ =>
      simp only [ok_bind]
      have := foldlM_fst (svdStepRF_exact qr svd r relerr) (pyRange 0 (y.len - 1) 1) (y, [])
      simp only at this
      rw [this]
      cases (pyRange 0 (y.len - 1) 1).foldlM (svdStepR svd (truncatedSvd svd) r relerr) (y, []) with
      | error e => rfl
      | ok st =>
        simp only [ok_bind, Except.map]
        cases st.1.site (-1) with
        | error e => rfl
        | ok t => rfl
  have hL : ∀ (y : MPA 𝕜) (r : ℤ), y.compressSvdLF (Arith.exact qr svd) r relerr
      = (y.compressSvdL svd (truncatedSvd svd) r relerr).map fun z => (z.1, z.2.2) := by
    intro y r
    unfold compressSvdLF compressSvdL
    cases svdArgs r relerr with
    | error e => rfl
    | ok _ =>
      simp only [ok_bind]
      have := foldlM_fst (svdStepLF_exact qr svd r relerr) (pyRange (y.len - 1) 0 (-1)) (y, [])
      simp only at this
      rw [this]
      cases (pyRange (y.len - 1) 0 (-1)).foldlM (svdStepL svd (truncatedSvd svd) r relerr) (y, []) with
      | error e => rfl
      | ok st =>
        simp only [ok_bind, Except.map]
        cases st.1.site 0 with
        | error e => rfl
        | ok t => rfl
  have hR' : ∀ (r : ℤ) (y : MPA 𝕜), y.compressSvdRF (Arith.exact qr svd) r relerr
      = y.compressSvdR svd (truncatedSvd svd) r relerr >>= fun z => .ok (z.1, z.2.2) := by
    intro r y; rw [hR]; cases y.compressSvdR svd (truncatedSvd svd) r relerr <;> rfl
  have hL' : ∀ (r : ℤ) (y : MPA 𝕜), y.compressSvdLF (Arith.exact qr svd) r relerr
      = y.compressSvdL svd (truncatedSvd svd) r relerr >>= fun z => .ok (z.1, z.2.2) := by
    intro r y; rw [hL]; cases y.compressSvdL svd (truncatedSvd svd) r relerr <;> rfl
  unfold compressF compress compressSvd
  split
  · rfl
  · simp only [hR', hL']
    cases rank with
    | none =>
      cases x.maxRank with
      | error e => rfl
      | ok r =>
        simp only [Except.map, ok_bind]
        cases direction.getD (if (x.len : ℤ) - x.r > x.l then .left else .right) <;> cases canon <;> rfl
    | some r =>
      simp only [ok_bind]
      cases direction.getD (if (x.len : ℤ) - x.r > x.l then .left else .right) <;> cases canon <;> rfl

end MPA

end Mpnum
