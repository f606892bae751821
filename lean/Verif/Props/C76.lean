import Verif.Lazy
import Verif.Props.C27
import Verif.Props.C35
import Verif.Props.C52

/-! # C76: iterators over an object which is used by others at the same time -/

open Finset

namespace Mpnum

variable {𝕜 : Type} [RCLike 𝕜]

/-! ### specification -/

/-- Specification: the windows `start..stop` which the arguments select on `n` sites. -/
inductive WinSel (n : ℕ) : WinArgs → List (ℕ × ℕ) → Prop
  | sites (ws : List (ℕ × ℕ)) (hw : ∀ w ∈ ws, w.1 < w.2 ∧ w.2 ≤ n) :
    WinSel n ⟨none, some (ws.map fun w => (w.1 : ℤ)), some (ws.map fun w => (w.2 : ℤ))⟩ ws
  | width (w : ℕ) (h0 : 0 < w) (hw : w ≤ n) :
    WinSel n ⟨some w, none, none⟩ ((List.range (n + 1 - w)).map fun s => (s, s + w))
  | starts (w : ℕ) (h0 : 0 < w) (ss : List ℕ) (hs : ∀ s ∈ ss, s + w ≤ n) :
    WinSel n ⟨some w, some (ss.map fun s : ℕ => (s : ℤ)), none⟩ (ss.map fun s => (s, s + w))

/-- Specification: the item is a PMPS of the partial trace of the operator `f` over the sites outside the window. -/
def PmpsItem (f : List ℕ → List ℕ → 𝕜) (D : List ℕ) (w : ℕ × ℕ) (i : Item 𝕜) : Prop :=
  ∃ z A', i = .mpa z ∧ IsPmps z ((D.drop w.1).take (w.2 - w.1)) A' ∧ (∀ r ∈ z.ranks, 0 < r) ∧
    ∀ I J, InB I ((D.drop w.1).take (w.2 - w.1)) → InB J ((D.drop w.1).take (w.2 - w.1)) →
      dm z A' I J = margOp f (D.take w.1) (D.drop w.2) I J

/-- Specification: the same for an MPO. -/
def MpoItem (f : List ℕ → List ℕ → 𝕜) (D : List ℕ) (w : ℕ × ℕ) (i : Item 𝕜) : Prop :=
  ∃ z, i = .mpa z ∧ IsMpo z ((D.drop w.1).take (w.2 - w.1)) ∧
    ∀ I J, InB I ((D.drop w.1).take (w.2 - w.1)) → InB J ((D.drop w.1).take (w.2 - w.1)) →
      z.val (pairs I J) = margOp f (D.take w.1) (D.drop w.2) I J

/-- Specification: the item with number `j` of an iterator over the windows `ws`: `P w` for the window, and
`StopIteration` after the last window. -/
def NthItem (P : ℕ × ℕ → Item 𝕜 → Prop) (ws : List (ℕ × ℕ)) (j : ℕ) (i : Item 𝕜) : Prop :=
  match ws[j]? with
  | some w => P w i
  | none => i = .stop

/-- Calls which are accepted: `canonicalize` with any arguments, `norm`, and `compress` with sensible arguments. -/
def Ev.Legal : Ev → Prop
  | .compress rank relerr direction => (∀ r, rank = some r → 0 < r) ∧ (∀ e, relerr = some e → 0 ≤ e ∧ e ≤ 1) ∧
      direction ≠ some .other
  | _ => True

/-- `next` is called for iterators which exist. -/
def Ev.Below (n : ℕ) : Ev → Prop
  | .next g => g < n
  | _ => True

/-! ### schedules -/

theorem WinSel.args {n : ℕ} {a : WinArgs} {ws : List (ℕ × ℕ)} (h : WinSel n a ws) :
    reductionsArgs n a.width a.starts a.stops = .ok (ws.map fun w => ((w.1 : ℤ), (w.2 : ℤ))) ∧
      ∀ w ∈ ws, w.1 < w.2 ∧ w.2 ≤ n := by
  cases h with
  | sites ws hw => exact ⟨by simp [reductionsArgs, List.zip_map'], hw⟩
  | width w h0 hw =>
    refine ⟨by simp only [reductionsArgs, Option.getD_none]; rw [pyRange_windows _ _ hw], ?_⟩
    intro q hq
    obtain ⟨s, hs, rfl⟩ := List.mem_map.1 hq
    have := List.mem_range.1 hs
    dsimp only
    omega
  | starts w h0 ss hs =>
    refine ⟨by simp [reductionsArgs], ?_⟩
    intro q hq
    obtain ⟨s, hs', rfl⟩ := List.mem_map.1 hq
    have := hs s hs'
    dsimp only
    omega

/-- Number of times the iterator `g` is asked. -/
def asked (g : ℕ) (es : List Ev) : ℕ := (es.filter fun e => match e with | .next h => h = g | _ => false).length

/-- If every `next` keeps an invariant of the object and the iterators' promises, every schedule does. -/
theorem run_keeps {qr : QR 𝕜} {svd : SVD 𝕜} (Inv : MPA 𝕜 → Prop) (Ok : Ev → Prop)
    (K : Gen 𝕜 → (ℕ → MPA 𝕜 → Item 𝕜 → Prop) → Prop)
    (hnext : ∀ g P x, Inv x → K g P → ∃ i g' y P', g.next qr svd x = .ok (i, g', y) ∧ Inv y ∧ P 0 x i ∧ K g' P' ∧
      ∀ j z k, P' j z k → P (j + 1) z k)
    (hev : ∀ (w : Shared 𝕜) e, Inv w.obj → Ok e → (∀ g, e ≠ .next g) →
      ∃ y, w.step qr svd e = .ok (⟨y, w.gens⟩, []) ∧ Inv y) :
    ∀ (es : List Ev) (x : MPA 𝕜) (gens : List (Gen 𝕜)) (Ps : List (ℕ → MPA 𝕜 → Item 𝕜 → Prop)), Inv x →
      (∀ e ∈ es, Ok e ∧ e.Below gens.length) → List.Forall₂ K gens Ps →
      ∃ w os, Shared.run qr svd ⟨x, gens⟩ es = .ok (w, os) ∧ Inv w.obj ∧ (∀ o ∈ os, Inv o.obj) ∧
        (∀ g, (itemsOf g os).length = asked g es) ∧
        ∀ g P j o, Ps[g]? = some P → (itemsOf g os)[j]? = some o → P j o.obj o.item
  | [], x, gens, Ps, hx, _, _ => ⟨⟨x, gens⟩, [], rfl, hx, by simp, by simp [itemsOf, asked], by simp [itemsOf]⟩
  | e :: es, x, gens, Ps, hx, hes, hK => by
    have he := hes e (by simp)
    by_cases hn : ∃ g, e = .next g
    · obtain ⟨g, rfl⟩ := hn
      have hg : g < gens.length := he.2
      have hgP : g < Ps.length := hK.length_eq ▸ hg
      obtain ⟨i, a', y, P', h1, h2, h3, h4, h5⟩ := hnext gens[g] Ps[g] x hx (hK.get hg hgP)
      have hK' : List.Forall₂ K (gens.set g a') (Ps.set g P') := by
        rw [List.forall₂_iff_get] at hK ⊢
        refine ⟨by simpa using hK.1, fun k k1 k2 => ?_⟩
        simp only [List.get_eq_getElem, List.getElem_set]
        by_cases hkg : g = k
        · simpa [hkg] using h4
        · simpa [hkg] using hK.2 k (by simpa using k1) (by simpa using k2)
      obtain ⟨w, os, r1, r2, r3, r4, r5⟩ := run_keeps Inv Ok K hnext hev es y (gens.set g a') (Ps.set g P') h2
        (by simpa using fun e he => hes e (by simp [he])) hK'
      refine ⟨w, ⟨g, x, i⟩ :: os, ?_, r2, ?_, ?_, ?_⟩
      · simp only [Shared.run, Shared.step, List.getElem?_eq_getElem hg, ok_bind, h1, r1]
        simp only [pure, Except.pure, ok_bind, r1]
        rfl
      · intro o ho
        rcases List.mem_cons.1 ho with rfl | ho
        · exact hx
        · exact r3 o ho
      · intro g'
        have := r4 g'
        unfold itemsOf asked at this ⊢
        by_cases hgg : g = g' <;> simp [List.filter_cons, hgg, this]
      · intro g' P j o hP ho
        unfold itemsOf at ho
        by_cases hgg : g = g'
        · subst hgg
          obtain rfl : Ps[g] = P := by rw [List.getElem?_eq_getElem hgP] at hP; exact Option.some.inj hP
          rw [List.filter_cons_of_pos (by simp)] at ho
          cases j with
          | zero =>
            obtain rfl := Option.some.inj ho
            exact h3
          | succ j =>
            exact h5 _ _ _ (r5 g P' j o (by simp [hgP]) ho)
        · rw [List.filter_cons_of_neg (by simpa using hgg)] at ho
          exact r5 g' P j o (by rw [List.getElem?_set_ne hgg]; exact hP) ho
    · obtain ⟨y, h1, h2⟩ := hev ⟨x, gens⟩ e hx he.1 fun g hg => hn ⟨g, hg⟩
      obtain ⟨w, os, r1, r2, r3, r4, r5⟩ := run_keeps Inv Ok K hnext hev es y gens Ps h2
        (fun e he => hes e (by simp [he])) hK
      refine ⟨w, os, ?_, r2, r3, ?_, r5⟩
      · simp only [Shared.run, h1, ok_bind, r1]
        rfl
      · intro g'
        rw [r4 g']
        unfold asked
        rw [List.filter_cons_of_neg]
        cases e <;> simp_all

/-- The other calls on a good object succeed, and the object stays good with the same shape; all but `compress`
keep the tensor. -/
theorem step_other {qr : QR 𝕜} (hqr : QRSpec qr) {svd : SVD 𝕜} (h : SVDSpec svd) (w : Shared 𝕜) (hw : w.obj.Good) (e : Ev)
    (he : e.Legal) (hn : ∀ g, e ≠ .next g) :
    ∃ y, w.step qr svd e = .ok (⟨y, w.gens⟩, []) ∧ y.Good ∧ y.shape = w.obj.shape ∧
      ((∀ r e' d, e ≠ .compress r e' d) → w.obj.Same y) := by
  cases e with
  | next g => exact absurd rfl (hn g)
  | canonicalize left right =>
    cases hc : w.obj.canonicalize qr left right with
    | error e => exact ⟨w.obj, by simp only [Shared.step, hc], hw, rfl, fun _ => MPA.Same.rfl' _⟩
    | ok y =>
      obtain ⟨h1, _, h3, h4, _⟩ := C10_canonicalize hqr _ hw left right y hc
      exact ⟨y, by simp only [Shared.step, hc], h1, h3, fun _ => ⟨h3, h4⟩⟩
  | norm =>
    obtain ⟨y, h1, h2⟩ := norm_ok hqr hw
    refine ⟨y, ?_, h2.good, h2.same.shape, fun _ => h2.same⟩
    simp only [Shared.step, h1, ok_bind]
    rfl
  | compress rank relerr direction =>
    obtain ⟨hr, hre, hd⟩ := he
    by_cases hlen : w.obj.len = 1
    · obtain ⟨y, h1, h2, h3, h4⟩ := C27_single_site hqr svd (truncatedSvd svd) w.obj hw hlen rank relerr direction true
      refine ⟨y, ?_, h2, h3, fun h => absurd rfl (h _ _ _)⟩
      simp only [Shared.step, MPA.compress, h1, ok_bind]
      rfl
    · obtain ⟨y, o, h1, h2, h3, _⟩ := C27_compress hqr h (truncatedSvd_spec h) w.obj hw hlen rank hr relerr hre direction hd true
      refine ⟨y, ?_, h2, h3, fun h => absurd rfl (h _ _ _)⟩
      simp only [Shared.step, MPA.compress, h1, ok_bind]
      rfl

/-! ### `reductions_pmps` -/

theorem nthItem_tail {P : ℕ × ℕ → Item 𝕜 → Prop} {w : ℕ × ℕ} {ws : List (ℕ × ℕ)} {j : ℕ} {i : Item 𝕜}
    (h : NthItem P ws j i) : NthItem P (w :: ws) (j + 1) i := by simpa [NthItem] using h

theorem nthItem_nil {P : ℕ × ℕ → Item 𝕜 → Prop} {j : ℕ} {i : Item 𝕜} : NthItem P [] j i ↔ i = .stop := by
  simp [NthItem]

theorem pmpsNext_ok {qr : QR 𝕜} (hqr : QRSpec qr) {x : MPA 𝕜} {D A : List ℕ} (hx : IsPmps x D A) (hg : x.Good)
    {ws : List (ℕ × ℕ)} (hw : ∀ w ∈ ws, w.1 < w.2 ∧ w.2 ≤ D.length) :
    ∃ i y, pmpsNext qr (ws.map fun w => ((w.1 : ℤ), (w.2 : ℤ))) x
        = .ok (i, (if ws = [] then none else some (ws.tail.map fun w => ((w.1 : ℤ), (w.2 : ℤ)))), y) ∧
      MPA.CanonStepSpec x y ∧ NthItem (PmpsItem (dm x A) D) ws 0 i := by
  cases ws with
  | nil => exact ⟨.stop, x, rfl, MPA.CanonStepSpec.rfl' hg, rfl⟩
  | cons w ws =>
    obtain ⟨z, y, A', h1, h2, h3, h4, h5⟩ := pmpsWindow_ok hqr hx hg (hw w (by simp)).1 (hw w (by simp)).2
    refine ⟨.mpa z, y, ?_, h2, ?_⟩
    · simp only [List.map_cons, pmpsNext, h1, ok_bind]
      simp
    · exact ⟨z, A', rfl, h3, h4, h5⟩

/-- What an iterator over a PMPS promises. -/
inductive PmpsGen (D A : List ℕ) : Gen 𝕜 → (ℕ → MPA 𝕜 → Item 𝕜 → Prop) → Prop
  | new {a : WinArgs} {ws : List (ℕ × ℕ)} (h : WinSel D.length a ws) :
    PmpsGen D A (.pmpsNew a) fun j x i => NthItem (PmpsItem (dm x A) D) ws j i
  | run {ws : List (ℕ × ℕ)} (hw : ∀ w ∈ ws, w.1 < w.2 ∧ w.2 ≤ D.length) :
    PmpsGen D A (.pmps (ws.map fun w => ((w.1 : ℤ), (w.2 : ℤ)))) fun j x i => NthItem (PmpsItem (dm x A) D) ws j i
  | done : PmpsGen D A .done fun _ _ i => i = .stop

theorem pmpsGen_next {qr : QR 𝕜} (hqr : QRSpec qr) {svd : SVD 𝕜} {D A : List ℕ} (g : Gen 𝕜)
    (P : ℕ → MPA 𝕜 → Item 𝕜 → Prop) (x : MPA 𝕜) (hx : IsPmps x D A) (hg : x.Good) (hK : PmpsGen D A g P) :
    ∃ i g' y P', g.next qr svd x = .ok (i, g', y) ∧ MPA.CanonStepSpec x y ∧ P 0 x i ∧ PmpsGen D A g' P' ∧
      ∀ j z k, P' j z k → P (j + 1) z k := by
  have hrun : ∀ ws : List (ℕ × ℕ), (∀ w ∈ ws, w.1 < w.2 ∧ w.2 ≤ D.length) →
      ∃ i g' y P', (do
        let (i, ws, y) ← pmpsNext qr (ws.map fun w => ((w.1 : ℤ), (w.2 : ℤ))) x
        return (i, (ws.elim .done .pmps), y) : Py (Item 𝕜 × Gen 𝕜 × MPA 𝕜)) = .ok (i, g', y) ∧
        MPA.CanonStepSpec x y ∧ NthItem (PmpsItem (dm x A) D) ws 0 i ∧ PmpsGen D A g' P' ∧
        ∀ j z k, P' j z k → NthItem (PmpsItem (dm z A) D) ws (j + 1) k := by
    intro ws hw
    obtain ⟨i, y, h1, h2, h3⟩ := pmpsNext_ok hqr hx hg hw
    cases ws with
    | nil => exact ⟨i, .done, y, _, by rw [h1]; rfl, h2, h3, .done, fun j z k hk => hk⟩
    | cons w ws =>
      exact ⟨i, _, y, _, by rw [h1]; rfl, h2, h3, .run fun v hv => hw v (by simp [hv]), fun j z k hk => nthItem_tail hk⟩
  cases hK with
  | @new a ws h =>
    obtain ⟨h1, h2⟩ := h.args
    obtain ⟨i, g', y, P', r⟩ := hrun ws h2
    refine ⟨i, g', y, P', ?_, r.2⟩
    simp only [Gen.next]
    rw [show x.len = D.length from hx.lenD, h1, ok_bind]
    exact r.1
  | @run ws hw =>
    obtain ⟨i, g', y, P', r⟩ := hrun ws hw
    exact ⟨i, g', y, P', r.1, r.2⟩
  | done => exact ⟨.stop, .done, x, _, rfl, MPA.CanonStepSpec.rfl' hg, rfl, .done, fun _ _ _ h => h⟩

/-- C76: any number of `reductions_pmps` iterators over one PMPS are consumed in any order, interleaved with any
calls of `canonicalize`, `norm` and `compress` on it.  Every call succeeds.  The item with number `j` of an
iterator is a PMPS of the reduction, to the window with number `j`, of the state which the object represents at the
time of the call.  The object stays valid, with true canonical form and the same shape. -/
theorem C76_pmps_current {qr : QR 𝕜} (hqr : QRSpec qr) {svd : SVD 𝕜} (h : SVDSpec svd) (x : MPA 𝕜) (D A : List ℕ)
    (hx : IsPmps x D A) (hg : x.Good) (args : List WinArgs) (wss : List (List (ℕ × ℕ)))
    (ha : List.Forall₂ (WinSel D.length) args wss) (es : List Ev) (hes : ∀ e ∈ es, e.Legal ∧ e.Below args.length) :
    ∃ w os, Shared.run qr svd ⟨x, args.map .pmpsNew⟩ es = .ok (w, os) ∧
      w.obj.Good ∧ w.obj.shape = x.shape ∧ (∀ o ∈ os, o.obj.Good ∧ o.obj.shape = x.shape) ∧
      (∀ g, (itemsOf g os).length = asked g es) ∧
      ∀ g ws j o, wss[g]? = some ws → (itemsOf g os)[j]? = some o → NthItem (PmpsItem (dm o.obj A) D) ws j o.item := by
  have key := run_keeps (qr := qr) (svd := svd) (fun y => y.Good ∧ y.shape = x.shape) Ev.Legal (PmpsGen D A)
    (fun g P y hy hK => by
      obtain ⟨i, g', z, P', h1, h2, h3⟩ := pmpsGen_next hqr (svd := svd) g P y ⟨hy.1.valid, hx.len, by rw [hy.2, hx.shape]⟩ hy.1 hK
      exact ⟨i, g', z, P', h1, ⟨h2.good, h2.same.shape.trans hy.2⟩, h3⟩)
    (fun w e hw he hn => by
      obtain ⟨y, h1, h2, h3, _⟩ := step_other hqr h w hw.1 e he hn
      exact ⟨y, h1, h2, h3.trans hw.2⟩)
    es x (args.map .pmpsNew) (wss.map fun ws j y i => NthItem (PmpsItem (dm y A) D) ws j i) ⟨hg, rfl⟩ (by simpa using hes)
    (by
      rw [List.forall₂_map_left_iff, List.forall₂_map_right_iff]
      exact ha.imp fun a ws h => .new h)
  obtain ⟨w, os, r1, r2, r3, r4, r5⟩ := key
  exact ⟨w, os, r1, r2.1, r2.2, r3, r4, fun g ws j o hws ho => r5 g (fun j y i => NthItem (PmpsItem (dm y A) D) ws j i) j o (by simp [hws]) ho⟩

theorem pmpsItem_congr {f f' : List ℕ → List ℕ → 𝕜} {D : List ℕ} {w : ℕ × ℕ} (hw : w.1 < w.2 ∧ w.2 ≤ D.length)
    (hf : ∀ I J, InB I D → InB J D → f I J = f' I J) {i : Item 𝕜} (h : PmpsItem f D w i) : PmpsItem f' D w i := by
  obtain ⟨z, A', h1, h2, h3, h4⟩ := h
  refine ⟨z, A', h1, h2, h3, fun I J hI hJ => ?_⟩
  rw [h4 I J hI hJ]
  unfold margOp
  refine sumIdx_congr fun L hL => sumIdx_congr fun M hM => ?_
  have hin : ∀ I, InB I ((D.drop w.1).take (w.2 - w.1)) → InB (L ++ I ++ M) D := by
    intro I hI
    have := inB_append hL (inB_append hI hM)
    rw [List.append_assoc]
    rwa [← split3 D hw.1.le] at this
  exact hf _ _ (hin I hI) (hin J hJ)

theorem nthItem_imp {P Q : ℕ × ℕ → Item 𝕜 → Prop} {ws : List (ℕ × ℕ)} (hPQ : ∀ w ∈ ws, ∀ i, P w i → Q w i) {j : ℕ} {i : Item 𝕜}
    (h : NthItem P ws j i) : NthItem Q ws j i := by
  unfold NthItem at h ⊢
  cases hw : ws[j]? with
  | none => simpa [hw] using h
  | some w => simp only [hw] at h; exact hPQ w (List.mem_of_getElem? hw) i h

/-- C76: without `compress`, in any interleaving of the iterators with each other and with `canonicalize` and `norm`,
every item is the reduction of the state which the object represented at the beginning, and it represents it still. -/
theorem C76_pmps {qr : QR 𝕜} (hqr : QRSpec qr) {svd : SVD 𝕜} (h : SVDSpec svd) (x : MPA 𝕜) (D A : List ℕ)
    (hx : IsPmps x D A) (hg : x.Good) (args : List WinArgs) (wss : List (List (ℕ × ℕ)))
    (ha : List.Forall₂ (WinSel D.length) args wss) (es : List Ev)
    (hes : ∀ e ∈ es, (∀ r e' d, e ≠ .compress r e' d) ∧ e.Below args.length) :
    ∃ w os, Shared.run qr svd ⟨x, args.map .pmpsNew⟩ es = .ok (w, os) ∧ w.obj.Good ∧ x.Same w.obj ∧
      (∀ g, (itemsOf g os).length = asked g es) ∧
      ∀ g ws j o, wss[g]? = some ws → (itemsOf g os)[j]? = some o → NthItem (PmpsItem (dm x A) D) ws j o.item := by
  have key := run_keeps (qr := qr) (svd := svd) (fun y => y.Good ∧ x.Same y) (fun e => ∀ r e' d, e ≠ .compress r e' d) (PmpsGen D A)
    (fun g P y hy hK => by
      obtain ⟨i, g', z, P', h1, h2, h3⟩ := pmpsGen_next hqr (svd := svd) g P y (same_isPmps hx hy.2 hy.1.valid) hy.1 hK
      exact ⟨i, g', z, P', h1, ⟨h2.good, hy.2.trans h2.same⟩, h3⟩)
    (fun w e hw he hn => by
      obtain ⟨y, h1, h2, h3, h4⟩ := step_other hqr h w hw.1 e
        (by cases e <;> first | trivial | exact absurd rfl (he _ _ _)) hn
      exact ⟨y, h1, h2, hw.2.trans (h4 he)⟩)
    es x (args.map .pmpsNew) (wss.map fun ws j y i => NthItem (PmpsItem (dm y A) D) ws j i) ⟨hg, MPA.Same.rfl' x⟩
    (by simpa using hes)
    (by
      rw [List.forall₂_map_left_iff, List.forall₂_map_right_iff]
      exact ha.imp fun a ws h => .new h)
  obtain ⟨w, os, r1, r2, r3, r4, r5⟩ := key
  refine ⟨w, os, r1, r2.1, r2.2, r4, fun g ws j o hws ho => ?_⟩
  have hwin : ∀ w ∈ ws, w.1 < w.2 ∧ w.2 ≤ D.length := by
    obtain ⟨a, ha'⟩ : ∃ a, WinSel D.length a ws := by
      obtain ⟨a, _, h⟩ := forall₂_exists_right ha.flip (List.mem_of_getElem? hws)
      exact ⟨a, h⟩
    exact ha'.args.2
  have ho' : o ∈ os := List.mem_of_mem_filter (List.mem_of_getElem? ho)
  refine nthItem_imp (fun v hv i hi => pmpsItem_congr (hwin v hv) (fun I J hI hJ => ?_) hi)
    (r5 g (fun j y i => NthItem (PmpsItem (dm y A) D) ws j i) j o (by simp [hws]) ho)
  exact dm_same hx (r3 o ho').2 hI hJ

/-! ### `reductions_mps_as_pmps` -/

/-- What an iterator with its own copy promises. -/
inductive OwnGen (f : List ℕ → List ℕ → 𝕜) (D A : List ℕ) : Gen 𝕜 → (ℕ → MPA 𝕜 → Item 𝕜 → Prop) → Prop
  | new {p : MPA 𝕜} {a : WinArgs} {ws : List (ℕ × ℕ)} (hp : IsPmps p D A) (hg : p.Good)
      (hf : ∀ I J, InB I D → InB J D → dm p A I J = f I J) (h : WinSel D.length a ws) :
    OwnGen f D A (.ownNew p a) fun j _ i => NthItem (PmpsItem f D) ws j i
  | run {p : MPA 𝕜} {ws : List (ℕ × ℕ)} (hp : IsPmps p D A) (hg : p.Good)
      (hf : ∀ I J, InB I D → InB J D → dm p A I J = f I J) (hw : ∀ w ∈ ws, w.1 < w.2 ∧ w.2 ≤ D.length) :
    OwnGen f D A (.own p (ws.map fun w => ((w.1 : ℤ), (w.2 : ℤ)))) fun j _ i => NthItem (PmpsItem f D) ws j i
  | done : OwnGen f D A .done fun _ _ i => i = .stop

theorem ownGen_next {qr : QR 𝕜} (hqr : QRSpec qr) {svd : SVD 𝕜} {f : List ℕ → List ℕ → 𝕜} {D A : List ℕ} (g : Gen 𝕜)
    (P : ℕ → MPA 𝕜 → Item 𝕜 → Prop) (x : MPA 𝕜) (hK : OwnGen f D A g P) :
    ∃ i g' P', g.next qr svd x = .ok (i, g', x) ∧ P 0 x i ∧ OwnGen f D A g' P' ∧
      ∀ j z k, P' j z k → P (j + 1) z k := by
  have hrun : ∀ (p : MPA 𝕜) (ws : List (ℕ × ℕ)), IsPmps p D A → p.Good →
      (∀ I J, InB I D → InB J D → dm p A I J = f I J) → (∀ w ∈ ws, w.1 < w.2 ∧ w.2 ≤ D.length) →
      ∃ i g' P', (do
        let (i, ws, q) ← pmpsNext qr (ws.map fun w => ((w.1 : ℤ), (w.2 : ℤ))) p
        return (i, (ws.elim .done (.own q)), x) : Py (Item 𝕜 × Gen 𝕜 × MPA 𝕜)) = .ok (i, g', x) ∧
        NthItem (PmpsItem f D) ws 0 i ∧ OwnGen f D A g' P' ∧
        ∀ j z k, P' j z k → NthItem (PmpsItem f D) ws (j + 1) k := by
    intro p ws hp hg hf hw
    obtain ⟨i, q, h1, h2, h3⟩ := pmpsNext_ok hqr hp hg hw
    have h3' : NthItem (PmpsItem f D) ws 0 i := nthItem_imp (fun w hw' i hi => pmpsItem_congr (hw w hw') hf hi) h3
    cases ws with
    | nil => exact ⟨i, .done, _, by rw [h1]; rfl, h3', .done, fun j z k hk => hk⟩
    | cons w ws =>
      exact ⟨i, _, _, by rw [h1]; rfl, h3', .run (same_isPmps hp h2.same h2.good.valid) h2.good
        (fun I J hI hJ => (dm_same hp h2.same hI hJ).trans (hf I J hI hJ)) fun v hv => hw v (by simp [hv]),
        fun j z k hk => nthItem_tail hk⟩
  cases hK with
  | @new p a ws hp hg hf h =>
    obtain ⟨h1, h2⟩ := h.args
    obtain ⟨i, g', P', r⟩ := hrun p ws hp hg hf h2
    refine ⟨i, g', P', ?_, r.2⟩
    simp only [Gen.next]
    rw [show p.len = D.length from hp.lenD, h1, ok_bind]
    exact r.1
  | @run p ws hp hg hf hw =>
    obtain ⟨i, g', P', r⟩ := hrun p ws hp hg hf hw
    exact ⟨i, g', P', r.1, r.2⟩
  | done => exact ⟨.stop, .done, _, rfl, rfl, .done, fun _ _ _ h => h⟩

/-- C76: `reductions_mps_as_pmps` makes its PMPS when it is called.  Whatever happens to the MPS afterwards, `compress`
included, and in whatever order several iterators are consumed, the items are the reductions of the pure state at the
time of the call. -/
theorem C76_mps {qr : QR 𝕜} (hqr : QRSpec qr) {svd : SVD 𝕜} (h : SVDSpec svd) (x : MPA 𝕜) (D : List ℕ)
    (hg : x.Good) (hs : x.shape = singles D) (args : List WinArgs) (wss : List (List (ℕ × ℕ)))
    (ha : List.Forall₂ (WinSel D.length) args wss) (es : List Ev) (hes : ∀ e ∈ es, e.Legal ∧ e.Below args.length) :
    ∃ p w os, mpsToPmps x = .ok p ∧ Shared.run qr svd ⟨x, args.map (.ownNew p)⟩ es = .ok (w, os) ∧
      w.obj.Good ∧ w.obj.shape = x.shape ∧ ((∀ e ∈ es, ∃ g, e = .next g) → w.obj = x) ∧
      (∀ g, (itemsOf g os).length = asked g es) ∧
      ∀ g ws j o, wss[g]? = some ws → (itemsOf g os)[j]? = some o → NthItem (PmpsItem (pureDm x) D) ws j o.item := by
  obtain ⟨p, h1, h2, h3, h4⟩ := mps_pmps_good hg hs
  have hK : List.Forall₂ (OwnGen (pureDm x) D (List.replicate D.length 1)) (args.map (.ownNew p))
      (wss.map fun ws j _ i => NthItem (PmpsItem (pureDm x) D) ws j i) := by
    rw [List.forall₂_map_left_iff, List.forall₂_map_right_iff]
    exact ha.imp fun a ws h => .new h2 h3 h4 h
  obtain ⟨w, os, r1, r2, r3, r4, r5⟩ := run_keeps (qr := qr) (svd := svd) (fun y => y.Good ∧ y.shape = x.shape) Ev.Legal
    (OwnGen (pureDm x) D (List.replicate D.length 1))
    (fun g P y hy hK => by
      obtain ⟨i, g', P', h1, h3⟩ := ownGen_next hqr (svd := svd) g P y hK
      exact ⟨i, g', y, P', h1, hy, h3⟩)
    (fun w e hw he hn => by
      obtain ⟨y, h1, h2, h3, _⟩ := step_other hqr h w hw.1 e he hn
      exact ⟨y, h1, h2, h3.trans hw.2⟩)
    es x _ _ ⟨hg, rfl⟩ (by simpa using hes) hK
  refine ⟨p, w, os, h1, r1, r2.1, r2.2, fun hn => ?_, r4, fun g ws j o hws ho =>
    r5 g (fun j _ i => NthItem (PmpsItem (pureDm x) D) ws j i) j o (by simp [hws]) ho⟩
  obtain ⟨w', os', q1, q2, _⟩ := run_keeps (qr := qr) (svd := svd) (fun y => y = x) (fun e => ∃ g, e = .next g)
    (OwnGen (pureDm x) D (List.replicate D.length 1))
    (fun g P y hy hK => by
      obtain ⟨i, g', P', h1, h3⟩ := ownGen_next hqr (svd := svd) g P y hK
      exact ⟨i, g', y, P', h1, hy, h3⟩)
    (fun w e hw he hn => absurd he.choose_spec (hn _))
    es x _ _ rfl (by simpa using fun e he => ⟨hn e he, (hes e he).2⟩) hK
  rw [r1] at q1
  obtain ⟨rfl, -⟩ := Prod.ext_iff.1 (Except.ok.inj q1)
  exact q2

/-! ### `reductions_mpo` -/

/-- Specification: a call of `canonicalize` or `norm` whose request the canonical form `(l, r)` of `x` meets already. -/
def Ev.Met (x : MPA 𝕜) : Ev → Prop
  | .next _ => True
  | .canonicalize left right =>
      if left.isNone && right.isNone then x.r = 1 ∨ x.l = x.len - 1
      else target x.len (left.left x.len) ≤ x.l ∧ x.r ≤ target x.len (right.right x.len)
  | .norm => x.r = 1 ∨ x.l = x.len - 1
  | .compress _ _ _ => False

omit [RCLike 𝕜] in
theorem canonicalize_met_none [AddCommMonoid 𝕜] [Mul 𝕜] {qr : QR 𝕜} {x : MPA 𝕜} (hx : x.Valid) (h : x.r = 1 ∨ x.l = x.len - 1) :
    x.canonicalize qr .none .none = .ok x := by
  have h1 := hx.l_nonneg
  have h2 := hx.l_lt_r
  have h3 := hx.r_le
  have e : x.canonicalize qr .none .none = if x.l < x.len - x.r then x.lcanonicalize qr 1
      else x.rcanonicalize qr (x.len - 1) := rfl
  rw [e]
  split
  · unfold MPA.lcanonicalize
    rw [pyAssert_true (by omega), MPA.pyRange_down, show (x.r - 1 - (1 - 1)).toNat = 0 by omega]
    rfl
  · unfold MPA.rcanonicalize
    rw [pyAssert_true (by omega), MPA.pyRange_up, show ((x.len : ℤ) - 1 - x.l).toNat = 0 by omega]
    rfl

/-- C76: a request which is met already leaves the object exactly as it is. -/
theorem C76_met {qr : QR 𝕜} {svd : SVD 𝕜} (w : Shared 𝕜) (hw : w.obj.Valid) (e : Ev) (he : e.Met w.obj)
    (hn : ∀ g, e ≠ .next g) : w.step qr svd e = .ok (w, []) := by
  have h1 := hw.l_nonneg
  have h2 := hw.l_lt_r
  have h3 := hw.r_le
  cases e with
  | next g => exact absurd rfl (hn g)
  | compress _ _ _ => exact he.elim
  | canonicalize left right =>
    by_cases hne : (left.isNone && right.isNone) = true
    · have : left = .none ∧ right = .none := by cases left <;> cases right <;> simp_all [CArg.isNone]
      obtain ⟨rfl, rfl⟩ := this
      have he' : w.obj.r = 1 ∨ w.obj.l = w.obj.len - 1 := by simpa [Ev.Met, CArg.isNone] using he
      simp only [Shared.step, canonicalize_met_none hw he']
    · have he' : target w.obj.len (left.left w.obj.len) ≤ w.obj.l ∧ w.obj.r ≤ target w.obj.len (right.right w.obj.len) := by
        simpa [Ev.Met, hne] using he
      have hc := MPA.canonicalize_eq (qr := qr) (x := w.obj) (left := left) (right := right) (by simpa using hne) rfl rfl
      rw [if_neg (by omega), ok_bind] at hc
      simp only at hc
      rw [if_neg (by omega)] at hc
      simp only [Shared.step]
      cases hc' : w.obj.canonicalize qr left right with
      | error _ => rfl
      | ok y =>
        rw [hc] at hc'
        unfold pyGuard at hc'
        split_ifs at hc'
        all_goals first
          | (simp only [ok_bind] at hc'; rw [← Except.ok.inj hc'])
          | exact absurd hc' (by rintro ⟨⟩)
  | norm =>
    have hlen : 0 < w.obj.lt.length := List.length_pos_of_ne_nil hw.ne
    simp only [Shared.step, norm, canonicalize_met_none hw he, ok_bind]
    by_cases hr : w.obj.r = 1
    · rw [if_pos hr, show w.obj.site 0 = .ok w.obj.lt[0] by
        unfold MPA.site; rw [show (0 : ℤ) = ((0 : ℕ) : ℤ) from rfl, pyIndex_nat (by exact hlen), ok_bind, List.getElem?_eq_getElem hlen]]
      rfl
    · rw [if_neg hr, if_pos (he.resolve_left hr)]
      have : w.obj.site (-1) = .ok (w.obj.lt[w.obj.lt.length - 1]) := by
        unfold MPA.site
        rw [show pyIndex w.obj.len (-1) = .ok (w.obj.lt.length - 1) by
          unfold pyIndex MPA.len
          rw [if_neg (by omega), if_pos (by omega)]
          congr 1
          omega, ok_bind, List.getElem?_eq_getElem (by omega)]
      rw [this]
      rfl

/-- What an iterator over the MPO `x` promises. -/
inductive MpoGen (x : MPA 𝕜) (D : List ℕ) : Gen 𝕜 → (ℕ → MPA 𝕜 → Item 𝕜 → Prop) → Prop
  | new {a : WinArgs} {ws : List (ℕ × ℕ)} (h : WinSel D.length a ws) :
    MpoGen x D (.mpoNew a) fun j _ i => NthItem (MpoItem (fun I J => x.val (pairs I J)) D) ws j i
  | run {ws : List (ℕ × ℕ)} (hw : ∀ w ∈ ws, w.1 < w.2 ∧ w.2 ≤ D.length) {c : RemCache 𝕜 × RemCache 𝕜}
      (hc1 : CacheOK (LeftEnv x D) c.1) (hc2 : CacheOK (RightEnv x D) c.2) :
    MpoGen x D (.mpo (ws.map fun w => ((w.1 : ℤ), (w.2 : ℤ))) c)
      fun j _ i => NthItem (MpoItem (fun I J => x.val (pairs I J)) D) ws j i
  | done : MpoGen x D .done fun _ _ i => i = .stop

theorem mpoGen_next {qr : QR 𝕜} {svd : SVD 𝕜} {x : MPA 𝕜} {D : List ℕ} (hx : IsMpo x D) (g : Gen 𝕜)
    (P : ℕ → MPA 𝕜 → Item 𝕜 → Prop) (hK : MpoGen x D g P) :
    ∃ i g' P', g.next qr svd x = .ok (i, g', x) ∧ P 0 x i ∧ MpoGen x D g' P' ∧
      ∀ j z k, P' j z k → P (j + 1) z k := by
  have hrun : ∀ (ws : List (ℕ × ℕ)) (c : RemCache 𝕜 × RemCache 𝕜), (∀ w ∈ ws, w.1 < w.2 ∧ w.2 ≤ D.length) →
      CacheOK (LeftEnv x D) c.1 → CacheOK (RightEnv x D) c.2 →
      ∃ i g' P', (do
        let (i, g) ← mpoNext (ws.map fun w => ((w.1 : ℤ), (w.2 : ℤ))) c x
        return (i, g, x) : Py (Item 𝕜 × Gen 𝕜 × MPA 𝕜)) = .ok (i, g', x) ∧
        NthItem (MpoItem (fun I J => x.val (pairs I J)) D) ws 0 i ∧ MpoGen x D g' P' ∧
        ∀ j z k, P' j z k → NthItem (MpoItem (fun I J => x.val (pairs I J)) D) ws (j + 1) k := by
    intro ws c hw hc1 hc2
    cases ws with
    | nil => exact ⟨.stop, .done, _, rfl, rfl, .done, fun j z k hk => hk⟩
    | cons w ws =>
      obtain ⟨z, c', h1, h2, h3, h4, _, h5⟩ := mpoWindow_ok hx (hw w (by simp)).1 (hw w (by simp)).2 hc1 hc2
      refine ⟨.mpa z, _, _, ?_, ⟨z, rfl, h4, h5⟩, .run (fun v hv => hw v (by simp [hv])) h2 h3,
        fun j z k hk => nthItem_tail hk⟩
      simp only [List.map_cons, mpoNext, h1, ok_bind]
      rfl
  cases hK with
  | @new a ws h =>
    obtain ⟨h1, h2⟩ := h.args
    obtain ⟨i, g', P', r⟩ := hrun ws (RemCache.init, RemCache.init) h2 cacheInit_left (cacheInit_right hx)
    refine ⟨i, g', P', ?_, r.2⟩
    simp only [Gen.next]
    rw [show x.len = D.length from hx.len, h1, ok_bind, pyAssert_true, ok_bind]
    · exact r.1
    · intro s hs
      rw [hx.shape] at hs
      obtain ⟨n, hn, rfl⟩ := List.getElem_of_mem hs
      simp
  | @run ws hw c hc1 hc2 =>
    obtain ⟨i, g', P', r⟩ := hrun ws c hw hc1 hc2
    exact ⟨i, g', P', r.1, r.2⟩
  | done => exact ⟨.stop, .done, _, rfl, rfl, .done, fun _ _ _ h => h⟩

/-- C76: any number of `reductions_mpo` iterators over one MPO, consumed in any order, interleaved with calls of
`canonicalize` and `norm` whose request is met already: the items are right, and the object is not changed at all. -/
theorem C76_mpo {qr : QR 𝕜} {svd : SVD 𝕜} (x : MPA 𝕜) (D : List ℕ) (hx : IsMpo x D) (args : List WinArgs)
    (wss : List (List (ℕ × ℕ))) (ha : List.Forall₂ (WinSel D.length) args wss) (es : List Ev)
    (hes : ∀ e ∈ es, e.Met x ∧ e.Below args.length) :
    ∃ w os, Shared.run qr svd ⟨x, args.map .mpoNew⟩ es = .ok (w, os) ∧ w.obj = x ∧
      (∀ g, (itemsOf g os).length = asked g es) ∧
      ∀ g ws j o, wss[g]? = some ws → (itemsOf g os)[j]? = some o →
        NthItem (MpoItem (fun I J => x.val (pairs I J)) D) ws j o.item := by
  obtain ⟨w, os, r1, r2, r3, r4, r5⟩ := run_keeps (qr := qr) (svd := svd) (fun y => y = x) (Ev.Met x) (MpoGen x D)
    (fun g P y hy hK => by
      subst hy
      obtain ⟨i, g', P', h1, h3⟩ := mpoGen_next (qr := qr) (svd := svd) hx g P hK
      exact ⟨i, g', y, P', h1, rfl, h3⟩)
    (fun w e hw he hn => ⟨w.obj, C76_met w (hw ▸ hx.valid) e (hw ▸ he) hn, hw⟩)
    es x (args.map .mpoNew) (wss.map fun ws j _ i => NthItem (MpoItem (fun I J => x.val (pairs I J)) D) ws j i) rfl
    (by simpa using hes)
    (by
      rw [List.forall₂_map_left_iff, List.forall₂_map_right_iff]
      exact ha.imp fun a ws h => .new h)
  exact ⟨w, os, r1, r2, r4, fun g ws j o hws ho =>
    r5 g (fun j _ i => NthItem (MpoItem (fun I J => x.val (pairs I J)) D) ws j i) j o (by simp [hws]) ho⟩

/-! ### `singularvals` -/

theorem run_append {qr : QR 𝕜} {svd : SVD 𝕜} : ∀ (es fs : List Ev) (w : Shared 𝕜) {w' w'' : Shared 𝕜} {os os' : List (Got 𝕜)},
    Shared.run qr svd w es = .ok (w', os) → Shared.run qr svd w' fs = .ok (w'', os') →
      Shared.run qr svd w (es ++ fs) = .ok (w'', os ++ os')
  | [], fs, w, w', w'', os, os', h1, h2 => by
    obtain ⟨rfl, rfl⟩ := Prod.ext_iff.1 (Except.ok.inj h1)
    exact h2
  | e :: es, fs, w, w', w'', os, os', h1, h2 => by
    simp only [Shared.run, List.cons_append] at h1 ⊢
    obtain ⟨⟨v, o⟩, e1, h1⟩ := bind_ok_inv h1
    obtain ⟨⟨v', o'⟩, e2, h1⟩ := bind_ok_inv h1
    obtain ⟨rfl, rfl⟩ := Prod.ext_iff.1 (Except.ok.inj h1)
    rw [e1, ok_bind]
    simp only
    rw [run_append es fs v e2 h2, ok_bind]
    simp [pure, Except.pure]

theorem sv_run {qr : QR 𝕜} (hqr : QRSpec qr) {svd : SVD 𝕜} (h : SVDSpec svd) {x : MPA 𝕜} (hx : x.Good) (hlen : x.len ≠ 1)
    (n : ℕ) (hn : n + 1 ≤ x.len - 1) :
    ∃ z svs rank lt u s v k os, x.singularvals qr svd (n + 1) = .ok (z, svs) ∧ z.len = x.len ∧
      Shared.run qr svd ⟨x, [.svNew]⟩ (List.replicate (n + 1) (.next 0)) = .ok (⟨z, [.sv rank n lt u s v k]⟩, os) ∧
      os.map Got.item = svs.map .svs ∧ ∀ o ∈ os, o.gen = 0 := by
  obtain ⟨y, a1, a2, a3⟩ := MPA.canon_right hqr hx true
  simp only [if_true] at a1
  obtain ⟨m, m1, m2, m3⟩ := MPA.maxRank_ok a2.good (by rw [a2.len]; exact hlen)
  have hr : (0 : ℤ) < m := by exact_mod_cast m2
  have hf := truncatedSvd_spec h
  have hargs := MPA.svdArgs_ok hr (relerr := none) (by simp)
  have hsite : ∀ (z : MPA 𝕜) (n : ℕ), z.Good → n < z.len → ∃ lt u s v k,
      z.svdSiteR svd (truncatedSvd svd) m none n = .ok (lt, u, s, v, k) := by
    intro z n hz hn'
    have hn : n < z.lt.length := hn'
    obtain ⟨pre, t, post, h1, rfl⟩ : ∃ pre t post, z.lt = pre ++ t :: post ∧ pre.length = n :=
      ⟨z.lt.take n, z.lt[n]'hn, z.lt.drop (n + 1), by simp, by simp; omega⟩
    have ht : t ∈ z.lt := by rw [h1]; simp
    have htl := hz.valid.chain.isLocal t ht
    obtain ⟨mat, e1, _⟩ := lmat_ok htl (hz.pos.rb ht htl)
    obtain ⟨⟨lt, u, s, v, k⟩, hp⟩ : ∃ p, p = (t, svdPickR svd (truncatedSvd svd) m none t.rb mat) := ⟨_, rfl⟩
    refine ⟨lt, u, s, v, k, ?_⟩
    unfold MPA.svdSiteR
    rw [MPA.site_ok h1, ok_bind, e1, ok_bind, hp]
    rfl
  -- the sweep after `n` updates, and the schedule of `n + 1` calls
  have key : ∀ n, n + 1 ≤ x.len - 1 → ∃ z out lt u s v k os,
      (pyRange 0 (n : ℤ) 1).foldlM (MPA.svdStepR svd (truncatedSvd svd) m none) (y, []) = .ok (z, out) ∧ z.Good ∧ z.len = x.len ∧
      z.svdSiteR svd (truncatedSvd svd) m none n = .ok (lt, u, s, v, k) ∧
      Shared.run qr svd ⟨x, [.svNew]⟩ (List.replicate (n + 1) (.next 0)) = .ok (⟨z, [.sv m n lt u s v k]⟩, os) ∧
      os.map Got.item = (out.map Prod.fst ++ [s]).map .svs ∧ ∀ o ∈ os, o.gen = 0 := by
    intro n
    induction n with
    | zero =>
      intro hn
      obtain ⟨lt, u, s, v, k, e⟩ := hsite y 0 a2.good (by rw [a2.len]; omega)
      refine ⟨y, [], lt, u, s, v, k, [⟨0, x, .svs s⟩], rfl, a2.good, a2.len, e, ?_, rfl, by simp⟩
      simp only [Nat.cast_zero] at e
      simp only [List.replicate, Shared.run, Shared.step, List.getElem?_cons_zero, ok_bind, Gen.next, if_neg hlen, a1, m1, hargs,
        svYield, Nat.cast_zero, e]
      rfl
    | succ n ih =>
      intro hn
      obtain ⟨z, out, lt, u, s, v, k, os, b1, b2, b3, b4, b5, b6, b7⟩ := ih (by omega)
      obtain ⟨z', out', c1, c2⟩ := MPA.sweepR_ok h hf hr (relerr := none) a2.good (n + 1) (by rw [a2.len]; omega)
      have c1' := c1
      rw [MPA.pyRange_up, show (((n + 1 : ℕ) : ℤ) - 0).toNat = n + 1 by omega, List.range_succ, List.map_append,
        List.foldlM_append] at c1
      rw [MPA.pyRange_up, show ((n : ℤ) - 0).toNat = n by omega] at b1
      rw [b1, ok_bind] at c1
      simp only [List.map_cons, List.map_nil, List.foldlM_cons, List.foldlM_nil] at c1
      rw [show (0 : ℤ) + (n : ℤ) * 1 = n by omega] at c1
      unfold MPA.svdStepR at c1
      simp only at c1
      rw [b4, ok_bind] at c1
      simp only at c1
      cases hu : MPA.svdUpdateR z n lt u s v k with
      | error e => rw [hu] at c1; cases c1
      | ok w =>
        rw [hu] at c1
        have e2 : (w, out ++ [(s, k)]) = (z', out') := by injection c1
        obtain ⟨rfl, rfl⟩ := Prod.ext_iff.1 e2
        dsimp only at *
        have hwl : w.len = x.len := c2.len.trans a2.len
        have hnot : ¬ z.len - 1 ≤ n + 1 := fun hle => by rw [b3] at hle; clear * - hle hn; omega
        obtain ⟨lt', u', s', v', k', e⟩ := hsite w (n + 1) c2.good (by omega)
        refine ⟨w, out ++ [(s, k)], lt', u', s', v', k', os ++ [⟨0, z, .svs s'⟩], c1', c2.good, hwl, e, ?_, by simp [b6], ?_⟩
        · rw [List.replicate_succ' (n := n + 1)]
          refine run_append _ _ _ b5 ?_
          simp only [Shared.run, Shared.step, List.getElem?_cons_zero, ok_bind, Gen.next, if_neg hnot,
            hu, svYield, e]
          rfl
        · intro o ho
          rcases List.mem_append.1 ho with ho | ho
          · exact b7 o ho
          · obtain rfl := List.mem_singleton.1 ho; rfl
  obtain ⟨z, out, lt, u, s, v, k, os, b1, b2, b3, b4, b5, b6, b7⟩ := key n hn
  refine ⟨z, out.map Prod.fst ++ [s], m, lt, u, s, v, k, os, ?_, b3, b5, b6, b7⟩
  unfold MPA.singularvals
  rw [if_neg (by omega), if_neg hlen, a1, ok_bind, m1, ok_bind, hargs, ok_bind, show min (n + 1) (x.len - 1) = n + 1 by omega]
  simp only [Nat.add_sub_cancel]
  rw [b1, ok_bind]
  simp only
  rw [b4]
  rfl

/-- C76: a `singularvals` iterator alone, asked `k` times: the items are the singular values at the bonds, from left
to right, and then `StopIteration`; at any time the object is valid and represents the same tensor. -/
theorem C76_singularvals {qr : QR 𝕜} (hqr : QRSpec qr) {svd : SVD 𝕜} (h : SVDSpec svd) (x : MPA 𝕜) (hx : x.Good) (k : ℕ) :
    ∃ w os, Shared.run qr svd ⟨x, [.svNew]⟩ (List.replicate k (.next 0)) = .ok (w, os) ∧ w.obj.Good ∧ x.Same w.obj ∧
      os.length = k ∧ ∀ j o, os[j]? = some o →
        if j < x.len - 1 then ∃ s, o.item = .svs s ∧ SingVals x.shape (j + 1) x.val s else o.item = .stop := by
  have hdone : ∀ (z : MPA 𝕜) (m : ℕ), ∃ os, Shared.run qr svd ⟨z, [.done]⟩ (List.replicate m (.next 0)) = .ok (⟨z, [.done]⟩, os) ∧
      os.length = m ∧ ∀ o ∈ os, o.item = .stop := by
    intro z m
    induction m with
    | zero => exact ⟨[], rfl, rfl, by simp⟩
    | succ m ih =>
      obtain ⟨os, h1, h2, h3⟩ := ih
      refine ⟨⟨0, z, .stop⟩ :: os, ?_, by simp [h2], by simpa using h3⟩
      simp only [List.replicate_succ, Shared.run, Shared.step, List.getElem?_cons_zero, ok_bind, Gen.next]
      simp only [pure, Except.pure, ok_bind, List.set_cons_zero, h1]
      rfl
  have hlp : 0 < x.len := List.length_pos_of_ne_nil hx.valid.ne
  cases k with
  | zero => exact ⟨⟨x, _⟩, [], rfl, hx, MPA.Same.rfl' x, rfl, by simp⟩
  | succ n =>
    by_cases hlen : x.len = 1
    · obtain ⟨os, h1, h2, h3⟩ := hdone x n
      refine ⟨⟨x, [.done]⟩, ⟨0, x, .stop⟩ :: os, ?_, hx, MPA.Same.rfl' x, by simp [h2], ?_⟩
      · simp only [List.replicate_succ, Shared.run, Shared.step, List.getElem?_cons_zero, ok_bind, Gen.next, if_pos hlen]
        simp only [pure, Except.pure, ok_bind, List.set_cons_zero, h1]
        rfl
      · intro j o ho
        rw [if_neg (by omega)]
        rcases List.mem_cons.1 (List.mem_of_getElem? ho) with rfl | ho
        · rfl
        · exact h3 o ho
    · have fin : ∀ m, m + 1 ≤ x.len - 1 → ∃ z rank lt u s v k os, z.len = x.len ∧
          Shared.run qr svd ⟨x, [.svNew]⟩ (List.replicate (m + 1) (.next 0)) = .ok (⟨z, [.sv rank m lt u s v k]⟩, os) ∧
          z.Good ∧ x.Same z ∧ os.length = m + 1 ∧
          ∀ j o, os[j]? = some o → ∃ s, o.item = .svs s ∧ SingVals x.shape (j + 1) x.val s := by
        intro m hm
        obtain ⟨z, svs, rank, lt, u, s, v, k, os, h1, h2, h3, h4, h5⟩ := sv_run hqr h hx hlen m hm
        obtain ⟨z', svs', g1, g2, g3, g4, g5, g6⟩ := C52_singularvals hqr h x hx (m + 1)
        rw [h1] at g1
        obtain ⟨rfl, rfl⟩ := Prod.ext_iff.1 (Except.ok.inj g1)
        dsimp only at *
        have hl := congrArg List.length h4
        simp only [List.length_map] at hl
        refine ⟨z, rank, lt, u, s, v, k, os, h2, h3, g2, ⟨g3, g4⟩, by omega, fun j o ho => ?_⟩
        have hj : (os.map Got.item)[j]? = some o.item := by simp [ho]
        rw [h4, List.getElem?_map, Option.map_eq_some_iff] at hj
        obtain ⟨sv, e1, e2⟩ := hj
        exact ⟨sv, e2.symm, g6 j sv e1⟩
      by_cases hn : n + 1 ≤ x.len - 1
      · obtain ⟨z, rank, lt, u, s, v, k, os, h1, h2, h3, h4, h5, h6⟩ := fin n hn
        refine ⟨_, os, h2, h3, h4, h5, fun j o ho => ?_⟩
        have := (List.getElem?_eq_some_iff.1 ho).1
        rw [if_pos (by omega)]
        exact h6 j o ho
      · obtain ⟨m, hm⟩ : ∃ m, m + 1 = x.len - 1 := ⟨x.len - 2, by omega⟩
        obtain ⟨z, rank, lt, u, s, v, k, os, h1, h2, h3, h4, h5, h6⟩ := fin m hm.le
        obtain ⟨os', g1, g2, g3⟩ := hdone z (n - (m + 1))
        have e : List.replicate (n + 1) (Ev.next 0) = List.replicate (m + 1) (.next 0) ++
            .next 0 :: List.replicate (n - (m + 1)) (.next 0) := by
          rw [← List.replicate_succ, ← List.replicate_add]; congr 1; omega
        refine ⟨⟨z, [.done]⟩, os ++ ⟨0, z, .stop⟩ :: os', ?_, h3, h4, by simp [h5, g2]; omega, ?_⟩
        · rw [e]
          refine run_append _ _ _ h2 ?_
          simp only [Shared.run, Shared.step, List.getElem?_cons_zero, ok_bind, Gen.next, if_pos (show z.len - 1 ≤ m + 1 by omega)]
          simp only [pure, Except.pure, ok_bind, List.set_cons_zero, g1]
          rfl
        · intro j o ho
          by_cases hj : j < m + 1
          · rw [if_pos (by omega)]
            rw [List.getElem?_append_left (by omega)] at ho
            exact h6 j o ho
          · rw [if_neg (by omega)]
            rw [List.getElem?_append_right (by omega)] at ho
            rcases List.mem_cons.1 (List.mem_of_getElem? ho) with rfl | ho
            · rfl
            · exact g3 o ho

/-! ### the hypotheses can be met -/

/-- Two iterators over one PMPS, advanced in turn, with calls in between which move its canonical form, change it,
or are rejected: every iterator delivers as many items as it is asked for. -/
example : ∃ (qr : QR ℂ) (svd : SVD ℂ) (w : Shared ℂ) (os : List (Got ℂ)), Shared.run qr svd
      ⟨exPmps, [.pmpsNew ⟨some 1, none, none⟩, .pmpsNew ⟨none, some [1, 0, 0], some [2, 1, 2]⟩]⟩
      [.next 0, .next 1, .norm, .next 1, .canonicalize (.int 99) .none, .compress (some 1) none none, .next 0, .next 0, .next 1]
        = .ok (w, os) ∧ (itemsOf 0 os).length = 3 ∧ (itemsOf 1 os).length = 3 := by
  obtain ⟨qr, hqr⟩ := exists_QRSpec (𝕜 := ℂ)
  obtain ⟨svd, h⟩ := exists_SVDSpec (𝕜 := ℂ)
  obtain ⟨w, os, h1, -, -, -, h2, -⟩ := C76_pmps_current hqr h exPmps _ _ exPmps_isPmps exPmps_good
    [⟨some 1, none, none⟩, ⟨none, some [1, 0, 0], some [2, 1, 2]⟩] _
    (.cons (.width 1 one_pos (by decide)) (.cons (.sites [(1, 2), (0, 1), (0, 2)] (by simp)) .nil))
    [.next 0, .next 1, .norm, .next 1, .canonicalize (.int 99) .none, .compress (some 1) none none, .next 0, .next 0, .next 1]
    (by simp [Ev.Legal, Ev.Below])
  exact ⟨qr, svd, w, os, h1, h2 0, h2 1⟩

/-- The iterator over a pure state delivers reductions of the state as it was when the iterator was made, although
the state is compressed to rank 1 before the first item. -/
example : ∃ (qr : QR ℂ) (svd : SVD ℂ) (p : MPA ℂ) (w : Shared ℂ) (os : List (Got ℂ)), mpsToPmps exMPAc = .ok p ∧
    Shared.run qr svd ⟨exMPAc, [.ownNew p ⟨some 2, none, none⟩]⟩ [.compress (some 1) none none, .next 0] = .ok (w, os) ∧
    (itemsOf 0 os).length = 1 := by
  obtain ⟨qr, hqr⟩ := exists_QRSpec (𝕜 := ℂ)
  obtain ⟨svd, h⟩ := exists_SVDSpec (𝕜 := ℂ)
  obtain ⟨p, w, os, h1, h2, -, -, -, h3, -⟩ := C76_mps hqr h exMPAc [2, 3] exMPAc_good rfl [⟨some 2, none, none⟩] _
    (.cons (.width 2 (by decide) (by decide)) .nil) [.compress (some 1) none none, .next 0] (by simp [Ev.Legal, Ev.Below])
  exact ⟨qr, svd, p, w, os, h1, h2, h3 0⟩

/-- Two sites of dimension 2, rank 2. -/
noncomputable def exMPOc : MPA ℂ :=
  ⟨[⟨[1, 2, 2, 2], fun i => match i with | [_, p, q, b] => (p : ℂ) + 2 * b + q * b + 1 | _ => 0⟩,
    ⟨[2, 2, 2, 1], fun i => match i with | [a, p, q, _] => (a : ℂ) * p - q | _ => 0⟩], 0, 2⟩

theorem exMPOc_valid : exMPOc.Valid :=
  ⟨by simp [exMPOc], by simp [exMPOc, NDArray.IsLocal, NDArray.ndim, NDArray.lb, NDArray.rb], by simp [exMPOc], by simp [exMPOc],
    by simp [exMPOc, MPA.len]⟩

/-- Two iterators over one MPO, advanced in turn, and a call in between which does nothing. -/
example (qr : QR ℂ) (svd : SVD ℂ) : ∃ w os, Shared.run qr svd
      ⟨exMPOc, [.mpoNew ⟨some 1, none, none⟩, .mpoNew ⟨some 1, some [1, 1], none⟩]⟩
      [.next 0, .next 1, .canonicalize (.int 0) (.int 2), .next 1, .next 0] = .ok (w, os) ∧
      (itemsOf 0 os).length = 2 ∧ (itemsOf 1 os).length = 2 := by
  obtain ⟨w, os, h1, -, h2, -⟩ := C76_mpo (qr := qr) (svd := svd) exMPOc [2, 2] ⟨exMPOc_valid, rfl⟩
    [⟨some 1, none, none⟩, ⟨some 1, some [1, 1], none⟩] _
    (.cons (.width 1 one_pos (by decide)) (.cons (.starts 1 one_pos [1, 1] (by simp)) .nil))
    [.next 0, .next 1, .canonicalize (.int 0) (.int 2), .next 1, .next 0]
    (by simp [Ev.Met, Ev.Below, CArg.isNone, CArg.left, CArg.right, target, exMPOc, MPA.len])
  exact ⟨w, os, h1, h2 0, h2 1⟩

example : ∃ (qr : QR ℂ) (svd : SVD ℂ) (w : Shared ℂ) (os : List (Got ℂ)),
    Shared.run qr svd ⟨exMPAc, [.svNew]⟩ [.next 0, .next 0] = .ok (w, os) ∧ os.length = 2 := by
  obtain ⟨qr, hqr⟩ := exists_QRSpec (𝕜 := ℂ)
  obtain ⟨svd, h⟩ := exists_SVDSpec (𝕜 := ℂ)
  obtain ⟨w, os, h1, -, -, h2, -⟩ := C76_singularvals hqr h exMPAc exMPAc_good 2
  exact ⟨qr, svd, w, os, h1, h2⟩

end Mpnum
