import Verif.Props.C60

/-!
# C60: `block_pmfs_as_array` -/

open Finset Classical
open scoped ComplexOrder

namespace Mpnum

/-- Specification: the windows (start site and stop site, which is not included) described by the keyword arguments on `n` sites. -/
inductive Windows (n : ℕ) : RedArg → List (ℕ × ℕ) → Prop
  | stops (ws : List (ℕ × ℕ)) (h : ∀ w ∈ ws, w.1 < w.2 ∧ w.2 ≤ n) :
      Windows n ⟨none, some (ws.map fun w => (w.1 : ℤ)), some (ws.map fun w => (w.2 : ℤ))⟩ ws
  | width (k : ℕ) (h : 0 < k ∧ k ≤ n) : Windows n ⟨some k, none, none⟩ ((List.range (n + 1 - k)).map fun s => (s, s + k))
  | starts (k : ℕ) (ss : List ℕ) (h : 0 < k ∧ ∀ s ∈ ss, s + k ≤ n) :
      Windows n ⟨some k, some (ss.map fun s : ℕ => (s : ℤ)), none⟩ (ss.map fun s => (s, s + k))

theorem Windows.ok {n : ℕ} {arg : RedArg} {ws : List (ℕ × ℕ)} (h : Windows n arg ws) : ∀ w ∈ ws, w.1 < w.2 ∧ w.2 ≤ n := by
  cases h with
  | stops _ h => exact h
  | width k h =>
    intro w hw
    obtain ⟨s, hs, rfl⟩ := List.mem_map.1 hw
    have := List.mem_range.1 hs
    dsimp only
    omega
  | starts k ss h =>
    intro w hw
    obtain ⟨s, hs, rfl⟩ := List.mem_map.1 hw
    have := h.2 s hs
    dsimp only
    omega

theorem Windows.args {n : ℕ} {arg : RedArg} {ws : List (ℕ × ℕ)} (h : Windows n arg ws) :
    reductionsArgs n arg.width arg.starts arg.stops
      = reductionsArgs n none (some (ws.map fun w => (w.1 : ℤ))) (some (ws.map fun w => (w.2 : ℤ))) := by
  cases h with
  | stops _ h => rfl
  | width k h =>
    show Except.ok _ = Except.ok _
    rw [Option.getD_none, pyRange_windows _ _ h.2, List.zip_map']
  | starts k ss h =>
    show Except.ok _ = Except.ok _
    rw [Option.getD_some, List.zip_map', List.map_map, List.map_map]
    congr 1

theorem py_mapM_length {α β : Type} {f : α → Py β} {l : List α} {r : List β} (h : l.mapM f = .ok r) : r.length = l.length := by
  induction l generalizing r with
  | nil => cases h; rfl
  | cons a l ih =>
    rw [List.mapM_cons] at h
    obtain ⟨b, _, h⟩ := bind_ok_inv h
    obtain ⟨bs, h2, h⟩ := bind_ok_inv h
    cases h
    simp [ih h2]

theorem forall₂_mem_imp {α β : Type} {P Q : α → β → Prop} {l : List α} {r : List β} (h : List.Forall₂ P l r)
    (hi : ∀ a ∈ l, ∀ b, P a b → Q a b) : List.Forall₂ Q l r := by
  induction h with
  | nil => exact .nil
  | cons h1 _ ih => exact .cons (hi _ (by simp) _ h1) (ih fun a ha => hi a (by simp [ha]))

theorem Windows.reductions {qr : QR ℂ} {ψ : MPA ℂ} {mode : StateMode} {arg : RedArg} {ws : List (ℕ × ℕ)} (h : Windows ψ.len arg ws) :
    Mpnum.reductions qr ψ mode arg.width arg.starts arg.stops
      = Mpnum.reductions qr ψ mode none (some (ws.map fun w => (w.1 : ℤ))) (some (ws.map fun w => (w.2 : ℤ))) := by
  have h1 : reductionsMpo ψ arg.width arg.starts arg.stops
      = reductionsMpo ψ none (some (ws.map fun w => (w.1 : ℤ))) (some (ws.map fun w => (w.2 : ℤ))) := by
    unfold reductionsMpo
    rw [h.args]
  have h2 : ∀ p : MPA ℂ, p.len = ψ.len → reductionsPmps qr p arg.width arg.starts arg.stops
      = reductionsPmps qr p none (some (ws.map fun w => (w.1 : ℤ))) (some (ws.map fun w => (w.2 : ℤ))) := by
    intro p hp
    unfold reductionsPmps
    rw [hp, h.args]
  have h3 : reductionsMpsAsPmps qr ψ arg.width arg.starts arg.stops
      = reductionsMpsAsPmps qr ψ none (some (ws.map fun w => (w.1 : ℤ))) (some (ws.map fun w => (w.2 : ℤ))) := by
    unfold reductionsMpsAsPmps
    cases hp : mpsToPmps ψ with
    | error e => rfl
    | ok p =>
      rw [ok_bind, ok_bind, h2 p ?_]
      unfold mpsToPmps at hp
      obtain ⟨_, h1, hp⟩ := bind_ok_inv hp
      obtain ⟨ts, h2, hp⟩ := bind_ok_inv hp
      rw [mkMPA_eq hp]
      exact py_mapM_length h2
  unfold Mpnum.reductions
  cases mode <;> simp only [h1, h2 ψ rfl, h3]

/-! ### reduced states -/

theorem psd_sum {ι : Type} {D : List ℕ} (s : Finset ι) (M : ι → List ℕ → List ℕ → ℂ) (h : ∀ i ∈ s, Psd D (M i)) :
    Psd D fun I J => ∑ i ∈ s, M i I J := by
  unfold Psd at *
  have : (Matrix.of fun I J : {I // InB I D} => ∑ i ∈ s, M i I J) = ∑ i ∈ s, Matrix.of fun I J : {I // InB I D} => M i I J := by
    ext I J
    simp [Matrix.sum_apply]
  rw [this]
  exact Matrix.posSemidef_sum s h

theorem psd_marg {P W Q : List ℕ} {ρ : List ℕ → List ℕ → ℂ} (h : Psd (P ++ W ++ Q) ρ) : Psd W (margOp ρ P Q) := by
  unfold margOp
  simp only [sumIdx_eq_sum]
  refine psd_sum _ _ fun L hL => psd_sum _ _ fun M hM => ?_
  unfold Psd at *
  exact h.submatrix fun I : {I // InB I W} => ⟨L ++ I.1 ++ M, inB_append (inB_append (mem_idxSet.1 hL) I.2) (mem_idxSet.1 hM)⟩

/-- A reduced state is a state. -/
theorem isState_marg {D : List ℕ} {ρ : List ℕ → List ℕ → ℂ} (h : IsState D ρ) {s e : ℕ} (hse : s ≤ e) :
    IsState ((D.drop s).take (e - s)) (margOp ρ (D.take s) (D.drop e)) := by
  have hD := split3 D hse
  rw [← List.append_assoc] at hD
  refine ⟨psd_marg ?_, ?_⟩
  · rw [← hD]; exact h.psd
  · rw [C34_trace, ← hD]; exact h.trace

theorem margOp_congr {D : List ℕ} {ρ σ : List ℕ → List ℕ → ℂ} (h : ∀ I J, InB I D → InB J D → ρ I J = σ I J) {s e : ℕ} (hse : s ≤ e)
    {I J : List ℕ} (hI : InB I ((D.drop s).take (e - s))) (hJ : InB J ((D.drop s).take (e - s))) :
    margOp ρ (D.take s) (D.drop e) I J = margOp σ (D.take s) (D.drop e) I J := by
  unfold margOp
  refine sumIdx_congr fun L hL => sumIdx_congr fun M hM => ?_
  have hin : ∀ I, InB I ((D.drop s).take (e - s)) → InB (L ++ I ++ M) D := by
    intro I hI
    have := inB_append hL (inB_append hI hM)
    rw [List.append_assoc]
    rwa [← split3 D hse] at this
  exact h _ _ (hin I hI) (hin J hJ)

/-- The reduced states, in the order of the windows. -/
theorem StateIn.reduced {D : List ℕ} {ρ : List ℕ → List ℕ → ℂ} {m : StateMode} {ψ : MPA ℂ} (h : StateIn D ρ (.mode m) ψ)
    (hρ : IsState D ρ) {qr : QR ℂ} (hqr : QRSpec qr) {arg : RedArg} {ws : List (ℕ × ℕ)} (hw : Windows D.length arg ws) :
    ∃ zs m', reductions qr ψ m arg.width arg.starts arg.stops = .ok (zs, m') ∧
      List.Forall₂ (fun w z => ∀ (x : MPA ℂ) (O : List ℕ), PovmArg x O ((D.drop w.1).take (w.2 - w.1)) → ∀ eps : ℝ, 0 ≤ eps →
        ∃ p, pmfAsArray qr x z (.mode m') eps .auto = .ok (p, z) ∧
          BornArray x O ((D.drop w.1).take (w.2 - w.1)) (margOp ρ (D.take w.1) (D.drop w.2)) p) ws zs := by
  have hok := hw.ok
  have hw' : Windows ψ.len arg ws := by rw [h.len]; exact hw
  rw [hw'.reductions]
  cases h with
  | mpdo hm hψ hr hρ' =>
    obtain rfl : m = .mpdo := by simpa using hm
    obtain ⟨zs, h1, h2⟩ := C34_reductions_mpo ψ D hψ ws hok
    refine ⟨zs, .mpdo, by rw [(C35_reductions qr ψ _ _ _).2.2.1, h1]; rfl, ?_⟩
    refine forall₂_mem_imp h2 fun w hwm z ⟨z1, z2, z3⟩ x O hx eps he => ?_
    have hst : StateIn _ (margOp ρ (D.take w.1) (D.drop w.2)) (.mode .mpdo) z :=
      .mpdo (.inr rfl) z1 (fun r hr' => hr r (List.mem_of_mem_drop (List.mem_of_mem_take (z2 ▸ hr')))) fun I J hI hJ => by
        rw [z3 I J hI hJ]
        exact margOp_congr hρ' (hok w hwm).1.le hI hJ
    exact hst.array (isState_marg hρ (hok w hwm).1.le) hqr hx he
  | pmps A hψ hg hρ' =>
    obtain ⟨zs, y, h1, h2, _⟩ := C35_reductions_pmps hqr ψ D A hψ hg ws hok
    refine ⟨zs, .pmps, by rw [(C35_reductions qr ψ _ _ _).2.1, h1]; rfl, ?_⟩
    refine forall₂_mem_imp h2 fun w hwm z ⟨A', z1, z2, z3⟩ x O hx eps he => ?_
    obtain ⟨a, a1, a2⟩ := C42_array_pmps_fast qr x z O _ A' hx.povm hx.pos z1 (.mode .pmps) .auto (.inl ⟨rfl, rfl⟩)
    refine bornArray_ok hx (isState_marg hρ (hok w hwm).1.le) a1 (isPmfArray_congr (fun I J hI hJ => ?_) a2) he
    rw [z3 I J hI hJ]
    exact margOp_congr hρ' (hok w hwm).1.le hI hJ
  | mps hm hψ hs hρ' =>
    obtain rfl : m = .mps := by simpa using hm
    obtain ⟨zs, h1, h2⟩ := C35_mps_as_pmps hqr ψ D hψ hs ws hok
    refine ⟨zs, .pmps, by rw [(C35_reductions qr ψ _ _ _).1, h1]; rfl, ?_⟩
    refine forall₂_mem_imp h2 fun w hwm z ⟨A', z1, z2, z3⟩ x O hx eps he => ?_
    obtain ⟨a, a1, a2⟩ := C42_array_pmps_fast qr x z O _ A' hx.povm hx.pos z1 (.mode .pmps) .auto (.inl ⟨rfl, rfl⟩)
    refine bornArray_ok hx (isState_marg hρ (hok w hwm).1.le) a1 (isPmfArray_congr (fun I J hI hJ => ?_) a2) he
    rw [z3 I J hI hJ]
    exact margOp_congr hρ' (hok w hwm).1.le hI hJ

/-! ### one MP-POVM -/

/-- C60: `block_pmfs_as_array` returns, for every window in the given order, the probabilities of the MP-POVM on
the reduced state of this window. -/
theorem C60_block {qr : QR ℂ} (hqr : QRSpec qr) (x ψ : MPA ℂ) (O W D : List ℕ) (hx : PovmArg x O W) (m : StateMode)
    (ρ : List ℕ → List ℕ → ℂ) (hψ : StateIn D ρ (.mode m) ψ) (hρ : IsState D ρ) (eps : ℝ) (he : 0 ≤ eps) (arg : RedArg)
    (ws : List (ℕ × ℕ)) (hw : Windows D.length arg ws) (hW : ∀ w ∈ ws, (D.drop w.1).take (w.2 - w.1) = W) :
    ∃ ps, blockPmfsAsArray qr x ψ (.mode m) eps (some arg) = .ok ps ∧
      List.Forall₂ (fun w p => BornArray x O W (margOp ρ (D.take w.1) (D.drop w.2)) p) ws ps := by
  obtain ⟨zs, m', h1, h2⟩ := hψ.reduced hρ hqr hw
  unfold blockPmfsAsArray
  simp only [Option.getD_some, PovmMode.toState]
  rw [h1, ok_bind]
  simp only
  unfold pmfsAsArray
  clear h1 hw
  induction h2 with
  | nil => exact ⟨[], rfl, .nil⟩
  | @cons w z ws zs h _ ih =>
    have hWw := hW w (by simp)
    obtain ⟨p, p1, p2⟩ := h x O (hWw ▸ hx) eps he
    obtain ⟨ps, q1, q2⟩ := ih fun w hw => hW w (by simp [hw])
    refine ⟨p :: ps, ?_, .cons (hWw ▸ p2) q2⟩
    rw [List.mapM_cons, p1, q1]
    rfl

/-- C60: without keyword arguments, there is one item for every window as wide as the MP-POVM, from left to right. -/
theorem C60_block_default {qr : QR ℂ} (hqr : QRSpec qr) (x ψ : MPA ℂ) (O : List ℕ) (k d n : ℕ) (hk : k ≤ n)
    (hx : PovmArg x O (List.replicate k d)) (m : StateMode) (ρ : List ℕ → List ℕ → ℂ)
    (hψ : StateIn (List.replicate n d) ρ (.mode m) ψ) (hρ : IsState (List.replicate n d) ρ) (eps : ℝ) (he : 0 ≤ eps) :
    ∃ ps, blockPmfsAsArray qr x ψ (.mode m) eps none = .ok ps ∧
      List.Forall₂ (fun s p => BornArray x O (List.replicate k d)
        (margOp ρ (List.replicate s d) (List.replicate (n - s - k) d)) p) (List.range (n + 1 - k)) ps := by
  have hlen : x.len = k := by rw [show x.len = _ from hx.povm.lenx]; simp
  have hk0 : 0 < k := by rw [← hlen]; exact List.length_pos_iff.2 hx.povm.valid.ne
  have hw : Windows (List.replicate n d).length ⟨some (k : ℤ), none, none⟩ ((List.range (n + 1 - k)).map fun s => (s, s + k)) := by
    rw [List.length_replicate]
    exact .width k ⟨hk0, hk⟩
  obtain ⟨ps, h1, h2⟩ := C60_block hqr x ψ O (List.replicate k d) _ hx m ρ hψ hρ eps he _ _ hw (by
    intro w hw
    obtain ⟨s, hs, rfl⟩ := List.mem_map.1 hw
    have := List.mem_range.1 hs
    simp only [List.drop_replicate, List.take_replicate]
    congr 1
    omega)
  refine ⟨ps, ?_, ?_⟩
  · rw [← h1]
    unfold blockPmfsAsArray
    rw [Option.getD_none, Option.getD_some, hlen]
  · rw [List.forall₂_map_left_iff] at h2
    refine forall₂_mem_imp h2 fun s hs p hp => ?_
    have := List.mem_range.1 hs
    simp only [List.drop_replicate, List.take_replicate] at hp
    rwa [show min s n = s by omega, show n - (s + k) = n - s - k by omega] at hp

/-- C60: these are the probabilities of the MP-POVMs returned by `block` on the full state. -/
theorem C60_block_full {qr : QR ℂ} (hqr : QRSpec qr) (x ψ : MPA ℂ) (O : List ℕ) (k d n : ℕ) (hk : k ≤ n)
    (hx : PovmArg x O (List.replicate k d)) (m : StateMode) (ρ : List ℕ → List ℕ → ℂ)
    (hψ : StateIn (List.replicate n d) ρ (.mode m) ψ) (hρ : IsState (List.replicate n d) ρ) (eps : ℝ) (he : 0 ≤ eps) :
    ∃ ps zs, blockPmfsAsArray qr x ψ (.mode m) eps none = .ok ps ∧ povmBlock x n = .ok zs ∧
      ps.length = n + 1 - k ∧ zs.length = n + 1 - k ∧
      ∀ (s : ℕ) (p : NDArray ℝ) (z : MPA ℂ), ps[s]? = some p → zs[s]? = some z → ∀ Y, InB Y O →
        (p.get (squeezeIdx O Y) : ℂ)
          = bornRule (List.replicate n d) (z.elem (List.replicate s 0 ++ Y ++ List.replicate (n - s - k) 0)) ρ := by
  obtain ⟨ps, h1, h2⟩ := C60_block_default hqr x ψ O k d n hk hx m ρ hψ hρ eps he
  obtain ⟨zs, g1, g2⟩ := C43_block x O k d n hx.povm
  refine ⟨ps, zs, h1, g1, by rw [← h2.length_eq, List.length_range], by rw [← g2.length_eq, List.length_range], ?_⟩
  intro s p z hp hz Y hY
  obtain ⟨hs, rfl⟩ := List.getElem?_eq_some_iff.1 hp
  obtain ⟨hs', rfl⟩ := List.getElem?_eq_some_iff.1 hz
  have hr : s < (List.range (n + 1 - k)).length := h2.length_eq ▸ hs
  have hsn : s < n + 1 - k := by simpa using hr
  have a := h2.get hr hs
  have b := g2.get hr hs'
  simp only [List.get_eq_getElem, List.getElem_range] at a b
  rw [a.born Y hY, ← C43_embed_born x _ O _ _ _ b ρ Y hY]
  simp only [List.length_replicate, List.replicate_append_replicate]
  rw [show s + k + (n - s - k) = n by omega]

/-- C60 (finding): the default mode `'auto'` of the other functions is rejected here. -/
theorem C60_block_auto (qr : QR ℂ) (x ψ : MPA ℂ) (xs : List (MPA ℂ)) (eps : ℝ) (arg : RedArg) :
    blockPmfsAsArray qr x ψ .auto eps none = .error .value ∧ blockPmfsAsArray qr x ψ .auto eps (some arg) = .error .value ∧
    blockPmfsAsArrayList qr xs ψ .auto eps (some arg) = .error .value := ⟨rfl, rfl, rfl⟩

/-! ### one MP-POVM per window -/

/-- C60: `MPPovmList.block_pmfs_as_array` measures MP-POVM number `i` on the reduced state of window number `i`. -/
theorem C60_list_block {qr : QR ℂ} (hqr : QRSpec qr) (ψ : MPA ℂ) (D : List ℕ) (m : StateMode) (ρ : List ℕ → List ℕ → ℂ)
    (hψ : StateIn D ρ (.mode m) ψ) (hρ : IsState D ρ) (eps : ℝ) (he : 0 ≤ eps) (arg : RedArg) (ws : List (ℕ × ℕ))
    (hw : Windows D.length arg ws) (qs : List (MPA ℂ × List ℕ))
    (hq : List.Forall₂ (fun w q => PovmArg q.1 q.2 ((D.drop w.1).take (w.2 - w.1))) ws qs) :
    ∃ ps, blockPmfsAsArrayList qr (qs.map Prod.fst) ψ (.mode m) eps (some arg) = .ok ps ∧
      List.Forall₂ (fun (v : (ℕ × ℕ) × MPA ℂ × List ℕ) p => BornArray v.2.1 v.2.2 ((D.drop v.1.1).take (v.1.2 - v.1.1))
        (margOp ρ (D.take v.1.1) (D.drop v.1.2)) p) (ws.zip qs) ps := by
  obtain ⟨zs, m', h1, h2⟩ := hψ.reduced hρ hqr hw
  unfold blockPmfsAsArrayList
  simp only [PovmMode.toState, ok_bind]
  rw [h1, ok_bind]
  simp only
  unfold pmfsAsArrayList
  clear h1 hw
  induction h2 generalizing qs with
  | nil =>
    cases hq
    exact ⟨[], rfl, .nil⟩
  | @cons w z ws zs h _ ih =>
    cases hq with
    | @cons _ q _ qs hq1 hq2 =>
      obtain ⟨p, p1, p2⟩ := h q.1 q.2 hq1 eps he
      obtain ⟨ps, q1, q2⟩ := ih qs hq2
      refine ⟨p :: ps, ?_, .cons p2 q2⟩
      rw [List.map_cons, List.zip_cons_cons, List.mapM_cons, p1, q1]
      rfl

/-- C60: without keyword arguments, the windows have the width of the first MP-POVM. -/
theorem C60_list_block_default {qr : QR ℂ} (ψ : MPA ℂ) (mode : PovmMode) (eps : ℝ) (x : MPA ℂ) (xs : List (MPA ℂ)) :
    (((x :: xs).length : ℤ) = ψ.len - x.len + 1 → blockPmfsAsArrayList qr (x :: xs) ψ mode eps none
      = blockPmfsAsArrayList qr (x :: xs) ψ mode eps (some ⟨some (x.len : ℤ), none, none⟩)) ∧
    (((x :: xs).length : ℤ) ≠ ψ.len - x.len + 1 → blockPmfsAsArrayList qr (x :: xs) ψ mode eps none = .error .assertion) ∧
    blockPmfsAsArrayList qr [] ψ mode eps none = .error .index := by
  refine ⟨fun h => ?_, fun h => ?_, rfl⟩
  · unfold blockPmfsAsArrayList firstPovm
    simp only [ok_bind]
    rw [pyAssert_true h]
    rfl
  · unfold blockPmfsAsArrayList firstPovm
    simp only [ok_bind]
    rw [pyAssert_false h]
    rfl

end Mpnum
