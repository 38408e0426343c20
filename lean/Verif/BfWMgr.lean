import Verif.BfVarWin
import Verif.BfLess
import Verif.BfEnv

/-!
# A whole breadth-first reordering by window permutation
-/

namespace Cal

namespace Bfr

/-- `CalBddReorderAuxBF` (calReorderBF.c:100-122) when the technique is `CAL_REORDER_WINDOW`, with at most `fuel`
passes. As `reorderBF`; the third result says how often several ids have been packed. -/
def reorderBFW (P : Par) (fuel : Nat) (m : Mgr) (ps : List Edge) : Option (Mgr × (Edge → Edge) × Nat) :=
  match Interact.initInteract m.st (Df.userBdds m.ut ++ ps) with
  | none => none
  | some mat => (varWindow P fuel (enter P m mat)).map fun s => (finish m s.w, s.w.pipe, s.packs)

/-- Packing several ids does no harm: no association has a value with a top variable, or all ids are packed whenever
any are. -/
def PackSafe (P : Par) (m : Mgr) : Prop :=
  ((∀ p, p ∈ m.assocs → ∀ v e, p.a.var v = some e → e.addr = 0) ∧ ∀ v e, m.temp.var v = some e → e.addr = 0) ∨
    ∀ s id, P.needs s id = true

section
variable {Γ : Nat → BFn → BFn} {own leak : Nat → Nat} {ps : List Edge} {m : Mgr}

theorem PackSafe.safe (i : Mgr.InvG Γ (fun x => leak x + pend ps x) own m) {P : Par} (h : PackSafe P m) (mat : Interact.Matrix) :
    Safe P (m.Held fun x => leak x + pend ps x) (dfStart m mat) := by
  intro e he
  have key : m.Held (fun x => leak x + pend ps x) e ∧ (((∀ p, p ∈ m.assocs → ∀ v e, p.a.var v = some e → e.addr = 0) ∧
      ∀ v e, m.temp.var v = some e → e.addr = 0) → e.addr = 0) := by
    rcases he with ⟨p, hp, v, hv⟩ | ⟨v, hv⟩
    · exact ⟨Mgr.held_assoc i (p := p) hp hv, fun h => h.1 p hp v e hv⟩
    · exact ⟨Mgr.held_temp i (v := v) hv, fun h => h.2 v e hv⟩
  exact ⟨key.1, h.imp key.2 id⟩

/-- What window permutation leaves behind. -/
theorem reorderBFW_ok (i : Mgr.InvG Γ (fun x => leak x + pend ps x) own m) (h : Ready m ps) {P : Par} {fuel m' φ packs}
    (e : reorderBFW P fuel m ps = some (m', φ, packs)) (hs : PackSafe P m ∨ packs = 0) : Reordered Γ own leak ps m m' φ := by
  obtain ⟨mat, δ0, e1, l0, Bt⟩ := start_ok i h P
  unfold reorderBFW at e
  rw [e1] at e
  obtain ⟨s, e2, e3⟩ := Option.map_eq_some_iff.1 e
  cases e3
  exact finish_ok i h l0 (varWindow_spec P Bt e2 (hs.imp (fun h => h.safe i mat) id))

/-- The names of all stuck functions are enough to know that nothing but what is held is stuck. -/
theorem unstuck_of {mat : Interact.Matrix} (i : Mgr.InvG Γ (fun x => leak x + pend ps x) own m) {δ0 : Nat → BFn} (l0 : Lab m.st δ0)
    {w : St} {d : Df.St} {ab : Nat → Nat}
    (B : BInv (m.roots fun x => leak x + pend ps x) δ0 (dfStart m mat) (m.Held fun x => leak x + pend ps x) m.ut.heap m.vars w d ab)
    (C : Clean (m.Held fun x => leak x + pend ps x) w)
    (hs : ∀ F, Stuck (finish m w) F → Named own m F ∨ Named own m fun ρ => !F ρ) : Df.Unstuck (m.roots fun x => leak x + pend ps x) d := by
  refine Df.unstuck_core B.r l0.const (moved B C) fun a n F h1 h2 h3 => ?_
  rcases hs F ⟨a, n, h1, h2, h3⟩ with h | h
  · obtain ⟨e, c, h1, h2⟩ := named_held i l0 h
    exact ⟨e, c, h1.2, h2⟩
  · obtain ⟨e, c, h1, h2⟩ := named_held i l0 h
    refine ⟨e, !c, h1.2, ?_⟩
    funext ρ
    have := congrFun h2 ρ
    cases c <;> simp at this ⊢ <;> rw [← this] <;> simp

/-- It ends with at most as many nodes as there were. -/
theorem reorderBFW_le (i : Mgr.InvG Γ (fun x => leak x + pend ps x) own m) (h : Ready m ps) {P : Par} {fuel m' φ packs}
    (e : reorderBFW P fuel m ps = some (m', φ, packs)) (hp : PackSafe P m ∨ packs = 0)
    (hs : ∀ F, Stuck m' F → Named own m F ∨ Named own m fun ρ => !F ρ) : m'.st.numNodes ≤ m.st.numNodes := by
  obtain ⟨mat, δ0, e1, l0, Bt⟩ := start_ok i h P
  unfold reorderBFW at e
  rw [e1] at e
  obtain ⟨s, e2, e3⟩ := Option.map_eq_some_iff.1 e
  cases e3
  obtain ⟨-, C, d, ab, B, -, le⟩ := varWindow_spec P Bt e2 (hp.imp (fun h => h.safe i mat) id)
  have k := le (unstuck_of i l0 B C hs)
  have k2 : s.w.st.numNodes = d.st.numNodes := (moved B C).num
  show s.w.st.numNodes ≤ m.st.numNodes
  rw [k2]
  exact k

/-- The manager after `k` passes. -/
def afterPasses (P : Par) (k : Nat) (m : Mgr) (ps : List Edge) : Option Mgr :=
  match Interact.initInteract m.st (Df.userBdds m.ut ++ ps) with
  | none => none
  | some mat => (passN P k ⟨enter P m mat, fun _ => true, true, 0⟩).map fun s => finish m s.w

/-- It ends, or a function is stuck that nobody holds. -/
theorem reorderBFW_ends (i : Mgr.InvG Γ (fun x => leak x + pend ps x) own m) (h : Ready m ps) {P : Par} (hp : PackSafe P m) {fuel : Nat}
    (hf : m.st.numNodes < fuel) (e : reorderBFW P fuel m ps = none) :
    ∃ m' F, afterPasses P fuel m ps = some m' ∧ Stuck m' F ∧ ¬ Named own m F ∧ ¬ Named own m fun ρ => !F ρ := by
  obtain ⟨mat, δ0, e1, l0, hn, C, d, ab, B, le⟩ := start_ok i h P
  unfold reorderBFW at e
  rw [e1] at e
  replace e : passes P fuel ⟨enter P m mat, fun _ => true, true, 0⟩ = none := by
    simpa [varWindow] using e
  obtain ⟨s', d', ab', h1, B', C', -, -, hd⟩ := passes_ends P (hp.safe i mat) fuel (s := ⟨enter P m mat, fun _ => true, true, 0⟩) B C hn e
  apply Classical.byContradiction
  intro hx
  have u := unstuck_of i l0 B' C' (fun F hF => Classical.byContradiction fun hy => hx ⟨finish m s'.w, F, by
    unfold afterPasses; rw [e1]; simp only; rw [h1]; rfl, hF, fun h => hy (Or.inl h), fun h => hy (Or.inr h)⟩)
  have := hd u
  have k2 : (enter P m mat).st.numNodes = d.st.numNodes := B.sim.num
  replace k2 : m.st.numNodes = d.st.numNodes := k2
  omega

end

end Bfr

open Classical in
/-- The environment `E`, but with breadth-first reordering by window permutation as in the code wherever it is safe. -/
noncomputable def Env.bfw (E : Env) (P : Mgr → List Edge → Bfr.Par) (fuel : Nat) : Env :=
  { E with
    reorder := fun m ps =>
      if m.method = 0 ∧ m.technique = 2 ∧ Bfr.Ready m ps then
        match Bfr.reorderBFW (P m ps) fuel m ps with
        | some (m', φ, packs) => if Bfr.PackSafe (P m ps) m ∨ packs = 0 then some (m', φ) else E.reorder m ps
        | none => E.reorder m ps
      else E.reorder m ps }

theorem Env.bfw_sound {E : Env} (S : E.Sound) (P : Mgr → List Edge → Bfr.Par) (fuel : Nat) : (E.bfw P fuel).Sound := by
  refine ⟨?_, S.repack, ?_, S.repackCheck, S.existsBF, S.relProdBF, S.rnd⟩
  · intro own lk ps m i hca ht
    simp only [Env.bfw]
    split
    · rename_i c
      obtain ⟨-, -, c⟩ := c
      split
      · rename_i m' φ packs e
        split
        · rename_i hs
          obtain ⟨Γ, leak, hl, i, ok⟩ := i
          have R := Bfr.reorderBFW_ok i c e hs
          obtain ⟨leak', h1, h2⟩ := R.inv
          exact ⟨m', φ, rfl, ⟨Γ, leak', fun h => h1 (hl h), h2, R.eok⟩, R.pres, R.ovf, R.fwd⟩
        · exact S.reorder own lk ps m i hca ht
      · exact S.reorder own lk ps m i hca ht
    · exact S.reorder own lk ps m i hca ht
  · intro m ps m' φ
    simp only [Env.bfw]
    split
    · rename_i c
      obtain ⟨-, -, c⟩ := c
      split
      · rename_i m1 φ1 packs e
        split
        · rename_i hs
          obtain ⟨Γ, own, leak, i, -⟩ := c.cov
          have R := Bfr.reorderBFW_ok i c e hs
          rintro h
          cases h
          exact R.chk
        · exact S.reorderCheck m ps m' φ
      · exact S.reorderCheck m ps m' φ
    · exact S.reorderCheck m ps m' φ

end Cal
