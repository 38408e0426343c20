import Verif.BfWMgr
import Verif.Props19
import Verif.Props20

/-!
# Properties, part 21: breadth-first reordering by window permutation
-/

namespace Cal

variable {E : Env} {own : Nat → Nat} {lk : Bool} {m : Mgr}

/-! ## C60 -/

/-- All functions in associations are constant. -/
def ConstAssocs (m : Mgr) : Prop := ∀ F, AssocVal m F → F = (fun _ => true) ∨ F = fun _ => false

theorem const_edge {s : Store} (w : s.WF) {e : Edge} {F : BFn} (r : Rep s e F) (h : F = (fun _ => true) ∨ F = fun _ => false) :
    e.addr = 0 := by
  rcases h with rfl | rfl
  · rw [canonical w r .one]
  · rw [canonical w r .zero]

theorem ConstAssocs.edges {Γ leak} (i : m.InvG Γ leak own) (h : ConstAssocs m) :
    (∀ p, p ∈ m.assocs → ∀ v e, p.a.var v = some e → e.addr = 0) ∧ ∀ v e, m.temp.var v = some e → e.addr = 0 := by
  constructor
  · intro p hp v e hv
    obtain ⟨F, r⟩ := i.wf.rep_exists ((i.assocs p hp).1.vals v e hv)
    exact const_edge i.wf r (h F ⟨p.a.id, p.a, v, e, Mgr.assoc_of_mem i hp, hv, r⟩)
  · intro v e hv
    obtain ⟨F, r⟩ := i.wf.rep_exists (i.temp.vals v e hv)
    exact const_edge i.wf r (h F ⟨-1, m.temp, v, e, by simp [Mgr.assoc], hv, r⟩)

theorem ConstAssocs.gc {m1 : Mgr} (i : m.Inv own lk) (hg : m.gc = some m1) (h : ConstAssocs m) : ConstAssocs m1 := by
  obtain ⟨Γ, leak, -, i⟩ := i
  obtain ⟨m', h', -, -, -, -, -, sh, -⟩ := i.gc
  rw [hg] at h'; cases h'
  obtain ⟨-, -, -, -, -, has, ht⟩ := Mgr.gc_fades hg
  rintro F ⟨j, A, v, e, h1, h2, h3⟩
  refine h F ⟨j, A, v, e, ?_, h2, h3.mono ⟨sh.ord.symm, sh.heap⟩⟩
  unfold Mgr.assoc at h1 ⊢
  rw [← has, ← ht]; exact h1

/-- When several ids are packed the values of associations may be lost (see `C60_window_violated`). That does not
happen if all of them are constant, or if all ids are packed whenever any are, or if nothing has been packed. -/
def PackOK (P : Bfr.Par) (m : Mgr) (packs : Nat) : Prop :=
  ConstAssocs m ∨ (∀ s id, P.needs s id = true) ∨ packs = 0

theorem PackOK.safe {Γ leak} (i : m.InvG Γ leak own) {P packs} (h : PackOK P m packs) : Bfr.PackSafe P m ∨ packs = 0 := by
  rcases h with h | h | h
  · exact Or.inl (Or.inl (h.edges i))
  · exact Or.inl (Or.inr h)
  · exact Or.inr h

/-- `Cal_BddReorder` with the breadth-first method and window permutation, for all limits: if it ends (see
`C62_bf_window_ends_partial`), it has changed nothing but the order. `Tracked` is what `C60_sift_partial` needs as well;
for the other assumption see `PackOK`. -/
theorem C60_window_partial (S : E.Sound) (R : Reachable E own false m) (hn : m.st.ord.numVars ≤ 46341)
    (ht : Tracked own m) (h2 : m.technique = 2) {P : Bfr.Par} {fuel m1 m' φ packs}
    (hg : ({ m with ca := m.ca.flush } : Mgr).gc = some m1) (e : Bfr.reorderBFW P fuel m1 [] = some (m', φ, packs))
    (hp : PackOK P m packs) : SameFunctions own m m' := by
  obtain ⟨m2, hg', ⟨Γ, leak, hl, j⟩, p, rd⟩ := bfr_ready (R.inv S) hn ht (by omega)
  rw [hg] at hg'; cases hg'
  obtain rfl := hl rfl
  have j0 : Mgr.InvG Γ (fun x => (fun _ => 0) x + pend [] x) own m1 := by simpa [pend] using j
  have hp1 : PackOK P m1 packs := hp.imp (fun h => ConstAssocs.gc (flush_inv (R.inv S)) hg h) id
  exact sameFunctions (R.inv S) p (Bfr.reorderBFW_ok j0 rd e (hp1.safe j))

/-- In the middle of a pipeline the results that have been computed are forwarded as well. -/
theorem C60_window_pipeline_partial {ps : List Edge} (i : m.InvP own false ps) (rd : Bfr.Ready m ps) {P : Bfr.Par} {fuel m' φ packs}
    (e : Bfr.reorderBFW P fuel m ps = some (m', φ, packs)) (hp : PackOK P m packs) : m'.InvP own false (ps.map φ) ∧
      (∀ e ∈ ps, ∀ F, Rep m.st e F → Rep m'.st (φ e) F) ∧ ∀ h F, UTab.Live own h → Den m h F → Den m' h F := by
  obtain ⟨Γ, leak, hl, i, -⟩ := i
  have h := Bfr.reorderBFW_ok i rd e (hp.safe i)
  obtain ⟨leak', h1, h2⟩ := h.inv
  exact ⟨⟨Γ, leak', fun h => h1 (hl h), h2, h.eok⟩, h.fwd.pend, fun x F l d => h.pres.fns x l F d⟩

/-- With window permutation as in the code wherever it is safe, the environment is still sound. -/
theorem C60_window_env (S : E.Sound) (P : Mgr → List Edge → Bfr.Par) (fuel : Nat) : (E.bfw P fuel).Sound := Env.bfw_sound S P fuel

/-- All parts of the environment together: all four ways of reordering (where they are safe), repacking (where it is
safe) and the quantifiers as in the code. -/
noncomputable def Env.code3 (E : Env) (L : Sift.Limits) (passes : Nat) (blk : Mgr → List Edge → Block)
    (P : Mgr → List Edge → Bfr.Par) (fuel : Nat) (low : Nat → Nat → Bool) (pg : Mgr → Rp.Pages) : Env :=
  ((((E.df L passes blk).bfr P).bfw P fuel).rp low pg).bf

theorem C60_code3_sound (S : E.Sound) (L : Sift.Limits) (passes : Nat) (blk : Mgr → List Edge → Block)
    (P : Mgr → List Edge → Bfr.Par) (fuel : Nat) {low : Nat → Nat → Bool} (hlow : ∀ n p, low n p = true → n < Rp.perPage * p)
    (pg : Mgr → Rp.Pages) : (E.code3 L passes blk P fuel low pg).Sound :=
  Env.bf_sound (Env.rp_sound (Env.bfw_sound (Env.bfr_sound (Env.df_sound S L passes blk) P) P fuel) hlow pg)

/-! ## C62 -/

/-- Breadth-first window permutation ends with at most as many nodes as a garbage collection would have left, whatever
the limits. The assumption about stuck counts is that of `C62_df_partial`. -/
theorem C62_bf_window_partial (S : E.Sound) (R : Reachable E own false m) (hn : m.st.ord.numVars ≤ 46341)
    (ht : Tracked own m) (h2 : m.technique = 2) {P : Bfr.Par} {fuel m1 m' φ packs}
    (hg : ({ m with ca := m.ca.flush } : Mgr).gc = some m1) (e : Bfr.reorderBFW P fuel m1 [] = some (m', φ, packs))
    (hp : PackOK P m packs) (hs : ∀ F, Stuck m' F → Named own m F ∨ Named own m fun ρ => !F ρ) :
    ∃ g, m.gc = some g ∧ m'.st.numNodes ≤ g.st.numNodes := by
  obtain ⟨m2, hg', ⟨Γ, leak, hl, j⟩, p, rd⟩ := bfr_ready (R.inv S) hn ht (by omega)
  rw [hg] at hg'; cases hg'
  obtain rfl := hl rfl
  have j0 : Mgr.InvG Γ (fun x => (fun _ => 0) x + pend [] x) own m1 := by simpa [pend] using j
  have hp1 : PackOK P m1 packs := hp.imp (fun h => ConstAssocs.gc (flush_inv (R.inv S)) hg h) id
  obtain ⟨g', hg', est⟩ := Mgr.gc_flush hg
  refine ⟨g', hg', ?_⟩
  rw [est]
  exact Bfr.reorderBFW_le j0 rd e (hp1.safe j) fun F h => (hs F h).imp (Named.pres p) (Named.pres p)

/-- It ends without fault, after at most one pass more than there are nodes, unless after that many passes a function
is stuck that is neither the function of a handle, a variable or an association nor the complement of one. -/
theorem C62_bf_window_ends_partial (S : E.Sound) (R : Reachable E own false m) (hn : m.st.ord.numVars ≤ 46341)
    (ht : Tracked own m) (h2 : m.technique = 2) {P : Bfr.Par} (hp : ConstAssocs m ∨ ∀ s id, P.needs s id = true) :
    ∃ m1, ({ m with ca := m.ca.flush } : Mgr).gc = some m1 ∧
      ((∃ m' φ packs, Bfr.reorderBFW P (m1.st.numNodes + 1) m1 [] = some (m', φ, packs)) ∨
        ∃ m' F, Bfr.afterPasses P (m1.st.numNodes + 1) m1 [] = some m' ∧ Stuck m' F ∧ ¬ Named own m F ∧ ¬ Named own m fun ρ => !F ρ) := by
  obtain ⟨m1, hg, ⟨Γ, leak, hl, j⟩, p, rd⟩ := bfr_ready (R.inv S) hn ht (by omega)
  obtain rfl := hl rfl
  have j0 : Mgr.InvG Γ (fun x => (fun _ => 0) x + pend [] x) own m1 := by simpa [pend] using j
  refine ⟨m1, hg, ?_⟩
  have hp1 : Bfr.PackSafe P m1 := by
    rcases hp with h | h
    · exact Or.inl ((ConstAssocs.gc (flush_inv (R.inv S)) hg h).edges j)
    · exact Or.inr h
  cases e : Bfr.reorderBFW P (m1.st.numNodes + 1) m1 [] with
  | some r => exact Or.inl ⟨r.1, r.2.1, r.2.2, rfl⟩
  | none =>
    obtain ⟨m', F, h1, h2, h3, h4⟩ := Bfr.reorderBFW_ends j0 rd hp1 (Nat.lt_succ_self _) e
    exact Or.inr ⟨m', F, h1, h2, fun h => h3 (h.pres p), fun h => h4 (h.pres p)⟩

namespace Demo

/-- ac + bd in the order a, b, c, d, which is also the value of an association; breadth-first window permutation. -/
def bfwScript : List Call :=
  [.newVarLast, .newVarLast, .newVarLast, .newVarLast, .and ⟨2, false⟩ ⟨4, false⟩, .and ⟨3, false⟩ ⟨5, false⟩,
    .or ⟨6, false⟩ ⟨7, false⟩, .free ⟨6, false⟩, .free ⟨7, false⟩, .associationInit [⟨2, false⟩, ⟨8, false⟩] true,
    .associationSetCurrent 0, .dynamicReordering 2 0]

def bfw : Sess := go bfwScript (by decide +kernel)

theorem bfwReach : Reachable Env.plain bfw.own false bfw.m := by
  have h' : Reachable Env.plain bfw.own bfw.lk bfw.m := go_reachable bfwScript (by decide +kernel)
  rwa [show bfw.lk = false by decide +kernel] at h'

theorem bfwTracked : Tracked bfw.own bfw.m := trackedB_ok (bfwReach.inv Env.plain_sound) (by decide +kernel)

/-- `Cal_BddReorder` (cal.c:454-468) with at most `fuel` passes. -/
def bfwRun (P : Bfr.Par) (fuel : Nat) (m : Mgr) : Option (Mgr × Nat) :=
  match ({ m with ca := m.ca.flush } : Mgr).gc with
  | none => none
  | some m1 => (Bfr.reorderBFW P fuel m1 []).map fun r => (r.1, r.2.2)

/-- As set by `Cal_BddManagerSetParameters` (calBddManager.c:328-347) with `maxForwardedNodes` 0; there are too few nodes for packing to be worth
while. -/
def packPar : Bfr.Par := ⟨limits, 0, fun _ _ => false, 0⟩

theorem bfw_run : [bfPar, bfPar0].map (fun P => (bfwRun P 5 bfw.m).map fun r => (stuckVarsB r.1, r.2)) =
    [some (true, 0), some (true, 3)] := by decide +kernel

theorem bfwRun_some {P : Bfr.Par} {fuel : Nat} {m m' : Mgr} {packs : Nat} (h : bfwRun P fuel m = some (m', packs)) :
    ∃ m1 φ, ({ m with ca := m.ca.flush } : Mgr).gc = some m1 ∧ Bfr.reorderBFW P fuel m1 [] = some (m', φ, packs) := by
  unfold bfwRun at h
  split at h
  · cases h
  · rename_i m1 e
    obtain ⟨⟨a, φ, b⟩, h1, h2⟩ := Option.map_eq_some_iff.1 h
    cases h2
    exact ⟨m1, φ, e, h1⟩

end Demo

/-- Once without packing, once with packing all of a window after each of three windows. -/
example : ∀ P ∈ [Demo.bfPar, Demo.bfPar0], ∃ m1 m' φ packs, ({ Demo.bfw.m with ca := Demo.bfw.m.ca.flush } : Mgr).gc = some m1 ∧
    Bfr.reorderBFW P 5 m1 [] = some (m', φ, packs) ∧ SameFunctions Demo.bfw.own Demo.bfw.m m' ∧
    ∃ g, Demo.bfw.m.gc = some g ∧ m'.st.numNodes ≤ g.st.numNodes := by
  have key := Demo.bfw_run
  simp only [List.map_cons, List.map_nil, List.cons.injEq, and_true] at key
  have fin : ∀ P k, (Demo.bfwRun P 5 Demo.bfw.m).map (fun r => (Demo.stuckVarsB r.1, r.2)) = some (true, k) →
      PackOK P Demo.bfw.m k → ∃ m1 m' φ packs, ({ Demo.bfw.m with ca := Demo.bfw.m.ca.flush } : Mgr).gc = some m1 ∧
        Bfr.reorderBFW P 5 m1 [] = some (m', φ, packs) ∧ SameFunctions Demo.bfw.own Demo.bfw.m m' ∧
        ∃ g, Demo.bfw.m.gc = some g ∧ m'.st.numNodes ≤ g.st.numNodes := by
    intro P k h ok
    obtain ⟨⟨m', packs⟩, h1, h2⟩ := Option.map_eq_some_iff.1 h
    simp only [Prod.mk.injEq] at h2
    obtain ⟨h2, rfl⟩ := h2
    obtain ⟨m1, φ, e1, e2⟩ := Demo.bfwRun_some h1
    have K := C60_window_partial Env.plain_sound Demo.bfwReach (by decide +kernel) Demo.bfwTracked (by decide +kernel) e1 e2 ok
    exact ⟨m1, m', φ, packs, e1, e2, K, C62_bf_window_partial Env.plain_sound Demo.bfwReach (by decide +kernel) Demo.bfwTracked
      (by decide +kernel) e1 e2 ok fun F hF => Demo.stuckVarsB_ok K.inv K.vars h2 hF⟩
  intro P hP
  simp only [List.mem_cons, List.not_mem_nil, or_false] at hP
  rcases hP with rfl | rfl
  · exact fin _ _ key.1 (Or.inr (Or.inr rfl))
  · exact fin _ _ key.2 (Or.inr (Or.inl fun _ _ => rfl))

/-- b and c have changed places. -/
example : [Demo.bfPar, Demo.bfPar0].map (fun P => (Demo.bfwRun P 5 Demo.bfw.m).map
    fun r => ((List.range 4).map r.1.st.ord.indexToId, r.1.st.numNodes)) = [some ([1, 3, 2, 4], 8), some ([1, 3, 2, 4], 8)] ∧
    Demo.bfw.m.gc.map (fun g => g.st.numNodes) = some 9 := by decide +kernel

example := C62_bf_window_ends_partial Env.plain_sound Demo.bfwReach (by decide +kernel) Demo.bfwTracked (by decide +kernel)
  (P := Demo.bfPar0) (Or.inr fun _ _ => rfl)

/-! ### What is wrong -/

namespace Demo

def bfwLostB (s : Sess) : Bool :=
  s.lk == false && s.m.technique == 2 && s.m.method == 0 && s.m.cur == 0 && trackedB s.own s.m &&
  (match s.m.substitute Env.plain ⟨2, false⟩ with
    | none => false
    | some (m1, h) =>
      match m1.ut.heap h.addr with
      | none => false
      | some e => tree m1.st 6 (e.phase h.neg) == some (.node 1 (.node 2 (.node 3 (.leaf true) (.node 4 (.leaf true) (.leaf false)))
          (.node 3 (.leaf true) (.leaf false))) (.node 2 (.node 4 (.leaf true) (.leaf false)) (.leaf false)))) &&
  (match bfwRun packPar 5 s.m with
    | none => false
    | some (m', _) =>
      m'.cur == 0 &&
      match m'.substitute Env.plain ⟨2, false⟩ with
      | none => false
      | some (m2, h) =>
        match m2.ut.heap h.addr with
        | none => false
        | some e => tree m2.st 6 (e.phase h.neg) == some (.leaf true))

theorem bfwLost : checks bfwScript bfwLostB = true := by decide +kernel

end Demo

/-- It is false in general, also when the user holds all functions: packing the ids of a window takes the values of
associations for forwarding nodes, also where the nodes have not been moved, and replaces them by their then
children. Let an association map a to `ac + bd`. Before window permutation `Cal_BddSubstitute` of a with this
association is `ac + bd`; after it, it is constant. -/
theorem C60_window_violated : ∃ own m, Reachable Env.plain own false m ∧ Tracked own m ∧ m.technique = 2 ∧ m.method = 0 ∧
    ∃ m1 h, m.substitute Env.plain ⟨2, false⟩ = some (m1, h) ∧ Den m1 h (fun ρ => ρ 1 && ρ 3 || ρ 2 && ρ 4) ∧
    ∃ m' packs, Demo.bfwRun Demo.packPar 5 m = some (m', packs) ∧ m'.cur = m.cur ∧
    ∃ m2 k, m'.substitute Env.plain ⟨2, false⟩ = some (m2, k) ∧ Den m2 k (fun _ => true) := by
  obtain ⟨s, R, h⟩ := Demo.witness Demo.bfwLost
  unfold Demo.bfwLostB at h
  simp only [Bool.and_eq_true, beq_iff_eq] at h
  obtain ⟨⟨⟨⟨⟨⟨hlk, htech⟩, hmeth⟩, hcur⟩, htr⟩, hbef⟩, haft⟩ := h
  rw [hlk] at R
  refine ⟨s.own, s.m, R, Demo.trackedB_ok (R.inv Env.plain_sound) htr, htech, hmeth, ?_⟩
  split at hbef
  · cases hbef
  · rename_i m1 h e1
    split at hbef
    · cases hbef
    · rename_i e he
      have t1 := Demo.tree_rep _ (by simpa using hbef)
      refine ⟨m1, h, e1, ⟨e, he, (congrArg (Rep _ _) ?_).mp t1⟩, ?_⟩
      · funext ρ
        simp only [Demo.Tree.fn]
        cases ρ 1 <;> cases ρ 2 <;> cases ρ 3 <;> cases ρ 4 <;> rfl
      · split at haft
        · cases haft
        · rename_i m' packs e'
          simp only [Bool.and_eq_true, beq_iff_eq] at haft
          obtain ⟨hc, haft⟩ := haft
          refine ⟨m', packs, e', hc.trans hcur.symm, ?_⟩
          split at haft
          · cases haft
          · rename_i m2 k e2
            split at haft
            · cases haft
            · rename_i f hf
              have t2 := Demo.tree_rep _ (by simpa using haft)
              exact ⟨m2, k, e2, f, hf, t2⟩

end Cal
