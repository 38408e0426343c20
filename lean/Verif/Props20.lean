import Verif.BfLess
import Verif.Props18

/-!
# Properties, part 20: reordering does not make the BDDs bigger
-/

namespace Cal

variable {E : Env} {own : Nat → Nat} {m : Mgr}

/-! ## C62 -/

theorem Mgr.gc_flush {g : Mgr} (h : ({ m with ca := m.ca.flush } : Mgr).gc = some g) :
    ∃ g', m.gc = some g' ∧ g'.st = g.st := by
  unfold Mgr.gc at h ⊢
  simp only at h
  split at h
  · cases h
  · split at h
    · cases h
    · cases h
      exact ⟨_, rfl, rfl⟩

/-- `Cal_BddReorder` with the depth-first method ends with at most as many nodes as a garbage collection would have
left: so in the new order the functions that are held need at most as many nodes as in the old order (see
`C61_least`). This holds for sifting and for window permutation, for every tree of variable blocks and all limits.
It is assumed that afterwards all functions whose counts are stuck are functions of handles, variables or
associations, or complements of them: other stuck nodes cannot be freed any more. `Tracked` is what C40 needs. -/
theorem C62_df_partial (S : E.Sound) (R : Reachable E own false m) (hn : m.st.ord.numVars ≤ 46341)
    (ht : Tracked own m) {b : Block} (hb : Block.SuperOK m.st.ord.numVars b) {L : Sift.Limits} {passes : Nat}
    {m' φ b'} (e : Df.reorderDF L passes { m with ca := m.ca.flush } [] b = some (m', φ, b'))
    (hs : ∀ F, Stuck m' F → Named own m F ∨ Named own m fun ρ => !F ρ) :
    ∃ g, m.gc = some g ∧ m'.st.numNodes ≤ g.st.numNodes := by
  obtain ⟨Γ, leak, hl, i⟩ := flush_inv (R.inv S)
  obtain rfl := hl rfl
  have i0 : Mgr.InvG Γ (fun x => (fun _ => 0) x + pend [] x) own { m with ca := m.ca.flush } := by
    simpa [pend] using i
  obtain ⟨g, hg, -⟩ := i.gc
  obtain ⟨g', hg', est⟩ := Mgr.gc_flush hg
  refine ⟨g', hg', ?_⟩
  rw [est]
  have conv : ∀ {F}, Named own m F → Named own { m with ca := m.ca.flush } F := by
    intro F h
    cases h with
    | handle l d => exact .handle l d
    | var h1 h2 h => exact .var h1 h2 h
    | assoc h => exact .assoc h
  exact Df.reorderDF_le i0 (by simp) hn (Df.tracked_covered i ht) hb e
    (fun F h => (hs F h).imp conv conv) hg

theorem Named.pres {m1 : Mgr} (p : Pres own 0 m m1) {F} (n : Named own m F) : Named own m1 F := by
  cases n with
  | handle l d => exact .handle l (p.fns _ l F d)
  | var h1 h2 h => exact .var h1 (by rw [p.nv]; exact h2) h
  | assoc k =>
    obtain ⟨j, A, v, e, h1, h2, r⟩ := k
    obtain ⟨A', g1, g2⟩ := p.assoc_eqv h1
    cases hv : A'.var v with
    | none => rw [(g2.dom v).1 hv] at h2; cases h2
    | some e' => exact .assoc ⟨j, A', v, e', g1, hv, g2.vals v e e' h2 hv F r⟩

/-- The same for breadth-first sifting, with all limits and packings. -/
theorem C62_bf_partial (S : E.Sound) (R : Reachable E own false m) (hn : m.st.ord.numVars ≤ 46341)
    (ht : Tracked own m) (h0 : m.technique ≠ 0) (h2 : m.technique ≠ 2) {P : Bfr.Par} {m1 m' φ}
    (hg : ({ m with ca := m.ca.flush } : Mgr).gc = some m1) (e : Bfr.reorderBF P m1 [] = some (m', φ))
    (hs : ∀ F, Stuck m' F → Named own m F ∨ Named own m fun ρ => !F ρ) :
    ∃ g, m.gc = some g ∧ m'.st.numNodes ≤ g.st.numNodes := by
  obtain ⟨m2, hg2, ⟨Γ, leak, hl, j⟩, p, rd⟩ := bfr_ready (R.inv S) hn ht h0
  rw [hg] at hg2; cases hg2
  obtain rfl := hl rfl
  have j0 : Mgr.InvG Γ (fun x => (fun _ => 0) x + pend [] x) own m1 := by simpa [pend] using j
  obtain ⟨g', hg', est⟩ := Mgr.gc_flush hg
  refine ⟨g', hg', ?_⟩
  rw [est]
  exact Bfr.reorderBF_le j0 rd e fun F h => (hs F h).imp (Named.pres p) (Named.pres p)

/-- Window permutation ends, whatever the limits, unless after some exchanges a node is stuck that nothing outside the
unique tables refers to. -/
theorem C62_window_ends_partial (S : E.Sound) (R : Reachable E own false m) (hn : m.st.ord.numVars ≤ 46341)
    (ht : Tracked own m) (h2 : m.technique = 2) {b : Block} (hb : Block.SuperOK m.st.ord.numVars b) (L : Sift.Limits) :
    (∃ passes m' φ b', Df.reorderDF L passes { m with ca := m.ca.flush } [] b = some (m', φ, b')) ∨
      ∃ u d0 d, Df.enter { m with ca := m.ca.flush } [] = some (u, d0) ∧ Df.Exch d0 d ∧
        ∃ a, d.st.heap a ≠ none ∧ d.st.ref a = maxRef ∧
          ¬ ∃ s, m.ut.gc m.st = some (u, s) ∧ 0 < Mgr.roots { m with st := s, ut := u } (fun _ => 0) a := by
  obtain ⟨Γ, leak, hl, i⟩ := flush_inv (R.inv S)
  obtain rfl := hl rfl
  have i0 : Mgr.InvG Γ (fun x => (fun _ => 0) x + pend [] x) own { m with ca := m.ca.flush } := by
    simpa [pend] using i
  rcases Df.reorderDF_window_ends i0 (by simp) hn (Df.tracked_covered i ht) (fun _ => rfl) h2 hb L with h | h
  · exact Or.inl h
  · obtain ⟨u, d0, d, e1, x, a, h1, h2, h3⟩ := h
    exact Or.inr ⟨u, d0, d, e1, x, a, h1, h2, fun ⟨s, h4, h5⟩ => h3 ⟨s, h4, by simpa [pend, Mgr.roots, Mgr.rest] using h5⟩⟩

namespace Demo

/-- All stuck nodes are those of variables. -/
def stuckVarsB (m : Mgr) : Bool :=
  (List.range m.st.next).all fun a =>
    match m.st.heap a with
    | none => true
    | some n => m.st.ref a != maxRef || (n.thn == one && n.els == zero)

theorem stuckVarsB_ok {m m' : Mgr} (i : m'.Inv own false) (nv : m'.st.ord.numVars = m.st.ord.numVars)
    (h : stuckVarsB m' = true) {F} (hs : Stuck m' F) : Named own m F ∨ Named own m fun ρ => !F ρ := by
  obtain ⟨Γ, leak, -, i⟩ := i
  obtain ⟨a, n, hn, hr, r⟩ := hs
  have h1 := List.all_eq_true.1 h a (List.mem_range.2 (i.wf.heap_next a n hn))
  simp only [hn, hr, Bool.or_eq_true, bne_self_eq_false, Bool.and_eq_true, beq_iff_eq, Bool.false_eq_true,
    false_or] at h1
  obtain ⟨v, t, e⟩ := n
  obtain ⟨rfl, rfl⟩ := h1
  have hv := i.wf.var_range a _ hn
  refine Or.inl (.var hv.1 (by rw [← nv]; exact hv.2) (r.unique i.wf ?_))
  have := Rep.pos (s := m'.st) hn .one .zero
  simpa using this

/-- ac + bd in the order a, b, c, d. -/
def badScript : List Call :=
  [.newVarLast, .newVarLast, .newVarLast, .newVarLast, .and ⟨2, false⟩ ⟨4, false⟩, .and ⟨3, false⟩ ⟨5, false⟩,
    .or ⟨6, false⟩ ⟨7, false⟩, .free ⟨6, false⟩, .free ⟨7, false⟩, .dynamicReordering 1 1]

def badSess : Sess := go badScript (by decide +kernel)

theorem badReach : Reachable Env.plain badSess.own false badSess.m := by
  have h' : Reachable Env.plain badSess.own badSess.lk badSess.m := go_reachable badScript (by decide +kernel)
  rwa [show badSess.lk = false by decide +kernel] at h'

theorem badTracked : Tracked badSess.own badSess.m :=
  trackedB_ok (badReach.inv Env.plain_sound) (by decide +kernel)

def flat4 : Block := .mk (-1) 4 true [.mk 0 0 false [], .mk 1 1 false [], .mk 2 2 false [], .mk 3 3 false []]

theorem flat4_ok : Block.SuperOK 4 flat4 := by
  refine ⟨rfl, rfl, ?_, ?_⟩ <;>
    simp [flat4, Block.children_mk, Block.first_mk, Block.last_mk, Block.Parts, Block.OKL, Block.OK]

theorem badStuck : (Df.reorderDF limits 0 { badSess.m with ca := badSess.m.ca.flush } [] flat4).map
    (fun r => stuckVarsB r.1) = some true := by decide +kernel

/-- The same with the breadth-first method. -/
def badBfScript : List Call := badScript ++ [.dynamicReordering 1 0]

def badBf : Sess := go badBfScript (by decide +kernel)

theorem badBfReach : Reachable Env.plain badBf.own false badBf.m := by
  have h' : Reachable Env.plain badBf.own badBf.lk badBf.m :=
    go_reachable badBfScript (by decide +kernel)
  rwa [show badBf.lk = false by decide +kernel] at h'

theorem badBfTracked : Tracked badBf.own badBf.m :=
  trackedB_ok (badBfReach.inv Env.plain_sound) (by decide +kernel)

theorem badBfStuck : [bfPar, bfPar0].map (fun P => (bfRun P badBf.m).map fun m' => stuckVarsB m') =
    [some true, some true] := by decide +kernel

/-- The same with window permutation. -/
def badWindowScript : List Call := badScript ++ [.dynamicReordering 2 1]

def badWindow : Sess := go badWindowScript (by decide +kernel)

theorem badWindowReach : Reachable Env.plain badWindow.own false badWindow.m := by
  have h' : Reachable Env.plain badWindow.own badWindow.lk badWindow.m :=
    go_reachable badWindowScript (by decide +kernel)
  rwa [show badWindow.lk = false by decide +kernel] at h'

theorem badWindowTracked : Tracked badWindow.own badWindow.m :=
  trackedB_ok (badWindowReach.inv Env.plain_sound) (by decide +kernel)

theorem badWindowStuck : (Df.reorderDF limits 3 { badWindow.m with ca := badWindow.m.ca.flush } [] flat4).map
    (fun r => stuckVarsB r.1) = some true := by decide +kernel

end Demo

/-- Sifting. -/
example : ∃ m' φ b' g, Df.reorderDF Demo.limits 0 { Demo.badSess.m with ca := Demo.badSess.m.ca.flush } []
    Demo.flat4 = some (m', φ, b') ∧ Demo.badSess.m.gc = some g ∧ m'.st.numNodes ≤ g.st.numNodes := by
  obtain ⟨⟨m', φ, b'⟩, h, hs⟩ := Option.map_eq_some_iff.1 Demo.badStuck
  have hb : Block.SuperOK Demo.badSess.m.st.ord.numVars Demo.flat4 := by
    rw [show Demo.badSess.m.st.ord.numVars = 4 by decide +kernel]; exact Demo.flat4_ok
  obtain ⟨m2, φ2, b2, h2, K⟩ := C57_sift_partial Env.plain_sound Demo.badReach (by decide +kernel) Demo.badTracked
    (by decide +kernel) (by decide +kernel) hb Demo.limits 0
  rw [h] at h2; cases h2
  obtain ⟨g, hg, hle⟩ := C62_df_partial Env.plain_sound Demo.badReach (by decide +kernel) Demo.badTracked hb h
    fun F hF => Demo.stuckVarsB_ok K.inv K.vars hs hF
  exact ⟨m', φ, b', g, h, hg, hle⟩

example : Demo.badSess.m.gc.map (fun g => g.st.numNodes) = some 9 ∧
    (Df.reorderDF Demo.limits 0 { Demo.badSess.m with ca := Demo.badSess.m.ca.flush } [] Demo.flat4).map
      (fun r => r.1.st.numNodes) = some 8 := by decide +kernel

/-- Breadth-first sifting. -/
example : ∃ m1 m' φ g, ({ Demo.badBf.m with ca := Demo.badBf.m.ca.flush } : Mgr).gc = some m1 ∧
    Bfr.reorderBF Demo.bfPar m1 [] = some (m', φ) ∧ Demo.badBf.m.gc = some g ∧ m'.st.numNodes ≤ g.st.numNodes := by
  obtain ⟨m1, m', φ, h1, h2, K⟩ := C60_sift_partial Env.plain_sound Demo.badBfReach (by decide +kernel) Demo.badBfTracked
    (by decide +kernel) (by decide +kernel) Demo.bfPar
  have hs : Demo.stuckVarsB m' = true := by
    have := Demo.badBfStuck
    unfold Demo.bfRun at this
    simp only [List.map_cons, h1, h2, Option.map_some, List.cons.injEq, Option.some.injEq] at this
    exact this.1
  obtain ⟨g, hg, hle⟩ := C62_bf_partial Env.plain_sound Demo.badBfReach (by decide +kernel) Demo.badBfTracked
    (by decide +kernel) (by decide +kernel) h1 h2 fun F hF => Demo.stuckVarsB_ok K.inv K.vars hs hF
  exact ⟨m1, m', φ, g, h1, h2, hg, hle⟩

example : [Demo.bfPar, Demo.bfPar0].map (fun P => (Demo.bfRun P Demo.badBf.m).map fun m' => m'.st.numNodes) =
    [some 8, some 8] := by decide +kernel

/-- Window permutation. -/
example : ∃ m' φ b' g, Df.reorderDF Demo.limits 3 { Demo.badWindow.m with ca := Demo.badWindow.m.ca.flush } []
    Demo.flat4 = some (m', φ, b') ∧ Demo.badWindow.m.gc = some g ∧ m'.st.numNodes ≤ g.st.numNodes := by
  obtain ⟨⟨m', φ, b'⟩, h, hs⟩ := Option.map_eq_some_iff.1 Demo.badWindowStuck
  have hb : Block.SuperOK Demo.badWindow.m.st.ord.numVars Demo.flat4 := by
    rw [show Demo.badWindow.m.st.ord.numVars = 4 by decide +kernel]; exact Demo.flat4_ok
  have K := C57_window_partial Env.plain_sound Demo.badWindowReach (by decide +kernel) Demo.badWindowTracked
    (by decide +kernel) hb h
  obtain ⟨g, hg, hle⟩ := C62_df_partial Env.plain_sound Demo.badWindowReach (by decide +kernel) Demo.badWindowTracked hb h
    fun F hF => Demo.stuckVarsB_ok K.inv K.vars hs hF
  exact ⟨m', φ, b', g, h, hg, hle⟩

example : (Df.reorderDF Demo.limits 3 { Demo.badWindow.m with ca := Demo.badWindow.m.ca.flush } [] Demo.flat4).map
      (fun r => r.1.st.numNodes) = some 8 := by decide +kernel

example := C62_window_ends_partial Env.plain_sound Demo.badWindowReach (by decide +kernel) Demo.badWindowTracked
  (by decide +kernel) (b := Demo.flat4)
  (by rw [show Demo.badWindow.m.st.ord.numVars = 4 by decide +kernel]; exact Demo.flat4_ok) Demo.limits

end Cal
