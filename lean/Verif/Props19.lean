import Verif.Count
import Verif.Props18

/-!
# Properties, part 19: the number of nodes
-/

namespace Cal

variable {E E' : Env} {own own' : Nat → Nat} {lk lk' : Bool} {m m' : Mgr}

/-! ## C61 -/

/-- The functions for which a manager has to have nodes: those of the handles the user holds, the values of all
associations, and those that cannot be given up any more because the count of their node, or that of the user's
node for them, has reached the maximum. -/
inductive Holds (own : Nat → Nat) (m : Mgr) (F : BFn) : Prop
  | handle {h} (l : UTab.Live own h) (d : Den m h F)
  | assoc (h : AssocVal m F)
  | stuck (h : Stuck m F)
  | stuckUser {u} (h : m.ut.ref u = 255) (d : Den m ⟨u, false⟩ F)

/-- The manager has a BDD for `F`, whether or not anybody holds it. -/
def Has (m : Mgr) (F : BFn) : Prop := ∃ e, Rep m.st e F

/-- The number of nodes labelled with a variable. -/
def nodesOf (m : Mgr) (v : Nat) : Nat := (m.st.tab v).length

theorem nodesOf_spec (S : E.Sound) (R : Reachable E own lk m) (v : Nat) :
    ∃ l : List Nat, l.Nodup ∧ (∀ a, a ∈ l ↔ ∃ n, m.st.heap a = some n ∧ n.var = v) ∧ l.length = nodesOf m v := by
  obtain ⟨Γ, leak, -, i⟩ := R.inv S
  exact ⟨m.st.tab v, i.wf.tab_nodup v, i.wf.tab_iff v, rfl⟩

theorem Rep.grow {s s' : Store} (h : s.Shrink s') {e F} (r : Rep s' e F) : Rep s e F := by
  induction r with
  | one => exact .one
  | zero => exact .zero
  | pos hn _ _ ih1 ih2 => exact .pos (h.heap _ _ hn) ih1 ih2
  | neg hn _ _ ih1 ih2 => exact .neg (h.heap _ _ hn) ih1 ih2

theorem Mgr.assoc_of_mem {Γ leak} (i : m.InvG Γ leak own) {p} (hp : p ∈ m.assocs) : m.assoc p.a.id = some p.a := by
  have hfind := (Mgr.find_iff i.sorted (j := p.a.id)).2 ⟨hp, rfl⟩
  have hid : p.a.id ≠ -1 := by have := (i.assocs p hp).1.id0; omega
  unfold Mgr.assoc
  rw [if_neg hid, hfind]; rfl

/-- A manager in which all nodes have references has no more nodes than any other one with the same order that has
the functions it has to have. -/
theorem Mgr.InvG.least {Γ Γ' leak'} (i : m.InvG Γ (fun _ => 0) own) (i' : m'.InvG Γ' leak' own')
    (hu : ∀ a, m.ut.heap a ≠ none → m.ut.ref a ≠ 0) (hz : ∀ a, m.st.heap a ≠ none → m.st.ref a ≠ 0)
    (o : SameOrder m.st m'.st) (hh : ∀ F, Holds own m F → Has m' F) :
    (∀ v, nodesOf m v ≤ nodesOf m' v) ∧ m.st.numNodes ≤ m'.st.numNodes := by
  have fin : ∀ {e : Edge} {F}, m.st.heap e.addr ≠ none → Rep m.st e F → Has m' F → HasNode m.st m'.st e.addr := by
    rintro e F h0 r ⟨e', r'⟩
    exact HasNode.kid i.wf i'.wf o r r' (by intro h; rw [h, i.wf.heap0] at h0; exact h0 rfl)
  have hx : ∀ a, m.st.heap a ≠ none → 0 < m.roots (fun _ => 0) a ∨ m.st.ref a = maxRef → HasNode m.st m'.st a := by
    intro a ha hr
    rcases hr with hr | hr
    · by_cases h1 : 0 < m.ut.hits a
      · obtain ⟨u, -, hu'⟩ := sumTo_pos h1
        cases he : m.ut.heap u with
        | none => rw [he] at hu'; simp at hu'
        | some e =>
          rw [he] at hu'
          have hd := hits_pos hu'
          subst hd
          obtain ⟨F, rF⟩ := i.wf.rep_exists (i.uok u e he)
          have d : Den m ⟨u, false⟩ F := ⟨e, he, by simpa using rF⟩
          refine fin ha rF (hh F ?_)
          have hc := i.ut.cnt u (by rw [he]; simp)
          have h0 := hu u (by rw [he]; simp)
          by_cases h255 : m.ut.ref u = 255
          · exact .stuckUser h255 d
          · refine .handle (h := ⟨u, false⟩) (Or.inr ?_) d
            simp only [maxRef] at hc
            show 0 < own u
            omega
      by_cases h2 : 0 < tabHits m.vars m.st.ord.numVars a
      · obtain ⟨v, e, hr, hv, rfl⟩ := Df.tabHits_inv h2
        by_cases hrng : 1 ≤ v ∧ v ≤ m.st.ord.numVars
        · obtain ⟨b, hb, hn⟩ := i.var v hrng.1 hrng.2
          rw [hv] at hb; cases hb
          obtain ⟨b', hb', hn'⟩ := i'.var v hrng.1 (by rw [o.nv]; exact hrng.2)
          exact fin (e := ⟨v, b, false⟩) ha (Rep.pos (n := ⟨v, one, zero⟩) hn .one .zero)
            ⟨⟨v, b', false⟩, Rep.pos (n := ⟨v, one, zero⟩) hn' .one .zero⟩
        · rw [i.var0 v (by omega)] at hv; cases hv
      by_cases h3 : 0 < tabHits m.temp.var m.st.ord.numVars a
      · obtain ⟨v, e, -, hv, rfl⟩ := Df.tabHits_inv h3
        obtain ⟨F, rF⟩ := i.wf.rep_exists (i.temp.vals v e hv)
        exact fin ha rF (hh F (.assoc ⟨-1, m.temp, v, e, rfl, hv, rF⟩))
      have h4 : 0 < listHits m.assocs m.st.ord.numVars a := by
        simp only [Mgr.roots, Mgr.rest] at hr; omega
      obtain ⟨p, hp, h5⟩ := Df.listHits_inv h4
      obtain ⟨v, e, -, hv, rfl⟩ := Df.tabHits_inv h5
      obtain ⟨F, rF⟩ := i.wf.rep_exists ((i.assocs p hp).1.toAOK.vals v e hv)
      exact fin ha rF (hh F (.assoc ⟨p.a.id, p.a, v, e, Mgr.assoc_of_mem i hp, hv, rF⟩))
    · cases hn : m.st.heap a with
      | none => exact absurd hn ha
      | some n =>
        obtain ⟨F, rF⟩ := i.wf.rep_exists (e := ⟨n.var, a, false⟩) (Or.inr ⟨n, hn, rfl⟩)
        exact fin (e := ⟨n.var, a, false⟩) ha rF (hh F (.stuck ⟨a, n, hn, hr, rF⟩))
  exact ⟨tab_le i.wf i'.wf o i.ref hz hx, num_le i.wf i'.wf o i.ref hz hx i.num i'.num⟩

/-- What garbage collection leaves. -/
theorem Mgr.InvG.gc_holds {Γ g} (i : m.InvG Γ (fun _ => 0) own) (h : m.gc = some g) : g.InvG Γ (fun _ => 0) own ∧
    (∀ a, g.ut.heap a ≠ none → g.ut.ref a ≠ 0) ∧ (∀ a, g.st.heap a ≠ none → g.st.ref a ≠ 0) ∧
    g.st.ord = m.st.ord ∧ (∀ F, Holds own g F → Holds own m F) ∧ (∀ F, Holds own m F → Holds own g F) := by
  obtain ⟨m1, h1, i1, p, -, -, -, sh, -, hu, hz, -⟩ := i.gc
  rw [h] at h1; cases h1
  obtain ⟨f, r, us, uk, hv, has, ht⟩ := Mgr.gc_fades h
  have assocEq : ∀ j, g.assoc j = m.assoc j := by intro j; unfold Mgr.assoc; rw [has, ht]
  refine ⟨i1, hu, hz, sh.ord, ?_, ?_⟩
  · intro F hF
    cases hF with
    | handle l d =>
      obtain ⟨e, he, re⟩ := d
      exact .handle l ⟨e, us _ _ he, re.grow sh⟩
    | assoc hA =>
      obtain ⟨j, A, v, e, h1, h2, re⟩ := hA
      exact .assoc ⟨j, A, v, e, by rw [← assocEq]; exact h1, h2, re.grow sh⟩
    | stuck hS =>
      obtain ⟨a, n, hn, hr, re⟩ := hS
      refine .stuck ⟨a, n, sh.heap _ _ hn, ?_, re.grow sh⟩
      have h1 := f.le a
      have h2 := i.ref.le a (by rw [sh.heap _ _ hn]; simp)
      simp only [maxRef] at *
      omega
    | stuckUser hr d =>
      obtain ⟨e, he, re⟩ := d
      exact .stuckUser (by rw [← r]; exact hr) ⟨e, us _ _ he, re.grow sh⟩
  · intro F hF
    cases hF with
    | handle l d => exact .handle l (p.fns _ l F d)
    | assoc hA =>
      obtain ⟨j, A, v, e, h1, h2, re⟩ := hA
      refine .assoc ⟨j, A, v, e, by rw [assocEq]; exact h1, h2, sh.rep i.wf i1.wf re ?_⟩
      exact (i1.assoc_aok (j := j) (by rw [assocEq]; exact h1)).vals v e h2
    | stuck hS =>
      obtain ⟨a, n, hn, hr, re⟩ := hS
      have := f.stuck a hr
      have hn' : g.st.heap a = some n := by rw [this.2]; exact hn
      exact .stuck ⟨a, n, hn', this.1, sh.rep i.wf i1.wf re (Or.inr ⟨n, hn', rfl⟩)⟩
    | stuckUser hr d =>
      rename_i u
      obtain ⟨e, he, re⟩ := d
      have he' : g.ut.heap u = some e := by rw [uk u (by rw [hr]; decide)]; exact he
      refine .stuckUser (by rw [r]; exact hr) ⟨e, he', sh.rep i.wf i1.wf re ?_⟩
      simpa using i1.uok _ _ he'

/-- Garbage collection reaches the smallest number of nodes there is for the order: no reachable state of any
manager with the same order that has BDDs for the functions held has fewer nodes, in total or for a variable. -/
theorem C61_least (S : E.Sound) (S' : E'.Sound) (R : Reachable E own false m) (R' : Reachable E' own' lk' m')
    (o : SameOrder m.st m'.st) (hh : ∀ F, Holds own m F → Has m' F) :
    ∃ g, m.gc = some g ∧ (∀ v, nodesOf g v ≤ nodesOf m' v) ∧ g.st.numNodes ≤ m'.st.numNodes := by
  obtain ⟨Γ, leak, hl, i⟩ := R.inv S
  obtain rfl := hl rfl
  obtain ⟨Γ', leak', -, i'⟩ := R'.inv S'
  obtain ⟨g, hg, -⟩ := i.gc
  obtain ⟨ig, hu, hz, ho, hd, -⟩ := i.gc_holds hg
  exact ⟨g, hg, ig.least i' hu hz ⟨by rw [ho]; exact o.nv, by rw [ho]; exact o.lvl⟩ fun F hF => hh F (hd F hF)⟩

/-- Two managers with the same order that hold the same functions up to complements have the same number of nodes
after garbage collection, in total and for each variable, whatever calls led to them. -/
theorem C61_same (S : E.Sound) (S' : E'.Sound) (R : Reachable E own false m) (R' : Reachable E' own' false m')
    (o : SameOrder m.st m'.st)
    (h : ∀ F, Holds own m F → Holds own' m' F ∨ Holds own' m' (fun ρ => !F ρ))
    (h' : ∀ F, Holds own' m' F → Holds own m F ∨ Holds own m (fun ρ => !F ρ)) :
    ∃ g g', m.gc = some g ∧ m'.gc = some g' ∧ (∀ v, nodesOf g v = nodesOf g' v) ∧
      g.st.numNodes = g'.st.numNodes := by
  obtain ⟨Γ, leak, hl, i⟩ := R.inv S
  obtain rfl := hl rfl
  obtain ⟨Γ', leak', hl', i'⟩ := R'.inv S'
  obtain rfl := hl' rfl
  obtain ⟨g, hg, -⟩ := i.gc
  obtain ⟨g', hg', -⟩ := i'.gc
  obtain ⟨ig, hu, hz, ho, hd, hk⟩ := i.gc_holds hg
  obtain ⟨ig', hu', hz', ho', hd', hk'⟩ := i'.gc_holds hg'
  have og : SameOrder g.st g'.st := ⟨by rw [ho, ho']; exact o.nv, by rw [ho, ho']; exact o.lvl⟩
  have has : ∀ {own m F}, Holds own m F → Has m F := by
    intro own m F hF
    cases hF with
    | handle l d => obtain ⟨e, -, r⟩ := d; exact ⟨_, r⟩
    | assoc hA => obtain ⟨j, A, v, e, -, -, r⟩ := hA; exact ⟨_, r⟩
    | stuck hS => obtain ⟨a, n, -, -, r⟩ := hS; exact ⟨_, r⟩
    | stuckUser _ d => obtain ⟨e, -, r⟩ := d; exact ⟨_, r⟩
  have hasN : ∀ {own m F}, Holds own m F ∨ Holds own m (fun ρ => !F ρ) → Has m F := by
    rintro own m F (hF | hF)
    · exact has hF
    · obtain ⟨e, r⟩ := has hF
      exact ⟨e.not, by simpa using r.not⟩
  have l1 := ig.least ig' hu hz og fun F hF => hasN ((h F (hd F hF)).imp (hk' _) (hk' _))
  have l2 := ig'.least ig hu' hz' og.symm fun F hF => hasN ((h' F (hd' F hF)).imp (hk _) (hk _))
  exact ⟨g, g', hg, hg', fun v => Nat.le_antisymm (l1.1 v) (l2.1 v), Nat.le_antisymm l1.2 l2.2⟩

/-! ### A check for the hypotheses -/

namespace Demo

/-- the edges behind `Holds` -/
def heldEdges (own : Nat → Nat) (m : Mgr) : List Edge :=
  (m.ut.tab.filter fun u => u == 1 || decide (0 < own u) || m.ut.ref u == 255).filterMap m.ut.heap ++
  (m.assocs.map fun p => (List.range (m.st.ord.numVars + 1)).filterMap p.a.var).flatten ++
  (List.range (m.st.ord.numVars + 1)).filterMap m.temp.var ++
  ((List.range m.st.next).filter fun a => m.st.ref a == maxRef).filterMap fun a =>
    (m.st.heap a).map fun n => ⟨n.var, a, false⟩

theorem heldEdges_ok {own Γ leak} {m : Mgr} (i : m.InvG Γ leak own) {F} (h : Holds own m F) :
    ∃ e ∈ heldEdges own m, Rep m.st e F ∨ Rep m.st e fun ρ => !F ρ := by
  have ph : ∀ {e : Edge} {b}, Rep m.st (e.phase b) F → Rep m.st e F ∨ Rep m.st e fun ρ => !F ρ := by
    intro e b r
    cases b with
    | false => left; simpa using r
    | true =>
      right
      have := r.not
      rwa [show (e.phase true).not = e by cases e; simp [Edge.phase, Edge.not]] at this
  have us : ∀ {u e}, m.ut.heap u = some e → (u = 1 ∨ 0 < own u) ∨ m.ut.ref u = 255 → e ∈ heldEdges own m := by
    intro u e he hl
    unfold heldEdges
    simp only [List.mem_append, List.mem_filterMap, List.mem_filter]
    refine Or.inl (Or.inl (Or.inl ⟨u, ⟨(i.ut.tab_iff u).2 (by rw [he]; simp), ?_⟩, he⟩))
    simpa [Bool.or_eq_true] using hl
  cases h with
  | handle l d =>
    obtain ⟨e, he, r⟩ := d
    exact ⟨e, us he (Or.inl l), ph r⟩
  | stuckUser hr d =>
    obtain ⟨e, he, r⟩ := d
    exact ⟨e, us he (Or.inr hr), ph r⟩
  | assoc hA =>
    obtain ⟨j, A, v, e, hA, hv, r⟩ := hA
    refine ⟨e, ?_, Or.inl r⟩
    have hrg := (i.assoc_aok hA).ok.rng v (by unfold Assoc.dom; rw [hv]; rfl)
    unfold heldEdges
    simp only [List.mem_append, List.mem_filterMap, List.mem_flatten, List.mem_map, List.mem_range]
    unfold Mgr.assoc at hA
    split at hA
    · cases hA
      exact Or.inl (Or.inr ⟨v, by omega, hv⟩)
    · cases hf : m.assocs.find? fun p => p.a.id == j with
      | none => rw [hf] at hA; cases hA
      | some p =>
        rw [hf] at hA; cases hA
        refine Or.inl (Or.inl (Or.inr ⟨_, ⟨p, List.mem_of_find?_eq_some hf, rfl⟩, ?_⟩))
        simp only [List.mem_filterMap, List.mem_range]
        exact ⟨v, by omega, hv⟩
  | stuck hS =>
    obtain ⟨a, n, hn, hr, r⟩ := hS
    refine ⟨⟨n.var, a, false⟩, ?_, Or.inl r⟩
    unfold heldEdges
    simp only [List.mem_append, List.mem_filterMap, List.mem_filter, List.mem_range]
    exact Or.inr ⟨a, ⟨i.wf.heap_next a n hn, by simpa using hr⟩, by rw [hn]; rfl⟩

/-- All that is held in one state belongs, up to complements, to handles held in the other. -/
def holdsB (own : Nat → Nat) (m : Mgr) (own' : Nat → Nat) (m' : Mgr) : Bool :=
  (heldEdges own m).all fun e => match tree m.st 8 e with
    | none => false
    | some T => (m'.ut.tab.filter fun u => u == 1 || decide (0 < own' u)).any fun u => match m'.ut.heap u with
      | none => false
      | some e' => tree m'.st 8 e' == some T || tree m'.st 8 e'.not == some T

theorem holdsB_ok {own own' Γ leak} {m m' : Mgr} (i : m.InvG Γ leak own)
    (h : holdsB own m own' m' = true) (F : BFn) (hF : Holds own m F) :
    Holds own' m' F ∨ Holds own' m' fun ρ => !F ρ := by
  obtain ⟨e, he, hr⟩ := heldEdges_ok i hF
  have h1 := List.all_eq_true.1 h e he
  split at h1
  · cases h1
  · rename_i T hT
    have rT := tree_rep _ hT
    have hT' : F = T.fn ∨ (fun ρ => !F ρ) = T.fn := hr.imp (fun r => r.unique i.wf rT) (fun r => r.unique i.wf rT)
    obtain ⟨u, hu, h2⟩ := List.any_eq_true.1 h1
    simp only [List.mem_filter, Bool.or_eq_true, beq_iff_eq, decide_eq_true_eq] at hu
    split at h2
    · cases h2
    · rename_i e' he'
      simp only [Bool.or_eq_true, beq_iff_eq] at h2
      have key : ∀ {G}, G = T.fn → Holds own' m' G := by
        rintro G rfl
        rcases h2 with h2 | h2
        · exact .handle (h := ⟨u, false⟩) hu.2 ⟨e', he', by simpa using tree_rep _ h2⟩
        · refine .handle (h := ⟨u, true⟩) hu.2 ⟨e', he', ?_⟩
          have := tree_rep _ h2
          rwa [show e'.not = e'.phase true by cases e'; simp [Edge.phase, Edge.not]] at this
      exact hT'.imp key key

/-- the functions of `Demo.script`, reached in another way: `(a ∧ b) ∨ c` is computed as `¬(¬c ∧ ¬(b ∧ a))`, and
there is an exclusive or before it that is dropped again -/
def otherScript : List Call :=
  [.newVarLast, .newVarLast, .newVarLast, .xor ⟨4, false⟩ ⟨2, false⟩, .and ⟨3, false⟩ ⟨2, false⟩,
   .and ⟨4, true⟩ ⟨6, true⟩, .free ⟨5, false⟩]
theorem otherScript_runs : (run Env.plain start otherScript).isSome = true := by decide +kernel
def other : Sess := go otherScript otherScript_runs
theorem otherReach : Reachable Env.plain other.own other.lk other.m := go_reachable otherScript otherScript_runs

theorem other_order : SameOrder sess.m.st other.m.st :=
  ⟨by decide +kernel, fun v hv => by
    have hv : v ≤ 3 := by have : sess.m.st.ord.numVars = 3 := by decide +kernel
                          omega
    have : v = 0 ∨ v = 1 ∨ v = 2 ∨ v = 3 := by omega
    rcases this with rfl | rfl | rfl | rfl <;> decide +kernel⟩

end Demo

example : ∃ g g', Demo.sess.m.gc = some g ∧ Demo.other.m.gc = some g' ∧ (∀ v, nodesOf g v = nodesOf g' v) ∧
    g.st.numNodes = g'.st.numNodes := by
  have R := Demo.reach0
  have R' : Reachable Env.plain Demo.other.own false Demo.other.m := by
    have := Demo.otherReach
    rwa [show Demo.other.lk = false by decide +kernel] at this
  obtain ⟨Γ, leak, -, i⟩ := R.inv Env.plain_sound
  obtain ⟨Γ', leak', -, i'⟩ := R'.inv Env.plain_sound
  exact C61_same Env.plain_sound Env.plain_sound R R' Demo.other_order (Demo.holdsB_ok i (by decide +kernel))
    (Demo.holdsB_ok i' (by decide +kernel))
/-- before the collections the numbers differ -/
example : (Demo.sess.m.st.numNodes, Demo.other.m.st.numNodes,
    Demo.other.m.gc.map fun g => (g.st.numNodes, nodesOf g 1, nodesOf g 2)) = (7, 8, some (7, 3, 2)) := by
  decide +kernel

end Cal
