import Verif.DfEnv
import Verif.Demo

/-!
# Properties, part 15: depth-first reordering as a whole
-/

namespace Cal

variable {E : Env} {own : Nat → Nat} {lk : Bool} {m : Mgr}

/-! ## C40 -/

/-- A node of `x` has an edge to a node of `y`. -/
def EdgeBetween (s : Store) (x y : Nat) : Prop :=
  ∃ a n b k, s.heap a = some n ∧ n.var = x ∧ (n.thn.addr = b ∨ n.els.addr = b) ∧ s.heap b = some k ∧ k.var = y

/-- The states that a sequence of exchanges leads to. -/
inductive Exchanges (d0 : Df.St) : Df.St → Prop
  | refl : Exchanges d0 d0
  | step {d d'} (x : Nat) (h : Exchanges d0 d) (e : Df.exchange d x = some d') : Exchanges d0 d'

theorem Exchanges.rinv {ext : Nat → Nat} {δ0 : Nat → BFn} {d0 d : Df.St} (I : Df.RInv ext δ0 d0 d0)
    (h : Exchanges d0 d) : Df.RInv ext δ0 d0 d := by
  induction h with
  | refl => exact I
  | @step d d' x _ e ih =>
    have e' := e
    unfold Df.exchange at e'
    simp only at e'
    split at e'
    · rename_i hc
      have hx : d.st.ord.indexToId (d.st.ord.idToIndex x) = x := ih.inv.w.ord.left x hc.1 hc.2.1
      obtain ⟨d1, h1, h2, -⟩ := ih.exchange hc.2.2
      rw [hx, e] at h1
      cases h1; exact h2
    · cases e'

/-- The matrix with which reordering begins: two variables interact in it exactly if some BDD in the table of
user BDDs that has references depends on both. -/
theorem C40_matrix (S : E.Sound) (R : Reachable E own lk m) (hn : m.st.ord.numVars ≤ 46341) :
    ∃ u s mat, m.ut.gc m.st = some (u, s) ∧ Interact.initInteract s (Df.userBdds u) = some mat ∧
      ∀ x y, 1 ≤ x → x ≤ m.st.ord.numVars → 1 ≤ y → y ≤ m.st.ord.numVars → x ≠ y →
        ∃ b, Interact.test m.st.ord.numVars mat x y = some b ∧
          (b = true ↔ ∃ h G, m.ut.ref h.addr ≠ 0 ∧ Den m h G ∧ DependsOnBoth G x y) := by
  obtain ⟨Γ, leak, -, i⟩ := R.inv S
  obtain ⟨u, s, hg, G⟩ := UTab.gcList_spec (rest := m.rest leak) m.ut.tab m.ut m.st i.ut i.uok
    (fun a ha => (i.ut.tab_iff a).1 ha) i.ut.tab_nodup i.ref
  have hsame : m.st.Same s := ⟨G.ord, G.heap, G.tab, G.free, G.next, G.num⟩
  have i1 : Mgr.InvG Γ leak own { m with st := s, ut := u } :=
    i.users hsame G.ok (fun a e h => i.uok a e (G.sub a e h)) G.ref
  have w : s.WF := i1.wf
  have hnv : s.ord.numVars = m.st.ord.numVars := by rw [G.ord]
  obtain ⟨mat, hm, hmat⟩ := Interact.initInteract_ok w (by rw [hnv]; exact hn) (fs := Df.userBdds u) (by
    intro f hf
    obtain ⟨x, hx⟩ := (Df.mem_userBdds G.ok).1 hf
    exact i1.uok x f hx)
  refine ⟨u, s, mat, hg, hm, fun x y x1 x2 y1 y2 hxy => ?_⟩
  rw [hnv] at hmat
  obtain ⟨b, hb, hb'⟩ := hmat x y x1 x2 y1 y2 hxy
  refine ⟨b, hb, hb'.trans ⟨?_, ?_⟩⟩
  · rintro ⟨f, hf, hd⟩
    obtain ⟨a, ha⟩ := (Df.mem_userBdds G.ok).1 hf
    have hma := G.sub a f ha
    obtain ⟨δ, l⟩ := i.wf.exists_lab
    have rf := l.rep i.wf (i.uok a f hma)
    refine ⟨⟨a, false⟩, den δ f, ?_, ⟨f, hma, by rw [Edge.phase_false]; exact rf⟩,
      (Df.both_iff w (rf.mono hsame.le) (by omega) (by omega)).1 hd⟩
    intro h0
    exact G.done a ((i.ut.tab_iff a).2 (by rw [hma]; simp)) (by rw [ha]; simp) h0
  · rintro ⟨h, K, h0, ⟨e, he, re⟩, hd⟩
    have hu := G.kept h.addr e he h0
    refine ⟨e, (Df.mem_userBdds G.ok).2 ⟨_, hu⟩, ?_⟩
    obtain ⟨δ, l⟩ := i.wf.exists_lab
    have rf := l.rep i.wf (i.uok _ e he)
    rw [Df.both_iff w (rf.mono hsame.le) (by omega) (by omega)]
    have := re.unique i.wf (l.rep i.wf re.eok)
    rw [this] at hd
    unfold DependsOnBoth at hd
    unfold Df.Dep2
    rw [Df.indep_den] at hd ⊢
    rw [Df.indep_den] at hd ⊢
    exact hd

/-- The shortcut of `BddExchange`: whenever, after any number of exchanges, the matrix says that `x` and the
variable `y` below it do not interact, no node of `x` has an edge to a node of `y`.

Partial: it is assumed that what associations keep (and nodes with stuck counts) depends only on pairs of
variables on which some BDD that the user holds depends (`Tracked`), and that there are at most 46341 variables.
Without the first assumption it is false, see `C40_violated`; for the second see `C41_violated`. -/
theorem C40_shortcut_partial (S : E.Sound) (R : Reachable E own false m) (hn : m.st.ord.numVars ≤ 46341)
    (ht : Tracked own m) :
    ∃ u d0, Df.enter m [] = some (u, d0) ∧ ∀ d, Exchanges d0 d → ∀ i, i + 1 < m.st.ord.numVars →
      ∃ b, Interact.test m.st.ord.numVars d.mat (d.st.ord.indexToId i) (d.st.ord.indexToId (i + 1)) = some b ∧
        (b = false → ¬ EdgeBetween d.st (d.st.ord.indexToId i) (d.st.ord.indexToId (i + 1))) := by
  obtain ⟨Γ, leak, hl, i⟩ := R.inv S
  obtain rfl := hl rfl
  have i0 : Mgr.InvG Γ (fun x => (fun _ => 0) x + pend [] x) own m := by simpa [pend] using i
  obtain ⟨u, s, d0, δ0, e, St⟩ := Df.start_ok i0 (by simp) hn (Df.tracked_covered i ht)
  refine ⟨u, d0, e, fun d hd k hk => ?_⟩
  have I := hd.rinv (Df.RInv.start St.d St.lab)
  have hnv : d.st.ord.numVars = m.st.ord.numVars := by rw [I.nv, St.dord]
  have w := I.inv.w
  have r1 := w.ord.id_range k (by omega)
  have r2 := w.ord.id_range (k + 1) (by omega)
  have hne : d.st.ord.indexToId k ≠ d.st.ord.indexToId (k + 1) := by
    intro h
    have h1 := w.ord.right k (by omega)
    have h2 := w.ord.right (k + 1) (by omega)
    rw [h] at h1; omega
  obtain ⟨b, hb, hb'⟩ := I.inv.cov _ _ r1.1 r1.2 r2.1 r2.2 hne
  rw [hnv] at hb
  refine ⟨b, hb, fun h => ?_⟩
  rintro ⟨a, n, c, j, hn, hv, hc, hj, hjv⟩
  obtain ⟨δ, l⟩ := w.exists_lab
  have hy : Df.HasY d.st (d.st.ord.indexToId (k + 1)) n := by
    rcases hc with hc | hc
    · exact Or.inl ⟨j, by rw [hc]; exact hj, hjv⟩
    · exact Or.inr ⟨j, by rw [hc]; exact hj, hjv⟩
  rcases hb' h δ l a n hn with h1 | h1
  · exact Df.dep_self w l hn (by rw [hv]; exact h1)
  · exact Df.dep_kid w l hn hy h1

namespace Demo

/-- Three variables a, b, c; `b ∧ c`, held only by an association of a. -/
def lostScript : List Call :=
  [.newVarLast, .newVarLast, .newVarLast, .and ⟨3, false⟩ ⟨4, false⟩,
    .associationInit [⟨2, false⟩, ⟨5, false⟩] true, .free ⟨5, false⟩, .dynamicReordering 1 1]

/-- Three variables without blocks of their own. -/
def flat3 : Block := .mk (-1) 3 true [.mk 0 0 false [], .mk 1 1 false [], .mk 2 2 false []]

theorem flat3_ok : Block.SuperOK 3 flat3 := by
  refine ⟨rfl, rfl, ?_, ?_⟩ <;>
    simp [flat3, Block.children_mk, Block.first_mk, Block.last_mk, Block.Parts, Block.OKL, Block.OK]

/-- The limits that `Cal_BddManagerInit` (calBddManager.c:139-282) sets: growth by a factor of 2, 1000 blocks, 2000000 swaps. -/
def limits : Sift.Limits := ⟨fun s => 2 * s, 1000, 2000000⟩

/-- The value of an association for a variable. -/
def assocEdge (m : Mgr) (j : Int) (v : Nat) : Option Edge :=
  match m.assoc j with
  | none => none
  | some A => A.var v

def lostB (s : Sess) : Bool :=
  s.lk == false && s.m.st.ord.numVars == 3 && s.m.method == 1 && s.m.technique == 1 &&
  (match assocEdge s.m 0 1 with
    | none => false
    | some e => tree s.m.st 4 e == some (.node 2 (.node 3 (.leaf true) (.leaf false)) (.leaf false))) &&
  (match Df.enter s.m [] with
    | none => false
    | some (_, d) =>
      d.st.ord.indexToId 1 == 2 && d.st.ord.indexToId 2 == 3 && Interact.test 3 d.mat 2 3 == some false &&
      (match d.st.heap 4 with
        | none => false
        | some n => n.var == 2 && n.thn.addr == 3) &&
      (match d.st.heap 3 with
        | none => false
        | some n => n.var == 3)) &&
  (match Df.reorderDF limits 0 { s.m with ca := s.m.ca.flush } [] flat3 with
    | none => false
    | some (m', _, _) =>
      match assocEdge m' 0 1 with
      | none => false
      | some e =>
        match m'.st.heap e.addr with
        | none => false
        | some n => (m'.st.heap 0).isNone && decide (n.thn.addr ≠ 0) && (m'.st.heap n.thn.addr).isNone)

theorem lost : checks lostScript lostB = true := by decide +kernel

end Demo

theorem no_rep {s : Store} {e : Edge} {n} (h0 : s.heap 0 = none) (h : s.heap e.addr = some n) (h1 : n.thn.addr ≠ 0)
    (h2 : s.heap n.thn.addr = none) (F : BFn) : ¬ Rep s e F := by
  have kid : ∀ G, ¬ Rep s n.thn G := by
    intro G r
    generalize hk : n.thn = k at r
    rw [hk] at h1 h2
    cases r with
    | one => exact h1 rfl
    | zero => exact h1 rfl
    | pos h' _ _ => rw [h2] at h'; cases h'
    | neg h' _ _ => rw [h2] at h'; cases h'
  intro r
  cases r with
  | one => have := h0.symm.trans h; cases this
  | zero => have := h0.symm.trans h; cases this
  | pos h' rt _ => rw [h] at h'; cases h'; exact kid _ rt
  | neg h' rt _ => rw [h] at h'; cases h'; exact kid _ rt

/-- It is false in general, also without any leaks: take variables a, b, c, let an association map a to `b ∧ c`,
and free `b ∧ c`. The association keeps it alive, and its node has an edge from b to c. But the matrix says that
b and c do not interact. Sifting then exchanges b and c by the shortcut; at the end the node of `b ∧ c` that the
association refers to has an edge to a node that does not exist: the association's value is no BDD. -/
theorem C40_violated : ∃ own m, Reachable Env.plain own false m ∧ m.st.ord.numVars = 3 ∧ m.technique = 1 ∧
    m.method = 1 ∧ AssocVal m (fun ρ => ρ 2 && ρ 3) ∧
    (∃ u d0, Df.enter m [] = some (u, d0) ∧ d0.st.ord.indexToId 1 = 2 ∧ d0.st.ord.indexToId 2 = 3 ∧
      Interact.test 3 d0.mat 2 3 = some false ∧ EdgeBetween d0.st 2 3) ∧
    Block.SuperOK 3 Demo.flat3 ∧
    ∃ m' φ b', Df.reorderDF Demo.limits 0 { m with ca := m.ca.flush } [] Demo.flat3 = some (m', φ, b') ∧
      ∃ A e, m'.assoc 0 = some A ∧ A.var 1 = some e ∧ ∀ F, ¬ Rep m'.st e F := by
  obtain ⟨s, R, h⟩ := Demo.witness Demo.lost
  unfold Demo.lostB at h
  simp only [Bool.and_eq_true, beq_iff_eq] at h
  obtain ⟨⟨⟨⟨⟨⟨hlk, hnv⟩, hmeth⟩, htech⟩, hval⟩, hent⟩, hre⟩ := h
  rw [hlk] at R
  refine ⟨s.own, s.m, R, hnv, htech, hmeth, ?_, ?_, Demo.flat3_ok, ?_⟩
  · split at hval
    · cases hval
    · rename_i e he
      unfold Demo.assocEdge at he
      split at he
      · cases he
      · rename_i A hA
        have := Demo.tree_rep _ (by simpa using hval)
        refine ⟨0, A, 1, e, hA, he, (congrArg (Rep _ _) ?_).mp this⟩
        funext ρ
        simp only [Demo.Tree.fn]
        cases ρ 2 <;> cases ρ 3 <;> rfl
  · split at hent
    · cases hent
    · rename_i u d he
      simp only [Bool.and_eq_true, beq_iff_eq] at hent
      obtain ⟨⟨⟨⟨h1, h2⟩, h3⟩, h4⟩, h5⟩ := hent
      refine ⟨u, d, he, h1, h2, h3, ?_⟩
      split at h4
      · cases h4
      · rename_i n hn
        split at h5
        · cases h5
        · rename_i k hk
          simp only [Bool.and_eq_true, beq_iff_eq] at h4 h5
          exact ⟨4, n, 3, k, hn, h4.1, Or.inl h4.2, hk, h5⟩
  · split at hre
    · cases hre
    · rename_i m' φ b' he
      refine ⟨m', φ, b', he, ?_⟩
      split at hre
      · cases hre
      · rename_i e hx
        unfold Demo.assocEdge at hx
        split at hx
        · cases hx
        · rename_i A hA
          refine ⟨A, e, hA, hx, ?_⟩
          split at hre
          · cases hre
          · rename_i n hn
            simp only [Bool.and_eq_true, decide_eq_true_eq, Option.isNone_iff_eq_none] at hre
            exact no_rep hre.1.1 hn hre.1.2 hre.2

/-! ### A check for `Tracked` -/

namespace Demo

/-- Every node that an association holds or whose count is stuck is a variable's, or is the node of a handle the
user holds. -/
def trackedB (own : Nat → Nat) (m : Mgr) : Bool :=
  (List.range m.st.next).all fun a =>
    match m.st.heap a with
    | none => true
    | some n =>
      (n.thn.addr == 0 && n.els.addr == 0) ||
      (decide (m.st.ref a ≠ maxRef) && m.assocs.all (fun p => (List.range (m.st.ord.numVars + 1)).all fun v =>
          match p.a.var v with | none => true | some e => decide (e.addr ≠ a)) &&
        (List.range (m.st.ord.numVars + 1)).all fun v =>
          match m.temp.var v with | none => true | some e => decide (e.addr ≠ a)) ||
      m.ut.tab.any fun x => decide (0 < own x) &&
        match m.ut.heap x with | none => false | some e => decide (e.addr = a)

theorem trackedB_ok {own lk} {m : Mgr} (i : m.Inv own lk) (h : trackedB own m = true) : Tracked own m := by
  obtain ⟨Γ, leak, -, i⟩ := i
  have key : ∀ a n, m.st.heap a = some n →
      (m.st.ref a = maxRef ∨ (∃ j A v e, m.assoc j = some A ∧ A.var v = some e ∧ e.addr = a)) →
      (n.thn.addr = 0 ∧ n.els.addr = 0) ∨ ∃ x e, 0 < own x ∧ m.ut.heap x = some e ∧ e.addr = a := by
    intro a n hn hr
    have h1 := List.all_eq_true.1 h a (List.mem_range.2 (i.wf.heap_next a n hn))
    simp only [hn, Bool.or_eq_true, Bool.and_eq_true, beq_iff_eq, decide_eq_true_eq] at h1
    rcases h1 with (h1 | ⟨⟨h1, h2⟩, h3⟩) | h1
    · exact Or.inl h1
    · exfalso
      rcases hr with hr | ⟨j, A, v, e, hA, hv, he⟩
      · exact h1 hr
      · have hrg := (i.assoc_aok hA).ok.rng v (by unfold Assoc.dom; rw [hv]; rfl)
        unfold Mgr.assoc at hA
        split at hA
        · cases hA
          have := List.all_eq_true.1 h3 v (List.mem_range.2 (by omega))
          simp [hv, he] at this
        · cases hf : m.assocs.find? fun p => p.a.id == j with
          | none => rw [hf] at hA; cases hA
          | some p =>
            rw [hf] at hA; cases hA
            have := List.all_eq_true.1 h2 p (List.mem_of_find?_eq_some hf)
            have := List.all_eq_true.1 this v (List.mem_range.2 (by omega))
            simp [hv, he] at this
    · right
      obtain ⟨x, -, h2⟩ := List.any_eq_true.1 h1
      simp only [Bool.and_eq_true, decide_eq_true_eq] at h2
      obtain ⟨h2, h3⟩ := h2
      split at h3
      · cases h3
      · rename_i e he
        exact ⟨x, e, h2, he, by simpa using h3⟩
  obtain ⟨δ, l⟩ := i.wf.exists_lab
  have fin : ∀ F e, Rep m.st e F → (m.st.heap e.addr ≠ none → m.st.ref e.addr = maxRef ∨
      (∃ j A v e', m.assoc j = some A ∧ A.var v = some e' ∧ e'.addr = e.addr)) →
      ∀ x y, x ≠ y → DependsOnBoth F x y → ∃ h G, UTab.Live own h ∧ Den m h G ∧ DependsOnBoth G x y := by
    intro F e r hr x y hxy hd
    have hF := r.unique i.wf (l.rep i.wf r.eok)
    rw [hF] at hd
    unfold DependsOnBoth at hd ⊢
    simp only [Df.indep_den] at hd
    cases hn : m.st.heap e.addr with
    | none =>
      exfalso
      rcases r.eok with h0 | ⟨n, h0, -⟩
      · apply hd.1
        rw [h0.2, l.const]
        intro ρ b; rfl
      · rw [hn] at h0; cases h0
    | some n =>
      rcases key e.addr n hn (hr (by rw [hn]; simp)) with ⟨h1, h2⟩ | ⟨x', e', h1, h2, h3⟩
      · exfalso
        have hl := l.node e.addr n hn
        have : ∀ z, ¬ Indep (δ e.addr) z → z = n.var := by
          intro z hz
          apply Classical.byContradiction
          intro hne
          apply hz
          intro ρ b
          rw [hl, hl]
          simp only [den, h1, h2, l.const, upd_ne ρ b (show n.var ≠ z from fun h => hne h.symm)]
        exact hxy ((this x hd.1).trans (this y hd.2).symm)
      · refine ⟨⟨x', false⟩, den δ e', Or.inr h1, ⟨e', h2, ?_⟩, ?_⟩
        · rw [Edge.phase_false]; exact l.rep i.wf (i.uok _ _ h2)
        · simp only [Df.indep_den, h3]; exact hd
  intro F hF
  rcases hF with ⟨j, A, v, e, hA, hv, r⟩ | ⟨a, n, hn, hr, r⟩
  · exact fin F e r fun _ => Or.inr ⟨j, A, v, e, hA, hv, rfl⟩
  · exact fin F ⟨n.var, a, false⟩ r fun _ => Or.inl hr

/-- Variables a, b, c; `a ∧ b` and `(a ∧ b) ∨ c`, both held by the user, the second one also by an association;
sifting by depth-first reordering is chosen. -/
def siftScript : List Call :=
  [.newVarLast, .newVarLast, .newVarLast, .and ⟨2, false⟩ ⟨3, false⟩, .or ⟨5, false⟩ ⟨4, false⟩,
    .associationInit [⟨2, false⟩, ⟨6, false⟩] true, .dynamicReordering 1 1]

def siftSess : Sess := go siftScript (by decide +kernel)

theorem siftReach : Reachable Env.plain siftSess.own false siftSess.m := by
  have h := go_reachable siftScript (by decide +kernel)
  have e : siftSess.lk = false := by decide +kernel
  have h' : Reachable Env.plain siftSess.own siftSess.lk siftSess.m := h
  rwa [e] at h'

theorem siftTracked : Tracked siftSess.own siftSess.m :=
  trackedB_ok (siftReach.inv Env.plain_sound) (by decide +kernel)

end Demo

example := C40_matrix Env.plain_sound Demo.siftReach (by decide +kernel)
example := C40_shortcut_partial Env.plain_sound Demo.siftReach (by decide +kernel) Demo.siftTracked

/-! ## C57 -/

/-- What the user can see of a depth-first reordering: all handles they hold denote the same functions, all
associations have the same functions for the same variables, there are as many variables as before, and the
variables and blocks are rearranged only within reorderable blocks. `Mgr.Inv` is the invariant of managers
from which the other theorems about single calls follow (no two nodes for one function, exact reference counts,
valid cache, ...). -/
structure SameButOrder (own : Nat → Nat) (m : Mgr) (b : Block) (m' : Mgr) (b' : Block) : Prop where
  inv : m'.Inv own false
  fns : ∀ h F, UTab.Live own h → Den m h F → Den m' h F
  assocs : ∀ j T, AssocDen m' j T ↔ AssocDen m j T
  cur : m'.cur = m.cur
  vars : m'.st.ord.numVars = m.st.ord.numVars
  block : Block.SuperOK m'.st.ord.numVars b'
  tree : Sift.Rearr (.node b.reorderable (Sift.trL (Df.varAt m.st.ord) b.children))
    (.node b'.reorderable (Sift.trL (Df.varAt m'.st.ord) b'.children))

theorem flush_inv {own lk} {m : Mgr} (i : m.Inv own lk) : ({ m with ca := m.ca.flush } : Mgr).Inv own lk :=
  (Mgr.flush_ok i).1

theorem sameButOrder {m : Mgr} {b : Block} {m' : Mgr} {φ b'} {Γ : Nat → BFn → BFn} (i : m.Inv own false)
    (h : Df.Reordered Γ own (fun _ => 0) [] { m with ca := m.ca.flush } b m' φ b') : SameButOrder own m b m' b' := by
  obtain ⟨leak', h1, h2⟩ := h.inv
  have h1 := h1 rfl
  have i' : m'.Inv own false := ⟨Γ, fun _ => 0, fun _ => rfl, by rw [h1] at h2; simpa [pend] using h2⟩
  have p : Pres own 0 m m' := (Mgr.cache_pres m.ca.flush).trans h.pres
  exact ⟨i', fun x F l d => p.fns x l F d, fun j T => p.assocDen_iff i i', p.cur, p.nv,
    by rw [p.nv]; exact h.super, h.tree⟩

/-- `Cal_BddReorder` with the depth-first method and sifting, for every tree of variable blocks and all limits: it
ends without fault and changes nothing but the order. For the assumptions see `C40_shortcut_partial`; without
them it is false, see `C40_violated`. -/
theorem C57_sift_partial (S : E.Sound) (R : Reachable E own false m) (hn : m.st.ord.numVars ≤ 46341)
    (ht : Tracked own m) (h0 : m.technique ≠ 0) (h2 : m.technique ≠ 2) {b : Block}
    (hb : Block.SuperOK m.st.ord.numVars b) (L : Sift.Limits) (passes : Nat) :
    ∃ m' φ b', Df.reorderDF L passes { m with ca := m.ca.flush } [] b = some (m', φ, b') ∧
      SameButOrder own m b m' b' := by
  obtain ⟨Γ, leak, hl, i⟩ := flush_inv (R.inv S)
  obtain rfl := hl rfl
  have i0 : Mgr.InvG Γ (fun x => (fun _ => 0) x + pend [] x) own { m with ca := m.ca.flush } := by
    simpa [pend] using i
  obtain ⟨m', φ, b', e, h⟩ := Df.reorderDF_sift i0 (by simp) hn (Df.tracked_covered i ht) (fun _ => rfl) h0 h2 hb L
    passes
  exact ⟨m', φ, b', e, sameButOrder (R.inv S) h⟩

/-- The same for window permutation, if its loops end (which is proved in `C43_window` for systems in which the
order determines the number of nodes). -/
theorem C57_window_partial (S : E.Sound) (R : Reachable E own false m) (hn : m.st.ord.numVars ≤ 46341)
    (ht : Tracked own m) (h2 : m.technique = 2) {b : Block}
    (hb : Block.SuperOK m.st.ord.numVars b) {L : Sift.Limits} {passes : Nat} {m' φ b'}
    (e : Df.reorderDF L passes { m with ca := m.ca.flush } [] b = some (m', φ, b')) : SameButOrder own m b m' b' := by
  obtain ⟨Γ, leak, hl, i⟩ := flush_inv (R.inv S)
  obtain rfl := hl rfl
  have i0 : Mgr.InvG Γ (fun x => (fun _ => 0) x + pend [] x) own { m with ca := m.ca.flush } := by
    simpa [pend] using i
  exact sameButOrder (R.inv S)
    (Df.reorderDF_window i0 (by simp) hn (Df.tracked_covered i ht) (fun _ => rfl) h2 hb e)

/-- Reordering in the middle of a pipeline or of a call: with the real code put in place of the assumed one
wherever it is safe, the environment is still sound, so that everything that is proved for sound environments
holds for sessions with real depth-first reordering. -/
theorem C57_env (S : E.Sound) (L : Sift.Limits) (passes : Nat) (blk : Mgr → List Edge → Block) :
    (E.df L passes blk).Sound :=
  Env.df_sound S L passes blk

/-- `Cal_BddReorder` as one call of a session whose environment reorders with the real code. -/
theorem C57_call_partial (S : E.Sound) {L : Sift.Limits} {passes : Nat} {blk : Mgr → List Edge → Block}
    (R : Reachable (E.df L passes blk) own false m) (hn : m.st.ord.numVars ≤ 46341)
    (ht : Tracked own m) (hd : m.method = 1) (h0 : m.technique ≠ 0) (h2 : m.technique ≠ 2)
    (hb : Block.SuperOK m.st.ord.numVars (blk { m with ca := m.ca.flush } [])) :
    ∃ m' φ b', Df.reorderDF L passes { m with ca := m.ca.flush } [] (blk { m with ca := m.ca.flush } []) =
        some (m', φ, b') ∧
      m.reorder (E.df L passes blk) = some m' ∧ Reachable (E.df L passes blk) own false m' ∧
      SameButOrder own m (blk { m with ca := m.ca.flush } []) m' b' := by
  have S' := C57_env S L passes blk
  obtain ⟨m', φ, b', e, h⟩ := C57_sift_partial S' R hn ht h0 h2 hb L passes
  obtain ⟨Γ, leak, hl, i⟩ := flush_inv (R.inv S')
  obtain rfl := hl rfl
  have i0 : Mgr.InvG Γ (fun x => (fun _ => 0) x + pend [] x) own { m with ca := m.ca.flush } := by
    simpa [pend] using i
  have rd : Df.Ready { m with ca := m.ca.flush } [] (blk { m with ca := m.ca.flush } []) :=
    ⟨hn, hb, fun _ => rfl, h0, by simp, Γ, own, _, i0, Df.tracked_covered i ht⟩
  have hr : m.reorder (E.df L passes blk) = some m' := by
    unfold Mgr.reorder
    simp only [if_neg h0, if_pos hd]
    simp only [Env.df]
    rw [if_pos ⟨hd, rd⟩, e]; rfl
  refine ⟨m', φ, b', e, hr, ?_, h⟩
  have := R.call .reorder (m' := m') (ret := .unit) trivial (by simp [Call.run, hr])
  simpa [Call.own, Call.leaks] using this

/-- Sifting the functions of `Demo.siftScript`: c comes first. -/
example : ∃ m' φ b', Df.reorderDF Demo.limits 0 { Demo.siftSess.m with ca := Demo.siftSess.m.ca.flush } []
    Demo.flat3 = some (m', φ, b') ∧ SameButOrder Demo.siftSess.own Demo.siftSess.m Demo.flat3 m' b' :=
  C57_sift_partial Env.plain_sound Demo.siftReach (by decide +kernel) Demo.siftTracked (by decide +kernel)
    (by decide +kernel) (by rw [show Demo.siftSess.m.st.ord.numVars = 3 by decide +kernel]; exact Demo.flat3_ok) _ _

example : (Df.reorderDF Demo.limits 0 { Demo.siftSess.m with ca := Demo.siftSess.m.ca.flush } [] Demo.flat3).map
    (fun r => (List.range 3).map r.1.st.ord.indexToId) = some [3, 1, 2] := by decide +kernel

namespace Demo

/-- The same with window permutation. -/
def windowScript : List Call := siftScript ++ [.dynamicReordering 2 1]

def windowSess : Sess := go windowScript (by decide +kernel)

theorem windowReach : Reachable Env.plain windowSess.own false windowSess.m := by
  have h' : Reachable Env.plain windowSess.own windowSess.lk windowSess.m :=
    go_reachable windowScript (by decide +kernel)
  rwa [show windowSess.lk = false by decide +kernel] at h'

theorem windowTracked : Tracked windowSess.own windowSess.m :=
  trackedB_ok (windowReach.inv Env.plain_sound) (by decide +kernel)

/-- two passes suffice -/
theorem window_ends : (Df.reorderDF limits 2 { windowSess.m with ca := windowSess.m.ca.flush } [] flat3).map
    (fun r => (List.range 3).map r.1.st.ord.indexToId) = some [3, 2, 1] := by decide +kernel

end Demo

example : ∃ m' φ b', Df.reorderDF Demo.limits 2 { Demo.windowSess.m with ca := Demo.windowSess.m.ca.flush } []
    Demo.flat3 = some (m', φ, b') ∧ SameButOrder Demo.windowSess.own Demo.windowSess.m Demo.flat3 m' b' := by
  obtain ⟨⟨m', φ, b'⟩, h, -⟩ := Option.map_eq_some_iff.1 Demo.window_ends
  exact ⟨m', φ, b', h, C57_window_partial Env.plain_sound Demo.windowReach (by decide +kernel) Demo.windowTracked
    (by decide +kernel) (by rw [show Demo.windowSess.m.st.ord.numVars = 3 by decide +kernel]; exact Demo.flat3_ok) h⟩

end Cal
