import Verif.CheckReorder
import Verif.Props16
import Verif.Props18

/-!
# C74: the checks that the code makes of itself pass

`Check.all` is `CalCheckAllValidity` and `Check.assocs` is `CalCheckAssoc`, as the code has them: loops over all
nodes that look at each of them, and loops that take away all references a manager has and put them back. A failing
assertion is the outcome `none` or `false`. It ends the user's program, in builds without `NDEBUG`.

The full statement is that the checks pass wherever the code makes them. It is violated after a leak and after
reordering when only an association holds a function (`C74_violated`, `C74_violated_reorder`). Hence the partial
theorems ask that nothing has leaked and, for reordering, that the user's handles cover all functions (`Tracked`).
Missing are also the checks inside of a reordering, after each exchange, and those in the middle of a pipeline.
-/

namespace Cal

variable {E : Env} {own : Nat → Nat} {lk : Bool} {m : Mgr}

/-- C74. In every reachable state the check of the reference counts finds for each node exactly as many references
as its count says, and leaves all counts as they were. -/
theorem C74_counts_partial (S : E.Sound) (R : Reachable E own false m) : Check.refs m = some m := by
  obtain ⟨Γ, leak, hl, i⟩ := R.inv S
  obtain rfl := hl rfl
  exact Check.refs_ok i

/-- C74. After a garbage collection, from every reachable state, all of the checks pass, and nothing is changed by
them. -/
theorem C74_collected_partial (S : E.Sound) (R : Reachable E own false m) :
    ∃ g, m.gc = some g ∧ Check.all g = some g := by
  obtain ⟨Γ, leak, hl, i⟩ := R.inv S
  obtain rfl := hl rfl
  obtain ⟨g, h, i', -, -, -, -, -, -, hu, hz, -⟩ := i.gc
  exact ⟨g, h, Check.all_ok i' hu hz⟩

/-- C74. In every reachable state, whatever was leaked, the last index of each association is what the check
computes from the values of the association. -/
theorem C74_associations (S : E.Sound) (R : Reachable E own lk m) : Check.assocs m = true := by
  obtain ⟨Γ, leak, -, i⟩ := R.inv S
  exact Check.assocs_ok i

/-- C74. What is looked at in each node and each entry of the cache is right also when references have leaked. -/
theorem C74_nodes (S : E.Sound) (R : Reachable E own lk m) :
    ∃ g, m.gc = some g ∧ Check.nodes g = true ∧ Check.cache g = true := by
  obtain ⟨Γ, leak, -, i⟩ := R.inv S
  obtain ⟨g, h, i', -, -, -, -, -, -, hu, hz, -⟩ := i.gc
  exact ⟨g, h, Check.nodes_ok i' hu hz, Check.cache_ok i'⟩

/-- C74. Breadth-first sifting, as in `Cal_BddReorder`: the checks pass at its beginning and at its end. -/
theorem C74_bf_partial (S : E.Sound) (R : Reachable E own false m) (hn : m.st.ord.numVars ≤ 46341)
    (ht : Tracked own m) (h0 : m.technique ≠ 0) (_h2 : m.technique ≠ 2) (P : Bfr.Par) :
    ∃ m1 m' φ, ({ m with ca := m.ca.flush } : Mgr).gc = some m1 ∧ Check.all m1 = some m1 ∧
      Bfr.reorderBF P m1 [] = some (m', φ) ∧ Check.all m' = some m' := by
  obtain ⟨m1, hg, -, p, rd⟩ := bfr_ready (R.inv S) hn ht h0
  obtain ⟨Γ, leak, hl, i⟩ := flush_inv (R.inv S)
  obtain rfl := hl rfl
  obtain ⟨g, h, j, -, -, -, -, -, -, hu, hz, -⟩ := i.gc
  rw [hg] at h
  cases h
  have j0 : Mgr.InvG Γ (fun x => (fun _ => 0) x + pend [] x) own m1 := by simpa [pend] using j
  obtain ⟨m', φ, e, Q⟩ := Bfr.reorderBF_sift j0 rd P
  obtain ⟨k1, k2, k3⟩ := Bfr.reorderBF_live j0 rd e
  obtain ⟨leak', h1, i'⟩ := Q.inv
  have h1 := h1 rfl
  subst h1
  refine ⟨m1, m', φ, hg, Check.all_ok j hu hz, e, Check.all_ok (by simpa [pend] using i') (fun a ha => ?_) k1⟩
  rw [k2]
  exact hu a (k3 a ha)

/-- C74. Depth-first sifting, as in `Cal_BddReorder`: the checks pass at its end. -/
theorem C74_df_partial (S : E.Sound) (R : Reachable E own false m) (hn : m.st.ord.numVars ≤ 46341)
    (ht : Tracked own m) (h0 : m.technique ≠ 0) (h2 : m.technique ≠ 2) {b : Block}
    (hb : Block.SuperOK m.st.ord.numVars b) (L : Sift.Limits) (passes : Nat) :
    ∃ m' φ b', Df.reorderDF L passes { m with ca := m.ca.flush } [] b = some (m', φ, b') ∧
      Check.all m' = some m' := by
  obtain ⟨Γ, leak, hl, i⟩ := flush_inv (R.inv S)
  obtain rfl := hl rfl
  have i0 : Mgr.InvG Γ (fun x => (fun _ => 0) x + pend [] x) own { m with ca := m.ca.flush } := by
    simpa [pend] using i
  obtain ⟨m', φ, b', e, Q⟩ := Df.reorderDF_sift i0 (by simp) hn (Df.tracked_covered i ht) (fun _ => rfl) h0 h2 hb L
    passes
  obtain ⟨k1, k2⟩ := Df.reorderDF_live i0 (by simp) hn (Df.tracked_covered i ht) e
  obtain ⟨leak', h1, i'⟩ := Q.inv
  have h1 := h1 rfl
  subst h1
  exact ⟨m', φ, b', e, Check.all_ok (by simpa [pend] using i') k2 k1⟩

/-- C74. Depth-first window permutation: the checks pass at its end, if it ends. -/
theorem C74_window_partial (S : E.Sound) (R : Reachable E own false m) (hn : m.st.ord.numVars ≤ 46341)
    (ht : Tracked own m) (h2 : m.technique = 2) {b : Block}
    (hb : Block.SuperOK m.st.ord.numVars b) {L : Sift.Limits} {passes : Nat} {m' φ b'}
    (e : Df.reorderDF L passes { m with ca := m.ca.flush } [] b = some (m', φ, b')) : Check.all m' = some m' := by
  obtain ⟨Γ, leak, hl, i⟩ := flush_inv (R.inv S)
  obtain rfl := hl rfl
  have i0 : Mgr.InvG Γ (fun x => (fun _ => 0) x + pend [] x) own { m with ca := m.ca.flush } := by
    simpa [pend] using i
  have Q := Df.reorderDF_window i0 (by simp) hn (Df.tracked_covered i ht) (fun _ => rfl) h2 hb e
  obtain ⟨k1, k2⟩ := Df.reorderDF_live i0 (by simp) hn (Df.tracked_covered i ht) e
  obtain ⟨leak', h1, i'⟩ := Q.inv
  have h1 := h1 rfl
  subst h1
  exact Check.all_ok (by simpa [pend] using i') k2 k1

/-- C74. Repacking after a garbage collection, where the variables' own nodes stay in their pages: the checks pass
before and after. -/
theorem C74_repack_partial (S : E.Sound) (R : Reachable E own false m) {m1 : Mgr} (hg : m.gc = some m1)
    {pg : Rp.Pages} (L : Rp.Layout m1.st pg)
    (hvars : ∀ v a, m1.vars v = some ⟨v, a, false⟩ → a ∈ ((pg v).take ((m1.st.tab v).length / 128 + 1)).flatten)
    {low : Nat → Nat → Bool} (hlow : ∀ n p, low n p = true → n < 128 * p) :
    Check.all m1 = some m1 ∧ ∃ m' φ, Rp.repack low pg m1 = some (m', φ) ∧ Check.all m' = some m' := by
  obtain ⟨Γ, leak, hl, i⟩ := R.inv S
  obtain rfl := hl rfl
  obtain ⟨g, h, j, -, -, -, -, -, -, hu, hz, -⟩ := i.gc
  rw [hg] at h
  cases h
  have j0 : Mgr.InvG Γ (fun x => (fun _ => 0) x + pend [] x) own m1 := by simpa [pend] using j
  obtain ⟨m', φ, e, Q⟩ := Rp.repack_ok j0 (by simp) L hz hvars hlow
  obtain ⟨k1, k2, k3⟩ := Rp.repack_live j L hz hlow e
  obtain ⟨leak', h1, i'⟩ := Q.inv
  have h1 := h1 rfl
  subst h1
  refine ⟨Check.all_ok j hu hz, m', φ, e, Check.all_ok (by simpa [pend] using i') (fun a ha => ?_) k1⟩
  rw [k2]
  exact hu a (k3 a ha)

example := C74_counts_partial Env.plain_sound Demo.reach0
example := C74_collected_partial Env.plain_sound Demo.dead_reach0
example := C74_associations Env.plain_sound Demo.bfReach
example := C74_nodes Env.plain_sound Demo.dead_reach0
example := C74_bf_partial Env.plain_sound Demo.bfReach (by decide +kernel) Demo.bfTracked (by decide +kernel)
  (by decide +kernel) Demo.bfPar
example := C74_df_partial Env.plain_sound Demo.siftReach (by decide +kernel) Demo.siftTracked (by decide +kernel)
  (by decide +kernel) (by rw [show Demo.siftSess.m.st.ord.numVars = 3 by decide +kernel]; exact Demo.flat3_ok)
  Demo.limits 0
example := C74_repack_partial Env.plain_sound Demo.reachF Demo.gcMgr_eq Demo.spread_layout Demo.spread_vars
  Demo.low90_ok
example : ∃ m' φ b', Df.reorderDF Demo.limits 2 { Demo.windowSess.m with ca := Demo.windowSess.m.ca.flush } []
    Demo.flat3 = some (m', φ, b') ∧ Check.all m' = some m' := by
  obtain ⟨⟨m', φ, b'⟩, h, -⟩ := Option.map_eq_some_iff.1 Demo.window_ends
  exact ⟨m', φ, b', h, C74_window_partial Env.plain_sound Demo.windowReach (by decide +kernel) Demo.windowTracked
    (by decide +kernel) (by rw [show Demo.windowSess.m.st.ord.numVars = 3 by decide +kernel]; exact Demo.flat3_ok) h⟩

namespace Demo

/-- Before garbage is collected there is a node that would not pass: its count is zero. -/
example : Check.nodes dead.m = false ∧ (Check.all dead.m).isNone = true := by decide +kernel

/-- The checks are not passed by everything: the count of the node of `b ∧ d` one too high or too low, a child
that is not below, an association with a wrong last index. -/
def checkScript : List Call :=
  [.newVarLast, .newVarLast, .and ⟨2, false⟩ ⟨3, false⟩, .associationInit [⟨2, false⟩, ⟨4, false⟩] true, .gc]

/-- The node of `a ∧ b` gets a child that has the same variable. -/
def unordered (h : Nat → Option Node) (a : Nat) : Option Node :=
  if a = 3 then some { var := 1, thn := { id := 1, addr := 1, neg := false }, els := zero } else h a

def checkB (s : Sess) : Bool :=
  let m := s.m
  s.lk == false && (Check.all m).isSome && Check.assocs m &&
  m.st.ref 3 == 2 &&
  (Check.all { m with st := { m.st with ref := fun a => if a = 3 then 3 else m.st.ref a } }).isNone &&
  (Check.all { m with st := { m.st with ref := fun a => if a = 3 then 1 else m.st.ref a } }).isNone &&
  (Check.all { m with st := { m.st with heap := unordered m.st.heap } }).isNone &&
  Check.assocs { m with assocs := m.assocs.map fun p => { p with a := { p.a with last := 1 } } } == false

/-- A variable is given twice in the pairs of an association. -/
def twiceScript : List Call :=
  [.newVarLast, .newVarLast, .and ⟨2, false⟩ ⟨3, false⟩,
    .associationInit [⟨2, false⟩, ⟨4, false⟩, ⟨2, false⟩, ⟨3, false⟩] true]

def twiceB (s : Sess) : Bool :=
  match s.m.gc with
  | none => false
  | some g => (Check.refs s.m).isNone && (Check.all g).isNone

/-- After sifting, an association holds a node that is not in order. -/
def lostCheckB (s : Sess) : Bool :=
  s.lk == false &&
  match ({ s.m with ca := s.m.ca.flush } : Mgr).gc with
  | none => false
  | some g =>
    (Check.all g).isSome &&
    match Bfr.reorderBF bfPar g [] with
    | none => false
    | some (m', _) => (Check.all m').isNone

theorem twice : checks twiceScript twiceB = true := by decide +kernel

theorem lostCheck : checks bfLostScript lostCheckB = true := by decide +kernel

example : checks checkScript checkB = true := by decide +kernel

end Demo

/-- C74 is false in general: when a variable is given twice in the pairs of `Cal_AssociationInit`, a reference
leaks, and the next check stops the program, even right after a garbage collection. -/
theorem C74_violated : ∃ own lk m, Reachable Env.plain own lk m ∧ Check.refs m = none ∧
    ∃ g, m.gc = some g ∧ Check.all g = none := by
  obtain ⟨s, R, h⟩ := Demo.witness Demo.twice
  unfold Demo.twiceB at h
  split at h
  · cases h
  · rename_i g hg
    rw [Bool.and_eq_true, Option.isNone_iff_eq_none, Option.isNone_iff_eq_none] at h
    exact ⟨s.own, s.lk, s.m, R, h.1, g, hg, h.2⟩

/-- C74 is false in general, also without any leaks: when only an association holds a function, sifting may put its
nodes out of order (C60). Then the check at the end of the reordering stops the program. -/
theorem C74_violated_reorder : ∃ own m, Reachable Env.plain own false m ∧
    ∃ g m' φ, ({ m with ca := m.ca.flush } : Mgr).gc = some g ∧ (Check.all g).isSome = true ∧
      Bfr.reorderBF Demo.bfPar g [] = some (m', φ) ∧ Check.all m' = none := by
  obtain ⟨s, R, h⟩ := Demo.witness Demo.lostCheck
  unfold Demo.lostCheckB at h
  rw [Bool.and_eq_true, beq_iff_eq] at h
  obtain ⟨hlk, h⟩ := h
  rw [hlk] at R
  split at h
  · cases h
  · rename_i g hg
    rw [Bool.and_eq_true] at h
    obtain ⟨h1, h⟩ := h
    split at h
    · cases h
    · rename_i m' φ he
      exact ⟨s.own, s.m, R, g, m', φ, hg, h1, he, Option.isNone_iff_eq_none.1 h⟩

end Cal
