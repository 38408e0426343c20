import Verif.BfEnv
import Verif.Props15
import Verif.Props17

/-!
# Properties, part 18: breadth-first reordering as a whole
-/

namespace Cal

variable {E : Env} {own : Nat → Nat} {lk : Bool} {m : Mgr}

/-! ## C60 -/

/-- What the user can see of a breadth-first reordering: all handles they hold denote the same functions, all
associations have the same functions for the same variables, and there are as many variables as before. `Mgr.Inv`
is the invariant of managers from which the other theorems about single calls follow (no two nodes for one
function, exact reference counts, each index has one variable, ...). -/
structure SameFunctions (own : Nat → Nat) (m m' : Mgr) : Prop where
  inv : m'.Inv own false
  fns : ∀ h F, UTab.Live own h → Den m h F → Den m' h F
  assocs : ∀ j T, AssocDen m' j T ↔ AssocDen m j T
  cur : m'.cur = m.cur
  vars : m'.st.ord.numVars = m.st.ord.numVars

/-- After the garbage collection with which `Cal_BddReorder` begins, everything is as breadth-first reordering
needs it. -/
theorem bfr_ready (i : m.Inv own false) (hn : m.st.ord.numVars ≤ 46341) (ht : Tracked own m) (h0 : m.technique ≠ 0) :
    ∃ m1, ({ m with ca := m.ca.flush } : Mgr).gc = some m1 ∧ m1.Inv own false ∧ Pres own 0 m m1 ∧
      Bfr.Ready m1 [] := by
  have i1 := flush_inv i
  have ht1 : Tracked own { m with ca := m.ca.flush } := ht
  obtain ⟨Γ, leak, hl, j⟩ := i1
  obtain rfl := hl rfl
  obtain ⟨m1, hg, j', p, -, -, -, -, -, -, hz, he⟩ := j.gc
  have t1 := tracked_gc (lk := false) ⟨Γ, fun _ => 0, fun _ => rfl, j⟩ hg ht1
  have j0 : Mgr.InvG Γ (fun x => (fun _ => 0) x + pend [] x) own m1 := by simpa [pend] using j'
  refine ⟨m1, hg, ⟨Γ, _, fun _ => rfl, j'⟩, (Mgr.cache_pres m.ca.flush).trans p, ?_⟩
  exact ⟨by rw [p.nv]; exact hn, fun j => he (fun _ => rfl) j, by rw [p.technique]; exact h0, by simp,
    hz, Γ, own, _, j0, Df.tracked_covered j' t1⟩

theorem sameFunctions {m1 m' : Mgr} {φ} {Γ : Nat → BFn → BFn} (i : m.Inv own false) (p : Pres own 0 m m1)
    (h : Bfr.Reordered Γ own (fun _ => 0) [] m1 m' φ) : SameFunctions own m m' := by
  obtain ⟨leak', h1, h2⟩ := h.inv
  have h1 := h1 rfl
  have i' : m'.Inv own false := ⟨Γ, fun _ => 0, fun _ => rfl, by rw [h1] at h2; simpa [pend] using h2⟩
  have q := p.trans h.pres
  exact ⟨i', fun x F l d => q.fns x l F d, fun j T => q.assocDen_iff i i', q.cur, q.nv⟩

/-- `Cal_BddReorder` with the breadth-first method and sifting, for all limits and whatever packing does: it ends
without fault and changes nothing but the order. It is assumed that the interaction matrix is large enough and that
the functions which associations and stuck reference counts keep alive are also held by the user (`Tracked`);
without this it is false, see `C60_violated`. For window permutation see `C60_window_partial`. -/
theorem C60_sift_partial (S : E.Sound) (R : Reachable E own false m) (hn : m.st.ord.numVars ≤ 46341)
    (ht : Tracked own m) (h0 : m.technique ≠ 0) (h2 : m.technique ≠ 2) (P : Bfr.Par) :
    ∃ m1 m' φ, ({ m with ca := m.ca.flush } : Mgr).gc = some m1 ∧ Bfr.reorderBF P m1 [] = some (m', φ) ∧
      SameFunctions own m m' := by
  obtain ⟨m1, hg, ⟨Γ, leak, hl, j⟩, p, rd⟩ := bfr_ready (R.inv S) hn ht h0
  obtain rfl := hl rfl
  have j0 : Mgr.InvG Γ (fun x => (fun _ => 0) x + pend [] x) own m1 := by simpa [pend] using j
  obtain ⟨m', φ, e, h⟩ := Bfr.reorderBF_sift j0 rd P
  exact ⟨m1, m', φ, hg, e, sameFunctions (R.inv S) p h⟩

/-- In the middle of a pipeline the results that have been computed are forwarded as well. -/
theorem C60_pipeline_partial {ps : List Edge} (i : m.InvP own false ps) (rd : Bfr.Ready m ps) (P : Bfr.Par) :
    ∃ m' φ, Bfr.reorderBF P m ps = some (m', φ) ∧ m'.InvP own false (ps.map φ) ∧
      (∀ e ∈ ps, ∀ F, Rep m.st e F → Rep m'.st (φ e) F) ∧ ∀ h F, UTab.Live own h → Den m h F → Den m' h F := by
  obtain ⟨Γ, leak, hl, i, -⟩ := i
  obtain ⟨m', φ, e, h⟩ := Bfr.reorderBF_sift i rd P
  obtain ⟨leak', h1, h2⟩ := h.inv
  exact ⟨m', φ, e, ⟨Γ, leak', fun h => h1 (hl h), h2, h.eok⟩, h.fwd.pend, fun x F l d => h.pres.fns x l F d⟩

/-- With the real code put in place of the assumed one wherever it is safe, the environment is still sound, so that
everything that is proved for sound environments holds for sessions with real breadth-first reordering. -/
theorem C60_env (S : E.Sound) (P : Mgr → List Edge → Bfr.Par) : (E.bfr P).Sound := Env.bfr_sound S P

/-- All parts of the environment together: both ways of reordering (where they are safe), repacking (where it is safe)
and the quantifiers as in the code. -/
noncomputable def Env.code2 (E : Env) (L : Sift.Limits) (passes : Nat) (blk : Mgr → List Edge → Block)
    (P : Mgr → List Edge → Bfr.Par) (low : Nat → Nat → Bool) (pg : Mgr → Rp.Pages) : Env :=
  (((E.df L passes blk).bfr P).rp low pg).bf

theorem C60_code_sound (S : E.Sound) (L : Sift.Limits) (passes : Nat) (blk : Mgr → List Edge → Block)
    (P : Mgr → List Edge → Bfr.Par) {low : Nat → Nat → Bool} (hlow : ∀ n p, low n p = true → n < Rp.perPage * p)
    (pg : Mgr → Rp.Pages) : (E.code2 L passes blk P low pg).Sound :=
  Env.bf_sound (Env.rp_sound (Env.bfr_sound (Env.df_sound S L passes blk) P) hlow pg)

/-- `Cal_BddReorder` as one call of a session whose environment reorders with the real code. -/
theorem C60_call_partial (S : E.Sound) {P : Mgr → List Edge → Bfr.Par}
    (R : Reachable (E.bfr P) own false m) (hn : m.st.ord.numVars ≤ 46341)
    (ht : Tracked own m) (hd : m.method = 0) (h0 : m.technique ≠ 0) (h2 : m.technique ≠ 2) :
    ∃ m1 m' φ, ({ m with ca := m.ca.flush } : Mgr).gc = some m1 ∧ Bfr.reorderBF (P m1 []) m1 [] = some (m', φ) ∧
      m.reorder (E.bfr P) = some m' ∧ Reachable (E.bfr P) own false m' ∧ SameFunctions own m m' := by
  have S' := C60_env S P
  obtain ⟨m1, hg, ⟨Γ, leak, hl, j⟩, p, rd⟩ := bfr_ready (R.inv S') hn ht h0
  obtain rfl := hl rfl
  have j0 : Mgr.InvG Γ (fun x => (fun _ => 0) x + pend [] x) own m1 := by simpa [pend] using j
  obtain ⟨m', φ, e, h⟩ := Bfr.reorderBF_sift j0 rd (P m1 [])
  have hr : m.reorder (E.bfr P) = some m' := by
    unfold Mgr.reorder
    simp only [if_neg h0, if_neg (show m.method ≠ 1 by omega), if_pos hd, hg]
    simp only [Env.bfr]
    rw [if_pos ⟨by rw [p.method]; exact hd, by rw [p.technique]; exact h2, rd⟩, e]; rfl
  refine ⟨m1, m', φ, hg, e, hr, ?_, sameFunctions (R.inv S') p h⟩
  have := R.call .reorder (m' := m') (ret := .unit) trivial (by simp [Call.run, hr])
  simpa [Call.own, Call.leaks] using this

namespace Demo

/-- The limits that `Cal_BddManagerInit` sets; nothing is packed. -/
def bfPar : Bfr.Par := ⟨limits, 50000, fun _ _ => false, 0⟩

/-- Clean up after every exchange, and pack whenever possible. -/
def bfPar0 : Bfr.Par := ⟨limits, 0, fun _ _ => true, 0⟩

/-- As `siftScript`, but with breadth-first reordering. -/
def bfScript : List Call :=
  [.newVarLast, .newVarLast, .newVarLast, .and ⟨2, false⟩ ⟨3, false⟩, .or ⟨5, false⟩ ⟨4, false⟩,
    .associationInit [⟨2, false⟩, ⟨6, false⟩] true, .dynamicReordering 1 0]

def bfSess : Sess := go bfScript (by decide +kernel)

theorem bfReach : Reachable Env.plain bfSess.own false bfSess.m := by
  have h' : Reachable Env.plain bfSess.own bfSess.lk bfSess.m := go_reachable bfScript (by decide +kernel)
  rwa [show bfSess.lk = false by decide +kernel] at h'

theorem bfTracked : Tracked bfSess.own bfSess.m :=
  trackedB_ok (bfReach.inv Env.plain_sound) (by decide +kernel)

/-- The manager after `Cal_BddReorder` (cal.c:454-468). -/
def bfRun (P : Bfr.Par) (m : Mgr) : Option Mgr :=
  match ({ m with ca := m.ca.flush } : Mgr).gc with
  | none => none
  | some m1 => (Bfr.reorderBF P m1 []).map (·.1)

end Demo

/-- Sifting the functions of `Demo.bfScript`: c comes first, with and without early clean-up and packing. -/
example := C60_sift_partial Env.plain_sound Demo.bfReach (by decide +kernel) Demo.bfTracked (by decide +kernel)
  (by decide +kernel) Demo.bfPar

example : [Demo.bfPar, Demo.bfPar0].map (fun P => (Demo.bfRun P Demo.bfSess.m).map
    fun m => ((List.range 3).map m.st.ord.indexToId, m.st.numNodes)) = [some ([3, 1, 2], 6), some ([3, 1, 2], 6)] := by
  decide +kernel

/-! ### What is wrong -/

namespace Demo

/-- Four variables a, b, c, d; `if a then b else c` and `if a then c else d`; `b ∧ d`, held only by an association
of a. -/
def bfLostScript : List Call :=
  [.newVarLast, .newVarLast, .newVarLast, .newVarLast, .ite ⟨2, false⟩ ⟨3, false⟩ ⟨4, false⟩,
    .ite ⟨2, false⟩ ⟨4, false⟩ ⟨5, false⟩, .and ⟨3, false⟩ ⟨5, false⟩,
    .associationInit [⟨2, false⟩, ⟨8, false⟩] true, .associationSetCurrent 0, .free ⟨8, false⟩,
    .dynamicReordering 1 0]

/-- The handle of `b ∧ d`, computed before reordering ends in `⟨8, false⟩`; what do `Cal_BddAnd` (calBddOp.c:82-107) and
`Cal_BddSubstitute` (calBddSubstitute.c:81-133) give afterwards? -/
def bfLostB (s : Sess) : Bool :=
  s.lk == false && s.m.st.ord.numVars == 4 && s.m.method == 0 && s.m.technique == 1 &&
  (match assocEdge s.m 0 1 with
    | none => false
    | some e => tree s.m.st 5 e == some (.node 2 (.node 4 (.leaf true) (.leaf false)) (.leaf false))) &&
  (match bfRun bfPar s.m with
    | none => false
    | some m' =>
      match m'.and Env.plain ⟨3, false⟩ ⟨5, false⟩ with
      | none => false
      | some (m2, h) =>
        match m2.substitute Env.plain ⟨2, false⟩ with
        | none => false
        | some (m3, k) =>
          (h != k) &&
          (match m3.ut.heap h.addr, m3.ut.heap k.addr with
          | some e, some f =>
            tree m3.st 5 (e.phase h.neg) == some (.node 4 (.node 2 (.leaf true) (.leaf false)) (.leaf false)) &&
            tree m3.st 5 (f.phase k.neg) == some (.node 2 (.node 4 (.leaf true) (.leaf false)) (.leaf false))
          | _, _ => false))

theorem bfLost : checks bfLostScript bfLostB = true := by decide +kernel

end Demo

/-- It is false in general, also without any leaks: the interaction matrix does not know functions that only
associations hold. Take variables a, b, c, d, let an association map a to `b ∧ d`, and free `b ∧ d`. The user also
holds `if a then b else c` and `if a then c else d`. Sifting moves b below d by the shortcut for variables that do
not interact, so that the node of `b ∧ d` that the association refers to is not in order any more. After that,
`Cal_BddAnd` of b and d and `Cal_BddSubstitute` of a return two BDDs that are not equal, but denote the same
function. -/
theorem C60_violated : ∃ own m, Reachable Env.plain own false m ∧ m.st.ord.numVars = 4 ∧ m.technique = 1 ∧
    m.method = 0 ∧ AssocVal m (fun ρ => ρ 2 && ρ 4) ∧
    ∃ m', Demo.bfRun Demo.bfPar m = some m' ∧
    ∃ m2 h m3 k, m'.and Env.plain ⟨3, false⟩ ⟨5, false⟩ = some (m2, h) ∧
      m2.substitute Env.plain ⟨2, false⟩ = some (m3, k) ∧ h ≠ k ∧
      Den m3 h (fun ρ => ρ 2 && ρ 4) ∧ Den m3 k (fun ρ => ρ 2 && ρ 4) := by
  obtain ⟨s, R, h⟩ := Demo.witness Demo.bfLost
  unfold Demo.bfLostB at h
  simp only [Bool.and_eq_true, beq_iff_eq] at h
  obtain ⟨⟨⟨⟨⟨hlk, hnv⟩, hmeth⟩, htech⟩, hval⟩, hre⟩ := h
  rw [hlk] at R
  refine ⟨s.own, s.m, R, hnv, htech, hmeth, ?_, ?_⟩
  · split at hval
    · cases hval
    · rename_i e he
      unfold Demo.assocEdge at he
      split at he
      · cases he
      · rename_i A hA
        have := Demo.tree_rep _ (by simpa using hval)
        refine ⟨0, A, 1, e, hA, he, (congrArg (Rep _ _) ?_).mp this⟩
        funext ρ
        simp only [Demo.Tree.fn]
        cases ρ 2 <;> cases ρ 4 <;> rfl
  · split at hre
    · cases hre
    · rename_i m' e'
      refine ⟨m', e', ?_⟩
      split at hre
      · cases hre
      · rename_i m2 h e2
        split at hre
        · cases hre
        · rename_i m3 k e3
          simp only [Bool.and_eq_true, bne_iff_ne] at hre
          obtain ⟨hne, hre⟩ := hre
          refine ⟨m2, h, m3, k, e2, e3, hne, ?_⟩
          split at hre
          · rename_i e f he hf
            simp only [Bool.and_eq_true] at hre
            have t1 := Demo.tree_rep _ (by simpa using hre.1)
            have t2 := Demo.tree_rep _ (by simpa using hre.2)
            refine ⟨⟨e, he, (congrArg (Rep _ _) ?_).mp t1⟩, ⟨f, hf, (congrArg (Rep _ _) ?_).mp t2⟩⟩ <;>
            · funext ρ
              simp only [Demo.Tree.fn]
              cases ρ 2 <;> cases ρ 4 <;> rfl
          · cases hre

namespace Demo

/-- Three variables in one block whose variables must not be reordered, as `Cal_BddNewVarBlock` makes
it. -/
def fixed3 : Block := .mk (-1) 3 true [.mk 0 2 false [.mk 0 0 false [], .mk 1 1 false [], .mk 2 2 false []]]

theorem fixed3_ok : Block.SuperOK 3 fixed3 := by
  refine ⟨rfl, rfl, ?_, ?_⟩ <;>
    simp [fixed3, Block.children_mk, Block.first_mk, Block.last_mk, Block.Parts, Block.OKL, Block.OK]

/-- `Cal_BddNewVarBlock` of the first variable with length 3 makes it. -/
example : Block.newVarBlock 3 0 3 flat3 = some (.ok fixed3) := by rfl

theorem fixed3_tree (o : Int → Nat) :
    Sift.trL o fixed3.children = [.node false [.leaf (o 0), .leaf (o 1), .leaf (o 2)]] := by
  simp [fixed3, Block.children_mk, Sift.trL, Sift.tr]

end Demo

theorem fixed_rearr {x y z : Nat} {r : Bool} {ks : List Sift.T}
    (h : Sift.Rearr (.node true [.node false [.leaf x, .leaf y, .leaf z]]) (.node r ks)) : Sift.T.idsL ks = [x, y, z] := by
  cases h with
  | node h1 h2 h3 =>
    rw [List.perm_singleton] at h2
    subst h2
    cases h3 with
    | cons h4 h5 =>
      cases h5
      cases h4 with
      | node h6 h7 h8 =>
        have := h6 rfl
        subst this
        cases h8 with
        | cons a h8 =>
          cases h8 with
          | cons b h8 =>
            cases h8 with
            | cons c h8 =>
              cases h8; cases a; cases b; cases c
              rfl

/-- Breadth-first sifting takes no notice of blocks: variables of a block that must not be reordered are reordered.
Whatever the blocks are said to be afterwards, it is not what depth-first reordering guarantees (the field `tree` of
`SameButOrder` in `C57_sift_partial`). -/
theorem C60_blocks_violated : ∃ own m, Reachable Env.plain own false m ∧ m.st.ord.numVars = 3 ∧ Tracked own m ∧
    m.technique = 1 ∧ m.method = 0 ∧ Block.SuperOK 3 Demo.fixed3 ∧
    ∃ m', Demo.bfRun Demo.bfPar m = some m' ∧ ∀ b', Block.SuperOK 3 b' →
      ¬ Sift.Rearr (.node true (Sift.trL (Df.varAt m.st.ord) Demo.fixed3.children))
        (.node b'.reorderable (Sift.trL (Df.varAt m'.st.ord) b'.children)) := by
  have key : (match Demo.bfRun Demo.bfPar Demo.bfSess.m with
    | none => false
    | some m' => (Block.upto 0 3).map (Df.varAt m'.st.ord) == [3, 1, 2]) = true := by decide +kernel
  refine ⟨_, _, Demo.bfReach, by decide +kernel, Demo.bfTracked, by decide +kernel, by decide +kernel, Demo.fixed3_ok, ?_⟩
  split at key
  · cases key
  · rename_i m' e
    refine ⟨m', e, fun b' ok h => ?_⟩
    rw [Demo.fixed3_tree] at h
    have h1 := fixed_rearr h
    obtain ⟨hf, hl, hp, ho⟩ := ok
    rw [Sift.idsL_tr hp (fun b hb => Sift.ids_tr b (Block.OKL_iff.mp ho b hb))] at h1
    rw [beq_iff_eq] at key
    have h2 := key.symm.trans h1
    revert h2
    decide +kernel

/-- A place that holds no node and is not on the free list of a node manager either (there is one for every
variable, and one for constants): it is lost until the manager is destroyed. -/
def Lost (s : Store) (a : Nat) : Prop :=
  0 < a ∧ a < s.next ∧ s.heap a = none ∧ ∀ i, i < s.ord.numVars + 1 → a ∉ s.free i

namespace Demo

def lostPlaceB (s : Store) (a : Nat) : Bool :=
  decide (0 < a) && decide (a < s.next) && (s.heap a).isNone &&
    (List.range (s.ord.numVars + 1)).all fun i => !(s.free i).elem a

theorem lostPlaceB_iff {s : Store} {a : Nat} : lostPlaceB s a = true ↔ Lost s a := by
  simp [lostPlaceB, Lost, and_assoc]

end Demo

/-- Breadth-first sifting loses memory: the nodes that only forward to others are taken out of the unique tables,
but never go back to the node managers. Before there is no lost place, afterwards there are several. -/
theorem C60_leak : ∃ own m, Reachable Env.plain own false m ∧ m.st.ord.numVars = 3 ∧ Tracked own m ∧
    m.technique = 1 ∧ m.method = 0 ∧ (∀ a, ¬ Lost m.st a) ∧
    ∃ m', Demo.bfRun Demo.bfPar m = some m' ∧ ∀ a ∈ [4, 5, 6, 7, 8, 9, 10, 11], Lost m'.st a := by
  have k0 : (List.range Demo.bfSess.m.st.next).all (fun a => !Demo.lostPlaceB Demo.bfSess.m.st a) = true := by decide +kernel
  have key : (match Demo.bfRun Demo.bfPar Demo.bfSess.m with
    | none => false
    | some m' => [4, 5, 6, 7, 8, 9, 10, 11].all (Demo.lostPlaceB m'.st)) = true := by decide +kernel
  refine ⟨_, _, Demo.bfReach, by decide +kernel, Demo.bfTracked, by decide +kernel, by decide +kernel, fun a h => ?_, ?_⟩
  · rw [List.all_eq_true] at k0
    have := k0 a (by rw [List.mem_range]; exact h.2.1)
    rw [Demo.lostPlaceB_iff.mpr h] at this
    cases this
  · split at key
    · cases key
    · rename_i m' e
      rw [List.all_eq_true] at key
      exact ⟨m', e, fun a ha => Demo.lostPlaceB_iff.mp (key a ha)⟩

end Cal
