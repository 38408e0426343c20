import Verif.Session

/-!
# Running concrete sessions

A checker for `Call.Legal`, so that concrete histories can be shown to be reachable by evaluation.
Used for the examples beside the property theorems and for the counterexamples.
-/

namespace Cal

deriving instance DecidableEq for Ret

namespace Demo

def liveB (own : Nat → Nat) (h : Handle) : Bool := h.addr == 1 || decide (0 < own h.addr)

theorem liveB_ok {own h} (e : liveB own h = true) : UTab.Live own h := by
  simpa [liveB, UTab.Live] using e

def argB (own : Nat → Nat) (h : Handle) : Bool := h == Handle.null || liveB own h

theorem argB_ok {own h} (e : argB own h = true) : OArg own h := by
  simp only [argB, Bool.or_eq_true, beq_iff_eq] at e
  exact e.imp id liveB_ok

def litB (m : Mgr) (h : Handle) : Bool :=
  match m.internal h with
  | none => false
  | some e => match Mgr.typeAux m.st e with
    | some .posvar | some .negvar => true
    | _ => false

/-- null, a constant or a variable -/
def varB (own : Nat → Nat) (m : Mgr) (h : Handle) : Bool :=
  h == Handle.null || (liveB own h &&
    match m.internal h with
    | none => false
    | some e => match Mgr.typeAux m.st e with
      | some .posvar | some .one | some .zero => true
      | _ => false)

/-- the current association is to variables and constants -/
def varTabB (m : Mgr) : Bool :=
  match m.assoc m.cur with
  | none => false
  | some A => (List.range (m.st.ord.numVars + 1)).all fun v =>
    match A.var v with
    | none => true
    | some e => e.id == 0 || m.vars e.id == some e

/-- A sufficient check for `Call.Legal`. -/
def legalB (own : Nat → Nat) (m : Mgr) : Call → Bool
  | .not f | .identity f | .regular f | .unFree f | .free f => liveB own f
  | .if_ f | .then_ f | .else_ f => liveB own f && !(f.addr == 1)
  | .getIfIndex f | .getIfId f | .type f | .satisfy f | .satisfySupport f | .satisfyingFraction f
  | .size f _ | .profile f _ | .support f | .substitute f => argB own f
  | .dependsOn f v => argB own f && argB own v
  | .sizeMultiple hs _ | .profileMultiple hs _ => hs.all (liveB own)
  | .and f g | .nand f g | .or f g | .nor f g | .xor f g | .xnor f g | .intersects f g | .implies f g =>
    argB own f && argB own g
  | .ite f g h => argB own f && argB own g && argB own h
  | .multiwayAnd hs | .multiwayOr hs | .multiwayXor hs =>
    hs.all (liveB own) && decide (hs.length ≤ 1024)
  | .exists_ f | .forAll f => argB own f && decide (1 ≤ m.codesLeft)
  | .relProd f g => argB own f && argB own g && decide (2 ≤ m.codesLeft)
  | .varSubstitute f => argB own f && varTabB m && decide (1 ≤ m.codesLeft)
  | .reduce f c => argB own f && argB own c && !(c == ⟨1, true⟩)
  | .between f g => argB own f && argB own g && !(f == ⟨1, true⟩ && g == ⟨1, false⟩)
  | .cofactor f c => argB own f && argB own c
  | .compose f g h => liveB own f && liveB own g && liveB own h && !(g.addr == 1 && f.neg)
  | .swapVars f g h => argB own f && varB own m g && varB own m h
  | .newVarFirst | .newVarLast => decide (m.numVars < 65534)
  | .newVarBefore f | .newVarAfter f => liveB own f && decide (m.numVars < 65534)
  | .associationInit hs pairs =>
    hs.all (liveB own) && (pairs || hs.all (litB m)) && decide (m.assocs.length < 4096)
  | .tempInit hs pairs | .tempAugment hs pairs => hs.all (liveB own) && (pairs || hs.all (litB m))
  | .dump f vs => argB own f && vs.all (liveB own)
  | .undump mem vs file _ => vs.all (liveB own) && file.all (fun c => decide (c < 256)) && decide (Dump.Fits mem file)
  | _ => true

theorem litB_ok {own lk} {m : Mgr} (i : m.Inv own lk) {h} (l : UTab.Live own h) (e : litB m h = true) :
    ∃ v, Den m h (fun ρ => ρ v) ∨ Den m h (fun ρ => !ρ v) := by
  obtain ⟨F, hF⟩ := i.den l
  have ⟨e', he, r⟩ := hF
  obtain ⟨t, ht, sp⟩ := Mgr.typeAux_ok i.wf r
  simp only [litB, Mgr.internal, he, Option.map_some, ht] at e
  cases t <;> simp only [Bool.false_eq_true] at e
  · obtain ⟨v, rfl⟩ := sp.pos.1 rfl; exact ⟨v, Or.inl hF⟩
  · obtain ⟨v, rfl⟩ := sp.neg.1 rfl; exact ⟨v, Or.inr hF⟩

theorem varB_ok {own lk} {m : Mgr} (i : m.Inv own lk) {h} (e : varB own m h = true) :
    VarArg own m h := by
  simp only [varB, Bool.or_eq_true, beq_iff_eq, Bool.and_eq_true] at e
  rcases e with e | ⟨e1, e⟩
  · exact Or.inl e
  have l := liveB_ok e1
  obtain ⟨F, hF⟩ := i.den l
  have ⟨e', he, r⟩ := hF
  obtain ⟨t, ht, sp⟩ := Mgr.typeAux_ok i.wf r
  simp only [Mgr.internal, he, Option.map_some, ht] at e
  refine Or.inr ⟨l, ?_⟩
  cases t <;> simp only [Bool.false_eq_true] at e
  · exact Or.inl ⟨_, sp.zero.1 rfl ▸ hF⟩
  · exact Or.inl ⟨_, sp.one.1 rfl ▸ hF⟩
  · obtain ⟨v, rfl⟩ := sp.pos.1 rfl; exact Or.inr ⟨v, hF⟩

theorem varTabB_ok {own lk} {m : Mgr} (i : m.Inv own lk) (h : varTabB m = true) (T)
    (hT : AssocDen m m.cur T) : VarTable T := by
  obtain ⟨Γ, leak, -, i⟩ := i
  obtain ⟨A, hA, hT⟩ := hT
  intro v F hF
  simp only [varTabB, hA, List.all_eq_true, List.mem_range] at h
  rcases hT v with ⟨-, h2⟩ | ⟨e, F', h1, h2, h3⟩
  · rw [hF] at h2; cases h2
  rw [hF] at h2; cases h2
  have hr := (i.assoc_aok hA).ok.rng v (by unfold Assoc.dom; rw [h1]; rfl)
  have := h v (by omega)
  simp only [h1, Bool.or_eq_true, beq_iff_eq] at this
  rcases this with h0 | hv
  · rcases (h3.const_iff i.wf).1 h0 with rfl | rfl
    · exact Or.inl ⟨_, rfl⟩
    · exact Or.inl ⟨_, rfl⟩
  · by_cases h0 : e.id = 0
    · rcases (h3.const_iff i.wf).1 h0 with rfl | rfl
      · exact Or.inl ⟨_, rfl⟩
      · exact Or.inl ⟨_, rfl⟩
    obtain ⟨n, hn, hnv⟩ := h3.eok.node i.wf h0
    obtain ⟨e1, e2⟩ := i.wf.var_range _ _ hn
    rw [hnv] at e1 e2
    obtain ⟨h', h4, h5, h6⟩ := i.rep_var e1 e2
    rw [hv] at h4; cases h4
    exact Or.inr ⟨_, h3.unique i.wf h6⟩

theorem legalB_ok {own lk} {m : Mgr} (i : m.Inv own lk) {c : Call} (h : legalB own m c = true) :
    c.Legal own m := by
  have nc : ∀ {f : Handle}, (liveB own f && !(f.addr == 1)) = true →
      OArg own f ∧ ∀ b, ¬ Den m f fun _ => b := by
    intro f h
    simp only [Bool.and_eq_true, Bool.not_eq_true', beq_eq_false_iff_ne, ne_eq] at h
    refine ⟨Or.inr (liveB_ok h.1), fun b d => h.2 ?_⟩
    have := (Mgr.handle_eq i d (Mgr.const_den i (!b))).2 (by simp)
    rw [this]
  have lv : ∀ {hs : List Handle}, hs.all (liveB own) = true → ∀ h ∈ hs, UTab.Live own h :=
    fun h x hx => liveB_ok (List.all_eq_true.1 h x hx)
  have li : ∀ {hs : List Handle} {pairs : Bool}, (∀ h ∈ hs, UTab.Live own h) →
      (pairs || hs.all (litB m)) = true → (pairs = false → Literals m hs) := by
    rintro hs pairs l h rfl x hx
    exact litB_ok i (l x hx) (List.all_eq_true.1 h x hx)
  have cmp : ∀ {f g : Handle}, (!(g.addr == 1 && f.neg)) = true → (∃ b, Den m g fun _ => b) → f.neg = false := by
    rintro f g h ⟨b, d⟩
    have := (Mgr.handle_eq i d (Mgr.const_den i (!b))).2 (by simp)
    rw [this] at h
    simpa using h
  have con : ∀ {g : Handle} {b}, (Den m g fun _ => b) → g = ⟨1, !b⟩ := by
    intro g b d
    have h1 := Mgr.const_den i (!b)
    exact (Mgr.handle_eq i d h1).2 (by simp)
  have red : ∀ {c : Handle}, (!(c == ⟨1, true⟩)) = true → ¬ Den m c fun _ => false := by
    intro c h d
    rw [con d] at h
    simp at h
  have btw : ∀ {f g : Handle}, (!(f == ⟨1, true⟩ && g == ⟨1, false⟩)) = true →
      ¬ (Den m f (fun _ => false) ∧ Den m g fun _ => true) := by
    rintro f g h ⟨d, d'⟩
    rw [con d, con d'] at h
    simp at h
  cases c <;> simp only [legalB, Bool.and_eq_true, decide_eq_true_eq] at h <;>
    simp only [Call.Legal] <;>
    first
    | exact nc (by simpa using h)
    | exact liveB_ok h
    | exact argB_ok h
    | exact ⟨argB_ok h.1, argB_ok h.2⟩
    | exact ⟨argB_ok h.1.1, argB_ok h.1.2, argB_ok h.2⟩
    | exact ⟨argB_ok h.1.1, argB_ok h.1.2, red h.2⟩
    | exact ⟨argB_ok h.1.1, argB_ok h.1.2, btw h.2⟩
    | exact ⟨argB_ok h.1.1, varB_ok i h.1.2, varB_ok i h.2⟩
    | exact ⟨liveB_ok h.1.1.1, liveB_ok h.1.1.2, liveB_ok h.1.2, cmp h.2⟩
    | exact ⟨argB_ok h.1, fun _ => h.2⟩
    | exact ⟨argB_ok h.1.1, argB_ok h.1.2, fun _ => h.2⟩
    | exact ⟨argB_ok h.1.1, varTabB_ok i h.1.2, fun _ => h.2⟩
    | exact lv h
    | exact ⟨argB_ok h.1, lv h.2⟩
    | exact ⟨lv h.1.1, fun ys _ he => by
        obtain ⟨er, R, h'⟩ := Dump.file_total ys _ _ (fun c hc => of_decide_eq_true (List.all_eq_true.1 h.1.2 c hc)) h.2
        rw [h'] at he; cases he⟩
    | exact ⟨lv h.1, h.2⟩
    | exact ⟨liveB_ok h.1, h.2⟩
    | exact ⟨lv h.1.1, li (lv h.1.1) (by simpa using h.1.2), h.2⟩
    | exact ⟨lv h.1, li (lv h.1) (by simpa using h.2)⟩
    | exact h
    | trivial

/-- The state of a session: what the user holds, the manager, whether references leaked, and the
results so far, the last one first. -/
structure Sess where
  own : Nat → Nat
  lk : Bool
  m : Mgr
  rets : List Ret

/-- One call, if it passes the check. -/
def step (E : Env) (s : Sess) (c : Call) : Option Sess :=
  if legalB s.own s.m c then
    match c.run E s.m with
    | none => none
    | some (m', r) => some ⟨c.own s.own r, s.lk || c.leaks, m', r :: s.rets⟩
  else none

/-- A list of calls. -/
def run (E : Env) : Sess → List Call → Option Sess
  | s, [] => some s
  | s, c :: cs => match step E s c with
    | none => none
    | some s' => run E s' cs

def start : Sess := ⟨fun _ => 0, false, Mgr.init fun _ _ _ => 0, []⟩

theorem step_reachable {E : Env} (S : E.Sound) {s s' : Sess} {c} (r : Reachable E s.own s.lk s.m)
    (h : step E s c = some s') : Reachable E s'.own s'.lk s'.m := by
  unfold step at h
  split at h
  · rename_i hl
    split at h
    · cases h
    · rename_i m' ret hr
      cases h
      exact r.call c (legalB_ok (r.inv S) hl) hr
  · cases h

theorem run_reachable {E : Env} (S : E.Sound) : ∀ (cs : List Call) {s s' : Sess},
    Reachable E s.own s.lk s.m → run E s cs = some s' → Reachable E s'.own s'.lk s'.m
  | [], s, s', r, h => by cases h; exact r
  | c :: cs, s, s', r, h => by
    unfold run at h
    split at h
    · cases h
    · rename_i s1 h1
      exact run_reachable S cs (step_reachable S r h1) h

theorem start_reachable {E : Env} : Reachable E start.own start.lk start.m := .init _

/-- What a script leads to, when it runs. -/
def go (cs : List Call) (h : (run Env.plain start cs).isSome = true) : Sess :=
  (run Env.plain start cs).get h

theorem go_reachable (cs : List Call) (h : (run Env.plain start cs).isSome = true) :
    Reachable Env.plain (go cs h).own (go cs h).lk (go cs h).m :=
  run_reachable Env.plain_sound cs start_reachable (Option.some_get h).symm

/-! ## The functions of handles, by evaluation -/

/-- decision trees -/
inductive Tree
  | leaf (b : Bool)
  | node (v : Nat) (t e : Tree)
deriving DecidableEq

def Tree.fn : Tree → BFn
  | leaf b, _ => b
  | node v t e, ρ => if ρ v then t.fn ρ else e.fn ρ

/-- the decision tree of an edge -/
def tree (s : Store) : Nat → Edge → Option Tree
  | 0, _ => none
  | k + 1, e =>
    if e.addr = 0 then if e.id = 0 then some (.leaf (!e.neg)) else none
    else
      match s.heap e.addr with
      | none => none
      | some n =>
        if n.var = e.id then
          match tree s k (n.thn.phase e.neg), tree s k (n.els.phase e.neg) with
          | some t, some u => some (.node n.var t u)
          | _, _ => none
        else none

theorem tree_rep {s : Store} : ∀ k {e T}, tree s k e = some T → Rep s e T.fn
  | 0, _, _, h => by cases h
  | k + 1, ⟨v, a, b⟩, T, h => by
    unfold tree at h
    simp only at h
    split at h
    · rename_i ha
      split at h
      · rename_i hv
        cases h; subst ha; subst hv
        cases b
        · exact Rep.one
        · exact Rep.zero
      · cases h
    · split at h
      · cases h
      · rename_i n hn
        split at h
        · rename_i hv
          split at h
          · rename_i t u ht hu
            cases h
            have rt := tree_rep k ht
            have ru := tree_rep k hu
            subst hv
            cases b
            · have := Rep.pos hn (by simpa [Edge.phase] using rt) (by simpa [Edge.phase] using ru)
              exact this
            · have e1 : (n.thn.phase true).not = n.thn := by cases n.thn; simp [Edge.phase, Edge.not]
              have e2 : (n.els.phase true).not = n.els := by cases n.els; simp [Edge.phase, Edge.not]
              have h1 := rt.not; have h2 := ru.not
              rw [e1] at h1; rw [e2] at h2
              have := Rep.neg hn h1 h2
              refine (congrArg (Rep s _) ?_).mp this
              funext ρ
              simp only [Tree.fn]
              split <;> simp
          · cases h
        · cases h

/-- the decision tree of a handle -/
def treeOf (m : Mgr) (h : Handle) : Option Tree :=
  match m.internal h with
  | none => none
  | some e => tree m.st (m.st.ord.numVars + 1) e

theorem den_of {m : Mgr} {h : Handle} {T : Tree} {F : BFn} (ht : treeOf m h = some T)
    (hF : ∀ ρ, T.fn ρ = F ρ) : Den m h F := by
  obtain rfl : T.fn = F := funext hF
  unfold treeOf at ht
  split at ht
  · cases ht
  · rename_i e he
    unfold Mgr.internal at he
    cases hh : m.ut.heap h.addr with
    | none => rw [hh] at he; cases he
    | some d =>
      rw [hh] at he; cases he
      exact ⟨d, hh, tree_rep _ ht⟩

/-! ## A session -/

/-- variables `a`, `b`, `c` (handles 2, 3, 4), `a ∧ b` (5), `(a ∧ b) ∨ c` (6), and an association of
the variable `a` -/
def script : List Call :=
  [.newVarLast, .newVarLast, .newVarLast, .and ⟨2, false⟩ ⟨3, false⟩, .or ⟨5, false⟩ ⟨4, false⟩,
   .associationInit [⟨2, false⟩] false, .associationSetCurrent 0]

theorem script_runs : (run Env.plain start script).isSome = true := by decide +kernel

/-- the state after it -/
def sess : Sess := go script script_runs

theorem reach : Reachable Env.plain sess.own sess.lk sess.m := go_reachable script script_runs

theorem live2 : UTab.Live sess.own ⟨2, false⟩ := liveB_ok (by decide +kernel)
theorem live3 : UTab.Live sess.own ⟨3, false⟩ := liveB_ok (by decide +kernel)
theorem live4 : UTab.Live sess.own ⟨4, false⟩ := liveB_ok (by decide +kernel)
theorem live5 : UTab.Live sess.own ⟨5, false⟩ := liveB_ok (by decide +kernel)
theorem live6 : UTab.Live sess.own ⟨6, false⟩ := liveB_ok (by decide +kernel)

/-- the decision tree of a literal -/
def lit (v : Nat) : Tree := .node v (.leaf true) (.leaf false)

theorem den2 : Den sess.m ⟨2, false⟩ (fun ρ => ρ 1) :=
  den_of (T := lit 1) (by decide +kernel) fun ρ => by simp [Tree.fn, lit]
theorem den3 : Den sess.m ⟨3, false⟩ (fun ρ => ρ 2) :=
  den_of (T := lit 2) (by decide +kernel) fun ρ => by simp [Tree.fn, lit]
theorem den4 : Den sess.m ⟨4, false⟩ (fun ρ => ρ 3) :=
  den_of (T := lit 3) (by decide +kernel) fun ρ => by simp [Tree.fn, lit]
theorem den5 : Den sess.m ⟨5, false⟩ (fun ρ => ρ 1 && ρ 2) :=
  den_of (T := .node 1 (lit 2) (.leaf false)) (by decide +kernel) fun ρ => by
    cases h1 : ρ 1 <;> cases h2 : ρ 2 <;> simp [Tree.fn, lit, h1, h2]
theorem den6 : Den sess.m ⟨6, false⟩ (fun ρ => ρ 1 && ρ 2 || ρ 3) :=
  den_of (T := .node 1 (.node 2 (.leaf true) (lit 3)) (lit 3)) (by decide +kernel) fun ρ => by
    cases h1 : ρ 1 <;> cases h2 : ρ 2 <;> simp [Tree.fn, lit, h1, h2]

/-- the results of a script, the last one first -/
def results (cs : List Call) : Option (List Ret) := (run Env.plain start cs).map (·.rets)

/-- A check that a script passes at its end. -/
def checks (cs : List Call) (P : Sess → Bool) : Bool :=
  match run Env.plain start cs with
  | some s => P s
  | none => false

/-- A script that passes a check leads to a reachable state that does. -/
theorem witness {cs : List Call} {P : Sess → Bool} (h : checks cs P = true) :
    ∃ s : Sess, Reachable Env.plain s.own s.lk s.m ∧ P s = true := by
  unfold checks at h
  split at h
  · rename_i s hs
    exact ⟨s, run_reachable Env.plain_sound cs start_reachable hs, h⟩
  · cases h

end Demo
end Cal
