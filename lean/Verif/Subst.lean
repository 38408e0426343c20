import Verif.Compose
import Verif.Nest

/-!
# Substitute

`Cal_BddSubstitute` (calBddSubstitute.c:81-133) on internal BDDs: the requests are applied like those of
other operations; in the reduce phase each table is combined by if-then-else operations in a second
queue. The reduce phase is written for any way of handling one request (`step`) and any start of the
if-then-else operations (`start`), as `Cal_BddVarSubstitute` has the same loop.
-/

namespace Cal
namespace Eng

open BF

/-- Substitute requests in `reqQue[0]`, if-then-else requests in `reqQue[1]`
(calBddSubstitute.c:88-89). A request is split into the branches of `f` (lines 167-189); a branch at
an index above `lastBddIndex` is its own result (lines 171, 181). -/
def subRules (last : Int) : Rules Prob where
  que
    | .sub _ => 0
    | .ite _ => 1
    | _ => 2
  top o
    | .sub f => f.id
    | .ite q => minId3 o q
    | _ => 0
  split s
    | .sub f =>
      match s.kids f with
      | some (t, e) => some (.sub t, .sub e)
      | none => none
    | .ite q => iteSplit s q
    | _ => none
  want s
    | .sub f => some (if (s.ord.lvl f.id : Int) ≤ last then .req (.sub f) false else .edge f)
    | .ite q => some (iteWant q)
    | _ => none

/-- A request whose result is an if-then-else operation (calBddSubstitute.c:241-249, 311-319): the
references to the branches are dropped, the operation is requested and the request listed with it.
In C the request is marked as forwarded to the request of the operation. -/
def listIte (last : Int) (a i d : Nat) (h t e : Edge) (b : BF Prob) (l : List (Nat × Edge)) :
    Option (BF Prob × List (Nat × Edge)) :=
  match ({ b with
      st := (b.st.dcr t).dcr e
      req := upd b.req a (some ⟨i, d, .pend .wait⟩) } : BF Prob).act (subRules last) (.ite (h, t, e)) with
  | some (b', some o) => some (b', (a, o) :: l)
  | _ => none

/-- One request in `CalHashTableSubstituteReduce` (calBddSubstitute.c:225-322): `σ` is the current
association, `vb` the BDDs of the variables. -/
def subStep (last : Int) (σ vb : Nat → Option Edge) (a : Nat) (b : BF Prob) (l : List (Nat × Edge)) :
    Option (BF Prob × List (Nat × Edge)) :=
  match b.req a with
  | some ⟨i, d, .done t0 e0⟩ =>
    if b.forward t0 = b.forward e0 ∨ (σ i = none ∧ b.st.ord.lvl i < b.st.ord.lvl (b.forward t0).id ∧
        b.st.ord.lvl i < b.st.ord.lvl (b.forward e0).id) then
      match b.reduceOne i a with
      | none => none
      | some b' => some (b', l)
    else
      match σ i with
      | some h => listIte last a i d h (b.forward t0) (b.forward e0) b l
      | none =>
        match vb i with
        | some h => listIte last a i d h (b.forward t0) (b.forward e0) b l
        | none => none
  | _ => none

/-- The loop over the requests of a table (calBddSubstitute.c:218-322). -/
def subScan (step : Nat → BF Prob → List (Nat × Edge) → Option (BF Prob × List (Nat × Edge))) :
    List Nat → BF Prob → List (Nat × Edge) → Option (BF Prob × List (Nat × Edge))
  | [], b, l => some (b, l)
  | a :: as, b, l =>
    match step a b l with
    | none => none
    | some (b', l') => subScan step as b' l'

/-- The loop over the listed requests (calBddSubstitute.c:345-355). -/
def subFix : List (Nat × Edge) → BF Prob → Option (BF Prob)
  | [], b => some b
  | (a, o) :: l, b =>
    match b.req a with
    | some ⟨i, d, _⟩ =>
      subFix l { b with
        st := b.st.addRef (b.forward o) (b.st.ref a)
        req := upd b.req a (some ⟨i, d, .fwd (b.forward o)⟩) }
    | none => none

/-- `CalHashTableSubstituteReduce` (calBddSubstitute.c:197-365) on the table of index `k`; the
if-then-else operations run from index `start`. -/
def subTab (last : Int) (step : Nat → BF Prob → List (Nat × Edge) → Option (BF Prob × List (Nat × Edge)))
    (start : Order → List (Nat × Edge) → Nat) (k : Nat) (b : BF Prob) : Option (BF Prob) :=
  match subScan step (b.que 0 (b.st.ord.indexToId k)) b [] with
  | none => none
  | some (b1, l) =>
    match runR (subRules last) [1] (start b1.st.ord l) b1 with
    | none => none
    | some b2 =>
      match subFix l b2 with
      | none => none
      | some b3 => some (cleanUpTabs [1] (allIds b3.st.ord) b3)

/-- The reduce phase over the indices `lo+n-1`, ..., `lo` (calBddSubstitute.c:115-123). Tables
without requests are skipped in C; here nothing happens for them. -/
def subRange (last : Int) (step : Nat → BF Prob → List (Nat × Edge) → Option (BF Prob × List (Nat × Edge)))
    (start : Order → List (Nat × Edge) → Nat) (lo : Nat) : Nat → BF Prob → Option (BF Prob)
  | 0, b => some b
  | n+1, b =>
    match subTab last step start (lo + n) b with
    | none => none
    | some b' => subRange last step start lo n b'

/-- `Cal_BddSubstitute` (calBddSubstitute.c:97-131) on an internal BDD that is not constant. -/
def substBF (s : Store) (σ vb : Nat → Option Edge) (last : Int) (f : Edge) : Option (Store × Edge) :=
  match (BF.init s).findOrAddReq 0 f.id (.sub f) with
  | none => none
  | some (b, e) =>
    match applyRange (subRules last) [0] 0 s.ord.numVars b with
    | none => none
    | some b1 =>
      match subRange last (subStep last σ vb) (fun _ _ => 0) 0 s.ord.numVars b1 with
      | none => none
      | some b2 => some ((cleanUpTabs [0] (allIds s.ord) b2).st, b2.forward e)

/-! ## Meaning of the requests -/

/-- only variables up to index `last`, which is the index of a variable, are replaced -/
def Below (last : Int) (S : Nat → BFn) (o : Order) : Prop :=
  last < o.numVars ∧ ∀ v, 1 ≤ v → v ≤ o.numVars → last < (o.lvl v : Int) → S v = fun ρ => ρ v

def SubOk (last : Int) (S : Nat → BFn) (s : Store) (k : Nat) (f : Edge) (F : BFn) : Prop :=
  Below last S s.ord ∧ ∃ X, Rep s f X ∧ k ≤ s.ord.lvl f.id ∧ F = substFn S X

def SubPd (last : Int) (S : Nat → BFn) (s : Store) (f : Edge) (F : BFn) : Prop :=
  Below last S s.ord ∧ f.id ≠ 0 ∧ ∃ X, Rep s f X ∧ F = substFn S X

theorem SubOk.mono {last S s s' k f F} (hl : s.Le s') (x : SubOk last S s k f F) :
    SubOk last S s' k f F := by
  obtain ⟨h0, X, h1, h2, h3⟩ := x
  rw [← hl.ord] at h0 h2
  exact ⟨h0, X, h1.mono hl, h2, h3⟩

theorem SubPd.mono {last S s s' f F} (hl : s.Le s') (x : SubPd last S s f F) :
    SubPd last S s' f F := by
  obtain ⟨h0, h, X, h1, h3⟩ := x
  rw [← hl.ord] at h0
  exact ⟨h0, h, X, h1.mono hl, h3⟩

theorem SubPd.fun {last S s f F F'} (w : s.WF) (x : SubPd last S s f F) (y : SubPd last S s f F') :
    F = F' := by
  obtain ⟨-, -, X, h1, h3⟩ := x
  obtain ⟨-, -, X', h1', h3'⟩ := y
  rw [h3, h3', h1.unique w h1']

def subPd (last : Int) (S : Nat → BFn) (s : Store) (x : Prob) (F : BFn) : Prop :=
  match x with
  | .sub f => SubPd last S s f F
  | .ite q => KPd iteSem s q F
  | .wait => True
  | _ => False

theorem subPd_mono {last S s s' x F} (hl : s.Le s') (h : subPd last S s x F) : subPd last S s' x F := by
  cases x <;> first | exact KPd.mono hl h | exact SubPd.mono hl h | exact h

/-- what selects between the branches of a request: the value of the variable in queue 0, the
variable in queue 1 -/
def subSel (S : Nat → BFn) (d i : Nat) : BFn := if d = 0 then S i else fun ρ => ρ i

/-- the substitute requests -/
def subSem (last : Int) (S : Nat → BFn) : RulesSem (subRules last) where
  Ok s k x F :=
    match x with
    | .sub f => SubOk last S s k f F
    | _ => False
  Null _ _ := False
  Pd := subPd last S
  sel := subSel S
  loose := True
  ok_mono := by
    intro s s' k x F hl h
    cases x <;> first | exact SubOk.mono hl h | exact h
  null_mono := fun _ h => h
  pd_mono := subPd_mono

/-- the if-then-else requests -/
def iteS (last : Int) (S : Nat → BFn) : RulesSem (subRules last) where
  Ok s k x F :=
    match x with
    | .ite q => KOk iteSem s k q F
    | _ => False
  Null _ _ := False
  Pd := subPd last S
  sel := subSel S
  ok_mono := by
    intro s s' k x F hl h
    cases x <;> first | exact KOk.mono hl h | exact h
  null_mono := fun _ h => h
  pd_mono := subPd_mono

theorem substFn_below {last S} {s : Store} (w : s.WF) (hb : Below last S s.ord) {f X} (rf : Rep s f X)
    (hl : last < (s.ord.lvl f.id : Int)) : substFn S X = X := by
  funext ρ
  apply rf.agree w
  intro v v1 v2 hv
  rw [hb.2 v v1 v2 (by omega)]

theorem substFn_shannon (S : Nat → BFn) (X : BFn) (i : Nat) :
    substFn S X = fun ρ => if S i ρ then substFn S (fun ρ => X (upd ρ i true)) ρ
      else substFn S (fun ρ => X (upd ρ i false)) ρ := by
  funext ρ
  simp only [substFn]
  have h : upd (fun v => S v ρ) i (S i ρ) = fun v => S v ρ := upd_self' _ i
  cases hv : S i ρ
  · rw [hv] at h; simp [h]
  · rw [hv] at h; simp [h]

theorem subOk (last : Int) (S : Nat → BFn) : RulesOk (subSem last S) (fun d => d = 0) where
  pd_fun := by
    intro s p F F' w hq h h'
    cases p with
    | sub f => exact SubPd.fun w h h'
    | ite q => simp [subRules] at hq
    | wait => simp [subRules] at hq
    | _ => exact h.elim
  want_null := fun _ h => h.elim
  want_ok := by
    intro s k x F w h
    cases x with
    | sub f =>
      obtain ⟨hb, X, rf, hk, rfl⟩ := h
      by_cases hl : (s.ord.lvl f.id : Int) ≤ last
      · have hf0 : f.id ≠ 0 := by
          intro h0
          have := hb.1
          have := w.ord.bound
          rw [h0] at hl; simp only [Order.lvl, if_true] at hl; omega
        exact .req (.sub f) false (substFn S X) (by simp only [subRules, hl, if_true])
          ⟨hb, hf0, X, rf, rfl⟩ rfl (eok_range w rf.eok hf0) hk (by funext ρ; simp)
      · refine .edge f (by simp only [subRules, hl, if_false]) ?_ hk
        rw [substFn_below w hb rf (by omega)]; exact rf
    | _ => exact h.elim
  split_ok := by
    intro s p F w hq h
    cases p with
    | sub f =>
      obtain ⟨hb, hf0, X, rf, rfl⟩ := h
      obtain ⟨t, u, hk, rt, ru, l1, l2, -⟩ := rf.kids w hf0
      exact .two (.sub t) (.sub u) (substFn S (fun ρ => X (upd ρ f.id true)))
        (substFn S (fun ρ => X (upd ρ f.id false))) (by simp only [subRules, hk])
        ⟨hb, _, rt, l1, rfl⟩ ⟨hb, _, ru, l2, rfl⟩ (substFn_shannon S X f.id)
    | ite q => simp [subRules] at hq
    | wait => simp [subRules] at hq
    | _ => exact h.elim

theorem iteOk (last : Int) (S : Nat → BFn) : RulesOk (iteS last S) (fun d => d = 1) where
  pd_fun := by
    intro s p F F' w hq h h'
    cases p with
    | ite q => exact KPd.fun w h h'
    | sub f => simp [subRules] at hq
    | wait => simp [subRules] at hq
    | _ => exact h.elim
  want_null := fun _ h => h.elim
  want_ok := by
    intro s k x F w h
    cases x with
    | ite q => exact iteWant_ok (fun q => by simp [subRules]) (fun _ _ => rfl) (fun _ _ _ h => h) w rfl h
    | _ => exact h.elim
  split_ok := by
    intro s p F w hq h
    cases p with
    | ite q => exact iteSplit_ok (fun _ _ => rfl) (fun _ _ _ _ h => h) w rfl h (fun i => rfl)
    | sub f => simp [subRules] at hq
    | wait => simp [subRules] at hq
    | _ => exact h.elim

theorem itePlain (last : Int) (S : Nat → BFn) : (iteS last S).Plain (fun d => d = 1) :=
  ⟨fun d i hd => by rw [hd]; rfl, id⟩

/-! ## The reduce phase -/

section
variable {last : Int} {S : Nat → BFn} {P : Nat → Prop}

abbrev Q0 : Nat → Prop := fun d => d = 0
abbrev Q1 : Nat → Prop := fun d => d = 1
abbrev Q01 : Nat → Prop := fun d => d = 0 ∨ d = 1

theorem fwd_rep {b : BF Prob} {G A B} (ei : EI (iteS last S) A b G) {e F} (v : b.Val G e F) (ev : EVa B b e)
    (hf : ∀ r, b.req e.addr = some r → B r.dep → r.id = e.id → ∃ t, r.cell = .fwd t) :
    Rep b.st (b.forward e) F := by
  have hok : b.st.EOK e → b.forward e = e := by
    intro ok
    rcases forward_eq_or (b := b) e with ⟨h, _⟩ | ⟨j, d, t, h, _⟩
    · exact h
    · exact absurd rfl (EOK_ne_req ei.sh h ok)
  rcases v with v | ⟨r, h1, h2, h3⟩
  · rw [hok v.eok]; exact v
  · rcases ev with ev | ⟨r', h4, h5, h6⟩
    · exact absurd rfl (EOK_ne_req ei.sh h1 ev)
    · rw [h4] at h1; cases h1
      obtain ⟨t, ht⟩ := hf r h4 h6 h5
      obtain ⟨i, d, c⟩ := r
      simp only at ht h5 h6; subst ht; subst h5
      have : b.forward e = t.phase e.neg := by simp only [forward, h4]
      rw [this, h3]
      exact (ei.fwd _ _ _ _ h4).phase e.neg

/-- a branch of a substitute request: a node, or a substitute request below -/
def Branch (b : BF Prob) (k : Nat) (e : Edge) : Prop :=
  EVa Q0 b e ∧ (k < b.st.ord.lvl e.id ∨ b.st.EOK e)

theorem Branch.mono {b b' : BF Prob} {G G' A k e} (h : Branch b k e) (st : Stp A b G b' G') :
    Branch b' k e :=
  ⟨h.1.mono st, h.2.imp (fun h => by rw [st.st.ord]; exact h) (fun h => h.mono st.st)⟩

/-- A substitute request that is still to be reduced. -/
def Todo (b : BF Prob) (r : Req Prob) : Prop :=
  ∃ t e, r.cell = .done t e ∧ Branch b (b.st.ord.lvl r.id) t ∧ Branch b (b.st.ord.lvl r.id) e

theorem Todo.mono {b b' : BF Prob} {G G' A r} (h : Todo b r) (st : Stp A b G b' G') : Todo b' r := by
  obtain ⟨t, e, h1, h2, h3⟩ := h
  refine ⟨t, e, h1, ?_, ?_⟩
  · rw [st.st.ord]; exact h2.mono st
  · rw [st.st.ord]; exact h3.mono st

/-- A listed request with the result of its if-then-else operation. -/
def Listed (b : BF Prob) (G : Nat → BFn) (p : Nat × Edge) : Prop :=
  (∃ i, b.req p.1 = some ⟨i, 0, .pend .wait⟩) ∧ b.Val G p.2 (G p.1) ∧ EVa Q1 b p.2

/-- State of the scan of the table of index `k`; `L` are the requests left, `l` those listed. -/
structure SR (P : Nat → Prop) (start : Order → List (Nat × Edge) → Nat) (k : Nat) (L : List Nat) (l : List (Nat × Edge))
    (b : BF Prob) (G : Nat → BFn) : Prop where
  dp : ∀ a r, b.req a = some r → r.dep = 0 ∨ r.dep = 1
  todo : ∀ a r, b.req a = some r → r.dep = 0 → (b.st.ord.lvl r.id < k ∨ b.st.ord.lvl r.id = k ∧ a ∈ L) →
    Todo b r
  past : ∀ a r, b.req a = some r → r.dep = 0 → k < b.st.ord.lvl r.id → ∃ t, r.cell = .fwd t
  here : ∀ a r, b.req a = some r → r.dep = 0 → b.st.ord.lvl r.id = k → a ∉ L →
    (∃ t, r.cell = .fwd t) ∨ (r.cell = .pend .wait ∧ a ∈ l.map (·.1))
  ite : ∀ a r, b.req a = some r → r.dep = 1 → (∃ p, r.cell = .pend p) ∧ start b.st.ord l ≤ b.st.ord.lvl r.id
  left : ∀ a ∈ L, ∃ r, b.req a = some r ∧ r.dep = 0 ∧ b.st.ord.lvl r.id = k
  nodup : L.Nodup
  ls : ∀ p ∈ l, Listed b G p
  lnd : (l.map (·.1)).Nodup
  ids : ∀ a r, b.req a = some r → r.dep = 0 → P r.id

/-- `start` is at or above the results listed. -/
structure StartOk (start : Order → List (Nat × Edge) → Nat) : Prop where
  cons : ∀ o p l, start o (p :: l) ≤ start o l
  new : ∀ o p l, start o (p :: l) ≤ o.lvl p.2.id
  le : ∀ o l, start o l ≤ o.numVars

/-- The first request of the list was reduced or listed. -/
theorem SR.step {start k a L l l'} {b b' : BF Prob} {G G'} (h : SR P start k (a :: L) l b G)
    (st : Stp Q01 b G b' G') (hs : ∀ o, start o l' ≤ start o l)
    (o1 : ∀ x r, x ≠ a → b.req x = some r → b'.req x = some r)
    (n1 : ∀ x r, x ≠ a → b'.req x = some r → b.req x = some r ∨
      (r.dep = 1 ∧ (∃ p, r.cell = .pend p) ∧ start b.st.ord l' ≤ b.st.ord.lvl r.id))
    (ra : b'.req a = none ∨ (∃ i t, b'.req a = some ⟨i, 0, .fwd t⟩) ∨
      (∃ i, b'.req a = some ⟨i, 0, .pend .wait⟩) ∧ a ∈ l'.map (·.1))
    (rl : ∀ r, b'.req a = some r → ∃ c, b.req a = some ⟨r.id, 0, c⟩)
    (hl : (l' = l) ∨ ∃ o, l' = (a, o) :: l ∧ Listed b' G' (a, o)) :
    SR P start k L l' b' G' := by
  have hn := h.nodup
  simp only [List.nodup_cons] at hn
  have ho := st.st.ord
  have rl' : ∀ r, b'.req a = some r → b.st.ord.lvl r.id = k := by
    intro r hx
    obtain ⟨c, hc⟩ := rl r hx
    obtain ⟨r', h1, h2, h3⟩ := h.left a (by simp)
    rw [hc] at h1; cases h1; exact h3
  have hal : a ∉ l.map (·.1) := by
    intro hm
    obtain ⟨p, hp, rfl⟩ := List.mem_map.1 hm
    obtain ⟨⟨i, hr⟩, -⟩ := h.ls p hp
    obtain ⟨r, h1, h2, h3⟩ := h.left p.1 (by simp)
    obtain ⟨t, e, h4, -⟩ := h.todo p.1 r h1 h2 (Or.inr ⟨h3, by simp⟩)
    rw [hr] at h1; cases h1; cases h4
  have hmem : ∀ x, x ∈ l.map (·.1) → x ∈ l'.map (·.1) := by
    intro x hx
    rcases hl with rfl | ⟨o, rfl, _⟩
    · exact hx
    · rw [List.map_cons]; exact List.mem_cons_of_mem _ hx
  refine ⟨?_, ?_, ?_, ?_, ?_, ?_, hn.2, ?_, ?_, ?_⟩
  · intro x r hx
    by_cases hxa : x = a
    · subst hxa
      rcases ra with ra | ⟨i, t, ra⟩ | ⟨⟨i, ra⟩, _⟩ <;> rw [ra] at hx <;> cases hx <;> exact Or.inl rfl
    · rcases n1 x r hxa hx with h1 | ⟨h1, _⟩
      · exact h.dp x r h1
      · exact Or.inr h1
  · intro x r hx hd hlv
    rw [ho] at hlv
    by_cases hxa : x = a
    · subst hxa
      have := rl' r hx
      rcases hlv with h1 | ⟨_, h1⟩
      · omega
      · exact absurd h1 hn.1
    · rcases n1 x r hxa hx with h1 | ⟨h1, _⟩
      · refine (h.todo x r h1 hd ?_).mono st
        rcases hlv with h2 | ⟨h2, h3⟩
        · exact Or.inl h2
        · exact Or.inr ⟨h2, by simp [h3]⟩
      · omega
  · intro x r hx hd hlv
    rw [ho] at hlv
    by_cases hxa : x = a
    · subst hxa
      have := rl' r hx; omega
    · rcases n1 x r hxa hx with h1 | ⟨h1, _⟩
      · exact h.past x r h1 hd hlv
      · omega
  · intro x r hx hd hlv hxL
    rw [ho] at hlv
    by_cases hxa : x = a
    · subst hxa
      rcases ra with ra | ⟨i, t, ra⟩ | ⟨⟨i, ra⟩, hm⟩ <;> rw [ra] at hx <;> cases hx
      · exact Or.inl ⟨t, rfl⟩
      · exact Or.inr ⟨rfl, hm⟩
    · rcases n1 x r hxa hx with h1 | ⟨h1, _⟩
      · rcases h.here x r h1 hd hlv (by simp [hxa, hxL]) with h2 | ⟨h2, h3⟩
        · exact Or.inl h2
        · exact Or.inr ⟨h2, hmem x h3⟩
      · omega
  · intro x r hx hd
    rw [ho]
    by_cases hxa : x = a
    · subst hxa
      rcases ra with ra | ⟨i, t, ra⟩ | ⟨⟨i, ra⟩, _⟩ <;> rw [ra] at hx <;> cases hx <;> cases hd
    · rcases n1 x r hxa hx with h1 | ⟨_, h1⟩
      · obtain ⟨h2, h3⟩ := h.ite x r h1 hd
        exact ⟨h2, Nat.le_trans (hs _) h3⟩
      · exact h1
  · intro x hx
    obtain ⟨r, h1, h2, h3⟩ := h.left x (by simp [hx])
    have : x ≠ a := by rintro rfl; exact hn.1 hx
    exact ⟨r, o1 x r this h1, h2, by rw [ho]; exact h3⟩
  · have old : ∀ p ∈ l, Listed b' G' p := by
      intro p hp
      obtain ⟨⟨i, h1⟩, h2, h3⟩ := h.ls p hp
      have hne : p.1 ≠ a := by rintro rfl; exact hal (List.mem_map_of_mem hp)
      refine ⟨⟨i, o1 _ _ hne h1⟩, ?_, h3.mono st⟩
      rw [st.ghost _ (used_req h1)]; exact h2.mono st
    rcases hl with rfl | ⟨o, rfl, h1⟩
    · exact old
    · intro p hp
      rcases List.mem_cons.1 hp with rfl | hp
      · exact h1
      · exact old p hp
  · rcases hl with rfl | ⟨o, rfl, h1⟩
    · exact h.lnd
    · rw [List.map_cons, List.nodup_cons]; exact ⟨hal, h.lnd⟩
  · intro x r hx hd
    by_cases hxa : x = a
    · subst hxa
      obtain ⟨c, hc⟩ := rl r hx
      have := h.ids _ _ hc rfl; exact this
    · rcases n1 x r hxa hx with h1 | ⟨h1, _⟩
      · exact h.ids x r h1 hd
      · omega

/-- The branches of a request to be reduced are nodes by now. -/
theorem SR.branches {start k a L l} {b : BF Prob} {G} (h : SR P start k (a :: L) l b G)
    (ei : EI (iteS last S) Q1 b G) :
    ∃ i t0 e0 T E, b.req a = some ⟨i, 0, .done t0 e0⟩ ∧ b.st.ord.lvl i = k ∧
      Rep b.st (b.forward t0) T ∧ Rep b.st (b.forward e0) E ∧
      G a = (fun ρ => if S i ρ then T ρ else E ρ) := by
  obtain ⟨r, hr, hd, hl⟩ := h.left a (by simp)
  obtain ⟨t0, e0, hc, b1, b2⟩ := h.todo a r hr hd (Or.inr ⟨hl, by simp⟩)
  obtain ⟨i, d, c⟩ := r
  simp only at hd hl hc b1 b2
  subst hd; subst hc
  obtain ⟨T, E, v1, v2, hG⟩ := ei.done _ _ _ _ _ hr
  have key : ∀ {e : Edge} {F}, Branch b (b.st.ord.lvl i) e → b.Val G e F → Rep b.st (b.forward e) F := by
    intro e F hb v
    refine fwd_rep ei v hb.1 ?_
    intro r h1 h2 h3
    rcases hb.2 with h4 | h4
    · exact h.past _ r h1 h2 (by rw [h3]; omega)
    · exact absurd rfl (EOK_ne_req ei.sh h1 h4)
  exact ⟨i, t0, e0, T, E, hr, hl, key b1 v1, key b2 v2, hG⟩

/-- Reducing a request as other operations do. -/
theorem SR.reduced {start k a L l} {b b' : BF Prob} {G} {i : Nat} {c : Cell Prob} (h : SR P start k (a :: L) l b G)
    (hr : b.req a = some ⟨i, 0, c⟩) (st : Stp Q01 b G b' G)
    (n : ∀ x, x ≠ a → b'.req x = b.req x)
    (ra : b'.req a = none ∨ ∃ t, b'.req a = some ⟨i, 0, .fwd t⟩) : SR P start k L l b' G := by
  obtain ⟨r, hr', hd, hl⟩ := h.left a (by simp)
  rw [hr] at hr'; cases hr'
  refine h.step st (fun _ => Nat.le_refl _) (fun x r hx h1 => by rw [n x hx]; exact h1)
    (fun x r hx h1 => Or.inl (by rw [← n x hx]; exact h1)) ?_ ?_ (Or.inl rfl)
  · rcases ra with ra | ⟨t, ra⟩
    · exact Or.inl ra
    · exact Or.inr (Or.inl ⟨i, t, ra⟩)
  · intro r h1
    rcases ra with ra | ⟨t, ra⟩ <;> rw [ra] at h1 <;> cases h1
    exact ⟨_, hr⟩

theorem act_new {b b' : BF Prob} {o : Edge} {x} (h : b.act (subRules last) x = some (b', some o)) :
    ∀ a r, b'.req a = some r → b.req a = some r ∨ r.id = o.id := by
  intro a r hr
  simp only [act] at h
  split at h
  · cases h
  · cases h; exact Or.inl hr
  · cases h
  · split at h
    · cases h
    · rename_i b1 e1 hf
      cases h
      simp only [findOrAddReq] at hf
      split at hf
      · cases hf
      · cases hf; exact Or.inl hr
      · cases hf
        simp only [pushReq, upd] at hr
        split at hr
        · cases hr; exact Or.inr rfl
        · exact Or.inl hr
  · cases h; exact Or.inl hr

theorem listIte_spec {start} (hst : StartOk start) {k a L l} {b : BF Prob} {G}
    (h : SR P start k (a :: L) l b G) (ei : EI (iteS last S) Q1 b G) {i t0 e0 hh T E}
    (hr : b.req a = some ⟨i, 0, .done t0 e0⟩) (rt : Rep b.st (b.forward t0) T)
    (re : Rep b.st (b.forward e0) E) (rh : Rep b.st hh (S i))
    (hG : G a = fun ρ => if S i ρ then T ρ else E ρ) :
    ∃ b' l' G', listIte last a i 0 hh (b.forward t0) (b.forward e0) b l = some (b', l') ∧
      EI (iteS last S) Q1 b' G' ∧ Stp Q01 b G b' G' ∧ SR P start k L l' b' G' := by
  obtain ⟨ref1, h1⟩ := Store.dcr_eq b.st (b.forward t0)
  obtain ⟨ref2, h2⟩ := Store.dcr_eq (b.st.dcr (b.forward t0)) (b.forward e0)
  have href : (b.st.dcr (b.forward t0)).dcr (b.forward e0) = { b.st with ref := ref2 } := by rw [h2, h1]
  have hle : b.st.Le ((b.st.dcr (b.forward t0)).dcr (b.forward e0)) := by
    rw [href]; exact ⟨rfl, fun _ _ h => h⟩
  obtain ⟨r, hr', hd, hlv⟩ := h.left a (by simp)
  rw [hr] at hr'; cases hr'
  generalize hb1 : ({ b with
      st := (b.st.dcr (b.forward t0)).dcr (b.forward e0)
      req := upd b.req a (some ⟨i, 0, .pend .wait⟩) } : BF Prob) = b1
  have e1 : EI (iteS last S) Q1 b1 G := by
    rw [← hb1, href]
    exact (ei.ref ref2).set (a := a) (c := .pend .wait) hr (.pend trivial (fun h => by cases h))
  have hrn : ∀ x, x ≠ a → b1.req x = b.req x := by intro x hx; rw [← hb1]; exact upd_ne _ _ hx
  have hra : b1.req a = some ⟨i, 0, .pend .wait⟩ := by rw [← hb1]; exact upd_same _ _ _
  have hst1 : b1.st = { b.st with ref := ref2 } := by rw [← hb1]; exact href
  have s1 : Stp Q01 b G b1 G := by
    refine stp_of hr (Or.inl rfl) (by rw [hst1]; exact ⟨rfl, fun _ _ h => h⟩) hrn (Or.inr ⟨_, hra⟩) ?_ ?_
    · intro ext g1 g2
      rw [← hb1]
      exact g1.unset ei.sh hr rt.eok re.eok _
    · intro g; rw [hst1]; exact g.congr rfl rfl rfl
  have hop : Open Q1 0 b1 := by
    intro x r hx hd _
    by_cases hxa : x = a
    · subst hxa; rw [hra] at hx; cases hx; cases hd
    · rw [hrn x hxa] at hx; exact (h.ite x r hx hd).1
  have hok : (iteS last S).Ok b1.st 0 (.ite (hh, b.forward t0, b.forward e0)) (G a) := by
    have := KOk.ite (k := 0) (rh.mono s1.st) (rt.mono s1.st) (re.mono s1.st) (Nat.zero_le _) (Nat.zero_le _)
      (Nat.zero_le _)
    rw [hG]; exact this
  obtain ⟨b2, o, G2, h3, e2, g2, k2, v2, ev2, -⟩ := act_spec (iteOk last S).toActOk e1 hop hok
  have s2 : Stp Q01 b1 G b2 G2 := (g2.stp k2).weaken (fun d hd => Or.inr hd)
  have s12 := s1.trans s2
  refine ⟨b2, (a, o) :: l, G2, ?_, e2, s12, ?_⟩
  · simp only [listIte, hb1, h3]
  have ho : b1.st.ord = b.st.ord := s1.st.ord
  have ha2 : b2.req a = some ⟨i, 0, .pend .wait⟩ := g2.old _ _ hra
  refine h.step s12 (fun o' => hst.cons o' _ _) ?_ ?_ (Or.inr (Or.inr ⟨⟨i, ha2⟩, by simp⟩)) ?_
    (Or.inr ⟨o, rfl, ⟨i, ha2⟩, ?_, ev2⟩)
  · intro x r hx hq
    exact g2.old x r (by rw [hrn x hx]; exact hq)
  · intro x r hx hq
    rcases g2.new x r hq with h4 | ⟨-, h4, -, h5⟩
    · exact Or.inl (by rw [← hrn x hx]; exact h4)
    · by_cases h7 : b1.req x = some r
      · exact Or.inl (by rw [← hrn x hx]; exact h7)
      · refine Or.inr ⟨h4, h5, ?_⟩
        have h6 := (act_new h3 x r hq).resolve_left h7
        rw [h6]; exact hst.new _ (a, o) _
  · intro r hq; rw [ha2] at hq; cases hq; exact ⟨_, hr⟩
  · show b2.Val G2 o (G2 a)
    rw [s12.ghost a (used_req hr)]; exact v2

/-- The association and the variables' BDDs in the store. -/
def SelOk (σ vb : Nat → Option Edge) (S : Nat → BFn) (s : Store) : Prop :=
  ∀ i, 1 ≤ i → i ≤ s.ord.numVars → (∀ h, σ i = some h → Rep s h (S i)) ∧
    (σ i = none → S i = (fun ρ => ρ i) ∧ ∃ h, vb i = some h ∧ Rep s h (fun ρ => ρ i))

theorem SelOk.mono {σ vb S} {s s' : Store} (h : SelOk σ vb S s) (hl : s.Le s') : SelOk σ vb S s' := by
  intro i i1 i2
  rw [hl.ord] at i2
  obtain ⟨h1, h2⟩ := h i i1 i2
  refine ⟨fun e he => (h1 e he).mono hl, fun hn => ?_⟩
  obtain ⟨h3, e, h4, h5⟩ := h2 hn
  exact ⟨h3, e, h4, h5.mono hl⟩

/-- A way to reduce one substitute request. -/
def StepOk (last : Int) (S : Nat → BFn) (s0 : Store) (start : Order → List (Nat × Edge) → Nat)
    (step : Nat → BF Prob → List (Nat × Edge) → Option (BF Prob × List (Nat × Edge))) : Prop :=
  ∀ (P : Nat → Prop) k a L l b G, s0.Le b.st → EI (iteS last S) Q1 b G → SR P start k (a :: L) l b G →
    ∃ b' l' G', step a b l = some (b', l') ∧ EI (iteS last S) Q1 b' G' ∧ Stp Q01 b G b' G' ∧
      SR P start k L l' b' G'

theorem subStep_ok {σ vb} {s0 : Store} (hσ : SelOk σ vb S s0) {start} (hst : StartOk start) :
    StepOk last S s0 start (subStep last σ vb) := by
  intro P k a L l b G hle ei h
  obtain ⟨i, t0, e0, T, E, hr, hlv, rt, re, hG⟩ := h.branches ei
  have hir := ei.sh.req_id _ _ hr
  simp only at hir
  obtain ⟨h1, h2⟩ := (hσ.mono hle) i hir.1 hir.2
  simp only [subStep, hr]
  by_cases hte : b.forward t0 = b.forward e0
  · have hTE : T = E := Rep.unique ei.sh.wf rt (hte ▸ re)
    have hGT : G a = T := by rw [hG, ← hTE]; funext ρ; simp
    obtain ⟨b', hb', e', s', n', r'⟩ := reduceEq_spec (B := Q01) ei hr (Or.inl rfl) (by rw [hGT]; exact rt) hte
      (by simp)
    refine ⟨b', l, G, ?_, e', s', h.reduced hr s' n' r'⟩
    rw [if_pos (Or.inl hte), hb']
  · by_cases hc : σ i = none ∧ b.st.ord.lvl i < b.st.ord.lvl (b.forward t0).id ∧
        b.st.ord.lvl i < b.st.ord.lvl (b.forward e0).id
    · obtain ⟨h3, -⟩ := h2 hc.1
      obtain ⟨b', hb', e', s', n', r'⟩ := reduceDone_spec (B := Q01) ei hr (Or.inl rfl) rt re
        (by rw [hG, h3]) hc.2.1 hc.2.2
      refine ⟨b', l, G, ?_, e', s', h.reduced hr s' n' r'⟩
      rw [if_pos (Or.inr hc), hb']
    · rw [if_neg (fun h => h.elim hte hc)]
      cases hs : σ i with
      | some hh => exact listIte_spec hst h ei hr rt re (h1 hh hs) hG
      | none =>
        obtain ⟨h3, hh, h4, h5⟩ := h2 hs
        simp only [h4]
        exact listIte_spec hst h ei hr rt re (by rw [h3]; exact h5) hG

theorem subScan_spec {s0 : Store} {start} {step} (hstep : StepOk last S s0 start step) {k} :
    ∀ (L : List Nat) (l) (b : BF Prob) (G), s0.Le b.st → EI (iteS last S) Q1 b G → SR P start k L l b G →
    ∃ b' l' G', subScan step L b l = some (b', l') ∧ EI (iteS last S) Q1 b' G' ∧ Stp Q01 b G b' G' ∧
      SR P start k [] l' b' G' := by
  intro L
  induction L with
  | nil => intro l b G _ ei h; exact ⟨b, l, G, rfl, ei, Stp.refl _ _, h⟩
  | cons a L ih =>
    intro l b G hle ei h
    obtain ⟨b1, l1, G1, h1, e1, s1, i1⟩ := hstep P k a L l b G hle ei h
    obtain ⟨b2, l2, G2, h2, e2, s2, i2⟩ := ih l1 b1 G1 (hle.trans s1.st) e1 i1
    exact ⟨b2, l2, G2, by simp only [subScan, h1, h2], e2, s1.trans s2, i2⟩

/-- State of the loop over the listed requests. -/
structure FX (P : Nat → Prop) (k : Nat) (l : List (Nat × Edge)) (b : BF Prob) (G : Nat → BFn) : Prop where
  dp : ∀ a r, b.req a = some r → r.dep = 0 ∨ r.dep = 1
  todo : ∀ a r, b.req a = some r → r.dep = 0 → b.st.ord.lvl r.id < k → Todo b r
  past : ∀ a r, b.req a = some r → r.dep = 0 → k ≤ b.st.ord.lvl r.id →
    (∃ t, r.cell = .fwd t) ∨ (r.cell = .pend .wait ∧ a ∈ l.map (·.1))
  ite : ∀ a r, b.req a = some r → r.dep = 1 → ∃ t, r.cell = .fwd t
  ls : ∀ p ∈ l, Listed b G p
  lnd : (l.map (·.1)).Nodup
  ids : ∀ a r, b.req a = some r → r.dep = 0 → P r.id

theorem subFix_spec {k} : ∀ (l : List (Nat × Edge)) (b : BF Prob) (G), EI (iteS last S) Q1 b G →
    FX P k l b G → ∃ b', subFix l b = some b' ∧ EI (iteS last S) Q1 b' G ∧ Stp Q01 b G b' G ∧
      FX P k [] b' G := by
  intro l
  induction l with
  | nil => intro b G ei h; exact ⟨b, rfl, ei, Stp.refl _ _, h⟩
  | cons p l ih =>
    intro b G ei h
    obtain ⟨a, o⟩ := p
    obtain ⟨⟨i, hr⟩, v, ev⟩ := h.ls (a, o) (by simp)
    simp only at hr v ev
    have hnd : a ∉ l.map (·.1) ∧ (l.map (·.1)).Nodup := by
      have := h.lnd
      rw [List.map_cons, List.nodup_cons] at this; exact this
    have ro : Rep b.st (b.forward o) (G a) := fwd_rep ei v ev (fun r h1 h2 _ => h.ite _ r h1 h2)
    obtain ⟨ref, href⟩ := Store.addRef_eq b.st (b.forward o) (b.st.ref a)
    have e1 := ei.set_fwd hr ro (fun hd => by cases hd) ref
    generalize hb1 : ({ b with
        st := b.st.addRef (b.forward o) (b.st.ref a)
        req := upd b.req a (some ⟨i, 0, .fwd (b.forward o)⟩) } : BF Prob) = b1
    have e1' : EI (iteS last S) Q1 b1 G := by rw [← hb1, href]; exact e1
    have hrn : ∀ x, x ≠ a → b1.req x = b.req x := by intro x hx; rw [← hb1]; exact upd_ne _ _ hx
    have hra : b1.req a = some ⟨i, 0, .fwd (b.forward o)⟩ := by rw [← hb1]; exact upd_same _ _ _
    have hst1 : b1.st = { b.st with ref := ref } := by rw [← hb1]; exact href
    have s1 : Stp Q01 b G b1 G := by
      refine stp_of hr (Or.inl rfl) (by rw [hst1]; exact ⟨rfl, fun _ _ h => h⟩) hrn (Or.inr ⟨_, hra⟩) ?_ ?_
      · intro ext g1 g2
        rw [← hb1]
        exact g1.resolve ei.sh g2 hr ro.eok
      · intro g; rw [hst1]; exact g.congr rfl rfl rfl
    have ho := s1.st.ord
    have inv : FX P k l b1 G := by
      refine ⟨?_, ?_, ?_, ?_, ?_, hnd.2, ?_⟩
      · intro x r hx
        by_cases hxa : x = a
        · subst hxa; rw [hra] at hx; cases hx; exact Or.inl rfl
        · rw [hrn x hxa] at hx; exact h.dp x r hx
      · intro x r hx hd hlv
        rw [ho] at hlv
        by_cases hxa : x = a
        · subst hxa; rw [hra] at hx; cases hx
          obtain ⟨t, e, hc, -⟩ := h.todo _ _ hr rfl hlv
          cases hc
        · rw [hrn x hxa] at hx; exact (h.todo x r hx hd hlv).mono s1
      · intro x r hx hd hlv
        rw [ho] at hlv
        by_cases hxa : x = a
        · subst hxa; rw [hra] at hx; cases hx; exact Or.inl ⟨_, rfl⟩
        · rw [hrn x hxa] at hx
          rcases h.past x r hx hd hlv with h1 | ⟨h1, h2⟩
          · exact Or.inl h1
          · exact Or.inr ⟨h1, by simpa [hxa] using h2⟩
      · intro x r hx hd
        by_cases hxa : x = a
        · subst hxa; rw [hra] at hx; cases hx; cases hd
        · rw [hrn x hxa] at hx; exact h.ite x r hx hd
      · intro p hp
        obtain ⟨⟨j, h1⟩, h2, h3⟩ := h.ls p (by simp [hp])
        have hne : p.1 ≠ a := by rintro rfl; exact hnd.1 (List.mem_map_of_mem hp)
        exact ⟨⟨j, by rw [hrn _ hne]; exact h1⟩, h2.mono s1, h3.mono s1⟩
      · intro x r hx hd
        by_cases hxa : x = a
        · subst hxa; rw [hra] at hx; cases hx; have := h.ids _ _ hr rfl; exact this
        · rw [hrn x hxa] at hx; exact h.ids x r hx hd
    obtain ⟨b2, h2, e2, s2, i2⟩ := ih b1 G e1' inv
    refine ⟨b2, ?_, e2, s1.trans s2, i2⟩
    simp only [subFix, hr, hb1, h2]

/-- State between two tables. -/
structure SB (P : Nat → Prop) (last : Int) (S : Nat → BFn) (k : Nat) (b : BF Prob) (G : Nat → BFn) : Prop where
  ei : EI (iteS last S) Q1 b G
  dp : ∀ a r, b.req a = some r → r.dep = 0
  todo : ∀ a r, b.req a = some r → b.st.ord.lvl r.id < k → Todo b r
  past : ∀ a r, b.req a = some r → k ≤ b.st.ord.lvl r.id → ∃ t, r.cell = .fwd t
  ids : ∀ a r, b.req a = some r → P r.id

theorem subTab_spec {s0 : Store} {start} (hst : StartOk start) {step} (hstep : StepOk last S s0 start step)
    {k} {b : BF Prob} {G} (hle : s0.Le b.st) (h : SB P last S (k+1) b G) (hk : k < b.st.ord.numVars) :
    ∃ b' G', subTab last step start k b = some b' ∧ SB P last S k b' G' ∧ Out Q0 b G b' G' := by
  have hm := fun a => h.ei.sh.mem_tab (d := 0) (a := a) hk
  have sr : SR P start k (b.que 0 (b.st.ord.indexToId k)) [] b G := by
    refine ⟨fun a r hr => Or.inl (h.dp a r hr), ?_, ?_, ?_, ?_, ?_, h.ei.sh.que_nodup _ _, by simp, by simp,
      fun a r hr _ => h.ids a r hr⟩
    · intro a r hr hd hlv
      exact h.todo a r hr (by rcases hlv with h1 | h1 <;> omega)
    · intro a r hr hd hlv; exact h.past a r hr (by omega)
    · intro a r hr hd hlv hna
      exact absurd ((hm a).2 ⟨r, hr, hd, hlv⟩) hna
    · intro a r hr hd; have := h.dp a r hr; omega
    · intro a ha
      obtain ⟨r, h1, h2, h3⟩ := (hm a).1 ha
      exact ⟨r, h1, h2, h3⟩
  obtain ⟨b1, l, G1, h1, e1, s1, i1⟩ := subScan_spec hstep _ [] b G hle h.ei sr
  obtain ⟨b2, G2, h2, e2, s2, f2⟩ := runR_spec (iteOk last S) (ds := [1]) (lo := start b1.st.ord l) (by decide)
    (fun d => by simp) e1 (hst.le _ _)
    (fun a r hr hd => ⟨(i1.ite a r hr hd).2, (i1.ite a r hr hd).1⟩) (itePlain last S)
  have ho2 := s2.st.ord
  have inv2 : FX P k l b2 G2 := by
    refine ⟨?_, ?_, ?_, fun a r hr hd => (f2 a r hr hd).1, ?_, i1.lnd,
      fun a r hr hd => i1.ids a r ((s2.inact a r (by omega)).1 hr) hd⟩
    · intro a r hr
      by_cases hd : r.dep = 1
      · exact Or.inr hd
      · exact i1.dp a r ((s2.inact a r hd).1 hr)
    · intro a r hr hd hlv
      rw [ho2] at hlv
      exact (i1.todo a r ((s2.inact a r (by omega)).1 hr) hd (Or.inl hlv)).mono s2
    · intro a r hr hd hlv
      rw [ho2] at hlv
      have hr1 := (s2.inact a r (by omega)).1 hr
      rcases Nat.lt_or_ge k (b1.st.ord.lvl r.id) with h3 | h3
      · exact Or.inl (i1.past a r hr1 hd h3)
      · exact i1.here a r hr1 hd (by omega) (by simp)
    · intro p hp
      obtain ⟨⟨j, h3⟩, h4, h5⟩ := i1.ls p hp
      refine ⟨⟨j, (s2.inact p.1 ⟨j, 0, .pend .wait⟩ (by simp)).2 h3⟩, ?_, h5.mono s2⟩
      rw [s2.ghost _ (used_req h3)]; exact h4.mono s2
  obtain ⟨b3, h3, e3, s3, i3⟩ := subFix_spec l b2 G2 e2 inv2
  have st : Stp Q01 b G b3 G2 := (s1.trans (s2.weaken (fun d hd => Or.inr hd))).trans s3
  obtain ⟨ci, cl⟩ := cleaned (B := Q0) (ds := [1]) (cl := allIds b3.st.ord) e3.sh
    (fun d hd => by simp at hd; omega) (by
      intro a r hr hd
      have h4 := (i3.dp a r hr).resolve_left hd
      exact ⟨by simp [h4], mem_allIds (e3.sh.req_id a r hr)⟩)
  have past3 : ∀ a r, b3.req a = some r → r.dep = 0 → k ≤ b3.st.ord.lvl r.id → ∃ t, r.cell = .fwd t := by
    intro a r hr hd hlv
    rcases i3.past a r hr hd hlv with h4 | ⟨_, h4⟩
    · exact h4
    · simp at h4
  have rf : Refs Q0 b3 := by
    refine ⟨?_, ?_⟩
    · intro a i d t e hd hr
      have hlv : b3.st.ord.lvl i < k := by
        rcases Nat.lt_or_ge (b3.st.ord.lvl i) k with h4 | h4
        · exact h4
        · obtain ⟨t, ht⟩ := past3 _ _ hr hd h4; cases ht
      obtain ⟨t', e', hc, b1, b2⟩ := i3.todo _ _ hr hd hlv
      cases hc
      exact ⟨b1.1, b2.1⟩
    · intro a i d e hd hr
      rcases Nat.lt_or_ge (b3.st.ord.lvl i) k with h4 | h4
      · obtain ⟨t', e', hc, -⟩ := i3.todo _ _ hr hd h4
        cases hc
      · obtain ⟨t, ht⟩ := past3 _ _ hr hd h4; cases ht
  have e3n : EI (iteS last S) (fun _ => False) b3 G2 :=
    EI.none (S := iteS last S) (S' := iteS last S) (fun _ _ _ h => h) rfl e3 (fun _ _ _ h => h)
  have ec := e3n.cleaned rf cl ci (fun d hd => hd.elim) (fun x hx _ => by
    rcases hx with hx | ⟨r, _, _, hx⟩
    · exact Or.inl (hx.mono cl.le)
    · exact hx.elim)
  have oc : Out Q0 b3 G2 (cleanUpTabs [1] (allIds b3.st.ord) b3) G2 :=
    cl.out e3.sh rf (fun a r hr hd => i3.ite a r hr ((i3.dp a r hr).resolve_left hd))
  have hdp : ∀ a r, (cleanUpTabs [1] (allIds b3.st.ord) b3).req a = some r → r.dep = 0 :=
    fun a r hr => ((cl.req a r).1 hr).2
  refine ⟨_, G2, by simp only [subTab, h1, h2, h3], ⟨?_, hdp, ?_, ?_,
    fun a r hr => i3.ids a r ((cl.req a r).1 hr).1 ((cl.req a r).1 hr).2⟩, st.out.trans oc⟩
  · exact EI.none (S := iteS last S) (S' := iteS last S) (fun _ _ _ h => h) rfl ec
      (fun a r hr => by rw [hdp a r hr]; decide)
  · intro a r hr hlv
    rw [cl.sn.ord] at hlv
    obtain ⟨h4, h5⟩ := (cl.req a r).1 hr
    obtain ⟨t, e, hc, b1, b2⟩ := i3.todo a r h4 h5 hlv
    refine ⟨t, e, hc, ?_, ?_⟩
    · rw [cl.sn.ord]
      exact ⟨cl.eva b1.1, b1.2.imp (fun h => by rw [cl.sn.ord]; exact h) (fun h => h.mono cl.le)⟩
    · rw [cl.sn.ord]
      exact ⟨cl.eva b2.1, b2.2.imp (fun h => by rw [cl.sn.ord]; exact h) (fun h => h.mono cl.le)⟩
  · intro a r hr hlv
    rw [cl.sn.ord] at hlv
    obtain ⟨h4, h5⟩ := (cl.req a r).1 hr
    exact past3 a r h4 h5 hlv

theorem subRange_spec {s0 : Store} {start} (hst : StartOk start) {step} (hstep : StepOk last S s0 start step)
    {lo} : ∀ (n : Nat) (b : BF Prob) (G), s0.Le b.st → lo + n ≤ b.st.ord.numVars → SB P last S (lo + n) b G →
    ∃ b' G', subRange last step start lo n b = some b' ∧ SB P last S lo b' G' ∧ Out Q0 b G b' G' := by
  intro n
  induction n with
  | zero => intro b G _ _ h; exact ⟨b, G, rfl, h, Out.refl _ _⟩
  | succ n ih =>
    intro b G hle hn h
    obtain ⟨b1, G1, h1, i1, o1⟩ := subTab_spec hst hstep hle (k := lo + n) h (by omega)
    obtain ⟨b2, G2, h2, i2, o2⟩ := ih b1 G1 (hle.trans o1.st) (by rw [o1.st.ord]; omega) i1
    exact ⟨b2, G2, by simp only [subRange, h1, h2], i2, o1.trans o2⟩

end

/-- No request holds a single result. -/
def NoHalf (b : BF Prob) : Prop := ∀ a i d e, b.req a ≠ some ⟨i, d, .half e⟩

theorem NoHalf.act {R : Rules Prob} (hw : ∀ s x, R.want s x ≠ some .null) {b b' : BF Prob} {x o}
    (h : NoHalf b) (hb : b.act R x = some (b', o)) : NoHalf b' ∧ o ≠ none := by
  simp only [BF.act] at hb
  split at hb
  · cases hb
  · cases hb; exact ⟨h, nofun⟩
  · rename_i hn; exact absurd hn (hw _ _)
  · split at hb
    · cases hb
    · rename_i b1 e1 hf
      cases hb
      refine ⟨?_, nofun⟩
      simp only [findOrAddReq] at hf
      split at hf
      · cases hf
      · cases hf; exact h
      · cases hf
        intro a i d e hr
        simp only [pushReq, upd] at hr
        split at hr
        · cases hr
        · exact h a i d e hr
  · cases hb; exact ⟨h, nofun⟩

theorem NoHalf.applyR {R : Rules Prob} (hw : ∀ s x, R.want s x ≠ some .null) {b b' : BF Prob} {a}
    (h : NoHalf b) (hb : b.applyR R a = some b') : NoHalf b' := by
  simp only [BF.applyR] at hb
  split at hb
  · split at hb
    · cases hb
    · split at hb
      · cases hb
      · rename_i b1 t h1
        obtain ⟨n1, t1⟩ := h.act hw h1
        split at hb
        · cases hb
        · rename_i b2 e h2
          have n1' : NoHalf (b1.icrO t) := by cases t <;> exact n1
          obtain ⟨n2, t2⟩ := n1'.act hw h2
          cases t with
          | none => exact absurd rfl t1
          | some t =>
            cases e with
            | none => exact absurd rfl t2
            | some e =>
              cases hb
              intro x i d e' hr
              simp only [upd] at hr
              split at hr
              · cases hr
              · exact n2 x i d e' hr
  · cases hb

theorem NoHalf.applyListR {R : Rules Prob} (hw : ∀ s x, R.want s x ≠ some .null) :
    ∀ {as : List Nat} {b b' : BF Prob}, NoHalf b → BF.applyListR R as b = some b' → NoHalf b'
  | [], _, _, h, hb => by cases hb; exact h
  | a :: as, b, b', h, hb => by
    simp only [BF.applyListR] at hb
    split at hb
    · cases hb
    · rename_i b1 h1
      exact NoHalf.applyListR hw (h.applyR hw h1) hb

theorem NoHalf.applyTabs {R : Rules Prob} (hw : ∀ s x, R.want s x ≠ some .null) {id : Nat} :
    ∀ {ds : List Nat} {b b' : BF Prob}, NoHalf b → BF.applyTabs R id ds b = some b' → NoHalf b'
  | [], _, _, h, hb => by cases hb; exact h
  | d :: ds, b, b', h, hb => by
    simp only [BF.applyTabs] at hb
    split at hb
    · cases hb
    · rename_i b1 h1
      exact NoHalf.applyTabs hw (h.applyListR hw h1) hb

theorem NoHalf.applyRange {R : Rules Prob} (hw : ∀ s x, R.want s x ≠ some .null) {ds : List Nat} :
    ∀ {n k : Nat} {b b' : BF Prob}, NoHalf b → BF.applyRange R ds k n b = some b' → NoHalf b'
  | 0, _, _, _, h, hb => by cases hb; exact h
  | n+1, k, b, b', h, hb => by
    simp only [BF.applyRange] at hb
    split at hb
    · cases hb
    · rename_i b1 h1
      exact NoHalf.applyRange hw (h.applyTabs hw h1) hb

theorem subRules_want (last : Int) (s : Store) (x : Prob) : (subRules last).want s x ≠ some .null := by
  cases x with
  | sub f => simp only [subRules]; split <;> nofun
  | ite q =>
    obtain ⟨f, g, h⟩ := q
    simp only [subRules, iteWant]
    repeat' split
    all_goals nofun
  | _ => nofun

/-- `Cal_BddSubstitute` on internal BDDs. -/
theorem substBF_spec {s : Store} (w : s.WF) {σ vb : Nat → Option Edge} {last : Int} {S : Nat → BFn}
    (hσ : SelOk σ vb S s) (hb : Below last S s.ord) {f : Edge} {F : BFn} (rf : Rep s f F) (f0 : f.id ≠ 0) :
    Gives s (substBF s σ vb last f) (substFn S F) := by
  have hi := eok_range w rf.eok f0
  have id0 : BF.Idle (BF.init s : BF Prob) := BF.init_idle s
  have hn : ∀ a r, (BF.init s : BF Prob).req a ≠ some r := fun a r hr => by rw [id0.req] at hr; cases hr
  have ei0 : EI (subSem last S) Q0 (BF.init s : BF Prob) (fun _ _ => false) := id0.ei w _
  obtain ⟨b1, e, G1, h1, ei1, g1, k1, v1, ev1, l1⟩ := push_spec (subOk last S).toActOk ei0
    (k := 0) (fun a r hr => absurd hr (hn a r)) (p := .sub f)
    (F := substFn S F) ⟨hb, f0, F, rf, rfl⟩ rfl hi (Nat.zero_le _)
  have h1 : (BF.init s : BF Prob).findOrAddReq 0 f.id (.sub f) = some (b1, e) := h1
  have ho1 : b1.st.ord = s.ord := g1.le.ord
  have hnew : ∀ a r, b1.req a = some r → r.dep = 0 ∧ ∃ p, r.cell = .pend p := by
    intro a r hr
    rcases g1.new a r hr with h | ⟨_, h2, h3, h4⟩
    · exact absurd h (hn a r)
    · exact ⟨h2, h4⟩
  obtain ⟨b2, G2, h2, ei2, s2, d2, -⟩ := applyRange_spec (subOk last S) (ds := [0]) (by decide)
    (fun d => by simp) (lo := 0) s.ord.numVars 0 b1 G1 (by rw [ho1]; omega) ei1
    (AD.start (fun d hd => by simpa using hd) (fun a r hr _ => ⟨Nat.zero_le _, (hnew a r hr).2⟩))
  have ho2 : b2.st.ord = s.ord := s2.st.ord.trans ho1
  have dp2 : ∀ a r, b2.req a = some r → r.dep = 0 := by
    intro a r hr
    by_cases h : r.dep = 0
    · exact h
    · exact (hnew a r ((s2.inact a r h).1 hr)).1
  have nh2 : NoHalf b2 := by
    refine NoHalf.applyRange (subRules_want last) ?_ h2
    intro a i d u hr
    obtain ⟨-, p, hp⟩ := hnew a _ hr
    cases hp
  have hle2 : s.Le b2.st := g1.le.trans s2.st
  have sb2 : SB (fun _ => True) last S (0 + s.ord.numVars) b2 G2 := by
    refine ⟨?_, dp2, ?_, ?_, fun _ _ _ => trivial⟩
    · exact EI.none (S := subSem last S) (S' := iteS last S) (fun _ _ _ h => h) rfl ei2
        (fun a r hr => by rw [dp2 a r hr]; decide)
    · intro a r hr _
      have hd := d2 a r hr (dp2 a r hr)
      have hdp := dp2 a r hr
      obtain ⟨i, d, c⟩ := r
      simp only at hdp hd
      subst hdp
      cases c with
      | pend p => exact absurd hd id
      | fwd t => exact absurd hd id
      | half u => exact absurd hr (nh2 _ _ _ _)
      | done t u =>
        obtain ⟨a1, a2, a3, a4⟩ := ei2.done_act _ _ _ _ _ rfl hr
        exact ⟨t, u, rfl, ⟨a1, a3.imp id (·.2)⟩, ⟨a2, a4.imp id (·.2)⟩⟩
    · intro a r hr hlv
      have := ei2.sh.lvl_lt hr
      rw [ho2] at this hlv; omega
  have hst : StartOk (fun _ _ => 0) := ⟨fun _ _ _ => Nat.le_refl _, fun _ _ _ => Nat.zero_le _, fun _ _ => Nat.zero_le _⟩
  obtain ⟨b3, G3, h3, i3, o3⟩ := subRange_spec hst (subStep_ok hσ hst) (lo := 0) s.ord.numVars b2 G2 hle2
    (by rw [ho2]; omega) sb2
  have hfwd : ∀ a r, b3.req a = some r → ∃ t, r.cell = .fwd t := fun a r hr =>
    i3.past a r hr (Nat.zero_le _)
  have fin : Rep b3.st (b3.forward e) (substFn S F) :=
    fwd_rep i3.ei (o3.val ei2.sh (v1.mono s2) (ev1.mono s2)) (o3.eva (ev1.mono s2)) (fun r hr _ _ => hfwd _ r hr)
  have kp : BF.Keep s b3 := by
    refine ⟨hle2.trans o3.st, fun ext h => ?_, fun h => o3.num (s2.num (g1.num h))⟩
    have q0 := (BF.Keep.init s (P := Prob)).2.1 ext h
    have q1 := (g1.stp k1).keep ext q0 (fun a r hr => absurd hr (hn a r))
    have q2 := s2.keep ext q1.1 q1.2
    exact (o3.keep ext q2.1 q2.2).1
  obtain ⟨ci, sn, q⟩ := cleanUpTabs_spec [0] (allIds s.ord) b3 i3.ei.sh.cinv
  refine ⟨(cleanUpTabs [0] (allIds s.ord) b3).st, b3.forward e, ?_, ci.wf, ?_, kp.final hfwd sn, ?_⟩
  · simp only [substBF, h1, h2, h3]
  · exact kp.1.trans ⟨sn.ord, fun a n hn => by rw [sn.heap]; exact hn⟩
  · exact SameNodes.rep sn fin

end Eng
end Cal
