import Verif.Compose

/-!
# Generalised cofactor

`BddCofactorBF` (calReduce.c:268-317) on internal BDDs. The result of the cofactor of `f` by `c` at an
assignment is the value of `f` at the assignment `near` it that satisfies `c`.
-/

namespace Cal

/-- some assignment satisfies `C` -/
def Sat (C : BFn) : Prop := ∃ ρ, C ρ = true

open Classical in
/-- The value to give variable `v` in order to stay in `C`: the one in `ρ` if this is possible. -/
noncomputable def pick (C : BFn) (v : Nat) (ρ : Asg) : Bool :=
  if Sat (BFn.fix C v false) then (if Sat (BFn.fix C v true) then ρ v else false) else true

/-- Go through the last `n` variables in order; keep the value in `ρ` of each unless `C` cannot be
satisfied any more, in which case it is changed. -/
noncomputable def near (o : Order) : Nat → BFn → Asg → Asg
  | 0, _, ρ => ρ
  | n+1, C, ρ =>
    let v := o.indexToId (o.numVars - (n+1))
    upd (near o n (BFn.fix C v (pick C v ρ)) ρ) v (pick C v ρ)

/-- The generalised cofactor ("constrain") of `F` by `C`. -/
noncomputable def constrain (o : Order) (F C : BFn) : BFn := fun ρ => F (near o o.numVars C ρ)

theorem pick_sat {C : BFn} {v : Nat} (h : Sat C) (ρ : Asg) : Sat (BFn.fix C v (pick C v ρ)) := by
  obtain ⟨σ, hσ⟩ := h
  have hs : Sat (BFn.fix C v (σ v)) := ⟨σ, by simp only [BFn.fix, upd_self', hσ]⟩
  unfold pick
  by_cases h0 : Sat (BFn.fix C v false)
  · by_cases h1 : Sat (BFn.fix C v true)
    · simp only [h0, h1, if_true]; cases ρ v <;> assumption
    · simp only [h0, h1, if_true, if_false]
  · simp only [h0, if_false]
    cases hv : σ v
    · rw [hv] at hs; exact absurd hs h0
    · rw [hv] at hs; exact hs

theorem pick_in {C : BFn} {v : Nat} {ρ : Asg} (h : C ρ = true) : pick C v ρ = ρ v := by
  have hs : Sat (BFn.fix C v (ρ v)) := ⟨ρ, by simp only [BFn.fix, upd_self', h]⟩
  unfold pick
  by_cases h0 : Sat (BFn.fix C v false)
  · by_cases h1 : Sat (BFn.fix C v true)
    · simp only [h0, h1, if_true]
    · simp only [h0, h1, if_true, if_false]
      cases hv : ρ v
      · rfl
      · rw [hv] at hs; exact absurd hs h1
  · simp only [h0, if_false]
    cases hv : ρ v
    · rw [hv] at hs; exact absurd hs h0
    · rfl

theorem pick_indep {C : BFn} {v : Nat} {ρ : Asg} (h : Indep C v) (hs : Sat C) : pick C v ρ = ρ v := by
  have h0 : Sat (BFn.fix C v false) := by rw [BFn.fix_indep h]; exact hs
  have h1 : Sat (BFn.fix C v true) := by rw [BFn.fix_indep h]; exact hs
  simp only [pick, h0, h1, if_true]

/-- In `C` nothing is changed. -/
theorem near_in (o : Order) : ∀ (n : Nat) (C : BFn) (ρ : Asg), C ρ = true → near o n C ρ = ρ := by
  intro n
  induction n with
  | zero => intro C ρ _; rfl
  | succ n ih =>
    intro C ρ h
    simp only [near]
    rw [pick_in h, ih _ ρ (by simp only [BFn.fix, upd_self', h]), upd_self']

/-- variables outside the last `n` are not changed -/
theorem near_other (o : Order) (ow : o.WF) : ∀ (n : Nat), n ≤ o.numVars → ∀ (C : BFn) (ρ : Asg) (v : Nat),
    (∀ k, o.numVars - n ≤ k → k < o.numVars → o.indexToId k ≠ v) → near o n C ρ v = ρ v := by
  intro n
  induction n with
  | zero => intro _ C ρ v _; rfl
  | succ n ih =>
    intro hn C ρ v h
    simp only [near]
    have hne := h (o.numVars - (n+1)) (by omega) (by omega)
    rw [upd_ne _ _ (Ne.symm hne)]
    exact ih (by omega) _ ρ v fun k h1 h2 => h k (by omega) h2

/-- leading variables `C` does not depend on are kept -/
theorem near_skip {o : Order} (ow : o.WF) {C : BFn} (hs : Sat C) (ρ : Asg) : ∀ (d n : Nat),
    n + d ≤ o.numVars →
    (∀ k, o.numVars - (n + d) ≤ k → k < o.numVars - n → Indep C (o.indexToId k)) →
    near o (n + d) C ρ = near o n C ρ := by
  intro d
  induction d with
  | zero => intro n _ _; rfl
  | succ d ih =>
    intro n hn h
    have hi := h (o.numVars - (n + d + 1)) (by omega) (by omega)
    have hstep : near o (n + d + 1) C ρ = near o (n + d) C ρ := by
      simp only [near]
      rw [pick_indep hi hs, BFn.fix_indep hi]
      have := near_other o ow (n + d) (by omega) C ρ (o.indexToId (o.numVars - (n + d + 1))) (by
        intro k h1 h2 he
        have a := ow.lvl_indexToId (show k < o.numVars from h2)
        have b := ow.lvl_indexToId (show o.numVars - (n + d + 1) < o.numVars by omega)
        rw [he, b] at a; omega)
      rw [← this, upd_self']
    rw [show n + (d + 1) = n + d + 1 by omega, hstep]
    exact ih n (by omega) fun k h1 h2 => h k (by omega) h2

/-- opening the first variable `C` may depend on -/
theorem near_open {o : Order} (ow : o.WF) {C : BFn} (hs : Sat C) (ρ : Asg) {v : Nat}
    (hv : 1 ≤ v ∧ v ≤ o.numVars) (h : ∀ u, 1 ≤ u ∧ u ≤ o.numVars → o.lvl u < o.lvl v → Indep C u) :
    near o o.numVars C ρ = upd (near o o.numVars (BFn.fix C v (pick C v ρ)) ρ) v (pick C v ρ) := by
  have hl := ow.lvl_lt hv.1 hv.2
  have hind : ∀ k, k < o.numVars → k < o.lvl v → Indep C (o.indexToId k) := by
    intro k h1 h2
    have a := ow.id_range k h1
    exact h _ ⟨a.1, a.2⟩ (by rw [ow.lvl_indexToId h1]; exact h2)
  have hvid : o.indexToId (o.lvl v) = v := by
    have h0 : v ≠ 0 := by omega
    simp only [Order.lvl, h0, if_false]; exact ow.left v hv.1 hv.2
  have e1 := near_skip ow hs ρ (o.lvl v) (o.numVars - o.lvl v) (by omega)
    (fun k h1 h2 => hind k (by omega) (by omega))
  rw [show o.numVars - o.lvl v + o.lvl v = o.numVars by omega] at e1
  have e2 : near o (o.numVars - o.lvl v) C ρ =
      upd (near o (o.numVars - (o.lvl v + 1)) (BFn.fix C v (pick C v ρ)) ρ) v (pick C v ρ) := by
    obtain ⟨m, hm⟩ : ∃ m, o.numVars - (o.lvl v + 1) = m := ⟨_, rfl⟩
    rw [hm, show o.numVars - o.lvl v = m + 1 by omega]
    simp only [near]
    rw [show o.numVars - (m + 1) = o.lvl v by omega, hvid]
  have e3 := near_skip ow (pick_sat (v := v) hs ρ) ρ (o.lvl v + 1) (o.numVars - (o.lvl v + 1)) (by omega)
    (fun k h1 h2 => by
      rcases Nat.lt_or_ge k (o.lvl v) with h3 | h3
      · intro σ c
        have := hind k (by omega) h3
        simp only [BFn.fix]
        have hne : o.indexToId k ≠ v := by
          intro he
          have := ow.lvl_indexToId (show k < o.numVars by omega)
          rw [he] at this; omega
        rw [upd_comm hne]; exact this _ _
      · have hk : k = o.lvl v := by omega
        rw [hk, hvid]
        intro σ c
        simp only [BFn.fix, upd_upd])
  rw [show o.numVars - (o.lvl v + 1) + (o.lvl v + 1) = o.numVars by omega] at e3
  rw [e1, e2, e3]

/-- A function that depends on no variable of the manager is constant on assignments that differ
only in these variables; `near` reaches `C`. -/
theorem near_sat {o : Order} (ow : o.WF) : ∀ (n : Nat), n ≤ o.numVars → ∀ (C : BFn) (ρ : Asg), Sat C →
    (∀ σ τ : Asg, (∀ k, o.numVars - n ≤ k → k < o.numVars → σ (o.indexToId k) = τ (o.indexToId k)) →
      C σ = C τ) → C (near o n C ρ) = true := by
  intro n
  induction n with
  | zero =>
    intro _ C ρ hs h
    obtain ⟨σ, hσ⟩ := hs
    rw [← hσ]; exact h _ _ fun k h1 h2 => by omega
  | succ n ih =>
    intro hn C ρ hs h
    have := ih (by omega) (BFn.fix C (o.indexToId (o.numVars - (n+1)))
      (pick C (o.indexToId (o.numVars - (n+1))) ρ)) ρ (pick_sat hs ρ) (by
        intro σ τ hst
        simp only [BFn.fix]
        apply h
        intro k h1 h2
        by_cases he : k = o.numVars - (n+1)
        · subst he; simp
        · have hne : o.indexToId k ≠ o.indexToId (o.numVars - (n+1)) := by
            intro hc
            have a := ow.lvl_indexToId (show k < o.numVars from h2)
            have b := ow.lvl_indexToId (show o.numVars - (n+1) < o.numVars by omega)
            rw [hc, b] at a; omega
          rw [upd_ne _ _ hne, upd_ne _ _ hne]
          exact hst k (by omega) h2)
    simpa only [near, BFn.fix] using this

/-- The cofactor agrees with `F` on `C`. -/
theorem constrain_in (o : Order) {F C : BFn} {ρ : Asg} (h : C ρ = true) : constrain o F C ρ = F ρ := by
  simp only [constrain, near_in o _ C ρ h]

theorem constrain_one (o : Order) (F : BFn) : constrain o F (fun _ => true) = F := by
  funext ρ; exact constrain_in o rfl

theorem constrain_const (o : Order) (C : BFn) (b : Bool) :
    constrain o (fun _ => b) C = fun _ => b := rfl

/-- one level of the cofactor -/
theorem constrain_open {o : Order} (ow : o.WF) {F C : BFn} (hs : Sat C) {v : Nat}
    (hv : 1 ≤ v ∧ v ≤ o.numVars) (h : ∀ u, 1 ≤ u ∧ u ≤ o.numVars → o.lvl u < o.lvl v → Indep C u)
    (ρ : Asg) :
    constrain o F C ρ = constrain o (BFn.fix F v (pick C v ρ)) (BFn.fix C v (pick C v ρ)) ρ := by
  simp only [constrain]
  rw [near_open ow hs ρ hv h]
  rfl

namespace Eng

/-- `CalOpCofactor` (calReduce.c:188-209); the inner `none` is the null BDD. -/
def opCofactor (f c : Edge) : Option (Option Edge) :=
  if c.isConst then (if c.same zero then some none else some (some f))
  else if f.isConst then some (some f)
  else none

/-- One cofactor in `HashTableCofactorApply` (calReduce.c:447-465). -/
def cofWant (f c : Edge) : Want Prob :=
  match opCofactor f c with
  | some none => .null
  | some (some e) => .edge e
  | none => .req (.cof f c) false

/-- The cofactors of both operands (calReduce.c:444-446). -/
def cofSplit (s : Store) (f c : Edge) : Option (Prob × Prob) :=
  match cof2 s.ord s.kids (f, c) with
  | some (x, y) => some (.cof x.1 x.2, .cof y.1 y.2)
  | none => none

/-- `BddCofactorBF` (calReduce.c:272-316): requests in `reqQue[0]`. -/
def cofRules : Rules Prob where
  que _ := 0
  top o
    | .cof f c => minId2 o (f, c)
    | _ => 0
  split s
    | .cof f c => cofSplit s f c
    | _ => none
  want _
    | .cof f c => some (cofWant f c)
    | _ => none

def CofOk (s : Store) (k : Nat) (f c : Edge) (F : BFn) : Prop :=
  ∃ A C, Rep s f A ∧ Rep s c C ∧ k ≤ s.ord.lvl f.id ∧ k ≤ s.ord.lvl c.id ∧ Sat C ∧
    F = constrain s.ord A C

def CofPd (s : Store) (f c : Edge) (F : BFn) : Prop :=
  f.id ≠ 0 ∧ c.id ≠ 0 ∧ ∃ A C, Rep s f A ∧ Rep s c C ∧ Sat C ∧ F = constrain s.ord A C

theorem CofOk.mono {s s' k f h F} (hl : s.Le s') (x : CofOk s k f h F) : CofOk s' k f h F := by
  obtain ⟨A, B, h1, h2, h3, h4, h5, h6⟩ := x
  rw [← hl.ord] at h3 h4 h6
  exact ⟨A, B, h1.mono hl, h2.mono hl, h3, h4, h5, h6⟩

theorem CofPd.mono {s s' f h F} (hl : s.Le s') (x : CofPd s f h F) : CofPd s' f h F := by
  obtain ⟨i1, i2, A, B, h1, h2, h5, h6⟩ := x
  rw [← hl.ord] at h6
  exact ⟨i1, i2, A, B, h1.mono hl, h2.mono hl, h5, h6⟩

theorem CofPd.fun {s f h F F'} (w : s.WF) (x : CofPd s f h F) (y : CofPd s f h F') : F = F' := by
  obtain ⟨-, -, A, B, h1, h2, -, h3⟩ := x
  obtain ⟨-, -, A', B', h1', h2', -, h3'⟩ := y
  rw [h3, h3', h1.unique w h1', h2.unique w h2']

/-- a BDD that is not the constant 0 is satisfiable -/
theorem sat_iff {s : Store} (w : s.WF) {c : Edge} {C} (r : Rep s c C) : Sat C ↔ c.same zero = false := by
  have h := r.same_zero_iff w
  constructor
  · rintro ⟨ρ, hρ⟩
    cases hz : c.same zero
    · rfl
    · have := h.1 hz; rw [this] at hρ; cases hρ
  · intro hz
    by_cases hs : Sat C
    · exact hs
    · have : C = fun _ => false := by
        funext ρ
        cases hc : C ρ
        · rfl
        · exact absurd ⟨ρ, hc⟩ hs
      rw [h.2 this] at hz; cases hz

def cofSem : RulesSem cofRules where
  Ok s k x F :=
    match x with
    | .cof f c => CofOk s k f c F
    | _ => False
  Null s x :=
    match x with
    | .cof _ c => Rep s c (fun _ => false)
    | _ => False
  Pd s x F :=
    match x with
    | .cof f c => CofPd s f c F
    | _ => False
  ok_mono := by
    intro s s' k x F hl h
    cases x <;> first | exact CofOk.mono hl h | exact h
  null_mono := by
    intro s s' x hl h
    cases x <;> first | exact Rep.mono hl h | exact h
  pd_mono := by
    intro s s' x F hl h
    cases x <;> first | exact CofPd.mono hl h | exact h

theorem cofWant_ok {s k f c F} (w : s.WF) (h : CofOk s k f c F) :
    (∃ e, cofWant f c = .edge e ∧ Rep s e F ∧ k ≤ s.ord.lvl e.id) ∨
      (cofWant f c = .req (.cof f c) false ∧ CofPd s f c F) := by
  obtain ⟨A, C, rf, rc, lf, lc, hs, rfl⟩ := h
  have hz := (sat_iff w rc).1 hs
  unfold cofWant opCofactor
  by_cases h1 : c.isConst = true
  · left
    refine ⟨f, by simp [h1, hz], ?_, lf⟩
    have : C = fun _ => true := by
      simp only [Edge.isConst, beq_iff_eq] at h1
      cases rc with
      | one => rfl
      | zero => simp [Edge.same] at hz
      | pos hn => have := w.var_range _ _ hn; simp only at h1; omega
      | neg hn => have := w.var_range _ _ hn; simp only at h1; omega
    rw [this, constrain_one]; exact rf
  · by_cases h2 : f.isConst = true
    · left
      refine ⟨f, by simp [h1, h2], ?_, lf⟩
      simp only [Edge.isConst, beq_iff_eq] at h2
      cases rf with
      | one => exact .one
      | zero => exact .zero
      | pos hn => have := w.var_range _ _ hn; simp only at h2; omega
      | neg hn => have := w.var_range _ _ hn; simp only at h2; omega
    · right
      simp only [Edge.isConst, beq_iff_eq] at h1 h2
      exact ⟨by simp [Edge.isConst, h1, h2], h2, h1, A, C, rf, rc, hs, rfl⟩

theorem cof_ok : RulesOk cofSem (fun d => d ∈ [0]) where
  pd_fun := by
    intro s p F F' w _ h h'
    cases p <;> first | exact CofPd.fun w h h' | exact h.elim
  want_null := by
    intro s x w h
    cases x with
    | cof f c =>
      have h : Rep s c (fun _ => false) := h
      have hz := (h.same_zero_iff w).2 rfl
      have := same_zero w h.eok hz
      subst this
      simp [cofRules, cofWant, opCofactor, Edge.isConst, zero, Edge.same]
    | _ => exact h.elim
  want_ok := by
    intro s k x F w h
    cases x with
    | cof f c =>
      rcases cofWant_ok w h with ⟨e, h1, h2, h3⟩ | ⟨h1, h2⟩
      · exact .edge e (by simp [cofRules, h1]) h2 h3
      · obtain ⟨A, C, rf, rc, lf, lc, hs, rfl⟩ := h
        obtain ⟨hi, l1, l2, hor⟩ := minId2_spec w rf.eok rc.eok (Or.inl h2.1)
        refine .req (.cof f c) false _ (by simp [cofRules, h1]) h2 (by simp [cofRules]) hi ?_ ?_
        · show k ≤ s.ord.lvl (minId2 s.ord (f, c))
          rcases hor with h3 | h3 <;> rw [h3] <;> assumption
        · funext ρ; simp
    | _ => exact h.elim
  split_ok := by
    intro s p F w _ h
    cases p with
    | cof f c =>
      obtain ⟨f0, c0, X, C, rf, rc, hs, rfl⟩ := h
      obtain ⟨hi, m1, m2, -⟩ := minId2_spec w rf.eok rc.eok (Or.inl f0)
      obtain ⟨f1, g1, f2, g2, hc, r1, r2, r3, r4, l1, l2, l3, l4⟩ := cof2_spec w rf rc (Or.inl f0)
      have hsp : cofRules.split s (.cof f c) = some (.cof f1 g1, .cof f2 g2) := by
        simp only [cofRules, cofSplit, hc]
      have hop := constrain_open w.ord (F := X) hs hi (fun u _ hu => rc.indep w _ (by omega))
      by_cases s1 : Sat (BFn.fix C (minId2 s.ord (f, c)) true)
      · by_cases s0 : Sat (BFn.fix C (minId2 s.ord (f, c)) false)
        · refine .two _ _ _ _ hsp ⟨_, _, r1, r3, l1, l3, s1, rfl⟩ ⟨_, _, r2, r4, l2, l4, s0, rfl⟩ ?_
          funext ρ
          rw [hop ρ]
          have : pick C (minId2 s.ord (f, c)) ρ = ρ (minId2 s.ord (f, c)) := by
            simp only [pick, s0, s1, if_true]
          rw [this]
          show _ = if ρ (minId2 s.ord (f, c)) then _ else _
          cases ρ (minId2 s.ord (f, c)) <;> rfl
        · refine .left _ _ hsp ⟨_, _, r1, r3, l1, l3, s1, ?_⟩ ?_
          · funext ρ
            rw [hop ρ]
            have : pick C (minId2 s.ord (f, c)) ρ = true := by simp only [pick, s0, if_false]
            rw [this]
          · have : BFn.fix C (minId2 s.ord (f, c)) false = fun _ => false := by
              funext ρ
              cases hb : BFn.fix C (minId2 s.ord (f, c)) false ρ
              · rfl
              · exact absurd ⟨ρ, hb⟩ s0
            rw [this] at r4; exact r4
      · obtain ⟨ρ0, hρ0⟩ := hs
        have s0 : Sat (BFn.fix C (minId2 s.ord (f, c)) false) := by
          have := pick_sat (v := minId2 s.ord (f, c)) ⟨ρ0, hρ0⟩ ρ0
          by_cases s0 : Sat (BFn.fix C (minId2 s.ord (f, c)) false)
          · exact s0
          · simp only [pick, s0, if_false] at this; exact absurd this s1
        refine .right _ _ hsp ?_ ⟨_, _, r2, r4, l2, l4, s0, ?_⟩
        · have : BFn.fix C (minId2 s.ord (f, c)) true = fun _ => false := by
            funext ρ
            cases hb : BFn.fix C (minId2 s.ord (f, c)) true ρ
            · rfl
            · exact absurd ⟨ρ, hb⟩ s1
          rw [this] at r3; exact r3
        · funext ρ
          rw [hop ρ]
          have : pick C (minId2 s.ord (f, c)) ρ = false := by
            simp only [pick, s0, s1, if_true, if_false]
          rw [this]
    | _ => exact h.elim

/-- `BddCofactorBF` (calReduce.c:272-316). For `c = 0` it warns and returns the constant 1. -/
def cofactorBF (s : Store) (f c : Edge) : Option (Store × Edge) :=
  if c.same zero then some (s, one)
  else
    match opCofactor f c with
    | some (some r) => some (s, r)
    | some none => none
    | none =>
      let lo := s.ord.lvl (minId2 s.ord (f, c))
      opR cofRules [0] (idsFrom s.ord lo) lo s (.cof f c)

theorem cofactorBF_spec {s : Store} (w : s.WF) {f c : Edge} {F C : BFn} (rf : Rep s f F)
    (rc : Rep s c C) (hs : Sat C) : Gives s (cofactorBF s f c) (constrain s.ord F C) := by
  have hz := (sat_iff w rc).1 hs
  have hm : s.ord.lvl (minId2 s.ord (f, c)) ≤ s.ord.lvl f.id ∧
      s.ord.lvl (minId2 s.ord (f, c)) ≤ s.ord.lvl c.id := by
    simp only [minId2]; split <;> omega
  have hok : CofOk s (s.ord.lvl (minId2 s.ord (f, c))) f c (constrain s.ord F C) :=
    ⟨F, C, rf, rc, hm.1, hm.2, hs, rfl⟩
  simp only [cofactorBF, hz, Bool.false_eq_true, if_false]
  rcases cofWant_ok w hok with ⟨e, h1, h2, -⟩ | ⟨h1, h2⟩
  · unfold cofWant at h1
    cases hc : opCofactor f c with
    | none => rw [hc] at h1; cases h1
    | some o =>
      cases o with
      | none => rw [hc] at h1; cases h1
      | some r =>
        rw [hc] at h1; cases h1
        exact ⟨s, _, rfl, w, Store.Le.refl s, Store.Keep.refl s, h2⟩
  · unfold cofWant at h1
    cases hc : opCofactor f c with
    | some o => rw [hc] at h1; cases o <;> cases h1
    | none =>
      obtain ⟨hi, -, -, -⟩ := minId2_spec w rf.eok rc.eok (Or.inl h2.1)
      have := w.ord.lvl_lt hi.1 hi.2
      exact opR_spec cof_ok (by decide) (fun _ => Iff.rfl) w (x := .cof f c) hok (by omega)
        (fun i hi hl => BF.mem_idsFrom w.ord hi hl)

end Eng
end Cal
