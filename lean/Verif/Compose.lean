import Verif.EngLaws

/-!
# Compose

`Cal_BddCompose` (calBddCompose.c:76-113) on internal BDDs.
-/

namespace Cal

/-- `F` with variable `v` replaced by `H` -/
def BFn.subst (F : BFn) (v : Nat) (H : BFn) : BFn := fun ρ => F (upd ρ v (H ρ))

theorem BFn.subst_indep {F : BFn} {v : Nat} (h : Indep F v) (H : BFn) : BFn.subst F v H = F := by
  funext ρ; exact h ρ _

theorem upd_comm {ρ : Asg} {a b : Nat} (h : a ≠ b) (x y : Bool) :
    upd (upd ρ a x) b y = upd (upd ρ b y) a x := by
  funext i; simp only [upd]; grind

theorem upd_self' (ρ : Asg) (a : Nat) : upd ρ a (ρ a) = ρ := by
  funext i; simp only [upd]; split <;> simp_all

/-- substitution commutes with the cofactors of another variable -/
theorem BFn.subst_shannon (F : BFn) (H : BFn) {v i : Nat} (hne : i ≠ v) (ρ : Asg) :
    BFn.subst F v H ρ = if ρ i then BFn.subst (BFn.fix F i true) v (BFn.fix H i true) ρ
      else BFn.subst (BFn.fix F i false) v (BFn.fix H i false) ρ := by
  have key : ∀ b, ρ i = b → BFn.subst (BFn.fix F i b) v (BFn.fix H i b) ρ = BFn.subst F v H ρ := by
    intro b hb
    have h1 : upd ρ i b = ρ := by rw [← hb]; exact upd_self' ρ i
    simp only [BFn.subst, BFn.fix, h1]
    rw [upd_comm (Ne.symm hne), h1]
  cases hb : ρ i
  · simp [key false hb]
  · simp [key true hb]

namespace Eng

section
variable {R : Rules Prob} {S : RulesSem R} {A : Nat → Prop}

/-- `CalOpITE` obtains the result. -/
theorem iteWant_ok (hque : ∀ q, A (R.que (.ite q))) (htop : ∀ o q, R.top o (.ite q) = minId3 o q)
    (hPd : ∀ s q F, KPd iteSem s q F → S.Pd s (.ite q) F) {s k x q F} (w : s.WF)
    (hw : R.want s x = some (iteWant q)) (h : KOk iteSem s k q F) : WantOk S A s k x F := by
  obtain ⟨h1, h2⟩ := K_term w h ⟨q.1, by simp [iteSem]⟩
  unfold iteWant at hw
  split at hw
  · rename_i e he
    obtain ⟨a, b⟩ := h1 e he
    exact .edge e hw a b
  · rename_i q' c he
    obtain ⟨H, a1, a2, a3, a4⟩ := h2 q' c he
    have ht : R.top s.ord (.ite q') = minId3 s.ord q' := htop _ _
    exact .req (.ite q') c H hw (hPd _ _ _ a1) (hque _) (by rw [ht]; exact a3) (by rw [ht]; exact a4) a2

theorem iteSplit_ok (htop : ∀ o q, R.top o (.ite q) = minId3 o q)
    (hOk : ∀ s k q F, KOk iteSem s k q F → S.Ok s k (.ite q) F) {s q F} (w : s.WF)
    (hs : R.split s (.ite q) = iteSplit s q) (h : KPd iteSem s q F)
    (hsel : ∀ i, S.sel (R.que (.ite q)) i = fun ρ => ρ i := by intros; rfl) : SplitOk S s (.ite q) F := by
  obtain ⟨p1, p2, T, E, h1, h2, h3, h4⟩ := K_split w h
  have h1 : cof3 s.ord s.kids q = some (p1, p2) := h1
  have ht : R.top s.ord (.ite q) = minId3 s.ord q := htop _ _
  refine .two (.ite p1) (.ite p2) T E (by rw [hs]; simp only [iteSplit, h1]) ?_ ?_ ?_
  · rw [ht]; exact hOk _ _ _ _ h2
  · rw [ht]; exact hOk _ _ _ _ h3
  · rw [ht, hsel]; exact h4
end

/-- `CalComposeRequestCreate` and the case distinction on a cofactor in `CalHashTableComposeApply`
(calBddCompose.c:237-273, 291-319); `ci` is the index of the variable replaced. -/
def cmpWant (ci : Nat) (s : Store) (f h : Edge) : Option (Want Prob) :=
  if ci < s.ord.lvl f.id then some (.edge f)
  else if s.ord.lvl f.id < ci then some (.req (.cmp f h) false)
  else
    match s.kids f with
    | some (t, e) => some (iteWant (h, t, e))
    | none => none

/-- `CalRequestNodeGetCofactors` on a compose request (calBddCompose.c:234). -/
def cmpSplit (s : Store) (f h : Edge) : Option (Prob × Prob) :=
  match cof2 s.ord s.kids (f, h) with
  | some (x, y) => some (.cmp x.1 x.2, .cmp y.1 y.2)
  | none => none

/-- problem: replace variable `v` of index `ci` -/
def CmpOk (ci v : Nat) (s : Store) (k : Nat) (f h : Edge) (F : BFn) : Prop :=
  (s.ord.lvl v = ci ∧ 1 ≤ v ∧ v ≤ s.ord.numVars) ∧ ∃ A B, Rep s f A ∧ Rep s h B ∧
    k ≤ s.ord.lvl f.id ∧ k ≤ s.ord.lvl h.id ∧ F = BFn.subst A v B

/-- pending request: replace variable `v` of index `ci`, which is below the top variable of `f` -/
def CmpPd (ci v : Nat) (s : Store) (f h : Edge) (F : BFn) : Prop :=
  (s.ord.lvl v = ci ∧ 1 ≤ v ∧ v ≤ s.ord.numVars) ∧ s.ord.lvl f.id < ci ∧
    ∃ A B, Rep s f A ∧ Rep s h B ∧ F = BFn.subst A v B

theorem CmpOk.mono {ci v s s' k f h F} (hl : s.Le s') (x : CmpOk ci v s k f h F) :
    CmpOk ci v s' k f h F := by
  obtain ⟨hv, A, B, h1, h2, h3, h4, h5⟩ := x
  rw [← hl.ord] at hv h3 h4
  exact ⟨hv, A, B, h1.mono hl, h2.mono hl, h3, h4, h5⟩

theorem CmpPd.mono {ci v s s' f h F} (hl : s.Le s') (x : CmpPd ci v s f h F) :
    CmpPd ci v s' f h F := by
  obtain ⟨hv, h0, A, B, h1, h2, h5⟩ := x
  rw [← hl.ord] at hv h0
  exact ⟨hv, h0, A, B, h1.mono hl, h2.mono hl, h5⟩

theorem CmpPd.fun {ci v s f h F F'} (w : s.WF) (x : CmpPd ci v s f h F) (y : CmpPd ci v s f h F') :
    F = F' := by
  obtain ⟨-, -, A, B, h1, h2, h3⟩ := x
  obtain ⟨-, -, A', B', h1', h2', h3'⟩ := y
  rw [h3, h3', h1.unique w h1', h2.unique w h2']

section
variable {R : Rules Prob} {S : RulesSem R} {A : Nat → Prop}

theorem cmpWant_ok (hque : ∀ q, A (R.que (.ite q))) (htop : ∀ o q, R.top o (.ite q) = minId3 o q)
    (hPd : ∀ s q F, KPd iteSem s q F → S.Pd s (.ite q) F) {ci v : Nat}
    (hque' : ∀ f h, A (R.que (.cmp f h))) (htop' : ∀ o f h, R.top o (.cmp f h) = minId2 o (f, h))
    (hPd' : ∀ s f h F, CmpPd ci v s f h F → S.Pd s (.cmp f h) F) {s k x f h F} (w : s.WF)
    (hw : R.want s x = cmpWant ci s f h) (ok : CmpOk ci v s k f h F) : WantOk S A s k x F := by
  obtain ⟨⟨hv, v1, v2⟩, X, Y, rf, rh, lf, lh, rfl⟩ := ok
  have hci := w.ord.lvl_lt v1 v2
  have hb := w.ord.bound
  unfold cmpWant at hw
  by_cases h1 : ci < s.ord.lvl f.id
  · rw [if_pos h1] at hw
    refine .edge f hw ?_ lf
    rw [BFn.subst_indep (rf.indep w _ (by omega))]; exact rf
  · rw [if_neg h1] at hw
    have hf0 : f.id ≠ 0 := by
      intro h0; rw [h0] at h1; simp only [Order.lvl, if_true] at h1
      have : s.ord.lvl v < constIndex := by omega
      omega
    by_cases h2 : s.ord.lvl f.id < ci
    · rw [if_pos h2] at hw
      obtain ⟨hi, l1, l2, hor⟩ := minId2_spec w rf.eok rh.eok (Or.inl hf0)
      refine .req (.cmp f h) false (BFn.subst X v Y) hw (hPd' _ _ _ _ ⟨⟨hv, v1, v2⟩, h2, X, Y, rf, rh, rfl⟩)
        (hque' _ _) (by rw [htop']; exact hi) ?_ ?_
      · rw [htop']; rcases hor with h3 | h3 <;> rw [h3] <;> assumption
      · funext ρ; simp
    · rw [if_neg h2] at hw
      obtain ⟨t, u, hk, rt, ru, l1, l2, -⟩ := rf.kids w hf0
      rw [hk] at hw
      have hfv : f.id = v := by
        have a := eok_range w rf.eok hf0
        exact w.ord.lvl_inj a.1 a.2 v1 v2 (by omega)
      have := KOk.ite (k := k) rh rt ru lh (by omega) (by omega)
      have hF : BFn.subst X v Y = fun ρ => if Y ρ then X (upd ρ f.id true) else X (upd ρ f.id false) := by
        funext ρ; rw [hfv]; simp only [BFn.subst]; cases Y ρ <;> simp
      rw [hF]
      exact iteWant_ok hque htop hPd w hw this

theorem cmpSplit_ok {ci v : Nat} (htop' : ∀ o f h, R.top o (.cmp f h) = minId2 o (f, h))
    (hOk : ∀ s k f h F, CmpOk ci v s k f h F → S.Ok s k (.cmp f h) F) {s f h F} (w : s.WF)
    (hs : R.split s (.cmp f h) = cmpSplit s f h) (pd : CmpPd ci v s f h F)
    (hsel : ∀ i, S.sel (R.que (.cmp f h)) i = fun ρ => ρ i := by intros; rfl) : SplitOk S s (.cmp f h) F := by
  obtain ⟨⟨hv, v1, v2⟩, hlt, X, Y, rf, rh, rfl⟩ := pd
  have hci := w.ord.lvl_lt v1 v2
  have hb := w.ord.bound
  have hf0 : f.id ≠ 0 := by
    intro h0; rw [h0] at hlt; simp only [Order.lvl, if_true] at hlt
    have : s.ord.lvl v < constIndex := by omega
    simp only [Order.lvl] at *; omega
  obtain ⟨hi, m1, m2, -⟩ := minId2_spec w rf.eok rh.eok (Or.inl hf0)
  obtain ⟨f1, g1, f0, g0, hc, r1, r2, r3, r4, l1, l2, l3, l4⟩ := cof2_spec w rf rh (Or.inl hf0)
  have hne : minId2 s.ord (f, h) ≠ v := by intro h; rw [h] at m1; omega
  refine .two (.cmp f1 g1) (.cmp f0 g0) _ _ (by rw [hs]; simp only [cmpSplit, hc])
    (hOk _ _ _ _ _ ⟨⟨hv, v1, v2⟩, _, _, r1, r3, ?_, ?_, rfl⟩)
    (hOk _ _ _ _ _ ⟨⟨hv, v1, v2⟩, _, _, r2, r4, ?_, ?_, rfl⟩) ?_
  · rw [htop']; exact l1
  · rw [htop']; exact l3
  · rw [htop']; exact l2
  · rw [htop']; exact l4
  · rw [htop', hsel]; funext ρ; exact BFn.subst_shannon X Y hne ρ
end

/-- `CalRequestNodeListCompose` (calBddCompose.c:133-199): compose requests in `reqQue[0]`,
if-then-else requests in `reqQue[1]`. -/
def composeRules (ci : Nat) : Rules Prob where
  que
    | .ite _ => 1
    | _ => 0
  top o
    | .ite q => minId3 o q
    | .cmp f h => minId2 o (f, h)
    | _ => 0
  split s
    | .ite q => iteSplit s q
    | .cmp f h => cmpSplit s f h
    | _ => none
  want s
    | .ite q => some (iteWant q)
    | .cmp f h => cmpWant ci s f h
    | _ => none

def composeSem (ci v : Nat) : RulesSem (composeRules ci) where
  Ok s k x F :=
    match x with
    | .ite q => KOk iteSem s k q F
    | .cmp f h => CmpOk ci v s k f h F
    | _ => False
  Null _ _ := False
  Pd s x F :=
    match x with
    | .ite q => KPd iteSem s q F
    | .cmp f h => CmpPd ci v s f h F
    | _ => False
  ok_mono := by
    intro s s' k x F hl h
    cases x <;> first | exact KOk.mono hl h | exact CmpOk.mono hl h | exact h
  null_mono := fun _ h => h
  pd_mono := by
    intro s s' x F hl h
    cases x <;> first | exact KPd.mono hl h | exact CmpPd.mono hl h | exact h

theorem compose_ok (ci v : Nat) : RulesOk (composeSem ci v) (fun d => d ∈ [0, 1]) where
  pd_fun := by
    intro s p F F' w _ h h'
    cases p <;> first | exact KPd.fun w h h' | exact CmpPd.fun w h h' | exact h.elim
  want_null := fun _ h => h.elim
  want_ok := by
    intro s k x F w h
    cases x with
    | ite q => exact iteWant_ok (fun q => by simp [composeRules]) (fun _ _ => rfl) (fun _ _ _ h => h) w rfl h
    | cmp f g =>
      exact cmpWant_ok (fun q => by simp [composeRules]) (fun _ _ => rfl) (fun _ _ _ h => h)
        (fun _ _ => by simp [composeRules]) (fun _ _ _ => rfl) (fun _ _ _ _ h => h) w rfl h
    | _ => exact h.elim
  split_ok := by
    intro s p F w _ h
    cases p with
    | ite q => exact iteSplit_ok (fun _ _ => rfl) (fun _ _ _ _ h => h) w rfl h
    | cmp f g => exact cmpSplit_ok (fun _ _ _ => rfl) (fun _ _ _ _ _ h => h) w rfl h
    | _ => exact h.elim

/-- `CalRequestNodeListCompose` (calBddCompose.c:132-197) on the one request `Cal_BddCompose` (calBddCompose.c:76-113) makes. -/
def composeBF (s : Store) (f h : Edge) (ci : Nat) : Option (Store × Edge) :=
  opR (composeRules ci) [0, 1] (allIds s.ord) 0 s (.cmp f h)

theorem composeBF_spec {s : Store} (w : s.WF) {f h : Edge} {F H : BFn} (rf : Rep s f F)
    (rh : Rep s h H) {v : Nat} (hv : 1 ≤ v ∧ v ≤ s.ord.numVars) :
    Gives s (composeBF s f h (s.ord.lvl v)) (BFn.subst F v H) :=
  opR_spec (compose_ok (s.ord.lvl v) v) (by decide) (fun _ => Iff.rfl) w
    (x := .cmp f h) ⟨⟨rfl, hv.1, hv.2⟩, F, H, rf, rh, Nat.zero_le _, Nat.zero_le _, rfl⟩ (Nat.zero_le _)
    (fun _ hi _ => mem_allIds hi)

end Eng
end Cal
