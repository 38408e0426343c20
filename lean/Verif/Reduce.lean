import Verif.Restrict
import Verif.Nest

/-!
# Reduce

`BddReduceBF` (calReduce.c:217-264) on internal BDDs: the generalised cofactor with a second queue for the
disjunctions that remove variables of `c` on which `f` does not depend.
-/

namespace Cal
namespace Eng

open BF

/-- `BddReduceBF` (calReduce.c:217-264): disjunctions in `reqQue[0]`, reduce requests in
`reqQue[1]`. -/
def redRules : Rules Prob where
  que
    | .bin _ _ => 0
    | _ => 1
  top o
    | .bin f g => minId2 o (f, g)
    | .cof f c => minId2 o (f, c)
    | _ => 0
  split s
    | .bin f g => binSplit s f g
    | .cof f c => cofSplit s f c
    | _ => none
  want _
    | .bin f g => some (binWant opOr f g)
    | .cof f c => some (cofWant f c)
    | _ => none

/-- First loop of `HashTableReduceApply` (calReduce.c:336-385): the requests of a table. If the top
variable of the request is not the one of `f`, the disjunction of the cofactors of `c` is
requested; the request goes to a list with it (in C the disjunction is kept in the else field of the
request, and the request is taken out of its table until the end of the function). -/
def redScan : List Nat → BF Prob → List (Nat × Edge × Edge) → Option (BF Prob × List (Nat × Edge × Edge))
  | [], b, l => some (b, l)
  | a :: as, b, l =>
    match b.req a with
    | some ⟨_, _, .pend (.cof f c)⟩ =>
      if f.id ≠ minId2 b.st.ord (f, c) then
        match cof2 b.st.ord b.st.kids (f, c) with
        | none => none
        | some (x, y) =>
          match b.act redRules (.bin x.2 y.2) with
          | some (b', some o) => redScan as b' ((a, f, o) :: l)
          | _ => none
      else
        match b.applyR redRules a with
        | none => none
        | some b' => redScan as b' l
    | _ => none

/-- Third loop of `HashTableReduceApply` (calReduce.c:405-417): the listed requests ask for `f`
reduced by the disjunction, on both sides. -/
def redFix : List (Nat × Edge × Edge) → BF Prob → Option (BF Prob)
  | [], b => some b
  | (a, f, o) :: l, b =>
    match b.req a with
    | none => none
    | some ⟨i, d, _⟩ =>
      match b.findOrAddReq 1 (minId2 b.st.ord (f, b.forward o)) (.cof f (b.forward o)) with
      | none => none
      | some (b1, r) =>
        redFix l { b1 with st := b1.st.addRef r 2, req := upd b1.req a (some ⟨i, d, .done r r⟩) }

/-- `HashTableReduceApply` (calReduce.c:318-424) on the table of index `k`. -/
def redApply (k : Nat) (b : BF Prob) : Option (BF Prob) :=
  match redScan (b.que 1 (b.st.ord.indexToId k)) b [] with
  | none => none
  | some (b1, l) =>
    match runR redRules [0] k b1 with
    | none => none
    | some b2 =>
      match redFix l b2 with
      | none => none
      | some b3 => some (cleanUpTabs [0] (idsFrom b3.st.ord k).reverse b3)

/-- The apply loop of `BddReduceBF` over the indices `k`, ..., `k+n-1` (calReduce.c:242-249). -/
def redRange : Nat → Nat → BF Prob → Option (BF Prob)
  | _, 0, b => some b
  | k, n+1, b =>
    match redApply k b with
    | none => none
    | some b' => redRange (k+1) n b'

/-- `BddReduceBF` (calReduce.c:217-264). For `c = 0` the result is the null BDD, which its callers
take for a BDD node: undefined. -/
def reduceBF (s : Store) (f c : Edge) : Option (Store × Edge) :=
  match opCofactor f c with
  | some (some r) => some (s, r)
  | some none => none
  | none =>
    let lo := s.ord.lvl (minId2 s.ord (f, c))
    match (BF.init s).findOrAddReq 1 (minId2 s.ord (f, c)) (.cof f c) with
    | none => none
    | some (b, e) =>
      match redRange lo (s.ord.numVars - lo) b with
      | none => none
      | some b1 =>
        match reduceRange [1] lo (s.ord.numVars - lo) b1 with
        | none => none
        | some b2 => some ((cleanUpTabs [1] (idsFrom s.ord lo) b2).st, b2.forward e)

/-! ## Meaning of the requests -/

def RedOk (s : Store) (k : Nat) (f c : Edge) (F : BFn) : Prop :=
  ∃ A C, Rep s f A ∧ Rep s c C ∧ k ≤ s.ord.lvl f.id ∧ k ≤ s.ord.lvl c.id ∧ Sat C ∧
    F = restrict s.ord A C

def RedPd (s : Store) (f c : Edge) (F : BFn) : Prop :=
  f.id ≠ 0 ∧ ∃ A C, Rep s f A ∧ Rep s c C ∧ Sat C ∧ F = restrict s.ord A C

theorem RedOk.mono {s s' k f h F} (hl : s.Le s') (x : RedOk s k f h F) : RedOk s' k f h F := by
  obtain ⟨A, B, h1, h2, h3, h4, h5, h6⟩ := x
  rw [← hl.ord] at h3 h4 h6
  exact ⟨A, B, h1.mono hl, h2.mono hl, h3, h4, h5, h6⟩

theorem RedPd.mono {s s' f h F} (hl : s.Le s') (x : RedPd s f h F) : RedPd s' f h F := by
  obtain ⟨i1, A, B, h1, h2, h5, h6⟩ := x
  rw [← hl.ord] at h6
  exact ⟨i1, A, B, h1.mono hl, h2.mono hl, h5, h6⟩

theorem RedPd.fun {s f h F F'} (w : s.WF) (x : RedPd s f h F) (y : RedPd s f h F') : F = F' := by
  obtain ⟨-, A, B, h1, h2, -, h3⟩ := x
  obtain ⟨-, A', B', h1', h2', -, h3'⟩ := y
  rw [h3, h3', h1.unique w h1', h2.unique w h2']

def redPd (s : Store) (x : Prob) (F : BFn) : Prop :=
  match x with
  | .bin f g => KPd (binSem opOr_law) s (f, g) F
  | .cof f c => RedPd s f c F
  | _ => False

theorem redPd_mono {s s' x F} (hl : s.Le s') (h : redPd s x F) : redPd s' x F := by
  cases x <;> first | exact KPd.mono hl h | exact RedPd.mono hl h | exact h

theorem redPd_fun {s x F F'} (w : s.WF) (h : redPd s x F) (h' : redPd s x F') : F = F' := by
  cases x <;> first | exact KPd.fun w h h' | exact RedPd.fun w h h' | exact h.elim

/-- the reduce requests -/
def redSem : RulesSem redRules where
  Ok s k x F :=
    match x with
    | .cof f c => RedOk s k f c F
    | _ => False
  Null s x :=
    match x with
    | .cof _ c => Rep s c (fun _ => false)
    | _ => False
  Pd := redPd
  ok_mono := by
    intro s s' k x F hl h
    cases x <;> first | exact RedOk.mono hl h | exact h
  null_mono := by
    intro s s' x hl h
    cases x <;> first | exact Rep.mono hl h | exact h
  pd_mono := redPd_mono

/-- the disjunctions -/
def orSem : RulesSem redRules where
  Ok s k x F :=
    match x with
    | .bin f g => KOk (binSem opOr_law) s k (f, g) F
    | _ => False
  Null _ _ := False
  Pd := redPd
  ok_mono := by
    intro s s' k x F hl h
    cases x <;> first | exact KOk.mono hl h | exact h
  null_mono := fun _ h => h
  pd_mono := redPd_mono

section
variable {R : Rules Prob} {S : RulesSem R} {A : Nat → Prop}
  {op : Edge → Edge → Option Edge} {fn : Bool → Bool → Bool}

/-- A binary operation obtains the result. -/
theorem binWant_ok (law : BinLaw op fn) (hque : ∀ f g, A (R.que (.bin f g)))
    (htop : ∀ o f g, R.top o (.bin f g) = minId2 o (f, g))
    (hPd : ∀ s f g F, KPd (binSem law) s (f, g) F → S.Pd s (.bin f g) F) {s k x f g F} (w : s.WF)
    (hw : R.want s x = some (binWant op f g)) (h : KOk (binSem law) s k (f, g) F) :
    WantOk S A s k x F := by
  obtain ⟨h1, h2⟩ := K_term w h ⟨f, by simp [binSem]⟩
  unfold binWant at hw
  cases ho : op f g with
  | some e =>
    rw [ho] at hw
    obtain ⟨a, b⟩ := h1 e (by simp only [binKernel, ho])
    exact .edge e hw a b
  | none =>
    rw [ho] at hw
    obtain ⟨H, a1, a2, a3, a4⟩ := h2 (normalize (f, g)) false (by simp only [binKernel, ho])
    have ht : R.top s.ord (.bin (normalize (f, g)).1 (normalize (f, g)).2) =
      minId2 s.ord (normalize (f, g)) := htop _ _ _
    exact .req (.bin (normalize (f, g)).1 (normalize (f, g)).2) false H hw (hPd _ _ _ _ a1) (hque _ _)
      (by rw [ht]; exact a3) (by rw [ht]; exact a4) a2

theorem binSplit_ok (law : BinLaw op fn) (htop : ∀ o f g, R.top o (.bin f g) = minId2 o (f, g))
    (hOk : ∀ s k f g F, KOk (binSem law) s k (f, g) F → S.Ok s k (.bin f g) F) {s f g F} (w : s.WF)
    (hs : R.split s (.bin f g) = binSplit s f g) (h : KPd (binSem law) s (f, g) F)
    (hsel : ∀ i, S.sel (R.que (.bin f g)) i = fun ρ => ρ i := by intros; rfl) :
    SplitOk S s (.bin f g) F := by
  obtain ⟨p1, p2, T, E, h1, h2, h3, h4⟩ := K_split w h
  have h1 : cof2 s.ord s.kids (f, g) = some (p1, p2) := h1
  have ht : R.top s.ord (.bin f g) = minId2 s.ord (f, g) := htop _ _ _
  refine .two (.bin p1.1 p1.2) (.bin p2.1 p2.2) T E (by rw [hs]; simp only [binSplit, h1]) ?_ ?_ ?_
  · rw [ht]; exact hOk _ _ _ _ _ h2
  · rw [ht]; exact hOk _ _ _ _ _ h3
  · rw [ht, hsel]; exact h4
end

theorem redAct : ActOk redSem (fun d => d = 1) where
  pd_fun := fun w _ h h' => redPd_fun w h h'
  want_null := by
    intro s x w h
    cases x with
    | cof f c =>
      have h : Rep s c (fun _ => false) := h
      have hz := (h.same_zero_iff w).2 rfl
      have := same_zero w h.eok hz
      subst this
      simp [redRules, cofWant, opCofactor, Edge.isConst, zero, Edge.same]
    | _ => exact h.elim
  want_ok := by
    intro s k x F w h
    cases x with
    | cof f c =>
      obtain ⟨A, C, rf, rc, lf, lc, hs, rfl⟩ := h
      have hz := (sat_iff w rc).1 hs
      by_cases h1 : c.isConst = true
      · have hC : C = fun _ => true := by
          simp only [Edge.isConst, beq_iff_eq] at h1
          cases rc with
          | one => rfl
          | zero => simp [Edge.same] at hz
          | pos hn => have := w.var_range _ _ hn; simp only at h1; omega
          | neg hn => have := w.var_range _ _ hn; simp only at h1; omega
        refine .edge f (by simp [redRules, cofWant, opCofactor, h1, hz]) ?_ lf
        rw [hC, restrict_one]; exact rf
      · by_cases h2 : f.isConst = true
        · refine .edge f (by simp [redRules, cofWant, opCofactor, h1, h2]) ?_ lf
          simp only [Edge.isConst, beq_iff_eq] at h2
          cases rf with
          | one => rw [restrict_const]; exact .one
          | zero => rw [restrict_const]; exact .zero
          | pos hn => have := w.var_range _ _ hn; simp only at h2; omega
          | neg hn => have := w.var_range _ _ hn; simp only at h2; omega
        · have hf0 : f.id ≠ 0 := by simpa [Edge.isConst] using h2
          obtain ⟨hi, l1, l2, hor⟩ := minId2_spec w rf.eok rc.eok (Or.inl hf0)
          refine .req (.cof f c) false (restrict s.ord A C) (by simp [redRules, cofWant, opCofactor, h1, h2])
            ⟨hf0, A, C, rf, rc, hs, rfl⟩ rfl hi ?_ ?_
          · show k ≤ s.ord.lvl (minId2 s.ord (f, c))
            rcases hor with h3 | h3 <;> rw [h3] <;> assumption
          · funext ρ; simp
    | _ => exact h.elim

/-- a reduce request whose top variable is the one of `f` -/
theorem redSplit {s f c F} (w : s.WF) (h : RedPd s f c F) (hm : f.id = minId2 s.ord (f, c)) :
    SplitOk redSem s (.cof f c) F := by
  obtain ⟨f0, X, C, rf, rc, hs, rfl⟩ := h
  obtain ⟨hi, m1, m2, -⟩ := minId2_spec w rf.eok rc.eok (Or.inl f0)
  obtain ⟨f1, g1, f2, g2, hc, r1, r2, r3, r4, l1, l2, l3, l4⟩ := cof2_spec w rf rc (Or.inl f0)
  have hsp : redRules.split s (.cof f c) = some (.cof f1 g1, .cof f2 g2) := by
    simp only [redRules, cofSplit, hc]
  have hdep := rf.dep w f0
  rw [hm] at hdep
  have hop := restrict_open w.ord (F := X) (C := C) hi
    (fun u _ hu => ⟨rf.indep w _ (by omega), rc.indep w _ (by omega)⟩)
  rw [if_neg hdep] at hop
  by_cases s0 : Sat (BFn.fix C (minId2 s.ord (f, c)) false)
  · rw [if_neg (by simpa using s0)] at hop
    by_cases s1 : Sat (BFn.fix C (minId2 s.ord (f, c)) true)
    · rw [if_neg (by simpa using s1)] at hop
      refine .two _ _ _ _ hsp ⟨_, _, r1, r3, l1, l3, s1, rfl⟩ ⟨_, _, r2, r4, l2, l4, s0, rfl⟩ ?_
      rw [hop]; rfl
    · rw [if_pos s1] at hop
      refine .right _ _ hsp ?_ ⟨_, _, r2, r4, l2, l4, s0, hop⟩
      have : BFn.fix C (minId2 s.ord (f, c)) true = fun _ => false := funext (not_sat s1)
      rw [this] at r3; exact r3
  · rw [if_pos s0] at hop
    have s1 : Sat (BFn.fix C (minId2 s.ord (f, c)) true) := by
      obtain ⟨ρ, hρ⟩ := hs
      cases hv : ρ (minId2 s.ord (f, c))
      · exact absurd ⟨ρ, by rw [BFn.fix_at hv]; exact hρ⟩ s0
      · exact ⟨ρ, by rw [BFn.fix_at hv]; exact hρ⟩
    refine .left _ _ hsp ⟨_, _, r1, r3, l1, l3, s1, hop⟩ ?_
    have : BFn.fix C (minId2 s.ord (f, c)) false = fun _ => false := funext (not_sat s0)
    rw [this] at r4; exact r4

theorem orOk : RulesOk orSem (fun d => d = 0) where
  pd_fun := fun w _ h h' => redPd_fun w h h'
  want_null := fun _ h => h.elim
  want_ok := by
    intro s k x F w h
    cases x with
    | bin f g => exact binWant_ok opOr_law (fun _ _ => rfl) (fun _ _ _ => rfl) (fun _ _ _ _ h => h) w rfl h
    | _ => exact h.elim
  split_ok := by
    intro s p F w hA h
    cases p with
    | bin f g => exact binSplit_ok opOr_law (fun _ _ _ => rfl) (fun _ _ _ _ _ h => h) w rfl h
    | cof f c => cases hA
    | _ => exact h.elim

theorem toOr {A B : Nat → Prop} {b b' : BF Prob} {G G'} (e' : EI redSem A b' G') (e : EI orSem B b G)
    (st : Stp A b G b' G') (disj : ∀ d, B d → ¬ A d) : EI orSem B b' G' :=
  EI.switch (S := redSem) (S' := orSem) (fun _ _ _ h => h) rfl e' e st disj

theorem toRed {A B : Nat → Prop} {b b' : BF Prob} {G G'} (e' : EI orSem A b' G') (e : EI redSem B b G)
    (st : Stp A b G b' G') (disj : ∀ d, B d → ¬ A d) : EI redSem B b' G' :=
  EI.switch (S := orSem) (S' := redSem) (fun _ _ _ h => h) rfl e' e st disj

/-! ## One table -/

/-- A listed request: it asks for `f` reduced by the disjunction `o`. -/
def Lst (k : Nat) (b : BF Prob) (G : Nat → BFn) (x : Nat × Edge × Edge) : Prop :=
  ∃ i p, b.req x.1 = some ⟨i, 1, .pend p⟩ ∧ b.st.ord.lvl i = k ∧
    ∃ F C, Rep b.st x.2.1 F ∧ x.2.1.id ≠ 0 ∧ k < b.st.ord.lvl x.2.1.id ∧ b.Val G x.2.2 C ∧
      EVa (fun d => d = 0) b x.2.2 ∧ k < b.st.ord.lvl x.2.2.id ∧ Sat C ∧
      G x.1 = restrict b.st.ord F C

theorem Lst.mono {A : Nat → Prop} {k} {b b' : BF Prob} {G G'} {x} (st : Stp A b G b' G')
    (h : Lst k b G x) (hr : ∀ r, b.req x.1 = some r → b'.req x.1 = some r) : Lst k b' G' x := by
  obtain ⟨i, p, h1, h2, F, C, h3, h4, h5, h6, h7, h8, h9, h10⟩ := h
  have ho := st.st.ord
  refine ⟨i, p, hr _ h1, by rw [ho]; exact h2, F, C, h3.mono st.st, h4, by rw [ho]; exact h5,
    h6.mono st, h7.mono st, by rw [ho]; exact h8, h9, ?_⟩
  rw [st.ghost _ (used_req h1), ho]; exact h10

/-- state of the first loop: `L` is still to do, `l` is the list -/
structure ScanI (lo k : Nat) (L : List Nat) (l : List (Nat × Edge × Edge)) (b : BF Prob)
    (G : Nat → BFn) : Prop where
  er : EI redSem (fun d => d = 1) b G
  eo : EI orSem (fun d => d = 0) b G
  ad : AD (fun d => d = 1) lo k (L ++ l.map (·.1)) [] b
  oq : ∀ a r, b.req a = some r → r.dep = 0 → k < b.st.ord.lvl r.id ∧ ∃ p, r.cell = .pend p
  ls : ∀ x ∈ l, Lst k b G x
  dp : ∀ a r, b.req a = some r → r.dep = 0 ∨ r.dep = 1

/-- both queues -/
abbrev Both : Nat → Prop := fun d => d = 0 ∨ d = 1

theorem redScan_spec {lo k} : ∀ (L : List Nat) (l : List (Nat × Edge × Edge)) (b : BF Prob) (G),
    ScanI lo k L l b G →
    ∃ b' l' G', redScan L b l = some (b', l') ∧ ScanI lo k [] l' b' G' ∧ Stp Both b G b' G' := by
  intro L
  induction L with
  | nil => intro l b G h; exact ⟨b, l, G, rfl, h, Stp.refl _ _⟩
  | cons a L ih =>
    intro l b G h
    have hnd : (a :: (L ++ l.map (·.1))).Nodup := h.ad.nodup
    obtain ⟨r, hr, hA, hl, hds⟩ := h.ad.left a (by simp)
    obtain ⟨p, hp⟩ := h.ad.todo a r hr ⟨hA, Or.inr ⟨hl, Or.inl (by simp)⟩⟩
    obtain ⟨i, d, c0⟩ := r
    simp only at hA hl hp
    subst hA hp
    obtain ⟨hpd, hqt⟩ := h.er.pend _ _ _ _ hr
    obtain ⟨hq, htop⟩ := hqt rfl
    have hpd' : redPd b.st p (G a) := hpd
    have w := h.er.sh.wf
    have op1 : Open (fun d => d = 1) (k + 1) b := by
      intro x r hx hd hlx
      exact h.ad.todo x r hx ⟨hd, Or.inl (by omega)⟩
    cases p with
    | cof f c =>
      have htop : minId2 b.st.ord (f, c) = i := htop
      have hpd' : RedPd b.st f c (G a) := hpd'
      by_cases hm : f.id = minId2 b.st.ord (f, c)
      · -- split at once
        obtain ⟨b1, G1, cc, h1, hc, e1, s1, r1, o1, n1⟩ := applyR_spec' redAct h.er hr rfl
          (by rw [hl]; exact op1) (redSplit w hpd' hm)
        have s1' : Stp Both b G b1 G1 := s1.weaken (fun d hd => Or.inr hd)
        have eo1 : EI orSem (fun d => d = 0) b1 G1 :=
          toOr e1 h.eo s1 (fun d hd => by omega)
        have ho := s1.st.ord
        have inv : ScanI lo k L l b1 G1 := by
          refine ⟨e1, eo1, h.ad.step hr rfl ho r1 hc o1 n1, ?_, ?_, ?_⟩
          · intro x r hx hd
            rw [ho]
            exact h.oq x r ((s1.inact x r (by omega)).1 hx) hd
          · intro x hx
            have hne : x.1 ≠ a := by
              rintro rfl
              simp only [List.nodup_cons, List.mem_append, not_or] at hnd
              exact hnd.1.2 (List.mem_map_of_mem hx)
            exact (h.ls x hx).mono s1 (fun r hr => o1 _ _ hne hr)
          · intro x r hx
            by_cases hd : r.dep = 1
            · exact Or.inr hd
            · exact h.dp x r ((s1.inact x r hd).1 hx)
        obtain ⟨b2, l2, G2, h2, i2, s2⟩ := ih l b1 G1 inv
        refine ⟨b2, l2, G2, ?_, i2, s1'.trans s2⟩
        simp only [redScan, hr, ne_eq, hm.symm, not_true_eq_false, if_false, h1, h2]
      · -- ask for the disjunction
        obtain ⟨f0, X, C, rf, rc, hs, hG⟩ := hpd'
        obtain ⟨hi, m1, m2, hor⟩ := minId2_spec w rf.eok rc.eok (Or.inl f0)
        obtain ⟨f1, g1, f2, g2, hc, -, -, r3, r4, -, -, l3, l4⟩ := cof2_spec w rf rc (Or.inl f0)
        rw [htop] at hi m1 m2 r3 r4 l3 l4 hor
        have hif : b.st.ord.lvl i < b.st.ord.lvl f.id := by
          rcases Nat.lt_or_ge (b.st.ord.lvl i) (b.st.ord.lvl f.id) with h1 | h1
          · exact h1
          · have a := eok_range w rf.eok f0
            have := w.ord.lvl_inj a.1 a.2 hi.1 hi.2 (by omega)
            rw [htop] at hm; exact absurd this hm
        have opo : Open (fun d => d = 0) (k + 1) b := fun x r hx hd _ => (h.oq x r hx hd).2
        have hok : orSem.Ok b.st (k + 1) (.bin g1 g2) (BFn.some C i) :=
          KOk.bin opOr_law r3 r4 (by omega) (by omega)
        obtain ⟨b1, o, G1, a1, e1, gr, k1, v1, ev1, l1⟩ := act_spec orOk.toActOk h.eo opo hok
        have s1 := gr.stp k1
        have s1' : Stp Both b G b1 G1 := s1.weaken (fun d hd => Or.inl hd)
        have er1 : EI redSem (fun d => d = 1) b1 G1 :=
          toRed e1 h.er s1 (fun d hd => by omega)
        have ho := s1.st.ord
        have inv : ScanI lo k L ((a, f, o) :: l) b1 G1 := by
          refine ⟨er1, e1, ?_, ?_, ?_, ?_⟩
          · refine (h.ad.perm (L' := L ++ ((a, f, o) :: l).map (·.1)) ?_ ?_).same ho ?_
            · intro x; simp only [List.cons_append, List.mem_cons, List.map_cons, List.mem_append]; grind
            · simp only [List.map_cons]
              have : (a :: (L ++ l.map (·.1))).Perm (L ++ a :: l.map (·.1)) := List.perm_middle.symm
              exact this.nodup_iff.1 hnd
            · intro x r hd
              exact s1.inact x r (by omega)
          · intro x r hx hd
            rcases gr.new x r hx with h2 | ⟨_, _, h3, h4⟩
            · rw [ho]; exact h.oq x r h2 hd
            · rw [ho]; exact ⟨by omega, h4⟩
          · intro x hx
            rcases List.mem_cons.1 hx with rfl | hx
            · refine ⟨i, .cof f c, gr.old _ _ hr, by rw [ho]; exact hl, X, BFn.some C i, rf.mono gr.le, f0,
                by rw [ho]; show k < b.st.ord.lvl f.id; omega, v1, ev1, by rw [ho] at l1 ⊢; exact l1, sat_some hs, ?_⟩
              rw [s1.ghost _ (used_req hr), ho, hG]
              exact restrict_some w.ord hi (rf.indep w _ hif)
                (fun u _ hu => ⟨rf.indep w _ (by omega), rc.indep w _ (by omega)⟩)
            · exact (h.ls x hx).mono s1 (fun r hr => gr.old _ _ hr)
          · intro x r hx
            rcases gr.new x r hx with h2 | ⟨_, h3, _⟩
            · exact h.dp x r h2
            · exact Or.inl h3
        obtain ⟨b2, l2, G2, h2, i2, s2⟩ := ih _ b1 G1 inv
        refine ⟨b2, l2, G2, ?_, i2, s1'.trans s2⟩
        simp only [redScan, hr, ne_eq, hm, not_false_eq_true, if_true, hc, a1, h2]
    | bin f g => cases hq
    | _ => exact hpd'.elim

theorem addRef_two {s : Store} {e : Edge} (h : s.ref e.addr ≤ maxRef) : s.addRef e 2 = (s.icr e).icr e := by
  have hu : ∀ (f : Nat → Nat) (a x y : Nat), upd (upd f a x) a y = upd f a y := by
    intro f a x y; funext i; simp only [upd]; split <;> rfl
  have hm : maxRef = 255 := rfl
  by_cases h1 : s.ref e.addr < maxRef
  · have hc : (if (if s.ref e.addr < maxRef then s.ref e.addr + 1 else maxRef) < maxRef then
        (if s.ref e.addr < maxRef then s.ref e.addr + 1 else maxRef) + 1 else maxRef) =
        (if ((s.ref e.addr : Int) + 2 < 0) then maxRef else if (maxRef : Int) < (s.ref e.addr : Int) + 2
          then maxRef else ((s.ref e.addr : Int) + 2).toNat) := by
      rw [hm] at *
      grind
    unfold Store.addRef Store.icr
    rw [if_pos h1]
    simp only [upd_same, hu, hc]
  · have he : s.ref e.addr = maxRef := by omega
    have h2 : upd s.ref e.addr maxRef = s.ref := by
      funext i; simp only [upd]; split
      · rename_i hi; subst hi; exact he.symm
      · rfl
    unfold Store.addRef Store.icr
    rw [if_neg h1]
    simp only [upd_same, hu, if_neg h1, Nat.lt_irrefl, if_false, h2]

theorem redFix_one {b : BF Prob} {G} (er : EI redSem (fun d => d = 1) b G) {a i p}
    (hr : b.req a = some ⟨i, 1, .pend p⟩) (op : Open (fun d => d = 1) (b.st.ord.lvl i + 1) b)
    {f o : Edge} {F C} (rf : Rep b.st f F) (f0 : f.id ≠ 0) (ro : Rep b.st o C) (hs : Sat C)
    (lf : b.st.ord.lvl i < b.st.ord.lvl f.id) (lo : b.st.ord.lvl i < b.st.ord.lvl o.id)
    (hG : G a = restrict b.st.ord F C) :
    ∃ b1 r G' b', b.findOrAddReq 1 (minId2 b.st.ord (f, o)) (.cof f o) = some (b1, r) ∧
      b' = { b1 with st := b1.st.addRef r 2, req := upd b1.req a (some ⟨i, 1, .done r r⟩) } ∧
      EI redSem (fun d => d = 1) b' G' ∧ Stp (fun d => d = 1) b G b' G' ∧
      b'.req a = some ⟨i, 1, .done r r⟩ ∧ (∀ x r, x ≠ a → b.req x = some r → b'.req x = some r) ∧
      (∀ x r, x ≠ a → b'.req x = some r → b.req x = some r ∨
        (r.dep = 1 ∧ b.st.ord.lvl i < b.st.ord.lvl r.id ∧ ∃ p, r.cell = .pend p)) := by
  have w := er.sh.wf
  obtain ⟨hi, m1, m2, hor⟩ := minId2_spec w rf.eok ro.eok (Or.inl f0)
  obtain ⟨b1, e, G1, a1, e1, g1, k1, v1, ev1, l1⟩ := push_spec redAct er op (p := .cof f o)
    (F := restrict b.st.ord F C) ⟨f0, F, C, rf, ro, hs, rfl⟩ rfl hi (by
      show _ ≤ b.st.ord.lvl (minId2 b.st.ord (f, o))
      rcases hor with h | h <;> rw [h] <;> omega)
  have op1 := op.grow g1
  obtain ⟨s1, f1⟩ := settled op1 ev1 l1 e1.sh
  have href : ∃ ref, b1.st.addRef e 2 = { b1.st with ref := ref } := by
    unfold Store.addRef; split
    · exact ⟨_, rfl⟩
    · exact ⟨b1.st.ref, rfl⟩
  obtain ⟨ref, href⟩ := href
  let b3 : BF Prob := { b1 with st := b1.st.addRef e 2 }
  have hb3 : b3 = { b1 with st := { b1.st with ref := ref } } := by simp only [b3, href]
  have e3 : EI redSem (fun d => d = 1) b3 G1 := by rw [hb3]; exact e1.ref ref
  have gi : Grow (fun d => d = 1) (b.st.ord.lvl i + 1) b1 b3 G1 G1 := by
    rw [hb3]
    exact ⟨⟨rfl, fun _ _ h => h⟩, fun _ _ h => h, fun _ _ h => Or.inl h, fun _ _ => rfl,
      fun h => h.congr rfl rfl rfl⟩
  have g3 := g1.trans gi
  have ho3 : b3.st.ord = b.st.ord := g3.le.ord
  have nea : e.addr ≠ a := by
    rintro rfl
    rw [g1.le.ord] at l1
    rcases ev1 with ev | ⟨r, h1, h2, _⟩
    · exact EOK_ne_req e1.sh (g1.old _ _ hr) ev rfl
    · rw [g1.old _ _ hr] at h1; cases h1
      rw [← h2] at l1; simp only at l1; omega
  have ok : CellOk redSem (fun d => d = 1) b3 G1 a i 1 (.done e e) := by
    refine .done (v1.grow gi) (v1.grow gi) ?_ ?_
    · rw [g3.ghost a (used_req hr), hG]; funext ρ; simp
    · intro _
      have : b.st.ord.lvl i < b3.st.ord.lvl e.id := by rw [ho3]; rw [g1.le.ord] at l1; omega
      have this' : redSem.From b3.st (b3.st.ord.lvl i + 1) e := Or.inl (by rw [ho3] at *; exact this)
      exact ⟨ev1.grow gi, ev1.grow gi, this', this'⟩
  obtain ⟨b', hb', r⟩ := apply_fin (A := fun d => d = 1) rfl hr rfl e3 g3 ok trivial (by
    intro ext h
    have r1 := k1 ext h
    have hle : b1.st.ref e.addr ≤ maxRef := by
      rcases s1 with h0 | h0
      · rw [h0, r1.const]; exact Nat.le_refl _
      · exact r1.le _ h0
    have hb4 : b3 = (b1.icr e).icr e := by
      simp only [b3, BF.icr, addRef_two hle]
    have r2 := r1.icr e1.sh s1
    have s2 : e.addr = 0 ∨ (b1.icr e).Live e.addr := s1
    have r3 := r2.icr (e1.icr e).sh s2
    rw [← hb4] at r3
    have fe : b3.forward e = e := f1
    have hra := e3.sh.req_ok _ _ (g3.old _ _ hr)
    refine RefOK.set_cell (c := .done e e) e3.sh r3 (g3.old _ _ hr) (by simp)
      (out := fun x => hits e x + hits e x) ?_ ?_
    · intro x
      unfold arcs
      simp only [hra.1, upd_same]
      have : ({ b3 with req := upd b3.req a (some ⟨i, 1, .done e e⟩) } : BF Prob).forward e = e := by
        refine Eq.trans ?_ fe
        simp only [forward, upd_ne _ _ nea]
      rw [this]
    · intro x
      rw [bump_eq, bump_eq]; omega)
  exact ⟨b1, e, G1, b', a1, hb', r⟩

/-- state of the third loop -/
structure FixI (lo k : Nat) (l : List (Nat × Edge × Edge)) (b : BF Prob) (G : Nat → BFn) : Prop where
  er : EI redSem (fun d => d = 1) b G
  eo : EI orSem (fun d => d = 0) b G
  ad : AD (fun d => d = 1) lo k (l.map (·.1)) [] b
  oq : ∀ a r, b.req a = some r → r.dep = 0 → k ≤ b.st.ord.lvl r.id ∧ ∃ t, r.cell = .fwd t
  ls : ∀ x ∈ l, Lst k b G x
  dp : ∀ a r, b.req a = some r → r.dep = 0 ∨ r.dep = 1

theorem redFix_spec {lo k} : ∀ (l : List (Nat × Edge × Edge)) (b : BF Prob) (G), FixI lo k l b G →
    ∃ b' G', redFix l b = some b' ∧ FixI lo k [] b' G' ∧ Stp Both b G b' G' := by
  intro l
  induction l with
  | nil => intro b G h; exact ⟨b, G, rfl, h, Stp.refl _ _⟩
  | cons x l ih =>
    intro b G h
    obtain ⟨a, f, o⟩ := x
    obtain ⟨i, p, hr, hl, F, C, rf, f0, lf, v, ev, lo', hs, hG⟩ := h.ls (a, f, o) (by simp)
    simp only at hr rf f0 lf v ev lo' hG
    have hnd : (a :: l.map (·.1)).Nodup := h.ad.nodup
    obtain ⟨ro, lle⟩ := fwd_val h.eo v ev (fun r hx hd _ => (h.oq _ r hx hd).2)
    have op1 : Open (fun d => d = 1) (b.st.ord.lvl i + 1) b := by
      intro x r hx hd hlx
      exact h.ad.todo x r hx ⟨hd, Or.inl (by omega)⟩
    obtain ⟨b1, r, G', b', h1, hb', e1, s1, r1, o1, n1⟩ := redFix_one h.er hr op1 rf f0 ro hs (by omega)
      (by omega) hG
    have s1' : Stp Both b G b' G' := s1.weaken (fun d hd => Or.inr hd)
    have eo1 : EI orSem (fun d => d = 0) b' G' :=
      toOr e1 h.eo s1 (fun d hd => by omega)
    have ho := s1.st.ord
    have inv : FixI lo k l b' G' := by
      refine ⟨e1, eo1, h.ad.step (c := .done r r) hr rfl ho r1 trivial o1 n1, ?_, ?_, ?_⟩
      · intro x r hx hd
        rw [ho]
        exact h.oq x r ((s1.inact x r (by omega)).1 hx) hd
      · intro x hx
        have hne : x.1 ≠ a := by
          rintro rfl
          simp only [List.nodup_cons] at hnd
          exact hnd.1 (List.mem_map_of_mem hx)
        exact (h.ls x (by simp [hx])).mono s1 (fun r hr => o1 _ _ hne hr)
      · intro x r hx
        by_cases hd : r.dep = 1
        · exact Or.inr hd
        · exact h.dp x r ((s1.inact x r hd).1 hx)
    obtain ⟨b2, G2, h2, i2, s2⟩ := ih b' G' inv
    refine ⟨b2, G2, ?_, i2, s1'.trans s2⟩
    rw [hb'] at h2
    simp only [redFix, hr, h1, h2]

/-- state between two tables -/
structure RedI (lo k : Nat) (b : BF Prob) (G : Nat → BFn) : Prop where
  er : EI redSem (fun d => d = 1) b G
  ad : AD (fun d => d = 1) lo k [] [1] b
  dp : ∀ a r, b.req a = some r → r.dep = 1

theorem redApply_spec {lo k} {b : BF Prob} {G} (h : RedI lo k b G) (hk : k < b.st.ord.numVars) :
    ∃ b' G', redApply k b = some b' ∧ RedI lo (k+1) b' G' ∧ Out (fun d => d = 1) b G b' G' := by
  have hm := fun a => h.er.sh.mem_tab (d := 1) (a := a) hk
  have eqv : ∀ a r, b.req a = some r → (ADo (fun d => d = 1) k (b.que 1 (b.st.ord.indexToId k)) [] b a r ↔
      ADo (fun d => d = 1) k [] [1] b a r) := by
    intro a r hr
    unfold ADo
    simp only [List.not_mem_nil, or_false, false_or, List.mem_singleton]
    constructor
    · rintro ⟨h1, h2 | ⟨h2, h3⟩⟩
      · exact ⟨h1, Or.inl h2⟩
      · exact ⟨h1, Or.inr ⟨h2, h1⟩⟩
    · rintro ⟨h1, h2 | ⟨h2, h3⟩⟩
      · exact ⟨h1, Or.inl h2⟩
      · exact ⟨h1, Or.inr ⟨h2, (hm a).2 ⟨r, hr, h1, h2⟩⟩⟩
  have ad0 : AD (fun d => d = 1) lo k (b.que 1 (b.st.ord.indexToId k)) [] b := by
    refine ⟨?_, ?_, ?_, h.er.sh.que_nodup _ _, h.ad.lob⟩
    · intro a r hr htd; exact h.ad.todo a r hr ((eqv a r hr).1 htd)
    · intro a r hr hA htd; exact h.ad.past a r hr hA (fun h => htd ((eqv a r hr).2 h))
    · intro a ha
      obtain ⟨r, h1, h2, h3⟩ := (hm a).1 ha
      exact ⟨r, h1, h2, h3, by simp⟩
  have eo0 : EI orSem (fun d => d = 0) b G :=
    EI.none (S := redSem) (S' := orSem) (fun _ _ _ h => h) rfl h.er (fun a r hr => by rw [h.dp a r hr]; decide)
  have inv0 : ScanI lo k (b.que 1 (b.st.ord.indexToId k)) [] b G := by
    refine ⟨h.er, eo0, by simpa using ad0, ?_, by simp, fun a r hr => Or.inr (h.dp a r hr)⟩
    intro a r hr hd
    have := h.dp a r hr; omega
  obtain ⟨b1, l, G1, h1, i1, s1⟩ := redScan_spec _ [] b G inv0
  have ho1 := s1.st.ord
  obtain ⟨b2, G2, h2, e2, s2, f2⟩ := runR_spec orOk (ds := [0]) (lo := k) (by decide) (fun d => by simp)
    i1.eo (by rw [ho1]; omega) (fun a r hr hd => ⟨Nat.le_of_lt (i1.oq a r hr hd).1, (i1.oq a r hr hd).2⟩)
  have er2 : EI redSem (fun d => d = 1) b2 G2 :=
    toRed e2 i1.er s2 (fun d hd => by omega)
  have ho2 := s2.st.ord
  have inv2 : FixI lo k l b2 G2 := by
    refine ⟨er2, e2, ?_, fun a r hr hd => ⟨(f2 a r hr hd).2, (f2 a r hr hd).1⟩, ?_, ?_⟩
    · have := i1.ad
      simp only [List.nil_append] at this
      exact this.same ho2 (fun a r hd => s2.inact a r (by omega))
    · intro x hx
      refine (i1.ls x hx).mono s2 ?_
      intro r hr
      obtain ⟨j, p, h3, -⟩ := i1.ls x hx
      rw [hr] at h3; cases h3
      exact (s2.inact x.1 ⟨j, 1, .pend p⟩ (by simp)).2 hr
    · intro x r hx
      by_cases hd : r.dep = 0
      · exact Or.inl hd
      · exact i1.dp x r ((s2.inact x r hd).1 hx)
  obtain ⟨b3, G3, h3, i3, s3⟩ := redFix_spec l b2 G2 inv2
  have st : Stp Both b G b3 G3 := (s1.trans (s2.weaken (fun d hd => Or.inl hd))).trans s3
  obtain ⟨ci, cl⟩ := cleaned (B := fun d => d = 1) (ds := [0]) (cl := (idsFrom b3.st.ord k).reverse) i3.er.sh
    (fun d hd => by simp at hd; omega) (by
      intro a r hr hd
      have h4 := (i3.dp a r hr).resolve_right hd
      refine ⟨by simp [h4], ?_⟩
      rw [List.mem_reverse]
      exact BF.mem_idsFrom i3.er.sh.wf.ord (i3.er.sh.req_id a r hr) (i3.oq a r hr h4).1)
  have rf := i3.er.refs
  have ec := i3.er.cleaned rf cl ci (fun d hd => Or.inl hd) (fun x h1 h2 => cl.eva h2)
  have oc : Out (fun d => d = 1) b3 G3 (cleanUpTabs [0] (idsFrom b3.st.ord k).reverse b3) G3 :=
    cl.out i3.er.sh rf (fun a r hr hd => (i3.oq a r hr ((i3.dp a r hr).resolve_right hd)).2)
  refine ⟨_, G3, by simp only [redApply, h1, h2, h3], ⟨ec, ?_, ?_⟩, st.out.trans oc⟩
  · have := i3.ad
    simp only [List.map_nil] at this
    refine AD.next (fun d hd => by simpa using hd) (this.same cl.sn.ord ?_)
    intro a r hd
    rw [cl.req]
    exact ⟨fun h => h.1, fun h => ⟨h, hd⟩⟩
  · intro a r hr; exact ((cl.req a r).1 hr).2

theorem redRange_spec {lo} : ∀ (n k : Nat) (b : BF Prob) (G), k + n = b.st.ord.numVars →
    RedI lo k b G →
    ∃ b' G', redRange k n b = some b' ∧ RedI lo (k + n) b' G' ∧ Out (fun d => d = 1) b G b' G' := by
  intro n
  induction n with
  | zero => intro k b G _ h; exact ⟨b, G, rfl, h, Out.refl _ _⟩
  | succ n ih =>
    intro k b G hk h
    obtain ⟨b1, G1, h1, i1, o1⟩ := redApply_spec h (by omega)
    obtain ⟨b2, G2, h2, i2, o2⟩ := ih (k+1) b1 G1 (by rw [o1.st.ord]; omega) i1
    refine ⟨b2, G2, by simp only [redRange, h1, h2], ?_, o1.trans o2⟩
    rw [show k + (n + 1) = k + 1 + n by omega]; exact i2

theorem reduceBF_spec {s : Store} (w : s.WF) {f c : Edge} {F C : BFn} (rf : Rep s f F)
    (rc : Rep s c C) (hs : Sat C) : Gives s (reduceBF s f c) (restrict s.ord F C) := by
  have hok : redSem.Ok s 0 (.cof f c) (restrict s.ord F C) :=
    ⟨F, C, rf, rc, Nat.zero_le _, Nat.zero_le _, hs, rfl⟩
  have hwant : redRules.want s (.cof f c) = some (cofWant f c) := rfl
  cases hop : opCofactor f c with
  | some o =>
    cases redAct.want_ok w hok with
    | edge e h hr hl =>
      rw [hwant] at h
      cases o with
      | none => simp only [cofWant, hop] at h; cases h
      | some r =>
        simp only [cofWant, hop] at h; cases h
        exact ⟨s, e, by simp only [reduceBF, hop], w, Store.Le.refl _, Store.Keep.refl _, hr⟩
    | far e h hr hl => exact hl.elim
    | req p c' H h => rw [hwant] at h; cases o <;> simp only [cofWant, hop] at h <;> cases h
    | node i t e T E h => rw [hwant] at h; cases o <;> simp only [cofWant, hop] at h <;> cases h
  | none =>
    have f0 : f.id ≠ 0 := by
      intro h0
      unfold opCofactor at hop
      have hf : f.isConst = true := by simp [Edge.isConst, h0]
      rw [hf] at hop
      split at hop
      · split at hop <;> cases hop
      · simp at hop
    obtain ⟨hi, m1, m2, hor⟩ := minId2_spec w rf.eok rc.eok (Or.inl f0)
    have hlt := w.ord.lvl_lt hi.1 hi.2
    have id0 : BF.Idle (BF.init s : BF Prob) := BF.init_idle s
    have hn : ∀ a r, (BF.init s : BF Prob).req a ≠ some r := fun a r hr => by rw [id0.req] at hr; cases hr
    have ei0 : EI redSem (fun d => d = 1) (BF.init s : BF Prob) (fun _ _ => false) := id0.ei w _
    obtain ⟨b1, e, G1, h1, ei1, g1, k1, v1, ev1, l1⟩ := push_spec redAct ei0
      (k := s.ord.lvl (minId2 s.ord (f, c))) (fun a r hr => absurd hr (hn a r)) (p := .cof f c)
      (F := restrict s.ord F C) ⟨f0, F, C, rf, rc, hs, rfl⟩ rfl hi (Nat.le_refl _)
    have h1 : (BF.init s : BF Prob).findOrAddReq 1 (minId2 s.ord (f, c)) (.cof f c) = some (b1, e) := h1
    have ho1 : b1.st.ord = s.ord := g1.le.ord
    have hnew : ∀ a r, b1.req a = some r → r.dep = 1 ∧ s.ord.lvl (minId2 s.ord (f, c)) ≤ b1.st.ord.lvl r.id ∧
        ∃ p, r.cell = .pend p := by
      intro a r hr
      rcases g1.new a r hr with h | ⟨_, h2, h3, h4⟩
      · exact absurd h (hn a r)
      · exact ⟨h2, by rw [g1.le.ord]; exact h3, h4⟩
    generalize hlo : s.ord.lvl (minId2 s.ord (f, c)) = lo at *
    have inv1 : RedI lo lo b1 G1 :=
      ⟨ei1, AD.start (fun d hd => by simpa using hd) (fun a r hr _ => (hnew a r hr).2),
        fun a r hr => (hnew a r hr).1⟩
    obtain ⟨b2, G2, h2, i2, o2⟩ := redRange_spec (s.ord.numVars - lo) lo b1 G1 (by rw [ho1]; omega) inv1
    have ho2 : b2.st.ord = s.ord := o2.st.ord.trans ho1
    rw [show lo + (s.ord.numVars - lo) = s.ord.numVars by omega] at i2
    obtain ⟨b3, h3, e3, s3, rb⟩ := reduceRange_spec (S := redSem) (A := fun d => d = 1) (ds := [1])
      ⟨fun _ _ _ => rfl, id⟩ (by decide) (fun d => by simp) (lo := lo) (s.ord.numVars - lo) b2 G2
      (by rw [ho2]; omega) i2.er ⟨fun a r hr hA hl => i2.ad.past a r hr hA (by
          unfold ADo
          rw [ho2] at hl ⊢
          rintro ⟨_, h | ⟨h, _⟩⟩ <;> omega),
        fun a r hr hA hl => by
          have := i2.er.sh.lvl_lt hr; rw [ho2] at this hl; omega,
        i2.ad.lob⟩
    have ho3 : b3.st.ord = s.ord := s3.st.ord.trans ho2
    have hA : ∀ a r, b3.req a = some r → r.dep = 1 := by
      intro a r hr
      by_cases h : r.dep = 1
      · exact h
      · exact i2.dp a r ((s3.inact a r h).1 hr)
    have hfwd : ∀ a r, b3.req a = some r → ∃ t, r.cell = .fwd t := fun a r hr =>
      rb.past a r hr (hA a r hr) (rb.lob a r hr (hA a r hr))
    have fin : Rep b3.st (b3.forward e) (restrict s.ord F C) :=
      (fwd_val e3 ((o2.val ei1.sh v1 ev1).mono s3) ((o2.eva ev1).mono s3) (fun r hr _ _ => hfwd _ r hr)).1
    have kp : BF.Keep s b3 := by
      refine ⟨(g1.le.trans o2.st).trans s3.st, fun ext h => ?_, fun h => s3.num (o2.num (g1.num h))⟩
      have q0 := (BF.Keep.init s (P := Prob)).2.1 ext h
      have q1 := (g1.stp k1).keep ext q0 (fun a r hr => absurd hr (hn a r))
      have q2 := o2.keep ext q1.1 q1.2
      exact (s3.keep ext q2.1 q2.2).1
    obtain ⟨ci, sn, q⟩ := cleanUpTabs_spec [1] (idsFrom s.ord lo) b3 e3.sh.cinv
    refine ⟨(cleanUpTabs [1] (idsFrom s.ord lo) b3).st, b3.forward e, ?_, ci.wf, ?_, kp.final hfwd sn, ?_⟩
    · simp only [reduceBF, hop, hlo, h1, h2, h3]
    · exact kp.1.trans ⟨sn.ord, fun a n hn => by rw [sn.heap]; exact hn⟩
    · exact SameNodes.rep sn fin

end Eng
end Cal
