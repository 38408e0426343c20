import Verif.EngRun
import Verif.OpsSpec

/-!
# Whole operations on the multi-queue engine
-/

namespace Cal

/-- Request for problem `x`, apply and reduce from index `lo` in the queues `ds`, follow the
forwarding pointer of the result, clean up the tables of the ids `cl`. -/
def opB {P : Type} [DecidableEq P] (R : Rules P) (ds cl : List Nat) (lo : Nat) (s : Store) (x : P) :
    Option (BF P × Edge) :=
  match (BF.init s).act R x with
  | some (b, some e) =>
    match BF.runR R ds lo b with
    | none => none
    | some b1 => some (BF.cleanUpTabs ds cl b1, b1.forward e)
  | _ => none

/-- The same, without the state of the request queues, which are empty again (`opB_spec`). -/
def opR {P : Type} [DecidableEq P] (R : Rules P) (ds cl : List Nat) (lo : Nat) (s : Store) (x : P) :
    Option (Store × Edge) :=
  match opB R ds cl lo s x with
  | some (b, e) => some (b.st, e)
  | none => none

/-- ids 1, ..., numVars -/
def allIds (o : Order) : List Nat := (List.range o.numVars).map (· + 1)

theorem mem_allIds {o : Order} {i : Nat} (hi : 1 ≤ i ∧ i ≤ o.numVars) : i ∈ allIds o := by
  simp only [allIds, List.mem_map, List.mem_range]
  exact ⟨i - 1, by omega, by omega⟩

/-- Outcome of an operation on internal BDDs that ends with result `F`: it succeeds, keeps the
nodes and the reference counts of the nodes that were there. -/
structure Gives (s : Store) (out : Option (Store × Edge)) (F : BFn) : Prop where
  ok : ∃ s' r, out = some (s', r) ∧ s'.WF ∧ s.Le s' ∧ s.Keep s' ∧ Rep s' r F

namespace BF

variable {P : Type} {R : Rules P} {S : RulesSem R} {A : Nat → Prop}

theorem QShape.cinv {b : BF P} (sh : QShape b) : CInv b :=
  ⟨sh.wf, sh.req_ok, sh.que_iff, sh.que_nodup⟩

theorem SameNodes.refl (b : BF P) : SameNodes b b := ⟨rfl, rfl, rfl, rfl, rfl, rfl, rfl⟩

theorem cleanUpDs_spec (i : Nat) : ∀ (ds : List Nat) (b : BF P), CInv b →
    CInv (ds.foldl (fun b d => b.cleanUp d i) b) ∧
      SameNodes b (ds.foldl (fun b d => b.cleanUp d i) b) ∧
      ∀ a r, (ds.foldl (fun b d => b.cleanUp d i) b).req a = some r ↔
        b.req a = some r ∧ ¬ (r.dep ∈ ds ∧ r.id = i) := by
  intro ds
  induction ds with
  | nil => intro b h; exact ⟨h, SameNodes.refl b, by simp⟩
  | cons d ds ih =>
    intro b h
    obtain ⟨c1, s1, q1⟩ := cleanUp_spec h d i
    obtain ⟨c2, s2, q2⟩ := ih _ c1
    refine ⟨c2, s1.trans s2, ?_⟩
    intro a r
    rw [List.foldl_cons, q2 a r, q1 a r]
    simp only [List.mem_cons]
    grind

theorem cleanUpTabs_spec (ds : List Nat) : ∀ (ids : List Nat) (b : BF P), CInv b →
    CInv (cleanUpTabs ds ids b) ∧ SameNodes b (cleanUpTabs ds ids b) ∧
      ∀ a r, (cleanUpTabs ds ids b).req a = some r ↔
        b.req a = some r ∧ ¬ (r.dep ∈ ds ∧ r.id ∈ ids) := by
  intro ids
  induction ids with
  | nil => intro b h; exact ⟨h, SameNodes.refl b, by simp [cleanUpTabs]⟩
  | cons i is ih =>
    intro b h
    obtain ⟨c1, s1, q1⟩ := cleanUpDs_spec i ds b h
    obtain ⟨c2, s2, q2⟩ := ih _ c1
    refine ⟨c2, s1.trans s2, ?_⟩
    intro a r
    have : cleanUpTabs ds (i :: is) b = cleanUpTabs ds is (ds.foldl (fun b d => b.cleanUp d i) b) := rfl
    rw [this, q2 a r, q1 a r]
    simp only [List.mem_cons]
    grind

/-- A state without requests. -/
theorem Idle.ei {b : BF P} (h : Idle b) (w : b.st.WF) (G) : EI S A b G := by
  have hn : ∀ a r, b.req a ≠ some r := fun a r hr => by rw [h.req] at hr; cases hr
  exact {
    sh := {
      wf := w
      req_ok := fun a r hr => absurd hr (hn a r)
      req_id := fun a r hr => absurd hr (hn a r)
      que_iff := fun d i a => by
        rw [h.que]; simp only [List.not_mem_nil, false_iff]
        rintro ⟨r, hr, _⟩; exact hn a r hr
      que_nodup := fun d i => by rw [h.que]; exact List.nodup_nil
      done_thn := fun a _ _ _ _ hr => absurd hr (hn a _)
      done_els := fun a _ _ _ _ hr => absurd hr (hn a _)
      half_ok := fun a _ _ _ hr => absurd hr (hn a _)
      fwd_ok := fun a _ _ _ hr => absurd hr (hn a _) }
    pend := fun a _ _ _ hr => absurd hr (hn a _)
    done := fun a _ _ _ _ hr => absurd hr (hn a _)
    half := fun a _ _ _ hr => absurd hr (hn a _)
    fwd := fun a _ _ _ hr => absurd hr (hn a _)
    done_act := fun a _ _ _ _ _ hr => absurd hr (hn a _)
    half_act := fun a _ _ _ _ hr => absurd hr (hn a _)
    fwd_act := fun a _ _ _ _ hr => absurd hr (hn a _) }

end BF

theorem SameNodes.rep {P : Type} {b b' : BF P} (sn : BF.SameNodes b b') {e F} (h : Rep b.st e F) :
    Rep b'.st e F :=
  h.mono ⟨sn.ord, fun a n hn => by rw [sn.heap]; exact hn⟩

/-- An operation yields the function its problem stands for. -/
theorem opB_spec {P : Type} [DecidableEq P] {R : Rules P} {S : RulesSem R} {A : Nat → Prop}
    (H : RulesOk S A) {ds : List Nat} (hnd : ds.Nodup) (hds : ∀ d, A d ↔ d ∈ ds) {s : Store} (w : s.WF)
    {lo x F} (hx : S.Ok s lo x F) (hlo : lo ≤ s.ord.numVars) {cl : List Nat}
    (hcl : ∀ i, 1 ≤ i ∧ i ≤ s.ord.numVars → lo ≤ s.ord.lvl i → i ∈ cl)
    (hsel : S.Plain A := by exact ⟨by intros; rfl, id⟩) :
    ∃ b r, opB R ds cl lo s x = some (b, r) ∧ BF.Idle b ∧ b.st.WF ∧ s.Le b.st ∧ s.Keep b.st ∧
      Rep b.st r F := by
  have id0 : BF.Idle (BF.init s : BF P) := BF.init_idle s
  have hn : ∀ a r, (BF.init s : BF P).req a ≠ some r := fun a r hr => by rw [id0.req] at hr; cases hr
  have ei0 : BF.EI S A (BF.init s : BF P) (fun _ _ => false) := id0.ei w _
  obtain ⟨b1, e, G1, h1, ei1, g1, k1, v1, ev1, l1⟩ :=
    BF.act_spec H.toActOk ei0 (k := lo) (fun a r hr => absurd hr (hn a r)) hx hsel.2
  have hnew : ∀ a r, b1.req a = some r → A r.dep ∧ lo ≤ b1.st.ord.lvl r.id ∧ ∃ p, r.cell = .pend p := by
    intro a r hr
    rcases g1.new a r hr with h | ⟨_, h2, h3, h4⟩
    · exact absurd h (hn a r)
    · exact ⟨h2, by rw [g1.le.ord]; exact h3, h4⟩
  obtain ⟨b2, G2, h2, ei2, s2, f2⟩ := BF.runR_spec H hnd hds (lo := lo) ei1 (by rw [g1.le.ord]; exact hlo)
    (fun a r hr _ => (hnew a r hr).2) hsel
  have st := (g1.stp k1).trans s2
  have hA : ∀ a r, b2.req a = some r → A r.dep := by
    intro a r hr
    by_cases h : A r.dep
    · exact h
    · exact absurd ((st.inact a r h).1 hr) (hn a r)
  have af : BF.AllFwd b2 := fun a r hr => (f2 a r hr (hA a r hr)).1
  obtain ⟨c, sn, q⟩ := BF.cleanUpTabs_spec ds cl b2 ei2.sh.cinv
  have kp : BF.Keep s b2 := by
    refine ⟨st.st, fun ext h => ?_, fun h => st.num h⟩
    exact (st.keep ext ((BF.Keep.init s).2.1 ext h) (fun a r hr => absurd hr (hn a r))).1
  have fin : Rep b2.st (b2.forward e) F := by
    refine (BF.fwd_val ei2 (v1.mono s2) (ev1.mono s2) ?_).1
    intro r hr ha _
    exact (f2 _ r hr ha).1
  refine ⟨BF.cleanUpTabs ds cl b2, b2.forward e, ?_, c.idle ?_, c.wf, ?_, kp.final af sn, ?_⟩
  · simp only [opB, h1, h2]
  · intro a r hr
    obtain ⟨h3, h4⟩ := (q a r).1 hr
    have hid := ei2.sh.req_id a r h3
    have ho := st.st.ord
    have ho' : b2.st.ord = s.ord := ho
    rw [ho'] at hid
    refine h4 ⟨(hds _).1 (hA a r h3), hcl _ hid ?_⟩
    have := (f2 a r h3 (hA a r h3)).2
    rw [ho'] at this; exact this
  · exact st.st.trans ⟨sn.ord, fun a n hn => by rw [sn.heap]; exact hn⟩
  · exact SameNodes.rep sn fin

theorem opR_spec {P : Type} [DecidableEq P] {R : Rules P} {S : RulesSem R} {A : Nat → Prop}
    (H : RulesOk S A) {ds : List Nat} (hnd : ds.Nodup) (hds : ∀ d, A d ↔ d ∈ ds) {s : Store} (w : s.WF)
    {lo x F} (hx : S.Ok s lo x F) (hlo : lo ≤ s.ord.numVars) {cl : List Nat}
    (hcl : ∀ i, 1 ≤ i ∧ i ≤ s.ord.numVars → lo ≤ s.ord.lvl i → i ∈ cl)
    (hsel : S.Plain A := by exact ⟨by intros; rfl, id⟩) :
    Gives s (opR R ds cl lo s x) F := by
  obtain ⟨b, r, h1, -, h2, h3, h4, h5⟩ := opB_spec H hnd hds w hx hlo hcl hsel
  exact ⟨b.st, r, by simp only [opR, h1], h2, h3, h4, h5⟩

end Cal
