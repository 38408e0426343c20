import Verif.Mgr
import Verif.Spec

/-!
# The invariant of a manager

`Inv own lk m`: everything the library relies on. `own a` is the number of references the user holds
to the user node `a`.
-/

namespace Cal

/-- A function of infinitely many variables, which no BDD stands for. It is the "meaning" of op codes
that no cache entry may use. -/
noncomputable def noFn : BFn := open Classical in fun ρ => decide (∃ v, ρ v = true)

theorem Rep.ne_noFn {s : Store} (w : s.WF) {e F} (h : Rep s e F) : F ≠ noFn := by
  rintro rfl
  have := h.agree w (fun _ => false) (fun v => v == s.ord.numVars + 1) (fun v _ h2 _ => by
    have : v ≠ s.ord.numVars + 1 := by omega
    simp [this])
  have h1 : noFn (fun _ => false) = false := by simp [noFn]
  have h2 : noFn (fun v => v == s.ord.numVars + 1) = true := by simp [noFn]
  rw [h1, h2] at this; cases this

/-- no valid entry has an op code without a meaning -/
theorem Entry.Valid.ne_op {s : Store} (w : s.WF) {Γ} {e : Entry} (v : e.Valid s Γ) {c}
    (h : Γ c = fun _ => noFn) : e.op ≠ c := by
  rintro rfl
  obtain ⟨δ, hδ⟩ := w.exists_lab
  have := v.sem δ hδ
  rw [h] at this
  exact (hδ.rep w v.res).ne_noFn w this

theorem Entry.Valid.recode {s : Store} {Γ Γ'} {e : Entry} (v : e.Valid s Γ)
    (h : Γ' e.op = Γ e.op) : e.Valid s Γ' :=
  ⟨v.used, v.fixed, v.p1, v.p2, v.res, fun δ l => by rw [h]; exact v.sem δ l⟩

/-- giving a meaning to an op code that had none -/
theorem Cache.Valid.recode {s : Store} (w : s.WF) {Γ Γ'} {c : Cache} (v : c.Valid s Γ)
    (h : ∀ o, Γ o = (fun _ => noFn) ∨ Γ' o = Γ o) : c.Valid s Γ' := by
  refine ⟨fun i e hi => ?_, v.count, v.range⟩
  have ve := v.ent i e hi
  rcases h e.op with h | h
  · exact absurd rfl (ve.ne_op w h)
  · exact ve.recode h

/-- references from an optional edge -/
def optHits (o : Option Edge) (x : Nat) : Nat :=
  match o with
  | some e => hits e x
  | none => 0

/-- references from a table of edges indexed by variables -/
def tabHits (f : Nat → Option Edge) (n x : Nat) : Nat := sumTo (fun v => optHits (f v) x) (n + 1)

/-- references from the association list -/
def listHits (as : List RAssoc) (n x : Nat) : Nat := (as.map fun p => tabHits p.a.var n x).sum

/-- References from outside the unique tables, other than from user nodes: variables, associations,
and references nobody will ever give up (`leak`, see `Cal_AssociationInit`). The count of a variable's
node is put to its maximum when the variable is created (calBddManager.c:574), as if the variable
held more references than can be counted. -/
def Mgr.rest (m : Mgr) (leak : Nat → Nat) (x : Nat) : Nat :=
  256 * tabHits m.vars m.st.ord.numVars x + listHits m.assocs m.st.ord.numVars x +
    tabHits m.temp.var m.st.ord.numVars x + leak x

/-- All references from outside the unique tables. -/
def Mgr.roots (m : Mgr) (leak : Nat → Nat) (x : Nat) : Nat := m.ut.hits x + m.rest leak x

/-- The functions an association substitutes: the function of the value, or the variable itself. -/
def Assoc.Sub (A : Assoc) (s : Store) (S : Nat → BFn) : Prop :=
  ∀ v, (∀ e, A.var v = some e → Rep s e (S v)) ∧ (A.var v = none → S v = fun ρ => ρ v)

/-- An association: its values are BDDs, `lastBddIndex` is right. -/
structure Assoc.AOK (s : Store) (A : Assoc) : Prop where
  ok : A.OK s.ord
  vals : ∀ v e, A.var v = some e → s.EOK e

/-- A registered association; `Γ` knows its op codes. -/
structure Assoc.ROK (s : Store) (Γ : Nat → BFn → BFn) (A : Assoc) : Prop extends A.AOK s where
  id0 : 0 ≤ A.id
  id1 : A.id < 4096
  quant : Γ (A.opCode Cache.opQUANT) = exFn A.dom
  relprod : Γ (A.opCode Cache.opRELPROD) = exFn A.dom
  subst : ∀ S, A.Sub s S → Γ (A.opCode Cache.opVARSUBST) = substFn S

/-- Op codes that no operation has used. -/
def Mgr.Unused (m : Mgr) (c : Nat) : Prop :=
  c ≤ m.tempOp ∧ c ≠ Cache.opNAND ∧ ∀ p ∈ m.assocs, c ≠ p.a.opCode Cache.opQUANT ∧
    c ≠ p.a.opCode Cache.opRELPROD ∧ c ≠ p.a.opCode Cache.opVARSUBST

/-- The association list is sorted by id, without repetition. -/
def IdSorted : List RAssoc → Prop
  | [] => True
  | p :: ps => (∀ q ∈ ps, p.a.id < q.a.id) ∧ IdSorted ps

/-- The invariant, with its ghost parts: `Γ`, the meaning of op codes, and `leak`. -/
structure Mgr.InvG (Γ : Nat → BFn → BFn) (leak own : Nat → Nat) (m : Mgr) : Prop where
  wf : m.st.WF
  num : m.st.NumOK
  ref : m.st.RefOK (m.roots leak)
  ut : m.ut.OK own
  uok : ∀ a e, m.ut.heap a = some e → m.st.EOK e
  var : ∀ v, 1 ≤ v → v ≤ m.st.ord.numVars → ∃ a, m.vars v = some ⟨v, a, false⟩ ∧
    m.st.heap a = some ⟨v, one, zero⟩
  var0 : ∀ v, v < 1 ∨ m.st.ord.numVars < v → m.vars v = none
  ca : m.ca.Valid m.st Γ
  nand : Γ Cache.opNAND = fun F ρ => !F ρ
  assocs : ∀ p ∈ m.assocs, p.a.ROK m.st Γ ∧ 1 ≤ p.refCount
  sorted : IdSorted m.assocs
  temp : m.temp.AOK m.st
  tempId : m.temp.id = -1
  cur : m.cur = -1 ∨ ∃ p ∈ m.assocs, p.a.id = m.cur
  top : m.tempOp < 65536
  top' : 0x8FFF ≤ m.tempOp
  fresh : ∀ c, m.Unused c → Γ c = fun _ => noFn

/-- The invariant of a manager. `lk = false` says that no references have been leaked. -/
def Mgr.Inv (own : Nat → Nat) (lk : Bool) (m : Mgr) : Prop :=
  ∃ Γ leak, (lk = false → leak = fun _ => 0) ∧ m.InvG Γ leak own

/-- references held by a pipeline to its results -/
def pend (ps : List Edge) (x : Nat) : Nat := (ps.map fun e => hits e x).sum

/-- The invariant of a manager while a pipeline holds a reference to each edge of `ps`. -/
def Mgr.InvP (own : Nat → Nat) (lk : Bool) (ps : List Edge) (m : Mgr) : Prop :=
  ∃ Γ leak, (lk = false → leak = fun _ => 0) ∧ m.InvG Γ (fun x => leak x + pend ps x) own ∧
    ∀ e ∈ ps, m.st.EOK e

theorem Mgr.InvP.inv {own lk} {m : Mgr} (h : m.InvP own lk []) : m.Inv own lk := by
  obtain ⟨Γ, leak, hl, i, -⟩ := h
  exact ⟨Γ, leak, hl, by simpa [pend] using i⟩

theorem Mgr.Inv.invP {own lk} {m : Mgr} (h : m.Inv own lk) : m.InvP own lk [] := by
  obtain ⟨Γ, leak, hl, i⟩ := h
  exact ⟨Γ, leak, hl, by simpa [pend] using i, by simp⟩

/-- The function of a handle. -/
def Den (m : Mgr) (h : Handle) (F : BFn) : Prop :=
  ∃ e, m.ut.heap h.addr = some e ∧ Rep m.st (e.phase h.neg) F

/-- Two associations that stand for the same: same id, same variables, same functions. -/
structure Assoc.Eqv (s s' : Store) (A A' : Assoc) : Prop where
  id : A'.id = A.id
  dom : ∀ v, A'.var v = none ↔ A.var v = none
  vals : ∀ v e e', A.var v = some e → A'.var v = some e' → ∀ F, Rep s e F → Rep s' e' F

/-- The same for registered associations. -/
def RAssoc.Eqv (s s' : Store) (p p' : RAssoc) : Prop :=
  p.a.Eqv s s' p'.a ∧ p'.refCount = p.refCount

/-- What an operation keeps: the functions of all handles the user holds, the number of variables,
associations and settings. Temporary op codes are taken `k` at a time. -/
structure Pres (own : Nat → Nat) (k : Nat) (m m' : Mgr) : Prop where
  fns : ∀ h, UTab.Live own h → ∀ F, Den m h F → Den m' h F
  nv : m'.st.ord.numVars = m.st.ord.numVars
  ord : m.technique = 0 → m'.st.ord = m.st.ord
  cur : m'.cur = m.cur
  assocs : F2 (RAssoc.Eqv m.st m'.st) m.assocs m'.assocs
  temp : m.temp.Eqv m.st m'.st m'.temp
  top : m'.tempOp + k = m.tempOp
  gcMode : m'.gcMode = m.gcMode
  nodeLimit : m'.nodeLimit = m.nodeLimit
  technique : m'.technique = m.technique
  method : m'.method = m.method
  threshold : m'.reorderingThreshold = m.reorderingThreshold
  ovf : m.overflow = true → m'.overflow = true
  noLimit : m.nodeLimit = 0 → m'.overflow = m.overflow

/-- Edges of `m` go on as edges of `m'`: those that a pipeline holds (`ps`) and those of handles. -/
structure Fwd (own : Nat → Nat) (ps : List Edge) (m m' : Mgr) (φ : Edge → Edge) : Prop where
  held : ∀ h e, UTab.Live own h → m.internal h = some e → m'.internal h = some (φ e)
  pend : ∀ e ∈ ps, ∀ F, Rep m.st e F → Rep m'.st (φ e) F

/-! ## Equivalence of associations -/

theorem Assoc.Eqv.of_rep {s s' : Store} {A : Assoc}
    (h : ∀ v e, A.var v = some e → ∀ F, Rep s e F → Rep s' e F) : A.Eqv s s' A :=
  ⟨rfl, fun _ => Iff.rfl, fun v e e' h1 h2 F r => by rw [h1] at h2; cases h2; exact h v e h1 F r⟩

theorem Assoc.Eqv.refl {s : Store} (A : Assoc) : A.Eqv s s A := .of_rep fun _ _ _ _ r => r

theorem Assoc.Eqv.trans {s s' s'' : Store} {A B C : Assoc} (h : A.Eqv s s' B) (g : B.Eqv s' s'' C) :
    A.Eqv s s'' C := by
  refine ⟨g.id.trans h.id, fun v => (g.dom v).trans (h.dom v), ?_⟩
  intro v e e' h1 h2 F r
  cases hb : B.var v with
  | none => rw [(h.dom v).1 hb] at h1; cases h1
  | some f => exact g.vals v f e' hb h2 F (h.vals v e f h1 hb F r)

theorem F2.refl' {α : Type} {R : α → α → Prop} : ∀ {l : List α}, (∀ x ∈ l, R x x) → F2 R l l
  | [], _ => .nil
  | x :: l, h => .cons (h x (by simp)) (F2.refl' fun y hy => h y (by simp [hy]))

theorem F2.trans' {α β γ : Type} {R : α → β → Prop} {S : β → γ → Prop} {T : α → γ → Prop}
    (hT : ∀ x y z, R x y → S y z → T x z) {l m} (h : F2 R l m) : ∀ {n}, F2 S m n → F2 T l n := by
  induction h with
  | nil => intro n h'; cases h'; exact .nil
  | cons h1 _ ih => intro n h'; cases h' with | cons g1 g2 => exact .cons (hT _ _ _ h1 g1) (ih g2)

theorem RAssoc.Eqv.trans {s s' s'' : Store} {A B C : RAssoc} (h : RAssoc.Eqv s s' A B)
    (g : RAssoc.Eqv s' s'' B C) : RAssoc.Eqv s s'' A C := ⟨h.1.trans g.1, g.2.trans h.2⟩

theorem RAssoc.Eqv.transL {s s' s'' : Store} {A B C : List RAssoc} (h : F2 (RAssoc.Eqv s s') A B)
    (g : F2 (RAssoc.Eqv s' s'') B C) : F2 (RAssoc.Eqv s s'') A C :=
  F2.trans' (R := RAssoc.Eqv s s') (S := RAssoc.Eqv s' s'') (T := RAssoc.Eqv s s'')
    (fun _ _ _ a b => RAssoc.Eqv.trans a b) h g

theorem Assoc.Eqv.domEq {s s' : Store} {A B : Assoc} (h : A.Eqv s s' B) : B.dom = A.dom := by
  funext v
  have := h.dom v
  simp only [Assoc.dom, eq_iff_iff]
  cases hA : A.var v <;> cases hB : B.var v <;> simp_all

/-! ## Composition of frames -/

theorem Pres.refl (own) (m : Mgr) : Pres own 0 m m :=
  ⟨fun _ _ _ h => h, rfl, fun _ => rfl, rfl, F2.refl' fun _ _ => ⟨Assoc.Eqv.refl _, rfl⟩,
    Assoc.Eqv.refl _, rfl, rfl, rfl, rfl, rfl, rfl, fun h => h, fun _ => rfl⟩

theorem Pres.trans {own j k} {m m1 m2 : Mgr} (h : Pres own j m m1) (g : Pres own k m1 m2) :
    Pres own (j + k) m m2 :=
  ⟨fun x l F d => g.fns x l F (h.fns x l F d), g.nv.trans h.nv,
    fun t => (g.ord (h.technique.trans t)).trans (h.ord t), g.cur.trans h.cur,
    RAssoc.Eqv.transL h.assocs g.assocs, h.temp.trans g.temp,
    by have := h.top; have := g.top; omega, g.gcMode.trans h.gcMode, g.nodeLimit.trans h.nodeLimit,
    g.technique.trans h.technique, g.method.trans h.method, g.threshold.trans h.threshold,
    fun o => g.ovf (h.ovf o), fun n => (g.noLimit (h.nodeLimit.trans n)).trans (h.noLimit n)⟩

theorem Pres.weaken {own own' k} {m m' : Mgr} (h : Pres own' k m m')
    (hl : ∀ x, UTab.Live own x → UTab.Live own' x) : Pres own k m m' :=
  { h with fns := fun x l => h.fns x (hl x l) }

/-- one more reference -/
def bump (own : Nat → Nat) (a : Nat) : Nat → Nat := upd own a (own a + 1)

theorem live_bump {own a} {h : Handle} (l : UTab.Live own h) : UTab.Live (bump own a) h := by
  rcases l with l | l
  · exact Or.inl l
  · right
    unfold bump
    by_cases e : h.addr = a
    · subst e; rw [upd_same]; omega
    · rw [upd_ne _ _ e]; exact l

theorem live_bumped (own a) (b : Bool) : UTab.Live (bump own a) ⟨a, b⟩ := by
  right; simp [bump]

theorem bump_drop (own : Nat → Nat) (a) : upd (bump own a) a (bump own a a - 1) = own := by
  funext b
  by_cases h : b = a
  · subst h; simp [bump]
  · simp [bump, upd_ne _ _ h]

/-! ## Stores with the same nodes -/

/-- The same nodes; reference counts and `gcCheck` may differ. -/
structure Store.Same (s s' : Store) : Prop where
  ord : s'.ord = s.ord
  heap : s'.heap = s.heap
  tab : s'.tab = s.tab
  free : s'.free = s.free
  next : s'.next = s.next
  num : s'.numNodes = s.numNodes

theorem Store.Same.refl (s : Store) : s.Same s := ⟨rfl, rfl, rfl, rfl, rfl, rfl⟩
theorem Store.Same.trans {s t u : Store} (h : s.Same t) (g : t.Same u) : s.Same u :=
  ⟨g.ord.trans h.ord, g.heap.trans h.heap, g.tab.trans h.tab, g.free.trans h.free,
    g.next.trans h.next, g.num.trans h.num⟩
theorem Store.Same.icr (s : Store) (e : Edge) : s.Same (s.icr e) := ⟨rfl, rfl, rfl, rfl, rfl, rfl⟩
theorem Store.Same.dcr (s : Store) (e : Edge) : s.Same (s.dcr e) := ⟨rfl, rfl, rfl, rfl, rfl, rfl⟩

theorem Store.Same.le {s s' : Store} (h : s.Same s') : s.Le s' :=
  ⟨h.ord, fun a n hn => by rw [h.heap]; exact hn⟩

theorem Store.Same.le' {s s' : Store} (h : s.Same s') : s'.Le s :=
  ⟨h.ord.symm, fun a n hn => by rw [← h.heap]; exact hn⟩

theorem Store.Same.eok {s s' : Store} (h : s.Same s') (e : Edge) : s'.EOK e ↔ s.EOK e :=
  ⟨fun x => x.mono h.le', fun x => x.mono h.le⟩

theorem Store.Same.wf {s s' : Store} (h : s.Same s') (w : s.WF) : s'.WF := by
  obtain ⟨o, hp, rf, tb, fr, nx, nn, gc⟩ := s
  obtain ⟨o', hp', rf', tb', fr', nx', nn', gc'⟩ := s'
  obtain ⟨h1, h2, h3, h4, h5, h6⟩ := h
  simp only at h1 h2 h3 h4 h5 h6
  subst h1 h2 h3 h4 h5 h6
  exact ⟨w.ord, w.heap0, w.var_range, w.tab_iff, w.tab_nodup, w.thn_ok, w.els_ok, w.thn_pos,
    w.thn_lt, w.els_lt, w.reduced, w.unique, w.next_pos, w.heap_next, w.free_nodup, w.free_ok,
    w.free_disj⟩

theorem Store.Same.numOK {s s' : Store} (h : s.Same s') (n : s.NumOK) : s'.NumOK :=
  n.congr h.ord h.tab h.num

theorem Store.Same.inDeg {s s' : Store} (h : s.Same s') (x) : s'.inDeg x = s.inDeg x := by
  unfold Store.inDeg Store.arcs; rw [h.heap, h.next]

/-- counts do not depend on `gcCheck` -/
theorem Store.RefOK.same {s s' : Store} {ext} (r : s.RefOK ext) (h : s.Same s')
    (hr : s'.ref = s.ref) : s'.RefOK ext :=
  ⟨by rw [hr]; exact r.const, fun a ha => by rw [hr]; exact r.le a (by rwa [h.heap] at ha),
    fun a ha => by rw [hr, h.inDeg]; exact r.cnt a (by rwa [h.heap] at ha),
    fun a h0 ha => r.ext0 a h0 (by rwa [h.heap] at ha)⟩

/-! ## Meaning of associations under changes of the store -/

theorem Assoc.Sub.anti {s s' : Store} {A : Assoc} {S} (w : s.WF) (w' : s'.WF)
    (hv : ∀ v e, A.var v = some e → s.EOK e)
    (hr : ∀ v e, A.var v = some e → ∀ F, Rep s e F → Rep s' e F) (h : A.Sub s' S) : A.Sub s S := by
  intro v
  refine ⟨fun e he => ?_, (h v).2⟩
  obtain ⟨F, hF⟩ := w.rep_exists (hv v e he)
  rw [((h v).1 e he).unique w' (hr v e he F hF)]
  exact hF

theorem Assoc.AOK.mono {s s' : Store} {A : Assoc} (h : A.AOK s) (le : s.Le s') : A.AOK s' :=
  ⟨by rw [le.ord]; exact h.ok, fun v e he => (h.vals v e he).mono le⟩

theorem Assoc.ROK.mono {s s' : Store} {Γ} {A : Assoc} (w : s.WF) (w' : s'.WF) (h : A.ROK s Γ)
    (le : s.Le s') : A.ROK s' Γ :=
  { h.toAOK.mono le with
    id0 := h.id0, id1 := h.id1, quant := h.quant, relprod := h.relprod
    subst := fun S hS => h.subst S (hS.anti w w' h.vals fun _ _ _ _ r => r.mono le) }

theorem Mgr.rest_congr {m m' : Mgr} {leak} (hv : m'.vars = m.vars) (ha : m'.assocs = m.assocs)
    (ht : m'.temp = m.temp) (ho : m'.st.ord.numVars = m.st.ord.numVars) :
    m'.rest leak = m.rest leak := by
  funext x; simp only [Mgr.rest, hv, ha, ht, ho]

theorem Mgr.roots_congr {m m' : Mgr} {leak} (hu : m'.ut = m.ut) (hv : m'.vars = m.vars)
    (ha : m'.assocs = m.assocs) (ht : m'.temp = m.temp)
    (ho : m'.st.ord.numVars = m.st.ord.numVars) : m'.roots leak = m.roots leak := by
  funext x; simp only [Mgr.roots, Mgr.rest_congr hv ha ht ho, hu]

namespace Mgr

variable {Γ : Nat → BFn → BFn} {leak own : Nat → Nat} {m : Mgr}

/-- the node of a variable has its count at the maximum -/
theorem InvG.var_sat (i : InvG Γ leak own m) {v a : Nat} (h1 : 1 ≤ v) (h2 : v ≤ m.st.ord.numVars)
    (hv : m.vars v = some ⟨v, a, false⟩) : m.st.ref a = maxRef := by
  obtain ⟨a', ha, hn⟩ := i.var v h1 h2
  rw [hv] at ha
  cases ha
  have hne : m.st.heap a ≠ none := by rw [hn]; simp
  have hc := i.ref.cnt a hne
  have hle := i.ref.le a hne
  have : 1 ≤ tabHits m.vars m.st.ord.numVars a := by
    have := sumTo_ge (f := fun v => optHits (m.vars v) a) (n := m.st.ord.numVars + 1) (a := v) (by omega)
    simp only [hv, optHits, hits, if_true] at this
    exact this
  simp only [Mgr.roots, Mgr.rest] at hc
  simp only [maxRef] at *
  omega

/-- Operations that only add nodes and change counts and the cache keep the invariant. -/
theorem InvG.core' (i : InvG Γ leak own m) {s' : Store} {c' : Cache} (w : s'.WF)
    (le : m.st.Le s') (num : s'.NumOK) (ref : s'.RefOK (m.roots leak)) (v : c'.Valid s' Γ) :
    InvG Γ leak own { m with st := s', ca := c' } := by
  have hr : Mgr.roots { m with st := s', ca := c' } leak = m.roots leak :=
    Mgr.roots_congr rfl rfl rfl rfl (by show s'.ord.numVars = _; rw [le.ord])
  refine ⟨w, num, ?_, i.ut, fun a e h => (i.uok a e h).mono le, ?_, ?_, v, i.nand, ?_,
    i.sorted, i.temp.mono le, i.tempId, i.cur, i.top, i.top', i.fresh⟩
  · rw [hr]; exact ref
  · intro v h1 h2
    simp only [le.ord] at h2
    obtain ⟨a, ha, hn⟩ := i.var v h1 h2
    exact ⟨a, ha, le.heap _ _ hn⟩
  · intro v h
    simp only [le.ord] at h
    exact i.var0 v h
  · intro p hp
    exact ⟨(i.assocs p hp).1.mono i.wf w le, (i.assocs p hp).2⟩

/-- Operations that only add nodes and change the cache keep the invariant. -/
theorem InvG.core (i : InvG Γ leak own m) {s' : Store} {c' : Cache} (w : s'.WF)
    (le : m.st.Le s') (k : m.st.Keep s') (v : c'.Valid s' Γ) :
    InvG Γ leak own { m with st := s', ca := c' } :=
  i.core' w le (k.2 i.num) (k.1 _ i.ref) v

/-- The frame of such operations. -/
theorem core_pres {own} {m : Mgr} {s' : Store} {c' : Cache}
    (le : m.st.Le s') : Pres own 0 m { m with st := s', ca := c' } := by
  refine ⟨?_, by show s'.ord.numVars = _; rw [le.ord], fun _ => le.ord, rfl, ?_, ?_, rfl, rfl, rfl,
    rfl, rfl, rfl, fun h => h, fun _ => rfl⟩
  · rintro h _ F ⟨e, he, r⟩
    exact ⟨e, he, r.mono le⟩
  · exact F2.refl' fun p _ => ⟨.of_rep fun _ _ _ _ r => r.mono le, rfl⟩
  · exact .of_rep fun _ _ _ _ r => r.mono le

/-- Only reference counts change. -/
theorem InvG.recount (i : InvG Γ leak own m) {s' : Store} (h : m.st.Same s')
    (r : s'.RefOK (m.roots leak)) : InvG Γ leak own { m with st := s' } := by
  have w := h.wf i.wf
  have hr : Mgr.roots { m with st := s' } leak = m.roots leak :=
    Mgr.roots_congr rfl rfl rfl rfl (by show s'.ord.numVars = _; rw [h.ord])
  refine ⟨w, h.numOK i.num, by rw [hr]; exact r, i.ut, fun a e x => (i.uok a e x).mono h.le, ?_, ?_,
    i.ca.mono h.le, i.nand, ?_, i.sorted, i.temp.mono h.le, i.tempId, i.cur, i.top, i.top', i.fresh⟩
  · intro v h1 h2
    simp only [h.ord] at h2
    obtain ⟨a, ha, hn⟩ := i.var v h1 h2
    exact ⟨a, ha, h.le.heap _ _ hn⟩
  · intro v x
    simp only [h.ord] at x
    exact i.var0 v x
  · intro p hp
    exact ⟨(i.assocs p hp).1.mono i.wf w h.le, (i.assocs p hp).2⟩

/-! ## Initial manager -/

theorem init_inv (hash) : (init hash).Inv (fun _ => 0) false := by
  refine ⟨fun c => if c = Cache.opNAND then fun F ρ => !F ρ else fun _ => noFn, fun _ => 0,
    fun _ => rfl, ?_⟩
  have w : (init hash).st.WF := by
    refine ⟨⟨by simp [init, constIndex], ?_, ?_, ?_, ?_⟩, rfl, ?_, ?_, ?_, ?_, ?_, ?_, ?_, ?_, ?_, ?_,
      by simp [init], ?_, ?_, ?_, ?_⟩ <;> simp [init]
    all_goals omega
  refine ⟨w, ?_, ?_, ?_, ?_, ?_, ?_, Cache.Valid.init _ _ _, by simp, ?_, trivial, ?_, rfl,
    Or.inl rfl, by simp [init], by simp [init], ?_⟩
  · simp [Store.NumOK, init, sumTo]
  · refine ⟨by simp [init], ?_, ?_, ?_⟩ <;> simp [init]
    intro a ha
    have : hits one a = 0 := by simp [hits, one, Ne.symm ha]
    simp [roots, rest, UTab.hits, sumTo, tabHits, optHits, listHits, this]
  · refine ⟨by simp [init], by simp [init], by simp [init], ?_, ?_, ?_, by simp [init],
      by simp [init], ?_, by simp [init], by simp [init], ?_, ?_, fun _ _ => rfl⟩
    · intro a e h; simp [init] at h; rw [← h.2]; rfl
    · intro a b e h1 h2; simp [init] at h1 h2; omega
    · intro a; simp [init]
    · intro a h; simp [init] at h; simp [init, h]
    · intro a h; simp [init] at h; simp [init, h]
    · intro a h; simp [init] at h; simp [init, h]
  · intro a e h; simp [init] at h; rw [← h.2]; exact Store.EOK_one _
  · intro v h1 h2; simp [init] at h2; omega
  · intro v _; rfl
  · simp [init]
  · exact ⟨⟨by simp [init, Assoc.dom], by simp [init, Assoc.dom], by simp [init], Or.inl rfl⟩, by simp [init]⟩
  · intro c hc
    simp [hc.2.1]

end Mgr

end Cal
