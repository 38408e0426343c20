import Verif.Relocate
import Verif.ApiParts

/-!
# A manager whose nodes have moved

The part of the manager outside the unique tables after the nodes have been rearranged: every edge held
from outside is replaced by `ψ`.
-/

namespace Cal

/-- An association with all values forwarded. -/
structure Assoc.Mvd (ψ : Edge → Edge) (A A' : Assoc) : Prop where
  id : A'.id = A.id
  var : ∀ v, A'.var v = (A.var v).map ψ

/-- Nodes held from outside the unique tables. -/
def Mgr.Held (m : Mgr) (L : Nat → Nat) (e : Edge) : Prop :=
  m.st.EOK e ∧ (e.addr = 0 ∨ 0 < m.roots L e.addr)

/-- The store of a manager after rearranging its nodes: `ψ` forwards the edges held from outside, `φ`
their addresses. -/
structure Mgr.Forwards (m : Mgr) (L : Nat → Nat) (s' : Store) (φ : Nat → Nat) (ψ : Edge → Edge) : Prop where
  wf : s'.WF
  num : s'.NumOK
  nv : s'.ord.numVars = m.st.ord.numVars
  zero : φ 0 = 0
  inj : ∀ a b, 0 < m.roots L a → a ≠ 0 → 0 < m.roots L b → b ≠ 0 → φ a = φ b → a = b
  pos : ∀ a, 0 < m.roots L a → a ≠ 0 → φ a ≠ 0
  addr : ∀ e, (ψ e).addr = φ e.addr
  neg : ∀ e, (ψ e).neg = e.neg
  rep : ∀ e F, m.Held L e → Rep m.st e F → Rep s' (ψ e) F
  ref : ∀ ext' : Nat → Nat, (∀ a, 0 < m.roots L a → a ≠ 0 → ext' (φ a) = m.roots L a) →
    (∀ b, b ≠ 0 → (¬ ∃ a, 0 < m.roots L a ∧ a ≠ 0 ∧ φ a = b) → ext' b = 0) → s'.RefOK ext'

namespace Mgr

variable {Γ : Nat → BFn → BFn} {L own : Nat → Nat} {m : Mgr}

/-- external nodes -/
def Ext (m : Mgr) (L : Nat → Nat) (a : Nat) : Prop := 0 < m.roots L a ∧ a ≠ 0

theorem held_ut (i : InvG Γ L own m) {a e} (h : m.ut.heap a = some e) : m.Held L e := by
  refine ⟨i.uok a e h, Or.inr ?_⟩
  have : a < m.ut.next := i.ut.heap_next a (by rw [h]; simp)
  have h1 := sumTo_ge (f := fun b => match m.ut.heap b with | some e' => Cal.hits e' e.addr | none => 0) this
  have h2 : (match m.ut.heap a with | some e' => Cal.hits e' e.addr | none => 0) = 1 := by
    simp only [h, Cal.hits, if_true]
  rw [h2] at h1
  have h3 : 1 ≤ m.ut.hits e.addr := h1
  show 0 < m.ut.hits e.addr + _
  omega

theorem tabHits_pos {f : Nat → Option Edge} {n v : Nat} {e : Edge} (h : f v = some e) (hv : v ≤ n) :
    0 < tabHits f n e.addr := by
  have h1 := sumTo_ge (f := fun v => optHits (f v) e.addr) (n := n + 1) (a := v) (by omega)
  have h2 : optHits (f v) e.addr = 1 := by simp only [h, optHits, Cal.hits, if_true]
  rw [h2] at h1
  unfold tabHits; omega

theorem held_var (i : InvG Γ L own m) {v e} (h : m.vars v = some e) : m.Held L e := by
  have hv : 1 ≤ v ∧ v ≤ m.st.ord.numVars := by
    apply Classical.byContradiction
    intro hx
    rw [i.var0 v (by omega)] at h; cases h
  obtain ⟨a, h1, h2⟩ := i.var v hv.1 hv.2
  rw [h] at h1; cases h1
  refine ⟨Or.inr ⟨_, h2, rfl⟩, Or.inr ?_⟩
  have := tabHits_pos h hv.2
  simp only [Mgr.roots, Mgr.rest] at *
  omega

theorem held_temp (i : InvG Γ L own m) {v e} (h : m.temp.var v = some e) : m.Held L e := by
  have hv := i.temp.ok.rng v (by simp [Assoc.dom, h])
  refine ⟨i.temp.vals v e h, Or.inr ?_⟩
  have := tabHits_pos h hv.2
  simp only [Mgr.roots, Mgr.rest] at *
  omega

theorem listHits_pos {as : List RAssoc} {p} (hp : p ∈ as) {n x} (h : 0 < tabHits p.a.var n x) :
    0 < listHits as n x := by
  induction as with
  | nil => cases hp
  | cons q as ih =>
    unfold listHits at *
    simp only [List.map_cons, List.sum_cons]
    rcases List.mem_cons.1 hp with rfl | hp
    · omega
    · have := ih hp; omega

theorem held_assoc (i : InvG Γ L own m) {p} (hp : p ∈ m.assocs) {v e} (h : p.a.var v = some e) :
    m.Held L e := by
  have hv := (i.assocs p hp).1.ok.rng v (by simp [Assoc.dom, h])
  refine ⟨(i.assocs p hp).1.vals v e h, Or.inr ?_⟩
  have := listHits_pos hp (tabHits_pos h hv.2)
  simp only [Mgr.roots, Mgr.rest] at *
  omega

theorem pend_pos {ps : List Edge} {e} (h : e ∈ ps) : 0 < pend ps e.addr := by
  induction ps with
  | nil => cases h
  | cons q ps ih =>
    unfold pend at *
    simp only [List.map_cons, List.sum_cons]
    rcases List.mem_cons.1 h with rfl | h
    · simp only [Cal.hits, if_true]; omega
    · have := ih h; omega

variable {s' : Store} {φ : Nat → Nat} {ψ : Edge → Edge}

theorem Forwards.hits (f : m.Forwards L s' φ ψ) {e} (he : m.Held L e) {x} (hx : m.Ext L x) :
    Cal.hits (ψ e) (φ x) = Cal.hits e x := by
  unfold Cal.hits
  rw [f.addr]
  by_cases h : e.addr = x
  · rw [if_pos h, if_pos (by rw [h])]
  · rw [if_neg h, if_neg]
    intro hh
    by_cases h0 : e.addr = 0
    · rw [h0, f.zero] at hh; exact f.pos x hx.1 hx.2 hh.symm
    · have : 0 < m.roots L e.addr := by rcases he.2 with h | h; exact absurd h h0; exact h
      exact h (f.inj _ _ this h0 hx.1 hx.2 hh)

theorem Forwards.hits0 (f : m.Forwards L s' φ ψ) {e} (he : m.Held L e) {b} (b0 : b ≠ 0)
    (hb : ¬ ∃ a, 0 < m.roots L a ∧ a ≠ 0 ∧ φ a = b) : Cal.hits (ψ e) b = 0 := by
  unfold Cal.hits
  rw [f.addr, if_neg]
  intro hh
  by_cases h0 : e.addr = 0
  · rw [h0, f.zero] at hh; exact b0 hh.symm
  · have : 0 < m.roots L e.addr := by rcases he.2 with h | h; exact absurd h h0; exact h
    exact hb ⟨_, this, h0, hh⟩

/-- The references to `x` from a table of edges, and to its new place from the forwarded table. -/
theorem Forwards.optHits (f : m.Forwards L s' φ ψ) {o : Option Edge} (ho : ∀ e, o = some e → m.Held L e) {x}
    (hx : m.Ext L x) : Cal.optHits (o.map ψ) (φ x) = Cal.optHits o x := by
  cases o with
  | none => rfl
  | some e => exact f.hits (ho e rfl) hx

theorem Forwards.optHits0 (f : m.Forwards L s' φ ψ) {o : Option Edge} (ho : ∀ e, o = some e → m.Held L e)
    {b} (b0 : b ≠ 0) (hb : ¬ ∃ a, 0 < m.roots L a ∧ a ≠ 0 ∧ φ a = b) : Cal.optHits (o.map ψ) b = 0 := by
  cases o with
  | none => rfl
  | some e => exact f.hits0 (ho e rfl) b0 hb

theorem Forwards.tabHits (f : m.Forwards L s' φ ψ) {g g' : Nat → Option Edge} {n : Nat}
    (hg : ∀ v e, g v = some e → m.Held L e) (hg' : ∀ v, g' v = (g v).map ψ) {x}
    (hx : m.Ext L x) : Cal.tabHits g' n (φ x) = Cal.tabHits g n x := by
  unfold Cal.tabHits
  apply sumTo_congr
  intro v _
  rw [hg' v, f.optHits (fun e h => hg v e h) hx]

theorem Forwards.tabHits0 (f : m.Forwards L s' φ ψ) {g g' : Nat → Option Edge} {n : Nat}
    (hg : ∀ v e, g v = some e → m.Held L e) (hg' : ∀ v, g' v = (g v).map ψ) {b} (b0 : b ≠ 0)
    (hb : ¬ ∃ a, 0 < m.roots L a ∧ a ≠ 0 ∧ φ a = b) : Cal.tabHits g' n b = 0 := by
  unfold Cal.tabHits
  apply sumTo_zero
  intro v _
  rw [hg' v, f.optHits0 (fun e h => hg v e h) b0 hb]

theorem Forwards.listHits (f : m.Forwards L s' φ ψ) {n : Nat} {x} (hx : m.Ext L x) {as bs : List RAssoc}
    (h : F2 (fun p q : RAssoc => Assoc.Mvd ψ p.a q.a ∧ q.refCount = p.refCount) as bs)
    (hg : ∀ p ∈ as, ∀ v e, p.a.var v = some e → m.Held L e) :
    Cal.listHits bs n (φ x) = Cal.listHits as n x := by
  induction h with
  | nil => rfl
  | @cons p q as bs h1 _ ih =>
    have := ih fun p hp => hg p (List.mem_cons_of_mem _ hp)
    unfold Cal.listHits at *
    simp only [List.map_cons, List.sum_cons]
    rw [this, f.tabHits (hg p List.mem_cons_self) h1.1.var hx]

theorem Forwards.listHits0 (f : m.Forwards L s' φ ψ) {n : Nat} {b} (b0 : b ≠ 0)
    (hb : ¬ ∃ a, 0 < m.roots L a ∧ a ≠ 0 ∧ φ a = b) {as bs : List RAssoc}
    (h : F2 (fun p q : RAssoc => Assoc.Mvd ψ p.a q.a ∧ q.refCount = p.refCount) as bs)
    (hg : ∀ p ∈ as, ∀ v e, p.a.var v = some e → m.Held L e) :
    Cal.listHits bs n b = 0 := by
  induction h with
  | nil => rfl
  | @cons p q as bs h1 _ ih =>
    have := ih fun p hp => hg p (List.mem_cons_of_mem _ hp)
    unfold Cal.listHits at *
    simp only [List.map_cons, List.sum_cons]
    rw [this, f.tabHits0 (hg p List.mem_cons_self) h1.1.var b0 hb]

theorem Forwards.pend (f : m.Forwards L s' φ ψ) {x} (hx : m.Ext L x) {ps : List Edge}
    (hg : ∀ e ∈ ps, m.Held L e) : Cal.pend (ps.map ψ) (φ x) = Cal.pend ps x := by
  induction ps with
  | nil => rfl
  | cons e ps ih =>
    have := ih fun p hp => hg p (List.mem_cons_of_mem _ hp)
    unfold Cal.pend at *
    simp only [List.map_cons, List.sum_cons]
    rw [this, f.hits (hg e List.mem_cons_self) hx]

theorem Forwards.pend0 (f : m.Forwards L s' φ ψ) {b} (b0 : b ≠ 0)
    (hb : ¬ ∃ a, 0 < m.roots L a ∧ a ≠ 0 ∧ φ a = b) {ps : List Edge}
    (hg : ∀ e ∈ ps, m.Held L e) : Cal.pend (ps.map ψ) b = 0 := by
  induction ps with
  | nil => rfl
  | cons e ps ih =>
    have := ih fun p hp => hg p (List.mem_cons_of_mem _ hp)
    unfold Cal.pend at *
    simp only [List.map_cons, List.sum_cons]
    rw [this, f.hits0 (hg e List.mem_cons_self) b0 hb]

open Classical in
/-- A count of references moved to the new addresses. -/
noncomputable def push (m : Mgr) (L : Nat → Nat) (φ g : Nat → Nat) (b : Nat) : Nat :=
  if h : ∃ a, 0 < m.roots L a ∧ a ≠ 0 ∧ φ a = b then g (Classical.choose h) else 0

theorem Forwards.push_at (f : m.Forwards L s' φ ψ) (g : Nat → Nat) {x} (hx : m.Ext L x) :
    m.push L φ g (φ x) = g x := by
  have h : ∃ a, 0 < m.roots L a ∧ a ≠ 0 ∧ φ a = φ x := ⟨x, hx.1, hx.2, rfl⟩
  unfold push
  rw [dif_pos h]
  have hs := Classical.choose_spec h
  rw [f.inj _ _ hs.1 hs.2.1 hx.1 hx.2 hs.2.2]

theorem push_none {g : Nat → Nat} {b} (hb : ¬ ∃ a, 0 < m.roots L a ∧ a ≠ 0 ∧ φ a = b) :
    m.push L φ g b = 0 := by
  unfold push; rw [dif_neg hb]

/-- `b` is the node of the variable `v` -/
theorem var_node {s : Store} (w : s.WF) {e : Edge} {v : Nat} (r : Rep s e fun ρ => ρ v) :
    e.neg = false ∧ e.id = v ∧ s.heap e.addr = some ⟨v, Cal.one, Cal.zero⟩ := by
  have hc : e.id ≠ 0 := by
    intro h
    rcases (r.const_iff w).1 h with h | h
    · exact absurd (congrFun h fun _ => false) (by simp)
    · exact absurd (congrFun h fun _ => true) (by simp)
  have hid : e.id = v := by
    have hd := r.dep w hc
    apply Classical.byContradiction
    intro hne
    exact hd fun σ b => upd_ne _ _ (fun h => hne h.symm)
  obtain ⟨t, u, hk, rt, ru, -⟩ := r.kids w hc
  have ht : t = Cal.one := canonical w rt (by simp only [hid, upd_same]; exact Rep.one)
  have hu : u = Cal.zero := canonical w ru (by simp only [hid, upd_same]; exact Rep.zero)
  subst ht hu
  obtain ⟨n, hn, hv⟩ := r.eok.node w hc
  have hp := w.thn_pos _ _ hn
  simp only [Store.kids, hn, Option.some.injEq, Prod.mk.injEq] at hk
  obtain ⟨k1, k2⟩ := hk
  have hneg : e.neg = false := by
    have := congrArg Edge.neg k1
    simpa [hp] using this
  rw [hneg] at k1 k2
  simp only [Edge.phase_false] at k1 k2
  refine ⟨hneg, hid, ?_⟩
  rw [hn]
  cases n
  simp_all

/-- The whole manager after its nodes have moved. -/
def fwdAll (m : Mgr) (s' : Store) (ca' : Cache) (ψ : Edge → Edge) (as' : List RAssoc) (t' : Assoc) : Mgr :=
  { m with
    st := s', ca := ca', ut := { m.ut with heap := fun a => (m.ut.heap a).map ψ }
    vars := fun v => (m.vars v).map ψ, assocs := as', temp := t' }

theorem InvG.fwdAll {ps : List Edge} {leak : Nat → Nat} (i : InvG Γ (fun x => leak x + Cal.pend ps x) own m)
    (ok : ∀ e ∈ ps, m.st.EOK e)
    (f : m.Forwards (fun x => leak x + Cal.pend ps x) s' φ ψ) {ca' : Cache} (hca : ca'.Valid s' Γ)
    {as' : List RAssoc} {t' : Assoc}
    (ha : F2 (fun p q : RAssoc => Assoc.Mvd ψ p.a q.a ∧ q.refCount = p.refCount) m.assocs as')
    (hao : ∀ q ∈ as', q.a.OK s'.ord) (ht : Assoc.Mvd ψ m.temp t') (hto : t'.OK s'.ord) :
    InvG Γ (fun x => m.push (fun x => leak x + Cal.pend ps x) φ leak x + Cal.pend (ps.map ψ) x) own
      (m.fwdAll s' ca' ψ as' t') ∧ ∀ e ∈ ps.map ψ, s'.EOK e := by
  generalize hL : (fun x => leak x + Cal.pend ps x) = L at *
  have hps : ∀ e ∈ ps, m.Held L e := by
    intro e he
    refine ⟨ok e he, Or.inr ?_⟩
    have := pend_pos he
    have hx : L e.addr = leak e.addr + Cal.pend ps e.addr := by rw [← hL]
    simp only [Mgr.roots, Mgr.rest]
    omega
  have hrep : ∀ e, m.Held L e → ∃ F, Rep m.st e F ∧ Rep s' (ψ e) F := by
    intro e he
    obtain ⟨F, r⟩ := i.wf.rep_exists he.1
    exact ⟨F, r, f.rep e F he r⟩
  have heok : ∀ e, m.Held L e → s'.EOK (ψ e) := fun e he => by
    obtain ⟨F, _, r⟩ := hrep e he; exact r.eok
  have hroots : ∀ {L' : Nat → Nat}, L' = (fun x => m.push L φ leak x + Cal.pend (ps.map ψ) x) →
      (∀ x, m.Ext L x → (m.fwdAll s' ca' ψ as' t').roots L' (φ x) = m.roots L x) ∧
      ∀ b, b ≠ 0 → (¬ ∃ a, 0 < m.roots L a ∧ a ≠ 0 ∧ φ a = b) → (m.fwdAll s' ca' ψ as' t').roots L' b = 0 := by
    rintro L' rfl
    refine ⟨fun x hx => ?_, fun b b0 hb => ?_⟩
    · simp only [Mgr.roots, Mgr.rest, Mgr.fwdAll, UTab.hits, f.nv]
      rw [f.tabHits (g := m.vars) (fun v e h => held_var i h) (fun v => rfl) hx,
        f.tabHits (g := m.temp.var) (fun v e h => held_temp i h) ht.var hx,
        f.listHits hx ha (fun p hp v e h => held_assoc i hp h), f.push_at leak hx, f.pend hx hps]
      have : L x = leak x + Cal.pend ps x := by rw [← hL]
      rw [this]
      congr 1
      apply sumTo_congr
      intro a _
      cases h : m.ut.heap a with
      | none => rfl
      | some e => exact f.hits (held_ut i h) hx
    · simp only [Mgr.roots, Mgr.rest, Mgr.fwdAll, UTab.hits]
      rw [f.tabHits0 (g := m.vars) (fun v e h => held_var i h) (fun v => rfl) b0 hb,
        f.tabHits0 (g := m.temp.var) (fun v e h => held_temp i h) ht.var b0 hb,
        f.listHits0 b0 hb ha (fun p hp v e h => held_assoc i hp h), push_none hb, f.pend0 b0 hb hps, sumTo_zero]
      intro a _
      cases h : m.ut.heap a with
      | none => rfl
      | some e => exact f.hits0 (held_ut i h) b0 hb
  obtain ⟨hr1, hr2⟩ := hroots rfl
  have haF : ∀ {as bs : List RAssoc}, F2 (fun p q : RAssoc => Assoc.Mvd ψ p.a q.a ∧ q.refCount = p.refCount) as bs →
      ∀ q ∈ bs, ∃ p ∈ as, Assoc.Mvd ψ p.a q.a ∧ q.refCount = p.refCount := by
    intro as bs h
    induction h with
    | nil => intro q hq; cases hq
    | @cons p q as bs h1 _ ih =>
      intro r hr
      rcases List.mem_cons.1 hr with rfl | hr
      · exact ⟨p, List.mem_cons_self, h1⟩
      · obtain ⟨p', hp', h2⟩ := ih r hr
        exact ⟨p', List.mem_cons_of_mem _ hp', h2⟩
  have haF' : ∀ {as bs : List RAssoc}, F2 (fun p q : RAssoc => Assoc.Mvd ψ p.a q.a ∧ q.refCount = p.refCount) as bs →
      ∀ p ∈ as, ∃ q ∈ bs, Assoc.Mvd ψ p.a q.a ∧ q.refCount = p.refCount := by
    intro as bs h
    induction h with
    | nil => intro q hq; cases hq
    | @cons p q as bs h1 _ ih =>
      intro r hr
      rcases List.mem_cons.1 hr with rfl | hr
      · exact ⟨q, List.mem_cons_self, h1⟩
      · obtain ⟨p', hp', h2⟩ := ih r hr
        exact ⟨p', List.mem_cons_of_mem _ hp', h2⟩
  have hcode : ∀ {A A' : Assoc} (b), Assoc.Mvd ψ A A' → A'.opCode b = A.opCode b := fun b h => by
    unfold Assoc.opCode; rw [h.id]
  have hdom : ∀ {A A' : Assoc}, Assoc.Mvd ψ A A' → A'.dom = A.dom := fun {A A'} h => by
    funext v; simp only [Assoc.dom, h.var v, Option.isSome_map]
  refine ⟨⟨f.wf, f.num, ?_, ?_, ?_, ?_, ?_, hca, i.nand, ?_, ?_, ?_, ?_, ?_, i.top, i.top', ?_⟩, ?_⟩
  · exact f.ref _ (fun a h1 h2 => hr1 a ⟨h1, h2⟩) hr2
  · -- user nodes
    have hn : ∀ a, (m.ut.heap a).map ψ = none ↔ m.ut.heap a = none := fun a => by simp
    refine ⟨by simp [Mgr.fwdAll, i.ut.heap0], ?_, i.ut.one_ref, ?_, ?_, ?_, i.ut.tab_nodup, i.ut.next_pos, ?_,
      i.ut.free_nodup, ?_, ?_, ?_, ?_⟩
    · show (m.ut.heap 1).map ψ = _
      rw [i.ut.one, Option.map_some]
      have h1 := held_ut i i.ut.one
      congr 1
      exact canonical f.wf (f.rep _ _ h1 .one) .one
    · intro a e h
      simp only [Mgr.fwdAll, Option.map_eq_some_iff] at h
      obtain ⟨e0, h0, rfl⟩ := h
      rw [f.neg]; exact i.ut.pos a e0 h0
    · intro a b e h1 h2
      simp only [Mgr.fwdAll, Option.map_eq_some_iff] at h1 h2
      obtain ⟨e1, h1, rfl⟩ := h1
      obtain ⟨e2, h2, h3⟩ := h2
      have k1 := held_ut i h1
      have k2 := held_ut i h2
      obtain ⟨F, r1, r1'⟩ := hrep e1 k1
      obtain ⟨G, r2, r2'⟩ := hrep e2 k2
      rw [h3] at r2'
      have := r1'.unique f.wf r2'
      subst this
      have := canonical i.wf r1 r2
      subst this
      exact i.ut.uniq a b _ h1 h2
    · intro a; show a ∈ m.ut.tab ↔ (m.ut.heap a).map ψ ≠ none
      rw [i.ut.tab_iff, Ne, Ne, hn]
    · intro a ha; exact i.ut.heap_next a (mt (hn a).2 ha)
    · intro a ha
      have := i.ut.free_ok a ha
      exact ⟨(hn a).2 this.1, this.2⟩
    · intro a ha; exact i.ut.ref_le a (mt (hn a).2 ha)
    · intro a ha; exact i.ut.cnt a (mt (hn a).2 ha)
    · intro a ha; exact i.ut.own0 a ((hn a).1 ha)
  · intro a e h
    simp only [Mgr.fwdAll, Option.map_eq_some_iff] at h
    obtain ⟨e0, h0, rfl⟩ := h
    exact heok _ (held_ut i h0)
  · intro v h1 h2
    have h2' : v ≤ m.st.ord.numVars := by rw [← f.nv]; exact h2
    obtain ⟨a, hv, hn⟩ := i.var v h1 h2'
    have hh := held_var i hv
    have hrv : Rep m.st ⟨v, a, false⟩ fun ρ => ρ v := by
      have := Rep.pos (s := m.st) hn .one .zero
      simpa using this
    obtain ⟨n1, n2, n3⟩ := var_node f.wf (f.rep _ _ hh hrv)
    refine ⟨φ a, ?_, ?_⟩
    · show (m.vars v).map ψ = _
      rw [hv, Option.map_some]
      congr 1
      exact Edge.ext' n2 (by rw [f.addr]) n1
    · rw [f.addr] at n3; exact n3
  · intro v hv
    show (m.vars v).map ψ = none
    rw [i.var0 v (by rw [← f.nv]; exact hv)]; rfl
  · intro q hq
    obtain ⟨p, hp, hm, hrc⟩ := haF ha q hq
    have hR := (i.assocs p hp).1
    refine ⟨⟨⟨hao q hq, ?_⟩, by rw [hm.id]; exact hR.id0, by rw [hm.id]; exact hR.id1, ?_, ?_, ?_⟩,
      by rw [hrc]; exact (i.assocs p hp).2⟩
    · intro v e h
      rw [hm.var, Option.map_eq_some_iff] at h
      obtain ⟨e0, h0, rfl⟩ := h
      exact heok _ (held_assoc i hp h0)
    · rw [hcode _ hm, hdom hm]; exact hR.quant
    · rw [hcode _ hm, hdom hm]; exact hR.relprod
    · intro S hS
      rw [hcode _ hm]
      refine hR.subst S fun v => ⟨fun e he => ?_, fun hn => (hS v).2 (by rw [hm.var, hn]; rfl)⟩
      have hh := held_assoc i hp he
      obtain ⟨F, r1, r2⟩ := hrep e hh
      have := ((hS v).1 (ψ e) (by rw [hm.var, he]; rfl)).unique f.wf r2
      rw [this]; exact r1
  · show IdSorted as'
    have : ∀ {as bs : List RAssoc}, F2 (fun p q : RAssoc => Assoc.Mvd ψ p.a q.a ∧ q.refCount = p.refCount) as bs →
        IdSorted as → IdSorted bs := by
      intro as bs h
      induction h with
      | nil => exact fun h => h
      | @cons p q as bs h1 h2 ih =>
        rintro ⟨s1, s2⟩
        refine ⟨fun r hr => ?_, ih s2⟩
        obtain ⟨p', hp', h3, -⟩ := haF h2 r hr
        rw [h1.1.id, h3.id]; exact s1 p' hp'
    exact this ha i.sorted
  · refine ⟨hto, fun v e h => ?_⟩
    have h' : t'.var v = some e := h
    rw [ht.var, Option.map_eq_some_iff] at h'
    obtain ⟨e0, h0, rfl⟩ := h'
    exact heok _ (held_temp i h0)
  · show t'.id = -1
    rw [ht.id]; exact i.tempId
  · rcases i.cur with h | ⟨p, hp, h⟩
    · exact Or.inl h
    · obtain ⟨q, hq, hm, -⟩ := haF' ha p hp
      exact Or.inr ⟨q, hq, by rw [hm.id]; exact h⟩
  · intro c hc
    refine i.fresh c ⟨hc.1, hc.2.1, fun p hp => ?_⟩
    obtain ⟨q, hq, hm, -⟩ := haF' ha p hp
    have := hc.2.2 q hq
    rw [hcode _ hm, hcode _ hm, hcode _ hm] at this
    exact this
  · intro e he
    obtain ⟨e0, h0, rfl⟩ := List.mem_map.1 he
    exact heok _ (hps e0 h0)

/-- What the user can see after the move. -/
theorem InvG.fwd_pres {ps : List Edge} {leak : Nat → Nat} (i : InvG Γ (fun x => leak x + Cal.pend ps x) own m)
    (ok : ∀ e ∈ ps, m.st.EOK e)
    (f : m.Forwards (fun x => leak x + Cal.pend ps x) s' φ ψ) {ca' : Cache}
    {as' : List RAssoc} {t' : Assoc} (ho : m.technique = 0 → s'.ord = m.st.ord)
    (ha : F2 (fun p q : RAssoc => Assoc.Mvd ψ p.a q.a ∧ q.refCount = p.refCount) m.assocs as')
    (ht : Assoc.Mvd ψ m.temp t') (hph : ∀ e b, ψ (e.phase b) = (ψ e).phase b) :
    Pres own 0 m (m.fwdAll s' ca' ψ as' t') ∧ Fwd own ps m (m.fwdAll s' ca' ψ as' t') ψ := by
  generalize hL : (fun x => leak x + Cal.pend ps x) = L at *
  have hps : ∀ e ∈ ps, m.Held L e := by
    intro e he
    refine ⟨ok e he, Or.inr ?_⟩
    have := pend_pos he
    have hx : L e.addr = leak e.addr + Cal.pend ps e.addr := by rw [← hL]
    simp only [Mgr.roots, Mgr.rest]
    omega
  have heqv : ∀ {A A' : Assoc}, Assoc.Mvd ψ A A' → (∀ v e, A.var v = some e → m.Held L e) →
      A.Eqv m.st s' A' := by
    intro A A' h hh
    refine ⟨h.id, fun v => by rw [h.var]; simp, fun v e e' h1 h2 F r => ?_⟩
    rw [h.var, h1] at h2
    cases h2
    exact f.rep e F (hh v e h1) r
  refine ⟨⟨?_, f.nv, ho, rfl, ?_, ?_, rfl, rfl, rfl, rfl, rfl, rfl, fun h => h, fun _ => rfl⟩, ⟨?_, ?_⟩⟩
  · rintro h _ F ⟨e, he, r⟩
    refine ⟨ψ e, by show (m.ut.heap h.addr).map ψ = _; rw [he]; rfl, ?_⟩
    have hh := held_ut i he
    have : m.Held L (e.phase h.neg) := ⟨r.eok, hh.2⟩
    have := f.rep _ F this r
    rw [hph] at this
    exact this
  · show F2 (RAssoc.Eqv m.st s') m.assocs as'
    have : ∀ {as bs : List RAssoc}, F2 (fun p q : RAssoc => Assoc.Mvd ψ p.a q.a ∧ q.refCount = p.refCount) as bs →
        (∀ p ∈ as, ∀ v e, p.a.var v = some e → m.Held L e) → F2 (RAssoc.Eqv m.st s') as bs := by
      intro as bs h
      induction h with
      | nil => exact fun _ => .nil
      | @cons p q as bs h1 h2 ih =>
        intro hg
        exact .cons ⟨heqv h1.1 (hg p List.mem_cons_self), h1.2⟩ (ih fun p hp => hg p (List.mem_cons_of_mem _ hp))
    exact this ha fun p hp v e h => held_assoc i hp h
  · exact heqv ht fun v e h => held_temp i h
  · intro h e _ he
    simp only [internal, Mgr.fwdAll, Option.map_map] at he ⊢
    cases hx : m.ut.heap h.addr with
    | none => rw [hx] at he; cases he
    | some e0 =>
      rw [hx] at he
      simp only [Option.map_some, Option.some.injEq] at he
      subst he
      simp only [Option.map_some, Function.comp, hph]
  · intro e he F r
    exact f.rep e F (hps e he) r

end Mgr

end Cal
