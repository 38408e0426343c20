import Verif.QuantBF

/-!
# Invariants of breadth-first quantification, and obtaining results
-/

namespace Cal
namespace QB

open BF Eng

/-- The queue and the table of a request. -/
def qR : Rules QP where
  que
    | .main _ _ => 0
    | .nand q _ _ => q
    | .quant .. => 0
  top o
    | .main f g => minId2 o (f, g)
    | .nand _ f g => minId2 o (f, g)
    | .quant i .. => i
  split _ _ := none
  want _ _ := none

/-- What a pending request stands for. -/
def qPd (Q : Cfg) (s : Store) : QP → BFn → Prop
  | .main f g, F => ∃ X Y, Rep s f X ∧ Rep s g Y ∧ (Q.rel = false → Y = fun _ => true) ∧
      F = exFn Q.A.dom fun ρ => X ρ && Y ρ
  | .nand _ f g, F => ∃ X Y, Rep s f X ∧ Rep s g Y ∧ F = fun ρ => !(X ρ && Y ρ)
  | .quant .., _ => True

def qS (Q : Cfg) : RulesSem qR where
  Ok _ _ _ _ := False
  Null _ _ := False
  Pd := qPd Q
  ok_mono _ h := h
  null_mono _ h := h
  pd_mono := by
    intro s s' x F hle h
    cases x with
    | main f g => obtain ⟨X, Y, a, b, c, d⟩ := h; exact ⟨X, Y, a.mono hle, b.mono hle, c, d⟩
    | nand q f g => obtain ⟨X, Y, a, b, c⟩ := h; exact ⟨X, Y, a.mono hle, b.mono hle, c⟩
    | quant i fy gy t => trivial

/-- all queues -/
abbrev All : Nat → Prop := fun _ => True

theorem qS_plain (Q : Cfg) : (qS Q).Plain All := ⟨fun _ _ _ => rfl, id⟩

theorem Val.eva {b : BF QP} {G e F} (v : b.Val G e F) : EVa All b e := by
  rcases v with v | ⟨r, h1, h2, _⟩
  · exact Or.inl v.eok
  · exact Or.inr ⟨r, h1, h2, trivial⟩

theorem pd_fun {Q : Cfg} {s : Store} (w : s.WF) {p : QP} (hp : ∀ i fy gy t, p ≠ .quant i fy gy t) {F F'}
    (h : qPd Q s p F) (h' : qPd Q s p F') : F = F' := by
  cases p with
  | main f g =>
    obtain ⟨X, Y, a, b, -, c⟩ := h
    obtain ⟨X', Y', a', b', -, c'⟩ := h'
    rw [c, c', a.unique w a', b.unique w b']
  | nand q f g =>
    obtain ⟨X, Y, a, b, c⟩ := h
    obtain ⟨X', Y', a', b', c'⟩ := h'
    rw [c, c', a.unique w a', b.unique w b']
  | quant i fy gy t => exact absurd rfl (hp i fy gy t)

/-- the request is not applied -/
def fresh : Cell QP → Prop
  | .pend (.main _ _) => True
  | .pend (.nand q _ _) => q ≠ 0
  | _ => False

/-- the request is applied -/
def appl : Cell QP → Prop
  | .pend (.quant _ _ _ _) => True
  | .done _ _ => True
  | _ => False

/-- the request is forwarded -/
def isF : Cell QP → Prop
  | .fwd _ => True
  | _ => False

theorem fresh.pend {c : Cell QP} (h : fresh c) : ∃ p, c = .pend p ∧ ∀ i fy gy t, p ≠ .quant i fy gy t := by
  cases c with
  | pend p => cases p with
    | main f g => exact ⟨_, rfl, by simp⟩
    | nand q f g => exact ⟨_, rfl, by simp⟩
    | quant i fy gy t => exact h.elim
  | _ => exact h.elim

theorem isF.get {c : Cell QP} (h : isF c) : ∃ t, c = .fwd t := by
  cases c with
  | fwd t => exact ⟨t, rfl⟩
  | _ => exact h.elim

theorem fresh.notF {c : Cell QP} (h : fresh c) : ¬ isF c := by
  obtain ⟨p, rfl, -⟩ := h.pend; exact id

/-- An applied request whose variable is quantified. -/
def QOk (Q : Cfg) (o : Order) (b : BF QP) (G : Nat → BFn) (i : Nat) (fy gy t : Edge) (F : BFn) : Prop :=
  ∃ T X Y, b.Val G t T ∧ o.lvl i < o.lvl t.id ∧ Rep b.st fy X ∧ Rep b.st gy Y ∧
    o.lvl i < o.lvl fy.id ∧ o.lvl i < o.lvl gy.id ∧ (Q.rel = false → Y = fun _ => true) ∧
    F = fun ρ => T ρ || exFn Q.A.dom (fun ρ => X ρ && Y ρ) ρ

def CellQ (Q : Cfg) (o : Order) (b : BF QP) (G : Nat → BFn) (a : Nat) (r : Req QP) : Prop :=
  match r.cell with
  | .pend (.quant _ fy gy t) => Q.A.dom r.id ∧ QOk Q o b G r.id fy gy t (G a)
  | .done _ _ => r.dep = 0 → ¬ Q.A.dom r.id
  | .half _ => False
  | _ => True

theorem fresh.cellQ {Q o b G a} {r : Req QP} (h : fresh r.cell) : CellQ Q o b G a r := by
  obtain ⟨i, d, c⟩ := r
  cases c with
  | pend p => cases p with
    | main f g => trivial
    | nand q f g => trivial
    | quant i fy gy t => exact h.elim
  | _ => exact h.elim

theorem isF.cellQ {Q o b G a} {r : Req QP} (h : isF r.cell) : CellQ Q o b G a r := by
  obtain ⟨i, d, c⟩ := r
  cases c with
  | fwd t => trivial
  | _ => exact h.elim

structure QI (Q : Cfg) (o : Order) (b : BF QP) (G : Nat → BFn) : Prop where
  ei : EI (qS Q) All b G
  ord : b.st.ord = o
  cell : ∀ a r, b.req a = some r → CellQ Q o b G a r

theorem CellQ.map {Q o} {b b' : BF QP} {G G'} (hle : b.st.Le b'.st)
    (hv : ∀ {e F}, b.Val G e F → b'.Val G' e F) {a r} (hG : G' a = G a)
    (h : CellQ Q o b G a r) : CellQ Q o b' G' a r := by
  obtain ⟨i, d, c⟩ := r
  cases c with
  | pend p => cases p with
    | main f g => trivial
    | nand q f g => trivial
    | quant j fy gy t =>
      obtain ⟨h0, T, X, Y, h1, h2, h3, h4, h5⟩ := h
      refine ⟨h0, T, X, Y, hv h1, h2, h3.mono hle, h4.mono hle, ?_⟩
      rw [hG]; exact h5
  | done t e => exact h
  | half e => exact h.elim
  | fwd t => trivial

theorem CellQ.mono {Q o} {b b' : BF QP} {G G'} (s : Stp All b G b' G') {a r} (hr : b.req a = some r)
    (h : CellQ Q o b G a r) : CellQ Q o b' G' a r :=
  h.map s.st (fun v => v.mono s) (s.ghost a (used_req hr))

theorem QI.of {Q o} {b b' : BF QP} {G G'} (qi : QI Q o b G) (ei : EI (qS Q) All b' G')
    (s : Stp All b G b' G') (h : ∀ a r, b'.req a = some r → b.req a = some r ∨ CellQ Q o b' G' a r) :
    QI Q o b' G' := by
  refine ⟨ei, s.st.ord.trans qi.ord, fun a r hr => ?_⟩
  rcases h a r hr with h | h
  · exact (qi.cell a r h).mono s h
  · exact h

theorem QI.wf {Q o} {b : BF QP} {G} (qi : QI Q o b G) : b.st.WF := qi.ei.sh.wf

theorem QI.lvl_lt {Q o} {b : BF QP} {G} (qi : QI Q o b G) {a r} (hr : b.req a = some r) :
    o.lvl r.id < o.numVars := by
  have := qi.ei.sh.lvl_lt hr
  rw [qi.ord] at this; exact this

/-- Fresh requests were added, in the queues `D` and at index `lo` or below. -/
structure Gr (D : Nat → Prop) (o : Order) (k lo : Nat) (b b' : BF QP) (G G' : Nat → BFn) : Prop extends
    Grow All k b b' G G' where
  fr : ∀ a r, b'.req a = some r → b.req a = some r ∨ (fresh r.cell ∧ D r.dep ∧ lo ≤ o.lvl r.id)

theorem Gr.refl {D o k lo} (b : BF QP) (G) : Gr D o k lo b b G G :=
  ⟨Grow.refl _ _ _, fun _ _ h => Or.inl h⟩

theorem Gr.trans {D o k lo} {b b' b'' : BF QP} {G G' G''} (h1 : Gr D o k lo b b' G G')
    (h2 : Gr D o k lo b' b'' G' G'') : Gr D o k lo b b'' G G'' := by
  refine ⟨h1.toGrow.trans h2.toGrow, fun a r h => ?_⟩
  rcases h2.fr a r h with h | h
  · exact h1.fr a r h
  · exact Or.inr h

theorem Gr.weaken {D D' : Nat → Prop} {o k lo lo'} {b b' : BF QP} {G G'} (h : Gr D o k lo b b' G G')
    (hD : ∀ d, D d → D' d) (hl : lo' ≤ lo) : Gr D' o k lo' b b' G G' :=
  ⟨h.toGrow, fun a r hr => (h.fr a r hr).imp id fun ⟨x, y, z⟩ => ⟨x, hD _ y, by omega⟩⟩

theorem Gr.icr {D o k lo} {b : BF QP} {G} (e : Edge) : Gr D o k lo b (b.icr e) G G :=
  ⟨Grow.icr e, fun _ _ h => Or.inl h⟩

/-- Requests at index `k` and below are fresh or forwarded. -/
def OpenQ (o : Order) (k : Nat) (b : BF QP) : Prop :=
  ∀ a r, b.req a = some r → k ≤ o.lvl r.id → fresh r.cell ∨ isF r.cell

theorem OpenQ.gr {D o k j lo} {b b' : BF QP} {G G'} (h : OpenQ o k b) (g : Gr D o j lo b b' G G') :
    OpenQ o k b' := by
  intro a r hr hl
  rcases g.fr a r hr with h1 | ⟨h1, _⟩
  · exact h a r h1 hl
  · exact Or.inl h1

theorem OpenQ.le {o k k'} {b : BF QP} (h : OpenQ o k b) (hk : k ≤ k') : OpenQ o k' b :=
  fun a r hr hl => h a r hr (by omega)

/-- a node or a request that is not applied -/
def Fine (b : BF QP) (e : Edge) : Prop :=
  b.st.EOK e ∨ ∃ r, b.req e.addr = some r ∧ r.id = e.id ∧ fresh r.cell

theorem Fine.gr {A k} {b b' : BF QP} {G G'} {e} (h : Fine b e) (g : Grow A k b b' G G') : Fine b' e := by
  rcases h with h | ⟨r, h1, h2, h3⟩
  · exact Or.inl (h.mono g.le)
  · exact Or.inr ⟨r, g.old _ _ h1, h2, h3⟩

theorem Fine.phase {b : BF QP} {e} (h : Fine b e) (c : Bool) : Fine b (e.phase c) := h

theorem Fine.settled {b : BF QP} {e} (h : Fine b e) (sh : QShape b) :
    (e.addr = 0 ∨ b.Live e.addr) ∧ b.forward e = e := by
  rcases h with ev | ⟨r, h1, h2, h3⟩
  · refine ⟨?_, ?_⟩
    · rcases ev with ⟨_, h⟩ | ⟨n, h, _⟩
      · exact Or.inl h
      · exact Or.inr (Or.inl (by rw [h]; simp))
    · rcases forward_eq_or (b := b) e with ⟨h, _⟩ | ⟨j, d, t, h, _⟩
      · exact h
      · exact absurd rfl (EOK_ne_req sh h ev)
  · obtain ⟨p, hp, -⟩ := h3.pend
    refine ⟨Or.inr (Or.inr ⟨r, h1, by rw [hp]; simp⟩), ?_⟩
    rcases forward_eq_or (b := b) e with ⟨h, _⟩ | ⟨j, d, t, h, _⟩
    · exact h
    · rw [h] at h1; cases h1; cases hp

/-! ## The computed table -/

/-- A temporary entry: its result stands for the operation it is an entry of. -/
def TmpOk (Γ : Nat → BFn → BFn) (o : Order) (b : BF QP) (G : Nat → BFn) (x : Entry) : Prop :=
  x.tmp = true ∧ x.op ≠ 0 ∧ ∃ f g X Y, Rep b.st f X ∧ Rep b.st g Y ∧
    x.o1 = (Cache.sortOps f.ptr g.ptr).1 ∧ x.o2 = (Cache.sortOps f.ptr g.ptr).2 ∧
    b.Val G x.r (Γ x.op fun ρ => X ρ && Y ρ) ∧
    ∀ k, k ≤ o.lvl f.id → k ≤ o.lvl g.id → k ≤ o.lvl x.r.id

structure CI (Γ : Nat → BFn → BFn) (o : Order) (b : BF QP) (G : Nat → BFn) (c : Cache) : Prop where
  ent : ∀ i x, c.bins i = some x → x.Valid b.st Γ ∨ TmpOk Γ o b G x
  count : c.numEntries = Cache.tally (fun i => Cache.used (c.bins i)) c.numBins
  range : ∀ i x, c.bins i = some x → i < c.numBins

variable {Γ : Nat → BFn → BFn} {o : Order} {Q : Cfg}

theorem CI.stp {b b' : BF QP} {G G' c} (h : CI Γ o b G c) (g : Stp All b G b' G') :
    CI Γ o b' G' c := by
  refine ⟨fun i x hx => (h.ent i x hx).imp (fun v => v.mono g.st) ?_, h.count, h.range⟩
  rintro ⟨h1, h2, f, f', X, Y, h3, h4, h5, h6, h7, h8⟩
  exact ⟨h1, h2, f, f', X, Y, h3.mono g.st, h4.mono g.st, h5, h6, h7.mono g, h8⟩

theorem CI.grow {k} {b b' : BF QP} {G G' c} (h : CI Γ o b G c) (g : Grow All k b b' G G') :
    CI Γ o b' G' c := by
  refine ⟨fun i x hx => (h.ent i x hx).imp (fun v => v.mono g.le) ?_, h.count, h.range⟩
  rintro ⟨h1, h2, f, f', X, Y, h3, h4, h5, h6, h7, h8⟩
  exact ⟨h1, h2, f, f', X, Y, h3.mono g.le, h4.mono g.le, h5, h6, h7.grow g, h8⟩

theorem ptr_inj {s : Store} (w : s.WF) {f f' : Edge} (h : s.EOK f) (h' : s.EOK f') (hp : f'.ptr = f.ptr) :
    f' = f := by
  have ha : f'.addr = f.addr := congrArg Ptr.addr hp
  have hn : f'.neg = f.neg := congrArg Ptr.neg hp
  refine Edge.ext' ?_ ha hn
  by_cases h0 : f.id = 0
  · rw [h0]; exact (h'.addr_zero w).1 (by rw [ha]; exact (h.addr_zero w).2 h0)
  · have h0' : f'.id ≠ 0 := by
      intro h1
      exact h0 ((h.addr_zero w).1 (by rw [← ha]; exact (h'.addr_zero w).2 h1))
    obtain ⟨n, hn, hv⟩ := h.node w h0
    obtain ⟨n', hn', hv'⟩ := h'.node w h0'
    rw [ha, hn] at hn'; cases hn'
    rw [← hv, ← hv']

/-- A hit returns a node or a request that stands for the result. -/
theorem CI.lookup {b : BF QP} {G c} (h : CI Γ o b G c) (w : b.st.WF) (ho : b.st.ord = o) {op : Nat}
    (hI : ∀ F v, Indep F v → Indep (Γ op F) v) {f g : Edge} {X Y} (rf : Rep b.st f X) (rg : Rep b.st g Y)
    {k} (kf : k ≤ o.lvl f.id) (kg : k ≤ o.lvl g.id) {r} (hl : c.lookup f g op = some r) :
    b.Val G r (Γ op fun ρ => X ρ && Y ρ) ∧ k ≤ o.lvl r.id := by
  unfold Cache.lookup at hl
  cases hb : c.bins (c.index f.ptr g.ptr op) with
  | none => rw [hb] at hl; cases hl
  | some x =>
    rw [hb] at hl
    simp only at hl
    split at hl
    · rename_i hc
      cases hl
      rcases h.ent _ _ hb with v | ⟨-, -, f', g', X', Y', h3, h4, h5, h6, h7, h8⟩
      · obtain ⟨δ, hδ⟩ := w.exists_lab
        have hs := v.sem δ hδ
        rw [hc.1, hc.2.1, hc.2.2, Cache.sort_and] at hs
        have hX : (fun ρ => pden δ f.ptr ρ && pden δ g.ptr ρ) = fun ρ => X ρ && Y ρ := by
          rw [← hδ.rep_eq rf, ← hδ.rep_eq rg]
          funext ρ
          simp [pden_ptr]
        rw [hX] at hs
        have hrep : Rep b.st x.r (Γ op fun ρ => X ρ && Y ρ) := by rw [← hs]; exact hδ.rep w v.res
        refine ⟨Or.inl hrep, ?_⟩
        rw [← ho] at kf kg ⊢
        refine hrep.lvl_ge w (Nat.le_trans kf (lvl_le w rf.eok)) fun v _ _ hv => hI _ _ ?_
        exact Indep.and (rf.indep w v (by omega)) (rg.indep w v (by omega))
      · rw [hc.2.2] at h7
        have e1 := Cache.sort_mem hc.1 hc.2.1
        have e2 := Cache.sort_mem h5 h6
        have key : (f' = f ∧ g' = g) ∨ (f' = g ∧ g' = f) := by
          rcases e1 with ⟨p1, p2⟩ | ⟨p1, p2⟩ <;> rcases e2 with ⟨q1, q2⟩ | ⟨q1, q2⟩
          · exact Or.inl ⟨ptr_inj w rf.eok h3.eok (q1.symm.trans p1), ptr_inj w rg.eok h4.eok (q2.symm.trans p2)⟩
          · exact Or.inr ⟨ptr_inj w rg.eok h3.eok (q2.symm.trans p2), ptr_inj w rf.eok h4.eok (q1.symm.trans p1)⟩
          · exact Or.inr ⟨ptr_inj w rg.eok h3.eok (q1.symm.trans p1), ptr_inj w rf.eok h4.eok (q2.symm.trans p2)⟩
          · exact Or.inl ⟨ptr_inj w rf.eok h3.eok (q2.symm.trans p2), ptr_inj w rg.eok h4.eok (q1.symm.trans p1)⟩
        rcases key with ⟨rfl, rfl⟩ | ⟨rfl, rfl⟩
        · rw [h3.unique w rf, h4.unique w rg] at h7
          exact ⟨h7, h8 k kf kg⟩
        · rw [h3.unique w rg, h4.unique w rf] at h7
          refine ⟨?_, h8 k kg kf⟩
          rw [show (fun ρ => X ρ && Y ρ) = fun ρ => Y ρ && X ρ from funext fun ρ => Bool.and_comm _ _]
          exact h7
    · cases hl

/-- Putting a request in the table. -/
theorem CI.insert {b : BF QP} {G c} (h : CI Γ o b G c) {op : Nat} (hop : op ≠ 0) (hop' : op < 65536)
    {f g r : Edge} {X Y} (rf : Rep b.st f X) (rg : Rep b.st g Y) (v : b.Val G r (Γ op fun ρ => X ρ && Y ρ))
    (hl : ∀ k, k ≤ o.lvl f.id → k ≤ o.lvl g.id → k ≤ o.lvl r.id) :
    CI Γ o b G (c.insert f g r op true) := by
  have hm : op % 65536 = op := Nat.mod_eq_of_lt hop'
  refine ⟨?_, tally_insert (by rw [hm]; exact hop) h.count, ?_⟩
  · intro i x hi
    simp only [Cache.insert] at hi
    by_cases hx : i = c.index f.ptr g.ptr op
    · subst hx
      rw [upd_same] at hi; cases hi
      refine Or.inr ⟨rfl, by simp only [hm]; exact hop, f, g, X, Y, rf, rg, rfl, rfl, ?_, hl⟩
      simp only [hm]; exact v
    · rw [upd_ne _ _ hx] at hi; exact h.ent i x hi
  · intro i x hi
    simp only [Cache.insert] at hi
    by_cases hx : i = c.index f.ptr g.ptr op
    · subst hx; exact c.index_lt _ _ _
    · rw [upd_ne _ _ hx] at hi; exact h.range i x hi

/-- When all requests are forwarded, following the pointers of the temporary entries makes the table
valid. -/
theorem CI.fix {b : BF QP} {G c} (h : CI Γ o b G c) (ei : EI (qS Q) All b G)
    (hf : ∀ a r, b.req a = some r → isF r.cell) : (c.fixResults b.forward).Valid b.st Γ := by
  refine ⟨?_, ?_, ?_⟩
  · intro i x hi
    simp only [Cache.fixResults] at hi
    cases hb : c.bins i with
    | none => rw [hb] at hi; cases hi
    | some y =>
      rw [hb] at hi
      simp only at hi
      rcases h.ent i y hb with v | ⟨h1, h2, f, g, X, Y, h3, h4, h5, h6, h7, -⟩
      · rw [v.fixed] at hi
        simp only [Bool.false_eq_true, if_false, Option.some.injEq] at hi
        subst hi; exact v
      · rw [h1] at hi
        simp only [if_true, Option.some.injEq] at hi
        subst hi
        have rr := (fwd_val ei h7 (Val.eva h7) (fun r hr _ _ => (hf _ r hr).get)).1
        obtain ⟨k1, k2⟩ := Cache.sort_pok h3.eok.pok h4.eok.pok
        refine ⟨h2, rfl, by simp only [h5]; exact k1, by simp only [h6]; exact k2, rr.eok, ?_⟩
        intro δ hδ
        simp only [h5, h6]
        rw [hδ.rep_eq rr, Cache.sort_and]
        congr 1
        rw [← hδ.rep_eq h3, ← hδ.rep_eq h4]
        funext ρ
        simp [pden_ptr]
  · show c.numEntries = Cache.tally (fun i => Cache.used ((c.fixResults b.forward).bins i)) c.numBins
    rw [h.count]
    apply sumTo_congr
    intro i _
    simp only [Cache.fixResults]
    cases hb : c.bins i with
    | none => rfl
    | some y => simp only; cases hy : y.tmp <;> simp [Cache.used]
  · intro i x hi
    simp only [Cache.fixResults] at hi
    cases hb : c.bins i with
    | none => rw [hb] at hi; cases hi
    | some y => exact h.range i y hb

/-! ## Requests in the bins -/

theorem mem_bins' {b : BF QP} {d i a} : a ∈ bins b d i ↔ a ∈ b.que d i ∧ ∀ r, b.req a = some r → ¬ isF r.cell := by
  simp only [bins, List.mem_filter]
  refine and_congr Iff.rfl ?_
  constructor
  · intro h r hr hc
    obtain ⟨t, ht⟩ := hc.get
    obtain ⟨j, d', c⟩ := r
    simp only at ht; subst ht
    rw [hr] at h; simp at h
  · intro h
    split
    · rename_i j d' t hr; exact absurd trivial (h _ hr)
    · rfl

theorem mem_bins {b : BF QP} {G} (qi : QI Q o b G) {d k a} (hk : k < o.numVars) :
    a ∈ bins b d (o.indexToId k) ↔ ∃ r, b.req a = some r ∧ r.dep = d ∧ o.lvl r.id = k ∧ ¬ isF r.cell := by
  have h := qi.ei.sh.mem_tab (d := d) (k := k) (a := a) (by rw [qi.ord]; exact hk)
  rw [qi.ord] at h
  rw [mem_bins', h]
  constructor
  · rintro ⟨⟨r, h1, h2, h3⟩, h4⟩; exact ⟨r, h1, h2, h3, h4 r h1⟩
  · rintro ⟨r, h1, h2, h3, h4⟩
    exact ⟨⟨r, h1, h2, h3⟩, fun r' h' => by rw [h1] at h'; cases h'; exact h4⟩

theorem nodup_bins {b : BF QP} {G} (qi : QI Q o b G) (d i) : (bins b d i).Nodup :=
  (qi.ei.sh.que_nodup d i).sublist List.filter_sublist

theorem ask_spec {b : BF QP} {G} (qi : QI Q o b G) {k} (opn : OpenQ o k b) {p F}
    (hp : qPd Q b.st p F) (hq : fresh (.pend p))
    (hi : 1 ≤ qR.top o p ∧ qR.top o p ≤ o.numVars) (hl : k ≤ o.lvl (qR.top o p)) :
    ∃ b' e G', ask b (qR.que p) (qR.top o p) p = some (b', e) ∧ QI Q o b' G' ∧
      Gr (fun d => d = qR.que p) o k (o.lvl (qR.top o p)) b b' G G' ∧
      (∀ ext, b.RefOK ext → b'.RefOK ext) ∧ b'.Val G' e F ∧ Fine b' e ∧ e.id = qR.top o p := by
  have w := qi.wf
  obtain ⟨p', hp', hnq⟩ := hq.pend
  cases hp'
  have hpend : ∀ a ∈ bins b (qR.que p) (qR.top o p), ∃ i d q, b.req a = some ⟨i, d, .pend q⟩ := by
    intro a hm
    obtain ⟨hm1, hm2⟩ := mem_bins'.1 hm
    obtain ⟨r, h1, h2, h3⟩ := (qi.ei.sh.que_iff _ _ _).1 hm1
    rcases opn a r h1 (by rw [h2]; exact hl) with h | h
    · obtain ⟨q, hq, -⟩ := h.pend
      obtain ⟨i, d, cc⟩ := r
      simp only at hq; subst hq
      exact ⟨_, _, _, h1⟩
    · exact absurd h (hm2 r h1)
  rcases findReq_ok b p _ hpend with ⟨a, hm, i, d, hr, hf⟩ | hf
  · obtain ⟨r, h1, h2, h3⟩ := (qi.ei.sh.que_iff _ _ _).1 (mem_bins'.1 hm).1
    rw [hr] at h1; cases h1
    simp only at h2 h3
    have hG := pd_fun w hnq (qi.ei.pend _ _ _ _ hr).1 hp
    refine ⟨b, ⟨qR.top o p, a, false⟩, G, by simp [ask, hf], qi, Gr.refl _ _, fun _ h => h, ?_, ?_, rfl⟩
    · rw [← hG]; exact Or.inr ⟨_, hr, h2, by simp⟩
    · exact Or.inr ⟨_, hr, h2, hq⟩
  · obtain ⟨e1, e2, e3⟩ := qi.ei.pushReq (A := All) hp (d := qR.que p) (i := qR.top o p)
      (fun _ => ⟨rfl, by rw [qi.ord]⟩) (by rw [qi.ord]; exact hi) trivial (k := k) (by rw [qi.ord]; exact hl)
    have kp : ∀ ext, b.RefOK ext → (b.pushReq (qR.que p) (qR.top o p) p).RefOK ext :=
      fun ext h => h.push qi.ei.sh _ _ _
    have new : ∀ a r, (b.pushReq (qR.que p) (qR.top o p) p).req a = some r → b.req a = some r ∨
        r = ⟨qR.top o p, qR.que p, .pend p⟩ := by
      intro a r hr
      by_cases ha : a = (b.st.alloc (qR.top o p)).1
      · rw [ha, e3] at hr; cases hr; exact Or.inr rfl
      · left
        have : (b.pushReq (qR.que p) (qR.top o p) p).req a = b.req a := upd_ne _ _ ha
        rw [this] at hr; exact hr
    refine ⟨_, ⟨qR.top o p, (b.st.alloc (qR.top o p)).1, false⟩, _, by simp [ask, hf], ?_, ⟨e2, ?_⟩, kp,
      Or.inr ⟨_, e3, rfl, by simp⟩, Or.inr ⟨_, e3, rfl, hq⟩, rfl⟩
    · refine qi.of e1 (e2.stp kp) fun a r hr => ?_
      rcases new a r hr with h | rfl
      · exact Or.inl h
      · exact Or.inr (fresh.cellQ hq)
    · intro a r hr
      rcases new a r hr with h | rfl
      · exact Or.inl h
      · exact Or.inr ⟨hq, rfl, Nat.le_refl _⟩

/-! ## Obtaining results -/

/-- The state `b'`, `c'` after a result `e` for `F` was obtained. -/
structure GetR (Γ : Nat → BFn → BFn) (Q : Cfg) (o : Order) (D : Nat → Prop) (k : Nat) (b : BF QP)
    (G : Nat → BFn) (F : BFn) (b' : BF QP) (c' : Cache) (e : Edge) (lo : Nat) (G' : Nat → BFn) : Prop where
  qi : QI Q o b' G'
  gr : Gr D o k lo b b' G G'
  ref : ∀ ext, b.RefOK ext → b'.RefOK ext
  val : b'.Val G' e F
  fine : Fine b' e
  lvl : k ≤ o.lvl e.id
  ci : CI Γ o b' G' c'
  klo : k ≤ lo
  lon : lo ≤ o.numVars

theorem GetR.weaken {D D' : Nat → Prop} {k b G F b' c' e lo G'} (h : GetR Γ Q o D k b G F b' c' e lo G')
    (hD : ∀ d, D d → D' d) : GetR Γ Q o D' k b G F b' c' e lo G' :=
  ⟨h.qi, h.gr.weaken hD (Nat.le_refl _), h.ref, h.val, h.fine, h.lvl, h.ci, h.klo, h.lon⟩

theorem GetR.node {D} {k} {b : BF QP} {G c} (qi : QI Q o b G) (ci : CI Γ o b G c) (hk : k ≤ o.numVars)
    {e F} (r : Rep b.st e F) (hl : k ≤ o.lvl e.id) : GetR Γ Q o D k b G F b c e o.numVars G :=
  ⟨qi, Gr.refl _ _, fun _ h => h, Or.inl r, Or.inl r.eok, hl, ci, hk, Nat.le_refl _⟩

theorem GetR.look {D} {k} {b : BF QP} {G c} (qi : QI Q o b G) (ci : CI Γ o b G c) (hk : k ≤ o.numVars)
    (opn : OpenQ o k b) {r F} (v : b.Val G r F) (hl : k ≤ o.lvl r.id) :
    GetR Γ Q o D k b G F b c (b.forward r) o.numVars G := by
  rcases v with v | ⟨q, h1, h2, h3⟩
  · rw [(Fine.settled (Or.inl v.eok) qi.ei.sh).2]; exact .node qi ci hk v hl
  · rcases opn _ q h1 (by rw [h2]; exact hl) with h | h
    · have fn : Fine b r := Or.inr ⟨q, h1, h2, h⟩
      rw [(fn.settled qi.ei.sh).2]
      exact ⟨qi, Gr.refl _ _, fun _ h => h, Or.inr ⟨q, h1, h2, h3⟩, fn, hl, ci, hk, Nat.le_refl _⟩
    · have v : b.Val G r F := Or.inr ⟨q, h1, h2, h3⟩
      obtain ⟨r1, r2⟩ := fwd_val qi.ei v (Val.eva v) (fun r' hr _ _ => by
        rw [h1] at hr; cases hr; exact h.get)
      rw [qi.ord] at r2
      exact .node qi ci hk r1 (by omega)

theorem GetR.not {D k b G F b' c' e lo G'} (h : GetR Γ Q o D k b G F b' c' e lo G') :
    GetR Γ Q o D k b G (fun ρ => !F ρ) b' c' e.not lo G' := by
  refine ⟨h.qi, h.gr, h.ref, ?_, h.fine, h.lvl, h.ci, h.klo, h.lon⟩
  have := h.val.phase true
  simp only [Bool.true_xor] at this
  rw [show e.phase true = e.not by simp [Edge.phase, Edge.not]] at this
  exact this

/-- a terminal result -/
theorem Cl.lvl {s : Store} (w : s.WF) {f g e : Edge} (h : Cl [f, g] e) {k} (hk : k ≤ s.ord.numVars)
    (kf : k ≤ s.ord.lvl f.id) (kg : k ≤ s.ord.lvl g.id) : k ≤ s.ord.lvl e.id := by
  have hb := w.ord.bound
  rcases h with rfl | rfl | ⟨x, hx, h⟩
  · simp [one, Order.lvl]; omega
  · simp [zero, Order.lvl]; omega
  · simp only [List.mem_cons, List.not_mem_nil, or_false] at hx
    rcases hx with rfl | rfl <;> rcases h with rfl | rfl <;> assumption

theorem term_rep {s : Store} (w : s.WF) {op fn} (law : BinLaw op fn) {f g e : Edge} {X Y} (rf : Rep s f X)
    (rg : Rep s g Y) (h : op f g = some e) : Rep s e (fun ρ => fn (X ρ) (Y ρ)) ∧ Cl [f, g] e := by
  obtain ⟨δ, hδ⟩ := w.exists_lab
  obtain ⟨h1, h2⟩ := law.hit δ f g e hδ.const (rf.eok.addr_zero w).symm (rg.eok.addr_zero w).symm h
  refine ⟨?_, h2⟩
  have ok : s.EOK e := by
    rcases h2 with rfl | rfl | ⟨x, hx, h⟩
    · exact Store.EOK_one _
    · exact Store.EOK_zero _
    · simp only [List.mem_cons, List.not_mem_nil, or_false] at hx
      rcases hx with hx | hx <;> rcases h with h | h <;> rw [h, hx]
      · exact rf.eok
      · exact rf.not.eok
      · exact rg.eok
      · exact rg.not.eok
  have := hδ.rep w ok
  rw [show den δ e = fun ρ => fn (X ρ) (Y ρ) from funext fun ρ => by
    rw [← h1, hδ.rep_eq rf, hδ.rep_eq rg]] at this
  exact this

/-- What is assumed of an operation. -/
structure Hyp (Q : Cfg) (Γ : Nat → BFn → BFn) (o : Order) : Prop where
  nand : Γ Cache.opNAND = fun F ρ => !F ρ
  op : Γ Q.op = exFn Q.A.dom
  op0 : Q.op ≠ 0
  op1 : Q.op < 65536
  assoc : Q.A.OK o

theorem nandLook_spec (H : Hyp Q Γ o) {q : Nat} (hq : q ≠ 0) {b : BF QP} {G c} (qi : QI Q o b G) (ci : CI Γ o b G c)
    {k} (opn : OpenQ o k b) (hk : k ≤ o.numVars) {f g : Edge} {X Y} (rf : Rep b.st f X) (rg : Rep b.st g Y)
    (f0 : f.id ≠ 0) (kf : k ≤ o.lvl f.id) (kg : k ≤ o.lvl g.id) :
    ∃ b' c' e lo G', nandLook q f g b c = some ⟨b', c', e, lo⟩ ∧
      GetR Γ Q o (fun d => d = q) k b G (fun ρ => !(X ρ && Y ρ)) b' c' e lo G' := by
  have w := qi.wf
  have hF : Γ Cache.opNAND (fun ρ => X ρ && Y ρ) = fun ρ => !(X ρ && Y ρ) := by rw [H.nand]
  cases hc : c.lookup f g Cache.opNAND with
  | some r =>
    obtain ⟨v, l⟩ := ci.lookup w qi.ord (fun F v h => by rw [H.nand]; exact h.not) rf rg kf kg hc
    rw [hF] at v
    exact ⟨b, c, b.forward r, o.numVars, G, by simp only [nandLook, hc, qi.ord], .look qi ci hk opn v l⟩
  | none =>
    obtain ⟨hi, l1, l2, -⟩ := minId2_spec w rf.eok rg.eok (Or.inl f0)
    have hle := minId2_or o (f, g)
    rw [qi.ord] at hi l1 l2
    obtain ⟨b', e, G', h1, h2, h3, h4, h5, h6, h7⟩ := ask_spec qi opn (p := .nand q f g)
      (F := fun ρ => !(X ρ && Y ρ)) ⟨X, Y, rf, rg, rfl⟩ hq hi (by
        rcases hle with h | h <;> (show k ≤ o.lvl (minId2 o (f, g)); rw [h]; assumption))
    replace h1 : ask b q (minId2 o (f, g)) (.nand q f g) = some (b', e) := h1
    replace h7 : e.id = minId2 o (f, g) := h7
    have hlk : k ≤ o.lvl (minId2 o (f, g)) := by rcases hle with h | h <;> rw [h] <;> assumption
    refine ⟨b', c.insert f g e Cache.opNAND true, e, o.lvl (minId2 o (f, g)), G', ?_, h2, h3, h4, h5, h6,
      by rw [h7]; exact hlk, ?_, hlk, ?_⟩
    · simp only [nandLook, hc, qi.ord, h1]
    · refine (ci.grow h3.toGrow).insert (by decide) (by decide) (rf.mono h3.le) (rg.mono h3.le)
        (by rw [hF]; exact h5) ?_
      intro k' a b
      rw [h7]
      rcases hle with h | h <;> rw [h] <;> assumption
    · have := w.ord.lvl_lt (by rw [← qi.ord] at hi; exact hi.1) (by rw [← qi.ord] at hi; rw [qi.ord]; rw [qi.ord] at hi; exact hi.2)
      rw [qi.ord] at this; omega

theorem norm_pair {s : Store} {f g : Edge} {X Y} (rf : Rep s f X) (rg : Rep s g Y) :
    ∃ X' Y', Rep s (normalize (f, g)).1 X' ∧ Rep s (normalize (f, g)).2 Y' ∧
      ((normalize (f, g)).1 = f ∧ (normalize (f, g)).2 = g ∧ X' = X ∧ Y' = Y ∨
        (normalize (f, g)).1 = g ∧ (normalize (f, g)).2 = f ∧ X' = Y ∧ Y' = X) := by
  rcases normalize_cases f g with h | h <;> rw [h]
  · exact ⟨X, Y, rf, rg, Or.inl ⟨rfl, rfl, rfl, rfl⟩⟩
  · exact ⟨Y, X, rg, rf, Or.inr ⟨rfl, rfl, rfl, rfl⟩⟩

theorem nandGet_spec (H : Hyp Q Γ o) {q : Nat} (hq : q ≠ 0) {b : BF QP} {G c} (qi : QI Q o b G) (ci : CI Γ o b G c)
    {k} (opn : OpenQ o k b) (hk : k ≤ o.numVars) {f g : Edge} {X Y} (rf : Rep b.st f X) (rg : Rep b.st g Y)
    (kf : k ≤ o.lvl f.id) (kg : k ≤ o.lvl g.id) :
    ∃ b' c' e lo G', nandGet q f g b c = some ⟨b', c', e, lo⟩ ∧
      GetR Γ Q o (fun d => d = q) k b G (fun ρ => !(X ρ && Y ρ)) b' c' e lo G' := by
  have w := qi.wf
  obtain ⟨X', Y', r1, r2, hh⟩ := norm_pair rf rg
  simp only [nandGet]
  have hXY : (fun ρ => !(X ρ && Y ρ)) = fun ρ => !(X' ρ && Y' ρ) := by
    rcases hh with ⟨-, -, rfl, rfl⟩ | ⟨-, -, rfl, rfl⟩
    · rfl
    · funext ρ; rw [Bool.and_comm]
  have k1 : k ≤ o.lvl (normalize (f, g)).1.id ∧ k ≤ o.lvl (normalize (f, g)).2.id := by
    rcases hh with ⟨h1, h2, -⟩ | ⟨h1, h2, -⟩ <;> rw [h1, h2] <;> exact ⟨by assumption, by assumption⟩
  rw [hXY]
  generalize (normalize (f, g)).1 = f' at *
  generalize (normalize (f, g)).2 = g' at *
  cases hop : opNand f' g' with
  | some r =>
    obtain ⟨rr, cl⟩ := term_rep w opNand_law r1 r2 hop
    refine ⟨b, c, r, o.numVars, G, by rw [qi.ord], .node qi ci hk rr ?_⟩
    have := Cl.lvl w cl (k := k) (by rw [qi.ord]; exact hk) (by rw [qi.ord]; exact k1.1) (by rw [qi.ord]; exact k1.2)
    rw [qi.ord] at this; exact this
  | none => exact nandLook_spec H hq qi ci opn hk r1 r2 (opNand_law.miss _ _ hop).1 k1.1 k1.2

/-- nothing is quantified below the last index -/
theorem Hyp.below (H : Hyp Q Γ o) {s : Store} (w : s.WF) (ho : s.ord = o) {f X} (rf : Rep s f X)
    (hl : Q.A.last < (o.lvl f.id : Int)) {σ ρ : Asg} (h : ∀ v, ¬ Q.A.dom v → σ v = ρ v) : X σ = X ρ := by
  obtain ⟨δ, hδ⟩ := w.exists_lab
  have ha : Q.A.OK s.ord := by rw [ho]; exact H.assoc
  have := ha.below w hδ rf.eok (by rw [ho]; exact hl) h
  rw [hδ.rep_eq rf] at this; exact this

theorem Hyp.indep (H : Hyp Q Γ o) : ∀ F v, Indep F v → Indep (Γ Q.op F) v := by
  intro F v h; rw [H.op]; exact exFn_indep' h

theorem exGet_spec (H : Hyp Q Γ o) {b : BF QP} {G c} (qi : QI Q o b G) (ci : CI Γ o b G c)
    {k} (opn : OpenQ o k b) (hk : k ≤ o.numVars) {f : Edge} {X} (rf : Rep b.st f X)
    (kf : k ≤ o.lvl f.id) :
    ∃ b' c' e lo G', exGet Q f b c = some ⟨b', c', e, lo⟩ ∧
      GetR Γ Q o (fun d => d = 0 ∨ d = 1) k b G (exFn Q.A.dom X) b' c' e lo G' := by
  have w := qi.wf
  have hb := w.ord.bound
  have hlt := H.assoc.lt
  have rone : Rep b.st one (fun _ => true) := .one
  have k1 : k ≤ o.lvl one.id := by rw [qi.ord] at hb; simp [one, Order.lvl]; omega
  have hX : (fun ρ => X ρ && (fun _ => true) ρ) = X := by funext ρ; simp
  by_cases hl : (o.lvl f.id : Int) ≤ Q.A.last
  · have hl' : (b.st.ord.lvl f.id : Int) ≤ Q.A.last := by rw [qi.ord]; exact hl
    have f0 : f.id ≠ 0 := by
      intro h0
      rw [h0] at hl; rw [qi.ord] at hb; simp only [Order.lvl, if_true] at hl; omega
    simp only [exGet, if_pos hl']
    cases hc : c.lookup f one Q.op with
    | some r =>
      obtain ⟨v, l⟩ := ci.lookup w qi.ord H.indep rf rone kf k1 hc
      rw [H.op, hX] at v
      exact ⟨b, c, b.forward r, o.numVars, G, by simp only [qi.ord], .look qi ci hk opn v l⟩
    | none =>
      have hi := eok_range w rf.eok f0
      rw [qi.ord] at hi
      have hlv := w.ord.lvl_lt hi.1 (by rw [qi.ord]; exact hi.2)
      have hm : minId2 o (f, one) = f.id := by
        rw [qi.ord] at hlv hb
        have h0 : o.lvl one.id = constIndex := by simp [one, Order.lvl]
        unfold minId2
        exact if_pos (by show o.lvl f.id < o.lvl one.id; omega)
      rw [qi.ord] at hlv
      obtain ⟨b', e, G', h1, h2, h3, h4, h5, h6, h7⟩ := ask_spec qi opn (p := .main f one)
        (F := exFn Q.A.dom X) ⟨X, _, rf, rone, fun _ => rfl, by rw [hX]⟩ trivial
        (by show 1 ≤ minId2 o (f, one) ∧ minId2 o (f, one) ≤ _; rw [hm]; exact hi)
        (by show k ≤ o.lvl (minId2 o (f, one)); rw [hm]; exact kf)
      replace h1 : ask b 0 (minId2 o (f, one)) (.main f one) = some (b', e) := h1
      replace h7 : e.id = minId2 o (f, one) := h7
      replace h3 : Gr (fun d => d = 0) o k (o.lvl (minId2 o (f, one))) b b' G G' := h3
      rw [hm] at h1 h3 h7
      refine ⟨b', c.insert f one e Q.op true, e, o.lvl f.id, G', ?_, h2,
        h3.weaken (fun d hd => Or.inl hd) (Nat.le_refl _), h4, h5, h6, by rw [h7]; exact kf, ?_, kf, by omega⟩
      · simp only [h1, qi.ord]
      · refine (ci.grow h3.toGrow).insert H.op0 H.op1 (rf.mono h3.le) (rone.mono h3.le)
          (by rw [H.op, hX]; exact h5) ?_
        intro k' a b
        rw [h7]; exact a
  · have hl' : ¬ (b.st.ord.lvl f.id : Int) ≤ Q.A.last := by rw [qi.ord]; exact hl
    simp only [exGet, if_neg hl']
    refine ⟨b, c, f, o.numVars, G, by rw [qi.ord], ?_⟩
    rw [exFn_id (fun ρ σ h => H.below w qi.ord rf (by omega) h)]
    exact .node qi ci hk rf kf

theorem relProd_miss {f g : Edge} {s : Store} (w : s.WF) (hf : s.EOK f) (hg : s.EOK g)
    (h : opRelProd f g = none) : f.id ≠ 0 ∨ g.id ≠ 0 := by
  by_cases h1 : f.id = 0
  · right
    intro h2
    have a1 := (hf.addr_zero w).2 h1
    have a2 := (hg.addr_zero w).2 h2
    unfold opRelProd at h
    obtain ⟨i, a, n⟩ := f
    obtain ⟨i', a', n'⟩ := g
    simp only at a1 a2 h1 h2
    subst a1 a2 h1 h2
    cases n <;> cases n' <;> simp [Edge.same, zero, Edge.isOne] at h
  · exact Or.inl h1

theorem relGet_spec (H : Hyp Q Γ o) (hrel : Q.rel = true) {b : BF QP} {G c} (qi : QI Q o b G)
    (ci : CI Γ o b G c) {k} (opn : OpenQ o k b) (hk : k ≤ o.numVars) {f g : Edge} {X Y}
    (rf : Rep b.st f X) (rg : Rep b.st g Y) (kf : k ≤ o.lvl f.id) (kg : k ≤ o.lvl g.id) :
    ∃ b' c' e lo G', relGet Q f g b c = some ⟨b', c', e, lo⟩ ∧
      GetR Γ Q o (fun d => d = 0 ∨ d = 1) k b G (exFn Q.A.dom fun ρ => X ρ && Y ρ) b' c' e lo G' := by
  have w := qi.wf
  obtain ⟨X', Y', r1, r2, hh⟩ := norm_pair rf rg
  simp only [relGet]
  have hXY : (fun ρ => X ρ && Y ρ) = fun ρ => X' ρ && Y' ρ := by
    rcases hh with ⟨-, -, rfl, rfl⟩ | ⟨-, -, rfl, rfl⟩
    · rfl
    · funext ρ; rw [Bool.and_comm]
  have k1 : k ≤ o.lvl (normalize (f, g)).1.id ∧ k ≤ o.lvl (normalize (f, g)).2.id := by
    rcases hh with ⟨h1, h2, -⟩ | ⟨h1, h2, -⟩ <;> rw [h1, h2] <;> exact ⟨by assumption, by assumption⟩
  rw [hXY]
  rw [show normalize (f, g) = ((normalize (f, g)).1, (normalize (f, g)).2) from rfl]
  clear hh
  generalize (normalize (f, g)).1 = f' at *
  generalize (normalize (f, g)).2 = g' at *
  simp only [qi.ord]
  have hle := minId2_le o (f', g')
  simp only at hle
  have hor := minId2_or o (f', g')
  have hlk : k ≤ o.lvl (minId2 o (f', g')) := by rcases hor with h | h <;> rw [h]; exact k1.1; exact k1.2
  by_cases hl : Q.A.last < (o.lvl (minId2 o (f', g')) : Int)
  · rw [if_pos hl]
    rw [exFn_id (F := fun ρ => X' ρ && Y' ρ) (fun ρ σ h => by
      simp only [H.below w qi.ord r1 (by omega) h, H.below w qi.ord r2 (by omega) h])]
    cases hop : opAnd f' g' with
    | some r =>
      obtain ⟨rr, cl⟩ := term_rep w opAnd_law r1 r2 hop
      refine ⟨b, c, r, o.numVars, G, rfl, .node qi ci hk rr ?_⟩
      have := Cl.lvl w cl (k := k) (by rw [qi.ord]; exact hk) (by rw [qi.ord]; exact k1.1) (by rw [qi.ord]; exact k1.2)
      rw [qi.ord] at this; exact this
    | none =>
      obtain ⟨b', c', e, lo, G', h1, h2⟩ := nandLook_spec H (q := 1) (by decide) qi ci opn hk r1 r2 (opAnd_law.miss _ _ hop).1 k1.1 k1.2
      refine ⟨b', c', e.not, lo, G', by simp only [h1, Option.map_some], ?_⟩
      have := (h2.weaken (D' := fun d => d = 0 ∨ d = 1) (fun d hd => Or.inr hd)).not
      simp only [Bool.not_not] at this
      exact this
  · rw [if_neg hl]
    cases hop : opRelProd f' g' with
    | some r =>
      obtain ⟨δ, hδ⟩ := w.exists_lab
      obtain ⟨h1, h2⟩ := opRelProd_hit w hδ r1.eok r2.eok hop Q.A.dom
      rw [hδ.rep_eq r1, hδ.rep_eq r2] at h2
      have rr : Rep b.st r (exFn Q.A.dom fun ρ => X' ρ && Y' ρ) := by rw [← h2]; exact hδ.rep w h1
      refine ⟨b, c, r, o.numVars, G, rfl, .node qi ci hk rr ?_⟩
      have := rr.lvl_ge w (k := k) (by have := w.ord.bound; rw [qi.ord] at this; omega) (fun v _ _ hv => by
        rw [qi.ord] at hv
        exact exFn_indep' (Indep.and (r1.indep w v (by rw [qi.ord]; omega)) (r2.indep w v (by rw [qi.ord]; omega))))
      rw [qi.ord] at this; exact this
    | none =>
      simp only
      cases hc : c.lookup f' g' Q.op with
      | some r =>
        obtain ⟨v, l⟩ := ci.lookup w qi.ord H.indep r1 r2 k1.1 k1.2 hc
        rw [H.op] at v
        exact ⟨b, c, b.forward r, o.numVars, G, rfl, .look qi ci hk opn v l⟩
      | none =>
        obtain ⟨hi, -⟩ := minId2_spec w r1.eok r2.eok (relProd_miss w r1.eok r2.eok hop)
        have hlv := w.ord.lvl_lt hi.1 hi.2
        rw [qi.ord] at hi hlv
        obtain ⟨b', e, G', h1, h2, h3, h4, h5, h6, h7⟩ := ask_spec qi opn (p := .main f' g')
          (F := exFn Q.A.dom fun ρ => X' ρ && Y' ρ) ⟨X', Y', r1, r2, fun h => (by rw [hrel] at h; cases h), rfl⟩ trivial
          hi hlk
        replace h1 : ask b 0 (minId2 o (f', g')) (.main f' g') = some (b', e) := h1
        replace h7 : e.id = minId2 o (f', g') := h7
        replace h3 : Gr (fun d => d = 0) o k (o.lvl (minId2 o (f', g'))) b b' G G' := h3
        refine ⟨b', c.insert f' g' e Q.op true, e, o.lvl (minId2 o (f', g')), G', ?_, h2,
          h3.weaken (fun d hd => Or.inl hd) (Nat.le_refl _), h4, h5, h6, by rw [h7]; exact hlk, ?_, hlk, by omega⟩
        · simp only [h1]
        · refine (ci.grow h3.toGrow).insert H.op0 H.op1 (r1.mono h3.le) (r2.mono h3.le)
            (by rw [H.op]; exact h5) ?_
          intro k' a b
          rw [h7]
          rcases hor with h | h <;> rw [h] <;> assumption

theorem get_spec (H : Hyp Q Γ o) {b : BF QP} {G c} (qi : QI Q o b G)
    (ci : CI Γ o b G c) {k} (opn : OpenQ o k b) (hk : k ≤ o.numVars) {f g : Edge} {X Y}
    (rf : Rep b.st f X) (rg : Rep b.st g Y) (hY : Q.rel = false → Y = fun _ => true) (kf : k ≤ o.lvl f.id)
    (kg : k ≤ o.lvl g.id) :
    ∃ b' c' e lo G', get Q f g b c = some ⟨b', c', e, lo⟩ ∧
      GetR Γ Q o (fun d => d = 0 ∨ d = 1) k b G (exFn Q.A.dom fun ρ => X ρ && Y ρ) b' c' e lo G' := by
  cases hrel : Q.rel with
  | true =>
    simp only [get, hrel, if_true]
    exact relGet_spec H hrel qi ci opn hk rf rg kf kg
  | false =>
    simp only [get, hrel]
    rw [hY hrel, show (fun ρ => X ρ && (fun _ => true) ρ) = X from funext fun ρ => by simp]
    exact exGet_spec H qi ci opn hk rf kf

end QB
end Cal
