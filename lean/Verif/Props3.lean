import Verif.Props2

/-!
# Properties of the API, part 3: reference counts, garbage collection and limits
-/

namespace Cal

variable {E : Env} {own : Nat → Nat} {lk : Bool} {m : Mgr}

/-! ## C11 -/

/-- The number of references to the node at address `a` from nodes of the store: one for each node
with `a` as its then child, one for each with `a` as its else child. -/
def arcsInto (m : Mgr) (a : Nat) : Nat :=
  sumTo (fun b => match m.st.heap b with
    | some n => (if n.thn.addr = a then 1 else 0) + (if n.els.addr = a then 1 else 0)
    | none => 0) m.st.next

/-- The number of user nodes that stand for the node at address `a`. -/
def usersOf (m : Mgr) (a : Nat) : Nat :=
  sumTo (fun u => match m.ut.heap u with
    | some e => if e.addr = a then 1 else 0
    | none => 0) m.ut.next

/-- The number of variables from `1` to `n` that a table maps to the node at address `a`. -/
def valuesAt (f : Nat → Option Edge) (n a : Nat) : Nat :=
  sumTo (fun v => match f v with
    | some e => if e.addr = a then 1 else 0
    | none => 0) (n + 1)

theorem arcsInto_eq (a) : arcsInto m a = m.st.inDeg a := by
  unfold arcsInto Store.inDeg
  apply sumTo_congr
  intro b _
  unfold Store.arcs
  cases m.st.heap b <;> rfl

theorem usersOf_eq (a) : usersOf m a = m.ut.hits a := by
  unfold usersOf UTab.hits
  apply sumTo_congr
  intro b _
  cases m.ut.heap b <;> rfl

theorem valuesAt_eq (f n a) : valuesAt f n a = tabHits f n a := by
  unfold valuesAt tabHits
  apply sumTo_congr
  intro b _
  unfold optHits
  cases f b <;> rfl

/-- Reference counts are exact: the count of a node is the number of references from other nodes,
user nodes, the variables, the registered associations and the temporary association, or it is stuck
at 255; the count of a user node is the number of references the user holds, or 255. -/
theorem C11_exact (S : E.Sound) (R : Reachable E own false m) :
    (∀ a, m.st.heap a ≠ none → m.st.ref a = 255 ∨
      m.st.ref a = arcsInto m a + usersOf m a + valuesAt m.vars m.numVars a +
        (m.assocs.map fun p => valuesAt p.a.var m.numVars a).sum +
        valuesAt m.temp.var m.numVars a) ∧
    (∀ u, m.ut.heap u ≠ none → m.ut.ref u = 255 ∨ m.ut.ref u = own u) := by
  obtain ⟨Γ, leak, hl, i⟩ := R.inv S
  refine ⟨fun a ha => ?_, i.ut.cnt⟩
  have := i.ref.cnt a ha
  have hle := i.ref.le a ha
  simp only [arcsInto_eq, usersOf_eq, valuesAt_eq]
  simp only [Mgr.roots, Mgr.rest, hl rfl, listHits] at this
  simp only [maxRef, Mgr.numVars] at *
  omega

/-- In general counts are at least the number of references: nothing is freed too early, whatever is
leaked. -/
theorem C11_lower (S : E.Sound) (R : Reachable E own lk m) :
    (∀ a, m.st.heap a ≠ none → m.st.ref a = 255 ∨
      arcsInto m a + usersOf m a + valuesAt m.vars m.numVars a +
        (m.assocs.map fun p => valuesAt p.a.var m.numVars a).sum +
        valuesAt m.temp.var m.numVars a ≤ m.st.ref a) ∧
    (∀ u, m.ut.heap u ≠ none → m.ut.ref u = 255 ∨ m.ut.ref u = own u) := by
  obtain ⟨Γ, leak, hl, i⟩ := R.inv S
  refine ⟨fun a ha => ?_, i.ut.cnt⟩
  have := i.ref.cnt a ha
  have hle := i.ref.le a ha
  simp only [arcsInto_eq, usersOf_eq, valuesAt_eq]
  simp only [Mgr.roots, Mgr.rest, listHits] at this
  simp only [maxRef, Mgr.numVars] at *
  omega

/-- The counts of the variables' nodes are at their maximum. -/
theorem C11_vars (S : E.Sound) (R : Reachable E own lk m) {v : Nat} (h1 : 1 ≤ v) (h2 : v ≤ m.numVars) :
    ∃ a, m.vars v = some ⟨v, a, false⟩ ∧ m.st.ref a = 255 := by
  obtain ⟨Γ, leak, hl, i⟩ := R.inv S
  obtain ⟨a, ha, hn⟩ := i.var v h1 h2
  exact ⟨a, ha, i.var_sat h1 h2 ha⟩

namespace Demo
theorem reach0 : Reachable Env.plain sess.own false sess.m := by
  have := reach
  rwa [show sess.lk = false by decide +kernel] at this
end Demo

example := C11_exact Env.plain_sound Demo.reach0
/-- the node of `c`, a variable, is stuck; that of `b ∨ c` (then child of `(a ∧ b) ∨ c`) is not -/
example : (List.range 8).map Demo.sess.m.st.ref = [255, 255, 255, 255, 1, 1, 1, 0] := by
  decide +kernel

/-! ## C12, C13 -/

theorem Store.dcr_le (s : Store) (e : Edge) (x : Nat) : (s.dcr e).ref x ≤ s.ref x := by
  by_cases h : x = e.addr
  · subst h; simp only [Store.dcr, upd_same]; split <;> omega
  · rw [dcr_ne h]; exact Nat.le_refl _

theorem Store.dcr_stuck (s : Store) (e : Edge) {x : Nat} (h : s.ref x = maxRef) :
    (s.dcr e).ref x = maxRef := by
  by_cases hx : x = e.addr
  · subst hx; simp only [Store.dcr, upd_same, h, if_true]
  · rw [dcr_ne hx]; exact h

/-- What garbage collection does to counts. -/
structure Fades (s s' : Store) : Prop where
  le : ∀ x, s'.ref x ≤ s.ref x
  stuck : ∀ x, s.ref x = maxRef → s'.ref x = maxRef ∧ s'.heap x = s.heap x

theorem Fades.refl (s : Store) : Fades s s := ⟨fun _ => Nat.le_refl _, fun _ h => ⟨h, rfl⟩⟩

theorem Fades.trans {s t u : Store} (h : Fades s t) (g : Fades t u) : Fades s u :=
  ⟨fun x => Nat.le_trans (g.le x) (h.le x), fun x hx =>
    ⟨(g.stuck x (h.stuck x hx).1).1, ((g.stuck x (h.stuck x hx).1).2).trans (h.stuck x hx).2⟩⟩

theorem Fades.dcr (s : Store) (e : Edge) : Fades s (s.dcr e) :=
  ⟨s.dcr_le e, fun _ h => ⟨s.dcr_stuck e h, rfl⟩⟩

theorem Store.gcList_fades (k i) : ∀ (as : List Nat) (s s' : Store) (fr),
    Store.gcList k i as s = some (s', fr) → Fades s s'
  | [], s, s', fr, h => by
    simp only [Store.gcList, Option.some.injEq, Prod.mk.injEq] at h
    rw [← h.1]; exact .refl _
  | a :: as, s, s', fr, h => by
    unfold Store.gcList at h
    cases hn : s.heap a with
    | none => rw [hn] at h; cases h
    | some n =>
      rw [hn] at h
      simp only at h
      split at h
      · rename_i h0
        cases hg : Store.gcList k i as (s.freeNode k i a n) with
        | none => rw [hg] at h; cases h
        | some p =>
          obtain ⟨t, fr'⟩ := p
          rw [hg] at h
          simp only [Option.some.injEq, Prod.mk.injEq] at h
          obtain ⟨rfl, rfl⟩ := h
          refine Fades.trans ?_ (Store.gcList_fades _ i as _ _ _ hg)
          have f := (Fades.dcr s n.thn).trans (Fades.dcr _ n.els)
          refine ⟨f.le, fun x hx => ⟨(f.stuck x hx).1, ?_⟩⟩
          have : x ≠ a := by rintro rfl; rw [hx] at h0; cases h0
          show upd s.heap a none x = _
          rw [upd_ne _ _ this]
      · exact Store.gcList_fades _ i as s s' fr h

theorem Store.gcTables_fades (κ : Nat → Nat) : ∀ (is : List Nat) (s s' : Store) (fr),
    s.gcTables κ is = some (s', fr) → Fades s s'
  | [], s, s', fr, h => by
    simp only [Store.gcTables, Option.some.injEq, Prod.mk.injEq] at h
    rw [← h.1]; exact .refl _
  | i :: is, s, s', fr, h => by
    unfold Store.gcTables at h
    cases h1 : s.gcTable (κ i) i with
    | none => rw [h1] at h; cases h
    | some p =>
      obtain ⟨t, fr1⟩ := p
      rw [h1] at h
      simp only at h
      cases h2 : t.gcTables κ is with
      | none => rw [h2] at h; cases h
      | some q =>
        obtain ⟨t', fr2⟩ := q
        rw [h2] at h
        simp only [Option.some.injEq, Prod.mk.injEq] at h
        obtain ⟨rfl, -⟩ := h
        refine Fades.trans ?_ (Store.gcTables_fades κ is t t' fr2 h2)
        unfold Store.gcTable at h1
        cases h3 : Store.gcList (κ i) i (s.tab i) s with
        | none => rw [h3] at h1; cases h1
        | some q =>
          obtain ⟨t3, fr3⟩ := q
          rw [h3] at h1
          simp only [Option.some.injEq, Prod.mk.injEq] at h1
          have := Store.gcList_fades _ i _ _ _ _ h3
          rw [← h1.1]
          exact ⟨this.le, this.stuck⟩

theorem UTab.gcList_fades : ∀ (as : List Nat) (u u' : UTab) (s s' : Store),
    UTab.gcList as u s = some (u', s') → Fades s s' ∧ u'.ref = u.ref ∧
      (∀ a e, u'.heap a = some e → u.heap a = some e) ∧
      (∀ a, u.ref a ≠ 0 → u'.heap a = u.heap a)
  | [], u, u', s, s', h => by
    simp only [UTab.gcList, Option.some.injEq, Prod.mk.injEq] at h
    obtain ⟨rfl, rfl⟩ := h
    exact ⟨.refl _, rfl, fun _ _ h => h, fun _ _ => rfl⟩
  | a :: as, u, u', s, s', h => by
    unfold UTab.gcList at h
    cases hn : u.heap a with
    | none => rw [hn] at h; cases h
    | some e =>
      rw [hn] at h
      simp only at h
      split at h
      · rename_i h0
        obtain ⟨f, h1, h2, h3⟩ := UTab.gcList_fades as _ _ _ _ h
        refine ⟨((Fades.dcr s e).trans (Fades.dcr _ one)).trans f, h1, ?_, ?_⟩
        · intro b g hb
          have := h2 b g hb
          simp only at this
          by_cases hx : b = a
          · subst hx; rw [upd_same] at this; cases this
          · rwa [upd_ne _ _ hx] at this
        · intro b hb
          have : b ≠ a := by rintro rfl; exact hb h0
          rw [h3 b hb]
          show upd u.heap a none b = _
          rw [upd_ne _ _ this]
      · exact UTab.gcList_fades as u u' s s' h

theorem Mgr.gc_fades {m' : Mgr} (h : m.gc = some m') : Fades m.st m'.st ∧ m'.ut.ref = m.ut.ref ∧
    (∀ a e, m'.ut.heap a = some e → m.ut.heap a = some e) ∧
    (∀ a, m.ut.ref a ≠ 0 → m'.ut.heap a = m.ut.heap a) ∧
    m'.vars = m.vars ∧ m'.assocs = m.assocs ∧ m'.temp = m.temp := by
  unfold Mgr.gc at h
  cases h1 : m.ut.gc m.st with
  | none => rw [h1] at h; cases h
  | some p =>
    obtain ⟨u, s⟩ := p
    rw [h1] at h
    simp only at h
    cases h2 : s.gcNodes with
    | none => rw [h2] at h; cases h
    | some q =>
      obtain ⟨s', fr⟩ := q
      rw [h2] at h
      simp only [Option.some.injEq] at h
      subst h
      obtain ⟨f, a1, a2, a3⟩ := UTab.gcList_fades _ _ _ _ _ h1
      exact ⟨f.trans (Store.gcTables_fades _ _ _ _ _ h2), a1, a2, a3, rfl, rfl, rfl⟩

/-- Nodes that something outside the unique tables refers to: a handle the user holds, or whose count
is stuck; a variable; an association; or the node's own count is stuck. -/
inductive Root (own : Nat → Nat) (m : Mgr) : Nat → Prop
  | user {u e} (h : m.ut.heap u = some e) (l : u = 1 ∨ 0 < own u ∨ m.ut.ref u = 255) :
      Root own m e.addr
  | var {v e} (h : m.vars v = some e) : Root own m e.addr
  | assoc {p v e} (hp : p ∈ m.assocs) (h : p.a.var v = some e) : Root own m e.addr
  | temp {v e} (h : m.temp.var v = some e) : Root own m e.addr
  | stuck {a} (h : m.st.ref a = 255) : Root own m a

/-- Nodes that are needed: there is a path to them from such a node. -/
inductive Needed (own : Nat → Nat) (m : Mgr) : Nat → Prop
  | root {a} (h : Root own m a) : Needed own m a
  | thn {a n} (h : Needed own m a) (hn : m.st.heap a = some n) : Needed own m n.thn.addr
  | els {a n} (h : Needed own m a) (hn : m.st.heap a = some n) : Needed own m n.els.addr

theorem EOK_heap {s : Store} {e : Edge} (h : s.EOK e) : e.addr = 0 ∨ s.heap e.addr ≠ none := by
  rcases h with h | ⟨n, h, -⟩
  · exact Or.inl h.2
  · exact Or.inr (by rw [h]; simp)

/-- a node of the old store that is there in the new one -/
theorem kept_of {s s' : Store} (sh : s.Shrink s') {a n} (hn : s.heap a = some n)
    (h : s'.heap a ≠ none) : s'.heap a = some n := by
  cases hx : s'.heap a with
  | none => exact absurd hx h
  | some k => rw [sh.heap _ _ hx] at hn; exact hn

theorem Mgr.InvG.kept {Γ leak} (i : m.InvG Γ leak own) {m' : Mgr} (i' : m'.InvG Γ leak own)
    (h : m.gc = some m') (sh : m.st.Shrink m'.st) {a} (ha : Needed own m a) :
    ∀ n, m.st.heap a = some n → m'.st.heap a = some n := by
  obtain ⟨f, r, us, uk, hv, has, ht⟩ := Mgr.gc_fades h
  have fin : ∀ {e : Edge}, m'.st.EOK e → ∀ n, m.st.heap e.addr = some n →
      m'.st.heap e.addr = some n := by
    intro e he n hn
    rcases EOK_heap he with h0 | h0
    · rw [h0, i.wf.heap0] at hn; cases hn
    · exact kept_of sh hn h0
  induction ha with
  | root h =>
    cases h with
    | user h l =>
      rename_i u e
      have : m.ut.ref u ≠ 0 := by
        rcases l with rfl | l | l
        · rw [i.ut.one_ref]; decide
        · exact i.ut.live_ref (h := ⟨u, false⟩) (Or.inr l)
        · rw [l]; decide
      exact fin (i'.uok u e (by rw [uk u this]; exact h))
    | var h =>
      rename_i v e
      by_cases hr : 1 ≤ v ∧ v ≤ m.st.ord.numVars
      · obtain ⟨b, hb, hn⟩ := i'.var v hr.1 (by rw [sh.ord]; exact hr.2)
        rw [hv, h] at hb
        cases hb
        exact fin (e := ⟨v, b, false⟩) (Or.inr ⟨_, hn, rfl⟩)
      · rw [i.var0 v (by omega)] at h; cases h
    | assoc hp h =>
      rename_i p v e
      exact fin ((i'.assocs p (by rw [has]; exact hp)).1.vals v e h)
    | temp h => exact fin (i'.temp.vals _ _ (by rw [ht]; exact h))
    | stuck h => intro n hn; rw [(f.stuck _ h).2]; exact hn
  | thn _ hn ih => exact fin (i'.wf.thn_ok _ _ (ih _ hn))
  | els _ hn ih => exact fin (i'.wf.els_ok _ _ (ih _ hn))

/-- Garbage collection is safe: it succeeds, keeps every node that is needed, and every handle the
user holds denotes the same function afterwards. Variables and associations stay. -/
theorem C12_safe (S : E.Sound) (R : Reachable E own lk m) :
    ∃ m', m.gc = some m' ∧
      (∀ a n, Needed own m a → m.st.heap a = some n → m'.st.heap a = some n) ∧
      (∀ h F, UTab.Live own h → Den m h F → Den m' h F) ∧
      m'.vars = m.vars ∧ m'.assocs = m.assocs ∧ m'.temp = m.temp ∧
      m'.st.ord = m.st.ord ∧ ReducedOrdered m'.st := by
  obtain ⟨Γ, leak, hl, i⟩ := R.inv S
  obtain ⟨m', h, i', p, -, -, -, sh, -⟩ := i.gc
  obtain ⟨f, r, us, uk, hv, has, ht⟩ := Mgr.gc_fades h
  refine ⟨m', h, fun a n ha hn => i.kept i' h sh ha n hn, fun x F l d => p.fns x l F d, hv, has, ht,
    sh.ord, ?_⟩
  have R' : Reachable E (Call.own own .gc .unit) (lk || Call.leaks .gc) m' :=
    .call .gc R trivial (by simp only [Call.run, h]; rfl)
  exact C08_reduced S R'

/-- Garbage collection is complete: what is left is exactly what was there and is needed. -/
theorem C13_complete (S : E.Sound) (R : Reachable E own false m) :
    ∃ m', m.gc = some m' ∧
      ∀ a n, m'.st.heap a = some n ↔ m.st.heap a = some n ∧ Needed own m a := by
  obtain ⟨Γ, leak, hl, i⟩ := R.inv S
  obtain ⟨m', h, i', p, -, -, -, sh, -, hu0, h0, -⟩ := i.gc
  obtain ⟨f, r, us, uk, hv, has, ht⟩ := Mgr.gc_fades h
  refine ⟨m', h, fun a n => ⟨fun hn => ⟨sh.heap a n hn, ?_⟩, fun hn => i.kept i' h sh hn.2 n hn.1⟩⟩
  have : m'.st.Reach (m'.roots leak) a :=
    Store.GCInv.all_reach ⟨i'.wf, i'.ref⟩ h0 a (by rw [hn]; simp)
  clear hn
  induction this with
  | root ha hr =>
    rename_i b
    refine .root ?_
    rcases hr with hr | hr
    · have tab : ∀ g k, 0 < tabHits g k b → ∃ v e, g v = some e ∧ e.addr = b := by
        intro g k hk
        obtain ⟨v, -, hv⟩ := sumTo_pos hk
        cases he : g v with
        | none => rw [he] at hv; simp [optHits] at hv
        | some e => rw [he] at hv; exact ⟨v, e, he, hits_pos hv⟩
      by_cases h1 : 0 < m'.ut.hits b
      · obtain ⟨u, -, hu⟩ := sumTo_pos h1
        cases he : m'.ut.heap u with
        | none => rw [he] at hu; simp at hu
        | some e =>
          rw [he] at hu
          rw [← hits_pos hu]
          refine .user (us u e he) ?_
          have hc := i'.ut.cnt u (by rw [he]; simp)
          have hz := hu0 u (by rw [he]; simp)
          rw [r] at hc hz
          simp only [maxRef] at hc
          omega
      by_cases h2 : 0 < tabHits m'.vars m'.st.ord.numVars b
      · obtain ⟨v, e, he, rfl⟩ := tab _ _ h2
        exact .var (v := v) (by rw [← hv]; exact he)
      by_cases h3 : 0 < tabHits m'.temp.var m'.st.ord.numVars b
      · obtain ⟨v, e, he, rfl⟩ := tab _ _ h3
        exact .temp (v := v) (by rw [← ht]; exact he)
      have h4 : 0 < listHits m'.assocs m'.st.ord.numVars b := by
        simp only [Mgr.roots, Mgr.rest, hl rfl] at hr; omega
      have : ∃ p ∈ m'.assocs, 0 < tabHits p.a.var m'.st.ord.numVars b := by
        unfold listHits at h4
        generalize m'.assocs = l at h4
        induction l with
        | nil => simp at h4
        | cons q l ih =>
          simp only [List.map_cons, List.sum_cons] at h4
          by_cases hq : 0 < tabHits q.a.var m'.st.ord.numVars b
          · exact ⟨q, by simp, hq⟩
          · obtain ⟨p, hp, h⟩ := ih (by omega)
            exact ⟨p, by simp [hp], h⟩
      obtain ⟨p, hp, h5⟩ := this
      obtain ⟨v, e, he, rfl⟩ := tab _ _ h5
      exact .assoc (p := p) (v := v) (by rw [← has]; exact hp) he
    · refine .stuck ?_
      have h1 := f.le b
      rw [hr] at h1
      have ho : m.st.heap b ≠ none := by
        cases hx : m'.st.heap b with
        | none => exact absurd hx ha
        | some k => rw [sh.heap _ _ hx]; simp
      have h2 := i.ref.le b ho
      simp only [maxRef] at h1 h2
      omega
  | thn _ hn _ ih => exact .thn ih (sh.heap _ _ hn)
  | els _ hn _ ih => exact .els ih (sh.heap _ _ hn)

namespace Demo

/-- the same, after `(a ∧ b) ∨ c` has been freed -/
def freed : List Call := script ++ [.free ⟨6, false⟩]
theorem freed_runs : (run Env.plain start freed).isSome = true := by decide +kernel
def dead : Sess := go freed freed_runs
theorem dead_reach : Reachable Env.plain dead.own dead.lk dead.m := go_reachable freed freed_runs
theorem dead_reach0 : Reachable Env.plain dead.own false dead.m := by
  have := dead_reach
  rwa [show dead.lk = false by decide +kernel] at this

end Demo

example := C12_safe Env.plain_sound Demo.dead_reach
example := C13_complete Env.plain_sound Demo.dead_reach0
/-- the collection frees two nodes, those of `(a ∧ b) ∨ c` -/
example : Demo.dead.m.gc.map (fun m' => (Demo.dead.m.st.numNodes, m'.st.numNodes)) = some (7, 5) := by
  decide +kernel

end Cal
