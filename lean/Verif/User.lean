import Verif.GC
import Verif.Cache

/-!
# User handles

A `Cal_Bdd` the user holds is a pointer, possibly complemented, to a *user node*: a node of
`uniqueTable[0]` whose then-child is the internal BDD and whose else-child is `bddOne`
(calUtil.c:271-316). The address space of user nodes is kept apart from that of internal nodes; the
else-child is always `bddOne` and is left out. The null pointer is address 0.
-/

namespace Cal

/-- A `Cal_Bdd`: address of the user node and the complement bit. -/
abbrev Handle := Ptr

/-- `Cal_BddNull` (cal.c:156-160): the null pointer. -/
def Handle.null : Handle := ⟨0, false⟩

/-- `uniqueTable[0]` and `nodeManagerArray[0]`. -/
structure UTab where
  /-- then-child of a user node -/
  heap : Nat → Option Edge
  ref : Nat → Nat
  tab : List Nat
  free : List Nat
  next : Nat

namespace UTab

/-- The search loop of `CalHashTableFindOrAdd` (calHashTable.c:170-182). -/
def lookup (u : UTab) (e : Edge) : Option Nat := u.tab.find? fun a => decide (u.heap a = some e)

/-- `CalNodeManagerAllocNode` (calInt.h:475-545). -/
def alloc (u : UTab) : Nat × UTab :=
  match u.free with
  | a :: rest => (a, { u with free := rest, ref := upd u.ref a 0 })
  | [] => (u.next, { u with next := u.next + 1, ref := upd u.ref u.next 0 })

/-- `CalHashTableFindOrAdd` on `uniqueTable[0]` (calHashTable.c:168-206). -/
def findOrAdd (u : UTab) (e : Edge) : UTab × Nat × Bool :=
  match u.lookup e with
  | some a => (u, a, true)
  | none =>
    let (a, u1) := u.alloc
    ({ u1 with heap := upd u1.heap a (some e), tab := a :: u1.tab }, a, false)

/-- `CalBddNodeIcrRefCount` (calInt.h:1118-1142): saturating. -/
def icr (u : UTab) (a : Nat) : UTab :=
  { u with ref := upd u.ref a (if u.ref a < maxRef then u.ref a + 1 else maxRef) }

/-- `CalBddNodeDcrRefCount` (calInt.h:1087-1116): sticky at 255; at 0 only a warning. -/
def dcr (u : UTab) (a : Nat) : UTab :=
  { u with ref := upd u.ref a (if u.ref a = maxRef then maxRef else u.ref a - 1) }

/-- Loop of `CalHashTableGC` (calGC.c:156-190) over user nodes: a node with count zero is unlinked,
its children (internal BDD, `bddOne`) lose a reference, and it goes to the free list. -/
def gcList : List Nat → UTab → Store → Option (UTab × Store)
  | [], u, s => some (u, s)
  | a :: as, u, s =>
    match u.heap a with
    | none => none
    | some e =>
      if u.ref a = 0 then
        gcList as { u with heap := upd u.heap a none, tab := u.tab.erase a, free := a :: u.free }
          ((s.dcr e).dcr one)
      else gcList as u s

/-- `CalHashTableGC(bddManager, uniqueTable[0])` (calGC.c:165-204). -/
def gc (u : UTab) (s : Store) : Option (UTab × Store) := gcList u.tab u s

/-- references from user nodes to the internal node `x` -/
def hits (u : UTab) (x : Nat) : Nat :=
  sumTo (fun a => match u.heap a with | some e => Cal.hits e x | none => 0) u.next

/-- Invariant of the user nodes; `own a` is the number of references the user holds to the node `a`
(through handles or complemented handles). -/
structure OK (u : UTab) (own : Nat → Nat) : Prop where
  heap0 : u.heap 0 = none
  one : u.heap 1 = some one
  one_ref : u.ref 1 = maxRef
  pos : ∀ a e, u.heap a = some e → e.neg = false
  uniq : ∀ a b e, u.heap a = some e → u.heap b = some e → a = b
  tab_iff : ∀ a, a ∈ u.tab ↔ u.heap a ≠ none
  tab_nodup : u.tab.Nodup
  next_pos : 0 < u.next
  heap_next : ∀ a, u.heap a ≠ none → a < u.next
  free_nodup : u.free.Nodup
  free_ok : ∀ a, a ∈ u.free → u.heap a = none ∧ 0 < a ∧ a < u.next
  ref_le : ∀ a, u.heap a ≠ none → u.ref a ≤ maxRef
  cnt : ∀ a, u.heap a ≠ none → u.ref a = maxRef ∨ u.ref a = own a
  own0 : ∀ a, u.heap a = none → own a = 0

/-- The handles a user may pass: those they hold a reference to, and the constants. -/
def Live (own : Nat → Nat) (h : Handle) : Prop := h.addr = 1 ∨ 0 < own h.addr

theorem OK.live {u : UTab} {own} (o : u.OK own) {h : Handle} (l : Live own h) :
    ∃ e, u.heap h.addr = some e := by
  rcases l with l | l
  · exact ⟨_, by rw [l]; exact o.one⟩
  · cases hh : u.heap h.addr with
    | some e => exact ⟨e, rfl⟩
    | none => have := o.own0 _ hh; omega

theorem OK.live_ref {u : UTab} {own} (o : u.OK own) {h : Handle} (l : Live own h) :
    u.ref h.addr ≠ 0 := by
  rcases l with l | l
  · rw [l, o.one_ref]; decide
  · obtain ⟨e, he⟩ := o.live (Or.inr l)
    rcases o.cnt h.addr (by rw [he]; simp) with h1 | h1
    · rw [h1]; decide
    · omega

theorem OK.lookup_some {u : UTab} {e a} (h : u.lookup e = some a) :
    u.heap a = some e := by
  have := List.find?_some h
  simpa using this

theorem OK.lookup_none {u : UTab} {own} (o : u.OK own) {e} (h : u.lookup e = none) :
    ∀ a, u.heap a ≠ some e := by
  intro a ha
  have := List.find?_eq_none.1 h a ((o.tab_iff a).2 (by rw [ha]; simp))
  simp [ha] at this

theorem hits_upd {u : UTab} {a x : Nat} {o : Option Edge} (ha : a < u.next) :
    ({ u with heap := upd u.heap a o } : UTab).hits x +
      (match u.heap a with | some e => Cal.hits e x | none => 0) =
    u.hits x + (match o with | some e => Cal.hits e x | none => 0) := by
  have := sumTo_change
    (f := fun b => match upd u.heap a o b with | some e => Cal.hits e x | none => 0)
    (g := fun b => match u.heap b with | some e => Cal.hits e x | none => 0) ha
    (fun j hj => by simp only [upd_ne _ _ hj])
  simp only [upd_same] at this
  exact this

/-- The effect of `CalHashTableFindOrAdd` (calHashTable.c:169-206) followed by `CalBddIcrRefCount` (calInt.h:781-806) on the user node. -/
structure Got (u : UTab) (own : Nat → Nat) (e : Edge) (u' : UTab) (a : Nat) (found : Bool) :
    Prop where
  ok : u'.OK (upd own a (own a + 1))
  heap : u'.heap a = some e
  kept : ∀ b f, u.heap b = some f → u'.heap b = some f
  only : ∀ b f, u'.heap b = some f → u.heap b = some f ∨ f = e
  pos : 0 < a
  hits : ∀ x, u'.hits x = u.hits x + (if found then 0 else Cal.hits e x)

theorem icr_ok {u : UTab} {own : Nat → Nat} {a : Nat} (o : u.OK own) (ha : u.heap a ≠ none) :
    (u.icr a).OK (upd own a (own a + 1)) := by
  refine ⟨o.heap0, o.one, ?_, o.pos, o.uniq, o.tab_iff, o.tab_nodup, o.next_pos, o.heap_next,
    o.free_nodup, o.free_ok, ?_, ?_, ?_⟩
  · show upd u.ref a _ 1 = maxRef
    by_cases h : (1 : Nat) = a
    · subst h; rw [upd_same, o.one_ref]; simp
    · rw [upd_ne _ _ h]; exact o.one_ref
  · intro b hb
    show upd u.ref a _ b ≤ maxRef
    by_cases h : b = a
    · subst h; rw [upd_same]; split <;> omega
    · rw [upd_ne _ _ h]; exact o.ref_le b hb
  · intro b hb
    show upd u.ref a _ b = maxRef ∨ upd u.ref a _ b = _
    by_cases h : b = a
    · subst h
      simp only [upd_same]
      have := o.cnt b hb
      split <;> omega
    · rw [upd_ne _ _ h, upd_ne _ _ h]; exact o.cnt b hb
  · intro b hb
    have : b ≠ a := by rintro rfl; exact ha hb
    rw [upd_ne _ _ this]; exact o.own0 b hb

theorem findOrAdd_spec {u : UTab} {own} (o : u.OK own) {e : Edge} (he : e.neg = false) :
    Got u own e ((u.findOrAdd e).1.icr (u.findOrAdd e).2.1) (u.findOrAdd e).2.1
      (u.findOrAdd e).2.2 := by
  unfold findOrAdd
  cases hl : u.lookup e with
  | some a =>
    have ha := OK.lookup_some hl
    exact ⟨icr_ok o (by rw [ha]; simp), ha, fun _ _ h => h, fun _ _ h => Or.inl h,
      by rcases Nat.eq_zero_or_pos a with h | h
         · rw [h, o.heap0] at ha; cases ha
         · exact h, fun x => by simp [icr, UTab.hits]⟩
  | none =>
    have hno := o.lookup_none hl
    -- the two ways to get an address
    have main : ∀ (a : Nat) (fr : List Nat) (nx : Nat), u.heap a = none → 0 < a → a < nx →
        u.next ≤ nx → fr.Nodup → a ∉ fr → (∀ b, b ∈ fr → b ∈ u.free) →
        (nx = u.next ∨ (nx = u.next + 1 ∧ a = u.next)) →
        Got u own e ((⟨upd u.heap a (some e), upd u.ref a 0, a :: u.tab, fr, nx⟩ : UTab).icr a) a false := by
      intro a fr nx hnone hpos hlt hnx hnd hnotin hsub hnxt
      have hne1 : (1 : Nat) ≠ a := by rintro rfl; rw [o.one] at hnone; cases hnone
      have ok : ((⟨upd u.heap a (some e), upd u.ref a 0, a :: u.tab, fr, nx⟩ : UTab)).OK own := by
        refine ⟨?_, ?_, ?_, ?_, ?_, ?_, ?_, ?_, ?_, hnd, ?_, ?_, ?_, ?_⟩
        · show upd u.heap a _ 0 = none
          rw [upd_ne _ _ (by omega)]; exact o.heap0
        · show upd u.heap a _ 1 = _
          rw [upd_ne _ _ hne1]; exact o.one
        · show upd u.ref a _ 1 = _
          rw [upd_ne _ _ hne1]; exact o.one_ref
        · intro b f hb
          simp only at hb
          by_cases h : b = a
          · subst h; rw [upd_same] at hb; cases hb; exact he
          · rw [upd_ne _ _ h] at hb; exact o.pos b f hb
        · intro b c f hb hc
          simp only at hb hc
          by_cases h : b = a
          · subst h; rw [upd_same] at hb; cases hb
            by_cases h' : c = b
            · exact h'.symm
            · rw [upd_ne _ _ h'] at hc; exact absurd hc (hno c)
          · rw [upd_ne _ _ h] at hb
            by_cases h' : c = a
            · subst h'; rw [upd_same] at hc; cases hc; exact absurd hb (hno b)
            · rw [upd_ne _ _ h'] at hc; exact o.uniq b c f hb hc
        · intro b
          show b ∈ a :: u.tab ↔ upd u.heap a _ b ≠ none
          by_cases h : b = a
          · subst h; simp
          · rw [upd_ne _ _ h, List.mem_cons]; simp [h, o.tab_iff b]
        · show (a :: u.tab).Nodup
          rw [List.nodup_cons]
          exact ⟨fun h => (o.tab_iff a).1 h hnone, o.tab_nodup⟩
        · show 0 < nx; omega
        · intro b hb
          show b < nx
          by_cases h : b = a
          · omega
          · simp only at hb; rw [upd_ne _ _ h] at hb; have := o.heap_next b hb; omega
        · intro b hb
          have hba : b ≠ a := by rintro rfl; exact hnotin hb
          have := o.free_ok b (hsub b hb)
          show upd u.heap a _ b = none ∧ 0 < b ∧ b < nx
          rw [upd_ne _ _ hba]
          exact ⟨this.1, this.2.1, by omega⟩
        · intro b hb
          show upd u.ref a 0 b ≤ maxRef
          by_cases h : b = a
          · subst h; simp
          · simp only at hb; rw [upd_ne _ _ h] at hb ⊢; exact o.ref_le b hb
        · intro b hb
          show upd u.ref a 0 b = maxRef ∨ upd u.ref a 0 b = own b
          by_cases h : b = a
          · subst h; right; rw [upd_same, o.own0 b hnone]
          · simp only at hb; rw [upd_ne _ _ h] at hb ⊢; exact o.cnt b hb
        · intro b hb
          simp only at hb
          by_cases h : b = a
          · subst h; rw [upd_same] at hb; cases hb
          · rw [upd_ne _ _ h] at hb; exact o.own0 b hb
      refine ⟨icr_ok ok (by simp), ?_, ?_, ?_, hpos, ?_⟩
      · show upd u.heap a _ a = _; simp
      · intro b f hb
        have : b ≠ a := by rintro rfl; rw [hnone] at hb; cases hb
        show upd u.heap a _ b = _; rw [upd_ne _ _ this]; exact hb
      · intro b f hb
        change upd u.heap a _ b = _ at hb
        by_cases h : b = a
        · subst h; rw [upd_same] at hb; cases hb; exact Or.inr rfl
        · rw [upd_ne _ _ h] at hb; exact Or.inl hb
      · intro x
        show sumTo (fun b => match upd u.heap a (some e) b with
          | some e => Cal.hits e x | none => 0) nx = u.hits x + Cal.hits e x
        have hn0 : u.heap a = none := hnone
        have hold : sumTo (fun b => match u.heap b with
          | some e => Cal.hits e x | none => 0) nx = u.hits x := by
          rcases hnxt with h | ⟨h, h'⟩
          · rw [h]; rfl
          · rw [h]
            show _ + _ = _
            rw [← h']; simp only [hn0, Nat.add_zero]; rw [h']; rfl
        have hch := sumTo_change
          (f := fun b => match upd u.heap a (some e) b with
            | some e => Cal.hits e x | none => 0)
          (g := fun b => match u.heap b with | some e => Cal.hits e x | none => 0)
          (n := nx) (a := a) hlt (fun j hj => by simp only [upd_ne _ _ hj])
        simp only [upd_same, hn0] at hch
        rw [hold] at hch
        simpa using hch
    cases hf : u.free with
    | cons a rest =>
      have h1 := o.free_ok a (by rw [hf]; simp)
      have h2 := o.free_nodup
      rw [hf, List.nodup_cons] at h2
      have := main a rest u.next h1.1 h1.2.1 h1.2.2 (Nat.le_refl _) h2.2 h2.1
        (fun b hb => by rw [hf]; simp [hb]) (Or.inl rfl)
      simpa [alloc, hf] using this
    | nil =>
      have hnone : u.heap u.next = none := by
        cases h : u.heap u.next with
        | none => rfl
        | some f => have := o.heap_next u.next (by rw [h]; simp); omega
      have := main u.next [] (u.next + 1) hnone o.next_pos (by omega) (by omega) (by simp) (by simp)
        (by simp) (Or.inr ⟨rfl, rfl⟩)
      simpa [alloc, hf] using this

/-- Giving up a reference. -/
theorem dcr_ok {u : UTab} {own : Nat → Nat} {a : Nat} (o : u.OK own) (ha : 0 < own a) :
    (u.dcr a).OK (upd own a (own a - 1)) := by
  have hne : u.heap a ≠ none := fun h => by have := o.own0 a h; omega
  refine ⟨o.heap0, o.one, ?_, o.pos, o.uniq, o.tab_iff, o.tab_nodup, o.next_pos, o.heap_next,
    o.free_nodup, o.free_ok, ?_, ?_, ?_⟩
  · show upd u.ref a _ 1 = maxRef
    by_cases h : (1 : Nat) = a
    · subst h; rw [upd_same, o.one_ref]; simp
    · rw [upd_ne _ _ h]; exact o.one_ref
  · intro b hb
    show upd u.ref a _ b ≤ maxRef
    have := o.ref_le b hb
    by_cases h : b = a
    · subst h; rw [upd_same]; split <;> omega
    · rw [upd_ne _ _ h]; exact this
  · intro b hb
    show upd u.ref a _ b = maxRef ∨ upd u.ref a _ b = _
    by_cases h : b = a
    · subst h
      simp only [upd_same]
      have := o.cnt b hb
      split <;> omega
    · rw [upd_ne _ _ h, upd_ne _ _ h]; exact o.cnt b hb
  · intro b hb
    have : b ≠ a := by rintro rfl; exact hne hb
    rw [upd_ne _ _ this]; exact o.own0 b hb

/-- Giving up a reference to a constant handle never matters. -/
theorem dcr_one_ok {u : UTab} {own : Nat → Nat} (o : u.OK own) : (u.dcr 1).OK own := by
  have : u.dcr 1 = u := by
    simp only [dcr, o.one_ref, if_true]
    have : upd u.ref 1 maxRef = u.ref := by
      funext b
      by_cases h : b = 1
      · subst h; rw [upd_same, o.one_ref]
      · rw [upd_ne _ _ h]
    rw [this]
  rw [this]; exact o

/-! ## Collecting user nodes -/

theorem free_ok' {u : UTab} {own : Nat → Nat} (o : u.OK own) {a e} (ha : u.heap a = some e)
    (h0 : u.ref a = 0) :
    ({ u with heap := upd u.heap a none, tab := u.tab.erase a, free := a :: u.free } : UTab).OK
      own := by
  have hne1 : (1 : Nat) ≠ a := by
    rintro rfl; rw [o.one_ref] at h0; simp [maxRef] at h0
  have hne : u.heap a ≠ none := by rw [ha]; simp
  have hown : own a = 0 := by
    rcases o.cnt a hne with h | h
    · rw [h0] at h; simp [maxRef] at h
    · omega
  have hpos : 0 < a := by
    rcases Nat.eq_zero_or_pos a with h | h
    · rw [h, o.heap0] at ha; cases ha
    · exact h
  refine ⟨?_, ?_, o.one_ref, ?_, ?_, ?_, o.tab_nodup.erase a, o.next_pos, ?_, ?_, ?_, ?_, ?_, ?_⟩
  · show upd u.heap a _ 0 = none
    rw [upd_ne _ _ (by omega)]; exact o.heap0
  · show upd u.heap a _ 1 = _
    rw [upd_ne _ _ hne1]; exact o.one
  · intro b f hb
    simp only at hb
    by_cases h : b = a
    · subst h; rw [upd_same] at hb; cases hb
    · rw [upd_ne _ _ h] at hb; exact o.pos b f hb
  · intro b c f hb hc
    simp only at hb hc
    by_cases h : b = a
    · subst h; rw [upd_same] at hb; cases hb
    · by_cases h' : c = a
      · subst h'; rw [upd_same] at hc; cases hc
      · rw [upd_ne _ _ h] at hb; rw [upd_ne _ _ h'] at hc; exact o.uniq b c f hb hc
  · intro b
    show b ∈ u.tab.erase a ↔ upd u.heap a none b ≠ none
    rw [o.tab_nodup.mem_erase_iff]
    by_cases h : b = a
    · subst h; simp
    · rw [upd_ne _ _ h]; simp [h, o.tab_iff b]
  · intro b hb
    simp only at hb
    by_cases h : b = a
    · subst h; rw [upd_same] at hb; exact absurd rfl hb
    · rw [upd_ne _ _ h] at hb; exact o.heap_next b hb
  · show (a :: u.free).Nodup
    rw [List.nodup_cons]
    exact ⟨fun h => hne (o.free_ok a h).1, o.free_nodup⟩
  · intro b hb
    show upd u.heap a none b = none ∧ _
    by_cases h : b = a
    · subst h; exact ⟨upd_same _ _ _, hpos, o.heap_next b hne⟩
    · rw [upd_ne _ _ h]
      simp only [List.mem_cons, h, false_or] at hb
      exact o.free_ok b hb
  · intro b hb
    simp only at hb
    by_cases h : b = a
    · subst h; rw [upd_same] at hb; exact absurd rfl hb
    · rw [upd_ne _ _ h] at hb; exact o.ref_le b hb
  · intro b hb
    simp only at hb
    by_cases h : b = a
    · subst h; rw [upd_same] at hb; exact absurd rfl hb
    · rw [upd_ne _ _ h] at hb; exact o.cnt b hb
  · intro b hb
    simp only at hb
    by_cases h : b = a
    · subst h; exact hown
    · rw [upd_ne _ _ h] at hb; exact o.own0 b hb

/-- What collecting the user nodes `as` does. The store changes only in its counts: each collected
user node gives up its reference. -/
structure GCed (u : UTab) (s : Store) (own rest : Nat → Nat) (as : List Nat) (u' : UTab)
    (s' : Store) : Prop where
  ok : u'.OK own
  heap : s'.heap = s.heap
  ord : s'.ord = s.ord
  tab : s'.tab = s.tab
  free : s'.free = s.free
  next : s'.next = s.next
  num : s'.numNodes = s.numNodes
  chk : s'.gcCheck = s.gcCheck
  ref : s'.RefOK (fun x => u'.hits x + rest x)
  sub : ∀ a e, u'.heap a = some e → u.heap a = some e
  kept : ∀ a e, u.heap a = some e → u.ref a ≠ 0 → u'.heap a = some e
  done : ∀ a, a ∈ as → u'.heap a ≠ none → u.ref a ≠ 0
  refs : u'.ref = u.ref

theorem RefOK_dcr {s : Store} {ext ext' : Nat → Nat} (r : s.RefOK ext) (e : Edge)
    (h : ∀ x, s.heap x ≠ none → ext x = ext' x + Cal.hits e x)
    (h0 : ∀ x, x ≠ 0 → s.heap x = none → ext' x = 0) : (s.dcr e).RefOK ext' := by
  have hd : ∀ x, (s.dcr e).inDeg x = s.inDeg x := fun _ => rfl
  refine ⟨?_, ?_, ?_, h0⟩
  · by_cases hx : (0 : Nat) = e.addr
    · simp only [Store.dcr]; rw [← hx, upd_same, r.const]; simp
    · rw [dcr_ne hx]; exact r.const
  · intro x hx
    exact (dcr_cnt (c := s.inDeg x + ext' x) (r.le x hx)
      (by have := r.cnt x hx; rw [h x hx] at this; omega)).1
  · intro x hx
    exact (dcr_cnt (c := s.inDeg x + ext' x) (r.le x hx)
      (by have := r.cnt x hx; rw [h x hx] at this; omega)).2

theorem RefOK_icr {s : Store} {ext ext' : Nat → Nat} (r : s.RefOK ext) (e : Edge)
    (h : ∀ x, s.heap x ≠ none → ext' x = ext x + Cal.hits e x)
    (h0 : ∀ x, x ≠ 0 → s.heap x = none → ext' x = 0) : (s.icr e).RefOK ext' := by
  have hd : ∀ x, (s.icr e).inDeg x = s.inDeg x := fun _ => rfl
  refine ⟨?_, ?_, ?_, h0⟩
  · by_cases hx : (0 : Nat) = e.addr
    · simp only [Store.icr]; rw [← hx, upd_same, r.const]; simp
    · rw [icr_ne hx]; exact r.const
  · intro x hx
    exact (icr_cnt (c := s.inDeg x + ext x) (r.le x hx) (r.cnt x hx)).1
  · intro x hx
    have := (icr_cnt (e := e) (c := s.inDeg x + ext x) (r.le x hx) (r.cnt x hx)).2
    rw [hd, h x hx]; omega

/-- a decrement of the constant changes nothing -/
theorem dcr_const {s : Store} (h : s.ref 0 = maxRef) : s.dcr Cal.one = s := by
  have : upd s.ref 0 maxRef = s.ref := by
    funext b
    by_cases hb : b = 0
    · subst hb; rw [upd_same, h]
    · rw [upd_ne _ _ hb]
  simp [Store.dcr, h, this]

theorem gcList_spec {own rest : Nat → Nat} : ∀ (as : List Nat) (u : UTab) (s : Store), u.OK own →
    (∀ a e, u.heap a = some e → s.EOK e) → (∀ a, a ∈ as → u.heap a ≠ none) → as.Nodup →
    s.RefOK (fun x => u.hits x + rest x) →
    ∃ u' s', gcList as u s = some (u', s') ∧ GCed u s own rest as u' s' := by
  intro as
  induction as with
  | nil =>
    intro u s o _ _ _ r
    exact ⟨u, s, rfl, o, rfl, rfl, rfl, rfl, rfl, rfl, rfl, r, fun _ _ h => h, fun _ _ h _ => h,
      fun _ h => by simp at h, rfl⟩
  | cons a as ih =>
    intro u s o hok hmem hnd r
    rw [List.nodup_cons] at hnd
    cases ha : u.heap a with
    | none => exact absurd ha (hmem a (by simp))
    | some e =>
      unfold gcList
      simp only [ha]
      by_cases h0 : u.ref a = 0
      · rw [if_pos h0]
        have hlt : a < u.next := o.heap_next a (by rw [ha]; simp)
        have o1 := free_ok' o ha h0
        have hh : ∀ x, (⟨upd u.heap a none, u.ref, u.tab.erase a, a :: u.free, u.next⟩ : UTab).hits x + Cal.hits e x = u.hits x := by
          intro x
          have := hits_upd (u := u) (x := x) (o := none) hlt
          simp only [ha] at this
          exact this
        have hE := hok a e ha
        have r1 : (s.dcr e).RefOK (fun x => (⟨upd u.heap a none, u.ref, u.tab.erase a, a :: u.free,
            u.next⟩ : UTab).hits x + rest x) := by
          refine RefOK_dcr r e ?_ ?_
          · intro x _; have := hh x; omega
          · intro x hx hx'
            have h1 := r.ext0 x hx hx'
            have := hh x; omega
        rw [dcr_const r1.const]
        obtain ⟨u', s', he, g⟩ := ih _ (s.dcr e) o1
          (fun b f hb => by
            change upd u.heap a none b = _ at hb
            by_cases h : b = a
            · subst h; rw [upd_same] at hb; cases hb
            · rw [upd_ne _ _ h] at hb; exact hok b f hb)
          (fun b hb => by
            have : b ≠ a := by rintro rfl; exact hnd.1 hb
            show upd u.heap a none b ≠ none
            rw [upd_ne _ _ this]; exact hmem b (by simp [hb]))
          hnd.2 r1
        refine ⟨u', s', he, g.ok, g.heap, g.ord, g.tab, g.free, g.next, g.num, g.chk, g.ref, ?_, ?_, ?_, g.refs⟩
        · intro b f hb
          have h1 := g.sub b f hb
          simp only at h1
          by_cases h : b = a
          · subst h; rw [upd_same] at h1; cases h1
          · rw [upd_ne _ _ h] at h1; exact h1
        · intro b f hb hr
          have : b ≠ a := by rintro rfl; exact hr h0
          exact g.kept b f (by show upd u.heap a none b = _; rw [upd_ne _ _ this]; exact hb) hr
        · intro b hb hb'
          rcases List.mem_cons.1 hb with h | h
          · subst h
            cases hc : u'.heap b with
            | none => exact absurd hc hb'
            | some f => have := g.sub b f hc; simp at this
          · exact g.done b h hb'
      · rw [if_neg h0]
        obtain ⟨u', s', he, g⟩ := ih u s o hok (fun b hb => hmem b (by simp [hb])) hnd.2 r
        refine ⟨u', s', he, g.ok, g.heap, g.ord, g.tab, g.free, g.next, g.num, g.chk, g.ref, g.sub, g.kept, ?_,
          g.refs⟩
        intro b hb hb'
        rcases List.mem_cons.1 hb with h | h
        · subst h; exact h0
        · exact g.done b h hb'

end UTab

end Cal
