import Verif.DfModel
import Verif.MkNode
import Verif.GC

/-!
# Stores whose edges carry no ids

`PWF`: the unique-table invariant for the data structure of depth-first reordering, where the id of an
edge is read from the node it points to. `reid` puts the ids back (`BddConvertDataStructBack`), and
`PWF s` says the same as `s.reid.WF`.
-/

namespace Cal

namespace Df

/-- The pointer leads to a constant or to a node below level `k`. -/
def Below (s : Store) (k : Nat) (e : Edge) : Prop :=
  e.addr = 0 ∨ ∃ m, s.heap e.addr = some m ∧ k < s.ord.lvl m.var

structure PWF (s : Store) : Prop where
  ord : s.ord.WF
  heap0 : s.heap 0 = none
  var_range : ∀ a n, s.heap a = some n → 1 ≤ n.var ∧ n.var ≤ s.ord.numVars
  tab_iff : ∀ i a, a ∈ s.tab i ↔ ∃ n, s.heap a = some n ∧ n.var = i
  tab_nodup : ∀ i, (s.tab i).Nodup
  plain : ∀ a n, s.heap a = some n → n.thn.id = 0 ∧ n.els.id = 0
  thn_lo : ∀ a n, s.heap a = some n → Below s (s.ord.lvl n.var) n.thn
  els_lo : ∀ a n, s.heap a = some n → Below s (s.ord.lvl n.var) n.els
  thn_pos : ∀ a n, s.heap a = some n → n.thn.neg = false
  reduced : ∀ a n, s.heap a = some n → n.thn ≠ n.els
  unique : ∀ a b n, s.heap a = some n → s.heap b = some n → a = b
  next_pos : 0 < s.next
  heap_next : ∀ a n, s.heap a = some n → a < s.next
  free_nodup : ∀ i, (s.free i).Nodup
  free_ok : ∀ i a, a ∈ s.free i → s.heap a = none ∧ 0 < a ∧ a < s.next
  free_disj : ∀ i j a, a ∈ s.free i → a ∈ s.free j → i = j

/-! ## Putting the ids back -/

/-- The id of a pointer: the id in the node, 0 for the constant. -/
def tagId (s : Store) (e : Edge) : Nat :=
  if e.addr = 0 then 0 else match s.heap e.addr with | some n => n.var | none => 0

def reidE (s : Store) (e : Edge) : Edge := { e with id := tagId s e }
def reidN (s : Store) (n : Node) : Node := ⟨n.var, reidE s n.thn, reidE s n.els⟩

/-- `BddConvertDataStructBack` (calReorderDF.c:434-482). -/
def reid (s : Store) : Store := { s with heap := fun a => (s.heap a).map (reidN s) }

/-- The conversion of the nodes in `BddConvertDataStruct` (calReorderDF.c:377-384). -/
def stripE (e : Edge) : Edge := { e with id := 0 }
def stripN (n : Node) : Node := ⟨n.var, stripE n.thn, stripE n.els⟩
def strip (s : Store) : Store := { s with heap := fun a => (s.heap a).map stripN }

theorem reid_heap {s : Store} {a n} (h : s.heap a = some n) : (reid s).heap a = some (reidN s n) := by
  simp [reid, h]
theorem reid_none {s : Store} {a} : (reid s).heap a = none ↔ s.heap a = none := by
  simp [reid]
theorem reid_some {s : Store} {a N} (h : (reid s).heap a = some N) :
    ∃ n, s.heap a = some n ∧ N = reidN s n := by
  simp only [reid, Option.map_eq_some_iff] at h
  obtain ⟨n, h1, h2⟩ := h
  exact ⟨n, h1, h2.symm⟩

theorem strip_heap {s : Store} {a n} (h : s.heap a = some n) : (strip s).heap a = some (stripN n) := by
  simp [strip, h]
theorem strip_none {s : Store} {a} : (strip s).heap a = none ↔ s.heap a = none := by
  simp [strip]
theorem strip_some {s : Store} {a N} (h : (strip s).heap a = some N) :
    ∃ n, s.heap a = some n ∧ N = stripN n := by
  simp only [strip, Option.map_eq_some_iff] at h
  obtain ⟨n, h1, h2⟩ := h
  exact ⟨n, h1, h2.symm⟩

theorem den_reidE (δ : Nat → BFn) (s : Store) (e : Edge) : den δ (reidE s e) = den δ e := rfl
theorem den_stripE (δ : Nat → BFn) (e : Edge) : den δ (stripE e) = den δ e := rfl

theorem lab_reid {s : Store} {δ} : Lab (reid s) δ ↔ Lab s δ := by
  constructor
  · intro h; exact ⟨h.const, fun a n hn => by have := h.node a _ (reid_heap hn); exact this⟩
  · intro h
    refine ⟨h.const, fun a N hN => ?_⟩
    obtain ⟨n, hn, rfl⟩ := reid_some hN
    exact h.node a n hn

theorem lab_strip {s : Store} {δ} : Lab (strip s) δ ↔ Lab s δ := by
  constructor
  · intro h; exact ⟨h.const, fun a n hn => by have := h.node a _ (strip_heap hn); exact this⟩
  · intro h
    refine ⟨h.const, fun a N hN => ?_⟩
    obtain ⟨n, hn, rfl⟩ := strip_some hN
    exact h.node a n hn

theorem arcs_reid (s : Store) (a x : Nat) : (reid s).arcs a x = s.arcs a x := by
  unfold Store.arcs
  cases h : s.heap a with
  | none => rw [reid_none.2 h]
  | some n => rw [reid_heap h]; rfl

theorem arcs_strip (s : Store) (a x : Nat) : (strip s).arcs a x = s.arcs a x := by
  unfold Store.arcs
  cases h : s.heap a with
  | none => rw [strip_none.2 h]
  | some n => rw [strip_heap h]; rfl

theorem inDeg_reid (s : Store) (x : Nat) : (reid s).inDeg x = s.inDeg x := by
  unfold Store.inDeg; simp only [arcs_reid]; rfl
theorem inDeg_strip (s : Store) (x : Nat) : (strip s).inDeg x = s.inDeg x := by
  unfold Store.inDeg; simp only [arcs_strip]; rfl

theorem refOK_reid {s : Store} {ext} : (reid s).RefOK ext ↔ s.RefOK ext := by
  constructor
  · intro h
    exact ⟨h.const, fun a ha => h.le a (mt reid_none.1 ha), fun a ha => by
      have := h.cnt a (mt reid_none.1 ha); rwa [inDeg_reid] at this,
      fun a h0 ha => h.ext0 a h0 (reid_none.2 ha)⟩
  · intro h
    exact ⟨h.const, fun a ha => h.le a (mt reid_none.2 ha), fun a ha => by
      rw [inDeg_reid]; exact h.cnt a (mt reid_none.2 ha),
      fun a h0 ha => h.ext0 a h0 (reid_none.1 ha)⟩

theorem refOK_strip {s : Store} {ext} : (strip s).RefOK ext ↔ s.RefOK ext := by
  constructor
  · intro h
    exact ⟨h.const, fun a ha => h.le a (mt strip_none.1 ha), fun a ha => by
      have := h.cnt a (mt strip_none.1 ha); rwa [inDeg_strip] at this,
      fun a h0 ha => h.ext0 a h0 (strip_none.2 ha)⟩
  · intro h
    exact ⟨h.const, fun a ha => h.le a (mt strip_none.2 ha), fun a ha => by
      rw [inDeg_strip]; exact h.cnt a (mt strip_none.2 ha),
      fun a h0 ha => h.ext0 a h0 (strip_none.1 ha)⟩

theorem tagId_node {s : Store} (h0 : s.heap 0 = none) {e : Edge} {n} (h : s.heap e.addr = some n) :
    tagId s e = n.var := by
  have : e.addr ≠ 0 := by intro h'; rw [h', h0] at h; cases h
  simp [tagId, this, h]

theorem tagId_const {s : Store} {e : Edge} (h : e.addr = 0) : tagId s e = 0 := by simp [tagId, h]

theorem Below.weaken {s : Store} {k k' e} (h : Below s k e) (hk : k' ≤ k) : Below s k' e := by
  rcases h with h | ⟨m, hm, hl⟩
  · exact Or.inl h
  · exact Or.inr ⟨m, hm, by omega⟩

theorem Below.eok {s : Store} (h0 : s.heap 0 = none) {k e} (h : Below s k e) :
    (reid s).EOK (reidE s e) := by
  rcases h with h | ⟨m, hm, _⟩
  · exact Or.inl ⟨tagId_const h, h⟩
  · exact Or.inr ⟨_, reid_heap hm, (tagId_node h0 hm).symm⟩

theorem Below.lvl {s : Store} (h0 : s.heap 0 = none) {k e} (h : Below s k e) (hk : k < constIndex) :
    k < s.ord.lvl (tagId s e) := by
  rcases h with h | ⟨m, hm, hl⟩
  · rw [tagId_const h]; simpa using hk
  · rw [tagId_node h0 hm]; exact hl

theorem reidE_inj {s : Store} {e f : Edge} (he : e.id = 0) (hf : f.id = 0)
    (h : reidE s e = reidE s f) : e = f := by
  have h1 := congrArg Edge.addr h
  have h2 := congrArg Edge.neg h
  exact Edge.ext' (he.trans hf.symm) h1 h2

theorem PWF.reid {s : Store} (w : PWF s) : (reid s).WF := by
  have lv : ∀ a n, s.heap a = some n → s.ord.lvl n.var < constIndex := by
    intro a n hn
    have := w.ord.lvl_lt (w.var_range a n hn).1 (w.var_range a n hn).2
    have := w.ord.bound; omega
  refine ⟨w.ord, reid_none.2 w.heap0, ?_, ?_, w.tab_nodup, ?_, ?_, ?_, ?_, ?_, ?_, ?_, w.next_pos, ?_,
    w.free_nodup, ?_, w.free_disj⟩
  · intro a N hN; obtain ⟨n, hn, rfl⟩ := reid_some hN; exact w.var_range a n hn
  · intro i a
    show a ∈ s.tab i ↔ _
    rw [w.tab_iff]
    constructor
    · rintro ⟨n, hn, hv⟩; exact ⟨_, reid_heap hn, hv⟩
    · rintro ⟨N, hN, hv⟩; obtain ⟨n, hn, rfl⟩ := reid_some hN; exact ⟨n, hn, hv⟩
  · intro a N hN; obtain ⟨n, hn, rfl⟩ := reid_some hN; exact (w.thn_lo a n hn).eok w.heap0
  · intro a N hN; obtain ⟨n, hn, rfl⟩ := reid_some hN; exact (w.els_lo a n hn).eok w.heap0
  · intro a N hN; obtain ⟨n, hn, rfl⟩ := reid_some hN; exact w.thn_pos a n hn
  · intro a N hN; obtain ⟨n, hn, rfl⟩ := reid_some hN
    exact (w.thn_lo a n hn).lvl w.heap0 (lv a n hn)
  · intro a N hN; obtain ⟨n, hn, rfl⟩ := reid_some hN
    exact (w.els_lo a n hn).lvl w.heap0 (lv a n hn)
  · intro a N hN; obtain ⟨n, hn, rfl⟩ := reid_some hN
    intro h
    exact w.reduced a n hn (reidE_inj (w.plain a n hn).1 (w.plain a n hn).2 h)
  · intro a b N hN hM
    obtain ⟨n, hn, rfl⟩ := reid_some hN
    obtain ⟨m, hm, h⟩ := reid_some hM
    have h1 : (reidN s n).var = (reidN s m).var := congrArg Node.var h
    have h1 : n.var = m.var := h1
    have h2 := reidE_inj (w.plain a n hn).1 (w.plain b m hm).1 (congrArg Node.thn h)
    have h3 := reidE_inj (w.plain a n hn).2 (w.plain b m hm).2 (congrArg Node.els h)
    have : n = m := by cases n; cases m; simp_all
    subst this
    exact w.unique a b n hn hm
  · intro a N hN; obtain ⟨n, hn, rfl⟩ := reid_some hN; exact w.heap_next a n hn
  · intro i a ha
    have := w.free_ok i a ha
    exact ⟨reid_none.2 this.1, this.2⟩

theorem PWF.of_reid {s : Store} (w : (Df.reid s).WF)
    (plain : ∀ a n, s.heap a = some n → n.thn.id = 0 ∧ n.els.id = 0) : PWF s := by
  have h0 : s.heap 0 = none := reid_none.1 w.heap0
  have lo : ∀ k e, (Df.reid s).EOK (reidE s e) → k < s.ord.lvl (reidE s e).id → Below s k e := by
    rintro k e (⟨_, h⟩ | ⟨N, hN, hv⟩) hl
    · exact Or.inl h
    · obtain ⟨n, hn, rfl⟩ := reid_some hN
      refine Or.inr ⟨n, hn, ?_⟩
      rw [← hv] at hl; exact hl
  refine ⟨w.ord, h0, ?_, ?_, w.tab_nodup, plain, ?_, ?_, ?_, ?_, ?_, w.next_pos, ?_, w.free_nodup, ?_,
    w.free_disj⟩
  · intro a n hn; have := w.var_range a _ (reid_heap hn); exact this
  · intro i a
    have := w.tab_iff i a
    rw [show (Df.reid s).tab i = s.tab i from rfl] at this
    rw [this]
    constructor
    · rintro ⟨N, hN, hv⟩; obtain ⟨n, hn, rfl⟩ := reid_some hN; exact ⟨n, hn, hv⟩
    · rintro ⟨n, hn, hv⟩; exact ⟨_, reid_heap hn, hv⟩
  · intro a n hn; exact lo _ _ (w.thn_ok a _ (reid_heap hn)) (w.thn_lt a _ (reid_heap hn))
  · intro a n hn; exact lo _ _ (w.els_ok a _ (reid_heap hn)) (w.els_lt a _ (reid_heap hn))
  · intro a n hn; have := w.thn_pos a _ (reid_heap hn); exact this
  · intro a n hn h
    exact w.reduced a _ (reid_heap hn) (by show reidE s n.thn = reidE s n.els; rw [h])
  · intro a b n ha hb; exact w.unique a b _ (reid_heap ha) (reid_heap hb)
  · intro a n hn; exact w.heap_next a _ (reid_heap hn)
  · intro i a ha
    have := w.free_ok i a ha
    exact ⟨reid_none.1 this.1, this.2⟩

theorem reid_strip {s : Store} (w : s.WF) : reid (strip s) = s := by
  have key : ∀ e : Edge, s.EOK e → reidE (strip s) (stripE e) = e := by
    rintro e (⟨h1, h2⟩ | ⟨n, hn, hv⟩)
    · exact Edge.ext' (by rw [h1]; exact tagId_const h2) rfl rfl
    · refine Edge.ext' ?_ rfl rfl
      have := tagId_node (s := strip s) (e := stripE e) (strip_none.2 w.heap0) (strip_heap hn)
      rw [← hv]; exact this
  have : (reid (strip s)).heap = s.heap := by
    funext a
    cases h : s.heap a with
    | none => exact reid_none.2 (strip_none.2 h)
    | some n =>
      rw [reid_heap (strip_heap h)]
      congr 1
      show (⟨n.var, reidE (strip s) (stripE n.thn), reidE (strip s) (stripE n.els)⟩ : Node) = n
      rw [key _ (w.thn_ok a n h), key _ (w.els_ok a n h)]
  cases s
  simp only [reid, strip] at this ⊢
  simp only [this]

theorem PWF.strip {s : Store} (w : s.WF) : PWF (strip s) := by
  refine PWF.of_reid (by rw [reid_strip w]; exact w) ?_
  intro a N hN
  obtain ⟨n, hn, rfl⟩ := strip_some hN
  exact ⟨rfl, rfl⟩

/-! ## Canonicity -/

theorem PWF.heap_pos {s : Store} (w : PWF s) {a n} (h : s.heap a = some n) : a ≠ 0 := by
  rintro rfl; rw [w.heap0] at h; cases h

/-- Nodes of the same function are the same node. -/
theorem PWF.canon {s : Store} (w : PWF s) {δ} (l : Lab s δ) {a b n m} (ha : s.heap a = some n)
    (hb : s.heap b = some m) (h : δ a = δ b) : a = b := by
  have l' := lab_reid.2 l
  have r1 : Rep (Df.reid s) ⟨n.var, a, false⟩ (den δ ⟨n.var, a, false⟩) :=
    l'.rep w.reid (Or.inr ⟨_, reid_heap ha, rfl⟩)
  have r2 : Rep (Df.reid s) ⟨m.var, b, false⟩ (den δ ⟨m.var, b, false⟩) :=
    l'.rep w.reid (Or.inr ⟨_, reid_heap hb, rfl⟩)
  have e : den δ ⟨n.var, a, false⟩ = den δ ⟨m.var, b, false⟩ := by
    funext ρ; simp [den, h]
  rw [e] at r1
  exact congrArg Edge.addr (canonical w.reid r1 r2)

theorem PWF.exists_lab {s : Store} (w : PWF s) : ∃ δ, Lab s δ := by
  obtain ⟨δ, h⟩ := w.reid.exists_lab
  exact ⟨δ, lab_reid.1 h⟩

/-! ## Sweeping a table -/

theorem freeNode_reid {s : Store} {k i a n}
    (hp : ∀ b m, s.heap b = some m → m.thn.addr ≠ a ∧ m.els.addr ≠ a) :
    reid (s.freeNode k i a n) = (reid s).freeNode k i a (reidN s n) := by
  have hh : (s.freeNode k i a n).heap = upd s.heap a none := rfl
  have : (reid (s.freeNode k i a n)).heap = ((reid s).freeNode k i a (reidN s n)).heap := by
    show _ = upd (reid s).heap a none
    funext b
    by_cases hb : b = a
    · subst hb; rw [upd_same]; exact reid_none.2 (by rw [hh, upd_same])
    · rw [upd_ne _ _ hb]
      cases hm : s.heap b with
      | none => rw [reid_none.2 hm]; exact reid_none.2 (by rw [hh, upd_ne _ _ hb, hm])
      | some m =>
        rw [reid_heap hm, reid_heap (n := m) (by rw [hh, upd_ne _ _ hb, hm])]
        have e : ∀ e : Edge, e.addr ≠ a → reidE (s.freeNode k i a n) e = reidE s e := by
          intro e he
          simp only [reidE, tagId, hh, upd_ne _ _ he]
        simp only [reidN, e _ (hp b m hm).1, e _ (hp b m hm).2]
  simp only [reid] at this ⊢
  simp only [this]
  rfl

theorem gcList_reid {ext} (k i : Nat) : ∀ (as : List Nat) (s : Store), (reid s).GCInv ext →
    (∀ a ∈ as, a ∈ s.tab i) → as.Nodup → ∀ u fr, Store.gcList k i as (reid s) = some (u, fr) →
    ∃ s', Store.gcList k i as s = some (s', fr) ∧ u = reid s' ∧ s'.heap 0 = s.heap 0 ∧
      (∀ a n, s'.heap a = some n → s.heap a = some n) := by
  intro as
  induction as with
  | nil =>
    intro s _ _ _ u fr h
    simp only [Store.gcList, Option.some.injEq, Prod.mk.injEq] at h
    obtain ⟨rfl, rfl⟩ := h
    exact ⟨s, rfl, rfl, rfl, fun _ _ h => h⟩
  | cons a as ih =>
    intro s g hin hnd u fr h
    obtain ⟨N, hN, hv⟩ := (g.wf.tab_iff i a).1 (hin a (by simp))
    obtain ⟨n, hn, rfl⟩ := reid_some hN
    have hnd' := List.nodup_cons.1 hnd
    unfold Store.gcList at h ⊢
    rw [hN] at h
    rw [hn]
    simp only at h ⊢
    by_cases h0 : s.ref a = 0
    · have h0' : (reid s).ref a = 0 := h0
      rw [if_pos h0'] at h
      rw [if_pos h0]
      obtain ⟨g1, sh1, hh, ht, hnum, hnx, href⟩ := Store.freeNode_spec (k := k) g hN hv h0
      have hp : ∀ b m, s.heap b = some m → m.thn.addr ≠ a ∧ m.els.addr ≠ a :=
        fun b m hm => by
          have := g.ref.no_arc g.wf (by rw [hN]; simp) h0 (reid_heap hm)
          exact this
      rw [← freeNode_reid hp] at h g1
      have hin' : ∀ b ∈ as, b ∈ (s.freeNode k i a n).tab i := by
        intro b hb
        show b ∈ upd s.tab i ((s.tab i).erase a) i
        rw [upd_same]
        have : b ≠ a := by rintro rfl; exact hnd'.1 hb
        exact (List.mem_erase_of_ne this).2 (hin b (by simp [hb]))
      cases hg : Store.gcList k i as (reid (s.freeNode k i a n)) with
      | none => rw [hg] at h; simp at h
      | some q =>
        obtain ⟨u1, fr1⟩ := q
        rw [hg] at h
        simp only [Option.some.injEq, Prod.mk.injEq] at h
        obtain ⟨rfl, rfl⟩ := h
        obtain ⟨s', h1, h2, h3, h4⟩ := ih _ g1 hin' hnd'.2 _ _ hg
        rw [h1]
        refine ⟨s', rfl, h2, ?_, ?_⟩
        · rw [h3]
          show upd s.heap a none 0 = _
          rw [upd_ne]
          intro hc; rw [← hc, reid_none.1 g.wf.heap0] at hn; cases hn
        · intro b m hm
          have := h4 b m hm
          have this : upd s.heap a none b = some m := this
          by_cases hb : b = a
          · subst hb; rw [upd_same] at this; cases this
          · rwa [upd_ne _ _ hb] at this
    · have h0' : ¬ (reid s).ref a = 0 := h0
      rw [if_neg h0'] at h
      rw [if_neg h0]
      exact ih s g (fun b hb => hin b (by simp [hb])) hnd'.2 u fr h

/-- `SweepVarTable`: what `Store.gcTable_spec` says, for stores without ids. -/
theorem sweep_spec {ext} {s : Store} (w : PWF s) (r : s.RefOK ext) (k : Nat) {i : Nat}
    (hi : i ≤ s.ord.numVars) :
    ∃ s' fr, s.gcTable k i = some (s', fr) ∧ PWF s' ∧ GCRess [i] (reid s) (reid s') fr ext ∧
      (∀ a n, s'.heap a = some n → s.heap a = some n) ∧
      (∀ a n, s.heap a = some n → a ∉ fr → s'.heap a = some n) := by
  have g : (reid s).GCInv ext := ⟨w.reid, refOK_reid.2 r⟩
  obtain ⟨u, fr, hu, R⟩ := Store.gcTable_spec g k hi
  unfold Store.gcTable at hu ⊢
  cases hg : Store.gcList k i ((reid s).tab i) (reid s) with
  | none => rw [hg] at hu; simp at hu
  | some q =>
    obtain ⟨u1, fr1⟩ := q
    rw [hg] at hu
    simp only [Option.some.injEq, Prod.mk.injEq] at hu
    obtain ⟨rfl, rfl⟩ := hu
    obtain ⟨s', h1, h2, h3, h4⟩ := gcList_reid k i _ s g (fun _ h => h) (w.tab_nodup i) _ _ hg
    rw [show Store.gcList k i (s.tab i) s = some (s', fr1) from h1]
    have he : ({ u1 with numNodes := u1.numNodes - fr1.length } : Store) =
        reid { s' with numNodes := s'.numNodes - fr1.length } := by rw [h2]; rfl
    rw [he] at R
    have pl : ∀ a n, s'.heap a = some n → n.thn.id = 0 ∧ n.els.id = 0 :=
      fun a n hn => w.plain a n (h4 a n hn)
    refine ⟨_, fr1, rfl, PWF.of_reid R.inv.wf pl, R, h4, ?_⟩
    intro a n hn ha
    have := R.kept a _ (reid_heap hn) ha
    obtain ⟨m, hm, _⟩ := reid_some this
    have hm' : s'.heap a = some m := hm
    have := h4 a m hm'
    rw [hn] at this; cases this
    exact hm'

end Df

end Cal
