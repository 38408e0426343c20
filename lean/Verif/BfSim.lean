import Verif.BfModel
import Verif.DfSwap

/-!
# The breadth-first exchange follows the depth-first exchange, node by node

`ab` maps the addresses of the breadth-first store to addresses of a depth-first store. The depth-first
exchange turns a node in place; the breadth-first exchange makes a new node, which is mapped to the same
address.
-/

namespace Cal

namespace Bfr

open Df (Fr)

def absE (ab : Nat → Nat) (e : Edge) : Edge := ⟨0, ab e.addr, e.neg⟩
def absN (ab : Nat → Nat) (n : Node) : Node := ⟨n.var, absE ab n.thn, absE ab n.els⟩

theorem absE_not (ab e) : absE ab (Edge.not e) = (absE ab e).not := rfl
theorem absE_phase (ab e b) : absE ab (Edge.phase e b) = (absE ab e).phase b := rfl

/-- The forwarding nodes are neither nodes of a table nor free. -/
structure FwOK (w : St) : Prop where
  fr : Fr w.st
  fw : ∀ a t, w.fwd a = some t →
    w.st.heap a = none ∧ a ≠ 0 ∧ a < w.st.next ∧ (∀ i, a ∉ w.st.free i) ∧ t.neg = false

/-! ## Allocation -/

structure NewAt (s : Store) (a : Nat) (s' : Store) : Prop where
  heap : s'.heap = s.heap
  tab : s'.tab = s.tab
  ord : s'.ord = s.ord
  num : s'.numNodes = s.numNodes
  ref : s'.ref = upd s.ref a 0
  old : s.heap a = none
  pos : a ≠ 0
  fr : Fr s'
  notfree : ∀ i, a ∉ s'.free i
  lt : a < s'.next
  next_le : s.next ≤ s'.next
  gcc : s'.gcCheck = s.gcCheck
  sub : ∀ i b, b ∈ s'.free i → b ∈ s.free i
  was : (∃ i, a ∈ s.free i) ∨ a = s.next

theorem alloc_new {s : Store} (f : Fr s) (j : Nat) : NewAt s (s.alloc j).1 (s.alloc j).2 := by
  unfold Store.alloc
  cases h0 : s.free j with
  | nil =>
    have hn : s.heap s.next = none := by
      cases h : s.heap s.next with
      | none => rfl
      | some n => have := f.heap_next _ _ h; omega
    refine ⟨rfl, rfl, rfl, rfl, rfl, hn, by have := f.next_pos; show s.next ≠ 0; omega, ?_, ?_, Nat.lt_succ_self _, Nat.le_succ _, rfl,
      fun _ _ h => h, Or.inr rfl⟩
    · refine ⟨f.heap0, Nat.succ_pos _, ?_, f.free_nodup, ?_, f.free_disj⟩
      · intro a n h; exact Nat.lt_succ_of_lt (f.heap_next a n h)
      · intro i a h
        have := f.free_ok i a h
        exact ⟨this.1, this.2.1, Nat.lt_succ_of_lt this.2.2⟩
    · intro i h
      have := (f.free_ok i _ h).2.2
      have : s.next < s.next := this
      omega
  | cons a rest =>
    have ha := f.free_ok j a (by simp [h0])
    have hnd := f.free_nodup j
    rw [h0] at hnd
    have hnd := List.nodup_cons.1 hnd
    have sub : ∀ i b, b ∈ upd s.free j rest i → b ∈ s.free i := by
      intro i b hb
      by_cases hi : i = j
      · subst hi; rw [upd_same] at hb; simp [h0, hb]
      · rwa [upd_ne _ _ hi] at hb
    refine ⟨rfl, rfl, rfl, rfl, rfl, ha.1, by show a ≠ 0; omega, ?_, ?_, ha.2.2, Nat.le_refl _, rfl, sub, Or.inl ⟨j, by simp [h0]⟩⟩
    · refine ⟨f.heap0, f.next_pos, f.heap_next, ?_, fun i b hb => f.free_ok i b (sub i b hb),
        fun i j b hi hj => f.free_disj i j b (sub i b hi) (sub j b hj)⟩
      intro i
      show (upd s.free j rest i).Nodup
      by_cases hi : i = j
      · subst hi; rw [upd_same]; exact hnd.2
      · rw [upd_ne _ _ hi]; exact f.free_nodup i
    · intro i hi
      have hi : a ∈ upd s.free j rest i := hi
      have := f.free_disj i j a (sub i a hi) (by simp [h0])
      subst this
      rw [upd_same] at hi
      exact hnd.1 hi

theorem FwOK.fresh {w : St} (F : FwOK w) {a s'} (h : NewAt w.st a s') : w.fwd a = none := by
  cases ht : w.fwd a with
  | none => rfl
  | some t =>
    obtain ⟨_, _, h3, h4, _⟩ := F.fw a t ht
    rcases h.was with ⟨i, hi⟩ | h'
    · exact absurd hi (h4 i)
    · omega

/-- After a new node has been written. -/
theorem FwOK.add {w : St} (F : FwOK w) {a : Nat} {s1 s' : Store} (h : NewAt w.st a s1) {n : Node}
    (hh : s'.heap = upd s1.heap a (some n)) (hf : s'.free = s1.free) (hn : s'.next = s1.next) {w' : St}
    (hw : w'.st = s') (hfw : w'.fwd = w.fwd) : FwOK w' := by
  have na := F.fresh h
  have g := h.fr
  refine ⟨?_, ?_⟩
  · rw [hw]
    refine ⟨by rw [hh, upd_ne _ _ (Ne.symm h.pos)]; exact g.heap0, by rw [hn]; exact g.next_pos, ?_,
      by rw [hf]; exact g.free_nodup, ?_, by rw [hf]; exact g.free_disj⟩
    · intro b m hb
      rw [hn]
      rw [hh] at hb
      by_cases hba : b = a
      · rw [hba]; exact h.lt
      · rw [upd_ne _ _ hba] at hb; exact g.heap_next b m hb
    · intro i b hb
      rw [hf] at hb
      have hba : b ≠ a := by rintro rfl; exact h.notfree i hb
      rw [hh, upd_ne _ _ hba, hn]; exact g.free_ok i b hb
  · intro b t hb
    rw [hfw] at hb
    obtain ⟨h1, h2, h3, h4, h5⟩ := F.fw b t hb
    have hba : b ≠ a := by rintro rfl; rw [na] at hb; cases hb
    refine ⟨by rw [hw, hh, upd_ne _ _ hba, h.heap]; exact h1, h2, by rw [hw, hn]; exact Nat.lt_of_lt_of_le h3 h.next_le, ?_, h5⟩
    intro i hi
    rw [hw, hf] at hi
    exact h4 i (h.sub i b hi)

/-! ## The relation -/

/-- An edge whose node is not waiting to be replaced. -/
def Ok (R : List Nat) (s : Store) (e : Edge) : Prop := s.EOK e ∧ e.addr ∉ R

/-- The breadth-first store `s` and the depth-first store `t` during an exchange: `R` has the nodes of `x`
still to be replaced; the children of the nodes of `x` and `y` are not forwarded. -/
structure Loc (x y : Nat) (R : List Nat) (s t : Store) (ab : Nat → Nat) : Prop where
  ord : t.ord = s.ord
  zero : ab 0 = 0
  s0 : s.heap 0 = none
  t0 : t.heap 0 = none
  var : ∀ a n, s.heap a = some n → ∃ n', t.heap (ab a) = some n' ∧ n'.var = n.var
  inj : ∀ a b, s.heap a ≠ none → s.heap b ≠ none → ab a = ab b → a = b
  sur : ∀ b, t.heap b ≠ none → ∃ a, s.heap a ≠ none ∧ ab a = b
  node : ∀ a n, s.heap a = some n → n.var = x ∨ n.var = y →
    Ok R s n.thn ∧ Ok R s n.els ∧ t.heap (ab a) = some (absN ab n)
  tabx : t.tab x = (s.tab x).map ab
  taby : t.tab y = (s.tab y).map ab
  tx : ∀ a, a ∈ s.tab x → a ∉ R ∧ ∃ n, s.heap a = some n ∧ n.var = x
  ty : ∀ a, a ∈ s.tab y → ∃ n, s.heap a = some n ∧ n.var = y
  ref : ∀ a, a = 0 ∨ s.heap a ≠ none → s.ref a = t.ref (ab a)
  le : ∀ a, a = 0 ∨ s.heap a ≠ none → s.ref a ≤ maxRef
  rem : ∀ f, f ∈ R → ∃ n, s.heap f = some n ∧ n.var = x
  nodup : R.Nodup
  ndy : (s.tab y).Nodup
  nky : ∀ a n, s.heap a = some n → n.var = y → n.thn.id ≠ y ∧ n.els.id ≠ y

section
variable {x y : Nat} {R : List Nat} {s t : Store} {ab : Nat → Nat}

theorem eok_live {e : Edge} (h : s.EOK e) : e.addr = 0 ∨ s.heap e.addr ≠ none := by
  rcases h with ⟨_, h⟩ | ⟨n, h, _⟩
  · exact Or.inl h
  · exact Or.inr (by simp [h])

theorem Loc.abs0 (L : Loc x y R s t ab) {a} (h : s.heap a ≠ none) : ab a ≠ 0 := by
  intro h0
  cases hn : s.heap a with
  | none => exact h hn
  | some n =>
    obtain ⟨n', h1, _⟩ := L.var a n hn
    rw [h0, L.t0] at h1; cases h1

theorem Loc.inj' (L : Loc x y R s t ab) {a b} (ha : a = 0 ∨ s.heap a ≠ none) (hb : b = 0 ∨ s.heap b ≠ none)
    (h : ab a = ab b) : a = b := by
  rcases ha with rfl | ha <;> rcases hb with rfl | hb
  · rfl
  · rw [L.zero] at h; exact absurd h.symm (L.abs0 hb)
  · rw [L.zero] at h; exact absurd h (L.abs0 ha)
  · exact L.inj a b ha hb h

/-- `ab` is injective on edges that lead somewhere. -/
theorem Loc.edge_inj (L : Loc x y R s t ab) {e f : Edge} (he : s.EOK e) (hf : s.EOK f) (h : absE ab e = absE ab f) :
    e = f := by
  have h1 : ab e.addr = ab f.addr := congrArg Edge.addr h
  have h2 : e.neg = f.neg := by have := congrArg Edge.neg h; exact this
  have ha := L.inj' (eok_live he) (eok_live hf) h1
  refine Edge.ext' ?_ ha h2
  rcases he with ⟨i1, a1⟩ | ⟨n, hn, hv⟩ <;> rcases hf with ⟨i2, a2⟩ | ⟨m, hm, hw⟩
  · rw [i1, i2]
  · rw [← ha, a1, L.s0] at hm; cases hm
  · rw [ha, a2, L.s0] at hn; cases hn
  · rw [ha, hm] at hn; cases hn; rw [← hv, ← hw]

theorem Loc.edge_iff (L : Loc x y R s t ab) {e f : Edge} (he : s.EOK e) (hf : s.EOK f) :
    absE ab e = absE ab f ↔ e = f := ⟨L.edge_inj he hf, fun h => by rw [h]⟩

theorem Loc.pvar (L : Loc x y R s t ab) {e : Edge} (he : s.EOK e) : Df.pvar t (absE ab e) = some e.id := by
  unfold Df.pvar
  rcases he with ⟨h1, h2⟩ | ⟨n, hn, hv⟩
  · simp [absE, h2, L.zero, h1]
  · obtain ⟨n', h1, h2⟩ := L.var _ _ hn
    have : ab e.addr ≠ 0 := L.abs0 (by simp [hn])
    simp only [absE, this, if_false, h1, Option.map_some, h2, hv]

/-! ## Counts -/

theorem Loc.setRef (L : Loc x y R s t ab) {b c : Nat} (hb : b = 0 ∨ s.heap b ≠ none) (hc : c ≤ maxRef) :
    Loc x y R { s with ref := upd s.ref b c } { t with ref := upd t.ref (ab b) c } ab := by
  refine ⟨L.ord, L.zero, L.s0, L.t0, L.var, L.inj, L.sur, L.node, L.tabx, L.taby, L.tx, L.ty, ?_, ?_, L.rem, L.nodup, L.ndy, L.nky⟩
  · intro a ha
    show upd s.ref b c a = upd t.ref (ab b) c (ab a)
    by_cases h : a = b
    · subst h; rw [upd_same, upd_same]
    · rw [upd_ne _ _ h, upd_ne _ _ (fun h' => h (L.inj' ha hb h'))]; exact L.ref a ha
  · intro a ha
    show upd s.ref b c a ≤ _
    by_cases h : a = b
    · subst h; rw [upd_same]; exact hc
    · rw [upd_ne _ _ h]; exact L.le a ha

theorem Loc.icr (L : Loc x y R s t ab) {e : Edge} (he : s.EOK e) : Loc x y R (s.icr e) (t.icr (absE ab e)) ab := by
  have hr := L.ref _ (eok_live he)
  have := L.setRef (b := e.addr) (c := if s.ref e.addr < maxRef then s.ref e.addr + 1 else maxRef) (eok_live he)
    (by split <;> omega)
  unfold Store.icr
  show Loc x y R _ { t with ref := upd t.ref (ab e.addr) (if t.ref (ab e.addr) < maxRef then t.ref (ab e.addr) + 1 else maxRef) } ab
  rw [← hr]; exact this

theorem Loc.dcr (L : Loc x y R s t ab) {e : Edge} (he : s.EOK e) : Loc x y R (s.dcr e) (t.dcr (absE ab e)) ab := by
  have hr := L.ref _ (eok_live he)
  have hl := L.le _ (eok_live he)
  have := L.setRef (b := e.addr) (c := if s.ref e.addr = maxRef then maxRef else s.ref e.addr - 1) (eok_live he)
    (by split <;> omega)
  unfold Store.dcr
  show Loc x y R _ { t with ref := upd t.ref (ab e.addr) (if t.ref (ab e.addr) = maxRef then maxRef else t.ref (ab e.addr) - 1) } ab
  rw [← hr]; exact this

theorem icr_comm (s : Store) (e f : Edge) : (s.icr e).icr f = (s.icr f).icr e := by
  unfold Store.icr
  by_cases h : e.addr = f.addr
  · rw [h]
  · have h' : f.addr ≠ e.addr := fun g => h g.symm
    simp only [upd_ne _ _ h, upd_ne _ _ h']
    congr 1
    funext a
    unfold upd
    split <;> split <;> simp_all

/-! ## Lookup -/

theorem find_map {α β : Type} (p : α → Bool) (q : β → Bool) (f : α → β) : ∀ (l : List α),
    (∀ a ∈ l, q (f a) = p a) → (l.map f).find? q = (l.find? p).map f
  | [], _ => rfl
  | a :: l, h => by
    have h1 := h a (by simp)
    have h2 := find_map p q f l (fun b hb => h b (by simp [hb]))
    simp only [List.map_cons, List.find?_cons, h1]
    cases p a <;> simp [h2]

theorem Loc.lookup (L : Loc x y R s t ab) {f g : Edge} (hf : s.EOK f) (hg : s.EOK g) :
    t.lookup x (absE ab f) (absE ab g) = (s.lookup x f g).map ab := by
  unfold Store.lookup
  rw [L.tabx]
  apply find_map
  intro a ha
  obtain ⟨_, n, hn, hv⟩ := L.tx a ha
  obtain ⟨o1, o2, h⟩ := L.node a n hn (Or.inl hv)
  simp only [h, hn, absN]
  rw [decide_eq_decide, L.edge_iff o1.1 hf, L.edge_iff o2.1 hg]

/-! ## A new node -/

theorem eok_add {a : Nat} {n : Node} {s' : Store} (ha : s.heap a = none) (hs : s'.heap = upd s.heap a (some n)) {e : Edge}
    (he : s.EOK e) : s'.EOK e := by
  rcases he with h | ⟨m, hm, hv⟩
  · exact Or.inl h
  · refine Or.inr ⟨m, ?_, hv⟩
    rw [hs, upd_ne _ _ (by rintro h; rw [h, ha] at hm; cases hm)]; exact hm

theorem abs_upd {a b : Nat} (ha : s.heap a = none) (a0 : a ≠ 0) {e : Edge} (he : s.EOK e) :
    absE (upd ab a b) e = absE ab e := by
  have : e.addr ≠ a := by
    rcases eok_live he with h | h
    · rw [h]; exact Ne.symm a0
    · rintro h'; exact h (h' ▸ ha)
  simp [absE, upd_ne _ _ this]

theorem Loc.add (L : Loc x y R s t ab) {a b : Nat} {f g : Edge} {s' t' : Store} (hxy : x ≠ y)
    (ha : s.heap a = none) (a0 : a ≠ 0) (hb : t.heap b = none) (b0 : b ≠ 0) (hf : Ok R s f) (hg : Ok R s g)
    (so : s'.ord = s.ord) (to : t'.ord = t.ord)
    (sh : s'.heap = upd s.heap a (some ⟨x, f, g⟩)) (th : t'.heap = upd t.heap b (some ⟨x, absE ab f, absE ab g⟩))
    (st : s'.tab = upd s.tab x (a :: s.tab x)) (tt : t'.tab = upd t.tab x (b :: t.tab x))
    (sr : s'.ref = upd s.ref a 0) (tr : t'.ref = upd t.ref b 0) : Loc x y R s' t' (upd ab a b) := by
  have live : ∀ c, s.heap c ≠ none → c ≠ a := fun c h h' => h (h' ▸ ha)
  have aR : a ∉ R := by
    intro h; obtain ⟨n, hn, _⟩ := L.rem a h; rw [ha] at hn; cases hn
  have nb : ∀ c, s.heap c ≠ none → ab c ≠ b := by
    intro c hc h
    cases hn : s.heap c with
    | none => exact hc hn
    | some n =>
      obtain ⟨n', h1, _⟩ := L.var c n hn
      rw [h, hb] at h1; cases h1
  have eokk : ∀ e, s.EOK e → s'.EOK e := fun e he => eok_add ha sh he
  refine ⟨by rw [so, to, L.ord], by rw [upd_ne _ _ (Ne.symm a0)]; exact L.zero,
    by rw [sh, upd_ne _ _ (Ne.symm a0)]; exact L.s0, by rw [th, upd_ne _ _ (Ne.symm b0)]; exact L.t0, ?_, ?_, ?_, ?_, ?_, ?_, ?_, ?_,
    ?_, ?_, ?_, L.nodup, by rw [st, upd_ne _ _ (Ne.symm hxy)]; exact L.ndy, ?_⟩
  · intro c n hc
    rw [sh] at hc
    rw [th]
    by_cases h : c = a
    · subst h
      rw [upd_same] at hc; cases hc
      exact ⟨⟨x, absE ab f, absE ab g⟩, by rw [upd_same, upd_same], rfl⟩
    · rw [upd_ne _ _ h] at hc
      rw [upd_ne _ _ h, upd_ne _ _ (nb c (by simp [hc]))]
      exact L.var c n hc
  · intro c c' hc hc' h
    rw [sh] at hc hc'
    by_cases h1 : c = a <;> by_cases h2 : c' = a
    · rw [h1, h2]
    · subst h1
      rw [upd_same, upd_ne _ _ h2] at h
      rw [upd_ne _ _ h2] at hc'
      exact absurd h.symm (nb c' hc')
    · subst h2
      rw [upd_same, upd_ne _ _ h1] at h
      rw [upd_ne _ _ h1] at hc
      exact absurd h (nb c hc)
    · rw [upd_ne _ _ h1, upd_ne _ _ h2] at h
      rw [upd_ne _ _ h1] at hc
      rw [upd_ne _ _ h2] at hc'
      exact L.inj c c' hc hc' h
  · intro c hc
    rw [th] at hc
    by_cases h : c = b
    · exact ⟨a, by rw [sh, upd_same]; simp, by rw [upd_same, h]⟩
    · rw [upd_ne _ _ h] at hc
      obtain ⟨c', h1, h2⟩ := L.sur c hc
      exact ⟨c', by rw [sh, upd_ne _ _ (live c' h1)]; exact h1, by rw [upd_ne _ _ (live c' h1)]; exact h2⟩
  · intro c n hc hv
    rw [sh] at hc
    by_cases h : c = a
    · subst h
      rw [upd_same] at hc; cases hc
      refine ⟨⟨eokk _ hf.1, hf.2⟩, ⟨eokk _ hg.1, hg.2⟩, ?_⟩
      rw [th, upd_same, upd_same]
      simp only [absN, abs_upd ha a0 hf.1, abs_upd ha a0 hg.1]
    · rw [upd_ne _ _ h] at hc
      obtain ⟨o1, o2, o3⟩ := L.node c n hc hv
      refine ⟨⟨eokk _ o1.1, o1.2⟩, ⟨eokk _ o2.1, o2.2⟩, ?_⟩
      rw [th, upd_ne _ _ h, upd_ne _ _ (nb c (by simp [hc])), o3]
      simp only [absN, abs_upd ha a0 o1.1, abs_upd ha a0 o2.1]
  · rw [tt, st, upd_same, upd_same, List.map_cons, upd_same, L.tabx]
    congr 1
    apply List.map_congr_left
    intro c hc
    obtain ⟨_, n, hn, _⟩ := L.tx c hc
    rw [upd_ne _ _ (live c (by simp [hn]))]
  · rw [tt, st, upd_ne _ _ (Ne.symm hxy), upd_ne _ _ (Ne.symm hxy), L.taby]
    apply List.map_congr_left
    intro c hc
    obtain ⟨n, hn, _⟩ := L.ty c hc
    rw [upd_ne _ _ (live c (by simp [hn]))]
  · intro c hc
    rw [st, upd_same, List.mem_cons] at hc
    rcases hc with rfl | hc
    · exact ⟨aR, _, by rw [sh, upd_same], rfl⟩
    · obtain ⟨h1, n, hn, hv⟩ := L.tx c hc
      exact ⟨h1, n, by rw [sh, upd_ne _ _ (live c (by simp [hn]))]; exact hn, hv⟩
  · intro c hc
    rw [st, upd_ne _ _ (Ne.symm hxy)] at hc
    obtain ⟨n, hn, hv⟩ := L.ty c hc
    exact ⟨n, by rw [sh, upd_ne _ _ (live c (by simp [hn]))]; exact hn, hv⟩
  · intro c hc
    rw [sr, tr]
    by_cases h : c = a
    · subst h; rw [upd_same, upd_same, upd_same]
    · rw [sh, upd_ne _ _ h] at hc
      rw [upd_ne _ _ h, upd_ne _ _ h]
      have : ab c ≠ b := by
        rcases hc with rfl | hc
        · rw [L.zero]; exact Ne.symm b0
        · exact nb c hc
      rw [upd_ne _ _ this]
      exact L.ref c hc
  · intro c hc
    rw [sr]
    by_cases h : c = a
    · subst h; rw [upd_same]; exact Nat.zero_le _
    · rw [sh, upd_ne _ _ h] at hc
      rw [upd_ne _ _ h]; exact L.le c hc
  · intro c hc
    obtain ⟨n, hn, hv⟩ := L.rem c hc
    exact ⟨n, by rw [sh, upd_ne _ _ (live c (by simp [hn]))]; exact hn, hv⟩
  · intro c n hc hv
    rw [sh] at hc
    by_cases h : c = a
    · subst h; rw [upd_same] at hc; cases hc; exact absurd hv hxy
    · rw [upd_ne _ _ h] at hc; exact L.nky c n hc hv

end

/-! ## Making a child -/

/-- What making a child changes. -/
structure Grow (x : Nat) (w : St) (d : Df.St) (ab : Nat → Nat) (w' : St) (d' : Df.St) (ab' : Nat → Nat) : Prop where
  old : ∀ a n, w.st.heap a = some n → w'.st.heap a = some n
  new : ∀ a n, w'.st.heap a = some n → w.st.heap a = none → n.var = x ∧ w.fwd a = none
  ab : ∀ a, w.st.heap a ≠ none → ab' a = ab a
  rest : w' = { w with st := w'.st }
  tab : ∀ j, j ≠ x → w'.st.tab j = w.st.tab j
  oldD : ∀ a n, d.st.heap a = some n → d'.st.heap a = some n
  newD : ∀ a n, d'.st.heap a = some n → d.st.heap a = none → n.var = x
  tabD : ∀ j, j ≠ x → d'.st.tab j = d.st.tab j
  num : w'.st.numNodes + d.st.numNodes = d'.st.numNodes + w.st.numNodes
  gcc : w'.st.gcCheck = w.st.gcCheck
  gccD : d'.st.gcCheck = d.st.gcCheck
  ord : w'.st.ord = w.st.ord

theorem Grow.refl (x w d ab) : Grow x w d ab w d ab :=
  ⟨fun _ _ h => h, fun a n h h' => (by rw [h'] at h; cases h), fun _ _ => rfl, rfl, fun _ _ => rfl, fun _ _ h => h,
    fun a n h h' => (by rw [h'] at h; cases h), fun _ _ => rfl, by omega, rfl, rfl, rfl⟩

theorem Grow.trans {x w d ab w' d' ab' w'' d'' ab''} (g : Grow x w d ab w' d' ab') (h : Grow x w' d' ab' w'' d'' ab'') :
    Grow x w d ab w'' d'' ab'' := by
  refine ⟨fun a n e => h.old a n (g.old a n e), ?_, ?_, ?_, fun j hj => (h.tab j hj).trans (g.tab j hj),
    fun a n e => h.oldD a n (g.oldD a n e), ?_, fun j hj => (h.tabD j hj).trans (g.tabD j hj), ?_, h.gcc.trans g.gcc,
    h.gccD.trans g.gccD, h.ord.trans g.ord⟩
  · intro a n h1 h2
    cases h3 : w'.st.heap a with
    | some m =>
      have := h.old a m h3
      rw [h1] at this; cases this
      exact g.new a n h3 h2
    | none =>
      obtain ⟨h4, h5⟩ := h.new a n h1 h3
      rw [g.rest] at h5
      exact ⟨h4, h5⟩
  · intro a ha
    cases h3 : w.st.heap a with
    | none => exact absurd h3 ha
    | some m => rw [h.ab a (by simp [g.old a m h3]), g.ab a ha]
  · have := h.rest; rw [g.rest] at this; rw [this]
  · intro a n h1 h2
    cases h3 : d'.st.heap a with
    | some m =>
      have := h.oldD a m h3
      rw [h1] at this; cases this
      exact g.newD a n h3 h2
    | none => exact h.newD a n h1 h3
  · have h1 := g.num; have h2 := h.num; omega

theorem Grow.eok {x w d ab w' d' ab'} (g : Grow x w d ab w' d' ab') {e : Edge} (h : w.st.EOK e) : w'.st.EOK e := by
  rcases h with h | ⟨n, hn, hv⟩
  · exact Or.inl h
  · exact Or.inr ⟨n, g.old _ _ hn, hv⟩

theorem Grow.ok {x w d ab w' d' ab'} {R : List Nat} (g : Grow x w d ab w' d' ab') {e : Edge} (h : Ok R w.st e) : Ok R w'.st e :=
  ⟨g.eok h.1, h.2⟩

theorem Grow.absE {x w d ab w' d' ab'} (g : Grow x w d ab w' d' ab') (z : ab 0 = 0) (z' : ab' 0 = 0) {e : Edge} (h : w.st.EOK e) :
    absE ab' e = absE ab e := by
  rcases eok_live h with h | h
  · simp [Bfr.absE, h, z, z']
  · simp [Bfr.absE, g.ab _ h]

/-- Everything about the two programs making the same child. -/
structure ChildSim (x y : Nat) (R : List Nat) (w : St) (d : Df.St) (ab : Nat → Nat) (p : St × Edge × Bool)
    (q : Df.St × Edge × Bool) (ab' : Nat → Nat) : Prop where
  loc : Loc x y R p.1.st q.1.st ab'
  fw : FwOK p.1
  frd : Fr q.1.st
  res : q.2.1 = absE ab' p.2.1
  found : q.2.2 = p.2.2
  ok : Ok R p.1.st p.2.1
  grow : Grow x w d ab p.1 q.1 ab'
  only : ∀ a, p.1.st.heap a ≠ none → w.st.heap a = none → a = p.2.1.addr
  idy : p.2.1.id ≠ y

section
variable {x y : Nat} {R : List Nat} {w : St} {d : Df.St} {ab : Nat → Nat}

theorem upd_none_id {f : Nat → Option Edge} {a} (h : f a = none) : upd f a none = f := by
  funext b; unfold upd; split
  · rename_i hb; rw [hb, h]
  · rfl

/-- `CalHashTableFindOrAdd` in both packages -/
theorem hfa_sim (L : Loc x y R w.st d.st ab) (hxy : x ≠ y) (F : FwOK w) (Fd : Fr d.st) {t e : Edge} (ht : Ok R w.st t)
    (he : Ok R w.st e) : ∃ ab', ChildSim x y R w d ab
      (let r := w.st.hashFindOrAdd x t e
       ({ w with st := r.1, fwd := if r.2.2 then w.fwd else upd w.fwd r.2.1.addr none }, r.2.1, r.2.2))
      (Df.hashFindOrAdd d x (absE ab t) (absE ab e)) ab' ∧
      (w.st.hashFindOrAdd x t e).1.numNodes = w.st.numNodes ∧
      (Df.hashFindOrAdd d x (absE ab t) (absE ab e)).1.st.numNodes = d.st.numNodes := by
  unfold Store.hashFindOrAdd Df.hashFindOrAdd
  rw [L.lookup ht.1 he.1]
  cases hl : w.st.lookup x t e with
  | some a =>
    simp only [Option.map_some]
    obtain ⟨hm, n, hn, _⟩ := Df.lookup_mem hl
    obtain ⟨hR, n', hn', hv⟩ := L.tx a hm
    exact ⟨ab, ⟨L, F, Fd, rfl, rfl, ⟨Or.inr ⟨n', hn', hv⟩, hR⟩, Grow.refl _ _ _ _, fun a h h' => absurd h' h, hxy⟩, by trivial, by trivial⟩
  | none =>
    simp only [Option.map_none]
    have A := alloc_new F.fr x
    have B := Df.alloc_spec Fd
    generalize w.st.alloc x = p at A
    generalize Df.alloc d = q at B
    obtain ⟨a, s1⟩ := p
    obtain ⟨b, d1⟩ := q
    simp only at A B ⊢
    have aR : a ∉ R := by
      intro h; obtain ⟨n, hn, _⟩ := L.rem a h; rw [A.old] at hn; cases hn
    have na := F.fresh A
    have hu : upd w.fwd a none = w.fwd := upd_none_id na
    have sh : (s1.insertAt x a t e).heap = upd w.st.heap a (some ⟨x, t, e⟩) := by
      show upd s1.heap _ _ = _; rw [A.heap]
    have th : (d1.st.insertAt x b (absE ab t) (absE ab e)).heap = upd d.st.heap b (some ⟨x, absE ab t, absE ab e⟩) := by
      show upd d1.st.heap _ _ = _; rw [B.heap]
    have stb : (s1.insertAt x a t e).tab = upd w.st.tab x (a :: w.st.tab x) := by
      show upd s1.tab _ _ = _; rw [A.tab]
    have ttb : (d1.st.insertAt x b (absE ab t) (absE ab e)).tab = upd d.st.tab x (b :: d.st.tab x) := by
      show upd d1.st.tab _ _ = _; rw [B.tab]
    have only : ∀ c, (s1.insertAt x a t e).heap c ≠ none → w.st.heap c = none → c = a := by
      intro c hc h0
      rw [sh] at hc
      by_cases h : c = a
      · exact h
      · rw [upd_ne _ _ h] at hc; exact absurd h0 hc
    refine ⟨upd ab a b, ⟨?_, ?_, ?_, ?_, rfl, ?_, ?_, only, hxy⟩, A.num, B.num⟩
    · exact L.add hxy A.old A.pos B.old B.pos ht he A.ord B.ord sh th stb ttb A.ref B.ref
    · exact F.add (w' := { w with st := s1.insertAt x a t e, fwd := upd w.fwd a none }) A (n := ⟨x, t, e⟩)
        (s' := s1.insertAt x a t e) rfl rfl rfl rfl hu
    · refine ⟨?_, B.fr.next_pos, ?_, B.fr.free_nodup, ?_, B.fr.free_disj⟩
      · show upd d1.st.heap b _ 0 = none
        rw [upd_ne _ _ (Ne.symm B.pos)]; exact B.fr.heap0
      · intro c n hc
        have hc : upd d1.st.heap b _ c = some n := hc
        by_cases h : c = b
        · rw [h]; exact B.lt
        · rw [upd_ne _ _ h] at hc; exact B.fr.heap_next c n hc
      · intro i c hc
        have hc : c ∈ d1.st.free i := hc
        have hcb : c ≠ b := by rintro rfl; exact B.notfree i hc
        refine ⟨?_, (B.fr.free_ok i c hc).2⟩
        show upd d1.st.heap b _ c = none
        rw [upd_ne _ _ hcb]; exact (B.fr.free_ok i c hc).1
    · show (⟨0, b, false⟩ : Edge) = ⟨0, upd ab a b a, false⟩
      rw [upd_same]
    · exact ⟨Or.inr ⟨_, by rw [sh]; exact upd_same _ _ _, rfl⟩, aR⟩
    · refine ⟨?_, ?_, ?_, ?_, ?_, ?_, ?_, ?_, ?_, A.gcc, B.gcc, A.ord⟩
      · intro c n hc
        show (s1.insertAt x a t e).heap c = _
        rw [sh, upd_ne _ _ (by rintro rfl; rw [A.old] at hc; cases hc)]; exact hc
      · intro c n hc h0
        have hc : (s1.insertAt x a t e).heap c = _ := hc
        rw [sh] at hc
        by_cases h : c = a
        · subst h; rw [upd_same] at hc; cases hc; exact ⟨rfl, na⟩
        · rw [upd_ne _ _ h, h0] at hc; cases hc
      · intro c hc
        exact upd_ne _ _ (by rintro rfl; exact hc A.old)
      · show ({ w with st := _, fwd := upd w.fwd a none } : St) = _
        rw [hu]
      · intro j hj
        show (s1.insertAt x a t e).tab j = _
        rw [stb, upd_ne _ _ hj]
      · intro c n hc
        show (d1.st.insertAt x b _ _).heap c = _
        rw [th, upd_ne _ _ (by rintro rfl; rw [B.old] at hc; cases hc)]; exact hc
      · intro c n hc h0
        have hc : (d1.st.insertAt x b _ _).heap c = _ := hc
        rw [th] at hc
        by_cases h : c = b
        · subst h; rw [upd_same] at hc; cases hc; rfl
        · rw [upd_ne _ _ h, h0] at hc; cases hc
      · intro j hj
        show (d1.st.insertAt x b _ _).tab j = _
        rw [ttb, upd_ne _ _ hj]
      · show s1.numNodes + d.st.numNodes = d1.st.numNodes + w.st.numNodes
        rw [A.num, B.num]; omega

theorem eok_not {s : Store} {e : Edge} (h : s.EOK e) : s.EOK e.not := h

theorem Loc.num (L : Loc x y R w.st d.st ab) (k j : Nat) :
    Loc x y R { w.st with numNodes := k } { d.st with numNodes := j } ab :=
  ⟨L.ord, L.zero, L.s0, L.t0, L.var, L.inj, L.sur, L.node, L.tabx, L.taby, L.tx, L.ty, L.ref, L.le, L.rem, L.nodup, L.ndy, L.nky⟩

theorem fr_num {s : Store} (f : Fr s) (k : Nat) : Fr { s with numNodes := k } :=
  ⟨f.heap0, f.next_pos, f.heap_next, f.free_nodup, f.free_ok, f.free_disj⟩

theorem foa_sim (L : Loc x y R w.st d.st ab) (hxy : x ≠ y) (F : FwOK w) (Fd : Fr d.st) {t e : Edge} (ht : Ok R w.st t)
    (he : Ok R w.st e) (hty : t.id ≠ y) : ∃ ab', ChildSim x y R w d ab (findOrAdd w x t e) (Df.findOrAdd d x (absE ab t) (absE ab e)) ab' := by
  unfold findOrAdd Store.findOrAdd Df.findOrAdd
  by_cases hte : t = e
  · subst hte
    simp only [if_true]
    exact ⟨ab, ⟨L, F, Fd, rfl, rfl, ht, Grow.refl _ _ _ _, fun a h h' => absurd h' h, hty⟩⟩
  · rw [if_neg hte, if_neg (fun h => hte (L.edge_inj ht.1 he.1 h))]
    have fin : ∀ {t' e' : Edge} (neg : Bool), Ok R w.st t' → Ok R w.st e' →
        ∃ ab', ChildSim x y R w d ab
          (let r0 := w.st.hashFindOrAdd x t' e'
           let r1 : Store × Edge × Bool := (r0.1, r0.2.1.phase neg, r0.2.2)
           let r := if r1.2.2 then r1 else ({ r1.1 with numNodes := r1.1.numNodes + 1 }, r1.2.1, r1.2.2)
           ({ w with st := r.1, fwd := if r.2.2 then w.fwd else upd w.fwd r.2.1.addr none }, r.2.1, r.2.2))
          (let r0 := Df.hashFindOrAdd d x (absE ab t') (absE ab e')
           let r1 : Df.St × Edge × Bool := (r0.1, r0.2.1.phase neg, r0.2.2)
           if r1.2.2 then r1 else ({ r1.1 with st := { r1.1.st with numNodes := r1.1.st.numNodes + 1 } }, r1.2.1, r1.2.2)) ab' := by
      intro t' e' neg ht' he'
      obtain ⟨ab', C, n1, n2⟩ := hfa_sim L hxy F Fd ht' he'
      generalize w.st.hashFindOrAdd x t' e' = r0 at C n1
      generalize Df.hashFindOrAdd d x (absE ab t') (absE ab e') = q0 at C n2
      obtain ⟨s1, r, fnd⟩ := r0
      obtain ⟨d1, r', fnd'⟩ := q0
      have hfnd : fnd' = fnd := C.found
      subst hfnd
      have hr : r' = absE ab' r := C.res
      subst hr
      cases fnd' with
      | true =>
        simp only [if_true] at C ⊢
        exact ⟨ab', C.loc, C.fw, C.frd, absE_phase _ _ _ |>.symm, rfl, C.ok, C.grow, C.only, C.idy⟩
      | false =>
        simp only [Bool.false_eq_true, if_false] at C ⊢ n1 n2
        refine ⟨ab', ?_, ⟨fr_num C.fw.fr _, C.fw.fw⟩, fr_num C.frd _, absE_phase _ _ _ |>.symm, rfl, C.ok, ?_, C.only, C.idy⟩
        · exact C.loc.num _ _
        · refine ⟨C.grow.old, C.grow.new, C.grow.ab, ?_, C.grow.tab, C.grow.oldD, C.grow.newD, C.grow.tabD, ?_, C.grow.gcc, C.grow.gccD, C.grow.ord⟩
          · have := congrArg St.fwd C.grow.rest
            have hf : upd w.fwd r.addr none = w.fwd := this
            show ({ w with st := _, fwd := upd w.fwd (r.phase neg).addr none } : St) = _
            rw [show (r.phase neg).addr = r.addr from rfl, hf]
          · show s1.numNodes + 1 + d.st.numNodes = d1.st.numNodes + 1 + w.st.numNodes
            rw [n1, n2]; omega
    have ph0 : ∀ e : Edge, e.phase false = e := fun e => by cases e; simp [Edge.phase]
    have ph1 : ∀ e : Edge, e.phase true = e.not := fun e => by cases e; simp [Edge.phase, Edge.not]
    cases hneg : t.neg with
    | false =>
      have hneg' : (absE ab t).neg = false := hneg
      obtain ⟨ab', C⟩ := fin false ht he
      refine ⟨ab', ?_⟩
      simp only [hneg', if_true]
      simp only [ph0] at C
      exact C
    | true =>
      have hneg' : ¬ (absE ab t).neg = false := by show ¬ t.neg = false; rw [hneg]; simp
      obtain ⟨ab', C⟩ := fin (t' := t.not) (e' := e.not) true ht he
      refine ⟨ab', ?_⟩
      rw [if_neg hneg']
      simp only [Bool.true_eq_false, if_false]
      simp only [ph1] at C
      exact C

theorem FwOK.refs {w : St} (F : FwOK w) (r : Nat → Nat) : FwOK { w with st := { w.st with ref := r } } :=
  ⟨⟨F.fr.heap0, F.fr.next_pos, F.fr.heap_next, F.fr.free_nodup, F.fr.free_ok, F.fr.free_disj⟩, F.fw⟩

theorem fr_refs {s : Store} (f : Fr s) (r : Nat → Nat) : Fr { s with ref := r } :=
  ⟨f.heap0, f.next_pos, f.heap_next, f.free_nodup, f.free_ok, f.free_disj⟩

theorem newChild_sim (L : Loc x y R w.st d.st ab) (hxy : x ≠ y) (F : FwOK w) (Fd : Fr d.st) {t e : Edge} (ht : Ok R w.st t)
    (he : Ok R w.st e) (hty : t.id ≠ y) : ∃ ab', ChildSim x y R w d ab (newChild w x t e) (Df.newChild d x (absE ab t) (absE ab e)) ab' := by
  have fin : ∀ {p : St × Edge × Bool} {q : Df.St × Edge × Bool} {ab'}, ChildSim x y R w d ab p q ab' →
      ChildSim x y R w d ab ({ p.1 with st := p.1.st.icr p.2.1 }, p.2.1, p.2.2)
        ({ q.1 with st := q.1.st.icr q.2.1 }, q.2.1, q.2.2) ab' := by
    rintro ⟨w1, r, fnd⟩ ⟨d1, r', fnd'⟩ ab' C
    have hr : r' = absE ab' r := C.res
    subst hr
    refine ⟨C.loc.icr C.ok.1, C.fw.refs _, fr_refs C.frd _, rfl, C.found, C.ok, ?_, C.only, C.idy⟩
    refine ⟨C.grow.old, C.grow.new, C.grow.ab, ?_, C.grow.tab, C.grow.oldD, C.grow.newD, C.grow.tabD, C.grow.num, C.grow.gcc, C.grow.gccD, C.grow.ord⟩
    have h1 : w1 = { w with st := w1.st } := C.grow.rest
    show ({ w1 with st := w1.st.icr r } : St) = _
    rw [h1]
  unfold newChild Df.newChild
  by_cases hte : t = e
  · subst hte
    simp only [if_true]
    exact ⟨ab, fin (p := (w, t, true)) (q := (d, absE ab t, true)) ⟨L, F, Fd, rfl, rfl, ht, Grow.refl _ _ _ _, fun a h h' => absurd h' h, hty⟩⟩
  · rw [if_neg hte, if_neg (fun h => hte (L.edge_inj he.1 ht.1 h).symm)]
    obtain ⟨ab', C⟩ := foa_sim L hxy F Fd ht he hty
    exact ⟨ab', fin C⟩

end

/-! ## One node -/

section
variable {x y : Nat} {R : List Nat} {s t : Store} {ab : Nat → Nat}

/-- The node `f` of `x` is replaced by the new node `g` of `y`. -/
theorem Loc.convert {f : Nat} (L : Loc x y (f :: R) s t ab) {g : Nat} {k1 k0 : Edge} {s' t' : Store} (hxy : x ≠ y)
    (hg : s.heap g = none) (g0 : g ≠ 0) (h1 : Ok (f :: R) s k1) (h0 : Ok (f :: R) s k0) (y1 : k1.id ≠ y) (y0 : k0.id ≠ y)
    (so : s'.ord = s.ord) (to : t'.ord = t.ord)
    (sh : s'.heap = upd (upd s.heap g (some ⟨y, k1, k0⟩)) f none)
    (th : t'.heap = upd t.heap (ab f) (some ⟨y, absE ab k1, absE ab k0⟩))
    (st : s'.tab = upd s.tab y (g :: s.tab y)) (tt : t'.tab = upd t.tab y (ab f :: t.tab y))
    (sr : s'.ref = upd s.ref g (s.ref f)) (tr : t'.ref = t.ref) : Loc x y R s' t' (upd ab g (ab f)) := by
  obtain ⟨nf, hnf, hvf⟩ := L.rem f (by simp)
  have fg : f ≠ g := by rintro rfl; rw [hg] at hnf; cases hnf
  have f0 : f ≠ 0 := by rintro rfl; rw [L.s0] at hnf; cases hnf
  have live : ∀ c, s.heap c ≠ none → c ≠ g := fun c h h' => h (h' ▸ hg)
  have nab : ∀ c, s.heap c ≠ none → c ≠ f → ab c ≠ ab f := fun c h h' h'' => h' (L.inj c f h (by simp [hnf]) h'')
  have hold : ∀ c n, s.heap c = some n → c ≠ f → s'.heap c = some n := by
    intro c n hc hcf
    rw [sh, upd_ne _ _ hcf, upd_ne _ _ (live c (by simp [hc]))]; exact hc
  have hinv : ∀ c n, s'.heap c = some n → (c = g ∧ n = ⟨y, k1, k0⟩) ∨ (c ≠ f ∧ c ≠ g ∧ s.heap c = some n) := by
    intro c n hc
    rw [sh] at hc
    by_cases h : c = f
    · subst h; rw [upd_same] at hc; cases hc
    · rw [upd_ne _ _ h] at hc
      by_cases h' : c = g
      · subst h'; rw [upd_same] at hc; cases hc; exact Or.inl ⟨rfl, rfl⟩
      · rw [upd_ne _ _ h'] at hc; exact Or.inr ⟨h, h', hc⟩
  have hg' : s'.heap g = some ⟨y, k1, k0⟩ := by rw [sh, upd_ne _ _ (Ne.symm fg), upd_same]
  have okk : ∀ e, Ok (f :: R) s e → Ok R s' e := by
    rintro e ⟨he, hR⟩
    have hef : e.addr ≠ f := fun h => hR (by simp [h])
    refine ⟨?_, fun h => hR (by simp [h])⟩
    rcases he with h | ⟨m, hm, hv⟩
    · exact Or.inl h
    · exact Or.inr ⟨m, hold _ _ hm hef, hv⟩
  refine ⟨by rw [so, to, L.ord], by rw [upd_ne _ _ (Ne.symm g0)]; exact L.zero,
    by rw [sh, upd_ne _ _ (Ne.symm f0), upd_ne _ _ (Ne.symm g0)]; exact L.s0,
    by rw [th, upd_ne _ _ (Ne.symm (L.abs0 (by simp [hnf])))]; exact L.t0, ?_, ?_, ?_, ?_, ?_, ?_, ?_, ?_,
    ?_, ?_, ?_, (List.nodup_cons.1 L.nodup).2, ?_, ?_⟩
  · intro c n hc
    rw [th]
    rcases hinv c n hc with ⟨rfl, rfl⟩ | ⟨h1, h2, h3⟩
    · exact ⟨⟨y, absE ab k1, absE ab k0⟩, by rw [upd_same, upd_same], rfl⟩
    · rw [upd_ne _ _ h2, upd_ne _ _ (nab c (by simp [h3]) h1)]
      exact L.var c n h3
  · intro c c' hc hc' h
    cases hn : s'.heap c with
    | none => exact absurd hn hc
    | some n =>
      cases hn' : s'.heap c' with
      | none => exact absurd hn' hc'
      | some n' =>
        rcases hinv c n hn with ⟨rfl, rfl⟩ | ⟨h1, h2, h3⟩ <;> rcases hinv c' n' hn' with ⟨rfl, rfl⟩ | ⟨h4, h5, h6⟩
        · rfl
        · rw [upd_same, upd_ne _ _ h5] at h; exact absurd h.symm (nab c' (by simp [h6]) h4)
        · rw [upd_same, upd_ne _ _ h2] at h; exact absurd h (nab c (by simp [h3]) h1)
        · rw [upd_ne _ _ h5, upd_ne _ _ h2] at h; exact L.inj c c' (by simp [h3]) (by simp [h6]) h
  · intro b hb
    rw [th] at hb
    by_cases h : b = ab f
    · exact ⟨g, by simp [hg'], by rw [upd_same, h]⟩
    · rw [upd_ne _ _ h] at hb
      obtain ⟨c, h1, h2⟩ := L.sur b hb
      have hcf : c ≠ f := by rintro rfl; exact h h2.symm
      cases hn : s.heap c with
      | none => exact absurd hn h1
      | some n => exact ⟨c, by simp [hold c n hn hcf], by rw [upd_ne _ _ (live c h1)]; exact h2⟩
  · intro c n hc hv
    rw [th]
    rcases hinv c n hc with ⟨rfl, rfl⟩ | ⟨h1', h2', h3⟩
    · refine ⟨okk _ h1, okk _ h0, ?_⟩
      rw [upd_same, upd_same]
      simp only [absN, abs_upd hg g0 h1.1, abs_upd hg g0 h0.1]
    · obtain ⟨o1, o2, o3⟩ := L.node c n h3 hv
      refine ⟨okk _ o1, okk _ o2, ?_⟩
      rw [upd_ne _ _ h2', upd_ne _ _ (nab c (by simp [h3]) h1'), o3]
      simp only [absN, abs_upd hg g0 o1.1, abs_upd hg g0 o2.1]
  · rw [tt, st, upd_ne _ _ hxy, upd_ne _ _ hxy, L.tabx]
    apply List.map_congr_left
    intro c hc
    obtain ⟨_, n, hn, _⟩ := L.tx c hc
    rw [upd_ne _ _ (live c (by simp [hn]))]
  · rw [tt, st, upd_same, upd_same, List.map_cons, upd_same, L.taby]
    congr 1
    apply List.map_congr_left
    intro c hc
    obtain ⟨n, hn, _⟩ := L.ty c hc
    rw [upd_ne _ _ (live c (by simp [hn]))]
  · intro c hc
    rw [st, upd_ne _ _ hxy] at hc
    obtain ⟨h1, n, hn, hv⟩ := L.tx c hc
    have hcf : c ≠ f := fun h => h1 (by simp [h])
    exact ⟨fun h => h1 (by simp [h]), n, hold c n hn hcf, hv⟩
  · intro c hc
    rw [st, upd_same, List.mem_cons] at hc
    rcases hc with rfl | hc
    · exact ⟨_, hg', rfl⟩
    · obtain ⟨n, hn, hv⟩ := L.ty c hc
      have hcf : c ≠ f := by rintro rfl; rw [hnf] at hn; cases hn; exact hxy (hvf.symm.trans hv)
      exact ⟨n, hold c n hn hcf, hv⟩
  · intro c hc
    rw [sr, tr]
    by_cases h : c = g
    · subst h; rw [upd_same, upd_same]; exact L.ref f (Or.inr (by simp [hnf]))
    · rw [upd_ne _ _ h, upd_ne _ _ h]
      apply L.ref
      rcases hc with hc | hc
      · exact Or.inl hc
      · right
        cases hn : s'.heap c with
        | none => exact absurd hn hc
        | some n =>
          rcases hinv c n hn with ⟨rfl, _⟩ | ⟨_, _, h3⟩
          · exact absurd rfl h
          · simp [h3]
  · intro c hc
    rw [sr]
    by_cases h : c = g
    · subst h; rw [upd_same]; exact L.le f (Or.inr (by simp [hnf]))
    · rw [upd_ne _ _ h]
      apply L.le
      rcases hc with hc | hc
      · exact Or.inl hc
      · right
        cases hn : s'.heap c with
        | none => exact absurd hn hc
        | some n =>
          rcases hinv c n hn with ⟨rfl, _⟩ | ⟨_, _, h3⟩
          · exact absurd rfl h
          · simp [h3]
  · intro c hc
    obtain ⟨n, hn, hv⟩ := L.rem c (by simp [hc])
    have hcf : c ≠ f := by rintro rfl; exact (List.nodup_cons.1 L.nodup).1 hc
    exact ⟨n, hold c n hn hcf, hv⟩
  · rw [st, upd_same, List.nodup_cons]
    refine ⟨fun h => ?_, L.ndy⟩
    obtain ⟨n, hn, _⟩ := L.ty g h
    rw [hg] at hn; cases hn
  · intro c n hc hv
    rcases hinv c n hc with ⟨rfl, rfl⟩ | ⟨_, _, h3⟩
    · exact ⟨y1, y0⟩
    · exact L.nky c n h3 hv

end

/-- What the second loop of the exchange changes. -/
structure Chg (x y : Nat) (R : List Nat) (w : St) (d : Df.St) (ab : Nat → Nat) (w' : St) (d' : Df.St) (ab' : Nat → Nat) :
    Prop where
  keep : ∀ a n, w.st.heap a = some n → a ∉ R → w'.st.heap a = some n
  gone : ∀ a, a ∈ R → w'.st.heap a = none
  new : ∀ a n, w'.st.heap a = some n → w.st.heap a = none → (n.var = x ∨ n.var = y) ∧ w.fwd a = none
  abk : ∀ a, w.st.heap a ≠ none → a ∉ R → ab' a = ab a
  fwdR : ∀ f, f ∈ R → ∃ g n, w'.fwd f = some ⟨y, g, false⟩ ∧ w'.st.heap g = some n ∧ n.var = y ∧ ab' g = ab f
  fwdO : ∀ a, a ∉ R → w'.fwd a = w.fwd a
  list : w'.list = upd w.list x (R.reverse ++ w.list x)
  rest : w' = { w with st := w'.st, fwd := w'.fwd, numFwd := w'.numFwd, list := w'.list }
  tab : ∀ j, j ≠ x → j ≠ y → w'.st.tab j = w.st.tab j
  keepD : ∀ a n, d.st.heap a = some n → a ∉ R.map ab → d'.st.heap a = some n
  newD : ∀ a n, d'.st.heap a = some n → d.st.heap a = none → n.var = x
  tabD : ∀ j, j ≠ x → j ≠ y → d'.st.tab j = d.st.tab j
  num : w'.st.numNodes + d.st.numNodes = d'.st.numNodes + w.st.numNodes + R.length
  gcc : w'.st.gcCheck = w.st.gcCheck
  gccD : d'.st.gcCheck = d.st.gcCheck
  ord : w'.st.ord = w.st.ord
  par : ∀ a n, w'.st.heap a = some n → w.st.heap a = none → n.var = x → ∃ f, f ∈ R ∧ ∃ g m, w'.fwd f = some ⟨y, g, false⟩ ∧
    w'.st.heap g = some m ∧ (m.thn.addr = a ∨ m.els.addr = a)

section
variable {x y i : Nat} {w : St} {d : Df.St} {ab : Nat → Nat}

/-- The cofactors of a child. -/
theorem cof_sim {R : List Nat} {s t : Store} (L : Loc x y R s t ab) (y1 : 1 ≤ y) {e : Edge} (he : Ok R s e) :
    (e.id = y → ∃ a b, s.kids e = some (a, b) ∧ Ok R s a ∧ Ok R s b ∧ Df.cof t y (absE ab e) = some (absE ab a, absE ab b) ∧
      a.id ≠ y ∧ b.id ≠ y) ∧
    (e.id ≠ y → Df.cof t y (absE ab e) = some (absE ab e, absE ab e)) := by
  constructor
  · intro hy
    rcases he.1 with ⟨h, _⟩ | ⟨n, hn, hv⟩
    · omega
    · obtain ⟨o1, o2, o3⟩ := L.node _ _ hn (Or.inr (hv.trans hy))
      refine ⟨n.thn.phase e.neg, n.els.phase e.neg, by simp [Store.kids, hn], o1, o2, ?_, L.nky _ _ hn (hv.trans hy)⟩
      rw [Df.cof_node L.t0 (n := absN ab n) o3 (hv.trans hy)]
      rfl
  · intro hy
    apply Df.cof_other (by omega)
    rcases he.1 with ⟨_, h⟩ | ⟨n, hn, hv⟩
    · left; show ab e.addr = 0; rw [h, L.zero]
    · right
      obtain ⟨n', h1, h2⟩ := L.var _ _ hn
      exact ⟨n', h1, by rw [h2, hv]; exact hy⟩

theorem swapNode_sim {R : List Nat} {f : Nat} {n : Node} (L : Loc x y (f :: R) w.st d.st ab) (hxy : x ≠ y) (y1 : 1 ≤ y)
    (F : FwOK w) (Fd : Fr d.st) (hf : w.st.heap f = some n)
    (l1 : i + 1 < w.st.elvl n.thn ↔ n.thn.id ≠ y) (l0 : i + 1 < w.st.elvl n.els ↔ n.els.id ≠ y)
    (hy : n.thn.id = y ∨ n.els.id = y) :
    ∃ w' d' ab', swapNode w i x y f = some w' ∧ Df.exchangeAux d (ab f) x y = some d' ∧
      (let d'' : Df.St := { d' with st := { d'.st with tab := upd d'.st.tab y (ab f :: d'.st.tab y) } }
       Loc x y R w'.st d''.st ab' ∧ FwOK w' ∧ Fr d''.st ∧ Chg x y [f] w d ab w' d'' ab') := by
  obtain ⟨nf, hnf, hvf⟩ := L.rem f (by simp)
  rw [hf] at hnf; cases hnf
  obtain ⟨o1, o0, on⟩ := L.node f n hf (Or.inl hvf)
  -- the cofactors
  have hc : ∃ f11 f10 f01 f00, cofs w.st i n.thn n.els = some ((f11, f10), (f01, f00)) ∧
      Df.cof d.st y (absE ab n.thn) = some (absE ab f11, absE ab f10) ∧
      Df.cof d.st y (absE ab n.els) = some (absE ab f01, absE ab f00) ∧
      Ok (f :: R) w.st f11 ∧ Ok (f :: R) w.st f10 ∧ Ok (f :: R) w.st f01 ∧ Ok (f :: R) w.st f00 ∧ f11.id ≠ y ∧ f10.id ≠ y := by
    obtain ⟨c1, c1'⟩ := cof_sim L y1 o1
    obtain ⟨c0, c0'⟩ := cof_sim L y1 o0
    unfold cofs
    by_cases h0 : n.els.id = y
    · rw [if_neg (fun h => l0.1 h h0)]
      obtain ⟨a, b, k0, ka, kb, kc, _, _⟩ := c0 h0
      by_cases h1 : n.thn.id = y
      · rw [if_neg (fun h => l1.1 h h1)]
        obtain ⟨a', b', k0', ka', kb', kc', ya, yb⟩ := c1 h1
        exact ⟨a', b', a, b, by rw [k0, k0'], kc', kc, ka', kb', ka, kb, ya, yb⟩
      · rw [if_pos (l1.2 h1)]
        exact ⟨n.thn, n.thn, a, b, by rw [k0]; rfl, c1' h1, kc, o1, o1, ka, kb, h1, h1⟩
    · rw [if_pos (l0.2 h0)]
      have h1 : n.thn.id = y := hy.resolve_right h0
      obtain ⟨a', b', k0', ka', kb', kc', ya, yb⟩ := c1 h1
      exact ⟨a', b', n.els, n.els, by rw [k0']; rfl, kc', c0' h0, ka', kb', o0, o0, ya, yb⟩
  obtain ⟨f11, f10, f01, f00, hcw, hc1, hc0, k11, k10, k01, k00, y11, y10⟩ := hc
  unfold swapNode Df.exchangeAux
  rw [hf, on]
  simp only [hcw, absN, hc1, hc0]
  -- the children
  obtain ⟨ab1, C1⟩ := newChild_sim L hxy F Fd k10 k00 y10
  rcases hw1 : newChild w x f10 f00 with ⟨w1, newF0, found0⟩
  rcases hd1 : Df.newChild d x (absE ab f10) (absE ab f00) with ⟨d1, newF0', found0'⟩
  rw [hw1, hd1] at C1
  have e1 : newF0' = absE ab1 newF0 := C1.res
  have e2 : found0' = found0 := C1.found
  subst e1; subst e2
  have z := L.zero
  have z1 := C1.loc.zero
  have C1g : Grow x w d ab w1 d1 ab1 := C1.grow
  have L1 : Loc x y (f :: R) w1.st d1.st ab1 := C1.loc
  obtain ⟨ab2, C2⟩ := newChild_sim L1 hxy C1.fw C1.frd (C1.grow.ok k11) (C1.grow.ok k01) y11
  rw [C1g.absE z z1 k11.1, C1g.absE z z1 k01.1] at C2
  rcases hw2 : newChild w1 x f11 f01 with ⟨w2, newF1, found1⟩
  rcases hd2 : Df.newChild d1 x (absE ab f11) (absE ab f01) with ⟨d2, newF1', found1'⟩
  rw [hw2, hd2] at C2
  have e1 : newF1' = absE ab2 newF1 := C2.res
  have e2 : found1' = found1 := C2.found
  subst e1; subst e2
  have z2 := C2.loc.zero
  have C2g : Grow x w1 d1 ab1 w2 d2 ab2 := C2.grow
  have L2 : Loc x y (f :: R) w2.st d2.st ab2 := C2.loc
  have G := C1g.trans C2g
  have kF1 : Ok (f :: R) w2.st newF1 := C2.ok
  have kF0 : Ok (f :: R) w2.st newF0 := C2g.ok C1.ok
  have aF0 : absE ab2 newF0 = absE ab1 newF0 := C2g.absE z1 z2 C1.ok.1
  have hf2 : w2.st.heap f = some n := G.old _ _ hf
  have abf : ab2 f = ab f := G.ab f (by simp [hf])
  -- the counts
  have gw : w2 = { w with st := w2.st } := G.rest
  have FW2 : FwOK w2 := C2.fw
  have a11 := G.absE z z2 k11.1
  have a10 := G.absE z z2 k10.1
  have a01 := G.absE z z2 k01.1
  have a00 := G.absE z z2 k00.1
  have at1 := G.absE z z2 o1.1
  have at0 := G.absE z z2 o0.1
  generalize hsw : ((if found1' = true then (if found0' = true then w2.st else (w2.st.icr f10).icr f00)
      else ((if found0' = true then w2.st else (w2.st.icr f10).icr f00).icr f11).icr f01).dcr n.els).dcr n.thn = sw
  generalize hsd : ((if found1' = true then (if found0' = true then d2.st else (d2.st.icr (absE ab f00)).icr (absE ab f10))
      else ((if found0' = true then d2.st else (d2.st.icr (absE ab f00)).icr (absE ab f10)).icr (absE ab f01)).icr (absE ab f11)).dcr
        (absE ab n.els)).dcr (absE ab n.thn) = sd
  have L3 : Loc x y (f :: R) sw sd ab2 := by
    have q0 : Loc x y (f :: R) (if found0' = true then w2.st else (w2.st.icr f10).icr f00)
        (if found0' = true then d2.st else (d2.st.icr (absE ab f00)).icr (absE ab f10)) ab2 := by
      cases found0' with
      | true => simpa using L2
      | false =>
        simp only [Bool.false_eq_true, if_false]
        rw [icr_comm d2.st, ← a10, ← a00]
        exact (L2.icr (G.eok k10.1)).icr (G.eok k00.1)
    have hq0 : (if found0' = true then w2.st else (w2.st.icr f10).icr f00).heap = w2.st.heap := by cases found0' <;> rfl
    have eq0 : ∀ e, w2.st.EOK e → (if found0' = true then w2.st else (w2.st.icr f10).icr f00).EOK e := by
      intro e he; unfold Store.EOK; rw [hq0]; exact he
    generalize (if found0' = true then w2.st else (w2.st.icr f10).icr f00) = u at q0 hsw hq0 eq0
    generalize (if found0' = true then d2.st else (d2.st.icr (absE ab f00)).icr (absE ab f10)) = u' at q0 hsd
    have q1 : Loc x y (f :: R) (if found1' = true then u else (u.icr f11).icr f01)
        (if found1' = true then u' else (u'.icr (absE ab f01)).icr (absE ab f11)) ab2 := by
      cases found1' with
      | true => simpa using q0
      | false =>
        simp only [Bool.false_eq_true, if_false]
        rw [icr_comm u', ← a11, ← a01]
        exact (q0.icr (eq0 _ (G.eok k11.1))).icr (eq0 _ (G.eok k01.1))
    have hq1 : (if found1' = true then u else (u.icr f11).icr f01).heap = w2.st.heap := by cases found1' <;> exact hq0
    have eq1 : ∀ e, w2.st.EOK e → (if found1' = true then u else (u.icr f11).icr f01).EOK e := by
      intro e he; unfold Store.EOK; rw [hq1]; exact he
    generalize (if found1' = true then u else (u.icr f11).icr f01) = v at q1 hsw eq1
    generalize (if found1' = true then u' else (u'.icr (absE ab f01)).icr (absE ab f11)) = v' at q1 hsd
    rw [← hsw, ← hsd, ← at0, ← at1]
    exact (q1.dcr (eq1 _ (G.eok o0.1))).dcr (eq1 _ (G.eok o1.1))
  have sw_eq : ∃ r, sw = { w2.st with ref := r } := by
    rw [← hsw]; cases found0' <;> cases found1' <;> exact ⟨_, rfl⟩
  have sd_eq : ∃ r, sd = { d2.st with ref := r } := by
    rw [← hsd]; cases found0' <;> cases found1' <;> exact ⟨_, rfl⟩
  have sd_eq' : ((if found1' = true then
              if found0' = true then
                { d2.st with heap := upd d2.st.heap (ab f) (some ⟨y, absE ab2 newF1, absE ab1 newF0⟩) }
              else
                ({ d2.st with heap := upd d2.st.heap (ab f) (some ⟨y, absE ab2 newF1, absE ab1 newF0⟩) }.icr
                      (absE ab f00)).icr (absE ab f10)
            else
              ((if found0' = true then
                      { d2.st with heap := upd d2.st.heap (ab f) (some ⟨y, absE ab2 newF1, absE ab1 newF0⟩) }
                    else
                      ({ d2.st with heap := upd d2.st.heap (ab f) (some ⟨y, absE ab2 newF1, absE ab1 newF0⟩) }.icr
                            (absE ab f00)).icr (absE ab f10)).icr
                  (absE ab f01)).icr (absE ab f11)).dcr (absE ab n.els)).dcr (absE ab n.thn) =
      { sd with heap := upd sd.heap (ab f) (some ⟨y, absE ab2 newF1, absE ab1 newF0⟩) } := by
    rw [← hsd]; cases found0' <;> cases found1' <;> rfl
  simp only [sd_eq']
  obtain ⟨rw_, hsw'⟩ := sw_eq
  obtain ⟨rd_, hsd'⟩ := sd_eq
  have FW3 : FwOK { w2 with st := sw } := by rw [hsw']; exact FW2.refs _
  have kF1' : Ok (f :: R) sw newF1 := by rw [hsw']; exact kF1
  have kF0' : Ok (f :: R) sw newF0 := by rw [hsw']; exact kF0
  have hswh : sw.heap = w2.st.heap := by rw [hsw']
  have hswt : sw.tab = w2.st.tab := by rw [hsw']
  have hswn : sw.numNodes = w2.st.numNodes := by rw [hsw']
  have hswg : sw.gcCheck = w2.st.gcCheck := by rw [hsw']
  have hsdh : sd.heap = d2.st.heap := by rw [hsd']
  have hsdt : sd.tab = d2.st.tab := by rw [hsd']
  have hsdn : sd.numNodes = d2.st.numNodes := by rw [hsd']
  have hsdg : sd.gcCheck = d2.st.gcCheck := by rw [hsd']
  have Fsd : Fr sd := by rw [hsd']; exact fr_refs C2.frd _
  have fsw : sw.heap f = some n := by rw [hswh]; exact hf2
  -- the new node
  unfold addDirect
  have A := alloc_new FW3.fr y
  simp only at A
  rcases hal : sw.alloc y with ⟨g, s1⟩
  rw [hal] at A
  simp only at A ⊢
  have gf : g ≠ f := by rintro rfl; have := A.old; rw [fsw] at this; cases this
  have ng : w2.fwd g = none := FW3.fresh A
  unfold toForward
  simp only
  refine ⟨_, _, upd ab2 g (ab f), rfl, rfl, ?_⟩
  have href : (Store.addRef { s1.insertAt y g newF1 newF0 with numNodes := (s1.insertAt y g newF1 newF0).numNodes + 1 } ⟨y, g, false⟩
      (s1.ref f : Int)) = { s1.insertAt y g newF1 newF0 with
        numNodes := s1.numNodes + 1, ref := upd s1.ref g (sw.ref f) } := by
    have hg0 : s1.ref g = 0 := by rw [A.ref, upd_same]
    have hgf : s1.ref f = sw.ref f := by rw [A.ref, upd_ne _ _ (Ne.symm gf)]
    have hle := L3.le f (Or.inr (by simp [fsw]))
    unfold Store.addRef
    have h1 : (s1.insertAt y g newF1 newF0).ref g < maxRef := by show s1.ref g < maxRef; rw [hg0]; decide
    rw [if_pos h1]
    have h2 : ((s1.insertAt y g newF1 newF0).ref g : Int) = 0 := by show (s1.ref g : Int) = 0; rw [hg0]; rfl
    simp only [h2, hgf]
    have h3 : ¬ ((0 : Int) + (sw.ref f : Int) < 0) := by omega
    have h4 : ¬ ((maxRef : Int) < 0 + (sw.ref f : Int)) := by omega
    rw [if_neg h3, if_neg h4]
    have h5 : ((0 : Int) + (sw.ref f : Int)).toNat = sw.ref f := by omega
    rw [h5]
    rfl
  have href' : (s1.insertAt y g newF1 newF0).ref f = s1.ref f := rfl
  simp only [href', href]
  have sh : upd (upd sw.heap g (some (⟨y, newF1, newF0⟩ : Node))) f none =
      upd (s1.insertAt y g newF1 newF0).heap f none := by
    show _ = upd (upd s1.heap g _) f none
    rw [A.heap]
  refine ⟨?_, ?_, ?_, ?_⟩
  · rw [← abf]
    refine L3.convert (k1 := newF1) (k0 := newF0) hxy A.old A.pos kF1' kF0' C2.idy C1.idy A.ord ?_ sh.symm ?_ ?_ ?_ ?_ ?_
    · rfl
    · rw [aF0]
    · show upd s1.tab y (g :: s1.tab y) = _
      rw [A.tab]
    · rfl
    · show upd s1.ref g (sw.ref f) = _
      rw [A.ref]; funext c; unfold upd; split <;> rfl
    · rfl
  · -- the forwarding nodes
    have B : FwOK { w2 with st := s1.insertAt y g newF1 newF0 } := FW3.add A (n := ⟨y, newF1, newF0⟩)
      (s' := s1.insertAt y g newF1 newF0) rfl rfl rfl rfl rfl
    obtain ⟨hfn, hfl⟩ : f < s1.next ∧ ∀ i, f ∉ s1.free i := by
      have hh : s1.heap f = some n := by rw [A.heap]; exact fsw
      refine ⟨A.fr.heap_next f n hh, fun i hi => ?_⟩
      have := (A.fr.free_ok i f hi).1
      rw [hh] at this; cases this
    have f0 : f ≠ 0 := by rintro rfl; rw [L3.s0] at fsw; cases fsw
    refine ⟨⟨?_, B.fr.next_pos, ?_, B.fr.free_nodup, ?_, B.fr.free_disj⟩, ?_⟩
    · show upd (s1.insertAt y g newF1 newF0).heap f none 0 = none
      rw [upd_ne _ _ (Ne.symm f0)]; exact B.fr.heap0
    · intro c m hc
      have hc : upd (s1.insertAt y g newF1 newF0).heap f none c = some m := hc
      by_cases h : c = f
      · subst h; rw [upd_same] at hc; cases hc
      · rw [upd_ne _ _ h] at hc; exact B.fr.heap_next c m hc
    · intro i c hc
      have := B.fr.free_ok i c hc
      refine ⟨?_, this.2⟩
      show upd (s1.insertAt y g newF1 newF0).heap f none c = none
      by_cases h : c = f
      · subst h; rw [upd_same]
      · rw [upd_ne _ _ h]; exact this.1
    · intro a t hat
      have hat : upd (upd w2.fwd g none) f (some ⟨y, g, false⟩) a = some t := hat
      show upd (s1.insertAt y g newF1 newF0).heap f none a = none ∧ a ≠ 0 ∧ a < s1.next ∧ (∀ i, a ∉ s1.free i) ∧ _
      by_cases h : a = f
      · subst h
        rw [upd_same] at hat; cases hat
        exact ⟨upd_same _ _ _, f0, hfn, hfl, rfl⟩
      · rw [upd_ne _ _ h] at hat ⊢
        have hag : a ≠ g := by rintro rfl; rw [upd_same] at hat; cases hat
        rw [upd_ne _ _ hag] at hat
        exact B.fw a t hat
  · refine ⟨?_, Fsd.next_pos, ?_, Fsd.free_nodup, ?_, Fsd.free_disj⟩
    · show upd sd.heap (ab f) _ 0 = none
      rw [← abf, upd_ne _ _ (Ne.symm (L3.abs0 (by simp [fsw])))]; exact Fsd.heap0
    · intro c m hc
      have hc : upd sd.heap (ab f) _ c = some m := hc
      by_cases h : c = ab f
      · obtain ⟨m', h1, _⟩ := L3.var f n fsw
        rw [h, ← abf]; exact Fsd.heap_next _ _ h1
      · rw [upd_ne _ _ h] at hc; exact Fsd.heap_next c m hc
    · intro i c hc
      have := Fsd.free_ok i c hc
      refine ⟨?_, this.2⟩
      have h : c ≠ ab f := by
        rintro rfl
        obtain ⟨m', h1, _⟩ := L3.var f n fsw
        have h2 := this.1
        rw [← abf, h1] at h2; cases h2
      show upd sd.heap (ab f) _ c = none
      rw [upd_ne _ _ h]; exact this.1
  · -- what has changed
    have hfwd : w2.fwd = w.fwd := by rw [gw]
    refine ⟨?_, ?_, ?_, ?_, ?_, ?_, ?_, ?_, ?_, ?_, ?_, ?_, ?_, ?_, ?_, ?_, ?_⟩
    · intro a m ha hne
      have h1 : a ≠ f := by simpa using hne
      have h2 : w2.st.heap a = some m := G.old a m ha
      have h3 : a ≠ g := by rintro rfl; have := A.old; rw [hswh, h2] at this; cases this
      show upd (upd s1.heap g _) f none a = some m
      rw [upd_ne _ _ h1, upd_ne _ _ h3, A.heap, hswh]; exact h2
    · intro a ha
      have : a = f := by simpa using ha
      subst this
      exact upd_same _ _ _
    · intro a m ha h0
      have ha : upd (upd s1.heap g (some (⟨y, newF1, newF0⟩ : Node))) f none a = some m := ha
      by_cases h1 : a = f
      · subst h1; rw [upd_same] at ha; cases ha
      · rw [upd_ne _ _ h1] at ha
        by_cases h2 : a = g
        · subst h2
          rw [upd_same] at ha; cases ha
          exact ⟨Or.inr rfl, by rw [← hfwd]; exact ng⟩
        · rw [upd_ne _ _ h2, A.heap, hswh] at ha
          obtain ⟨h3, h4⟩ := G.new a m ha h0
          exact ⟨Or.inl h3, h4⟩
    · intro a ha _
      have h3 : a ≠ g := by
        rintro rfl
        cases hm : w.st.heap a with
        | none => exact ha hm
        | some m => have := A.old; rw [hswh, G.old a m hm] at this; cases this
      rw [upd_ne _ _ h3]; exact G.ab a ha
    · intro f' hf'
      have : f' = f := by simpa using hf'
      subst this
      refine ⟨g, ⟨y, newF1, newF0⟩, upd_same _ _ _, ?_, rfl, upd_same _ _ _⟩
      show upd (upd s1.heap g _) f' none g = _
      rw [upd_ne _ _ gf, upd_same]
    · intro a ha
      have h1 : a ≠ f := by simpa using ha
      show upd (upd w2.fwd g none) f _ a = w.fwd a
      rw [upd_ne _ _ h1]
      by_cases h2 : a = g
      · subst h2; rw [upd_same, ← hfwd, ng]
      · rw [upd_ne _ _ h2, hfwd]
    · show upd w2.list x (f :: w2.list x) = _
      rw [gw]; rfl
    · rw [gw]
    · intro j hx hy
      show upd s1.tab y _ j = _
      rw [upd_ne _ _ hy, A.tab, hswt]; exact G.tab j hx
    · intro a m ha hne
      have h1 : a ≠ ab f := by simpa using hne
      show upd sd.heap (ab f) _ a = some m
      rw [upd_ne _ _ h1, hsdh]; exact G.oldD a m ha
    · intro a m ha h0
      have ha : upd sd.heap (ab f) _ a = some m := ha
      have h1 : a ≠ ab f := by
        rintro rfl
        obtain ⟨m', h1, _⟩ := L.var f n hf
        rw [h1] at h0; cases h0
      rw [upd_ne _ _ h1, hsdh] at ha
      exact G.newD a m ha h0
    · intro j hx hy
      show upd sd.tab y _ j = _
      rw [upd_ne _ _ hy, hsdt]; exact G.tabD j hx
    · show s1.numNodes + 1 + d.st.numNodes = sd.numNodes + w.st.numNodes + 1
      have := G.num
      rw [A.num, hswn, hsdn]; omega
    · show s1.gcCheck = _
      rw [A.gcc, hswg]; exact G.gcc
    · show sd.gcCheck = _
      rw [hsdg]; exact G.gccD
    · show s1.ord = _
      rw [A.ord, hsw']; exact G.ord
    · intro a m ha h0 hv
      have ha : upd (upd s1.heap g (some (⟨y, newF1, newF0⟩ : Node))) f none a = some m := ha
      refine ⟨f, by simp, g, ⟨y, newF1, newF0⟩, upd_same _ _ _, ?_, ?_⟩
      · show upd (upd s1.heap g _) f none g = _
        rw [upd_ne _ _ gf, upd_same]
      · by_cases h1 : a = f
        · subst h1; rw [upd_same] at ha; cases ha
        · rw [upd_ne _ _ h1] at ha
          by_cases h2 : a = g
          · subst h2
            rw [upd_same] at ha; cases ha
            exact absurd hv.symm hxy
          · rw [upd_ne _ _ h2, A.heap, hswh] at ha
            cases h3 : w1.st.heap a with
            | some m' => exact Or.inr (C1.only a (by simp [h3]) h0).symm
            | none => exact Or.inl (C2.only a (by simp [ha]) h3).symm

end

section
variable {x y i : Nat}

theorem Chg.nil (x y w d ab) : Chg x y [] w d ab w d ab :=
  ⟨fun _ _ h _ => h, fun _ h => (by cases h), fun a n h h' => (by rw [h'] at h; cases h), fun _ _ _ => rfl, fun _ h => (by cases h),
    fun _ _ => rfl, (by funext j; simp only [List.reverse_nil, List.nil_append]; unfold upd; split <;> simp_all), rfl,
    fun _ _ _ => rfl, fun _ _ h _ => h, fun a n h h' => (by rw [h'] at h; cases h), fun _ _ _ => rfl, (by simp; omega), rfl, rfl, rfl,
    fun a n h h' => (by rw [h'] at h; cases h)⟩

theorem Chg.cons {f : Nat} {R : List Nat} {w : St} {d : Df.St} {ab : Nat → Nat} {w1 d1 ab1 w2 d2 ab2} {n : Node} (hxy : x ≠ y)
    (hf : w.st.heap f = some n) (hd : d.st.heap (ab f) ≠ none)
    (hsur : ∀ f, f ∈ R → d.st.heap (ab f) ≠ none)
    (hR : ∀ a, a ∈ R → ∃ n, w.st.heap a = some n ∧ n.var = x) (nd : (f :: R).Nodup)
    (g : Chg x y [f] w d ab w1 d1 ab1) (h : Chg x y R w1 d1 ab1 w2 d2 ab2) : Chg x y (f :: R) w d ab w2 d2 ab2 := by
  have fR := (List.nodup_cons.1 nd).1
  have Rf : ∀ a, a ∈ R → a ≠ f := by rintro a h rfl; exact fR h
  have hR1 : ∀ a, a ∈ R → ∃ n, w1.st.heap a = some n ∧ n.var = x := by
    intro a ha
    obtain ⟨m, h1, h2⟩ := hR a ha
    exact ⟨m, g.keep a m h1 (by simpa using Rf a ha), h2⟩
  have abR : ∀ a, a ∈ R → ab1 a = ab a := by
    intro a ha; obtain ⟨m, h1, _⟩ := hR a ha; exact g.abk a (by simp [h1]) (by simpa using Rf a ha)
  have mapR : R.map ab1 = R.map ab := List.map_congr_left abR
  have gone1 : ∀ a, w.st.heap a ≠ none → w1.st.heap a = none → a = f := by
    intro a ha h1
    cases hm : w.st.heap a with
    | none => exact absurd hm ha
    | some m =>
      refine Classical.byContradiction fun hne => ?_
      rw [g.keep a m hm (by simpa using hne)] at h1; cases h1
  -- the node that `f` is forwarded to stays
  have keepg : ∀ k m, w1.fwd f = some ⟨y, k, false⟩ → w1.st.heap k = some m → m.var = y →
      w2.fwd f = some ⟨y, k, false⟩ ∧ w2.st.heap k = some m ∧ k ∉ R := by
    intro k m h1 h2 h3
    have kR : k ∉ R := by
      intro hk; obtain ⟨m', h4, h5⟩ := hR1 k hk; rw [h2] at h4; cases h4; exact hxy (h5.symm.trans h3)
    exact ⟨by rw [h.fwdO f fR]; exact h1, h.keep k m h2 kR, kR⟩
  refine ⟨?_, ?_, ?_, ?_, ?_, ?_, ?_, ?_, ?_, ?_, ?_, ?_, ?_, h.gcc.trans g.gcc, h.gccD.trans g.gccD, h.ord.trans g.ord, ?_⟩
  · intro a m ha hne
    exact h.keep a m (g.keep a m ha (by simp at hne ⊢; exact hne.1)) (by simp at hne; exact hne.2)
  · intro a ha
    rcases List.mem_cons.1 ha with rfl | ha
    · cases hm : w2.st.heap a with
      | none => rfl
      | some m =>
        have h0 := g.gone a (by simp)
        obtain ⟨_, h2⟩ := h.new a m hm h0
        obtain ⟨k, _, h3, _⟩ := g.fwdR a (by simp)
        rw [h3] at h2; cases h2
    · exact h.gone a ha
  · intro a m ha h0
    cases h1 : w1.st.heap a with
    | some m' =>
      have haR : a ∉ R := by
        intro hh; obtain ⟨m'', h2, _⟩ := hR a hh; rw [h0] at h2; cases h2
      have := h.keep a m' h1 haR
      rw [ha] at this; cases this
      exact g.new a m h1 h0
    | none =>
      obtain ⟨h2, h3⟩ := h.new a m ha h1
      have haf : a ≠ f := by rintro rfl; rw [hf] at h0; cases h0
      exact ⟨h2, by rw [← g.fwdO a (by simpa using haf)]; exact h3⟩
  · intro a ha hne
    have hne' : a ≠ f ∧ a ∉ R := by simpa using hne
    have h1 : w1.st.heap a ≠ none := fun h1 => hne'.1 (gone1 a ha h1)
    rw [h.abk a h1 hne'.2, g.abk a ha (by simpa using hne'.1)]
  · intro f' hf'
    rcases List.mem_cons.1 hf' with rfl | hf'
    · obtain ⟨k, m, h1, h2, h3, h4⟩ := g.fwdR f' (by simp)
      obtain ⟨h5, h6, h7⟩ := keepg k m h1 h2 h3
      exact ⟨k, m, h5, h6, h3, by rw [h.abk k (by simp [h2]) h7]; exact h4⟩
    · obtain ⟨k, m, h1, h2, h3, h4⟩ := h.fwdR f' hf'
      exact ⟨k, m, h1, h2, h3, by rw [h4, abR f' hf']⟩
  · intro a ha
    have hne' : a ≠ f ∧ a ∉ R := by simpa using ha
    rw [h.fwdO a hne'.2, g.fwdO a (by simpa using hne'.1)]
  · rw [h.list, g.list]
    funext j
    unfold upd
    split <;> simp_all
  · have h1 := h.rest
    rw [g.rest] at h1
    exact h1
  · intro j h1 h2; rw [h.tab j h1 h2, g.tab j h1 h2]
  · intro a m ha hne
    have hne' : a ≠ ab f ∧ a ∉ R.map ab := by
      refine ⟨?_, ?_⟩
      · rintro rfl; exact hne (by simp)
      · intro hh; exact hne (by rw [List.map_cons]; exact List.mem_cons_of_mem _ hh)
    exact h.keepD a m (g.keepD a m ha (by simpa using hne'.1)) (by rw [mapR]; exact hne'.2)
  · intro a m ha h0
    cases h1 : d1.st.heap a with
    | none => exact h.newD a m ha h1
    | some m' =>
      have haR : a ∉ R.map ab1 := by
        rw [mapR]
        intro hh
        obtain ⟨f', hf', rfl⟩ := List.mem_map.1 hh
        exact hsur f' hf' h0
      have := h.keepD a m' h1 haR
      rw [ha] at this; cases this
      exact g.newD a m h1 h0
  · intro j h1 h2; rw [h.tabD j h1 h2, g.tabD j h1 h2]
  · have h1 := g.num; have h2 := h.num
    simp only [List.length_cons, List.length_nil] at h1 ⊢
    omega
  · intro a m ha h0 hv
    cases h1 : w1.st.heap a with
    | none =>
      obtain ⟨f', h2, k, m', h3⟩ := h.par a m ha h1 hv
      exact ⟨f', by simp [h2], k, m', h3⟩
    | some m' =>
      have haR : a ∉ R := by
        intro hh; obtain ⟨m'', h2, _⟩ := hR a hh; rw [h0] at h2; cases h2
      have := h.keep a m' h1 haR
      rw [ha] at this; cases this
      obtain ⟨f', hf', k, m', h2, h3, h4⟩ := g.par a m h1 h0 hv
      have : f' = f := by simpa using hf'
      subst this
      obtain ⟨k', m'', h5, h6, h7, _⟩ := g.fwdR f' (by simp)
      rw [h2] at h5; cases h5
      rw [h3] at h6; cases h6
      obtain ⟨h8, h9, _⟩ := keepg k m' h2 h3 h7
      exact ⟨f', by simp, k, m', h8, h9, h4⟩

theorem swapList_sim (hxy : x ≠ y) (y1 : 1 ≤ y) : ∀ (R : List Nat) (w : St) (d : Df.St) (ab : Nat → Nat),
    Loc x y R w.st d.st ab → FwOK w → Fr d.st →
    (∀ f n, f ∈ R → w.st.heap f = some n → (i + 1 < w.st.elvl n.thn ↔ n.thn.id ≠ y) ∧ (i + 1 < w.st.elvl n.els ↔ n.els.id ≠ y) ∧
      (n.thn.id = y ∨ n.els.id = y)) →
    ∃ w' d' ab', swapList i x y R w = some w' ∧ Df.exchangeList x y (R.map ab) d = some d' ∧
      Loc x y [] w'.st d'.st ab' ∧ FwOK w' ∧ Fr d'.st ∧ Chg x y R w d ab w' d' ab'
  | [], w, d, ab, L, F, Fd, _ => ⟨w, d, ab, rfl, rfl, L, F, Fd, Chg.nil _ _ _ _ _⟩
  | f :: R, w, d, ab, L, F, Fd, H => by
    obtain ⟨n, hf, hfv⟩ := L.rem f (by simp)
    obtain ⟨l1, l0, hy⟩ := H f n (by simp) hf
    obtain ⟨w1, d1, ab1, e1, e2, L1, F1, Fd1, C⟩ := swapNode_sim L hxy y1 F Fd hf l1 l0 hy
    have fR := (List.nodup_cons.1 L.nodup).1
    have Rf : ∀ a, a ∈ R → a ≠ f := by rintro a h rfl; exact fR h
    have hR : ∀ a, a ∈ R → ∃ n, w.st.heap a = some n ∧ n.var = x := fun a ha => L.rem a (by simp [ha])
    have mapR : R.map ab1 = R.map ab := by
      apply List.map_congr_left
      intro a ha
      obtain ⟨m, h1, _⟩ := hR a ha
      exact C.abk a (by simp [h1]) (by simpa using Rf a ha)
    obtain ⟨w2, d2, ab2, e3, e4, L2, F2, Fd2, C2⟩ := swapList_sim hxy y1 R w1 _ ab1 L1 F1 Fd1 (by
      intro f' n' hf' hn'
      obtain ⟨m, h1, _⟩ := hR f' hf'
      have := C.keep f' m h1 (by simpa using Rf f' hf')
      rw [hn'] at this; cases this
      have hh := H f' n' (by simp [hf']) h1
      unfold Store.elvl at hh ⊢
      rw [C.ord]; exact hh)
    refine ⟨w2, d2, ab2, ?_, ?_, L2, F2, Fd2, ?_⟩
    · simp only [swapList, e1]; exact e3
    · simp only [List.map_cons, Df.exchangeList, e2]
      rw [mapR] at e4; exact e4
    · refine Chg.cons hxy hf ?_ ?_ hR L.nodup C C2
      · obtain ⟨m, h1, _⟩ := L.var f n hf
        simp [h1]
      · intro f' hf'
        obtain ⟨m, h1, _⟩ := hR f' hf'
        obtain ⟨m', h2, _⟩ := L.var f' m h1
        simp [h2]

end

end Bfr

end Cal
