import Verif.DfInv

/-!
# The exchange of two adjacent variables, node by node

`Mid` is the invariant of the second loop of `BddExchange`: some nodes of `x` have been turned into
nodes of `y` (`D`), some are still to be turned (`R`).
-/

namespace Cal

namespace Df

/-! ## Counts -/

/-- Every count is saturated or equal to `c`. -/
def Cnt (s : Store) (c : Nat → Nat) : Prop :=
  s.ref 0 = maxRef ∧ ∀ a, s.heap a ≠ none → s.ref a ≤ maxRef ∧ (s.ref a = maxRef ∨ s.ref a = c a)

theorem Cnt.icr {s : Store} {c} (h : Cnt s c) (e : Edge) : Cnt (s.icr e) (fun a => c a + hits e a) := by
  refine ⟨?_, fun a ha => icr_cnt (h.2 a ha).1 (h.2 a ha).2⟩
  by_cases h0 : 0 = e.addr
  · simp [Store.icr, ← h0, h.1]
  · rw [icr_ne h0]; exact h.1

theorem Cnt.dcr {s : Store} {c} {e : Edge} (h : Cnt s (fun a => c a + hits e a)) : Cnt (s.dcr e) c := by
  refine ⟨?_, fun a ha => dcr_cnt (h.2 a ha).1 (h.2 a ha).2⟩
  by_cases h0 : 0 = e.addr
  · simp [Store.dcr, ← h0, h.1]
  · rw [dcr_ne h0]; exact h.1

theorem Cnt.congr {s : Store} {c c' : Nat → Nat} (h : Cnt s c) (hc : ∀ a, c a = c' a) : Cnt s c' := by
  refine ⟨h.1, fun a ha => ?_⟩
  rw [← hc a]; exact h.2 a ha

theorem refOK_cnt {s : Store} {ext} : s.RefOK ext ↔
    Cnt s (fun a => s.inDeg a + ext a) ∧ ∀ a, a ≠ 0 → s.heap a = none → ext a = 0 :=
  ⟨fun h => ⟨⟨h.const, fun a ha => ⟨h.le a ha, h.cnt a ha⟩⟩, h.ext0⟩,
   fun h => ⟨h.1.1, fun a ha => (h.1.2 a ha).1, fun a ha => (h.1.2 a ha).2, h.2⟩⟩

/-! ## Allocation -/

/-- The part of the invariant that allocation needs. -/
structure Fr (s : Store) : Prop where
  heap0 : s.heap 0 = none
  next_pos : 0 < s.next
  heap_next : ∀ a n, s.heap a = some n → a < s.next
  free_nodup : ∀ i, (s.free i).Nodup
  free_ok : ∀ i a, a ∈ s.free i → s.heap a = none ∧ 0 < a ∧ a < s.next
  free_disj : ∀ i j a, a ∈ s.free i → a ∈ s.free j → i = j

theorem PWF.fr {s : Store} (w : PWF s) : Fr s :=
  ⟨w.heap0, w.next_pos, w.heap_next, w.free_nodup, w.free_ok, w.free_disj⟩

/-- Nothing but the store and `freeListId` has changed. -/
structure Frame (d d' : St) : Prop where
  assocs : d'.assocs = d.assocs
  temp : d'.temp = d.temp
  mat : d'.mat = d.mat
  swaps : d'.swaps = d.swaps
  trivial : d'.trivial = d.trivial

theorem Frame.refl (d : St) : Frame d d := ⟨rfl, rfl, rfl, rfl, rfl⟩
theorem Frame.trans {d d' d'' : St} (h : Frame d d') (g : Frame d' d'') : Frame d d'' :=
  ⟨g.assocs.trans h.assocs, g.temp.trans h.temp, g.mat.trans h.mat, g.swaps.trans h.swaps,
    g.trivial.trans h.trivial⟩

structure AllocRes (d : St) (a : Nat) (d' : St) : Prop where
  frame : Frame d d'
  heap : d'.st.heap = d.st.heap
  tab : d'.st.tab = d.st.tab
  ord : d'.st.ord = d.st.ord
  num : d'.st.numNodes = d.st.numNodes
  ref : d'.st.ref = upd d.st.ref a 0
  old : d.st.heap a = none
  pos : a ≠ 0
  fr : Fr d'.st
  notfree : ∀ i, a ∉ d'.st.free i
  lt : a < d'.st.next
  next_le : d.st.next ≤ d'.st.next
  gcc : d'.st.gcCheck = d.st.gcCheck

theorem alloc_fresh {d : St} (f : Fr d.st) (j : Nat) :
    AllocRes d d.st.next { d with st := { d.st with next := d.st.next + 1, ref := upd d.st.ref d.st.next 0 },
                                  fid := j } := by
  have hn : d.st.heap d.st.next = none := by
    cases h : d.st.heap d.st.next with
    | none => rfl
    | some n => have := f.heap_next _ _ h; omega
  refine ⟨⟨rfl, rfl, rfl, rfl, rfl⟩, rfl, rfl, rfl, rfl, rfl, hn, by have := f.next_pos; omega, ?_, ?_,
    Nat.lt_succ_self _, Nat.le_succ _, rfl⟩
  · refine ⟨f.heap0, Nat.succ_pos _, ?_, f.free_nodup, ?_, f.free_disj⟩
    · intro a n h; exact Nat.lt_succ_of_lt (f.heap_next a n h)
    · intro i a h
      have := f.free_ok i a h
      exact ⟨this.1, this.2.1, Nat.lt_succ_of_lt this.2.2⟩
  · intro i h
    have := (f.free_ok i _ h).2.2
    omega

theorem alloc_spec {d : St} (f : Fr d.st) : AllocRes d (alloc d).1 (alloc d).2 := by
  unfold alloc
  cases h0 : d.st.free 0 with
  | cons a rest =>
    simp only [h0]
    have ha := f.free_ok 0 a (by simp [h0])
    have hnd := f.free_nodup 0
    rw [h0] at hnd
    have hnd := List.nodup_cons.1 hnd
    have sub : ∀ i b, b ∈ upd d.st.free 0 rest i → b ∈ d.st.free i := by
      intro i b hb
      by_cases hi : i = 0
      · subst hi; rw [upd_same] at hb; simp [h0, hb]
      · rwa [upd_ne _ _ hi] at hb
    refine ⟨⟨rfl, rfl, rfl, rfl, rfl⟩, rfl, rfl, rfl, rfl, rfl, ha.1, by omega, ?_, ?_, ha.2.2,
      Nat.le_refl _, rfl⟩
    · refine ⟨f.heap0, f.next_pos, f.heap_next, ?_, fun i b hb => f.free_ok i b (sub i b hb),
        fun i j b hi hj => f.free_disj i j b (sub i b hi) (sub j b hj)⟩
      intro i
      show (upd d.st.free 0 rest i).Nodup
      by_cases hi : i = 0
      · subst hi; rw [upd_same]; exact hnd.2
      · rw [upd_ne _ _ hi]; exact f.free_nodup i
    · intro i hi
      have hi : a ∈ upd d.st.free 0 rest i := hi
      have := f.free_disj i 0 a (sub i a hi) (by simp [h0])
      subst this
      rw [upd_same] at hi
      exact hnd.1 hi
  | nil =>
    simp only [h0]
    split
    · generalize findFree d.st (d.st.ord.numVars + 1 - d.fid) d.fid = j
      split
      · rename_i a rest hl
        have hj : d.st.free j = a :: rest := by
          split at hl
          · exact hl
          · cases hl
        have hj0 : j ≠ 0 := by rintro rfl; rw [h0] at hj; cases hj
        have ha := f.free_ok j a (by simp [hj])
        have hnd := f.free_nodup j
        rw [hj] at hnd
        have hnd := List.nodup_cons.1 hnd
        have sub : ∀ i b, b ∈ upd (upd d.st.free j []) 0 rest i →
            (i = 0 ∧ b ∈ rest) ∨ (i ≠ 0 ∧ i ≠ j ∧ b ∈ d.st.free i) := by
          intro i b hb
          by_cases hi : i = 0
          · subst hi; rw [upd_same] at hb; exact Or.inl ⟨rfl, hb⟩
          · rw [upd_ne _ _ hi] at hb
            by_cases hij : i = j
            · subst hij; rw [upd_same] at hb; cases hb
            · rw [upd_ne _ _ hij] at hb; exact Or.inr ⟨hi, hij, hb⟩
        refine ⟨⟨rfl, rfl, rfl, rfl, rfl⟩, rfl, rfl, rfl, rfl, rfl, ha.1, by omega, ?_, ?_, ha.2.2,
          Nat.le_refl _, rfl⟩
        · refine ⟨f.heap0, f.next_pos, f.heap_next, ?_, ?_, ?_⟩
          · intro i
            show (upd (upd d.st.free j []) 0 rest i).Nodup
            by_cases hi : i = 0
            · subst hi; rw [upd_same]; exact hnd.2
            · rw [upd_ne _ _ hi]
              by_cases hij : i = j
              · subst hij; rw [upd_same]; exact List.nodup_nil
              · rw [upd_ne _ _ hij]; exact f.free_nodup i
          · intro i b hb
            rcases sub i b hb with ⟨_, h⟩ | ⟨_, _, h⟩
            · exact f.free_ok j b (by simp [hj, h])
            · exact f.free_ok i b h
          · intro i k b hi hk
            rcases sub i b hi with ⟨h1, h2⟩ | ⟨h1, h2, h3⟩ <;>
              rcases sub k b hk with ⟨g1, g2⟩ | ⟨g1, g2, g3⟩
            · omega
            · exact absurd (f.free_disj k j b g3 (by simp [hj, h2])) g2
            · exact absurd (f.free_disj i j b h3 (by simp [hj, g2])) h2
            · exact f.free_disj i k b h3 g3
        · intro i hi
          rcases sub i a hi with ⟨_, h⟩ | ⟨_, h1, h2⟩
          · exact hnd.1 h
          · exact h1 (f.free_disj i j a h2 (by simp [hj]))
      · exact alloc_fresh f j
    · exact alloc_fresh f d.fid

/-! ## Cofactors -/

theorem cof_congr {s s' : Store} {v : Nat} {e : Edge} (h : s'.heap e.addr = s.heap e.addr) :
    cof s' v e = cof s v e := by
  unfold cof pvar; rw [h]

theorem cof_node {s : Store} (h0 : s.heap 0 = none) {v : Nat} {e : Edge} {n} (h : s.heap e.addr = some n)
    (hv : n.var = v) : cof s v e = some (n.thn.phase e.neg, n.els.phase e.neg) := by
  have : e.addr ≠ 0 := by intro h'; rw [h', h0] at h; cases h
  simp [cof, pvar, this, h, hv]

theorem cof_other {s : Store} {v : Nat} {e : Edge} (hv : v ≠ 0)
    (h : e.addr = 0 ∨ ∃ n, s.heap e.addr = some n ∧ n.var ≠ v) : cof s v e = some (e, e) := by
  rcases h with h | ⟨n, hn, h⟩
  · have : ¬ 0 = v := fun h => hv h.symm
    simp [cof, pvar, h, this]
  · unfold cof pvar
    by_cases h0 : e.addr = 0
    · have : ¬ 0 = v := fun h => hv h.symm
      simp [h0, this]
    · simp [h0, hn, h]

theorem cof_den {s : Store} {δ} (l : Lab s δ) {v : Nat} (v0 : v ≠ 0) {e t u : Edge} (h : cof s v e = some (t, u))
    (ρ : Asg) : den δ e ρ = if ρ v then den δ t ρ else den δ u ρ := by
  unfold cof at h
  cases hp : pvar s e with
  | none => rw [hp] at h; cases h
  | some w =>
    rw [hp] at h
    simp only at h
    split at h
    · rename_i hw
      cases hn : s.heap e.addr with
      | none => rw [hn] at h; cases h
      | some n =>
        rw [hn] at h
        simp only [Option.some.injEq, Prod.mk.injEq] at h
        obtain ⟨rfl, rfl⟩ := h
        have hv : n.var = v := by
          unfold pvar at hp
          split at hp
          · have h0 : w = 0 := by simpa using hp.symm
            omega
          · rw [hn] at hp; simp only [Option.map_some, Option.some.injEq] at hp; omega
        rw [den_phase, den_phase]
        show xor e.neg (δ e.addr ρ) = _
        rw [l.node _ _ hn ρ, hv]
        split <;> rfl
    · simp only [Option.some.injEq, Prod.mk.injEq] at h
      obtain ⟨rfl, rfl⟩ := h
      simp

/-! ## The invariant -/

/-- `x` and `y` are neighbours in the order of a well-formed store, `x` above `y`. -/
structure Adj (s0 : Store) (x y : Nat) : Prop where
  w : PWF s0
  x1 : 1 ≤ x
  x2 : x ≤ s0.ord.numVars
  y1 : 1 ≤ y
  y2 : y ≤ s0.ord.numVars
  lv : s0.ord.lvl y = s0.ord.lvl x + 1

theorem Adj.ne {s0 x y} (A : Adj s0 x y) : x ≠ y := by
  intro h; have := A.lv; rw [h] at this; omega

/-- A pointer below both levels. -/
def Low (s0 : Store) (x : Nat) (e : Edge) : Prop := Below s0 (s0.ord.lvl x + 1) e

/-- A pointer below both levels, or to a node of `x`. -/
def XLow (s0 : Store) (x : Nat) (s : Store) (e : Edge) : Prop := Low s0 x e ∨ e.addr ∈ s.tab x

/-- The node has a child of `y`. -/
def HasY (s : Store) (y : Nat) (n : Node) : Prop :=
  (∃ m, s.heap n.thn.addr = some m ∧ m.var = y) ∨ (∃ m, s.heap n.els.addr = some m ∧ m.var = y)

/-- The node `a` of `x` has become a node of `y` with the same four cofactors. -/
structure DoneAt (s0 : Store) (x y : Nat) (s : Store) (a : Nat) (n0 n : Node) (f11 f10 f01 f00 : Edge) :
    Prop where
  old : s0.heap a = some n0
  var0 : n0.var = x
  has : HasY s0 y n0
  cur : s.heap a = some n
  var : n.var = y
  plain : n.thn.id = 0 ∧ n.els.id = 0
  pos : n.thn.neg = false
  ct0 : cof s0 y n0.thn = some (f11, f10)
  ce0 : cof s0 y n0.els = some (f01, f00)
  ct : cof s x n.thn = some (f11, f01)
  ce : cof s x n.els = some (f10, f00)
  xt : XLow s0 x s n.thn
  xe : XLow s0 x s n.els

/-- A function whose support is covered by that of a node of `s0`. -/
def Src (s0 : Store) (δ0 : Nat → BFn) (F : BFn) : Prop :=
  ∃ b, s0.heap b ≠ none ∧ ∀ v, Indep (δ0 b) v → Indep F v

structure Mid (s0 : Store) (x y : Nat) (δ0 : Nat → BFn) (D R : List Nat) (s : Store) (δ : Nat → BFn) :
    Prop where
  ord : s.ord = s0.ord
  keep : ∀ a n, s0.heap a = some n → a ∉ D → s.heap a = some n
  done : ∀ a, a ∈ D → ∃ n0 n f11 f10 f01 f00, DoneAt s0 x y s a n0 n f11 f10 f01 f00
  xs : ∀ a, a ∈ s.tab x → ∃ n, s.heap a = some n ∧ n.var = x ∧ a ∉ R ∧ (n.thn.id = 0 ∧ n.els.id = 0) ∧
    Low s0 x n.thn ∧ Low s0 x n.els ∧ n.thn.neg = false ∧ n.thn ≠ n.els
  new : ∀ a n, s.heap a = some n → s0.heap a = none → a ∈ s.tab x
  tabx : ∀ a n, s0.heap a = some n → n.var = x → a ∉ D → a ∉ R → a ∈ s.tab x
  taby : ∀ a, a ∈ s.tab y ↔ a ∈ s0.tab y ∨ a ∈ D
  tabo : ∀ j, j ≠ x → j ≠ y → s.tab j = s0.tab j
  uniqx : ∀ a b n, a ∈ s.tab x → b ∈ s.tab x → s.heap a = some n → s.heap b = some n → a = b
  nodup : ∀ j, (s.tab j).Nodup
  rem : ∀ a, a ∈ R → a ∉ D ∧ ∃ n, s0.heap a = some n ∧ n.var = x ∧ HasY s0 y n
  remnd : R.Nodup
  fr : Fr s
  lab : Lab s δ
  agree : ∀ a, s0.heap a ≠ none → δ a = δ0 a
  lab0 : Lab s0 δ0
  src : ∀ a n, s.heap a = some n → Src s0 δ0 (δ a)

section

variable {s0 : Store} {x y : Nat} {δ0 δ : Nat → BFn} {D R : List Nat} {s : Store}

theorem Mid.refs (M : Mid s0 x y δ0 D R s δ) (r : Nat → Nat) (k : Nat) (g : Int) :
    Mid s0 x y δ0 D R { s with ref := r, numNodes := k, gcCheck := g } δ :=
  ⟨M.ord, M.keep, fun a ha =>
      let ⟨n0, n, a1, a2, a3, a4, h⟩ := M.done a ha
      ⟨n0, n, a1, a2, a3, a4, ⟨h.old, h.var0, h.has, h.cur, h.var, h.plain, h.pos, h.ct0, h.ce0, h.ct,
        h.ce, h.xt, h.xe⟩⟩,
    M.xs, M.new, M.tabx, M.taby, M.tabo, M.uniqx, M.nodup, M.rem, M.remnd,
    ⟨M.fr.heap0, M.fr.next_pos, M.fr.heap_next, M.fr.free_nodup, M.fr.free_ok, M.fr.free_disj⟩,
    ⟨M.lab.const, M.lab.node⟩, M.agree, M.lab0, M.src⟩

theorem Mid.icr (M : Mid s0 x y δ0 D R s δ) (e : Edge) : Mid s0 x y δ0 D R (s.icr e) δ :=
  M.refs (s.icr e).ref s.numNodes s.gcCheck

theorem Mid.dcr (M : Mid s0 x y δ0 D R s δ) (e : Edge) : Mid s0 x y δ0 D R (s.dcr e) δ :=
  M.refs (s.dcr e).ref s.numNodes s.gcCheck

theorem Mid.notD (M : Mid s0 x y δ0 D R s δ) {a n} (h : s0.heap a = some n) (hv : n.var ≠ x) : a ∉ D := by
  intro ha
  obtain ⟨n0, n', _, _, _, _, g⟩ := M.done a ha
  have := g.old
  rw [h] at this; cases this
  exact hv g.var0

theorem Mid.below (A : Adj s0 x y) (M : Mid s0 x y δ0 D R s δ) {e : Edge}
    (h : Below s0 (s0.ord.lvl x) e) : s.heap e.addr = s0.heap e.addr := by
  rcases h with h | ⟨m, hm, hl⟩
  · rw [h, M.fr.heap0, A.w.heap0]
  · rw [hm]
    exact M.keep _ _ hm (M.notD hm (by rintro rfl; omega))

theorem Low.below {e : Edge} (h : Low s0 x e) : Below s0 (s0.ord.lvl x) e := h.weaken (by omega)

theorem Mid.low_heap (A : Adj s0 x y) (M : Mid s0 x y δ0 D R s δ) {e : Edge} (h : Low s0 x e) :
    s.heap e.addr = s0.heap e.addr := M.below A h.below

/-- a `Low` pointer is its own cofactor -/
theorem Mid.low_cof (A : Adj s0 x y) (M : Mid s0 x y δ0 D R s δ) {e : Edge} (h : Low s0 x e) :
    cof s x e = some (e, e) := by
  refine cof_other (by have := A.x1; omega) ?_
  rw [M.low_heap A h]
  rcases h with h | ⟨m, hm, hl⟩
  · exact Or.inl h
  · exact Or.inr ⟨m, hm, by rintro rfl; omega⟩

theorem Mid.low_live (A : Adj s0 x y) (M : Mid s0 x y δ0 D R s δ) {e : Edge} (h : Low s0 x e) :
    e.addr = 0 ∨ s.heap e.addr ≠ none := by
  rw [M.low_heap A h]
  rcases h with h | ⟨m, hm, hl⟩
  · exact Or.inl h
  · exact Or.inr (by simp [hm])

theorem Mid.xlow_live (A : Adj s0 x y) (M : Mid s0 x y δ0 D R s δ) {e : Edge} (h : XLow s0 x s e) :
    e.addr = 0 ∨ s.heap e.addr ≠ none := by
  rcases h with h | h
  · exact M.low_live A h
  · obtain ⟨n, hn, _⟩ := M.xs _ h
    exact Or.inr (by simp [hn])

theorem Mid.old_live (M : Mid s0 x y δ0 D R s δ) {a} (h : s0.heap a ≠ none) : s.heap a ≠ none := by
  by_cases hd : a ∈ D
  · obtain ⟨n0, n', _, _, _, _, g⟩ := M.done a hd
    simp [g.cur]
  · cases hn : s0.heap a with
    | none => exact absurd hn h
    | some n => simp [M.keep a n hn hd]

/-- Every node is an untouched old node, a converted one, or a node of `x`. -/
theorem Mid.cases (M : Mid s0 x y δ0 D R s δ) {a n} (h : s.heap a = some n) :
    a ∈ D ∨ (a ∉ D ∧ s0.heap a = some n) ∨ (s0.heap a = none ∧ a ∈ s.tab x) := by
  by_cases hd : a ∈ D
  · exact Or.inl hd
  · cases h0 : s0.heap a with
    | none => exact Or.inr (Or.inr ⟨rfl, M.new a n h h0⟩)
    | some m =>
      have := M.keep a m h0 hd
      rw [h] at this; cases this
      exact Or.inr (Or.inl ⟨hd, rfl⟩)

theorem below_live {s0 : Store} {k e} (h : Below s0 k e) : e.addr = 0 ∨ s0.heap e.addr ≠ none := by
  rcases h with h | ⟨m, hm, _⟩
  · exact Or.inl h
  · exact Or.inr (by simp [hm])

theorem Mid.closed (A : Adj s0 x y) (M : Mid s0 x y δ0 D R s δ) {a n} (h : s.heap a = some n) :
    (n.thn.addr = 0 ∨ s.heap n.thn.addr ≠ none) ∧ (n.els.addr = 0 ∨ s.heap n.els.addr ≠ none) := by
  rcases M.cases h with hd | ⟨_, h0⟩ | ⟨_, hx⟩
  · obtain ⟨n0, n', _, _, _, _, g⟩ := M.done a hd
    have := g.cur; rw [h] at this; cases this
    exact ⟨M.xlow_live A g.xt, M.xlow_live A g.xe⟩
  · exact ⟨(below_live (A.w.thn_lo a n h0)).imp_right M.old_live,
      (below_live (A.w.els_lo a n h0)).imp_right M.old_live⟩
  · obtain ⟨n', hn, _, _, _, lt, le, _⟩ := M.xs a hx
    rw [h] at hn; cases hn
    exact ⟨M.low_live A lt, M.low_live A le⟩

theorem arcs_eq {s : Store} {a n} (h : s.heap a = some n) (b) : s.arcs a b = hits n.thn b + hits n.els b := by
  simp [Store.arcs, h]

theorem hits_zero {e : Edge} {b : Nat} (h : e.addr ≠ b) : hits e b = 0 := by simp [hits, h]

theorem Mid.inDeg_dead (A : Adj s0 x y) (M : Mid s0 x y δ0 D R s δ) {b} (hb : b ≠ 0)
    (h : s.heap b = none) : s.inDeg b = 0 := by
  refine sumTo_zero fun a _ => ?_
  cases hn : s.heap a with
  | none => simp [Store.arcs, hn]
  | some n =>
    have c := M.closed A hn
    have h1 : n.thn.addr ≠ b := by
      rintro rfl; rcases c.1 with g | g
      · exact hb g
      · exact g h
    have h2 : n.els.addr ≠ b := by
      rintro rfl; rcases c.2 with g | g
      · exact hb g
      · exact g h
    rw [arcs_eq hn, hits_zero h1, hits_zero h2]

theorem Mid.low_den (A : Adj s0 x y) (M : Mid s0 x y δ0 D R s δ) {e : Edge} (h : Low s0 x e) :
    den δ e = den δ0 e := by
  funext ρ
  unfold den
  rcases h with h | ⟨m, hm, _⟩
  · rw [h, M.lab.const, M.lab0.const]
  · rw [M.agree _ (by simp [hm])]

theorem Low.indep (A : Adj s0 x y) (l : Lab s0 δ0) {e : Edge} (h : Low s0 x e) {v}
    (hv : s0.ord.lvl v ≤ s0.ord.lvl x + 1) : Indep (den δ0 e) v := by
  have w := A.w.reid
  have l' := lab_reid.2 l
  rcases id h with h0 | ⟨m, hm, hl⟩
  · intro ρ b
    simp [den, h0, l.const]
  · have he : (reid s0).EOK (reidE s0 e) := Below.eok A.w.heap0 h
    have := l'.indep w he (v := v) (by
      have e1 : (reidE s0 e).id = m.var := tagId_node A.w.heap0 hm
      rw [e1]
      show s0.ord.lvl v < s0.ord.lvl m.var
      omega)
    exact this

/-- the cofactors with respect to `y` of a child of a node of `x` are below both levels -/
theorem Adj.cofy (A : Adj s0 x y) {e : Edge} (h : Below s0 (s0.ord.lvl x) e) (hid : e.id = 0) :
    ∃ t u, cof s0 y e = some (t, u) ∧ Low s0 x t ∧ Low s0 x u ∧ t.id = 0 ∧ u.id = 0 ∧
      (e.neg = false → t.neg = false) := by
  rcases h with h | ⟨m, hm, hl⟩
  · exact ⟨e, e, cof_other (by have := A.y1; omega) (Or.inl h), Or.inl h, Or.inl h, hid, hid, id⟩
  · by_cases hv : m.var = y
    · refine ⟨_, _, cof_node A.w.heap0 hm hv, ?_, ?_, ?_, ?_, ?_⟩
      · have := A.w.thn_lo _ _ hm
        rw [hv, A.lv] at this; exact this
      · have := A.w.els_lo _ _ hm
        rw [hv, A.lv] at this; exact this
      · exact (A.w.plain _ _ hm).1
      · exact (A.w.plain _ _ hm).2
      · intro hneg
        have := A.w.thn_pos _ _ hm
        simp [Edge.phase, hneg, this]
    · have hlow : Low s0 x e := by
        refine Or.inr ⟨m, hm, ?_⟩
        have vr := A.w.var_range _ _ hm
        have : s0.ord.lvl m.var ≠ s0.ord.lvl y := by
          intro h'
          exact hv (A.w.ord.lvl_inj vr.1 vr.2 A.y1 A.y2 h')
        have := A.lv
        omega
      exact ⟨e, e, cof_other (by have := A.y1; omega) (Or.inr ⟨m, hm, hv⟩), hlow, hlow, hid, hid, id⟩

end

/-! ## New children -/

theorem ite_bnot (c a b : Bool) : (if c then !a else !b) = !(if c then a else b) := by
  cases c <;> rfl

theorem asg_comm (ρ : Asg) {v w : Nat} (a b : Bool) (h : v ≠ w) :
    upd (upd ρ v a) w b = upd (upd ρ w b) v a := by
  funext x; unfold upd; split <;> split <;> simp_all

def tabSum (s : Store) : Nat := sumTo (fun i => (s.tab i).length) (s.ord.numVars + 1)

/-- What making a new child does besides its result. -/
structure Grow (s0 : Store) (x y : Nat) (δ0 : Nat → BFn) (D R : List Nat) (d d' : St) (δ' : Nat → BFn)
    (found : Bool) (t e : Edge) : Prop where
  mid : Mid s0 x y δ0 D R d'.st δ'
  frame : Frame d d'
  heap : ∀ b n, d.st.heap b = some n → d'.st.heap b = some n
  tab : ∀ b, b ∈ d.st.tab x → b ∈ d'.st.tab x
  deg : ∀ b, d'.st.inDeg b = d.st.inDeg b + if found then 0 else hits t b + hits e b
  sum : tabSum d'.st = tabSum d.st + if found then 0 else 1

section

variable {s0 : Store} {x y : Nat} {δ0 δ : Nat → BFn} {D R : List Nat}

theorem DoneAt.mono {s s' : Store} (A : Adj s0 x y) (M : Mid s0 x y δ0 D R s δ) {a n0 n f11 f10 f01 f00}
    (h : DoneAt s0 x y s a n0 n f11 f10 f01 f00)
    (h0 : s'.heap 0 = none) (ha : s'.heap a = s.heap a)
    (hm : ∀ b n, s.heap b = some n → (b ∈ s.tab x ∨ ∃ k, s0.heap b = some k ∧ k.var ≠ x) →
      s'.heap b = some n)
    (ht : ∀ b, b ∈ s.tab x → b ∈ s'.tab x) : DoneAt s0 x y s' a n0 n f11 f10 f01 f00 := by
  have key : ∀ e, XLow s0 x s e → s'.heap e.addr = s.heap e.addr := by
    intro e he
    rcases he with he | he
    · rcases id he with hz | ⟨m, hm', hl⟩
      · rw [hz, h0, M.fr.heap0]
      · have h1 := M.low_heap A he
        rw [h1, hm']
        exact hm _ _ (by rw [h1, hm']) (Or.inr ⟨m, hm', by rintro rfl; omega⟩)
    · obtain ⟨n, hn, _⟩ := M.xs _ he
      rw [hn]; exact hm _ _ hn (Or.inl he)
  exact ⟨h.old, h.var0, h.has, by rw [ha]; exact h.cur, h.var, h.plain, h.pos, h.ct0, h.ce0,
    by rw [cof_congr (key _ h.xt)]; exact h.ct, by rw [cof_congr (key _ h.xe)]; exact h.ce,
    h.xt.imp_right (ht _), h.xe.imp_right (ht _)⟩

theorem lookup_mem {s : Store} {i a : Nat} {t e : Edge} (h : s.lookup i t e = some a) :
    a ∈ s.tab i ∧ ∃ n, s.heap a = some n ∧ n.thn = t ∧ n.els = e := by
  unfold Store.lookup at h
  refine ⟨List.mem_of_find?_eq_some h, ?_⟩
  have := List.find?_some h
  split at this
  · rename_i n hn
    exact ⟨n, hn, by simpa using this⟩
  · cases this

theorem lookup_no {s : Store} {i : Nat} {t e : Edge} (h : s.lookup i t e = none) {a n}
    (ha : a ∈ s.tab i) (hn : s.heap a = some n) : ¬ (n.thn = t ∧ n.els = e) := by
  unfold Store.lookup at h
  have := List.find?_eq_none.1 h a ha
  simpa [hn] using this

theorem hfa_spec (A : Adj s0 x y) {d : St} (M : Mid s0 x y δ0 D R d.st δ) {t e : Edge}
    (lt : Low s0 x t) (le : Low s0 x e) (idt : t.id = 0) (ide : e.id = 0) (pos : t.neg = false)
    (ne : t ≠ e) (src : Src s0 δ0 (fun ρ => if ρ x then den δ0 t ρ else den δ0 e ρ))
    {c : Nat → Nat} (hc : Cnt d.st c) (c0 : ∀ b, b ≠ 0 → d.st.heap b = none → c b = 0) :
    ∃ d' a found δ', hashFindOrAdd d x t e = (d', ⟨0, a, false⟩, found) ∧
      Grow s0 x y δ0 D R d d' δ' found t e ∧ d'.st.heap a = some ⟨x, t, e⟩ ∧ a ∈ d'.st.tab x ∧
      Cnt d'.st c ∧ d'.st.numNodes = d.st.numNodes := by
  unfold hashFindOrAdd
  cases hl : d.st.lookup x t e with
  | some a =>
    obtain ⟨ha, n, hn, ht, he⟩ := lookup_mem hl
    obtain ⟨n', hn', hv, _⟩ := M.xs a ha
    rw [hn] at hn'; cases hn'
    refine ⟨d, a, true, δ, rfl, ⟨M, Frame.refl d, fun _ _ h => h, fun _ h => h, by simp, by simp⟩, ?_, ha,
      hc, rfl⟩
    rw [hn]; cases n; simp_all
  | none =>
    have al := alloc_spec M.fr
    generalize hd1 : (alloc d).2 = d1 at al
    generalize hal : (alloc d).1 = a at al
    have hpair : alloc d = (a, d1) := by rw [← hd1, ← hal]
    simp only [hpair]
    let s' := d1.st.insertAt x a t e
    have hheap : s'.heap = upd d.st.heap a (some ⟨x, t, e⟩) := by
      show upd d1.st.heap a _ = _; rw [al.heap]
    have htab : s'.tab = upd d.st.tab x (a :: d.st.tab x) := by
      show upd d1.st.tab x (a :: d1.st.tab x) = _; rw [al.tab]
    have hna : ∀ b n, d.st.heap b = some n → b ≠ a := by
      rintro b n hb rfl; rw [al.old] at hb; cases hb
    have hmono : ∀ b n, d.st.heap b = some n → s'.heap b = some n := by
      intro b n hb; rw [hheap, upd_ne _ _ (hna b n hb)]; exact hb
    have htmono : ∀ b, b ∈ d.st.tab x → b ∈ s'.tab x := by
      intro b hb; rw [htab, upd_same]; exact List.mem_cons_of_mem _ hb
    have hord : s'.ord = s0.ord := al.ord.trans M.ord
    have h0 : s'.heap 0 = none := by rw [hheap, upd_ne _ _ (Ne.symm al.pos)]; exact M.fr.heap0
    have ha0 : s0.heap a = none := by
      cases h : s0.heap a with
      | none => rfl
      | some n => exact absurd al.old (M.old_live (by simp [h]))
    have haD : a ∉ D := by
      intro h
      obtain ⟨n0, n', _, _, _, _, g⟩ := M.done a h
      rw [g.old] at ha0; cases ha0
    have haR : a ∉ R := by
      intro h
      obtain ⟨_, n, hn, _⟩ := M.rem a h
      rw [hn] at ha0; cases ha0
    have hatab : ∀ j, a ∉ d.st.tab j := by
      intro j hj
      by_cases hjx : j = x
      · subst hjx
        obtain ⟨n, hn, _⟩ := M.xs a hj
        exact hna _ _ hn rfl
      · have : a ∈ s0.tab j := by
          by_cases hjy : j = y
          · subst hjy
            exact ((M.taby a).1 hj).resolve_right haD
          · rw [M.tabo j hjx hjy] at hj; exact hj
        obtain ⟨n, hn, _⟩ := (A.w.tab_iff j a).1 this
        rw [hn] at ha0; cases ha0
    let δ' : Nat → BFn := upd δ a (fun ρ => if ρ x then den δ t ρ else den δ e ρ)
    have hden : ∀ f : Edge, f.addr ≠ a → den δ' f = den δ f := by
      intro f hf; funext ρ; simp [den, δ', upd_ne _ _ hf]
    have nea : ∀ f : Edge, (f.addr = 0 ∨ d.st.heap f.addr ≠ none) → f.addr ≠ a := by
      rintro f (h | h) rfl
      · exact al.pos h
      · exact h al.old
    have lab' : Lab s' δ' := by
      refine ⟨?_, ?_⟩
      · show upd δ a _ 0 = _
        rw [upd_ne _ _ (Ne.symm al.pos)]; exact M.lab.const
      · intro b n hb ρ
        by_cases hba : b = a
        · subst hba
          rw [hheap, upd_same] at hb; cases hb
          show upd δ b _ b ρ = _
          rw [upd_same, hden t (nea t (M.low_live A lt)), hden e (nea e (M.low_live A le))]
        · rw [hheap, upd_ne _ _ hba] at hb
          have cl := M.closed A hb
          show upd δ a _ b ρ = _
          rw [upd_ne _ _ hba, hden _ (nea _ cl.1), hden _ (nea _ cl.2)]
          exact M.lab.node b n hb ρ
    have mid' : Mid s0 x y δ0 D R s' δ' := by
      refine ⟨hord, fun b n hb hD => hmono b n (M.keep b n hb hD), ?_, ?_, ?_, ?_, ?_, ?_, ?_, ?_, M.rem,
        M.remnd, ?_, lab', ?_, M.lab0, ?_⟩
      · intro b hb
        obtain ⟨n0, n, a1, a2, a3, a4, g⟩ := M.done b hb
        refine ⟨n0, n, a1, a2, a3, a4, g.mono A M h0 ?_ (fun b n hb _ => hmono b n hb) htmono⟩
        rw [g.cur]; exact hmono b n g.cur
      · intro b hb
        rw [htab, upd_same] at hb
        rcases List.mem_cons.1 hb with rfl | hb
        · exact ⟨⟨x, t, e⟩, by rw [hheap, upd_same], rfl, haR, ⟨idt, ide⟩, lt, le, pos, ne⟩
        · obtain ⟨n, hn, hr⟩ := M.xs b hb
          exact ⟨n, hmono b n hn, hr⟩
      · intro b n hb hb0
        rw [htab, upd_same]
        by_cases hba : b = a
        · rw [hba]; exact List.mem_cons_self
        · rw [hheap, upd_ne _ _ hba] at hb
          exact List.mem_cons_of_mem _ (M.new b n hb hb0)
      · intro b n hb hv hD hR
        exact htmono b (M.tabx b n hb hv hD hR)
      · intro b
        rw [htab, upd_ne _ _ (Ne.symm A.ne)]; exact M.taby b
      · intro j hx hy
        rw [htab, upd_ne _ _ hx]; exact M.tabo j hx hy
      · have aux : ∀ b n, b ∈ d.st.tab x → s'.heap a = some n → s'.heap b = some n → False := by
          intro b n hb h1 h2
          obtain ⟨m, hm, _⟩ := M.xs b hb
          have h3 := hmono b m hm
          rw [hheap, upd_same] at h1; cases h1
          rw [h2] at h3; cases h3
          exact lookup_no hl hb hm ⟨rfl, rfl⟩
        intro b b' n hb hb' h1 h2
        rw [htab, upd_same] at hb hb'
        rcases List.mem_cons.1 hb with k1 | k1 <;> rcases List.mem_cons.1 hb' with k2 | k2
        · rw [k1, k2]
        · rw [k1] at h1; exact (aux b' n k2 h1 h2).elim
        · rw [k2] at h2; exact (aux b n k1 h2 h1).elim
        · obtain ⟨m, hm, _⟩ := M.xs b k1
          obtain ⟨m', hm', _⟩ := M.xs b' k2
          have e1 := hmono b m hm
          have e2 := hmono b' m' hm'
          rw [h1] at e1; cases e1
          rw [h2] at e2; cases e2
          exact M.uniqx b b' n k1 k2 hm hm'
      · intro j
        rw [htab]
        by_cases hj : j = x
        · subst hj; rw [upd_same]; exact List.nodup_cons.2 ⟨hatab j, M.nodup j⟩
        · rw [upd_ne _ _ hj]; exact M.nodup j
      · refine ⟨h0, al.fr.next_pos, ?_, al.fr.free_nodup, ?_, al.fr.free_disj⟩
        · intro b n hb
          by_cases hba : b = a
          · subst hba; exact al.lt
          · rw [hheap, upd_ne _ _ hba] at hb
            have := M.fr.heap_next b n hb
            exact Nat.lt_of_lt_of_le this al.next_le
        · intro i b hb
          have := al.fr.free_ok i b hb
          refine ⟨?_, this.2⟩
          have hba : b ≠ a := by rintro rfl; exact al.notfree i hb
          rw [hheap, upd_ne _ _ hba, ← al.heap]; exact this.1
      · intro b hb
        have hba : b ≠ a := by rintro rfl; exact hb ha0
        show upd δ a _ b = _
        rw [upd_ne _ _ hba]; exact M.agree b hb
      · intro b n hb
        show Src s0 δ0 (upd δ a _ b)
        by_cases hba : b = a
        · rw [hba, upd_same, M.low_den A lt, M.low_den A le]; exact src
        · rw [upd_ne _ _ hba]
          rw [hheap, upd_ne _ _ hba] at hb
          exact M.src b n hb
    refine ⟨_, a, false, δ', rfl, ⟨mid', ⟨al.frame.assocs, al.frame.temp, al.frame.mat, al.frame.swaps,
      al.frame.trivial⟩, hmono, htmono, ?_, ?_⟩, ?_, ?_, ?_, al.num⟩
    · intro b
      show sumTo (fun a => s'.arcs a b) s'.next = _
      have e1 := sumTo_change (f := fun c => s'.arcs c b) (g := fun c => d.st.arcs c b) (n := s'.next)
        (a := a) al.lt (by
          intro c hc
          show s'.arcs c b = d.st.arcs c b
          unfold Store.arcs
          rw [hheap, upd_ne _ _ hc])
      have e2 : sumTo (fun c => d.st.arcs c b) s'.next = d.st.inDeg b := by
        refine sumTo_ext (fun c hc => ?_) al.next_le
        cases hn : d.st.heap c with
        | none => simp [Store.arcs, hn]
        | some n => have := M.fr.heap_next c n hn; omega
      have e3 : d.st.arcs a b = 0 := by simp [Store.arcs, al.old]
      have e4 : s'.arcs a b = hits t b + hits e b := by
        rw [arcs_eq (n := ⟨x, t, e⟩) (by rw [hheap, upd_same])]
      simp only [e2, e3, e4] at e1
      simp; omega
    · show sumTo (fun i => (s'.tab i).length) (s'.ord.numVars + 1) = _
      have e1 := sumTo_change (f := fun j => (s'.tab j).length) (g := fun j => (d.st.tab j).length)
        (n := s'.ord.numVars + 1) (a := x) (by rw [hord]; have := A.x2; omega) (by
          intro j hj
          show (s'.tab j).length = (d.st.tab j).length
          rw [htab, upd_ne _ _ hj])
      have e2 : (s'.tab x).length = (d.st.tab x).length + 1 := by rw [htab, upd_same]; rfl
      have e3 : s'.ord = d.st.ord := al.ord
      simp only [e2] at e1
      unfold tabSum
      rw [e3] at e1 ⊢
      simp; omega
    · show s'.heap a = _
      rw [hheap, upd_same]
    · show a ∈ s'.tab x
      rw [htab, upd_same]; exact List.mem_cons_self
    · have href : s'.ref = upd d.st.ref a 0 := al.ref
      refine ⟨?_, ?_⟩
      · show s'.ref 0 = _
        rw [href, upd_ne _ _ (Ne.symm al.pos)]; exact hc.1
      · intro b hb
        show s'.ref b ≤ _ ∧ (s'.ref b = _ ∨ s'.ref b = _)
        rw [href]
        by_cases hba : b = a
        · subst hba
          rw [upd_same, c0 b al.pos al.old]; exact ⟨Nat.zero_le _, Or.inr rfl⟩
        · rw [upd_ne _ _ hba]
          refine hc.2 b ?_
          have hb : s'.heap b ≠ none := hb
          rwa [hheap, upd_ne _ _ hba] at hb

/-- The result of making the child `(x, t, e)`. -/
structure Child (s0 : Store) (x y : Nat) (δ0 : Nat → BFn) (D R : List Nat) (d d' : St) (r : Edge)
    (found : Bool) (t e : Edge) (c : Nat → Nat) (δ' : Nat → BFn) : Prop where
  grow : Grow s0 x y δ0 D R d d' δ' found t e
  cof : cof d'.st x r = some (t, e)
  low : XLow s0 x d'.st r
  pos : t.neg = false → r.neg = false
  id : r.id = 0
  cnt : Cnt d'.st (fun b => c b + hits r b)
  num : d'.st.numNodes = d.st.numNodes + if found then 0 else 1

theorem newChild_spec (A : Adj s0 x y) {d : St} (M : Mid s0 x y δ0 D R d.st δ) {t e : Edge}
    (lt : Low s0 x t) (le : Low s0 x e) (idt : t.id = 0) (ide : e.id = 0)
    (src : Src s0 δ0 (fun ρ => if ρ x then den δ0 t ρ else den δ0 e ρ)) {c : Nat → Nat}
    (hc : Cnt d.st c) (c0 : ∀ b, b ≠ 0 → d.st.heap b = none → c b = 0) :
    ∃ d' r found δ', newChild d x t e = (d', r, found) ∧ Child s0 x y δ0 D R d d' r found t e c δ' := by
  unfold newChild
  by_cases hte : e = t
  · subst hte
    simp only [if_pos]
    refine ⟨_, _, _, δ, rfl, ⟨⟨M.icr e, ⟨rfl, rfl, rfl, rfl, rfl⟩, fun _ _ h => h, fun _ h => h, fun b => ?_, ?_⟩,
      ?_, Or.inl lt, id, idt, hc.icr e, rfl⟩⟩
    · simp; rfl
    · simp; rfl
    · exact (M.icr e).low_cof A lt
  · simp only [if_neg hte]
    have hne : t ≠ e := fun h => hte h.symm
    unfold findOrAdd
    simp only [if_neg hne]
    by_cases hp : t.neg = false
    · simp only [if_pos hp]
      obtain ⟨d', a, found, δ', h, g, hn, ha, hc', hnum⟩ := hfa_spec A M lt le idt ide hp hne src hc c0
      simp only [h]
      have hcof : cof d'.st x ⟨0, a, false⟩ = some (t, e) := by
        rw [cof_node g.mid.fr.heap0 (n := ⟨x, t, e⟩) hn rfl]; simp [Edge.phase]
      cases found with
      | true =>
        simp only [if_true]
        refine ⟨_, _, _, δ', rfl, ⟨⟨g.mid.icr _, ⟨g.frame.assocs, g.frame.temp, g.frame.mat, g.frame.swaps,
          g.frame.trivial⟩, g.heap, g.tab, g.deg, g.sum⟩, hcof, Or.inr ha, fun _ => rfl, rfl, hc'.icr _, hnum⟩⟩
      | false =>
        simp only [Bool.false_eq_true, if_false]
        refine ⟨_, _, _, δ', rfl, ⟨⟨(g.mid.refs d'.st.ref (d'.st.numNodes + 1) d'.st.gcCheck).icr _,
          ⟨g.frame.assocs, g.frame.temp, g.frame.mat, g.frame.swaps,
          g.frame.trivial⟩, g.heap, g.tab, g.deg, g.sum⟩, hcof, Or.inr ha, fun _ => rfl, rfl, ?_, ?_⟩⟩
        · exact Cnt.icr (s := { d'.st with numNodes := d'.st.numNodes + 1 }) hc' _
        · show d'.st.numNodes + 1 = _
          rw [hnum]; rfl
    · simp only [if_neg hp]
      have hp' : t.not.neg = false := by
        simp only [Edge.not]; cases h : t.neg
        · exact absurd h hp
        · rfl
      have src' : Src s0 δ0 (fun ρ => if ρ x then den δ0 t.not ρ else den δ0 e.not ρ) := by
        obtain ⟨b, hb, h⟩ := src
        refine ⟨b, hb, fun v hv ρ k => ?_⟩
        have h1 := h v hv ρ k
        simp only [den_not]
        simp only at h1
        rw [ite_bnot, ite_bnot, h1]
      obtain ⟨d', a, found, δ', h, g, hn, ha, hc', hnum⟩ := hfa_spec A M (t := t.not) (e := e.not) lt le idt
        ide hp' (by intro h; apply hne; cases t; cases e; simp [Edge.not] at h; simp [h]) src' hc c0
      simp only [h]
      have hcof : cof d'.st x (Edge.not ⟨0, a, false⟩) = some (t, e) := by
        have := cof_node g.mid.fr.heap0 (v := x) (e := Edge.not ⟨0, a, false⟩) (n := ⟨x, t.not, e.not⟩) hn rfl
        rw [this]; simp [Edge.phase, Edge.not]
      cases found with
      | true =>
        simp only [if_true]
        refine ⟨_, _, _, δ', rfl, ⟨⟨g.mid.icr _, ⟨g.frame.assocs, g.frame.temp, g.frame.mat, g.frame.swaps,
          g.frame.trivial⟩, g.heap, g.tab, g.deg, g.sum⟩, hcof, Or.inr ha, fun h => absurd h hp, rfl, hc'.icr _, hnum⟩⟩
      | false =>
        simp only [Bool.false_eq_true, if_false]
        refine ⟨_, _, _, δ', rfl, ⟨⟨(g.mid.refs d'.st.ref (d'.st.numNodes + 1) d'.st.gcCheck).icr _,
          ⟨g.frame.assocs, g.frame.temp, g.frame.mat, g.frame.swaps,
          g.frame.trivial⟩, g.heap, g.tab, g.deg, g.sum⟩, hcof, Or.inr ha, fun h => absurd h hp, rfl, ?_, ?_⟩⟩
        · exact Cnt.icr (s := { d'.st with numNodes := d'.st.numNodes + 1 }) hc' _
        · show d'.st.numNodes + 1 = _
          rw [hnum]; rfl

end

/-! ## One node, and all nodes -/

structure Loop (s0 : Store) (x y : Nat) (δ0 : Nat → BFn) (ext : Nat → Nat) (D R : List Nat) (d : St)
    (δ : Nat → BFn) : Prop where
  mid : Mid s0 x y δ0 D R d.st δ
  cnt : Cnt d.st (fun b => d.st.inDeg b + ext b)
  num : d.st.numNodes = 1 + tabSum d.st + R.length

section

variable {s0 : Store} {x y : Nat} {δ0 δ : Nat → BFn} {D R : List Nat} {ext : Nat → Nat}

theorem Cnt.heap {s s' : Store} {c} (h : Cnt s c) (hr : s'.ref = s.ref)
    (hh : ∀ b, s'.heap b ≠ none → s.heap b ≠ none) : Cnt s' c :=
  ⟨by rw [hr]; exact h.1, fun b hb => by rw [hr]; exact h.2 b (hh b hb)⟩

theorem XLow.ne_rem (A : Adj s0 x y) {s : Store} (M : Mid s0 x y δ0 D R s δ) {e : Edge} (h : XLow s0 x s e) {f}
    (hf : f ∈ R) : e.addr ≠ f := by
  rintro rfl
  obtain ⟨_, n, hn, hv, _⟩ := M.rem _ hf
  rcases h with h | h
  · rcases h with h | ⟨m, hm, hl⟩
    · rw [h, A.w.heap0] at hn; cases hn
    · rw [hn] at hm; cases hm; rw [hv] at hl; omega
  · obtain ⟨_, _, _, hr, _⟩ := M.xs _ h
    exact hr hf

/-- One round of the second loop of `BddExchange`. -/
theorem step_spec (A : Adj s0 x y) {f} {d : St} (L : Loop s0 x y δ0 ext D (f :: R) d δ)
    (e0 : ∀ a, a ≠ 0 → s0.heap a = none → ext a = 0) :
    ∃ d1 δ', exchangeAux d f x y = some d1 ∧ Frame d d1 ∧
      Loop s0 x y δ0 ext (f :: D) R
        { d1 with st := { d1.st with tab := upd d1.st.tab y (f :: d1.st.tab y) } } δ' := by
  have M := L.mid
  obtain ⟨fD, n0, hn0, hv0, hasY⟩ := M.rem f List.mem_cons_self
  have hcur : d.st.heap f = some n0 := M.keep f n0 hn0 fD
  have lot : Below s0 (s0.ord.lvl x) n0.thn := by have := A.w.thn_lo f n0 hn0; rwa [hv0] at this
  have loe : Below s0 (s0.ord.lvl x) n0.els := by have := A.w.els_lo f n0 hn0; rwa [hv0] at this
  obtain ⟨f11, f10, ct, l11, l10, i11, i10, p11⟩ := A.cofy lot (A.w.plain f n0 hn0).1
  obtain ⟨f01, f00, ce, l01, l00, i01, i00, _⟩ := A.cofy loe (A.w.plain f n0 hn0).2
  have p11 := p11 (A.w.thn_pos f n0 hn0)
  have ct' : cof d.st y n0.thn = some (f11, f10) := by rw [cof_congr (M.below A lot)]; exact ct
  have ce' : cof d.st y n0.els = some (f01, f00) := by rw [cof_congr (M.below A loe)]; exact ce
  have dead : ∀ b, b ≠ 0 → d.st.heap b = none → d.st.inDeg b + ext b = 0 := by
    intro b hb h
    rw [M.inDeg_dead A hb h, e0 b hb]
    cases h' : s0.heap b with
    | none => rfl
    | some n => exact absurd h (M.old_live (by simp [h']))
  have hx : s0.ord.lvl x ≤ s0.ord.lvl x + 1 := by omega
  have hy : s0.ord.lvl y ≤ s0.ord.lvl x + 1 := by rw [A.lv]; omega
  have hyx : ∀ (ρ : Asg) b, upd ρ y b x = ρ x := fun ρ b => upd_ne _ _ A.ne
  have hfun : ∀ ρ, δ0 f ρ = if ρ x then (if ρ y then den δ0 f11 ρ else den δ0 f10 ρ)
      else (if ρ y then den δ0 f01 ρ else den δ0 f00 ρ) := by
    intro ρ
    have y0 : y ≠ 0 := by have := A.y1; omega
    rw [M.lab0.node f n0 hn0 ρ, hv0, cof_den M.lab0 y0 ct ρ, cof_den M.lab0 y0 ce ρ]
  have srcs : ∀ k, Src s0 δ0 (fun ρ => δ0 f (upd ρ y k)) := by
    intro k
    refine ⟨f, by simp [hn0], fun v hv ρ b => ?_⟩
    show δ0 f (upd (upd ρ v b) y k) = δ0 f (upd ρ y k)
    by_cases hvy : v = y
    · subst hvy; rw [upd_upd]
    · rw [asg_comm _ _ _ hvy]; exact hv _ _
  have src0 : Src s0 δ0 (fun ρ => if ρ x then den δ0 f10 ρ else den δ0 f00 ρ) := by
    have := srcs false
    have e : (fun ρ => δ0 f (upd ρ y false)) = (fun ρ => if ρ x then den δ0 f10 ρ else den δ0 f00 ρ) := by
      funext ρ
      rw [hfun, hyx, upd_same, l10.indep A M.lab0 hy, l00.indep A M.lab0 hy]; simp
    rwa [e] at this
  have src1 : Src s0 δ0 (fun ρ => if ρ x then den δ0 f11 ρ else den δ0 f01 ρ) := by
    have := srcs true
    have e : (fun ρ => δ0 f (upd ρ y true)) = (fun ρ => if ρ x then den δ0 f11 ρ else den δ0 f01 ρ) := by
      funext ρ
      rw [hfun, hyx, upd_same, l11.indep A M.lab0 hy, l01.indep A M.lab0 hy]; simp
    rwa [e] at this
  obtain ⟨d1, r0, k0, δ1, h1, C0⟩ := newChild_spec A M l10 l00 i10 i00 src0 L.cnt dead
  have M1 := C0.grow.mid
  have dead1 : ∀ b, b ≠ 0 → d1.st.heap b = none → d.st.inDeg b + ext b + hits r0 b = 0 := by
    intro b hb h
    have h' : d.st.heap b = none := by
      cases h' : d.st.heap b with
      | none => rfl
      | some n => rw [C0.grow.heap b n h'] at h; cases h
    rw [dead b hb h', hits_zero]
    rintro rfl
    rcases M1.xlow_live A C0.low with g | g
    · exact hb g
    · exact g h
  obtain ⟨d2, r1, k1, δ2, h2, C1⟩ := newChild_spec A M1 l11 l01 i11 i01 src1 C0.cnt dead1
  have M2 := C1.grow.mid
  have low0 : XLow s0 x d2.st r0 := C0.low.imp_right (C1.grow.tab _)
  have low1 : XLow s0 x d2.st r1 := C1.low
  have cof0 : cof d2.st x r0 = some (f10, f00) := by
    rw [cof_congr (s := d1.st)]
    · exact C0.cof
    · rcases M1.xlow_live A C0.low with g | g
      · rw [g, M1.fr.heap0, M2.fr.heap0]
      · cases h' : d1.st.heap r0.addr with
        | none => exact absurd h' g
        | some n => exact C1.grow.heap _ _ h'
  have cof1 : cof d2.st x r1 = some (f11, f01) := C1.cof
  have hf2 : d2.st.heap f = some n0 := C1.grow.heap _ _ (C0.grow.heap _ _ hcur)
  have nf : ∀ e, XLow s0 x d2.st e → e.addr ≠ f := fun e he => he.ne_rem A M2 List.mem_cons_self
  -- the structure after the update
  let s2 : Store := { d2.st with heap := upd d2.st.heap f (some ⟨y, r1, r0⟩)
                                 tab := upd d2.st.tab y (f :: d2.st.tab y) }
  have hheap : ∀ b, b ≠ f → s2.heap b = d2.st.heap b := fun b hb => upd_ne _ _ hb
  have hheapf : s2.heap f = some ⟨y, r1, r0⟩ := upd_same _ _ _
  have htabx : s2.tab x = d2.st.tab x := upd_ne _ _ A.ne
  have fne0 : f ≠ 0 := by rintro rfl; rw [A.w.heap0] at hn0; cases hn0
  have h0 : s2.heap 0 = none := by rw [hheap 0 (Ne.symm fne0)]; exact M2.fr.heap0
  have remf : ∀ b, b ∈ s2.tab x → b ≠ f := by
    rintro b hb rfl
    rw [htabx] at hb
    obtain ⟨_, _, _, hr, _⟩ := M2.xs b hb
    exact hr List.mem_cons_self
  have fR : f ∉ R := (List.nodup_cons.1 M2.remnd).1
  have key : ∀ e, XLow s0 x d2.st e → s2.heap e.addr = d2.st.heap e.addr := fun e he => hheap _ (nf e he)
  have mid2 : Mid s0 x y δ0 (f :: D) R s2 δ2 := by
    refine ⟨M2.ord, ?_, ?_, ?_, ?_, ?_, ?_, ?_, ?_, ?_, ?_, (List.nodup_cons.1 M2.remnd).2, ?_, ?_, M2.agree,
      M2.lab0, ?_⟩
    · intro a n ha hD
      simp only [List.mem_cons, not_or] at hD
      rw [hheap a hD.1]; exact M2.keep a n ha hD.2
    · intro a ha
      rcases List.mem_cons.1 ha with rfl | hda
      · refine ⟨n0, ⟨y, r1, r0⟩, f11, f10, f01, f00, ⟨hn0, hv0, hasY, hheapf, rfl, ⟨C1.id, C0.id⟩, C1.pos p11, ct,
          ce, ?_, ?_, ?_, ?_⟩⟩
        · rw [cof_congr (key r1 low1)]; exact cof1
        · rw [cof_congr (key r0 low0)]; exact cof0
        · exact low1.imp_right (by rw [htabx]; exact id)
        · exact low0.imp_right (by rw [htabx]; exact id)
      · obtain ⟨m0, n, a1, a2, a3, a4, g⟩ := M2.done a hda
        refine ⟨m0, n, a1, a2, a3, a4, g.mono A M2 h0 ?_ ?_ (by rw [htabx]; exact fun _ h => h)⟩
        · apply hheap; rintro rfl; exact fD hda
        · intro b n hb hor
          have hbf : b ≠ f := by
            rintro rfl
            rcases hor with h | ⟨k, hk, hkv⟩
            · exact remf b (by rw [htabx]; exact h) rfl
            · rw [hn0] at hk; cases hk; exact hkv hv0
          rw [hheap b hbf]; exact hb
    · intro a ha
      have haf := remf a ha
      rw [htabx] at ha
      obtain ⟨n, hn, hv, hr, rest⟩ := M2.xs a ha
      exact ⟨n, by rw [hheap a haf]; exact hn, hv, fun h => hr (List.mem_cons_of_mem _ h), rest⟩
    · intro a n ha h
      have haf : a ≠ f := by rintro rfl; rw [hn0] at h; cases h
      rw [hheap a haf] at ha
      rw [htabx]; exact M2.new a n ha h
    · intro a n ha hv hD hR
      simp only [List.mem_cons, not_or] at hD
      rw [htabx]
      exact M2.tabx a n ha hv hD.2 (by simp [hD.1, hR])
    · intro a
      show a ∈ upd d2.st.tab y (f :: d2.st.tab y) y ↔ _
      rw [upd_same, List.mem_cons, List.mem_cons, M2.taby a]
      constructor
      · rintro (h | (h | h)) <;> simp [h]
      · rintro (h | (h | h)) <;> simp [h]
    · intro j hx hy
      show upd d2.st.tab y _ j = _
      rw [upd_ne _ _ hy]; exact M2.tabo j hx hy
    · intro a b n ha hb h1 h2
      have haf := remf a ha
      have hbf := remf b hb
      rw [htabx] at ha hb
      rw [hheap a haf] at h1
      rw [hheap b hbf] at h2
      exact M2.uniqx a b n ha hb h1 h2
    · intro j
      show (upd d2.st.tab y (f :: d2.st.tab y) j).Nodup
      by_cases hj : j = y
      · rw [hj, upd_same]
        refine List.nodup_cons.2 ⟨?_, M2.nodup y⟩
        intro h
        rcases (M2.taby f).1 h with h | h
        · obtain ⟨n, hn, hv⟩ := (A.w.tab_iff y f).1 h
          rw [hn0] at hn; cases hn
          exact A.ne (hv0.symm.trans hv)
        · exact fD h
      · rw [upd_ne _ _ hj]; exact M2.nodup j
    · intro a ha
      obtain ⟨h1, h2⟩ := M2.rem a (List.mem_cons_of_mem _ ha)
      refine ⟨?_, h2⟩
      simp only [List.mem_cons, not_or]
      exact ⟨by rintro rfl; exact fR ha, h1⟩
    · refine ⟨h0, M2.fr.next_pos, ?_, M2.fr.free_nodup, ?_, M2.fr.free_disj⟩
      · intro a n ha
        by_cases haf : a = f
        · subst haf; exact M2.fr.heap_next _ _ hf2
        · rw [hheap a haf] at ha; exact M2.fr.heap_next a n ha
      · intro i a ha
        have := M2.fr.free_ok i a ha
        refine ⟨?_, this.2⟩
        rw [hheap a (by rintro rfl; rw [hf2] at this; cases this.1)]
        exact this.1
    · refine ⟨M2.lab.const, ?_⟩
      intro a n ha ρ
      by_cases haf : a = f
      · subst haf
        rw [hheapf] at ha; cases ha
        have e1 := M2.lab.node _ _ hf2 ρ
        have x0 : x ≠ 0 := by have := A.x1; omega
        have y0 : y ≠ 0 := by have := A.y1; omega
        have c1 := cof_den M2.lab y0 (by rw [cof_congr (M2.below A lot)]; exact ct) ρ
        have c2 := cof_den M2.lab y0 (by rw [cof_congr (M2.below A loe)]; exact ce) ρ
        have c3 := cof_den M2.lab x0 cof1 ρ
        have c4 := cof_den M2.lab x0 cof0 ρ
        show δ2 a ρ = if ρ y then den δ2 r1 ρ else den δ2 r0 ρ
        rw [e1, c1, c2, c3, c4, hv0]
        cases ρ x <;> cases ρ y <;> rfl
      · rw [hheap a haf] at ha
        exact M2.lab.node a n ha ρ
    · intro a n ha
      by_cases haf : a = f
      · subst haf; exact M2.src a n0 hf2
      · rw [hheap a haf] at ha
        exact M2.src a n ha
  -- counts
  have hsum : tabSum s2 = tabSum d2.st + 1 := by
    have e1 := sumTo_change (f := fun j => (s2.tab j).length) (g := fun j => (d2.st.tab j).length)
      (n := d2.st.ord.numVars + 1) (a := y) (by rw [M2.ord]; have := A.y2; omega) (by
        intro j hj
        show (upd d2.st.tab y _ j).length = _
        rw [upd_ne _ _ hj])
    have e2 : (s2.tab y).length = (d2.st.tab y).length + 1 := by
      show (upd d2.st.tab y _ y).length = _
      rw [upd_same]; rfl
    simp only [e2] at e1
    unfold tabSum
    show sumTo _ (d2.st.ord.numVars + 1) = _
    omega
  have hdeg : ∀ b, s2.inDeg b + (hits n0.thn b + hits n0.els b) = d2.st.inDeg b + (hits r1 b + hits r0 b) := by
    intro b
    have e1 := sumTo_change (f := fun c => s2.arcs c b) (g := fun c => d2.st.arcs c b) (n := d2.st.next)
      (a := f) (M2.fr.heap_next _ _ hf2) (by
        intro c hc
        show s2.arcs c b = d2.st.arcs c b
        unfold Store.arcs
        rw [hheap c hc])
    simp only [arcs_eq hf2, arcs_eq hheapf] at e1
    exact e1
  -- the program
  let sA : Store := { d2.st with heap := upd d2.st.heap f (some ⟨y, r1, r0⟩) }
  have cA : Cnt sA (fun b => d.st.inDeg b + ext b + hits r0 b + hits r1 b) := by
    refine C1.cnt.heap rfl ?_
    intro b hb
    by_cases hbf : b = f
    · subst hbf; simp [hf2]
    · have hb : upd d2.st.heap f _ b ≠ none := hb
      rwa [upd_ne _ _ hbf] at hb
  let sB : Store := if k0 = true then sA else (sA.icr f00).icr f10
  have cB : Cnt sB (fun b => d.st.inDeg b + ext b + hits r0 b + hits r1 b +
      if k0 then 0 else hits f10 b + hits f00 b) := by
    cases k0 with
    | true => exact cA.congr (by simp)
    | false => exact ((cA.icr f00).icr f10).congr (by intro b; simp; omega)
  let sC : Store := if k1 = true then sB else (sB.icr f01).icr f11
  have cC : Cnt sC (fun b => d.st.inDeg b + ext b + hits r0 b + hits r1 b +
      (if k0 then 0 else hits f10 b + hits f00 b) + if k1 then 0 else hits f11 b + hits f01 b) := by
    cases k1 with
    | true => exact cB.congr (by simp)
    | false => exact ((cB.icr f01).icr f11).congr (by intro b; simp; omega)
  have cD : Cnt ((sC.dcr n0.els).dcr n0.thn) (fun b => s2.inDeg b + ext b) := by
    refine Cnt.dcr (Cnt.dcr (cC.congr fun b => ?_))
    have h1 := hdeg b
    have h2 := C1.grow.deg b
    have h3 := C0.grow.deg b
    omega
  refine ⟨{ d2 with st := (sC.dcr n0.els).dcr n0.thn }, δ2, ?_, ?_, ?_⟩
  · unfold exchangeAux
    simp only [hcur, ct', ce', h1, h2]
    rfl
  · have := C0.grow.frame.trans C1.grow.frame
    exact ⟨this.assocs, this.temp, this.mat, this.swaps, this.trivial⟩
  · have hC : sC = { sA with ref := sC.ref } := by
      show (if k1 = true then (if k0 = true then sA else _) else ((if k0 = true then sA else _ : Store).icr f01).icr f11) = _
      cases k0 <;> cases k1 <;> rfl
    have hfin : ({ ((sC.dcr n0.els).dcr n0.thn) with
        tab := upd ((sC.dcr n0.els).dcr n0.thn).tab y (f :: ((sC.dcr n0.els).dcr n0.thn).tab y) } : Store) =
        { s2 with ref := ((sC.dcr n0.els).dcr n0.thn).ref } := by
      generalize hr : ((sC.dcr n0.els).dcr n0.thn).ref = rr
      have hq : (sC.dcr n0.els).dcr n0.thn = { sA with ref := rr } := by
        rw [← hr]
        conv => lhs; rw [hC]
        conv => rhs; rw [hC]
        rfl
      rw [hq]
    refine ⟨?_, ?_, ?_⟩
    · show Mid _ _ _ _ _ _ ({ ((sC.dcr n0.els).dcr n0.thn) with
        tab := upd ((sC.dcr n0.els).dcr n0.thn).tab y (f :: ((sC.dcr n0.els).dcr n0.thn).tab y) } : Store) _
      rw [hfin]
      exact mid2.refs _ s2.numNodes s2.gcCheck
    · show Cnt ({ ((sC.dcr n0.els).dcr n0.thn) with
        tab := upd ((sC.dcr n0.els).dcr n0.thn).tab y (f :: ((sC.dcr n0.els).dcr n0.thn).tab y) } : Store)
        (fun b => Store.inDeg ({ ((sC.dcr n0.els).dcr n0.thn) with
        tab := upd ((sC.dcr n0.els).dcr n0.thn).tab y (f :: ((sC.dcr n0.els).dcr n0.thn).tab y) } : Store) b + ext b)
      have hI : ∀ b, Store.inDeg ({ s2 with ref := ((sC.dcr n0.els).dcr n0.thn).ref } : Store) b = s2.inDeg b :=
        fun _ => rfl
      refine Cnt.congr (c := fun b => s2.inDeg b + ext b) ?_ (fun b => by rw [hfin, hI])
      refine cD.heap rfl ?_
      intro b hb
      exact hb
    · show ((sC.dcr n0.els).dcr n0.thn).numNodes = 1 + tabSum ({ ((sC.dcr n0.els).dcr n0.thn) with
        tab := upd ((sC.dcr n0.els).dcr n0.thn).tab y (f :: ((sC.dcr n0.els).dcr n0.thn).tab y) } : Store) + R.length
      rw [hfin]
      have e1 : tabSum ({ s2 with ref := ((sC.dcr n0.els).dcr n0.thn).ref } : Store) = tabSum s2 := rfl
      have e2 : ((sC.dcr n0.els).dcr n0.thn).numNodes = d2.st.numNodes := by
        conv => lhs; rw [hC]
        rfl
      have h1 := C0.num
      have h2 := C1.num
      have h3 := C0.grow.sum
      have h4 := C1.grow.sum
      have h5 := L.num
      simp only [List.length_cons] at h5
      rw [e1, e2, hsum]
      omega

theorem exchangeList_spec (A : Adj s0 x y) (e0 : ∀ a, a ≠ 0 → s0.heap a = none → ext a = 0) :
    ∀ (R : List Nat) (D : List Nat) (d : St) (δ : Nat → BFn), Loop s0 x y δ0 ext D R d δ →
    ∃ d' D' δ', exchangeList x y R d = some d' ∧ Frame d d' ∧ (∀ a, a ∈ D' ↔ a ∈ D ∨ a ∈ R) ∧
      Loop s0 x y δ0 ext D' [] d' δ'
  | [], D, d, δ, L => ⟨d, D, δ, rfl, Frame.refl d, by simp, L⟩
  | f :: R, D, d, δ, L => by
    obtain ⟨d1, δ1, h1, fr1, L1⟩ := step_spec A L e0
    obtain ⟨d2, D2, δ2, h2, fr2, hD, L2⟩ := exchangeList_spec A e0 R _ _ _ L1
    refine ⟨d2, D2, δ2, ?_, ?_, ?_, L2⟩
    · simp only [exchangeList, h1]; exact h2
    · exact Frame.trans fr1 ⟨fr2.assocs, fr2.temp, fr2.mat, fr2.swaps, fr2.trivial⟩
    · intro a
      rw [hD, List.mem_cons, List.mem_cons]
      constructor
      · rintro ((h | h) | h) <;> simp [h]
      · rintro (h | (h | h)) <;> simp [h]

end

end Df

end Cal
