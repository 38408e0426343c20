import Verif.Store

/-!
# Meaning of edges, well-formed stores, canonicity

`Rep s e F`: in store `s` the edge `e` denotes the Boolean function `F`.
-/

namespace Cal

/-- Assignments give a value to every variable id; a Boolean function maps assignments to truth
values. -/
abbrev Asg := Nat → Bool
abbrev BFn := Asg → Bool

/-- the complement -/
def BFn.not (F : BFn) : BFn := fun ρ => !F ρ

/-- The function an edge denotes: the constant node is true, a node is "if its variable then the
function of its then child else the function of its else child", a complement bit negates. -/
inductive Rep (s : Store) : Edge → BFn → Prop
  | one : Rep s ⟨0, 0, false⟩ (fun _ => true)
  | zero : Rep s ⟨0, 0, true⟩ (fun _ => false)
  | pos {a : Nat} {n : Node} {F G : BFn} (h : s.heap a = some n) (hF : Rep s n.thn F)
      (hG : Rep s n.els G) : Rep s ⟨n.var, a, false⟩ (fun ρ => if ρ n.var then F ρ else G ρ)
  | neg {a : Nat} {n : Node} {F G : BFn} (h : s.heap a = some n) (hF : Rep s n.thn F)
      (hG : Rep s n.els G) : Rep s ⟨n.var, a, true⟩ (fun ρ => !(if ρ n.var then F ρ else G ρ))

/-- Walking the diagram under an assignment, at most `k` nodes deep. -/
def Store.eval (s : Store) (ρ : Asg) : Nat → Edge → Option Bool
  | 0, e => if e.addr = 0 then some (!e.neg) else none
  | k+1, e =>
    if e.addr = 0 then some (!e.neg)
    else match s.heap e.addr with
      | none => none
      | some n => (s.eval ρ k (if ρ n.var then n.thn else n.els)).map (xor e.neg)

/-- An edge is valid in a store: a constant, or a node of the unique table it claims. -/
def Store.EOK (s : Store) (e : Edge) : Prop :=
  (e.id = 0 ∧ e.addr = 0) ∨ ∃ n, s.heap e.addr = some n ∧ n.var = e.id

/-- Ids 1..numVars and indices 0..numVars-1 are in bijection. -/
structure Order.WF (o : Order) : Prop where
  /-- `numVars` stays below `CAL_MAX_VAR_ID` (calBddManager.c: fatal otherwise) -/
  bound : o.numVars < constIndex
  idx_lt : ∀ i, 1 ≤ i → i ≤ o.numVars → o.idToIndex i < o.numVars
  id_range : ∀ k, k < o.numVars → 1 ≤ o.indexToId k ∧ o.indexToId k ≤ o.numVars
  left : ∀ i, 1 ≤ i → i ≤ o.numVars → o.indexToId (o.idToIndex i) = i
  right : ∀ k, k < o.numVars → o.idToIndex (o.indexToId k) = k

/-- The unique-table invariant of a reduced ordered store. -/
structure Store.WF (s : Store) : Prop where
  ord : s.ord.WF
  heap0 : s.heap 0 = none
  var_range : ∀ a n, s.heap a = some n → 1 ≤ n.var ∧ n.var ≤ s.ord.numVars
  /-- the unique table of an id holds exactly the nodes with that id -/
  tab_iff : ∀ i a, a ∈ s.tab i ↔ ∃ n, s.heap a = some n ∧ n.var = i
  tab_nodup : ∀ i, (s.tab i).Nodup
  thn_ok : ∀ a n, s.heap a = some n → s.EOK n.thn
  els_ok : ∀ a n, s.heap a = some n → s.EOK n.els
  thn_pos : ∀ a n, s.heap a = some n → n.thn.neg = false
  thn_lt : ∀ a n, s.heap a = some n → s.ord.lvl n.var < s.ord.lvl n.thn.id
  els_lt : ∀ a n, s.heap a = some n → s.ord.lvl n.var < s.ord.lvl n.els.id
  reduced : ∀ a n, s.heap a = some n → n.thn ≠ n.els
  unique : ∀ a b n, s.heap a = some n → s.heap b = some n → a = b
  next_pos : 0 < s.next
  heap_next : ∀ a n, s.heap a = some n → a < s.next
  free_nodup : ∀ i, (s.free i).Nodup
  free_ok : ∀ i a, a ∈ s.free i → s.heap a = none ∧ 0 < a ∧ a < s.next
  free_disj : ∀ i j a, a ∈ s.free i → a ∈ s.free j → i = j

/-- `s'` has all nodes of `s`, unchanged, and the same variable order. -/
structure Store.Le (s s' : Store) : Prop where
  ord : s'.ord = s.ord
  heap : ∀ a n, s.heap a = some n → s'.heap a = some n

theorem Store.Le.refl (s : Store) : s.Le s := ⟨rfl, fun _ _ h => h⟩
theorem Store.Le.trans {s t u : Store} (h1 : s.Le t) (h2 : t.Le u) : s.Le u :=
  ⟨h2.ord.trans h1.ord, fun a n h => h2.heap a n (h1.heap a n h)⟩

/-! ## Edge lemmas -/

@[simp] theorem Edge.not_not (e : Edge) : e.not.not = e := by cases e; simp [Edge.not]
@[simp] theorem Edge.not_id (e : Edge) : e.not.id = e.id := rfl
@[simp] theorem Edge.not_addr (e : Edge) : e.not.addr = e.addr := rfl
@[simp] theorem Edge.not_neg (e : Edge) : e.not.neg = !e.neg := rfl
@[simp] theorem Edge.phase_id (e : Edge) (b : Bool) : (e.phase b).id = e.id := rfl
@[simp] theorem Edge.phase_addr (e : Edge) (b : Bool) : (e.phase b).addr = e.addr := rfl
@[simp] theorem Edge.phase_neg (e : Edge) (b : Bool) : (e.phase b).neg = xor e.neg b := rfl
@[simp] theorem Edge.phase_false (e : Edge) : e.phase false = e := by cases e; simp [Edge.phase]
@[simp] theorem Edge.phase_true (e : Edge) : e.phase true = e.not := by
  cases e; simp [Edge.phase, Edge.not]
@[simp] theorem Edge.phase_phase (e : Edge) (b c : Bool) :
    (e.phase b).phase c = e.phase (xor b c) := by cases e; simp [Edge.phase]
theorem Edge.not_ne (e : Edge) : e.not ≠ e := by
  intro h; have := congrArg Edge.neg h; simp at this
@[simp] theorem Edge.not_inj {e f : Edge} : e.not = f.not ↔ e = f := by
  constructor
  · intro h; have := congrArg Edge.not h; simpa using this
  · rintro rfl; rfl
theorem Edge.not_eq_comm {e f : Edge} : e.not = f ↔ e = f.not := by
  constructor <;> (rintro rfl; simp)
@[simp] theorem one_not : one.not = zero := rfl
@[simp] theorem zero_not : zero.not = one := rfl
@[simp] theorem one_id : one.id = 0 := rfl
@[simp] theorem zero_id : zero.id = 0 := rfl
@[simp] theorem one_addr : one.addr = 0 := rfl
@[simp] theorem zero_addr : zero.addr = 0 := rfl
@[simp] theorem one_neg : one.neg = false := rfl
@[simp] theorem zero_neg : zero.neg = true := rfl

theorem Edge.ext' {e f : Edge} (h1 : e.id = f.id) (h2 : e.addr = f.addr) (h3 : e.neg = f.neg) :
    e = f := by cases e; cases f; simp_all

/-! ## Labellings

A labelling assigns a Boolean function to every address such that the local equation of each node
holds. It is the proof-side counterpart of `Rep`. -/

/-- Function of an edge under a labelling. -/
def den (δ : Nat → BFn) (e : Edge) : BFn := fun ρ => xor e.neg (δ e.addr ρ)

theorem den_not (δ : Nat → BFn) (e : Edge) : den δ e.not = fun ρ => !(den δ e ρ) := by
  funext ρ; simp [den]
theorem den_phase (δ : Nat → BFn) (e : Edge) (b : Bool) :
    den δ (e.phase b) = fun ρ => xor b (den δ e ρ) := by
  funext ρ; simp [den]; cases e.neg <;> cases b <;> simp

/-- The labelling equations of a store. -/
structure Lab (s : Store) (δ : Nat → BFn) : Prop where
  const : δ 0 = fun _ => true
  node : ∀ a n, s.heap a = some n →
    ∀ ρ, δ a ρ = if ρ n.var then den δ n.thn ρ else den δ n.els ρ

theorem Lab.den_one {s δ} (h : Lab s δ) : den δ one = fun _ => true := by
  funext ρ; simp [den, one, h.const]
theorem Lab.den_zero {s δ} (h : Lab s δ) : den δ zero = fun _ => false := by
  funext ρ; simp [den, zero, h.const]

theorem Lab.rep_eq {s δ} (h : Lab s δ) {e F} (hr : Rep s e F) : den δ e = F := by
  induction hr with
  | one => funext ρ; simp [den, h.const]
  | zero => funext ρ; simp [den, h.const]
  | pos hn _ _ ih1 ih2 => funext ρ; simp [den, h.node _ _ hn ρ, ← ih1, ← ih2]
  | neg hn _ _ ih1 ih2 => funext ρ; simp [den, h.node _ _ hn ρ, ← ih1, ← ih2]

/-! ## Order facts -/

theorem Order.WF.lvl_lt {o : Order} (h : o.WF) {i} (h1 : 1 ≤ i) (h2 : i ≤ o.numVars) :
    o.lvl i < o.numVars := by
  have : i ≠ 0 := by omega
  simp [Order.lvl, this, h.idx_lt i h1 h2]

theorem Order.WF.lvl_inj {o : Order} (h : o.WF) {i j} (h1 : 1 ≤ i) (h2 : i ≤ o.numVars)
    (h3 : 1 ≤ j) (h4 : j ≤ o.numVars) (he : o.lvl i = o.lvl j) : i = j := by
  have a : i ≠ 0 := by omega
  have b : j ≠ 0 := by omega
  simp [Order.lvl, a, b] at he
  rw [← h.left i h1 h2, ← h.left j h3 h4, he]

@[simp] theorem Order.lvl_zero (o : Order) : o.lvl 0 = constIndex := by simp [Order.lvl]

theorem Order.WF.lvl_indexToId {o : Order} (h : o.WF) {k} (hk : k < o.numVars) :
    o.lvl (o.indexToId k) = k := by
  have := h.id_range k hk
  have a : o.indexToId k ≠ 0 := by omega
  simp [Order.lvl, a, h.right k hk]

namespace Store

theorem EOK.not {s : Store} {e : Edge} (h : s.EOK e) : s.EOK e.not := h
theorem EOK.phase {s : Store} {e : Edge} (h : s.EOK e) (b : Bool) : s.EOK (e.phase b) := h
theorem EOK_one (s : Store) : s.EOK one := Or.inl ⟨rfl, rfl⟩
theorem EOK_zero (s : Store) : s.EOK zero := Or.inl ⟨rfl, rfl⟩

theorem WF.heap_pos {s : Store} (w : s.WF) {a n} (h : s.heap a = some n) : a ≠ 0 := by
  rintro rfl; rw [w.heap0] at h; cases h

theorem WF.lvl_lt {s : Store} (w : s.WF) {a n} (h : s.heap a = some n) :
    s.ord.lvl n.var < s.ord.numVars :=
  w.ord.lvl_lt (w.var_range a n h).1 (w.var_range a n h).2

/-- a valid non-constant edge is a node -/
theorem EOK.node {s : Store} (_w : s.WF) {e : Edge} (h : s.EOK e) (hc : e.id ≠ 0) :
    ∃ n, s.heap e.addr = some n ∧ n.var = e.id := by
  rcases h with ⟨h, _⟩ | h
  · exact absurd h hc
  · exact h

theorem EOK.lvl_lt {s : Store} (w : s.WF) {e : Edge} (h : s.EOK e) (hc : e.id ≠ 0) :
    s.ord.lvl e.id < s.ord.numVars := by
  obtain ⟨n, hn, hv⟩ := h.node w hc
  rw [← hv]; exact w.lvl_lt hn

theorem EOK.lvl_le {s : Store} (w : s.WF) {e : Edge} (h : s.EOK e) :
    s.ord.lvl e.id ≤ constIndex := by
  by_cases hc : e.id = 0
  · simp [hc]
  · have := h.lvl_lt w hc; have := w.ord.bound; omega

theorem EOK.const_iff {s : Store} (w : s.WF) {e : Edge} (h : s.EOK e) :
    e.id = 0 ↔ e = one ∨ e = zero := by
  constructor
  · intro h0
    rcases h with ⟨_, h2⟩ | ⟨n, hn, hv⟩
    · cases hb : e.neg
      · left; exact Edge.ext' h0 h2 hb
      · right; exact Edge.ext' h0 h2 hb
    · have := w.var_range _ _ hn; omega
  · rintro (rfl | rfl) <;> rfl

theorem EOK.addr_zero {s : Store} (w : s.WF) {e : Edge} (h : s.EOK e) : e.addr = 0 ↔ e.id = 0 := by
  rcases h with ⟨h1, h2⟩ | ⟨n, hn, hv⟩
  · simp [h1, h2]
  · have := w.var_range _ _ hn
    have := w.heap_pos hn
    constructor <;> intro <;> omega

/-- equal addresses give equal ids (`CalBddIsEqual` compares addresses only) -/
theorem EOK.id_eq {s : Store} (w : s.WF) {e f : Edge} (he : s.EOK e) (hf : s.EOK f)
    (h : e.addr = f.addr) : e.id = f.id := by
  by_cases h0 : e.id = 0
  · have := (he.addr_zero w).2 h0
    rw [h] at this; rw [h0, (hf.addr_zero w).1 this]
  · obtain ⟨n, hn, hv⟩ := he.node w h0
    have h1 : f.id ≠ 0 := by
      intro h1; exact h0 ((he.addr_zero w).1 (h.trans ((hf.addr_zero w).2 h1)))
    obtain ⟨m, hm, hu⟩ := hf.node w h1
    rw [h, hm] at hn; cases hn; omega

theorem EOK.mono {s s' : Store} (hl : s.Le s') {e : Edge} (h : s.EOK e) : s'.EOK e := by
  rcases h with h | ⟨n, hn, hv⟩
  · exact Or.inl h
  · exact Or.inr ⟨n, hl.heap _ _ hn, hv⟩

end Store

theorem Rep.mono {s s' : Store} (hl : s.Le s') {e F} (h : Rep s e F) : Rep s' e F := by
  induction h with
  | one => exact .one
  | zero => exact .zero
  | pos hn _ _ ih1 ih2 => exact .pos (hl.heap _ _ hn) ih1 ih2
  | neg hn _ _ ih1 ih2 => exact .neg (hl.heap _ _ hn) ih1 ih2

theorem Rep.not {s : Store} {e F} (h : Rep s e F) : Rep s e.not (fun ρ => !(F ρ)) := by
  cases h with
  | one => exact .zero
  | zero => exact .one
  | pos hn h1 h2 => exact .neg hn h1 h2
  | neg hn h1 h2 =>
    have := Rep.pos hn h1 h2
    simpa [Edge.not] using this

theorem Rep.phase {s : Store} {e F} (h : Rep s e F) (b : Bool) :
    Rep s (e.phase b) (fun ρ => xor b (F ρ)) := by
  cases b
  · simpa using h
  · simpa using h.not

theorem Rep.eok {s : Store} {e F} (h : Rep s e F) : s.EOK e := by
  cases h with
  | one => exact Or.inl ⟨rfl, rfl⟩
  | zero => exact Or.inl ⟨rfl, rfl⟩
  | pos hn _ _ => exact Or.inr ⟨_, hn, rfl⟩
  | neg hn _ _ => exact Or.inr ⟨_, hn, rfl⟩

theorem Store.WF.rep_exists {s : Store} (w : s.WF) {e : Edge} (h : s.EOK e) : ∃ F, Rep s e F := by
  suffices H : ∀ k (e : Edge), s.EOK e → s.ord.numVars ≤ s.ord.lvl e.id + k → ∃ F, Rep s e F from
    H s.ord.numVars e h (by omega)
  intro k
  induction k with
  | zero =>
    intro e h hk
    have h0 : e.id = 0 := by
      by_cases h0 : e.id = 0
      · exact h0
      · have := h.lvl_lt w h0; omega
    rcases (h.const_iff w).1 h0 with rfl | rfl
    · exact ⟨_, .one⟩
    · exact ⟨_, .zero⟩
  | succ k ih =>
    intro e h hk
    by_cases h0 : e.id = 0
    · rcases (h.const_iff w).1 h0 with rfl | rfl
      · exact ⟨_, .one⟩
      · exact ⟨_, .zero⟩
    · obtain ⟨n, hn, hv⟩ := h.node w h0
      have l1 := w.thn_lt _ _ hn
      have l2 := w.els_lt _ _ hn
      obtain ⟨F, hF⟩ := ih n.thn (w.thn_ok _ _ hn) (by rw [← hv] at hk; omega)
      obtain ⟨G, hG⟩ := ih n.els (w.els_ok _ _ hn) (by rw [← hv] at hk; omega)
      obtain ⟨i, a, b⟩ := e
      cases b
      · exact ⟨_, by simpa [hv] using Rep.pos hn hF hG⟩
      · exact ⟨_, by simpa [hv] using Rep.neg hn hF hG⟩

theorem Rep.unique0 {s : Store} (w : s.heap 0 = none) {e F G} (h1 : Rep s e F) (h2 : Rep s e G) : F = G := by
  induction h1 generalizing G with
  | one =>
    generalize he : (⟨0, 0, false⟩ : Edge) = e at h2
    cases h2 with
    | one => rfl
    | zero => cases he
    | pos hn _ _ => injection he with a b c; subst b; rw [w] at hn; cases hn
    | neg hn _ _ => injection he with a b c; cases c
  | zero =>
    generalize he : (⟨0, 0, true⟩ : Edge) = e at h2
    cases h2 with
    | one => cases he
    | zero => rfl
    | neg hn _ _ => injection he with a b c; subst b; rw [w] at hn; cases hn
    | pos hn _ _ => injection he with a b c; cases c
  | @pos a n F1 F2 hn _ _ ih1 ih2 =>
    generalize he : (⟨n.var, a, false⟩ : Edge) = e at h2
    cases h2 with
    | one => injection he with x y z; subst y; rw [w] at hn; cases hn
    | zero => injection he with x y z; cases z
    | pos hm k1 k2 =>
      injection he with x y z; subst y; rw [hn] at hm; cases hm
      rw [ih1 k1, ih2 k2]
    | neg hm k1 k2 => injection he with x y z; cases z
  | @neg a n F1 F2 hn _ _ ih1 ih2 =>
    generalize he : (⟨n.var, a, true⟩ : Edge) = e at h2
    cases h2 with
    | one => injection he with x y z; cases z
    | zero => injection he with x y z; subst y; rw [w] at hn; cases hn
    | neg hm k1 k2 =>
      injection he with x y z; subst y; rw [hn] at hm; cases hm
      rw [ih1 k1, ih2 k2]
    | pos hm k1 k2 => injection he with x y z; cases z

theorem Rep.unique {s : Store} (w : s.WF) {e F G} (h1 : Rep s e F) (h2 : Rep s e G) : F = G :=
  h1.unique0 w.heap0 h2

/-- Every well-formed store has a labelling. -/
theorem Store.WF.exists_lab {s : Store} (w : s.WF) : ∃ δ, Lab s δ := by
  classical
  have H : ∀ a, ∃ F : BFn, ∀ n, s.heap a = some n → Rep s ⟨n.var, a, false⟩ F := by
    intro a
    cases hn : s.heap a with
    | none => exact ⟨fun _ => true, by simp⟩
    | some n =>
      obtain ⟨F, hF⟩ := w.rep_exists (e := ⟨n.var, a, false⟩) (Or.inr ⟨n, hn, rfl⟩)
      exact ⟨F, by intro m hm; cases hm; exact hF⟩
  let δ : Nat → BFn := fun a => if a = 0 then fun _ => true else Classical.choose (H a)
  have hδ : ∀ e F, Rep s e F → den δ e = F := by
    intro e F h
    have hd : ∀ a n, s.heap a = some n → Rep s ⟨n.var, a, false⟩ (δ a) := by
      intro a n hn
      have := w.heap_pos hn
      simp only [δ, this, if_false]
      exact Classical.choose_spec (H a) n hn
    cases h with
    | one => funext ρ; simp [den, δ]
    | zero => funext ρ; simp [den, δ]
    | pos hn h1 h2 =>
      have := Rep.unique w (hd _ _ hn) (.pos hn h1 h2)
      funext ρ; simp [den, this]
    | neg hn h1 h2 =>
      have := Rep.unique w (hd _ _ hn) (.pos hn h1 h2)
      funext ρ; simp [den, this]
  refine ⟨δ, ⟨by simp [δ], ?_⟩⟩
  intro a n hn ρ
  obtain ⟨F, hF⟩ := w.rep_exists (w.thn_ok _ _ hn)
  obtain ⟨G, hG⟩ := w.rep_exists (w.els_ok _ _ hn)
  have := hδ _ _ (.pos hn hF hG)
  rw [hδ _ _ hF, hδ _ _ hG]
  have := congrFun this ρ
  simpa [den] using this

theorem Lab.rep {s : Store} (w : s.WF) {δ} (h : Lab s δ) {e : Edge} (he : s.EOK e) :
    Rep s e (den δ e) := by
  obtain ⟨F, hF⟩ := w.rep_exists he
  rw [h.rep_eq hF]; exact hF

/-! ## Functions do not depend on variables above their top variable -/

/-- `F` does not depend on variable `v`. -/
def Indep (F : BFn) (v : Nat) : Prop := ∀ ρ b, F (upd ρ v b) = F ρ

theorem Rep.indep {s : Store} (w : s.WF) {e F} (h : Rep s e F) :
    ∀ v, (s.ord.lvl v < s.ord.lvl e.id) → Indep F v := by
  induction h with
  | one => intro v _ ρ b; rfl
  | zero => intro v _ ρ b; rfl
  | @pos a n F G hn _ _ ih1 ih2 =>
    intro v hv ρ b
    have hne : n.var ≠ v := by rintro rfl; simp at hv
    have l1 := w.thn_lt _ _ hn
    have l2 := w.els_lt _ _ hn
    simp only at hv
    simp only [upd_ne ρ b hne]
    rw [ih1 v (by omega) ρ b, ih2 v (by omega) ρ b]
  | @neg a n F G hn _ _ ih1 ih2 =>
    intro v hv ρ b
    have hne : n.var ≠ v := by rintro rfl; simp at hv
    have l1 := w.thn_lt _ _ hn
    have l2 := w.els_lt _ _ hn
    simp only at hv
    simp only [upd_ne ρ b hne]
    rw [ih1 v (by omega) ρ b, ih2 v (by omega) ρ b]

/-! ## Canonicity -/

theorem canon_aux {s : Store} (w : s.WF) : ∀ k (e f : Edge) (F : BFn),
    s.ord.numVars ≤ s.ord.lvl e.id + k → s.ord.numVars ≤ s.ord.lvl f.id + k →
    Rep s e F → Rep s f F → e = f := by
  intro k
  induction k with
  | zero =>
    intro e f F h1 h2 he hf
    have c1 : e.id = 0 := by
      by_cases h0 : e.id = 0
      · exact h0
      · have := he.eok.lvl_lt w h0; omega
    have c2 : f.id = 0 := by
      by_cases h0 : f.id = 0
      · exact h0
      · have := hf.eok.lvl_lt w h0; omega
    rcases (he.eok.const_iff w).1 c1 with rfl | rfl <;>
      rcases (hf.eok.const_iff w).1 c2 with rfl | rfl
    · rfl
    · have a := Rep.unique w he .one; have b := Rep.unique w hf .zero
      rw [a] at b; exact absurd (congrFun b (fun _ => true)) (by simp)
    · have a := Rep.unique w he .zero; have b := Rep.unique w hf .one
      rw [a] at b; exact absurd (congrFun b (fun _ => true)) (by simp)
    · rfl
  | succ k ih =>
    -- the positive case, from which the others follow
    have key : ∀ (e f : Edge) (F : BFn),
        s.ord.numVars ≤ s.ord.lvl e.id + (k+1) → s.ord.numVars ≤ s.ord.lvl f.id + (k+1) →
        s.ord.lvl e.id ≤ s.ord.lvl f.id →
        Rep s e F → Rep s f F → e = f := by
      intro e f F h1 h2 hle he hf
      by_cases c1 : e.id = 0
      · -- e constant, so f too
        have c2 : f.id = 0 := by
          by_cases h0 : f.id = 0
          · exact h0
          · have := hf.eok.lvl_lt w h0; have := w.ord.bound; simp [c1] at hle; omega
        rcases (he.eok.const_iff w).1 c1 with rfl | rfl <;>
          rcases (hf.eok.const_iff w).1 c2 with rfl | rfl
        · rfl
        · have a := Rep.unique w he .one; have b := Rep.unique w hf .zero
          rw [a] at b; exact absurd (congrFun b (fun _ => true)) (by simp)
        · have a := Rep.unique w he .zero; have b := Rep.unique w hf .one
          rw [a] at b; exact absurd (congrFun b (fun _ => true)) (by simp)
        · rfl
      · obtain ⟨n, hn, hv⟩ := he.eok.node w c1
        have l1 := w.thn_lt _ _ hn
        have l2 := w.els_lt _ _ hn
        have hvr := w.var_range _ _ hn
        obtain ⟨T, hT⟩ := w.rep_exists (w.thn_ok _ _ hn)
        obtain ⟨E, hE⟩ := w.rep_exists (w.els_ok _ _ hn)
        have iT := hT.indep w n.var l1
        have iE := hE.indep w n.var l2
        have hFe : F = fun ρ => xor e.neg (if ρ n.var then T ρ else E ρ) := by
          obtain ⟨i, a, b⟩ := e
          simp only at hv hn
          subst hv
          cases b
          · simpa using Rep.unique w he (Rep.pos hn hT hE)
          · simpa using Rep.unique w he (Rep.neg hn hT hE)
        by_cases hlt : s.ord.lvl e.id < s.ord.lvl f.id
        · -- then F does not depend on n.var, so T = E, so node is redundant
          exfalso
          have hi := hf.indep w n.var (by rw [hv]; exact hlt)
          have : T = E := by
            funext ρ
            have h := hi (upd ρ n.var true) false
            rw [hFe] at h
            have e1 : upd (upd ρ n.var true) n.var false = upd ρ n.var false := by
              funext x; by_cases hx : x = n.var <;> simp [upd, hx]
            rw [e1] at h
            have t1 := iT ρ true
            have t2 := iE ρ false
            simp only [upd_same] at h
            simp only [if_true, Bool.false_eq_true, if_false] at h
            rw [t1, t2] at h
            revert h; cases e.neg <;> cases T ρ <;> cases E ρ <;> simp
          subst this
          exact w.reduced _ _ hn (ih n.thn n.els _ (by rw [← hv] at h1; omega)
            (by rw [← hv] at h1; omega) hT hE)
        · have heq : s.ord.lvl e.id = s.ord.lvl f.id := by omega
          have c2 : f.id ≠ 0 := by
            intro h0; have := he.eok.lvl_lt w c1; have := w.ord.bound; simp [h0] at heq; omega
          obtain ⟨m, hm, hu⟩ := hf.eok.node w c2
          have hur := w.var_range _ _ hm
          have hvu : n.var = m.var := w.ord.lvl_inj hvr.1 hvr.2 hur.1 hur.2 (by rw [hv, hu, heq])
          obtain ⟨T', hT'⟩ := w.rep_exists (w.thn_ok _ _ hm)
          obtain ⟨E', hE'⟩ := w.rep_exists (w.els_ok _ _ hm)
          have l1' := w.thn_lt _ _ hm
          have l2' := w.els_lt _ _ hm
          have iT' := hT'.indep w m.var l1'
          have iE' := hE'.indep w m.var l2'
          have hFf : F = fun ρ => xor f.neg (if ρ m.var then T' ρ else E' ρ) := by
            obtain ⟨i, a, b⟩ := f
            simp only at hu hm
            subst hu
            cases b
            · simpa using Rep.unique w hf (Rep.pos hm hT' hE')
            · simpa using Rep.unique w hf (Rep.neg hm hT' hE')
          have hTT : ∀ ρ, xor e.neg (T ρ) = xor f.neg (T' ρ) := by
            intro ρ
            have h := congrFun (hFe.symm.trans hFf) (upd ρ n.var true)
            simp only [upd_same, ← hvu, if_true] at h
            rw [iT ρ true] at h; rw [hvu, iT' ρ true] at h; exact h
          have hEE : ∀ ρ, xor e.neg (E ρ) = xor f.neg (E' ρ) := by
            intro ρ
            have h := congrFun (hFe.symm.trans hFf) (upd ρ n.var false)
            simp only [upd_same, ← hvu, Bool.false_eq_true, if_false] at h
            rw [iE ρ false] at h; rw [hvu, iE' ρ false] at h; exact h
          have rT : Rep s (n.thn.phase e.neg) (fun ρ => xor e.neg (T ρ)) := hT.phase _
          have rT' : Rep s (m.thn.phase f.neg) (fun ρ => xor f.neg (T' ρ)) := hT'.phase _
          have rE : Rep s (n.els.phase e.neg) (fun ρ => xor e.neg (E ρ)) := hE.phase _
          have rE' : Rep s (m.els.phase f.neg) (fun ρ => xor f.neg (E' ρ)) := hE'.phase _
          rw [← funext hTT] at rT'
          rw [← funext hEE] at rE'
          have q1 := ih _ _ _ (by rw [← hv] at h1; simp; omega) (by rw [← hu] at h2; simp; omega)
            rT rT'
          have q2 := ih _ _ _ (by rw [← hv] at h1; simp; omega) (by rw [← hu] at h2; simp; omega)
            rE rE'
          have hb : e.neg = f.neg := by
            have := congrArg Edge.neg q1
            simpa [w.thn_pos _ _ hn, w.thn_pos _ _ hm] using this
          have p1 : n.thn = m.thn := by
            have := congrArg (fun x => Edge.phase x e.neg) q1
            simpa [hb] using this
          have p2 : n.els = m.els := by
            have := congrArg (fun x => Edge.phase x e.neg) q2
            simpa [hb] using this
          have hnm : n = m := by cases n; cases m; simp_all
          rw [← hnm] at hm
          have ha := w.unique _ _ _ hn hm
          exact Edge.ext' (by rw [← hv, ← hu, hvu]) ha hb
    intro e f F h1 h2 he hf
    rcases Nat.le_total (s.ord.lvl e.id) (s.ord.lvl f.id) with h | h
    · exact key e f F h1 h2 h he hf
    · exact (key f e F h2 h1 h hf he).symm

/-- Canonicity: in a well-formed store two edges denoting the same function are identical. -/
theorem canonical {s : Store} (w : s.WF) {e f : Edge} {F : BFn} (he : Rep s e F)
    (hf : Rep s f F) : e = f :=
  canon_aux w s.ord.numVars e f F (by omega) (by omega) he hf

/-! ## `Rep` agrees with walking the diagram -/

theorem Rep.eval {s : Store} (w : s.WF) {e F} (h : Rep s e F) (ρ : Asg) :
    ∃ k, s.eval ρ k e = some (F ρ) := by
  induction h with
  | one => exact ⟨0, rfl⟩
  | zero => exact ⟨0, rfl⟩
  | @pos a n F G hn _ _ ih1 ih2 =>
    have h0 := w.heap_pos hn
    obtain ⟨k1, h1⟩ := ih1; obtain ⟨k2, h2⟩ := ih2
    by_cases hr : ρ n.var
    · exact ⟨k1+1, by simp [Store.eval, h0, hn, hr, h1]⟩
    · exact ⟨k2+1, by simp [Store.eval, h0, hn, hr, h2]⟩
  | @neg a n F G hn _ _ ih1 ih2 =>
    have h0 := w.heap_pos hn
    obtain ⟨k1, h1⟩ := ih1; obtain ⟨k2, h2⟩ := ih2
    by_cases hr : ρ n.var
    · exact ⟨k1+1, by simp [Store.eval, h0, hn, hr, h1]⟩
    · exact ⟨k2+1, by simp [Store.eval, h0, hn, hr, h2]⟩

end Cal
