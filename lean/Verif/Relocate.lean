import Verif.MgrInv

/-!
# Moving nodes to other addresses

Reordering and repacking copy all nodes to new places and forward every pointer. `Store.Moved s s' φ`:
the store `s'` is the store `s` with the node at `a` moved to `φ a`. Moved stores are well formed, have
right reference counts, and their edges stand for the same functions.
-/

namespace Cal

/-- an edge after the move -/
def mvE (φ : Nat → Nat) (e : Edge) : Edge := { e with addr := φ e.addr }
/-- a node after the move -/
def mvN (φ : Nat → Nat) (n : Node) : Node := ⟨n.var, mvE φ n.thn, mvE φ n.els⟩

structure Store.Moved (s s' : Store) (φ : Nat → Nat) : Prop where
  zero : φ 0 = 0
  inj : ∀ a b, s.heap a ≠ none → s.heap b ≠ none → φ a = φ b → a = b
  pos : ∀ a, s.heap a ≠ none → φ a ≠ 0
  node : ∀ a n, s.heap a = some n → s'.heap (φ a) = some (mvN φ n)
  only : ∀ b, s'.heap b ≠ none → ∃ a, s.heap a ≠ none ∧ φ a = b
  ref : ∀ a, s.heap a ≠ none → s'.ref (φ a) = s.ref a
  ref0 : s'.ref 0 = s.ref 0
  tab : ∀ i, (s'.tab i).Perm ((s.tab i).map φ)
  ord : s'.ord = s.ord
  num : s'.numNodes = s.numNodes
  next_pos : 0 < s'.next
  heap_next : ∀ a, s'.heap a ≠ none → a < s'.next
  free_nodup : ∀ i, (s'.free i).Nodup
  free_ok : ∀ i a, a ∈ s'.free i → s'.heap a = none ∧ 0 < a ∧ a < s'.next
  free_disj : ∀ i j a, a ∈ s'.free i → a ∈ s'.free j → i = j

namespace Store.Moved

variable {s s' : Store} {φ : Nat → Nat}

theorem eok (h : s.Moved s' φ) {e : Edge} (he : s.EOK e) : s'.EOK (mvE φ e) := by
  rcases he with ⟨h1, h2⟩ | ⟨n, hn, hv⟩
  · exact Or.inl ⟨h1, by show φ e.addr = 0; rw [h2, h.zero]⟩
  · exact Or.inr ⟨_, h.node _ _ hn, hv⟩

theorem back (h : s.Moved s' φ) {b m} (hb : s'.heap b = some m) :
    ∃ a n, s.heap a = some n ∧ φ a = b ∧ m = mvN φ n := by
  obtain ⟨a, ha, rfl⟩ := h.only b (by rw [hb]; simp)
  cases hn : s.heap a with
  | none => exact absurd hn ha
  | some n =>
    rw [h.node a n hn] at hb
    exact ⟨a, n, hn, rfl, by cases hb; rfl⟩

/-- edges of `s` with the same image are the same -/
theorem edge_inj (h : s.Moved s' φ) {e f : Edge} (he : s.EOK e) (hf : s.EOK f) (hh : mvE φ e = mvE φ f) :
    e = f := by
  have h1 : (mvE φ e).id = (mvE φ f).id := by rw [hh]
  have h2 : φ e.addr = φ f.addr := congrArg Edge.addr hh
  have h3 : (mvE φ e).neg = (mvE φ f).neg := by rw [hh]
  refine Edge.ext' h1 ?_ h3
  rcases he with ⟨_, h5⟩ | ⟨n, hn, _⟩
  · rcases hf with ⟨_, h7⟩ | ⟨n, hn, _⟩
    · rw [h5, h7]
    · rw [h5, h.zero] at h2
      exact absurd h2.symm (h.pos _ (by rw [hn]; simp))
  · rcases hf with ⟨_, h7⟩ | ⟨k, hk, _⟩
    · rw [h7, h.zero] at h2
      exact absurd h2 (h.pos _ (by rw [hn]; simp))
    · exact h.inj _ _ (by rw [hn]; simp) (by rw [hk]; simp) h2

theorem tab_mem (h : s.Moved s' φ) {i b} : b ∈ s'.tab i ↔ ∃ a, a ∈ s.tab i ∧ φ a = b := by
  rw [(h.tab i).mem_iff, List.mem_map]

theorem wf (h : s.Moved s' φ) (w : s.WF) : s'.WF := by
  have hh0 : s'.heap 0 = none := by
    cases h0 : s'.heap 0 with
    | none => rfl
    | some m =>
      obtain ⟨a, ha, h1⟩ := h.only 0 (by rw [h0]; simp)
      exact absurd h1 (h.pos a ha)
  refine ⟨by rw [h.ord]; exact w.ord, hh0, ?_, ?_, ?_, ?_, ?_, ?_, ?_, ?_, ?_, ?_, h.next_pos,
    fun a n hn => h.heap_next a (by rw [hn]; simp), h.free_nodup, h.free_ok, h.free_disj⟩
  · intro b m hb
    obtain ⟨a, n, hn, rfl, rfl⟩ := h.back hb
    rw [h.ord]; exact w.var_range a n hn
  · intro i b
    rw [h.tab_mem]
    constructor
    · rintro ⟨a, ha, rfl⟩
      obtain ⟨n, hn, hv⟩ := (w.tab_iff i a).1 ha
      exact ⟨_, h.node a n hn, hv⟩
    · rintro ⟨m, hm, hv⟩
      obtain ⟨a, n, hn, rfl, rfl⟩ := h.back hm
      exact ⟨a, (w.tab_iff i a).2 ⟨n, hn, hv⟩, rfl⟩
  · intro i
    rw [(h.tab i).nodup_iff]
    unfold List.Nodup
    rw [List.pairwise_map]
    have hl : ∀ a ∈ s.tab i, s.heap a ≠ none := fun a ha => by
      obtain ⟨n, hn, _⟩ := (w.tab_iff i a).1 ha
      rw [hn]; simp
    exact List.Pairwise.imp_of_mem (fun ha hb hne he => hne (h.inj _ _ (hl _ ha) (hl _ hb) he)) (w.tab_nodup i)
  · intro b m hb
    obtain ⟨a, n, hn, rfl, rfl⟩ := h.back hb
    exact h.eok (w.thn_ok a n hn)
  · intro b m hb
    obtain ⟨a, n, hn, rfl, rfl⟩ := h.back hb
    exact h.eok (w.els_ok a n hn)
  · intro b m hb
    obtain ⟨a, n, hn, rfl, rfl⟩ := h.back hb
    exact w.thn_pos a n hn
  · intro b m hb
    obtain ⟨a, n, hn, rfl, rfl⟩ := h.back hb
    rw [h.ord]; exact w.thn_lt a n hn
  · intro b m hb
    obtain ⟨a, n, hn, rfl, rfl⟩ := h.back hb
    rw [h.ord]; exact w.els_lt a n hn
  · intro b m hb
    obtain ⟨a, n, hn, rfl, rfl⟩ := h.back hb
    intro he
    exact w.reduced a n hn (h.edge_inj (w.thn_ok a n hn) (w.els_ok a n hn) he)
  · intro b b' m hb hb'
    obtain ⟨a, n, hn, rfl, rfl⟩ := h.back hb
    obtain ⟨a', n', hn', rfl, he⟩ := h.back hb'
    have e1 := h.edge_inj (w.thn_ok a n hn) (w.thn_ok a' n' hn') (congrArg Node.thn he)
    have e2 := h.edge_inj (w.els_ok a n hn) (w.els_ok a' n' hn') (congrArg Node.els he)
    have e3 : (mvN φ n).var = (mvN φ n').var := by rw [he]
    have : n = n' := by cases n; cases n'; simp only [mvN] at e1 e2 e3; simp_all
    subst this
    rw [w.unique a a' n hn hn']

theorem rep (h : s.Moved s' φ) {e F} (r : Rep s e F) : Rep s' (mvE φ e) F := by
  induction r with
  | one => have : mvE φ ⟨0, 0, false⟩ = ⟨0, 0, false⟩ := by simp [mvE, h.zero]
           rw [this]; exact .one
  | zero => have : mvE φ ⟨0, 0, true⟩ = ⟨0, 0, true⟩ := by simp [mvE, h.zero]
            rw [this]; exact .zero
  | @pos a n F G hn _ _ i1 i2 => exact Rep.pos (a := φ a) (n := mvN φ n) (h.node _ _ hn) i1 i2
  | @neg a n F G hn _ _ i1 i2 => exact Rep.neg (a := φ a) (n := mvN φ n) (h.node _ _ hn) i1 i2

theorem numOK (h : s.Moved s' φ) (n : s.NumOK) : s'.NumOK := by
  unfold Store.NumOK at *
  rw [h.num, n, h.ord]
  congr 1
  apply sumTo_congr
  intro i _
  rw [(h.tab i).length_eq, List.length_map]

end Store.Moved

/-- A sum over the nodes does not change when the nodes are moved. -/
theorem sumTo_push {f : Nat → Nat} {m : Nat} {φ : Nat → Nat} : ∀ (n : Nat) (g : Nat → Nat) (P : Nat → Prop),
    (∀ a b, P a → P b → φ a = φ b → a = b) → (∀ a, P a → a < n ∧ φ a < m) → (∀ a, a < n → ¬ P a → f a = 0) →
    (∀ a, P a → g (φ a) = f a) → (∀ b, b < m → (¬ ∃ a, P a ∧ φ a = b) → g b = 0) → sumTo f n = sumTo g m := by
  intro n
  induction n with
  | zero =>
    intro g P _ hP _ _ g0
    rw [sumTo, sumTo_zero]
    intro b hb
    exact g0 b hb fun ⟨a, ha, _⟩ => absurd (hP a ha).1 (by omega)
  | succ n ih =>
    intro g P inj hP f0 hg g0
    by_cases hn : P n
    · have e := ih (upd g (φ n) 0) (fun a => P a ∧ a ≠ n) (fun a b ha hb => inj a b ha.1 hb.1)
        (fun a ha => by have := hP a ha.1; have := ha.2; omega)
        (fun a ha hp => f0 a (by omega) fun h => hp ⟨h, by omega⟩)
        (fun a ha => by rw [upd_ne _ _ (fun h => ha.2 (inj a n ha.1 hn h))]; exact hg a ha.1)
        (fun b hb hx => by
          by_cases hbn : b = φ n
          · rw [hbn, upd_same]
          · rw [upd_ne _ _ hbn]
            refine g0 b hb ?_
            rintro ⟨a, ha, rfl⟩
            exact hx ⟨a, ⟨ha, fun h => hbn (by rw [h])⟩, rfl⟩)
      have c := sumTo_change (f := g) (g := upd g (φ n) 0) (hP n hn).2 (fun b hb => by rw [upd_ne _ _ hb])
      rw [upd_same, hg n hn] at c
      rw [sumTo]
      omega
    · rw [sumTo, f0 n (by omega) hn]
      exact ih g P inj (fun a ha => ⟨by
        have := hP a ha
        have : a ≠ n := fun h => hn (h ▸ ha)
        omega, (hP a ha).2⟩) (fun a ha => f0 a (by omega)) hg g0

namespace Store.Moved

variable {s s' : Store} {φ : Nat → Nat}

theorem hits_mv (h : s.Moved s' φ) {e : Edge} (he : e.addr = 0 ∨ s.heap e.addr ≠ none) {a}
    (ha : s.heap a ≠ none) : hits (mvE φ e) (φ a) = hits e a := by
  unfold hits
  by_cases hc : e.addr = a
  · rw [if_pos hc, if_pos (show (mvE φ e).addr = φ a from congrArg φ hc)]
  · rw [if_neg hc, if_neg]
    intro hx
    rcases he with he | he
    · have hx' : φ e.addr = φ a := hx
      rw [he, h.zero] at hx'
      exact h.pos a ha hx'.symm
    · exact hc (h.inj _ _ he ha hx)

theorem hits_other (h : s.Moved s' φ) {e : Edge} (he : e.addr = 0 ∨ s.heap e.addr ≠ none) {b}
    (hb : s'.heap b = none) (b0 : b ≠ 0) : hits (mvE φ e) b = 0 := by
  unfold hits
  rw [if_neg]
  intro hx
  have hx' : φ e.addr = b := hx
  rcases he with he | he
  · rw [he, h.zero] at hx'; exact b0 hx'.symm
  · cases hn : s.heap e.addr with
    | none => exact he hn
    | some n => rw [← hx', h.node _ _ hn] at hb; cases hb

theorem inDeg (h : s.Moved s' φ) (w : s.WF) {x} (hx : s.heap x ≠ none) : s'.inDeg (φ x) = s.inDeg x := by
  unfold Store.inDeg
  symm
  have ok : ∀ e : Edge, s.EOK e → e.addr = 0 ∨ s.heap e.addr ≠ none := by
    rintro e (⟨_, h2⟩ | ⟨n, hn, _⟩)
    · exact Or.inl h2
    · exact Or.inr (by rw [hn]; simp)
  refine sumTo_push (φ := φ) _ _ (fun a => s.heap a ≠ none) h.inj ?_ ?_ ?_ ?_
  · intro a ha
    cases hn : s.heap a with
    | none => exact absurd hn ha
    | some n => exact ⟨w.heap_next a n hn, h.heap_next _ (by rw [h.node a n hn]; simp)⟩
  · intro a _ ha
    have : s.heap a = none := by cases hn : s.heap a <;> simp_all
    simp only [Store.arcs, this]
  · intro a ha
    cases hn : s.heap a with
    | none => exact absurd hn ha
    | some n =>
      simp only [Store.arcs, hn, h.node a n hn, mvN]
      rw [h.hits_mv (ok _ (w.thn_ok a n hn)) hx, h.hits_mv (ok _ (w.els_ok a n hn)) hx]
  · intro b _ hb
    have : s'.heap b = none := by
      cases hn : s'.heap b with
      | none => rfl
      | some n => exact absurd (h.only b (by rw [hn]; simp)) hb
    simp only [Store.arcs, this]

theorem refOK (h : s.Moved s' φ) (w : s.WF) {ext ext' : Nat → Nat} (r : s.RefOK ext)
    (e1 : ∀ a, s.heap a ≠ none → ext' (φ a) = ext a)
    (e2 : ∀ b, b ≠ 0 → s'.heap b = none → ext' b = 0) : s'.RefOK ext' := by
  refine ⟨by rw [h.ref0]; exact r.const, ?_, ?_, e2⟩
  · intro b hb
    obtain ⟨a, ha, rfl⟩ := h.only b hb
    rw [h.ref a ha]; exact r.le a ha
  · intro b hb
    obtain ⟨a, ha, rfl⟩ := h.only b hb
    rw [h.ref a ha, h.inDeg w ha, e1 a ha]; exact r.cnt a ha

end Store.Moved

end Cal
