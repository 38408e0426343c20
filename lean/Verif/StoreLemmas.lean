import Verif.Sem

/-!
# Allocation, look-up and insertion keep the store well formed
-/

namespace Cal

/-! ## Allocation -/

theorem Store.alloc_heap (s : Store) (i : Nat) : (s.alloc i).2.heap = s.heap := by
  unfold Store.alloc; split <;> rfl
theorem Store.alloc_ord (s : Store) (i : Nat) : (s.alloc i).2.ord = s.ord := by
  unfold Store.alloc; split <;> rfl
theorem Store.alloc_tab (s : Store) (i : Nat) : (s.alloc i).2.tab = s.tab := by
  unfold Store.alloc; split <;> rfl

/-- What an allocation does: the address is new, every other address keeps its status. -/
structure Store.AllocSpec (s : Store) (a : Nat) (s' : Store) : Prop where
  pos : 0 < a
  old : s.heap a = none
  notfree : ∀ i, a ∉ s'.free i
  free_sub : ∀ i x, x ∈ s'.free i → x ∈ s.free i
  was_free : (∃ i, a ∈ s.free i) ∨ a = s.next
  lt : a < s'.next
  next_le : s.next ≤ s'.next

theorem Store.alloc_spec {s : Store} (w : s.WF) (i : Nat) :
    s.AllocSpec (s.alloc i).1 (s.alloc i).2 ∧ (s.alloc i).2.WF := by
  unfold Store.alloc
  split
  · rename_i a rest hfree
    have hin : a ∈ s.free i := by rw [hfree]; simp
    have hnd := w.free_nodup i
    rw [hfree] at hnd
    have hsub : ∀ j x, x ∈ (upd s.free i rest) j → x ∈ s.free j := by
      intro j x hx
      by_cases hj : j = i
      · subst hj; rw [upd_same] at hx; rw [hfree]; simp [hx]
      · rwa [upd_ne _ _ hj] at hx
    constructor
    · exact {
        pos := (w.free_ok i a hin).2.1
        old := (w.free_ok i a hin).1
        notfree := by
          intro j hj
          by_cases h : j = i
          · subst h; simp only [upd_same] at hj; simp at hnd; exact hnd.1 hj
          · simp only [upd_ne _ _ h] at hj
            exact h (w.free_disj j i a hj hin)
        free_sub := hsub
        was_free := Or.inl ⟨i, hin⟩
        lt := (w.free_ok i a hin).2.2
        next_le := Nat.le_refl _ }
    · exact { w with
        free_nodup := by
          intro j
          by_cases h : j = i
          · subst h; simp only [upd_same]; simp at hnd; exact hnd.2
          · simp only [upd_ne _ _ h]; exact w.free_nodup j
        free_ok := fun j x hx => w.free_ok j x (hsub j x hx)
        free_disj := fun j k x h1 h2 => w.free_disj j k x (hsub j x h1) (hsub k x h2) }
  · rename_i hfree
    constructor
    · exact {
        pos := w.next_pos
        old := by
          cases h : s.heap s.next with
          | none => rfl
          | some n => have := w.heap_next _ _ h; omega
        notfree := by intro j hj; have := (w.free_ok j _ hj).2.2; omega
        free_sub := fun _ _ h => h
        was_free := Or.inr rfl
        lt := Nat.lt_succ_self _
        next_le := Nat.le_succ _ }
    · exact { w with
        next_pos := Nat.succ_pos _
        heap_next := fun a n h => Nat.lt_succ_of_lt (w.heap_next a n h)
        free_ok := fun j x hx =>
          ⟨(w.free_ok j x hx).1, (w.free_ok j x hx).2.1,
            Nat.lt_succ_of_lt (w.free_ok j x hx).2.2⟩ }

/-! ## Reference counts do not matter for the structure -/

theorem Store.icr_eq (s : Store) (e : Edge) : ∃ r, s.icr e = { s with ref := r } := ⟨_, rfl⟩
theorem Store.dcr_eq (s : Store) (e : Edge) : ∃ r, s.dcr e = { s with ref := r } := ⟨_, rfl⟩
theorem Store.addRef_eq (s : Store) (e : Edge) (n : Int) :
    ∃ r, s.addRef e n = { s with ref := r } := by
  unfold Store.addRef; split
  · exact ⟨_, rfl⟩
  · exact ⟨s.ref, rfl⟩

theorem Store.WF.ref {s : Store} (w : s.WF) (r : Nat → Nat) : ({ s with ref := r } : Store).WF :=
  { w with }
theorem Store.WF.counters {s : Store} (w : s.WF) (n : Nat) (c : Int) :
    ({ s with numNodes := n, gcCheck := c } : Store).WF := { w with }

/-! ## Look-up and insertion -/

theorem Store.lookup_some {s : Store} {i a : Nat} {t e : Edge} (h : s.lookup i t e = some a)
    (w : s.WF) : s.heap a = some ⟨i, t, e⟩ := by
  unfold Store.lookup at h
  have hm := List.mem_of_find?_eq_some h
  have hp := List.find?_some h
  obtain ⟨n, hn, hv⟩ := (w.tab_iff i a).1 hm
  rw [hn] at hp ⊢
  simp only [decide_eq_true_eq] at hp
  obtain ⟨v, t', e'⟩ := n
  simp_all

theorem Store.lookup_none {s : Store} {i : Nat} {t e : Edge} (h : s.lookup i t e = none)
    (w : s.WF) : ∀ a, s.heap a ≠ some ⟨i, t, e⟩ := by
  intro a ha
  unfold Store.lookup at h
  have hm : a ∈ s.tab i := (w.tab_iff i a).2 ⟨_, ha, rfl⟩
  have := List.find?_eq_none.1 h a hm
  simp [ha] at this

theorem Store.EOK.addr_lt {s : Store} (w : s.WF) {e : Edge} (h : s.EOK e) : e.addr < s.next := by
  rcases h with ⟨_, h⟩ | ⟨n, hn, _⟩
  · rw [h]; exact w.next_pos
  · exact w.heap_next _ _ hn

theorem Store.insertAt_le {s : Store} {i a : Nat} {t e : Edge} (h : s.heap a = none) :
    s.Le (s.insertAt i a t e) := by
  refine ⟨rfl, fun x n hx => ?_⟩
  have : x ≠ a := by rintro rfl; rw [h] at hx; cases hx
  simp only [Store.insertAt, upd_ne _ _ this]; exact hx

theorem Store.insertAt_wf {s : Store} (w : s.WF) {i a : Nat} {t e : Edge} (ha : s.heap a = none)
    (hpos : 0 < a) (hlt : a < s.next) (hfree : ∀ j, a ∉ s.free j)
    (hi : 1 ≤ i ∧ i ≤ s.ord.numVars) (ht : s.EOK t) (he : s.EOK e)
    (hlt1 : s.ord.lvl i < s.ord.lvl t.id) (hlt2 : s.ord.lvl i < s.ord.lvl e.id)
    (hne : t ≠ e) (hn : t.neg = false) (hlk : s.lookup i t e = none) :
    (s.insertAt i a t e).WF := by
  have hle := Store.insertAt_le (s := s) (i := i) (t := t) (e := e) ha
  have cases_heap : ∀ x n, (s.insertAt i a t e).heap x = some n →
      (x = a ∧ n = ⟨i, t, e⟩) ∨ (x ≠ a ∧ s.heap x = some n) := by
    intro x n hx
    by_cases h : x = a
    · subst h; simp only [Store.insertAt, upd_same] at hx; cases hx; exact Or.inl ⟨rfl, rfl⟩
    · simp only [Store.insertAt, upd_ne _ _ h] at hx; exact Or.inr ⟨h, hx⟩
  have hnew : (s.insertAt i a t e).heap a = some ⟨i, t, e⟩ := by simp [Store.insertAt]
  exact {
    ord := w.ord
    heap0 := by
      have : (0:Nat) ≠ a := by omega
      simp only [Store.insertAt, upd_ne _ _ this]; exact w.heap0
    var_range := by
      intro x n hx
      rcases cases_heap x n hx with ⟨_, rfl⟩ | ⟨_, hx⟩
      · exact hi
      · exact w.var_range x n hx
    tab_iff := by
      intro j x
      by_cases hj : j = i
      · subst hj
        simp only [Store.insertAt, upd_same, List.mem_cons]
        constructor
        · rintro (rfl | hx)
          · exact ⟨_, upd_same _ _ _, rfl⟩
          · obtain ⟨n, hn, hv⟩ := (w.tab_iff j x).1 hx
            exact ⟨n, hle.heap _ _ hn, hv⟩
        · rintro ⟨n, hx, hv⟩
          rcases cases_heap x n hx with ⟨h, _⟩ | ⟨_, hx⟩
          · exact Or.inl h
          · exact Or.inr ((w.tab_iff j x).2 ⟨n, hx, hv⟩)
      · simp only [Store.insertAt, upd_ne _ _ hj]
        rw [w.tab_iff j x]
        constructor
        · rintro ⟨n, hn, hv⟩; exact ⟨n, hle.heap _ _ hn, hv⟩
        · rintro ⟨n, hx, hv⟩
          rcases cases_heap x n hx with ⟨_, rfl⟩ | ⟨_, hx⟩
          · exact absurd hv.symm hj
          · exact ⟨n, hx, hv⟩
    tab_nodup := by
      intro j
      by_cases hj : j = i
      · subst hj
        simp only [Store.insertAt, upd_same, List.nodup_cons]
        refine ⟨fun hx => ?_, w.tab_nodup _⟩
        obtain ⟨n, hn, _⟩ := (w.tab_iff j a).1 hx
        rw [ha] at hn; cases hn
      · simp only [Store.insertAt, upd_ne _ _ hj]; exact w.tab_nodup j
    thn_ok := by
      intro x n hx
      rcases cases_heap x n hx with ⟨_, rfl⟩ | ⟨_, hx⟩
      · exact ht.mono hle
      · exact (w.thn_ok x n hx).mono hle
    els_ok := by
      intro x n hx
      rcases cases_heap x n hx with ⟨_, rfl⟩ | ⟨_, hx⟩
      · exact he.mono hle
      · exact (w.els_ok x n hx).mono hle
    thn_pos := by
      intro x n hx
      rcases cases_heap x n hx with ⟨_, rfl⟩ | ⟨_, hx⟩
      · exact hn
      · exact w.thn_pos x n hx
    thn_lt := by
      intro x n hx
      rcases cases_heap x n hx with ⟨_, rfl⟩ | ⟨_, hx⟩
      · exact hlt1
      · exact w.thn_lt x n hx
    els_lt := by
      intro x n hx
      rcases cases_heap x n hx with ⟨_, rfl⟩ | ⟨_, hx⟩
      · exact hlt2
      · exact w.els_lt x n hx
    reduced := by
      intro x n hx
      rcases cases_heap x n hx with ⟨_, rfl⟩ | ⟨_, hx⟩
      · exact hne
      · exact w.reduced x n hx
    unique := by
      intro x y n hx hy
      rcases cases_heap x n hx with ⟨h1, h2⟩ | ⟨_, h2⟩ <;>
        rcases cases_heap y _ hy with ⟨h3, h4⟩ | ⟨_, h4⟩
      · rw [h1, h3]
      · rw [h2] at h4; exact absurd h4 (Store.lookup_none hlk w y)
      · rw [h4] at h2; exact absurd h2 (Store.lookup_none hlk w x)
      · exact w.unique x y n h2 h4
    next_pos := w.next_pos
    heap_next := by
      intro x n hx
      rcases cases_heap x n hx with ⟨rfl, _⟩ | ⟨_, hx⟩
      · exact hlt
      · exact w.heap_next x n hx
    free_nodup := w.free_nodup
    free_ok := by
      intro j x hx
      have hxa : x ≠ a := by rintro rfl; exact hfree j hx
      have := w.free_ok j x hx
      exact ⟨by simp only [Store.insertAt, upd_ne _ _ hxa]; exact this.1, this.2⟩
    free_disj := w.free_disj }

/-- `CalUniqueTableForIdLookup` finds a node for exactly (id, t, e) or its complement. -/
theorem Store.uniqueLookup_some {s : Store} (w : s.WF) {i : Nat} {t e r : Edge}
    (h : s.uniqueLookup i t e = some r) :
    r.id = i ∧ s.heap r.addr = some ⟨i, t.phase r.neg, e.phase r.neg⟩ ∧ r.neg = t.neg := by
  unfold Store.uniqueLookup at h
  split at h
  · rename_i hn
    cases hl : s.lookup i t e with
    | none => rw [hl] at h; simp at h
    | some a =>
      rw [hl] at h; simp only [Option.map_some, Option.some.injEq] at h; subst h
      exact ⟨rfl, by simpa using Store.lookup_some hl w, hn.symm⟩
  · rename_i hn
    cases hl : s.lookup i t.not e.not with
    | none => rw [hl] at h; simp at h
    | some a =>
      rw [hl] at h; simp only [Option.map_some, Option.some.injEq] at h; subst h
      exact ⟨rfl, by simpa using Store.lookup_some hl w, by simpa using hn⟩

theorem Store.uniqueLookup_none {s : Store} {i : Nat} {t e : Edge}
    (h : s.uniqueLookup i t e = none) :
    s.lookup i (t.phase t.neg) (e.phase t.neg) = none := by
  unfold Store.uniqueLookup at h
  split at h
  · rename_i hn
    rw [hn]; simpa using h
  · rename_i hn
    have : t.neg = true := by simpa using hn
    rw [this]; simpa using h

/-- Adding a node at an unused address extends a labelling. -/
theorem Lab.insertAt {s : Store} (w : s.WF) {δ} (h : Lab s δ) {i a : Nat} {t e : Edge}
    (ha : s.heap a = none) (hpos : 0 < a) (ht : s.EOK t) (he : s.EOK e) :
    Lab (s.insertAt i a t e) (upd δ a (fun ρ => if ρ i then den δ t ρ else den δ e ρ)) := by
  have hne : ∀ f : Edge, s.EOK f → f.addr ≠ a := by
    rintro f (⟨_, h0⟩ | ⟨n, hn, _⟩) hfa
    · omega
    · rw [hfa, ha] at hn; cases hn
  have hd : ∀ f : Edge, s.EOK f →
      den (upd δ a (fun ρ => if ρ i then den δ t ρ else den δ e ρ)) f = den δ f := by
    intro f hf; unfold den; rw [upd_ne _ _ (hne f hf)]
  constructor
  · rw [upd_ne _ _ (by omega)]; exact h.const
  · intro x n hx ρ
    by_cases hxa : x = a
    · subst hxa; simp only [Store.insertAt, upd_same] at hx; cases hx
      simp only [upd_same, hd t ht, hd e he]
    · simp only [Store.insertAt, upd_ne _ _ hxa] at hx
      rw [upd_ne _ _ hxa, hd _ (w.thn_ok _ _ hx), hd _ (w.els_ok _ _ hx)]
      exact h.node x n hx ρ

end Cal
