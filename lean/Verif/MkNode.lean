import Verif.OpsSpec

/-!
# Making one node: `CalUniqueTableForIdFindOrAdd` with the caller's reference-count updates
-/

namespace Cal

/-! ## Levels from independence -/

theorem Indep.comp {F : BFn} {v} (h : Indep F v) (b : Bool) : Indep (fun ρ => xor b (F ρ)) v := by
  intro ρ c; simp only [h ρ c]

theorem upd_upd {α : Type} (f : Nat → α) (a : Nat) (x y : α) : upd (upd f a x) a y = upd f a y := by
  funext b; by_cases h : b = a <;> simp [upd, h]

/-- In a reduced store a node depends on its variable. -/
theorem Rep.dep {s : Store} (w : s.WF) {e F} (h : Rep s e F) (hc : e.id ≠ 0) : ¬ Indep F e.id := by
  intro hi
  obtain ⟨n, hn, hv⟩ := h.eok.node w hc
  have l1 := w.thn_lt _ _ hn
  have l2 := w.els_lt _ _ hn
  obtain ⟨T, hT⟩ := w.rep_exists (w.thn_ok _ _ hn)
  obtain ⟨E, hE⟩ := w.rep_exists (w.els_ok _ _ hn)
  have iT := hT.indep w n.var l1
  have iE := hE.indep w n.var l2
  have hF : F = fun ρ => xor e.neg (if ρ n.var then T ρ else E ρ) := by
    obtain ⟨i, a, b⟩ := e
    simp only at hv hn
    subst hv
    cases b
    · simpa using Rep.unique w h (Rep.pos hn hT hE)
    · simpa using Rep.unique w h (Rep.neg hn hT hE)
  have : T = E := by
    funext ρ
    have h1 := hi ρ true
    have h2 := hi ρ false
    rw [hF, ← hv] at h1 h2
    simp only [upd_same, if_true, Bool.false_eq_true, if_false] at h1 h2
    rw [iT ρ true] at h1
    rw [iE ρ false, ← h1] at h2
    revert h2; cases e.neg <;> cases T ρ <;> cases E ρ <;> simp
  subst this
  exact w.reduced _ _ hn (canonical w hT hE)

/-- An edge whose function does not depend on the variables of the first `k` levels is at level `k`
or below. -/
theorem Rep.lvl_ge {s : Store} (w : s.WF) {e F} (h : Rep s e F) {k} (hk : k ≤ constIndex)
    (hi : ∀ v, 1 ≤ v → v ≤ s.ord.numVars → s.ord.lvl v < k → Indep F v) : k ≤ s.ord.lvl e.id := by
  by_cases hc : e.id = 0
  · simp [hc, hk]
  · apply Classical.byContradiction
    intro hlt
    obtain ⟨n, hn, hv⟩ := h.eok.node w hc
    have hr := w.var_range _ _ hn
    rw [hv] at hr
    exact h.dep w hc (hi e.id hr.1 hr.2 (by omega))

/-- The same for a labelling. -/
theorem Lab.lvl_ge {s : Store} (w : s.WF) {δ} (hδ : Lab s δ) {e : Edge} (he : s.EOK e) {k}
    (hk : k ≤ constIndex)
    (hi : ∀ v, 1 ≤ v → v ≤ s.ord.numVars → s.ord.lvl v < k → Indep (den δ e) v) :
    k ≤ s.ord.lvl e.id := (hδ.rep w he).lvl_ge w hk hi

theorem Lab.indep {s : Store} (w : s.WF) {δ} (hδ : Lab s δ) {e : Edge} (he : s.EOK e) {v}
    (hv : s.ord.lvl v < s.ord.lvl e.id) : Indep (den δ e) v := (hδ.rep w he).indep w v hv

/-! ## Counting arcs when a node is added -/

theorem Store.arcs_none {s : Store} {a x} (h : s.heap a = none) : s.arcs a x = 0 := by
  simp [Store.arcs, h]

theorem Store.arcs_beyond {s : Store} (w : s.WF) {a x} (h : s.next ≤ a) : s.arcs a x = 0 := by
  apply Store.arcs_none
  cases hn : s.heap a with
  | none => rfl
  | some n => have := w.heap_next _ _ hn; omega

theorem Store.inDeg_ext {s : Store} (w : s.WF) {m} (h : s.next ≤ m) (x) :
    sumTo (fun a => s.arcs a x) m = s.inDeg x :=
  sumTo_ext (fun _ ha => Store.arcs_beyond w ha) h

theorem Store.inDeg_dead {s : Store} (w : s.WF) {x} (h0 : x ≠ 0) (hx : s.heap x = none) :
    s.inDeg x = 0 := by
  apply sumTo_zero
  intro a _
  unfold Store.arcs
  have hne : ∀ f : Edge, s.EOK f → f.addr ≠ x := by
    rintro f (⟨_, h⟩ | ⟨n, hn, _⟩) hfx
    · omega
    · rw [hfx, hx] at hn; cases hn
  split
  · rename_i n hn
    simp [hits, hne _ (w.thn_ok _ _ hn), hne _ (w.els_ok _ _ hn)]
  · rfl

theorem Store.inDeg_insert {s s' : Store} (w : s.WF) {a i t e} (ha : s.heap a = none)
    (hh : s'.heap = upd s.heap a (some ⟨i, t, e⟩)) (hlt : a < s'.next) (hle : s.next ≤ s'.next)
    (x) : s'.inDeg x = s.inDeg x + hits t x + hits e x := by
  have h1 := sumTo_change (f := fun b => s'.arcs b x) (g := fun b => s.arcs b x) hlt
    (fun b hb => by simp [Store.arcs, hh, upd_ne _ _ hb])
  simp only [Store.arcs_none ha] at h1
  have h2 : s'.arcs a x = hits t x + hits e x := by simp [Store.arcs, hh]
  rw [h2, Store.inDeg_ext w hle] at h1
  unfold Store.inDeg at *
  omega

theorem icr_ne {s : Store} {e : Edge} {x : Nat} (h : x ≠ e.addr) : (s.icr e).ref x = s.ref x := by
  simp [Store.icr, upd_ne _ _ h]

/-- effect of an increment on a count -/
theorem icr_cnt {s : Store} {e : Edge} {x c : Nat} (hle : s.ref x ≤ maxRef)
    (h : s.ref x = maxRef ∨ s.ref x = c) :
    (s.icr e).ref x ≤ maxRef ∧
      ((s.icr e).ref x = maxRef ∨ (s.icr e).ref x = c + hits e x) := by
  by_cases hx : x = e.addr
  · subst hx
    simp only [Store.icr, upd_same, hits, if_true]
    split <;> omega
  · have h0 : hits e x = 0 := by unfold hits; rw [if_neg (fun h => hx h.symm)]
    rw [icr_ne hx, h0]
    omega

/-! ## The operation -/

theorem Store.Keep.of_fields {s s' : Store} (hh : s'.heap = s.heap) (hr : s'.ref = s.ref)
    (hn : s'.next = s.next) (ht : s'.tab = s.tab) (hm : s'.numNodes = s.numNodes)
    (ho : s'.ord = s.ord) : s.Keep s' := by
  have hd : s'.inDeg = s.inDeg := by
    funext x; simp [Store.inDeg, Store.arcs, hh, hn]
  refine ⟨fun ext h => ⟨?_, ?_, ?_, ?_⟩, fun h => h.congr ho ht hm⟩
  · rw [hr]; exact h.const
  · rw [hh, hr]; exact h.le
  · rw [hh, hr, hd]; exact h.cnt
  · rw [hh]; exact h.ext0

/-- The new-node case of `mkNode`: a node for `(t, e)` at a fresh address with count 0, its children
counted. -/
def Store.addNode (s : Store) (i : Nat) (t e : Edge) : Store :=
  let s1 := (s.alloc i).2.insertAt i (s.alloc i).1 t e
  (({ s1 with numNodes := s1.numNodes + 1 } : Store).icr t).icr e

theorem Store.alloc_ref (s : Store) (i : Nat) :
    (s.alloc i).2.ref = upd s.ref (s.alloc i).1 0 := by
  unfold Store.alloc; split <;> rfl
theorem Store.alloc_num (s : Store) (i : Nat) : (s.alloc i).2.numNodes = s.numNodes := by
  unfold Store.alloc; split <;> rfl

theorem addNode_ok {s : Store} (w : s.WF) {δ} (hδ : Lab s δ) {i : Nat} {t e : Edge}
    (hi : 1 ≤ i ∧ i ≤ s.ord.numVars) (ht : s.EOK t) (he : s.EOK e)
    (l1 : s.ord.lvl i < s.ord.lvl t.id) (l2 : s.ord.lvl i < s.ord.lvl e.id)
    (hne : t ≠ e) (hn : t.neg = false) (hlk : s.lookup i t e = none) :
    OpOk s.Keep s δ (some (s.addNode i t e, ⟨i, (s.alloc i).1, false⟩))
      (fun ρ => if ρ i then den δ t ρ else den δ e ρ) := by
  obtain ⟨sp, w1⟩ := Store.alloc_spec w i
  have hh1 := Store.alloc_heap s i
  have ho1 := Store.alloc_ord s i
  have ht1 := Store.alloc_tab s i
  have hr1 := Store.alloc_ref s i
  have hn1 := Store.alloc_num s i
  have fr : (s.addNode i t e).heap = upd s.heap (s.alloc i).1 (some ⟨i, t, e⟩) := by
    show upd (s.alloc i).2.heap _ _ = _; rw [hh1]
  have fo : (s.addNode i t e).ord = s.ord := ho1
  have ft : (s.addNode i t e).tab = upd s.tab i ((s.alloc i).1 :: s.tab i) := by
    show upd (s.alloc i).2.tab _ _ = _; rw [ht1]
  have fnx : (s.addNode i t e).next = (s.alloc i).2.next := rfl
  have fnum : (s.addNode i t e).numNodes = s.numNodes + 1 := by
    show (s.alloc i).2.numNodes + 1 = _; rw [hn1]
  have hlk1 : (s.alloc i).2.lookup i t e = none := by
    unfold Store.lookup at hlk ⊢; rw [hh1, ht1]; exact hlk
  have ht' : (s.alloc i).2.EOK t := ht.congr hh1
  have he' : (s.alloc i).2.EOK e := he.congr hh1
  have w2 : ((s.alloc i).2.insertAt i (s.alloc i).1 t e).WF :=
    Store.insertAt_wf w1 (by rw [hh1]; exact sp.old) sp.pos sp.lt sp.notfree (by rw [ho1]; exact hi)
      ht' he' (by rw [ho1]; exact l1) (by rw [ho1]; exact l2) hne hn hlk1
  have w3 : (s.addNode i t e).WF := by
    have := (w2.counters (((s.alloc i).2.insertAt i (s.alloc i).1 t e).numNodes + 1)
      ((s.alloc i).2.insertAt i (s.alloc i).1 t e).gcCheck).ref (s.addNode i t e).ref
    exact this
  have hle : s.Le (s.addNode i t e) := by
    refine ⟨fo, fun a n ha => ?_⟩
    have : a ≠ (s.alloc i).1 := by rintro rfl; rw [sp.old] at ha; cases ha
    rw [fr, upd_ne _ _ this]; exact ha
  have hlab : Lab (s.addNode i t e) (upd δ (s.alloc i).1
      (fun ρ => if ρ i then den δ t ρ else den δ e ρ)) := by
    have := Lab.insertAt (i := i) w hδ sp.old sp.pos ht he
    exact this.congr fr
  refine ⟨_, _, _, rfl, w3, hle, Or.inr ⟨⟨i, t, e⟩, by rw [fr, upd_same], rfl⟩, hlab, ?_, ?_, ?_, ?_⟩
  · intro a ha
    have : a ≠ (s.alloc i).1 := by
      rintro rfl
      rcases ha with h | h
      · have := sp.pos; omega
      · exact h sp.old
    rw [upd_ne _ _ this]
  · funext ρ; simp [den]
  · intro ext h
    have hd := Store.inDeg_insert w (s' := s.addNode i t e) sp.old fr (by rw [fnx]; exact sp.lt)
      (by rw [fnx]; exact sp.next_le)
    -- counts before the increments
    let s0 : Store := { (s.alloc i).2.insertAt i (s.alloc i).1 t e with
      numNodes := ((s.alloc i).2.insertAt i (s.alloc i).1 t e).numNodes + 1 }
    have hs0 : s.addNode i t e = (s0.icr t).icr e := rfl
    have r0 : s0.ref = upd s.ref (s.alloc i).1 0 := hr1
    have base : ∀ x, (s.addNode i t e).heap x ≠ none →
        s0.ref x ≤ maxRef ∧ (s0.ref x = maxRef ∨ s0.ref x = s.inDeg x + ext x) := by
      intro x hx
      rw [r0]
      by_cases hxa : x = (s.alloc i).1
      · subst hxa
        rw [upd_same, Store.inDeg_dead w (by have := sp.pos; omega) sp.old,
          h.ext0 _ (by have := sp.pos; omega) sp.old]
        simp
      · rw [upd_ne _ _ hxa]
        rw [fr, upd_ne _ _ hxa] at hx
        exact ⟨h.le x hx, h.cnt x hx⟩
    have step : ∀ x, (s.addNode i t e).heap x ≠ none →
        (s.addNode i t e).ref x ≤ maxRef ∧ ((s.addNode i t e).ref x = maxRef ∨
          (s.addNode i t e).ref x = (s.inDeg x + ext x) + hits t x + hits e x) := by
      intro x hx
      obtain ⟨b1, b2⟩ := base x hx
      obtain ⟨c1, c2⟩ := icr_cnt (e := t) b1 b2
      rw [hs0]
      exact icr_cnt c1 c2
    refine ⟨?_, fun x hx => (step x hx).1, fun x hx => ?_, ?_⟩
    · have b1 : s0.ref 0 = maxRef := by
        rw [r0, upd_ne _ _ (by have := sp.pos; omega)]; exact h.const
      have sat : ∀ (u : Store) (f : Edge), u.ref 0 = maxRef → (u.icr f).ref 0 = maxRef := by
        intro u f hu
        by_cases hf : 0 = f.addr
        · simp [Store.icr, ← hf, hu]
        · rw [icr_ne hf]; exact hu
      rw [hs0]; exact sat _ _ (sat _ _ b1)
    · have := (step x hx).2
      rw [hd x]; omega
    · intro x hx0 hx
      rw [fr] at hx
      by_cases hxa : x = (s.alloc i).1
      · subst hxa; exact h.ext0 _ hx0 sp.old
      · rw [upd_ne _ _ hxa] at hx; exact h.ext0 x hx0 hx
  · intro h
    exact h.add hi.2 fo ft fnum

theorem OpOk.eq {Q s δ out F G} (h : OpOk Q s δ out F) (e : F = G) : OpOk Q s δ out G := e ▸ h

/-- Complementing the result of an operation. -/
theorem OpOk.not {Q : Store → Prop} {s δ s' r F} (h : OpOk Q s δ (some (s', r)) F) :
    OpOk Q s δ (some (s', r.not)) (fun ρ => !F ρ) := by
  obtain ⟨t, u, δ', h1, h2, h3, h4, h5, h6, h7, h8⟩ := h
  cases h1
  exact ⟨_, _, δ', rfl, h2, h3, h4.not, h5, h6, by rw [den_not, h7], h8⟩

/-- `CalUniqueTableForIdFindOrAdd` with the reference counts of the children makes the node
"if variable `i` then `t` else `e`". -/
theorem mkNode_ok {s : Store} (w : s.WF) {δ} (hδ : Lab s δ) {i : Nat} {t e : Edge}
    (hi : 1 ≤ i ∧ i ≤ s.ord.numVars) (ht : s.EOK t) (he : s.EOK e)
    (l1 : s.ord.lvl i < s.ord.lvl t.id) (l2 : s.ord.lvl i < s.ord.lvl e.id) :
    OpOk s.Keep s δ (some (s.mkNode i t e))
      (fun ρ => if ρ i then den δ t ρ else den δ e ρ) := by
  by_cases hte : t = e
  · subst hte
    have : s.mkNode i t t = (s, t) := by simp [Store.mkNode, Store.findOrAdd]
    rw [this]
    refine ⟨s, t, δ, rfl, w, Store.Le.refl s, ht, hδ, fun _ _ => rfl, ?_, Store.Keep.refl s⟩
    funext ρ; simp
  · by_cases hn : t.neg = false
    · cases hl : s.lookup i t e with
      | some a =>
        have : s.mkNode i t e = (s, ⟨i, a, false⟩) := by
          simp [Store.mkNode, Store.findOrAdd, hte, hn, Store.hashFindOrAdd, hl]
        rw [this]
        have hp := Store.lookup_some hl w
        refine ⟨s, _, δ, rfl, w, Store.Le.refl s, Or.inr ⟨_, hp, rfl⟩, hδ, fun _ _ => rfl, ?_,
          Store.Keep.refl s⟩
        funext ρ; simp [den, hδ.node _ _ hp ρ]
      | none =>
        have : s.mkNode i t e = (s.addNode i t e, ⟨i, (s.alloc i).1, false⟩) := by
          simp [Store.mkNode, Store.findOrAdd, hte, hn, Store.hashFindOrAdd, hl, Store.addNode]
        rw [this]
        exact addNode_ok w hδ hi ht he l1 l2 hte hn hl
    · have hn' : t.neg = true := by simpa using hn
      cases hl : s.lookup i t.not e.not with
      | some a =>
        have : s.mkNode i t e = (s, ⟨i, a, true⟩) := by
          simp [Store.mkNode, Store.findOrAdd, hte, hn, Store.hashFindOrAdd, hl]
          rfl
        rw [this]
        have hp := Store.lookup_some hl w
        refine ⟨s, _, δ, rfl, w, Store.Le.refl s, Or.inr ⟨_, hp, rfl⟩, hδ, fun _ _ => rfl, ?_,
          Store.Keep.refl s⟩
        funext ρ
        have := hδ.node _ _ hp ρ
        simp only [den_not] at this
        by_cases hr : ρ i = true <;> simp [den, hr] at this ⊢ <;> rw [this]
      | none =>
        have : s.mkNode i t e = (s.addNode i t.not e.not, (⟨i, (s.alloc i).1, false⟩ : Edge).not) := by
          simp [Store.mkNode, Store.findOrAdd, hte, hn, Store.hashFindOrAdd, hl, Store.addNode]
          rfl
        rw [this]
        have := (addNode_ok w hδ hi ht.not he.not l1 l2 (by simpa using hte) (by simp [hn']) hl).not
        refine this.eq ?_
        funext ρ
        rw [den_not, den_not]
        by_cases hr : ρ i = true <;> simp [hr]

end Cal
