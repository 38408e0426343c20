import Verif.Eng
import Verif.MkNode

/-!
# Reference counts in the engine with several queues
-/

namespace Cal

/-- Addresses that hold neither a node nor a free cell (those of requests) stay as they are. -/
def Store.Frm (s s' : Store) : Prop :=
  ∀ a, 0 < a → a < s.next → s.heap a = none → (∀ i, a ∉ s.free i) →
    s'.heap a = none ∧ a < s'.next ∧ (∀ i, a ∉ s'.free i) ∧ s'.ref a = s.ref a

theorem Store.Frm.refl (s : Store) : s.Frm s := fun _ _ h2 h3 h4 => ⟨h3, h2, h4, rfl⟩

theorem Store.Frm.trans {s t u : Store} (h : s.Frm t) (h' : t.Frm u) : s.Frm u := by
  intro a h1 h2 h3 h4
  obtain ⟨a1, a2, a3, a4⟩ := h a h1 h2 h3 h4
  obtain ⟨b1, b2, b3, b4⟩ := h' a h1 a2 a1 a3
  exact ⟨b1, b2, b3, b4.trans a4⟩

theorem icr_eq (s : Store) (e : Edge) : ∃ ref, s.icr e = { s with ref := ref } := ⟨_, rfl⟩

theorem Store.Frm.icr {s : Store} {e : Edge} (he : s.EOK e) : s.Frm (s.icr e) := by
  intro a h1 h2 h3 h4
  refine ⟨h3, h2, h4, icr_ne ?_⟩
  rintro rfl
  rcases he with ⟨_, h⟩ | ⟨n, h, _⟩
  · omega
  · rw [h3] at h; cases h

theorem Store.Frm.addNode {s : Store} (w : s.WF) (i : Nat) (t e : Edge) :
    s.Frm ((s.alloc i).2.insertAt i (s.alloc i).1 t e) := by
  obtain ⟨sp, -⟩ := Store.alloc_spec w i
  intro a h1 h2 h3 h4
  have hne : a ≠ (s.alloc i).1 := by
    rintro rfl
    rcases sp.was_free with ⟨j, hj⟩ | hj
    · exact h4 j hj
    · omega
  refine ⟨?_, ?_, ?_, ?_⟩
  · show upd (s.alloc i).2.heap (s.alloc i).1 _ a = none
    rw [upd_ne _ _ hne, Store.alloc_heap]; exact h3
  · exact Nat.lt_of_lt_of_le h2 sp.next_le
  · exact fun j hj => h4 j (sp.free_sub j a hj)
  · show (s.alloc i).2.ref a = _
    rw [Store.alloc_ref, upd_ne _ _ hne]

theorem Store.Frm.hashFindOrAdd {s : Store} (w : s.WF) (i : Nat) (t e : Edge) :
    s.Frm (s.hashFindOrAdd i t e).1 := by
  unfold Store.hashFindOrAdd
  split
  · exact Store.Frm.refl s
  · exact Store.Frm.addNode w i t e

theorem hashFindOrAdd_le {s : Store} (w : s.WF) (i : Nat) (t e : Edge) :
    s.Le (s.hashFindOrAdd i t e).1 := by
  unfold Store.hashFindOrAdd
  split
  · exact Store.Le.refl s
  · obtain ⟨sp, -⟩ := Store.alloc_spec w i
    refine ⟨Store.alloc_ord s i, fun a n hn => ?_⟩
    have hne : a ≠ (s.alloc i).1 := by rintro rfl; rw [sp.old] at hn; cases hn
    show upd (s.alloc i).2.heap (s.alloc i).1 _ a = some n
    rw [upd_ne _ _ hne, Store.alloc_heap]; exact hn

theorem Store.Frm.mkNode {s : Store} (w : s.WF) (i : Nat) {t e : Edge} (ht : s.EOK t)
    (he : s.EOK e) : s.Frm (s.mkNode i t e).1 := by
  have h1 : s.Frm (s.findOrAdd i t e).1 ∧ s.Le (s.findOrAdd i t e).1 := by
    unfold Store.findOrAdd
    split
    · exact ⟨Store.Frm.refl s, Store.Le.refl s⟩
    · have a1 := Store.Frm.hashFindOrAdd w i t e
      have a2 := hashFindOrAdd_le w i t e
      have a3 := Store.Frm.hashFindOrAdd w i t.not e.not
      have a4 := hashFindOrAdd_le w i t.not e.not
      simp only
      split <;> split
      · exact ⟨a1, a2⟩
      · exact ⟨a1, ⟨a2.ord, a2.heap⟩⟩
      · exact ⟨a3, a4⟩
      · exact ⟨a3, ⟨a4.ord, a4.heap⟩⟩
  unfold Store.mkNode
  simp only
  split
  · exact h1.1
  · refine (h1.1.trans (Store.Frm.icr (ht.mono h1.2))).trans (Store.Frm.icr ?_)
    exact (he.mono h1.2 : _)

namespace BF

variable {P : Type}

/-- arcs from requests to `x` -/
def reqArcs (b : BF P) (x : Nat) : Nat :=
  sumTo (fun a => match b.st.heap a with | some _ => 0 | none => b.arcs a x) b.st.next

theorem inDeg_split (b : BF P) (x : Nat) : b.inDeg x = b.st.inDeg x + b.reqArcs x := by
  unfold inDeg Store.inDeg reqArcs
  rw [← sumTo_add]
  apply sumTo_congr
  intro a _
  unfold arcs Store.arcs
  cases b.st.heap a <;> simp

theorem QShape.req_addr {b : BF P} (sh : QShape b) {a r} (hr : b.req a = some r) {e : Edge}
    (he : b.st.EOK e) : e.addr ≠ a := EOK_ne_req sh hr he

theorem reqArcs_grow {b : BF P} (sh : QShape b) {s' : Store}
    (hn : b.st.next ≤ s'.next) (hfr : b.st.Frm s') (x : Nat) :
    ({ b with st := s' } : BF P).reqArcs x = b.reqArcs x := by
  unfold reqArcs
  show sumTo (fun a => match s'.heap a with | some _ => 0 | none => _) s'.next = _
  have e1 : ∀ a, (match s'.heap a with | some _ => 0 | none => ({ b with st := s' } : BF P).arcs a x) =
      (match b.st.heap a with | some _ => 0 | none => b.arcs a x) := by
    intro a
    cases hr : b.req a with
    | some r =>
      have hrok := sh.req_ok a r hr
      obtain ⟨h1, -⟩ := hfr a hrok.2.1 hrok.2.2.1 hrok.1 hrok.2.2.2
      rw [h1, hrok.1]
      simp only
      unfold arcs
      simp only [h1, hrok.1]
      rfl
    | none =>
      have z : b.st.heap a = none → b.arcs a x = 0 := by
        intro h; unfold arcs; rw [h, hr]
      have z' : s'.heap a = none → ({ b with st := s' } : BF P).arcs a x = 0 := by
        intro h; unfold arcs; simp only [h, hr]
      cases h1 : s'.heap a with
      | none =>
        rw [z' h1]
        cases h2 : b.st.heap a with
        | none => rw [z h2]
        | some n => rfl
      | some n =>
        cases h2 : b.st.heap a with
        | none => rw [z h2]
        | some n => rfl
  rw [sumTo_congr (fun a _ => e1 a)]
  apply sumTo_ext _ hn
  intro a ha
  cases h2 : b.st.heap a with
  | none => exact BF.arcs_beyond sh ha
  | some n => rfl

/-- A change of the store that keeps its own counts exact for all outside references, and the cells
of requests, keeps the counts exact in the presence of requests. -/
theorem RefOK.nest {b : BF P} (sh : QShape b) {ext} (h : b.RefOK ext) {s' : Store} (w' : s'.WF)
    (hle : b.st.Le s') (hn : b.st.next ≤ s'.next) (hfr : b.st.Frm s')
    (hk : ∀ ext, b.st.RefOK ext → s'.RefOK ext) : RefOK { b with st := s' } ext := by
  have w := sh.wf
  have hra := reqArcs_grow sh hn hfr
  let ext1 : Nat → Nat := fun x => if b.st.heap x = none then 0 else ext x + b.reqArcs x
  have h1 : b.st.RefOK ext1 := by
    refine ⟨h.const, fun a ha => h.le a (Or.inl ha), fun a ha => ?_, fun a h0 ha => by simp [ext1, ha]⟩
    have : ext1 a = ext a + b.reqArcs a := by simp [ext1, ha]
    rw [this]
    rcases h.cnt a (Or.inl ha) with h2 | h2
    · exact Or.inl h2
    · right; rw [h2, inDeg_split]; omega
  have h2 := hk ext1 h1
  have req_frm : ∀ a r, b.req a = some r → s'.heap a = none ∧ s'.ref a = b.st.ref a := by
    intro a r hr
    have hrok := sh.req_ok a r hr
    obtain ⟨g1, -, -, g2⟩ := hfr a hrok.2.1 hrok.2.2.1 hrok.1 hrok.2.2.2
    exact ⟨g1, g2⟩
  have hlive : ∀ a, s'.heap a = none → (({ b with st := s' } : BF P).Live a ↔ b.Live a) := by
    intro a ha
    have hb : b.st.heap a = none := by
      cases hh : b.st.heap a with
      | none => rfl
      | some n => have := hle.heap a n hh; rw [ha] at this; cases this
    unfold Live
    simp [ha, hb]
  have hnew : ∀ a, s'.heap a ≠ none → b.st.heap a = none → ¬ b.Live a ∧ a ≠ 0 := by
    intro a h3 h4
    refine ⟨?_, ?_⟩
    · rintro (h5 | ⟨r, h5, _⟩)
      · exact h5 h4
      · exact h3 (req_frm a r h5).1
    · rintro rfl; exact h3 w'.heap0
  refine ⟨h2.const, ?_, ?_, ?_⟩
  · intro a hl
    by_cases ha : s'.heap a = none
    · rcases (hlive a ha).1 hl with h3 | ⟨r, h3, _⟩
      · cases hh : b.st.heap a with
        | none => exact absurd hh h3
        | some n => have := hle.heap a n hh; rw [ha] at this; cases this
      · show s'.ref a ≤ _
        rw [(req_frm a r h3).2]; exact h.le a ((hlive a ha).1 hl)
    · exact h2.le a ha
  · intro a hl
    show s'.ref a = maxRef ∨ s'.ref a = _
    rw [inDeg_split, hra]
    show s'.ref a = maxRef ∨ s'.ref a = s'.inDeg a + _ + _
    by_cases ha : s'.heap a = none
    · have hl' := (hlive a ha).1 hl
      have h0 : a ≠ 0 := by rintro rfl; exact sh.live0 hl'
      have hb : b.st.heap a = none := by
        cases hh : b.st.heap a with
        | none => rfl
        | some n => have := hle.heap a n hh; rw [ha] at this; cases this
      rcases hl' with h3 | ⟨r, h3, h4⟩
      · exact absurd hb h3
      · rw [(req_frm a r h3).2, Store.inDeg_dead w' h0 ha]
        have := h.cnt a (Or.inr ⟨r, h3, h4⟩)
        rw [inDeg_split, Store.inDeg_dead w h0 hb] at this
        exact this
    · rcases h2.cnt a ha with h3 | h3
      · exact Or.inl h3
      · right
        rw [h3]
        by_cases hb : b.st.heap a = none
        · have := hnew a ha hb
          have z := BF.inDeg_dead sh this.2 this.1
          rw [inDeg_split] at z
          have z2 := h.ext0 a this.2 this.1
          have : ext1 a = 0 := by simp [ext1, hb]
          omega
        · have : ext1 a = ext a + b.reqArcs a := by simp [ext1, hb]
          omega
  · intro a h0 hl
    by_cases ha : s'.heap a = none
    · exact h.ext0 a h0 (fun h' => hl ((hlive a ha).2 h'))
    · exact absurd (Or.inl ha) hl

/-- Storing the sub-requests in an applied request: the references counted for them become arcs. -/
theorem RefOK.set_cell {b : BF P} (sh : QShape b) {ext ext' : Nat → Nat} (h : b.RefOK ext') {a i d p}
    (hr : b.req a = some ⟨i, d, .pend p⟩) {c : Cell P} (hc : ∀ t, c ≠ .fwd t) {out : Nat → Nat}
    (hout : ∀ x, ({ b with req := upd b.req a (some ⟨i, d, c⟩) } : BF P).arcs a x = out x)
    (hext : ∀ x, ext' x = ext x + out x) :
    RefOK { b with req := upd b.req a (some ⟨i, d, c⟩) } ext := by
  have hra := sh.req_ok _ _ hr
  generalize hb' : ({ b with req := upd b.req a (some ⟨i, d, c⟩) } : BF P) = b' at *
  have hst : b'.st = b.st := by rw [← hb']
  have hreq : ∀ x, x ≠ a → b'.req x = b.req x := by
    intro x hx; rw [← hb']; exact upd_ne _ _ hx
  have hreqa : b'.req a = some ⟨i, d, c⟩ := by rw [← hb']; exact upd_same _ _ _
  have hf : ∀ x : Edge, b'.forward x = b.forward x := by
    intro x
    by_cases hx : x.addr = a
    · have h1 : b.forward x = x := by simp [forward, hx, hr]
      rcases forward_eq_or (b := b') x with ⟨h, _⟩ | ⟨j, d1, t, h, h2⟩
      · rw [h, h1]
      · rw [hx, hreqa] at h; cases h; exact absurd rfl (hc t)
    · simp only [forward, hreq _ hx]
  have harcs : ∀ c x, c ≠ a → b'.arcs c x = b.arcs c x := by
    intro c x hc; unfold arcs; rw [hst, hreq c hc]; simp only [hf]
  have harca0 : ∀ x, b.arcs a x = 0 := by
    intro x; unfold arcs; rw [hra.1, hr]
  have hdeg : ∀ x, b'.inDeg x = b.inDeg x + out x := by
    intro x
    unfold inDeg
    rw [hst]
    have := sumTo_change (f := fun c => b'.arcs c x) (g := fun c => b.arcs c x) hra.2.2.1
      (fun c hc => harcs c x hc)
    simp only [hout, harca0] at this
    omega
  have hlive : ∀ x, b'.Live x ↔ b.Live x := by
    intro x
    unfold Live
    rw [hst]
    by_cases hx : x = a
    · rw [hx, hreqa, hr]
      constructor
      · intro _; exact Or.inr ⟨_, rfl, by simp⟩
      · intro _; exact Or.inr ⟨_, rfl, hc⟩
    · rw [hreq x hx]
  refine ⟨?_, ?_, ?_, ?_⟩
  · rw [hst]; exact h.const
  · intro x hl; rw [hst]; exact h.le x ((hlive x).1 hl)
  · intro x hl
    rw [hst, hdeg]
    rcases h.cnt x ((hlive x).1 hl) with h1 | h1
    · exact Or.inl h1
    · right; rw [h1, hext]; omega
  · intro x hx hl
    have := h.ext0 x hx (fun h' => hl ((hlive x).2 h'))
    rw [hext] at this; omega

/-- Dropping the sub-results of an applied request: their arcs are no longer counted. -/
theorem RefOK.unset {b : BF P} (sh : QShape b) {ext : Nat → Nat} (h : b.RefOK ext) {a i d t0 e0}
    (hr : b.req a = some ⟨i, d, .done t0 e0⟩)
    (okt : b.st.EOK (b.forward t0)) (oke : b.st.EOK (b.forward e0)) (p : P) :
    RefOK { b with
      st := (b.st.dcr (b.forward t0)).dcr (b.forward e0)
      req := upd b.req a (some ⟨i, d, .pend p⟩) } ext := by
  have hra := sh.req_ok _ _ hr
  have hge := hits_le_inDeg sh hr
  obtain ⟨ref1, h1⟩ := Store.dcr_eq b.st (b.forward t0)
  obtain ⟨ref2, h2⟩ := Store.dcr_eq (b.st.dcr (b.forward t0)) (b.forward e0)
  have hheap : ((b.st.dcr (b.forward t0)).dcr (b.forward e0)).heap = b.st.heap := by rw [h2, h1]
  have hnext : ((b.st.dcr (b.forward t0)).dcr (b.forward e0)).next = b.st.next := by rw [h2, h1]
  have href : ∀ x, b.st.ref x < maxRef → hits (b.forward t0) x + hits (b.forward e0) x ≤ b.st.ref x →
      ((b.st.dcr (b.forward t0)).dcr (b.forward e0)).ref x + hits (b.forward t0) x +
        hits (b.forward e0) x = b.st.ref x := by
    intro x hx hh
    obtain ⟨d1, d1'⟩ := dcr_hits (e := b.forward t0) hx (by omega)
    obtain ⟨d2, d2'⟩ := dcr_hits (e := b.forward e0) d1' (by omega)
    omega
  have hsat : ∀ x, b.st.ref x = maxRef →
      ((b.st.dcr (b.forward t0)).dcr (b.forward e0)).ref x = maxRef := fun x hx => dcr_sat (dcr_sat hx)
  have hle : ∀ x, b.st.ref x ≤ maxRef →
      ((b.st.dcr (b.forward t0)).dcr (b.forward e0)).ref x ≤ maxRef := fun x hx => dcr_le (dcr_le hx)
  generalize (b.st.dcr (b.forward t0)).dcr (b.forward e0) = s' at *
  generalize hb' : ({ b with st := s', req := upd b.req a (some ⟨i, d, .pend p⟩) } : BF P) = b' at *
  have hst : b'.st = s' := by rw [← hb']
  have hreq : ∀ x, x ≠ a → b'.req x = b.req x := by
    intro x hx; rw [← hb']; exact upd_ne _ _ hx
  have hreqa : b'.req a = some ⟨i, d, .pend p⟩ := by rw [← hb']; exact upd_same _ _ _
  have hf : ∀ x : Edge, b'.forward x = b.forward x := by
    intro x
    by_cases hx : x.addr = a
    · simp [forward, hx, hr, hreqa]
    · simp only [forward, hreq _ hx]
  have harcs : ∀ c x, c ≠ a → b'.arcs c x = b.arcs c x := by
    intro c x hc; unfold arcs; rw [hst, hheap, hreq c hc]; simp only [hf]
  have harca0 : ∀ x, b'.arcs a x = 0 := by
    intro x; unfold arcs; rw [hst, hheap, hra.1, hreqa]
  have hdeg : ∀ x, b'.inDeg x + hits (b.forward t0) x + hits (b.forward e0) x = b.inDeg x := by
    intro x
    unfold inDeg
    rw [hst, hnext]
    have := sumTo_change (f := fun c => b'.arcs c x) (g := fun c => b.arcs c x) hra.2.2.1
      (fun c hc => harcs c x hc)
    simp only [harca0, arcs_done sh hr] at this
    omega
  have hlive : ∀ x, b'.Live x ↔ b.Live x := by
    intro x
    unfold Live
    rw [hst, hheap]
    by_cases hx : x = a
    · rw [hx, hreqa, hr]
      exact ⟨fun _ => Or.inr ⟨_, rfl, by simp⟩, fun _ => Or.inr ⟨_, rfl, by simp⟩⟩
    · rw [hreq x hx]
  refine ⟨?_, ?_, ?_, ?_⟩
  · rw [hst]; exact hsat 0 h.const
  · intro x hl; rw [hst]; exact hle x (h.le x ((hlive x).1 hl))
  · intro x hl
    have hl' := (hlive x).1 hl
    have hd := hdeg x
    have hg := hge x
    have hx := h.le x hl'
    rw [hst]
    rcases h.cnt x hl' with h1 | h1
    · exact Or.inl (hsat x h1)
    · by_cases hm : b.st.ref x = maxRef
      · exact Or.inl (hsat x hm)
      · have := href x (by omega) (by omega)
        right; omega
  · intro x hx hl
    exact h.ext0 x hx (fun h' => hl ((hlive x).2 h'))

/-- Forwarding a request without sub-results to a node, which takes over its references. -/
theorem RefOK.resolve {b : BF P} (sh : QShape b) {ext : Nat → Nat} (h : b.RefOK ext)
    (hext : ∀ x r, b.req x = some r → ext x = 0) {a i d p}
    (hr : b.req a = some ⟨i, d, .pend p⟩) {τ : Edge} (hτ : b.st.EOK τ) :
    RefOK { b with
      st := b.st.addRef τ (b.st.ref a)
      req := upd b.req a (some ⟨i, d, .fwd τ⟩) } ext := by
  have hrok := sh.req_ok _ _ hr
  have hla : b.Live a := Or.inr ⟨_, hr, by simp⟩
  have hca := h.cnt a hla
  have hlea := h.le a hla
  have hea := hext _ _ hr
  have hz : b.st.ref 0 = maxRef := h.const
  have harc : ∀ x, b.arcs a x = 0 := by intro x; unfold arcs; rw [hrok.1, hr]
  obtain ⟨ref, href⟩ := Store.addRef_eq b.st τ (b.st.ref a)
  refine RefOK.fwdG sh h hr (by simp) (harc a) (by simp [href]) (by simp [href]) rfl hea
    (addRef_sat hz) (fun x hx => addRef_le hx) ?_
  intro x hx0 hxa hlx
  have hlex := h.le x hlx
  rw [harc]
  by_cases hs : b.st.ref x = maxRef
  · exact Or.inl (addRef_sat hs)
  have hs' : b.st.ref x < maxRef := by omega
  by_cases hxe : τ.addr = x
  · rw [← hxe] at hs hs' ⊢
    simp only [if_true]
    have := addRef_lt (n := (b.st.ref a : Int)) hs' (by omega)
    simp only [maxRef] at *
    omega
  · have hxe' : ¬ x = τ.addr := fun h => hxe h.symm
    refine Or.inr ⟨hs, ?_⟩
    show (b.st.addRef _ _).ref x + _ = _
    rw [addRef_ne hxe', if_neg hxe]

theorem bump_eq (ext : Nat → Nat) (e : Edge) (x : Nat) : bump ext e.addr x = ext x + hits e x := by
  unfold bump hits
  by_cases h : x = e.addr
  · subst h; simp
  · rw [upd_ne _ _ h, if_neg (fun h' => h h'.symm)]; rfl

end BF
end Cal
