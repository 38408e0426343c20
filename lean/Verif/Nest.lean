import Verif.EngLaws

/-!
# Operations inside operations

`Cal_BddReduce` runs a batch of disjunctions in the middle of its apply phase, `Cal_BddSubstitute`
runs a batch of if-then-else operations in the middle of its reduce phase: a second queue is filled,
applied, reduced and cleaned up while the first one is waiting.
-/

namespace Cal
namespace BF

variable {P : Type} {R : Rules P} {S S' : RulesSem R} {A B : Nat → Prop}

/-- The invariant of the queues `B` is kept by a step on the queues `A`. -/
theorem EI.switch {b b' : BF P} {G G'} (hP : ∀ s p F, S.Pd s p F → S'.Pd s p F)
    (hsel : S'.sel = S.sel) (e' : EI S A b' G') (e : EI S' B b G) (st : Stp A b G b' G')
    (disj : ∀ d, B d → ¬ A d) : EI S' B b' G' where
  sh := e'.sh
  pend := fun a i d p hr => ⟨hP _ _ _ (e'.pend a i d p hr).1, fun hB => by
    rw [st.st.ord]
    exact (e.pend a i d p ((st.inact a ⟨i, d, .pend p⟩ (disj d hB)).1 hr)).2 hB⟩
  done := fun a i d t u hr => by rw [hsel]; exact e'.done a i d t u hr
  half := e'.half
  fwd := e'.fwd
  done_act := fun a i d t u hB hr => by
    obtain ⟨h1, h2, h3⟩ := e.done_act a i d t u hB ((st.inact a ⟨i, d, .done t u⟩ (disj d hB)).1 hr)
    rw [st.st.ord]; exact ⟨h1.mono st, h2.mono st, h3.1.mono st.st, h3.2.mono st.st⟩
  half_act := fun a i d u hB hr => by
    obtain ⟨h1, h2⟩ := e.half_act a i d u hB ((st.inact a ⟨i, d, .half u⟩ (disj d hB)).1 hr)
    rw [st.st.ord]; exact ⟨h1.mono st, h2.mono st.st⟩
  fwd_act := fun a i d u hB hr => by
    rw [st.st.ord]; exact e.fwd_act a i d u hB ((st.inact a ⟨i, d, .fwd u⟩ (disj d hB)).1 hr)

/-- The invariant of queues without requests. -/
theorem EI.none {b : BF P} {G} (hP : ∀ s p F, S.Pd s p F → S'.Pd s p F)
    (hsel : S'.sel = S.sel) (e : EI S A b G) (h : ∀ a r, b.req a = some r → ¬ B r.dep) :
    EI S' B b G where
  sh := e.sh
  pend := fun a i d p hr => ⟨hP _ _ _ (e.pend a i d p hr).1, fun hB => absurd hB (h _ _ hr)⟩
  done := fun a i d t u hr => by rw [hsel]; exact e.done a i d t u hr
  half := e.half
  fwd := e.fwd
  done_act := fun _ _ _ _ _ hB hr => absurd hB (h _ _ hr)
  half_act := fun _ _ _ _ hB hr => absurd hB (h _ _ hr)
  fwd_act := fun _ _ _ _ hB hr => absurd hB (h _ _ hr)

/-- What requests of `B` hold are nodes or requests of `B`. -/
structure Refs (B : Nat → Prop) (b : BF P) : Prop where
  done : ∀ a i d t e, B d → b.req a = some ⟨i, d, .done t e⟩ → EVa B b t ∧ EVa B b e
  half : ∀ a i d e, B d → b.req a = some ⟨i, d, .half e⟩ → EVa B b e

theorem EI.refs {b : BF P} {G} (e : EI S A b G) : Refs A b :=
  ⟨fun a i d t u h hr => ⟨(e.done_act a i d t u h hr).1, (e.done_act a i d t u h hr).2.1⟩,
    fun a i d u h hr => (e.half_act a i d u h hr).1⟩

/-- The requests outside `B` are given back to the node manager. -/
structure Cleaned (B : Nat → Prop) (b b' : BF P) : Prop where
  sn : SameNodes b b'
  req : ∀ a r, b'.req a = some r ↔ b.req a = some r ∧ B r.dep

theorem cleaned {b : BF P} {ds cl : List Nat} (sh : QShape b) (h1 : ∀ d, d ∈ ds → ¬ B d)
    (h2 : ∀ a r, b.req a = some r → ¬ B r.dep → r.dep ∈ ds ∧ r.id ∈ cl) :
    CInv (cleanUpTabs ds cl b) ∧ Cleaned B b (cleanUpTabs ds cl b) := by
  obtain ⟨c, sn, q⟩ := cleanUpTabs_spec ds cl b sh.cinv
  refine ⟨c, sn, ?_⟩
  intro a r
  rw [q a r]
  constructor
  · rintro ⟨h3, h4⟩
    refine ⟨h3, ?_⟩
    by_cases hB : B r.dep
    · exact hB
    · exact absurd (h2 a r h3 hB) h4
  · rintro ⟨h3, h4⟩
    exact ⟨h3, fun h5 => h1 _ h5.1 h4⟩

theorem Cleaned.le {b b' : BF P} (c : Cleaned B b b') : b.st.Le b'.st :=
  ⟨c.sn.ord, fun a n hn => by rw [c.sn.heap]; exact hn⟩

theorem Cleaned.eva {b b' : BF P} (c : Cleaned B b b') {e} (v : EVa B b e) : EVa B b' e := by
  rcases v with v | ⟨r, h1, h2, h3⟩
  · exact Or.inl (v.mono c.le)
  · exact Or.inr ⟨r, (c.req _ _).2 ⟨h1, h3⟩, h2, h3⟩

theorem Cleaned.val {b b' : BF P} (c : Cleaned B b b') (sh : QShape b) {G e F} (v : b.Val G e F)
    (ev : EVa B b e) : b'.Val G e F := by
  rcases v with v | ⟨r, h1, h2, h3⟩
  · exact Or.inl (v.mono c.le)
  · rcases ev with ev | ⟨r', h4, h5, h6⟩
    · exact absurd rfl (EOK_ne_req sh h1 ev)
    · exact Or.inr ⟨r', (c.req _ _).2 ⟨h4, h6⟩, h5, h3⟩

theorem EI.cleaned {b b' : BF P} {G} (e : EI S A b G) (rf : Refs B b) (c : Cleaned B b b')
    (ci : CInv b') (hA : ∀ d, A d → B d ∨ ∀ a r, b.req a = some r → r.dep ≠ d)
    (hAB : ∀ x, EVa A b x → EVa B b x → EVa A b' x) : EI S A b' G where
  sh := {
    wf := ci.wf
    req_ok := ci.req_ok
    req_id := fun a r hr => by rw [c.sn.ord]; exact e.sh.req_id a r ((c.req a r).1 hr).1
    que_iff := ci.que_iff
    que_nodup := ci.que_nodup
    done_thn := fun a i d t u hr =>
      (c.eva (rf.done a i d t u ((c.req a _).1 hr).2 ((c.req a _).1 hr).1).1).x
    done_els := fun a i d t u hr =>
      (c.eva (rf.done a i d t u ((c.req a _).1 hr).2 ((c.req a _).1 hr).1).2).x
    half_ok := fun a i d u hr =>
      (c.eva (rf.half a i d u ((c.req a _).1 hr).2 ((c.req a _).1 hr).1)).x
    fwd_ok := fun a i d u hr => (e.sh.fwd_ok a i d u ((c.req a _).1 hr).1).mono c.le }
  pend := fun a i d p hr => by
    have := e.pend a i d p ((c.req a _).1 hr).1
    rw [c.sn.ord]; exact ⟨S.pd_mono c.le this.1, this.2⟩
  done := fun a i d t u hr => by
    have hr' := (c.req a _).1 hr
    obtain ⟨T, E, h1, h2, h3⟩ := e.done a i d t u hr'.1
    have := rf.done a i d t u hr'.2 hr'.1
    exact ⟨T, E, c.val e.sh h1 this.1, c.val e.sh h2 this.2, h3⟩
  half := fun a i d u hr => by
    have hr' := (c.req a _).1 hr
    exact c.val e.sh (e.half a i d u hr'.1) (rf.half a i d u hr'.2 hr'.1)
  fwd := fun a i d u hr => (e.fwd a i d u ((c.req a _).1 hr).1).mono c.le
  done_act := fun a i d t u hd hr => by
    have hr' := (c.req a _).1 hr
    obtain ⟨h1, h2, h3⟩ := e.done_act a i d t u hd hr'.1
    have := rf.done a i d t u hr'.2 hr'.1
    rw [c.sn.ord]
    exact ⟨hAB _ h1 this.1, hAB _ h2 this.2, h3.1.mono c.le, h3.2.mono c.le⟩
  half_act := fun a i d u hd hr => by
    have hr' := (c.req a _).1 hr
    obtain ⟨h1, h2⟩ := e.half_act a i d u hd hr'.1
    rw [c.sn.ord]
    exact ⟨hAB _ h1 (rf.half a i d u hr'.2 hr'.1), h2.mono c.le⟩
  fwd_act := fun a i d u hd hr => by
    rw [c.sn.ord]; exact e.fwd_act a i d u hd ((c.req a _).1 hr).1

/-- the reference counts when forwarded requests are given back -/
theorem RefOK.cleaned {b b' : BF P} {ext} (h : b.RefOK ext) (sh : QShape b) (rf : Refs B b)
    (c : Cleaned B b b') (hf : ∀ a r, b.req a = some r → ¬ B r.dep → ∃ t, r.cell = .fwd t) :
    b'.RefOK ext := by
  have hl : ∀ x, b'.Live x ↔ b.Live x := by
    intro x
    unfold Live
    rw [c.sn.heap]
    constructor
    · rintro (h1 | ⟨r, h1, h2⟩)
      · exact Or.inl h1
      · exact Or.inr ⟨r, ((c.req x r).1 h1).1, h2⟩
    · rintro (h1 | ⟨r, h1, h2⟩)
      · exact Or.inl h1
      · by_cases hB : B r.dep
        · exact Or.inr ⟨r, (c.req x r).2 ⟨h1, hB⟩, h2⟩
        · obtain ⟨t, ht⟩ := hf x r h1 hB
          exact absurd ht (h2 t)
  have hfw : ∀ e, EVa B b e → b'.forward e = b.forward e := by
    intro e ev
    rcases ev with ev | ⟨r, h1, h2, h3⟩
    · rcases forward_eq_or (b := b) e with ⟨h, _⟩ | ⟨j, d, t, h, _⟩
      · rcases forward_eq_or (b := b') e with ⟨h', _⟩ | ⟨j, d, t, h', _⟩
        · rw [h, h']
        · exact absurd rfl (EOK_ne_req sh ((c.req _ _).1 h').1 ev)
      · exact absurd rfl (EOK_ne_req sh h ev)
    · have h1' := (c.req _ _).2 ⟨h1, h3⟩
      simp only [forward, h1, h1']
  have hd : ∀ x, b'.inDeg x = b.inDeg x := by
    intro x
    unfold inDeg
    rw [c.sn.next]
    apply sumTo_congr
    intro a _
    unfold arcs
    rw [c.sn.heap]
    cases hh : b.st.heap a with
    | some n => rfl
    | none =>
      simp only
      cases hr : b.req a with
      | none =>
        have : b'.req a = Option.none := by
          cases hr' : b'.req a with
          | none => rfl
          | some r => rw [((c.req a r).1 hr').1] at hr; cases hr
        rw [this]
      | some r =>
        by_cases hB : B r.dep
        · rw [(c.req a r).2 ⟨hr, hB⟩]
          obtain ⟨i, d, cc⟩ := r
          cases cc with
          | pend p => rfl
          | fwd t => rfl
          | done t u =>
            obtain ⟨h1, h2⟩ := rf.done a i d t u hB hr
            simp only [hfw _ h1, hfw _ h2]
          | half u => simp only [hfw _ (rf.half a i d u hB hr)]
        · have : b'.req a = Option.none := by
            cases hr' : b'.req a with
            | none => rfl
            | some r' =>
              obtain ⟨h1, h2⟩ := (c.req a r').1 hr'
              rw [hr] at h1; cases h1; exact absurd h2 hB
          rw [this]
          obtain ⟨t, ht⟩ := hf a r hr hB
          obtain ⟨i, d, cc⟩ := r
          simp only at ht; subst ht; rfl
  refine ⟨by rw [c.sn.ref]; exact h.const, fun a ha => ?_, fun a ha => ?_, fun a h0 ha => ?_⟩
  · rw [c.sn.ref]; exact h.le a ((hl a).1 ha)
  · rw [c.sn.ref, hd]; exact h.cnt a ((hl a).1 ha)
  · exact h.ext0 a h0 (fun h' => ha ((hl a).2 h'))

/-- What is kept about the requests of `B` by steps and clean-ups. -/
structure Out (B : Nat → Prop) (b : BF P) (G : Nat → BFn) (b' : BF P) (G' : Nat → BFn) : Prop where
  st : b.st.Le b'.st
  req : ∀ a r, b.req a = some r → B r.dep →
    (∃ r', b'.req a = some r' ∧ r'.id = r.id ∧ r'.dep = r.dep ∧ G' a = G a) ∨
    Rep b'.st ⟨r.id, a, false⟩ (G a)
  keep : ∀ ext, b.RefOK ext → (∀ a r, b.req a = some r → ext a = 0) →
    b'.RefOK ext ∧ (∀ a r, b'.req a = some r → ext a = 0)
  num : b.st.NumOK → b'.st.NumOK

theorem Out.refl (b : BF P) (G) : Out B b G b G :=
  ⟨Store.Le.refl _, fun _ r h _ => Or.inl ⟨r, h, rfl, rfl, rfl⟩, fun _ h h' => ⟨h, h'⟩, fun h => h⟩

theorem Out.trans {b b' b'' : BF P} {G G' G''} (h1 : Out B b G b' G') (h2 : Out B b' G' b'' G'') :
    Out B b G b'' G'' where
  st := h1.st.trans h2.st
  req := by
    intro a r hr hB
    rcases h1.req a r hr hB with ⟨r', h3, h4, h5, h6⟩ | h3
    · rcases h2.req a r' h3 (by rw [h5]; exact hB) with ⟨r'', h7, h8, h9, h10⟩ | h7
      · exact Or.inl ⟨r'', h7, h8.trans h4, h9.trans h5, h10.trans h6⟩
      · right; rw [← h6, ← h4]; exact h7
    · exact Or.inr (h3.mono h2.st)
  keep := fun ext h h' => by
    obtain ⟨a1, a2⟩ := h1.keep ext h h'
    exact h2.keep ext a1 a2
  num := fun h => h2.num (h1.num h)

theorem Stp.out {b b' : BF P} {G G'} (h : Stp A b G b' G') : Out B b G b' G' where
  st := h.st
  req := by
    intro a r hr _
    rcases h.req a r hr with ⟨r', h1, h2, h3⟩ | h1
    · exact Or.inl ⟨r', h1, h2, h3, h.ghost a (used_req hr)⟩
    · exact Or.inr h1
  keep := h.keep
  num := h.num

theorem Cleaned.out {b b' : BF P} {G} (c : Cleaned B b b') (sh : QShape b) (rf : Refs B b)
    (hf : ∀ a r, b.req a = some r → ¬ B r.dep → ∃ t, r.cell = .fwd t) : Out B b G b' G where
  st := c.le
  req := fun a r hr hB => Or.inl ⟨r, (c.req a r).2 ⟨hr, hB⟩, rfl, rfl, rfl⟩
  keep := fun ext h h' =>
    ⟨h.cleaned sh rf c hf, fun a r hr => h' a r ((c.req a r).1 hr).1⟩
  num := fun h => h.congr c.sn.ord c.sn.tab c.sn.numNodes

theorem Out.val {b b' : BF P} {G G'} (h : Out B b G b' G') (sh : QShape b) {e F} (v : b.Val G e F)
    (ev : EVa B b e) : b'.Val G' e F := by
  rcases v with v | ⟨r, h1, h2, h3⟩
  · exact Or.inl (v.mono h.st)
  · rcases ev with ev | ⟨r', h4, h5, h6⟩
    · exact absurd rfl (EOK_ne_req sh h1 ev)
    · rcases h.req _ _ h4 h6 with ⟨r'', h7, h8, h9, h10⟩ | h7
      · exact Or.inr ⟨r'', h7, h8.trans h5, by rw [h10]; exact h3⟩
      · left
        have := h7.phase e.neg
        rw [h5] at this
        rw [h3]
        have he : (⟨e.id, e.addr, false⟩ : Edge).phase e.neg = e := by
          cases e; simp [Edge.phase]
        rw [he] at this; exact this

theorem Out.eva {b b' : BF P} {G G'} (h : Out B b G b' G') {e} (v : EVa B b e) : EVa B b' e := by
  rcases v with v | ⟨r, h1, h2, h3⟩
  · exact Or.inl (v.mono h.st)
  · rcases h.req _ _ h1 h3 with ⟨r', h4, h5, h6, _⟩ | h4
    · exact Or.inr ⟨r', h4, h5.trans h2, by rw [h6]; exact h3⟩
    · left
      rcases h4.eok with ⟨h5, h6⟩ | ⟨n, h5, h6⟩
      · exact Or.inl ⟨h2 ▸ h5, h6⟩
      · exact Or.inr ⟨n, h5, by rw [← h2]; exact h6⟩

/-! ### Bookkeeping of the apply phase -/

theorem AD.perm {lo k L L' ds} {b : BF P} (ad : AD A lo k L ds b) (h : ∀ x, x ∈ L ↔ x ∈ L')
    (hn : L'.Nodup) : AD A lo k L' ds b := by
  have eqv : ∀ a r, ADo A k L' ds b a r ↔ ADo A k L ds b a r := by
    intro a r; unfold ADo; rw [h a]
  exact ⟨fun a r hr h1 => ad.todo a r hr ((eqv a r).1 h1),
    fun a r hr h1 h2 => ad.past a r hr h1 (fun h3 => h2 ((eqv a r).2 h3)),
    fun a ha => ad.left a ((h a).2 ha), hn, ad.lob⟩

/-- if the requests of `A` are the same -/
theorem AD.same {lo k L ds} {b b' : BF P} (ad : AD A lo k L ds b) (ho : b'.st.ord = b.st.ord)
    (h : ∀ a r, A r.dep → (b'.req a = some r ↔ b.req a = some r)) : AD A lo k L ds b' := by
  have eqv : ∀ a r, ADo A k L ds b' a r ↔ ADo A k L ds b a r := by
    intro a r; unfold ADo; rw [ho]
  refine ⟨fun a r hr h1 => ad.todo a r ((h a r h1.1).1 hr) ((eqv a r).1 h1),
    fun a r hr h1 h2 => ad.past a r ((h a r h1).1 hr) h1 (fun h3 => h2 ((eqv a r).2 h3)),
    fun a ha => ?_, ad.nodup, fun a r hr h1 => by rw [ho]; exact ad.lob a r ((h a r h1).1 hr) h1⟩
  obtain ⟨r, h1, h2, h3⟩ := ad.left a ha
  exact ⟨r, (h a r h2).2 h1, h2, by rw [ho]; exact h3⟩

end BF
end Cal
