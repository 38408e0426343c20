import Verif.EngInv

/-!
# The apply and reduce phases of the engine with several queues
-/

namespace Cal
namespace BF

variable {P : Type} {R : Rules P} {S : RulesSem R} {A : Nat → Prop}

theorem Val.evx {b : BF P} {G e F} (v : b.Val G e F) : b.EVx e := by
  rcases v with v | ⟨r, h1, h2, _⟩
  · exact Or.inl v.eok
  · exact Or.inr ⟨r, h1, h2⟩

/-- What the contents of the request at `a` may be changed to. -/
inductive CellOk (S : RulesSem R) (A : Nat → Prop) (b : BF P) (G : Nat → BFn) (a i d : Nat) : Cell P → Prop
  | pend {p : P} (hp : S.Pd b.st p (G a)) (act : A d → R.que p = d ∧ R.top b.st.ord p = i) :
      CellOk S A b G a i d (.pend p)
  | done {t e : Edge} {T E : BFn} (ht : b.Val G t T) (he : b.Val G e E)
      (hG : G a = fun ρ => if S.sel d i ρ then T ρ else E ρ)
      (act : A d → EVa A b t ∧ EVa A b e ∧ S.From b.st (b.st.ord.lvl i + 1) t ∧
        S.From b.st (b.st.ord.lvl i + 1) e) : CellOk S A b G a i d (.done t e)
  | half {e : Edge} (he : b.Val G e (G a))
      (act : A d → EVa A b e ∧ S.From b.st (b.st.ord.lvl i + 1) e) : CellOk S A b G a i d (.half e)
  | fwd {t : Edge} (ht : Rep b.st t (G a)) (act : A d → b.st.ord.lvl i ≤ b.st.ord.lvl t.id) :
      CellOk S A b G a i d (.fwd t)

theorem EI.set {b : BF P} {G} (ei : EI S A b G) {a i d c0} (hr : b.req a = some ⟨i, d, c0⟩) {c}
    (ok : CellOk S A b G a i d c) :
    EI S A { b with req := upd b.req a (some ⟨i, d, c⟩) } G := by
  have sh := ei.sh
  generalize hb' : ({ b with req := upd b.req a (some ⟨i, d, c⟩) } : BF P) = b' at *
  have hst : b'.st = b.st := by rw [← hb']
  have hque : b'.que = b.que := by rw [← hb']
  have hra : b'.req a = some ⟨i, d, c⟩ := by rw [← hb']; exact upd_same _ _ _
  have hrn : ∀ x, x ≠ a → b'.req x = b.req x := by intro x hx; rw [← hb']; exact upd_ne _ _ hx
  have tr : ∀ x r, b.req x = some r → ∃ r', b'.req x = some r' ∧ r'.id = r.id ∧ r'.dep = r.dep := by
    intro x r hx
    by_cases hxa : x = a
    · subst hxa; rw [hr] at hx; cases hx; exact ⟨_, hra, rfl, rfl⟩
    · exact ⟨r, by rw [hrn x hxa]; exact hx, rfl, rfl⟩
  have tr' : ∀ x r, b'.req x = some r → ∃ r', b.req x = some r' ∧ r'.id = r.id ∧ r'.dep = r.dep := by
    intro x r hx
    by_cases hxa : x = a
    · subst hxa; rw [hra] at hx; cases hx; exact ⟨_, hr, rfl, rfl⟩
    · exact ⟨r, by rw [← hrn x hxa]; exact hx, rfl, rfl⟩
  have hval : ∀ {e H}, b.Val G e H → b'.Val G e H := by
    intro e H v
    rcases v with v | ⟨r, h1, h2, h3⟩
    · exact Or.inl (by rw [hst]; exact v)
    · obtain ⟨r', h4, h5, _⟩ := tr _ _ h1
      exact Or.inr ⟨r', h4, h5.trans h2, h3⟩
  have hav : ∀ {e}, EVa A b e → EVa A b' e := by
    intro e v
    rcases v with v | ⟨r, h1, h2, h3⟩
    · exact Or.inl (by rw [hst]; exact v)
    · obtain ⟨r', h4, h5, h6⟩ := tr _ _ h1
      exact Or.inr ⟨r', h4, h5.trans h2, by rw [h6]; exact h3⟩
  have hxv : ∀ {e}, b.EVx e → b'.EVx e := by
    intro e v
    rcases v with v | ⟨r, h1, h2⟩
    · exact Or.inl (by rw [hst]; exact v)
    · obtain ⟨r', h4, h5, h6⟩ := tr _ _ h1
      exact Or.inr ⟨r', h4, h5.trans h2⟩
  have case : ∀ x r, b'.req x = some r → (x = a ∧ r = ⟨i, d, c⟩) ∨ (x ≠ a ∧ b.req x = some r) := by
    intro x r hx
    by_cases hxa : x = a
    · subst hxa; rw [hra] at hx; cases hx; exact Or.inl ⟨rfl, rfl⟩
    · rw [hrn x hxa] at hx; exact Or.inr ⟨hxa, hx⟩
  exact {
    sh := {
      wf := by rw [hst]; exact sh.wf
      req_ok := by
        intro x r hx
        obtain ⟨r', h1, _⟩ := tr' x r hx
        rw [hst]; exact sh.req_ok x r' h1
      req_id := by
        intro x r hx
        obtain ⟨r', h1, h2, _⟩ := tr' x r hx
        rw [hst, ← h2]; exact sh.req_id x r' h1
      que_iff := by
        intro d' j x
        rw [hque, sh.que_iff]
        constructor
        · rintro ⟨r, h1, h2, h3⟩
          obtain ⟨r', h4, h5, h6⟩ := tr _ _ h1
          exact ⟨r', h4, h5.trans h2, h6.trans h3⟩
        · rintro ⟨r, h1, h2, h3⟩
          obtain ⟨r', h4, h5, h6⟩ := tr' _ _ h1
          exact ⟨r', h4, h5.trans h2, h6.trans h3⟩
      que_nodup := by intro d' j; rw [hque]; exact sh.que_nodup _ _
      done_thn := by
        intro x j d' t e hx
        rcases case x _ hx with ⟨_, h⟩ | ⟨_, h⟩
        · cases h; cases ok with
          | done ht he hG act => exact hxv ht.evx
        · exact hxv (sh.done_thn _ _ _ _ _ h)
      done_els := by
        intro x j d' t e hx
        rcases case x _ hx with ⟨_, h⟩ | ⟨_, h⟩
        · cases h; cases ok with
          | done ht he hG act => exact hxv he.evx
        · exact hxv (sh.done_els _ _ _ _ _ h)
      half_ok := by
        intro x j d' e hx
        rcases case x _ hx with ⟨_, h⟩ | ⟨_, h⟩
        · cases h; cases ok with
          | half he act => exact hxv he.evx
        · exact hxv (sh.half_ok _ _ _ _ h)
      fwd_ok := by
        intro x j d' e hx
        rw [hst]
        rcases case x _ hx with ⟨_, h⟩ | ⟨_, h⟩
        · cases h; cases ok with
          | fwd ht act => exact ht.eok
        · exact sh.fwd_ok _ _ _ _ h }
    pend := by
      intro x j d' q hx
      rw [hst]
      rcases case x _ hx with ⟨h0, h⟩ | ⟨_, h⟩
      · cases h; cases ok with
        | pend hp act => rw [h0]; exact ⟨hp, act⟩
      · exact ei.pend _ _ _ _ h
    done := by
      intro x j d' t e hx
      rcases case x _ hx with ⟨h0, h⟩ | ⟨_, h⟩
      · cases h; cases ok with
        | done ht he hG act => rw [h0]; exact ⟨_, _, hval ht, hval he, hG⟩
      · obtain ⟨T, E, h1, h2, h3⟩ := ei.done _ _ _ _ _ h
        exact ⟨T, E, hval h1, hval h2, h3⟩
    half := by
      intro x j d' e hx
      rcases case x _ hx with ⟨h0, h⟩ | ⟨_, h⟩
      · cases h; cases ok with
        | half he act => rw [h0]; exact hval he
      · exact hval (ei.half _ _ _ _ h)
    fwd := by
      intro x j d' e hx
      rw [hst]
      rcases case x _ hx with ⟨h0, h⟩ | ⟨_, h⟩
      · cases h; cases ok with
        | fwd ht act => rw [h0]; exact ht
      · exact ei.fwd _ _ _ _ h
    done_act := by
      intro x j d' t e hA hx
      rw [hst]
      rcases case x _ hx with ⟨h0, h⟩ | ⟨_, h⟩
      · cases h; cases ok with
        | done ht he hG act => obtain ⟨h1, h2, h3⟩ := act hA; exact ⟨hav h1, hav h2, h3⟩
      · obtain ⟨h1, h2, h3⟩ := ei.done_act _ _ _ _ _ hA h
        exact ⟨hav h1, hav h2, h3⟩
    half_act := by
      intro x j d' e hA hx
      rw [hst]
      rcases case x _ hx with ⟨h0, h⟩ | ⟨_, h⟩
      · cases h; cases ok with
        | half he act => obtain ⟨h1, h2⟩ := act hA; exact ⟨hav h1, h2⟩
      · obtain ⟨h1, h2⟩ := ei.half_act _ _ _ _ hA h
        exact ⟨hav h1, h2⟩
    fwd_act := by
      intro x j d' e hA hx
      rw [hst]
      rcases case x _ hx with ⟨h0, h⟩ | ⟨_, h⟩
      · cases h; cases ok with
        | fwd ht act => exact act hA
      · exact ei.fwd_act _ _ _ _ hA h }

/-- a result obtained in the apply phase is alive and not forwarded -/
theorem settledL {b : BF P} {k} (op : Open A k b) {e} (ev : EVa A b e) (hl : S.From b.st k e)
    (sh : QShape b) : (e.addr = 0 ∨ b.Live e.addr) ∧ b.forward e = e := by
  rcases ev with ev | ⟨r, h1, h2, h3⟩
  · refine ⟨?_, ?_⟩
    · rcases ev with ⟨_, h⟩ | ⟨n, h, _⟩
      · exact Or.inl h
      · exact Or.inr (Or.inl (by rw [h]; simp))
    · rcases forward_eq_or (b := b) e with ⟨h, _⟩ | ⟨j, d, t, h, _⟩
      · exact h
      · exact absurd rfl (EOK_ne_req sh h ev)
  · obtain ⟨p, hp⟩ := op _ r h1 h3 (by
      rw [h2]
      rcases hl with hl | ⟨_, hl⟩
      · exact hl
      · exact absurd rfl (EOK_ne_req sh h1 hl))
    refine ⟨Or.inr (Or.inr ⟨r, h1, by rw [hp]; simp⟩), ?_⟩
    rcases forward_eq_or (b := b) e with ⟨h, _⟩ | ⟨j, d, t, h, _⟩
    · exact h
    · rw [h] at h1; cases h1; cases hp

theorem settled {b : BF P} {k} (op : Open A k b) {e} (ev : EVa A b e) (hl : k ≤ b.st.ord.lvl e.id)
    (sh : QShape b) : (e.addr = 0 ∨ b.Live e.addr) ∧ b.forward e = e :=
  settledL (S := (⟨fun _ _ _ _ => False, fun _ _ => False, fun _ _ _ => False, fun _ i ρ => ρ i, False,
    fun _ h => h, fun _ h => h, fun _ h => h⟩ : RulesSem (⟨fun _ => 0, fun _ _ => 0, fun _ _ => none,
    fun _ _ => none⟩ : Rules P))) op ev (Or.inl hl) sh

def isDone : Cell P → Prop
  | .done _ _ => True
  | .half _ => True
  | _ => False

theorem EI.icr {b : BF P} {G} (ei : EI S A b G) (e : Edge) : EI S A (b.icr e) G := by
  obtain ⟨ref, h⟩ := icr_eq b.st e
  have : b.icr e = { b with st := { b.st with ref := ref } } := by simp only [BF.icr, h]
  rw [this]; exact ei.ref ref

theorem Grow.icr {k} {b : BF P} {G} (e : Edge) : Grow A k b (b.icr e) G G := by
  obtain ⟨ref, h⟩ := icr_eq b.st e
  have : b.icr e = { b with st := { b.st with ref := ref } } := by simp only [BF.icr, h]
  rw [this]
  exact ⟨⟨rfl, fun _ _ h => h⟩, fun _ _ h => h, fun _ _ h => Or.inl h, fun _ _ => rfl,
    fun h => h.congr rfl rfl rfl⟩

theorem Val.grow {k} {b b' : BF P} {G G'} (g : Grow A k b b' G G') {e F} (v : b.Val G e F) :
    b'.Val G' e F := by
  rcases v with v | ⟨r, h1, h2, h3⟩
  · exact Or.inl (v.mono g.le)
  · exact Or.inr ⟨r, g.old _ _ h1, h2, by rw [g.ghost _ (used_req h1)]; exact h3⟩

theorem EVa.grow {k} {b b' : BF P} {G G'} (g : Grow A k b b' G G') {e} (v : EVa A b e) :
    EVa A b' e := by
  rcases v with v | ⟨r, h1, h2, h3⟩
  · exact Or.inl (v.mono g.le)
  · exact Or.inr ⟨r, g.old _ _ h1, h2, h3⟩

/-- Setting the contents of an active request after its sub-results were obtained. -/
theorem apply_fin {b b3 : BF P} {G G3 a i d p k} (hk : k = b.st.ord.lvl i + 1)
    (hr : b.req a = some ⟨i, d, .pend p⟩) (hA : A d)
    (ei3 : EI S A b3 G3) (gr : Grow A k b b3 G G3) {c} (ok : CellOk S A b3 G3 a i d c)
    (hc : isDone c)
    (hkeep : ∀ ext, b.RefOK ext → RefOK { b3 with req := upd b3.req a (some ⟨i, d, c⟩) } ext) :
    ∃ b', b' = { b3 with req := upd b3.req a (some ⟨i, d, c⟩) } ∧ EI S A b' G3 ∧ Stp A b G b' G3 ∧
      b'.req a = some ⟨i, d, c⟩ ∧ (∀ x r, x ≠ a → b.req x = some r → b'.req x = some r) ∧
      (∀ x r, x ≠ a → b'.req x = some r → b.req x = some r ∨
        (A r.dep ∧ b.st.ord.lvl i < b.st.ord.lvl r.id ∧ ∃ p, r.cell = .pend p)) := by
  have hr3 := gr.old _ _ hr
  refine ⟨_, rfl, ei3.set hr3 ok, ?_, upd_same _ _ _, ?_, ?_⟩
  · exact {
      st := gr.le
      req := by
        intro x r hx
        left
        by_cases hxa : x = a
        · subst hxa; rw [hr] at hx; cases hx; exact ⟨_, upd_same _ _ _, rfl, rfl⟩
        · exact ⟨r, by show upd _ _ _ x = _; rw [upd_ne _ _ hxa]; exact gr.old _ _ hx, rfl, rfl⟩
      ghost := gr.ghost
      inact := by
        intro x r hn
        show upd _ _ _ x = _ ↔ _
        by_cases hxa : x = a
        · subst hxa; rw [upd_same, hr]
          constructor
          · intro h; cases h; exact absurd hA hn
          · intro h; cases h; exact absurd hA hn
        · rw [upd_ne _ _ hxa]
          constructor
          · intro h
            rcases gr.new _ _ h with h1 | ⟨_, h1, _⟩
            · exact h1
            · exact absurd h1 hn
          · exact gr.old _ _
      keep := by
        intro ext h1 h2
        refine ⟨hkeep ext h1, ?_⟩
        intro x r hx
        by_cases hxa : x = a
        · subst hxa; exact h2 _ _ hr
        · have hx : b3.req x = some r := by
            have : upd b3.req a (some ⟨i, d, c⟩) x = some r := hx
            rw [upd_ne _ _ hxa] at this; exact this
          rcases gr.new _ _ hx with h3 | ⟨h3, _⟩
          · exact h2 _ _ h3
          · by_cases h0 : x = 0
            · exact absurd (Or.inl h0) h3
            · exact h1.ext0 x h0 (not_live_of_not_used h3)
      num := fun h => (gr.num h).congr rfl rfl rfl }
  · intro x r hxa hx
    show upd _ _ _ x = _
    rw [upd_ne _ _ hxa]; exact gr.old _ _ hx
  · intro x r hxa hx
    have hx : b3.req x = some r := by
      have : upd b3.req a (some ⟨i, d, c⟩) x = some r := hx
      rw [upd_ne _ _ hxa] at this; exact this
    rcases gr.new _ _ hx with h3 | ⟨h3, h4, h5, h6⟩
    · exact Or.inl h3
    · exact Or.inr ⟨h4, by omega, h6⟩

/-- A request both of whose sub-results were obtained. -/
theorem apply_two {b b1 b2 : BF P} {G G1 G2} (ei : EI S A b G) {a i d p}
    (hr : b.req a = some ⟨i, d, .pend p⟩) (hA : A d) {k} (hk : k = b.st.ord.lvl i + 1) (op : Open A k b)
    {t e : Edge} {T E : BFn} (hG : G a = fun ρ => if S.sel d i ρ then T ρ else E ρ)
    (e1 : EI S A b1 G1) (g1 : Grow A k b b1 G G1) (k1 : ∀ ext, b.RefOK ext → b1.RefOK ext)
    (v1 : b1.Val G1 t T) (ev1 : EVa A b1 t) (l1 : S.From b1.st k t)
    (e2 : EI S A b2 G2) (g2 : Grow A k (b1.icr t) b2 G1 G2)
    (k2 : ∀ ext, (b1.icr t).RefOK ext → b2.RefOK ext)
    (v2 : b2.Val G2 e E) (ev2 : EVa A b2 e) (l2 : S.From b2.st k e) :
    ∃ b', b' = { b2.icr e with req := upd (b2.icr e).req a (some ⟨i, d, .done t e⟩) } ∧
      EI S A b' G2 ∧ Stp A b G b' G2 ∧
      b'.req a = some ⟨i, d, .done t e⟩ ∧ (∀ x r, x ≠ a → b.req x = some r → b'.req x = some r) ∧
      (∀ x r, x ≠ a → b'.req x = some r → b.req x = some r ∨
        (A r.dep ∧ b.st.ord.lvl i < b.st.ord.lvl r.id ∧ ∃ p, r.cell = .pend p)) := by
  have hua : b.Used a := used_req hr
  have hk' : b.st.ord.lvl i + 1 = k := hk.symm
  have nea : ∀ {b2 : BF P} {G2} {e : Edge}, EI S A b2 G2 → Grow A k b b2 G G2 → EVa A b2 e →
      S.From b2.st k e → e.addr ≠ a := by
    intro b2 G2 e e2 g ev hl
    rintro rfl
    rcases ev with ev | ⟨r, h1, h2, _⟩
    · exact EOK_ne_req e2.sh (g.old _ _ hr) ev rfl
    · rcases hl with hl | ⟨_, hl⟩
      · rw [g.le.ord] at hl
        rw [g.old _ _ hr] at h1; cases h1
        rw [← h2] at hl; simp only at hl; omega
      · exact EOK_ne_req e2.sh h1 hl rfl
  have fwd_upd : ∀ {b2 : BF P} {e : Edge} {c : Cell P}, e.addr ≠ a →
      ({ b2 with req := upd b2.req a (some ⟨i, d, c⟩) } : BF P).forward e = b2.forward e := by
    intro b2 e c hne
    simp only [forward, upd_ne _ _ hne]
  obtain ⟨s1, f1⟩  := settledL (op.grow g1) ev1 l1 e1.sh
  have gi : Grow A k b1 (b1.icr t) G1 G1 := Grow.icr t
  have g2' := (g1.trans gi).trans g2
  have op2 := op.grow g2'
  obtain ⟨s2, f2⟩  := settledL op2 ev2 l2 e2.sh
  have ev1' := (ev1.grow gi).grow g2
  have v1' := (v1.grow gi).grow g2
  have l1' : S.From b2.st k t := (l1.mono gi.le).mono g2.le
  obtain ⟨s1', f1'⟩  := settledL op2 ev1' l1' e2.sh
  have gi2 : Grow A k b2 (b2.icr e) G2 G2 := Grow.icr e
  have g3 := g2'.trans gi2
  have e3 := e2.icr e
  have ho3 : (b2.icr e).st.ord = b.st.ord := g3.le.ord
  have ok : CellOk S A (b2.icr e) G2 a i d (.done t e) := by
    refine .done (v1'.grow gi2) (v2.grow gi2) ?_ ?_
    · rw [g3.ghost a hua, hG]
    · intro _
      refine ⟨ev1'.grow gi2, ev2.grow gi2, ?_, ?_⟩
      · rw [ho3, hk']; exact l1'.mono gi2.le
      · rw [ho3, hk']; exact l2.mono gi2.le
  exact apply_fin hk hr hA e3 g3 ok trivial (by
    intro ext h
    have r1 := k1 ext h
    have r2 := r1.icr e1.sh s1
    have r3 := k2 _ r2
    have r4 := r3.icr e2.sh s2
    have fe : (b2.icr e).forward t = t := f1'
    have fe2 : (b2.icr e).forward e = e := f2
    have hra := e3.sh.req_ok _ _ (g3.old _ _ hr)
    refine RefOK.set_cell (c := .done t e) e3.sh r4 (g3.old _ _ hr) (by simp)
      (out := fun x => hits t x + hits e x) ?_ ?_
    · intro x
      unfold arcs
      simp only [hra.1, upd_same]
      rw [fwd_upd (nea e2 g2' ev1' l1'), fwd_upd (nea e2 g2' ev2 l2), fe, fe2]
    · intro x
      rw [bump_eq, bump_eq]; omega)

theorem applyR_spec' [DecidableEq P] (H : ActOk S A) {b : BF P} {G} (ei : EI S A b G) {a i d p}
    (hr : b.req a = some ⟨i, d, .pend p⟩) (hA : A d) (op : Open A (b.st.ord.lvl i + 1) b)
    (hsp : SplitOk S b.st p (G a)) :
    ∃ b' G' c, b.applyR R a = some b' ∧ isDone c ∧ EI S A b' G' ∧ Stp A b G b' G' ∧
      b'.req a = some ⟨i, d, c⟩ ∧ (∀ x r, x ≠ a → b.req x = some r → b'.req x = some r) ∧
      (∀ x r, x ≠ a → b'.req x = some r → b.req x = some r ∨
        (A r.dep ∧ b.st.ord.lvl i < b.st.ord.lvl r.id ∧ ∃ p, r.cell = .pend p)) := by
  have w := ei.sh.wf
  obtain ⟨hpd, hpq⟩ := ei.pend _ _ _ _ hr
  obtain ⟨hq, htop⟩ := hpq hA
  have hua : b.Used a := used_req hr
  generalize hk : b.st.ord.lvl i + 1 = k at *
  -- a result is not at the address of the request
  have nea : ∀ {b2 : BF P} {G2} {e : Edge}, EI S A b2 G2 → Grow A k b b2 G G2 → EVa A b2 e →
      S.From b2.st k e → e.addr ≠ a := by
    intro b2 G2 e e2 g ev hl
    rintro rfl
    rcases ev with ev | ⟨r, h1, h2, _⟩
    · exact EOK_ne_req e2.sh (g.old _ _ hr) ev rfl
    · rcases hl with hl | ⟨_, hl⟩
      · rw [g.le.ord] at hl
        rw [g.old _ _ hr] at h1; cases h1
        rw [← h2] at hl; simp only at hl; omega
      · exact EOK_ne_req e2.sh h1 hl rfl
  have fwd_upd : ∀ {b2 : BF P} {e : Edge} {c : Cell P}, e.addr ≠ a →
      ({ b2 with req := upd b2.req a (some ⟨i, d, c⟩) } : BF P).forward e = b2.forward e := by
    intro b2 e c hne
    simp only [forward, upd_ne _ _ hne]
  cases hsp with
  | two x y T E hs hx hy hF =>
    rw [htop, hk] at hx hy
    obtain ⟨b1, t, G1, a1, e1, g1, k1, v1, ev1, l1⟩ := act_specL H ei op hx
    have g1' := g1.trans (Grow.icr t)
    obtain ⟨b2, e, G2, a2, e2, g2, k2, v2, ev2, l2⟩ := act_specL H (e1.icr t) (op.grow g1')
      (S.ok_mono g1'.le hy)
    obtain ⟨b', hb', r⟩ := apply_two ei hr hA hk.symm op (T := T) (E := E) (by rw [hF, htop, hq]) e1 g1 k1 v1
      ev1 l1 e2 g2 k2 v2 ev2 l2
    refine ⟨b', G2, .done t e, ?_, trivial, r⟩
    simp only [applyR, hr, hs, a1, icrO, a2, both, hb']
  | left x y hs hx hy =>
    rw [htop, hk] at hx
    obtain ⟨b1, t, G1, a1, e1, g1, k1, v1, ev1, l1⟩ := act_specL H ei op hx
    have op1 := op.grow g1
    obtain ⟨s1, f1⟩  := settledL op1 ev1 l1 e1.sh
    have gi : Grow A k b1 (b1.icr t) G1 G1 := Grow.icr t
    have e3 := e1.icr t
    have g3 := g1.trans gi
    have a2 : (b1.icr t).act R y = some (b1.icr t, none) := by
      simp only [act, H.want_null e3.sh.wf (S.null_mono g3.le hy)]
    have ho3 : (b1.icr t).st.ord = b.st.ord := g3.le.ord
    have ok : CellOk S A (b1.icr t) G1 a i d (.half t) := by
      refine .half ?_ ?_
      · rw [g3.ghost a hua]; exact v1.grow gi
      · intro _
        refine ⟨ev1.grow gi, ?_⟩
        rw [ho3, hk]; exact l1.mono gi.le
    obtain ⟨b', hb', r⟩ := apply_fin hk.symm hr hA e3 g3 ok trivial (by
      intro ext h
      have r1 := k1 ext h
      have r2 := r1.icr e1.sh s1
      have fe : (b1.icr t).forward t = t := f1
      have hra := e3.sh.req_ok _ _ (g3.old _ _ hr)
      refine RefOK.set_cell (c := .half t) e3.sh r2 (g3.old _ _ hr) (by simp)
        (out := fun x => hits t x) ?_ ?_
      · intro x
        unfold arcs
        simp only [hra.1, upd_same]
        rw [fwd_upd (nea e1 g1 ev1 l1), fe]
      · intro x
        rw [bump_eq])
    refine ⟨b', G1, .half t, ?_, trivial, r⟩
    simp only [applyR, hr, hs, a1, icrO, a2, both, hb']
  | right x y hs hx hy =>
    rw [htop, hk] at hy
    have a0 : b.act R x = some (b, none) := by
      simp only [act, H.want_null w hx]
    obtain ⟨b1, t, G1, a1, e1, g1, k1, v1, ev1, l1⟩ := act_specL H ei op hy
    have op1 := op.grow g1
    obtain ⟨s1, f1⟩  := settledL op1 ev1 l1 e1.sh
    have gi : Grow A k b1 (b1.icr t) G1 G1 := Grow.icr t
    have e3 := e1.icr t
    have g3 := g1.trans gi
    have ho3 : (b1.icr t).st.ord = b.st.ord := g3.le.ord
    have ok : CellOk S A (b1.icr t) G1 a i d (.half t) := by
      refine .half ?_ ?_
      · rw [g3.ghost a hua]; exact v1.grow gi
      · intro _
        refine ⟨ev1.grow gi, ?_⟩
        rw [ho3, hk]; exact l1.mono gi.le
    obtain ⟨b', hb', r⟩ := apply_fin hk.symm hr hA e3 g3 ok trivial (by
      intro ext h
      have r1 := k1 ext h
      have r2 := r1.icr e1.sh s1
      have fe : (b1.icr t).forward t = t := f1
      have hra := e3.sh.req_ok _ _ (g3.old _ _ hr)
      refine RefOK.set_cell (c := .half t) e3.sh r2 (g3.old _ _ hr) (by simp)
        (out := fun x => hits t x) ?_ ?_
      · intro x
        unfold arcs
        simp only [hra.1, upd_same]
        rw [fwd_upd (nea e1 g1 ev1 l1), fe]
      · intro x
        rw [bump_eq])
    refine ⟨b', G1, .half t, ?_, trivial, r⟩
    simp only [applyR, hr, hs, a0, icrO, a1, both, hb']

theorem applyR_spec [DecidableEq P] (H : RulesOk S A) {b : BF P} {G} (ei : EI S A b G) {a i d p}
    (hr : b.req a = some ⟨i, d, .pend p⟩) (hA : A d) (op : Open A (b.st.ord.lvl i + 1) b) :
    ∃ b' G' c, b.applyR R a = some b' ∧ isDone c ∧ EI S A b' G' ∧ Stp A b G b' G' ∧
      b'.req a = some ⟨i, d, c⟩ ∧ (∀ x r, x ≠ a → b.req x = some r → b'.req x = some r) ∧
      (∀ x r, x ≠ a → b'.req x = some r → b.req x = some r ∨
        (A r.dep ∧ b.st.ord.lvl i < b.st.ord.lvl r.id ∧ ∃ p, r.cell = .pend p)) := by
  obtain ⟨hpd, hpq⟩ := ei.pend _ _ _ _ hr
  exact applyR_spec' H.toActOk ei hr hA op (H.split_ok ei.sh.wf (by rw [(hpq hA).1]; exact hA) hpd)

/-! ### The apply phase -/

def ADo (A : Nat → Prop) (k : Nat) (L ds : List Nat) (b : BF P) (a : Nat) (r : Req P) : Prop :=
  A r.dep ∧ (k < b.st.ord.lvl r.id ∨ b.st.ord.lvl r.id = k ∧ (a ∈ L ∨ r.dep ∈ ds))

structure AD (A : Nat → Prop) (lo k : Nat) (L ds : List Nat) (b : BF P) : Prop where
  todo : ∀ a r, b.req a = some r → ADo A k L ds b a r → ∃ p, r.cell = .pend p
  past : ∀ a r, b.req a = some r → A r.dep → ¬ ADo A k L ds b a r → isDone r.cell
  left : ∀ a ∈ L, ∃ r, b.req a = some r ∧ A r.dep ∧ b.st.ord.lvl r.id = k ∧ r.dep ∉ ds
  nodup : L.Nodup
  lob : ∀ a r, b.req a = some r → A r.dep → lo ≤ b.st.ord.lvl r.id

theorem AD.step {lo k a L ds} {b b1 : BF P} (ad : AD A lo k (a :: L) ds b) {i d c0 c}
    (hr : b.req a = some ⟨i, d, c0⟩) (hA : A d) (hord : b1.st.ord = b.st.ord)
    (r1 : b1.req a = some ⟨i, d, c⟩) (hc : isDone c)
    (o1 : ∀ x r, x ≠ a → b.req x = some r → b1.req x = some r)
    (n1 : ∀ x r, x ≠ a → b1.req x = some r → b.req x = some r ∨
      (A r.dep ∧ b.st.ord.lvl i < b.st.ord.lvl r.id ∧ ∃ p, r.cell = .pend p)) :
    AD A lo k L ds b1 := by
  have hn := ad.nodup
  simp only [List.nodup_cons] at hn
  have hlo := ad.lob _ _ hr hA
  simp only at hlo
  have hl : b.st.ord.lvl i = k ∧ d ∉ ds := by
    obtain ⟨r, h1, h2, h3, h4⟩ := ad.left a (by simp)
    rw [hr] at h1; cases h1; exact ⟨h3, h4⟩
  obtain ⟨hl, hds⟩ := hl
  refine ⟨?_, ?_, ?_, hn.2, ?_⟩
  · intro x r hx htd
    unfold ADo at htd; rw [hord] at htd
    by_cases hxa : x = a
    · subst hxa; rw [r1] at hx; cases hx
      obtain ⟨_, h | ⟨h, h2 | h2⟩⟩ := htd
      · simp only at h; omega
      · exact absurd h2 hn.1
      · exact absurd h2 hds
    · rcases n1 x r hxa hx with h | ⟨_, _, h⟩
      · refine ad.todo x r h ⟨htd.1, ?_⟩
        rcases htd.2 with h2 | ⟨h2, h3⟩
        · exact Or.inl h2
        · exact Or.inr ⟨h2, h3.imp (fun h => by simp [h]) id⟩
      · exact h
  · intro x r hx hAx htd
    unfold ADo at htd; rw [hord] at htd
    by_cases hxa : x = a
    · subst hxa; rw [r1] at hx; cases hx; exact hc
    · rcases n1 x r hxa hx with h | ⟨_, h, _⟩
      · refine ad.past x r h hAx ?_
        rintro ⟨_, h2⟩
        apply htd
        refine ⟨hAx, ?_⟩
        rcases h2 with h2 | ⟨h2, h3⟩
        · exact Or.inl h2
        · exact Or.inr ⟨h2, h3.imp (fun h => by simpa [hxa] using h) id⟩
      · exact absurd ⟨hAx, Or.inl (by omega)⟩ htd
  · intro x hx
    obtain ⟨r, h1, h2, h3⟩ := ad.left x (by simp [hx])
    have : x ≠ a := by rintro rfl; exact hn.1 hx
    exact ⟨r, o1 x r this h1, h2, by rw [hord]; exact h3⟩
  · intro x r hx hAx
    rw [hord]
    by_cases hxa : x = a
    · subst hxa; rw [r1] at hx; cases hx; exact hlo
    · rcases n1 x r hxa hx with h | ⟨_, h, _⟩
      · exact ad.lob x r h hAx
      · omega

theorem applyListR_spec [DecidableEq P] (H : RulesOk S A) {lo k ds} : ∀ (L : List Nat) (b : BF P) (G),
    EI S A b G → AD A lo k L ds b →
    ∃ b' G', applyListR R L b = some b' ∧ EI S A b' G' ∧ Stp A b G b' G' ∧ AD A lo k [] ds b' := by
  intro L
  induction L with
  | nil => intro b G ei ad; exact ⟨b, G, rfl, ei, Stp.refl _ _, ad⟩
  | cons a L ih =>
    intro b G ei ad
    obtain ⟨r, hr, hA, hl, hds⟩ := ad.left a (by simp)
    obtain ⟨p, hp⟩ := ad.todo a r hr ⟨hA, Or.inr ⟨hl, Or.inl (by simp)⟩⟩
    obtain ⟨i, d, c⟩ := r
    simp only at hp hA hl hds
    subst hp
    have op : Open A (b.st.ord.lvl i + 1) b := by
      intro x r hx hAx hlx
      exact ad.todo x r hx ⟨hAx, Or.inl (by omega)⟩
    obtain ⟨b1, G1, c, h1, hc, e1, s1, r1, o1, n1⟩ := applyR_spec H ei hr hA op
    have hn := ad.nodup
    simp only [List.nodup_cons] at hn
    have hlo := ad.lob _ _ hr hA
    simp only at hlo
    have hord := s1.st.ord
    have ad1 : AD A lo k L ds b1 := ad.step hr hA hord r1 hc o1 n1
    obtain ⟨b2, G2, h2, e2, s2, ad2⟩ := ih b1 G1 e1 ad1
    exact ⟨b2, G2, by simp only [applyListR, h1, h2], e2, s1.trans s2, ad2⟩

theorem QShape.id_of_lvl {b : BF P} (sh : QShape b) {a r} (hr : b.req a = some r) :
    b.st.ord.indexToId (b.st.ord.lvl r.id) = r.id := by
  have hir := sh.req_id _ _ hr
  have h0 : r.id ≠ 0 := by omega
  simp only [Order.lvl, h0, if_false]
  exact sh.wf.ord.left r.id hir.1 hir.2

theorem QShape.lvl_lt {b : BF P} (sh : QShape b) {a r} (hr : b.req a = some r) :
    b.st.ord.lvl r.id < b.st.ord.numVars := by
  have hir := sh.req_id _ _ hr
  have h0 : r.id ≠ 0 := by omega
  simp only [Order.lvl, h0, if_false]
  exact sh.wf.ord.idx_lt r.id hir.1 hir.2

/-- the requests of a table -/
theorem QShape.mem_tab {b : BF P} (sh : QShape b) {d k a} (hk : k < b.st.ord.numVars) :
    a ∈ b.que d (b.st.ord.indexToId k) ↔ ∃ r, b.req a = some r ∧ r.dep = d ∧ b.st.ord.lvl r.id = k := by
  rw [sh.que_iff]
  constructor
  · rintro ⟨r, h1, h2, h3⟩
    refine ⟨r, h1, h3, ?_⟩
    rw [h2]; exact sh.wf.ord.lvl_indexToId hk
  · rintro ⟨r, h1, h2, h3⟩
    exact ⟨r, h1, by rw [← h3]; exact (sh.id_of_lvl h1).symm, h2⟩

theorem applyTabs_spec [DecidableEq P] (H : RulesOk S A) {lo k} : ∀ (ds : List Nat) (b : BF P) (G),
    EI S A b G → k < b.st.ord.numVars → ds.Nodup → (∀ d ∈ ds, A d) → AD A lo k [] ds b →
    ∃ b' G', applyTabs R (b.st.ord.indexToId k) ds b = some b' ∧ EI S A b' G' ∧ Stp A b G b' G' ∧
      AD A lo k [] [] b' := by
  intro ds
  induction ds with
  | nil => intro b G ei _ _ _ ad; exact ⟨b, G, rfl, ei, Stp.refl _ _, ad⟩
  | cons d ds ih =>
    intro b G ei hk hnd hds ad
    simp only [List.nodup_cons] at hnd
    have hm := fun a => ei.sh.mem_tab (d := d) (a := a) hk
    have eqv : ∀ a r, b.req a = some r → (ADo A k (b.que d (b.st.ord.indexToId k)) ds b a r ↔
        ADo A k [] (d :: ds) b a r) := by
      intro a r hr
      unfold ADo
      constructor
      · rintro ⟨h1, h2 | ⟨h2, h3 | h3⟩⟩
        · exact ⟨h1, Or.inl h2⟩
        · obtain ⟨r', h4, h5, h6⟩ := (hm a).1 h3
          rw [hr] at h4; cases h4
          exact ⟨h1, Or.inr ⟨h2, Or.inr (by simp [h5])⟩⟩
        · exact ⟨h1, Or.inr ⟨h2, Or.inr (by simp [h3])⟩⟩
      · rintro ⟨h1, h2 | ⟨h2, h3 | h3⟩⟩
        · exact ⟨h1, Or.inl h2⟩
        · simp at h3
        · rcases List.mem_cons.1 h3 with h3 | h3
          · exact ⟨h1, Or.inr ⟨h2, Or.inl ((hm a).2 ⟨r, hr, h3, h2⟩)⟩⟩
          · exact ⟨h1, Or.inr ⟨h2, Or.inr h3⟩⟩
    have ad1 : AD A lo k (b.que d (b.st.ord.indexToId k)) ds b := by
      refine ⟨?_, ?_, ?_, ei.sh.que_nodup _ _, ad.lob⟩
      · intro a r hr htd; exact ad.todo a r hr ((eqv a r hr).1 htd)
      · intro a r hr hA htd; exact ad.past a r hr hA (fun h => htd ((eqv a r hr).2 h))
      · intro a ha
        obtain ⟨r, h1, h2, h3⟩ := (hm a).1 ha
        exact ⟨r, h1, by rw [h2]; exact hds d (by simp), h3, by rw [h2]; exact hnd.1⟩
    obtain ⟨b1, G1, h1, e1, s1, ad2⟩ := applyListR_spec H _ b G ei ad1
    obtain ⟨b2, G2, h2, e2, s2, ad3⟩ := ih b1 G1 e1 (by rw [s1.st.ord]; exact hk) hnd.2
      (fun d hd => hds d (by simp [hd])) ad2
    rw [s1.st.ord] at h2
    exact ⟨b2, G2, by simp only [applyTabs, h1, h2], e2, s1.trans s2, ad3⟩

theorem AD.next {lo k} {ds : List Nat} {b : BF P} (hA : ∀ d, A d → d ∈ ds) (ad : AD A lo k [] [] b) :
    AD A lo (k+1) [] ds b := by
  have eqv : ∀ a r, (ADo A (k+1) [] ds b a r ↔ ADo A k [] [] b a r) := by
    intro a r
    unfold ADo
    simp only [List.not_mem_nil, false_or, and_false, or_false]
    constructor
    · rintro ⟨h1, h2 | ⟨h2, h3⟩⟩
      · exact ⟨h1, by omega⟩
      · exact ⟨h1, by omega⟩
    · rintro ⟨h1, h2⟩
      refine ⟨h1, ?_⟩
      by_cases h : k + 1 < b.st.ord.lvl r.id
      · exact Or.inl h
      · exact Or.inr ⟨by omega, hA _ h1⟩
  exact ⟨fun a r hr h => ad.todo a r hr ((eqv a r).1 h),
    fun a r hr h1 h => ad.past a r hr h1 (fun h2 => h ((eqv a r).2 h2)), by simp, by simp, ad.lob⟩

theorem applyRange_spec [DecidableEq P] (H : RulesOk S A) {ds : List Nat} (hnd : ds.Nodup)
    (hds : ∀ d, A d ↔ d ∈ ds) {lo} : ∀ (n k : Nat) (b : BF P) (G), k + n = b.st.ord.numVars →
    EI S A b G → AD A lo k [] ds b →
    ∃ b' G', applyRange R ds k n b = some b' ∧ EI S A b' G' ∧ Stp A b G b' G' ∧
      (∀ a r, b'.req a = some r → A r.dep → isDone r.cell) ∧
      (∀ a r, b'.req a = some r → A r.dep → lo ≤ b'.st.ord.lvl r.id) := by
  intro n
  induction n with
  | zero =>
    intro k b G hk ei ad
    refine ⟨b, G, rfl, ei, Stp.refl _ _, ?_, ad.lob⟩
    intro a r hr hA
    refine ad.past a r hr hA ?_
    have := ei.sh.lvl_lt hr
    rintro ⟨_, h | ⟨h, _⟩⟩ <;> omega
  | succ n ih =>
    intro k b G hk ei ad
    obtain ⟨b1, G1, h1, e1, s1, ad1⟩ := applyTabs_spec H ds b G ei (by omega) hnd
      (fun d hd => (hds d).2 hd) ad
    obtain ⟨b2, G2, h2, e2, s2, r2, r3⟩ := ih (k+1) b1 G1 (by rw [s1.st.ord]; omega) e1
      (ad1.next (fun d hd => (hds d).1 hd))
    exact ⟨b2, G2, by simp only [applyRange, h1, h2], e2, s1.trans s2, r2, r3⟩

theorem AD.start {lo} {ds : List Nat} {b : BF P} (hA : ∀ d, A d → d ∈ ds)
    (h : ∀ a r, b.req a = some r → A r.dep → lo ≤ b.st.ord.lvl r.id ∧ ∃ p, r.cell = .pend p) :
    AD A lo lo [] ds b := by
  refine ⟨fun a r hr h1 => (h a r hr h1.1).2, fun a r hr h1 h2 => ?_, by simp, by simp,
    fun a r hr h1 => (h a r hr h1).1⟩
  exfalso
  apply h2
  refine ⟨h1, ?_⟩
  have := (h a r hr h1).1
  by_cases h : lo < b.st.ord.lvl r.id
  · exact Or.inl h
  · exact Or.inr ⟨by omega, Or.inr (hA _ h1)⟩

/-! ### The reduce phase -/

/-- following the forwarding pointer of a sub-result -/
theorem fwd_val {b : BF P} {G} (ei : EI S A b G) {e F} (v : b.Val G e F) (ev : EVa A b e)
    (hf : ∀ r, b.req e.addr = some r → A r.dep → r.id = e.id → ∃ t, r.cell = .fwd t) :
    Rep b.st (b.forward e) F ∧ b.st.ord.lvl e.id ≤ b.st.ord.lvl (b.forward e).id := by
  have hok : b.st.EOK e → b.forward e = e := by
    intro ok
    rcases forward_eq_or (b := b) e with ⟨h, _⟩ | ⟨j, d, t, h, _⟩
    · exact h
    · exact absurd rfl (EOK_ne_req ei.sh h ok)
  rcases v with v | ⟨r, h1, h2, h3⟩
  · rw [hok v.eok]; exact ⟨v, Nat.le_refl _⟩
  · rcases ev with ev | ⟨r', h4, h5, h6⟩
    · exact absurd rfl (EOK_ne_req ei.sh h1 ev)
    · rw [h4] at h1; cases h1
      obtain ⟨t, ht⟩ := hf r h4 h6 h5
      obtain ⟨i, d, c⟩ := r
      simp only at ht h5 h6; subst ht; subst h5
      have : b.forward e = t.phase e.neg := by simp only [forward, h4]
      rw [this]
      have hr := (ei.fwd _ _ _ _ h4).phase e.neg
      refine ⟨?_, by have := ei.fwd_act _ _ _ _ h6 h4; exact this⟩
      rw [h3]; exact hr

/-- The state after the request at `a` became a node. -/
def asNode (b : BF P) (a i d : Nat) (t e : Edge) : BF P :=
  let st := b.st.insertAt i a t e
  { st := { st with numNodes := st.numNodes + 1, gcCheck := st.gcCheck - 1 },
    req := upd b.req a none,
    que := upd2 b.que d i ((b.que d i).erase a) }

/-- The request at `a` becomes a node. -/
theorem EI.become {b : BF P} {G} (ei : EI S A b G) {a i d c0} (hr : b.req a = some ⟨i, d, c0⟩)
    {t e : Edge} {T E} (ht : Rep b.st t T) (he : Rep b.st e E)
    (hG : G a = fun ρ => if ρ i then T ρ else E ρ)
    (l1 : b.st.ord.lvl i < b.st.ord.lvl t.id) (l2 : b.st.ord.lvl i < b.st.ord.lvl e.id)
    (hte : t ≠ e) (hn : t.neg = false) (hlk : b.st.lookup i t e = none) :
    EI S A (b.asNode a i d t e) G ∧
    b.st.Le (b.st.insertAt i a t e) ∧ Rep (b.st.insertAt i a t e) ⟨i, a, false⟩ (G a) := by
  have sh := ei.sh
  have hrok := sh.req_ok _ _ hr
  have hir := sh.req_id _ _ hr
  simp only at hir
  have w' := Store.insertAt_wf sh.wf hrok.1 hrok.2.1 hrok.2.2.1 hrok.2.2.2 hir ht.eok he.eok l1 l2 hte
    hn hlk
  have hle := Store.insertAt_le (s := b.st) (i := i) (t := t) (e := e) hrok.1
  have hheapa : (b.st.insertAt i a t e).heap a = some ⟨i, t, e⟩ := by
    show upd b.st.heap a _ a = _; simp
  have hrepa : Rep (b.st.insertAt i a t e) ⟨i, a, false⟩ (G a) := by
    rw [hG]; exact Rep.pos hheapa (ht.mono hle) (he.mono hle)
  refine ⟨?_, hle, hrepa⟩
  generalize hb' : b.asNode a i d t e = b'
  have hheapn : ∀ x, x ≠ a → b'.st.heap x = b.st.heap x := by
    intro x hx; rw [← hb']; show upd b.st.heap a _ x = _; rw [upd_ne _ _ hx]
  have hle' : b.st.Le b'.st := by rw [← hb']; exact ⟨hle.ord, hle.heap⟩
  have hord : b'.st.ord = b.st.ord := hle'.ord
  have hra : b'.req a = none := by rw [← hb']; exact upd_same _ _ _
  have hrn : ∀ x, x ≠ a → b'.req x = b.req x := by intro x hx; rw [← hb']; exact upd_ne _ _ hx
  have hrepa' : Rep b'.st ⟨i, a, false⟩ (G a) := by
    rw [← hb']
    have h2 : (b.st.insertAt i a t e).Le (b.asNode a i d t e).st := ⟨rfl, fun _ _ h => h⟩
    exact hrepa.mono h2
  have old : ∀ {x r}, b'.req x = some r → x ≠ a ∧ b.req x = some r := by
    intro x r hx
    by_cases hxa : x = a
    · subst hxa; rw [hra] at hx; cases hx
    · rw [hrn x hxa] at hx; exact ⟨hxa, hx⟩
  have hval : ∀ {e H}, b.Val G e H → b'.Val G e H := by
    intro e H v
    rcases v with v | ⟨r, h1, h2, h3⟩
    · exact Or.inl (v.mono hle')
    · by_cases hxa : e.addr = a
      · rw [hxa, hr] at h1; cases h1
        simp only at h2
        have := hrepa'.phase e.neg
        left
        rw [h3, hxa]
        have he' : (⟨i, a, false⟩ : Edge).phase e.neg = e := by
          obtain ⟨ei, ea, en⟩ := e
          simp only at h2 hxa; subst h2; subst hxa; simp [Edge.phase]
        rw [he'] at this; exact this
      · exact Or.inr ⟨r, by rw [hrn _ hxa]; exact h1, h2, h3⟩
  have hav : ∀ {e}, EVa A b e → EVa A b' e := by
    intro e v
    rcases v with v | ⟨r, h1, h2, h3⟩
    · exact Or.inl (v.mono hle')
    · by_cases hxa : e.addr = a
      · rw [hxa, hr] at h1; cases h1
        simp only at h2
        left
        right
        exact ⟨⟨i, _, _⟩, by rw [hxa, ← hb']; exact hheapa, h2⟩
      · exact Or.inr ⟨r, by rw [hrn _ hxa]; exact h1, h2, h3⟩
  have hxv : ∀ {e}, b.EVx e → b'.EVx e := by
    intro e v
    rcases v with v | ⟨r, h1, h2⟩
    · exact Or.inl (v.mono hle')
    · by_cases hxa : e.addr = a
      · rw [hxa, hr] at h1; cases h1
        simp only at h2
        left
        right
        exact ⟨⟨i, _, _⟩, by rw [hxa, ← hb']; exact hheapa, h2⟩
      · exact Or.inr ⟨r, by rw [hrn _ hxa]; exact h1, h2⟩
  have hque : b'.que = upd2 b.que d i ((b.que d i).erase a) := by rw [← hb']; rfl
  exact {
    sh := {
      wf := by rw [← hb']; exact w'.counters _ _
      req_ok := by
        intro x r hx
        obtain ⟨hxa, hx⟩ := old hx
        have := sh.req_ok x r hx
        refine ⟨by rw [hheapn x hxa]; exact this.1, this.2.1, ?_, ?_⟩
        · rw [← hb']; exact this.2.2.1
        · rw [← hb']; exact this.2.2.2
      req_id := fun x r hx => by rw [hord]; exact sh.req_id x r (old hx).2
      que_iff := by
        intro d' j x
        rw [hque]
        by_cases hdj : d' = d ∧ j = i
        · obtain ⟨rfl, rfl⟩ := hdj
          simp only [upd2, and_self, if_true]
          rw [(sh.que_nodup d' j).mem_erase_iff, sh.que_iff d' j x]
          constructor
          · rintro ⟨hxa, r, hx, h1, h2⟩; exact ⟨r, by rw [hrn x hxa]; exact hx, h1, h2⟩
          · rintro ⟨r, hx, h1, h2⟩
            obtain ⟨hxa, hx⟩ := old hx
            exact ⟨hxa, r, hx, h1, h2⟩
        · simp only [upd2, hdj, if_false]
          rw [sh.que_iff d' j x]
          constructor
          · rintro ⟨r, hx, h1, h2⟩
            have hxa : x ≠ a := by
              rintro rfl; rw [hr] at hx; cases hx; exact hdj ⟨h2.symm, h1.symm⟩
            exact ⟨r, by rw [hrn x hxa]; exact hx, h1, h2⟩
          · rintro ⟨r, hx, h1, h2⟩
            exact ⟨r, (old hx).2, h1, h2⟩
      que_nodup := by
        intro d' j
        rw [hque]
        by_cases hdj : d' = d ∧ j = i
        · obtain ⟨rfl, rfl⟩ := hdj
          simp only [upd2, and_self, if_true]; exact (sh.que_nodup _ _).erase _
        · simp only [upd2, hdj, if_false]; exact sh.que_nodup _ _
      done_thn := fun x j d t' e' hx => hxv (sh.done_thn x j d t' e' (old hx).2)
      done_els := fun x j d t' e' hx => hxv (sh.done_els x j d t' e' (old hx).2)
      half_ok := fun x j d e' hx => hxv (sh.half_ok x j d e' (old hx).2)
      fwd_ok := fun x j d t' hx => (sh.fwd_ok x j d t' (old hx).2).mono hle' }
    pend := fun x j d q hx => by
      have := ei.pend x j d q (old hx).2
      rw [hord]
      exact ⟨S.pd_mono hle' this.1, this.2⟩
    done := fun x j d t' e' hx => by
      obtain ⟨T, E, h1, h2, h3⟩ := ei.done x j d t' e' (old hx).2
      exact ⟨T, E, hval h1, hval h2, h3⟩
    half := fun x j d e' hx => hval (ei.half x j d e' (old hx).2)
    fwd := fun x j d t' hx => (ei.fwd x j d t' (old hx).2).mono hle'
    done_act := fun x j d t' e' hA hx => by
      obtain ⟨h1, h2, h3⟩ := ei.done_act x j d t' e' hA (old hx).2
      rw [hord]; exact ⟨hav h1, hav h2, h3.1.mono hle', h3.2.mono hle'⟩
    half_act := fun x j d e' hA hx => by
      obtain ⟨h1, h2⟩ := ei.half_act x j d e' hA (old hx).2
      rw [hord]; exact ⟨hav h1, h2.mono hle'⟩
    fwd_act := fun x j d t' hA hx => by
      rw [hord]; exact ei.fwd_act x j d t' hA (old hx).2 }

/-- Forwarding a request, with new counts. -/
theorem EI.set_fwd {b : BF P} {G} (ei : EI S A b G) {a i d c0} (hr : b.req a = some ⟨i, d, c0⟩)
    {t : Edge} (ht : Rep b.st t (G a)) (hl : A d → b.st.ord.lvl i ≤ b.st.ord.lvl t.id) (ref) :
    EI S A { b with st := { b.st with ref := ref }, req := upd b.req a (some ⟨i, d, .fwd t⟩) } G := by
  have hle : b.st.Le { b.st with ref := ref } := ⟨rfl, fun _ _ h => h⟩
  have := (ei.ref ref).set (a := a) (c := .fwd t) hr (.fwd (ht.mono hle) hl)
  exact this

/-- what a reduce step does to the requests -/
theorem stp_of {b b' : BF P} {G} {a i d c0} (hr : b.req a = some ⟨i, d, c0⟩) (hA : A d)
    (hle : b.st.Le b'.st) (hrn : ∀ x, x ≠ a → b'.req x = b.req x)
    (hra : (b'.req a = none ∧ Rep b'.st ⟨i, a, false⟩ (G a)) ∨ ∃ c, b'.req a = some ⟨i, d, c⟩)
    (hk : ∀ ext, b.RefOK ext → (∀ a r, b.req a = some r → ext a = 0) → b'.RefOK ext)
    (hnum : b.st.NumOK → b'.st.NumOK) : Stp A b G b' G where
  st := hle
  req := by
    intro x r hx
    by_cases hxa : x = a
    · subst hxa; rw [hr] at hx; cases hx
      rcases hra with ⟨_, h⟩ | ⟨c, h⟩
      · exact Or.inr h
      · exact Or.inl ⟨_, h, rfl, rfl⟩
    · exact Or.inl ⟨r, by rw [hrn x hxa]; exact hx, rfl, rfl⟩
  ghost := fun _ _ => rfl
  inact := by
    intro x r hn
    by_cases hxa : x = a
    · subst hxa; rw [hr]
      rcases hra with ⟨h, _⟩ | ⟨c, h⟩
      · rw [h]
        constructor
        · intro h; cases h
        · intro h; cases h; exact absurd hA hn
      · rw [h]
        constructor
        · intro h; cases h; exact absurd hA hn
        · intro h; cases h; exact absurd hA hn
    · rw [hrn x hxa]
  keep := by
    intro ext h1 h2
    refine ⟨hk ext h1 h2, fun x r hx => ?_⟩
    by_cases hxa : x = a
    · subst hxa; exact h2 _ _ hr
    · rw [hrn x hxa] at hx; exact h2 _ _ hx
  num := hnum

theorem newStore_frm {s : Store} (w : s.WF) (i a : Nat) (t e : Edge) : s.Frm (newStore s i a t e) := by
  obtain ⟨sp, -⟩ := Store.alloc_spec w i
  intro x h1 h2 h3 h4
  have hne : x ≠ (s.alloc i).1 := by
    rintro rfl
    rcases sp.was_free with ⟨j, hj⟩ | hj
    · exact h4 j hj
    · omega
  refine ⟨?_, ?_, ?_, ?_⟩
  · show upd (s.alloc i).2.heap (s.alloc i).1 _ x = none
    rw [upd_ne _ _ hne, Store.alloc_heap]; exact h3
  · exact Nat.lt_of_lt_of_le h2 sp.next_le
  · exact fun j hj => h4 j (sp.free_sub j x hj)
  · show upd (s.alloc i).2.ref (s.alloc i).1 _ x = _
    rw [upd_ne _ _ hne, Store.alloc_ref, upd_ne _ _ hne]

/-- Reducing a request whose two sub-results are nodes below its index. -/
theorem reduceDone_spec {B : Nat → Prop} {b : BF P} {G} (ei : EI S A b G) {a i d t0 e0}
    (hr : b.req a = some ⟨i, d, .done t0 e0⟩) (hB : B d) {T E : BFn}
    (rp1 : Rep b.st (b.forward t0) T) (rp2 : Rep b.st (b.forward e0) E)
    (hG : G a = fun ρ => if ρ i then T ρ else E ρ)
    (lf1 : b.st.ord.lvl i < b.st.ord.lvl (b.forward t0).id)
    (lf2 : b.st.ord.lvl i < b.st.ord.lvl (b.forward e0).id) :
    ∃ b', b.reduceOne i a = some b' ∧ EI S A b' G ∧ Stp B b G b' G ∧
      (∀ x, x ≠ a → b'.req x = b.req x) ∧
      (b'.req a = none ∨ ∃ t, b'.req a = some ⟨i, d, .fwd t⟩) := by
  have w := ei.sh.wf
  have hir := ei.sh.req_id _ _ hr
  simp only at hir
  have hkeep : ∀ {b'}, b.reduceOne i a = some b' →
      ∀ ext, b.RefOK ext → (∀ a r, b.req a = some r → ext a = 0) → b'.RefOK ext := by
    intro b' hred ext h1 h2
    exact RefOK.reduceDone ei.sh h1 h2 hr rp1.eok rp2.eok (by omega) (by omega) hred
  have hnum : ∀ {b'}, b.reduceOne i a = some b' → b.st.NumOK → b'.st.NumOK := by
    intro b' hred h; exact reduceOne_num hir.2 h hred
  generalize ht : b.forward t0 = t at *
  generalize he : b.forward e0 = e at *
  by_cases hte : t = e
  · obtain ⟨ref, href⟩ := Store.addRef_eq b.st t ((b.st.ref a : Int) - 2)
    have hTE : T = E := Rep.unique w rp1 (hte ▸ rp2)
    have hGT : G a = T := by rw [hG, ← hTE]; funext ρ; simp
    have e1 := ei.set_fwd hr (t := t) (by rw [hGT]; exact rp1) (fun _ => by omega) ref
    have hred : b.reduceOne i a = some { b with
        st := b.st.addRef t ((b.st.ref a : Int) - 2),
        req := upd b.req a (some ⟨i, d, .fwd t⟩) } := by
      simp only [reduceOne, hr, ht, he, hte, if_true]
    refine ⟨_, hred, by rw [href]; exact e1, ?_, fun x hx => upd_ne _ _ hx, Or.inr ⟨_, upd_same _ _ _⟩⟩
    exact stp_of hr hB (by rw [href]; exact ⟨rfl, fun _ _ h => h⟩) (fun x hx => upd_ne _ _ hx)
      (Or.inr ⟨_, upd_same _ _ _⟩) (hkeep hred) (hnum hred)
  · cases hlk : b.st.uniqueLookup i t e with
    | some r =>
      obtain ⟨hri, hrh, hrn⟩ := Store.uniqueLookup_some w hlk
      obtain ⟨ref1, h1⟩ := Store.dcr_eq b.st t
      obtain ⟨ref2, h2⟩ := Store.dcr_eq (b.st.dcr t) e
      obtain ⟨ref, h3⟩ := Store.addRef_eq ((b.st.dcr t).dcr e) r (((b.st.dcr t).dcr e).ref a)
      have href : ((b.st.dcr t).dcr e).addRef r (((b.st.dcr t).dcr e).ref a) =
          { b.st with ref := ref } := by rw [h3, h2, h1]
      have hrr : Rep b.st r (G a) := by
        have p1 := rp1.phase r.neg
        have p2 := rp2.phase r.neg
        have := (Rep.pos hrh p1 p2).phase r.neg
        have he' : (⟨i, r.addr, false⟩ : Edge).phase r.neg = r := by
          obtain ⟨ri, ra, rn⟩ := r
          simp only at hri; subst hri; simp [Edge.phase]
        rw [he'] at this
        rw [hG]
        have hfun : (fun ρ => xor r.neg (if ρ i then xor r.neg (T ρ) else xor r.neg (E ρ))) =
            fun ρ => if ρ i then T ρ else E ρ := by
          funext ρ; cases r.neg <;> cases ρ i <;> simp
        rw [← hfun]; exact this
      have e1 := ei.set_fwd hr (t := r) hrr (fun _ => by rw [hri]; exact Nat.le_refl _) ref
      have hred : b.reduceOne i a = some { b with
          st := ((b.st.dcr t).dcr e).addRef r (((b.st.dcr t).dcr e).ref a),
          req := upd b.req a (some ⟨i, d, .fwd r⟩) } := by
        simp only [reduceOne, hr, ht, he, hte, if_false, hlk]
      refine ⟨_, hred, by rw [href]; exact e1, ?_, fun x hx => upd_ne _ _ hx,
        Or.inr ⟨_, upd_same _ _ _⟩⟩
      exact stp_of hr hB (by rw [href]; exact ⟨rfl, fun _ _ h => h⟩) (fun x hx => upd_ne _ _ hx)
        (Or.inr ⟨_, upd_same _ _ _⟩) (hkeep hred) (hnum hred)
    | none =>
      have hlk' := Store.uniqueLookup_none hlk
      cases hn : t.neg with
      | false =>
        rw [hn] at hlk'; simp only [Edge.phase_false] at hlk'
        obtain ⟨e1, le1, rp⟩ := ei.become hr rp1 rp2 hG (by omega) (by omega) hte hn hlk'
        have hred : b.reduceOne i a = some (b.asNode a i d t e) := by
          simp [reduceOne, hr, ht, he, hte, hlk, hn, asNode]
        refine ⟨_, hred, e1, ?_, fun x hx => upd_ne _ _ hx, Or.inl (upd_same _ _ _)⟩
        have h2 : (b.st.insertAt i a t e).Le (b.asNode a i d t e).st := ⟨rfl, fun _ _ h => h⟩
        exact stp_of hr hB ⟨le1.ord, le1.heap⟩ (fun x hx => upd_ne _ _ hx)
          (Or.inl ⟨upd_same _ _ _, rp.mono h2⟩) (hkeep hred) (hnum hred)
      | true =>
        rw [hn] at hlk'; simp only [Edge.phase_true] at hlk'
        obtain ⟨q1, le1⟩ := negStore_shape ei.sh (a := a) hir rp1.eok rp2.eok (by omega) (by omega) hte
          hn hlk'
        have hred : b.reduceOne i a = some { b with
            st := negStore b.st i a t e,
            req := upd b.req a (some ⟨i, d, .fwd ⟨i, (b.st.alloc i).1, true⟩⟩) } := by
          simp [reduceOne, hr, ht, he, hte, hlk, hn, negStore, newStore]
        have hnew : (negStore b.st i a t e).heap (b.st.alloc i).1 = some ⟨i, t.not, e.not⟩ := by
          simp [negStore, newStore, Store.insertAt]
        have hfr : b.st.Frm (negStore b.st i a t e) := newStore_frm w i a _ _
        have e1 := ei.grow q1.wf le1 hfr
        have hrr : Rep (negStore b.st i a t e) ⟨i, (b.st.alloc i).1, true⟩ (G a) := by
          have := Rep.neg hnew (rp1.not.mono le1) (rp2.not.mono le1)
          rw [hG]
          have hfun : (fun ρ => !(if ρ i then !(T ρ) else !(E ρ))) =
              fun ρ => if ρ i then T ρ else E ρ := by
            funext ρ; cases ρ i <;> simp
          rw [← hfun]; exact this
        have e2 := e1.set_fwd (a := a) hr hrr (fun _ => Nat.le_refl _) (negStore b.st i a t e).ref
        refine ⟨_, hred, e2, ?_, fun x hx => upd_ne _ _ hx, Or.inr ⟨_, upd_same _ _ _⟩⟩
        exact stp_of hr hB le1 (fun x hx => upd_ne _ _ hx) (Or.inr ⟨_, upd_same _ _ _⟩)
          (hkeep hred) (hnum hred)

/-- A request whose result is a node of another variable `j` (calBddVarSubstitute.c:310-360): the node
is found in the table of `j`, or a node is made and put there. Then and else branch are complemented
first if the then branch is complemented (lines 340-343). The request is forwarded to the node. -/
def nodeOne (b : BF P) (j a : Nat) : Option (BF P) :=
  match b.req a with
  | some ⟨i, d, .done t0 e0⟩ =>
    let t := b.forward t0
    let e := b.forward e0
    match b.st.uniqueLookup j t e with
    | some r =>
      some { b with
        st := ((b.st.dcr t).dcr e).addRef r (((b.st.dcr t).dcr e).ref a)
        req := upd b.req a (some ⟨i, d, .fwd r⟩) }
    | none =>
      some { b with
        st := newStore b.st j a (t.phase t.neg) (e.phase t.neg)
        req := upd b.req a (some ⟨i, d, .fwd ⟨j, (b.st.alloc j).1, t.neg⟩⟩) }
  | _ => none

theorem nodeOne_spec {B : Nat → Prop} {b : BF P} {G} (ei : EI S A b G) {a i j d t0 e0}
    (hr : b.req a = some ⟨i, d, .done t0 e0⟩) (hB : B d) (hnA : ¬ A d)
    (hj : 1 ≤ j ∧ j ≤ b.st.ord.numVars) {T E : BFn}
    (rp1 : Rep b.st (b.forward t0) T) (rp2 : Rep b.st (b.forward e0) E)
    (hte : b.forward t0 ≠ b.forward e0)
    (hG : G a = fun ρ => if ρ j then T ρ else E ρ)
    (lf1 : b.st.ord.lvl j < b.st.ord.lvl (b.forward t0).id)
    (lf2 : b.st.ord.lvl j < b.st.ord.lvl (b.forward e0).id) :
    ∃ b', b.nodeOne j a = some b' ∧ EI S A b' G ∧ Stp B b G b' G ∧
      (∀ x, x ≠ a → b'.req x = b.req x) ∧ ∃ t, b'.req a = some ⟨i, d, .fwd t⟩ := by
  have w := ei.sh.wf
  have sh := ei.sh
  cases hlk : b.st.uniqueLookup j (b.forward t0) (b.forward e0) with
  | some r =>
    have hkeep := fun ext (h1 : b.RefOK ext) h2 => RefOK.found sh h1 h2 hr rp1.eok rp2.eok lf1 lf2 hlk
    generalize ht : b.forward t0 = t at *
    generalize he : b.forward e0 = e at *
    obtain ⟨hri, hrh, hrn⟩ := Store.uniqueLookup_some w hlk
    obtain ⟨ref1, h1⟩ := Store.dcr_eq b.st t
    obtain ⟨ref2, h2⟩ := Store.dcr_eq (b.st.dcr t) e
    obtain ⟨ref, h3⟩ := Store.addRef_eq ((b.st.dcr t).dcr e) r (((b.st.dcr t).dcr e).ref a)
    have href : ((b.st.dcr t).dcr e).addRef r (((b.st.dcr t).dcr e).ref a) =
        { b.st with ref := ref } := by rw [h3, h2, h1]
    have hrr : Rep b.st r (G a) := by
      have p1 := rp1.phase r.neg
      have p2 := rp2.phase r.neg
      have := (Rep.pos hrh p1 p2).phase r.neg
      have he' : (⟨j, r.addr, false⟩ : Edge).phase r.neg = r := by
        obtain ⟨ri, ra, rn⟩ := r
        simp only at hri; subst hri; simp [Edge.phase]
      rw [he'] at this
      rw [hG]
      have hfun : (fun ρ => xor r.neg (if ρ j then xor r.neg (T ρ) else xor r.neg (E ρ))) =
          fun ρ => if ρ j then T ρ else E ρ := by
        funext ρ; cases r.neg <;> cases ρ j <;> simp
      rw [← hfun]; exact this
    have e1 := ei.set_fwd hr (t := r) hrr (fun h => absurd h hnA) ref
    refine ⟨_, by simp only [nodeOne, hr, ht, he, hlk]; rfl, by rw [href]; exact e1, ?_, fun x hx => upd_ne _ _ hx,
      ⟨_, upd_same _ _ _⟩⟩
    exact stp_of hr hB (by rw [href]; exact ⟨rfl, fun _ _ h => h⟩) (fun x hx => upd_ne _ _ hx)
      (Or.inr ⟨_, upd_same _ _ _⟩) hkeep (fun h => by rw [href]; exact h.congr rfl rfl rfl)
  | none =>
    have hlk' := Store.uniqueLookup_none hlk
    have okt := rp1.eok
    have oke := rp2.eok
    have hkeep : ∀ (s' : Store) (b' : BF P), s' = newStore b.st j a
          ((b.forward t0).phase (b.forward t0).neg) ((b.forward e0).phase (b.forward t0).neg) →
        QShape { b with st := s' } → b.st.Le s' → b'.st = s' →
        b'.req = upd b.req a (some ⟨i, d, .fwd ⟨j, (b.st.alloc j).1, (b.forward t0).neg⟩⟩) →
        ∀ ext, b.RefOK ext → (∀ a r, b.req a = some r → ext a = 0) → b'.RefOK ext := by
      intro s' b' hs q1 le1 hb' hb2 ext h1 h2
      subst hs
      exact RefOK.fresh sh h1 h2 hr okt oke (by simp) (by simp) q1 le1 hb' hb2
    generalize ht : b.forward t0 = t at *
    generalize he : b.forward e0 = e at *
    obtain ⟨q1, le1⟩ := newStore_shape sh (a := a) hj (okt.phase t.neg) (oke.phase t.neg) (by simpa using lf1)
      (by simpa using lf2) (by
        intro h; apply hte
        have := congrArg (fun x => Edge.phase x t.neg) h
        simpa using this) (by simp) hlk'
    have hnew : (newStore b.st j a (t.phase t.neg) (e.phase t.neg)).heap (b.st.alloc j).1 =
        some ⟨j, t.phase t.neg, e.phase t.neg⟩ := by
      simp [newStore, Store.insertAt]
    have e1 := ei.grow q1.wf le1 (newStore_frm w j a _ _)
    have hrr : Rep (newStore b.st j a (t.phase t.neg) (e.phase t.neg)) ⟨j, (b.st.alloc j).1, t.neg⟩ (G a) := by
      have := (Rep.pos hnew ((rp1.phase t.neg).mono le1) ((rp2.phase t.neg).mono le1)).phase t.neg
      have he' : (⟨j, (b.st.alloc j).1, false⟩ : Edge).phase t.neg = ⟨j, (b.st.alloc j).1, t.neg⟩ := by
        simp [Edge.phase]
      rw [he'] at this
      rw [hG]
      have hfun : (fun ρ => xor t.neg (if ρ j then xor t.neg (T ρ) else xor t.neg (E ρ))) =
          fun ρ => if ρ j then T ρ else E ρ := by
        funext ρ; cases t.neg <;> cases ρ j <;> simp
      rw [← hfun]; exact this
    have e2 := e1.set_fwd (a := a) hr hrr (fun h => absurd h hnA)
      (newStore b.st j a (t.phase t.neg) (e.phase t.neg)).ref
    refine ⟨_, by simp only [nodeOne, hr, ht, he, hlk], e2, ?_, fun x hx => upd_ne _ _ hx,
      ⟨_, upd_same _ _ _⟩⟩
    refine stp_of hr hB le1 (fun x hx => upd_ne _ _ hx) (Or.inr ⟨_, upd_same _ _ _⟩)
      (hkeep _ _ rfl q1 le1 rfl rfl) ?_
    intro h
    have e1 : (b.st.alloc j).2.numNodes = b.st.numNodes := by
      unfold Store.alloc; split <;> rfl
    refine h.add (a := (b.st.alloc j).1) hj.2 (Store.alloc_ord _ _) ?_ ?_
    · show upd (b.st.alloc j).2.tab j ((b.st.alloc j).1 :: (b.st.alloc j).2.tab j) = _
      rw [Store.alloc_tab]
    · show (b.st.alloc j).2.numNodes + 1 = _; rw [e1]

/-- Reducing a request whose two sub-results are the same node, wherever that node is. -/
theorem reduceEq_spec {B : Nat → Prop} {b : BF P} {G} (ei : EI S A b G) {a i d t0 e0}
    (hr : b.req a = some ⟨i, d, .done t0 e0⟩) (hB : B d)
    (rp : Rep b.st (b.forward t0) (G a)) (hte : b.forward t0 = b.forward e0) (hnA : ¬ A d) :
    ∃ b', b.reduceOne i a = some b' ∧ EI S A b' G ∧ Stp B b G b' G ∧
      (∀ x, x ≠ a → b'.req x = b.req x) ∧
      (b'.req a = none ∨ ∃ t, b'.req a = some ⟨i, d, .fwd t⟩) := by
  have hir := ei.sh.req_id _ _ hr
  simp only at hir
  obtain ⟨ref, href⟩ := Store.addRef_eq b.st (b.forward t0) ((b.st.ref a : Int) - 2)
  have e1 := ei.set_fwd hr rp (fun h => absurd h hnA) ref
  have hred : b.reduceOne i a = some { b with
      st := b.st.addRef (b.forward t0) ((b.st.ref a : Int) - 2),
      req := upd b.req a (some ⟨i, d, .fwd (b.forward t0)⟩) } := by
    simp only [reduceOne, hr, hte, if_true]
  refine ⟨_, hred, by rw [href]; exact e1, ?_, fun x hx => upd_ne _ _ hx, Or.inr ⟨_, upd_same _ _ _⟩⟩
  exact stp_of hr hB (by rw [href]; exact ⟨rfl, fun _ _ h => h⟩) (fun x hx => upd_ne _ _ hx)
    (Or.inr ⟨_, upd_same _ _ _⟩)
    (fun ext h1 h2 => RefOK.reduceEq ei.sh h1 h2 hr rp.eok hte hred)
    (fun h => reduceOne_num hir.2 h hred)

theorem reduceR_spec {b : BF P} {G} (hsel : S.Plain A) (ei : EI S A b G) {a i d c}
    (hr : b.req a = some ⟨i, d, c⟩) (hA : A d) (hc : isDone c)
    (hf : ∀ x r, b.req x = some r → A r.dep → b.st.ord.lvl i < b.st.ord.lvl r.id → ∃ t, r.cell = .fwd t) :
    ∃ b', b.reduceOne i a = some b' ∧ EI S A b' G ∧ Stp A b G b' G ∧
      (∀ x, x ≠ a → b'.req x = b.req x) ∧
      (b'.req a = none ∨ ∃ t, b'.req a = some ⟨i, d, .fwd t⟩) := by
  have w := ei.sh.wf
  have hir := ei.sh.req_id _ _ hr
  simp only at hir
  have hrok := ei.sh.req_ok _ _ hr
  cases c with
  | pend p => exact absurd hc id
  | fwd t => exact absurd hc id
  | half e0 =>
    obtain ⟨ev, lv⟩ := ei.half_act _ _ _ _ hA hr
    replace lv := lv.strict hsel.2
    obtain ⟨rp, lf⟩ := fwd_val ei (ei.half _ _ _ _ hr) ev (fun r h1 h2 h3 => hf _ r h1 h2 (by rw [h3]; exact lv))
    obtain ⟨ref, href⟩ := Store.addRef_eq b.st (b.forward e0) ((b.st.ref a : Int) - 1)
    have e1 := ei.set_fwd hr rp (fun _ => by omega) ref
    have hred : b.reduceOne i a = some { b with
        st := b.st.addRef (b.forward e0) ((b.st.ref a : Int) - 1),
        req := upd b.req a (some ⟨i, d, .fwd (b.forward e0)⟩) } := by
      simp only [reduceOne, hr]
    refine ⟨_, hred, by rw [href]; exact e1, ?_, fun x hx => upd_ne _ _ hx, Or.inr ⟨_, upd_same _ _ _⟩⟩
    refine stp_of hr hA (by rw [href]; exact ⟨rfl, fun _ _ h => h⟩) (fun x hx => upd_ne _ _ hx)
      (Or.inr ⟨_, upd_same _ _ _⟩) (fun ext h1 h2 => RefOK.reduceHalf ei.sh h1 h2 hr rp.eok hred) ?_
    exact fun h => reduceOne_num hir.2 h hred
  | done t0 e0 =>
    obtain ⟨ev1, ev2, lv1, lv2⟩ := ei.done_act _ _ _ _ _ hA hr
    obtain ⟨T, E, v1, v2, hG⟩ := ei.done _ _ _ _ _ hr
    rw [hsel.1 d i hA] at hG
    replace lv1 := lv1.strict hsel.2
    replace lv2 := lv2.strict hsel.2
    obtain ⟨rp1, lf1⟩ := fwd_val ei v1 ev1 (fun r h1 h2 h3 => hf _ r h1 h2 (by rw [h3]; exact lv1))
    obtain ⟨rp2, lf2⟩ := fwd_val ei v2 ev2 (fun r h1 h2 h3 => hf _ r h1 h2 (by rw [h3]; exact lv2))
    exact reduceDone_spec ei hr hA rp1 rp2 hG (by omega) (by omega)

def RDo (A : Nat → Prop) (k : Nat) (L ds : List Nat) (b : BF P) (a : Nat) (r : Req P) : Prop :=
  A r.dep ∧ (b.st.ord.lvl r.id < k ∨ b.st.ord.lvl r.id = k ∧ (a ∈ L ∨ r.dep ∈ ds))

structure RD (A : Nat → Prop) (lo k : Nat) (L ds : List Nat) (b : BF P) : Prop where
  todo : ∀ a r, b.req a = some r → RDo A k L ds b a r → isDone r.cell
  past : ∀ a r, b.req a = some r → A r.dep → ¬ RDo A k L ds b a r → ∃ t, r.cell = .fwd t
  left : ∀ a ∈ L, ∃ r, b.req a = some r ∧ A r.dep ∧ b.st.ord.lvl r.id = k ∧ r.dep ∉ ds
  nodup : L.Nodup
  lob : ∀ a r, b.req a = some r → A r.dep → lo ≤ b.st.ord.lvl r.id

theorem reduceListR_spec (hsel : S.Plain A) {lo k ds} : ∀ (L : List Nat) (b : BF P) (G), EI S A b G → RD A lo k L ds b →
    ∃ b', reduceList (b.st.ord.indexToId k) L b = some b' ∧ EI S A b' G ∧ Stp A b G b' G ∧
      RD A lo k [] ds b' := by
  intro L
  induction L with
  | nil => intro b G ei rd; exact ⟨b, rfl, ei, Stp.refl _ _, rd⟩
  | cons a L ih =>
    intro b G ei rd
    obtain ⟨r, hr, hA, hl, hds⟩ := rd.left a (by simp)
    have hdone := rd.todo a r hr ⟨hA, Or.inr ⟨hl, Or.inl (by simp)⟩⟩
    have hid := ei.sh.id_of_lvl hr
    rw [hl] at hid
    obtain ⟨i, d, c⟩ := r
    simp only at hdone hA hl hds hid
    obtain ⟨b1, h1, e1, s1, n1, r1⟩ := reduceR_spec hsel ei hr hA hdone (by
      intro x r hx hAx hlx
      refine rd.past x r hx hAx ?_
      rintro ⟨_, h | ⟨h, _⟩⟩ <;> omega)
    have hn := rd.nodup
    simp only [List.nodup_cons] at hn
    have hord := s1.st.ord
    have rd1 : RD A lo k L ds b1 := by
      refine ⟨?_, ?_, ?_, hn.2, ?_⟩
      · intro x r hx htd
        unfold RDo at htd; rw [hord] at htd
        by_cases hxa : x = a
        · subst hxa
          rcases r1 with r1 | ⟨t, r1⟩
          · rw [r1] at hx; cases hx
          · rw [r1] at hx; cases hx
            obtain ⟨_, h | ⟨h, h2 | h2⟩⟩ := htd
            · simp only at h; omega
            · exact absurd h2 hn.1
            · exact absurd h2 hds
        · rw [n1 x hxa] at hx
          refine rd.todo x r hx ⟨htd.1, ?_⟩
          rcases htd.2 with h2 | ⟨h2, h3⟩
          · exact Or.inl h2
          · exact Or.inr ⟨h2, h3.imp (fun h => by simp [h]) id⟩
      · intro x r hx hAx htd
        unfold RDo at htd; rw [hord] at htd
        by_cases hxa : x = a
        · subst hxa
          rcases r1 with r1 | ⟨t, r1⟩
          · rw [r1] at hx; cases hx
          · rw [r1] at hx; cases hx; exact ⟨t, rfl⟩
        · rw [n1 x hxa] at hx
          refine rd.past x r hx hAx ?_
          rintro ⟨_, h2⟩
          apply htd
          refine ⟨hAx, ?_⟩
          rcases h2 with h2 | ⟨h2, h3⟩
          · exact Or.inl h2
          · exact Or.inr ⟨h2, h3.imp (fun h => by simpa [hxa] using h) id⟩
      · intro x hx
        obtain ⟨r, h1, h2, h3, h4⟩ := rd.left x (by simp [hx])
        have : x ≠ a := by rintro rfl; exact hn.1 hx
        exact ⟨r, by rw [n1 x this]; exact h1, h2, by rw [hord]; exact h3, h4⟩
      · intro x r hx hAx
        rw [hord]
        by_cases hxa : x = a
        · subst hxa
          rcases r1 with r1 | ⟨t, r1⟩
          · rw [r1] at hx; cases hx
          · rw [r1] at hx; cases hx; have := rd.lob _ _ hr hA; exact this
        · rw [n1 x hxa] at hx
          exact rd.lob _ _ hx hAx
    obtain ⟨b2, h2, e2, s2, rd2⟩ := ih b1 G e1 rd1
    rw [hord] at h2
    rw [hid] at h2 ⊢
    exact ⟨b2, by simp only [reduceList, h1, h2], e2, s1.trans s2, rd2⟩

theorem reduceTabs_spec (hsel : S.Plain A) {lo k} : ∀ (ds : List Nat) (b : BF P) (G),
    EI S A b G → k < b.st.ord.numVars → ds.Nodup → (∀ d ∈ ds, A d) → RD A lo k [] ds b →
    ∃ b', reduceTabs (b.st.ord.indexToId k) ds b = some b' ∧ EI S A b' G ∧ Stp A b G b' G ∧
      RD A lo k [] [] b' := by
  intro ds
  induction ds with
  | nil => intro b G ei _ _ _ rd; exact ⟨b, rfl, ei, Stp.refl _ _, rd⟩
  | cons d ds ih =>
    intro b G ei hk hnd hds rd
    simp only [List.nodup_cons] at hnd
    have hm := fun a => ei.sh.mem_tab (d := d) (a := a) hk
    have eqv : ∀ a r, b.req a = some r → (RDo A k (b.que d (b.st.ord.indexToId k)) ds b a r ↔
        RDo A k [] (d :: ds) b a r) := by
      intro a r hr
      unfold RDo
      constructor
      · rintro ⟨h1, h2 | ⟨h2, h3 | h3⟩⟩
        · exact ⟨h1, Or.inl h2⟩
        · obtain ⟨r', h4, h5, h6⟩ := (hm a).1 h3
          rw [hr] at h4; cases h4
          exact ⟨h1, Or.inr ⟨h2, Or.inr (by simp [h5])⟩⟩
        · exact ⟨h1, Or.inr ⟨h2, Or.inr (by simp [h3])⟩⟩
      · rintro ⟨h1, h2 | ⟨h2, h3 | h3⟩⟩
        · exact ⟨h1, Or.inl h2⟩
        · simp at h3
        · rcases List.mem_cons.1 h3 with h3 | h3
          · exact ⟨h1, Or.inr ⟨h2, Or.inl ((hm a).2 ⟨r, hr, h3, h2⟩)⟩⟩
          · exact ⟨h1, Or.inr ⟨h2, Or.inr h3⟩⟩
    have rd1 : RD A lo k (b.que d (b.st.ord.indexToId k)) ds b := by
      refine ⟨?_, ?_, ?_, ei.sh.que_nodup _ _, rd.lob⟩
      · intro a r hr htd; exact rd.todo a r hr ((eqv a r hr).1 htd)
      · intro a r hr hA htd; exact rd.past a r hr hA (fun h => htd ((eqv a r hr).2 h))
      · intro a ha
        obtain ⟨r, h1, h2, h3⟩ := (hm a).1 ha
        exact ⟨r, h1, by rw [h2]; exact hds d (by simp), h3, by rw [h2]; exact hnd.1⟩
    obtain ⟨b1, h1, e1, s1, rd2⟩ := reduceListR_spec hsel _ b G ei rd1
    obtain ⟨b2, h2, e2, s2, rd3⟩ := ih b1 G e1 (by rw [s1.st.ord]; exact hk) hnd.2
      (fun d hd => hds d (by simp [hd])) rd2
    rw [s1.st.ord] at h2
    exact ⟨b2, by simp only [reduceTabs, h1, h2], e2, s1.trans s2, rd3⟩

/-- all active requests at index at least `k` are forwarded, the others are done -/
structure RB (A : Nat → Prop) (lo k : Nat) (b : BF P) : Prop where
  todo : ∀ a r, b.req a = some r → A r.dep → b.st.ord.lvl r.id < k → isDone r.cell
  past : ∀ a r, b.req a = some r → A r.dep → k ≤ b.st.ord.lvl r.id → ∃ t, r.cell = .fwd t
  lob : ∀ a r, b.req a = some r → A r.dep → lo ≤ b.st.ord.lvl r.id

theorem reduceRange_spec (hsel : S.Plain A) {ds : List Nat} (hnd : ds.Nodup) (hds : ∀ d, A d ↔ d ∈ ds) {lo} :
    ∀ (n : Nat) (b : BF P) (G), lo + n ≤ b.st.ord.numVars → EI S A b G → RB A lo (lo + n) b →
    ∃ b', reduceRange ds lo n b = some b' ∧ EI S A b' G ∧ Stp A b G b' G ∧ RB A lo lo b' := by
  intro n
  induction n with
  | zero => intro b G hk ei rb; exact ⟨b, rfl, ei, Stp.refl _ _, rb⟩
  | succ n ih =>
    intro b G hk ei rb
    have rd : RD A lo (lo + n) [] ds b := by
      refine ⟨?_, ?_, by simp, by simp, rb.lob⟩
      · rintro a r hr ⟨hA, h⟩
        refine rb.todo a r hr hA ?_
        rcases h with h | ⟨h, _⟩ <;> omega
      · intro a r hr hA h
        refine rb.past a r hr hA ?_
        by_cases hl : lo + (n + 1) ≤ b.st.ord.lvl r.id
        · exact hl
        · exfalso
          apply h
          refine ⟨hA, ?_⟩
          by_cases h2 : b.st.ord.lvl r.id < lo + n
          · exact Or.inl h2
          · exact Or.inr ⟨by omega, Or.inr ((hds _).1 hA)⟩
    obtain ⟨b1, h1, e1, s1, rd1⟩ := reduceTabs_spec hsel ds b G ei (by omega) hnd (fun d hd => (hds d).2 hd) rd
    have rb1 : RB A lo (lo + n) b1 := by
      refine ⟨?_, ?_, rd1.lob⟩
      · intro a r hr hA hl; exact rd1.todo a r hr ⟨hA, Or.inl hl⟩
      · intro a r hr hA hl
        refine rd1.past a r hr hA ?_
        rintro ⟨_, h | ⟨_, h | h⟩⟩
        · omega
        · simp at h
        · simp at h
    obtain ⟨b2, h2, e2, s2, rb2⟩ := ih b1 G (by rw [s1.st.ord]; omega) e1 rb1
    exact ⟨b2, by simp only [reduceRange, h1, h2], e2, s1.trans s2, rb2⟩

/-- Apply and reduce: all active requests are forwarded in the end. -/
theorem runR_spec [DecidableEq P] (H : RulesOk S A) {ds : List Nat} (hnd : ds.Nodup)
    (hds : ∀ d, A d ↔ d ∈ ds) {lo} {b : BF P} {G} (ei : EI S A b G) (hlo : lo ≤ b.st.ord.numVars)
    (h : ∀ a r, b.req a = some r → A r.dep → lo ≤ b.st.ord.lvl r.id ∧ ∃ p, r.cell = .pend p)
    (hsel : S.Plain A := by exact ⟨by intros; rfl, id⟩) :
    ∃ b' G', runR R ds lo b = some b' ∧ EI S A b' G' ∧ Stp A b G b' G' ∧
      ∀ a r, b'.req a = some r → A r.dep → (∃ t, r.cell = .fwd t) ∧ lo ≤ b'.st.ord.lvl r.id := by
  obtain ⟨b1, G1, h1, e1, s1, d1, l1⟩ := applyRange_spec H hnd hds (lo := lo) (b.st.ord.numVars - lo) lo b G
    (by omega) ei (AD.start (fun d hd => (hds d).1 hd) h)
  have ho := s1.st.ord
  obtain ⟨b2, h2, e2, s2, rb⟩ := reduceRange_spec hsel hnd hds (lo := lo) (b1.st.ord.numVars - lo) b1 G1
    (by rw [ho]; omega) e1 ⟨fun a r hr hA _ => d1 a r hr hA, fun a r hr hA hl => by
      have := e1.sh.lvl_lt hr; rw [ho] at this hl; omega, l1⟩
  have s12 := s1.trans s2
  refine ⟨b2, G1, by simp only [runR, h1, h2], e2, s12, ?_⟩
  intro a r hr hA
  exact ⟨rb.past a r hr hA (rb.lob a r hr hA), rb.lob a r hr hA⟩

end BF
end Cal
