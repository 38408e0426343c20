import Verif.QuantBFInv

/-!
# Applying and reducing requests in breadth-first quantification
-/

namespace Cal
namespace QB

open BF Eng

variable {Γ : Nat → BFn → BFn} {o : Order} {Q : Cfg}

theorem QI.icr {b : BF QP} {G} (qi : QI Q o b G) (e : Edge) : QI Q o (b.icr e) G :=
  ⟨qi.ei.icr e, qi.ord, fun a r hr =>
    (qi.cell a r hr).map (Grow.icr (A := All) (k := 0) (G := G) e).le (fun v => v.grow (Grow.icr (A := All) (k := 0) e)) rfl⟩

theorem val_set {b : BF QP} {G a i d c0} (hr : b.req a = some ⟨i, d, c0⟩) (c : Cell QP) {e F}
    (v : b.Val G e F) : Val { b with req := upd b.req a (some ⟨i, d, c⟩) } G e F := by
  rcases v with v | ⟨r, h1, h2, h3⟩
  · exact Or.inl v
  · by_cases h : e.addr = a
    · rw [h, hr] at h1; cases h1
      exact Or.inr ⟨⟨i, d, c⟩, by show upd _ _ _ _ = _; rw [h, upd_same], h2, h3⟩
    · exact Or.inr ⟨r, by show upd _ _ _ _ = _; rw [upd_ne _ _ h]; exact h1, h2, h3⟩

/-- The request at `a` was applied. -/
structure ApR (Γ : Nat → BFn → BFn) (Q : Cfg) (o : Order) (D : Nat → Prop) (b : BF QP) (G : Nat → BFn)
    (a i d : Nat) (b' : BF QP) (c' : Cache) (G' : Nat → BFn) : Prop where
  qi : QI Q o b' G'
  stp : Stp All b G b' G'
  ci : CI Γ o b' G' c'
  self : ∃ c, b'.req a = some ⟨i, d, c⟩ ∧ appl c
  old : ∀ x r, x ≠ a → b.req x = some r → b'.req x = some r
  new : ∀ x r, x ≠ a → b'.req x = some r → b.req x = some r ∨
    (fresh r.cell ∧ D r.dep ∧ o.lvl i < o.lvl r.id)

theorem apply_two' {D k} {b b1 b2 : BF QP} {G G1 G2 a i d p c1 c2 t e lo1 lo2 T E} (qi : QI Q o b G)
    (hr : b.req a = some ⟨i, d, .pend p⟩) (hk : k = o.lvl i + 1)
    (hG : G a = fun ρ => if ρ i then T ρ else E ρ)
    (r1 : GetR Γ Q o D k b G T b1 c1 t lo1 G1) (r2 : GetR Γ Q o D k (b1.icr t) G1 E b2 c2 e lo2 G2)
    (hnd : d = 0 → ¬ Q.A.dom i) :
    ApR Γ Q o D b G a i d { b2.icr e with req := upd (b2.icr e).req a (some ⟨i, d, .done t e⟩) } c2 G2 := by
  have hua : b.Used a := used_req hr
  have gi : Gr D o k k b1 (b1.icr t) G1 G1 := Gr.icr t
  have g1 := r1.gr.weaken (fun _ h => h) r1.klo
  have g2 := r2.gr.weaken (fun _ h => h) r2.klo
  have g2' := (g1.trans gi).trans g2
  have gi2 : Gr D o k k b2 (b2.icr e) G2 G2 := Gr.icr e
  have g3 := g2'.trans gi2
  have ei3 := r2.qi.ei.icr e
  have fn1 : Fine b2 t := (r1.fine.gr gi.toGrow).gr g2.toGrow
  have v1 : b2.Val G2 t T := (r1.val.grow gi.toGrow).grow g2.toGrow
  have nea : ∀ {x : Edge}, Fine b2 x → k ≤ o.lvl x.id → x.addr ≠ a := by
    intro x fx hl
    rintro rfl
    rcases fx with ev | ⟨r, h1, h2, _⟩
    · exact EOK_ne_req r2.qi.ei.sh (g2'.old _ _ hr) ev rfl
    · rw [g2'.old _ _ hr] at h1; cases h1
      rw [← h2] at hl; simp only at hl; omega
  have fwd_upd : ∀ {x : Edge}, x.addr ≠ a →
      ({ b2.icr e with req := upd (b2.icr e).req a (some ⟨i, d, .done t e⟩) } : BF QP).forward x = b2.forward x := by
    intro x hne
    simp only [forward, upd_ne _ _ hne]; rfl
  have ho3 : (b2.icr e).st.ord = o := g3.le.ord.trans qi.ord
  have ok : CellOk (qS Q) All (b2.icr e) G2 a i d (.done t e) := by
    refine .done (v1.grow gi2.toGrow) (r2.val.grow gi2.toGrow) ?_ ?_
    · rw [g3.ghost a hua, hG]; rfl
    · intro _
      refine ⟨Val.eva (v1.grow gi2.toGrow), Val.eva (r2.val.grow gi2.toGrow), Or.inl ?_, Or.inl ?_⟩
      · rw [ho3, ← hk]; exact r1.lvl
      · rw [ho3, ← hk]; exact r2.lvl
  obtain ⟨b', hb', q1, q2, q3, q4, q5⟩ := apply_fin (by rw [qi.ord]; exact hk) hr trivial ei3 g3.toGrow ok
    trivial (by
    intro ext h
    have x1 := r1.ref ext h
    have x2 := x1.icr r1.qi.ei.sh (r1.fine.settled r1.qi.ei.sh).1
    have x3 := r2.ref _ x2
    have x4 := x3.icr r2.qi.ei.sh (r2.fine.settled r2.qi.ei.sh).1
    have hra := ei3.sh.req_ok _ _ (g3.old _ _ hr)
    refine RefOK.set_cell (c := .done t e) ei3.sh x4 (g3.old _ _ hr) (by simp)
      (out := fun x => hits t x + hits e x) ?_ ?_
    · intro x
      unfold arcs
      simp only [hra.1, upd_same]
      rw [fwd_upd (nea fn1 r1.lvl), fwd_upd (nea r2.fine r2.lvl), (fn1.settled r2.qi.ei.sh).2,
        (r2.fine.settled r2.qi.ei.sh).2]
    · intro x
      rw [bump_eq, bump_eq]; omega)
  subst hb'
  have new : ∀ x r, x ≠ a → ({ b2.icr e with req := upd (b2.icr e).req a (some ⟨i, d, .done t e⟩) } : BF QP).req x =
      some r → b.req x = some r ∨ (fresh r.cell ∧ D r.dep ∧ o.lvl i < o.lvl r.id) := by
    intro x r hx h
    replace h : upd (b2.icr e).req a (some ⟨i, d, .done t e⟩) x = some r := h
    rw [upd_ne _ _ hx] at h
    rcases g3.fr x r h with h | ⟨h1, h2, h3⟩
    · exact Or.inl h
    · exact Or.inr ⟨h1, h2, by omega⟩
  refine ⟨qi.of q1 q2 ?_, q2, ?_, ⟨_, q3, trivial⟩, q4, new⟩
  · intro x r hx
    by_cases hxa : x = a
    · subst hxa; rw [q3] at hx; cases hx
      exact Or.inr hnd
    · rcases new x r hxa hx with h | ⟨h, _⟩
      · exact Or.inl h
      · exact Or.inr h.cellQ
  · have c3 := r2.ci.grow gi2.toGrow
    refine ⟨fun j x hx => (c3.ent j x hx).imp id ?_, c3.count, c3.range⟩
    rintro ⟨h1, h2, f, g, X, Y, h3, h4, h5, h6, h7, h8⟩
    exact ⟨h1, h2, f, g, X, Y, h3, h4, h5, h6, val_set (g3.old _ _ hr) _ h7, h8⟩

theorem fresh.nand {b : BF QP} {G} (qi : QI Q o b G) {a i q c} (hr : b.req a = some ⟨i, q, c⟩) (hf : fresh c)
    (hq : q ≠ 0) : ∃ f g X Y, c = .pend (.nand q f g) ∧ i = minId2 o (f, g) ∧ Rep b.st f X ∧ Rep b.st g Y ∧
      (f.id ≠ 0 ∨ g.id ≠ 0) ∧ G a = fun ρ => !(X ρ && Y ρ) := by
  obtain ⟨p, rfl, hp⟩ := hf.pend
  obtain ⟨h1, h2⟩ := qi.ei.pend _ _ _ _ hr
  obtain ⟨h3, h4⟩ := h2 trivial
  have hid := (qi.ei.sh.req_id _ _ hr).1
  cases p with
  | main f g => exact absurd h3.symm hq
  | nand q' f g =>
    obtain ⟨X, Y, a, b', e⟩ := h1
    replace h3 : q' = q := h3
    replace h4 : minId2 b.st.ord (f, g) = i := h4
    rw [qi.ord] at h4
    subst h3
    refine ⟨f, g, X, Y, rfl, h4.symm, a, b', ?_, e⟩
    simp only at hid
    rcases minId2_or o (f, g) with h | h <;> rw [h4] at h <;> simp only at h
    · exact Or.inl (by omega)
    · exact Or.inr (by omega)
  | quant i fy gy t => exact absurd rfl (hp _ _ _ _)

theorem fresh.main {b : BF QP} {G} (qi : QI Q o b G) {a i c} (hr : b.req a = some ⟨i, 0, c⟩) (hf : fresh c) :
    ∃ f g X Y, c = .pend (.main f g) ∧ i = minId2 o (f, g) ∧ Rep b.st f X ∧ Rep b.st g Y ∧
      (f.id ≠ 0 ∨ g.id ≠ 0) ∧ (Q.rel = false → Y = fun _ => true) ∧ G a = exFn Q.A.dom fun ρ => X ρ && Y ρ := by
  obtain ⟨p, rfl, hp⟩ := hf.pend
  obtain ⟨h1, h2⟩ := qi.ei.pend _ _ _ _ hr
  obtain ⟨h3, h4⟩ := h2 trivial
  have hid := (qi.ei.sh.req_id _ _ hr).1
  cases p with
  | main f g =>
    obtain ⟨X, Y, a, b', hy, e⟩ := h1
    replace h4 : minId2 b.st.ord (f, g) = i := h4
    rw [qi.ord] at h4
    refine ⟨f, g, X, Y, rfl, h4.symm, a, b', ?_, hy, e⟩
    simp only at hid
    rcases minId2_or o (f, g) with h | h <;> rw [h4] at h <;> simp only at h
    · exact Or.inl (by omega)
    · exact Or.inr (by omega)
  | nand q' f g => exact absurd h3 hf
  | quant i fy gy t => exact absurd rfl (hp _ _ _ _)

theorem nandApply_spec (H : Hyp Q Γ o) {b : BF QP} {G c} (qi : QI Q o b G) (ci : CI Γ o b G c)
    {a i q cell} (hr : b.req a = some ⟨i, q, cell⟩) (hf : fresh cell) (hq : q ≠ 0)
    (opn : OpenQ o (o.lvl i + 1) b) :
    ∃ b' c' G', nandApply q a b c = some (b', c') ∧ ApR Γ Q o (fun d => d = q) b G a i q b' c' G' := by
  have w := qi.wf
  obtain ⟨f, g, X, Y, rfl, hi, rf, rg, h0, hG⟩ := hf.nand qi hr hq
  obtain ⟨fx, gx, fy, gy, hc, r1, r0, s1, s0, l1, l0, m1, m0⟩ := cof2_spec w rf rg h0
  rw [qi.ord, ← hi] at r1 r0 s1 s0 l1 l0 m1 m0
  have hlt := qi.lvl_lt hr
  obtain ⟨b1, c1, t, lo1, G1, e1, g1⟩ := nandGet_spec H hq qi ci opn (by simp only at hlt; omega) r1 s1
    (by omega) (by omega)
  have gi : Gr (fun d => d = q) o (o.lvl i + 1) (o.lvl i + 1) b1 (b1.icr t) G1 G1 := Gr.icr t
  have gg := (g1.gr.weaken (fun _ h => h) g1.klo).trans gi
  obtain ⟨b2, c2, e, lo2, G2, e2, g2⟩ := nandGet_spec H hq (g1.qi.icr t) (g1.ci.grow gi.toGrow) (opn.gr gg)
    (by simp only at hlt; omega) (r0.mono gg.le) (s0.mono gg.le) (by omega) (by omega)
  refine ⟨{ b2.icr e with req := upd (b2.icr e).req a (some ⟨i, q, .done t e⟩) }, c2, G2,
    by simp only [nandApply, hr, hc, e1, e2], ?_⟩
  refine apply_two' qi hr rfl ?_ g1 g2 (fun h => absurd h hq)
  rw [hG]
  funext ρ
  rw [BFn.shannon X i ρ, BFn.shannon Y i ρ]
  cases ρ i <;> rfl

theorem fix_ind (F : BFn) (v : Nat) (x : Bool) : Indep (BFn.fix F v x) v := by
  intro ρ c
  show F (upd (upd ρ v c) v x) = F (upd ρ v x)
  congr 1
  funext y
  by_cases h : y = v
  · subst h; rw [upd_same, upd_same]
  · rw [upd_ne _ _ h, upd_ne _ _ h, upd_ne _ _ h]

theorem mainApply_spec (H : Hyp Q Γ o) {b : BF QP} {G c} (qi : QI Q o b G) (ci : CI Γ o b G c)
    {a i cell} (hr : b.req a = some ⟨i, 0, cell⟩) (hf : fresh cell)
    (opn : OpenQ o (o.lvl i + 1) b) :
    ∃ b' c' G', mainApply Q a b c = some (b', c') ∧
      ApR Γ Q o (fun d => d = 0 ∨ d = 1) b G a i 0 b' c' G' := by
  have w := qi.wf
  obtain ⟨f, g, X, Y, rfl, hi, rf, rg, h0, hY, hG⟩ := hf.main qi hr
  obtain ⟨fx, gx, fy, gy, hc, r1, r0, s1, s0, l1, l0, m1, m0⟩ := cof2_spec w rf rg h0
  rw [qi.ord, ← hi] at r1 r0 s1 s0 l1 l0 m1 m0
  have hlt := qi.lvl_lt hr
  simp only at hlt
  have hY' : ∀ v, Q.rel = false → BFn.fix Y i v = fun _ => true := fun v h => by rw [hY h]; rfl
  obtain ⟨b1, c1, t, lo1, G1, e1, g1⟩ := get_spec H qi ci opn (by omega) r1 s1 (hY' _)
    (by omega) (by omega)
  have hsp : ∀ ρ : Asg, (X ρ && Y ρ) = if ρ i then (BFn.fix X i true ρ && BFn.fix Y i true ρ) else
      (BFn.fix X i false ρ && BFn.fix Y i false ρ) := by
    intro ρ
    rw [BFn.shannon X i ρ, BFn.shannon Y i ρ]
    cases ρ i <;> rfl
  by_cases hd : (Q.A.var i).isSome = true
  · refine ⟨{ b1 with req := upd b1.req a (some ⟨i, 0, .pend (.quant i fy gy t)⟩) }, c1, G1,
      by simp only [mainApply, hr, hc, e1, if_pos hd], ?_⟩
    have gr := g1.gr
    have s := gr.toGrow.stp g1.ref
    have hr1 := gr.old _ _ hr
    have hGa := gr.ghost a (used_req hr)
    have hp := (qi.ei.pend _ _ _ _ hr).2 trivial
    have ei' : EI (qS Q) All { b1 with req := upd b1.req a (some ⟨i, 0, .pend (.quant i fy gy t)⟩) } G1 :=
      g1.qi.ei.set hr1 (.pend trivial fun _ => ⟨rfl, rfl⟩)
    have hra := g1.qi.ei.sh.req_ok _ _ hr1
    have s' : Stp All b1 G1 { b1 with req := upd b1.req a (some ⟨i, 0, .pend (.quant i fy gy t)⟩) } G1 := by
      refine stp_of hr1 trivial (Store.Le.refl _) (fun x hx => upd_ne _ _ hx) (Or.inr ⟨_, upd_same _ _ _⟩) ?_
        (fun h => h)
      intro ext h _
      refine RefOK.set_cell g1.qi.ei.sh h hr1 (by simp) (out := fun _ => 0) ?_ (by simp)
      intro x
      unfold arcs
      simp only [hra.1, upd_same]
    have new : ∀ x r, x ≠ a → ({ b1 with req := upd b1.req a (some ⟨i, 0, .pend (.quant i fy gy t)⟩) } : BF QP).req x =
        some r → b.req x = some r ∨ (fresh r.cell ∧ (r.dep = 0 ∨ r.dep = 1) ∧ o.lvl i < o.lvl r.id) := by
      intro x r hx h
      replace h : upd b1.req a _ x = some r := h
      rw [upd_ne _ _ hx] at h
      rcases gr.fr x r h with h | ⟨h1, h2, h3⟩
      · exact Or.inl h
      · have := g1.klo
        exact Or.inr ⟨h1, h2, by omega⟩
    refine ⟨qi.of ei' (s.trans s') ?_, s.trans s', g1.ci.stp s', ⟨_, upd_same _ _ _, trivial⟩, ?_, new⟩
    · intro x r hx
      by_cases hxa : x = a
      · subst hxa
        replace hx : upd b1.req x _ x = some r := hx
        rw [upd_same] at hx; cases hx
        refine Or.inr ⟨hd, _, _, _, val_set hr1 _ g1.val, ?_, r0.mono gr.le, s0.mono gr.le, l0, m0, hY' _, ?_⟩
        · have := g1.lvl; simp only; omega
        · rw [hGa, hG]
          exact exFn_split hd hsp
            (Indep.and (fix_ind _ _ _) (fix_ind _ _ _))
            (Indep.and (fix_ind _ _ _) (fix_ind _ _ _))
      · rcases new x r hxa hx with h | ⟨h, _⟩
        · exact Or.inl h
        · exact Or.inr h.cellQ
    · intro x r hx h
      show upd b1.req a _ x = some r
      rw [upd_ne _ _ hx]; exact gr.old _ _ h
  · have gi : Gr (fun d => d = 0 ∨ d = 1) o (o.lvl i + 1) (o.lvl i + 1) b1 (b1.icr t) G1 G1 := Gr.icr t
    have gg := (g1.gr.weaken (fun _ h => h) g1.klo).trans gi
    obtain ⟨b2, c2, e, lo2, G2, e2, g2⟩ := get_spec H (g1.qi.icr t) (g1.ci.grow gi.toGrow) (opn.gr gg)
      (by omega) (r0.mono gg.le) (s0.mono gg.le) (hY' _) (by omega) (by omega)
    refine ⟨{ b2.icr e with req := upd (b2.icr e).req a (some ⟨i, 0, .done t e⟩) }, c2, G2,
      by simp only [mainApply, hr, hc, e1, if_neg hd, e2], ?_⟩
    refine apply_two' qi hr rfl ?_ g1 g2 (fun _ => hd)
    rw [hG]
    exact exFn_node hd hsp

/-! ## The requests of an index -/

/-- The state after steps. -/
structure Run (Γ : Nat → BFn → BFn) (Q : Cfg) (o : Order) (b : BF QP) (G : Nat → BFn) (b' : BF QP)
    (c' : Cache) (G' : Nat → BFn) : Prop where
  qi : QI Q o b' G'
  stp : Stp All b G b' G'
  ci : CI Γ o b' G' c'

theorem Run.refl {b : BF QP} {G c} (qi : QI Q o b G) (ci : CI Γ o b G c) : Run Γ Q o b G b c G :=
  ⟨qi, Stp.refl _ _, ci⟩

theorem Run.trans {b b' b'' : BF QP} {G G' G'' c' c''} (h : Run Γ Q o b G b' c' G')
    (h' : Run Γ Q o b' G' b'' c'' G'') : Run Γ Q o b G b'' c'' G'' := ⟨h'.qi, h.stp.trans h'.stp, h'.ci⟩

/-- Requests above index `k` are left as they are. -/
def Low (o : Order) (k : Nat) (b b' : BF QP) : Prop :=
  ∀ a r, o.lvl r.id < k → (b'.req a = some r ↔ b.req a = some r)

theorem Low.refl {k} (b : BF QP) : Low o k b b := fun _ _ _ => Iff.rfl

theorem Low.trans {k k'} {b b' b'' : BF QP} (h : Low o k b b') (h' : Low o k' b' b'') (hk : k ≤ k') : Low o k b b'' :=
  fun a r hl => (h' a r (by omega)).trans (h a r hl)

theorem Low.le {k k'} {b b' : BF QP} (h : Low o k b b') (hk : k' ≤ k) : Low o k' b b' :=
  fun a r hl => h a r (by omega)

/-- Requests at index `k` and below satisfy `p`. -/
def Ge (o : Order) (k : Nat) (p : Req QP → Prop) (b : BF QP) : Prop :=
  ∀ a r, b.req a = some r → k ≤ o.lvl r.id → p r

/-- Requests at index `k` satisfy `p`. -/
def At (o : Order) (k : Nat) (p : Req QP → Prop) (b : BF QP) : Prop :=
  ∀ a r, b.req a = some r → o.lvl r.id = k → p r

/-- forwarded, or not applied and in the queues `D` -/
def opn (D : Nat → Prop) (r : Req QP) : Prop := isF r.cell ∨ (fresh r.cell ∧ D r.dep)

/-- forwarded, or applied and in the queues `D` -/
def ready (D : Nat → Prop) (r : Req QP) : Prop := isF r.cell ∨ (appl r.cell ∧ D r.dep)

/-- forwarded -/
def don (r : Req QP) : Prop := isF r.cell

theorem Ge.openQ {k D} {b : BF QP} (h : Ge o k (opn D) b) : OpenQ o k b := fun a r hr hl =>
  (h a r hr hl).elim Or.inr fun h => Or.inl h.1

theorem Ge.le {k k' p} {b : BF QP} (h : Ge o k p b) (hk : k ≤ k') : Ge o k' p b :=
  fun a r hr hl => h a r hr (by omega)

theorem Ge.imp {k p q} {b : BF QP} (h : Ge o k p b) (hpq : ∀ r, p r → q r) : Ge o k q b :=
  fun a r hr hl => hpq r (h a r hr hl)

theorem Ge.at_ {k p} {b : BF QP} (h : Ge o k p b) : At o k p b := fun a r hr hl => h a r hr (by omega)

theorem Ge.cons {k p} {b : BF QP} (h : At o k p b) (h' : Ge o (k+1) p b) : Ge o k p b := by
  intro a r hr hl
  by_cases hk : o.lvl r.id = k
  · exact h a r hr hk
  · exact h' a r hr (by omega)

theorem At.low {j k p} {b b' : BF QP} (h : At o j p b) (l : Low o k b b') (hj : j < k) : At o j p b' :=
  fun a r hr hl => h a r ((l a r (by omega)).1 hr) hl

theorem Ge.gr {D lo k j p} {b b' : BF QP} {G G'} (h : Ge o k p b) (g : Gr D o j lo b b' G G')
    (hp : ∀ r, fresh r.cell → D r.dep → lo ≤ o.lvl r.id → p r) : Ge o k p b' := by
  intro a r hr hl
  rcases g.fr a r hr with h1 | ⟨h1, h2, h3⟩
  · exact h a r h1 hl
  · exact hp r h1 h2 h3

theorem Low.gr {D lo k j} {b b' : BF QP} {G G'} (g : Gr D o j lo b b' G G') (hk : k ≤ lo) : Low o k b b' := by
  intro a r hl
  constructor
  · intro h
    rcases g.fr a r h with h1 | ⟨_, _, h3⟩
    · exact h1
    · omega
  · exact g.old a r

/-- a loop applying requests of index `k` in queue `q` -/
theorem applyL_spec {D : Nat → Prop} {q k : Nat} {step : Nat → BF QP → Cache → Option (BF QP × Cache)}
    {I : BF QP → Prop} (hI : ∀ b b', (∀ x r, b'.req x = some r → b.req x = some r ∨ (appl r.cell ∧ o.lvl r.id = k) ∨
      (fresh r.cell ∧ D r.dep ∧ k < o.lvl r.id)) → I b → I b')
    (H : ∀ (b : BF QP) G c a i cell, QI Q o b G → CI Γ o b G c → b.req a = some ⟨i, q, cell⟩ → fresh cell →
      o.lvl i = k → I b → ∃ b' c' G', step a b c = some (b', c') ∧ ApR Γ Q o D b G a i q b' c' G') :
    ∀ (L : List Nat) (b : BF QP) G c, QI Q o b G → CI Γ o b G c → L.Nodup →
      (∀ a ∈ L, ∃ r, b.req a = some r ∧ fresh r.cell ∧ r.dep = q ∧ o.lvl r.id = k) → I b →
    ∃ b' c' G', applyL step L b c = some (b', c') ∧ Run Γ Q o b G b' c' G' ∧ I b' ∧
      (∀ a ∈ L, ∃ r, b'.req a = some r ∧ appl r.cell ∧ r.dep = q ∧ o.lvl r.id = k) ∧
      (∀ x r, x ∉ L → b.req x = some r → b'.req x = some r) ∧
      (∀ x r, x ∉ L → b'.req x = some r → b.req x = some r ∨ (fresh r.cell ∧ D r.dep ∧ k < o.lvl r.id)) := by
  intro L
  induction L with
  | nil =>
    intro b G c qi ci _ _ hb
    exact ⟨b, c, G, rfl, .refl qi ci, hb, by simp, fun _ _ _ h => h, fun _ _ _ h => Or.inl h⟩
  | cons a L ih =>
    intro b G c qi ci hnd hL hb
    obtain ⟨⟨i, d, cell⟩, hr, hf, hd, hl⟩ := hL a (by simp)
    simp only at hf hd hl; subst hd
    simp only [List.nodup_cons] at hnd
    obtain ⟨b1, c1, G1, e1, s1⟩ := H b G c a i cell qi ci hr hf hl hb
    have hold : ∀ x r, b1.req x = some r → b.req x = some r ∨ (appl r.cell ∧ o.lvl r.id = k) ∨
      (fresh r.cell ∧ D r.dep ∧ k < o.lvl r.id) := by
      intro x r hx
      by_cases hxa : x = a
      · subst hxa
        obtain ⟨c, h1, h2⟩ := s1.self
        rw [h1] at hx; cases hx; exact Or.inr (Or.inl ⟨h2, hl⟩)
      · rcases s1.new x r hxa hx with h | ⟨h1, h2, h3⟩
        · exact Or.inl h
        · exact Or.inr (Or.inr ⟨h1, h2, by omega⟩)
    have hne : ∀ x ∈ L, x ≠ a := fun x hx => by rintro rfl; exact hnd.1 hx
    obtain ⟨b2, c2, G2, e2, s2, i2, l2, o2, n2⟩ := ih b1 G1 c1 s1.qi s1.ci hnd.2 (by
      intro x hx
      obtain ⟨r, h1, h2⟩ := hL x (by simp [hx])
      exact ⟨r, s1.old x r (hne x hx) h1, h2⟩) (hI b b1 hold hb)
    refine ⟨b2, c2, G2, by simp only [applyL, e1, e2], (Run.mk s1.qi s1.stp s1.ci).trans s2, i2, ?_, ?_, ?_⟩
    · intro x hx
      rcases List.mem_cons.1 hx with rfl | hx
      · obtain ⟨c, h1, h2⟩ := s1.self
        exact ⟨_, o2 _ _ hnd.1 h1, h2, rfl, hl⟩
      · exact l2 x hx
    · intro x r hx h
      simp only [List.mem_cons, not_or] at hx
      exact o2 x r hx.2 (s1.old x r hx.1 h)
    · intro x r hx h
      simp only [List.mem_cons, not_or] at hx
      rcases n2 x r hx.2 h with h | h
      · rcases s1.new x r hx.1 h with h | ⟨h1, h2, h3⟩
        · exact Or.inl h
        · exact Or.inr ⟨h1, h2, by omega⟩
      · exact Or.inr h

theorem ge_keep {D : Nat → Prop} {k} (b b' : BF QP) (h : ∀ x r, b'.req x = some r → b.req x = some r ∨
      (appl r.cell ∧ o.lvl r.id = k) ∨ (fresh r.cell ∧ D r.dep ∧ k < o.lvl r.id))
    (hb : Ge o (k+1) (opn D) b) : Ge o (k+1) (opn D) b' := by
  intro x r hr hl
  rcases h x r hr with h | ⟨_, h⟩ | ⟨h1, h2, _⟩
  · exact hb x r h hl
  · omega
  · exact Or.inr ⟨h1, h2⟩

/-- All requests of index `k` in the queue `q` are applied by a loop. -/
theorem lev_spec {D : Nat → Prop} {q k : Nat} (hk : k < o.numVars) (hq : D q)
    {step : Nat → BF QP → Cache → Option (BF QP × Cache)}
    (H : ∀ (b : BF QP) G c a i cell, QI Q o b G → CI Γ o b G c → b.req a = some ⟨i, q, cell⟩ → fresh cell →
      OpenQ o (o.lvl i + 1) b → ∃ b' c' G', step a b c = some (b', c') ∧ ApR Γ Q o D b G a i q b' c' G')
    {b : BF QP} {G c} (qi : QI Q o b G) (ci : CI Γ o b G c) (hat : At o k (fun r => r.dep = q → opn D r) b)
    (hge : Ge o (k+1) (opn D) b) :
    ∃ b' c' G', applyL step (bins b q (o.indexToId k)) b c = some (b', c') ∧ Run Γ Q o b G b' c' G' ∧
      Ge o (k+1) (opn D) b' ∧ Low o k b b' ∧ At o k (fun r => r.dep = q → ready D r) b' ∧
      (∀ a r, o.lvl r.id = k → r.dep ≠ q → (b'.req a = some r ↔ b.req a = some r)) := by
  have hL : ∀ a ∈ bins b q (o.indexToId k), ∃ r, b.req a = some r ∧ fresh r.cell ∧ r.dep = q ∧ o.lvl r.id = k := by
    intro a ha
    obtain ⟨r, h1, h2, h3, h4⟩ := (mem_bins qi hk).1 ha
    rcases hat a r h1 h3 h2 with h | h
    · exact absurd h h4
    · exact ⟨r, h1, h.1, h2, h3⟩
  obtain ⟨b', c', G', e1, r1, i1, l1, o1, n1⟩ := applyL_spec (D := D) (q := q) (k := k) (step := step)
    (I := Ge o (k+1) (opn D)) (fun b b' h hb => ge_keep b b' h hb)
    (fun b G c a i cell qi ci hr hf hl hI => H b G c a i cell qi ci hr hf (by rw [hl]; exact hI.openQ))
    _ b G c qi ci (nodup_bins qi _ _) hL hge
  refine ⟨b', c', G', e1, r1, i1, ?_, ?_, ?_⟩
  · intro a r hl
    by_cases ha : a ∈ bins b q (o.indexToId k)
    · constructor
      · intro h
        obtain ⟨r', h1, _, _, h4⟩ := l1 a ha
        rw [h] at h1; cases h1; omega
      · intro h
        obtain ⟨r', h1, _, _, h4⟩ := hL a ha
        rw [h] at h1; cases h1; omega
    · constructor
      · intro h
        rcases n1 a r ha h with h | ⟨_, _, h⟩
        · exact h
        · omega
      · exact o1 a r ha
  · intro a r hr hl hd
    by_cases ha : a ∈ bins b q (o.indexToId k)
    · obtain ⟨r', h1, h2, h3, h4⟩ := l1 a ha
      rw [hr] at h1; cases h1
      exact Or.inr ⟨h2, by rw [h3]; exact hq⟩
    · rcases n1 a r ha hr with h | ⟨_, _, h⟩
      · by_cases hf : isF r.cell
        · exact Or.inl hf
        · exact absurd ((mem_bins qi hk).2 ⟨r, h, hd, hl, hf⟩) ha
      · omega
  · intro a r hl hd
    by_cases ha : a ∈ bins b q (o.indexToId k)
    · constructor
      · intro h
        obtain ⟨r', h1, _, h3, h4⟩ := l1 a ha
        rw [h] at h1; cases h1; exact absurd h3 hd
      · intro h
        obtain ⟨r', h1, _, h3, h4⟩ := hL a ha
        rw [h] at h1; cases h1; exact absurd h3 hd
    · constructor
      · intro h
        rcases n1 a r ha h with h | ⟨_, _, h⟩
        · exact h
        · omega
      · exact o1 a r ha

/-- What a step of the apply loop does to the tables of index `k`. -/
structure Up (Γ : Nat → BFn → BFn) (Q : Cfg) (o : Order) (D : Nat → Prop) (k : Nat) (b : BF QP)
    (G : Nat → BFn) (b' : BF QP) (c' : Cache) (G' : Nat → BFn) : Prop where
  run : Run Γ Q o b G b' c' G'
  at_ : At o k (ready D) b'
  ge : Ge o (k+1) (opn D) b'
  low : Low o k b b'

/-- the queues used before disjunctions -/
def D01 (d : Nat) : Prop := d = 0 ∨ d = 1

/-- the queue of disjunctions -/
def D2 (d : Nat) : Prop := d = 2

theorem orLev_spec (H : Hyp Q Γ o) {k} (hk : k < o.numVars) {b : BF QP} {G c} (qi : QI Q o b G)
    (ci : CI Γ o b G c) (hge : Ge o k (opn D2) b) :
    ∃ b' c' G', orLev k b c = some (b', c') ∧ Up Γ Q o D2 k b G b' c' G' := by
  obtain ⟨b', c', G', e1, r1, i1, l1, a1, n1⟩ := lev_spec (D := D2) (q := 2) hk rfl
    (step := nandApply 2)
    (fun b G c a i cell qi ci hr hf ho => nandApply_spec H qi ci hr hf (by decide) ho)
    qi ci (fun a r hr hl _ => hge a r hr (by omega)) (hge.le (by omega))
  refine ⟨b', c', G', by rw [orLev, qi.ord]; exact e1, r1, ?_, i1, l1⟩
  intro a r hr hl
  by_cases hd : r.dep = 2
  · exact a1 a r hr hl hd
  · rcases hge a r ((n1 a r hl hd).1 hr) (by omega) with h | h
    · exact Or.inl h
    · exact absurd h.2 hd

theorem ApR.weaken {D D' : Nat → Prop} {b : BF QP} {G a i d b' c' G'} (h : ApR Γ Q o D b G a i d b' c' G')
    (hD : ∀ d, D d → D' d) : ApR Γ Q o D' b G a i d b' c' G' :=
  ⟨h.qi, h.stp, h.ci, h.self, h.old, fun x r hx hr => (h.new x r hx hr).imp id
    fun ⟨a, b, c⟩ => ⟨a, hD _ b, c⟩⟩

theorem mainLev_spec (H : Hyp Q Γ o) {k} (hk : k < o.numVars) {b : BF QP} {G c} (qi : QI Q o b G)
    (ci : CI Γ o b G c) (hge : Ge o k (opn D01) b) :
    ∃ b' c' G', mainLev Q k b c = some (b', c') ∧ Up Γ Q o D01 k b G b' c' G' := by
  obtain ⟨b1, c1, G1, e1, r1, i1, l1, a1, n1⟩ := lev_spec (D := D01) (q := 1) hk (Or.inr rfl)
    (step := nandApply 1)
    (fun b G c a i cell qi ci hr hf ho => by
      obtain ⟨b', c', G', h1, h2⟩ := nandApply_spec H qi ci hr hf (by decide) ho
      exact ⟨b', c', G', h1, h2.weaken fun d h => Or.inr h⟩)
    qi ci (fun a r hr hl _ => hge a r hr (by omega)) (hge.le (by omega))
  obtain ⟨b2, c2, G2, e2, r2, i2, l2, a2, n2⟩ := lev_spec (D := D01) (q := 0) hk (Or.inl rfl)
    (step := mainApply Q)
    (fun b G c a i cell qi ci hr hf ho => mainApply_spec H qi ci hr hf ho)
    r1.qi r1.ci (fun a r hr hl hd => hge a r ((n1 a r hl (by omega)).1 hr) (by omega)) i1
  refine ⟨b2, c2, G2, ?_, r1.trans r2, ?_, i2, l1.trans l2 (Nat.le_refl _)⟩
  · rw [← qi.ord] at e1 e2
    simp only [mainLev, e1, e2]
  · intro a r hr hl
    by_cases hd : r.dep = 0
    · exact a2 a r hr hl hd
    · have hr1 := (n2 a r hl hd).1 hr
      by_cases hd1 : r.dep = 1
      · exact a1 a r hr1 hl hd1
      · rcases hge a r ((n1 a r hl hd1).1 hr1) (by omega) with h | ⟨_, h⟩
        · exact Or.inl h
        · rcases h with h | h
          · exact absurd h hd
          · exact absurd h hd1

/-- one step per index -/
theorem upRange_spec {D : Nat → Prop} {lev : Nat → BF QP → Cache → Option (BF QP × Cache)}
    (H : ∀ k (b : BF QP) G c, k < o.numVars → QI Q o b G → CI Γ o b G c → Ge o k (opn D) b →
      ∃ b' c' G', lev k b c = some (b', c') ∧ Up Γ Q o D k b G b' c' G') :
    ∀ n k (b : BF QP) G c, k + n = o.numVars → QI Q o b G → CI Γ o b G c → Ge o k (opn D) b →
      ∃ b' c' G', upRange lev k n b c = some (b', c') ∧ Run Γ Q o b G b' c' G' ∧ Ge o k (ready D) b' ∧
        Low o k b b' := by
  intro n
  induction n with
  | zero =>
    intro k b G c hk qi ci hge
    refine ⟨b, c, G, rfl, .refl qi ci, ?_, .refl _⟩
    intro a r hr hl
    have := qi.lvl_lt hr; omega
  | succ n ih =>
    intro k b G c hk qi ci hge
    obtain ⟨b1, c1, G1, e1, u1⟩ := H k b G c (by omega) qi ci hge
    obtain ⟨b2, c2, G2, e2, r2, g2, l2⟩ := ih (k+1) b1 G1 c1 (by omega) u1.run.qi u1.run.ci u1.ge
    exact ⟨b2, c2, G2, by simp only [upRange, e1, e2], u1.run.trans r2,
      Ge.cons (u1.at_.low l2 (by omega)) g2, u1.low.trans l2 (by omega)⟩

/-- one step per index, from the last -/
theorem downRange_spec {D : Nat → Prop} {lev : Nat → BF QP → Cache → Option (BF QP × Cache)} {k : Nat}
    (H : ∀ j (b : BF QP) G c, k ≤ j → j < o.numVars → QI Q o b G → CI Γ o b G c → At o j (ready D) b →
      Ge o (j+1) don b → ∃ b' c' G', lev j b c = some (b', c') ∧ Run Γ Q o b G b' c' G' ∧ Ge o j don b' ∧
        Low o j b b') :
    ∀ n (b : BF QP) G c, k + n ≤ o.numVars → QI Q o b G → CI Γ o b G c →
      (∀ j, k ≤ j → j < k + n → At o j (ready D) b) → Ge o (k+n) don b →
      ∃ b' c' G', downRange lev k n b c = some (b', c') ∧ Run Γ Q o b G b' c' G' ∧ Ge o k don b' ∧
        Low o k b b' := by
  intro n
  induction n with
  | zero =>
    intro b G c hk qi ci _ hge
    exact ⟨b, c, G, rfl, .refl qi ci, hge, .refl _⟩
  | succ n ih =>
    intro b G c hk qi ci hat hge
    obtain ⟨b1, c1, G1, e1, r1, g1, l1⟩ := H (k+n) b G c (by omega) (by omega) qi ci
      (hat (k+n) (by omega) (by omega)) hge
    obtain ⟨b2, c2, G2, e2, r2, g2, l2⟩ := ih b1 G1 c1 (by omega) r1.qi r1.ci
      (fun j h1 h2 => (hat j h1 (by omega)).low l1 h2) g1
    exact ⟨b2, c2, G2, by simp only [downRange, e1, e2], r1.trans r2, g2, (l1.le (by omega)).trans l2 (by omega)⟩

/-! ## Reducing -/

theorem reduceList_spec {k : Nat} : ∀ (L : List Nat) (b : BF QP) G c, QI Q o b G → CI Γ o b G c → L.Nodup →
      (∀ a ∈ L, ∃ r, b.req a = some r ∧ isDone r.cell ∧ o.lvl r.id = k) → Ge o (k+1) don b →
    ∃ b', BF.reduceList (o.indexToId k) L b = some b' ∧ Run Γ Q o b G b' c G ∧
      (∀ x, x ∉ L → b'.req x = b.req x) ∧
      (∀ x r, x ∈ L → b'.req x = some r → isF r.cell ∧ o.lvl r.id = k ∧ ∃ r0, b.req x = some r0 ∧ r0.dep = r.dep) := by
  intro L
  induction L with
  | nil =>
    intro b G c qi ci _ _ _
    exact ⟨b, rfl, .refl qi ci, fun _ _ => rfl, by simp⟩
  | cons a L ih =>
    intro b G c qi ci hnd hL hge
    obtain ⟨⟨i, d, cell⟩, hr, hdn, hl⟩ := hL a (by simp)
    simp only at hdn hl
    simp only [List.nodup_cons] at hnd
    have hid := qi.ei.sh.id_of_lvl hr
    rw [qi.ord] at hid
    simp only at hid
    rw [hl] at hid
    obtain ⟨b1, h1, ei1, s1, n1, r1⟩ := reduceR_spec (qS_plain Q) qi.ei hr trivial hdn (by
      intro x r hx _ hlx
      rw [qi.ord, hl] at hlx
      exact (hge x r hx (by omega)).get)
    have q1 : QI Q o b1 G := by
      refine qi.of ei1 s1 fun x r hx => ?_
      by_cases hxa : x = a
      · subst hxa
        rcases r1 with h | ⟨t, h⟩
        · rw [h] at hx; cases hx
        · rw [h] at hx; cases hx; exact Or.inr (isF.cellQ trivial)
      · rw [n1 x hxa] at hx; exact Or.inl hx
    have hne : ∀ x ∈ L, x ≠ a := fun x hx => by rintro rfl; exact hnd.1 hx
    have g1 : Ge o (k+1) don b1 := by
      intro x r hx hlx
      by_cases hxa : x = a
      · subst hxa
        rcases r1 with h | ⟨t, h⟩
        · rw [h] at hx; cases hx
        · rw [h] at hx; cases hx; exact trivial
      · rw [n1 x hxa] at hx; exact hge x r hx hlx
    obtain ⟨b2, h2, ru2, n2, l2⟩ := ih b1 G c q1 (ci.stp s1) hnd.2 (by
      intro x hx
      obtain ⟨r, h1, h2⟩ := hL x (by simp [hx])
      exact ⟨r, by rw [n1 x (hne x hx)]; exact h1, h2⟩) g1
    rw [hid] at h2 ⊢
    refine ⟨b2, by simp only [BF.reduceList, h1, h2], (Run.mk q1 s1 (ci.stp s1)).trans ru2, ?_, ?_⟩
    · intro x hx
      simp only [List.mem_cons, not_or] at hx
      rw [n2 x hx.2, n1 x hx.1]
    · intro x r hx hr2
      by_cases hxa : x = a
      · subst hxa
        rw [n2 x hnd.1] at hr2
        rcases r1 with h | ⟨t, h⟩
        · rw [h] at hr2; cases hr2
        · rw [h] at hr2; cases hr2; exact ⟨trivial, hl, _, hr, rfl⟩
      · simp only [List.mem_cons, hxa, false_or] at hx
        obtain ⟨y1, y2, r0, y3, y4⟩ := l2 x r hx hr2
        rw [n1 x hxa] at y3
        exact ⟨y1, y2, r0, y3, y4⟩

theorem redLev_spec {q k : Nat} (hk : k < o.numVars) {b : BF QP} {G c} (qi : QI Q o b G) (ci : CI Γ o b G c)
    (hat : At o k (fun r => r.dep = q → isF r.cell ∨ isDone r.cell) b) (hge : Ge o (k+1) don b) :
    ∃ b', redLev q k b c = some (b', c) ∧ Run Γ Q o b G b' c G ∧ Ge o (k+1) don b' ∧ Low o k b b' ∧
      At o k (fun r => r.dep = q → isF r.cell) b' ∧
      (∀ a r, o.lvl r.id = k → r.dep ≠ q → (b'.req a = some r ↔ b.req a = some r)) := by
  have hL : ∀ a ∈ bins b q (o.indexToId k), ∃ r, b.req a = some r ∧ r.dep = q ∧ isDone r.cell ∧ o.lvl r.id = k := by
    intro a ha
    obtain ⟨r, h1, h2, h3, h4⟩ := (mem_bins qi hk).1 ha
    rcases hat a r h1 h3 h2 with h | h
    · exact absurd h h4
    · exact ⟨r, h1, h2, h, h3⟩
  obtain ⟨b', e1, r1, n1, l1⟩ := reduceList_spec (k := k) _ b G c qi ci (nodup_bins qi _ _)
    (fun a ha => by obtain ⟨r, h1, _, h3, h4⟩ := hL a ha; exact ⟨r, h1, h3, h4⟩) hge
  have same : ∀ a r, a ∉ bins b q (o.indexToId k) → (b'.req a = some r ↔ b.req a = some r) := by
    intro a r ha; rw [n1 a ha]
  refine ⟨b', by rw [redLev, qi.ord, e1]; rfl, r1, ?_, ?_, ?_, ?_⟩
  · intro a r hr hl
    by_cases ha : a ∈ bins b q (o.indexToId k)
    · exact (l1 a r ha hr).1
    · exact hge a r ((same a r ha).1 hr) hl
  · intro a r hl
    by_cases ha : a ∈ bins b q (o.indexToId k)
    · constructor
      · intro h; have := (l1 a r ha h).2.1; omega
      · intro h
        obtain ⟨r', h1, _, _, h4⟩ := hL a ha
        rw [h] at h1; cases h1; omega
    · exact same a r ha
  · intro a r hr hl hd
    by_cases ha : a ∈ bins b q (o.indexToId k)
    · exact (l1 a r ha hr).1
    · have h := (same a r ha).1 hr
      by_cases hf : isF r.cell
      · exact hf
      · exact absurd ((mem_bins qi hk).2 ⟨r, h, hd, hl, hf⟩) ha
  · intro a r hl hd
    by_cases ha : a ∈ bins b q (o.indexToId k)
    · constructor
      · intro h
        obtain ⟨_, _, r0, h3, h4⟩ := l1 a r ha h
        obtain ⟨r', h5, h6, _⟩ := hL a ha
        rw [h3] at h5; cases h5; exact absurd (h4.symm.trans h6) hd
      · intro h
        obtain ⟨r', h1, h2, _⟩ := hL a ha
        rw [h] at h1; cases h1; exact absurd h2 hd
    · exact same a r ha

/-- An applied request that is not in the main queue has two sub-requests. -/
theorem appl.done {b : BF QP} {G} (qi : QI Q o b G) {a r} (hr : b.req a = some r) (h : appl r.cell)
    (hd : r.dep = 0 → ¬ Q.A.dom r.id) : isDone r.cell := by
  have hc := qi.cell a r hr
  obtain ⟨i, d, c⟩ := r
  cases c with
  | pend p => cases p with
    | main f g => exact h.elim
    | nand q f g => exact h.elim
    | quant j fy gy t =>
      have := ((qi.ei.pend _ _ _ _ hr).2 trivial).1
      exact absurd hc.1 (hd this.symm)
  | done t e => trivial
  | half e => exact h.elim
  | fwd t => exact h.elim

/-- An applied request in the main queue whose variable is quantified. -/
theorem appl.quant {b : BF QP} {G} (qi : QI Q o b G) {a r} (hr : b.req a = some r) (h : appl r.cell)
    (hd : r.dep = 0) (hq : Q.A.dom r.id) : ∃ i fy gy t, r.cell = .pend (.quant i fy gy t) := by
  have hc := qi.cell a r hr
  obtain ⟨i, d, c⟩ := r
  cases c with
  | pend p => cases p with
    | main f g => exact h.elim
    | nand q f g => exact h.elim
    | quant j fy gy t => exact ⟨_, _, _, _, rfl⟩
  | done t e => exact absurd hq (hc hd)
  | half e => exact h.elim
  | fwd t => exact h.elim

/-- Reducing the disjunctions of an index. -/
theorem redLev2_spec {k : Nat} (hk : k < o.numVars) {b : BF QP} {G c} (qi : QI Q o b G) (ci : CI Γ o b G c)
    (hat : At o k (ready D2) b) (hge : Ge o (k+1) don b) :
    ∃ b' c' G', redLev 2 k b c = some (b', c') ∧ Run Γ Q o b G b' c' G' ∧ Ge o k don b' ∧ Low o k b b' := by
  obtain ⟨b', e1, r1, g1, l1, a1, n1⟩ := redLev_spec (q := 2) hk qi ci (by
    intro a r hr hl hd
    rcases hat a r hr hl with h | h
    · exact Or.inl h
    · exact Or.inr (h.1.done qi hr (by rw [hd]; intro h; cases h))) hge
  refine ⟨b', c, G, e1, r1, Ge.cons ?_ g1, l1⟩
  intro a r hr hl
  by_cases hd : r.dep = 2
  · exact a1 a r hr hl hd
  · rcases hat a r ((n1 a r hl hd).1 hr) hl with h | h
    · exact h
    · exact absurd h.2 hd

end QB
end Cal
