import Verif.QuantBFApp

/-!
# Reducing quantified requests, and the whole operation
-/

namespace Cal
namespace QB

open BF Eng

variable {Γ : Nat → BFn → BFn} {o : Order} {Q : Cfg}

/-- the request at `a` is applied, has index `k` and its variable is quantified -/
def IsQ (o : Order) (k : Nat) (b : BF QP) (a : Nat) : Prop :=
  ∃ i d j fy gy t, b.req a = some ⟨i, d, .pend (.quant j fy gy t)⟩ ∧ o.lvl i = k

theorem IsQ.keep {k} {b b' : BF QP} {a} (h : IsQ o k b a) (hk : ∀ r, b.req a = some r → o.lvl r.id = k → b'.req a = some r) :
    IsQ o k b' a := by
  obtain ⟨i, d, j, fy, gy, t, h1, h2⟩ := h
  exact ⟨i, d, j, fy, gy, t, hk _ h1 h2, h2⟩

theorem IsQ.used {k} {b : BF QP} {a} (h : IsQ o k b a) : b.Used a := by
  obtain ⟨i, d, j, fy, gy, t, h1, h2⟩ := h; exact used_req h1

/-- A request all of whose sub-results are asked for. -/
def ItemOk (o : Order) (k : Nat) (b : BF QP) (G : Nat → BFn) (x : Item) : Prop :=
  IsQ o k b x.1 ∧ ∃ T E, Rep b.st x.2.1 T ∧ k < o.lvl x.2.1.id ∧ b.Val G x.2.2 E ∧ k < o.lvl x.2.2.id ∧
    G x.1 = fun ρ => T ρ || E ρ

theorem ItemOk.mono {k} {b b' : BF QP} {G G'} {x} (h : ItemOk o k b G x) (s : Stp All b G b' G')
    (hk : ∀ r, b.req x.1 = some r → o.lvl r.id = k → b'.req x.1 = some r) : ItemOk o k b' G' x := by
  obtain ⟨h1, T, E, h2, h3, h4, h5, h6⟩ := h
  exact ⟨h1.keep hk, T, E, h2.mono s.st, h3, h4.mono s, h5, by rw [s.ghost _ h1.used]; exact h6⟩

/-- The first loop of the reduction at index `k`, with the requests `L` left. -/
structure FI (Γ : Nat → BFn → BFn) (Q : Cfg) (o : Order) (k : Nat) (b0 : BF QP) (G0 : Nat → BFn) (L : List Nat)
    (l : List Item) (lo : Nat) (b : BF QP) (c : Cache) (G : Nat → BFn) : Prop where
  run : Run Γ Q o b0 G0 b c G
  todo : ∀ a ∈ L, IsQ o k b a
  items : ∀ x ∈ l, ItemOk o k b G x
  at_ : ∀ a r, b.req a = some r → o.lvl r.id = k → isF r.cell ∨ a ∈ L ∨ a ∈ l.map (·.1)
  ge : Ge o (k+1) (fun r => isF r.cell ∨ (fresh r.cell ∧ D01 r.dep ∧ lo ≤ o.lvl r.id)) b
  klo : k < lo
  lon : lo ≤ o.numVars
  emp : l = [] → lo = o.numVars
  nodup : (L ++ l.map (·.1)).Nodup
  low : Low o k b0 b

theorem addRef_one {s : Store} (h : s.ref 0 = maxRef) (n : Int) : s.addRef one n = s := by
  have : one.addr = 0 := rfl
  simp [Store.addRef, this, h]

/-- Forwarding a quantified request. -/
theorem resolve_spec {k} {b : BF QP} {G c} (qi : QI Q o b G) (ci : CI Γ o b G c) {a i d p}
    (hr : b.req a = some ⟨i, d, .pend p⟩) (hl : o.lvl i = k) {t : Edge} (ht : Rep b.st t (G a))
    (hk : k ≤ o.lvl t.id) :
    Run Γ Q o b G { b with
      st := b.st.addRef t (b.st.ref a)
      req := upd b.req a (some ⟨i, d, .fwd t⟩) } c G := by
  obtain ⟨ref, href⟩ := Store.addRef_eq b.st t (b.st.ref a)
  have ei' : EI (qS Q) All { b with
      st := b.st.addRef t (b.st.ref a)
      req := upd b.req a (some ⟨i, d, .fwd t⟩) } G := by
    rw [href]; exact qi.ei.set_fwd hr ht (fun _ => by rw [qi.ord, hl]; exact hk) ref
  have s : Stp All b G { b with
      st := b.st.addRef t (b.st.ref a)
      req := upd b.req a (some ⟨i, d, .fwd t⟩) } G := by
    refine stp_of hr trivial ?_ (fun x hx => upd_ne _ _ hx) (Or.inr ⟨_, upd_same _ _ _⟩) ?_ ?_
    · show b.st.Le (b.st.addRef t (b.st.ref a))
      rw [href]; exact ⟨rfl, fun _ _ h => h⟩
    · exact fun ext h1 h2 => RefOK.resolve qi.ei.sh h1 h2 hr ht.eok
    · intro h
      show (b.st.addRef t (b.st.ref a)).NumOK
      rw [href]; exact h.congr rfl rfl rfl
  refine ⟨qi.of ei' s ?_, s, ci.stp s⟩
  intro x r hx
  replace hx : upd b.req a (some ⟨i, d, .fwd t⟩) x = some r := hx
  by_cases hxa : x = a
  · subst hxa; rw [upd_same] at hx; cases hx; exact Or.inr trivial
  · rw [upd_ne _ _ hxa] at hx; exact Or.inl hx

/-- Forwarding a quantified request to the constant 1, whose count is not changed. -/
theorem resolve_one {k} {b : BF QP} {G c} (qi : QI Q o b G) (ci : CI Γ o b G c) {a i d p}
    (hr : b.req a = some ⟨i, d, .pend p⟩) (hl : o.lvl i = k) (hG : G a = fun _ => true) (hk : k ≤ constIndex) :
    Run Γ Q o b G { b with req := upd b.req a (some ⟨i, d, .fwd one⟩) } c G := by
  have ht : Rep b.st one (G a) := by rw [hG]; exact .one
  have ei' : EI (qS Q) All { b with req := upd b.req a (some ⟨i, d, .fwd one⟩) } G :=
    qi.ei.set hr (.fwd ht fun _ => by rw [qi.ord, hl]; simpa [one, Order.lvl] using hk)
  have s : Stp All b G { b with req := upd b.req a (some ⟨i, d, .fwd one⟩) } G := by
    refine stp_of hr trivial (Store.Le.refl _) (fun x hx => upd_ne _ _ hx) (Or.inr ⟨_, upd_same _ _ _⟩) ?_
      (fun h => h)
    intro ext h1 h2
    have := RefOK.resolve qi.ei.sh h1 h2 hr ht.eok
    rw [addRef_one h1.const] at this
    exact this
  refine ⟨qi.of ei' s ?_, s, ci.stp s⟩
  intro x r hx
  replace hx : upd b.req a (some ⟨i, d, .fwd one⟩) x = some r := hx
  by_cases hxa : x = a
  · subst hxa; rw [upd_same] at hx; cases hx; exact Or.inr trivial
  · rw [upd_ne _ _ hxa] at hx; exact Or.inl hx

theorem firstL_spec (H : Hyp Q Γ o) {k} {b0 : BF QP} {G0} : ∀ (L : List Nat) (l : List Item) (lo : Nat)
    (b : BF QP) c G, FI Γ Q o k b0 G0 L l lo b c G → Ge o (k+1) (fun r => isF r.cell ∨ fresh r.cell) b →
    (∀ a ∈ L, ∀ r, b.req a = some r → ∀ i fy gy t, r.cell = .pend (.quant i fy gy t) →
      ∃ T, Rep b.st (b.forward t) T ∧ k < o.lvl (b.forward t).id ∧ b.Used t.addr ∧
        ∃ X Y, Rep b.st fy X ∧ Rep b.st gy Y ∧ k < o.lvl fy.id ∧ k < o.lvl gy.id ∧
          (Q.rel = false → Y = fun _ => true) ∧
          G a = fun ρ => T ρ || exFn Q.A.dom (fun ρ => X ρ && Y ρ) ρ) →
    ∃ b' c' G' l' lo', firstL Q L b c l lo = some (b', c', l', lo') ∧ FI Γ Q o k b0 G0 [] l' lo' b' c' G' := by
  intro L
  induction L with
  | nil => intro l lo b c G fi _ _; exact ⟨b, c, G, l, lo, rfl, fi⟩
  | cons a L ih =>
    intro l lo b c G fi hop hq
    have qi := fi.run.qi
    have w := qi.wf
    have hb := w.ord.bound
    rw [qi.ord] at hb
    obtain ⟨i, d, j, fy, gy, t0, hr, hl⟩ := fi.todo a (by simp)
    obtain ⟨T, rT, lT, uT, X, Y, rX, rY, lX, lY, hY, hG⟩ := hq a (by simp) _ hr _ _ _ _ rfl
    have hlt := qi.lvl_lt hr
    simp only at hlt
    rw [hl] at hlt
    have hnd := fi.nodup
    simp only [List.cons_append, List.nodup_cons, List.mem_append, not_or] at hnd
    by_cases h1 : (b.forward t0).isOne = true
    · have ht : b.forward t0 = one := by
        have ha : (b.forward t0).addr = 0 ∧ (b.forward t0).neg = false := by
          simpa [Edge.isOne] using h1
        exact Edge.ext' ((rT.eok.addr_zero w).1 ha.1) ha.1 ha.2
      have hT : T = fun _ => true := (ht ▸ rT).unique w .one
      have ru := resolve_one qi fi.run.ci hr hl (by rw [hG, hT]; funext ρ; rfl) (by omega)
      have hne : ∀ x, x ≠ a → ({ b with req := upd b.req a (some ⟨i, d, .fwd one⟩) } : BF QP).req x = b.req x :=
        fun x hx => upd_ne _ _ hx
      have hsame : ({ b with req := upd b.req a (some ⟨i, d, .fwd one⟩) } : BF QP).req a = some ⟨i, d, .fwd one⟩ :=
        upd_same _ _ _
      have hst : ({ b with req := upd b.req a (some ⟨i, d, .fwd one⟩) } : BF QP).st = b.st := rfl
      refine Exists.elim (ih l lo
        { b with req := upd b.req a (some ⟨i, d, .fwd one⟩) } c G ?_ ?_ ?_) ?_
      rotate_left 3
      · rintro b' ⟨c', G', l', lo', e1, f1⟩
        exact ⟨b', c', G', l', lo', by simp only [firstL, hr, if_pos h1]; rw [ht]; exact e1, f1⟩
      · generalize hb1 : ({ b with req := upd b.req a (some ⟨i, d, .fwd one⟩) } : BF QP) = b1 at *
        refine ⟨fi.run.trans ru, ?_, ?_, ?_, ?_, fi.klo, fi.lon, fi.emp, hnd.2, ?_⟩
        · intro x hx
          exact (fi.todo x (by simp [hx])).keep fun r h _ => by rw [hne x (by rintro rfl; exact hnd.1.1 hx)]; exact h
        · intro x hx
          refine (fi.items x hx).mono ru.stp fun r h _ => ?_
          rw [hne x.1 (by rintro rfl; exact hnd.1.2 (List.mem_map_of_mem hx))]; exact h
        · intro x r hx hlx
          by_cases hxa : x = a
          · subst hxa; rw [hsame] at hx; cases hx; exact Or.inl trivial
          · rw [hne x hxa] at hx
            rcases fi.at_ x r hx hlx with h | h | h
            · exact Or.inl h
            · simp only [List.mem_cons, hxa, false_or] at h; exact Or.inr (Or.inl h)
            · exact Or.inr (Or.inr h)
        · intro x r hx hlx
          by_cases hxa : x = a
          · subst hxa; rw [hsame] at hx; cases hx; exact Or.inl trivial
          · rw [hne x hxa] at hx; exact fi.ge x r hx hlx
        · intro x r hlx
          by_cases hxa : x = a
          · subst hxa; rw [hsame]
            have := fi.low x r hlx
            constructor
            · intro h; cases h; simp only at hlx; omega
            · intro h; have := this.2 h; rw [hr] at this; cases this; simp only at hlx; omega
          · rw [hne x hxa]; exact fi.low x r hlx
      · intro x r hx hlx
        by_cases hxa : x = a
        · subst hxa; rw [hsame] at hx; cases hx; exact Or.inl trivial
        · rw [hne x hxa] at hx; exact hop x r hx hlx
      · intro x hx r hrx i' fy' gy' t' hc
        have hxa : x ≠ a := by rintro rfl; exact hnd.1.1 hx
        rw [hne x hxa] at hrx
        obtain ⟨T', y1, y2, y3, y4⟩ := hq x (by simp [hx]) r hrx i' fy' gy' t' hc
        have hta : t'.addr ≠ a := by
          -- the sub-result is at a larger index
          intro hta
          rcases forward_eq_or (b := b) t' with ⟨h, _⟩ | ⟨j, d, t, h, _⟩
          · rw [h] at y1
            exact EOK_ne_req qi.ei.sh hr y1.eok hta
          · rw [hta, hr] at h; cases h
        have hfw : ({ b with req := upd b.req a (some ⟨i, d, .fwd one⟩) } : BF QP).forward t' = b.forward t' := by
          simp only [forward, upd_ne _ _ hta]
        refine ⟨T', ?_, ?_, ?_, y4⟩
        · rw [hfw]; exact y1
        · rw [hfw]; exact y2
        · rcases y3 with h | h | h
          · exact Or.inl h
          · exact Or.inr (Or.inl h)
          · exact Or.inr (Or.inr (by rw [hne _ hta]; exact h))
    · have opn : OpenQ o (k+1) b := fun x r hx hlx => (hop x r hx hlx).symm
      obtain ⟨b1, c1, e, lo1, G1, e1, g1⟩ := get_spec H qi fi.run.ci opn (by omega) rX rY hY (by omega) (by omega)
      have s1 := g1.gr.toGrow.stp g1.ref
      have ru : Run Γ Q o b G b1 c1 G1 := ⟨g1.qi, s1, g1.ci⟩
      have hG1 := s1.ghost
      have hklo := fi.klo
      have hlon := fi.lon
      have g1k := g1.klo
      refine Exists.elim (ih ((a, b.forward t0, e) :: l) (min lo lo1) b1 c1 G1 ?_ ?_ ?_) ?_
      rotate_left 3
      · rintro b' ⟨c', G', l', lo', e2, f2⟩
        exact ⟨b', c', G', l', lo', by simp only [firstL, hr, if_neg h1, e1]; exact e2, f2⟩
      · refine ⟨fi.run.trans ru, ?_, ?_, ?_, ?_, by omega, by omega, by simp, ?_, ?_⟩
        · intro x hx
          exact (fi.todo x (by simp [hx])).keep fun r h _ => g1.gr.old x r h
        · intro x hx
          rcases List.mem_cons.1 hx with rfl | hx
          · refine ⟨(fi.todo a (by simp)).keep fun r h _ => g1.gr.old a r h, T, _, rT.mono s1.st, lT, g1.val, ?_, ?_⟩
            · have := g1.lvl; simp only; omega
            · show G1 a = _
              rw [hG1 a (used_req hr), hG]
          · exact (fi.items x hx).mono s1 fun r h _ => g1.gr.old _ _ h
        · intro x r hx hlx
          rcases g1.gr.fr x r hx with h | ⟨_, _, h⟩
          · rcases fi.at_ x r h hlx with h | h | h
            · exact Or.inl h
            · rcases List.mem_cons.1 h with rfl | h
              · exact Or.inr (Or.inr (by simp))
              · exact Or.inr (Or.inl h)
            · exact Or.inr (Or.inr (by simp only [List.map_cons, List.mem_cons]; exact Or.inr h))
          · omega
        · refine Ge.gr (fi.ge.imp fun r h => h.imp id fun ⟨x, y, z⟩ => ⟨x, y, by omega⟩) g1.gr ?_
          intro r x y z
          exact Or.inr ⟨x, y, by omega⟩
        · have := fi.nodup
          simp only [List.map_cons]
          exact (List.perm_middle).nodup_iff.2 this
        · exact fi.low.trans (Low.gr g1.gr (k := k) (by omega)) (Nat.le_refl _)
      · exact Ge.gr hop g1.gr fun r x _ _ => Or.inr x
      · intro x hx r hrx i' fy' gy' t' hc
        have hux : ∃ r', b.req x = some r' := by
          obtain ⟨i, d, j, fy, gy, t, h, _⟩ := fi.todo x (by simp [hx]); exact ⟨_, h⟩
        obtain ⟨r', hr'⟩ := hux
        have := g1.gr.old _ _ hr'
        rw [hrx] at this; cases this
        obtain ⟨T', y1, y2, y3, X', Y', z1, z2, z3, z4, z5, z6⟩ := hq x (by simp [hx]) r hr' i' fy' gy' t' hc
        have hfw : b1.forward t' = b.forward t' := by
          have : b1.req t'.addr = b.req t'.addr := by
            cases hh : b.req t'.addr with
            | some q => exact g1.gr.old _ _ hh
            | none =>
              cases hh' : b1.req t'.addr with
              | none => rfl
              | some q =>
                rcases g1.gr.new _ _ hh' with h | ⟨h, _⟩
                · rw [hh] at h; cases h
                · exact absurd y3 h
          simp only [forward, this]
        refine ⟨T', ?_, ?_, g1.gr.used y3, X', Y', z1.mono s1.st, z2.mono s1.st, z3, z4, z5, ?_⟩
        · rw [hfw]; exact y1.mono s1.st
        · rw [hfw]; exact y2
        · rw [hG1 x (used_req hr')]; exact z6

/-! ## Disjunctions -/

theorem forward_gr {A k} {b b' : BF QP} {G G'} (g : Grow A k b b' G G') {e : Edge} (hu : b.Used e.addr) :
    b'.forward e = b.forward e := by
  have : b'.req e.addr = b.req e.addr := by
    cases hh : b.req e.addr with
    | some q => exact g.old _ _ hh
    | none =>
      cases hh' : b'.req e.addr with
      | none => rfl
      | some q =>
        rcases g.new _ _ hh' with h | ⟨h, _⟩
        · rw [hh] at h; cases h
        · exact absurd hu h
  simp only [forward, this]

theorem orGet_spec (H : Hyp Q Γ o) {b : BF QP} {G c} (qi : QI Q o b G) (ci : CI Γ o b G c)
    {k} (opn : OpenQ o k b) (hk : k ≤ o.numVars) {t e : Edge} {X Y} (rt : Rep b.st t X) (re : Rep b.st e Y)
    (kt : k ≤ o.lvl t.id) (ke : k ≤ o.lvl e.id) :
    ∃ b' c' r lo G', orGet Q t e b c = some ⟨b', c', r, lo⟩ ∧
      GetR Γ Q o D2 k b G (fun ρ => X ρ || Y ρ) b' c' r lo G' := by
  have w := qi.wf
  have core : ∀ (f g : Edge) (X' Y' : BFn), Rep b.st f X' → Rep b.st g Y' → k ≤ o.lvl f.id → k ≤ o.lvl g.id →
      ∃ b' c' r lo G', (match opOr f g with
        | some r => some (⟨b, c, r, b.st.ord.numVars⟩ : Got)
        | none => nandLook 2 (normalize (f, g)).1.not (normalize (f, g)).2.not b c) = some ⟨b', c', r, lo⟩ ∧
      GetR Γ Q o D2 k b G (fun ρ => X' ρ || Y' ρ) b' c' r lo G' := by
    intro f g X' Y' rf rg kf kg
    cases hop : opOr f g with
    | some r =>
      obtain ⟨rr, cl⟩ := term_rep w opOr_law rf rg hop
      refine ⟨b, c, r, o.numVars, G, by simp only [qi.ord], .node qi ci hk rr ?_⟩
      have := Cl.lvl w cl (k := k) (by rw [qi.ord]; exact hk) (by rw [qi.ord]; exact kf) (by rw [qi.ord]; exact kg)
      rw [qi.ord] at this; exact this
    | none =>
      obtain ⟨n1, n2⟩ := opOr_law.miss _ _ hop
      obtain ⟨U, V, r1, r2, hh⟩ := norm_pair rf rg
      simp only
      have hUV : (fun ρ => X' ρ || Y' ρ) = fun ρ => !(!U ρ && !V ρ) := by
        funext ρ
        rcases hh with ⟨-, -, rfl, rfl⟩ | ⟨-, -, rfl, rfl⟩
        · cases U ρ <;> cases V ρ <;> rfl
        · cases U ρ <;> cases V ρ <;> rfl
      have k1 : k ≤ o.lvl (normalize (f, g)).1.id ∧ k ≤ o.lvl (normalize (f, g)).2.id ∧ (normalize (f, g)).1.id ≠ 0 := by
        rcases hh with ⟨h1, h2, -⟩ | ⟨h1, h2, -⟩ <;> rw [h1, h2] <;>
          exact ⟨by assumption, by assumption, by assumption⟩
      rw [hUV]
      exact nandLook_spec H (q := 2) (by decide) qi ci opn hk r1.not r2.not k1.2.2 k1.1 k1.2.1
  unfold orGet
  cases hrel : Q.rel with
  | false =>
    simp only [Bool.false_eq_true, if_false]
    exact core t e X Y rt re kt ke
  | true =>
    simp only [if_true]
    obtain ⟨U, V, r1, r2, hh⟩ := norm_pair rt re
    have hUV : (fun ρ => X ρ || Y ρ) = fun ρ => U ρ || V ρ := by
      funext ρ
      rcases hh with ⟨-, -, rfl, rfl⟩ | ⟨-, -, rfl, rfl⟩
      · rfl
      · exact Bool.or_comm _ _
    have k1 : k ≤ o.lvl (normalize (t, e)).1.id ∧ k ≤ o.lvl (normalize (t, e)).2.id := by
      rcases hh with ⟨h1, h2, -⟩ | ⟨h1, h2, -⟩ <;> rw [h1, h2] <;> exact ⟨by assumption, by assumption⟩
    rw [hUV]
    exact core _ _ U V r1 r2 k1.1 k1.2

/-- A request both of whose sub-results are known. -/
def OrItem (o : Order) (k : Nat) (b : BF QP) (G : Nat → BFn) (x : Item) : Prop :=
  IsQ o k b x.1 ∧ ∃ T E, Rep b.st x.2.1 T ∧ k < o.lvl x.2.1.id ∧ Rep b.st (b.forward x.2.2) E ∧
    k < o.lvl (b.forward x.2.2).id ∧ b.Used x.2.2.addr ∧ G x.1 = fun ρ => T ρ || E ρ

/-- A request whose result is asked for. -/
def FinItem (o : Order) (k : Nat) (b : BF QP) (G : Nat → BFn) (x : Nat × Edge) : Prop :=
  IsQ o k b x.1 ∧ b.Val G x.2 (G x.1) ∧ k < o.lvl x.2.id

theorem OrItem.gr {k j} {b b' : BF QP} {G G'} {x} (h : OrItem o k b G x) (g : Grow All j b b' G G') :
    OrItem o k b' G' x := by
  obtain ⟨h1, T, E, h2, h3, h4, h5, h6, h7⟩ := h
  refine ⟨h1.keep fun r h _ => g.old _ _ h, T, E, h2.mono g.le, h3, ?_, ?_, g.used h6, ?_⟩
  · rw [forward_gr g h6]; exact h4.mono g.le
  · rw [forward_gr g h6]; exact h5
  · rw [g.ghost _ h1.used]; exact h7

theorem FinItem.mono {k} {b b' : BF QP} {G G'} {x} (h : FinItem o k b G x) (s : Stp All b G b' G')
    (hk : ∀ r, b.req x.1 = some r → o.lvl r.id = k → b'.req x.1 = some r) : FinItem o k b' G' x := by
  obtain ⟨h1, h2, h3⟩ := h
  refine ⟨h1.keep hk, ?_, h3⟩
  rw [s.ghost _ h1.used]; exact h2.mono s

theorem Run.of_gr {D lo k} {b b' : BF QP} {G G' c'} (qi : QI Q o b' G') (g : Gr D o k lo b b' G G')
    (hr : ∀ ext, b.RefOK ext → b'.RefOK ext) (ci : CI Γ o b' G' c') : Run Γ Q o b G b' c' G' :=
  ⟨qi, g.toGrow.stp hr, ci⟩

theorem orL_spec (H : Hyp Q Γ o) {k} (hk : k < o.numVars) : ∀ (l : List Item) (b : BF QP) c G,
    QI Q o b G → CI Γ o b G c → OpenQ o (k+1) b → (∀ x ∈ l, OrItem o k b G x) →
    ∃ b' c' G' l' lo, orL Q l b c = some (b', c', l', lo) ∧ QI Q o b' G' ∧ CI Γ o b' G' c' ∧
      Gr D2 o (k+1) lo b b' G G' ∧ (∀ ext, b.RefOK ext → b'.RefOK ext) ∧ k < lo ∧ lo ≤ o.numVars ∧
      l'.map (·.1) = l.map (·.1) ∧ ∀ x ∈ l', FinItem o k b' G' x := by
  intro l
  induction l with
  | nil =>
    intro b c G qi ci _ _
    exact ⟨b, c, G, [], o.numVars, by simp only [orL, qi.ord], qi, ci, Gr.refl _ _, fun _ h => h, hk,
      Nat.le_refl _, rfl, by simp⟩
  | cons x l ih =>
    intro b c G qi ci op hl
    obtain ⟨a, t, e⟩ := x
    obtain ⟨h1, T, E, h2, h3, h4, h5, h6, h7⟩ := hl _ (List.mem_cons_self ..)
    simp only at h1 h2 h3 h4 h5 h6 h7
    obtain ⟨b1, c1, r, lo1, G1, e1, g1⟩ := orGet_spec H qi ci op (by omega) h2 h4 (by omega) (by omega)
    obtain ⟨b2, c2, G2, l', lo2, e2, q2, ci2, g2, r2, k2, n2, m2, f2⟩ := ih b1 c1 G1 g1.qi g1.ci (op.gr g1.gr)
      (fun x hx => (hl x (List.mem_cons_of_mem _ hx)).gr g1.gr.toGrow)
    have gk := g1.klo
    have gn := g1.lon
    have s2 := g2.toGrow.stp r2
    have gg := (g1.gr.weaken (lo' := min lo1 lo2) (fun _ h => h) (by omega)).trans
      (g2.weaken (lo' := min lo1 lo2) (fun _ h => h) (by omega))
    refine ⟨b2, c2, G2, (a, r) :: l', min lo1 lo2, by simp only [orL, e1, e2], q2, ci2, gg,
      fun ext h => r2 _ (g1.ref _ h), by omega, by omega, by simp [m2], ?_⟩
    intro x hx
    rcases List.mem_cons.1 hx with rfl | hx
    · refine ⟨h1.keep fun r h _ => gg.old _ _ h, ?_, ?_⟩
      · show b2.Val G2 r (G2 a)
        rw [gg.ghost a h1.used, h7]; exact g1.val.mono s2
      · have := g1.lvl; simp only; omega
    · exact f2 x hx

theorem finish_spec {k} : ∀ (l : List (Nat × Edge)) (b : BF QP) c G, QI Q o b G → CI Γ o b G c →
    Ge o (k+1) don b → (l.map (·.1)).Nodup → (∀ x ∈ l, FinItem o k b G x) →
    ∃ b', finish l b = some b' ∧ Run Γ Q o b G b' c G ∧
      (∀ x, x ∉ l.map (·.1) → b'.req x = b.req x) ∧
      (∀ x ∈ l.map (·.1), ∃ r, b'.req x = some r ∧ isF r.cell ∧ o.lvl r.id = k) := by
  intro l
  induction l with
  | nil => intro b c G qi ci _ _ _; exact ⟨b, rfl, .refl qi ci, fun _ _ => rfl, by simp⟩
  | cons x l ih =>
    intro b c G qi ci hge hnd hl
    obtain ⟨a, r⟩ := x
    obtain ⟨⟨i, d, j, fy, gy, t, hr, hlv⟩, hv, hk⟩ := hl _ (List.mem_cons_self ..)
    simp only at hr hv hk
    simp only [List.map_cons, List.nodup_cons] at hnd
    obtain ⟨rr, lr⟩ := fwd_val qi.ei hv (Val.eva hv) (fun r' hr' _ hid =>
      (hge _ r' hr' (by rw [hid]; omega)).get)
    rw [qi.ord] at lr
    have ru := resolve_spec qi ci hr hlv rr (by omega)
    generalize hb1 : ({ b with
      st := b.st.addRef (b.forward r) (b.st.ref a)
      req := upd b.req a (some ⟨i, d, .fwd (b.forward r)⟩) } : BF QP) = b1 at ru
    have hne : ∀ x, x ≠ a → b1.req x = b.req x := fun x hx => by rw [← hb1]; exact upd_ne _ _ hx
    have hsame : b1.req a = some ⟨i, d, .fwd (b.forward r)⟩ := by rw [← hb1]; exact upd_same _ _ _
    obtain ⟨b2, e2, r2, n2, f2⟩ := ih b1 c G ru.qi ru.ci (by
      intro x q hx hlx
      by_cases hxa : x = a
      · subst hxa; rw [hsame] at hx; cases hx; exact trivial
      · rw [hne x hxa] at hx; exact hge x q hx hlx) hnd.2 (by
      intro x hx
      refine (hl x (List.mem_cons_of_mem _ hx)).mono ru.stp fun q hq _ => ?_
      rw [hne x.1 (by rintro rfl; exact hnd.1 (List.mem_map_of_mem hx))]; exact hq)
    refine ⟨b2, by simp only [finish, hr]; rw [hb1]; exact e2, ru.trans r2, ?_, ?_⟩
    · intro x hx
      simp only [List.map_cons, List.mem_cons, not_or] at hx
      rw [n2 x hx.2, hne x hx.1]
    · intro x hx
      rcases List.mem_cons.1 hx with h | hx
      · have h : x = a := h
        subst h
        exact ⟨⟨i, d, .fwd (b.forward r)⟩, by rw [n2 x hnd.1]; exact hsame, trivial, hlv⟩
      · exact f2 x hx

/-! ## The recursion -/

/-- What running the requests from index `lo` does. -/
def AuxOk (Γ : Nat → BFn → BFn) (Q : Cfg) (o : Order) (lo : Nat)
    (f : Nat → BF QP → Cache → Option (BF QP × Cache)) : Prop :=
  ∀ (b : BF QP) G c, QI Q o b G → CI Γ o b G c → Ge o lo (opn D01) b →
    ∃ b' c' G', f lo b c = some (b', c') ∧ Run Γ Q o b G b' c' G' ∧ Ge o lo don b' ∧ Low o lo b b'

theorem quantReduce_spec (H : Hyp Q Γ o) {f} {k} (hk : k < o.numVars)
    (hf : ∀ lo, k < lo → lo ≤ o.numVars → AuxOk Γ Q o lo f) {b : BF QP} {G c} (qi : QI Q o b G)
    (ci : CI Γ o b G c) (hdom : Q.A.dom (o.indexToId k))
    (hat : At o k (fun r => isF r.cell ∨ (appl r.cell ∧ r.dep = 0)) b) (hge : Ge o (k+1) don b) :
    ∃ b' c' G', quantReduce Q f k b c = some (b', c') ∧ Run Γ Q o b G b' c' G' ∧ Ge o k don b' ∧ Low o k b b' := by
  have hid : ∀ a r, b.req a = some r → o.lvl r.id = k → r.id = o.indexToId k := by
    intro a r hr hl
    have := qi.ei.sh.id_of_lvl hr
    rw [qi.ord, hl] at this; exact this.symm
  have hisq : ∀ a ∈ bins b 0 (o.indexToId k), IsQ o k b a := by
    intro a ha
    obtain ⟨⟨i, d, cell⟩, h1, h2, h3, h4⟩ := (mem_bins qi hk).1 ha
    rcases hat a _ h1 h3 with h | ⟨h, h'⟩
    · exact absurd h h4
    · obtain ⟨j, fy, gy, t, hc⟩ := h.quant qi h1 h' (by rw [hid a _ h1 h3]; exact hdom)
      simp only at hc; subst hc
      exact ⟨_, _, _, _, _, _, h1, h3⟩
  have fi : FI Γ Q o k b G (bins b 0 (o.indexToId k)) [] o.numVars b c G := by
    refine ⟨.refl qi ci, hisq, by simp, ?_, hge.imp fun r h => Or.inl h, hk, Nat.le_refl _, fun _ => rfl,
      by simpa using nodup_bins qi _ _, .refl _⟩
    intro a r hr hl
    by_cases hF : isF r.cell
    · exact Or.inl hF
    · rcases hat a r hr hl with h | ⟨_, h⟩
      · exact Or.inl h
      · exact Or.inr (Or.inl ((mem_bins qi hk).2 ⟨r, hr, h, hl, hF⟩))
  obtain ⟨b1, c1, G1, l, lo, e1, f1⟩ := firstL_spec H _ _ _ _ _ _ fi (hge.imp fun r h => Or.inl h) (by
    intro a ha r hr i fy gy t hc
    obtain ⟨i', d', j', fy', gy', t', h1, h2⟩ := hisq a ha
    rw [hr] at h1; cases h1
    simp only at hc; cases hc
    obtain ⟨-, T, X, Y, v, lt, rX, rY, lX, lY, hY, hG⟩ := qi.cell _ _ hr
    simp only at lt lX lY
    obtain ⟨rr, lr⟩ := fwd_val qi.ei v (Val.eva v) (fun r' hr' _ hid => (hge _ r' hr' (by rw [hid]; omega)).get)
    rw [qi.ord] at lr
    refine ⟨T, rr, by omega, ?_, X, Y, rX, rY, by omega, by omega, hY, hG⟩
    rcases v with v | ⟨r, h, _⟩
    · rcases v.eok with ⟨_, h⟩ | ⟨n, h, _⟩
      · exact Or.inl h
      · exact Or.inr (Or.inl (by rw [h]; simp))
    · exact used_req h)
  have hk1 := f1.klo
  have hn1 := f1.lon
  by_cases hl : l = []
  · refine ⟨b1, c1, G1, ?_, f1.run, ?_, f1.low⟩
    · simp only [quantReduce, qi.ord, e1, if_pos hl]
    · refine Ge.cons ?_ ?_
      · intro a r hr hlr
        rcases f1.at_ a r hr hlr with h | h | h
        · exact h
        · cases h
        · rw [hl] at h; cases h
      · intro a r hr hlr
        rcases f1.ge a r hr hlr with h | ⟨_, _, h⟩
        · exact h
        · have := f1.run.qi.lvl_lt hr
          rw [f1.emp hl] at h; omega
  · have g1 : Ge o lo (opn D01) b1 := by
      intro a r hr hlr
      exact (f1.ge a r hr (by omega)).imp id fun h => ⟨h.1, h.2.1⟩
    obtain ⟨b2, c2, G2, e2, r2, g2, l2⟩ := hf lo hk1 hn1 b1 G1 c1 f1.run.qi f1.run.ci g1
    have g2' : Ge o (k+1) don b2 := by
      intro a r hr hlr
      by_cases h : lo ≤ o.lvl r.id
      · exact g2 a r hr h
      · rcases f1.ge a r ((l2 a r (by omega)).1 hr) hlr with h' | ⟨_, _, h'⟩
        · exact h'
        · omega
    have it2 : ∀ x ∈ l, OrItem o k b2 G2 x := by
      intro x hx
      obtain ⟨h1, T, E, h2, h3, h4, h5, h6⟩ := (f1.items x hx).mono r2.stp
        (fun r hr hlr => (l2 _ r (by omega)).2 hr)
      obtain ⟨rr, lr⟩ := fwd_val r2.qi.ei h4 (Val.eva h4) (fun r' hr' _ hid =>
        (g2' _ r' hr' (by rw [hid]; omega)).get)
      rw [r2.qi.ord] at lr
      refine ⟨h1, T, E, h2, h3, rr, by omega, ?_, h6⟩
      rcases h4 with v | ⟨r, h, _⟩
      · rcases v.eok with ⟨_, h⟩ | ⟨n, h, _⟩
        · exact Or.inl h
        · exact Or.inr (Or.inl (by rw [h]; simp))
      · exact used_req h
    obtain ⟨b3, c3, G3, l', lo', e3, q3, ci3, gr3, rf3, k3, n3, m3, f3⟩ := orL_spec H hk l b2 c2 G2 r2.qi r2.ci
      (fun a r hr hlr => Or.inr (g2' a r hr hlr)) it2
    have r3 : Run Γ Q o b2 G2 b3 c3 G3 := Run.of_gr q3 gr3 rf3 ci3
    have g3 : Ge o (k+1) (fun r => isF r.cell ∨ (fresh r.cell ∧ D2 r.dep ∧ lo' ≤ o.lvl r.id)) b3 :=
      Ge.gr (g2'.imp fun r h => Or.inl h) gr3 fun r x y z => Or.inr ⟨x, y, z⟩
    obtain ⟨b4, c4, G4, e4, r4, g4, l4⟩ := upRange_spec (D := D2) (lev := orLev)
      (fun k b G c hk qi ci hg => orLev_spec H hk qi ci hg) (o.numVars - lo') lo' b3 G3 c3 (by omega) q3 ci3 (by
        intro a r hr hlr
        exact (g3 a r hr (by omega)).imp id fun h => ⟨h.1, h.2.1⟩)
    obtain ⟨b5, c5, G5, e5, r5, g5, l5⟩ := downRange_spec (D := D2) (lev := redLev 2) (k := lo')
      (fun j b G c _ hj qi ci ha hg => redLev2_spec hj qi ci ha hg) (o.numVars - lo') b4 G4 c4 (by omega) r4.qi r4.ci
      (fun j hj1 hj2 a r hr hlr => g4 a r hr (by omega)) (by
        intro a r hr hlr
        have := r4.qi.lvl_lt hr; omega)
    have l35 : Low o lo' b3 b5 := l4.trans l5 (Nat.le_refl _)
    have g5' : Ge o (k+1) don b5 := by
      intro a r hr hlr
      by_cases h : lo' ≤ o.lvl r.id
      · exact g5 a r hr h
      · rcases g3 a r ((l35 a r (by omega)).1 hr) hlr with h' | ⟨_, _, h'⟩
        · exact h'
        · omega
    have nd : (l'.map (·.1)).Nodup := by rw [m3]; simpa using f1.nodup
    obtain ⟨b6, e6, r6, n6, d6⟩ := finish_spec (k := k) l' b5 c5 G5 r5.qi r5.ci g5' nd (fun x hx =>
      (f3 x hx).mono (r4.trans r5).stp fun r hr hlr => (l35 _ r (by omega)).2 hr)
    have run : Run Γ Q o b G b6 c5 G5 := ((((f1.run.trans r2).trans r3).trans r4).trans r5).trans r6
    have low5 : Low o k b b5 :=
      ((f1.low.trans l2 (by omega)).trans (Low.gr gr3 (k := k+1) (by omega)) (by omega)).trans l35 (by omega)
    refine ⟨b6, c5, G5, ?_, run, Ge.cons ?_ ?_, ?_⟩
    · simp only [quantReduce, qi.ord, e1, if_neg hl, e2, e3, e4, e5, e6, Option.map_some]
    · intro a r hr hlr
      by_cases ha : a ∈ l'.map (·.1)
      · obtain ⟨r', h1, h2, _⟩ := d6 a ha
        rw [hr] at h1; cases h1; exact h2
      · rw [n6 a ha] at hr
        have hr3 := (l35 a r (by omega)).1 hr
        rcases gr3.fr a r hr3 with h | ⟨_, _, h⟩
        · rcases f1.at_ a r ((l2 a r (by omega)).1 h) hlr with h | h | h
          · exact h
          · cases h
          · rw [m3] at ha; exact absurd h ha
        · omega
    · intro a r hr hlr
      by_cases ha : a ∈ l'.map (·.1)
      · obtain ⟨r', h1, h2, _⟩ := d6 a ha
        rw [hr] at h1; cases h1; exact h2
      · rw [n6 a ha] at hr; exact g5' a r hr hlr
    · intro a r hlr
      by_cases ha : a ∈ l'.map (·.1)
      · obtain ⟨r', h1, h2, h3⟩ := d6 a ha
        constructor
        · intro h; rw [h] at h1; cases h1; omega
        · intro h
          have h5 := (low5 a r hlr).2 h
          obtain ⟨x, hx, rfl⟩ := List.mem_map.1 ha
          obtain ⟨⟨i, d, j, fy, gy, t, h8, h9⟩, _⟩ := (f3 x hx).mono (r4.trans r5).stp
            fun r hr hlr => (l35 _ r (by omega)).2 hr
          rw [h5] at h8; cases h8; simp only at hlr; omega
      · rw [n6 a ha]; exact low5 a r hlr

theorem mainRed_spec (H : Hyp Q Γ o) {f} {k} (hk : k < o.numVars)
    (hf : ∀ lo, k < lo → lo ≤ o.numVars → AuxOk Γ Q o lo f) {b : BF QP} {G c} (qi : QI Q o b G)
    (ci : CI Γ o b G c) (hat : At o k (ready D01) b) (hge : Ge o (k+1) don b) :
    ∃ b' c' G', mainRed Q f k b c = some (b', c') ∧ Run Γ Q o b G b' c' G' ∧ Ge o k don b' ∧ Low o k b b' := by
  obtain ⟨b1, e1, r1, g1, l1, a1, n1⟩ := redLev_spec (q := 1) hk qi ci (by
    intro a r hr hl hd
    rcases hat a r hr hl with h | h
    · exact Or.inl h
    · exact Or.inr (h.1.done qi hr (by rw [hd]; intro h; cases h))) hge
  have hat1 : At o k (fun r => isF r.cell ∨ (appl r.cell ∧ r.dep = 0)) b1 := by
    intro a r hr hl
    by_cases hd : r.dep = 1
    · exact Or.inl (a1 a r hr hl hd)
    · rcases hat a r ((n1 a r hl hd).1 hr) hl with h | ⟨h, h'⟩
      · exact Or.inl h
      · rcases h' with h' | h'
        · exact Or.inr ⟨h, h'⟩
        · exact absurd h' hd
  by_cases hdom : (Q.A.var (o.indexToId k)).isSome = true
  · obtain ⟨b2, c2, G2, e2, r2, g2, l2⟩ := quantReduce_spec H hk hf r1.qi r1.ci hdom hat1 g1
    refine ⟨b2, c2, G2, ?_, r1.trans r2, g2, l1.trans l2 (Nat.le_refl _)⟩
    simp only [mainRed, e1, r1.qi.ord, if_pos hdom, e2]
  · obtain ⟨b2, e2, r2, g2, l2, a2, n2⟩ := redLev_spec (q := 0) hk r1.qi r1.ci (by
      intro a r hr hl hd
      rcases hat1 a r hr hl with h | h
      · exact Or.inl h
      · refine Or.inr (h.1.done r1.qi hr fun _ => ?_)
        have := r1.qi.ei.sh.id_of_lvl hr
        rw [r1.qi.ord, hl] at this
        rw [← this]; exact hdom) g1
    refine ⟨b2, c, G, ?_, r1.trans r2, Ge.cons ?_ g2, l1.trans l2 (Nat.le_refl _)⟩
    · simp only [mainRed, e1, r1.qi.ord, if_neg hdom, e2]
    · intro a r hr hl
      by_cases hd : r.dep = 0
      · exact a2 a r hr hl hd
      · rcases hat1 a r ((n2 a r hl hd).1 hr) hl with h | h
        · exact h
        · exact absurd h.2 hd

/-- Running the requests from index `lo`. -/
theorem aux_spec (H : Hyp Q Γ o) : ∀ n lo, lo ≤ o.numVars → o.numVars < n + lo → AuxOk Γ Q o lo (aux Q n) := by
  intro n
  induction n with
  | zero => intro lo h1 h2; omega
  | succ n ih =>
    intro lo h1 h2 b G c qi ci hge
    obtain ⟨b1, c1, G1, e1, r1, g1, l1⟩ := upRange_spec (D := D01) (lev := mainLev Q)
      (fun k b G c hk qi ci hg => mainLev_spec H hk qi ci hg) (o.numVars - lo) lo b G c (by omega) qi ci hge
    obtain ⟨b2, c2, G2, e2, r2, g2, l2⟩ := downRange_spec (D := D01) (lev := mainRed Q (aux Q n)) (k := lo)
      (fun j b G c hlo hj qi ci ha hg => mainRed_spec H hj (fun lo' h3 h4 => ih lo' h4 (by omega)) qi ci ha hg)
      (o.numVars - lo) b1 G1 c1 (by omega) r1.qi r1.ci
      (fun j hj1 hj2 a r hr hlr => g1 a r hr (by omega)) (by
        intro a r hr hlr
        have := r1.qi.lvl_lt hr; omega)
    refine ⟨b2, c2, G2, ?_, r1.trans r2, g2, l1.trans l2 (Nat.le_refl _)⟩
    simp only [aux, qi.ord, e1, e2]

end QB
end Cal
