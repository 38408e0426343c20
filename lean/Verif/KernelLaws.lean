import Verif.Kernels
import Verif.BFInv

/-! # The operations meet the laws the engine needs -/

namespace Cal

/-- What a binary terminal-case function must do for the boolean operation `f`. -/
structure BinLaw (op : Edge → Edge → Option Edge) (f : Bool → Bool → Bool) : Prop where
  comm : ∀ x y, f x y = f y x
  hit : ∀ δ a b e, δ 0 = (fun _ => true) → (a.id = 0 ↔ a.addr = 0) → (b.id = 0 ↔ b.addr = 0) →
    op a b = some e → (∀ ρ, f (den δ a ρ) (den δ b ρ) = den δ e ρ) ∧ Cl [a, b] e
  miss : ∀ a b, op a b = none → a.id ≠ 0 ∧ b.id ≠ 0

theorem den_const {δ : Nat → BFn} (h0 : δ 0 = (fun _ => true)) {e : Edge} (he : e.addr = 0) (ρ) :
    den δ e ρ = !e.neg := by
  simp [den, he, h0]

macro "bin_law" d:ident : tactic => `(tactic| (
  refine ⟨by decide, ?_, ?_⟩
  · intro δ a b e h0 ha hb h
    obtain ⟨ai, aa, an⟩ := a
    obtain ⟨bi, ba, bn⟩ := b
    simp only [$d:ident, Edge.isConst, Edge.isOne, beq_iff_eq] at h ha hb
    by_cases h1 : ai = 0
    · have h2 : aa = 0 := ha.1 h1
      subst h1; subst h2
      cases an <;> simp at h <;> subst h <;>
        exact ⟨fun ρ => by simp [den, h0], by simp [Cl, Edge.not, one, zero]⟩
    · by_cases h2 : bi = 0
      · have h3 : ba = 0 := hb.1 h2
        subst h2; subst h3
        cases bn <;> simp [h1] at h <;> subst h <;>
          exact ⟨fun ρ => by simp [den, h0], by simp [Cl, Edge.not, one, zero]⟩
      · by_cases h3 : aa = ba
        · subst h3
          by_cases h4 : an = bn
          · subst h4
            simp [h1, h2] at h; subst h
            exact ⟨fun ρ => by simp [den, zero, one, h0], by simp [Cl, Edge.not, one, zero]⟩
          · simp [h1, h2, h4] at h; subst h
            refine ⟨fun ρ => ?_, by simp [Cl, Edge.not, one, zero]⟩
            cases an <;> cases bn <;> simp [den, zero, one, h0] at h4 ⊢
        · simp [h1, h2, h3] at h
  · intro a b h
    simp only [$d:ident, Edge.isConst, beq_iff_eq] at h
    by_cases h1 : a.id = 0
    · simp [h1] at h
    · by_cases h2 : b.id = 0
      · simp [h1, h2] at h
      · exact ⟨h1, h2⟩))

theorem opAnd_law : BinLaw opAnd (fun x y => x && y) := by bin_law opAnd
theorem opNand_law : BinLaw opNand (fun x y => !(x && y)) := by bin_law opNand
theorem opOr_law : BinLaw opOr (fun x y => x || y) := by bin_law opOr
theorem opXor_law : BinLaw opXor (fun x y => xor x y) := by bin_law opXor

/-- The engine laws of a binary operation. -/
def binSem {op : Edge → Edge → Option Edge} {f : Bool → Bool → Bool} (law : BinLaw op f) :
    KernelSem (binKernel op) where
  sem D p := fun ρ => f (D p.1 ρ) (D p.2 ρ)
  ops p := [p.1, p.2]
  sem_congr D D' p h := by
    rw [h p.1 (by simp), h p.2 (by simp)]
  term_inl δ p e h0 hg ht := by
    simp only [binKernel] at ht
    cases hop : op p.1 p.2 with
    | none => rw [hop] at ht; cases ht
    | some e' =>
      rw [hop] at ht; cases ht
      have := law.hit δ p.1 p.2 e h0 (hg _ (by simp)) (hg _ (by simp)) hop
      exact ⟨funext this.1, this.2⟩
  term_inr δ p q c h0 hg ht := by
    simp only [binKernel] at ht
    cases hop : op p.1 p.2 with
    | some e' => rw [hop] at ht; cases ht
    | none =>
      rw [hop] at ht; simp only [Sum.inr.injEq, Prod.mk.injEq] at ht
      obtain ⟨rfl, rfl⟩ := ht
      have hm := law.miss _ _ hop
      by_cases hs : p.2.addr < p.1.addr
      · simp only [normalize, hs, if_true, Bool.false_xor]
        exact ⟨funext fun ρ => law.comm _ _, by simp [Cl], p.2, by simp, hm.2⟩
      · simp only [normalize, hs, if_false, Bool.false_xor]
        exact ⟨trivial, by simp [Cl], p.1, by simp, hm.1⟩
  top_law o p hex hlt := by
    simp only [binKernel, minId2, List.mem_cons, List.not_mem_nil, or_false, forall_eq_or_imp,
      forall_eq, exists_eq_or_imp, exists_eq_left] at *
    by_cases hl : o.lvl p.1.id < o.lvl p.2.id
    · simp only [hl, if_true]
      refine ⟨?_, Or.inl trivial, Nat.le_refl _, by omega⟩
      intro h0
      rw [h0] at hl hex
      rcases hex with h | h
      · exact h rfl
      · have := hlt.2 h; simp [Order.lvl] at hl this h; omega
    · simp only [hl, if_false]
      refine ⟨?_, Or.inr trivial, by omega, Nat.le_refl _⟩
      intro h0
      rw [h0] at hl hex
      rcases hex with h | h
      · have := hlt.1 h; simp [Order.lvl] at hl this h; omega
      · exact h rfl
  cof_law o δ kd p htop hinj hmin hex hk := by
    simp only [List.mem_cons, List.not_mem_nil, or_false, forall_eq_or_imp,
      forall_eq, exists_eq_or_imp, exists_eq_left] at hinj hmin hex hk
    simp only [binKernel] at htop hmin hex hk ⊢
    simp only [cof2]
    by_cases h1 : o.lvl p.1.id = o.lvl p.2.id
    · have hid := hinj.1.2 h1
      have ht1 : p.1.id = minId2 o p := by simp [minId2, hid]
      have ht2 : p.2.id = minId2 o p := by simp [minId2, h1]
      obtain ⟨t1, e1, hk1, hs1⟩ := hk.1 ht1
      obtain ⟨t2, e2, hk2, hs2⟩ := hk.2 ht2
      simp only [h1, if_true, hk1, hk2]
      refine ⟨_, _, rfl, ?_, ?_⟩
      · intro ρ; simp only [hs1, hs2]; by_cases hr : ρ (minId2 o p) = true <;> simp [hr]
      · intro y hy
        right
        simp only [List.cons_append, List.nil_append, List.mem_cons, List.not_mem_nil,
          or_false] at hy
        rcases hy with rfl | rfl | rfl | rfl
        · exact ⟨p.1, by simp, ht1, y, _, hk1, by simp⟩
        · exact ⟨p.2, by simp, ht2, y, _, hk2, by simp⟩
        · exact ⟨p.1, by simp, ht1, _, y, hk1, by simp⟩
        · exact ⟨p.2, by simp, ht2, _, y, hk2, by simp⟩
    · by_cases h2 : o.lvl p.1.id < o.lvl p.2.id
      · have ht1 : p.1.id = minId2 o p := by simp [minId2, h2]
        have ht2 : p.2.id ≠ minId2 o p := by rw [← ht1]; intro h; rw [h] at h1; exact h1 rfl
        obtain ⟨t1, e1, hk1, hs1⟩ := hk.1 ht1
        simp only [h1, h2, if_true, if_false, hk1]
        refine ⟨_, _, rfl, ?_, ?_⟩
        · intro ρ; simp only [hs1]; by_cases hr : ρ (minId2 o p) = true <;> simp [hr]
        · intro y hy
          simp only [List.cons_append, List.nil_append, List.mem_cons, List.not_mem_nil,
            or_false] at hy
          rcases hy with rfl | rfl | rfl | rfl
          · exact Or.inr ⟨p.1, by simp, ht1, y, _, hk1, by simp⟩
          · exact Or.inl ⟨p.2, by simp, ht2, rfl⟩
          · exact Or.inr ⟨p.1, by simp, ht1, _, y, hk1, by simp⟩
          · exact Or.inl ⟨p.2, by simp, ht2, rfl⟩
      · have ht2 : p.2.id = minId2 o p := by simp [minId2, h2]
        have ht1 : p.1.id ≠ minId2 o p := by rw [← ht2]; intro h; rw [h] at h1; exact h1 rfl
        obtain ⟨t1, e1, hk1, hs1⟩ := hk.2 ht2
        simp only [h1, h2, if_false, hk1]
        refine ⟨_, _, rfl, ?_, ?_⟩
        · intro ρ; simp only [hs1]; by_cases hr : ρ (minId2 o p) = true <;> simp [hr]
        · intro y hy
          simp only [List.cons_append, List.nil_append, List.mem_cons, List.not_mem_nil,
            or_false] at hy
          rcases hy with rfl | rfl | rfl | rfl
          · exact Or.inl ⟨p.1, by simp, ht1, rfl⟩
          · exact Or.inr ⟨p.2, by simp, ht2, y, _, hk1, by simp⟩
          · exact Or.inl ⟨p.1, by simp, ht1, rfl⟩
          · exact Or.inr ⟨p.2, by simp, ht2, _, y, hk1, by simp⟩

theorem Cl.one' (xs) : Cl xs one := Or.inl rfl
theorem Cl.zero' (xs) : Cl xs zero := Or.inr (Or.inl rfl)
theorem Cl.mem {xs : List Edge} {e} (h : e ∈ xs) : Cl xs e := Or.inr (Or.inr ⟨e, h, Or.inl rfl⟩)
theorem Cl.not {xs : List Edge} {e} (h : Cl xs e) : Cl xs e.not := by
  rcases h with rfl | rfl | ⟨o, ho, h | rfl⟩
  · exact Or.inr (Or.inl rfl)
  · exact Or.inl rfl
  · exact Or.inr (Or.inr ⟨o, ho, Or.inr (by rw [h])⟩)
  · exact Or.inr (Or.inr ⟨o, ho, Or.inl (by simp)⟩)
theorem Cl.phase {xs : List Edge} {e} (h : Cl xs e) (c : Bool) : Cl xs (e.phase c) := by
  cases c
  · simpa [Edge.phase] using h
  · have := h.not; simpa [Edge.phase, Edge.not] using this

/-- if-then-else on truth values -/
def iteB (f g h : Bool) : Bool := if f then g else h

theorem iteSubst_spec {δ : Nat → BFn} (h0 : δ 0 = (fun _ => true)) (f g h : Edge) (ρ) :
    iteB (den δ f ρ) (den δ (iteSubst f g h).1 ρ) (den δ (iteSubst f g h).2 ρ) =
      iteB (den δ f ρ) (den δ g ρ) (den δ h ρ) := by
  obtain ⟨fi, fa, fn⟩ := f
  obtain ⟨gi, ga, gn⟩ := g
  obtain ⟨hi, ha, hn⟩ := h
  simp only [iteSubst, iteB]
  cases hf : den δ ⟨fi, fa, fn⟩ ρ
  · simp only [Bool.false_eq_true, if_false]
    by_cases h1 : fa = ha
    · subst h1
      cases fn <;> cases hn <;> simp [den, one, zero, h0] at hf ⊢ <;> simp [hf]
    · simp [h1]
  · simp only [if_true]
    by_cases h1 : fa = ga
    · subst h1
      cases fn <;> cases gn <;> simp [den, one, zero, h0] at hf ⊢ <;> simp [hf]
    · simp [h1]

theorem iteSubst_cl (f g h : Edge) : Cl [f, g, h] (iteSubst f g h).1 ∧
    Cl [f, g, h] (iteSubst f g h).2 := by
  simp only [iteSubst]
  constructor
  · split
    · split
      · exact Cl.zero' _
      · exact Cl.one' _
    · exact Cl.mem (by simp)
  · split
    · split
      · exact Cl.one' _
      · exact Cl.zero' _
    · exact Cl.mem (by simp)

theorem itePhase_spec {δ : Nat → BFn} (f g h : Edge) (ρ) :
    xor (itePhase f g h).2 (iteB (den δ (itePhase f g h).1.1 ρ) (den δ (itePhase f g h).1.2.1 ρ)
      (den δ (itePhase f g h).1.2.2 ρ)) = iteB (den δ f ρ) (den δ g ρ) (den δ h ρ) := by
  obtain ⟨fi, fa, fn⟩ := f
  obtain ⟨gi, ga, gn⟩ := g
  obtain ⟨hi, ha, hn⟩ := h
  simp only [itePhase, iteB]
  cases fn <;> cases gn <;> cases hn <;> simp [den, Edge.not] <;> cases δ fa ρ <;> simp

theorem itePhase_cl {xs} {f g h : Edge} (hf : Cl xs f) (hg : Cl xs g) (hh : Cl xs h) :
    Cl xs (itePhase f g h).1.1 ∧ Cl xs (itePhase f g h).1.2.1 ∧ Cl xs (itePhase f g h).1.2.2 := by
  simp only [itePhase]
  split <;> split
  · exact ⟨hf, hg, hh⟩
  · exact ⟨hf, hg.not, hh.not⟩
  · exact ⟨hf.not, hh, hg⟩
  · exact ⟨hf.not, hh.not, hg.not⟩

theorem itePhase_neg (f g h : Edge) :
    (itePhase f g h).1.1.neg = false ∧ (itePhase f g h).1.2.1.neg = false := by
  simp only [itePhase]
  split <;> split <;> simp_all [Edge.not]

theorem Cl.good {xs : List Edge} (hx : ∀ o ∈ xs, (o.id = 0 ↔ o.addr = 0)) {e} (h : Cl xs e) :
    e.id = 0 ↔ e.addr = 0 := by
  rcases h with rfl | rfl | ⟨o, ho, h | h⟩
  · simp [one]
  · simp [zero]
  · rw [h]; exact hx _ ho
  · rw [h]; exact hx o ho

/-- after substitution, `f` has another address than `g` and `h`, unless it is constant -/
theorem iteTerm_laws {δ : Nat → BFn} (h0 : δ 0 = (fun _ => true)) (p : Tri)
    (hg : ∀ o ∈ [p.1, p.2.1, p.2.2], (o.id = 0 ↔ o.addr = 0)) :
    (∀ e, iteTerm p = .inl e →
      (∀ ρ, iteB (den δ p.1 ρ) (den δ p.2.1 ρ) (den δ p.2.2 ρ) = den δ e ρ) ∧
      Cl [p.1, p.2.1, p.2.2] e) ∧
    (∀ q c, iteTerm p = .inr (q, c) →
      (∀ ρ, iteB (den δ p.1 ρ) (den δ p.2.1 ρ) (den δ p.2.2 ρ) =
        xor c (iteB (den δ q.1 ρ) (den δ q.2.1 ρ) (den δ q.2.2 ρ))) ∧
      (∀ o ∈ [q.1, q.2.1, q.2.2], Cl [p.1, p.2.1, p.2.2] o) ∧
      ∃ o ∈ [q.1, q.2.1, q.2.2], o.id ≠ 0) := by
  obtain ⟨f, g, h⟩ := p
  simp only at hg ⊢
  have hsub := iteSubst_spec h0 f g h
  have hcl := iteSubst_cl f g h
  have hph := itePhase_spec (δ := δ) f (iteSubst f g h).1 (iteSubst f g h).2
  have hpc := itePhase_cl (Cl.mem (xs := [f, g, h]) (e := f) (by simp)) hcl.1 hcl.2
  have hpn := itePhase_neg f (iteSubst f g h).1 (iteSubst f g h).2
  have key : ∀ ρ, iteB (den δ f ρ) (den δ g ρ) (den δ h ρ) =
      xor (itePhase f (iteSubst f g h).1 (iteSubst f g h).2).2
        (iteB (den δ (itePhase f (iteSubst f g h).1 (iteSubst f g h).2).1.1 ρ)
          (den δ (itePhase f (iteSubst f g h).1 (iteSubst f g h).2).1.2.1 ρ)
          (den δ (itePhase f (iteSubst f g h).1 (iteSubst f g h).2).1.2.2 ρ)) := by
    intro ρ; rw [hph ρ, hsub ρ]
  simp only [iteTerm]
  generalize itePhase f (iteSubst f g h).1 (iteSubst f g h).2 = q at *
  obtain ⟨⟨f', g', h'⟩, c⟩ := q
  simp only at *
  have gf := hpc.1.good hg
  have gg := hpc.2.1.good hg
  have gh := hpc.2.2.good hg
  constructor
  · intro e he
    by_cases h1 : (f'.isConst || g'.same h') = true
    · rw [if_pos h1] at he
      injection he with he; subst he
      refine ⟨fun ρ => ?_, hpc.2.1.phase _⟩
      rw [key ρ, den_phase]
      simp only [Bool.or_eq_true, Edge.isConst, Edge.same, beq_iff_eq, Bool.and_eq_true] at h1
      rcases h1 with h1 | ⟨h1, h2⟩
      · have : den δ f' ρ = true := by rw [den_const h0 (gf.1 h1), hpn.1]; rfl
        simp [iteB, this]
      · have : den δ g' = den δ h' := by funext ρ; simp [den, h1, h2]
        simp [iteB, this]
    · rw [if_neg h1] at he
      by_cases h2 : (g'.isConst && h'.isConst) = true
      · rw [if_pos h2] at he
        injection he with he; subst he
        refine ⟨fun ρ => ?_, hpc.1.phase _⟩
        rw [key ρ, den_phase]
        simp only [Bool.or_eq_true, Edge.isConst, Edge.same, beq_iff_eq, Bool.and_eq_true] at h1 h2
        have hg0 := gg.1 h2.1
        have hh0 := gh.1 h2.2
        have hneg : h'.neg = true := by
          by_cases hn : h'.neg = true
          · exact hn
          · exfalso; apply h1; right
            rw [hg0, hh0, hpn.2]; simp at hn; simp [hn]
        have e1 : den δ g' ρ = true := by rw [den_const h0 hg0, hpn.2]; rfl
        have e2 : den δ h' ρ = false := by rw [den_const h0 hh0, hneg]; rfl
        rw [e1, e2]
        cases hd : den δ f' ρ <;> cases c <;> simp [iteB, hd]
      · rw [if_neg h2] at he; cases he
  · intro q' c' he
    by_cases h1 : (f'.isConst || g'.same h') = true
    · rw [if_pos h1] at he; cases he
    · rw [if_neg h1] at he
      by_cases h2 : (g'.isConst && h'.isConst) = true
      · rw [if_pos h2] at he; cases he
      · rw [if_neg h2] at he
        simp only [Sum.inr.injEq, Prod.mk.injEq] at he
        obtain ⟨rfl, rfl⟩ := he
        refine ⟨key, ?_, f', by simp, ?_⟩
        · intro o ho
          simp only [List.mem_cons, List.not_mem_nil, or_false] at ho
          rcases ho with rfl | rfl | rfl
          · exact hpc.1
          · exact hpc.2.1
          · exact hpc.2.2
        · simp only [Bool.or_eq_true, Edge.isConst, beq_iff_eq, not_or] at h1
          exact h1.1

/-- what `cof3` opens: exactly the operands at the top level -/
theorem cof3_eq (o : Order) (kd) (p : Tri)
    (hinj : ∀ x ∈ [p.1, p.2.1, p.2.2], ∀ y ∈ [p.1, p.2.1, p.2.2],
      o.lvl x.id = o.lvl y.id → x.id = y.id) :
    cof3 o kd p =
      match cofSide kd (decide (p.1.id = minId3 o p)) p.1, cofSide kd (decide (p.2.1.id = minId3 o p)) p.2.1,
        cofSide kd (decide (p.2.2.id = minId3 o p)) p.2.2 with
      | some (fx, fxbar), some (gx, gxbar), some (hx, hxbar) =>
        some ((fx, gx, hx), (fxbar, gxbar, hxbar))
      | _, _, _ => none := by
  obtain ⟨f, g, h⟩ := p
  simp only [List.mem_cons, List.not_mem_nil, or_false, forall_eq_or_imp, forall_eq] at hinj
  obtain ⟨⟨-, i12, i13⟩, ⟨-, -, i23⟩, -⟩ := hinj
  have e12 : f.id = g.id ↔ o.lvl f.id = o.lvl g.id := ⟨fun h => by rw [h], i12⟩
  have e13 : f.id = h.id ↔ o.lvl f.id = o.lvl h.id := ⟨fun h => by rw [h], i13⟩
  have e23 : g.id = h.id ↔ o.lvl g.id = o.lvl h.id := ⟨fun h => by rw [h], i23⟩
  have hsel : (if o.lvl f.id = o.lvl g.id then
      if o.lvl h.id = o.lvl f.id then (true, true, true)
      else if o.lvl h.id < o.lvl f.id then (false, false, true)
      else (true, true, false)
    else if o.lvl f.id < o.lvl g.id then
      if o.lvl h.id = o.lvl f.id then (true, false, true)
      else if o.lvl h.id < o.lvl f.id then (false, false, true)
      else (true, false, false)
    else
      if o.lvl h.id = o.lvl g.id then (false, true, true)
      else if o.lvl h.id < o.lvl g.id then (false, false, true)
      else (false, true, false)) =
      (decide (f.id = minId3 o (f, g, h)), decide (g.id = minId3 o (f, g, h)),
        decide (h.id = minId3 o (f, g, h))) := by
    simp only [minId3]
    have c12 := e12; have c13 := e13; have c23 := e23
    generalize o.lvl f.id = a at *
    generalize o.lvl g.id = b at *
    generalize o.lvl h.id = c at *
    rcases Nat.lt_trichotomy a b with h1 | h1 | h1 <;>
    rcases Nat.lt_trichotomy a c with h2 | h2 | h2 <;>
    rcases Nat.lt_trichotomy b c with h3 | h3 | h3 <;>
    first
    | (exfalso; omega)
    | (have n1 : (f.id = g.id) = (a = b) := propext e12
       have n2 : (f.id = h.id) = (a = c) := propext e13
       have n3 : (g.id = h.id) = (b = c) := propext e23
       have n1' : (g.id = f.id) = (a = b) := by rw [← n1]; exact propext eq_comm
       have n2' : (h.id = f.id) = (a = c) := by rw [← n2]; exact propext eq_comm
       have n3' : (h.id = g.id) = (b = c) := by rw [← n3]; exact propext eq_comm
       repeat' split
       all_goals first
         | (exfalso; omega)
         | (simp only [Prod.mk.injEq, n1, n2, n3, n1', n2', n3',
              Bool.true_eq, Bool.false_eq, decide_eq_true_eq, decide_eq_false_iff_not]
            refine ⟨?_, ?_, ?_⟩ <;> first | trivial | omega))
  simp only [cof3, hsel]
  rfl

/-- The engine laws of if-then-else. -/
def iteSem : KernelSem iteKernel where
  sem D p := fun ρ => iteB (D p.1 ρ) (D p.2.1 ρ) (D p.2.2 ρ)
  ops p := [p.1, p.2.1, p.2.2]
  sem_congr D D' p h := by
    rw [h p.1 (by simp), h p.2.1 (by simp), h p.2.2 (by simp)]
  term_inl δ p e h0 hg ht := by
    have := (iteTerm_laws h0 p hg).1 e ht
    exact ⟨funext this.1, this.2⟩
  term_inr δ p q c h0 hg ht := by
    have := (iteTerm_laws h0 p hg).2 q c ht
    exact ⟨funext this.1, this.2.1, this.2.2⟩
  top_law o p hex hlt := by
    obtain ⟨f, g, h⟩ := p
    simp only [iteKernel, minId3, List.mem_cons, List.not_mem_nil, or_false, forall_eq_or_imp,
      forall_eq, exists_eq_or_imp, exists_eq_left] at *
    have l0 : o.lvl 0 = constIndex := by simp [Order.lvl]
    obtain ⟨k1, k2, k3⟩ := hlt
    have m1 : f.id = 0 → o.lvl f.id = constIndex := fun h => by rw [h, l0]
    have m2 : g.id = 0 → o.lvl g.id = constIndex := fun h => by rw [h, l0]
    have m3 : h.id = 0 → o.lvl h.id = constIndex := fun h => by rw [h, l0]
    by_cases h1 : o.lvl f.id ≤ o.lvl g.id <;> by_cases h2 : o.lvl f.id ≤ o.lvl h.id <;>
      by_cases h3 : o.lvl g.id ≤ o.lvl h.id <;>
      simp only [h1, h2, h3, if_true, if_false] <;>
      refine ⟨?_, by simp, ?_, ?_, ?_⟩ <;> first | trivial | omega
  cof_law o δ kd p htop hinj hmin hex hk := by
    simp only [iteKernel] at *
    have hside : ∀ x ∈ [p.1, p.2.1, p.2.2], ∃ t e,
        cofSide kd (decide (x.id = minId3 o p)) x = some (t, e) ∧
        (∀ ρ, den δ x ρ = if ρ (minId3 o p) then den δ t ρ else den δ e ρ) ∧
        (∀ y, (y = t ∨ y = e) → (x.id ≠ minId3 o p ∧ y = x) ∨
          (x.id = minId3 o p ∧ ∃ t e, kd x = some (t, e) ∧ (y = t ∨ y = e))) := by
      intro x hx
      by_cases h : x.id = minId3 o p
      · obtain ⟨t, e, h1, h2⟩ := hk x hx h
        exact ⟨t, e, by simp [cofSide, h, h1], h2, fun y hy => Or.inr ⟨h, t, e, h1, hy⟩⟩
      · refine ⟨x, x, by simp [cofSide, h], by simp, fun y hy => Or.inl ⟨h, by simpa using hy⟩⟩
    obtain ⟨t1, e1, a1, b1, c1⟩ := hside p.1 (by simp)
    obtain ⟨t2, e2, a2, b2, c2⟩ := hside p.2.1 (by simp)
    obtain ⟨t3, e3, a3, b3, c3⟩ := hside p.2.2 (by simp)
    refine ⟨(t1, t2, t3), (e1, e2, e3), ?_, ?_, ?_⟩
    · rw [cof3_eq o kd p hinj, a1, a2, a3]
    · intro ρ
      simp only [b1, b2, b3]
      by_cases hr : ρ (minId3 o p) = true <;> simp [hr]
    · have fin : ∀ x ∈ [p.1, p.2.1, p.2.2], ∀ y, (x.id ≠ minId3 o p ∧ y = x) ∨
          (x.id = minId3 o p ∧ ∃ t e, kd x = some (t, e) ∧ (y = t ∨ y = e)) →
          (∃ x ∈ [p.1, p.2.1, p.2.2], x.id ≠ minId3 o p ∧ y = x) ∨
          (∃ x ∈ [p.1, p.2.1, p.2.2], x.id = minId3 o p ∧
            ∃ t e, kd x = some (t, e) ∧ (y = t ∨ y = e)) := by
        intro x hx y h
        rcases h with h | h
        · exact Or.inl ⟨x, hx, h⟩
        · exact Or.inr ⟨x, hx, h⟩
      intro y hy
      simp only [List.cons_append, List.nil_append] at hy
      have : (y = t1 ∨ y = e1) ∨ (y = t2 ∨ y = e2) ∨ (y = t3 ∨ y = e3) := by
        simp only [List.mem_cons, List.not_mem_nil, or_false] at hy
        rcases hy with h | h | h | h | h | h <;> simp [h]
      rcases this with h | h | h
      · exact fin p.1 (by simp) y (c1 y h)
      · exact fin p.2.1 (by simp) y (c2 y h)
      · exact fin p.2.2 (by simp) y (c3 y h)

end Cal
