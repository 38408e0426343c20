import Verif.FnPrint

/-!
# How long the text is

`CalBddMarkSharedNodes` does not see all nodes that are met more than once (`C66_violated`). Here: a product of
clauses of two variables, after one of five.
-/

namespace Cal.Print

open Mgr (typeAux)
open Dump (lookup flip markShared numberShared)

/-! ## Specification -/

/-- A product of clauses without complemented variables -/
def cnf (cs : List (List Nat)) : BFn := fun ρ => cs.all fun c => c.any ρ

/-- Variables in the order of the diagram -/
def Increasing (o : Order) (xs : List Nat) : Prop :=
  (∀ x ∈ xs, 1 ≤ x ∧ x ≤ o.numVars) ∧ xs.Pairwise fun x y => o.idToIndex x < o.idToIndex y

/-- The clauses `x ∨ y` for `(x, y)` in `ps`, then `z` -/
def pairs (z : Nat) (ps : List (Nat × Nat)) : List (List Nat) := ps.map (fun p => [p.1, p.2]) ++ [[z]]

/-! ## The functions -/

theorem Increasing.lvl {o : Order} {x : Nat} {xs : List Nat} (h : Increasing o (x :: xs)) :
    ∀ y ∈ xs, o.lvl x < o.lvl y := by
  intro y hy
  have hx := h.1 x (by simp)
  have hy' := h.1 y (by simp [hy])
  have := (List.pairwise_cons.1 h.2).1 y hy
  unfold Order.lvl
  rw [if_neg (by omega), if_neg (by omega)]
  exact this

theorem Increasing.tail {o : Order} {x : Nat} {xs : List Nat} (h : Increasing o (x :: xs)) : Increasing o xs :=
  ⟨fun y hy => h.1 y (by simp [hy]), (List.pairwise_cons.1 h.2).2⟩

theorem Increasing.drop {o : Order} {xs ys : List Nat} (h : Increasing o (xs ++ ys)) : Increasing o ys :=
  ⟨fun y hy => h.1 y (by simp [hy]), (List.pairwise_append.1 h.2).2.1⟩

theorem Increasing.nmem {o : Order} {x : Nat} {xs : List Nat} (h : Increasing o (x :: xs)) : x ∉ xs := fun hx => by
  have := h.lvl x hx; omega

theorem any_upd {c : List Nat} {x : Nat} (h : x ∉ c) (ρ : Asg) (b : Bool) : c.any (upd ρ x b) = c.any ρ := by
  induction c with
  | nil => rfl
  | cons y c ih =>
    simp only [List.mem_cons, not_or] at h
    simp only [List.any_cons, ih h.2, upd_ne ρ b (Ne.symm h.1)]

theorem cnf_upd {cs : List (List Nat)} {x : Nat} (h : x ∉ cs.flatten) (ρ : Asg) (b : Bool) : cnf cs (upd ρ x b) = cnf cs ρ := by
  induction cs with
  | nil => rfl
  | cons c cs ih =>
    simp only [List.flatten_cons, List.mem_append, not_or] at h
    have := ih h.2
    unfold cnf at this ⊢
    simp only [List.all_cons, any_upd h.1, this]

theorem cnf_cons (c : List Nat) (cs : List (List Nat)) (ρ : Asg) : cnf (c :: cs) ρ = (c.any ρ && cnf cs ρ) := by
  simp [cnf]

/-- The two cofactors -/
theorem cnf_true {x : Nat} {c : List Nat} {cs : List (List Nat)} (h : x ∉ cs.flatten) :
    (fun ρ => cnf ((x :: c) :: cs) (upd ρ x true)) = cnf cs := by
  funext ρ
  rw [cnf_cons, cnf_upd h]
  simp

theorem cnf_false {x : Nat} {c : List Nat} {cs : List (List Nat)} (h : x ∉ (c :: cs).flatten) :
    (fun ρ => cnf ((x :: c) :: cs) (upd ρ x false)) = cnf (c :: cs) := by
  funext ρ
  simp only [List.flatten_cons, List.mem_append, not_or] at h
  rw [cnf_cons, cnf_cons, cnf_upd h.2, List.any_cons, any_upd h.1]
  simp

theorem cnf_nil (cs : List (List Nat)) : cnf ([] :: cs) = fun _ => false := by funext ρ; simp [cnf]

/-- with all variables true -/
theorem cnf_ones {cs : List (List Nat)} (h : ∀ c ∈ cs, c ≠ []) : cnf cs (fun _ => true) = true := by
  unfold cnf
  rw [List.all_eq_true]
  intro c hc
  cases c with
  | nil => exact absurd rfl (h _ hc)
  | cons x c => simp

/-- It depends on its first variable. -/
theorem cnf_dep {o : Order} {x : Nat} {c : List Nat} {cs : List (List Nat)} (inc : Increasing o ((x :: c) :: cs).flatten)
    (hne : ∀ d ∈ cs, d ≠ []) : ¬ Indep (cnf ((x :: c) :: cs)) x := by
  intro hi
  have hx : x ∉ (c ++ cs.flatten) := by
    have := inc.nmem
    simpa using this
  rw [List.mem_append, not_or] at hx
  -- all variables of the clause false, the others true
  have hdis : ∀ y ∈ c, y ∉ cs.flatten := by
    intro y hy hy'
    have hp := inc.2
    simp only [List.flatten_cons, List.cons_append, List.pairwise_cons, List.pairwise_append] at hp
    have := hp.2.2.2 y hy y hy'
    omega
  have key : ∀ b, cnf ((x :: c) :: cs) (fun y => if y = x then b else !c.contains y) = b := by
    intro b
    rw [cnf_cons]
    have h1 : (x :: c).any (fun y => if y = x then b else !c.contains y) = b := by
      rw [List.any_cons]
      have : c.any (fun y => if y = x then b else !c.contains y) = false := by
        rw [List.any_eq_false]
        intro y hy
        have : y ≠ x := fun h => hx.1 (h ▸ hy)
        simp [this, hy]
      rw [this]
      simp
    have h2 : cnf cs (fun y => if y = x then b else !c.contains y) = true := by
      unfold cnf
      rw [List.all_eq_true]
      intro d hd
      cases hdd : d with
      | nil => exact absurd hdd (hne d hd)
      | cons y d' =>
        have hy : y ∈ cs.flatten := List.mem_flatten.2 ⟨d, hd, by simp [hdd]⟩
        have h1 : y ≠ x := fun h => hx.2 (h ▸ hy)
        have h2 : y ∉ c := fun h => hdis y h hy
        simp [h1, h2]
    rw [h1, h2, Bool.and_true]
  have e : upd (fun y => if y = x then false else !c.contains y) x true = fun y => if y = x then true else !c.contains y := by
    funext y
    unfold upd
    split <;> simp_all
  have := hi (fun y => if y = x then false else !c.contains y) true
  rw [e, key true, key false] at this
  cases this

/-- A function that is true when all variables are has a regular edge. -/
theorem regular_of {s : Store} (w : s.WF) {f F} (r : Rep s f F) : F (fun _ => true) = !f.neg := by
  induction r with
  | one => rfl
  | zero => rfl
  | @pos a n F G h hF hG i1 i2 =>
    simp only [if_true, i1, w.thn_pos _ _ h]
  | @neg a n F G h hF hG i1 i2 =>
    simp only [if_true, i1, w.thn_pos _ _ h]
    rfl

structure Ok (o : Order) (cs : List (List Nat)) : Prop where
  inc : Increasing o cs.flatten
  ne : ∀ c ∈ cs.drop 1, c ≠ []

theorem Ok.thn {o : Order} {c cs} (h : Ok o (c :: cs)) : Ok o cs :=
  ⟨by have := h.inc; rw [List.flatten_cons] at this; exact this.drop, fun d hd => h.ne d (List.mem_of_mem_drop hd)⟩

theorem Ok.els {o : Order} {x c cs} (h : Ok o ((x :: c) :: cs)) : Ok o (c :: cs) :=
  ⟨by have := h.inc; simp only [List.flatten_cons, List.cons_append] at this ⊢; exact this.tail, h.ne⟩

/-- The node for a product -/
theorem node {s : Store} (w : s.WF) {x : Nat} {c : List Nat} {cs : List (List Nat)} (ok : Ok s.ord ((x :: c) :: cs)) {f : Edge}
    (r : Rep s f (cnf ((x :: c) :: cs))) : f.id = x ∧ f.neg = false ∧ ∃ t e, s.kids f = some (t, e) ∧ Rep s t (cnf cs) ∧
      Rep s e (cnf (c :: cs)) ∧ s.ord.lvl x < s.ord.lvl t.id ∧ s.ord.lvl x < s.ord.lvl e.id := by
  have inc := ok.inc
  simp only [List.flatten_cons, List.cons_append] at inc
  have hx := inc.1 x (by simp)
  have dep := cnf_dep (o := s.ord) (x := x) (c := c) (cs := cs) ok.inc ok.ne
  have hid : f.id ≠ 0 := by
    intro h0
    rcases (r.const_iff w).1 h0 with h | h <;> exact dep (by rw [h]; intro ρ b; rfl)
  have hnl : ¬ s.ord.lvl x < s.ord.lvl f.id := fun h => dep (r.indep w x h)
  have hng : ¬ s.ord.lvl f.id < s.ord.lvl x := by
    intro h
    refine r.dep w hid fun ρ b => cnf_upd ?_ ρ b
    intro hm
    simp only [List.flatten_cons, List.cons_append, List.mem_cons] at hm
    rcases hm with hm | hm
    · rw [hm] at h; omega
    · have := inc.lvl _ hm; omega
  obtain ⟨n, hn, hv⟩ := r.eok.node w hid
  have hr := w.var_range _ _ hn
  have hfx : f.id = x := w.ord.lvl_inj (by omega) (by omega) hx.1 hx.2 (by omega)
  have hneg : f.neg = false := by
    have h1 := regular_of w r
    rw [cnf_ones (by
      intro d hd
      rcases List.mem_cons.1 hd with rfl | hd
      · simp
      · exact ok.ne d hd)] at h1
    cases hb : f.neg with
    | false => rfl
    | true => rw [hb] at h1; cases h1
  obtain ⟨t, e, hk, rt, re, l1, l2, -⟩ := r.kids w hid
  rw [hfx] at rt re l1 l2
  have hnm := inc.nmem
  rw [cnf_true (fun h => hnm (by simp only [List.mem_append]; exact .inr h))] at rt
  rw [cnf_false (by rw [List.flatten_cons]; exact hnm)] at re
  exact ⟨hfx, hneg, t, e, hk, rt, re, l1, l2⟩

/-- It is not a variable if there is a second one. -/
theorem node_nt {s : Store} (w : s.WF) {x : Nat} {c : List Nat} {cs : List (List Nat)} (ok : Ok s.ord ((x :: c) :: cs)) {f : Edge}
    (r : Rep s f (cnf ((x :: c) :: cs))) (h2 : c ≠ [] ∨ cs ≠ []) : Dump.NT s f := by
  obtain ⟨hid, hneg, t, e, hk, rt, re, l1, l2⟩ := node w ok r
  have hx := ok.inc.1 x (by simp)
  cases Dump.kind w r with
  | zero h hi _ => omega
  | one h hi _ => omega
  | neg h hi hF => exact (regular w r hneg h).elim
  | nt h hi => exact h
  | pos h hi hF =>
    exfalso
    -- the cofactors are constant
    have ht : ∀ y, Indep (cnf cs) y := by
      intro y ρ b
      have e1 := cnf_true (x := x) (c := c) (cs := cs) (fun h => by
        have := ok.inc
        simp only [List.flatten_cons, List.cons_append] at this
        exact this.nmem (by simp only [List.mem_append]; exact .inr h))
      rw [← e1, hF]
      simp only [hid, upd_same]
    have he : ∀ y, Indep (cnf (c :: cs)) y := by
      intro y ρ b
      have e1 := cnf_false (x := x) (c := c) (cs := cs) (by
        have := ok.inc
        simp only [List.flatten_cons, List.cons_append] at this ⊢
        exact this.nmem)
      rw [← e1, hF]
      simp only [hid, upd_same]
    rcases h2 with h2 | h2
    · cases c with
      | nil => exact h2 rfl
      | cons y c =>
        have ok' := ok.els
        exact cnf_dep ok'.inc ok'.ne (he y)
    · cases cs with
      | nil => exact h2 rfl
      | cons d cs =>
        have ok' := ok.thn
        cases d with
        | nil => exact ok.ne [] (by simp) rfl
        | cons y d => exact cnf_dep ok'.inc ok'.ne (ht y)

/-! ## The marks -/

/-- The mark of a node met `j` times -/
def mk (j : Nat) : Nat := if j = 0 then 0 else if j % 2 = 1 then 1 else 2

/-- The marks of the nodes of `pairs z ps` when the first has been met `j` times -/
def St (s : Store) (M : Nat → Nat) (z : Nat) : List (Nat × Nat) → Nat → Prop
  | [], _ => True
  | (x, y) :: ps, j =>
    (∀ g, Rep s g (cnf (pairs z ((x, y) :: ps))) → M g.addr = mk j) ∧
    (∀ g, Rep s g (cnf ([y] :: pairs z ps)) → M g.addr = mk ((j + 1) / 2)) ∧
    St s M z ps ((j + 1) / 2 + ((j + 1) / 2 + 1) / 2)

theorem St.zero (s : Store) (z : Nat) : ∀ ps, St s (fun _ => 0) z ps 0
  | [] => trivial
  | _ :: ps => ⟨fun _ _ => rfl, fun _ _ => rfl, St.zero s z ps⟩

theorem pairs_cons (z x y : Nat) (ps : List (Nat × Nat)) : pairs z ((x, y) :: ps) = [x, y] :: pairs z ps := rfl

theorem pairs_ne (z : Nat) (ps : List (Nat × Nat)) : ∀ c ∈ pairs z ps, c ≠ [] := by
  intro c hc
  unfold pairs at hc
  simp only [List.mem_append, List.mem_map, List.mem_singleton] at hc
  rcases hc with ⟨p, -, rfl⟩ | rfl <;> simp

theorem pairs_nonempty (z : Nat) (ps : List (Nat × Nat)) : pairs z ps ≠ [] := by simp [pairs]

/-- The marks matter from a level on. -/
theorem St.congr {s : Store} (w : s.WF) {M M' : Nat → Nat} {z : Nat} {l : Nat}
    (h : ∀ g, s.EOK g → l < s.ord.lvl g.id → M' g.addr = M g.addr) : ∀ {ps : List (Nat × Nat)} {j : Nat},
    Ok s.ord (pairs z ps) → (∀ v ∈ (pairs z ps).flatten, l < s.ord.lvl v) → St s M z ps j → St s M' z ps j
  | [], _, _, _, _ => trivial
  | (x, y) :: ps, j, ok, hl, ⟨h1, h2, h3⟩ => by
    rw [pairs_cons] at ok hl
    refine ⟨fun g rg => ?_, fun g rg => ?_, St.congr w h ok.thn (fun v hv => hl v (by
      rw [List.flatten_cons]; exact List.mem_append_right _ hv)) h3⟩
    · have := (node w ok rg).1
      rw [h g rg.eok (by rw [this]; exact hl x (by simp)), h1 g rg]
    · have := (node w ok.els rg).1
      rw [h g rg.eok (by rw [this]; exact hl y (by simp)), h2 g rg]

/-- One visit of a node of two variables at least -/
theorem visit {s : Store} (w : s.WF) {x : Nat} {c : List Nat} {cs : List (List Nat)} (ok : Ok s.ord ((x :: c) :: cs)) {f : Edge}
    (r : Rep s f (cnf ((x :: c) :: cs))) (h2 : c ≠ [] ∨ cs ≠ []) {k : Nat} {M M' : Nat → Nat} (h : markShared s k M f = some M') :
    ∃ k', k = k' + 1 ∧ ((M f.addr = 1 ∧ M' = upd M f.addr 2) ∨ (M f.addr ≠ 1 ∧ ∃ t e M1, Rep s t (cnf cs) ∧ Rep s e (cnf (c :: cs)) ∧
      s.ord.lvl x < s.ord.lvl t.id ∧ s.ord.lvl x < s.ord.lvl e.id ∧
      markShared s k' (upd M f.addr 1) t = some M1 ∧ markShared s k' M1 e = some M')) := by
  cases k with
  | zero => simp [markShared] at h
  | succ k =>
    refine ⟨k, rfl, ?_⟩
    obtain ⟨hid, hneg, t, e, hk, rt, re, l1, l2⟩ := node w ok r
    have hx := ok.inc.1 x (by simp)
    have nt : typeAux s f = some .nonterminal := node_nt w ok r h2
    have hff : ({ f with neg := false } : Edge) = f := by cases f; simp only at hneg; rw [hneg]
    unfold markShared at h
    simp only [hff] at h
    rw [if_neg (by simp [Edge.isConst]; omega)] at h
    simp only [nt, hk] at h
    by_cases h1 : M f.addr = 1
    · rw [if_pos h1] at h
      cases h
      exact .inl ⟨h1, rfl⟩
    · rw [if_neg h1] at h
      cases h3 : markShared s k (upd M f.addr 1) t with
      | none => rw [h3] at h; cases h
      | some M1 =>
        rw [h3] at h
        exact .inr ⟨h1, t, e, M1, rt, re, l1, l2, h3, h⟩

/-- An address of another function -/
theorem addr_ne {s : Store} (w : s.WF) {f g : Edge} (hf : s.EOK f) (hg : s.EOK g) (h : s.ord.lvl f.id ≠ s.ord.lvl g.id) :
    f.addr ≠ g.addr := fun e => h (Dump.lvl_addr w hf hg e)

/-- Marks above do not change. -/
theorem mark_above {s : Store} (w : s.WF) : ∀ {k : Nat} {M M' : Nat → Nat} {f : Edge} {F}, Rep s f F → markShared s k M f = some M' →
    ∀ g, s.EOK g → s.ord.lvl g.id < s.ord.lvl f.id → M' g.addr = M g.addr
  | 0, _, _, _, _, _, h, _, _, _ => by simp [markShared] at h
  | k + 1, M, M', f, F, r, h, g, hg, hl => by
    obtain ⟨f0, F0, hf0, r0⟩ : ∃ f0 F0, f0 = ({ f with neg := false } : Edge) ∧ Rep s f0 F0 := by
      obtain ⟨G, hG⟩ := w.rep_exists (e := { f with neg := false }) r.eok
      exact ⟨_, G, rfl, hG⟩
    have ha0 : f0.addr = f.addr := by rw [hf0]
    have hi0 : f0.id = f.id := by rw [hf0]
    have ne : g.addr ≠ f0.addr := addr_ne w hg r0.eok (by rw [hi0]; omega)
    unfold markShared at h
    simp only [← hf0] at h
    cases Dump.kind w r0 with
    | zero _ hi _ => rw [if_pos (by simp [Edge.isConst, hi])] at h; cases h; rfl
    | one _ hi _ => rw [if_pos (by simp [Edge.isConst, hi])] at h; cases h; rfl
    | pos hh hi _ =>
      rw [if_neg (by simp [Edge.isConst, hi])] at h
      simp only [hh] at h; cases h; rfl
    | neg hh hi hF => exact (regular w r0 (by rw [hf0]) hh).elim
    | nt hh hi =>
      have hh' : typeAux s f0 = some .nonterminal := hh
      rw [if_neg (by simp [Edge.isConst, hi])] at h
      simp only [hh'] at h
      split at h
      · cases h
        rw [← ha0, upd_ne _ _ ne]
      · obtain ⟨t, e, hk1, rt, re, l1, l2, -⟩ := r0.kids w hi
        simp only [hk1] at h
        cases h1 : markShared s k (upd M f0.addr 1) t with
        | none => rw [← ha0, h1] at h; cases h
        | some M1 =>
          rw [← ha0, h1] at h
          simp only at h
          rw [mark_above w re h g hg (by rw [hi0] at l2; omega), mark_above w rt h1 g hg (by rw [hi0] at l1; omega), upd_ne _ _ ne]

/-- A visit of the constant 0 -/
theorem visit_const {s : Store} (w : s.WF) {k : Nat} {M M' : Nat → Nat} {f : Edge} (r : Rep s f fun _ => false)
    (h : markShared s k M f = some M') : M' = M := by
  have hid : f.id = 0 := (r.const_iff w).2 (.inr rfl)
  cases k with
  | zero => simp [markShared] at h
  | succ k =>
    unfold markShared at h
    simp only [Edge.isConst, hid] at h
    cases h; rfl

/-- A visit of a variable -/
theorem visit_var {s : Store} (w : s.WF) {k : Nat} {M M' : Nat → Nat} {f : Edge} {z : Nat} (r : Rep s f fun ρ => ρ z)
    (h : markShared s k M f = some M') : M' = M := by
  have hneg : f.neg = false := by
    have := regular_of w r
    cases hb : f.neg with
    | false => rfl
    | true => rw [hb] at this; cases this
  cases k with
  | zero => simp [markShared] at h
  | succ k =>
    have hff : ({ f with neg := false } : Edge) = f := by cases f; simp only at hneg; rw [hneg]
    unfold markShared at h
    simp only [hff] at h
    cases Dump.kind w r with
    | zero hh hi hF => rw [if_pos (by simp [Edge.isConst, hi])] at h; cases h; rfl
    | one hh hi hF => rw [if_pos (by simp [Edge.isConst, hi])] at h; cases h; rfl
    | neg hh hi hF => exact (regular w r hneg hh).elim
    | pos hh hi hF =>
      rw [if_neg (by simp [Edge.isConst, hi])] at h
      simp only [hh] at h
      cases h; rfl
    | nt hh hi => exact (((Dump.NT.sem w r).1 hh).2.2.1 ⟨z, rfl⟩).elim

theorem Ok.below {o : Order} {x : Nat} {c : List Nat} {cs : List (List Nat)} (ok : Ok o ((x :: c) :: cs)) :
    (∀ v ∈ c, o.lvl x < o.lvl v) ∧ ∀ v ∈ cs.flatten, o.lvl x < o.lvl v := by
  have := ok.inc
  simp only [List.flatten_cons, List.cons_append] at this
  exact ⟨fun v hv => this.lvl v (List.mem_append_left _ hv), fun v hv => this.lvl v (List.mem_append_right _ hv)⟩

/-- One visit more -/
theorem St.visit {s : Store} (w : s.WF) {z : Nat} : ∀ {ps : List (Nat × Nat)} {j k : Nat} {M M' : Nat → Nat} {f : Edge},
    Ok s.ord (pairs z ps) → Rep s f (cnf (pairs z ps)) → j ≤ 4 → St s M z ps j → markShared s k M f = some M' → St s M' z ps (j + 1)
  | [], _, _, _, _, _, _, _, _, _, _ => trivial
  | (x, y) :: ps, j, k, M, M', f, ok, r, hj, ⟨h1, h2, h3⟩, h => by
    rw [pairs_cons] at ok r
    have hf1 := h1 f r
    have hid := (node w ok r).1
    obtain ⟨k1, rfl, hv⟩ := Print.visit w ok r (.inl (by simp)) h
    have okt := ok.thn
    have oke := ok.els
    obtain ⟨b1, b2⟩ := ok.below
    have b3 := oke.below.2
    -- the mark of the first node
    have first : ∀ g, Rep s g (cnf (pairs z ((x, y) :: ps))) → g.addr = f.addr := fun g rg => by rw [canonical w rg r]
    -- below it
    have low : ∀ b, ∀ g, s.EOK g → s.ord.lvl x < s.ord.lvl g.id → upd M f.addr b g.addr = M g.addr := fun b g hg hl =>
      upd_ne _ _ (addr_ne w hg r.eok (by rw [hid]; omega))
    rcases hv with ⟨ha, rfl⟩ | ⟨ha, t, e, M1, rt, re, l1, l2, m1, m2⟩
    · -- met for the second or fourth time
      have hodd : j = 1 ∨ j = 3 := by
        rw [hf1] at ha
        unfold mk at ha
        split at ha
        · omega
        · split at ha <;> omega
      refine ⟨fun g rg => ?_, fun g rg => ?_, ?_⟩
      · rw [first g rg, upd_same]
        rcases hodd with rfl | rfl <;> rfl
      · rw [low 2 g rg.eok (by rw [(node w oke rg).1]; exact b1 y (by simp)), h2 g rg]
        rcases hodd with rfl | rfl <;> rfl
      · have := St.congr w (low 2) okt b2 h3
        rcases hodd with rfl | rfl <;> exact this
    · have heven : j = 0 ∨ j = 2 ∨ j = 4 := by
        rw [hf1] at ha
        unfold mk at ha
        split at ha
        · omega
        · split at ha <;> omega
      -- the first successor
      have hey := (node w oke re).1
      have s0 := St.congr w (low 1) okt b2 h3
      have s1 := St.visit w okt rt (by omega) s0 m1
      have a1 := mark_above w rt m1
      have a2 := mark_above w re m2
      -- it is below the second
      have lte : s.ord.lvl e.id < s.ord.lvl t.id := by
        rw [hey]
        cases hp : pairs z ps with
        | nil => exact absurd hp (pairs_nonempty z ps)
        | cons d ds =>
          cases d with
          | nil => exact absurd rfl (pairs_ne z ps [] (by rw [hp]; simp))
          | cons v d =>
            rw [hp] at rt okt
            rw [(node w okt rt).1]
            exact b3 v (by rw [hp]; simp)
      have me1 : M1 e.addr = mk ((j + 1) / 2) := by
        rw [a1 e re.eok lte, low 1 e re.eok (by rw [hey]; exact b1 y (by simp)), h2 e re]
      have hsame : ∀ g, Rep s g (cnf ([y] :: pairs z ps)) → g.addr = e.addr := fun g rg => by rw [canonical w rg re]
      have mf : M' f.addr = 1 := by
        rw [a2 f r.eok (by rw [hid]; exact l2), a1 f r.eok (by rw [hid]; exact l1), upd_same]
      obtain ⟨k2, rfl, hv⟩ := Print.visit w oke re (.inr (pairs_nonempty z ps)) m2
      have low2 : ∀ b, ∀ g, s.EOK g → s.ord.lvl y < s.ord.lvl g.id → upd M1 e.addr b g.addr = M1 g.addr := fun b g hg hl =>
        upd_ne _ _ (addr_ne w hg re.eok (by rw [hey]; omega))
      rcases hv with ⟨ha2, rfl⟩ | ⟨ha2, t2, e2, M2, rt2, re2, -, -, m3, m4⟩
      · have hj2 : j = 2 := by
          rw [me1] at ha2
          rcases heven with rfl | rfl | rfl
          · cases ha2
          · rfl
          · cases ha2
        subst hj2
        refine ⟨fun g rg => by rw [first g rg, mf]; rfl, fun g rg => by rw [hsame g rg, upd_same]; rfl, ?_⟩
        exact St.congr w (low2 2) okt b3 s1
      · have hj2 : j = 0 ∨ j = 4 := by
          rw [me1] at ha2
          rcases heven with rfl | rfl | rfl
          · exact .inl rfl
          · exact absurd rfl ha2
          · exact .inr rfl
        rw [cnf_nil] at re2
        have := visit_const w re2 m4
        subst this
        have s2 := St.congr w (low2 1) okt b3 s1
        have s3 := St.visit w okt rt2 (by omega) s2 m3
        refine ⟨fun g rg => by rw [first g rg, mf]; rcases hj2 with rfl | rfl <;> rfl, fun g rg => ?_, ?_⟩
        · rw [hsame g rg]
          have : t2 = t := canonical w rt2 rt
          subst this
          rw [mark_above w rt2 m3 e re.eok lte, upd_same]
          rcases hj2 with rfl | rfl <;> rfl
        · rcases hj2 with rfl | rfl <;> exact s3

/-- The nodes of the first clause, none of them met before, and of those below -/
theorem top_visit {s : Store} (w : s.WF) {z : Nat} {ps : List (Nat × Nat)} : ∀ {c : List Nat} {j k : Nat} {M M' : Nat → Nat} {f : Edge},
    Ok s.ord (c :: pairs z ps) → Rep s f (cnf (c :: pairs z ps)) → j + c.length ≤ 5 →
    (∀ c', c' <:+ c → c' ≠ [] → ∀ g, Rep s g (cnf (c' :: pairs z ps)) → M g.addr = 0) → St s M z ps j →
    markShared s k M f = some M' →
    St s M' z ps (j + c.length) ∧ ∀ c', c' <:+ c → c' ≠ [] → ∀ g, Rep s g (cnf (c' :: pairs z ps)) → M' g.addr = 1
  | [], j, k, M, M', f, ok, r, hj, h0, hs, h => by
    rw [cnf_nil] at r
    have := visit_const w r h
    subst this
    refine ⟨hs, fun c' h1 h2 => absurd (List.suffix_nil.1 h1) h2⟩
  | x :: c, j, k, M, M', f, ok, r, hj, h0, hs, h => by
    rw [List.length_cons] at hj
    have hid := (node w ok r).1
    have oke := ok.els
    have okt := ok.thn
    obtain ⟨b1, b2⟩ := ok.below
    have hf0 := h0 (x :: c) (List.suffix_refl _) (by simp) f r
    obtain ⟨k1, rfl, hv⟩ := Print.visit w ok r (.inr (pairs_nonempty z ps)) h
    rcases hv with ⟨ha, -⟩ | ⟨ha, t, e, M1, rt, re, l1, l2, m1, m2⟩
    · omega
    · have low : ∀ b, ∀ g, s.EOK g → s.ord.lvl x < s.ord.lvl g.id → upd M f.addr b g.addr = M g.addr := fun b g hg hl =>
        upd_ne _ _ (addr_ne w hg r.eok (by rw [hid]; omega))
      have s0 := St.congr w (low 1) okt b2 hs
      have s1 := St.visit w okt rt (by omega) s0 m1
      have a1 := mark_above w rt m1
      have ltt : ∀ v ∈ c, s.ord.lvl v < s.ord.lvl t.id := by
        intro v hv
        cases hp : pairs z ps with
        | nil => exact absurd hp (pairs_nonempty z ps)
        | cons d ds =>
          cases d with
          | nil => exact absurd rfl (pairs_ne z ps [] (by rw [hp]; simp))
          | cons u d =>
            rw [hp] at rt okt
            rw [(node w okt rt).1]
            have inc := oke.inc
            rw [hp, List.flatten_cons] at inc
            have h1 := inc.1 v (by simp [hv])
            have h2 := inc.1 u (by simp)
            have := (List.pairwise_append.1 inc.2).2.2 v hv u (by simp)
            unfold Order.lvl
            rw [if_neg (by omega), if_neg (by omega)]
            exact this
      have hnode : ∀ c', c' <:+ c → c' ≠ [] → ∀ g, Rep s g (cnf (c' :: pairs z ps)) → ∃ v ∈ c, g.id = v := by
        intro c' h1 h2 g rg
        cases c' with
        | nil => exact absurd rfl h2
        | cons v c' =>
          have okv : Ok s.ord ((v :: c') :: pairs z ps) := by
            obtain ⟨pre, rfl⟩ := h1
            refine ⟨?_, oke.ne⟩
            have := oke.inc
            rw [List.flatten_cons, List.append_assoc] at this
            exact this.drop
          exact ⟨v, h1.subset (by simp), (node w okv rg).1⟩
      have z1 : ∀ c', c' <:+ c → c' ≠ [] → ∀ g, Rep s g (cnf (c' :: pairs z ps)) → M1 g.addr = 0 := by
        intro c' h1 h2 g rg
        obtain ⟨v, hv, hgv⟩ := hnode c' h1 h2 g rg
        rw [a1 g rg.eok (by rw [hgv]; exact ltt v hv), low 1 g rg.eok (by rw [hgv]; exact b1 v hv)]
        exact h0 c' (h1.trans (List.suffix_cons x c)) h2 g rg
      obtain ⟨s2, o2⟩ := top_visit w (c := c) oke re (by omega) z1 s1 m2
      refine ⟨by rw [List.length_cons, show j + (c.length + 1) = j + 1 + c.length by omega]; exact s2, ?_⟩
      intro c' h1 h2 g rg
      rcases List.suffix_cons_iff.1 h1 with rfl | h1
      · have : g = f := canonical w rg r
        subst this
        rw [mark_above w re m2 g rg.eok (by rw [hid]; exact l2), a1 g rg.eok (by rw [hid]; exact l1), upd_same]
      · exact o2 c' h1 h2 g rg

/-! ## No other nodes -/

/-- The clauses of the nodes for `c` and then `cs` -/
def clauses : List Nat → List (List Nat) → List (List (List Nat))
  | [], _ => []
  | x :: c, cs => ((x :: c) :: cs) :: clauses c cs

def chain : List (List Nat) → List (List (List Nat))
  | [] => []
  | c :: cs => clauses c cs ++ chain cs

theorem clauses_closed {c : List Nat} {cs : List (List Nat)} : ∀ {x d ds}, ((x :: d) :: ds) ∈ clauses c cs →
    ds = cs ∧ (d ≠ [] → (d :: ds) ∈ clauses c cs) := by
  induction c with
  | nil => intro x d ds h; cases h
  | cons y c ih =>
    intro x d ds h
    simp only [clauses, List.mem_cons] at h
    rcases h with h | h
    · cases h
      refine ⟨rfl, fun hd => ?_⟩
      cases c with
      | nil => exact absurd rfl hd
      | cons u c => simp [clauses]
    · obtain ⟨h1, h2⟩ := ih h
      exact ⟨h1, fun hd => by simp only [clauses, List.mem_cons]; exact .inr (h2 hd)⟩

theorem chain_self {cs : List (List Nat)} (h : ∀ c ∈ cs, c ≠ []) (hne : cs ≠ []) : cs ∈ chain cs := by
  cases cs with
  | nil => exact absurd rfl hne
  | cons c cs =>
    cases c with
    | nil => exact absurd rfl (h [] (by simp))
    | cons x c => simp [chain, clauses]

theorem chain_closed {cs : List (List Nat)} (hne : ∀ c ∈ cs, c ≠ []) : ∀ {x d ds}, ((x :: d) :: ds) ∈ chain cs →
    (ds ≠ [] → ds ∈ chain cs) ∧ (d ≠ [] → (d :: ds) ∈ chain cs) := by
  induction cs with
  | nil => intro x d ds h; cases h
  | cons c cs ih =>
    intro x d ds h
    have hne' : ∀ c ∈ cs, c ≠ [] := fun c hc => hne c (by simp [hc])
    simp only [chain, List.mem_append] at h ⊢
    rcases h with h | h
    · obtain ⟨rfl, h2⟩ := clauses_closed h
      exact ⟨fun hd => .inr (chain_self hne' hd), fun hd => .inl (h2 hd)⟩
    · obtain ⟨h1, h2⟩ := ih hne' h
      exact ⟨fun hd => .inr (h1 hd), fun hd => .inr (h2 hd)⟩

theorem chain_form {cs : List (List Nat)} : ∀ d ∈ chain cs, ∃ x c ds, d = (x :: c) :: ds := by
  have cl : ∀ (c : List Nat) (cs : List (List Nat)), ∀ d ∈ clauses c cs, ∃ x c ds, d = (x :: c) :: ds := by
    intro c
    induction c with
    | nil => intro cs d h; cases h
    | cons x c ih =>
      intro cs d h
      simp only [clauses, List.mem_cons] at h
      rcases h with rfl | h
      · exact ⟨_, _, _, rfl⟩
      · exact ih cs d h
  induction cs with
  | nil => intro d h; cases h
  | cons c cs ih =>
    intro d h
    simp only [chain, List.mem_append] at h
    rcases h with h | h
    · exact cl c cs d h
    · exact ih d h

theorem chain_ok {o : Order} {cs : List (List Nat)} (hne : ∀ c ∈ cs, c ≠ []) (inc : Increasing o cs.flatten) : ∀ d ∈ chain cs, Ok o d := by
  have cl : ∀ (c : List Nat) (cs : List (List Nat)), (∀ c ∈ cs, c ≠ []) → Increasing o (c :: cs).flatten → ∀ d ∈ clauses c cs, Ok o d := by
    intro c
    induction c with
    | nil => intro cs _ _ d h; cases h
    | cons x c ih =>
      intro cs hne inc d h
      simp only [clauses, List.mem_cons] at h
      rcases h with rfl | h
      · exact ⟨inc, hne⟩
      · refine ih cs hne ?_ d h
        simp only [List.flatten_cons, List.cons_append] at inc ⊢
        exact inc.tail
  induction cs with
  | nil => intro d h; cases h
  | cons c cs ih =>
    intro d h
    have hne' : ∀ c ∈ cs, c ≠ [] := fun c hc => hne c (by simp [hc])
    simp only [chain, List.mem_append] at h
    rcases h with h | h
    · exact cl c cs hne' inc d h
    · exact ih hne' (by rw [List.flatten_cons] at inc; exact inc.drop) d h

theorem chain_length (cs : List (List Nat)) : (chain cs).length = cs.flatten.length := by
  have cl : ∀ (c : List Nat) (cs : List (List Nat)), (clauses c cs).length = c.length := by
    intro c
    induction c with
    | nil => intro cs; rfl
    | cons x c ih => intro cs; simp [clauses, ih]
  induction cs with
  | nil => rfl
  | cons c cs ih => simp only [chain, List.length_append, cl, ih, List.flatten_cons]

/-- Marks are on the nodes of the chain only. -/
theorem mark_chain {s : Store} (w : s.WF) {cs : List (List Nat)} (hne : ∀ c ∈ cs, c ≠ []) (hcs : cs ≠ []) (inc : Increasing s.ord cs.flatten)
    {k : Nat} {M' : Nat → Nat} {f : Edge} (r : Rep s f (cnf cs)) (h : markShared s k (fun _ => 0) f = some M') (a : Nat) (ha : M' a ≠ 0) :
    ∃ d ∈ chain cs, ∃ g, Rep s g (cnf d) ∧ Dump.NT s g ∧ g.addr = a := by
  have cl : ∀ g t u, s.EOK g → Dump.NT s g → (∃ d ∈ chain cs, ∃ g', Rep s g' (cnf d) ∧ Dump.NT s g' ∧ g'.addr = g.addr) →
      s.kids g = some (t, u) →
      (Dump.NT s t → ∃ d ∈ chain cs, ∃ g', Rep s g' (cnf d) ∧ Dump.NT s g' ∧ g'.addr = t.addr) ∧
      (Dump.NT s u → ∃ d ∈ chain cs, ∃ g', Rep s g' (cnf d) ∧ Dump.NT s g' ∧ g'.addr = u.addr) := by
    rintro g t u hg hn ⟨d, hd, g', rg, hn', hadd⟩ hk
    obtain ⟨x, c, ds, rfl⟩ := chain_form d hd
    have ok := chain_ok hne inc _ hd
    obtain ⟨-, -, t', u', hk', rt, ru, -, -⟩ := node w ok rg
    obtain ⟨c1, c2⟩ := chain_closed hne hd
    have base : (Dump.NT s t' → ∃ d ∈ chain cs, ∃ g, Rep s g (cnf d) ∧ Dump.NT s g ∧ g.addr = t'.addr) ∧
        (Dump.NT s u' → ∃ d ∈ chain cs, ∃ g, Rep s g (cnf d) ∧ Dump.NT s g ∧ g.addr = u'.addr) := by
      constructor
      · intro h
        refine ⟨ds, c1 ?_, t', rt, h, rfl⟩
        rintro rfl
        exact ((Dump.NT.sem w rt).1 h).2.1 (by funext ρ; rfl)
      · intro h
        refine ⟨c :: ds, c2 ?_, u', ru, h, rfl⟩
        rintro rfl
        exact ((Dump.NT.sem w ru).1 h).1 (cnf_nil ds)
    rcases Dump.addr_eq w hg rg.eok hadd.symm with rfl | rfl
    · rw [hk] at hk'
      cases hk'
      exact base
    · rw [Dump.kids_not hk'] at hk
      cases hk
      exact ⟨fun h => base.1 (Dump.NT.of_not w rt.eok h), fun h => base.2 (Dump.NT.of_not w ru.eok h)⟩
  rcases mark_only w (P := fun a => ∃ d ∈ chain cs, ∃ g, Rep s g (cnf d) ∧ Dump.NT s g ∧ g.addr = a) k _ r
      (fun hn => ⟨cs, chain_self hne hcs, f, r, hn, rfl⟩) cl h a ha with h | h
  · exact absurd rfl h
  · exact h

/-- The marks after five visits -/
theorem St.ones {s : Store} {M : Nat → Nat} {z : Nat} : ∀ {ps : List (Nat × Nat)}, St s M z ps 5 →
    ∀ d ∈ chain (pairs z ps), d ≠ [[z]] → ∀ g, Rep s g (cnf d) → M g.addr = 1
  | [], _, d, hd, hz, _, _ => by
    simp only [pairs, List.map_nil, List.nil_append, chain, clauses, List.append_nil, List.mem_singleton] at hd
    exact absurd hd hz
  | (x, y) :: ps, ⟨h1, h2, h3⟩, d, hd, hz, g, rg => by
    rw [pairs_cons] at hd
    simp only [chain, clauses, List.cons_append, List.nil_append, List.mem_cons] at hd
    rcases hd with rfl | rfl | hd
    · exact h1 g rg
    · exact h2 g rg
    · exact St.ones h3 d hd hz g rg

/-- No node has the mark of a shared node. -/
theorem no_mark {s : Store} (w : s.WF) {z : Nat} {ps : List (Nat × Nat)} {c : List Nat} (hc : c.length = 5)
    (inc : Increasing s.ord (c :: pairs z ps).flatten) {k : Nat} {M' : Nat → Nat} {f : Edge} (r : Rep s f (cnf (c :: pairs z ps)))
    (h : markShared s k (fun _ => 0) f = some M') (a : Nat) : M' a ≠ 2 := by
  intro h2
  have hne : ∀ d ∈ c :: pairs z ps, d ≠ [] := by
    intro d hd
    rcases List.mem_cons.1 hd with rfl | hd
    · intro h; rw [h] at hc; cases hc
    · exact pairs_ne z ps d hd
  obtain ⟨d, hd, g, rg, hn, rfl⟩ := mark_chain w hne (by simp) inc r h a (by omega)
  obtain ⟨t1, t2⟩ := top_visit w (j := 0) ⟨inc, fun d hd => hne d (List.mem_of_mem_drop hd)⟩ r (by omega) (fun _ _ _ _ _ => rfl)
    (St.zero s z ps) h
  rw [hc] at t1
  simp only [chain, List.mem_append] at hd
  have one : M' g.addr = 1 := by
    rcases hd with hd | hd
    · have : ∀ c0, c0 <:+ c → d ∈ clauses c0 (pairs z ps) → ∃ c', c' <:+ c ∧ c' ≠ [] ∧ d = c' :: pairs z ps := by
        intro c0
        induction c0 with
        | nil => intro _ h; cases h
        | cons x c0 ih =>
          intro hs h
          simp only [clauses, List.mem_cons] at h
          rcases h with rfl | h
          · exact ⟨_, hs, by simp, rfl⟩
          · exact ih ((List.suffix_cons x c0).trans hs) h
      obtain ⟨c', h1, h3, rfl⟩ := this c (List.suffix_refl _) hd
      exact t2 c' h1 h3 g rg
    · refine St.ones t1 d hd ?_ g rg
      rintro rfl
      exact ((Dump.NT.sem w rg).1 hn).2.2.1 ⟨z, by funext ρ; simp [cnf]⟩
  omega

theorem number_none {s : Store} : ∀ {k : Nat} {M : Nat → Nat} {H : List (Edge × Int)} {n : Nat} {f : Edge} {M' H' n'},
    numberShared s k (M, H, n) f = some (M', H', n') → (∀ a, M a ≠ 2) → (∀ a, M' a ≠ 2) ∧ H' = H ∧ n' = n
  | 0, _, _, _, _, _, _, _, h, _ => by simp [numberShared] at h
  | k + 1, M, H, n, f, M', H', n', h, h2 => by
    unfold numberShared at h
    split at h
    · cases h; exact ⟨h2, rfl, rfl⟩
    · cases ht : typeAux s f with
      | none => rw [ht] at h; cases h
      | some ty =>
        rw [ht] at h
        have rest : (if M f.addr = 0 then some (M, H, n)
            else
              let x := if M f.addr = 2 then ((f, (n : Int)) :: H, n + 1) else (H, n)
              match s.kids f with
              | none => none
              | some (t, e) =>
                match numberShared s k (upd M f.addr 0, x.1, x.2) t with
                | none => none
                | some r => numberShared s k r e) = some (M', H', n') → (∀ a, M' a ≠ 2) ∧ H' = H ∧ n' = n := by
          intro h'
          split at h'
          · cases h'; exact ⟨h2, rfl, rfl⟩
          · rw [if_neg (h2 f.addr)] at h'
            simp only at h'
            cases hk : s.kids f with
            | none => rw [hk] at h'; cases h'
            | some te =>
              obtain ⟨t, e⟩ := te
              rw [hk] at h'
              simp only at h'
              cases h1 : numberShared s k (upd M f.addr 0, H, n) t with
              | none => rw [h1] at h'; cases h'
              | some r =>
                obtain ⟨M1, H1, n1⟩ := r
                rw [h1] at h'
                simp only at h'
                obtain ⟨a1, rfl, rfl⟩ := number_none h1 (by
                  intro a
                  unfold upd
                  split
                  · decide
                  · exact h2 a)
                exact number_none h' a1
        cases ty with
        | posvar => cases h; exact ⟨h2, rfl, rfl⟩
        | negvar => cases h; exact ⟨h2, rfl, rfl⟩
        | zero => exact rest h
        | one => exact rest h
        | nonterminal => exact rest h
        | overflow => exact rest h

/-! ## The length -/

/-- The length of what is written for a node is at least those for its successors. -/
def Sums (s : Store) (L : Edge → Nat → Prop) : Prop :=
  ∀ f t e n, Dump.NT s f → s.kids f = some (t, e) → L f n → ∃ n1 n2, L t n1 ∧ L e n2 ∧ n1 + n2 ≤ n

theorem long_pairs {s : Store} (w : s.WF) {L : Edge → Nat → Prop} (sm : Sums s L) (pos : ∀ f n, L f n → 1 ≤ n) {z : Nat} :
    ∀ {ps : List (Nat × Nat)} {f : Edge} {n : Nat}, Ok s.ord (pairs z ps) → Rep s f (cnf (pairs z ps)) → L f n → 2 ^ ps.length ≤ n
  | [], f, n, _, _, h => pos f n h
  | (x, y) :: ps, f, n, ok, r, h => by
    rw [pairs_cons] at ok r
    obtain ⟨-, -, t, e, hk, rt, re, -, -⟩ := node w ok r
    obtain ⟨n1, n2, h1, h2, hs⟩ := sm f t e n (node_nt w ok r (.inl (by simp))) hk h
    obtain ⟨-, -, t', e', hk', rt', re', -, -⟩ := node w ok.els re
    obtain ⟨n3, n4, h3, h4, hs'⟩ := sm e t' e' n2 (node_nt w ok.els re (.inr (pairs_nonempty z ps))) hk' h2
    have i1 := long_pairs w sm pos ok.thn rt h1
    have i2 := long_pairs w sm pos ok.thn rt' h3
    rw [List.length_cons, Nat.pow_succ]
    omega

theorem long {s : Store} (w : s.WF) {L : Edge → Nat → Prop} (sm : Sums s L) (pos : ∀ f n, L f n → 1 ≤ n) {z : Nat}
    {ps : List (Nat × Nat)} : ∀ {c : List Nat} {f : Edge} {n : Nat}, Ok s.ord (c :: pairs z ps) → Rep s f (cnf (c :: pairs z ps)) →
    L f n → c.length * 2 ^ ps.length ≤ n
  | [], f, n, _, _, h => by simp
  | x :: c, f, n, ok, r, h => by
    obtain ⟨-, -, t, e, hk, rt, re, -, -⟩ := node w ok r
    obtain ⟨n1, n2, h1, h2, hs⟩ := sm f t e n (node_nt w ok r (.inr (pairs_nonempty z ps))) hk h
    have i1 := long_pairs w sm pos ok.thn rt h1
    have i2 := long w sm pos ok.els re h2
    rw [List.length_cons, Nat.succ_mul]
    omega

/-- Printing with an empty table -/
theorem printStep_nil {s : Store} {nm : Option (Nat → Option (List Char))} {tn : Option (Bool → Option (List Char))} :
    ∀ {k d : Nat} {f : Edge} {o H}, printStep s nm tn k d [] f = some (o, H) → H = [] ∧ 1 ≤ o.length ∧
      (Dump.NT s f → ∀ t e, s.kids f = some (t, e) → ∃ k' o1 o2, printStep s nm tn k' (d + 2) [] t = some (o1, []) ∧
        printStep s nm tn k' (d + 2) [] e = some (o2, []) ∧ o1.length + o2.length ≤ o.length)
  | 0, _, _, _, _, h => by simp [printStep] at h
  | k + 1, d, f, o, H, h => by
    unfold printStep at h
    cases ht : typeAux s f with
    | none => rw [ht] at h; cases h
    | some ty =>
      rw [ht] at h
      cases ty with
      | zero => cases h; exact ⟨rfl, by simp; omega, fun hn => by rw [Dump.NT, ht] at hn; cases hn⟩
      | one => cases h; exact ⟨rfl, by simp; omega, fun hn => by rw [Dump.NT, ht] at hn; cases hn⟩
      | posvar => cases h; exact ⟨rfl, by simp [topVar]; omega, fun hn => by rw [Dump.NT, ht] at hn; cases hn⟩
      | negvar => cases h; exact ⟨rfl, by simp; omega, fun hn => by rw [Dump.NT, ht] at hn; cases hn⟩
      | overflow => cases h
      | nonterminal =>
        simp only [lookup, List.find?_nil, Option.map_none, Option.isSome_none, Bool.false_eq_true, if_false, Option.filter_none] at h
        cases hk : s.kids f with
        | none => rw [hk] at h; cases h
        | some te =>
          obtain ⟨t, e⟩ := te
          rw [hk] at h
          simp only at h
          cases h1 : printStep s nm tn k (d + 2) [] t with
          | none => rw [h1] at h; cases h
          | some r1 =>
            obtain ⟨o1, H1⟩ := r1
            obtain ⟨rfl, -⟩ := printStep_nil h1
            rw [h1] at h
            simp only at h
            cases h2 : printStep s nm tn k (d + 2) [] e with
            | none => rw [h2] at h; cases h
            | some r2 =>
              obtain ⟨o2, H2⟩ := r2
              obtain ⟨rfl, -⟩ := printStep_nil h2
              rw [h2] at h
              cases h
              refine ⟨rfl, by simp; omega, fun _ t' e' hk' => ?_⟩
              cases hk'
              exact ⟨k, o1, o2, h1, h2, by simp; omega⟩

theorem print_long {s : Store} (w : s.WF) (nm : Option (Nat → Option (List Char))) (tn : Option (Bool → Option (List Char)))
    {z : Nat} {ps : List (Nat × Nat)} {c : List Nat} (hc : c.length = 5) (inc : Increasing s.ord (c :: pairs z ps).flatten)
    {f : Edge} (r : Rep s f (cnf (c :: pairs z ps))) {txt M} (h : printEdge s nm tn (fun _ => 0) f = some (txt, M)) :
    5 * 2 ^ ps.length ≤ txt.length := by
  unfold printEdge at h
  cases h1 : markShared s (s.ord.numVars + 1) (fun _ => 0) f with
  | none => rw [h1] at h; cases h
  | some M1 =>
    rw [h1] at h
    simp only at h
    cases h2 : numberShared s (s.ord.numVars + 1) (M1, [], 0) f with
    | none => rw [h2] at h; cases h
    | some r2 =>
      obtain ⟨M2, H, n⟩ := r2
      obtain ⟨-, rfl, -⟩ := number_none h2 (no_mark w hc inc r h1)
      rw [h2] at h
      simp only at h
      cases h3 : printStep s nm tn (s.ord.numVars + 1) 0 [] f with
      | none => rw [h3] at h; cases h
      | some r3 =>
        obtain ⟨o, H⟩ := r3
        obtain ⟨rfl, -⟩ := printStep_nil h3
        rw [h3] at h
        cases h
        have := long w (L := fun f n => ∃ k d o, printStep s nm tn k d [] f = some (o, []) ∧ n = o.length)
          (by
            rintro f t e n hn hk ⟨k, d, o, h, rfl⟩
            obtain ⟨-, -, h⟩ := printStep_nil h
            obtain ⟨k', o1, o2, a1, a2, a3⟩ := h hn t e hk
            exact ⟨_, _, ⟨k', _, o1, a1, rfl⟩, ⟨k', _, o2, a2, rfl⟩, a3⟩)
          (by
            rintro f n ⟨k, d, o, h, rfl⟩
            exact (printStep_nil h).2.1)
          ⟨inc, fun d hd => pairs_ne z ps d (by simpa using hd)⟩ r ⟨_, _, _, h3, rfl⟩
        rw [hc] at this
        exact this

/-- Writing with an empty table -/
theorem dumpStep_nil {s : Store} {norm : Nat → Nat} {isz nsz : Nat} :
    ∀ {k : Nat} {f : Edge} {o H}, Dump.dumpStep s norm isz nsz k [] f = some (o, H) → H = [] ∧ (1 ≤ isz → 1 ≤ o.length) ∧
      (Dump.NT s f → ∀ t e, s.kids f = some (t, e) → ∃ k' o1 o2, Dump.dumpStep s norm isz nsz k' [] t = some (o1, []) ∧
        Dump.dumpStep s norm isz nsz k' [] e = some (o2, []) ∧ o1.length + o2.length ≤ o.length)
  | 0, _, _, _, h => by simp [Dump.dumpStep] at h
  | k + 1, f, o, H, h => by
    unfold Dump.dumpStep at h
    cases ht : typeAux s f with
    | none => rw [ht] at h; cases h
    | some ty =>
      rw [ht] at h
      cases ty with
      | zero => cases h; exact ⟨rfl, by simp [Dump.write_len], fun hn => by rw [Dump.NT, ht] at hn; cases hn⟩
      | one => cases h; exact ⟨rfl, by simp [Dump.write_len], fun hn => by rw [Dump.NT, ht] at hn; cases hn⟩
      | posvar => cases h; exact ⟨rfl, by simp [Dump.write_len]; omega, fun hn => by rw [Dump.NT, ht] at hn; cases hn⟩
      | negvar => cases h; exact ⟨rfl, by simp [Dump.write_len]; omega, fun hn => by rw [Dump.NT, ht] at hn; cases hn⟩
      | overflow => cases h
      | nonterminal =>
        simp only [lookup, List.find?_nil, Option.map_none, Option.isSome_none, Bool.false_eq_true, if_false, Option.filter_none] at h
        cases hk : s.kids f with
        | none => rw [hk] at h; cases h
        | some te =>
          obtain ⟨t, e⟩ := te
          rw [hk] at h
          simp only at h
          cases h1 : Dump.dumpStep s norm isz nsz k [] t with
          | none => rw [h1] at h; cases h
          | some r1 =>
            obtain ⟨o1, H1⟩ := r1
            obtain ⟨rfl, -⟩ := dumpStep_nil h1
            rw [h1] at h
            simp only at h
            cases h2 : Dump.dumpStep s norm isz nsz k [] e with
            | none => rw [h2] at h; cases h
            | some r2 =>
              obtain ⟨o2, H2⟩ := r2
              obtain ⟨rfl, -⟩ := dumpStep_nil h2
              rw [h2] at h
              cases h
              refine ⟨rfl, by simp [Dump.write_len]; omega, fun _ t' e' hk' => ?_⟩
              cases hk'
              exact ⟨k, o1, o2, h1, h2, by simp⟩

theorem dump_long {s : Store} (w : s.WF) (norm : Nat → Nat) (nv : Nat)
    {z : Nat} {ps : List (Nat × Nat)} {c : List Nat} (hc : c.length = 5) (inc : Increasing s.ord (c :: pairs z ps).flatten)
    {f : Edge} (r : Rep s f (cnf (c :: pairs z ps))) {out} (h : Dump.dumpFile s norm nv f = some out) :
    5 * 2 ^ ps.length ≤ out.length := by
  unfold Dump.dumpFile at h
  cases h1 : markShared s (s.ord.numVars + 1) (fun _ => 0) f with
  | none => rw [h1] at h; cases h
  | some M1 =>
    rw [h1] at h
    simp only at h
    cases h2 : numberShared s (s.ord.numVars + 1) (M1, [], 0) f with
    | none => rw [h2] at h; cases h
    | some r2 =>
      obtain ⟨M2, H, n⟩ := r2
      obtain ⟨-, rfl, rfl⟩ := number_none h2 (no_mark w hc inc r h1)
      rw [h2] at h
      simp only at h
      have hb : 1 ≤ Dump.bytesNeeded (nv + 1) := by
        unfold Dump.bytesNeeded; (repeat' split) <;> omega
      generalize Dump.bytesNeeded (nv + 1) = isz at h hb
      generalize Dump.bytesNeeded 0 = nsz at h
      cases h3 : Dump.dumpStep s norm isz nsz (s.ord.numVars + 1) [] f with
      | none => rw [h3] at h; cases h
      | some r3 =>
        obtain ⟨o, H⟩ := r3
        obtain ⟨rfl, -⟩ := dumpStep_nil h3
        rw [h3] at h
        cases h
        have := long w (L := fun f n => ∃ k o, Dump.dumpStep s norm isz nsz k [] f = some (o, []) ∧ n = o.length)
          (by
            rintro f t e n hn hk ⟨k, o, h, rfl⟩
            obtain ⟨-, -, h⟩ := dumpStep_nil h
            obtain ⟨k', o1, o2, a1, a2, a3⟩ := h hn t e hk
            exact ⟨_, _, ⟨k', o1, a1, rfl⟩, ⟨k', o2, a2, rfl⟩, a3⟩)
          (by
            rintro f n ⟨k, o, h, rfl⟩
            exact (dumpStep_nil h).2.1 hb)
          ⟨inc, fun d hd => pairs_ne z ps d (by simpa using hd)⟩ r ⟨_, _, h3, rfl⟩
        rw [hc] at this
        simp only [List.length_append]
        omega

/-! ## The size -/

theorem below_chain {s : Store} (w : s.WF) {cs : List (List Nat)} (hne : ∀ c ∈ cs, c ≠ []) (inc : Increasing s.ord cs.flatten)
    {f x : Edge} (h : Below s f x) :
    ((∃ d ∈ chain cs, Rep s f (cnf d)) ∨ Rep s f (fun _ => true) ∨ Rep s f (fun _ => false)) →
    ((∃ d ∈ chain cs, Rep s x (cnf d)) ∨ Rep s x (fun _ => true) ∨ Rep s x (fun _ => false)) := by
  have step : ∀ f t u, s.kids f = some (t, u) →
      ((∃ d ∈ chain cs, Rep s f (cnf d)) ∨ Rep s f (fun _ => true) ∨ Rep s f (fun _ => false)) →
      ((∃ d ∈ chain cs, Rep s t (cnf d)) ∨ Rep s t (fun _ => true) ∨ Rep s t (fun _ => false)) ∧
      ((∃ d ∈ chain cs, Rep s u (cnf d)) ∨ Rep s u (fun _ => true) ∨ Rep s u (fun _ => false)) := by
    intro f t u hk h
    rcases h with ⟨d, hd, r⟩ | r | r
    · obtain ⟨x, c, ds, rfl⟩ := chain_form d hd
      obtain ⟨-, -, t', u', hk', rt, ru, -, -⟩ := node w (chain_ok hne inc _ hd) r
      rw [hk] at hk'
      cases hk'
      obtain ⟨c1, c2⟩ := chain_closed hne hd
      constructor
      · by_cases hds : ds = []
        · right; left
          rw [hds] at rt
          exact rt
        · exact .inl ⟨ds, c1 hds, rt⟩
      · by_cases hc : c = []
        · right; right
          rw [hc, cnf_nil] at ru
          exact ru
        · exact .inl ⟨_, c2 hc, ru⟩
    · rw [kids_const w r.eok ((r.const_iff w).2 (.inl rfl))] at hk; cases hk
    · rw [kids_const w r.eok ((r.const_iff w).2 (.inr rfl))] at hk; cases hk
  induction h with
  | refl => exact fun h => h
  | thn hk b ih => exact fun h => ih (step _ _ _ hk h).1
  | els hk b ih => exact fun h => ih (step _ _ _ hk h).2

/-- One node for each variable, and the constants -/
theorem small {s : Store} (w : s.WF) {cs : List (List Nat)} (hne : ∀ c ∈ cs, c ≠ []) (hcs : cs ≠ []) (inc : Increasing s.ord cs.flatten)
    {f : Edge} (r : Rep s f (cnf cs)) {n : Nat} (hn : Number (Subfn s.ord (cnf cs)) n) : n ≤ cs.flatten.length + 2 := by
  obtain ⟨L, nd, hL, rfl⟩ := hn
  have := nodup_length_le (l' := (chain cs).map cnf ++ [fun _ => true, fun _ => false]) nd (by
    intro G hG
    obtain ⟨k, ρ, rfl⟩ := (hL G).1 hG
    obtain ⟨x, b, rx⟩ := restr_below w k ρ (s.ord.numVars + 1) r (by omega)
    simp only [List.mem_append, List.mem_map, List.mem_cons, List.not_mem_nil, or_false]
    rcases below_chain w hne inc b (.inl ⟨cs, chain_self hne hcs, r⟩) with ⟨d, hd, rd⟩ | rd | rd
    · exact .inl ⟨d, hd, rd.unique w rx⟩
    · exact .inr (.inl (rx.unique w rd))
    · exact .inr (.inr (rx.unique w rd)))
  simp only [List.length_append, List.length_map, chain_length, List.length_cons, List.length_nil] at this
  exact this

end Cal.Print
