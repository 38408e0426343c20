import Verif.DfExchange

/-!
# The exchange of two adjacent variables as a whole

`exchangeNodes_spec`: exchanging the nodes of two adjacent variables gives a well-formed store for the
exchanged order, in which every old node that is left denotes the same function.
-/

namespace Cal

namespace Df

/-! ## The order -/

theorem swap_lvl_x {o : Order} {x y : Nat} (hx : 1 ≤ x) (h : x ≠ y) :
    (swapOrder o x y).lvl x = o.lvl x + 1 := by
  have : x ≠ 0 := by omega
  simp [Order.lvl, swapOrder, this, upd_ne _ _ h]

theorem swap_lvl_y {o : Order} {x y : Nat} (hx : 1 ≤ x) (hy : 1 ≤ y) :
    (swapOrder o x y).lvl y = o.lvl x := by
  have : x ≠ 0 := by omega
  have : y ≠ 0 := by omega
  simp [Order.lvl, swapOrder, *]

theorem swap_lvl {o : Order} {x y z : Nat} (hx : z ≠ x) (hy : z ≠ y) :
    (swapOrder o x y).lvl z = o.lvl z := by
  simp [Order.lvl, swapOrder, upd_ne _ _ hx, upd_ne _ _ hy]

theorem swap_wf {o : Order} (w : o.WF) {x y : Nat} (x1 : 1 ≤ x) (x2 : x ≤ o.numVars) (y1 : 1 ≤ y)
    (y2 : y ≤ o.numVars) (lv : o.idToIndex y = o.idToIndex x + 1) : (swapOrder o x y).WF := by
  have hne : x ≠ y := by rintro rfl; omega
  have ix := w.idx_lt x x1 x2
  have iy := w.idx_lt y y1 y2
  have other : ∀ i, 1 ≤ i → i ≤ o.numVars → i ≠ x → i ≠ y →
      o.idToIndex i ≠ o.idToIndex x ∧ o.idToIndex i ≠ o.idToIndex x + 1 := by
    intro i h1 h2 hx hy
    constructor
    · intro h; have := w.left i h1 h2; rw [h, w.left x x1 x2] at this; exact hx this.symm
    · intro h; rw [← lv] at h; have := w.left i h1 h2; rw [h, w.left y y1 y2] at this; exact hy this.symm
  refine ⟨w.bound, ?_, ?_, ?_, ?_⟩
  · intro i h1 h2
    show upd (upd o.idToIndex x _) y _ i < o.numVars
    by_cases hy : i = y
    · rw [hy, upd_same]; exact ix
    · rw [upd_ne _ _ hy]
      by_cases hx : i = x
      · rw [hx, upd_same]; omega
      · rw [upd_ne _ _ hx]; exact w.idx_lt i h1 h2
  · intro k hk
    show 1 ≤ upd (upd o.indexToId _ y) _ x k ∧ upd (upd o.indexToId _ y) _ x k ≤ o.numVars
    by_cases h1 : k = o.idToIndex x + 1
    · rw [h1, upd_same]; exact ⟨x1, x2⟩
    · rw [upd_ne _ _ h1]
      by_cases h2 : k = o.idToIndex x
      · rw [h2, upd_same]; exact ⟨y1, y2⟩
      · rw [upd_ne _ _ h2]; exact w.id_range k hk
  · intro i h1 h2
    show upd (upd o.indexToId _ y) _ x (upd (upd o.idToIndex x _) y _ i) = i
    by_cases hy : i = y
    · rw [hy, upd_same, upd_ne _ _ (by omega), upd_same]
    · rw [upd_ne _ _ hy]
      by_cases hx : i = x
      · rw [hx, upd_same, upd_same]
      · have := other i h1 h2 hx hy
        rw [upd_ne _ _ hx, upd_ne _ _ this.2, upd_ne _ _ this.1]; exact w.left i h1 h2
  · intro k hk
    show upd (upd o.idToIndex x _) y _ (upd (upd o.indexToId _ y) _ x k) = k
    by_cases h1 : k = o.idToIndex x + 1
    · rw [h1, upd_same, upd_ne _ _ hne, upd_same]
    · rw [upd_ne _ _ h1]
      by_cases h2 : k = o.idToIndex x
      · rw [h2, upd_same, upd_same]
      · rw [upd_ne _ _ h2]
        have hr := w.right k hk
        rw [upd_ne _ _ (by intro h; rw [h] at hr; omega), upd_ne _ _ (by intro h; rw [h] at hr; omega)]
        exact hr

/-! ## The first loop -/

theorem pvar_iff {s : Store} (h0 : s.heap 0 = none) {y : Nat} (y1 : 1 ≤ y) {e : Edge} :
    pvar s e = some y ↔ ∃ m, s.heap e.addr = some m ∧ m.var = y := by
  unfold pvar
  by_cases he : e.addr = 0
  · rw [if_pos he, he, h0]
    simp; omega
  · rw [if_neg he]; simp

theorem pvar_some {s : Store} {k} {e : Edge} (h : Below s k e) : ∃ v, pvar s e = some v := by
  unfold pvar
  by_cases he : e.addr = 0
  · exact ⟨0, by rw [if_pos he]⟩
  · rcases h with h | ⟨m, hm, _⟩
    · exact absurd h he
    · exact ⟨m.var, by rw [if_neg he, hm]; rfl⟩

theorem unlink_spec {s : Store} (w : PWF s) {y : Nat} (y1 : 1 ≤ y) : ∀ (as l : List Nat), as.Nodup → l.Nodup →
    (∀ a, a ∈ as → a ∉ l) → (∀ a, a ∈ as → s.heap a ≠ none) →
    ∃ keep l', unlink s y as l = some (keep, l') ∧ keep.Nodup ∧ l'.Nodup ∧
      (∀ a, a ∈ keep ↔ a ∈ as ∧ ∀ n, s.heap a = some n → ¬ HasY s y n) ∧
      (∀ a, a ∈ l' ↔ a ∈ l ∨ (a ∈ as ∧ ∃ n, s.heap a = some n ∧ HasY s y n)) ∧
      keep.length + l'.length = as.length + l.length
  | [], l, _, hl, _, _ => ⟨[], l, rfl, List.nodup_nil, hl, by simp, by simp, by simp⟩
  | a :: as, l, hnd, hl, hdis, hlive => by
    have hnd' := List.nodup_cons.1 hnd
    cases hn : s.heap a with
    | none => exact absurd hn (hlive a List.mem_cons_self)
    | some n =>
      obtain ⟨v, hv⟩ := pvar_some (w.els_lo a n hn)
      obtain ⟨u, hu⟩ := pvar_some (w.thn_lo a n hn)
      have hy : HasY s y n ↔ ¬ (v ≠ y ∧ u ≠ y) := by
        unfold HasY
        rw [← pvar_iff w.heap0 y1, ← pvar_iff w.heap0 y1, hv, hu]
        simp only [Option.some.injEq]
        omega
      simp only [unlink, hn, hv, hu]
      by_cases hc : v ≠ y ∧ u ≠ y
      · rw [if_pos hc]
        obtain ⟨keep, l', h, k1, k2, k3, k4, k5⟩ := unlink_spec w y1 as l hnd'.2 hl
          (fun b hb => hdis b (List.mem_cons_of_mem _ hb)) (fun b hb => hlive b (List.mem_cons_of_mem _ hb))
        refine ⟨a :: keep, l', by rw [h]; rfl, ?_, k2, ?_, ?_, by simp; omega⟩
        · exact List.nodup_cons.2 ⟨fun h => hnd'.1 ((k3 a).1 h).1, k1⟩
        · intro b
          rw [List.mem_cons, List.mem_cons, k3]
          constructor
          · rintro (rfl | h)
            · refine ⟨Or.inl rfl, fun m hm => ?_⟩
              rw [hn] at hm; cases hm
              rw [hy]; exact fun h => h hc
            · exact ⟨Or.inr h.1, h.2⟩
          · rintro ⟨rfl | h, h2⟩
            · exact Or.inl rfl
            · exact Or.inr ⟨h, h2⟩
        · intro b
          rw [k4, List.mem_cons]
          constructor
          · rintro (h | h)
            · exact Or.inl h
            · exact Or.inr ⟨Or.inr h.1, h.2⟩
          · rintro (h | ⟨rfl | h, h2⟩)
            · exact Or.inl h
            · obtain ⟨m, hm, hm2⟩ := h2
              rw [hn] at hm; cases hm
              exact absurd hc (hy.1 hm2)
            · exact Or.inr ⟨h, h2⟩
      · rw [if_neg hc]
        obtain ⟨keep, l', h, k1, k2, k3, k4, k5⟩ := unlink_spec w y1 as (a :: l) hnd'.2
          (List.nodup_cons.2 ⟨hdis a List.mem_cons_self, hl⟩)
          (fun b hb => by
            rw [List.mem_cons, not_or]
            exact ⟨by rintro rfl; exact hnd'.1 hb, hdis b (List.mem_cons_of_mem _ hb)⟩)
          (fun b hb => hlive b (List.mem_cons_of_mem _ hb))
        refine ⟨keep, l', h, k1, k2, ?_, ?_, by simp at k5 ⊢; omega⟩
        · intro b
          rw [k3, List.mem_cons]
          constructor
          · rintro ⟨h1, h2⟩; exact ⟨Or.inr h1, h2⟩
          · rintro ⟨rfl | h1, h2⟩
            · exact absurd (hy.2 hc) (h2 n hn)
            · exact ⟨h1, h2⟩
        · intro b
          rw [k4, List.mem_cons, List.mem_cons]
          constructor
          · rintro ((rfl | h) | h)
            · exact Or.inr ⟨Or.inl rfl, n, hn, hy.2 hc⟩
            · exact Or.inl h
            · exact Or.inr ⟨Or.inr h.1, h.2⟩
          · rintro (h | ⟨rfl | h, h2⟩)
            · exact Or.inl (Or.inr h)
            · exact Or.inl (Or.inl rfl)
            · exact Or.inr ⟨h, h2⟩

/-! ## Sweeping does not depend on the order -/

theorem gcList_ord (o : Order) (k i : Nat) : ∀ (as : List Nat) (s : Store),
    Store.gcList k i as { s with ord := o } =
      (Store.gcList k i as s).map fun p => ({ p.1 with ord := o }, p.2)
  | [], s => rfl
  | a :: as, s => by
    simp only [Store.gcList]
    cases s.heap a with
    | none => rfl
    | some n =>
      simp only
      by_cases h : s.ref a = 0
      · rw [if_pos h, if_pos h]
        have := gcList_ord o k i as (s.freeNode k i a n)
        have e : Store.freeNode { s with ord := o } k i a n = { s.freeNode k i a n with ord := o } := rfl
        rw [e, this]
        cases Store.gcList k i as (s.freeNode k i a n) <;> rfl
      · rw [if_neg h, if_neg h]
        exact gcList_ord o k i as s

theorem gcTable_ord (o : Order) (k i : Nat) (s : Store) :
    Store.gcTable { s with ord := o } k i = (s.gcTable k i).map fun p => ({ p.1 with ord := o }, p.2) := by
  unfold Store.gcTable
  have := gcList_ord o k i (s.tab i) s
  rw [this]
  cases Store.gcList k i (s.tab i) s <;> rfl

/-! ## The result -/

section

variable {s0 : Store} {x y : Nat} {δ0 δ : Nat → BFn} {D : List Nat} {s : Store} {ext : Nat → Nat}

theorem Adj.idx (A : Adj s0 x y) : s0.ord.idToIndex y = s0.ord.idToIndex x + 1 := by
  have h := A.lv
  have h1 : x ≠ 0 := by have := A.x1; omega
  have h2 : y ≠ 0 := by have := A.y1; omega
  simpa [Order.lvl, h1, h2] using h

/-- the level of a variable in the new order -/
theorem Adj.lvl' (A : Adj s0 x y) (z : Nat) : (swapOrder s0.ord x y).lvl z =
    if z = x then s0.ord.lvl x + 1 else if z = y then s0.ord.lvl x else s0.ord.lvl z := by
  by_cases hx : z = x
  · rw [if_pos hx, hx]; exact swap_lvl_x A.x1 A.ne
  · rw [if_neg hx]
    by_cases hy : z = y
    · rw [if_pos hy, hy]; exact swap_lvl_y A.x1 A.y1
    · rw [if_neg hy]; exact swap_lvl hx hy

theorem Adj.low_of (A : Adj s0 x y) {e : Edge} (h : Below s0 (s0.ord.lvl x) e)
    (hy : ∀ m, s0.heap e.addr = some m → m.var ≠ y) : Low s0 x e := by
  rcases h with h | ⟨m, hm, hl⟩
  · exact Or.inl h
  · refine Or.inr ⟨m, hm, ?_⟩
    have vr := A.w.var_range _ _ hm
    have : s0.ord.lvl m.var ≠ s0.ord.lvl y := by
      intro h'
      exact hy m hm (A.w.ord.lvl_inj vr.1 vr.2 A.y1 A.y2 h')
    have := A.lv
    omega

/-- The store after all nodes have been exchanged is well formed for the new order. -/
theorem Mid.finish (A : Adj s0 x y) (M : Mid s0 x y δ0 D [] s δ) :
    PWF { s with ord := swapOrder s0.ord x y } := by
  have hxy := A.ne
  have w := A.w
  let o := swapOrder s0.ord x y
  let s' : Store := { s with ord := o }
  have xs : ∀ a n, s.heap a = some n → n.var = x → a ∈ s.tab x := by
    intro a n hn hv
    rcases M.cases hn with hd | ⟨hd, h0⟩ | ⟨_, hx⟩
    · obtain ⟨n0, n', _, _, _, _, g⟩ := M.done a hd
      have := g.cur; rw [hn] at this; cases this
      exact absurd (hv.symm.trans g.var) hxy
    · exact M.tabx a n h0 hv hd (by simp)
    · exact hx
  have xnode : ∀ a n, a ∈ s.tab x → s.heap a = some n → n.var = x ∧ (n.thn.id = 0 ∧ n.els.id = 0) ∧
      Low s0 x n.thn ∧ Low s0 x n.els ∧ n.thn.neg = false ∧ n.thn ≠ n.els := by
    intro a n ha hn
    obtain ⟨n', hn', h1, _, h2⟩ := M.xs a ha
    rw [hn] at hn'; cases hn'
    exact ⟨h1, h2⟩
  -- every node: converted, a node of x, or an old node of another variable
  have split : ∀ a n, s.heap a = some n → (a ∈ D ∧ n.var = y) ∨ (a ∈ s.tab x ∧ n.var = x) ∨
      (s0.heap a = some n ∧ n.var ≠ x) := by
    intro a n hn
    rcases M.cases hn with hd | ⟨hd, h0⟩ | ⟨_, hx⟩
    · obtain ⟨n0, n', _, _, _, _, g⟩ := M.done a hd
      have := g.cur; rw [hn] at this; cases this
      exact Or.inl ⟨hd, g.var⟩
    · by_cases hv : n.var = x
      · exact Or.inr (Or.inl ⟨xs a n hn hv, hv⟩)
      · exact Or.inr (Or.inr ⟨h0, hv⟩)
    · exact Or.inr (Or.inl ⟨hx, (xnode a n hx hn).1⟩)
  have done : ∀ a n, a ∈ D → s.heap a = some n →
      ∃ n0 f11 f10 f01 f00, DoneAt s0 x y s a n0 n f11 f10 f01 f00 := by
    intro a n hd hn
    obtain ⟨n0, n', b1, b2, b3, b4, g⟩ := M.done a hd
    have := g.cur; rw [hn] at this; cases this
    exact ⟨n0, b1, b2, b3, b4, g⟩
  have lvl' := A.lvl'
  have lowB : ∀ e, Low s0 x e → Below s' (s0.ord.lvl x + 1) e := by
    intro e he
    rcases id he with h | ⟨m, hm, hl⟩
    · exact Or.inl h
    · refine Or.inr ⟨m, ?_, ?_⟩
      · show s.heap e.addr = some m
        rw [M.low_heap A he]; exact hm
      · show s0.ord.lvl x + 1 < o.lvl m.var
        have hmx : m.var ≠ x := by intro h; rw [h] at hl; omega
        have hmy : m.var ≠ y := by intro h; rw [h, A.lv] at hl; omega
        rw [lvl', if_neg hmx, if_neg hmy]; exact hl
  have xlowB : ∀ e, XLow s0 x s e → Below s' (s0.ord.lvl x) e := by
    rintro e (he | he)
    · exact (lowB e he).weaken (by omega)
    · obtain ⟨n, hn, hv, _⟩ := M.xs _ he
      refine Or.inr ⟨n, hn, ?_⟩
      show s0.ord.lvl x < o.lvl n.var
      rw [lvl', if_pos hv]; omega
  have othB : ∀ e k, k ≠ x → 1 ≤ k → k ≤ s0.ord.numVars → Below s0 (s0.ord.lvl k) e →
      Below s' (o.lvl k) e := by
    intro e k hk k1 k2 he
    by_cases hky : k = y
    · subst hky
      have : Low s0 x e := by have := A.lv; unfold Low; rw [← this]; exact he
      refine (lowB e this).weaken ?_
      rw [lvl', if_neg hk, if_pos rfl]; omega
    · have hkl : s0.ord.lvl k ≠ s0.ord.lvl x := fun h => hk (w.ord.lvl_inj k1 k2 A.x1 A.x2 h)
      rw [lvl', if_neg hk, if_neg hky]
      rcases he with h | ⟨m, hm, hl⟩
      · exact Or.inl h
      · by_cases hD : e.addr ∈ D
        · obtain ⟨n0, n', _, _, _, _, g⟩ := M.done _ hD
          have := g.old; rw [hm] at this; cases this
          refine Or.inr ⟨n', g.cur, ?_⟩
          show s0.ord.lvl k < o.lvl n'.var
          rw [g.var, lvl', if_neg (Ne.symm hxy), if_pos rfl]
          rw [g.var0] at hl; exact hl
        · refine Or.inr ⟨m, M.keep _ _ hm hD, ?_⟩
          show s0.ord.lvl k < o.lvl m.var
          rw [lvl']
          have := A.lv
          split
          · rename_i h; rw [h] at hl; omega
          · split
            · rename_i h; rw [h] at hl; omega
            · exact hl
  refine ⟨swap_wf w.ord A.x1 A.x2 A.y1 A.y2 A.idx, M.fr.heap0, ?_, ?_, M.nodup, ?_, ?_, ?_, ?_, ?_, ?_,
    M.fr.next_pos, M.fr.heap_next, M.fr.free_nodup, M.fr.free_ok, M.fr.free_disj⟩
  · intro a n hn
    show 1 ≤ n.var ∧ n.var ≤ s0.ord.numVars
    rcases split a n hn with ⟨_, h⟩ | ⟨_, h⟩ | ⟨h, _⟩
    · rw [h]; exact ⟨A.y1, A.y2⟩
    · rw [h]; exact ⟨A.x1, A.x2⟩
    · exact w.var_range a n h
  · intro i a
    show a ∈ s.tab i ↔ ∃ n, s.heap a = some n ∧ n.var = i
    constructor
    · intro ha
      by_cases hix : i = x
      · subst hix
        obtain ⟨n, hn, hv, _⟩ := M.xs a ha
        exact ⟨n, hn, hv⟩
      · have hold : a ∈ s0.tab i → ∃ n, s.heap a = some n ∧ n.var = i := by
          intro h
          obtain ⟨n, hn, hv⟩ := (w.tab_iff i a).1 h
          exact ⟨n, M.keep a n hn (M.notD hn (by rw [hv]; exact hix)), hv⟩
        by_cases hiy : i = y
        · subst hiy
          rcases (M.taby a).1 ha with h | h
          · exact hold h
          · obtain ⟨n0, n', _, _, _, _, g⟩ := M.done _ h
            exact ⟨n', g.cur, g.var⟩
        · rw [M.tabo i hix hiy] at ha; exact hold ha
    · rintro ⟨n, hn, hv⟩
      rcases split a n hn with ⟨h1, h⟩ | ⟨h1, h⟩ | ⟨h, h1⟩
      · rw [← hv, h]; exact (M.taby a).2 (Or.inr h1)
      · rw [← hv, h]; exact h1
      · have : a ∈ s0.tab i := (w.tab_iff i a).2 ⟨n, h, hv⟩
        have hix : i ≠ x := by rw [← hv]; exact h1
        by_cases hiy : i = y
        · subst hiy; exact (M.taby a).2 (Or.inl this)
        · rw [M.tabo i hix hiy]; exact this
  · intro a n hn
    rcases split a n hn with ⟨h1, h⟩ | ⟨h1, h⟩ | ⟨h, h1⟩
    · obtain ⟨n0, _, _, _, _, g⟩ := done a n h1 hn
      exact g.plain
    · exact (xnode a n h1 hn).2.1
    · exact w.plain a n h
  · intro a n hn
    show Below s' (o.lvl n.var) n.thn
    rcases split a n hn with ⟨h1, h⟩ | ⟨h1, h⟩ | ⟨h, h1⟩
    · obtain ⟨n0, _, _, _, _, g⟩ := done a n h1 hn
      rw [h, lvl', if_neg (Ne.symm hxy), if_pos rfl]
      exact xlowB _ g.xt
    · rw [h, lvl', if_pos rfl]
      exact lowB _ (xnode a n h1 hn).2.2.1
    · have vr := w.var_range a n h
      exact othB _ _ h1 vr.1 vr.2 (w.thn_lo a n h)
  · intro a n hn
    show Below s' (o.lvl n.var) n.els
    rcases split a n hn with ⟨h1, h⟩ | ⟨h1, h⟩ | ⟨h, h1⟩
    · obtain ⟨n0, _, _, _, _, g⟩ := done a n h1 hn
      rw [h, lvl', if_neg (Ne.symm hxy), if_pos rfl]
      exact xlowB _ g.xe
    · rw [h, lvl', if_pos rfl]
      exact lowB _ (xnode a n h1 hn).2.2.2.1
    · have vr := w.var_range a n h
      exact othB _ _ h1 vr.1 vr.2 (w.els_lo a n h)
  · intro a n hn
    rcases split a n hn with ⟨h1, h⟩ | ⟨h1, h⟩ | ⟨h, h1⟩
    · obtain ⟨n0, _, _, _, _, g⟩ := done a n h1 hn
      exact g.pos
    · exact (xnode a n h1 hn).2.2.2.2.1
    · exact w.thn_pos a n h
  · intro a n hn
    rcases split a n hn with ⟨h1, h⟩ | ⟨h1, h⟩ | ⟨h, h1⟩
    · obtain ⟨n0, f11, f10, f01, f00, g⟩ := done a n h1 hn
      intro he
      have c1 := g.ct
      rw [he, g.ce] at c1
      simp only [Option.some.injEq, Prod.mk.injEq] at c1
      obtain ⟨e1, e2⟩ := c1
      have ph : ∀ (e f : Edge) (b : Bool), e.phase b = f.phase b → e = f := by
        intro e f b hh
        cases e; cases f; cases b <;> simp [Edge.phase] at hh ⊢ <;> exact hh
      rcases g.has with ⟨m, hm, hv⟩ | ⟨m, hm, hv⟩
      · have c2 := g.ct0
        rw [cof_node w.heap0 hm hv] at c2
        simp only [Option.some.injEq, Prod.mk.injEq] at c2
        exact w.reduced _ _ hm (ph _ _ _ (c2.1.trans (e1.symm.trans c2.2.symm)))
      · have c2 := g.ce0
        rw [cof_node w.heap0 hm hv] at c2
        simp only [Option.some.injEq, Prod.mk.injEq] at c2
        exact w.reduced _ _ hm (ph _ _ _ (c2.1.trans (e2.symm.trans c2.2.symm)))
    · exact (xnode a n h1 hn).2.2.2.2.2
    · exact w.reduced a n h
  · intro a b n ha hb
    have ha : s.heap a = some n := ha
    have hb : s.heap b = some n := hb
    by_cases hv : n.var = x
    · exact M.uniqx a b n (xs a n ha hv) (xs b n hb hv) ha hb
    · have live : ∀ c, s.heap c = some n → ∃ m, s0.heap c = some m := by
        intro c hc
        rcases split c n hc with ⟨h1, h⟩ | ⟨h1, h⟩ | ⟨h, h1⟩
        · obtain ⟨n0, _, _, _, _, g⟩ := done c n h1 hc
          exact ⟨n0, g.old⟩
        · exact absurd h hv
        · exact ⟨n, h⟩
      obtain ⟨ma, ka⟩ := live a ha
      obtain ⟨mb, kb⟩ := live b hb
      refine w.canon M.lab0 ka kb ?_
      rw [← M.agree a (by simp [ka]), ← M.agree b (by simp [kb])]
      funext ρ
      rw [M.lab.node a n ha ρ, M.lab.node b n hb ρ]

/-- The store at the start of the second loop. -/
theorem Mid.start (A : Adj s0 x y) (l : Lab s0 δ0) {keep R : List Nat} (k1 : keep.Nodup) (k2 : R.Nodup)
    (k3 : ∀ a, a ∈ keep ↔ a ∈ s0.tab x ∧ ∀ n, s0.heap a = some n → ¬ HasY s0 y n)
    (k4 : ∀ a, a ∈ R ↔ a ∈ s0.tab x ∧ ∃ n, s0.heap a = some n ∧ HasY s0 y n) :
    Mid s0 x y δ0 [] R { s0 with tab := upd s0.tab x keep } δ0 := by
  have w := A.w
  let s : Store := { s0 with tab := upd s0.tab x keep }
  have tx : s.tab x = keep := upd_same _ _ _
  have to : ∀ j, j ≠ x → s.tab j = s0.tab j := fun j hj => upd_ne _ _ hj
  refine ⟨rfl, fun _ _ h _ => h, by simp, ?_, ?_, ?_, ?_, fun j hx _ => to j hx, ?_, ?_, ?_, k2,
    ⟨w.heap0, w.next_pos, w.heap_next, w.free_nodup, w.free_ok, w.free_disj⟩,
    ⟨l.const, l.node⟩, fun _ _ => rfl, l, ?_⟩
  · intro a ha
    have ha : a ∈ s.tab x := ha
    rw [tx, k3] at ha
    obtain ⟨n, hn, hv⟩ := (w.tab_iff x a).1 ha.1
    have hno := ha.2 n hn
    have lt := w.thn_lo a n hn
    have le := w.els_lo a n hn
    rw [hv] at lt le
    refine ⟨n, hn, hv, ?_, w.plain a n hn, A.low_of lt ?_, A.low_of le ?_, w.thn_pos a n hn, w.reduced a n hn⟩
    · rw [k4]; rintro ⟨_, m, hm, hh⟩
      exact ha.2 m hm hh
    · intro m hm hmy; exact hno (Or.inl ⟨m, hm, hmy⟩)
    · intro m hm hmy; exact hno (Or.inr ⟨m, hm, hmy⟩)
  · intro a n h1 h2
    have h1 : s0.heap a = some n := h1
    rw [h2] at h1; cases h1
  · intro a n hn hv _ hR
    show a ∈ s.tab x
    rw [tx, k3]
    have hx : a ∈ s0.tab x := (w.tab_iff x a).2 ⟨n, hn, hv⟩
    refine ⟨hx, fun m hm hh => hR ?_⟩
    rw [k4]; exact ⟨hx, m, hm, hh⟩
  · intro a
    show a ∈ s.tab y ↔ _
    rw [to y (Ne.symm A.ne)]; simp
  · intro a b n _ _ h1 h2
    exact w.unique a b n h1 h2
  · intro j
    show (s.tab j).Nodup
    by_cases hj : j = x
    · rw [hj, tx]; exact k1
    · rw [to j hj]; exact w.tab_nodup j
  · intro a ha
    rw [k4] at ha
    obtain ⟨hx, n, hn, hh⟩ := ha
    obtain ⟨m, hm, hv⟩ := (w.tab_iff x a).1 hx
    rw [hn] at hm; cases hm
    exact ⟨by simp, n, hn, hv, hh⟩
  · intro a n hn
    have hn : s0.heap a = some n := hn
    exact ⟨a, by simp [hn], fun v h => h⟩

/-- `BddExchange` on the nodes of two adjacent variables. -/
theorem exchangeNodes_spec {d : St} (A : Adj d.st x y) (r : d.st.RefOK ext) (nm : d.st.NumOK)
    (l : Lab d.st δ0) :
    ∃ d' δ', exchangeNodes d x y = some d' ∧ Frame d d' ∧ d'.st.ord = d.st.ord ∧
      PWF { d'.st with ord := swapOrder d.st.ord x y } ∧
      Store.RefOK { d'.st with ord := swapOrder d.st.ord x y } ext ∧
      Store.NumOK { d'.st with ord := swapOrder d.st.ord x y } ∧
      Lab d'.st δ' ∧ (∀ a, d.st.heap a ≠ none → δ' a = δ0 a) ∧
      (∀ a n, d'.st.heap a = some n → Src d.st δ0 (δ' a)) := by
  have w := A.w
  obtain ⟨keep, R, hu, k1, k2, k3, k4, k5⟩ := unlink_spec w A.y1 (d.st.tab x) [] (w.tab_nodup x) List.nodup_nil
    (by simp) (fun a ha => by obtain ⟨n, hn, _⟩ := (w.tab_iff x a).1 ha; simp [hn])
  simp only [List.not_mem_nil, false_or] at k4
  have M := Mid.start A l k1 k2 k3 k4
  let s1 : Store := { d.st with tab := upd d.st.tab x keep }
  have L : Loop d.st x y δ0 ext [] R { d with st := s1 } δ0 := by
    refine ⟨M, ?_, ?_⟩
    · exact (refOK_cnt.1 r).1
    · show d.st.numNodes = 1 + tabSum s1 + R.length
      have e1 := sumTo_change (f := fun j => (s1.tab j).length) (g := fun j => (d.st.tab j).length)
        (n := d.st.ord.numVars + 1) (a := x) (by have := A.x2; omega) (by
          intro j hj
          show (upd d.st.tab x _ j).length = _
          rw [upd_ne _ _ hj])
      have e2 : s1.tab x = keep := upd_same _ _ _
      simp only [e2] at e1
      simp only [List.length_nil, Nat.add_zero] at k5
      have e3 : tabSum s1 = sumTo (fun j => (s1.tab j).length) (d.st.ord.numVars + 1) := rfl
      unfold Store.NumOK at nm
      omega
  obtain ⟨d1, D', δ1, h1, fr1, _, L1⟩ := exchangeList_spec A r.ext0 R [] _ _ L
  have M1 := L1.mid
  let o := swapOrder d.st.ord x y
  let s' : Store := { d1.st with ord := o }
  have w' : PWF s' := M1.finish A
  have e0' : ∀ a, a ≠ 0 → d1.st.heap a = none → ext a = 0 := by
    intro a h0 h
    refine r.ext0 a h0 ?_
    cases h' : d.st.heap a with
    | none => rfl
    | some n => exact absurd h (M1.old_live (by simp [h']))
  have r' : s'.RefOK ext := refOK_cnt.2 ⟨⟨L1.cnt.1, L1.cnt.2⟩, e0'⟩
  have n' : s'.NumOK := by
    have := L1.num
    unfold Store.NumOK
    show d1.st.numNodes = 1 + sumTo (fun i => (d1.st.tab i).length) (d.st.ord.numVars + 1)
    have e : tabSum d1.st = sumTo (fun i => (d1.st.tab i).length) (d.st.ord.numVars + 1) := by
      unfold tabSum; rw [M1.ord]
    simp only [List.length_nil] at this
    omega
  obtain ⟨s2, fr, hg, w2, G, sub, _⟩ := sweep_spec w' r' 0 (i := y) A.y2
  have hg' := gcTable_ord o 0 y d1.st
  rw [show Store.gcTable { d1.st with ord := o } 0 y = some (s2, fr) from hg] at hg'
  cases hq : d1.st.gcTable 0 y with
  | none => rw [hq] at hg'; cases hg'
  | some q =>
    obtain ⟨s3, fr3⟩ := q
    rw [hq] at hg'
    simp only [Option.map_some, Option.some.injEq, Prod.mk.injEq] at hg'
    obtain ⟨hs2, hfr⟩ := hg'
    have hord : s3.ord = d.st.ord := by
      have := gcTable_ord d1.st.ord 0 y d1.st
      have e : ({ d1.st with ord := d1.st.ord } : Store) = d1.st := rfl
      rw [e, hq] at this
      simp only [Option.map_some, Option.some.injEq, Prod.mk.injEq] at this
      have := congrArg Store.ord this.1
      exact this.trans M1.ord
    have sub' : ∀ a n, s3.heap a = some n → d1.st.heap a = some n := by
      intro a n hn
      refine sub a n ?_
      rw [hs2]; exact hn
    refine ⟨{ d1 with st := s3 }, δ1, ?_, ?_, hord, ?_, ?_, ?_, ?_, M1.agree, ?_⟩
    · unfold exchangeNodes
      simp only [hu]
      rw [show exchangeList x y R { d with st := { d.st with tab := upd d.st.tab x keep } } = some d1 from h1]
      simp only [hq]
    · exact ⟨fr1.assocs, fr1.temp, fr1.mat, fr1.swaps, fr1.trivial⟩
    · show PWF { s3 with ord := o }
      rw [← hs2]; exact w2
    · show Store.RefOK { s3 with ord := o } ext
      rw [← hs2]; exact refOK_reid.1 G.inv.ref
    · show Store.NumOK { s3 with ord := o }
      rw [← hs2]
      exact G.num n'
    · exact ⟨M1.lab.const, fun a n hn => M1.lab.node a n (sub' a n hn)⟩
    · intro a n hn
      exact M1.src a n (sub' a n hn)

end

/-! ## `BddExchange` -/

theorem lab_unique {s : Store} (w : PWF s) {δ δ' : Nat → BFn} (l : Lab s δ) (l' : Lab s δ') {a n}
    (h : s.heap a = some n) : δ a = δ' a := by
  have r : Rep (reid s) ⟨n.var, a, false⟩ (den δ ⟨n.var, a, false⟩) :=
    (lab_reid.2 l).rep w.reid (Or.inr ⟨_, reid_heap h, rfl⟩)
  have := (lab_reid.2 l').rep_eq r
  funext ρ
  have := congrFun this ρ
  simpa [den] using this.symm

/-- the function of a pointer depends on the variable of its node -/
theorem dep_top {s : Store} (w : PWF s) {δ : Nat → BFn} (l : Lab s δ) {e : Edge} {n}
    (h : s.heap e.addr = some n) : ¬ Indep (den δ e) n.var := by
  have he : (reid s).EOK ⟨n.var, e.addr, e.neg⟩ := Or.inr ⟨_, reid_heap h, rfl⟩
  have r := (lab_reid.2 l).rep w.reid he
  have hv := w.var_range _ _ h
  have := r.dep w.reid (by show n.var ≠ 0; omega)
  exact this

/-- a child's function does not depend on the variable of the node -/
theorem kid_indep {s : Store} (w : PWF s) {δ : Nat → BFn} (l : Lab s δ) {e : Edge} {v : Nat}
    (h : Below s (s.ord.lvl v) e) : Indep (den δ e) v := by
  rcases id h with h0 | ⟨m, hm, hl⟩
  · intro ρ b
    simp [den, h0, l.const]
  · have he : (reid s).EOK (reidE s e) := Below.eok w.heap0 h
    have := (lab_reid.2 l).indep w.reid he (v := v) (by
      have e1 : (reidE s e).id = m.var := tagId_node w.heap0 hm
      rw [e1]; exact hl)
    exact this

/-- A node depends on its variable and on the variables of its children. -/
theorem dep_kid {s : Store} (w : PWF s) {δ : Nat → BFn} (l : Lab s δ) {a n} (h : s.heap a = some n) {y : Nat}
    (hy : HasY s y n) : ¬ Indep (δ a) y := by
  intro hi
  have kt := kid_indep w l (w.thn_lo a n h)
  have ke := kid_indep w l (w.els_lo a n h)
  rcases hy with ⟨m, hm, hv⟩ | ⟨m, hm, hv⟩
  · have hne : n.var ≠ y := by
      rcases w.thn_lo a n h with h0 | ⟨m', hm', hl⟩
      · rw [h0, w.heap0] at hm; cases hm
      · rw [hm] at hm'; cases hm'
        rintro rfl; rw [hv] at hl; omega
    refine absurd ?_ (dep_top w l hm)
    rw [hv]
    have e : ∀ ρ, den δ n.thn ρ = δ a (upd ρ n.var true) := by
      intro ρ
      rw [l.node a n h, upd_same, if_pos rfl, kt]
    intro ρ b
    rw [e, e, asg_comm _ _ _ (Ne.symm hne), hi]
  · have hne : n.var ≠ y := by
      rcases w.els_lo a n h with h0 | ⟨m', hm', hl⟩
      · rw [h0, w.heap0] at hm; cases hm
      · rw [hm] at hm'; cases hm'
        rintro rfl; rw [hv] at hl; omega
    refine absurd ?_ (dep_top w l hm)
    rw [hv]
    have e : ∀ ρ, den δ n.els ρ = δ a (upd ρ n.var false) := by
      intro ρ
      rw [l.node a n h, upd_same, if_neg (by simp), ke]
    intro ρ b
    rw [e, e, asg_comm _ _ _ (Ne.symm hne), hi]

theorem dep_self {s : Store} (w : PWF s) {δ : Nat → BFn} (l : Lab s δ) {a n} (h : s.heap a = some n) :
    ¬ Indep (δ a) n.var := by
  have := dep_top w l (e := ⟨0, a, false⟩) h
  intro hi
  apply this
  intro ρ b
  simp [den, hi ρ b]

/-- The interaction matrix can be read for all pairs, and two variables that do not interact
according to it are not both in the support of a node. -/
def Cov (d : St) : Prop :=
  ∀ u v, 1 ≤ u → u ≤ d.st.ord.numVars → 1 ≤ v → v ≤ d.st.ord.numVars → u ≠ v →
    ∃ b, Interact.test d.st.ord.numVars d.mat u v = some b ∧
      (b = false → ∀ δ, Lab d.st δ → ∀ a n, d.st.heap a = some n → Indep (δ a) u ∨ Indep (δ a) v)

/-- The invariant of depth-first reordering between exchanges. -/
structure DInv (ext : Nat → Nat) (d : St) : Prop where
  w : PWF d.st
  ref : d.st.RefOK ext
  num : d.st.NumOK
  cov : Cov d
  assocs : ∀ p, p ∈ d.assocs → p.a.OK d.st.ord
  temp : d.temp.OK d.st.ord

/-- The same association, possibly with another last index. -/
def Assoc.SameVars (A A' : Assoc) : Prop := A'.id = A.id ∧ A'.var = A.var

/-- What exchanges keep: the function of every node that is left, the number of variables, and the
associations up to their last indices. -/
structure Keeps (d d' : St) : Prop where
  nv : d'.st.ord.numVars = d.st.ord.numVars
  fns : ∀ δ, Lab d.st δ → ∃ δ', Lab d'.st δ' ∧ ∀ a, d.st.heap a ≠ none → δ' a = δ a
  assocs : F2 (fun p q : RAssoc => Assoc.SameVars p.a q.a ∧ q.refCount = p.refCount) d.assocs d'.assocs
  temp : Assoc.SameVars d.temp d'.temp
  mat : d'.mat = d.mat

theorem fixup_same (o : Order) (x y : Nat) (A : Assoc) : Assoc.SameVars A (fixupAssoc o x y A) := by
  unfold fixupAssoc
  by_cases h1 : A.last = -1
  · rw [if_pos h1]; exact ⟨rfl, rfl⟩
  · rw [if_neg h1]
    by_cases h2 : (A.var x).isSome ∧ A.last = o.idToIndex x
    · rw [if_pos h2]; exact ⟨rfl, rfl⟩
    · rw [if_neg h2]
      by_cases h3 : (A.var x).isNone ∧ (A.var y).isSome ∧ A.last = o.idToIndex y
      · rw [if_pos h3]; exact ⟨rfl, rfl⟩
      · rw [if_neg h3]; exact ⟨rfl, rfl⟩

theorem fixup_ok {s : Store} {x y : Nat} (H : Adj s x y) {A : Assoc} (h : A.OK s.ord) :
    (fixupAssoc s.ord x y A).OK (swapOrder s.ord x y) := by
  have sv := fixup_same s.ord x y A
  have idx := H.idx
  have x0 : x ≠ 0 := by have := H.x1; omega
  have y0 : y ≠ 0 := by have := H.y1; omega
  have lx : s.ord.lvl x = s.ord.idToIndex x := by simp [Order.lvl, x0]
  have ly : s.ord.lvl y = s.ord.idToIndex y := by simp [Order.lvl, y0]
  have iy := H.w.ord.idx_lt y H.y1 H.y2
  have dom : ∀ v, (fixupAssoc s.ord x y A).dom v → A.dom v := by
    intro v hv; unfold Assoc.dom at *; rwa [sv.2] at hv
  have hne := H.ne
  have other : ∀ v, A.dom v → v ≠ x → v ≠ y → s.ord.lvl v ≠ s.ord.lvl x ∧ s.ord.lvl v ≠ s.ord.lvl y := by
    intro v hv h1 h2
    have r := h.rng v hv
    exact ⟨fun e => h1 (H.w.ord.lvl_inj r.1 r.2 H.x1 H.x2 e), fun e => h2 (H.w.ord.lvl_inj r.1 r.2 H.y1 H.y2 e)⟩
  have key : (∀ v, A.dom v → ((swapOrder s.ord x y).lvl v : Int) ≤ (fixupAssoc s.ord x y A).last) ∧
      (fixupAssoc s.ord x y A).last < s.ord.numVars := by
    have lt := h.lt
    unfold fixupAssoc
    by_cases h1 : A.last = -1
    · rw [if_pos h1]
      refine ⟨fun v hv => ?_, lt⟩
      have := h.le v hv; omega
    · rw [if_neg h1]
      by_cases h2 : (A.var x).isSome ∧ A.last = s.ord.idToIndex x
      · rw [if_pos h2]
        refine ⟨fun v hv => ?_, ?_⟩
        · show _ ≤ A.last + 1
          have := h.le v hv
          rw [H.lvl']
          split
          · omega
          · split
            · rename_i hh; subst hh; omega
            · omega
        · show A.last + 1 < _
          omega
      · rw [if_neg h2]
        by_cases h3 : (A.var x).isNone ∧ (A.var y).isSome ∧ A.last = s.ord.idToIndex y
        · rw [if_pos h3]
          refine ⟨fun v hv => ?_, ?_⟩
          · show _ ≤ A.last - 1
            have := h.le v hv
            rw [H.lvl']
            split
            · rename_i hh; subst hh
              have h31 := h3.1
              unfold Assoc.dom at hv
              rw [Option.isNone_iff_eq_none] at h31
              rw [h31] at hv; cases hv
            · split
              · omega
              · rename_i k1 k2
                have := (other v hv k1 k2).2
                omega
          · show A.last - 1 < _
            omega
        · rw [if_neg h3]
          refine ⟨fun v hv => ?_, lt⟩
          have hle := h.le v hv
          rw [H.lvl']
          split
          · rename_i hh; subst hh
            have : A.last ≠ s.ord.idToIndex v := fun e => h2 ⟨hv, e⟩
            omega
          · split
            · rename_i hh; subst hh; omega
            · exact hle
  refine ⟨fun v hv => h.rng v (dom v hv), fun v hv => key.1 v (dom v hv), key.2, ?_⟩
  have hex : A.last ≠ -1 → ∃ v, A.dom v ∧
      ((swapOrder s.ord x y).lvl v : Int) = (fixupAssoc s.ord x y A).last := by
    intro h1
    obtain ⟨v, hv, hl⟩ := h.ex.resolve_left h1
    unfold fixupAssoc
    rw [if_neg h1]
    by_cases h2 : (A.var x).isSome ∧ A.last = s.ord.idToIndex x
    · rw [if_pos h2]
      refine ⟨x, h2.1, ?_⟩
      show _ = A.last + 1
      rw [H.lvl', if_pos rfl]
      omega
    · rw [if_neg h2]
      by_cases h3 : (A.var x).isNone ∧ (A.var y).isSome ∧ A.last = s.ord.idToIndex y
      · rw [if_pos h3]
        refine ⟨y, h3.2.1, ?_⟩
        show _ = A.last - 1
        rw [H.lvl', if_neg (fun e => hne e.symm), if_pos rfl]
        omega
      · rw [if_neg h3]
        by_cases vx : v = x
        · subst vx
          exact absurd ⟨hv, by omega⟩ h2
        · by_cases vy : v = y
          · subst vy
            by_cases hx : A.dom x
            · refine ⟨x, hx, ?_⟩
              rw [H.lvl', if_pos rfl]
              omega
            · refine absurd ⟨?_, hv, by omega⟩ h3
              unfold Assoc.dom at hx
              cases hh : A.var x with
              | none => rfl
              | some e => rw [hh] at hx; exact absurd rfl hx
          · refine ⟨v, hv, ?_⟩
            rw [H.lvl', if_neg vx, if_neg vy]
            exact hl
  by_cases h1 : A.last = -1
  · left
    unfold fixupAssoc
    rw [if_pos h1]
    exact h1
  · obtain ⟨v, hv, e⟩ := hex h1
    exact Or.inr ⟨v, by unfold Assoc.dom at *; rwa [sv.2], e⟩

theorem F2_map {α β : Type} {R : α → β → Prop} (f : α → β) (l : List α) (h : ∀ a, a ∈ l → R a (f a)) :
    F2 R l (l.map f) := by
  induction l with
  | nil => exact F2.nil
  | cons a l ih =>
    exact F2.cons (h a List.mem_cons_self) (ih fun b hb => h b (List.mem_cons_of_mem _ hb))

/-- The part that both kinds of exchange share. -/
theorem swapLevels_spec {ext : Nat → Nat} {d d1 : St} (I : DInv ext d) {x y : Nat} (A : Adj d.st x y)
    (f : d1.assocs = d.assocs) (f2 : d1.temp = d.temp) (f3 : d1.mat = d.mat) (ho : d1.st.ord = d.st.ord)
    (w : PWF { d1.st with ord := swapOrder d.st.ord x y })
    (r : Store.RefOK { d1.st with ord := swapOrder d.st.ord x y } ext)
    (nm : Store.NumOK { d1.st with ord := swapOrder d.st.ord x y })
    (hl : ∀ δ, Lab d.st δ → ∃ δ', Lab d1.st δ' ∧ (∀ a, d.st.heap a ≠ none → δ' a = δ a) ∧
      (∀ a n, d1.st.heap a = some n → Src d.st δ (δ' a))) :
    DInv ext (swapLevels d1 x y) ∧ Keeps d (swapLevels d1 x y) ∧
      (swapLevels d1 x y).st.ord = swapOrder d.st.ord x y := by
  have hst : (swapLevels d1 x y).st = { d1.st with ord := swapOrder d.st.ord x y } := by
    show ({ d1.st with ord := swapOrder d1.st.ord x y } : Store) = _
    rw [ho]
  have has : (swapLevels d1 x y).assocs = d.assocs.map fun p => { p with a := fixupAssoc d.st.ord x y p.a } := by
    show d1.assocs.map (fun p => { p with a := fixupAssoc d1.st.ord x y p.a }) = _
    rw [f, ho]
  have hte : (swapLevels d1 x y).temp = fixupAssoc d.st.ord x y d.temp := by
    show fixupAssoc d1.st.ord x y d1.temp = _
    rw [f2, ho]
  have hmat : (swapLevels d1 x y).mat = d.mat := f3
  have hlab : ∀ δ, Lab d1.st δ ↔ Lab (swapLevels d1 x y).st δ := by
    intro δ; rw [hst]; exact ⟨fun l => ⟨l.const, l.node⟩, fun l => ⟨l.const, l.node⟩⟩
  refine ⟨⟨by rw [hst]; exact w, by rw [hst]; exact r, by rw [hst]; exact nm, ?_, ?_, ?_⟩,
    ⟨by rw [hst]; rfl, ?_, ?_, ?_, hmat⟩, by rw [hst]⟩
  · intro u v u1 u2 v1 v2 huv
    rw [hst] at u2 v2
    obtain ⟨b, hb, hc⟩ := I.cov u v u1 u2 v1 v2 huv
    refine ⟨b, by rw [hst, hmat]; exact hb, fun hbf δ'' l'' a n ha => ?_⟩
    obtain ⟨δ, l⟩ := I.w.exists_lab
    obtain ⟨δ', l', _, src⟩ := hl δ l
    have ha' : d1.st.heap a = some n := by rw [hst] at ha; exact ha
    have : δ'' a = δ' a := by
      have e : PWF (swapLevels d1 x y).st := by rw [hst]; exact w
      exact lab_unique e l'' ((hlab δ').1 l') ha
    rw [this]
    obtain ⟨c, hc1, hc2⟩ := src a n ha'
    cases hk : d.st.heap c with
    | none => exact absurd hk hc1
    | some k =>
      rcases hc hbf δ l c k hk with h | h
      · exact Or.inl (hc2 u h)
      · exact Or.inr (hc2 v h)
  · intro p hp
    rw [has] at hp
    obtain ⟨q, hq, rfl⟩ := List.mem_map.1 hp
    rw [hst]
    exact fixup_ok A (I.assocs q hq)
  · rw [hte, hst]; exact fixup_ok A I.temp
  · intro δ l
    obtain ⟨δ', l', ag, _⟩ := hl δ l
    exact ⟨δ', (hlab δ').1 l', ag⟩
  · rw [has]
    exact F2_map (R := fun p q : RAssoc => Assoc.SameVars p.a q.a ∧ q.refCount = p.refCount) _ _ fun p _ => ⟨fixup_same _ _ _ _, rfl⟩
  · rw [hte]; exact fixup_same _ _ _ _

/-- the variable below `x` -/
theorem adj_of {s : Store} (w : PWF s) {x : Nat} (x1 : 1 ≤ x) (x2 : x ≤ s.ord.numVars)
    (h : s.ord.idToIndex x + 1 < s.ord.numVars) : Adj s x (s.ord.indexToId (s.ord.idToIndex x + 1)) := by
  have r := w.ord.id_range _ h
  refine ⟨w, x1, x2, r.1, r.2, ?_⟩
  rw [w.ord.lvl_indexToId h]
  have : x ≠ 0 := by omega
  simp [Order.lvl, this]

/-- `BddExchange` succeeds, keeps the invariant and the functions, and exchanges the two variables. -/
theorem exchange_spec {ext : Nat → Nat} {d : St} (I : DInv ext d) {x : Nat} (x1 : 1 ≤ x)
    (x2 : x ≤ d.st.ord.numVars) (h : d.st.ord.idToIndex x + 1 < d.st.ord.numVars) :
    ∃ d', exchange d x = some d' ∧ DInv ext d' ∧ Keeps d d' ∧
      d'.st.ord = swapOrder d.st.ord x (d.st.ord.indexToId (d.st.ord.idToIndex x + 1)) := by
  have A := adj_of I.w x1 x2 h
  generalize hy : d.st.ord.indexToId (d.st.ord.idToIndex x + 1) = y at A
  obtain ⟨b, hb, hc⟩ := I.cov x y x1 x2 A.y1 A.y2 A.ne
  unfold exchange
  simp only [if_pos (And.intro x1 (And.intro x2 h)), hy, hb]
  cases b with
  | true =>
    simp only
    have A' : Adj { d with swaps := d.swaps + 1 }.st x y := A
    obtain ⟨δ, l⟩ := I.w.exists_lab
    obtain ⟨d1, δ1, h1, fr, ho, w, r, nm, l1, _⟩ := exchangeNodes_spec A' I.ref I.num l
    rw [h1]
    refine ⟨_, rfl, ?_⟩
    refine swapLevels_spec I A fr.assocs fr.temp fr.mat ho w r nm ?_
    intro δ' l'
    obtain ⟨d2, δ2, h2, _, _, _, _, _, l2, ag2, src2⟩ := exchangeNodes_spec A' I.ref I.num l'
    rw [h1] at h2; cases h2
    exact ⟨δ2, l2, ag2, src2⟩
  | false =>
    simp only
    refine ⟨_, rfl, ?_⟩
    have hno : ∀ a n, d.st.heap a = some n → n.var = x → ¬ HasY d.st y n := by
      intro a n hn hv hh
      obtain ⟨δ, l⟩ := I.w.exists_lab
      rcases hc rfl δ l a n hn with g | g
      · exact dep_self I.w l hn (by rw [hv]; exact g)
      · exact dep_kid I.w l hn hh g
    have w' : PWF { d.st with ord := swapOrder d.st.ord x y } := by
      obtain ⟨δ, l⟩ := I.w.exists_lab
      have M := Mid.start A l (keep := d.st.tab x) (R := []) (I.w.tab_nodup x) List.nodup_nil
        (fun a => ⟨fun ha => ⟨ha, fun n hn => by
          obtain ⟨m, hm, hv⟩ := (I.w.tab_iff x a).1 ha
          rw [hn] at hm; cases hm
          exact hno a n hn hv⟩, fun ha => ha.1⟩)
        (fun a => ⟨fun ha => by simp at ha, fun ha => by
          obtain ⟨h1, n, hn, hh⟩ := ha
          obtain ⟨m, hm, hv⟩ := (I.w.tab_iff x a).1 h1
          rw [hn] at hm; cases hm
          exact absurd hh (hno a n hn hv)⟩)
      have e : upd d.st.tab x (d.st.tab x) = d.st.tab := by
        funext j; by_cases hj : j = x
        · rw [hj, upd_same]
        · rw [upd_ne _ _ hj]
      rw [e] at M
      exact M.finish A
    refine swapLevels_spec I A rfl rfl rfl rfl w' ⟨I.ref.const, I.ref.le, I.ref.cnt, I.ref.ext0⟩ I.num ?_
    intro δ l
    exact ⟨δ, l, fun _ _ => rfl, fun a n hn => ⟨a, by have hn : d.st.heap a = some n := hn; simp [hn], fun v h => h⟩⟩


end Df

end Cal
