import Verif.Compose

/-!
# Swapping two variables

`Cal_BddSwapVars` (calBddSwapVars.c:81-197) on internal BDDs. `gi < hi` are the indices of the variables.
-/

namespace Cal

/-- assignment with the values of `g` and `h` exchanged -/
def Asg.swap (ρ : Asg) (g h : Nat) : Asg := upd (upd ρ g (ρ h)) h (ρ g)

/-- `F` with the variables `g` and `h` exchanged -/
def BFn.swap (F : BFn) (g h : Nat) : BFn := fun ρ => F (ρ.swap g h)

/-- "if `h` then `F` else `G`", both with `h = b` -/
def BFn.side (b : Bool) (h : Nat) (F G : BFn) : BFn :=
  fun ρ => if ρ h then BFn.fix F h b ρ else BFn.fix G h b ρ

namespace Eng

/-- The child an operand at the index of `h` is replaced by: `CalBddGetThenBdd` in the "plus" case,
`CalBddGetElseBdd` in the "minus" case (calBddSwapVars.c:266-271, 298-303, 372-377). -/
def sideKid (b : Bool) (hi : Nat) (s : Store) (f : Edge) : Option Edge :=
  if s.ord.lvl f.id = hi then
    match s.kids f with
    | some (t, e) => some (if b then t else e)
    | none => none
  else some f

/-- The constant `h` is replaced by. -/
def sideConst (b : Bool) : Edge := if b then one else zero

/-- "SwapVarsPlus" (`b = true`) and "SwapVarsMinus" (`b = false`) of two operands
(calBddSwapVars.c:264-294, 296-325, 371-400, 456-485). -/
def sideWant (b : Bool) (hi : Nat) (s : Store) (f g : Edge) : Option (Want Prob) :=
  match sideKid b hi s f, sideKid b hi s g with
  | some f', some g' =>
    if f'.same g' then
      if s.ord.lvl f'.id < hi then some (.req (.cmp f' (sideConst b)) false)
      else some (.edge f')
    else if hi < s.ord.lvl f'.id ∧ hi < s.ord.lvl g'.id then
      some (.node (s.ord.indexToId hi) f' g')
    else some (.req (if b then .plus f' g' else .minus f' g') false)
  | _, _ => none

/-- `Cal_BddSwapVars` after the tests of its arguments (calBddSwapVars.c:114-193): five request
queues, for swap, plus, minus, compose and if-then-else. -/
def swapRules (gi hi : Nat) : Rules Prob where
  que
    | .plus _ _ => 1
    | .minus _ _ => 2
    | .cmp _ _ => 3
    | .ite _ => 4
    | _ => 0
  top o
    | .swp f => if gi < o.lvl f.id then o.indexToId gi else f.id
    | .plus f g => minId2 o (f, g)
    | .minus f g => minId2 o (f, g)
    | .cmp f h => minId2 o (f, h)
    | .ite q => minId3 o q
    | _ => 0
  split s
    | .swp f =>
      if s.ord.lvl f.id < gi then
        match s.kids f with
        | some (t, e) => some (.swp t, .swp e)
        | none => none
      else if s.ord.lvl f.id = gi then
        match s.kids f with
        | some (t, e) => some (.plus t e, .minus t e)
        | none => none
      else some (.cmp f one, .cmp f zero)
    | .plus f g =>
      match cof2 s.ord s.kids (f, g) with
      | some (x, y) => some (.plus x.1 x.2, .plus y.1 y.2)
      | none => none
    | .minus f g =>
      match cof2 s.ord s.kids (f, g) with
      | some (x, y) => some (.minus x.1 x.2, .minus y.1 y.2)
      | none => none
    | .cmp f h => cmpSplit s f h
    | .ite q => iteSplit s q
    | _ => none
  want s
    | .root f => some (.req (.swp f) false)
    | .swp f => if s.ord.lvl f.id ≤ hi then some (.req (.swp f) false) else some (.edge f)
    | .plus f g => sideWant true hi s f g
    | .minus f g => sideWant false hi s f g
    | .cmp f h => cmpWant hi s f h
    | .ite q => some (iteWant q)
    | _ => none

/-- the two variables -/
structure SwapCfg (o : Order) (gi hi gv hv : Nat) : Prop where
  g : o.lvl gv = gi
  h : o.lvl hv = hi
  gr : 1 ≤ gv ∧ gv ≤ o.numVars
  hr : 1 ≤ hv ∧ hv ≤ o.numVars
  lt : gi < hi

variable {gi hi gv hv : Nat}

theorem SwapCfg.ne {o : Order} (c : SwapCfg o gi hi gv hv) : gv ≠ hv := by
  intro h; have := c.g; have := c.h; have := c.lt; subst h; omega

theorem SwapCfg.gid {o : Order} (ow : o.WF) (c : SwapCfg o gi hi gv hv) : o.indexToId gi = gv := by
  have h0 : gv ≠ 0 := by have := c.gr; omega
  have := c.g
  simp only [Order.lvl, h0, if_false] at this
  rw [← this]; exact ow.left _ c.gr.1 c.gr.2

theorem SwapCfg.hid {o : Order} (ow : o.WF) (c : SwapCfg o gi hi gv hv) : o.indexToId hi = hv := by
  have h0 : hv ≠ 0 := by have := c.hr; omega
  have := c.h
  simp only [Order.lvl, h0, if_false] at this
  rw [← this]; exact ow.left _ c.hr.1 c.hr.2

theorem SwapCfg.hlt {o : Order} (ow : o.WF) (c : SwapCfg o gi hi gv hv) : hi < constIndex := by
  have := ow.lvl_lt c.hr.1 c.hr.2
  have := ow.bound
  have := c.h; omega

def SwpOk (gi hi gv hv : Nat) (s : Store) (k : Nat) (f : Edge) (H : BFn) : Prop :=
  SwapCfg s.ord gi hi gv hv ∧ ∃ F, Rep s f F ∧ k ≤ s.ord.lvl f.id ∧ k ≤ gi ∧ H = BFn.swap F gv hv

def SwpPd (gi hi gv hv : Nat) (s : Store) (f : Edge) (H : BFn) : Prop :=
  SwapCfg s.ord gi hi gv hv ∧ ∃ F, Rep s f F ∧ H = BFn.swap F gv hv

def SideOk (b : Bool) (gi hi gv hv : Nat) (s : Store) (k : Nat) (f g : Edge) (H : BFn) : Prop :=
  SwapCfg s.ord gi hi gv hv ∧ ∃ F G, Rep s f F ∧ Rep s g G ∧ k ≤ s.ord.lvl f.id ∧
    k ≤ s.ord.lvl g.id ∧ k ≤ hi ∧ H = BFn.side b hv F G

def SidePd (b : Bool) (gi hi gv hv : Nat) (s : Store) (f g : Edge) (H : BFn) : Prop :=
  SwapCfg s.ord gi hi gv hv ∧ (s.ord.lvl f.id < hi ∨ s.ord.lvl g.id < hi) ∧
    ∃ F G, Rep s f F ∧ Rep s g G ∧ H = BFn.side b hv F G

theorem SwpOk.mono {s s' k f H} (hl : s.Le s') (x : SwpOk gi hi gv hv s k f H) :
    SwpOk gi hi gv hv s' k f H := by
  obtain ⟨c, F, h1, h2, h3, h4⟩ := x
  rw [← hl.ord] at c h2
  exact ⟨c, F, h1.mono hl, h2, h3, h4⟩

theorem SwpPd.mono {s s' f H} (hl : s.Le s') (x : SwpPd gi hi gv hv s f H) :
    SwpPd gi hi gv hv s' f H := by
  obtain ⟨c, F, h1, h4⟩ := x
  rw [← hl.ord] at c
  exact ⟨c, F, h1.mono hl, h4⟩

theorem SideOk.mono {b s s' k f g H} (hl : s.Le s') (x : SideOk b gi hi gv hv s k f g H) :
    SideOk b gi hi gv hv s' k f g H := by
  obtain ⟨c, F, G, h1, h1', h2, h2', h3, h4⟩ := x
  rw [← hl.ord] at c h2 h2'
  exact ⟨c, F, G, h1.mono hl, h1'.mono hl, h2, h2', h3, h4⟩

theorem SidePd.mono {b s s' f g H} (hl : s.Le s') (x : SidePd b gi hi gv hv s f g H) :
    SidePd b gi hi gv hv s' f g H := by
  obtain ⟨c, h2, F, G, h1, h1', h4⟩ := x
  rw [← hl.ord] at c h2
  exact ⟨c, h2, F, G, h1.mono hl, h1'.mono hl, h4⟩

theorem SwpPd.fun {s f H H'} (w : s.WF) (x : SwpPd gi hi gv hv s f H) (y : SwpPd gi hi gv hv s f H') :
    H = H' := by
  obtain ⟨-, F, h1, rfl⟩ := x
  obtain ⟨-, F', h1', rfl⟩ := y
  rw [h1.unique w h1']

theorem SidePd.fun {b s f g H H'} (w : s.WF) (x : SidePd b gi hi gv hv s f g H)
    (y : SidePd b gi hi gv hv s f g H') : H = H' := by
  obtain ⟨-, -, F, G, h1, h2, rfl⟩ := x
  obtain ⟨-, -, F', G', h1', h2', rfl⟩ := y
  rw [h1.unique w h1', h2.unique w h2']

def swapSem (gi hi gv hv : Nat) : RulesSem (swapRules gi hi) where
  Ok s k x F :=
    match x with
    | .root f => SwpOk gi hi gv hv s k f F
    | .swp f => SwpOk gi hi gv hv s k f F
    | .plus f g => SideOk true gi hi gv hv s k f g F
    | .minus f g => SideOk false gi hi gv hv s k f g F
    | .cmp f h => CmpOk hi hv s k f h F
    | .ite q => KOk iteSem s k q F
    | _ => False
  Null _ _ := False
  Pd s x F :=
    match x with
    | .swp f => SwpPd gi hi gv hv s f F
    | .plus f g => SidePd true gi hi gv hv s f g F
    | .minus f g => SidePd false gi hi gv hv s f g F
    | .cmp f h => CmpPd hi hv s f h F
    | .ite q => KPd iteSem s q F
    | _ => False
  ok_mono := by
    intro s s' k x F hl h
    cases x <;> first | exact KOk.mono hl h | exact CmpOk.mono hl h | exact SwpOk.mono hl h |
      exact SideOk.mono hl h | exact h
  null_mono := fun _ h => h
  pd_mono := by
    intro s s' x F hl h
    cases x <;> first | exact KPd.mono hl h | exact CmpPd.mono hl h | exact SwpPd.mono hl h |
      exact SidePd.mono hl h | exact h

/-- problems with `h` fixed do not depend on `h` -/
theorem fix_fix (F : BFn) (v : Nat) (b c : Bool) : BFn.fix (BFn.fix F v b) v c = BFn.fix F v b := by
  funext ρ; simp only [BFn.fix, upd_upd]

theorem sideKid_spec {b : Bool} {s : Store} (w : s.WF) (c : SwapCfg s.ord gi hi gv hv) {f : Edge} {F}
    (rf : Rep s f F) : ∃ f' F', sideKid b hi s f = some f' ∧ Rep s f' F' ∧
      BFn.fix F' hv b = BFn.fix F hv b ∧ s.ord.lvl f.id ≤ s.ord.lvl f'.id ∧ s.ord.lvl f'.id ≠ hi := by
  unfold sideKid
  by_cases h : s.ord.lvl f.id = hi
  · have hf0 : f.id ≠ 0 := by
      intro h0; rw [h0] at h; simp only [Order.lvl, if_true] at h
      have := c.hlt w.ord; omega
    have hid : f.id = hv := by
      have a := eok_range w rf.eok hf0
      exact w.ord.lvl_inj a.1 a.2 c.hr.1 c.hr.2 (by rw [c.h]; exact h)
    obtain ⟨t, u, hk, rt, ru, l1, l2, -⟩ := rf.kids w hf0
    rw [if_pos h, hk]
    rw [hid] at rt ru
    cases b with
    | true => exact ⟨t, _, rfl, rt, fix_fix F hv true true, by omega, by omega⟩
    | false => exact ⟨u, _, rfl, ru, fix_fix F hv false false, by omega, by omega⟩
  · exact ⟨f, F, by rw [if_neg h], rf, rfl, Nat.le_refl _, h⟩

theorem sideConst_rep (b : Bool) (s : Store) : Rep s (sideConst b) (fun _ => b) := by
  cases b
  · exact .zero
  · exact .one

theorem same_rep {s : Store} (w : s.WF) {f g : Edge} {F G} (rf : Rep s f F) (rg : Rep s g G)
    (h : f.same g = true) : F = G := by
  obtain ⟨δ, l⟩ := w.exists_lab
  rw [← l.rep_eq rf, ← l.rep_eq rg]
  simp only [Edge.same, Bool.and_eq_true, beq_iff_eq] at h
  funext ρ; simp only [den, h.1, h.2]

theorem sideWant_ok {b : Bool} {s k x f g H} (w : s.WF)
    (hw : (swapRules gi hi).want s x = sideWant b hi s f g)
    (ok : SideOk b gi hi gv hv s k f g H) :
    WantOk (swapSem gi hi gv hv) (fun d => d ∈ [0, 1, 2, 3, 4]) s k x H := by
  obtain ⟨c, F, G, rf, rg, lf, lg, lk, rfl⟩ := ok
  obtain ⟨f', F', kf, rf', ff, llf, nef⟩ := sideKid_spec (b := b) w c rf
  obtain ⟨g', G', kg, rg', fg, llg, neg⟩ := sideKid_spec (b := b) w c rg
  have hH : BFn.side b hv F G = BFn.side b hv F' G' := by funext ρ; simp only [BFn.side, ff, fg]
  have hl := c.hlt w.ord
  have l0 : s.ord.lvl 0 = constIndex := by simp [Order.lvl]
  rw [hH]
  unfold sideWant at hw
  rw [kf, kg] at hw
  simp only at hw
  by_cases h1 : f'.same g' = true
  · rw [if_pos h1] at hw
    have he := same_rep w rf' rg' h1
    subst he
    have hH' : BFn.side b hv F' F' = BFn.subst F' hv (fun _ => b) := by
      funext ρ
      show (if ρ hv then BFn.fix F' hv b ρ else BFn.fix F' hv b ρ) = _
      split <;> rfl
    by_cases h2 : s.ord.lvl f'.id < hi
    · rw [if_pos h2] at hw
      have hf0 : f'.id ≠ 0 := by intro h0; rw [h0] at h2; omega
      obtain ⟨i1, i2, i3, i4⟩ := minId2_spec w rf'.eok (sideConst_rep b s).eok (Or.inl hf0)
      have hm : minId2 s.ord (f', sideConst b) = f'.id := by
        have : (sideConst b).id = 0 := by cases b <;> rfl
        simp only [minId2, this, l0]
        rw [if_pos (by omega)]
      refine .req (.cmp f' (sideConst b)) false (BFn.subst F' hv (fun _ => b)) hw
        ⟨⟨c.h, c.hr.1, c.hr.2⟩, h2, F', _, rf', sideConst_rep b s, rfl⟩ (by simp [swapRules]) i1 ?_ ?_
      · show k ≤ s.ord.lvl (minId2 s.ord (f', sideConst b))
        rw [hm]; omega
      · rw [hH']; funext ρ; simp
    · rw [if_neg h2] at hw
      refine .edge f' hw ?_ (by omega)
      rw [hH', BFn.subst_indep (rf'.indep w _ (by rw [c.h]; omega))]; exact rf'
  · rw [if_neg h1] at hw
    by_cases h2 : hi < s.ord.lvl f'.id ∧ hi < s.ord.lvl g'.id
    · rw [if_pos h2] at hw
      rw [c.hid w.ord] at hw
      refine .node hv f' g' F' G' hw rf' rg' c.hr (by rw [c.h]; omega) (by rw [c.h]; omega)
        (by rw [c.h]; exact lk) ?_
      funext ρ
      simp only [BFn.side]
      rw [BFn.fix_indep (rf'.indep w _ (by rw [c.h]; omega)),
        BFn.fix_indep (rg'.indep w _ (by rw [c.h]; omega))]
    · rw [if_neg h2] at hw
      have hor : s.ord.lvl f'.id < hi ∨ s.ord.lvl g'.id < hi := by omega
      have hc : f'.id ≠ 0 ∨ g'.id ≠ 0 := by
        rcases hor with h | h
        · left; intro h0; rw [h0] at h; omega
        · right; intro h0; rw [h0] at h; omega
      obtain ⟨i1, i2, i3, i4⟩ := minId2_spec w rf'.eok rg'.eok hc
      have hk : k ≤ s.ord.lvl (minId2 s.ord (f', g')) := by
        rcases i4 with h3 | h3 <;> rw [h3] <;> omega
      cases b with
      | true =>
        exact .req (.plus f' g') false _ hw ⟨c, hor, F', G', rf', rg', rfl⟩ (by simp [swapRules]) i1 hk
          (by funext ρ; simp)
      | false =>
        exact .req (.minus f' g') false _ hw ⟨c, hor, F', G', rf', rg', rfl⟩ (by simp [swapRules]) i1 hk
          (by funext ρ; simp)

theorem side_shannon (b : Bool) (F G : BFn) {i v : Nat} (hne : i ≠ v) (ρ : Asg) :
    BFn.side b v F G ρ = if ρ i then BFn.side b v (BFn.fix F i true) (BFn.fix G i true) ρ
      else BFn.side b v (BFn.fix F i false) (BFn.fix G i false) ρ := by
  have key : ∀ x, ρ i = x → BFn.side b v (BFn.fix F i x) (BFn.fix G i x) ρ = BFn.side b v F G ρ := by
    intro x hx
    have h1 : upd ρ i x = ρ := by rw [← hx]; exact upd_self' ρ i
    simp only [BFn.side, BFn.fix, upd_comm (Ne.symm hne), h1]
  cases hx : ρ i
  · simp [key false hx]
  · simp [key true hx]

theorem swap_shannon (F : BFn) {i g h : Nat} (h1 : i ≠ g) (h2 : i ≠ h) (ρ : Asg) :
    BFn.swap F g h ρ = if ρ i then BFn.swap (BFn.fix F i true) g h ρ
      else BFn.swap (BFn.fix F i false) g h ρ := by
  have key : ∀ x, ρ i = x → BFn.swap (BFn.fix F i x) g h ρ = BFn.swap F g h ρ := by
    intro x hx
    have h1 : upd ρ i x = ρ := by rw [← hx]; exact upd_self' ρ i
    simp only [BFn.swap, Asg.swap, BFn.fix]
    rw [upd_comm (Ne.symm h2), upd_comm (Ne.symm (by assumption : i ≠ g)), h1]
  cases hx : ρ i
  · simp [key false hx]
  · simp [key true hx]

/-- the swap at the upper variable -/
theorem swap_top (F : BFn) {g h : Nat} (hne : g ≠ h) (ρ : Asg) :
    BFn.swap F g h ρ = if ρ g then BFn.side true h (BFn.fix F g true) (BFn.fix F g false) ρ
      else BFn.side false h (BFn.fix F g true) (BFn.fix F g false) ρ := by
  simp only [BFn.swap, BFn.side, BFn.fix, Asg.swap]
  cases hg : ρ g <;> cases hh : ρ h <;> simp only [if_true, if_false, Bool.false_eq_true] <;>
    rw [upd_comm hne]

/-- the swap of a function that does not depend on the upper variable -/
theorem swap_indep (F : BFn) {g h : Nat} (hne : g ≠ h) (hi : Indep F g) (ρ : Asg) :
    BFn.swap F g h ρ = if ρ g then BFn.subst F h (fun _ => true) ρ
      else BFn.subst F h (fun _ => false) ρ := by
  simp only [BFn.swap, BFn.subst, Asg.swap]
  rw [upd_comm hne, hi]
  cases ρ g <;> simp

theorem sideSplit_ok {b : Bool} {s f g H} (w : s.WF) (x : Prob)
    (htop : (swapRules gi hi).top s.ord x = minId2 s.ord (f, g)) (y : Edge → Edge → Prob)
    (hs : (swapRules gi hi).split s x = match cof2 s.ord s.kids (f, g) with
      | some (u, v) => some (y u.1 u.2, y v.1 v.2) | none => none)
    (hy : ∀ s k f g H, SideOk b gi hi gv hv s k f g H → (swapSem gi hi gv hv).Ok s k (y f g) H)
    (pd : SidePd b gi hi gv hv s f g H) : SplitOk (swapSem gi hi gv hv) s x H := by
  obtain ⟨c, hor, F, G, rf, rg, rfl⟩ := pd
  have hl := c.hlt w.ord
  have l0 : s.ord.lvl 0 = constIndex := by simp [Order.lvl]
  have hc : f.id ≠ 0 ∨ g.id ≠ 0 := by
    rcases hor with h | h
    · left; intro h0; rw [h0] at h; omega
    · right; intro h0; rw [h0] at h; omega
  obtain ⟨i1, i2, i3, i4⟩ := minId2_spec w rf.eok rg.eok hc
  obtain ⟨f1, g1, f0, g0, hcf, r1, r2, r3, r4, l1, l2, l3, l4⟩ := cof2_spec w rf rg hc
  have hne : minId2 s.ord (f, g) ≠ hv := by
    intro h; have := c.h; rw [h] at i2 i3; omega
  have hk : s.ord.lvl (minId2 s.ord (f, g)) + 1 ≤ hi := by omega
  refine .two (y f1 g1) (y f0 g0)
    (BFn.side b hv (BFn.fix F (minId2 s.ord (f, g)) true) (BFn.fix G (minId2 s.ord (f, g)) true))
    (BFn.side b hv (BFn.fix F (minId2 s.ord (f, g)) false) (BFn.fix G (minId2 s.ord (f, g)) false))
    (by rw [hs, hcf]) ?_ ?_ ?_
  · rw [htop]; exact hy _ _ _ _ _ ⟨c, _, _, r1, r3, l1, l3, hk, rfl⟩
  · rw [htop]; exact hy _ _ _ _ _ ⟨c, _, _, r2, r4, l2, l4, hk, rfl⟩
  · rw [htop]; funext ρ; exact side_shannon b F G hne ρ

theorem swp_top {s : Store} (w : s.WF) (c : SwapCfg s.ord gi hi gv hv) {f : Edge} (ef : s.EOK f) :
    (1 ≤ (swapRules gi hi).top s.ord (.swp f) ∧ (swapRules gi hi).top s.ord (.swp f) ≤ s.ord.numVars) ∧
      s.ord.lvl ((swapRules gi hi).top s.ord (.swp f)) = min gi (s.ord.lvl f.id) := by
  have hl := c.hlt w.ord
  have hlt := c.lt
  have l0 : s.ord.lvl 0 = constIndex := by simp [Order.lvl]
  simp only [swapRules]
  by_cases h : gi < s.ord.lvl f.id
  · rw [if_pos h, c.gid w.ord, c.g]; exact ⟨c.gr, by omega⟩
  · rw [if_neg h]
    have hf0 : f.id ≠ 0 := by intro h0; rw [h0] at h; omega
    exact ⟨eok_range w ef hf0, by omega⟩

theorem swap_ok (gi hi gv hv : Nat) : RulesOk (swapSem gi hi gv hv) (fun d => d ∈ [0, 1, 2, 3, 4]) where
  pd_fun := by
    intro s p F F' w _ h h'
    cases p <;> first | exact KPd.fun w h h' | exact CmpPd.fun w h h' | exact SwpPd.fun w h h' |
      exact SidePd.fun w h h' | exact h.elim
  want_null := fun _ h => h.elim
  want_ok := by
    intro s k x F w h
    cases x with
    | ite q => exact iteWant_ok (fun q => by simp [swapRules]) (fun _ _ => rfl) (fun _ _ _ h => h) w rfl h
    | cmp f g =>
      exact cmpWant_ok (fun q => by simp [swapRules]) (fun _ _ => rfl) (fun _ _ _ h => h)
        (fun _ _ => by simp [swapRules]) (fun _ _ _ => rfl) (fun _ _ _ _ h => h) w rfl h
    | plus f g => exact sideWant_ok w rfl h
    | minus f g => exact sideWant_ok w rfl h
    | root f =>
      obtain ⟨c, X, rf, lf, lk, rfl⟩ := h
      obtain ⟨t1, t2⟩ := swp_top w c rf.eok
      exact .req (.swp f) false _ rfl ⟨c, X, rf, rfl⟩ (by simp [swapRules]) t1 (by omega)
        (by funext ρ; simp)
    | swp f =>
      obtain ⟨c, X, rf, lf, lk, rfl⟩ := h
      obtain ⟨t1, t2⟩ := swp_top w c rf.eok
      by_cases h1 : s.ord.lvl f.id ≤ hi
      · exact .req (.swp f) false _ (by simp [swapRules, h1]) ⟨c, X, rf, rfl⟩ (by simp [swapRules]) t1
          (by omega) (by funext ρ; simp)
      · refine .edge f (by simp [swapRules, h1]) ?_ lf
        have i1 := rf.indep w hv (by rw [c.h]; omega)
        have i2 := rf.indep w gv (by have := c.g; have := c.lt; omega)
        have : BFn.swap X gv hv = X := by
          funext ρ; simp only [BFn.swap, Asg.swap]; rw [i1, i2]
        rw [this]; exact rf
    | _ => exact h.elim
  split_ok := by
    intro s p F w _ h
    cases p with
    | ite q => exact iteSplit_ok (fun _ _ => rfl) (fun _ _ _ _ h => h) w rfl h
    | cmp f g => exact cmpSplit_ok (fun _ _ _ => rfl) (fun _ _ _ _ _ h => h) w rfl h
    | plus f g => exact sideSplit_ok (b := true) w _ rfl .plus rfl (fun _ _ _ _ _ h => h) h
    | minus f g => exact sideSplit_ok (b := false) w _ rfl .minus rfl (fun _ _ _ _ _ h => h) h
    | swp f =>
      obtain ⟨c, X, rf, rfl⟩ := h
      obtain ⟨t1, t2⟩ := swp_top w c rf.eok
      have hl := c.hlt w.ord
      have hlt := c.lt
      have l0 : s.ord.lvl 0 = constIndex := by simp [Order.lvl]
      by_cases h1 : s.ord.lvl f.id < gi
      · have hf0 : f.id ≠ 0 := by intro h0; rw [h0] at h1; omega
        obtain ⟨t, u, hk, rt, ru, l1, l2, -⟩ := rf.kids w hf0
        have ht : (swapRules gi hi).top s.ord (.swp f) = f.id := by
          simp only [swapRules]; rw [if_neg (by omega)]
        refine .two (.swp t) (.swp u) (BFn.swap (BFn.fix X f.id true) gv hv)
          (BFn.swap (BFn.fix X f.id false) gv hv) ?_ ?_ ?_ ?_
        · simp only [swapRules, h1, if_true, hk]
        · rw [ht]; exact ⟨c, _, rt, l1, h1, rfl⟩
        · rw [ht]; exact ⟨c, _, ru, l2, h1, rfl⟩
        · rw [ht]; funext ρ
          refine swap_shannon X ?_ ?_ ρ
          · intro h; have := c.g; rw [h] at h1; omega
          · intro h; have := c.h; rw [h] at h1; omega
      · by_cases h2 : s.ord.lvl f.id = gi
        · have hf0 : f.id ≠ 0 := by intro h0; rw [h0] at h2; omega
          have hid : f.id = gv := by
            have a := eok_range w rf.eok hf0
            exact w.ord.lvl_inj a.1 a.2 c.gr.1 c.gr.2 (by rw [c.g]; exact h2)
          obtain ⟨t, u, hk, rt, ru, l1, l2, -⟩ := rf.kids w hf0
          have ht : (swapRules gi hi).top s.ord (.swp f) = gv := by
            simp only [swapRules]; rw [if_neg (by omega), hid]
          rw [hid] at rt ru
          refine .two (.plus t u) (.minus t u)
            (BFn.side true hv (BFn.fix X gv true) (BFn.fix X gv false))
            (BFn.side false hv (BFn.fix X gv true) (BFn.fix X gv false)) ?_ ?_ ?_ ?_
          · simp only [swapRules, h2, if_true, hk]
            simp
          · rw [ht]; exact ⟨c, _, _, rt, ru, by rw [c.g]; omega, by rw [c.g]; omega, by rw [c.g]; omega, rfl⟩
          · rw [ht]; exact ⟨c, _, _, rt, ru, by rw [c.g]; omega, by rw [c.g]; omega, by rw [c.g]; omega, rfl⟩
          · rw [ht]; funext ρ; exact swap_top X c.ne ρ
        · have ht : (swapRules gi hi).top s.ord (.swp f) = gv := by
            simp only [swapRules]; rw [if_pos (by omega), c.gid w.ord]
          refine .two (.cmp f one) (.cmp f zero) (BFn.subst X hv (fun _ => true))
            (BFn.subst X hv (fun _ => false)) ?_ ?_ ?_ ?_
          · simp only [swapRules, h1, if_false, h2]
          · rw [ht]; exact ⟨⟨c.h, c.hr.1, c.hr.2⟩, X, _, rf, .one, by rw [c.g]; omega,
              by show _ ≤ s.ord.lvl 0; rw [l0, c.g]; omega, rfl⟩
          · rw [ht]; exact ⟨⟨c.h, c.hr.1, c.hr.2⟩, X, _, rf, .zero, by rw [c.g]; omega,
              by show _ ≤ s.ord.lvl 0; rw [l0, c.g]; omega, rfl⟩
          · rw [ht]; funext ρ
            exact swap_indep X c.ne (rf.indep w gv (by rw [c.g]; omega)) ρ
    | _ => exact h.elim

/-- `Cal_BddSwapVars` from its initial request on (calBddSwapVars.c:122-193). -/
def swapBF (s : Store) (f : Edge) (gi hi : Nat) : Option (Store × Edge) :=
  opR (swapRules gi hi) [0, 1, 2, 3, 4] (allIds s.ord) 0 s (.root f)

theorem swapBF_spec {s : Store} (w : s.WF) {f : Edge} {F : BFn} (rf : Rep s f F)
    {g h : Nat} (hg : 1 ≤ g ∧ g ≤ s.ord.numVars) (hh : 1 ≤ h ∧ h ≤ s.ord.numVars)
    (hlt : s.ord.lvl g < s.ord.lvl h) :
    Gives s (swapBF s f (s.ord.lvl g) (s.ord.lvl h)) (BFn.swap F g h) :=
  opR_spec (swap_ok (s.ord.lvl g) (s.ord.lvl h) g h) (by decide) (fun _ => Iff.rfl) w
    (x := .root f) ⟨⟨rfl, rfl, hg, hh, hlt⟩, F, rf, Nat.zero_le _, Nat.zero_le _, rfl⟩ (Nat.zero_le _)
    (fun _ hi _ => mem_allIds hi)

end Eng
end Cal
