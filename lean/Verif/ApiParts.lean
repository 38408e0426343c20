import Verif.ApiQuant

/-!
# Parts of a BDD, types, cubes, intersection
-/

namespace Cal

/-- The cofactors of a node. -/
theorem Rep.kids {s : Store} (w : s.WF) {e F} (r : Rep s e F) (hc : e.id ≠ 0) :
    ∃ t u, s.kids e = some (t, u) ∧ Rep s t (fun ρ => F (upd ρ e.id true)) ∧
      Rep s u (fun ρ => F (upd ρ e.id false)) ∧ s.ord.lvl e.id < s.ord.lvl t.id ∧
      s.ord.lvl e.id < s.ord.lvl u.id ∧ t ≠ u := by
  cases r with
  | one => simp at hc
  | zero => simp at hc
  | @pos a n F G hn hF hG =>
    have i1 := hF.indep w _ (w.thn_lt _ _ hn)
    have i2 := hG.indep w _ (w.els_lt _ _ hn)
    refine ⟨n.thn, n.els, by simp [Store.kids, hn], ?_, ?_, w.thn_lt _ _ hn, w.els_lt _ _ hn,
      w.reduced _ _ hn⟩
    · have : (fun ρ => (if upd ρ n.var true n.var then F (upd ρ n.var true) else
          G (upd ρ n.var true))) = F := by funext ρ; simp [i1 ρ true]
      simp only [this]; exact hF
    · have : (fun ρ => (if upd ρ n.var false n.var then F (upd ρ n.var false) else
          G (upd ρ n.var false))) = G := by funext ρ; simp [i2 ρ false]
      simp only [this]; exact hG
  | @neg a n F G hn hF hG =>
    have i1 := hF.indep w _ (w.thn_lt _ _ hn)
    have i2 := hG.indep w _ (w.els_lt _ _ hn)
    refine ⟨n.thn.not, n.els.not, by simp [Store.kids, hn], ?_, ?_, w.thn_lt _ _ hn,
      w.els_lt _ _ hn, by simpa using w.reduced _ _ hn⟩
    · have : (fun ρ => !(if upd ρ n.var true n.var then F (upd ρ n.var true) else
          G (upd ρ n.var true))) = fun ρ => !F ρ := by funext ρ; simp [i1 ρ true]
      simp only [this]; exact hF.not
    · have : (fun ρ => !(if upd ρ n.var false n.var then F (upd ρ n.var false) else
          G (upd ρ n.var false))) = fun ρ => !G ρ := by funext ρ; simp [i2 ρ false]
      simp only [this]; exact hG.not

theorem Rep.same_one_iff {s : Store} (w : s.WF) {e F} (r : Rep s e F) :
    e.same Cal.one = true ↔ F = fun _ => true := by
  constructor
  · intro h
    have := same_one w r.eok h
    subst this
    exact r.unique w .one
  · rintro rfl
    have := canonical w r .one
    subst this; rfl

theorem Rep.same_zero_iff {s : Store} (w : s.WF) {e F} (r : Rep s e F) :
    e.same Cal.zero = true ↔ F = fun _ => false := by
  constructor
  · intro h
    have := same_zero w r.eok h
    subst this
    exact r.unique w .zero
  · rintro rfl
    have := canonical w r .zero
    subst this; rfl

/-- Constant functions are the two constants. -/
theorem Rep.const_iff {s : Store} (w : s.WF) {e F} (r : Rep s e F) :
    e.id = 0 ↔ F = (fun _ => true) ∨ F = fun _ => false := by
  constructor
  · intro h
    cases r with
    | one => exact Or.inl rfl
    | zero => exact Or.inr rfl
    | pos hn _ _ => have := (w.var_range _ _ hn).1; simp only at h; omega
    | neg hn _ _ => have := (w.var_range _ _ hn).1; simp only at h; omega
  · rintro (rfl | rfl)
    · have := canonical w r .one; subst this; rfl
    · have := canonical w r .zero; subst this; rfl

/-- `v` is the top variable of `F` in the order: `F` depends on it, and on no variable before it. -/
structure TopVar (o : Order) (F : BFn) (v : Nat) : Prop where
  rng : 1 ≤ v ∧ v ≤ o.numVars
  dep : ¬ Indep F v
  first : ∀ x, 1 ≤ x → x ≤ o.numVars → o.idToIndex x < o.idToIndex v → Indep F x

theorem Rep.topVar {s : Store} (w : s.WF) {e F} (r : Rep s e F) (hc : e.id ≠ 0) :
    TopVar s.ord F e.id := by
  obtain ⟨n, hn, hv⟩ := r.eok.node w hc
  have hr := w.var_range _ _ hn
  rw [hv] at hr
  refine ⟨hr, r.dep w hc, fun x h1 h2 h3 => r.indep w x ?_⟩
  rw [Order.lvl, Order.lvl, if_neg hc, if_neg (by omega)]
  exact h3

theorem TopVar.unique {o : Order} (ow : o.WF) {F u v} (h : TopVar o F u) (g : TopVar o F v) :
    u = v := by
  rcases Nat.lt_trichotomy (o.idToIndex u) (o.idToIndex v) with h1 | h1 | h1
  · exact absurd (g.first u h.rng.1 h.rng.2 h1) h.dep
  · have := ow.left u h.rng.1 h.rng.2
    rw [h1, ow.left v g.rng.1 g.rng.2] at this
    exact this.symm
  · exact absurd (h.first v g.rng.1 g.rng.2 h1) g.dep

namespace Mgr

variable {Γ : Nat → BFn → BFn} {leak own : Nat → Nat} {m : Mgr} {lk : Bool} {E : Env}

theorem _root_.Cal.Mgr.Inv.wf (i : m.Inv own lk) : m.st.WF := by
  obtain ⟨Γ, leak, -, i⟩ := i; exact i.wf

theorem var_rep (i : InvG Γ leak own m) {v} (h1 : 1 ≤ v) (h2 : v ≤ m.st.ord.numVars) :
    ∃ e, m.vars v = some e ∧ Rep m.st e (fun ρ => ρ v) := by
  obtain ⟨a, h, hn⟩ := i.var v h1 h2
  refine ⟨_, h, ?_⟩
  have := Rep.pos hn .one .zero
  have he : (fun ρ : Asg => ρ v) = fun ρ => if ρ v then true else false := by
    funext ρ; by_cases hr : ρ v = true <;> simp [hr]
  rw [he]; exact this

/-- not a constant function -/
def NonConst (F : BFn) : Prop := F ≠ (fun _ => true) ∧ F ≠ fun _ => false

theorem nonConst_id {s : Store} (w : s.WF) {e F} (r : Rep s e F) (h : NonConst F) : e.id ≠ 0 := by
  intro h0
  rcases (r.const_iff w).1 h0 with h1 | h1
  · exact h.1 h1
  · exact h.2 h1

/-- `Cal_BddIf`: the handle of the top variable (in the order after possible reordering). -/
theorem if_ok (S : E.Sound) (i : m.Inv own lk) {f F} (lf : UTab.Live own f) (hf : Den m f F)
    (hc : NonConst F) :
    ∃ v, Res own lk false 0 m (m.if_ E f) (fun ρ => ρ v) ∧ ¬ Indep F v ∧
      (m.technique = 0 → TopVar m.st.ord F v) := by
  obtain ⟨m1, h1, i1, p1⟩ := preProc_ok S i (forall1 lf)
  obtain ⟨e, he, r⟩ := p1.fns f lf F hf
  have hid := nonConst_id i1.wf r hc
  have tv := r.topVar i1.wf hid
  refine ⟨_, ?_, tv.dep, fun ht => ?_⟩
  · obtain ⟨Γ, leak, hl, ii⟩ := i1
    obtain ⟨d, hd, rd⟩ := var_rep ii tv.rng.1 tv.rng.2
    have := Res.pre p1 (extern_ok ⟨Γ, leak, hl, ii⟩ rd)
    simp only [if_, api, h1, internals, internal, he, Option.map_some, hd]
    simpa [extern] using this
  · rw [p1.ord ht] at tv
    exact tv

/-- `Cal_BddThen` and `Cal_BddElse`: the cofactors for the top variable. -/
theorem thenElse_ok (S : E.Sound) (i : m.Inv own lk) {f F} (lf : UTab.Live own f) (hf : Den m f F)
    (hc : NonConst F) :
    ∃ v, Res own lk false 0 m (m.then_ E f) (fun ρ => F (upd ρ v true)) ∧
      Res own lk false 0 m (m.else_ E f) (fun ρ => F (upd ρ v false)) ∧
      ¬ Indep F v ∧ (m.technique = 0 → TopVar m.st.ord F v) := by
  obtain ⟨m1, h1, i1, p1⟩ := preProc_ok S i (forall1 lf)
  obtain ⟨e, he, r⟩ := p1.fns f lf F hf
  have hid := nonConst_id i1.wf r hc
  have tv := r.topVar i1.wf hid
  obtain ⟨t, u, hk, rt, ru, -, -, -⟩ := r.kids i1.wf hid
  refine ⟨_, ?_, ?_, tv.dep, fun ht => by rw [p1.ord ht] at tv; exact tv⟩
  · have := Res.pre p1 (extern_ok i1 rt)
    simp only [then_, api, h1, internals, internal, he, Option.map_some, hk]
    simpa [extern] using this
  · have := Res.pre p1 (extern_ok i1 ru)
    simp only [else_, api, h1, internals, internal, he, Option.map_some, hk]
    simpa [extern] using this

/-- `Cal_BddGetIfIndex` and `Cal_BddGetIfId`. -/
theorem getIf_ok (S : E.Sound) (i : m.Inv own lk) {f F} (lf : UTab.Live own f) (hf : Den m f F) :
    ∃ m', Pres own 0 m m' ∧ m'.Inv own lk ∧
      ((F = (fun _ => true) ∨ F = fun _ => false) → m.getIfIndex E f = some (m', 65535) ∧
        m.getIfId E f = some (m', 0)) ∧
      (NonConst F → ∃ v, TopVar m'.st.ord F v ∧
        m.getIfIndex E f = some (m', m'.st.ord.idToIndex v) ∧ m.getIfId E f = some (m', v)) := by
  obtain ⟨m1, h1, i1, p1⟩ := preProc_ok S i (forall1 lf)
  obtain ⟨e, he, r⟩ := p1.fns f lf F hf
  refine ⟨m1, p1, i1, ?_, ?_⟩
  · intro h
    have h0 := (r.const_iff i1.wf).2 h
    simp only [Edge.phase_id] at h0
    simp [getIfIndex, getIfId, h1, internal, he, Edge.isConst, h0]
  · intro h
    have h0 := nonConst_id i1.wf r h
    have tv := r.topVar i1.wf h0
    refine ⟨_, tv, ?_, ?_⟩
    · simp only [Edge.phase_id] at h0
      simp [getIfIndex, h1, internal, he, Edge.isConst, h0, Store.elvl, Order.lvl]
    · simp only [Edge.phase_id] at h0
      simp [getIfId, h1, internal, he, Edge.isConst, h0]

/-! ## Types -/

/-- What `Cal_BddType` should answer. -/
structure TypeSpec (F : BFn) (t : BddType) : Prop where
  zero : t = .zero ↔ F = fun _ => false
  one : t = .one ↔ F = fun _ => true
  pos : t = .posvar ↔ ∃ v, F = fun ρ => ρ v
  neg : t = .negvar ↔ ∃ v, F = fun ρ => !ρ v
  ovf : t ≠ .overflow

theorem typeAux_ok {s : Store} (w : s.WF) {e F} (r : Rep s e F) :
    ∃ t, typeAux s e = some t ∧ TypeSpec F t := by
  have npos : ∀ {c : Bool}, F = (fun _ => c) → ¬ ∃ v, F = fun ρ => ρ v := by
    rintro c rfl ⟨v, h⟩
    have h1 := congrFun h (fun _ => true)
    have h2 := congrFun h (fun _ => false)
    simp only at h1 h2
    rw [h1] at h2; cases h2
  have nneg : ∀ {c : Bool}, F = (fun _ => c) → ¬ ∃ v, F = fun ρ => !ρ v := by
    rintro c rfl ⟨v, h⟩
    have h1 := congrFun h (fun _ => true)
    have h2 := congrFun h (fun _ => false)
    simp only at h1 h2
    rw [h1] at h2; cases h2
  have ne : (fun _ : Asg => true) ≠ fun _ => false := fun h => by
    have := congrFun h fun _ => true; cases this
  unfold typeAux
  by_cases hc : e.id = 0
  · have hcc : e.isConst = true := by simp [Edge.isConst, hc]
    rcases (r.const_iff w).1 hc with h | h
    · refine ⟨.one, ?_, ?_⟩
      · have h1 := (r.same_one_iff w).2 h
        have h2 : e.same Cal.zero = false := by
          rw [← Bool.not_eq_true, r.same_zero_iff w, h]; exact ne
        simp [hcc, h1, h2]
      · have a := npos h
        have b := nneg h
        exact ⟨by simp [h, ne], by simp [h], by simpa using a, by simpa using b, by simp⟩
    · refine ⟨.zero, ?_, ?_⟩
      · have h1 := (r.same_zero_iff w).2 h
        simp [hcc, h1]
      · have a := npos h
        have b := nneg h
        exact ⟨by simp [h], by simp [h, Ne.symm ne], by simpa using a, by simpa using b, by simp⟩
  · have hcc : e.isConst = false := by simp [Edge.isConst, hc]
    obtain ⟨t, u, hk, rt, ru, -, -, htu⟩ := r.kids w hc
    have n1 : F ≠ fun _ => true := fun h => hc ((r.const_iff w).2 (Or.inl h))
    have n0 : F ≠ fun _ => false := fun h => hc ((r.const_iff w).2 (Or.inr h))
    have dep := r.dep w hc
    -- a literal has the top variable as its variable
    have lit : ∀ (b : Bool) v, F = (fun ρ => Bool.xor b (ρ v)) → v = e.id := by
      intro b v h
      by_cases hv : v = e.id
      · exact hv
      · exfalso; apply dep
        intro ρ c
        rw [h]; simp only [upd_ne _ _ hv]
    have sh : ∀ ρ, F ρ = if ρ e.id then F (upd ρ e.id true) else F (upd ρ e.id false) := by
      intro ρ
      have hu : ∀ b, ρ e.id = b → upd ρ e.id b = ρ := by
        intro b hb; funext x; unfold upd; split
        · rename_i hx; rw [hx, hb]
        · rfl
      by_cases hr : ρ e.id = true
      · rw [if_pos hr, hu _ hr]
      · have hr' : ρ e.id = false := by simpa using hr
        rw [if_neg hr, hu _ hr']
    simp only [hcc, Bool.false_and, hk, Bool.false_eq_true, if_false]
    by_cases hp : (t.same Cal.one && u.same Cal.zero) = true
    · rw [if_pos hp]
      rw [Bool.and_eq_true, rt.same_one_iff w, ru.same_zero_iff w] at hp
      have hF : F = fun ρ => ρ e.id := by
        funext ρ
        rw [sh ρ, congrFun hp.1 ρ, congrFun hp.2 ρ]
        by_cases hr : ρ e.id = true <;> simp [hr]
      refine ⟨_, rfl, by simp [n0], by simp [n1], ?_, ?_, by simp⟩
      · simp only [true_iff]; exact ⟨_, hF⟩
      · simp only [reduceCtorEq, false_iff]
        rintro ⟨v, hv⟩
        have h1 := congrFun (hF.symm.trans hv) (fun _ => true)
        simp at h1
    · rw [if_neg hp]
      rw [Bool.and_eq_true, rt.same_one_iff w, ru.same_zero_iff w] at hp
      have hnp : ¬ ∃ v, F = fun ρ => ρ v := by
        rintro ⟨v, hv⟩
        have := lit false v (by simpa using hv)
        subst this
        apply hp
        constructor <;> (funext ρ; rw [hv]; simp)
      by_cases hn : (t.same Cal.zero && u.same Cal.one) = true
      · rw [if_pos hn]
        rw [Bool.and_eq_true, rt.same_zero_iff w, ru.same_one_iff w] at hn
        have hF : F = fun ρ => !ρ e.id := by
          funext ρ
          rw [sh ρ, congrFun hn.1 ρ, congrFun hn.2 ρ]
          by_cases hr : ρ e.id = true <;> simp [hr]
        refine ⟨_, rfl, by simp [n0], by simp [n1], ?_, ?_, by simp⟩
        · simp only [reduceCtorEq, false_iff]; exact hnp
        · simp only [true_iff]; exact ⟨_, hF⟩
      · rw [if_neg hn]
        rw [Bool.and_eq_true, rt.same_zero_iff w, ru.same_one_iff w] at hn
        refine ⟨_, rfl, by simp [n0], by simp [n1], ?_, ?_, by simp⟩
        · simp only [reduceCtorEq, false_iff]; exact hnp
        · simp only [reduceCtorEq, false_iff]
          rintro ⟨v, hv⟩
          have := lit true v (by simpa using hv)
          subst this
          apply hn
          constructor <;> (funext ρ; rw [hv]; simp)

theorem type_ok (S : E.Sound) (i : m.Inv own lk) {f F} (lf : UTab.Live own f) (hf : Den m f F) :
    ∃ m' t, m.type E f = some (m', t) ∧ Pres own 0 m m' ∧ m'.Inv own lk ∧ TypeSpec F t := by
  obtain ⟨m1, h1, i1, p1⟩ := preProc_ok S i (forall1 lf)
  obtain ⟨e, he, r⟩ := p1.fns f lf F hf
  obtain ⟨t, ht, sp⟩ := typeAux_ok i1.wf r
  exact ⟨m1, t, by simp [type, h1, internal, he, ht], p1, i1, sp⟩

/-! ## Cubes -/

/-- A conjunction of literals. -/
def CubeFn (F : BFn) : Prop :=
  ∃ L : List (Nat × Bool), F = fun ρ => L.all fun l => ρ l.1 == l.2

theorem isCubeStep_ok {s : Store} (w : s.WF) : ∀ k {e F}, Rep s e F →
    F ≠ (fun _ => false) → 1 ≤ k → s.ord.numVars + 1 ≤ k + s.ord.lvl e.id →
    ∃ b, isCubeStep s k e = some b ∧ (b = true ↔ CubeFn F) := by
  intro k
  induction k with
  | zero => intro e F _ _ h; omega
  | succ k ih =>
    intro e F r hF _ hk
    unfold isCubeStep
    by_cases hc : e.id = 0
    · have hcc : e.isConst = true := by simp [Edge.isConst, hc]
      have h1 : F = fun _ => true := ((r.const_iff w).1 hc).resolve_right hF
      have h0 : ¬ e.same Cal.zero = true := by rw [r.same_zero_iff w]; exact hF
      rw [if_pos hcc, if_neg h0]
      exact ⟨true, rfl, by simp only [true_iff]; exact ⟨[], by simp [h1]⟩⟩
    · have hcc : ¬ e.isConst = true := by simp [Edge.isConst, hc]
      obtain ⟨t, u, hk1, rt, ru, l1, l2, htu⟩ := r.kids w hc
      have hlt := r.eok.lvl_lt w hc
      rw [if_neg hcc]
      simp only [hk1]
      have dep := r.dep w hc
      have sh : ∀ ρ, F ρ = F (upd ρ e.id (ρ e.id)) := by
        intro ρ
        congr 1
        funext x; unfold upd; split
        · rename_i hx; rw [hx]
        · rfl
      -- one cofactor is false: the other decides
      have other : ∀ b : Bool, (fun ρ => F (upd ρ e.id (!b))) = (fun _ => false) →
          (CubeFn F ↔ CubeFn fun ρ => F (upd ρ e.id b)) := by
        intro b hb
        have hFb : ∀ ρ, F ρ = (ρ e.id == b && F (upd ρ e.id b)) := by
          intro ρ
          by_cases hr : ρ e.id = b
          · have h := sh ρ
            rw [hr] at h; rw [← h]; simp [hr]
          · have hr' : ρ e.id = !b := by
              revert hr; generalize ρ e.id = c; cases c <;> cases b <;> simp
            have h2 : F ρ = false := by rw [sh ρ, hr']; exact congrFun hb ρ
            rw [h2]
            simp [hr]
        constructor
        · rintro ⟨L, hL⟩
          -- some assignment satisfies `F`
          have hb' : ∀ l ∈ L, l.1 = e.id → l.2 = b := by
            intro l hl h1
            apply Classical.byContradiction
            intro hne
            apply hF
            funext ρ
            rw [hFb ρ]
            by_cases hr : ρ e.id = b
            · have : F (upd ρ e.id b) = false := by
                rw [hL]
                simp only
                rw [List.all_eq_false]
                exact ⟨l, hl, by simp [h1, Ne.symm hne]⟩
              rw [this]; simp
            · simp [hr]
          refine ⟨L.filter fun l => l.1 != e.id, ?_⟩
          funext ρ
          rw [hL]
          simp only
          rw [Bool.eq_iff_iff, List.all_eq_true, List.all_eq_true]
          constructor
          · intro h l hl
            rw [List.mem_filter] at hl
            have := h l hl.1
            rwa [upd_ne _ _ (by simpa using hl.2)] at this
          · intro h l hl
            by_cases hle : l.1 = e.id
            · rw [hle, upd_same, hb' l hl hle]; simp
            · rw [upd_ne _ _ hle]
              exact h l (List.mem_filter.2 ⟨hl, by simpa using hle⟩)
        · rintro ⟨L, hL⟩
          refine ⟨(e.id, b) :: L, ?_⟩
          funext ρ
          rw [hFb ρ, congrFun hL ρ]
          simp
      by_cases hz1 : t.same Cal.zero = true
      · rw [if_pos hz1]
        rw [rt.same_zero_iff w] at hz1
        have hu : (fun ρ => F (upd ρ e.id false)) ≠ fun _ => false := by
          intro h
          rw [h] at ru; rw [hz1] at rt
          exact htu (canonical w rt ru)
        obtain ⟨b, hb, hc⟩ := ih ru hu (by omega) (by omega)
        exact ⟨b, hb, hc.trans (other false (by simpa using hz1)).symm⟩
      · rw [if_neg hz1]
        rw [rt.same_zero_iff w] at hz1
        by_cases hz0 : u.same Cal.zero = true
        · rw [if_pos hz0]
          rw [ru.same_zero_iff w] at hz0
          obtain ⟨b, hb, hc⟩ := ih rt hz1 (by omega) (by omega)
          exact ⟨b, hb, hc.trans (other true (by simpa using hz0)).symm⟩
        · rw [if_neg hz0]
          rw [ru.same_zero_iff w] at hz0
          refine ⟨false, rfl, ?_⟩
          simp only [Bool.false_eq_true, false_iff]
          rintro ⟨L, hL⟩
          apply dep
          have hno : ∀ l ∈ L, l.1 ≠ e.id := by
            intro l hl h1
            have : (fun ρ => F (upd ρ e.id (!l.2))) = fun _ => false := by
              funext ρ
              rw [hL]; simp only
              rw [List.all_eq_false]
              exact ⟨l, hl, by simp [h1]⟩
            cases hb : l.2
            · rw [hb] at this; exact hz1 (by simpa using this)
            · rw [hb] at this; exact hz0 (by simpa using this)
          intro ρ c
          rw [hL]; simp only
          rw [Bool.eq_iff_iff, List.all_eq_true, List.all_eq_true]
          constructor <;> intro h l hl <;> have := h l hl
          · rwa [upd_ne _ _ (hno l hl)] at this
          · rwa [upd_ne _ _ (hno l hl)]

theorem isCube_ok (i : m.Inv own lk) {f F} (hf : Den m f F) (hF : F ≠ fun _ => false) :
    ∃ b, m.isCube f = some b ∧ (b = true ↔ CubeFn F) := by
  obtain ⟨e, he, r⟩ := hf
  obtain ⟨b, hb, h⟩ := isCubeStep_ok i.wf (m.st.ord.numVars + 1) r hF (by omega) (by omega)
  exact ⟨b, by simp [isCube, internal, he, hb], h⟩

/-! ## Intersection -/

/-- `CalUniqueTableForIdFindOrAdd` with a reference taken to `t` only, the other child being the
constant false. -/
theorem halfNode_ok {s : Store} (w : s.WF) {δ} (hδ : Lab s δ) {i : Nat} {a b t : Edge}
    (hab : (a = t ∧ b = zero) ∨ (a = zero ∧ b = t))
    (hi : 1 ≤ i ∧ i ≤ s.ord.numVars) (ht : s.EOK t) (l1 : s.ord.lvl i < s.ord.lvl t.id) :
    OpOk s.Keep s δ (some ((if (s.findOrAdd i a b).2.2 then (s.findOrAdd i a b).1
      else (s.findOrAdd i a b).1.icr t), (s.findOrAdd i a b).2.1))
      (fun ρ => if ρ i then den δ a ρ else den δ b ρ) := by
  have lz : s.ord.lvl i < s.ord.lvl zero.id := by
    have := w.ord.lvl_lt hi.1 hi.2
    have := w.ord.bound
    show _ < s.ord.lvl 0
    rw [Order.lvl_zero]; omega
  have ha : s.EOK a ∧ s.ord.lvl i < s.ord.lvl a.id := by
    rcases hab with ⟨rfl, -⟩ | ⟨rfl, -⟩
    · exact ⟨ht, l1⟩
    · exact ⟨Store.EOK_zero _, lz⟩
  have hb : s.EOK b ∧ s.ord.lvl i < s.ord.lvl b.id := by
    rcases hab with ⟨-, rfl⟩ | ⟨-, rfl⟩
    · exact ⟨Store.EOK_zero _, lz⟩
    · exact ⟨ht, l1⟩
  have base := mkNode_ok w hδ hi ha.1 hb.1 ha.2 hb.2
  obtain ⟨s', r, δ', h1, h2, h3, h4, h5, h6, h7, h8⟩ := base
  have hmk : s.mkNode i a b = if (s.findOrAdd i a b).2.2 then ((s.findOrAdd i a b).1, (s.findOrAdd i a b).2.1)
      else (((s.findOrAdd i a b).1.icr a).icr b, (s.findOrAdd i a b).2.1) := rfl
  injection h1 with h1
  rw [hmk] at h1
  cases hf : (s.findOrAdd i a b).2.2 with
  | true =>
    rw [hf] at h1
    simp only [if_true] at h1
    simp only [if_true, h1]
    exact ⟨s', r, δ', rfl, h2, h3, h4, h5, h6, h7, h8⟩
  | false =>
    rw [hf] at h1
    simp only [Bool.false_eq_true, if_false, Prod.mk.injEq] at h1 ⊢
    obtain ⟨e1, e2⟩ := h1
    have same : s'.Same ((s.findOrAdd i a b).1.icr t) := by
      rw [← e1]; exact ⟨rfl, rfl, rfl, rfl, rfl, rfl⟩
    rw [e2]
    refine ⟨_, r, δ', rfl, same.wf h2, h3.trans same.le, h4.mono same.le, h5.congr same.heap, h6, h7,
      ?_, fun n => same.numOK (h8.2 n)⟩
    intro ext re
    have re' := h8.1 ext re
    -- the count of the constant is at its maximum before the increment
    refine re'.same same ?_
    have h0 : s'.ref 0 = maxRef := re'.const
    rw [← e1] at h0 ⊢
    have key : ∀ u : Store, u.ref 0 = maxRef → (u.icr zero).ref = u.ref := by
      intro u hu
      funext x
      by_cases hx : x = 0
      · subst hx
        show upd u.ref 0 _ 0 = _
        rw [upd_same]
        show (if u.ref 0 < maxRef then _ else maxRef) = _
        rw [hu]; simp
      · exact icr_ne hx
    have pre : ∀ u : Store, ∀ x : Edge, x = t ∨ x = zero → u.ref 0 = maxRef → (u.icr x).ref 0 = maxRef := by
      intro u x _ hu
      by_cases hf : 0 = x.addr
      · simp [Store.icr, ← hf, hu]
      · rw [icr_ne hf]; exact hu
    have h00 : (s.findOrAdd i a b).1.ref 0 = maxRef := by
      have hs0 := re.const
      have heq : (s.findOrAdd i a b).1.ref 0 = s.ref 0 := by
        have hal : ∀ j, (s.alloc j).2.ref 0 = s.ref 0 := by
          intro j
          rw [Store.alloc_ref, upd_ne]
          have := (Store.alloc_spec w j).1.pos
          omega
        unfold Store.findOrAdd
        split
        · rfl
        · simp only
          by_cases hn : a.neg = false
          · simp only [hn, if_true, Store.hashFindOrAdd]
            cases s.lookup i a b with
            | some _ => rfl
            | none => exact hal i
          · simp only [hn, if_false, Store.hashFindOrAdd]
            cases s.lookup i a.not b.not with
            | some _ => rfl
            | none => exact hal i
      rw [heq, hs0]
    rcases hab with ⟨rfl, rfl⟩ | ⟨rfl, rfl⟩
    · rw [key _ (pre _ _ (Or.inl rfl) h00)]
    · have hk := key _ h00
      have cong : ∀ u v : Store, v.ref = u.ref → (u.icr b).ref = (v.icr b).ref := by
        intro u v h; unfold Store.icr; simp only [h]
      exact cong _ _ hk

/-- `h` implies `f ∧ g`, and is satisfiable if `f ∧ g` is. -/
structure Meets (F G H : BFn) : Prop where
  imp : ∀ ρ, H ρ = true → F ρ = true ∧ G ρ = true
  sat : (∃ ρ, F ρ = true ∧ G ρ = true) → ∃ ρ, H ρ = true

theorem Meets.symm {F G H} (h : Meets F G H) : Meets G F H :=
  ⟨fun ρ hr => (h.imp ρ hr).symm, fun ⟨ρ, a, b⟩ => h.sat ⟨ρ, b, a⟩⟩

theorem Meets.split {F G : BFn} {v : Nat} {F1 F2 G1 G2 H1 H2 : BFn}
    (hF : ∀ ρ, F ρ = if ρ v then F1 ρ else F2 ρ) (hG : ∀ ρ, G ρ = if ρ v then G1 ρ else G2 ρ)
    (h1 : Meets F1 G1 H1) (h2 : Meets F2 G2 H2) (i1 : Indep H1 v) (i2 : Indep H2 v) :
    Meets F G (fun ρ => if ρ v then H1 ρ else H2 ρ) ∧
    ((∃ ρ, H1 ρ = true) → Meets F G (fun ρ => if ρ v then H1 ρ else false)) ∧
    ((∀ ρ, H1 ρ = false) → Meets F G (fun ρ => if ρ v then false else H2 ρ)) := by
  refine ⟨⟨?_, ?_⟩, fun ⟨σ, hs⟩ => ⟨?_, ?_⟩, fun hz => ⟨?_, ?_⟩⟩
  · intro ρ h
    rw [hF, hG]
    by_cases hr : ρ v = true
    · simp only [hr, if_true] at h ⊢; exact h1.imp ρ h
    · simp only [hr] at h ⊢; exact h2.imp ρ h
  · rintro ⟨ρ, a, b⟩
    rw [hF] at a; rw [hG] at b
    by_cases hr : ρ v = true
    · simp only [hr, if_true] at a b
      obtain ⟨σ, hs⟩ := h1.sat ⟨ρ, a, b⟩
      exact ⟨upd σ v true, by simp [i1 σ true, hs]⟩
    · simp only [hr] at a b
      obtain ⟨σ, hs⟩ := h2.sat ⟨ρ, a, b⟩
      exact ⟨upd σ v false, by simp [i2 σ false, hs]⟩
  · intro ρ h
    rw [hF, hG]
    by_cases hr : ρ v = true
    · simp only [hr, if_true] at h ⊢; exact h1.imp ρ h
    · simp [hr] at h
  · intro _
    exact ⟨upd σ v true, by simp [i1 σ true, hs]⟩
  · intro ρ h
    rw [hF, hG]
    by_cases hr : ρ v = true
    · simp [hr] at h
    · simp only [hr] at h ⊢; exact h2.imp ρ h
  · rintro ⟨ρ, a, b⟩
    rw [hF] at a; rw [hG] at b
    by_cases hr : ρ v = true
    · simp only [hr, if_true] at a b
      obtain ⟨σ, hs⟩ := h1.sat ⟨ρ, a, b⟩
      rw [hz σ] at hs; cases hs
    · simp only [hr] at a b
      obtain ⟨σ, hs⟩ := h2.sat ⟨ρ, a, b⟩
      exact ⟨upd σ v false, by simp [i2 σ false, hs]⟩

theorem den_ext {s : Store} {δ δ' : Nat → BFn}
    (ag : ∀ a, (a = 0 ∨ s.heap a ≠ none) → δ' a = δ a) {e : Edge} (he : s.EOK e) :
    den δ' e = den δ e := by
  funext ρ; simp only [den]; rw [ag _ he.alive]

theorem ag_trans {s s' : Store} {δ δ' δ'' : Nat → BFn} (le : s.Le s')
    (ag : ∀ a, (a = 0 ∨ s.heap a ≠ none) → δ' a = δ a)
    (ag' : ∀ a, (a = 0 ∨ s'.heap a ≠ none) → δ'' a = δ' a) :
    ∀ a, (a = 0 ∨ s.heap a ≠ none) → δ'' a = δ a := by
  intro a ha
  rw [ag' a ?_, ag a ha]
  rcases ha with ha | ha
  · exact Or.inl ha
  · right
    cases hn : s.heap a with
    | none => exact absurd hn ha
    | some n => rw [le.heap a n hn]; simp

/-- Outcome of `BddIntersectsStep` (cal.c:654-710). -/
def IntOk (s : Store) (δ : Nat → BFn) (f g : Edge) (out : Option (Store × Edge)) : Prop :=
  ∃ s' r δ', out = some (s', r) ∧ s'.WF ∧ s.Le s' ∧ s'.EOK r ∧ Lab s' δ' ∧
    (∀ a, (a = 0 ∨ s.heap a ≠ none) → δ' a = δ a) ∧ s.Keep s' ∧
    (∀ l, l ≤ s.ord.lvl f.id → l ≤ s.ord.lvl g.id → l ≤ s.ord.lvl r.id) ∧
    Meets (den δ f) (den δ g) (den δ' r)

theorem intersectsStep_ok : ∀ (k : Nat) {s : Store} (_ : s.WF) {δ} (_ : Lab s δ) {f g : Edge}
    (_ : s.EOK f) (_ : s.EOK g) (_ : 1 ≤ k) (_ : s.ord.numVars + 1 ≤ k + s.ord.lvl f.id)
    (_ : s.ord.numVars + 1 ≤ k + s.ord.lvl g.id), IntOk s δ f g (intersectsStep k s f g) := by
  intro k
  induction k with
  | zero => intro s _ δ _ f g _ _ h; omega
  | succ k ih =>
    intro s w δ hδ f g hf hg _ hk1 hk2
    have ret : ∀ {f g r : Edge}, s.EOK r → (r = f ∨ r = g ∨ r.id = 0) →
        (f.id = 0 ∨ f.id ≠ 0) → (s.EOK f) →
        Meets (den δ f) (den δ g) (den δ r) → IntOk s δ f g (some (s, r)) := by
      intro f g r hr ho _ hf M
      refine ⟨s, _, δ, rfl, w, Store.Le.refl s, hr, hδ, fun _ _ => rfl, Store.Keep.refl s, ?_, M⟩
      intro l h1 h2
      rcases ho with h | h | h
      · rw [h]; exact h1
      · rw [h]; exact h2
      · rw [h, Order.lvl_zero]
        have := hf.lvl_le w
        omega
    have czero : ∀ e : Edge, s.EOK e → e.isConst = true → e = one ∨ e = zero := by
      intro e he hc
      have h0 : e.id = 0 := by simpa [Edge.isConst] using hc
      have h1 := (he.addr_zero w).2 h0
      cases hn : e.neg
      · left; exact Edge.ext' h0 h1 hn
      · right; exact Edge.ext' h0 h1 hn
    unfold intersectsStep
    by_cases hcf : f.isConst = true
    · rw [if_pos hcf]
      rcases czero f hf hcf with h | h
      · subst h
        rw [if_neg (by simp [Edge.same])]
        exact ret hg (Or.inr (Or.inl rfl)) (Classical.em _) hf
          ⟨fun ρ h => ⟨by rw [hδ.den_one], h⟩, fun ⟨ρ, _, b⟩ => ⟨ρ, b⟩⟩
      · subst h
        rw [if_pos (by simp [Edge.same])]
        refine ret hf (Or.inl rfl) (Classical.em _) hf ⟨fun ρ h => ?_, fun ⟨ρ, a, _⟩ => ⟨ρ, a⟩⟩
        rw [hδ.den_zero] at h; cases h
    rw [if_neg hcf]
    by_cases hcg : g.isConst = true
    · rw [if_pos hcg]
      rcases czero g hg hcg with h | h
      · subst h
        rw [if_neg (by simp [Edge.same])]
        exact ret hf (Or.inl rfl) (Classical.em _) hf
          ⟨fun ρ h => ⟨h, by rw [hδ.den_one]⟩, fun ⟨ρ, a, _⟩ => ⟨ρ, a⟩⟩
      · subst h
        rw [if_pos (by simp [Edge.same])]
        refine ret hg (Or.inr (Or.inl rfl)) (Classical.em _) hf
          ⟨fun ρ h => ?_, fun ⟨ρ, _, b⟩ => ⟨ρ, b⟩⟩
        rw [hδ.den_zero] at h; cases h
    rw [if_neg hcg]
    by_cases had : f.addr = g.addr
    · rw [if_pos had]
      by_cases hn : f.neg = g.neg
      · rw [if_pos hn]
        have hfg : den δ f = den δ g := by funext ρ; simp [den, had, hn]
        exact ret hf (Or.inl rfl) (Classical.em _) hf
          ⟨fun ρ h => ⟨h, by rw [← hfg]; exact h⟩, fun ⟨ρ, a, _⟩ => ⟨ρ, a⟩⟩
      · rw [if_neg hn]
        refine ret (Store.EOK_zero _) (Or.inr (Or.inr rfl)) (Classical.em _) hf ⟨fun ρ h => ?_, ?_⟩
        · rw [hδ.den_zero] at h; cases h
        · rintro ⟨ρ, a, b⟩
          simp only [den, had] at a b
          cases h1 : f.neg <;> cases h2 : g.neg <;> simp_all
    rw [if_neg had]
    have nf : f.id ≠ 0 := by simpa [Edge.isConst] using hcf
    have ng : g.id ≠ 0 := by simpa [Edge.isConst] using hcg
    -- after normalisation
    have main : ∀ f g : Edge, s.EOK f → s.EOK g → f.id ≠ 0 → g.id ≠ 0 →
        s.ord.numVars + 1 ≤ k + 1 + s.ord.lvl f.id → s.ord.numVars + 1 ≤ k + 1 + s.ord.lvl g.id →
        IntOk s δ f g (match s.cofs f (minId2 s.ord (f, g)), s.cofs g (minId2 s.ord (f, g)) with
          | some (f1, f2), some (g1, g2) =>
            match intersectsStep k s f1 g1 with
            | none => none
            | some (s1, t) =>
              if t.same Cal.zero then
                match intersectsStep k s1 f2 g2 with
                | none => none
                | some (s2, t) =>
                  if t.same Cal.zero then some (s2, Cal.zero)
                  else
                    some (if (s2.findOrAdd (minId2 s.ord (f, g)) Cal.zero t).2.2 then
                      (s2.findOrAdd (minId2 s.ord (f, g)) Cal.zero t).1
                      else (s2.findOrAdd (minId2 s.ord (f, g)) Cal.zero t).1.icr t,
                      (s2.findOrAdd (minId2 s.ord (f, g)) Cal.zero t).2.1)
              else
                some (if (s1.findOrAdd (minId2 s.ord (f, g)) t Cal.zero).2.2 then
                  (s1.findOrAdd (minId2 s.ord (f, g)) t Cal.zero).1
                  else (s1.findOrAdd (minId2 s.ord (f, g)) t Cal.zero).1.icr t,
                  (s1.findOrAdd (minId2 s.ord (f, g)) t Cal.zero).2.1)
          | _, _ => none) := by
      intro f g hf hg nf ng hk1 hk2
      have hr := minId2_range w hf hg nf ng
      have hle := minId2_le s.ord (f, g)
      have hor := minId2_or s.ord (f, g)
      generalize minId2 s.ord (f, g) = v at hr hle hor
      simp only at hle hor
      have hkv : s.ord.numVars + 1 ≤ k + 1 + s.ord.lvl v := by
        rcases hor with h | h <;> rw [h] <;> assumption
      have hvn := w.ord.lvl_lt hr.1 hr.2
      have hbd := w.ord.bound
      have hlev : ∀ l, l ≤ s.ord.lvl f.id → l ≤ s.ord.lvl g.id → l ≤ s.ord.lvl v := by
        intro l h1 h2
        rcases hor with h | h <;> rw [h] <;> assumption
      obtain ⟨f1, f2, cf, ef1, ef2, lf1, lf2, sf⟩ := cofs_spec w hδ hf hr hle.1
      obtain ⟨g1, g2, cg, eg1, eg2, lg1, lg2, sg⟩ := cofs_spec w hδ hg hr hle.2
      rw [cf, cg]
      simp only
      -- making the node
      have fin : ∀ (s' : Store) (δ' : Nat → BFn), s'.WF → s.Le s' → Lab s' δ' →
          (∀ a, (a = 0 ∨ s.heap a ≠ none) → δ' a = δ a) → s.Keep s' → ∀ (a b t : Edge),
          ((a = t ∧ b = zero) ∨ (a = zero ∧ b = t)) → s'.EOK t → s.ord.lvl v < s.ord.lvl t.id →
          Meets (den δ f) (den δ g) (fun ρ => if ρ v then den δ' a ρ else den δ' b ρ) →
          IntOk s δ f g (some ((if (s'.findOrAdd v a b).2.2 then (s'.findOrAdd v a b).1
            else (s'.findOrAdd v a b).1.icr t), (s'.findOrAdd v a b).2.1)) := by
        intro s' δ' w' le' l' ag' kp' a b t hab ht lt M
        obtain ⟨s2, r, δ2, h1, h2, h3, h4, h5, h6, h7, h8⟩ :=
          halfNode_ok w' l' hab (by rw [le'.ord]; exact hr) ht (by rw [le'.ord]; exact lt)
        refine ⟨s2, r, δ2, h1, h2, le'.trans h3, h4, h5, ag_trans le' ag' h6, kp'.trans h8, ?_, ?_⟩
        · intro l hl1 hl2
          refine Nat.le_trans (hlev l hl1 hl2) ?_
          have ho : s2.ord = s.ord := h3.ord.trans le'.ord
          have := h5.lvl_ge h2 h4 (k := s.ord.lvl v) (by omega) ?_
          · rwa [ho] at this
          · intro x x1 x2 x3
            rw [ho] at x2 x3
            rw [h7]
            have it : ∀ e : Edge, e = t ∨ e = zero → Indep (den δ' e) x := by
              rintro e (rfl | rfl)
              · exact l'.indep w' ht (by rw [le'.ord]; omega)
              · rw [l'.den_zero]; exact fun _ _ => rfl
            have ia : Indep (den δ' a) x := it a (by rcases hab with h | h <;> simp [h.1])
            have ib : Indep (den δ' b) x := it b (by rcases hab with h | h <;> simp [h.2])
            have hxv : v ≠ x := by rintro rfl; omega
            intro ρ c
            simp only [ia ρ c, ib ρ c, upd_ne _ _ hxv]
        · rw [h7]; exact M
      obtain ⟨s1, t1, δ1, h1, w1, le1, ok1, hδ1, ag1, kp1, lv1, M1⟩ :=
        ih w hδ ef1 eg1 (by omega) (by omega) (by omega)
      have lt1 : s.ord.lvl v < s.ord.lvl t1.id := lv1 _ lf1 lg1
      rw [h1]
      simp only
      have it1 : Indep (den δ1 t1) v := hδ1.indep w1 ok1 (by rw [le1.ord]; exact lt1)
      by_cases hz1 : t1.same Cal.zero = true
      · rw [if_pos hz1]
        have e1 := same_zero w1 ok1 hz1
        subst e1
        have hz : ∀ ρ, den δ1 zero ρ = false := by intro ρ; rw [hδ1.den_zero]
        obtain ⟨s2, t2, δ2, h2, w2, le2, ok2, hδ2, ag2, kp2, lv2, M2⟩ :=
          ih w1 hδ1 (ef2.mono le1) (eg2.mono le1) (by omega) (by rw [le1.ord]; omega)
            (by rw [le1.ord]; omega)
        rw [den_ext ag1 ef2, den_ext ag1 eg2] at M2
        rw [le1.ord] at lv2
        have lt2 : s.ord.lvl v < s.ord.lvl t2.id := lv2 _ lf2 lg2
        have it2 : Indep (den δ2 t2) v := hδ2.indep w2 ok2 (by rw [le2.ord, le1.ord]; exact lt2)
        have M := (Meets.split sf sg M1 M2 it1 it2).2.2 hz
        rw [h2]
        simp only
        by_cases hz2 : t2.same Cal.zero = true
        · rw [if_pos hz2]
          have e2 := same_zero w2 ok2 hz2
          subst e2
          refine ⟨s2, zero, δ2, rfl, w2, le1.trans le2, Store.EOK_zero _, hδ2,
            ag_trans le1 ag1 ag2, kp1.trans kp2, ?_, ?_⟩
          · intro l a b
            have := hlev l a b
            show l ≤ s.ord.lvl 0
            rw [Order.lvl_zero]; omega
          · have : (fun ρ : Asg => if ρ v then false else den δ2 zero ρ) = den δ2 zero := by
              funext ρ; rw [hδ2.den_zero]; simp
            rwa [this] at M
        · rw [if_neg hz2]
          refine fin s2 δ2 w2 (le1.trans le2) hδ2 (ag_trans le1 ag1 ag2) (kp1.trans kp2) zero t2 t2
            (Or.inr ⟨rfl, rfl⟩) ok2 lt2 ?_
          rw [hδ2.den_zero]; exact M
      · rw [if_neg hz1]
        refine fin s1 δ1 w1 le1 hδ1 ag1 kp1 t1 zero t1 (Or.inl ⟨rfl, rfl⟩) ok1 lt1 ?_
        rw [hδ1.den_zero]
        -- the other cofactor is not needed
        have hsat : ∃ ρ, den δ1 t1 ρ = true := by
          apply Classical.byContradiction
          intro hn
          apply hz1
          rw [(hδ1.rep w1 ok1).same_zero_iff w1]
          funext ρ
          cases hb : den δ1 t1 ρ with
          | false => rfl
          | true => exact absurd ⟨ρ, hb⟩ hn
        obtain ⟨σ, hs⟩ := hsat
        refine ⟨fun ρ h => ?_, fun _ => ⟨upd σ v true, by simp [it1 σ true, hs]⟩⟩
        rw [sf, sg]
        by_cases hr : ρ v = true
        · simp only [hr, if_true] at h ⊢; exact M1.imp ρ h
        · simp [hr] at h
    by_cases hk : f.ptr.key > g.ptr.key
    · simp only [if_pos hk]
      obtain ⟨s', r, δ', h1, h2, h3, h4, h5, h6, h7, h8, h9⟩ := main g f hg hf ng nf hk2 hk1
      exact ⟨s', r, δ', h1, h2, h3, h4, h5, h6, h7, fun l a b => h8 l b a, h9.symm⟩
    · simp only [if_neg hk]
      exact main f g hf hg nf ng hk1 hk2

/-- The outcome of `Cal_BddIntersects`, `Cal_BddImplies`. -/
theorem meetRun_ok {m : Mgr} (i : m.Inv own lk) {f g F G} (rf : Rep m.st f F) (rg : Rep m.st g G) :
    ∃ H, RunOk own lk 0 m (m.onStore (intersectsStep (m.st.ord.numVars + 1) m.st f g)) H ∧
      Meets F G H := by
  obtain ⟨δ, hδ⟩ := i.wf.exists_lab
  obtain ⟨s', r, δ', h1, h2, h3, h4, h5, h6, h7, h8, h9⟩ :=
    intersectsStep_ok (m.st.ord.numVars + 1) i.wf hδ rf.eok rg.eok (by omega) (by omega) (by omega)
  obtain ⟨Γ, leak, hl, ii⟩ := i
  refine ⟨den δ' r, ⟨{ m with st := s' }, r, by rw [h1]; rfl,
    ⟨Γ, leak, hl, ii.core h2 h3 h7 (ii.ca.mono h3)⟩, core_pres (c' := m.ca) h3, h5.rep h2 h4⟩, ?_⟩
  rw [← hδ.rep_eq rf, ← hδ.rep_eq rg]; exact h9

theorem intersects_ok (S : E.Sound) (i : m.Inv own lk) {f g F G} (lf : UTab.Live own f)
    (lg : UTab.Live own g) (hf : Den m f F) (hg : Den m g G) :
    ∃ H, Res own lk false 0 m (m.intersects E f g) H ∧ Meets F G H := by
  obtain ⟨m1, h1, i1, p1⟩ := preProc_ok S i (forall2 lf lg)
  obtain ⟨e, he, r⟩ := p1.fns f lf F hf
  obtain ⟨e', he', r'⟩ := p1.fns g lg G hg
  obtain ⟨H, ⟨m2, x, h2, i2, p2, r2⟩, M⟩ := meetRun_ok i1 r r'
  refine ⟨H, ?_, M⟩
  have := Res.pre (p1.trans p2) (extern_ok i2 r2)
  simp only [intersects, api, h1, internals, internal, he, he', Option.map_some, h2]
  simpa using this

theorem implies_ok (S : E.Sound) (i : m.Inv own lk) {f g F G} (lf : UTab.Live own f)
    (lg : UTab.Live own g) (hf : Den m f F) (hg : Den m g G) :
    ∃ H, Res own lk false 0 m (m.implies E f g) H ∧ Meets F (fun ρ => !G ρ) H := by
  obtain ⟨m1, h1, i1, p1⟩ := preProc_ok S i (forall2 lf lg)
  obtain ⟨e, he, r⟩ := p1.fns f lf F hf
  obtain ⟨e', he', r'⟩ := p1.fns g lg G hg
  obtain ⟨H, ⟨m2, x, h2, i2, p2, r2⟩, M⟩ := meetRun_ok i1 r r'.not
  refine ⟨H, ?_, M⟩
  have := Res.pre (p1.trans p2) (extern_ok i2 r2)
  simp only [implies, api, h1, internals, internal, he, he', Option.map_some, h2]
  simpa using this

end Mgr

end Cal
