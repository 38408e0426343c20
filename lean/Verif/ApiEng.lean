import Verif.ApiQuery
import Verif.Cofactor
import Verif.Swap

/-!
# Cofactor, compose and variable swapping through the API
-/

namespace Cal

/-- The value of a function of the manager's variables is determined by them. -/
theorem Rep.ext_on {s : Store} (w : s.WF) {e F} (r : Rep s e F) {σ τ : Asg}
    (h : ∀ v, 1 ≤ v → v ≤ s.ord.numVars → σ v = τ v) : F σ = F τ := by
  induction r with
  | one => rfl
  | zero => rfl
  | pos hn _ _ ih1 ih2 =>
    have := w.var_range _ _ hn
    simp only [ih1, ih2, h _ this.1 this.2]
  | neg hn _ _ ih1 ih2 =>
    have := w.var_range _ _ hn
    simp only [ih1, ih2, h _ this.1 this.2]

/-- The assignment `near` is in `C`. -/
theorem Rep.near {s : Store} (w : s.WF) {e C} (r : Rep s e C) (hs : Sat C) (ρ : Asg) :
    C (near s.ord s.ord.numVars C ρ) = true := by
  refine near_sat w.ord _ (Nat.le_refl _) C ρ hs fun σ τ h => r.ext_on w fun v h1 h2 => ?_
  have := h (s.ord.idToIndex v) (by omega) (w.ord.idx_lt v h1 h2)
  rw [w.ord.left v h1 h2] at this
  exact this

/-- Variables that `C` does not depend on are kept. -/
theorem near_indep (o : Order) {x : Nat} : ∀ (n : Nat) (C : BFn) (ρ : Asg), Sat C → Indep C x →
    near o n C ρ x = ρ x := by
  intro n
  induction n with
  | zero => intro C ρ _ _; rfl
  | succ n ih =>
    intro C ρ hs hi
    simp only [near]
    by_cases hx : x = o.indexToId (o.numVars - (n+1))
    · rw [← hx, upd_same, pick_indep hi hs]
    · rw [upd_ne _ _ hx]
      refine ih _ ρ (pick_sat hs ρ) fun σ c => ?_
      simp only [BFn.fix]
      rw [upd_comm hx]; exact hi _ _

namespace Mgr

/-! ## Model -/

/-- `Cal_BddCofactor` (calReduce.c:84-104) -/
def cofactor (E : Env) (m : Mgr) (f c : Handle) : Option (Mgr × Handle) :=
  m.api E [f, c] (fun m es => match es with
    | [f, c] => m.onStore (Eng.cofactorBF m.st f c)
    | _ => none) (finish E)

/-- `Cal_BddCompose` (calBddCompose.c:75-112). The result of the pre-processing is not looked at, so
that a null argument is dereferenced: `none`. For a constant `g` the count of `fUserBdd` is incremented
without removing its complement mark (`CalBddNodeIcrRefCount`, calInt.h:1118): for a complemented
handle memory outside the node is written, `none`. The request node that is taken from the node manager
of the constants and given back is left out. -/
def compose (E : Env) (m : Mgr) (f g h : Handle) : Option (Mgr × Handle) :=
  match m.preProc E [f, g, h] with
  | none => none
  | some (m1, _) =>
    match m1.internals [f, g, h] with
    | some [F, G, H] =>
      if G.isConst then (if f.neg then none else m1.identity f)
      else
        match m1.onStore (Eng.composeBF m1.st F H (m1.st.elvl G)) with
        | none => none
        | some (m2, r) => m2.extern r
    | _ => none

/-- `Cal_BddSwapVars` (calBddSwapVars.c:82-196) -/
def swapVars (E : Env) (m : Mgr) (f g h : Handle) : Option (Mgr × Handle) :=
  match m.preProc E [f, g, h] with
  | none => none
  | some (m1, false) => some (m1, Handle.null)
  | some (m1, true) =>
    match m1.internals [f, g, h] with
    | some [F, G, H] =>
      if G.isConst || H.isConst then some (m1, Handle.null)
      else if G.same H then m1.extern F
      else
        let p := if m1.st.elvl G > m1.st.elvl H then (H, G) else (G, H)
        match m1.onStore (Eng.swapBF m1.st F (m1.st.elvl p.1) (m1.st.elvl p.2)) with
        | none => none
        | some (m2, r) => m2.extern r
    | _ => none

/-! ## Proofs -/

variable {own : Nat → Nat} {m : Mgr} {lk : Bool} {E : Env}

theorem gives_run (i : m.Inv own lk) {out F} (h : Gives m.st out F) :
    RunOk own lk 0 m (m.onStore out) F := by
  obtain ⟨Γ, leak, hl, i⟩ := i
  obtain ⟨s', r, rfl, w, le, k, hr⟩ := h
  exact ⟨_, r, rfl, ⟨Γ, leak, hl, i.core w le k (i.ca.mono le)⟩, core_pres (c' := m.ca) le, hr⟩

theorem forall3 {P : Handle → Prop} {f g h} (hf : P f) (hg : P g) (hh : P h) : ∀ x ∈ [f, g, h], P x := by
  intro x hx
  simp only [List.mem_cons, List.not_mem_nil, or_false] at hx
  rcases hx with rfl | rfl | rfl
  · exact hf
  · exact hg
  · exact hh

/-- What `Cal_BddCofactor` (calReduce.c:87-106) gives. -/
structure Cofs (F C H : BFn) : Prop where
  agree : ∀ ρ, C ρ = true → H ρ = F ρ
  value : ∀ ρ, ∃ σ, C σ = true ∧ (∀ v, Indep C v → σ v = ρ v) ∧ H ρ = F σ

theorem cofactor_ok (S : E.Sound) (i : m.Inv own lk) {f c F C} (lf : UTab.Live own f)
    (lc : UTab.Live own c) (hf : Den m f F) (hc : Den m c C) (hs : ∃ ρ, C ρ = true) :
    ∃ H, Res own lk true 0 m (m.cofactor E f c) H ∧ Cofs F C H := by
  obtain ⟨m1, h1, i1, p1⟩ := preProc_ok S i (forall2 lf lc)
  obtain ⟨e, he, r⟩ := p1.fns f lf F hf
  obtain ⟨e', he', r'⟩ := p1.fns c lc C hc
  obtain ⟨m2, x, h2, i2, p2, r2⟩ := gives_run i1 (Eng.cofactorBF_spec i1.wf r r' hs)
  refine ⟨_, ?_, fun ρ h => constrain_in m1.st.ord h, fun ρ => ⟨_, r'.near i1.wf hs ρ,
    fun v hv => near_indep _ _ _ _ hs hv, rfl⟩⟩
  have := Res.pre (p1.trans p2) (finish_ok S i2 r2)
  simp only [cofactor, api, h1, internals, internal, he, he', Option.map_some, h2]
  exact this

theorem cofactor_zero (S : E.Sound) (i : m.Inv own lk) {f c F} (lf : UTab.Live own f)
    (lc : UTab.Live own c) (hf : Den m f F) (hc : Den m c fun _ => false) :
    Res own lk true 0 m (m.cofactor E f c) (fun _ => true) := by
  obtain ⟨m1, h1, i1, p1⟩ := preProc_ok S i (forall2 lf lc)
  obtain ⟨e, he, r⟩ := p1.fns f lf F hf
  obtain ⟨e', he', r'⟩ := p1.fns c lc _ hc
  have hz := (r'.same_zero_iff i1.wf).2 rfl
  have := Res.pre p1 (finish_ok S i1 (Rep.one (s := m1.st)))
  simp only [cofactor, api, h1, internals, internal, he, he', Option.map_some, Eng.cofactorBF, hz,
    if_true, onStore]
  exact this

theorem compose_ok (S : E.Sound) (i : m.Inv own lk) {f g h F G H} (lf : UTab.Live own f)
    (lg : UTab.Live own g) (lh : UTab.Live own h) (hf : Den m f F) (hg : Den m g G) (hh : Den m h H) :
    ((∃ b, G = fun _ => b) → f.neg = false → Res own lk false 0 m (m.compose E f g h) F) ∧
    ((∃ b, G = fun _ => b) → f.neg = true → m.compose E f g h = none) ∧
    (NonConst G → ∃ o v, TopVar o G v ∧ Res own lk false 0 m (m.compose E f g h) (BFn.subst F v H)) := by
  obtain ⟨m1, h1, i1, p1⟩ := preProc_ok S i (forall3 lf lg lh)
  obtain ⟨e, he, r⟩ := p1.fns f lf F hf
  obtain ⟨e', he', r'⟩ := p1.fns g lg G hg
  obtain ⟨e2, he2, r2⟩ := p1.fns h lh H hh
  simp only [compose, h1, internals, internal, he, he', he2, Option.map_some]
  have hconst : (∃ b, G = fun _ => b) → (e'.phase g.neg).isConst = true := by
    rintro ⟨b, rfl⟩
    have : (e'.phase g.neg).id = 0 := (r'.const_iff i1.wf).2 (by cases b <;> simp)
    simpa [Edge.isConst] using this
  refine ⟨fun hb hn => ?_, fun hb hn => ?_, fun hn => ?_⟩
  · rw [if_pos (hconst hb), hn]
    have := Res.pre p1 (identity_ok i1 lf (p1.fns f lf F hf))
    exact this
  · rw [if_pos (hconst hb), hn]; rfl
  · have hc : (e'.phase g.neg).id ≠ 0 := by
      intro h0
      rcases (r'.const_iff i1.wf).1 h0 with h | h
      · exact hn.1 h
      · exact hn.2 h
    rw [if_neg (by simpa [Edge.isConst] using hc)]
    have top := r'.topVar i1.wf hc
    obtain ⟨m2, x, h3, i3, p3, r3⟩ := gives_run i1 (Eng.composeBF_spec i1.wf r r2 top.rng)
    refine ⟨m1.st.ord, _, top, ?_⟩
    have := Res.pre (p1.trans p3) (extern_ok i3 r3)
    simp only [Store.elvl, h3]
    exact this

theorem BFn.swap_comm (F : BFn) (g h : Nat) : BFn.swap F g h = BFn.swap F h g := by
  funext ρ
  simp only [BFn.swap, Asg.swap]
  by_cases hgh : g = h
  · subst hgh; rfl
  · rw [upd_comm hgh]

theorem BFn.swap_self (F : BFn) (g : Nat) : BFn.swap F g g = F := by
  funext ρ
  simp only [BFn.swap, Asg.swap, upd_self']

theorem var_top {o : Order} (ow : o.WF) {G : BFn} {v x : Nat} (t : TopVar o G v) (h : G = fun ρ => ρ x) :
    v = x := by
  apply Classical.byContradiction
  intro hne
  apply t.dep
  subst h
  intro ρ c
  exact upd_ne _ _ (Ne.symm hne)

theorem swapVars_ok (S : E.Sound) (i : m.Inv own lk) {f g h F x y} (lf : UTab.Live own f)
    (lg : UTab.Live own g) (lh : UTab.Live own h) (hf : Den m f F) (hg : Den m g fun ρ => ρ x)
    (hh : Den m h fun ρ => ρ y) : Res own lk false 0 m (m.swapVars E f g h) (BFn.swap F x y) := by
  obtain ⟨m1, h1, i1, p1⟩ := preProc_ok S i (forall3 lf lg lh)
  obtain ⟨e, he, r⟩ := p1.fns f lf F hf
  obtain ⟨e1, he1, r1⟩ := p1.fns g lg _ hg
  obtain ⟨e2, he2, r2⟩ := p1.fns h lh _ hh
  simp only [swapVars, h1, internals, internal, he, he1, he2, Option.map_some]
  have nc : ∀ {e : Edge} {z : Nat}, Rep m1.st e (fun ρ => ρ z) → e.id ≠ 0 := by
    intro e z r h0
    rcases (r.const_iff i1.wf).1 h0 with h | h
    · have := congrFun h fun _ => false; simp at this
    · have := congrFun h fun _ => true; simp at this
  have n1 := nc r1
  have n2 := nc r2
  have t1 := r1.topVar i1.wf n1
  have t2 := r2.topVar i1.wf n2
  have v1 := var_top i1.wf.ord t1 rfl
  have v2 := var_top i1.wf.ord t2 rfl
  generalize hE1 : e1.phase g.neg = E1 at *
  generalize hE2 : e2.phase h.neg = E2 at *
  rw [if_neg (by simp [Edge.isConst, n1, n2])]
  by_cases hs : E1.same E2 = true
  · rw [if_pos hs]
    have : x = y := by
      have he : E1 = E2 := by
        simp only [Edge.same, Bool.and_eq_true, beq_iff_eq] at hs
        rcases r1.eok with h | ⟨n, hn, hv⟩
        · exact absurd h.1 n1
        · rcases r2.eok with h | ⟨n', hn', hv'⟩
          · exact absurd h.1 n2
          · rw [hs.1, hn'] at hn
            cases hn
            obtain ⟨a, b, c⟩ := E1
            obtain ⟨a', b', c'⟩ := E2
            simp_all
      rw [← v1, ← v2, he]
    subst this
    rw [BFn.swap_self]
    have := Res.pre p1 (extern_ok i1 r)
    exact this
  · rw [if_neg hs]
    have hxy : x ≠ y := by
      rintro rfl
      apply hs
      rw [canonical i1.wf r1 r2]
      simp [Edge.same]
    have hl : m1.st.ord.lvl E1.id ≠ m1.st.ord.lvl E2.id := by
      intro hc
      apply hxy
      rw [← v1, ← v2]
      exact i1.wf.ord.lvl_inj t1.rng.1 t1.rng.2 t2.rng.1 t2.rng.2 hc
    by_cases hgt : m1.st.elvl E1 > m1.st.elvl E2
    · rw [if_pos hgt]
      dsimp only
      obtain ⟨m2, z, h3, i3, p3, r3⟩ := gives_run i1 (Eng.swapBF_spec i1.wf r t2.rng t1.rng hgt)
      have := Res.pre (p1.trans p3) (extern_ok i3 r3)
      simp only [Store.elvl]
      rw [h3, BFn.swap_comm, ← v1, ← v2]
      exact this
    · rw [if_neg hgt]
      dsimp only
      obtain ⟨m2, z, h3, i3, p3, r3⟩ := gives_run i1 (Eng.swapBF_spec i1.wf r t1.rng t2.rng
        (by simp only [Store.elvl] at hgt; omega))
      have := Res.pre (p1.trans p3) (extern_ok i3 r3)
      simp only [Store.elvl]
      rw [h3, ← v1, ← v2]
      exact this

/-- constants cannot be swapped -/
theorem swapVars_const (S : E.Sound) (i : m.Inv own lk) {f g h F G H} (lf : UTab.Live own f)
    (lg : UTab.Live own g) (lh : UTab.Live own h) (hf : Den m f F) (hg : Den m g G)
    (hh : Den m h H) (hc : (∃ b, G = fun _ => b) ∨ ∃ b, H = fun _ => b) :
    ∃ m', m.swapVars E f g h = some (m', Handle.null) ∧ m'.Inv own lk ∧ Pres own 0 m m' := by
  obtain ⟨m1, h1, i1, p1⟩ := preProc_ok S i (forall3 lf lg lh)
  obtain ⟨e, he, r⟩ := p1.fns f lf F hf
  obtain ⟨e1, he1, r1⟩ := p1.fns g lg _ hg
  obtain ⟨e2, he2, r2⟩ := p1.fns h lh _ hh
  refine ⟨m1, ?_, i1, p1⟩
  simp only [swapVars, h1, internals, internal, he, he1, he2, Option.map_some]
  rw [if_pos]
  rcases hc with ⟨b, rfl⟩ | ⟨b, rfl⟩
  · have : (e1.phase g.neg).isConst = true := beq_iff_eq.2 ((r1.const_iff i1.wf).2 (by cases b <;> simp))
    simp only [this, Bool.true_or]
  · have : (e2.phase h.neg).isConst = true := beq_iff_eq.2 ((r2.const_iff i1.wf).2 (by cases b <;> simp))
    simp only [this, Bool.or_true]

end Mgr

end Cal
