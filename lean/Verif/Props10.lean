import Verif.Props9

/-!
# Properties of the API, part 10: renaming variables
-/

namespace Cal

variable {own : Nat → Nat} {m : Mgr} {lk : Bool} {E : Env}

/-! ## C24 -/

/-- `Cal_BddVarSubstitute`: all variables of the current association are replaced at once by the variables
or constants associated with them; null only if the node limit was exceeded. -/
theorem C24_varSubstitute (S : E.Sound) (R : Reachable E own lk m) {T} (hT : AssocDen m m.cur T)
    (hv : VarTable T) (hc : m.cur = -1 → 1 ≤ m.codesLeft) {f F} (lf : UTab.Live own f) (hf : Den m f F) :
    YieldsOrOverflows own m (m.varSubstitute E f) (BFn.replace T F) :=
  (Mgr.varSubstitute_ok S (R.inv S) hT hv (fun h => Mgr.codes_left (R.inv S) (hc h)) lf hf).overflows

/-- A renaming: `σ v` is the variable that takes the place of `v`. -/
theorem C24_rename (S : E.Sound) (R : Reachable E own lk m) {σ : Nat → Option Nat}
    (hT : AssocDen m m.cur fun v => (σ v).map fun u ρ => ρ u) (hc : m.cur = -1 → 1 ≤ m.codesLeft) {f F}
    (lf : UTab.Live own f) (hf : Den m f F) :
    YieldsOrOverflows own m (m.varSubstitute E f) fun ρ => F fun v => ρ ((σ v).getD v) := by
  have := C24_varSubstitute S R hT (fun v F h => by
    simp only at h
    cases hs : σ v with
    | none => rw [hs] at h; cases h
    | some u => rw [hs] at h; cases h; exact Or.inr ⟨u, rfl⟩) hc lf hf
  refine (congrArg (YieldsOrOverflows own m _) ?_).mp this
  funext ρ
  simp only [BFn.replace]
  congr 1
  funext v
  cases σ v <;> rfl

/-- Renaming and substitution agree: with the same association, they give the same handle when one
follows the other. -/
theorem C24_substitute (S : E.Sound) (R : Reachable E own lk m) {T} (hT : AssocDen m m.cur T)
    (hv : VarTable T) (hc : m.cur = -1 → 1 ≤ m.codesLeft) {f F} (lf : UTab.Live own f) (hf : Den m f F) :
    ∃ m1 r1 m2 r2, m.substitute E f = some (m1, r1) ∧ m1.varSubstitute E f = some (m2, r2) ∧
      (r2 = r1 ∨ (r2 = Handle.null ∧ m2.overflow = true ∧ m2.nodeLimit ≠ 0)) := by
  obtain ⟨m1, r1, h1, p, ⟨h2, i1, h3⟩ | ⟨h, -⟩⟩ := Mgr.substitute_ok S (R.inv S) hT lf hf
  · have lr : UTab.Live (bump own r1.addr) r1 := live_bumped own r1.addr r1.neg
    obtain ⟨m2, r2, h4, p', h5⟩ := Mgr.varSubstitute_ok S i1 (by rw [p.cur]; exact p.assocDen hT) hv
      (fun h => by
        have := Mgr.codes_left (R.inv S) (hc (by rw [← p.cur]; exact h))
        have := p.top
        omega) (live_bump lf) (p.fns f lf F hf)
    refine ⟨m1, r1, m2, r2, h1, h4, ?_⟩
    rcases h5 with ⟨-, i2, h6⟩ | ⟨-, h6, -, h7⟩
    · exact Or.inl ((Mgr.handle_eq i2 h6 (p'.fns r1 lr _ h3)).2 rfl)
    · exact Or.inr ⟨h6, h7⟩
  · cases h

/-! ## Examples -/

theorem swapTable_vars : VarTable Demo.swapTable := by
  intro v F h
  simp only [Demo.swapTable, upd] at h
  split at h
  · cases h; exact Or.inr ⟨_, rfl⟩
  · split at h
    · cases h; exact Or.inr ⟨_, rfl⟩
    · cases h

theorem swapCur (P : Prop) : Demo.swapSess.m.cur = -1 → P := by
  have : ¬ Demo.swapSess.m.cur = -1 := by decide +kernel
  exact fun h => absurd h this

example : YieldsOrOverflows Demo.swapSess.own Demo.swapSess.m (Demo.swapSess.m.varSubstitute Env.plain ⟨6, false⟩)
    (BFn.replace Demo.swapTable fun ρ => ρ 1 && ρ 2 || ρ 3) :=
  C24_varSubstitute Env.plain_sound Demo.swapReach Demo.swapAssoc swapTable_vars (swapCur _) Demo.swapLive6
    Demo.swapDen6

example := C24_rename (σ := upd (upd (fun _ => none) 1 (some 2)) 2 (some 1)) Env.plain_sound Demo.swapReach (by
  have e : (fun v => (upd (upd (fun _ => none) 1 (some 2)) 2 (some 1) v).map fun u (ρ : Asg) => ρ u) =
      Demo.swapTable := by
    funext v
    simp only [Demo.swapTable, upd]
    split
    · rfl
    · split <;> rfl
  rw [e]; exact Demo.swapAssoc) (swapCur _) Demo.swapLive6 Demo.swapDen6

example := C24_substitute Env.plain_sound Demo.swapReach Demo.swapAssoc swapTable_vars (swapCur _) Demo.swapLive6
  Demo.swapDen6

/-- A cyclic renaming: `a` and `b` exchanged in `f = (a ∧ b) ∨ c`, in `g = a ∧ ¬b` and in `¬g`. -/
example : Demo.results (Demo.swapScript ++ [.varSubstitute ⟨6, false⟩, .and ⟨2, false⟩ ⟨3, true⟩,
      .varSubstitute ⟨7, true⟩, .and ⟨3, false⟩ ⟨2, true⟩, .varSubstitute ⟨7, false⟩]) =
    some ([.handle ⟨8, false⟩, .handle ⟨8, true⟩, .handle ⟨8, true⟩, .handle ⟨7, true⟩, .handle ⟨6, false⟩,
      .num 0, .num 1] ++ Demo.sess.rets) := by decide +kernel

/-! ## Associations to other functions -/

/-- The association has to be to variables and constants: the phase of the associated BDD is lost. With
`¬b` associated with `a`, the result for `a` is `b`. -/
theorem C24_complement_witness : ∃ s : Demo.Sess, Reachable Env.plain s.own s.lk s.m ∧
    ∃ T a m' r, AssocDen s.m s.m.cur T ∧ T 1 = some (fun ρ => !ρ 2) ∧ UTab.Live s.own a ∧
      Den s.m a (fun ρ => ρ 1) ∧ s.m.varSubstitute Env.plain a = some (m', r) ∧
      Den m' r (fun ρ => ρ 2) ∧ ¬ Den m' r (BFn.replace T fun ρ => ρ 1) := by
  obtain ⟨s, R, h⟩ := Demo.witness
    (cs := Demo.script ++ [.associationInit [⟨2, false⟩, ⟨3, true⟩] true, .associationSetCurrent 1])
    (P := fun s => Demo.liveB s.own ⟨2, false⟩ && decide (Demo.treeOf s.m ⟨2, false⟩ = some (Demo.lit 1)) &&
      (match s.m.assoc s.m.cur with
        | none => false
        | some A => match A.var 1 with
          | none => false
          | some e => decide (Demo.tree s.m.st 4 e = some (.node 2 (.leaf false) (.leaf true)))) &&
      (match s.m.varSubstitute Env.plain ⟨2, false⟩ with
        | none => false
        | some (m', r) => decide (Demo.treeOf m' r = some (Demo.lit 2)) && decide (m'.st.heap 0 = none)))
    (by decide +kernel)
  simp only [Bool.and_eq_true, decide_eq_true_eq] at h
  obtain ⟨⟨⟨h1, h2⟩, h3⟩, h4⟩ := h
  have i := R.inv Env.plain_sound
  split at h3
  · cases h3
  rename_i A hA
  split at h3
  · cases h3
  rename_i e he
  simp only [decide_eq_true_eq] at h3
  have he' := Demo.tree_rep _ h3
  split at h4
  · cases h4
  rename_i m' r hm
  simp only [Bool.and_eq_true, decide_eq_true_eq] at h4
  obtain ⟨Γ, leak, -, ig⟩ := i
  obtain ⟨T, hT⟩ := ig.assocDen hA
  have ht : T 1 = some (fun ρ => !ρ 2) := by
    obtain ⟨A', hA', hT⟩ := hT
    rw [hA] at hA'; cases hA'
    rcases hT 1 with ⟨h5, -⟩ | ⟨e', F, h5, h6, h7⟩
    · rw [he] at h5; cases h5
    · rw [he] at h5; cases h5
      rw [h6, h7.unique ig.wf he']
      congr 1
      funext ρ
      cases h : ρ 2 <;> simp [Demo.Tree.fn, h]
  have hd : Den m' r (fun ρ => ρ 2) := Demo.den_of h4.1 fun ρ => by simp [Demo.Tree.fn, Demo.lit]
  refine ⟨s, R, T, ⟨2, false⟩, m', r, hT, ht, Demo.liveB_ok h1,
    Demo.den_of h2 fun ρ => by simp [Demo.Tree.fn, Demo.lit], hm, hd, fun hn => ?_⟩
  obtain ⟨d, hd1, hd2⟩ := hd
  obtain ⟨d', hn1, hn2⟩ := hn
  rw [hd1] at hn1; cases hn1
  have := congrFun (hd2.unique0 h4.2 hn2) fun _ => true
  simp [BFn.replace, ht] at this

end Cal
