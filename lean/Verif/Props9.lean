import Verif.Props8

/-!
# Properties of the API, part 9: substitution

`BFn.replace T F` (`ApiSubst.lean`) is `F` with each variable `v` for which `T v` is a function replaced
by that function, all at once.
-/

namespace Cal

variable {own : Nat → Nat} {m : Mgr} {lk : Bool} {E : Env}

/-! ## C23 -/

/-- `Cal_BddSubstitute`: all variables of the current association are replaced at once by the
functions associated with them. -/
theorem C23_substitute (S : E.Sound) (R : Reachable E own lk m) {T} (hT : AssocDen m m.cur T) {f F}
    (lf : UTab.Live own f) (hf : Den m f F) :
    Yields own m (m.substitute E f) (BFn.replace T F) :=
  (Mgr.substitute_ok S (R.inv S) hT lf hf).yields

/-- the result in terms of assignments -/
theorem C23_value (S : E.Sound) (R : Reachable E own lk m) {T} (hT : AssocDen m m.cur T) {f F}
    (lf : UTab.Live own f) (hf : Den m f F) :
    ∃ m' r H, m.substitute E f = some (m', r) ∧ Den m' r H ∧ ∀ ρ σ : Asg,
      (∀ v G, T v = some G → σ v = G ρ) → (∀ v, T v = none → σ v = ρ v) → H ρ = F σ := by
  obtain ⟨m', r, h1, -, h2, -⟩ := C23_substitute S R hT lf hf
  refine ⟨m', r, _, h1, h2, fun ρ σ h3 h4 => ?_⟩
  simp only [BFn.replace]
  congr 1
  funext v
  cases hv : T v with
  | none => simp only [h4 v hv]
  | some G => simp only [h3 v G hv]

namespace Demo

/-- `a` and `b` are to be exchanged -/
def swapScript : List Call :=
  script ++ [.associationInit [⟨2, false⟩, ⟨3, false⟩, ⟨3, false⟩, ⟨2, false⟩] true, .associationSetCurrent 1]

/-- what the exchange is -/
def swapTable : Nat → Option BFn :=
  upd (upd (fun _ => none) 1 (some fun ρ => ρ 2)) 2 (some fun ρ => ρ 1)

/-- an association whose values are given by variables -/
theorem assocVars {own lk} {m : Mgr} (i : m.Inv own lk) {j : Int} {A : Assoc} (hA : m.assoc j = some A)
    {T : Nat → Option Nat}
    (h : ∀ v, 1 ≤ v → v ≤ m.st.ord.numVars → A.var v = (T v).bind m.vars)
    (hr : ∀ v u, T v = some u → 1 ≤ v ∧ v ≤ m.st.ord.numVars ∧ 1 ≤ u ∧ u ≤ m.st.ord.numVars) :
    AssocDen m j (fun v => (T v).map fun u ρ => ρ u) := by
  obtain ⟨Γ, leak, -, i⟩ := i
  refine ⟨A, hA, fun v => ?_⟩
  show ValIs _ _ ((T v).map fun u ρ => ρ u)
  by_cases hv : 1 ≤ v ∧ v ≤ m.st.ord.numVars
  · rw [h v hv.1 hv.2]
    cases ht : T v with
    | none => exact Or.inl ⟨rfl, rfl⟩
    | some u =>
      obtain ⟨-, -, u1, u2⟩ := hr v u ht
      obtain ⟨a, h3, h4⟩ := i.var u u1 u2
      refine Or.inr ⟨_, _, by simp only [Option.bind_some]; exact h3, rfl, ?_⟩
      have e : (fun ρ : Asg => if ρ u = true then true else false) = fun ρ => ρ u := by
        funext ρ; cases ρ u <;> rfl
      show Rep m.st _ fun ρ => ρ u
      rw [← e]; exact Rep.pos h4 Rep.one Rep.zero
  · have hn : A.var v = none := by
      cases hA' : A.var v with
      | none => rfl
      | some e =>
        exact absurd ((i.assoc_aok hA).ok.rng v (by unfold Assoc.dom; rw [hA']; rfl)) hv
    have ht : T v = none := by
      cases ht : T v with
      | none => rfl
      | some u => obtain ⟨h1, h2, -⟩ := hr v u ht; exact absurd ⟨h1, h2⟩ hv
    rw [hn, ht]; exact Or.inl ⟨rfl, rfl⟩

end Demo

/-- Substitution of a constant: `true` for `a`. -/
example : Yields Demo.sess.own Demo.sess.m (Demo.sess.m.substitute Env.plain ⟨6, false⟩)
    (BFn.replace (upd (fun _ => none) 1 (some fun _ => true)) fun ρ => ρ 1 && ρ 2 || ρ 3) :=
  C23_substitute Env.plain_sound Demo.reach Demo.assoc0 Demo.live6 Demo.den6

namespace Demo

theorem swap_runs : (run Env.plain start swapScript).isSome = true := by decide +kernel

/-- the session after it -/
def swapSess : Sess := go swapScript swap_runs

theorem swapReach : Reachable Env.plain swapSess.own swapSess.lk swapSess.m :=
  go_reachable swapScript swap_runs

theorem swapAssoc : AssocDen swapSess.m swapSess.m.cur swapTable := by
  have i := swapReach.inv Env.plain_sound
  have hn : swapSess.m.st.ord.numVars = 3 := by decide +kernel
  have h := show (swapSess.m.assoc swapSess.m.cur).map (fun A =>
      decide (A.var 1 = swapSess.m.vars 2 ∧ A.var 2 = swapSess.m.vars 1 ∧ A.var 3 = none)) = some true by
    decide +kernel
  cases hA : swapSess.m.assoc swapSess.m.cur with
  | none => rw [hA] at h; cases h
  | some A =>
    rw [hA] at h
    simp only [Option.map_some, Option.some.injEq, decide_eq_true_eq] at h
    obtain ⟨h1, h2, h3⟩ := h
    have := assocVars i hA (T := upd (upd (fun _ => none) 1 (some 2)) 2 (some 1)) (by
      intro v v1 v2
      rw [hn] at v2
      have : v = 1 ∨ v = 2 ∨ v = 3 := by omega
      rcases this with rfl | rfl | rfl
      · exact h1
      · exact h2
      · exact h3) (by
      intro v u h
      simp only [upd] at h
      rw [hn]
      split at h
      · cases h; omega
      · split at h
        · cases h; omega
        · cases h)
    have e : (fun v => (upd (upd (fun _ => none) 1 (some 2)) 2 (some 1) v).map fun u (ρ : Asg) => ρ u) = swapTable := by
      funext v
      simp only [swapTable, upd]
      split
      · rfl
      · split <;> rfl
    rwa [e] at this

theorem swapLive6 : UTab.Live swapSess.own ⟨6, false⟩ := liveB_ok (by decide +kernel)

theorem swapDen6 : Den swapSess.m ⟨6, false⟩ (fun ρ => ρ 1 && ρ 2 || ρ 3) :=
  den_of (T := .node 1 (.node 2 (.leaf true) (lit 3)) (lit 3)) (by decide +kernel) fun ρ => by
    cases h1 : ρ 1 <;> cases h2 : ρ 2 <;> simp [Tree.fn, lit, h1, h2]

end Demo

example := C23_substitute Env.plain_sound Demo.swapReach Demo.swapAssoc Demo.swapLive6 Demo.swapDen6
example := C23_value Env.plain_sound Demo.swapReach Demo.swapAssoc Demo.swapLive6 Demo.swapDen6

/-- A cyclic substitution: `a` and `b` exchanged in `f = (a ∧ b) ∨ c`, in `g = a ∧ ¬b` and in `¬g`; the
result is `f` itself in the first case, `b ∧ ¬a` in the second. -/
example : Demo.results (Demo.swapScript ++ [.substitute ⟨6, false⟩, .and ⟨2, false⟩ ⟨3, true⟩,
      .substitute ⟨7, true⟩, .and ⟨3, false⟩ ⟨2, true⟩, .substitute ⟨7, false⟩]) =
    some ([.handle ⟨8, false⟩, .handle ⟨8, true⟩, .handle ⟨8, true⟩, .handle ⟨7, true⟩, .handle ⟨6, false⟩,
      .num 0, .num 1] ++ Demo.sess.rets) := by decide +kernel

end Cal
