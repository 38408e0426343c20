import Verif.Props4

/-!
# Properties of the API, part 5: temporary op codes wrap around (C50)
-/

namespace Cal

/-- Run calls one after the other; results are dropped. -/
def runs (E : Env) : Mgr → List Call → Option Mgr
  | m, [] => some m
  | m, c :: cs => match c.run E m with
    | none => none
    | some (m', _) => runs E m' cs

/-- Quantifying the constant changes nothing but the next temporary op code. -/
theorem spin {m : Mgr} (h1 : m.ut.heap 1 = some one) (h2 : m.ut.lookup one = some 1)
    (h3 : m.ut.ref 1 = maxRef) (h4 : m.st.ref 0 ≠ 0) (h5 : m.st.gcCheck > 0) (h6 : m.cur = -1)
    (h7 : m.temp.id = -1) (h8 : m.st.numNodes ≤ largeBdd) (h9 : m.temp.last < 65535) :
    (Call.exists_ Mgr.oneH).run Env.plain m =
      some ({ m with tempOp := Mgr.decOp m.tempOp }, .handle Mgr.oneH) := by
  have hin : m.internal Mgr.oneH = some one := by
    simp only [Mgr.internal, Mgr.oneH, h1]; rfl
  have hchk : m.check [Mgr.oneH] = some true := by
    have hne : Mgr.oneH ≠ Handle.null := by decide
    simp only [Mgr.check, if_neg hne, hin]
    rw [if_neg]
    exact h4
  have hpost : ∀ m' : Mgr, m'.st.gcCheck > 0 → m'.postProc Env.plain = some (m', false) := by
    intro m' h; simp only [Mgr.postProc, Mgr.postProcP, if_pos h, Option.map_some]
  have hpre : m.preProc Env.plain [Mgr.oneH] = some (m, true) := by
    simp only [Mgr.preProc, hchk, hpost m h5]
  have hints : m.internals [Mgr.oneH] = some [one] := by
    simp only [Mgr.internals, hin]
  have hlvl : (m.st.elvl one : Int) > m.temp.last := by
    have : m.st.elvl one = 65535 := rfl
    rw [this]; omega
  have hrun : m.existsRun Env.plain one = some ({ m with tempOp := Mgr.decOp m.tempOp }, one) := by
    simp only [Mgr.existsRun, Mgr.assoc, h6, if_true, h7, if_pos h8, existsStep, if_pos hlvl, Mgr.onCore]
  have hicr : m.ut.icr 1 = m.ut := by
    have : upd m.ut.ref 1 maxRef = m.ut.ref := by
      funext b
      by_cases hb : b = 1
      · subst hb; rw [upd_same, h3]
      · rw [upd_ne _ _ hb]
    simp only [UTab.icr, h3, Nat.lt_irrefl, if_false, this]
  have hext : Mgr.external { m with tempOp := Mgr.decOp m.tempOp } one =
      ({ m with tempOp := Mgr.decOp m.tempOp }, Mgr.oneH) := by
    have hp : one.phase one.neg = one := rfl
    simp only [Mgr.external, hp, UTab.findOrAdd, h2, hicr, if_true]
    rfl
  simp only [Call.run, retH, Mgr.exists_, Mgr.api, hpre, hints, hrun, Mgr.finish, hext]
  rw [hpost { m with tempOp := Mgr.decOp m.tempOp } h5]
  rfl

/-- `n` times -/
theorem spins {m : Mgr} (h1 : m.ut.heap 1 = some one) (h2 : m.ut.lookup one = some 1)
    (h3 : m.ut.ref 1 = maxRef) (h4 : m.st.ref 0 ≠ 0) (h5 : m.st.gcCheck > 0) (h6 : m.cur = -1)
    (h7 : m.temp.id = -1) (h8 : m.st.numNodes ≤ largeBdd) (h9 : m.temp.last < 65535) :
    ∀ n x, x < 65536 → runs Env.plain { m with tempOp := x } (List.replicate n (.exists_ Mgr.oneH)) =
      some { m with tempOp := (x + 65535 * n) % 65536 }
  | 0, x, hx => by simp [runs, Nat.mod_eq_of_lt hx]
  | n + 1, x, hx => by
    have := spin (m := { m with tempOp := x }) h1 h2 h3 h4 h5 h6 h7 h8 h9
    simp only [List.replicate_succ, runs, this]
    rw [spins h1 h2 h3 h4 h5 h6 h7 h8 h9 n (Mgr.decOp x) (by unfold Mgr.decOp; omega)]
    have : (Mgr.decOp x + 65535 * n) % 65536 = (x + 65535 * (n + 1)) % 65536 := by
      unfold Mgr.decOp; omega
    rw [this]

namespace Demo

/-- `a ∧ b` (handle 4), quantified over `a` under the temporary association, which then is made that
of `b` -/
def wrap : List Call := [.newVarLast, .newVarLast, .and ⟨2, false⟩ ⟨3, false⟩,
  .tempInit [⟨2, false⟩] false, .exists_ ⟨4, false⟩, .tempInit [⟨3, false⟩] false]
theorem wrap_runs : (run Env.plain start wrap).isSome = true := by decide +kernel
def wsess : Sess := go wrap wrap_runs
theorem wreach : Reachable Env.plain wsess.own wsess.lk wsess.m := go_reachable wrap wrap_runs

/-- the manager after 65535 quantifications of a constant -/
def wrapped : Mgr := { wsess.m with tempOp := 65535 }

theorem wrapped_runs : runs Env.plain wsess.m (List.replicate 65535 (.exists_ Mgr.oneH)) =
    some wrapped := by
  have h := spins (m := wsess.m) (by decide +kernel) (by decide +kernel) (by decide +kernel)
    (by decide +kernel) (by decide +kernel) (by decide +kernel) (by decide +kernel)
    (by decide +kernel) (by decide +kernel) 65535 65534 (by decide)
  have e : wsess.m.tempOp = 65534 := by decide +kernel
  have e2 : { wsess.m with tempOp := 65534 } = wsess.m := by rw [← e]
  rw [e2] at h
  exact h

theorem wrapped_result : (wrapped.exists_ Env.plain ⟨4, false⟩).map
    (fun p => (p.2, treeOf p.1 p.2)) = some (⟨3, false⟩, some (lit 2)) := by decide +kernel

end Demo

/-- After enough quantifications under the temporary association, an op code is used again while the
table still has entries for it: `∃ b. a ∧ b` then returns `b`, the result of `∃ a. a ∧ b`. -/
theorem C50_violated : ∃ own lk m0 m m' f r F G T, Reachable Env.plain own lk m0 ∧
    runs Env.plain m0 (List.replicate 65535 (.exists_ Mgr.oneH)) = some m ∧
    UTab.Live own f ∧ Den m f F ∧ AssocDen m m.cur T ∧
    m.exists_ Env.plain f = some (m', r) ∧ Den m' r G ∧ G ≠ exFn (Dom T) F := by
  cases hr : Demo.wrapped.exists_ Env.plain ⟨4, false⟩ with
  | none => have := Demo.wrapped_result; rw [hr] at this; cases this
  | some p =>
    obtain ⟨m', r⟩ := p
    have hres := Demo.wrapped_result
    rw [hr] at hres
    simp only [Option.map_some, Option.some.injEq, Prod.mk.injEq] at hres
    refine ⟨Demo.wsess.own, Demo.wsess.lk, Demo.wsess.m, Demo.wrapped, m', ⟨4, false⟩, r,
      (fun ρ => ρ 1 && ρ 2), (fun ρ => ρ 2), upd (fun _ => none) 2 (some fun _ => true), Demo.wreach,
      Demo.wrapped_runs, Demo.liveB_ok (by decide +kernel), ?_, ?_, hr, ?_, ?_⟩
    · exact Demo.den_of (T := .node 1 (Demo.lit 2) (.leaf false)) (by decide +kernel) fun ρ => by
        cases h1 : ρ 1 <;> cases h2 : ρ 2 <;> simp [Demo.Tree.fn, Demo.lit, h1, h2]
    · have hc : Demo.wrapped.cur = -1 := by decide +kernel
      have ha : (Demo.wsess.m.temp.var 1, Demo.wsess.m.temp.var 2) = (none, some one) := by
        decide +kernel
      simp only [Prod.mk.injEq] at ha
      refine ⟨Demo.wrapped.temp, by rw [hc]; rfl, fun v => ?_⟩
      by_cases hv : v = 2
      · subst hv
        rw [upd_same]
        exact Or.inr ⟨one, _, ha.2, rfl, .one⟩
      · rw [upd_ne _ _ hv]
        refine Or.inl ⟨?_, rfl⟩
        show Demo.wsess.m.temp.var v = none
        by_cases h1 : v = 1
        · rw [h1]; exact ha.1
        · obtain ⟨Γ, leak, -, i⟩ := Demo.wreach.inv Env.plain_sound
          cases hA : Demo.wsess.m.temp.var v with
          | none => rfl
          | some e =>
            have := i.temp.ok.rng v (by unfold Assoc.dom; rw [hA]; rfl)
            have hn : Demo.wsess.m.st.ord.numVars = 2 := by decide +kernel
            omega
    · exact Demo.den_of (T := Demo.lit 2) hres.2 fun ρ => by simp [Demo.Tree.fn, Demo.lit]
    · intro h
      have hx : exFn (Dom (upd (fun _ => none) 2 (some fun _ => true))) (fun ρ => ρ 1 && ρ 2)
          (fun v => v == 1) = true := by
        rw [exFn_iff]
        refine ⟨fun v => v == 1 || v == 2, fun v hv => ?_, rfl⟩
        by_cases h2 : v = 2
        · subst h2; exact absurd (by simp [Dom, upd_same]) hv
        · simp [h2]
      rw [← h] at hx
      cases hx

end Cal
