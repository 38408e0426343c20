import Verif.ApiAssoc4

/-!
# Settings, garbage collection and reordering through the API
-/

namespace Cal

namespace Mgr

variable {Γ : Nat → BFn → BFn} {leak own : Nat → Nat} {m : Mgr} {lk : Bool} {E : Env}

/-- Changes of settings keep the invariant. -/
theorem Inv.settings (i : m.Inv own lk) {m' : Mgr} (h1 : m'.st = m.st) (h2 : m'.ca = m.ca)
    (h3 : m'.ut = m.ut) (h4 : m'.vars = m.vars) (h5 : m'.assocs = m.assocs) (h6 : m'.temp = m.temp)
    (h7 : m'.cur = m.cur) (h8 : m'.tempOp = m.tempOp) : m'.Inv own lk := by
  obtain ⟨Γ, leak, hl, i⟩ := i
  exact ⟨Γ, leak, hl, i.settings h1 h2 h3 h4 h5 h6 h7 h8⟩

theorem den_settings {m' : Mgr} (h1 : m'.st = m.st) (h3 : m'.ut = m.ut) {h F} (d : Den m h F) :
    Den m' h F := by
  obtain ⟨e, he, r⟩ := d
  exact ⟨e, by rw [h3]; exact he, by rw [h1]; exact r⟩

/-- `Cal_BddManagerGC`. -/
theorem gc_ok (i : m.Inv own lk) : ∃ m', m.gc = some m' ∧ m'.Inv own lk ∧ Pres own 0 m m' ∧
    m'.overflow = m.overflow ∧ m'.st.numNodes ≤ m.st.numNodes ∧
    (∀ a, m'.ut.heap a ≠ none → m'.ut.ref a ≠ 0) ∧ (∀ a, m'.st.heap a ≠ none → m'.st.ref a ≠ 0) ∧
    (∀ a n, m'.st.heap a = some n → m.st.heap a = some n) := by
  obtain ⟨Γ, leak, hl, i⟩ := i
  obtain ⟨m', h1, i1, p1, h2, h3, -, h4, h5, h6, h7, -⟩ := i.gc
  exact ⟨m', h1, ⟨Γ, leak, hl, i1⟩, p1, h3, h5, h6, h7, h4.heap⟩

/-- `CalBddManagerGCCheck`. -/
theorem gcCheck_ok (i : m.Inv own lk) : ∃ m', m.gcCheck = some m' ∧ m'.Inv own lk ∧ Pres own 0 m m' ∧
    m'.overflow = m.overflow ∧ (m.gcMode = 0 → m' = m) := by
  unfold gcCheck
  split
  · exact ⟨m, rfl, i, .refl _ _, rfl, fun _ => rfl⟩
  · rename_i h0
    split
    · exact ⟨m, rfl, i, .refl _ _, rfl, fun h => absurd h h0⟩
    · have i1 : Mgr.Inv own lk { m with st := { m.st with gcCheck := gcCheckInit } } := by
        obtain ⟨Γ, leak, hl, i⟩ := i
        exact ⟨Γ, leak, hl, i.setCheck _⟩
      simp only
      split
      · obtain ⟨m', h1, i2, p2, h2, -⟩ := gc_ok i1
        rw [h1]
        refine ⟨m'.setGCLimit, rfl, i2.settings rfl rfl rfl rfl rfl rfl rfl rfl,
          ((setCheck_pres _).trans p2).trans setGCLimit_pres, h2, fun h => absurd h h0⟩
      · exact ⟨_, rfl, i1, setCheck_pres _, rfl, fun h => absurd h h0⟩

theorem flush_ok (i : m.Inv own lk) : Mgr.Inv own lk { m with ca := m.ca.flush } ∧
    Cache.Empty (m.ca.flush) := by
  obtain ⟨Γ, leak, hl, i⟩ := i
  exact ⟨⟨Γ, leak, hl, i.cache Cache.Valid.flush⟩, fun j => rfl⟩

/-- `Cal_BddReorder`. -/
theorem reorder_ok (S : E.Sound) (i : m.Inv own lk) :
    ∃ m', m.reorder E = some m' ∧ m'.Inv own lk ∧ Pres own 0 m m' ∧ m'.overflow = m.overflow := by
  unfold reorder
  by_cases h0 : m.technique = 0
  · exact ⟨m, by rw [if_pos h0], i, .refl _ _, rfl⟩
  rw [if_neg h0]
  simp only
  obtain ⟨i1, he⟩ := flush_ok i
  split
  · obtain ⟨m', φ, h1, i2, p2, h2, -⟩ := S.reorder own lk [] _ i1.invP he h0
    exact ⟨m', by rw [h1]; rfl, i2.inv, (cache_pres _).trans p2, h2⟩
  · split
    · obtain ⟨Γ, leak, hl, i1⟩ := i1
      obtain ⟨m1, h1, i2, p2, -, h3, -, -, -, -, -, h4⟩ := i1.gc
      rw [h1]
      obtain ⟨m', φ, h5, i3, p3, h6, -⟩ := S.reorder own lk [] m1
        (Inv.invP ⟨Γ, leak, hl, i2⟩) (h4 he) (by rw [p2.technique]; exact h0)
      exact ⟨m', by simp only [h5]; rfl, i3.inv, ((cache_pres _).trans p2).trans p3, h6.trans h3⟩
    · exact ⟨_, rfl, i1, cache_pres _, rfl⟩

end Mgr

/-! ## Evaluation

An independent reading of what a handle denotes: walk down from its node, taking at each node the
branch the assignment says, to a constant. -/

/-- walk down at most `k` edges -/
def walk (s : Store) (ρ : Asg) : Nat → Edge → Option Bool
  | 0, _ => none
  | k + 1, e =>
    if e.isConst then some (!e.neg)
    else
      match s.kids e with
      | none => none
      | some (t, u) => walk s ρ k (if ρ e.id then t else u)

/-- the value of a handle under an assignment -/
def Mgr.eval (m : Mgr) (h : Handle) (ρ : Asg) : Option Bool :=
  match m.internal h with
  | none => none
  | some e => walk m.st ρ (m.st.ord.numVars + 1) e

theorem walk_ok {s : Store} (w : s.WF) (ρ : Asg) : ∀ k {e F}, Rep s e F →
    s.ord.numVars + 1 ≤ k + s.ord.lvl e.id → 1 ≤ k → walk s ρ k e = some (F ρ) := by
  intro k
  induction k with
  | zero => intro e F _ _ h; omega
  | succ k ih =>
    intro e F r hk _
    unfold walk
    by_cases hc : e.id = 0
    · have hcc : e.isConst = true := by simp [Edge.isConst, hc]
      rw [if_pos hcc]
      rcases (r.const_iff w).1 hc with h | h
      · subst h; have := canonical w r .one; subst this; rfl
      · subst h; have := canonical w r .zero; subst this; rfl
    · have hcc : ¬ e.isConst = true := by simp [Edge.isConst, hc]
      rw [if_neg hcc]
      obtain ⟨t, u, hk', rt, ru, l1, l2, -⟩ := r.kids w hc
      rw [hk']
      have hr := (r.topVar w hc).rng
      have hl := w.ord.lvl_lt hr.1 hr.2
      simp only
      by_cases hρ : ρ e.id = true
      · rw [if_pos hρ, ih rt (by omega) (by omega)]
        congr 2
        funext v; by_cases hv : v = e.id
        · subst hv; rw [upd_same, hρ]
        · rw [upd_ne _ _ hv]
      · rw [if_neg hρ, ih ru (by omega) (by omega)]
        congr 2
        have hρ : ρ e.id = false := by simpa using hρ
        funext v; by_cases hv : v = e.id
        · subst hv; rw [upd_same, hρ]
        · rw [upd_ne _ _ hv]

/-- A handle denotes `F` iff walking from it gives the value of `F`, for every assignment. -/
theorem den_iff_eval {own lk} {m : Mgr} (i : m.Inv own lk) {h : Handle} (l : UTab.Live own h) {F} :
    Den m h F ↔ ∀ ρ, m.eval h ρ = some (F ρ) := by
  have key : ∀ {F}, Den m h F → ∀ ρ, m.eval h ρ = some (F ρ) := by
    rintro F ⟨e, he, r⟩ ρ
    simp only [Mgr.eval, Mgr.internal, he, Option.map_some]
    exact walk_ok i.wf ρ _ r (by omega) (by omega)
  refine ⟨key, fun hF => ?_⟩
  have ⟨Γ, leak, _, ig⟩ := i
  obtain ⟨G, hG⟩ := ig.den l
  have : F = G := by
    funext ρ
    have := (hF ρ).symm.trans (key hG ρ)
    simpa using this
  rw [this]; exact hG

end Cal
