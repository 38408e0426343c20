import Verif.DfLess
import Verif.BfMgr

/-!
# Breadth-first sifting does not make the BDDs bigger
-/

namespace Cal

namespace Bfr

section
variable {Γ : Nat → BFn → BFn} {own leak : Nat → Nat} {ps : List Edge} {m : Mgr}

theorem named_held (i : Mgr.InvG Γ (fun x => leak x + pend ps x) own m) {δ0 : Nat → BFn} (l0 : Lab m.st δ0) {F}
    (h : Named own m F) :
    ∃ e c, m.Held (fun x => leak x + pend ps x) e ∧ F = fun ρ => xor c (den δ0 e ρ) := by
  have fin : ∀ {e F}, Rep m.st e F → F = fun ρ => xor false (den δ0 e ρ) := by
    intro e F r
    rw [← l0.rep_eq r]
    simp
  cases h with
  | handle l d =>
    rename_i h
    obtain ⟨e, he, r⟩ := d
    have hh := Mgr.held_ut i he
    obtain ⟨G, rG⟩ := i.wf.rep_exists (i.uok _ _ he)
    refine ⟨e, h.neg, hh, ?_⟩
    have h1 := (rG.phase h.neg).unique i.wf r
    have h2 := fin rG
    rw [← h1, h2]
    simp
  | var h1 h2 h =>
    rename_i v
    obtain ⟨a, e, k⟩ := i.var v h1 h2
    have hh : m.Held (fun x => leak x + pend ps x) ⟨v, a, false⟩ := Mgr.held_var i (v := v) e
    refine ⟨_, false, hh, ?_⟩
    have r : Rep m.st ⟨v, a, false⟩ fun ρ => ρ v := by
      have := Rep.pos (s := m.st) k .one .zero
      simpa using this
    rw [h]
    exact fin r
  | assoc h =>
    obtain ⟨j, A, v, e, h1, h2, r⟩ := h
    have hh : m.Held (fun x => leak x + pend ps x) e := by
      unfold Mgr.assoc at h1
      split at h1
      · cases h1
        exact Mgr.held_temp i (v := v) h2
      · cases hf : m.assocs.find? fun p => p.a.id == j with
        | none => rw [hf] at h1; cases h1
        | some p =>
          rw [hf] at h1; cases h1
          exact Mgr.held_assoc i (p := p) (List.mem_of_find?_eq_some hf) h2
    exact ⟨e, false, hh, fin r⟩

/-- A breadth-first reordering by sifting ends with at most as many nodes as there were. -/
theorem reorderBF_le (i : Mgr.InvG Γ (fun x => leak x + pend ps x) own m) (h : Ready m ps) {P : Par} {m' φ}
    (e : reorderBF P m ps = some (m', φ))
    (hs : ∀ F, Stuck m' F → Named own m F ∨ Named own m fun ρ => !F ρ) : m'.st.numNodes ≤ m.st.numNodes := by
  obtain ⟨mat, δ0, e1, l0, Bt⟩ := start_ok i h P
  obtain ⟨w, e2, -, C, d, ab, B, -, le⟩ := sift_spec P Bt
  unfold reorderBF at e
  rw [e1] at e
  simp only [e2, Option.map_some, Option.some.injEq, Prod.mk.injEq] at e
  obtain ⟨rfl, -⟩ := e
  have M := moved B C
  have u : Df.Unstuck (m.roots fun x => leak x + pend ps x) d := by
    refine Df.unstuck_core B.r l0.const M fun a n F h1 h2 h3 => ?_
    rcases hs F ⟨a, n, h1, h2, h3⟩ with h | h
    · obtain ⟨e, c, h1, h2⟩ := named_held i l0 h
      exact ⟨e, c, h1.2, h2⟩
    · obtain ⟨e, c, h1, h2⟩ := named_held i l0 h
      refine ⟨e, !c, h1.2, ?_⟩
      funext ρ
      have := congrFun h2 ρ
      cases c <;> simp at this ⊢ <;> rw [← this] <;> simp
  have k := le u
  have k2 : w.st.numNodes = d.st.numNodes := M.num
  show w.st.numNodes ≤ m.st.numNodes
  rw [k2]
  exact k

end

end Bfr

end Cal
