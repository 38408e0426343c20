import Verif.ApiQuant
import Verif.ApiSubst
import Verif.VarSubst

/-!
# Variable renaming through the API
-/

namespace Cal

/-- Each function in the table is a variable or a constant. -/
def VarTable (T : Nat → Option BFn) : Prop :=
  ∀ v F, T v = some F → (∃ b, F = fun _ => b) ∨ ∃ u, F = fun ρ => ρ u

namespace Mgr

/-- The part of `Cal_BddVarSubstitute` between pre-processing and making the result external
(calBddVarSubstitute.c:87-96). -/
def varSubstRun (m : Mgr) (f : Edge) : Option (Mgr × Edge) :=
  match m.assoc m.cur with
  | none => none
  | some A =>
    let code := if A.id = -1 then m.tempOp else A.opCode Cache.opVARSUBST
    let m := if A.id = -1 then { m with tempOp := decOp m.tempOp } else m
    m.onCore (Eng.varSubstBF ⟨m.st, m.ca⟩ A.var m.vars A.last code f)

/-- `Cal_BddVarSubstitute` (calBddVarSubstitute.c:80-106) -/
def varSubstitute (E : Env) (m : Mgr) (f : Handle) : Option (Mgr × Handle) :=
  m.api E [f] (fun m es => match es with
    | [f] => m.varSubstRun f
    | _ => none) (finish E)

/-! ## Proofs -/

variable {own : Nat → Nat} {m : Mgr} {lk : Bool} {E : Env}

/-- The BDD of a function that is a variable. -/
theorem InvG.rep_var {Γ leak} (i : InvG Γ leak own m) {u} (u1 : 1 ≤ u) (u2 : u ≤ m.st.ord.numVars) :
    ∃ h, m.vars u = some h ∧ h.id = u ∧ Rep m.st h fun ρ => ρ u := by
  obtain ⟨a, h3, h4⟩ := i.var u u1 u2
  refine ⟨_, h3, rfl, ?_⟩
  have := Rep.pos h4 Rep.one Rep.zero
  have e : (fun ρ : Asg => if ρ u = true then true else false) = fun ρ => ρ u := by
    funext ρ; cases ρ u <;> rfl
  rw [← e]; exact this

/-- A function with a BDD that is a variable is one of the manager's variables. -/
theorem _root_.Cal.Rep.var_range {s : Store} (w : s.WF) {e : Edge} {u : Nat}
    (h : Rep s e fun ρ => ρ u) : 1 ≤ u ∧ u ≤ s.ord.numVars := by
  refine Classical.byContradiction fun hn => ?_
  have := h.agree w (fun _ => false) (upd (fun _ => false) u true) fun v v1 v2 _ => by
    simp only [upd]
    split
    · subst_vars; exact absurd ⟨v1, v2⟩ hn
    · rfl
  simp [upd] at this

theorem VarTable.vals {Γ leak} (i : InvG Γ leak own m) {A : Assoc} {T}
    (hT : ∀ v, ValIs m.st (A.var v) (T v)) (hv : VarTable T) :
    Eng.VarVals A.var (fun v => (T v).getD fun ρ => ρ v) m.st.ord := by
  intro v h hh
  rcases hT v with ⟨h1, -⟩ | ⟨e, F, h1, h2, h3⟩
  · rw [h1] at hh; cases hh
  rw [h1] at hh; cases hh
  rcases hv v F h2 with ⟨b, rfl⟩ | ⟨u, rfl⟩
  · left
    refine (h3.const_iff i.wf).2 ?_
    cases b
    · exact Or.inr rfl
    · exact Or.inl rfl
  · obtain ⟨u1, u2⟩ := h3.var_range i.wf
    obtain ⟨h', -, h5, h6⟩ := i.rep_var u1 u2
    have := canonical i.wf h3 h6
    subst this
    right
    rw [h5]
    exact ⟨by simp only [h2, Option.getD_some], u1, u2⟩

theorem varSubstRun_ok (i : m.Inv own lk) {A} (hA : m.assoc m.cur = some A)
    (hc : m.cur = -1 → 0x9000 ≤ m.tempOp) {T} (hT : ∀ v, ValIs m.st (A.var v) (T v)) (hv : VarTable T)
    {f F} (hf : Rep m.st f F) :
    RunOk own lk (m.codes 1) m (m.varSubstRun f) (substFn (fun v => (T v).getD fun ρ => ρ v) F) := by
  obtain ⟨Γ, leak, hl, i⟩ := i
  have hS := ValIs.sub hT
  have both : ∀ (m1 : Mgr) (Γ1 : Nat → BFn → BFn) (code : Nat), InvG Γ1 leak own m1 →
      m1.st = m.st → m1.vars = m.vars → Γ1 code = substFn (fun v => (T v).getD fun ρ => ρ v) →
      code ≠ 0 → code < 65536 →
      RunOk own lk 0 m1 (m1.onCore (Eng.varSubstBF ⟨m1.st, m1.ca⟩ A.var m1.vars A.last code f))
        (substFn (fun v => (T v).getD fun ρ => ρ v) F) := by
    intro m1 Γ1 code i1 e1 e2 hΓ h0 h1
    obtain ⟨c', r, h2, h3, h4, h5, h6, h7⟩ := Eng.varSubstBF_spec (c := ⟨m1.st, m1.ca⟩)
      (σ := A.var) (vb := m.vars) (last := A.last) i1.wf i1.ca h0 h1 hΓ
      (by rw [e1]; exact i.sel hS) (by rw [e1]; exact VarTable.vals i hT hv)
      (by rw [e1]; exact hS.below (i.assoc_aok hA).ok) (by rw [e1]; exact hf)
    rw [e2, h2]
    exact ⟨_, r, rfl, ⟨Γ1, leak, hl, i1.core h3 h5 h6 h4⟩, core_pres h5, h7⟩
  unfold varSubstRun
  rw [hA]
  simp only
  by_cases hcur : m.cur = -1
  · have hT' : A = m.temp := by simp [Mgr.assoc, hcur] at hA; exact hA.symm
    subst hT'
    have hid := i.tempId
    have h9 := hc hcur
    have ht := i.top
    have i1 := i.takeOps 1 (by omega) (substFn fun v => (T v).getD fun ρ => ρ v)
    have := both { m with tempOp := m.tempOp - 1 } _ m.tempOp i1 rfl rfl
      (by rw [if_pos (by omega)]) (by omega) ht
    rw [if_pos hid, if_pos hid, decOp_eq (show 1 ≤ m.tempOp by omega) ht, codes, if_pos hcur]
    obtain ⟨m', r, h1, h2, h3, h4⟩ := this
    exact ⟨m', r, h1, h2, by simpa using (tempOp_pres 1 (by omega)).trans h3, h4⟩
  · obtain ⟨rok, hid⟩ := i.assoc_mem hA hcur
    have hid' : A.id ≠ -1 := by rw [hid]; exact hcur
    have hco : A.opCode Cache.opVARSUBST ≠ 0 ∧ A.opCode Cache.opVARSUBST < 65536 := by
      have := rok.id0; have := rok.id1
      unfold Assoc.opCode Cache.opVARSUBST
      omega
    have := both m Γ (A.opCode Cache.opVARSUBST) i rfl rfl (rok.subst _ hS) hco.1 hco.2
    simpa only [hid', if_false, codes, hcur] using this

theorem varSubstitute_ok (S : E.Sound) (i : m.Inv own lk) {T} (hT : AssocDen m m.cur T) (hv : VarTable T)
    (hc : m.cur = -1 → 0x9000 ≤ m.tempOp) {f F} (lf : UTab.Live own f) (hf : Den m f F) :
    Res own lk true (m.codes 1) m (m.varSubstitute E f) (BFn.replace T F) := by
  rw [← replace_eq]
  refine api_ok S i (forall1 lf) (.one hf) (fun m1 i1 p1 es h => ?_) fun _ _ i1 r => finish_ok S i1 r
  cases h with
  | cons r1 h => cases h with
    | nil =>
      obtain ⟨A, hA, hT⟩ := hT
      obtain ⟨A', hA', q⟩ := p1.assoc_eqv hA
      have hcu := p1.cur
      have ht := p1.top
      rw [← hcu] at hA'
      have := varSubstRun_ok i1 hA' (fun h => by have := hc (by rw [← hcu]; exact h); omega)
        (fun v => q.valIs (hT v)) hv r1
      simp only [codes, hcu] at this ⊢
      exact this

end Mgr
end Cal
