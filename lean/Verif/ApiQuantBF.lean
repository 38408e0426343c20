import Verif.QuantBFOk
import Verif.ApiQuant

/-!
# Quantification with either algorithm

`Cal_BddExists`, `Cal_BddForAll` and `Cal_BddRelProd` work depth-first up to `CAL_LARGE_BDD` nodes and breadth-first
above. Here the choice is a parameter, so that the two algorithms can be compared on the same manager.
-/

namespace Cal
namespace Mgr

/-- `existsRun` (calQuant.c:104-123) with the algorithm given: breadth-first if `bf`. -/
def existsBy (bf : Bool) (m : Mgr) (f : Edge) : Option (Mgr × Edge) :=
  match m.assoc m.cur with
  | none => none
  | some A =>
    let code := if A.id = -1 then m.tempOp else A.opCode Cache.opQUANT
    let m := if A.id = -1 then { m with tempOp := decOp m.tempOp } else m
    m.onCore (if bf then QB.existsBF A code ⟨m.st, m.ca⟩ f
      else existsStep A code (m.st.ord.numVars + 1) ⟨m.st, m.ca⟩ f)

/-- `relProdRun` (calQuant.c:143-162) with the algorithm given: breadth-first if `bf`. -/
def relProdBy (bf : Bool) (m : Mgr) (f g : Edge) : Option (Mgr × Edge) :=
  match m.assoc m.cur with
  | none => none
  | some A =>
    let code := if A.id = -1 then m.tempOp else A.opCode Cache.opRELPROD
    let m := if A.id = -1 then { m with tempOp := decOp (decOp m.tempOp) } else m
    m.onCore (if bf then QB.relProdBF A code ⟨m.st, m.ca⟩ f g
      else relProdStep A code (m.st.ord.numVars + 1) ⟨m.st, m.ca⟩ f g)

/-- `Cal_BddExists` (calQuant.c:98-132) with the algorithm given -/
def existsWith (E : Env) (bf : Bool) (m : Mgr) (f : Handle) : Option (Mgr × Handle) :=
  m.api E [f] (fun m es => match es with
    | [f] => m.existsBy bf f
    | _ => none) (finish E)

/-- `Cal_BddForAll` (calQuant.c:174-209) with the algorithm given -/
def forAllWith (E : Env) (bf : Bool) (m : Mgr) (f : Handle) : Option (Mgr × Handle) :=
  m.api E [f] (fun m es => match es with
    | [f] => negRes (m.existsBy bf f.not)
    | _ => none) (finish E)

/-- `Cal_BddRelProd` (calQuant.c:137-173) with the algorithm given -/
def relProdWith (E : Env) (bf : Bool) (m : Mgr) (f g : Handle) : Option (Mgr × Handle) :=
  m.api E [f, g] (fun m es => match es with
    | [f, g] => m.relProdBy bf f g
    | _ => none) (finish E)

variable {own : Nat → Nat} {lk : Bool} {m : Mgr} {E : Env}

/-- The code takes the breadth-first algorithm above `CAL_LARGE_BDD` nodes. -/
theorem existsRun_by (f : Edge) : m.existsRun E.bf f = m.existsBy (decide (largeBdd < m.st.numNodes)) f := by
  unfold existsRun existsBy
  cases m.assoc m.cur with
  | none => rfl
  | some A =>
    have h : ∀ m1 : Mgr, m1.st = m.st → ∀ x y : Option (Core × Edge),
        (if m1.st.numNodes ≤ largeBdd then m1.onCore x else m1.onCore y) =
        m1.onCore (if decide (largeBdd < m.st.numNodes) = true then y else x) := by
      intro m1 e x y
      rw [e]
      by_cases hh : m.st.numNodes ≤ largeBdd
      · rw [if_pos hh, if_neg (by simpa using hh)]
      · rw [if_neg hh, if_pos (by simpa using hh)]
    refine h _ ?_ _ _
    split <;> rfl

theorem relProdRun_by (f g : Edge) :
    m.relProdRun E.bf f g = m.relProdBy (decide (largeBdd < m.st.numNodes)) f g := by
  unfold relProdRun relProdBy
  cases m.assoc m.cur with
  | none => rfl
  | some A =>
    have h : ∀ m1 : Mgr, m1.st = m.st → ∀ x y : Option (Core × Edge),
        (if m1.st.numNodes ≤ largeBdd then m1.onCore x else m1.onCore y) =
        m1.onCore (if decide (largeBdd < m.st.numNodes) = true then y else x) := by
      intro m1 e x y
      rw [e]
      by_cases hh : m.st.numNodes ≤ largeBdd
      · rw [if_pos hh, if_neg (by simpa using hh)]
      · rw [if_neg hh, if_pos (by simpa using hh)]
    refine h _ ?_ _ _
    split <;> rfl

theorem existsBy_ok (bf : Bool) (i : m.Inv own lk) {A} (hA : m.assoc m.cur = some A)
    (hc : m.cur = -1 → 0x9000 ≤ m.tempOp) {f F} (hf : Rep m.st f F) :
    RunOk own lk (m.codes 1) m (m.existsBy bf f) (exFn A.dom F) := by
  obtain ⟨Γ, leak, hl, i⟩ := i
  have both : ∀ (m1 : Mgr) (Γ1 : Nat → BFn → BFn) (code : Nat), InvG Γ1 leak own m1 →
      m1.st = m.st → Γ1 code = exFn A.dom → code ≠ 0 → code < 65536 → A.OK m.st.ord →
      RunOk own lk 0 m1 (m1.onCore (if bf = true then QB.existsBF A code ⟨m1.st, m1.ca⟩ f
        else existsStep A code (m1.st.ord.numVars + 1) ⟨m1.st, m1.ca⟩ f)) (exFn A.dom F) := by
    intro m1 Γ1 code i1 e1 hΓ h0 h1 ok
    have hca : m1.ca.Valid m.st Γ1 := by have := i1.ca; rwa [e1] at this
    refine onCore_ok i1 hl fun δ hδ => ?_
    rw [e1] at hδ ⊢
    rw [← hδ.rep_eq hf]
    split
    · exact QB.existsBF_ok i1.nand hΓ h0 h1 ok i.wf hca hδ hf.eok
    · exact existsStep_ok i1.nand hΓ h0 h1 _ rfl ok i.wf hca hδ hf.eok (by omega) (by show _ ≤ _; simp only; omega)
  unfold existsBy
  rw [hA]
  simp only
  by_cases hcur : m.cur = -1
  · have hT : A = m.temp := by simp [Mgr.assoc, hcur] at hA; exact hA.symm
    subst hT
    have hid := i.tempId
    have h9 := hc hcur
    have ht := i.top
    have i1 := i.takeOps 1 (by omega) (exFn m.temp.dom)
    have := both { m with tempOp := m.tempOp - 1 } _ m.tempOp i1 rfl
      (by rw [if_pos (by omega)]) (by omega) ht i.temp.ok
    rw [if_pos hid, if_pos hid, decOp_eq (show 1 ≤ m.tempOp by omega) ht, codes, if_pos hcur]
    obtain ⟨m', r, h1, h2, h3, h4⟩ := this
    exact ⟨m', r, h1, h2, by simpa using (tempOp_pres 1 (by omega)).trans h3, h4⟩
  · obtain ⟨rok, hid⟩ := i.assoc_mem hA hcur
    have hid' : A.id ≠ -1 := by rw [hid]; exact hcur
    obtain ⟨a, b, d, e⟩ := assocCodes rok
    have := both m Γ (A.opCode Cache.opQUANT) i rfl rok.quant (by omega) (by omega) rok.ok
    simpa only [hid', if_false, codes, hcur] using this

theorem relProdBy_ok (bf : Bool) (i : m.Inv own lk) {A} (hA : m.assoc m.cur = some A)
    (hc : m.cur = -1 → 0x9001 ≤ m.tempOp) {f F g G} (hf : Rep m.st f F) (hg : Rep m.st g G) :
    RunOk own lk (m.codes 2) m (m.relProdBy bf f g) (exFn A.dom fun ρ => F ρ && G ρ) := by
  obtain ⟨Γ, leak, hl, i⟩ := i
  have both : ∀ (m1 : Mgr) (Γ1 : Nat → BFn → BFn) (code code' : Nat), InvG Γ1 leak own m1 →
      m1.st = m.st → Γ1 code = exFn A.dom → code ≠ 0 → code < 65536 →
      code' = (if A.id ≠ -1 then A.opCode Cache.opQUANT else (code + 65535) % 65536) →
      Γ1 code' = exFn A.dom → code' ≠ 0 → code' < 65536 → A.OK m.st.ord →
      RunOk own lk 0 m1 (m1.onCore (if bf = true then QB.relProdBF A code ⟨m1.st, m1.ca⟩ f g
        else relProdStep A code (m1.st.ord.numVars + 1) ⟨m1.st, m1.ca⟩ f g)) (exFn A.dom fun ρ => F ρ && G ρ) := by
    intro m1 Γ1 code code' i1 e1 hΓ h0 h1 hcode hΓ' h0' h1' ok
    have hca : m1.ca.Valid m.st Γ1 := by have := i1.ca; rwa [e1] at this
    refine onCore_ok i1 hl fun δ hδ => ?_
    rw [e1] at hδ ⊢
    rw [← hδ.rep_eq hf, ← hδ.rep_eq hg]
    split
    · exact QB.relProdBF_ok i1.nand hΓ h0 h1 ok i.wf hca hδ hf.eok hg.eok
    · exact relProdStep_ok i1.nand hΓ h0 h1 hcode hΓ' h0' h1' _ rfl ok i.wf hca
        hδ hf.eok hg.eok (by omega) (by show _ ≤ _; simp only; omega) (by show _ ≤ _; simp only; omega)
  unfold relProdBy
  rw [hA]
  simp only
  by_cases hcur : m.cur = -1
  · have hT : A = m.temp := by simp [Mgr.assoc, hcur] at hA; exact hA.symm
    subst hT
    have hid := i.tempId
    have h9 := hc hcur
    have ht := i.top
    have i1 := i.takeOps 2 (by omega) (exFn m.temp.dom)
    have := both { m with tempOp := m.tempOp - 2 } _ m.tempOp (m.tempOp - 1) i1 rfl
      (by rw [if_pos (by omega)]) (by omega) ht (by rw [if_neg (by simp [hid])]; omega)
      (by rw [if_pos (by omega)]) (by omega) (by omega) i.temp.ok
    have hd : decOp (decOp m.tempOp) = m.tempOp - 2 := by
      rw [decOp_eq (n := m.tempOp) (by omega) ht, decOp_eq (by omega) (by omega)]; omega
    rw [if_pos hid, if_pos hid, hd, codes, if_pos hcur]
    obtain ⟨m', r, h1, h2, h3, h4⟩ := this
    exact ⟨m', r, h1, h2, by simpa using (tempOp_pres 2 (by omega)).trans h3, h4⟩
  · obtain ⟨rok, hid⟩ := i.assoc_mem hA hcur
    have hid' : A.id ≠ -1 := by rw [hid]; exact hcur
    obtain ⟨a, b, d, e⟩ := assocCodes rok
    have := both m Γ (A.opCode Cache.opRELPROD) (A.opCode Cache.opQUANT) i rfl rok.relprod
      (by omega) (by omega) (by rw [if_pos hid']) rok.quant (by omega) (by omega) rok.ok
    simpa only [hid', if_false, codes, hcur] using this

theorem existsWith_ok (S : E.Sound) (bf : Bool) (i : m.Inv own lk) {A} (hA : m.assoc m.cur = some A)
    (hc : m.cur = -1 → 0x9000 ≤ m.tempOp) {f F} (lf : UTab.Live own f) (hf : Den m f F) :
    Res own lk true (m.codes 1) m (m.existsWith E bf f) (exFn A.dom F) := by
  refine api_ok S i (forall1 lf) (.one hf) (fun m1 i1 p1 es h => ?_) fun _ _ i1 r => finish_ok S i1 r
  cases h with
  | cons r1 h => cases h with
    | nil =>
      obtain ⟨A', hA', q⟩ := p1.assoc_eqv hA
      have hcu := p1.cur
      have ht := p1.top
      rw [← hcu] at hA'
      have := existsBy_ok bf i1 hA' (fun h => by have := hc (by rw [← hcu]; exact h); omega) r1
      rw [q.domEq] at this
      simp only [codes, hcu] at this ⊢
      exact this

theorem forAllWith_ok (S : E.Sound) (bf : Bool) (i : m.Inv own lk) {A} (hA : m.assoc m.cur = some A)
    (hc : m.cur = -1 → 0x9000 ≤ m.tempOp) {f F} (lf : UTab.Live own f) (hf : Den m f F) :
    Res own lk true (m.codes 1) m (m.forAllWith E bf f) (allFn A.dom F) := by
  refine api_ok S i (forall1 lf) (.one hf) (fun m1 i1 p1 es h => ?_) fun _ _ i1 r => finish_ok S i1 r
  cases h with
  | cons r1 h => cases h with
    | nil =>
      obtain ⟨A', hA', q⟩ := p1.assoc_eqv hA
      have hcu := p1.cur
      have ht := p1.top
      rw [← hcu] at hA'
      have := (existsBy_ok bf i1 hA' (fun h => by have := hc (by rw [← hcu]; exact h); omega)
        r1.not).neg
      rw [q.domEq] at this
      simp only [codes, hcu] at this ⊢
      rw [allFn_eq]
      exact this

theorem relProdWith_ok (S : E.Sound) (bf : Bool) (i : m.Inv own lk) {A} (hA : m.assoc m.cur = some A)
    (hc : m.cur = -1 → 0x9001 ≤ m.tempOp) {f F g G} (lf : UTab.Live own f) (lg : UTab.Live own g)
    (hf : Den m f F) (hg : Den m g G) :
    Res own lk true (m.codes 2) m (m.relProdWith E bf f g) (exFn A.dom fun ρ => F ρ && G ρ) := by
  refine api_ok S i (forall2 lf lg) (.two hf hg) (fun m1 i1 p1 es h => ?_)
    fun _ _ i1 r => finish_ok S i1 r
  cases h with
  | cons r1 h => cases h with
    | cons r2 h => cases h with
      | nil =>
        obtain ⟨A', hA', q⟩ := p1.assoc_eqv hA
        have hcu := p1.cur
        have ht := p1.top
        rw [← hcu] at hA'
        have := relProdBy_ok bf i1 hA' (fun h => by have := hc (by rw [← hcu]; exact h); omega) r1 r2
        rw [q.domEq] at this
        simp only [codes, hcu] at this ⊢
        exact this

end Mgr
end Cal
