import Verif.Api

/-!
# Quantification through the API
-/

namespace Cal

namespace Mgr

variable {Γ : Nat → BFn → BFn} {leak own : Nat → Nat} {m : Mgr} {lk : Bool} {E : Env}

/-! ## Temporary op codes -/

theorem assocCodes {s : Store} {A : Assoc} (h : A.ROK s Γ) :
    A.opCode Cache.opQUANT = 0x4000 + A.id.toNat ∧
    A.opCode Cache.opRELPROD = 0x5000 + A.id.toNat ∧
    A.opCode Cache.opVARSUBST = 0x8000 + A.id.toNat ∧ A.id.toNat < 4096 := by
  have h0 := h.id0
  have h1 := h.id1
  simp only [Assoc.opCode, Cache.opQUANT, Cache.opRELPROD, Cache.opVARSUBST]
  omega

/-- a temporary op code above the fixed ones is unused -/
theorem InvG.unused (i : InvG Γ leak own m) {c} (h1 : 0x9000 ≤ c) (h2 : c ≤ m.tempOp) :
    m.Unused c := by
  refine ⟨h2, by simp only [Cache.opNAND]; omega, fun p hp => ?_⟩
  obtain ⟨a, b, d, e⟩ := assocCodes (i.assocs p hp).1
  omega

/-- Taking `k` temporary op codes and giving them the meaning `G`. -/
theorem InvG.takeOps (i : InvG Γ leak own m) (k : Nat) (h : 0x8FFF + k ≤ m.tempOp)
    (G : BFn → BFn) :
    InvG (fun c => if m.tempOp - k < c ∧ c ≤ m.tempOp then G else Γ c) leak own
      { m with tempOp := m.tempOp - k } := by
  have out : ∀ c, c < 0x9000 → (if m.tempOp - k < c ∧ c ≤ m.tempOp then G else Γ c) = Γ c := by
    intro c hc; rw [if_neg (by omega)]
  refine ⟨i.wf, i.num, i.ref, i.ut, i.uok, i.var, i.var0, ?_, ?_, ?_, i.sorted, i.temp, i.tempId,
    i.cur, ?_, ?_, ?_⟩
  · refine i.ca.recode i.wf fun o => ?_
    by_cases ho : m.tempOp - k < o ∧ o ≤ m.tempOp
    · left; exact i.fresh o (i.unused (by omega) ho.2)
    · right; rw [if_neg ho]
  · rw [out _ (by simp [Cache.opNAND])]; exact i.nand
  · intro p hp
    obtain ⟨A, r⟩ := i.assocs p hp
    obtain ⟨a, b, d, e⟩ := assocCodes A
    refine ⟨{ A.toAOK with id0 := A.id0, id1 := A.id1, quant := ?_, relprod := ?_, subst := ?_ }, r⟩
    · rw [out _ (by omega)]; exact A.quant
    · rw [out _ (by omega)]; exact A.relprod
    · intro S hS; rw [out _ (by omega)]; exact A.subst S hS
  · have := i.top; show m.tempOp - k < 65536; omega
  · show 0x8FFF ≤ m.tempOp - k; omega
  · intro c hc
    have h1 : c ≤ m.tempOp - k := hc.1
    rw [if_neg (by omega)]
    exact i.fresh c ⟨by omega, hc.2.1, hc.2.2⟩

theorem tempOp_pres (k : Nat) (h : k ≤ m.tempOp) :
    Pres own k m { m with tempOp := m.tempOp - k } :=
  ⟨fun _ _ _ h => h, rfl, fun _ => rfl, rfl, F2.refl' fun _ _ => ⟨Assoc.Eqv.refl _, rfl⟩,
    Assoc.Eqv.refl _, by show m.tempOp - k + k = m.tempOp; omega, rfl, rfl, rfl, rfl, rfl,
    fun h => h, fun _ => rfl⟩

/-! ## The current association -/

theorem find_eqv {s s' : Store} {as as' : List RAssoc} (h : F2 (RAssoc.Eqv s s') as as') {i p}
    (hp : as.find? (fun p => p.a.id == i) = some p) :
    ∃ p', as'.find? (fun p => p.a.id == i) = some p' ∧ RAssoc.Eqv s s' p p' := by
  induction h with
  | nil => simp at hp
  | @cons x y _ _ hxy _ ih =>
    have hid := hxy.1.id
    by_cases hx : x.a.id = i
    · simp only [List.find?_cons, hx, beq_self_eq_true, Option.some.injEq] at hp
      subst hp
      exact ⟨y, by simp [hid, hx], hxy⟩
    · have : (x.a.id == i) = false := by simpa using hx
      simp only [List.find?_cons, this] at hp
      obtain ⟨p', h1, h2⟩ := ih hp
      exact ⟨p', by simp [hid, this, h1], h2⟩

theorem _root_.Cal.Pres.assoc_eqv {own k} {m m' : Mgr} (p : Pres own k m m') {i A}
    (h : m.assoc i = some A) : ∃ A', m'.assoc i = some A' ∧ A.Eqv m.st m'.st A' := by
  unfold Mgr.assoc at h ⊢
  split at h
  · rename_i hi
    cases h
    exact ⟨m'.temp, by rw [if_pos hi], p.temp⟩
  · rename_i hi
    rw [if_neg hi]
    cases hf : m.assocs.find? fun p => p.a.id == i with
    | none => rw [hf] at h; cases h
    | some q =>
      rw [hf] at h; cases h
      obtain ⟨q', h1, h2⟩ := find_eqv p.assocs hf
      exact ⟨q'.a, by rw [h1]; rfl, h2.1⟩

theorem InvG.assoc_mem (i : InvG Γ leak own m) {j A} (h : m.assoc j = some A) (hj : j ≠ -1) :
    A.ROK m.st Γ ∧ A.id = j := by
  unfold Mgr.assoc at h
  rw [if_neg hj] at h
  cases hf : m.assocs.find? fun p => p.a.id == j with
  | none => rw [hf] at h; cases h
  | some q =>
    rw [hf] at h; cases h
    have h1 := List.mem_of_find?_eq_some hf
    have h2 := List.find?_some hf
    exact ⟨(i.assocs q h1).1, by simpa using h2⟩

/-- there is always a current association -/
theorem InvG.cur_assoc (i : InvG Γ leak own m) : ∃ A, m.assoc m.cur = some A := by
  rcases i.cur with h | ⟨p, hp, h⟩
  · exact ⟨m.temp, by simp [Mgr.assoc, h]⟩
  · unfold Mgr.assoc
    split
    · exact ⟨_, rfl⟩
    · cases hf : m.assocs.find? fun p => p.a.id == m.cur with
      | some q => exact ⟨q.a, rfl⟩
      | none =>
        have := List.find?_eq_none.1 hf p hp
        simp [h] at this

/-- The number of op codes that quantification takes: none for a registered association. -/
def codes (m : Mgr) (k : Nat) : Nat := if m.cur = -1 then k else 0

theorem decOp_eq {n : Nat} (h : 1 ≤ n) (h' : n < 65536) : decOp n = n - 1 := by
  unfold decOp; omega

/-- The existential quantifier on internal BDDs. -/
theorem existsRun_ok (S : E.Sound) (i : m.Inv own lk) {A} (hA : m.assoc m.cur = some A)
    (hc : m.cur = -1 → 0x9000 ≤ m.tempOp) {f F} (hf : Rep m.st f F) :
    RunOk own lk (m.codes 1) m (m.existsRun E f) (exFn A.dom F) := by
  obtain ⟨Γ, leak, hl, i⟩ := i
  -- both sizes
  have both : ∀ (m1 : Mgr) (Γ1 : Nat → BFn → BFn) (code : Nat), InvG Γ1 leak own m1 →
      m1.st = m.st → m1.ca = m.ca → Γ1 code = exFn A.dom → code ≠ 0 → code < 65536 →
      A.OK m.st.ord →
      RunOk own lk 0 m1 (if m1.st.numNodes ≤ largeBdd then
        m1.onCore (existsStep A code (m1.st.ord.numVars + 1) ⟨m1.st, m1.ca⟩ f)
        else m1.onCore (E.existsBF A code ⟨m1.st, m1.ca⟩ f)) (exFn A.dom F) := by
    intro m1 Γ1 code i1 e1 e2 hΓ h0 h1 ok
    split
    · refine onCore_ok i1 hl fun δ hδ => ?_
      rw [e1] at hδ ⊢
      rw [← hδ.rep_eq hf]
      exact existsStep_ok i1.nand hΓ h0 h1 _ rfl ok i.wf (by rw [e2, ← e1]; rw [← e2]; exact i1.ca)
        hδ hf.eok (by omega) (by show m.st.ord.numVars + 1 ≤ _; omega)
    · refine onCore_ok i1 hl fun δ hδ => ?_
      rw [e1] at hδ ⊢
      rw [← hδ.rep_eq hf]
      exact S.existsBF Γ1 A code i1.nand hΓ h0 h1 ⟨m.st, m1.ca⟩ δ f ok i.wf
        (by have := i1.ca; rw [e1] at this; exact this) hδ hf.eok
  unfold existsRun
  rw [hA]
  simp only
  by_cases hcur : m.cur = -1
  · have hT : A = m.temp := by simp [Mgr.assoc, hcur] at hA; exact hA.symm
    subst hT
    have hid := i.tempId
    have h9 := hc hcur
    have ht := i.top
    have i1 := i.takeOps 1 (by omega) (exFn m.temp.dom)
    have := both { m with tempOp := m.tempOp - 1 } _ m.tempOp i1 rfl rfl
      (by rw [if_pos (by omega)]) (by omega) ht i.temp.ok
    rw [if_pos hid, if_pos hid, decOp_eq (show 1 ≤ m.tempOp by omega) ht, codes, if_pos hcur]
    obtain ⟨m', r, h1, h2, h3, h4⟩ := this
    exact ⟨m', r, h1, h2, by simpa using (tempOp_pres 1 (by omega)).trans h3, h4⟩
  · obtain ⟨rok, hid⟩ := i.assoc_mem hA hcur
    have hid' : A.id ≠ -1 := by rw [hid]; exact hcur
    obtain ⟨a, b, d, e⟩ := assocCodes rok
    have := both m Γ (A.opCode Cache.opQUANT) i rfl rfl rok.quant (by omega) (by omega) rok.ok
    simpa only [hid', if_false, codes, hcur] using this

theorem relProdRun_ok (S : E.Sound) (i : m.Inv own lk) {A} (hA : m.assoc m.cur = some A)
    (hc : m.cur = -1 → 0x9001 ≤ m.tempOp) {f F g G} (hf : Rep m.st f F) (hg : Rep m.st g G) :
    RunOk own lk (m.codes 2) m (m.relProdRun E f g) (exFn A.dom fun ρ => F ρ && G ρ) := by
  obtain ⟨Γ, leak, hl, i⟩ := i
  have both : ∀ (m1 : Mgr) (Γ1 : Nat → BFn → BFn) (code code' : Nat), InvG Γ1 leak own m1 →
      m1.st = m.st → Γ1 code = exFn A.dom → code ≠ 0 → code < 65536 →
      code' = (if A.id ≠ -1 then A.opCode Cache.opQUANT else (code + 65535) % 65536) →
      Γ1 code' = exFn A.dom → code' ≠ 0 → code' < 65536 →
      A.OK m.st.ord →
      RunOk own lk 0 m1 (if m1.st.numNodes ≤ largeBdd then
        m1.onCore (relProdStep A code (m1.st.ord.numVars + 1) ⟨m1.st, m1.ca⟩ f g)
        else m1.onCore (E.relProdBF A code ⟨m1.st, m1.ca⟩ f g)) (exFn A.dom fun ρ => F ρ && G ρ) := by
    intro m1 Γ1 code code' i1 e1 hΓ h0 h1 hcode hΓ' h0' h1' ok
    have hca : m1.ca.Valid m.st Γ1 := by have := i1.ca; rwa [e1] at this
    split
    · refine onCore_ok i1 hl fun δ hδ => ?_
      rw [e1] at hδ ⊢
      rw [← hδ.rep_eq hf, ← hδ.rep_eq hg]
      exact relProdStep_ok i1.nand hΓ h0 h1 hcode hΓ' h0' h1' _ rfl ok i.wf hca
        hδ hf.eok hg.eok (by omega) (by show _ ≤ _; simp only; omega) (by show _ ≤ _; simp only; omega)
    · refine onCore_ok i1 hl fun δ hδ => ?_
      rw [e1] at hδ ⊢
      rw [← hδ.rep_eq hf, ← hδ.rep_eq hg]
      exact S.relProdBF Γ1 A code code' i1.nand hΓ h0 h1 hcode hΓ' h0' h1' ⟨m.st, m1.ca⟩ δ f g ok i.wf
        hca hδ hf.eok hg.eok
  unfold relProdRun
  rw [hA]
  simp only
  by_cases hcur : m.cur = -1
  · have hT : A = m.temp := by simp [Mgr.assoc, hcur] at hA; exact hA.symm
    subst hT
    have hid := i.tempId
    have h9 := hc hcur
    have ht := i.top
    have i1 := i.takeOps 2 (by omega) (exFn m.temp.dom)
    have := both { m with tempOp := m.tempOp - 2 } _ m.tempOp (m.tempOp - 1) i1 rfl
      (by rw [if_pos (by omega)]) (by omega) ht (by rw [if_neg (by simp [hid])]; omega)
      (by rw [if_pos (by omega)]) (by omega) (by omega) i.temp.ok
    have hd : decOp (decOp m.tempOp) = m.tempOp - 2 := by
      rw [decOp_eq (n := m.tempOp) (by omega) ht, decOp_eq (by omega) (by omega)]; omega
    rw [if_pos hid, if_pos hid, hd, codes, if_pos hcur]
    obtain ⟨m', r, h1, h2, h3, h4⟩ := this
    exact ⟨m', r, h1, h2, by simpa using (tempOp_pres 2 (by omega)).trans h3, h4⟩
  · obtain ⟨rok, hid⟩ := i.assoc_mem hA hcur
    have hid' : A.id ≠ -1 := by rw [hid]; exact hcur
    obtain ⟨a, b, d, e⟩ := assocCodes rok
    have := both m Γ (A.opCode Cache.opRELPROD) (A.opCode Cache.opQUANT) i rfl rok.relprod
      (by omega) (by omega) (by rw [if_pos hid']) rok.quant (by omega) (by omega) rok.ok
    simpa only [hid', if_false, codes, hcur] using this

/-! ## The API functions -/

theorem exists_ok (S : E.Sound) (i : m.Inv own lk) {A} (hA : m.assoc m.cur = some A)
    (hc : m.cur = -1 → 0x9000 ≤ m.tempOp) {f F} (lf : UTab.Live own f) (hf : Den m f F) :
    Res own lk true (m.codes 1) m (m.exists_ E f) (exFn A.dom F) := by
  refine api_ok S i (forall1 lf) (.one hf) (fun m1 i1 p1 es h => ?_) fun _ _ i1 r => finish_ok S i1 r
  cases h with
  | cons r1 h => cases h with
    | nil =>
      obtain ⟨A', hA', q⟩ := p1.assoc_eqv hA
      have hcu := p1.cur
      have ht := p1.top
      rw [← hcu] at hA'
      have := existsRun_ok S i1 hA' (fun h => by have := hc (by rw [← hcu]; exact h); omega) r1
      rw [q.domEq] at this
      simp only [codes, hcu] at this ⊢
      exact this

theorem forAll_ok (S : E.Sound) (i : m.Inv own lk) {A} (hA : m.assoc m.cur = some A)
    (hc : m.cur = -1 → 0x9000 ≤ m.tempOp) {f F} (lf : UTab.Live own f) (hf : Den m f F) :
    Res own lk true (m.codes 1) m (m.forAll E f) (allFn A.dom F) := by
  refine api_ok S i (forall1 lf) (.one hf) (fun m1 i1 p1 es h => ?_) fun _ _ i1 r => finish_ok S i1 r
  cases h with
  | cons r1 h => cases h with
    | nil =>
      obtain ⟨A', hA', q⟩ := p1.assoc_eqv hA
      have hcu := p1.cur
      have ht := p1.top
      rw [← hcu] at hA'
      have := (existsRun_ok S i1 hA' (fun h => by have := hc (by rw [← hcu]; exact h); omega)
        r1.not).neg
      rw [q.domEq] at this
      simp only [codes, hcu] at this ⊢
      rw [allFn_eq]
      exact this

theorem relProd_ok (S : E.Sound) (i : m.Inv own lk) {A} (hA : m.assoc m.cur = some A)
    (hc : m.cur = -1 → 0x9001 ≤ m.tempOp) {f F g G} (lf : UTab.Live own f) (lg : UTab.Live own g)
    (hf : Den m f F) (hg : Den m g G) :
    Res own lk true (m.codes 2) m (m.relProd E f g) (exFn A.dom fun ρ => F ρ && G ρ) := by
  refine api_ok S i (forall2 lf lg) (.two hf hg) (fun m1 i1 p1 es h => ?_)
    fun _ _ i1 r => finish_ok S i1 r
  cases h with
  | cons r1 h => cases h with
    | cons r2 h => cases h with
      | nil =>
        obtain ⟨A', hA', q⟩ := p1.assoc_eqv hA
        have hcu := p1.cur
        have ht := p1.top
        rw [← hcu] at hA'
        have := relProdRun_ok S i1 hA' (fun h => by have := hc (by rw [← hcu]; exact h); omega) r1 r2
        rw [q.domEq] at this
        simp only [codes, hcu] at this ⊢
        exact this

end Mgr

end Cal
