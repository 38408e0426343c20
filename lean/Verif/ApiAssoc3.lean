import Verif.ApiAssoc2

/-!
# Associations through the API: the functions
-/

namespace Cal

namespace Mgr

variable {Γ : Nat → BFn → BFn} {leak own : Nat → Nat} {m : Mgr} {lk : Bool} {E : Env}

theorem Inv.weaken {x : Bool} (i : m.Inv own lk) : m.Inv own (lk || x) := by
  obtain ⟨Γ, leak, hl, i⟩ := i
  exact ⟨Γ, leak, fun h => hl (by simp only [Bool.or_eq_false_iff] at h; exact h.1), i⟩

theorem assocDen_of_mem (hs : IdSorted m.assocs) {p} (hp : p ∈ m.assocs) (h0 : 0 ≤ p.a.id) {S}
    (h : ∀ v, ValIs m.st (p.a.var v) (S v)) : AssocDen m p.a.id S :=
  ⟨p.a, by
    unfold assoc
    rw [if_neg (by omega), (find_iff hs).2 ⟨hp, rfl⟩]; rfl, h⟩

theorem assocDen_mem (hs : IdSorted m.assocs) {j : Int} (hj : j ≠ -1) {S} (h : AssocDen m j S) :
    ∃ p ∈ m.assocs, p.a.id = j ∧ ∀ v, ValIs m.st (p.a.var v) (S v) := by
  obtain ⟨A, h1, h2⟩ := h
  unfold assoc at h1
  rw [if_neg hj] at h1
  cases hf : m.assocs.find? fun p => p.a.id == j with
  | none => rw [hf] at h1; simp at h1
  | some p =>
    rw [hf] at h1; cases h1
    obtain ⟨h3, h4⟩ := (find_iff hs).1 hf
    exact ⟨p, h3, h4, h2⟩

theorem count_mem (hs : IdSorted m.assocs) {p} (hp : p ∈ m.assocs) : m.count p.a.id = p.refCount := by
  unfold count; rw [(find_iff hs).2 ⟨hp, rfl⟩]

theorem count_none {j : Int} (h : ∀ p ∈ m.assocs, p.a.id ≠ j) : m.count j = 0 := by
  unfold count
  have : (m.assocs.find? fun p => p.a.id == j) = none :=
    List.find?_eq_none.2 fun p hp => by simpa using h p hp
  rw [this]

/-- only membership in the list counts -/
theorem assocDen_mono {m m' : Mgr} (hs : IdSorted m.assocs) (hs' : IdSorted m'.assocs)
    (le : m.st.Le m'.st) (ht : m'.temp = m.temp) {j : Int}
    (hj : ∀ p ∈ m.assocs, p.a.id = j → ∃ q ∈ m'.assocs, q.a = p.a) {S} (h : AssocDen m j S) :
    AssocDen m' j S := by
  by_cases h1 : j = -1
  · subst h1
    obtain ⟨A, h1, h2⟩ := h
    simp only [assoc, if_true, Option.some.injEq] at h1
    exact ⟨A, by simp [assoc, ht, h1], fun v => (h2 v).map fun _ _ r => r.mono le⟩
  · obtain ⟨p, h2, h3, h4⟩ := assocDen_mem hs h1 h
    obtain ⟨q, h5, h6⟩ := hj p h2 h3
    refine ⟨q.a, ?_, fun v => by rw [h6]; exact (h4 v).map fun _ _ r => r.mono le⟩
    unfold assoc
    rw [if_neg h1, (find_iff hs').2 ⟨h5, by rw [h6]; exact h3⟩]; rfl

theorem valHits_one : ∀ {ps : List (Edge × Edge)}, (∀ p ∈ ps, p.2 = one) → ∀ {x}, x ≠ 0 →
    valHits ps x = 0
  | [], _, _, _ => rfl
  | p :: ps, h, x, hx => by
    have ih := valHits_one (ps := ps) (fun q hq => h q (by simp [hq])) hx
    simp only [valHits, List.map_cons, List.sum_cons, h p (by simp)] at ih ⊢
    rw [ih]; simp [hits, Ne.symm hx]

/-- The last part of `Cal_AssociationInit`, on internal BDDs. -/
theorem register_ok {m : Mgr} (i : m.Inv own lk) {pairs : Bool} {ps : List (Edge × Edge)}
    {L : List (Nat × BFn)} (hL : F2 (PairIs m.st) ps L) (h1 : pairs = false → ∀ p ∈ ps, p.2 = one)
    (hlen : m.assocs.length < 4096) {out : Mgr × Int}
    (hout : out = match bumpAssoc m.st.ord.numVars (assocMap ps) m.assocs with
      | some (as, i) => ({ m with assocs := as }, i)
      | none =>
        let i := freeId m.assocs 0
        let new : RAssoc := ⟨⟨i, assocMap ps, lastIndex m.st (-1) ps⟩, 1⟩
        ({ m with
          assocs := insertAssoc new m.assocs 0
          st := if pairs then icrAll m.st ps else m.st }, i)) :
    out.1.Inv own (lk || (pairs && !decide (L.map (·.1)).Nodup)) ∧ Frame own m out.1 ∧
      out.1.cur = m.cur ∧ 0 ≤ out.2 ∧ AssocDen out.1 out.2 (tableFrom (fun _ => none) L) ∧
      (∀ j T, AssocDen m j T → AssocDen out.1 j T) ∧
      (∀ j, out.1.count j = m.count j + if j = out.2 then 1 else 0) ∧
      (m.count out.2 ≠ 0 → AssocDen m out.2 (tableFrom (fun _ => none) L)) ∧
      ((∃ j, j ≠ -1 ∧ AssocDen m j (tableFrom (fun _ => none) L)) → m.count out.2 ≠ 0) := by
  have ii := i
  obtain ⟨Γ, leak, hl, i⟩ := i
  have hmap : assocMap ps = assocFold (fun _ => none) ps := rfl
  have hval : ∀ v, ValIs m.st (assocMap ps v) (tableFrom (fun _ => none) L v) := fun v =>
    tableFrom_is hL (fun v => Or.inl ⟨rfl, rfl⟩) v
  obtain ⟨v1, v2, v3⟩ := PairIs.vals hL
  have hnew : (⟨freeId m.assocs 0, assocMap ps, lastIndex m.st (-1) ps⟩ : Assoc).AOK m.st := by
    have := new_aok i.wf hL (A := ⟨freeId m.assocs 0, fun _ => none, -1⟩)
      ⟨⟨fun v hv => by simp [Assoc.dom] at hv, fun v hv => by simp [Assoc.dom] at hv,
        by show (-1 : Int) < _; omega, Or.inl rfl⟩, fun v e he => by simp at he⟩
    exact this
  have heq : ∀ p ∈ m.assocs, assocEq m.st.ord.numVars p.a.var (assocMap ps) = true ↔
      p.a.var = assocMap ps := fun p hp => assocEq_iff (i.assocs p hp).1.ok.rng hnew.ok.rng
  cases hb : bumpAssoc m.st.ord.numVars (assocMap ps) m.assocs with
  | some r =>
    obtain ⟨as, k⟩ := r
    rw [hb] at hout
    subst hout
    obtain ⟨p, hp, hk, he, hs, hm, hh⟩ := bumpAssoc_spec i.sorted hb
    have he := (heq p hp).1 he
    have hmem : ∀ q ∈ m.assocs, ∃ q' ∈ as, q'.a = q.a := by
      intro q hq
      by_cases hqk : q.a.id = k
      · have := sorted_unique i.sorted hp hq (by omega)
        subst this
        exact ⟨_, (hm _).2 (Or.inr rfl), rfl⟩
      · exact ⟨q, (hm q).2 (Or.inl ⟨hq, hqk⟩), rfl⟩
    have hmem' : ∀ q ∈ as, ∃ q' ∈ m.assocs, q'.a = q.a ∧ q'.refCount ≤ q.refCount := by
      intro q hq
      rcases (hm q).1 hq with ⟨hq, _⟩ | rfl
      · exact ⟨q, hq, rfl, Nat.le_refl _⟩
      · exact ⟨p, hp, rfl, by simp⟩
    have hinv : InvG Γ leak own { m with assocs := as } := by
      have := i.reassoc (s' := m.st) (c' := m.ca) (as' := as) (t' := m.temp) (k' := m.cur) (Γ' := Γ)
        (leak' := leak) (.refl _) (by
          have : Mgr.roots { m with assocs := as, temp := m.temp } leak = m.roots leak := by
            funext x; simp only [roots, rest, hh]
          rw [this]; exact i.ref) i.ca i.nand (fun q hq => by
            obtain ⟨q', h1, h2, h3⟩ := hmem' q hq
            obtain ⟨h4, h5⟩ := i.assocs q' h1
            rw [← h2]; exact ⟨h4, by omega⟩) hs i.temp i.tempId (by
            rcases i.cur with h | ⟨q, hq, h⟩
            · exact Or.inl h
            · obtain ⟨q', h1, h2⟩ := hmem q hq
              exact Or.inr ⟨q', h1, by rw [h2]; exact h⟩) (fun c h1 h2 h3 => i.fresh c ⟨h1, h2, fun q hq => by
                obtain ⟨q', h4, h5⟩ := hmem q hq
                rw [← h5]; exact h3 q' h4⟩)
      exact this
    have hk0 := (i.assocs p hp).1.id0
    have hden : AssocDen m k (tableFrom (fun _ => none) L) := by
      rw [← hk]
      exact assocDen_of_mem i.sorted hp hk0 (by rw [he]; exact hval)
    have hmono : ∀ j T, AssocDen m j T → AssocDen { m with assocs := as } j T := fun j T h =>
      assocDen_mono (m' := { m with assocs := as }) i.sorted hs (.refl _) rfl (fun q hq _ => hmem q hq) h
    refine ⟨Inv.weaken ⟨Γ, leak, hl, hinv⟩, ⟨fun _ _ _ h => h, rfl, fun _ => rfl, rfl, rfl, rfl, rfl, rfl,
      rfl, fun h => h, fun _ => rfl⟩, rfl, by simp only; omega, hmono _ _ hden, hmono, ?_, fun _ => hden,
      fun _ => ?_⟩
    · intro j
      simp only
      by_cases hj : j = k
      · rw [if_pos hj, hj]
        have e1 := count_mem i.sorted hp
        have e2 := count_mem (m := { m with assocs := as }) hs ((hm _).2 (Or.inr rfl))
        simp only [hk] at e1 e2
        rw [e1, e2]
      · rw [if_neg hj, Nat.add_zero]
        unfold count
        cases hf : m.assocs.find? fun p => p.a.id == j with
        | some q =>
          obtain ⟨a, b⟩ := (find_iff i.sorted).1 hf
          simp only
          rw [(find_iff hs).2 ⟨(hm q).2 (Or.inl ⟨a, by omega⟩), b⟩]
        | none =>
          have : (as.find? fun p => p.a.id == j) = none := by
            rw [List.find?_eq_none]
            intro q hq
            have h0 := List.find?_eq_none.1 hf
            rcases (hm q).1 hq with ⟨a, b⟩ | rfl
            · exact h0 q a
            · simp only [beq_iff_eq]; omega
          simp only
          rw [this]
    · simp only
      rw [← hk, count_mem i.sorted hp]
      have := (i.assocs p hp).2; omega
  | none =>
    rw [hb] at hout
    simp only at hout
    obtain ⟨f1, f2, f3, f4⟩ := freeId_spec (i := 0) i.sorted
      (fun p hp => by have := (i.assocs p hp).1.id0; omega)
    generalize hkk : freeId m.assocs 0 = k at hout f1 f2 f3 f4 hnew
    obtain ⟨A, hA⟩ : ∃ A : Assoc, A = ⟨k, assocMap ps, lastIndex m.st (-1) ps⟩ := ⟨_, rfl⟩
    rw [← hA] at hnew hout
    have hAid : A.id = k := by rw [hA]
    have hAvar : A.var = assocMap ps := by rw [hA]
    subst hout
    have hk4 : k < 4096 := by omega
    have hge : ∀ p ∈ m.assocs, ((0 : Nat) : Int) ≤ p.a.id := fun p hp => by
      have := (i.assocs p hp).1.id0; omega
    have hs : IdSorted (insertAssoc ⟨A, 1⟩ m.assocs 0) := insertAssoc_sorted i.sorted hge (by
      rw [hkk]; exact hAid)
    have hmem : ∀ {q}, q ∈ insertAssoc ⟨A, 1⟩ m.assocs 0 ↔ q = ⟨A, 1⟩ ∨ q ∈ m.assocs := mem_insertAssoc
    have code : ∀ b, b ≤ 0x8000 → A.opCode b = b + k := by
      intro b hb; simp only [Assoc.opCode, hAid]; omega
    -- the meaning of the new op codes
    obtain ⟨S0, hS0⟩ : ∃ S0 : Nat → BFn, ∀ S, A.Sub m.st S ↔ S = S0 := by
      refine ⟨fun v => (tableFrom (fun _ => none) L v).getD fun ρ => ρ v, fun S => ?_⟩
      constructor
      · intro h
        funext v
        rcases hval v with ⟨a, b⟩ | ⟨e, F, a, b, c⟩
        · rw [b]; exact (h v).2 (by rw [hAvar]; exact a)
        · rw [b]; exact ((h v).1 e (by rw [hAvar]; exact a)).unique i.wf c
      · rintro rfl v
        show (∀ e, _ → Rep _ _ ((tableFrom (fun _ => none) L v).getD fun ρ => ρ v)) ∧
          (_ → (tableFrom (fun _ => none) L v).getD (fun ρ => ρ v) = _)
        rcases hval v with ⟨a, b⟩ | ⟨e, F, a, b, c⟩
        · rw [b]
          refine ⟨fun e he => ?_, fun _ => rfl⟩
          rw [hAvar, a] at he; cases he
        · rw [b]
          refine ⟨fun e' he => ?_, fun he => ?_⟩
          · rw [hAvar, a] at he; cases he; exact c
          · rw [hAvar, a] at he; cases he
    obtain ⟨Γ', hΓ'⟩ : ∃ Γ' : Nat → BFn → BFn, Γ' = fun c =>
      if c = 0x4000 + k ∨ c = 0x5000 + k then exFn A.dom else if c = 0x8000 + k then substFn S0
      else Γ c := ⟨_, rfl⟩
    have same : ∀ c, c ≠ 0x4000 + k → c ≠ 0x5000 + k → c ≠ 0x8000 + k → Γ' c = Γ c := by
      intro c a b d
      rw [hΓ']; simp only
      rw [if_neg (by omega), if_neg d]
    have htop := i.top'
    have unused : ∀ c, c = 0x4000 + k ∨ c = 0x5000 + k ∨ c = 0x8000 + k → m.Unused c := by
      intro c hc
      refine ⟨by omega, by simp only [Cache.opNAND]; omega, fun p hp => ?_⟩
      obtain ⟨a, b, d, e⟩ := assocCodes (i.assocs p hp).1
      have h3 := f3 p hp
      have h0 := (i.assocs p hp).1.id0
      omega
    obtain ⟨leak', hleak'⟩ : ∃ leak' : Nat → Nat, leak' = fun x =>
      leak x + if pairs then dropped (fun _ => none) ps x else 0 := ⟨_, rfl⟩
    have hsum := fun x => assocFold_hits (n := m.st.ord.numVars) (ps := ps) (f := fun _ => none)
      (fun p hp => (v2 p hp).2) x
    have hnone : ∀ x, tabHits (fun _ => none) m.st.ord.numVars x = 0 := fun x =>
      sumTo_zero fun _ _ => rfl
    have hroots : ∀ x, Mgr.roots { m with assocs := insertAssoc ⟨A, 1⟩ m.assocs 0, temp := m.temp } leak' x
        = m.roots leak x + (tabHits (assocMap ps) m.st.ord.numVars x +
          if pairs then dropped (fun _ => none) ps x else 0) := by
      intro x
      simp only [roots, rest, insertAssoc_hits, hleak', hAvar]
      omega
    have href : (if pairs then icrAll m.st ps else m.st).RefOK
        (Mgr.roots { m with assocs := insertAssoc ⟨A, 1⟩ m.assocs 0, temp := m.temp } leak') := by
      cases hp : pairs with
      | true =>
        simp only [if_true]
        have := icrAll_ref i.ref v1
        have e : (Mgr.roots { m with assocs := insertAssoc ⟨A, 1⟩ m.assocs 0, temp := m.temp } leak') =
            fun x => m.roots leak x + valHits ps x := by
          funext x
          rw [hroots, hp]
          simp only [if_true]
          have := hsum x
          rw [hnone] at this
          rw [hmap]; omega
        rw [e]; exact this
      | false =>
        simp only [Bool.false_eq_true, if_false]
        refine i.ref.congr0 i.wf fun x hx => ?_
        rw [hroots, hp]
        have h2 := hsum x
        rw [hnone] at h2
        have h3 := valHits_one (h1 hp) hx
        rw [hmap]
        simp only [Bool.false_eq_true, if_false]; omega
    have hsame : m.st.Same (if pairs then icrAll m.st ps else m.st) := by
      split
      · exact icrAll_same
      · exact .refl _
    have hinv := i.reassoc (c' := m.ca) (t' := m.temp) (k' := m.cur) (Γ' := Γ')
      hsame href (i.ca.recode i.wf fun o => by
        by_cases ho : o = 0x4000 + k ∨ o = 0x5000 + k ∨ o = 0x8000 + k
        · exact Or.inl (i.fresh o (unused o ho))
        · exact Or.inr (same o (by omega) (by omega) (by omega)))
      (by rw [same _ (by simp only [Cache.opNAND]; omega) (by simp only [Cache.opNAND]; omega)
            (by simp only [Cache.opNAND]; omega)]; exact i.nand)
      (fun q hq => by
        rcases hmem.1 hq with rfl | hq
        · refine ⟨{ hnew with id0 := by rw [hAid]; omega, id1 := by rw [hAid]; omega, quant := ?_, relprod := ?_, subst := ?_ }, Nat.le_refl _⟩
          · rw [code _ (by decide), hΓ']; simp [Cache.opQUANT]
          · rw [code _ (by decide), hΓ']; simp [Cache.opRELPROD]
          · intro S hS
            rw [code _ (by decide), hΓ', (hS0 S).1 hS]
            show (if 0x8000 + k = 0x4000 + k ∨ 0x8000 + k = 0x5000 + k then _ else if 0x8000 + k = 0x8000 + k then _ else _) = _
            rw [if_neg (by omega), if_pos rfl]
        · obtain ⟨R, h5⟩ := i.assocs q hq
          obtain ⟨a, b, d, e⟩ := assocCodes R
          have h3 := f3 q hq
          have h0 := R.id0
          refine ⟨{ R.toAOK with id0 := R.id0, id1 := R.id1, quant := ?_, relprod := ?_, subst := ?_ }, h5⟩
          · rw [same _ (by omega) (by omega) (by omega)]; exact R.quant
          · rw [same _ (by omega) (by omega) (by omega)]; exact R.relprod
          · intro S hS; rw [same _ (by omega) (by omega) (by omega)]; exact R.subst S hS)
      hs i.temp i.tempId (by
        rcases i.cur with h | ⟨q, hq, h⟩
        · exact Or.inl h
        · exact Or.inr ⟨q, hmem.2 (Or.inr hq), h⟩)
      (fun c h1 h2 h3 => by
        have h4 := h3 _ (hmem.2 (Or.inl rfl))
        rw [code _ (by decide), code _ (by decide), code _ (by decide)] at h4
        simp only [Cache.opQUANT, Cache.opRELPROD, Cache.opVARSUBST] at h4
        rw [same _ (by omega) (by omega) (by omega)]
        exact i.fresh c ⟨h1, h2, fun q hq => h3 q (hmem.2 (Or.inr hq))⟩)
    have hno : ∀ j : Int, j ≠ -1 → ¬ AssocDen m j (tableFrom (fun _ => none) L) := by
      intro j hj h
      obtain ⟨q, h5, h6, h7⟩ := assocDen_mem i.sorted hj h
      have : q.a.var = assocMap ps := by
        funext v; exact (h7 v).canon i.wf (hval v)
      have h8 := bumpAssoc_none hb q h5
      rw [(heq q h5).2 this] at h8; cases h8
    have hcnt : m.count k = 0 := count_none f3
    refine ⟨⟨Γ', leak', ?_, hinv⟩, ?_, rfl, by simp only; omega, ?_, ?_, ?_, fun h => absurd hcnt h, ?_⟩
    · intro h
      simp only [Bool.or_eq_false_iff] at h
      rw [hleak', hl h.1]
      funext x
      cases hp : pairs with
      | false => simp
      | true =>
        rw [hp] at h
        simp only [Bool.true_and, Bool.not_eq_false', decide_eq_true_eq] at h
        simp only [if_true, Nat.zero_add]
        exact dropped_zero (by rw [v3]; exact h.2) (fun _ _ => rfl) x
    · refine ⟨?_, by show Order.numVars _ = _; rw [hsame.ord], fun _ => hsame.ord, rfl, rfl, rfl, rfl, rfl, rfl, fun h => h, fun _ => rfl⟩
      rintro h _ F ⟨e, he, r⟩
      exact ⟨e, he, r.mono hsame.le⟩
    · have hd := assocDen_of_mem (m := { m with
          assocs := insertAssoc ⟨A, 1⟩ m.assocs 0
          st := if pairs then icrAll m.st ps else m.st }) (p := ⟨A, 1⟩) hs (hmem.2 (Or.inl rfl)) (by
        show 0 ≤ A.id; rw [hAid]; omega) (S := tableFrom (fun _ => none) L) (fun v => by
          show ValIs _ (A.var v) _
          rw [hAvar]; exact (hval v).map fun _ _ r => r.mono hsame.le)
      simp only [hAid] at hd ⊢
      exact hd
    · intro j T h
      exact assocDen_mono (m' := { m with
          assocs := insertAssoc ⟨A, 1⟩ m.assocs 0
          st := if pairs then icrAll m.st ps else m.st }) i.sorted hs hsame.le rfl (fun q hq _ => ⟨q, hmem.2 (Or.inr hq), rfl⟩) h
    · intro j
      simp only
      by_cases hj : j = k
      · rw [if_pos hj, hj, hcnt]
        have := count_mem (m := { m with
          assocs := insertAssoc ⟨A, 1⟩ m.assocs 0
          st := if pairs then icrAll m.st ps else m.st }) (p := ⟨A, 1⟩) hs (hmem.2 (Or.inl rfl))
        simp only [hAid] at this
        rw [this]
      · rw [if_neg hj, Nat.add_zero]
        unfold count
        cases hf : m.assocs.find? fun p => p.a.id == j with
        | some q =>
          obtain ⟨a, b⟩ := (find_iff i.sorted).1 hf
          simp only
          rw [(find_iff hs).2 ⟨hmem.2 (Or.inr a), b⟩]
        | none =>
          have : ((insertAssoc ⟨A, 1⟩ m.assocs 0).find? fun p => p.a.id == j) = none := by
            rw [List.find?_eq_none]
            intro q hq
            have h0 := List.find?_eq_none.1 hf
            rcases hmem.1 hq with rfl | hq
            · simp only [beq_iff_eq, hAid]; omega
            · exact h0 q hq
          simp only
          rw [this]
    · rintro ⟨j, hj, h⟩
      exact absurd h (hno j hj)

theorem values_one : ∀ es, ∀ p ∈ assocPairs false es, p.2 = one
  | [], p, h => by simp [assocPairs] at h
  | e :: es, p, h => by
    simp only [assocPairs, List.mem_cons] at h
    rcases h with rfl | h
    · rfl
    · exact values_one es p h

/-- `Cal_AssociationInit`. -/
theorem associationInit_ok (S : E.Sound) (i : m.Inv own lk) {hs : List Handle} {Fs} {pairs : Bool} {L}
    (hl : ∀ h ∈ hs, UTab.Live own h) (hd : F2 (Den m) hs Fs) (lg : Legal pairs Fs L)
    (hlen : m.assocs.length < 4096) :
    ∃ m' k, m.associationInit E hs pairs = some (m', k) ∧
      m'.Inv own (lk || (pairs && !decide (L.map (·.1)).Nodup)) ∧ Frame own m m' ∧
      m'.cur = m.cur ∧ 0 ≤ k ∧ AssocDen m' k (tableFrom (fun _ => none) L) ∧
      (∀ j T, AssocDen m j T → AssocDen m' j T) ∧
      (∀ j, m'.count j = m.count j + if j = k then 1 else 0) ∧
      (m.count k ≠ 0 → AssocDen m k (tableFrom (fun _ => none) L)) ∧
      ((∃ j, j ≠ -1 ∧ AssocDen m j (tableFrom (fun _ => none) L)) → m.count k ≠ 0) := by
  obtain ⟨m1, i1, p1, d1, h1, -⟩ := checkAssoc_ok (pairs := pairs) S i hl hd
  obtain ⟨es, h2, r2⟩ := internals_ok d1
  have hL := legal_pairs i1.wf (entries_rep (pairs := pairs) r2) lg
  have hlen1 : m1.assocs.length < 4096 := by rw [← p1.assocs.length]; exact hlen
  obtain ⟨a, b, c, d, e, f, g, h, j⟩ := register_ok (pairs := pairs) i1 hL (fun hp => by
    subst hp; exact values_one es) hlen1 rfl
  refine ⟨_, _, ?_, a, p1.frame.trans b, c.trans p1.cur, d, e, fun j T hj => f j T (p1.assocDen hj),
    fun j => by rw [g, p1.count], fun hk => ?_, fun hk => ?_⟩
  · unfold associationInit
    simp only [h1 L lg, h2]
    split <;> simp_all
  · rw [← p1.assocDen_iff i i1]; exact h (by rw [p1.count]; exact hk)
  · obtain ⟨j', h5, h6⟩ := hk
    have := j ⟨j', h5, p1.assocDen h6⟩
    rw [p1.count] at this; exact this

/-- ... with a first entry that is not a variable. -/
theorem associationInit_illegal (S : E.Sound) (i : m.Inv own lk) {hs : List Handle} {Fs}
    (hl : ∀ h ∈ hs, UTab.Live own h) (hd : F2 (Den m) hs Fs) (lg : Illegal Fs) :
    ∃ m', m.associationInit E hs true = some (m', -1) ∧ m'.Inv own lk ∧ Pres own 0 m m' := by
  obtain ⟨m1, i1, p1, d1, -, h1⟩ := checkAssoc_ok (pairs := true) S i hl hd
  exact ⟨m1, by unfold associationInit; rw [h1 rfl lg], i1, p1⟩

end Mgr

end Cal
