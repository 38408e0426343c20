import Verif.ApiAssoc3

/-!
# Associations through the API: giving up, switching, the temporary association
-/

namespace Cal

namespace Mgr

variable {Γ : Nat → BFn → BFn} {leak own : Nat → Nat} {m : Mgr} {lk : Bool} {E : Env}

theorem assoc_zero {s : Store} {A : Assoc} (h : A.AOK s) : A.var 0 = none := by
  cases hx : A.var 0 with
  | none => rfl
  | some e => have := (h.ok.rng 0 (by simp [Assoc.dom, hx])).1; omega

theorem InvG.setCur (i : InvG Γ leak own m) {k : Int} (hk : k = -1 ∨ ∃ p ∈ m.assocs, p.a.id = k) :
    InvG Γ leak own { m with cur := k } :=
  ⟨i.wf, i.num, i.ref, i.ut, i.uok, i.var, i.var0, i.ca, i.nand, i.assocs, i.sorted, i.temp,
    i.tempId, hk, i.top, i.top', i.fresh⟩

theorem quit_ok (i : m.Inv own lk) {j : Int} (hc : m.cur ≠ j ∨ j = -1) {m' : Mgr}
    (hout : m' = match dropAssoc j m.assocs with
      | none => m
      | some (as, none) => { m with assocs := as }
      | some (as, some A) =>
        { m with assocs := as, st := dcrVals m.st A.var, ca := m.ca.flushAssoc j.toNat }) :
    m'.Inv own lk ∧ Frame own m m' ∧ m'.cur = m.cur ∧
      (∀ l, m'.count l = if l = j then m.count j - 1 else m.count l) ∧
      (∀ l T, l ≠ j ∨ 1 < m.count j ∨ l = -1 → AssocDen m l T → AssocDen m' l T) ∧
      (j ≠ -1 → m.count j ≤ 1 → ∀ T, ¬ AssocDen m' j T) := by
  have ii := i
  obtain ⟨Γ, leak, hl, i⟩ := i
  have gone : ∀ {m' : Mgr}, (∀ q ∈ m'.assocs, q.a.id ≠ j) → IdSorted m'.assocs →
      j ≠ -1 → m.count j ≤ 1 → ∀ T, ¬ AssocDen m' j T := by
    intro m' h hs hj _ T hT
    obtain ⟨p, hp, h1, -⟩ := assocDen_mem hs hj hT
    exact h p hp h1
  cases hd : dropAssoc j m.assocs with
  | none =>
    rw [hd] at hout
    subst hout
    have h0 := dropAssoc_none hd
    have hcnt := count_none h0
    refine ⟨ii, (Pres.refl _ _).frame, rfl, fun l => ?_, fun _ _ _ h => h, gone h0 i.sorted⟩
    split
    · rename_i h; rw [h, hcnt]
    · rfl
  | some r =>
    obtain ⟨as, o⟩ := r
    rw [hd] at hout
    obtain ⟨p, hp, hk, hs, h5⟩ := dropAssoc_spec i.sorted hd
    have hcp : m.count j = p.refCount := by rw [← hk]; exact count_mem i.sorted hp
    have hp1 := (i.assocs p hp).2
    have hj0 := (i.assocs p hp).1.id0
    have hcur : m.cur = -1 ∨ ∃ q ∈ as, q.a.id = m.cur := by
      rcases i.cur with h | ⟨q, hq, h⟩
      · exact Or.inl h
      · refine Or.inr ⟨q, ?_, h⟩
        have : q.a.id ≠ j := by omega
        rcases h5 with ⟨-, -, h5, -⟩ | ⟨-, -, h5, -⟩
        · exact (h5 q).2 ⟨hq, this⟩
        · exact (h5 q).2 (Or.inl ⟨hq, this⟩)
    -- counts
    have cnt : ∀ {m' : Mgr}, m'.assocs = as → ∀ l, m'.count l = if l = j then m.count j - 1 else m.count l := by
      intro m' hm' l
      by_cases hlj : l = j
      · rw [if_pos hlj, hcp, hlj]
        rcases h5 with ⟨-, h6, h5, -⟩ | ⟨-, -, h5, -⟩
        · rw [h6]
          exact count_none (by rw [hm']; exact fun q hq => ((h5 q).1 hq).2)
        · have := count_mem (m := m') (p := { p with refCount := p.refCount - 1 }) (by rw [hm']; exact hs)
            (by rw [hm']; exact (h5 _).2 (Or.inr rfl))
          simp only [hk] at this
          exact this
      · rw [if_neg hlj]
        unfold count
        rw [hm']
        cases hf : m.assocs.find? fun p => p.a.id == l with
        | some q =>
          obtain ⟨a, b⟩ := (find_iff i.sorted).1 hf
          have : q ∈ as := by
            rcases h5 with ⟨-, -, h5, -⟩ | ⟨-, -, h5, -⟩
            · exact (h5 q).2 ⟨a, by omega⟩
            · exact (h5 q).2 (Or.inl ⟨a, by omega⟩)
          rw [(find_iff hs).2 ⟨this, b⟩]
        | none =>
          have : (as.find? fun p => p.a.id == l) = none := by
            rw [List.find?_eq_none]
            intro q hq
            have h0 := List.find?_eq_none.1 hf
            rcases h5 with ⟨-, -, h5, -⟩ | ⟨-, -, h5, -⟩
            · exact h0 q ((h5 q).1 hq).1
            · rcases (h5 q).1 hq with ⟨a, -⟩ | rfl
              · exact h0 q a
              · simp only [beq_iff_eq]; omega
          rw [this]
    rcases h5 with ⟨rfl, h6, h5, h7⟩ | ⟨rfl, h6, h5, h7⟩
    · -- unlinked
      simp only at hout
      subst hout
      have R := (i.assocs p hp).1
      obtain ⟨ca, cb, cd, ce⟩ := assocCodes R
      rw [hk] at ca cb cd ce
      obtain ⟨Γ', hΓ'⟩ : ∃ Γ' : Nat → BFn → BFn, Γ' = fun c =>
        if c = 0x4000 + j.toNat ∨ c = 0x5000 + j.toNat ∨ c = 0x8000 + j.toNat then fun _ => noFn
        else Γ c := ⟨_, rfl⟩
      have same : ∀ c, c ≠ 0x4000 + j.toNat → c ≠ 0x5000 + j.toNat → c ≠ 0x8000 + j.toNat →
          Γ' c = Γ c := by
        intro c a b d
        rw [hΓ']; simp only
        rw [if_neg (by omega)]
      have hr0 : Mgr.roots { m with assocs := as, temp := m.temp } leak = fun x =>
          m.ut.hits x + (256 * tabHits m.vars m.st.ord.numVars x + listHits as m.st.ord.numVars x +
            tabHits m.temp.var m.st.ord.numVars x + leak x) := rfl
      obtain ⟨hsame, href⟩ := dcrVals_ok (assoc_zero R.toAOK) i.ref
        (ext' := Mgr.roots { m with assocs := as, temp := m.temp } leak) (fun x _ => by
          rw [hr0]
          simp only [roots, rest, h7]; omega)
      have href' := href.congr0 (hsame.wf i.wf)
        (ext' := Mgr.roots { m with assocs := as, temp := m.temp } leak) (fun x hx => by rw [if_neg hx])
      have hinv := i.reassoc (c' := m.ca.flushAssoc j.toNat) (t' := m.temp) (k' := m.cur) (Γ' := Γ')
        (leak' := leak) hsame href' (i.ca.drop _ fun b e hb he => by
          have ve := i.ca.ent b e hb
          refine ve.recode ?_
          simp only [Bool.or_eq_false_iff, beq_eq_false_iff_ne, Cache.opQUANT, Cache.opRELPROD,
            Cache.opVARSUBST] at he
          exact same _ (by omega) (by omega) (by omega))
        (by rw [same _ (by simp only [Cache.opNAND]; omega) (by simp only [Cache.opNAND]; omega)
              (by simp only [Cache.opNAND]; omega)]; exact i.nand)
        (fun q hq => by
          obtain ⟨hq, hne⟩ := (h5 q).1 hq
          obtain ⟨Q, h8⟩ := i.assocs q hq
          obtain ⟨a, b, d, e⟩ := assocCodes Q
          have h0 := Q.id0
          refine ⟨{ Q.toAOK with id0 := Q.id0, id1 := Q.id1, quant := ?_, relprod := ?_, subst := ?_ }, h8⟩
          · rw [same _ (by omega) (by omega) (by omega)]; exact Q.quant
          · rw [same _ (by omega) (by omega) (by omega)]; exact Q.relprod
          · intro S hS; rw [same _ (by omega) (by omega) (by omega)]; exact Q.subst S hS)
        hs i.temp i.tempId hcur
        (fun c h1 h2 h3 => by
          by_cases hcc : c = 0x4000 + j.toNat ∨ c = 0x5000 + j.toNat ∨ c = 0x8000 + j.toNat
          · rw [hΓ']; simp only [if_pos hcc]
          · rw [same _ (by omega) (by omega) (by omega)]
            refine i.fresh c ⟨h1, h2, fun q hq => ?_⟩
            by_cases hqj : q.a.id = j
            · have := sorted_unique i.sorted hp hq (by omega)
              subst this
              simp only [Cache.opQUANT, Cache.opRELPROD, Cache.opVARSUBST] at ca cb cd ⊢
              rw [ca, cb, cd]; omega
            · exact h3 q ((h5 q).2 ⟨hq, hqj⟩))
      refine ⟨⟨Γ', leak, hl, hinv⟩, ?_, rfl, cnt rfl, fun l T hl h => ?_,
        gone (fun q hq => ((h5 q).1 hq).2) hs⟩
      · refine ⟨?_, by show Order.numVars _ = _; rw [hsame.ord], fun _ => hsame.ord, rfl, rfl, rfl, rfl, rfl, rfl, fun h => h, fun _ => rfl⟩
        rintro h _ F ⟨e, he, r⟩
        exact ⟨e, he, r.mono hsame.le⟩
      · refine assocDen_mono (m' := { m with assocs := as, st := dcrVals m.st p.a.var, ca := m.ca.flushAssoc j.toNat }) i.sorted hs hsame.le rfl (fun q hq hqi => ⟨q, (h5 q).2 ⟨hq, ?_⟩, rfl⟩) h
        have := (i.assocs q hq).1.id0
        omega
    · simp only at hout
      subst hout
      have hmem : ∀ q ∈ m.assocs, ∃ q' ∈ as, q'.a = q.a := by
        intro q hq
        by_cases hqk : q.a.id = j
        · have := sorted_unique i.sorted hp hq (by omega)
          subst this
          exact ⟨_, (h5 _).2 (Or.inr rfl), rfl⟩
        · exact ⟨q, (h5 q).2 (Or.inl ⟨hq, hqk⟩), rfl⟩
      have hinv := i.reassoc (s' := m.st) (c' := m.ca) (as' := as) (t' := m.temp) (k' := m.cur) (Γ' := Γ)
        (leak' := leak) (.refl _) (by
          have : Mgr.roots { m with assocs := as, temp := m.temp } leak = m.roots leak := by
            funext x; simp only [roots, rest, h7]
          rw [this]; exact i.ref) i.ca i.nand (fun q hq => by
            rcases (h5 q).1 hq with ⟨hq, -⟩ | rfl
            · exact i.assocs q hq
            · exact ⟨(i.assocs p hp).1, by simp only; omega⟩) hs i.temp i.tempId hcur
          (fun c h1 h2 h3 => i.fresh c ⟨h1, h2, fun q hq => by
                obtain ⟨q', h4, h5⟩ := hmem q hq
                rw [← h5]; exact h3 q' h4⟩)
      refine ⟨⟨Γ, leak, hl, hinv⟩, ⟨fun _ _ _ h => h, rfl, fun _ => rfl, rfl, rfl, rfl, rfl, rfl,
        rfl, fun h => h, fun _ => rfl⟩, rfl, cnt rfl, fun l T _ h => ?_, fun _ hle => by omega⟩
      exact assocDen_mono (m' := { m with assocs := as }) i.sorted hs (.refl _) rfl (fun q hq _ => hmem q hq) h

/-- `Cal_AssociationQuit`. -/
theorem associationQuit_ok (i : m.Inv own lk) (j : Int) :
    (m.associationQuit j).Inv own lk ∧ Frame own m (m.associationQuit j) ∧
      (m.associationQuit j).cur = (if m.cur = j then -1 else m.cur) ∧
      (∀ l, (m.associationQuit j).count l = if l = j then m.count j - 1 else m.count l) ∧
      (∀ l T, l ≠ j ∨ 1 < m.count j ∨ l = -1 → AssocDen m l T → AssocDen (m.associationQuit j) l T) ∧
      (j ≠ -1 → m.count j ≤ 1 → ∀ T, ¬ AssocDen (m.associationQuit j) j T) := by
  by_cases hc : m.cur = j
  · rw [if_pos hc]
    obtain ⟨Γ, leak, hl, i⟩ := i
    have i1 : (Mgr.Inv own lk { m with cur := -1 }) := ⟨Γ, leak, hl, i.setCur (Or.inl rfl)⟩
    obtain ⟨a, b, c, d, e, f⟩ := quit_ok i1 (j := j) (m' := m.associationQuit j) (by simp only; omega)
      (by unfold associationQuit; rw [if_pos hc]; rfl)
    refine ⟨a, ⟨b.fns, b.nv, b.ord, b.top, b.gcMode, b.nodeLimit, b.technique, b.method, b.threshold, b.ovf, b.noLimit⟩, c, d, e, f⟩
  · rw [if_neg hc]
    exact quit_ok i (j := j) (m' := m.associationQuit j) (Or.inl hc)
      (by unfold associationQuit; rw [if_neg hc]; rfl)

/-- `Cal_AssociationSetCurrent`. -/
theorem associationSetCurrent_ok (i : m.Inv own lk) (j : Int) :
    (m.associationSetCurrent j).2 = m.cur ∧ (m.associationSetCurrent j).1.Inv own lk ∧
    Frame own m (m.associationSetCurrent j).1 ∧
    (m.associationSetCurrent j).1.cur = (if m.count j = 0 then -1 else j) ∧
    (∀ l, (m.associationSetCurrent j).1.count l = m.count l) ∧
    (∀ l T, AssocDen m l T → AssocDen (m.associationSetCurrent j).1 l T) := by
  obtain ⟨Γ, leak, hl, i⟩ := i
  have hf : Frame own m { m with cur := -1 } := ⟨fun _ _ _ h => h, rfl, fun _ => rfl, rfl, rfl, rfl, rfl, rfl,
        rfl, fun h => h, fun _ => rfl⟩
  have hf' : Frame own m { m with cur := j } := ⟨fun _ _ _ h => h, rfl, fun _ => rfl, rfl, rfl, rfl, rfl, rfl,
        rfl, fun h => h, fun _ => rfl⟩
  unfold associationSetCurrent
  cases hfd : m.assocs.find? fun p => p.a.id == j with
  | none =>
    rw [if_neg (by simp)]
    refine ⟨rfl, ⟨Γ, leak, hl, i.setCur (Or.inl rfl)⟩, hf, ?_, fun _ => rfl, fun _ _ h => h⟩
    have : m.count j = 0 := by unfold count; rw [hfd]
    rw [if_pos this]
  | some p =>
    obtain ⟨a, b⟩ := (find_iff i.sorted).1 hfd
    have h0 := (i.assocs p a).1.id0
    have h1 := (i.assocs p a).2
    rw [if_pos ⟨by omega, rfl⟩]
    refine ⟨rfl, ⟨Γ, leak, hl, i.setCur (Or.inr ⟨p, a, b⟩)⟩, hf', ?_, fun _ => rfl, fun _ _ h => h⟩
    have : m.count j = p.refCount := by rw [← b]; exact count_mem i.sorted a
    rw [if_neg (by omega)]

/-! ## The temporary association -/

theorem temp_frame {s' : Store} {t' : Assoc} (h : m.st.Same s') :
    Frame own m { m with st := s', temp := t' } := by
  refine ⟨?_, by show s'.ord.numVars = _; rw [h.ord], fun _ => h.ord, rfl, rfl, rfl, rfl, rfl, rfl, fun h => h, fun _ => rfl⟩
  rintro x _ F ⟨e, he, r⟩
  exact ⟨e, he, r.mono h.le⟩

theorem InvG.setTemp (i : InvG Γ leak own m) {s' : Store} {t' : Assoc} (h : m.st.Same s')
    (r : s'.RefOK (Mgr.roots { m with temp := t' } leak)) (ht : t'.AOK m.st) (hti : t'.id = -1) :
    InvG Γ leak own { m with st := s', temp := t' } := by
  have := i.reassoc (s' := s') (c' := m.ca) (as' := m.assocs) (t' := t') (k' := m.cur) (Γ' := Γ)
    (leak' := leak) h r i.ca i.nand i.assocs i.sorted ht hti i.cur (fun c a b d => i.fresh c ⟨a, b, d⟩)
  exact this

theorem temp_others (hs : IdSorted m.assocs) {s' : Store} {t' : Assoc} (h : m.st.Same s') :
    ∀ l T, l ≠ -1 → AssocDen m l T → AssocDen { m with st := s', temp := t' } l T := by
  intro l T hl hT
  obtain ⟨p, h2, h3, h4⟩ := assocDen_mem hs hl hT
  refine ⟨p.a, ?_, fun v => (h4 v).map fun _ _ r => r.mono h.le⟩
  unfold assoc
  rw [if_neg hl, (find_iff hs).2 ⟨h2, h3⟩]; rfl

/-- The changes to the temporary association keep everything else. -/
structure TempKept (own : Nat → Nat) (m m' : Mgr) : Prop where
  frame : Frame own m m'
  cur : m'.cur = m.cur
  count : ∀ l, m'.count l = m.count l
  others : ∀ l T, l ≠ -1 → AssocDen m l T → AssocDen m' l T

theorem TempKept.trans {m m1 m2 : Mgr} (h : TempKept own m m1) (g : TempKept own m1 m2) :
    TempKept own m m2 :=
  ⟨h.frame.trans g.frame, g.cur.trans h.cur, fun l => (g.count l).trans (h.count l),
    fun l T a b => g.others l T a (h.others l T a b)⟩

theorem TempKept.ofPres {m m1 : Mgr} (p : Pres own 0 m m1) : TempKept own m m1 :=
  ⟨p.frame, p.cur, p.count, fun _ _ _ h => p.assocDen h⟩

theorem tempQuit_ok (i : m.Inv own lk) : m.tempQuit.Inv own lk ∧ TempKept own m m.tempQuit ∧
    AssocDen m.tempQuit (-1) (fun _ => none) := by
  obtain ⟨Γ, leak, hl, i⟩ := i
  have hv : (fun v => if 1 ≤ v ∧ v ≤ m.st.ord.numVars then none else m.temp.var v) = fun _ => none := by
    funext v
    split
    · rfl
    · rename_i h
      cases hx : m.temp.var v with
      | none => rfl
      | some e => exact absurd (i.temp.ok.rng v (by simp [Assoc.dom, hx])) h
  have hq : m.tempQuit = { m with
      st := dcrVals m.st m.temp.var
      temp := { m.temp with
        var := fun _ => none
        last := -1 } } := by
    unfold tempQuit; rw [hv]
  have hnone : ∀ x, tabHits (fun _ => none) m.st.ord.numVars x = 0 := fun x => sumTo_zero fun _ _ => rfl
  obtain ⟨hsame, href⟩ := dcrVals_ok (assoc_zero i.temp) i.ref
    (ext' := Mgr.roots { m with temp := { m.temp with var := fun _ => none, last := -1 } } leak) (fun x _ => by
      simp only [roots, rest, hnone]; omega)
  have href' := href.congr0 (hsame.wf i.wf)
    (ext' := Mgr.roots { m with temp := { m.temp with var := fun _ => none, last := -1 } } leak)
    (fun x hx => by rw [if_neg hx])
  have hinv := i.setTemp hsame href' ⟨⟨fun v hv => by simp [Assoc.dom] at hv,
    fun v hv => by simp [Assoc.dom] at hv, by show (-1 : Int) < _; omega, Or.inl rfl⟩,
    fun v e he => by simp at he⟩ i.tempId
  rw [hq]
  exact ⟨⟨Γ, leak, hl, hinv⟩, ⟨temp_frame hsame, rfl, fun _ => rfl, temp_others i.sorted hsame⟩,
    _, rfl, fun v => Or.inl ⟨rfl, rfl⟩⟩

theorem augment_fold {pairs : Bool} {n : Nat} : ∀ {ps : List (Edge × Edge)} {s : Store} {A : Assoc}
    {base : Nat → Nat}, s.WF → n = s.ord.numVars →
    s.RefOK (fun x => base x + tabHits A.var n x) → (∀ p ∈ ps, s.EOK p.2) →
    (∀ p ∈ ps, p.1.id ≤ n) → (pairs = false → ∀ p ∈ ps, p.2 = one) →
    s.Same (ps.foldl (augmentOne pairs) (s, A)).1 ∧
    (ps.foldl (augmentOne pairs) (s, A)).2 = ⟨A.id, assocFold A.var ps, lastIndex s A.last ps⟩ ∧
    (ps.foldl (augmentOne pairs) (s, A)).1.RefOK (fun x => base x + tabHits (assocFold A.var ps) n x)
  | [], s, A, base, _, _, r, _, _, _ => ⟨.refl _, rfl, r⟩
  | p :: ps, s, A, base, w, hn, r, hv, hid, h1 => by
    have hp := hid p (by simp)
    -- after the decrement
    obtain ⟨s1, hs1⟩ : ∃ s1 : Store, s1 = (match A.var p.1.id with | some e => s.dcr e | none => s) :=
      ⟨_, rfl⟩
    have hT := fun o x => tabHits_upd (f := A.var) hp o x
    have st1 : s.Same s1 ∧ s1.RefOK (fun x => base x + tabHits (upd A.var p.1.id none) n x) := by
      cases ho : A.var p.1.id with
      | none =>
        rw [ho] at hs1
        subst hs1
        refine ⟨.refl _, ?_⟩
        have : upd A.var p.1.id none = A.var := by
          funext v
          by_cases hvv : v = p.1.id
          · subst hvv; rw [upd_same, ho]
          · rw [upd_ne _ _ hvv]
        rw [this]; exact r
      | some e =>
        rw [ho] at hs1
        subst hs1
        refine ⟨.dcr _ _, UTab.RefOK_dcr r e (fun x _ => ?_) (fun x hx hd => ?_)⟩
        · have := hT none x
          simp only [ho, optHits] at this; omega
        · have h2 := r.ext0 x hx hd
          have := hT none x
          simp only [ho, optHits] at this h2 ⊢; omega
    obtain ⟨same1, r1⟩ := st1
    have w1 := same1.wf w
    obtain ⟨s2, hs2⟩ : ∃ s2 : Store, s2 = (if pairs then s1.icr p.2 else s1) := ⟨_, rfl⟩
    have hup : ∀ x, tabHits (upd A.var p.1.id (some p.2)) n x =
        tabHits (upd A.var p.1.id none) n x + hits p.2 x := by
      intro x
      have e1 := hT (some p.2) x
      have e2 := hT none x
      simp only [optHits] at e1 e2 ⊢
      omega
    have st2 : s1.Same s2 ∧ s2.RefOK (fun x => base x + tabHits (upd A.var p.1.id (some p.2)) n x) := by
      cases hpp : pairs with
      | true =>
        rw [hpp] at hs2
        simp only [if_true] at hs2
        subst hs2
        refine ⟨.icr _ _, UTab.RefOK_icr r1 p.2 (fun x _ => ?_) (fun x hx hd => ?_)⟩
        · rw [hup]; omega
        · have h2 := r1.ext0 x hx hd
          have h3 := EOK.hits_none ((same1.eok _).2 (hv p (by simp))) hx hd
          rw [hup]; omega
      | false =>
        rw [hpp] at hs2
        simp only [Bool.false_eq_true, if_false] at hs2
        subst hs2
        refine ⟨.refl _, r1.congr0 w1 fun x hx => ?_⟩
        rw [hup, h1 hpp p (by simp)]
        simp [hits, Ne.symm hx]
    obtain ⟨same2, r2⟩ := st2
    have same := same1.trans same2
    have hstep : augmentOne pairs (s, A) p = (s2, { A with
        var := upd A.var p.1.id (some p.2)
        last := if (s.elvl p.1 : Int) > A.last then (s.elvl p.1 : Int) else A.last }) := by
      rw [hs2, hs1]; rfl
    have ih := augment_fold (pairs := pairs) (ps := ps) (s := s2) (A := { A with
        var := upd A.var p.1.id (some p.2)
        last := if (s.elvl p.1 : Int) > A.last then (s.elvl p.1 : Int) else A.last }) (base := base)
      (same2.wf w1) (by rw [same.ord]; exact hn) r2
      (fun q hq => (same.eok _).2 (hv q (by simp [hq]))) (fun q hq => hid q (by simp [hq]))
      (fun hf q hq => h1 hf q (by simp [hq]))
    rw [List.foldl_cons, hstep]
    refine ⟨same.trans ih.1, ?_, ih.2.2⟩
    rw [ih.2.1]
    simp only [assocFold, lastIndex, List.foldl_cons]
    congr 1
    have : ∀ p : Edge, s2.elvl p = s.elvl p := fun p => by simp only [Store.elvl, same.ord]
    simp only [this]

/-- `Cal_TempAssociationAugment`. -/
theorem tempAugment_ok (S : E.Sound) (i : m.Inv own lk) {hs : List Handle} {Fs} {pairs : Bool} {L T}
    (hl : ∀ h ∈ hs, UTab.Live own h) (hd : F2 (Den m) hs Fs) (lg : Legal pairs Fs L)
    (hT : AssocDen m (-1) T) :
    ∃ m', m.tempAugment E hs pairs = some m' ∧ m'.Inv own lk ∧ TempKept own m m' ∧
      AssocDen m' (-1) (tableFrom T L) := by
  obtain ⟨m1, i1, p1, d1, h1, -⟩ := checkAssoc_ok (pairs := pairs) S i hl hd
  obtain ⟨es, h2, r2⟩ := internals_ok d1
  have hL := legal_pairs i1.wf (entries_rep (pairs := pairs) r2) lg
  have hT1 := p1.assocDen hT
  obtain ⟨Γ, leak, hlk, i1⟩ := i1
  obtain ⟨v1, v2, v3⟩ := PairIs.vals hL
  have hroots : m1.st.RefOK (fun x => (m1.ut.hits x + (256 * tabHits m1.vars m1.st.ord.numVars x +
      listHits m1.assocs m1.st.ord.numVars x + leak x)) + tabHits m1.temp.var m1.st.ord.numVars x) := by
    have := i1.ref
    have e : m1.roots leak = (fun x => (m1.ut.hits x + (256 * tabHits m1.vars m1.st.ord.numVars x +
      listHits m1.assocs m1.st.ord.numVars x + leak x)) + tabHits m1.temp.var m1.st.ord.numVars x) := by
      funext x; simp only [roots, rest]; omega
    rw [← e]; exact this
  obtain ⟨f1, f2, f3⟩ := augment_fold (pairs := pairs) i1.wf rfl hroots v1 (fun p hp => (v2 p hp).2)
    (fun hp => by subst hp; exact values_one es)
  have hinv := i1.setTemp (t' := ⟨m1.temp.id, assocFold m1.temp.var (assocPairs pairs es), lastIndex m1.st m1.temp.last (assocPairs pairs es)⟩)
    f1 (by
      refine f3.congr0 (f1.wf i1.wf) fun x _ => ?_
      simp only [roots, rest]; omega) (new_aok i1.wf hL i1.temp) i1.tempId
  rw [← f2] at hinv
  refine ⟨_, by unfold tempAugment; simp only [h1 L lg, h2], ⟨Γ, leak, hlk, hinv⟩,
    (TempKept.ofPres p1).trans ⟨temp_frame f1, rfl, fun _ => rfl, temp_others i1.sorted f1⟩, ?_⟩
  obtain ⟨A, hA, hv⟩ := hT1
  simp only [assoc, if_true, Option.some.injEq] at hA
  subst hA
  refine ⟨_, rfl, fun v => ?_⟩
  simp only [f2]
  exact (tableFrom_is hL hv v).map fun _ _ r => r.mono f1.le

theorem tempAugment_illegal (S : E.Sound) (i : m.Inv own lk) {hs : List Handle} {Fs}
    (hl : ∀ h ∈ hs, UTab.Live own h) (hd : F2 (Den m) hs Fs) (lg : Illegal Fs) :
    ∃ m', m.tempAugment E hs true = some m' ∧ m'.Inv own lk ∧ Pres own 0 m m' := by
  obtain ⟨m1, i1, p1, d1, -, h1⟩ := checkAssoc_ok (pairs := true) S i hl hd
  exact ⟨m1, by unfold tempAugment; rw [h1 rfl lg], i1, p1⟩

/-- `Cal_TempAssociationInit`. -/
theorem tempInit_ok (S : E.Sound) (i : m.Inv own lk) {hs : List Handle} {Fs} {pairs : Bool} {L}
    (hl : ∀ h ∈ hs, UTab.Live own h) (hd : F2 (Den m) hs Fs) (lg : Legal pairs Fs L) :
    ∃ m', m.tempInit E hs pairs = some m' ∧ m'.Inv own lk ∧ TempKept own m m' ∧
      AssocDen m' (-1) (tableFrom (fun _ => none) L) := by
  obtain ⟨i1, k1, d1⟩ := tempQuit_ok i
  have hd1 : F2 (Den m.tempQuit) hs Fs := by
    clear lg
    induction hd with
    | nil => exact .nil
    | cons h _ ih =>
      exact .cons (k1.frame.fns _ (hl _ (by simp)) _ h) (ih fun x hx => hl x (by simp [hx]))
  obtain ⟨m', h1, i2, k2, d2⟩ := tempAugment_ok S i1 hl hd1 lg d1
  exact ⟨m', h1, i2, k1.trans k2, d2⟩

theorem tempInit_illegal (S : E.Sound) (i : m.Inv own lk) {hs : List Handle} {Fs}
    (hl : ∀ h ∈ hs, UTab.Live own h) (hd : F2 (Den m) hs Fs) (lg : Illegal Fs) :
    ∃ m', m.tempInit E hs true = some m' ∧ m'.Inv own lk ∧ TempKept own m m' ∧
      AssocDen m' (-1) (fun _ => none) := by
  obtain ⟨i1, k1, d1⟩ := tempQuit_ok i
  have hd1 : F2 (Den m.tempQuit) hs Fs := by
    clear lg
    induction hd with
    | nil => exact .nil
    | cons h _ ih =>
      exact .cons (k1.frame.fns _ (hl _ (by simp)) _ h) (ih fun x hx => hl x (by simp [hx]))
  obtain ⟨m', h1, i2, p⟩ := tempAugment_illegal S i1 hl hd1 lg
  exact ⟨m', h1, i2, k1.trans (.ofPres p), p.assocDen d1⟩

end Mgr

end Cal
