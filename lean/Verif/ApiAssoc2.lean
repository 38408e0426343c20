import Verif.ApiAssoc

/-!
# Associations through the API: what they mean
-/

namespace Cal

/-- One value of an association and its meaning. -/
def ValIs (s : Store) (o : Option Edge) (o' : Option BFn) : Prop :=
  (o = none ∧ o' = none) ∨ ∃ e F, o = some e ∧ o' = some F ∧ Rep s e F

/-- What an association means: for each variable it has, the function of its value. The temporary
association has id -1. -/
def AssocDen (m : Mgr) (j : Int) (S : Nat → Option BFn) : Prop :=
  ∃ A, m.assoc j = some A ∧ ∀ v, ValIs m.st (A.var v) (S v)

/-- A table of (variable, function) pairs, later ones first, then `S`. -/
def tableFrom (S : Nat → Option BFn) (L : List (Nat × BFn)) : Nat → Option BFn :=
  L.foldl (fun S p => upd S p.1 (some p.2)) S

/-- How the argument array of the association functions is read: as (variable, value) pairs, where
an odd last entry is ignored, or as variables, all associated with the constant true. -/
def entries : Bool → List BFn → List (BFn × BFn)
  | true, F :: G :: Fs => (F, G) :: entries true Fs
  | false, F :: Fs => (F, fun _ => true) :: entries false Fs
  | _, _ => []

/-- The entries are about the variables and functions in `L`: the first of each pair is a variable
(without `pairs` it can also be a negated one). -/
def Legal (pairs : Bool) (Fs : List BFn) (L : List (Nat × BFn)) : Prop :=
  F2 (fun (q : BFn × BFn) (r : Nat × BFn) =>
    (q.1 = (fun ρ => ρ r.1) ∨ (pairs = false ∧ q.1 = fun ρ => !ρ r.1)) ∧ r.2 = q.2)
    (entries pairs Fs) L

/-- How often the association was requested and not given up. -/
def Mgr.count (m : Mgr) (j : Int) : Nat :=
  match m.assocs.find? fun p => p.a.id == j with
  | some p => p.refCount
  | none => 0

/-- What the association functions keep: functions of handles, number and order of variables,
settings. -/
structure Frame (own : Nat → Nat) (m m' : Mgr) : Prop where
  fns : ∀ h, UTab.Live own h → ∀ F, Den m h F → Den m' h F
  nv : m'.st.ord.numVars = m.st.ord.numVars
  ord : m.technique = 0 → m'.st.ord = m.st.ord
  top : m'.tempOp = m.tempOp
  gcMode : m'.gcMode = m.gcMode
  nodeLimit : m'.nodeLimit = m.nodeLimit
  technique : m'.technique = m.technique
  method : m'.method = m.method
  threshold : m'.reorderingThreshold = m.reorderingThreshold
  ovf : m.overflow = true → m'.overflow = true
  noLimit : m.nodeLimit = 0 → m'.overflow = m.overflow

theorem Pres.frame {own m m'} (p : Pres own 0 m m') : Frame own m m' :=
  ⟨p.fns, p.nv, p.ord, p.top, p.gcMode, p.nodeLimit, p.technique, p.method, p.threshold, p.ovf,
    p.noLimit⟩

theorem Frame.trans {own m m1 m2} (p : Frame own m m1) (q : Frame own m1 m2) : Frame own m m2 :=
  ⟨fun h l F d => q.fns h l F (p.fns h l F d), q.nv.trans p.nv,
    fun h => (q.ord (by rw [p.technique]; exact h)).trans (p.ord h), q.top.trans p.top,
    q.gcMode.trans p.gcMode, q.nodeLimit.trans p.nodeLimit, q.technique.trans p.technique,
    q.method.trans p.method, q.threshold.trans p.threshold, fun h => q.ovf (p.ovf h),
    fun h => (q.noLimit (by rw [p.nodeLimit]; exact h)).trans (p.noLimit h)⟩

theorem ValIs.map {s s' : Store} {o o'} (h : ValIs s o o') (hr : ∀ e F, Rep s e F → Rep s' e F) :
    ValIs s' o o' := by
  rcases h with h | ⟨e, F, h1, h2, h3⟩
  · exact Or.inl h
  · exact Or.inr ⟨e, F, h1, h2, hr e F h3⟩

theorem ValIs.unique {s : Store} (w : s.WF) {o p q} (h : ValIs s o p) (g : ValIs s o q) : p = q := by
  rcases h with ⟨h1, h2⟩ | ⟨e, F, h1, h2, h3⟩ <;> rcases g with ⟨g1, g2⟩ | ⟨e', F', g1, g2, g3⟩
  · rw [h2, g2]
  · rw [h1] at g1; cases g1
  · rw [h1] at g1; cases g1
  · rw [h1] at g1; cases g1; rw [h2, g2, h3.unique w g3]

theorem ValIs.canon {s : Store} (w : s.WF) {o o' p} (h : ValIs s o p) (g : ValIs s o' p) :
    o = o' := by
  rcases h with ⟨h1, h2⟩ | ⟨e, F, h1, h2, h3⟩ <;> rcases g with ⟨g1, g2⟩ | ⟨e', F', g1, g2, g3⟩
  · rw [h1, g1]
  · rw [h2] at g2; cases g2
  · rw [h2] at g2; cases g2
  · rw [h2] at g2; cases g2; rw [h1, g1, canonical w h3 g3]

theorem ValIs.exist {s : Store} (w : s.WF) {o : Option Edge} (h : ∀ e, o = some e → s.EOK e) :
    ∃ o', ValIs s o o' := by
  cases o with
  | none => exact ⟨none, Or.inl ⟨rfl, rfl⟩⟩
  | some e =>
    obtain ⟨F, hF⟩ := w.rep_exists (h e rfl)
    exact ⟨some F, Or.inr ⟨e, F, rfl, rfl, hF⟩⟩

theorem AssocDen.unique {m : Mgr} (w : m.st.WF) {j S T} (h : AssocDen m j S) (g : AssocDen m j T) :
    S = T := by
  obtain ⟨A, h1, h2⟩ := h
  obtain ⟨B, g1, g2⟩ := g
  rw [h1] at g1; cases g1
  funext v
  exact (h2 v).unique w (g2 v)

theorem Assoc.Eqv.valIs {s s' : Store} {A A' : Assoc} (h : A.Eqv s s' A') {v o}
    (g : ValIs s (A.var v) o) : ValIs s' (A'.var v) o := by
  rcases g with ⟨g1, g2⟩ | ⟨e, F, g1, g2, g3⟩
  · exact Or.inl ⟨(h.dom v).2 g1, g2⟩
  · cases hv : A'.var v with
    | none => rw [(h.dom v).1 hv] at g1; cases g1
    | some e' => exact Or.inr ⟨e', F, rfl, g2, h.vals v e e' g1 hv F g3⟩

theorem Pres.assocDen {own k} {m m' : Mgr} (p : Pres own k m m') {j S}
    (h : AssocDen m j S) : AssocDen m' j S := by
  obtain ⟨A, h1, h2⟩ := h
  obtain ⟨A', g1, g2⟩ := p.assoc_eqv h1
  exact ⟨A', g1, fun v => g2.valIs (h2 v)⟩

namespace Mgr

variable {Γ : Nat → BFn → BFn} {leak own : Nat → Nat} {m : Mgr} {lk : Bool} {E : Env}

theorem InvG.assoc_aok (i : InvG Γ leak own m) {j A} (h : m.assoc j = some A) : A.AOK m.st := by
  by_cases hj : j = -1
  · subst hj; simp only [assoc, if_true, Option.some.injEq] at h; subst h; exact i.temp
  · exact (i.assoc_mem h hj).1.toAOK

/-- every association means something -/
theorem InvG.assocDen (i : InvG Γ leak own m) {j A} (h : m.assoc j = some A) :
    ∃ S, AssocDen m j S := by
  have ok := i.assoc_aok h
  have := fun v => ValIs.exist i.wf (o := A.var v) (ok.vals v)
  exact ⟨fun v => Classical.choose (this v), A, h, fun v => Classical.choose_spec (this v)⟩

theorem F2_find_none {s s' : Store} {as as' : List RAssoc} (h : F2 (RAssoc.Eqv s s') as as') {j : Int}
    (hp : as.find? (fun p => p.a.id == j) = none) : as'.find? (fun p => p.a.id == j) = none := by
  induction h with
  | nil => rfl
  | @cons x y _ _ hxy _ ih =>
    have hid := hxy.1.id
    by_cases hx : x.a.id = j
    · simp [hx] at hp
    · have : (x.a.id == j) = false := by simpa using hx
      simp only [List.find?_cons, this] at hp
      simp [hid, this, ih hp]

theorem _root_.Cal.Pres.count {own k} {m m' : Mgr} (p : Pres own k m m') (j : Int) :
    m'.count j = m.count j := by
  unfold Mgr.count
  cases hf : m.assocs.find? fun p => p.a.id == j with
  | none => rw [F2_find_none p.assocs hf]
  | some q =>
    obtain ⟨q', h1, h2⟩ := find_eqv p.assocs hf
    rw [h1]; exact h2.2

theorem _root_.Cal.Pres.assocDen_iff {own k} {m m' : Mgr} (i : m.Inv own lk) (i' : m'.Inv own lk)
    (p : Pres own k m m') {j S} : AssocDen m' j S ↔ AssocDen m j S := by
  obtain ⟨Γ, leak, -, i⟩ := i
  refine ⟨fun h => ?_, fun h => p.assocDen h⟩
  obtain ⟨A', h1, h2⟩ := h
  have : ∃ A, m.assoc j = some A := by
    by_cases hj : j = -1
    · exact ⟨m.temp, by simp [assoc, hj]⟩
    · simp only [assoc, hj, if_false] at h1 ⊢
      cases hf : m.assocs.find? fun p => p.a.id == j with
      | none => rw [F2_find_none p.assocs hf] at h1; simp at h1
      | some q => exact ⟨q.a, rfl⟩
  obtain ⟨A, hA⟩ := this
  obtain ⟨T, hT⟩ := i.assocDen hA
  have := AssocDen.unique i'.wf (p.assocDen hT) ⟨A', h1, h2⟩
  rw [← this]; exact hT

/-! ## Reading the array -/

theorem entries_rep {s : Store} : ∀ {pairs : Bool} {es Fs}, F2 (Rep s) es Fs →
    F2 (fun (p : Edge × Edge) (q : BFn × BFn) => Rep s p.1 q.1 ∧ Rep s p.2 q.2)
      (assocPairs pairs es) (entries pairs Fs)
  | true, [], _, .nil => .nil
  | false, [], _, .nil => .nil
  | true, [_], _, .cons _ .nil => .nil
  | true, _ :: _ :: _, _, .cons h1 (.cons h2 h) => .cons ⟨h1, h2⟩ (entries_rep (pairs := true) h)
  | false, _ :: _, _, .cons h1 h => .cons ⟨h1, .one⟩ (entries_rep (pairs := false) h)

theorem lit_id {s : Store} (w : s.WF) {e F v} (r : Rep s e F)
    (h : F = (fun ρ => ρ v) ∨ F = fun ρ => !ρ v) : e.id = v ∧ 1 ≤ v ∧ v ≤ s.ord.numVars := by
  have hc : NonConst F := by
    constructor
    · rintro rfl
      rcases h with h | h
      · have := congrFun h fun _ => false; simp at this
      · have := congrFun h fun _ => true; simp at this
    · rintro rfl
      rcases h with h | h
      · have := congrFun h fun _ => true; simp at this
      · have := congrFun h fun _ => false; simp at this
  have tv := r.topVar w (nonConst_id w r hc)
  have : e.id = v := by
    refine Classical.byContradiction fun hne => tv.dep ?_
    intro ρ b
    rcases h with rfl | rfl
    · simp only [upd_ne ρ b (Ne.symm hne)]
    · simp only [upd_ne ρ b (Ne.symm hne)]
  exact ⟨this, by rw [← this]; exact tv.rng⟩

/-- One internal pair and what it stands for. -/
def PairIs (s : Store) (p : Edge × Edge) (r : Nat × BFn) : Prop :=
  p.1.id = r.1 ∧ (1 ≤ r.1 ∧ r.1 ≤ s.ord.numVars) ∧ Rep s p.2 r.2

theorem legal_pairs {s : Store} (w : s.WF) {pairs : Bool} {ps : List (Edge × Edge)}
    {qs : List (BFn × BFn)} {L : List (Nat × BFn)}
    (h : F2 (fun (p : Edge × Edge) (q : BFn × BFn) => Rep s p.1 q.1 ∧ Rep s p.2 q.2) ps qs)
    (l : F2 (fun (q : BFn × BFn) (r : Nat × BFn) =>
      (q.1 = (fun ρ => ρ r.1) ∨ (pairs = false ∧ q.1 = fun ρ => !ρ r.1)) ∧ r.2 = q.2) qs L) :
    F2 (PairIs s) ps L := by
  refine F2.trans' ?_ h l
  rintro p q r ⟨h1, h2⟩ ⟨h3, h4⟩
  have := lit_id w h1 (h3.imp id fun h => h.2)
  exact ⟨this.1, this.2, by rw [h4]; exact h2⟩

theorem checkPairs_true (w : m.st.WF) : ∀ {hs : List Handle} {Fs : List BFn} {L},
    F2 (Den m) hs Fs → Legal true Fs L → m.checkPairs hs = some true
  | [], _, _, _, _ => rfl
  | [_], _, _, _, _ => rfl
  | h :: g :: hs, F :: G :: Fs, L, .cons d1 (.cons d2 d), l => by
    simp only [Legal, entries] at l
    cases l with
    | cons l1 l =>
      obtain ⟨e, he, r⟩ := d1
      obtain ⟨t, ht, sp⟩ := typeAux_ok w r
      have : t = .posvar := sp.pos.2 ⟨_, (l1.1.resolve_right fun h => by simp at h)⟩
      unfold checkPairs
      simp only [internal, he, Option.map_some, ht, this, if_true]
      exact checkPairs_true w d l

/-- Some first entry is not a variable. -/
def Illegal (Fs : List BFn) : Prop := ∃ q ∈ entries true Fs, ¬ ∃ v, q.1 = fun ρ => ρ v

theorem checkPairs_false (w : m.st.WF) : ∀ {hs : List Handle} {Fs : List BFn},
    F2 (Den m) hs Fs → Illegal Fs → m.checkPairs hs = some false
  | [], _, .nil, ⟨q, hq, _⟩ => by simp [entries] at hq
  | [_], _, .cons _ .nil, ⟨q, hq, _⟩ => by simp [entries] at hq
  | h :: g :: hs, F :: G :: Fs, .cons d1 (.cons d2 d), ⟨q, hq, hn⟩ => by
    simp only [entries] at hq
    obtain ⟨e, he, r⟩ := d1
    obtain ⟨t, ht, sp⟩ := typeAux_ok w r
    unfold checkPairs
    simp only [internal, he, Option.map_some, ht]
    by_cases hp : t = .posvar
    · rw [if_pos hp]
      refine checkPairs_false w d ⟨q, ?_, hn⟩
      rcases List.mem_cons.1 hq with rfl | hq
      · exact absurd (sp.pos.1 hp) hn
      · exact hq
    · rw [if_neg hp]

theorem checkAssoc_ok (S : E.Sound) (i : m.Inv own lk) {hs : List Handle} {Fs} {pairs : Bool}
    (hl : ∀ h ∈ hs, UTab.Live own h) (hd : F2 (Den m) hs Fs) :
    ∃ m1, m1.Inv own lk ∧ Pres own 0 m m1 ∧ F2 (Den m1) hs Fs ∧
      (∀ L, Legal pairs Fs L → m.checkAssoc E hs pairs = some (m1, true)) ∧
      (pairs = true → Illegal Fs → m.checkAssoc E hs pairs = some (m1, false)) := by
  obtain ⟨m1, h1, i1, p1⟩ := arrayPreProc_ok S i hl
  refine ⟨m1, i1, p1, p1.dens hl hd, fun L l => ?_, fun hp hi => ?_⟩
  · unfold checkAssoc
    rw [h1]
    cases pairs with
    | false => rfl
    | true => simp [checkPairs_true i1.wf (p1.dens hl hd) l]
  · unfold checkAssoc
    rw [h1, hp]
    simp [checkPairs_false i1.wf (p1.dens hl hd) hi]

/-! ## The table -/

theorem tableFrom_is {s : Store} : ∀ {ps : List (Edge × Edge)} {L : List (Nat × BFn)},
    F2 (PairIs s) ps L → ∀ {f S}, (∀ v, ValIs s (f v) (S v)) →
    ∀ v, ValIs s (assocFold f ps v) (tableFrom S L v) := by
  intro ps L h
  induction h with
  | nil => intro f S h; exact h
  | @cons p r _ _ h _ ih =>
    intro f S hv
    simp only [assocFold, tableFrom, List.foldl_cons]
    refine ih fun v => ?_
    rw [h.1]
    by_cases hx : v = r.1
    · subst hx; simp only [upd_same]; exact Or.inr ⟨_, _, rfl, rfl, h.2.2⟩
    · simp only [upd_ne _ _ hx]; exact hv v

theorem PairIs.vals {s : Store} {ps : List (Edge × Edge)} {L : List (Nat × BFn)}
    (h : F2 (PairIs s) ps L) : (∀ p ∈ ps, s.EOK p.2) ∧
    (∀ p ∈ ps, 1 ≤ p.1.id ∧ p.1.id ≤ s.ord.numVars) ∧
    (ps.map fun p => p.1.id) = L.map (·.1) := by
  induction h with
  | nil => simp
  | cons h _ ih =>
    refine ⟨fun p hp => ?_, fun p hp => ?_, by simp [ih.2.2, h.1]⟩
    · rcases List.mem_cons.1 hp with rfl | hp
      · exact h.2.2.eok
      · exact ih.1 p hp
    · rcases List.mem_cons.1 hp with rfl | hp
      · rw [h.1]; exact h.2.1
      · exact ih.2.1 p hp

theorem lastIndex_spec {s : Store} (w : s.WF) : ∀ {ps : List (Edge × Edge)} {l : Int},
    (∀ p ∈ ps, 1 ≤ p.1.id ∧ p.1.id ≤ s.ord.numVars) → l < s.ord.numVars →
    l ≤ lastIndex s l ps ∧ lastIndex s l ps < s.ord.numVars ∧
    (∀ p ∈ ps, (s.ord.lvl p.1.id : Int) ≤ lastIndex s l ps) ∧
    (lastIndex s l ps = l ∨ ∃ p ∈ ps, (s.ord.lvl p.1.id : Int) = lastIndex s l ps)
  | [], l, _, hl => ⟨Int.le_refl _, hl, by simp, Or.inl rfl⟩
  | p :: ps, l, h, hl => by
    have hp := h p (by simp)
    have hlt := w.ord.lvl_lt hp.1 hp.2
    have he : s.elvl p.1 = s.ord.lvl p.1.id := rfl
    simp only [lastIndex, List.foldl_cons]
    have ih := lastIndex_spec w (ps := ps)
      (l := if (s.elvl p.1 : Int) > l then (s.elvl p.1 : Int) else l)
      (fun q hq => h q (by simp [hq])) (by split <;> omega)
    simp only [lastIndex] at ih
    obtain ⟨ih1, ih2, ih3, ih4⟩ := ih
    refine ⟨?_, ih2, fun q hq => ?_, ?_⟩
    · clear ih2 ih3 ih4; have := ih1; split at this <;> split <;> simp_all <;> omega
    · rcases List.mem_cons.1 hq with rfl | hq
      · clear ih2 ih3 ih4; have := ih1; split at this <;> split <;> simp_all <;> omega
      · exact ih3 q hq
    · rcases ih4 with h4 | ⟨q, hq, h4⟩
      · rw [h4]
        by_cases hc : (s.elvl p.1 : Int) > l
        · rw [if_pos hc]; exact Or.inr ⟨p, by simp, rfl⟩
        · rw [if_neg hc]; exact Or.inl rfl
      · exact Or.inr ⟨q, by simp [hq], h4⟩

theorem assocFold_some : ∀ {ps : List (Edge × Edge)} {f : Nat → Option Edge} {v},
    (f v).isSome = true ∨ (∃ p ∈ ps, p.1.id = v) → (assocFold f ps v).isSome = true
  | [], f, v, h => h.elim id (by simp)
  | p :: ps, f, v, h => by
    simp only [assocFold, List.foldl_cons]
    refine assocFold_some (ps := ps) ?_
    by_cases hv : v = p.1.id
    · subst hv; left; rw [upd_same]; rfl
    · rw [upd_ne _ _ hv]
      refine h.imp id fun ⟨q, hq, e⟩ => ⟨q, ?_, e⟩
      rcases List.mem_cons.1 hq with rfl | hq
      · exact absurd e.symm hv
      · exact hq

theorem assocFold_dom : ∀ {ps : List (Edge × Edge)} {f : Nat → Option Edge} {v e},
    assocFold f ps v = some e → f v = some e ∨ ∃ p ∈ ps, p.1.id = v ∧ p.2 = e
  | [], f, v, e, h => Or.inl h
  | p :: ps, f, v, e, h => by
    simp only [assocFold, List.foldl_cons] at h
    rcases assocFold_dom (ps := ps) h with h | ⟨q, h1, h2⟩
    · by_cases hv : v = p.1.id
      · subst hv; rw [upd_same] at h; cases h
        exact Or.inr ⟨p, by simp, rfl, rfl⟩
      · rw [upd_ne _ _ hv] at h; exact Or.inl h
    · exact Or.inr ⟨q, by simp [h1], h2⟩

theorem new_aok {s : Store} (w : s.WF) {ps : List (Edge × Edge)} {L : List (Nat × BFn)}
    (h : F2 (PairIs s) ps L) {A : Assoc} (ha : A.AOK s) :
    (⟨A.id, assocFold A.var ps, lastIndex s A.last ps⟩ : Assoc).AOK s := by
  obtain ⟨h1, h2, -⟩ := PairIs.vals h
  obtain ⟨l1, l2, l3, l4⟩ := lastIndex_spec w h2 ha.ok.lt
  have key : ∀ v, (assocFold A.var ps v).isSome = true → A.dom v ∨ ∃ p ∈ ps, p.1.id = v := by
    intro v hv
    obtain ⟨e, he⟩ := Option.isSome_iff_exists.1 hv
    rcases assocFold_dom he with h | ⟨p, hp, hv, _⟩
    · exact Or.inl (by simp [Assoc.dom, h])
    · exact Or.inr ⟨p, hp, hv⟩
  refine ⟨⟨fun v hv => ?_, fun v hv => ?_, l2, ?_⟩, fun v e he => ?_⟩
  · rcases key v hv with h | ⟨p, hp, rfl⟩
    · exact ha.ok.rng v h
    · exact h2 p hp
  · rcases key v hv with h | ⟨p, hp, rfl⟩
    · have := ha.ok.le v h; show _ ≤ lastIndex s A.last ps; omega
    · exact l3 p hp
  · rcases l4 with h | ⟨p, hp, h⟩
    · rcases ha.ok.ex with hx | ⟨v, hv, hx⟩
      · exact Or.inl (h.trans hx)
      · exact Or.inr ⟨v, assocFold_some (Or.inl hv), hx.trans h.symm⟩
    · exact Or.inr ⟨_, assocFold_some (Or.inr ⟨p, hp, rfl⟩), h⟩
  · rcases assocFold_dom he with h | ⟨p, hp, _, rfl⟩
    · exact ha.vals v e h
    · exact h1 p hp

theorem assocEq_iff {o : Order} {f g : Nat → Option Edge}
    (hf : ∀ v, (f v).isSome = true → 1 ≤ v ∧ v ≤ o.numVars)
    (hg : ∀ v, (g v).isSome = true → 1 ≤ v ∧ v ≤ o.numVars) :
    assocEq o.numVars f g = true ↔ f = g := by
  constructor
  · intro h
    unfold assocEq at h
    rw [List.all_eq_true] at h
    funext v
    by_cases hv : 1 ≤ v ∧ v ≤ o.numVars
    · have := h (v - 1) (List.mem_range.2 (by omega))
      rw [show v - 1 + 1 = v by omega] at this
      simpa using this
    · have h1 : f v = none := by
        cases hx : f v with
        | none => rfl
        | some e => exact absurd (hf v (by simp [hx])) hv
      have h2 : g v = none := by
        cases hx : g v with
        | none => rfl
        | some e => exact absurd (hg v (by simp [hx])) hv
      rw [h1, h2]
  · rintro rfl
    unfold assocEq
    rw [List.all_eq_true]
    intro i _; simp

/-- Changes to the associations. -/
theorem InvG.reassoc (i : InvG Γ leak own m) {s' : Store} {c' : Cache} {as' : List RAssoc}
    {t' : Assoc} {k' : Int} {Γ' : Nat → BFn → BFn} {leak' : Nat → Nat} (h : m.st.Same s')
    (r : s'.RefOK (Mgr.roots { m with assocs := as', temp := t' } leak'))
    (v : c'.Valid m.st Γ') (hn : Γ' Cache.opNAND = fun F ρ => !F ρ)
    (ha : ∀ p ∈ as', p.a.ROK m.st Γ' ∧ 1 ≤ p.refCount) (hs : IdSorted as') (ht : t'.AOK m.st)
    (hti : t'.id = -1) (hk : k' = -1 ∨ ∃ p ∈ as', p.a.id = k')
    (hf : ∀ c, c ≤ m.tempOp → c ≠ Cache.opNAND → (∀ p ∈ as', c ≠ p.a.opCode Cache.opQUANT ∧
      c ≠ p.a.opCode Cache.opRELPROD ∧ c ≠ p.a.opCode Cache.opVARSUBST) → Γ' c = fun _ => noFn) :
    InvG Γ' leak' own { m with st := s', ca := c', assocs := as', temp := t', cur := k' } := by
  have w := h.wf i.wf
  have hr : Mgr.roots { m with st := s', ca := c', assocs := as', temp := t', cur := k' } leak' =
      Mgr.roots { m with assocs := as', temp := t' } leak' :=
    Mgr.roots_congr rfl rfl rfl rfl (by show s'.ord.numVars = _; rw [h.ord])
  refine ⟨w, h.numOK i.num, by rw [hr]; exact r, i.ut, fun a e x => (i.uok a e x).mono h.le, ?_, ?_,
    v.mono h.le, hn, ?_, hs, ht.mono h.le, hti, hk, i.top, i.top', ?_⟩
  · intro v h1 h2
    simp only [h.ord] at h2
    obtain ⟨a, ha, hn⟩ := i.var v h1 h2
    exact ⟨a, ha, h.le.heap _ _ hn⟩
  · intro v x
    simp only [h.ord] at x
    exact i.var0 v x
  · intro p hp
    exact ⟨(ha p hp).1.mono i.wf w h.le, (ha p hp).2⟩
  · intro c hc
    exact hf c hc.1 hc.2.1 hc.2.2

end Mgr

end Cal
