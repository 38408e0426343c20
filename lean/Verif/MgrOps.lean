import Verif.MgrInv

/-!
# Handles, garbage collection and the frame of the API functions
-/

namespace Cal

theorem UTab.hits_ge {u : UTab} {own} (o : u.OK own) {a e} (h : u.heap a = some e) (x : Nat) :
    Cal.hits e x ≤ u.hits x := by
  have := sumTo_ge (f := fun a => match u.heap a with | some e => Cal.hits e x | none => 0)
    (o.heap_next a (by rw [h]; simp))
  simp only [h] at this
  exact this

theorem tabHits_ge {f : Nat → Option Edge} {n v e} (hv : v ≤ n) (h : f v = some e) (x) :
    hits e x ≤ tabHits f n x := by
  have := sumTo_ge (f := fun v => optHits (f v) x) (n := n + 1) (a := v) (by omega)
  simp only [h, optHits] at this
  exact this

theorem listHits_ge {as : List RAssoc} {p} (hp : p ∈ as) (n x) :
    tabHits p.a.var n x ≤ listHits as n x := by
  induction as with
  | nil => simp at hp
  | cons q as ih =>
    simp only [listHits, List.map_cons, List.sum_cons]
    rcases List.mem_cons.1 hp with h | h
    · subst h; omega
    · have := ih h; unfold listHits at this; omega

theorem hits_self (e : Edge) : hits e e.addr = 1 := by simp [hits]

theorem EOK.hits_none {s : Store} {e : Edge} (h : s.EOK e) {x} (hx : x ≠ 0) (hn : s.heap x = none) :
    hits e x = 0 := by
  unfold hits
  split
  · rename_i he
    rcases h.alive with h | h
    · omega
    · rw [he] at h; exact absurd hn h
  · rfl

namespace Mgr

variable {Γ : Nat → BFn → BFn} {leak own : Nat → Nat} {m : Mgr} {lk : Bool}

/-! ## Handles -/

/-- a handle the user holds has a function -/
theorem InvG.live (i : InvG Γ leak own m) {h : Handle} (l : UTab.Live own h) :
    ∃ e, m.ut.heap h.addr = some e ∧ m.st.EOK e := by
  obtain ⟨e, he⟩ := i.ut.live l
  exact ⟨e, he, i.uok _ _ he⟩

theorem InvG.den (i : InvG Γ leak own m) {h : Handle} (l : UTab.Live own h) : ∃ F, Den m h F := by
  obtain ⟨e, he, ok⟩ := i.live l
  obtain ⟨F, hF⟩ := i.wf.rep_exists (ok.phase h.neg)
  exact ⟨F, e, he, hF⟩

theorem InvG.den_unique (i : InvG Γ leak own m) {h : Handle} {F G} (d1 : Den m h F)
    (d2 : Den m h G) : F = G := by
  obtain ⟨e, he, r⟩ := d1
  obtain ⟨e', he', r'⟩ := d2
  rw [he] at he'; cases he'
  exact r.unique i.wf r'

/-- a handle's user node is not the null address -/
theorem InvG.live_ne (i : InvG Γ leak own m) {h : Handle} (l : UTab.Live own h) :
    h ≠ Handle.null := by
  rintro rfl
  obtain ⟨e, he⟩ := i.ut.live l
  have := i.ut.heap0
  simp only [Handle.null] at he
  rw [this] at he; cases he

/-- Changing the user table and counts together. -/
theorem InvG.users (i : InvG Γ leak own m) {s' : Store} {u' : UTab} {own'} (h : m.st.Same s')
    (o : u'.OK own') (hu : ∀ a e, u'.heap a = some e → m.st.EOK e)
    (r : s'.RefOK (fun x => u'.hits x + m.rest leak x)) :
    InvG Γ leak own' { m with st := s', ut := u' } := by
  have w := h.wf i.wf
  have hr : Mgr.rest { m with st := s', ut := u' } leak = m.rest leak :=
    Mgr.rest_congr rfl rfl rfl (by show s'.ord.numVars = _; rw [h.ord])
  refine ⟨w, h.numOK i.num, ?_, o, fun a e x => (hu a e x).mono h.le, ?_, ?_,
    i.ca.mono h.le, i.nand, ?_, i.sorted, i.temp.mono h.le, i.tempId, i.cur, i.top, i.top', i.fresh⟩
  · show s'.RefOK (fun x => u'.hits x + Mgr.rest { m with st := s', ut := u' } leak x)
    rw [hr]; exact r
  · intro v h1 h2
    simp only [h.ord] at h2
    obtain ⟨a, ha, hn⟩ := i.var v h1 h2
    exact ⟨a, ha, h.le.heap _ _ hn⟩
  · intro v x
    simp only [h.ord] at x
    exact i.var0 v x
  · intro p hp
    exact ⟨(i.assocs p hp).1.mono i.wf w h.le, (i.assocs p hp).2⟩

/-- The frame of changes of the user table and counts. -/
theorem users_pres {s' : Store} {u' : UTab} (h : m.st.Same s')
    (hk : ∀ x, UTab.Live own x → ∀ e, m.ut.heap x.addr = some e → u'.heap x.addr = some e) :
    Pres own 0 m { m with st := s', ut := u' } := by
  refine ⟨?_, by show s'.ord.numVars = _; rw [h.ord], fun _ => h.ord, rfl,
    F2.refl' fun p _ => ⟨.of_rep fun _ _ _ _ r => r.mono h.le, rfl⟩,
    .of_rep fun _ _ _ _ r => r.mono h.le, rfl, rfl, rfl, rfl, rfl, rfl, fun h => h, fun _ => rfl⟩
  rintro x l F ⟨e, he, r⟩
  exact ⟨e, hk x l e he, r.mono h.le⟩

/-- `CalBddGetExternalBdd`: the user gets one more reference to a handle for the same function. -/
theorem InvG.external (i : InvG Γ leak own m) {e : Edge} (he : m.st.EOK e) :
    InvG Γ leak (bump own (m.external e).2.addr) (m.external e).1 ∧
    Pres own 0 m (m.external e).1 ∧ (m.external e).2 ≠ Handle.null ∧
    (∀ F, Rep m.st e F → Den (m.external e).1 (m.external e).2 F) ∧
    m.st.Same (m.external e).1.st := by
  have hpos : (e.phase e.neg).neg = false := by simp
  have g := UTab.findOrAdd_spec i.ut hpos
  revert g
  generalize hf : m.ut.findOrAdd (e.phase e.neg) = p
  obtain ⟨u, a, found⟩ := p
  intro g
  simp only at g
  have hx : m.external e = ({ m with ut := u.icr a, st := if found then m.st else m.st.icr e },
      ⟨a, e.neg⟩) := by unfold Mgr.external; rw [hf]
  rw [hx]
  have hsame : m.st.Same (if found then m.st else m.st.icr e) := by
    split
    · exact .refl _
    · exact .icr _ _
  have hhits : ∀ x, hits (e.phase e.neg) x = hits e x := fun _ => rfl
  refine ⟨i.users hsame g.ok ?_ ?_, users_pres hsame fun x _ f hf => g.kept _ _ hf, ?_, ?_, hsame⟩
  · intro b f hb
    rcases g.only b f hb with h | h
    · exact i.uok b f h
    · rw [h]; exact he
  · have hr := i.ref
    cases found with
    | true =>
      simp only [if_true]
      have : (fun x => (u.icr a).hits x + m.rest leak x) = m.roots leak := by
        funext x; rw [g.hits x]; simp [roots]
      rw [this]; exact hr
    | false =>
      simp only [Bool.false_eq_true, if_false]
      refine UTab.RefOK_icr hr e ?_ ?_
      · intro x _; rw [g.hits x]; simp only [roots, Bool.false_eq_true, if_false, hhits]; omega
      · intro x hx hn
        rw [g.hits x]
        have h1 := hr.ext0 x hx hn
        have h2 := EOK.hits_none he hx hn
        simp only [roots] at h1
        simp only [Bool.false_eq_true, if_false, hhits]; omega
  · intro h
    have h1 := congrArg Ptr.addr h
    have h2 := g.pos
    simp only [Handle.null] at h1
    omega
  · intro F r
    refine ⟨e.phase e.neg, g.heap, ?_⟩
    have : (e.phase e.neg).phase e.neg = e := by rw [Edge.phase_phase]; simp
    rw [this]
    exact r.mono hsame.le

/-- `Cal_BddFree` gives up one reference. -/
theorem InvG.free (i : InvG Γ leak own m) {h : Handle} (ho : 0 < own h.addr) :
    ∃ m', m.free h = some m' ∧ InvG Γ leak (upd own h.addr (own h.addr - 1)) m' ∧
      Pres own 0 m m' ∧ m'.st = m.st ∧ m'.ca = m.ca ∧ m'.overflow = m.overflow := by
  obtain ⟨e, he, _⟩ := i.live (Or.inr ho)
  refine ⟨{ m with ut := m.ut.dcr h.addr }, by simp [Mgr.free, he], ?_, ?_, rfl, rfl, rfl⟩
  · exact i.users (.refl _) (UTab.dcr_ok i.ut ho) i.uok i.ref
  · exact users_pres (.refl _) fun _ _ _ h => h

/-- Freeing a constant changes nothing. -/
theorem InvG.free_const (i : InvG Γ leak own m) {h : Handle} (ho : h.addr = 1) :
    ∃ m', m.free h = some m' ∧ InvG Γ leak own m' ∧ Pres own 0 m m' := by
  have he := i.ut.one
  refine ⟨{ m with ut := m.ut.dcr h.addr }, by simp [Mgr.free, ho, he], ?_, ?_⟩
  · rw [ho]; exact i.users (.refl _) (UTab.dcr_one_ok i.ut) i.uok i.ref
  · exact users_pres (.refl _) fun _ _ _ h => h

/-- `Cal_BddUnFree` takes one more reference. -/
theorem InvG.unFree (i : InvG Γ leak own m) {h : Handle} (l : UTab.Live own h) :
    ∃ m', m.unFree h = some m' ∧ InvG Γ leak (bump own h.addr) m' ∧ Pres own 0 m m' ∧
      m'.ut.heap = m.ut.heap ∧ m'.st = m.st := by
  obtain ⟨e, he, _⟩ := i.live l
  refine ⟨{ m with ut := m.ut.icr h.addr }, by simp [Mgr.unFree, he], ?_, ?_, rfl, rfl⟩
  · exact i.users (.refl _) (UTab.icr_ok i.ut (by rw [he]; simp)) i.uok i.ref
  · exact users_pres (.refl _) fun _ _ _ h => h

/-! ## Garbage collection -/

/-- `Cal_BddManagerGC`: keeps everything, and afterwards every node is reachable from a handle, a
variable or an association, or its count is stuck at the maximum. -/
theorem InvG.gcX (i : InvG Γ leak own m) :
    ∃ m', (m.gc = some m' ∧ InvG Γ leak own m' ∧ Pres own 0 m m' ∧
      m'.gcLimit = m.gcLimit ∧ m'.overflow = m.overflow ∧ m'.st.gcCheck = m'.st.gcCheck ∧
      m.st.Shrink m'.st ∧ m'.st.numNodes ≤ m.st.numNodes ∧
      (∀ a, m'.ut.heap a ≠ none → m'.ut.ref a ≠ 0) ∧
      (∀ a, m'.st.heap a ≠ none → m'.st.ref a ≠ 0) ∧
      ((∀ j, m.ca.bins j = none) → ∀ j, m'.ca.bins j = none)) ∧
      ∀ a e, m.ut.heap a = some e → m.ut.ref a ≠ 0 → m'.ut.heap a = some e := by
  obtain ⟨u, s, hg, G⟩ := UTab.gcList_spec (rest := m.rest leak) m.ut.tab m.ut m.st i.ut i.uok
    (fun a ha => (i.ut.tab_iff a).1 ha) i.ut.tab_nodup i.ref
  have hsame : m.st.Same s := ⟨G.ord, G.heap, G.tab, G.free, G.next, G.num⟩
  have i1 : InvG Γ leak own { m with st := s, ut := u } :=
    i.users hsame G.ok (fun a e h => i.uok a e (G.sub a e h)) G.ref
  have p1 : Pres own 0 m { m with st := s, ut := u } :=
    users_pres hsame fun x l e he => G.kept _ _ he (i.ut.live_ref l)
  obtain ⟨s2, fr, hg2, gi, sh, hnx, hnum, hcnt, hkept, hfr, hlive⟩ :=
    Store.gcNodes_spec (s := s) (ext := Mgr.roots { m with st := s, ut := u } leak)
      ⟨i1.wf, i1.ref⟩
  have hca := i1.ca.gcFlush i1.wf gi.wf sh hkept
  have heq : m.gc = some { m with ut := u, st := s2, ca := m.ca.gcFlush fun a => fr.contains a } := by
    simp only [Mgr.gc, UTab.gc, hg, hg2]
  have hs : m.st.Shrink s2 :=
    ⟨sh.ord.trans G.ord, fun a n h => by rw [← G.heap]; exact sh.heap a n h⟩
  -- an edge that is referenced from outside survives
  have surv : ∀ e : Edge, s.EOK e → (∀ x, hits e x ≤ Mgr.roots { m with st := s, ut := u } leak x) →
      s2.EOK e := by
    intro e he hx
    rcases he with he | ⟨n, hn, hv⟩
    · exact Or.inl he
    · rcases hkept _ _ hn with h | ⟨_, h⟩
      · exact Or.inr ⟨n, h, hv⟩
      · have h1 := gi.ref.ext0 e.addr (i1.wf.heap_pos hn) h
        have h2 := hx e.addr
        rw [hits_self] at h2; omega
  have hu : ∀ a e, u.heap a = some e → s2.EOK e := fun a e he =>
    surv e (i1.uok a e he) fun x => by
      have := UTab.hits_ge G.ok he x
      show _ ≤ u.hits x + _
      omega
  have hvar : ∀ v e, v ≤ m.st.ord.numVars → m.vars v = some e → s.EOK e → s2.EOK e := by
    intro v e hv he hk
    refine surv e hk fun x => ?_
    have := tabHits_ge hv he x
    show _ ≤ u.hits x + (256 * tabHits m.vars s.ord.numVars x + _ + _ + _)
    rw [G.ord]; omega
  have htemp : ∀ v e, m.temp.var v = some e → s2.EOK e := by
    intro v e he
    have hd : m.temp.dom v := by simp [Assoc.dom, he]
    refine surv e (i1.temp.vals v e he) fun x => ?_
    have := tabHits_ge (i.temp.ok.rng v hd).2 he x
    show _ ≤ u.hits x + (_ + _ + tabHits m.temp.var s.ord.numVars x + _)
    rw [G.ord]; omega
  have hass : ∀ p ∈ m.assocs, ∀ v e, p.a.var v = some e → s2.EOK e := by
    intro p hp v e he
    have hd : p.a.dom v := by simp [Assoc.dom, he]
    refine surv e ((i1.assocs p hp).1.vals v e he) fun x => ?_
    have h1 := tabHits_ge ((i.assocs p hp).1.ok.rng v hd).2 he x
    have h2 := listHits_ge hp m.st.ord.numVars x
    show _ ≤ u.hits x + (_ + listHits m.assocs s.ord.numVars x + _ + _)
    rw [G.ord]; omega
  have rep : ∀ e F, Rep s e F → s2.EOK e → Rep s2 e F := fun e F r h => sh.rep i1.wf gi.wf r h
  refine ⟨_, ⟨heq, ?_, ?_, rfl, rfl, rfl, hs, ?_, ?_, hlive, ?_⟩, fun a e he hr => G.kept a e he hr⟩
  · have hr : Mgr.roots { m with ut := u, st := s2, ca := m.ca.gcFlush fun a => fr.contains a } leak =
        Mgr.roots { m with st := s, ut := u } leak :=
      Mgr.roots_congr rfl rfl rfl rfl (by show s2.ord.numVars = s.ord.numVars; rw [sh.ord])
    refine ⟨gi.wf, hnum (hsame.numOK i.num), by rw [hr]; exact gi.ref, G.ok, hu, ?_, ?_, hca,
      i.nand, ?_, i.sorted, ⟨?_, htemp⟩, i.tempId, i.cur, i.top, i.top', i.fresh⟩
    · intro v h1 h2
      simp only [hs.ord] at h2
      obtain ⟨a, ha, hn⟩ := i.var v h1 h2
      refine ⟨a, ha, ?_⟩
      have h3 := hvar v _ h2 ha (Or.inr ⟨⟨v, one, zero⟩, by simp only [G.heap]; exact hn, rfl⟩)
      rcases h3 with ⟨h3, _⟩ | ⟨n, hn', _⟩
      · simp only at h3; omega
      · have := hs.heap _ _ hn'
        simp only at this hn'
        rw [hn] at this; cases this; exact hn'
    · intro v x
      simp only [hs.ord] at x
      exact i.var0 v x
    · intro p hp
      have A := (i1.assocs p hp).1
      refine ⟨{ ok := ?_, vals := hass p hp, id0 := A.id0, id1 := A.id1, quant := A.quant,
                relprod := A.relprod, subst := ?_ }, (i.assocs p hp).2⟩
      · simp only [sh.ord]; exact A.ok
      · intro S hS
        exact A.subst S (hS.anti i1.wf gi.wf A.vals fun v e he F r => rep e F r (hass p hp v e he))
    · simp only [hs.ord]; exact i.temp.ok
  · have p2 : Pres own 0 { m with st := s, ut := u }
        { m with ut := u, st := s2, ca := m.ca.gcFlush fun a => fr.contains a } := by
      refine ⟨?_, by show s2.ord.numVars = s.ord.numVars; rw [sh.ord], fun _ => sh.ord, rfl,
        F2.refl' fun p hp => ⟨.of_rep fun v e he F r => rep e F r (hass p hp v e he), rfl⟩,
        .of_rep fun v e he F r => rep e F r (htemp v e he), rfl, rfl, rfl, rfl, rfl, rfl,
        fun h => h, fun _ => rfl⟩
      rintro x l F ⟨e, he, r⟩
      exact ⟨e, he, rep _ _ r ((hu _ _ he).phase _)⟩
    exact p1.trans p2
  · have := hcnt (hsame.numOK i.num)
    have := G.num
    show s2.numNodes ≤ _
    omega
  · intro a ha
    simp only at ha ⊢
    rw [G.refs]
    refine G.done a ?_ ha
    cases he : u.heap a with
    | none => exact absurd he ha
    | some e => exact (i.ut.tab_iff a).2 (by rw [G.sub a e he]; simp)
  · intro hb j
    show (m.ca.gcFlush _).bins j = none
    unfold Cache.gcFlush
    split
    · exact hb j
    · simp only [Cache.drop, hb j]; split <;> rfl

theorem InvG.gc (i : InvG Γ leak own m) :
    ∃ m', m.gc = some m' ∧ InvG Γ leak own m' ∧ Pres own 0 m m' ∧
      m'.gcLimit = m.gcLimit ∧ m'.overflow = m.overflow ∧ m'.st.gcCheck = m'.st.gcCheck ∧
      m.st.Shrink m'.st ∧ m'.st.numNodes ≤ m.st.numNodes ∧
      (∀ a, m'.ut.heap a ≠ none → m'.ut.ref a ≠ 0) ∧
      (∀ a, m'.st.heap a ≠ none → m'.st.ref a ≠ 0) ∧
      ((∀ j, m.ca.bins j = none) → ∀ j, m'.ca.bins j = none) := by
  obtain ⟨m', h, -⟩ := i.gcX
  exact ⟨m', h⟩

theorem pend_ge {ps : List Edge} {e : Edge} (h : e ∈ ps) (x : Nat) : hits e x ≤ pend ps x := by
  induction ps with
  | nil => cases h
  | cons a ps ih =>
    simp only [pend, List.map_cons, List.sum_cons] at ih ⊢
    rcases List.mem_cons.1 h with rfl | h
    · omega
    · have := ih h; omega

/-- Garbage collection with results held by a pipeline. -/
theorem InvP.gc {ps} (i : m.InvP own lk ps) :
    ∃ m', m.gc = some m' ∧ m'.InvP own lk ps ∧ Pres own 0 m m' ∧ m'.overflow = m.overflow ∧
      Fwd own ps m m' id := by
  obtain ⟨Γ, leak, hl, i, ok⟩ := i
  obtain ⟨m', ⟨h1, i', p, -, h2, -, sh, -, -, -, -⟩, h3⟩ := i.gcX
  have ok' : ∀ e ∈ ps, m'.st.EOK e := by
    intro e he
    rcases ok e he with h | ⟨n, hn, hv⟩
    · exact Or.inl h
    · cases hx : m'.st.heap e.addr with
      | some n' =>
        have := sh.heap _ _ hx
        rw [hn] at this; cases this
        exact Or.inr ⟨n, hx, hv⟩
      | none =>
        have h4 := i'.ref.ext0 e.addr (i.wf.heap_pos hn) hx
        have h5 := pend_ge he e.addr
        rw [hits_self] at h5
        simp only [Mgr.roots, Mgr.rest] at h4; omega
  refine ⟨m', h1, ⟨Γ, leak, hl, i', ok'⟩, p, h2, ?_, fun e he F r => sh.rep i.wf i'.wf r (ok' e he)⟩
  intro h e l he
  simp only [internal, Option.map_eq_some_iff] at he ⊢
  obtain ⟨e', he', rfl⟩ := he
  exact ⟨e', h3 _ _ he' (i.ut.live_ref l), rfl⟩

/-! ## Settings -/

/-- the invariant does not depend on the settings -/
theorem InvG.settings (i : InvG Γ leak own m) {m' : Mgr} (h1 : m'.st = m.st) (h2 : m'.ca = m.ca)
    (h3 : m'.ut = m.ut) (h4 : m'.vars = m.vars) (h5 : m'.assocs = m.assocs) (h6 : m'.temp = m.temp)
    (h7 : m'.cur = m.cur) (h8 : m'.tempOp = m.tempOp) : InvG Γ leak own m' := by
  obtain ⟨a1, a2, a3, a4, a5, a6, a7, a8, a9, a10, a11, a12, a13, a14, a15⟩ := m
  obtain ⟨b1, b2, b3, b4, b5, b6, b7, b8, b9, b10, b11, b12, b13, b14, b15⟩ := m'
  simp only at h1 h2 h3 h4 h5 h6 h7 h8
  subst h1 h2 h3 h4 h5 h6 h7 h8
  exact ⟨i.wf, i.num, i.ref, i.ut, i.uok, i.var, i.var0, i.ca, i.nand, i.assocs, i.sorted, i.temp,
    i.tempId, i.cur, i.top, i.top', i.fresh⟩

theorem InvG.cache (i : InvG Γ leak own m) {c : Cache} (v : c.Valid m.st Γ) :
    InvG Γ leak own { m with ca := c } :=
  ⟨i.wf, i.num, i.ref, i.ut, i.uok, i.var, i.var0, v, i.nand, i.assocs, i.sorted, i.temp,
    i.tempId, i.cur, i.top, i.top', i.fresh⟩

theorem InvG.setCheck (i : InvG Γ leak own m) (c : Int) :
    InvG Γ leak own { m with st := { m.st with gcCheck := c } } :=
  i.recount ⟨rfl, rfl, rfl, rfl, rfl, rfl⟩ (i.ref.same ⟨rfl, rfl, rfl, rfl, rfl, rfl⟩ rfl)

theorem setCheck_pres (c : Int) : Pres own 0 m { m with st := { m.st with gcCheck := c } } :=
  core_pres (c' := m.ca) ⟨rfl, fun _ _ h => h⟩

end Mgr

/-! ## The environment -/

theorem Fwd.refl (own ps m) : Fwd own ps m m id := ⟨fun _ _ _ h => h, fun _ _ _ r => r⟩

theorem Fwd.trans {own ps} {m m1 m2 : Mgr} {φ ψ : Edge → Edge} (h : Fwd own ps m m1 φ)
    (g : Fwd own (ps.map φ) m1 m2 ψ) : Fwd own ps m m2 (fun e => ψ (φ e)) :=
  ⟨fun x e l he => g.held x _ l (h.held x e l he),
    fun e he F r => g.pend _ (List.mem_map_of_mem he) F (h.pend e he F r)⟩

/-- The cache holds nothing. -/
def Cache.Empty (c : Cache) : Prop := ∀ j, c.bins j = none

/-- What is required of the parts outside the manager model: reordering (of a manager with an empty
cache) and repacking keep the invariant and everything the user can see except the order; the
breadth-first quantifiers meet the specification that the depth-first ones are proved to meet; the
rounding of doubles is a rounding. -/
structure Env.Sound (E : Env) : Prop where
  reorder : ∀ own lk ps m, Mgr.InvP own lk ps m → m.ca.Empty → m.technique ≠ 0 →
    ∃ m' φ, E.reorder m ps = some (m', φ) ∧ m'.InvP own lk (ps.map φ) ∧ Pres own 0 m m' ∧
      m'.overflow = m.overflow ∧ Fwd own ps m m' φ
  repack : ∀ own lk ps m, Mgr.InvP own lk ps m →
    ∃ m' φ, E.repack m ps = some (m', φ) ∧ m'.InvP own lk (ps.map φ) ∧ Pres own 0 m m' ∧
      m'.overflow = m.overflow ∧ Fwd own ps m m' φ
  /-- neither touches the countdown to the next check (`gcCheck` is set only in calGC.c:148 and
  calUtil.c:218 and decremented only where nodes are made) -/
  reorderCheck : ∀ m ps m' φ, E.reorder m ps = some (m', φ) → m'.st.gcCheck = m.st.gcCheck
  repackCheck : ∀ m ps m' φ, E.repack m ps = some (m', φ) → m'.st.gcCheck = m.st.gcCheck
  existsBF : ∀ Γ (A : Assoc) code, Γ Cache.opNAND = (fun F ρ => !F ρ) → Γ code = exFn A.dom →
    code ≠ 0 → code < 65536 → ∀ (c : Core) δ f, A.OK c.st.ord → c.st.WF → c.ca.Valid c.st Γ →
    Lab c.st δ → c.st.EOK f → COk Γ c δ (E.existsBF A code c f) (exFn A.dom (den δ f))
  relProdBF : ∀ Γ (A : Assoc) code code', Γ Cache.opNAND = (fun F ρ => !F ρ) →
    Γ code = exFn A.dom → code ≠ 0 → code < 65536 →
    code' = (if A.id ≠ -1 then A.opCode Cache.opQUANT else (code + 65535) % 65536) →
    Γ code' = exFn A.dom → code' ≠ 0 → code' < 65536 →
    ∀ (c : Core) δ f g, A.OK c.st.ord → c.st.WF → c.ca.Valid c.st Γ →
    Lab c.st δ → c.st.EOK f → c.st.EOK g →
    COk Γ c δ (E.relProdBF A code c f g) (exFn A.dom (fun ρ => den δ f ρ && den δ g ρ))
  rnd : Rounding E.rnd

/-- An environment that never reorders or repacks, and always quantifies depth-first. -/
def Env.plain : Env where
  repackDue := fun n o => decide (4 * n < 3 * o)
  reorder := fun m _ => some (m, id)
  repack := fun m _ => some (m, id)
  existsBF := fun A code c f => existsStep A code (c.st.ord.numVars + 1) c f
  relProdBF := fun A code c f g => relProdStep A code (c.st.ord.numVars + 1) c f g
  rnd := fun x => x

theorem Env.plain_sound : Env.plain.Sound := by
  refine ⟨fun own lk ps m i _ _ => ⟨m, id, rfl, by simpa using i, .refl _ _, rfl, .refl _ _ _⟩,
    fun own lk ps m i => ⟨m, id, rfl, by simpa using i, .refl _ _, rfl, .refl _ _ _⟩,
    fun m _ m' _ h => by cases h; rfl,
    fun m _ m' _ h => by cases h; rfl, ?_, ?_, fun _ _ h => h, fun _ _ _ _ => rfl, ?_, ?_⟩
  · intro Γ A code hN hΓ h0 h1 c δ f ha w v l hf
    exact existsStep_ok hN hΓ h0 h1 _ rfl ha w v l hf (by omega) (by omega)
  · intro Γ A code code' hN hΓ h0 h1 hc hΓ' h0' h1' c δ f g ha w v l hf hg
    exact relProdStep_ok hN hΓ h0 h1 hc hΓ' h0' h1' _ rfl ha w v l hf hg (by omega) (by omega)
      (by omega)
  all_goals
    have hp : (0 : Rat) ≤ 1 / 2 ^ 53 := by decide +kernel
    intro x _ _
    show x ≤ x + _
    grind

namespace Mgr

variable {Γ : Nat → BFn → BFn} {leak own : Nat → Nat} {m : Mgr} {lk : Bool} {E : Env}

theorem setGCLimit_inv (i : InvG Γ leak own m) : InvG Γ leak own m.setGCLimit :=
  i.settings rfl rfl rfl rfl rfl rfl rfl rfl

theorem setGCLimit_pres : Pres own 0 m m.setGCLimit :=
  ⟨fun _ _ _ h => h, rfl, fun _ => rfl, rfl, F2.refl' fun _ _ => ⟨Assoc.Eqv.refl _, rfl⟩,
    Assoc.Eqv.refl _, rfl, rfl, rfl, rfl, rfl, rfl, fun h => h, fun _ => rfl⟩

theorem cache_pres (c : Cache) : Pres own 0 m { m with ca := c } :=
  core_pres (s' := m.st) (.refl _)

theorem InvP.settings {ps} (i : m.InvP own lk ps) {m' : Mgr} (h1 : m'.st = m.st) (h2 : m'.ca = m.ca)
    (h3 : m'.ut = m.ut) (h4 : m'.vars = m.vars) (h5 : m'.assocs = m.assocs) (h6 : m'.temp = m.temp)
    (h7 : m'.cur = m.cur) (h8 : m'.tempOp = m.tempOp) : m'.InvP own lk ps := by
  obtain ⟨Γ, leak, hl, i, ok⟩ := i
  exact ⟨Γ, leak, hl, i.settings h1 h2 h3 h4 h5 h6 h7 h8, by rw [h1]; exact ok⟩

theorem Fwd.of_same {ps} {m m' : Mgr} (h1 : m.st.Same m'.st) (h2 : m'.ut = m.ut) :
    Fwd own ps m m' id :=
  ⟨fun h e _ he => by simpa [internal, h2] using he, fun e _ F r => r.mono h1.le⟩

/-- `CalBddPostProcessing` keeps everything; it reports an overflow only if a node limit is set and
exceeded. -/
theorem postProcP_ok (S : E.Sound) {ps} (i : m.InvP own lk ps) :
    ∃ m' o φ, m.postProcP E ps = some (m', o, φ) ∧ m'.InvP own lk (ps.map φ) ∧ Pres own 0 m m' ∧
      (o = true → m'.overflow = true ∧ m'.nodeLimit ≠ 0 ∧ m'.nodeLimit < m'.st.numNodes) ∧
      (o = false → m'.overflow = m.overflow) ∧ Fwd own ps m m' φ := by
  unfold postProcP
  by_cases h0 : m.st.gcCheck > 0
  · exact ⟨m, false, id, by rw [if_pos h0], by simpa using i, .refl _ _, by simp, fun _ => rfl,
      .refl _ _ _⟩
  rw [if_neg h0]
  have i1 : Mgr.InvP own lk ps { m with st := { m.st with gcCheck := gcCheckInit } } := by
    obtain ⟨Γ, leak, hl, i, ok⟩ := i
    exact ⟨Γ, leak, hl, i.setCheck gcCheckInit, ok⟩
  have p1 : Pres own 0 m { m with st := { m.st with gcCheck := gcCheckInit } } := setCheck_pres _
  have f1 : Fwd own ps m { m with st := { m.st with gcCheck := gcCheckInit } } id :=
    Fwd.of_same ⟨rfl, rfl, rfl, rfl, rfl, rfl⟩ rfl
  revert i1 p1 f1
  generalize hm1 : ({ m with st := { m.st with gcCheck := gcCheckInit } } : Mgr) = m1
  intro i1 p1 f1
  have ho1 : m1.overflow = m.overflow := by rw [← hm1]
  by_cases h1 : m1.st.numNodes > m1.gcLimit
  · simp only [if_pos h1]
    obtain ⟨m2, hg, i2, p2, ho2, f2⟩ := i1.gc
    have hrr : ∃ m3 φ, m2.reorderOrRepack E m1.st.numNodes ps = some (m3, φ) ∧
        m3.InvP own lk (ps.map φ) ∧ Pres own 0 m2 m3 ∧ m3.overflow = m2.overflow ∧
        Fwd own ps m2 m3 φ := by
      unfold reorderOrRepack
      split
      · rename_i hc
        have i2' : Mgr.InvP own lk ps { m2 with ca := m2.ca.flush } := by
          obtain ⟨Γ, leak, hl, i2, ok⟩ := i2
          exact ⟨Γ, leak, hl, i2.cache Cache.Valid.flush, ok⟩
        obtain ⟨m3, φ, h3, i3, p3, o3, f3⟩ := S.reorder own lk ps _ i2' (fun _ => rfl) hc.2.2
        exact ⟨m3, φ, h3, i3, (cache_pres m2.ca.flush).trans p3, o3, f3.1, f3.2⟩
      · split
        · exact S.repack own lk ps m2 i2
        · exact ⟨m2, id, rfl, by simpa using i2, .refl _ _, rfl, .refl _ _ _⟩
    obtain ⟨m3, φ, h3, i3, p3, o3, f3⟩ := hrr
    simp only [hg, h3]
    have i4 : m3.setGCLimit.InvP own lk (ps.map φ) :=
      i3.settings rfl rfl rfl rfl rfl rfl rfl rfl
    have p4 : Pres own 0 m m3.setGCLimit := ((p1.trans p2).trans p3).trans setGCLimit_pres
    have o4 : m3.setGCLimit.overflow = m.overflow := (o3.trans ho2).trans ho1
    have f4 : Fwd own ps m m3.setGCLimit φ := by
      have h := (f1.trans (by simpa using f2)).trans (by simpa using f3)
      exact ⟨h.1, h.2⟩
    revert i4 p4 o4 f4
    generalize m3.setGCLimit = m4
    intro i4 p4 o4 f4
    by_cases hn : m4.nodeLimit ≠ 0 ∧ m4.st.numNodes > m4.nodeLimit
    · rw [if_pos hn]
      refine ⟨_, true, φ, rfl, i4.settings rfl rfl rfl rfl rfl rfl rfl rfl, ?_,
        fun _ => ⟨rfl, hn.1, hn.2⟩, by simp, f4.1, f4.2⟩
      exact { p4 with ovf := fun _ => rfl, noLimit := fun h => absurd (p4.nodeLimit.trans h) hn.1 }
    · rw [if_neg hn]
      refine ⟨_, false, φ, rfl, ?_, p4.trans (cache_pres _), by simp, fun _ => o4, f4.1, f4.2⟩
      obtain ⟨Γ, leak, hl, i4, ok⟩ := i4
      exact ⟨Γ, leak, hl, i4.cache (i4.ca.rehashCheck _), ok⟩
  · rw [if_neg h1]
    exact ⟨m1, false, id, rfl, by simpa using i1, p1, by simp, fun _ => ho1, f1⟩

theorem postProc_some {m' : Mgr} {o} (h : m.postProc E = some (m', o)) :
    ∃ φ, m.postProcP E [] = some (m', o, φ) := by
  simp only [postProc, Option.map_eq_some_iff] at h
  obtain ⟨⟨a, b, φ⟩, h1, h2⟩ := h
  cases h2
  exact ⟨φ, h1⟩

theorem postProc_ok (S : E.Sound) (i : m.Inv own lk) :
    ∃ m' o, m.postProc E = some (m', o) ∧ m'.Inv own lk ∧ Pres own 0 m m' ∧
      (o = true → m'.overflow = true ∧ m'.nodeLimit ≠ 0 ∧ m'.nodeLimit < m'.st.numNodes) ∧
      (o = false → m'.overflow = m.overflow) := by
  obtain ⟨m', o, φ, h, i', p, h1, h2, -⟩ := postProcP_ok S i.invP
  exact ⟨m', o, by rw [postProc, h]; rfl, i'.inv, p, h1, h2⟩

/-- the count of the node of a live handle is not zero -/
theorem InvG.ref_ne (i : InvG Γ leak own m) {a e} (h : m.ut.heap a = some e) :
    m.st.ref e.addr ≠ 0 := by
  have ok := i.uok a e h
  rcases ok.alive with h0 | h0
  · rw [h0, i.ref.const]; decide
  · have h1 := UTab.hits_ge i.ut h e.addr
    rw [hits_self] at h1
    rcases i.ref.cnt _ h0 with h2 | h2
    · rw [h2]; decide
    · have : m.ut.hits e.addr ≤ m.roots leak e.addr := by unfold roots; omega
      omega

/-- The argument check never fails on handles the user holds; it finds null arguments. -/
theorem check_ok (i : m.Inv own lk) : ∀ {hs : List Handle},
    (∀ h ∈ hs, h = Handle.null ∨ UTab.Live own h) →
    m.check hs = some (decide (Handle.null ∉ hs)) := by
  obtain ⟨Γ, leak, -, i⟩ := i
  intro hs
  induction hs with
  | nil => intro _; simp [check]
  | cons h hs ih =>
    intro hl
    have ih := ih fun x hx => hl x (by simp [hx])
    unfold check
    by_cases hn : h = Handle.null
    · rw [if_pos hn, ih]; simp [hn]
    · rw [if_neg hn]
      obtain ⟨e, he, -⟩ := i.live ((hl h (by simp)).resolve_left hn)
      have := i.ref_ne he
      simp only [internal, he, Option.map_some, Edge.phase_addr, this, if_false, ih]
      congr 1
      simp [Ne.symm hn]

theorem preProc_ok (S : E.Sound) (i : m.Inv own lk) {hs : List Handle}
    (hl : ∀ h ∈ hs, UTab.Live own h) :
    ∃ m', m.preProc E hs = some (m', true) ∧ m'.Inv own lk ∧ Pres own 0 m m' := by
  have hn : Handle.null ∉ hs := fun h => by
    obtain ⟨Γ, leak, -, i⟩ := i; exact i.live_ne (hl _ h) rfl
  obtain ⟨m', o, h, i', p, -, -⟩ := postProc_ok S i
  refine ⟨m', ?_, i', p⟩
  unfold preProc
  rw [check_ok i fun h hh => Or.inr (hl h hh)]
  simp [hn, h]

theorem preProc_null (i : m.Inv own lk) {hs : List Handle}
    (hl : ∀ h ∈ hs, h = Handle.null ∨ UTab.Live own h) (hn : Handle.null ∈ hs) :
    m.preProc E hs = some (m, false) := by
  unfold preProc
  rw [check_ok i hl]
  simp [hn]

theorem _root_.Cal.Pres.dens {own k} {m m' : Mgr} (p : Pres own k m m') {hs : List Handle} {Fs}
    (hl : ∀ h ∈ hs, UTab.Live own h) (d : F2 (Den m) hs Fs) : F2 (Den m') hs Fs := by
  induction d with
  | nil => exact .nil
  | cons h _ ih =>
    exact .cons (p.fns _ (hl _ (by simp)) _ h) (ih fun x hx => hl x (by simp [hx]))

theorem arrayPreProc_ok (S : E.Sound) : ∀ {hs : List Handle} {m : Mgr}, m.Inv own lk →
    (∀ h ∈ hs, UTab.Live own h) →
    ∃ m', m.arrayPreProc E hs = some (m', true) ∧ m'.Inv own lk ∧ Pres own 0 m m' := by
  intro hs
  induction hs with
  | nil => intro m i _; exact ⟨m, rfl, i, .refl _ _⟩
  | cons h hs ih =>
    intro m i hl
    obtain ⟨m1, h1, i1, p1⟩ := preProc_ok S i (hs := [h]) (fun x hx => hl x (by
      rw [List.mem_singleton] at hx; simp [hx]))
    obtain ⟨m2, h2, i2, p2⟩ := ih i1 fun x hx => hl x (by simp [hx])
    exact ⟨m2, by simp only [arrayPreProc, h1, h2], i2, p1.trans p2⟩

theorem internals_ok {hs : List Handle} {Fs : List BFn} (d : F2 (Den m) hs Fs) :
    ∃ es, m.internals hs = some es ∧ F2 (Rep m.st) es Fs := by
  induction d with
  | nil => exact ⟨[], rfl, .nil⟩
  | cons h _ ih =>
    obtain ⟨es, h1, h2⟩ := ih
    obtain ⟨e, he, r⟩ := h
    exact ⟨_ :: es, by simp only [internals, internal, he, Option.map_some, h1], .cons r h2⟩

/-- Outcome of an API function that returns a handle: the user owns one more reference to a handle
for `F`, or gets null because of an overflow (only if `nul`). -/
def Res (own : Nat → Nat) (lk nul : Bool) (k : Nat) (m : Mgr) (out : Option (Mgr × Handle))
    (F : BFn) : Prop :=
  ∃ m' r, out = some (m', r) ∧ Pres own k m m' ∧
    ((r ≠ Handle.null ∧ m'.Inv (bump own r.addr) lk ∧ Den m' r F) ∨
     (nul = true ∧ r = Handle.null ∧ m'.Inv own lk ∧ m'.overflow = true ∧ m'.nodeLimit ≠ 0))

/-- The last part of the operations. -/
theorem finish_ok (S : E.Sound) (i : m.Inv own lk) {r : Edge} {F} (hr : Rep m.st r F) :
    Res own lk true 0 m (m.finish E r) F := by
  obtain ⟨Γ, leak, hl, i⟩ := i
  obtain ⟨i1, p1, hne, hd, -⟩ := i.external hr.eok
  unfold finish
  revert i1 p1 hne hd
  generalize m.external r = q
  obtain ⟨m1, h⟩ := q
  intro i1 p1 hne hd
  simp only at i1 p1 hne hd ⊢
  have hd := hd F hr
  have lv : UTab.Live (bump own h.addr) h := live_bumped own h.addr h.neg
  obtain ⟨m2, o, h2, i2, p2, ho, -⟩ := postProc_ok S (m := m1) ⟨Γ, leak, hl, i1⟩
  rw [h2]
  have p12 : Pres own 0 m m2 := p1.trans (p2.weaken fun _ => live_bump)
  cases o with
  | false => exact ⟨m2, h, rfl, p12, Or.inl ⟨hne, i2, p2.fns h lv F hd⟩⟩
  | true =>
    obtain ⟨ho1, ho2, -⟩ := ho rfl
    obtain ⟨Γ2, leak2, hl2, i2⟩ := i2
    obtain ⟨m3, h3, i3, p3, -, -, o3⟩ := i2.free (h := h) (by simp [bump])
    rw [bump_drop] at i3
    obtain ⟨m4, h4, i4, p4, -, o4, -⟩ := i3.gc
    simp only [h3, h4]
    have p34 := (p3.weaken fun _ => live_bump).trans p4
    exact ⟨m4, Handle.null, rfl, p12.trans p34,
      Or.inr ⟨rfl, rfl, ⟨Γ2, leak2, hl2, i4⟩, by rw [o4, o3]; exact ho1,
        by rw [p34.nodeLimit]; exact ho2⟩⟩

/-- The last part of the functions without post-processing. -/
theorem extern_ok (i : m.Inv own lk) {r : Edge} {F} (hr : Rep m.st r F) :
    Res own lk false 0 m (m.extern r) F := by
  obtain ⟨Γ, leak, hl, i⟩ := i
  obtain ⟨i1, p1, hne, hd, -⟩ := i.external hr.eok
  exact ⟨_, _, rfl, p1, Or.inl ⟨hne, ⟨Γ, leak, hl, i1⟩, hd F hr⟩⟩

/-- Outcome of the operation proper. -/
def RunOk (own : Nat → Nat) (lk : Bool) (k : Nat) (m : Mgr) (out : Option (Mgr × Edge)) (F : BFn) :
    Prop :=
  ∃ m' r, out = some (m', r) ∧ m'.Inv own lk ∧ Pres own k m m' ∧ Rep m'.st r F

theorem RunOk.neg {own lk k m out F} (h : RunOk own lk k m out F) :
    RunOk own lk k m (negRes out) (fun ρ => !F ρ) := by
  obtain ⟨m', r, rfl, i, p, hr⟩ := h
  exact ⟨m', r.not, rfl, i, p, hr.not⟩

theorem Res.pre {own lk nul j k} {m m1 : Mgr} {out F} (p : Pres own j m m1)
    (h : Res own lk nul k m1 out F) : Res own lk nul (j + k) m out F := by
  obtain ⟨m', r, h1, h2, h3⟩ := h
  exact ⟨m', r, h1, p.trans h2, h3⟩

/-- The form shared by the operations. -/
theorem api_ok (S : E.Sound) (i : m.Inv own lk) {hs : List Handle} {Fs : List BFn}
    (hl : ∀ h ∈ hs, UTab.Live own h) (hd : F2 (Den m) hs Fs) {run last k F nul}
    (hrun : ∀ m1, m1.Inv own lk → Pres own 0 m m1 → ∀ es, F2 (Rep m1.st) es Fs →
      RunOk own lk k m1 (run m1 es) F)
    (hlast : ∀ m1 r, m1.Inv own lk → Rep m1.st r F → Res own lk nul 0 m1 (last m1 r) F) :
    Res own lk nul k m (m.api E hs run last) F := by
  obtain ⟨m1, h1, i1, p1⟩ := preProc_ok S i hl
  obtain ⟨es, h2, r2⟩ := internals_ok (p1.dens hl hd)
  obtain ⟨m2, r, h3, i3, p3, r3⟩ := hrun m1 i1 p1 es r2
  unfold api
  simp only [h1, h2, h3]
  have := Res.pre (p1.trans p3) (hlast m2 r i3 r3)
  simpa using this

/-- With a null argument the operations return null and do nothing. -/
theorem api_null (i : m.Inv own lk) {hs : List Handle}
    (hl : ∀ h ∈ hs, h = Handle.null ∨ UTab.Live own h) (hn : Handle.null ∈ hs) {run last} :
    m.api E hs run last = some (m, Handle.null) := by
  unfold api
  rw [preProc_null i hl hn]

/-- From operations on the store to operations of the manager. -/
theorem onStore_ok (i : m.Inv own lk) {out F}
    (h : ∀ δ, Lab m.st δ → OpOk m.st.Keep m.st δ out F) :
    RunOk own lk 0 m (m.onStore out) F := by
  obtain ⟨Γ, leak, hl, i⟩ := i
  obtain ⟨δ, hδ⟩ := i.wf.exists_lab
  obtain ⟨s', r, δ', rfl, w, le, ok, hδ', -, hF, k⟩ := h δ hδ
  refine ⟨_, r, rfl, ⟨Γ, leak, hl, i.core w le k (i.ca.mono le)⟩, core_pres (c' := m.ca) le, ?_⟩
  rw [← hF]; exact hδ'.rep w ok

/-- From operations on store and cache to operations of the manager. -/
theorem onCore_ok {Γ leak} (i : InvG Γ leak own m) (hl : lk = false → leak = fun _ => 0) {out F}
    (h : ∀ δ, Lab m.st δ → COk Γ ⟨m.st, m.ca⟩ δ out F) :
    RunOk own lk 0 m (m.onCore out) F := by
  obtain ⟨δ, hδ⟩ := i.wf.exists_lab
  obtain ⟨c', r, δ', rfl, x, ok, hF⟩ := h δ hδ
  refine ⟨_, r, rfl, ⟨Γ, leak, hl, i.core x.wf x.le x.keep x.ca⟩, core_pres x.le, ?_⟩
  rw [← hF]; exact x.lab.rep x.wf ok

theorem _root_.Cal.F2.one {α β : Type} {R : α → β → Prop} {a b} (h : R a b) : F2 R [a] [b] := .cons h .nil
theorem _root_.Cal.F2.two {α β : Type} {R : α → β → Prop} {a b c d} (h : R a b) (g : R c d) :
    F2 R [a, c] [b, d] := .cons h (.one g)
theorem _root_.Cal.F2.three {α β : Type} {R : α → β → Prop} {a b c d x y} (h : R a b) (g : R c d)
    (k : R x y) : F2 R [a, c, x] [b, d, y] := .cons h (.two g k)

theorem forall2 {P : Handle → Prop} {f g} (hf : P f) (hg : P g) : ∀ h ∈ [f, g], P h := by
  intro h hh
  simp only [List.mem_cons, List.not_mem_nil, or_false] at hh
  rcases hh with rfl | rfl
  · exact hf
  · exact hg

theorem forall1 {P : Handle → Prop} {f} (hf : P f) : ∀ h ∈ [f], P h := by
  intro h hh
  rw [List.mem_singleton] at hh; subst hh; exact hf

end Mgr

end Cal
