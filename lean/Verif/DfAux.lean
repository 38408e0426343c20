import Verif.DfReorder
import Verif.DfRealloc
import Verif.InteractInit
import Verif.MoveMgr
import Verif.MgrOps
import Verif.SiftPart

/-!
# A whole depth-first reordering (`CalBddReorderAuxDF`, calReorderDF.c:153-184)
-/

namespace Cal

namespace Df

/-! ## The code -/

/-- The BDDs in the table of user nodes, in the order of the bins. -/
def userBdds (u : UTab) : List Edge := u.tab.filterMap u.heap

/-- A node manager without free nodes in place 0 (`CalNodeManagerInit`, calReorderDF.c:161; the pages of
the manager that is dropped have been given back, calReorderDF.c:178-180). -/
def freshManager (s : Store) : Store := { s with free := upd s.free 0 [] }

/-- `BddConvertDataStruct` (calReorderDF.c:336-425): from the top index to the bottom, nodes with count
zero go to the free list of the new node manager; the others lose the ids of their children. -/
def convert (s : Store) : Option Store :=
  ((freshManager s).gcTables (fun _ => 0) (Store.idsByIndex s.ord)).map fun r => strip r.1

/-- The choice of the technique (calReorderDF.c:167-172; `CAL_REORDER_WINDOW` is 2). `passes` bounds the
number of passes of each window loop; the code has no bound. -/
def rearrange (L : Sift.Limits) (passes technique : Nat) (d : St) (b : Block) : Option (St × Block) :=
  if technique = 2 then Sift.reorderWindowN sys d.st.ord.numVars passes d b
  else Sift.reorderSift sys L d.st.ord.numVars d b

/-- `CalBddIsForwardedTo` (calInt.h:1362-1375) after the nodes have been copied: the forwarded node holds
the address of its copy and its id. -/
def forward (r : Rl) (e : Edge) : Edge :=
  match r.fwd e.addr with
  | some b => ⟨tagId r.st ⟨0, b, false⟩, b, e.neg⟩
  | none => e

/-- `CalReorderAssociationFix` (calAssociation.c:426-448) on one association. -/
def fixAssoc (r : Rl) (A : Assoc) : Assoc := { A with var := fun v => (A.var v).map (forward r) }

/-- The manager at the end: `BddReallocateNodes` for what is outside the unique tables
(calReorderDF.c:795-807: variables, `CalBddReorderFixUserBddPtrs`, `CalReorderAssociationFix`) and
`BddConvertDataStructBack`. -/
def finish (m : Mgr) (u : UTab) (d : St) (r : Rl) : Mgr :=
  { m with
    st := freshManager (reid r.st)
    ut := { u with heap := fun a => (u.heap a).map (forward r) }
    vars := fun v => (m.vars v).map (forward r)
    assocs := d.assocs.map fun p => { p with a := fixAssoc r p.a }
    temp := fixAssoc r d.temp }

/-- The part of `CalBddReorderAuxDF` before the exchanges (calReorderDF.c:156-166): collect the user nodes
without references, fill the interaction matrix, convert. `ps` are the results in the pipeline. -/
def enter (m : Mgr) (ps : List Edge) : Option (UTab × St) :=
  match m.ut.gc m.st with
  | none => none
  | some (u, s) =>
    match Interact.initInteract s (userBdds u ++ ps) with
    | none => none
    | some mat =>
      match convert s with
      | none => none
      | some s1 => some (u, ⟨s1, 1, m.assocs, m.temp, mat, 0, 0⟩)

/-- `CalBddReorderAuxDF` (calReorderDF.c:153-184). `ps` are the results in the pipeline, `b` is the super
block; the result has the map that forwards pipeline results
(`CalBddReorderFixProvisionalNodes`, calPipeline.c:324-362) and the new super block. -/
def reorderDF (L : Sift.Limits) (passes : Nat) (m : Mgr) (ps : List Edge) (b : Block) :
    Option (Mgr × (Edge → Edge) × Block) :=
  match enter m ps with
  | none => none
  | some (u, d0) =>
    match rearrange L passes m.technique d0 b with
    | none => none
    | some (d, b') =>
      match realloc d.st with
      | none => none
      | some r => some (finish m u d r, forward r, b')

/-! ## Proofs -/

theorem wf_fresh {s : Store} (w : s.WF) : (freshManager s).WF := by
  have sub : ∀ i a, a ∈ (freshManager s).free i → a ∈ s.free i := by
    intro i a h
    unfold freshManager at h
    by_cases hi : i = 0
    · subst hi; simp only [upd_same] at h; cases h
    · simp only [upd_ne _ _ hi] at h; exact h
  refine ⟨w.ord, w.heap0, w.var_range, w.tab_iff, w.tab_nodup, w.thn_ok, w.els_ok, w.thn_pos, w.thn_lt, w.els_lt,
    w.reduced, w.unique, w.next_pos, w.heap_next, ?_, fun i a h => w.free_ok i a (sub i a h),
    fun i j a h k => w.free_disj i j a (sub i a h) (sub j a k)⟩
  intro i
  unfold freshManager
  by_cases hi : i = 0
  · subst hi; simp only [upd_same]; exact List.nodup_nil
  · simp only [upd_ne _ _ hi]; exact w.free_nodup i

/-- counts only go down -/
theorem dcr_le (s : Store) (e : Edge) (a : Nat) : (s.dcr e).ref a ≤ s.ref a := by
  unfold Store.dcr
  by_cases h : a = e.addr
  · subst h
    simp only [upd_same]
    split <;> omega
  · simp only [upd_ne _ _ h]; exact Nat.le_refl _

theorem utab_gc_le : ∀ (as : List Nat) {u : UTab} {s : Store} {u' s'}, UTab.gcList as u s = some (u', s') →
    ∀ a, s'.ref a ≤ s.ref a
  | [], u, s, u', s', h, a => by cases h; exact Nat.le_refl _
  | b :: as, u, s, u', s', h, a => by
    unfold UTab.gcList at h
    split at h
    · cases h
    · split at h
      · exact Nat.le_trans (utab_gc_le as h a) (Nat.le_trans (dcr_le _ _ a) (dcr_le _ _ a))
      · exact utab_gc_le as h a

theorem gcList_le (k i : Nat) : ∀ (as : List Nat) {s s' fr}, Store.gcList k i as s = some (s', fr) →
    (∀ a, s'.ref a ≤ s.ref a) ∧ s'.gcCheck = s.gcCheck
  | [], s, s', fr, h => by cases h; exact ⟨fun _ => Nat.le_refl _, rfl⟩
  | b :: as, s, s', fr, h => by
    unfold Store.gcList at h
    split at h
    · cases h
    · rename_i n hn
      split at h
      · cases hx : Store.gcList k i as (s.freeNode k i b n) with
        | none => rw [hx] at h; cases h
        | some p =>
          obtain ⟨s1, fr1⟩ := p
          rw [hx] at h
          cases h
          obtain ⟨h1, h2⟩ := gcList_le k i as hx
          refine ⟨fun a => Nat.le_trans (h1 a) ?_, h2⟩
          exact Nat.le_trans (dcr_le (s.dcr n.thn) n.els a) (dcr_le s n.thn a)
      · exact gcList_le k i as h

theorem gcTables_le (κ : Nat → Nat) : ∀ (is : List Nat) {s s' : Store} {fr}, s.gcTables κ is = some (s', fr) →
    (∀ a, s'.ref a ≤ s.ref a) ∧ s'.gcCheck = s.gcCheck
  | [], s, s', fr, h => by cases h; exact ⟨fun _ => Nat.le_refl _, rfl⟩
  | i :: is, s, s', fr, h => by
    unfold Store.gcTables at h
    cases hx : s.gcTable (κ i) i with
    | none => rw [hx] at h; cases h
    | some p =>
      obtain ⟨s1, fr1⟩ := p
      rw [hx] at h
      dsimp only at h
      cases hy : s1.gcTables κ is with
      | none => rw [hy] at h; cases h
      | some q =>
        obtain ⟨s2, fr2⟩ := q
        rw [hy] at h
        cases h
        obtain ⟨k1, k2⟩ := gcTables_le κ is hy
        unfold Store.gcTable at hx
        cases hz : Store.gcList (κ i) i (s.tab i) s with
        | none => rw [hz] at hx; cases hx
        | some q =>
          obtain ⟨s3, fr3⟩ := q
          rw [hz] at hx
          cases hx
          obtain ⟨j1, j2⟩ := gcList_le _ _ _ hz
          exact ⟨fun a => Nat.le_trans (k1 a) (j1 a), k2.trans j2⟩

/-- The function depends on both variables. -/
def Dep2 (F : BFn) (u v : Nat) : Prop := ¬ Indep F u ∧ ¬ Indep F v

/-- A child that depends on two variables has a parent that does. -/
theorem dep_up {s : Store} (w : PWF s) {δ : Nat → BFn} (l : Lab s δ) {a n} (h : s.heap a = some n) {y : Nat}
    (hy : ¬ Indep (den δ n.thn) y ∨ ¬ Indep (den δ n.els) y) : ¬ Indep (δ a) y := by
  intro hi
  have kt := kid_indep w l (w.thn_lo a n h)
  have ke := kid_indep w l (w.els_lo a n h)
  have et : ∀ ρ, den δ n.thn ρ = δ a (upd ρ n.var true) := by
    intro ρ
    rw [l.node a n h, upd_same, if_pos rfl, kt]
  have ee : ∀ ρ, den δ n.els ρ = δ a (upd ρ n.var false) := by
    intro ρ
    rw [l.node a n h, upd_same, if_neg (by simp), ke]
  rcases hy with hy | hy
  · by_cases hne : n.var = y
    · exact hy (hne ▸ kt)
    · apply hy
      intro ρ b
      rw [et, et, asg_comm _ _ _ (fun h => hne h.symm), hi]
  · by_cases hne : n.var = y
    · exact hy (hne ▸ ke)
    · apply hy
      intro ρ b
      rw [ee, ee, asg_comm _ _ _ (fun h => hne h.symm), hi]

theorem indep_den {δ : Nat → BFn} {e : Edge} {y : Nat} : Indep (den δ e) y ↔ Indep (δ e.addr) y := by
  unfold Indep den
  constructor
  · intro h ρ b
    have := h ρ b
    cases e.neg <;> simpa using this
  · intro h ρ b
    simp [h ρ b]

/-- Every reachable node that depends on two variables hangs below a root that does. -/
theorem root_dep {s : Store} (w : s.WF) {ext : Nat → Nat} {δ : Nat → BFn} (l : Lab s δ) {a} (h : s.Reach ext a)
    {u v : Nat} (hd : Dep2 (δ a) u v) :
    ∃ c, s.heap c ≠ none ∧ (0 < ext c ∨ s.ref c = maxRef) ∧ Dep2 (δ c) u v := by
  induction h with
  | root ha hr => exact ⟨_, ha, hr, hd⟩
  | thn hb hn h0 ih =>
    have ls := lab_strip.2 l
    have up := fun y hy => dep_up (PWF.strip w) ls (strip_heap hn) (y := y) (Or.inl hy)
    refine ih ⟨up u ?_, up v ?_⟩
    · show ¬ Indep (den _ (stripE _)) u
      rw [den_stripE, indep_den]; exact hd.1
    · show ¬ Indep (den _ (stripE _)) v
      rw [den_stripE, indep_den]; exact hd.2
  | els hb hn h0 ih =>
    have ls := lab_strip.2 l
    have up := fun y hy => dep_up (PWF.strip w) ls (strip_heap hn) (y := y) (Or.inr hy)
    refine ih ⟨up u ?_, up v ?_⟩
    · show ¬ Indep (den _ (stripE _)) u
      rw [den_stripE, indep_den]; exact hd.1
    · show ¬ Indep (den _ (stripE _)) v
      rw [den_stripE, indep_den]; exact hd.2

/-- An edge depends on both variables: seen in the graph and in the function. -/
theorem both_iff {s : Store} (w : s.WF) {e F u v} (r : Rep s e F) (hu : u ≠ 0) (hv : v ≠ 0) :
    Interact.Both s e u v ↔ Dep2 F u v := by
  unfold Interact.Both Dep2
  rw [depends_iff w (s.ord.numVars + 1) r (by omega) hu, depends_iff w (s.ord.numVars + 1) r (by omega) hv]

/-- A user node that survives the collection, or a pipeline result, depends on both variables. -/
def Seen (m : Mgr) (ps : List Edge) (u v : Nat) : Prop :=
  (∃ x e F, m.ut.heap x = some e ∧ m.ut.ref x ≠ 0 ∧ Rep m.st e F ∧ Dep2 F u v) ∨
    ∃ e ∈ ps, ∃ F, Rep m.st e F ∧ Dep2 F u v

/-- What `CalInitInteract` (calInteract.c:165-235) does not look at is harmless: whenever a node that an association holds, or
whose count is stuck (at the maximum, or by a leaked reference), depends on two variables, so does a user BDD
or a pipeline result. -/
def Covered (m : Mgr) (leak : Nat → Nat) (ps : List Edge) : Prop :=
  ∀ a n F, m.st.heap a = some n → Rep m.st ⟨n.var, a, false⟩ F →
    (0 < listHits m.assocs m.st.ord.numVars a ∨ 0 < tabHits m.temp.var m.st.ord.numVars a ∨ 0 < leak a ∨
      m.st.ref a = maxRef) →
    ∀ u v, u ≠ v → Dep2 F u v → Seen m ps u v

theorem pend_inv {ps : List Edge} {a} (h : 0 < pend ps a) : ∃ e ∈ ps, e.addr = a := by
  induction ps with
  | nil => simp [pend] at h
  | cons e ps ih =>
    unfold pend at *
    simp only [List.map_cons, List.sum_cons] at h
    by_cases h1 : 0 < hits e a
    · exact ⟨e, List.mem_cons_self, hits_pos h1⟩
    · obtain ⟨e', h2, h3⟩ := ih (by omega)
      exact ⟨e', List.mem_cons_of_mem _ h2, h3⟩

theorem tabHits_inv {f : Nat → Option Edge} {n a} (h : 0 < tabHits f n a) :
    ∃ v e, v ≤ n ∧ f v = some e ∧ e.addr = a := by
  unfold tabHits at h
  obtain ⟨v, hv, h⟩ := sumTo_pos h
  cases hx : f v with
  | none => rw [hx] at h; simp [optHits] at h
  | some e => rw [hx] at h; exact ⟨v, e, by omega, hx, hits_pos h⟩

theorem utHits_inv {u : UTab} {a} (h : 0 < u.hits a) : ∃ x e, u.heap x = some e ∧ e.addr = a := by
  unfold UTab.hits at h
  obtain ⟨v, hv, h⟩ := sumTo_pos h
  cases hx : u.heap v with
  | none => rw [hx] at h; simp at h
  | some e => rw [hx] at h; exact ⟨v, e, hx, hits_pos h⟩

theorem mem_userBdds {u : UTab} {own} (o : u.OK own) {e} : e ∈ userBdds u ↔ ∃ x, u.heap x = some e := by
  unfold userBdds
  rw [List.mem_filterMap]
  constructor
  · rintro ⟨x, -, h⟩; exact ⟨x, h⟩
  · rintro ⟨x, h⟩; exact ⟨x, (o.tab_iff x).2 (by rw [h]; simp), h⟩

theorem dep2_var {v u w : Nat} (h : Dep2 (fun ρ => ρ v) u w) : u = w := by
  have key : ∀ y, ¬ Indep (fun ρ => ρ v) y → y = v := by
    intro y hy
    apply Classical.byContradiction
    intro hne
    exact hy fun ρ b => upd_ne _ _ (fun h => hne h.symm)
  rw [key u h.1, key w h.2]

/-- The state in which the exchanges begin. -/
structure Start (Γ : Nat → BFn → BFn) (own leak : Nat → Nat) (ps : List Edge) (m : Mgr) (u : UTab) (s : Store)
    (d0 : St) (δ0 : Nat → BFn) : Prop where
  inv : Mgr.InvG Γ (fun x => leak x + pend ps x) own { m with st := s, ut := u }
  pres : Pres own 0 m { m with st := s, ut := u }
  same : m.st.Same s
  kept : ∀ x e, m.ut.heap x = some e → m.ut.ref x ≠ 0 → u.heap x = some e
  fwd : Fwd own ps m { m with st := s, ut := u } id
  chk : s.gcCheck = m.st.gcCheck
  d : DInv (Mgr.roots { m with st := s, ut := u } fun x => leak x + pend ps x) d0
  dchk : d0.st.gcCheck = m.st.gcCheck
  das : d0.assocs = m.assocs
  dtemp : d0.temp = m.temp
  dord : d0.st.ord = m.st.ord
  lab : Lab d0.st δ0
  fns : ∀ e F, Mgr.Held { m with st := s, ut := u } (fun x => leak x + pend ps x) e → Rep s e F → den δ0 e = F
  ugc : m.ut.gc m.st = some (u, s)
  cvt : convert s = some d0.st
  zero : ∀ a n, d0.st.heap a = some n → d0.st.ref a ≠ 0

/-- The edge to a root. -/
theorem seen_root {s : Store} (w : s.WF) {e : Edge} (he : s.EOK e) {δ : Nat → BFn} (l : Lab s δ) {a u v}
    (ha : e.addr = a) (h : Dep2 (δ a) u v) (hu : u ≠ 0) (hv : v ≠ 0) : Interact.Both s e u v := by
  rw [both_iff w (l.rep w he) hu hv]
  unfold Dep2
  rw [indep_den, indep_den, ha]; exact h

theorem start_ok {Γ : Nat → BFn → BFn} {own leak : Nat → Nat} {ps : List Edge} {m : Mgr}
    (i : Mgr.InvG Γ (fun x => leak x + pend ps x) own m) (ok : ∀ e ∈ ps, m.st.EOK e)
    (hn : m.st.ord.numVars ≤ 46341) (cov : Covered m leak ps) :
    ∃ u s d0 δ0, enter m ps = some (u, d0) ∧ Start Γ own leak ps m u s d0 δ0 := by
  obtain ⟨u, s, hg, G⟩ := UTab.gcList_spec (rest := m.rest fun x => leak x + pend ps x) m.ut.tab m.ut m.st i.ut i.uok
    (fun a ha => (i.ut.tab_iff a).1 ha) i.ut.tab_nodup i.ref
  have hsame : m.st.Same s := ⟨G.ord, G.heap, G.tab, G.free, G.next, G.num⟩
  have i1 : Mgr.InvG Γ (fun x => leak x + pend ps x) own { m with st := s, ut := u } :=
    i.users hsame G.ok (fun a e h => i.uok a e (G.sub a e h)) G.ref
  have p1 : Pres own 0 m { m with st := s, ut := u } :=
    Mgr.users_pres hsame fun x l e he => G.kept _ _ he (i.ut.live_ref l)
  generalize hext : Mgr.roots { m with st := s, ut := u } (fun x => leak x + pend ps x) = ext
  have hnv : s.ord.numVars = m.st.ord.numVars := by rw [G.ord]
  have w : s.WF := i1.wf
  have rf : s.RefOK ext := by rw [← hext]; exact i1.ref
  have uok : ∀ a e, u.heap a = some e → s.EOK e := i1.uok
  have eokeq : ∀ e, m.st.EOK e → s.EOK e := by
    intro e h
    rcases h with h | ⟨n, h, h'⟩
    · exact Or.inl h
    · exact Or.inr ⟨n, by rw [G.heap]; exact h, h'⟩
  have hfs : ∀ f ∈ userBdds u ++ ps, s.EOK f := by
    intro f hf
    rcases List.mem_append.1 hf with h | h
    · obtain ⟨x, hx⟩ := (mem_userBdds G.ok).1 h
      exact uok x f hx
    · exact eokeq f (ok f h)
  obtain ⟨mat, hm, hmat⟩ := Interact.initInteract_ok w (by rw [hnv]; exact hn) hfs
  have w0 := wf_fresh w
  have g0 : (freshManager s).GCInv ext := ⟨w0, ⟨rf.const, rf.le, rf.cnt, rf.ext0⟩⟩
  obtain ⟨s1, fr, hg1, R⟩ := Store.gcTables_spec (fun _ => 0) (Store.idsByIndex s.ord) (freshManager s) g0
    (fun i hi => ((Store.mem_idsByIndex w.ord).1 hi).2) (Store.idsByIndex_sorted w.ord)
  have w1 : s1.WF := R.inv.wf
  obtain ⟨hle, hchk⟩ := gcTables_le _ _ hg1
  have hord : s1.ord = s.ord := R.shrink.ord
  obtain ⟨δ, l⟩ := w.exists_lab
  have l1 : Lab s1 δ := R.shrink.lab (s := freshManager s) ⟨l.const, l.node⟩
  have hlive : ∀ a, s1.heap a ≠ none → s1.ref a ≠ 0 := by
    intro a ha
    cases hx : s1.heap a with
    | none => exact absurd hx ha
    | some n =>
      exact R.done a n hx ((Store.mem_idsByIndex w.ord).2 (w.var_range a n (R.shrink.heap _ _ hx)))
  have hcov : ∀ x y, x ≠ 0 → y ≠ 0 → x ≠ y → (¬ ∃ f ∈ userBdds u ++ ps, Interact.Both s f x y) →
      ∀ a, s1.heap a ≠ none → ¬ Dep2 (δ a) x y := by
    intro x y hx0 hy0 hxy hno a ha hd
    obtain ⟨c, hc, hr, hd⟩ := root_dep w1 l1 (R.inv.all_reach hlive a ha) hd
    cases hcn1 : s1.heap c with
    | none => exact hc hcn1
    | some n =>
      have hcn : s.heap c = some n := R.shrink.heap c n hcn1
      have hcn' : m.st.heap c = some n := by rw [← G.heap]; exact hcn
      have rc : Rep s ⟨n.var, c, false⟩ (den δ ⟨n.var, c, false⟩) := l.rep w (Or.inr ⟨n, hcn, rfl⟩)
      have dc : den δ ⟨n.var, c, false⟩ = δ c := by funext ρ; simp [den]
      rw [dc] at rc
      have viaCov : (0 < listHits m.assocs m.st.ord.numVars c ∨ 0 < tabHits m.temp.var m.st.ord.numVars c ∨
          0 < leak c ∨ m.st.ref c = maxRef) → False := by
        intro h
        have rcm : Rep m.st ⟨n.var, c, false⟩ (δ c) := rc.mono ⟨G.ord.symm, fun a n h => by rw [← G.heap]; exact h⟩
        rcases cov c n _ hcn' rcm h x y hxy hd with ⟨z, e, F, h1, h2, h3, h4⟩ | ⟨e, h1, F, h3, h4⟩
        · exact hno ⟨e, List.mem_append_left _ ((mem_userBdds G.ok).2 ⟨z, G.kept z e h1 h2⟩),
            (both_iff w (h3.mono hsame.le) hx0 hy0).2 h4⟩
        · exact hno ⟨e, List.mem_append_right _ h1, (both_iff w (h3.mono hsame.le) hx0 hy0).2 h4⟩
      rcases hr with hr | hr
      · rw [← hext] at hr
        simp only [Mgr.roots, Mgr.rest] at hr
        by_cases h1 : 0 < u.hits c
        · obtain ⟨z, e, h2, h3⟩ := utHits_inv h1
          exact hno ⟨e, List.mem_append_left _ ((mem_userBdds G.ok).2 ⟨z, h2⟩),
            seen_root w (uok z e h2) l h3 hd hx0 hy0⟩
        · by_cases h2 : 0 < pend ps c
          · obtain ⟨e, h3, h4⟩ := pend_inv h2
            exact hno ⟨e, List.mem_append_right _ h3, seen_root w (eokeq e (ok e h3)) l h4 hd hx0 hy0⟩
          · by_cases h3 : 0 < tabHits m.vars s.ord.numVars c
            · obtain ⟨v, e, hv, h4, h5⟩ := tabHits_inv h3
              have hv1 : 1 ≤ v := by
                apply Classical.byContradiction
                intro hx
                rw [i.var0 v (by omega)] at h4; cases h4
              obtain ⟨b, k1, k2⟩ := i.var v hv1 (by rw [← hnv]; exact hv)
              rw [h4] at k1; cases k1
              cases h5
              rw [← G.heap] at k2
              have rv : Rep s ⟨v, b, false⟩ fun ρ => ρ v := by
                have := Rep.pos (s := s) k2 .one .zero
                simpa using this
              rw [hcn] at k2; cases k2
              have := rc.unique w rv
              rw [this] at hd
              exact hxy (dep2_var hd)
            · rw [hnv] at hr h3
              exact viaCov (by omega)
      · refine viaCov (Or.inr (Or.inr (Or.inr ?_)))
        have k1 := hle c
        have k2 := utab_gc_le _ hg c
        have k3 := i.ref.le c (by rw [hcn']; simp)
        have k4 : (freshManager s).ref c = s.ref c := rfl
        omega
  refine ⟨u, s, ⟨strip s1, 1, m.assocs, m.temp, mat, 0, 0⟩, δ, ?_, ?_⟩
  · unfold enter convert
    rw [show m.ut.gc m.st = some (u, s) from hg]
    simp only [hm, hg1, Option.map_some]
  · have hfwd : Fwd own ps m { m with st := s, ut := u } id := by
      refine ⟨fun h e lv he => ?_, fun e _ F r => r.mono hsame.le⟩
      simp only [Mgr.internal, id] at he ⊢
      cases hx : m.ut.heap h.addr with
      | none => rw [hx] at he; cases he
      | some e0 => rw [hx] at he; rw [G.kept _ _ hx (i.ut.live_ref lv)]; exact he
    refine ⟨i1, p1, hsame, G.kept, hfwd, G.chk, ?_, ?_, rfl, rfl, ?_, lab_strip.2 l1, ?_, hg, ?_, ?_⟩
    · rw [hext]
      refine ⟨PWF.strip w1, refOK_strip.2 R.inv.ref, R.num (show s.NumOK from hsame.numOK i.num), ?_, ?_, ?_⟩
      · intro x y x1 x2 y1 y2 hxy
        have e1 : (strip s1).ord.numVars = s.ord.numVars := by
          show s1.ord.numVars = _
          rw [hord]
        simp only [e1] at *
        obtain ⟨b, t, hb⟩ := hmat x y x1 x2 y1 y2 hxy
        refine ⟨b, t, ?_⟩
        rintro rfl
        intro δ' l' a n hna
        have hnn : s1.heap a ≠ none := fun h => by rw [strip_none.2 h] at hna; cases hna
        have h1 := lab_unique (PWF.strip w1) l' (lab_strip.2 l1) hna
        have h2 := hcov x y (by omega) (by omega) hxy (fun h => by have := hb.2 h; cases this) a hnn
        rw [h1]
        apply Classical.byContradiction
        intro hx
        exact h2 ⟨fun h => hx (Or.inl h), fun h => hx (Or.inr h)⟩
      · intro p hp
        show p.a.OK s1.ord
        rw [hord]
        exact (i1.assocs p hp).1.ok
      · show m.temp.OK s1.ord
        rw [hord]
        exact i1.temp.ok
    · show s1.gcCheck = _
      rw [hchk]; exact G.chk
    · show s1.ord = _
      rw [hord, G.ord]
    · intro e F _ r
      exact l.rep_eq r
    · unfold convert
      rw [hg1]; rfl
    · intro a n h
      exact hlive a fun h' => by rw [strip_none.2 h'] at h; cases h

theorem forward_addr (r : Rl) (e : Edge) : (forward r e).addr = r.at e.addr := by
  unfold forward Rl.at
  cases r.fwd e.addr <;> rfl

theorem forward_neg (r : Rl) (e : Edge) : (forward r e).neg = e.neg := by
  unfold forward
  cases r.fwd e.addr <;> rfl

theorem forward_phase (r : Rl) (e : Edge) (b : Bool) : forward r (e.phase b) = (forward r e).phase b := by
  have h : (e.phase b).addr = e.addr := by unfold Edge.phase; cases b <;> rfl
  unfold forward
  rw [h]
  cases r.fwd e.addr <;> cases b <;> rfl

theorem assoc_ok_map {A : Assoc} {o : Order} (h : A.OK o) (r : Rl) : (fixAssoc r A).OK o := by
  have hd : ∀ v, (fixAssoc r A).dom v ↔ A.dom v := by
    intro v
    simp [Assoc.dom, fixAssoc]
  exact ⟨fun v hv => h.rng v ((hd v).1 hv), fun v hv => h.le v ((hd v).1 hv), h.lt,
    h.ex.imp id fun ⟨v, hv, e⟩ => ⟨v, (hd v).2 hv, e⟩⟩

theorem finish_ok {Γ : Nat → BFn → BFn} {own leak : Nat → Nat} {ps : List Edge} {m : Mgr} {u : UTab} {s : Store}
    {d0 d : St} {δ0 : Nat → BFn} (S : Start Γ own leak ps m u s d0 δ0) (ok : ∀ e ∈ ps, m.st.EOK e)
    (hca : m.ca.Empty) (ht : m.technique ≠ 0)
    (I : RInv (Mgr.roots { m with st := s, ut := u } fun x => leak x + pend ps x) δ0 d0 d) :
    ∃ r, realloc d.st = some r ∧ (finish m u d r).st.ord = d.st.ord ∧
      (∃ leak', (leak = (fun _ => 0) → leak' = fun _ => 0) ∧
        Mgr.InvG Γ (fun x => leak' x + pend (ps.map (forward r)) x) own (finish m u d r)) ∧
      (∀ e ∈ ps.map (forward r), (finish m u d r).st.EOK e) ∧
      Pres own 0 m (finish m u d r) ∧ Fwd own ps m (finish m u d r) (forward r) := by
  generalize hm1 : ({ m with st := s, ut := u } : Mgr) = m1 at *
  generalize hL : (fun x => leak x + pend ps x) = L at *
  have hi := S.inv
  have hpres := S.pres
  have hfns := S.fns
  simp only [hm1, hL] at hi hpres hfns
  have st1 : m1.st = s := by rw [← hm1]
  have ut1 : m1.ut = u := by rw [← hm1]
  obtain ⟨r, hr, M, hf⟩ := realloc_spec I.inv.w
  have M' := moved_reid I.inv.w M
  have wD := I.inv.w.reid
  have w' : (reid r.st).WF := M'.wf wD
  have hnv : (reid r.st).ord.numVars = m.st.ord.numVars := by
    show r.st.ord.numVars = _
    rw [M.ord, I.nv, S.dord]
  have livem : ∀ a, 0 < m1.roots L a → a ≠ 0 → d.st.heap a ≠ none := by
    intro a h1 h2 h3
    have := I.inv.ref.ext0 a h2 h3
    omega
  have liver : ∀ a, d.st.heap a ≠ none → (reid d.st).heap a ≠ none := fun a h => mt reid_none.1 h
  have F : m1.Forwards L (freshManager (reid r.st)) r.at (forward r) := by
    refine ⟨wf_fresh w', ?_, ?_, M.zero, ?_, ?_, forward_addr r, forward_neg r, ?_, ?_⟩
    · exact (M'.numOK (show (reid d.st).NumOK from I.inv.num) : (reid r.st).NumOK)
    · show (reid r.st).ord.numVars = m1.st.ord.numVars
      rw [hnv, st1, S.same.ord]
    · intro a b a1 a0 b1 b0 h
      exact M.inj a b (livem a a1 a0) (livem b b1 b0) h
    · intro a a1 a0
      exact M.pos a (livem a a1 a0)
    · intro e G he rep
      have hden := hfns e G he (st1 ▸ rep)
      obtain ⟨δ, l, hδ⟩ := I.fns
      have hconst : e.addr = 0 → Rep (freshManager (reid r.st)) (forward r e) G := by
        intro h0
        have hid : e.id = 0 := by
          rcases he.1 with h | ⟨n, hn, -⟩
          · exact h.1
          · rw [h0, hi.wf.heap0] at hn; cases hn
        have hz : forward r e = e := by
          unfold forward
          have := M.zero
          rw [h0]
          cases hx : r.fwd 0 with
          | none => rfl
          | some b =>
            unfold Rl.at at this
            rw [hx] at this
            simp only [Option.getD_some] at this
            subst this
            exact Edge.ext' (by rw [hid]; rfl) h0.symm rfl
        rw [hz]
        have hc : e = one ∨ e = zero := by
          cases hneg : e.neg with
          | false => exact Or.inl (Edge.ext' hid h0 hneg)
          | true => exact Or.inr (Edge.ext' hid h0 hneg)
        rcases hc with rfl | rfl
        · have := rep.unique hi.wf .one; subst this; exact .one
        · have := rep.unique hi.wf .zero; subst this; exact .zero
      rcases he.2 with h0 | hpos
      · exact hconst h0
      · by_cases h0 : e.addr = 0
        · exact hconst h0
        · have hl := livem e.addr hpos h0
          cases hn : d.st.heap e.addr with
          | none => exact absurd hn hl
          | some n =>
            obtain ⟨b, hb⟩ := hf _ n hn
            have rD : Rep (reid d.st) ⟨n.var, e.addr, e.neg⟩ (den δ ⟨n.var, e.addr, e.neg⟩) :=
              (lab_reid.2 l).rep wD (Or.inr ⟨_, reid_heap hn, rfl⟩)
            have hG : den δ ⟨n.var, e.addr, e.neg⟩ = G := by
              rw [← hden]
              unfold den
              rw [hδ e.addr hpos]
            rw [hG] at rD
            have rM := M'.rep rD
            have hat : r.at e.addr = b := by unfold Rl.at; rw [hb]; rfl
            have hnb : r.st.heap b = some (mvN r.at n) := by rw [← hat]; exact M.node _ n hn
            have hb0 : b ≠ 0 := by rw [← hat]; exact M.pos _ hl
            have hfw : forward r e = mvE r.at ⟨n.var, e.addr, e.neg⟩ := by
              unfold forward
              rw [hb]
              refine Edge.ext' ?_ hat.symm rfl
              show tagId r.st ⟨0, b, false⟩ = n.var
              unfold tagId
              rw [if_neg hb0]
              show (match r.st.heap b with | some n => n.var | none => 0) = n.var
              rw [hnb]; rfl
            rw [hfw]
            exact rM.mono (⟨rfl, fun _ _ h => h⟩ : (reid r.st).Le (freshManager (reid r.st)))
    · intro ext' h1 h2
      have := M'.refOK wD (refOK_reid.2 I.inv.ref) (ext' := ext') ?_ ?_
      · exact ⟨this.const, this.le, this.cnt, this.ext0⟩
      · intro a ha
        have ha' : d.st.heap a ≠ none := mt reid_none.2 ha
        have a0 : a ≠ 0 := fun h => by subst h; exact ha' I.inv.w.heap0
        by_cases hp : 0 < m1.roots L a
        · exact h1 a hp a0
        · rw [h2 (r.at a) (M.pos a ha')]
          · omega
          · rintro ⟨c, c1, c0, hc⟩
            have := M.inj c a (livem c c1 c0) ha' hc
            subst this; exact hp c1
      · intro b b0 hb
        refine h2 b b0 ?_
        rintro ⟨c, c1, c0, rfl⟩
        have := M'.node c _ (reid_heap (Classical.choose_spec (Option.ne_none_iff_exists'.1 (livem c c1 c0))))
        rw [hb] at this; cases this
  have mvd : ∀ {A A' : Assoc}, Assoc.SameVars A A' → Assoc.Mvd (forward r) A (fixAssoc r A') := by
    rintro A A' ⟨h1, h2⟩
    exact ⟨h1, fun v => by simp only [fixAssoc, h2]⟩
  have ha : F2 (fun p q : RAssoc => Assoc.Mvd (forward r) p.a q.a ∧ q.refCount = p.refCount) m1.assocs
      (d.assocs.map fun p => { p with a := fixAssoc r p.a }) := by
    have e1 : m1.assocs = d0.assocs := by rw [← hm1, S.das]
    rw [e1]
    have key : ∀ {as bs : List RAssoc},
        F2 (fun p q : RAssoc => Assoc.SameVars p.a q.a ∧ q.refCount = p.refCount) as bs →
        F2 (fun p q : RAssoc => Assoc.Mvd (forward r) p.a q.a ∧ q.refCount = p.refCount) as
          (bs.map fun p => { p with a := fixAssoc r p.a }) := by
      intro as bs h
      induction h with
      | nil => exact .nil
      | cons h1 _ ih => exact .cons ⟨mvd h1.1, h1.2⟩ ih
    exact key I.assocs
  have ht' : Assoc.Mvd (forward r) m1.temp (fixAssoc r d.temp) := by
    have e1 : m1.temp = d0.temp := by rw [← hm1, S.dtemp]
    rw [e1]; exact mvd I.temp
  have hord : (freshManager (reid r.st)).ord = d.st.ord := M.ord
  have hfin : finish m u d r = m1.fwdAll (freshManager (reid r.st)) m.ca (forward r)
      (d.assocs.map fun p => { p with a := fixAssoc r p.a }) (fixAssoc r d.temp) := by
    rw [← hm1]; rfl
  have cav : m.ca.Valid (freshManager (reid r.st)) Γ := by
    have hv : m1.ca.Valid m1.st Γ := hi.ca
    have hc1 : m1.ca = m.ca := by rw [← hm1]
    rw [hc1] at hv
    exact ⟨fun j e h => (by rw [hca j] at h; cases h), hv.count, hv.range⟩
  have ok1 : ∀ e ∈ ps, m1.st.EOK e := by
    intro e he
    rw [st1]
    rcases ok e he with h | ⟨n, h, h'⟩
    · exact Or.inl h
    · exact Or.inr ⟨n, by rw [S.same.heap]; exact h, h'⟩
  subst hL
  obtain ⟨k1, k2⟩ := hi.fwdAll ok1 F cav ha (fun q hq => by
    obtain ⟨p, hp, rfl⟩ := List.mem_map.1 hq
    rw [hord]; exact assoc_ok_map (I.inv.assocs p hp) r) ht' (by rw [hord]; exact assoc_ok_map I.inv.temp r)
  obtain ⟨k3, k4⟩ := hi.fwd_pres ok1 F (ca' := m.ca)
    (fun h => absurd (show m.technique = 0 by rw [← hm1] at h; exact h) ht) ha ht' (forward_phase r)
  rw [← hfin] at k1 k3 k4
  refine ⟨r, hr, hord, ⟨_, ?_, k1⟩, ?_, hpres.trans k3, ?_⟩
  · rintro rfl
    funext b
    unfold Mgr.push
    split <;> rfl
  · exact k2
  · have f1 := S.fwd
    rw [hm1] at f1
    have := f1.trans (ψ := forward r) (by simpa using k4)
    exact this

/-! ## `gcCheck` -/

theorem alloc_chk (d : St) : (alloc d).2.st.gcCheck = d.st.gcCheck := by
  unfold alloc
  dsimp only
  split
  · rfl
  · split
    · split <;> rfl
    · rfl

theorem hashFindOrAdd_chk (d : St) (x t e) : (hashFindOrAdd d x t e).1.st.gcCheck = d.st.gcCheck := by
  unfold hashFindOrAdd
  split
  · rfl
  · have := alloc_chk d
    revert this
    generalize alloc d = p
    intro this
    obtain ⟨a, d1⟩ := p
    exact this

theorem findOrAdd_chk (d : St) (x t e) : (findOrAdd d x t e).1.st.gcCheck = d.st.gcCheck := by
  unfold findOrAdd
  split
  · rfl
  · have h1 := hashFindOrAdd_chk d x t e
    have h2 := hashFindOrAdd_chk d x t.not e.not
    cases t.neg <;> simp <;> split <;> assumption

theorem newChild_chk (d : St) (x t e) : (newChild d x t e).1.st.gcCheck = d.st.gcCheck := by
  unfold newChild
  have := findOrAdd_chk d x t e
  split
  rename_i h
  split at h
  · cases h; rfl
  · rw [h] at this; exact this

theorem exchangeAux_chk {d d' : St} {f x y} (h : exchangeAux d f x y = some d') :
    d'.st.gcCheck = d.st.gcCheck := by
  unfold exchangeAux at h
  split at h
  · cases h
  · split at h
    · rename_i f01 f00 f11 f10 h1 h2
      cases h
      have k1 := newChild_chk d x f10 f00
      have k2 := newChild_chk (newChild d x f10 f00).1 x f11 f01
      have : ∀ (b : Bool) (s : Store) (p q : Edge),
          (if b = true then s else (s.icr p).icr q).gcCheck = s.gcCheck := by
        intro b s p q; cases b <;> rfl
      simp only [Store.dcr]
      rw [this, this]
      exact k2.trans k1
    · cases h

theorem exchangeList_chk {x y : Nat} : ∀ (fs : List Nat) {d d' : St}, exchangeList x y fs d = some d' →
    d'.st.gcCheck = d.st.gcCheck
  | [], d, d', h => by cases h; rfl
  | f :: fs, d, d', h => by
    unfold exchangeList at h
    split at h
    · cases h
    · rename_i d1 h1
      rw [exchangeList_chk fs h]
      have := exchangeAux_chk h1
      exact this

theorem gcTable_chk {s s' : Store} {k i fr} (h : s.gcTable k i = some (s', fr)) : s'.gcCheck = s.gcCheck := by
  have := gcTables_le (s := s) (s' := s') (fr := fr ++ []) (fun _ => k) [i] (by simp [Store.gcTables, h])
  exact this.2

theorem exchange_chk {d d' : St} {x} (h : exchange d x = some d') : d'.st.gcCheck = d.st.gcCheck := by
  unfold exchange at h
  dsimp only at h
  split at h
  · split at h
    · cases h
    · rw [Option.map_eq_some_iff] at h
      obtain ⟨d1, h1, rfl⟩ := h
      show d1.st.gcCheck = _
      unfold exchangeNodes at h1
      split at h1
      · cases h1
      · split at h1
        · cases h1
        · rename_i d2 h2
          split at h1
          · cases h1
          · rename_i h3
            cases h1
            show _ = _
            rw [gcTable_chk h3]
            have := exchangeList_chk _ h2
            exact this
    · cases h; rfl
  · cases h

theorem moveList_chk (i : Nat) : ∀ (l : List Nat) {r r' : Rl}, l.foldlM (moveNode i) r = some r' →
    r'.st.gcCheck = r.st.gcCheck
  | [], r, r', h => by cases h; rfl
  | a :: l, r, r', h => by
    rw [List.foldlM_cons] at h
    cases hx : moveNode i r a with
    | none => rw [hx] at h; cases h
    | some r1 =>
      rw [hx] at h
      rw [moveList_chk i l h]
      unfold moveNode at hx
      split at hx
      · cases hx
      · cases hx; rfl

theorem realloc_chk : ∀ (k : Nat) {r r' : Rl}, reallocLoop k r = some r' → r'.st.gcCheck = r.st.gcCheck
  | 0, r, r', h => by cases h; rfl
  | k + 1, r, r', h => by
    unfold reallocLoop at h
    split at h
    · cases h
    · rename_i r1 h1
      rw [realloc_chk k h]
      unfold moveTable at h1
      rw [moveList_chk _ _ h1]

/-- The invariant of the reordering together with the countdown. -/
theorem sys_ok' {ext : Nat → Nat} {δ0 : Nat → BFn} {d0 : St} (c : Int) :
    Sift.SysOK sys (fun d => RInv ext δ0 d0 d ∧ d.st.gcCheck = c) at_ d0.st.ord.numVars := by
  refine ⟨?_, ?_⟩
  · rintro d i ⟨I, h⟩ h0 hi
    obtain ⟨d', e, I', ho⟩ := sys_ok.ex d i I h0 hi
    refine ⟨d', e, ⟨I', ?_⟩, ho⟩
    have e' : (if 0 ≤ i ∧ i < d.st.ord.numVars then exchange d (d.st.ord.indexToId i.toNat) else none) = some d' := e
    split at e'
    · rw [exchange_chk e', h]
    · cases e'
  · rintro d ⟨I, h⟩
    obtain ⟨k1, k2⟩ := sys_ok.reset d I
    exact ⟨⟨k1, h⟩, k2⟩

end Df

end Cal
