import Verif.Check
import Verif.MgrOps

/-!
# The checks pass

Each loop that takes references away is `downs` of a list of edges, each that puts them back `ups`.
What is taken away from a node is `pend` of the lists, which the invariant says is its count.
-/

namespace Cal

namespace Check

def downs : List Edge → Store → Option Store
  | [], s => some s
  | e :: es, s =>
    match down s e with
    | none => none
    | some s => downs es s

def ups : List Edge → Store → Store
  | [], s => s
  | e :: es, s => ups es (s.icr e)

theorem downs_append : ∀ (as bs : List Edge) (s : Store),
    downs (as ++ bs) s = match downs as s with | none => none | some s => downs bs s
  | [], bs, s => rfl
  | e :: as, bs, s => by
    simp only [List.cons_append, downs]
    cases down s e with
    | none => rfl
    | some s => exact downs_append as bs s

theorem ups_append : ∀ (as bs : List Edge) (s : Store), ups (as ++ bs) s = ups bs (ups as s)
  | [], _, _ => rfl
  | _ :: as, bs, _ => ups_append as bs _

theorem pend_nil (x : Nat) : pend [] x = 0 := rfl

theorem pend_cons (e : Edge) (ps : List Edge) (x : Nat) : pend (e :: ps) x = hits e x + pend ps x := by
  simp [pend]

theorem pend_append (ps qs : List Edge) (x : Nat) : pend (ps ++ qs) x = pend ps x + pend qs x := by
  simp [pend]

/-- there are enough references to take away -/
def Fits (es : List Edge) (s : Store) : Prop :=
  ∀ a, s.ref a = maxRef ∨ pend es a ≤ s.ref a ∧ (s.ref a < maxRef ∨ pend es a = 0)

theorem dcr_ref (s : Store) (e : Edge) (a : Nat) :
    (s.dcr e).ref a = if s.ref a = maxRef then maxRef else s.ref a - hits e a := by
  show upd s.ref e.addr _ a = _
  unfold upd hits
  by_cases ha : a = e.addr
  · subst ha
    rw [if_pos rfl, if_pos rfl]
  · rw [if_neg ha, if_neg (c := e.addr = a) (fun h => ha h.symm)]
    split
    · assumption
    · rfl

theorem icr_ref (s : Store) (e : Edge) (a : Nat) :
    (s.icr e).ref a = if hits e a = 0 then s.ref a else min maxRef (s.ref a + 1) := by
  show upd s.ref e.addr _ a = _
  unfold upd hits
  by_cases ha : a = e.addr
  · subst ha
    rw [if_pos rfl, if_pos rfl]
    rw [if_neg (show ¬ 1 = 0 by omega)]
    by_cases h : s.ref e.addr < maxRef
    · rw [if_pos h]; omega
    · rw [if_neg h]; omega
  · rw [if_neg ha, if_neg (c := e.addr = a) (fun h => ha h.symm), if_pos rfl]

theorem downs_eq : ∀ (es : List Edge) (s : Store), Fits es s →
    downs es s = some { s with ref := fun a => if s.ref a = maxRef then maxRef else s.ref a - pend es a }
  | [], s, _ => by
    simp only [downs, pend_nil, Nat.sub_zero]
    congr 1
    cases s
    simp only [Store.mk.injEq, true_and, and_true]
    funext a
    split
    · assumption
    · rfl
  | e :: es, s, h => by
    have h0 : s.ref e.addr ≠ 0 := by
      have := h e.addr
      simp only [pend_cons, hits, if_pos, maxRef] at this
      omega
    simp only [downs, down, if_neg h0]
    rw [downs_eq es (s.dcr e) fun a => ?_]
    · congr 1
      show ({ s with ref := _ } : Store) = _
      congr 1
      funext a
      have := h a
      rw [pend_cons] at this
      rw [dcr_ref, pend_cons]
      by_cases hm : s.ref a = maxRef
      · simp [hm]
      · rw [if_neg hm, if_neg hm]
        have := this.resolve_left hm
        rw [if_neg (by omega)]
        omega
    · have := h a
      rw [pend_cons] at this
      rw [dcr_ref]
      by_cases hm : s.ref a = maxRef
      · simp [hm]
      · rw [if_neg hm]
        right
        omega

theorem ups_eq : ∀ (es : List Edge) (s : Store),
    ups es s = { s with ref := fun a => if pend es a = 0 then s.ref a else min maxRef (s.ref a + pend es a) }
  | [], s => rfl
  | e :: es, s => by
    rw [ups, ups_eq es]
    show ({ s with ref := _ } : Store) = _
    congr 1
    funext a
    rw [icr_ref, pend_cons]
    have : hits e a = 0 ∨ hits e a = 1 := by unfold hits; split <;> simp
    rcases this with h | h
    · rw [h, if_pos rfl]
      simp only [Nat.zero_add]
    · rw [h, if_neg (show ¬ 1 = 0 by omega), if_neg (c := 1 + pend es a = 0) (by omega)]
      by_cases hp : pend es a = 0
      · rw [if_pos hp, hp]
      · rw [if_neg hp]; omega

/-- What is taken away and put back in another order leaves everything as it was. -/
theorem ups_downs {es fs : List Edge} {s : Store} (h : Fits es s) (e : ∀ a, pend fs a = pend es a) :
    ups fs { s with ref := fun a => if s.ref a = maxRef then maxRef else s.ref a - pend es a } = s := by
  rw [ups_eq]
  cases s
  simp only [Store.mk.injEq, true_and, and_true]
  funext a
  have := h a
  simp only [e] at *
  split <;> split <;> omega

/-! ## The loops -/

theorem lowerUsers_eq (u : UTab) : ∀ (as : List Nat) (s : Store), (∀ a ∈ as, u.heap a ≠ none) →
    lowerUsers u as s = downs (as.filterMap u.heap) s
  | [], _, _ => rfl
  | a :: as, s, h => by
    cases ha : u.heap a with
    | none => exact absurd ha (h a (by simp))
    | some e =>
      simp only [lowerUsers, List.filterMap_cons, ha, downs]
      cases down s e with
      | none => rfl
      | some s => exact lowerUsers_eq u as s fun b hb => h b (by simp [hb])

theorem raiseUsers_eq (u : UTab) : ∀ (as : List Nat) (s : Store), (∀ a ∈ as, u.heap a ≠ none) →
    raiseUsers u as s = some (ups (as.filterMap u.heap) s)
  | [], _, _ => rfl
  | a :: as, s, h => by
    cases ha : u.heap a with
    | none => exact absurd ha (h a (by simp))
    | some e =>
      simp only [raiseUsers, List.filterMap_cons, ha, ups]
      exact raiseUsers_eq u as _ fun b hb => h b (by simp [hb])

theorem lowerVals_eq (f : Nat → Option Edge) : ∀ (vs : List Nat) (s : Store),
    lowerVals f vs s = downs (vs.filterMap f) s
  | [], _ => rfl
  | v :: vs, s => by
    cases hv : f v with
    | none => simp only [lowerVals, List.filterMap_cons, hv]; exact lowerVals_eq f vs s
    | some e =>
      simp only [lowerVals, List.filterMap_cons, hv, downs]
      cases down s e with
      | none => rfl
      | some s => exact lowerVals_eq f vs s

theorem raiseVals_eq (f : Nat → Option Edge) : ∀ (vs : List Nat) (s : Store),
    raiseVals f vs s = ups (vs.filterMap f) s
  | [], _ => rfl
  | v :: vs, s => by
    cases hv : f v with
    | none => simp only [raiseVals, List.filterMap_cons, hv]; exact raiseVals_eq f vs s
    | some e => simp only [raiseVals, List.filterMap_cons, hv, ups]; exact raiseVals_eq f vs _

/-- the values of the associations -/
def valsOf (n : Nat) (ps : List RAssoc) : List Edge := ps.flatMap fun p => (ids n).filterMap p.a.var

theorem lowerAssocs_eq (n : Nat) : ∀ (ps : List RAssoc) (s : Store),
    lowerAssocs n ps s = downs (valsOf n ps) s
  | [], _ => rfl
  | p :: ps, s => by
    simp only [lowerAssocs, valsOf, List.flatMap_cons, downs_append, lowerVals_eq]
    cases downs _ s with
    | none => rfl
    | some s => exact lowerAssocs_eq n ps s

theorem raiseAssocs_eq (n : Nat) : ∀ (ps : List RAssoc) (s : Store),
    raiseAssocs n ps s = ups (valsOf n ps) s
  | [], _ => rfl
  | p :: ps, s => by
    simp only [raiseAssocs, valsOf, List.flatMap_cons, ups_append, raiseVals_eq]
    exact raiseAssocs_eq n ps _

/-- the children of a node -/
def kidsAt (h : Nat → Option Node) (a : Nat) : List Edge :=
  match h a with
  | none => []
  | some n => [n.thn, n.els]

theorem lowerNodes_eq (h : Nat → Option Node) : ∀ (as : List Nat) (s : Store), (∀ a ∈ as, h a ≠ none) →
    lowerNodes h as s = downs (as.flatMap (kidsAt h)) s
  | [], _, _ => rfl
  | a :: as, s, hh => by
    cases ha : h a with
    | none => exact absurd ha (hh a (by simp))
    | some n =>
      simp only [lowerNodes, List.flatMap_cons, kidsAt, ha, List.cons_append, List.nil_append, downs]
      cases down s n.thn with
      | none => rfl
      | some s =>
        dsimp only
        cases down s n.els with
        | none => rfl
        | some s => exact lowerNodes_eq h as s fun b hb => hh b (by simp [hb])

theorem raiseNodes_eq (h : Nat → Option Node) : ∀ (as : List Nat) (s : Store), (∀ a ∈ as, h a ≠ none) →
    raiseNodes h as s = some (ups (as.flatMap (kidsAt h)) s)
  | [], _, _ => rfl
  | a :: as, s, hh => by
    cases ha : h a with
    | none => exact absurd ha (hh a (by simp))
    | some n =>
      simp only [raiseNodes, List.flatMap_cons, kidsAt, ha, List.cons_append, List.nil_append, ups]
      exact raiseNodes_eq h as _ fun b hb => hh b (by simp [hb])

/-- the nodes of the given levels -/
def nodesOf (t : Store) (ks : List Nat) : List Nat := ks.flatMap fun k => t.tab (t.ord.indexToId k)

theorem lowerLevels_eq {t : Store} (w : t.WF) : ∀ (ks : List Nat) (s : Store),
    lowerLevels t ks s = downs ((nodesOf t ks).flatMap (kidsAt t.heap)) s
  | [], _ => rfl
  | k :: ks, s => by
    simp only [lowerLevels, nodesOf, List.flatMap_cons, List.flatMap_append, downs_append]
    rw [lowerNodes_eq _ _ _ fun a ha => by
      obtain ⟨n, hn, -⟩ := (w.tab_iff _ a).1 ha
      rw [hn]; simp]
    cases downs _ s with
    | none => rfl
    | some s => exact lowerLevels_eq w ks s

theorem raiseLevels_eq {t : Store} (w : t.WF) : ∀ (ks : List Nat) (s : Store),
    raiseLevels t ks s = some (ups ((nodesOf t ks).flatMap (kidsAt t.heap)) s)
  | [], _ => rfl
  | k :: ks, s => by
    simp only [raiseLevels, nodesOf, List.flatMap_cons, List.flatMap_append, ups_append]
    rw [raiseNodes_eq _ _ _ fun a ha => by
      obtain ⟨n, hn, -⟩ := (w.tab_iff _ a).1 ha
      rw [hn]; simp]
    exact raiseLevels_eq w ks _

/-! ## How many references there are -/

theorem sum_sumTo {f : Nat → Nat} : ∀ (n : Nat) (l : List Nat), l.Nodup → (∀ a ∈ l, a < n) →
    (∀ a, a < n → a ∉ l → f a = 0) → (l.map f).sum = sumTo f n
  | 0, l, _, hl, _ => by
    cases l with
    | nil => rfl
    | cons a l => have := hl a (by simp); omega
  | n + 1, l, nd, hl, hz => by
    by_cases hn : n ∈ l
    · have p := (List.perm_cons_erase hn).map f
      rw [p.sum_nat, List.map_cons, List.sum_cons, sumTo, sum_sumTo n (l.erase n) (nd.erase n)]
      · omega
      · intro a ha
        have h1 := hl a (List.mem_of_mem_erase ha)
        have : a ≠ n := fun e => by
          subst e
          exact (List.Nodup.not_mem_erase nd) ha
        omega
      · intro a ha h
        exact hz a (by omega) fun hm => h ((List.mem_erase_of_ne (by omega)).2 hm)
    · rw [sumTo, hz n (by omega) hn, sum_sumTo n l nd]
      · rfl
      · intro a ha
        have h1 := hl a ha
        have : a ≠ n := fun e => hn (e ▸ ha)
        omega
      · exact fun a ha => hz a (by omega)

theorem pend_filterMap (f : Nat → Option Edge) (x : Nat) : ∀ l : List Nat,
    pend (l.filterMap f) x = (l.map fun a => optHits (f a) x).sum
  | [] => rfl
  | a :: l => by
    have := pend_filterMap f x l
    cases ha : f a with
    | none =>
      rw [List.filterMap_cons, ha, List.map_cons, List.sum_cons, ha, this]
      exact (Nat.zero_add _).symm
    | some e =>
      rw [List.filterMap_cons, ha, List.map_cons, List.sum_cons, ha]
      show pend (e :: _) x = _
      rw [pend_cons, this]
      rfl

theorem pend_flatMap {α : Type} (f : α → List Edge) (x : Nat) : ∀ l : List α,
    pend (l.flatMap f) x = (l.map fun a => pend (f a) x).sum
  | [] => rfl
  | a :: l => by
    rw [List.flatMap_cons, pend_append, pend_flatMap f x l, List.map_cons, List.sum_cons]

theorem ids_nodup (n : Nat) : (ids n).Nodup :=
  List.pairwise_map.2 (List.nodup_range.imp fun h e => h (Nat.add_right_cancel e))

theorem mem_ids {n v : Nat} : v ∈ ids n ↔ 1 ≤ v ∧ v ≤ n := by
  simp only [ids, List.mem_map, List.mem_range]
  exact ⟨fun ⟨a, h, e⟩ => by omega, fun h => ⟨v - 1, by omega, by omega⟩⟩

theorem pend_vals {f : Nat → Option Edge} (h0 : f 0 = none) (n x : Nat) :
    pend ((ids n).filterMap f) x = tabHits f n x := by
  rw [pend_filterMap, tabHits]
  refine sum_sumTo _ _ (ids_nodup n) (fun a ha => ?_) fun a ha hn => ?_
  · have := mem_ids.1 ha; omega
  · have : a = 0 := by
      have := mt mem_ids.2 hn
      omega
    subst this
    rw [h0]; rfl

theorem pend_users {u : UTab} {own} (o : u.OK own) (x : Nat) : pend (u.tab.filterMap u.heap) x = u.hits x := by
  rw [pend_filterMap, UTab.hits]
  refine (sum_sumTo u.next _ o.tab_nodup (fun a ha => o.heap_next a ((o.tab_iff a).1 ha)) fun a _ hn => ?_).trans
    (sumTo_congr fun a _ => ?_)
  · have : u.heap a = none := Classical.byContradiction fun h => hn ((o.tab_iff a).2 h)
    rw [this]; rfl
  · cases u.heap a <;> rfl

theorem mem_nodesOf {t : Store} (w : t.WF) {a : Nat} :
    a ∈ nodesOf t (List.range t.ord.numVars) ↔ t.heap a ≠ none := by
  simp only [nodesOf, List.mem_flatMap, List.mem_range]
  constructor
  · rintro ⟨k, -, h⟩
    obtain ⟨n, hn, -⟩ := (w.tab_iff _ a).1 h
    rw [hn]; simp
  · intro h
    obtain ⟨n, hn⟩ := Option.ne_none_iff_exists'.1 h
    have hr := w.var_range _ _ hn
    exact ⟨t.ord.idToIndex n.var, w.ord.idx_lt _ hr.1 hr.2,
      (w.tab_iff _ a).2 ⟨n, hn, (w.ord.left _ hr.1 hr.2).symm⟩⟩

theorem nodesOf_nodup {t : Store} (w : t.WF) : (nodesOf t (List.range t.ord.numVars)).Nodup := by
  unfold nodesOf
  rw [List.Nodup, List.pairwise_flatMap]
  refine ⟨fun k _ => w.tab_nodup _, ?_⟩
  refine List.Pairwise.imp_of_mem ?_ List.nodup_range
  intro i j hi hj hij a ha b hb e
  subst e
  obtain ⟨n, hn, h1⟩ := (w.tab_iff _ a).1 ha
  obtain ⟨n', hn', h2⟩ := (w.tab_iff _ a).1 hb
  rw [hn] at hn'; cases hn'
  rw [List.mem_range] at hi hj
  apply hij
  rw [← w.ord.right i hi, ← w.ord.right j hj, ← h1, ← h2]

theorem pend_nodes {t : Store} (w : t.WF) (x : Nat) :
    pend ((nodesOf t (List.range t.ord.numVars)).flatMap (kidsAt t.heap)) x = t.inDeg x := by
  rw [pend_flatMap, Store.inDeg]
  refine (sum_sumTo t.next _ (nodesOf_nodup w) (fun a ha => ?_) fun a _ hn => ?_).trans
    (sumTo_congr fun a _ => ?_)
  · obtain ⟨n, hn⟩ := Option.ne_none_iff_exists'.1 ((mem_nodesOf w).1 ha)
    exact w.heap_next _ _ hn
  · have : t.heap a = none := Classical.byContradiction fun h => hn ((mem_nodesOf w).2 h)
    simp [kidsAt, this, pend]
  · unfold kidsAt Store.arcs
    cases t.heap a with
    | none => rfl
    | some n => simp [pend]

/-! ## The checks -/

/-- everything that `CalCheckRefCountValidity` (calReorderUtil.c:271-390) takes away -/
def taken (m : Mgr) : List Edge :=
  m.ut.tab.filterMap m.ut.heap ++ (valsOf m.st.ord.numVars m.assocs ++
    ((ids m.st.ord.numVars).filterMap m.temp.var ++
      (nodesOf m.st (List.range m.st.ord.numVars)).flatMap (kidsAt m.st.heap)))

theorem pend_taken {Γ leak own} {m : Mgr} (i : m.InvG Γ leak own) (x : Nat) :
    pend (taken m) x = m.ut.hits x + (listHits m.assocs m.st.ord.numVars x +
      (tabHits m.temp.var m.st.ord.numVars x + m.st.inDeg x)) := by
  have z : ∀ {A : Assoc}, A.AOK m.st → A.var 0 = none := fun {A} h => by
    cases hx : A.var 0 with
    | none => rfl
    | some e => have := (h.ok.rng 0 (by simp [Assoc.dom, hx])).1; omega
  have hv : pend (valsOf m.st.ord.numVars m.assocs) x = listHits m.assocs m.st.ord.numVars x := by
    rw [valsOf, pend_flatMap, listHits]
    congr 1
    exact List.map_congr_left fun p hp => pend_vals (z (i.assocs p hp).1.toAOK) _ x
  simp only [taken, pend_append, pend_users i.ut, hv, pend_vals (z i.temp), pend_nodes i.wf]

theorem refs_eq {Γ leak own} {m : Mgr} (i : m.InvG Γ leak own) {s : Store}
    (h : downs (taken m) m.st = some s) (hs : spent m.st s = true) (hb : ∀ fs : List Edge,
      (∀ a, pend fs a = pend (taken m) a) → ups fs s = m.st) : refs m = some m := by
  have hu : ∀ a ∈ m.ut.tab, m.ut.heap a ≠ none := fun a ha => (i.ut.tab_iff a).1 ha
  simp only [taken, downs_append] at h
  cases h1 : downs (m.ut.tab.filterMap m.ut.heap) m.st with
  | none => simp only [h1] at h; cases h
  | some s1 =>
    simp only [h1] at h
    cases h2 : downs (valsOf m.st.ord.numVars m.assocs) s1 with
    | none => simp only [h2] at h; cases h
    | some s2 =>
      simp only [h2] at h
      cases h3 : downs ((ids m.st.ord.numVars).filterMap m.temp.var) s2 with
      | none => simp only [h3] at h; cases h
      | some s3 =>
        simp only [h3] at h
        have b := hb ((nodesOf m.st (List.range m.st.ord.numVars)).flatMap (kidsAt m.st.heap) ++
          (valsOf m.st.ord.numVars m.assocs ++ ((ids m.st.ord.numVars).filterMap m.temp.var ++
            m.ut.tab.filterMap m.ut.heap))) fun a => by
          simp only [taken, pend_append]; omega
        simp only [ups_append] at b
        simp only [refs, lowerUsers_eq _ _ _ hu, h1, lowerAssocs_eq, h2, lowerVals_eq, h3,
          lowerLevels_eq i.wf, h, hs, raiseLevels_eq i.wf, raiseAssocs_eq, raiseVals_eq,
          raiseUsers_eq _ _ _ hu, b, Option.bind_eq_bind, Option.bind_some, if_true]

theorem fits {Γ leak own} {m : Mgr} (i : m.InvG Γ leak own) : Fits (taken m) m.st := by
  intro a
  rw [pend_taken i]
  by_cases hh : m.st.heap a = none
  · by_cases h0 : a = 0
    · subst h0; exact Or.inl i.ref.const
    · right
      have h1 := i.ref.ext0 a h0 hh
      have h2 : m.st.inDeg a = 0 := by
        refine sumTo_zero fun b _ => ?_
        unfold Store.arcs
        cases hb : m.st.heap b with
        | none => rfl
        | some n =>
          have ne : ∀ e, m.st.EOK e → e.addr ≠ a := by
            rintro e (⟨-, h⟩ | ⟨n', hn, -⟩) he
            · exact h0 (he ▸ h)
            · rw [he, hh] at hn; cases hn
          simp [hits, ne _ (i.wf.thn_ok _ _ hb), ne _ (i.wf.els_ok _ _ hb)]
      simp only [Mgr.roots, Mgr.rest] at h1
      omega
  · rcases i.ref.cnt a hh with h1 | h1
    · exact Or.inl h1
    · have := i.ref.le a hh
      simp only [Mgr.roots, Mgr.rest] at h1
      by_cases hm : m.st.ref a = maxRef
      · exact Or.inl hm
      · right; omega

/-- Without leaks nothing is left when all references are taken away. -/
theorem refs_ok {Γ own} {m : Mgr} (i : m.InvG Γ (fun _ => 0) own) : refs m = some m := by
  have f := fits i
  refine refs_eq i (downs_eq _ _ f) ?_ fun fs hf => ups_downs f hf
  simp only [spent, List.all_eq_true, List.mem_range, Bool.or_eq_true, beq_iff_eq]
  intro k _ a ha
  obtain ⟨n, hn, -⟩ := (i.wf.tab_iff _ a).1 ha
  have hh : m.st.heap a ≠ none := by rw [hn]; simp
  have h1 := i.ref.cnt a hh
  have h2 := i.ref.le a hh
  by_cases hm : m.st.ref a = maxRef
  · right; rw [if_pos hm]
  · rw [if_neg hm, pend_taken i]
    have := h1.resolve_left hm
    simp only [Mgr.roots, Mgr.rest, maxRef] at *
    left
    omega

theorem readable_ok {s : Store} {e : Edge} (h : s.EOK e) : readable s e = true := by
  rcases h with ⟨h, -⟩ | ⟨n, hn, h⟩
  · simp [readable, h]
  · simp [readable, Store.kids, hn]

theorem ref_ne {s : Store} {ext} (r : s.RefOK ext) (hz : ∀ a, s.heap a ≠ none → s.ref a ≠ 0) {e : Edge}
    (h : s.EOK e) : s.ref e.addr ≠ 0 := by
  rcases h with ⟨-, h⟩ | ⟨n, hn, -⟩
  · rw [h, r.const]; decide
  · exact hz _ (by rw [hn]; simp)

/-- When no count is zero, as after a garbage collection, all nodes pass. -/
theorem nodes_ok {Γ leak own} {m : Mgr} (i : m.InvG Γ leak own) (hu : ∀ a, m.ut.heap a ≠ none → m.ut.ref a ≠ 0)
    (hz : ∀ a, m.st.heap a ≠ none → m.st.ref a ≠ 0) : nodes m = true := by
  simp only [nodes, Bool.and_eq_true, List.all_eq_true, List.mem_range]
  constructor
  · intro a ha
    obtain ⟨e, he⟩ := Option.ne_none_iff_exists'.1 ((i.ut.tab_iff a).1 ha)
    have h1 := ref_ne i.ref hz (i.uok _ _ he)
    have h2 : m.st.ref 0 ≠ 0 := by rw [i.ref.const]; decide
    simp [userOk, he, hu a (by rw [he]; simp), h1, h2, readable_ok (i.uok _ _ he)]
  · intro k _ a ha
    obtain ⟨n, hn, hv⟩ := (i.wf.tab_iff _ a).1 ha
    have h1 := ref_ne i.ref hz (i.wf.thn_ok _ _ hn)
    have h2 := ref_ne i.ref hz (i.wf.els_ok _ _ hn)
    have h3 := i.wf.thn_lt _ _ hn
    have h4 := i.wf.els_lt _ _ hn
    rw [hv] at h3 h4
    simp [nodeOk, hn, hz a (by rw [hn]; simp), h1, h2, h3, h4, readable_ok (i.wf.thn_ok _ _ hn),
      readable_ok (i.wf.els_ok _ _ hn)]

theorem cache_ok {Γ leak own} {m : Mgr} (i : m.InvG Γ leak own) : cache m = true := by
  simp only [cache, List.all_eq_true, List.mem_range]
  intro j _
  cases h : m.ca.bins j with
  | none => rfl
  | some e =>
    have v := i.ca.ent j e h
    have hp : ∀ p : Ptr, m.st.POK p → pointee m.st p.addr = true := by
      rintro p (h | h)
      · simp [pointee, h]
      · simp [pointee, Option.isSome_iff_ne_none, h]
    have hr : pointee m.st e.r.addr = true := by
      rcases v.res with ⟨-, h⟩ | ⟨n, hn, -⟩
      · simp [pointee, h]
      · simp [pointee, hn]
    simp [hp _ v.p1, hp _ v.p2, hr]

theorem all_ok {Γ own} {m : Mgr} (i : m.InvG Γ (fun _ => 0) own) (hu : ∀ a, m.ut.heap a ≠ none → m.ut.ref a ≠ 0)
    (hz : ∀ a, m.st.heap a ≠ none → m.st.ref a ≠ 0) : all m = some m := by
  rw [all, if_pos (nodes_ok i hu hz), refs_ok i]
  simp only [cache_ok i, if_true]

theorem expected_ok (o : Order) (f : Nat → Option Edge) : ∀ (vs : List Nat) (l : Int),
    l ≤ expected o f vs l ∧ (∀ v ∈ vs, (f v).isSome = true → (o.idToIndex v : Int) ≤ expected o f vs l) ∧
      (expected o f vs l = l ∨ ∃ v ∈ vs, (f v).isSome = true ∧ (o.idToIndex v : Int) = expected o f vs l)
  | [], l => ⟨Int.le_refl _, by simp, Or.inl rfl⟩
  | v :: vs, l => by
    obtain ⟨h1, h2, h3⟩ := expected_ok o f vs (if (f v).isSome ∧ l < o.idToIndex v then o.idToIndex v else l)
    rw [expected]
    refine ⟨Int.le_trans ?_ h1, fun x hx hf => ?_, ?_⟩
    · split <;> omega
    · rcases List.mem_cons.1 hx with rfl | hx
      · refine Int.le_trans ?_ h1
        simp only [hf, true_and]
        split <;> omega
      · exact h2 x hx hf
    · rcases h3 with h3 | ⟨x, hx, h3⟩
      · by_cases hc : (f v).isSome = true ∧ l < o.idToIndex v
        · right
          refine ⟨v, by simp, hc.1, ?_⟩
          rw [h3, if_pos hc]
        · left
          rw [h3, if_neg hc]
      · exact Or.inr ⟨x, by simp [hx], h3⟩

theorem last_ok {s : Store} {A : Assoc} (h : A.OK s.ord) :
    expected s.ord A.var (ids s.ord.numVars) (-1) = A.last := by
  obtain ⟨h1, h2, h3⟩ := expected_ok s.ord A.var (ids s.ord.numVars) (-1)
  have le : ∀ v, (A.var v).isSome = true → (s.ord.idToIndex v : Int) ≤ A.last := fun v hv => by
    have := h.le v hv
    rwa [Order.lvl, if_neg (by have := h.rng v hv; omega)] at this
  rcases h.ex with e | ⟨v, hv, e⟩
  · rcases h3 with h3 | ⟨x, -, hx, h3⟩
    · rw [h3, e]
    · have := le x hx; omega
  · have r := h.rng v hv
    rw [Order.lvl, if_neg (by omega)] at e
    have := h2 v (mem_ids.2 r) hv
    rcases h3 with h3 | ⟨x, -, hx, h3⟩
    · omega
    · have := le x hx; omega

theorem assocs_ok {Γ leak own} {m : Mgr} (i : m.InvG Γ leak own) : assocs m = true := by
  simp only [assocs, Bool.and_eq_true, List.all_eq_true, beq_iff_eq]
  exact ⟨fun p hp => last_ok (i.assocs p hp).1.ok, last_ok i.temp.ok⟩

end Check

end Cal
