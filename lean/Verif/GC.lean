import Verif.MkNode

/-!
# Garbage collection of the unique tables (`calGC.c`)

`CalHashTableGC` on one unique table, and the loop of `Cal_BddManagerGC` over the variables. The
table of user nodes and the cache are handled in `Verif/Mgr.lean`.
-/

namespace Cal

namespace Store

/-- Body of the `if` in `CalHashTableGC` (calGC.c:183-204): unlink the node, decrement the counts of
its children and put it on the free list `k` (`CalHashTableGC` uses the one of the node manager of
`i`; depth-first reordering uses a separate one). The mark put on the freed node is
represented by the list of freed addresses that `gcList` returns. -/
def freeNode (s : Store) (k i a : Nat) (n : Node) : Store :=
  let s := (s.dcr n.thn).dcr n.els
  { s with heap := upd s.heap a none, tab := upd s.tab i ((s.tab i).erase a),
           free := upd s.free k (a :: s.free k) }

/-- The traversal of `CalHashTableGC` (calGC.c:165-204); the bins are traversed in the order of the
list. An address that holds no node is undefined behaviour (`none`). Returns the freed addresses. -/
def gcList (k i : Nat) : List Nat → Store → Option (Store × List Nat)
  | [], s => some (s, [])
  | a :: as, s =>
    match s.heap a with
    | none => none
    | some n =>
      if s.ref a = 0 then
        match gcList k i as (s.freeNode k i a n) with
        | some (s', fr) => some (s', a :: fr)
        | none => none
      else gcList k i as s

/-- `CalHashTableGC` on the unique table of a variable, and the update of `numNodes` by its caller
(calGC.c:107-109). -/
def gcTable (s : Store) (k i : Nat) : Option (Store × List Nat) :=
  match gcList k i (s.tab i) s with
  | some (s', fr) => some ({ s' with numNodes := s'.numNodes - fr.length }, fr)
  | none => none

/-- The loop over the indices in `Cal_BddManagerGC` (calGC.c:104-110); the freed nodes of table `i`
go to the free list `κ i`. -/
def gcTables (s : Store) (κ : Nat → Nat) : List Nat → Option (Store × List Nat)
  | [] => some (s, [])
  | i :: is =>
    match s.gcTable (κ i) i with
    | some (s', fr) =>
      match s'.gcTables κ is with
      | some (s'', fr') => some (s'', fr ++ fr')
      | none => none
    | none => none

/-- ids in the order of their indices, as `indexToId[0..numVars-1]` -/
def idsByIndex (o : Order) : List Nat := (List.range o.numVars).map o.indexToId

/-- The unique tables' part of `Cal_BddManagerGC` (calGC.c:90-120). -/
def gcNodes (s : Store) : Option (Store × List Nat) := s.gcTables id (idsByIndex s.ord)

/-- `s'` is `s` with some nodes removed. -/
structure Shrink (s s' : Store) : Prop where
  ord : s'.ord = s.ord
  heap : ∀ a n, s'.heap a = some n → s.heap a = some n

theorem Shrink.refl (s : Store) : s.Shrink s := ⟨rfl, fun _ _ h => h⟩
theorem Shrink.trans {s t u : Store} (h1 : s.Shrink t) (h2 : t.Shrink u) : s.Shrink u :=
  ⟨h2.ord.trans h1.ord, fun a n h => h1.heap a n (h2.heap a n h)⟩
theorem Shrink.lab {s s' : Store} (h : s.Shrink s') {δ} (l : Lab s δ) : Lab s' δ :=
  ⟨l.const, fun a n hn => l.node a n (h.heap a n hn)⟩
theorem Shrink.eok {s s' : Store} (h : s.Shrink s') {e : Edge} (l : s'.EOK e) : s.EOK e := by
  rcases l with l | ⟨n, hn, hv⟩
  · exact Or.inl l
  · exact Or.inr ⟨n, h.heap _ _ hn, hv⟩

/-- a surviving edge keeps its function -/
theorem Shrink.rep {s s' : Store} (h : s.Shrink s') (w : s.WF) (w' : s'.WF) {e F} (r : Rep s e F)
    (he : s'.EOK e) : Rep s' e F := by
  obtain ⟨δ, hδ⟩ := w.exists_lab
  have := (h.lab hδ).rep w' he
  rwa [hδ.rep_eq r] at this

end Store

/-! ## Freeing one dead node -/

theorem dcr_ne {s : Store} {e : Edge} {x : Nat} (h : x ≠ e.addr) : (s.dcr e).ref x = s.ref x := by
  simp [Store.dcr, upd_ne _ _ h]

theorem hits_le_one (e : Edge) (x : Nat) : hits e x ≤ 1 := by unfold hits; split <;> omega

/-- effect of a decrement on a count -/
theorem dcr_cnt {s : Store} {e : Edge} {x c : Nat} (hle : s.ref x ≤ maxRef)
    (h : s.ref x = maxRef ∨ s.ref x = c + hits e x) :
    (s.dcr e).ref x ≤ maxRef ∧ ((s.dcr e).ref x = maxRef ∨ (s.dcr e).ref x = c) := by
  by_cases hx : x = e.addr
  · subst hx
    simp only [Store.dcr, upd_same, hits, if_true] at h ⊢
    split <;> omega
  · have h0 : hits e x = 0 := by unfold hits; rw [if_neg (fun h => hx h.symm)]
    rw [dcr_ne hx]; omega

/-- What garbage collection needs: a well-formed store with exact counts. -/
structure Store.GCInv (s : Store) (ext : Nat → Nat) : Prop where
  wf : s.WF
  ref : s.RefOK ext

theorem Store.RefOK.no_arc {s : Store} {ext} (h : s.RefOK ext) (w : s.WF) {a b n}
    (ha : s.heap a ≠ none) (h0 : s.ref a = 0) (hn : s.heap b = some n) :
    n.thn.addr ≠ a ∧ n.els.addr ≠ a := by
  have hc : s.inDeg a = 0 := by
    rcases h.cnt a ha with h1 | h1
    · rw [h0] at h1; simp [maxRef] at h1
    · omega
  have hb := w.heap_next _ _ hn
  have := sumTo_ge (f := fun b => s.arcs b a) hb
  unfold Store.inDeg at hc
  rw [hc] at this
  simp only [Store.arcs, hn, hits] at this
  constructor <;> intro h' <;> simp [h'] at this

theorem Store.freeNode_spec {s : Store} {ext} (g : s.GCInv ext) {k i a n} (hn : s.heap a = some n)
    (hi : n.var = i) (h0 : s.ref a = 0) :
    (s.freeNode k i a n).GCInv ext ∧ s.Shrink (s.freeNode k i a n) ∧
    (s.freeNode k i a n).heap = upd s.heap a none ∧
    (s.freeNode k i a n).tab = upd s.tab i ((s.tab i).erase a) ∧
    (s.freeNode k i a n).numNodes = s.numNodes ∧ (s.freeNode k i a n).next = s.next ∧
    (∀ x, x ≠ n.thn.addr → x ≠ n.els.addr → (s.freeNode k i a n).ref x = s.ref x) := by
  subst hi
  obtain ⟨w, r⟩ := g
  have hp : ∀ b m, s.heap b = some m → m.thn.addr ≠ a ∧ m.els.addr ≠ a :=
    fun b m hm => r.no_arc w (by rw [hn]; simp) h0 hm
  have hh : (s.freeNode k n.var a n).heap = upd s.heap a none := rfl
  have htab : (s.freeNode k n.var a n).tab = upd s.tab n.var ((s.tab n.var).erase a) := rfl
  have hfree : (s.freeNode k n.var a n).free = upd s.free k (a :: s.free k) := rfl
  have hord : (s.freeNode k n.var a n).ord = s.ord := rfl
  have hnx : (s.freeNode k n.var a n).next = s.next := rfl
  have ha0 : a ≠ 0 := w.heap_pos hn
  have hmem : a ∈ s.tab n.var := (w.tab_iff _ _).2 ⟨n, hn, rfl⟩
  have back : ∀ b m, (s.freeNode k n.var a n).heap b = some m → b ≠ a ∧ s.heap b = some m := by
    intro b m hb
    rw [hh] at hb
    by_cases hba : b = a
    · subst hba; simp at hb
    · rw [upd_ne _ _ hba] at hb; exact ⟨hba, hb⟩
  have keepok : ∀ e : Edge, s.EOK e → e.addr ≠ a → (s.freeNode k n.var a n).EOK e := by
    rintro e (h | ⟨m, hm, hv⟩) hne
    · exact Or.inl h
    · exact Or.inr ⟨m, by rw [hh, upd_ne _ _ hne]; exact hm, hv⟩
  have nin : ∀ j, a ∉ s.free j := by
    intro j hj; have := (w.free_ok j a hj).1; rw [hn] at this; cases this
  have w' : (s.freeNode k n.var a n).WF := by
    refine ⟨w.ord, ?_, ?_, ?_, ?_, ?_, ?_, ?_, ?_, ?_, ?_, ?_, w.next_pos, ?_, ?_, ?_, ?_⟩
    · rw [hh]; by_cases h : (0:Nat) = a
      · exact absurd h.symm ha0
      · rw [upd_ne _ _ h]; exact w.heap0
    · intro b m hb; exact w.var_range b m (back b m hb).2
    · intro j b
      rw [htab, hh]
      by_cases hba : b = a
      · subst hba
        simp only [upd_same]
        constructor
        · intro hb
          by_cases hj : j = n.var
          · subst hj
            rw [upd_same] at hb
            have hnd := w.tab_nodup n.var
            exact absurd hb (hnd.not_mem_erase)
          · rw [upd_ne _ _ hj] at hb
            obtain ⟨m, hm, hv⟩ := (w.tab_iff _ _).1 hb
            rw [hn] at hm; cases hm; exact absurd hv.symm hj
        · rintro ⟨m, hm, _⟩; cases hm
      · rw [upd_ne _ _ hba, ← w.tab_iff]
        by_cases hj : j = n.var
        · subst hj; rw [upd_same]; exact List.mem_erase_of_ne hba
        · rw [upd_ne _ _ hj]
    · intro j
      rw [htab]
      by_cases hj : j = n.var
      · subst hj; rw [upd_same]; exact (w.tab_nodup _).erase a
      · rw [upd_ne _ _ hj]; exact w.tab_nodup j
    · intro b m hb
      obtain ⟨_, hb'⟩ := back b m hb
      exact keepok _ (w.thn_ok b m hb') (hp b m hb').1
    · intro b m hb
      obtain ⟨_, hb'⟩ := back b m hb
      exact keepok _ (w.els_ok b m hb') (hp b m hb').2
    · intro b m hb; exact w.thn_pos b m (back b m hb).2
    · intro b m hb; exact w.thn_lt b m (back b m hb).2
    · intro b m hb; exact w.els_lt b m (back b m hb).2
    · intro b m hb; exact w.reduced b m (back b m hb).2
    · intro b c m hb hc; exact w.unique b c m (back b m hb).2 (back c m hc).2
    · intro b m hb; exact w.heap_next b m (back b m hb).2
    · intro j
      rw [hfree]
      by_cases hj : j = k
      · subst hj; rw [upd_same]
        exact List.nodup_cons.2 ⟨nin _, w.free_nodup _⟩
      · rw [upd_ne _ _ hj]; exact w.free_nodup j
    · intro j b hb
      rw [hfree] at hb
      rw [hh, hnx]
      have aux : b ∈ s.free j → upd s.heap a none b = none ∧ 0 < b ∧ b < s.next := by
        intro hb
        have := w.free_ok j b hb
        by_cases hba : b = a
        · subst hba; simp [this.2]
        · rw [upd_ne _ _ hba]; exact this
      by_cases hj : j = k
      · subst hj; rw [upd_same] at hb
        rcases List.mem_cons.1 hb with rfl | hb
        · exact ⟨upd_same _ _ _, by omega, w.heap_next _ _ hn⟩
        · exact aux hb
      · rw [upd_ne _ _ hj] at hb; exact aux hb
    · intro j l b hb hc
      rw [hfree] at hb hc
      have cl : ∀ j, b ∈ upd s.free k (a :: s.free k) j →
          (b = a ∧ j = k) ∨ b ∈ s.free j := by
        intro j hb
        by_cases hj : j = k
        · subst hj; rw [upd_same] at hb
          rcases List.mem_cons.1 hb with h | h
          · exact Or.inl ⟨h, rfl⟩
          · exact Or.inr h
        · rw [upd_ne _ _ hj] at hb; exact Or.inr hb
      rcases cl j hb with ⟨h1, h2⟩ | h1 <;> rcases cl l hc with ⟨h3, h4⟩ | h3
      · rw [h2, h4]
      · subst h1; exact absurd h3 (nin _)
      · subst h3; exact absurd h1 (nin _)
      · exact w.free_disj j l b h1 h3
  have hd : ∀ x, s.inDeg x = (s.freeNode k n.var a n).inDeg x + hits n.thn x + hits n.els x := by
    intro x
    have h1 := sumTo_change (f := fun b => s.arcs b x)
      (g := fun b => (s.freeNode k n.var a n).arcs b x) (w.heap_next _ _ hn)
      (fun b hb => by simp [Store.arcs, hh, upd_ne _ _ hb])
    have h2 : (s.freeNode k n.var a n).arcs a x = 0 := Store.arcs_none (by rw [hh, upd_same])
    have h3 : s.arcs a x = hits n.thn x + hits n.els x := by simp [Store.arcs, hn]
    simp only [h2, h3] at h1
    unfold Store.inDeg
    rw [hnx]; omega
  have hr : (s.freeNode k n.var a n).ref = ((s.dcr n.thn).dcr n.els).ref := rfl
  have step : ∀ x, s.heap x ≠ none → (s.freeNode k n.var a n).ref x ≤ maxRef ∧
      ((s.freeNode k n.var a n).ref x = maxRef ∨
        (s.freeNode k n.var a n).ref x = (s.freeNode k n.var a n).inDeg x + ext x) := by
    intro x hx
    have h1 := dcr_cnt (s := s) (e := n.thn) (x := x)
      (c := (s.freeNode k n.var a n).inDeg x + ext x + hits n.els x) (r.le x hx) (by
        have := r.cnt x hx; rw [hd x] at this; omega)
    rw [hr]
    exact dcr_cnt h1.1 h1.2
  refine ⟨⟨w', ?_, ?_, ?_, ?_⟩, ⟨hord, fun b m hb => (back b m hb).2⟩, hh, htab, rfl, hnx, ?_⟩
  · have sat : ∀ (u : Store) (f : Edge), u.ref 0 = maxRef → (u.dcr f).ref 0 = maxRef := by
      intro u f hu
      by_cases hf : 0 = f.addr
      · simp [Store.dcr, ← hf, hu]
      · rw [dcr_ne hf]; exact hu
    rw [hr]; exact sat _ _ (sat _ _ r.const)
  · intro x hx
    have : s.heap x ≠ none := by
      cases hm : (s.freeNode k n.var a n).heap x with
      | none => exact absurd hm hx
      | some m => rw [(back x m hm).2]; simp
    exact (step x this).1
  · intro x hx
    have : s.heap x ≠ none := by
      cases hm : (s.freeNode k n.var a n).heap x with
      | none => exact absurd hm hx
      | some m => rw [(back x m hm).2]; simp
    exact (step x this).2
  · intro x hx0 hx
    by_cases hxa : x = a
    · subst hxa
      rcases r.cnt x (by rw [hn]; simp) with h1 | h1
      · rw [h0] at h1; simp [maxRef] at h1
      · omega
    · rw [hh, upd_ne _ _ hxa] at hx; exact r.ext0 x hx0 hx
  · intro x h1 h2
    rw [hr, dcr_ne h2, dcr_ne h1]

/-! ## One table -/

/-- Effect of collecting the addresses `as` of table `i`. -/
structure GCRes (i : Nat) (as : List Nat) (s s' : Store) (fr : List Nat) (ext : Nat → Nat) :
    Prop where
  inv : s'.GCInv ext
  shrink : s.Shrink s'
  next : s'.next = s.next
  num : s'.numNodes = s.numNodes
  sub : ∀ a, a ∈ fr → a ∈ as
  /-- nodes are removed only if they are reported -/
  kept : ∀ a n, s.heap a = some n → a ∉ fr → s'.heap a = some n
  gone : ∀ a, a ∈ fr → s'.heap a = none
  was : ∀ a, a ∈ fr → s.heap a ≠ none
  tabs : ∀ j, j ≠ i → s'.tab j = s.tab j
  len : (s'.tab i).length + fr.length = (s.tab i).length
  /-- counts change only below the level of `i` -/
  above : ∀ a n, s'.heap a = some n → s.ord.lvl n.var ≤ s.ord.lvl i → s'.ref a = s.ref a
  /-- dead nodes have been removed -/
  done : ∀ a, a ∈ as → s'.heap a ≠ none → s'.ref a ≠ 0

theorem Store.gcList_spec {ext} (k i : Nat) : ∀ (as : List Nat) (s : Store), s.GCInv ext →
    (∀ a ∈ as, a ∈ s.tab i) → as.Nodup →
    ∃ s' fr, Store.gcList k i as s = some (s', fr) ∧ GCRes i as s s' fr ext := by
  intro as
  induction as with
  | nil =>
    intro s g _ _
    exact ⟨s, [], rfl, g, Shrink.refl s, rfl, rfl, by simp, fun _ _ h _ => h, by simp, by simp,
      fun _ _ => rfl, by simp, fun _ _ _ _ => rfl, by simp⟩
  | cons a as ih =>
    intro s g hin hnd
    obtain ⟨n, hn, hv⟩ := (g.wf.tab_iff i a).1 (hin a (by simp))
    have hnd' := List.nodup_cons.1 hnd
    by_cases h0 : s.ref a = 0
    · obtain ⟨g1, sh1, hh, ht, hnum, hnx, href⟩ := Store.freeNode_spec g hn hv h0
      obtain ⟨s', fr, h2, R⟩ := ih (s.freeNode k i a n) g1 (by
        intro b hb
        rw [ht, upd_same]
        have : b ≠ a := by rintro rfl; exact hnd'.1 hb
        exact (List.mem_erase_of_ne this).2 (hin b (by simp [hb]))) hnd'.2
      refine ⟨s', a :: fr, by simp [gcList, hn, h0, h2], R.inv, sh1.trans R.shrink,
        R.next.trans hnx, R.num.trans hnum, ?_, ?_, ?_, ?_, ?_, ?_, ?_, ?_⟩
      · intro b hb
        rcases List.mem_cons.1 hb with rfl | hb
        · simp
        · exact List.mem_cons_of_mem _ (R.sub b hb)
      · intro b m hm hb
        simp only [List.mem_cons, not_or] at hb
        exact R.kept b m (by rw [hh, upd_ne _ _ hb.1]; exact hm) hb.2
      · intro b hb
        rcases List.mem_cons.1 hb with rfl | hb
        · cases hx : s'.heap b with
          | none => rfl
          | some m => have := R.shrink.heap _ _ hx; rw [hh, upd_same] at this; cases this
        · exact R.gone b hb
      · intro b hb
        rcases List.mem_cons.1 hb with rfl | hb
        · rw [hn]; simp
        · have := R.was b hb
          rw [hh] at this
          intro hc
          apply this
          by_cases hba : b = a
          · subst hba; simp
          · rw [upd_ne _ _ hba]; exact hc
      · intro j hj; rw [R.tabs j hj, ht, upd_ne _ _ hj]
      · have := R.len
        rw [ht, upd_same, List.length_erase_of_mem (hin a (by simp))] at this
        have hpos : 0 < (s.tab i).length := List.length_pos_of_mem (hin a (by simp))
        simp only [List.length_cons]; omega
      · intro b m hm' hl
        have hm := sh1.heap _ _ (R.shrink.heap _ _ hm')
        have hne : ∀ e : Edge, s.EOK e → s.ord.lvl n.var < s.ord.lvl e.id → b ≠ e.addr := by
          rintro e (⟨_, h3⟩ | ⟨k, hk, hkv⟩) hlt rfl
          · exact g.wf.heap_pos hm h3
          · rw [hm] at hk; cases hk; rw [hkv] at hl; rw [hv] at hlt; omega
        have r1 := href b (hne _ (g.wf.thn_ok _ _ hn) (g.wf.thn_lt _ _ hn))
          (hne _ (g.wf.els_ok _ _ hn) (g.wf.els_lt _ _ hn))
        rw [R.above b m hm' (by rw [sh1.ord]; exact hl), r1]
      · intro b hb hne
        rcases List.mem_cons.1 hb with rfl | hb
        · exfalso; apply hne
          cases hx : s'.heap b with
          | none => rfl
          | some m => have := R.shrink.heap _ _ hx; rw [hh, upd_same] at this; cases this
        · exact R.done b hb hne
    · obtain ⟨s', fr, h2, R⟩ := ih s g (fun b hb => hin b (by simp [hb])) hnd'.2
      refine ⟨s', fr, by simp [gcList, hn, h0, h2], R.inv, R.shrink, R.next, R.num,
        fun b hb => List.mem_cons_of_mem _ (R.sub b hb), R.kept, R.gone, R.was, R.tabs, R.len,
        R.above, ?_⟩
      intro b hb hne
      rcases List.mem_cons.1 hb with rfl | hb
      · cases hx : s'.heap b with
        | none => exact absurd hx hne
        | some m =>
          have := R.shrink.heap _ _ hx
          rw [hn] at this; cases this
          rw [R.above b n hx (by rw [hv]; omega)]; exact h0
      · exact R.done b hb hne

/-! ## All tables -/

/-- Effect of collecting the tables of `is`. -/
structure GCRess (is : List Nat) (s s' : Store) (fr : List Nat) (ext : Nat → Nat) : Prop where
  inv : s'.GCInv ext
  shrink : s.Shrink s'
  next : s'.next = s.next
  kept : ∀ a n, s.heap a = some n → a ∉ fr → s'.heap a = some n
  gone : ∀ a, a ∈ fr → s'.heap a = none
  was : ∀ a, a ∈ fr → s.heap a ≠ none
  num : s.NumOK → s'.NumOK
  count : s.NumOK → s'.numNodes + fr.length = s.numNodes
  above : ∀ a n, s'.heap a = some n → (∀ i ∈ is, s.ord.lvl n.var ≤ s.ord.lvl i) →
    s'.ref a = s.ref a
  done : ∀ a n, s'.heap a = some n → n.var ∈ is → s'.ref a ≠ 0

theorem Store.gcTable_spec {ext} {s : Store} (g : s.GCInv ext) (k : Nat) {i} (hi : i ≤ s.ord.numVars) :
    ∃ s' fr, s.gcTable k i = some (s', fr) ∧ GCRess [i] s s' fr ext := by
  obtain ⟨s', fr, h, R⟩ := Store.gcList_spec k i (s.tab i) s g (fun _ h => h) (g.wf.tab_nodup i)
  let u : Store := { s' with numNodes := s'.numNodes - fr.length }
  have hsum := sumTo_change (f := fun j => (s.tab j).length) (g := fun j => (s'.tab j).length)
    (n := s.ord.numVars + 1) (a := i) (by omega) (fun j hj => by rw [R.tabs j hj])
  have hlen := R.len
  have hl2 := sumTo_ge (f := fun j => (s.tab j).length) (n := s.ord.numVars + 1) (a := i) (by omega)
  refine ⟨u, fr, by simp [gcTable, h, u], ⟨R.inv.wf.counters _ _, ?_⟩, ⟨R.shrink.ord, R.shrink.heap⟩,
    R.next, R.kept, R.gone, R.was, ?_, ?_, ?_, ?_⟩
  · exact ⟨R.inv.ref.const, R.inv.ref.le, R.inv.ref.cnt, R.inv.ref.ext0⟩
  · intro hn
    unfold Store.NumOK at *
    show s'.numNodes - fr.length = 1 + sumTo (fun j => (s'.tab j).length) (s'.ord.numVars + 1)
    rw [R.num, R.shrink.ord]
    omega
  · intro hn
    unfold Store.NumOK at hn
    show s'.numNodes - fr.length + fr.length = s.numNodes
    rw [R.num]
    omega
  · intro a n hn hl; exact R.above a n hn (hl i (by simp))
  · intro a n hn hv
    have hm : n.var = i := by simpa using hv
    have : a ∈ s.tab i := (g.wf.tab_iff _ _).2 ⟨n, R.shrink.heap _ _ hn, hm⟩
    exact R.done a this (by show s'.heap a ≠ none; rw [hn]; simp)

/-- levels do not decrease along the list -/
def LvlSorted (o : Order) : List Nat → Prop
  | [] => True
  | i :: is => (∀ j ∈ is, o.lvl i ≤ o.lvl j) ∧ LvlSorted o is

theorem Store.gcTables_spec {ext} (κ : Nat → Nat) : ∀ (is : List Nat) (s : Store), s.GCInv ext →
    (∀ i ∈ is, i ≤ s.ord.numVars) → LvlSorted s.ord is →
    ∃ s' fr, s.gcTables κ is = some (s', fr) ∧ GCRess is s s' fr ext := by
  intro is
  induction is with
  | nil =>
    intro s g _ _
    exact ⟨s, [], rfl, g, Shrink.refl s, rfl, fun _ _ h _ => h, by simp, by simp, fun h => h,
      by simp, fun _ _ _ _ => rfl, by simp⟩
  | cons i is ih =>
    intro s g hi hs
    obtain ⟨s1, fr1, h1, R1⟩ := Store.gcTable_spec g (κ i) (hi i (by simp))
    obtain ⟨s2, fr2, h2, R2⟩ := ih s1 R1.inv (fun j hj => by rw [R1.shrink.ord]; exact hi j (by simp [hj]))
      (by rw [R1.shrink.ord]; exact hs.2)
    refine ⟨s2, fr1 ++ fr2, by simp [gcTables, h1, h2], R2.inv, R1.shrink.trans R2.shrink,
      R2.next.trans R1.next, ?_, ?_, ?_, fun h => R2.num (R1.num h), ?_, ?_, ?_⟩
    · intro a n hn ha
      simp only [List.mem_append, not_or] at ha
      exact R2.kept a n (R1.kept a n hn ha.1) ha.2
    · intro a ha
      rcases List.mem_append.1 ha with ha | ha
      · cases hx : s2.heap a with
        | none => rfl
        | some m => have := R2.shrink.heap _ _ hx; rw [R1.gone a ha] at this; cases this
      · exact R2.gone a ha
    · intro a ha
      rcases List.mem_append.1 ha with ha | ha
      · exact R1.was a ha
      · have := R2.was a ha
        cases hx : s1.heap a with
        | none => exact absurd hx this
        | some m => rw [R1.shrink.heap _ _ hx]; simp
    · intro h
      have a1 := R1.count h
      have a2 := R2.count (R1.num h)
      simp only [List.length_append]; omega
    · intro a n hn hl
      rw [R2.above a n hn (fun j hj => by rw [R1.shrink.ord]; exact hl j (by simp [hj])),
        R1.above a n (R2.shrink.heap _ _ hn) (fun j hj => hl j (by
          rw [List.mem_singleton] at hj; simp [hj]))]
    · intro a n hn hv
      by_cases hvi : n.var ∈ is
      · exact R2.done a n hn hvi
      · have hvi' : n.var = i := by
          rcases List.mem_cons.1 hv with h | h
          · exact h
          · exact absurd h hvi
        rw [R2.above a n hn (fun j hj => by rw [R1.shrink.ord, hvi']; exact hs.1 j hj)]
        exact R1.done a n (R2.shrink.heap _ _ hn) (by simp [hvi'])

theorem Store.lvlSorted_range {o : Order} (h : o.WF) : ∀ k, k ≤ o.numVars →
    LvlSorted o ((List.range' (o.numVars - k) k).map o.indexToId) := by
  intro k
  induction k with
  | zero => intro _; trivial
  | succ k ih =>
    intro hk
    rw [List.range'_succ, List.map_cons]
    have e1 : o.numVars - (k + 1) + 1 = o.numVars - k := by omega
    rw [e1]
    refine ⟨?_, ih (by omega)⟩
    intro j hj
    simp only [List.mem_map, List.mem_range'_1] at hj
    obtain ⟨x, hx, rfl⟩ := hj
    rw [h.lvl_indexToId (by omega), h.lvl_indexToId (by omega)]
    omega

theorem Store.idsByIndex_sorted {o : Order} (h : o.WF) : LvlSorted o (idsByIndex o) := by
  have := Store.lvlSorted_range h o.numVars (Nat.le_refl _)
  rwa [Nat.sub_self, ← List.range_eq_range'] at this

theorem Store.mem_idsByIndex {o : Order} (h : o.WF) {i} :
    i ∈ idsByIndex o ↔ 1 ≤ i ∧ i ≤ o.numVars := by
  simp only [idsByIndex, List.mem_map, List.mem_range]
  constructor
  · rintro ⟨k, hk, rfl⟩; exact h.id_range k hk
  · intro hi
    exact ⟨o.idToIndex i, h.idx_lt i hi.1 hi.2, h.left i hi.1 hi.2⟩

/-- Garbage collection of the unique tables: succeeds, keeps the invariants for the same outside
references, and leaves no node with count zero. -/
theorem Store.gcNodes_spec {ext} {s : Store} (g : s.GCInv ext) :
    ∃ s' fr, s.gcNodes = some (s', fr) ∧ s'.GCInv ext ∧ s.Shrink s' ∧ s'.next = s.next ∧
      (s.NumOK → s'.NumOK) ∧ (s.NumOK → s'.numNodes + fr.length = s.numNodes) ∧
      (∀ a n, s.heap a = some n → (s'.heap a = some n ∨ (a ∈ fr ∧ s'.heap a = none))) ∧
      (∀ a, a ∈ fr → s.heap a ≠ none ∧ s'.heap a = none) ∧
      (∀ a, s'.heap a ≠ none → s'.ref a ≠ 0) := by
  obtain ⟨s', fr, h, R⟩ := Store.gcTables_spec id (idsByIndex s.ord) s g
    (fun i hi => ((mem_idsByIndex g.wf.ord).1 hi).2) (idsByIndex_sorted g.wf.ord)
  refine ⟨s', fr, h, R.inv, R.shrink, R.next, R.num, R.count, ?_, fun a ha => ⟨R.was a ha, R.gone a ha⟩, ?_⟩
  · intro a n hn
    by_cases ha : a ∈ fr
    · exact Or.inr ⟨ha, R.gone a ha⟩
    · exact Or.inl (R.kept a n hn ha)
  · intro a ha
    cases hx : s'.heap a with
    | none => exact absurd hx ha
    | some n =>
      exact R.done a n hx ((mem_idsByIndex g.wf.ord).2 (g.wf.var_range a n (R.shrink.heap _ _ hx)))

/-! ## What survives -/

/-- A node lies on a path from an outside reference or from a node whose count is stuck at the
maximum. -/
inductive Store.Reach (s : Store) (ext : Nat → Nat) : Nat → Prop
  | root {a} (ha : s.heap a ≠ none) (h : 0 < ext a ∨ s.ref a = maxRef) : Reach s ext a
  | thn {a n} (h : Reach s ext a) (hn : s.heap a = some n) (h0 : n.thn.addr ≠ 0) :
      Reach s ext n.thn.addr
  | els {a n} (h : Reach s ext a) (hn : s.heap a = some n) (h0 : n.els.addr ≠ 0) :
      Reach s ext n.els.addr

theorem hits_pos {e : Edge} {x : Nat} (h : 0 < hits e x) : e.addr = x := by
  unfold hits at h
  split at h
  · assumption
  · omega

/-- a node with an arc into it has a parent above it -/
theorem Store.WF.parent {s : Store} (w : s.WF) {a n} (hn : s.heap a = some n)
    (hd : 0 < s.inDeg a) :
    ∃ b m, s.heap b = some m ∧ s.ord.lvl m.var < s.ord.lvl n.var ∧
      (m.thn.addr = a ∨ m.els.addr = a) := by
  obtain ⟨b, _, hb⟩ := sumTo_pos hd
  unfold Store.arcs at hb
  cases hm : s.heap b with
  | none => rw [hm] at hb; simp at hb
  | some m =>
    rw [hm] at hb
    have aux : ∀ e : Edge, s.EOK e → s.ord.lvl m.var < s.ord.lvl e.id → e.addr = a →
        s.ord.lvl m.var < s.ord.lvl n.var := by
      intro e he hl hh
      rcases he with ⟨_, h3⟩ | ⟨q, hq, hqv⟩
      · exact absurd (by omega) (w.heap_pos hn)
      · rw [hh, hn] at hq; cases hq; rw [hqv]; exact hl
    by_cases h1 : 0 < hits m.thn a
    · have e1 := hits_pos h1
      exact ⟨b, m, hm, aux _ (w.thn_ok _ _ hm) (w.thn_lt _ _ hm) e1, Or.inl e1⟩
    · have e1 : m.els.addr = a := hits_pos (by simp only at hb; omega)
      exact ⟨b, m, hm, aux _ (w.els_ok _ _ hm) (w.els_lt _ _ hm) e1, Or.inr e1⟩

/-- If all counts are exact and none is zero, every node is reachable. -/
theorem Store.GCInv.all_reach {s : Store} {ext} (g : s.GCInv ext)
    (h0 : ∀ a, s.heap a ≠ none → s.ref a ≠ 0) : ∀ a, s.heap a ≠ none → s.Reach ext a := by
  have key : ∀ k a n, s.heap a = some n → s.ord.lvl n.var < k → s.Reach ext a := by
    intro k
    induction k with
    | zero => intro a n hn hk; omega
    | succ k ih =>
      intro a n hn hk
      by_cases hr : 0 < ext a ∨ s.ref a = maxRef
      · exact .root (by rw [hn]; simp) hr
      · have hc := g.ref.cnt a (by rw [hn]; simp)
        have hz := h0 a (by rw [hn]; simp)
        obtain ⟨b, m, hm, hl, h | h⟩ := g.wf.parent hn (by omega)
        · have := Store.Reach.thn (ih b m hm (by omega)) hm (by rw [h]; exact g.wf.heap_pos hn)
          rwa [h] at this
        · have := Store.Reach.els (ih b m hm (by omega)) hm (by rw [h]; exact g.wf.heap_pos hn)
          rwa [h] at this
  intro a ha
  cases hn : s.heap a with
  | none => exact absurd hn ha
  | some n => exact key _ a n hn (Nat.lt_succ_self _)

end Cal
