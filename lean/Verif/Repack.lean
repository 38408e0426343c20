import Verif.DfRealloc

/-!
# Repacking: moving nodes to fewer pages (`CalRepackNodesAfterGC`)

After a garbage collection the nodes of an id may be spread over more pages than they need. Repacking moves
the nodes on the last pages to free places on the first ones and gives the last pages back.
-/

namespace Cal

namespace Rp

open Df (Rl fwdE)

/-- `NUM_NODES_PER_PAGE` (calInt.h:170) -/
abbrev perPage : Nat := 128

/-- The pages of the node manager of each id, in the order of `pageList` (calInt.h:345-352), each with the
addresses of its nodes. The store model does not record on which page a node is. -/
abbrev Pages := Nat → List (List Nat)

/-- `CalBddIdNeedsRepacking` (calInt.h:586-588). `low n p` is the comparison of doubles
`n < tableRepackThreshold * p * NUM_NODES_PER_PAGE`; `CAL_NUM_PAGES_THRESHOLD` is 3. -/
def needs (low : Nat → Nat → Bool) (pg : Pages) (s : Store) (i : Nat) : Bool :=
  decide (3 < (pg i).length) && low (s.tab i).length (pg i).length

/-- The body of the loop over the nodes of a page of an id that is not repacked (calGC.c:235-263): forward the
children. `CalUniqueTableForIdRehashNode` moves the node to another bin of the same table. -/
def fixNode (r : Rl) (a : Nat) : Rl :=
  match r.st.heap a with
  | none => r
  | some n =>
    if r.st.ref a = 0 then r
    else { r with st := { r.st with heap := upd r.st.heap a (some ⟨n.var, fwdE r.fwd n.thn, fwdE r.fwd n.els⟩) } }

/-- State of the loop over the pages of an id: the new free list and the new unique table. -/
structure Pk where
  r : Rl
  free : List Nat
  tab : List Nat

/-- The body of the loop over the nodes of an id that is repacked (calGC.c:297-337). `first`: the page is one
that stays. A node that is moved is taken out of the heap, `fwd` has the new place (in C: a null else pointer,
and the new place in the then pointer); the page it was on goes back to the system. `none`: the free list is
empty. -/
def packNode (first : Bool) (p : Pk) (a : Nat) : Option Pk :=
  match p.r.st.heap a with
  | none => some (if first then { p with free := a :: p.free } else p)
  | some n =>
    if p.r.st.ref a = 0 then
      some { p with
        r := { p.r with st := { p.r.st with heap := upd p.r.st.heap a none } }
        free := if first then a :: p.free else p.free }
    else
      let n' : Node := ⟨n.var, fwdE p.r.fwd n.thn, fwdE p.r.fwd n.els⟩
      if first then
        some { p with
          r := { p.r with st := { p.r.st with heap := upd p.r.st.heap a (some n') } }
          tab := a :: p.tab }
      else
        match p.free with
        | [] => none
        | b :: fs =>
          some
            { r :=
                { st := { p.r.st with
                    heap := upd (upd p.r.st.heap a none) b (some n')
                    ref := upd p.r.st.ref b (p.r.st.ref a) }
                  fwd := upd p.r.fwd a (some b) }
              free := fs
              tab := b :: p.tab }

/-- The pages that are kept: `numPagesRequired` (calGC.c:289-290). -/
def required (s : Store) (i : Nat) : Nat := (s.tab i).length / perPage + 1

/-- Repacking one id (calGC.c:264-356): the bins are emptied, all pages are traversed. The pages after the
first `required` are given back: their addresses are not used again. -/
def packTable (pg : Pages) (r : Rl) (i : Nat) : Option Rl :=
  let q := required r.st i
  match ((pg i).take q).flatten.foldlM (packNode true) ⟨r, [], []⟩ with
  | none => none
  | some p =>
    match ((pg i).drop q).flatten.foldlM (packNode false) p with
    | none => none
    | some p =>
      some { p.r with st := { p.r.st with tab := upd p.r.st.tab i p.tab, free := upd p.r.st.free i p.free } }

/-- The loop over the indices from the last to the first (calGC.c:224-357); the flag is `packingFlag`. -/
def packLoop (low : Nat → Nat → Bool) (pg : Pages) : Nat → Bool → Rl → Option Rl
  | 0, _, r => some r
  | k + 1, flag, r =>
    let i := r.st.ord.indexToId k
    if needs low pg r.st i then
      match packTable pg r i with
      | none => none
      | some r => packLoop low pg k true r
    else if flag then packLoop low pg k flag ((pg i).flatten.foldl fixNode r)
    else packLoop low pg k flag r

/-- All addresses on pages. -/
def addresses (pg : Pages) (numVars : Nat) : List Nat :=
  (List.range (numVars + 1)).flatMap fun i => (pg i).flatten

/-- The store model takes addresses one by one; the places of a page that have not been used may be beyond
`next`. -/
def reserve (pg : Pages) (s : Store) : Store :=
  { s with next := (addresses pg s.ord.numVars).foldl (fun n a => max n (a + 1)) s.next }

/-- `CalRepackNodesAfterGC` (calGC.c:209-357), the part about the unique tables. -/
def repackStore (low : Nat → Nat → Bool) (pg : Pages) (s : Store) : Option Rl :=
  packLoop low pg s.ord.numVars false ⟨reserve pg s, fun _ => none⟩

/-- How nodes are laid out on pages (the node managers guarantee this, see `C51_disjoint`). -/
structure Layout (s : Store) (pg : Pages) : Prop where
  size : ∀ i, ∀ p ∈ pg i, p.length = perPage
  nodup : ∀ i, (pg i).flatten.Nodup
  pos : ∀ i, 0 ∉ (pg i).flatten
  own : ∀ i, ∀ a ∈ (pg i).flatten, ∀ n, s.heap a = some n → n.var = i
  all : ∀ a n, s.heap a = some n → a ∈ (pg n.var).flatten
  free : ∀ i, ∀ a ∈ s.free i, a ∈ (pg i).flatten
  disj : ∀ i j a, a ∈ (pg i).flatten → a ∈ (pg j).flatten → i = j

/-- Invariant: the nodes in `D` are in their final state. -/
structure RpInv (s : Store) (pg : Pages) (D : Nat → Prop) (r : Rl) : Prop where
  ord : r.st.ord = s.ord
  num : r.st.numNodes = s.numNodes
  next : r.st.next = s.next
  chk : r.st.gcCheck = s.gcCheck
  keep : ∀ a n, s.heap a = some n → ¬ D a → r.st.heap a = some n ∧ r.fwd a = none
  stay : ∀ a n, s.heap a = some n → D a → r.fwd a = none → r.st.heap a = some (mvN r.at n)
  ref : ∀ a, r.fwd a = none → (a = 0 ∨ s.heap a ≠ none) → r.st.ref a = s.ref a
  move : ∀ a b, r.fwd a = some b → D a ∧ r.st.heap a = none ∧ s.heap b = none ∧ b ≠ 0 ∧
    ∃ n, s.heap a = some n ∧ b ∈ (pg n.var).flatten ∧ r.st.heap b = some (mvN r.at n) ∧ r.st.ref b = s.ref a
  inj : ∀ a a' b, r.fwd a = some b → r.fwd a' = some b → a = a'
  only : ∀ b, r.st.heap b ≠ none → ∃ a, s.heap a ≠ none ∧ r.at a = b
  kids : ∀ a n, s.heap a = some n → D a → (n.thn.addr = 0 ∨ D n.thn.addr) ∧ (n.els.addr = 0 ∨ D n.els.addr)

variable {s : Store} {pg : Pages} {D : Nat → Prop} {r : Rl}

theorem RpInv.fwd0 (w : s.heap 0 = none) (I : RpInv s pg D r) : r.fwd 0 = none := by
  cases h : r.fwd 0 with
  | none => rfl
  | some b =>
    obtain ⟨-, -, -, -, n, hn, -⟩ := I.move 0 b h
    rw [w] at hn; cases hn

theorem at_none {a} (h : r.fwd a = none) : r.at a = a := by unfold Rl.at; rw [h]; rfl

theorem at_some {a b} (h : r.fwd a = some b) : r.at a = b := by unfold Rl.at; rw [h]; rfl

theorem fixed_node (r : Rl) (n : Node) : (⟨n.var, fwdE r.fwd n.thn, fwdE r.fwd n.els⟩ : Node) = mvN r.at n := by
  unfold mvN
  rw [Df.fwdE_eq, Df.fwdE_eq]

/-- More nodes count as final because nothing has moved. -/
theorem RpInv.still (I : RpInv s pg D r) (h : ∀ a, r.fwd a = none) {D' : Nat → Prop} (hD : ∀ a, D a → D' a)
    (hk : ∀ a n, s.heap a = some n → D' a → (n.thn.addr = 0 ∨ D' n.thn.addr) ∧ (n.els.addr = 0 ∨ D' n.els.addr)) :
    RpInv s pg D' r := by
  refine ⟨I.ord, I.num, I.next, I.chk, fun a n hn hd => I.keep a n hn fun x => hd (hD a x), ?_, I.ref, ?_, I.inj,
    I.only, hk⟩
  · intro a n hn _ hf
    by_cases hd : D a
    · exact I.stay a n hn hd hf
    · rw [(I.keep a n hn hd).1]
      have e : ∀ e : Edge, mvE r.at e = e := fun e => by
        unfold mvE; rw [at_none (h _)]
      cases n
      simp only [mvN, e]
  · intro a b hb; rw [h] at hb; cases hb

/-- A node stays and gets its children forwarded. -/
theorem RpInv.inPlace (I : RpInv s pg D r) {a n} (hn : s.heap a = some n) (hd : ¬ D a)
    (hk : (n.thn.addr = 0 ∨ D n.thn.addr) ∧ (n.els.addr = 0 ∨ D n.els.addr)) :
    RpInv s pg (fun x => D x ∨ x = a)
      { r with st := { r.st with heap := upd r.st.heap a (some ⟨n.var, fwdE r.fwd n.thn, fwdE r.fwd n.els⟩) } } := by
  have ha := (I.keep a n hn hd).2
  refine ⟨I.ord, I.num, I.next, I.chk, ?_, ?_, I.ref, ?_, I.inj, ?_, ?_⟩
  · intro x m hm hx
    have hxa : x ≠ a := fun h => hx (Or.inr h)
    refine ⟨?_, (I.keep x m hm fun h => hx (Or.inl h)).2⟩
    show upd _ _ _ _ = _
    rw [upd_ne _ _ hxa]
    exact (I.keep x m hm fun h => hx (Or.inl h)).1
  · intro x m hm hx hf
    show upd _ _ _ _ = _
    by_cases hxa : x = a
    · subst hxa
      rw [hn] at hm; cases hm
      rw [upd_same, fixed_node]; rfl
    · rw [upd_ne _ _ hxa]
      rcases hx with hx | hx
      · exact I.stay x m hm hx hf
      · exact absurd hx hxa
  · intro x b hb
    obtain ⟨m1, m2, m3, m4, m, m5, m6, m7, m8⟩ := I.move x b hb
    refine ⟨Or.inl m1, ?_, m3, m4, m, m5, m6, ?_, m8⟩
    · show upd _ _ _ _ = _
      rw [upd_ne _ _ (by rintro rfl; exact hd m1)]; exact m2
    · show upd _ _ _ _ = _
      rw [upd_ne _ _ (by rintro rfl; rw [hn] at m3; cases m3)]; exact m7
  · intro b hb
    by_cases hba : b = a
    · subst hba
      exact ⟨b, by rw [hn]; simp, at_none ha⟩
    · have : r.st.heap b ≠ none := by
        intro h
        exact hb (by show upd _ _ _ _ = _; rw [upd_ne _ _ hba]; exact h)
      exact I.only b this
  · intro x m hm hx
    rcases hx with hx | rfl
    · have := I.kids x m hm hx
      exact ⟨this.1.imp id Or.inl, this.2.imp id Or.inl⟩
    · rw [hn] at hm; cases hm
      exact ⟨hk.1.imp id Or.inl, hk.2.imp id Or.inl⟩

/-- A node moves to a free place. -/
theorem RpInv.away (w : s.heap 0 = none) (I : RpInv s pg D r) {a b n} (hn : s.heap a = some n) (hd : ¬ D a)
    (hk : (n.thn.addr = 0 ∨ D n.thn.addr) ∧ (n.els.addr = 0 ∨ D n.els.addr))
    (hb : s.heap b = none) (hb' : r.st.heap b = none) (b0 : b ≠ 0) (hbp : b ∈ (pg n.var).flatten) :
    RpInv s pg (fun x => D x ∨ x = a)
      { st := { r.st with
          heap := upd (upd r.st.heap a none) b (some ⟨n.var, fwdE r.fwd n.thn, fwdE r.fwd n.els⟩)
          ref := upd r.st.ref b (r.st.ref a) }
        fwd := upd r.fwd a (some b) } := by
  have ha := I.keep a n hn hd
  have hab : a ≠ b := by rintro rfl; rw [hn] at hb; cases hb
  have hfresh : ∀ x, r.fwd x ≠ some b := by
    intro x hx
    obtain ⟨-, -, -, -, m, -, -, h, -⟩ := I.move x b hx
    rw [hb'] at h; cases h
  have a0 : a ≠ 0 := by rintro rfl; rw [w] at hn; cases hn
  -- the new addresses of final nodes do not change
  have hat : ∀ x, x ≠ a → Rl.at { st := { r.st with
          heap := upd (upd r.st.heap a none) b (some ⟨n.var, fwdE r.fwd n.thn, fwdE r.fwd n.els⟩)
          ref := upd r.st.ref b (r.st.ref a) }, fwd := upd r.fwd a (some b) } x = r.at x := by
    intro x hx
    unfold Rl.at
    show (upd r.fwd a (some b) x).getD x = _
    rw [upd_ne _ _ hx]
  have hmv : ∀ m : Node, (m.thn.addr = 0 ∨ D m.thn.addr) ∧ (m.els.addr = 0 ∨ D m.els.addr) →
      mvN (Rl.at { st := { r.st with
          heap := upd (upd r.st.heap a none) b (some ⟨n.var, fwdE r.fwd n.thn, fwdE r.fwd n.els⟩)
          ref := upd r.st.ref b (r.st.ref a) }, fwd := upd r.fwd a (some b) }) m = mvN r.at m := by
    intro m hm
    have e : ∀ e : Edge, (e.addr = 0 ∨ D e.addr) → e.addr ≠ a := by
      rintro e (h | h) rfl
      · exact a0 h
      · exact hd h
    unfold mvN mvE
    rw [hat _ (e _ hm.1), hat _ (e _ hm.2)]
  refine ⟨I.ord, I.num, I.next, I.chk, ?_, ?_, ?_, ?_, ?_, ?_, ?_⟩
  · intro x m hm hx
    have hxa : x ≠ a := fun h => hx (Or.inr h)
    have hxb : x ≠ b := by rintro rfl; rw [hm] at hb; cases hb
    have k := I.keep x m hm fun h => hx (Or.inl h)
    refine ⟨?_, ?_⟩
    · show upd (upd _ _ _) _ _ _ = _
      rw [upd_ne _ _ hxb, upd_ne _ _ hxa]; exact k.1
    · show upd _ _ _ _ = _
      rw [upd_ne _ _ hxa]; exact k.2
  · intro x m hm hx hf
    have hxa : x ≠ a := by
      rintro rfl
      have hf : upd r.fwd x (some b) x = none := hf
      rw [upd_same] at hf; cases hf
    have hxb : x ≠ b := by rintro rfl; rw [hm] at hb; cases hb
    have hx : D x := hx.resolve_right hxa
    have hf : upd r.fwd a (some b) x = none := hf
    rw [upd_ne _ _ hxa] at hf
    show upd (upd _ _ _) _ _ _ = _
    rw [upd_ne _ _ hxb, upd_ne _ _ hxa, hmv m (I.kids x m hm hx)]
    exact I.stay x m hm hx hf
  · intro x hf hx
    have hf : upd r.fwd a (some b) x = none := hf
    have hxa : x ≠ a := by rintro rfl; rw [upd_same] at hf; cases hf
    rw [upd_ne _ _ hxa] at hf
    have hxb : x ≠ b := by
      rintro rfl
      rcases hx with h | h
      · exact b0 h
      · exact h hb
    show upd _ _ _ _ = _
    rw [upd_ne _ _ hxb]; exact I.ref x hf hx
  · intro x c hc
    replace hc : upd r.fwd a (some b) x = some c := hc
    by_cases hxa : x = a
    · subst hxa
      rw [upd_same] at hc; cases hc
      refine ⟨Or.inr rfl, ?_, hb, b0, n, hn, hbp, ?_, ?_⟩
      · show upd (upd _ _ _) _ _ _ = _
        rw [upd_ne _ _ hab, upd_same]
      · show upd (upd _ _ _) _ _ _ = _
        rw [upd_same, hmv n hk, fixed_node]
      · show upd _ _ _ _ = _
        rw [upd_same]
        exact I.ref _ ha.2 (Or.inr (by rw [hn]; simp))
    · rw [upd_ne _ _ hxa] at hc
      obtain ⟨m1, m2, m3, m4, m, m5, m6, m7, m8⟩ := I.move x c hc
      have hcb : c ≠ b := by rintro rfl; exact hfresh x hc
      have hca : c ≠ a := by rintro rfl; rw [hn] at m3; cases m3
      have hxb : x ≠ b := by rintro rfl; rw [hb] at m5; cases m5
      refine ⟨Or.inl m1, ?_, m3, m4, m, m5, m6, ?_, ?_⟩
      · show upd (upd _ _ _) _ _ _ = _
        rw [upd_ne _ _ hxb, upd_ne _ _ hxa]; exact m2
      · show upd (upd _ _ _) _ _ _ = _
        rw [upd_ne _ _ hcb, upd_ne _ _ hca, hmv m (I.kids x m m5 m1)]; exact m7
      · show upd _ _ _ _ = _
        rw [upd_ne _ _ hcb]; exact m8
  · intro x y c hx hy
    replace hx : upd r.fwd a (some b) x = some c := hx
    replace hy : upd r.fwd a (some b) y = some c := hy
    by_cases hxa : x = a
    · subst hxa
      rw [upd_same] at hx; cases hx
      by_cases hya : y = x
      · exact hya.symm
      · rw [upd_ne _ _ hya] at hy; exact absurd hy (hfresh y)
    · rw [upd_ne _ _ hxa] at hx
      by_cases hya : y = a
      · subst hya
        rw [upd_same] at hy; cases hy
        exact absurd hx (hfresh x)
      · rw [upd_ne _ _ hya] at hy; exact I.inj x y c hx hy
  · intro c hc
    by_cases hcb : c = b
    · exact ⟨a, by rw [hn]; simp, by
        rw [hcb]; unfold Rl.at
        show (upd r.fwd a (some b) a).getD a = _
        rw [upd_same]; rfl⟩
    · by_cases hca : c = a
      · refine absurd ?_ hc
        show upd (upd _ _ _) _ _ _ = _
        rw [upd_ne _ _ hcb, hca, upd_same]
      · have : r.st.heap c ≠ none := by
          intro h
          refine hc ?_
          show upd (upd _ _ _) _ _ _ = _
          rw [upd_ne _ _ hcb, upd_ne _ _ hca]; exact h
        obtain ⟨x, hx, he⟩ := I.only c this
        have hxa : x ≠ a := by
          rintro rfl
          rw [at_none ha.2] at he
          exact hca he.symm
        exact ⟨x, hx, by rw [hat x hxa]; exact he⟩
  · intro x m hm hx
    rcases hx with hx | rfl
    · have := I.kids x m hm hx
      exact ⟨this.1.imp id Or.inl, this.2.imp id Or.inl⟩
    · rw [hn] at hm; cases hm
      exact ⟨hk.1.imp id Or.inl, hk.2.imp id Or.inl⟩

theorem RpInv.congr {D' : Nat → Prop} (I : RpInv s pg D r) (h : ∀ a, D a ↔ D' a) : RpInv s pg D' r := by
  have : D = D' := funext fun a => propext (h a)
  rw [← this]; exact I

/-! ## The loops over the nodes -/

/-- Lists without repetition and with the same elements are permutations of each other. -/
theorem perm_of_mem {l l' : List Nat} (h : l.Nodup) (h' : l'.Nodup) (e : ∀ a, a ∈ l ↔ a ∈ l') : l.Perm l' := by
  induction l generalizing l' with
  | nil =>
    cases l' with
    | nil => exact .nil
    | cons b t => exact absurd ((e b).2 List.mem_cons_self) (by simp)
  | cons a t ih =>
    have ha : a ∈ l' := (e a).1 List.mem_cons_self
    have hn := List.nodup_cons.1 h
    refine List.Perm.trans (List.Perm.cons a (ih hn.2 (h'.erase a) ?_)) (List.perm_cons_erase ha).symm
    intro x
    rw [h'.mem_erase_iff, ← e x, List.mem_cons]
    constructor
    · intro hx; exact ⟨fun hxa => hn.1 (hxa ▸ hx), Or.inr hx⟩
    · rintro ⟨h1, h2⟩; exact h2.resolve_left h1

/-- A place that was free and has not been taken. -/
theorem RpInv.dead (I : RpInv s pg D r) {a} (h : s.heap a = none) (hf : ∀ x, r.fwd x ≠ some a) :
    r.st.heap a = none := by
  cases hr : r.st.heap a with
  | none => rfl
  | some n =>
    obtain ⟨x, hx, e⟩ := I.only a (by rw [hr]; simp)
    cases hxf : r.fwd x with
    | none => rw [at_none hxf] at e; rw [e] at hx; exact absurd h hx
    | some b => rw [at_some hxf] at e; exact absurd (by rw [hxf, e]) (hf x)

/-- What the loops over nodes need to know about a list of places: they are not final, their children are. -/
structure Todo (s : Store) (D : Nat → Prop) (r : Rl) (l : List Nat) : Prop where
  nodup : l.Nodup
  new : ∀ a ∈ l, s.heap a ≠ none → ¬ D a
  kids : ∀ a ∈ l, ∀ n, s.heap a = some n → (n.thn.addr = 0 ∨ D n.thn.addr) ∧ (n.els.addr = 0 ∨ D n.els.addr)
  live : ∀ a ∈ l, s.heap a ≠ none → s.ref a ≠ 0
  free : ∀ a ∈ l, ∀ x, r.fwd x ≠ some a

/-- the places of `l` with a node -/
def liveB (s : Store) (a : Nat) : Bool := (s.heap a).isSome

theorem Todo.tail {a l} (T : Todo s D r (a :: l)) : Todo s D r l :=
  ⟨(List.nodup_cons.1 T.nodup).2, fun x hx => T.new x (List.mem_cons_of_mem _ hx),
    fun x hx => T.kids x (List.mem_cons_of_mem _ hx), fun x hx => T.live x (List.mem_cons_of_mem _ hx),
    fun x hx => T.free x (List.mem_cons_of_mem _ hx)⟩

/-- after the first one -/
theorem Todo.step {a l} (T : Todo s D r (a :: l)) {r' : Rl}
    (hr : ∀ x b, r'.fwd x = some b → r.fwd x = some b ∨ b ∉ l) : Todo s (fun x => D x ∨ x = a) r' l := by
  have hn := List.nodup_cons.1 T.nodup
  refine ⟨hn.2, fun x hx h => ?_, fun x hx n h => ?_, T.tail.live, fun x hx y h => ?_⟩
  · rintro (hd | rfl)
    · exact T.new x (List.mem_cons_of_mem _ hx) h hd
    · exact hn.1 hx
  · have := T.kids x (List.mem_cons_of_mem _ hx) n h
    exact ⟨this.1.imp id Or.inl, this.2.imp id Or.inl⟩
  · rcases hr y x h with h | h
    · exact T.free x (List.mem_cons_of_mem _ hx) y h
    · exact h hx

theorem fix_fold (l : List Nat) : ∀ (D : Nat → Prop) (r : Rl), RpInv s pg D r → Todo s D r l →
    RpInv s pg (fun x => D x ∨ (x ∈ l ∧ s.heap x ≠ none)) (l.foldl fixNode r) ∧
      (l.foldl fixNode r).fwd = r.fwd ∧ (l.foldl fixNode r).st.tab = r.st.tab ∧
      (l.foldl fixNode r).st.free = r.st.free := by
  induction l with
  | nil =>
    intro D r I _
    exact ⟨I.congr fun a => by simp, rfl, rfl, rfl⟩
  | cons a l ih =>
    intro D r I T
    cases hn : s.heap a with
    | none =>
      have hr : r.st.heap a = none := I.dead hn (T.free a List.mem_cons_self)
      have e : fixNode r a = r := by unfold fixNode; rw [hr]
      rw [List.foldl_cons, e]
      obtain ⟨h1, h2⟩ := ih D r I T.tail
      refine ⟨h1.congr fun x => ?_, h2⟩
      rw [List.mem_cons]
      constructor
      · rintro (h | h)
        · exact Or.inl h
        · exact Or.inr ⟨Or.inr h.1, h.2⟩
      · rintro (h | ⟨rfl | h, h'⟩)
        · exact Or.inl h
        · exact absurd hn h'
        · exact Or.inr ⟨h, h'⟩
    | some n =>
      have hne : s.heap a ≠ none := by rw [hn]; simp
      have hd := T.new a List.mem_cons_self hne
      have hk := I.keep a n hn hd
      have href : r.st.ref a ≠ 0 := by
        rw [I.ref a hk.2 (Or.inr hne)]; exact T.live a List.mem_cons_self hne
      have e : fixNode r a = { r with st := { r.st with
          heap := upd r.st.heap a (some ⟨n.var, fwdE r.fwd n.thn, fwdE r.fwd n.els⟩) } } := by
        unfold fixNode; rw [hk.1]; simp only [if_neg href]
      rw [List.foldl_cons, e]
      obtain ⟨h1, h2, h3, h4⟩ := ih _ _ (I.inPlace hn hd (T.kids a List.mem_cons_self n hn))
        (T.step fun x b h => Or.inl h)
      refine ⟨h1.congr fun x => ?_, h2, h3, h4⟩
      rw [List.mem_cons]
      constructor
      · rintro ((h | rfl) | h)
        · exact Or.inl h
        · exact Or.inr ⟨Or.inl rfl, hne⟩
        · exact Or.inr ⟨Or.inr h.1, h.2⟩
      · rintro (h | ⟨rfl | h, h'⟩)
        · exact Or.inl (Or.inl h)
        · exact Or.inl (Or.inr rfl)
        · exact Or.inr ⟨h, h'⟩

/-- The loop over the pages that are kept. -/
theorem pack_first (l : List Nat) : ∀ (D : Nat → Prop) (p : Pk), RpInv s pg D p.r → Todo s D p.r l →
    ∃ p', l.foldlM (packNode true) p = some p' ∧
      RpInv s pg (fun x => D x ∨ (x ∈ l ∧ s.heap x ≠ none)) p'.r ∧
      p'.r.fwd = p.r.fwd ∧ p'.r.st.tab = p.r.st.tab ∧ p'.r.st.free = p.r.st.free ∧
      p'.tab = (l.filter (liveB s)).reverse ++ p.tab ∧
      p'.free = (l.filter fun a => !liveB s a).reverse ++ p.free := by
  induction l with
  | nil =>
    intro D p I _
    exact ⟨p, rfl, I.congr fun a => by simp, rfl, rfl, rfl, rfl, rfl⟩
  | cons a l ih =>
    intro D p I T
    cases hn : s.heap a with
    | none =>
      have hr : p.r.st.heap a = none := I.dead hn (T.free a List.mem_cons_self)
      have e : packNode true p a = some { p with free := a :: p.free } := by
        unfold packNode; rw [hr]; rfl
      obtain ⟨p', h0, h1, h2, h3, h4, h5, h6⟩ := ih D { p with free := a :: p.free } I T.tail
      refine ⟨p', by rw [List.foldlM_cons, e]; exact h0, h1.congr fun x => ?_, h2, h3, h4, ?_, ?_⟩
      · rw [List.mem_cons]
        constructor
        · rintro (h | h)
          · exact Or.inl h
          · exact Or.inr ⟨Or.inr h.1, h.2⟩
        · rintro (h | ⟨rfl | h, h'⟩)
          · exact Or.inl h
          · exact absurd hn h'
          · exact Or.inr ⟨h, h'⟩
      · rw [h5, List.filter_cons_of_neg (by simp [liveB, hn])]
      · rw [h6, List.filter_cons_of_pos (by simp [liveB, hn]), List.reverse_cons]
        simp
    | some n =>
      have hne : s.heap a ≠ none := by rw [hn]; simp
      have hd := T.new a List.mem_cons_self hne
      have hk := I.keep a n hn hd
      have href : p.r.st.ref a ≠ 0 := by
        rw [I.ref a hk.2 (Or.inr hne)]; exact T.live a List.mem_cons_self hne
      have e : packNode true p a = some { p with
          r := { p.r with st := { p.r.st with
            heap := upd p.r.st.heap a (some ⟨n.var, fwdE p.r.fwd n.thn, fwdE p.r.fwd n.els⟩) } }
          tab := a :: p.tab } := by
        unfold packNode; rw [hk.1]; simp only [if_neg href, if_true]
      obtain ⟨p', h0, h1, h2, h3, h4, h5, h6⟩ := ih _ { p with
          r := { p.r with st := { p.r.st with
            heap := upd p.r.st.heap a (some ⟨n.var, fwdE p.r.fwd n.thn, fwdE p.r.fwd n.els⟩) } }
          tab := a :: p.tab } (I.inPlace hn hd (T.kids a List.mem_cons_self n hn))
        (T.step fun x b h => Or.inl h)
      refine ⟨p', by rw [List.foldlM_cons, e]; exact h0, h1.congr fun x => ?_, h2, h3, h4, ?_, ?_⟩
      · rw [List.mem_cons]
        constructor
        · rintro ((h | rfl) | h)
          · exact Or.inl h
          · exact Or.inr ⟨Or.inl rfl, hne⟩
          · exact Or.inr ⟨Or.inr h.1, h.2⟩
        · rintro (h | ⟨rfl | h, h'⟩)
          · exact Or.inl (Or.inl h)
          · exact Or.inl (Or.inr rfl)
          · exact Or.inr ⟨h, h'⟩
      · rw [h5, List.filter_cons_of_pos (by simp [liveB, hn]), List.reverse_cons]
        simp
      · rw [h6, List.filter_cons_of_neg (by simp [liveB, hn])]

/-- What is known of the places on the free list. -/
structure Spare (s : Store) (pg : Pages) (i : Nat) (p : Pk) (l : List Nat) : Prop where
  nodup : p.free.Nodup
  empty : ∀ b ∈ p.free, s.heap b = none ∧ p.r.st.heap b = none ∧ b ≠ 0 ∧ b ∈ (pg i).flatten
  apart : ∀ b ∈ p.free, b ∉ l

/-- The loop over the pages that are given up. -/
theorem pack_rest (w : s.heap 0 = none) {i : Nat} (l : List Nat) : ∀ (D : Nat → Prop) (p : Pk), RpInv s pg D p.r →
    Todo s D p.r l → (∀ a ∈ l, ∀ n, s.heap a = some n → n.var = i) → Spare s pg i p l →
    (l.filter (liveB s)).length ≤ p.free.length →
    ∃ p', l.foldlM (packNode false) p = some p' ∧
      RpInv s pg (fun x => D x ∨ (x ∈ l ∧ s.heap x ≠ none)) p'.r ∧
      (∀ x, (x ∉ l ∨ s.heap x = none) → p'.r.fwd x = p.r.fwd x) ∧ p'.r.st.tab = p.r.st.tab ∧
      p'.r.st.free = p.r.st.free ∧ p'.tab.Perm ((l.filter (liveB s)).map p'.r.at ++ p.tab) ∧
      Spare s pg i p' [] ∧ (∀ a ∈ l, s.heap a ≠ none → ∃ b ∈ p.free, p'.r.fwd a = some b) ∧
      ∀ b ∈ p'.free, b ∈ p.free := by
  induction l with
  | nil =>
    intro D p I _ _ S _
    exact ⟨p, rfl, I.congr fun a => by simp, fun _ _ => rfl, rfl, rfl, .refl _, ⟨S.nodup, S.empty, fun _ _ => by simp⟩,
      fun _ h => (by cases h), fun _ h => h⟩
  | cons a l ih =>
    intro D p I T hv S hc
    cases hn : s.heap a with
    | none =>
      have hr : p.r.st.heap a = none := I.dead hn (T.free a List.mem_cons_self)
      have e : packNode false p a = some p := by
        unfold packNode; rw [hr]; rfl
      rw [List.filter_cons_of_neg (by simp [liveB, hn])] at hc
      obtain ⟨p', h0, h1, h2, h3, h4, h5, h6, h7, h8⟩ := ih D p I T.tail (fun x hx => hv x (List.mem_cons_of_mem _ hx))
        ⟨S.nodup, S.empty, fun b hb hx => S.apart b hb (List.mem_cons_of_mem _ hx)⟩ hc
      refine ⟨p', by rw [List.foldlM_cons, e]; exact h0, h1.congr fun x => ?_, fun x hx => h2 x ?_, h3, h4, ?_, h6,
        fun x hx hne => ?_, h8⟩
      · rw [List.mem_cons]
        constructor
        · rintro (h | h)
          · exact Or.inl h
          · exact Or.inr ⟨Or.inr h.1, h.2⟩
        · rintro (h | ⟨rfl | h, h'⟩)
          · exact Or.inl h
          · exact absurd hn h'
          · exact Or.inr ⟨h, h'⟩
      · exact hx.imp (fun h hx => h (List.mem_cons_of_mem _ hx)) id
      · rw [List.filter_cons_of_neg (by simp [liveB, hn])]; exact h5
      · rcases List.mem_cons.1 hx with rfl | hx
        · exact absurd hn hne
        · exact h7 x hx hne
    | some n =>
      have hne : s.heap a ≠ none := by rw [hn]; simp
      have hd := T.new a List.mem_cons_self hne
      have hk := I.keep a n hn hd
      have href : p.r.st.ref a ≠ 0 := by
        rw [I.ref a hk.2 (Or.inr hne)]; exact T.live a List.mem_cons_self hne
      rw [List.filter_cons_of_pos (by simp [liveB, hn]), List.length_cons] at hc
      cases hf : p.free with
      | nil => rw [hf] at hc; simp at hc
      | cons b fs =>
        have hbm : b ∈ p.free := by rw [hf]; exact List.mem_cons_self
        obtain ⟨b1, b2, b3, b4⟩ := S.empty b hbm
        have hba : b ∉ a :: l := S.apart b hbm
        have hfn := S.nodup
        rw [hf] at hfn
        have hfn := List.nodup_cons.1 hfn
        have hsub : ∀ c ∈ fs, c ∈ p.free := fun c hc => by rw [hf]; exact List.mem_cons_of_mem _ hc
        have hvar := hv a List.mem_cons_self n hn
        have e : packNode false p a = some
            { r :=
                { st := { p.r.st with
                    heap := upd (upd p.r.st.heap a none) b (some ⟨n.var, fwdE p.r.fwd n.thn, fwdE p.r.fwd n.els⟩)
                    ref := upd p.r.st.ref b (p.r.st.ref a) }
                  fwd := upd p.r.fwd a (some b) }
              free := fs
              tab := b :: p.tab } := by
          unfold packNode; rw [hk.1]; simp only [if_neg href, hf, Bool.false_eq_true, if_false]
        have I' := I.away w hn hd (T.kids a List.mem_cons_self n hn) b1 b2 b3 (by rw [hvar]; exact b4)
        have hal := (List.nodup_cons.1 T.nodup).1
        have T' : Todo s (fun x => D x ∨ x = a)
            { st := { p.r.st with
                heap := upd (upd p.r.st.heap a none) b (some ⟨n.var, fwdE p.r.fwd n.thn, fwdE p.r.fwd n.els⟩)
                ref := upd p.r.st.ref b (p.r.st.ref a) }
              fwd := upd p.r.fwd a (some b) } l := by
          refine T.step fun x c h => ?_
          replace h : upd p.r.fwd a (some b) x = some c := h
          by_cases hxa : x = a
          · subst hxa
            rw [upd_same] at h; cases h
            exact Or.inr fun h => hba (List.mem_cons_of_mem _ h)
          · rw [upd_ne _ _ hxa] at h; exact Or.inl h
        obtain ⟨p', h0, h1, h2, h3, h4, h5, h6, h7, h8⟩ := ih _
          { r :=
                { st := { p.r.st with
                    heap := upd (upd p.r.st.heap a none) b (some ⟨n.var, fwdE p.r.fwd n.thn, fwdE p.r.fwd n.els⟩)
                    ref := upd p.r.st.ref b (p.r.st.ref a) }
                  fwd := upd p.r.fwd a (some b) }
            free := fs
            tab := b :: p.tab } I' T' (fun x hx => hv x (List.mem_cons_of_mem _ hx))
          ⟨hfn.2, fun c hc => by
            obtain ⟨c1, c2, c3, c4⟩ := S.empty c (hsub c hc)
            refine ⟨c1, ?_, c3, c4⟩
            show upd (upd _ _ _) _ _ _ = _
            rw [upd_ne _ _ (by rintro rfl; exact hfn.1 hc), upd_ne _ _ (by rintro rfl; rw [hn] at c1; cases c1)]
            exact c2, fun c hc hx => S.apart c (hsub c hc) (List.mem_cons_of_mem _ hx)⟩
          (by rw [hf, List.length_cons] at hc; show _ ≤ fs.length; omega)
        have hpa : p'.r.fwd a = some b := by
          rw [h2 a (Or.inl hal)]
          show upd _ _ _ _ = _
          rw [upd_same]
        refine ⟨p', by rw [List.foldlM_cons, e]; exact h0, h1.congr fun x => ?_, fun x hx => ?_, h3, h4, ?_, h6,
          fun x hx hne => ?_, fun c hc => List.mem_cons_of_mem _ (h8 c hc)⟩
        · rw [List.mem_cons]
          constructor
          · rintro ((h | rfl) | h)
            · exact Or.inl h
            · exact Or.inr ⟨Or.inl rfl, hne⟩
            · exact Or.inr ⟨Or.inr h.1, h.2⟩
          · rintro (h | ⟨rfl | h, h'⟩)
            · exact Or.inl (Or.inl h)
            · exact Or.inl (Or.inr rfl)
            · exact Or.inr ⟨h, h'⟩
        · have hxa : x ≠ a := by
            rintro rfl
            rcases hx with h | h
            · exact h List.mem_cons_self
            · exact hne h
          rw [h2 x (hx.imp (fun h hx => h (List.mem_cons_of_mem _ hx)) id)]
          show upd _ _ _ _ = _
          rw [upd_ne _ _ hxa]
        · rw [List.filter_cons_of_pos (by simp [liveB, hn]), List.map_cons, at_some hpa]
          refine h5.trans ?_
          exact List.perm_middle
        · rcases List.mem_cons.1 hx with rfl | hx
          · exact ⟨b, by simp, hpa⟩
          · obtain ⟨c, hc, h⟩ := h7 x hx hne
            exact ⟨c, List.mem_cons_of_mem _ hc, h⟩

/-! ## One id -/

theorem RpInv.tables (I : RpInv s pg D r) (t f : Nat → List Nat) :
    RpInv s pg D { r with st := { r.st with tab := t, free := f } } :=
  ⟨I.ord, I.num, I.next, I.chk, I.keep, I.stay, I.ref, I.move, I.inj, I.only, I.kids⟩

theorem Todo.left {l l'} (T : Todo s D r (l ++ l')) : Todo s D r l :=
  ⟨(List.nodup_append.1 T.nodup).1, fun x hx => T.new x (List.mem_append_left _ hx),
    fun x hx => T.kids x (List.mem_append_left _ hx), fun x hx => T.live x (List.mem_append_left _ hx),
    fun x hx => T.free x (List.mem_append_left _ hx)⟩

theorem Todo.right {l l'} (T : Todo s D r (l ++ l')) {r' : Rl} (h : r'.fwd = r.fwd) :
    Todo s (fun x => D x ∨ (x ∈ l ∧ s.heap x ≠ none)) r' l' := by
  have hn := List.nodup_append.1 T.nodup
  refine ⟨hn.2.1, fun x hx h => ?_, fun x hx n h => ?_, fun x hx => T.live x (List.mem_append_right _ hx), fun x hx => ?_⟩
  · rintro (hd | hd)
    · exact T.new x (List.mem_append_right _ hx) h hd
    · exact hn.2.2 x hd.1 x hx rfl
  · have := T.kids x (List.mem_append_right _ hx) n h
    exact ⟨this.1.imp id Or.inl, this.2.imp id Or.inl⟩
  · rw [h]; exact T.free x (List.mem_append_right _ hx)

theorem length_flatten {n : Nat} : ∀ (l : List (List Nat)), (∀ p ∈ l, p.length = n) → l.flatten.length = n * l.length
  | [], _ => by simp
  | p :: l, h => by
    rw [List.flatten_cons, List.length_append, h p List.mem_cons_self, List.length_cons,
      length_flatten l fun q hq => h q (List.mem_cons_of_mem _ hq), Nat.mul_succ]
    omega

theorem filter_split (f : Nat → Bool) : ∀ l : List Nat,
    (l.filter f).length + (l.filter fun a => !f a).length = l.length
  | [] => rfl
  | a :: l => by
    have := filter_split f l
    cases h : f a
    · rw [List.filter_cons_of_neg (by simp [h]), List.filter_cons_of_pos (by simp [h]), List.length_cons,
        List.length_cons]
      omega
    · rw [List.filter_cons_of_pos (by simp [h]), List.filter_cons_of_neg (by simp [h]), List.length_cons,
        List.length_cons]
      omega

/-- the nodes of an id are those on its pages -/
theorem tab_perm (w : s.WF) (L : Layout s pg) (i : Nat) : (s.tab i).Perm ((pg i).flatten.filter (liveB s)) := by
  refine perm_of_mem (w.tab_nodup i) ((L.nodup i).filter _) fun a => ?_
  rw [w.tab_iff, List.mem_filter]
  constructor
  · rintro ⟨n, hn, rfl⟩
    exact ⟨L.all a n hn, by simp [liveB, hn]⟩
  · rintro ⟨h1, h2⟩
    unfold liveB at h2
    cases hn : s.heap a with
    | none => rw [hn] at h2; cases h2
    | some n => exact ⟨n, rfl, L.own i a h1 n hn⟩

/-- `CalRepackNodesAfterGC` for one id. -/
theorem packTable_ok (w : s.WF) (L : Layout s pg) {i : Nat} (I : RpInv s pg D r) (T : Todo s D r (pg i).flatten)
    (ht : r.st.tab i = s.tab i) (hlow : (s.tab i).length < perPage * (pg i).length) :
    ∃ r', packTable pg r i = some r' ∧
      RpInv s pg (fun x => D x ∨ (x ∈ (pg i).flatten ∧ s.heap x ≠ none)) r' ∧
      (∀ x, (x ∉ ((pg i).drop (required s i)).flatten ∨ s.heap x = none) → r'.fwd x = r.fwd x) ∧
      (∀ j, j ≠ i → r'.st.tab j = r.st.tab j) ∧ (r'.st.tab i).Perm ((s.tab i).map r'.at) ∧
      (∀ j, j ≠ i → r'.st.free j = r.st.free j) ∧ (r'.st.free i).Nodup ∧
      (∀ b ∈ r'.st.free i, s.heap b = none ∧ r'.st.heap b = none ∧ b ≠ 0 ∧ b ∈ (pg i).flatten) ∧
      (∀ a ∈ (pg i).flatten, s.heap a ≠ none → r'.at a ∈ ((pg i).take (required s i)).flatten) ∧
      ∀ b ∈ r'.st.free i, b ∈ ((pg i).take (required s i)).flatten := by
  have hq : required r.st i = required s i := by unfold required; rw [ht]
  generalize hqq : required s i = q at *
  have hsplit : (pg i).flatten = ((pg i).take q).flatten ++ ((pg i).drop q).flatten := by
    rw [← List.flatten_append, List.take_append_drop]
  generalize hF : ((pg i).take q).flatten = F at *
  generalize hG : ((pg i).drop q).flatten = G at *
  have T0 := T
  rw [hsplit] at T
  have hnd := List.nodup_append.1 T.nodup
  obtain ⟨p, e1, I1, f1, t1, r1, tab1, free1⟩ := pack_first F D ⟨r, [], []⟩ I T.left
  have T1 := T.right f1
  have hsub : ∀ a ∈ F, a ∈ (pg i).flatten := fun a ha => by rw [hsplit]; exact List.mem_append_left _ ha
  have hsub' : ∀ a ∈ G, a ∈ (pg i).flatten := fun a ha => by rw [hsplit]; exact List.mem_append_right _ ha
  have S : Spare s pg i p G := by
    rw [List.append_nil] at free1
    refine ⟨?_, fun b hb => ?_, fun b hb hg => ?_⟩
    · rw [free1, (List.reverse_perm _).nodup_iff]
      exact hnd.1.filter _
    · rw [free1, List.mem_reverse, List.mem_filter] at hb
      have hs : s.heap b = none := by
        cases h : s.heap b with
        | none => rfl
        | some n => simp [liveB, h] at hb
      refine ⟨hs, I1.dead hs fun x => ?_, fun h => L.pos i (h ▸ hsub b hb.1), hsub b hb.1⟩
      rw [f1]; exact T0.free b (hsub b hb.1) x
    · rw [free1, List.mem_reverse, List.mem_filter] at hb
      exact hnd.2.2 b hb.1 b hg rfl
  have hcount : (G.filter (liveB s)).length ≤ p.free.length := by
    have h1 := (tab_perm w L i).length_eq
    rw [hsplit, List.filter_append, List.length_append] at h1
    have h2 := filter_split (liveB s) F
    have h3 : F.length = perPage * q := by
      rw [← hF, length_flatten _ fun p hp => L.size i p (List.mem_of_mem_take hp), List.length_take]
      congr 1
      unfold required at hqq
      have : (s.tab i).length / perPage < (pg i).length := Nat.div_lt_of_lt_mul hlow
      omega
    rw [free1, List.append_nil, List.length_reverse]
    have h4 : (s.tab i).length < perPage * q := by
      rw [← hqq]; unfold required
      have := Nat.div_add_mod (s.tab i).length perPage
      have := Nat.mod_lt (s.tab i).length (show perPage > 0 by decide)
      rw [Nat.mul_succ]; omega
    omega
  obtain ⟨p', e2, I2, f2, t2, r2, tab2, S2, into, left⟩ := pack_rest w.heap0 (i := i) G _ p I1 T1
    (fun a ha n hn => L.own i a (hsub' a ha) n hn) S hcount
  refine ⟨{ p'.r with st := { p'.r.st with
    tab := upd p'.r.st.tab i p'.tab, free := upd p'.r.st.free i p'.free } }, ?_, ?_, ?_, ?_, ?_, ?_, ?_, ?_, ?_, ?_⟩
  · unfold packTable
    simp only [hq, hF, hG, e1, e2]
  · refine (I2.congr fun x => ?_).tables _ _
    rw [hsplit, List.mem_append]
    constructor
    · rintro ((h | h) | h)
      · exact Or.inl h
      · exact Or.inr ⟨Or.inl h.1, h.2⟩
      · exact Or.inr ⟨Or.inr h.1, h.2⟩
    · rintro (h | ⟨h | h, h'⟩)
      · exact Or.inl (Or.inl h)
      · exact Or.inl (Or.inr ⟨h, h'⟩)
      · exact Or.inr ⟨h, h'⟩
  · intro x hx
    show p'.r.fwd x = _
    rw [f2 x hx, f1]
  · intro j hj
    show upd _ _ _ _ = _
    rw [upd_ne _ _ hj, t2, t1]
  · show (upd _ _ _ _ : List Nat).Perm ((s.tab i).map p'.r.at)
    rw [upd_same]
    refine tab2.trans ?_
    refine List.Perm.trans ?_ ((tab_perm w L i).map p'.r.at).symm
    rw [hsplit, List.filter_append, List.map_append]
    refine List.Perm.trans ?_ List.perm_append_comm
    refine List.Perm.append_left _ ?_
    rw [tab1, List.append_nil]
    refine (List.reverse_perm _).trans ?_
    have : (F.filter (liveB s)).map p'.r.at = F.filter (liveB s) := by
      conv => rhs; rw [← List.map_id (F.filter (liveB s))]
      apply List.map_congr_left
      intro a ha
      have ha := List.mem_filter.1 ha
      have hne : s.heap a ≠ none := by
        intro h; have := ha.2; simp [liveB, h] at this
      refine at_none ?_
      rw [f2 a (Or.inl fun h => hnd.2.2 a ha.1 a h rfl), f1]
      cases hn : s.heap a with
      | none => exact absurd hn hne
      | some n => exact (I.keep a n hn (T0.new a (hsub a ha.1) hne)).2
    rw [this]
  · intro j hj
    show upd _ _ _ _ = _
    rw [upd_ne _ _ hj, r2, r1]
  · show (upd _ _ _ _ : List Nat).Nodup
    rw [upd_same]; exact S2.nodup
  · intro b hb
    have hb' : b ∈ (upd p'.r.st.free i p'.free i : List Nat) := hb
    rw [upd_same] at hb'
    exact S2.empty b hb'
  · intro a ha hne
    show p'.r.at a ∈ _
    rw [hsplit] at ha
    rcases List.mem_append.1 ha with ha | ha
    · rw [at_none]
      · exact ha
      · rw [f2 a (Or.inl fun h => hnd.2.2 a ha a h rfl), f1]
        cases hn : s.heap a with
        | none => exact absurd hn hne
        | some n => exact (I.keep a n hn (T0.new a (hsub a ha) hne)).2
    · obtain ⟨b, hb, h⟩ := into a ha hne
      rw [at_some h]
      rw [free1, List.append_nil, List.mem_reverse, List.mem_filter] at hb
      exact hb.1
  · intro b hb
    have hb' : b ∈ (upd p'.r.st.free i p'.free i : List Nat) := hb
    rw [upd_same] at hb'
    have hb' := left b hb'
    rw [free1, List.append_nil, List.mem_reverse, List.mem_filter] at hb'
    exact hb'.1

/-! ## All ids -/

/-- the nodes at index `k` and below -/
def Below (s : Store) (k : Nat) (a : Nat) : Prop := ∃ n, s.heap a = some n ∧ k ≤ s.ord.lvl n.var

/-- Invariant of the loop over the indices. -/
structure LoopInv (low : Nat → Nat → Bool) (s : Store) (pg : Pages) (k : Nat) (flag : Bool) (r : Rl) : Prop where
  inv : RpInv s pg (Below s k) r
  flag : flag = false → ∀ a, r.fwd a = none
  done : ∀ i, 1 ≤ i → i ≤ s.ord.numVars → k ≤ s.ord.lvl i → (r.st.tab i).Perm ((s.tab i).map r.at)
  todo : ∀ i, ¬ (1 ≤ i ∧ i ≤ s.ord.numVars ∧ k ≤ s.ord.lvl i) → r.st.tab i = s.tab i
  freeNodup : ∀ i, (r.st.free i).Nodup
  free : ∀ i, ∀ b ∈ r.st.free i, s.heap b = none ∧ r.st.heap b = none ∧ b ≠ 0 ∧ b ∈ (pg i).flatten
  freeLt : ∀ i, ∀ b ∈ r.st.free i, b < s.next
  first : ∀ a n, s.heap a = some n → a ∈ ((pg n.var).take (required s n.var)).flatten → r.fwd a = none
  kept : ∀ i, 1 ≤ i → i ≤ s.ord.numVars → k ≤ s.ord.lvl i → needs low pg s i = true →
    (∀ a ∈ (pg i).flatten, s.heap a ≠ none → r.at a ∈ ((pg i).take (required s i)).flatten) ∧
    ∀ b ∈ r.st.free i, b ∈ ((pg i).take (required s i)).flatten

theorem below_split (w : s.WF) (L : Layout s pg) {k : Nat} (hk : k < s.ord.numVars) (a : Nat) :
    (Below s (k + 1) a ∨ (a ∈ (pg (s.ord.indexToId k)).flatten ∧ s.heap a ≠ none)) ↔ Below s k a := by
  have hi := w.ord.id_range k hk
  have hl : s.ord.lvl (s.ord.indexToId k) = k := by
    unfold Order.lvl
    rw [if_neg (by omega), w.ord.right k hk]
  constructor
  · rintro (⟨n, hn, h⟩ | ⟨h1, h2⟩)
    · exact ⟨n, hn, by omega⟩
    · cases hn : s.heap a with
      | none => exact absurd hn h2
      | some n => exact ⟨n, hn, by rw [L.own _ a h1 n hn, hl]; exact Nat.le_refl k⟩
  · rintro ⟨n, hn, h⟩
    by_cases h' : k + 1 ≤ s.ord.lvl n.var
    · exact Or.inl ⟨n, hn, h'⟩
    · have hv := w.var_range a n hn
      have : s.ord.lvl n.var = k := by omega
      have : n.var = s.ord.indexToId k := by
        unfold Order.lvl at this
        rw [if_neg (by omega)] at this
        rw [← this, w.ord.left _ hv.1 hv.2]
      exact Or.inr ⟨this ▸ L.all a n hn, by rw [hn]; simp⟩

theorem LoopInv.todo_pages (w : s.WF) (L : Layout s pg) (hlive : ∀ a, s.heap a ≠ none → s.ref a ≠ 0) {k : Nat}
    (hk : k < s.ord.numVars) {flag : Bool} {low} (I : LoopInv low s pg (k + 1) flag r) :
    Todo s (Below s (k + 1)) r (pg (s.ord.indexToId k)).flatten := by
  have hi := w.ord.id_range k hk
  have hl : s.ord.lvl (s.ord.indexToId k) = k := by
    unfold Order.lvl
    rw [if_neg (by omega), w.ord.right k hk]
  refine ⟨L.nodup _, ?_, ?_, fun a _ h => hlive a h, ?_⟩
  · rintro a ha - ⟨n, hn, h⟩
    rw [L.own _ a ha n hn, hl] at h
    omega
  · intro a ha n hn
    have hv := L.own _ a ha n hn
    have kid : ∀ e : Edge, s.EOK e → s.ord.lvl n.var < s.ord.lvl e.id → e.addr = 0 ∨ Below s (k + 1) e.addr := by
      rintro e (⟨-, h⟩ | ⟨m, hm, he⟩) hlt
      · exact Or.inl h
      · refine Or.inr ⟨m, hm, ?_⟩
        rw [he, ← hl, ← hv]; exact hlt
    exact ⟨kid _ (w.thn_ok a n hn) (w.thn_lt a n hn), kid _ (w.els_ok a n hn) (w.els_lt a n hn)⟩
  · intro a ha x hx
    obtain ⟨⟨n', hn', h'⟩, -, -, -, n, hn, hp, -⟩ := I.inv.move x a hx
    rw [hn] at hn'; cases hn'
    rw [L.disj _ _ a hp ha, hl] at h'
    omega

/-- places of other ids are not touched -/
theorem LoopInv.free_step (L : Layout s pg) {k k' : Nat} {flag : Bool} {low} (I : LoopInv low s pg k flag r) {r' : Rl}
    (I' : RpInv s pg (Below s k') r') {i : Nat} (hf : ∀ x, x ∉ (pg i).flatten → r'.fwd x = r.fwd x) {j b : Nat}
    (hb : b ∈ r.st.free j) (hj : j ≠ i ∨ ∀ x, r'.fwd x = r.fwd x) :
    s.heap b = none ∧ r'.st.heap b = none ∧ b ≠ 0 ∧ b ∈ (pg j).flatten := by
  obtain ⟨b1, b2, b3, b4⟩ := I.free j b hb
  refine ⟨b1, I'.dead b1 fun x hx => ?_, b3, b4⟩
  have : r.fwd x ≠ some b := by
    intro h
    obtain ⟨-, -, -, -, n, -, -, h', -⟩ := I.inv.move x b h
    rw [b2] at h'; cases h'
  rcases hj with hj | hj
  · obtain ⟨-, -, -, -, n, hn, hp, -⟩ := I'.move x b hx
    have hv := L.disj _ _ b hp b4
    refine this ?_
    rw [← hf x fun h => hj (by rw [← hv]; exact L.own i x h n hn)]
    exact hx
  · rw [hj] at hx; exact this hx

/-- One round of the loop over the indices. -/
theorem LoopInv.round (w : s.WF) (L : Layout s pg) (hlive : ∀ a, s.heap a ≠ none → s.ref a ≠ 0)
    (hpg : ∀ i a, i ≤ s.ord.numVars → a ∈ (pg i).flatten → a < s.next)
    {low : Nat → Nat → Bool} (hlow : ∀ n p, low n p = true → n < perPage * p)
    {k : Nat} {flag : Bool} {r : Rl} (hk : k + 1 ≤ s.ord.numVars) (I : LoopInv low s pg (k + 1) flag r) :
    ∃ r' flag', LoopInv low s pg k flag' r' ∧
      (∀ x, x ∉ (pg (s.ord.indexToId k)).flatten → r'.fwd x = r.fwd x) ∧
      ((needs low pg r.st (s.ord.indexToId k) = true ∧ packTable pg r (s.ord.indexToId k) = some r' ∧ flag' = true) ∨
        (needs low pg r.st (s.ord.indexToId k) = false ∧ flag = true ∧ flag' = true ∧
          r' = (pg (s.ord.indexToId k)).flatten.foldl fixNode r) ∨
        (needs low pg r.st (s.ord.indexToId k) = false ∧ flag = false ∧ flag' = false ∧ r' = r)) := by
    have hk' : k < s.ord.numVars := hk
    have T := I.todo_pages w L hlive hk'
    have hi := w.ord.id_range k hk'
    have hl : s.ord.lvl (s.ord.indexToId k) = k := by
      unfold Order.lvl
      rw [if_neg (by omega), w.ord.right k hk']
    have hat : ∀ {r' : Rl}, (∀ x, x ∉ (pg (s.ord.indexToId k)).flatten → r'.fwd x = r.fwd x) →
        ∀ j, j ≠ s.ord.indexToId k → (s.tab j).map r'.at = (s.tab j).map r.at := by
      intro r' hr j hj
      apply List.map_congr_left
      intro a ha
      obtain ⟨n, hn, rfl⟩ := (w.tab_iff j a).1 ha
      unfold Rl.at
      rw [hr a fun h => hj (L.own _ a h n hn)]
    have hlvl : ∀ j, 1 ≤ j → j ≤ s.ord.numVars → j ≠ s.ord.indexToId k → k ≤ s.ord.lvl j → k + 1 ≤ s.ord.lvl j := by
      intro j h1 h2 hj h
      unfold Order.lvl at *
      rw [if_neg (by omega)] at *
      have : s.ord.idToIndex j ≠ k := by
        intro h; apply hj; rw [← h, w.ord.left j h1 h2]
      omega
    have htab : r.st.tab (s.ord.indexToId k) = s.tab (s.ord.indexToId k) := by
      refine I.todo _ fun h => ?_
      have := h.2.2; rw [hl] at this; omega
    cases hneed : needs low pg r.st (s.ord.indexToId k) with
    | true =>
      unfold needs at hneed
      rw [Bool.and_eq_true, htab] at hneed
      obtain ⟨r', e, I', f', t', tp', fr', fn', fo', in', left'⟩ := packTable_ok w L I.inv T htab (hlow _ _ hneed.2)
      have hf : ∀ x, x ∉ (pg (s.ord.indexToId k)).flatten → r'.fwd x = r.fwd x := fun x hx => by
        refine f' x (Or.inl fun h => hx ?_)
        rw [← List.take_append_drop (required s (s.ord.indexToId k)) (pg (s.ord.indexToId k)), List.flatten_append]
        exact List.mem_append_right _ h
      have I'' := I'.congr (below_split w L hk')
      refine ⟨r', true, ⟨I'', fun h => (by cases h), ?_, ?_, ?_, ?_, ?_, ?_, ?_⟩, hf, Or.inl ⟨rfl, e, rfl⟩⟩
      · intro j h1 h2 h3
        by_cases hj : j = s.ord.indexToId k
        · subst hj; exact tp'
        · rw [t' j hj, hat hf j hj]
          exact I.done j h1 h2 (hlvl j h1 h2 hj h3)
      · intro j hj
        have hji : j ≠ s.ord.indexToId k := by
          rintro rfl; exact hj ⟨hi.1, hi.2, by rw [hl]; exact Nat.le_refl k⟩
        rw [t' j hji]
        exact I.todo j fun h => hj ⟨h.1, h.2.1, by have := h.2.2; omega⟩
      · intro j
        by_cases hj : j = s.ord.indexToId k
        · subst hj; exact fn'
        · rw [fr' j hj]; exact I.freeNodup j
      · intro j b hb
        by_cases hj : j = s.ord.indexToId k
        · subst hj; exact fo' b hb
        · rw [fr' j hj] at hb
          exact I.free_step L I'' hf hb (Or.inl hj)
      · intro j b hb
        by_cases hj : j = s.ord.indexToId k
        · subst hj; exact hpg _ b hi.2 (fo' b hb).2.2.2
        · rw [fr' j hj] at hb; exact I.freeLt j b hb
      · intro a n hn ha
        rw [f' a ?_]
        · exact I.first a n hn ha
        · by_cases hv : n.var = s.ord.indexToId k
          · refine Or.inl fun h => ?_
            have hnd := L.nodup (s.ord.indexToId k)
            rw [← List.take_append_drop (required s (s.ord.indexToId k)) (pg (s.ord.indexToId k)),
              List.flatten_append] at hnd
            rw [hv] at ha
            exact (List.nodup_append.1 hnd).2.2 a ha a h rfl
          · refine Or.inl fun h => hv (L.own _ a ?_ n hn)
            rw [← List.take_append_drop (required s (s.ord.indexToId k)) (pg (s.ord.indexToId k)), List.flatten_append]
            exact List.mem_append_right _ h
      · intro j h1 h2 h3 h4
        by_cases hj : j = s.ord.indexToId k
        · subst hj; exact ⟨in', left'⟩
        · obtain ⟨k1, k2⟩ := I.kept j h1 h2 (hlvl j h1 h2 hj h3) h4
          refine ⟨fun a ha hne => ?_, fun b hb => k2 b (by rw [← fr' j hj]; exact hb)⟩
          have : r'.at a = r.at a := by
            unfold Rl.at
            rw [hf a fun h => hj (L.disj _ _ a ha h)]
          rw [this]; exact k1 a ha hne
    | false =>
      have hnd : needs low pg s (s.ord.indexToId k) = false := by
        unfold needs at hneed ⊢
        rw [htab] at hneed
        simpa using hneed
      cases flag with
      | true =>
        obtain ⟨I', f', t', r'⟩ := fix_fold (pg (s.ord.indexToId k)).flatten _ r I.inv T
        generalize hqq : (pg (s.ord.indexToId k)).flatten.foldl fixNode r = q at *
        have I'' := I'.congr (below_split w L hk')
        have hq : ∀ a, q.at a = r.at a := fun a => by unfold Rl.at; rw [f']
        have hmap : ∀ j, (s.tab j).map q.at = (s.tab j).map r.at := fun j => by
          rw [show q.at = r.at from funext hq]
        refine ⟨q, true, ⟨I'', fun h a => by rw [f']; exact I.flag h a, ?_, ?_, ?_, ?_, ?_, ?_, ?_⟩,
          fun x _ => by rw [f'], Or.inr (Or.inl ⟨rfl, rfl, rfl, rfl⟩)⟩
        · intro j h1 h2 h3
          rw [t', hmap]
          by_cases hj : j = s.ord.indexToId k
          · subst hj
            rw [htab]
            have : (s.tab (s.ord.indexToId k)).map r.at = s.tab (s.ord.indexToId k) := by
              conv => rhs; rw [← List.map_id (s.tab (s.ord.indexToId k))]
              apply List.map_congr_left
              intro a ha
              obtain ⟨n, hn, hv⟩ := (w.tab_iff _ a).1 ha
              refine at_none (I.inv.keep a n hn ?_).2
              rintro ⟨n', hn', h'⟩
              rw [hn] at hn'; cases hn'
              rw [hv, hl] at h'; omega
            rw [this]
          · exact I.done j h1 h2 (hlvl j h1 h2 hj h3)
        · intro j hj
          rw [t']
          exact I.todo j fun h => hj ⟨h.1, h.2.1, by have := h.2.2; omega⟩
        · intro j; rw [r']; exact I.freeNodup j
        · intro j b hb
          rw [r'] at hb
          exact I.free_step (i := 0) L I'' (fun x _ => by rw [f']) hb (Or.inr fun x => by rw [f'])
        · intro j b hb; rw [r'] at hb; exact I.freeLt j b hb
        · intro a n hn ha; rw [f']; exact I.first a n hn ha
        · intro j h1 h2 h3 h4
          by_cases hj : j = s.ord.indexToId k
          · subst hj; rw [hnd] at h4; cases h4
          · obtain ⟨k1, k2⟩ := I.kept j h1 h2 (hlvl j h1 h2 hj h3) h4
            refine ⟨fun a ha hne => ?_, fun b hb => k2 b (by rw [← r']; exact hb)⟩
            rw [hq]; exact k1 a ha hne
      | false =>
        have hff := I.flag rfl
        have I'' : RpInv s pg (Below s k) r := by
          refine I.inv.still hff (fun a h => (below_split w L hk' a).1 (Or.inl h)) ?_
          intro a n hn hb
          rcases (below_split w L hk' a).2 hb with h | h
          · have := I.inv.kids a n hn h
            exact ⟨this.1.imp id fun h => (below_split w L hk' _).1 (Or.inl h),
              this.2.imp id fun h => (below_split w L hk' _).1 (Or.inl h)⟩
          · have := T.kids a h.1 n hn
            exact ⟨this.1.imp id fun h => (below_split w L hk' _).1 (Or.inl h),
              this.2.imp id fun h => (below_split w L hk' _).1 (Or.inl h)⟩
        have hmap : ∀ j, (s.tab j).map r.at = s.tab j := fun j => by
          conv => rhs; rw [← List.map_id (s.tab j)]
          exact List.map_congr_left fun a _ => at_none (hff a)
        refine ⟨r, false, ⟨I'', fun _ => hff, ?_, ?_, I.freeNodup, I.free, I.freeLt, I.first, ?_⟩, fun _ _ => rfl,
          Or.inr (Or.inr ⟨rfl, rfl, rfl, rfl⟩)⟩
        · intro j h1 h2 h3
          by_cases hj : j = s.ord.indexToId k
          · subst hj; rw [htab, hmap]
          · exact I.done j h1 h2 (hlvl j h1 h2 hj h3)
        · intro j hj
          exact I.todo j fun h => hj ⟨h.1, h.2.1, by have := h.2.2; omega⟩
        · intro j h1 h2 h3 h4
          by_cases hj : j = s.ord.indexToId k
          · subst hj; rw [hnd] at h4; cases h4
          · exact I.kept j h1 h2 (hlvl j h1 h2 hj h3) h4

theorem packLoop_ok (w : s.WF) (L : Layout s pg) (hlive : ∀ a, s.heap a ≠ none → s.ref a ≠ 0)
    (hpg : ∀ i a, i ≤ s.ord.numVars → a ∈ (pg i).flatten → a < s.next)
    {low : Nat → Nat → Bool} (hlow : ∀ n p, low n p = true → n < perPage * p) :
    ∀ (k : Nat) (flag : Bool) (r : Rl), k ≤ s.ord.numVars → LoopInv low s pg k flag r →
    ∃ r' flag', packLoop low pg k flag r = some r' ∧ LoopInv low s pg 0 flag' r' := by
  intro k
  induction k with
  | zero => intro flag r _ I; exact ⟨r, flag, rfl, I⟩
  | succ k ih =>
    intro flag r hk I
    obtain ⟨r', flag', I', -, h⟩ := I.round w L hlive hpg hlow hk
    have := ih flag' r' (by omega) I'
    unfold packLoop
    rw [I.inv.ord]
    simp only
    rcases h with ⟨h1, h2, rfl⟩ | ⟨h1, rfl, rfl, rfl⟩ | ⟨h1, rfl, rfl, rfl⟩
    · rw [if_pos h1, h2]; exact this
    · rw [if_neg (by rw [h1]; simp), if_pos rfl]; exact this
    · rw [if_neg (by rw [h1]; simp), if_neg (by simp)]; exact this

end Rp

end Cal
