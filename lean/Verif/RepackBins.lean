import Verif.HashTable
import Verif.RepackMgr

/-!
# Repacking and the bins of the unique tables

In the store a unique table is a list of nodes. Here are the chained tables of `Verif/HashTable.lean` for each id, and
what `CalRepackNodesAfterGC` does to them: tables of repacked ids get fewer bins if they have more bins than nodes, and
are filled anew; in the others the nodes whose children have moved are put into another bin.
-/

namespace Cal

namespace Hash

namespace Table

variable {K : Type} [DecidableEq K]

/-- The key of the node at `a` changes in place, in whatever chain the node is. -/
def relabel (a : Nat) (k : K) (e : Ent K) : Ent K := if e.addr = a then ⟨a, k⟩ else e

/-- `CalUniqueTableForIdRehashNode` (calHashTable.c:453-501): the node at `a` had the key `k` and has the key `k'` now.
`none`: the node is not in the bin of the old key (`CalBddFatalMessage`). -/
def rekey (h : K → Nat) (t : Table K) (a : Nat) (k k' : K) : Option (Table K) :=
  let t := { t with bins := fun i => (t.bins i).map (relabel a k') }
  if t.slot h k = t.slot h k' then some t
  else
    match unlink a (t.bins (t.slot h k)) with
    | none => none
    | some c => some { t with bins := push (upd t.bins (t.slot h k) c) (t.slot h k') ⟨a, k'⟩ }

/-- `CeilLog2` (calGC.c:383-390); the loop halves the number until it is 1 or 0 -/
def ceilLog2 (n : Nat) : Nat :=
  let count := Nat.log2 n
  if 2 ^ count ≠ n then count + 1 else count

/-- Emptying the bins of a table, with fewer bins if there are more bins than nodes (calGC.c:265-288). -/
def clear (t : Table K) : Table K :=
  if t.numBins > t.numEntries ∧ t.sizeIndex > 8 then
    { t with sizeIndex := max 8 (ceilLog2 (t.numEntries / 5)), bins := fun _ => [] }
  else { t with bins := fun _ => [] }

/-- Linking nodes one after the other (calGC.c:314-320, 333-337). -/
def fill (h : K → Nat) (t : Table K) (l : List (Ent K)) : Table K :=
  { t with bins := l.foldl (fun b e => push b (t.slot h e.key) e) t.bins }

end Table

end Hash

namespace Rp

open Df (Rl fwdE)
open Hash

/-- The chained tables of all ids. -/
abbrev Tabs := Nat → Table (Edge × Edge)

/-- The key of a node. -/
def key (n : Node) : Edge × Edge := (n.thn, n.els)

/-- The loop over the nodes of an id that is not repacked (calGC.c:229-262), for the bins. `r` is the state before and
`r'` the one after the children of all nodes of the id are forwarded; that a node is put into another bin right after
its own children are forwarded makes no difference. The flag is `rehashFlag`, which is never put back to 0. `none`: one of the fatal
errors of `CalUniqueTableForIdRehashNode`. -/
def fixBins (r r' : Rl) : List Nat → Bool → Table (Edge × Edge) → Option (Bool × Table (Edge × Edge))
  | [], f, t => some (f, t)
  | a :: as, f, t =>
    match r.st.heap a, r'.st.heap a with
    | some n, some n' =>
      if r.st.ref a = 0 then fixBins r r' as f t
      else
        let f := f || (r.fwd n.thn.addr).isSome || (r.fwd n.els.addr).isSome
        if f then
          if n'.thn.neg then none
          else match t.rekey hash2 a (key n) (key n') with
          | none => none
          | some t => fixBins r r' as f t
        else fixBins r r' as f t
    | _, _ => fixBins r r' as f t

/-- The table of a repacked id (calGC.c:264-337). The nodes are linked in the order in which they are put into the list
`tab` of the store, each in front. -/
def packBins (r' : Rl) (i : Nat) (t : Table (Edge × Edge)) : Table (Edge × Edge) :=
  t.clear.fill hash2 (tabEntries r'.st i).reverse

/-- The loop over the indices (calGC.c:224-357), as `packLoop`, with the chained tables and `rehashFlag`. -/
def binLoop (low : Nat → Nat → Bool) (pg : Pages) : Nat → Bool → Bool → Rl → Tabs → Option (Rl × Tabs)
  | 0, _, _, r, tb => some (r, tb)
  | k + 1, flag, f, r, tb =>
    let i := r.st.ord.indexToId k
    if needs low pg r.st i then
      match packTable pg r i with
      | none => none
      | some r' => binLoop low pg k true f r' (upd tb i (packBins r' i (tb i)))
    else if flag then
      let r' := (pg i).flatten.foldl fixNode r
      match fixBins r r' (pg i).flatten f (tb i) with
      | none => none
      | some (f, t) => binLoop low pg k flag f r' (upd tb i t)
    else binLoop low pg k flag f r tb

/-- `CalRepackNodesAfterGC` (calGC.c:209-357) on the unique tables, with their bins. -/
def repackTabs (low : Nat → Nat → Bool) (pg : Pages) (s : Store) (tb : Tabs) : Option (Rl × Tabs) :=
  binLoop low pg s.ord.numVars false false ⟨reserve pg s, fun _ => none⟩ tb

end Rp

/-! ## Proofs -/

namespace Hash

namespace Table

variable {K : Type} [DecidableEq K]

/-- The entries are those of `l`, each in the bin of its key. -/
structure Has (h : K → Nat) (t : Table K) (l : List (Ent K)) : Prop where
  perm : t.entries.Perm l
  slots : ∀ i e, e ∈ t.bins i → i = t.slot h e.key

omit [DecidableEq K] in
theorem fill_has (h : K → Nat) (t : Table K) (l : List (Ent K)) (h0 : t.bins = fun _ => []) :
    (t.fill h l).Has h l := by
  have hm : 0 < 2 ^ t.sizeIndex := Nat.two_pow_pos _
  have e : (fun (b : Nat → List (Ent K)) (e : Ent K) => push b (t.slot h e.key) e) =
      fun b e => push b (h e.key % 2 ^ t.sizeIndex) e := by
    funext b e; rw [slot_eq]
  constructor
  · have := perm_pushes h hm l t.bins
    rw [h0, flatMap_nil, List.append_nil] at this
    unfold entries fill
    simp only [e, h0]
    exact this
  · intro i x hx
    rw [slot_eq]
    unfold fill at hx
    simp only [e, h0] at hx
    exact slots_pushes h l _ (by simp) i x hx

omit [DecidableEq K] in
theorem clear_bins (t : Table K) : t.clear.bins = fun _ => [] := by
  unfold clear; split <;> rfl

omit [DecidableEq K] in
theorem clear_num (t : Table K) : t.clear.numEntries = t.numEntries := by
  unfold clear; split <;> rfl

omit [DecidableEq K] in
theorem map_flatMap {α β γ : Type} (l : List α) (f : α → List β) (g : β → γ) :
    (l.flatMap fun i => (f i).map g) = (l.flatMap f).map g := by
  induction l with
  | nil => rfl
  | cons x l ih => rw [List.flatMap_cons, List.flatMap_cons, List.map_append, ih]

omit [DecidableEq K] in
theorem relabel_other {a : Nat} {k : K} {e : Ent K} (h : e.addr ≠ a) : relabel a k e = e := if_neg h

omit [DecidableEq K] in
theorem addr_uniq {l : List (Ent K)} (u : (l.map (·.addr)).Nodup) {x y : Ent K} (hx : x ∈ l) (hy : y ∈ l)
    (e : x.addr = y.addr) : x = y := by
  induction l with
  | nil => cases hx
  | cons z l ih =>
    rw [List.map_cons, List.nodup_cons] at u
    rcases List.mem_cons.1 hx with rfl | hx
    · rcases List.mem_cons.1 hy with rfl | hy
      · rfl
      · exact absurd (e ▸ List.mem_map_of_mem hy) u.1
    · rcases List.mem_cons.1 hy with rfl | hy
      · exact absurd (List.mem_map.2 ⟨x, by assumption, e⟩) u.1
      · exact ih u.2 (by assumption) hy

omit [DecidableEq K] in
/-- A node that is in the table is found in its old bin and put into its new one. -/
theorem rekey_has {h : K → Nat} {t : Table K} {l : List (Ent K)} (w : t.Has h l) (u : (l.map (·.addr)).Nodup)
    {a : Nat} {k : K} (hm : (⟨a, k⟩ : Ent K) ∈ l) (k' : K) :
    ∃ t', t.rekey h a k k' = some t' ∧ t'.Has h (l.map (relabel a k')) ∧ t'.numEntries = t.numEntries ∧
      t'.sizeIndex = t.sizeIndex := by
  have bin : ∀ i e, e ∈ t.bins i → e ∈ l := by
    intro i e he
    rw [← w.perm.mem_iff, mem_entries]
    exact ⟨i, by rw [w.slots i e he]; exact slot_lt h t _, he⟩
  have uniq : ∀ i e, e ∈ t.bins i → e.addr = a → e = ⟨a, k⟩ := fun i e he ha => addr_uniq u (bin i e he) hm ha
  have home : (⟨a, k⟩ : Ent K) ∈ t.bins (t.slot h k) := by
    rw [← w.perm.mem_iff, mem_entries] at hm
    obtain ⟨i, -, hi⟩ := hm
    have := w.slots i _ hi
    simp only at this
    rw [← this]; exact hi
  generalize hT : ({ t with bins := fun i => (t.bins i).map (relabel a k') } : Table K) = T
  have hTb : T.bins = fun i => (t.bins i).map (relabel a k') := by rw [← hT]
  have hTn : T.numEntries = t.numEntries := by rw [← hT]
  have hTi : T.sizeIndex = t.sizeIndex := by rw [← hT]
  have hTs : ∀ k, T.slot h k = t.slot h k := fun k => by rw [← hT]; rfl
  have hTN : T.numBins = t.numBins := by rw [← hT]; rfl
  have pT : T.entries.Perm (l.map (relabel a k')) := by
    have : T.entries = t.entries.map (relabel a k') := by
      unfold entries
      rw [hTN, hTb, map_flatMap]
    rw [this]
    exact w.perm.map _
  have slT : ∀ i e, e ∈ T.bins i → e = ⟨a, k'⟩ ∧ i = t.slot h k ∨ e.addr ≠ a ∧ i = t.slot h e.key := by
    intro i e he
    rw [hTb, List.mem_map] at he
    obtain ⟨x, hx, rfl⟩ := he
    by_cases hxa : x.addr = a
    · refine Or.inl ⟨if_pos hxa, ?_⟩
      have := w.slots i x hx
      rw [uniq i x hx hxa] at this
      exact this
    · rw [relabel_other hxa]
      exact Or.inr ⟨hxa, w.slots i x hx⟩
  have hr : t.rekey h a k k' =
      if T.slot h k = T.slot h k' then some T
      else
        match unlink a (T.bins (T.slot h k)) with
        | none => none
        | some c => some { T with bins := push (upd T.bins (T.slot h k) c) (T.slot h k') ⟨a, k'⟩ } := by
    rw [← hT]; rfl
  rw [hr]
  by_cases hs : T.slot h k = T.slot h k'
  · rw [if_pos hs]
    refine ⟨T, rfl, ⟨pT, fun i e he => ?_⟩, hTn, hTi⟩
    rcases slT i e he with ⟨rfl, rfl⟩ | ⟨-, rfl⟩
    · rw [← hTs, hs]
    · rw [hTs]
  · rw [if_neg hs]
    have homeT : (⟨a, k'⟩ : Ent K) ∈ T.bins (T.slot h k) := by
      rw [hTb, hTs, List.mem_map]
      exact ⟨_, home, if_pos rfl⟩
    cases hu : unlink a (T.bins (T.slot h k)) with
    | none => exact absurd rfl (unlink_none hu _ homeT)
    | some c =>
      obtain ⟨e, he, hp, hsub⟩ := unlink_some hu
      have hee : e = ⟨a, k'⟩ := by
        rcases slT _ e (hp.mem_iff.2 List.mem_cons_self) with ⟨h1, -⟩ | ⟨h1, -⟩
        · exact h1
        · exact absurd he h1
      subst hee
      have hnd : ∀ x ∈ c, x.addr ≠ a := by
        have h1 : ((T.entries).map (·.addr)).Nodup := by
          refine (pT.map (·.addr)).nodup_iff.2 ?_
          rw [List.map_map]
          have : ((fun e : Ent K => e.addr) ∘ relabel a k') = (·.addr) := by
            funext x
            simp only [Function.comp, relabel]
            split
            · rename_i h; exact h.symm
            · rfl
          rw [this]; exact u
        have h2 := ((perm_upd hp (slot_lt h T k)).map (·.addr)).nodup_iff.1 h1
        rw [List.map_cons, List.nodup_cons] at h2
        intro x hx hxa
        refine h2.1 (List.mem_map.2 ⟨x, ?_, hxa⟩)
        rw [List.mem_flatMap]
        exact ⟨_, List.mem_range.2 (slot_lt h T k), by rw [upd_same]; exact hx⟩
      refine ⟨_, rfl, ⟨?_, ?_⟩, hTn, hTi⟩
      · refine (perm_push _ _ _ (slot_lt h T k')).trans ?_
        exact (perm_upd hp (slot_lt h T k)).symm.trans pT
      · intro i x hx
        show i = T.slot h x.key
        simp only [push, upd] at hx
        split at hx
        · rename_i hi
          rcases List.mem_cons.1 hx with rfl | hx
          · exact hi
          · rw [if_neg (fun h => hs h.symm)] at hx
            rcases slT _ x hx with ⟨-, h2⟩ | ⟨-, h2⟩
            · rw [← hTs] at h2; exact absurd h2.symm hs
            · rw [hi, h2, hTs]
        · split at hx
          · rename_i hi
            rcases slT _ x (hsub.subset hx) with ⟨h1, -⟩ | ⟨-, h2⟩
            · exact absurd (by rw [h1]) (hnd x hx)
            · rw [hi, h2, hTs]
          · rename_i hi' hi
            rcases slT _ x hx with ⟨-, h2⟩ | ⟨-, h2⟩
            · rw [← hTs] at h2; exact absurd h2 hi
            · rw [h2, hTs]

/-- The sizes of a table before and after: it has not got more bins, not fewer than a new one, and no more nodes than it
had or than fit (up to 4, from the rounding of `numEntries / 5`). -/
structure Shrunk (t t' : Table K) : Prop where
  num : t'.numEntries = t.numEntries
  le : t'.sizeIndex ≤ t.sizeIndex
  ge : 8 ≤ t.sizeIndex → 8 ≤ t'.sizeIndex
  load : t.numEntries ≤ t.maxCapacity + 4 → t'.numEntries ≤ t'.maxCapacity + 4

omit [DecidableEq K] in
theorem Shrunk.same {t t' : Table K} (h1 : t'.numEntries = t.numEntries) (h2 : t'.sizeIndex = t.sizeIndex) :
    Shrunk t t' := by
  refine ⟨h1, by omega, by omega, ?_⟩
  unfold maxCapacity numBins
  rw [h1, h2]; exact id

omit [DecidableEq K] in
theorem Shrunk.trans {t t' t'' : Table K} (a : Shrunk t t') (b : Shrunk t' t'') : Shrunk t t'' :=
  ⟨by rw [b.num, a.num], Nat.le_trans b.le a.le, fun h => b.ge (a.ge h), fun h => b.load (a.load h)⟩

theorem le_ceilLog2 (n : Nat) : n ≤ 2 ^ ceilLog2 n := by
  unfold ceilLog2
  simp only
  split
  · exact Nat.le_of_lt Nat.lt_log2_self
  · rename_i h
    have : 2 ^ n.log2 = n := by simpa using h
    omega

theorem ceilLog2_le {n k : Nat} (h : n < 2 ^ k) (hk : 0 < k) : ceilLog2 n ≤ k := by
  unfold ceilLog2
  simp only
  by_cases h0 : n = 0
  · subst h0
    rw [Nat.log2_zero]
    split <;> omega
  · have := (Nat.log2_lt h0).2 h
    split <;> omega

omit [DecidableEq K] in
theorem clear_shrunk (t : Table K) : Shrunk t t.clear := by
  unfold clear
  split
  · rename_i h
    have hn : t.numEntries / 5 < 2 ^ t.sizeIndex := by
      have : t.numEntries < 2 ^ t.sizeIndex := h.1
      omega
    have hle := ceilLog2_le hn (by omega)
    refine ⟨rfl, ?_, fun _ => ?_, fun _ => ?_⟩
    · show max 8 _ ≤ _
      omega
    · show 8 ≤ max 8 _
      omega
    · show t.numEntries ≤ 2 ^ max 8 (ceilLog2 (t.numEntries / 5)) * 5 + 4
      have h1 := le_ceilLog2 (t.numEntries / 5)
      have h2 : 2 ^ ceilLog2 (t.numEntries / 5) ≤ 2 ^ max 8 (ceilLog2 (t.numEntries / 5)) :=
        Nat.pow_le_pow_right (by omega) (Nat.le_max_right _ _)
      omega
  · exact Shrunk.same rfl rfl

end Table

end Hash

namespace Rp

open Df (Rl fwdE)
open Hash Hash.Table

variable {s : Store} {pg : Pages} {r : Rl}

/-- The nodes of an id of `s` with the addresses and children they have after the moves in `r`. -/
def moved (s : Store) (r : Rl) (i : Nat) : Ref (Edge × Edge) :=
  (s.tab i).filterMap fun a => (s.heap a).map fun n => ⟨r.at a, key (mvN r.at n)⟩

theorem moved_len (w : s.WF) (i : Nat) : (moved s r i).length = (s.tab i).length := by
  have : ∀ l : List Nat, (∀ a ∈ l, s.heap a ≠ none) →
      (l.filterMap fun a => (s.heap a).map fun n => (⟨r.at a, key (mvN r.at n)⟩ : Ent (Edge × Edge))).length =
        l.length := by
    intro l
    induction l with
    | nil => intro _; rfl
    | cons a l ih =>
      intro h
      cases hn : s.heap a with
      | none => exact absurd hn (h a List.mem_cons_self)
      | some n =>
        rw [List.filterMap_cons]
        simp only [hn, Option.map_some, List.length_cons]
        rw [ih fun b hb => h b (List.mem_cons_of_mem _ hb)]
  refine this _ fun a ha => ?_
  obtain ⟨n, hn, -⟩ := (w.tab_iff i a).1 ha
  rw [hn]; simp

theorem filterMap_congr' {α β : Type} {f g : α → Option β} : ∀ {l : List α}, (∀ a ∈ l, f a = g a) →
    l.filterMap f = l.filterMap g := by
  intro l
  induction l with
  | nil => intro _; rfl
  | cons a l ih =>
    intro h
    rw [List.filterMap_cons, List.filterMap_cons, h a List.mem_cons_self,
      ih fun b hb => h b (List.mem_cons_of_mem _ hb)]

theorem moved_id (h : ∀ a, r.fwd a = none) (i : Nat) : moved s r i = tabEntries s i := by
  have e : r.at = fun a => a := funext fun a => at_none (h a)
  unfold moved tabEntries key mvN mvE
  rw [e]

theorem tabEntries_addr (w : s.WF) (i : Nat) : (tabEntries s i).map (·.addr) = s.tab i := by
  have : ∀ l : List Nat, (∀ a ∈ l, s.heap a ≠ none) →
      (l.filterMap fun a => (s.heap a).map fun n => (⟨a, (n.thn, n.els)⟩ : Ent (Edge × Edge))).map (·.addr) = l := by
    intro l
    induction l with
    | nil => intro _; rfl
    | cons a l ih =>
      intro h
      cases hn : s.heap a with
      | none => exact absurd hn (h a List.mem_cons_self)
      | some n =>
        rw [List.filterMap_cons]
        simp only [hn, Option.map_some, List.map_cons]
        rw [ih fun b hb => h b (List.mem_cons_of_mem _ hb)]
  refine this _ fun a ha => ?_
  obtain ⟨n, hn, -⟩ := (w.tab_iff i a).1 ha
  rw [hn]; simp

/-- The node of `s` at `a`, at its new address. -/
theorem at_node {D : Nat → Prop} (I : RpInv s pg D r) {a n} (hn : s.heap a = some n) (hd : D a) :
    r.st.heap (r.at a) = some (mvN r.at n) := by
  cases hf : r.fwd a with
  | none => rw [at_none hf]; exact I.stay a n hn hd hf
  | some b =>
    obtain ⟨-, -, -, -, n', hn', -, h, -⟩ := I.move a b hf
    rw [hn] at hn'; cases hn'
    rw [at_some hf]; exact h

/-- The entries of an id that is done. -/
theorem entries_done {low : Nat → Nat → Bool} (w : s.WF) {k : Nat} {flag : Bool} (I : LoopInv low s pg k flag r) {i : Nat}
    (h1 : 1 ≤ i) (h2 : i ≤ s.ord.numVars) (h3 : k ≤ s.ord.lvl i) : (tabEntries r.st i).Perm (moved s r i) := by
  refine ((I.done i h1 h2 h3).filterMap _).trans ?_
  rw [List.filterMap_map]
  unfold moved
  rw [filterMap_congr' (g := fun a => (s.heap a).map fun n => ⟨r.at a, key (mvN r.at n)⟩) ?_]
  intro a ha
  obtain ⟨n, hn, hv⟩ := (w.tab_iff i a).1 ha
  simp only [Function.comp]
  rw [at_node I.inv hn ⟨n, hn, by rw [hv]; exact h3⟩, hn]
  rfl

/-- A round leaves the entries of the ids that are done alone. -/
theorem moved_frame {low : Nat → Nat → Bool} (w : s.WF) (L : Layout s pg) {k : Nat} (hk : k < s.ord.numVars)
    {flag : Bool} (I : LoopInv low s pg (k + 1) flag r) {r' : Rl}
    (hf : ∀ x, x ∉ (pg (s.ord.indexToId k)).flatten → r'.fwd x = r.fwd x) {i : Nat} (h3 : k + 1 ≤ s.ord.lvl i) :
    moved s r' i = moved s r i := by
  have hl : s.ord.lvl (s.ord.indexToId k) = k := by
    have hi := w.ord.id_range k hk
    unfold Order.lvl
    rw [if_neg (by omega), w.ord.right k hk]
  have same : ∀ a, a = 0 ∨ Below s (k + 1) a → r'.at a = r.at a := by
    rintro a (rfl | ⟨n, hn, h⟩)
    · unfold Rl.at; rw [hf 0 (L.pos _)]
    · unfold Rl.at
      rw [hf a fun h' => ?_]
      rw [L.own _ a h' n hn, hl] at h
      omega
  refine filterMap_congr' fun a ha => ?_
  obtain ⟨n, hn, rfl⟩ := (w.tab_iff i a).1 ha
  have hb : Below s (k + 1) a := ⟨n, hn, h3⟩
  have hkid := I.inv.kids a n hn hb
  rw [hn]
  simp only [Option.map_some, key, mvN, mvE, same a (Or.inr hb), same _ hkid.1, same _ hkid.2]

/-- The entries after the nodes of `l` have been updated. -/
def updated (r' : Rl) (l : List Nat) (e : Ent (Edge × Edge)) : Ent (Edge × Edge) :=
  if e.addr ∈ l then
    match r'.st.heap e.addr with
    | some n => ⟨e.addr, key n⟩
    | none => e
  else e

theorem updated_addr (r' : Rl) (l : List Nat) (e : Ent (Edge × Edge)) : (updated r' l e).addr = e.addr := by
  unfold updated
  split
  · split <;> rfl
  · rfl

/-- The loop over the nodes of an id that is not repacked finds every node in its bin. -/
theorem fixBins_has (r r' : Rl) : ∀ (l : List Nat) (f : Bool) (t : Table (Edge × Edge)) (E : Ref (Edge × Edge)),
    l.Nodup → (E.map (·.addr)).Nodup → t.Has hash2 E → (∀ e ∈ E, e.addr ∈ l → r.st.heap e.addr ≠ none) →
    (∀ a ∈ l, r.st.heap a = none → r'.st.heap a = none) →
    (∀ a ∈ l, ∀ n, r.st.heap a = some n → (⟨a, key n⟩ : Ent (Edge × Edge)) ∈ E ∧ r.st.ref a ≠ 0 ∧ n.thn.neg = false ∧
      r'.st.heap a = some ⟨n.var, fwdE r.fwd n.thn, fwdE r.fwd n.els⟩) →
    ∃ f' t', fixBins r r' l f t = some (f', t') ∧ t'.Has hash2 (E.map (updated r' l)) ∧
      t'.numEntries = t.numEntries ∧ t'.sizeIndex = t.sizeIndex := by
  intro l
  induction l with
  | nil =>
    intro f t E _ _ w _ _ _
    refine ⟨f, t, rfl, ?_, rfl, rfl⟩
    have : E.map (updated r' []) = E := by
      conv => rhs; rw [← List.map_id E]
      exact List.map_congr_left fun e _ => rfl
    rw [this]; exact w
  | cons a l ih =>
    intro f t E hnd u w hE hdead hl
    have hn' := List.nodup_cons.1 hnd
    unfold fixBins
    cases hn : r.st.heap a with
    | none =>
      simp only
      obtain ⟨f', t', e, w', hc⟩ := ih f t E hn'.2 u w (fun e he h => hE e he (List.mem_cons_of_mem _ h))
        (fun b hb => hdead b (List.mem_cons_of_mem _ hb)) fun b hb => hl b (List.mem_cons_of_mem _ hb)
      refine ⟨f', t', e, ?_, hc⟩
      rw [List.map_congr_left (g := updated r' l) fun e he => ?_]
      · exact w'
      · have : e.addr ≠ a := fun h => hE e he (by rw [h]; exact List.mem_cons_self) (by rw [h]; exact hn)
        simp only [updated, List.mem_cons, this, false_or]
    | some n =>
      obtain ⟨hm, href, hpos, hh⟩ := hl a List.mem_cons_self n hn
      rw [hh]
      simp only
      rw [if_neg href]
      -- the entries after this node
      have step : ∀ (f : Bool) (t₁ : Table (Edge × Edge)),
          t₁.Has hash2 (E.map (relabel a (key ⟨n.var, fwdE r.fwd n.thn, fwdE r.fwd n.els⟩))) →
          ∃ f' t', fixBins r r' l f t₁ = some (f', t') ∧ t'.Has hash2 (E.map (updated r' (a :: l))) ∧
            t'.numEntries = t₁.numEntries ∧ t'.sizeIndex = t₁.sizeIndex := by
        intro f t₁ w₁
        have hra : ∀ e : Ent (Edge × Edge), ∀ k, (relabel a k e).addr = e.addr := by
          intro e k
          unfold relabel
          split
          · rename_i h; exact h.symm
          · rfl
        obtain ⟨f', t', e, w', hc⟩ := ih f t₁ _ hn'.2 (by
            rw [List.map_map]
            have : ((fun e : Ent (Edge × Edge) => e.addr) ∘
                relabel a (key ⟨n.var, fwdE r.fwd n.thn, fwdE r.fwd n.els⟩)) = (·.addr) := funext fun e => hra e _
            rw [this]
            exact u) w₁
          (by
            intro e he h
            obtain ⟨x, hx, rfl⟩ := List.mem_map.1 he
            rw [hra] at h ⊢
            exact hE x hx (List.mem_cons_of_mem _ h))
          (fun b hb => hdead b (List.mem_cons_of_mem _ hb))
          (by
            intro b hb m hbm
            obtain ⟨h1, h2⟩ := hl b (List.mem_cons_of_mem _ hb) m hbm
            refine ⟨List.mem_map.2 ⟨_, h1, relabel_other ?_⟩, h2⟩
            rintro rfl
            exact hn'.1 hb)
        refine ⟨f', t', e, ?_, hc⟩
        rw [List.map_map] at w'
        rw [List.map_congr_left (g := updated r' l ∘ relabel a _) fun e he => ?_]
        · exact w'
        · simp only [Function.comp]
          by_cases hea : e.addr = a
          · have h1 : relabel a (key ⟨n.var, fwdE r.fwd n.thn, fwdE r.fwd n.els⟩) e = ⟨a, _⟩ := if_pos hea
            rw [h1]
            unfold updated
            rw [if_pos (by rw [hea]; exact List.mem_cons_self), if_neg hn'.1, hea, hh]
          · rw [relabel_other hea]
            simp only [updated, List.mem_cons, hea, false_or]
      by_cases hf : (f || (r.fwd n.thn.addr).isSome || (r.fwd n.els.addr).isSome) = true
      · rw [if_pos hf]
        have hneg : (fwdE r.fwd n.thn).neg = false := by
          unfold fwdE
          split <;> exact hpos
        rw [if_neg (by rw [hneg]; simp)]
        obtain ⟨t₁, e₁, w₁, c₁⟩ := rekey_has w u hm (key ⟨n.var, fwdE r.fwd n.thn, fwdE r.fwd n.els⟩)
        rw [e₁]
        obtain ⟨f', t', e, w', hc⟩ := step _ t₁ w₁
        exact ⟨f', t', e, w', by rw [hc.1, c₁.1], by rw [hc.2, c₁.2]⟩
      · rw [if_neg hf]
        refine step _ t ?_
        have : E.map (relabel a (key ⟨n.var, fwdE r.fwd n.thn, fwdE r.fwd n.els⟩)) = E := by
          conv => rhs; rw [← List.map_id E]
          refine List.map_congr_left fun e he => ?_
          by_cases hea : e.addr = a
          · have := addr_uniq u he hm hea
            subst this
            simp only [Bool.or_eq_true, not_or, Option.not_isSome_iff_eq_none] at hf
            unfold relabel fwdE
            rw [if_pos rfl, hf.1.2, hf.2]
            rfl
          · rw [relabel_other hea]; rfl
        rw [this]; exact w

/-- Invariant of the loop over the indices, for the tables. -/
structure TabInv (s : Store) (k : Nat) (r : Rl) (tb : Tabs) : Prop where
  done : ∀ i, 1 ≤ i → i ≤ s.ord.numVars → k ≤ s.ord.lvl i → (tb i).OK hash2 (moved s r i)
  todo : ∀ i, ¬ (1 ≤ i ∧ i ≤ s.ord.numVars ∧ k ≤ s.ord.lvl i) → (tb i).OK hash2 (tabEntries s i)

theorem wrap {A : Rl → Bool → Tabs → Prop} {B C D : Rl → Bool → Tabs → Prop} {tb tb₁ : Tabs} (h : ∀ i, Shrunk (tb i) (tb₁ i))
    (H : ∃ r' flag' tb', A r' flag' tb' ∧ B r' flag' tb' ∧ C r' flag' tb' ∧ D r' flag' tb' ∧ ∀ i, Shrunk (tb₁ i) (tb' i)) :
    ∃ r' flag' tb', A r' flag' tb' ∧ B r' flag' tb' ∧ C r' flag' tb' ∧ D r' flag' tb' ∧ ∀ i, Shrunk (tb i) (tb' i) := by
  obtain ⟨r', f', t', a, b, c, d, e⟩ := H
  exact ⟨r', f', t', a, b, c, d, fun i => (h i).trans (e i)⟩

theorem binLoop_ok (w : s.WF) (L : Layout s pg) (hlive : ∀ a, s.heap a ≠ none → s.ref a ≠ 0)
    (hpg : ∀ i a, i ≤ s.ord.numVars → a ∈ (pg i).flatten → a < s.next)
    {low : Nat → Nat → Bool} (hlow : ∀ n p, low n p = true → n < perPage * p) :
    ∀ (k : Nat) (flag f : Bool) (r : Rl) (tb : Tabs), k ≤ s.ord.numVars → LoopInv low s pg k flag r → TabInv s k r tb →
    ∃ r' flag' tb', binLoop low pg k flag f r tb = some (r', tb') ∧ packLoop low pg k flag r = some r' ∧
      LoopInv low s pg 0 flag' r' ∧ TabInv s 0 r' tb' ∧ ∀ i, Shrunk (tb i) (tb' i) := by
  intro k
  induction k with
  | zero => intro flag f r tb _ I J; exact ⟨r, flag, tb, rfl, rfl, I, J, fun _ => Shrunk.same rfl rfl⟩
  | succ k ih =>
    intro flag f r tb hk I J
    have hk' : k < s.ord.numVars := hk
    have hi := w.ord.id_range k hk'
    have hl : s.ord.lvl (s.ord.indexToId k) = k := by
      unfold Order.lvl
      rw [if_neg (by omega), w.ord.right k hk']
    have hlvl : ∀ j, 1 ≤ j → j ≤ s.ord.numVars → j ≠ s.ord.indexToId k → k ≤ s.ord.lvl j → k + 1 ≤ s.ord.lvl j := by
      intro j h1 h2 hj h
      unfold Order.lvl at *
      rw [if_neg (by omega)] at *
      have : s.ord.idToIndex j ≠ k := by
        intro h; apply hj; rw [← h, w.ord.left j h1 h2]
      omega
    have T := I.todo_pages w L hlive hk'
    have J0 : (tb (s.ord.indexToId k)).OK hash2 (tabEntries s (s.ord.indexToId k)) :=
      J.todo _ fun h => by have := h.2.2; omega
    have hlen : (tabEntries s (s.ord.indexToId k)).length = (s.tab (s.ord.indexToId k)).length := by
      rw [← List.length_map (f := fun e : Ent (Edge × Edge) => e.addr), tabEntries_addr w]
    obtain ⟨r', flag', I', hf, h⟩ := I.round w L hlive hpg hlow hk
    -- the tables after this round
    have next : ∀ t : Table (Edge × Edge), t.OK hash2 (moved s r' (s.ord.indexToId k)) →
        TabInv s k r' (upd tb (s.ord.indexToId k) t) := by
      intro t ht
      refine ⟨fun j h1 h2 h3 => ?_, fun j hj => ?_⟩
      · by_cases hji : j = s.ord.indexToId k
        · rw [hji, upd_same]; exact ht
        · have h4 := hlvl j h1 h2 hji h3
          simp only [upd, if_neg hji]
          rw [moved_frame w L hk' I hf h4]
          exact J.done j h1 h2 h4
      · have hji : j ≠ s.ord.indexToId k := by
          rintro rfl; exact hj ⟨hi.1, hi.2, by omega⟩
        simp only [upd, if_neg hji]
        exact J.todo j fun h => hj ⟨h.1, h.2.1, by have := h.2.2; omega⟩
    have shr : ∀ t : Table (Edge × Edge), Shrunk (tb (s.ord.indexToId k)) t →
        ∀ i, Shrunk (tb i) (upd tb (s.ord.indexToId k) t i) := by
      intro t h i
      unfold upd
      split
      · rename_i hi; rw [hi]; exact h
      · exact Shrunk.same rfl rfl
    unfold binLoop packLoop
    rw [I.inv.ord]
    simp only
    rcases h with ⟨h1, h2, rfl⟩ | ⟨h1, rfl, rfl, h2⟩ | ⟨h1, rfl, rfl, rfl⟩
    · rw [if_pos h1, if_pos h1, h2]
      simp only
      refine wrap (shr (packBins r' (s.ord.indexToId k) (tb (s.ord.indexToId k)))
        ((clear_shrunk _).trans (Shrunk.same rfl rfl))) (ih true f r' _ (by omega) I' (next _ ?_))
      have hp := entries_done w I' hi.1 hi.2 (by omega)
      have hh := fill_has hash2 (tb (s.ord.indexToId k)).clear (tabEntries r'.st (s.ord.indexToId k)).reverse
        (clear_bins _)
      refine ⟨hh.perm.trans ((List.reverse_perm _).trans hp), hh.slots, ?_⟩
      show (tb (s.ord.indexToId k)).clear.numEntries = _
      rw [clear_num, J0.cnt, hlen, moved_len w]
    · rw [if_neg (by rw [h1]; simp), if_pos rfl, if_neg (by rw [h1]; simp), if_pos rfl, ← h2]
      obtain ⟨-, f', -, -⟩ := fix_fold (pg (s.ord.indexToId k)).flatten _ r I.inv T
      rw [← h2] at f'
      -- nodes of this id are where they were
      have here : ∀ a n, s.heap a = some n → a ∈ (pg (s.ord.indexToId k)).flatten →
          r.st.heap a = some n ∧ r.fwd a = none ∧ r'.st.heap a = some (mvN r.at n) := by
        intro a n hn ha
        have hd := T.new a ha (by rw [hn]; simp)
        have hkp := I.inv.keep a n hn hd
        refine ⟨hkp.1, hkp.2, ?_⟩
        have := I'.inv.stay a n hn ⟨n, hn, by rw [L.own _ a ha n hn]; omega⟩ (by rw [f']; exact hkp.2)
        rw [this]
        have : r'.at = r.at := by funext x; unfold Rl.at; rw [f']
        rw [this]
      have dead : ∀ a, a ∈ (pg (s.ord.indexToId k)).flatten → s.heap a = none → r.st.heap a = none ∧ r'.st.heap a = none := by
        intro a ha hn
        refine ⟨I.inv.dead hn (T.free a ha), I'.inv.dead hn fun x => ?_⟩
        rw [f']; exact T.free a ha x
      have mem : ∀ e ∈ tabEntries s (s.ord.indexToId k), ∃ n, s.heap e.addr = some n ∧ e.key = key n ∧
          e.addr ∈ (pg (s.ord.indexToId k)).flatten := by
        intro e he
        unfold tabEntries at he
        obtain ⟨a, ha, hx⟩ := List.mem_filterMap.1 he
        obtain ⟨n, hn, hv⟩ := (w.tab_iff _ a).1 ha
        rw [hn] at hx
        cases hx
        exact ⟨n, hn, rfl, hv ▸ L.all a n hn⟩
      obtain ⟨f₁, t₁, e₁, w₁, c₁⟩ := fixBins_has r r' (pg (s.ord.indexToId k)).flatten f (tb (s.ord.indexToId k))
        (tabEntries s (s.ord.indexToId k)) (L.nodup _) (by rw [tabEntries_addr w]; exact w.tab_nodup _)
        ⟨J0.perm, J0.slots⟩
        (by
          intro e he ha
          obtain ⟨n, hn, -, -⟩ := mem e he
          rw [(here _ n hn ha).1]; simp)
        (by
          intro a ha h
          cases hn : s.heap a with
          | none => exact (dead a ha hn).2
          | some n => rw [(here a n hn ha).1] at h; cases h)
        (by
          intro a ha n h
          cases hn : s.heap a with
          | none => rw [(dead a ha hn).1] at h; cases h
          | some m =>
            obtain ⟨g1, g2, g3⟩ := here a m hn ha
            rw [g1] at h; cases h
            refine ⟨?_, ?_, w.thn_pos a n hn, ?_⟩
            · unfold tabEntries
              refine List.mem_filterMap.2 ⟨a, (w.tab_iff _ a).2 ⟨n, hn, L.own _ a ha n hn⟩, ?_⟩
              rw [hn]; rfl
            · rw [I.inv.ref a g2 (Or.inr (by rw [hn]; simp))]
              exact hlive a (by rw [hn]; simp)
            · rw [g3, fixed_node])
      rw [e₁]
      simp only
      refine wrap (shr _ (Shrunk.same c₁.1 c₁.2)) (ih true f₁ r' _ (by omega) I' (next _ ?_))
      have hE : (tabEntries s (s.ord.indexToId k)).map (updated r' (pg (s.ord.indexToId k)).flatten) =
          moved s r' (s.ord.indexToId k) := by
        unfold tabEntries moved
        rw [List.map_filterMap]
        refine filterMap_congr' fun a ha => ?_
        obtain ⟨n, hn, hv⟩ := (w.tab_iff _ a).1 ha
        have hap : a ∈ (pg (s.ord.indexToId k)).flatten := hv ▸ L.all a n hn
        obtain ⟨g1, g2, g3⟩ := here a n hn hap
        have hat : r'.at = r.at := by funext x; unfold Rl.at; rw [f']
        rw [hn]
        simp only [Option.map_some, updated, if_pos hap, g3, hat, at_none g2]
      rw [hE] at w₁
      refine ⟨w₁.perm, w₁.slots, ?_⟩
      rw [c₁.1, J0.cnt, hlen, moved_len w]
    · rw [if_neg (by rw [h1]; simp), if_neg (by simp), if_neg (by rw [h1]; simp), if_neg (by simp)]
      refine ih false f r' tb (by omega) I' ?_
      have e : upd tb (s.ord.indexToId k) (tb (s.ord.indexToId k)) = tb := by
        funext j; unfold upd; split
        · rename_i h; rw [h]
        · rfl
      have := next (tb (s.ord.indexToId k)) (by rw [moved_id (I'.flag rfl)]; exact J0)
      rw [e] at this
      exact this

/-- Repacking with the chained tables. -/
theorem repackTabs_ok (w : s.WF) (L : Layout s pg) (hlive : ∀ a, s.heap a ≠ none → s.ref a ≠ 0)
    {low : Nat → Nat → Bool} (hlow : ∀ n p, low n p = true → n < perPage * p) {tb : Tabs}
    (ht : ∀ i, (tb i).OK hash2 (tabEntries s i)) :
    ∃ r tb', repackStore low pg s = some r ∧ repackTabs low pg s tb = some (r, tb') ∧
      (∀ i, (tb' i).OK hash2 (tabEntries r.st i)) ∧ ∀ i, Shrunk (tb i) (tb' i) := by
  have w1 := reserve_wf w pg
  have L1 : Layout (reserve pg s) pg := ⟨L.size, L.nodup, L.pos, L.own, L.all, L.free, L.disj⟩
  have I := LoopInv.start w L low
  have hlvl : ∀ i, 1 ≤ i → i ≤ (reserve pg s).ord.numVars → ¬ s.ord.numVars ≤ (reserve pg s).ord.lvl i := by
    intro i h1 h2 h3
    have := w1.ord.idx_lt i h1 h2
    unfold Order.lvl at h3
    rw [if_neg (by omega)] at h3
    have e : (reserve pg s).ord.numVars = s.ord.numVars := rfl
    omega
  obtain ⟨r, flag, tb', e1, e2, J, K, sh⟩ := binLoop_ok w1 L1 hlive (fun i a h1 h2 => reserve_lt h1 h2) hlow _ _ false _ tb
    (Nat.le_refl _) I ⟨fun i h1 h2 h3 => absurd h3 (hlvl i h1 h2), fun i _ => ht i⟩
  refine ⟨r, tb', e2, e1, fun i => ?_, sh⟩
  by_cases hi : 1 ≤ i ∧ i ≤ (reserve pg s).ord.numVars
  · have p := entries_done w1 J hi.1 hi.2 (Nat.zero_le _)
    have k := K.done i hi.1 hi.2 (Nat.zero_le _)
    exact ⟨k.perm.trans p.symm, k.slots, by rw [k.cnt, p.length_eq]⟩
  · have k := K.todo i fun h => hi ⟨h.1, h.2.1⟩
    have h1 : s.tab i = [] := by
      cases h : s.tab i with
      | nil => rfl
      | cons a l =>
        obtain ⟨n, hn, hv⟩ := (w.tab_iff i a).1 (by rw [h]; exact List.mem_cons_self)
        have := w.var_range a n hn
        rw [hv] at this
        exact absurd this hi
    have h2 : r.st.tab i = [] := by
      rw [J.todo i fun h => hi ⟨h.1, h.2.1⟩]; exact h1
    have e : tabEntries r.st i = tabEntries (reserve pg s) i := by
      unfold tabEntries
      rw [h2, show (reserve pg s).tab i = [] from h1]
      rfl
    rw [e]; exact k

end Rp

end Cal
