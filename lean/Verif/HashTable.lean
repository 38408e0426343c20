import Verif.Store
import Verif.Sem
import Verif.StoreLemmas
/-!
# Chained hash tables

Model of `/repo/src/calHashTable.c` (unique tables and request queues), and of the shared skeleton
of `calHashTableOne.c` and `calHashTableThree.c`, which only differ in what a key is: the tables
here are over an arbitrary key type `K` with an arbitrary hash function `h : K → Nat` (the C macros
`CalDoHash2`, `HashTableOneDoHash`, `CalDoHash3` before the final `& (numBins - 1)`).

Simplifications: a chain is the list of its entries from the head of the bin on; an entry pairs the
address of the node with the key stored in the node; memory does not run out; the size index stays
below 31 (`TABLE_SIZE` shifts an `int`).
-/

namespace Cal.Hash

variable {K : Type} [DecidableEq K]

/-- One node of a chain: its address and the key it holds (`thenBdd`, `elseBdd` of
`CalBddNode_t`, calInt.h:303-310). -/
structure Ent (K : Type) where
  addr : Nat
  key : K
deriving DecidableEq, Repr

/-- `CalHashTable_t` (calInt.h:312-324). -/
structure Table (K : Type) where
  sizeIndex : Nat
  bins : Nat → List (Ent K)
  numEntries : Nat

namespace Table

/-- `hashTable->numBins`, always `TABLE_SIZE(sizeIndex)` = `1 << sizeIndex` (calInt.h:228). -/
def numBins (t : Table K) : Nat := 2 ^ t.sizeIndex

/-- `hashTable->maxCapacity`, always `numBins * HASH_TABLE_DEFAULT_MAX_DENSITY` (calInt.h:220). -/
def maxCapacity (t : Table K) : Nat := t.numBins * 5

/-- `CalHashTableInit` (calHashTable.c:86-112): `HASH_TABLE_DEFAULT_SIZE_INDEX` is 8. -/
def init : Table K := ⟨8, fun _ => [], 0⟩

/-- the bin of a key: `hash & (numBins - 1)` (calInt.h:1482-1483) -/
def slot (h : K → Nat) (t : Table K) (k : K) : Nat := h k &&& (t.numBins - 1)

/-- link a node in front of a bin: `CalBddNodePutNextBddNode(ptr, bins[hashValue]);
bins[hashValue] = ptr` -/
def push (b : Nat → List (Ent K)) (i : Nat) (e : Ent K) : Nat → List (Ent K) :=
  upd b i (e :: b i)

/-- the relinking loop of `CalHashTableRehash` (calHashTable.c:437-448) over the old bins `is` -/
def relink (h : K → Nat) (n : Nat) (old : Nat → List (Ent K)) (is : List Nat) : Nat → List (Ent K) :=
  is.foldl (fun b i => (old i).foldl (fun b e => push b (h e.key &&& (n - 1)) e) b) fun _ => []

/-- `CalHashTableRehash` (calHashTable.c:404-450) -/
def rehash (h : K → Nat) (t : Table K) (grow : Bool) : Table K :=
  if grow = false ∧ t.sizeIndex ≤ 8 then t
  else
    let si := if grow then t.sizeIndex + 1 else t.sizeIndex - 1
    { t with sizeIndex := si, bins := relink h (2 ^ si) t.bins (List.range t.numBins) }

/-- the search loop of `CalHashTableLookup` and `CalHashTableFindOrAdd`
(calHashTable.c:179-191, 263-277), `CalHashTableOneLookup` (calHashTableOne.c:175-188) and
`CalHashTableThreeFindOrAdd` (calHashTableThree.c:110-127) -/
def lookup (h : K → Nat) (t : Table K) (k : K) : Option Nat :=
  ((t.bins (t.slot h k)).find? fun e => e.key = k).map (·.addr)

/-- `CalHashTableFindOrAdd` (calHashTable.c:167-206): `a` is the node the node manager would
allocate. Returns the address of the entry and whether it was found. -/
def findOrAdd (h : K → Nat) (t : Table K) (k : K) (a : Nat) : Table K × Nat × Bool :=
  match t.lookup h k with
  | some b => (t, b, true)
  | none =>
    let t := { t with numEntries := t.numEntries + 1 }
    let t := if t.maxCapacity < t.numEntries then t.rehash h true else t
    ({ t with bins := push t.bins (t.slot h k) ⟨a, k⟩ }, a, false)

/-- `CalHashTableAddDirect`, `CalHashTableAddDirectAux` (calHashTable.c:147-163, 210-231) and
`CalHashTableOneInsert` (calHashTableOne.c:146-166): insert without looking. -/
def addDirect (h : K → Nat) (t : Table K) (k : K) (a : Nat) : Table K :=
  let t := { t with numEntries := t.numEntries + 1 }
  let t := if t.maxCapacity ≤ t.numEntries then t.rehash h true else t
  { t with bins := push t.bins (t.slot h k) ⟨a, k⟩ }

/-- unlink the first entry with address `a` from a chain (calHashTable.c:298-313) -/
def unlink (a : Nat) : List (Ent K) → Option (List (Ent K))
  | [] => none
  | e :: r => if e.addr = a then some r else (unlink a r).map (e :: ·)

/-- `CalHashTableDelete` (calHashTable.c:284-316): the node at `a`, whose fields hold the key `k`.
A node that is not in the table only gives a warning. The result says whether it was removed. -/
def delete (h : K → Nat) (t : Table K) (k : K) (a : Nat) : Table K × Bool :=
  match unlink a (t.bins (t.slot h k)) with
  | some c => ({ t with bins := upd t.bins (t.slot h k) c, numEntries := t.numEntries - 1 }, true)
  | none => (t, false)

/-- All entries, bin by bin. -/
def entries (t : Table K) : List (Ent K) := (List.range t.numBins).flatMap t.bins

/-- Invariant: every entry hangs in the bin of its key, keys and addresses are unique, the counter
counts. -/
structure OK (h : K → Nat) (t : Table K) (l : List (Ent K)) : Prop where
  perm : t.entries.Perm l
  slots : ∀ i e, e ∈ t.bins i → i = t.slot h e.key
  cnt : t.numEntries = l.length

end Table

open Table

/-! ## The reference: a plain list of pairs -/

/-- Reference implementation: a finite set of (key, address) pairs as a list. -/
abbrev Ref (K : Type) := List (Ent K)

/-- Calls on a table. -/
inductive Op (K : Type) where
  | lookup (k : K)
  | findOrAdd (k : K) (a : Nat)
  | addDirect (k : K) (a : Nat)
  | delete (k : K) (a : Nat)
  | rehash (grow : Bool)

/-- What a call returns. -/
inductive Ans where
  | found (a : Nat)
  | absent
  | added (a : Nat)
  | deleted
  | notThere
  | unit
deriving DecidableEq, Repr

/-- The calls on the hash table. -/
def exec (h : K → Nat) (t : Table K) : Op K → Table K × Ans
  | .lookup k => (t, match t.lookup h k with | some a => .found a | none => .absent)
  | .findOrAdd k a =>
    let r := t.findOrAdd h k a
    (r.1, if r.2.2 then .found r.2.1 else .added r.2.1)
  | .addDirect k a => (t.addDirect h k a, .unit)
  | .delete k a => let r := t.delete h k a; (r.1, if r.2 then .deleted else .notThere)
  | .rehash g => (t.rehash h g, .unit)

/-- The same calls on the reference: no hash function, no bins, no capacity. -/
def Ref.exec (l : Ref K) : Op K → Ref K × Ans
  | .lookup k => (l, match l.find? fun e => e.key = k with | some e => .found e.addr | none => .absent)
  | .findOrAdd k a =>
    match l.find? fun e => e.key = k with
    | some e => (l, .found e.addr)
    | none => (⟨a, k⟩ :: l, .added a)
  | .addDirect k a => (⟨a, k⟩ :: l, .unit)
  | .delete k a => if ⟨a, k⟩ ∈ l then (l.filter fun e => e ≠ ⟨a, k⟩, .deleted) else (l, .notThere)
  | .rehash _ => (l, .unit)

/-- A call is legal when the caller respects the contract: nodes that are added are not in the table
(the node manager hands out free nodes), and keys inserted without looking are new. -/
def Ref.Legal (l : Ref K) : Op K → Prop
  | .findOrAdd _ a => ∀ e ∈ l, e.addr ≠ a
  | .addDirect k a => ∀ e ∈ l, e.addr ≠ a ∧ e.key ≠ k
  | .delete k a => ∀ e ∈ l, e.addr = a → e.key = k
  | _ => True

/-- Every call of the sequence is legal where it is made. -/
def Ref.LegalSeq : Ref K → List (Op K) → Prop
  | _, [] => True
  | l, o :: os => l.Legal o ∧ Ref.LegalSeq (l.exec o).1 os

/-- Run a sequence of calls on a table and collect the answers. -/
def run (h : K → Nat) : Table K → List (Op K) → Table K × List Ans
  | t, [] => (t, [])
  | t, o :: os => let r := exec h t o; let q := run h r.1 os; (q.1, r.2 :: q.2)

/-- The same for the reference. -/
def Ref.run : Ref K → List (Op K) → Ref K × List Ans
  | l, [] => (l, [])
  | l, o :: os => let r := Ref.exec l o; let q := Ref.run r.1 os; (q.1, r.2 :: q.2)

/-! ## Proof of the refinement -/

namespace Table

omit [DecidableEq K] in
theorem slot_eq (h : K → Nat) (t : Table K) (k : K) : t.slot h k = h k % 2 ^ t.sizeIndex := by
  simp [slot, numBins, Nat.and_two_pow_sub_one_eq_mod]

omit [DecidableEq K] in
theorem slot_lt (h : K → Nat) (t : Table K) (k : K) : t.slot h k < t.numBins := by
  rw [slot_eq]; exact Nat.mod_lt _ (Nat.two_pow_pos _)

omit [DecidableEq K] in
theorem mem_entries {t : Table K} {e : Ent K} :
    e ∈ t.entries ↔ ∃ i, i < t.numBins ∧ e ∈ t.bins i := by
  simp [entries]

omit [DecidableEq K] in
theorem OK.mem {h : K → Nat} {t : Table K} {l : List (Ent K)} (w : t.OK h l) {e : Ent K} :
    e ∈ l ↔ e ∈ t.bins (t.slot h e.key) := by
  rw [← w.perm.mem_iff, mem_entries]
  constructor
  · rintro ⟨i, hi, he⟩
    rw [← w.slots i e he]; exact he
  · intro he
    exact ⟨_, slot_lt h t _, he⟩

theorem flatMap_ext {α β : Type} {l : List α} {f g : α → List β} (h : ∀ x ∈ l, f x = g x) :
    l.flatMap f = l.flatMap g := by
  induction l with
  | nil => rfl
  | cons x l ih =>
    rw [List.flatMap_cons, List.flatMap_cons, h x (List.mem_cons_self ..),
      ih fun y hy => h y (List.mem_cons_of_mem _ hy)]

theorem flatMap_nil {α β : Type} (l : List α) : l.flatMap (fun _ => ([] : List β)) = [] := by
  induction l with
  | nil => rfl
  | cons x l ih => rw [List.flatMap_cons, ih]; rfl

omit [DecidableEq K] in
/-- pushing an entry in one bin adds exactly that entry -/
theorem perm_push (b : Nat → List (Ent K)) (i : Nat) (e : Ent K) :
    ∀ {n : Nat}, i < n →
      ((List.range n).flatMap (push b i e)).Perm (e :: (List.range n).flatMap b) := by
  intro n hi
  induction n with
  | zero => omega
  | succ n ih =>
    rw [List.range_succ, List.flatMap_append, List.flatMap_append]
    simp only [List.flatMap_cons, List.flatMap_nil, List.append_nil]
    by_cases hin : i = n
    · subst hin
      have h1 : (List.range i).flatMap (push b i e) = (List.range i).flatMap b := by
        apply flatMap_ext
        intro j hj
        simp only [List.mem_range] at hj
        simp [push, upd, Nat.ne_of_lt hj]
      rw [h1]
      simp only [push, upd_same]
      exact List.perm_middle
    · have h2 : push b i e n = b n := by simp [push, upd]; intro h; omega
      rw [h2]
      exact ((ih (by omega)).append_right _)

omit [DecidableEq K] in
theorem perm_pushes (h : K → Nat) {m : Nat} (hm : 0 < m) (l : List (Ent K)) :
    ∀ (b : Nat → List (Ent K)),
      ((List.range m).flatMap
          (l.foldl (fun b e => push b (h e.key % m) e) b)).Perm
        (l ++ (List.range m).flatMap b) := by
  induction l with
  | nil => intro b; simp
  | cons e l ih =>
    intro b
    simp only [List.foldl_cons]
    refine (ih _).trans ?_
    refine ((perm_push b _ e (Nat.mod_lt _ hm)).append_left l).trans ?_
    simp

omit [DecidableEq K] in
theorem slots_pushes (h : K → Nat) {m : Nat} (l : List (Ent K)) :
    ∀ (b : Nat → List (Ent K)), (∀ i e, e ∈ b i → i = h e.key % m) →
      ∀ i e, e ∈ l.foldl (fun b e => push b (h e.key % m) e) b i → i = h e.key % m := by
  induction l with
  | nil => intro b hb; simpa using hb
  | cons e l ih =>
    intro b hb
    simp only [List.foldl_cons]
    apply ih
    intro i e' he'
    simp only [push, upd] at he'
    split at he'
    · rcases List.mem_cons.mp he' with h1 | h1
      · subst h1; assumption
      · rename_i hi; rw [hi]; exact hb _ _ h1
    · exact hb _ _ he'

omit [DecidableEq K] in
theorem relink_ok (h : K → Nat) (k : Nat) (old : Nat → List (Ent K)) (is : List Nat) :
    ((List.range (2 ^ k)).flatMap (relink h (2 ^ k) old is)).Perm (is.flatMap old) ∧
      ∀ i e, e ∈ relink h (2 ^ k) old is i → i = h e.key % 2 ^ k := by
  have key : ∀ (is : List Nat) (b : Nat → List (Ent K)), (∀ i e, e ∈ b i → i = h e.key % 2 ^ k) →
      ((List.range (2 ^ k)).flatMap
        (is.foldl (fun b i => (old i).foldl (fun b e => push b (h e.key &&& (2 ^ k - 1)) e) b) b)).Perm
          (is.flatMap old ++ (List.range (2 ^ k)).flatMap b) ∧
      ∀ i e, e ∈ is.foldl (fun b i =>
          (old i).foldl (fun b e => push b (h e.key &&& (2 ^ k - 1)) e) b) b i → i = h e.key % 2 ^ k := by
    intro is
    simp only [Nat.and_two_pow_sub_one_eq_mod]
    induction is with
    | nil => intro b hb; exact ⟨by simp, by simpa using hb⟩
    | cons j is ih =>
      intro b hb
      simp only [List.foldl_cons]
      obtain ⟨h1, h2⟩ := ih _ (slots_pushes h (old j) b hb)
      refine ⟨?_, h2⟩
      refine h1.trans ?_
      refine ((perm_pushes h (Nat.two_pow_pos k) (old j) b).append_left _).trans ?_
      simp only [List.flatMap_cons]
      rw [← List.append_assoc]
      exact List.perm_append_comm.append_right _
  have := key is (fun _ => []) (by simp)
  refine ⟨?_, this.2⟩
  have h1 := this.1
  rw [flatMap_nil, List.append_nil] at h1
  exact h1

omit [DecidableEq K] in
theorem OK.rehash {h : K → Nat} {t : Table K} {l : List (Ent K)} (w : t.OK h l) (g : Bool) :
    (t.rehash h g).OK h l := by
  unfold Table.rehash
  split
  · exact w
  · have := relink_ok h (if g then t.sizeIndex + 1 else t.sizeIndex - 1) t.bins (List.range t.numBins)
    refine ⟨this.1.trans w.perm, ?_, w.cnt⟩
    intro i e he
    rw [slot_eq]
    exact this.2 i e he

omit [DecidableEq K] in
theorem OK.push {h : K → Nat} {t : Table K} {l : List (Ent K)}
    (hp : t.entries.Perm l) (hs : ∀ i e, e ∈ t.bins i → i = t.slot h e.key)
    (hc : t.numEntries = l.length + 1) (k : K) (a : Nat) :
    ({ t with bins := push t.bins (t.slot h k) ⟨a, k⟩ } : Table K).OK h (⟨a, k⟩ :: l) := by
  refine ⟨?_, ?_, by simpa using hc⟩
  · exact (perm_push t.bins _ _ (slot_lt h t k)).trans (hp.cons _)
  · intro i e he
    simp only [Table.push, upd] at he
    split at he
    · rcases List.mem_cons.mp he with h1 | h1
      · subst h1; assumption
      · rename_i hi; rw [hi]; exact hs _ _ h1
    · exact hs i e he

omit [DecidableEq K] in
/-- insertion, with or without growing the table first -/
theorem OK.insert {h : K → Nat} {t : Table K} {l : List (Ent K)} (w : t.OK h l) (k : K) (a : Nat)
    (p : Prop) [Decidable p] :
    (let t := { t with numEntries := t.numEntries + 1 }
     let t := if p then t.rehash h true else t
     ({ t with bins := Table.push t.bins (t.slot h k) ⟨a, k⟩ } : Table K)).OK h (⟨a, k⟩ :: l) := by
  have wi : ({ t with numEntries := t.numEntries + 1 } : Table K).entries.Perm l := w.perm
  dsimp only
  split
  · have hw := w.rehash true
    refine OK.push (t := Table.rehash h { t with numEntries := t.numEntries + 1 } true) hw.perm hw.slots ?_ k a
    simp [Table.rehash, w.cnt]
  · refine OK.push (t := { t with numEntries := t.numEntries + 1 }) wi w.slots ?_ k a
    simp [w.cnt]

theorem find_unique {l : List (Ent K)} (hn : (l.map (·.key)).Nodup) {e : Ent K} (he : e ∈ l) :
    l.find? (fun x => x.key = e.key) = some e := by
  induction l with
  | nil => cases he
  | cons x l ih =>
    simp only [List.map_cons, List.nodup_cons, List.mem_map, not_exists, not_and] at hn
    rw [List.find?_cons]
    rcases List.mem_cons.mp he with h1 | h1
    · subst h1; simp
    · have : x.key ≠ e.key := fun h => hn.1 e h1 h.symm
      simp [this, ih hn.2 h1]

theorem OK.find {h : K → Nat} {t : Table K} {l : List (Ent K)} (w : t.OK h l)
    (hn : (l.map (·.key)).Nodup) (k : K) :
    (t.bins (t.slot h k)).find? (fun e => e.key = k) = l.find? (fun e => e.key = k) := by
  cases h1 : l.find? (fun e => e.key = k) with
  | none =>
    rw [List.find?_eq_none] at h1 ⊢
    intro e he hk
    simp only [decide_eq_true_eq] at hk
    have : e ∈ l := w.mem.mpr (by rw [hk]; exact he)
    simpa [hk] using h1 e this
  | some e =>
    have hk : e.key = k := by simpa using List.find?_some h1
    have hel := List.mem_of_find?_eq_some h1
    have hb := w.mem.mp hel
    rw [hk] at hb
    cases h2 : (t.bins (t.slot h k)).find? (fun e => e.key = k) with
    | none =>
      rw [List.find?_eq_none] at h2
      exact absurd (by simpa using hk) (h2 e hb)
    | some e' =>
      have hk' : e'.key = k := by simpa using List.find?_some h2
      have hb' := List.mem_of_find?_eq_some h2
      have : e' ∈ l := w.mem.mpr (by rw [hk']; exact hb')
      have h3 := find_unique hn this
      rw [hk', h1] at h3
      exact h3.symm

omit [DecidableEq K] in
theorem perm_upd {b : Nat → List (Ent K)} {i : Nat} {e : Ent K} {c : List (Ent K)}
    (hc : (b i).Perm (e :: c)) :
    ∀ {n : Nat}, i < n →
      ((List.range n).flatMap b).Perm (e :: (List.range n).flatMap (upd b i c)) := by
  intro n hi
  induction n with
  | zero => omega
  | succ n ih =>
    rw [List.range_succ, List.flatMap_append, List.flatMap_append]
    simp only [List.flatMap_cons, List.flatMap_nil, List.append_nil]
    by_cases hin : i = n
    · subst hin
      have h1 : (List.range i).flatMap (upd b i c) = (List.range i).flatMap b := by
        apply flatMap_ext
        intro j hj
        simp only [List.mem_range] at hj
        simp [upd, Nat.ne_of_lt hj]
      rw [h1, upd_same]
      exact (hc.append_left _).trans List.perm_middle
    · have h2 : upd b i c n = b n := by simp [upd]; intro h; omega
      rw [h2]
      exact ((ih (by omega)).append_right _)

omit [DecidableEq K] in
theorem unlink_none {a : Nat} {c : List (Ent K)} (h : unlink a c = none) :
    ∀ e ∈ c, e.addr ≠ a := by
  induction c with
  | nil => simp
  | cons x c ih =>
    simp only [unlink] at h
    split at h
    · cases h
    · simp only [Option.map_eq_none_iff] at h
      intro e he
      rcases List.mem_cons.mp he with h1 | h1
      · subst h1; assumption
      · exact ih h e h1

omit [DecidableEq K] in
theorem unlink_some {a : Nat} {c c' : List (Ent K)} (h : unlink a c = some c') :
    ∃ e, e.addr = a ∧ c.Perm (e :: c') ∧ c'.Sublist c := by
  induction c generalizing c' with
  | nil => cases h
  | cons x c ih =>
    simp only [unlink] at h
    split at h
    · cases h; exact ⟨x, by assumption, List.Perm.refl _, List.sublist_cons_self _ _⟩
    · simp only [Option.map_eq_some_iff] at h
      obtain ⟨d, hd, rfl⟩ := h
      obtain ⟨e, h1, h2, h3⟩ := ih hd
      exact ⟨e, h1, (h2.cons x).trans (List.Perm.swap _ _ _), h3.cons_cons x⟩

theorem perm_filter {l m : List (Ent K)} {e : Ent K} (h : l.Perm (e :: m)) (hn : l.Nodup) :
    (l.filter fun x => x ≠ e).Perm m := by
  have h1 := h.filter (fun x => x ≠ e)
  have h2 : (e :: m).Nodup := h.nodup hn
  simp only [List.nodup_cons] at h2
  have h3 : (e :: m).filter (fun x => x ≠ e) = m := by
    rw [List.filter_cons]
    simp only [ne_eq, not_true_eq_false, decide_false, Bool.false_eq_true, if_false]
    rw [List.filter_eq_self]
    intro x hx
    simp only [decide_eq_true_eq]
    intro hxe; subst hxe; exact h2.1 hx
  rw [h3] at h1
  exact h1

end Table

/-- Sets of entries without repeated keys or addresses. -/
structure Ref.Uniq (l : Ref K) : Prop where
  keys : (l.map (·.key)).Nodup
  addrs : (l.map (·.addr)).Nodup

omit [DecidableEq K] in
theorem Ref.Uniq.nodup {l : Ref K} (u : l.Uniq) : l.Nodup := by
  have := u.keys
  rw [List.nodup_iff_pairwise_ne, List.pairwise_map] at this
  exact this.imp fun h he => h (by rw [he])

omit [DecidableEq K] in
theorem Ref.Uniq.cons {l : Ref K} (u : l.Uniq) {k : K} {a : Nat} (h1 : ∀ e ∈ l, e.addr ≠ a)
    (h2 : ∀ e ∈ l, e.key ≠ k) : Ref.Uniq (⟨a, k⟩ :: l) := by
  refine ⟨?_, ?_⟩
  · simp only [List.map_cons, List.nodup_cons, List.mem_map, not_exists, not_and]
    exact ⟨fun e he hk => h2 e he hk, u.keys⟩
  · simp only [List.map_cons, List.nodup_cons, List.mem_map, not_exists, not_and]
    exact ⟨fun e he hk => h1 e he hk, u.addrs⟩

theorem exec_ok {h : K → Nat} {t : Table K} {l : Ref K} (w : t.OK h l) (u : l.Uniq) (o : Op K)
    (hl : l.Legal o) :
    (exec h t o).1.OK h (l.exec o).1 ∧ (l.exec o).1.Uniq ∧ (exec h t o).2 = (l.exec o).2 := by
  cases o with
  | lookup k =>
    refine ⟨w, u, ?_⟩
    simp only [exec, Ref.exec, Table.lookup, w.find u.keys]
    cases l.find? (fun e => decide (e.key = k)) <;> rfl
  | findOrAdd k a =>
    simp only [exec, Ref.exec, Table.findOrAdd, Table.lookup, w.find u.keys]
    cases hf : l.find? (fun e => decide (e.key = k)) with
    | some e => exact ⟨w, u, rfl⟩
    | none =>
      rw [List.find?_eq_none] at hf
      refine ⟨w.insert k a _, u.cons hl fun e he hk => hf e he (by simpa using hk), ?_⟩
      simp
  | addDirect k a =>
    exact ⟨w.insert k a _, u.cons (fun e he => (hl e he).1) (fun e he => (hl e he).2), rfl⟩
  | rehash g => exact ⟨w.rehash g, u, rfl⟩
  | delete k a =>
    cases hu : unlink a (t.bins (t.slot h k)) with
    | none =>
      have hd : t.delete h k a = (t, false) := by simp [Table.delete, hu]
      simp only [exec, Ref.exec, hd]
      have h1 := unlink_none hu
      have h2 : (⟨a, k⟩ : Ent K) ∉ l := fun hm => h1 _ (w.mem.mp hm) rfl
      rw [if_neg h2]
      exact ⟨w, u, rfl⟩
    | some c =>
      have hd : t.delete h k a = ({ t with
          bins := upd t.bins (t.slot h k) c, numEntries := t.numEntries - 1 }, true) := by
        simp [Table.delete, hu]
      simp only [exec, Ref.exec, hd]
      obtain ⟨e, he, hp, hs⟩ := unlink_some hu
      have heb : e ∈ t.bins (t.slot h k) := hp.mem_iff.mpr (List.mem_cons_self ..)
      have hel : e ∈ l := by
        rw [← w.perm.mem_iff, mem_entries]; exact ⟨_, slot_lt h t k, heb⟩
      have hk : e.key = k := hl e hel he
      have hee : e = ⟨a, k⟩ := by cases e; simp_all
      rw [hee] at hel hp
      rw [if_pos hel]
      have hperm := (perm_upd hp (slot_lt h t k)).symm.trans w.perm
      refine ⟨⟨(perm_filter hperm.symm u.nodup).symm, ?_, ?_⟩, ⟨?_, ?_⟩, rfl⟩
      · intro i x hx
        simp only [upd] at hx
        split at hx
        · rename_i hi; rw [hi]
          exact w.slots _ _ (hs.subset hx)
        · exact w.slots _ _ hx
      · have h5 := (perm_filter hperm.symm u.nodup).length_eq
        have h6 := hperm.length_eq
        simp only [List.length_cons] at h6
        simp only
        rw [w.cnt, h5, ← h6]
        rfl
      · exact (List.filter_sublist.map _).nodup u.keys
      · exact (List.filter_sublist.map _).nodup u.addrs

omit [DecidableEq K] in
theorem init_ok (h : K → Nat) : (Table.init : Table K).OK h [] := by
  refine ⟨?_, ?_, rfl⟩
  · simp [entries, Table.init]
  · intro i e he; cases he

theorem run_ok (h : K → Nat) (os : List (Op K)) :
    ∀ {t : Table K} {l : Ref K}, t.OK h l → l.Uniq → l.LegalSeq os →
      (run h t os).1.OK h (l.run os).1 ∧ (l.run os).1.Uniq ∧ (run h t os).2 = (l.run os).2 := by
  induction os with
  | nil => intro t l w u _; exact ⟨w, u, rfl⟩
  | cons o os ih =>
    intro t l w u hl
    obtain ⟨w1, u1, ha⟩ := exec_ok w u o hl.1
    obtain ⟨w2, u2, hb⟩ := ih w1 u1 hl.2
    exact ⟨w2, u2, by simp only [run, Ref.run, ha, hb]⟩

/-! ## The property -/

/-- C49: whatever the hash function and whatever the sequence of legal calls on a new table -
lookups, insertions that grow the table any number of times, deletions, shrinking - every call
answers exactly as it would on the plain list of pairs `Ref`, the table holds exactly the same
entries, each once, and its entry counter is their number. -/
theorem C49_refines (h : K → Nat) (os : List (Op K)) (hl : Ref.LegalSeq [] os) :
    (run h Table.init os).2 = (Ref.run [] os).2 ∧
      (run h Table.init os).1.entries.Perm (Ref.run [] os).1 ∧
      (run h Table.init os).1.numEntries = (Ref.run [] os).1.length ∧
      ((Ref.run [] os).1.map (·.key)).Nodup := by
  obtain ⟨w, u, ha⟩ := run_ok h os (init_ok h) ⟨by simp, by simp⟩ hl
  exact ⟨ha, w.perm, w.cnt, u.keys⟩

/-- C49: growing or shrinking a table at any moment changes no later answer. -/
theorem C49_rehash (h : K → Nat) (os os' : List (Op K)) (g : Bool)
    (hl : Ref.LegalSeq [] (os ++ os')) :
    (run h (run h Table.init os).1 os').2 =
      (run h ((run h Table.init os).1.rehash h g) os').2 := by
  have hsplit : ∀ (os : List (Op K)) (l : Ref K), l.LegalSeq (os ++ os') →
      l.LegalSeq os ∧ (l.run os).1.LegalSeq os' := by
    intro os
    induction os with
    | nil => intro l hl; exact ⟨trivial, hl⟩
    | cons o os ih => intro l hl; exact ⟨⟨hl.1, (ih _ hl.2).1⟩, (ih _ hl.2).2⟩
  obtain ⟨hl1, hl2⟩ := hsplit os [] hl
  obtain ⟨w, u, -⟩ := run_ok h os (init_ok h) ⟨by simp, by simp⟩ hl1
  rw [(run_ok h os' w u hl2).2.2, (run_ok h os' (w.rehash g) u hl2).2.2]

/-- C49: the answers do not depend on the hash function at all. -/
theorem C49_any_hash (h h' : K → Nat) (os : List (Op K)) (hl : Ref.LegalSeq [] os) :
    (run h Table.init os).2 = (run h' Table.init os).2 := by
  rw [(C49_refines h os hl).1, (C49_refines h' os hl).1]

/-- a sequence with two keys in the same bin, a deletion and a repeated key -/
example : Ref.LegalSeq (K := Nat) []
    [.findOrAdd 3 100, .findOrAdd 259 101, .findOrAdd 3 102, .rehash true, .lookup 259,
      .delete 3 100, .lookup 3, .addDirect 3 100, .lookup 3] := by
  simp [Ref.LegalSeq, Ref.Legal, Ref.exec]

example : (run (fun k : Nat => k) Table.init
    [.findOrAdd 3 100, .findOrAdd 259 101, .findOrAdd 3 102, .lookup 259,
      .delete 3 100, .lookup 3, .addDirect 3 100, .lookup 3]).2 =
    [.added 100, .added 101, .found 100, .found 101, .deleted, .absent, .unit, .found 100] := by
  decide +kernel

/-! ## Unique tables -/

/-- `CalDoHash2` (calInt.h:1482-1483) before the mask: the tagged node pointers are added and
divided by `NODE_SIZE` = 32. Nodes are 32 bytes and pages are aligned, so the word of a pointer is
32 times the node number plus the complement bit. -/
def hash2 (k : Edge × Edge) : Nat :=
  ((32 * k.1.addr + k.1.neg.toNat) + (32 * k.2.addr + k.2.neg.toNat)) / 32

/-- `HashTableOneDoHash` (calHashTableOne.c:62-63) before the mask. -/
def hash1 (k : Edge) : Nat := (32 * k.addr + k.neg.toNat) / 32

/-- The bins do not depend on complement bits: `CalUniqueTableForIdLookup` (calHashTable.c:322-367)
computes the bin before it complements both children, `CalUniqueTableForIdFindOrAdd`
(calHashTable.c:377-399) afterwards; they agree. -/
theorem C49_complement (t e : Edge) (b c : Bool) :
    hash2 (t.phase b, e.phase c) = hash2 (t, e) ∧ hash1 (t.phase b) = hash1 t := by
  simp only [hash2, hash1, Edge.phase]
  have h1 := Bool.toNat_le t.neg
  have h2 := Bool.toNat_le e.neg
  have h3 := Bool.toNat_le (xor t.neg b)
  have h4 := Bool.toNat_le (xor e.neg c)
  constructor <;> omega

/-- The entries of the unique table of `id` in a store. -/
def tabEntries (s : Store) (id : Nat) : Ref (Edge × Edge) :=
  (s.tab id).filterMap fun a => (s.heap a).map fun n => ⟨a, (n.thn, n.els)⟩

/-- `CalUniqueTableForIdLookup` (calHashTable.c:321-367) on the chained table: search the bin of the *given* children for the
normalised children. -/
def uniqueLookup (tb : Table (Edge × Edge)) (id : Nat) (t e : Edge) : Option Edge :=
  let bin := tb.bins (tb.slot hash2 (t, e))
  if t.neg = false then
    ((bin.find? fun x => x.key = (t, e)).map fun x => ⟨id, x.addr, false⟩)
  else (bin.find? fun x => x.key = (t.not, e.not)).map fun x => ⟨id, x.addr, true⟩

theorem store_find (s : Store) (l : List Nat) (t e : Edge) :
    ((l.filterMap fun a => (s.heap a).map fun n => (⟨a, (n.thn, n.els)⟩ : Ent (Edge × Edge))).find?
        fun x => x.key = (t, e)).map (·.addr) =
      l.find? fun a => match s.heap a with
        | some n => decide (n.thn = t ∧ n.els = e)
        | none => false := by
  induction l with
  | nil => rfl
  | cons a l ih =>
    cases hh : s.heap a with
    | none =>
      rw [List.filterMap_cons]
      simp only [hh, Option.map_none]
      rw [ih, List.find?_cons]
      simp [hh]
    | some n =>
      by_cases hn : n.thn = t ∧ n.els = e
      · simp [hh, hn]
      · have : (n.thn, n.els) ≠ (t, e) := by simpa using hn
        rw [List.filterMap_cons]
        simp only [hh, Option.map_some]
        rw [List.find?_cons, List.find?_cons]
        simp only [this, hn, hh, decide_false]
        exact ih

/-- C49: a chained table that holds the entries of the unique table of a store (in any order, in any
number of bins) finds exactly what the store model's list search finds - so the store model, which
leaves bins out, is faithful to the chained tables. -/
theorem C49_store {s : Store} {id : Nat} {tb : Table (Edge × Edge)}
    (w : tb.OK hash2 (tabEntries s id)) (hn : ((tabEntries s id).map (·.key)).Nodup) (t e : Edge) :
    tb.lookup hash2 (t, e) = s.lookup id t e ∧ uniqueLookup tb id t e = s.uniqueLookup id t e := by
  have h0 : ∀ t e, ((tb.bins (tb.slot hash2 (t, e))).find? fun x => x.key = (t, e)).map (·.addr) =
      s.lookup id t e := by
    intro t e
    rw [w.find hn (t, e), tabEntries, store_find]; rfl
  have hc : tb.slot hash2 (t.not, e.not) = tb.slot hash2 (t, e) := by
    have := (C49_complement t e true true).1
    simp only [Edge.phase, Bool.xor_true] at this
    simp only [Table.slot, Edge.not]
    rw [this]
  refine ⟨h0 t e, ?_⟩
  unfold uniqueLookup Store.uniqueLookup
  by_cases hneg : t.neg = false
  · simp only [hneg, if_true]
    rw [← h0 t e, Option.map_map]; rfl
  · simp only [hneg]
    rw [← h0 t.not e.not, hc, Option.map_map]; rfl

omit [DecidableEq K] in
/-- every set of entries is held by some table: the hypothesis of `C49_store` can always be met -/
theorem table_exists (h : K → Nat) (l : Ref K) : ∃ tb : Table K, tb.OK h l := by
  induction l with
  | nil => exact ⟨_, init_ok h⟩
  | cons e l ih =>
    obtain ⟨tb, w⟩ := ih
    exact ⟨_, w.insert e.key e.addr False⟩

/-- a store whose unique table of id 1 holds two nodes, and a chained table for it -/
example : let s : Store := ⟨⟨1, id, id⟩, fun a => if a = 5 then some ⟨1, one, zero⟩ else
      if a = 6 then some ⟨1, ⟨2, 9, false⟩, one⟩ else none, fun _ => 0,
      fun _ => [5, 6], fun _ => [], 7, 2, 0⟩
    ((tabEntries s 1).map (·.key)).Nodup ∧ (∃ tb, Table.OK hash2 tb (tabEntries s 1)) ∧
      s.lookup 1 one zero = some 5 := by
  refine ⟨by decide, table_exists _ _, by decide⟩

end Cal.Hash
