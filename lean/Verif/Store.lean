/-!
# The node store of a CAL manager

Model of the data structures of `/repo/src/calInt.h` that hold BDD nodes: edges (`Cal_Bdd_t`),
nodes (`CalBddNode_t`), variable order, unique tables, reference counts and the node free lists.

Simplifications, all stated here once:
* an address is a natural number; address `0` is the constant node `bddOne`
  (`calBddManager.c:167-180`), it is not in the heap;
* the 8-bit reference count is kept in a separate map `ref` (its bit-level encoding in the tag bits
  of the node is the subject of `Verif/Bits.lean`);
* the chained hash table of one variable id is the list of the addresses it holds (the bins, the
  hash function and rehashing are the subject of `Verif/HashTable.lean`);
* nodes carry the id of the unique table that holds them (`var`); in C it is only stored beside
  each pointer to the node;
* out-of-memory (a fatal error in C) does not occur.
-/

namespace Cal

/-- `Cal_Bdd_t` (calInt.h:269-272): variable id of the node, node address and the complement bit,
which C keeps in bit 0 of the pointer (`CAL_TAG0`, calInt.h:617). -/
structure Edge where
  id : Nat
  addr : Nat
  neg : Bool
deriving DecidableEq, Repr

namespace Edge

/-- `CalBddNot` (calInt.h:973-977). -/
def not (e : Edge) : Edge := { e with neg := !e.neg }

/-- `CalBddUpdatePhase` (calInt.h:619-624): complement iff the flag is set. -/
def phase (e : Edge) (b : Bool) : Edge := { e with neg := xor e.neg b }

/-- `CalBddIsBddConst` (calInt.h:626): the id is the constant id 0. -/
def isConst (e : Edge) : Bool := e.id == 0

end Edge

/-- `bddManager->bddOne` (calBddManager.c:167-173). -/
def one : Edge := ⟨0, 0, false⟩

/-- `bddManager->bddZero` = complement of `bddOne`. -/
def zero : Edge := ⟨0, 0, true⟩

/-- `CalBddNode_t` (calInt.h:303-309): then and else child; `var` is the id of the unique table
that holds the node. -/
structure Node where
  var : Nat
  thn : Edge
  els : Edge
deriving DecidableEq, Repr

/-- `CAL_BDD_CONST_INDEX` (calInt.h:204): index of the constant, below every variable. -/
def constIndex : Nat := 65535

/-- `bddManager->numVars`, `idToIndex`, `indexToId` (calInt.h:370-385). -/
structure Order where
  numVars : Nat
  idToIndex : Nat → Nat
  indexToId : Nat → Nat

/-- Index of a variable id; the constant id 0 has index `CAL_BDD_CONST_INDEX` (calInt.h:204)
(calBddManager.c: `idToIndex[CAL_BDD_CONST_ID] = CAL_BDD_CONST_INDEX`). -/
def Order.lvl (o : Order) (id : Nat) : Nat := if id = 0 then constIndex else o.idToIndex id

/-- The part of `Cal_BddManager_t` (calInt.h:360-459) that holds nodes. -/
structure Store where
  ord : Order
  /-- memory holding BDD nodes -/
  heap : Nat → Option Node
  /-- reference counts (0..255), `CalBddNodeGetRefCount` -/
  ref : Nat → Nat
  /-- unique table of each id: the addresses of its nodes -/
  tab : Nat → List Nat
  /-- free list of the node manager of each id -/
  free : Nat → List Nat
  /-- first address never handed out by the page manager -/
  next : Nat
  /-- `bddManager->numNodes` -/
  numNodes : Nat
  /-- `bddManager->gcCheck` -/
  gcCheck : Int

/-- Function update. -/
def upd {α : Type} (f : Nat → α) (a : Nat) (x : α) : Nat → α := fun b => if b = a then x else f b

@[simp] theorem upd_same {α : Type} (f : Nat → α) (a : Nat) (x : α) : upd f a x a = x := by
  simp [upd]

theorem upd_ne {α : Type} (f : Nat → α) {a b : Nat} (x : α) (h : b ≠ a) : upd f a x b = f b := by
  simp [upd, h]

/-- `CAL_MAX_REF_COUNT` (calInt.h:206). -/
def maxRef : Nat := 255

namespace Store

/-- `CalBddIcrRefCount` (calInt.h:783-807): saturating increment. The count of the constant node is
created saturated (calBddManager.c) and address 0 is treated like any other address here. -/
def icr (s : Store) (e : Edge) : Store :=
  let c := if s.ref e.addr < maxRef then s.ref e.addr + 1 else maxRef
  { s with ref := upd s.ref e.addr c }

/-- `CalBddDcrRefCount` (calInt.h:809-840): sticky at 255, a decrement at 0 only prints a
warning. -/
def dcr (s : Store) (e : Edge) : Store :=
  let c := if s.ref e.addr = maxRef then maxRef else s.ref e.addr - 1
  { s with ref := upd s.ref e.addr c }

/-- `CalBddAddRefCount` (calInt.h:842-852): `num` may be negative (`refCount - 2` in
`CalHashTableReduce`); nothing happens to a saturated count, otherwise the 16-bit sum is capped
at 255. A sum below zero wraps to a large unsigned short and is capped as well. -/
def addRef (s : Store) (e : Edge) (num : Int) : Store :=
  if s.ref e.addr < maxRef then
    let c := (s.ref e.addr : Int) + num
    let c := if c < 0 then maxRef else if (maxRef : Int) < c then maxRef else c.toNat
    { s with ref := upd s.ref e.addr c }
  else s

/-- `CalNodeManagerAllocNode` / the allocation part of `CalNodeManagerInitBddNode`
(calInt.h:475-545): take the head of the free list of the id, or a fresh node. The page granularity
(a fresh page is cut into nodes that go to the free list) is the subject of `Verif/NodeManager.lean`. -/
def alloc (s : Store) (id : Nat) : Nat × Store :=
  match s.free id with
  | a :: rest => (a, { s with free := upd s.free id rest, ref := upd s.ref a 0 })
  | [] => (s.next, { s with next := s.next + 1, ref := upd s.ref s.next 0 })

/-- The search loop of `CalHashTableFindOrAdd` (calHashTable.c:170-182). -/
def lookup (s : Store) (id : Nat) (t e : Edge) : Option Nat :=
  (s.tab id).find? fun a =>
    match s.heap a with
    | some n => decide (n.thn = t ∧ n.els = e)
    | none => false

/-- Add a node for (t,e) at address `a` to the unique table of `id`
(`CalHashTableAddDirect`, calHashTable.c:148-163). -/
def insertAt (s : Store) (id a : Nat) (t e : Edge) : Store :=
  { s with heap := upd s.heap a (some ⟨id, t, e⟩), tab := upd s.tab id (a :: s.tab id) }

/-- `CalHashTableFindOrAdd` on a unique table (calHashTable.c:168-206): the result and whether it
was found. -/
def hashFindOrAdd (s : Store) (id : Nat) (t e : Edge) : Store × Edge × Bool :=
  match s.lookup id t e with
  | some a => (s, ⟨id, a, false⟩, true)
  | none =>
    let (a, s1) := s.alloc id
    (s1.insertAt id a t e, ⟨id, a, false⟩, false)

/-- `CalUniqueTableForIdFindOrAdd` (calHashTable.c:371-399). -/
def findOrAdd (s : Store) (id : Nat) (t e : Edge) : Store × Edge × Bool :=
  if t = e then (s, t, true)
  else
    let r := if t.neg = false then s.hashFindOrAdd id t e
             else
               let (s', r, found) := s.hashFindOrAdd id t.not e.not
               (s', r.not, found)
    if r.2.2 then r else ({ r.1 with numNodes := r.1.numNodes + 1 }, r.2.1, r.2.2)

/-- `CalUniqueTableForIdFindOrAdd` followed by the caller's
`if not found: CalBddIcrRefCount(then); CalBddIcrRefCount(else)` (e.g. calQuant.c:287-291). -/
def mkNode (s : Store) (id : Nat) (t e : Edge) : Store × Edge :=
  let (s', r, found) := s.findOrAdd id t e
  if found then (s', r) else ((s'.icr t).icr e, r)

/-- `CalUniqueTableForIdLookup` (calHashTable.c:321-367): look for the node or its complement. -/
def uniqueLookup (s : Store) (id : Nat) (t e : Edge) : Option Edge :=
  if t.neg = false then (s.lookup id t e).map fun a => ⟨id, a, false⟩
  else (s.lookup id t.not e.not).map fun a => ⟨id, a, true⟩

/-- `CalBddGetThenBdd` / `CalBddGetElseBdd` (calInt.h:668-700): children of an edge, with the
complement bit of the edge folded in. Reading the children of the constant is undefined
(`none`). -/
def kids (s : Store) (e : Edge) : Option (Edge × Edge) :=
  match s.heap e.addr with
  | some n => some (n.thn.phase e.neg, n.els.phase e.neg)
  | none => none

/-- index of the top variable of an edge, `bddManager->idToIndex[CalBddGetBddId(e)]` -/
def elvl (s : Store) (e : Edge) : Nat := s.ord.lvl e.id

end Store

end Cal
