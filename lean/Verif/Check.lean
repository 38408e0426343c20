import Verif.Mgr

/-!
# The checks that the code makes of itself

`CalCheckAllValidity` and `CalCheckAssoc` (calReorderUtil.c:137-151, 394-428) look at all of a manager and stop the
program with `assert` where something is wrong. They are called through `Cal_Assert` (cal.h:148), in
builds without `NDEBUG`: after garbage collections (calUtil.c:235, calGC.c:372), and before and after
reorderings (calReorderBF.c:103, 119 and others).

Here `none` and `false` are the outcomes where an assertion fails, where a warning is printed because
a reference count would go below zero (calInt.h:815), or where something is read that is not a node.

Not looked at here: that no node is marked as forwarded (in the model a forwarded node is not in the
store), that a node is in the bin of its hash value (`Verif/HashTable.lean`), and
`CalCheckPipelineValidity`, which is for the time between two steps of a pipeline.
-/

namespace Cal

namespace Check

/-- The children of a node other than the constant can be read (calReorderUtil.c:246-265). -/
def readable (s : Store) (e : Edge) : Bool := e.id = 0 || (s.kids e).isSome

/-- `CalCheckValidityOfANode` (calReorderUtil.c:225-267) for a node of a variable -/
def nodeOk (s : Store) (id a : Nat) : Bool :=
  match s.heap a with
  | none => false
  | some n =>
    decide (s.ord.lvl id < s.ord.lvl n.thn.id) && decide (s.ord.lvl id < s.ord.lvl n.els.id) &&
      s.ref a != 0 && s.ref n.thn.addr != 0 && s.ref n.els.addr != 0 &&
      readable s n.thn && readable s n.els

/-- `CalCheckValidityOfANode` (calReorderUtil.c:225-267) for a user node, whose else-child is
`bddOne` -/
def userOk (m : Mgr) (a : Nat) : Bool :=
  match m.ut.heap a with
  | none => false
  | some e => m.ut.ref a != 0 && m.st.ref e.addr != 0 && m.st.ref one.addr != 0 && readable m.st e

/-- `CalCheckValidityOfNodesForId` (calReorderUtil.c:157-180) for the ids from 0 to `numVars`
(calReorderUtil.c:142-144) -/
def nodes (m : Mgr) : Bool :=
  m.ut.tab.all (userOk m) &&
    (List.range m.st.ord.numVars).all fun k => (m.st.tab (k + 1)).all (nodeOk m.st (k + 1))

/-- `CalBddDcrRefCount` (calInt.h:809-840). -/
def down (s : Store) (e : Edge) : Option Store := if s.ref e.addr = 0 then none else some (s.dcr e)

/-- calReorderUtil.c:282-290: the BDDs of the user nodes lose a reference -/
def lowerUsers (u : UTab) : List Nat → Store → Option Store
  | [], s => some s
  | a :: as, s =>
    match u.heap a with
    | none => none
    | some e =>
      match down s e with
      | none => none
      | some s => lowerUsers u as s

/-- calReorderUtil.c:296-300, 304-308: the values of an association lose a reference -/
def lowerVals (f : Nat → Option Edge) : List Nat → Store → Option Store
  | [], s => some s
  | v :: vs, s =>
    match f v with
    | none => lowerVals f vs s
    | some e =>
      match down s e with
      | none => none
      | some s => lowerVals f vs s

/-- the ids from 1 to `numVars` -/
def ids (n : Nat) : List Nat := (List.range n).map (· + 1)

/-- calReorderUtil.c:293-301: all associations of the list -/
def lowerAssocs (n : Nat) : List RAssoc → Store → Option Store
  | [], s => some s
  | p :: ps, s =>
    match lowerVals p.a.var (ids n) s with
    | none => none
    | some s => lowerAssocs n ps s

/-- calReorderUtil.c:315-323: the children of the nodes of a unique table lose a reference -/
def lowerNodes (h : Nat → Option Node) : List Nat → Store → Option Store
  | [], s => some s
  | a :: as, s =>
    match h a with
    | none => none
    | some n =>
      match down s n.thn with
      | none => none
      | some s =>
        match down s n.els with
        | none => none
        | some s => lowerNodes h as s

/-- calReorderUtil.c:312-325, from the first index to the last; the tables are those of `t` -/
def lowerLevels (t : Store) : List Nat → Store → Option Store
  | [], s => some s
  | k :: ks, s =>
    match lowerNodes t.heap (t.tab (t.ord.indexToId k)) s with
    | none => none
    | some s => lowerLevels t ks s

/-- calReorderUtil.c:328-343: all counts must be zero or stuck -/
def spent (t s : Store) : Bool :=
  (List.range t.ord.numVars).all fun k =>
    (t.tab (t.ord.indexToId k)).all fun a => s.ref a == 0 || s.ref a == maxRef

/-- calReorderUtil.c:351-359 -/
def raiseNodes (h : Nat → Option Node) : List Nat → Store → Option Store
  | [], s => some s
  | a :: as, s =>
    match h a with
    | none => none
    | some n => raiseNodes h as ((s.icr n.thn).icr n.els)

/-- calReorderUtil.c:347-361 -/
def raiseLevels (t : Store) : List Nat → Store → Option Store
  | [], s => some s
  | k :: ks, s =>
    match raiseNodes t.heap (t.tab (t.ord.indexToId k)) s with
    | none => none
    | some s => raiseLevels t ks s

/-- calReorderUtil.c:366-370, 374-378 -/
def raiseVals (f : Nat → Option Edge) : List Nat → Store → Store
  | [], s => s
  | v :: vs, s =>
    match f v with
    | none => raiseVals f vs s
    | some e => raiseVals f vs (s.icr e)

/-- calReorderUtil.c:363-371 -/
def raiseAssocs (n : Nat) : List RAssoc → Store → Store
  | [], s => s
  | p :: ps, s => raiseAssocs n ps (raiseVals p.a.var (ids n) s)

/-- calReorderUtil.c:381-389 -/
def raiseUsers (u : UTab) : List Nat → Store → Option Store
  | [], s => some s
  | a :: as, s =>
    match u.heap a with
    | none => none
    | some e => raiseUsers u as (s.icr e)

/-- `CalCheckRefCountValidity` (calReorderUtil.c:272-390) when no pipeline is under way: all
references are taken away, nothing may be left, and they are put back. -/
def refs (m : Mgr) : Option Mgr := do
  let n := m.st.ord.numVars
  let s ← lowerUsers m.ut m.ut.tab m.st
  let s ← lowerAssocs n m.assocs s
  let s ← lowerVals m.temp.var (ids n) s
  let s ← lowerLevels m.st (List.range n) s
  if spent m.st s then do
    let s ← raiseLevels m.st (List.range n) s
    let s ← raiseUsers m.ut m.ut.tab (raiseVals m.temp.var (ids n) (raiseAssocs n m.assocs s))
    some { m with st := s }
  else none

/-- The pointer of a cache entry points to a node or the constant. -/
def pointee (s : Store) (a : Nat) : Bool := a = 0 || (s.heap a).isSome

/-- `CalCheckCacheTableValidity` (calCacheTableTwo.c:394-411) reads the nodes of all entries. -/
def cache (m : Mgr) : Bool :=
  (List.range m.ca.numBins).all fun j =>
    match m.ca.bins j with
    | none => true
    | some e => pointee m.st e.o1.addr && pointee m.st e.o2.addr && pointee m.st e.r.addr

/-- `CalCheckAllValidity` (calReorderUtil.c:138-151) -/
def all (m : Mgr) : Option Mgr :=
  if nodes m then
    match refs m with
    | none => none
    | some m => if cache m then some m else none
  else none

/-- `expectedLastBddIndex` (calReorderUtil.c:404-412, 417-425) -/
def expected (o : Order) (f : Nat → Option Edge) : List Nat → Int → Int
  | [], l => l
  | v :: vs, l => expected o f vs (if (f v).isSome ∧ l < o.idToIndex v then o.idToIndex v else l)

/-- `CalCheckAssoc` (calReorderUtil.c:395-428) -/
def assocs (m : Mgr) : Bool :=
  m.assocs.all (fun p => expected m.st.ord p.a.var (ids m.st.ord.numVars) (-1) == p.a.last) &&
    expected m.st.ord m.temp.var (ids m.st.ord.numVars) (-1) == m.temp.last

end Check

end Cal
