import Verif.Mgr
import Verif.Interact

/-!
# Depth-first variable reordering (`calReorderDF.c`): the exchange of two adjacent variables

During depth-first reordering a node holds its variable id (in `thenBddId`) and its reference count
(in `elseBddId`); its children are tagged pointers without ids (`BddConvertDataStruct`). The model
keeps the type `Store` for this: `Node.var` is the id in the node, the field `id` of every edge is 0.
The list `free 0` is the free list of the node manager that `CalBddReorderAuxDF` makes
(calReorderDF.c:161); the lists `free i` for `i ≥ 1` belong to the node managers of the ids.
-/

namespace Cal

namespace Df

/-- State during depth-first reordering: the converted store, the static variable `freeListId`
(calReorderDF.c:64), the associations (only `lastBddIndex` changes), the interaction matrix and the
counters `numSwaps` and `numTrivialSwaps`. -/
structure St where
  st : Store
  fid : Nat
  assocs : List RAssoc
  temp : Assoc
  mat : Interact.Matrix
  swaps : Nat
  trivial : Nat

/-- `CAL_BDD_POINTER(f)->thenBddId`: the id of the node; the constant node has id 0
(calReorderDF.c:415-424). A pointer to no node is undefined behaviour. -/
def pvar (s : Store) (e : Edge) : Option Nat :=
  if e.addr = 0 then some 0 else (s.heap e.addr).map (·.var)

/-- Cofactors (then, else) of a pointer with respect to `y`, as computed in `BddExchangeAux`
(calReorderDF.c:835-848). -/
def cof (s : Store) (y : Nat) (e : Edge) : Option (Edge × Edge) :=
  match pvar s e with
  | none => none
  | some v =>
    if v = y then
      match s.heap e.addr with
      | none => none
      | some n => some (n.thn.phase e.neg, n.els.phase e.neg)
    else some (e, e)

/-- The search for the next id with a free list (calReorderDF.c:204-216); the first argument is the
number of ids left. -/
def findFree (s : Store) : Nat → Nat → Nat
  | 0, j => j
  | k + 1, j => if s.free j = [] then findFree s k (j + 1) else j

/-- `NodeManagerAllocNode` (calReorderDF.c:193-238). A new page is represented by the next fresh
address, as in `Store.alloc`; `ref` is set to 0 as done by the caller (calReorderDF.c:324). -/
def alloc (d : St) : Nat × St :=
  let s := d.st
  match s.free 0 with
  | a :: rest =>
    (a, { d with st := { s with free := upd s.free 0 rest, ref := upd s.ref a 0 } })
  | [] =>
    if d.fid < s.ord.numVars then
      let j := findFree s (s.ord.numVars + 1 - d.fid) d.fid
      match (if j ≤ s.ord.numVars then s.free j else []) with
      | a :: rest =>
        (a, { d with st := { s with free := upd (upd s.free j []) 0 rest, ref := upd s.ref a 0 },
                     fid := j })
      | [] => (s.next, { d with st := { s with next := s.next + 1, ref := upd s.ref s.next 0 },
                                fid := j })
    else (s.next, { d with st := { s with next := s.next + 1, ref := upd s.ref s.next 0 } })

/-- `HashTableFindOrAdd` (calReorderDF.c:295-328). -/
def hashFindOrAdd (d : St) (x : Nat) (t e : Edge) : St × Edge × Bool :=
  match d.st.lookup x t e with
  | some a => (d, ⟨0, a, false⟩, true)
  | none =>
    let (a, d1) := alloc d
    ({ d1 with st := d1.st.insertAt x a t e }, ⟨0, a, false⟩, false)

/-- `UniqueTableForIdFindOrAdd` (calReorderDF.c:246-269). -/
def findOrAdd (d : St) (x : Nat) (t e : Edge) : St × Edge × Bool :=
  if t = e then (d, t, true)
  else
    let r := if t.neg = false then hashFindOrAdd d x t e
             else
               let (d', r, found) := hashFindOrAdd d x t.not e.not
               (d', r.not, found)
    if r.2.2 then r
    else ({ r.1 with st := { r.1.st with numNodes := r.1.st.numNodes + 1 } }, r.2.1, r.2.2)

/-- The part of `BddExchangeAux` that makes one new child (calReorderDF.c:850-869): the result and
whether it was found. -/
def newChild (d : St) (x : Nat) (t e : Edge) : St × Edge × Bool :=
  let (d1, r, found) := if e = t then (d, e, true) else findOrAdd d x t e
  ({ d1 with st := d1.st.icr r }, r, found)

/-- `BddExchangeAux` (calReorderDF.c:822-901): the node `f` of `x` becomes a node of `y`, in
place. -/
def exchangeAux (d : St) (f x y : Nat) : Option St :=
  match d.st.heap f with
  | none => none
  | some n =>
    match cof d.st y n.els, cof d.st y n.thn with
    | some (f01, f00), some (f11, f10) =>
      let (d1, newF0, found0) := newChild d x f10 f00
      let (d2, newF1, found1) := newChild d1 x f11 f01
      let s := { d2.st with heap := upd d2.st.heap f (some ⟨y, newF1, newF0⟩) }
      let s := if found0 then s else (s.icr f00).icr f10
      let s := if found1 then s else (s.icr f01).icr f11
      some { d2 with st := (s.dcr n.els).dcr n.thn }
    | _, _ => none

/-- The first loop of `BddExchange` (calReorderDF.c:979-995): split the table of `x` into the nodes
that stay and the list of nodes with a child of `y` (in reverse order). -/
def unlink (s : Store) (y : Nat) : List Nat → List Nat → Option (List Nat × List Nat)
  | [], l => some ([], l)
  | a :: as, l =>
    match s.heap a with
    | none => none
    | some n =>
      match pvar s n.els, pvar s n.thn with
      | some v, some w =>
        if v ≠ y ∧ w ≠ y then (unlink s y as l).map fun r => (a :: r.1, r.2)
        else unlink s y as (a :: l)
      | _, _ => none

/-- The second loop of `BddExchange` (calReorderDF.c:996-1001), with `HashTableAddDirect`
(calReorderDF.c:274-290). -/
def exchangeList (x y : Nat) : List Nat → St → Option St
  | [], d => some d
  | f :: fs, d =>
    match exchangeAux d f x y with
    | none => none
    | some d1 =>
      exchangeList x y fs { d1 with st := { d1.st with tab := upd d1.st.tab y (f :: d1.st.tab y) } }

/-- `CalFixupAssoc` (calReorderUtil.c:432-451). -/
def fixupAssoc (o : Order) (x y : Nat) (A : Assoc) : Assoc :=
  if A.last = -1 then A
  else if (A.var x).isSome ∧ A.last = o.idToIndex x then { A with last := A.last + 1 }
  else if (A.var x).isNone ∧ (A.var y).isSome ∧ A.last = o.idToIndex y then
    { A with last := A.last - 1 }
  else A

/-- The order after `x` and the variable `y` below it change places (calReorderDF.c:1013-1016). -/
def swapOrder (o : Order) (x y : Nat) : Order :=
  { o with
    idToIndex := upd (upd o.idToIndex x (o.idToIndex x + 1)) y (o.idToIndex x)
    indexToId := upd (upd o.indexToId (o.idToIndex x) y) (o.idToIndex x + 1) x }

/-- The last part of `BddExchange` (calReorderDF.c:1008-1016). -/
def swapLevels (d : St) (x y : Nat) : St :=
  { d with
    temp := fixupAssoc d.st.ord x y d.temp
    assocs := d.assocs.map fun p => { p with a := fixupAssoc d.st.ord x y p.a }
    st := { d.st with ord := swapOrder d.st.ord x y } }

/-- The first part of `BddExchange` for interacting variables (calReorderDF.c:973-1003), with
`SweepVarTable` (calReorderDF.c:925-952). -/
def exchangeNodes (d : St) (x y : Nat) : Option St :=
  match unlink d.st y (d.st.tab x) [] with
  | none => none
  | some (keep, l) =>
    match exchangeList x y l { d with st := { d.st with tab := upd d.st.tab x keep } } with
    | none => none
    | some d1 =>
      match d1.st.gcTable 0 y with
      | none => none
      | some (s', _) => some { d1 with st := s' }

/-- `BddExchange` (calReorderDF.c:957-1028): exchange `x` with the variable below it. Without such
a variable `indexToId` is read outside its used part (`none`). -/
def exchange (d : St) (x : Nat) : Option St :=
  let o := d.st.ord
  if 1 ≤ x ∧ x ≤ o.numVars ∧ o.idToIndex x + 1 < o.numVars then
    let y := o.indexToId (o.idToIndex x + 1)
    match Interact.test o.numVars d.mat x y with
    | none => none
    | some true => (exchangeNodes { d with swaps := d.swaps + 1 } x y).map fun d' => swapLevels d' x y
    | some false => some (swapLevels { d with trivial := d.trivial + 1 } x y)
  else none

end Df

end Cal
