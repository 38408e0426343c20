import Verif.ArraysSpec
/-!
# The arrays of a manager that are indexed by variables

In the rest of the model the arrays of a manager are functions: they have an entry for every number.
In the code they have a length, are made longer when variables are added, and an entry is garbage
until it is written. Here reading an entry that was never written, and reading or writing outside an
array, is the outcome `none`.
-/

namespace Cal.Arrays

/-- An array: its length is the room allocated, `none` is an entry that was never written. -/
abbrev Arr (α : Type) := List (Option α)

/-- `Cal_MemAlloc(α, n)` (calMem.h:87) -/
def alloc (n : Nat) : Arr α := List.replicate n none

/-- `a[i] = x` -/
def put (a : Arr α) (i : Nat) (x : α) : Option (Arr α) :=
  if i < a.length then some (a.set i (some x)) else none

/-- the value of `a[i]` -/
def get (a : Arr α) (i : Nat) : Option α := a[i]?.join

/-- `Cal_MemRealloc(α, a, n)` (calMem.h:88-90), which keeps what fits -/
def realloc (a : Arr α) (n : Nat) : Arr α := a.take n ++ alloc (n - a.length)

/-- `for (i = lo; i < lo + k; i++) a[i] = x` -/
def fill (x : α) : Nat → Nat → Arr α → Option (Arr α)
  | _, 0, a => some a
  | i, k + 1, a => do
    let a ← put a i x
    fill x (i + 1) k a

/-- The fields of `Cal_BddManager_t` (calInt.h:344-460) that are arrays over variables. The entries of
`nms`, `uts` and of the queues in `reqQue` are pointers to objects that belong to an id: here that id.
So is the variable in `varBdds`. In associations 0 is `bddNull` and other numbers are BDDs. -/
structure Mgr where
  numVars : Nat
  maxVars : Nat
  maxDepth : Nat
  varBdds : Arr Nat
  nms : Arr Nat
  uts : Arr Nat
  idToIndex : Arr Nat
  indexToId : Arr Nat
  reqQue : Arr (Arr Nat)
  temp : Arr Nat
  assocs : List (Arr Nat)

/-- `for (j = 0; j < k; j++) row[j] = CalHashTableInit(bddManager, j)` -/
def tables : Nat → Nat → Arr Nat → Option (Arr Nat)
  | _, 0, a => some a
  | j, k + 1, a => do
    let a ← put a j j
    tables (j + 1) k a

/-- queues `d` to `d + k - 1`, each with room for `room` tables, of which `n` are made
(calBddManager.c:212-216 with `n` 1, calPipeline.c:94-100, calBddOp.c:794-800) -/
def queues (room n : Nat) : Nat → Nat → Arr (Arr Nat) → Option (Arr (Arr Nat))
  | _, 0, q => some q
  | d, k + 1, q => do
    let row ← tables 0 n (alloc room)
    let q ← put q d row
    queues room n (d + 1) k q

/-- `Cal_BddManagerInit` (calBddManager.c:148-253) -/
def init : Option Mgr := do
  let nms ← put (alloc 31) 0 0
  let uts ← put (alloc 31) 0 0
  let idToIndex ← put (alloc 31) 0 65535
  let reqQue ← queues 31 1 0 6 (alloc 6)
  let temp ← fill 0 0 31 (alloc 31)
  some { numVars := 0, maxVars := 30, maxDepth := 6, varBdds := alloc 31, nms, uts, idToIndex,
         indexToId := alloc 30, reqQue, temp, assocs := [] }

/-- the queues get room for `room` tables (calBddManager.c:524-527) -/
def growQueues (room : Nat) : Nat → Nat → Arr (Arr Nat) → Option (Arr (Arr Nat))
  | _, 0, q => some q
  | d, k + 1, q => do
    let row ← get q d
    let q ← put q d (realloc row room)
    growQueues room (d + 1) k q

/-- an association gets room for `new + 1` variables; the new entries are `bddNull`
(calBddManager.c:528-534, 536-542) -/
def growAssoc (old new : Nat) (a : Arr Nat) : Option (Arr Nat) :=
  fill 0 (old + 1) (new - old) (realloc a (new + 1))

/-- the loop over all associations (calBddManager.c:535-543) -/
def growAssocs (old new : Nat) : List (Arr Nat) → Option (List (Arr Nat))
  | [] => some []
  | a :: as => do
    let a ← growAssoc old new a
    let as ← growAssocs old new as
    some (a :: as)

/-- calBddManager.c:497-544 -/
def Mgr.grow (s : Mgr) : Option Mgr := do
  let new := if 2 * s.maxVars > 65534 then 65534 else 2 * s.maxVars
  let reqQue ← growQueues (new + 1) 0 s.maxDepth s.reqQue
  let temp ← growAssoc s.maxVars new s.temp
  let assocs ← growAssocs s.maxVars new s.assocs
  some { s with
    maxVars := new
    varBdds := realloc s.varBdds (new + 1)
    nms := realloc s.nms (new + 1)
    idToIndex := realloc s.idToIndex (new + 1)
    indexToId := realloc s.indexToId new
    uts := realloc s.uts (new + 1)
    reqQue, temp, assocs }

/-- calBddManager.c:497 -/
def Mgr.room (s : Mgr) : Option Mgr := if s.numVars = s.maxVars then s.grow else some s

/-- calBddManager.c:549-551: the index `v` of variable `i` -/
def bumpOne (index i v : Nat) (a : Arr Nat) : Option (Arr Nat) :=
  if index ≤ v then put a i (v + 1) else some a

/-- the indices from `index` on go up by one (calBddManager.c:548-552), from id `i + 1` on -/
def bump (index : Nat) : Nat → Nat → Arr Nat → Option (Arr Nat)
  | _, 0, a => some a
  | i, k + 1, a => do
    let v ← get a (i + 1)
    let a ← bumpOne index (i + 1) v a
    bump index (i + 1) k a

/-- calBddManager.c:547-553 -/
def maybeBump (index numVars : Nat) (a : Arr Nat) : Option (Arr Nat) :=
  if index ≠ numVars then bump index 0 numVars a else some a

/-- the entries from `index` on move up (calBddManager.c:555-557): `k` of them, the last one to
`index + k` -/
def shift (index : Nat) : Nat → Arr Nat → Option (Arr Nat)
  | 0, a => some a
  | k + 1, a => do
    let v ← get a (index + k)
    let a ← put a (index + k + 1) v
    shift index k a

/-- a table for variable `id` in each queue (calBddManager.c:597-601) -/
def addTables (id : Nat) : Nat → Nat → Arr (Arr Nat) → Option (Arr (Arr Nat))
  | _, 0, q => some q
  | d, k + 1, q => do
    let row ← get q d
    let row ← put row id id
    let q ← put q d row
    addTables id (d + 1) k q

/-- calBddManager.c:546-603; `lastBddIndex` of associations and blocks are not here -/
def Mgr.addVar (index : Nat) (s : Mgr) : Option Mgr := do
  let idToIndex ← maybeBump index s.numVars s.idToIndex
  let indexToId ← shift index (s.numVars - index) s.indexToId
  let id := s.numVars + 1
  let idToIndex ← put idToIndex id index
  let indexToId ← put indexToId index id
  let nms ← put s.nms id id
  let uts ← put s.uts id id
  let varBdds ← put s.varBdds id id
  let reqQue ← addTables id 0 s.maxDepth s.reqQue
  some { s with numVars := id, idToIndex, indexToId, nms, uts, varBdds, reqQue }

/-- `CalBddManagerCreateNewVar` (calBddManager.c:467-604). With 65534 variables or an index that is
too large the program stops with a message; here nothing happens. -/
def Mgr.newVar (index : Nat) (s : Mgr) : Option Mgr :=
  if s.numVars = 65534 ∨ s.numVars < index then some s
  else do
    let s ← s.room
    s.addVar index

/-- `Cal_PipelineSetDepth` (calPipeline.c:80-106) and `BddArrayToRequestNodeListArray` (calBddOp.c:782-801) when depth
`d` is needed -/
def Mgr.setDepth (d : Nat) (s : Mgr) : Option Mgr :=
  if s.maxDepth < d then do
    let reqQue ← queues (s.maxVars + 1) (s.numVars + 1) s.maxDepth (d - s.maxDepth) (realloc s.reqQue d)
    some { s with maxDepth := d, reqQue }
  else some s

/-- the pairs of an association are entered (calAssociation.c:121-132) -/
def enter : List (Nat × Nat) → Arr Nat → Option (Arr Nat)
  | [], a => some a
  | (id, v) :: ps, a => do
    let a ← put a id v
    enter ps a

/-- `AssociationIsEqual` (calAssociation.c:457-468): the entries of ids `i + 1` to `i + k` -/
def same (a b : Arr Nat) : Nat → Nat → Option Bool
  | _, 0 => some true
  | i, k + 1 => do
    let x ← get a (i + 1)
    let y ← get b (i + 1)
    if x = y then same a b (i + 1) k else some false

/-- the search for an equal association (calAssociation.c:134-141) -/
def found (n : Nat) (a : Arr Nat) : List (Arr Nat) → Option Bool
  | [] => some false
  | b :: bs => do
    let e ← same b a 0 n
    if e then some true else found n a bs

/-- `Cal_AssociationInit` (calAssociation.c:85-184) for arguments that are accepted. The list is
ordered by ids in the code; here a new association is the last one. -/
def Mgr.assocInit (ps : List (Nat × Nat)) (s : Mgr) : Option Mgr := do
  let a ← fill 0 0 (s.maxVars + 1) (alloc (s.maxVars + 1))
  let a ← enter ps a
  let e ← found s.maxVars a s.assocs
  if e then some s else some { s with assocs := s.assocs ++ [a] }

/-- entries of ids `i + 1` to `i + k` are read -/
def readAll (a : Arr Nat) : Nat → Nat → Option Unit
  | _, 0 => some ()
  | i, k + 1 => do
    let _ ← get a (i + 1)
    readAll a (i + 1) k

/-- `Cal_AssociationQuit` (calAssociation.c:189-220) for the last reference to the association at
position `i`: the entries of all variables are read -/
def Mgr.assocQuit (i : Nat) (s : Mgr) : Option Mgr :=
  match s.assocs[i]? with
  | none => some s
  | some a => do
    let _ ← readAll a 0 s.numVars
    some { s with assocs := s.assocs.eraseIdx i }

/-- calAssociation.c:324-328, 342-346: the entry `v` of variable `i` -/
def clearOne (i v : Nat) (a : Arr Nat) : Option (Arr Nat) := if v ≠ 0 then put a i 0 else some a

/-- the loop that removes the entries of the temporary association (calAssociation.c:323-329, 341-347)
for ids `i + 1` to `i + k` -/
def clear : Nat → Nat → Arr Nat → Option (Arr Nat)
  | _, 0, a => some a
  | i, k + 1, a => do
    let v ← get a (i + 1)
    let a ← clearOne (i + 1) v a
    clear (i + 1) k a

/-- the loops of `Cal_TempAssociationAugment` (calAssociation.c:276-303): the index of the variable
and its old entry are read, the new one is written -/
def augment (idToIndex : Arr Nat) : List (Nat × Nat) → Arr Nat → Option (Arr Nat)
  | [], a => some a
  | (id, v) :: ps, a => do
    let _ ← get idToIndex id
    let _ ← get a id
    let a ← put a id v
    augment idToIndex ps a

/-- `Cal_TempAssociationAugment` (calAssociation.c:250-306) for arguments that are accepted -/
def Mgr.tempAugment (ps : List (Nat × Nat)) (s : Mgr) : Option Mgr := do
  let temp ← augment s.idToIndex ps s.temp
  some { s with temp }

/-- `Cal_TempAssociationQuit` (calAssociation.c:335-349) -/
def Mgr.tempQuit (s : Mgr) : Option Mgr := do
  let temp ← clear 0 s.numVars s.temp
  some { s with temp }

/-- `Cal_TempAssociationInit` (calAssociation.c:312-331) -/
def Mgr.tempInit (ps : List (Nat × Nat)) (s : Mgr) : Option Mgr := do
  let s ← s.tempQuit
  s.tempAugment ps

/-- the exchange of two variables in reordering (calReorderBF.c:260-261, 544-547 and
calReorderDF.c:969-972, 1013-1016) -/
def Mgr.swap (index : Nat) (s : Mgr) : Option Mgr := do
  let id ← get s.indexToId index
  let nextId ← get s.indexToId (index + 1)
  let idToIndex ← put s.idToIndex id (index + 1)
  let idToIndex ← put idToIndex nextId index
  let indexToId ← put s.indexToId index nextId
  let indexToId ← put indexToId (index + 1) id
  some { s with idToIndex, indexToId }

def Call.run (s : Mgr) : Call → Option Mgr
  | .newVar index => s.newVar index
  | .setDepth d => s.setDepth d
  | .assocInit ps => s.assocInit ps
  | .assocQuit i => s.assocQuit i
  | .tempInit ps => s.tempInit ps
  | .tempAugment ps => s.tempAugment ps
  | .tempQuit => s.tempQuit
  | .swap index => s.swap index

def runs : Mgr → List Call → Option Mgr
  | s, [] => some s
  | s, c :: cs => do
    let s ← c.run s
    runs s cs

/-- a manager is created and calls are made -/
def program (cs : List Call) : Option Mgr := do
  let s ← init
  runs s cs

end Cal.Arrays
