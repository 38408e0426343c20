import Verif.Store

/-!
# The breadth-first engine

Model of the request queues and of the apply and reduce phases (calApplyReduce.c, calBddOp.c,
calBddITE.c). A request node lives in the same memory as BDD nodes and is taken from the same node
manager (`CalHashTableInit` gives the request table of an id the node manager of that id), so
requests here share `Store.alloc`. The reference count field of a request node is `Store.ref` at
its address.

The engine is generic in the payload `P` of a request: a pair of edges for the binary operations
(`CalHashTableFindOrAdd` on a request table), a triple for if-then-else
(`CalHashTableThreeFindOrAdd`). For triples C stores g and h in a second ("indirect") node, which is
allocated with the request and freed when the request is applied (calBddITE.c:262-263); here the
payload is part of the request and the indirect node is not modelled.
-/

namespace Cal

/-- Contents of a request node: the operands (before apply), the two sub-requests (after apply), the
only sub-request when the other one is the null BDD (cofactor and reduce only, calReduce.c:454-468)
or the result it is forwarded to (`FORWARD_FLAG` in the else field, calInt.h:1362-1373). -/
inductive Cell (P : Type) where
  | pend (p : P)
  | done (t e : Edge)
  | half (e : Edge)
  | fwd (e : Edge)

/-- A request node in `reqQue[dep][id]`. -/
structure Req (P : Type) where
  id : Nat
  dep : Nat
  cell : Cell P

/-- Manager state during a breadth-first operation: the nodes, the request nodes and
`bddManager->reqQue[depth][id]` (the bins of a request table and, after reduce, its list of
forwarded requests; both are one list here). -/
structure BF (P : Type) where
  st : Store
  req : Nat → Option (Req P)
  que : Nat → Nat → List Nat

/-- The operation-specific part of the engine. -/
structure Kernel (P : Type) where
  /-- terminal case: the result, or the request to make and whether its result is complemented -/
  term : P → Edge ⊕ (P × Bool)
  /-- id of the request table a request goes to (`CalBddGetMinId2/3`) -/
  top : Order → P → Nat
  /-- cofactors of a request, reading children with the given function -/
  cof : Order → (Edge → Option (Edge × Edge)) → P → Option (P × P)

/-- `f` with one value of a two-argument table replaced. -/
def upd2 {α : Type} (f : Nat → Nat → α) (a b : Nat) (x : α) : Nat → Nat → α :=
  fun i j => if i = a ∧ j = b then x else f i j

namespace BF

variable {P : Type}

/-- State before an operation: all request queues are empty. -/
def init (s : Store) : BF P := ⟨s, fun _ => none, fun _ _ => []⟩

/-- `CalBddGetThenBdd`, `CalBddGetElseBdd` (calInt.h:668-700) on an edge that may point to a
request: an applied request holds its two sub-requests there. Reading the children of a request that
is not yet applied, or is already forwarded, would give operands or the forwarding pointer, so it
counts as undefined. -/
def kids (b : BF P) (e : Edge) : Option (Edge × Edge) :=
  match b.st.heap e.addr with
  | some n => some (n.thn.phase e.neg, n.els.phase e.neg)
  | none =>
    match b.req e.addr with
    | some ⟨_, _, .done t u⟩ => some (t.phase e.neg, u.phase e.neg)
    | _ => none

/-- `CalRequestIsForwardedTo` (calInt.h:1362-1373): one step. -/
def forward (b : BF P) (e : Edge) : Edge :=
  match b.req e.addr with
  | some ⟨_, _, .fwd t⟩ => t.phase e.neg
  | _ => e

/-- Search of a request table (calHashTable.c:180-194, calHashTableThree.c:107-125). Comparing the
operand fields of a request that has already been applied would be meaningless; the outer `none` says
the search met one. -/
def findReq [DecidableEq P] (b : BF P) (p : P) : List Nat → Option (Option Nat)
  | [] => some none
  | a :: as =>
    match b.req a with
    | some ⟨_, _, .pend q⟩ => if q = p then some (some a) else findReq b p as
    | _ => none

/-- A new request node at the head of the table `reqQue[d][id]` (calHashTable.c:199-201,
calHashTableThree.c:133-141). -/
def pushReq (b : BF P) (d id : Nat) (p : P) : BF P :=
  { st := (b.st.alloc id).2, req := upd b.req (b.st.alloc id).1 (some ⟨id, d, .pend p⟩),
    que := upd2 b.que d id ((b.st.alloc id).1 :: b.que d id) }

/-- `CalHashTableFindOrAdd` / `CalHashTableThreeFindOrAdd` on a request table
(calHashTable.c:170-205, calHashTableThree.c:96-147). -/
def findOrAddReq [DecidableEq P] (b : BF P) (d id : Nat) (p : P) : Option (BF P × Edge) :=
  match b.findReq p (b.que d id) with
  | none => none
  | some (some a) => some (b, ⟨id, a, false⟩)
  | some none => some (b.pushReq d id p, ⟨id, (b.st.alloc id).1, false⟩)

/-- One operand pair or triple: the terminal result, or the request for it
(calApplyReduce.c:114-118, calTerminal.c:269-356). -/
def request [DecidableEq P] (K : Kernel P) (b : BF P) (d : Nat) (p : P) : Option (BF P × Edge) :=
  match K.term p with
  | .inl e => some (b, e)
  | .inr (q, c) =>
    match b.findOrAddReq d (K.top b.st.ord q) q with
    | none => none
    | some (b', e) => some (b', e.phase c)

/-- `CalBddIcrRefCount` (calInt.h:781-806) on a request or node. -/
def icr (b : BF P) (e : Edge) : BF P := { b with st := b.st.icr e }

/-- Body of `CalHashTableApply` / `CalHashTableITEApply` for one request
(calApplyReduce.c:108-130, calBddITE.c:253-264). -/
def applyOne [DecidableEq P] (K : Kernel P) (b : BF P) (d a : Nat) : Option (BF P) :=
  match b.req a with
  | some ⟨id, dep, .pend p⟩ =>
    match K.cof b.st.ord b.kids p with
    | none => none
    | some (p1, p2) =>
      match b.request K d p1 with
      | none => none
      | some (b1, t) =>
        match (b1.icr t).request K d p2 with
        | none => none
        | some (b2, e) =>
          let b3 := b2.icr e
          some { b3 with req := upd b3.req a (some ⟨id, dep, .done t e⟩) }
  | _ => none

/-- The loop of `CalHashTableApply` (calApplyReduce.c:90-129) over the requests of one table. -/
def applyList [DecidableEq P] (K : Kernel P) (d : Nat) : List Nat → BF P → Option (BF P)
  | [], b => some b
  | a :: as, b =>
    match b.applyOne K d a with
    | none => none
    | some b' => applyList K d as b'

/-- Body of `CalHashTableReduce` for one request (calApplyReduce.c:159-208), and of
`HashTableCofactorReduce` (calReduce.c:492-562), which in addition forwards a request with a null
sub-request to the other one. -/
def reduceOne (b : BF P) (id a : Nat) : Option (BF P) :=
  match b.req a with
  | some ⟨_, dep, .done t0 e0⟩ =>
    let t := b.forward t0
    let e := b.forward e0
    if t = e then
      some { b with st := b.st.addRef t ((b.st.ref a : Int) - 2),
                    req := upd b.req a (some ⟨id, dep, .fwd t⟩) }
    else match b.st.uniqueLookup id t e with
      | some r =>
        some { b with st := ((b.st.dcr t).dcr e).addRef r (((b.st.dcr t).dcr e).ref a),
                      req := upd b.req a (some ⟨id, dep, .fwd r⟩) }
      | none =>
        if t.neg = false then
          let st := b.st.insertAt id a t e
          some { st := { st with numNodes := st.numNodes + 1, gcCheck := st.gcCheck - 1 },
                 req := upd b.req a none,
                 que := upd2 b.que dep id ((b.que dep id).erase a) }
        else
          let (n, st) := b.st.alloc id
          let st := { st with ref := upd st.ref n (b.st.ref a) }
          let st := st.insertAt id n t.not e.not
          some { b with st := { st with numNodes := st.numNodes + 1, gcCheck := st.gcCheck - 1 },
                        req := upd b.req a (some ⟨id, dep, .fwd ⟨id, n, true⟩⟩) }
  | some ⟨_, dep, .half x⟩ =>
    some { b with st := b.st.addRef (b.forward x) ((b.st.ref a : Int) - 1),
                  req := upd b.req a (some ⟨id, dep, .fwd (b.forward x)⟩) }
  | _ => none

/-- The loop of `CalHashTableReduce` (calApplyReduce.c:142-215) over the requests of one table. -/
def reduceList (id : Nat) : List Nat → BF P → Option (BF P)
  | [], b => some b
  | a :: as, b =>
    match b.reduceOne id a with
    | none => none
    | some b' => reduceList id as b'

/-- `CalHashTableCleanUp` (calHashTable.c:235-248): the forwarded requests of the table go to the
free list of its node manager. -/
def cleanUp (b : BF P) (d id : Nat) : BF P :=
  { st := { b.st with free := upd b.st.free id (b.que d id ++ b.st.free id) },
    req := fun a => if a ∈ b.que d id then none else b.req a,
    que := upd2 b.que d id [] }

/-- Apply the tables of one id, depths `d`, `d+1`, ..., `d+n-1` (calBddOp.c:501-510). -/
def applyDepths [DecidableEq P] (K : Kernel P) (id : Nat) : Nat → Nat → BF P → Option (BF P)
  | _, 0, b => some b
  | d, n+1, b =>
    match applyList K d (b.que d id) b with
    | none => none
    | some b' => applyDepths K id (d+1) n b'

/-- Apply phase over the indices `k`, `k+1`, ..., `k+n-1` with `D` depths
(calBddOp.c:499-511, 606-615). -/
def applyPhase [DecidableEq P] (K : Kernel P) (D : Nat) : Nat → Nat → BF P → Option (BF P)
  | _, 0, b => some b
  | k, n+1, b =>
    match applyDepths K (b.st.ord.indexToId k) 0 D b with
    | none => none
    | some b' => applyPhase K D (k+1) n b'

/-- Reduce the tables of one id, depths `d`, ..., `d+n-1` (calBddOp.c:530-535). -/
def reduceDepths (id : Nat) : Nat → Nat → BF P → Option (BF P)
  | _, 0, b => some b
  | d, n+1, b =>
    match reduceList id (b.que d id) b with
    | none => none
    | some b' => reduceDepths id (d+1) n b'

/-- Reduce phase over the indices `lo+n-1`, ..., `lo+1`, `lo` with `D` depths
(calBddOp.c:527-537, 626-634). -/
def reducePhase (D lo : Nat) : Nat → BF P → Option (BF P)
  | 0, b => some b
  | n+1, b =>
    match reduceDepths (b.st.ord.indexToId (lo + n)) 0 D b with
    | none => none
    | some b' => reducePhase D lo n b'

/-- Clean up one depth for a list of ids (calBddOp.c:660-664, 577-582). -/
def cleanUpIds (d : Nat) : List Nat → BF P → BF P
  | [], b => b
  | i :: is, b => cleanUpIds d is (b.cleanUp d i)

/-- Clean up the depths `d`, ..., `d+n-1`. -/
def cleanUpDepths (ids : List Nat) : Nat → Nat → BF P → BF P
  | _, 0, b => b
  | d, n+1, b => cleanUpDepths ids (d+1) n (cleanUpIds d ids b)

end BF

end Cal
