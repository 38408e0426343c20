import Verif.Kernels

/-!
# The breadth-first operations

`CalBddOpBF`, `CalBddOpITEBF`, `BddArrayOpBF`, `CalRequestNodeListArrayOp` and the multiway
operations (calBddOp.c, calBddITE.c), on internal BDDs.
-/

namespace Cal

/-- ids of the variables with index `lo`, `lo+1`, ..., `numVars-1`. -/
def idsFrom (o : Order) (lo : Nat) : List Nat :=
  (List.range (o.numVars - lo)).map fun j => o.indexToId (lo + j)

/-- The apply loop followed by the reduce loop, both from index `lo`, with `D` request depths
(calBddOp.c:606-634, 697-716, 499-537; calBddITE.c:208-228). -/
def BF.run {P : Type} [DecidableEq P] (K : Kernel P) (D lo : Nat) (b : BF P) : Option (BF P) :=
  match BF.applyPhase K D lo (b.st.ord.numVars - lo) b with
  | none => none
  | some b1 => BF.reducePhase D lo (b1.st.ord.numVars - lo) b1

/-- Second half of `CalBddOpBF` and `CalBddOpITEBF` (calBddOp.c:606-666, calBddITE.c:208-234): apply
and reduce from index `lo`, follow the forwarding pointer of the result `r`, clean up the request
tables from index `lo`. -/
def BF.finish {P : Type} [DecidableEq P] (K : Kernel P) (lo : Nat) (b : BF P) (r : Edge) :
    Option (Store × Edge) :=
  match BF.run K 1 lo b with
  | none => none
  | some b' => some ((BF.cleanUpIds 0 (idsFrom b'.st.ord lo) b').st, b'.forward r)

/-- `CalBddOpBF` (calBddOp.c:588-667) with terminal-case function `op`. -/
def opBF (op : Edge → Edge → Option Edge) (s : Store) (f g : Edge) : Option (Store × Edge) :=
  match op f g with
  | some r => some (s, r)
  | none =>
    let id := minId2 s.ord (f, g)
    let lo := s.ord.lvl id
    match (BF.init s : BF (Edge × Edge)).findOrAddReq 0 id (f, g) with
    | none => none
    | some (b, r) => BF.finish (binKernel op) lo b r

/-- `CalBddGetMinIndex3` (calInt.h:927-953). -/
def minIndex3 (o : Order) (p : Tri) : Nat :=
  let i1 := o.lvl p.1.id
  let i2 := o.lvl p.2.1.id
  let i3 := o.lvl p.2.2.id
  if i1 ≤ i2 then (if i1 ≤ i3 then i1 else i3)
  else (if i2 ≤ i3 then i2 else i3)

/-- `CalBddOpITEBF` (calBddITE.c:188-235). -/
def iteBF (s : Store) (f g h : Edge) : Option (Store × Edge) :=
  match (BF.init s : BF Tri).request iteKernel 0 (f, g, h) with
  | none => none
  | some (b, r) => BF.finish iteKernel (minIndex3 s.ord (f, g, h)) b r

/-- First loop of `BddArrayOpBF` (calBddOp.c:689-699): `minIndex` is overwritten by every pair that
is not a terminal case. -/
def arrayInsert (op : Edge → Edge → Option Edge) :
    List (Edge × Edge) → BF (Edge × Edge) → Nat → Option (BF (Edge × Edge) × List Edge × Nat)
  | [], b, lo => some (b, [], lo)
  | (f, g) :: ps, b, lo =>
    match op f g with
    | some r =>
      match arrayInsert op ps b lo with
      | none => none
      | some (b', rs, lo') => some (b', r :: rs, lo')
    | none =>
      let id := minId2 b.st.ord (f, g)
      match b.findOrAddReq 0 id (f, g) with
      | none => none
      | some (b1, r) =>
        match arrayInsert op ps b1 (b.st.ord.lvl id) with
        | none => none
        | some (b', rs, lo') => some (b', r :: rs, lo')

/-- `BddArrayOpBF` (calBddOp.c:677-729). The result keeps the queue state, which the code leaves
behind in `bddManager->reqQue[0]`. -/
def arrayOpBF (op : Edge → Edge → Option Edge) (s : Store) (ps : List (Edge × Edge)) :
    Option (BF (Edge × Edge) × List Edge) :=
  match arrayInsert op ps (BF.init s) 0 with
  | none => none
  | some (b, rs, lo) =>
    match BF.run (binKernel op) 1 lo b with
    | none => none
    | some b' => some (BF.cleanUpIds 0 (idsFrom s.ord lo) b', rs.map b'.forward)

/-- An operand of a queued request of a multiway operation or pipeline: a BDD, or the `k`-th node of
the list at an earlier depth (whose then field will hold its result), possibly complemented. In C both
are a `Cal_Bdd_t` (calInt.h:269-272); list nodes are told apart by their `FORWARD_FLAG` (calInt.h:216). -/
inductive Arg where
  | bdd (e : Edge)
  | node (d k : Nat) (neg : Bool := false)

/-- Value of an operand when its request is inserted (`CalRequestIsForwardedTo` on the operand,
calBddOp.c:486-487): list nodes of earlier depths give the result stored in them. `emb` is the
identity here, `no` the complement. -/
def Arg.get {α : Type} (emb : Edge → α) (no : α → α) (rs : List (List α)) : Arg → Option α
  | .bdd e => some (emb e)
  | .node d k neg =>
    match rs[d]? with
    | none => none
    | some l => l[k]?.map fun x => if neg then no x else x

/-- Insert the requests of one depth (calBddOp.c:483-497). -/
def insertDepth (K : Kernel (Edge × Edge)) (d : Nat) (rs : List (List Edge)) :
    List (Arg × Arg) → BF (Edge × Edge) → Option (BF (Edge × Edge) × List Edge)
  | [], b => some (b, [])
  | (x, y) :: as, b =>
    match x.get id Edge.not rs, y.get id Edge.not rs with
    | some f, some g =>
      match b.request K d (f, g) with
      | none => none
      | some (b1, r) =>
        match insertDepth K d rs as b1 with
        | none => none
        | some (b2, l) => some (b2, r :: l)
    | _, _ => none

/-- Insert the requests of all depths (calBddOp.c:481-498): depth `d`, `d+1`, ... -/
def insertAll (K : Kernel (Edge × Edge)) :
    Nat → List (List Edge) → List (List (Arg × Arg)) → BF (Edge × Edge) →
    Option (BF (Edge × Edge) × List (List Edge))
  | _, rs, [], b => some (b, rs)
  | d, rs, l :: ls, b =>
    match insertDepth K d rs l b with
    | none => none
    | some (b1, r) => insertAll K (d+1) (rs ++ [r]) ls b1

/-- `CalRequestNodeListArrayOp` (calBddOp.c:471-583): the results of all list nodes, per depth. -/
def listArrayOp (op : Edge → Edge → Option Edge) (s : Store) (ls : List (List (Arg × Arg))) :
    Option (Store × List (List Edge)) :=
  match insertAll (binKernel op) 0 [] ls (BF.init s) with
  | none => none
  | some (b, rs) =>
    match BF.run (binKernel op) ls.length 0 b with
    | none => none
    | some b' => some ((BF.cleanUpDepths ((List.range b'.st.ord.numVars).map (· + 1)) 0 ls.length
        b').st, rs.map (List.map b'.forward))

/-- `CeilLog2` (calBddOp.c:857-866): the loop ... -/
def log2Loop : Nat → Nat → Nat
  | num, count =>
    if num > 1 then log2Loop (num / 2) (count + 1) else count
termination_by num => num

/-- ... and the correction. -/
def ceilLog2 (n : Nat) : Nat :=
  let c := log2Loop n 0
  if 2 ^ c ≠ n then c + 1 else c

/-- Pairs of consecutive elements, with the leftover. -/
def pairUp {α : Type} : List α → List (α × α) × Option α
  | [] => ([], none)
  | [x] => ([], some x)
  | x :: y :: xs => ((x, y) :: (pairUp xs).1, (pairUp xs).2)

/-- One level of the loop in `BddArrayToRequestNodeListArray` (calBddOp.c:808-846): pair the nodes
of the list of the previous depth; an odd one is paired with the one left over from before or becomes
the left-over. Lists are built by prepending. `n` is the length of the list of depth `i-1`. -/
def pairLevel (i n : Nat) (last : Option Arg) : List (Arg × Arg) × Option Arg :=
  let nodes := (List.range n).map fun k => Arg.node (i-1) k
  let (ps, odd) := pairUp nodes
  match odd, last with
  | none, _ => (ps.reverse, last)
  | some o, none => (ps.reverse, some o)
  | some o, some l => ((o, l) :: ps.reverse, none)

/-- The levels `i`, ..., `i+m-1`. -/
def pairLevels : Nat → Nat → Nat → Option Arg → List (List (Arg × Arg))
  | 0, _, _, _ => []
  | m+1, i, n, last =>
    let l := pairLevel i n last
    l.1 :: pairLevels m (i+1) l.1.length l.2

/-- `BddArrayToRequestNodeListArray` (calBddOp.c:768-848). The allocation of the list nodes (from the
node manager of id 0) and of further request tables is not modelled. `none`: the depth is above 10
and the code stops with a fatal message. -/
def toListArray (fs : List Edge) : Option (List (List (Arg × Arg))) :=
  let depth := ceilLog2 fs.length
  if depth > 10 then none
  else
    let (ps, last) := pairUp (fs.map Arg.bdd)
    some (ps.reverse :: pairLevels (depth - 1) 1 ps.length last)

/-- `BddMultiwayOp` (calBddOp.c:735-764): the result is in the only node of the last list. -/
def multiwayOp (op : Edge → Edge → Option Edge) (s : Store) (fs : List Edge) :
    Option (Store × Edge) :=
  match toListArray fs with
  | none => none
  | some ls =>
    match listArrayOp op s ls with
    | none => none
    | some (s', rs) =>
      match rs.getLast? with
      | some (r :: _) => some (s', r)
      | _ => none

end Cal
