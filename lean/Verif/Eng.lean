import Verif.Kernels

/-!
# Breadth-first operations with several request queues

Cofactor, compose and swapping variables use the request queues differently from the binary
operations: their operands are always BDD nodes (never requests), one operation uses several queues
(`reqQue[0]`, `reqQue[1]`, ...), a request table need not be the one of an operand's variable, a
sub-request may be the null BDD, and `Cal_BddSwapVars` makes nodes already in the apply phase. The
loops are the same: apply the tables by increasing index, reduce them by decreasing index.
-/

namespace Cal

/-- How a (sub-)result is obtained in the apply phase. -/
inductive Want (P : Type) where
  /-- a BDD that is already there -/
  | edge (e : Edge)
  /-- the null BDD -/
  | null
  /-- the result of request `p`, complemented if `c` -/
  | req (p : P) (c : Bool)
  /-- a node made at once: "if variable `i` then `t` else `e`" -/
  | node (i : Nat) (t e : Edge)

/-- The operation-specific part. -/
structure Rules (P : Type) where
  /-- number of the request queue a request goes to -/
  que : P → Nat
  /-- id of the request table it goes to -/
  top : Order → P → Nat
  /-- the two sub-problems of a request -/
  split : Store → P → Option (P × P)
  /-- how the result of a problem is obtained -/
  want : Store → P → Option (Want P)

namespace BF

variable {P : Type}

/-- Obtain the result of a problem: a BDD, the null BDD (`none`) or a request for it. -/
def act [DecidableEq P] (R : Rules P) (b : BF P) (x : P) : Option (BF P × Option Edge) :=
  match R.want b.st x with
  | none => none
  | some (.edge e) => some (b, some e)
  | some .null => some (b, none)
  | some (.req p c) =>
    match b.findOrAddReq (R.que p) (R.top b.st.ord p) p with
    | none => none
    | some (b', e) => some (b', some (e.phase c))
  | some (.node i t e) => some ({ b with st := (b.st.mkNode i t e).1 }, some (b.st.mkNode i t e).2)

/-- `CalBddIcrRefCount` (calInt.h:781-806) unless the BDD is null. -/
def icrO (b : BF P) : Option Edge → BF P
  | some e => b.icr e
  | none => b

/-- What an applied request holds; both sub-requests null does not occur. -/
def both : Option Edge → Option Edge → Option (Cell P)
  | some t, some e => some (.done t e)
  | some t, none => some (.half t)
  | none, some e => some (.half e)
  | none, none => none

/-- Body of the apply loops for one request (calBddCompose.c:218-275, calReduce.c:436-467,
calBddSwapVars.c:221-322, 348-410, 436-498). -/
def applyR [DecidableEq P] (R : Rules P) (b : BF P) (a : Nat) : Option (BF P) :=
  match b.req a with
  | some ⟨id, dep, .pend p⟩ =>
    match R.split b.st p with
    | none => none
    | some (x1, x2) =>
      match b.act R x1 with
      | none => none
      | some (b1, t) =>
        match (b1.icrO t).act R x2 with
        | none => none
        | some (b2, e) =>
          match both t e with
          | none => none
          | some c =>
            some { b2.icrO e with req := upd (b2.icrO e).req a (some ⟨id, dep, c⟩) }
  | _ => none

/-- The loop over the requests of one table (calBddCompose.c:218-275 and its like, see `applyR`). -/
def applyListR [DecidableEq P] (R : Rules P) : List Nat → BF P → Option (BF P)
  | [], b => some b
  | a :: as, b =>
    match b.applyR R a with
    | none => none
    | some b' => applyListR R as b'

/-- Apply the tables of one id in the queues `ds`, in this order (calBddCompose.c:132-197, calQuant.c and calBddSubstitute.c alike). -/
def applyTabs [DecidableEq P] (R : Rules P) (id : Nat) : List Nat → BF P → Option (BF P)
  | [], b => some b
  | d :: ds, b =>
    match applyListR R (b.que d id) b with
    | none => none
    | some b' => applyTabs R id ds b'

/-- Apply phase (calBddCompose.c:132-197: the first loop over indices) over the indices `k`, ..., `k+n-1`. -/
def applyRange [DecidableEq P] (R : Rules P) (ds : List Nat) : Nat → Nat → BF P → Option (BF P)
  | _, 0, b => some b
  | k, n+1, b =>
    match applyTabs R (b.st.ord.indexToId k) ds b with
    | none => none
    | some b' => applyRange R ds (k+1) n b'

/-- Reduce the tables of one id in the queues `ds`, in this order (calBddCompose.c:132-197: the body of the second loop). -/
def reduceTabs (id : Nat) : List Nat → BF P → Option (BF P)
  | [], b => some b
  | d :: ds, b =>
    match reduceList id (b.que d id) b with
    | none => none
    | some b' => reduceTabs id ds b'

/-- Reduce phase (calBddCompose.c:132-197: the second loop over indices) over the indices `lo+n-1`, ..., `lo`. -/
def reduceRange (ds : List Nat) (lo : Nat) : Nat → BF P → Option (BF P)
  | 0, b => some b
  | n+1, b =>
    match reduceTabs (b.st.ord.indexToId (lo + n)) ds b with
    | none => none
    | some b' => reduceRange ds lo n b'

/-- Apply and reduce from index `lo` (calBddCompose.c:132-197 and its like). -/
def runR [DecidableEq P] (R : Rules P) (ds : List Nat) (lo : Nat) (b : BF P) : Option (BF P) :=
  match applyRange R ds lo (b.st.ord.numVars - lo) b with
  | none => none
  | some b1 => reduceRange ds lo (b1.st.ord.numVars - lo) b1

/-- `CalHashTableCleanUp` (calHashTable.c:234-248) on the tables of the ids `ids` in the queues `ds`, id by id. -/
def cleanUpTabs (ds : List Nat) : List Nat → BF P → BF P
  | [], b => b
  | i :: is, b => cleanUpTabs ds is (ds.foldl (fun b d => b.cleanUp d i) b)

end BF
end Cal
