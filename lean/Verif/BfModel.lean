import Verif.DfModel
import Verif.Sift

/-!
# Breadth-first variable reordering (`calReorderBF.c`): the code

In contrast to the depth-first package the exchange of two adjacent variables does not work in place. A
node of the upper variable that has a child of the lower variable is replaced by a new node of the lower
variable. The old node stays behind as a *forwarding node*: its else pointer is `FORWARD_FLAG`, its then
pointer is the new node (calReorderBF.c:497-498). Pointers to the old node are redirected later, when a
clean-up passes over the nodes above, the user BDDs, the associations and the pipeline. The forwarding
nodes of an id are linked in a list that begins in `startNode` of its unique table.
-/

namespace Cal

namespace Bfr

/-- State during breadth-first reordering. -/
structure St where
  /-- unique tables, node managers, order, `numNodes` -/
  st : Store
  /-- the forwarding nodes: what the then pointer of the node at an address is, if its else pointer is
  `FORWARD_FLAG`. A forwarding node has no entry in `st.heap`. -/
  fwd : Nat → Option Edge
  /-- the list that begins in `uniqueTable[id]->startNode.nextBddNode` -/
  list : Nat → List Nat
  /-- whether `uniqueTable[id]->endNode` is the last node of that list; otherwise it is `&startNode`
  (calHashTable.c: `CalHashTableInit`) -/
  ends : Nat → Bool
  /-- `numForwardedNodes` -/
  numFwd : Nat
  /-- `interact` -/
  mat : Interact.Matrix
  /-- `numSwaps` -/
  swaps : Nat
  /-- `numTrivialSwaps` -/
  trivial : Nat
  /-- the BDDs of the user nodes, by the address of the user node -/
  users : Nat → Option Edge
  /-- `varBdds` -/
  vars : Nat → Option Edge
  /-- `associationList` -/
  assocs : List RAssoc
  /-- `tempAssociation` -/
  temp : Assoc
  /-- what has become of the results in the pipeline: the composition of all the steps taken by
  `CalBddReorderFixProvisionalNodes` -/
  pipe : Edge → Edge

/-- Limits and choices the reordering depends on. -/
structure Par where
  /-- `maxSize` of `BddReorderSiftToBestPos` as a function of `startSize` (a product of doubles),
  `maxNumVarsSiftedPerReordering`, `maxNumSwapsPerReordering` -/
  lim : Sift.Limits
  /-- `maxForwardedNodes` -/
  maxFwd : Nat
  /-- `CalBddIdNeedsRepacking` (calUtil.c), which compares numbers of pages with doubles; `Rp.needs` in
  `Verif/Repack.lean` is its model -/
  needs : Store → Nat → Bool
  /-- `numForwardedNodes` at the beginning: packing does not reset it -/
  numFwd0 : Nat

/-- `if (CalBddIsForwarded(e)) CalBddForward(e)`, also `CalBddIsForwardedTo` (calInt.h:1325-1375): one
step only. -/
def follow (w : St) (e : Edge) : Edge :=
  match w.fwd e.addr with
  | some t => t.phase e.neg
  | none => e

/-- Both children of a node redirected. -/
def followKids (w : St) (n : Node) : Node := ⟨n.var, follow w n.thn, follow w n.els⟩

/-! ## Exchange of two adjacent variables -/

/-- The first loop of `BddReorderSwapVarIndex` (calReorderBF.c:277-363 with `forwardCheckFlag`, 364-434
without): split the table of the upper variable, at index `i`, into the nodes that stay and the list of nodes
with a child of the lower variable (in reverse order). A node that stays although one of its children has been
redirected is in a bin it does not belong in (the assertion at calReorderBF.c:341-343): `none`. -/
def split (w : St) (flag : Bool) (i : Nat) : List Nat → List Nat → Option (List Nat × List Nat)
  | [], l => some ([], l)
  | a :: as, l =>
    match w.st.heap a with
    | none => none
    | some n =>
      let m := if flag then followKids w n else n
      if i + 1 < w.st.elvl m.els ∧ i + 1 < w.st.elvl m.thn then
        if m = n then (split w flag i as l).map fun r => (a :: r.1, r.2) else none
      else split w flag i as (a :: l)

/-- The children redirected in that loop (calReorderBF.c:322-333). -/
def redirect (w : St) (l : List Nat) : St :=
  { w with st := { w.st with heap := fun a => if a ∈ l then (w.st.heap a).map (followKids w) else w.st.heap a } }

/-- The cofactors `f11`, `f10`, `f01`, `f00` (calReorderBF.c:449-466). -/
def cofs (s : Store) (i : Nat) (f1 f0 : Edge) : Option ((Edge × Edge) × (Edge × Edge)) :=
  if i + 1 < s.elvl f0 then (s.kids f1).map fun k => (k, (f0, f0))
  else if i + 1 < s.elvl f1 then (s.kids f0).map fun k => ((f1, f1), k)
  else
    match s.kids f1, s.kids f0 with
    | some k1, some k0 => some (k1, k0)
    | _, _ => none

/-- `CalUniqueTableForIdFindOrAdd` (calHashTable.c:371-399): a node that is written is no forwarding node. -/
def findOrAdd (w : St) (x : Nat) (t e : Edge) : St × Edge × Bool :=
  let r := w.st.findOrAdd x t e
  ({ w with st := r.1, fwd := if r.2.2 then w.fwd else upd w.fwd r.2.1.addr none }, r.2.1, r.2.2)

/-- One new child (calReorderBF.c:472-489). -/
def newChild (w : St) (x : Nat) (t e : Edge) : St × Edge × Bool :=
  let r := if t = e then (w, e, true) else findOrAdd w x t e
  ({ r.1 with st := r.1.st.icr r.2.1 }, r.2.1, r.2.2)

/-- `CalHashTableAddDirectAux` (calHashTable.c:211-230) and `numNodes++` (calReorderBF.c:511). -/
def addDirect (w : St) (y : Nat) (t e : Edge) : St × Edge :=
  let p := w.st.alloc y
  let s := p.2.insertAt y p.1 t e
  ({ w with st := { s with numNodes := s.numNodes + 1 }, fwd := upd w.fwd p.1 none }, ⟨y, p.1, false⟩)

/-- The node `f` becomes a forwarding node to `r`, which gets its references (calReorderBF.c:512-524). -/
def toForward (w : St) (x f : Nat) (r : Edge) : St :=
  { w with
    st := { (w.st.addRef r (w.st.ref f)) with heap := upd w.st.heap f none }
    fwd := upd w.fwd f (some r)
    numFwd := w.numFwd + 1
    list := upd w.list x (f :: w.list x) }

/-- One round of the second loop of `BddReorderSwapVarIndex` (calReorderBF.c:438-527). -/
def swapNode (w : St) (i x y f : Nat) : Option St :=
  match w.st.heap f with
  | none => none
  | some n =>
    match cofs w.st i n.thn n.els with
    | none => none
    | some ((f11, f10), (f01, f00)) =>
      let (w1, newF0, found0) := newChild w x f10 f00
      let (w2, newF1, found1) := newChild w1 x f11 f01
      let s := w2.st
      let s := if found0 then s else (s.icr f10).icr f00
      let s := if found1 then s else (s.icr f11).icr f01
      let s := (s.dcr n.els).dcr n.thn
      let (w3, r) := addDirect { w2 with st := s } y newF1 newF0
      some (toForward w3 x f r)

/-- The second loop (calReorderBF.c:435-527). -/
def swapList (i x y : Nat) : List Nat → St → Option St
  | [], w => some w
  | f :: fs, w =>
    match swapNode w i x y f with
    | none => none
    | some w1 => swapList i x y fs w1

/-- The part of `BddReorderSwapVarIndex` for variables that interact (calReorderBF.c:262-533); the last
step is `BddReorderFreeNodes` (calReorderBF.c:591-645). -/
def swapNodes (w : St) (flag : Bool) (i x y : Nat) : Option St :=
  match split w flag i (w.st.tab x) [] with
  | none => none
  | some (keep, l) =>
    let w0 := if flag then redirect w l else w
    let w1 := { w0 with st := { w0.st with tab := upd w0.st.tab x keep, numNodes := w0.st.numNodes - l.length } }
    match swapList i x y l w1 with
    | none => none
    | some w2 =>
      match w2.st.gcTable y y with
      | none => none
      | some (s', _) => some { w2 with st := s' }

/-- The last part (calReorderBF.c:539-548). -/
def swapLevels (w : St) (x y : Nat) : St :=
  { w with
    temp := Df.fixupAssoc w.st.ord x y w.temp
    assocs := w.assocs.map fun p => { p with a := Df.fixupAssoc w.st.ord x y p.a }
    st := { w.st with ord := Df.swapOrder w.st.ord x y } }

/-- `BddReorderSwapVarIndex` (calReorderBF.c:229-560): exchange the variables at the indices `i` and
`i + 1`. Outside `indexToId` it is undefined (`none`). -/
def swap (w : St) (i : Nat) (flag : Bool) : Option St :=
  let o := w.st.ord
  if i + 1 < o.numVars then
    let x := o.indexToId i
    let y := o.indexToId (i + 1)
    match Interact.test o.numVars w.mat x y with
    | none => none
    | some true =>
      (swapNodes { w with swaps := w.swaps + 1 } flag i x y).map fun w' => swapLevels w' x y
    | some false => some (swapLevels { w with trivial := w.trivial + 1 } x y)
  else none

/-! ## Clean-up -/

/-- The loop of `BddReorderFixForwardingNodes` (calReorderBF.c:148-160) on the rest of the list: the new
forwarding pointers and the rest of the list where it stops. -/
def shorten : List Nat → St → Option (St × List Nat)
  | [], w => some (w, [])
  | a :: as, w =>
    match w.fwd a with
    | none => none
    | some t =>
      if (w.fwd t.addr).isSome then shorten as { w with fwd := upd w.fwd a (some (follow w t)) }
      else some (w, a :: as)

/-- `BddReorderFixForwardingNodes` (calReorderBF.c:137-165). If `endNode` is the last node of the list the
list is made cyclic (calReorderBF.c:161-162), which is left out (`none`). -/
def fixForwarding (w : St) (id : Nat) : Option St :=
  if w.ends id then none
  else (shorten (w.list id) w).map fun r => { r.1 with list := upd r.1.list id r.2 }

/-- `CalBddReorderFixCofactors` (calReorderUtil.c:458-506). A node that is moved to a later bin is visited
again, which changes nothing since its children are no longer forwarding nodes. -/
def fixCofactors (w : St) (id : Nat) : St :=
  { w with st := { w.st with
      heap := fun a => if a ∈ w.st.tab id then (w.st.heap a).map (followKids w) else w.st.heap a } }

/-- `CalBddReorderFixCofactors` (calReorderUtil.c:458-509) for the indices below `k`. The order of the indices makes no
difference. -/
def fixAbove : Nat → St → St
  | 0, w => w
  | k + 1, w => fixAbove k (fixCofactors w (w.st.ord.indexToId k))

/-- `CalReorderAssociationFix` (calAssociation.c:427-448) on one association. -/
def fixAssoc (w : St) (A : Assoc) : Assoc := { A with var := fun v => (A.var v).map (follow w) }

/-- `CalBddReorderFixProvisionalNodes` (calPipeline.c:324-364), `CalBddReorderFixUserBddPtrs`
(calReorderUtil.c:88-132) and `CalReorderAssociationFix` (calAssociation.c:427-448), which are always called
together. -/
def fixOutside (w : St) : St :=
  { w with
    users := fun a => (w.users a).map (follow w)
    assocs := w.assocs.map fun p => { p with a := fixAssoc w p.a }
    temp := fixAssoc w w.temp
    pipe := fun e => follow w (w.pipe e) }

/-- The body of the loop of `CalBddReorderReclaimForwardedNodes` (calReorderUtil.c:520-529). With `endNode =
&startNode` the first assignment overwrites the head of the list, so that nothing is reclaimed. A node in the
free list does not count as a forwarding node any more; the code leaves its contents as they are until it is
used again. -/
def reclaimId (w : St) (id : Nat) : St :=
  { w with
    st := if w.ends id then { w.st with free := upd w.st.free id (w.list id ++ w.st.free id) } else w.st
    fwd := if w.ends id then fun a => if a ∈ w.list id then none else w.fwd a else w.fwd
    ends := upd w.ends id false
    list := upd w.list id [] }

/-- The loop of `CalBddReorderReclaimForwardedNodes` (calReorderUtil.c:513-532) over the indices `i`, ..., `i + k - 1`. -/
def reclaimLoop : Nat → Nat → St → St
  | 0, _, w => w
  | k + 1, i, w => reclaimLoop k (i + 1) (reclaimId w (w.st.ord.indexToId i))

/-- `CalBddReorderReclaimForwardedNodes` (calReorderUtil.c:510-532) from index `i` to index `j`. -/
def reclaim (w : St) (i j : Nat) : St := { reclaimLoop (j + 1 - i) i w with numFwd := 0 }

/-- `CofactorFixAndReclaimForwardedNodes` (calReorderBF.c:563-588) with the indices below `k` checked. -/
def fixAndReclaim (w : St) (k i j : Nat) : St := reclaim (fixAbove k (fixOutside w)) i j

/-! ## Packing -/

/-- The loop of `CalBddPackNodesAfterReorderForSingleId` that copies the nodes (calHashTable.c:606-624),
with `CalNodeManagerCreateAndDupBddNode` (calInt.h:544-573): the new addresses. The model keeps the order of the
table; the code distributes the nodes over new bins. -/
def copyNodes (id : Nat) : List Nat → St → Option (St × List Nat)
  | [], w => some (w, [])
  | a :: as, w =>
    match w.st.heap a with
    | none => none
    | some n =>
      let p := w.st.alloc id
      let s := p.2
      let s := { s with heap := upd (upd s.heap p.1 (some n)) a none, ref := upd s.ref p.1 (s.ref a) }
      match copyNodes id as { w with st := s, fwd := upd (upd w.fwd p.1 none) a (some ⟨id, p.1, false⟩) } with
      | none => none
      | some (w', bs) => some (w', p.1 :: bs)

/-- `CalBddPackNodesAfterReorderForSingleId` (calHashTable.c:558-705) with `fixForwardedNodesFlag = 0`. The
pages with the old nodes and the forwarding nodes of the id are given back; their addresses are not used
again in the model. -/
def pack (w : St) (k : Nat) : Option St :=
  let id := w.st.ord.indexToId k
  match copyNodes id (w.st.tab id) { w with st := { w.st with free := upd w.st.free id [] } } with
  | none => none
  | some (w1, bs) =>
    let w2 := fixAbove k { w1 with st := { w1.st with tab := upd w1.st.tab id bs } }
    let w3 := fixOutside w2
    some { w3 with
      vars := upd w3.vars id ((w3.vars id).map (follow w3))
      ends := upd w3.ends id false
      list := upd w3.list id [] }

/-! ## Sifting -/

/-- The variables of `BddReorderSiftToBestPos` (calReorderBF.c:777-800). -/
structure Sf where
  w : St
  /-- `varCurIndex` -/
  cur : Nat
  /-- `bestSize` -/
  best : Nat
  /-- `bestIndex` -/
  bestIdx : Nat
  /-- `topMostSwapIndex` -/
  top : Nat
  /-- `bottomMostSwapIndex` -/
  bottom : Nat
  /-- `swapFlag` -/
  flag : Bool

/-- A step down (calReorderBF.c:819-829, 914-924, 968-978, 983-993). -/
def downStep (P : Par) (s : Sf) : Option Sf :=
  match swap s.w s.cur false with
  | none => none
  | some w =>
    if P.maxFwd < w.numFwd then
      some { s with w := fixAndReclaim w s.cur (s.cur + 1) (s.cur + 1), flag := false, cur := s.cur + 1 }
    else some { s with w := w, flag := true, cur := s.cur + 1 }

/-- A number of steps down (calReorderBF.c:913-925, 967-979). -/
def downTo (P : Par) : Nat → Sf → Option Sf
  | 0, s => some s
  | k + 1, s =>
    match downStep P s with
    | none => none
    | some s1 => downTo P k s1

/-- The search downwards (calReorderBF.c:818-840 with `<`, 982-1004 with `<=`). -/
def downSearch (P : Par) (strict : Bool) : Nat → Sf → Option Sf
  | 0, s => some s
  | k + 1, s =>
    match downStep P s with
    | none => none
    | some s1 =>
      let size := s1.w.st.numNodes
      if 2 * s1.best ≤ size then some { s1 with bottom := s1.cur }
      else if (if strict then size < s1.best else size ≤ s1.best) then
        downSearch P strict k { s1 with best := size, bestIdx := s1.cur }
      else downSearch P strict k s1

/-- Steps up that shorten chains of forwarding nodes (calReorderBF.c:848-861, 1007-1019). -/
def upTo (P : Par) : Nat → Sf → Option Sf
  | 0, s => some s
  | k + 1, s =>
    match swap s.w (s.cur - 1) true with
    | none => none
    | some w =>
      match fixForwarding w (w.st.ord.indexToId (s.cur - 1)) with
      | none => none
      | some w =>
        if P.maxFwd < w.numFwd then
          upTo P k { s with w := fixAndReclaim w (s.cur - 1) (s.cur - 1) s.bottom, flag := false, cur := s.cur - 1 }
        else upTo P k { s with w := w, flag := true, cur := s.cur - 1 }

/-- The search upwards (calReorderBF.c:867-888 with `<=`, reclaiming from `varCurIndex` to
`bottomMostSwapIndex`; 932-951 with `<`, reclaiming from `varCurIndex + 1` to `varStartIndex`). -/
def upSearch (P : Par) (strict : Bool) (maxSize : Int) (off hi : Nat) : Nat → Sf → Option Sf
  | 0, s => some s
  | k + 1, s =>
    match swap s.w (s.cur - 1) true with
    | none => none
    | some w =>
      let size := w.st.numNodes
      let s1 : Sf :=
        if P.maxFwd < w.numFwd then
          { s with w := fixAndReclaim w (s.cur - 1) (s.cur - 1 + off) hi, flag := false, cur := s.cur - 1 }
        else { s with w := w, flag := true, cur := s.cur - 1 }
      if maxSize < size then some { s1 with top := s1.cur }
      else if (if strict then size < s1.best else size ≤ s1.best) then
        upSearch P strict maxSize off hi k { s1 with best := size, bestIdx := s1.cur }
      else upSearch P strict maxSize off hi k s1

/-- The clean-up between the phases (calReorderBF.c:890-908, 953-970). -/
def cleanUp (s : Sf) (hi : Nat) : Sf :=
  if s.flag then { s with w := reclaim (fixAbove s.top (fixOutside s.w)) s.top hi, flag := false } else s

/-- `BddSiftPerfromPhaseIV` (calReorderBF.c:1088-1113). -/
def phaseIV (w : St) (start best bottom : Nat) : St :=
  let w := fixOutside (fixAbove best w)
  if w.st.ord.numVars / 2 ≤ start then reclaim w best best else reclaim w best bottom

/-- The three phases for a variable in the lower half: down, up, down (calReorderBF.c:815-926). -/
def lowerHalf (P : Par) (start : Nat) (maxSize : Int) (s : Sf) : Option Sf :=
  match downSearch P true (s.bottom - s.cur) s with
  | none => none
  | some s1 =>
    match upTo P (s1.cur - start) s1 with
    | none => none
    | some s2 =>
      match upSearch P false maxSize 0 s2.bottom s2.cur s2 with
      | none => none
      | some s3 =>
        let s4 := cleanUp s3 s3.bottom
        downTo P (s4.bestIdx - s4.cur) s4

/-- The three phases for a variable in the upper half: up, down, up (calReorderBF.c:928-1020). -/
def upperHalf (P : Par) (start : Nat) (maxSize : Int) (s : Sf) : Option Sf :=
  match upSearch P true maxSize 1 start s.cur s with
  | none => none
  | some s1 =>
    let s2 := cleanUp s1 start
    match downTo P (start - s2.cur) s2 with
    | none => none
    | some s3 =>
      match downSearch P false (s3.bottom - s3.cur) s3 with
      | none => none
      | some s4 => upTo P (s4.cur - s4.bestIdx) s4

/-- `BddReorderSiftToBestPos` (calReorderBF.c:777-1085) for the variable at index `start`. -/
def siftToBest (P : Par) (w : St) (start : Nat) : Option St :=
  let n := w.st.ord.numVars
  let id := w.st.ord.indexToId start
  let maxSize := P.lim.maxSize w.st.numNodes
  let s : Sf := ⟨w, start, w.st.numNodes, start, 0, n - 1, false⟩
  match (if n / 2 ≤ start then lowerHalf P start maxSize s else upperHalf P start maxSize s) with
  | none => none
  | some s =>
    if P.needs s.w.st id then
      if s.flag then
        if n / 2 ≤ start then pack s.w s.bestIdx
        else pack (phaseIV s.w start s.bestIdx s.bottom) s.bestIdx
      else pack s.w s.bestIdx
    else if s.flag then some (phaseIV s.w start s.bestIdx s.bottom)
    else some s.w

/-- The variable with the most nodes (calReorderBF.c:746-753): its place in `idArray` and the number. -/
def mostNodes (s : Store) : List Nat → Nat → Nat × Nat → Nat × Nat
  | [], _, r => r
  | id :: ids, j, r => mostNodes s ids (j + 1) (if r.2 < (s.tab id).length then (j, (s.tab id).length) else r)

/-- The loop of `BddReorderVarSift` (calReorderBF.c:736-771); `ids` is `idArray[0..i-1]`. -/
def siftLoop (P : Par) : Nat → List Nat → Nat → St → Option St
  | 0, _, _, w => some w
  | i + 1, ids, shifted, w =>
    if (shifted : Int) ≤ P.lim.maxVars ∧ (w.swaps : Int) ≤ P.lim.maxSwaps then
      let r := mostNodes w.st ids 0 (0, 0)
      if r.2 ≤ 1 then some w
      else
        match ids[r.1]?, ids[i]? with
        | some id, some lst =>
          match siftToBest P w (w.st.ord.idToIndex id) with
          | none => none
          | some w1 => siftLoop P i ((ids.set r.1 lst).take i) (shifted + 1) w1
        | _, _ => none
    else some w

/-- `BddReorderVarSift` (calReorderBF.c:720-771). -/
def sift (P : Par) (w : St) : Option St :=
  let n := w.st.ord.numVars
  siftLoop P n ((List.range n).map w.st.ord.indexToId) 0 { w with swaps := 0 }

end Bfr

end Cal
