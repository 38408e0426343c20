import Verif.BfModel

/-!
# Breadth-first window permutation (`BddReorderVarWindow`, calReorderBF.c:1119-1267): the code

The variable `even` is never set to 0 (calReorderBF.c:1186 is commented out), so that the passes upwards
(calReorderBF.c:1188-1251) and the clean-up at the end (calReorderBF.c:1254-1265) are dead code.
-/

namespace Cal

namespace Bfr

/-! ## Chains of forwarding nodes -/

/-- The end of a chain of forwarding nodes (the loop at calReorderBF.c:191-194). The model gives up (`none`)
after `k` nodes; that it never comes to this is part of what is proved. -/
def chase (f : Nat → Option Edge) : Nat → Edge → Option Edge
  | 0, _ => none
  | k + 1, e =>
    match f e.addr with
    | none => some e
    | some t => chase f k (t.phase e.neg)

/-- The bound on the length of a chain in the model. -/
def maxChain : Nat := 16

/-- The first loop of `BddReorderFixAndFreeForwardingNodes` on one list (calReorderBF.c:186-198). The marks
are left out, see `fixAndFree`. -/
def fixList : List Nat → St → Option St
  | [], w => some w
  | a :: as, w =>
    match w.fwd a with
    | none => none
    | some t =>
      match chase w.fwd maxChain t with
      | none => none
      | some r => fixList as { w with fwd := upd w.fwd a (some r) }

/-- The first loop for the lists at the indices `i + k - 1`, ..., `i` (calReorderBF.c:183-199). -/
def fixLists : Nat → Nat → St → Option St
  | 0, _, w => some w
  | k + 1, i, w =>
    match fixList (w.list (w.st.ord.indexToId (i + k))) w with
    | none => none
    | some w1 => fixLists k i w1

/-- The second loop (calReorderBF.c:201-223): `endNode` becomes the last node of the list. -/
def setEnds : Nat → Nat → St → St
  | 0, _, w => w
  | k + 1, i, w =>
    let id := w.st.ord.indexToId (i + k)
    setEnds k i { w with ends := upd w.ends id (!(w.list id).isEmpty) }

/-- `BddReorderFixAndFreeForwardingNodes` (calReorderBF.c:172-224) for `k` variables from index `i`. The
first loop marks the forwarding nodes it skips, in a bit of the then pointer which all other code masks out.
The second loop would free the node the then pointer leads to if it is marked. After the first loop that is
no forwarding node, and only forwarding nodes are marked (a node that is used again is written anew,
calInt.h:512-536), so nothing is freed. -/
def fixAndFree (w : St) (i k : Nat) : Option St := (fixLists k i w).map (setEnds k i)

/-! ## Windows -/

/-- `BddReorderWindow2` (calReorderBF.c:1272-1294) with `directionFlag = 0`. -/
def window2 (w : St) (i : Nat) : Option (St × Bool) :=
  match swap w i false with
  | none => none
  | some w1 =>
    match (if w.st.numNodes < w1.st.numNodes then swap w1 i false else some w1) with
    | none => none
    | some w2 => (fixAndFree w2 i 2).map fun w3 => (w3, decide (w1.st.numNodes < w.st.numNodes))

/-- `best` and `bestSize` after an exchange (calReorderBF.c:1309-1313, 1316-1320 with `<`; 1323-1327,
1330-1334, 1337-1341 with `<=`). -/
def better (strict : Bool) (k size : Nat) (b : Nat × Nat) : Nat × Nat :=
  if (if strict then size < b.2 else size ≤ b.2) then (k, size) else b

/-- The exchanges through all orders of three variables (calReorderBF.c:1305-1341): the state at the end,
`best` and `bestSize`. -/
def tryAll (w : St) (i : Nat) : Option (St × Nat × Nat) :=
  match swap w i false with
  | none => none
  | some w1 =>
    let b1 := better true 1 w1.st.numNodes (0, w.st.numNodes)
    match swap w1 (i + 1) false with
    | none => none
    | some w2 =>
      let b2 := better true 2 w2.st.numNodes b1
      match swap w2 i true with
      | none => none
      | some w3 =>
        let b3 := better false 3 w3.st.numNodes b2
        match swap w3 (i + 1) false with
        | none => none
        | some w4 =>
          let b4 := better false 4 w4.st.numNodes b3
          match swap w4 i true with
          | none => none
          | some w5 => some (w5, better false 5 w5.st.numNodes b4)

/-- A list of exchanges. -/
def swaps : List (Nat × Bool) → St → Option St
  | [], w => some w
  | (i, flag) :: l, w =>
    match swap w i flag with
    | none => none
    | some w1 => swaps l w1

/-- The exchanges that lead from the last order to the best (calReorderBF.c:1342-1364). -/
def backTo (i : Nat) : Nat → List (Nat × Bool)
  | 0 => [(i + 1, false)]
  | 1 => [(i + 1, false), (i, true)]
  | 2 => [(i, false), (i + 1, false), (i, true)]
  | 3 => [(i, false), (i + 1, false)]
  | 4 => [(i, false)]
  | _ => []

/-- `BddReorderWindow3` (calReorderBF.c:1298-1379) with `directionFlag = 0`. -/
def window3 (w : St) (i : Nat) : Option (St × Bool) :=
  match tryAll w i with
  | none => none
  | some (w1, best, size) =>
    match swaps (backTo i best) w1 with
    | none => none
    | some w2 =>
      let w3 := if best = 0 ∨ best = 3 then fixCofactors w2 (w2.st.ord.indexToId i) else w2
      (fixAndFree w3 i 3).map fun w4 => (w4, decide (0 < best ∧ size < w.st.numNodes))

/-! ## Packing several ids -/

/-- The nodes of one id are copied (calHashTable.c:741-800). The children are redirected before
(calHashTable.c:779-788); that is done for all nodes of the id first here, which makes no difference since
they have other ids. -/
def packId (w : St) (id : Nat) : Option St :=
  match copyNodes id (w.st.tab id) { w with st := { w.st with free := upd w.st.free id [] } } with
  | none => none
  | some (w1, bs) => some { w1 with st := { w1.st with tab := upd w1.st.tab id bs } }

/-- The first loop of `CalBddPackNodesForMultipleIds` (calHashTable.c:737-846) for the indices `i + k - 1`, ...,
`i`; `done` is `someRepackingDone`. -/
def packLevels (P : Par) : Nat → Nat → Bool → St → Option St
  | 0, _, _, w => some w
  | k + 1, i, done, w =>
    let id := w.st.ord.indexToId (i + k)
    if P.needs w.st id then
      match packId (fixCofactors w id) id with
      | none => none
      | some w1 => packLevels P k i true w1
    else packLevels P k i done (if done then fixCofactors w id else w)

/-- `CalBddForward` (calInt.h:1331-1340) on an association value with the id `id`, as in
`CalVarAssociationRepackUpdate` (calAssociation.c:377-399): the then pointer of the node, whether it is a
forwarding node or not. -/
def forwardId (w : St) (id : Nat) (e : Edge) : Edge :=
  if e.id = id then
    match w.fwd e.addr with
    | some t => t.phase e.neg
    | none =>
      match w.st.heap e.addr with
      | some n => n.thn.phase e.neg
      | none => e
  else e

/-- `CalVarAssociationRepackUpdate` (calAssociation.c:376-399) on one association. -/
def forwardAssoc (w : St) (id : Nat) (A : Assoc) : Assoc := { A with var := fun v => (A.var v).map (forwardId w id) }

/-- The last loop of `CalBddPackNodesForMultipleIds` (calHashTable.c:864-878), for the indices `i + k - 1`, ..., `i`. -/
def packTail : Nat → Nat → St → St
  | 0, _, w => w
  | k + 1, i, w =>
    let id := w.st.ord.indexToId (i + k)
    packTail k i { w with
      vars := upd w.vars id ((w.vars id).map (follow w))
      assocs := w.assocs.map fun p => { p with a := forwardAssoc w id p.a }
      temp := forwardAssoc w id w.temp }

/-- `CalBddPackNodesForMultipleIds` (calHashTable.c:709-881) for `k` variables from index `i`. The cache is
empty during reordering. The pages with the old nodes are given back; their addresses are not used again in
the model. -/
def packMany (P : Par) (w : St) (i k : Nat) : Option St :=
  match packLevels P k i false w with
  | none => none
  | some w1 =>
    let w2 := fixAbove i w1
    some (packTail k i { w2 with
      users := fun a => (w2.users a).map (follow w2)
      pipe := fun e => follow w2 (w2.pipe e) })

/-! ## The passes -/

/-- The variables of `BddReorderVarWindow` (calReorderBF.c:1121-1125). -/
structure Wn where
  w : St
  /-- `levels` -/
  lv : Nat → Bool
  /-- `anySwapped` -/
  any : Bool
  /-- how often `CalBddPackNodesForMultipleIds` has been called (not in the code) -/
  packs : Nat

/-- The window at index `i` (calReorderBF.c:1141-1153): whether anything has moved. -/
def winAt (P : Par) (s : Wn) (i : Nat) : Option (Wn × Bool) :=
  if i + 2 < s.w.st.ord.numVars then
    match window3 s.w i with
    | none => none
    | some (w, moved) =>
      if P.maxFwd < w.numFwd then
        (packMany P (fixAndReclaim w i 0 (i + 2)) i 3).map fun w' => ({ s with w := w', packs := s.packs + 1 }, moved)
      else some ({ s with w := w }, moved)
  else (window2 s.w i).map fun r => ({ s with w := r.1 }, r.2)

/-- The body of the loop over the indices (calReorderBF.c:1140-1173). -/
def winStep (P : Par) (s : Wn) (i : Nat) : Option Wn :=
  if s.lv i then
    match winAt P s i with
    | none => none
    | some (s1, moved) =>
      if moved then
        let n := s1.w.st.ord.numVars
        some { s1 with lv := fun j => if i ≤ j + 2 ∧ j ≤ i + 4 ∧ j < n then true else s1.lv j, any := true }
      else some { s1 with lv := upd s1.lv i false }
  else some s

/-- `k` rounds of the loop from index `i` (calReorderBF.c:1139-1174). -/
def downPass (P : Par) : Nat → Nat → Wn → Option Wn
  | 0, _, s => some s
  | k + 1, i, s =>
    match winStep P s i with
    | none => none
    | some s1 => downPass P k (i + 1) s1

/-- The clean-up after a pass (calReorderBF.c:1176-1185). -/
def endPass (w : St) : St :=
  let n := w.st.ord.numVars
  { reclaimLoop n 0 (fixOutside (fixAbove n w)) with numFwd := 0 }

/-- The loop of `BddReorderVarWindow` (calReorderBF.c:1135-1253), with at most `fuel` passes. -/
def passes (P : Par) : Nat → Wn → Option Wn
  | 0, _ => none
  | fuel + 1, s =>
    match downPass P (s.w.st.ord.numVars - 1) 0 { s with any := false } with
    | none => none
    | some s1 =>
      let s2 := { s1 with w := endPass s1.w }
      if s2.any then passes P fuel s2 else some s2

/-- `BddReorderVarWindow` (calReorderBF.c:1119-1267). -/
def varWindow (P : Par) (fuel : Nat) (w : St) : Option Wn := passes P fuel ⟨w, fun _ => true, true, 0⟩

end Bfr

end Cal
