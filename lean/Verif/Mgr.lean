import Verif.User
import Verif.DF
import Verif.Multi

/-!
# The BDD manager and its API

`Mgr` is the part of `Cal_BddManager_t` (calInt.h:360-459) that the modelled functions use. Each
function below models one function of `/repo/src`. The outcome `none` is undefined behaviour or a
fatal error (`CalBddFatalMessage` ends the process).
-/

namespace Cal

/-- A registered association (`CalAssociation_t`, calInt.h:322-331) with its `refCount`. -/
structure RAssoc where
  a : Assoc
  refCount : Nat

/-- `Cal_BddManager_t` (calInt.h:344-459). -/
structure Mgr where
  /-- unique tables of the variables, order, `numNodes`, `gcCheck` -/
  st : Store
  /-- `cacheTable` -/
  ca : Cache
  /-- `uniqueTable[0]`: the user nodes -/
  ut : UTab
  /-- `varBdds` -/
  vars : Nat → Option Edge
  /-- `associationList` -/
  assocs : List RAssoc
  /-- `tempAssociation` -/
  temp : Assoc
  /-- `currentAssociation`, by its id; -1 is the temporary association -/
  cur : Int
  /-- `tempOpCode`, an unsigned short -/
  tempOp : Nat
  /-- `gcMode` -/
  gcMode : Int
  /-- `uniqueTableGCLimit` -/
  gcLimit : Nat
  /-- `nodeLimit`; 0 means none -/
  nodeLimit : Nat
  /-- `overflow` -/
  overflow : Bool
  /-- `reorderTechnique`; 0 is `CAL_REORDER_NONE` -/
  technique : Nat
  /-- `reorderMethod`; 0 is breadth-first, 1 depth-first -/
  method : Nat
  /-- `reorderingThreshold` -/
  reorderingThreshold : Int

/-- What the modelled functions use of the parts of the package that are modelled elsewhere, or not
modelled: the floating point test whether to repack after a garbage collection (calUtil.c:240),
variable reordering (`CalBddReorderAuxBF`/`DF`), `CalRepackNodesAfterGC`, and the breadth-first
variants of quantification, used above `CAL_LARGE_BDD` nodes (calQuant.c:117-123). Also the rounding
of doubles. -/
structure Env where
  /-- `numNodes < repackAfterGCThreshold * origNodes` -/
  repackDue : Nat → Nat → Bool
  /-- The list has the results a pipeline holds; the function forwards edges of the old store to the
  new one, as done by `CalBddReorderFixProvisionalNodes`. -/
  reorder : Mgr → List Edge → Option (Mgr × (Edge → Edge))
  repack : Mgr → List Edge → Option (Mgr × (Edge → Edge))
  existsBF : Assoc → Nat → Core → Edge → Option (Core × Edge)
  relProdBF : Assoc → Nat → Core → Edge → Edge → Option (Core × Edge)
  /-- the rounding of the result of a floating point operation -/
  rnd : Rat → Rat

/-- What is assumed of the rounding of doubles (IEEE 754 binary64, to nearest): it is monotone, exact
on numbers with 53 significant bits (and an exponent in range), and off by at most 2⁻⁵³ between 0
and 1. -/
structure Rounding (rnd : Rat → Rat) : Prop where
  mono : ∀ x y, x ≤ y → rnd x ≤ rnd y
  exact : ∀ k n : Nat, k ≤ 2 ^ 53 → n ≤ 1000 → rnd ((k : Rat) / 2 ^ n) = (k : Rat) / 2 ^ n
  lower : ∀ x, 0 ≤ x → x ≤ 1 → x ≤ rnd x + 1 / 2 ^ 53
  upper : ∀ x, 0 ≤ x → x ≤ 1 → rnd x ≤ x + 1 / 2 ^ 53

/-- `CAL_LARGE_BDD` (calInt.h:245) -/
def largeBdd : Nat := 2 ^ 19

/-- `CAL_MIN_GC_LIMIT` (calInt.h:57) -/
def minGCLimit : Nat := 10000

/-- `CAL_GC_CHECK` (calInt.h:88) -/
def gcCheckInit : Int := 100

/-- `CAL_MAX_VAR_ID` (calInt.h:202) -/
def maxVarId : Nat := 65534

namespace Mgr

/-! ## Initialisation -/

/-- `Cal_BddManagerInit` (calBddManager.c:138-282). The hash function of the cache is a parameter
(it depends on pointer values). -/
def init (hash : Ptr → Ptr → Nat → Nat) : Mgr where
  st := { ord := ⟨0, fun _ => 0, fun _ => 0⟩, heap := fun _ => none,
          ref := fun a => if a = 0 then maxRef else 0, tab := fun _ => [], free := fun _ => [],
          next := 1, numNodes := 1, gcCheck := gcCheckInit }
  ca := Cache.init hash
  ut := { heap := fun a => if a = 1 then some one else none,
          ref := fun a => if a = 1 then maxRef else 0, tab := [1], free := [], next := 2 }
  vars := fun _ => none
  assocs := []
  temp := ⟨-1, fun _ => none, -1⟩
  cur := -1
  tempOp := 65535
  gcMode := 1
  gcLimit := minGCLimit
  nodeLimit := 0
  overflow := false
  technique := 0
  method := 1
  reorderingThreshold := 10000

/-! ## Handles -/

/-- `CalBddGetInternalBdd` (calUtil.c:271-287): reads the user node; the null pointer and freed
user nodes hold nothing. -/
def internal (m : Mgr) (h : Handle) : Option Edge := (m.ut.heap h.addr).map (·.phase h.neg)

/-- `CalBddGetExternalBdd` (calUtil.c:291-316): find or make the user node of the positive edge; a
new user node takes a reference to the internal node; the caller gets a reference to the user
node. -/
def external (m : Mgr) (e : Edge) : Mgr × Handle :=
  let (u, a, found) := m.ut.findOrAdd (e.phase e.neg)
  ({ m with ut := u.icr a, st := if found then m.st else m.st.icr e }, ⟨a, e.neg⟩)

/-- `Cal_BddFree` (cal.c:255-260): dereferences its argument. -/
def free (m : Mgr) (h : Handle) : Option Mgr :=
  match m.ut.heap h.addr with
  | none => none
  | some _ => some { m with ut := m.ut.dcr h.addr }

/-- `Cal_BddUnFree` (cal.c:265-271). -/
def unFree (m : Mgr) (h : Handle) : Option Mgr :=
  match m.ut.heap h.addr with
  | none => none
  | some _ => some { m with ut := m.ut.icr h.addr }

/-- `Cal_BddIdentity` (cal.c:129-136). -/
def identity (m : Mgr) (h : Handle) : Option (Mgr × Handle) := (m.unFree h).map (·, h)

/-- `Cal_BddNot` (cal.c:164-171). -/
def not (m : Mgr) (h : Handle) : Option (Mgr × Handle) :=
  (m.unFree h).map (·, ⟨h.addr, !h.neg⟩)

/-- `Cal_BddGetRegular` (cal.c:276-280): takes no reference. -/
def regular (h : Handle) : Handle := ⟨h.addr, false⟩

/-- `Cal_BddOne` (cal.c:140-144): the user node made at initialisation has address 1. -/
def oneH : Handle := ⟨1, false⟩
/-- `Cal_BddZero` (cal.c:148-152) -/
def zeroH : Handle := ⟨1, true⟩

/-- `Cal_BddIsEqual` (cal.c:84-88): pointers are compared. -/
def isEqual (f g : Handle) : Bool := f == g
/-- `Cal_BddIsBddOne` (cal.c:92-96) -/
def isOne (f : Handle) : Bool := f == oneH
/-- `Cal_BddIsBddZero` (cal.c:100-106) -/
def isZero (f : Handle) : Bool := f == zeroH
/-- `Cal_BddIsBddConst` (cal.c:118-125) -/
def isConst (f : Handle) : Bool := f == oneH || f == zeroH
/-- `Cal_BddIsBddNull` (cal.c:110-114) -/
def isNull (f : Handle) : Bool := f == Handle.null

/-! ## Garbage collection and limits -/

/-- `Cal_BddManagerGC` (calGC.c:82-121): user nodes first, then the unique tables by index, then the
cache entries of freed nodes. Statistics are left out. -/
def gc (m : Mgr) : Option Mgr :=
  match m.ut.gc m.st with
  | none => none
  | some (u, s) =>
    match s.gcNodes with
    | none => none
    | some (s', fr) => some { m with ut := u, st := s', ca := m.ca.gcFlush fun a => fr.contains a }

/-- `Cal_BddManagerSetGCLimit` (calGC.c:125-135). -/
def setGCLimit (m : Mgr) : Mgr :=
  let l := 2 * m.st.numNodes
  let l := if l < minGCLimit then minGCLimit else l
  let l := if m.nodeLimit ≠ 0 ∧ l > m.nodeLimit then m.nodeLimit else l
  { m with gcLimit := l }

/-- The middle part of `CalBddPostProcessing` (calUtil.c:222-245): after the garbage collection,
reorder or repack. The comparisons with `reorderingThreshold` are made as unsigned long; it is never
negative (`Cal_BddManagerSetParameters`). `ps` has the results a pipeline holds. -/
def reorderOrRepack (E : Env) (orig : Nat) (m : Mgr) (ps : List Edge) : Option (Mgr × (Edge → Edge)) :=
  if (m.st.numNodes : Int) > m.reorderingThreshold ∧ 3 * m.st.numNodes > 2 * m.gcLimit ∧
      m.technique ≠ 0 then
    E.reorder { m with ca := m.ca.flush } ps
  else if E.repackDue m.st.numNodes orig then E.repack m ps
  else some (m, id)

/-- `CalBddPostProcessing` (calUtil.c:213-256) while a pipeline holds the results `ps`. The Boolean is
`CAL_BDD_OVERFLOWED`; the function forwards edges. -/
def postProcP (E : Env) (m : Mgr) (ps : List Edge) : Option (Mgr × Bool × (Edge → Edge)) :=
  if m.st.gcCheck > 0 then some (m, false, id)
  else
    let m := { m with st := { m.st with gcCheck := gcCheckInit } }
    if m.st.numNodes > m.gcLimit then
      match m.gc with
      | none => none
      | some m1 =>
        match m1.reorderOrRepack E m.st.numNodes ps with
        | none => none
        | some (m2, φ) =>
          let m3 := m2.setGCLimit
          if m3.nodeLimit ≠ 0 ∧ m3.st.numNodes > m3.nodeLimit then
            some ({ m3 with overflow := true }, true, φ)
          else some ({ m3 with ca := m3.ca.rehashCheck m3.st.numNodes }, false, φ)
    else some (m, false, id)

/-- `CalBddPostProcessing` (calUtil.c:214-255) without a pipeline. -/
def postProc (E : Env) (m : Mgr) : Option (Mgr × Bool) :=
  (m.postProcP E []).map fun r => (r.1, r.2.1)

/-- The loop of `CalBddPreProcessing` (calUtil.c:188-203) over the arguments: a null handle makes
the arguments invalid; an internal node with reference count zero is a fatal error. -/
def check (m : Mgr) : List Handle → Option Bool
  | [] => some true
  | h :: hs =>
    if h = Handle.null then (m.check hs).map fun _ => false
    else
      match m.internal h with
      | none => none
      | some e => if m.st.ref e.addr = 0 then none else m.check hs

/-- `CalBddPreProcessing` (calUtil.c:181-209). The result of the post-processing step is ignored. -/
def preProc (E : Env) (m : Mgr) (hs : List Handle) : Option (Mgr × Bool) :=
  match m.check hs with
  | none => none
  | some false => some (m, false)
  | some true =>
    match m.postProc E with
    | none => none
    | some (m', _) => some (m', true)

/-- `CalBddArrayPreProcessing` (calUtil.c:260-267), on an array up to its terminating null. -/
def arrayPreProc (E : Env) (m : Mgr) : List Handle → Option (Mgr × Bool)
  | [] => some (m, true)
  | h :: hs =>
    match m.preProc E [h] with
    | none => none
    | some (m', false) => some (m', false)
    | some (m', true) => m'.arrayPreProc E hs

/-- The last part of most operations (e.g. calBddOp.c:101-107): make the result external, post
processing, and on overflow free the result, collect garbage and return null. -/
def finish (E : Env) (m : Mgr) (r : Edge) : Option (Mgr × Handle) :=
  let (m1, h) := m.external r
  match m1.postProc E with
  | none => none
  | some (m2, false) => some (m2, h)
  | some (m2, true) =>
    match m2.free h with
    | none => none
    | some m3 =>
      match m3.gc with
      | none => none
      | some m4 => some (m4, Handle.null)

/-- `CalBddGetInternalBdd` (calUtil.c:275-289) on each argument -/
def internals (m : Mgr) : List Handle → Option (List Edge)
  | [] => some []
  | h :: hs =>
    match m.internal h, m.internals hs with
    | some e, some es => some (e :: es)
    | _, _ => none

/-- The form shared by the operations: pre-processing, null if an argument is null, internal
arguments, the operation proper, and the last part. -/
def api (E : Env) (m : Mgr) (hs : List Handle) (run : Mgr → List Edge → Option (Mgr × Edge))
    (last : Mgr → Edge → Option (Mgr × Handle)) : Option (Mgr × Handle) :=
  match m.preProc E hs with
  | none => none
  | some (m1, false) => some (m1, Handle.null)
  | some (m1, true) =>
    match m1.internals hs with
    | none => none
    | some es =>
      match run m1 es with
      | none => none
      | some (m2, r) => last m2 r

/-- Run an operation on the store. -/
def onStore (m : Mgr) (out : Option (Store × Edge)) : Option (Mgr × Edge) :=
  match out with
  | none => none
  | some (s, r) => some ({ m with st := s }, r)

/-- Run an operation on store and cache. -/
def onCore (m : Mgr) (out : Option (Core × Edge)) : Option (Mgr × Edge) :=
  match out with
  | none => none
  | some (c, r) => some ({ m with st := c.st, ca := c.ca }, r)

/-- Complement the result of an operation (`CalBddNot(result, result)` (calInt.h:973-977)). -/
def negRes (out : Option (Mgr × Edge)) : Option (Mgr × Edge) := out.map fun p => (p.1, p.2.not)

/-! ## Binary operations and ITE -/

/-- the binary operation of `CalBddOpBF` (calBddOp.c:587-667) on the two arguments of an API function -/
def run2 (op : Edge → Edge → Option Edge) (m : Mgr) : List Edge → Option (Mgr × Edge)
  | [f, g] => m.onStore (opBF op m.st f g)
  | _ => none

/-- `Cal_BddAnd` (calBddOp.c:83-108) -/
def and (E : Env) (m : Mgr) (f g : Handle) : Option (Mgr × Handle) :=
  m.api E [f, g] (run2 opAnd) (finish E)

/-- `Cal_BddNand` (calBddOp.c:112-137) -/
def nand (E : Env) (m : Mgr) (f g : Handle) : Option (Mgr × Handle) :=
  m.api E [f, g] (run2 opNand) (finish E)

/-- `Cal_BddOr` (calBddOp.c:141-164) -/
def or (E : Env) (m : Mgr) (f g : Handle) : Option (Mgr × Handle) :=
  m.api E [f, g] (run2 opOr) (finish E)

/-- `Cal_BddNor` (calBddOp.c:168-191) -/
def nor (E : Env) (m : Mgr) (f g : Handle) : Option (Mgr × Handle) :=
  m.api E [f, g] (fun m es => negRes (run2 opOr m es)) (finish E)

/-- `Cal_BddXor` (calBddOp.c:195-217) -/
def xor (E : Env) (m : Mgr) (f g : Handle) : Option (Mgr × Handle) :=
  m.api E [f, g] (run2 opXor) (finish E)

/-- `Cal_BddXnor` (calBddOp.c:221-243) -/
def xnor (E : Env) (m : Mgr) (f g : Handle) : Option (Mgr × Handle) :=
  m.api E [f, g] (fun m es => negRes (run2 opXor m es)) (finish E)

/-- `Cal_BddITE` (calBddITE.c:77-100) -/
def ite (E : Env) (m : Mgr) (f g h : Handle) : Option (Mgr × Handle) :=
  m.api E [f, g, h]
    (fun m es => match es with
      | [f, g, h] => m.onStore (iteBF m.st f g h)
      | _ => none) (finish E)

/-! ## Multiway operations -/

/-- `Cal_BddMultiwayAnd`, `-Or`, `-Xor` (calBddOp.c:344-451) on the array up to its terminating
null. Only pre-processing, one argument at a time. -/
def multiway (E : Env) (op : Edge → Edge → Option Edge) (m : Mgr) (hs : List Handle) :
    Option (Mgr × Handle) :=
  match m.arrayPreProc E hs with
  | none => none
  | some (m1, false) => some (m1, Handle.null)
  | some (m1, true) =>
    match hs with
    | [] => some (m1, Handle.null)
    | [h] => m1.identity h
    | _ =>
      match m1.internals hs with
      | none => none
      | some es =>
        match m1.onStore (multiwayOp op m1.st es) with
        | none => none
        | some (m2, r) => some (m2.external r)

/-! ## Quantification -/

/-- The association with a given id; `none` if there is none. -/
def assoc (m : Mgr) (i : Int) : Option Assoc :=
  if i = -1 then some m.temp else (m.assocs.find? fun p => p.a.id == i).map (·.a)

/-- `tempOpCode--` on an unsigned short (calQuant.c:109, 148-149, 187, calBddVarSubstitute.c:91) -/
def decOp (n : Nat) : Nat := (n + 65535) % 65536

/-- The common part of `Cal_BddExists` and `Cal_BddForAll` (calQuant.c:104-123). -/
def existsRun (E : Env) (m : Mgr) (f : Edge) : Option (Mgr × Edge) :=
  match m.assoc m.cur with
  | none => none
  | some A =>
    let code := if A.id = -1 then m.tempOp else A.opCode Cache.opQUANT
    let m := if A.id = -1 then { m with tempOp := decOp m.tempOp } else m
    if m.st.numNodes ≤ largeBdd then
      m.onCore (existsStep A code (m.st.ord.numVars + 1) ⟨m.st, m.ca⟩ f)
    else m.onCore (E.existsBF A code ⟨m.st, m.ca⟩ f)

/-- `Cal_BddExists` (calQuant.c:98-132) -/
def exists_ (E : Env) (m : Mgr) (f : Handle) : Option (Mgr × Handle) :=
  m.api E [f] (fun m es => match es with
    | [f] => m.existsRun E f
    | _ => none) (finish E)

/-- `Cal_BddForAll` (calQuant.c:174-209) -/
def forAll (E : Env) (m : Mgr) (f : Handle) : Option (Mgr × Handle) :=
  m.api E [f] (fun m es => match es with
    | [f] => negRes (m.existsRun E f.not)
    | _ => none) (finish E)

/-- The middle part of `Cal_BddRelProd` (calQuant.c:143-162). -/
def relProdRun (E : Env) (m : Mgr) (f g : Edge) : Option (Mgr × Edge) :=
  match m.assoc m.cur with
  | none => none
  | some A =>
    let code := if A.id = -1 then m.tempOp else A.opCode Cache.opRELPROD
    let m := if A.id = -1 then { m with tempOp := decOp (decOp m.tempOp) } else m
    if m.st.numNodes ≤ largeBdd then
      m.onCore (relProdStep A code (m.st.ord.numVars + 1) ⟨m.st, m.ca⟩ f g)
    else m.onCore (E.relProdBF A code ⟨m.st, m.ca⟩ f g)

/-- `Cal_BddRelProd` (calQuant.c:137-173) -/
def relProd (E : Env) (m : Mgr) (f g : Handle) : Option (Mgr × Handle) :=
  m.api E [f, g] (fun m es => match es with
    | [f, g] => m.relProdRun E f g
    | _ => none) (finish E)

/-! ## Parts of a BDD -/

/-- the last part of the functions that do no post-processing: `CalBddGetExternalBdd` (calUtil.c:291-316) -/
def extern (m : Mgr) (r : Edge) : Option (Mgr × Handle) := some (m.external r)

/-- `Cal_BddIf` (cal.c:208-220): for a constant argument `varBdds[0]` is read, which is uninitialised. -/
def if_ (E : Env) (m : Mgr) (f : Handle) : Option (Mgr × Handle) :=
  m.api E [f] (fun m es => match es with
    | [f] => (m.vars f.id).map (m, ·)
    | _ => none) extern

/-- `Cal_BddThen` (cal.c:225-236) -/
def then_ (E : Env) (m : Mgr) (f : Handle) : Option (Mgr × Handle) :=
  m.api E [f] (fun m es => match es with
    | [f] => (m.st.kids f).map fun p => (m, p.1)
    | _ => none) extern

/-- `Cal_BddElse` (cal.c:240-251) -/
def else_ (E : Env) (m : Mgr) (f : Handle) : Option (Mgr × Handle) :=
  m.api E [f] (fun m es => match es with
    | [f] => (m.st.kids f).map fun p => (m, p.2)
    | _ => none) extern

/-- `Cal_BddGetIfIndex` (cal.c:175-187); the result -1 is returned as an unsigned short. -/
def getIfIndex (E : Env) (m : Mgr) (f : Handle) : Option (Mgr × Nat) :=
  match m.preProc E [f] with
  | none => none
  | some (m1, false) => some (m1, 65535)
  | some (m1, true) =>
    match m1.internal f with
    | none => none
    | some e => some (m1, if e.isConst then 65535 else m1.st.elvl e)

/-- `Cal_BddGetIfId` (cal.c:192-204) -/
def getIfId (E : Env) (m : Mgr) (f : Handle) : Option (Mgr × Nat) :=
  match m.preProc E [f] with
  | none => none
  | some (m1, false) => some (m1, 65535)
  | some (m1, true) =>
    match m1.internal f with
    | none => none
    | some e => some (m1, if e.isConst then 0 else e.id)

/-- `CAL_BDD_TYPE_*` (cal.h:80-86) -/
inductive BddType
  | nonterminal | zero | one | posvar | negvar | overflow
deriving DecidableEq, Repr

/-- `CalBddTypeAux` (cal.c:616-634) -/
def typeAux (s : Store) (f : Edge) : Option BddType :=
  if f.isConst && f.same Cal.zero then some .zero
  else if f.isConst && f.same Cal.one then some .one
  else
    match s.kids f with
    | none => none
    | some (t, e) =>
      if t.same Cal.one && e.same Cal.zero then some .posvar
      else if t.same Cal.zero && e.same Cal.one then some .negvar
      else some .nonterminal

/-- `Cal_BddType` (cal.c:473-482) -/
def type (E : Env) (m : Mgr) (f : Handle) : Option (Mgr × BddType) :=
  match m.preProc E [f] with
  | none => none
  | some (m1, false) => some (m1, .overflow)
  | some (m1, true) =>
    match m1.internal f with
    | none => none
    | some e => (typeAux m1.st e).map (m1, ·)

/-- `CalBddIsCubeStep` (cal.c:588-611); called with 0 it is a fatal error. -/
def isCubeStep (s : Store) : Nat → Edge → Option Bool
  | 0, _ => none
  | k + 1, f =>
    if f.isConst then if f.same Cal.zero then none else some true
    else
      match s.kids f with
      | none => none
      | some (f1, f0) =>
        if f1.same Cal.zero then isCubeStep s k f0
        else if f0.same Cal.zero then isCubeStep s k f1
        else some false

/-- `Cal_BddIsCube` (cal.c:526-553); its body is the same as that of the step. No pre-processing. -/
def isCube (m : Mgr) (f : Handle) : Option Bool :=
  match m.internal f with
  | none => none
  | some e => isCubeStep m.st (m.st.ord.numVars + 1) e

/-- `BddIntersectsStep` (cal.c:654-710). `CAL_BDD_OUT_OF_ORDER` (calInt.h:979-980) compares pointers. A new node
takes a reference to `temp` only; the count of the constant is saturated. -/
def intersectsStep : Nat → Store → Edge → Edge → Option (Store × Edge)
  | 0, _, _, _ => none
  | k + 1, s, f, g =>
    if f.isConst then
      if f.same Cal.zero then some (s, f) else some (s, g)
    else if g.isConst then
      if g.same Cal.zero then some (s, g) else some (s, f)
    else if f.addr = g.addr then
      if f.neg = g.neg then some (s, f) else some (s, Cal.zero)
    else
      let (f, g) := if f.ptr.key > g.ptr.key then (g, f) else (f, g)
      let top := minId2 s.ord (f, g)
      match s.cofs f top, s.cofs g top with
      | some (f1, f2), some (g1, g2) =>
        match intersectsStep k s f1 g1 with
        | none => none
        | some (s1, t) =>
          if t.same Cal.zero then
            match intersectsStep k s1 f2 g2 with
            | none => none
            | some (s2, t) =>
              if t.same Cal.zero then some (s2, Cal.zero)
              else
                let (s3, r, found) := s2.findOrAdd top Cal.zero t
                some (if found then s3 else s3.icr t, r)
          else
            let (s3, r, found) := s1.findOrAdd top t Cal.zero
            some (if found then s3 else s3.icr t, r)
      | _, _ => none

/-- `Cal_BddIntersects` (cal.c:284-297) -/
def intersects (E : Env) (m : Mgr) (f g : Handle) : Option (Mgr × Handle) :=
  m.api E [f, g] (fun m es => match es with
    | [f, g] => m.onStore (intersectsStep (m.st.ord.numVars + 1) m.st f g)
    | _ => none) extern

/-- `Cal_BddImplies` (cal.c:301-317) -/
def implies (E : Env) (m : Mgr) (f g : Handle) : Option (Mgr × Handle) :=
  m.api E [f, g] (fun m es => match es with
    | [f, g] => m.onStore (intersectsStep (m.st.ord.numVars + 1) m.st f g.not)
    | _ => none) extern

/-! ## Variables -/

end Mgr

/-- The update of `idToIndex` and `indexToId` in `CalBddManagerCreateNewVar`
(calBddManager.c:537-565). -/
def Order.insertVar (o : Order) (index : Nat) : Order where
  numVars := o.numVars + 1
  idToIndex := upd (fun v => if index ≠ o.numVars ∧ 1 ≤ v ∧ v ≤ o.numVars ∧ index ≤ o.idToIndex v
    then o.idToIndex v + 1 else o.idToIndex v) (o.numVars + 1) index
  indexToId := upd (fun k => if index < k ∧ k ≤ o.numVars then o.indexToId (k - 1)
    else o.indexToId k) index (o.numVars + 1)

/-- The update of `lastBddIndex` (calBddManager.c:550-560). -/
def Assoc.insertVar (A : Assoc) (index : Nat) : Assoc :=
  if A.last ≥ index then { A with last := A.last + 1 } else A

/-- A new unique table with the node of the variable, whose count is put to its maximum
(calBddManager.c:567-580). -/
def Store.insertVar (s : Store) (index : Nat) : Store × Edge :=
  let v := s.ord.numVars + 1
  ({ s with ord := s.ord.insertVar index
            heap := upd s.heap s.next (some ⟨v, one, zero⟩)
            ref := upd s.ref s.next maxRef
            tab := upd s.tab v [s.next]
            free := upd s.free v []
            next := s.next + 1
            numNodes := s.numNodes + 1 }, ⟨v, s.next, false⟩)

namespace Mgr

/-- `CalBddManagerCreateNewVar` (calBddManager.c:467-594). The reallocation of the arrays is left
out; the blocks are the subject of `Verif/Block.lean`. -/
def createVar (m : Mgr) (index : Nat) : Option (Mgr × Edge) :=
  if m.st.ord.numVars = maxVarId then none
  else if index > m.st.ord.numVars then none
  else
    let (s, e) := m.st.insertVar index
    some ({ m with
      st := s
      vars := upd m.vars (m.st.ord.numVars + 1) (some e)
      assocs := m.assocs.map fun p => { p with a := p.a.insertVar index }
      temp := m.temp.insertVar index }, e)

/-- `Cal_BddManagerCreateNewVarFirst` (calBddManager.c:368-373) -/
def newVarFirst (m : Mgr) : Option (Mgr × Handle) :=
  (m.createVar 0).map fun p => p.1.external p.2

/-- `Cal_BddManagerCreateNewVarLast` (calBddManager.c:377-384) -/
def newVarLast (m : Mgr) : Option (Mgr × Handle) :=
  (m.createVar m.st.ord.numVars).map fun p => p.1.external p.2

/-- `Cal_BddManagerCreateNewVarBefore` (calBddManager.c:390-404) -/
def newVarBefore (m : Mgr) (h : Handle) : Option (Mgr × Handle) :=
  match m.internal h with
  | none => none
  | some e =>
    if e.isConst then m.newVarLast else (m.createVar (m.st.elvl e)).map fun p => p.1.external p.2

/-- `Cal_BddManagerCreateNewVarAfter` (calBddManager.c:408-421) -/
def newVarAfter (m : Mgr) (h : Handle) : Option (Mgr × Handle) :=
  match m.internal h with
  | none => none
  | some e =>
    if e.isConst then m.newVarLast
    else (m.createVar (m.st.elvl e + 1)).map fun p => p.1.external p.2

/-- `Cal_BddManagerGetVarWithIndex` (calBddManager.c:426-435) -/
def varWithIndex (m : Mgr) (i : Nat) : Option (Mgr × Handle) :=
  if i ≥ m.st.ord.numVars then some (m, Handle.null)
  else (m.vars (m.st.ord.indexToId i)).map fun e => m.external e

/-- `Cal_BddManagerGetVarWithId` (calBddManager.c:439-447) -/
def varWithId (m : Mgr) (i : Nat) : Option (Mgr × Handle) :=
  if i = 0 ∨ i > m.st.ord.numVars then some (m, Handle.null)
  else (m.vars i).map fun e => m.external e

/-! ## Associations -/

/-- The loop of `CheckAssoc` over pairs (calAssociation.c:481-492), after
`CalBddArrayPreProcessing`: the first element of each complete pair must be a positive variable. -/
def checkPairs (m : Mgr) : List Handle → Option Bool
  | h :: _ :: hs =>
    match m.internal h with
    | none => none
    | some e =>
      match typeAux m.st e with
      | none => none
      | some t => if t = .posvar then m.checkPairs hs else some false
  | _ => some true

/-- `CheckAssoc` (calAssociation.c:473-489); the result of the array pre-processing is ignored. -/
def checkAssoc (E : Env) (m : Mgr) (info : List Handle) (pairs : Bool) : Option (Mgr × Bool) :=
  match m.arrayPreProc E info with
  | none => none
  | some (m1, _) =>
    if pairs then (m1.checkPairs info).map (m1, ·) else some (m1, true)

/-- The associated pairs: of (variable, value) for `pairs`, otherwise each entry with the constant
one (calAssociation.c:104-132). -/
def assocPairs : Bool → List Edge → List (Edge × Edge)
  | true, e :: v :: es => (e, v) :: assocPairs true es
  | false, e :: es => (e, one) :: assocPairs false es
  | _, _ => []

/-- `varAssociation` of a new association (calAssociation.c:116-132). -/
def assocMap (ps : List (Edge × Edge)) : Nat → Option Edge :=
  ps.foldl (fun f p => upd f p.1.id (some p.2)) fun _ => none

/-- the maximum of `lastBddIndex` and the indices of the variables (calAssociation.c:152-172) -/
def lastIndex (s : Store) (last : Int) (ps : List (Edge × Edge)) : Int :=
  ps.foldl (fun l p => if (s.elvl p.1 : Int) > l then s.elvl p.1 else l) last

/-- `AssociationIsEqual` (calAssociation.c:457-469): entries above `numVars` are null, so comparing
up to `numVars` is comparing up to `maxNumVars`. -/
def assocEq (n : Nat) (p q : Nat → Option Edge) : Bool :=
  (List.range n).all fun i => p (i + 1) == q (i + 1)

/-- First unused id in the list sorted by id (calAssociation.c:142-144). -/
def freeId : List RAssoc → Nat → Nat
  | [], i => i
  | p :: ps, i => if p.a.id = i then freeId ps (i + 1) else i

/-- Insertion at the place found (calAssociation.c:142-151). -/
def insertAssoc (new : RAssoc) : List RAssoc → Nat → List RAssoc
  | [], _ => [new]
  | p :: ps, i => if p.a.id = i then p :: insertAssoc new ps (i + 1) else new :: p :: ps

/-- `CalBddIcrRefCount` (calInt.h:781-806) on each value -/
def icrAll (s : Store) (ps : List (Edge × Edge)) : Store := ps.foldl (fun s p => s.icr p.2) s

/-- Increment the `refCount` of the first association that is equal to `f` (calAssociation.c:138). -/
def bumpAssoc (n : Nat) (f : Nat → Option Edge) : List RAssoc → Option (List RAssoc × Int)
  | [] => none
  | p :: ps =>
    if assocEq n p.a.var f then some ({ p with refCount := p.refCount + 1 } :: ps, p.a.id)
    else (bumpAssoc n f ps).map fun q => (p :: q.1, q.2)

/-- `Cal_AssociationInit` (calAssociation.c:85-183). -/
def associationInit (E : Env) (m : Mgr) (info : List Handle) (pairs : Bool) : Option (Mgr × Int) :=
  match m.checkAssoc E info pairs with
  | none => none
  | some (m1, false) => some (m1, -1)
  | some (m1, true) =>
    match m1.internals info with
    | none => none
    | some es =>
      let ps := assocPairs pairs es
      let f := assocMap ps
      match bumpAssoc m1.st.ord.numVars f m1.assocs with
      | some (as, i) => some ({ m1 with assocs := as }, i)
      | none =>
        let i := freeId m1.assocs 0
        let new : RAssoc := ⟨⟨i, f, lastIndex m1.st (-1) ps⟩, 1⟩
        some ({ m1 with
          assocs := insertAssoc new m1.assocs 0
          st := if pairs then icrAll m1.st ps else m1.st }, i)

/-- `CalBddDcrRefCount` (calInt.h:808-838) on the values of the variables 1..numVars -/
def dcrVals (s : Store) (f : Nat → Option Edge) : Store :=
  (List.range s.ord.numVars).foldl (fun s i => match f (i + 1) with
    | some e => s.dcr e
    | none => s) s

/-- Decrement the `refCount` of the association with the given id; unlink it at zero
(calAssociation.c:203-223). Returns the association if it was unlinked. -/
def dropAssoc (i : Int) : List RAssoc → Option (List RAssoc × Option Assoc)
  | [] => none
  | p :: ps =>
    if p.a.id = i then
      if p.refCount - 1 = 0 then some (ps, some p.a)
      else some ({ p with refCount := p.refCount - 1 } :: ps, none)
    else (dropAssoc i ps).map fun q => (p :: q.1, q.2)

/-- `Cal_AssociationQuit` (calAssociation.c:188-219). -/
def associationQuit (m : Mgr) (i : Int) : Mgr :=
  let m := if m.cur = i then { m with cur := -1 } else m
  match dropAssoc i m.assocs with
  | none => m
  | some (as, none) => { m with assocs := as }
  | some (as, some A) =>
    { m with assocs := as, st := dcrVals m.st A.var, ca := m.ca.flushAssoc i.toNat }

/-- `Cal_AssociationSetCurrent` (calAssociation.c:223-242); returns the id of the old one. -/
def associationSetCurrent (m : Mgr) (i : Int) : Mgr × Int :=
  if i ≠ -1 ∧ (m.assocs.find? fun p => p.a.id == i).isSome then ({ m with cur := i }, m.cur)
  else ({ m with cur := -1 }, m.cur)

/-- One entry of `Cal_TempAssociationAugment` (calAssociation.c:274-302): the old value of the
variable loses its reference, the new one (for pairs) gets one. -/
def augmentOne (pairs : Bool) (st : Store × Assoc) (p : Edge × Edge) : Store × Assoc :=
  let s := st.1
  let A := st.2
  let last := if (s.elvl p.1 : Int) > A.last then (s.elvl p.1 : Int) else A.last
  let s := match A.var p.1.id with
    | some e => s.dcr e
    | none => s
  (if pairs then s.icr p.2 else s, { A with var := upd A.var p.1.id (some p.2), last := last })

/-- `Cal_TempAssociationAugment` (calAssociation.c:247-306). -/
def tempAugment (E : Env) (m : Mgr) (info : List Handle) (pairs : Bool) : Option Mgr :=
  match m.checkAssoc E info pairs with
  | none => none
  | some (m1, false) => some m1
  | some (m1, true) =>
    match m1.internals info with
    | none => none
    | some es =>
      let r := (assocPairs pairs es).foldl (augmentOne pairs) (m1.st, m1.temp)
      some { m1 with st := r.1, temp := r.2 }

/-- `Cal_TempAssociationQuit` (calAssociation.c:334-349). -/
def tempQuit (m : Mgr) : Mgr :=
  { m with
    st := dcrVals m.st m.temp.var
    temp := { m.temp with
      var := fun v => if 1 ≤ v ∧ v ≤ m.st.ord.numVars then none else m.temp.var v
      last := -1 } }

/-- `Cal_TempAssociationInit` (calAssociation.c:312-330): the same clean-up, then augment. -/
def tempInit (E : Env) (m : Mgr) (info : List Handle) (pairs : Bool) : Option Mgr :=
  m.tempQuit.tempAugment E info pairs

/-! ## Parameters -/

/-- `Cal_BddSetGCMode` (calGC.c:71-77) -/
def setGCMode (m : Mgr) (g : Int) : Mgr := { m with gcMode := g }

/-- `CalBddManagerGCCheck` (calGC.c:143-153) -/
def gcCheck (m : Mgr) : Option Mgr :=
  if m.gcMode = 0 then some m
  else if m.st.gcCheck > 0 then some m
  else
    let m := { m with st := { m.st with gcCheck := gcCheckInit } }
    if m.st.numNodes > m.gcLimit then m.gc.map setGCLimit else some m

/-- `Cal_BddNodeLimit` (cal.c:494-510): returns the old limit. -/
def setNodeLimit (m : Mgr) (n : Int) : Mgr × Nat :=
  let l := n.toNat
  ({ m with nodeLimit := l, gcLimit := if l ≠ 0 ∧ m.gcLimit > l then l else m.gcLimit },
    m.nodeLimit)

/-- `Cal_BddOverflow` (cal.c:514-521): reads and clears the flag. -/
def getOverflow (m : Mgr) : Mgr × Bool := ({ m with overflow := false }, m.overflow)

/-- `Cal_BddVars` (cal.c:486-490) -/
def numVars (m : Mgr) : Nat := m.st.ord.numVars

/-- `Cal_BddManagerGetNumNodes` (calBddManager.c:361-365), `Cal_BddTotalSize` (cal.c:321-325) -/
def totalSize (m : Mgr) : Nat := m.st.numNodes

/-- `Cal_BddDynamicReordering` (cal.c:445-450) -/
def dynamicReordering (m : Mgr) (technique method : Nat) : Mgr :=
  { m with technique := technique, method := method }

/-- `Cal_BddReorder` (cal.c:454-468) -/
def reorder (E : Env) (m : Mgr) : Option Mgr :=
  if m.technique = 0 then some m
  else
    let m := { m with ca := m.ca.flush }
    if m.method = 1 then (E.reorder m []).map (·.1)
    else if m.method = 0 then
      match m.gc with
      | none => none
      | some m1 => (E.reorder m1 []).map (·.1)
    else some m

end Mgr

end Cal
