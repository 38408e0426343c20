import Verif.ApiMisc

/-!
# Pipelines

The functions of calPipeline.c. A pipeline is created by `Cal_PipelineInit`, filled with provisional
BDDs by `Cal_PipelineCreateProvisionalBdd` (whose operands are BDDs or provisional BDDs created
before), executed by `Cal_PipelineExecute`, read out by `Cal_PipelineUpdateProvisionalBdd` and ended by
`Cal_PipelineQuit`.
-/

namespace Cal

/-- The operation of a pipeline (`Cal_BddOp_t`, cal.h): `CAL_AND`, `CAL_OR`, `CAL_XOR`; the codes that
`Cal_PipelineInit` (calPipeline.c:109-135) does not know are `other`. -/
inductive PipeOp
  | and | or | xor | other
deriving DecidableEq

/-- `CalPipeState_t` (calInt.h:141) -/
inductive PipeState
  | ready | create | update
deriving DecidableEq

/-- A handle given as operand: of a BDD, or of the `j`-th provisional BDD of the pipeline (in the order
of creation), possibly complemented by `Cal_BddNot` (cal.c:164-171). In C both are a `Cal_Bdd`; the user nodes of
provisional BDDs hold a request node instead of a BDD. -/
inductive POperand
  | bdd (h : Handle)
  | prov (j : Nat) (neg : Bool)
deriving DecidableEq

/-- An operand in a request node: a BDD, or the `j`-th request node, possibly complemented. In C both
are a `Cal_Bdd_t` (calInt.h:269-272); request nodes are told apart by their mark. -/
inductive PArg
  | bdd (e : Edge)
  | prov (j : Nat) (neg : Bool)

/-- A request node made by `Cal_PipelineCreateProvisionalBdd` (calPipeline.c:139-199): its operands and its depth. -/
structure PReq where
  f : PArg
  g : PArg
  depth : Nat

/-- The fields of the manager that only pipelines use. -/
structure Pipe where
  /-- `pipelineState` -/
  state : PipeState
  /-- `pipelineFn` -/
  op : PipeOp
  /-- the request nodes, in the order of creation -/
  reqs : List PReq
  /-- `requestNodeListArray`: the request nodes of each depth, by number -/
  lists : Nat → List Nat
  /-- results: what the request nodes forward to after their execution -/
  res : Nat → Option Edge
  /-- `depth`: how many depths are executed together; 0 leaves the choice to the code -/
  depth : Nat
  /-- `pipelineDepth` -/
  pdepth : Nat

/-- `MAX_INSERT_DEPTH` (calInt.h:210), the length of `requestNodeListArray` -/
def maxInsertDepth : Nat := 256

/-- the terminal-case function of `pipelineFn`; nothing known for other operations -/
def PipeOp.op : PipeOp → Option (Edge → Edge → Option Edge)
  | .and => some opAnd
  | .or => some opOr
  | .xor => some opXor
  | .other => none

/-- `CalBddForward` on an operand (calPipeline.c:376-386) -/
def PArg.forward (φ : Edge → Edge) : PArg → PArg
  | .bdd e => .bdd (φ e)
  | .prov j neg => .prov j neg

namespace Pipe

/-- The pipeline of a new manager (calBddManager.c:203-221): `depth` 4, `pipelineDepth` 1. -/
def init : Pipe := ⟨.ready, .other, [], fun _ => [], fun _ => none, 4, 1⟩

/-- `Cal_PipelineSetDepth` (calPipeline.c:80-105). The request tables that are allocated for depths not
used before are not modelled. A negative depth is not allowed. -/
def setDepth (p : Pipe) (d : Nat) : Pipe := { p with depth := if d > 6 then 6 else d }

/-- `Cal_PipelineInit` (calPipeline.c:109-136). With an operation it does not know it returns 0, but the
pipeline is created all the same. The Boolean is the return value. What the post-processing does to the
operands of a pipeline that has been initialised already is not modelled. -/
def start (E : Env) (m : Mgr) (p : Pipe) (op : PipeOp) : Option (Mgr × Pipe × Bool) :=
  match m.postProc E with
  | none => none
  | some (m', _) =>
    if p.state ≠ .ready then some (m', p, false)
    else if op = .other then some (m', { p with state := .create }, false)
    else some (m', { p with state := .create, op := op }, true)

/-- `CalBddGetInternalBdd` on an operand (calUtil.c:271-287). -/
def arg (m : Mgr) (p : Pipe) : POperand → Option PArg
  | .bdd h => (m.internal h).map .bdd
  | .prov j neg => if j < p.reqs.length then some (.prov j neg) else none

/-- The depth that an operand asks for: one more than the depth of a provisional BDD
(calPipeline.c:159-170). -/
def argDepth (p : Pipe) : PArg → Nat
  | .bdd _ => 0
  | .prov j _ =>
    match p.reqs[j]? with
    | none => 0
    | some r => r.depth + 1

/-- `Cal_PipelineCreateProvisionalBdd` (calPipeline.c:140-201). The result is the number of the
provisional BDD, or `none` for the null handle. `pipelineDepth` is changed before the depth is checked.
The allocation of the request node and of the user node is not modelled. -/
def create (m : Mgr) (p : Pipe) (x y : POperand) : Option (Pipe × Option Nat) :=
  match p.arg m x, p.arg m y with
  | some f, some g =>
    if p.state ≠ .create then some (p, none)
    else
      let d := max (p.argDepth f) (p.argDepth g)
      let pd := if p.pdepth ≤ d then d + 1 else p.pdepth
      if maxInsertDepth ≤ d then some ({ p with pdepth := pd }, none)
      else some ({ p with
        reqs := p.reqs ++ [⟨f, g, d⟩]
        lists := upd p.lists d (p.reqs.length :: p.lists d)
        pdepth := pd }, some p.reqs.length)
  | _, _ => none

/-- The depth chosen by the code from the number of nodes (calPipeline.c:224-228). -/
def autoDepth (n : Nat) : Nat := if n < 10000 then 4 else if n < 100000 then 2 else 1

/-- An operand as the engine sees it while the lists from depth `base` on are executed
(`CalRequestIsForwardedTo`, calBddOp.c:486-487): a request node that has been executed is replaced by
its result. -/
def toArg (p : Pipe) (base : Nat) : PArg → Option Arg
  | .bdd e => some (.bdd e)
  | .prov j neg =>
    match p.res j with
    | some e => some (.bdd (e.phase neg))
    | none =>
      match p.reqs[j]? with
      | none => none
      | some r => some (.node (r.depth - base) ((p.lists r.depth).idxOf j) neg)

/-- the requests of one list -/
def row (p : Pipe) (base : Nat) : List Nat → Option (List (Arg × Arg))
  | [] => some []
  | j :: js =>
    match p.reqs[j]? with
    | none => none
    | some r =>
      match p.toArg base r.f, p.toArg base r.g, p.row base js with
      | some x, some y, some l => some ((x, y) :: l)
      | _, _, _ => none

/-- the requests of the lists at the given depths -/
def rows (p : Pipe) (base : Nat) : List Nat → Option (List (List (Arg × Arg)))
  | [] => some []
  | d :: ds =>
    match p.row base (p.lists d), p.rows base ds with
    | some l, some ls => some (l :: ls)
    | _, _ => none

/-- results are stored in the request nodes of one list (calBddOp.c:565-581) ... -/
def setRow (res : Nat → Option Edge) : List Nat → List Edge → Nat → Option Edge
  | j :: js, e :: es => setRow (upd res j (some e)) js es
  | _, _ => res

/-- ... and of several lists -/
def setRows (lists : Nat → List Nat) : (Nat → Option Edge) → List Nat → List (List Edge) →
    Nat → Option Edge
  | res, d :: ds, r :: rs => setRows lists (setRow res (lists d) r) ds rs
  | res, _, _ => res

/-- The results of the request nodes at depths below `n`, in the order in which the loops visit them. -/
def held (p : Pipe) (n : Nat) : List Edge :=
  (List.range n).flatMap fun d => (p.lists d).filterMap p.res

/-- `CalBddReorderFixProvisionalNodes` (calPipeline.c:323-366): nodes have moved; results and operands
follow them. An operand that is a request node which has been executed is replaced by its result there;
here `toArg` does that. -/
def forward (φ : Edge → Edge) (p : Pipe) : Pipe :=
  { p with
    reqs := p.reqs.map fun r => { r with f := r.f.forward φ, g := r.g.forward φ }
    res := fun j => (p.res j).map φ }

/-- `CalBddIcrRefCount` (calInt.h:781-806) for a list of results -/
def icrs (s : Store) : List Edge → Store
  | [] => s
  | e :: es => icrs (s.icr e) es

/-- `CalBddDcrRefCount` (calInt.h:808-838) for a list of results -/
def dcrs (s : Store) : List Edge → Store
  | [] => s
  | e :: es => dcrs (s.dcr e) es

/-- The loop of `Cal_PipelineExecute` (calPipeline.c:223-256): execute some lists, lock their results,
post-processing. `base` is the first depth not executed; the loop runs at most `fuel` times, which the
number of lists bounds. The Boolean is false when the node limit is exceeded: the code then gives up
(and keeps the results locked). -/
def loop (E : Env) (auto : Bool) (op : Edge → Edge → Option Edge) : Nat → Nat → Mgr → Pipe →
    Option (Mgr × Pipe × Bool)
  | 0, base, m, p => if base = p.pdepth then some (m, p, true) else none
  | fuel + 1, base, m, p =>
    if base = p.pdepth then some (m, p, true)
    else
      let rem := p.pdepth - base
      let d := if auto then autoDepth m.st.numNodes else p.depth
      let d := if d > rem then rem else d
      let ds := List.range' base d
      match p.rows base ds with
      | none => none
      | some ls =>
        match listArrayOp op m.st ls with
        | none => none
        | some (s, rs) =>
          let p := { p with depth := d, res := setRows p.lists p.res ds rs }
          let m := { m with st := icrs s (ds.flatMap fun i => (p.lists i).filterMap p.res) }
          match m.postProcP E (p.held (base + d)) with
          | none => none
          | some (m', true, φ) => some (m', p.forward φ, false)
          | some (m', false, φ) => loop E auto op fuel (base + d) m' (p.forward φ)

/-- `Cal_PipelineExecute` (calPipeline.c:203-263). A `pipelineDepth` above the length of
`requestNodeListArray` makes the code read outside it. The Boolean is the return value. -/
def execute (E : Env) (m : Mgr) (p : Pipe) : Option (Mgr × Pipe × Bool) :=
  if p.state ≠ .create then some (m, p, false)
  else if maxInsertDepth < p.pdepth then none
  else
    match p.op.op with
    | none => none
    | some op =>
      match loop E (p.depth == 0) op p.pdepth 0 m p with
      | none => none
      | some (m, p, false) => some (m, p, false)
      | some (m, p, true) =>
        some ({ m with st := dcrs m.st (p.held p.pdepth) }, { p with state := .update }, true)

/-- `Cal_PipelineUpdateProvisionalBdd` (calPipeline.c:267-278). A request that was not executed still has its
first operand where the result should be. -/
def update (m : Mgr) (p : Pipe) (j : Nat) (neg : Bool) : Option (Mgr × Handle) :=
  if p.state ≠ .update then some (m, Handle.null)
  else
    match p.res j with
    | none =>
      match p.reqs[j]? with
      | some ⟨.bdd e, _, _⟩ => some (m.external (e.phase neg))
      | _ => none
    | some e => some (m.external (e.phase neg))

/-- What `Cal_BddCompose` does to the requests of a pipeline (calBddCompose.c:95-110): if the variable is not constant,
the list of depth 0 is overwritten and left empty. -/
def composed (p : Pipe) : Pipe := { p with lists := upd p.lists 0 [] }

/-- `Cal_PipelineQuit` (calPipeline.c:291-316): all request nodes and the user nodes of provisional
BDDs are given back. `none`: the lists above the end of `requestNodeListArray` are read. -/
def quit (p : Pipe) : Option Pipe :=
  if maxInsertDepth < p.pdepth then none
  else some { p with state := .ready, reqs := [], lists := fun _ => [], res := fun _ => none, pdepth := 0 }

/-! ## A whole pipeline -/

/-- create the provisional BDDs one after the other; `false` if one of them is refused -/
def creates (m : Mgr) : Pipe → List (POperand × POperand) → Option (Pipe × Bool)
  | p, [] => some (p, true)
  | p, (x, y) :: cs =>
    match p.create m x y with
    | none => none
    | some (p', none) => some (p', false)
    | some (p', some _) => creates m p' cs

/-- update provisional BDDs one after the other -/
def updates (p : Pipe) : Mgr → List (Nat × Bool) → Option (Mgr × List Handle)
  | m, [] => some (m, [])
  | m, (j, neg) :: us =>
    match p.update m j neg with
    | none => none
    | some (m1, h) =>
      match p.updates m1 us with
      | none => none
      | some (m2, hs) => some (m2, h :: hs)

end Pipe

/-- A pipeline from `Cal_PipelineInit` (calPipeline.c:109-135) to `Cal_PipelineQuit` (calPipeline.c:291-316): the operation, the provisional BDDs created,
and the ones updated after the execution. `p` is what earlier pipelines left. The result has the handles
returned by the updates, or `none` if the initialisation or the execution returned 0 or a creation
returned null (then the user gives up and quits the pipeline). -/
def pipeline (E : Env) (m : Mgr) (p : Pipe) (op : PipeOp) (cs : List (POperand × POperand))
    (us : List (Nat × Bool)) : Option (Mgr × Pipe × Option (List Handle)) :=
  match p.start E m op with
  | none => none
  | some (m, p, false) => p.quit.map fun p => (m, p, none)
  | some (m, p, true) =>
    match p.creates m cs with
    | none => none
    | some (p, false) => p.quit.map fun p => (m, p, none)
    | some (p, true) =>
      match p.execute E m with
      | none => none
      | some (m, p, false) => p.quit.map fun p => (m, p, none)
      | some (m, p, true) =>
        match p.updates m us with
        | none => none
        | some (m, hs) => p.quit.map fun p => (m, p, some hs)

end Cal
