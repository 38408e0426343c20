import Verif.ApiQuery

/-!
# Dumping a BDD to a file and reading it back (`calDump.c`)

A file is the list of its bytes. Writing never fails (the code ignores the result of `fputc`); at the
end of the bytes `fgetc` gives `EOF`, and `fin` says whether that is reported as end of file or as an
I/O error.
-/

namespace Cal.Dump

/-- `MAGIC_COOKIE` (calDump.c:46) -/
def magic : Nat := 0x5e02f795

/-- The last byte of the encodings (calDump.c:49-56); the others are all `0xff`. -/
def cTRUE : Nat := 0
def cFALSE : Nat := 1
def cPOSVAR : Nat := 2
def cNEGVAR : Nat := 3
def cPOSNODE : Nat := 4
def cNEGNODE : Nat := 5
def cLABEL : Nat := 6
def cCONSTANT : Nat := 7

/-- `TRUE_ENCODING` (calDump.c:49) and so on -/
def code (c : Nat) : Nat := 0xffffff00 + c

/-- `indexMask` (calDump.c:71) -/
def indexMask : List Nat := [0xff, 0xffff, 0xffffff]

/-- `BytesNeeded` (calDump.c:510-526) -/
def bytesNeeded (n : Int) : Nat :=
  if n ≤ 0x100 then 1 else if n ≤ 0x10000 then 2 else if n ≤ 0x1000000 then 3 else 4

/-- `Write` (calDump.c:267-281): the low bytes of `n`, the highest first -/
def write (n : Nat) : Nat → List Nat
  | 0 => []
  | k + 1 => n / 256 ^ k % 256 :: write n k

/-! ## Writing -/

/-- `CalBddMarkSharedNodes` (calPrint.c:161-184): a node met once gets mark 1, met twice mark 2, met a
third time mark 1 again. The marks are in the nodes; here they are a function of the address, 0 at
first. -/
def markShared (s : Store) : Nat → (Nat → Nat) → Edge → Option (Nat → Nat)
  | 0, _, _ => none
  | k + 1, M, f =>
    let f : Edge := { f with neg := false }
    if f.isConst then some M
    else
      match Mgr.typeAux s f with
      | none => none
      | some .posvar => some M
      | some _ =>
        if M f.addr = 1 then some (upd M f.addr 2)
        else
          match s.kids f with
          | none => none
          | some (t, e) =>
            match markShared s k (upd M f.addr 1) t with
            | none => none
            | some M => markShared s k M e

/-- `CalHashTableOneLookup` (calHashTableOne.c:172-196). The table as the list of its entries (for the
bins see `HashTable.lean`); keys are compared with their complement bit. -/
def lookup (H : List (Edge × Int)) (f : Edge) : Option Int := (H.find? fun p => p.1.same f).map (·.2)

/-- `CalBddNumberSharedNodes` (calPrint.c:135-157): marks, table, `*next` -/
def numberShared (s : Store) :
    Nat → (Nat → Nat) × List (Edge × Int) × Nat → Edge → Option ((Nat → Nat) × List (Edge × Int) × Nat)
  | 0, _, _ => none
  | k + 1, (M, H, next), f =>
    if f.isConst then some (M, H, next)
    else
      match Mgr.typeAux s f with
      | none => none
      | some .posvar => some (M, H, next)
      | some .negvar => some (M, H, next)
      | some _ =>
        if M f.addr = 0 then some (M, H, next)
        else
          let x := if M f.addr = 2 then ((f, (next : Int)) :: H, next + 1) else (H, next)
          match s.kids f with
          | none => none
          | some (t, e) =>
            match numberShared s k (upd M f.addr 0, x.1, x.2) t with
            | none => none
            | some r => numberShared s k r e

/-- `*number = -*number-1` for the entry of `f` -/
def flip (H : List (Edge × Int)) (f : Edge) : List (Edge × Int) :=
  H.map fun p => if p.1.same f then (p.1, -p.2 - 1) else p

/-- `BddDumpBddStep` (calDump.c:285-361): the bytes written, and the table -/
def dumpStep (s : Store) (norm : Nat → Nat) (isz nsz : Nat) :
    Nat → List (Edge × Int) → Edge → Option (List Nat × List (Edge × Int))
  | 0, _, _ => none
  | k + 1, H, f =>
    match Mgr.typeAux s f with
    | none => none
    | some .zero => some (write (code cFALSE) (isz + 1), H)
    | some .one => some (write (code cTRUE) (isz + 1), H)
    | some .posvar => some (write (code cPOSVAR) (isz + 1) ++ write (norm (s.ord.lvl f.id)) isz, H)
    | some .negvar => some (write (code cNEGVAR) (isz + 1) ++ write (norm (s.ord.lvl f.id)) isz, H)
    | some .overflow => none
    | some .nonterminal =>
      let negated := (lookup H f.not).isSome
      let f := if negated then f.not else f
      let number := lookup H f
      match number.filter (· < 0) with
      | some n =>
        some (write (code (if negated then cNEGNODE else cPOSNODE)) (isz + 1) ++ write (-n - 1).toNat nsz, H)
      | none =>
        let x := if number.isSome then (write (code cLABEL) (isz + 1), flip H f) else ([], H)
        match s.kids f with
        | none => none
        | some (t, e) =>
          match dumpStep s norm isz nsz k x.2 t with
          | none => none
          | some (o1, H1) =>
            match dumpStep s norm isz nsz k H1 e with
            | none => none
            | some (o2, H2) => some (x.1 ++ write (norm (s.ord.lvl f.id)) isz ++ o1 ++ o2, H2)

/-- The end of `Cal_BddDumpBdd` (calDump.c:245-259): the whole file. -/
def dumpFile (s : Store) (norm : Nat → Nat) (numberVars : Nat) (f : Edge) : Option (List Nat) :=
  match markShared s (s.ord.numVars + 1) (fun _ => 0) f with
  | none => none
  | some M =>
    match numberShared s (s.ord.numVars + 1) (M, [], 0) f with
    | none => none
    | some (_, H, next) =>
      let isz := bytesNeeded (numberVars + 1)
      let nsz := bytesNeeded next
      match dumpStep s norm isz nsz (s.ord.numVars + 1) H f with
      | none => none
      | some (out, _) => some (write magic 8 ++ write numberVars 2 ++ write next 8 ++ out)

/-! ## Reading -/

/-- `CAL_BDD_UNDUMP_*` (cal.h) -/
inductive Err
  | format | overflow | ioerror | eof
deriving DecidableEq, Repr

/-- What reading works on: the manager's part `σ`, the bytes left, the table of shared nodes, the number
of shared nodes so far and `*error`. `none` in the table is the null BDD. -/
structure U (σ α : Type) where
  st : σ
  inp : List Nat
  sh : List (Option α)
  so : Nat
  err : Option Err

/-- The operations of the package that reading uses. -/
structure Alg (σ α : Type) where
  one : α
  zero : α
  /-- `vars[i]`; outside the array undefined -/
  var : Nat → Option α
  not : α → α
  /-- `CalBddIdentity` -/
  share : σ → α → σ
  /-- `CalBddFree` -/
  free : σ → α → σ
  /-- `CalBddITE` -/
  ite : σ → α → α → α → Option (σ × α)

/-- The loop of `Read` (calDump.c:378-391): the number of bytes left to read, the value so far (64
bits) -/
def readLoop : Nat → Nat → List Nat → Option Nat × List Nat
  | 0, r, l => (some r, l)
  | _ + 1, _, [] => (none, [])
  | k + 1, r, c :: l => readLoop k ((r * 256 + c) % 2 ^ 64) l

section
variable {σ α : Type}

/-- `Read` (calDump.c:365-393) -/
def read (fin : Err) (bytes : Nat) (u : U σ α) : Nat × U σ α :=
  if u.err.isSome then (0, u)
  else
    match readLoop bytes 0 u.inp with
    | (none, l) => (0, { u with inp := l, err := some fin })
    | (some r, l) => (r, { u with inp := l })

/-- `BddUndumpBddStep` (calDump.c:406-505). A write outside the table of shared nodes is undefined
behaviour (`none`). -/
def undumpStep (A : Alg σ α) (n isz nsz : Nat) (fin : Err) : Nat → U σ α → Option (U σ α × Option α)
  | 0, _ => none
  | k + 1, u =>
    let (i, u) := read fin isz u
    if u.err.isSome then some (u, none)
    else
      let i := i % 65536
      match indexMask[isz - 1]? with
      | none => none
      | some mask =>
        if i = mask then
          let (c, u) := read fin 1 u
          if u.err.isSome then some (u, none)
          else if c = cTRUE then some (u, some A.one)
          else if c = cFALSE then some (u, some A.zero)
          else if c = cCONSTANT then
            let (_, u) := read fin 8 u
            let (_, u) := read fin 8 u
            if u.err.isSome then some (u, none) else some ({ u with err := some .overflow }, none)
          else if c = cPOSVAR ∨ c = cNEGVAR then
            let (i, u) := read fin isz u
            let i := i % 65536
            let u := if u.err.isNone ∧ i ≥ n then { u with err := some .format } else u
            if u.err.isSome then some (u, none)
            else
              match A.var i with
              | none => none
              | some v => some (u, some (if c = cPOSVAR then v else A.not v))
          else if c = cPOSNODE ∨ c = cNEGNODE then
            let (j, u) := read fin nsz u
            let u := if u.err.isNone ∧ (u.sh[j]?).join.isNone then { u with err := some .format } else u
            if u.err.isSome then some (u, none)
            else
              match (u.sh[j]?).join with
              | some v => some ({ u with st := A.share u.st v }, some (if c = cPOSNODE then v else A.not v))
              | none => none
          else if c = cLABEL then
            let j := u.so
            match undumpStep A n isz nsz fin k { u with so := u.so + 1 } with
            | none => none
            | some (u, v) =>
              if j < u.sh.length then
                some ({ u with sh := u.sh.set j v, st := match v with | some e => A.share u.st e | none => u.st }, v)
              else none
          else some ({ u with err := some .format }, none)
        else if i ≥ n then some ({ u with err := some .format }, none)
        else
          match undumpStep A n isz nsz fin k u with
          | none => none
          | some (u, v1) =>
            match undumpStep A n isz nsz fin k u with
            | none => none
            | some (u, v2) =>
              if u.err.isSome then
                some ({ u with st := match v1 with | some e => A.free u.st e | none => u.st }, none)
              else
                match v1, v2, A.var i with
                | some a, some b, some v =>
                  match A.ite u.st v a b with
                  | none => none
                  | some (s, r) => some ({ u with st := A.free (A.free s a) b }, some r)
                | _, _, _ => none

/-- The loop that frees the shared nodes (calDump.c:164-169) -/
def freeAll (A : Alg σ α) : σ → List (Option α) → σ
  | s, [] => s
  | s, none :: l => freeAll A s l
  | s, some e :: l => freeAll A (A.free s e) l

/-- An unsigned value as a `long`. -/
def toLong (n : Nat) : Int := if n < 2 ^ 63 then n else (n : Int) - 2 ^ 64

/-- `Cal_BddUndumpBdd` (calDump.c:121-181) from the first `Read` on, for `n` variables. `mem` is the
largest size `malloc` can give: the table of shared nodes takes 16 bytes for each (a larger table means
writing to null, or outside of what was allocated if the size overflows). -/
def undumpFile (A : Alg σ α) (mem n : Nat) (fin : Err) (s : σ) (inp : List Nat) :
    Option (σ × Option Err × Option α) :=
  let (c, u) := read fin 8 ({ st := s, inp := inp, sh := [], so := 0, err := none } : U σ α)
  if c ≠ magic then some (s, some (u.err.getD .format), none)
  else
    let (nv, u) := read fin 2 u
    match u.err with
    | some x => some (s, some x, none)
    | none =>
      if nv ≠ n then some (s, some .format, none)
      else
        let (ns, u) := read fin 8 u
        match u.err with
        | some x => some (s, some x, none)
        | none =>
          if toLong ns < 0 then some (s, some .format, none)
          else if 16 * ns > mem then none
          else
            match undumpStep A n (bytesNeeded (nv + 1)) (bytesNeeded ns) fin (inp.length + 1)
                { u with sh := List.replicate ns none } with
            | none => none
            | some (u, r) =>
              let s := freeAll A u.st u.sh
              let err := if u.err.isNone ∧ u.so ≠ u.sh.length then some .format else u.err
              match err, r with
              | some x, some e => some (A.free s e, some x, none)
              | some x, none => some (s, some x, none)
              | none, some e => some (A.free s e, none, some e)
              | none, none => none

end

/-- The operations on the store; `vars` is the array of the variables. -/
def storeAlg (vars : List Edge) : Alg Store Edge where
  one := Cal.one
  zero := Cal.zero
  var i := vars[i]?
  not := Edge.not
  share := Store.icr
  free := Store.dcr
  ite s f g h := (iteBF s f g h).map fun p => (p.1.icr p.2, p.2)

end Cal.Dump

namespace Cal.Mgr

open Dump

/-- The loop over `userVars` that asks for positive variables (calDump.c:109-114, 206-211); the array up
to its terminating null. -/
def allPosvars (E : Env) (m : Mgr) : List Handle → Option (Mgr × Bool)
  | [] => some (m, true)
  | v :: vs =>
    match m.type E v with
    | none => none
    | some (m, t) => if t = .posvar then allPosvars E m vs else some (m, false)

/-- The loop that fills `normalizedIndexes` (calDump.c:216-225); `none` if a variable is duplicated -/
def normalize (E : Env) (m : Mgr) (norm : Nat → Nat) (i : Nat) : List Handle → Option (Mgr × Option (Nat → Nat))
  | [] => some (m, some norm)
  | v :: vs =>
    match m.getIfIndex E v with
    | none => none
    | some (m, x) =>
      if x < m.st.ord.numVars then
        if norm x ≠ constIndex then some (m, none) else normalize E m (upd norm x i) (i + 1) vs
      else none

/-- The loop over the support (calDump.c:230-236) -/
def covered (E : Env) (m : Mgr) (norm : Nat → Nat) : List Handle → Option (Mgr × Bool)
  | [] => some (m, true)
  | v :: vs =>
    match m.getIfIndex E v with
    | none => none
    | some (m, x) =>
      if x < m.st.ord.numVars then
        if norm x = constIndex then some (m, false) else covered E m norm vs
      else none

/-- `Cal_BddDumpBdd` (calDump.c:185-262); `none` in the result means that it returned 0 and wrote
nothing. The handles that `Cal_BddSupport` makes are never freed: the list says which these are. -/
def dump (E : Env) (m : Mgr) (f : Handle) (vs : List Handle) : Option (Mgr × List Handle × Option (List Nat)) :=
  match m.preProc E [f] with
  | none => none
  | some (m, false) => some (m, [], none)
  | some (m, true) =>
    match m.allPosvars E vs with
    | none => none
    | some (m, false) => some (m, [], none)
    | some (m, true) =>
      match m.normalize E (fun _ => constIndex) 0 vs with
      | none => none
      | some (m, none) => some (m, [], none)
      | some (m, some norm) =>
        match m.support E f with
        | none => none
        | some (m, sup) =>
          match m.covered E norm sup with
          | none => none
          | some (m, false) => some (m, sup, none)
          | some (m, true) =>
            match m.internal f with
            | none => none
            | some e => (dumpFile m.st norm vs.length e).map fun out => (m, sup, some out)

/-- `Cal_BddUndumpBdd` (calDump.c:92-181): the manager, `*error` and the result. If the array has other
things than positive variables the result is null and `*error` stays 0. -/
def undump (E : Env) (m : Mgr) (mem : Nat) (vs : List Handle) (inp : List Nat) (fin : Err) :
    Option (Mgr × Option Err × Handle) :=
  match m.allPosvars E vs with
  | none => none
  | some (m, false) => some (m, none, Handle.null)
  | some (m, true) =>
    match m.internals vs with
    | none => none
    | some vars =>
      match undumpFile (storeAlg vars) mem vars.length fin m.st inp with
      | none => none
      | some (s, err, none) => some ({ m with st := s }, err, Handle.null)
      | some (s, err, some r) =>
        let (m, h) := { m with st := s }.external r
        some (m, err, h)

end Cal.Mgr
