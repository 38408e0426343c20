import Verif.VarSubst

/-!
# Breadth-first quantification

`BddExistsBFPlusDF` and `BddRelProdBFPlusDF` (calQuant.c:400-1340), which `Cal_BddExists` and
`Cal_BddRelProd` use for large operands. Requests are applied by increasing index and reduced by
decreasing index. A request whose variable is quantified only asks for the result of the then
branch. When it is reduced and that result is not 1, the else branch is asked for, the requests this
makes are run (recursively) and the two results are joined by a third kind of request. All results
go through the computed table, as temporary entries while they are requests.

The existential quantification of `f` is treated as the relational product of `f` and 1. The
quantification has two queues (`reqQue[5]` and, for the disjunctions, `reqQue[4]`), the relational
product three (`reqQue[4]`, `reqQue[3]` for conjunctions and `reqQue[5]` for disjunctions). Here the
main queue is number 0, the one for conjunctions 1 and the one for disjunctions 2; the
quantification makes no requests in queue 1.
-/

namespace Cal
namespace QB

open BF

/-- What a request node holds before it is reduced, other than two sub-requests. -/
inductive QP where
  /-- operands `f` and `g` of a request in the main queue (`g` is 1 for the quantification,
  calQuant.c:579-580) -/
  | main (f g : Edge)
  /-- operands of a request in queue `q` (conjunctions or disjunctions), whose result is the NAND -/
  | nand (q : Nat) (f g : Edge)
  /-- an applied request in the main queue, table `i`, whose variable is quantified: the result `t`
  asked for the then branches, and the else branches `fy`, `gy` (calQuant.c:588-589). The relational
  product keeps the else branches in a node allocated for that purpose (calQuant.c:950-968) and
  freed when the request is reduced (calQuant.c:1067-1071); that node is not modelled. -/
  | quant (i : Nat) (fy gy t : Edge)
deriving DecidableEq

/-- What is fixed during an operation: the association, the op code and whether it is the relational
product (`true`) or the quantification. -/
structure Cfg where
  A : Assoc
  op : Nat
  rel : Bool

/-- The requests in the bins of a table: those not yet reduced. A reduced request is taken out of
the bins and, if it is forwarded, put in the list that starts at `requestNodeList`
(calQuant.c:475-487). -/
def bins (b : BF QP) (d id : Nat) : List Nat :=
  (b.que d id).filter fun a =>
    match b.req a with
    | some ⟨_, _, .fwd _⟩ => false
    | _ => true

/-- `CalHashTableFindOrAdd` on a request table (calHashTable.c:170-205). -/
def ask (b : BF QP) (d id : Nat) (p : QP) : Option (BF QP × Edge) :=
  match b.findReq p (bins b d id) with
  | none => none
  | some (some a) => some (b, ⟨id, a, false⟩)
  | some none => some (b.pushReq d id p, ⟨id, (b.st.alloc id).1, false⟩)

/-- A result or a request for it, with the state after asking for it. `lo` is the index of the table
in which the request was found or put; the number of variables if there was no need to. -/
structure Got where
  b : BF QP
  c : Cache
  e : Edge
  lo : Nat

/-- NAND of two operands from the computed table, otherwise by a request in queue `q`, which is put
in the computed table (calQuant.c:424-432 and the other places). -/
def nandLook (q : Nat) (f g : Edge) (b : BF QP) (c : Cache) : Option Got :=
  match c.lookup f g Cache.opNAND with
  | some r => some ⟨b, c, b.forward r, b.st.ord.numVars⟩
  | none =>
    let id := minId2 b.st.ord (f, g)
    match ask b q id (.nand q f g) with
    | none => none
    | some (b', e) => some ⟨b', c.insert f g e Cache.opNAND true, e, b.st.ord.lvl id⟩

/-- NAND of two operands in `HashTableApply` (calQuant.c:422-433, 436-448). -/
def nandGet (q : Nat) (f g : Edge) (b : BF QP) (c : Cache) : Option Got :=
  let p := normalize (f, g)
  match opNand p.1 p.2 with
  | some r => some ⟨b, c, r, b.st.ord.numVars⟩
  | none => nandLook q p.1 p.2 b c

/-- The quantification of a branch (calQuant.c:574-587, 606-619, 624-638, 735-754). The table of one
operand is that of two operands with the second operand 1 (calInt.h:1477-1479). -/
def exGet (Q : Cfg) (f : Edge) (b : BF QP) (c : Cache) : Option Got :=
  if (b.st.ord.lvl f.id : Int) ≤ Q.A.last then
    match c.lookup f one Q.op with
    | some r => some ⟨b, c, b.forward r, b.st.ord.numVars⟩
    | none =>
      match ask b 0 f.id (.main f one) with
      | none => none
      | some (b', e) => some ⟨b', c.insert f one e Q.op true, e, b.st.ord.lvl f.id⟩
  else some ⟨b, c, f, b.st.ord.numVars⟩

/-- The relational product of two branches (calQuant.c:925-949, 973-1004, 1087-1117). -/
def relGet (Q : Cfg) (f g : Edge) (b : BF QP) (c : Cache) : Option Got :=
  let p := normalize (f, g)
  let id := minId2 b.st.ord p
  if Q.A.last < (b.st.ord.lvl id : Int) then
    match opAnd p.1 p.2 with
    | some r => some ⟨b, c, r, b.st.ord.numVars⟩
    | none => (nandLook 1 p.1 p.2 b c).map fun x => { x with e := x.e.not }
  else
    match opRelProd p.1 p.2 with
    | some r => some ⟨b, c, r, b.st.ord.numVars⟩
    | none =>
      match c.lookup p.1 p.2 Q.op with
      | some r => some ⟨b, c, b.forward r, b.st.ord.numVars⟩
      | none =>
        match ask b 0 id (.main p.1 p.2) with
        | none => none
        | some (b', e) => some ⟨b', c.insert p.1 p.2 e Q.op true, e, b.st.ord.lvl id⟩

/-- The result for two branches. -/
def get (Q : Cfg) (f g : Edge) (b : BF QP) (c : Cache) : Option Got :=
  if Q.rel then relGet Q f g b c else exGet Q f b c

/-- One request in `HashTableApply` (calQuant.c:421-449). -/
def nandApply (q a : Nat) (b : BF QP) (c : Cache) : Option (BF QP × Cache) :=
  match b.req a with
  | some ⟨i, d, .pend (.nand _ f g)⟩ =>
    match cof2 b.st.ord b.st.kids (f, g) with
    | none => none
    | some ((fx, gx), (fy, gy)) =>
      match nandGet q fx gx b c with
      | none => none
      | some ⟨b1, c1, t, _⟩ =>
        match nandGet q fy gy (b1.icr t) c1 with
        | none => none
        | some ⟨b2, c2, e, _⟩ =>
          some ({ b2.icr e with req := upd (b2.icr e).req a (some ⟨i, d, .done t e⟩) }, c2)
  | _ => none

/-- One request in `BddExistsApply` (calQuant.c:569-590, 600-640) and `BddRelProdApply`
(calQuant.c:921-1008). -/
def mainApply (Q : Cfg) (a : Nat) (b : BF QP) (c : Cache) : Option (BF QP × Cache) :=
  match b.req a with
  | some ⟨i, d, .pend (.main f g)⟩ =>
    match cof2 b.st.ord b.st.kids (f, g) with
    | none => none
    | some ((fx, gx), (fy, gy)) =>
      match get Q fx gx b c with
      | none => none
      | some ⟨b1, c1, t, _⟩ =>
        if (Q.A.var i).isSome then
          some ({ b1 with req := upd b1.req a (some ⟨i, d, .pend (.quant i fy gy t)⟩) }, c1)
        else
          match get Q fy gy (b1.icr t) c1 with
          | none => none
          | some ⟨b2, c2, e, _⟩ =>
            some ({ b2.icr e with req := upd (b2.icr e).req a (some ⟨i, d, .done t e⟩) }, c2)
  | _ => none

/-- A loop over the requests of a table. -/
def applyL (step : Nat → BF QP → Cache → Option (BF QP × Cache)) :
    List Nat → BF QP → Cache → Option (BF QP × Cache)
  | [], b, c => some (b, c)
  | a :: as, b, c =>
    match step a b c with
    | none => none
    | some (b', c') => applyL step as b' c'

/-- Apply the tables of index `k` in `BddExistsBFAux` and `BddRelProdBFAux` (calQuant.c:657-666,
1214-1230). -/
def mainLev (Q : Cfg) (k : Nat) (b : BF QP) (c : Cache) : Option (BF QP × Cache) :=
  let id := b.st.ord.indexToId k
  match applyL (nandApply 1) (bins b 1 id) b c with
  | none => none
  | some (b', c') => applyL (mainApply Q) (bins b' 0 id) b' c'

/-- Apply the table of index `k` of the disjunctions (calQuant.c:797-803, 1160-1166). -/
def orLev (k : Nat) (b : BF QP) (c : Cache) : Option (BF QP × Cache) :=
  applyL (nandApply 2) (bins b 2 (b.st.ord.indexToId k)) b c

/-- The tables of indices `k`, ..., `k+n-1` in this order. -/
def upRange (lev : Nat → BF QP → Cache → Option (BF QP × Cache)) :
    Nat → Nat → BF QP → Cache → Option (BF QP × Cache)
  | _, 0, b, c => some (b, c)
  | k, n+1, b, c =>
    match lev k b c with
    | none => none
    | some (b', c') => upRange lev (k+1) n b' c'

/-- The tables of indices `k+n-1`, ..., `k` in this order. -/
def downRange (lev : Nat → BF QP → Cache → Option (BF QP × Cache)) :
    Nat → Nat → BF QP → Cache → Option (BF QP × Cache)
  | _, 0, b, c => some (b, c)
  | k, n+1, b, c =>
    match lev (k+n) b c with
    | none => none
    | some (b', c') => downRange lev k n b' c'

/-- `HashTableReduce` (calQuant.c:454-548) on the table of queue `q` and index `k`; the loop body is
that of `CalHashTableReduce`. -/
def redLev (q k : Nat) (b : BF QP) (c : Cache) : Option (BF QP × Cache) :=
  (BF.reduceList (b.st.ord.indexToId k) (bins b q (b.st.ord.indexToId k)) b).map fun b' => (b', c)

/-- A request whose result is the disjunction of `t` and `e`. -/
abbrev Item := Nat × Edge × Edge

/-- The first loop of `BddExistsReduce` (calQuant.c:713-757) and `BddRelProdReduce`
(calQuant.c:1051-1121). `l` is `requestNodeListAux`, with what is stored in its requests. The
relational product stores the then branch unforwarded and forwards it in the second loop. -/
def firstL (Q : Cfg) : List Nat → BF QP → Cache → List Item → Nat →
    Option (BF QP × Cache × List Item × Nat)
  | [], b, c, l, lo => some (b, c, l, lo)
  | a :: as, b, c, l, lo =>
    match b.req a with
    | some ⟨i, d, .pend (.quant _ fy gy t0)⟩ =>
      let t := b.forward t0
      if t.isOne then
        firstL Q as { b with req := upd b.req a (some ⟨i, d, .fwd t⟩) } c l lo
      else
        match get Q fy gy b c with
        | none => none
        | some ⟨b', c', e, lo'⟩ => firstL Q as b' c' ((a, t, e) :: l) (min lo lo')
    | _ => none

/-- The disjunction of two results (calQuant.c:773-790, 1137-1153). The relational product orders the
operands before it looks for a terminal case. -/
def orGet (Q : Cfg) (t e : Edge) (b : BF QP) (c : Cache) : Option Got :=
  let p := if Q.rel then normalize (t, e) else (t, e)
  match opOr p.1 p.2 with
  | some r => some ⟨b, c, r, b.st.ord.numVars⟩
  | none => nandLook 2 (normalize p).1.not (normalize p).2.not b c

/-- The second loop (calQuant.c:764-792, 1128-1156). -/
def orL (Q : Cfg) : List Item → BF QP → Cache → Option (BF QP × Cache × List (Nat × Edge) × Nat)
  | [], b, c => some (b, c, [], b.st.ord.numVars)
  | (a, t, e) :: l, b, c =>
    match orGet Q t (b.forward e) b c with
    | none => none
    | some ⟨b', c', r, lo⟩ =>
      match orL Q l b' c' with
      | none => none
      | some (b'', c'', l', lo') => some (b'', c'', (a, r) :: l', min lo lo')

/-- The last loop (calQuant.c:814-829, 1177-1192). -/
def finish : List (Nat × Edge) → BF QP → Option (BF QP)
  | [], b => some b
  | (a, r) :: l, b =>
    match b.req a with
    | some ⟨i, d, .pend (.quant _ _ _ _)⟩ =>
      finish l { b with
        st := b.st.addRef (b.forward r) (b.st.ref a)
        req := upd b.req a (some ⟨i, d, .fwd (b.forward r)⟩) }
    | _ => none

/-- `BddExistsReduce` (calQuant.c:687-833) and `BddRelProdReduce` (calQuant.c:1014-1196) on the table
of index `k`; `aux` is the recursive call. -/
def quantReduce (Q : Cfg) (aux : Nat → BF QP → Cache → Option (BF QP × Cache)) (k : Nat) (b : BF QP)
    (c : Cache) : Option (BF QP × Cache) :=
  let n := b.st.ord.numVars
  match firstL Q (bins b 0 (b.st.ord.indexToId k)) b c [] n with
  | none => none
  | some (b1, c1, l, lo) =>
    if l = [] then some (b1, c1)
    else
      match aux lo b1 c1 with
      | none => none
      | some (b2, c2) =>
        match orL Q l b2 c2 with
        | none => none
        | some (b3, c3, l', lo') =>
          match upRange orLev lo' (n - lo') b3 c3 with
          | none => none
          | some (b4, c4) =>
            match downRange (redLev 2) lo' (n - lo') b4 c4 with
            | none => none
            | some (b5, c5) => (finish l' b5).map fun b6 => (b6, c5)

/-- Reduce the tables of index `k` (calQuant.c:669-682, 1233-1255). -/
def mainRed (Q : Cfg) (aux : Nat → BF QP → Cache → Option (BF QP × Cache)) (k : Nat) (b : BF QP)
    (c : Cache) : Option (BF QP × Cache) :=
  match redLev 1 k b c with
  | none => none
  | some (b', c') =>
    if (Q.A.var (b'.st.ord.indexToId k)).isSome then quantReduce Q aux k b' c'
    else redLev 0 k b' c'

/-- `BddExistsBFAux` (calQuant.c:644-683) and `BddRelProdBFAux` (calQuant.c:1198-1256) from index
`lo`. The first argument bounds the depth of the recursion; `none` if it is exceeded. -/
def aux (Q : Cfg) : Nat → Nat → BF QP → Cache → Option (BF QP × Cache)
  | 0, _, _, _ => none
  | n+1, lo, b, c =>
    match upRange (mainLev Q) lo (b.st.ord.numVars - lo) b c with
    | none => none
    | some (b', c') => downRange (mainRed Q (aux Q n)) lo (b.st.ord.numVars - lo) b' c'

/-- `BddExistsBFPlusDF` (calQuant.c:838-897). The tables are resized before; the sizes of tables are
not modelled. -/
def existsBF (A : Assoc) (code : Nat) (c : Core) (f : Edge) : Option (Core × Edge) :=
  let s := c.st
  let k := s.ord.lvl f.id
  if A.last < (k : Int) then some (c, f)
  else
    match c.ca.lookup f one code with
    | some r => some (c, r)
    | none =>
      match ask (BF.init s) 0 f.id (.main f one) with
      | none => none
      | some (b, e) =>
        match aux ⟨A, code, false⟩ (s.ord.numVars + 1) k b c.ca with
        | none => none
        | some (b1, c1) =>
          some (⟨(cleanUpTabs [0, 2] (allIds s.ord) b1).st,
            (c1.fixResults b1.forward).insert f one (b1.forward e) code false⟩, b1.forward e)

/-- The first request of `BddRelProdBFPlusDF` (calQuant.c:1300-1317). -/
def relStart (A : Assoc) (f g : Edge) (b : BF QP) (c : Cache) : Option Got :=
  let id := minId2 b.st.ord (f, g)
  if A.last < (b.st.ord.lvl id : Int) then
    match opAnd f g with
    | some r => some ⟨b, c, r, b.st.ord.numVars⟩
    | none =>
      match c.lookup f g Cache.opNAND with
      | none => (ask b 1 id (.nand 1 f g)).map fun x => ⟨x.1, c, x.2.not, b.st.ord.lvl id⟩
      | some r => some ⟨b, c.insert f g r Cache.opNAND true, r.not, b.st.ord.numVars⟩
  else (ask b 0 id (.main f g)).map fun x => ⟨x.1, c, x.2, b.st.ord.lvl id⟩

/-- `BddRelProdBFPlusDF` (calQuant.c:1257-1325). -/
def relProdBF (A : Assoc) (code : Nat) (c : Core) (f0 g0 : Edge) : Option (Core × Edge) :=
  match opRelProd f0 g0 with
  | some r => some (c, r)
  | none =>
    let f := (normalize (f0, g0)).1
    let g := (normalize (f0, g0)).2
    match c.ca.lookup f g code with
    | some r => some (c, r)
    | none =>
      let s := c.st
      let k := s.ord.lvl (minId2 s.ord (f, g))
      match relStart A f g (BF.init s) c.ca with
      | none => none
      | some ⟨b, c0, e, _⟩ =>
        match aux ⟨A, code, true⟩ (s.ord.numVars + 1) k b c0 with
        | none => none
        | some (b1, c1) =>
          some (⟨(cleanUpTabs [0, 1, 2] (allIds s.ord) b1).st,
            (c1.fixResults b1.forward).insert f g (b1.forward e) code false⟩, b1.forward e)

end QB
end Cal
