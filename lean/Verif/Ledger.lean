/-!
# What a manager allocates and frees

A ledger of the memory that a BDD manager gets from `malloc`, `realloc` and `aligned_alloc`: which
blocks it holds through which pointer, which calls allocate, move and free them, and what
`Cal_BddManagerQuit` does in the end. Only the pointers that own memory are modelled; what is in the
blocks is the subject of the rest of the model.

How often a call needs a page, a larger table or a repacking depends on the BDDs. Here these
decisions are a script that comes with the call, and every script is allowed: the executions of this
model include those of the code. A script entry for a variable, queue, association or block that does
not exist is skipped.

Two things are undefined behaviour, the outcome `none`: to free a pointer that does not point to an
allocated block, and to read or write a page, array or record that has been freed. So is reading a
pointer that was never stored, and writing behind the end of the lists of pages and segments.
`malloc` is taken to succeed: the code either does not look at its result or stops with a message. A
request for a segment that fails and is repeated with half the size (calMemoryManagement.c:297-304)
counts with the size that succeeds.
-/

namespace Cal.Ledger

/-! ## The system's memory -/

/-- The blocks handed out and not yet freed, and a clock, so that the system may answer differently
each time. -/
structure Heap where
  live : List Nat
  time : Nat

/-- The allocator: any choice of an address that is not in use. Addresses of freed blocks may come
back. -/
structure Os where
  pick : Heap → Nat
  nonzero : ∀ h, pick h ≠ 0
  fresh : ∀ h, pick h ∉ h.live

/-- A piece of C code that allocates and frees. `none`: undefined behaviour. -/
abbrev M (α : Type) := Os → Heap → Option (α × Heap)

def M.pure (a : α) : M α := fun _ h => some (a, h)

def M.bind (x : M α) (f : α → M β) : M β := fun os h =>
  match x os h with
  | none => none
  | some (a, h') => f a os h'

instance : Monad M where
  pure := M.pure
  bind := M.bind

/-- undefined behaviour -/
def ub : M α := fun _ _ => none

/-- `Cal_MemAlloc` (calMem.h:87) and `aligned_alloc` -/
def malloc : M Nat := fun os h => some (os.pick h, ⟨os.pick h :: h.live, h.time + 1⟩)

/-- `free`, and `Cal_MemFree` (calMem.h:91) -/
def free (a : Nat) : M Unit := fun _ h =>
  if a = 0 then some ((), h)
  else if a ∈ h.live then some ((), ⟨h.live.erase a, h.time + 1⟩)
  else none

/-- `Cal_MemRealloc` (calMem.h:88-90) -/
def realloc (a : Nat) : M Nat := if a = 0 then malloc else do free a; malloc

/-- reading or writing in a block -/
def touch (a : Nat) : M Unit := fun _ h => if a ∈ h.live then some ((), h) else none

/-- Reading or writing through a pointer to a record or array, which must not have been freed. That the
pointer is not nil is not looked at. -/
def use (a : Nat) : M Unit := fun _ h => if a = 0 ∨ a ∈ h.live then some ((), h) else none

/-- `for (i = 0; i < n; i++) f(xs[i])` for an array whose initialised entries are `xs`. -/
def each (f : α → M Unit) : List α → Nat → M Unit
  | _, 0 => pure ()
  | [], _ + 1 => ub
  | x :: xs, n + 1 => do f x; each f xs n

/-- the entry of an array, undefined if it was never stored -/
def entry (xs : List α) (i : Nat) : M α :=
  match xs[i]? with
  | some x => pure x
  | none => ub

/-! ## Pages -/

/-- `CalPageManager_t` (calInt.h:293-301): the record, `pageSegmentArray` with `num` entries of which
there is room for `max`, `numPagesArray`, and the list of free pages. A page is named by the segment
it lies in. -/
structure Pm where
  self : Nat
  segArr : Nat
  numArr : Nat
  num : Nat
  max : Nat
  segs : List Nat
  free : List Nat

/-- room for one more segment (calMemoryManagement.c:316-326) -/
def Pm.room (p : Pm) : M Pm :=
  if p.num = p.max then do
    let a ← realloc p.segArr
    let b ← realloc p.numArr
    pure { p with max := p.max * 2, segArr := a, numArr := b }
  else pure p

/-- `PageManagerExpandStorage` (calMemoryManagement.c:283-335) for a segment of `n + 1` pages -/
def Pm.expand (n : Nat) (p : Pm) : M Pm := do
  let seg ← malloc
  let p ← p.room
  use p.segArr
  use p.numArr
  if p.num < p.max then
    pure { p with
      num := p.num + 1, segs := p.segs ++ [seg], free := List.replicate (n + 1) seg ++ p.free }
  else ub

/-- `CalPageManagerInit` (calMemoryManagement.c:102-122) with a first segment of `n + 1` pages -/
def Pm.init (n : Nat) : M Pm := do
  let self ← malloc
  let segArr ← malloc
  let numArr ← malloc
  Pm.expand n { self, segArr, numArr, num := 0, max := 32, segs := [], free := [] }

/-- `CalPageManagerQuit` (calMemoryManagement.c:128-144) -/
def Pm.quit (p : Pm) : M Unit := do
  use p.segArr
  each Ledger.free p.segs p.num
  use p.self
  Ledger.free p.segArr
  Ledger.free p.numArr
  Ledger.free p.self

/-- a segment of `n + 1` pages if there is no free page (calMemoryManagement.c:245-252) -/
def Pm.supply (n : Nat) (p : Pm) : M Pm := if p.free.isEmpty then p.expand n else pure p

/-- `CalPageManagerAllocPage` (calMemoryManagement.c:240-256) -/
def Pm.allocPage (n : Nat) (p : Pm) : M (Nat × Pm) := do
  let p ← p.supply n
  match p.free with
  | [] => ub
  | a :: rest => do
    touch a
    pure (a, { p with free := rest })

/-- `CalPageManagerFreePage` (calMemoryManagement.c:267-272) -/
def Pm.freePage (p : Pm) (a : Nat) : M Pm := do
  touch a
  pure { p with free := a :: p.free }

/-- `CalNodeManager_t` (calInt.h:285-291): the record and its `pageList` with `num` entries of which
there is room for `max` -/
structure Nm where
  self : Nat
  pageList : Nat
  num : Nat
  max : Nat
  pages : List Nat

/-- `CalNodeManagerInit` (calMemoryManagement.c:178-190) -/
def Nm.init : M Nm := do
  let self ← malloc
  let pageList ← malloc
  pure { self, pageList, num := 0, max := 10, pages := [] }

/-- The pages of a list with `num` entries go back (calMemoryManagement.c:204-207). -/
def giveBack : Pm → List Nat → Nat → M Pm
  | p, _, 0 => pure p
  | _, [], _ + 1 => ub
  | p, a :: as, n + 1 => do
    let p ← p.freePage a
    giveBack p as n

/-- `CalNodeManagerQuit` (calMemoryManagement.c:196-213) -/
def Nm.quit (v : Nm) (p : Pm) : M Pm := do
  use v.pageList
  let p ← giveBack p v.pages v.num
  use v.self
  Ledger.free v.pageList
  Ledger.free v.self
  pure p

/-- room for one more page (calInt.h:492-497) -/
def Nm.room (v : Nm) : M Nm :=
  if v.num = v.max then do
    let l ← realloc v.pageList
    pure { v with max := v.max * 2, pageList := l }
  else pure v

/-- `CalNodeManagerAllocNode` and its variants with an empty free list (calInt.h:482-499, 519-536,
550-567), and calReorderDF.c:218-238 -/
def Nm.page (n : Nat) (v : Nm) (p : Pm) : M (Nm × Pm) := do
  let r ← p.allocPage n
  let v ← v.room
  use v.pageList
  if v.num < v.max then
    pure ({ v with num := v.num + 1, pages := v.pages ++ [r.1] }, r.2)
  else ub

/-- `k` new pages in a row -/
def Nm.morePages (n : Nat) : Nat → Nm → Pm → M (Nm × Pm)
  | 0, v, p => pure (v, p)
  | k + 1, v, p => do
    let r ← v.page n p
    Nm.morePages n k r.1 r.2

/-! ## Tables, associations and blocks -/

/-- A record with one array: a hash table with its bins (calInt.h:312-324), the computed table with
its entries (calCacheTableTwo.c:56-66), an association with `varAssociation` (calInt.h:326-332). -/
structure Two where
  self : Nat
  data : Nat

/-- `CalHashTableInit` (calHashTable.c:86-114), `CalHashTableOneInit` (calHashTableOne.c:90-119) and
`CalCacheTableTwoInit` (calCacheTableTwo.c:137-162) -/
def Two.init : M Two := do
  let self ← malloc
  let data ← malloc
  pure { self, data }

/-- `CalHashTableQuit` (calHashTable.c:119-142), the last lines of `CalHashTableOneQuit`
(calHashTableOne.c:140-141), and `CalCacheTableTwoQuit` (calCacheTableTwo.c:217-224) -/
def Two.quit (t : Two) : M Unit := do
  use t.self
  free t.data
  free t.self

/-- New bins are allocated, filled, and the old ones are freed: `CalHashTableRehash`
(calHashTable.c:404-448), `HashTableOneRehash` (calHashTableOne.c:205-246), the rehash of ternary
request tables (calHashTableThree.c:155-195), and `CacheTableTwoRehash` (calCacheTableTwo.c:168-212) -/
def Two.rehash (t : Two) : M Two := do
  let data ← malloc
  use t.data
  free t.data
  pure { t with data }

/-- The old bins are freed first: calQuant.c:876-878, 1289-1291 and calGC.c:268-280 -/
def Two.reset (t : Two) : M Two := do
  free t.data
  let data ← malloc
  pure { t with data }

/-- only if `bins` -/
def Two.maybeReset (bins : Bool) (t : Two) : M Two := if bins then t.reset else pure t

/-- `CalAssociation_t` (calInt.h:326-332) in the list of the manager -/
structure As where
  self : Nat
  va : Nat
  refs : Nat

/-- `Cal_Block_t` (calInt.h:334-341): the record, the array `children` (nil if there are none) and the
children -/
inductive Blk where
  | mk (self children : Nat) (kids : List Blk)

mutual
/-- `CalFreeBlockRecursively` (calBlk.c:210-221) -/
def Blk.quit : Blk → M Unit
  | .mk self children kids => do
    use children
    Blk.quits kids
    use self
    free children
    free self
/-- its loop -/
def Blk.quits : List Blk → M Unit
  | [] => pure ()
  | b :: bs => do
    Blk.quit b
    Blk.quits bs
end

/-- `CalBddShiftBlock` (calBlk.c:156-192): at most one new block is made. `path` are the positions of
the children that lead to the block that gets it and `i` is its position there. -/
def Blk.shift : List Nat → Nat → Blk → M Blk
  | [], i, .mk self children kids => do
    let children ← realloc children
    let b ← malloc
    pure (.mk self children (kids.take i ++ .mk b 0 [] :: kids.drop i))
  | k :: path, i, .mk self children kids =>
    match kids[k]? with
    | none => pure (.mk self children kids)
    | some b => do
      let b ← b.shift path i
      pure (.mk self children (kids.set k b))

/-- the call in `CalBddManagerCreateNewVar` (calBddManager.c:602) -/
def Blk.maybeShift (block : Option (List Nat × Nat)) (b : Blk) : M Blk :=
  match block with
  | none => pure b
  | some x => b.shift x.1 x.2

/-- `AddBlock` (calBlk.c:230-271): the new block takes the place of the children `i` to `i + n` of the
block at the end of the path, or becomes the only child of a block that has none. A path or position that
does not exist is skipped. -/
def Blk.add (new : Nat) : List Nat → Nat → Nat → Blk → M Blk
  | [], i, n, .mk self children kids =>
    if kids.isEmpty then do
      let children ← malloc
      pure (.mk self children [.mk new 0 []])
    else if kids.length ≤ i then do
      free new
      pure (.mk self children kids)
    else do
      let c ← malloc
      let children ← realloc children
      pure (.mk self children
        (kids.take i ++ .mk new c ((kids.drop i).take (n + 1)) :: (kids.drop i).drop (n + 1)))
  | k :: path, i, n, .mk self children kids =>
    match kids[k]? with
    | none => do
      free new
      pure (.mk self children kids)
    | some b => do
      let b ← b.add new path i n
      pure (.mk self children (kids.set k b))

/-! ## The manager -/

/-- `Cal_BddManager_t` (calInt.h:344-460), as far as it owns memory. `nms` and `uts` are the
initialised entries of `nodeManagerArray` and `uniqueTable`, `rows` those of `reqQue`: each an array
of hash tables. `user` are the arrays handed to the user, who has to free them, and `lost` blocks to
which there is no pointer any more. -/
structure Mgr where
  self : Nat
  varBdds : Nat
  nmArr : Nat
  utArr : Nat
  indexToId : Nat
  idToIndex : Nat
  reqQue : Nat
  reqLists : Nat
  numVars : Nat
  maxVars : Nat
  maxDepth : Nat
  pm1 : Pm
  pm2 : Pm
  nms : List Nm
  uts : List Two
  rows : List (Nat × List Two)
  cache : Two
  temp : Two
  assocs : List As
  root : Blk
  user : List Nat
  lost : List Nat

/-- `k` hash tables -/
def tables : Nat → M (List Two)
  | 0 => pure []
  | k + 1 => do
    let t ← Two.init
    let ts ← tables k
    pure (t :: ts)

/-- `d` request queues for `k` ids (calBddManager.c:212-216, calPipeline.c:94-100,
calBddOp.c:794-800) -/
def newRows (k : Nat) : Nat → M (List (Nat × List Two))
  | 0 => pure []
  | d + 1 => do
    let a ← malloc
    let ts ← tables k
    let rs ← newRows k d
    pure ((a, ts) :: rs)

/-- the page manager that feeds the node manager of an id (calBddManager.c:161, 576) -/
def Mgr.page (n id : Nat) (s : Mgr) : M Mgr := do
  let v ← entry s.nms id
  if id = 0 then do
    let r ← v.page n s.pm1
    pure { s with nms := s.nms.set id r.1, pm1 := r.2 }
  else do
    let r ← v.page n s.pm2
    pure { s with nms := s.nms.set id r.1, pm2 := r.2 }

/-- `Cal_BddManagerInit` (calBddManager.c:137-281). The order of the calls is that of the code; the
first node of id 0 takes a page (calBddManager.c:167). -/
def Mgr.init (n1 n2 : Nat) : M Mgr := do
  let self ← malloc
  let varBdds ← malloc
  let pm1 ← Pm.init n1
  let pm2 ← Pm.init n2
  let nmArr ← malloc
  let nm ← Nm.init
  let utArr ← malloc
  let ut ← Two.init
  let r ← nm.page n1 pm1
  let indexToId ← malloc
  let idToIndex ← malloc
  let reqQue ← malloc
  let cache ← Two.init
  let rows ← newRows 1 6
  let reqLists ← malloc
  let temp ← Two.init
  let b ← malloc
  pure { self, varBdds, nmArr, utArr, indexToId, idToIndex, reqQue, reqLists,
         numVars := 0, maxVars := 30, maxDepth := 6, pm1 := r.2, pm2, nms := [r.1], uts := [ut], rows,
         cache, temp, assocs := [], root := .mk b 0 [], user := [], lost := [] }

/-- the first loop of `Cal_BddManagerQuit` (calBddManager.c:292-297) -/
def quitRows (numVars : Nat) (rows : List (Nat × List Two)) (maxDepth : Nat) : M Unit :=
  each (fun r => do use r.1; each Two.quit r.2 (numVars + 1); free r.1) rows maxDepth

/-- the node managers but for that of id 0 -/
def quitNms : Pm → List Nm → List Two → Nat → M Pm
  | p, _, _, 0 => pure p
  | p, v :: vs, t :: ts, n + 1 => do
    t.quit
    let p ← v.quit p
    quitNms p vs ts n
  | _, _, _, _ + 1 => ub

/-- `CalAssociationListFree` (calAssociation.c:356-371) -/
def quitAssocs : List As → M Unit
  | [] => pure ()
  | a :: as => do
    use a.self
    free a.va
    free a.self
    quitAssocs as

/-- `Cal_BddManagerQuit` (calBddManager.c:285-324) -/
def Mgr.quit (s : Mgr) : M Unit := do
  use s.reqQue
  quitRows s.numVars s.rows s.maxDepth
  match s.nms, s.uts with
  | v :: vs, t :: ts => do
    use s.utArr
    use s.nmArr
    t.quit
    let pm1 ← v.quit s.pm1
    let pm2 ← quitNms s.pm2 vs ts s.numVars
    s.cache.quit
    use s.temp.self
    free s.temp.data
    free s.temp.self
    s.root.quit
    quitAssocs s.assocs
    free s.varBdds
    free s.indexToId
    free s.idToIndex
    free s.utArr
    free s.reqQue
    free s.reqLists
    free s.nmArr
    pm1.quit
    use s.self
    pm2.quit
    free s.self
  | _, _ => ub

/-! ## Creating variables, queues, associations and blocks -/

/-- the loop over `reqQue` (calBddManager.c:524-527) -/
def growRows : List (Nat × List Two) → Nat → M (List (Nat × List Two))
  | rs, 0 => pure rs
  | [], _ + 1 => ub
  | r :: rs, n + 1 => do
    let a ← realloc r.1
    let rs ← growRows rs n
    pure ((a, r.2) :: rs)

/-- the loop over the associations (calBddManager.c:535-543) -/
def growAssocs : List As → M (List As)
  | [] => pure []
  | a :: as => do
    let va ← realloc a.va
    let as ← growAssocs as
    pure ({ a with va } :: as)

/-- all arrays get longer (calBddManager.c:497-544) -/
def Mgr.grow (s : Mgr) : M Mgr := do
  let varBdds ← realloc s.varBdds
  let nmArr ← realloc s.nmArr
  let idToIndex ← realloc s.idToIndex
  let indexToId ← realloc s.indexToId
  let utArr ← realloc s.utArr
  use s.reqQue
  let rows ← growRows s.rows s.maxDepth
  let va ← realloc s.temp.data
  let assocs ← growAssocs s.assocs
  pure { s with
    maxVars := if s.maxVars * 2 > 65534 then 65534 else s.maxVars * 2
    varBdds, nmArr, idToIndex, indexToId, utArr, rows, temp := { s.temp with data := va }, assocs }

/-- one more table in each queue (calBddManager.c:597-601) -/
def addTables : List (Nat × List Two) → Nat → M (List (Nat × List Two))
  | rs, 0 => pure rs
  | [], _ + 1 => ub
  | r :: rs, n + 1 => do
    let t ← Two.init
    use r.1
    let rs ← addTables rs n
    pure ((r.1, r.2 ++ [t]) :: rs)

/-- arrays for one more variable (calBddManager.c:497) -/
def Mgr.room (s : Mgr) : M Mgr := if s.numVars = s.maxVars then s.grow else pure s

/-- the rest of `CalBddManagerCreateNewVar` (calBddManager.c:565-603). `block` says where a block for
the new variable is made, if any, `n` is the size of a segment if one is needed for its node. -/
def Mgr.addVar (n : Nat) (block : Option (List Nat × Nat)) (s : Mgr) : M Mgr := do
  let v ← Nm.init
  let t ← Two.init
  let r ← v.page n s.pm2
  use s.nmArr
  use s.utArr
  use s.varBdds
  use s.idToIndex
  use s.indexToId
  use s.reqQue
  let rows ← addTables s.rows s.maxDepth
  let root ← Blk.maybeShift block s.root
  pure { s with
    numVars := s.numVars + 1, nms := s.nms ++ [r.1], uts := s.uts ++ [t], pm2 := r.2, rows, root }

/-- `CalBddManagerCreateNewVar` (calBddManager.c:469-604). With 65534 variables (`CAL_MAX_VAR_ID`) the
program stops with a message: nothing happens here. -/
def Mgr.newVar (n : Nat) (block : Option (List Nat × Nat)) (s : Mgr) : M Mgr :=
  if s.numVars = 65534 then pure s
  else do
    let s ← s.room
    s.addVar n block

/-- `Cal_PipelineSetDepth` (calPipeline.c:80-106) and the growth in
`BddArrayToRequestNodeListArray` (calBddOp.c:782-801), when the depth needed is `d` -/
def Mgr.setDepth (d : Nat) (s : Mgr) : M Mgr :=
  if s.maxDepth < d then do
    let reqQue ← realloc s.reqQue
    use reqQue
    let rs ← newRows (s.numVars + 1) (d - s.maxDepth)
    pure { s with maxDepth := d, reqQue, rows := s.rows ++ rs }
  else pure s

/-- `Cal_AssociationInit` (calAssociation.c:85-184) for arguments that are accepted: an association
that exists (position `i`) or a new one, put at position `i` of the list -/
def Mgr.assocInit (found : Bool) (i : Nat) (s : Mgr) : M Mgr := do
  let info ← malloc
  let va ← malloc
  if found then
    match s.assocs[i]? with
    | none => do
      free va
      free info
      pure s
    | some a => do
      free va
      free info
      pure { s with assocs := s.assocs.set i { a with refs := a.refs + 1 } }
  else do
    let self ← malloc
    free info
    pure { s with assocs := s.assocs.take i ++ { self, va, refs := 1 } :: s.assocs.drop i }

/-- `Cal_AssociationQuit` (calAssociation.c:189-220) for the association at position `i` -/
def Mgr.assocQuit (i : Nat) (s : Mgr) : M Mgr :=
  match s.assocs[i]? with
  | none => pure s
  | some a =>
    if a.refs - 1 = 0 then do
      use a.va
      free a.va
      free a.self
      pure { s with assocs := s.assocs.eraseIdx i }
    else pure { s with assocs := s.assocs.set i { a with refs := a.refs - 1 } }

/-- `Cal_BddNewVarBlock` (calBlk.c:74-102) -/
def Mgr.newBlock (path : List Nat) (i n : Nat) (s : Mgr) : M Mgr := do
  let b ← malloc
  let root ← s.root.add b path i n
  pure { s with root }

/-! ## What happens inside operations -/

/-- Needs for memory that come up in operations on BDDs. -/
inductive Small where
  /-- a new node, and a page for it, for an id; a segment if needed is of `n + 1` pages -/
  | page (n id : Nat)
  /-- the unique table of an id gets other bins -/
  | rehash (id : Nat)
  /-- a request table gets other bins -/
  | rehashReq (d id : Nat)
  /-- a request table is made small again -/
  | resetReq (d id : Nat)
  /-- the computed table is rehashed -/
  | cache

/-- change the request table of queue `d` and id `id` -/
def Mgr.onReq (f : Two → M Two) (d id : Nat) (s : Mgr) : M Mgr := do
  let r ← entry s.rows d
  let t ← entry r.2 id
  let t ← f t
  pure { s with rows := s.rows.set d (r.1, r.2.set id t) }

def Small.run (s : Mgr) : Small → M Mgr
  | .page n id => if id ≤ s.numVars then s.page n id else pure s
  | .rehash id =>
    if id ≤ s.numVars then do
      let t ← entry s.uts id
      let t ← t.rehash
      pure { s with uts := s.uts.set id t }
    else pure s
  | .rehashReq d id => if d < s.maxDepth ∧ id ≤ s.numVars then s.onReq Two.rehash d id else pure s
  | .resetReq d id => if d < s.maxDepth ∧ id ≤ s.numVars then s.onReq Two.reset d id else pure s
  | .cache => do
    let t ← s.cache.rehash
    pure { s with cache := t }

/-- The part that packing one id has in common in calHashTable.c:585-640, 740-801 and
calReorderDF.c:733-793: new bins and, in pages that are newly taken, copies of the nodes in the old
pages. `req` is the number of pages estimated, `k` the number used. -/
def Mgr.copyNodes (n id req k : Nat) (s : Mgr) : M Mgr := do
  let v ← entry s.nms id
  let t ← entry s.uts id
  let pageList ← malloc
  let data ← malloc
  use t.data
  each touch v.pages v.num
  let r ← Nm.morePages n k
    { v with pageList, num := 0, max := 2 * (if req = 0 then 1 else req), pages := [] } s.pm2
  pure { s with nms := s.nms.set id r.1, uts := s.uts.set id { t with data }, pm2 := r.2 }

/-- `CalBddPackNodesAfterReorderForSingleId` (calHashTable.c:558-706) -/
def Mgr.pack (n id req k : Nat) (s : Mgr) : M Mgr := do
  let v ← entry s.nms id
  let t ← entry s.uts id
  let s ← s.copyNodes n id req k
  free t.data
  use v.pageList
  let pm2 ← giveBack s.pm2 v.pages v.num
  free v.pageList
  pure { s with pm2 }

/-- One level of `CalBddPackNodesForMultipleIds` (calHashTable.c:737-845, 864-878), for an id that
has more than three pages (`CalBddIdNeedsRepacking`, calInt.h:586-588). The old bins
(`oldBins`, calHashTable.c:753) are not freed. The code makes the copies for all levels before it
gives back the old pages of any; one level after the other takes and gives back the same blocks. -/
def Mgr.packOne (n id req k : Nat) (s : Mgr) : M Mgr := do
  let v ← entry s.nms id
  let t ← entry s.uts id
  if 3 < v.num then do
    let s ← s.copyNodes n id req k
    use v.pageList
    let pm2 ← giveBack s.pm2 v.pages v.num
    free v.pageList
    pure { s with pm2, lost := t.data :: s.lost }
  else pure s

/-- `CalBddPackNodesForMultipleIds` (calHashTable.c:709-881); for each level the id and how many
pages are needed -/
def Mgr.packMany (n : Nat) : List (Nat × Nat × Nat) → Mgr → M Mgr
  | [], s => pure s
  | (id, req, k) :: ls, s =>
    if 0 < id ∧ id ≤ s.numVars then do
      let s ← s.packOne n id req k
      Mgr.packMany n ls s
    else Mgr.packMany n ls s

/-- One id in `CalRepackNodesAfterGC` (calGC.c:262-355): maybe other bins, and only the first `keep`
pages stay -/
def Mgr.gcPack (bins : Bool) (id keep : Nat) (s : Mgr) : M Mgr := do
  let v ← entry s.nms id
  let t ← entry s.uts id
  let t ← t.maybeReset bins
  use t.data
  use v.pageList
  let pm2 ← giveBack s.pm2 (v.pages.drop keep) (v.num - keep)
  pure { s with
    pm2
    nms := s.nms.set id { v with num := min v.num keep, pages := v.pages.take keep }
    uts := s.uts.set id t }

/-- Needs for memory in garbage collections and in breadth-first reordering. -/
inductive Mid where
  | small (x : Small)
  | pack (n id req k : Nat)
  | packMany (n : Nat) (ls : List (Nat × Nat × Nat))
  | gcPack (bins : Bool) (id keep : Nat)

def Mid.run (s : Mgr) : Mid → M Mgr
  | .small x => x.run s
  | .pack n id req k => if 0 < id ∧ id ≤ s.numVars then s.pack n id req k else pure s
  | .packMany n ls => do
    let a ← malloc
    let b ← malloc
    let s ← s.packMany n ls
    free a
    free b
    pure s
  | .gcPack bins id keep => if 0 < id ∧ id ≤ s.numVars then s.gcPack bins id keep else pure s

def Mid.runs (s : Mgr) : List Mid → M Mgr
  | [] => pure s
  | x :: xs => do
    let s ← x.run s
    Mid.runs s xs

/-- `CalInitInteract` (calInteract.c:165-235): the matrix, which stays allocated -/
def interact : M Nat := do
  let m ← malloc
  let support ← malloc
  free support
  pure m

/-- `CalBddReorderAuxBF` (calReorderBF.c:101-122); `levels` or `idArray` (calReorderBF.c:109-111,
730-770) is freed in the end -/
def Mgr.reorderBF (xs : List Mid) (s : Mgr) : M Mgr := do
  let m ← interact
  let a ← malloc
  let s ← Mid.runs s xs
  free a
  free m
  pure s

/-- What depth-first reordering needs: a page for its own node manager, which it also uses instead of
those of the ids (`NodeManagerAllocNode`, calReorderDF.c:190-238), or a larger unique table. -/
inductive DfStep where
  | page (n : Nat)
  | rehash (id : Nat)

def DfStep.runs (v : Nm) (s : Mgr) : List DfStep → M (Nm × Mgr)
  | [] => pure (v, s)
  | .page n :: xs => do
    let r ← v.page n s.pm2
    DfStep.runs r.1 { s with pm2 := r.2 } xs
  | .rehash id :: xs => do
    let s ← Small.run s (.rehash id)
    DfStep.runs v s xs

/-- the loop of `BddReallocateNodes` over the ids (calReorderDF.c:726-796) -/
def Mgr.reallocIds (n : Nat) (need : Nat → Nat × Nat) : List Nat → Mgr → M Mgr
  | [], s => pure s
  | id :: ids, s => do
    let v ← entry s.nms id
    let t ← entry s.uts id
    free v.pageList
    let s ← s.copyNodes n id (need id).1 (need id).2
    free t.data
    Mgr.reallocIds n need ids s

/-- `BddReallocateNodes` (calReorderDF.c:702-817): the page manager starts afresh, all nodes are
copied, and the old segments are freed -/
def Mgr.reallocate (n : Nat) (need : Nat → Nat × Nat) (ids : List Nat) (s : Mgr) : M Mgr := do
  let old := s.pm2
  let segArr ← malloc
  let s ← Mgr.reallocIds n need ids
    { s with pm2 := { old with segArr, num := 0, max := 32, segs := [], free := [] } }
  use old.segArr
  each free old.segs old.num
  free old.segArr
  pure s

/-- `CalBddReorderAuxDF` (calReorderDF.c:151-184); `levels` (calReorderDF.c:1221-1224) or `toSift`
(1381-1384) is freed before the nodes are copied. The pages of its own node manager have been freed
with the segments, so their number is set to 0 before it is freed (calReorderDF.c:178-180). -/
def Mgr.reorderDF (xs : List DfStep) (n : Nat) (need : Nat → Nat × Nat) (ids : List Nat)
    (s : Mgr) : M Mgr := do
  let m ← interact
  let v ← Nm.init
  let a ← malloc
  let r ← DfStep.runs v s xs
  free a
  let s ← r.2.reallocate n need ids
  let pm2 ← Nm.quit { r.1 with num := 0 } s.pm2
  free m
  pure { s with pm2 }

/-- What can happen inside a call. -/
inductive Act where
  | mid (x : Mid)
  | bf (xs : List Mid)
  /-- `ids` in the order from the last variable to the first, so each id once -/
  | df (xs : List DfStep) (n : Nat) (need : Nat → Nat × Nat) (ids : List Nat)
  /-- deeper queues for a multiway operation or a pipeline -/
  | depth (d : Nat)

def Act.run (s : Mgr) : Act → M Mgr
  | .mid x => x.run s
  | .bf xs => s.reorderBF xs
  | .df xs n need ids =>
    if ids.isPerm ((List.range s.numVars).map (· + 1)) then s.reorderDF xs n need ids else pure s
  | .depth d => s.setDepth d

def Act.runs (s : Mgr) : List Act → M Mgr
  | [] => pure s
  | x :: xs => do
    let s ← x.run s
    Act.runs s xs

/-! ## Calls -/

/-- The calls of a user, with what happens in them. -/
inductive Call where
  | newVar (n : Nat) (block : Option (List Nat × Nat))
  | assocInit (found : Bool) (i : Nat)
  | assocQuit (i : Nat)
  | newBlock (path : List Nat) (i n : Nat)
  /-- any operation that needs no array of its own -/
  | op (xs : List Act)
  /-- multiway operations, sizes, profiles, supports, satisfying cubes, the temporary association -/
  | array (xs : List Act)
  /-- pairwise operations -/
  | pairwise (xs ys : List Act)
  /-- the user frees an array that a pairwise operation returned -/
  | userFree (i : Nat)
  /-- dumping a BDD: the table of shared nodes is rehashed `k` times -/
  | dump (xs : List Act) (k : Nat)
  /-- undumping a BDD; `early`: the header is rejected -/
  | undump (early : Bool) (xs : List Act)

/-- a table is rehashed `k` times -/
def rehashes : Nat → Two → M Two
  | 0, t => pure t
  | k + 1, t => do
    let t ← t.rehash
    rehashes k t

def Call.run (s : Mgr) : Call → M Mgr
  | .newVar n block => s.newVar n block
  | .assocInit found i => s.assocInit found i
  | .assocQuit i => s.assocQuit i
  | .newBlock path i n => s.newBlock path i n
  | .op xs => Act.runs s xs
  -- calBddOp.c:379-384, 413-418, 447-452; calBddSize.c:128-143, 184-201, 282-319;
  -- calPrintProfile.c:96-100, 119-122, 141-145, 163-166; calBddSupport.c:86-97;
  -- calBddSatisfy.c:116-131; calAssociation.c:265-305
  | .array xs => do
    let a ← malloc
    let s ← Act.runs s xs
    free a
    pure s
  -- calBddOp.c:265-283, 307-325, 341-359; the array of results is that of `BddArrayOpBF` (687)
  | .pairwise xs ys => do
    let bddArray ← malloc
    let resultArray ← malloc
    let s ← Act.runs s xs
    let userResultArray ← malloc
    free bddArray
    free resultArray
    let s ← Act.runs s ys
    pure { s with user := userResultArray :: s.user }
  | .userFree i =>
    match s.user[i]? with
    | none => pure s
    | some a => do
      free a
      pure { s with user := s.user.eraseIdx i }
  -- calDump.c:218-262
  | .dump xs k => do
    let normalizedIndexes ← malloc
    let support ← malloc
    let inner ← malloc
    free inner
    free support
    let t ← Two.init
    let t ← rehashes k t
    let s ← Act.runs s xs
    t.quit
    free normalizedIndexes
    pure s
  -- calDump.c:122-174
  | .undump early xs => do
    let vars ← malloc
    if early then do
      free vars
      pure s
    else do
      let shared ← malloc
      let s ← Act.runs s xs
      free vars
      free shared
      pure s

def Call.runs (s : Mgr) : List Call → M Mgr
  | [] => pure s
  | c :: cs => do
    let s ← c.run s
    Call.runs s cs

/-- A program that uses one manager: it is created, calls are made, it is destroyed. The result says
which arrays the user got and has not freed, and which blocks had become unreachable. -/
def program (n1 n2 : Nat) (cs : List Call) : M (List Nat × List Nat) := do
  let s ← Mgr.init n1 n2
  let s ← Call.runs s cs
  s.quit
  pure (s.user, s.lost)

end Cal.Ledger
