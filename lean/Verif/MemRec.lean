import Verif.MemHist

/-!
# The record managers (`calMem.c`)

On top of the block allocator: records of one size are cut from blocks of one page; those that are not in use
are on a list that goes through the records themselves. Then the histories of a program that uses blocks and
record managers.
-/

namespace Cal.Mem

/-- `ALLOC_SIZE` (calMem.c:82-83), for pages of 4096 bytes (calInt.h:98) -/
def allocSize : Nat := 4096 - hdr

/-- `CAL_ROUNDUP(sizeof(List_t))` (calMem.h:97): one pointer -/
def listSize : Nat := 8

/-- the fields of `struct Cal_RecMgrStruct` (calMem.c:93-100): two `int`s, two pointers, an `int`; `size` is the first -/
def oRecs : Nat := 4
def oFree : Nat := 8
def oBlocks : Nat := 16
def oNum : Nat := 24

/-- `sizeof(Cal_RecMgr_t)` -/
def recMgrSize : Nat := 32

/-- The size of the records of a manager (calMem.c:369-370). (A negative argument is not modelled.) -/
def recSize (size : Nat) : Nat := roundup (if size < listSize then listSize else size)

/-- `Cal_MemNewRecMgr` (calMem.c:364-380) -/
def newRecMgr (top : Nat) (s : St) (size : Nat) : Out (St × Nat) :=
  let size := recSize size
  if size > allocSize - listSize then .exit
  else
    (getBlock top s recMgrSize).andThen fun r =>
      let m := r.2
      let s := r.1.set m size
      let s := s.set (m + oRecs) ((allocSize - listSize) / size)
      let s := s.set (m + oFree) 0
      let s := s.set (m + oBlocks) 0
      .ok (s.set (m + oNum) 0, m)

/-- The loop that carves a block into records (calMem.c:313-320): how often it runs, and `p`. (The debugging code
of `DEBUG_MEM` is not modelled.) -/
def carveRecs (size : Nat) : Nat → St → Nat → St × Nat
  | 0, s, p => (s, p)
  | k + 1, s, p => carveRecs size k (s.set p (p + size)) (p + size)

/-- Allocating a new block for a manager (calMem.c:305-321) -/
def newRecBlock (top : Nat) (s : St) (m : Nat) : Out St :=
  (getBlock top s allocSize).andThen fun r =>
    let b := r.2
    let s := r.1.set (m + oNum) (r.1.mem (m + oNum) + 1)
    let s := s.set b (s.mem (m + oBlocks))
    let s := s.set (m + oBlocks) b
    let s := s.set (m + oFree) (b + listSize)
    let c := carveRecs (s.mem m) (s.mem (m + oRecs) - 1) s (b + listSize)
    .ok (c.1.set c.2 0)

/-- Taking the first record of the list (calMem.c:328, 338-339) -/
def takeRec (s : St) (m : Nat) : St × Nat :=
  (s.set (m + oFree) (s.mem (s.mem (m + oFree))), s.mem (m + oFree))

/-- `Cal_MemNewRec` (calMem.c:296-340) -/
def newRec (top : Nat) (s : St) (m : Nat) : Out (St × Nat) :=
  if s.mem (m + oFree) = 0 then (newRecBlock top s m).andThen fun s => .ok (takeRec s m)
  else .ok (takeRec s m)

/-- `Cal_MemFreeRec` (calMem.c:345-359) -/
def freeRec (s : St) (m r : Nat) : St := (s.set r (s.mem (m + oFree))).set (m + oFree) r

/-- The loop of `Cal_MemFreeRecMgr` (calMem.c:388-391); a list longer than the bound is undefined behaviour -/
def freeBlocks : Nat → St → Nat → Out St
  | k, s, p =>
    if p = 0 then .ok s
    else
      match k with
      | 0 => .undef
      | k + 1 => (freeBlock s p).andThen fun s' => freeBlocks k s' (s.mem p)

/-- `Cal_MemFreeRecMgr` (calMem.c:384-393). The bound on the loop, not in the code, is what `numBlocks` says; no code
reads that field. -/
def freeRecMgr (s : St) (m : Nat) : Out St :=
  (freeBlocks (s.mem (m + oNum)) s (s.mem (m + oBlocks))).andThen fun s => freeBlock s m

/-! ## Histories -/

/-- The allocator, the blocks handed out (the number of bytes asked for, by pointer), the record managers
(the size asked for, by pointer) and the records handed out (the manager, by pointer). -/
structure RHeap where
  s : St
  own : Nat → Option Nat
  mgrs : Nat → Option Nat
  recs : Nat → Option Nat

/-- What can happen: what can happen with blocks, the four calls for records, a write by a caller to its
record. -/
inductive ROp
  | blk (op : Op)
  | newMgr (size : Nat)
  | newRec (m : Nat)
  | freeRec (m r : Nat)
  | freeMgr (m : Nat)
  | write (r x v : Nat)

/-- What is legal: for blocks as before; a record manager that exists; a record that is held, freed to its
manager; writing to the bytes asked for of a record that is held. -/
def ROp.Legal (h : RHeap) : ROp → Prop
  | .blk op => op.Legal ⟨h.s, h.own⟩
  | .newMgr _ => True
  | .newRec m => ∃ n, h.mgrs m = some n
  | .freeRec m r => h.recs r = some m
  | .freeMgr m => ∃ n, h.mgrs m = some n
  | .write r x _ => ∃ m n, h.recs r = some m ∧ h.mgrs m = some n ∧ r ≤ x ∧ x < r + n

/-- What happens, and the pointer returned. With a manager all its records are gone. -/
def ROp.run (top : Nat) (h : RHeap) : ROp → Out (RHeap × Nat)
  | .blk op => (op.run top ⟨h.s, h.own⟩).andThen fun r => .ok ({ h with s := r.1.s, own := r.1.own }, r.2)
  | .newMgr n => (newRecMgr top h.s n).andThen fun r => .ok ({ h with s := r.1, mgrs := upd h.mgrs r.2 (some n) }, r.2)
  | .newRec m => (Mem.newRec top h.s m).andThen fun r => .ok ({ h with s := r.1, recs := upd h.recs r.2 (some m) }, r.2)
  | .freeRec m r => .ok ({ h with s := Mem.freeRec h.s m r, recs := upd h.recs r none }, 0)
  | .freeMgr m => (freeRecMgr h.s m).andThen fun s =>
      .ok ({ h with s := s, mgrs := upd h.mgrs m none, recs := fun r => if h.recs r = some m then none else h.recs r }, 0)
  | .write _ x v => .ok ({ h with s := h.s.set x v }, 0)

/-- From one heap to a later one. -/
inductive RSteps (top : Nat) : RHeap → RHeap → Prop
  | refl (h : RHeap) : RSteps top h h
  | step {h h' h'' : RHeap} (op : ROp) (r : Nat) : RSteps top h h' → op.Legal h' → op.run top h' = .ok (h'', r) → RSteps top h h''

/-- The heap at the start of a program. -/
def RHeap.init (mem : Nat → Nat) (brk : Nat) : RHeap :=
  ⟨Mem.init mem brk, fun _ => none, fun _ => none, fun _ => none⟩

/-- The heaps of a program: whatever was in memory and wherever the break was. -/
def RReach (top : Nat) (h : RHeap) : Prop := ∃ mem brk, 0 < brk ∧ RSteps top (RHeap.init mem brk) h

end Cal.Mem
