import Verif.Sem

/-!
# The block allocator (`calMem.c`)

Memory is a map from byte addresses to the values of the cells that begin there; a field of a structure
is the cell at its offset. The break is the end of the data segment as `sbrk` reports it; others may
move it too. All pointers are 8 bytes wide (`CAL_ALLOC_ALIGNMENT` is 8).
-/

namespace Cal.Mem

/-- The outcome of a function: it returns, it ends the program by `Cal_MemFatal` (calMem.c:150-155), or its behaviour is
undefined. -/
inductive Out (α : Type)
  | ok (x : α)
  | exit
  | undef

/-- Going on with the result. -/
def Out.andThen {α β : Type} (x : Out α) (f : α → Out β) : Out β :=
  match x with
  | .ok a => f a
  | .exit => .exit
  | .undef => .undef

/-- The state of the allocator (calMem.c:49-119). -/
structure St where
  mem : Nat → Nat
  /-- `avail`; 0 is the null pointer -/
  avail : Nat → Nat
  /-- `currSeg`; `none` is `&dummySeg`, whose base address and limit are 0 -/
  curr : Option Nat
  /-- `blockAllocation` -/
  alloc : Nat
  /-- the break -/
  brk : Nat
  /-- the ranges of memory that `sbrk` has given to the allocator: the begin and the length of each, the
  last one first (not in the code) -/
  got : List (Nat × Nat)

/-- `HEADER_SIZE` (calMem.c:78): two `int`s, an `unsigned long` and three pointers -/
def hdr : Nat := 40

/-- `CAL_ROUNDUP(sizeof(Segment_t))` (calMem.h:97) -/
def segSize : Nat := 16

/-- `MAX_SIZEINDEX` (calMem.c:79) -/
def maxIdx : Nat := 62

/-- `MIN_ALLOC_SIZEINDEX` (calMem.c:84) -/
def minIdx : Nat := 15

/-- `CAL_ROUNDUP` (calMem.h:97) -/
def roundup (n : Nat) : Nat := (n + 7) / 8 * 8

/-- the fields of `struct BlockStruct` (calMem.c:69-77) and of `struct SegmentStruct` (calMem.c:63-67) -/
def oSize : Nat := 4
def oNext : Nat := 16
def oPrev : Nat := 24
def oSeg : Nat := 32
def oLimit : Nat := 8

/-- Writing a cell. -/
def St.set (s : St) (a x : Nat) : St := { s with mem := upd s.mem a x }

/-- The loop of `CeilingLog2` (calMem.c:412): `result`, `j` -/
def clog : Nat → Nat → Nat → Nat → Option Nat
  | 0, _, _, _ => none
  | k + 1, r, j, i => if j < i then clog k (r + 1) (j * 2) i else some r

/-- `CeilingLog2` (calMem.c:406-414) -/
def ceilingLog2 (i : Nat) : Option Nat := clog 65 0 1 i

/-- `AddToFreeList` (calMem.c:435-453); an index outside `avail` is undefined behaviour -/
def addToFree (s : St) (b : Nat) : Option St :=
  let i := s.mem (b + oSize)
  if i > maxIdx then none
  else if s.avail i = 0 then
    some ({ (s.set (b + oNext) b).set (b + oPrev) b with avail := upd s.avail i b }.set b 0)
  else
    let h := s.avail i
    let s := s.set (b + oNext) (s.mem (h + oNext))
    let s := s.set (s.mem (h + oNext) + oPrev) b
    let s := s.set (h + oNext) b
    let s := s.set (b + oPrev) h
    some (s.set b 0)

/-- `RemoveFromFreeList` (calMem.c:459-474) -/
def removeFromFree (s : St) (b : Nat) : Option St :=
  let i := s.mem (b + oSize)
  if i > maxIdx then none
  else if s.mem (b + oNext) = b then some ({ s with avail := upd s.avail i 0 }.set b 1)
  else
    let s := s.set (s.mem (b + oNext) + oPrev) (s.mem (b + oPrev))
    let s := s.set (s.mem (b + oPrev) + oNext) (s.mem (b + oNext))
    let s := if s.avail i = b then { s with avail := upd s.avail i (s.mem (b + oNext)) } else s
    some (s.set b 1)

/-- `Buddy` (calMem.c:481-492) -/
def buddy (s : St) (b : Nat) : Nat :=
  let seg := s.mem (b + oSeg)
  let off := (b - s.mem seg) ^^^ 2 ^ s.mem (b + oSize)
  if off < s.mem (seg + oLimit) then s.mem seg + off else 0

/-- `TrimToSize` (calMem.c:499-511); a null buddy is undefined behaviour -/
def trim : Nat → St → Nat → Nat → Option St
  | 0, _, _, _ => none
  | k + 1, s, b, i =>
    if s.mem (b + oSize) > i then
      let s := s.set (b + oSize) (s.mem (b + oSize) - 1)
      let bb := buddy s b
      if bb = 0 then none
      else
        let s := s.set (bb + oSize) (s.mem (b + oSize))
        let s := s.set (bb + oSeg) (s.mem (b + oSeg))
        match addToFree s bb with
        | none => none
        | some s => trim k s b i
    else some s

/-- The loop of `MergeAndFree` (calMem.c:523-528) -/
def merge : Nat → St → Nat → Option (St × Nat)
  | 0, _, _ => none
  | k + 1, s, b =>
    let bb := buddy s b
    if bb ≠ 0 ∧ s.mem bb = 0 ∧ s.mem (bb + oSize) = s.mem (b + oSize) then
      match removeFromFree s bb with
      | none => none
      | some s =>
        let b := if bb < b then bb else b
        merge k (s.set (b + oSize) (s.mem (b + oSize) + 1)) b
    else some (s, b)

/-- `MergeAndFree` (calMem.c:518-530) -/
def mergeAndFree (s : St) (b : Nat) : Option St :=
  match merge 64 s b with
  | none => none
  | some (s, b) => addToFree s b

/-- The loop that carves the new space (calMem.c:219-227): `allocSize` is in pieces of its lowest bit
set -/
def carve (g : Nat) : Nat → St → Nat → Option St
  | 0, _, _ => none
  | k + 1, s, n =>
    if n = 0 then some s
    else
      let size := n - (n &&& (n - 1))
      let b := s.mem g + s.mem (g + oLimit)
      match ceilingLog2 size with
      | none => none
      | some i =>
        let s := s.set (b + oSize) i
        let s := s.set (b + oSeg) g
        match addToFree s b with
        | none => none
        | some s => carve g k (s.set (g + oLimit) (s.mem (g + oLimit) + size)) (n - size)

/-- Getting memory from the system for a block of index `i` (calMem.c:183-227). `top` is the largest break
the system allows; all addresses are below it. Sums that could exceed 64 bits are taken modulo
`2 ^ 64`. -/
def grow (top : Nat) (s : St) (i : Nat) : Out St :=
  let a := if i < minIdx then minIdx else i
  let base := match s.curr with | none => 0 | some g => s.mem g
  let limit := match s.curr with | none => 0 | some g => s.mem (g + oLimit)
  let n := 2 ^ a + (((limit + 2 ^ a - 1) % 2 ^ 64 &&& (2 ^ 64 - 2 ^ a)) - limit)
  if s.brk ≠ base + limit ∨ (n + limit) % 2 ^ 64 > 2 ^ maxIdx then
    let n := roundup s.brk - s.brk + 2 ^ a + segSize
    if s.brk + n > top then .exit
    else
      let g := roundup s.brk
      let s := { s with brk := s.brk + n, got := (s.brk, n) :: s.got, alloc := s.alloc + n, curr := some g }
      match carve g 64 ((s.set g (g + segSize)).set (g + oLimit) 0) (2 ^ a) with
      | none => .undef
      | some s => .ok s
  else
    match s.curr with
    | none => .undef
    | some g =>
      if s.brk + n > top then .exit
      else
        match carve g 64 { s with brk := s.brk + n, got := (s.brk, n) :: s.got, alloc := s.alloc + n } n with
        | none => .undef
        | some s => .ok s

/-- The search for the smallest free block that is large enough (calMem.c:181, 229) -/
def find (avail : Nat → Nat) (i : Nat) : Option Nat :=
  (List.range' i (maxIdx + 1 - i)).find? fun j => avail j ≠ 0

/-- The end of `Cal_MemGetBlock` (calMem.c:231-233) -/
def take (s : St) (i j : Nat) : Out (St × Nat) :=
  let b := s.avail j
  match removeFromFree s b with
  | none => .undef
  | some s =>
    match trim 64 s b i with
    | none => .undef
    | some s => .ok (s, b + hdr)

/-- `Cal_MemGetBlock` (calMem.c:168-234) with `BlockSizeIndex` (calMem.c:419-429) -/
def getBlock (top : Nat) (s : St) (size : Nat) : Out (St × Nat) :=
  if size < 1 then .ok (s, 0)
  else if size > 2 ^ maxIdx - hdr then .exit
  else
    match ceilingLog2 (size + hdr) with
    | none => .undef
    | some i =>
      match find s.avail i with
      | some j => take s i j
      | none =>
        (grow top s i).andThen fun s =>
          match find s.avail i with
          | some j => take s i j
          | none => .undef

/-- `Cal_MemFreeBlock` (calMem.c:239-248). (A negative size index is a large one here.) -/
def freeBlock (s : St) (p : Nat) : Out St :=
  if p = 0 then .ok s
  else
    let b := p - hdr
    if s.mem b = 0 then .exit
    else if s.mem (b + oSize) > maxIdx then .exit
    else
      match mergeAndFree s b with
      | none => .undef
      | some s => .ok s

/-- The loop of `Cal_MemResizeBlock` that adds buddies at higher addresses (calMem.c:280-285); whether the
size was reached -/
def expand : Nat → St → Nat → Nat → Option (St × Bool)
  | 0, _, _, _ => none
  | k + 1, s, b, i =>
    let bb := buddy s b
    if bb ≠ 0 ∧ b < bb ∧ s.mem bb = 0 ∧ s.mem (bb + oSize) = s.mem (b + oSize) then
      match removeFromFree s bb with
      | none => none
      | some s =>
        let s := s.set (b + oSize) (s.mem (b + oSize) + 1)
        if s.mem (b + oSize) = i then some (s, true) else expand k s b i
    else some (s, false)

/-- `memcpy` -/
def copy (m : Nat → Nat) (q p n : Nat) : Nat → Nat :=
  fun x => if q ≤ x ∧ x < q + n then m (p + (x - q)) else m x

/-- `Cal_MemResizeBlock` (calMem.c:255-292) -/
def resizeBlock (top : Nat) (s : St) (p size : Nat) : Out (St × Nat) :=
  if p = 0 then getBlock top s size
  else
    let b := p - hdr
    if s.mem b = 0 then .exit
    else if s.mem (b + oSize) > maxIdx then .exit
    else if size < 1 then (freeBlock s p).andThen fun s => .ok (s, 0)
    else if size > 2 ^ maxIdx - hdr then .exit
    else
      match ceilingLog2 (size + hdr) with
      | none => .undef
      | some i =>
        if s.mem (b + oSize) ≥ i then
          match trim 64 s b i with
          | none => .undef
          | some s => .ok (s, p)
        else
          let old := 2 ^ s.mem (b + oSize) - hdr
          match expand 64 s b i with
          | none => .undef
          | some (s, true) => .ok (s, p)
          | some (s, false) =>
            (getBlock top s size).andThen fun r =>
              match mergeAndFree { r.1 with mem := copy r.1.mem r.2 p old } b with
              | none => .undef
              | some s => .ok (s, r.2)

/-- The state at the start of the program (calMem.c:108-119); the break is wherever the system put it. -/
def init (mem : Nat → Nat) (brk : Nat) : St :=
  { mem, avail := fun _ => 0, curr := none, alloc := 0, brk, got := [] }

end Cal.Mem
