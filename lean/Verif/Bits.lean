/-!
# The words of a node (C09, C10)

A node is three machine words (and two ids). The low four bits of a word that holds a node address
are free, because nodes are 16-byte aligned; the code keeps there the complement bits of the two
children, two mark bits and, scattered over all three words, the 8-bit reference count.

The first part transcribes the macros of `calInt.h` as operations on 64-bit words. `CalAddress_t` is
`unsigned long`, taken to be 64 bits wide. The second part is the specification: `ANode` is a node as a
user of the macros thinks of it, `enc` says which bit holds what, and every macro is shown to do to the
words exactly what its name says it does to the record.
-/

namespace Cal.Bits

/-- `CalAddress_t` (calInt.h:266) -/
abbrev Word := BitVec 64

/-- The pointer fields of `CalBddNode_t` (calInt.h:310-317). The two ids are ordinary fields that share
no bits with anything; they are left out. -/
structure Words where
  next : Word
  thn : Word
  els : Word
deriving DecidableEq

/-- the masks of the macros -/
def k1 : Word := 0x1
def k2 : Word := 0x2
def k4 : Word := 0x4
def kC : Word := 0xc
def kE : Word := 0xe
def kF : Word := 0xf

/-! ### The macros -/

/-- `CAL_BDD_POINTER` (calInt.h:616) -/
def ptr (p : Word) : Word := p &&& ~~~kF
/-- `CAL_TAG0` (calInt.h:617) -/
def tag0 (p : Word) : Word := p &&& k1
/-- `CalBddUpdatePhase` (calInt.h:619-621); the second argument is 0 or 1 -/
def updatePhase (p c : Word) : Word := p ^^^ c
/-- `CalBddNot`, `CalBddNodeNot`, `CalBddGetBddNodeNot` (calInt.h:693-694, 973-977, 1178) -/
def not (p : Word) : Word := p ^^^ 0x1
/-- `CalBddNodeRegular` (calInt.h:1168) -/
def regular (p : Word) : Word := p &&& ~~~k1
/-- `CalBddIsOutPos`, `CalBddNodeIsOutPos` (calInt.h:867, 1167) -/
def isOutPos (p : Word) : Bool := (p &&& k1) == 0
/-- `CalBddSameOrNegation` (calInt.h:634-635) -/
def sameOrNegation (p q : Word) : Bool := ptr p == ptr q
/-- `CalBddIsComplementEqual` (calInt.h:631-633) -/
def isComplementEqual (p q : Word) : Bool := p == q ^^^ k1

/-- `CalBddGetThenBddNode`, `CalBddGetThenBdd` (calInt.h:658-661, 668-676): the then child of what `p` points
to, `mem` being memory -/
def getThen (mem : Word → Words) (p : Word) : Word := ((mem (ptr p)).thn &&& ~~~kE) ^^^ tag0 p
/-- `CalBddGetElseBddNode`, `CalBddGetElseBdd` (calInt.h:663-666, 678-686) -/
def getElse (mem : Word → Words) (p : Word) : Word := ((mem (ptr p)).els &&& ~~~kE) ^^^ tag0 p
/-- `CalBddNodeGetThenBddNode`, `CalBddNodeGetThenBdd` (calInt.h:998-999, 1003-1008) -/
def nodeThen (n : Words) : Word := n.thn &&& ~~~kE
/-- `CalBddNodeGetElseBddNode`, `CalBddNodeGetElseBdd` (calInt.h:1000-1001, 1010-1015) -/
def nodeElse (n : Words) : Word := n.els &&& ~~~kE
/-- `CalBddGetNextBddNode`, `CalBddNodeGetNextBddNode` (calInt.h:696-698, 1017-1018) -/
def nodeNext (n : Words) : Word := n.next &&& ~~~kF

/-- `CalBddPutThenBddNode`, `CalBddPutThenBdd`, `CalBddNodePutThenBdd…` (calInt.h:705-712, 723-731, 1020-1021, 1026-1031, 1040-1046) -/
def putThen (n : Words) (p : Word) : Words := { n with thn := (n.thn &&& kE) ||| (p &&& ~~~kE) }
/-- `CalBddPutElseBddNode`, `CalBddPutElseBdd`, `CalBddNodePutElseBdd…` (calInt.h:714-721, 733-741, 1023-1024, 1033-1038, 1048-1054) -/
def putElse (n : Words) (p : Word) : Words := { n with els := (n.els &&& kE) ||| (p &&& ~~~kE) }
/-- `CalBddPutNextBddNode`, `CalBddNodePutNextBddNode` (calInt.h:745-752, 1056-1061) -/
def putNext (n : Words) (p : Word) : Words := { n with next := (n.next &&& kF) ||| (p &&& ~~~kF) }

/-- `CalBddGetRefCount`, `CalBddNodeGetRefCount` (calInt.h:754-763, 1064-1071); the count is an
`unsigned short` -/
def getRef (n : Words) : BitVec 16 :=
  let r : BitVec 16 := (n.thn &&& k2).setWidth 16
  let r := r <<< 3
  let r := r ||| (n.els &&& kE).setWidth 16
  let r := r <<< 3
  r ||| (n.next &&& kF).setWidth 16

/-- `CalBddPutRefCount`, `CalBddNodePutRefCount` (calInt.h:765-779, 1073-1085) -/
def putRef (n : Words) (count : BitVec 16) : Words :=
  let nextTag := count &&& 0xf
  let thenTag := (count >>> 6) &&& 0x2
  let elseTag := (count >>> 3) &&& 0xe
  { next := (n.next &&& ~~~kF) ||| nextTag.setWidth 64
    thn := (n.thn &&& ~~~k2) ||| thenTag.setWidth 64
    els := (n.els &&& ~~~kE) ||| elseTag.setWidth 64 }

/-- `CalBddIcrRefCount`, `CalBddNodeIcrRefCount` (calInt.h:781-806, 1118-1142) -/
def icr (n : Words) : Words :=
  if (n.next &&& kF) ≠ kF then { n with next := n.next + 1 }
  else if (n.els &&& kE) ≠ kE then { n with next := n.next &&& ~~~kF, els := n.els + 2 }
  else if (n.thn &&& k2) = 0 then
    { next := n.next &&& ~~~kF, els := n.els &&& ~~~kE, thn := n.thn ||| k2 }
  else n

/-- `CalBddDcrRefCount`, `CalBddNodeDcrRefCount` (calInt.h:808-838, 1087-1116); below zero it prints a
warning and does nothing -/
def dcr (n : Words) : Words :=
  if (n.next &&& kF) = 0 then
    if (n.els &&& kE) = 0 then
      if (n.thn &&& k2) = 0 then n
      else { thn := n.thn &&& ~~~k2, els := n.els ||| kE, next := n.next ||| kF }
    else { n with els := n.els - 2, next := n.next ||| kF }
  else if (n.next &&& kF) ≠ kF ∨ (n.els &&& kE) ≠ kE ∨ (n.thn &&& k2) ≠ k2 then
    { n with next := n.next - 1 }
  else n

/-- `CAL_MAX_REF_COUNT` (calInt.h:206) -/
def maxRef : BitVec 16 := 255

/-- `CalBddAddRefCount` (calInt.h:840-851) -/
def addRef (n : Words) (num : BitVec 16) : Words :=
  let c := getRef n
  if c < maxRef then
    let c := c + num
    let c := if c > maxRef then maxRef else c
    putRef n c
  else n

/-- `CalBddNodeAddRefCount` (calInt.h:1144-1153): no test for a saturated count -/
def nodeAddRef (n : Words) (num : BitVec 16) : Words :=
  let c := getRef n
  let c := c + num
  let c := if c > maxRef then maxRef else c
  putRef n c

/-- `CalBddIsRefCountZero` (calInt.h:853-857) -/
def isRefZero (n : Words) : Bool :=
  if (n.thn &&& k2) ≠ 0 ∨ (n.els &&& kE) ≠ 0 ∨ (n.next &&& kF) ≠ 0 then false else true
/-- `CalBddIsRefCountMax` (calInt.h:859-863) -/
def isRefMax (n : Words) : Bool :=
  if (n.thn &&& k2) = k2 ∧ (n.els &&& kE) = kE ∧ (n.next &&& kF) = kF then true else false

/-- `CalBddNodeIsMarked` (calInt.h:1196-1197) -/
def isMarked (n : Words) : Bool := ((n.thn &&& k4) >>> 2) == 1
/-- `CalBddNodeMark` (calInt.h:1199-1201) -/
def mark (n : Words) : Words := { n with thn := n.thn ||| k4 }
/-- `CalBddNodeUnmark` (calInt.h:1203-1205) -/
def unmark (n : Words) : Words := { n with thn := n.thn &&& ~~~k4 }
/-- `CalBddNodeGetMark` (calInt.h:1207-1208) -/
def getMark (n : Words) : Word := (n.thn &&& kC) >>> 2
/-- `CalBddNodePutMark` (calInt.h:1210-1212) -/
def putMark (n : Words) (m : Word) : Words := { n with thn := (n.thn &&& ~~~kC) ||| (m <<< 2) }

/-- `CalBddNodeIsForwarded` (calInt.h:1328-1329) -/
def isForwarded (n : Words) : Bool := ptr (nodeElse n) == 0
/-- `CalBddForward`, `CalBddNodeForward` (calInt.h:1331-1340, 1342-1349) -/
def forward (mem : Word → Words) (p : Word) : Word := ((mem (ptr p)).thn &&& ~~~kE) ^^^ tag0 p

/-! ### The specification -/

/-- A node as the macros present it: addresses are those of 16-byte aligned objects, given by their
upper 60 bits. -/
structure ANode where
  next : BitVec 60
  thn : BitVec 60
  thnNeg : Bool
  els : BitVec 60
  elsNeg : Bool
  mark : BitVec 2
  count : BitVec 8
deriving DecidableEq

/-- the complement bit of a tagged pointer is bit 0, bits 1 to 3 are clear -/
def loP (neg : Bool) : BitVec 4 := 0#3 ++ BitVec.ofBool neg
/-- bits 0-3 of the count -/
def cL (count : BitVec 8) : BitVec 4 := count.extractLsb' 0 4
/-- bits 4-6 of the count -/
def cM (count : BitVec 8) : BitVec 3 := count.extractLsb' 4 3
/-- bit 7 of the count -/
def cH (count : BitVec 8) : BitVec 1 := count.extractLsb' 7 1
/-- bits 0-3 of the then word: complement bit, one bit of the count, two mark bits -/
def loT (mark : BitVec 2) (c : BitVec 1) (neg : Bool) : BitVec 4 := mark ++ (c ++ BitVec.ofBool neg)
/-- bits 0-3 of the else word: complement bit, three bits of the count -/
def loE (c : BitVec 3) (neg : Bool) : BitVec 4 := c ++ BitVec.ofBool neg

/-- A tagged pointer: address and complement bit. -/
def tagged (a : BitVec 60) (neg : Bool) : Word := a ++ loP neg

/-- Which bit holds what. -/
def enc (a : ANode) : Words where
  next := a.next ++ cL a.count
  thn := a.thn ++ loT a.mark (cH a.count) a.thnNeg
  els := a.els ++ loE (cM a.count) a.elsNeg

theorem k1_eq : k1 = 0#60 ++ 1#4 := by decide
theorem k2_eq : k2 = 0#60 ++ 2#4 := by decide
theorem k4_eq : k4 = 0#60 ++ 4#4 := by decide
theorem kC_eq : kC = 0#60 ++ 12#4 := by decide
theorem kE_eq : kE = 0#60 ++ 14#4 := by decide
theorem kF_eq : kF = 0#60 ++ 15#4 := by decide
theorem z_eq : (0 : Word) = 0#60 ++ 0#4 := by decide
theorem one_eq : (1 : Word) = 0#60 ++ 1#4 := by decide

theorem lo_inj {x y : BitVec 4} : (0#60 ++ x : Word) = 0#60 ++ y ↔ x = y := BitVec.append_right_inj _

theorem andk (a : BitVec 60) (l c : BitVec 4) : ((a ++ l : Word) &&& (0#60 ++ c)) = 0#60 ++ (l &&& c) := by
  rw [BitVec.and_append]; simp
theorem andnk (a : BitVec 60) (l c : BitVec 4) :
    ((a ++ l : Word) &&& ~~~(0#60 ++ c)) = a ++ (l &&& ~~~c) := by
  have : ~~~0#60 = BitVec.allOnes 60 := by decide
  rw [BitVec.not_append, BitVec.and_append, this, BitVec.and_allOnes]
theorem ork (a : BitVec 60) (l c : BitVec 4) : ((a ++ l : Word) ||| (0#60 ++ c)) = a ++ (l ||| c) := by
  rw [BitVec.or_append]; simp
theorem kor (a : BitVec 60) (l c : BitVec 4) : ((0#60 ++ c : Word) ||| (a ++ l)) = a ++ (c ||| l) := by
  rw [BitVec.or_append]; simp
theorem xork (a : BitVec 60) (l c : BitVec 4) : ((a ++ l : Word) ^^^ (0#60 ++ c)) = a ++ (l ^^^ c) := by
  rw [BitVec.xor_append]; simp

theorem toNat_app (a : BitVec 60) (l : BitVec 4) : (a ++ l : Word).toNat = a.toNat * 16 + l.toNat := by
  rw [BitVec.toNat_append, Nat.shiftLeft_eq, Nat.mul_comm, ← Nat.two_pow_add_eq_or_of_lt l.isLt]

theorem addk (a : BitVec 60) (l c : BitVec 4) (h : l.toNat + c.toNat < 16) :
    ((a ++ l : Word) + (0#60 ++ c)) = a ++ (l + c) := by
  apply BitVec.eq_of_toNat_eq
  rw [BitVec.toNat_add, toNat_app, toNat_app, toNat_app, BitVec.toNat_add]
  have := a.isLt
  simp only [BitVec.toNat_ofNat]
  omega

theorem subk (a : BitVec 60) (l c : BitVec 4) (h : c.toNat ≤ l.toNat) :
    ((a ++ l : Word) - (0#60 ++ c)) = a ++ (l - c) := by
  apply BitVec.eq_of_toNat_eq
  rw [BitVec.toNat_sub, toNat_app, toNat_app, toNat_app, BitVec.toNat_sub]
  have := a.isLt
  have := l.isLt
  have := c.isLt
  simp only [BitVec.toNat_ofNat]
  omega

theorem two_eq : (2 : Word) = 0#60 ++ 2#4 := by decide

/-- low part of a zero-extended short -/
theorem ext_eq (x : BitVec 4) : ((0#60 ++ x : Word).setWidth 16 : BitVec 16) = x.setWidth 16 := by
  revert x; decide

theorem tag_eq (x : BitVec 16) (h : x.toNat < 16) : (x.setWidth 64 : Word) = 0#60 ++ x.setWidth 4 := by
  apply BitVec.eq_of_toNat_eq
  rw [toNat_app]
  simp only [BitVec.toNat_setWidth, BitVec.toNat_ofNat]
  omega

/-- the node encoded by three words -/
def dec (n : Words) : ANode where
  next := n.next.extractLsb' 4 60
  thn := n.thn.extractLsb' 4 60
  thnNeg := n.thn.getLsbD 0
  els := n.els.extractLsb' 4 60
  elsNeg := n.els.getLsbD 0
  mark := n.thn.extractLsb' 2 2
  count := n.thn.extractLsb' 1 1 ++ (n.els.extractLsb' 1 3 ++ n.next.extractLsb' 0 4)

theorem split4 (w : Word) : ∃ (a : BitVec 60) (l : BitVec 4), w = a ++ l :=
  ⟨w.extractLsb' 4 60, w.extractLsb' 0 4, by
    rw [BitVec.extractLsb'_append_extractLsb'_eq_extractLsb' (by rfl)]; simp⟩

theorem hi_app (a : BitVec 60) (l : BitVec 4) : (a ++ l : Word).extractLsb' 4 60 = a :=
  BitVec.extractLsb'_append_eq_left
theorem lo_app (a : BitVec 60) (l : BitVec 4) (i n : Nat) (h : i + n ≤ 4) :
    (a ++ l : Word).extractLsb' i n = l.extractLsb' i n :=
  BitVec.extractLsb'_append_eq_of_add_le h
theorem bit_app (a : BitVec 60) (l : BitVec 4) : (a ++ l : Word).getLsbD 0 = l.getLsbD 0 := by
  rw [BitVec.getLsbD_append]; simp

theorem count_parts (h : BitVec 1) (m : BitVec 3) (l : BitVec 4) :
    cH (h ++ (m ++ l)) = h ∧ cM (h ++ (m ++ l)) = m ∧ cL (h ++ (m ++ l)) = l := by
  refine ⟨BitVec.extractLsb'_append_eq_left, ?_, ?_⟩
  · unfold cM
    rw [BitVec.extractLsb'_append_eq_of_add_le (by omega)]
    exact BitVec.extractLsb'_append_eq_left
  · unfold cL
    rw [BitVec.extractLsb'_append_eq_of_add_le (by omega)]
    exact BitVec.extractLsb'_append_eq_right

theorem count_eq : ∀ c : BitVec 8, cH c ++ (cM c ++ cL c) = c := by decide +kernel

theorem loT_bits : ∀ (m : BitVec 2) (c : BitVec 1) (n : Bool), (loT m c n).getLsbD 0 = n ∧
    (loT m c n).extractLsb' 2 2 = m ∧ (loT m c n).extractLsb' 1 1 = c := by decide +kernel
theorem loE_bits : ∀ (c : BitVec 3) (n : Bool), (loE c n).getLsbD 0 = n ∧
    (loE c n).extractLsb' 1 3 = c := by decide +kernel
theorem lo_bits : ∀ l : BitVec 4, loT (l.extractLsb' 2 2) (l.extractLsb' 1 1) (l.getLsbD 0) = l ∧
    loE (l.extractLsb' 1 3) (l.getLsbD 0) = l ∧ l.extractLsb' 0 4 = l := by decide +kernel

/-- Every three words are the encoding of exactly one node. -/
theorem enc_dec (n : Words) : enc (dec n) = n := by
  obtain ⟨nn, nt, ne⟩ := n
  obtain ⟨a1, l1, rfl⟩ := split4 nn
  obtain ⟨a2, l2, rfl⟩ := split4 nt
  obtain ⟨a3, l3, rfl⟩ := split4 ne
  simp only [enc, dec, hi_app, bit_app, lo_app _ _ 0 4 (by omega), lo_app _ _ 1 1 (by omega),
    lo_app _ _ 1 3 (by omega), lo_app _ _ 2 2 (by omega), Words.mk.injEq]
  obtain ⟨h1, h2, h3⟩ := count_parts (l2.extractLsb' 1 1) (l3.extractLsb' 1 3) (l1.extractLsb' 0 4)
  rw [h1, h2, h3, (lo_bits l1).2.2, (lo_bits l2).1, (lo_bits l3).2.1]
  exact ⟨rfl, rfl, rfl⟩

theorem dec_enc (a : ANode) : dec (enc a) = a := by
  obtain ⟨nx, th, tn, el, en, mk, ct⟩ := a
  simp only [enc, dec, hi_app, bit_app, lo_app _ _ 0 4 (by omega), lo_app _ _ 1 1 (by omega),
    lo_app _ _ 1 3 (by omega), lo_app _ _ 2 2 (by omega), ANode.mk.injEq, true_and]
  refine ⟨(loT_bits ..).1, (loE_bits ..).1, (loT_bits ..).2.1, ?_⟩
  rw [(loT_bits ..).2.2, (loE_bits ..).2, (lo_bits _).2.2, count_eq]

/-! ### What each macro does -/

section
variable (a : ANode)

theorem loT_and2 : ∀ (m : BitVec 2) (c : BitVec 1) (n : Bool), (loT m c n &&& 2#4) = 0#2 ++ (c ++ 0#1) := by
  decide +kernel
theorem loE_and14 : ∀ (c : BitVec 3) (n : Bool), (loE c n &&& 14#4) = c ++ 0#1 := by decide +kernel
theorem and15 : ∀ l : BitVec 4, (l &&& 15#4) = l := by decide +kernel

theorem getRef_enc : getRef (enc a) = a.count.setWidth 16 := by
  simp only [getRef, enc, k2_eq, kE_eq, kF_eq, andk, ext_eq, loT_and2, loE_and14, and15]
  have h : ∀ (ct : BitVec 8),
      ((((0#2 ++ (cH ct ++ 0#1) : BitVec 4).setWidth 16 <<< 3) ||| (cM ct ++ 0#1 : BitVec 4).setWidth 16)
        <<< 3 ||| (cL ct).setWidth 16 : BitVec 16) = ct.setWidth 16 := by decide +kernel
  exact h _

theorem loT_put : ∀ (m : BitVec 2) (c : BitVec 1) (n : Bool) (d : BitVec 1),
    (loT m c n &&& ~~~2#4 ||| 0#2 ++ (d ++ 0#1)) = loT m d n := by decide +kernel
theorem loE_put : ∀ (c : BitVec 3) (n : Bool) (d : BitVec 3),
    (loE c n &&& ~~~14#4 ||| d ++ 0#1) = loE d n := by decide +kernel
theorem lo_put : ∀ (l d : BitVec 4), (l &&& ~~~15#4 ||| d) = d := by decide +kernel

theorem putRef_enc (c : BitVec 16) : putRef (enc a) c = enc { a with count := c.setWidth 8 } := by
  have h1 : (c &&& 0xf).toNat < 16 := by
    rw [BitVec.toNat_and]; exact Nat.lt_of_le_of_lt Nat.and_le_right (by decide)
  have h2 : ((c >>> 6) &&& 0x2).toNat < 16 := by
    rw [BitVec.toNat_and]; exact Nat.lt_of_le_of_lt Nat.and_le_right (by decide)
  have h3 : ((c >>> 3) &&& 0xe).toNat < 16 := by
    rw [BitVec.toNat_and]; exact Nat.lt_of_le_of_lt Nat.and_le_right (by decide)
  simp only [putRef, enc, k2_eq, kE_eq, kF_eq, andnk, tag_eq _ h1, tag_eq _ h2, tag_eq _ h3, ork,
    Words.mk.injEq]
  have e1 : ((c &&& 0xf).setWidth 4 : BitVec 4) = (c.setWidth 8 &&& 0xf).setWidth 4 := by
    ext i hi
    have : i = 0 ∨ i = 1 ∨ i = 2 ∨ i = 3 := by omega
    rcases this with rfl | rfl | rfl | rfl <;> simp
  have e2 : ((c >>> 6 &&& 0x2).setWidth 4 : BitVec 4) = (c.setWidth 8 >>> 6 &&& 0x2).setWidth 4 := by
    ext i hi
    have : i = 0 ∨ i = 1 ∨ i = 2 ∨ i = 3 := by omega
    rcases this with rfl | rfl | rfl | rfl <;> simp
  have e3 : ((c >>> 3 &&& 0xe).setWidth 4 : BitVec 4) = (c.setWidth 8 >>> 3 &&& 0xe).setWidth 4 := by
    ext i hi
    have : i = 0 ∨ i = 1 ∨ i = 2 ∨ i = 3 := by omega
    rcases this with rfl | rfl | rfl | rfl <;> simp
  rw [e1, e2, e3]
  generalize c.setWidth 8 = d
  have h : ∀ d : BitVec 8, ((d &&& 0xf).setWidth 4 : BitVec 4) = cL d ∧
      ((d >>> 6 &&& 0x2).setWidth 4 : BitVec 4) = 0#2 ++ (cH d ++ 0#1) ∧
      ((d >>> 3 &&& 0xe).setWidth 4 : BitVec 4) = cM d ++ 0#1 := by decide +kernel
  obtain ⟨r1, r2, r3⟩ := h d
  rw [r1, r2, r3, loT_put, loE_put, lo_put]
  exact ⟨rfl, rfl, rfl⟩

/-- one more, at most 255 -/
def incr (c : BitVec 8) : BitVec 8 := if c = 255 then 255 else c + 1
/-- one less, unless zero or 255 -/
def decr (c : BitVec 8) : BitVec 8 := if c = 0 ∨ c = 255 then c else c - 1

theorem icr_enc : icr (enc a) = enc { a with count := incr a.count } := by
  obtain ⟨nx, th, tn, el, en, mk, ct⟩ := a
  simp only [icr, enc, k2_eq, kE_eq, kF_eq, andk, andnk, ork, loT_and2, loE_and14, and15, ne_eq, lo_inj,
    z_eq, one_eq, two_eq]
  have h1 : ∀ c : BitVec 8,
    (cL c ≠ 15#4 → cL (incr c) = cL c + 1 ∧ cM (incr c) = cM c ∧ cH (incr c) = cH c ∧ (cL c).toNat + 1 < 16) := by decide +kernel
  have h2 : ∀ c : BitVec 8, (cL c = 15#4 → cM c ≠ 7 → cL (incr c) = 0 ∧ cM (incr c) = cM c + 1 ∧ cH (incr c) = cH c) := by decide +kernel
  have h3 : ∀ c : BitVec 8, (cL c = 15#4 → cM c = 7 → cH c = 0 → cL (incr c) = 0 ∧ cM (incr c) = 0 ∧ cH (incr c) = 1) := by decide +kernel
  have h4 : ∀ c : BitVec 8, (cL c = 15#4 → cM c = 7 → cH c ≠ 0 → incr c = c) := by decide +kernel
  have t1 : ∀ c : BitVec 3, (c ++ 0#1 : BitVec 4) = 14#4 ↔ c = 7 := by decide +kernel
  have t2 : ∀ c : BitVec 1, (0#2 ++ (c ++ 0#1) : BitVec 4) = 0#4 ↔ c = 0 := by decide +kernel
  have t3 : ∀ (c : BitVec 3) (n : Bool), c ≠ 7 → loE c n + 2#4 = loE (c + 1) n ∧
      (loE c n).toNat + 2 < 16 := by decide +kernel
  have t4 : ∀ (c : BitVec 3) (n : Bool), (loE c n &&& ~~~14#4) = loE 0 n := by decide +kernel
  have t5 : ∀ (m : BitVec 2) (n : Bool), (loT m 0 n ||| 2#4) = loT m 1 n := by decide +kernel
  have t6 : ∀ l : BitVec 4, (l &&& ~~~15#4) = 0 := by decide +kernel
  have p1 := h1 ct; have p2 := h2 ct; have p3 := h3 ct; have p4 := h4 ct
  simp only [t1, t2, t4, t6]
  by_cases q1 : cL ct = 15#4
  · by_cases q2 : cM ct = 7
    · by_cases q3 : cH ct = 0
      · obtain ⟨r1, r2, r3⟩ := p3 q1 q2 q3
        rw [if_neg (by simp [q1]), if_neg (by simp [q2]), if_pos q3, r1, r2, r3, q3, t5]
      · rw [if_neg (by simp [q1]), if_neg (by simp [q2]), if_neg q3, p4 q1 q2 q3]
    · obtain ⟨r1, r2, r3⟩ := p2 q1 q2
      rw [if_neg (by simp [q1]), if_pos q2, r1, r2, r3, addk _ _ _ (t3 _ _ q2).2, (t3 _ _ q2).1]
  · obtain ⟨r1, r2, r3, r4⟩ := p1 q1
    rw [if_pos q1, r1, r2, r3, addk _ _ _ r4]
    rfl

theorem dcr_enc : dcr (enc a) = enc { a with count := decr a.count } := by
  obtain ⟨nx, th, tn, el, en, mk, ct⟩ := a
  simp only [dcr, enc, k2_eq, kE_eq, kF_eq, andk, andnk, ork, loT_and2, loE_and14, and15, ne_eq, lo_inj,
    z_eq, one_eq, two_eq]
  have h1 : ∀ c : BitVec 8, (cL c = 0#4 → cM c = 0 → cH c = 0 → decr c = c) := by decide +kernel
  have h2 : ∀ c : BitVec 8, (cL c = 0#4 → cM c = 0 → cH c ≠ 0 → cL (decr c) = 15 ∧ cM (decr c) = 7 ∧ cH (decr c) = 0) := by decide +kernel
  have h3 : ∀ c : BitVec 8, (cL c = 0#4 → cM c ≠ 0 → cL (decr c) = 15 ∧ cM (decr c) = cM c - 1 ∧ cH (decr c) = cH c) := by decide +kernel
  have h4 : ∀ c : BitVec 8, (cL c ≠ 0#4 → ¬ (cL c = 15#4 ∧ cM c = 7 ∧ cH c = 1) →
      cL (decr c) = cL c - 1 ∧ cM (decr c) = cM c ∧ cH (decr c) = cH c ∧ 1 ≤ (cL c).toNat) := by decide +kernel
  have h5 : ∀ c : BitVec 8, (cL c = 15#4 ∧ cM c = 7 ∧ cH c = 1 → decr c = c) := by decide +kernel
  have t1 : ∀ c : BitVec 3, ((c ++ 0#1 : BitVec 4) = 14#4 ↔ c = 7) ∧ ((c ++ 0#1 : BitVec 4) = 0#4 ↔ c = 0) := by
    decide +kernel
  have t2 : ∀ c : BitVec 1, ((0#2 ++ (c ++ 0#1) : BitVec 4) = 0#4 ↔ c = 0) ∧
      ((0#2 ++ (c ++ 0#1) : BitVec 4) = 2#4 ↔ c = 1) := by decide +kernel
  have t3 : ∀ (c : BitVec 3) (n : Bool), c ≠ 0 → loE c n - 2#4 = loE (c - 1) n ∧
      2 ≤ (loE c n).toNat := by decide +kernel
  have t4 : ∀ (c : BitVec 3) (n : Bool), (loE c n ||| 14#4) = loE 7 n := by decide +kernel
  have t5 : ∀ (m : BitVec 2) (c : BitVec 1) (n : Bool), (loT m c n &&& ~~~2#4) = loT m 0 n := by
    decide +kernel
  have t6 : ∀ l : BitVec 4, (l ||| 15#4) = 15 := by decide +kernel
  have p1 := h1 ct; have p2 := h2 ct; have p3 := h3 ct; have p4 := h4 ct; have p5 := h5 ct
  simp only [(t1 _).1, (t1 _).2, (t2 _).1, (t2 _).2, t4, t5, t6]
  by_cases q1 : cL ct = 0#4
  · rw [if_pos q1]
    by_cases q2 : cM ct = 0
    · rw [if_pos q2]
      by_cases q3 : cH ct = 0
      · rw [if_pos q3, p1 q1 q2 q3]
      · obtain ⟨r1, r2, r3⟩ := p2 q1 q2 q3
        rw [if_neg q3, r1, r2, r3]
    · obtain ⟨r1, r2, r3⟩ := p3 q1 q2
      rw [if_neg q2, r1, r2, r3, subk _ _ 2#4 (t3 _ _ q2).2, (t3 _ _ q2).1]
  · rw [if_neg q1]
    by_cases q2 : cL ct = 15#4 ∧ cM ct = 7 ∧ cH ct = 1
    · rw [if_neg (by simp [q2]), p5 q2]
    · obtain ⟨r1, r2, r3, r4⟩ := p4 q1 q2
      rw [if_pos ?_, r1, r2, r3, subk _ _ 1#4 r4]
      · rfl
      · by_cases z1 : cL ct = 15#4
        · by_cases z2 : cM ct = 7
          · exact Or.inr (Or.inr fun z3 => q2 ⟨z1, z2, z3⟩)
          · exact Or.inr (Or.inl z2)
        · exact Or.inl z1

/-- the sum, at most 255 -/
def plus (c : BitVec 8) (num : Nat) : BitVec 8 := BitVec.ofNat 8 (min 255 (c.toNat + num))

theorem sum_ok (c : BitVec 8) (num : BitVec 16) (h : num.toNat ≤ 65280) :
    ((if c.setWidth 16 + num > maxRef then maxRef else c.setWidth 16 + num).setWidth 8 : BitVec 8) =
      plus c num.toNat := by
  apply BitVec.eq_of_toNat_eq
  have := c.isLt
  have e : (c.setWidth 16 + num).toNat = c.toNat + num.toNat := by
    rw [BitVec.toNat_add, BitVec.toNat_setWidth]; omega
  have e2 : maxRef.toNat = 255 := by decide
  by_cases hc : c.setWidth 16 + num > maxRef
  · rw [if_pos hc]
    rw [gt_iff_lt, BitVec.lt_def, e, e2] at hc
    simp only [plus, BitVec.toNat_setWidth, BitVec.toNat_ofNat, e2]
    omega
  · rw [if_neg hc]
    rw [gt_iff_lt, BitVec.lt_def, e, e2] at hc
    simp only [plus, BitVec.toNat_setWidth, BitVec.toNat_ofNat, e] at *
    omega

theorem nodeAddRef_enc (num : BitVec 16) (h : num.toNat ≤ 65280) :
    nodeAddRef (enc a) num = enc { a with count := plus a.count num.toNat } := by
  simp only [nodeAddRef, getRef_enc, putRef_enc, sum_ok _ _ h]

theorem addRef_enc (num : BitVec 16) (h : num.toNat ≤ 65280) :
    addRef (enc a) num = enc { a with count := plus a.count num.toNat } := by
  simp only [addRef, getRef_enc, putRef_enc, sum_ok _ _ h]
  split
  · rfl
  · rename_i hc
    rw [BitVec.lt_def, BitVec.toNat_setWidth] at hc
    have e2 : maxRef.toNat = 255 := by decide
    have := a.count.isLt
    have hp : plus a.count num.toNat = a.count := by
      apply BitVec.eq_of_toNat_eq
      simp only [plus, BitVec.toNat_ofNat]
      omega
    rw [hp]

theorem isRefZero_enc : isRefZero (enc a) = (a.count == 0) := by
  obtain ⟨nx, th, tn, el, en, mk, ct⟩ := a
  simp only [isRefZero, enc, k2_eq, kE_eq, kF_eq, andk, loT_and2, loE_and14, and15, ne_eq, lo_inj, z_eq]
  revert ct; decide +kernel

theorem isRefMax_enc : isRefMax (enc a) = (a.count == 255) := by
  obtain ⟨nx, th, tn, el, en, mk, ct⟩ := a
  simp only [isRefMax, enc, k2_eq, kE_eq, kF_eq, andk, loT_and2, loE_and14, and15, lo_inj]
  revert ct; decide +kernel

/-! pointers -/

theorem loP_bits : ∀ n : Bool, (loP n &&& ~~~15#4) = 0#4 ∧ (loP n &&& 1#4) = loP n ∧
    (loP n ^^^ 1#4) = loP (!n) ∧ (loP n &&& ~~~1#4) = loP false := by decide

theorem ptr_tagged (x : BitVec 60) (n : Bool) : ptr (tagged x n) = tagged x false := by
  simp only [ptr, tagged, kF_eq, andnk, loP_bits]; rfl
theorem tag0_tagged (x : BitVec 60) (n : Bool) : tag0 (tagged x n) = 0#60 ++ loP n := by
  simp only [tag0, tagged, k1_eq, andk, loP_bits]
theorem not_tagged (x : BitVec 60) (n : Bool) : not (tagged x n) = tagged x (!n) := by
  have : (0x1 : Word) = 0#60 ++ 1#4 := by decide
  simp only [not, tagged, this, xork, loP_bits]
theorem regular_tagged (x : BitVec 60) (n : Bool) : regular (tagged x n) = tagged x false := by
  simp only [regular, tagged, k1_eq, andnk, loP_bits]
theorem isOutPos_tagged (x : BitVec 60) (n : Bool) : isOutPos (tagged x n) = !n := by
  simp only [isOutPos, tagged, k1_eq, andk, loP_bits]
  cases n <;> decide
theorem tagged_inj {x y : BitVec 60} {n k : Bool} : tagged x n = tagged y k ↔ x = y ∧ n = k := by
  constructor
  · intro h
    have h1 := congrArg (fun w : Word => w.extractLsb' 4 60) h
    have h2 := congrArg isOutPos h
    simp only [isOutPos_tagged] at h2
    simp only [tagged, hi_app] at h1
    exact ⟨h1, by simpa using h2⟩
  · rintro ⟨rfl, rfl⟩; rfl
theorem sameOrNegation_tagged (x y : BitVec 60) (n k : Bool) :
    sameOrNegation (tagged x n) (tagged y k) = decide (x = y) := by
  simp only [sameOrNegation, ptr_tagged]
  by_cases h : x = y
  · simp [h]
  · have : tagged x false ≠ tagged y false := fun e => h (tagged_inj.1 e).1
    simp [h, this]
theorem isComplementEqual_tagged (x y : BitVec 60) (n k : Bool) :
    isComplementEqual (tagged x n) (tagged y k) = decide (x = y ∧ n = !k) := by
  have h1 : tagged y k ^^^ k1 = tagged y (!k) := not_tagged y k
  unfold isComplementEqual
  rw [h1, Bool.eq_iff_iff, beq_iff_eq, tagged_inj, decide_eq_true_iff]
theorem updatePhase_tagged (x : BitVec 60) (n k : Bool) :
    updatePhase (tagged x n) (if k then 1 else 0) = tagged x (n ^^ k) := by
  cases k
  · have : (if false = true then (1 : Word) else 0) = 0 := rfl
    simp only [updatePhase, this]
    rw [show (0 : Word) = 0#64 from rfl, BitVec.xor_zero, Bool.xor_false]
  · have := not_tagged x n
    rw [Bool.xor_true]
    exact this

theorem loT_clear : ∀ (m : BitVec 2) (c : BitVec 1) (n : Bool), (loT m c n &&& ~~~14#4) = loP n := by decide +kernel
theorem loE_clear : ∀ (c : BitVec 3) (n : Bool), (loE c n &&& ~~~14#4) = loP n := by decide +kernel
theorem loP_xor : ∀ n k : Bool, (loP n ^^^ loP k) = loP (n ^^ k) := by decide +kernel

theorem nodeThen_enc : nodeThen (enc a) = tagged a.thn a.thnNeg := by
  simp only [nodeThen, enc, kE_eq, andnk, loT_clear]; rfl
theorem nodeElse_enc : nodeElse (enc a) = tagged a.els a.elsNeg := by
  simp only [nodeElse, enc, kE_eq, andnk, loE_clear]; rfl
theorem nodeNext_enc : nodeNext (enc a) = tagged a.next false := by
  have t6 : ∀ l : BitVec 4, (l &&& ~~~15#4) = loP false := by decide +kernel
  simp only [nodeNext, enc, kF_eq, andnk, t6]; rfl

theorem getThen_enc {mem : Word → Words} {x : BitVec 60} (h : mem (tagged x false) = enc a) (n : Bool) :
    getThen mem (tagged x n) = tagged a.thn (a.thnNeg ^^ n) := by
  have e : (mem (tagged x false)).thn &&& ~~~kE = tagged a.thn a.thnNeg := by rw [h]; exact nodeThen_enc a
  simp only [getThen, ptr_tagged, tag0_tagged, e]
  simp only [tagged, xork, loP_xor]
theorem getElse_enc {mem : Word → Words} {x : BitVec 60} (h : mem (tagged x false) = enc a) (n : Bool) :
    getElse mem (tagged x n) = tagged a.els (a.elsNeg ^^ n) := by
  have e : (mem (tagged x false)).els &&& ~~~kE = tagged a.els a.elsNeg := by rw [h]; exact nodeElse_enc a
  simp only [getElse, ptr_tagged, tag0_tagged, e]
  simp only [tagged, xork, loP_xor]

theorem putThen_enc (x : BitVec 60) (n : Bool) :
    putThen (enc a) (tagged x n) = enc { a with thn := x, thnNeg := n } := by
  have t : ∀ (m : BitVec 2) (c : BitVec 1) (n k : Bool),
      (loT m c n &&& 14#4 ||| loP k &&& ~~~14#4) = loT m c k := by decide +kernel
  simp only [putThen, enc, tagged, kE_eq, andk, andnk, kor, t]
theorem putElse_enc (x : BitVec 60) (n : Bool) :
    putElse (enc a) (tagged x n) = enc { a with els := x, elsNeg := n } := by
  have t : ∀ (c : BitVec 3) (n k : Bool),
      (loE c n &&& 14#4 ||| loP k &&& ~~~14#4) = loE c k := by decide +kernel
  simp only [putElse, enc, tagged, kE_eq, andk, andnk, kor, t]
theorem putNext_enc (x : BitVec 60) (n : Bool) :
    putNext (enc a) (tagged x n) = enc { a with next := x } := by
  have t : ∀ (l : BitVec 4) (k : Bool), (l &&& 15#4 ||| loP k &&& ~~~15#4) = l := by decide +kernel
  simp only [putNext, enc, tagged, kF_eq, andk, andnk, kor, t]

/-- the mark used by traversals is bit 0 of the two mark bits -/
theorem isMarked_enc : isMarked (enc a) = (a.mark.getLsbD 0) := by
  have t : ∀ (m : BitVec 2) (c : BitVec 1) (n : Bool),
      (((0#60 ++ (loT m c n &&& 4#4) : Word) >>> 2) == 1) = m.getLsbD 0 := by decide +kernel
  simp only [isMarked, enc, k4_eq, andk]
  exact t _ _ _
theorem mark_enc : mark (enc a) = enc { a with mark := a.mark ||| 1 } := by
  have t : ∀ (m : BitVec 2) (c : BitVec 1) (n : Bool), (loT m c n ||| 4#4) = loT (m ||| 1) c n := by decide +kernel
  simp only [mark, enc, k4_eq, ork, t]
theorem unmark_enc : unmark (enc a) = enc { a with mark := a.mark &&& 2 } := by
  have t : ∀ (m : BitVec 2) (c : BitVec 1) (n : Bool), (loT m c n &&& ~~~4#4) = loT (m &&& 2) c n := by decide +kernel
  simp only [unmark, enc, k4_eq, andnk, t]
theorem getMark_enc : getMark (enc a) = a.mark.setWidth 64 := by
  have t : ∀ (m : BitVec 2) (c : BitVec 1) (n : Bool),
      ((0#60 ++ (loT m c n &&& 12#4) : Word) >>> 2) = m.setWidth 64 := by decide +kernel
  simp only [getMark, enc, kC_eq, andk]
  exact t _ _ _
theorem putMark_enc (m : BitVec 2) : putMark (enc a) (m.setWidth 64) = enc { a with mark := m } := by
  have t : ∀ m : BitVec 2, ((m.setWidth 64 : Word) <<< 2) = 0#60 ++ (m ++ 0#2 : BitVec 4) := by decide +kernel
  have t2 : ∀ (m : BitVec 2) (c : BitVec 1) (n : Bool) (k : BitVec 2),
      (loT m c n &&& ~~~12#4 ||| (k ++ 0#2)) = loT k c n := by decide +kernel
  simp only [putMark, enc, kC_eq, andnk, t]
  rw [← t2 a.mark (cH a.count) a.thnNeg m, ← ork]

theorem isForwarded_enc : isForwarded (enc a) = (a.els == 0) := by
  unfold isForwarded
  rw [nodeElse_enc, ptr_tagged, show (0 : Word) = tagged 0 false by decide, Bool.eq_iff_iff, beq_iff_eq,
    tagged_inj, beq_iff_eq]
  simp
theorem forward_enc {mem : Word → Words} {x : BitVec 60} (h : mem (tagged x false) = enc a) (n : Bool) :
    forward mem (tagged x n) = tagged a.thn (a.thnNeg ^^ n) := getThen_enc a h n

end

/-! ### Properties -/

/-- The encoding is one to one and onto: no two fields share a bit and no bit is without meaning. -/
theorem C09_encoding : (∀ n : Words, ∃ a, enc a = n) ∧ ∀ a b, enc a = enc b → a = b :=
  ⟨fun n => ⟨dec n, enc_dec n⟩, fun a b h => by rw [← dec_enc a, h, dec_enc]⟩

/-- The count is read back exactly as written, and writing it changes nothing else: addresses,
complement bits and marks stay. -/
theorem C09_readback (a : ANode) (c : BitVec 16) (h : c.toNat ≤ 255) :
    getRef (putRef (enc a) c) = c ∧ putRef (enc a) c = enc { a with count := c.setWidth 8 } := by
  refine ⟨?_, putRef_enc a c⟩
  rw [putRef_enc, getRef_enc]
  apply BitVec.eq_of_toNat_eq
  simp only [BitVec.toNat_setWidth]
  omega

/-- The count as a number. -/
def count (n : Words) : Nat := (getRef n).toNat

theorem count_enc (a : ANode) : count (enc a) = a.count.toNat := by
  have := a.count.isLt
  rw [count, getRef_enc, BitVec.toNat_setWidth]; omega

/-- everything but the count is the same -/
def Others (n k : Words) : Prop :=
  nodeThen k = nodeThen n ∧ nodeElse k = nodeElse n ∧ nodeNext k = nodeNext n ∧ getMark k = getMark n

theorem others_enc (a : ANode) (c : BitVec 8) : Others (enc a) (enc { a with count := c }) := by
  simp only [Others, nodeThen_enc, nodeElse_enc, nodeNext_enc, getMark_enc, and_self]

/-- Incrementing adds one, and stays at 255. -/
theorem C09_increment (n : Words) :
    count (icr n) = (if count n = 255 then 255 else count n + 1) ∧ Others n (icr n) := by
  rw [← enc_dec n]
  generalize dec n = a
  rw [icr_enc, count_enc, count_enc]
  refine ⟨?_, others_enc a _⟩
  have : ∀ c : BitVec 8, (incr c).toNat = if c.toNat = 255 then 255 else c.toNat + 1 := by decide +kernel
  exact this _

/-- Decrementing takes one away, except from 0, and except from 255: a saturated count is sticky. -/
theorem C09_decrement (n : Words) :
    count (dcr n) = (if count n = 0 ∨ count n = 255 then count n else count n - 1) ∧
    Others n (dcr n) := by
  rw [← enc_dec n]
  generalize dec n = a
  rw [dcr_enc, count_enc, count_enc]
  refine ⟨?_, others_enc a _⟩
  have : ∀ c : BitVec 8, (decr c).toNat = if c.toNat = 0 ∨ c.toNat = 255 then c.toNat else c.toNat - 1 := by
    decide +kernel
  exact this _

/-- Adding adds and saturates (both versions of the macro), as long as the sum fits the `unsigned
short` it is computed in. -/
theorem C09_add (n : Words) (k : Nat) (h : k ≤ 65280) :
    count (addRef n (BitVec.ofNat 16 k)) = min 255 (count n + k) ∧
    nodeAddRef n (BitVec.ofNat 16 k) = addRef n (BitVec.ofNat 16 k) ∧
    Others n (addRef n (BitVec.ofNat 16 k)) := by
  rw [← enc_dec n]
  generalize dec n = a
  have hk : (BitVec.ofNat 16 k).toNat = k := by rw [BitVec.toNat_ofNat]; omega
  have := a.count.isLt
  rw [addRef_enc a _ (by omega), nodeAddRef_enc a _ (by omega), count_enc, count_enc, hk]
  refine ⟨?_, rfl, others_enc a _⟩
  simp only [plus, BitVec.toNat_ofNat]
  omega

/-- The tests for 0 and 255 test for 0 and 255. -/
theorem C09_tests (n : Words) :
    isRefZero n = decide (count n = 0) ∧ isRefMax n = decide (count n = 255) := by
  rw [← enc_dec n]
  generalize dec n = a
  rw [isRefZero_enc, isRefMax_enc, count_enc]
  have : ∀ c : BitVec 8, (c == 0) = decide (c.toNat = 0) ∧ (c == 255) = decide (c.toNat = 255) := by
    decide +kernel
  exact this _

/-- a node with a count of 137, marks and complement bits set -/
def sample : ANode :=
  { next := 0x55555, thn := 0x1234567, thnNeg := true, els := 0x7654321, elsNeg := false, mark := 1, count := 137 }
example : enc sample = ⟨0x555559, 0x12345677, 0x76543210⟩ := by decide
example : count (enc sample) = 137 ∧ count (icr (enc sample)) = 138 ∧ count (dcr (enc sample)) = 136 := by
  decide
example : count (putRef (enc sample) 255) = 255 ∧ count (dcr (putRef (enc sample) 255)) = 255 := by decide
/-- crossing both word boundaries -/
example : count (icr (putRef (enc sample) 127)) = 128 ∧ count (dcr (putRef (enc sample) 128)) = 127 := by
  decide

/-- Reading the children of a node through a tagged pointer gives the stored child with the
complement bit of the pointer folded in, whatever the count and the marks of the node are. -/
theorem C10_get (mem : Word → Words) (x : BitVec 60) (n : Bool) (t e : BitVec 60) (tn en : Bool)
    (ht : nodeThen (mem (tagged x false)) = tagged t tn)
    (he : nodeElse (mem (tagged x false)) = tagged e en) :
    getThen mem (tagged x n) = tagged t (tn ^^ n) ∧ getElse mem (tagged x n) = tagged e (en ^^ n) := by
  have h := (enc_dec (mem (tagged x false))).symm
  generalize dec (mem (tagged x false)) = a at h
  rw [h, nodeThen_enc, tagged_inj] at ht
  rw [h, nodeElse_enc, tagged_inj] at he
  rw [getThen_enc a h, getElse_enc a h, ht.1, ht.2, he.1, he.2]
  exact ⟨rfl, rfl⟩

/-- What is written is read back, and nothing else changes: not the other child, the chain pointer,
the marks or the count. -/
theorem C10_put (n : Words) (x : BitVec 60) (b : Bool) :
    (nodeThen (putThen n (tagged x b)) = tagged x b ∧ nodeElse (putThen n (tagged x b)) = nodeElse n ∧
      nodeNext (putThen n (tagged x b)) = nodeNext n ∧ getMark (putThen n (tagged x b)) = getMark n ∧
      count (putThen n (tagged x b)) = count n) ∧
    (nodeElse (putElse n (tagged x b)) = tagged x b ∧ nodeThen (putElse n (tagged x b)) = nodeThen n ∧
      nodeNext (putElse n (tagged x b)) = nodeNext n ∧ getMark (putElse n (tagged x b)) = getMark n ∧
      count (putElse n (tagged x b)) = count n) ∧
    (nodeNext (putNext n (tagged x b)) = tagged x false ∧ nodeThen (putNext n (tagged x b)) = nodeThen n ∧
      nodeElse (putNext n (tagged x b)) = nodeElse n ∧ getMark (putNext n (tagged x b)) = getMark n ∧
      count (putNext n (tagged x b)) = count n) := by
  rw [← enc_dec n]
  generalize dec n = a
  simp only [putThen_enc, putElse_enc, putNext_enc, nodeThen_enc, nodeElse_enc, nodeNext_enc,
    getMark_enc, count_enc, and_self]

/-- Marks are read back as written, marking and unmarking touch only the mark. -/
theorem C10_mark (n : Words) (m : BitVec 2) :
    getMark (putMark n (m.setWidth 64)) = m.setWidth 64 ∧ isMarked (mark n) = true ∧
    isMarked (unmark n) = false ∧ isMarked n = (getMark n).getLsbD 0 ∧
    (∀ k ∈ [putMark n (m.setWidth 64), mark n, unmark n], nodeThen k = nodeThen n ∧
      nodeElse k = nodeElse n ∧ nodeNext k = nodeNext n ∧ count k = count n) := by
  rw [← enc_dec n]
  generalize dec n = a
  have t1 : ∀ m : BitVec 2, (m ||| 1).getLsbD 0 = true ∧ (m &&& 2).getLsbD 0 = false ∧
      (m.setWidth 64 : Word).getLsbD 0 = m.getLsbD 0 := by decide +kernel
  simp only [putMark_enc, mark_enc, unmark_enc, getMark_enc, isMarked_enc, (t1 _).1, (t1 _).2.1, (t1 _).2.2,
    true_and]
  intro k hk
  simp only [List.mem_cons, List.not_mem_nil, or_false] at hk
  rcases hk with rfl | rfl | rfl <;>
    simp only [nodeThen_enc, nodeElse_enc, nodeNext_enc, count_enc, and_self]

/-- Tagged pointers: equality, complement and the comparisons are those of (address, complement). -/
theorem C10_pointers (x y : BitVec 60) (n k : Bool) :
    (tagged x n = tagged y k ↔ x = y ∧ n = k) ∧ not (tagged x n) = tagged x (!n) ∧
    ptr (tagged x n) = tagged x false ∧ regular (tagged x n) = tagged x false ∧
    isOutPos (tagged x n) = !n ∧ sameOrNegation (tagged x n) (tagged y k) = decide (x = y) ∧
    isComplementEqual (tagged x n) (tagged y k) = decide (x = y ∧ n = !k) ∧
    updatePhase (tagged x n) (if k then 1 else 0) = tagged x (n ^^ k) :=
  ⟨tagged_inj, not_tagged x n, ptr_tagged x n, regular_tagged x n, isOutPos_tagged x n,
    sameOrNegation_tagged x y n k, isComplementEqual_tagged x y n k, updatePhase_tagged x n k⟩

/-- A node counts as forwarded exactly when its else address is zero, and forwarding follows the then
pointer with the complement bit folded in. -/
theorem C10_forward (mem : Word → Words) (x : BitVec 60) (n : Bool) (t e : BitVec 60) (tn en : Bool)
    (ht : nodeThen (mem (tagged x false)) = tagged t tn)
    (he : nodeElse (mem (tagged x false)) = tagged e en) :
    isForwarded (mem (tagged x false)) = decide (e = 0) ∧
    forward mem (tagged x n) = tagged t (tn ^^ n) := by
  refine ⟨?_, (C10_get mem x n t e tn en ht he).1⟩
  have h := (enc_dec (mem (tagged x false))).symm
  generalize dec (mem (tagged x false)) = a at h
  rw [h, nodeElse_enc, tagged_inj] at he
  rw [h, isForwarded_enc, he.1, Bool.eq_iff_iff, beq_iff_eq, decide_eq_true_iff]

example : getThen (fun _ => enc sample) (tagged 0x99 true) = tagged 0x1234567 false ∧
    getElse (fun _ => enc sample) (tagged 0x99 true) = tagged 0x7654321 true := by decide

end Cal.Bits
