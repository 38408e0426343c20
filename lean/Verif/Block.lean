/-!
# Variable blocks (`calBlk.c`)

The tree of variable blocks: `superBlock` and below it the blocks of `Cal_BddNewVarBlock` and the
blocks of the single variables. Reading `children[k]` outside the array is undefined behaviour
(`none`); a fatal error is the outcome `Res.fatal`.
-/

namespace Cal

/-- `Cal_BlockStruct` (calInt.h:334-341); `numChildren` is the length of `children`. -/
inductive Block where
  | mk (first last : Int) (reorderable : Bool) (children : List Block)

namespace Block

/-- The fields of `Cal_BlockStruct` (calInt.h:334-341). -/
def first : Block → Int | mk f _ _ _ => f
def last : Block → Int | mk _ l _ _ => l
def reorderable : Block → Bool | mk _ _ r _ => r
def children : Block → List Block | mk _ _ _ c => c

/-- The `superBlock` of a new manager (calBddManager.c:272-277). -/
def super0 : Block := mk (-1) 0 true []

/-- The loop of `CalBddFindBlock` (calBlk.c:118-137); the first argument bounds the number of
rounds. -/
def findLoop (cs : List Block) (index : Int) : Nat → Int → Int → Option Int
  | 0, i, _ => some i
  | fuel + 1, i, j =>
    if i ≤ j then
      let k := (i + j).tdiv 2
      if k < 0 then none
      else
        match cs[k.toNat]? with
        | none => none
        | some b =>
          if b.first ≤ index ∧ b.last ≥ index then some k
          else if b.first > index then findLoop cs index fuel i (k - 1)
          else findLoop cs index fuel (k + 1) j
    else some i

/-- `CalBddFindBlock` (calBlk.c:112-138). -/
def find (cs : List Block) (index : Int) : Option Int :=
  findLoop cs index (cs.length + 1) 0 (cs.length - 1)

mutual
/-- `CalBddBlockDelta` (calBlk.c:142-150). -/
def delta (d : Int) : Block → Block
  | mk f l r cs => mk (f + d) (l + d) r (deltaL d cs)
def deltaL (d : Int) : List Block → List Block
  | [] => []
  | b :: bs => delta d b :: deltaL d bs
end

mutual
/-- `CalBddShiftBlock` (calBlk.c:156-192): a variable is inserted at `index`. The children before
position `i` stay as they are. -/
def shift (index : Int) : Block → Option Block
  | mk f l r cs =>
    if f ≥ index then some (delta 1 (mk f l r cs))
    else if l < index then some (mk f l r cs)
    else
      match find cs index with
      | none => none
      | some i =>
        if i < 0 then none
        else
          match shiftL index i.toNat cs with
          | none => none
          | some cs' =>
            if i = cs.length then some (mk f (l + 1) r (cs ++ [mk index index false []]))
            else
              match cs[i.toNat]? with
              | none => none
              | some b =>
                if b.first = index then
                  some (mk f (l + 1) r (cs'.take i.toNat ++ mk index index false [] :: cs'.drop i.toNat))
                else some (mk f (l + 1) r cs')
/-- `CalBddShiftBlock` (calBlk.c:156-192) on the children from position `i` on. -/
def shiftL (index : Int) : Nat → List Block → Option (List Block)
  | _, [] => some []
  | i, b :: bs =>
    match (if i = 0 then shift index b else some b), shiftL index (i - 1) bs with
    | some b', some bs' => some (b' :: bs')
    | _, _ => none
end

/-- The result of an operation that may stop with a fatal error. -/
inductive Outcome (α : Type) where
  | ok (a : α)
  | fatal
deriving DecidableEq

mutual
/-- `AddBlock` (calBlk.c:229-271). A block with children gets `b2` as a child in place of a run of
its children, or the block goes into one child. -/
def add (b2 : Int × Int) : Block → Option (Outcome Block)
  | mk f l r [] => some (.ok (mk f l r [mk b2.1 b2.2 false []]))
  | mk f l r (c :: cs) =>
    match find (c :: cs) b2.1, find (c :: cs) b2.2 with
    | some i, some j =>
      if i < 0 ∨ j < 0 then none
      else
        match (c :: cs)[i.toNat]?, (c :: cs)[j.toNat]? with
        | some start, some stop =>
          if i = j then
            match addL b2 i.toNat (c :: cs) with
            | none => none
            | some .fatal => some .fatal
            | some (.ok cs') => some (.ok (mk f l r cs'))
          else if start.first ≠ b2.1 ∨ stop.last ≠ b2.2 then some .fatal
          else
            some (.ok (mk f l r ((c :: cs).take i.toNat ++
              mk b2.1 b2.2 false (((c :: cs).take (j.toNat + 1)).drop i.toNat) ::
              (c :: cs).drop (j.toNat + 1))))
        | _, _ => none
    | _, _ => none
/-- `AddBlock` (calBlk.c:229-271) on the child at position `i`. -/
def addL (b2 : Int × Int) : Nat → List Block → Option (Outcome (List Block))
  | _, [] => none
  | 0, b :: bs =>
    match add b2 b with
    | none => none
    | some .fatal => some .fatal
    | some (.ok b') => some (.ok (b' :: bs))
  | i + 1, b :: bs =>
    match addL b2 i bs with
    | none => none
    | some .fatal => some .fatal
    | some (.ok bs') => some (.ok (b :: bs'))
end

/-- The range that `Cal_BddNewVarBlock` makes from the index of the variable and the length
(calBlk.c:86-95); a `long` overflow is undefined behaviour. -/
def range (numVars : Nat) (index length : Int) : Option (Int × Int) :=
  let length := if length ≤ 0 then 1 else length
  if index + length > 9223372036854775807 then none
  else
    let last := index + length - 1
    some (index, if last ≥ numVars then numVars - 1 else last)

/-- `Cal_BddNewVarBlock` (calBlk.c:74-98) for a variable with the given index. -/
def newVarBlock (numVars : Nat) (index length : Int) (b : Block) : Option (Outcome Block) :=
  match range numVars index length with
  | none => none
  | some r => add r b

/-- `Cal_BddVarBlockReorderable` (calBlk.c:105-110) on the block found by going to the given children
from the block down; a C caller holds a pointer to the block. -/
def setFlag (r : Bool) : List Nat → Block → Block
  | [], mk f l _ cs => mk f l r cs
  | i :: p, mk f l r0 cs => mk f l r0 (cs.modify i (setFlag r p))

end Block

end Cal
