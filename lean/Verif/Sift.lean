import Verif.Block

/-!
# Exchange of variable blocks, window permutation and sifting (`calReorderDF.c:1033-1387`)

The routines only use the manager through the exchange of two adjacent variables, the number of
nodes, the number of entries of a unique table and the swap counter. They are modelled over any type
`σ` with these operations (`Sys`); `Verif/DfReorder.lean` puts the store of the depth-first package in
its place. Undefined behaviour is `none`.
-/

namespace Cal.Sift

/-- What the routines see of the manager. -/
structure Sys (σ : Type) where
  /-- `BddExchange(bddManager, indexToId[i])` -/
  ex : σ → Int → Option σ
  /-- `numNodes` -/
  size : σ → Int
  /-- `uniqueTable[indexToId[k]]->numEntries` -/
  width : σ → Int → Int
  /-- `numSwaps` -/
  swaps : σ → Int
  /-- `numSwaps = 0` -/
  reset : σ → σ

/-- The inner loop of `BddExchangeVarBlocks` for one `i` (calReorderDF.c:1047-1055). -/
def slideRow {σ : Type} (S : Sys σ) (f2 w1 w2 i : Int) (s : σ) : Option σ :=
  let j0 := if i - w1 < 0 then 0 else i - w1
  let k := if i > w2 then w2 else i
  (List.range (k + 1 - j0).toNat).foldlM (fun s (t : Nat) => S.ex s (f2 + (j0 + t) - i + (j0 + t) - 1)) s

/-- The loops of `BddExchangeVarBlocks` (calReorderDF.c:1043-1056). -/
def slide {σ : Type} (S : Sys σ) (b1 b2 : Block) (s : σ) : Option σ :=
  let w1 := b1.last - b1.first
  let w2 := b2.last - b2.first
  (List.range (w1 + w2 + 1).toNat).foldlM (fun s (i : Nat) => slideRow S b2.first w1 w2 i s) s

/-- The children of the block at work; the number next to a block stands for its address, which
does not change when the block moves. -/
abbrev Kids := List (Nat × Block)

/-- `BddExchangeVarBlocks` (calReorderDF.c:1033-1061). -/
def exchange {σ : Type} (S : Sys σ) (p : σ × Kids) (i : Int) : Option (σ × Kids) :=
  if i < 0 then none
  else
    match p.2[i.toNat]?, p.2[i.toNat + 1]? with
    | some (t1, b1), some (t2, b2) =>
      match slide S b1 b2 p.1 with
      | none => none
      | some s =>
        let w1 := b1.last - b1.first
        let w2 := b2.last - b2.first
        some (s, (p.2.set i.toNat (t2, b2.delta (-(w1 + 1)))).set (i.toNat + 1) (t1, b1.delta (w2 + 1)))
    | _, _ => none

section
variable {π : Type} (X : π → Int → Option π) (size : π → Int)

/-- `BddReorderWindow2` (calReorderDF.c:1066-1079); `X` is `BddExchangeVarBlocks`. -/
def window2 (p : π) (i : Int) : Option (π × Bool) :=
  match X p i with
  | none => none
  | some q =>
    if size q < size p then some (q, true)
    else
      match X q i with
      | none => none
      | some r => some (r, false)

/-- A list of exchanges. -/
def runX (p : π) (is : List Int) : Option π := is.foldlM X p

/-- `BddReorderWindow3` (calReorderDF.c:1084-1153). -/
def window3 (p : π) (i : Int) : Option (π × Bool) :=
  match X p i with
  | none => none
  | some p1 =>
    let (best, bs) := if size p1 < size p then (1, size p1) else (0, size p)
    match X p1 (i + 1) with
    | none => none
    | some p2 =>
      let (best, bs) := if size p2 < bs then (2, size p2) else (best, bs)
      match X p2 i with
      | none => none
      | some p3 =>
        let (best, bs) := if size p3 ≤ bs then (3, size p3) else (best, bs)
        match X p3 (i + 1) with
        | none => none
        | some p4 =>
          let (best, bs) := if size p4 ≤ bs then (4, size p4) else (best, bs)
          match X p4 i with
          | none => none
          | some p5 =>
            let (best, bs) := if size p5 ≤ bs then (5, size p5) else (best, bs)
            match runX X p5
                (match best with
                 | 0 => [i + 1]
                 | 1 => [i + 1, i]
                 | 2 => [i + 1, i, i + 1]
                 | 3 => [i, i + 1]
                 | 4 => [i]
                 | _ => []) with
            | none => none
            | some q => some (q, decide (best > 0) && decide (size p > bs))

/-- `levels[i] = 1` on an array of `numVars` characters. -/
def setLevel (numVars : Nat) (levels : Int → Bool) (i : Int) (b : Bool) : Option (Int → Bool) :=
  if 0 ≤ i ∧ i < numVars then some (fun k => if k = i then b else levels k) else none

/-- The assignments to `levels` after a move (calReorderDF.c:1187-1201). -/
def raise (numVars : Nat) (n i : Int) (levels : Int → Bool) : Option (Int → Bool) :=
  ((if i > 0 then (i - 1) :: (if i > 1 then [i - 2] else []) else []) ++ [i, i + 1] ++
   (if i < n - 2 then (i + 2) :: (if i < n - 3 then (i + 3) :: (if i < n - 4 then [i + 4] else []) else [])
    else [])).foldlM (fun l k => setLevel numVars l k true) levels

/-- One round of the `for` loop in `BddReorderStableWindow3Aux` (calReorderDF.c:1171-1205); `n` is
`numChildren`. -/
def windowStep (numVars : Nat) (n : Int) (a : π × (Int → Bool) × Bool) (i : Int) :
    Option (π × (Int → Bool) × Bool) :=
  if a.2.1 i then
    match (if i < n - 2 then window3 X size a.1 i else window2 X size a.1 i) with
    | none => none
    | some (p, true) => (raise numVars n i a.2.1).map (fun l => (p, l, true))
    | some (p, false) => (setLevel numVars a.2.1 i false).map (fun l => (p, l, a.2.2))
  else some a

/-- One pass of the `do` loop (calReorderDF.c:1169-1206). -/
def windowPass (numVars : Nat) (n : Int) (p : π) (levels : Int → Bool) : Option (π × (Int → Bool) × Bool) :=
  (List.range (n - 1).toNat).foldlM (fun a (i : Nat) => windowStep X size numVars n a i) (p, levels, false)

/-- The `do … while (anySwapped)` loop; the first argument bounds the number of passes. -/
def windowLoop (numVars : Nat) (n : Int) : Nat → π → (Int → Bool) → Option (π × (Int → Bool))
  | 0, _, _ => none
  | fuel + 1, p, levels =>
    match windowPass X size numVars n p levels with
    | none => none
    | some (p, levels, true) => windowLoop numVars n fuel p levels
    | some (p, levels, false) => some (p, levels)

/-- State of the search loops of `BddSiftBlock` (calReorderDF.c:1229-1308): manager, `currentPosition`, `currentSize`,
`bestPosition`, `bestSize`. -/
structure Search (π : Type) where
  p : π
  cur : Int
  curSize : Int
  best : Int
  bestSize : Int

/-- A block moves down while the size is within the bound (calReorderDF.c:1256-1264 and 1297-1305);
`strict` says whether `<` or `<=` replaces the best position. The first argument bounds the number
of rounds. -/
def down (n maxSize : Int) (strict : Bool) : Nat → Search π → Option (Search π)
  | 0, a => some a
  | fuel + 1, a =>
    if a.cur < n - 1 ∧ a.curSize ≤ maxSize then
      match X a.p a.cur with
      | none => none
      | some q =>
        if (if strict then size q < a.bestSize else size q ≤ a.bestSize) then
          down n maxSize strict fuel ⟨q, a.cur + 1, size q, a.cur + 1, size q⟩
        else down n maxSize strict fuel ⟨q, a.cur + 1, size q, a.best, a.bestSize⟩
    else some a

/-- A block moves up while the size is within the bound (calReorderDF.c:1270-1278 and 1283-1291). -/
def up (maxSize : Int) (strict : Bool) : Nat → Search π → Option (Search π)
  | 0, a => some a
  | fuel + 1, a =>
    if a.cur ≠ 0 ∧ a.curSize ≤ maxSize then
      match X a.p (a.cur - 1) with
      | none => none
      | some q =>
        if (if strict then size q < a.bestSize else size q ≤ a.bestSize) then
          up maxSize strict fuel ⟨q, a.cur - 1, size q, a.cur - 1, size q⟩
        else up maxSize strict fuel ⟨q, a.cur - 1, size q, a.best, a.bestSize⟩
    else some a

/-- `while (currentPosition != to) { --currentPosition; exchange }` (calReorderDF.c:1265-1268 and
1306-1309); more rounds than the first argument are undefined behaviour. -/
def backUp (to : Int) : Nat → π → Int → Option π
  | 0, p, cur => if cur ≠ to then none else some p
  | fuel + 1, p, cur =>
    if cur ≠ to then
      match X p (cur - 1) with
      | none => none
      | some q => backUp to fuel q (cur - 1)
    else some p

/-- `while (currentPosition != to) { exchange; ++currentPosition }` (calReorderDF.c:1279-1282 and
1292-1295). -/
def backDown (to : Int) : Nat → π → Int → Option π
  | 0, p, cur => if cur ≠ to then none else some p
  | fuel + 1, p, cur =>
    if cur ≠ to then
      match X p cur with
      | none => none
      | some q => backDown to fuel q (cur + 1)
    else some p

/-- `BddSiftBlock` (calReorderDF.c:1229-1310); `n` is `numChildren`, `limit` computes `maxSize` from
the start size. -/
def siftBlock (n : Int) (limit : Int → Int) (p : π) (start : Int) : Option π :=
  let s0 := size p
  let maxSize := limit s0
  let fuel := n.toNat + 1
  if start > n / 2 then
    match down X size n maxSize true fuel ⟨p, start, s0, start, s0⟩ with
    | none => none
    | some a =>
      match backUp X start fuel a.p a.cur with
      | none => none
      | some p =>
        match up X size maxSize false fuel ⟨p, start, s0, a.best, a.bestSize⟩ with
        | none => none
        | some b => backDown X b.best fuel b.p b.cur
  else
    match up X size maxSize true fuel ⟨p, start, s0, start, s0⟩ with
    | none => none
    | some a =>
      match backDown X start fuel a.p a.cur with
      | none => none
      | some p =>
        match down X size n maxSize false fuel ⟨p, start, s0, a.best, a.bestSize⟩ with
        | none => none
        | some b => backUp X b.best fuel b.p b.cur

end

/-- The limits of a reordering: `maxSize` of `BddSiftBlock` as a function of the start size
(calReorderDF.c:1246-1248, a product of doubles), `maxNumVarsSiftedPerReordering`,
`maxNumSwapsPerReordering`. -/
structure Limits where
  maxSize : Int → Int
  maxVars : Int
  maxSwaps : Int

/-- The average number of entries per variable of a block (calReorderDF.c:1339-1343). -/
def blockWidth {σ : Type} (S : Sys σ) (s : σ) (b : Block) : Int :=
  (((List.range (b.last - b.first + 1).toNat).map (fun (t : Nat) => S.width s (b.first + t))).foldl (· + ·) 0).tdiv
    (b.last - b.first + 1)

/-- The block with the greatest width among `toSift[0..]` (calReorderDF.c:1336-1348): the widest
position and its width. -/
def widest {σ : Type} (S : Sys σ) (s : σ) (cs : Kids) : List Nat → Nat → Int → Nat → Option (Nat × Int)
  | [], _, maxWidth, best => some (best, maxWidth)
  | t :: ts, j, maxWidth, best =>
    match cs.find? (fun c => c.1 == t) with
    | none => none
    | some (_, b) =>
      if blockWidth S s b > maxWidth then widest S s cs ts (j + 1) (blockWidth S s b) j
      else widest S s cs ts (j + 1) maxWidth best

/-- The loop of `BddReorderSiftAux` (calReorderDF.c:1329-1366): `toSift` holds the blocks `0..i`
still to be sifted, `shifted` is `numVarsShifted`. -/
def siftLoop {σ : Type} (S : Sys σ) (L : Limits) : Nat → List Nat → Int → σ × Kids → Option (σ × Kids)
  | 0, _, _, p => some p
  | i + 1, toSift, shifted, p =>
    if shifted ≤ L.maxVars ∧ S.swaps p.1 ≤ L.maxSwaps then
      match widest S p.1 p.2 (toSift.take (i + 1)) 0 0 0 with
      | none => none
      | some (w, maxWidth) =>
        if maxWidth > 1 then
          match toSift[w]?, toSift[i]? with
          | some t, some ti =>
            match p.2.findIdx? (fun c => c.1 == t) with
            | none => none
            | some j =>
              match siftBlock (exchange S) (fun p => S.size p.1) p.2.length L.maxSize p j with
              | none => none
              | some p => siftLoop S L i (toSift.set w ti) (shifted + 1) p
          | _, _ => none
        else some p
    else some p

/-- The children with numbers for their addresses. -/
def tagged (cs : List Block) : Kids := (List.range cs.length).zip cs

mutual
/-- The depth of a block tree. -/
def depth : Block → Nat
  | .mk _ _ _ cs => depthL cs + 1
def depthL : List Block → Nat
  | [] => 0
  | b :: bs => max (depth b) (depthL bs)
end

/-- The recursive calls on the children from left to right. -/
def overKids {σ : Type} (f : σ → Block → Option (σ × Block)) : σ → List Block → Option (σ × List Block)
  | s, [] => some (s, [])
  | s, b :: bs =>
    match f s b with
    | none => none
    | some (s, b') =>
      match overKids f s bs with
      | none => none
      | some (s, bs') => some (s, b' :: bs')

/-- `BddReorderSiftAux` (calReorderDF.c:1315-1371); the first number bounds the depth of the
recursion. The array `toSift` has `numVars` elements; more children than that would be written past
its end. -/
def siftAux {σ : Type} (S : Sys σ) (L : Limits) (numVars : Nat) : Nat → σ → Block → Option (σ × Block)
  | 0, _, _ => none
  | fuel + 1, s, .mk f l r cs =>
    match (if r then
            (if numVars < cs.length then none
             else siftLoop S L cs.length (List.range cs.length) 0 (S.reset s, tagged cs))
           else some (S.reset s, tagged cs)) with
    | none => none
    | some (s, ks) =>
      match overKids (siftAux S L numVars fuel) s (ks.map (·.2)) with
      | none => none
      | some (s, cs') => some (s, .mk f l r cs')

/-- `BddReorderStableWindow3Aux` (calReorderDF.c:1158-1212). The `do` loop gets one more pass than
there are nodes; `levels` has `numVars` elements. -/
def windowAux {σ : Type} (S : Sys σ) (numVars : Nat) : Nat → σ → Block → Option (σ × Block)
  | 0, _, _ => none
  | fuel + 1, s, .mk f l r cs =>
    match (if r then
            if numVars + 1 < cs.length then none else
            (windowLoop (exchange S) (fun p => S.size p.1) numVars cs.length ((S.size s).toNat + 1)
              (s, tagged cs) (fun _ => true)).map (·.1)
           else some (s, tagged cs)) with
    | none => none
    | some (s, ks) =>
      match overKids (windowAux S numVars fuel) s (ks.map (·.2)) with
      | none => none
      | some (s, cs') => some (s, .mk f l r cs')

/-- `BddReorderSift` (calReorderDF.c:1376-1386). -/
def reorderSift {σ : Type} (S : Sys σ) (L : Limits) (numVars : Nat) (s : σ) (super : Block) :
    Option (σ × Block) :=
  siftAux S L numVars (depth super) s super

/-- `BddReorderStableWindow3` (calReorderDF.c:1217-1226). -/
def reorderWindow {σ : Type} (S : Sys σ) (numVars : Nat) (s : σ) (super : Block) : Option (σ × Block) :=
  windowAux S numVars (depth super) (S.reset s) super

end Cal.Sift
