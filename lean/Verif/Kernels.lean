import Verif.BF

/-!
# Operation-specific parts of the breadth-first engine

Terminal cases (calTerminal.c), choice of the request table and cofactors (calInt.h).
-/

namespace Cal

/-- `CalBddIsBddOne` (calInt.h:869): compares node pointer and complement bit. -/
def Edge.isOne (e : Edge) : Bool := e.addr == 0 && !e.neg

/-- `CalBddIsEqual` (calInt.h:629-630): compares tagged node pointers only, not the ids. -/
def Edge.same (f g : Edge) : Bool := f.addr == g.addr && f.neg == g.neg

/-- `CalOpAnd` (calTerminal.c:87-127); `none` is the return value 0. -/
def opAnd (f g : Edge) : Option Edge :=
  if f.isConst then some (if f.isOne then g else f)
  else if g.isConst then some (if g.isOne then f else g)
  else if f.addr = g.addr then
    if f.neg ≠ g.neg then some zero else some f
  else none

/-- `CalOpNand` (calTerminal.c:132-172). -/
def opNand (f g : Edge) : Option Edge :=
  if f.isConst then some (if f.isOne then g.not else f.not)
  else if g.isConst then some (if g.isOne then f.not else g.not)
  else if f.addr = g.addr then
    if f.neg ≠ g.neg then some one else some f.not
  else none

/-- `CalOpOr` (calTerminal.c:177-218). -/
def opOr (f g : Edge) : Option Edge :=
  if f.isConst then some (if f.isOne then f else g)
  else if g.isConst then some (if g.isOne then g else f)
  else if f.addr = g.addr then
    if f.neg ≠ g.neg then some one else some f
  else none

/-- `CalOpXor` (calTerminal.c:223-264). -/
def opXor (f g : Edge) : Option Edge :=
  if f.isConst then some (if f.isOne then g.not else g)
  else if g.isConst then some (if g.isOne then f.not else f)
  else if f.addr = g.addr then
    if f.neg ≠ g.neg then some one else some zero
  else none

/-- `CalBddNormalize` (calInt.h:1377-1386): the operand with the smaller address first. -/
def normalize (p : Edge × Edge) : Edge × Edge :=
  if p.2.addr < p.1.addr then (p.2, p.1) else p

/-- `CalBddGetMinId2` (calInt.h:878-888). -/
def minId2 (o : Order) (p : Edge × Edge) : Nat :=
  if o.lvl p.1.id < o.lvl p.2.id then p.1.id else p.2.id

/-- `CalRequestNodeGetCofactors` (calInt.h:1276-1299). -/
def cof2 (o : Order) (kids : Edge → Option (Edge × Edge)) (p : Edge × Edge) :
    Option ((Edge × Edge) × (Edge × Edge)) :=
  let i1 := o.lvl p.1.id
  let i2 := o.lvl p.2.id
  if i1 = i2 then
    match kids p.1, kids p.2 with
    | some (fx, fxbar), some (gx, gxbar) => some ((fx, gx), (fxbar, gxbar))
    | _, _ => none
  else if i1 < i2 then
    match kids p.1 with
    | some (fx, fxbar) => some ((fx, p.2), (fxbar, p.2))
    | none => none
  else
    match kids p.2 with
    | some (gx, gxbar) => some ((p.1, gx), (p.1, gxbar))
    | none => none

/-- `CalHashTableApply` (calApplyReduce.c:91-131) for one of the binary operations. -/
def binKernel (op : Edge → Edge → Option Edge) : Kernel (Edge × Edge) where
  term p := match op p.1 p.2 with
    | some e => .inl e
    | none => .inr (normalize p, false)
  top := minId2
  cof := cof2

/-- A triple of operands of if-then-else. -/
abbrev Tri := Edge × Edge × Edge

/-- First phase of `CalOpITE` (calTerminal.c:281-307): replace `g` and `h` when they are `f` or its
complement. -/
def iteSubst (f g h : Edge) : Edge × Edge :=
  (if f.addr = g.addr then (if f.neg ≠ g.neg then zero else one) else g,
   if f.addr = h.addr then (if f.neg ≠ h.neg then one else zero) else h)

/-- Second phase of `CalOpITE` (calTerminal.c:309-337): make `f` and `g` positive. -/
def itePhase (f g h : Edge) : Tri × Bool :=
  if f.neg = false then
    if g.neg = false then ((f, g, h), false) else ((f, g.not, h.not), true)
  else
    if h.neg = false then ((f.not, h, g), false) else ((f.not, h.not, g.not), true)

/-- `CalOpITE` up to the request (calTerminal.c:269-356). -/
def iteTerm (p : Tri) : Edge ⊕ (Tri × Bool) :=
  let gh := iteSubst p.1 p.2.1 p.2.2
  let q := itePhase p.1 gh.1 gh.2
  if q.1.1.isConst || q.1.2.1.same q.1.2.2 then .inl (q.1.2.1.phase q.2)
  else if q.1.2.1.isConst && q.1.2.2.isConst then .inl (q.1.1.phase q.2)
  else .inr q

/-- `CalBddGetMinId3` (calInt.h:890-916). -/
def minId3 (o : Order) (p : Tri) : Nat :=
  let i1 := o.lvl p.1.id
  let i2 := o.lvl p.2.1.id
  let i3 := o.lvl p.2.2.id
  if i1 ≤ i2 then (if i1 ≤ i3 then p.1.id else p.2.2.id)
  else (if i2 ≤ i3 then p.2.1.id else p.2.2.id)

/-- Both cofactors of an operand that is (`true`) or is not (`false`) at the top level. -/
def cofSide (kids : Edge → Option (Edge × Edge)) (here : Bool) (e : Edge) : Option (Edge × Edge) :=
  if here then kids e else some (e, e)

/-- `CalITERequestNodeGetCofactors` (calInt.h:1397-1475). The nine cases of the macro, as the choice
of which of f, g, h are opened. -/
def cof3 (o : Order) (kids : Edge → Option (Edge × Edge)) (p : Tri) : Option (Tri × Tri) :=
  let i1 := o.lvl p.1.id
  let i2 := o.lvl p.2.1.id
  let i3 := o.lvl p.2.2.id
  let open3 : Bool × Bool × Bool :=
    if i1 = i2 then
      if i3 = i1 then (true, true, true)
      else if i3 < i1 then (false, false, true)
      else (true, true, false)
    else if i1 < i2 then
      if i3 = i1 then (true, false, true)
      else if i3 < i1 then (false, false, true)
      else (true, false, false)
    else
      if i3 = i2 then (false, true, true)
      else if i3 < i2 then (false, false, true)
      else (false, true, false)
  match cofSide kids open3.1 p.1, cofSide kids open3.2.1 p.2.1, cofSide kids open3.2.2 p.2.2 with
  | some (fx, fxbar), some (gx, gxbar), some (hx, hxbar) =>
    some ((fx, gx, hx), (fxbar, gxbar, hxbar))
  | _, _, _ => none

/-- `CalHashTableITEApply` (calBddITE.c:238-267) / `CalOpITE` (calTerminal.c:268-360). -/
def iteKernel : Kernel Tri where
  term := iteTerm
  top := minId3
  cof := cof3

end Cal
