import Verif.ApiEng
import Verif.ApiReduce
import Verif.ApiSubst
import Verif.PipelineApi
import Verif.ApiVarSubst
import Verif.DumpApi

/-!
# Sessions: arbitrary histories of API calls

`Call` is the list of API functions of the model, `Call.run` runs one, `Call.Legal` is what the user
has to respect (in terms of handles the user holds and of what those denote), and `Reachable` are the
managers that some history of legal calls leads to.
-/

namespace Cal

/-- The API functions. -/
inductive Call
  | one | zero
  | not (f : Handle) | identity (f : Handle) | regular (f : Handle)
  | free (f : Handle) | unFree (f : Handle)
  | if_ (f : Handle) | then_ (f : Handle) | else_ (f : Handle)
  | getIfIndex (f : Handle) | getIfId (f : Handle) | type (f : Handle)
  | and (f g : Handle) | nand (f g : Handle) | or (f g : Handle)
  | nor (f g : Handle) | xor (f g : Handle) | xnor (f g : Handle)
  | ite (f g h : Handle)
  | multiwayAnd (hs : List Handle) | multiwayOr (hs : List Handle) | multiwayXor (hs : List Handle)
  | intersects (f g : Handle) | implies (f g : Handle)
  | exists_ (f : Handle) | forAll (f : Handle) | relProd (f g : Handle)
  | satisfy (f : Handle) | satisfySupport (f : Handle) | satisfyingFraction (f : Handle)
  | size (f : Handle) (negout : Bool) | sizeMultiple (hs : List Handle) (negout : Bool)
  | profile (f : Handle) (negout : Bool) | profileMultiple (hs : List Handle) (negout : Bool)
  | support (f : Handle) | dependsOn (f v : Handle)
  | reduce (f c : Handle) | between (f g : Handle)
  | cofactor (f c : Handle) | compose (f g h : Handle) | swapVars (f g h : Handle)
  | substitute (f : Handle) | varSubstitute (f : Handle)
  | newVarFirst | newVarLast | newVarBefore (f : Handle) | newVarAfter (f : Handle)
  | varWithIndex (k : Nat) | varWithId (k : Nat)
  | associationInit (hs : List Handle) (pairs : Bool) | associationQuit (j : Int)
  | associationSetCurrent (j : Int)
  | tempInit (hs : List Handle) (pairs : Bool) | tempAugment (hs : List Handle) (pairs : Bool)
  | tempQuit
  | gc | setGCLimit | setGCMode (g : Int) | nodeLimit (n : Int) | overflow
  | dynamicReordering (technique method : Nat) | reorder
  | dump (f : Handle) (vs : List Handle)
  | undump (mem : Nat) (vs : List Handle) (file : List Nat) (fin : Dump.Err)

/-- What a call returns. -/
inductive Ret
  | unit
  | handle (h : Handle)
  | num (n : Int)
  | flag (b : Bool)
  | type (t : Mgr.BddType)
  | handles (hs : List Handle)
  | nums (l : Option (List Nat))
  | rat (x : Rat)
  /-- handles made but not given to the user, and the bytes written -/
  | dumped (hs : List Handle) (file : Option (List Nat))
  | undumped (error : Option Dump.Err) (h : Handle)

/-- a handle as the result -/
def retH (out : Option (Mgr × Handle)) : Option (Mgr × Ret) := out.map fun p => (p.1, .handle p.2)

/-- Running a call. -/
def Call.run (E : Env) (m : Mgr) : Call → Option (Mgr × Ret)
  | one => some (m, .handle Mgr.oneH)
  | zero => some (m, .handle Mgr.zeroH)
  | not f => retH (m.not f)
  | identity f => retH (m.identity f)
  | regular f => some (m, .handle (Mgr.regular f))
  | free f => (m.free f).map fun m' => (m', .unit)
  | unFree f => (m.unFree f).map fun m' => (m', .unit)
  | if_ f => retH (m.if_ E f)
  | then_ f => retH (m.then_ E f)
  | else_ f => retH (m.else_ E f)
  | getIfIndex f => (m.getIfIndex E f).map fun p => (p.1, .num p.2)
  | getIfId f => (m.getIfId E f).map fun p => (p.1, .num p.2)
  | type f => (m.type E f).map fun p => (p.1, .type p.2)
  | and f g => retH (m.and E f g)
  | nand f g => retH (m.nand E f g)
  | or f g => retH (m.or E f g)
  | nor f g => retH (m.nor E f g)
  | xor f g => retH (m.xor E f g)
  | xnor f g => retH (m.xnor E f g)
  | ite f g h => retH (m.ite E f g h)
  | multiwayAnd hs => retH (m.multiway E opAnd hs)
  | multiwayOr hs => retH (m.multiway E opOr hs)
  | multiwayXor hs => retH (m.multiway E opXor hs)
  | intersects f g => retH (m.intersects E f g)
  | implies f g => retH (m.implies E f g)
  | exists_ f => retH (m.exists_ E f)
  | forAll f => retH (m.forAll E f)
  | relProd f g => retH (m.relProd E f g)
  | satisfy f => retH (m.satisfy E f)
  | satisfySupport f => retH (m.satisfySupport E f)
  | satisfyingFraction f => (m.satisfyingFraction E f).map fun p => (p.1, .rat p.2)
  | size f negout => (m.size E f negout).map fun p => (p.1, .num p.2)
  | sizeMultiple hs negout => (m.sizeMultiple E hs negout).map fun p => (p.1, .num p.2)
  | profile f negout => (m.profile E f negout).map fun p => (p.1, .nums p.2)
  | profileMultiple hs negout => (m.profileMultiple E hs negout).map fun p => (p.1, .nums p.2)
  | support f => (m.support E f).map fun p => (p.1, .handles p.2)
  | dependsOn f v => (m.dependsOn E f v).map fun p => (p.1, .flag p.2)
  | reduce f c => retH (m.reduce E f c)
  | between f g => retH (m.between E f g)
  | cofactor f c => retH (m.cofactor E f c)
  | compose f g h => retH (m.compose E f g h)
  | swapVars f g h => retH (m.swapVars E f g h)
  | substitute f => retH (m.substitute E f)
  | varSubstitute f => retH (m.varSubstitute E f)
  | newVarFirst => retH m.newVarFirst
  | newVarLast => retH m.newVarLast
  | newVarBefore f => retH (m.newVarBefore f)
  | newVarAfter f => retH (m.newVarAfter f)
  | varWithIndex k => retH (m.varWithIndex k)
  | varWithId k => retH (m.varWithId k)
  | associationInit hs pairs => (m.associationInit E hs pairs).map fun p => (p.1, .num p.2)
  | associationQuit j => some (m.associationQuit j, .unit)
  | associationSetCurrent j => some ((m.associationSetCurrent j).1, .num (m.associationSetCurrent j).2)
  | tempInit hs pairs => (m.tempInit E hs pairs).map fun m' => (m', .unit)
  | tempAugment hs pairs => (m.tempAugment E hs pairs).map fun m' => (m', .unit)
  | tempQuit => some (m.tempQuit, .unit)
  | gc => m.gc.map fun m' => (m', .unit)
  | setGCLimit => some (m.setGCLimit, .unit)
  | setGCMode g => some (m.setGCMode g, .unit)
  | nodeLimit n => some ((m.setNodeLimit n).1, .num (m.setNodeLimit n).2)
  | overflow => some (m.getOverflow.1, .flag m.getOverflow.2)
  | dynamicReordering t k => some (m.dynamicReordering t k, .unit)
  | reorder => (m.reorder E).map fun m' => (m', .unit)
  | dump f vs => (m.dump E f vs).map fun p => (p.1, .dumped p.2.1 p.2.2)
  | undump mem vs file fin => (m.undump E mem vs file fin).map fun p => (p.1, .undumped p.2.1 p.2.2)

/-- The references the user holds after a call: a returned handle is one more reference, except for
`Cal_BddOne` (cal.c:140-144), `Cal_BddZero` (cal.c:148-152) and `Cal_BddGetRegular` (cal.c:276-280); `Cal_BddFree` (cal.c:255-260) gives one up. The constants need no
references. The handles that `Cal_BddDumpBdd` (calDump.c:191-265) makes are counted as the user's, though the user does not
get to see them. -/
def Call.own (own : Nat → Nat) : Call → Ret → Nat → Nat
  | one, _ => own
  | zero, _ => own
  | regular _, _ => own
  | free f, _ => if f.addr = 1 then own else upd own f.addr (own f.addr - 1)
  | unFree f, _ => bump own f.addr
  | _, .handle h => if h = Handle.null then own else bump own h.addr
  | _, .handles hs => hs.foldl (fun o h => bump o h.addr) own
  | _, .dumped hs _ => hs.foldl (fun o h => bump o h.addr) own
  | _, .undumped _ h => if h = Handle.null then own else bump own h.addr
  | _, _ => own

/-- An argument: null, or a handle the user holds. -/
def OArg (own : Nat → Nat) (h : Handle) : Prop := h = Handle.null ∨ UTab.Live own h

/-- The number of temporary op codes that are left before they run into the fixed ones. Operations
under the temporary association use them up, at most two each. -/
def Mgr.codesLeft (m : Mgr) : Nat := m.tempOp - 0x8FFF

/-- an array without pairs for the association functions: literals -/
def Literals (m : Mgr) (hs : List Handle) : Prop :=
  ∀ h ∈ hs, ∃ v, Den m h (fun ρ => ρ v) ∨ Den m h (fun ρ => !ρ v)

/-- an argument of `Cal_BddSwapVars` (calBddSwapVars.c:81-197): null, a constant or a variable -/
def VarArg (own : Nat → Nat) (m : Mgr) (h : Handle) : Prop :=
  h = Handle.null ∨ UTab.Live own h ∧ ((∃ b, Den m h fun _ => b) ∨ ∃ v, Den m h fun ρ => ρ v)

/-- What the user has to respect: handles passed are held by the user (or null, where that is
allowed); `If`, `Then`, `Else` are not for constants; at most 1024 operands; at most 65534 variables;
at most 4096 associations; associations without pairs are given literals; no more than about 28000
quantifications under the temporary association; `Compose` is not for null, nor for a constant in place
of the variable together with a complemented handle; only variables and constants are swapped;
the care set of `Reduce` and of `Between` is not empty; `VarSubstitute` is used with associations to
variables and constants only; a file read (read as describing functions of some variables) does not
make the code write outside its table of shared nodes, and there is memory for that table. -/
def Call.Legal (own : Nat → Nat) (m : Mgr) : Call → Prop
  | not f | identity f | regular f | unFree f => UTab.Live own f
  | free f => f.addr = 1 ∨ 0 < own f.addr
  | if_ f | then_ f | else_ f => OArg own f ∧ ∀ b, ¬ Den m f fun _ => b
  | getIfIndex f | getIfId f | type f | satisfy f | satisfySupport f | satisfyingFraction f | size f _
  | profile f _ | support f | substitute f => OArg own f
  | dependsOn f v => OArg own f ∧ OArg own v
  | sizeMultiple hs _ | profileMultiple hs _ => ∀ h ∈ hs, UTab.Live own h
  | and f g | nand f g | or f g | nor f g | xor f g | xnor f g | intersects f g | implies f g =>
    OArg own f ∧ OArg own g
  | ite f g h => OArg own f ∧ OArg own g ∧ OArg own h
  | multiwayAnd hs | multiwayOr hs | multiwayXor hs => (∀ h ∈ hs, UTab.Live own h) ∧ hs.length ≤ 1024
  | exists_ f | forAll f => OArg own f ∧ (m.cur = -1 → 1 ≤ m.codesLeft)
  | relProd f g => OArg own f ∧ OArg own g ∧ (m.cur = -1 → 2 ≤ m.codesLeft)
  | varSubstitute f => OArg own f ∧ (∀ T, AssocDen m m.cur T → VarTable T) ∧ (m.cur = -1 → 1 ≤ m.codesLeft)
  | cofactor f c => OArg own f ∧ OArg own c
  | reduce f c => OArg own f ∧ OArg own c ∧ ¬ Den m c fun _ => false
  | between f g => OArg own f ∧ OArg own g ∧ ¬ (Den m f (fun _ => false) ∧ Den m g fun _ => true)
  | compose f g h => UTab.Live own f ∧ UTab.Live own g ∧ UTab.Live own h ∧
      ((∃ b, Den m g fun _ => b) → f.neg = false)
  | swapVars f g h => OArg own f ∧ VarArg own m g ∧ VarArg own m h
  | newVarFirst | newVarLast => m.numVars < 65534
  | newVarBefore f | newVarAfter f => UTab.Live own f ∧ m.numVars < 65534
  | associationInit hs pairs => (∀ h ∈ hs, UTab.Live own h) ∧ (pairs = false → Literals m hs) ∧
      m.assocs.length < 4096
  | tempInit hs pairs | tempAugment hs pairs =>
    (∀ h ∈ hs, UTab.Live own h) ∧ (pairs = false → Literals m hs)
  | dump f vs => OArg own f ∧ ∀ v ∈ vs, UTab.Live own v
  | undump mem vs file fin => (∀ v ∈ vs, UTab.Live own v) ∧
      ∀ ys : List Nat, ys.length = vs.length → Dump.undumpFile (Dump.fnAlg ys) mem ys.length fin () file ≠ none
  | _ => True

/-- the first entries of the pairs -/
def evens : List Handle → List Handle
  | h :: _ :: hs => h :: evens hs
  | _ => []

/-- Calls that leak references: `Cal_AssociationInit` (calAssociation.c:85-183) with a variable given more than once (see
`Mgr.associationInit`). -/
def Call.leaks : Call → Bool
  | associationInit hs true => !decide (evens hs).Nodup
  | _ => false

/-- the references the user has after an update of a pipeline that gave `out`, or after a failed one -/
def pipelineOwn (own : Nat → Nat) (out : Option (List Handle)) : Nat → Nat :=
  (out.getD []).foldl (fun o h => bump o h.addr) own

theorem live_pipelineOwn {own : Nat → Nat} {out h} (l : UTab.Live own h) :
    UTab.Live (pipelineOwn own out) h := by
  unfold pipelineOwn
  generalize out.getD [] = hs
  induction hs generalizing own with
  | nil => exact l
  | cons x hs ih => exact ih (live_bump l)

/-- The managers that histories of legal calls lead to, with the references the user holds. -/
inductive Reachable (E : Env) : (Nat → Nat) → Bool → Mgr → Prop
  | init (hash : Ptr → Ptr → Nat → Nat) : Reachable E (fun _ => 0) false (Mgr.init hash)
  | call {own lk m m' ret} (c : Call) (r : Reachable E own lk m) (l : c.Legal own m)
      (h : c.run E m = some (m', ret)) : Reachable E (c.own own ret) (lk || c.leaks) m'
  | pipeline {own lk m m' p p' out} (op : PipeOp) (cs : List (POperand × POperand))
      (us : List (Nat × Bool)) (r : Reachable E own lk m) (hp : p.Idle) (l : PipeLegal own op cs us)
      (h : Cal.pipeline E m p op cs us = some (m', p', out)) :
      Reachable E (pipelineOwn own out) (lk || out.isNone) m'

/-- What a call keeps: the functions of all handles the user held before and still holds. -/
def Keeps (own own' : Nat → Nat) (m m' : Mgr) : Prop :=
  ∀ h, UTab.Live own h → UTab.Live own' h → ∀ F, Den m h F → Den m' h F

/-- The overflow flag stays set until `Cal_BddOverflow` (cal.c:515-522) reports it, and is not set without a node
limit. -/
def OvfKept (m m' : Mgr) : Prop :=
  (m.overflow = true → m'.overflow = true) ∧ (m.nodeLimit = 0 → m'.overflow = m.overflow)

theorem OvfKept.refl (m : Mgr) : OvfKept m m := ⟨fun h => h, fun _ => rfl⟩

/-- A call goes well. -/
def Call.Ok (E : Env) (own : Nat → Nat) (lk : Bool) (m : Mgr) (c : Call) : Prop :=
  ∃ m' ret, c.run E m = some (m', ret) ∧ m'.Inv (c.own own ret) (lk || c.leaks) ∧
    Keeps own (c.own own ret) m m' ∧ (c ≠ .overflow → OvfKept m m')

namespace Mgr

variable {own : Nat → Nat} {m : Mgr} {lk : Bool} {E : Env}

theorem ok_res {c : Call} {out nul k F} (hl : c.leaks = false) (hr : c.run E m = retH out)
    (ho : ∀ h, c.own own (.handle h) = if h = Handle.null then own else bump own h.addr)
    (h : Res own lk nul k m out F) : c.Ok E own lk m := by
  obtain ⟨m', r, rfl, p, h⟩ := h
  refine ⟨m', .handle r, hr, ?_, fun h l _ F d => p.fns h l F d, fun _ => ⟨p.ovf, p.noLimit⟩⟩
  rw [ho, hl, Bool.or_false]
  rcases h with ⟨h1, h2, -⟩ | ⟨-, h1, h2, -⟩
  · rw [if_neg h1]; exact h2
  · rw [if_pos h1]; exact h2

theorem ok_null {c : Call} {out} (hl : c.leaks = false) (hr : c.run E m = retH out)
    (ho : ∀ h, c.own own (.handle h) = if h = Handle.null then own else bump own h.addr)
    (i : m.Inv own lk) (h : out = some (m, Handle.null)) : c.Ok E own lk m := by
  refine ⟨m, .handle Handle.null, by rw [hr, h]; rfl, ?_, fun _ _ _ _ d => d, fun _ => .refl m⟩
  rw [ho, hl, Bool.or_false, if_pos rfl]; exact i

theorem ok_newVar {c : Call} {out k} (hl : c.leaks = false) (hr : c.run E m = retH out)
    (ho : ∀ h, c.own own (.handle h) = if h = Handle.null then own else bump own h.addr)
    (h : NewVar own lk k m out) : c.Ok E own lk m := by
  obtain ⟨m', r, rfl, h1, i, g, -⟩ := h
  refine ⟨m', .handle r, hr, ?_, fun h l _ F d => g.fns h l F d,
    fun _ => ⟨fun h => by rw [g.ovf]; exact h, fun _ => g.ovf⟩⟩
  rw [ho, hl, Bool.or_false, if_neg h1]; exact i

/-- calls that return no handle -/
theorem ok_plain {c : Call} {m' ret} (hl : c.leaks = false) (hr : c.run E m = some (m', ret))
    (ho : c.own own ret = own) (i : m'.Inv own lk)
    (p : ∀ h, UTab.Live own h → ∀ F, Den m h F → Den m' h F) (q : c ≠ .overflow → OvfKept m m') :
    c.Ok E own lk m :=
  ⟨m', ret, hr, by rw [ho, hl, Bool.or_false]; exact i, fun h l _ F d => p h l F d, q⟩

theorem Inv.den (i : m.Inv own lk) {h : Handle} (l : UTab.Live own h) : ∃ F, Den m h F := by
  obtain ⟨Γ, leak, -, i⟩ := i
  exact i.den l

theorem Inv.dens (i : m.Inv own lk) {hs : List Handle} (l : ∀ h ∈ hs, UTab.Live own h) :
    ∃ Fs, F2 (Den m) hs Fs := by
  induction hs with
  | nil => exact ⟨[], .nil⟩
  | cons h hs ih =>
    obtain ⟨F, hF⟩ := i.den (l h (by simp))
    obtain ⟨Fs, hFs⟩ := ih fun x hx => l x (by simp [hx])
    exact ⟨F :: Fs, .cons hF hFs⟩

theorem Inv.den_unique (i : m.Inv own lk) {h : Handle} {F G} (d1 : Den m h F) (d2 : Den m h G) :
    F = G := by
  obtain ⟨Γ, leak, -, i⟩ := i
  exact i.den_unique d1 d2

theorem Inv.live_ne (i : m.Inv own lk) {h : Handle} (l : UTab.Live own h) : h ≠ Handle.null := by
  obtain ⟨Γ, leak, -, i⟩ := i
  exact i.live_ne l

/-- Calls with two handle arguments. -/
theorem ok_two {c : Call} {f g : Handle} {run last} (hl : c.leaks = false)
    (hr : c.run E m = retH (m.api E [f, g] run last))
    (ho : ∀ h, c.own own (.handle h) = if h = Handle.null then own else bump own h.addr)
    (i : m.Inv own lk) (af : OArg own f) (ag : OArg own g)
    (h : ∀ F G, UTab.Live own f → UTab.Live own g → Den m f F → Den m g G →
      ∃ nul k H, Res own lk nul k m (m.api E [f, g] run last) H) : c.Ok E own lk m := by
  have args : ∀ x ∈ [f, g], x = Handle.null ∨ UTab.Live own x := by
    intro x hx
    simp only [List.mem_cons, List.not_mem_nil, or_false] at hx
    rcases hx with rfl | rfl
    · exact af
    · exact ag
  rcases af with af | af
  · exact ok_null hl hr ho i (api_null i args (by simp [af]))
  rcases ag with ag | ag
  · exact ok_null hl hr ho i (api_null i args (by simp [ag]))
  obtain ⟨F, hF⟩ := i.den af
  obtain ⟨G, hG⟩ := i.den ag
  obtain ⟨nul, k, H, h⟩ := h F G af ag hF hG
  exact ok_res hl hr ho h

/-- Calls with two handle arguments that are not of the form `api`. -/
theorem ok_pair {c : Call} {f g : Handle} {out} (hl : c.leaks = false) (hr : c.run E m = retH out)
    (ho : ∀ h, c.own own (.handle h) = if h = Handle.null then own else bump own h.addr)
    (hn : m.preProc E [f, g] = some (m, false) → out = some (m, Handle.null))
    (i : m.Inv own lk) (af : OArg own f) (ag : OArg own g)
    (h : ∀ F G, UTab.Live own f → UTab.Live own g → Den m f F → Den m g G →
      ∃ nul k H, Res own lk nul k m out H) : c.Ok E own lk m := by
  have args : ∀ x ∈ [f, g], x = Handle.null ∨ UTab.Live own x := by
    intro x hx
    simp only [List.mem_cons, List.not_mem_nil, or_false] at hx
    rcases hx with rfl | rfl
    · exact af
    · exact ag
  rcases af with af | af
  · exact ok_null hl hr ho i (hn (preProc_null i args (by simp [af])))
  rcases ag with ag | ag
  · exact ok_null hl hr ho i (hn (preProc_null i args (by simp [ag])))
  obtain ⟨F, hF⟩ := i.den af
  obtain ⟨G, hG⟩ := i.den ag
  obtain ⟨nul, k, H, h⟩ := h F G af ag hF hG
  exact ok_res hl hr ho h

/-- Calls with one handle argument. -/
theorem ok_one {c : Call} {f : Handle} {run last} (hl : c.leaks = false)
    (hr : c.run E m = retH (m.api E [f] run last))
    (ho : ∀ h, c.own own (.handle h) = if h = Handle.null then own else bump own h.addr)
    (i : m.Inv own lk) (af : OArg own f)
    (h : ∀ F, UTab.Live own f → Den m f F →
      ∃ nul k H, Res own lk nul k m (m.api E [f] run last) H) : c.Ok E own lk m := by
  rcases af with af | af
  · exact ok_null hl hr ho i (api_null i (by simp [af]) (by simp [af]))
  obtain ⟨F, hF⟩ := i.den af
  obtain ⟨nul, k, H, h⟩ := h F af hF
  exact ok_res hl hr ho h

theorem nonConst_of {f F} (hF : Den m f F) (h : ∀ b, ¬ Den m f fun _ => b) : NonConst F := by
  constructor
  · rintro rfl; exact h true hF
  · rintro rfl; exact h false hF

theorem codes_left (i : m.Inv own lk) {k} : k ≤ m.codesLeft → 0x8FFF + k ≤ m.tempOp := by
  obtain ⟨Γ, leak, -, i⟩ := i
  have := i.top'
  unfold codesLeft; omega

theorem pairs_dec : ∀ Fs : List BFn, (∃ L, Legal true Fs L) ∨ Illegal Fs
  | [] => Or.inl ⟨[], .nil⟩
  | [_] => Or.inl ⟨[], .nil⟩
  | F :: G :: Fs => by
    by_cases hF : ∃ v, F = fun ρ => ρ v
    · obtain ⟨v, hv⟩ := hF
      rcases pairs_dec Fs with ⟨L, h⟩ | ⟨q, hq, hn⟩
      · exact Or.inl ⟨(v, G) :: L, .cons ⟨Or.inl hv, rfl⟩ h⟩
      · exact Or.inr ⟨q, by simp [entries, hq], hn⟩
    · exact Or.inr ⟨(F, G), by simp [entries], hF⟩

theorem literals_legal (i : m.Inv own lk) : ∀ {hs : List Handle} {Fs}, F2 (Den m) hs Fs →
    Literals m hs → ∃ L, Legal false Fs L
  | [], _, .nil, _ => ⟨[], .nil⟩
  | h :: hs, _, .cons (y := F) d ds, l => by
    obtain ⟨L, hL⟩ := literals_legal i ds fun x hx => l x (by simp [hx])
    obtain ⟨v, hv⟩ := l h (by simp)
    refine ⟨(v, fun _ => true) :: L, .cons ⟨?_, rfl⟩ hL⟩
    rcases hv with hv | hv
    · exact Or.inl (i.den_unique d hv)
    · exact Or.inr ⟨rfl, i.den_unique d hv⟩

/-- the first entries of the pairs are handles of the variables -/
theorem evens_vars (i : m.Inv own lk) : ∀ {hs : List Handle} {Fs} {L}, F2 (Den m) hs Fs →
    Legal true Fs L → F2 (fun h v => Den m h fun ρ => ρ v) (evens hs) (L.map (·.1))
  | [], _, _, .nil, .nil => .nil
  | [_], _, _, .cons _ .nil, .nil => .nil
  | h :: g :: hs, _, _, .cons d1 (.cons d2 d), .cons (y := r) hr l => by
    refine .cons ?_ (evens_vars i d l)
    rcases hr.1 with h | ⟨h, -⟩
    · simp only at h; rw [← h]; exact d1
    · cases h

theorem and_mon : Mon (· && ·) true := ⟨by decide, by decide, by decide⟩
theorem or_mon : Mon (· || ·) false := ⟨by decide, by decide, by decide⟩
theorem xor_mon : Mon Bool.xor false := ⟨by decide, by decide, by decide⟩

theorem var_inj {v w : Nat} (h : (fun ρ : Asg => ρ v) = fun ρ => ρ w) : v = w := by
  have := congrFun h (fun x => decide (x = w))
  simpa using this

theorem nodup_vars (i : m.Inv own lk) : ∀ {hs : List Handle} {vs : List Nat},
    F2 (fun h v => Den m h fun ρ => ρ v) hs vs → (hs.Nodup ↔ vs.Nodup)
  | [], _, .nil => by simp
  | h :: hs, _, .cons (y := v) (m := vs) d ds => by
    have mem : h ∈ hs ↔ v ∈ vs := by
      have key : ∀ {hs : List Handle} {vs : List Nat}, F2 (fun h v => Den m h fun ρ => ρ v) hs vs →
          (h ∈ hs ↔ v ∈ vs) := by
        intro hs vs ds
        induction ds with
        | nil => simp
        | cons d' _ ih =>
          rw [List.mem_cons, List.mem_cons, ih, handle_eq i d d']
          constructor
          · rintro (h | h)
            · exact Or.inl (var_inj h)
            · exact Or.inr h
          · rintro (h | h)
            · exact Or.inl (by rw [h])
            · exact Or.inr h
      exact key ds
    rw [List.nodup_cons, List.nodup_cons, mem, nodup_vars i ds]

end Mgr

open Mgr

theorem call_ok (E : Env) (S : E.Sound) {own lk m} (i : m.Inv own lk) (c : Call)
    (hl : c.Legal own m) : c.Ok E own lk m := by
  cases c with
  | one =>
    exact ok_plain rfl rfl rfl i (fun _ _ _ d => d)
      fun _ => ⟨fun h => h, fun _ => rfl⟩
  | zero =>
    exact ok_plain rfl rfl rfl i (fun _ _ _ d => d)
      fun _ => ⟨fun h => h, fun _ => rfl⟩
  | not f =>
    obtain ⟨F, hF⟩ := i.den hl
    exact ok_res rfl rfl (fun _ => rfl) (not_ok i hl hF)
  | identity f =>
    obtain ⟨F, hF⟩ := i.den hl
    exact ok_res rfl rfl (fun _ => rfl) (identity_ok i hl hF)
  | regular f =>
    exact ok_plain rfl rfl rfl i (fun _ _ _ d => d)
      fun _ => ⟨fun h => h, fun _ => rfl⟩
  | free f =>
    obtain ⟨Γ, leak, hk, i⟩ := i
    by_cases h1 : f.addr = 1
    · obtain ⟨m', h, i1, p⟩ := i.free_const h1
      exact ok_plain rfl (by simp only [Call.run, h, Option.map_some]; rfl) (if_pos h1)
        ⟨Γ, leak, hk, i1⟩ p.fns fun _ => ⟨p.ovf, p.noLimit⟩
    · obtain ⟨m', h, i1, p, -⟩ := i.free (h := f) (hl.resolve_left h1)
      refine ⟨m', .unit, by simp [Call.run, h], ?_, fun h l _ F d => p.fns h l F d,
        fun _ => ⟨p.ovf, p.noLimit⟩⟩
      simp only [Call.own, if_neg h1, Call.leaks, Bool.or_false]
      exact ⟨Γ, leak, hk, i1⟩
  | unFree f =>
    obtain ⟨Γ, leak, hk, i⟩ := i
    obtain ⟨m', h, i1, p, -⟩ := i.unFree hl
    refine ⟨m', .unit, by simp [Call.run, h], ?_, fun h l _ F d => p.fns h l F d,
        fun _ => ⟨p.ovf, p.noLimit⟩⟩
    simp only [Call.own, Call.leaks, Bool.or_false]
    exact ⟨Γ, leak, hk, i1⟩
  | if_ f =>
    refine ok_one rfl rfl (fun _ => rfl) i hl.1 fun F lf hF => ?_
    obtain ⟨v, h, -⟩ := if_ok S i lf hF (nonConst_of hF hl.2)
    exact ⟨_, _, _, h⟩
  | then_ f =>
    refine ok_one rfl rfl (fun _ => rfl) i hl.1 fun F lf hF => ?_
    obtain ⟨v, h, -⟩ := thenElse_ok S i lf hF (nonConst_of hF hl.2)
    exact ⟨_, _, _, h⟩
  | else_ f =>
    refine ok_one rfl rfl (fun _ => rfl) i hl.1 fun F lf hF => ?_
    obtain ⟨v, -, h, -⟩ := thenElse_ok S i lf hF (nonConst_of hF hl.2)
    exact ⟨_, _, _, h⟩
  | getIfIndex f =>
    rcases hl with h | h
    · have := preProc_null (E := E) i (hs := [f]) (by simp [h]) (by simp [h])
      exact ok_plain (m' := m) rfl (by simp only [Call.run, getIfIndex, this]; rfl) rfl i
        (fun _ _ _ d => d) fun _ => .refl m
    · obtain ⟨F, hF⟩ := i.den h
      obtain ⟨m', p, i1, h1, h2⟩ := getIf_ok S i h hF
      by_cases hc : NonConst F
      · obtain ⟨v, -, h3, -⟩ := h2 hc
        exact ok_plain rfl (by simp only [Call.run, h3]; rfl) rfl i1 p.fns fun _ => ⟨p.ovf, p.noLimit⟩
      · have : F = (fun _ => true) ∨ F = fun _ => false := by
          unfold NonConst at hc
          by_cases h : F = fun _ => true
          · exact Or.inl h
          · exact Or.inr (Classical.byContradiction fun h' => hc ⟨h, h'⟩)
        exact ok_plain rfl (by simp only [Call.run, (h1 this).1]; rfl) rfl i1 p.fns fun _ => ⟨p.ovf, p.noLimit⟩
  | getIfId f =>
    rcases hl with h | h
    · have := preProc_null (E := E) i (hs := [f]) (by simp [h]) (by simp [h])
      exact ok_plain (m' := m) rfl (by simp only [Call.run, getIfId, this]; rfl) rfl i
        (fun _ _ _ d => d) fun _ => .refl m
    · obtain ⟨F, hF⟩ := i.den h
      obtain ⟨m', p, i1, h1, h2⟩ := getIf_ok S i h hF
      by_cases hc : NonConst F
      · obtain ⟨v, -, -, h3⟩ := h2 hc
        exact ok_plain rfl (by simp only [Call.run, h3]; rfl) rfl i1 p.fns fun _ => ⟨p.ovf, p.noLimit⟩
      · have : F = (fun _ => true) ∨ F = fun _ => false := by
          unfold NonConst at hc
          by_cases h : F = fun _ => true
          · exact Or.inl h
          · exact Or.inr (Classical.byContradiction fun h' => hc ⟨h, h'⟩)
        exact ok_plain rfl (by simp only [Call.run, (h1 this).2]; rfl) rfl i1 p.fns fun _ => ⟨p.ovf, p.noLimit⟩
  | type f =>
    rcases hl with h | h
    · have := preProc_null (E := E) i (hs := [f]) (by simp [h]) (by simp [h])
      exact ok_plain (m' := m) rfl (by simp only [Call.run, Mgr.type, this]; rfl) rfl i
        (fun _ _ _ d => d) fun _ => .refl m
    · obtain ⟨F, hF⟩ := i.den h
      obtain ⟨m', t, h1, p, i1, -⟩ := type_ok S i h hF
      exact ok_plain rfl (by simp only [Call.run, h1]; rfl) rfl i1 p.fns fun _ => ⟨p.ovf, p.noLimit⟩
  | and f g => exact ok_two rfl rfl (fun _ => rfl) i hl.1 hl.2 fun F G a b c d => ⟨_, _, _, op2_ok S i opAnd_law a b c d⟩
  | nand f g => exact ok_two rfl rfl (fun _ => rfl) i hl.1 hl.2 fun F G a b c d => ⟨_, _, _, op2_ok S i opNand_law a b c d⟩
  | or f g => exact ok_two rfl rfl (fun _ => rfl) i hl.1 hl.2 fun F G a b c d => ⟨_, _, _, op2_ok S i opOr_law a b c d⟩
  | nor f g => exact ok_two rfl rfl (fun _ => rfl) i hl.1 hl.2 fun F G a b c d => ⟨_, _, _, op2neg_ok S i opOr_law a b c d⟩
  | xor f g => exact ok_two rfl rfl (fun _ => rfl) i hl.1 hl.2 fun F G a b c d => ⟨_, _, _, op2_ok S i opXor_law a b c d⟩
  | xnor f g => exact ok_two rfl rfl (fun _ => rfl) i hl.1 hl.2 fun F G a b c d => ⟨_, _, _, op2neg_ok S i opXor_law a b c d⟩
  | ite f g h =>
    have args : ∀ x ∈ [f, g, h], x = Handle.null ∨ UTab.Live own x := by
      intro x hx
      simp only [List.mem_cons, List.not_mem_nil, or_false] at hx
      rcases hx with rfl | rfl | rfl
      · exact hl.1
      · exact hl.2.1
      · exact hl.2.2
    rcases hl.1 with a1 | a1
    · exact ok_null rfl rfl (fun _ => rfl) i (api_null i args (by simp [a1]))
    rcases hl.2.1 with a2 | a2
    · exact ok_null rfl rfl (fun _ => rfl) i (api_null i args (by simp [a2]))
    rcases hl.2.2 with a3 | a3
    · exact ok_null rfl rfl (fun _ => rfl) i (api_null i args (by simp [a3]))
    obtain ⟨F, hF⟩ := i.den a1
    obtain ⟨G, hG⟩ := i.den a2
    obtain ⟨H, hH⟩ := i.den a3
    exact ok_res rfl rfl (fun _ => rfl) (ite_ok S i a1 a2 a3 hF hG hH)
  | multiwayAnd hs =>
    by_cases h0 : hs = []
    · subst h0; exact ok_null rfl rfl (fun _ => rfl) i (multiway_empty _)
    · obtain ⟨Fs, hFs⟩ := i.dens hl.1
      exact ok_res rfl rfl (fun _ => rfl) (multiway_ok S i opAnd_law and_mon hl.1 hFs h0 hl.2)
  | multiwayOr hs =>
    by_cases h0 : hs = []
    · subst h0; exact ok_null rfl rfl (fun _ => rfl) i (multiway_empty _)
    · obtain ⟨Fs, hFs⟩ := i.dens hl.1
      exact ok_res rfl rfl (fun _ => rfl) (multiway_ok S i opOr_law or_mon hl.1 hFs h0 hl.2)
  | multiwayXor hs =>
    by_cases h0 : hs = []
    · subst h0; exact ok_null rfl rfl (fun _ => rfl) i (multiway_empty _)
    · obtain ⟨Fs, hFs⟩ := i.dens hl.1
      exact ok_res rfl rfl (fun _ => rfl) (multiway_ok S i opXor_law xor_mon hl.1 hFs h0 hl.2)
  | intersects f g =>
    refine ok_two rfl rfl (fun _ => rfl) i hl.1 hl.2 fun F G a b c d => ?_
    obtain ⟨H, h, -⟩ := intersects_ok S i a b c d
    exact ⟨_, _, _, h⟩
  | implies f g =>
    refine ok_two rfl rfl (fun _ => rfl) i hl.1 hl.2 fun F G a b c d => ?_
    obtain ⟨H, h, -⟩ := implies_ok S i a b c d
    exact ⟨_, _, _, h⟩
  | exists_ f =>
    refine ok_one rfl rfl (fun _ => rfl) i hl.1 fun F lf hF => ?_
    have ⟨Γ, leak, _, ig⟩ := i
    obtain ⟨A, hA⟩ := ig.cur_assoc
    exact ⟨_, _, _, exists_ok S i hA (fun h => codes_left i (hl.2 h)) lf hF⟩
  | forAll f =>
    refine ok_one rfl rfl (fun _ => rfl) i hl.1 fun F lf hF => ?_
    have ⟨Γ, leak, _, ig⟩ := i
    obtain ⟨A, hA⟩ := ig.cur_assoc
    exact ⟨_, _, _, forAll_ok S i hA (fun h => codes_left i (hl.2 h)) lf hF⟩
  | relProd f g =>
    refine ok_two rfl rfl (fun _ => rfl) i hl.1 hl.2.1 fun F G a b c d => ?_
    have ⟨Γ, leak, _, ig⟩ := i
    obtain ⟨A, hA⟩ := ig.cur_assoc
    exact ⟨_, _, _, relProd_ok S i hA (fun h => codes_left i (hl.2.2 h)) a b c d⟩
  | satisfy f =>
    rcases hl with h | h
    · have := preProc_null (E := E) i (hs := [f]) (by simp [h]) (by simp [h])
      exact ok_null rfl rfl (fun _ => rfl) i (by simp only [satisfy, this])
    · obtain ⟨F, hF⟩ := i.den h
      obtain ⟨h1, h2⟩ := satisfy_ok S i h hF
      by_cases h0 : F = fun _ => false
      · exact ok_res rfl rfl (fun _ => rfl) (h1 h0)
      · obtain ⟨L, h3, -⟩ := h2 h0
        exact ok_res rfl rfl (fun _ => rfl) h3
  | satisfySupport f =>
    rcases hl with h | h
    · have := preProc_null (E := E) i (hs := [f]) (by simp [h]) (by simp [h])
      exact ok_null rfl rfl (fun _ => rfl) i (by simp only [satisfySupport, this])
    · obtain ⟨F, hF⟩ := i.den h
      have ⟨Γ, leak, _, ig⟩ := i
      obtain ⟨A, hA⟩ := ig.cur_assoc
      obtain ⟨h1, h2⟩ := satisfySupport_ok S i hA h hF
      by_cases h0 : F = fun _ => false
      · exact ok_res rfl rfl (fun _ => rfl) (h1 h0)
      · obtain ⟨L, h3, -⟩ := h2 h0
        exact ok_res rfl rfl (fun _ => rfl) h3
  | satisfyingFraction f =>
    rcases hl with h | h
    · have := preProc_null (E := E) i (hs := [f]) (by simp [h]) (by simp [h])
      exact ok_plain (m' := m) rfl (by simp only [Call.run, satisfyingFraction, this]; rfl) rfl i
        (fun _ _ _ d => d) fun _ => .refl m
    · obtain ⟨F, hF⟩ := i.den h
      obtain ⟨m', x, h1, i1, p, -⟩ := satisfyingFraction_ok S i h hF
      exact ok_plain rfl (by simp only [Call.run, h1]; rfl) rfl i1 p.fns fun _ => ⟨p.ovf, p.noLimit⟩
  | size f negout =>
    rcases hl with h | h
    · have := preProc_null (E := E) i (hs := [f]) (by simp [h]) (by simp [h])
      exact ok_plain (m' := m) rfl (by simp only [Call.run, Mgr.size, this]; rfl) rfl i
        (fun _ _ _ d => d) fun _ => .refl m
    · obtain ⟨F, hF⟩ := i.den h
      obtain ⟨m', n, h1, i1, p, -⟩ := size_ok S i h hF negout
      exact ok_plain rfl (by simp only [Call.run, h1]; rfl) rfl i1 p.fns fun _ => ⟨p.ovf, p.noLimit⟩
  | sizeMultiple hs negout =>
    obtain ⟨Fs, hFs⟩ := i.dens hl
    obtain ⟨m', n, h1, i1, p, -⟩ := sizeMultiple_ok S i hl hFs negout
    exact ok_plain rfl (by simp only [Call.run, h1]; rfl) rfl i1 p.fns fun _ => ⟨p.ovf, p.noLimit⟩
  | profile f negout =>
    rcases hl with h | h
    · have := preProc_null (E := E) i (hs := [f]) (by simp [h]) (by simp [h])
      exact ok_plain (m' := m) rfl (by simp only [Call.run, profile, this]; rfl) rfl i
        (fun _ _ _ d => d) fun _ => .refl m
    · obtain ⟨F, hF⟩ := i.den h
      obtain ⟨m', n, h1, i1, p, -⟩ := profile_ok S i h hF negout
      exact ok_plain rfl (by simp only [Call.run, h1]; rfl) rfl i1 p.fns fun _ => ⟨p.ovf, p.noLimit⟩
  | profileMultiple hs negout =>
    obtain ⟨Fs, hFs⟩ := i.dens hl
    obtain ⟨m', n, h1, i1, p, -⟩ := profileMultiple_ok S i hl hFs negout
    exact ok_plain rfl (by simp only [Call.run, h1]; rfl) rfl i1 p.fns fun _ => ⟨p.ovf, p.noLimit⟩
  | support f =>
    rcases hl with h | h
    · have := preProc_null (E := E) i (hs := [f]) (by simp [h]) (by simp [h])
      exact ok_plain (m' := m) rfl (by simp only [Call.run, support, this]; rfl) rfl i
        (fun _ _ _ d => d) fun _ => .refl m
    · obtain ⟨F, hF⟩ := i.den h
      obtain ⟨m', hs, vs, h1, i1, p, -⟩ := support_ok S i h hF
      refine ⟨m', .handles hs, by simp only [Call.run, h1]; rfl, ?_, fun h l _ F d => p.fns h l F d,
        fun _ => ⟨p.ovf, p.noLimit⟩⟩
      simp only [Call.own, Call.leaks, Bool.or_false]; exact i1
  | dump f vs =>
    obtain ⟨hf, hv⟩ := hl
    rcases hf with h | h
    · have := preProc_null (E := E) i (hs := [f]) (by simp [h]) (by simp [h])
      exact ok_plain (m' := m) rfl (by simp only [Call.run, Mgr.dump, this]; rfl) rfl i
        (fun _ _ _ d => d) fun _ => .refl m
    · obtain ⟨F, hF⟩ := i.den h
      obtain ⟨m', sup, o, h1, i1, p, -⟩ := dump_ok S i h hF hv
      refine ⟨m', .dumped sup o, by simp only [Call.run, h1]; rfl, ?_, fun h l _ F d => p.fns h l F d,
        fun _ => ⟨p.ovf, p.noLimit⟩⟩
      simp only [Call.own, Call.leaks, Bool.or_false]; exact i1
  | undump mem vs file fin =>
    obtain ⟨hv, hfit⟩ := hl
    obtain ⟨h1, h2⟩ := undump_ok S i hv mem file fin
    by_cases hy : ∃ ys, VarsOf m vs ys
    · obtain ⟨ys, hy⟩ := hy
      have ht := hfit ys (Dump.F2.length_eq hy).symm
      rcases h2 ys hy with ⟨h3, -⟩ | ⟨m', x, R', -, h3, i3, p3⟩ | ⟨m', h, G, -, h3, hne, i3, p3, -⟩
      · exact absurd h3 ht
      · refine ⟨m', .undumped (some x) Handle.null, by simp only [Call.run, h3]; rfl, ?_, fun h l _ F d => p3.fns h l F d,
          fun _ => ⟨p3.ovf, p3.noLimit⟩⟩
        simp only [Call.own, Call.leaks, Bool.or_false, if_true]; exact i3
      · refine ⟨m', .undumped none h, by simp only [Call.run, h3]; rfl, ?_, fun h l _ F d => p3.fns h l F d,
          fun _ => ⟨p3.ovf, p3.noLimit⟩⟩
        simp only [Call.own, Call.leaks, Bool.or_false, if_neg hne]; exact i3
    · obtain ⟨m', h3, i3, p3⟩ := h1 hy
      refine ⟨m', .undumped none Handle.null, by simp only [Call.run, h3]; rfl, ?_, fun h l _ F d => p3.fns h l F d,
        fun _ => ⟨p3.ovf, p3.noLimit⟩⟩
      simp only [Call.own, Call.leaks, Bool.or_false, if_true]; exact i3
  | dependsOn f v =>
    have args : ∀ x ∈ [f, v], x = Handle.null ∨ UTab.Live own x := by
      intro x hx
      simp only [List.mem_cons, List.not_mem_nil, or_false] at hx
      rcases hx with rfl | rfl
      · exact hl.1
      · exact hl.2
    have nul : Handle.null ∈ [f, v] → (Call.dependsOn f v).Ok E own lk m := by
      intro h
      have := preProc_null (E := E) i args h
      exact ok_plain (m' := m) rfl (by simp only [Call.run, dependsOn, this]; rfl) rfl i
        (fun _ _ _ d => d) fun _ => .refl m
    rcases hl.1 with a1 | a1
    · exact nul (by simp [a1])
    rcases hl.2 with a2 | a2
    · exact nul (by simp [a2])
    obtain ⟨F, hF⟩ := i.den a1
    obtain ⟨G, hG⟩ := i.den a2
    obtain ⟨m', b, h1, i1, p, -⟩ := dependsOn_ok S i a1 a2 hF hG
    exact ok_plain rfl (by simp only [Call.run, h1]; rfl) rfl i1 p.fns fun _ => ⟨p.ovf, p.noLimit⟩
  | reduce f c =>
    refine ok_pair rfl rfl (fun _ => rfl) (fun h => by simp only [reduce, h]) i hl.1 hl.2.1 fun F C a b d e => ?_
    by_cases hs : ∃ ρ, C ρ = true
    · obtain ⟨H, h, -⟩ := reduce_ok S i a b d e hs
      exact ⟨_, _, _, h⟩
    · have : C = fun _ => false := by
        funext ρ
        cases h : C ρ
        · rfl
        · exact absurd ⟨ρ, h⟩ hs
      subst this
      exact absurd e hl.2.2
  | between f g =>
    refine ok_pair rfl rfl (fun _ => rfl) (fun h => by simp only [between, h]) i hl.1 hl.2.1 fun F G a b d e => ?_
    by_cases hs : ∃ ρ, F ρ = true ∨ G ρ = false
    · obtain ⟨H, h, -⟩ := between_ok S i a b d e hs
      exact ⟨_, _, _, h⟩
    · have h1 : F = fun _ => false := by
        funext ρ
        cases h : F ρ
        · rfl
        · exact absurd ⟨ρ, Or.inl h⟩ hs
      have h2 : G = fun _ => true := by
        funext ρ
        cases h : G ρ
        · exact absurd ⟨ρ, Or.inr h⟩ hs
        · rfl
      subst h1 h2
      exact absurd ⟨d, e⟩ hl.2.2
  | cofactor f c =>
    refine ok_two rfl rfl (fun _ => rfl) i hl.1 hl.2 fun F C a b d e => ?_
    by_cases hs : ∃ ρ, C ρ = true
    · obtain ⟨H, h, -⟩ := cofactor_ok S i a b d e hs
      exact ⟨_, _, _, h⟩
    · have : C = fun _ => false := by
        funext ρ
        cases h : C ρ
        · rfl
        · exact absurd ⟨ρ, h⟩ hs
      subst this
      exact ⟨_, _, _, cofactor_zero S i a b d e⟩
  | compose f g h =>
    obtain ⟨a1, a2, a3, hc⟩ := hl
    obtain ⟨F, hF⟩ := i.den a1
    obtain ⟨G, hG⟩ := i.den a2
    obtain ⟨H, hH⟩ := i.den a3
    obtain ⟨h1, -, h2⟩ := compose_ok S i a1 a2 a3 hF hG hH
    by_cases hb : ∃ b, G = fun _ => b
    · exact ok_res rfl rfl (fun _ => rfl) (h1 hb (hc (by obtain ⟨b, rfl⟩ := hb; exact ⟨b, hG⟩)))
    · obtain ⟨o, v, -, h⟩ := h2 ⟨fun h => hb ⟨_, h⟩, fun h => hb ⟨_, h⟩⟩
      exact ok_res rfl rfl (fun _ => rfl) h
  | swapVars f g h =>
    have args : ∀ x ∈ [f, g, h], x = Handle.null ∨ UTab.Live own x :=
      forall3 hl.1 (hl.2.1.imp id And.left) (hl.2.2.imp id And.left)
    have nul : Handle.null ∈ [f, g, h] → (Call.swapVars f g h).Ok E own lk m := by
      intro hn
      have := preProc_null (E := E) i args hn
      exact ok_null rfl rfl (fun _ => rfl) i (by simp only [swapVars, this])
    rcases hl.1 with a1 | a1
    · exact nul (by simp [a1])
    rcases hl.2.1 with a2 | ⟨a2, b2⟩
    · exact nul (by simp [a2])
    rcases hl.2.2 with a3 | ⟨a3, b3⟩
    · exact nul (by simp [a3])
    obtain ⟨F, hF⟩ := i.den a1
    have con : ∀ {G H}, Den m g G → Den m h H → (∃ b, G = fun _ => b) ∨ (∃ b, H = fun _ => b) →
        (Call.swapVars f g h).Ok E own lk m := by
      intro G H hG hH hc
      obtain ⟨m', h1, i1, p⟩ := swapVars_const S i a1 a2 a3 hF hG hH hc
      exact ⟨m', .handle Handle.null, by simp only [Call.run, h1]; rfl,
        by simp only [Call.own, if_pos, Call.leaks, Bool.or_false]; exact i1,
        fun h l _ F d => p.fns h l F d, fun _ => ⟨p.ovf, p.noLimit⟩⟩
    obtain ⟨H, hH⟩ := i.den a3
    rcases b2 with ⟨b, hb⟩ | ⟨x, hx⟩
    · exact con hb hH (Or.inl ⟨b, rfl⟩)
    rcases b3 with ⟨b, hb⟩ | ⟨y, hy⟩
    · exact con hx hb (Or.inr ⟨b, rfl⟩)
    exact ok_res rfl rfl (fun _ => rfl) (swapVars_ok S i a1 a2 a3 hF hx hy)
  | substitute f =>
    refine ok_one rfl rfl (fun _ => rfl) i hl fun F a b => ?_
    have i' := i
    obtain ⟨Γ, leak, -, ig⟩ := i
    obtain ⟨A, hA⟩ := ig.cur_assoc
    obtain ⟨T, hT⟩ := ig.assocDen hA
    exact ⟨_, _, _, substitute_ok S i' hT a b⟩
  | varSubstitute f =>
    refine ok_one rfl rfl (fun _ => rfl) i hl.1 fun F a b => ?_
    have i' := i
    obtain ⟨Γ, leak, -, ig⟩ := i
    obtain ⟨A, hA⟩ := ig.cur_assoc
    obtain ⟨T, hT⟩ := ig.assocDen hA
    exact ⟨_, _, _, varSubstitute_ok S i' hT (hl.2.1 T hT) (fun h => codes_left i' (hl.2.2 h)) a b⟩
  | newVarFirst => exact ok_newVar rfl rfl (fun _ => rfl) (newVarFirst_ok i hl)
  | newVarLast => exact ok_newVar rfl rfl (fun _ => rfl) (newVarLast_ok i hl)
  | newVarBefore f =>
    obtain ⟨F, hF⟩ := i.den hl.1
    by_cases hc : NonConst F
    · obtain ⟨v, -, h, -⟩ := newVarBeside_ok i hl.2 hF hc
      exact ok_newVar rfl rfl (fun _ => rfl) h
    · exact ok_newVar rfl rfl (fun _ => rfl) (newVarBeside_const i hl.2 hF hc).1
  | newVarAfter f =>
    obtain ⟨F, hF⟩ := i.den hl.1
    by_cases hc : NonConst F
    · obtain ⟨v, -, -, h⟩ := newVarBeside_ok i hl.2 hF hc
      exact ok_newVar rfl rfl (fun _ => rfl) h
    · exact ok_newVar rfl rfl (fun _ => rfl) (newVarBeside_const i hl.2 hF hc).2
  | varWithIndex k =>
    by_cases h : k < m.st.ord.numVars
    · exact ok_res rfl rfl (fun _ => rfl) (varWithIndex_ok i h)
    · exact ok_null rfl rfl (fun _ => rfl) i (varWithIndex_none (by omega))
  | varWithId k =>
    by_cases h : 1 ≤ k ∧ k ≤ m.st.ord.numVars
    · exact ok_res rfl rfl (fun _ => rfl) (varWithId_ok i h.1 h.2)
    · exact ok_null rfl rfl (fun _ => rfl) i (varWithId_none (by omega))
  | associationInit hs pairs =>
    obtain ⟨h1, h2, h3⟩ := hl
    obtain ⟨Fs, hFs⟩ := i.dens h1
    have legal : ∀ L, Legal pairs Fs L → (Call.associationInit hs pairs).Ok E own lk m := by
      intro L hL
      obtain ⟨m', k, h4, i1, f, -⟩ := associationInit_ok S i h1 hFs hL h3
      refine ⟨m', .num k, by simp [Call.run, h4], ?_, fun h l _ F d => f.fns h l F d,
        fun _ => ⟨f.ovf, f.noLimit⟩⟩
      have : (Call.associationInit hs pairs).leaks = (pairs && !decide (L.map (·.1)).Nodup) := by
        cases pairs with
        | false => rfl
        | true =>
          simp only [Call.leaks, Bool.true_and]
          congr 2
          exact propext (nodup_vars i (evens_vars i hFs hL))
      rw [this]; exact i1
    cases pairs with
    | false =>
      obtain ⟨L, hL⟩ := literals_legal i hFs (h2 rfl)
      exact legal L hL
    | true =>
      rcases pairs_dec Fs with ⟨L, hL⟩ | hi
      · exact legal L hL
      · obtain ⟨m', h4, i1, p⟩ := associationInit_illegal S i h1 hFs hi
        refine ⟨m', .num (-1), by simp [Call.run, h4], i1.weaken, fun h l _ F d => p.fns h l F d,
        fun _ => ⟨p.ovf, p.noLimit⟩⟩
  | associationQuit j =>
    obtain ⟨i1, f, -⟩ := associationQuit_ok i j
    exact ok_plain rfl rfl rfl i1 f.fns fun _ => ⟨f.ovf, f.noLimit⟩
  | associationSetCurrent j =>
    obtain ⟨-, i1, f, -⟩ := associationSetCurrent_ok i j
    exact ok_plain rfl rfl rfl i1 f.fns fun _ => ⟨f.ovf, f.noLimit⟩
  | tempInit hs pairs =>
    obtain ⟨h1, h2⟩ := hl
    obtain ⟨Fs, hFs⟩ := i.dens h1
    have legal : ∀ L, Legal pairs Fs L → (Call.tempInit hs pairs).Ok E own lk m := by
      intro L hL
      obtain ⟨m', h4, i1, f, -⟩ := tempInit_ok S i h1 hFs hL
      exact ok_plain rfl (by simp only [Call.run, h4]; rfl) rfl i1 f.frame.fns fun _ => ⟨f.frame.ovf, f.frame.noLimit⟩
    cases pairs with
    | false =>
      obtain ⟨L, hL⟩ := literals_legal i hFs (h2 rfl)
      exact legal L hL
    | true =>
      rcases pairs_dec Fs with ⟨L, hL⟩ | hi
      · exact legal L hL
      · obtain ⟨m', h4, i1, f, -⟩ := tempInit_illegal S i h1 hFs hi
        exact ok_plain rfl (by simp only [Call.run, h4]; rfl) rfl i1 f.frame.fns fun _ => ⟨f.frame.ovf, f.frame.noLimit⟩
  | tempAugment hs pairs =>
    obtain ⟨h1, h2⟩ := hl
    obtain ⟨Fs, hFs⟩ := i.dens h1
    have ⟨Γ, leak, _, ig⟩ := i
    obtain ⟨T, hT⟩ := ig.assocDen (j := -1) rfl
    have legal : ∀ L, Legal pairs Fs L → (Call.tempAugment hs pairs).Ok E own lk m := by
      intro L hL
      obtain ⟨m', h4, i1, f, -⟩ := tempAugment_ok S i h1 hFs hL hT
      exact ok_plain rfl (by simp only [Call.run, h4]; rfl) rfl i1 f.frame.fns fun _ => ⟨f.frame.ovf, f.frame.noLimit⟩
    cases pairs with
    | false =>
      obtain ⟨L, hL⟩ := literals_legal i hFs (h2 rfl)
      exact legal L hL
    | true =>
      rcases pairs_dec Fs with ⟨L, hL⟩ | hi
      · exact legal L hL
      · obtain ⟨m', h4, i1, f⟩ := tempAugment_illegal S i h1 hFs hi
        exact ok_plain rfl (by simp only [Call.run, h4]; rfl) rfl i1 f.fns fun _ => ⟨f.ovf, f.noLimit⟩
  | tempQuit =>
    obtain ⟨i1, f, -⟩ := tempQuit_ok i
    exact ok_plain rfl rfl rfl i1 f.frame.fns fun _ => ⟨f.frame.ovf, f.frame.noLimit⟩
  | gc =>
    obtain ⟨m', h, i1, p, -⟩ := gc_ok i
    exact ok_plain rfl (by simp only [Call.run, h]; rfl) rfl i1 p.fns fun _ => ⟨p.ovf, p.noLimit⟩
  | setGCLimit =>
    exact ok_plain rfl rfl rfl (i.settings rfl rfl rfl rfl rfl rfl rfl rfl) (fun _ _ _ d => d)
      fun _ => ⟨fun h => h, fun _ => rfl⟩
  | setGCMode g =>
    exact ok_plain rfl rfl rfl (i.settings rfl rfl rfl rfl rfl rfl rfl rfl) (fun _ _ _ d => d)
      fun _ => ⟨fun h => h, fun _ => rfl⟩
  | nodeLimit n =>
    exact ok_plain rfl rfl rfl (i.settings rfl rfl rfl rfl rfl rfl rfl rfl) (fun _ _ _ d => d)
      fun _ => ⟨fun h => h, fun _ => rfl⟩
  | overflow =>
    exact ok_plain rfl rfl rfl (i.settings rfl rfl rfl rfl rfl rfl rfl rfl) (fun _ _ _ d => d)
      fun h => absurd rfl h
  | dynamicReordering t k =>
    exact ok_plain rfl rfl rfl (i.settings rfl rfl rfl rfl rfl rfl rfl rfl) (fun _ _ _ d => d)
      fun _ => ⟨fun h => h, fun _ => rfl⟩
  | reorder =>
    obtain ⟨m', h, i1, p, -⟩ := reorder_ok S i
    exact ok_plain rfl (by simp only [Call.run, h]; rfl) rfl i1 p.fns fun _ => ⟨p.ovf, p.noLimit⟩

/-- The operations of a legal pipeline can be done one at a time. -/
theorem Mgr.Inv.oneByOne {own : Nat → Nat} {lk : Bool} {m : Mgr} (i : m.Inv own lk) {op cs us}
    (l : PipeLegal own op cs us) : ∃ Fs, OneByOne op.fn m [] cs Fs := by
  obtain ⟨ls, hls, -⟩ := l.levels
  have hh := l.held
  have key : ∀ (cs : List (POperand × POperand)) (Gs : List BFn) (l0 : List Nat), l0.length = Gs.length →
      levels l0 cs = some ls → (∀ c ∈ cs, c.1.Held own ∧ c.2.Held own) →
      ∃ Fs, OneByOne op.fn m Gs cs Fs := by
    intro cs
    induction cs with
    | nil => intro Gs l0 _ _ _; exact ⟨Gs, .nil⟩
    | cons c cs ih =>
      obtain ⟨x, y⟩ := c
      intro Gs l0 hl h hh
      have one : ∀ {x : POperand} {a}, x.Held own → x.level l0 = some a → ∃ F, OpDen m Gs x F := by
        intro x a hx ha
        cases x with
        | bdd g => obtain ⟨F, hF⟩ := i.den hx; exact ⟨F, .bdd hF⟩
        | prov j neg =>
          have hj : j < Gs.length := by
            cases e : l0[j]? with
            | none => rw [POperand.level, e] at ha; cases ha
            | some b => rw [← hl]; exact (List.getElem?_eq_some_iff.mp e).1
          cases neg
          · exact ⟨_, .prov (List.getElem?_eq_getElem hj)⟩
          · exact ⟨_, .not (List.getElem?_eq_getElem hj)⟩
      simp only [levels] at h
      split at h
      · rename_i a b ha hb
        obtain ⟨F, hF⟩ := one (hh (x, y) (by simp)).1 ha
        obtain ⟨G, hG⟩ := one (hh (x, y) (by simp)).2 hb
        obtain ⟨Fs, hFs⟩ := ih (Gs ++ [fun ρ => op.fn (F ρ) (G ρ)]) _ (by simp [hl]) h
          fun c hc => hh c (by simp [hc])
        exact ⟨Fs, .cons hF hG hFs⟩
      · cases h
  exact key cs [] [] rfl hls hh

/-- The invariant holds in every reachable state. -/
theorem Reachable.inv {E : Env} (S : E.Sound) {own lk m} (r : Reachable E own lk m) : m.Inv own lk := by
  induction r with
  | init hash => exact init_inv hash
  | call c _ l h ih =>
    obtain ⟨m1, ret1, h1, i, -⟩ := call_ok E S ih c l
    rw [h] at h1
    cases h1
    exact i
  | @pipeline own lk m m' p p' out op cs us _ hp l h ih =>
    obtain ⟨Fs, d⟩ := ih.oneByOne l
    obtain ⟨m1, p1, out1, h1, -, -, i⟩ := pipeline_ok S ih hp l d
    rw [h] at h1
    cases h1
    cases out with
    | some hs => simpa [pipelineOwn] using i.1
    | none => simpa [pipelineOwn] using i.1

end Cal
