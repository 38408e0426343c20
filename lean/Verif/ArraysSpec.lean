/-!
# What the arrays of a manager stand for

The specification of `Arrays`: a list of variables in their order, and associations as functions.
-/

namespace Cal.Arrays

structure Spec where
  /-- the ids, from the first to the last index -/
  order : List Nat
  /-- entry of a variable in the temporary association, 0 if there is none -/
  temp : Nat → Nat
  assocs : List (Nat → Nat)
  /-- the number of request queues -/
  depth : Nat

/-- later pairs override earlier ones -/
def assign : List (Nat × Nat) → (Nat → Nat) → Nat → Nat
  | [], f => f
  | (id, v) :: ps, f => assign ps (fun i => if i = id then v else f i)

/-- `f` and `g` agree on the variables 1 to `n` -/
def agree (n : Nat) (f g : Nat → Nat) : Bool := (List.range n).all fun i => f (i + 1) = g (i + 1)

def Spec.init : Spec := ⟨[], fun _ => 0, [], 6⟩

/-- the number of variables is the id of the new one, which goes to position `index` -/
def Spec.newVar (index : Nat) (t : Spec) : Spec :=
  if t.order.length = 65534 ∨ t.order.length < index then t
  else { t with order := t.order.take index ++ (t.order.length + 1) :: t.order.drop index }

/-- an association that is not there yet is added -/
def Spec.assocInit (ps : List (Nat × Nat)) (t : Spec) : Spec :=
  if t.assocs.any fun g => agree t.order.length g (assign ps fun _ => 0) then t
  else { t with assocs := t.assocs ++ [assign ps fun _ => 0] }

/-- two neighbours change places -/
def Spec.swap (index : Nat) (t : Spec) : Spec :=
  match t.order[index]?, t.order[index + 1]? with
  | some a, some b => { t with order := (t.order.set index b).set (index + 1) a }
  | _, _ => t

/-- What changes the arrays. -/
inductive Call where
  | newVar (index : Nat)
  | setDepth (d : Nat)
  | assocInit (ps : List (Nat × Nat))
  | assocQuit (i : Nat)
  | tempInit (ps : List (Nat × Nat))
  | tempAugment (ps : List (Nat × Nat))
  | tempQuit
  | swap (index : Nat)

def Spec.step (t : Spec) : Call → Spec
  | .newVar index => t.newVar index
  | .setDepth d => { t with depth := max t.depth d }
  | .assocInit ps => t.assocInit ps
  | .assocQuit i => { t with assocs := t.assocs.eraseIdx i }
  | .tempInit ps => { t with temp := assign ps fun _ => 0 }
  | .tempAugment ps => { t with temp := assign ps t.temp }
  | .tempQuit => { t with temp := fun _ => 0 }
  | .swap index => t.swap index

def Spec.steps (t : Spec) (cs : List Call) : Spec := cs.foldl Spec.step t

/-- the arguments are variables of the manager, and only neighbours are exchanged -/
def Call.Legal (t : Spec) : Call → Prop
  | .assocInit ps | .tempInit ps | .tempAugment ps => ∀ p ∈ ps, 1 ≤ p.1 ∧ p.1 ≤ t.order.length
  | .swap index => index + 1 < t.order.length
  | _ => True

/-- each call is legal when it is made -/
def Legal (t : Spec) : List Call → Prop
  | [] => True
  | c :: cs => c.Legal t ∧ Legal (t.step c) cs

end Cal.Arrays
