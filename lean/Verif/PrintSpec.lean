import Verif.Sem

/-!
# Reading what `Cal_BddPrintBdd` prints

A reader for the text. It is not part of the code: it says what the text means. A line is indented by its
depth and is one of

    0                     a constant
    var.3                 a variable, named by its index in the order
    !var.3                the complement of a variable
    subformula 7          what has been read with label 7
    !subformula 7         the complement of what has been read with label 7
    if var.3              if-then-else, with the two branches indented by two more, on the lines up to
    else if !var.3            the line with the same indentation that starts with `else if !` and then up
    endif var.3               to the line with the same indentation that starts with `endif`
    7: if var.3           the same, with label 7, which must not have been used before
-/

namespace Cal.Print

inductive Line
  | const (b : Bool)
  | var (neg : Bool) (i : Nat)
  | ref (neg : Bool) (n : Nat)
  | ifThen (label : Option Nat) (i : Nat)
  | elseIf (i : Nat)
  | endIf (i : Nat)
deriving DecidableEq

/-- What the labels met so far stand for -/
abbrev Labels := Nat → Option BFn

/-- One formula, at indentation `d`: its function, the labels, and the lines that follow. `v` says which
variable an index stands for. -/
def readFn (v : Nat → Nat) : Nat → Nat → List (Nat × Line) → Labels → Option (BFn × Labels × List (Nat × Line))
  | 0, _, _, _ => none
  | _ + 1, _, [], _ => none
  | k + 1, d, (i, l) :: ls, σ =>
    if i ≠ d then none
    else
      match l with
      | .const b => some (fun _ => b, σ, ls)
      | .var neg j => some (fun ρ => xor neg (ρ (v j)), σ, ls)
      | .ref neg n =>
        match σ n with
        | none => none
        | some G => some (fun ρ => xor neg (G ρ), σ, ls)
      | .ifThen lab j =>
        match readFn v k (d + 2) ls σ with
        | some (A, σ1, (i1, .elseIf j1) :: ls1) =>
          if i1 = d ∧ j1 = j then
            match readFn v k (d + 2) ls1 σ1 with
            | some (B, σ2, (i2, .endIf j2) :: ls2) =>
              if i2 = d ∧ j2 = j then
                let F : BFn := fun ρ => if ρ (v j) then A ρ else B ρ
                match lab with
                | none => some (F, σ2, ls2)
                | some n => if (σ2 n).isSome then none else some (F, upd σ2 n (some F), ls2)
              else none
            | _ => none
          else none
        | _ => none
      | .elseIf _ => none
      | .endIf _ => none

/-! ## Characters -/

/-- the number a string of digits stands for -/
def value (l : List Char) : Nat := l.foldl (fun r c => 10 * r + (c.toNat - 48)) 0

def isDigit (c : Char) : Bool := decide (48 ≤ c.toNat) && decide (c.toNat ≤ 57)

def readNum (l : List Char) : Option Nat := if l ≠ [] ∧ l.all isDigit then some (value l) else none

/-- what follows `p` in `l` -/
def strip : List Char → List Char → Option (List Char)
  | [], l => some l
  | _ :: _, [] => none
  | a :: p, b :: l => if a = b then strip p l else none

def readVar (l : List Char) : Option Nat :=
  match strip ['v', 'a', 'r', '.'] l with
  | some ds => readNum ds
  | none => none

/-- One line without its indentation -/
def readBody (l : List Char) : Option Line :=
  if l = ['0'] then some (.const false)
  else if l = ['1'] then some (.const true)
  else
    match strip ['s', 'u', 'b', 'f', 'o', 'r', 'm', 'u', 'l', 'a', ' '] l with
    | some ds => (readNum ds).map (.ref false)
    | none =>
    match strip ['!', 's', 'u', 'b', 'f', 'o', 'r', 'm', 'u', 'l', 'a', ' '] l with
    | some ds => (readNum ds).map (.ref true)
    | none =>
    match strip ['i', 'f', ' '] l with
    | some x => (readVar x).map (.ifThen none)
    | none =>
    match strip ['e', 'l', 's', 'e', ' ', 'i', 'f', ' ', '!'] l with
    | some x => (readVar x).map .elseIf
    | none =>
    match strip ['e', 'n', 'd', 'i', 'f', ' '] l with
    | some x => (readVar x).map .endIf
    | none =>
    match strip ['!'] l with
    | some x => (readVar x).map (.var true)
    | none =>
    match strip [':', ' ', 'i', 'f', ' '] (l.dropWhile isDigit) with
    | some x =>
      match readNum (l.takeWhile isDigit), readVar x with
      | some n, some i => some (.ifThen (some n) i)
      | _, _ => none
    | none => (readVar l).map (.var false)

def readLine (l : List Char) : Option (Nat × Line) :=
  (readBody (l.dropWhile (· == ' '))).map (((l.takeWhile (· == ' ')).length, ·))

/-- the lines of a text -/
def lines : List Char → List (List Char)
  | [] => []
  | c :: cs =>
    if c = '\n' then [] :: lines cs
    else
      match lines cs with
      | [] => [[c]]
      | l :: ls => (c :: l) :: ls

def readLines : List (List Char) → Option (List (Nat × Line))
  | [] => some []
  | l :: ls =>
    match readLine l, readLines ls with
    | some x, some xs => some (x :: xs)
    | _, _ => none

/-- The function a whole text stands for -/
def readText (v : Nat → Nat) (txt : List Char) : Option BFn :=
  match readLines (lines txt) with
  | none => none
  | some ls =>
    match readFn v ls.length 0 ls (fun _ => none) with
    | some (F, _, []) => some F
    | _ => none

end Cal.Print
