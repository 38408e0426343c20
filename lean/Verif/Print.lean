import Verif.DumpFile
import Verif.PrintSpec

/-!
# Printing a BDD (`Cal_BddPrintBdd`, calPrint.c:91-108)

Not modelled: names and terminal names chosen by the caller are functions of the variable (of the constant)
here. The code makes a handle for the variable before it calls the naming function and frees it afterwards;
what that does to the reference count of the variable is left out.
-/

namespace Cal.Print

open Mgr (typeAux)
open Dump (lookup flip markShared numberShared tab)

/-! ## The code -/

def digit (d : Nat) : Char := Char.ofNat (48 + d)

/-- `%d` for a number that is not negative -/
def decimal (n : Nat) : List Char := if n < 10 then [digit n] else decimal (n / 10) ++ [digit (n % 10)]

/-- `Chars` with a space (calPrint.c:193-200) -/
def spaces (n : Nat) : List Char := List.replicate n ' '

/-- `CalBddVarName` (calPrint.c:114-131) for the variable `x`. `nm` is the naming function: null, or a function
that gives a name or null. -/
def varName (o : Order) (nm : Option (Nat → Option (List Char))) (x : Nat) : List Char :=
  match nm.bind (· x) with
  | some name => name
  | none => ['v', 'a', 'r', '.'] ++ decimal (o.lvl x)

/-- `BddTerminalId` (calPrint.c:285-300) for a constant -/
def terminalId (tn : Option (Bool → Option (List Char))) (b : Bool) : List Char :=
  match tn.bind (· b) with
  | some name => name
  | none => if b then ['1'] else ['0']

/-- `BddPrintTopVar` (calPrint.c:205-213): `CalBddIf` is the variable of the node. -/
def topVar (o : Order) (nm : Option (Nat → Option (List Char))) (f : Edge) : List Char := varName o nm f.id ++ ['\n']

/-- `BddPrintBddStep` (calPrint.c:217-280): the characters printed, and the table -/
def printStep (s : Store) (nm : Option (Nat → Option (List Char))) (tn : Option (Bool → Option (List Char))) :
    Nat → Nat → List (Edge × Int) → Edge → Option (List Char × List (Edge × Int))
  | 0, _, _, _ => none
  | k + 1, d, H, f =>
    match typeAux s f with
    | none => none
    | some .zero => some (spaces d ++ (terminalId tn false ++ ['\n']), H)
    | some .one => some (spaces d ++ (terminalId tn true ++ ['\n']), H)
    | some .negvar => some (spaces d ++ ('!' :: topVar s.ord nm f), H)
    | some .posvar => some (spaces d ++ topVar s.ord nm f, H)
    | some .overflow => none
    | some .nonterminal =>
      let negated := (lookup H f.not).isSome
      let f := if negated then f.not else f
      let number := lookup H f
      match number.filter (· < 0) with
      | some n =>
        some (spaces d ++ ((if negated then ['!'] else []) ++
          (['s', 'u', 'b', 'f', 'o', 'r', 'm', 'u', 'l', 'a', ' '] ++ decimal (-n - 1).toNat ++ ['\n'])), H)
      | none =>
        let x := match number with
          | some n => (decimal n.toNat ++ [':', ' '], flip H f)
          | none => ([], H)
        match s.kids f with
        | none => none
        | some (t, e) =>
          match printStep s nm tn k (d + 2) x.2 t with
          | none => none
          | some (o1, H1) =>
            match printStep s nm tn k (d + 2) H1 e with
            | none => none
            | some (o2, H2) =>
              some (spaces d ++ (x.1 ++ (['i', 'f', ' '] ++ topVar s.ord nm f)) ++ o1 ++
                (spaces d ++ (['e', 'l', 's', 'e', ' ', 'i', 'f', ' ', '!'] ++ topVar s.ord nm f)) ++ o2 ++
                (spaces d ++ (['e', 'n', 'd', 'i', 'f', ' '] ++ topVar s.ord nm f)), H2)

/-- `Cal_BddPrintBdd` (calPrint.c:91-108) from the marks `M`: the text, and the marks at the end -/
def printEdge (s : Store) (nm : Option (Nat → Option (List Char))) (tn : Option (Bool → Option (List Char)))
    (M : Nat → Nat) (f : Edge) : Option (List Char × (Nat → Nat)) :=
  match markShared s (s.ord.numVars + 1) M f with
  | none => none
  | some M1 =>
    match numberShared s (s.ord.numVars + 1) (M1, [], 0) f with
    | none => none
    | some (M2, H, _) =>
      match printStep s nm tn (s.ord.numVars + 1) 0 H f with
      | none => none
      | some (txt, _) => some (txt, M2)

/-- `Cal_BddPrintBdd` (calPrint.c:91-108). There is no pre-processing, so for null it uses a null pointer; the
marks of all nodes are 0 between calls. -/
def _root_.Cal.Mgr.printBdd (m : Mgr) (f : Handle) (nm : Option (Nat → Option (List Char)))
    (tn : Option (Bool → Option (List Char))) : Option (List Char × (Nat → Nat)) :=
  match m.internal f with
  | none => none
  | some e => printEdge m.st nm tn (fun _ => 0) e

/-! ## Lines -/

/-- The name of the variable at an index -/
def nameAt (o : Order) (nm : Option (Nat → Option (List Char))) (i : Nat) : List Char :=
  match nm.bind (· (o.indexToId i)) with
  | some name => name
  | none => ['v', 'a', 'r', '.'] ++ decimal i

/-- The name of a constant: what the function for names says, if there is one and it gives a name -/
def constName : Option (Bool → Option (List Char)) → Bool → List Char
  | none, true => ['1']
  | none, false => ['0']
  | some t, b =>
    match t b, b with
    | some name, _ => name
    | none, true => ['1']
    | none, false => ['0']

theorem terminalId_eq (tn : Option (Bool → Option (List Char))) (b : Bool) : terminalId tn b = constName tn b := by
  cases tn with
  | none => cases b <;> rfl
  | some t =>
    unfold terminalId constName
    simp only [Option.bind_some]
    cases t b <;> cases b <;> rfl

/-- The text of a line, with the names given -/
def lineText (o : Order) (nm : Option (Nat → Option (List Char))) (tn : Option (Bool → Option (List Char))) :
    Line → List Char
  | .const b => constName tn b
  | .var true i => '!' :: nameAt o nm i
  | .var false i => nameAt o nm i
  | .ref true n => '!' :: (['s', 'u', 'b', 'f', 'o', 'r', 'm', 'u', 'l', 'a', ' '] ++ decimal n)
  | .ref false n => ['s', 'u', 'b', 'f', 'o', 'r', 'm', 'u', 'l', 'a', ' '] ++ decimal n
  | .ifThen none i => ['i', 'f', ' '] ++ nameAt o nm i
  | .ifThen (some n) i => decimal n ++ ([':', ' ', 'i', 'f', ' '] ++ nameAt o nm i)
  | .elseIf i => ['e', 'l', 's', 'e', ' ', 'i', 'f', ' ', '!'] ++ nameAt o nm i
  | .endIf i => ['e', 'n', 'd', 'i', 'f', ' '] ++ nameAt o nm i

/-- The text of lines with their indentation -/
def linesText (o : Order) (nm : Option (Nat → Option (List Char))) (tn : Option (Bool → Option (List Char)))
    (ls : List (Nat × Line)) : List Char := ls.flatMap fun x => spaces x.1 ++ lineText o nm tn x.2 ++ ['\n']

/-! ## The round trip -/

section
variable {s : Store} (w : s.WF) (M0 : Nat → Nat) (nm : Option (Nat → Option (List Char)))
  (tn : Option (Bool → Option (List Char))) {Kf : List Edge} (hd : Dump.Distinct Kf)
  (hKf : ∀ (i : Nat) (x : Edge), Kf[i]? = some x → s.EOK x ∧ Dump.NT s x)

/-- Outcome of printing and reading `f`, when the nodes of the first `a` labels have been met before and
the nodes of the first `b` have been afterwards. -/
def Trip (s : Store) (nm : Option (Nat → Option (List Char))) (tn : Option (Bool → Option (List Char))) (Kf : List Edge)
    (k : Nat) (f : Edge) (F : BFn) (a b : Nat) : Prop :=
  ∀ d, ∃ ls, printStep s nm tn k d (tab Kf a) f = some (linesText s.ord nm tn ls, tab Kf b) ∧ 1 ≤ ls.length ∧
    ∀ (k2 : Nat) (σ : Labels) (rest : List (Nat × Line)), ls.length ≤ k2 →
      (∀ (i : Nat) (x : Edge) (G : BFn), i < a → Kf[i]? = some x → Rep s x G → s.ord.lvl f.id ≤ s.ord.lvl x.id →
        σ i = some G) → (∀ i, a ≤ i → σ i = none) →
      ∃ σ', readFn s.ord.indexToId k2 d (ls ++ rest) σ = some (F, σ', rest) ∧ (∀ i, i < a → σ' i = σ i) ∧
        (∀ i, b ≤ i → σ' i = none) ∧
        ∀ (i : Nat) (x : Edge) (G : BFn), a ≤ i → i < b → Kf[i]? = some x → Rep s x G → σ' i = some G

include w in
theorem indexToId_lvl {f : Edge} {F} (r : Rep s f F) (hi : f.id ≠ 0) : s.ord.indexToId (s.ord.lvl f.id) = f.id := by
  obtain ⟨n, hn, hv⟩ := r.eok.node w hi
  have := w.var_range _ _ hn
  rw [Order.lvl, if_neg hi]
  exact w.ord.left _ (by omega) (by omega)

include w in
theorem nameAt_lvl {f : Edge} {F} (r : Rep s f F) (hi : f.id ≠ 0) : nameAt s.ord nm (s.ord.lvl f.id) = varName s.ord nm f.id := by
  unfold nameAt varName
  rw [indexToId_lvl w r hi]

theorem linesText_cons (o : Order) (x : Nat × Line) (ls : List (Nat × Line)) :
    linesText o nm tn (x :: ls) = spaces x.1 ++ lineText o nm tn x.2 ++ ['\n'] ++ linesText o nm tn ls := by
  simp [linesText]

theorem linesText_append (o : Order) (ls ls' : List (Nat × Line)) :
    linesText o nm tn (ls ++ ls') = linesText o nm tn ls ++ linesText o nm tn ls' := by
  simp [linesText]


theorem shannon (F : BFn) (x : Nat) : (fun ρ : Asg => if ρ x then F (upd ρ x true) else F (upd ρ x false)) = F := by
  funext ρ
  have : F ρ = F (upd ρ x (ρ x)) := by
    congr 1; funext y; unfold upd; split
    · rename_i h; rw [h]
    · rfl
  rw [this]
  cases ρ x <;> rfl

include w hd hKf

theorem trip : ∀ (k : Nat) {f : Edge} {F : BFn} {M M' : Nat → Nat} {K K' : List Edge}, Rep s f F → 1 ≤ k →
    s.ord.numVars + 1 ≤ k + s.ord.lvl f.id → (Dump.NT s f → M0 f.addr ≠ 0) →
    Dump.MarkClosed s M0 0 → Dump.NumClosed s M0 M (s.ord.lvl f.id) → (∀ x ∈ K, M x.addr = 0) →
    numberShared s k (M, tab K 0, K.length) f = some (M', tab K' 0, K'.length) → K' <+: Kf →
    (∀ (i : Nat) (x : Edge), K'.length ≤ i → Kf[i]? = some x → M' x.addr ≠ 0) →
    Trip s nm tn Kf k f F K.length K'.length
  | 0, _, _, _, _, _, _, _, h, _, _, _, _, _, _, _, _ => by omega
  | k + 1, f, F, M, M', K, K', r, _, hk, hm0, mc, nc, hK, hnum, pre, hrest => by
    -- a terminal case: nothing happens to the table
    have leaf : ∀ l : Line, K' = K →
        (∀ d, printStep s nm tn (k + 1) d (tab Kf K.length) f = some (spaces d ++ lineText s.ord nm tn l ++ ['\n'], tab Kf K.length)) →
        (∀ (k2 d : Nat) (σ : Labels) (rest : List (Nat × Line)),
          readFn s.ord.indexToId (k2 + 1) d ((d, l) :: rest) σ = some (F, σ, rest)) →
        Trip s nm tn Kf (k + 1) f F K.length K'.length := by
      rintro l rfl h1 h4 d
      refine ⟨[(d, l)], by rw [h1]; simp [linesText], by simp, fun k2 σ rest g1 g6 g7 => ?_⟩
      obtain ⟨k2, rfl⟩ : ∃ j, k2 = j + 1 := ⟨k2 - 1, by simp at g1; omega⟩
      exact ⟨σ, h4 k2 d σ rest, fun _ _ => rfl, g7, fun i x G q1 q2 => by omega⟩
    cases Dump.kind w r with
    | zero h hi hF =>
      unfold numberShared at hnum
      rw [if_pos (by simp [Edge.isConst, hi])] at hnum
      have hKK : K' = K := (Dump.res_inj hnum).2
      refine leaf (.const false) hKK (fun d => by unfold printStep; simp only [h]; simp [lineText, terminalId_eq]) fun k2 d σ rest => ?_
      simp [readFn, hF]
    | one h hi hF =>
      unfold numberShared at hnum
      rw [if_pos (by simp [Edge.isConst, hi])] at hnum
      have hKK : K' = K := (Dump.res_inj hnum).2
      refine leaf (.const true) hKK (fun d => by unfold printStep; simp only [h]; simp [lineText, terminalId_eq]) fun k2 d σ rest => ?_
      simp [readFn, hF]
    | pos h hi hF =>
      unfold numberShared at hnum
      rw [if_neg (by simp [Edge.isConst, hi])] at hnum
      simp only [h] at hnum
      have hKK : K' = K := (Dump.res_inj hnum).2
      refine leaf (.var false (s.ord.lvl f.id)) hKK (fun d => by
        unfold printStep; simp only [h, lineText, topVar, nameAt_lvl w nm r hi]; simp) fun k2 d σ rest => ?_
      simp [readFn, hF, indexToId_lvl w r hi]
    | neg h hi hF =>
      unfold numberShared at hnum
      rw [if_neg (by simp [Edge.isConst, hi])] at hnum
      simp only [h] at hnum
      have hKK : K' = K := (Dump.res_inj hnum).2
      refine leaf (.var true (s.ord.lvl f.id)) hKK (fun d => by
        unfold printStep; simp only [h, lineText, topVar, nameAt_lvl w nm r hi]; simp) fun k2 d σ rest => ?_
      simp [readFn, hF, indexToId_lvl w r hi]
    | nt h hi =>
      obtain ⟨t, e, hk1, rt, re, l1, l2, -⟩ := r.kids w hi
      have hlt := r.eok.lvl_lt w hi
      have hmf := hm0 h
      have hfc := mc f t e r.eok h (Nat.zero_le _) hmf hk1
      have hix := indexToId_lvl w r hi
      -- printing and reading the two cofactors
      have both : ∀ {a b c : Nat} (d : Nat) (lab : Option Nat),
          Trip s nm tn Kf k t (fun ρ => F (upd ρ f.id true)) a b → Trip s nm tn Kf k e (fun ρ => F (upd ρ f.id false)) b c →
          a ≤ b → b ≤ c →
          ∃ o1 o2 ls, printStep s nm tn k (d + 2) (tab Kf a) t = some (o1, tab Kf b) ∧
            printStep s nm tn k (d + 2) (tab Kf b) e = some (o2, tab Kf c) ∧
            linesText s.ord nm tn ls = spaces d ++ ((match lab with
                | some n => decimal n ++ [':', ' ']
                | none => []) ++ (['i', 'f', ' '] ++ topVar s.ord nm f)) ++ o1 ++
                (spaces d ++ (['e', 'l', 's', 'e', ' ', 'i', 'f', ' ', '!'] ++ topVar s.ord nm f)) ++ o2 ++
                (spaces d ++ (['e', 'n', 'd', 'i', 'f', ' '] ++ topVar s.ord nm f)) ∧ 1 ≤ ls.length ∧
            ∀ (k2 : Nat) (σ : Labels) (rest : List (Nat × Line)), ls.length ≤ k2 →
              (∀ (i : Nat) (x : Edge) (G : BFn), i < a → Kf[i]? = some x → Rep s x G → s.ord.lvl f.id < s.ord.lvl x.id →
                σ i = some G) → (∀ i, a ≤ i → σ i = none) → (∀ n, lab = some n → n < a ∧ σ n = none) →
              ∃ σ', readFn s.ord.indexToId k2 d (ls ++ rest) σ =
                  some (F, (match lab with
                    | none => σ'
                    | some n => upd σ' n (some F)), rest) ∧ (∀ i, i < a → σ' i = σ i) ∧
                (∀ i, c ≤ i → σ' i = none) ∧
                ∀ (i : Nat) (x : Edge) (G : BFn), a ≤ i → i < c → Kf[i]? = some x → Rep s x G → σ' i = some G := by
        intro a b c d lab hft hfe hab hbc
        obtain ⟨x1, d1, p1, t1⟩ := hft (d + 2)
        obtain ⟨x2, d2, p2, t2⟩ := hfe (d + 2)
        refine ⟨_, _, (d, .ifThen lab (s.ord.lvl f.id)) :: x1 ++ (d, .elseIf (s.ord.lvl f.id)) :: x2 ++ [(d, .endIf (s.ord.lvl f.id))],
          d1, d2, ?_, by simp, ?_⟩
        · simp only [linesText_append, linesText_cons]
          cases lab <;> simp [lineText, nameAt_lvl w nm r hi, topVar, linesText]
        intro k2 σ rest g1 g6 g7 g8
        simp only [List.length_append, List.length_cons, List.length_nil] at g1
        obtain ⟨k2, rfl⟩ : ∃ j, k2 = j + 1 := ⟨k2 - 1, by omega⟩
        obtain ⟨σ1, r1, q5, q7, q6⟩ := t1 k2 σ ((d, .elseIf (s.ord.lvl f.id)) :: (x2 ++ (d, .endIf (s.ord.lvl f.id)) :: rest)) (by omega)
          (fun i x G h1 h2 h3 h4 => g6 i x G h1 h2 h3 (by omega)) g7
        obtain ⟨σ2, r2, z5, z7, z6⟩ := t2 k2 σ1 ((d, .endIf (s.ord.lvl f.id)) :: rest) (by omega) (fun i x G h1 h2 h3 h4 => by
          by_cases hia : i < a
          · rw [q5 i hia]; exact g6 i x G hia h2 h3 (by omega)
          · exact q6 i x G (by omega) h1 h2 h3) q7
        refine ⟨σ2, ?_, fun i hia => by rw [z5 i (by omega), q5 i hia], z7, fun i x G h1 h2 h3 h4 => ?_⟩
        · simp only [List.cons_append, List.append_assoc, List.nil_append]
          rw [readFn]
          simp only [ne_eq, not_true, if_false, r1, r2, and_self, if_true, hix]
          have := shannon F f.id
          cases lab with
          | none => simp only [this]
          | some n =>
            obtain ⟨g8, g9⟩ := g8 n rfl
            have hz : σ2 n = none := by rw [z5 n (by omega), q5 n g8, g9]
            simp only [this, hz, Option.isSome_none, Bool.false_eq_true, if_false]
        · by_cases hib : i < b
          · rw [z5 i hib]; exact q6 i x G h1 hib h3 h4
          · exact z6 i x G (by omega) h2 h3 h4
      have h' : typeAux s f = some .nonterminal := h
      -- the key for the node, if there is one
      have key : ∀ {i : Nat} {x : Edge}, Kf[i]? = some x → x.addr = f.addr → x = f ∨ x = f.not := fun hx ha =>
        Dump.addr_eq w (hKf _ _ hx).1 r.eok ha
      have hne : ∀ g : Edge, g.not ≠ g := by intro g hg; have := congrArg Edge.neg hg; simp [Edge.not] at this
      have nokey : (∀ (i : Nat) (x : Edge), Kf[i]? = some x → x.addr ≠ f.addr) → ∀ a,
          lookup (tab Kf a) f = none ∧ lookup (tab Kf a) f.not = none := by
        intro hno a
        refine ⟨Dump.lookup_tab_none fun i x hx => ?_, Dump.lookup_tab_none fun i x hx => ?_⟩ <;>
        · have := hno i x hx
          simp [Edge.same, Edge.not, this]
      -- a node without a label is printed in full
      have plain : ∀ {b}, (∀ (i : Nat) (x : Edge), Kf[i]? = some x → x.addr ≠ f.addr) →
          Trip s nm tn Kf k t (fun ρ => F (upd ρ f.id true)) K.length b →
          Trip s nm tn Kf k e (fun ρ => F (upd ρ f.id false)) b K'.length → K.length ≤ b → b ≤ K'.length →
          Trip s nm tn Kf (k + 1) f F K.length K'.length := by
        intro b hno T1 T2 hab hbc d
        obtain ⟨o1, o2, ls, d1, d2, tx, p1, rd⟩ := both d none T1 T2 hab hbc
        obtain ⟨n1, n2⟩ := nokey hno K.length
        refine ⟨ls, ?_, p1, ?_⟩
        · unfold printStep
          simp only [h', n1, n2, Option.isSome_none, Bool.false_eq_true, if_false, Option.filter_none, hk1, d1, d2, tx]
        · intro k2 σ rest g1 g6 g7
          exact rd k2 σ rest g1 (fun i x G h1 h2 h3 h4 => g6 i x G h1 h2 h3 (by omega)) g7 (fun n h => nomatch h)
      by_cases hm : M f.addr = 0
      · -- met before
        have hnum' := hnum
        unfold numberShared at hnum'
        rw [if_neg (by simp [Edge.isConst, hi])] at hnum'
        simp only [h', if_pos hm] at hnum'
        have hMM : M' = M := (Dump.res_inj hnum').1
        have hKK : K' = K := (Dump.res_inj hnum').2
        subst hMM hKK
        by_cases hex : ∃ (i : Nat) (x : Edge), Kf[i]? = some x ∧ x.addr = f.addr
        · obtain ⟨i, x, hx, ha⟩ := hex
          have hiK : i < K'.length := by
            apply Classical.byContradiction
            intro hc
            exact hrest i x (by omega) hx (by rw [ha, hm])
          have hlk : lookup (tab Kf K'.length) x = some (-(i : Int) - 1) := by rw [Dump.lookup_tab hd hx, if_pos hiK]
          have hln : lookup (tab Kf K'.length) x.not = none := Dump.lookup_tab_none fun j z hz => by
            by_cases hza : z.addr = x.addr
            · have := hd j i z x hz hx hza
              subst this
              rw [hx] at hz; cases hz
              simp [Edge.same, Edge.not]
            · simp [Edge.same, Edge.not, hza]
          have hto : (-(-(i : Int) - 1) - 1).toNat = i := by omega
          intro d
          refine ⟨[(d, .ref (if x = f then false else true) i)], ?_, by simp, ?_⟩
          · unfold printStep
            rcases key hx ha with rfl | rfl
            · simp only [h', hln, Option.isSome_none, Bool.false_eq_true, if_false, hlk]
              rw [Option.filter_some, if_pos (by simp; omega)]
              simp [hto, linesText, lineText]
            · rw [Dump.not_not] at hln
              simp only [h', Option.isSome_some, if_true, hlk]
              rw [Option.filter_some, if_pos (by simp; omega)]
              simp [hto, if_neg (hne f), linesText, lineText]
          · intro k2 σ rest g1 g6 g7
            obtain ⟨k2, rfl⟩ : ∃ j, k2 = j + 1 := ⟨k2 - 1, by simp at g1; omega⟩
            obtain ⟨G, rx⟩ := w.rep_exists (hKf i x hx).1
            have hsh := g6 i x G hiK hx rx (by rw [Dump.lvl_addr w rx.eok r.eok ha]; exact Nat.le_refl _)
            refine ⟨σ, ?_, fun _ _ => rfl, g7, fun i x G q1 q2 => by omega⟩
            simp only [List.cons_append, List.nil_append, readFn, ne_eq, not_true, if_false, hsh]
            have hval : (fun ρ => xor (if x = f then false else true) (G ρ)) = F := by
              rcases key hx ha with rfl | rfl
              · rw [rx.unique w r]; simp
              · have := rx.unique w r.not
                rw [this]
                funext ρ; simp [if_neg (hne f)]
            rw [hval]
        · -- no label: it is printed again
          have hno : ∀ (i : Nat) (x : Edge), Kf[i]? = some x → x.addr ≠ f.addr := fun i x hx ha => hex ⟨i, x, hx, ha⟩
          have hcl := nc f t e r.eok h (Nat.le_refl _) hmf hm hk1
          have same : ∀ {g : Edge} {G}, Rep s g G → (Dump.NT s g → M' g.addr = 0) →
              numberShared s k (M', tab K' 0, K'.length) g = some (M', tab K' 0, K'.length) := by
            intro g G rg hg
            obtain ⟨k, rfl⟩ : ∃ j, k = j + 1 := ⟨k - 1, by omega⟩
            unfold numberShared
            cases Dump.kind w rg with
            | zero _ hi _ => rw [if_pos (by simp [Edge.isConst, hi])]
            | one _ hi _ => rw [if_pos (by simp [Edge.isConst, hi])]
            | pos hh hi _ => rw [if_neg (by simp [Edge.isConst, hi])]; simp only [hh]
            | neg hh hi _ => rw [if_neg (by simp [Edge.isConst, hi])]; simp only [hh]
            | nt hh hi =>
              have hh' : typeAux s g = some .nonterminal := hh
              rw [if_neg (by simp [Edge.isConst, hi])]; simp only [hh', if_pos (hg hh)]
          have nct : ∀ l, s.ord.lvl f.id ≤ l → Dump.NumClosed s M0 M' l := fun l hl g t u q1 q2 q3 => nc g t u q1 q2 (by omega)
          exact plain hno (trip k rt (by omega) (by omega) hfc.1 mc (nct _ (by omega)) hK (same rt hcl.1) pre hrest)
            (trip k re (by omega) (by omega) hfc.2 mc (nct _ (by omega)) hK (same re hcl.2) pre hrest)
            (Nat.le_refl _) (Nat.le_refl _)
      · -- met for the first time
        have hnum' := hnum
        unfold numberShared at hnum'
        rw [if_neg (by simp [Edge.isConst, hi])] at hnum'
        simp only [h', if_neg hm, hk1] at hnum'
        obtain ⟨lab, hp1, hp2⟩ : ∃ lab : List Edge, (if M f.addr = 2 then ((f, ((K.length : Nat) : Int)) :: tab K 0, K.length + 1)
            else (tab K 0, K.length)) = (tab (K ++ lab) 0, (K ++ lab).length) ∧ (lab = [] ∨ lab = [f]) := by
          by_cases h2 : M f.addr = 2
          · exact ⟨[f], by rw [if_pos h2, Dump.tab_snoc]; simp, .inr rfl⟩
          · exact ⟨[], by rw [if_neg h2]; simp, .inl rfl⟩
        simp only [hp1] at hnum'
        obtain ⟨M2, n2, e2, s2⟩ := Dump.numberShared_ok w M0 k (upd M f.addr 0) (K ++ lab) rt (by omega) (by omega)
        obtain ⟨M3, n3, e3, s3⟩ := Dump.numberShared_ok w M0 k M2 (K ++ lab ++ n2) re (by omega) (by omega)
        simp only [e2, e3] at hnum'
        have hMM : M' = M3 := (Dump.res_inj hnum').1
        have hKK : K' = K ++ lab ++ n2 ++ n3 := (Dump.res_inj hnum').2
        have z2 : ∀ a, M2 a = 0 → M3 a = 0 := fun a h => by
          rcases s3.mono a with h3 | h3
          · rw [h3, h]
          · exact h3
        have z1 : ∀ a, upd M f.addr 0 a = 0 → M2 a = 0 := fun a h => by
          rcases s2.mono a with h3 | h3
          · rw [h3, h]
          · exact h3
        have z0 : ∀ a, M a = 0 → upd M f.addr 0 a = 0 := fun a h => by
          by_cases hh : a = f.addr
          · subst hh; simp
          · rwa [upd_ne _ _ hh]
        have hf0 : upd M f.addr 0 f.addr = 0 := by simp
        have hKl : ∀ x ∈ K ++ lab, upd M f.addr 0 x.addr = 0 := by
          intro x hx
          rcases List.mem_append.1 hx with hx | hx
          · exact z0 _ (hK x hx)
          · rcases hp2 with rfl | rfl
            · cases hx
            · rw [List.mem_singleton] at hx; subst hx; exact hf0
        have hKl2 : ∀ x ∈ K ++ lab ++ n2, M2 x.addr = 0 := by
          intro x hx
          rcases List.mem_append.1 hx with hx | hx
          · exact z1 _ (hKl x hx)
          · exact (s2.fresh x hx).2.1
        have pre3 : K ++ lab ++ n2 ++ n3 <+: Kf := hKK ▸ pre
        have pre2 : K ++ lab ++ n2 <+: Kf := (List.prefix_append _ _).trans pre3
        have pre1 : K ++ lab <+: Kf := (List.prefix_append _ _).trans pre2
        have rest3 : ∀ (i : Nat) (x : Edge), (K ++ lab ++ n2 ++ n3).length ≤ i → Kf[i]? = some x → M3 x.addr ≠ 0 := by
          rw [← hKK, ← hMM]; exact hrest
        have rest2 : ∀ (i : Nat) (x : Edge), (K ++ lab ++ n2).length ≤ i → Kf[i]? = some x → M2 x.addr ≠ 0 := by
          intro i x hi hx
          by_cases hlt : i < (K ++ lab ++ n2 ++ n3).length
          · obtain ⟨tl, htl⟩ := pre3
            have : (K ++ lab ++ n2 ++ n3)[i]? = some x := by
              rw [← hx, ← htl, List.getElem?_append_left hlt]
            rw [List.getElem?_append_right hi] at this
            exact (s3.fresh x (List.mem_of_getElem? this)).1
          · intro h0
            exact rest3 i x (by omega) hx (z2 _ h0)
        have c1 : ∀ l, s.ord.lvl f.id < l → Dump.NumClosed s M0 (upd M f.addr 0) l := by
          intro l hl g t u hg hn hl' h0 hm hkk
          have : g.addr ≠ f.addr := fun h => by rw [Dump.lvl_addr w hg r.eok h] at hl'; omega
          rw [upd_ne _ _ this] at hm
          obtain ⟨c1, c2⟩ := nc g t u hg hn (by omega) h0 hm hkk
          exact ⟨fun h => z0 _ (c1 h), fun h => z0 _ (c2 h)⟩
        have c2 : Dump.NumClosed s M0 M2 (s.ord.lvl e.id) := by
          have := s2.closed (s.ord.lvl f.id + 1) (by omega) (c1 _ (by omega))
          intro g t u q1 q2 q3
          exact this g t u q1 q2 (by omega)
        have T1 := trip k rt (by omega) (by omega) hfc.1 mc (c1 _ l1) hKl e2 pre2 rest2
        have T2 := trip k re (by omega) (by omega) hfc.2 mc c2 hKl2 e3 pre3 rest3
        rw [← hKK] at T2
        rcases hp2 with rfl | rfl
        · -- no label
          simp only [List.append_nil] at T1 T2 hKK pre3 rest3
          refine plain (fun i x hx ha => ?_) T1 T2 (by simp) (by rw [hKK]; simp)
          by_cases hlt : i < (K ++ n2 ++ n3).length
          · obtain ⟨tl, htl⟩ := pre3
            have hg : (K ++ n2 ++ n3)[i]? = some x := by
              rw [← hx, ← htl, List.getElem?_append_left hlt]
            have hmem := List.mem_of_getElem? hg
            rw [List.mem_append, List.mem_append] at hmem
            rcases hmem with (hmem | hmem) | hmem
            · exact hm (ha ▸ hK x hmem)
            · exact (s2.fresh x hmem).1 (by rw [ha, hf0])
            · exact (s3.fresh x hmem).1 (by rw [ha]; exact z1 _ hf0)
          · exact rest3 i x (by omega) hx (by rw [ha]; exact z2 _ (z1 _ hf0))
        · -- a label
          have hkf : Kf[K.length]? = some f := by
            obtain ⟨tl, htl⟩ := pre1
            rw [← htl, List.append_assoc, List.getElem?_append_right (Nat.le_refl _)]
            simp
          have hlk : lookup (tab Kf K.length) f = some (K.length : Int) := by
            rw [Dump.lookup_tab hd hkf, if_neg (Nat.lt_irrefl _)]
          have hln : lookup (tab Kf K.length) f.not = none := Dump.lookup_tab_none fun j z hz => by
            by_cases hza : z.addr = f.addr
            · have := hd j _ z f hz hkf hza
              subst this
              rw [hkf] at hz; cases hz
              simp [Edge.same, Edge.not]
            · simp [Edge.same, Edge.not, hza]
          have hl1 : (K ++ [f]).length = K.length + 1 := by simp
          rw [hl1] at T1
          have hlab : K.length + 1 ≤ (K ++ [f] ++ n2).length := by simp
          have hlab' : (K ++ [f] ++ n2).length ≤ K'.length := by rw [hKK]; simp
          intro d
          obtain ⟨o1, o2, ls, d1, d2, tx, p1, rd⟩ := both d (some K.length) T1 T2 hlab hlab'
          refine ⟨ls, ?_, p1, ?_⟩
          · unfold printStep
            simp only [h', hln, hlk, Option.isSome_none, Bool.false_eq_true, if_false]
            rw [Option.filter_some, if_neg (by simp)]
            simp only [Dump.flip_tab hd hkf, hk1, d1, d2, tx, Int.toNat_natCast]
          · intro k2 σ rest g1 g6 g7
            obtain ⟨σ', q0, q5, q7, q6⟩ := rd k2 σ rest g1 (fun i x G h1 h2 h3 h4 => by
                by_cases hiK : i = K.length
                · subst hiK
                  rw [hkf] at h2; cases h2; omega
                · exact g6 i x G (by omega) h2 h3 (by omega)) (fun i hi => g7 i (by omega)) (fun n hn => by
                cases hn; exact ⟨by omega, g7 _ (Nat.le_refl _)⟩)
            refine ⟨_, q0, fun i hi => ?_, fun i hi => ?_, fun i x G h1 h2 h3 h4 => ?_⟩
            · simp only [upd_ne σ' (some F) (show i ≠ K.length by omega)]
              exact q5 i (by omega)
            · simp only [upd_ne σ' (some F) (show i ≠ K.length by omega)]
              exact q7 i hi
            · by_cases hiK : i = K.length
              · subst hiK
                rw [hkf] at h3; cases h3
                rw [h4.unique w r]; simp
              · simp only [upd_ne σ' (some F) hiK]
                exact q6 i x G (by omega) h2 h3 h4

end

/-! ## The marks -/

/-- A regular edge is not a complemented variable. -/
theorem regular {s : Store} (w : s.WF) {f F} (r : Rep s f F) (hneg : f.neg = false) (h : typeAux s f = some .negvar) : False := by
  cases Dump.kind w r with
  | zero h' | one h' => rw [h] at h'; cases h'
  | pos h' | nt h' => cases h.symm.trans h'
  | neg _ hi hF =>
    obtain ⟨t, u, hk1, rt, ru, l1, l2, -⟩ := r.kids w hi
    obtain ⟨n, hn, hv⟩ := r.eok.node w hi
    have : t.neg = false := by
      simp only [Store.kids, hn, hneg] at hk1
      cases hk1
      simpa using w.thn_pos _ _ hn
    have ht0 : (fun ρ => F (upd ρ f.id true)) = fun _ => false := by rw [hF]; funext ρ; simp
    rw [ht0] at rt
    have := canonical w rt .zero
    subst this
    cases ‹(⟨0, 0, true⟩ : Edge).neg = false›

/-- Only nodes of the BDD are marked. -/
theorem mark_only {s : Store} (w : s.WF) {P : Nat → Prop} : ∀ (k : Nat) {f : Edge} {F} (M : Nat → Nat) {M'}, Rep s f F →
    (Dump.NT s f → P f.addr) →
    (∀ g t u, s.EOK g → Dump.NT s g → P g.addr → s.kids g = some (t, u) → (Dump.NT s t → P t.addr) ∧ (Dump.NT s u → P u.addr)) →
    markShared s k M f = some M' → ∀ a, M' a ≠ 0 → M a ≠ 0 ∨ P a
  | 0, _, _, _, _, _, _, _, h, _, _ => by simp [markShared] at h
  | k + 1, f, F, M, M', r, hf, cl, h, a, ha => by
    obtain ⟨f0, F0, hf0, r0⟩ : ∃ f0 F0, f0 = ({ f with neg := false } : Edge) ∧ Rep s f0 F0 := by
      obtain ⟨G, hG⟩ := w.rep_exists (e := { f with neg := false }) r.eok
      exact ⟨_, G, rfl, hG⟩
    have ha0 : f0.addr = f.addr := by rw [hf0]
    unfold markShared at h
    simp only [← hf0] at h
    have hnt : Dump.NT s f0 → P f0.addr := by
      intro h0
      rw [ha0]
      rcases Dump.addr_eq w r0.eok r.eok ha0 with e | e
      · rw [e] at h0; exact hf h0
      · rw [e] at h0; exact hf (Dump.NT.of_not w r.eok h0)
    cases Dump.kind w r0 with
    | zero _ hi _ => rw [if_pos (by simp [Edge.isConst, hi])] at h; cases h; exact .inl ha
    | one _ hi _ => rw [if_pos (by simp [Edge.isConst, hi])] at h; cases h; exact .inl ha
    | pos hh hi _ =>
      rw [if_neg (by simp [Edge.isConst, hi])] at h
      simp only [hh] at h; cases h; exact .inl ha
    | neg hh hi hF =>
      exact (regular w r0 (by rw [hf0]) hh).elim
    | nt hh hi =>
      have hh' : typeAux s f0 = some .nonterminal := hh
      rw [if_neg (by simp [Edge.isConst, hi])] at h
      simp only [hh'] at h
      have hP : P f.addr := ha0 ▸ hnt hh
      split at h
      · cases h
        by_cases hx : a = f.addr
        · exact .inr (hx ▸ hP)
        · rw [upd_ne _ _ hx] at ha; exact .inl ha
      · obtain ⟨t, e, hk1, rt, re, -⟩ := r0.kids w hi
        simp only [hk1] at h
        cases h1 : markShared s k (upd M f.addr 1) t with
        | none => rw [h1] at h; cases h
        | some M1 =>
          rw [h1] at h
          simp only at h
          have hc := cl f0 t e r0.eok hh (ha0 ▸ hP) hk1
          rcases mark_only w k M1 re hc.2 cl h a ha with h2 | h2
          · rcases mark_only w k _ rt hc.1 cl h1 a h2 with h3 | h3
            · by_cases hx : a = f.addr
              · exact .inr (hx ▸ hP)
              · rw [upd_ne _ _ hx] at h3; exact .inl h3
            · exact .inr h3
          · exact .inr h2

/-- What printing gives: lines that read as the function, and no marks left. -/
theorem printEdge_ok {s : Store} (w : s.WF) (nm : Option (Nat → Option (List Char))) (tn : Option (Bool → Option (List Char)))
    {f : Edge} {F : BFn} (r : Rep s f F) :
    ∃ ls σ, printEdge s nm tn (fun _ => 0) f = some (linesText s.ord nm tn ls, fun _ => 0) ∧
      readFn s.ord.indexToId ls.length 0 ls (fun _ => none) = some (F, σ, []) := by
  obtain ⟨M, hM, sM⟩ := Dump.markShared_ok w (s.ord.numVars + 1) (fun _ => 0) r (by omega) (by omega)
  have mc : Dump.MarkClosed s M 0 := sM.closed 0 (Nat.zero_le _) fun g t u _ _ _ h => absurd rfl h
  obtain ⟨M', K, hK, sK⟩ := Dump.numberShared_ok w M (s.ord.numVars + 1) M [] r (by omega) (by omega)
  simp only [List.nil_append, List.length_nil] at hK
  have hd := Dump.distinct_of sK.distinct
  have hKf : ∀ (i : Nat) (x : Edge), K[i]? = some x → s.EOK x ∧ Dump.NT s x := fun i x hx =>
    have h := sK.fresh x (List.mem_of_getElem? hx)
    ⟨h.2.2.2.1, h.2.2.1⟩
  have T : Trip s nm tn K (s.ord.numVars + 1) f F 0 K.length :=
    trip w M nm tn hd hKf (s.ord.numVars + 1) (K := []) r (by omega) (by omega) sM.self mc
      (fun g t u _ _ _ h0 h1 => absurd h1 h0) (fun x hx => nomatch hx) hK (List.prefix_refl _)
      (fun i x hi hx => by
        have := (List.getElem?_eq_some_iff.1 hx).1
        omega)
  have tab0 : (tab [] 0 : List (Edge × Int)) = [] := rfl
  rw [tab0] at hK
  obtain ⟨ls, h1, h2, h3⟩ := T 0
  obtain ⟨σ, h4, -⟩ := h3 ls.length (fun _ => none) [] (Nat.le_refl _) (fun i _ _ h => absurd h (Nat.not_lt_zero i))
    fun _ _ => rfl
  rw [List.append_nil] at h4
  have hM0 : M' = fun _ => 0 := by
    have nc := sK.closed 0 (Nat.zero_le _) fun g t u _ _ _ h0 h1 => absurd h1 h0
    have only := mark_only w (P := fun a => M a ≠ 0 ∧ M' a = 0) (s.ord.numVars + 1) _ r (fun h => ⟨sM.self h, sK.self h⟩)
      (fun g t u hg hn hp hk => by
        have c1 := mc g t u hg hn (Nat.zero_le _) hp.1 hk
        have c2 := nc g t u hg hn (Nat.zero_le _) hp.1 hp.2 hk
        exact ⟨fun h => ⟨c1.1 h, c2.1 h⟩, fun h => ⟨c1.2 h, c2.2 h⟩⟩) hM
    funext a
    by_cases ha : M a = 0
    · rcases sK.mono a with h | h
      · rw [h, ha]
      · exact h
    · rcases only a ha with h | h
      · exact absurd rfl h
      · exact h.2
  refine ⟨ls, σ, ?_, h4⟩
  unfold printEdge
  simp only [hM, hK, h1, hM0]

end Cal.Print
