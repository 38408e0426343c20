import Verif.PrintLex

/-!
# Printing a function (`Cal_BddFunctionPrint`, calUtil.c:120-177)
-/

namespace Cal.Print

/-! ## Reading

    ( 0 )                          a constant
    ( a ( ... ) + a' ( ... ) )     if-then-else

A variable is one byte: `a` is the variable made first, and so on; bytes above `z` follow, and 255 is followed
by 0. -/

/-- the variable that a byte stands for -/
def byteVar (c : Char) : Nat := (c.toNat + 159) % 256 + 1

/-- One formula: its function, and what follows. -/
def readExpr : Nat → List Char → Option (BFn × List Char)
  | 0, _ => none
  | k + 1, l =>
    match strip ['(', ' '] l with
    | none => none
    | some l =>
      match strip ['0', ' ', ')', ' '] l with
      | some l => some (fun _ => false, l)
      | none =>
        match strip ['1', ' ', ')', ' '] l with
        | some l => some (fun _ => true, l)
        | none =>
          match l with
          | [] => none
          | c :: l =>
            match strip [' '] l with
            | none => none
            | some l =>
              match readExpr k l with
              | none => none
              | some (A, l) =>
                match strip ['+', ' ', c, '\'', ' '] l with
                | none => none
                | some l =>
                  match readExpr k l with
                  | none => none
                  | some (B, l) =>
                    match strip [')', ' '] l with
                    | none => none
                    | some l => some (fun ρ => if ρ (byteVar c) then A ρ else B ρ, l)

/-- A whole text, for a function with this name -/
def readFunction (name txt : List Char) : Option BFn :=
  match strip (name ++ [' ', '=', ' ']) txt with
  | none => none
  | some l =>
    match readExpr l.length l with
    | some (F, ['\n']) => some F
    | _ => none

/-! ## The code -/

/-- The byte for a variable (calUtil.c:167): `(char)((int)'a' + id - 1)` -/
def byteOf (id : Nat) : Char := Char.ofNat ((97 + id - 1) % 256)

/-- `CalBddFunctionPrint` (calUtil.c:146-177), with the static variable `level` as an argument -/
def fnPrint (s : Store) : Nat → Nat → List Char → Edge → Option (List Char)
  | 0, _, _, _ => none
  | k + 1, level, name, f =>
    let pre := if level = 0 then name ++ [' ', '=', ' '] else []
    let post := if level = 0 then ['\n'] else []
    if f.same Cal.zero then some (pre ++ (['(', ' '] ++ (['0', ' '] ++ ([')', ' '] ++ post))))
    else if f.same Cal.one then some (pre ++ (['(', ' '] ++ (['1', ' '] ++ ([')', ' '] ++ post))))
    else
      match s.kids f with
      | none => none
      | some (t, e) =>
        match fnPrint s k (level + 1) [' '] t with
        | none => none
        | some o1 =>
          match fnPrint s k (level + 1) [' '] e with
          | none => none
          | some o2 =>
            some (pre ++ (['(', ' '] ++ ([byteOf f.id, ' '] ++ (o1 ++ (['+', ' ', byteOf f.id, '\'', ' '] ++
              (o2 ++ ([')', ' '] ++ post)))))))

/-- `Cal_BddFunctionPrint` (calUtil.c:120-127). There is no pre-processing, so for null it uses a null pointer. -/
def _root_.Cal.Mgr.functionPrint (m : Mgr) (f : Handle) (name : List Char) : Option (List Char) :=
  match m.internal f with
  | none => none
  | some e => fnPrint m.st (m.st.ord.numVars + 1) 0 name e

/-! ## Proofs -/

theorem byte_ok : ∀ i, i < 256 → byteVar (Char.ofNat ((97 + i) % 256)) = i + 1 := by decide +kernel

theorem byteVar_byteOf {id : Nat} (h1 : 1 ≤ id) (h2 : id ≤ 256) : byteVar (byteOf id) = id := by
  have := byte_ok (id - 1) (by omega)
  unfold byteOf
  rw [show 97 + id - 1 = 97 + (id - 1) by omega, this]
  omega

/-- the text starts with a bracket -/
theorem fnPrint_head {s : Store} {k level name f o} (h : fnPrint s k (level + 1) name f = some o) : ∃ l, o = '(' :: l := by
  cases k with
  | zero => simp [fnPrint] at h
  | succ k =>
    unfold fnPrint at h
    simp only [Nat.add_eq_zero_iff, Nat.one_ne_zero, and_false, if_false, List.nil_append] at h
    split at h
    · cases h; exact ⟨_, rfl⟩
    · split at h
      · cases h; exact ⟨_, rfl⟩
      · split at h
        · cases h
        · split at h
          · cases h
          · split at h
            · cases h
            · cases h; exact ⟨_, rfl⟩

theorem fnPrint_ok {s : Store} (w : s.WF) (hv : s.ord.numVars ≤ 256) : ∀ (k : Nat) {f : Edge} {F}, Rep s f F → 1 ≤ k →
    s.ord.numVars + 1 ≤ k + s.ord.lvl f.id → ∃ l, (∀ level name, fnPrint s k level name f =
      some ((if level = 0 then name ++ [' ', '=', ' '] else []) ++ (l ++ if level = 0 then ['\n'] else []))) ∧ 1 ≤ l.length ∧
      ∀ k2 rest, l.length ≤ k2 → readExpr k2 (l ++ rest) = some (F, rest)
  | 0, _, _, _, h, _ => by omega
  | k + 1, f, F, r, _, hk => by
    by_cases h0 : f.same Cal.zero = true
    · have e0 : f = Cal.zero := by
        simp only [Edge.same, Cal.zero, Bool.and_eq_true, beq_iff_eq] at h0
        have := (r.eok.addr_zero w).1 (by simpa using h0.1)
        cases f; simp_all [Cal.zero]
      have hF : F = fun _ => false := by subst e0; exact r.unique w .zero
      refine ⟨['(', ' ', '0', ' ', ')', ' '], fun level name => ?_, by simp, fun k2 rest hl => ?_⟩
      · unfold fnPrint
        simp only [h0, if_true]
        simp
      · obtain ⟨k2, rfl⟩ : ∃ j, k2 = j + 1 := ⟨k2 - 1, by simp at hl; omega⟩
        simp [readExpr, strip, hF]
    · by_cases h1 : f.same Cal.one = true
      · have e0 : f = Cal.one := by
          simp only [Edge.same, Cal.one, Bool.and_eq_true, beq_iff_eq] at h1
          have := (r.eok.addr_zero w).1 (by simpa using h1.1)
          cases f; simp_all [Cal.one]
        have hF : F = fun _ => true := by subst e0; exact r.unique w .one
        refine ⟨['(', ' ', '1', ' ', ')', ' '], fun level name => ?_, by simp, fun k2 rest hl => ?_⟩
        · unfold fnPrint
          simp only [h0, h1, if_true]
          simp
        · obtain ⟨k2, rfl⟩ : ∃ j, k2 = j + 1 := ⟨k2 - 1, by simp at hl; omega⟩
          simp [readExpr, strip, hF]
      · have hi : f.id ≠ 0 := by
          intro hi
          have ha := (r.eok.addr_zero w).2 hi
          cases hn : f.neg <;> simp [Edge.same, Cal.one, Cal.zero, ha, hn] at h0 h1
        obtain ⟨t, e, hk1, rt, re, l1, l2, -⟩ := r.kids w hi
        have hlt := r.eok.lvl_lt w hi
        obtain ⟨n, hn, hnv⟩ := r.eok.node w hi
        have hr := w.var_range _ _ hn
        obtain ⟨o1, p1, q1, z1⟩ := fnPrint_ok w hv k rt (by omega) (by omega)
        obtain ⟨o2, p2, q2, z2⟩ := fnPrint_ok w hv k re (by omega) (by omega)
        obtain ⟨x1, hx1⟩ := fnPrint_head (s := s) (k := k) (level := 0) (name := [' ']) (f := t) (p1 1 [' '])
        simp only [Nat.one_ne_zero, if_false, List.append_nil, List.nil_append] at hx1
        refine ⟨['(', ' '] ++ ([byteOf f.id, ' '] ++ (o1 ++ (['+', ' ', byteOf f.id, '\'', ' '] ++ (o2 ++ [')', ' '])))),
          fun level name => ?_, by simp, fun k2 rest hl => ?_⟩
        · unfold fnPrint
          simp only [h0, h1, Bool.false_eq_true, if_false, hk1, p1, p2, Nat.add_eq_zero_iff, Nat.one_ne_zero, and_false,
            List.append_nil, List.nil_append]
          simp
        · simp only [List.length_append, List.length_cons, List.length_nil] at hl
          obtain ⟨k2, rfl⟩ : ∃ j, k2 = j + 1 := ⟨k2 - 1, by omega⟩
          have e1 := z1 k2 ('+' :: ' ' :: byteOf f.id :: '\'' :: ' ' :: (o2 ++ ')' :: ' ' :: rest)) (by omega)
          have e2 := z2 k2 (')' :: ' ' :: rest) (by omega)
          have s0 : strip ['0', ' ', ')', ' '] (byteOf f.id :: ' ' :: (o1 ++ '+' :: ' ' :: byteOf f.id :: '\'' :: ' ' :: (o2 ++ ')' :: ' ' :: rest))) = none := by
            rw [hx1]; simp [strip]
          have s1 : strip ['1', ' ', ')', ' '] (byteOf f.id :: ' ' :: (o1 ++ '+' :: ' ' :: byteOf f.id :: '\'' :: ' ' :: (o2 ++ ')' :: ' ' :: rest))) = none := by
            rw [hx1]; simp [strip]
          have hb := byteVar_byteOf (id := f.id) (by omega) (by omega)
          have s2 : ∀ l : List Char, strip ['(', ' '] ('(' :: ' ' :: l) = some l := fun l => by simp [strip]
          have s3 : ∀ l : List Char, strip [' '] (' ' :: l) = some l := fun l => by simp [strip]
          have s4 : ∀ (c : Char) (l : List Char), strip ['+', ' ', c, '\'', ' '] ('+' :: ' ' :: c :: '\'' :: ' ' :: l) = some l :=
            fun c l => by simp [strip]
          have s5 : ∀ l : List Char, strip [')', ' '] (')' :: ' ' :: l) = some l := fun l => by simp [strip]
          simp only [List.cons_append, List.append_assoc, List.nil_append]
          rw [readExpr]
          simp only [s2, s0, s1, s3, e1, s4, e2, s5, hb]
          rw [shannon]

end Cal.Print
