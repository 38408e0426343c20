import Verif.Print

/-!
# The lines of a text printed with default names
-/

namespace Cal.Print

theorem digit_ok : ∀ d, d < 10 → isDigit (digit d) = true ∧ (digit d).toNat - 48 = d := by decide

theorem decimal_digits (n : Nat) : (decimal n).all isDigit = true := by
  induction n using Nat.strongRecOn with
  | ind n ih =>
    unfold decimal
    split
    · simp [(digit_ok n ‹_›).1]
    · simp [ih (n / 10) (by omega), (digit_ok (n % 10) (by omega)).1]

theorem decimal_ne (n : Nat) : decimal n ≠ [] := by
  unfold decimal
  split <;> simp

theorem value_decimal (n : Nat) : value (decimal n) = n := by
  induction n using Nat.strongRecOn with
  | ind n ih =>
    unfold decimal
    split
    · simp [value, (digit_ok n ‹_›).2]
    · have := ih (n / 10) (by omega)
      unfold value at this ⊢
      rw [List.foldl_append, this]
      simp [(digit_ok (n % 10) (by omega)).2]
      omega

theorem readNum_decimal (n : Nat) : readNum (decimal n) = some n := by
  unfold readNum
  rw [if_pos ⟨decimal_ne n, decimal_digits n⟩, value_decimal]

theorem strip_self (p l : List Char) : strip p (p ++ l) = some l := by
  induction p with
  | nil => simp [strip]
  | cons a p ih => simp [strip, ih]

theorem strip_head {a b : Char} {p l : List Char} (h : a ≠ b) : strip (a :: p) (b :: l) = none := by
  simp [strip, h]

theorem readVar_name (i : Nat) : readVar (['v', 'a', 'r', '.'] ++ decimal i) = some i := by
  unfold readVar
  rw [strip_self]
  exact readNum_decimal i

/-- A numeral followed by something else -/
theorem span_decimal (n : Nat) {c : Char} (hc : isDigit c = false) (l : List Char) :
    (decimal n ++ c :: l).takeWhile isDigit = decimal n ∧ (decimal n ++ c :: l).dropWhile isDigit = c :: l := by
  have h := decimal_digits n
  rw [List.all_eq_true] at h
  constructor
  · rw [List.takeWhile_append_of_pos h]; simp [hc]
  · rw [List.dropWhile_append_of_pos h]; simp [hc]

/-- The first character of a numeral -/
theorem decimal_head (n : Nat) : ∃ c l, decimal n = c :: l ∧ isDigit c = true := by
  have h := decimal_digits n
  cases hd : decimal n with
  | nil => exact absurd hd (decimal_ne n)
  | cons c l =>
    rw [hd] at h
    simp only [List.all_cons, Bool.and_eq_true] at h
    exact ⟨c, l, rfl, h.1⟩

theorem not_digit {c d : Char} (h : isDigit c = true) (hd : isDigit d = false) : d ≠ c := by
  rintro rfl; rw [h] at hd; cases hd

/-- what a line looks like with default names -/
theorem readBody_text (o : Order) (l : Line) : readBody (lineText o none none l) = some l := by
  have nm : ∀ i, nameAt o none i = ['v', 'a', 'r', '.'] ++ decimal i := fun i => rfl
  cases l with
  | const b => cases b <;> simp +decide [lineText, constName, readBody]
  | var neg i =>
    cases neg with
    | false =>
      simp only [lineText, nm, readBody]
      rw [if_neg (by simp), if_neg (by simp)]
      simp only [List.cons_append, List.nil_append]
      rw [strip_head (by decide), strip_head (by decide), strip_head (by decide), strip_head (by decide), strip_head (by decide),
        strip_head (by decide)]
      simp only
      rw [List.dropWhile_cons_of_neg (by decide), strip_head (by decide)]
      have := readVar_name i
      simp only [List.cons_append, List.nil_append] at this
      simp only [this, Option.map_some]
    | true =>
      simp only [lineText, nm, readBody]
      rw [if_neg (by simp), if_neg (by simp)]
      simp only [List.cons_append, List.nil_append]
      rw [strip_head (by decide)]
      have h1 : strip ['!', 's', 'u', 'b', 'f', 'o', 'r', 'm', 'u', 'l', 'a', ' '] ('!' :: 'v' :: 'a' :: 'r' :: '.' :: decimal i) = none := by
        simp +decide [strip]
      rw [h1, strip_head (by decide), strip_head (by decide), strip_head (by decide)]
      have h2 : strip ['!'] ('!' :: 'v' :: 'a' :: 'r' :: '.' :: decimal i) = some (['v', 'a', 'r', '.'] ++ decimal i) := by
        simp [strip]
      simp only [h2, readVar_name, Option.map_some]
  | ref neg n =>
    cases neg with
    | false =>
      simp only [lineText]
      unfold readBody
      rw [if_neg (by simp), if_neg (by simp), strip_self]
      simp only [readNum_decimal, Option.map_some]
    | true =>
      simp only [lineText]
      unfold readBody
      rw [if_neg (by simp), if_neg (by simp)]
      simp only [List.cons_append, List.nil_append]
      rw [strip_head (by decide)]
      have := strip_self ['!', 's', 'u', 'b', 'f', 'o', 'r', 'm', 'u', 'l', 'a', ' '] (decimal n)
      simp only [List.cons_append, List.nil_append] at this
      simp only [this, readNum_decimal, Option.map_some]
  | ifThen lab i =>
    cases lab with
    | none =>
      simp only [lineText, nm, readBody]
      rw [if_neg (by simp), if_neg (by simp)]
      have := strip_self ['i', 'f', ' '] (['v', 'a', 'r', '.'] ++ decimal i)
      rw [this]
      simp only [List.cons_append, List.nil_append]
      rw [strip_head (by decide), strip_head (by decide)]
      have := readVar_name i
      simp only [List.cons_append, List.nil_append] at this
      simp only [this, Option.map_some]
    | some n =>
      simp only [lineText, nm, readBody]
      obtain ⟨c, l, hd, hc⟩ := decimal_head n
      have h0 : decimal n ++ ([':', ' ', 'i', 'f', ' '] ++ (['v', 'a', 'r', '.'] ++ decimal i)) ≠ ['0'] := by
        rw [hd]; simp
      have h1 : decimal n ++ ([':', ' ', 'i', 'f', ' '] ++ (['v', 'a', 'r', '.'] ++ decimal i)) ≠ ['1'] := by
        rw [hd]; simp
      rw [if_neg h0, if_neg h1]
      have hs : ∀ a p, isDigit a = false → strip (a :: p) (decimal n ++ ([':', ' ', 'i', 'f', ' '] ++ (['v', 'a', 'r', '.'] ++ decimal i))) = none := by
        intro a p ha
        rw [hd]
        exact strip_head (not_digit hc ha)
      rw [hs _ _ (by decide), hs _ _ (by decide), hs _ _ (by decide), hs _ _ (by decide), hs _ _ (by decide), hs _ _ (by decide)]
      have sp := span_decimal n (c := ':') (by decide) ([' ', 'i', 'f', ' '] ++ (['v', 'a', 'r', '.'] ++ decimal i))
      have e : [':', ' ', 'i', 'f', ' '] ++ (['v', 'a', 'r', '.'] ++ decimal i) =
        ':' :: ([' ', 'i', 'f', ' '] ++ (['v', 'a', 'r', '.'] ++ decimal i)) := rfl
      rw [e, sp.1, sp.2, ← e, strip_self]
      simp only [readNum_decimal, readVar_name]
  | elseIf i =>
    simp only [lineText, nm, readBody]
    rw [if_neg (by simp), if_neg (by simp)]
    have := strip_self ['e', 'l', 's', 'e', ' ', 'i', 'f', ' ', '!'] (['v', 'a', 'r', '.'] ++ decimal i)
    rw [this]
    simp only [List.cons_append, List.nil_append]
    rw [strip_head (by decide), strip_head (by decide), strip_head (by decide)]
    have := readVar_name i
    simp only [List.cons_append, List.nil_append] at this
    simp only [this, Option.map_some]
  | endIf i =>
    simp only [lineText, nm, readBody]
    rw [if_neg (by simp), if_neg (by simp)]
    have := strip_self ['e', 'n', 'd', 'i', 'f', ' '] (['v', 'a', 'r', '.'] ++ decimal i)
    rw [this]
    simp only [List.cons_append, List.nil_append]
    have h3 : strip ['e', 'l', 's', 'e', ' ', 'i', 'f', ' ', '!'] ('e' :: 'n' :: 'd' :: 'i' :: 'f' :: ' ' :: 'v' :: 'a' :: 'r' :: '.' :: decimal i) = none := by
      simp +decide [strip]
    rw [strip_head (by decide), strip_head (by decide), strip_head (by decide), h3]
    have := readVar_name i
    simp only [List.cons_append, List.nil_append] at this
    simp only [this, Option.map_some]

/-- The first character of a line is not a space. -/
theorem text_head (o : Order) (l : Line) : ∃ c x, lineText o none none l = c :: x ∧ (c == ' ') = false := by
  cases l with
  | const b => cases b <;> exact ⟨_, _, rfl, by decide⟩
  | var neg i => cases neg <;> exact ⟨_, _, rfl, by decide⟩
  | ref neg i => cases neg <;> exact ⟨_, _, rfl, by decide⟩
  | ifThen lab i =>
    cases lab with
    | none => exact ⟨_, _, rfl, by decide⟩
    | some n =>
      obtain ⟨c, x, hd, hc⟩ := decimal_head n
      refine ⟨c, x ++ ([':', ' ', 'i', 'f', ' '] ++ nameAt o none i), by simp [lineText, hd], ?_⟩
      have := not_digit hc (d := ' ') (by decide)
      simp [Ne.symm this]
  | elseIf i => exact ⟨_, _, rfl, by decide⟩
  | endIf i => exact ⟨_, _, rfl, by decide⟩

theorem readLine_text (o : Order) (d : Nat) (l : Line) : readLine (spaces d ++ lineText o none none l) = some (d, l) := by
  obtain ⟨c, x, hx, hc⟩ := text_head o l
  have hs : ∀ a ∈ spaces d, (a == ' ') = true := by
    intro a ha
    rw [(List.mem_replicate.1 ha).2]; rfl
  unfold readLine
  rw [List.dropWhile_append_of_pos hs, List.takeWhile_append_of_pos hs]
  have h1 : (lineText o none none l).dropWhile (· == ' ') = lineText o none none l := by
    rw [hx, List.dropWhile_cons_of_neg (by simp [hc])]
  have h2 : (lineText o none none l).takeWhile (· == ' ') = [] := by
    rw [hx, List.takeWhile_cons_of_neg (by simp [hc])]
  rw [h1, h2, readBody_text]
  simp [spaces]

theorem lines_append : ∀ {l : List Char} (rest : List Char), '\n' ∉ l → lines (l ++ ['\n'] ++ rest) = l :: lines rest
  | [], rest, _ => by simp [lines]
  | c :: l, rest, h => by
    simp only [List.mem_cons, not_or] at h
    have := lines_append (l := l) rest h.2
    simp only [List.append_assoc, List.cons_append] at this
    simp only [List.cons_append, List.append_assoc, lines, if_neg (Ne.symm h.1)]
    rw [this]

theorem decimal_nl (n : Nat) : '\n' ∉ decimal n := by
  intro h
  have := decimal_digits n
  rw [List.all_eq_true] at this
  exact absurd (this _ h) (by decide)

theorem text_nl (o : Order) (l : Line) : '\n' ∉ lineText o none none l := by
  cases l with
  | const b => cases b <;> simp +decide [lineText, constName]
  | var neg i => cases neg <;> simp +decide [lineText, nameAt, decimal_nl]
  | ref neg i => cases neg <;> simp +decide [lineText, decimal_nl]
  | ifThen lab i => cases lab <;> simp +decide [lineText, nameAt, decimal_nl]
  | elseIf i => simp +decide [lineText, nameAt, decimal_nl]
  | endIf i => simp +decide [lineText, nameAt, decimal_nl]

theorem readLines_text (o : Order) : ∀ ls : List (Nat × Line), readLines (lines (linesText o none none ls)) = some ls
  | [] => rfl
  | (d, l) :: ls => by
    rw [linesText_cons, lines_append _ (by
      intro h
      rcases List.mem_append.1 h with h | h
      · exact absurd (List.mem_replicate.1 h).2 (by decide)
      · exact text_nl o l h)]
    simp only [readLines, readLine_text, readLines_text o ls]

end Cal.Print
