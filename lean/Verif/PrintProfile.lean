import Verif.PrintLex
import Verif.FnProfile4

/-!
# Printing profiles (calPrintProfile.c)

Simplified: the line length and the lengths of names are integers without bounds, and names come from a function of
the variable, as in `Print.lean`. Counts of more than nine characters are an outcome of their own: they are written past
the end of a buffer. Others fit into an `int`.
-/

namespace Cal

namespace Print

/-! ## The code -/

/-- `%ld` -/
def signed (c : Int) : List Char := if c < 0 then '-' :: decimal (-c).toNat else decimal c.toNat

/-- `chars` (calPrintProfile.c:251-263) -/
def chars (c : Char) (n : Int) : List Char := List.replicate n.toNat c

/-- One round of the first loop of `CalBddPrintProfileAux` (calPrintProfile.c:200-214), on `maxPrefixLen`,
`maxProfileWidth` and `total` -/
def measure (name : Nat → List Char) (c : Nat → Int) (w : Int × Int × Int) (i : Nat) : Int × Int × Int :=
  if c i = 0 then w
  else
    let l : Int := (name i).length + (signed (c i)).length
    (if l > w.1 then l else w.1, if c i > w.2.1 then c i else w.2.1, w.2.2 + c i)

/-- A line of the second loop, or the one for the leaves (calPrintProfile.c:230-237 and 240-246; 4 is the length of
"leaf"). -/
def profileLine (maxPrefixLen profileScale : Int) (name : List Char) (c : Int) : List Char :=
  name ++ [':'] ++ chars ' ' (maxPrefixLen - name.length - (signed c).length + 1) ++ signed c ++ [' '] ++
    chars '#' (c.tdiv profileScale) ++ ['\n']

/-- `CalBddPrintProfileAux` (calPrintProfile.c:176-248). `name i` is what `CalBddVarName` says about the variable of
index `i`, `c` is `levelCounts`. -/
def profileText (n : Nat) (name : Nat → List Char) (c : Nat → Int) (lineLength : Int) : List Char :=
  let w := (List.range n).foldl (measure name c) (5, c n, c n)
  let histogramColumn := w.1 + 3
  let histogramWidth := if lineLength - histogramColumn - 1 < 20 then 20 else lineLength - histogramColumn - 1
  let profileScale := if histogramWidth ≥ w.2.1 then 1 else (w.2.1 + histogramWidth - 1).tdiv histogramWidth
  (List.range n).flatMap (fun i => if c i = 0 then [] else profileLine w.1 profileScale (name i) (c i)) ++
    profileLine w.1 profileScale ['l', 'e', 'a', 'f'] (c n) ++
    (['T', 'o', 't', 'a', 'l', ':', ' '] ++ signed w.2.2 ++ ['\n'])

/-- What a call of a printing function does: it writes a text, it reads counts that were never written, or it writes
past the end of the buffer for numbers. -/
inductive Printed where
  | text (t : List Char)
  | unwritten
  | overflow
  deriving DecidableEq

/-- `CalBddPrintProfileAux` with the calls of `sprintf` on `profileWidth`, which is an array of 10 characters
(calPrintProfile.c:59, 202, 232 and 241) -/
def profileOut (n : Nat) (name : Nat → List Char) (c : Nat → Int) (lineLength : Int) : Printed :=
  if (List.range (n + 1)).any (fun i => (i = n ∨ c i ≠ 0) ∧ 10 < (signed (c i)).length + 1) then .overflow
  else .text (profileText n name c lineLength)

end Print

namespace Mgr

open Print

/-- The call of `CalBddPrintProfileAux` (calPrintProfile.c:176-248) on the array that a function left, if it wrote it -/
def printCounts (m : Mgr) (nm : Option (Nat → Option (List Char))) (lineLength : Int) : Option (List Int) → Printed
  | none => .unwritten
  | some l => profileOut m.st.ord.numVars (fun i => varName m.st.ord nm (m.st.ord.indexToId i))
      (fun i => l[i]?.getD 0) lineLength

/-- `Cal_BddPrintProfile` (calPrintProfile.c:83-101) -/
def printProfile (E : Env) (m : Mgr) (f : Handle) (nm : Option (Nat → Option (List Char))) (lineLength : Int) :
    Option (Mgr × Printed) :=
  match m.preProc E [f] with
  | none => none
  | some (m1, false) => some (m1, .text [])
  | some (m1, true) =>
    (m1.profile E f true).map fun p => (p.1, p.1.printCounts nm lineLength (p.2.map fun l => l.map fun c : Nat => (c : Int)))

/-- `Cal_BddPrintProfileMultiple` (calPrintProfile.c:105-123) -/
def printProfileMultiple (E : Env) (m : Mgr) (fs : List Handle) (nm : Option (Nat → Option (List Char))) (lineLength : Int) :
    Option (Mgr × Printed) :=
  match m.arrayPreProc E fs with
  | none => none
  | some (m1, false) => some (m1, .text [])
  | some (m1, true) =>
    (m1.profileMultiple E fs true).map fun p => (p.1, p.1.printCounts nm lineLength (p.2.map fun l => l.map fun c : Nat => (c : Int)))

/-- `Cal_BddPrintFunctionProfile` (calPrintProfile.c:129-146): it returns when pre-processing succeeds. -/
def printFunctionProfile (E : Env) (m : Mgr) (f : Handle) (nm : Option (Nat → Option (List Char))) (lineLength : Int) :
    Option (Mgr × Printed) :=
  match m.preProc E [f] with
  | none => none
  | some (m1, true) => some (m1, .text [])
  | some (m1, false) => (m1.functionProfile E f).map fun p => (p.1, p.1.printCounts nm lineLength p.2)

/-- `Cal_BddPrintFunctionProfileMultiple` (calPrintProfile.c:151-167) -/
def printFunctionProfileMultiple (E : Env) (m : Mgr) (fs : List Handle) (nm : Option (Nat → Option (List Char)))
    (lineLength : Int) : Option (Mgr × Printed) :=
  match m.arrayPreProc E fs with
  | none => none
  | some (m1, false) => some (m1, .text [])
  | some (m1, true) => (m1.functionProfileMultiple E fs).map fun p => (p.1, p.1.printCounts nm lineLength (some p.2))

end Mgr

namespace Print

/-! ## What a chart is -/

/-- A row of a chart in which the bars begin at column `col` and one `#` stands for `scale`: the name, a colon, at least
one space, the number, which ends just before a space that ends at `col`, and the bar. -/
def Row (col scale : Nat) (name : List Char) (n : Nat) (t : List Char) : Prop :=
  ∃ pad, 1 ≤ pad ∧ name.length + 1 + pad + (decimal n).length + 1 = col ∧
    t = name ++ ':' :: List.replicate pad ' ' ++ decimal n ++ ' ' :: List.replicate (n / scale) '#' ++ ['\n']

/-- `t` is a chart of the rows: one line for each, with bars that begin at the same column, of which none is longer than
the rest of the line (or 20), in the smallest scale in which this is so without rounding; and the sum. -/
def Chart (lineLength : Int) (rows : List (List Char × Nat)) (t : List Char) : Prop :=
  ∃ (col scale : Nat) (ls : List (List Char)),
    F2 (fun r l => Row col scale r.1 r.2 l) rows ls ∧
    t = ls.flatten ++ ['T', 'o', 't', 'a', 'l', ':', ' '] ++ decimal (rows.map (·.2)).sum ++ ['\n'] ∧
    1 ≤ scale ∧ (∀ r ∈ rows, (r.2 : Int) ≤ scale * max 20 (lineLength - col - 1)) ∧
    ∀ s : Nat, 1 ≤ s → (∀ r ∈ rows, (r.2 : Int) ≤ s * max 20 (lineLength - col - 1)) → scale ≤ s

/-- The rows of a profile: the variables with a count that is not zero by their place in the order, and the leaves -/
def profileRows (n : Nat) (name : Nat → List Char) (c : Nat → Nat) : List (List Char × Nat) :=
  ((List.range n).filter fun i => c i ≠ 0).map (fun i => (name i, c i)) ++ [(['l', 'e', 'a', 'f'], c n)]

/-! ## The text is a chart -/

theorem signed_nat (n : Nat) : signed (n : Int) = decimal n := by
  unfold signed
  rw [if_neg (by omega)]; simp

theorem decimal_small {n : Nat} (h : n < 10) : (decimal n).length = 1 := by
  unfold decimal; rw [if_pos h]; rfl

/-- What the first loop computes -/
theorem measure_ok (name : Nat → List Char) (c : Nat → Nat) : ∀ (l : List Nat) (w : Int × Int × Int),
    let w' := l.foldl (measure name fun i => (c i : Int)) w
    w.1 ≤ w'.1 ∧ w.2.1 ≤ w'.2.1 ∧
    (∀ i ∈ l, c i ≠ 0 → ((name i).length + (decimal (c i)).length : Int) ≤ w'.1 ∧ (c i : Int) ≤ w'.2.1) ∧
    (w'.2.1 = w.2.1 ∨ ∃ i ∈ l, c i ≠ 0 ∧ w'.2.1 = c i) ∧
    w'.2.2 = w.2.2 + (((l.filter fun i => c i ≠ 0).map c).sum : Nat) := by
  intro l
  induction l with
  | nil => intro w; simp
  | cons i l ih =>
    intro w
    simp only [List.foldl_cons]
    obtain ⟨h1, h2, h3, h4, h5⟩ := ih (measure name (fun i => (c i : Int)) w i)
    revert h1 h2 h3 h4 h5
    generalize hw : l.foldl _ _ = w'
    intro h1 h2 h3 h4 h5
    by_cases hc : c i = 0
    · have e : measure name (fun i => (c i : Int)) w i = w := by simp [measure, hc]
      rw [e] at h1 h2 h4 h5
      refine ⟨h1, h2, ?_, ?_, ?_⟩
      · intro j hj hj0
        rcases List.mem_cons.1 hj with rfl | hj
        · exact absurd hc hj0
        · exact h3 j hj hj0
      · rcases h4 with h4 | ⟨j, hj, h⟩
        · exact .inl h4
        · exact .inr ⟨j, by simp [hj], h⟩
      · rw [h5, List.filter_cons]; simp [hc]
    · have e : measure name (fun i => (c i : Int)) w i = (if ((name i).length + (decimal (c i)).length : Int) > w.1 then
          ((name i).length + (decimal (c i)).length : Int) else w.1, if (c i : Int) > w.2.1 then (c i : Int) else w.2.1, w.2.2 + c i) := by
        simp [measure, hc, signed_nat]
      rw [e] at h1 h2 h4 h5
      simp only at h1 h2 h4 h5
      refine ⟨?_, ?_, ?_, ?_, ?_⟩
      · split at h1 <;> omega
      · split at h2 <;> omega
      · intro j hj hj0
        rcases List.mem_cons.1 hj with rfl | hj
        · constructor
          · split at h1 <;> omega
          · split at h2 <;> omega
        · exact h3 j hj hj0
      · rcases h4 with h4 | ⟨j, hj, h⟩
        · split at h4
          · exact .inr ⟨i, by simp, hc, h4⟩
          · exact .inl h4
        · exact .inr ⟨j, by simp [hj], h⟩
      · rw [h5, List.filter_cons]; simp [hc]; omega

theorem line_row {p scale : Nat} (hs : 1 ≤ scale) {name : List Char} {n : Nat} (h : name.length + (decimal n).length ≤ p) :
    Row (p + 3) scale name n (profileLine (p : Int) (scale : Int) name n) := by
  refine ⟨p - name.length - (decimal n).length + 1, by omega, by omega, ?_⟩
  have e1 : ((p : Int) - name.length - (decimal n).length + 1).toNat = p - name.length - (decimal n).length + 1 := by omega
  have e2 : ((n : Int).tdiv (scale : Int)).toNat = n / scale := by
    rw [← Int.ofNat_tdiv]; exact Int.toNat_natCast _
  simp only [profileLine, signed_nat, chars, e1, e2]
  simp

theorem F2.append' {α β} {R : α → β → Prop} {a : List α} {b : List β} (h : F2 R a b) {a' : List α} {b' : List β} (h' : F2 R a' b') :
    F2 R (a ++ a') (b ++ b') := by
  induction h with
  | nil => exact h'
  | cons h _ ih => exact .cons h ih

theorem rows_lines {p scale : Nat} (hs : 1 ≤ scale) {name : Nat → List Char} {c : Nat → Nat} : ∀ {l : List Nat},
    (∀ i ∈ l, c i ≠ 0 → (name i).length + (decimal (c i)).length ≤ p) →
    ∃ ls, F2 (fun (r : List Char × Nat) t => Row (p + 3) scale r.1 r.2 t) ((l.filter fun i => c i ≠ 0).map fun i => (name i, c i)) ls ∧
      l.flatMap (fun i => if (c i : Int) = 0 then [] else profileLine (p : Int) (scale : Int) (name i) (c i)) = ls.flatten := by
  intro l
  induction l with
  | nil => intro _; exact ⟨[], .nil, rfl⟩
  | cons i l ih =>
    intro h
    obtain ⟨ls, h1, h2⟩ := ih fun j hj => h j (by simp [hj])
    rw [List.flatMap_cons, h2]
    by_cases hc : c i = 0
    · refine ⟨ls, ?_, by simp [hc]⟩
      rw [List.filter_cons]; simpa [hc] using h1
    · refine ⟨profileLine (p : Int) (scale : Int) (name i) (c i) :: ls, ?_, by simp [hc]⟩
      rw [List.filter_cons]
      simp only [ne_eq, hc, not_false_eq_true, decide_true, if_true, List.map_cons]
      exact .cons (line_row hs (h i (by simp) hc)) (by simpa using h1)

theorem scale_ok {M W : Int} (hW : 20 ≤ W) (hM : 0 ≤ M) :
    ∃ s : Nat, (if W ≥ M then 1 else (M + W - 1).tdiv W) = s ∧ 1 ≤ s ∧ M ≤ s * W ∧ ∀ t : Nat, 1 ≤ t → M ≤ t * W → s ≤ t := by
  split
  · rename_i h
    exact ⟨1, rfl, by omega, by simpa using h, fun t h1 _ => h1⟩
  · rename_i h
    have hq : (M + W - 1).tdiv W = (M + W - 1) / W := Int.tdiv_eq_ediv_of_nonneg (by omega)
    have h0 : 0 ≤ (M + W - 1) / W := Int.ediv_nonneg (by omega) (by omega)
    have h1 : W * ((M + W - 1) / W) + (M + W - 1) % W = M + W - 1 := Int.mul_ediv_add_emod _ _
    have h2 := Int.emod_lt_of_pos (M + W - 1) (show 0 < W by omega)
    have h3 := Int.emod_nonneg (M + W - 1) (show W ≠ 0 by omega)
    refine ⟨((M + W - 1) / W).toNat, by rw [hq]; omega, ?_, ?_, ?_⟩
    · have : 1 ≤ (M + W - 1) / W := by
        apply Classical.byContradiction
        intro h4
        have : (M + W - 1) / W = 0 := by omega
        rw [this] at h1; simp at h1; omega
      omega
    · rw [show (((M + W - 1) / W).toNat : Int) = (M + W - 1) / W by omega, Int.mul_comm]
      omega
    · intro t _ h4
      apply Classical.byContradiction
      intro h5
      have h6 : (t : Int) + 1 ≤ (M + W - 1) / W := by omega
      have h7 : W * ((t : Int) + 1) ≤ W * ((M + W - 1) / W) := Int.mul_le_mul_of_nonneg_left h6 (by omega)
      rw [Int.mul_add, Int.mul_comm W (t : Int)] at h7
      omega

/-- The text for counts with at most nine leaves is a chart. -/
theorem profileText_chart (n : Nat) (name : Nat → List Char) (c : Nat → Nat) (hl : c n < 10) (len : Int) :
    Chart len (profileRows n name c) (profileText n name (fun i => (c i : Int)) len) := by
  have hm := measure_ok name c (List.range n) (5, (c n : Int), (c n : Int))
  unfold profileText
  simp only at hm ⊢
  revert hm
  generalize (List.range n).foldl _ _ = w
  intro hm
  obtain ⟨p, M, T⟩ := w
  obtain ⟨h1, h2, h3, h4, h5⟩ := hm
  simp only at h1 h2 h3 h4 h5 ⊢
  obtain ⟨p, rfl⟩ : ∃ q : Nat, p = q := ⟨p.toNat, by omega⟩
  have eW : (if len - ((p : Int) + 3) - 1 < 20 then 20 else len - ((p : Int) + 3) - 1) = max 20 (len - ((p + 3 : Nat) : Int) - 1) := by
    split <;> omega
  rw [eW]
  generalize hW : max (20 : Int) (len - ((p + 3 : Nat) : Int) - 1) = W
  have hW20 : 20 ≤ W := by omega
  obtain ⟨s, e, hs, hs1, hs2⟩ := scale_ok (M := M) hW20 (by omega)
  rw [e]
  obtain ⟨ls, r1, r2⟩ := rows_lines (p := p) (scale := s) hs (name := name) (c := c) (l := List.range n)
    (fun i hi h0 => by have := (h3 i hi h0).1; omega)
  have hd := decimal_small hl
  have hleaf := line_row (p := p) hs (name := ['l', 'e', 'a', 'f']) (n := c n) (by rw [hd]; simp; omega)
  have hrows : ∀ t : Nat, (∀ r ∈ profileRows n name c, (r.2 : Int) ≤ t * W) ↔ M ≤ t * W := by
    intro t
    constructor
    · intro h
      rcases h4 with h4 | ⟨i, hi, h0, h4⟩
      · rw [h4]; exact h (['l', 'e', 'a', 'f'], c n) (by simp [profileRows])
      · rw [h4]
        refine h (name i, c i) ?_
        unfold profileRows
        rw [List.mem_append]
        refine .inl (List.mem_map.2 ⟨i, List.mem_filter.2 ⟨hi, by simpa using h0⟩, rfl⟩)
    · intro h r hr
      unfold profileRows at hr
      rcases List.mem_append.1 hr with hr | hr
      · obtain ⟨i, hi, rfl⟩ := List.mem_map.1 hr
        obtain ⟨hi, h0⟩ := List.mem_filter.1 hi
        have := (h3 i hi (by simpa using h0)).2
        simp only; omega
      · rw [List.mem_singleton] at hr
        subst hr
        simp only; omega
  refine ⟨p + 3, s, ls ++ [profileLine (p : Int) (s : Int) ['l', 'e', 'a', 'f'] (c n)], ?_, ?_, hs, ?_, ?_⟩
  · exact F2.append' r1 (.cons hleaf .nil)
  · rw [r2]
    have : T = (((profileRows n name c).map (·.2)).sum : Nat) := by
      rw [h5]
      have e : (((List.range n).filter fun i => c i ≠ 0).map fun i => (name i, c i)).map (·.2) = ((List.range n).filter fun i => c i ≠ 0).map c := by
        rw [List.map_map]; rfl
      unfold profileRows
      rw [List.map_append, e, List.sum_append]
      simp only [List.map_cons, List.map_nil, List.sum_cons, List.sum_nil]
      omega
    rw [this, signed_nat]
    simp
  · rw [hW]; exact (hrows s).2 hs1
  · rw [hW]; intro t ht h; exact hs2 t ht ((hrows t).1 h)

theorem decimal_le : ∀ (k n : Nat), n < 10 ^ (k + 1) → (decimal n).length ≤ k + 1 := by
  intro k
  induction k with
  | zero => intro n h; rw [decimal_small (by omega)]; omega
  | succ k ih =>
    intro n h
    by_cases hn : n < 10
    · rw [decimal_small hn]; omega
    · unfold decimal
      rw [if_neg hn, List.length_append]
      have := ih (n / 10) (by rw [Nat.div_lt_iff_lt_mul (by omega)]; rw [Nat.pow_succ] at h; exact h)
      simp; omega

theorem decimal_ge : ∀ (k n : Nat), 10 ^ k ≤ n → k < (decimal n).length := by
  intro k
  induction k with
  | zero =>
    intro n h
    have := decimal_ne n
    cases hd : decimal n with
    | nil => exact absurd hd this
    | cons _ _ => simp
  | succ k ih =>
    intro n h
    have h10 : 10 ≤ n := by
      have : 1 ≤ 10 ^ k := Nat.one_le_pow _ _ (by omega)
      rw [Nat.pow_succ] at h; omega
    unfold decimal
    rw [if_neg (by omega), List.length_append]
    have := ih (n / 10) (by rw [Nat.le_div_iff_mul_le (by omega)]; rw [Nat.pow_succ] at h; exact h)
    simp; omega

theorem profileOut_text {n : Nat} {name : Nat → List Char} {c : Nat → Nat} (h : ∀ i ≤ n, c i < 10 ^ 9) (len : Int) :
    profileOut n name (fun i => (c i : Int)) len = .text (profileText n name (fun i => (c i : Int)) len) := by
  unfold profileOut
  rw [if_neg]
  simp only [List.any_eq_true, decide_eq_true_eq, not_exists, not_and, signed_nat]
  intro i hi h1
  have := decimal_le 8 (c i) (h i (by rw [List.mem_range] at hi; omega))
  simp at h1
  omega

theorem profileOut_overflow {n : Nat} {name : Nat → List Char} {c : Nat → Nat} {i : Nat} (hi : i ≤ n) (h : 10 ^ 9 ≤ c i) (len : Int) :
    profileOut n name (fun i => (c i : Int)) len = .overflow := by
  unfold profileOut
  rw [if_pos]
  simp only [List.any_eq_true, decide_eq_true_eq, signed_nat]
  have := decimal_ge 9 (c i) h
  refine ⟨i, List.mem_range.2 (by omega), .inr ?_, by omega⟩
  omega

theorem profileOut_congr {n : Nat} {name name' : Nat → List Char} {c d : Nat → Int} (h : ∀ i ≤ n, c i = d i)
    (hn : ∀ i < n, name i = name' i) (len : Int) : profileOut n name c len = profileOut n name' d len := by
  have h1 : ∀ (l : List Nat) w, (∀ i ∈ l, i < n) → l.foldl (measure name c) w = l.foldl (measure name' d) w := by
    intro l
    induction l with
    | nil => intro w _; rfl
    | cons i l ih =>
      intro w hl
      have e : measure name c w i = measure name' d w i := by
        have := hl i (by simp)
        simp only [measure, h i (by omega), hn i this]
      simp only [List.foldl_cons, e]
      exact ih _ fun j hj => hl j (by simp [hj])
  have h2 : ∀ (p s : Int) (l : List Nat), (∀ i ∈ l, i < n) → l.flatMap (fun i => if c i = 0 then [] else profileLine p s (name i) (c i)) =
      l.flatMap (fun i => if d i = 0 then [] else profileLine p s (name' i) (d i)) := by
    intro p s l
    induction l with
    | nil => intro _; rfl
    | cons i l ih =>
      intro hl
      have := hl i (by simp)
      simp only [List.flatMap_cons, h i (by omega), hn i this, ih fun j hj => hl j (by simp [hj])]
  have h3 : ∀ l : List Nat, (∀ i ∈ l, i ≤ n) → l.any (fun i => (i = n ∨ c i ≠ 0) ∧ 10 < (signed (c i)).length + 1) =
      l.any (fun i => (i = n ∨ d i ≠ 0) ∧ 10 < (signed (d i)).length + 1) := by
    intro l
    induction l with
    | nil => intro _; rfl
    | cons i l ih => intro hl; simp only [List.any_cons, h i (hl i (by simp)), ih fun j hj => hl j (by simp [hj])]
  have hr : ∀ i ∈ List.range n, i < n := fun i hi => List.mem_range.1 hi
  have e : profileText n name c len = profileText n name' d len := by
    unfold profileText
    simp only [h1 _ _ hr, h2 _ _ _ hr, h n (Nat.le_refl n)]
  unfold profileOut
  rw [e, h3 _ fun i hi => by rw [List.mem_range] at hi; omega]

/-- No line of a chart is longer than the line length, if that leaves room for the least width. -/
theorem Row.length {col scale : Nat} {name : List Char} {n : Nat} {t : List Char} (r : Row col scale name n t) :
    t.length = col + n / scale + 1 := by
  obtain ⟨pad, -, h, rfl⟩ := r
  simp; omega

end Print

end Cal
