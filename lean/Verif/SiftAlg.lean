import Verif.Sift

/-!
# Window permutation and sifting end at the best arrangement they tried
-/

namespace Cal.Sift

/-- The list with the elements at `i` and `i + 1` exchanged. -/
def swapAt {α : Type} (i : Nat) (l : List α) : List α :=
  match l[i]?, l[i + 1]? with
  | some a, some b => (l.set i b).set (i + 1) a
  | _, _ => l

theorem swapAt_mid {α : Type} (A : List α) (a b : α) (D : List α) :
    swapAt A.length (A ++ a :: b :: D) = A ++ b :: a :: D := by
  unfold swapAt
  have h1 : (A ++ a :: b :: D)[A.length]? = some a := by simp
  have h2 : (A ++ a :: b :: D)[A.length + 1]? = some b := by
    rw [List.getElem?_append_right (by omega)]; simp
  rw [h1, h2]
  simp

theorem swapAt_mid' {α : Type} (A : List α) (c a b : α) (D : List α) :
    swapAt (A.length + 1) (A ++ c :: a :: b :: D) = A ++ c :: b :: a :: D := by
  have := swapAt_mid (A ++ [c]) a b D
  simpa using this

/-- The exchange is total on adjacent pairs and exchanges two neighbours of the arrangement; `Law`
adds that the size depends on the arrangement only. -/
structure LawX {π α : Type} (X : π → Int → Option π) (I : π → Prop) (arr : π → List α) : Prop where
  ex : ∀ p (i : Nat), I p → i + 1 < (arr p).length →
    ∃ q, X p i = some q ∧ I q ∧ arr q = swapAt i (arr p)

structure Law {π α : Type} (X : π → Int → Option π) (size : π → Int) (I : π → Prop) (arr : π → List α)
    (sz : List α → Int) : Prop extends LawX X I arr where
  size : ∀ p, I p → size p = sz (arr p)

variable {π α : Type} {X : π → Int → Option π} {size : π → Int} {I : π → Prop} {arr : π → List α}
  {sz : List α → Int}

theorem Law.ex_mid (h : Law X size I arr sz) {p : π} (hp : I p) {A D : List α} {a b : α}
    (e : arr p = A ++ a :: b :: D) :
    ∃ q, X p (A.length : Int) = some q ∧ I q ∧ arr q = A ++ b :: a :: D := by
  obtain ⟨q, e1, e2, e3⟩ := h.ex p A.length hp (by rw [e]; simp)
  exact ⟨q, e1, e2, by rw [e3, e, swapAt_mid]⟩

theorem Law.ex_mid' (h : Law X size I arr sz) {p : π} (hp : I p) {A D : List α} {a b c : α}
    (e : arr p = A ++ c :: a :: b :: D) :
    ∃ q, X p ((A.length : Int) + 1) = some q ∧ I q ∧ arr q = A ++ c :: b :: a :: D := by
  obtain ⟨q, e1, e2, e3⟩ := h.ex p (A.length + 1) hp (by rw [e]; simp; omega)
  exact ⟨q, e1, e2, by rw [e3, e, swapAt_mid']⟩

theorem window2_spec (h : Law X size I arr sz) {p : π} (hp : I p) {A D : List α} {a b : α}
    (e : arr p = A ++ a :: b :: D) :
    ∃ q m, window2 X size p A.length = some (q, m) ∧ I q ∧
      arr q ∈ [A ++ a :: b :: D, A ++ b :: a :: D] ∧
      (∀ l ∈ [A ++ a :: b :: D, A ++ b :: a :: D], sz (arr q) ≤ sz l) ∧
      (m = true ↔ sz (arr q) < sz (arr p)) := by
  obtain ⟨q, e1, iq, e2⟩ := h.ex_mid hp e
  obtain ⟨r, e3, ir, e4⟩ := h.ex_mid iq e2
  have s1 := h.size p hp
  have s2 := h.size q iq
  unfold window2
  rw [e1]
  simp only
  by_cases c : size q < size p
  · rw [if_pos c]
    refine ⟨q, true, rfl, iq, by simp [e2], ?_, ?_⟩
    · intro l hl
      simp only [List.mem_cons, List.not_mem_nil, or_false] at hl
      rcases hl with rfl | rfl
      · rw [← e, ← s1, ← s2]; omega
      · rw [e2]; exact Int.le_refl _
    · rw [← s1, ← s2]; simp [c]
  · rw [if_neg c, e3]
    refine ⟨r, false, rfl, ir, by simp [e4], ?_, ?_⟩
    · intro l hl
      simp only [List.mem_cons, List.not_mem_nil, or_false] at hl
      rcases hl with rfl | rfl
      · rw [e4]; exact Int.le_refl _
      · rw [e4, ← e, ← e2, ← s1, ← s2]; omega
    · rw [e4, e]; simp

/-- The six arrangements of three neighbours. -/
def six (A : List α) (a b c : α) (D : List α) : List (List α) :=
  [A ++ a :: b :: c :: D, A ++ b :: a :: c :: D, A ++ b :: c :: a :: D, A ++ c :: b :: a :: D,
   A ++ c :: a :: b :: D, A ++ a :: c :: b :: D]

theorem window3_spec (h : Law X size I arr sz) {p : π} (hp : I p) {A D : List α} {a b c : α}
    (e : arr p = A ++ a :: b :: c :: D) :
    ∃ q m, window3 X size p A.length = some (q, m) ∧ I q ∧ arr q ∈ six A a b c D ∧
      (∀ l ∈ six A a b c D, sz (arr q) ≤ sz l) ∧ (m = true ↔ sz (arr q) < sz (arr p)) := by
  obtain ⟨p1, x1, i1, e1⟩ := h.ex_mid hp e
  obtain ⟨p2, x2, i2, e2⟩ := h.ex_mid' i1 e1
  obtain ⟨p3, x3, i3, e3⟩ := h.ex_mid i2 e2
  obtain ⟨p4, x4, i4, e4⟩ := h.ex_mid' i3 e3
  obtain ⟨p5, x5, i5, e5⟩ := h.ex_mid i4 e4
  -- the ways back
  obtain ⟨q0, y0, j0, f0⟩ := h.ex_mid' i5 e5
  obtain ⟨q1, y1, j1, f1⟩ := h.ex_mid j0 f0
  obtain ⟨q2, y2, j2, f2⟩ := h.ex_mid' j1 f1
  obtain ⟨q4, y4, j4, f4⟩ := h.ex_mid i5 e5
  obtain ⟨q3, y3, j3, f3⟩ := h.ex_mid' j4 f4
  have s0 := h.size p hp
  have s1 := h.size p1 i1
  have s2 := h.size p2 i2
  have s3 := h.size p3 i3
  have s4 := h.size p4 i4
  have s5 := h.size p5 i5
  rw [e] at s0
  rw [e1] at s1
  rw [e2] at s2
  rw [e3] at s3
  rw [e4] at s4
  rw [e5] at s5
  have fin : ∀ (best : Nat) (bs : Int), (best ≤ 5) → 
      (∀ l ∈ six A a b c D, bs ≤ sz l) →
      bs = sz ((six A a b c D)[best]?.getD []) →
      ∃ q m, (match runX X p5 (match best with
                 | 0 => [(A.length : Int) + 1]
                 | 1 => [(A.length : Int) + 1, A.length]
                 | 2 => [(A.length : Int) + 1, A.length, A.length + 1]
                 | 3 => [(A.length : Int), A.length + 1]
                 | 4 => [(A.length : Int)]
                 | _ => []) with
            | none => none
            | some q => some (q, decide (best > 0) && decide (size p > bs))) = some (q, m) ∧
        I q ∧ arr q ∈ six A a b c D ∧
        (∀ l ∈ six A a b c D, sz (arr q) ≤ sz l) ∧ (m = true ↔ sz (arr q) < sz (arr p)) := by
    intro best bs hb hmin hbs
    have key : ∀ (q : π), I q → (six A a b c D)[best]? = some (arr q) →
        I q ∧ arr q ∈ six A a b c D ∧ (∀ l ∈ six A a b c D, sz (arr q) ≤ sz l) ∧
          ((decide (best > 0) && decide (size p > bs)) = true ↔ sz (arr q) < sz (arr p)) := by
      intro q iq hq
      rw [hq] at hbs
      simp only [Option.getD_some] at hbs
      refine ⟨iq, List.mem_of_getElem? hq, by rw [← hbs]; exact hmin, ?_⟩
      rw [h.size p hp, hbs]
      simp only [Bool.and_eq_true, decide_eq_true_eq, gt_iff_lt]
      constructor
      · intro h; exact h.2
      · intro h
        refine ⟨?_, h⟩
        rcases Nat.eq_zero_or_pos best with e0 | e0
        · subst e0
          simp only [six, List.getElem?_cons_zero, Option.some.injEq] at hq
          rw [← hq, e] at h
          omega
        · exact e0
    match best, hb with
    | 0, _ => 
      refine ⟨q0, _, by simp only [runX, List.foldlM, y0]; rfl, key q0 j0 (by simp [six, f0])⟩
    | 1, _ => 
      refine ⟨q1, _, by simp only [runX, List.foldlM, y0]; simp [y1], key q1 j1 (by simp [six, f1])⟩
    | 2, _ => 
      refine ⟨q2, _, by simp only [runX, List.foldlM, y0]; simp [y1, y2], key q2 j2 (by simp [six, f2])⟩
    | 3, _ => 
      refine ⟨q3, _, by simp only [runX, List.foldlM, y4]; simp [y3], key q3 j3 (by simp [six, f3])⟩
    | 4, _ => 
      refine ⟨q4, _, by simp only [runX, List.foldlM, y4]; rfl, key q4 j4 (by simp [six, f4])⟩
    | 5, _ => 
      refine ⟨p5, _, by simp only [runX, List.foldlM]; rfl, key p5 i5 (by simp [six, e5])⟩
  unfold window3
  rw [x1]
  simp only
  rw [x2]
  simp only
  rw [x3]
  simp only
  rw [x4]
  simp only
  rw [x5]
  simp only
  generalize hv : (if size p5 ≤ _ then _ else _ : Nat × Int) = v
  obtain ⟨best, bs⟩ := v
  simp only
  have hall : best ≤ 5 ∧ (∀ l ∈ six A a b c D, bs ≤ sz l) ∧ bs = sz ((six A a b c D)[best]?.getD []) := by
    rw [s0, s1, s2, s3, s4, s5] at hv
    have hl : ∀ l ∈ six A a b c D, l = A ++ a :: b :: c :: D ∨ l = A ++ b :: a :: c :: D ∨
        l = A ++ b :: c :: a :: D ∨ l = A ++ c :: b :: a :: D ∨ l = A ++ c :: a :: b :: D ∨
        l = A ++ a :: c :: b :: D := by
      intro l hl; simpa [six] using hl
    generalize z0 : sz (A ++ a :: b :: c :: D) = v0 at *
    generalize z1 : sz (A ++ b :: a :: c :: D) = v1 at *
    generalize z2 : sz (A ++ b :: c :: a :: D) = v2 at *
    generalize z3 : sz (A ++ c :: b :: a :: D) = v3 at *
    generalize z4 : sz (A ++ c :: a :: b :: D) = v4 at *
    generalize z5 : sz (A ++ a :: c :: b :: D) = v5 at *
    have hmin : bs ≤ v0 ∧ bs ≤ v1 ∧ bs ≤ v2 ∧ bs ≤ v3 ∧ bs ≤ v4 ∧ bs ≤ v5 ∧
        ((best = 0 ∧ bs = v0) ∨ (best = 1 ∧ bs = v1) ∨ (best = 2 ∧ bs = v2) ∨ (best = 3 ∧ bs = v3) ∨
         (best = 4 ∧ bs = v4) ∨ (best = 5 ∧ bs = v5)) := by
      repeat' split at hv
      all_goals (simp only [Prod.mk.injEq] at hv; omega)
    obtain ⟨m0, m1, m2, m3, m4, m5, hw⟩ := hmin
    refine ⟨by omega, ?_, ?_⟩
    · intro l hl'
      rcases hl l hl' with h | h | h | h | h | h <;> subst h <;> omega
    · rcases hw with ⟨h, h'⟩ | ⟨h, h'⟩ | ⟨h, h'⟩ | ⟨h, h'⟩ | ⟨h, h'⟩ | ⟨h, h'⟩ <;> subst h <;>
        simp [six, *]
  exact fin best bs hall.1 hall.2.1 hall.2.2

theorem six_perm {A D : List α} {a b c : α} {l : List α} (hl : l ∈ six A a b c D) :
    l.Perm (A ++ a :: b :: c :: D) := by
  simp only [six, List.mem_cons, List.not_mem_nil, or_false] at hl
  rcases hl with rfl | rfl | rfl | rfl | rfl | rfl
  · exact List.Perm.refl _
  · exact List.Perm.append_left _ (List.Perm.swap _ _ _)
  · refine List.Perm.append_left _ ?_
    exact (List.Perm.cons _ (List.Perm.swap _ _ _)).trans (List.Perm.swap _ _ _)
  · refine List.Perm.append_left _ ?_
    exact (List.Perm.swap _ _ _).trans ((List.Perm.cons _ (List.Perm.swap _ _ _)).trans (List.Perm.swap _ _ _))
  · refine List.Perm.append_left _ ?_
    exact (List.Perm.swap _ _ _).trans (List.Perm.cons _ (List.Perm.swap _ _ _))
  · exact List.Perm.append_left _ (List.Perm.cons _ (List.Perm.swap _ _ _))

theorem split2 {l : List α} {i : Nat} (h : i + 1 < l.length) :
    ∃ A a b D, l = A ++ a :: b :: D ∧ A.length = i := by
  refine ⟨l.take i, l[i], l[i + 1], l.drop (i + 2), ?_, by simp; omega⟩
  rw [← List.drop_eq_getElem_cons (by omega), ← List.drop_eq_getElem_cons (by omega), List.take_append_drop]

theorem split3 {l : List α} {i : Nat} (h : i + 2 < l.length) :
    ∃ A a b c D, l = A ++ a :: b :: c :: D ∧ A.length = i := by
  refine ⟨l.take i, l[i], l[i + 1], l[i + 2], l.drop (i + 3), ?_, by simp; omega⟩
  rw [← List.drop_eq_getElem_cons (by omega), ← List.drop_eq_getElem_cons (by omega),
    ← List.drop_eq_getElem_cons (by omega), List.take_append_drop]

theorem setLevels_some {numVars : Nat} {b : Bool} : ∀ (ks : List Int) (levels : Int → Bool),
    (∀ k ∈ ks, 0 ≤ k ∧ k < numVars) →
    ∃ l, ks.foldlM (fun l k => setLevel numVars l k b) levels = some l
  | [], levels, _ => ⟨levels, rfl⟩
  | k :: ks, levels, h => by
    obtain ⟨l, e⟩ := setLevels_some (b := b) ks (fun x => if x = k then b else levels x)
      (fun x hx => h x (by simp [hx]))
    refine ⟨l, ?_⟩
    rw [List.foldlM]
    have := h k (by simp)
    simp only [setLevel, this, and_self, if_true]
    exact e

theorem raise_some {numVars n i : Nat} (hi : i + 1 < n) (hn : n ≤ numVars) (levels : Int → Bool) :
    ∃ l, raise numVars n i levels = some l := by
  unfold raise
  apply setLevels_some
  intro k hk
  simp only [List.mem_append, List.mem_cons, List.not_mem_nil, or_false] at hk
  rcases hk with (hk | hk) | hk
  · split at hk
    · simp only [List.mem_cons] at hk
      rcases hk with rfl | hk
      · omega
      · split at hk
        · simp only [List.mem_cons, List.not_mem_nil, or_false] at hk; omega
        · simp at hk
    · simp at hk
  · rcases hk with rfl | rfl <;> omega
  · split at hk
    · simp only [List.mem_cons] at hk
      rcases hk with rfl | hk
      · omega
      · split at hk
        · simp only [List.mem_cons] at hk
          rcases hk with rfl | hk
          · omega
          · split at hk
            · simp only [List.mem_cons, List.not_mem_nil, or_false] at hk; omega
            · simp at hk
        · simp at hk
    · simp at hk

/-- One window at position `i`. -/
theorem window_spec (h : Law X size I arr sz) {p : π} (hp : I p) {i : Nat} (hi : i + 1 < (arr p).length) :
    ∃ q m, (if (i : Int) < ((arr p).length : Int) - 2 then window3 X size p i else window2 X size p i) =
        some (q, m) ∧ I q ∧ (arr q).Perm (arr p) ∧ sz (arr q) ≤ sz (arr p) ∧
        (m = true ↔ sz (arr q) < sz (arr p)) := by
  by_cases c : (i : Int) < ((arr p).length : Int) - 2
  · rw [if_pos c]
    obtain ⟨A, x, y, z, D, e, hA⟩ := split3 (l := arr p) (i := i) (by omega)
    obtain ⟨q, m, e1, iq, e2, e3, e4⟩ := window3_spec h hp e
    rw [hA] at e1
    exact ⟨q, m, e1, iq, by rw [e]; exact six_perm e2, e3 _ (by rw [e]; simp [six]), e4⟩
  · rw [if_neg c]
    obtain ⟨A, x, y, D, e, hA⟩ := split2 hi
    obtain ⟨q, m, e1, iq, e2, e3, e4⟩ := window2_spec h hp e
    rw [hA] at e1
    refine ⟨q, m, e1, iq, ?_, e3 _ (by rw [e]; simp), e4⟩
    rw [e]
    simp only [List.mem_cons, List.not_mem_nil, or_false] at e2
    rcases e2 with e2 | e2 <;> rw [e2]
    exact List.Perm.append_left _ (List.Perm.swap _ _ _)

theorem windowStep_spec (h : Law X size I arr sz) {p : π} (hp : I p) {i : Nat} (hi : i + 1 < (arr p).length)
    {numVars : Nat} (hn : (arr p).length ≤ numVars) (levels : Int → Bool) (any : Bool) :
    ∃ q l m, windowStep X size numVars (arr p).length (p, levels, any) i = some (q, l, m) ∧ I q ∧
      (arr q).Perm (arr p) ∧ sz (arr q) ≤ sz (arr p) ∧
      (m = true → any = true ∨ sz (arr q) < sz (arr p)) := by
  unfold windowStep
  simp only
  by_cases c : levels i = true
  · rw [if_pos c]
    obtain ⟨q, m, e1, iq, e2, e3, e4⟩ := window_spec h hp hi
    rw [e1]
    cases m with
    | true =>
      obtain ⟨l, el⟩ := raise_some (numVars := numVars) hi hn levels
      simp only [el]
      exact ⟨q, l, true, rfl, iq, e2, e3, fun _ => .inr (e4.1 rfl)⟩
    | false =>
      have : setLevel numVars levels i false = some (fun k => if k = (i : Int) then false else levels k) := by
        unfold setLevel; rw [if_pos (by omega)]
      simp only [this]
      exact ⟨q, _, any, rfl, iq, e2, e3, fun h => .inl h⟩
  · rw [if_neg c]
    exact ⟨p, levels, any, rfl, hp, List.Perm.refl _, Int.le_refl _, fun h => .inl h⟩

theorem windowFold_spec (h : Law X size I arr sz) {numVars n : Nat} (hn : n ≤ numVars) :
    ∀ (is : List Nat) (p : π) (levels : Int → Bool) (any : Bool), I p → (arr p).length = n →
      (∀ i ∈ is, i + 1 < n) →
      ∃ q l m, is.foldlM (fun a (i : Nat) => windowStep X size numVars n a i) (p, levels, any) = some (q, l, m) ∧
        I q ∧ (arr q).Perm (arr p) ∧ sz (arr q) ≤ sz (arr p) ∧
        (m = true → any = true ∨ sz (arr q) < sz (arr p))
  | [], p, levels, any, hp, _, _ =>
    ⟨p, levels, any, rfl, hp, List.Perm.refl _, Int.le_refl _, fun h => .inl h⟩
  | i :: is, p, levels, any, hp, hl, hi => by
    subst hl
    obtain ⟨q, l, m, e1, iq, e2, e3, e4⟩ := windowStep_spec h hp (hi i (by simp)) hn levels any
    obtain ⟨r, l', m', f1, ir, f2, f3, f4⟩ := windowFold_spec h hn is q l m iq e2.length_eq
      (fun k hk => hi k (by simp [hk]))
    refine ⟨r, l', m', ?_, ir, f2.trans e2, by omega, ?_⟩
    · rw [List.foldlM, e1]; exact f1
    · intro hm
      rcases f4 hm with h | h
      · rcases e4 h with h | h
        · exact .inl h
        · exact .inr (by omega)
      · exact .inr (by omega)

/-- The window loop ends: it needs no more passes than there are nodes, and the size never grows. -/
theorem windowLoop_spec (h : Law X size I arr sz) {numVars n : Nat} (hn : n ≤ numVars)
    (h0 : ∀ p, I p → 0 ≤ sz (arr p)) :
    ∀ (fuel : Nat) (p : π) (levels : Int → Bool), I p → (arr p).length = n → sz (arr p) < fuel →
      ∃ q l, windowLoop X size numVars n fuel p levels = some (q, l) ∧ I q ∧ (arr q).Perm (arr p) ∧
        sz (arr q) ≤ sz (arr p)
  | 0, p, levels, hp, _, hf => by have := h0 p hp; omega
  | fuel + 1, p, levels, hp, hl, hf => by
    obtain ⟨q, l, m, e1, iq, e2, e3, e4⟩ := windowFold_spec h hn (List.range (n - 1)) p levels false hp hl
      (fun i hi => by have := List.mem_range.1 hi; omega)
    have e1' : windowPass X size numVars n p levels = some (q, l, m) := by
      unfold windowPass
      rw [show ((n : Int) - 1).toNat = n - 1 by omega]
      exact e1
    rw [windowLoop, e1']
    cases m with
    | false => exact ⟨q, l, rfl, iq, e2, e3⟩
    | true =>
      have := e4 rfl
      simp only [Bool.false_eq_true, false_or] at this
      obtain ⟨r, l', f1, ir, f2, f3⟩ := windowLoop_spec h hn h0 fuel q l iq (by rw [e2.length_eq, hl])
        (by omega)
      exact ⟨r, l', f1, ir, f2.trans e2, by omega⟩

/-! ### Sifting one block -/

/-- The list `R` with `x` at position `k`. -/
def put (x : α) (R : List α) (k : Nat) : List α := R.take k ++ x :: R.drop k

theorem put_length (x : α) (R : List α) {k : Nat} (h : k ≤ R.length) : (put x R k).length = R.length + 1 := by
  simp [put]; omega

theorem put_perm (x : α) (R : List α) (k : Nat) : (put x R k).Perm (x :: R) := by
  unfold put
  refine List.perm_middle.trans ?_
  rw [List.take_append_drop]

theorem put_swap (x : α) {R : List α} {k : Nat} (h : k < R.length) :
    swapAt k (put x R k) = put x R (k + 1) ∧ swapAt k (put x R (k + 1)) = put x R k := by
  have e1 : put x R k = R.take k ++ x :: R[k] :: R.drop (k + 1) := by
    unfold put; rw [← List.drop_eq_getElem_cons h]
  have e2 : put x R (k + 1) = R.take k ++ R[k] :: x :: R.drop (k + 1) := by
    unfold put; rw [List.take_succ_eq_append_getElem h, List.append_assoc]; rfl
  have hl : (R.take k).length = k := by simp; omega
  constructor
  · rw [e1, e2]
    have := swapAt_mid (R.take k) x R[k] (R.drop (k + 1))
    rwa [hl] at this
  · rw [e1, e2]
    have := swapAt_mid (R.take k) R[k] x (R.drop (k + 1))
    rwa [hl] at this

theorem LawX.move_down (h : LawX X I arr) {x : α} {R : List α} {p : π} (hp : I p) {k : Nat}
    (hk : k < R.length) (e : arr p = put x R k) :
    ∃ q, X p k = some q ∧ I q ∧ arr q = put x R (k + 1) := by
  obtain ⟨q, e1, e2, e3⟩ := h.ex p k hp (by rw [e, put_length _ _ (by omega)]; omega)
  exact ⟨q, e1, e2, by rw [e3, e, (put_swap x hk).1]⟩

theorem LawX.move_up (h : LawX X I arr) {x : α} {R : List α} {p : π} (hp : I p) {k : Nat}
    (hk : k < R.length) (e : arr p = put x R (k + 1)) :
    ∃ q, X p k = some q ∧ I q ∧ arr q = put x R k := by
  obtain ⟨q, e1, e2, e3⟩ := h.ex p k hp (by rw [e, put_length _ _ (by omega)]; omega)
  exact ⟨q, e1, e2, by rw [e3, e, (put_swap x hk).2]⟩

theorem down_spec (h : Law X size I arr sz) (x : α) (R : List α) (maxSize : Int) (strict : Bool) :
    ∀ (fuel : Nat) (p : π) (cur : Nat) (best : Nat) (bs : Int), I p → arr p = put x R cur → cur ≤ R.length →
      R.length < fuel + cur →
      ∃ (q : π) (cur' best' : Nat) (bs' : Int),
        down X size (R.length + 1 : Nat) maxSize strict fuel ⟨p, cur, sz (put x R cur), best, bs⟩ =
          some ⟨q, cur', sz (put x R cur'), best', bs'⟩ ∧
        I q ∧ arr q = put x R cur' ∧ cur ≤ cur' ∧ cur' ≤ R.length ∧
        (∀ k, cur ≤ k → k < cur' → sz (put x R k) ≤ maxSize) ∧
        (cur' = R.length ∨ maxSize < sz (put x R cur')) ∧
        bs' ≤ bs ∧ (∀ k, cur < k → k ≤ cur' → bs' ≤ sz (put x R k)) ∧
        ((best' = best ∧ bs' = bs) ∨ (cur < best' ∧ best' ≤ cur' ∧ bs' = sz (put x R best')))
  | 0, p, cur, best, bs, hp, e, hc, hf => by omega
  | fuel + 1, p, cur, best, bs, hp, e, hc, hf => by
    unfold down
    simp only
    by_cases c : (cur : Int) < ((R.length + 1 : Nat) : Int) - 1 ∧ sz (put x R cur) ≤ maxSize
    · rw [if_pos c]
      obtain ⟨q, e1, iq, e2⟩ := h.move_down hp (by omega : cur < R.length) e
      rw [e1]
      simp only
      have hs := h.size q iq
      rw [e2] at hs
      rw [hs]
      have hcast : (cur : Int) + 1 = ((cur + 1 : Nat) : Int) := by omega
      by_cases cb : (if strict = true then sz (put x R (cur + 1)) < bs else sz (put x R (cur + 1)) ≤ bs)
      · rw [if_pos cb, hcast]
        obtain ⟨r, cur', best', bs', f1, ir, f2, f3, f4, f5, f6, f7, f8, f9⟩ :=
          down_spec h x R maxSize strict fuel q (cur + 1) (cur + 1) (sz (put x R (cur + 1))) iq e2 (by omega) (by omega)
        have hle : sz (put x R (cur + 1)) ≤ bs := by
          split at cb <;> omega
        refine ⟨r, cur', best', bs', f1, ir, f2, by omega, f4, ?_, f6, by omega, ?_, ?_⟩
        · intro k h1 h2
          by_cases ck : k = cur
          · rw [ck]; exact c.2
          · exact f5 k (by omega) h2
        · intro k h1 h2
          by_cases ck : k = cur + 1
          · rw [ck]; exact f7
          · exact f8 k (by omega) h2
        · right
          rcases f9 with ⟨g1, g2⟩ | ⟨g1, g2, g3⟩
          · exact ⟨by omega, by omega, by rw [g1]; exact g2⟩
          · exact ⟨by omega, g2, g3⟩
      · rw [if_neg cb, hcast]
        obtain ⟨r, cur', best', bs', f1, ir, f2, f3, f4, f5, f6, f7, f8, f9⟩ :=
          down_spec h x R maxSize strict fuel q (cur + 1) best bs iq e2 (by omega) (by omega)
        have hle : bs ≤ sz (put x R (cur + 1)) := by
          split at cb <;> omega
        refine ⟨r, cur', best', bs', f1, ir, f2, by omega, f4, ?_, f6, f7, ?_, ?_⟩
        · intro k h1 h2
          by_cases ck : k = cur
          · rw [ck]; exact c.2
          · exact f5 k (by omega) h2
        · intro k h1 h2
          by_cases ck : k = cur + 1
          · rw [ck]; omega
          · exact f8 k (by omega) h2
        · rcases f9 with g | ⟨g1, g2, g3⟩
          · exact .inl g
          · exact .inr ⟨by omega, g2, g3⟩
    · rw [if_neg c]
      refine ⟨p, cur, best, bs, rfl, hp, e, Nat.le_refl _, hc, fun k h1 h2 => by omega, ?_, Int.le_refl _,
        fun k h1 h2 => by omega, .inl ⟨rfl, rfl⟩⟩
      by_cases c1 : cur = R.length
      · exact .inl c1
      · right
        by_cases c2 : sz (put x R cur) ≤ maxSize
        · exact absurd ⟨by omega, c2⟩ c
        · omega

theorem up_spec (h : Law X size I arr sz) (x : α) (R : List α) (maxSize : Int) (strict : Bool) :
    ∀ (fuel : Nat) (p : π) (cur : Nat) (best : Nat) (bs : Int), I p → arr p = put x R cur → cur ≤ R.length →
      cur < fuel →
      ∃ (q : π) (cur' best' : Nat) (bs' : Int),
        up X size maxSize strict fuel ⟨p, cur, sz (put x R cur), best, bs⟩ =
          some ⟨q, cur', sz (put x R cur'), best', bs'⟩ ∧
        I q ∧ arr q = put x R cur' ∧ cur' ≤ cur ∧
        (∀ k, cur' < k → k ≤ cur → sz (put x R k) ≤ maxSize) ∧
        (cur' = 0 ∨ maxSize < sz (put x R cur')) ∧
        bs' ≤ bs ∧ (∀ k, cur' ≤ k → k < cur → bs' ≤ sz (put x R k)) ∧
        ((best' = best ∧ bs' = bs) ∨ (cur' ≤ best' ∧ best' < cur ∧ bs' = sz (put x R best')))
  | 0, p, cur, best, bs, hp, e, hc, hf => by omega
  | fuel + 1, p, cur, best, bs, hp, e, hc, hf => by
    unfold up
    simp only
    by_cases c : (cur : Int) ≠ 0 ∧ sz (put x R cur) ≤ maxSize
    · rw [if_pos c]
      obtain ⟨c', rfl⟩ : ∃ c', cur = c' + 1 := ⟨cur - 1, by omega⟩
      obtain ⟨q, e1, iq, e2⟩ := h.move_up hp (by omega : c' < R.length) e
      have hcast : ((c' + 1 : Nat) : Int) - 1 = (c' : Int) := by omega
      rw [hcast, e1]
      simp only
      have hs := h.size q iq
      rw [e2] at hs
      rw [hs]
      by_cases cb : (if strict = true then sz (put x R c') < bs else sz (put x R c') ≤ bs)
      · rw [if_pos cb]
        obtain ⟨r, cur', best', bs', f1, ir, f2, f3, f5, f6, f7, f8, f9⟩ :=
          up_spec h x R maxSize strict fuel q c' c' (sz (put x R c')) iq e2 (by omega) (by omega)
        have hle : sz (put x R c') ≤ bs := by
          split at cb <;> omega
        refine ⟨r, cur', best', bs', f1, ir, f2, by omega, ?_, f6, by omega, ?_, ?_⟩
        · intro k h1 h2
          by_cases ck : k = c' + 1
          · rw [ck]; exact c.2
          · exact f5 k h1 (by omega)
        · intro k h1 h2
          by_cases ck : k = c'
          · rw [ck]; exact f7
          · exact f8 k h1 (by omega)
        · right
          rcases f9 with ⟨g1, g2⟩ | ⟨g1, g2, g3⟩
          · exact ⟨by omega, by omega, by rw [g1]; exact g2⟩
          · exact ⟨g1, by omega, g3⟩
      · rw [if_neg cb]
        obtain ⟨r, cur', best', bs', f1, ir, f2, f3, f5, f6, f7, f8, f9⟩ :=
          up_spec h x R maxSize strict fuel q c' best bs iq e2 (by omega) (by omega)
        have hle : bs ≤ sz (put x R c') := by
          split at cb <;> omega
        refine ⟨r, cur', best', bs', f1, ir, f2, by omega, ?_, f6, f7, ?_, ?_⟩
        · intro k h1 h2
          by_cases ck : k = c' + 1
          · rw [ck]; exact c.2
          · exact f5 k h1 (by omega)
        · intro k h1 h2
          by_cases ck : k = c'
          · rw [ck]; omega
          · exact f8 k h1 (by omega)
        · rcases f9 with g | ⟨g1, g2, g3⟩
          · exact .inl g
          · exact .inr ⟨g1, by omega, g3⟩
    · rw [if_neg c]
      refine ⟨p, cur, best, bs, rfl, hp, e, Nat.le_refl _, fun k h1 h2 => by omega, ?_, Int.le_refl _,
        fun k h1 h2 => by omega, .inl ⟨rfl, rfl⟩⟩
      by_cases c1 : cur = 0
      · exact .inl c1
      · right
        by_cases c2 : sz (put x R cur) ≤ maxSize
        · exact absurd ⟨by omega, c2⟩ c
        · omega

theorem backUp_spec (h : LawX X I arr) (x : α) (R : List α) :
    ∀ (fuel : Nat) (p : π) (cur to : Nat), I p → arr p = put x R cur → cur ≤ R.length → to ≤ cur →
      cur ≤ fuel + to →
      ∃ q, backUp X (to : Int) fuel p cur = some q ∧ I q ∧ arr q = put x R to
  | 0, p, cur, to, hp, e, hc, ht, hf => by
    have : cur = to := by omega
    subst this
    exact ⟨p, by simp [backUp], hp, e⟩
  | fuel + 1, p, cur, to, hp, e, hc, ht, hf => by
    unfold backUp
    by_cases c : cur = to
    · subst c
      rw [if_neg (by simp)]
      exact ⟨p, rfl, hp, e⟩
    · rw [if_pos (by omega)]
      obtain ⟨c', rfl⟩ : ∃ c', cur = c' + 1 := ⟨cur - 1, by omega⟩
      obtain ⟨q, e1, iq, e2⟩ := h.move_up hp (by omega : c' < R.length) e
      have hcast : ((c' + 1 : Nat) : Int) - 1 = (c' : Int) := by omega
      rw [hcast, e1]
      exact backUp_spec h x R fuel q c' to iq e2 (by omega) (by omega) (by omega)

theorem backDown_spec (h : LawX X I arr) (x : α) (R : List α) :
    ∀ (fuel : Nat) (p : π) (cur to : Nat), I p → arr p = put x R cur → to ≤ R.length → cur ≤ to →
      to ≤ fuel + cur →
      ∃ q, backDown X (to : Int) fuel p cur = some q ∧ I q ∧ arr q = put x R to
  | 0, p, cur, to, hp, e, hc, ht, hf => by
    have : cur = to := by omega
    subst this
    exact ⟨p, by simp [backDown], hp, e⟩
  | fuel + 1, p, cur, to, hp, e, hc, ht, hf => by
    unfold backDown
    by_cases c : cur = to
    · subst c
      rw [if_neg (by simp)]
      exact ⟨p, rfl, hp, e⟩
    · rw [if_pos (by omega)]
      obtain ⟨q, e1, iq, e2⟩ := h.move_down hp (by omega : cur < R.length) e
      have hcast : (cur : Int) + 1 = ((cur + 1 : Nat) : Int) := by omega
      rw [e1]
      simp only
      rw [hcast]
      exact backDown_spec h x R fuel q (cur + 1) to iq e2 hc (by omega) (by omega)

/-- The positions a block visits: from `start` in both directions, as long as the size at the
positions before is within the bound. -/
def Visited (f : Nat → Int) (maxSize : Int) (start k : Nat) : Prop :=
  (start ≤ k ∧ ∀ j, start ≤ j → j < k → f j ≤ maxSize) ∨ (k ≤ start ∧ ∀ j, k < j → j ≤ start → f j ≤ maxSize)

/-- A block is sifted to the best of the positions it visits. -/
theorem siftBlock_spec (h : Law X size I arr sz) {p : π} (hp : I p) (limit : Int → Int) {x : α} {R : List α}
    {start : Nat} (hs : start ≤ R.length) (e : arr p = put x R start) :
    ∃ q k, siftBlock X size (arr p).length limit p start = some q ∧ I q ∧ arr q = put x R k ∧ k ≤ R.length ∧
      Visited (fun j => sz (put x R j)) (limit (sz (arr p))) start k ∧
      (∀ j, j ≤ R.length → Visited (fun j => sz (put x R j)) (limit (sz (arr p))) start j →
        sz (put x R k) ≤ sz (put x R j)) := by
  have hn : ((arr p).length : Int) = ((R.length + 1 : Nat) : Int) := by rw [e, put_length _ _ hs]
  have hz := h.size p hp
  unfold siftBlock
  simp only
  rw [hn, hz]
  generalize hm : limit (sz (arr p)) = M
  rw [e]
  by_cases c : (start : Int) > ((R.length + 1 : Nat) : Int) / 2
  · rw [if_pos c]
    obtain ⟨a, c1, b1, s1, f1, ia, g1, g2, g3, g4, g5, g6, g7, g8⟩ :=
      down_spec h x R M true (((R.length + 1 : Nat) : Int).toNat + 1) p start start (sz (put x R start)) hp e hs
        (by omega)
    rw [f1]
    simp only
    obtain ⟨b, f2, ib, e2⟩ := backUp_spec h.toLawX x R (((R.length + 1 : Nat) : Int).toNat + 1) a c1 start ia g1 g3 g2
      (by omega)
    rw [f2]
    simp only
    obtain ⟨d, c2, b2, s2, f3, id, h1, h2, h4, h5, h6, h7, h8⟩ :=
      up_spec h x R M false (((R.length + 1 : Nat) : Int).toNat + 1) b start b1 s1 ib e2 hs (by omega)
    rw [f3]
    simp only
    have hb1 : start ≤ b1 ∧ b1 ≤ c1 ∧ s1 = sz (put x R b1) := by
      rcases g8 with ⟨g, g'⟩ | ⟨g, g', g''⟩
      · rw [g]; exact ⟨Nat.le_refl _, g2, g'⟩
      · exact ⟨by omega, g', g''⟩
    have hb2 : c2 ≤ b2 ∧ b2 ≤ c1 ∧ s2 = sz (put x R b2) := by
      rcases h8 with ⟨g, g'⟩ | ⟨g, g', g''⟩
      · rw [g, g']; exact ⟨by omega, hb1.2.1, hb1.2.2⟩
      · exact ⟨g, by omega, g''⟩
    obtain ⟨q, f4, iq, e4⟩ := backDown_spec h.toLawX x R (((R.length + 1 : Nat) : Int).toNat + 1) d c2 b2 id h1
      (by omega) hb2.1 (by omega)
    refine ⟨q, b2, f4, iq, e4, by omega, ?_, ?_⟩
    · by_cases cc : start ≤ b2
      · exact .inl ⟨cc, fun j j1 j2 => g4 j j1 (by omega)⟩
      · exact .inr ⟨by omega, fun j j1 j2 => h4 j (by omega) j2⟩
    · intro j hj hv
      rw [← hb2.2.2]
      have hstart : s2 ≤ sz (put x R start) := by omega
      rcases hv with ⟨v1, v2⟩ | ⟨v1, v2⟩
      · have hjc : j ≤ c1 := by
          rcases g5 with g5 | g5
          · omega
          · by_cases cc : j ≤ c1
            · exact cc
            · have := v2 c1 g2 (by omega); simp only at this; omega
        by_cases cc : start = j
        · rw [← cc]; exact hstart
        · have := g7 j (by omega) hjc; omega
      · have hjc : c2 ≤ j := by
          rcases h5 with g5 | g5
          · omega
          · by_cases cc : c2 ≤ j
            · exact cc
            · have := v2 c2 (by omega) h2; simp only at this; omega
        by_cases cc : start = j
        · rw [← cc]; exact hstart
        · exact h7 j hjc (by omega)
  · rw [if_neg c]
    obtain ⟨a, c1, b1, s1, f1, ia, g1, g2, g4, g5, g6, g7, g8⟩ :=
      up_spec h x R M true (((R.length + 1 : Nat) : Int).toNat + 1) p start start (sz (put x R start)) hp e hs
        (by omega)
    rw [f1]
    simp only
    obtain ⟨b, f2, ib, e2⟩ := backDown_spec h.toLawX x R (((R.length + 1 : Nat) : Int).toNat + 1) a c1 start ia g1 hs g2
      (by omega)
    rw [f2]
    simp only
    obtain ⟨d, c2, b2, s2, f3, id, h1, h2, h3, h4, h5, h6, h7, h8⟩ :=
      down_spec h x R M false (((R.length + 1 : Nat) : Int).toNat + 1) b start b1 s1 ib e2 hs (by omega)
    rw [f3]
    simp only
    have hb1 : c1 ≤ b1 ∧ b1 ≤ start ∧ s1 = sz (put x R b1) := by
      rcases g8 with ⟨g, g'⟩ | ⟨g, g', g''⟩
      · rw [g]; exact ⟨g2, Nat.le_refl _, g'⟩
      · exact ⟨g, by omega, g''⟩
    have hb2 : b2 ≤ c2 ∧ c1 ≤ b2 ∧ s2 = sz (put x R b2) := by
      rcases h8 with ⟨g, g'⟩ | ⟨g, g', g''⟩
      · rw [g, g']; exact ⟨by omega, hb1.1, hb1.2.2⟩
      · exact ⟨g', by omega, g''⟩
    obtain ⟨q, f4, iq, e4⟩ := backUp_spec h.toLawX x R (((R.length + 1 : Nat) : Int).toNat + 1) d c2 b2 id h1
      h3 hb2.1 (by omega)
    refine ⟨q, b2, f4, iq, e4, by omega, ?_, ?_⟩
    · by_cases cc : start ≤ b2
      · exact .inl ⟨cc, fun j j1 j2 => h4 j j1 (by omega)⟩
      · exact .inr ⟨by omega, fun j j1 j2 => g4 j (by omega) j2⟩
    · intro j hj hv
      rw [← hb2.2.2]
      have hstart : s2 ≤ sz (put x R start) := by omega
      rcases hv with ⟨v1, v2⟩ | ⟨v1, v2⟩
      · have hjc : j ≤ c2 := by
          rcases h5 with g5 | g5
          · omega
          · by_cases cc : j ≤ c2
            · exact cc
            · have := v2 c2 h2 (by omega); simp only at this; omega
        by_cases cc : start = j
        · rw [← cc]; exact hstart
        · exact h7 j (by omega) hjc
      · have hjc : c1 ≤ j := by
          rcases g5 with g5 | g5
          · omega
          · by_cases cc : c1 ≤ j
            · exact cc
            · have := v2 c1 (by omega) g2; simp only at this; omega
        by_cases cc : start = j
        · rw [← cc]; exact hstart
        · have := g7 j hjc (by omega); omega

/-! ### Without a law for the size -/

theorem down_total (h : LawX X I arr) (size : π → Int) (x : α) (R : List α) (maxSize : Int) (strict : Bool) :
    ∀ (fuel : Nat) (p : π) (cur : Nat) (cs : Int) (best : Nat) (bs : Int), I p → arr p = put x R cur →
      cur ≤ R.length →
      ∃ (q : π) (cur' : Nat) (cs' : Int) (best' : Nat) (bs' : Int),
        down X size (R.length + 1 : Nat) maxSize strict fuel ⟨p, cur, cs, best, bs⟩ =
          some ⟨q, cur', cs', best', bs'⟩ ∧
        I q ∧ arr q = put x R cur' ∧ cur ≤ cur' ∧ cur' ≤ R.length ∧
        (best' = best ∨ (cur < best' ∧ best' ≤ cur'))
  | 0, p, cur, cs, best, bs, hp, e, hc => ⟨p, cur, cs, best, bs, rfl, hp, e, Nat.le_refl _, hc, .inl rfl⟩
  | fuel + 1, p, cur, cs, best, bs, hp, e, hc => by
    unfold down
    simp only
    by_cases c : (cur : Int) < ((R.length + 1 : Nat) : Int) - 1 ∧ cs ≤ maxSize
    · rw [if_pos c]
      obtain ⟨q, e1, iq, e2⟩ := h.move_down hp (by omega : cur < R.length) e
      rw [e1]
      simp only
      have hcast : (cur : Int) + 1 = ((cur + 1 : Nat) : Int) := by omega
      rw [hcast]
      have one := fun b2 s2 => down_total h size x R maxSize strict fuel q (cur + 1) (size q) b2 s2 iq e2 (by omega)
      by_cases cb : (if strict = true then size q < bs else size q ≤ bs)
      · rw [if_pos cb]
        obtain ⟨r, c', cs', b', bs', f1, f2, f3, f4, f5, f6⟩ := one (cur + 1) (size q)
        exact ⟨r, c', cs', b', bs', f1, f2, f3, by omega, f5, by omega⟩
      · rw [if_neg cb]
        obtain ⟨r, c', cs', b', bs', f1, f2, f3, f4, f5, f6⟩ := one best bs
        exact ⟨r, c', cs', b', bs', f1, f2, f3, by omega, f5, by omega⟩
    · rw [if_neg c]
      exact ⟨p, cur, cs, best, bs, rfl, hp, e, Nat.le_refl _, hc, .inl rfl⟩

theorem up_total (h : LawX X I arr) (size : π → Int) (x : α) (R : List α) (maxSize : Int) (strict : Bool) :
    ∀ (fuel : Nat) (p : π) (cur : Nat) (cs : Int) (best : Nat) (bs : Int), I p → arr p = put x R cur →
      cur ≤ R.length →
      ∃ (q : π) (cur' : Nat) (cs' : Int) (best' : Nat) (bs' : Int),
        up X size maxSize strict fuel ⟨p, cur, cs, best, bs⟩ = some ⟨q, cur', cs', best', bs'⟩ ∧
        I q ∧ arr q = put x R cur' ∧ cur' ≤ cur ∧
        (best' = best ∨ (cur' ≤ best' ∧ best' < cur))
  | 0, p, cur, cs, best, bs, hp, e, hc => ⟨p, cur, cs, best, bs, rfl, hp, e, Nat.le_refl _, .inl rfl⟩
  | fuel + 1, p, cur, cs, best, bs, hp, e, hc => by
    unfold up
    simp only
    by_cases c : (cur : Int) ≠ 0 ∧ cs ≤ maxSize
    · rw [if_pos c]
      obtain ⟨c0, rfl⟩ : ∃ c', cur = c' + 1 := ⟨cur - 1, by omega⟩
      obtain ⟨q, e1, iq, e2⟩ := h.move_up hp (by omega : c0 < R.length) e
      have hcast : ((c0 + 1 : Nat) : Int) - 1 = (c0 : Int) := by omega
      rw [hcast, e1]
      simp only
      have one := fun b2 s2 => up_total h size x R maxSize strict fuel q c0 (size q) b2 s2 iq e2 (by omega)
      by_cases cb : (if strict = true then size q < bs else size q ≤ bs)
      · rw [if_pos cb]
        obtain ⟨r, c', cs', b', bs', f1, f2, f3, f4, f6⟩ := one c0 (size q)
        exact ⟨r, c', cs', b', bs', f1, f2, f3, by omega, by omega⟩
      · rw [if_neg cb]
        obtain ⟨r, c', cs', b', bs', f1, f2, f3, f4, f6⟩ := one best bs
        exact ⟨r, c', cs', b', bs', f1, f2, f3, by omega, by omega⟩
    · rw [if_neg c]
      exact ⟨p, cur, cs, best, bs, rfl, hp, e, Nat.le_refl _, .inl rfl⟩

/-- Sifting a block never fails and only moves this block, whatever the sizes are. -/
theorem siftBlock_total (h : LawX X I arr) (size : π → Int) {p : π} (hp : I p) (limit : Int → Int) {x : α}
    {R : List α} {start : Nat} (hs : start ≤ R.length) (e : arr p = put x R start) :
    ∃ q k, siftBlock X size (arr p).length limit p start = some q ∧ I q ∧ arr q = put x R k ∧ k ≤ R.length := by
  have hn : ((arr p).length : Int) = ((R.length + 1 : Nat) : Int) := by rw [e, put_length _ _ hs]
  unfold siftBlock
  simp only
  rw [hn]
  generalize hm : limit (size p) = M
  by_cases c : (start : Int) > ((R.length + 1 : Nat) : Int) / 2
  · rw [if_pos c]
    obtain ⟨a, c1, s1, b1, t1, f1, ia, g1, g2, g3, g8⟩ :=
      down_total h size x R M true (((R.length + 1 : Nat) : Int).toNat + 1) p start (size p) start (size p) hp e hs
    rw [f1]
    simp only
    obtain ⟨b, f2, ib, e2⟩ := backUp_spec h x R (((R.length + 1 : Nat) : Int).toNat + 1) a c1 start ia g1 g3 g2
      (by omega)
    rw [f2]
    simp only
    obtain ⟨d, c2, s2, b2, t2, f3, id, h1, h2, h8⟩ :=
      up_total h size x R M false (((R.length + 1 : Nat) : Int).toNat + 1) b start (size p) b1 t1 ib e2 hs
    rw [f3]
    simp only
    obtain ⟨q, f4, iq, e4⟩ := backDown_spec h x R (((R.length + 1 : Nat) : Int).toNat + 1) d c2 b2 id h1
      (by omega) (by omega) (by omega)
    exact ⟨q, b2, f4, iq, e4, by omega⟩
  · rw [if_neg c]
    obtain ⟨a, c1, s1, b1, t1, f1, ia, g1, g2, g8⟩ :=
      up_total h size x R M true (((R.length + 1 : Nat) : Int).toNat + 1) p start (size p) start (size p) hp e hs
    rw [f1]
    simp only
    obtain ⟨b, f2, ib, e2⟩ := backDown_spec h x R (((R.length + 1 : Nat) : Int).toNat + 1) a c1 start ia g1 hs g2
      (by omega)
    rw [f2]
    simp only
    obtain ⟨d, c2, s2, b2, t2, f3, id, h1, h2, h3, h8⟩ :=
      down_total h size x R M false (((R.length + 1 : Nat) : Int).toNat + 1) b start (size p) b1 t1 ib e2 hs
    rw [f3]
    simp only
    obtain ⟨q, f4, iq, e4⟩ := backUp_spec h x R (((R.length + 1 : Nat) : Int).toNat + 1) d c2 b2 id h1
      h3 (by omega) (by omega)
    exact ⟨q, b2, f4, iq, e4, by omega⟩

/-! ### The statements in other words -/

theorem put_insert (x : α) (R : List α) {k : Nat} (h : k ≤ R.length) : put x R k = R.insertIdx k x := by
  induction R generalizing k with
  | nil =>
    have : k = 0 := by simpa using h
    subst this; rfl
  | cons a R ih =>
    cases k with
    | zero => rfl
    | succ k =>
      rw [List.insertIdx_succ_cons, ← ih (by simpa using h)]
      rfl

theorem Visited.congr {f g : Nat → Int} {m : Int} {start k N : Nat} (h : Visited f m start k) (hs : start ≤ N)
    (hk : k ≤ N) (e : ∀ j, j ≤ N → f j = g j) : Visited g m start k := by
  rcases h with ⟨h1, h2⟩ | ⟨h1, h2⟩
  · exact .inl ⟨h1, fun j a b => by rw [← e j (by omega)]; exact h2 j a b⟩
  · exact .inr ⟨h1, fun j a b => by rw [← e j (by omega)]; exact h2 j a b⟩

theorem perm3 {x y z a b c : α} : [x, y, z].Perm [a, b, c] ↔
    [x, y, z] ∈ [[a, b, c], [b, a, c], [b, c, a], [c, b, a], [c, a, b], [a, c, b]] := by
  constructor
  · intro h
    classical
    have hx : x ∈ [a, b, c] := h.subset (by simp)
    simp only [List.mem_cons, List.not_mem_nil, or_false] at hx
    have two : ∀ {p q r s : α}, [p, q].Perm [r, s] → (p = r ∧ q = s) ∨ (p = s ∧ q = r) := by
      intro p q r s h
      have hp : p ∈ [r, s] := h.subset (by simp)
      simp only [List.mem_cons, List.not_mem_nil, or_false] at hp
      rcases hp with rfl | rfl
      · have := (List.perm_cons p).1 h
        exact .inl ⟨rfl, by simpa using this⟩
      · have := (List.perm_cons p).1 (h.trans (List.Perm.swap _ _ _))
        exact .inr ⟨rfl, by simpa using this⟩
    rcases hx with rfl | rfl | rfl
    · rcases two ((List.perm_cons x).1 h) with ⟨rfl, rfl⟩ | ⟨rfl, rfl⟩ <;> simp
    · rcases two ((List.perm_cons x).1 (h.trans (List.Perm.swap _ _ _))) with ⟨rfl, rfl⟩ | ⟨rfl, rfl⟩ <;> simp
    · have h' := h.trans ((List.Perm.cons a (List.Perm.swap _ _ _)).trans (List.Perm.swap _ _ _))
      rcases two ((List.perm_cons x).1 h') with ⟨rfl, rfl⟩ | ⟨rfl, rfl⟩ <;> simp
  · intro h
    have := six_perm (A := []) (D := []) (a := a) (b := b) (c := c) (l := [x, y, z])
      (by simpa [six] using h)
    simpa using this

theorem six_iff {A D : List α} {a b c : α} {l : List α} :
    l ∈ six A a b c D ↔ ∃ x y z, [x, y, z].Perm [a, b, c] ∧ l = A ++ x :: y :: z :: D := by
  constructor
  · intro h
    simp only [six, List.mem_cons, List.not_mem_nil, or_false] at h
    rcases h with h | h | h | h | h | h <;> exact ⟨_, _, _, perm3.2 (by simp), h⟩
  · rintro ⟨x, y, z, hp, rfl⟩
    have := perm3.1 hp
    simp only [List.mem_cons, List.cons.injEq, and_true, List.not_mem_nil, or_false] at this
    rcases this with ⟨rfl, rfl, rfl⟩ | ⟨rfl, rfl, rfl⟩ | ⟨rfl, rfl, rfl⟩ | ⟨rfl, rfl, rfl⟩ | ⟨rfl, rfl, rfl⟩ |
      ⟨rfl, rfl, rfl⟩ <;> simp [six]

end Cal.Sift
