import Verif.MemArith

/-!
# The circular doubly linked lists of the block allocator
-/

namespace Cal.Mem

/-- The links from `x` through `l` to `y`, in both directions. -/
def Chain (m : Nat → Nat) : Nat → List Nat → Nat → Prop
  | x, [], y => m (x + oNext) = y ∧ m (y + oPrev) = x
  | x, z :: l, y => m (x + oNext) = z ∧ m (z + oPrev) = x ∧ Chain m z l y

/-- A list: the pointer to it is null or points to its first block. -/
def Ring (m : Nat → Nat) (h : Nat) : List Nat → Prop
  | [] => h = 0
  | a :: l => h = a ∧ a ≠ 0 ∧ Chain m a l a

theorem Chain.frame {m m' : Nat → Nat} : ∀ {l : List Nat} {x y : Nat}, Chain m x l y →
    (∀ z ∈ x :: l, m' (z + oNext) = m (z + oNext)) → (∀ z ∈ y :: l, m' (z + oPrev) = m (z + oPrev)) →
    Chain m' x l y := by
  intro l
  induction l with
  | nil =>
    rintro x y ⟨h1, h2⟩ e1 e2
    exact ⟨by rw [e1 x (by simp)]; exact h1, by rw [e2 y (by simp)]; exact h2⟩
  | cons z l ih =>
    rintro x y ⟨h1, h2, h3⟩ e1 e2
    refine ⟨by rw [e1 x (by simp)]; exact h1, by rw [e2 z (by simp)]; exact h2, ih h3 ?_ ?_⟩
    · intro w hw; exact e1 w (List.mem_cons_of_mem _ hw)
    · intro w hw
      apply e2
      simp only [List.mem_cons] at hw ⊢
      rcases hw with h | h
      · exact Or.inl h
      · exact Or.inr (Or.inr h)

theorem Chain.append {m : Nat → Nat} : ∀ {l₁ : List Nat} {l₂ : List Nat} {x b y : Nat},
    Chain m x (l₁ ++ b :: l₂) y ↔ Chain m x l₁ b ∧ Chain m b l₂ y := by
  intro l₁
  induction l₁ with
  | nil =>
    intro l₂ x b y
    exact ⟨fun h => ⟨⟨h.1, h.2.1⟩, h.2.2⟩, fun h => ⟨h.1.1, h.1.2, h.2⟩⟩
  | cons z l ih =>
    intro l₂ x b y
    constructor
    · rintro ⟨h1, h2, h3⟩
      exact ⟨⟨h1, h2, (ih.1 h3).1⟩, (ih.1 h3).2⟩
    · rintro ⟨⟨h1, h2, h3⟩, h4⟩
      exact ⟨h1, h2, ih.2 ⟨h3, h4⟩⟩

theorem Chain.prev_mem {m : Nat → Nat} : ∀ {l : List Nat} {x y : Nat}, Chain m x l y → m (y + oPrev) ∈ x :: l := by
  intro l
  induction l with
  | nil => rintro x y ⟨-, h⟩; rw [h]; simp
  | cons z l ih => rintro x y ⟨-, -, h⟩; exact List.mem_cons_of_mem _ (ih h)

theorem Chain.next_mem {m : Nat → Nat} : ∀ {l : List Nat} {x y : Nat}, Chain m x l y → m (x + oNext) ∈ l ++ [y] := by
  intro l x y h
  cases l with
  | nil => rw [h.1]; simp
  | cons z l => rw [h.1]; simp

/-- Headers do not overlap. -/
def Apart (P : List Nat) : Prop := ∀ x ∈ P, ∀ y ∈ P, x ≠ y → x + 40 ≤ y ∨ y + 40 ≤ x

theorem Apart.cell {P : List Nat} (h : Apart P) {x y i j : Nat} (hx : x ∈ P) (hy : y ∈ P) (hi : i < 40) (hj : j < 40)
    (hne : x ≠ y ∨ i ≠ j) : x + i ≠ y + j := by
  by_cases e : x = y
  · omega
  · have := h x hx y hy e; omega

/-- Turning the end of a chain to another block. -/
theorem Chain.redirect {m m' : Nat → Nat} : ∀ {l : List Nat} {x b y : Nat}, Chain m x l b → (x :: l).Nodup →
    b ∉ x :: l → y ∉ l → Apart (b :: y :: x :: l) →
    (∀ z, m' z = if z = m (b + oPrev) + oNext then y else if z = y + oPrev then m (b + oPrev) else m z) →
    Chain m' x l y := by
  intro l
  induction l with
  | nil =>
    rintro x b y ⟨h1, h2⟩ hn hb hy ap hm
    have hxy : y + oPrev ≠ x + oNext := ap.cell (by simp) (by simp) (by decide) (by decide) (Or.inr (by decide))
    refine ⟨by rw [hm, h2, if_pos rfl], ?_⟩
    rw [hm, h2, if_neg hxy, if_pos rfl]
  | cons z l ih =>
    rintro x b y ⟨h1, h2, h3⟩ hn hb hy ap hm
    have hp := h3.prev_mem
    have hxp : x ≠ m (b + oPrev) := by
      rintro e; rw [← e] at hp; exact (List.nodup_cons.1 hn).1 hp
    have hyz : y ≠ z := fun e => hy (by rw [e]; exact List.mem_cons_self)
    have mp : m (b + oPrev) ∈ b :: y :: x :: z :: l := by
      simp only [List.mem_cons] at hp ⊢; right; right; right; exact hp
    refine ⟨?_, ?_, ih h3 (List.nodup_cons.1 hn).2 (fun h => hb (List.mem_cons_of_mem _ h))
      (fun h => hy (List.mem_cons_of_mem _ h)) ?_ hm⟩
    · rw [hm, if_neg, if_neg, h1]
      · exact ap.cell (by simp) (by simp) (by decide) (by decide) (Or.inr (by decide))
      · exact ap.cell (by simp) mp (by decide) (by decide) (Or.inl hxp)
    · rw [hm, if_neg, if_neg, h2]
      · exact ap.cell (by simp) (by simp) (by decide) (by decide) (Or.inl (Ne.symm hyz))
      · exact ap.cell (by simp) mp (by decide) (by decide) (Or.inr (by decide))
    · intro u hu w hw
      apply ap u ?_ w ?_
      · simp only [List.mem_cons] at hu ⊢
        rcases hu with h | h | h | h <;> simp [h]
      · simp only [List.mem_cons] at hw ⊢
        rcases hw with h | h | h | h <;> simp [h]

/-- Taking a block out of the middle of a chain. -/
theorem Chain.remove {m m' : Nat → Nat} {l₁ l₂ : List Nat} {x b y : Nat} (h : Chain m x (l₁ ++ b :: l₂) y)
    (hn : (x :: (l₁ ++ b :: l₂)).Nodup) (hy : y ∉ l₁ ++ b :: l₂) (ap : Apart (y :: x :: (l₁ ++ b :: l₂)))
    (hm : ∀ z, m' z = if z = m (b + oPrev) + oNext then m (b + oNext)
      else if z = m (b + oNext) + oPrev then m (b + oPrev) else m z) :
    Chain m' x (l₁ ++ l₂) y := by
  obtain ⟨c1, c2⟩ := Chain.append.1 h
  have hn' : (x :: (l₁ ++ b :: l₂)).Nodup := hn
  rw [List.nodup_cons, List.nodup_append] at hn
  obtain ⟨hx, n1, n2, n3⟩ := hn
  have hb1 : b ∉ l₁ := fun h => n3 b h b List.mem_cons_self rfl
  have hxl : x ∉ l₁ := fun h => hx (List.mem_append_left _ h)
  have hxb : x ≠ b := fun e => hx (by rw [e]; simp)
  have sub : ∀ {P : List Nat}, (∀ z ∈ P, z ∈ y :: x :: (l₁ ++ b :: l₂)) → Apart P :=
    fun hs u hu w hw => ap u (hs u hu) w (hs w hw)
  have hp := c1.prev_mem
  cases l₂ with
  | nil =>
    rw [List.append_nil]
    have e : m (b + oNext) = y := c2.1
    rw [e] at hm
    refine c1.redirect (List.nodup_cons.2 ⟨hxl, n1⟩) ?_ (fun h => hy (by simp [h])) (sub ?_) hm
    · simp [Ne.symm hxb, hb1]
    · intro z hz; simp only [List.mem_cons, List.mem_append] at hz ⊢; grind
  | cons z l =>
    have e : m (b + oNext) = z := c2.1
    rw [e] at hm
    refine Chain.append.2 ⟨?_, ?_⟩
    · refine c1.redirect (List.nodup_cons.2 ⟨hxl, n1⟩) ?_ (fun h => n3 z h z (by simp) rfl) (sub ?_) hm
      · simp [Ne.symm hxb, hb1]
      · intro z hz; simp only [List.mem_cons, List.mem_append] at hz ⊢; grind
    · have hpm : m (b + oPrev) ∈ y :: x :: (l₁ ++ b :: z :: l) := by
        simp only [List.mem_cons, List.mem_append] at hp ⊢; grind
      have hzl : z ∉ l := (List.nodup_cons.1 (List.nodup_cons.1 n2).2).1
      have hzy : z ≠ y := fun e => hy (by rw [← e]; simp)
      refine c2.2.2.frame ?_ ?_
      · intro w hw
        have hwm : w ∈ y :: x :: (l₁ ++ b :: z :: l) := by
          simp only [List.mem_cons, List.mem_append] at hw ⊢; grind
        rw [hm, if_neg, if_neg]
        · exact ap.cell hwm (by simp) (by decide) (by decide) (Or.inr (by decide))
        · refine ap.cell hwm hpm (by decide) (by decide) (Or.inl ?_)
          rintro rfl
          simp only [List.mem_cons] at hp
          rcases hp with hp | hp
          · rw [hp] at hw; exact hx (List.mem_append_right _ (List.mem_cons_of_mem _ hw))
          · exact n3 _ hp _ (List.mem_cons_of_mem _ hw) rfl
      · intro w hw
        have hwm : w ∈ y :: x :: (l₁ ++ b :: z :: l) := by
          simp only [List.mem_cons, List.mem_append] at hw ⊢; grind
        rw [hm, if_neg, if_neg]
        · refine ap.cell hwm (by simp) (by decide) (by decide) (Or.inl ?_)
          rintro rfl
          rcases List.mem_cons.1 hw with h | h
          · exact hzy h
          · exact hzl h
        · exact ap.cell hwm hpm (by decide) (by decide) (Or.inr (by decide))

end Cal.Mem
