import Verif.MemModel

/-!
# Arithmetic for the block allocator
-/

namespace Cal.Mem

theorem xor_one (q : Nat) : q ^^^ 1 = if q % 2 = 0 then q + 1 else q - 1 := by
  have h1 : (q ^^^ 1) / 2 = q / 2 := by rw [Nat.xor_div_two]; simp
  have h2 : (q ^^^ 1) % 2 = 1 ↔ ¬ (q % 2 = 1 ↔ 1 % 2 = 1) := Nat.xor_mod_two_eq_one
  split <;> omega

theorem xor_pow (q k : Nat) : (2 ^ k * q) ^^^ 2 ^ k = 2 ^ k * (q ^^^ 1) := by
  have h := @Nat.shiftLeft_xor_distrib k q 1
  simp only [Nat.shiftLeft_eq] at h
  rw [Nat.mul_comm (2 ^ k) q, Nat.mul_comm (2 ^ k) (q ^^^ 1), h, Nat.one_mul]

/-- The buddy of a block whose offset is a multiple of twice its size is behind it, otherwise before it. -/
theorem xor_buddy {o k : Nat} (h : 2 ^ k ∣ o) :
    (2 ^ (k + 1) ∣ o ∧ o ^^^ 2 ^ k = o + 2 ^ k) ∨
    (2 ^ k ≤ o ∧ 2 ^ (k + 1) ∣ o - 2 ^ k ∧ o ^^^ 2 ^ k = o - 2 ^ k) := by
  obtain ⟨q, rfl⟩ := h
  rw [xor_pow, xor_one]
  have e : 2 ^ (k + 1) = 2 ^ k * 2 := Nat.pow_succ 2 k
  split
  · left
    refine ⟨?_, by rw [Nat.mul_add, Nat.mul_one]⟩
    rw [e]; exact Nat.mul_dvd_mul_left _ (by omega)
  · right
    have hq : 1 ≤ q := by omega
    have e2 : 2 ^ k * q - 2 ^ k = 2 ^ k * (q - 1) := by rw [Nat.mul_sub, Nat.mul_one]
    refine ⟨by simpa using Nat.mul_le_mul_left (2 ^ k) hq, ?_, e2.symm⟩
    rw [e2, e]; exact Nat.mul_dvd_mul_left _ (by omega)

/-- The lowest bit set. -/
theorem lowbit : ∀ n : Nat, 0 < n → ∃ j q, n = 2 ^ j * (2 * q + 1) ∧ n - (n &&& (n - 1)) = 2 ^ j := by
  intro n
  induction n using Nat.strongRecOn with
  | ind n ih =>
    intro hn
    have d1 : (n &&& (n - 1)) / 2 = n / 2 &&& (n - 1) / 2 := Nat.and_div_two
    have d2 : (n &&& (n - 1)) % 2 = 1 ↔ n % 2 = 1 ∧ (n - 1) % 2 = 1 := Nat.and_mod_two_eq_one
    rcases Nat.mod_two_eq_zero_or_one n with h | h
    · obtain ⟨j, q, e1, e2⟩ := ih (n / 2) (by omega) (by omega)
      refine ⟨j + 1, q, by rw [Nat.pow_succ]; grind, ?_⟩
      have e3 : (n - 1) / 2 = n / 2 - 1 := by omega
      rw [e3] at d1
      have hle : (n / 2 &&& (n / 2 - 1)) ≤ n / 2 := Nat.and_le_left
      rw [Nat.pow_succ]
      omega
    · refine ⟨0, n / 2, by omega, ?_⟩
      have e3 : (n - 1) / 2 = n / 2 := by omega
      rw [e3, Nat.and_self] at d1
      simp only [Nat.pow_zero]
      omega

theorem and_high {x a : Nat} (ha : a ≤ 64) (hx : x < 2 ^ 64) : x &&& (2 ^ 64 - 2 ^ a) = x / 2 ^ a * 2 ^ a := by
  have e : 2 ^ 64 - 2 ^ a = (2 ^ (64 - a) - 1) <<< a := by
    rw [Nat.shiftLeft_eq, Nat.sub_mul, Nat.one_mul, ← Nat.pow_add]
    congr 2; omega
  have hx' : x / 2 ^ a < 2 ^ (64 - a) := by
    rw [Nat.div_lt_iff_lt_mul (Nat.two_pow_pos a), ← Nat.pow_add]
    rwa [show 64 - a + a = 64 by omega]
  rw [e]
  apply Nat.eq_of_testBit_eq
  intro i
  rw [← Nat.shiftLeft_eq, Nat.testBit_and, Nat.testBit_shiftLeft, Nat.testBit_shiftLeft]
  by_cases h : a ≤ i
  · simp only [h, decide_true, Bool.true_and, ge_iff_le]
    rw [Nat.testBit_two_pow_sub_one, ← Nat.shiftRight_eq_div_pow, Nat.testBit_shiftRight, show a + (i - a) = i by omega]
    by_cases h2 : i - a < 64 - a
    · simp [h2]
    · have : x.testBit i = false := Nat.testBit_lt_two_pow (Nat.lt_of_lt_of_le hx (Nat.pow_le_pow_right (by omega) (by omega)))
      simp [this]
  · simp [h]

theorem clog_ok : ∀ k r i, i ≤ 2 ^ (r + k) → (r = 0 ∨ 2 ^ (r - 1) < i) →
    ∃ x, clog (k + 1) r (2 ^ r) i = some x ∧ r ≤ x ∧ x ≤ r + k ∧ i ≤ 2 ^ x ∧ (x = 0 ∨ 2 ^ (x - 1) < i) := by
  intro k
  induction k with
  | zero =>
    intro r i h1 h2
    refine ⟨r, ?_, Nat.le_refl _, Nat.le_refl _, h1, h2⟩
    unfold clog
    exact if_neg (by simpa using h1)
  | succ k ih =>
    intro r i h1 h2
    unfold clog
    by_cases h : 2 ^ r < i
    · rw [if_pos h, ← Nat.pow_succ]
      obtain ⟨x, e, l1, l2, l3, l4⟩ := ih (r + 1) i (by rw [show r + 1 + k = r + (k + 1) by omega]; exact h1)
        (Or.inr (by simpa using h))
      exact ⟨x, e, by omega, by omega, l3, l4⟩
    · rw [if_neg h]
      exact ⟨r, rfl, Nat.le_refl _, by omega, by omega, h2⟩

/-- `CeilingLog2` is the logarithm rounded up. -/
theorem ceilingLog2_ok {i : Nat} (h : i ≤ 2 ^ 64) :
    ∃ x, ceilingLog2 i = some x ∧ x ≤ 64 ∧ i ≤ 2 ^ x ∧ (x = 0 ∨ 2 ^ (x - 1) < i) := by
  obtain ⟨x, e, -, l2, l3, l4⟩ := clog_ok 64 0 i (by simpa using h) (Or.inl rfl)
  exact ⟨x, e, by omega, l3, l4⟩

theorem ceilingLog2_pow {j : Nat} (h : j ≤ 64) : ceilingLog2 (2 ^ j) = some j := by
  obtain ⟨x, e, l2, l3, l4⟩ := ceilingLog2_ok (i := 2 ^ j) (Nat.pow_le_pow_right (by omega) h)
  have h1 : j ≤ x := (Nat.pow_le_pow_iff_right (by omega)).1 l3
  rcases l4 with h0 | h0
  · rw [e]; congr 1; omega
  · have := (Nat.pow_lt_pow_iff_right (a := 2) (by omega)).1 h0
    rw [e]; congr 1; omega

end Cal.Mem
