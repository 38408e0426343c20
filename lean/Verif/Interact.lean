/-!
# The interaction matrix as a packed bit array (C41)

Arithmetic is in C `int`, 32 bits, where overflow is undefined. `SIZEOF_LONG` is defined nowhere in the
project, so the preprocessor takes the `#else` branch: 32 bits per word are used although `long` has 64.
-/

namespace Cal.Interact

/-- A value computed in type `int`. -/
def int (v : Int) : Option Int := if -2147483648 ≤ v ∧ v ≤ 2147483647 then some v else none

/-- The position of the pair `x < y` (calInteract.c:117, 149):
`((((numVars << 1) - x - 3) * x) >> 1) + y - 1` -/
def posn (n x y : Int) : Option Int :=
  (int (n * 2)).bind fun a =>
  (int (a - x)).bind fun a =>
  (int (a - 3)).bind fun a =>
  (int (a * x)).bind fun a =>
  (int (a / 2)).bind fun a =>
  (int (a + y)).bind fun a =>
  int (a - 1)

/-- `bddManager->interact`: the number of words and the words. -/
structure Matrix where
  words : Int
  word : Nat → BitVec 64

/-- Allocation in `CalInitInteract` (calInteract.c:175-182): `((n * (n-1)) >> (1 + LOGBPL)) + 1` words,
all zero. -/
def init (n : Int) : Option Matrix :=
  (int (n - 1)).bind fun a =>
  (int (n * a)).bind fun a =>
  (int (a / 64)).bind fun a =>
  (int (a + 1)).bind fun a =>
  some ⟨a, fun _ => 0⟩

/-- `1 << bit` in `int`, converted to `long`: for bit 31 the value is negative and sign-extended. (C
leaves the shift into the sign bit undefined; every compiler gives the negative number.) -/
def bitMask (b : Nat) : BitVec 64 := ((1#32) <<< b).signExtend 64

/-- `CalSetInteract` (calInteract.c:107-122) with `0 ≤ x < y < n`; a position outside the allocation is
undefined -/
def set (n : Int) (m : Matrix) (x y : Int) : Option Matrix :=
  (posn n x y).bind fun p =>
  if 0 ≤ p ∧ p / 32 < m.words then
    some { m with word := fun w => if w = (p / 32).toNat then m.word w ||| bitMask (p % 32).toNat else m.word w }
  else none

/-- `CalTestInteract` (calInteract.c:132-155): arguments are ids, counted from 1, in any order -/
def test (n : Int) (m : Matrix) (x y : Int) : Option Bool :=
  let x := x - 1
  let y := y - 1
  let p := if x > y then (y, x) else (x, y)
  (posn n p.1 p.2).bind fun p =>
  if 0 ≤ p ∧ p / 32 < m.words then
    some (((m.word (p / 32).toNat).sshiftRight (p % 32).toNat).getLsbD 0)
  else none

/-- Set a list of pairs. -/
def setAll (n : Int) : Matrix → List (Int × Int) → Option Matrix
  | m, [] => some m
  | m, q :: l => (set n m q.1 q.2).bind fun m => setAll n m l

/-! ### Proofs -/

theorem int_some {v : Int} (h : -2147483648 ≤ v ∧ v ≤ 2147483647) : int v = some v := by
  unfold int; rw [if_pos h]

/-- the number of pairs with first component below `x` -/
def off (n : Nat) : Nat → Nat
  | 0 => 0
  | x + 1 => off n x + (n - 1 - x)

theorem off_eq (n : Nat) : ∀ x, x ≤ n → 2 * (off n x : Int) = x * (2 * n - x - 1)
  | 0, _ => by simp [off]
  | x + 1, h => by
    have ih := off_eq n x (by omega)
    have e : ((off n x + (n - 1 - x) : Nat) : Int) = off n x + (n - 1 - x) := by omega
    rw [off, e, Int.mul_add, ih]
    have : ((x + 1 : Nat) : Int) = x + 1 := by omega
    rw [this]
    simp only [Int.mul_sub, Int.add_mul, Int.one_mul, Int.mul_one, Int.mul_add]
    omega

theorem off_mono (n : Nat) {x y : Nat} (h : x ≤ y) : off n x ≤ off n y := by
  induction y with
  | zero => rw [show x = 0 by omega]; exact Nat.le_refl _
  | succ y ih =>
    rcases Nat.lt_or_ge x (y + 1) with h' | h'
    · exact Nat.le_trans (ih (by omega)) (by rw [off]; omega)
    · rw [show x = y + 1 by omega]; exact Nat.le_refl _

/-- the position in the triangle -/
def pos (n x y : Nat) : Nat := off n x + (y - x - 1)

theorem pos_lt {n x y : Nat} (h : x < y) (hy : y < n) : pos n x y < off n (x + 1) := by
  rw [pos, off]; omega

theorem pos_inj {n x y x' y' : Nat} (h : x < y) (hy : y < n) (h' : x' < y') (hy' : y' < n)
    (e : pos n x y = pos n x' y') : x = x' ∧ y = y' := by
  have a := pos_lt h hy
  have b := pos_lt h' hy'
  rcases Nat.lt_trichotomy x x' with hx | hx | hx
  · have := off_mono n (show x + 1 ≤ x' by omega)
    have : off n x' ≤ pos n x' y' := by rw [pos]; omega
    omega
  · subst hx
    rw [pos, pos] at e
    omega
  · have := off_mono n (show x' + 1 ≤ x by omega)
    have : off n x ≤ pos n x y := by rw [pos]; omega
    omega

/-- bound on products without overflow -/
theorem prod_le {n : Nat} (hn : n ≤ 46341) : (n : Int) * ((n : Int) - 1) ≤ 2147441940 := by
  have h1 : (n : Int) * ((n : Int) - 1) ≤ 46341 * 46340 := by
    rcases Nat.eq_zero_or_pos n with h | h
    · subst h; decide
    · exact Int.mul_le_mul (by omega) (by omega) (by omega) (by omega)
  omega

theorem off_le {n x : Nat} (h : x ≤ n) : 2 * (off n x : Int) ≤ (n : Int) * ((n : Int) - 1) := by
  have := off_mono n h
  have e := off_eq n n (Nat.le_refl _)
  have : (n : Int) * (2 * n - n - 1) = n * (n - 1) := by congr 1; omega
  omega

theorem posn_eq {n x y : Nat} (hn : n ≤ 46341) (h : x < y) (hy : y < n) :
    posn n x y = some (pos n x y : Int) := by
  have e := off_eq n x (by omega)
  have h2 := prod_le hn
  have h3 := off_le (n := n) (x := x + 1) (by omega)
  have h4 := pos_lt h hy
  have h5 : pos n x y = off n x + (y - x - 1) := rfl
  have e3 : ((n : Int) * 2 - x - 3) * x = 2 * (off n x : Int) - 2 * x := by
    rw [e, Int.mul_comm, Int.mul_comm (n : Int) 2]
    simp only [Int.mul_sub, Int.mul_add]
    omega
  have e2 : 2 * (x : Int) ≤ 2 * (off n x : Int) := by
    rcases Nat.eq_zero_or_pos x with h0 | h0
    · subst h0; simp [off]
    · have := off_mono n (show 1 ≤ x from h0)
      have e1 : off n 1 = n - 1 := by simp [off]
      omega
  simp only [posn]
  rw [int_some (by omega), Option.bind_some, int_some (by omega), Option.bind_some,
    int_some (by omega), Option.bind_some, e3, int_some (by omega), Option.bind_some,
    int_some (by omega), Option.bind_some, int_some (by omega), Option.bind_some,
    int_some (by omega)]
  congr 1
  omega

theorem init_eq {n : Nat} (hn : n ≤ 46341) :
    init n = some ⟨(n : Int) * (n - 1) / 64 + 1, fun _ => 0⟩ := by
  have h2 := prod_le hn
  have h0 : 0 ≤ (n : Int) * (n - 1) := by
    rcases Nat.eq_zero_or_pos n with h | h
    · subst h; decide
    · exact Int.mul_nonneg (by omega) (by omega)
  simp only [init]
  rw [int_some (by omega), Option.bind_some, int_some (by omega), Option.bind_some,
    int_some (by omega), Option.bind_some, int_some (by omega), Option.bind_some]

theorem in_range {n x y : Nat} (h : x < y) (hy : y < n) :
    (0 : Int) ≤ (pos n x y : Int) ∧ (pos n x y : Int) / 32 < (n : Int) * (n - 1) / 64 + 1 := by
  have h3 := off_le (n := n) (x := x + 1) (by omega)
  have h4 := pos_lt h hy
  generalize (n : Int) * (n - 1) = N at *
  omega

theorem mask_bit : ∀ i j : Fin 32, ((bitMask i).sshiftRight j).getLsbD 0 = decide (i = j) := by decide +kernel

theorem getBit (w : BitVec 64) (j : Nat) (h : j < 32) : (w.sshiftRight j).getLsbD 0 = w.getLsbD j := by
  rw [BitVec.getLsbD_sshiftRight]
  have : ¬ (64 ≤ 0) := by omega
  simp
  omega

theorem or_bit (w v : BitVec 64) (j : Nat) (h : j < 32) :
    ((w ||| v).sshiftRight j).getLsbD 0 = ((w.sshiftRight j).getLsbD 0 || (v.sshiftRight j).getLsbD 0) := by
  rw [getBit _ _ h, getBit _ _ h, getBit _ _ h, BitVec.getLsbD_or]

/-- the bit of a position -/
def Matrix.bit (m : Matrix) (p : Nat) : Bool := ((m.word (p / 32)).sshiftRight (p % 32)).getLsbD 0

theorem set_ok {n x y : Nat} (hn : n ≤ 46341) (h : x < y) (hy : y < n) {m : Matrix}
    (hm : m.words = (n : Int) * (n - 1) / 64 + 1) :
    ∃ m', set n m x y = some m' ∧ m'.words = m.words ∧
      ∀ p, m'.bit p = (m.bit p || decide (p = pos n x y)) := by
  have r := in_range h hy
  have e1 : ((pos n x y : Int) / 32).toNat = pos n x y / 32 := by omega
  have e2 : ((pos n x y : Int) % 32).toNat = pos n x y % 32 := by omega
  simp only [set, posn_eq hn h hy, Option.bind_some]
  rw [if_pos (by rw [hm]; exact r), e1, e2]
  refine ⟨_, rfl, rfl, fun p => ?_⟩
  simp only [Matrix.bit]
  have hb := mask_bit ⟨pos n x y % 32, Nat.mod_lt _ (by omega)⟩ ⟨p % 32, Nat.mod_lt _ (by omega)⟩
  simp only [Fin.mk.injEq] at hb
  by_cases hp : p / 32 = pos n x y / 32
  · rw [if_pos hp, or_bit _ _ _ (Nat.mod_lt _ (by omega)), hb]
    congr 1
    rw [Bool.eq_iff_iff, decide_eq_true_iff, decide_eq_true_iff]
    omega
  · rw [if_neg hp, show decide (p = pos n x y) = false from decide_eq_false (fun h => hp (by rw [h])),
      Bool.or_false]

theorem test_ok {n x y : Nat} (hn : n ≤ 46341) (h : x < y) (hy : y < n) {m : Matrix}
    (hm : m.words = (n : Int) * (n - 1) / 64 + 1) :
    test n m (x + 1) (y + 1) = some (m.bit (pos n x y)) ∧
    test n m (y + 1) (x + 1) = some (m.bit (pos n x y)) := by
  have r := in_range h hy
  have e1 : ((pos n x y : Int) / 32).toNat = pos n x y / 32 := by omega
  have e2 : ((pos n x y : Int) % 32).toNat = pos n x y % 32 := by omega
  have a1 : ((x : Int) + 1 - 1) = x := by omega
  have a2 : ((y : Int) + 1 - 1) = y := by omega
  constructor
  · simp only [test, a1, a2]
    rw [if_neg (by omega)]
    simp only [posn_eq hn h hy, Option.bind_some]
    rw [if_pos (by rw [hm]; exact r), e1, e2]
    rfl
  · simp only [test, a1, a2]
    rw [if_pos (by omega)]
    simp only [posn_eq hn h hy, Option.bind_some]
    rw [if_pos (by rw [hm]; exact r), e1, e2]
    rfl

theorem setAll_ok {n : Nat} (hn : n ≤ 46341) (l : List (Nat × Nat)) : ∀ {m : Matrix},
    m.words = (n : Int) * (n - 1) / 64 + 1 → (∀ q ∈ l, q.1 < q.2 ∧ q.2 < n) →
    ∃ m', setAll n m (l.map fun q => ((q.1 : Int), (q.2 : Int))) = some m' ∧ m'.words = m.words ∧
      ∀ p, m'.bit p = (m.bit p || l.any fun q => decide (p = pos n q.1 q.2)) := by
  induction l with
  | nil => exact fun {m} _ _ => ⟨m, rfl, rfl, by simp⟩
  | cons q l ih =>
    intro m hm hl
    obtain ⟨h1, h2⟩ := hl q (List.mem_cons_self ..)
    obtain ⟨m1, e1, w1, b1⟩ := set_ok hn h1 h2 hm
    obtain ⟨m2, e2, w2, b2⟩ := ih (by rw [w1, hm]) (fun q hq => hl q (List.mem_cons_of_mem _ hq))
    refine ⟨m2, by simp only [List.map_cons, setAll, e1, Option.bind_some, e2], by rw [w2, w1], fun p => ?_⟩
    rw [b2, b1, List.any_cons, Bool.or_assoc]

/-! ### Properties -/

/-- For up to 46341 variables the matrix behaves as a set of unordered pairs: after setting any list of
pairs of distinct variables, a pair tests true exactly when it is one of them, in either order of the
arguments. No position is outside the allocation and nothing overflows (both would make the result
undefined). `CalSetInteract` takes positions from 0, `CalTestInteract` ids from 1. -/
theorem C41_set_partial {n : Nat} (hn : n ≤ 46341) (l : List (Nat × Nat))
    (hl : ∀ q ∈ l, q.1 < q.2 ∧ q.2 < n) :
    ∃ m0 m, init n = some m0 ∧ setAll n m0 (l.map fun q => ((q.1 : Int), (q.2 : Int))) = some m ∧
      ∀ x y, x < y → y < n → test n m (x + 1) (y + 1) = some (decide ((x, y) ∈ l)) ∧
        test n m (y + 1) (x + 1) = some (decide ((x, y) ∈ l)) := by
  obtain ⟨m, e, w, b⟩ := setAll_ok hn l (m := ⟨(n : Int) * (n - 1) / 64 + 1, fun _ => 0⟩) rfl hl
  refine ⟨_, m, init_eq hn, e, fun x y h hy => ?_⟩
  have hb : m.bit (pos n x y) = decide ((x, y) ∈ l) := by
    rw [b]
    have : (Matrix.mk ((n : Int) * (n - 1) / 64 + 1) fun _ => 0).bit (pos n x y) = false := by
      simp only [Matrix.bit]
      rw [getBit _ _ (Nat.mod_lt _ (by omega))]
      exact BitVec.getLsbD_zero
    rw [this, Bool.false_or, Bool.eq_iff_iff, List.any_eq_true, decide_eq_true_iff]
    constructor
    · rintro ⟨q, hq, he⟩
      rw [decide_eq_true_iff] at he
      obtain ⟨h1, h2⟩ := hl q hq
      obtain ⟨r1, r2⟩ := pos_inj h hy h1 h2 he
      rw [r1, r2]; exact hq
    · exact fun hq => ⟨(x, y), hq, by simp⟩
  rw [← hb]
  exact test_ok hn h hy w

/-- With more variables (a manager can have 65534) the size computation overflows `int`. -/
theorem C41_violated (n : Nat) (h : 46341 < n) (h2 : n ≤ 65534) : init n = none := by
  have h3 : (46342 : Int) * 46341 ≤ (n : Int) * (n - 1) :=
    Int.mul_le_mul (by omega) (by omega) (by omega) (by omega)
  simp only [init]
  rw [int_some (by omega), Option.bind_some]
  have : int ((n : Int) * (n - 1)) = none := by unfold int; rw [if_neg (by omega)]
  rw [this, Option.bind_none]

/-- 12 variables: the pairs use three words, a pair at bit 31 does not disturb the next ones -/
example : (((init 12).bind fun m => setAll 12 m [(3, 5), (0, 11), (10, 11)]).bind fun m =>
    test 12 m 6 4) = some true := by decide +kernel
example : pos 12 3 5 = 31 := by decide
example : (((init 12).bind fun m => setAll 12 m [(3, 5), (0, 11), (10, 11)]).bind fun m =>
    test 12 m 4 7) = some false := by decide +kernel

end Cal.Interact
