/-!
# The random number generator and the default terminal transform (C53, C54)
-/

namespace Cal.Rng

/-- `CAL_MODULUS1`, … (calUtil.c:44-53) -/
def M1 : Int := 2147483563
def A1 : Int := 40014
def Q1 : Int := 53668
def R1 : Int := 12211
def M2 : Int := 2147483399
def A2 : Int := 40692
def Q2 : Int := 52774
def R2 : Int := 3791
/-- `CAL_STAB_SIZE` (calUtil.c:53) -/
def stabSize : Nat := 64
/-- `CAL_STAB_DIV` (calUtil.c:54) -/
def stabDiv : Int := 1 + (M1 - 1) / 64

/-- A value computed in type `long`: signed overflow is undefined behaviour. -/
def long (v : Int) : Option Int :=
  if -9223372036854775808 ≤ v ∧ v ≤ 9223372036854775807 then some v else none

/-- The static variables (calUtil.c:67-70). -/
structure St where
  rand : Int
  rand2 : Int
  sel : Int
  tab : Nat → Int

/-- Before any call all statics are zero. -/
def St.init : St := ⟨0, 0, 0, fun _ => 0⟩

/-- One step of a sub-generator by Schrage's method (calUtil.c:452-454, 480-482, 487-489). C's division
truncates towards zero. -/
def schrage (a q r m u : Int) : Option Int :=
  let w := u.tdiv q
  (long (w * q)).bind fun wq =>
  (long (u - wq)).bind fun d =>
  (long (a * d)).bind fun ad =>
  (long (w * r)).bind fun wr =>
  (long (ad - wr)).bind fun v =>
  long (v + (if v < 0 then 1 else 0) * m)

/-- Store into the shuffle table; outside its 64 entries the write is undefined. -/
def put (t : Nat → Int) (i : Int) (v : Int) : Option (Nat → Int) :=
  if 0 ≤ i ∧ i < 64 then some fun j => if j = i.toNat then v else t j else none
/-- Read the shuffle table. -/
def get (t : Nat → Int) (i : Int) : Option Int := if 0 ≤ i ∧ i < 64 then some (t i.toNat) else none

/-- The loop of `CalUtilSRandom` (calUtil.c:450-456), from iteration `i`, `k` iterations left. -/
def load : Nat → Nat → St → Option St
  | 0, _, s => some s
  | k + 1, i, s =>
    (schrage A1 Q1 R1 M1 s.rand).bind fun u =>
    (put s.tab (i % stabSize : Nat) u).bind fun t =>
    load k (i + 1) { s with rand := u, tab := t }

/-- `CalUtilSRandom` (calUtil.c:442-459) -/
def seed (n : Int) (s : St) : Option St :=
  (if n < 0 then long (-n) else if n = 0 then some 1 else some n).bind fun u =>
  (load (stabSize + 11) 0 { s with rand := u, rand2 := u }).bind fun s =>
  (get s.tab (1 % stabSize : Nat)).bind fun v =>
  some { s with sel := v }

/-- `CalUtilRandom` (calUtil.c:469-512) -/
def random (s : St) : Option (St × Int) :=
  (if s.rand = 0 then seed 1 s else some s).bind fun s =>
  (schrage A1 Q1 R1 M1 s.rand).bind fun u =>
  (schrage A2 Q2 R2 M2 s.rand2).bind fun u2 =>
  let i := s.sel.tdiv stabDiv
  (get s.tab i).bind fun x =>
  (long (x - u2)).bind fun d =>
  (put s.tab i u).bind fun t =>
  (long (d + (if d < 1 then 1 else 0) * (M1 - 1))).bind fun sel =>
  (long (sel - 1)).bind fun r =>
  some ({ rand := u, rand2 := u2, sel := sel, tab := t }, r)

/-! ### Proofs -/

theorem long_some {v : Int} (h : -9223372036854775808 ≤ v ∧ v ≤ 9223372036854775807) : long v = some v := by
  unfold long; rw [if_pos h]

/-- Schrage's method computes the product modulo the prime. -/
theorem schrage1 {u : Int} (h0 : 0 ≤ u) (h : u < M1) : schrage A1 Q1 R1 M1 u = some ((A1 * u) % M1) := by
  simp only [M1] at h
  simp only [schrage, A1, Q1, R1, M1, Int.tdiv_eq_ediv_of_nonneg h0]
  rw [long_some (by omega), Option.bind_some, long_some (by omega), Option.bind_some,
    long_some (by omega), Option.bind_some, long_some (by omega), Option.bind_some,
    long_some (by omega), Option.bind_some]
  split
  · rw [long_some (by omega)]; congr 1; omega
  · rw [long_some (by omega)]; congr 1; omega

theorem schrage2 {u : Int} (h0 : 0 ≤ u) (h : u < M1) : schrage A2 Q2 R2 M2 u = some ((A2 * u) % M2) := by
  simp only [M1] at h
  simp only [schrage, A2, Q2, R2, M2, Int.tdiv_eq_ediv_of_nonneg h0]
  rw [long_some (by omega), Option.bind_some, long_some (by omega), Option.bind_some,
    long_some (by omega), Option.bind_some, long_some (by omega), Option.bind_some,
    long_some (by omega), Option.bind_some]
  split
  · rw [long_some (by omega)]; congr 1; omega
  · rw [long_some (by omega)]; congr 1; omega

theorem step1_pos {u : Int} (h0 : 0 < u) (h : u < M1) : 0 < (A1 * u) % M1 := by
  simp only [M1, A1] at *
  have h1 : 0 ≤ (40014 * u) % 2147483563 := by omega
  apply Decidable.byContradiction
  intro hn
  have hd : (2147483563 : Int) ∣ 40014 * u := Int.dvd_of_emod_eq_zero (by omega)
  obtain ⟨n, rfl⟩ := Int.eq_ofNat_of_zero_le (Int.le_of_lt h0)
  have hd2 : 2147483563 ∣ 40014 * n := by obtain ⟨k, hk⟩ := hd; exact ⟨k.toNat, by omega⟩
  have hc : Nat.Coprime 2147483563 40014 := by decide
  have := Nat.le_of_dvd (by omega) (hc.dvd_of_dvd_mul_left hd2)
  omega

theorem step1_lt (u : Int) : (A1 * u) % M1 < M1 := by simp only [M1]; omega
theorem step2_rng (u : Int) : 0 ≤ (A2 * u) % M2 ∧ (A2 * u) % M2 < M2 := by simp only [M2]; omega

/-- what holds between calls, once seeded -/
structure Ok (s : St) : Prop where
  rand : 0 < s.rand ∧ s.rand < M1
  rand2 : 0 ≤ s.rand2 ∧ s.rand2 < M1
  sel : 0 < s.sel ∧ s.sel < M1
  tab : ∀ i, i < 64 → 0 < s.tab i ∧ s.tab i < M1

theorem load_ok : ∀ k i (s : St), (0 < s.rand ∧ s.rand < M1) →
    (∀ j, j < i → j < 64 → 0 < s.tab j ∧ s.tab j < M1) → ∃ s', load k i s = some s' ∧
      (0 < s'.rand ∧ s'.rand < M1) ∧ s'.rand2 = s.rand2 ∧
      (∀ j, j < i + k → j < 64 → 0 < s'.tab j ∧ s'.tab j < M1)
  | 0, i, s, hr, ht => ⟨s, rfl, hr, rfl, fun j h1 h2 => ht j (by omega) h2⟩
  | k + 1, i, s, hr, ht => by
    have hp : put s.tab ((i % stabSize : Nat) : Int) ((A1 * s.rand) % M1) =
        some (fun j => if j = i % 64 then (A1 * s.rand) % M1 else s.tab j) := by
      unfold put
      rw [if_pos (by simp only [stabSize]; omega)]
      rfl
    obtain ⟨s', h1, h2, h3, h4⟩ := load_ok k (i + 1)
      { s with rand := (A1 * s.rand) % M1, tab := fun j => if j = i % 64 then (A1 * s.rand) % M1 else s.tab j }
      ⟨step1_pos hr.1 hr.2, step1_lt _⟩ (fun j hj hj2 => by
        simp only []
        split
        · exact ⟨step1_pos hr.1 hr.2, step1_lt _⟩
        · exact ht j (by omega) hj2)
    refine ⟨s', ?_, h2, h3, fun j hj hj2 => h4 j (by omega) hj2⟩
    simp only [load, schrage1 (Int.le_of_lt hr.1) hr.2, Option.bind_some, hp]
    exact h1

theorem seed_ok {n : Int} (s : St) (h : -M1 < n ∧ n < M1) : ∃ s', seed n s = some s' ∧ Ok s' := by
  have hu : ∃ u, (if n < 0 then long (-n) else if n = 0 then some 1 else some n) = some u ∧
      0 < u ∧ u < M1 := by
    simp only [M1] at h ⊢
    split
    · exact ⟨-n, long_some (by omega), by omega, by omega⟩
    · split
      · exact ⟨1, rfl, by omega, by omega⟩
      · exact ⟨n, rfl, by omega, by omega⟩
  obtain ⟨u, e, h1, h2⟩ := hu
  obtain ⟨s', e2, r1, r2, r3⟩ := load_ok 75 0 { s with rand := u, rand2 := u } ⟨h1, h2⟩
    (fun j hj => absurd hj (by omega))
  refine ⟨{ s' with sel := s'.tab 1 }, ?_, r1, ?_, r3 1 (by omega) (by omega), fun i hi => r3 i (by omega) hi⟩
  · simp only [seed, e, Option.bind_some, stabSize]
    have : load (64 + 11) 0 { s with rand := u, rand2 := u } = some s' := e2
    rw [this, Option.bind_some]
    rfl
  · rw [show ({ s' with sel := s'.tab 1 } : St).rand2 = s'.rand2 from rfl, r2]
    exact ⟨Int.le_of_lt h1, h2⟩

theorem random_ok {s : St} (h : Ok s) : ∃ s' v, random s = some (s', v) ∧ Ok s' ∧
    0 ≤ v ∧ v ≤ 2147483561 ∧ s'.rand = (A1 * s.rand) % M1 ∧ s'.rand2 = (A2 * s.rand2) % M2 := by
  have hi : 0 ≤ s.sel.tdiv stabDiv ∧ s.sel.tdiv stabDiv < 64 := by
    have := h.sel
    rw [Int.tdiv_eq_ediv_of_nonneg (by omega)]
    have e : stabDiv = 33554431 := by decide
    rw [e]
    simp only [M1] at this
    omega
  have hx := h.tab (s.sel.tdiv stabDiv).toNat (by omega)
  have h2 := step2_rng s.rand2
  have h1 : 0 < (A1 * s.rand) % M1 ∧ (A1 * s.rand) % M1 < M1 := ⟨step1_pos h.rand.1 h.rand.2, step1_lt _⟩
  unfold random
  rw [if_neg (by have := h.rand; omega), Option.bind_some, schrage1 (Int.le_of_lt h.rand.1) h.rand.2,
    Option.bind_some, schrage2 h.rand2.1 h.rand2.2, Option.bind_some]
  simp only [get, put, if_pos hi, Option.bind_some]
  generalize s.tab (s.sel.tdiv stabDiv).toNat = x at *
  generalize hu2 : (A2 * s.rand2) % M2 = u2 at *
  generalize hu : (A1 * s.rand) % M1 = u at *
  simp only [M1, M2] at hx h2 h1 ⊢
  rw [long_some (by omega), Option.bind_some]
  have hsel : ∃ z, x - u2 + (if x - u2 < 1 then 1 else 0) * (2147483563 - 1) = z ∧ 0 < z ∧ z < 2147483563 := by
    refine ⟨_, rfl, ?_⟩
    split <;> omega
  obtain ⟨z, e, z1, z2⟩ := hsel
  rw [e, long_some (by omega), Option.bind_some, long_some (by omega), Option.bind_some]
  refine ⟨_, _, rfl, ⟨h1, ?_, ⟨z1, z2⟩, fun i hi => ?_⟩, by omega, by omega, rfl, rfl⟩
  · simp only [M1]; omega
  · simp only []
    split
    · exact h1
    · exact h.tab i hi

/-- What a client does with the generator. -/
inductive Op where
  | seed (n : Int)
  | random

/-- Run the operations; the numbers drawn come out in order. -/
def run : St → List Op → Option (St × List Int)
  | s, [] => some (s, [])
  | s, .seed n :: l => (seed n s).bind fun s => run s l
  | s, .random :: l => (random s).bind fun p => (run p.1 l).map fun q => (q.1, p.2 :: q.2)

theorem random_any {s : St} (h : Ok s ∨ s.rand = 0) : ∃ s' v, random s = some (s', v) ∧ Ok s' ∧
    0 ≤ v ∧ v ≤ 2147483561 := by
  rcases h with h | h
  · obtain ⟨s', v, h1, h2, h3, h4, -⟩ := random_ok h
    exact ⟨s', v, h1, h2, h3, h4⟩
  · obtain ⟨s1, e, ok⟩ := seed_ok (n := 1) s (by simp only [M1]; omega)
    obtain ⟨s', v, h1, h2, h3, h4, -⟩ := random_ok ok
    refine ⟨s', v, ?_, h2, h3, h4⟩
    rw [← h1]
    unfold random
    rw [if_pos h, e, if_neg (by have := ok.rand; omega)]

theorem run_ok (ops : List Op) : ∀ s, (Ok s ∨ s.rand = 0) →
    (∀ n, Op.seed n ∈ ops → -2147483563 < n ∧ n < 2147483563) →
    ∃ s' vs, run s ops = some (s', vs) ∧ ∀ v ∈ vs, 0 ≤ v ∧ v ≤ 2147483561 := by
  induction ops with
  | nil => exact fun s _ _ => ⟨s, [], rfl, by simp⟩
  | cons o l ih =>
    intro s hs hn
    have hl : ∀ n, Op.seed n ∈ l → -2147483563 < n ∧ n < 2147483563 := fun n h => hn n (List.mem_cons_of_mem _ h)
    cases o with
    | seed n =>
      obtain ⟨s1, e, ok⟩ := seed_ok s (hn n (List.mem_cons_self ..))
      obtain ⟨s', vs, h1, h2⟩ := ih s1 (.inl ok) hl
      exact ⟨s', vs, by simp only [run, e, Option.bind_some, h1], h2⟩
    | random =>
      obtain ⟨s1, v, e, ok, v0, v1⟩ := random_any hs
      obtain ⟨s', vs, h1, h2⟩ := ih s1 (.inl ok) hl
      refine ⟨s', v :: vs, by simp only [run, e, Option.bind_some, h1, Option.map_some], fun x hx => ?_⟩
      rcases List.mem_cons.1 hx with rfl | hx
      · exact ⟨v0, v1⟩
      · exact h2 x hx

/-! ### Properties -/

/-- In any sequence of seedings, with seeds of magnitude below the first modulus, and draws, starting
from the state of a fresh process: nothing overflows, the shuffle table is never indexed outside its 64
entries (either would make `run` undefined), and every number drawn lies between 0 and 2147483561. -/
theorem C53_range (ops : List Op) (h : ∀ n, Op.seed n ∈ ops → -2147483563 < n ∧ n < 2147483563) :
    ∃ s vs, run St.init ops = some (s, vs) ∧ ∀ v ∈ vs, 0 ≤ v ∧ v ≤ 2147483561 :=
  run_ok ops St.init (.inr rfl) h

/-- Both sub-generators multiply modulo their prime, without overflow; the first never gets stuck at
zero. -/
theorem C53_schrage {u : Int} (h0 : 0 < u) (h : u < 2147483563) :
    schrage A1 Q1 R1 M1 u = some (40014 * u % 2147483563) ∧
    schrage A2 Q2 R2 M2 u = some (40692 * u % 2147483399) ∧ 0 < 40014 * u % 2147483563 :=
  ⟨schrage1 (Int.le_of_lt h0) h, schrage2 (Int.le_of_lt h0) h, step1_pos h0 h⟩

/-- The bound on the seed is needed: with a seed equal to the first modulus the first sub-generator
gets stuck at zero. -/
theorem C53_seed_needed : schrage A1 Q1 R1 M1 2147483563 = some 0 := by decide

/-- seeding with a number and drawing two -/
example : ((run St.init [.seed (-42), .random, .seed 0, .random]).map fun p => p.2.length) = some 2 := by
  decide +kernel
example : ((run St.init [.random]).map fun p => p.2) = ((run St.init [.seed 1, .random]).map fun p => p.2) := by
  decide +kernel

end Cal.Rng

namespace Cal.Terminal

/-- `BddDefaultTransformFn` (calBddManager.c:612-632) -/
def transform (v1 v2 : BitVec 64) : BitVec 64 × BitVec 64 :=
  if v2 = 0 then (-v1, v2) else (~~~v1, -v2)

theorem pair_toNat (a b : BitVec 64) : (a ++ b).toNat = a.toNat * 2 ^ 64 + b.toNat := by
  rw [BitVec.toNat_append, Nat.shiftLeft_eq, Nat.mul_comm, ← Nat.two_pow_add_eq_or_of_lt b.isLt]

/-- The default transform negates the value, the two words read as one number. -/
theorem C54_negate (v1 v2 : BitVec 64) :
    (transform v1 v2).1 ++ (transform v1 v2).2 = (-(v1 ++ v2) : BitVec 128) := by
  apply BitVec.eq_of_toNat_eq
  have h1 := v1.isLt
  have h2 := v2.isLt
  unfold transform
  split
  · rename_i h
    subst h
    simp only [pair_toNat, BitVec.toNat_neg]
    have : (0 : BitVec 64).toNat = 0 := rfl
    omega
  · rename_i h
    have : v2.toNat ≠ 0 := fun e => h (BitVec.eq_of_toNat_eq e)
    simp only [pair_toNat, BitVec.toNat_neg, BitVec.toNat_not]
    omega

/-- So it is an involution. -/
theorem C54_involution (v1 v2 : BitVec 64) :
    transform (transform v1 v2).1 (transform v1 v2).2 = (v1, v2) := by
  unfold transform
  by_cases h : v2 = 0
  · subst h; simp
  · have h2 : -v2 ≠ 0 := fun e => h (by rw [← BitVec.neg_neg (x := v2), e]; rfl)
    simp only [if_neg h, if_neg h2, BitVec.neg_neg, BitVec.not_not]

example : transform 5 7 = (0xfffffffffffffffa, 0xfffffffffffffff9) := by decide

end Cal.Terminal
