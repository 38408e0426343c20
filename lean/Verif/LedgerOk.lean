import Verif.Ledger
/-!
# Every block of the ledger has one owner

The accounting: for each address, how many pointers own it. A piece of code is described by what it
takes and what it leaves (`Does`); what it does not mention stays as it is.
-/

namespace Cal.Ledger

/-- How many pointers own the block at an address. -/
abbrev Res := Nat → Nat

/-- The pointer `a`, which may be nil. -/
def one (a : Nat) : Res := fun p => if a ≠ 0 ∧ p = a then 1 else 0

theorem one_self (h : a ≠ 0) : one a a = 1 := by simp [one, h]

theorem one_zero (p : Nat) : one 0 p = 0 := by simp [one]

/-- All elements of a list. -/
def sum (f : α → Res) : List α → Res
  | [], _ => 0
  | x :: xs, p => f x p + sum f xs p

theorem sum_nil (f : α → Res) (p : Nat) : sum f [] p = 0 := rfl

theorem sum_cons (f : α → Res) (x : α) (xs : List α) (p : Nat) :
    sum f (x :: xs) p = f x p + sum f xs p := rfl

theorem sum_append (f : α → Res) (xs ys : List α) (p : Nat) :
    sum f (xs ++ ys) p = sum f xs p + sum f ys p := by
  induction xs with
  | nil => simp [sum]
  | cons x xs ih => simp [sum, ih]; omega

theorem sum_set (f : α → Res) (x y : α) (p : Nat) :
    ∀ (xs : List α) (i : Nat), xs[i]? = some y →
      sum f (xs.set i x) p + f y p = sum f xs p + f x p
  | [], _, h => by simp at h
  | z :: zs, 0, h => by
    simp at h
    subst h
    simp [sum]
    omega
  | z :: zs, i + 1, h => by
    simp at h
    have := sum_set f x y p zs i h
    simp [sum]
    omega

theorem sum_eraseIdx (f : α → Res) (y : α) (p : Nat) :
    ∀ (xs : List α) (i : Nat), xs[i]? = some y →
      sum f (xs.eraseIdx i) p + f y p = sum f xs p
  | [], _, h => by simp at h
  | z :: zs, 0, h => by
    simp at h
    subst h
    simp [sum]
    omega
  | z :: zs, i + 1, h => by
    simp at h
    have := sum_eraseIdx f y p zs i h
    simp [sum]
    omega

theorem sum_take_drop (f : α → Res) (i : Nat) (xs : List α) (p : Nat) :
    sum f (xs.take i) p + sum f (xs.drop i) p = sum f xs p := by
  rw [← sum_append, List.take_append_drop]

theorem sum_le (f : α → Res) (p : Nat) :
    ∀ (xs : List α) (i : Nat) (y : α), xs[i]? = some y → f y p ≤ sum f xs p
  | [], _, _, h => by simp at h
  | z :: zs, 0, y, h => by
    simp at h
    subst h
    simp [sum]
  | z :: zs, i + 1, y, h => by
    simp at h
    have := sum_le f p zs i y h
    simp [sum]
    omega

theorem sum_mem {xs : List Nat} (h : a ∈ xs) (h0 : a ≠ 0) : 1 ≤ sum one xs a := by
  obtain ⟨i, hi, e⟩ := List.getElem_of_mem h
  have := sum_le one a xs i a (by rw [List.getElem?_eq_getElem hi, e])
  rw [one_self h0] at this
  exact this

/-- `x` needs the blocks `P`; it does not run into undefined behaviour, its result satisfies `Φ` and
it leaves the blocks `Q`. All other blocks `F` are untouched. -/
def Does (x : M α) (P : Res) (Φ : α → Prop) (Q : α → Res) : Prop :=
  ∀ (os : Os) (h : Heap) (F : Res), (∀ p, h.live.count p = P p + F p) → 0 ∉ h.live →
    ∃ a h', x os h = some (a, h') ∧ (∀ p, h'.live.count p = Q a p + F p) ∧ 0 ∉ h'.live ∧ Φ a

theorem Does.ret {P : Res} {Φ : α → Prop} {Q : α → Res} (hΦ : Φ a) (hP : ∀ p, P p = Q a p) :
    Does (pure a) P Φ Q := fun _ h F e z =>
  ⟨a, h, rfl, fun p => by rw [e p, hP p], z, hΦ⟩

theorem Does.call {x : M α} {f : α → M β} {P0 P : Res} {Φ : α → Prop} {Q : α → Res}
    {Ψ : β → Prop} {R : β → Res} (hx : Does x P Φ Q) (hP : ∀ p, P p ≤ P0 p)
    (hf : ∀ a, Φ a → Does (f a) (fun p => P0 p - P p + Q a p) Ψ R) :
    Does (x >>= f) P0 Ψ R := fun os h F e z => by
  obtain ⟨a, h1, e1, c1, z1, p1⟩ := hx os h (fun p => P0 p - P p + F p)
    (fun p => by have := hP p; rw [e p]; omega) z
  obtain ⟨b, h2, e2, c2, z2, p2⟩ := hf a p1 os h1 F
    (fun p => by have := hP p; rw [c1 p]; dsimp only; omega) z1
  refine ⟨b, h2, ?_, c2, z2, p2⟩
  show M.bind x f os h = _
  simp only [M.bind, e1, e2]

theorem Does.weaken {x : M α} {P P' : Res} {Φ Φ' : α → Prop} {Q Q' : α → Res} (hx : Does x P' Φ' Q')
    (hP : ∀ p, P' p = P p) (hΦ : ∀ a, Φ' a → Φ a) (hQ : ∀ a, Φ' a → ∀ p, Q' a p = Q a p) :
    Does x P Φ Q := fun os h F e z => by
  obtain ⟨a, h1, e1, c1, z1, p1⟩ := hx os h F (fun p => by rw [e p, hP p]) z
  exact ⟨a, h1, e1, fun p => by rw [c1 p, hQ a p1 p], z1, hΦ a p1⟩

theorem Does.res {x : M α} {P P' : Res} {Φ : α → Prop} {Q : α → Res} (h : ∀ p, P p = P' p)
    (hx : Does x P' Φ Q) : Does x P Φ Q :=
  hx.weaken (fun p => (h p).symm) (fun _ h => h) (fun _ _ _ => rfl)

/-- a call at the end -/
theorem Does.tail {x : M α} {P0 P : Res} {Φ Ψ : α → Prop} {Q R : α → Res} (hx : Does x P Φ Q)
    (hP : ∀ p, P p ≤ P0 p) (hΦ : ∀ a, Φ a → Ψ a) (hQ : ∀ a, Φ a → ∀ p, P0 p - P p + Q a p = R a p) :
    Does x P0 Ψ R := fun os h F e z => by
  obtain ⟨a, h1, e1, c1, z1, p1⟩ := hx os h (fun p => P0 p - P p + F p)
    (fun p => by have := hP p; rw [e p]; omega) z
  exact ⟨a, h1, e1, fun p => by have := hQ a p1 p; rw [c1 p]; omega, z1, hΦ a p1⟩

theorem malloc_ok : Does malloc (fun _ => 0) (fun a => a ≠ 0) one := fun os h F e z => by
  refine ⟨_, _, rfl, fun p => ?_, ?_, os.nonzero h⟩
  · simp only [List.count_cons, e p, one, os.nonzero h, ne_eq, not_false_eq_true, true_and]
    by_cases hp : p = os.pick h
    · simp [hp]; omega
    · have : ¬ os.pick h = p := fun h => hp h.symm
      simp [hp, this]
  · simp only [List.mem_cons, not_or]
    exact ⟨fun h' => os.nonzero h h'.symm, z⟩

theorem free_ok (a : Nat) : Does (free a) (one a) (fun _ => True) (fun _ _ => 0) :=
  fun os h F e z => by
    by_cases ha : a = 0
    · subst ha
      exact ⟨(), h, by simp [free], fun p => by rw [e p, one_zero], z, trivial⟩
    · have hm : a ∈ h.live := by
        have := e a
        rw [one_self ha] at this
        exact List.count_pos_iff.1 (by omega)
      refine ⟨(), _, by simp only [free, ha, hm, if_true, if_false]; rfl, fun p => ?_, ?_, trivial⟩
      · simp only [List.count_erase, e p, one, ne_eq, ha, not_false_eq_true, true_and]
        by_cases hp : p = a
        · simp [hp]
        · have : ¬ a = p := fun h => hp h.symm
          simp [hp, this]
      · exact fun h' => z (List.mem_of_mem_erase h')

theorem realloc_ok (a : Nat) : Does (realloc a) (one a) (fun a => a ≠ 0) one := by
  unfold realloc
  split
  next h =>
    subst h
    exact malloc_ok.weaken (fun p => (one_zero p).symm) (fun _ h => h) (fun _ _ _ => rfl)
  next =>
    refine Does.call (free_ok a) (fun p => Nat.le_refl _) fun _ _ => ?_
    exact malloc_ok.weaken (fun p => by simp) (fun _ h => h) (fun _ _ _ => rfl)

theorem touch_ok {a : Nat} {P : Res} (h : 1 ≤ P a) :
    Does (touch a) P (fun _ => True) (fun _ => P) := fun os h' F e z => by
  have hm : a ∈ h'.live := List.count_pos_iff.1 (by rw [e a]; omega)
  exact ⟨(), h', by simp only [touch, hm, if_true], e, z, trivial⟩

theorem Does.use {a : Nat} {f : Unit → M β} {P0 : Res} {Ψ : β → Prop} {R : β → Res}
    (h : ∀ p, one a p ≤ P0 p) (hf : Does (f ()) P0 Ψ R) : Does (Ledger.use a >>= f) P0 Ψ R :=
  fun os h' F e z => by
    have hm : a = 0 ∨ a ∈ h'.live := by
      by_cases h0 : a = 0
      · exact .inl h0
      · have := h a
        rw [one_self h0] at this
        exact .inr (List.count_pos_iff.1 (by rw [e a]; omega))
    obtain ⟨b, h2, e2, r⟩ := hf os h' F e z
    refine ⟨b, h2, ?_, r⟩
    show M.bind (Ledger.use a) f os h' = _
    simp only [M.bind, Ledger.use, if_pos hm, e2]

theorem entry_ok {xs : List α} {i : Nat} (h : i < xs.length) :
    Does (entry xs i) (fun _ => 0) (fun x => xs[i]? = some x) (fun _ _ => 0) := by
  unfold entry
  rw [List.getElem?_eq_getElem h]
  exact Does.ret rfl fun _ => rfl

theorem each_ok {f : α → M Unit} {g : α → Res} (hf : ∀ x, Does (f x) (g x) (fun _ => True) (fun _ _ => 0)) :
    ∀ xs : List α, Does (each f xs xs.length) (sum g xs) (fun _ => True) (fun _ _ => 0)
  | [] => Does.ret trivial fun _ => rfl
  | x :: xs => by
    refine Does.call (hf x) (fun p => by simp only [sum_cons]; omega) fun _ _ => ?_
    exact (each_ok hf xs).tail (fun p => by simp only [sum_cons]; omega) (fun _ h => h)
      (fun _ _ p => by simp only [sum_cons]; omega)

theorem eachTouch_ok {P : Res} : ∀ (xs : List Nat), (∀ a ∈ xs, 1 ≤ P a) →
    Does (each touch xs xs.length) P (fun _ => True) (fun _ => P)
  | [], _ => Does.ret trivial fun _ => rfl
  | x :: xs, h => by
    refine Does.call (touch_ok (h x (by simp))) (fun _ => Nat.le_refl _) fun _ _ => ?_
    exact (eachTouch_ok xs fun a m => h a (by simp [m])).weaken (fun p => by omega) (fun _ h => h)
      (fun _ _ _ => rfl)

/-! ## Pages -/

def Pm.own (p : Pm) : Res := fun q => one p.self q + one p.segArr q + one p.numArr q + sum one p.segs q

structure Pm.Ok (p : Pm) : Prop where
  num : p.num = p.segs.length
  le : p.num ≤ p.max
  pos : 1 ≤ p.max
  nz : ∀ a ∈ p.segs, a ≠ 0
  free : ∀ a ∈ p.free, a ∈ p.segs

def Nm.own (v : Nm) : Res := fun q => one v.self q + one v.pageList q

/-- the pages are in segments of `O` -/
structure Nm.Ok (v : Nm) (O : List Nat) : Prop where
  num : v.num = v.pages.length
  le : v.num ≤ v.max
  pos : 1 ≤ v.max
  mem : ∀ a ∈ v.pages, a ∈ O

theorem Nm.Ok.mono {v : Nm} {O O' : List Nat} (h : v.Ok O) (s : ∀ a ∈ O, a ∈ O') : v.Ok O' :=
  ⟨h.num, h.le, h.pos, fun a m => s a (h.mem a m)⟩

/-- `q` is `p` with more segments -/
def Pm.Le (p q : Pm) : Prop := ∀ a ∈ p.segs, a ∈ q.segs

theorem Pm.room_ok {p : Pm} (h : p.Ok) : Does p.room p.own
    (fun q => q.Ok ∧ q.num < q.max ∧ q.segs = p.segs ∧ q.free = p.free) Pm.own := by
  unfold Pm.room
  split
  next e =>
    refine Does.call (realloc_ok p.segArr) (fun q => by simp only [Pm.own]; omega) fun a _ => ?_
    refine Does.call (realloc_ok p.numArr) (fun q => by simp only [Pm.own]; omega) fun b _ => ?_
    refine Does.ret ⟨⟨h.num, ?_, ?_, h.nz, h.free⟩, ?_, rfl, rfl⟩ (fun q => by simp only [Pm.own]; omega)
    all_goals (have := h.pos; have := h.le; dsimp only; omega)
  next e =>
    have := h.le
    exact Does.ret ⟨h, by omega, rfl, rfl⟩ fun _ => rfl

theorem Pm.expand_ok {p : Pm} (n : Nat) (h : p.Ok) : Does (p.expand n) p.own
    (fun q => q.Ok ∧ p.Le q ∧ q.free ≠ []) Pm.own := by
  unfold Pm.expand
  refine Does.call malloc_ok (fun _ => Nat.zero_le _) fun seg hs => ?_
  refine Does.call (Pm.room_ok h) (fun q => by omega) ?_
  rintro q ⟨hq, lt, es, ef⟩
  refine Does.use (fun q => by simp only [Pm.own]; omega) ?_
  refine Does.use (fun q => by simp only [Pm.own]; omega) ?_
  rw [if_pos lt]
  refine Does.ret ⟨⟨?_, ?_, hq.pos, ?_, ?_⟩, ?_, ?_⟩ (fun x => ?_)
  · simp [hq.num]
  · exact lt
  · intro a m
    simp only [List.mem_append, List.mem_singleton] at m
    rcases m with m | m
    · exact hq.nz a m
    · exact m ▸ hs
  · intro a m
    simp only [List.mem_append] at m ⊢
    rcases m with m | m
    · exact .inr (by simp [List.eq_of_mem_replicate m])
    · exact .inl (hq.free a m)
  · intro a m
    simp only [es, List.mem_append]
    exact .inl m
  · simp [List.replicate_succ]
  · simp only [Pm.own, sum_append, sum_cons, sum_nil]
    omega

theorem Pm.init_ok (n : Nat) : Does (Pm.init n) (fun _ => 0) (fun q => q.Ok) Pm.own := by
  unfold Pm.init
  refine Does.call malloc_ok (fun _ => Nat.zero_le _) fun a _ => ?_
  refine Does.call malloc_ok (fun _ => Nat.zero_le _) fun b _ => ?_
  refine Does.call malloc_ok (fun _ => Nat.zero_le _) fun c _ => ?_
  refine (Pm.expand_ok n ⟨rfl, Nat.zero_le _, by simp, by simp, by simp⟩).tail
    (fun q => by simp only [Pm.own, sum_nil]; omega) (fun _ h => h.1)
    (fun _ _ q => by simp only [Pm.own, sum_nil]; omega)

theorem Pm.quit_ok {p : Pm} (h : p.Ok) : Does p.quit p.own (fun _ => True) (fun _ _ => 0) := by
  unfold Pm.quit
  rw [h.num]
  refine Does.use (fun q => by simp only [Pm.own]; omega) ?_
  refine Does.call (each_ok free_ok p.segs) (fun q => by simp only [Pm.own]; omega) fun _ _ => ?_
  refine Does.use (fun q => by simp only [Pm.own]; omega) ?_
  refine Does.call (free_ok _) (fun q => by simp only [Pm.own]; omega) fun _ _ => ?_
  refine Does.call (free_ok _) (fun q => by simp only [Pm.own]; omega) fun _ _ => ?_
  exact (free_ok _).tail (fun q => by simp only [Pm.own]; omega) (fun _ h => h)
    (fun _ _ q => by simp only [Pm.own]; omega)

theorem Pm.supply_ok {p : Pm} (n : Nat) (h : p.Ok) : Does (p.supply n) p.own
    (fun q => q.Ok ∧ p.Le q ∧ q.free ≠ []) Pm.own := by
  unfold Pm.supply
  split
  next => exact Pm.expand_ok n h
  next e => exact Does.ret ⟨h, fun _ m => m, by simpa using e⟩ fun _ => rfl

theorem Pm.allocPage_ok {p : Pm} (n : Nat) (h : p.Ok) : Does (p.allocPage n) p.own
    (fun r => r.2.Ok ∧ p.Le r.2 ∧ r.1 ∈ r.2.segs) (fun r => r.2.own) := by
  unfold Pm.allocPage
  refine Does.call (Pm.supply_ok n h) (fun _ => Nat.le_refl _) ?_
  rintro q ⟨hq, le, ne⟩
  split
  next e => exact absurd e ne
  next a rest e =>
    have m : a ∈ q.segs := hq.free a (by simp [e])
    refine Does.call (touch_ok ?_) (fun _ => Nat.le_refl _) fun _ _ => ?_
    · have := sum_mem m (hq.nz a m)
      simp only [Pm.own]
      omega
    · refine Does.ret ⟨⟨hq.num, hq.le, hq.pos, hq.nz, ?_⟩, le, m⟩ (fun x => by simp only [Pm.own]; omega)
      intro b mb
      exact hq.free b (by rw [e]; exact .tail _ mb)

theorem Pm.freePage_ok {p : Pm} {a : Nat} (h : p.Ok) (m : a ∈ p.segs) : Does (p.freePage a) p.own
    (fun q => q.Ok ∧ q.segs = p.segs) Pm.own := by
  unfold Pm.freePage
  refine Does.call (touch_ok ?_) (fun _ => Nat.le_refl _) fun _ _ => ?_
  · have := sum_mem m (h.nz a m)
    simp only [Pm.own]
    omega
  · refine Does.ret ⟨⟨h.num, h.le, h.pos, h.nz, ?_⟩, rfl⟩ (fun x => by simp only [Pm.own]; omega)
    intro b mb
    rcases List.mem_cons.1 mb with e | e
    · exact e ▸ m
    · exact h.free b e

theorem giveBack_ok : ∀ (p : Pm) (as : List Nat), p.Ok → (∀ a ∈ as, a ∈ p.segs) →
    Does (giveBack p as as.length) p.own (fun q => q.Ok ∧ q.segs = p.segs) Pm.own
  | p, [], h, _ => Does.ret ⟨h, rfl⟩ fun _ => rfl
  | p, a :: as, h, m => by
    refine Does.call (Pm.freePage_ok h (m a (by simp))) (fun _ => Nat.le_refl _) ?_
    rintro q ⟨hq, es⟩
    exact (giveBack_ok q as hq fun b mb => es ▸ m b (by simp [mb])).weaken (fun p => by omega)
      (fun r h => ⟨h.1, h.2.trans es⟩) (fun _ _ _ => rfl)

theorem Nm.init_ok : Does Nm.init (fun _ => 0) (fun v => ∀ O, v.Ok O) Nm.own := by
  unfold Nm.init
  refine Does.call malloc_ok (fun _ => Nat.zero_le _) fun a _ => ?_
  refine Does.call malloc_ok (fun _ => Nat.zero_le _) fun b _ => ?_
  exact Does.ret (fun O => ⟨rfl, Nat.zero_le _, by simp, by simp⟩) fun q => by simp only [Nm.own]; omega

theorem Nm.quit_ok {v : Nm} {p : Pm} (hv : v.Ok p.segs) (hp : p.Ok) :
    Does (v.quit p) (fun q => v.own q + p.own q) (fun q => q.Ok ∧ q.segs = p.segs) Pm.own := by
  unfold Nm.quit
  rw [hv.num]
  refine Does.use (fun q => by simp only [Nm.own]; omega) ?_
  refine Does.call (giveBack_ok p v.pages hp hv.mem) (fun q => by omega) ?_
  rintro q ⟨hq, es⟩
  refine Does.use (fun q => by simp only [Nm.own]; omega) ?_
  refine Does.call (free_ok _) (fun q => by simp only [Nm.own]; omega) fun _ _ => ?_
  refine Does.call (free_ok _) (fun q => by simp only [Nm.own]; omega) fun _ _ => ?_
  exact Does.ret ⟨hq, es⟩ fun q => by simp only [Nm.own]; omega

theorem Nm.room_ok {v : Nm} {O : List Nat} (h : v.Ok O) : Does v.room v.own
    (fun w => w.Ok O ∧ w.num < w.max) Nm.own := by
  unfold Nm.room
  split
  next e =>
    refine Does.call (realloc_ok v.pageList) (fun q => by simp only [Nm.own]; omega) fun a _ => ?_
    refine Does.ret ⟨⟨h.num, ?_, ?_, h.mem⟩, ?_⟩ (fun q => by simp only [Nm.own]; omega)
    all_goals (have := h.pos; have := h.le; dsimp only; omega)
  next e =>
    have := h.le
    exact Does.ret ⟨h, by omega⟩ fun _ => rfl

theorem Nm.page_ok {v : Nm} {p : Pm} (n : Nat) (hv : v.Ok p.segs) (hp : p.Ok) :
    Does (v.page n p) (fun q => v.own q + p.own q)
      (fun r => r.1.Ok r.2.segs ∧ r.2.Ok ∧ p.Le r.2) (fun r q => r.1.own q + r.2.own q) := by
  unfold Nm.page
  refine Does.call (Pm.allocPage_ok n hp) (fun q => by omega) ?_
  rintro ⟨a, q⟩ ⟨hq, le, m⟩
  refine Does.call (Nm.room_ok (hv.mono le)) (fun q => by omega) ?_
  rintro w ⟨hw, lt⟩
  refine Does.use (fun q => by simp only [Nm.own]; omega) ?_
  rw [if_pos lt]
  refine Does.ret ⟨⟨by simp [hw.num], lt, hw.pos, ?_⟩, hq, le⟩ (fun q => by simp only [Nm.own]; omega)
  intro b mb
  simp only [List.mem_append, List.mem_singleton] at mb
  rcases mb with e | e
  · exact hw.mem b e
  · exact e ▸ m

theorem Nm.morePages_ok (n : Nat) : ∀ (k : Nat) (v : Nm) (p : Pm), v.Ok p.segs → p.Ok →
    Does (Nm.morePages n k v p) (fun q => v.own q + p.own q)
      (fun r => r.1.Ok r.2.segs ∧ r.2.Ok ∧ p.Le r.2) (fun r q => r.1.own q + r.2.own q)
  | 0, v, p, hv, hp => Does.ret ⟨hv, hp, fun _ m => m⟩ fun _ => rfl
  | k + 1, v, p, hv, hp => by
    refine Does.call (Nm.page_ok n hv hp) (fun _ => Nat.le_refl _) ?_
    rintro ⟨w, q⟩ ⟨hw, hq, le⟩
    exact (Nm.morePages_ok n k w q hw hq).weaken (fun p => by dsimp only; omega)
      (fun r h => ⟨h.1, h.2.1, fun a m => h.2.2 a (le a m)⟩) (fun _ _ _ => rfl)

/-! ## Tables and blocks -/

def Two.own (t : Two) : Res := fun q => one t.self q + one t.data q

def As.own (t : As) : Res := fun q => one t.self q + one t.va q

theorem Two.init_ok : Does Two.init (fun _ => 0) (fun _ => True) Two.own := by
  unfold Two.init
  refine Does.call malloc_ok (fun _ => Nat.zero_le _) fun a _ => ?_
  refine Does.call malloc_ok (fun _ => Nat.zero_le _) fun b _ => ?_
  exact Does.ret trivial fun q => by simp only [Two.own]; omega

theorem Two.quit_ok (t : Two) : Does t.quit t.own (fun _ => True) (fun _ _ => 0) := by
  unfold Two.quit
  refine Does.use (fun q => by simp only [Two.own]; omega) ?_
  refine Does.call (free_ok _) (fun q => by simp only [Two.own]; omega) fun _ _ => ?_
  exact (free_ok _).tail (fun q => by simp only [Two.own]; omega) (fun _ h => h)
    (fun _ _ q => by simp only [Two.own]; omega)

theorem Two.rehash_ok (t : Two) : Does t.rehash t.own (fun _ => True) Two.own := by
  unfold Two.rehash
  refine Does.call malloc_ok (fun _ => Nat.zero_le _) fun a _ => ?_
  refine Does.use (fun q => by simp only [Two.own]; omega) ?_
  refine Does.call (free_ok _) (fun q => by simp only [Two.own]; omega) fun _ _ => ?_
  exact Does.ret trivial fun q => by simp only [Two.own]; omega

theorem Two.reset_ok (t : Two) : Does t.reset t.own (fun _ => True) Two.own := by
  unfold Two.reset
  refine Does.call (free_ok _) (fun q => by simp only [Two.own]; omega) fun _ _ => ?_
  refine Does.call malloc_ok (fun _ => Nat.zero_le _) fun a _ => ?_
  exact Does.ret trivial fun q => by simp only [Two.own]; omega

theorem Two.maybeReset_ok (b : Bool) (t : Two) : Does (t.maybeReset b) t.own (fun _ => True) Two.own := by
  unfold Two.maybeReset
  split
  next => exact t.reset_ok
  next => exact Does.ret trivial fun _ => rfl

theorem rehashes_ok : ∀ (k : Nat) (t : Two), Does (rehashes k t) t.own (fun _ => True) Two.own
  | 0, _ => Does.ret trivial fun _ => rfl
  | k + 1, t => by
    refine Does.call t.rehash_ok (fun _ => Nat.le_refl _) fun u _ => ?_
    exact (rehashes_ok k u).weaken (fun p => by omega) (fun _ h => h) (fun _ _ _ => rfl)

theorem tables_ok : ∀ k : Nat, Does (tables k) (fun _ => 0) (fun ts => ts.length = k) (sum Two.own)
  | 0 => Does.ret rfl fun _ => rfl
  | k + 1 => by
    refine Does.call Two.init_ok (fun _ => Nat.zero_le _) fun t _ => ?_
    refine Does.call (tables_ok k) (fun _ => Nat.zero_le _) fun ts e => ?_
    exact Does.ret (by simp [e]) fun p => by simp only [sum_cons]; omega

def rowOwn (r : Nat × List Two) : Res := fun q => one r.1 q + sum Two.own r.2 q

theorem newRows_ok (k : Nat) : ∀ d : Nat, Does (newRows k d) (fun _ => 0)
    (fun rs => rs.length = d ∧ ∀ r ∈ rs, r.2.length = k) (sum rowOwn)
  | 0 => Does.ret (by simp) fun _ => rfl
  | d + 1 => by
    refine Does.call malloc_ok (fun _ => Nat.zero_le _) fun a _ => ?_
    refine Does.call (tables_ok k) (fun _ => Nat.zero_le _) fun ts e => ?_
    refine Does.call (newRows_ok k d) (fun _ => Nat.zero_le _) ?_
    rintro rs ⟨l, al⟩
    refine Does.ret ⟨by simp [l], ?_⟩ fun p => by simp only [sum_cons, rowOwn]; omega
    intro r m
    rcases List.mem_cons.1 m with h | h
    · subst h; exact e
    · exact al r h

theorem growRows_ok : ∀ rs : List (Nat × List Two), Does (growRows rs rs.length) (sum rowOwn rs)
    (fun qs => qs.map (·.2.length) = rs.map (·.2.length)) (sum rowOwn)
  | [] => Does.ret rfl fun _ => rfl
  | r :: rs => by
    refine Does.call (realloc_ok r.1) (fun q => by simp only [sum_cons, rowOwn]; omega) fun a _ => ?_
    refine Does.call (growRows_ok rs) (fun q => by simp only [sum_cons, rowOwn]; omega) fun qs e => ?_
    exact Does.ret (by simp [e]) fun q => by simp only [sum_cons, rowOwn]; omega

theorem addTables_ok : ∀ rs : List (Nat × List Two), Does (addTables rs rs.length) (sum rowOwn rs)
    (fun qs => qs.map (·.2.length) = rs.map (·.2.length + 1)) (sum rowOwn)
  | [] => Does.ret rfl fun _ => rfl
  | r :: rs => by
    refine Does.call Two.init_ok (fun _ => Nat.zero_le _) fun t _ => ?_
    refine Does.use (fun q => by simp only [sum_cons, rowOwn]; omega) ?_
    refine Does.call (addTables_ok rs) (fun q => by simp only [sum_cons, rowOwn]; omega) fun qs e => ?_
    exact Does.ret (by simp [e]) fun q => by simp only [sum_cons, rowOwn, sum_append, sum_nil]; omega

theorem growAssocs_ok : ∀ as : List As, Does (growAssocs as) (sum As.own as) (fun _ => True) (sum As.own)
  | [] => Does.ret trivial fun _ => rfl
  | a :: as => by
    refine Does.call (realloc_ok a.va) (fun q => by simp only [sum_cons, As.own]; omega) fun b _ => ?_
    refine Does.call (growAssocs_ok as) (fun q => by simp only [sum_cons, As.own]; omega) fun bs _ => ?_
    exact Does.ret trivial fun q => by simp only [sum_cons, As.own]; omega

theorem quitAssocs_ok : ∀ as : List As,
    Does (quitAssocs as) (sum As.own as) (fun _ => True) (fun _ _ => 0)
  | [] => Does.ret trivial fun _ => rfl
  | a :: as => by
    refine Does.use (fun q => by simp only [sum_cons, As.own]; omega) ?_
    refine Does.call (free_ok _) (fun q => by simp only [sum_cons, As.own]; omega) fun _ _ => ?_
    refine Does.call (free_ok _) (fun q => by simp only [sum_cons, As.own]; omega) fun _ _ => ?_
    exact (quitAssocs_ok as).tail (fun q => by simp only [sum_cons, As.own]; omega) (fun _ h => h)
      (fun _ _ q => by simp only [sum_cons, As.own]; omega)

theorem quitRows_ok {numVars : Nat} : ∀ rs : List (Nat × List Two), (∀ r ∈ rs, r.2.length = numVars + 1) →
    Does (quitRows numVars rs rs.length) (sum rowOwn rs) (fun _ => True) (fun _ _ => 0)
  | [], _ => Does.ret trivial fun _ => rfl
  | r :: rs, h => by
    have e := h r (by simp)
    have ih := quitRows_ok rs fun r m => h r (by simp [m])
    have one : Does (do use r.1; each Two.quit r.2 (numVars + 1); free r.1) (rowOwn r) (fun _ => True)
        (fun _ _ => 0) := by
      rw [← e]
      refine Does.use (fun q => by simp only [rowOwn]; omega) ?_
      refine Does.call (each_ok Two.quit_ok r.2) (fun q => by simp only [rowOwn]; omega) fun _ _ => ?_
      exact (free_ok _).tail (fun q => by simp only [rowOwn]; omega) (fun _ h => h)
        (fun _ _ q => by simp only [rowOwn]; omega)
    refine Does.call one (fun q => by simp only [sum_cons]; omega) fun _ _ => ?_
    exact ih.tail (fun q => by simp only [sum_cons]; omega) (fun _ h => h)
      (fun _ _ q => by simp only [sum_cons]; omega)

mutual
def Blk.own : Blk → Res
  | .mk self children kids => fun q => one self q + one children q + Blk.owns kids q
def Blk.owns : List Blk → Res
  | [] => fun _ => 0
  | b :: bs => fun q => b.own q + Blk.owns bs q
end

theorem Blk.owns_eq : ∀ bs : List Blk, Blk.owns bs = sum Blk.own bs
  | [] => by funext q; simp [Blk.owns, sum]
  | b :: bs => by funext q; simp [Blk.owns, sum, Blk.owns_eq bs]

theorem Blk.own_mk (a c : Nat) (kids : List Blk) (q : Nat) :
    Blk.own (.mk a c kids) q = one a q + one c q + sum Blk.own kids q := by
  rw [Blk.own, Blk.owns_eq]

/-- a block without children has no array of children -/
inductive Blk.Ok : Blk → Prop
  | mk {a c : Nat} {kids : List Blk} (h : kids = [] → c = 0) (hs : ∀ b ∈ kids, Blk.Ok b) :
      Blk.Ok (.mk a c kids)

mutual
theorem Blk.quit_ok : ∀ b : Blk, Does b.quit b.own (fun _ => True) (fun _ _ => 0)
  | .mk a c kids => by
    unfold Blk.quit
    refine Does.use (fun q => by simp only [Blk.own]; omega) ?_
    refine Does.call (Blk.quits_ok kids) (fun q => by simp only [Blk.own]; omega) fun _ _ => ?_
    refine Does.use (fun q => by simp only [Blk.own]; omega) ?_
    refine Does.call (free_ok _) (fun q => by simp only [Blk.own]; omega) fun _ _ => ?_
    exact (free_ok _).tail (fun q => by simp only [Blk.own]; omega) (fun _ h => h)
      (fun _ _ q => by simp only [Blk.own]; omega)
theorem Blk.quits_ok : ∀ bs : List Blk, Does (Blk.quits bs) (Blk.owns bs) (fun _ => True) (fun _ _ => 0)
  | [] => by
    unfold Blk.quits
    exact Does.ret trivial fun _ => rfl
  | b :: bs => by
    unfold Blk.quits
    refine Does.call (Blk.quit_ok b) (fun q => by simp only [Blk.owns]; omega) fun _ _ => ?_
    exact (Blk.quits_ok bs).tail (fun q => by simp only [Blk.owns]; omega) (fun _ h => h)
      (fun _ _ q => by simp only [Blk.owns]; omega)
end

theorem Blk.Ok.set {a c k : Nat} {kids : List Blk} {b : Blk} (h : (Blk.mk a c kids).Ok) (hb : b.Ok) :
    (Blk.mk a c (kids.set k b)).Ok := by
  cases h with
  | mk h hs =>
    refine .mk (fun e => h (by simpa using e)) fun x m => ?_
    rcases List.mem_or_eq_of_mem_set m with m | m
    · exact hs x m
    · exact m ▸ hb

theorem Blk.shift_ok : ∀ (path : List Nat) (i : Nat) (b : Blk), b.Ok →
    Does (b.shift path i) b.own Blk.Ok Blk.own
  | [], i, .mk a c kids, h => by
    unfold Blk.shift
    refine Does.call (realloc_ok c) (fun q => by simp only [Blk.own_mk]; omega) fun c' _ => ?_
    refine Does.call malloc_ok (fun _ => Nat.zero_le _) fun b _ => ?_
    refine Does.ret (.mk (by simp) fun x m => ?_) fun q => ?_
    · cases h with
      | mk h hs =>
        simp only [List.mem_append, List.mem_cons] at m
        rcases m with m | m | m
        · exact hs x (List.mem_of_mem_take m)
        · exact m ▸ .mk (fun _ => rfl) (by simp)
        · exact hs x (List.mem_of_mem_drop m)
    · have := sum_take_drop Blk.own i kids q
      simp only [Blk.own_mk, sum_append, sum_cons, sum_nil, one_zero]
      omega
  | k :: path, i, .mk a c kids, h => by
    unfold Blk.shift
    split
    next => exact Does.ret h fun _ => rfl
    next b e =>
      have hb : b.Ok := by
        cases h with
        | mk h hs => exact hs b (List.mem_of_getElem? e)
      refine Does.call (Blk.shift_ok path i b hb) (fun q => ?_) fun b' hb' => ?_
      · have := sum_le Blk.own q kids k b e
        simp only [Blk.own_mk]
        omega
      · refine Does.ret (h.set hb') fun q => ?_
        have := sum_le Blk.own q kids k b e
        have := sum_set Blk.own b' b q kids k e
        simp only [Blk.own_mk]
        omega

theorem Blk.maybeShift_ok (block : Option (List Nat × Nat)) {b : Blk} (h : b.Ok) :
    Does (Blk.maybeShift block b) b.own Blk.Ok Blk.own := by
  unfold Blk.maybeShift
  split
  next => exact Does.ret h fun _ => rfl
  next x => exact Blk.shift_ok x.1 x.2 b h

theorem Blk.add_ok (new : Nat) : ∀ (path : List Nat) (i n : Nat) (b : Blk), b.Ok →
    Does (b.add new path i n) (fun q => one new q + b.own q) Blk.Ok Blk.own
  | [], i, n, .mk a c kids, h => by
    unfold Blk.add
    split
    next e =>
      have e : kids = [] := by simpa using e
      refine Does.call malloc_ok (fun _ => Nat.zero_le _) fun c' _ => ?_
      refine Does.ret (.mk (by simp) fun x m => ?_) fun q => ?_
      · rw [List.mem_singleton.1 m]
        exact .mk (fun _ => rfl) (by simp)
      · cases h with
        | mk h hs =>
          have := h e
          subst this
          subst e
          simp only [Blk.own_mk, sum_cons, sum_nil, one_zero]
          omega
    next e =>
     split
     next =>
      refine Does.call (free_ok new) (fun q => by omega) fun _ _ => ?_
      exact Does.ret h fun q => by omega
     next hi =>
      refine Does.call malloc_ok (fun _ => Nat.zero_le _) fun c1 _ => ?_
      refine Does.call (realloc_ok c) (fun q => by simp only [Blk.own_mk]; omega) fun c2 _ => ?_
      refine Does.ret (.mk (by simp) fun x m => ?_) fun q => ?_
      · cases h with
        | mk h hs =>
          simp only [List.mem_append, List.mem_cons] at m
          rcases m with m | m | m
          · exact hs x (List.mem_of_mem_take m)
          · subst m
            refine .mk (fun e' => ?_) fun y my => hs y (List.mem_of_mem_drop (List.mem_of_mem_take my))
            have := congrArg List.length e'
            simp at this
            omega
          · exact hs x (List.mem_of_mem_drop (List.mem_of_mem_drop m))
      · have := sum_take_drop Blk.own i kids q
        have := sum_take_drop Blk.own (n + 1) (kids.drop i) q
        simp only [Blk.own_mk, sum_append, sum_cons]
        omega
  | k :: path, i, n, .mk a c kids, h => by
    unfold Blk.add
    split
    next =>
      refine Does.call (free_ok new) (fun q => by omega) fun _ _ => ?_
      exact Does.ret h fun q => by omega
    next b e =>
      have hb : b.Ok := by
        cases h with
        | mk h hs => exact hs b (List.mem_of_getElem? e)
      refine Does.call (Blk.add_ok new path i n b hb) (fun q => ?_) fun b' hb' => ?_
      · have := sum_le Blk.own q kids k b e
        simp only [Blk.own_mk]
        omega
      · refine Does.ret (h.set hb') fun q => ?_
        have := sum_le Blk.own q kids k b e
        have := sum_set Blk.own b' b q kids k e
        simp only [Blk.own_mk]
        omega

end Cal.Ledger
