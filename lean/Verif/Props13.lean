import Verif.MemHist

/-!
# Properties, part 13: the block allocator

`Reach top h`: the heap `h` comes from any start by any sequence of legal calls, writes of callers to their
blocks and moves of the break by others. `h.own p = some n`: the block at `p`, of `n` bytes, is held by a
caller. `h.s.got`: the ranges the system has given to the allocator. `top`: how far the system lets the
break go.
-/

namespace Cal.Mem

/-! ## C52 -/

/-- Blocks that are held do not overlap. -/
theorem C52_disjoint {top : Nat} {h : Heap} (R : Reach top h) {p n q m : Nat} (hp : h.own p = some n)
    (hq : h.own q = some m) (hne : p ≠ q) : p + n ≤ q ∨ q + m ≤ p := by
  obtain ⟨G, H⟩ := R.held
  obtain ⟨a1, a2, k, g, a3, a4⟩ := H.held p n hp
  obtain ⟨b1, b2, k', g', b3, b4⟩ := H.held q m hq
  have := H.good.inv.sep a3 b3 (by omega)
  simp only at this
  omega

/-- Blocks that are held are not empty, are not null, are aligned to 8 bytes and lie in memory that the
system gave to the allocator. -/
theorem C52_inside {top : Nat} {h : Heap} (R : Reach top h) {p n : Nat} (hp : h.own p = some n) :
    p ≠ 0 ∧ n ≠ 0 ∧ 8 ∣ p ∧ ∀ x, p ≤ x → x < p + n → ∃ r ∈ h.s.got, r.1 ≤ x ∧ x < r.1 + r.2 := by
  obtain ⟨G, H⟩ := R.held
  obtain ⟨a1, a2, k, g, a3, a4⟩ := H.held p n hp
  obtain ⟨c1, -, L, c2, c3, c4, c5⟩ := H.good.inv.shape _ _ a3
  simp only at c1 c2 c3 c4 c5
  obtain ⟨-, d2, -, -, -, d6⟩ := H.good.inv.segm _ _ c2
  refine ⟨by omega, by omega, ?_, fun x l1 l2 => d6 x (by omega) (by omega)⟩
  have : 2 ^ 3 ∣ p - 40 - (g + 16) := Nat.dvd_trans (Nat.pow_dvd_pow 2 (by omega)) c4
  omega

/-- The ranges given by the system are disjoint and below the break, and `Cal_MemAllocation` tells their
total size. -/
theorem C52_allocation {top : Nat} {h : Heap} (R : Reach top h) :
    h.s.alloc = (h.s.got.map (·.2)).sum ∧ (∀ r ∈ h.s.got, r.1 + r.2 ≤ h.s.brk) ∧
    h.s.got.Pairwise fun r r' => r'.1 + r'.2 ≤ r.1 := by
  obtain ⟨G, H⟩ := R.held
  have key : ∀ (l : List (Nat × Nat)) (brk n : Nat), GotOK brk l n →
      n = (l.map (·.2)).sum ∧ (∀ r ∈ l, r.1 + r.2 ≤ brk) ∧ l.Pairwise fun r r' => r'.1 + r'.2 ≤ r.1 := by
    intro l
    induction l with
    | nil => intro brk n h; exact ⟨h, (fun r hr => nomatch hr), List.Pairwise.nil⟩
    | cons a l ih =>
      rintro brk n ⟨h1, n', h2, h3⟩
      obtain ⟨q1, q2, q3⟩ := ih a.1 n' h3
      refine ⟨by simp only [List.map_cons, List.sum_cons]; omega, ?_, List.Pairwise.cons q2 q3⟩
      intro r hr
      rcases List.mem_cons.1 hr with rfl | hr
      · exact h1
      · have := q2 r hr; omega
  exact key _ _ _ H.good.inv.got

/-- No legal call has undefined behaviour. -/
theorem C52_defined {top : Nat} {h : Heap} (R : Reach top h) {op : Op} (hl : op.Legal h) : op.run top h ≠ .undef := by
  obtain ⟨G, H⟩ := R.held
  cases op with
  | get n =>
    simp only [Op.run]
    rcases H.get top n with ⟨q, -⟩ | ⟨s', p, G', q1, -⟩
    · rw [q]; exact fun h => nomatch h
    · rw [q1]; exact fun h => nomatch h
  | free p =>
    simp only [Op.run]
    obtain ⟨s', G', q1, -⟩ := H.free hl
    rw [q1]; exact fun h => nomatch h
  | resize p n =>
    simp only [Op.run]
    rcases H.resize top n hl with ⟨q, -⟩ | ⟨s', p, G', q1, -⟩
    · rw [q]; exact fun h => nomatch h
    · rw [q1]; exact fun h => nomatch h
  | write x v => exact fun h => nomatch h
  | other b => exact fun h => nomatch h

/-- Getting a block ends the program only if the size is near `2 ^ 62` or the system has less left than about
four times the size; otherwise it returns, for a size other than 0, a pointer to a new block; nothing in
blocks held by others changes. -/
theorem C52_get {top : Nat} {h : Heap} (R : Reach top h) (n : Nat) :
    (getBlock top h.s n = .exit ∧ (2 ^ 62 < n + 40 ∨ top < h.s.brk + 4 * (n + 40) + 2 ^ 17)) ∨
    ∃ s' p, getBlock top h.s n = .ok (s', p) ∧ (n = 0 ↔ p = 0) ∧ h.own p = none ∧
      Reach top ⟨s', give h.own p n⟩ ∧
      ∀ q m, h.own q = some m → ∀ x, x < m → s'.mem (q + x) = h.s.mem (q + x) := by
  have ⟨mem, brk, h0, S⟩ := R
  obtain ⟨G, H⟩ := R.held
  rcases H.get top n with ⟨q1, q2, -⟩ | ⟨s', p, G', q1, q2, q3, q4, q5, q6, -⟩
  · exact Or.inl ⟨q1, q2⟩
  · refine Or.inr ⟨s', p, q1, q4, q5, ⟨mem, brk, h0, S.step (.get n) p trivial ?_⟩, q6⟩
    simp only [Op.run, q1]; rfl

/-- Freeing a block that is held always succeeds; nothing in the other blocks changes and no memory is asked
of the system. -/
theorem C52_free {top : Nat} {h : Heap} (R : Reach top h) {p n : Nat} (hp : h.own p = some n) :
    ∃ s', freeBlock h.s p = .ok s' ∧ s'.brk = h.s.brk ∧ s'.got = h.s.got ∧ Reach top ⟨s', upd h.own p none⟩ ∧
      ∀ q m, q ≠ p → h.own q = some m → ∀ x, x < m → s'.mem (q + x) = h.s.mem (q + x) := by
  have ⟨mem, brk, h0, S⟩ := R
  obtain ⟨G, H⟩ := R.held
  obtain ⟨s', G', q1, q2, q3, q4, q5, -⟩ := H.free (Or.inr ⟨n, hp⟩)
  refine ⟨s', q1, q4.brk, q4.got, ⟨mem, brk, h0, S.step (.free p) 0 (Or.inr ⟨n, hp⟩) ?_⟩, q5⟩
  simp only [Op.run, q1]; rfl

/-- Resizing a block: what was in it is in the new one, up to the smaller of the sizes; nothing in the other
blocks changes; the pointer is the old one or one that nobody holds. -/
theorem C52_resize {top : Nat} {h : Heap} (R : Reach top h) {p m : Nat} (hp : h.own p = some m) (n : Nat) :
    (resizeBlock top h.s p n = .exit ∧ (2 ^ 62 < n + 40 ∨ top < h.s.brk + 4 * (n + 40) + 2 ^ 17)) ∨
    ∃ s' q, resizeBlock top h.s p n = .ok (s', q) ∧ (n = 0 ↔ q = 0) ∧ (q ≠ p → h.own q = none) ∧
      Reach top ⟨s', give (upd h.own p none) q n⟩ ∧
      (∀ x, x < m → x < n → s'.mem (q + x) = h.s.mem (p + x)) ∧
      ∀ r k, r ≠ p → h.own r = some k → ∀ x, x < k → s'.mem (r + x) = h.s.mem (r + x) := by
  have ⟨mem, brk, h0, S⟩ := R
  obtain ⟨G, H⟩ := R.held
  rcases H.resize top n (Or.inr ⟨m, hp⟩) with q | ⟨s', q, G', q1, q2, q3, q4, q5, q6, q7, -⟩
  · exact Or.inl q
  · refine Or.inr ⟨s', q, q1, q4, q5, ⟨mem, brk, h0, S.step (.resize p n) q (Or.inr ⟨m, hp⟩) ?_⟩, q7 m hp, q6⟩
    simp only [Op.run, q1]; rfl

/-- Freed memory is used again: right after a block is freed, a block of the same or a smaller size is got
without asking the system. -/
theorem C52_reuse {top : Nat} {h : Heap} (R : Reach top h) {p n : Nat} (hp : h.own p = some n) {s' : St}
    (hf : freeBlock h.s p = .ok s') {m : Nat} (hm : m ≤ n) :
    ∃ s'' q, getBlock top s' m = .ok (s'', q) ∧ s''.brk = s'.brk ∧ s''.got = s'.got := by
  obtain ⟨G, H⟩ := R.held
  obtain ⟨s₁, G', q1, q2, q3, q4, q5, q6⟩ := H.free (Or.inr ⟨n, hp⟩)
  rw [q1] at hf; cases hf
  obtain ⟨c, b, e1, e2, e3⟩ := q6 n hp
  have h62 : 2 ^ b.k ≤ 2 ^ 62 := Nat.pow_le_pow_right (by omega) (q2.good.inv.shape _ _ e1).2.1
  rcases q2.get top m with ⟨w1, w2, w3⟩ | ⟨s'', q, G'', w1, -, -, -, -, -, -, w2⟩
  · exact absurd (by omega) (w3 (by omega) c b e1 e2)
  · rcases w2 with w | ⟨-, w⟩
    · exact ⟨s'', q, w1, w.brk, w.got⟩
    · exact absurd (by omega) (w c b e1 e2)

/-- Freed buddies coalesce without losing memory: if a request was ever served, then at any later time at
which no block is held it is served again without asking the system, whatever was got, resized and freed, in
whatever order and sizes, in between. -/
theorem C52_coalesce {top : Nat} {h : Heap} (R : Reach top h) {n p : Nat} {s' : St}
    (hg : getBlock top h.s n = .ok (s', p)) {h' : Heap} (hs : Steps top ⟨s', give h.own p n⟩ h')
    (hn : ∀ q, h'.own q = none) :
    ∃ s'' q, getBlock top h'.s n = .ok (s'', q) ∧ s''.brk = h'.s.brk ∧ s''.got = h'.s.got := by
  by_cases h0 : n = 0
  · subst h0; exact ⟨h'.s, 0, rfl, rfl, rfl⟩
  obtain ⟨G, H⟩ := R.held
  rcases H.get top n with ⟨q1, -⟩ | ⟨s₁, p₁, G₁, q1, q2, -, -, -, -, q7, -⟩
  · rw [q1] at hg; cases hg
  rw [q1] at hg; cases hg
  obtain ⟨g, k, hS, hk⟩ := q7 h0
  obtain ⟨G', H', hsol⟩ := Held.steps hs q2
  obtain ⟨c, b, e1, e2, e3⟩ := (hsol _ _ _ hS).whole H'.good fun c b hc hu => by
    obtain ⟨m, hm⟩ := H'.used c b hc hu
    rw [hn] at hm; cases hm
  have hle : 2 ^ k ≤ 2 ^ b.k := Nat.pow_le_pow_right (by omega) e3
  have h62 : 2 ^ b.k ≤ 2 ^ 62 := Nat.pow_le_pow_right (by omega) (H'.good.inv.shape _ _ e1).2.1
  rcases H'.get top n with ⟨w1, w2, w3⟩ | ⟨s'', q, G'', w1, -, -, -, -, -, -, w2⟩
  · exact absurd (by omega) (w3 (by omega) c b e1 e2)
  · rcases w2 with w | ⟨-, w⟩
    · exact ⟨s'', q, w1, w.brk, w.got⟩
    · exact absurd (by omega) (w c b e1 e2)

/-! A heap with three blocks held, of which one was resized and moved; the break is moved by others. -/

namespace Demo

/-- Whether an operation is legal. -/
def legalB (h : Heap) : Op → Bool
  | .get _ => true
  | .free p => p == 0 || (h.own p).isSome
  | .resize p _ => p == 0 || (h.own p).isSome
  | .write x _ => (List.range 64).any fun i => decide (i ≤ x) && (match h.own (x - i) with | some n => decide (i < n) | none => false)
  | .other b => decide (0 < b) && h.s.got.all fun r => decide (r.1 + r.2 ≤ b)

theorem legal_ok {h : Heap} {op : Op} (hl : legalB h op = true) : op.Legal h := by
  cases op with
  | get n => trivial
  | free p =>
    simp only [legalB, Bool.or_eq_true, beq_iff_eq, Option.isSome_iff_exists] at hl; exact hl
  | resize p n =>
    simp only [legalB, Bool.or_eq_true, beq_iff_eq, Option.isSome_iff_exists] at hl; exact hl
  | write x v =>
    simp only [legalB, List.any_eq_true, Bool.and_eq_true, decide_eq_true_eq] at hl
    obtain ⟨i, -, h1, h2⟩ := hl
    split at h2
    · rename_i n e
      simp only [decide_eq_true_eq] at h2
      exact ⟨x - i, n, e, by omega, by omega⟩
    · cases h2
  | other b =>
    simp only [legalB, Bool.and_eq_true, decide_eq_true_eq, List.all_eq_true] at hl; exact hl

/-- Running a list of operations; also the pointers returned. -/
def go (top : Nat) (h : Heap) (ps : List Nat) : List Op → Option (Heap × List Nat)
  | [] => some (h, ps)
  | op :: l =>
    if legalB h op then
      match op.run top h with
      | .ok (h, r) => go top h (r :: ps) l
      | _ => none
    else none

theorem go_steps {top : Nat} : ∀ (l : List Op) {h₀ h h' : Heap} {ps ps' : List Nat}, Steps top h₀ h →
    go top h ps l = some (h', ps') → Steps top h₀ h' := by
  intro l
  induction l with
  | nil => intro h₀ h h' ps ps' S e; cases e; exact S
  | cons op l ih =>
    intro h₀ h h' ps ps' S e
    unfold go at e
    split at e
    · rename_i hl
      split at e
      · rename_i h₁ r hr
        exact ih (S.step op r (legal_ok hl) hr) e
      · cases e
    · cases e

/-- Only pointers returned are held. -/
theorem go_own {top : Nat} : ∀ (l : List Op) {h h' : Heap} {ps ps' : List Nat}, (∀ q, q ∉ ps → h.own q = none) →
    go top h ps l = some (h', ps') → ∀ q, q ∉ ps' → h'.own q = none := by
  intro l
  induction l with
  | nil => intro h h' ps ps' S e; cases e; exact S
  | cons op l ih =>
    intro h h' ps ps' S e
    unfold go at e
    split at e
    · rename_i hl
      split at e
      · rename_i h₁ r hr
        refine ih (fun q hq => ?_) e
        simp only [List.mem_cons, not_or] at hq
        obtain ⟨q1, q2⟩ := hq
        have hg : ∀ own n, own q = none → give own r n q = none := by
          intro own n ho
          unfold give
          split
          · exact ho
          · rw [upd_ne _ _ q1]; exact ho
        have hu : ∀ p, upd h.own p none q = none := by
          intro p
          by_cases e : q = p
          · rw [e, upd_same]
          · rw [upd_ne _ _ e]; exact S q q2
        cases op with
        | get n =>
          simp only [Op.run, Out.andThen] at hr
          split at hr
          · cases hr; exact hg _ n (S q q2)
          · cases hr
          · cases hr
        | free p =>
          simp only [Op.run, Out.andThen] at hr
          split at hr
          · cases hr; exact hu p
          · cases hr
          · cases hr
        | resize p n =>
          simp only [Op.run, Out.andThen] at hr
          split at hr
          · cases hr; exact hg _ n (hu p)
          · cases hr
          · cases hr
        | write x v => cases hr; exact S q q2
        | other b => cases hr; exact S q q2
      · cases e
    · cases e

def start : Heap := ⟨init (fun _ => 7) 1003, fun _ => none⟩

def script : List Op :=
  [.get 100, .get 30, .get 30, .write 1070 99, .free 1320, .resize 1448 1000, .other 40000, .get 40000, .resize 1064 20]

theorem reach {l : List Op} {P : Heap → Bool}
    (h : (match go (2 ^ 40) start [] l with | some h => P h.1 | none => false) = true) : ∃ h, Reach (2 ^ 40) h ∧ P h = true := by
  split at h
  · rename_i h' e
    exact ⟨h'.1, ⟨_, _, by decide, go_steps l (Steps.refl _) (ps' := h'.2) e⟩, h⟩
  · cases h

/-- The pointers, the sizes, what was written and where memory came from. -/
theorem heap : ∃ h, Reach (2 ^ 40) h ∧
    (h.own 1064 == some 20 && h.own 3112 == some 1000 && h.own 40056 == some 40000 && h.own 1320 == none &&
      h.s.mem 1070 == 99 && h.s.got == [(40000, 65552), (1003, 32789)]) = true :=
  reach (l := script) (by decide +kernel)

/-- The hypotheses of `C52_coalesce`: the first request, then all freed in another order. -/
theorem drained : ∃ s' p h', getBlock (2 ^ 40) start.s 5000 = .ok (s', p) ∧
    Steps (2 ^ 40) ⟨s', give start.own p 5000⟩ h' ∧ ∀ q, h'.own q = none := by
  have h : (match getBlock (2 ^ 40) start.s 5000 with
    | .ok (s', p) =>
      (match go (2 ^ 40) ⟨s', give start.own p 5000⟩ [p]
          [.get 100, .free 1064, .get 3000, .get 200, .free 9256, .free 13352, .free 9512] with
        | some (h, ps) => ps.all fun q => h.own q == none
        | none => false)
    | _ => false) = true := by decide +kernel
  split at h
  · rename_i s' p e
    split at h
    · rename_i h' ps e'
      refine ⟨s', p, h', e, go_steps _ (Steps.refl _) e', fun q => ?_⟩
      by_cases hq : q ∈ ps
      · simp only [List.all_eq_true, beq_iff_eq] at h
        exact h q hq
      · refine go_own _ ?_ e' q hq
        intro q hq
        simp only [List.mem_singleton] at hq
        show give start.own p 5000 q = none
        unfold give
        split
        · rfl
        · rw [upd_ne _ _ hq]; rfl
    · cases h
  · cases h

end Demo

end Cal.Mem
