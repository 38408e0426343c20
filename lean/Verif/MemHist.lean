import Verif.MemApi

/-!
# Histories of the block allocator

The blocks that callers hold, and what they and others in the process may do.
-/

namespace Cal.Mem

/-- The allocator and the blocks handed out: the number of bytes asked for, by pointer. -/
structure Heap where
  s : St
  own : Nat → Option Nat

/-- What can happen: the three calls, a write by a caller to its block, another part of the process moving
the break. -/
inductive Op
  | get (n : Nat)
  | free (p : Nat)
  | resize (p n : Nat)
  | write (x v : Nat)
  | other (brk : Nat)

/-- A pointer handed out; a null pointer is no block. -/
def give (own : Nat → Option Nat) (p n : Nat) : Nat → Option Nat := if p = 0 then own else upd own p (some n)

/-- What is legal: a null pointer or a block that is held; writing to a block that is held; moving the break
while leaving the allocator its memory. -/
def Op.Legal (h : Heap) : Op → Prop
  | .get _ => True
  | .free p => p = 0 ∨ ∃ n, h.own p = some n
  | .resize p _ => p = 0 ∨ ∃ n, h.own p = some n
  | .write x _ => ∃ p n, h.own p = some n ∧ p ≤ x ∧ x < p + n
  | .other b => 0 < b ∧ ∀ r ∈ h.s.got, r.1 + r.2 ≤ b

/-- What happens, and the pointer returned. -/
def Op.run (top : Nat) (h : Heap) : Op → Out (Heap × Nat)
  | .get n => (getBlock top h.s n).andThen fun r => .ok (⟨r.1, give h.own r.2 n⟩, r.2)
  | .free p => (freeBlock h.s p).andThen fun s => .ok (⟨s, upd h.own p none⟩, 0)
  | .resize p n => (resizeBlock top h.s p n).andThen fun r => .ok (⟨r.1, give (upd h.own p none) r.2 n⟩, r.2)
  | .write x v => .ok (⟨h.s.set x v, h.own⟩, 0)
  | .other b => .ok (⟨{ h.s with brk := b }, h.own⟩, 0)

/-- From one heap to a later one. -/
inductive Steps (top : Nat) : Heap → Heap → Prop
  | refl (h : Heap) : Steps top h h
  | step {h h' h'' : Heap} (op : Op) (r : Nat) : Steps top h h' → op.Legal h' → op.run top h' = .ok (h'', r) → Steps top h h''

/-- The heaps of a program: whatever was in memory and wherever the break was. -/
def Reach (top : Nat) (h : Heap) : Prop := ∃ mem brk, 0 < brk ∧ Steps top ⟨init mem brk, fun _ => none⟩ h

/-- The invariant with the callers. -/
structure Held (h : Heap) (G : Gh) : Prop where
  good : Good h.s G
  null : h.own 0 = none
  held : ∀ p n, h.own p = some n → 1 ≤ n ∧ 40 ≤ p ∧ ∃ k g, G.blk (p - 40) = some ⟨k, .used, g⟩ ∧ n + 40 ≤ 2 ^ k
  used : ∀ a b, G.blk a = some b → b.st = .used → ∃ n, h.own (a + 40) = some n

theorem Held.init (mem : Nat → Nat) {brk : Nat} (h : 0 < brk) :
    Held ⟨Mem.init mem brk, fun _ => none⟩ ⟨fun _ => none, fun _ => none, fun _ => []⟩ := by
  refine ⟨⟨?_, ?_, ?_⟩, rfl, ?_, ?_⟩
  · constructor
    · intro a b h; cases h
    · intro a b h; cases h
    · intro a b h; cases h
    · intro a b h; cases h
    · intro a b _ _ h; cases h
    · intro a b _ _ h; cases h
    · intro g h; cases h
    · intro i _; rfl
    · intro i; exact List.nodup_nil
    · intro i a
      constructor
      · intro h; cases h
      · rintro ⟨b, h, -⟩; cases h
    · exact h
    · rfl
  · intro g L h; cases h
  · intro g L h; cases h
  · intro p n h; cases h
  · intro p n h; cases h

/-- Writing in a block that is held. -/
theorem Held.write {h : Heap} {G : Gh} (H : Held h G) {x v p n : Nat} (hp : h.own p = some n) (h1 : p ≤ x) (h2 : x < p + n) :
    Held ⟨h.s.set x v, h.own⟩ G := by
  obtain ⟨q1, q2, k, g, q3, q4⟩ := H.held p n hp
  have ho : Inv.Out G x := H.good.inv.out_pay q3 (by omega) (by simp only; omega)
  refine ⟨⟨H.good.inv.frame ⟨rfl, rfl, rfl, rfl⟩ rfl ?_ ?_, ?_, H.good.noLoose⟩, H.null, H.held, H.used⟩
  · intro a b hab i hi
    refine upd_ne _ _ fun e => ?_
    have := ho a b hab
    omega
  · intro g' L hg
    refine upd_ne _ _ fun e => ?_
    have := H.good.inv.seg_out hg q3
    simp only at this
    omega
  · intro g' L hg
    obtain ⟨w1, w2⟩ := H.good.lim g' L hg
    refine ⟨?_, w2⟩
    refine (upd_ne _ _ fun e => ?_).trans w1
    have := H.good.inv.seg_out hg q3
    simp only [oLimit] at this e
    omega

/-- Others moving the break. -/
theorem Held.other {h : Heap} {G : Gh} (H : Held h G) {b : Nat} (h0 : 0 < b) (hb : ∀ r ∈ h.s.got, r.1 + r.2 ≤ b) :
    Held ⟨{ h.s with brk := b }, h.own⟩ G := by
  refine ⟨⟨?_, H.good.lim, H.good.noLoose⟩, H.null, H.held, H.used⟩
  have I := H.good.inv
  constructor
  · exact I.hdr
  · exact I.shape
  · intro g L hg
    obtain ⟨h1, h2, h3, h4, h5, h6⟩ := I.segm g L hg
    refine ⟨h1, h2, h3, h4, ?_, h6⟩
    obtain ⟨r, r1, r2, r3⟩ := h6 (g + 16 + L - 1) (by omega) (by omega)
    have := hb r r1
    show g + 16 + L ≤ b
    omega
  · exact I.cover
  · exact I.disj
  · exact I.segdisj
  · exact I.curr
  · exact I.ring
  · exact I.nodup
  · exact I.flmem
  · exact h0
  · have := I.got
    show GotOK b h.s.got h.s.alloc
    revert this
    cases hg : h.s.got with
    | nil => exact fun h => h
    | cons r l => rintro ⟨-, h2⟩; exact ⟨hb r (by rw [hg]; exact List.mem_cons_self), h2⟩

theorem Held.get {h : Heap} {G : Gh} (H : Held h G) (top n : Nat) :
    (getBlock top h.s n = .exit ∧ (2 ^ 62 < n + 40 ∨ top < h.s.brk + 4 * (n + 40) + 2 ^ 17) ∧
      (n + 40 ≤ 2 ^ 62 → ∀ c b, G.blk c = some b → b.st = .free → ¬ n + 40 ≤ 2 ^ b.k)) ∨
    ∃ s' p G', getBlock top h.s n = .ok (s', p) ∧ Held ⟨s', give h.own p n⟩ G' ∧ Sol G G' ∧
      (n = 0 ↔ p = 0) ∧ h.own p = none ∧
      (∀ q m, h.own q = some m → ∀ x, x < m → s'.mem (q + x) = h.s.mem (q + x)) ∧
      (n ≠ 0 → ∃ g k, Solid G' g (p - 40) k ∧ n + 40 ≤ 2 ^ k) ∧
      (Rest h.s s' ∨ (Gave h.s s' top ∧ ∀ c b, G.blk c = some b → b.st = .free → ¬ n + 40 ≤ 2 ^ b.k)) := by
  by_cases h0 : n = 0
  · subst h0
    right
    refine ⟨h.s, 0, G, rfl, ?_, Sol.refl G, Iff.rfl, H.null, fun _ _ _ _ _ => rfl, fun h => absurd rfl h, Or.inl (Rest.refl _)⟩
    unfold give
    rw [if_pos rfl]; exact H
  rcases H.good.getBlock_ok (size := n) top (by omega) with q | ⟨s', p, G', i, g, q1, q2, q3, q4, q5, q6, q7, q8, q9⟩
  · exact Or.inl q
  right
  have hpn : h.own p = none := by
    cases e : h.own p with
    | none => rfl
    | some m =>
      obtain ⟨-, -, k, g', w, -⟩ := H.held p m e
      exact absurd rfl (q8 _ w)
  have hne : ∀ q m, h.own q = some m → q ≠ p := by rintro q m e rfl; rw [hpn] at e; cases e
  have hp40 : p - 40 + 40 = p := by omega
  refine ⟨s', p, G', q1, ?_, q4.sol, ⟨fun h => absurd h h0, fun h => by omega⟩, hpn, ?_, ?_, q9⟩
  · unfold give
    rw [if_neg (by omega)]
    refine ⟨q2, ?_, ?_, ?_⟩
    · simp only; rw [upd_ne _ _ (by omega)]; exact H.null
    · intro q m hq
      simp only at hq
      by_cases e : q = p
      · subst e; rw [upd_same] at hq; cases hq
        exact ⟨by omega, q3, i, g, q5, q6⟩
      · rw [upd_ne _ _ e] at hq
        obtain ⟨w1, w2, k, g', w3, w4⟩ := H.held q m hq
        exact ⟨w1, w2, k, g', (q4.keep _ _ w3 rfl fun h => h).1, w4⟩
    · intro a b hab hu
      by_cases e : a = p - 40
      · subst e; rw [hp40]; exact ⟨n, upd_same _ _ _⟩
      · obtain ⟨w, -⟩ := q4.back a b hab hu e
        obtain ⟨m, hm⟩ := H.used a b w hu
        exact ⟨m, by simp only; rw [upd_ne _ _ (by omega)]; exact hm⟩
  · intro q m hq x hx
    obtain ⟨w1, w2, k, g', w3, w4⟩ := H.held q m hq
    exact (q4.keep _ _ w3 rfl fun h => h).2 _ (by omega) (by simp only; omega)
  · intro _
    refine ⟨g, i, ?_, q6⟩
    obtain ⟨-, -, L, e1, e2, e3, e4⟩ := q2.inv.shape _ _ q5
    simp only at e1 e2 e3 e4
    refine ⟨⟨L, e1, e4⟩, e2, e3, fun j c d hB l1 l2 l3 l4 hc hd => ?_⟩
    -- all of the range is the one block
    have pj := q2.inv.size hc
    simp only at pj
    by_cases e : c = p - 40
    · subst e; rw [q5] at hc; cases hc
    · have := q2.inv.sep hc q5 e
      simp only at this
      omega

theorem Held.free {h : Heap} {G : Gh} (H : Held h G) {p : Nat} (hp : p = 0 ∨ ∃ n, h.own p = some n) :
    ∃ s' G', freeBlock h.s p = .ok s' ∧ Held ⟨s', upd h.own p none⟩ G' ∧ Sol G G' ∧ Rest h.s s' ∧
      (∀ q m, q ≠ p → h.own q = some m → ∀ x, x < m → s'.mem (q + x) = h.s.mem (q + x)) ∧
      (∀ n, h.own p = some n → ∃ c b, G'.blk c = some b ∧ b.st = .free ∧ n + 40 ≤ 2 ^ b.k) := by
  by_cases h0 : p = 0
  · subst h0
    refine ⟨h.s, G, rfl, ?_, Sol.refl G, Rest.refl _, fun _ _ _ _ _ _ => rfl, fun n hn => by rw [H.null] at hn; cases hn⟩
    have : upd h.own 0 none = h.own := by
      funext x
      by_cases e : x = 0
      · subst e; rw [upd_same, H.null]
      · rw [upd_ne _ _ e]
    rw [this]; exact H
  obtain ⟨n, hn⟩ := hp.resolve_left h0
  obtain ⟨w1, w2, k, g, w3, w4⟩ := H.held p n hn
  obtain ⟨s', G', a', k', q1, q2, q3, q4, q5, q6, q7, -⟩ := H.good.freeBlock_ok w2 w3
  refine ⟨s', G', q1, ⟨q2, ?_, ?_, ?_⟩, q4.sol, q3, ?_, ?_⟩
  · simp only; rw [upd_ne _ _ (by omega)]; exact H.null
  · intro q m hq
    simp only at hq
    have e : q ≠ p := by rintro rfl; rw [upd_same] at hq; cases hq
    rw [upd_ne _ _ e] at hq
    obtain ⟨v1, v2, k', g', v3, v4⟩ := H.held q m hq
    exact ⟨v1, v2, k', g', (q4.keep _ _ v3 rfl (by omega)).1, v4⟩
  · intro a b hab hu
    obtain ⟨w, hne⟩ := q4.back a b hab hu fun h => h
    obtain ⟨m, hm⟩ := H.used a b w hu
    exact ⟨m, by simp only; rw [upd_ne _ _ (by omega)]; exact hm⟩
  · intro q m e hq x hx
    obtain ⟨v1, v2, k', g', v3, v4⟩ := H.held q m hq
    exact (q4.keep _ _ v3 rfl (by omega)).2 _ (by omega) (by simp only; omega)
  · intro n' hn'
    rw [hn] at hn'; cases hn'
    exact ⟨a', _, q5, rfl, by simp only; omega⟩

theorem Held.resize {h : Heap} {G : Gh} (H : Held h G) (top n : Nat) {p : Nat} (hp : p = 0 ∨ ∃ n, h.own p = some n) :
    (resizeBlock top h.s p n = .exit ∧ (2 ^ 62 < n + 40 ∨ top < h.s.brk + 4 * (n + 40) + 2 ^ 17)) ∨
    ∃ s' q G', resizeBlock top h.s p n = .ok (s', q) ∧ Held ⟨s', give (upd h.own p none) q n⟩ G' ∧ Sol G G' ∧
      (n = 0 ↔ q = 0) ∧ (q ≠ p → h.own q = none) ∧
      (∀ r m, r ≠ p → h.own r = some m → ∀ x, x < m → s'.mem (r + x) = h.s.mem (r + x)) ∧
      (∀ m, h.own p = some m → ∀ x, x < m → x < n → s'.mem (q + x) = h.s.mem (p + x)) ∧
      (Rest h.s s' ∨ Gave h.s s' top) := by
  have hz : upd h.own 0 none = h.own := by
    funext x
    by_cases e : x = 0
    · subst e; rw [upd_same, H.null]
    · rw [upd_ne _ _ e]
  by_cases h0 : p = 0
  · subst h0
    have e : resizeBlock top h.s 0 n = getBlock top h.s n := rfl
    rw [e, hz]
    rcases H.get top n with ⟨q1, q2, -⟩ | ⟨s', q, G', q1, q2, q3, q4, q5, q6, q7, q8⟩
    · exact Or.inl ⟨q1, q2⟩
    · exact Or.inr ⟨s', q, G', q1, q2, q3, q4, fun _ => q5, fun r m _ => q6 r m, (fun m hm => by rw [H.null] at hm; cases hm),
        q8.elim Or.inl fun h => Or.inr h.1⟩
  obtain ⟨m, hm⟩ := hp.resolve_left h0
  obtain ⟨w1, w2, k, g, w3, w4⟩ := H.held p m hm
  by_cases hn : n = 0
  · subst hn
    right
    obtain ⟨s', G', q1, q2, q3, q4, q5, -⟩ := H.free hp
    have e := H.good.inv.hdr _ _ w3
    have hk := (H.good.inv.shape _ _ w3).2.1
    refine ⟨s', 0, G', ?_, ?_, q3, Iff.rfl, fun _ => H.null, q5, fun m hm x _ hx => absurd hx (by omega), Or.inl q4⟩
    · unfold resizeBlock
      rw [if_neg h0]
      simp only [show hdr = 40 from rfl]
      rw [if_neg (e.2.2.2 rfl), e.1, if_neg (show ¬ k > maxIdx from by simp only [maxIdx] at *; omega), if_pos (by omega), q1]
      rfl
    · unfold give; rw [if_pos rfl]; exact q2
  rcases H.good.resizeBlock_ok (size := n) top w2 w3 (by omega) with q | ⟨s', q, G', i, g', q1, q2, q3, q4, q5, q6, q7, q8, q9⟩
  · exact Or.inl q
  right
  have hqn : q ≠ p → h.own q = none := by
    intro hne
    cases e : h.own q with
    | none => rfl
    | some m =>
      obtain ⟨-, -, k, g', w, -⟩ := H.held q m e
      exact absurd rfl (q7 hne _ w)
  refine ⟨s', q, G', q1, ?_, q4.sol, ⟨fun h => absurd h hn, fun h => by omega⟩, hqn, ?_, ?_, q9⟩
  · unfold give
    rw [if_neg (by omega)]
    refine ⟨q2, ?_, ?_, ?_⟩
    · simp only; rw [upd_ne _ _ (by omega), upd_ne _ _ (by omega)]; exact H.null
    · intro r m hr
      simp only at hr
      by_cases e : r = q
      · subst e; rw [upd_same] at hr; cases hr
        exact ⟨by omega, q3, i, g', q5, q6⟩
      · rw [upd_ne _ _ e] at hr
        have e' : r ≠ p := by rintro rfl; rw [upd_same] at hr; cases hr
        rw [upd_ne _ _ e'] at hr
        obtain ⟨v1, v2, k', g', v3, v4⟩ := H.held r m hr
        exact ⟨v1, v2, k', g', (q4.keep _ _ v3 rfl (by omega)).1, v4⟩
    · intro a b hab hu
      by_cases e : a = q - 40
      · subst e; rw [show q - 40 + 40 = q by omega]; exact ⟨n, upd_same _ _ _⟩
      · obtain ⟨w, hne⟩ := q4.back a b hab hu e
        obtain ⟨m, hm⟩ := H.used a b w hu
        exact ⟨m, by simp only; rw [upd_ne _ _ (by omega), upd_ne _ _ (by omega)]; exact hm⟩
  · intro r m e hr x hx
    obtain ⟨v1, v2, k', g', v3, v4⟩ := H.held r m hr
    exact (q4.keep _ _ v3 rfl (by omega)).2 _ (by omega) (by simp only; omega)
  · intro m' hm' x l1 l2
    rw [hm] at hm'; cases hm'
    exact q8 x l2 (by omega)

/-- One step. -/
theorem Held.step {h : Heap} {G : Gh} (H : Held h G) (top : Nat) {op : Op} (hl : op.Legal h) {h' : Heap} {r : Nat}
    (hr : op.run top h = .ok (h', r)) : ∃ G', Held h' G' ∧ Sol G G' := by
  cases op with
  | get n =>
    simp only [Op.run] at hr
    rcases H.get top n with ⟨q, -⟩ | ⟨s', p, G', q1, q2, q3, -⟩
    · rw [q] at hr; cases hr
    · rw [q1] at hr; cases hr; exact ⟨G', q2, q3⟩
  | free p =>
    simp only [Op.run] at hr
    obtain ⟨s', G', q1, q2, q3, -⟩ := H.free hl
    rw [q1] at hr; cases hr; exact ⟨G', q2, q3⟩
  | resize p n =>
    simp only [Op.run] at hr
    rcases H.resize top n hl with ⟨q, -⟩ | ⟨s', p, G', q1, q2, q3, -⟩
    · rw [q] at hr; cases hr
    · rw [q1] at hr; cases hr; exact ⟨G', q2, q3⟩
  | write x v =>
    obtain ⟨p, n, l1, l2, l3⟩ := hl
    cases hr
    exact ⟨G, H.write l1 l2 l3, Sol.refl G⟩
  | other b =>
    cases hr
    exact ⟨G, H.other hl.1 hl.2, Sol.refl G⟩

theorem Held.steps {top : Nat} {h h' : Heap} (S : Steps top h h') : ∀ {G : Gh}, Held h G → ∃ G', Held h' G' ∧ Sol G G' := by
  induction S with
  | refl => intro G H; exact ⟨G, H, Sol.refl G⟩
  | step op r _ hl hr ih =>
    intro G H
    obtain ⟨G1, H1, s1⟩ := ih H
    obtain ⟨G2, H2, s2⟩ := H1.step top hl hr
    exact ⟨G2, H2, s1.trans s2⟩

theorem Reach.held {top : Nat} {h : Heap} (R : Reach top h) : ∃ G, Held h G := by
  obtain ⟨mem, brk, h0, S⟩ := R
  obtain ⟨G, H, -⟩ := Held.steps S (Held.init mem h0)
  exact ⟨G, H⟩

/-- A range without free buddies that has no block in use is in one free block. -/
theorem Solid.whole {s : St} {G : Gh} (I : Good s G) {g a k : Nat} (h : Solid G g a k)
    (hf : ∀ c b, G.blk c = some b → b.st ≠ .used) : ∃ c b, G.blk c = some b ∧ b.st = .free ∧ k ≤ b.k := by
  obtain ⟨⟨L, h1, h2⟩, h3, h4, h5⟩ := h
  have free : ∀ c b, G.blk c = some b → b.st = .free := by
    intro c b hc
    cases e : b.st with
    | free => rfl
    | used => exact absurd e (hf c b hc)
    | loose => exact absurd e (I.noLoose c b hc)
  have pk := Nat.two_pow_pos k
  -- no smaller block in the range
  have small : ∀ j, j < k → ∀ c, a ≤ c → c + 2 ^ j ≤ a + 2 ^ k → G.blk c = some ⟨j, .free, g⟩ → False := by
    intro j
    induction j using Nat.strongRecOn with
    | ind j ih =>
      intro hjk c l1 l2 hc
      have pj := Nat.two_pow_pos j
      have p2 := pow_two j
      obtain ⟨-, -, L', e1, e2, e3, e4⟩ := I.inv.shape _ _ hc
      simp only at e1 e2 e3 e4
      obtain ⟨u, hu⟩ := h4
      obtain ⟨w, hw⟩ : 2 ^ (j + 1) ∣ 2 ^ k := Nat.pow_dvd_pow 2 (by omega)
      obtain ⟨v, hv⟩ := e3
      have hku : 2 ^ k * u = 2 ^ (j + 1) * (w * u) := by rw [hw, Nat.mul_assoc]
      -- the pair
      generalize hq : v / 2 = q
      have hvq : v = 2 * q ∨ v = 2 * q + 1 := by omega
      have hm : 2 ^ (j + 1) * q = 2 ^ j * (2 * q) := by rw [Nat.pow_succ, Nat.mul_assoc]
      have hm1 : 2 ^ j * (2 * q + 1) = 2 ^ (j + 1) * q + 2 ^ j := by rw [Nat.mul_add, Nat.mul_one, hm]
      generalize hM : g + 16 + 2 ^ (j + 1) * q = m at *
      have hcm : c = m ∨ c = m + 2 ^ j := by
        rcases hvq with e | e
        · left; rw [e, ← hm] at hv; omega
        · right; rw [e, hm1] at hv; omega
      have ham : a ≤ m ∧ m + 2 ^ (j + 1) ≤ a + 2 ^ k := by
        have x1 : 2 ^ (j + 1) * (w * u) < 2 ^ (j + 1) * (q + 1) := by rw [Nat.mul_add, Nat.mul_one]; omega
        have x1' := Nat.lt_of_mul_lt_mul_left x1
        have x2 : 2 ^ (j + 1) * (w * u) ≤ 2 ^ (j + 1) * q := Nat.mul_le_mul_left _ (by omega)
        have x3 : 2 ^ (j + 1) * q < 2 ^ (j + 1) * (w * u + w) := by
          rw [Nat.mul_add, ← hw]; omega
        have x3' := Nat.lt_of_mul_lt_mul_left x3
        have x4 : 2 ^ (j + 1) * (q + 1) ≤ 2 ^ (j + 1) * (w * u + w) := Nat.mul_le_mul_left _ (by omega)
        rw [Nat.mul_add, Nat.mul_add, ← hw, Nat.mul_one] at x4
        omega
      have hmd : 2 ^ (j + 1) ∣ m - (g + 16) := ⟨q, by omega⟩
      -- the other half
      have hd : ∃ d, BuddyOf g j c d ∧ (d = m ∨ d = m + 2 ^ j) ∧ d ≠ c := by
        rcases hcm with e | e
        · exact ⟨m + 2 ^ j, Or.inl ⟨by omega, by rw [e]; exact hmd⟩, Or.inr rfl, by omega⟩
        · exact ⟨m, Or.inr ⟨by omega, by omega, hmd⟩, Or.inl rfl, by omega⟩
      obtain ⟨d, hB, hdm, hdc⟩ := hd
      obtain ⟨e, b, f1, f2, f3, f4⟩ := I.inv.cover g L h1 d (by omega) (by omega)
      obtain ⟨i, st, g'⟩ := b
      simp only at f2 f4
      have hst := free _ _ f1
      simp only at hst
      subst hst f2
      obtain ⟨-, -, L'', -, t2, t3, t4⟩ := I.inv.shape _ _ f1
      simp only at t2 t3 t4
      have hdd : 2 ^ j ∣ d - (g' + 16) := by
        have hmj : 2 ^ j ∣ m - (g' + 16) := Nat.dvd_trans (Nat.pow_dvd_pow 2 (by omega)) hmd
        rcases hdm with rfl | rfl
        · exact hmj
        · rw [show m + 2 ^ j - (g' + 16) = m - (g' + 16) + 2 ^ j by omega]
          exact Nat.dvd_add hmj (Nat.dvd_refl _)
      rcases Nat.lt_or_ge j i with hij | hij
      · -- it would contain the block
        obtain ⟨y, hy⟩ := Nat.dvd_trans (Nat.pow_dvd_pow 2 (by omega : j + 1 ≤ i)) t3
        obtain ⟨z, hz⟩ : 2 ^ (j + 1) ∣ 2 ^ i := Nat.pow_dvd_pow 2 (by omega)
        have x1 : 2 ^ (j + 1) * y < 2 ^ (j + 1) * (q + 1) := by rw [Nat.mul_add, Nat.mul_one]; omega
        have x1' := Nat.lt_of_mul_lt_mul_left x1
        have x2 : 2 ^ (j + 1) * y ≤ 2 ^ (j + 1) * q := Nat.mul_le_mul_left _ (by omega)
        have x3 : 2 ^ (j + 1) * q < 2 ^ (j + 1) * (y + z) := by rw [Nat.mul_add, ← hz]; omega
        have x3' := Nat.lt_of_mul_lt_mul_left x3
        have x4 : 2 ^ (j + 1) * (q + 1) ≤ 2 ^ (j + 1) * (y + z) := Nat.mul_le_mul_left _ (by omega)
        rw [Nat.mul_add, Nat.mul_add, ← hz, Nat.mul_one] at x4
        by_cases ec : e = c
        · subst ec; rw [hc] at f1; cases f1; omega
        · have := I.inv.sep hc f1 (Ne.symm ec)
          simp only at this
          omega
      · -- it begins at the same place
        have ed : e = d := by
          obtain ⟨y, hy⟩ := t3
          obtain ⟨z, hz⟩ := Nat.dvd_trans (Nat.pow_dvd_pow 2 hij) hdd
          have x1 : 2 ^ i * y ≤ 2 ^ i * z := by omega
          have x2 : 2 ^ i * z < 2 ^ i * (y + 1) := by rw [Nat.mul_add, Nat.mul_one]; omega
          have x1' := Nat.le_of_mul_le_mul_left x1 (Nat.two_pow_pos i)
          have x2' := Nat.lt_of_mul_lt_mul_left x2
          have : y = z := by omega
          subst this
          omega
        subst ed
        rcases Nat.lt_or_eq_of_le hij with hlt | rfl
        · have : 2 ^ i ≤ 2 ^ j := Nat.pow_le_pow_right (by omega) hij
          exact ih i hlt (by omega) e (by omega) (by omega) f1
        · exact h5 i c e hB l1 l2 (by omega) (by omega) hc f1
  obtain ⟨e, ⟨i, st, g'⟩, f1, f2, f3, f4⟩ := I.inv.cover g L h1 a (by omega) (by omega)
  have hst := free _ _ f1
  simp only at hst f2 f4
  subst hst f2
  refine ⟨e, _, f1, rfl, ?_⟩
  apply Classical.byContradiction
  intro hlt
  simp only at hlt
  obtain ⟨-, -, L'', -, t2, t3, t4⟩ := I.inv.shape _ _ f1
  simp only at t2 t3 t4
  have ed : e = a := by
    obtain ⟨y, hy⟩ := t3
    obtain ⟨z, hz⟩ := Nat.dvd_trans (Nat.pow_dvd_pow 2 (by omega : i ≤ k)) h4
    have x1 : 2 ^ i * y ≤ 2 ^ i * z := by omega
    have x2 : 2 ^ i * z < 2 ^ i * (y + 1) := by rw [Nat.mul_add, Nat.mul_one]; omega
    have x1' := Nat.le_of_mul_le_mul_left x1 (Nat.two_pow_pos i)
    have x2' := Nat.lt_of_mul_lt_mul_left x2
    have : y = z := by omega
    subst this
    omega
  subst ed
  have : 2 ^ i ≤ 2 ^ k := Nat.pow_le_pow_right (by omega) (by omega)
  exact small i (by omega) e (Nat.le_refl _) (by omega) f1

end Cal.Mem
