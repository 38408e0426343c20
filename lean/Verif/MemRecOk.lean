import Verif.MemRec
import Verif.Props13

/-!
# The record managers are right

The invariant: which blocks the record managers hold, and the lists that go through memory.
-/

namespace Cal.Mem

/-- A list in memory. -/
def Linked (mem : Nat → Nat) : Nat → List Nat → Prop
  | a, [] => a = 0
  | a, b :: l => a = b ∧ a ≠ 0 ∧ Linked mem (mem b) l

theorem Linked.congr {mem mem' : Nat → Nat} : ∀ {l : List Nat} {a : Nat}, Linked mem a l → (∀ b ∈ l, mem' b = mem b) → Linked mem' a l := by
  intro l
  induction l with
  | nil => intro a h _; exact h
  | cons b l ih =>
    rintro a ⟨h1, h2, h3⟩ hm
    refine ⟨h1, h2, ?_⟩
    rw [hm b List.mem_cons_self]
    exact ih h3 fun c hc => hm c (List.mem_cons_of_mem _ hc)

/-- A place for a record in one of the blocks. -/
def Slot (sz : Nat) (bl : List Nat) (r : Nat) : Prop := ∃ b ∈ bl, ∃ i, i < 4048 / recSize sz ∧ r = b + 8 + recSize sz * i

theorem recSize_ge (sz : Nat) : 8 ≤ recSize sz ∧ sz ≤ recSize sz ∧ 8 ∣ recSize sz := by
  unfold recSize roundup listSize
  split <;> exact ⟨by omega, by omega, Nat.dvd_mul_left _ _⟩

theorem slot_in {sz b i : Nat} (hi : i < 4048 / recSize sz) : b + 8 + recSize sz * i + recSize sz ≤ b + 4056 := by
  have h1 : recSize sz * (i + 1) ≤ recSize sz * (4048 / recSize sz) := Nat.mul_le_mul_left _ hi
  have h2 := Nat.mul_div_le 4048 (recSize sz)
  rw [Nat.mul_add, Nat.mul_one] at h1
  omega

/-- What a record manager has in memory. -/
structure MgrOK (mem : Nat → Nat) (m sz : Nat) (bl fr : List Nat) : Prop where
  fits : recSize sz ≤ 4048
  size : mem m = recSize sz
  recs : mem (m + 4) = 4048 / recSize sz
  free : Linked mem (mem (m + 8)) fr
  blocks : Linked mem (mem (m + 16)) bl
  num : mem (m + 24) = bl.length
  ndb : bl.Nodup
  ndf : fr.Nodup

theorem MgrOK.congr {mem mem' : Nat → Nat} {m sz : Nat} {bl fr : List Nat} (h : MgrOK mem m sz bl fr)
    (hm : ∀ x, x < 32 → mem' (m + x) = mem (m + x)) (hb : ∀ b ∈ bl, mem' b = mem b) (hf : ∀ r ∈ fr, mem' r = mem r) :
    MgrOK mem' m sz bl fr := by
  refine ⟨h.fits, ?_, ?_, ?_, ?_, ?_, h.ndb, h.ndf⟩
  · exact (hm 0 (by omega)).trans h.size
  · rw [hm 4 (by omega)]; exact h.recs
  · rw [hm 8 (by omega)]; exact h.free.congr hf
  · rw [hm 16 (by omega)]; exact h.blocks.congr hb
  · rw [hm 24 (by omega)]; exact h.num

/-- The heap `h` comes from the heap `z` of a program. -/
def From (top : Nat) (z h : Heap) : Prop := Reach top z ∧ Steps top z h

theorem Steps.trans {top : Nat} {a b c : Heap} (h1 : Steps top a b) (h2 : Steps top b c) : Steps top a c := by
  induction h2 with
  | refl => exact h1
  | step op r _ hl hr ih => exact ih.step op r hl hr

theorem From.reach {top : Nat} {z h : Heap} (F : From top z h) : Reach top h := by
  obtain ⟨⟨mem, brk, h0, S⟩, S'⟩ := F
  exact ⟨mem, brk, h0, S.trans S'⟩

theorem From.get {top : Nat} {z h : Heap} (F : From top z h) (n : Nat) :
    (getBlock top h.s n = .exit ∧ (2 ^ 62 < n + 40 ∨ top < h.s.brk + 4 * (n + 40) + 2 ^ 17)) ∨
    ∃ s' p, getBlock top h.s n = .ok (s', p) ∧ (n = 0 ↔ p = 0) ∧ h.own p = none ∧
      From top z ⟨s', give h.own p n⟩ ∧
      ∀ q m, h.own q = some m → ∀ x, x < m → s'.mem (q + x) = h.s.mem (q + x) := by
  rcases C52_get F.reach n with q | ⟨s', p, q1, q2, q3, -, q5⟩
  · exact Or.inl q
  · refine Or.inr ⟨s', p, q1, q2, q3, ⟨F.1, F.2.step (.get n) p trivial ?_⟩, q5⟩
    simp only [Op.run, q1]; rfl

theorem From.free {top : Nat} {z h : Heap} (F : From top z h) {p n : Nat} (hp : h.own p = some n) :
    ∃ s', freeBlock h.s p = .ok s' ∧ s'.brk = h.s.brk ∧ s'.got = h.s.got ∧ From top z ⟨s', upd h.own p none⟩ ∧
      ∀ q m, q ≠ p → h.own q = some m → ∀ x, x < m → s'.mem (q + x) = h.s.mem (q + x) := by
  obtain ⟨s', q1, q2, q3, -, q5⟩ := C52_free F.reach hp
  refine ⟨s', q1, q2, q3, ⟨F.1, F.2.step (.free p) 0 (Or.inr ⟨n, hp⟩) ?_⟩, q5⟩
  simp only [Op.run, q1]; rfl

theorem From.resize {top : Nat} {z h : Heap} (F : From top z h) {p m : Nat} (hp : h.own p = some m) (n : Nat) :
    (resizeBlock top h.s p n = .exit ∧ (2 ^ 62 < n + 40 ∨ top < h.s.brk + 4 * (n + 40) + 2 ^ 17)) ∨
    ∃ s' q, resizeBlock top h.s p n = .ok (s', q) ∧ (n = 0 ↔ q = 0) ∧ (q ≠ p → h.own q = none) ∧
      From top z ⟨s', give (upd h.own p none) q n⟩ ∧
      (∀ x, x < m → x < n → s'.mem (q + x) = h.s.mem (p + x)) ∧
      ∀ r k, r ≠ p → h.own r = some k → ∀ x, x < k → s'.mem (r + x) = h.s.mem (r + x) := by
  rcases C52_resize F.reach hp n with q | ⟨s', q, q1, q2, q3, -, q5⟩
  · exact Or.inl q
  · refine Or.inr ⟨s', q, q1, q2, q3, ⟨F.1, F.2.step (.resize p n) q (Or.inr ⟨m, hp⟩) ?_⟩, q5⟩
    simp only [Op.run, q1]; rfl

/-- The invariant: the blocks in use are those of the callers, the record managers and the blocks of records;
all places for records are held or on the list. -/
structure RGood (top : Nat) (z : Heap) (h : RHeap) (O : Nat → Option Nat) (bl fr : Nat → List Nat) : Prop where
  reach : From top z ⟨h.s, O⟩
  blks : ∀ p n, O p = some n ↔ h.own p = some n ∨ (n = 32 ∧ ∃ sz, h.mgrs p = some sz) ∨ (n = 4056 ∧ ∃ m, p ∈ bl m)
  x1 : ∀ p n sz, h.own p = some n → h.mgrs p = some sz → False
  x2 : ∀ p n m, h.own p = some n → p ∈ bl m → False
  x3 : ∀ p sz m, h.mgrs p = some sz → p ∈ bl m → False
  x4 : ∀ p m m', p ∈ bl m → p ∈ bl m' → m = m'
  gone : ∀ m, h.mgrs m = none → bl m = [] ∧ fr m = [] ∧ ∀ r, h.recs r ≠ some m
  mgr : ∀ m sz, h.mgrs m = some sz → MgrOK h.s.mem m sz (bl m) (fr m)
  slots : ∀ m sz, h.mgrs m = some sz → ∀ r, (r ∈ fr m ∨ h.recs r = some m) ↔ Slot sz (bl m) r
  apart : ∀ m r, r ∈ fr m → h.recs r ≠ some m

section
variable {top : Nat} {z : Heap} {h : RHeap} {O : Nat → Option Nat} {bl fr : Nat → List Nat}

theorem RGood.mgrO (H : RGood top z h O bl fr) {m sz : Nat} (hm : h.mgrs m = some sz) : O m = some 32 :=
  (H.blks m 32).2 (Or.inr (Or.inl ⟨rfl, sz, hm⟩))

theorem RGood.blkO (H : RGood top z h O bl fr) {m b : Nat} (hb : b ∈ bl m) : O b = some 4056 :=
  (H.blks b 4056).2 (Or.inr (Or.inr ⟨rfl, m, hb⟩))

theorem RGood.ownO (H : RGood top z h O bl fr) {p n : Nat} (hp : h.own p = some n) : O p = some n :=
  (H.blks p n).2 (Or.inl hp)

theorem RGood.live (H : RGood top z h O bl fr) {m b : Nat} (hb : b ∈ bl m) : ∃ sz, h.mgrs m = some sz := by
  cases e : h.mgrs m with
  | some sz => exact ⟨sz, rfl⟩
  | none => rw [(H.gone m e).1] at hb; cases hb

theorem RGood.liveF (H : RGood top z h O bl fr) {m r : Nat} (hr : r ∈ fr m) : ∃ sz, h.mgrs m = some sz := by
  cases e : h.mgrs m with
  | some sz => exact ⟨sz, rfl⟩
  | none => rw [(H.gone m e).2.1] at hr; cases hr

theorem RGood.liveR (H : RGood top z h O bl fr) {m r : Nat} (hr : h.recs r = some m) : ∃ sz, h.mgrs m = some sz := by
  cases e : h.mgrs m with
  | some sz => exact ⟨sz, rfl⟩
  | none => exact absurd hr ((H.gone m e).2.2 r)

/-- Blocks do not overlap. -/
theorem RGood.sep (H : RGood top z h O bl fr) {p n q m : Nat} (hp : O p = some n) (hq : O q = some m) (hne : p ≠ q) :
    p + n ≤ q ∨ q + m ≤ p := C52_disjoint H.reach.reach hp hq hne

/-- Places for records do not overlap. -/
theorem RGood.slot_sep (H : RGood top z h O bl fr) {m m' sz sz' r r' : Nat} (hm : h.mgrs m = some sz)
    (hm' : h.mgrs m' = some sz') (h1 : Slot sz (bl m) r) (h2 : Slot sz' (bl m') r') (hne : r ≠ r') :
    r + recSize sz ≤ r' ∨ r' + recSize sz' ≤ r := by
  obtain ⟨b, hb, i, hi, rfl⟩ := h1
  obtain ⟨b', hb', i', hi', rfl⟩ := h2
  have e1 := slot_in (b := b) hi
  have e2 := slot_in (b := b') hi'
  by_cases e : b = b'
  · subst e
    have := H.x4 b m m' hb hb'
    subst this
    rw [hm] at hm'; cases hm'
    have hii : i ≠ i' := fun e => hne (by rw [e])
    rcases Nat.lt_or_ge i i' with l | l
    · left
      have : recSize sz * (i + 1) ≤ recSize sz * i' := Nat.mul_le_mul_left _ l
      rw [Nat.mul_add, Nat.mul_one] at this
      omega
    · right
      have : recSize sz * (i' + 1) ≤ recSize sz * i := Nat.mul_le_mul_left _ (by omega)
      rw [Nat.mul_add, Nat.mul_one] at this
      omega
  · have := H.sep (H.blkO hb) (H.blkO hb') e
    omega

/-- A place of a manager is in no other block than its own. -/
theorem RGood.slot_out (H : RGood top z h O bl fr) {m sz r p n : Nat} (h1 : Slot sz (bl m) r) (hp : O p = some n)
    (hne : p ∉ bl m) : r + recSize sz ≤ p ∨ p + n ≤ r := by
  obtain ⟨b, hb, i, hi, rfl⟩ := h1
  have e1 := slot_in (b := b) hi
  have := H.sep (H.blkO hb) hp (fun e => hne (e ▸ hb))
  omega

/-- Another allocator, other blocks of callers: if what is in the record managers' blocks stays. -/
theorem RGood.move (H : RGood top z h O bl fr) {s' : St} {own' O' : Nat → Option Nat} (R : From top z ⟨s', O'⟩)
    (hO : ∀ p n, O' p = some n ↔ own' p = some n ∨ (n = 32 ∧ ∃ sz, h.mgrs p = some sz) ∨ (n = 4056 ∧ ∃ m, p ∈ bl m))
    (hx : ∀ p n m, own' p = some n → h.own p = none → O p = some m → False)
    (hm : ∀ m sz x, h.mgrs m = some sz → x < 32 → s'.mem (m + x) = h.s.mem (m + x))
    (hb : ∀ m b x, b ∈ bl m → x < 4056 → s'.mem (b + x) = h.s.mem (b + x)) :
    RGood top z { h with s := s', own := own' } O' bl fr := by
  have hf : ∀ m r, r ∈ fr m → s'.mem r = h.s.mem r := by
    intro m r hr
    obtain ⟨sz, hsz⟩ := H.liveF hr
    obtain ⟨b, hb', i, hi, e⟩ := (H.slots m sz hsz r).1 (Or.inl hr)
    have e1 := slot_in (b := b) hi
    have e2 := (recSize_ge sz).1
    have := hb m b (8 + recSize sz * i) hb' (by omega)
    rw [e, Nat.add_assoc]; exact this
  refine ⟨R, hO, ?_, ?_, H.x3, H.x4, H.gone, ?_, H.slots, H.apart⟩
  · intro p n sz h1 h2
    simp only at h1 h2
    cases e : h.own p with
    | none => exact hx p n 32 h1 e (H.mgrO h2)
    | some k => exact H.x1 p k sz e h2
  · intro p n m h1 h2
    simp only at h1
    cases e : h.own p with
    | none => exact hx p n 4056 h1 e (H.blkO h2)
    | some k => exact H.x2 p k m e h2
  · intro m sz hsz
    refine (H.mgr m sz hsz).congr (fun x hx => hm m sz x hsz hx) (fun b hb' => hb m b 0 hb' (by omega)) (fun r hr => hf m r hr)

/-- A legal write keeps the blocks. -/
theorem From.set {s : St} {O : Nat → Option Nat} (R : From top z ⟨s, O⟩) {x v p n : Nat} (hp : O p = some n) (h1 : p ≤ x) (h2 : x < p + n) :
    From top z ⟨s.set x v, O⟩ := by
  exact ⟨R.1, R.2.step (.write x v) 0 ⟨p, n, hp, h1, h2⟩ rfl⟩

theorem RGood.init (mem : Nat → Nat) {brk : Nat} (h : 0 < brk) :
    RGood top ⟨Mem.init mem brk, fun _ => none⟩ (RHeap.init mem brk) (fun _ => none) (fun _ => []) (fun _ => []) := by
  constructor
  · exact ⟨⟨mem, brk, h, Steps.refl _⟩, Steps.refl _⟩
  · intro p n
    constructor
    · intro h; cases h
    · rintro (h | ⟨-, sz, h⟩ | ⟨-, m, h⟩) <;> cases h
  · intro _ _ _ h; cases h
  · intro _ _ _ h; cases h
  · intro _ _ _ h; cases h
  · intro _ _ _ h; cases h
  · intro m _; exact ⟨rfl, rfl, fun r h => nomatch h⟩
  · intro _ _ h; cases h
  · intro _ _ h; cases h
  · intro _ _ h; cases h

/-! ## Calls and writes for blocks -/

theorem RGood.getB (H : RGood top z h O bl fr) (n : Nat) :
    (getBlock top h.s n = .exit ∧ (2 ^ 62 < n + 40 ∨ top < h.s.brk + 4 * (n + 40) + 2 ^ 17)) ∨
    ∃ s' p, getBlock top h.s n = .ok (s', p) ∧
      RGood top z { h with s := s', own := give h.own p n } (give O p n) bl fr ∧
      ∀ q m, O q = some m → ∀ x, x < m → s'.mem (q + x) = h.s.mem (q + x) := by
  rcases H.reach.get n with q | ⟨s', p, q1, q2, q3, q4, q5⟩
  · exact Or.inl q
  simp only at q1 q3 q5
  refine Or.inr ⟨s', p, q1, H.move q4 ?_ ?_ (fun m sz x hm hx => q5 m 32 (H.mgrO hm) x hx)
    (fun m b x hb hx => q5 b 4056 (H.blkO hb) x hx), q5⟩
  · intro q k
    unfold give
    split
    · exact H.blks q k
    · by_cases e : q = p
      · subst e
        rw [upd_same, upd_same]
        constructor
        · intro h; exact Or.inl h
        · rintro (h | ⟨-, sz, h⟩ | ⟨-, m, h⟩)
          · exact h
          · rw [H.mgrO h] at q3; cases q3
          · rw [H.blkO h] at q3; cases q3
      · rw [upd_ne _ _ e, upd_ne _ _ e]; exact H.blks q k
  · intro q k m h1 h2 h3
    unfold give at h1
    split at h1
    · rw [h2] at h1; cases h1
    · by_cases e : q = p
      · subst e; rw [q3] at h3; cases h3
      · rw [upd_ne _ _ e, h2] at h1; cases h1

/-- What can happen with blocks keeps the invariant, and what is in blocks of records; only writes change what is in
blocks. -/
theorem RGood.blk (H : RGood top z h O bl fr) {op : Op} (hl : op.Legal ⟨h.s, h.own⟩) {h' : Heap} {r : Nat}
    (hr : op.run top ⟨h.s, h.own⟩ = .ok (h', r)) :
    (∃ O', RGood top z { h with s := h'.s, own := h'.own } O' bl fr) ∧
      (∀ m b x, b ∈ bl m → x < 4056 → h'.s.mem (b + x) = h.s.mem (b + x)) ∧
      ((∀ x v, op ≠ .write x v) → ∀ p n, h.own p = some n → h'.own p = some n → ∀ x, x < n →
        h'.s.mem (p + x) = h.s.mem (p + x)) := by
  cases op with
  | get n =>
    simp only [Op.run] at hr
    rcases H.getB n with ⟨q, -⟩ | ⟨s', p, q1, q4, q5⟩
    · rw [q] at hr; cases hr
    rw [q1] at hr; cases hr
    exact ⟨⟨_, q4⟩, fun m b x hb hx => q5 b 4056 (H.blkO hb) x hx, fun _ p n hp _ x hx => q5 p n (H.ownO hp) x hx⟩
  | free p =>
    simp only [Op.run] at hr
    by_cases hp : ∃ n, h.own p = some n
    · obtain ⟨n, hp⟩ := hp
      obtain ⟨s', q1, -, -, q2, q3⟩ := H.reach.free (H.ownO hp)
      simp only at q1 q3
      rw [q1] at hr; cases hr
      simp only
      have hne : ∀ q, h.own q = none → q ≠ p := by rintro q e rfl; rw [hp] at e; cases e
      have hb : ∀ m b x, b ∈ bl m → x < 4056 → s'.mem (b + x) = h.s.mem (b + x) :=
        fun m b x hb hx => q3 b 4056 (fun e => by subst e; exact H.x2 _ _ _ hp hb) (H.blkO hb) x hx
      refine ⟨⟨upd O p none, H.move q2 ?_ ?_
        (fun m sz x hm hx => q3 m 32 (fun e => by subst e; exact H.x1 _ _ _ hp hm) (H.mgrO hm) x hx) hb⟩, hb, ?_⟩
      · intro q k
        by_cases e : q = p
        · subst e
          rw [upd_same, upd_same]
          constructor
          · intro h; cases h
          · rintro (h | ⟨-, sz, h⟩ | ⟨-, m, h⟩)
            · exact h
            · exact (H.x1 _ _ _ hp h).elim
            · exact (H.x2 _ _ _ hp h).elim
        · rw [upd_ne _ _ e, upd_ne _ _ e]; exact H.blks q k
      · intro q k m h1 h2 h3
        by_cases e : q = p
        · subst e; rw [upd_same] at h1; cases h1
        · rw [upd_ne _ _ e, h2] at h1; cases h1
      · intro _ q k h1 h2 x hx
        have e : q ≠ p := by rintro rfl; rw [upd_same] at h2; cases h2
        exact q3 q k e (H.ownO h1) x hx
    · have hp0 := hl.resolve_right hp
      subst hp0
      cases hr
      have hz : upd h.own 0 none = h.own := by
        funext x
        by_cases e : x = 0
        · subst e
          rw [upd_same]
          cases e : h.own 0 with
          | none => rfl
          | some k => exact absurd ⟨k, e⟩ hp
        · rw [upd_ne _ _ e]
      refine ⟨⟨O, ?_⟩, fun _ _ _ _ _ => rfl, fun _ _ _ _ _ _ _ => rfl⟩
      simp only [hz]
      exact H
  | resize p n =>
    simp only [Op.run] at hr
    have hp0 : h.own 0 = none := by
      cases e : h.own 0 with
      | none => rfl
      | some k => exact absurd rfl (C52_inside H.reach.reach (H.ownO e)).1
    by_cases hp : ∃ n, h.own p = some n
    · obtain ⟨k₀, hp⟩ := hp
      rcases H.reach.resize (H.ownO hp) n with ⟨q, -⟩ | ⟨s', q, q1, q2, q3, q4, q6, q5⟩
      · simp only at q; rw [q] at hr; cases hr
      simp only at q1 q3 q5 q6
      rw [q1] at hr; cases hr
      simp only
      have hb : ∀ m b x, b ∈ bl m → x < 4056 → s'.mem (b + x) = h.s.mem (b + x) :=
        fun m b x hb hx => q5 b 4056 (fun e => by subst e; exact H.x2 _ _ _ hp hb) (H.blkO hb) x hx
      refine ⟨⟨give (upd O p none) q n, H.move q4 ?_ ?_
        (fun m sz x hm hx => q5 m 32 (fun e => by subst e; exact H.x1 _ _ _ hp hm) (H.mgrO hm) x hx) hb⟩, hb, ?_⟩
      · have key : ∀ y k, upd O p none y = some k ↔ upd h.own p none y = some k ∨ (k = 32 ∧ ∃ sz, h.mgrs y = some sz) ∨ (k = 4056 ∧ ∃ m, y ∈ bl m) := by
          intro y k
          by_cases e : y = p
          · subst e
            rw [upd_same, upd_same]
            constructor
            · intro h; cases h
            · rintro (h | ⟨-, sz, h⟩ | ⟨-, m, h⟩)
              · exact h
              · exact (H.x1 _ _ _ hp h).elim
              · exact (H.x2 _ _ _ hp h).elim
          · rw [upd_ne _ _ e, upd_ne _ _ e]; exact H.blks y k
        intro y k
        unfold give
        split
        · exact key y k
        · by_cases e : y = q
          · subst e
            rw [upd_same, upd_same]
            constructor
            · intro h; exact Or.inl h
            · rintro (h | ⟨-, sz, h⟩ | ⟨-, m, h⟩)
              · exact h
              · by_cases e : y = p
                · subst e; exact (H.x1 _ _ _ hp h).elim
                · have := q3 e; rw [H.mgrO h] at this; cases this
              · by_cases e : y = p
                · subst e; exact (H.x2 _ _ _ hp h).elim
                · have := q3 e; rw [H.blkO h] at this; cases this
          · rw [upd_ne _ _ e, upd_ne _ _ e]; exact key y k
      · intro y k m h1 h2 h3
        have hyp : y ≠ p := by rintro rfl; rw [hp] at h2; cases h2
        unfold give at h1
        split at h1
        · rw [upd_ne _ _ hyp, h2] at h1; cases h1
        · by_cases e : y = q
          · subst e; rw [q3 hyp] at h3; cases h3
          · rw [upd_ne _ _ e, upd_ne _ _ hyp, h2] at h1; cases h1
      · intro _ y k h1 h2 x hx
        by_cases hyp : y = p
        · subst hyp
          have hq : y = q ∧ k = n := by
            unfold give at h2
            split at h2
            · rw [upd_same] at h2; cases h2
            · by_cases e : y = q
              · subst e; rw [upd_same] at h2; cases h2; exact ⟨rfl, rfl⟩
              · rw [upd_ne _ _ e, upd_same] at h2; cases h2
          obtain ⟨rfl, rfl⟩ := hq
          rw [hp] at h1; cases h1
          exact q6 x hx hx
        · exact q5 y k hyp (H.ownO h1) x hx
    · have hp0' := hl.resolve_right hp
      subst hp0'
      -- as getting a block
      have e0 : resizeBlock top h.s 0 n = getBlock top h.s n := rfl
      rw [e0] at hr
      have hz : upd h.own 0 none = h.own := by
        funext x
        by_cases e : x = 0
        · subst e; rw [upd_same, hp0]
        · rw [upd_ne _ _ e]
      rw [hz] at hr
      rcases H.getB n with ⟨q, -⟩ | ⟨s', p, q1, q4, q5⟩
      · rw [q] at hr; cases hr
      rw [q1] at hr; cases hr
      exact ⟨⟨_, q4⟩, fun m b x hb hx => q5 b 4056 (H.blkO hb) x hx, fun _ p n hp _ x hx => q5 p n (H.ownO hp) x hx⟩
  | write x v =>
    obtain ⟨p, n, l1, l2, l3⟩ := hl
    cases hr
    simp only at l1 l2 l3
    have hb : ∀ m b y, b ∈ bl m → y < 4056 → (h.s.set x v).mem (b + y) = h.s.mem (b + y) := by
      intro m b y hb hy
      refine upd_ne _ _ fun e => ?_
      have := H.sep (H.ownO l1) (H.blkO hb) (fun e => by subst e; exact H.x2 _ _ _ l1 hb)
      omega
    refine ⟨⟨O, H.move (H.reach.set (H.ownO l1) l2 l3) H.blks ?_ ?_ hb⟩, hb, fun hw => absurd rfl (hw x v)⟩
    · intro q k m h1 h2 _
      simp only at h1
      rw [h2] at h1; cases h1
    · intro m sz y hm hy
      refine upd_ne _ _ fun e => ?_
      have := H.sep (H.ownO l1) (H.mgrO hm) (fun e => by subst e; exact H.x1 _ _ _ l1 hm)
      omega
  | other b =>
    cases hr
    have R : From top z ⟨{ h.s with brk := b }, O⟩ := by
      exact ⟨H.reach.1, H.reach.2.step (.other b) 0 hl rfl⟩
    refine ⟨⟨O, H.move R H.blks ?_ (fun _ _ _ _ _ => rfl) fun _ _ _ _ _ => rfl⟩, fun _ _ _ _ _ => rfl, fun _ _ _ _ _ _ _ => rfl⟩
    intro q k m h1 h2 _
    simp only at h1
    rw [h2] at h1; cases h1

end

end Cal.Mem
