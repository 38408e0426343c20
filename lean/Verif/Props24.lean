import Verif.MemRecHist

/-!
# Properties, part 24: the record managers

`RReach top h`: the heap `h` comes from any start by any sequence of legal calls of the block allocator and of
record managers, writes of callers to what they hold, and moves of the break by others. `h.own p = some n`: the block at
`p`, of `n` bytes, is held by a caller. `h.mgrs m = some n`: there is a record manager at `m` for records of `n`
bytes. `h.recs r = some m`: the record at `r`, of the manager at `m`, is held by a caller. `h.s.got`: the ranges the system has
given to the allocator. `top`: how far the system lets the break go.
-/

namespace Cal.Mem

/-! ## C67 -/

/-- Records that are held do not overlap, whether of one manager or of two. -/
theorem C67_disjoint {top : Nat} {h : RHeap} (R : RReach top h) {r m n r' m' n' : Nat} (hr : h.recs r = some m)
    (hm : h.mgrs m = some n) (hr' : h.recs r' = some m') (hm' : h.mgrs m' = some n') (hne : r ≠ r') : r + n ≤ r' ∨ r' + n' ≤ r := by
  obtain ⟨z, O, bl, fr, H⟩ := R.good
  have := H.slot_sep hm hm' (H.rec_slot hm hr) (H.rec_slot hm' hr') hne
  have := (recSize_ge n).2.1
  have := (recSize_ge n').2.1
  omega

/-- Records that are held do not overlap with blocks that are held. -/
theorem C67_blocks {top : Nat} {h : RHeap} (R : RReach top h) {r m n p k : Nat} (hr : h.recs r = some m)
    (hm : h.mgrs m = some n) (hp : h.own p = some k) : r + n ≤ p ∨ p + k ≤ r := by
  obtain ⟨z, O, bl, fr, H⟩ := R.good
  have := H.slot_out (H.rec_slot hm hr) (H.ownO hp) fun hb => H.x2 _ _ _ hp hb
  have := (recSize_ge n).2.1
  omega

/-- Blocks that are held do not overlap. -/
theorem C67_own {top : Nat} {h : RHeap} (R : RReach top h) {p n q k : Nat} (hp : h.own p = some n)
    (hq : h.own q = some k) (hne : p ≠ q) : p + n ≤ q ∨ q + k ≤ p := by
  obtain ⟨z, O, bl, fr, H⟩ := R.good
  exact H.sep (H.ownO hp) (H.ownO hq) hne

/-- A record that is held has its manager, is not null, is aligned to 8 bytes and lies in memory that the system
gave to the allocator. -/
theorem C67_inside {top : Nat} {h : RHeap} (R : RReach top h) {r m : Nat} (hr : h.recs r = some m) :
    ∃ n, h.mgrs m = some n ∧ r ≠ 0 ∧ 8 ∣ r ∧ ∀ x, r ≤ x → x < r + n → ∃ g ∈ h.s.got, g.1 ≤ x ∧ x < g.1 + g.2 := by
  obtain ⟨z, O, bl, fr, H⟩ := R.good
  obtain ⟨n, hm⟩ := H.liveR hr
  obtain ⟨b, hb, i, hi, e⟩ := H.rec_slot hm hr
  obtain ⟨c1, c2, c3, c4⟩ := C52_inside H.reach.reach (H.blkO hb)
  obtain ⟨d1, d2, d3⟩ := recSize_ge n
  have w := slot_in (b := b) hi
  refine ⟨n, hm, by omega, ?_, fun x l1 l2 => c4 x (by omega) (by omega)⟩
  rw [e]
  exact Nat.dvd_add (Nat.dvd_add c3 (Nat.dvd_refl 8)) (Nat.dvd_trans d3 (Nat.dvd_mul_right _ _))

/-- No legal call has undefined behaviour. -/
theorem C67_defined {top : Nat} {h : RHeap} (R : RReach top h) {op : ROp} (hl : op.Legal h) : op.run top h ≠ .undef := by
  obtain ⟨z, O, bl, fr, H⟩ := R.good
  cases op with
  | blk op =>
    simp only [ROp.run]
    have hl' : op.Legal ⟨h.s, O⟩ := by
      cases op with
      | get n => trivial
      | free p => exact hl.imp id fun ⟨n, h⟩ => ⟨n, H.ownO h⟩
      | resize p n => exact hl.imp id fun ⟨n, h⟩ => ⟨n, H.ownO h⟩
      | write x v => obtain ⟨p, n, h1, h2⟩ := hl; exact ⟨p, n, H.ownO h1, h2⟩
      | other b => exact hl
    have := C52_defined H.reach.reach hl'
    intro e
    apply this
    cases op with
    | get n =>
      simp only [Op.run] at e ⊢
      cases e' : getBlock top h.s n with
      | undef => rfl
      | exit => rw [e'] at e; cases e
      | ok q => rw [e'] at e; cases e
    | free p =>
      simp only [Op.run] at e ⊢
      cases e' : freeBlock h.s p with
      | undef => rfl
      | exit => rw [e'] at e; cases e
      | ok q => rw [e'] at e; cases e
    | resize p n =>
      simp only [Op.run] at e ⊢
      cases e' : resizeBlock top h.s p n with
      | undef => rfl
      | exit => rw [e'] at e; cases e
      | ok q => rw [e'] at e; cases e
    | write x v => cases e
    | other b => cases e
  | newMgr n =>
    simp only [ROp.run]
    rcases H.newMgr n with ⟨q, -⟩ | ⟨s', p, q1, -⟩
    · rw [q]; exact fun h => nomatch h
    · rw [q1]; exact fun h => nomatch h
  | newRec m =>
    obtain ⟨n, hm⟩ := hl
    simp only [ROp.run]
    rcases H.newRec hm with ⟨q, -⟩ | ⟨s', p, O', bl', fr', q1, -⟩
    · rw [q]; exact fun h => nomatch h
    · rw [q1]; exact fun h => nomatch h
  | freeRec m r => exact fun h => nomatch h
  | freeMgr m =>
    obtain ⟨n, hm⟩ := hl
    simp only [ROp.run]
    obtain ⟨s', q1, -⟩ := H.freeMgr hm
    rw [q1]; exact fun h => nomatch h
  | write r x v => exact fun h => nomatch h

/-- A new manager: the program ends only if the records are larger than 4048 bytes or if the system has less than
256 KiB left. -/
theorem C67_manager {top : Nat} {h : RHeap} (R : RReach top h) (n : Nat) :
    ((ROp.newMgr n).run top h = .exit ∧ (4048 < n ∨ top < h.s.brk + 2 ^ 18)) ∨
    ∃ h' m, (ROp.newMgr n).run top h = .ok (h', m) ∧ n ≤ 4048 ∧ m ≠ 0 ∧ h.mgrs m = none ∧ h.own m = none ∧
      h'.mgrs = upd h.mgrs m (some n) ∧ h'.own = h.own ∧ h'.recs = h.recs := by
  obtain ⟨z, O, bl, fr, H⟩ := R.good
  have hz : recSize n ≤ 4048 ↔ n ≤ 4048 := by
    unfold recSize roundup listSize
    split <;> omega
  simp only [ROp.run]
  rcases H.newMgr n with ⟨q1, q2⟩ | ⟨s', m, q1, q2, q3, q4, -⟩
  · left
    rw [q1]
    exact ⟨rfl, q2.imp (by omega) id⟩
  · right
    rw [q1]
    refine ⟨_, m, rfl, ?_, q2, ?_, ?_, rfl, rfl, rfl⟩
    · exact hz.1 (q4.mgr m n (upd_same _ _ _)).fits
    · cases e : h.mgrs m with
      | none => rfl
      | some k => rw [H.mgrO e] at q3; cases q3
    · cases e : h.own m with
      | none => rfl
      | some k => rw [H.ownO e] at q3; cases q3

/-- A new record: the program ends only if the system has less than 256 KiB left; the record was not held
before. -/
theorem C67_record {top : Nat} {h : RHeap} (R : RReach top h) {m n : Nat} (hm : h.mgrs m = some n) :
    ((ROp.newRec m).run top h = .exit ∧ top < h.s.brk + 2 ^ 18) ∨
    ∃ h' r, (ROp.newRec m).run top h = .ok (h', r) ∧ r ≠ 0 ∧ h.recs r = none ∧
      h'.recs = upd h.recs r (some m) ∧ h'.own = h.own ∧ h'.mgrs = h.mgrs := by
  obtain ⟨z, O, bl, fr, H⟩ := R.good
  simp only [ROp.run]
  rcases H.newRec hm with ⟨q1, q2, -⟩ | ⟨s', r, O', bl', fr', q1, q2, q3, -⟩
  · left; rw [q1]; exact ⟨rfl, q2⟩
  · right; rw [q1]; exact ⟨_, r, rfl, q2, q3, rfl, rfl, rfl⟩

/-- No call changes what is in the blocks and records that are held before and after it; the list of free records never
goes through them. -/
theorem C67_keep {top : Nat} {h : RHeap} (R : RReach top h) {op : ROp} (hl : op.Legal h) {h' : RHeap} {r : Nat}
    (hr : op.run top h = .ok (h', r)) (hw : ∀ x v, op ≠ .blk (.write x v)) (hw' : ∀ r x v, op ≠ .write r x v) : h.Same h' := by
  obtain ⟨z, O, bl, fr, H⟩ := R.good
  have ge : ∀ n x, x < n → x < recSize n := fun n x hx => Nat.lt_of_lt_of_le hx (recSize_ge n).2.1
  cases op with
  | blk op =>
    simp only [ROp.run] at hr
    cases e : op.run top ⟨h.s, h.own⟩ with
    | exit => rw [e] at hr; cases hr
    | undef => rw [e] at hr; cases hr
    | ok q =>
      rw [e] at hr; cases hr
      obtain ⟨-, h2, h3⟩ := H.blk hl e
      exact ⟨h3 fun x v e => hw x v (by rw [e]), fun r m n hr _ hm x hx => H.rec_same h2 hr hm (ge n x hx)⟩
  | newMgr n =>
    simp only [ROp.run] at hr
    rcases H.newMgr n with ⟨q, -⟩ | ⟨s', p, q1, -, -, -, q5⟩
    · rw [q] at hr; cases hr
    · rw [q1] at hr; cases hr
      exact ⟨fun p n hp _ x hx => q5 p n (H.ownO hp) x hx,
        fun r m n hr _ hm x hx => H.rec_same (fun m b x hb hx => q5 b 4056 (H.blkO hb) x hx) hr hm (ge n x hx)⟩
  | newRec m =>
    obtain ⟨n, hm⟩ := hl
    simp only [ROp.run] at hr
    rcases H.newRec hm with ⟨q, -⟩ | ⟨s', p, O', bl', fr', q1, -, -, -, q5, q6, -⟩
    · rw [q] at hr; cases hr
    · rw [q1] at hr; cases hr
      exact ⟨fun p n hp _ x hx => q5 p n hp x hx, fun r m n hr _ hm x hx => q6 r m n hr hm x (ge n x hx)⟩
  | freeRec m r =>
    obtain ⟨sz, hm⟩ := H.liveR hl
    have hs := H.rec_slot hm hl
    have z0 := (recSize_ge sz).1
    cases hr
    constructor
    · intro p n hp _ x hx
      have t1 := H.slot_out hs (H.ownO hp) fun hb => H.x2 _ _ _ hp hb
      have t2 := H.sep (H.ownO hp) (H.mgrO hm) fun e => H.x1 _ _ _ (e ▸ hp) hm
      simp only [freeRec, oFree]
      rw [St.set_ne _ (by omega), St.set_ne _ (by omega)]
    · intro r' m' n' hr' hr'' hm' x hx
      simp only at hr''
      have hne : r' ≠ r := by rintro rfl; rw [upd_same] at hr''; cases hr''
      have hs' := H.rec_slot hm' hr'
      have t1 := H.slot_sep hm' hm hs' hs hne
      have t2 := H.slot_out hs' (H.mgrO hm) fun hb => H.x3 _ _ _ hm hb
      have := ge n' x hx
      simp only [freeRec, oFree]
      rw [St.set_ne _ (by omega), St.set_ne _ (by omega)]
  | freeMgr m =>
    obtain ⟨n, hm⟩ := hl
    simp only [ROp.run] at hr
    obtain ⟨s', q1, -, -, -, q5⟩ := H.freeMgr hm
    rw [q1] at hr; cases hr
    constructor
    · intro p n hp _ x hx
      exact q5 p n (fun e => H.x1 _ _ _ (e ▸ hp) hm) (fun hb => H.x2 _ _ _ hp hb) (H.ownO hp) x hx
    · intro r' m' n' hr' hr'' hm' x hx
      simp only at hr''
      have hne : m' ≠ m := by rintro rfl; rw [if_pos hr'] at hr''; cases hr''
      obtain ⟨b, hb, i, hi, e⟩ := H.rec_slot hm' hr'
      have w := slot_in (b := b) hi
      have := ge n' x hx
      simp only
      have := q5 b 4056 (fun e => H.x3 _ _ _ hm (e ▸ hb)) (fun hb' => hne (H.x4 _ _ _ hb hb')) (H.blkO hb)
        (8 + recSize n' * i + x) (by omega)
      rw [e, show b + 8 + recSize n' * i + x = b + (8 + recSize n' * i + x) by omega]
      exact this
  | write r x v => exact absurd rfl (hw' r x v)

/-- Several operations, and the pointers returned. -/
def runs (top : Nat) : RHeap → List ROp → Out (RHeap × List Nat)
  | h, [] => .ok (h, [])
  | h, op :: ops => (op.run top h).andThen fun q => (runs top q.1 ops).andThen fun q' => .ok (q'.1, q.2 :: q'.2)

theorem runs_free {top : Nat} {z : Heap} {m sz : Nat} : ∀ (rs : List Nat) {h : RHeap} {O : Nat → Option Nat} {bl fr : Nat → List Nat},
    RGood top z h O bl fr → h.mgrs m = some sz → (∀ r ∈ rs, h.recs r = some m) → rs.Nodup →
    ∃ h' fr', runs top h (rs.map (.freeRec m)) = .ok (h', rs.map fun _ => 0) ∧ RGood top z h' O bl fr' ∧
      fr' m = rs.reverse ++ fr m ∧ h'.own = h.own ∧ h'.mgrs = h.mgrs ∧ h'.s.brk = h.s.brk ∧ h'.s.got = h.s.got ∧
      h'.recs = fun r => if r ∈ rs then none else h.recs r := by
  intro rs
  induction rs with
  | nil => intro h O bl fr H _ _ _; exact ⟨h, fr, rfl, H, rfl, rfl, rfl, rfl, rfl, by simp⟩
  | cons r rs ih =>
    intro h O bl fr H hm hr nd
    obtain ⟨n1, n2⟩ := List.nodup_cons.1 nd
    have H1 := H.freeRec hm (hr r List.mem_cons_self)
    obtain ⟨h', fr', q1, q2, q3, q4, q5, q6, q7, q8⟩ := ih H1 hm
      (fun r' hr' => by
        simp only
        rw [upd_ne _ _ (by rintro rfl; exact n1 hr')]
        exact hr r' (List.mem_cons_of_mem _ hr')) n2
    refine ⟨h', fr', ?_, q2, ?_, q4, q5, q6, q7, ?_⟩
    · simp only [List.map_cons, runs, ROp.run, Out.andThen]
      rw [q1]
    · rw [q3, upd_same, List.reverse_cons, List.append_assoc]; rfl
    · rw [q8]
      funext x
      simp only
      by_cases e : x = r
      · subst e; rw [upd_same]; simp
      · rw [upd_ne _ _ e]; simp [e]

theorem runs_new {top : Nat} {z : Heap} {m sz : Nat} : ∀ (l : List Nat) {l' : List Nat} {h : RHeap} {O : Nat → Option Nat}
    {bl fr : Nat → List Nat}, RGood top z h O bl fr → h.mgrs m = some sz → fr m = l ++ l' →
    ∃ h', runs top h (l.map fun _ => .newRec m) = .ok (h', l) ∧
      h'.own = h.own ∧ h'.mgrs = h.mgrs ∧ h'.s.brk = h.s.brk ∧ h'.s.got = h.s.got ∧
      h'.recs = fun r => if r ∈ l then some m else h.recs r := by
  intro l
  induction l with
  | nil => intro l' h O bl fr H _ _; exact ⟨h, rfl, rfl, rfl, rfl, rfl, by simp⟩
  | cons r l ih =>
    intro l' h O bl fr H hm hf
    have hf' : fr m = r :: (l ++ l') := hf
    rcases H.newRec hm with ⟨-, -, q⟩ | ⟨s', r', O', bl', fr', q1, -, -, q2, -, -, q3⟩
    · rw [hf'] at q; cases q
    obtain ⟨t1, -, t3, -⟩ := H.take hm hf'
    have hrr : r' = r := by
      have : Mem.newRec top h.s m = .ok (takeRec h.s m) := by
        unfold Mem.newRec
        have hfree : h.s.mem (m + oFree) ≠ 0 := by
          have := (H.mgr m sz hm).free
          rw [hf'] at this
          exact this.2.1
        rw [if_neg hfree]
      rw [this, t1] at q1
      cases q1; rfl
    subst hrr
    obtain ⟨w1, w2, w3⟩ := q3 _ hf'
    obtain ⟨h', u1, u2, u3, u4, u5, u6⟩ := ih q2 hm w3
    refine ⟨h', ?_, u2, u3, u4.trans w1, u5.trans w2, ?_⟩
    · simp only [List.map_cons, runs, ROp.run, q1, Out.andThen]
      rw [u1]
    · rw [u6]
      funext x
      simp only
      by_cases e : x = r'
      · subst e; rw [upd_same]; simp
      · rw [upd_ne _ _ e]; simp [e]

/-- Freed records are used again: if records of a manager are freed, then the manager serves as many requests
from them, the last one first, without asking the system. -/
theorem C67_reuse {top : Nat} {h : RHeap} (R : RReach top h) {m : Nat} {rs : List Nat} (hr : ∀ r ∈ rs, h.recs r = some m)
    (nd : rs.Nodup) :
    ∃ h₁ h₂, runs top h (rs.map (.freeRec m)) = .ok (h₁, rs.map fun _ => 0) ∧ (∀ r ∈ rs, h₁.recs r = none) ∧
      runs top h₁ (rs.map fun _ => .newRec m) = .ok (h₂, rs.reverse) ∧
      h₂.recs = h.recs ∧ h₂.own = h.own ∧ h₂.mgrs = h.mgrs ∧ h₂.s.brk = h.s.brk ∧ h₂.s.got = h.s.got := by
  obtain ⟨z, O, bl, fr, H⟩ := R.good
  cases rs with
  | nil => exact ⟨h, h, rfl, (fun r hr => nomatch hr), rfl, rfl, rfl, rfl, rfl, rfl⟩
  | cons r0 rs0 =>
  obtain ⟨sz, hm⟩ := H.liveR (hr r0 List.mem_cons_self)
  generalize r0 :: rs0 = rs at hr nd
  obtain ⟨h₁, fr', q1, q2, q3, q4, q5, q6, q7, q8⟩ := runs_free rs H hm hr nd
  obtain ⟨h₂, u1, u2, u3, u4, u5, u6⟩ := runs_new rs.reverse q2 (by rw [q5]; exact hm) q3
  refine ⟨h₁, h₂, q1, ?_, ?_, ?_, u2.trans q4, u3.trans q5, u4.trans q6, u5.trans q7⟩
  · intro r hr'; rw [q8]; simp [hr']
  · rw [show (rs.map fun _ => ROp.newRec m) = rs.reverse.map fun _ => ROp.newRec m by simp [List.map_const']]
    exact u1
  · rw [u6, q8]
    funext r
    by_cases hr' : r ∈ rs
    · simp [hr', hr r hr']
    · simp [hr']

/-- A manager is freed with all its records, always without failure, and without asking the system. -/
theorem C67_free {top : Nat} {h : RHeap} (R : RReach top h) {m n : Nat} (hm : h.mgrs m = some n) :
    ∃ h', (ROp.freeMgr m).run top h = .ok (h', 0) ∧ h'.mgrs = upd h.mgrs m none ∧ (∀ r, h'.recs r ≠ some m) ∧
      (∀ r m', m' ≠ m → (h'.recs r = some m' ↔ h.recs r = some m')) ∧ h'.own = h.own ∧ h'.s.brk = h.s.brk ∧ h'.s.got = h.s.got := by
  obtain ⟨z, O, bl, fr, H⟩ := R.good
  obtain ⟨s', q1, q2, q3, -⟩ := H.freeMgr hm
  simp only [ROp.run]
  rw [q1]
  refine ⟨_, rfl, rfl, ?_, ?_, rfl, q2, q3⟩
  · intro r
    simp only
    split
    · exact fun h => nomatch h
    · assumption
  · intro r m' hne
    simp only
    split
    · rename_i e; rw [e]; simp [Ne.symm hne]
    · exact Iff.rfl

/-- When there are no managers, the blocks in use are those of the callers: the heap is one of a program that uses
the block allocator only, so that all of C52 holds of it. -/
theorem C67_release {top : Nat} {h : RHeap} (R : RReach top h) (hm : ∀ m, h.mgrs m = none) : Reach top ⟨h.s, h.own⟩ := by
  obtain ⟨z, O, bl, fr, H⟩ := R.good
  have : O = h.own := by
    funext p
    apply Option.ext
    intro n
    rw [H.blks p n]
    constructor
    · rintro (h' | ⟨-, sz, h'⟩ | ⟨-, m, h'⟩)
      · exact h'
      · rw [hm] at h'; cases h'
      · rw [(H.gone m (hm m)).1] at h'; cases h'
    · exact Or.inl
  have := this ▸ H.reach.reach
  exact this

/-- Nothing is lost: if a request was ever served, then at any later time at which no block is held and all managers
are freed it is served again without asking the system, whatever was done in between with blocks and with records. -/
theorem C67_coalesce {top : Nat} {h : RHeap} (R : RReach top h) {n p : Nat} {h₁ : RHeap}
    (hg : (ROp.blk (.get n)).run top h = .ok (h₁, p)) {h' : RHeap} (hs : RSteps top h₁ h') (hn : ∀ q, h'.own q = none)
    (hm : ∀ m, h'.mgrs m = none) :
    ∃ h'' q, (ROp.blk (.get n)).run top h' = .ok (h'', q) ∧ h''.s.brk = h'.s.brk ∧ h''.s.got = h'.s.got := by
  obtain ⟨z, O, bl, fr, H⟩ := R.good
  simp only [ROp.run, Op.run] at hg
  rcases H.getB n with ⟨q, -⟩ | ⟨s', p', q1, q2, -⟩
  · rw [q] at hg; cases hg
  rw [q1] at hg
  cases hg
  obtain ⟨O', bl', fr', H'⟩ := RGood.steps hs q2.rebase
  have hO : ∀ q, O' q = none := by
    intro q
    cases e : O' q with
    | none => rfl
    | some k =>
      rcases (H'.blks q k).1 e with h' | ⟨-, sz, h'⟩ | ⟨-, m, h'⟩
      · rw [hn] at h'; cases h'
      · rw [hm] at h'; cases h'
      · rw [(H'.gone m (hm m)).1] at h'; cases h'
  obtain ⟨s'', q, w1, w2, w3⟩ := C52_coalesce H.reach.reach q1 H'.reach.2 hO
  simp only at w1 w2 w3
  refine ⟨{ h' with s := s'', own := give h'.own q n }, q, ?_, w2, w3⟩
  simp only [ROp.run, Op.run, w1, Out.andThen]

/-! Heaps with two managers, a block and records of both managers, of which some were freed. -/

namespace RDemo

/-- Whether an operation is legal. -/
def legalB (h : RHeap) : ROp → Bool
  | .blk op => Demo.legalB ⟨h.s, h.own⟩ op
  | .newMgr _ => true
  | .newRec m => (h.mgrs m).isSome
  | .freeRec m r => h.recs r == some m
  | .freeMgr m => (h.mgrs m).isSome
  | .write r x _ => (match (h.recs r).bind h.mgrs with | some n => decide (r ≤ x) && decide (x < r + n) | none => false)

theorem legal_ok {h : RHeap} {op : ROp} (hl : legalB h op = true) : op.Legal h := by
  cases op with
  | blk op => exact Demo.legal_ok hl
  | newMgr n => trivial
  | newRec m => exact Option.isSome_iff_exists.1 hl
  | freeRec m r => exact beq_iff_eq.1 hl
  | freeMgr m => exact Option.isSome_iff_exists.1 hl
  | write r x v =>
    simp only [legalB] at hl
    split at hl
    · rename_i n e
      obtain ⟨m, h1, h2⟩ := Option.bind_eq_some_iff.1 e
      simp only [Bool.and_eq_true, decide_eq_true_eq] at hl
      exact ⟨m, n, h1, h2, hl.1, hl.2⟩
    · cases hl

/-- Running a list of operations. -/
def go (top : Nat) (h : RHeap) : List ROp → Option RHeap
  | [] => some h
  | op :: l =>
    if legalB h op then
      match op.run top h with
      | .ok (h, _) => go top h l
      | _ => none
    else none

theorem go_steps {top : Nat} : ∀ (l : List ROp) {h₀ h h' : RHeap}, RSteps top h₀ h → go top h l = some h' → RSteps top h₀ h' := by
  intro l
  induction l with
  | nil => intro h₀ h h' S e; cases e; exact S
  | cons op l ih =>
    intro h₀ h h' S e
    unfold go at e
    split at e
    · rename_i hl
      split at e
      · rename_i h₁ r hr
        exact ih (S.step op r (legal_ok hl) hr) e
      · cases e
    · cases e

def start : RHeap := RHeap.init (fun _ => 7) 1003

theorem reach {l : List ROp} {P : RHeap → Bool}
    (h : (match go (2 ^ 40) start l with | some h => P h | none => false) = true) : ∃ h, RReach (2 ^ 40) h ∧ P h = true := by
  split at h
  · rename_i h' e
    exact ⟨h', ⟨_, _, by decide, go_steps l (RSteps.refl _) e⟩, h⟩
  · cases h

/-- Managers for records of 20 and of 2000 bytes; the second one has two records in each block. -/
def script : List ROp :=
  [.newMgr 20, .newMgr 2000, .blk (.get 100), .newRec 1064, .newRec 1064, .newRec 1064, .write 5168 5187 99,
   .freeRec 1064 5192, .newRec 1192, .newRec 1192, .newRec 1192, .freeRec 1064 5168, .newRec 1064]

theorem heap : ∃ h, RReach (2 ^ 40) h ∧
    (h.mgrs 1064 == some 20 && h.mgrs 1192 == some 2000 && h.own 1320 == some 100 && h.recs 5168 == some 1064 && h.recs 5192 == none &&
      h.recs 5216 == some 1064 && h.recs 9264 == some 1192 && h.recs 11264 == some 1192 && h.recs 13360 == some 1192 &&
      h.s.mem 5187 == 99 && h.s.got == [(1003, 32789)]) = true :=
  reach (l := script) (by decide +kernel)

example : ∃ h, RReach (2 ^ 40) h ∧ ∃ r m n r' m' n' p k, h.recs r = some m ∧ h.mgrs m = some n ∧ h.recs r' = some m' ∧
    h.mgrs m' = some n' ∧ r ≠ r' ∧ m ≠ m' ∧ h.own p = some k := by
  obtain ⟨h, R, e⟩ := heap
  simp only [Bool.and_eq_true, beq_iff_eq] at e
  exact ⟨h, R, 5168, 1064, 20, 9264, 1192, 2000, 1320, 100, by simp [e]⟩

/-- The hypotheses of `C67_coalesce`: a request, then managers and records, then all freed. -/
example : ∃ (h₁ h' : RHeap) (p : Nat), (ROp.blk (.get 5000)).run (2 ^ 40) start = .ok (h₁, p) ∧ RSteps (2 ^ 40) h₁ h' ∧
    (∀ q, h'.own q = none) ∧ ∀ m, h'.mgrs m = none := by
  have h : (match (ROp.blk (.get 5000)).run (2 ^ 40) start with
    | .ok (h, p) => p == 1064 && (go (2 ^ 40) h [.newMgr 20]).isSome
    | _ => false) = true := by decide +kernel
  have h2 : (match (ROp.blk (.get 5000)).run (2 ^ 40) start with
    | .ok (h, _) => (match (ROp.newMgr 20).run (2 ^ 40) h with
      | .ok (_, m) => m == 9256
      | _ => false)
    | _ => false) = true := by decide +kernel
  split at h
  · rename_i h₁ p e
    rw [e] at h2
    simp only at h2
    simp only [Bool.and_eq_true, beq_iff_eq] at h
    have R : RReach (2 ^ 40) start := ⟨_, _, by decide, RSteps.refl _⟩
    have R1 : RReach (2 ^ 40) h₁ := ⟨_, _, by decide, (RSteps.refl _).step (.blk (.get 5000)) p trivial e⟩
    have m0 : h₁.own = upd (fun _ => none) 1064 (some 5000) ∧ h₁.mgrs = fun _ => none := by
      simp only [ROp.run, Op.run] at e
      cases e' : getBlock (2 ^ 40) start.s 5000 with
      | exit => rw [e'] at e; cases e
      | undef => rw [e'] at e; cases e
      | ok q =>
        rw [e'] at e
        simp only [Out.andThen, Out.ok.injEq, Prod.mk.injEq] at e
        obtain ⟨e1, e2⟩ := e
        subst e1
        refine ⟨?_, rfl⟩
        rw [e2, h.1]
        rfl
    split at h2
    · rename_i h₂ m e2
      simp only [beq_iff_eq] at h2
      subst h2
      rcases C67_manager R1 20 with ⟨q, -⟩ | ⟨h₃, m, q1, -, -, -, -, q2, q3, q4⟩
      · rw [q] at e2; cases e2
      rw [q1] at e2
      cases e2
      have S2 : RSteps (2 ^ 40) h₁ h₂ := (RSteps.refl _).step (.newMgr 20) 9256 trivial q1
      have R2 : RReach (2 ^ 40) h₂ := by
        obtain ⟨mem, brk, h0, S⟩ := R1
        exact ⟨mem, brk, h0, S.step (.newMgr 20) 9256 trivial q1⟩
      have hm : h₂.mgrs 9256 = some 20 := by rw [q2, upd_same]
      obtain ⟨h₄, f1, f2, -, -, f3, -⟩ := C67_free R2 hm
      have R4 : RReach (2 ^ 40) h₄ := by
        obtain ⟨mem, brk, h0, S⟩ := R2
        exact ⟨mem, brk, h0, S.step (.freeMgr 9256) 0 ⟨20, hm⟩ f1⟩
      have S4 : RSteps (2 ^ 40) h₁ h₄ := S2.step (.freeMgr 9256) 0 ⟨20, hm⟩ f1
      have mg : ∀ m, h₄.mgrs m = none := by
        intro m
        rw [f2, q2, m0.2]
        by_cases e : m = 9256
        · subst e; rw [upd_same]
        · rw [upd_ne _ _ e, upd_ne _ _ e]
      have ow : h₄.own = upd (fun _ => none) 1064 (some 5000) := by rw [f3, q3, m0.1]
      have h5 : h₄.own 1064 = some 5000 := by rw [ow, upd_same]
      obtain ⟨s5, g1, -, -, -, -⟩ := C52_free (C67_release R4 mg) h5
      simp only at g1
      refine ⟨h₁, { h₄ with s := s5, own := upd h₄.own 1064 none }, p, e, S4.step (.blk (.free 1064)) 0 (Or.inr ⟨5000, h5⟩) ?_, ?_, mg⟩
      · simp only [ROp.run, Op.run, g1, Out.andThen]
      · intro q
        simp only
        rw [ow]
        by_cases e : q = 1064
        · subst e; rw [upd_same]
        · rw [upd_ne _ _ e, upd_ne _ _ e]
    · cases h2
  · cases h

/-- Two records of one manager, to be freed and got again. -/
example : ∃ h, RReach (2 ^ 40) h ∧ ∃ m, ∀ r ∈ [5168, 5216], h.recs r = some m := by
  obtain ⟨h, R, e⟩ := heap
  simp only [Bool.and_eq_true, beq_iff_eq] at e
  exact ⟨h, R, 1064, by simp [e]⟩

end RDemo

end Cal.Mem
