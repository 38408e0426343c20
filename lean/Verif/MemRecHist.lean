import Verif.MemRecOps

/-!
# Histories with record managers
-/

namespace Cal.Mem

/-- What is held before and after holds the same. -/
def RHeap.Same (h h' : RHeap) : Prop :=
  (∀ p n, h.own p = some n → h'.own p = some n → ∀ x, x < n → h'.s.mem (p + x) = h.s.mem (p + x)) ∧
  ∀ r m n, h.recs r = some m → h'.recs r = some m → h.mgrs m = some n → ∀ x, x < n → h'.s.mem (r + x) = h.s.mem (r + x)

section
variable {top : Nat} {z : Heap} {h : RHeap} {O : Nat → Option Nat} {bl fr : Nat → List Nat}

/-- Changes outside of a record: what is in its block stays. -/
theorem RGood.rec_same (H : RGood top z h O bl fr) {s' : St}
    (hb : ∀ m b x, b ∈ bl m → x < 4056 → s'.mem (b + x) = h.s.mem (b + x)) {r m n x : Nat} (hr : h.recs r = some m)
    (hm : h.mgrs m = some n) (hx : x < recSize n) : s'.mem (r + x) = h.s.mem (r + x) := by
  obtain ⟨b, hb', i, hi, e⟩ := H.rec_slot hm hr
  have w := slot_in (b := b) hi
  have := hb m b (8 + recSize n * i + x) hb' (by omega)
  rw [e, show b + 8 + recSize n * i + x = b + (8 + recSize n * i + x) by omega]
  exact this

/-- A free place is not held. -/
theorem RGood.free_none (H : RGood top z h O bl fr) {m sz r : Nat} (hm : h.mgrs m = some sz) (hr : r ∈ fr m) : h.recs r = none := by
  cases e : h.recs r with
  | none => rfl
  | some m' =>
    obtain ⟨sz', hm'⟩ := H.liveR e
    have := H.slot_one (H.rec_slot hm' e) ((H.slots m sz hm r).1 (Or.inl hr))
    subst this
    exact absurd e (H.apart m' r hr)

/-- Taking a record changes the list only. -/
theorem RGood.take_same (H : RGood top z h O bl fr) {m sz v : Nat} (hm : h.mgrs m = some sz) :
    (∀ p n, h.own p = some n → ∀ x, x < n → (h.s.set (m + 8) v).mem (p + x) = h.s.mem (p + x)) ∧
    ∀ r m' n, h.recs r = some m' → h.mgrs m' = some n → ∀ x, x < recSize n → (h.s.set (m + 8) v).mem (r + x) = h.s.mem (r + x) := by
  constructor
  · intro p n hp x hx
    have := H.sep (H.ownO hp) (H.mgrO hm) fun e => H.x1 _ _ _ (e ▸ hp) hm
    exact St.set_ne _ (by omega)
  · intro r m' n hr hm' x hx
    have := H.slot_out (H.rec_slot hm' hr) (H.mgrO hm) fun hb => H.x3 _ _ _ hm hb
    exact St.set_ne _ (by omega)

theorem RGood.newRec (H : RGood top z h O bl fr) {m sz : Nat} (hm : h.mgrs m = some sz) :
    (Mem.newRec top h.s m = .exit ∧ top < h.s.brk + 2 ^ 18 ∧ fr m = []) ∨
    ∃ s' r O' bl' fr', Mem.newRec top h.s m = .ok (s', r) ∧ r ≠ 0 ∧ h.recs r = none ∧
      RGood top z { h with s := s', recs := upd h.recs r (some m) } O' bl' fr' ∧
      (∀ p n, h.own p = some n → ∀ x, x < n → s'.mem (p + x) = h.s.mem (p + x)) ∧
      (∀ r' m' n, h.recs r' = some m' → h.mgrs m' = some n → ∀ x, x < recSize n → s'.mem (r' + x) = h.s.mem (r' + x)) ∧
      ∀ l, fr m = r :: l → s'.brk = h.s.brk ∧ s'.got = h.s.got ∧ fr' m = l := by
  have M := H.mgr m sz hm
  unfold Mem.newRec
  cases hf : fr m with
  | nil =>
    have L := M.free
    rw [hf] at L
    have L0 : h.s.mem (m + 8) = 0 := L
    rw [if_pos (show h.s.mem (m + oFree) = 0 from L0)]
    rcases H.grow hm hf with ⟨q1, q2⟩ | ⟨s1, b, q1, q2, q3, q4⟩
    · left; rw [q1]; exact ⟨rfl, q2, rfl⟩
    · right
      have zR : 1 ≤ 4048 / recSize sz := (Nat.one_le_div_iff (by have := (recSize_ge sz).1; omega)).2 M.fits
      obtain ⟨r, l, hl⟩ : ∃ r l, places sz b = r :: l := by
        cases e : places sz b with
        | nil =>
          have := congrArg List.length e
          simp only [places, List.length_map, List.length_range, List.length_nil] at this
          omega
        | cons r l => exact ⟨r, l, rfl⟩
      have hf1 : upd fr m (places sz b) m = r :: l := by rw [upd_same, hl]
      obtain ⟨t1, t2, t3, t4⟩ := q3.take hm hf1
      obtain ⟨u1, u2⟩ := q3.take_same (v := s1.mem r) hm
      have hn := q3.free_none (r := r) hm (by rw [hf1]; exact List.mem_cons_self)
      refine ⟨_, r, _, _, _, ?_, t2, hn, t4, ?_, ?_, ?_⟩
      · rw [q1]; simp only [Out.andThen]; simp only at t1; rw [t1]
      · intro p n hp x hx
        rw [← q4 p n (H.ownO hp) (fun e => H.x1 _ _ _ (e ▸ hp) hm) x hx]
        exact u1 p n hp x hx
      · intro r' m' n hr hm' x hx
        have := H.rec_same (s' := s1) (fun m b x hb hx => q4 b 4056 (H.blkO hb) (fun e => H.x3 _ _ _ hm (e ▸ hb)) x hx) hr hm' hx
        rw [← this]
        exact u2 r' m' n hr hm' x hx
      · intro l e; cases e
  | cons r l =>
    obtain ⟨t1, t2, t3, t4⟩ := H.take hm hf
    obtain ⟨u1, u2⟩ := H.take_same (v := h.s.mem r) hm
    rw [if_neg (show ¬ h.s.mem (m + oFree) = 0 from by rw [show m + oFree = m + 8 from rfl, t3]; exact t2)]
    right
    refine ⟨_, r, _, _, _, by rw [t1], t2, H.free_none hm (by rw [hf]; exact List.mem_cons_self), t4, u1, u2, ?_⟩
    intro l' e
    cases e
    exact ⟨rfl, rfl, upd_same _ _ _⟩

/-- One step. -/
theorem RGood.step (H : RGood top z h O bl fr) {op : ROp} (hl : op.Legal h) {h' : RHeap} {r : Nat}
    (hr : op.run top h = .ok (h', r)) : ∃ O' bl' fr', RGood top z h' O' bl' fr' := by
  cases op with
  | blk op =>
    simp only [ROp.run] at hr
    cases e : op.run top ⟨h.s, h.own⟩ with
    | exit => rw [e] at hr; cases hr
    | undef => rw [e] at hr; cases hr
    | ok q =>
      rw [e] at hr; cases hr
      obtain ⟨O', h'⟩ := (H.blk hl e).1
      exact ⟨O', bl, fr, h'⟩
  | newMgr n =>
    simp only [ROp.run] at hr
    rcases H.newMgr n with ⟨q, -⟩ | ⟨s', p, q1, -, -, q2, -⟩
    · rw [q] at hr; cases hr
    · rw [q1] at hr; cases hr; exact ⟨_, _, _, q2⟩
  | newRec m =>
    obtain ⟨n, hm⟩ := hl
    simp only [ROp.run] at hr
    rcases H.newRec hm with ⟨q, -⟩ | ⟨s', p, O', bl', fr', q1, -, -, q2, -⟩
    · rw [q] at hr; cases hr
    · rw [q1] at hr; cases hr; exact ⟨_, _, _, q2⟩
  | freeRec m r =>
    obtain ⟨sz, hm⟩ := H.liveR hl
    cases hr
    exact ⟨_, _, _, H.freeRec hm hl⟩
  | freeMgr m =>
    obtain ⟨n, hm⟩ := hl
    simp only [ROp.run] at hr
    obtain ⟨s', q1, -, -, q2, -⟩ := H.freeMgr hm
    rw [q1] at hr; cases hr
    exact ⟨_, _, _, q2⟩
  | write r x v =>
    obtain ⟨m, n, hr', hm, h1, h2⟩ := hl
    cases hr
    have := (recSize_ge n).2.1
    exact ⟨_, _, _, H.write hm hr' h1 (by omega)⟩

theorem RGood.steps {h' : RHeap} (S : RSteps top h h') : ∀ {O : Nat → Option Nat} {bl fr : Nat → List Nat},
    RGood top z h O bl fr → ∃ O' bl' fr', RGood top z h' O' bl' fr' := by
  induction S with
  | refl => intro O bl fr H; exact ⟨_, _, _, H⟩
  | step op r _ hl hr ih =>
    intro O bl fr H
    obtain ⟨O1, bl1, fr1, H1⟩ := ih H
    exact H1.step hl hr

theorem RReach.good (R : RReach top h) : ∃ z O bl fr, RGood top z h O bl fr := by
  obtain ⟨mem, brk, h0, S⟩ := R
  obtain ⟨O, bl, fr, H⟩ := RGood.steps S (RGood.init mem h0)
  exact ⟨_, O, bl, fr, H⟩

/-- Seen from here. -/
theorem RGood.rebase (H : RGood top z h O bl fr) : RGood top ⟨h.s, O⟩ h O bl fr :=
  { H with reach := ⟨H.reach.reach, Steps.refl _⟩ }

end

end Cal.Mem
