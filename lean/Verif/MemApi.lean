import Verif.MemGrow

/-!
# The calls of the block allocator
-/

namespace Cal.Mem

theorem Ev.weaken {X Y : Nat → Prop} {s G s' G'} (h : Ev X Y s G s' G') (Z : Nat → Prop) :
    Ev (fun c => X c ∨ Z c) (fun c => Y c ∨ Z c) s G s' G' :=
  ⟨fun c b hc hu hn => h.keep c b hc hu fun q => hn (Or.inl q), fun c b hc hu hn =>
    have q := h.back c b hc hu fun q => hn (Or.inl q)
    ⟨q.1, fun r => r.elim q.2 fun z => hn (Or.inr z)⟩, h.sol⟩

theorem find_some {avail : Nat → Nat} {i j : Nat} (h : find avail i = some j) : i ≤ j ∧ j ≤ 62 ∧ avail j ≠ 0 := by
  unfold find at h
  have h1 := List.mem_of_find?_eq_some h
  have h2 := List.find?_some h
  simp only [List.mem_range'_1, maxIdx] at h1
  simp only [decide_eq_true_eq] at h2
  exact ⟨h1.1, by omega, h2⟩

theorem find_none {avail : Nat → Nat} {i : Nat} (h : find avail i = none) : ∀ j, i ≤ j → j ≤ 62 → avail j = 0 := by
  intro j h1 h2
  unfold find at h
  rw [List.find?_eq_none] at h
  have := h j (by simp only [List.mem_range'_1, maxIdx]; omega)
  simpa using this

namespace Inv

variable {s : St} {G : Gh}

theorem avail_ne (I : Inv s G) {j : Nat} (hj : j ≤ 62) (h : s.avail j ≠ 0) : s.avail j ∈ G.fl j := by
  have r := I.ring j hj
  cases hl : G.fl j with
  | nil => rw [hl] at r; exact absurd r h
  | cons x l => rw [hl] at r; rw [r.1]; exact List.mem_cons_self

theorem avail_eq (I : Inv s G) {c b} (h : G.blk c = some b) (hf : b.st = .free) : s.avail b.k ≠ 0 := by
  have r := I.ring b.k (I.shape _ _ h).2.1
  have hm := (I.flmem b.k c).2 ⟨b, h, rfl, hf⟩
  cases hl : G.fl b.k with
  | nil => rw [hl] at hm; cases hm
  | cons x l => rw [hl] at r; rw [r.1]; exact r.2.1

end Inv

theorem Good.take_ok {s : St} {G : Gh} (h : Good s G) {i j : Nat} (hi : 6 ≤ i) (hij : i ≤ j) (hj : j ≤ 62) (ha : s.avail j ≠ 0) :
    ∃ s' p G' g, take s i j = .ok (s', p) ∧ Good s' G' ∧ Rest s s' ∧ 40 ≤ p ∧
      Ev (fun _ => False) (fun c => c = p - 40) s G s' G' ∧ G'.blk (p - 40) = some ⟨i, .used, g⟩ ∧
      (∀ b, G.blk (p - 40) = some b → b.st ≠ .used) := by
  obtain ⟨I, hl, hN⟩ := h
  have hm := I.avail_ne hj ha
  obtain ⟨⟨k, st, g⟩, hb, rfl, hst⟩ := (I.flmem j _).1 hm
  simp only at hst hij hj
  subst hst
  obtain ⟨s1, h1, R1, I1, f1⟩ := I.remove hb
  have E1 := I.remove_ev hb (fl := upd G.fl k ((G.fl k).erase (s.avail k))) f1
  have l1 : Lim s1 ⟨upd G.blk (s.avail k) (some ⟨k, .used, g⟩), G.seg, upd G.fl k ((G.fl k).erase (s.avail k))⟩ :=
    I.lim_out hl rfl f1
  have N1 : NoLoose ⟨upd G.blk (s.avail k) (some ⟨k, .used, g⟩), G.seg, upd G.fl k ((G.fl k).erase (s.avail k))⟩ := by
    intro c b hc
    by_cases e : c = s.avail k
    · subst e; simp only [upd_same] at hc; cases hc; exact fun h => nomatch h
    · simp only [upd_ne _ _ e] at hc; exact hN c b hc
  obtain ⟨s2, G2, h2, I2, l2, R2, E2, b2, N2, -, -⟩ := Inv.trim_ok 64 (k - i) (by omega) I1 l1 (a := s.avail k) (i := i) (g := g)
    (by rw [show i + (k - i) = k by omega]; exact upd_same _ _ _) hi
  unfold take
  simp only [h1, h2]
  have e : s.avail k + hdr - 40 = s.avail k := by simp only [hdr]; omega
  refine ⟨s2, s.avail k + hdr, G2, g, rfl, ⟨I2, l2, N2 N1⟩, R1.trans R2, by simp only [hdr]; omega, ?_, ?_, ?_⟩
  · rw [e]
    refine E1.trans E2 ?_
    intro c b hc hu _ e
    subst e; rw [hb] at hc; cases hc; cases hu
  · rw [e]; exact b2
  · rw [e]
    intro b hb'; rw [hb] at hb'; cases hb'; exact fun h => nomatch h

/-- The index of a size. -/
theorem index_ok {size : Nat} (h1 : 1 ≤ size) (h2 : ¬ size > 2 ^ maxIdx - hdr) :
    ∃ i, ceilingLog2 (size + hdr) = some i ∧ 6 ≤ i ∧ i ≤ 62 ∧ size + 40 ≤ 2 ^ i ∧ 2 ^ (i - 1) < size + 40 := by
  have e : size + hdr ≤ 2 ^ 62 := by simp only [maxIdx, hdr] at *; omega
  obtain ⟨i, q1, q2, q3, q4⟩ := ceilingLog2_ok (i := size + hdr) (Nat.le_trans e (Nat.pow_le_pow_right (by omega) (by omega)))
  have h6 : 6 ≤ i := by
    apply Classical.byContradiction
    intro hlt
    have : 2 ^ i ≤ 2 ^ 5 := Nat.pow_le_pow_right (by omega) (by omega)
    simp only [hdr] at q3
    omega
  have q4 : 2 ^ (i - 1) < size + hdr := q4.resolve_left (by omega)
  refine ⟨i, q1, h6, ?_, q3, q4⟩
  have : 2 ^ (i - 1) < 2 ^ 62 := Nat.lt_of_lt_of_le q4 e
  have := (Nat.pow_lt_pow_iff_right (a := 2) (by omega)).1 this
  omega

/-- What the system gave. -/
def Gave (s s' : St) (top : Nat) : Prop :=
  ∃ n, s'.got = (s.brk, n) :: s.got ∧ s'.brk = s.brk + n ∧ s'.brk ≤ top

theorem Good.getBlock_ok {s : St} {G : Gh} (h : Good s G) {size : Nat} (top : Nat) (h1 : 1 ≤ size) :
    (getBlock top s size = .exit ∧ (2 ^ 62 < size + 40 ∨ top < s.brk + 4 * (size + 40) + 2 ^ 17) ∧
      (size + 40 ≤ 2 ^ 62 → ∀ c b, G.blk c = some b → b.st = .free → ¬ size + 40 ≤ 2 ^ b.k)) ∨
    ∃ s' p G' i g, getBlock top s size = .ok (s', p) ∧ Good s' G' ∧ 40 ≤ p ∧
      Ev (fun _ => False) (fun c => c = p - 40) s G s' G' ∧ G'.blk (p - 40) = some ⟨i, .used, g⟩ ∧
      size + 40 ≤ 2 ^ i ∧ 2 ^ (i - 1) < size + 40 ∧ (∀ b, G.blk (p - 40) = some b → b.st ≠ .used) ∧
      (Rest s s' ∨ (Gave s s' top ∧ ∀ c b, G.blk c = some b → b.st = .free → ¬ size + 40 ≤ 2 ^ b.k)) := by
  unfold getBlock
  rw [if_neg (by omega)]
  by_cases hbig : size > 2 ^ maxIdx - hdr
  · left
    rw [if_pos hbig]
    have : 2 ^ 62 < size + 40 := by simp only [maxIdx, hdr] at hbig; omega
    exact ⟨rfl, Or.inl this, fun h => by omega⟩
  rw [if_neg hbig]
  obtain ⟨i, q1, q2, q3, q4, q5⟩ := index_ok h1 hbig
  rw [q1]
  simp only
  cases hf : find s.avail i with
  | some j =>
    right
    obtain ⟨j1, j2, j3⟩ := find_some hf
    obtain ⟨s', p, G', g, r1, r2, r3, r4, r5, r6, r7⟩ := h.take_ok q2 j1 j2 j3
    exact ⟨s', p, G', i, g, r1, r2, r4, r5, r6, q4, q5, r7, Or.inl r3⟩
  | none =>
    have hno : ∀ c b, G.blk c = some b → b.st = .free → ¬ size + 40 ≤ 2 ^ b.k := by
      intro c b hc hfr hle
      have hk := (h.inv.shape _ _ hc).2.1
      refine h.inv.avail_eq hc hfr (find_none hf b.k ?_ hk)
      have := (Nat.pow_lt_pow_iff_right (a := 2) (by omega)).1 (Nat.lt_of_lt_of_le q5 hle)
      omega
    rcases Inv.grow_ok (top := top) h.inv h.lim h.noLoose q3 with ⟨g1, g2⟩ | ⟨s1, G1, g1, g2, g3, ⟨c, b, g4, g5, g6⟩, g7⟩
    · left
      simp only [g1]
      refine ⟨rfl, Or.inr ?_, fun _ => hno⟩
      have e1 := pow_two (i - 1)
      rw [show i - 1 + 1 = i by omega] at e1
      have h15 : minIdx = 15 := rfl
      split at g2
      · rw [h15] at g2; simp at g2 ⊢; omega
      · have e2 := pow_two i; omega
    · right
      simp only [g1, Out.andThen]
      have hk := (g2.inv.shape _ _ g4).2.1
      cases hf1 : find s1.avail i with
      | none => exact absurd (find_none hf1 b.k g6 hk) (g2.inv.avail_eq g4 g5)
      | some j =>
        obtain ⟨j1, j2, j3⟩ := find_some hf1
        obtain ⟨s', p, G', g, r1, r2, r3, r4, r5, r6, r7⟩ := g2.take_ok q2 j1 j2 j3
        refine ⟨s', p, G', i, g, r1, r2, r4, g3.trans r5 (fun _ _ _ _ h => h), r6, q4, q5, ?_, Or.inr ⟨?_, hno⟩⟩
        · intro b hb hu
          exact r7 b (g3.keep _ b hb hu fun h => h).1 hu
        · obtain ⟨n, a1, a2, a3⟩ := g7
          exact ⟨n, by rw [r3.got, a1], by rw [r3.brk, a2], by rw [r3.brk]; exact a3⟩

theorem Good.mergeAndFree_ok {s : St} {G : Gh} (h : Good s G) {a k g : Nat} (ha : G.blk a = some ⟨k, .used, g⟩) :
    ∃ s' G' a' k', mergeAndFree s a = some s' ∧ Good s' G' ∧ Rest s s' ∧
      Ev (fun c => c = a) (fun _ => False) s G s' G' ∧ G'.blk a' = some ⟨k', .free, g⟩ ∧
      a' ≤ a ∧ a + 2 ^ k ≤ a' + 2 ^ k' ∧
      (∀ c b', BuddyOf g k' a' c → G'.blk c = some b' → b'.seg = g → ¬ (b'.st = .free ∧ b'.k = k')) := by
  obtain ⟨s1, a1, k1, G1, q1, I1, l1, N1, R1, b1, E1, q2, q3, q4, q5⟩ := Inv.merge_ok 64 (by omega) h.inv h.lim h.noLoose ha
  obtain ⟨s2, h2, R2, I2, f2⟩ := I1.add b1 (fun h => nomatch h)
  unfold mergeAndFree
  simp only [q1, h2]
  refine ⟨s2, _, a1, k1, rfl, ⟨I2, I1.lim_out l1 rfl f2, ?_⟩, R1.trans R2, ?_, upd_same _ _ _, q2, q3, ?_⟩
  · intro c b hc
    by_cases e : c = a1
    · subst e; simp only [upd_same] at hc; cases hc; exact fun h => nomatch h
    · simp only [upd_ne _ _ e] at hc; exact N1 c b hc
  · refine E1.trans (I1.add_ev b1 f2 fun d hB hd => q5 d _ hB hd rfl ⟨rfl, rfl⟩) ?_
    intro c b hc hu hne e
    subst e
    rcases q4 with e | ⟨b₁, hb, hf⟩
    · exact hne e
    · rw [hb] at hc; cases hc; rw [hf] at hu; cases hu
  · intro c b' hB hc hg
    have hne : c ≠ a1 := by
      have := Nat.two_pow_pos k1
      rcases hB with ⟨e, -⟩ | ⟨e, -⟩ <;> omega
    simp only [upd_ne _ _ hne] at hc
    exact q5 c b' hB hc hg

theorem Good.freeBlock_ok {s : St} {G : Gh} (h : Good s G) {p k g : Nat} (hp : 40 ≤ p) (ha : G.blk (p - 40) = some ⟨k, .used, g⟩) :
    ∃ s' G' a' k', freeBlock s p = .ok s' ∧ Good s' G' ∧ Rest s s' ∧
      Ev (fun c => c = p - 40) (fun _ => False) s G s' G' ∧ G'.blk a' = some ⟨k', .free, g⟩ ∧
      a' ≤ p - 40 ∧ p - 40 + 2 ^ k ≤ a' + 2 ^ k' ∧
      (∀ c b', BuddyOf g k' a' c → G'.blk c = some b' → b'.seg = g → ¬ (b'.st = .free ∧ b'.k = k')) := by
  obtain ⟨s1, G1, a1, k1, q1, q2⟩ := h.mergeAndFree_ok ha
  have e := h.inv.hdr _ _ ha
  have hk := (h.inv.shape _ _ ha).2.1
  unfold freeBlock
  refine ⟨s1, G1, a1, k1, ?_, q2⟩
  rw [if_neg (by omega)]
  simp only [show hdr = 40 from rfl]
  rw [if_neg (e.2.2.2 rfl), e.1, if_neg (show ¬ k > maxIdx from by simp only [maxIdx] at *; omega), q1]

theorem Good.expand_ok : ∀ (fuel : Nat) {s : St} {G : Gh}, Good s G → ∀ {a k g i : Nat}, G.blk a = some ⟨k, .used, g⟩ → k < i →
    63 ≤ fuel + k →
    ∃ s' G' k' r, expand fuel s a i = some (s', r) ∧ Good s' G' ∧ Rest s s' ∧
      Ev (fun c => c = a) (fun c => c = a) s G s' G' ∧ G'.blk a = some ⟨k', .used, g⟩ ∧ k ≤ k' ∧ (r = true → k' = i) ∧
      (∀ x, a + 40 ≤ x → x < a + 2 ^ k → s'.mem x = s.mem x) := by
  intro fuel
  induction fuel with
  | zero =>
    intro s G h a k g i ha _ _
    have := (h.inv.shape _ _ ha).2.1
    simp only at this; omega
  | succ fuel ih =>
    intro s G h a k g i ha hki hf
    unfold expand
    simp only
    by_cases hc : buddy s a ≠ 0 ∧ a < buddy s a ∧ s.mem (buddy s a) = 0 ∧ s.mem (buddy s a + oSize) = s.mem (a + oSize)
    · rw [if_pos hc]
      obtain ⟨s', h1, h2⟩ := h.inv.absorb h.lim h.noLoose ha hc.1 hc.2.2.1 hc.2.2.2
      obtain ⟨G', e1, I', l', N', R', b', o1, o2, o3, E', m', f'⟩ := h2 a (by rw [if_neg (by omega)])
      rw [h1]
      simp only
      rw [e1]
      have hz : (s'.set (a + oSize) (k + 1)).mem (a + oSize) = k + 1 := upd_same _ _ _
      rw [hz]
      have p2 := pow_two k
      by_cases hi : k + 1 = i
      · rw [if_pos hi]
        exact ⟨_, G', k + 1, true, rfl, ⟨I', l', N'⟩, R', E', b', by omega, fun _ => hi, m' rfl⟩
      · rw [if_neg hi]
        obtain ⟨s'', G'', k'', r, q1, q2, q3, q4, q5, q6, q7, q8⟩ := ih ⟨I', l', N'⟩ b' (by omega : k + 1 < i) (by omega)
        refine ⟨s'', G'', k'', r, q1, q2, R'.trans q3, E'.trans q4 (fun _ _ _ _ h => h), q5, by omega, q7, ?_⟩
        intro x l1 l2
        rw [q8 x l1 (by omega), m' rfl x l1 l2]
    · rw [if_neg hc]
      exact ⟨s, G, k, false, rfl, h, Rest.refl s, ⟨fun c b hc hu hne => ⟨hc, fun _ _ _ => rfl⟩, fun c b hc hu hne => ⟨hc, hne⟩, Sol.refl G⟩,
        ha, Nat.le_refl _, (fun h => nomatch h), fun _ _ _ => rfl⟩

theorem Good.resizeBlock_ok {s : St} {G : Gh} (h : Good s G) {p k g size : Nat} (top : Nat) (hp : 40 ≤ p)
    (ha : G.blk (p - 40) = some ⟨k, .used, g⟩) (h1 : 1 ≤ size) :
    (resizeBlock top s p size = .exit ∧ (2 ^ 62 < size + 40 ∨ top < s.brk + 4 * (size + 40) + 2 ^ 17)) ∨
    ∃ s' q G' i g', resizeBlock top s p size = .ok (s', q) ∧ Good s' G' ∧ 40 ≤ q ∧
      Ev (fun c => c = p - 40) (fun c => c = q - 40) s G s' G' ∧ G'.blk (q - 40) = some ⟨i, .used, g'⟩ ∧
      size + 40 ≤ 2 ^ i ∧ (q ≠ p → ∀ b, G.blk (q - 40) = some b → b.st ≠ .used) ∧
      (∀ x, x < size → x < 2 ^ k - 40 → s'.mem (q + x) = s.mem (p + x)) ∧ (Rest s s' ∨ Gave s s' top) := by
  have e := h.inv.hdr _ _ ha
  have hk := (h.inv.shape _ _ ha).2.1
  simp only at hk
  have hk6 := h.inv.size ha
  simp only at hk6
  unfold resizeBlock
  rw [if_neg (by omega)]
  simp only [show hdr = 40 from rfl]
  rw [if_neg (e.2.2.2 rfl), e.1, if_neg (show ¬ k > maxIdx from by simp only [maxIdx]; omega), if_neg (by omega)]
  by_cases hbig : size > 2 ^ maxIdx - hdr
  · left
    rw [if_pos (show size > 2 ^ maxIdx - 40 from hbig)]
    exact ⟨rfl, Or.inl (by simp only [maxIdx, hdr] at hbig; omega)⟩
  rw [if_neg (show ¬ size > 2 ^ maxIdx - 40 from hbig)]
  obtain ⟨i, q1, q2, q3, q4, q5⟩ := index_ok h1 hbig
  rw [show size + 40 = size + hdr from rfl, q1]
  simp only
  by_cases hki : k ≥ i
  · -- a smaller block
    right
    rw [if_pos hki]
    obtain ⟨s2, G2, h2, I2, l2, R2, E2, b2, N2, m2, -⟩ := Inv.trim_ok 64 (k - i) (by omega) h.inv h.lim (a := p - 40) (i := i) (g := g)
      (by rw [show i + (k - i) = k by omega]; exact ha) q2
    rw [h2]
    refine ⟨s2, p, G2, i, g, rfl, ⟨I2, l2, N2 h.noLoose⟩, hp, E2, b2, q4, fun hne => absurd rfl hne, ?_, Or.inl R2⟩
    intro x x1 x2
    exact m2 _ (by omega) (by omega)
  · rw [if_neg hki]
    obtain ⟨s1, G1, k1, r, x1, x2, x3, x4, x5, x6, x7, x8⟩ := h.expand_ok 64 ha (by omega : k < i) (by omega)
    rw [x1]
    cases r with
    | true =>
      right
      simp only
      have := x7 rfl
      subst this
      refine ⟨s1, p, G1, k1, g, rfl, x2, hp, x4, x5, q4, fun hne => absurd rfl hne, ?_, Or.inl x3⟩
      intro x l1 l2
      exact x8 _ (by omega) (by omega)
    | false =>
      simp only
      rcases x2.getBlock_ok top h1 with ⟨y1, y2, -⟩ | ⟨s2, q, G2, i', g2, y1, y2, y3, y4, y5, y6, y7, y8, y9⟩
      · left
        rw [y1]
        exact ⟨rfl, by rw [x3.brk] at y2; exact y2⟩
      · right
        rw [y1]
        simp only [Out.andThen]
        have hqp : q - 40 ≠ p - 40 := fun e => y8 _ (e ▸ x5) rfl
        obtain ⟨z1, z2⟩ := y4.keep _ _ x5 rfl (fun h => h)
        have hii : i ≤ i' := by
          have := (Nat.pow_lt_pow_iff_right (a := 2) (by omega)).1 (Nat.lt_of_lt_of_le q5 y6)
          omega
        have hpow : 2 ^ k ≤ 2 ^ i' := Nat.pow_le_pow_right (by omega) (by omega)
        have hpow1 : 2 ^ k ≤ 2 ^ k1 := Nat.pow_le_pow_right (by omega) x6
        -- the copy
        generalize hm : copy s2.mem q p (2 ^ k - 40) = m
        have hm1 : ∀ x, ¬ (q ≤ x ∧ x < q + (2 ^ k - 40)) → m x = s2.mem x := by
          intro x hx; rw [← hm]; unfold copy; rw [if_neg hx]
        have hm2 : ∀ x, x < 2 ^ k - 40 → m (q + x) = s2.mem (p + x) := by
          intro x hx; rw [← hm]; unfold copy; rw [if_pos ⟨by omega, by omega⟩]; congr 1; omega
        have hoff : ∀ x, q ≤ x → x < q + (2 ^ k - 40) → Inv.Out G2 x := by
          intro x l1 l2
          exact y2.inv.out_pay y5 (by omega) (by simp only; omega)
        have hout : ∀ x c b, G2.blk c = some b → c ≤ x → x < c + 40 → m x = s2.mem x := by
          intro x c b hc l1 l2
          refine hm1 x fun ⟨l3, l4⟩ => ?_
          have := hoff x l3 l4 c b hc
          omega
        have hsegm : ∀ g L, G2.seg g = some L → ∀ j < 16, m (g + j) = s2.mem (g + j) := by
          intro g L hg j hj
          refine hm1 _ fun ⟨l3, l4⟩ => ?_
          have := y2.inv.seg_out hg y5
          simp only at this
          omega
        have I3 : Inv { s2 with mem := m } G2 := y2.inv.frame ⟨rfl, rfl, rfl, rfl⟩ rfl
          (fun a b hab j hj => hout _ a b hab (by omega) (by omega)) (fun g L hg => hsegm g L hg 0 (by omega))
        have l3 : Lim { s2 with mem := m } G2 := fun g L hg => by
          obtain ⟨w1, w2⟩ := y2.lim g L hg
          exact ⟨(hsegm g L hg oLimit (by decide)).trans w1, w2⟩
        have E3 : Ev (fun c => c = q - 40 ∨ c = p - 40) (fun c => c = q - 40 ∨ c = p - 40) s2 G2 { s2 with mem := m } G2 := by
          constructor
          · intro c b hc hu hne
            refine ⟨hc, fun x l1 l2 => hm1 x fun ⟨l3, l4⟩ => ?_⟩
            have := y2.inv.sep hc y5 (fun e => hne (Or.inl e))
            simp only at this
            omega
          · intro c b hc hu hne; exact ⟨hc, hne⟩
          · exact Sol.refl _
        obtain ⟨s4, G4, a4, k4, w1, w2, w3, w4, w5, -⟩ := (Good.mk I3 l3 y2.noLoose).mergeAndFree_ok z1
        rw [w1]
        obtain ⟨v1, v2⟩ := w4.keep _ _ y5 rfl hqp
        refine ⟨s4, q, G4, i', g2, rfl, w2, y3, ?_, v1, y6, ?_, ?_, ?_⟩
        · have F1 := y4.weaken (fun c => c = p - 40)
          have F3 := w4.weaken (fun c => c = q - 40)
          have F12 : Ev (fun c => c = p - 40) (fun c => c = q - 40 ∨ c = p - 40) s1 G1 s2 G2 :=
            ⟨fun c b hc hu hn => F1.keep c b hc hu fun h => h.elim id hn,
              fun c b hc hu hn => have w := F1.back c b hc hu hn; ⟨w.1, fun h => w.2 (Or.inr h)⟩, F1.sol⟩
          have F34 : Ev (fun c => c = q - 40 ∨ c = p - 40) (fun c => c = q - 40) { s2 with mem := m } G2 s4 G4 :=
            ⟨fun c b hc hu hn => F3.keep c b hc hu fun h => hn h.symm,
              fun c b hc hu hn => have w := F3.back c b hc hu (fun h => h.elim id hn); ⟨w.1, fun h => w.2 h.symm⟩, F3.sol⟩
          have hq1 : ∀ b, G1.blk (q - 40) = some b → b.st = .used → False := fun b hb hu => y8 b hb hu
          have A := x4.trans F12 (by
            intro c b hc hu hn h
            exact hn h)
          have B := (A.trans E3 (by
            intro c b hc hu hn h
            rcases h with rfl | h
            · exact hq1 b (x4.keep _ _ hc hu hn).1 hu
            · exact hn h))
          exact B.trans F34 (by
            intro c b hc hu hn h
            rcases h with rfl | h
            · exact hq1 b (x4.keep _ _ hc hu hn).1 hu
            · exact hn h)
        · intro hne b hb hu
          exact y8 b (x4.keep _ _ hb hu hqp).1 hu
        · intro x l1 l2
          rw [v2 (q + x) (by omega) (by simp only; omega)]
          show m (q + x) = _
          rw [hm2 x l2, z2 (p + x) (by omega) (by simp only; omega), x8 _ (by omega) (by omega)]
        · rcases y9 with R | ⟨⟨n, n1, n2, n3⟩, -⟩
          · exact Or.inl (((x3.trans R).trans (s'' := { s2 with mem := m }) ⟨rfl, rfl, rfl, rfl⟩).trans w3)
          · right
            exact ⟨n, by rw [w3.got]; show s2.got = _; rw [n1, x3.got, x3.brk], by rw [w3.brk]; show s2.brk = _; rw [n2, x3.brk],
              by rw [w3.brk]; exact n3⟩

end Cal.Mem
