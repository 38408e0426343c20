import Verif.MemOps

/-!
# Memory from the system
-/

namespace Cal.Mem

theorem Ev.refl (s : St) (G : Gh) : Ev (fun _ => False) (fun _ => False) s G s G :=
  ⟨fun _ _ h _ _ => ⟨h, fun _ _ _ => rfl⟩, fun _ _ h _ hn => ⟨h, hn⟩, Sol.refl G⟩

namespace Inv

theorem carve_ok {g a : Nat} (ha15 : 15 ≤ a) (ha : a ≤ 62) : ∀ (fuel : Nat) {s : St} {G : Gh} {L n : Nat}, Inv s G → Lim s G →
    NoLoose G → G.seg g = some L → (∀ g' L', G.seg g' = some L' → g' ≠ g → g' + 16 + L' ≤ g) →
    (n = 0 ∨ 2 ^ a ≤ n) → n < 2 ^ (a + 1) → 2 ^ a ∣ L + n → 2 ^ 15 ∣ n → L + n ≤ 2 ^ 62 → g + 16 + L + n ≤ s.brk →
    (∀ x, g + 16 + L ≤ x → x < g + 16 + L + n → Got s x) → 1 ≤ fuel → 2 ^ (64 - fuel) ∣ n →
    ∃ s' G', carve g fuel s n = some s' ∧ Good s' G' ∧ Rest s s' ∧ Ev (fun _ => False) (fun _ => False) s G s' G' ∧
      (2 ^ a ≤ n → ∃ c b, G'.blk c = some b ∧ b.st = .free ∧ b.k = a) := by
  intro fuel
  induction fuel with
  | zero => intro s G L n _ _ _ _ _ _ _ _ _ _ _ _ h; omega
  | succ fuel ih =>
    intro s G L n I hl hN hg ho hn hlt hd h15 hL hb hgot hf1 hf
    unfold carve
    have pa := Nat.two_pow_pos a
    by_cases h0 : n = 0
    · subst h0
      rw [if_pos rfl]
      exact ⟨s, G, rfl, ⟨I, hl, hN⟩, Rest.refl s, Ev.refl s G, fun h => by omega⟩
    · rw [if_neg h0]
      have hna : 2 ^ a ≤ n := by omega
      obtain ⟨j, q, e1, e2⟩ := lowbit n (by omega)
      have hja : j ≤ a := by
        apply Classical.byContradiction
        intro hlt'
        have h1 : 2 ^ (a + 1) ≤ 2 ^ j := Nat.pow_le_pow_right (by omega) (by omega)
        have h2 : 2 ^ j ≤ n := by rw [e1]; exact Nat.le_mul_of_pos_right _ (by omega)
        omega
      have hdj : 2 ^ j ∣ n := ⟨_, e1⟩
      have hj15 : 15 ≤ j := by
        apply Classical.byContradiction
        intro hlt'
        have h1 : 2 ^ (j + 1) ∣ 2 ^ j * (2 * q + 1) := by
          rw [← e1]; exact Nat.dvd_trans (Nat.pow_dvd_pow 2 (by omega)) h15
        rw [Nat.pow_succ] at h1
        have h2 := Nat.dvd_of_mul_dvd_mul_left (Nat.two_pow_pos j) h1
        omega
      have hjn : 2 ^ j ≤ n := Nat.le_of_dvd (by omega) hdj
      have hdL : 2 ^ j ∣ L := by
        have h1 : 2 ^ j ∣ L + n := Nat.dvd_trans (Nat.pow_dvd_pow 2 hja) hd
        exact (Nat.dvd_add_iff_left hdj).2 h1
      obtain ⟨elim, el15⟩ := hl g L hg
      have eg := (I.segm _ _ hg).2.2.1
      simp only [e2, ceilingLog2_pow (show j ≤ 64 by omega), elim, eg]
      have I1 := I.extend hg ho (by omega) hdL (by omega) (by omega) (fun x l1 l2 => hgot x l1 (by omega))
      generalize hs1 : (s.set (g + 16 + L + oSize) j).set (g + 16 + L + oSeg) g = s1 at *
      have R1 : Rest s s1 := by rw [← hs1]; exact ⟨rfl, rfl, rfl, rfl⟩
      have hm1 : ∀ x, x < g + 16 + L → s1.mem x = s.mem x := by
        intro x hx
        rw [← hs1]
        show upd (upd s.mem _ _) _ _ x = _
        rw [upd_ne, upd_ne] <;> simp only [oSize, oSeg] <;> omega
      have hbelow : ∀ c b, G.blk c = some b → c + 2 ^ b.k ≤ g + 16 + L := by
        intro c b h
        obtain ⟨-, -, L', hs, -, -, h3⟩ := I.shape c b h
        by_cases e : b.seg = g
        · rw [e] at hs h3; rw [hg] at hs; cases hs; exact h3
        · have := ho _ _ hs e; omega
      have hnb : ∀ c b, G.blk c = some b → c ≠ g + 16 + L := by
        intro c b h; have := hbelow c b h; have := I.size h; omega
      obtain ⟨s2, h2, R2, I2, fr2⟩ := I1.add (upd_same _ _ _) (fun h => nomatch h)
      rw [h2]
      simp only
      have hg1 : (upd G.seg g (some (L + 2 ^ j))) g = some (L + 2 ^ j) := upd_same _ _ _
      have fl2 : s2.mem (g + oLimit) = L := by
        rw [fr2 _ (I1.out_seg hg1 (by decide)), hm1 _ (by simp only [oLimit]; omega)]; exact elim
      rw [fl2]
      generalize hG2 : (⟨upd (upd G.blk (g + 16 + L) (some ⟨j, .loose, g⟩)) (g + 16 + L) (some ⟨j, .free, g⟩),
        upd G.seg g (some (L + 2 ^ j)), upd G.fl j (ins (g + 16 + L) (G.fl j))⟩ : Gh) = G2 at *
      have hG2b : G2.blk = upd G.blk (g + 16 + L) (some ⟨j, .free, g⟩) := by
        rw [← hG2]; funext x; simp only [upd]; split <;> rfl
      have hG2s : G2.seg = upd G.seg g (some (L + 2 ^ j)) := by rw [← hG2]
      have hg2 : G2.seg g = some (L + 2 ^ j) := by rw [hG2s, upd_same]
      -- the new limit
      have I3 : Inv (s2.set (g + oLimit) (L + 2 ^ j)) G2 := by
        refine I2.frame ⟨rfl, rfl, rfl, rfl⟩ rfl ?_ ?_
        · intro c b hc i hi
          have := I2.seg_out hg2 hc
          have := I2.size hc
          exact upd_ne _ _ (by simp only [oLimit]; omega)
        · intro g' L' hg'
          by_cases e : g' = g
          · rw [e]; exact upd_ne _ _ (by simp [oLimit])
          · refine upd_ne _ _ ?_
            rw [hG2s, upd_ne _ _ e] at hg'
            have := ho _ _ hg' e
            simp only [oLimit]; omega
      have hl3 : Lim (s2.set (g + oLimit) (L + 2 ^ j)) G2 := by
        intro g' L' hg'
        by_cases e : g' = g
        · subst e; rw [hg2] at hg'; cases hg'
          exact ⟨upd_same _ _ _, Nat.dvd_add el15 (Nat.pow_dvd_pow 2 hj15)⟩
        · have hg'' := hg'
          rw [hG2s, upd_ne _ _ e] at hg'
          have hle := ho _ _ hg' e
          obtain ⟨q1, q2⟩ := hl g' L' hg'
          refine ⟨?_, q2⟩
          show upd _ _ _ _ = _
          rw [upd_ne _ _ (by simp only [oLimit]; omega),
            fr2 _ (I1.out_seg (g := g') (L := L') (by simp only [upd_ne _ _ e]; exact hg') (by decide)),
            hm1 _ (by simp only [oLimit]; omega)]
          exact q1
      have hN3 : NoLoose G2 := by
        intro c b hc
        rw [hG2b] at hc
        by_cases e : c = g + 16 + L
        · rw [e, upd_same] at hc; cases hc; exact fun h => nomatch h
        · rw [upd_ne _ _ e] at hc; exact hN c b hc
      have ho3 : ∀ g' L', G2.seg g' = some L' → g' ≠ g → g' + 16 + L' ≤ g := by
        intro g' L' h hne; rw [hG2s, upd_ne _ _ hne] at h; exact ho g' L' h hne
      have hcase : n - 2 ^ j = 0 ∧ j = a ∨ 2 ^ a ≤ n - 2 ^ j := by
        by_cases h : n = 2 ^ a
        · left
          have : q = 0 ∧ j = a := by
            rcases Nat.lt_or_eq_of_le hja with h1 | h1
            · exfalso
              have h2 : 2 ^ (j + 1) ∣ 2 ^ j * (2 * q + 1) := by
                rw [← e1, h]; exact Nat.pow_dvd_pow 2 (by omega)
              rw [Nat.pow_succ] at h2
              have h3 := Nat.dvd_of_mul_dvd_mul_left (Nat.two_pow_pos j) h2
              omega
            · refine ⟨?_, h1⟩
              rw [h1, h] at e1
              have : 1 = 2 * q + 1 := Nat.eq_of_mul_eq_mul_left pa (by omega)
              omega
          rw [this.2]; omega
        · right
          have hr : 2 ^ j ∣ n - 2 ^ a := Nat.dvd_sub hdj (Nat.pow_dvd_pow 2 hja)
          have := Nat.le_of_dvd (by omega) hr
          omega
      have R3 : Rest s (s2.set (g + oLimit) (L + 2 ^ j)) := (R1.trans R2).trans ⟨rfl, rfl, rfl, rfl⟩
      have hfn : 2 ^ (64 - fuel) ∣ n - 2 ^ j := by
        have hjf : 64 - (fuel + 1) ≤ j := by
          apply Classical.byContradiction
          intro hlt'
          have h1 : 2 ^ (j + 1) ∣ 2 ^ j * (2 * q + 1) := by
            rw [← e1]; exact Nat.dvd_trans (Nat.pow_dvd_pow 2 (by omega)) hf
          rw [Nat.pow_succ] at h1
          have h2 := Nat.dvd_of_mul_dvd_mul_left (Nat.two_pow_pos j) h1
          omega
        have h1 : n - 2 ^ j = 2 ^ (j + 1) * q := by
          rw [e1, Nat.mul_add, Nat.mul_one, Nat.add_sub_cancel, Nat.pow_succ, Nat.mul_assoc]
        rw [h1]
        exact Nat.dvd_trans (Nat.pow_dvd_pow 2 (by omega)) ⟨q, rfl⟩
      have hfuel : 1 ≤ fuel := by
        apply Classical.byContradiction
        intro hlt'
        have : fuel = 0 := by omega
        subst this
        have h1 := Nat.le_of_dvd (by omega) hf
        have h2 : 2 ^ (a + 1) ≤ 2 ^ (64 - (0 + 1)) := Nat.pow_le_pow_right (by omega) (by omega)
        omega
      obtain ⟨s4, G4, h4, g4, R4, E4, f4⟩ := ih (L := L + 2 ^ j) (n := n - 2 ^ j) I3 hl3 hN3 hg2 ho3
        (by omega) (by omega) (by rw [show L + 2 ^ j + (n - 2 ^ j) = L + n by omega]; exact hd)
        (Nat.dvd_sub h15 (Nat.pow_dvd_pow 2 hj15)) (by omega) (by rw [R3.brk]; omega)
        (fun x l1 l2 => by unfold Got; rw [R3.got]; exact hgot x (by omega) (by omega)) hfuel hfn
      have E3 : Ev (fun _ => False) (fun _ => False) s G (s2.set (g + oLimit) (L + 2 ^ j)) G2 := by
        constructor
        · intro c b hc hu _
          have hne := hnb c b hc
          have hlt := hbelow c b hc
          refine ⟨by rw [hG2b, upd_ne _ _ hne]; exact hc, fun x l1 l2 => ?_⟩
          have := I.seg_out hg hc
          show upd _ _ _ _ = _
          rw [upd_ne _ _ (by simp only [oLimit]; omega),
            fr2 _ (I1.out_pay (c := c) (b := b) (by simp only; rw [upd_ne _ _ hne]; exact hc) l1 l2), hm1 _ (by omega)]
        · intro c b hc hu _
          rw [hG2b] at hc
          have hne : c ≠ g + 16 + L := by rintro rfl; rw [upd_same] at hc; cases hc; cases hu
          rw [upd_ne _ _ hne] at hc
          exact ⟨hc, fun h => h⟩
        · refine Sol.sub (fun g' L' h => ?_) fun g' L' c i hg' hle hc => ?_
          · by_cases e : g' = g
            · subst e; rw [hg] at h; cases h; exact ⟨_, hg2, by omega⟩
            · exact ⟨L', by rw [hG2s, upd_ne _ _ e]; exact h, Nat.le_refl _⟩
          · have hne : c ≠ g + 16 + L := by
              have := Nat.two_pow_pos i
              by_cases e : g' = g
              · subst e; rw [hg] at hg'; cases hg'; omega
              · have := ho _ _ hg' e; omega
            rw [hG2b, upd_ne _ _ hne] at hc; exact hc
      refine ⟨s4, G4, h4, g4, R3.trans R4, E3.trans E4 (fun _ _ _ _ h => h), fun _ => ?_⟩
      rcases hcase with ⟨h, hj⟩ | h
      · -- this was the last piece
        rw [h] at h4
        have : ∃ f', fuel = f' + 1 := ⟨fuel - 1, by omega⟩
        obtain ⟨f', rfl⟩ := this
        unfold carve at h4
        rw [if_pos rfl] at h4
        cases h4
        have hmem : g + 16 + L ∈ G2.fl a := (I3.flmem a _).2 ⟨⟨j, .free, g⟩, by rw [hG2b, upd_same], hj, rfl⟩
        -- the same list in `G4`
        have r1 := I3.ring a ha
        have r2 := g4.inv.ring a ha
        cases hfl : G4.fl a with
        | nil =>
          rw [hfl] at r2
          have hz : (s2.set (g + oLimit) (L + 2 ^ j)).avail a = 0 := r2
          cases hfl2 : G2.fl a with
          | nil => rw [hfl2] at hmem; cases hmem
          | cons x l =>
            rw [hfl2] at r1
            exact absurd (r1.1 ▸ hz) r1.2.1
        | cons x l =>
          obtain ⟨b, hb1, hb2, hb3⟩ := (g4.inv.flmem a x).1 (by rw [hfl]; simp)
          exact ⟨x, b, hb1, hb3, hb2⟩
      · exact f4 h

/-- More memory in the hands of the allocator. -/
theorem grow_ok {top : Nat} {s : St} {G : Gh} {i : Nat} (I : Inv s G) (hl : Lim s G) (hN : NoLoose G) (hi : i ≤ 62) :
    (grow top s i = .exit ∧ top < s.brk + 2 ^ ((if i < minIdx then minIdx else i) + 1) + 24) ∨
    ∃ s' G', grow top s i = .ok s' ∧ Good s' G' ∧ Ev (fun _ => False) (fun _ => False) s G s' G' ∧
      (∃ c b, G'.blk c = some b ∧ b.st = .free ∧ i ≤ b.k) ∧ ∃ n, s'.got = (s.brk, n) :: s.got ∧ s'.brk = s.brk + n ∧
        s'.brk ≤ top := by
  unfold grow
  have h15 : minIdx = 15 := rfl
  generalize ha : (if i < minIdx then minIdx else i) = a
  have ha15 : 15 ≤ a := by rw [← ha]; split <;> omega
  have ha62 : a ≤ 62 := by rw [← ha]; split <;> omega
  have hia : i ≤ a := by rw [← ha]; split <;> omega
  dsimp only
  have h62 : 2 ^ maxIdx = 2 ^ 62 := rfl
  have p2 := pow_two a
  have pa := Nat.two_pow_pos a
  have p62 : 2 ^ a ≤ 2 ^ 62 := Nat.pow_le_pow_right (by omega) ha62
  have fin : ∀ {s' : St} {G' : Gh}, (∃ c b, G'.blk c = some b ∧ b.st = .free ∧ b.k = a) →
      (∃ c b, G'.blk c = some b ∧ b.st = .free ∧ i ≤ b.k) :=
    fun ⟨c, b, h1, h2, h3⟩ => ⟨c, b, h1, h2, by omega⟩
  have new : ∀ o : Cal.Mem.Out St, o = (if s.brk + (roundup s.brk - s.brk + 2 ^ a + segSize) > top then .exit
    else
      match carve (roundup s.brk) 64 (({ s with brk := s.brk + (roundup s.brk - s.brk + 2 ^ a + segSize), got := (s.brk, roundup s.brk - s.brk + 2 ^ a + segSize) :: s.got, alloc := s.alloc + (roundup s.brk - s.brk + 2 ^ a + segSize), curr := some (roundup s.brk) } : St).set (roundup s.brk) (roundup s.brk + segSize) |>.set (roundup s.brk + oLimit) 0) (2 ^ a) with
      | none => .undef
      | some s => .ok s) → (o = .exit ∧ top < s.brk + 2 ^ (a + 1) + 24) ∨ ∃ s' G', o = .ok s' ∧ Good s' G' ∧ Ev (fun _ => False) (fun _ => False) s G s' G' ∧
      (∃ c b, G'.blk c = some b ∧ b.st = .free ∧ i ≤ b.k) ∧ ∃ n, s'.got = (s.brk, n) :: s.got ∧ s'.brk = s.brk + n ∧
        s'.brk ≤ top := by
    intro o ho
    rw [ho]
    clear ho o
    have hr : s.brk ≤ roundup s.brk ∧ roundup s.brk < s.brk + 8 ∧ 8 ∣ roundup s.brk := by
      unfold roundup; omega
    have h16 : segSize = 16 := rfl
    by_cases h : s.brk + (roundup s.brk - s.brk + 2 ^ a + segSize) > top
    · left; rw [if_pos h]; exact ⟨rfl, by omega⟩
    · right
      rw [if_neg h]
      generalize hn : roundup s.brk - s.brk + 2 ^ a + segSize = n at *
      generalize hgg : roundup s.brk = g at *
      have I1 := I.more n
      have hb0 := I.brk0
      have hbelow : ∀ g' L', G.seg g' = some L' → g' + 16 + L' ≤ g := by
        intro g' L' h; have := (I.segm _ _ h).2.2.2.2.1; omega
      have I2 := I1.newSeg (g := g) (by omega) hr.2.2 hbelow (by simp only; omega)
        (fun x l1 l2 => ⟨_, List.mem_cons_self, by simp only; omega, by simp only; omega⟩)
      have hl2 : Lim ({ (St.set { s with brk := s.brk + n, got := (s.brk, n) :: s.got, alloc := s.alloc + n } g (g + segSize)).set (g + oLimit) 0 with curr := some g }) ⟨G.blk, upd G.seg g (some 0), G.fl⟩ := by
        intro g' L' h
        by_cases e : g' = g
        · subst e; simp only [upd_same] at h; cases h
          exact ⟨upd_same _ _ _, Nat.dvd_zero _⟩
        · simp only [upd_ne _ _ e] at h
          obtain ⟨q1, q2⟩ := hl g' L' h
          have := hbelow g' L' h
          refine ⟨?_, q2⟩
          show upd (upd s.mem _ _) _ _ _ = _
          rw [upd_ne _ _ (by simp only [oLimit]; omega), upd_ne _ _ (by simp only [oLimit]; omega)]
          exact q1
      obtain ⟨s3, G3, h3, g3, R3, E3, f3⟩ := carve_ok (g := g) (L := 0) (n := 2 ^ a) ha15 ha62 64 I2 hl2 hN (upd_same _ _ _)
        (fun g' L' h hne => by simp only [upd_ne _ _ hne] at h; exact hbelow g' L' h) (Or.inr (Nat.le_refl _)) (by omega)
        (by rw [Nat.zero_add]; exact Nat.dvd_refl _) (Nat.pow_dvd_pow 2 ha15) (by omega) (by show _ ≤ s.brk + n; omega)
        (fun x l1 l2 => ⟨_, List.mem_cons_self, by simp only; omega, by simp only; omega⟩) (by omega) (by simp)
      have h3' : carve g 64 (({ s with brk := s.brk + n, got := (s.brk, n) :: s.got, alloc := s.alloc + n, curr := some g } : St).set g (g + segSize) |>.set (g + oLimit) 0) (2 ^ a) = some s3 := h3
      rw [h3']
      refine ⟨s3, G3, rfl, g3, ?_, fin (s' := s3) (f3 (Nat.le_refl _)), n, R3.got, R3.brk, by rw [R3.brk]; show s.brk + n ≤ top; omega⟩
      refine Ev.trans (Y := fun _ => False) ⟨?_, ?_, ?_⟩ E3 (fun _ _ _ _ h => h)
      · intro c b hc hu _
        refine ⟨hc, fun x l1 l2 => ?_⟩
        obtain ⟨-, -, L, hs, q1, q2, q3⟩ := I.shape _ _ hc
        have := (I.segm _ _ hs).2.2.2.2.1
        show upd (upd s.mem _ _) _ _ _ = _
        rw [upd_ne _ _ (by simp only [oLimit]; omega), upd_ne _ _ (by omega)]
      · intro c b hc hu h; exact ⟨hc, h⟩
      · refine Sol.sub (fun g' L' h => ?_) fun g' L' c i hg' hle hc => hc
        have hne : g' ≠ g := by have := hbelow _ _ h; omega
        exact ⟨L', by simp only [upd_ne _ _ hne]; exact h, Nat.le_refl _⟩
  cases hc : s.curr with
  | none =>
    have hb0 := I.brk0
    rw [if_pos (Or.inl (show s.brk ≠ 0 + 0 by omega))]
    exact new _ rfl
  | some g =>
    obtain ⟨L, hg⟩ := I.curr g hc
    obtain ⟨elim, el15⟩ := hl g L hg
    obtain ⟨s1, s2, eg, s4, s5, s6⟩ := I.segm _ _ hg
    simp only [elim, eg]
    have e1 : (L + 2 ^ a - 1) % 2 ^ 64 = L + 2 ^ a - 1 := Nat.mod_eq_of_lt (by omega)
    rw [e1, and_high (by omega) (by omega)]
    generalize hU : (L + 2 ^ a - 1) / 2 ^ a * 2 ^ a = U
    have hUd : 2 ^ a ∣ U := by rw [← hU]; exact Nat.dvd_mul_left _ _
    have hUl : L ≤ U ∧ U < L + 2 ^ a := by
      have := Nat.div_add_mod (L + 2 ^ a - 1) (2 ^ a)
      have := Nat.mod_lt (L + 2 ^ a - 1) pa
      rw [Nat.mul_comm] at hU
      omega
    have e2 : (2 ^ a + (U - L) + L) % 2 ^ 64 = 2 ^ a + U := by
      rw [show 2 ^ a + (U - L) + L = 2 ^ a + U by omega]; exact Nat.mod_eq_of_lt (by omega)
    rw [e2]
    by_cases hns : s.brk ≠ g + 16 + L ∨ 2 ^ a + U > 2 ^ maxIdx
    · rw [if_pos hns]; exact new _ rfl
    · rw [if_neg hns]
      generalize hn : 2 ^ a + (U - L) = n
      by_cases ht : s.brk + n > top
      · left; rw [if_pos ht]; exact ⟨rfl, by omega⟩
      · right
        rw [if_neg ht]
        have I1 := I.more n
        obtain ⟨s3, G3, h3, g3, R3, E3, f3⟩ := carve_ok (g := g) (L := L) (n := n) ha15 ha62 64 I1 hl hN hg
          (fun g' L' h hne => by
            have := (I.segm _ _ h).2.2.2.2.1
            rcases Nat.lt_or_gt_of_ne hne with l | l
            · exact I.segdisj _ _ _ _ h hg l
            · have := I.segdisj _ _ _ _ hg h l; omega)
          (Or.inr (by omega)) (by omega)
          (by rw [show L + n = 2 ^ a + U by omega]; exact Nat.dvd_add (Nat.dvd_refl _) hUd)
          (by
            have h1 : 2 ^ 15 ∣ L + n := by
              rw [show L + n = 2 ^ a + U by omega]
              exact Nat.dvd_trans (Nat.pow_dvd_pow 2 ha15) (Nat.dvd_add (Nat.dvd_refl _) hUd)
            exact (Nat.dvd_add_iff_right el15).2 h1)
          (by omega) (by show _ ≤ s.brk + n; omega)
          (fun x l1 l2 => ⟨_, List.mem_cons_self, by simp only; omega, by simp only; omega⟩) (by omega) (by simp)
        rw [hc] at h3
        rw [h3]
        exact ⟨s3, G3, rfl, g3, ⟨E3.keep, E3.back, E3.sol⟩, fin (s' := s3) (f3 (by omega)), n, R3.got, R3.brk, by rw [R3.brk]; show s.brk + n ≤ top; omega⟩

end Inv

end Cal.Mem
