import Verif.MemList

/-!
# Adding to and removing from the free lists
-/

namespace Cal.Mem

theorem Ring.frame {m m' : Nat → Nat} {h : Nat} {L : List Nat} (r : Ring m h L)
    (e : ∀ z ∈ L, m' (z + oNext) = m (z + oNext) ∧ m' (z + oPrev) = m (z + oPrev)) : Ring m' h L := by
  cases L with
  | nil => exact r
  | cons a l =>
    obtain ⟨h1, h2, h3⟩ := r
    exact ⟨h1, h2, h3.frame (fun z hz => (e z hz).1) (fun z hz => (e z hz).2)⟩

/-- A block is added behind the first one. -/
def ins (b : Nat) : List Nat → List Nat
  | [] => [b]
  | a :: l => a :: b :: l

theorem mem_ins {b x : Nat} {L : List Nat} : x ∈ ins b L ↔ x = b ∨ x ∈ L := by
  cases L with
  | nil => simp [ins]
  | cons a l => simp only [ins, List.mem_cons]; grind

theorem nodup_ins {b : Nat} {L : List Nat} (h : L.Nodup) (hb : b ∉ L) : (ins b L).Nodup := by
  cases L with
  | nil => simp [ins]
  | cons a l => simp only [ins, List.nodup_cons, List.mem_cons] at *; grind

/-- The links of the lists. -/
def Links (L : List Nat) (x : Nat) : Prop := ∃ z ∈ L, x = z + oNext ∨ x = z + oPrev

theorem add_ring {s : St} {b i : Nat} {L : List Nat} (hi : s.mem (b + oSize) = i) (hle : i ≤ 62)
    (r : Ring s.mem (s.avail i) L) (hn : L.Nodup) (hb : b ∉ L) (h0 : b ≠ 0) (ap : Apart (b :: L)) :
    ∃ s', addToFree s b = some s' ∧ Ring s'.mem (s'.avail i) (ins b L) ∧ (∀ j, j ≠ i → s'.avail j = s.avail j) ∧
      s'.mem b = 0 ∧ (∀ x, x ≠ b → ¬ Links (b :: L) x → s'.mem x = s.mem x) ∧
      s'.curr = s.curr ∧ s'.alloc = s.alloc ∧ s'.brk = s.brk ∧ s'.got = s.got := by
  unfold addToFree
  simp only [hi]
  rw [if_neg (show ¬ i > maxIdx from by show ¬ i > 62; omega)]
  cases L with
  | nil =>
    have hz : s.avail i = 0 := r
    rw [if_pos hz]
    refine ⟨_, rfl, ?_, ?_, ?_, ?_, rfl, rfl, rfl, rfl⟩
    · refine ⟨upd_same _ _ _, h0, ?_, ?_⟩
      · show upd (upd (upd s.mem (b + oNext) b) (b + oPrev) b) b 0 (b + oNext) = b
        rw [upd_ne _ _ (by simp [oNext]), upd_ne _ _ (by simp [oNext, oPrev]), upd_same]
      · show upd (upd (upd s.mem (b + oNext) b) (b + oPrev) b) b 0 (b + oPrev) = b
        rw [upd_ne _ _ (by simp [oPrev]), upd_same]
    · intro j hj; exact upd_ne _ _ hj
    · exact upd_same _ _ _
    · intro x hx hl
      have h1 : x ≠ b + oNext := fun e => hl ⟨b, by simp, Or.inl e⟩
      have h2 : x ≠ b + oPrev := fun e => hl ⟨b, by simp, Or.inr e⟩
      show upd (upd (upd s.mem (b + oNext) b) (b + oPrev) b) b 0 x = _
      rw [upd_ne _ _ hx, upd_ne _ _ h2, upd_ne _ _ h1]
  | cons a l =>
    obtain ⟨e, ha, c⟩ := r
    rw [if_neg (show ¬ s.avail i = 0 by rw [e]; exact ha)]
    simp only [e]
    have hab : a ≠ b := fun h => hb (by rw [h]; simp)
    have mb : b ∈ b :: a :: l := by simp
    have ma : a ∈ b :: a :: l := by simp
    have nm := c.next_mem
    have mn : s.mem (a + oNext) ∈ b :: a :: l := by
      simp only [List.mem_append, List.mem_cons, List.not_mem_nil, or_false] at nm ⊢; grind
    have e1 : (s.set (b + oNext) (s.mem (a + oNext))).mem (a + oNext) = s.mem (a + oNext) :=
      upd_ne _ _ (ap.cell ma mb (by decide) (by decide) (Or.inl hab))
    generalize hs' : (((((s.set (b + oNext) (s.mem (a + oNext))).set
      ((s.set (b + oNext) (s.mem (a + oNext))).mem (a + oNext) + oPrev) b).set (a + oNext) b).set (b + oPrev) a).set b 0)
      = s'
    generalize hN : s.mem (a + oNext) = N at *
    have hm : ∀ x, s'.mem x = if x = b then 0 else if x = b + oPrev then a else if x = a + oNext then b
        else if x = N + oPrev then b else if x = b + oNext then N else s.mem x := by
      intro x; rw [← hs']; simp only [St.set, upd]
      have : (if a + oNext = b + oNext then N else s.mem (a + oNext)) = N := by rw [hN]; split <;> rfl
      rw [this]
    have hNb : N ≠ b := by
      rintro rfl
      simp only [List.mem_append, List.mem_cons, List.not_mem_nil, or_false] at nm
      simp only [List.mem_cons] at hb; grind
    have b1 : ∀ {z k : Nat}, z ∈ b :: a :: l → k = oNext ∨ k = oPrev → z + k ≠ b := by
      intro z k hz hk
      exact ap.cell (j := 0) hz mb (by simp only [oNext, oPrev] at hk; omega) (by decide) (Or.inr (by simp only [oNext, oPrev] at hk; omega))
    have key : Chain s'.mem a (b :: l) a := by
      refine ⟨?_, ?_, ?_⟩
      · rw [hm, if_neg (b1 ma (Or.inl rfl)), if_neg, if_pos rfl]
        exact ap.cell ma mb (by decide) (by decide) (Or.inl hab)
      · rw [hm, if_neg (b1 mb (Or.inr rfl)), if_pos rfl]
      · have bN : s'.mem (b + oNext) = N := by
          rw [hm, if_neg (b1 mb (Or.inl rfl)), if_neg, if_neg, if_neg, if_pos rfl]
          · exact ap.cell mb mn (by decide) (by decide) (Or.inr (by decide))
          · exact ap.cell mb ma (by decide) (by decide) (Or.inl (Ne.symm hab))
          · exact ap.cell mb mb (by decide) (by decide) (Or.inr (by decide))
        have Nb : s'.mem (N + oPrev) = b := by
          rw [hm, if_neg (b1 mn (Or.inr rfl)), if_neg, if_neg, if_pos rfl]
          · exact ap.cell mn ma (by decide) (by decide) (Or.inr (by decide))
          · exact ap.cell mn mb (by decide) (by decide) (Or.inl hNb)
        cases l with
        | nil =>
          have : N = a := by rw [← hN]; exact c.1
          rw [this] at bN Nb
          exact ⟨bN, Nb⟩
        | cons z l =>
          have hz : N = z := by rw [← hN]; exact c.1
          rw [hz] at bN Nb
          refine ⟨bN, Nb, c.2.2.frame ?_ ?_⟩
          · intro w hw
            have wm : w ∈ b :: a :: z :: l := by simp only [List.mem_cons] at hw ⊢; grind
            have wa : w ≠ a := fun h => (List.nodup_cons.1 hn).1 (h ▸ hw)
            have wb : w ≠ b := fun h => hb (List.mem_cons_of_mem _ (h ▸ hw))
            rw [hm, if_neg (b1 wm (Or.inl rfl)), if_neg, if_neg, if_neg, if_neg]
            · exact ap.cell wm mb (by decide) (by decide) (Or.inl wb)
            · exact ap.cell wm mn (by decide) (by decide) (Or.inr (by decide))
            · exact ap.cell wm ma (by decide) (by decide) (Or.inl wa)
            · exact ap.cell wm mb (by decide) (by decide) (Or.inl wb)
          · intro w hw
            have wm : w ∈ b :: a :: z :: l := by simp only [List.mem_cons] at hw ⊢; grind
            have wb : w ≠ b := fun h => hb (by rw [← h]; simp only [List.mem_cons] at hw ⊢; grind)
            have wz : w ≠ N := by
              rw [hz]; rintro rfl
              have := (List.nodup_cons.1 (List.nodup_cons.1 hn).2).1
              have h2 := (List.nodup_cons.1 hn).1
              simp only [List.mem_cons] at hw h2; grind
            rw [hm, if_neg (b1 wm (Or.inr rfl)), if_neg, if_neg, if_neg, if_neg]
            · exact ap.cell wm mb (by decide) (by decide) (Or.inr (by decide))
            · exact ap.cell wm mn (by decide) (by decide) (Or.inl wz)
            · exact ap.cell wm ma (by decide) (by decide) (Or.inr (by decide))
            · exact ap.cell wm mb (by decide) (by decide) (Or.inl wb)
    have hav : s'.avail = s.avail := by rw [← hs']; rfl
    refine ⟨s', rfl, ?_, ?_, ?_, ?_, ?_, ?_, ?_, ?_⟩
    · rw [hav, e]; exact ⟨rfl, ha, key⟩
    · intro j _; rw [hav]
    · rw [hm, if_pos rfl]
    · intro x hx hl
      have q1 : ∀ z ∈ b :: a :: l, x ≠ z + oNext := fun z hz e => hl ⟨z, hz, Or.inl e⟩
      have q2 : ∀ z ∈ b :: a :: l, x ≠ z + oPrev := fun z hz e => hl ⟨z, hz, Or.inr e⟩
      rw [hm, if_neg hx, if_neg (q2 b mb), if_neg (q1 a ma), if_neg (q2 N mn), if_neg (q1 b mb)]
    · rw [← hs']; rfl
    · rw [← hs']; rfl
    · rw [← hs']; rfl
    · rw [← hs']; rfl

theorem remove_ring {s : St} {b i : Nat} {L : List Nat} (hi : s.mem (b + oSize) = i) (hle : i ≤ 62)
    (r : Ring s.mem (s.avail i) L) (hn : L.Nodup) (hb : b ∈ L) (h0 : 0 ∉ L) (ap : Apart L) :
    ∃ s', removeFromFree s b = some s' ∧ Ring s'.mem (s'.avail i) (L.erase b) ∧
      (∀ j, j ≠ i → s'.avail j = s.avail j) ∧
      s'.mem b = 1 ∧ (∀ x, x ≠ b → ¬ Links L x → s'.mem x = s.mem x) ∧
      s'.curr = s.curr ∧ s'.alloc = s.alloc ∧ s'.brk = s.brk ∧ s'.got = s.got := by
  unfold removeFromFree
  simp only [hi]
  rw [if_neg (show ¬ i > maxIdx from by show ¬ i > 62; omega)]
  cases L with
  | nil => exact absurd hb (by simp)
  | cons a l =>
    obtain ⟨e, ha, c⟩ := r
    have b1 : ∀ {z k : Nat}, z ∈ a :: l → k = oNext ∨ k = oPrev → z + k ≠ b := by
      intro z k hz hk
      exact ap.cell (j := 0) hz hb (by simp only [oNext, oPrev] at hk; omega) (by decide) (Or.inr (by simp only [oNext, oPrev] at hk; omega))
    by_cases hs : s.mem (b + oNext) = b
    · -- the only one
      have hl : l = [] ∧ b = a := by
        by_cases hba : b = a
        · refine ⟨?_, hba⟩
          subst hba
          cases l with
          | nil => rfl
          | cons z l =>
            have : s.mem (b + oNext) = z := c.1
            rw [hs] at this
            exact absurd hn (by rw [← this]; simp)
        · exfalso
          have hbl : b ∈ l := by simpa [hba] using hb
          obtain ⟨l₁, l₂, rfl⟩ := List.append_of_mem hbl
          have := (Chain.append.1 c).2.next_mem
          rw [hs] at this
          rw [List.nodup_cons, List.nodup_append] at hn
          have h2 := (List.nodup_cons.1 hn.2.2.1).1
          simp only [List.mem_append, List.mem_cons, List.not_mem_nil, or_false] at this
          grind
      obtain ⟨rfl, rfl⟩ := hl
      rw [if_pos hs]
      refine ⟨_, rfl, ?_, fun j hj => upd_ne _ _ hj, upd_same _ _ _, ?_, rfl, rfl, rfl, rfl⟩
      · simp only [List.erase_cons_head]; exact upd_same _ _ _
      · intro x hx _; exact upd_ne _ _ hx
    · rw [if_neg hs]
      -- the neighbours
      have hmem : s.mem (b + oNext) ∈ a :: l ∧ s.mem (b + oPrev) ∈ a :: l := by
        by_cases hba : b = a
        · subst hba
          have h1 := c.next_mem
          have h2 := c.prev_mem
          refine ⟨?_, h2⟩
          simp only [List.mem_append, List.mem_cons, List.not_mem_nil, or_false] at h1 ⊢; grind
        · have hbl : b ∈ l := by simpa [hba] using hb
          obtain ⟨l₁, l₂, rfl⟩ := List.append_of_mem hbl
          obtain ⟨c1, c2⟩ := Chain.append.1 c
          have h1 := c2.next_mem
          have h2 := c1.prev_mem
          simp only [List.mem_append, List.mem_cons, List.not_mem_nil, or_false] at h1 h2 ⊢
          grind
      obtain ⟨mn, mp⟩ := hmem
      have hNb : s.mem (b + oNext) ≠ b := hs
      have hPb : s.mem (b + oPrev) ≠ b := by
        intro hP
        by_cases hba : b = a
        · subst hba
          cases l with
          | nil => exact hs c.1
          | cons z l =>
            have := c.2.2.prev_mem
            rw [hP] at this
            exact (List.nodup_cons.1 hn).1 this
        · have hbl : b ∈ l := by simpa [hba] using hb
          obtain ⟨l₁, l₂, rfl⟩ := List.append_of_mem hbl
          have := (Chain.append.1 c).1.prev_mem
          rw [hP] at this
          rw [List.nodup_cons, List.nodup_append] at hn
          have h3 := hn.2.2.2
          simp only [List.mem_cons] at this
          grind
      generalize hN : s.mem (b + oNext) = N at *
      generalize hP : s.mem (b + oPrev) = P at *
      have e2 : (s.set (N + oPrev) P).mem (b + oPrev) = P := by
        show upd _ _ _ _ = _
        rw [upd_ne _ _ (ap.cell hb mn (by decide) (by decide) (Or.inl (Ne.symm hNb)))]; exact hP
      have e3 : (s.set (N + oPrev) P).mem (b + oNext) = N := by
        show upd _ _ _ _ = _
        rw [upd_ne _ _ (ap.cell hb mn (by decide) (by decide) (Or.inr (by decide)))]; exact hN
      have e4 : ((s.set (N + oPrev) P).set (P + oNext) N).mem (b + oNext) = N := by
        show upd _ _ _ _ = _
        rw [upd_ne _ _ (ap.cell hb mp (by decide) (by decide) (Or.inl (Ne.symm hPb)))]; exact e3
      simp only [e2, e3, e4]
      have hm : ∀ (A : Nat → Nat) (x : Nat),
          ({ ((s.set (N + oPrev) P).set (P + oNext) N) with avail := A }.set b 1).mem x =
          if x = b then 1 else if x = P + oNext then N else if x = N + oPrev then P else s.mem x := by
        intro A x; simp only [St.set, upd]
      have fr : ∀ (A : Nat → Nat) (x : Nat), x ≠ b → ¬ Links (a :: l) x →
          ({ ((s.set (N + oPrev) P).set (P + oNext) N) with avail := A }.set b 1).mem x = s.mem x := by
        intro A x hx hl
        rw [hm, if_neg hx, if_neg, if_neg]
        · exact fun e => hl ⟨N, mn, Or.inr e⟩
        · exact fun e => hl ⟨P, mp, Or.inl e⟩
      -- writing the flag does not touch the links
      have lk : ∀ (A : Nat → Nat) {x : Nat} {t : List Nat} {y : Nat}, (∀ z ∈ y :: x :: t, z ∈ a :: l) →
          Chain (fun z => if z = P + oNext then N else if z = N + oPrev then P else s.mem z) x t y →
          Chain ({ ((s.set (N + oPrev) P).set (P + oNext) N) with avail := A }.set b 1).mem x t y := by
        intro A x t y hz h
        refine h.frame ?_ ?_
        · intro z hz'; rw [hm, if_neg (b1 (hz z (List.mem_cons_of_mem _ hz')) (Or.inl rfl))]
        · intro z hz'
          rw [hm, if_neg (b1 (hz z (by simp only [List.mem_cons] at hz' ⊢; grind)) (Or.inr rfl))]
      by_cases hba : b = a
      · subst hba
        rw [if_pos (show ((s.set (N + oPrev) P).set (P + oNext) N).avail i = b from e)]
        refine ⟨_, rfl, ?_, fun j hj => upd_ne _ _ hj, upd_same _ _ _, fr _, rfl, rfl, rfl, rfl⟩
        rw [List.erase_cons_head]
        cases l with
        | nil => exact absurd (hN ▸ c.1) hs
        | cons z l =>
          have hz : N = z := by rw [← hN]; exact c.1
          subst hz
          refine ⟨upd_same _ _ _, fun h => h0 (by rw [← h]; simp), lk _ (fun w hw => by simp only [List.mem_cons] at hw ⊢; grind) ?_⟩
          refine c.2.2.redirect (List.nodup_cons.1 hn).2 (List.nodup_cons.1 hn).1
            (List.nodup_cons.1 (List.nodup_cons.1 hn).2).1 ?_ ?_
          · intro u hu w hw
            apply ap u ?_ w ?_
            · simp only [List.mem_cons] at hu ⊢; grind
            · simp only [List.mem_cons] at hw ⊢; grind
          · intro z; rw [hP]
      · rw [if_neg (show ¬ ((s.set (N + oPrev) P).set (P + oNext) N).avail i = b from by
          show ¬ s.avail i = b; rw [e]; exact Ne.symm hba)]
        have hbl : b ∈ l := by simpa [hba] using hb
        refine ⟨_, rfl, ?_, fun j hj => rfl, upd_same _ _ _, fr _, rfl, rfl, rfl, rfl⟩
        rw [List.erase_cons_tail (by simpa using Ne.symm hba)]
        refine ⟨e, ha, lk s.avail ?_ ?_⟩
        · intro z hz
          simp only [List.mem_cons] at hz ⊢
          rcases hz with h | h | h
          · exact Or.inl h
          · exact Or.inl h
          · exact Or.inr (List.mem_of_mem_erase h)
        · obtain ⟨l₁, l₂, he⟩ := List.append_of_mem hbl
          have hnl : b ∉ l₁ := by
            rw [he, List.nodup_cons, List.nodup_append] at hn
            exact fun h => hn.2.2.2 b h b List.mem_cons_self rfl
          have her : l.erase b = l₁ ++ l₂ := by
            rw [he, List.erase_append_right _ hnl, List.erase_cons_head]
          rw [her]
          subst he
          refine Chain.remove c hn (List.nodup_cons.1 hn).1 ?_ ?_
          · intro u hu w hw
            apply ap u ?_ w ?_
            · simp only [List.mem_cons] at hu ⊢; grind
            · simp only [List.mem_cons] at hw ⊢; grind
          · intro z; rw [hP, hN]

end Cal.Mem
