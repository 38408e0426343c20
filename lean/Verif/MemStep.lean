import Verif.MemInv

/-!
# Buddies; splitting and joining blocks; new memory
-/

namespace Cal.Mem

theorem aligned_eq {d x y : Nat} (h1 : d ∣ x) (h2 : d ∣ y) (h3 : y ≤ x) (h4 : x < y + d) : x = y := by
  have : d ∣ x - y := Nat.dvd_sub h1 h2
  rcases Nat.eq_zero_or_pos (x - y) with h | h
  · omega
  · have := Nat.le_of_dvd h this; omega

/-- Of two aligned ranges that meet, the larger one contains the smaller one. -/
theorem aligned_sub {k k' lo c x : Nat} (h1 : 2 ^ k ∣ lo) (h2 : 2 ^ k' ∣ c) (hk : k ≤ k') (h3 : c ≤ x)
    (h4 : x < c + 2 ^ k') (h5 : lo ≤ x) (h6 : x < lo + 2 ^ k) : c ≤ lo ∧ lo + 2 ^ k ≤ c + 2 ^ k' := by
  have hd : 2 ^ k ∣ 2 ^ k' := Nat.pow_dvd_pow 2 hk
  obtain ⟨w, hw⟩ := hd
  obtain ⟨u', hu'⟩ := h2
  obtain ⟨v, rfl⟩ := h1
  have hc : c = 2 ^ k * (w * u') := by rw [hu', hw, Nat.mul_assoc]
  have pk : 0 < 2 ^ k := Nat.two_pow_pos k
  generalize w * u' = u at hc
  subst hc
  rw [hw] at h4 ⊢
  have e1 : 2 ^ k * u < 2 ^ k * (v + 1) := by rw [Nat.mul_add, Nat.mul_one]; omega
  have e2 : 2 ^ k * v < 2 ^ k * (u + w) := by rw [Nat.mul_add]; omega
  have l1 : u < v + 1 := Nat.lt_of_mul_lt_mul_left e1
  have l2 : v < u + w := Nat.lt_of_mul_lt_mul_left e2
  have g1 : 2 ^ k * u ≤ 2 ^ k * v := Nat.mul_le_mul_left _ (by omega)
  have g2 : 2 ^ k * (v + 1) ≤ 2 ^ k * (u + w) := Nat.mul_le_mul_left _ (by omega)
  rw [Nat.mul_add, Nat.mul_one, Nat.mul_add] at g2
  exact ⟨g1, g2⟩

namespace Inv

variable {s : St} {G : Gh}

theorem buddy_spec (I : Inv s G) (hl : Lim s G) {a k st g} (ha : G.blk a = some ⟨k, st, g⟩) :
    (buddy s a = 0 ∧ ∃ L, G.seg g = some L ∧ ∀ c, BuddyOf g k a c → g + 16 + L ≤ c) ∨
    ∃ b', G.blk (buddy s a) = some b' ∧ b'.seg = g ∧ b'.k ≤ k ∧ buddy s a ≠ a ∧ BuddyOf g k a (buddy s a) ∧
      ∀ c, BuddyOf g k a c → c = buddy s a := by
  obtain ⟨h6, h62, L, hs, h1, h2, h3⟩ := I.shape _ _ ha
  obtain ⟨e1, e2, -, -⟩ := I.hdr _ _ ha
  have eg := (I.segm _ _ hs).2.2.1
  have el := (hl _ _ hs).1
  simp only at h6 h62 hs h1 h2 h3 e1 e2 eg el
  unfold buddy
  simp only [e1, e2, eg, el]
  have pk := Nat.two_pow_pos k
  have hb := xor_buddy h2
  generalize (a - (g + 16)) ^^^ 2 ^ k = off at *
  have hB : ∀ c, BuddyOf g k a c → c = g + 16 + off := by
    intro c hc
    have p2 := pow_two k
    rcases hb with ⟨d1, e⟩ | ⟨d1, d2, e⟩
    · rcases hc with ⟨rfl, -⟩ | ⟨e', l, d3⟩
      · omega
      · exfalso
        have hd : 2 ^ (k + 1) ∣ 2 ^ k := by
          have : 2 ^ k = (a - (g + 16)) - (c - (g + 16)) := by omega
          rw [this]; exact Nat.dvd_sub d1 d3
        have := Nat.le_of_dvd pk hd
        omega
    · rcases hc with ⟨rfl, d3⟩ | ⟨e', l, d3⟩
      · exfalso
        have hd : 2 ^ (k + 1) ∣ 2 ^ k := by
          have : 2 ^ k = (a - (g + 16)) - (a - (g + 16) - 2 ^ k) := by omega
          rw [this]; exact Nat.dvd_sub d3 d2
        have := Nat.le_of_dvd pk hd
        omega
      · omega
  by_cases ho : off < L
  · right
    rw [if_pos ho]
    have hbo : BuddyOf g k a (g + 16 + off) := by
      rcases hb with ⟨d1, e⟩ | ⟨d1, d2, e⟩
      · left; exact ⟨by omega, d1⟩
      · right; exact ⟨by omega, by omega, by rw [show g + 16 + off - (g + 16) = a - (g + 16) - 2 ^ k by omega]; exact d2⟩
    have hne : g + 16 + off ≠ a := by
      rcases hb with ⟨d1, e⟩ | ⟨d1, d2, e⟩ <;> omega
    obtain ⟨c, b', hc, hcg, c1, c2⟩ := I.cover g L hs (g + 16 + off) (by omega) (by omega)
    obtain ⟨-, -, L', hs', l1, l2, l3⟩ := I.shape _ _ hc
    rw [hcg] at hs' l1 l2 l3
    -- the common range of both
    have hlo : ∃ lo, 2 ^ (k + 1) ∣ lo ∧ lo ≤ off ∧ off < lo + 2 ^ (k + 1) ∧ lo ≤ a - (g + 16) ∧
        a - (g + 16) < lo + 2 ^ (k + 1) := by
      have p2 := pow_two k
      rcases hb with ⟨d1, e⟩ | ⟨d1, d2, e⟩
      · exact ⟨_, d1, by omega, by omega, by omega, by omega⟩
      · exact ⟨_, d2, by omega, by omega, by omega, by omega⟩
    have hoffd : 2 ^ k ∣ off := by
      rcases hb with ⟨d1, e⟩ | ⟨d1, d2, e⟩
      · rw [e]; exact Nat.dvd_add h2 (Nat.dvd_refl _)
      · rw [e]; exact Nat.dvd_sub h2 (Nat.dvd_refl _)
    have hkk : b'.k ≤ k := by
      apply Classical.byContradiction
      intro hlt
      obtain ⟨lo, q1, q2, q3, q4, q5⟩ := hlo
      have := aligned_sub q1 l2 (by omega) (x := off) (by omega) (by omega) q2 q3
      by_cases eca : c = a
      · subst eca; rw [ha] at hc; cases hc; simp only at hlt; omega
      · rcases I.sep hc ha eca with h | h
        · omega
        · simp only at h; omega
    have hceq : g + 16 + off = c := by
      have := aligned_eq (Nat.dvd_trans (Nat.pow_dvd_pow 2 hkk) hoffd) l2 (by omega) (by omega)
      omega
    rw [hceq] at hbo hne hB ⊢
    exact ⟨b', hc, hcg, hkk, hne, hbo, hB⟩
  · left
    rw [if_neg ho]
    exact ⟨rfl, L, hs, fun c hc => by rw [hB c hc]; omega⟩

/-- Splitting a block in hand. -/
theorem split (I : Inv s G) {a k st g} (ha : G.blk a = some ⟨k + 1, st, g⟩) (hst : st ≠ .free) (hk : 6 ≤ k) {s' : St}
    (R : Rest s s') (hav : s'.avail = s.avail)
    (hm : s'.mem = upd (upd (upd s.mem (a + oSize) k) (a + 2 ^ k + oSize) k) (a + 2 ^ k + oSeg) g) :
    Inv s' ⟨upd (upd G.blk a (some ⟨k, st, g⟩)) (a + 2 ^ k) (some ⟨k, .loose, g⟩), G.seg, G.fl⟩ := by
  obtain ⟨-, h62, L, hs, h1, h2, h3⟩ := I.shape _ _ ha
  have p2 := pow_two k
  have pk := pow_ge hk
  simp only at h62 hs h1 h2 h3
  have hfree : G.blk (a + 2 ^ k) = none := by
    cases h : G.blk (a + 2 ^ k) with
    | none => rfl
    | some b =>
      have := I.disj _ _ _ _ ha h (by omega)
      simp only at this; omega
  have hab : a + 2 ^ k ≠ a := by omega
  -- blocks other than the two
  have hother : ∀ c b, G.blk c = some b → c ≠ a → c + 2 ^ b.k ≤ a ∨ a + 2 ^ (k + 1) ≤ c := by
    intro c b h hne
    rcases I.sep h ha hne with h' | h'
    · exact Or.inl h'
    · exact Or.inr h'
  have hcell : ∀ c b, G.blk c = some b → c ≠ a → ∀ i < 40, s'.mem (c + i) = s.mem (c + i) := by
    intro c b h hne i hi
    have := hother c b h hne
    have := I.size h
    rw [hm, upd_ne, upd_ne, upd_ne] <;> simp only [oSize, oSeg] <;> omega
  have hcell' : ∀ i < 40, i ≠ oSize → s'.mem (a + i) = s.mem (a + i) := by
    intro i hi hne
    simp only [oSize] at hne
    rw [hm, upd_ne, upd_ne, upd_ne] <;> simp only [oSize, oSeg] <;> omega
  have hg : ∀ g L, G.seg g = some L → s'.mem g = s.mem g := by
    intro g' L' h
    have := I.seg_out h ha
    simp only at this
    rw [hm, upd_ne, upd_ne, upd_ne] <;> simp only [oSize, oSeg] <;> omega
  have hblk : ∀ c b, upd (upd G.blk a (some ⟨k, st, g⟩)) (a + 2 ^ k) (some ⟨k, .loose, g⟩) c = some b →
      (c = a ∧ b = ⟨k, st, g⟩) ∨ (c = a + 2 ^ k ∧ b = ⟨k, .loose, g⟩) ∨ (c ≠ a ∧ c ≠ a + 2 ^ k ∧ G.blk c = some b) := by
    intro c b h
    by_cases e : c = a + 2 ^ k
    · rw [e, upd_same] at h; cases h; exact Or.inr (Or.inl ⟨e, rfl⟩)
    · rw [upd_ne _ _ e] at h
      by_cases e' : c = a
      · rw [e', upd_same] at h; cases h; exact Or.inl ⟨e', rfl⟩
      · rw [upd_ne _ _ e'] at h; exact Or.inr (Or.inr ⟨e', e, h⟩)
  have hA : upd (upd G.blk a (some ⟨k, st, g⟩)) (a + 2 ^ k) (some ⟨k, .loose, g⟩) a = some ⟨k, st, g⟩ := by
    rw [upd_ne _ _ (Ne.symm hab), upd_same]
  have hO : ∀ c, c ≠ a → c ≠ a + 2 ^ k →
      upd (upd G.blk a (some ⟨k, st, g⟩)) (a + 2 ^ k) (some ⟨k, .loose, g⟩) c = G.blk c := by
    intro c h1 h2; rw [upd_ne _ _ h2, upd_ne _ _ h1]
  obtain ⟨r1, r2, r3, r4⟩ := R
  constructor
  · intro c b h
    rcases hblk c b h with ⟨rfl, rfl⟩ | ⟨rfl, rfl⟩ | ⟨e1, e2, h⟩
    · obtain ⟨d1, d2, d3, d4⟩ := I.hdr _ _ ha
      refine ⟨?_, ?_, ?_⟩
      · rw [hm, upd_ne, upd_ne, upd_same] <;> simp only [oSize, oSeg] <;> omega
      · rw [hcell' _ (by decide) (by decide)]; exact d2
      · have e0 := hcell' 0 (by decide) (by decide)
        simp only [Nat.add_zero] at e0
        rw [e0]; exact ⟨d3, d4⟩
    · refine ⟨?_, ?_, (fun h => nomatch h), (fun h => nomatch h)⟩
      · rw [hm, upd_ne, upd_same]; simp only [oSize, oSeg]; omega
      · rw [hm, upd_same]
    · obtain ⟨d1, d2, d3, d4⟩ := I.hdr _ _ h
      have e0 := hcell c b h e1 0 (by decide)
      simp only [Nat.add_zero] at e0
      rw [hcell c b h e1 _ (by decide), hcell c b h e1 _ (by decide), e0]
      exact ⟨d1, d2, d3, d4⟩
  · intro c b h
    have d : 2 ^ k ∣ a - (g + 16) := Nat.dvd_trans (Nat.pow_dvd_pow 2 (by omega)) h2
    rcases hblk c b h with ⟨rfl, rfl⟩ | ⟨rfl, rfl⟩ | ⟨e1, e2, h⟩
    · exact ⟨hk, by simp only; omega, L, hs, h1, d, by simp only; omega⟩
    · refine ⟨hk, by simp only; omega, L, hs, by simp only; omega, ?_, by simp only; omega⟩
      simp only
      rw [show a + 2 ^ k - (g + 16) = a - (g + 16) + 2 ^ k by omega]
      exact Nat.dvd_add d (Nat.dvd_refl _)
    · exact I.shape c b h
  · intro g' L' h
    obtain ⟨h1, h2, h3, h4, h5, h6⟩ := I.segm g' L' h
    refine ⟨h1, h2, by rw [hg g' L' h]; exact h3, h4, by rw [r3]; exact h5, fun x l1 l2 => ?_⟩
    have := h6 x l1 l2
    unfold Got at *
    rw [r4]; exact this
  · intro g' L' h x l1 l2
    obtain ⟨c, b, q1, q2, q3, q4⟩ := I.cover g' L' h x l1 l2
    by_cases e : c = a
    · subst e; rw [ha] at q1; cases q1
      simp only at q2 q4
      by_cases hx : x < c + 2 ^ k
      · exact ⟨c, _, hA, q2, q3, hx⟩
      · exact ⟨_, _, upd_same _ _ _, q2, by omega, by simp only; omega⟩
    · have hne : c ≠ a + 2 ^ k := by rintro rfl; rw [hfree] at q1; cases q1
      exact ⟨c, b, (hO c e hne).trans q1, q2, q3, q4⟩
  · intro c b c' b' h h' l
    rcases hblk c b h with ⟨rfl, rfl⟩ | ⟨rfl, rfl⟩ | ⟨e1, e2, h₀⟩
    · rcases hblk c' b' h' with ⟨e, -⟩ | ⟨e, -⟩ | ⟨e1, e2, h'⟩
      · omega
      · simp only; omega
      · have := I.disj _ _ _ _ ha h' l; simp only at this ⊢; omega
    · rcases hblk c' b' h' with ⟨e, -⟩ | ⟨e, -⟩ | ⟨e1, e2, h'⟩
      · omega
      · omega
      · have := hother c' b' h' e1; have := I.size h'; simp only; omega
    · rcases hblk c' b' h' with ⟨rfl, rfl⟩ | ⟨rfl, rfl⟩ | ⟨e1', e2', h'⟩
      · exact I.disj _ _ _ _ h₀ ha l
      · have := hother c b h₀ e1; omega
      · exact I.disj _ _ _ _ h₀ h' l
  · exact I.segdisj
  · rw [r1]; exact I.curr
  · intro i hi
    rw [hav]
    refine (I.ring i hi).frame fun z hz => ?_
    obtain ⟨b, hb, -⟩ := (I.flmem i z).1 hz
    by_cases e : z = a
    · subst e; exact ⟨hcell' _ (by decide) (by decide), hcell' _ (by decide) (by decide)⟩
    · exact ⟨hcell z b hb e oNext (by decide), hcell z b hb e oPrev (by decide)⟩
  · exact I.nodup
  · intro i c
    rw [I.flmem]
    dsimp only
    by_cases e : c = a
    · subst e
      rw [hA]
      constructor
      · rintro ⟨b, q, -, q3⟩; rw [ha] at q; cases q; exact absurd q3 hst
      · rintro ⟨b, q, -, q3⟩; cases q; exact absurd q3 hst
    · by_cases e2 : c = a + 2 ^ k
      · subst e2
        rw [hfree]
        simp only [upd_same]
        constructor
        · rintro ⟨b, q, -⟩; cases q
        · rintro ⟨b, q, -, q3⟩; cases q; cases q3
      · rw [hO c e e2]
  · rw [r3]; exact I.brk0
  · rw [r3, r4, r2]; exact I.got

/-- Joining two buddies in hand. -/
theorem join (I : Inv s G) {a k g} (ha : G.blk a = some ⟨k, .used, g⟩) (hb : G.blk (a + 2 ^ k) = some ⟨k, .used, g⟩)
    (hd : 2 ^ (k + 1) ∣ a - (g + 16)) :
    Inv (s.set (a + oSize) (k + 1)) ⟨upd (upd G.blk a (some ⟨k + 1, .used, g⟩)) (a + 2 ^ k) none, G.seg, G.fl⟩ := by
  obtain ⟨h6, h62, L, hs, h1, h2, h3⟩ := I.shape _ _ ha
  obtain ⟨-, -, L', hs', -, -, h3'⟩ := I.shape _ _ hb
  simp only at h6 h62 hs h1 h2 h3 hs' h3'
  rw [hs] at hs'; cases hs'
  have p2 := pow_two k
  have pk := pow_ge h6
  have hab : a + 2 ^ k ≠ a := by omega
  have hk1 : k + 1 ≤ 62 := by
    have hL := (I.segm _ _ hs).2.2.2.1
    have : 2 ^ (k + 1) ≤ 2 ^ 62 := by omega
    exact (Nat.pow_le_pow_iff_right (by omega)).1 this
  have hother : ∀ c b, G.blk c = some b → c ≠ a → c ≠ a + 2 ^ k → c + 2 ^ b.k ≤ a ∨ a + 2 ^ (k + 1) ≤ c := by
    intro c b h hne hne'
    have q1 := I.sep h ha hne
    have q2 := I.sep h hb hne'
    have := I.size h
    simp only at q1 q2; omega
  have hm : ∀ x, x ≠ a + oSize → (s.set (a + oSize) (k + 1)).mem x = s.mem x := fun x h => upd_ne _ _ h
  have hcell : ∀ c b, G.blk c = some b → ∀ i < 40, (c ≠ a ∨ i ≠ oSize) →
      (s.set (a + oSize) (k + 1)).mem (c + i) = s.mem (c + i) :=
    fun c b h i hi hne => hm _ (I.cell h ha hi (by decide) hne)
  have hblk : ∀ c b, upd (upd G.blk a (some ⟨k + 1, .used, g⟩)) (a + 2 ^ k) none c = some b →
      (c = a ∧ b = ⟨k + 1, .used, g⟩) ∨ (c ≠ a ∧ c ≠ a + 2 ^ k ∧ G.blk c = some b) := by
    intro c b h
    by_cases e : c = a + 2 ^ k
    · rw [e, upd_same] at h; cases h
    · rw [upd_ne _ _ e] at h
      by_cases e' : c = a
      · rw [e', upd_same] at h; cases h; exact Or.inl ⟨e', rfl⟩
      · rw [upd_ne _ _ e'] at h; exact Or.inr ⟨e', e, h⟩
  have hA : upd (upd G.blk a (some ⟨k + 1, .used, g⟩)) (a + 2 ^ k) none a = some ⟨k + 1, .used, g⟩ := by
    rw [upd_ne _ _ (Ne.symm hab), upd_same]
  have hO : ∀ c, c ≠ a → c ≠ a + 2 ^ k →
      upd (upd G.blk a (some ⟨k + 1, .used, g⟩)) (a + 2 ^ k) none c = G.blk c := by
    intro c h1 h2; rw [upd_ne _ _ h2, upd_ne _ _ h1]
  constructor
  · intro c b h
    rcases hblk c b h with ⟨rfl, rfl⟩ | ⟨e1, e2, h⟩
    · obtain ⟨d1, d2, d3, d4⟩ := I.hdr _ _ ha
      have e0 := hcell c _ ha 0 (by decide) (Or.inr (by decide))
      simp only [Nat.add_zero] at e0
      refine ⟨upd_same _ _ _, ?_, (fun h => nomatch h), ?_⟩
      · rw [hcell c _ ha _ (by decide) (Or.inr (by decide))]; exact d2
      · rw [e0]; exact d4
    · obtain ⟨d1, d2, d3, d4⟩ := I.hdr _ _ h
      have e0 := hcell c b h 0 (by decide) (Or.inl e1)
      simp only [Nat.add_zero] at e0
      rw [hcell c b h _ (by decide) (Or.inl e1), hcell c b h _ (by decide) (Or.inl e1), e0]
      exact ⟨d1, d2, d3, d4⟩
  · intro c b h
    rcases hblk c b h with ⟨rfl, rfl⟩ | ⟨e1, e2, h⟩
    · exact ⟨by simp only; omega, hk1, L, hs, h1, hd, by simp only; omega⟩
    · exact I.shape c b h
  · intro g' L' h
    obtain ⟨h1, h2, h3, h4⟩ := I.segm g' L' h
    refine ⟨h1, h2, ?_, h4⟩
    have := I.seg_out h ha
    simp only at this
    rw [hm _ (by simp only [oSize]; omega)]; exact h3
  · intro g' L' h x l1 l2
    obtain ⟨c, b, q1, q2, q3, q4⟩ := I.cover g' L' h x l1 l2
    by_cases e : c = a
    · subst e; rw [ha] at q1; cases q1
      simp only at q2 q4
      exact ⟨c, _, hA, q2, q3, by simp only; omega⟩
    · by_cases e2 : c = a + 2 ^ k
      · subst e2; rw [hb] at q1; cases q1
        simp only at q2 q4
        exact ⟨a, _, hA, q2, by omega, by simp only; omega⟩
      · exact ⟨c, b, (hO c e e2).trans q1, q2, q3, q4⟩
  · intro c b c' b' h h' l
    rcases hblk c b h with ⟨rfl, rfl⟩ | ⟨e1, e2, h₀⟩
    · rcases hblk c' b' h' with ⟨e, -⟩ | ⟨e1, e2, h'⟩
      · omega
      · have := hother c' b' h' e1 e2; have := I.size h'; simp only; omega
    · rcases hblk c' b' h' with ⟨rfl, rfl⟩ | ⟨e1', e2', h'⟩
      · exact I.disj _ _ _ _ h₀ ha l
      · exact I.disj _ _ _ _ h₀ h' l
  · exact I.segdisj
  · exact I.curr
  · intro i hi
    refine (I.ring i hi).frame fun z hz => ?_
    obtain ⟨b, hb, -⟩ := (I.flmem i z).1 hz
    exact ⟨hcell z b hb _ (by decide) (Or.inr (by decide)), hcell z b hb _ (by decide) (Or.inr (by decide))⟩
  · exact I.nodup
  · intro i c
    rw [I.flmem]
    dsimp only
    by_cases e : c = a
    · subst e
      rw [hA, ha]
      constructor
      · rintro ⟨b, q, -, q3⟩; cases q; cases q3
      · rintro ⟨b, q, -, q3⟩; cases q; cases q3
    · by_cases e2 : c = a + 2 ^ k
      · subst e2
        rw [hb]
        simp only [upd_same]
        constructor
        · rintro ⟨b, q, -, q3⟩; cases q; cases q3
        · rintro ⟨b, q, -⟩; cases q
      · rw [hO c e e2]
  · exact I.brk0
  · exact I.got

/-- The system gives more memory. -/
theorem more (I : Inv s G) (n : Nat) :
    Inv { s with brk := s.brk + n, got := (s.brk, n) :: s.got, alloc := s.alloc + n } G := by
  constructor
  · exact I.hdr
  · exact I.shape
  · intro g L h
    obtain ⟨h1, h2, h3, h4, h5, h6⟩ := I.segm g L h
    refine ⟨h1, h2, h3, h4, Nat.le_trans h5 (Nat.le_add_right _ _), fun x l1 l2 => ?_⟩
    obtain ⟨p, hp, hx⟩ := h6 x l1 l2
    exact ⟨p, List.mem_cons_of_mem _ hp, hx⟩
  · exact I.cover
  · exact I.disj
  · exact I.segdisj
  · exact I.curr
  · exact I.ring
  · exact I.nodup
  · exact I.flmem
  · exact Nat.lt_of_lt_of_le I.brk0 (Nat.le_add_right _ _)
  · exact ⟨Nat.le_refl _, s.alloc, rfl, I.got⟩

/-- A new segment above all others. -/
theorem newSeg (I : Inv s G) {g : Nat} (h0 : 0 < g) (h8 : 8 ∣ g)
    (ho : ∀ g' L', G.seg g' = some L' → g' + 16 + L' ≤ g) (hb : g + 16 ≤ s.brk)
    (hgot : ∀ x, g ≤ x → x < g + 16 → Got s x) :
    Inv { (s.set g (g + segSize)).set (g + oLimit) 0 with curr := some g } ⟨G.blk, upd G.seg g (some 0), G.fl⟩ := by
  have hn : G.seg g = none := by
    cases h : G.seg g with
    | none => rfl
    | some L => have := ho g L h; omega
  have hne : ∀ g' L', G.seg g' = some L' → g' ≠ g := by
    rintro g' L' h rfl; rw [hn] at h; cases h
  have hseg : ∀ g' L', G.seg g' = some L' → upd G.seg g (some 0) g' = some L' := by
    intro g' L' h; rw [upd_ne _ _ (hne g' L' h)]; exact h
  have hseg' : ∀ g' L', upd G.seg g (some 0) g' = some L' → (g' = g ∧ L' = 0) ∨ G.seg g' = some L' := by
    intro g' L' h
    by_cases e : g' = g
    · rw [e, upd_same] at h; cases h; exact Or.inl ⟨e, rfl⟩
    · rw [upd_ne _ _ e] at h; exact Or.inr h
  have hbelow : ∀ a b, G.blk a = some b → a + 2 ^ b.k ≤ g := by
    intro a b h
    obtain ⟨-, -, L, hs, -, -, h3⟩ := I.shape a b h
    have := ho _ _ hs; omega
  have hm : ∀ x, x < g → upd (upd s.mem g (g + segSize)) (g + oLimit) 0 x = s.mem x := by
    intro x hx
    rw [upd_ne _ _ (by simp only [oLimit]; omega), upd_ne _ _ (by omega)]
  have hcell : ∀ a b, G.blk a = some b → ∀ i < 40, upd (upd s.mem g (g + segSize)) (g + oLimit) 0 (a + i) = s.mem (a + i) := by
    intro a b h i hi
    have := hbelow a b h; have := I.size h
    exact hm _ (by omega)
  constructor
  · intro a b h
    obtain ⟨d1, d2, d3, d4⟩ := I.hdr a b h
    have e0 := hcell a b h 0 (by decide)
    simp only [Nat.add_zero] at e0
    simp only [St.set]
    rw [hcell a b h _ (by decide), hcell a b h _ (by decide), e0]
    exact ⟨d1, d2, d3, d4⟩
  · intro a b h
    obtain ⟨d1, d2, L, d3, d4⟩ := I.shape a b h
    exact ⟨d1, d2, L, hseg _ _ d3, d4⟩
  · intro g' L' h
    rcases hseg' g' L' h with ⟨rfl, rfl⟩ | h
    · refine ⟨h0, h8, ?_, by omega, hb, fun x l1 l2 => hgot x l1 (by omega)⟩
      simp only [St.set]
      rw [upd_ne _ _ (by simp [oLimit]), upd_same]; rfl
    · obtain ⟨h1, h2, h3, h4⟩ := I.segm g' L' h
      refine ⟨h1, h2, ?_, h4⟩
      have := ho g' L' h
      simp only [St.set]
      rw [hm _ (by omega)]; exact h3
  · intro g' L' h x l1 l2
    rcases hseg' g' L' h with ⟨rfl, rfl⟩ | h
    · omega
    · exact I.cover g' L' h x l1 l2
  · exact I.disj
  · intro g₁ L₁ g₂ L₂ h1 h2 l
    rcases hseg' g₁ L₁ h1 with ⟨rfl, rfl⟩ | h₀
    · rcases hseg' g₂ L₂ h2 with ⟨rfl, rfl⟩ | h2
      · omega
      · have := ho _ _ h2; omega
    · rcases hseg' g₂ L₂ h2 with ⟨rfl, rfl⟩ | h2
      · exact ho _ _ h₀
      · exact I.segdisj _ _ _ _ h₀ h2 l
  · intro g' h
    cases h
    exact ⟨0, upd_same _ _ _⟩
  · intro i hi
    refine (I.ring i hi).frame fun z hz => ?_
    obtain ⟨b, hb, -⟩ := (I.flmem i z).1 hz
    exact ⟨hcell z b hb _ (by decide), hcell z b hb _ (by decide)⟩
  · exact I.nodup
  · exact I.flmem
  · exact I.brk0
  · exact I.got

/-- A new block at the end of the last segment. -/
theorem extend (I : Inv s G) {g L j : Nat} (hg : G.seg g = some L)
    (ho : ∀ g' L', G.seg g' = some L' → g' ≠ g → g' + 16 + L' ≤ g) (hj : 6 ≤ j) (hd : 2 ^ j ∣ L)
    (hL : L + 2 ^ j ≤ 2 ^ 62) (hb : g + 16 + L + 2 ^ j ≤ s.brk)
    (hgot : ∀ x, g + 16 + L ≤ x → x < g + 16 + L + 2 ^ j → Got s x) :
    Inv ((s.set (g + 16 + L + oSize) j).set (g + 16 + L + oSeg) g)
      ⟨upd G.blk (g + 16 + L) (some ⟨j, .loose, g⟩), upd G.seg g (some (L + 2 ^ j)), G.fl⟩ := by
  have pj := pow_ge hj
  have hj62 : j ≤ 62 := (Nat.pow_le_pow_iff_right (a := 2) (by omega)).1 (by omega)
  have hbelow : ∀ a b, G.blk a = some b → a + 2 ^ b.k ≤ g + 16 + L := by
    intro a b h
    obtain ⟨-, -, L', hs, -, -, h3⟩ := I.shape a b h
    by_cases e : b.seg = g
    · rw [e] at hs h3; rw [hg] at hs; cases hs; exact h3
    · have := ho _ _ hs e; omega
  have hnb : ∀ a b, G.blk a = some b → a ≠ g + 16 + L := by
    intro a b h; have := hbelow a b h; have := I.size h; omega
  have hm : ∀ x, x < g + 16 + L → upd (upd s.mem (g + 16 + L + oSize) j) (g + 16 + L + oSeg) g x = s.mem x := by
    intro x hx
    rw [upd_ne, upd_ne] <;> simp only [oSize, oSeg] <;> omega
  have hcell : ∀ a b, G.blk a = some b → ∀ i < 40,
      upd (upd s.mem (g + 16 + L + oSize) j) (g + 16 + L + oSeg) g (a + i) = s.mem (a + i) := by
    intro a b h i hi
    have := hbelow a b h; have := I.size h
    exact hm _ (by omega)
  have hblk : ∀ a b, upd G.blk (g + 16 + L) (some ⟨j, .loose, g⟩) a = some b →
      (a = g + 16 + L ∧ b = ⟨j, .loose, g⟩) ∨ G.blk a = some b := by
    intro a b h
    by_cases e : a = g + 16 + L
    · rw [e, upd_same] at h; cases h; exact Or.inl ⟨e, rfl⟩
    · rw [upd_ne _ _ e] at h; exact Or.inr h
  have hO : ∀ a b, G.blk a = some b → upd G.blk (g + 16 + L) (some ⟨j, .loose, g⟩) a = some b := by
    intro a b h; rw [upd_ne _ _ (hnb a b h)]; exact h
  have hseg : ∀ g' L', G.seg g' = some L' → ∃ L₁, upd G.seg g (some (L + 2 ^ j)) g' = some L₁ ∧ L' ≤ L₁ := by
    intro g' L' h
    by_cases e : g' = g
    · subst e; rw [hg] at h; cases h; exact ⟨_, upd_same _ _ _, by omega⟩
    · exact ⟨L', by rw [upd_ne _ _ e]; exact h, Nat.le_refl _⟩
  have hseg' : ∀ g' L', upd G.seg g (some (L + 2 ^ j)) g' = some L' →
      (g' = g ∧ L' = L + 2 ^ j) ∨ (g' ≠ g ∧ G.seg g' = some L') := by
    intro g' L' h
    by_cases e : g' = g
    · rw [e, upd_same] at h; cases h; exact Or.inl ⟨e, rfl⟩
    · rw [upd_ne _ _ e] at h; exact Or.inr ⟨e, h⟩
  constructor
  · intro a b h
    simp only [St.set]
    rcases hblk a b h with ⟨rfl, rfl⟩ | h
    · refine ⟨?_, upd_same _ _ _, (fun h => nomatch h), (fun h => nomatch h)⟩
      rw [upd_ne _ _ (by simp [oSize, oSeg]), upd_same]
    · obtain ⟨d1, d2, d3, d4⟩ := I.hdr a b h
      have e0 := hcell a b h 0 (by decide)
      simp only [Nat.add_zero] at e0
      rw [hcell a b h _ (by decide), hcell a b h _ (by decide), e0]
      exact ⟨d1, d2, d3, d4⟩
  · intro a b h
    rcases hblk a b h with ⟨rfl, rfl⟩ | h
    · refine ⟨hj, hj62, L + 2 ^ j, upd_same _ _ _, by simp only; omega, ?_, by simp only; omega⟩
      simp only
      rw [show g + 16 + L - (g + 16) = L by omega]; exact hd
    · obtain ⟨d1, d2, L', d3, d4, d5, d6⟩ := I.shape a b h
      obtain ⟨L₁, e1, e2⟩ := hseg _ _ d3
      exact ⟨d1, d2, L₁, e1, d4, d5, by omega⟩
  · intro g' L' h
    simp only [St.set]
    rcases hseg' g' L' h with ⟨rfl, rfl⟩ | ⟨hne, h⟩
    · obtain ⟨h1, h2, h3, h4, h5, h6⟩ := I.segm _ _ hg
      refine ⟨h1, h2, by rw [hm _ (by omega)]; exact h3, hL, by omega, fun x l1 l2 => ?_⟩
      by_cases hx : x < g' + 16 + L
      · exact h6 x l1 hx
      · exact hgot x (by omega) (by omega)
    · obtain ⟨h1, h2, h3, h4⟩ := I.segm g' L' h
      have := ho g' L' h hne
      exact ⟨h1, h2, by rw [hm _ (by omega)]; exact h3, h4⟩
  · intro g' L' h x l1 l2
    rcases hseg' g' L' h with ⟨rfl, rfl⟩ | ⟨hne, h⟩
    · by_cases hx : x < g' + 16 + L
      · obtain ⟨a, b, q1, q2⟩ := I.cover _ _ hg x l1 hx
        exact ⟨a, b, hO a b q1, q2⟩
      · exact ⟨_, _, upd_same _ _ _, rfl, by omega, by simp only; omega⟩
    · obtain ⟨a, b, q1, q2⟩ := I.cover g' L' h x l1 l2
      exact ⟨a, b, hO a b q1, q2⟩
  · intro a b a' b' h h' l
    rcases hblk a b h with ⟨rfl, rfl⟩ | h₀
    · rcases hblk a' b' h' with ⟨e, -⟩ | h'
      · omega
      · have := hbelow _ _ h'; have := I.size h'; omega
    · rcases hblk a' b' h' with ⟨e, -⟩ | h'
      · have := hbelow _ _ h₀; omega
      · exact I.disj _ _ _ _ h₀ h' l
  · intro g₁ L₁ g₂ L₂ h1 h2 l
    rcases hseg' g₁ L₁ h1 with ⟨rfl, rfl⟩ | ⟨n1, h₀⟩
    · rcases hseg' g₂ L₂ h2 with ⟨e, -⟩ | ⟨n2, h2⟩
      · omega
      · have := ho _ _ h2 n2; omega
    · rcases hseg' g₂ L₂ h2 with ⟨rfl, rfl⟩ | ⟨n2, h2⟩
      · exact ho _ _ h₀ n1
      · exact I.segdisj _ _ _ _ h₀ h2 l
  · intro g' h
    obtain ⟨L', h'⟩ := I.curr g' h
    obtain ⟨L₁, e1, -⟩ := hseg _ _ h'
    exact ⟨L₁, e1⟩
  · intro i hi
    refine (I.ring i hi).frame fun z hz => ?_
    obtain ⟨b, hb, -⟩ := (I.flmem i z).1 hz
    exact ⟨hcell z b hb _ (by decide), hcell z b hb _ (by decide)⟩
  · exact I.nodup
  · intro i a
    rw [I.flmem]
    constructor
    · rintro ⟨b, q1, q2⟩; exact ⟨b, hO a b q1, q2⟩
    · rintro ⟨b, q1, q2, q3⟩
      rcases hblk a b q1 with ⟨rfl, rfl⟩ | h
      · cases q3
      · exact ⟨b, h, q2, q3⟩
  · exact I.brk0
  · exact I.got

end Inv

end Cal.Mem
