import Verif.MemRing

/-!
# The invariant of the block allocator
-/

namespace Cal.Mem

/-- What a block is: on a free list, in use, or just made, with no flag yet. -/
inductive Status
  | free | used | loose
deriving DecidableEq

/-- A block: the logarithm of its size, what it is, the address of its segment. -/
structure Blk where
  k : Nat
  st : Status
  seg : Nat

/-- The blocks by their addresses, the limits of the segments by theirs, and the free lists. -/
structure Gh where
  blk : Nat → Option Blk
  seg : Nat → Option Nat
  fl : Nat → List Nat

/-- Memory that the system has given to the allocator. -/
def Got (s : St) (x : Nat) : Prop := ∃ p ∈ s.got, p.1 ≤ x ∧ x < p.1 + p.2

/-- The ranges got from the system are one above the other and below the break, and their sizes are
counted. -/
def GotOK (brk : Nat) : List (Nat × Nat) → Nat → Prop
  | [], n => n = 0
  | p :: l, n => p.1 + p.2 ≤ brk ∧ ∃ n', n = n' + p.2 ∧ GotOK p.1 l n'

/-- The invariant: the headers, the blocks fill the segments without overlap, the free lists have the
free blocks. -/
structure Inv (s : St) (G : Gh) : Prop where
  hdr : ∀ a b, G.blk a = some b → s.mem (a + oSize) = b.k ∧ s.mem (a + oSeg) = b.seg ∧
    (b.st = .free → s.mem a = 0) ∧ (b.st = .used → s.mem a ≠ 0)
  shape : ∀ a b, G.blk a = some b → 6 ≤ b.k ∧ b.k ≤ 62 ∧ ∃ L, G.seg b.seg = some L ∧ b.seg + 16 ≤ a ∧
    2 ^ b.k ∣ a - (b.seg + 16) ∧ a + 2 ^ b.k ≤ b.seg + 16 + L
  segm : ∀ g L, G.seg g = some L → 0 < g ∧ 8 ∣ g ∧ s.mem g = g + 16 ∧ L ≤ 2 ^ 62 ∧ g + 16 + L ≤ s.brk ∧
    ∀ x, g ≤ x → x < g + 16 + L → Got s x
  cover : ∀ g L, G.seg g = some L → ∀ x, g + 16 ≤ x → x < g + 16 + L →
    ∃ a b, G.blk a = some b ∧ b.seg = g ∧ a ≤ x ∧ x < a + 2 ^ b.k
  disj : ∀ a b a' b', G.blk a = some b → G.blk a' = some b' → a < a' → a + 2 ^ b.k ≤ a'
  segdisj : ∀ g L g' L', G.seg g = some L → G.seg g' = some L' → g < g' → g + 16 + L ≤ g'
  curr : ∀ g, s.curr = some g → ∃ L, G.seg g = some L
  ring : ∀ i ≤ 62, Ring s.mem (s.avail i) (G.fl i)
  nodup : ∀ i, (G.fl i).Nodup
  flmem : ∀ i a, a ∈ G.fl i ↔ ∃ b, G.blk a = some b ∧ b.k = i ∧ b.st = .free
  brk0 : 0 < s.brk
  got : GotOK s.brk s.got s.alloc

/-- The limits are in the segments, and are multiples of the smallest size asked of the system. -/
def Lim (s : St) (G : Gh) : Prop := ∀ g L, G.seg g = some L → s.mem (g + oLimit) = L ∧ 2 ^ 15 ∣ L

/-- No block is without a flag. -/
def NoLoose (G : Gh) : Prop := ∀ a b, G.blk a = some b → b.st ≠ .loose

/-- The same but for the memory and the lists. -/
structure Rest (s s' : St) : Prop where
  curr : s'.curr = s.curr
  alloc : s'.alloc = s.alloc
  brk : s'.brk = s.brk
  got : s'.got = s.got

theorem Rest.refl (s : St) : Rest s s := ⟨rfl, rfl, rfl, rfl⟩
theorem Rest.trans {s s' s'' : St} (h : Rest s s') (h' : Rest s' s'') : Rest s s'' :=
  ⟨h'.curr.trans h.curr, h'.alloc.trans h.alloc, h'.brk.trans h.brk, h'.got.trans h.got⟩

/-- `c` is the buddy of the block at `a`, of size `2 ^ k` and in segment `g`: the other half of an aligned
range of twice the size. -/
def BuddyOf (g k a c : Nat) : Prop :=
  (c = a + 2 ^ k ∧ 2 ^ (k + 1) ∣ a - (g + 16)) ∨ (a = c + 2 ^ k ∧ g + 16 ≤ c ∧ 2 ^ (k + 1) ∣ c - (g + 16))

/-- An aligned range of a segment in which no two free blocks are buddies. -/
def Solid (G : Gh) (g a k : Nat) : Prop :=
  (∃ L, G.seg g = some L ∧ a + 2 ^ k ≤ g + 16 + L) ∧ g + 16 ≤ a ∧ 2 ^ k ∣ a - (g + 16) ∧
  ∀ j c d, BuddyOf g j c d → a ≤ c → c + 2 ^ j ≤ a + 2 ^ k → a ≤ d → d + 2 ^ j ≤ a + 2 ^ k →
    G.blk c = some ⟨j, .free, g⟩ → G.blk d = some ⟨j, .free, g⟩ → False

/-- Such ranges stay. -/
def Sol (G G' : Gh) : Prop := ∀ g a k, Solid G g a k → Solid G' g a k

theorem Sol.refl (G : Gh) : Sol G G := fun _ _ _ h => h
theorem Sol.trans {G G' G'' : Gh} (h : Sol G G') (h' : Sol G' G'') : Sol G G'' := fun g a k q => h' g a k (h g a k q)

theorem BuddyOf.symm {g k a c : Nat} (h : BuddyOf g k a c) (ha : g + 16 ≤ a) : BuddyOf g k c a := by
  rcases h with ⟨h1, h2⟩ | ⟨h1, h2, h3⟩
  · exact Or.inr ⟨h1, ha, h2⟩
  · exact Or.inl ⟨h1, h3⟩

theorem Sol.sub {G G' : Gh} (hs : ∀ g L, G.seg g = some L → ∃ L', G'.seg g = some L' ∧ L ≤ L')
    (hf : ∀ g L c j, G.seg g = some L → c + 2 ^ j ≤ g + 16 + L → G'.blk c = some ⟨j, .free, g⟩ → G.blk c = some ⟨j, .free, g⟩) :
    Sol G G' := by
  rintro g a k ⟨⟨L, h1, h2⟩, h3, h4, h5⟩
  obtain ⟨L', e1, e2⟩ := hs g L h1
  exact ⟨⟨L', e1, by omega⟩, h3, h4, fun j c d hB l1 l2 l3 l4 hc hd =>
    h5 j c d hB l1 l2 l3 l4 (hf g L c j h1 (by omega) hc) (hf g L d j h1 (by omega) hd)⟩

theorem Sol.new {G G' : Gh} {g₀ a₀ k₀ : Nat} (hs : G'.seg = G.seg)
    (hf : ∀ c j g, G'.blk c = some ⟨j, .free, g⟩ → G.blk c = some ⟨j, .free, g⟩ ∨ (c = a₀ ∧ j = k₀ ∧ g = g₀))
    (hb : ∀ d, BuddyOf g₀ k₀ a₀ d → G'.blk d = some ⟨k₀, .free, g₀⟩ → False) : Sol G G' := by
  rintro g a k ⟨⟨L, h1, h2⟩, h3, h4, h5⟩
  refine ⟨⟨L, by rw [hs]; exact h1, h2⟩, h3, h4, fun j c d hB l1 l2 l3 l4 hc hd => ?_⟩
  rcases hf c j g hc with q1 | ⟨rfl, rfl, rfl⟩
  · rcases hf d j g hd with q2 | ⟨rfl, rfl, rfl⟩
    · exact h5 j c d hB l1 l2 l3 l4 q1 q2
    · exact hb c (hB.symm (by omega)) hc
  · exact hb d hB hd

/-- What happens to the blocks in use, other than those in hand before (`X`) and after (`Y`): they stay
with what is in them, and there are no new ones; and ranges without free buddies stay so. -/
structure Ev (X Y : Nat → Prop) (s : St) (G : Gh) (s' : St) (G' : Gh) : Prop where
  keep : ∀ c b, G.blk c = some b → b.st = .used → ¬ X c → G'.blk c = some b ∧
    ∀ x, c + 40 ≤ x → x < c + 2 ^ b.k → s'.mem x = s.mem x
  back : ∀ c b, G'.blk c = some b → b.st = .used → ¬ Y c → G.blk c = some b ∧ ¬ X c
  sol : Sol G G'

theorem Ev.trans {X Y Z : Nat → Prop} {s G s' G' s'' G''} (h : Ev X Y s G s' G') (h' : Ev Y Z s' G' s'' G'') :
    (∀ c b, G.blk c = some b → b.st = .used → ¬ X c → ¬ Y c) → Ev X Z s G s'' G'' := by
  intro hxy
  constructor
  · intro c b hc hu hx
    obtain ⟨h1, h2⟩ := h.keep c b hc hu hx
    obtain ⟨h3, h4⟩ := h'.keep c b h1 hu (hxy c b hc hu hx)
    exact ⟨h3, fun x l1 l2 => by rw [h4 x l1 l2, h2 x l1 l2]⟩
  · intro c b hc hu hz
    obtain ⟨h1, h2⟩ := h'.back c b hc hu hz
    exact h.back c b h1 hu h2
  · exact h.sol.trans h'.sol

theorem pow_ge {k : Nat} (h : 6 ≤ k) : 64 ≤ 2 ^ k := by
  have := Nat.pow_le_pow_right (n := 2) (by omega) h
  simpa using this

theorem pow_two (k : Nat) : 2 ^ (k + 1) = 2 ^ k + 2 ^ k := by rw [Nat.pow_succ]; omega

namespace Inv

variable {s : St} {G : Gh}

theorem size (I : Inv s G) {a b} (h : G.blk a = some b) : 64 ≤ 2 ^ b.k := pow_ge (I.shape a b h).1

theorem pos (I : Inv s G) {a b} (h : G.blk a = some b) : 16 < a := by
  obtain ⟨-, -, L, hs, h1, -⟩ := I.shape a b h
  have := (I.segm _ _ hs).1
  omega

/-- Two blocks do not overlap. -/
theorem sep (I : Inv s G) {a b a' b'} (h : G.blk a = some b) (h' : G.blk a' = some b') (hne : a ≠ a') :
    a + 2 ^ b.k ≤ a' ∨ a' + 2 ^ b'.k ≤ a := by
  rcases Nat.lt_or_gt_of_ne hne with l | l
  · exact Or.inl (I.disj a b a' b' h h' l)
  · exact Or.inr (I.disj a' b' a b h' h l)

theorem apart (I : Inv s G) {P : List Nat} (h : ∀ x ∈ P, ∃ b, G.blk x = some b) : Apart P := by
  intro x hx y hy hne
  obtain ⟨b, hb⟩ := h x hx
  obtain ⟨b', hb'⟩ := h y hy
  have := I.sep hb hb' hne
  have := I.size hb
  have := I.size hb'
  omega

/-- The structure of a segment is outside all blocks. -/
theorem seg_out (I : Inv s G) {g L a b} (hg : G.seg g = some L) (h : G.blk a = some b) :
    g + 16 ≤ a ∨ a + 2 ^ b.k ≤ g := by
  obtain ⟨-, -, L', hs, h1, -, h3⟩ := I.shape a b h
  by_cases e : b.seg = g
  · rw [e] at h1; exact Or.inl h1
  · rcases Nat.lt_or_gt_of_ne e with l | l
    · have := I.segdisj _ _ _ _ hs hg l; omega
    · have := I.segdisj _ _ _ _ hg hs l; omega

/-- A cell of the header of a block: not one of another block's header. -/
theorem cell (I : Inv s G) {a b a' b'} (h : G.blk a = some b) (h' : G.blk a' = some b') {i j : Nat} (hi : i < 40)
    (hj : j < 40) (hne : a ≠ a' ∨ i ≠ j) : a + i ≠ a' + j := by
  by_cases e : a = a'
  · omega
  · have := I.sep h h' e
    have := I.size h
    have := I.size h'
    omega

/-- Changing memory outside the headers. -/
theorem frame (I : Inv s G) {s' : St} (R : Rest s s') (ha : s'.avail = s.avail)
    (hm : ∀ a b, G.blk a = some b → ∀ i < 40, s'.mem (a + i) = s.mem (a + i))
    (hg : ∀ g L, G.seg g = some L → s'.mem g = s.mem g) : Inv s' G := by
  obtain ⟨r1, r2, r3, r4⟩ := R
  constructor
  · intro a b h
    obtain ⟨h1, h2, h3, h4⟩ := I.hdr a b h
    have e0 := hm a b h 0 (by omega)
    rw [hm a b h oSize (by decide), hm a b h oSeg (by decide)]
    simp only [Nat.add_zero] at e0
    rw [e0]
    exact ⟨h1, h2, h3, h4⟩
  · exact I.shape
  · intro g L h
    obtain ⟨h1, h2, h3, h4, h5, h6⟩ := I.segm g L h
    refine ⟨h1, h2, by rw [hg g L h]; exact h3, h4, by rw [r3]; exact h5, fun x l1 l2 => ?_⟩
    have := h6 x l1 l2
    unfold Got at *
    rw [r4]; exact this
  · exact I.cover
  · exact I.disj
  · exact I.segdisj
  · rw [r1]; exact I.curr
  · intro i hi
    rw [ha]
    refine (I.ring i hi).frame fun z hz => ?_
    obtain ⟨b, hb, -⟩ := (I.flmem i z).1 hz
    exact ⟨hm z b hb oNext (by decide), hm z b hb oPrev (by decide)⟩
  · exact I.nodup
  · exact I.flmem
  · rw [r3]; exact I.brk0
  · rw [r3, r4, r2]; exact I.got

/-- Changing the list a block is on. -/
theorem relink (I : Inv s G) {s' : St} (R : Rest s s') {a k st g st' L'} (ha : G.blk a = some ⟨k, st, g⟩)
    (hm : ∀ x, x ≠ a → ¬ Links (a :: G.fl k) x → s'.mem x = s.mem x)
    (hav : ∀ j, j ≠ k → s'.avail j = s.avail j) (hr : Ring s'.mem (s'.avail k) L') (hn : L'.Nodup)
    (hl : ∀ x, x ∈ L' ↔ (x ≠ a ∧ x ∈ G.fl k) ∨ (x = a ∧ st' = .free))
    (hf : (st' = .free → s'.mem a = 0) ∧ (st' = .used → s'.mem a ≠ 0)) :
    Inv s' ⟨upd G.blk a (some ⟨k, st', g⟩), G.seg, upd G.fl k L'⟩ := by
  obtain ⟨r1, r2, r3, r4⟩ := R
  have hk := (I.shape _ _ ha).2.1
  have hLk : ∀ z ∈ a :: G.fl k, ∃ b, G.blk z = some b := by
    intro z hz
    rcases List.mem_cons.1 hz with rfl | hz
    · exact ⟨_, ha⟩
    · obtain ⟨b, hb, -⟩ := (I.flmem k z).1 hz; exact ⟨b, hb⟩
  -- a cell that is not a link of the list
  have hc : ∀ c b, G.blk c = some b → ∀ i < 40, i ≠ oNext → i ≠ oPrev → (c ≠ a ∨ i ≠ 0) →
      s'.mem (c + i) = s.mem (c + i) := by
    intro c b hb i hi h1 h2 h3
    refine hm _ ?_ ?_
    · exact I.cell (j := 0) hb ha hi (by decide) h3
    · rintro ⟨z, hz, e | e⟩
      · obtain ⟨b', hb'⟩ := hLk z hz
        exact I.cell hb hb' hi (by decide) (Or.inr h1) e
      · obtain ⟨b', hb'⟩ := hLk z hz
        exact I.cell hb hb' hi (by decide) (Or.inr h2) e
  have hg : ∀ g L, G.seg g = some L → s'.mem g = s.mem g := by
    intro g' L h
    refine hm _ ?_ ?_
    · have := I.seg_out h ha; have := I.size ha; omega
    · rintro ⟨z, hz, e⟩
      obtain ⟨b', hb'⟩ := hLk z hz
      have := I.seg_out h hb'; have := I.size hb'
      simp only [oNext, oPrev] at e
      omega
  -- the blocks are where they were
  have hblk : ∀ c b, upd G.blk a (some ⟨k, st', g⟩) c = some b →
      ∃ b₀, G.blk c = some b₀ ∧ b₀.k = b.k ∧ b₀.seg = b.seg ∧ (c ≠ a → b₀ = b) := by
    intro c b h
    by_cases e : c = a
    · subst e; rw [upd_same] at h; cases h; exact ⟨_, ha, rfl, rfl, fun h => absurd rfl h⟩
    · rw [upd_ne _ _ e] at h; exact ⟨b, h, rfl, rfl, fun _ => rfl⟩
  have hblk' : ∀ c b, G.blk c = some b → ∃ b₁, upd G.blk a (some ⟨k, st', g⟩) c = some b₁ ∧ b₁.k = b.k ∧ b₁.seg = b.seg := by
    intro c b h
    by_cases e : c = a
    · subst e; rw [ha] at h; cases h; exact ⟨_, upd_same _ _ _, rfl, rfl⟩
    · exact ⟨b, by rw [upd_ne _ _ e]; exact h, rfl, rfl⟩
  constructor
  · intro c b h
    obtain ⟨b₀, h0, e1, e2, e3⟩ := hblk c b h
    obtain ⟨h1, h2, h3, h4⟩ := I.hdr c b₀ h0
    refine ⟨?_, ?_, ?_⟩
    · rw [hc c b₀ h0 oSize (by decide) (by decide) (by decide) (Or.inr (by decide)), h1, e1]
    · rw [hc c b₀ h0 oSeg (by decide) (by decide) (by decide) (Or.inr (by decide)), h2, e2]
    · by_cases e : c = a
      · subst e; simp only [upd_same] at h; cases h; exact hf
      · have e0 := hc c b₀ h0 0 (by decide) (by decide) (by decide) (Or.inl e)
        simp only [Nat.add_zero] at e0
        rw [e0, ← e3 e]; exact ⟨h3, h4⟩
  · intro c b h
    obtain ⟨b₀, h0, e1, e2, e3⟩ := hblk c b h
    rw [← e1, ← e2]; exact I.shape c b₀ h0
  · intro g' L h
    obtain ⟨h1, h2, h3, h4, h5, h6⟩ := I.segm g' L h
    refine ⟨h1, h2, by rw [hg g' L h]; exact h3, h4, by rw [r3]; exact h5, fun x l1 l2 => ?_⟩
    have := h6 x l1 l2
    unfold Got at *
    rw [r4]; exact this
  · intro g' L h x l1 l2
    obtain ⟨c, b, h1, h2, h3, h4⟩ := I.cover g' L h x l1 l2
    obtain ⟨b₁, h5, e1, e2⟩ := hblk' c b h1
    exact ⟨c, b₁, h5, by rw [e2, h2], h3, by rw [e1]; exact h4⟩
  · intro c b c' b' h h' l
    obtain ⟨b₀, h0, e1, -⟩ := hblk c b h
    obtain ⟨b₀', h0', -⟩ := hblk c' b' h'
    rw [← e1]; exact I.disj c b₀ c' b₀' h0 h0' l
  · exact I.segdisj
  · rw [r1]; exact I.curr
  · intro i hi
    by_cases e : i = k
    · subst e; simp only [upd_same]; exact hr
    · simp only [upd_ne _ _ e]; rw [hav i e]
      refine (I.ring i hi).frame fun z hz => ?_
      obtain ⟨b, hb, hbk, hbf⟩ := (I.flmem i z).1 hz
      have q : ∀ o, o = oNext ∨ o = oPrev → s'.mem (z + o) = s.mem (z + o) := by
        intro o ho
        have ho' : o < 40 ∧ o ≠ 0 := by simp only [oNext, oPrev] at ho; omega
        refine hm _ (I.cell (j := 0) hb ha ho'.1 (by decide) (Or.inr ho'.2)) ?_
        rintro ⟨w, hw, e'⟩
        obtain ⟨b', hb'⟩ := hLk w hw
        have hzw : z ≠ w := by
          rintro rfl
          rcases List.mem_cons.1 hw with rfl | hw
          · rw [ha] at hb; cases hb; exact e hbk.symm
          · obtain ⟨b'', hb'', hk'', -⟩ := (I.flmem k z).1 hw
            rw [hb] at hb''; cases hb''; exact e (by rw [← hbk, hk''])
        rcases e' with e' | e'
        · exact I.cell hb hb' ho'.1 (by decide) (Or.inl hzw) e'
        · exact I.cell hb hb' ho'.1 (by decide) (Or.inl hzw) e'
      exact ⟨q _ (Or.inl rfl), q _ (Or.inr rfl)⟩
  · intro i
    by_cases e : i = k
    · subst e; simp only [upd_same]; exact hn
    · simp only [upd_ne _ _ e]; exact I.nodup i
  · intro i c
    by_cases e : i = k
    · subst e
      simp only [upd_same]
      rw [hl]
      by_cases ec : c = a
      · subst ec
        simp only [upd_same]
        constructor
        · rintro (⟨h, -⟩ | ⟨-, h⟩)
          · exact absurd rfl h
          · exact ⟨_, rfl, rfl, h⟩
        · rintro ⟨b, h1, h2, h3⟩; cases h1; exact Or.inr ⟨trivial, h3⟩
      · simp only [upd_ne _ _ ec]
        rw [I.flmem]
        constructor
        · rintro (⟨-, h⟩ | ⟨h, -⟩)
          · exact h
          · exact absurd h ec
        · intro h; exact Or.inl ⟨ec, h⟩
    · simp only [upd_ne _ _ e]
      rw [I.flmem]
      by_cases ec : c = a
      · subst ec
        simp only [upd_same]
        constructor
        · rintro ⟨b, h1, h2, -⟩; rw [ha] at h1; cases h1; exact absurd h2.symm e
        · rintro ⟨b, h1, h2, -⟩; cases h1; exact absurd h2.symm e
      · simp only [upd_ne _ _ ec]
  · rw [r3]; exact I.brk0
  · rw [r3, r4, r2]; exact I.got

/-- A cell outside of all headers. -/
def Out (G : Gh) (x : Nat) : Prop := ∀ a b, G.blk a = some b → x < a ∨ a + 40 ≤ x

theorem out_links (I : Inv s G) {k a x} {b : Blk} (ha : G.blk a = some b) (h : Out G x) : x ≠ a ∧ ¬ Links (a :: G.fl k) x := by
  constructor
  · rintro rfl; have := h _ _ ha; omega
  · rintro ⟨z, hz, e⟩
    have : ∃ b, G.blk z = some b := by
      rcases List.mem_cons.1 hz with rfl | hz
      · exact ⟨_, ha⟩
      · obtain ⟨b, hb, -⟩ := (I.flmem k z).1 hz; exact ⟨b, hb⟩
    obtain ⟨b', hb'⟩ := this
    have := h _ _ hb'
    simp only [oNext, oPrev] at e
    omega

/-- What is in a block is outside of all headers. -/
theorem out_pay (I : Inv s G) {c b x} (hc : G.blk c = some b) (h1 : c + 40 ≤ x) (h2 : x < c + 2 ^ b.k) : Out G x := by
  intro a b' ha
  by_cases e : a = c
  · subst e; right; exact h1
  · have := I.sep ha hc e
    have := I.size ha
    omega

theorem out_seg (I : Inv s G) {g L} (hg : G.seg g = some L) {i : Nat} (hi : i < 16) : Out G (g + i) := by
  intro a b ha
  have := I.seg_out hg ha
  have := I.size ha
  omega

theorem remove (I : Inv s G) {a k g} (ha : G.blk a = some ⟨k, .free, g⟩) :
    ∃ s', removeFromFree s a = some s' ∧ Rest s s' ∧
      Inv s' ⟨upd G.blk a (some ⟨k, .used, g⟩), G.seg, upd G.fl k ((G.fl k).erase a)⟩ ∧
      (∀ x, Out G x → s'.mem x = s.mem x) := by
  have hk := (I.shape _ _ ha).2.1
  have hal : a ∈ G.fl k := (I.flmem k a).2 ⟨_, ha, rfl, rfl⟩
  have hL : ∀ z ∈ G.fl k, ∃ b, G.blk z = some b := fun z hz => by
    obtain ⟨b, hb, -⟩ := (I.flmem k z).1 hz; exact ⟨b, hb⟩
  obtain ⟨s', h1, h2, h3, h4, h5, r1, r2, r3, r4⟩ := remove_ring (I.hdr _ _ ha).1 hk (I.ring k hk) (I.nodup k) hal
    (fun h => by obtain ⟨b, hb⟩ := hL 0 h; have := I.pos hb; omega) (I.apart hL)
  have R : Rest s s' := ⟨r1, r2, r3, r4⟩
  have hsub : ∀ x, ¬ Links (a :: G.fl k) x → ¬ Links (G.fl k) x :=
    fun x h ⟨z, hz, e⟩ => h ⟨z, List.mem_cons_of_mem _ hz, e⟩
  refine ⟨s', h1, R, I.relink R ha (fun x hx hl => h5 x hx (hsub x hl)) h3 h2 ((I.nodup k).erase a) ?_ ?_, ?_⟩
  · intro x
    rw [(I.nodup k).mem_erase_iff]
    exact ⟨fun h => Or.inl h, fun h => h.elim id fun h => nomatch h.2⟩
  · exact ⟨(fun h => nomatch h), fun _ => by rw [h4]; omega⟩
  · intro x hx
    obtain ⟨q1, q2⟩ := I.out_links (k := k) ha hx
    exact h5 x q1 (hsub x q2)

theorem add (I : Inv s G) {a k st g} (ha : G.blk a = some ⟨k, st, g⟩) (hst : st ≠ .free) :
    ∃ s', addToFree s a = some s' ∧ Rest s s' ∧
      Inv s' ⟨upd G.blk a (some ⟨k, .free, g⟩), G.seg, upd G.fl k (ins a (G.fl k))⟩ ∧
      (∀ x, Out G x → s'.mem x = s.mem x) := by
  have hk := (I.shape _ _ ha).2.1
  have hal : a ∉ G.fl k := fun h => by
    obtain ⟨b, h1, -, h3⟩ := (I.flmem k a).1 h
    rw [ha] at h1; cases h1; exact hst h3
  have hL : ∀ z ∈ a :: G.fl k, ∃ b, G.blk z = some b := fun z hz => by
    rcases List.mem_cons.1 hz with rfl | hz
    · exact ⟨_, ha⟩
    · obtain ⟨b, hb, -⟩ := (I.flmem k z).1 hz; exact ⟨b, hb⟩
  obtain ⟨s', h1, h2, h3, h4, h5, r1, r2, r3, r4⟩ := add_ring (I.hdr _ _ ha).1 hk (I.ring k hk) (I.nodup k) hal
    (by have := I.pos ha; omega) (I.apart hL)
  have R : Rest s s' := ⟨r1, r2, r3, r4⟩
  refine ⟨s', h1, R, I.relink R ha h5 h3 h2 (nodup_ins (I.nodup k) hal) ?_ ?_, ?_⟩
  · intro x
    rw [mem_ins]
    constructor
    · rintro (rfl | h)
      · exact Or.inr ⟨rfl, rfl⟩
      · exact Or.inl ⟨fun e => hal (e ▸ h), h⟩
    · rintro (⟨-, h⟩ | ⟨rfl, -⟩)
      · exact Or.inr h
      · exact Or.inl rfl
  · exact ⟨fun _ => h4, fun h => nomatch h⟩
  · intro x hx
    obtain ⟨q1, q2⟩ := I.out_links (k := k) ha hx
    exact h5 x q1 q2

end Inv

end Cal.Mem
