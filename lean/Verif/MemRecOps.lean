import Verif.MemRecOk

/-!
# The record managers are right: the four calls
-/

namespace Cal.Mem

section
variable {top : Nat} {z : Heap} {h : RHeap} {O : Nat → Option Nat} {bl fr : Nat → List Nat}

theorem St.set_same (s : St) (a x : Nat) : (s.set a x).mem a = x := upd_same _ _ _

theorem St.set_ne (s : St) {a x b : Nat} (h : b ≠ a) : (s.set a x).mem b = s.mem b := upd_ne _ _ h

/-- Bytes of different blocks. -/
theorem RGood.byte_ne (H : RGood top z h O bl fr) {p n q k x y : Nat} (hp : O p = some n) (hq : O q = some k) (hne : p ≠ q)
    (hx : x < n) (hy : y < k) : p + x ≠ q + y := by
  have := H.sep hp hq hne
  omega

theorem mul_ne {sz i j : Nat} (h0 : 0 < sz) (h : i ≠ j) : sz * i ≠ sz * j :=
  fun e => h (Nat.eq_of_mul_eq_mul_left h0 e)

/-! ## A new manager -/

theorem RGood.newMgr (H : RGood top z h O bl fr) (n : Nat) :
    (newRecMgr top h.s n = .exit ∧ (4048 < recSize n ∨ top < h.s.brk + 2 ^ 18)) ∨
    ∃ s' p, newRecMgr top h.s n = .ok (s', p) ∧ p ≠ 0 ∧ O p = none ∧
      RGood top z { h with s := s', mgrs := upd h.mgrs p (some n) } (upd O p (some 32)) bl fr ∧
      ∀ q k, O q = some k → ∀ x, x < k → s'.mem (q + x) = h.s.mem (q + x) := by
  unfold newRecMgr
  simp only
  split
  · rename_i hc
    exact Or.inl ⟨rfl, Or.inl hc⟩
  rename_i hc
  rcases H.reach.get recMgrSize with ⟨q1, q2⟩ | ⟨s', p, q1, q2, q3, q4, q5⟩
  · left
    simp only at q1 q2
    rw [q1]
    refine ⟨rfl, Or.inr ?_⟩
    simp only [recMgrSize] at q2
    rcases q2 with q2 | q2
    · exact absurd q2 (by decide)
    · omega
  right
  simp only at q1 q3 q4 q5
  have hp0 : p ≠ 0 := fun e => absurd (q2.2 e) (by decide)
  rw [q1]
  simp only [Out.andThen]
  have hg : give O p recMgrSize = upd O p (some 32) := by unfold give; rw [if_neg hp0]; rfl
  rw [hg] at q4
  have hO : upd O p (some 32) p = some 32 := upd_same _ _ _
  -- other blocks
  have hne : ∀ q k, O q = some k → q ≠ p := by rintro q k e rfl; rw [q3] at e; cases e
  have sep : ∀ q k, O q = some k → q + k ≤ p ∨ p + 32 ≤ q := fun q k e =>
    C52_disjoint q4.reach (show upd O p (some 32) q = some k by rw [upd_ne _ _ (hne q k e)]; exact e) hO (hne q k e)
  refine ⟨_, p, rfl, hp0, q3, ?_, ?_⟩
  · have R : From top z ⟨((((s'.set p (recSize n)).set (p + oRecs) ((allocSize - listSize) / recSize n)).set (p + oFree) 0).set
        (p + oBlocks) 0).set (p + oNum) 0, upd O p (some 32)⟩ := by
      refine ((((q4.set hO ?_ ?_).set hO ?_ ?_).set hO ?_ ?_).set hO ?_ ?_).set hO ?_ ?_ <;>
        (try simp only [oRecs, oFree, oBlocks, oNum]) <;> omega
    have hmn : h.mgrs p = none := by
      cases e : h.mgrs p with
      | none => rfl
      | some k => rw [H.mgrO e] at q3; cases q3
    have keep : ∀ q k, O q = some k → ∀ x, x < k →
        (((((s'.set p (recSize n)).set (p + oRecs) ((allocSize - listSize) / recSize n)).set (p + oFree) 0).set
        (p + oBlocks) 0).set (p + oNum) 0).mem (q + x) = h.s.mem (q + x) := by
      intro q k e x hx
      have := sep q k e
      simp only [oRecs, oFree, oBlocks, oNum]
      rw [St.set_ne _ (by omega), St.set_ne _ (by omega), St.set_ne _ (by omega), St.set_ne _ (by omega), St.set_ne _ (by omega)]
      exact q5 q k e x hx
    refine ⟨R, ?_, ?_, H.x2, ?_, H.x4, ?_, ?_, ?_, H.apart⟩
    · intro q k
      simp only
      by_cases e : q = p
      · subst e
        rw [upd_same, upd_same]
        constructor
        · intro e; cases e; exact Or.inr (Or.inl ⟨rfl, n, rfl⟩)
        · rintro (h' | ⟨rfl, -⟩ | ⟨-, m, h'⟩)
          · rw [H.ownO h'] at q3; cases q3
          · rfl
          · rw [H.blkO h'] at q3; cases q3
      · rw [upd_ne _ _ e, upd_ne _ _ e]; exact H.blks q k
    · intro q k sz h1 h2
      simp only at h1 h2
      by_cases e : q = p
      · subst e; rw [H.ownO h1] at q3; cases q3
      · rw [upd_ne _ _ e] at h2; exact H.x1 q k sz h1 h2
    · intro q sz m h1 h2
      simp only at h1
      by_cases e : q = p
      · subst e; rw [H.blkO h2] at q3; cases q3
      · rw [upd_ne _ _ e] at h1; exact H.x3 q sz m h1 h2
    · intro m hm
      simp only at hm
      by_cases e : m = p
      · subst e; rw [upd_same] at hm; cases hm
      · rw [upd_ne _ _ e] at hm; exact H.gone m hm
    · intro m sz hm
      simp only at hm ⊢
      by_cases e : m = p
      · subst e
        rw [upd_same] at hm; cases hm
        obtain ⟨g1, g2, -⟩ := H.gone m hmn
        rw [g1, g2]
        simp only [oRecs, oFree, oBlocks, oNum]
        have e1 : ∀ a b : Nat, a < b → m + a ≠ m + b := by intros; omega
        have e2 : ∀ a b : Nat, b < a → m + a ≠ m + b := by intros; omega
        refine ⟨by simp only [allocSize, listSize, hdr] at hc; omega, ?_, ?_, ?_, ?_, ?_, List.nodup_nil, List.nodup_nil⟩
        · rw [St.set_ne _ (by omega), St.set_ne _ (by omega), St.set_ne _ (by omega), St.set_ne _ (by omega), St.set_same]
        · rw [St.set_ne _ (by omega), St.set_ne _ (by omega), St.set_ne _ (by omega), St.set_same]
          rfl
        · rw [St.set_ne _ (by omega), St.set_ne _ (by omega), St.set_same]
          rfl
        · rw [St.set_ne _ (by omega), St.set_same]
          rfl
        · rw [St.set_same]; rfl
      · rw [upd_ne _ _ e] at hm
        refine (H.mgr m sz hm).congr (fun x hx => keep m 32 (H.mgrO hm) x hx) (fun b hb => keep b 4056 (H.blkO hb) 0 (by omega)) ?_
        intro r hr
        obtain ⟨b, hb, i, hi, e⟩ := (H.slots m sz hm r).1 (Or.inl hr)
        have e1 := slot_in (b := b) hi
        have e2 := (recSize_ge sz).1
        have := keep b 4056 (H.blkO hb) (8 + recSize sz * i) (by omega)
        rw [e, Nat.add_assoc]; exact this
    · intro m sz hm r
      simp only at hm
      by_cases e : m = p
      · subst e
        obtain ⟨g1, g2, g3⟩ := H.gone m hmn
        rw [g1, g2]
        constructor
        · rintro (h' | h')
          · cases h'
          · exact absurd h' (g3 r)
        · rintro ⟨b, hb, -⟩; cases hb
      · rw [upd_ne _ _ e] at hm; exact H.slots m sz hm r
  · intro q k e x hx
    have := sep q k e
    simp only [oRecs, oFree, oBlocks, oNum]
    rw [St.set_ne _ (by omega), St.set_ne _ (by omega), St.set_ne _ (by omega), St.set_ne _ (by omega), St.set_ne _ (by omega)]
    exact q5 q k e x hx

/-! ## A new block for records -/

theorem carveRecs_ok (sz : Nat) : ∀ (k : Nat) (s : St) (p : Nat),
    (carveRecs sz k s p).2 = p + sz * k ∧
    (∀ x, (∀ i, i < k → x ≠ p + sz * i) → (carveRecs sz k s p).1.mem x = s.mem x) ∧
    (0 < sz → ∀ i, i < k → (carveRecs sz k s p).1.mem (p + sz * i) = p + sz * (i + 1)) ∧
    ∀ {O : Nat → Option Nat} {b n : Nat}, From top z ⟨s, O⟩ → O b = some n → b ≤ p → p + sz * k ≤ b + n → 0 < sz →
      From top z ⟨(carveRecs sz k s p).1, O⟩ := by
  intro k
  induction k with
  | zero =>
    intro s p
    exact ⟨by simp [carveRecs], fun x _ => rfl, fun _ i h => by omega, fun R _ _ _ _ => R⟩
  | succ k ih =>
    intro s p
    obtain ⟨h1, h2, h3, h4⟩ := ih (s.set p (p + sz)) (p + sz)
    have hmul : ∀ i, p + sz + sz * i = p + sz * (i + 1) := by intro i; rw [Nat.mul_add, Nat.mul_one]; omega
    unfold carveRecs
    refine ⟨?_, ?_, ?_, ?_⟩
    · rw [h1, hmul]
    · intro x hx
      rw [h2 x (fun i hi => by rw [hmul]; exact hx (i + 1) (by omega)), St.set_ne]
      have := hx 0 (by omega)
      rw [Nat.mul_zero] at this
      omega
    · intro h0 i hi
      cases i with
      | zero =>
        rw [h2 _ (fun j _ => by rw [hmul]; intro e; exact mul_ne h0 (by omega : (0 : Nat) ≠ j + 1) (by omega))]
        rw [Nat.mul_zero, Nat.zero_add, Nat.mul_one]
        exact St.set_same _ _ _
      | succ i =>
        rw [← hmul, h3 h0 i (by omega), hmul]
    · intro O b n R hb l1 l2 h0
      rw [← hmul] at l2
      exact h4 (R.set hb l1 (by omega)) hb (by omega) l2 h0

/-- The places of a block. -/
def places (sz b : Nat) : List Nat := (List.range (4048 / recSize sz)).map fun i => b + 8 + recSize sz * i

theorem mem_places {sz b r : Nat} : r ∈ places sz b ↔ ∃ i, i < 4048 / recSize sz ∧ r = b + 8 + recSize sz * i := by
  unfold places
  simp only [List.mem_map, List.mem_range]
  constructor
  · rintro ⟨i, h1, h2⟩; exact ⟨i, h1, h2.symm⟩
  · rintro ⟨i, h1, h2⟩; exact ⟨i, h1, h2.symm⟩

theorem nodup_places (sz b : Nat) : (places sz b).Nodup := by
  unfold places
  rw [List.Nodup, List.pairwise_map]
  refine List.Pairwise.imp ?_ List.nodup_range
  intro i j hij e
  have := mul_ne (show 0 < recSize sz by have := (recSize_ge sz).1; omega) hij
  omega

theorem linked_places {mem : Nat → Nat} {sz p n : Nat} (h0 : 0 < p)
    (hm : ∀ i, i < n → mem (p + sz * i) = if i + 1 < n then p + sz * (i + 1) else 0) :
    ∀ (k i : Nat), i + k = n → Linked mem (if i < n then p + sz * i else 0) ((List.range' i k).map fun i => p + sz * i) := by
  intro k
  induction k with
  | zero =>
    intro i e
    rw [if_neg (by omega)]
    rfl
  | succ k ih =>
    intro i e
    rw [if_pos (by omega)]
    refine ⟨rfl, by omega, ?_⟩
    rw [hm i (by omega)]
    exact ih (i + 1) (by omega)

theorem RGood.grow (H : RGood top z h O bl fr) {m sz : Nat} (hm : h.mgrs m = some sz) (hf : fr m = []) :
    (newRecBlock top h.s m = .exit ∧ top < h.s.brk + 2 ^ 18) ∨
    ∃ s' b, newRecBlock top h.s m = .ok s' ∧ O b = none ∧
      RGood top z { h with s := s' } (upd O b (some 4056)) (upd bl m (b :: bl m)) (upd fr m (places sz b)) ∧
      ∀ q k, O q = some k → q ≠ m → ∀ x, x < k → s'.mem (q + x) = h.s.mem (q + x) := by
  unfold newRecBlock
  rcases H.reach.get allocSize with ⟨q1, q2⟩ | ⟨s', b, q1, q2, q3, q4, q5⟩
  · left
    simp only at q1 q2
    rw [q1]
    refine ⟨rfl, ?_⟩
    simp only [allocSize, hdr] at q2
    rcases q2 with q2 | q2
    · exact absurd q2 (by decide)
    · omega
  right
  simp only at q1 q3 q4 q5
  have hb0 : b ≠ 0 := fun e => absurd (q2.2 e) (by decide)
  rw [q1]
  have hg : give O b allocSize = upd O b (some 4056) := by unfold give; rw [if_neg hb0]; rfl
  rw [hg] at q4
  have hOb : upd O b (some 4056) b = some 4056 := upd_same _ _ _
  have hne : ∀ q k, O q = some k → q ≠ b := by rintro q k e rfl; rw [q3] at e; cases e
  have hOq : ∀ q k, O q = some k → upd O b (some 4056) q = some k := by
    intro q k e; rw [upd_ne _ _ (hne q k e)]; exact e
  have sep : ∀ q k, O q = some k → q + k ≤ b ∨ b + 4056 ≤ q := fun q k e => C52_disjoint q4.reach (hOq q k e) hOb (hne q k e)
  have M := H.mgr m sz hm
  have hOm := H.mgrO hm
  have hbm := sep m 32 hOm
  obtain ⟨z1, -, -⟩ := recSize_ge sz
  have zR : 1 ≤ 4048 / recSize sz := (Nat.one_le_div_iff (by omega)).2 M.fits
  -- before the carving
  simp only [Out.andThen, oNum, oBlocks, oFree, oRecs, listSize]
  generalize e1 : (((s'.set (m + 24) (s'.mem (m + 24) + 1)).set b ((s'.set (m + 24) (s'.mem (m + 24) + 1)).mem (m + 16))).set
    (m + 16) b).set (m + 8) (b + 8) = s1
  have m0 : s1.mem m = recSize sz := by
    rw [← e1, St.set_ne _ (by omega), St.set_ne _ (by omega), St.set_ne _ (by omega), St.set_ne _ (by omega)]
    exact (q5 m 32 hOm 0 (by omega)).trans M.size
  have m4 : s1.mem (m + 4) = 4048 / recSize sz := by
    rw [← e1, St.set_ne _ (by omega), St.set_ne _ (by omega), St.set_ne _ (by omega), St.set_ne _ (by omega)]
    exact (q5 m 32 hOm 4 (by omega)).trans M.recs
  have m8 : s1.mem (m + 8) = b + 8 := by rw [← e1, St.set_same]
  have m16 : s1.mem (m + 16) = b := by rw [← e1, St.set_ne _ (by omega), St.set_same]
  have m24 : s1.mem (m + 24) = (bl m).length + 1 := by
    rw [← e1, St.set_ne _ (by omega), St.set_ne _ (by omega), St.set_ne _ (by omega), St.set_same,
      q5 m 32 hOm 24 (by omega), M.num]
  have mb : s1.mem b = h.s.mem (m + 16) := by
    rw [← e1, St.set_ne _ (by omega), St.set_ne _ (by omega), St.set_same, St.set_ne _ (by omega), q5 m 32 hOm 16 (by omega)]
  have R1 : From top z ⟨s1, upd O b (some 4056)⟩ := by
    rw [← e1]
    refine (((q4.set (hOq m 32 hOm) ?_ ?_).set hOb ?_ ?_).set (hOq m 32 hOm) ?_ ?_).set (hOq m 32 hOm) ?_ ?_ <;> omega
  have keep1 : ∀ q k, O q = some k → q ≠ m → ∀ x, x < k → s1.mem (q + x) = h.s.mem (q + x) := by
    intro q k e hqm x hx
    have t1 := sep q k e
    have t2 := H.sep e hOm hqm
    rw [← e1, St.set_ne _ (by omega), St.set_ne _ (by omega), St.set_ne _ (by omega), St.set_ne _ (by omega)]
    exact q5 q k e x hx
  rw [m0, m4]
  -- carving
  obtain ⟨c1, c2, c3, c4⟩ := carveRecs_ok (top := top) (z := z) (recSize sz) (4048 / recSize sz - 1) s1 (b + 8)
  have hin : ∀ i, i < 4048 / recSize sz → b + 8 + recSize sz * i + recSize sz ≤ b + 4056 := fun i hi => slot_in hi
  have hlast := hin (4048 / recSize sz - 1) (by omega)
  have R2 := c4 R1 hOb (by omega) (by omega) (by omega)
  rw [c1]
  generalize carveRecs (recSize sz) (4048 / recSize sz - 1) s1 (b + 8) = c at c1 c2 c3 R2
  have R3 : From top z ⟨c.1.set (b + 8 + recSize sz * (4048 / recSize sz - 1)) 0, upd O b (some 4056)⟩ :=
    R2.set hOb (by omega) (by omega)
  have out : ∀ x, (x < b + 8 ∨ b + 4056 ≤ x) → (c.1.set (b + 8 + recSize sz * (4048 / recSize sz - 1)) 0).mem x = s1.mem x := by
    intro x hx
    rw [St.set_ne _ (by omega)]
    refine c2 x fun i hi => ?_
    have := hin i (by omega)
    omega
  have inn : ∀ i, i < 4048 / recSize sz → (c.1.set (b + 8 + recSize sz * (4048 / recSize sz - 1)) 0).mem (b + 8 + recSize sz * i) =
      if i + 1 < 4048 / recSize sz then b + 8 + recSize sz * (i + 1) else 0 := by
    intro i hi
    by_cases hl : i + 1 < 4048 / recSize sz
    · rw [if_pos hl, St.set_ne]
      · exact c3 (by omega) i (by omega)
      · have := mul_ne (show 0 < recSize sz by omega) (show i ≠ 4048 / recSize sz - 1 by omega)
        omega
    · rw [if_neg hl, show 4048 / recSize sz - 1 = i by omega, St.set_same]
  generalize c.1.set (b + 8 + recSize sz * (4048 / recSize sz - 1)) 0 = s2 at R3 out inn
  have keep : ∀ q k, O q = some k → q ≠ m → ∀ x, x < k → s2.mem (q + x) = h.s.mem (q + x) := by
    intro q k e hqm x hx
    have t1 := sep q k e
    rw [out _ (by omega)]
    exact keep1 q k e hqm x hx
  have hbl : ∀ m', b ∉ bl m' := fun m' hb' => by rw [H.blkO hb'] at q3; cases q3
  have hmem : ∀ m' q, q ∈ upd bl m (b :: bl m) m' ↔ (m' = m ∧ q = b) ∨ q ∈ bl m' := by
    intro m' q
    by_cases e : m' = m
    · subst e; rw [upd_same]; simp
    · rw [upd_ne _ _ e]; simp [e]
  refine ⟨s2, b, rfl, q3, ⟨R3, ?_, H.x1, ?_, ?_, ?_, ?_, ?_, ?_, ?_⟩, keep⟩
  · intro q k
    simp only [hmem]
    by_cases e : q = b
    · subst e
      rw [upd_same]
      constructor
      · intro e; cases e; exact Or.inr (Or.inr ⟨rfl, m, Or.inl ⟨rfl, rfl⟩⟩)
      · rintro (h' | ⟨-, sz', h'⟩ | ⟨rfl, -⟩)
        · rw [H.ownO h'] at q3; cases q3
        · rw [H.mgrO h'] at q3; cases q3
        · rfl
    · rw [upd_ne _ _ e]
      simp only [e, and_false, false_or]
      exact H.blks q k
  · intro p n m' h1 h2
    rw [hmem] at h2
    rcases h2 with ⟨-, rfl⟩ | h2
    · rw [H.ownO h1] at q3; cases q3
    · exact H.x2 p n m' h1 h2
  · intro p sz' m' h1 h2
    rw [hmem] at h2
    rcases h2 with ⟨-, rfl⟩ | h2
    · rw [H.mgrO h1] at q3; cases q3
    · exact H.x3 p sz' m' h1 h2
  · intro p m1 m2 h1 h2
    rw [hmem] at h1 h2
    rcases h1 with ⟨rfl, rfl⟩ | h1
    · rcases h2 with ⟨rfl, -⟩ | h2
      · rfl
      · exact absurd h2 (hbl _)
    · rcases h2 with ⟨rfl, rfl⟩ | h2
      · exact absurd h1 (hbl _)
      · exact H.x4 p m1 m2 h1 h2
  · intro m' hm'
    simp only at hm'
    have e : m' ≠ m := by rintro rfl; rw [hm] at hm'; cases hm'
    rw [upd_ne _ _ e, upd_ne _ _ e]
    exact H.gone m' hm'
  · intro m' sz' hm'
    simp only at hm' ⊢
    by_cases e : m' = m
    · subst e
      rw [hm] at hm'; cases hm'
      rw [upd_same, upd_same]
      refine ⟨M.fits, ?_, ?_, ?_, ?_, ?_, List.nodup_cons.2 ⟨hbl _, M.ndb⟩, nodup_places _ _⟩
      · rw [out _ (by omega), m0]
      · rw [out _ (by omega), m4]
      · rw [out _ (by omega), m8]
        have := linked_places (mem := s2.mem) (sz := recSize sz) (p := b + 8) (n := 4048 / recSize sz) (by omega) inn (4048 / recSize sz) 0 (by omega)
        rw [if_pos (by omega), Nat.mul_zero, Nat.add_zero, ← List.range_eq_range'] at this
        exact this
      · rw [out _ (by omega), m16]
        refine ⟨rfl, hb0, ?_⟩
        rw [out _ (by omega), mb]
        refine M.blocks.congr fun b' hb' => ?_
        exact keep b' 4056 (H.blkO hb') (fun e => H.x3 _ _ _ hm (e ▸ hb')) 0 (by omega)
      · rw [out _ (by omega), m24]; rfl
    · rw [upd_ne _ _ e, upd_ne _ _ e]
      refine (H.mgr m' sz' hm').congr (fun x hx => keep m' 32 (H.mgrO hm') e x hx) ?_ ?_
      · intro b' hb'
        exact keep b' 4056 (H.blkO hb') (fun e => H.x3 _ _ _ hm (e ▸ hb')) 0 (by omega)
      · intro r hr
        obtain ⟨b', hb', i, hi, e'⟩ := (H.slots m' sz' hm' r).1 (Or.inl hr)
        have w1 := slot_in (b := b') hi
        have w2 := (recSize_ge sz').1
        have := keep b' 4056 (H.blkO hb') (fun e => H.x3 _ _ _ hm (e ▸ hb')) (8 + recSize sz' * i) (by omega)
        rw [e', Nat.add_assoc]; exact this
  · intro m' sz' hm' r
    simp only at hm' ⊢
    by_cases e : m' = m
    · subst e
      rw [hm] at hm'; cases hm'
      rw [upd_same, upd_same]
      constructor
      · rintro (h' | h')
        · obtain ⟨i, hi, e⟩ := mem_places.1 h'
          exact ⟨b, List.mem_cons_self, i, hi, e⟩
        · obtain ⟨b', hb', i, hi, e⟩ := (H.slots m' sz hm r).1 (Or.inr h')
          exact ⟨b', List.mem_cons_of_mem _ hb', i, hi, e⟩
      · rintro ⟨b', hb', i, hi, e⟩
        rcases List.mem_cons.1 hb' with rfl | hb'
        · exact Or.inl (mem_places.2 ⟨i, hi, e⟩)
        · have := (H.slots m' sz hm r).2 ⟨b', hb', i, hi, e⟩
          rw [hf] at this
          rcases this with h' | h'
          · cases h'
          · exact Or.inr h'
    · rw [upd_ne _ _ e, upd_ne _ _ e]
      exact H.slots m' sz' hm' r
  · intro m' r hr hr'
    simp only at hr'
    by_cases e : m' = m
    · subst e
      rw [upd_same] at hr
      obtain ⟨i, hi, e⟩ := mem_places.1 hr
      obtain ⟨b', hb', j, hj, e'⟩ := (H.slots m' sz hm r).1 (Or.inr hr')
      have w1 := hin i hi
      have w2 := slot_in (b := b') hj
      have := sep b' 4056 (H.blkO hb')
      omega
    · rw [upd_ne _ _ e] at hr
      exact H.apart m' r hr hr'

/-! ## Taking a record, and giving it back -/

/-- A write to the list of free records of a manager, and perhaps to one of its records. -/
theorem RGood.relist (H : RGood top z h O bl fr) {m sz : Nat} (hm : h.mgrs m = some sz) {s' : St} {fr' : List Nat}
    {recs' : Nat → Option Nat} (R : From top z ⟨s', O⟩)
    (hk : ∀ x, x ≠ m + 8 → (∀ r, Slot sz (bl m) r → h.recs r = some m → x ≠ r) → s'.mem x = h.s.mem x)
    (hl : Linked s'.mem (s'.mem (m + 8)) fr') (nd : fr'.Nodup)
    (hs : ∀ r, (r ∈ fr' ∨ recs' r = some m) ↔ (r ∈ fr m ∨ h.recs r = some m))
    (ha : ∀ r, r ∈ fr' → recs' r ≠ some m) (ho : ∀ r m', m' ≠ m → (recs' r = some m' ↔ h.recs r = some m')) :
    RGood top z { h with s := s', recs := recs' } O bl (upd fr m fr') := by
  have hOm := H.mgrO hm
  -- what the writes do not touch
  have keepM : ∀ m' sz' x, h.mgrs m' = some sz' → x < 32 → (m' = m → x ≠ 8) → s'.mem (m' + x) = h.s.mem (m' + x) := by
    intro m' sz' x hm' hx h8
    refine hk _ ?_ ?_
    · by_cases e : m' = m
      · subst e; have := h8 rfl; omega
      · have := H.sep (H.mgrO hm') hOm e; omega
    · intro r hr _
      have := H.slot_out hr (H.mgrO hm') fun hb => H.x3 _ _ _ hm' hb
      have := (recSize_ge sz).1
      omega
  have keepB : ∀ m' b, b ∈ bl m' → s'.mem b = h.s.mem b := by
    intro m' b hb
    refine hk _ ?_ ?_
    · have := H.sep (H.blkO hb) hOm fun e => H.x3 _ _ _ hm (e ▸ hb)
      omega
    · intro r hr _
      obtain ⟨b', hb', i, hi, rfl⟩ := hr
      have w := slot_in (b := b') hi
      by_cases e : b = b'
      · subst e; omega
      · have := H.sep (H.blkO hb) (H.blkO hb') e
        have := (recSize_ge sz).1
        omega
  have keepF : ∀ m' r, m' ≠ m → r ∈ fr m' → s'.mem r = h.s.mem r := by
    intro m' r hne hr
    obtain ⟨sz', hm'⟩ := H.liveF hr
    have hs' := (H.slots m' sz' hm' r).1 (Or.inl hr)
    have z0 := (recSize_ge sz').1
    refine hk _ ?_ ?_
    · have := H.slot_out hs' hOm fun hb => H.x3 _ _ _ hm hb
      omega
    · intro r' hr' _ e
      subst e
      obtain ⟨b, hb, i, hi, e1⟩ := hr'
      obtain ⟨b', hb', i', hi', e2⟩ := hs'
      have w1 := slot_in (b := b) hi
      have w2 := slot_in (b := b') hi'
      have z' := (recSize_ge sz).1
      by_cases e : b = b'
      · subst e; exact hne (H.x4 _ _ _ hb' hb)
      · have := H.sep (H.blkO hb) (H.blkO hb') e
        omega
  refine ⟨R, H.blks, H.x1, H.x2, H.x3, H.x4, ?_, ?_, ?_, ?_⟩
  · intro m' hm'
    simp only at hm' ⊢
    have e : m' ≠ m := by rintro rfl; rw [hm] at hm'; cases hm'
    rw [upd_ne _ _ e]
    obtain ⟨g1, g2, g3⟩ := H.gone m' hm'
    exact ⟨g1, g2, fun r hr => g3 r ((ho r m' e).1 hr)⟩
  · intro m' sz' hm'
    simp only at hm' ⊢
    by_cases e : m' = m
    · subst e
      rw [hm] at hm'; cases hm'
      rw [upd_same]
      have M := H.mgr m' sz hm
      have k0 := keepM m' sz 0 hm (by omega) (by omega)
      refine ⟨M.fits, k0.trans M.size, ?_, hl, ?_, ?_, M.ndb, nd⟩
      · rw [keepM m' sz 4 hm (by omega) (by omega)]; exact M.recs
      · rw [keepM m' sz 16 hm (by omega) (by omega)]; exact M.blocks.congr fun b hb => keepB m' b hb
      · rw [keepM m' sz 24 hm (by omega) (by omega)]; exact M.num
    · rw [upd_ne _ _ e]
      exact (H.mgr m' sz' hm').congr (fun x hx => keepM m' sz' x hm' hx fun h => absurd h e) (fun b hb => keepB m' b hb)
        fun r hr => keepF m' r e hr
  · intro m' sz' hm' r
    simp only at hm' ⊢
    by_cases e : m' = m
    · subst e
      rw [hm] at hm'; cases hm'
      rw [upd_same]
      exact (hs r).trans (H.slots m' sz hm r)
    · rw [upd_ne _ _ e]
      have := H.slots m' sz' hm' r
      rw [← this]
      constructor
      · rintro (h' | h')
        · exact Or.inl h'
        · exact Or.inr ((ho r m' e).1 h')
      · rintro (h' | h')
        · exact Or.inl h'
        · exact Or.inr ((ho r m' e).2 h')
  · intro m' r hr
    simp only
    by_cases e : m' = m
    · subst e; rw [upd_same] at hr; exact ha r hr
    · rw [upd_ne _ _ e] at hr
      exact fun h' => H.apart m' r hr ((ho r m' e).1 h')

theorem RGood.rec_slot (H : RGood top z h O bl fr) {m sz r : Nat} (hm : h.mgrs m = some sz) (hr : h.recs r = some m) :
    Slot sz (bl m) r := (H.slots m sz hm r).1 (Or.inr hr)

/-- Of two managers, only one has a place. -/
theorem RGood.slot_one (H : RGood top z h O bl fr) {m m' sz sz' r : Nat} (h1 : Slot sz (bl m) r) (h2 : Slot sz' (bl m') r) : m = m' := by
  obtain ⟨b, hb, i, hi, e1⟩ := h1
  obtain ⟨b', hb', i', hi', e2⟩ := h2
  have w1 := slot_in (b := b) hi
  have w2 := slot_in (b := b') hi'
  have z0 := (recSize_ge sz).1
  have z' := (recSize_ge sz').1
  by_cases e : b = b'
  · subst e; exact H.x4 _ _ _ hb hb'
  · have := H.sep (H.blkO hb) (H.blkO hb') e
    omega

theorem RGood.take (H : RGood top z h O bl fr) {m sz r : Nat} {l : List Nat} (hm : h.mgrs m = some sz) (hf : fr m = r :: l) :
    takeRec h.s m = ((h.s.set (m + 8) (h.s.mem r)), r) ∧ r ≠ 0 ∧ h.s.mem (m + 8) = r ∧
    RGood top z { h with s := h.s.set (m + 8) (h.s.mem r), recs := upd h.recs r (some m) } O bl (upd fr m l) := by
  have M := H.mgr m sz hm
  have L := M.free
  have ND := M.ndf
  rw [hf] at L ND
  obtain ⟨l1, l2, l3⟩ := L
  have nd := List.nodup_cons.1 ND
  have hrf : r ∈ fr m := by rw [hf]; exact List.mem_cons_self
  have hsl : ∀ r', r' ∈ fr m → Slot sz (bl m) r' := fun r' h' => (H.slots m sz hm r').1 (Or.inl h')
  refine ⟨?_, by omega, l1, ?_⟩
  · unfold takeRec; simp only [oFree]; rw [l1]
  refine H.relist hm (H.reach.set (H.mgrO hm) (by omega) (by omega)) ?_ ?_ nd.2 ?_ ?_ ?_
  · intro x hx _; exact St.set_ne _ hx
  · rw [St.set_same]
    refine l3.congr fun r' hr' => St.set_ne _ ?_
    have := H.slot_out (hsl r' (by rw [hf]; exact List.mem_cons_of_mem _ hr')) (H.mgrO hm) fun hb => H.x3 _ _ _ hm hb
    have := (recSize_ge sz).1
    omega
  · intro r'
    rw [hf]
    by_cases e : r' = r
    · subst e; rw [upd_same]; simp
    · rw [upd_ne _ _ e]; simp [e]
  · intro r' hr'
    have e : r' ≠ r := by rintro rfl; exact nd.1 hr'
    rw [upd_ne _ _ e]
    exact H.apart m r' (by rw [hf]; exact List.mem_cons_of_mem _ hr')
  · intro r' m' hne
    by_cases e : r' = r
    · subst e
      rw [upd_same]
      constructor
      · intro h'; cases h'; exact absurd rfl hne
      · intro h'
        obtain ⟨sz', hm'⟩ := H.liveR h'
        exact absurd (H.slot_one (H.rec_slot hm' h') (hsl r' hrf)) hne
    · rw [upd_ne _ _ e]

theorem RGood.freeRec (H : RGood top z h O bl fr) {m sz r : Nat} (hm : h.mgrs m = some sz) (hr : h.recs r = some m) :
    RGood top z { h with s := Mem.freeRec h.s m r, recs := upd h.recs r none } O bl (upd fr m (r :: fr m)) := by
  have M := H.mgr m sz hm
  have hs := H.rec_slot hm hr
  have z0 := (recSize_ge sz).1
  have ho := H.slot_out hs (H.mgrO hm) fun hb => H.x3 _ _ _ hm hb
  have hnf : r ∉ fr m := fun h' => H.apart m r h' hr
  have hr0 : r ≠ 0 := by obtain ⟨b, hb, i, hi, e⟩ := hs; omega
  unfold Mem.freeRec
  simp only [oFree]
  have R : From top z ⟨(h.s.set r (h.s.mem (m + 8))).set (m + 8) r, O⟩ := by
    obtain ⟨b, hb, i, hi, e⟩ := hs
    have w := slot_in (b := b) hi
    exact (H.reach.set (H.blkO hb) (by omega) (by omega)).set (H.mgrO hm) (by omega) (by omega)
  refine H.relist hm R ?_ ?_ (List.nodup_cons.2 ⟨hnf, M.ndf⟩) ?_ ?_ ?_
  · intro x hx h'
    rw [St.set_ne _ hx, St.set_ne _ (h' r hs hr)]
  · rw [St.set_same]
    refine ⟨rfl, hr0, ?_⟩
    rw [St.set_ne _ (by omega), St.set_same]
    refine M.free.congr fun r' hr' => ?_
    have hs' := (H.slots m sz hm r').1 (Or.inl hr')
    have := H.slot_out hs' (H.mgrO hm) fun hb => H.x3 _ _ _ hm hb
    rw [St.set_ne _ (by omega), St.set_ne]
    rintro rfl; exact hnf hr'
  · intro r'
    by_cases e : r' = r
    · subst e; simp [hr]
    · rw [upd_ne _ _ e]; simp [e]
  · intro r' hr'
    rcases List.mem_cons.1 hr' with rfl | h2
    · rw [upd_same]; exact fun h => nomatch h
    · have e : r' ≠ r := by rintro rfl; exact hnf h2
      rw [upd_ne _ _ e]
      exact H.apart m r' h2
  · intro r' m' hne
    by_cases e : r' = r
    · subst e
      rw [upd_same, hr]
      constructor
      · intro h'; cases h'
      · intro h'; cases h'; exact absurd rfl hne
    · rw [upd_ne _ _ e]

/-- Writing in a record that is held. -/
theorem RGood.write (H : RGood top z h O bl fr) {m sz r x v : Nat} (hm : h.mgrs m = some sz) (hr : h.recs r = some m)
    (h1 : r ≤ x) (h2 : x < r + recSize sz) : RGood top z { h with s := h.s.set x v } O bl fr := by
  have hs := H.rec_slot hm hr
  have R : From top z ⟨h.s.set x v, O⟩ := by
    obtain ⟨b, hb, i, hi, e⟩ := hs
    have w := slot_in (b := b) hi
    exact H.reach.set (H.blkO hb) (by omega) (by omega)
  have keepM : ∀ m' sz' y, h.mgrs m' = some sz' → y < 32 → (h.s.set x v).mem (m' + y) = h.s.mem (m' + y) := by
    intro m' sz' y hm' hy
    have := H.slot_out hs (H.mgrO hm') fun hb => H.x3 _ _ _ hm' hb
    exact St.set_ne _ (by omega)
  have keepB : ∀ m' b, b ∈ bl m' → (h.s.set x v).mem b = h.s.mem b := by
    intro m' b hb
    refine St.set_ne _ ?_
    obtain ⟨b', hb', i, hi, e⟩ := hs
    have w := slot_in (b := b') hi
    by_cases e : b = b'
    · subst e; omega
    · have := H.sep (H.blkO hb) (H.blkO hb') e; omega
  have keepF : ∀ m' r', r' ∈ fr m' → (h.s.set x v).mem r' = h.s.mem r' := by
    intro m' r' hr'
    obtain ⟨sz', hm'⟩ := H.liveF hr'
    have hs' := (H.slots m' sz' hm' r').1 (Or.inl hr')
    have hne : r ≠ r' := by
      rintro rfl
      have := H.slot_one hs hs'
      subst this
      exact H.apart m r hr' hr
    have := H.slot_sep hm hm' hs hs' hne
    have := (recSize_ge sz').1
    exact St.set_ne _ (by omega)
  exact ⟨R, H.blks, H.x1, H.x2, H.x3, H.x4, H.gone, fun m' sz' hm' => (H.mgr m' sz' hm').congr
    (fun y hy => keepM m' sz' y hm' hy) (fun b hb => keepB m' b hb) (fun r' hr' => keepF m' r' hr'), H.slots, H.apart⟩

/-! ## The end of a manager -/

theorem freeBlocks_ok : ∀ (l : List Nat) {k : Nat} {s : St} {O : Nat → Option Nat} {p : Nat}, From top z ⟨s, O⟩ →
    Linked s.mem p l → l.Nodup → (∀ b ∈ l, O b = some 4056) → l.length ≤ k →
    ∃ s', freeBlocks k s p = .ok s' ∧ From top z ⟨s', fun q => if q ∈ l then none else O q⟩ ∧ s'.brk = s.brk ∧ s'.got = s.got ∧
      ∀ q n, q ∉ l → O q = some n → ∀ x, x < n → s'.mem (q + x) = s.mem (q + x) := by
  intro l
  induction l with
  | nil =>
    intro k s O p R L _ _ _
    refine ⟨s, ?_, by simpa using R, rfl, rfl, fun _ _ _ _ _ _ => rfl⟩
    have : p = 0 := L
    unfold freeBlocks
    rw [if_pos this]
  | cons b l ih =>
    intro k s O p R L nd hO hk
    obtain ⟨rfl, l2, l3⟩ := L
    obtain ⟨n1, n2⟩ := List.nodup_cons.1 nd
    cases k with
    | zero => cases hk
    | succ k =>
      obtain ⟨s1, f1, f2, f3, f4, f5⟩ := R.free (hO p List.mem_cons_self)
      simp only at f1 f2 f3 f5
      have hne : ∀ b ∈ l, b ≠ p := by rintro b hb rfl; exact n1 hb
      have L1 : Linked s1.mem (s.mem p) l := l3.congr fun b hb =>
        f5 b 4056 (hne b hb) (hO b (List.mem_cons_of_mem _ hb)) 0 (by omega)
      obtain ⟨s2, g1, g2, g3, g4, g5⟩ := ih (k := k) f4 L1 n2
        (fun b hb => by rw [upd_ne _ _ (hne b hb)]; exact hO b (List.mem_cons_of_mem _ hb)) (by simp only [List.length_cons] at hk; omega)
      refine ⟨s2, ?_, ?_, g3.trans f2, g4.trans f3, ?_⟩
      · unfold freeBlocks
        rw [if_neg l2]
        simp only [f1, Out.andThen]
        exact g1
      · have e : (fun q => if q ∈ l then none else upd O p none q) = fun q => if q ∈ p :: l then none else O q := by
          funext q
          by_cases e : q = p
          · subst e; rw [upd_same]; simp
          · rw [upd_ne _ _ e]; simp [e]
        rw [← e]; exact g2
      · intro q n hq hn x hx
        simp only [List.mem_cons, not_or] at hq
        rw [g5 q n hq.2 (by rw [upd_ne _ _ hq.1]; exact hn) x hx]
        exact f5 q n hq.1 hn x hx

theorem RGood.freeMgr (H : RGood top z h O bl fr) {m sz : Nat} (hm : h.mgrs m = some sz) :
    ∃ s', freeRecMgr h.s m = .ok s' ∧ s'.brk = h.s.brk ∧ s'.got = h.s.got ∧
      RGood top z { h with s := s', mgrs := upd h.mgrs m none, recs := fun r => if h.recs r = some m then none else h.recs r }
        (fun q => if q = m ∨ q ∈ bl m then none else O q) (upd bl m []) (upd fr m []) ∧
      ∀ q n, q ≠ m → q ∉ bl m → O q = some n → ∀ x, x < n → s'.mem (q + x) = h.s.mem (q + x) := by
  have M := H.mgr m sz hm
  have hmb : m ∉ bl m := fun hb => H.x3 _ _ _ hm hb
  obtain ⟨s1, f1, f2, f3, f4, f5⟩ := freeBlocks_ok (bl m) (k := h.s.mem (m + 24)) H.reach M.blocks M.ndb
    (fun b hb => H.blkO hb) (by rw [M.num]; exact Nat.le_refl _)
  have hO1 : (fun q => if q ∈ bl m then none else O q) m = some 32 := by simp only; rw [if_neg hmb]; exact H.mgrO hm
  obtain ⟨s2, g1, g2, g3, g4, g5⟩ := f2.free hO1
  simp only at g1 g2 g3 g5
  have keep : ∀ q n, q ≠ m → q ∉ bl m → O q = some n → ∀ x, x < n → s2.mem (q + x) = h.s.mem (q + x) := by
    intro q n h1 h2 h3 x hx
    rw [g5 q n h1 (by rw [if_neg h2]; exact h3) x hx]
    exact f5 q n h2 h3 x hx
  have eO : upd (fun q => if q ∈ bl m then none else O q) m none = fun q => if q = m ∨ q ∈ bl m then none else O q := by
    funext q
    by_cases e : q = m
    · subst e; rw [upd_same]; simp
    · rw [upd_ne _ _ e]; simp [e]
  rw [eO] at g4
  have hbm : ∀ m' b, m' ≠ m → b ∈ bl m' → b ∉ bl m := fun m' b hne hb hb' => hne (H.x4 _ _ _ hb hb')
  refine ⟨s2, ?_, g2.trans f3, g3.trans f4, ⟨g4, ?_, ?_, ?_, ?_, ?_, ?_, ?_, ?_, ?_⟩, keep⟩
  · unfold freeRecMgr
    simp only [oNum, oBlocks, f1, Out.andThen]
    exact g1
  · intro q k
    simp only
    by_cases e : q = m
    · subst e
      rw [if_pos (Or.inl rfl), upd_same]
      constructor
      · intro h'; cases h'
      · rintro (h' | ⟨-, sz', h'⟩ | ⟨-, m', h'⟩)
        · exact (H.x1 _ _ _ h' hm).elim
        · cases h'
        · by_cases e : m' = q
          · subst e; rw [upd_same] at h'; cases h'
          · rw [upd_ne _ _ e] at h'; exact (H.x3 _ _ _ hm h').elim
    · rw [upd_ne _ _ e]
      by_cases hb : q ∈ bl m
      · rw [if_pos (Or.inr hb)]
        constructor
        · intro h'; cases h'
        · rintro (h' | ⟨-, sz', h'⟩ | ⟨-, m', h'⟩)
          · exact (H.x2 _ _ _ h' hb).elim
          · exact (H.x3 _ _ _ h' hb).elim
          · by_cases e : m' = m
            · subst e; rw [upd_same] at h'; cases h'
            · rw [upd_ne _ _ e] at h'; exact absurd hb (hbm _ _ e h')
      · rw [if_neg (by simp [e, hb]), H.blks q k]
        have : (∃ m', q ∈ bl m') ↔ ∃ m', q ∈ upd bl m [] m' := by
          constructor
          · rintro ⟨m', h'⟩
            refine ⟨m', ?_⟩
            rw [upd_ne _ _ (by rintro rfl; exact hb h')]; exact h'
          · rintro ⟨m', h'⟩
            by_cases e : m' = m
            · subst e; rw [upd_same] at h'; cases h'
            · rw [upd_ne _ _ e] at h'; exact ⟨m', h'⟩
        rw [this]
  · intro p n sz' h1 h2
    simp only at h1 h2
    by_cases e : p = m
    · subst e; rw [upd_same] at h2; cases h2
    · rw [upd_ne _ _ e] at h2; exact H.x1 _ _ _ h1 h2
  · intro p n m' h1 h2
    by_cases e : m' = m
    · subst e; rw [upd_same] at h2; cases h2
    · rw [upd_ne _ _ e] at h2; exact H.x2 _ _ _ h1 h2
  · intro p sz' m' h1 h2
    simp only at h1
    by_cases e : p = m
    · subst e; rw [upd_same] at h1; cases h1
    · rw [upd_ne _ _ e] at h1
      by_cases e : m' = m
      · subst e; rw [upd_same] at h2; cases h2
      · rw [upd_ne _ _ e] at h2; exact H.x3 _ _ _ h1 h2
  · intro p m1 m2 h1 h2
    by_cases e1 : m1 = m
    · subst e1; rw [upd_same] at h1; cases h1
    · by_cases e2 : m2 = m
      · subst e2; rw [upd_same] at h2; cases h2
      · rw [upd_ne _ _ e1] at h1; rw [upd_ne _ _ e2] at h2; exact H.x4 _ _ _ h1 h2
  · intro m' hm'
    simp only at hm' ⊢
    by_cases e : m' = m
    · subst e
      rw [upd_same, upd_same]
      refine ⟨rfl, rfl, fun r => ?_⟩
      split
      · exact fun h => nomatch h
      · assumption
    · rw [upd_ne _ _ e] at hm'
      rw [upd_ne _ _ e, upd_ne _ _ e]
      obtain ⟨a1, a2, a3⟩ := H.gone m' hm'
      refine ⟨a1, a2, fun r => ?_⟩
      split
      · exact fun h => nomatch h
      · exact a3 r
  · intro m' sz' hm'
    simp only at hm' ⊢
    have e : m' ≠ m := by rintro rfl; rw [upd_same] at hm'; cases hm'
    rw [upd_ne _ _ e] at hm'
    rw [upd_ne _ _ e, upd_ne _ _ e]
    refine (H.mgr m' sz' hm').congr (fun x hx => keep m' 32 e (fun hb => H.x3 _ _ _ hm' hb) (H.mgrO hm') x hx) ?_ ?_
    · intro b hb
      exact keep b 4056 (fun e => H.x3 _ _ _ hm (e ▸ hb)) (hbm _ _ e hb) (H.blkO hb) 0 (by omega)
    · intro r hr
      obtain ⟨b, hb, i, hi, e'⟩ := (H.slots m' sz' hm' r).1 (Or.inl hr)
      have w1 := slot_in (b := b) hi
      have w2 := (recSize_ge sz').1
      have := keep b 4056 (fun e => H.x3 _ _ _ hm (e ▸ hb)) (hbm _ _ e hb) (H.blkO hb) (8 + recSize sz' * i) (by omega)
      rw [e', Nat.add_assoc]; exact this
  · intro m' sz' hm' r
    simp only at hm' ⊢
    have e : m' ≠ m := by rintro rfl; rw [upd_same] at hm'; cases hm'
    rw [upd_ne _ _ e] at hm'
    rw [upd_ne _ _ e, upd_ne _ _ e, ← H.slots m' sz' hm' r]
    by_cases hrm : h.recs r = some m
    · rw [if_pos hrm, hrm]
      simp only [Option.some.injEq, Ne.symm e, reduceCtorEq]
    · rw [if_neg hrm]
  · intro m' r hr
    simp only
    by_cases e : m' = m
    · subst e; rw [upd_same] at hr; cases hr
    · rw [upd_ne _ _ e] at hr
      split
      · exact fun h => nomatch h
      · exact H.apart m' r hr

end

end Cal.Mem
