import Verif.MemStep

/-!
# The functions of the block allocator
-/

namespace Cal.Mem

/-- The invariant between calls. -/
structure Good (s : St) (G : Gh) : Prop where
  inv : Inv s G
  lim : Lim s G
  noLoose : NoLoose G

namespace Inv

variable {s : St} {G : Gh}

theorem lim_out (I : Inv s G) (hl : Lim s G) {s' : St} {G' : Gh} (hs : G'.seg = G.seg)
    (h : ∀ x, Out G x → s'.mem x = s.mem x) : Lim s' G' := by
  intro g L hg
  rw [hs] at hg
  obtain ⟨h1, h2⟩ := hl g L hg
  refine ⟨?_, h2⟩
  rw [h _ (I.out_seg hg (by decide))]; exact h1

theorem remove_ev (I : Inv s G) {a k g} (ha : G.blk a = some ⟨k, .free, g⟩) {s' : St} {fl : Nat → List Nat}
    (h : ∀ x, Out G x → s'.mem x = s.mem x) :
    Ev (fun _ => False) (fun c => c = a) s G s' ⟨upd G.blk a (some ⟨k, .used, g⟩), G.seg, fl⟩ := by
  constructor
  · intro c b hc hu _
    have hne : c ≠ a := by rintro rfl; rw [ha] at hc; cases hc; cases hu
    exact ⟨by simp only [upd_ne _ _ hne]; exact hc, fun x l1 l2 => h x (I.out_pay hc l1 l2)⟩
  · intro c b hc hu hne
    simp only [upd_ne _ _ hne] at hc
    exact ⟨hc, fun h => h⟩
  · refine Sol.sub (fun g L h => ⟨L, h, Nat.le_refl _⟩) fun g L c j _ _ hc => ?_
    by_cases e : c = a
    · subst e; simp only [upd_same] at hc; cases hc
    · simp only [upd_ne _ _ e] at hc; exact hc

theorem add_ev (I : Inv s G) {a k st g} (ha : G.blk a = some ⟨k, st, g⟩) {s' : St} {fl : Nat → List Nat}
    (h : ∀ x, Out G x → s'.mem x = s.mem x) (hb : ∀ d, BuddyOf g k a d → G.blk d = some ⟨k, .free, g⟩ → False) :
    Ev (fun c => c = a) (fun _ => False) s G s' ⟨upd G.blk a (some ⟨k, .free, g⟩), G.seg, fl⟩ := by
  constructor
  · intro c b hc hu hne
    exact ⟨by simp only [upd_ne _ _ hne]; exact hc, fun x l1 l2 => h x (I.out_pay hc l1 l2)⟩
  · intro c b hc hu _
    have hne : c ≠ a := by rintro rfl; simp only [upd_same] at hc; cases hc; cases hu
    simp only [upd_ne _ _ hne] at hc
    exact ⟨hc, hne⟩
  · refine Sol.new (g₀ := g) (a₀ := a) (k₀ := k) rfl ?_ ?_
    · intro c j g' hc
      by_cases e : c = a
      · subst e; simp only [upd_same] at hc; cases hc; exact Or.inr ⟨rfl, rfl, rfl⟩
      · simp only [upd_ne _ _ e] at hc; exact Or.inl hc
    · intro d hB hd
      have e : d ≠ a := by
        have := Nat.two_pow_pos k
        rcases hB with ⟨q, -⟩ | ⟨q, -⟩ <;> omega
      simp only [upd_ne _ _ e] at hd
      exact hb d hB hd

theorem trim_ok : ∀ (fuel d : Nat) {s : St} {G : Gh} {a i g : Nat}, d < fuel → Inv s G → Lim s G →
    G.blk a = some ⟨i + d, .used, g⟩ → 6 ≤ i →
    ∃ s' G', trim fuel s a i = some s' ∧ Inv s' G' ∧ Lim s' G' ∧ Rest s s' ∧
      Ev (fun c => c = a) (fun c => c = a) s G s' G' ∧ G'.blk a = some ⟨i, .used, g⟩ ∧
      (NoLoose G → NoLoose G') ∧ (∀ x, a + 40 ≤ x → x < a + 2 ^ i → s'.mem x = s.mem x) ∧
      (∀ c b, G.blk c = some b → b.st = .free → G'.blk c = some b) := by
  intro fuel
  induction fuel with
  | zero => intro d s G a i g h; omega
  | succ fuel ih =>
    intro d s G a i g hd I hl ha hi
    unfold trim
    have hk := (I.hdr _ _ ha).1
    simp only at hk
    rw [hk]
    cases d with
    | zero =>
      rw [if_neg (by omega)]
      refine ⟨s, G, rfl, I, hl, Rest.refl s, ⟨fun c b hc hu hne => ⟨hc, fun _ _ _ => rfl⟩, fun c b hc hu hne => ⟨hc, hne⟩, Sol.refl G⟩,
        by simpa using ha, fun h => h, fun _ _ _ => rfl, fun c b h _ => h⟩
    | succ d =>
      rw [if_pos (by omega)]
      have ha' : G.blk a = some ⟨(i + d) + 1, .used, g⟩ := ha
      obtain ⟨-, h62, L, hs, h1, h2, h3⟩ := I.shape _ _ ha'
      simp only at h62 hs h1 h2 h3
      obtain ⟨-, e2, -, -⟩ := I.hdr _ _ ha'
      simp only at e2
      have eg := (I.segm _ _ hs).2.2.1
      obtain ⟨el, -⟩ := hl _ _ hs
      have p2 := pow_two (i + d)
      have pk : 64 ≤ 2 ^ (i + d) := pow_ge (by omega)
      have so := I.seg_out hs ha'
      simp only at so
      have eK : i + (d + 1) - 1 = i + d := by omega
      rw [eK]
      -- the buddy
      have f1 : (s.set (a + oSize) (i + d)).mem (a + oSeg) = g := by
        show upd _ _ _ _ = _
        rw [upd_ne _ _ (by simp [oSize, oSeg])]; exact e2
      have f2 : (s.set (a + oSize) (i + d)).mem g = g + 16 := by
        show upd _ _ _ _ = _
        rw [upd_ne _ _ (by simp only [oSize]; omega)]; exact eg
      have f3 : (s.set (a + oSize) (i + d)).mem (g + oLimit) = L := by
        show upd _ _ _ _ = _
        rw [upd_ne _ _ (by simp only [oSize, oLimit]; omega)]; exact el
      have f4 : (s.set (a + oSize) (i + d)).mem (a + oSize) = i + d := upd_same _ _ _
      have hx : (a - (g + 16)) ^^^ 2 ^ (i + d) = a - (g + 16) + 2 ^ (i + d) := by
        have hd0 : 2 ^ (i + d) ∣ a - (g + 16) := Nat.dvd_trans (Nat.pow_dvd_pow 2 (by omega)) h2
        rcases xor_buddy hd0 with ⟨-, e⟩ | ⟨q1, q2, -⟩
        · exact e
        · exfalso
          have hdd : 2 ^ (i + d + 1) ∣ 2 ^ (i + d) := by
            have : 2 ^ (i + d) = (a - (g + 16)) - (a - (g + 16) - 2 ^ (i + d)) := by omega
            rw [this]; exact Nat.dvd_sub h2 q2
          have := Nat.le_of_dvd (by omega) hdd
          omega
      have hbud : buddy (s.set (a + oSize) (i + d)) a = a + 2 ^ (i + d) := by
        unfold buddy
        simp only [f1, f2, f3, f4, hx]
        rw [if_pos (by omega)]
        omega
      dsimp only
      rw [hbud]
      rw [if_neg (by omega)]
      rw [f4]
      have f5 : ((s.set (a + oSize) (i + d)).set (a + 2 ^ (i + d) + oSize) (i + d)).mem (a + oSeg) = g := by
        show upd _ _ _ _ = _
        rw [upd_ne _ _ (by simp only [oSize, oSeg]; omega)]; exact f1
      rw [f5]
      generalize hs1 : ((s.set (a + oSize) (i + d)).set (a + 2 ^ (i + d) + oSize) (i + d)).set (a + 2 ^ (i + d) + oSeg) g = s1
      have R1 : Rest s s1 := by rw [← hs1]; exact ⟨rfl, rfl, rfl, rfl⟩
      have m1 : s1.mem = upd (upd (upd s.mem (a + oSize) (i + d)) (a + 2 ^ (i + d) + oSize) (i + d)) (a + 2 ^ (i + d) + oSeg) g := by
        rw [← hs1]; rfl
      have I1 := I.split ha' (fun h => nomatch h) (by omega) R1 (by rw [← hs1]; rfl) m1
      have hb1 : (upd (upd G.blk a (some ⟨i + d, .used, g⟩)) (a + 2 ^ (i + d)) (some ⟨i + d, .loose, g⟩)) (a + 2 ^ (i + d))
          = some ⟨i + d, .loose, g⟩ := upd_same _ _ _
      obtain ⟨s2, h4, R2, I2, fr2⟩ := I1.add hb1 (fun h => nomatch h)
      rw [h4]
      simp only
      generalize hG1 : (⟨upd (upd G.blk a (some ⟨i + d, .used, g⟩)) (a + 2 ^ (i + d)) (some ⟨i + d, .loose, g⟩), G.seg, G.fl⟩ : Gh)
        = G1 at *
      have hG1b : G1.blk = upd (upd G.blk a (some ⟨i + d, .used, g⟩)) (a + 2 ^ (i + d)) (some ⟨i + d, .loose, g⟩) := by
        rw [← hG1]
      have hfree : G.blk (a + 2 ^ (i + d)) = none := by
        cases h : G.blk (a + 2 ^ (i + d)) with
        | none => rfl
        | some b =>
          have := I.disj _ _ _ _ ha' h (by omega)
          simp only at this; omega
      have hO : ∀ c b, G.blk c = some b → c ≠ a → G1.blk c = some b ∧ c ≠ a + 2 ^ (i + d) := by
        intro c b hc hne
        have hne2 : c ≠ a + 2 ^ (i + d) := by rintro rfl; rw [hfree] at hc; cases hc
        exact ⟨by rw [hG1b, upd_ne _ _ hne2, upd_ne _ _ hne]; exact hc, hne2⟩
      -- cells that did not change
      have hm1 : ∀ x, (x < a ∨ a + 40 ≤ x) → (x < a + 2 ^ (i + d) ∨ a + 2 ^ (i + d) + 40 ≤ x) → s1.mem x = s.mem x := by
        intro x q1 q2
        rw [m1, upd_ne, upd_ne, upd_ne] <;> simp only [oSize, oSeg] <;> omega
      have hl1 : Lim s1 G1 := by
        intro g' L' hg'
        rw [← hG1] at hg'
        obtain ⟨q1, q2⟩ := hl g' L' hg'
        refine ⟨?_, q2⟩
        have := I.seg_out hg' ha'
        simp only at this
        rw [hm1 _ (by simp only [oLimit]; omega) (by simp only [oLimit]; omega)]; exact q1
      have hl2 := I1.lim_out hl1 (s' := s2) (G' := ⟨upd G1.blk (a + 2 ^ (i + d)) (some ⟨i + d, .free, g⟩), G1.seg,
        upd G1.fl (i + d) (ins (a + 2 ^ (i + d)) (G1.fl (i + d)))⟩) rfl fr2
      have ha2 : (upd G1.blk (a + 2 ^ (i + d)) (some ⟨i + d, .free, g⟩)) a = some ⟨i + d, .used, g⟩ := by
        rw [upd_ne _ _ (by omega), hG1b, upd_ne _ _ (by omega), upd_same]
      obtain ⟨s3, G3, h5, I3, l3, R3, E3, b3, n3, x3, k3⟩ := ih d (by omega) I2 hl2 ha2 hi
      have hG1a : G1.blk a = some ⟨i + d, .used, g⟩ := by rw [hG1b, upd_ne _ _ (by omega), upd_same]
      have hpi : 2 ^ i ≤ 2 ^ (i + d) := Nat.pow_le_pow_right (by omega) (by omega)
      refine ⟨s3, G3, h5, I3, l3, (R1.trans R2).trans R3, ?_, b3, ?_, ?_, ?_⟩
      · constructor
        · intro c b hc hu hne
          obtain ⟨q1, q2⟩ := hO c b hc hne
          obtain ⟨q3, q4⟩ := E3.keep c b (by simp only [upd_ne _ _ q2]; exact q1) hu hne
          refine ⟨q3, fun x l1 l2 => ?_⟩
          rw [q4 x l1 l2, fr2 x (I1.out_pay q1 l1 l2)]
          have := I.sep hc ha' hne
          simp only at this
          exact hm1 x (by omega) (by omega)
        · intro c b hc hu hne
          obtain ⟨q1, -⟩ := E3.back c b hc hu hne
          have hne2 : c ≠ a + 2 ^ (i + d) := by rintro rfl; simp only [upd_same] at q1; cases q1; cases hu
          simp only [upd_ne _ _ hne2] at q1
          rw [hG1b, upd_ne _ _ hne2, upd_ne _ _ hne] at q1
          exact ⟨q1, hne⟩
        · refine Sol.trans ?_ E3.sol
          refine Sol.new (g₀ := g) (a₀ := a + 2 ^ (i + d)) (k₀ := i + d) (by rw [← hG1]) ?_ ?_
          · intro c j g' hc
            by_cases e : c = a + 2 ^ (i + d)
            · subst e; simp only [upd_same] at hc; cases hc; exact Or.inr ⟨rfl, rfl, rfl⟩
            · simp only [upd_ne _ _ e] at hc
              rw [hG1b, upd_ne _ _ e] at hc
              by_cases e' : c = a
              · subst e'; rw [upd_same] at hc; cases hc
              · rw [upd_ne _ _ e'] at hc; exact Or.inl hc
          · intro c hB hc
            have : c = a := by
              rcases hB with ⟨-, hd⟩ | ⟨hd, -⟩
              · exfalso
                have hdd : 2 ^ (i + d + 1) ∣ 2 ^ (i + d) := by
                  have : 2 ^ (i + d) = (a + 2 ^ (i + d) - (g + 16)) - (a - (g + 16)) := by omega
                  rw [this]; exact Nat.dvd_sub hd h2
                have := Nat.le_of_dvd (by omega) hdd
                omega
              · omega
            subst this
            simp only at hc
            rw [ha2] at hc; cases hc
      · intro hN
        refine n3 ?_
        intro c b hc
        simp only at hc
        by_cases hne2 : c = a + 2 ^ (i + d)
        · subst hne2; rw [upd_same] at hc; cases hc; exact fun h => nomatch h
        · rw [upd_ne _ _ hne2, hG1b, upd_ne _ _ hne2] at hc
          by_cases hne : c = a
          · subst hne; rw [upd_same] at hc; cases hc; exact fun h => nomatch h
          · rw [upd_ne _ _ hne] at hc; exact hN c b hc
      · intro x l1 l2
        rw [x3 x l1 l2, fr2 x (I1.out_pay hG1a l1 (by simp only; omega))]
        exact hm1 x (by omega) (by omega)
      · intro c b hc hf
        have hne : c ≠ a := by rintro rfl; rw [ha] at hc; cases hc; cases hf
        obtain ⟨q1, q2⟩ := hO c b hc hne
        exact k3 c b (by simp only [upd_ne _ _ q2]; exact q1) hf

/-- One step of merging: a free buddy is taken off its list and joined. -/
theorem absorb (I : Inv s G) (hl : Lim s G) (hN : NoLoose G) {a k g} (ha : G.blk a = some ⟨k, .used, g⟩)
    (h0 : buddy s a ≠ 0) (hf : s.mem (buddy s a) = 0) (hk : s.mem (buddy s a + oSize) = s.mem (a + oSize)) :
    ∃ s', removeFromFree s (buddy s a) = some s' ∧ ∀ lo, lo = (if buddy s a < a then buddy s a else a) →
      ∃ G', s'.mem (lo + oSize) = k ∧ Inv (s'.set (lo + oSize) (k + 1)) G' ∧
      Lim (s'.set (lo + oSize) (k + 1)) G' ∧ NoLoose G' ∧
      Rest s (s'.set (lo + oSize) (k + 1)) ∧ G'.blk lo = some ⟨k + 1, .used, g⟩ ∧
      lo ≤ a ∧ a + 2 ^ k ≤ lo + 2 ^ (k + 1) ∧ (lo = a ∨ ∃ b, G.blk lo = some b ∧ b.st = .free) ∧
      Ev (fun c => c = a) (fun c => c = lo) s G (s'.set (lo + oSize) (k + 1)) G' ∧
      (lo = a → ∀ x, a + 40 ≤ x → x < a + 2 ^ k → (s'.set (lo + oSize) (k + 1)).mem x = s.mem x) ∧
      (∀ e b, G'.blk e = some b → b.st = .free → G.blk e = some b) := by
  rcases I.buddy_spec hl ha with ⟨h, -⟩ | ⟨b', hb', hg', hk', hne, hB, -⟩
  · exact absurd h h0
  · generalize buddy s a = c at *
    have p2 := pow_two k
    obtain ⟨e1, -, -, e4⟩ := I.hdr _ _ hb'
    have ek : b'.k = k := by rw [← e1, hk, (I.hdr _ _ ha).1]
    have est : b'.st = .free := by
      cases h : b'.st with
      | free => rfl
      | used => exact absurd hf (e4 h)
      | loose => exact absurd h (hN _ _ hb')
    obtain ⟨k'', st', g''⟩ := b'
    simp only at ek est hg'
    subst ek est hg'
    obtain ⟨s', h1, R, I', fr⟩ := I.remove hb'
    refine ⟨s', h1, ?_⟩
    have hlim' : Lim s' ⟨upd G.blk c (some ⟨k'', .used, g''⟩), G.seg, upd G.fl k'' ((G.fl k'').erase c)⟩ :=
      I.lim_out hl rfl fr
    have hca : (upd G.blk c (some ⟨k'', .used, g''⟩)) a = some ⟨k'', .used, g''⟩ := by
      rw [upd_ne _ _ (Ne.symm hne)]; exact ha
    have hcc : (upd G.blk c (some ⟨k'', .used, g''⟩)) c = some ⟨k'', .used, g''⟩ := upd_same _ _ _
    -- both cases at once: `lo` and `hi`
    have main : ∀ lo hi, (lo = a ∧ hi = c ∨ lo = c ∧ hi = a) → hi = lo + 2 ^ k'' → 2 ^ (k'' + 1) ∣ lo - (g'' + 16) →
        ∃ G', s'.mem (lo + oSize) = k'' ∧ Inv (s'.set (lo + oSize) (k'' + 1)) G' ∧
        Lim (s'.set (lo + oSize) (k'' + 1)) G' ∧ NoLoose G' ∧
        Rest s (s'.set (lo + oSize) (k'' + 1)) ∧ G'.blk lo = some ⟨k'' + 1, .used, g''⟩ ∧
        lo ≤ a ∧ a + 2 ^ k'' ≤ lo + 2 ^ (k'' + 1) ∧ (lo = a ∨ ∃ b, G.blk lo = some b ∧ b.st = .free) ∧
        Ev (fun c => c = a) (fun c => c = lo) s G (s'.set (lo + oSize) (k'' + 1)) G' ∧
        (lo = a → ∀ x, a + 40 ≤ x → x < a + 2 ^ k'' → (s'.set (lo + oSize) (k'' + 1)).mem x = s.mem x) ∧
        (∀ e b, G'.blk e = some b → b.st = .free → G.blk e = some b) := by
      intro lo hi hlh hhi hd
      have hlo : (upd G.blk c (some ⟨k'', .used, g''⟩)) lo = some ⟨k'', .used, g''⟩ := by
        rcases hlh with ⟨rfl, -⟩ | ⟨rfl, -⟩
        · exact hca
        · exact hcc
      have hhi' : (upd G.blk c (some ⟨k'', .used, g''⟩)) (lo + 2 ^ k'') = some ⟨k'', .used, g''⟩ := by
        rw [← hhi]
        rcases hlh with ⟨-, rfl⟩ | ⟨-, rfl⟩
        · exact hcc
        · exact hca
      have IJ := I'.join hlo hhi' hd
      have p64 := I'.size hlo
      simp only at p64
      have hnlo : ∀ x, x ≠ lo + oSize → (s'.set (lo + oSize) (k'' + 1)).mem x = s'.mem x := fun x h => upd_ne _ _ h
      have hG' : ∀ e b, (upd (upd (upd G.blk c (some ⟨k'', .used, g''⟩)) lo (some ⟨k'' + 1, .used, g''⟩)) (lo + 2 ^ k'') none) e
          = some b → e = lo ∧ b.st = .used ∨ (e ≠ a ∧ e ≠ c ∧ G.blk e = some b) := by
        intro e b he
        by_cases q1 : e = lo + 2 ^ k''
        · rw [q1, upd_same] at he; cases he
        · rw [upd_ne _ _ q1] at he
          by_cases q2 : e = lo
          · rw [q2, upd_same] at he; cases he; exact Or.inl ⟨q2, rfl⟩
          · rw [upd_ne _ _ q2] at he
            have q3 : e ≠ c := by
              rintro rfl
              rcases hlh with ⟨-, h⟩ | ⟨h, -⟩
              · rw [h] at hhi; exact q1 hhi
              · exact q2 h.symm
            have q4 : e ≠ a := by
              rintro rfl
              rcases hlh with ⟨h, -⟩ | ⟨-, h⟩
              · exact q2 h.symm
              · rw [h] at hhi; exact q1 hhi
            rw [upd_ne _ _ q3] at he
            exact Or.inr ⟨q4, q3, he⟩
      refine ⟨_, (I'.hdr _ _ hlo).1, IJ, ?_, ?_, ?_, ?_, ?_, ?_, ?_, ?_, ?_, ?_⟩
      · intro g' L' hg'
        obtain ⟨q1, q2⟩ := hlim' g' L' hg'
        refine ⟨?_, q2⟩
        have := I'.seg_out hg' hlo
        simp only at this
        rw [hnlo _ (by simp only [oSize, oLimit]; omega)]; exact q1
      · intro e b he
        rcases hG' e b he with ⟨-, h⟩ | ⟨-, -, h⟩
        · rw [h]; exact fun h => nomatch h
        · exact hN e b h
      · exact R.trans ⟨rfl, rfl, rfl, rfl⟩
      · simp only
        rw [upd_ne _ _ (by omega), upd_same]
      · rcases hlh with ⟨rfl, -⟩ | ⟨rfl, rfl⟩
        · exact Nat.le_refl _
        · omega
      · rcases hlh with ⟨rfl, -⟩ | ⟨rfl, rfl⟩ <;> omega
      · rcases hlh with ⟨rfl, -⟩ | ⟨rfl, rfl⟩
        · exact Or.inl rfl
        · exact Or.inr ⟨_, hb', rfl⟩
      · constructor
        · intro e b he hu hea
          have hec : e ≠ c := by rintro rfl; rw [hb'] at he; cases he; cases hu
          have q1 : e ≠ lo := by rcases hlh with ⟨rfl, -⟩ | ⟨rfl, -⟩ <;> assumption
          have q2 : e ≠ lo + 2 ^ k'' := by rw [← hhi]; rcases hlh with ⟨-, rfl⟩ | ⟨-, rfl⟩ <;> assumption
          refine ⟨by simp only; rw [upd_ne _ _ q2, upd_ne _ _ q1, upd_ne _ _ hec]; exact he, fun x l1 l2 => ?_⟩
          have hob := I'.out_pay (c := e) (b := b) (by simp only; rw [upd_ne _ _ hec]; exact he) l1 l2
          have := hob _ _ hlo
          rw [hnlo _ (by simp only [oSize]; omega), fr x (I.out_pay he l1 l2)]
        · intro e b he hu hel
          rcases hG' e b he with ⟨h, -⟩ | ⟨h1, -, h2⟩
          · exact absurd h hel
          · exact ⟨h2, h1⟩
        · refine Sol.sub (fun g L h => ⟨L, h, Nat.le_refl _⟩) fun g L e j _ _ he => ?_
          rcases hG' e _ he with ⟨-, h⟩ | ⟨-, -, h⟩
          · cases h
          · exact h
      · rintro rfl x l1 l2
        have hob := I'.out_pay (c := lo) (b := ⟨k'', .used, g''⟩) hlo l1 l2
        have := hob _ _ hlo
        rw [hnlo _ (by simp only [oSize]; omega), fr x (I.out_pay ha l1 l2)]
      · intro e b he hf
        rcases hG' e b he with ⟨-, h⟩ | ⟨-, -, h⟩
        · rw [h] at hf; cases hf
        · exact h
    have pk := Nat.two_pow_pos k''
    rintro lo rfl
    rcases hB with ⟨h, hd⟩ | ⟨h, hle, hd⟩
    · rw [if_neg (by omega)]
      exact main a c (Or.inl ⟨rfl, rfl⟩) h hd
    · rw [if_pos (by omega)]
      exact main c a (Or.inr ⟨rfl, rfl⟩) h hd

theorem merge_ok : ∀ (fuel : Nat) {s : St} {G : Gh} {a k g : Nat}, 63 ≤ fuel + k → Inv s G → Lim s G → NoLoose G →
    G.blk a = some ⟨k, .used, g⟩ →
    ∃ s' a' k' G', merge fuel s a = some (s', a') ∧ Inv s' G' ∧ Lim s' G' ∧ NoLoose G' ∧ Rest s s' ∧
      G'.blk a' = some ⟨k', .used, g⟩ ∧ Ev (fun c => c = a) (fun c => c = a') s G s' G' ∧
      a' ≤ a ∧ a + 2 ^ k ≤ a' + 2 ^ k' ∧ (a' = a ∨ ∃ b, G.blk a' = some b ∧ b.st = .free) ∧
      (∀ c b', BuddyOf g k' a' c → G'.blk c = some b' → b'.seg = g → ¬ (b'.st = .free ∧ b'.k = k')) := by
  intro fuel
  induction fuel with
  | zero =>
    intro s G a k g hf I hl hN ha
    have := (I.shape _ _ ha).2.1
    simp only at this; omega
  | succ fuel ih =>
    intro s G a k g hf I hl hN ha
    unfold merge
    simp only
    by_cases hc : buddy s a ≠ 0 ∧ s.mem (buddy s a) = 0 ∧ s.mem (buddy s a + oSize) = s.mem (a + oSize)
    · rw [if_pos hc]
      obtain ⟨s', h1, h2⟩ := I.absorb hl hN ha hc.1 hc.2.1 hc.2.2
      obtain ⟨G', e1, I', l', N', R', b', o1, o2, o3, E', -, f'⟩ := h2 _ rfl
      rw [h1]
      simp only
      generalize (if buddy s a < a then buddy s a else a) = lo at *
      rw [e1]
      obtain ⟨s'', a'', k'', G'', q1, q2, q3, q4, q5, q6, q7, q8, q9, q10, q11⟩ := ih (by omega) I' l' N' b'
      have p2 := pow_two k
      refine ⟨s'', a'', k'', G'', q1, q2, q3, q4, R'.trans q5, q6, E'.trans q7 ?_, by omega, by omega, ?_, q11⟩
      · intro c b hc hu hne hcl
        subst hcl
        rcases o3 with h | ⟨b₁, h, hf⟩
        · exact hne h
        · rw [h] at hc; cases hc; rw [hf] at hu; cases hu
      · rcases q10 with rfl | ⟨b, hb, hbf⟩
        · exact o3
        · exact Or.inr ⟨b, f' _ _ hb hbf, hbf⟩
    · rw [if_neg hc]
      refine ⟨s, a, k, G, rfl, I, hl, hN, Rest.refl s, ha, ⟨fun c b hc hu hne => ⟨hc, fun _ _ _ => rfl⟩, fun c b hc hu hne => ⟨hc, hne⟩, Sol.refl G⟩,
        Nat.le_refl _, Nat.le_refl _, Or.inl rfl, ?_⟩
      intro c b' hB hcb hcg ⟨hst, hck⟩
      apply hc
      rcases I.buddy_spec hl ha with ⟨h, L, hs, hL⟩ | ⟨b₁, h1, -, -, -, -, hu⟩
      · exfalso
        have := hL c hB
        obtain ⟨-, -, L', hs', -, -, h3⟩ := I.shape _ _ hcb
        rw [hcg] at hs' h3
        rw [hs] at hs'; cases hs'
        have := Nat.two_pow_pos b'.k
        omega
      · have ec := hu c hB
        subst ec
        obtain ⟨e1, -, e3, -⟩ := I.hdr _ _ hcb
        have := I.pos hcb
        exact ⟨by omega, e3 hst, by rw [e1, hck, (I.hdr _ _ ha).1]⟩

end Inv

end Cal.Mem
