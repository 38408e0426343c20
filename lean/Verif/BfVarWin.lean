import Verif.BfPackM

/-!
# Breadth-first window permutation as a whole
-/

namespace Cal

namespace Bfr

section
variable {ext : Nat → Nat} {δ0 : Nat → BFn} {d0 : Df.St} {Root : Edge → Prop} {u0 v0 : Nat → Option Edge}
variable {w : St} {d : Df.St} {ab : Nat → Nat} {i j k n : Nat}

/-- After a part of the run either all is well, with no more nodes than before, or something has been packed which is
not safe. -/
def WellDone (ext : Nat → Nat) (δ0 : Nat → BFn) (d0 : Df.St) (Root : Edge → Prop) (u0 v0 : Nat → Option Edge) (P : Par) (n i : Nat) (s : Wn)
    (d : Df.St) (moved : Wn → Prop) (r : Option Wn) : Prop :=
  (∃ s' d' ab', r = some s' ∧ Gap ext δ0 d0 Root u0 v0 n i s'.w d' ab' ∧ Less ext d d' ∧
    (moved s' → Df.Unstuck ext d' → d'.st.numNodes < d.st.numNodes)) ∨
  (¬ Safe P Root d0 ∧ ∀ s', r = some s' → s.packs < s'.packs)

theorem winAt_spec (P : Par) {s : Wn} (G : Gap ext δ0 d0 Root u0 v0 n i s.w d ab) (hi : i + 1 < n) :
    (∃ s' m d' ab', winAt P s i = some (s', m) ∧ Gap ext δ0 d0 Root u0 v0 n i s'.w d' ab' ∧ Less ext d d' ∧
      (m = true → Df.Unstuck ext d' → d'.st.numNodes < d.st.numNodes) ∧ s'.any = s.any ∧ s.packs ≤ s'.packs) ∨
    (¬ Safe P Root d0 ∧ ∀ s' m, winAt P s i = some (s', m) → s.packs < s'.packs) := by
  unfold winAt
  rw [G.nv]
  by_cases h3 : i + 2 < n
  · rw [if_pos h3]
    obtain ⟨w', m, d', ab', e, G', le, hm⟩ := window3_spec G h3
    rw [e]
    simp only
    by_cases hf : P.maxFwd < w'.numFwd
    · rw [if_pos hf]
      by_cases hs : Safe P Root d0
      · obtain ⟨B1, C1, n1⟩ := fixAndReclaim_win G' h3
        obtain ⟨w2, ab2, e2, B2, C2, o2⟩ := packMany_spec P (K := 3) B1 C1 (i := i) (by omega) hs
        left
        rw [e2]
        exact ⟨_, m, d', ab2, rfl, C2.gap B2 i (by rw [o2]; exact n1), le, hm, rfl, Nat.le_succ _⟩
      · right
        refine ⟨hs, fun s' m' h => ?_⟩
        obtain ⟨w2, -, h2⟩ := Option.map_eq_some_iff.1 h
        cases h2
        exact Nat.lt_succ_self _
    · rw [if_neg hf]
      exact Or.inl ⟨_, m, d', ab', rfl, G', le, hm, rfl, Nat.le_refl _⟩
  · rw [if_neg h3]
    obtain ⟨w', m, d', ab', e, G', le, hm⟩ := window2_spec G (by omega)
    rw [e]
    exact Or.inl ⟨_, m, d', ab', rfl, G', le, hm, rfl, Nat.le_refl _⟩

theorem winStep_packs (P : Par) {s s' : Wn} (h : winStep P s i = some s') : s.packs ≤ s'.packs := by
  have hw : ∀ s1 m, winAt P s i = some (s1, m) → s.packs ≤ s1.packs := by
    intro s1 m h
    unfold winAt at h
    split at h
    · split at h
      · cases h
      · split at h
        · obtain ⟨w2, -, h2⟩ := Option.map_eq_some_iff.1 h
          cases h2
          exact Nat.le_succ _
        · cases h; exact Nat.le_refl _
    · obtain ⟨w2, -, h2⟩ := Option.map_eq_some_iff.1 h
      cases h2
      exact Nat.le_refl _
  unfold winStep at h
  split at h
  · split at h
    · cases h
    · rename_i s1 m e
      have := hw s1 m e
      split at h <;> (cases h; exact this)
  · cases h; exact Nat.le_refl _

theorem downPass_packs (P : Par) : ∀ (k i : Nat) {s s' : Wn}, downPass P k i s = some s' → s.packs ≤ s'.packs := by
  intro k
  induction k with
  | zero => intro i s s' h; cases h; exact Nat.le_refl _
  | succ k ih =>
    intro i s s' h
    rw [downPass] at h
    split at h
    · cases h
    · rename_i s1 e
      exact Nat.le_trans (winStep_packs P e) (ih _ h)

theorem passes_packs (P : Par) : ∀ (fuel : Nat) {s s' : Wn}, passes P fuel s = some s' → s.packs ≤ s'.packs := by
  intro fuel
  induction fuel with
  | zero => intro s s' h; cases h
  | succ fuel ih =>
    intro s s' h
    rw [passes] at h
    split at h
    · cases h
    · rename_i s1 e
      have h1 := downPass_packs P _ _ e
      simp only at h
      split at h
      · have h2 := ih h
        exact Nat.le_trans h1 h2
      · cases h; exact h1

theorem winStep_spec (P : Par) {s : Wn} (G : Gap ext δ0 d0 Root u0 v0 n i s.w d ab) (hi : i + 1 < n) :
    WellDone ext δ0 d0 Root u0 v0 P n (i + 1) s d (fun s' => s'.any = true ∧ s.any = false) (winStep P s i) := by
  unfold winStep
  by_cases hl : s.lv i = true
  · rw [if_pos hl]
    rcases winAt_spec P G hi with ⟨s1, m, d', ab', e, G', le, hm, ha, hp⟩ | ⟨hs, hp⟩
    · left
      rw [e]
      simp only
      cases m with
      | true => exact ⟨_, d', ab', if_pos rfl, G'.next (by omega), le, fun _ => hm rfl⟩
      | false =>
        refine ⟨_, d', ab', if_neg (by simp), G'.next (by omega), le, ?_⟩
        rintro ⟨h1, h2⟩
        replace h1 : s1.any = true := h1
        rw [ha, h2] at h1; cases h1
    · right
      refine ⟨hs, fun s' h => ?_⟩
      split at h
      · cases h
      · rename_i s1 m e
        have := hp s1 m e
        split at h <;> (cases h; exact this)
  · rw [if_neg hl]
    exact Or.inl ⟨s, d, ab, rfl, G.next (by omega), Less.refl _ _, fun ⟨h1, h2⟩ => by rw [h1] at h2; cases h2⟩

theorem downPass_spec (P : Par) : ∀ (k i : Nat) {s : Wn} {d : Df.St} {ab : Nat → Nat}, Gap ext δ0 d0 Root u0 v0 n i s.w d ab →
    (k = 0 ∨ i + k + 1 ≤ n) →
    WellDone ext δ0 d0 Root u0 v0 P n (i + k) s d (fun s' => s'.any = true ∧ s.any = false) (downPass P k i s) := by
  intro k
  induction k with
  | zero =>
    intro i s d ab G _
    exact Or.inl ⟨s, d, ab, rfl, G, Less.refl _ _, fun ⟨h1, h2⟩ => by rw [h1] at h2; cases h2⟩
  | succ k ih =>
    intro i s d ab G hk
    rw [downPass]
    rcases winStep_spec P G (by omega) with ⟨s1, d1, ab1, e1, G1, le1, hm1⟩ | ⟨hs, hp⟩
    · rw [e1]
      simp only
      rw [show i + (k + 1) = i + 1 + k from by omega]
      rcases ih (i + 1) G1 (by omega) with ⟨s2, d2, ab2, e2, G2, le2, hm2⟩ | ⟨hs, hp⟩
      · refine Or.inl ⟨s2, d2, ab2, e2, G2, le1.trans le2, ?_⟩
        rintro ⟨h1, h2⟩ u
        have u1 : Df.Unstuck ext d1 := fun a h1 h2 => u a (le2.1 a h1 h2).1 (le2.1 a h1 h2).2
        have k1 := le1.2 u1
        have k2 := le2.2 u
        cases ha : s1.any with
        | true => have := hm1 ⟨ha, h2⟩ u1; omega
        | false => have := hm2 ⟨h1, ha⟩ u; omega
      · refine Or.inr ⟨hs, fun s' h => ?_⟩
        have h1 := winStep_packs P e1
        have h2 := hp s' h
        omega
    · refine Or.inr ⟨hs, fun s' h => ?_⟩
      split at h
      · cases h
      · rename_i s1 e
        have h1 := hp s1 e
        have h2 := downPass_packs P _ _ h
        omega

/-- One pass with the clean-up. -/
def pass (P : Par) (s : Wn) : Option Wn :=
  (downPass P (s.w.st.ord.numVars - 1) 0 { s with any := false }).map fun s1 => { s1 with w := endPass s1.w }

/-- A given number of passes, whether or not anything moves. -/
def passN (P : Par) : Nat → Wn → Option Wn
  | 0, s => some s
  | k + 1, s => (pass P s).bind (passN P k)

theorem passes_succ (P : Par) (fuel : Nat) (s : Wn) :
    passes P (fuel + 1) s = (pass P s).bind fun s2 => if s2.any then passes P fuel s2 else some s2 := by
  rw [passes, pass]
  cases downPass P (s.w.st.ord.numVars - 1) 0 { s with any := false } with
  | none => rfl
  | some s1 => rfl

theorem pass_spec (P : Par) {s : Wn} (B : BInv ext δ0 d0 Root u0 v0 s.w d ab) (C : Clean Root s.w) (hn : s.w.st.ord.numVars = n) :
    (∃ s' d' ab', pass P s = some s' ∧ BInv ext δ0 d0 Root u0 v0 s'.w d' ab' ∧ Clean Root s'.w ∧ s'.w.st.ord.numVars = n ∧ Less ext d d' ∧
      (s'.any = true → Df.Unstuck ext d' → d'.st.numNodes < d.st.numNodes)) ∨
    (¬ Safe P Root d0 ∧ ∀ s', pass P s = some s' → s.packs < s'.packs) := by
  unfold pass
  rw [hn]
  rcases downPass_spec P (n - 1) 0 (s := { s with any := false }) (C.gap B 0 hn) (by omega) with ⟨s1, d1, ab1, e1, G1, le1, hm1⟩ | ⟨hs, hp⟩
  · left
    obtain ⟨B2, C2, n2⟩ := endPass_spec G1
    rw [e1]
    exact ⟨_, d1, ab1, rfl, B2, C2, n2, le1, fun h => hm1 ⟨h, rfl⟩⟩
  · right
    refine ⟨hs, fun s' h => ?_⟩
    obtain ⟨s1, e1, rfl⟩ := Option.map_eq_some_iff.1 h
    exact hp s1 e1

theorem passes_spec (P : Par) : ∀ (fuel : Nat) {s : Wn} {d : Df.St} {ab : Nat → Nat}, BInv ext δ0 d0 Root u0 v0 s.w d ab → Clean Root s.w →
    s.w.st.ord.numVars = n → ∀ s', passes P fuel s = some s' → (Safe P Root d0 ∨ s'.packs = 0) →
      ∃ d' ab', BInv ext δ0 d0 Root u0 v0 s'.w d' ab' ∧ Clean Root s'.w ∧ s'.w.st.ord.numVars = n ∧ Less ext d d' := by
  intro fuel
  induction fuel with
  | zero => intro s d ab _ _ _ s' h; cases h
  | succ fuel ih =>
    intro s d ab B C hn s' h hs
    rw [passes_succ] at h
    obtain ⟨s2, e2, h⟩ := Option.bind_eq_some_iff.1 h
    rcases pass_spec P B C hn with ⟨s3, d3, ab3, e3, B3, C3, n3, le3, -⟩ | ⟨hs', hp⟩
    · rw [e2] at e3; cases e3
      split at h
      · obtain ⟨d', ab', h1, h2, h3, h4⟩ := ih B3 C3 n3 s' h hs
        exact ⟨d', ab', h1, h2, h3, le3.trans h4⟩
      · cases h; exact ⟨d3, ab3, B3, C3, n3, le3⟩
    · exfalso
      have h1 := hp s2 e2
      rcases hs with hs | hs
      · exact hs' hs
      · have : s2.packs ≤ s'.packs := by
          split at h
          · exact passes_packs P _ h
          · cases h; exact Nat.le_refl _
        omega

/-- When the passes do not come to an end, each makes the tables smaller. -/
theorem passes_ends (P : Par) (hs : Safe P Root d0) : ∀ (fuel : Nat) {s : Wn} {d : Df.St} {ab : Nat → Nat}, BInv ext δ0 d0 Root u0 v0 s.w d ab →
    Clean Root s.w → s.w.st.ord.numVars = n → passes P fuel s = none →
      ∃ s' d' ab', passN P fuel s = some s' ∧ BInv ext δ0 d0 Root u0 v0 s'.w d' ab' ∧ Clean Root s'.w ∧ s'.w.st.ord.numVars = n ∧ Less ext d d' ∧
        (Df.Unstuck ext d' → d'.st.numNodes + fuel ≤ d.st.numNodes) := by
  intro fuel
  induction fuel with
  | zero => intro s d ab B C hn _; exact ⟨s, d, ab, rfl, B, C, hn, Less.refl _ _, fun _ => Nat.le_refl _⟩
  | succ fuel ih =>
    intro s d ab B C hn h
    rw [passes_succ] at h
    rcases pass_spec P B C hn with ⟨s3, d3, ab3, e3, B3, C3, n3, le3, hm⟩ | ⟨hs', -⟩
    · rw [e3] at h
      simp only [Option.bind_some] at h
      by_cases ha : s3.any = true
      · rw [if_pos ha] at h
        obtain ⟨s', d', ab', h1, h2, h3, h4, h5, h6⟩ := ih B3 C3 n3 h
        refine ⟨s', d', ab', ?_, h2, h3, h4, le3.trans h5, fun u => ?_⟩
        · rw [passN, e3]; exact h1
        · have k1 := h6 u
          have k2 := hm ha fun a h1 h2 => u a (h5.1 a h1 h2).1 (h5.1 a h1 h2).2
          omega
      · rw [if_neg ha] at h; cases h
    · exact absurd hs hs'

/-- `BddReorderVarWindow`. -/
theorem varWindow_spec (P : Par) {fuel : Nat} (h : Between ext δ0 d0 Root u0 v0 n w) {s : Wn} (e : varWindow P fuel w = some s)
    (hs : Safe P Root d0 ∨ s.packs = 0) : Between ext δ0 d0 Root u0 v0 n s.w := by
  obtain ⟨hn, C, d, ab, B, le⟩ := h
  obtain ⟨d', ab', h1, h2, h3, h4⟩ := passes_spec P fuel (s := ⟨w, fun _ => true, true, 0⟩) B C hn s e hs
  exact ⟨h3, h2, d', ab', h1, le.trans h4⟩

end

end Bfr

end Cal
