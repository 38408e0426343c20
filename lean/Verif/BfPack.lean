import Verif.BfClean

/-!
# Packing the nodes of the sifted variable

`CalBddPackNodesAfterReorderForSingleId` copies the nodes of one id to new pages. The old nodes forward to the
new ones, and then the same clean-up as after sifting redirects all pointers.
-/

namespace Cal

namespace Bfr

open Df (Fr PWF)

theorem Sim.congr {F G : Edge → Edge} {w : St} {d : Df.St} {ab : Nat → Nat} (S : Sim F w d ab)
    (h : ∀ a n e, w.st.heap a = some n → (e = n.thn ∨ e = n.els) → F e = G e) : Sim G w d ab := by
  refine ⟨S.ord, S.zero, S.fw, S.inj, S.sur, ?_, S.tab, S.tabW, S.ref, S.le, S.num, S.gcc, S.mat⟩
  intro a n hn
  obtain ⟨n', h1, h2, T1, T0⟩ := S.node a n hn
  refine ⟨n', h1, h2, ?_, ?_⟩
  · unfold Tr at T1 ⊢; rw [← h a n _ hn (Or.inl rfl)]; exact T1
  · unfold Tr at T0 ⊢; rw [← h a n _ hn (Or.inr rfl)]; exact T0

/-- One round of the loop. -/
def mv (w : St) (id a : Nat) (n : Node) : St :=
  { w with
    st := { (w.st.alloc id).2 with
      heap := upd (upd (w.st.alloc id).2.heap (w.st.alloc id).1 (some n)) a none
      ref := upd (w.st.alloc id).2.ref (w.st.alloc id).1 ((w.st.alloc id).2.ref a) }
    fwd := upd (upd w.fwd (w.st.alloc id).1 none) a (some ⟨id, (w.st.alloc id).1, false⟩) }

/-- With another table of the id. -/
def wt (w : St) (id : Nat) (L : List Nat) : St := { w with st := { w.st with tab := upd w.st.tab id L } }

/-- What copying the nodes in `L` does. -/
structure Mvd (id : Nat) (L : List Nat) (w : St) (ab : Nat → Nat) (w' : St) (ab' : Nat → Nat) : Prop where
  fwdO : ∀ a, a ∉ L → w'.fwd a = w.fwd a
  fwdL : ∀ a, a ∈ L → ∃ b n, w'.fwd a = some ⟨id, b, false⟩ ∧ w.st.heap a = some n ∧ w'.st.heap b = some n ∧ ab' b = ab a ∧ n.var = id
  keep : ∀ a n, a ∉ L → w.st.heap a = some n → w'.st.heap a = some n
  back : ∀ b n, w'.st.heap b = some n → (w.st.heap b = some n ∧ b ∉ L) ∨ (n.var = id ∧ ∃ a, a ∈ L ∧ w.st.heap a = some n)
  abO : ∀ a, a ∉ L → a = 0 ∨ w.st.heap a ≠ none → ab' a = ab a
  ord : w'.st.ord = w.st.ord
  eqs : w' = { w with st := w'.st, fwd := w'.fwd }
  tab : w'.st.tab = w.st.tab

theorem Mvd.after {id L w ab w' ab'} (M : Mvd id L w ab w' ab') (F : FwOK w) (hL : ∀ a, a ∈ L → ∃ n, w.st.heap a = some n ∧ n.var = id)
    {r : Edge} (hr : w.st.EOK r) :
    w'.st.EOK (follow w' r) ∧ absE ab' (follow w' r) = absE ab r := by
  by_cases hm : r.addr ∈ L
  · obtain ⟨b, n, h1, h2, h3, h4, h5⟩ := M.fwdL _ hm
    rw [follow_some h1]
    refine ⟨Or.inr ⟨n, h3, h5⟩, ?_⟩
    show (⟨0, ab' b, _⟩ : Edge) = ⟨0, ab r.addr, r.neg⟩
    rw [h4]
    simp [Edge.phase]
  · have hf : w'.fwd r.addr = none := by rw [M.fwdO _ hm]; exact F.eok hr
    rw [follow_none hf]
    refine ⟨?_, ?_⟩
    · rcases hr with h | ⟨n, hn, hv⟩
      · exact Or.inl h
      · exact Or.inr ⟨n, M.keep _ n hm hn, hv⟩
    · show (⟨0, ab' r.addr, r.neg⟩ : Edge) = ⟨0, ab r.addr, r.neg⟩
      rw [M.abO _ hm (eok_live hr)]

theorem mv_sim {F : Edge → Edge} {w : St} {d : Df.St} {ab : Nat → Nat} {id a : Nat} {pre post : List Nat} {n : Node}
    (S : Sim F (wt w id (pre ++ a :: post)) d ab) (nd : (pre ++ a :: post).Nodup) (hn : w.st.heap a = some n) :
    Mvd id [a] w ab (mv w id a n) (upd ab (w.st.alloc id).1 (ab a)) ∧
      Sim (fun e => follow (mv w id a n) (F e)) (wt (mv w id a n) id (pre ++ (w.st.alloc id).1 :: post)) d
        (upd ab (w.st.alloc id).1 (ab a)) ∧
      w.st.heap (w.st.alloc id).1 = none ∧ (mv w id a n).fwd (w.st.alloc id).1 = none := by
  have Fw : FwOK w := ⟨⟨S.fw.fr.heap0, S.fw.fr.next_pos, S.fw.fr.heap_next, S.fw.fr.free_nodup, S.fw.fr.free_ok, S.fw.fr.free_disj⟩, S.fw.fw⟩
  have A := alloc_new Fw.fr id
  generalize hb : (w.st.alloc id).1 = b at A ⊢
  generalize hs : (w.st.alloc id).2 = s1 at A
  have hv : n.var = id := by
    have : a ∈ (wt w id (pre ++ a :: post)).st.tab id := by
      show a ∈ upd w.st.tab id _ id
      rw [upd_same]; simp
    obtain ⟨m, h1, h2⟩ := (S.tabW id a).1 this
    have h1 : w.st.heap a = some m := h1
    rw [hn] at h1; cases h1; exact h2
  have hab : a ≠ b := by rintro rfl; rw [A.old] at hn; cases hn
  have a0 : a ≠ 0 := by rintro rfl; rw [Fw.fr.heap0] at hn; cases hn
  have na := Fw.fresh A
  have heap' : (mv w id a n).st.heap = upd (upd w.st.heap b (some n)) a none := by
    unfold mv; rw [hb, hs, A.heap]
  have fwd' : (mv w id a n).fwd = upd w.fwd a (some ⟨id, b, false⟩) := by
    unfold mv; rw [hb]
    show upd (upd w.fwd b none) a _ = _
    rw [upd_none_id na]
  have ref' : (mv w id a n).st.ref = upd (upd w.st.ref b 0) b (w.st.ref a) := by
    unfold mv; rw [hb, hs, A.ref, upd_ne _ _ hab]
  have hB : (mv w id a n).st.heap b = some n := by rw [heap', upd_ne _ _ (Ne.symm hab), upd_same]
  have hA : (mv w id a n).st.heap a = none := by rw [heap', upd_same]
  have hO : ∀ c, c ≠ a → c ≠ b → (mv w id a n).st.heap c = w.st.heap c := fun c h1 h2 => by rw [heap', upd_ne _ _ h1, upd_ne _ _ h2]
  have M : Mvd id [a] w ab (mv w id a n) (upd ab b (ab a)) := by
    refine ⟨?_, ?_, ?_, ?_, ?_, ?_, rfl, ?_⟩
    · intro c hc; rw [fwd', upd_ne _ _ (by simpa using hc)]
    · intro c hc
      simp only [List.mem_singleton] at hc; subst hc
      exact ⟨b, n, by rw [fwd', upd_same], hn, hB, upd_same _ _ _, hv⟩
    · intro c m hc hm
      rw [hO c (by simpa using hc) (by rintro rfl; rw [A.old] at hm; cases hm)]; exact hm
    · intro c m hm
      by_cases h1 : c = a
      · rw [h1, hA] at hm; cases hm
      · by_cases h2 : c = b
        · rw [h2, hB] at hm; cases hm
          exact Or.inr ⟨hv, a, by simp, hn⟩
        · rw [hO c h1 h2] at hm; exact Or.inl ⟨hm, by simpa using h1⟩
    · intro c _ hc
      apply upd_ne
      rintro rfl
      rcases hc with h | h
      · exact A.pos h
      · exact h A.old
    · unfold mv; rw [hs]; exact A.ord
    · unfold mv; rw [hs]; exact A.tab
  have aft := fun r hr => M.after Fw (fun c hc => by simp only [List.mem_singleton] at hc; subst hc; exact ⟨n, hn, hv⟩) (r := r) hr
  have live : ∀ c, (mv w id a n).st.heap c ≠ none → c = b ∨ (c ≠ a ∧ c ≠ b ∧ w.st.heap c ≠ none) := by
    intro c hc
    by_cases h1 : c = b
    · exact Or.inl h1
    · by_cases h2 : c = a
      · rw [h2] at hc; exact absurd hA hc
      · rw [hO c h2 h1] at hc; exact Or.inr ⟨h2, h1, hc⟩
  have ab0 : ∀ c, c ≠ b → upd ab b (ab a) c = ab c := fun c h => upd_ne _ _ h
  have alive : w.st.heap a ≠ none := by rw [hn]; simp
  refine ⟨M, ⟨?_, ?_, ?_, ?_, ?_, ?_, ?_, ?_, ?_, ?_, ?_, ?_, S.mat⟩, A.old, by rw [fwd', upd_ne _ _ (Ne.symm hab)]; exact na⟩
  · show d.st.ord = (mv w id a n).st.ord
    rw [M.ord]; exact S.ord
  · rw [ab0 0 (Ne.symm A.pos)]; exact S.zero
  · have free' : (mv w id a n).st.free = s1.free := by unfold mv; rw [hs]
    have next' : (mv w id a n).st.next = s1.next := by unfold mv; rw [hs]
    have hnone : ∀ c, w.st.heap c = none → c ≠ b → (mv w id a n).st.heap c = none := by
      intro c hc h
      by_cases h1 : c = a
      · rw [h1]; exact hA
      · rw [hO c h1 h]; exact hc
    refine ⟨⟨?_, ?_, ?_, ?_, ?_, ?_⟩, ?_⟩
    · exact hnone 0 Fw.fr.heap0 (Ne.symm A.pos)
    · show 0 < (mv w id a n).st.next
      rw [next']; exact A.fr.next_pos
    · intro c m hm
      show c < (mv w id a n).st.next
      rw [next']
      rcases M.back c m hm with ⟨h, _⟩ | _
      · exact Nat.lt_of_lt_of_le (Fw.fr.heap_next c m h) A.next_le
      · rcases live c (by have hm : (mv w id a n).st.heap c = some m := hm; rw [hm]; simp) with rfl | ⟨_, _, h⟩
        · exact A.lt
        · cases hq : w.st.heap c with
          | none => exact absurd hq h
          | some q => exact Nat.lt_of_lt_of_le (Fw.fr.heap_next c q hq) A.next_le
    · intro i; show ((mv w id a n).st.free i).Nodup; rw [free']; exact A.fr.free_nodup i
    · intro i c hc
      replace hc : c ∈ (mv w id a n).st.free i := hc
      rw [free'] at hc
      obtain ⟨h1, h2, h3⟩ := A.fr.free_ok i c hc
      refine ⟨hnone c (by rw [← A.heap]; exact h1) (by rintro rfl; exact A.notfree i hc), h2, ?_⟩
      show c < (mv w id a n).st.next
      rw [next']; exact h3
    · intro i j c h1 h2
      have h1 : c ∈ (mv w id a n).st.free i := h1
      have h2 : c ∈ (mv w id a n).st.free j := h2
      rw [free'] at h1 h2; exact A.fr.free_disj i j c h1 h2
    · intro c t ht
      replace ht : (mv w id a n).fwd c = some t := ht
      show (mv w id a n).st.heap c = none ∧ c ≠ 0 ∧ c < (mv w id a n).st.next ∧ (∀ i, c ∉ (mv w id a n).st.free i) ∧ _
      rw [next', free']
      rw [fwd'] at ht
      by_cases h1 : c = a
      · rw [h1, upd_same] at ht; cases ht
        rw [h1]
        refine ⟨hA, a0, Nat.lt_of_lt_of_le (Fw.fr.heap_next a n hn) A.next_le, ?_, rfl⟩
        intro i hi
        have := (Fw.fr.free_ok i a (A.sub i a hi)).1
        rw [hn] at this; cases this
      · rw [upd_ne _ _ h1] at ht
        obtain ⟨k1, k2, k3, k4, k5⟩ := Fw.fw c t ht
        refine ⟨hnone c k1 ?_, k2, Nat.lt_of_lt_of_le k3 A.next_le, fun i hi => k4 i (A.sub i c hi), k5⟩
        rintro rfl; rw [na] at ht; cases ht
  · intro c e hc he h
    rcases live c hc with rfl | ⟨k1, k2, k3⟩ <;> rcases live e he with rfl | ⟨q1, q2, q3⟩
    · rfl
    · rw [upd_same, ab0 e q2] at h
      exact absurd (S.inj a e alive q3 h).symm q1
    · rw [upd_same, ab0 c k2] at h
      exact absurd (S.inj c a k3 alive h) k1
    · rw [ab0 c k2, ab0 e q2] at h
      exact S.inj c e k3 q3 h
  · intro c hc
    obtain ⟨e, h1, h2⟩ := S.sur c hc
    have h1 : w.st.heap e ≠ none := h1
    by_cases he : e = a
    · exact ⟨b, by show (mv w id a n).st.heap b ≠ none; rw [hB]; simp, by rw [upd_same, ← he]; exact h2⟩
    · have heb : e ≠ b := by rintro rfl; exact h1 A.old
      exact ⟨e, by show (mv w id a n).st.heap e ≠ none; rw [hO e he heb]; exact h1, by rw [ab0 e heb]; exact h2⟩
  · intro c m hm
    replace hm : (mv w id a n).st.heap c = some m := hm
    have : ∃ c0, w.st.heap c0 = some m ∧ upd ab b (ab a) c = ab c0 := by
      rcases live c (by rw [hm]; simp) with rfl | ⟨k1, k2, k3⟩
      · rw [hB] at hm; cases hm
        exact ⟨a, hn, upd_same _ _ _⟩
      · rw [hO c k1 k2] at hm; exact ⟨c, hm, ab0 c k2⟩
    obtain ⟨c0, h1, h2⟩ := this
    obtain ⟨n', m1, m2, T1, T0⟩ := S.node c0 m h1
    rw [h2]
    refine ⟨n', m1, m2, ?_, ?_⟩
    · obtain ⟨k1, k2⟩ := aft _ T1.1
      exact ⟨k1, k2.trans T1.2⟩
    · obtain ⟨k1, k2⟩ := aft _ T0.1
      exact ⟨k1, k2.trans T0.2⟩
  · intro i
    show d.st.tab i = (upd (mv w id a n).st.tab id (pre ++ b :: post) i).map _
    rw [M.tab]
    have St := S.tab i
    have hl : ∀ c, c ∈ (wt w id (pre ++ a :: post)).st.tab i → c ≠ b := by
      rintro c hc rfl
      obtain ⟨m, hm, _⟩ := (S.tabW i c).1 hc
      have hm : w.st.heap c = some m := hm
      rw [A.old] at hm; cases hm
    have St' : d.st.tab i = (upd w.st.tab id (pre ++ a :: post) i).map ab := St
    have hl' : ∀ c, c ∈ upd w.st.tab id (pre ++ a :: post) i → c ≠ b := hl
    by_cases hi : i = id
    · rw [hi, upd_same] at St' hl' ⊢
      rw [St']
      simp only [List.map_append, List.map_cons, upd_same]
      congr 1
      · apply List.map_congr_left
        intro c hc; exact (ab0 c (hl' c (by simp [hc]))).symm
      · congr 1
        apply List.map_congr_left
        intro c hc; exact (ab0 c (hl' c (by simp [hc]))).symm
    · rw [upd_ne _ _ hi] at St' hl' ⊢
      rw [St']
      apply List.map_congr_left
      intro c hc; exact (ab0 c (hl' c hc)).symm
  · intro i c
    show c ∈ upd (mv w id a n).st.tab id (pre ++ b :: post) i ↔ ∃ m, (mv w id a n).st.heap c = some m ∧ m.var = i
    rw [M.tab]
    have Tw : ∀ c, c ∈ upd w.st.tab id (pre ++ a :: post) i ↔ ∃ m, w.st.heap c = some m ∧ m.var = i := S.tabW i
    by_cases h1 : c = b
    · rw [h1, hB]
      have hbn : b ∉ upd w.st.tab id (pre ++ a :: post) i := by
        intro h; obtain ⟨m, hm, _⟩ := (Tw b).1 h; rw [A.old] at hm; cases hm
      by_cases hi : i = id
      · rw [hi, upd_same]; simp [hv]
      · rw [upd_ne _ _ hi] at hbn ⊢
        constructor
        · intro h; exact absurd h hbn
        · rintro ⟨m, hm, hmv⟩; cases hm; exact absurd (hmv.symm.trans hv) hi
    · by_cases h2 : c = a
      · rw [h2, hA]
        constructor
        · intro h
          exfalso
          by_cases hi : i = id
          · rw [hi, upd_same] at h
            have := (List.perm_middle.nodup_iff).1 nd
            rw [List.nodup_cons] at this
            apply this.1
            rcases List.mem_append.1 h with h | h
            · simp [h]
            · rcases List.mem_cons.1 h with h | h
              · exact absurd h hab
              · simp [h]
          · have := (Tw a).1
            rw [upd_ne _ _ hi] at h this
            obtain ⟨m, hm, hmv⟩ := this h
            rw [hn] at hm; cases hm
            exact hi (hmv.symm.trans hv)
        · rintro ⟨m, hm, _⟩; cases hm
      · rw [hO c h2 h1, ← Tw]
        by_cases hi : i = id
        · rw [hi, upd_same, upd_same]; simp [h1, h2]
        · rw [upd_ne _ _ hi, upd_ne _ _ hi]
  · intro c hc
    show (mv w id a n).st.ref c = _
    rw [ref']
    rcases hc with rfl | hc
    · rw [upd_ne _ _ (Ne.symm A.pos), upd_ne _ _ (Ne.symm A.pos), ab0 0 (Ne.symm A.pos)]
      exact S.ref 0 (Or.inl rfl)
    · rcases live c hc with rfl | ⟨k1, k2, k3⟩
      · rw [upd_same, upd_same]; exact S.ref a (Or.inr alive)
      · rw [upd_ne _ _ k2, upd_ne _ _ k2, ab0 c k2]; exact S.ref c (Or.inr k3)
  · intro c hc
    show (mv w id a n).st.ref c ≤ _
    rw [ref']
    rcases hc with rfl | hc
    · rw [upd_ne _ _ (Ne.symm A.pos), upd_ne _ _ (Ne.symm A.pos)]
      exact S.le 0 (Or.inl rfl)
    · rcases live c hc with rfl | ⟨k1, k2, k3⟩
      · rw [upd_same]; exact S.le a (Or.inr alive)
      · rw [upd_ne _ _ k2, upd_ne _ _ k2]; exact S.le c (Or.inr k3)
  · show (mv w id a n).st.numNodes = _
    have : (mv w id a n).st.numNodes = w.st.numNodes := by unfold mv; rw [hs]; exact A.num
    rw [this]; exact S.num
  · show (mv w id a n).st.gcCheck = _
    have : (mv w id a n).st.gcCheck = w.st.gcCheck := by unfold mv; rw [hs]; exact A.gcc
    rw [this]; exact S.gcc

theorem copyNodes_sim {d : Df.St} {id : Nat} : ∀ (as pre : List Nat) (w : St) (ab : Nat → Nat) (F : Edge → Edge),
    Sim F (wt w id (pre ++ as)) d ab → (pre ++ as).Nodup →
    ∃ w' bs ab', copyNodes id as w = some (w', bs) ∧ Sim (fun e => follow w' (F e)) (wt w' id (pre ++ bs)) d ab' ∧ Mvd id as w ab w' ab' := by
  intro as
  induction as with
  | nil =>
    intro pre w ab F S _
    refine ⟨w, [], ab, rfl, ?_, ⟨fun _ _ => rfl, by simp, fun _ _ _ h => h, fun b n h => Or.inl ⟨h, by simp⟩, fun _ _ _ => rfl, rfl, rfl, rfl⟩⟩
    refine S.congr ?_
    intro a n e hn he
    obtain ⟨n', _, _, T1, T0⟩ := S.node a n hn
    symm
    apply follow_none
    rcases he with rfl | rfl
    · exact S.fw.eok T1.1
    · exact S.fw.eok T0.1
  | cons a as ih =>
    intro pre w ab F S nd
    have ha : a ∈ (wt w id (pre ++ a :: as)).st.tab id := by
      show a ∈ upd w.st.tab id _ id
      rw [upd_same]; simp
    obtain ⟨n, hn, hv⟩ := (S.tabW id a).1 ha
    replace hn : w.st.heap a = some n := hn
    obtain ⟨M1, S1, nb, fb⟩ := mv_sim S nd hn
    generalize hb : (w.st.alloc id).1 = b at M1 S1 nb fb
    have Fw : FwOK w := ⟨⟨S.fw.fr.heap0, S.fw.fr.next_pos, S.fw.fr.heap_next, S.fw.fr.free_nodup, S.fw.fr.free_ok, S.fw.fr.free_disj⟩, S.fw.fw⟩
    have hasl : ∀ c, c ∈ as → ∃ m, w.st.heap c = some m := by
      intro c hc
      have : c ∈ (wt w id (pre ++ a :: as)).st.tab id := by
        show c ∈ upd w.st.tab id _ id
        rw [upd_same]; simp [hc]
      obtain ⟨m, hm, _⟩ := (S.tabW id c).1 this
      exact ⟨m, hm⟩
    have nd' := (List.perm_middle.nodup_iff).1 nd
    rw [List.nodup_cons] at nd'
    have hbn : b ∉ as := fun h => by obtain ⟨m, hm⟩ := hasl b h; rw [nb] at hm; cases hm
    have han : a ∉ as := fun h => nd'.1 (by simp [h])
    have hbp : b ∉ pre := by
      intro h
      have : b ∈ (wt w id (pre ++ a :: as)).st.tab id := by
        show b ∈ upd w.st.tab id _ id
        rw [upd_same]; simp [h]
      obtain ⟨m, hm, _⟩ := (S.tabW id b).1 this
      replace hm : w.st.heap b = some m := hm
      rw [nb] at hm; cases hm
    obtain ⟨w', bs, ab', e1, S2, M2⟩ := ih (pre ++ [b]) (mv w id a n) (upd ab b (ab a)) (fun e => follow (mv w id a n) (F e))
      (by rw [List.append_assoc]; exact S1)
      (by
        rw [List.append_assoc]
        refine (List.perm_middle.nodup_iff).2 ?_
        rw [List.nodup_cons]
        exact ⟨by simp [hbp, hbn], nd'.2⟩)
    have hfa : (mv w id a n).fwd a = some ⟨id, b, false⟩ := by
      unfold mv; rw [hb]; exact upd_same _ _ _
    have hfa' : w'.fwd a = some ⟨id, b, false⟩ := by rw [M2.fwdO a han]; exact hfa
    have hfb' : w'.fwd b = none := by rw [M2.fwdO b hbn]; exact fb
    have hmb : (mv w id a n).st.heap b = some n := by
      obtain ⟨b', n', h1, h2, h3, _⟩ := M1.fwdL a (by simp)
      rw [hfa] at h1; cases h1
      rw [hn] at h2; cases h2
      exact h3
    have hmb' : w'.st.heap b = some n := M2.keep b n hbn hmb
    have abb : ab' b = ab a := by
      rw [M2.abO b hbn (Or.inr (by rw [hmb]; simp))]; exact upd_same _ _ _
    have hl1 : ∀ c, c ∈ as → ∃ m, w.st.heap c = some m ∧ (mv w id a n).st.heap c = some m ∧ c ≠ b := by
      intro c hc
      obtain ⟨m, hm⟩ := hasl c hc
      exact ⟨m, hm, M1.keep c m (by simp; rintro rfl; exact han hc) hm, fun h => hbn (h ▸ hc)⟩
    have back : ∀ c m, w'.st.heap c = some m → (w.st.heap c = some m ∧ c ∉ a :: as) ∨ (m.var = id ∧ ∃ e, e ∈ a :: as ∧ w.st.heap e = some m) := by
      intro c m hm
      rcases M2.back c m hm with ⟨h1, h2⟩ | ⟨h1, e, h2, h3⟩
      · rcases M1.back c m h1 with ⟨h4, h5⟩ | ⟨h4, e, h5, h6⟩
        · exact Or.inl ⟨h4, by simp at h5; simp [h5, h2]⟩
        · exact Or.inr ⟨h4, e, by simp at h5; simp [h5], h6⟩
      · obtain ⟨m', h4, h5, _⟩ := hl1 e h2
        rw [h3] at h5; cases h5
        exact Or.inr ⟨h1, e, by simp [h2], h4⟩
    refine ⟨w', b :: bs, ab', ?_, ?_, ?_⟩
    · rw [copyNodes, hn]
      simp only
      have : ({ w with
          st := { (w.st.alloc id).2 with
            heap := upd (upd (w.st.alloc id).2.heap (w.st.alloc id).1 (some n)) a none
            ref := upd (w.st.alloc id).2.ref (w.st.alloc id).1 ((w.st.alloc id).2.ref a) }
          fwd := upd (upd w.fwd (w.st.alloc id).1 none) a (some ⟨id, (w.st.alloc id).1, false⟩) } : St) = mv w id a n := rfl
      rw [this, e1, hb]
    · rw [List.append_assoc] at S2
      refine S2.congr ?_
      intro c m e hm he
      replace hm : w'.st.heap c = some m := hm
      have : ∃ c0, w.st.heap c0 = some m := by
        rcases back c m hm with ⟨h, _⟩ | ⟨_, e, _, h⟩
        · exact ⟨_, h⟩
        · exact ⟨_, h⟩
      obtain ⟨c0, hc0⟩ := this
      obtain ⟨n', _, _, T1, T0⟩ := S.node c0 m hc0
      have hE : w.st.EOK (F e) := by
        rcases he with rfl | rfl
        · exact T1.1
        · exact T0.1
      show follow w' (follow (mv w id a n) (F e)) = follow w' (F e)
      by_cases hx : (F e).addr = a
      · have h1 : (mv w id a n).fwd (F e).addr = some ⟨id, b, false⟩ := by rw [hx]; exact hfa
        have h2 : w'.fwd (F e).addr = some ⟨id, b, false⟩ := by rw [hx]; exact hfa'
        rw [follow_some h1, follow_some h2]
        exact follow_none hfb'
      · have h1 : (mv w id a n).fwd (F e).addr = none := by
          rw [M1.fwdO _ (by simpa using hx)]; exact Fw.eok hE
        rw [follow_none h1]
    · refine ⟨?_, ?_, ?_, back, ?_, M2.ord.trans M1.ord, ?_, M2.tab.trans M1.tab⟩
      · intro c hc
        simp only [List.mem_cons, not_or] at hc
        rw [M2.fwdO c hc.2, M1.fwdO c (by simpa using hc.1)]
      · intro c hc
        rcases List.mem_cons.1 hc with rfl | hc
        · exact ⟨b, n, hfa', hn, hmb', abb, hv⟩
        · obtain ⟨b', m, h1, h2, h3, h4, h5⟩ := M2.fwdL c hc
          obtain ⟨m', k1, k2, k3⟩ := hl1 c hc
          rw [k2] at h2; cases h2
          exact ⟨b', m, h1, k1, h3, by rw [h4, upd_ne _ _ k3], h5⟩
      · intro c m hc hm
        simp only [List.mem_cons, not_or] at hc
        exact M2.keep c m hc.2 (M1.keep c m (by simpa using hc.1) hm)
      · intro c hcn hc
        simp only [List.mem_cons, not_or] at hcn
        have h1 : upd ab b (ab a) c = ab c := M1.abO c (by simpa using hcn.1) hc
        rw [M2.abO c hcn.2 ?_, h1]
        rcases hc with h | h
        · exact Or.inl h
        · cases hq : w.st.heap c with
          | none => exact absurd hq h
          | some m => exact Or.inr (by rw [M1.keep c m (by simpa using hcn.1) hq]; simp)
      · rw [M2.eqs, M1.eqs]

section
variable {ext : Nat → Nat} {δ0 : Nat → BFn} {d0 : Df.St} {Root : Edge → Prop} {u0 v0 : Nat → Option Edge}
variable {w : St} {d : Df.St} {ab : Nat → Nat}

/-- `CalBddPackNodesAfterReorderForSingleId` for the variable that has been sifted: nothing is forwarded
afterwards. -/
theorem pack_spec (B : BInv ext δ0 d0 Root u0 v0 w d ab) {v k s hi : Nat} (p : Ph Root true v k s hi w d ab) :
    ∃ w' ab', pack w k = some w' ∧ BInv ext δ0 d0 Root u0 v0 w' d ab' ∧ Clean Root w' ∧ w'.st.ord = w.st.ord := by
  have P := B.r.inv.w
  have W := B.ordWF
  have S := B.sim
  have hidx := p.idx
  have lv := W.lvl_indexToId p.lt
  rw [hidx] at lv
  let w0 : St := { w with st := { w.st with free := upd w.st.free v [] } }
  have F0 : FwOK w0 := by
    refine ⟨⟨S.fw.fr.heap0, S.fw.fr.next_pos, S.fw.fr.heap_next, ?_, ?_, ?_⟩, ?_⟩
    · intro i
      show (upd w.st.free v [] i).Nodup
      by_cases hi : i = v
      · rw [hi, upd_same]; exact List.nodup_nil
      · rw [upd_ne _ _ hi]; exact S.fw.fr.free_nodup i
    · intro i a ha
      replace ha : a ∈ upd w.st.free v [] i := ha
      by_cases hi : i = v
      · rw [hi, upd_same] at ha; cases ha
      · rw [upd_ne _ _ hi] at ha; exact S.fw.fr.free_ok i a ha
    · intro i j a h1 h2
      replace h1 : a ∈ upd w.st.free v [] i := h1
      replace h2 : a ∈ upd w.st.free v [] j := h2
      by_cases hi : i = v
      · rw [hi, upd_same] at h1; cases h1
      · by_cases hj : j = v
        · rw [hj, upd_same] at h2; cases h2
        · rw [upd_ne _ _ hi] at h1; rw [upd_ne _ _ hj] at h2; exact S.fw.fr.free_disj i j a h1 h2
    · intro a t ht
      obtain ⟨h1, h2, h3, h4, h5⟩ := S.fw.fw a t ht
      refine ⟨h1, h2, h3, ?_, h5⟩
      intro i hi'
      replace hi' : a ∈ upd w.st.free v [] i := hi'
      by_cases hi : i = v
      · rw [hi, upd_same] at hi'; cases hi'
      · rw [upd_ne _ _ hi] at hi'; exact h4 i hi'
  have hwt : wt w0 v ([] ++ w.st.tab v) = w0 := by
    unfold wt
    show ({ w0 with st := { w0.st with tab := upd w.st.tab v ([] ++ w.st.tab v) } } : St) = w0
    rw [List.nil_append, upd_self]
  have S0 : Sim (follow w) w0 d ab :=
    ⟨S.ord, S.zero, F0, S.inj, S.sur, S.node, S.tab, S.tabW, S.ref, S.le, S.num, S.gcc, S.mat⟩
  have nd : ([] ++ w.st.tab v).Nodup := by
    rw [List.nil_append]
    have := P.tab_nodup v
    rw [S.tab] at this
    exact List.Pairwise.of_map ab (fun a b h h' => h (by rw [h'])) this
  obtain ⟨w1, bs, ab1, e1, S1, M⟩ := copyNodes_sim (w.st.tab v) [] w0 ab (follow w) (by rw [hwt]; exact S0) nd
  rw [List.nil_append] at S1
  let w2 : St := wt w1 v bs
  have hL : ∀ a, a ∈ w.st.tab v → ∃ n, w0.st.heap a = some n ∧ n.var = v := fun a ha => (S.tabW v a).1 ha
  have aft := fun r (hr : w.st.EOK r) => M.after F0 hL (r := r) hr
  have E1 : w1 = { w with st := w1.st, fwd := w1.fwd } := M.eqs
  have ho : w1.st.ord = w.st.ord := M.ord
  -- nodes that are not moved
  have keepE : ∀ e, w.st.EOK e → e.id ≠ v → w1.st.EOK e ∧ w1.fwd e.addr = none := by
    intro e he hne
    have hm : e.addr ∉ w.st.tab v := by
      intro h
      obtain ⟨n, hn, hv⟩ := (S.tabW v e.addr).1 h
      rcases he with ⟨_, h0⟩ | ⟨m, hm, hv'⟩
      · rw [h0, S.fw.fr.heap0] at hn; cases hn
      · rw [hn] at hm; cases hm; exact hne (hv'.symm.trans hv)
    refine ⟨?_, by rw [M.fwdO _ hm]; exact S.fw.eok he⟩
    rcases he with h | ⟨m, hm', hv'⟩
    · exact Or.inl h
    · exact Or.inr ⟨m, M.keep _ m hm hm', hv'⟩
  -- one step is enough
  have one : ∀ e, Trk Root w e → follow w1 (follow w e) = follow w1 e := by
    intro e he
    cases ht : w.fwd e.addr with
    | none => rw [follow_none ht]
    | some t =>
      have hm := (p.tgt e t he ht).resolve_left (by simp)
      obtain ⟨t', h1, h2, h3, _⟩ := p.lst _ hm
      rw [ht] at h1; cases h1
      have hne : t.id ≠ v := fun h => by rw [h, lv] at h3; omega
      have hnt : e.addr ∉ w.st.tab v := by
        intro h
        obtain ⟨n, hn, _⟩ := (S.tabW v e.addr).1 h
        rw [S.fw.live hn] at ht; cases ht
      have ht' : w1.fwd e.addr = some t := by rw [M.fwdO _ hnt]; exact ht
      rw [follow_some ht, follow_some ht', follow_none]
      exact (keepE t h2 hne).2
  have trk1 : ∀ e, Trk Root w2 e → Trk Root w e := by
    rintro e (⟨a, n, hn, he⟩ | ⟨e0, h0, rfl⟩)
    · rcases M.back a n hn with ⟨h, _⟩ | ⟨_, c, _, h⟩
      · exact Or.inl ⟨a, n, h, he⟩
      · exact Or.inl ⟨c, n, h, he⟩
    · exact Or.inr ⟨e0, h0, by show w1.pipe e0 = _; rw [E1]⟩
  have S2 : Sim (follow w2) w2 d ab1 := S1.congr (fun a n e hn he => one e (trk1 e (Or.inl ⟨a, n, hn, he⟩)))
  -- the variables other than v
  have hvar : ∀ id e, v0 id = some e → id ≠ v → w1.st.EOK (w.pipe e) ∧ w1.fwd (w.pipe e).addr = none := by
    intro id e he hne
    obtain ⟨hR, hI⟩ := B.varR id e he
    have hE := B.varE id e he
    refine keepE _ hE ?_
    intro h
    obtain ⟨t1, t2⟩ := B.root e hR
    rw [S.fw.follow hE] at t1 t2
    rcases hE with ⟨h0, _⟩ | ⟨n, hn, hv'⟩
    · rw [h] at h0; have := W.id_range k p.lt; rw [hidx, h0] at this; omega
    · obtain ⟨n', m1, m2, _⟩ := S.node _ _ hn
      have ha : ab (w.pipe e).addr = e.addr := congrArg Edge.addr t2
      rw [ha] at m1
      have hpos : 0 < ext e.addr := by
        rcases B.rootE e hR with h | h
        · rw [h, P.heap0] at m1; cases m1
        · exact h
      obtain ⟨δ, l, hδ⟩ := B.r.fns
      have d1 := Df.dep_self P l m1
      rw [hδ _ hpos, m2, hv', h] at d1
      exact d1 (hI _ (Ne.symm hne))
  -- everything but `varBdds`
  let v1 : Nat → Option Edge := fun id => if id = v then none else v0 id
  let w2' : St := { w2 with vars := fun a => (v1 a).map w.pipe }
  have B2 : BInv ext δ0 d0 Root u0 v1 w2' d ab1 := by
    refine ⟨?_, B.r, B.nz, ?_, B.rootE, ?_, ?_, ?_, ?_, ?_, ?_, ?_, B.chk⟩
    · exact ⟨S2.ord, S2.zero, ⟨S2.fw.fr, S2.fw.fw⟩, S2.inj, S2.sur, S2.node, S2.tab, S2.tabW, S2.ref, S2.le, S2.num, S2.gcc, S2.mat⟩
    · intro u; show w1.ends u = false; rw [E1]; exact B.ends u
    · intro e he
      obtain ⟨t1, t2⟩ := B.root e he
      obtain ⟨k1, k2⟩ := aft _ t1
      show w1.st.EOK (follow w1 (w1.pipe e)) ∧ absE ab1 (follow w1 (w1.pipe e)) = _
      have hp : w1.pipe = w.pipe := by rw [E1]
      rw [hp, ← one _ (Or.inr ⟨e, he, rfl⟩)]
      exact ⟨k1, k2.trans t2⟩
    · show w1.assocs = d.assocs.map (mapR w1.pipe)
      rw [E1]; exact B.assocs
    · show w1.temp = mapA w1.pipe d.temp
      rw [E1]; exact B.temp
    · show w1.users = fun a => (u0 a).map w1.pipe
      rw [E1]; exact B.users
    · show (fun a => (v1 a).map w.pipe) = fun a => (v1 a).map w1.pipe
      have hp : w1.pipe = w.pipe := by rw [E1]
      rw [hp]
    · intro id e he
      replace he : (if id = v then none else v0 id) = some e := he
      by_cases h : id = v
      · rw [if_pos h] at he; cases he
      · rw [if_neg h] at he; exact B.varR id e he
    · intro id e he
      replace he : (if id = v then none else v0 id) = some e := he
      by_cases h : id = v
      · rw [if_pos h] at he; cases he
      · rw [if_neg h] at he
        show w1.st.EOK (w1.pipe e)
        have hp : w1.pipe = w.pipe := by rw [E1]
        rw [hp]; exact (hvar id e he h).1
  have low : ∀ a n, w2'.st.heap a = some n → k ≤ w2'.st.ord.lvl n.var → w2'.st.EOK n.thn ∧ w2'.st.EOK n.els := by
    intro a n hn hl
    replace hn : w1.st.heap a = some n := hn
    replace hl : k ≤ w1.st.ord.lvl n.var := hl
    rw [ho] at hl
    have : ∃ c, w.st.heap c = some n := by
      rcases M.back a n hn with ⟨h, _⟩ | ⟨_, c, _, h⟩
      · exact ⟨_, h⟩
      · exact ⟨_, h⟩
    obtain ⟨c, hc⟩ := this
    have key : ∀ e, e = n.thn ∨ e = n.els → w.st.EOK e → w1.st.EOK e := by
      intro e he hE
      have := B.kid_lvl hc he
      rw [S.fw.follow hE] at this
      exact (keepE e hE (fun h => by rw [h, lv] at this; omega)).1
    obtain ⟨k1, k2⟩ := p.low c n hc hl
    exact ⟨key _ (Or.inl rfl) k1, key _ (Or.inr rfl) k2⟩
  obtain ⟨h', e3, B3, E3, N3⟩ := fixAbove_spec k B2 (by show k ≤ w1.st.ord.numVars; rw [ho]; have := p.lt; omega) low
  obtain ⟨B4, r4⟩ := fixOutside_spec B3
  -- the same without the change of `varBdds`
  have fa : ∀ (k : Nat) (w : St) (f : Nat → Option Edge), fixAbove k { w with vars := f } = { fixAbove k w with vars := f } := by
    intro k
    induction k with
    | zero => intro w f; rfl
    | succ k ih => intro w f; exact ih (fixCofactors w (w.st.ord.indexToId k)) f
  have e4 : fixAbove k w2 = { fixAbove k w2' with vars := w2.vars } := by
    have := fa k w2' w2.vars
    exact this
  let w4 : St := fixOutside (fixAbove k w2')
  have e5 : fixOutside (fixAbove k w2) = { w4 with vars := w2.vars } := by rw [e4]; rfl
  have hfw : w4.fwd = w1.fwd := by
    show (fixAbove k w2').fwd = _
    rw [e3]
    rfl
  have hpp : w4.pipe = fun e => follow w1 (w.pipe e) := by
    show (fun e => follow (fixAbove k w2') ((fixAbove k w2').pipe e)) = _
    have hp : w1.pipe = w.pipe := by rw [E1]
    funext e
    rw [e3]
    show follow w1 (w1.pipe e) = _
    rw [hp]
  have fw4 : ∀ e, follow w4 e = follow w1 e := by
    intro e; unfold follow; rw [hfw]
  let w5 : St := { w4 with
      vars := upd w.vars v ((w.vars v).map (follow w4))
      ends := upd w4.ends v false
      list := upd w4.list v [] }
  have e6 : pack w k = some w5 := by
    unfold pack
    rw [hidx]
    simp only
    have : copyNodes v (w.st.tab v) { w with st := { w.st with free := upd w.st.free v [] } } = some (w1, bs) := e1
    rw [this]
    simp only
    have h2 : ({ w1 with st := { w1.st with tab := upd w1.st.tab v bs } } : St) = w2 := rfl
    rw [h2, e5]
    have h3 : w2.vars = w.vars := by show w1.vars = _; rw [E1]
    rw [h3]
    congr 1
  have hE4 : ∀ e, Root e → w4.st.EOK (w4.pipe e) := r4
  have hvars : w5.vars = fun a => (v0 a).map w4.pipe := by
    show upd w.vars v ((w.vars v).map (follow w4)) = _
    funext a
    by_cases ha : a = v
    · rw [ha, upd_same, B.vars, Option.map_map, hpp]
      congr 1
      funext e
      exact fw4 _
    · rw [upd_ne _ _ ha, B.vars, hpp]
      show (v0 a).map w.pipe = (v0 a).map _
      cases hq : v0 a with
      | none => rfl
      | some e =>
        simp only [Option.map_some]
        rw [follow_none (hvar a e hq ha).2]
  have B5 : BInv ext δ0 d0 Root u0 v0 w5 d ab1 := by
    have S4 := B4.sim
    refine ⟨⟨S4.ord, S4.zero, ⟨S4.fw.fr, S4.fw.fw⟩, S4.inj, S4.sur, S4.node, S4.tab, S4.tabW, S4.ref, S4.le, S4.num, S4.gcc, S4.mat⟩,
      B4.r, B4.nz, ?_, B4.rootE, B4.root, B4.assocs, B4.temp, B4.users, hvars, B.varR, ?_, B.chk⟩
    · intro u
      show upd w4.ends v false u = false
      by_cases hu : u = v
      · rw [hu, upd_same]
      · rw [upd_ne _ _ hu]; exact B4.ends u
    · intro id e he
      exact hE4 e (B.varR id e he).1
  refine ⟨w5, ab1, e6, B5, ⟨?_, ?_⟩, ?_⟩
  · exact trk_clean (w := w5) N3 hE4
  · intro u
    show upd w4.list v [] u = []
    by_cases hu : u = v
    · rw [hu, upd_same]
    · rw [upd_ne _ _ hu]
      have : w4.list = w.list := by
        show (fixAbove k w2').list = _
        rw [e3]; show w1.list = _; rw [E1]
      rw [this]
      cases hq : w.list u with
      | nil => rfl
      | cons a as =>
        have := (p.sup u (by rw [hq]; simp)).resolve_right (by simp)
        exact absurd this hu
  · show (fixAbove k w2').st.ord = _
    rw [e3]; exact ho

end

end Bfr

end Cal
