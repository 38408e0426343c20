import Verif.BfSim

/-!
# The sweep at the end of an exchange, in both packages
-/

namespace Cal

namespace Bfr

open Df (Fr)

/-- The stores during the sweep of the table of `y`; `Lv` are the nodes there were at the beginning. -/
structure GRel (ab : Nat → Nat) (Lv : Nat → Prop) (y : Nat) (s t : Store) : Prop where
  inj : ∀ a b, Lv a → Lv b → ab a = ab b → a = b
  ref : ∀ a, Lv a → s.ref a = t.ref (ab a)
  taby : t.tab y = (s.tab y).map ab
  lv : ∀ a, a ∈ s.tab y → Lv a
  nodup : (s.tab y).Nodup

/-- What the sweep changes. -/
structure Swept (ab : Nat → Nat) (y : Nat) (as fr : List Nat) (s s' t t' : Store) : Prop where
  heap : s'.heap = fun a => if a ∈ fr then none else s.heap a
  heapD : t'.heap = fun b => if b ∈ fr.map ab then none else t.heap b
  sub : ∀ a, a ∈ fr → a ∈ as
  nodup : fr.Nodup
  tab : ∀ j, j ≠ y → s'.tab j = s.tab j
  taby : ∀ a, a ∈ s'.tab y ↔ a ∈ s.tab y ∧ a ∉ fr
  tabD : ∀ j, j ≠ y → t'.tab j = t.tab j
  free : s'.free = upd s.free y (fr.reverse ++ s.free y)
  next : s'.next = s.next
  ord : s'.ord = s.ord
  num : s'.numNodes = s.numNodes
  gcc : s'.gcCheck = s.gcCheck
  ordD : t'.ord = t.ord
  numD : t'.numNodes = t.numNodes
  gccD : t'.gcCheck = t.gcCheck
  le : ∀ a, s.ref a ≤ maxRef → s'.ref a ≤ maxRef
  same : ∀ b, (∀ a n, a ∈ as → s.heap a = some n → n.thn.addr ≠ b ∧ n.els.addr ≠ b) → s'.ref b = s.ref b
  zero : (∀ a n b, a ∈ as → b ∈ as → s.heap a = some n → n.thn.addr ≠ b ∧ n.els.addr ≠ b) →
    ∀ a, a ∈ as → (a ∈ fr ↔ s.ref a = 0)

theorem upd_self {α : Type} (f : Nat → α) (a : Nat) : upd f a (f a) = f := by
  funext b; unfold upd; split
  · rename_i h; rw [h]
  · rfl

theorem erase_map {ab : Nat → Nat} {a : Nat} : ∀ {l : List Nat}, (∀ b, b ∈ l → ab b = ab a → b = a) → a ∈ l →
    (l.map ab).erase (ab a) = (l.erase a).map ab
  | [], _, h => by cases h
  | b :: l, hi, hm => by
    by_cases h : b = a
    · subst h; simp
    · have h1 : ab b ≠ ab a := fun h' => h (hi b (by simp) h')
      rw [List.map_cons, List.erase_cons_tail (by simpa using h1), List.erase_cons_tail (by simpa using h), List.map_cons,
        erase_map (fun c hc => hi c (by simp [hc])) (by rcases List.mem_cons.1 hm with h' | h'; exact absurd h'.symm h; exact h')]

theorem GRel.dcr {ab Lv y s t} (G : GRel ab Lv y s t) {e : Edge} (he : Lv e.addr) : GRel ab Lv y (s.dcr e) (t.dcr (absE ab e)) := by
  refine ⟨G.inj, ?_, G.taby, G.lv, G.nodup⟩
  intro a ha
  show upd s.ref e.addr _ a = upd t.ref (ab e.addr) _ (ab a)
  by_cases h : a = e.addr
  · subst h; rw [upd_same, upd_same, G.ref _ he]; rfl
  · rw [upd_ne _ _ h, upd_ne _ _ (fun h' => h (G.inj _ _ ha he h'))]; exact G.ref a ha

theorem gcList_sim {ab : Nat → Nat} {Lv : Nat → Prop} {y : Nat} : ∀ (as : List Nat) (s t : Store), GRel ab Lv y s t → as.Nodup →
    (∀ a, a ∈ as → a ∈ s.tab y ∧ ∃ n, s.heap a = some n ∧ t.heap (ab a) = some (absN ab n) ∧ Lv n.thn.addr ∧ Lv n.els.addr) →
    ∃ s' t' fr, Store.gcList y y as s = some (s', fr) ∧ Store.gcList 0 y (as.map ab) t = some (t', fr.map ab) ∧
      GRel ab Lv y s' t' ∧ Swept ab y as fr s s' t t'
  | [], s, t, G, _, _ => ⟨s, t, [], rfl, rfl, G, ⟨by simp, by simp, by simp, by simp, fun _ _ => rfl, by simp, fun _ _ => rfl,
      by simp [upd_self], rfl, rfl, rfl, rfl, rfl, rfl, rfl, fun _ h => h, fun _ _ => rfl, by simp⟩⟩
  | a :: as, s, t, G, nd, H => by
    obtain ⟨hat, n, hn, hn', l1, l0⟩ := H a (by simp)
    have nd' := List.nodup_cons.1 nd
    have hla := G.lv a hat
    simp only [List.map_cons, Store.gcList, hn, hn', ← G.ref a hla]
    by_cases hr : s.ref a = 0
    · rw [if_pos hr, if_pos hr]
      have G1 := (G.dcr l1).dcr l0
      have ie : ∀ b, b ∈ s.tab y → ab b = ab a → b = a := fun b hb h => G.inj b a (G.lv b hb) hla h
      have G2 : GRel ab Lv y (s.freeNode y y a n) (t.freeNode 0 y (ab a) (absN ab n)) := by
        refine ⟨G.inj, G1.ref, ?_, ?_, ?_⟩
        · show upd t.tab y ((t.tab y).erase (ab a)) y = (upd s.tab y ((s.tab y).erase a) y).map ab
          rw [upd_same, upd_same, G.taby, erase_map ie hat]
        · intro b hb
          have hb : b ∈ upd s.tab y ((s.tab y).erase a) y := hb
          rw [upd_same] at hb
          exact G.lv b (List.mem_of_mem_erase hb)
        · show (upd s.tab y ((s.tab y).erase a) y).Nodup
          rw [upd_same]; exact G.nodup.erase a
      obtain ⟨s', t', fr, e1, e2, G3, S⟩ := gcList_sim as _ _ G2 nd'.2 (by
        intro b hb
        obtain ⟨h1, m, h2, h3, h4⟩ := H b (by simp [hb])
        have hba : b ≠ a := by rintro rfl; exact nd'.1 hb
        refine ⟨?_, m, ?_, ?_, h4⟩
        · show b ∈ upd s.tab y ((s.tab y).erase a) y
          rw [upd_same]; exact (List.mem_erase_of_ne hba).2 h1
        · show upd s.heap a none b = _
          rw [upd_ne _ _ hba]; exact h2
        · show upd t.heap (ab a) none (ab b) = _
          rw [upd_ne _ _ (fun h => hba (ie b h1 h))]; exact h3)
      have hfra : a ∉ fr := fun h => nd'.1 (S.sub a h)
      have hdc : ∀ b, n.thn.addr ≠ b → n.els.addr ≠ b → (s.freeNode y y a n).ref b = s.ref b := by
        intro b h1 h2
        show ((s.dcr n.thn).dcr n.els).ref b = _
        rw [dcr_ne (Ne.symm h2), dcr_ne (Ne.symm h1)]
      refine ⟨s', t', a :: fr, by rw [e1], by rw [e2]; rfl, G3, ?_⟩
      refine ⟨?_, ?_, ?_, List.nodup_cons.2 ⟨hfra, S.nodup⟩, ?_, ?_, ?_, ?_, S.next, S.ord, S.num, S.gcc, S.ordD, S.numD, S.gccD, ?_, ?_, ?_⟩
      · rw [S.heap]; funext b
        show (if b ∈ fr then none else upd s.heap a none b) = _
        by_cases h : b = a
        · subst h; simp [upd_same]
        · simp [upd_ne _ _ h, h]
      · rw [S.heapD]; funext b
        show (if b ∈ fr.map ab then none else upd t.heap (ab a) none b) = _
        by_cases h : b = ab a
        · subst h; simp only [upd_same, List.map_cons]; rw [if_pos List.mem_cons_self]; split <;> rfl
        · rw [upd_ne _ _ h]
          have : b ∈ List.map ab (a :: fr) ↔ b ∈ List.map ab fr := by rw [List.map_cons, List.mem_cons]; simp [h]
          by_cases h' : b ∈ List.map ab fr
          · rw [if_pos h', if_pos (this.2 h')]
          · rw [if_neg h', if_neg (fun h'' => h' (this.1 h''))]
      · intro b hb
        rcases List.mem_cons.1 hb with rfl | hb
        · simp
        · exact List.mem_cons_of_mem _ (S.sub b hb)
      · intro j hj; rw [S.tab j hj]; exact upd_ne _ _ hj
      · intro b
        rw [S.taby]
        show b ∈ upd s.tab y ((s.tab y).erase a) y ∧ _ ↔ _
        rw [upd_same, List.Nodup.mem_erase_iff G.nodup]
        simp only [List.mem_cons, not_or]
        constructor
        · rintro ⟨⟨h1, h2⟩, h3⟩; exact ⟨h2, h1, h3⟩
        · rintro ⟨h2, h1, h3⟩; exact ⟨⟨h1, h2⟩, h3⟩
      · intro j hj; rw [S.tabD j hj]; exact upd_ne _ _ hj
      · rw [S.free]
        show upd (upd s.free y (a :: s.free y)) y (fr.reverse ++ upd s.free y (a :: s.free y) y) = _
        funext j
        by_cases h : j = y
        · subst h; rw [upd_same, upd_same, upd_same]; simp
        · rw [upd_ne _ _ h, upd_ne _ _ h, upd_ne _ _ h]
      · intro b hb
        apply S.le
        show ((s.dcr n.thn).dcr n.els).ref b ≤ maxRef
        have dle : ∀ (u : Store) (e : Edge), u.ref b ≤ maxRef → (u.dcr e).ref b ≤ maxRef := by
          intro u e hu
          by_cases h : b = e.addr
          · subst h; simp only [Store.dcr, upd_same]; split <;> omega
          · rw [dcr_ne h]; exact hu
        exact dle _ _ (dle _ _ hb)
      · intro b hb
        have ha := hb a n (by simp) hn
        rw [S.same b, hdc b ha.1 ha.2]
        intro c m hc hm
        have hca : c ≠ a := by rintro rfl; exact nd'.1 hc
        have hm : upd s.heap a none c = some m := hm
        rw [upd_ne _ _ hca] at hm
        exact hb c m (by simp [hc]) hm
      · intro hk c hc
        have hh : ∀ c' m, (s.freeNode y y a n).heap c' = some m → c' ∈ as → s.heap c' = some m := by
          intro c' m hm hc'
          have hca : c' ≠ a := by rintro rfl; exact nd'.1 hc'
          have hm : upd s.heap a none c' = some m := hm
          rw [upd_ne _ _ hca] at hm; exact hm
        rcases List.mem_cons.1 hc with rfl | hc'
        · simp [hr]
        · have hca : c ≠ a := by rintro rfl; exact nd'.1 hc'
          have := S.zero (by
            intro a' m b ha' hb hm
            exact hk a' m b (by simp [ha']) (by simp [hb]) (hh a' m hm ha')) c hc'
          have hka := hk a n c (by simp) (by simp [hc']) hn
          rw [hdc c hka.1 hka.2] at this
          simp [hca, this]
    · rw [if_neg hr, if_neg hr]
      obtain ⟨s', t', fr, e1, e2, G3, S⟩ := gcList_sim as s t G nd'.2 (fun b hb => H b (by simp [hb]))
      refine ⟨s', t', fr, e1, e2, G3, ⟨S.heap, S.heapD, fun b hb => List.mem_cons_of_mem _ (S.sub b hb), S.nodup, S.tab, S.taby, S.tabD,
        S.free, S.next, S.ord, S.num, S.gcc, S.ordD, S.numD, S.gccD, S.le, ?_, ?_⟩⟩
      · intro b hb
        exact S.same b (fun c m hc hm => hb c m (by simp [hc]) hm)
      · intro hk c hc
        rcases List.mem_cons.1 hc with rfl | hc'
        · have : c ∉ fr := fun h => nd'.1 (S.sub c h)
          simp [this, hr]
        · exact S.zero (fun a' m b ha' hb hm => hk a' m b (by simp [ha']) (by simp [hb]) hm) c hc'

/-- The free lists after the sweep. -/
theorem Swept.fr {ab y as fr s s' t t'} (S : Swept ab y as fr s s' t t') (f : Fr s) (live : ∀ a, a ∈ as → s.heap a ≠ none) : Fr s' := by
  have nofree : ∀ a i, a ∈ fr → a ∉ s.free i := by
    intro a i ha hi
    exact live a (S.sub a ha) (f.free_ok i a hi).1
  have mem : ∀ i a, a ∈ s'.free i → (i = y ∧ a ∈ fr) ∨ a ∈ s.free i := by
    intro i a ha
    rw [S.free] at ha
    by_cases h : i = y
    · subst h
      rw [upd_same, List.mem_append, List.mem_reverse] at ha
      rcases ha with ha | ha
      · exact Or.inl ⟨rfl, ha⟩
      · exact Or.inr ha
    · rw [upd_ne _ _ h] at ha; exact Or.inr ha
  have hold : ∀ a n, s'.heap a = some n → s.heap a = some n := by
    intro a n h
    rw [S.heap] at h
    simp only at h
    split at h
    · cases h
    · exact h
  refine ⟨?_, by rw [S.next]; exact f.next_pos, ?_, ?_, ?_, ?_⟩
  · rw [S.heap]; simp only; split
    · rfl
    · exact f.heap0
  · intro a n h; rw [S.next]; exact f.heap_next a n (hold a n h)
  · intro i
    rw [S.free]
    by_cases h : i = y
    · subst h
      rw [upd_same, List.nodup_append]
      refine ⟨(List.reverse_perm _).nodup_iff.2 S.nodup, f.free_nodup i, ?_⟩
      rintro a ha b hb rfl
      exact nofree a i (List.mem_reverse.1 ha) hb
    · rw [upd_ne _ _ h]; exact f.free_nodup i
  · intro i a ha
    rcases mem i a ha with ⟨_, h⟩ | h
    · refine ⟨by rw [S.heap]; simp [h], ?_⟩
      have hl := live a (S.sub a h)
      cases hn : s.heap a with
      | none => exact absurd hn hl
      | some n =>
        have h1 := f.heap_next a n hn
        have h0 : a ≠ 0 := by rintro rfl; rw [f.heap0] at hn; cases hn
        rw [S.next]; omega
    · have := f.free_ok i a h
      refine ⟨?_, by rw [S.next]; exact this.2⟩
      rw [S.heap]; simp only; split
      · rfl
      · exact this.1
  · intro i j a hi hj
    rcases mem i a hi with ⟨h1, h2⟩ | h1 <;> rcases mem j a hj with ⟨h3, h4⟩ | h3
    · rw [h1, h3]
    · exact absurd h3 (nofree a j h2)
    · exact absurd h1 (nofree a i h4)
    · exact f.free_disj i j a h1 h3

end Bfr

end Cal
