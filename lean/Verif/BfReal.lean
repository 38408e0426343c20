import Verif.BfWindow
import Verif.BfClean

/-!
# Exchanges do not depend on most forwarding pointers

While a window is permuted, chains of forwarding nodes arise. An exchange reads the forwarding pointers of the
children of the upper variable only, and writes those of the nodes it forwards.
-/

namespace Cal

namespace Bfr

/-- The state with other forwarding pointers and `endNode`s. -/
def re (v : St) (g : Nat → Option Edge) (h : Nat → Bool) : St := { v with fwd := g, ends := h }

/-- Both forwarding pointers have been written alike, or neither; only nodes in `T` have become forwarding nodes. -/
def Wr (T : Nat → Prop) (g f g' f' : Nat → Option Edge) : Prop :=
  ∀ a, (g' a = f' a ∧ (f' a = none ∨ T a)) ∨ (g' a = g a ∧ f' a = f a)

theorem Wr.refl (T : Nat → Prop) (g f : Nat → Option Edge) : Wr T g f g f := fun _ => Or.inr ⟨rfl, rfl⟩

theorem Wr.mono {T T' : Nat → Prop} {g f g' f' : Nat → Option Edge} (h : Wr T g f g' f') (k : ∀ a, T a → T' a) : Wr T' g f g' f' :=
  fun a => (h a).imp_left fun q => ⟨q.1, q.2.imp_right (k a)⟩

theorem Wr.trans {T : Nat → Prop} {g f g' f' g2 f2 : Nat → Option Edge} (h : Wr T g f g' f') (h' : Wr T g' f' g2 f2) : Wr T g f g2 f2 := by
  intro a
  rcases h' a with k | ⟨k1, k2⟩
  · exact Or.inl k
  · rcases h a with ⟨q, q'⟩ | ⟨q1, q2⟩
    · exact Or.inl ⟨by rw [k1, k2, q], by rw [k2]; exact q'⟩
    · exact Or.inr ⟨k1.trans q1, k2.trans q2⟩

theorem Wr.updN (T : Nat → Prop) (g f : Nat → Option Edge) (a : Nat) : Wr T g f (upd g a none) (upd f a none) := by
  intro b
  by_cases h : b = a
  · left; rw [h, upd_same, upd_same]; exact ⟨rfl, Or.inl rfl⟩
  · right; exact ⟨upd_ne _ _ h, upd_ne _ _ h⟩

theorem Wr.updS {T : Nat → Prop} (g f : Nat → Option Edge) {a : Nat} (x : Option Edge) (k : T a) : Wr T g f (upd g a x) (upd f a x) := by
  intro b
  by_cases h : b = a
  · left; rw [h, upd_same, upd_same]; exact ⟨rfl, Or.inr k⟩
  · right; exact ⟨upd_ne _ _ h, upd_ne _ _ h⟩

theorem findOrAdd_re (T : Nat → Prop) (v : St) (g h) (x : Nat) (t e : Edge) :
    ∃ g', findOrAdd (re v g h) x t e = (re (findOrAdd v x t e).1 g' h, (findOrAdd v x t e).2) ∧
      Wr T g v.fwd g' (findOrAdd v x t e).1.fwd := by
  unfold findOrAdd
  simp only [re]
  by_cases hc : (v.st.findOrAdd x t e).2.2 = true
  · simp only [hc, if_true]
    exact ⟨g, rfl, Wr.refl _ _ _⟩
  · simp only [hc, if_false]
    exact ⟨_, rfl, Wr.updN _ _ _ _⟩

theorem newChild_re (T : Nat → Prop) (v : St) (g h) (x : Nat) (t e : Edge) :
    ∃ g', newChild (re v g h) x t e = (re (newChild v x t e).1 g' h, (newChild v x t e).2) ∧
      Wr T g v.fwd g' (newChild v x t e).1.fwd := by
  unfold newChild
  by_cases hc : t = e
  · simp only [if_pos hc]
    exact ⟨g, rfl, Wr.refl _ _ _⟩
  · simp only [if_neg hc]
    obtain ⟨g', h1, h2⟩ := findOrAdd_re T v g h x t e
    rw [h1]
    exact ⟨g', rfl, h2⟩

theorem swapNode_re {v v' : St} {i x y f : Nat} (g h) (e : swapNode v i x y f = some v') :
    ∃ g', swapNode (re v g h) i x y f = some (re v' g' h) ∧ Wr (· = f) g v.fwd g' v'.fwd := by
  unfold swapNode at e ⊢
  have hh : (re v g h).st.heap f = v.st.heap f := rfl
  rw [hh]
  cases hn : v.st.heap f with
  | none => rw [hn] at e; cases e
  | some n =>
    rw [hn] at e
    simp only at e ⊢
    cases hk : cofs v.st i n.thn n.els with
    | none => rw [hk] at e; cases e
    | some k =>
      obtain ⟨⟨f11, f10⟩, f01, f00⟩ := k
      rw [hk] at e
      have hk' : cofs (re v g h).st i n.thn n.els = some ((f11, f10), (f01, f00)) := hk
      rw [hk']
      simp only at e ⊢
      obtain ⟨g1, a1, w1⟩ := newChild_re (· = f) v g h x f10 f00
      rw [a1]
      generalize newChild v x f10 f00 = r1 at e w1 ⊢
      obtain ⟨v1, newF0, found0⟩ := r1
      simp only at e w1 ⊢
      obtain ⟨g2, a2, w2⟩ := newChild_re (· = f) v1 g1 h x f11 f01
      rw [a2]
      generalize newChild v1 x f11 f01 = r2 at e w2 ⊢
      obtain ⟨v2, newF1, found1⟩ := r2
      simp only [Option.some.injEq] at e w2 ⊢
      subst e
      refine ⟨_, rfl, (w1.trans w2).trans ?_⟩
      exact (Wr.updN _ g2 v2.fwd _).trans (Wr.updS _ _ _ rfl)

theorem swapList_re {i x y : Nat} : ∀ (l : List Nat) {v v' : St} (g h), swapList i x y l v = some v' →
    ∃ g', swapList i x y l (re v g h) = some (re v' g' h) ∧ Wr (· ∈ l) g v.fwd g' v'.fwd := by
  intro l
  induction l with
  | nil => intro v v' g h e; cases e; exact ⟨g, rfl, Wr.refl _ _ _⟩
  | cons f fs ih =>
    intro v v' g h e
    rw [swapList] at e
    cases hs : swapNode v i x y f with
    | none => rw [hs] at e; cases e
    | some v1 =>
      rw [hs] at e
      obtain ⟨g1, a1, w1⟩ := swapNode_re g h hs
      obtain ⟨g2, a2, w2⟩ := ih g1 h e
      refine ⟨g2, ?_, (w1.mono fun a (h : a = f) => by simp [h]).trans (w2.mono fun a h => by simp [h])⟩
      rw [swapList, a1]; exact a2

/-- The forwarding pointers that are read agree. -/
def Agree (v : St) (g : Nat → Option Edge) (x : Nat) : Prop :=
  ∀ a n, a ∈ v.st.tab x → v.st.heap a = some n → g n.thn.addr = v.fwd n.thn.addr ∧ g n.els.addr = v.fwd n.els.addr

theorem follow_re {v : St} {g h} {e : Edge} (k : g e.addr = v.fwd e.addr) : follow (re v g h) e = follow v e := by
  unfold follow
  have hh : (re v g h).fwd e.addr = v.fwd e.addr := k
  rw [hh]

theorem Agree.kids {v : St} {g h} {x : Nat} (A : Agree v g x) {a n} (ha : a ∈ v.st.tab x) (hn : v.st.heap a = some n) :
    followKids (re v g h) n = followKids v n := by
  unfold followKids
  rw [follow_re (A a n ha hn).1, follow_re (A a n ha hn).2]

theorem split_re {v : St} {flag : Bool} {i x : Nat} (g h) (A : flag = true → Agree v g x) : ∀ (as l : List Nat),
    (∀ a, a ∈ as → a ∈ v.st.tab x) → split (re v g h) flag i as l = split v flag i as l := by
  intro as
  induction as with
  | nil => intro l _; rfl
  | cons a as ih =>
    intro l ha
    rw [split, split]
    show (match v.st.heap a with | none => none | some n => _) = _
    cases hn : v.st.heap a with
    | none => rfl
    | some n =>
      simp only
      have hm : (if flag = true then followKids (re v g h) n else n) = if flag = true then followKids v n else n := by
        by_cases hf : flag = true
        · rw [if_pos hf, if_pos hf, (A hf).kids (ha a (by simp)) hn]
        · rw [if_neg hf, if_neg hf]
      rw [hm, ih _ fun b hb => ha b (by simp [hb]), ih _ fun b hb => ha b (by simp [hb])]
      rfl

theorem split_sub {v : St} {flag : Bool} {i : Nat} : ∀ (as l : List Nat) {k r}, split v flag i as l = some (k, r) →
    ∀ a, a ∈ r → a ∈ as ∨ a ∈ l := by
  intro as
  induction as with
  | nil => intro l k r e a ha; rw [split] at e; cases e; exact Or.inr ha
  | cons b as ih =>
    intro l k r e a ha
    rw [split] at e
    cases hn : v.st.heap b with
    | none => rw [hn] at e; cases e
    | some n =>
      rw [hn] at e
      simp only at e
      generalize (if flag = true then followKids v n else n) = m at e
      split at e
      · split at e
        · cases hs : split v flag i as l with
          | none => rw [hs] at e; cases e
          | some p =>
            rw [hs] at e
            obtain ⟨k1, r1⟩ := p
            simp only [Option.map_some, Option.some.injEq, Prod.mk.injEq] at e
            obtain ⟨-, rfl⟩ := e
            rcases ih l hs a ha with h | h
            · exact Or.inl (by simp [h])
            · exact Or.inr h
        · cases e
      · rcases ih _ e a ha with h | h
        · exact Or.inl (by simp [h])
        · rcases List.mem_cons.1 h with rfl | h
          · exact Or.inl (by simp)
          · exact Or.inr h

theorem swapNodes_re {v v' : St} {flag : Bool} {i x y : Nat} (g h) (A : flag = true → Agree v g x)
    (e : swapNodes v flag i x y = some v') :
    ∃ g', swapNodes (re v g h) flag i x y = some (re v' g' h) ∧ Wr (· ∈ v.st.tab x) g v.fwd g' v'.fwd := by
  unfold swapNodes at e ⊢
  have hs : split (re v g h) flag i ((re v g h).st.tab x) [] = split v flag i (v.st.tab x) [] :=
    split_re g h A _ _ fun _ h => h
  rw [hs]
  cases hq : split v flag i (v.st.tab x) [] with
  | none => rw [hq] at e; cases e
  | some p =>
    obtain ⟨keep, l⟩ := p
    rw [hq] at e
    simp only at e ⊢
    have hsub : ∀ a, a ∈ l → a ∈ v.st.tab x := by
      intro a ha
      exact (split_sub _ _ hq a ha).resolve_right (by simp)
    have h0 : (if flag = true then redirect (re v g h) l else re v g h) = re (if flag = true then redirect v l else v) g h := by
      by_cases hf : flag = true
      · rw [if_pos hf, if_pos hf]
        unfold redirect
        simp only [re]
        congr 2
        funext a
        by_cases ha : a ∈ l
        · rw [if_pos ha, if_pos ha]
          cases hn : v.st.heap a with
          | none => rfl
          | some n =>
            simp only [Option.map_some]
            congr 1
            exact (A hf).kids (h := h) (hsub a ha) hn
        · rw [if_neg ha, if_neg ha]
      · rw [if_neg hf, if_neg hf]
    rw [h0]
    have hf0 : (if flag = true then redirect v l else v).fwd = v.fwd := by split <;> rfl
    rw [← hf0]
    generalize (if flag = true then redirect v l else v) = v0 at e ⊢
    cases hl : swapList i x y l { v0 with st := { v0.st with tab := upd v0.st.tab x keep, numNodes := v0.st.numNodes - l.length } } with
    | none => rw [hl] at e; cases e
    | some v2 =>
      rw [hl] at e
      simp only at e
      obtain ⟨g2, a2, w2⟩ := swapList_re l g h hl
      have : swapList i x y l { re v0 g h with st := { (re v0 g h).st with tab := upd (re v0 g h).st.tab x keep, numNodes := (re v0 g h).st.numNodes - l.length } } = some (re v2 g2 h) := a2
      rw [this]
      simp only
      cases hg : v2.st.gcTable y y with
      | none => rw [hg] at e; cases e
      | some r =>
        obtain ⟨s', q⟩ := r
        rw [hg] at e
        cases e
        have hg' : (re v2 g2 h).st.gcTable y y = some (s', q) := hg
        rw [hg']
        exact ⟨g2, rfl, w2.mono hsub⟩

theorem swap_re {v v' : St} {flag : Bool} {i : Nat} (g h) (A : flag = true → Agree v g (v.st.ord.indexToId i))
    (e : swap v i flag = some v') :
    ∃ g', swap (re v g h) i flag = some (re v' g' h) ∧ Wr (· ∈ v.st.tab (v.st.ord.indexToId i)) g v.fwd g' v'.fwd := by
  unfold swap at e ⊢
  simp only at e ⊢
  show ∃ g', (if i + 1 < v.st.ord.numVars then _ else none) = _ ∧ _
  by_cases hi : i + 1 < v.st.ord.numVars
  · rw [if_pos hi] at e ⊢
    have hh : Interact.test (re v g h).st.ord.numVars (re v g h).mat ((re v g h).st.ord.indexToId i)
        ((re v g h).st.ord.indexToId (i + 1)) =
      Interact.test v.st.ord.numVars v.mat (v.st.ord.indexToId i) (v.st.ord.indexToId (i + 1)) := rfl
    rw [hh]
    cases ht : Interact.test v.st.ord.numVars v.mat (v.st.ord.indexToId i) (v.st.ord.indexToId (i + 1)) with
    | none => rw [ht] at e; cases e
    | some b =>
      rw [ht] at e
      cases b with
      | true =>
        simp only at e ⊢
        cases hs : swapNodes { v with swaps := v.swaps + 1 } flag i (v.st.ord.indexToId i) (v.st.ord.indexToId (i + 1)) with
        | none => rw [hs] at e; cases e
        | some v1 =>
          rw [hs] at e
          simp only [Option.map_some, Option.some.injEq] at e
          subst e
          obtain ⟨g1, a1, w1⟩ := swapNodes_re g h (v := { v with swaps := v.swaps + 1 }) A hs
          have : swapNodes { re v g h with swaps := (re v g h).swaps + 1 } flag i ((re v g h).st.ord.indexToId i) ((re v g h).st.ord.indexToId (i + 1)) =
            some (re v1 g1 h) := a1
          rw [this]
          exact ⟨g1, rfl, w1⟩
      | false =>
        simp only at e ⊢
        cases e
        exact ⟨g, rfl, Wr.refl _ _ _⟩
  · rw [if_neg hi] at e; cases e

end Bfr

end Cal
