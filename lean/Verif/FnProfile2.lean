import Verif.FnProfile

/-!
# Function profiles: the traversals
-/

namespace Cal

variable {s : Store}

/-- `x` is a child of `p`. -/
def KidOf (s : Store) (p x : Edge) : Prop := ∃ t u, s.kids p = some (t, u) ∧ (x = t ∨ x = u)

/-- There is an entry for `x` with at most `i`. -/
def AtMost (h : HRef) (x : Edge) (i : Int) : Prop := ∃ v, h.get x = some v ∧ v ≤ i

/-- What `BddHighestRefStep` (calBddSize.c:436-470) on `f` does to the table. -/
structure RefOk (s : Store) (f : Edge) (h h' : HRef) : Prop where
  mono : ∀ x i, AtMost h x i → AtMost h' x i
  kids : ∀ x, KidOf s f x → AtMost h' x (s.ord.lvl f.id)
  closed : ∀ p x, h.get p = none → h'.get p ≠ none → KidOf s p x → AtMost h' x (s.ord.lvl p.id)
  sound : ∀ x v, h'.get x = some v → h.get x = some v ∨ ∃ p, Below s f p ∧ KidOf s p x ∧ v = s.ord.lvl p.id

theorem RefOk.of_const {f : Edge} (h : HRef) (hk : s.kids f = none) : RefOk s f h h :=
  ⟨fun _ _ a => a, fun x ⟨t, u, e, _⟩ => (by rw [hk] at e; cases e), fun p x a b => absurd a b, fun x v a => Or.inl a⟩

theorem AtMost.some {h : HRef} {x i} (a : AtMost h x i) : h.get x ≠ none := by
  obtain ⟨v, e, -⟩ := a
  rw [e]; simp

theorem AtMost.le {h : HRef} {x i j} (a : AtMost h x i) (l : i ≤ j) : AtMost h x j := by
  obtain ⟨v, e, hv⟩ := a
  exact ⟨v, e, Int.le_trans hv l⟩

/-- One child. -/
structure KidOk (s : Store) (f x : Edge) (h h' : HRef) : Prop where
  mono : ∀ x i, AtMost h x i → AtMost h' x i
  here : AtMost h' x (s.ord.lvl f.id)
  closed : ∀ p x, h.get p = none → h'.get p ≠ none → KidOf s p x → AtMost h' x (s.ord.lvl p.id)
  sound : ∀ x v, h'.get x = some v → h.get x = some v ∨ ∃ p, Below s f p ∧ KidOf s p x ∧ v = s.ord.lvl p.id

theorem below_child {f x y : Edge} (c : KidOf s f x) (b : Below s x y) : Below s f y := by
  obtain ⟨t, u, hk, rfl | rfl⟩ := c
  · exact .thn hk b
  · exact .els hk b

theorem refKid_ok {next : HRef → Edge → Option HRef} {f x : Edge} (c : KidOf s f x)
    (hn : ∀ h l, h.OK l → HRef.Uniq l → ∃ h' l', next h x = some h' ∧ h'.OK l' ∧ HRef.Uniq l' ∧ RefOk s x h h')
    {h : HRef} {l} (w : h.OK l) (u : HRef.Uniq l) :
    ∃ h' l', refKid next (s.ord.lvl f.id) h x = some h' ∧ h'.OK l' ∧ HRef.Uniq l' ∧ KidOk s f x h h' := by
  unfold refKid
  cases e : h.ptr x with
  | some a =>
    simp only
    have eg : h.get x = some (h.data a) := by simp [HRef.get, e]
    split
    · rename_i hlt
      have g := w.get_set e (s.ord.lvl f.id)
      refine ⟨_, l, rfl, w.set _ _, u, ?_, ⟨_, by rw [g, if_pos rfl], Int.le_refl _⟩, ?_, ?_⟩
      · rintro y i ⟨v, h1, h2⟩
        by_cases hy : y = x
        · subst hy
          rw [eg] at h1; cases h1
          exact ⟨_, by rw [g, if_pos rfl], by omega⟩
        · exact ⟨v, by rw [g, if_neg hy, h1], h2⟩
      · intro p y h1 h2
        rw [g] at h2
        by_cases hp : p = x
        · rw [hp, eg] at h1; cases h1
        · rw [if_neg hp] at h2; exact absurd h1 h2
      · intro y v h1
        rw [g] at h1
        by_cases hy : y = x
        · rw [if_pos hy] at h1; cases h1
          exact Or.inr ⟨f, .refl _, hy ▸ c, rfl⟩
        · rw [if_neg hy] at h1; exact Or.inl h1
    · rename_i hlt
      exact ⟨h, l, rfl, w, u, fun _ _ a => a, ⟨_, eg, by omega⟩, fun p y a b => absurd a b, fun y v a => Or.inl a⟩
  | none =>
    have eg : h.get x = none := by simp [HRef.get, e]
    simp only
    obtain ⟨h', l', e', w', u', R⟩ := hn _ _ (w.insert x (s.ord.lvl f.id)) (u.cons w eg _)
    have g := w.get_insert u eg (s.ord.lvl f.id)
    have h0 : AtMost (h.insert x (s.ord.lvl f.id)) x (s.ord.lvl f.id) := ⟨_, by rw [g, if_pos rfl], Int.le_refl _⟩
    refine ⟨h', l', e', w', u', ?_, R.mono _ _ h0, ?_, ?_⟩
    · rintro y i ⟨v, h1, h2⟩
      refine R.mono _ _ ⟨v, ?_, h2⟩
      have : y ≠ x := fun hy => by rw [hy, eg] at h1; cases h1
      rw [g, if_neg this, h1]
    · intro p y h1 h2 cp
      by_cases hp : p = x
      · subst hp; exact R.kids y cp
      · exact R.closed p y (by rw [g, if_neg hp, h1]) h2 cp
    · intro y v h1
      rcases R.sound y v h1 with h2 | ⟨p, h2, h3, h4⟩
      · rw [g] at h2
        by_cases hy : y = x
        · rw [if_pos hy] at h2; cases h2
          exact Or.inr ⟨f, .refl _, hy ▸ c, rfl⟩
        · rw [if_neg hy] at h2; exact Or.inl h2
      · exact Or.inr ⟨p, below_child c h2, h3, h4⟩

theorem highestRef_ok (w : s.WF) : ∀ k {f : Edge} {h : HRef} {l}, s.EOK f → 1 ≤ k → s.ord.numVars + 1 ≤ k + s.ord.lvl f.id →
    h.OK l → HRef.Uniq l →
    ∃ h' l', highestRef s k h f = some h' ∧ h'.OK l' ∧ HRef.Uniq l' ∧ RefOk s f h h' := by
  intro k
  induction k with
  | zero => intro f h l _ h1; omega
  | succ k ih =>
    intro f h l hf _ hk ok u
    unfold highestRef
    by_cases hc : f.isConst
    · rw [if_pos hc]
      exact ⟨h, l, rfl, ok, u, .of_const h (kids_const w hf (by simpa [Edge.isConst] using hc))⟩
    · rw [if_neg hc]
      have hc0 : f.id ≠ 0 := by simpa [Edge.isConst] using hc
      obtain ⟨t, e, hkid, ht, he, l1, l2⟩ := kids_spec w hf hc0
      have := hf.lvl_lt w hc0
      rw [hkid]
      simp only
      obtain ⟨h1, l1', e1, ok1, u1, K1⟩ := refKid_ok (next := highestRef s k) (s := s) (f := f) (x := t) ⟨t, e, hkid, Or.inl rfl⟩
        (fun h l a b => ih ht (by omega) (by omega) a b) ok u
      rw [e1]
      simp only
      obtain ⟨h2, l2', e2, ok2, u2, K2⟩ := refKid_ok (next := highestRef s k) (s := s) (f := f) (x := e) ⟨t, e, hkid, Or.inr rfl⟩
        (fun h l a b => ih he (by omega) (by omega) a b) ok1 u1
      refine ⟨h2, l2', e2, ok2, u2, fun x i a => K2.mono _ _ (K1.mono _ _ a), ?_, ?_, ?_⟩
      · rintro x ⟨t', e', hk', hx⟩
        rw [hkid] at hk'; cases hk'
        rcases hx with rfl | rfl
        · exact K2.mono _ _ K1.here
        · exact K2.here
      · intro p x h3 h4 c
        cases hp : h1.get p with
        | none => exact K2.closed p x hp h4 c
        | some v => exact K2.mono _ _ (K1.closed p x h3 (by rw [hp]; simp) c)
      · intro x v h3
        rcases K2.sound x v h3 with h4 | h4
        · exact K1.sound x v h4
        · exact Or.inr h4

/-- The edges that can be reached from a list. -/
def ReachFrom (s : Store) (fs : List Edge) (x : Edge) : Prop := ∃ f ∈ fs, Below s f x


theorem below_cases {f x : Edge} (b : Below s f x) : x = f ∨ ∃ p, Below s f p ∧ KidOf s p x := by
  induction b with
  | refl => exact Or.inl rfl
  | @thn e t u x hk b ih =>
    right
    rcases ih with rfl | ⟨p, h1, h2⟩
    · exact ⟨e, .refl _, _, _, hk, Or.inl rfl⟩
    · exact ⟨p, .thn hk h1, h2⟩
  | @els e t u x hk b ih =>
    right
    rcases ih with rfl | ⟨p, h1, h2⟩
    · exact ⟨e, .refl _, _, _, hk, Or.inr rfl⟩
    · exact ⟨p, .els hk h1, h2⟩

/-- Induction from the top. -/
theorem below_ind {f : Edge} {P : Edge → Prop} (h0 : P f) (hs : ∀ p x, Below s f p → P p → KidOf s p x → P x) {x} (b : Below s f x) : P x := by
  have key : ∀ {e x}, Below s e x → Below s f e → P e → P x := by
    intro e x b
    induction b with
    | refl => exact fun _ h => h
    | @thn e t u x hk b ih =>
      intro h1 h2
      exact ih (h1.trans (.thn hk (.refl _))) (hs _ _ h1 h2 ⟨_, _, hk, Or.inl rfl⟩)
    | @els e t u x hk b ih =>
      intro h1 h2
      exact ih (h1.trans (.els hk (.refl _))) (hs _ _ h1 h2 ⟨_, _, hk, Or.inr rfl⟩)
  exact key b (.refl _) h0

/-- The loop over the functions; entries of the table on entry have their children there, or are in the list. -/
theorem highestRefs_ok (w : s.WF) : ∀ {fs : List Edge} {h : HRef} {l}, (∀ f ∈ fs, s.EOK f) → h.OK l → HRef.Uniq l →
    ∃ h' l', highestRefs s h fs = some h' ∧ h'.OK l' ∧ HRef.Uniq l' ∧
      (∀ x i, AtMost h x i → AtMost h' x i) ∧
      (∀ f ∈ fs, ∀ x, KidOf s f x → AtMost h' x (s.ord.lvl f.id)) ∧
      (∀ p x, h.get p = none → h'.get p ≠ none → KidOf s p x → AtMost h' x (s.ord.lvl p.id)) ∧
      ∀ x v, h'.get x = some v → h.get x = some v ∨ ∃ p, ReachFrom s fs p ∧ KidOf s p x ∧ v = s.ord.lvl p.id := by
  intro fs
  induction fs with
  | nil =>
    intro h l _ ok u
    exact ⟨h, l, rfl, ok, u, fun _ _ a => a, by simp, fun p x a b => absurd a b, fun x v a => Or.inl a⟩
  | cons f fs ih =>
    intro h l hf ok u
    obtain ⟨h1, l1, e1, ok1, u1, R⟩ := highestRef_ok w (s.ord.numVars + 1) (hf f (by simp)) (by omega) (by omega) ok u
    obtain ⟨h2, l2, e2, ok2, u2, a1, a2, a3, a4⟩ := ih (fun x hx => hf x (by simp [hx])) ok1 u1
    refine ⟨h2, l2, by simp only [highestRefs, e1, e2], ok2, u2, fun x i a => a1 _ _ (R.mono _ _ a), ?_, ?_, ?_⟩
    · intro g hg x c
      rcases List.mem_cons.1 hg with rfl | hg
      · exact a1 _ _ (R.kids x c)
      · exact a2 g hg x c
    · intro p x h3 h4 c
      cases hp : h1.get p with
      | none => exact a3 p x hp h4 c
      | some v => exact a1 _ _ (R.closed p x h3 (by rw [hp]; simp) c)
    · intro x v h3
      rcases a4 x v h3 with h4 | ⟨p, ⟨g, hg, hb⟩, h5, h6⟩
      · rcases R.sound x v h4 with h5 | ⟨p, h5, h6, h7⟩
        · exact Or.inl h5
        · exact Or.inr ⟨p, ⟨f, by simp, h5⟩, h6, h7⟩
      · exact Or.inr ⟨p, ⟨g, by simp [hg], hb⟩, h5, h6⟩

/-- Everything below a function whose children are there, where entries have their children there. -/
theorem all_below {f : Edge} {h0 h : HRef} (h0k : ∀ p, h0.get p ≠ none → p = f)
    (hk : ∀ x, KidOf s f x → AtMost h x (s.ord.lvl f.id))
    (hc : ∀ p x, h0.get p = none → h.get p ≠ none → KidOf s p x → AtMost h x (s.ord.lvl p.id)) {p} (b : Below s f p) :
    ∀ x, KidOf s p x → AtMost h x (s.ord.lvl p.id) := by
  refine below_ind (P := fun p => ∀ x, KidOf s p x → AtMost h x (s.ord.lvl p.id)) hk ?_ b
  intro p x _ h1 c y cy
  by_cases hx : h0.get x = none
  · exact hc x y hx (h1 x c).some cy
  · rw [h0k x hx] at cy ⊢; exact hk y cy

/-- What the table says in the end. -/
structure HighestRefs (s : Store) (fs : List Edge) (h : HRef) : Prop where
  root : ∀ f ∈ fs, h.get f = some (-1)
  other : ∀ x, ReachFrom s fs x → x ∉ fs → ∃ p, ReachFrom s fs p ∧ KidOf s p x ∧ h.get x = some (s.ord.lvl p.id : Int) ∧
    ∀ q, ReachFrom s fs q → KidOf s q x → s.ord.lvl p.id ≤ s.ord.lvl q.id

theorem highest_of {fs : List Edge} {h h' : HRef} (a1 : ∀ p, ReachFrom s fs p → ∀ x, KidOf s p x → AtMost h x (s.ord.lvl p.id))
    (a2 : ∀ x v, x ∉ fs → h.get x = some v → ∃ p, ReachFrom s fs p ∧ KidOf s p x ∧ v = s.ord.lvl p.id)
    (g : ∀ x, h'.get x = if x ∈ fs then some (-1) else h.get x) : HighestRefs s fs h' := by
  constructor
  · intro f hf
    rw [g, if_pos hf]
  · rintro x ⟨f, hf, b⟩ hx
    rcases below_cases b with rfl | ⟨p, h1, h2⟩
    · exact absurd hf hx
    · obtain ⟨v, e, -⟩ := a1 p ⟨f, hf, h1⟩ x h2
      obtain ⟨q, r1, r2, rfl⟩ := a2 x v hx e
      refine ⟨q, r1, r2, by rw [g, if_neg hx, e], fun q' r3 r4 => ?_⟩
      obtain ⟨v', e', hv'⟩ := a1 q' r3 x r4
      rw [e] at e'; cases e'
      omega

/-- `BddHighestRefStep` for one function. -/
theorem highest_one (w : s.WF) {f : Edge} (hf : s.EOK f) : ∃ h l, highestRef s (s.ord.numVars + 1) (HRef.init.insert f (-1)) f = some h ∧
    h.OK l ∧ HighestRefs s [f] h := by
  have ok := HRef.OK.init
  have u : HRef.Uniq [] := List.nodup_nil
  have e0 : HRef.init.get f = none := rfl
  have g := ok.get_insert u e0 (-1)
  obtain ⟨h, l, e, ok', u', R⟩ := highestRef_ok w (s.ord.numVars + 1) hf (by omega) (by omega) (ok.insert f (-1)) (u.cons ok e0 _)
  have h0k : ∀ p, (HRef.init.insert f (-1)).get p ≠ none → p = f := by
    intro p hp
    rw [g] at hp
    by_cases c : p = f
    · exact c
    · rw [if_neg c] at hp; exact absurd rfl hp
  refine ⟨h, l, e, ok', highest_of (h := h) ?_ ?_ ?_⟩
  · rintro p ⟨f', hf', b⟩
    rw [List.mem_singleton] at hf'
    subst hf'
    exact all_below h0k R.kids R.closed b
  · intro x v hx h1
    rw [List.mem_singleton] at hx
    rcases R.sound x v h1 with h2 | ⟨p, h2, h3⟩
    · rw [g, if_neg hx] at h2; cases h2
    · exact ⟨p, ⟨f, by simp, h2⟩, h3⟩
  · intro x
    by_cases hx : x = f
    · subst hx
      rw [if_pos (by simp)]
      obtain ⟨v, h1, h2⟩ := R.mono x (-1) ⟨-1, by rw [g, if_pos rfl], Int.le_refl _⟩
      rcases R.sound x v h1 with h3 | ⟨p, h3, h4, h5⟩
      · rw [g, if_pos rfl] at h3; cases h3; exact h1
      · omega
    · rw [if_neg (by simpa using hx)]

/-! ## Marking the functions of an array -/

theorem insertRoots_small : ∀ {fs : List Edge} {h : HRef} {l}, h.OK l → h.t.numEntries + fs.length < h.t.maxCapacity →
    (∃ l', (insertRoots h fs).OK l') ∧ ∀ x, (insertRoots h fs).get x = if x ∈ fs then some (-1) else h.get x := by
  intro fs
  induction fs with
  | nil => intro h l ok _; exact ⟨⟨l, ok⟩, fun x => by simp [insertRoots]⟩
  | cons f fs ih =>
    intro h l ok hc
    rw [List.length_cons] at hc
    have g := HRef.get_push h f (-1) (by omega) ok
    have hne : (h.insert f (-1)).t.numEntries = h.t.numEntries + 1 ∧ (h.insert f (-1)).t.maxCapacity = h.t.maxCapacity := by
      have : (h.insert f (-1)).t = _ := rfl
      unfold HRef.insert Hash.Table.addDirect
      dsimp only
      rw [if_neg (by simp only [Hash.Table.maxCapacity, Hash.Table.numBins] at hc ⊢; omega)]
      exact ⟨rfl, rfl⟩
    obtain ⟨h1, h2⟩ := ih (ok.insert f (-1)) (by rw [hne.1, hne.2]; omega)
    refine ⟨h1, fun x => ?_⟩
    rw [show insertRoots h (f :: fs) = insertRoots (h.insert f (-1)) fs from rfl, h2, g]
    by_cases c1 : x ∈ fs
    · rw [if_pos c1, if_pos (by simp [c1])]
    · rw [if_neg c1]
      by_cases c2 : x = f
      · rw [if_pos c2, if_pos (by simp [c2])]
      · rw [if_neg c2, if_neg (by simp [c1, c2])]

theorem insertRoots_ent : ∀ {fs : List Edge} {h : HRef} {l}, h.OK l → ∃ l', (insertRoots h fs).OK (l' ++ l) ∧
    (∀ e ∈ l', e.key ∈ fs ∧ (insertRoots h fs).data e.addr = -1) ∧ (∀ e ∈ l, (insertRoots h fs).data e.addr = h.data e.addr) ∧
    ∀ f ∈ fs, ∃ e ∈ l', e.key = f := by
  intro fs
  induction fs with
  | nil => intro h l ok; exact ⟨[], ok, by simp, fun _ _ => rfl, by simp⟩
  | cons f fs ih =>
    intro h l ok
    obtain ⟨l', o, a1, a2, a3⟩ := ih (ok.insert f (-1))
    refine ⟨l' ++ [⟨h.next, f⟩], by rw [List.append_assoc]; exact o, ?_, ?_, ?_⟩
    · intro e he
      rcases List.mem_append.1 he with he | he
      · exact ⟨List.mem_cons_of_mem _ (a1 e he).1, (a1 e he).2⟩
      · rw [List.mem_singleton] at he
        subst he
        refine ⟨List.mem_cons_self .., ?_⟩
        show (insertRoots (h.insert f (-1)) fs).data _ = _
        rw [a2 _ (List.mem_cons_self ..)]
        show upd h.data h.next (-1) h.next = _
        rw [upd_same]
    · intro e he
      show (insertRoots (h.insert f (-1)) fs).data _ = _
      rw [a2 e (List.mem_cons_of_mem _ he), ok.data_insert _ _ he]
    · intro g hg
      rcases List.mem_cons.1 hg with rfl | hg
      · exact ⟨⟨h.next, g⟩, by simp, rfl⟩
      · obtain ⟨e, he, hk⟩ := a3 g hg
        exact ⟨e, by simp [he], hk⟩

theorem insertRoots_other {fs : List Edge} {h : HRef} {l} (ok : h.OK l) (u : HRef.Uniq l) {x} (c : x ∉ fs) :
    (insertRoots h fs).get x = h.get x := by
  obtain ⟨l', o, a1, a2, a3⟩ := insertRoots_ent (fs := fs) ok
  cases e : h.get x with
  | none =>
    cases e' : (insertRoots h fs).get x with
    | none => rfl
    | some v =>
      obtain ⟨y, hy, hk, -⟩ := o.get_mem e'
      rcases List.mem_append.1 hy with hy | hy
      · exact absurd (hk ▸ (a1 y hy).1) c
      · exact absurd hk (ok.get_none e y hy)
  | some v =>
    obtain ⟨y, hy, hk, hv⟩ := ok.get_mem e
    obtain ⟨a, ha⟩ := o.ptr_ex (List.mem_append_right l' hy)
    rw [hk] at ha
    have hm := o.ptr_mem ha
    rcases List.mem_append.1 hm with hm | hm
    · exact absurd (a1 _ hm).1 c
    · have h1 := ok.get_uniq u hm
      rw [show (⟨a, x⟩ : Hash.Ent Edge).key = x from rfl, e] at h1
      have h2 := a2 _ hm
      simp only at h1 h2
      rw [HRef.get, ha, Option.map_some, h2]
      exact h1.symm

theorem insertRoots_root {fs : List Edge} {h : HRef} {l} (ok : h.OK l) {x} (c : x ∈ fs) (hn : h.get x = none) :
    (insertRoots h fs).get x = some (-1) := by
  obtain ⟨l', o, a1, a2, a3⟩ := insertRoots_ent (fs := fs) ok
  obtain ⟨e, he, hk⟩ := a3 x c
  obtain ⟨a, ha⟩ := o.ptr_ex (List.mem_append_left _ he)
  rw [hk] at ha
  have hm := o.ptr_mem ha
  have : (insertRoots h fs).data a = -1 := by
    rcases List.mem_append.1 hm with hm | hm
    · exact (a1 _ hm).2
    · exact absurd rfl (ok.get_none hn _ hm)
  simp [HRef.get, ha, this]

/-- None of the functions is there already. -/
theorem insertRoots_new {fs : List Edge} {h : HRef} {l} (ok : h.OK l) (u : HRef.Uniq l) (hn : ∀ f ∈ fs, h.get f = none) :
    (∃ l', (insertRoots h fs).OK l') ∧ ∀ x, (insertRoots h fs).get x = if x ∈ fs then some (-1) else h.get x := by
  obtain ⟨l', o, -⟩ := insertRoots_ent (fs := fs) ok
  refine ⟨⟨_, o⟩, fun x => ?_⟩
  by_cases c : x ∈ fs
  · rw [if_pos c, insertRoots_root ok c (hn x c)]
  · rw [if_neg c, insertRoots_other ok u c]

end Cal
