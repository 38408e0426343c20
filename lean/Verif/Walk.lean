import Verif.ApiMisc

/-!
# Traversals that count nodes (calBddSize.c)

The traversals keep two mark bits per node, bits 2 and 3 of the pointer to the then child
(calInt.h:1181-1210). They are not part of `Store`: every traversal starts with all marks clear and
leaves all marks clear, which is proved here, so they are a local array of the traversal.
-/

namespace Cal

/-! ## The code -/

/-- `BddMarkBdd` (calBddSize.c:334-353): a node is marked with 1 if it is reached without complement,
with 2 if it is reached with a complement, and with 3 if both. -/
def markBdd (s : Store) : Nat → (Nat → Nat) → Edge → Option (Nat → Nat)
  | 0, _, _ => none
  | k + 1, M, f =>
    let currMarking := M f.addr
    let thisMarking := 1 <<< f.neg.toNat
    if currMarking &&& thisMarking ≠ 0 then some M
    else
      let M := upd M f.addr (currMarking ||| thisMarking)
      if f.isConst then some M
      else
        match s.kids f with
        | none => none
        | some (t, e) =>
          match markBdd s k M t with
          | none => none
          | some M => markBdd s k M e

/-- `BddCountNoNodes` (calBddSize.c:359-363) -/
def countNoNodes (mark : Nat) : Nat := if mark > 0 then 1 else 0

/-- `BddCountNodes` (calBddSize.c:369-377) -/
def countNodes (mark : Nat) : Nat :=
  (if mark &&& 1 ≠ 0 then 1 else 0) + (if mark &&& 2 ≠ 0 then 1 else 0)

/-- `countingFns[!negout]` (calBddSize.c:80-85, 103) -/
def countFn (negout : Bool) : Nat → Nat := if negout then countNoNodes else countNodes

/-- `BddSizeStep` (calBddSize.c:384-405). C leaves open which of the two recursive calls runs first;
here it is the one for the then child. -/
def sizeStep (s : Store) (cnt : Nat → Nat) : Nat → (Nat → Nat) → Edge → Option (Nat × (Nat → Nat))
  | 0, _, _ => none
  | k + 1, M, f =>
    if M f.addr = 0 then some (0, M)
    else
      let result := cnt (M f.addr)
      if f.isConst then some (result, upd M f.addr 0)
      else
        match s.kids f with
        | none => none
        | some (t, e) =>
          match sizeStep s cnt k M t with
          | none => none
          | some (n1, M1) =>
            match sizeStep s cnt k M1 e with
            | none => none
            | some (n2, M2) => some (result + (n1 + n2), upd M2 f.addr 0)

/-- `BddProfileStep` (calBddSize.c:408-430). `C` is the array `levelCounts`, of size `numVars + 1`;
writing beyond it is `none`. -/
def profileStep (s : Store) (cnt : Nat → Nat) :
    Nat → (Nat → Nat) → (Nat → Nat) → Edge → Option ((Nat → Nat) × (Nat → Nat))
  | 0, _, _, _ => none
  | k + 1, M, C, f =>
    if M f.addr = 0 then some (C, M)
    else if f.isConst then
      some (upd C s.ord.numVars (C s.ord.numVars + cnt (M f.addr)), upd M f.addr 0)
    else
      let i := s.ord.lvl f.id
      if s.ord.numVars < i then none
      else
        let C := upd C i (C i + cnt (M f.addr))
        match s.kids f with
        | none => none
        | some (t, e) =>
          match profileStep s cnt k M C t with
          | none => none
          | some (C1, M1) =>
            match profileStep s cnt k M1 C1 e with
            | none => none
            | some (C2, M2) => some (C2, upd M2 f.addr 0)

/-- the loop that marks (calBddSize.c:138-140, 205-207) -/
def markAll (s : Store) (k : Nat) (M : Nat → Nat) : List Edge → Option (Nat → Nat)
  | [] => some M
  | f :: fs =>
    match markBdd s k M f with
    | none => none
    | some M => markAll s k M fs

/-- the loop that counts (calBddSize.c:141-144) -/
def sizeAll (s : Store) (cnt : Nat → Nat) (k : Nat) (M : Nat → Nat) :
    List Edge → Option (Nat × (Nat → Nat))
  | [] => some (0, M)
  | f :: fs =>
    match sizeStep s cnt k M f with
    | none => none
    | some (n1, M1) =>
      match sizeAll s cnt k M1 fs with
      | none => none
      | some (n2, M2) => some (n1 + n2, M2)

/-- the loop that fills the profile (calBddSize.c:208-210) -/
def profileAll (s : Store) (cnt : Nat → Nat) (k : Nat) (M C : Nat → Nat) :
    List Edge → Option ((Nat → Nat) × (Nat → Nat))
  | [] => some (C, M)
  | f :: fs =>
    match profileStep s cnt k M C f with
    | none => none
    | some (C1, M1) => profileAll s cnt k M1 C1 fs

/-- What `Cal_BddSize` and `Cal_BddSizeMultiple` do after pre-processing (calBddSize.c:99-103, 136-144),
with the marks on entry and on exit. -/
def sizeOf (s : Store) (negout : Bool) (M : Nat → Nat) (fs : List Edge) :
    Option (Nat × (Nat → Nat)) :=
  match markAll s (s.ord.numVars + 1) (upd M one.addr 0) fs with
  | none => none
  | some M => sizeAll s (countFn negout) (s.ord.numVars + 1) M fs

/-- What `Cal_BddProfile` and `Cal_BddProfileMultiple` do after pre-processing (calBddSize.c:160-168,
198-210), with the marks on entry and on exit. -/
def profileOf (s : Store) (negout : Bool) (M : Nat → Nat) (fs : List Edge) :
    Option ((Nat → Nat) × (Nat → Nat)) :=
  match markAll s (s.ord.numVars + 1) (upd M one.addr 0) fs with
  | none => none
  | some M => profileAll s (countFn negout) (s.ord.numVars + 1) M (fun _ => 0) fs

/-! ## Edges below an edge -/

/-- `x` can be reached from `e`. -/
inductive Below (s : Store) : Edge → Edge → Prop
  | refl (e) : Below s e e
  | thn {e t u x} (h : s.kids e = some (t, u)) (b : Below s t x) : Below s e x
  | els {e t u x} (h : s.kids e = some (t, u)) (b : Below s u x) : Below s e x

namespace Below

variable {s : Store}

theorem trans {e x y : Edge} (h : Below s e x) (h' : Below s x y) : Below s e y := by
  induction h with
  | refl => exact h'
  | thn hk _ ih => exact .thn hk (ih h')
  | els hk _ ih => exact .els hk (ih h')

theorem rep (w : s.WF) {e x : Edge} (h : Below s e x) : ∀ {F}, Rep s e F → ∃ G, Rep s x G := by
  induction h with
  | refl => intro F r; exact ⟨F, r⟩
  | @thn e t u x hk _ ih =>
    intro F r
    by_cases hc : e.id = 0
    · obtain ⟨-, h0⟩ | ⟨n, hn, hv⟩ := r.eok
      · simp [Store.kids, h0, w.heap0] at hk
      · have := w.var_range _ _ hn; omega
    · obtain ⟨t', u', hk', rt, ru, -⟩ := r.kids w hc
      rw [hk] at hk'
      cases hk'
      exact ih rt
  | @els e t u x hk _ ih =>
    intro F r
    by_cases hc : e.id = 0
    · obtain ⟨-, h0⟩ | ⟨n, hn, hv⟩ := r.eok
      · simp [Store.kids, h0, w.heap0] at hk
      · have := w.var_range _ _ hn; omega
    · obtain ⟨t', u', hk', rt, ru, -⟩ := r.kids w hc
      rw [hk] at hk'
      cases hk'
      exact ih ru

theorem eok (w : s.WF) {e x : Edge} (h : Below s e x) (he : s.EOK e) : s.EOK x := by
  obtain ⟨F, r⟩ := w.rep_exists he
  obtain ⟨G, r'⟩ := h.rep w r
  exact r'.eok

end Below

theorem kids_const {s : Store} (w : s.WF) {e : Edge} (he : s.EOK e) (h : e.id = 0) : s.kids e = none := by
  obtain ⟨-, h0⟩ | ⟨n, hn, hv⟩ := he
  · simp [Store.kids, h0, w.heap0]
  · have := w.var_range _ _ hn; omega

/-- the children of a node -/
theorem kids_spec {s : Store} (w : s.WF) {e : Edge} (he : s.EOK e) (hc : e.id ≠ 0) :
    ∃ t u, s.kids e = some (t, u) ∧ s.EOK t ∧ s.EOK u ∧ s.ord.lvl e.id < s.ord.lvl t.id ∧
      s.ord.lvl e.id < s.ord.lvl u.id := by
  obtain ⟨F, r⟩ := w.rep_exists he
  obtain ⟨t, u, hk, rt, ru, l1, l2, -⟩ := r.kids w hc
  exact ⟨t, u, hk, rt.eok, ru.eok, l1, l2⟩

/-- children by address -/
theorem kids_node {s : Store} {e t u : Edge} (hk : s.kids e = some (t, u)) :
    ∃ n, s.heap e.addr = some n ∧ t = n.thn.phase e.neg ∧ u = n.els.phase e.neg := by
  unfold Store.kids at hk
  split at hk
  · rename_i n hn
    simp only [Option.some.injEq, Prod.mk.injEq] at hk
    exact ⟨n, hn, hk.1.symm, hk.2.symm⟩
  · cases hk

/-- A variable order position of an address. -/
def Store.alvl (s : Store) (a : Nat) : Nat :=
  match s.heap a with
  | some n => s.ord.lvl n.var
  | none => constIndex

theorem alvl_eq {s : Store} (w : s.WF) {e : Edge} (he : s.EOK e) : s.alvl e.addr = s.ord.lvl e.id := by
  unfold Store.alvl
  obtain ⟨h1, h0⟩ | ⟨n, hn, hv⟩ := he
  · simp [h0, w.heap0, h1]
  · simp [hn, hv]

/-! ## Marking -/

/-- `x` is marked -/
def Marked (M : Nat → Nat) (x : Edge) : Prop := M x.addr &&& (1 <<< x.neg.toNat) ≠ 0

theorem marked_set {M : Nat → Nat} (f x : Edge) (hM : ∀ a, M a < 4) :
    Marked (upd M f.addr (M f.addr ||| (1 <<< f.neg.toNat))) x ↔
      Marked M x ∨ (x.addr = f.addr ∧ x.neg = f.neg) := by
  have h1 := hM f.addr
  unfold Marked upd
  by_cases h : x.addr = f.addr
  · simp only [h, if_true, true_and]
    generalize M f.addr = v at *
    cases f.neg <;> cases x.neg <;>
    · have : v = 0 ∨ v = 1 ∨ v = 2 ∨ v = 3 := by omega
      rcases this with rfl | rfl | rfl | rfl <;> decide
  · simp [h]

theorem mark_lt {M : Nat → Nat} (f : Edge) (hM : ∀ a, M a < 4) :
    ∀ a, upd M f.addr (M f.addr ||| (1 <<< f.neg.toNat)) a < 4 := by
  intro a
  have h1 := hM f.addr
  unfold upd
  split
  · generalize M f.addr = v at *
    cases f.neg <;>
    · have : v = 0 ∨ v = 1 ∨ v = 2 ∨ v = 3 := by omega
      rcases this with rfl | rfl | rfl | rfl <;> decide
  · exact hM a

theorem same_edge {s : Store} (w : s.WF) {x f : Edge} (hx : s.EOK x) (hf : s.EOK f)
    (h1 : x.addr = f.addr) (h2 : x.neg = f.neg) : x = f :=
  Edge.ext' (hx.id_eq w hf h1) h1 h2

/-- What marking from `f` does to the marks. -/
structure MarkOk (s : Store) (f : Edge) (M M' : Nat → Nat) : Prop where
  lt : ∀ a, M' a < 4
  mono : ∀ x, Marked M x → Marked M' x
  self : Marked M' f
  new : ∀ x, Marked M' x → Marked M x ∨ ∃ y, Below s f y ∧ x.addr = y.addr ∧ x.neg = y.neg
  closed : ∀ x t u, s.EOK x → Marked M' x → ¬ Marked M x → s.kids x = some (t, u) →
    Marked M' t ∧ Marked M' u

theorem markBdd_ok {s : Store} (w : s.WF) : ∀ k {f : Edge} {M}, s.EOK f → (∀ a, M a < 4) → 1 ≤ k →
    s.ord.numVars + 1 ≤ k + s.ord.lvl f.id → ∃ M', markBdd s k M f = some M' ∧ MarkOk s f M M' := by
  intro k
  induction k with
  | zero => intro f M _ _ h; omega
  | succ k ih =>
    intro f M hf hM _ hk
    unfold markBdd
    simp only
    by_cases hm : M f.addr &&& (1 <<< f.neg.toNat) ≠ 0
    · rw [if_pos hm]
      exact ⟨M, rfl, hM, fun _ h => h, hm, fun _ h => Or.inl h, fun _ _ _ _ h h' => absurd h h'⟩
    rw [if_neg hm]
    have hlt := mark_lt f hM
    have hset := fun x => marked_set (M := M) f x hM
    generalize hM1 : upd M f.addr (M f.addr ||| (1 <<< f.neg.toNat)) = M1 at hlt hset ⊢
    have hself : Marked M1 f := (hset f).2 (Or.inr ⟨rfl, rfl⟩)
    by_cases hc : f.isConst
    · rw [if_pos hc]
      refine ⟨M1, rfl, hlt, fun x h => (hset x).2 (Or.inl h), hself, ?_, ?_⟩
      · intro x h
        rcases (hset x).1 h with h | ⟨h, h'⟩
        · exact Or.inl h
        · exact Or.inr ⟨f, .refl _, h, h'⟩
      · intro x t u hx h h' hk
        rcases (hset x).1 h with h | ⟨h, h'⟩
        · exact absurd h h'
        · rw [same_edge w hx hf h h', kids_const w hf (by simpa [Edge.isConst] using hc)] at hk
          cases hk
    · rw [if_neg hc]
      have hc0 : f.id ≠ 0 := by simpa [Edge.isConst] using hc
      obtain ⟨t, u, hkid, ht, hu, l1, l2⟩ := kids_spec w hf hc0
      rw [hkid]
      have := hf.lvl_lt w hc0
      obtain ⟨M2, h2, o2⟩ := ih ht hlt (by omega) (by omega)
      simp only [h2]
      obtain ⟨M3, h3, o3⟩ := ih hu o2.lt (by omega) (by omega)
      refine ⟨M3, h3, o3.lt, fun x h => o3.mono x (o2.mono x ((hset x).2 (Or.inl h))),
        o3.mono _ (o2.mono _ hself), ?_, ?_⟩
      · intro x h
        rcases o3.new x h with h | ⟨y, h, h'⟩
        · rcases o2.new x h with h | ⟨y, h, h'⟩
          · rcases (hset x).1 h with h | ⟨h, h'⟩
            · exact Or.inl h
            · exact Or.inr ⟨f, .refl _, h, h'⟩
          · exact Or.inr ⟨y, .thn hkid h, h'⟩
        · exact Or.inr ⟨y, .els hkid h, h'⟩
      · intro x t' u' hx h h' hk'
        by_cases c2 : Marked M2 x
        · by_cases c1 : Marked M1 x
          · rcases (hset x).1 c1 with h | ⟨h, h''⟩
            · exact absurd h h'
            · rw [same_edge w hx hf h h'', hkid] at hk'
              cases hk'
              exact ⟨o3.mono _ o2.self, o3.self⟩
          · have := o2.closed x t' u' hx c2 c1 hk'
            exact ⟨o3.mono _ this.1, o3.mono _ this.2⟩
        · exact o3.closed x t' u' hx h c2 hk'

theorem markAll_ok {s : Store} (w : s.WF) : ∀ {fs : List Edge} {M}, (∀ f ∈ fs, s.EOK f) →
    (∀ a, M a < 4) → ∃ M', markAll s (s.ord.numVars + 1) M fs = some M' ∧ (∀ a, M' a < 4) ∧
      (∀ x, Marked M x → Marked M' x) ∧ (∀ f ∈ fs, Marked M' f) ∧
      (∀ x, Marked M' x → Marked M x ∨ ∃ f ∈ fs, ∃ y, Below s f y ∧ x.addr = y.addr ∧
        x.neg = y.neg) ∧
      (∀ x t u, s.EOK x → Marked M' x → ¬ Marked M x → s.kids x = some (t, u) →
        Marked M' t ∧ Marked M' u) := by
  intro fs
  induction fs with
  | nil =>
    intro M _ hM
    exact ⟨M, rfl, hM, fun _ h => h, by simp, fun _ h => Or.inl h, fun _ _ _ _ h h' => absurd h h'⟩
  | cons f fs ih =>
    intro M hf hM
    obtain ⟨M1, h1, o1⟩ := markBdd_ok w (s.ord.numVars + 1) (hf f (by simp)) hM (by omega) (by omega)
    obtain ⟨M2, h2, a1, a2, a3, a4, a5⟩ := ih (fun g hg => hf g (by simp [hg])) o1.lt
    refine ⟨M2, by simp only [markAll, h1, h2], a1, fun x h => a2 x (o1.mono x h), ?_, ?_, ?_⟩
    · intro g hg
      rcases List.mem_cons.1 hg with rfl | hg
      · exact a2 _ o1.self
      · exact a3 g hg
    · intro x h
      rcases a4 x h with h | ⟨g, hg, h⟩
      · rcases o1.new x h with h | h
        · exact Or.inl h
        · exact Or.inr ⟨f, by simp, h⟩
      · exact Or.inr ⟨g, by simp [hg], h⟩
    · intro x t u hx h h' hk
      by_cases c : Marked M1 x
      · have := o1.closed x t u hx c h' hk
        exact ⟨a2 _ this.1, a2 _ this.2⟩
      · exact a5 x t u hx h c hk

/-- From clear marks, exactly the edges below the arguments get marked. -/
theorem markAll_clear {s : Store} (w : s.WF) {fs : List Edge} (hf : ∀ f ∈ fs, s.EOK f) :
    ∃ M, markAll s (s.ord.numVars + 1) (fun _ => 0) fs = some M ∧ (∀ a, M a < 4) ∧
      (∀ x, s.EOK x → (Marked M x ↔ ∃ f ∈ fs, Below s f x)) ∧
      (∀ a, M a ≠ 0 → ∃ f ∈ fs, ∃ y, Below s f y ∧ y.addr = a) := by
  obtain ⟨M, h1, a1, a2, a3, a4, a5⟩ := markAll_ok w hf (M := fun _ => 0) (by simp)
  have h0 : ∀ x, ¬ Marked (fun _ => 0) x := by intro x; simp [Marked]
  refine ⟨M, h1, a1, ?_, ?_⟩
  · intro x hx
    constructor
    · intro h
      rcases a4 x h with h | ⟨f, hfs, y, hy, e1, e2⟩
      · exact absurd h (h0 _)
      · rw [same_edge w hx (hy.eok w (hf f hfs)) e1 e2]
        exact ⟨f, hfs, hy⟩
    · rintro ⟨f, hfs, hb⟩
      have hm := a3 f hfs
      have he := hf f hfs
      clear hfs hx
      induction hb with
      | refl => exact hm
      | thn hk b ih =>
        have := a5 _ _ _ he hm (h0 _) hk
        exact ih this.1 ((Below.thn hk (.refl _)).eok w he)
      | els hk b ih =>
        have := a5 _ _ _ he hm (h0 _) hk
        exact ih this.2 ((Below.els hk (.refl _)).eok w he)
  · intro a ha
    have hb : ∃ b, Marked M ⟨0, a, b⟩ := by
      have := a1 a
      unfold Marked
      simp only
      generalize M a = v at *
      have : v = 1 ∨ v = 2 ∨ v = 3 := by omega
      rcases this with rfl | rfl | rfl
      · exact ⟨false, by decide⟩
      · exact ⟨true, by decide⟩
      · exact ⟨true, by decide⟩
    obtain ⟨b, hb⟩ := hb
    rcases a4 _ hb with h | ⟨f, hfs, y, hy, e1, e2⟩
    · exact absurd h (h0 _)
    · exact ⟨f, hfs, y, hy, e1.symm⟩

/-! ## The second traversal

`visits` is what `sizeStep` and `profileStep` have in common: the nodes that are visited, with their
marks. -/

/-- the nodes visited, with their marks -/
def visits (s : Store) : Nat → (Nat → Nat) → Edge → Option (List (Edge × Nat) × (Nat → Nat))
  | 0, _, _ => none
  | k + 1, M, f =>
    if M f.addr = 0 then some ([], M)
    else if f.isConst then some ([(f, M f.addr)], upd M f.addr 0)
    else
      match s.kids f with
      | none => none
      | some (t, e) =>
        match visits s k M t with
        | none => none
        | some (l1, M1) =>
          match visits s k M1 e with
          | none => none
          | some (l2, M2) => some ((f, M f.addr) :: (l1 ++ l2), upd M2 f.addr 0)

/-- the nodes visited by the loop -/
def visitsAll (s : Store) (k : Nat) (M : Nat → Nat) :
    List Edge → Option (List (Edge × Nat) × (Nat → Nat))
  | [] => some ([], M)
  | f :: fs =>
    match visits s k M f with
    | none => none
    | some (l1, M1) =>
      match visitsAll s k M1 fs with
      | none => none
      | some (l2, M2) => some (l1 ++ l2, M2)

/-- the sum of the counts -/
def total (cnt : Nat → Nat) (l : List (Edge × Nat)) : Nat := (l.map fun p => cnt p.2).sum

theorem sizeStep_eq (s : Store) (cnt : Nat → Nat) : ∀ k M f,
    sizeStep s cnt k M f = (visits s k M f).map fun p => (total cnt p.1, p.2) := by
  intro k
  induction k with
  | zero => intros; rfl
  | succ k ih =>
    intro M f
    unfold sizeStep visits
    simp only [ih]
    split
    · rfl
    · split
      · simp [total]
      · cases s.kids f with
        | none => rfl
        | some p =>
          simp only
          cases visits s k M p.1 with
          | none => rfl
          | some q =>
            simp only [Option.map_some]
            cases visits s k q.2 p.2 with
            | none => rfl
            | some q' => simp [total]

theorem sizeAll_eq (s : Store) (cnt : Nat → Nat) (k : Nat) : ∀ fs M,
    sizeAll s cnt k M fs = (visitsAll s k M fs).map fun p => (total cnt p.1, p.2) := by
  intro fs
  induction fs with
  | nil => intros; rfl
  | cons f fs ih =>
    intro M
    simp only [sizeAll, visitsAll, sizeStep_eq]
    cases visits s k M f with
    | none => rfl
    | some q =>
      simp only [Option.map_some, ih]
      cases visitsAll s k q.2 fs with
      | none => rfl
      | some q' => simp [total]

/-- the addresses of visited nodes -/
def addrs (l : List (Edge × Nat)) : List Nat := l.map fun p => p.1.addr

/-- The marks in the middle of the second traversal: those on entry, with some reset, which ones being
closed under children. -/
structure Vis (s : Store) (M0 M : Nat → Nat) : Prop where
  or : ∀ a, M a = M0 a ∨ M a = 0
  closed : ∀ a n, M0 a ≠ 0 → M a = 0 → s.heap a = some n → M n.thn.addr = 0 ∧ M n.els.addr = 0

/-- What the second traversal from an edge does. -/
structure VisOk (s : Store) (M0 : Nat → Nat) (M : Nat → Nat) (l : List (Edge × Nat)) (M' : Nat → Nat) :
    Prop where
  vis : Vis s M0 M'
  nodup : (addrs l).Nodup
  eq : ∀ a, M' a = if a ∈ addrs l then 0 else M a
  mem : ∀ p ∈ l, s.EOK p.1 ∧ M p.1.addr ≠ 0 ∧ p.2 = M0 p.1.addr

theorem VisOk.zero {s : Store} {M0 M M' : Nat → Nat} {l} (o : VisOk s M0 M l M') {a} (h : M a = 0) :
    M' a = 0 := by
  rw [o.eq, h]; split <;> rfl

theorem VisOk.trans {s : Store} {M0 M M1 M2 : Nat → Nat} {l1 l2} (h1 : VisOk s M0 M l1 M1)
    (h2 : VisOk s M0 M1 l2 M2) : VisOk s M0 M (l1 ++ l2) M2 := by
  refine ⟨h2.vis, ?_, ?_, ?_⟩
  · rw [addrs, List.map_append, List.nodup_append]
    refine ⟨h1.nodup, h2.nodup, ?_⟩
    rintro a ha b hb rfl
    obtain ⟨p, hp, rfl⟩ := List.mem_map.1 hb
    have := (h2.mem p hp).2.1
    rw [h1.eq, if_pos (by exact ha)] at this
    exact this rfl
  · intro a
    rw [h2.eq, h1.eq]
    simp only [addrs, List.map_append, List.mem_append]
    by_cases c1 : a ∈ l1.map fun p => p.1.addr <;> by_cases c2 : a ∈ l2.map fun p => p.1.addr <;>
      simp [c1, c2]
  · intro p hp
    rcases List.mem_append.1 hp with hp | hp
    · exact h1.mem p hp
    · obtain ⟨a1, a2, a3⟩ := h2.mem p hp
      refine ⟨a1, ?_, a3⟩
      rw [h1.eq] at a2
      intro h
      split at a2 <;> simp_all

theorem visits_ok {s : Store} (w : s.WF) {M0 : Nat → Nat} (hM0 : ∀ a n, M0 a ≠ 0 → s.heap a = some n →
    M0 n.thn.addr ≠ 0 ∧ M0 n.els.addr ≠ 0) : ∀ k {f : Edge} {M}, s.EOK f → M0 f.addr ≠ 0 → Vis s M0 M →
    1 ≤ k → s.ord.numVars + 1 ≤ k + s.ord.lvl f.id → ∃ l M', visits s k M f = some (l, M') ∧
      VisOk s M0 M l M' ∧ M' f.addr = 0 ∧ ∀ p ∈ l, s.ord.lvl f.id ≤ s.ord.lvl p.1.id := by
  intro k
  induction k with
  | zero => intro f M _ _ _ h; omega
  | succ k ih =>
    intro f M hf hm v _ hk
    unfold visits
    by_cases h0 : M f.addr = 0
    · rw [if_pos h0]
      exact ⟨[], M, rfl, ⟨v, by simp [addrs], by simp [addrs], by simp⟩, h0, by simp⟩
    rw [if_neg h0]
    have hmf : M f.addr = M0 f.addr := by
      rcases v.or f.addr with h | h
      · exact h
      · exact absurd h h0
    by_cases hc : f.isConst
    · rw [if_pos hc]
      have hid : f.id = 0 := by simpa [Edge.isConst] using hc
      have ha : f.addr = 0 := (hf.addr_zero w).2 hid
      refine ⟨_, _, rfl, ⟨⟨?_, ?_⟩, by simp [addrs], ?_, ?_⟩, by simp, by simp⟩
      · intro a
        by_cases h : a = f.addr
        · right; rw [h, upd_same]
        · rw [upd_ne _ _ h]; exact v.or a
      · intro a n h1 h2 h3
        have hne : a ≠ f.addr := by rintro rfl; rw [ha, w.heap0] at h3; cases h3
        rw [upd_ne _ _ hne] at h2
        have := v.closed a n h1 h2 h3
        constructor
        · by_cases h : n.thn.addr = f.addr
          · rw [h, upd_same]
          · rw [upd_ne _ _ h]; exact this.1
        · by_cases h : n.els.addr = f.addr
          · rw [h, upd_same]
          · rw [upd_ne _ _ h]; exact this.2
      · intro a
        simp only [addrs, List.map_cons, List.map_nil, List.mem_singleton]
        by_cases h : a = f.addr
        · rw [if_pos h, h, upd_same]
        · rw [if_neg h, upd_ne _ _ h]
      · intro p hp
        rw [List.mem_singleton] at hp
        subst hp
        exact ⟨hf, h0, hmf⟩
    · rw [if_neg hc]
      have hc0 : f.id ≠ 0 := by simpa [Edge.isConst] using hc
      obtain ⟨t, u, hkid, ht, hu, l1, l2⟩ := kids_spec w hf hc0
      obtain ⟨n, hn, et, eu⟩ := kids_node hkid
      have hkm := hM0 _ _ hm hn
      have := hf.lvl_lt w hc0
      have at_ : t.addr = n.thn.addr := by rw [et]; rfl
      have au : u.addr = n.els.addr := by rw [eu]; rfl
      rw [hkid]
      obtain ⟨L1, M1, h1, o1, z1, g1⟩ := ih ht (at_ ▸ hkm.1) v (by omega) (by omega)
      simp only [h1]
      obtain ⟨L2, M2, h2, o2, z2, g2⟩ := ih hu (au ▸ hkm.2) o1.vis (by omega) (by omega)
      simp only [h2]
      have o := o1.trans o2
      have hlv : ∀ p ∈ L1 ++ L2, s.ord.lvl f.id < s.ord.lvl p.1.id := by
        intro p hp
        rcases List.mem_append.1 hp with hp | hp
        · have := g1 p hp; omega
        · have := g2 p hp; omega
      have hnot : f.addr ∉ addrs (L1 ++ L2) := by
        intro hin
        obtain ⟨p, hp, e⟩ := List.mem_map.1 hin
        have e1 := (o.mem p hp).1.id_eq w hf e
        have := hlv p hp
        rw [e1] at this
        omega
      refine ⟨_, _, rfl, ⟨⟨?_, ?_⟩, ?_, ?_, ?_⟩, by simp, ?_⟩
      · intro a
        by_cases h : a = f.addr
        · right; rw [h, upd_same]
        · rw [upd_ne _ _ h]; exact o.vis.or a
      · have zt : M2 t.addr = 0 := by exact o2.zero z1
        intro a n' b1 b2 b3
        have key : M2 n'.thn.addr = 0 ∧ M2 n'.els.addr = 0 := by
          by_cases h : a = f.addr
          · subst h
            rw [hn] at b3
            cases b3
            rw [← at_, ← au]
            exact ⟨zt, z2⟩
          · rw [upd_ne _ _ h] at b2
            exact o.vis.closed a n' b1 b2 b3
        constructor
        · by_cases h : n'.thn.addr = f.addr
          · rw [h, upd_same]
          · rw [upd_ne _ _ h]; exact key.1
        · by_cases h : n'.els.addr = f.addr
          · rw [h, upd_same]
          · rw [upd_ne _ _ h]; exact key.2
      · rw [addrs, List.map_cons, List.nodup_cons]
        exact ⟨hnot, o.nodup⟩
      · intro a
        simp only [addrs, List.map_cons, List.mem_cons]
        by_cases h : a = f.addr
        · rw [if_pos (Or.inl h), h, upd_same]
        · rw [upd_ne _ _ h, o.eq]
          by_cases h' : a ∈ addrs (L1 ++ L2)
          · rw [if_pos h']; exact (if_pos (Or.inr h')).symm
          · rw [if_neg h']; exact (if_neg (by rintro (h'' | h'') <;> contradiction)).symm
      · intro p hp
        rcases List.mem_cons.1 hp with rfl | hp
        · exact ⟨hf, h0, hmf⟩
        · exact o.mem p hp
      · intro p hp
        rcases List.mem_cons.1 hp with rfl | hp
        · exact Nat.le_refl _
        · exact Nat.le_of_lt (hlv p hp)

theorem visitsAll_ok {s : Store} (w : s.WF) {M0 : Nat → Nat} (hM0 : ∀ a n, M0 a ≠ 0 →
    s.heap a = some n → M0 n.thn.addr ≠ 0 ∧ M0 n.els.addr ≠ 0) : ∀ {fs : List Edge} {M},
    (∀ f ∈ fs, s.EOK f ∧ M0 f.addr ≠ 0) → Vis s M0 M → ∃ l M',
      visitsAll s (s.ord.numVars + 1) M fs = some (l, M') ∧ VisOk s M0 M l M' ∧
      ∀ f ∈ fs, M' f.addr = 0 := by
  intro fs
  induction fs with
  | nil =>
    intro M _ v
    exact ⟨[], M, rfl, ⟨v, by simp [addrs], by simp [addrs], by simp⟩, by simp⟩
  | cons f fs ih =>
    intro M hf v
    obtain ⟨l1, M1, h1, o1, z1, -⟩ := visits_ok w hM0 (s.ord.numVars + 1) (hf f (by simp)).1
      (hf f (by simp)).2 v (by omega) (by omega)
    obtain ⟨l2, M2, h2, o2, z2⟩ := ih (fun g hg => hf g (by simp [hg])) o1.vis
    refine ⟨_, _, by simp only [visitsAll, h1, h2], o1.trans o2, ?_⟩
    intro g hg
    rcases List.mem_cons.1 hg with rfl | hg
    · exact o2.zero z1
    · exact z2 g hg

/-- Both traversals together: every address below the arguments is visited exactly once, with a mark
that tells in which polarities it is reached, and all marks are clear afterwards. -/
theorem traverse_ok {s : Store} (w : s.WF) {fs : List Edge} (hf : ∀ f ∈ fs, s.EOK f) :
    ∃ M l, markAll s (s.ord.numVars + 1) (fun _ => 0) fs = some M ∧
      visitsAll s (s.ord.numVars + 1) M fs = some (l, fun _ => 0) ∧ (addrs l).Nodup ∧
      (∀ p ∈ l, s.EOK p.1 ∧ p.2 ≠ 0 ∧ p.2 < 4) ∧
      (∀ x, (∃ f ∈ fs, Below s f x) ↔ s.EOK x ∧ ∃ p ∈ l, p.1.addr = x.addr ∧
        p.2 &&& (1 <<< x.neg.toNat) ≠ 0) := by
  obtain ⟨M, h1, a1, a2, a3⟩ := markAll_clear w hf
  have below0 : ∀ x, (∃ f ∈ fs, Below s f x) → M x.addr ≠ 0 := by
    rintro x ⟨f, hfs, hb⟩ h0
    have := (a2 x (hb.eok w (hf f hfs))).2 ⟨f, hfs, hb⟩
    simp [Marked, h0] at this
  have hM0 : ∀ a n, M a ≠ 0 → s.heap a = some n → M n.thn.addr ≠ 0 ∧ M n.els.addr ≠ 0 := by
    intro a n ha hn
    obtain ⟨f, hfs, y, hy, rfl⟩ := a3 a ha
    have hk : s.kids y = some (n.thn.phase y.neg, n.els.phase y.neg) := by simp [Store.kids, hn]
    exact ⟨below0 (n.thn.phase y.neg) ⟨f, hfs, hy.trans (.thn hk (.refl _))⟩,
      below0 (n.els.phase y.neg) ⟨f, hfs, hy.trans (.els hk (.refl _))⟩⟩
  obtain ⟨l, M', h2, o, z⟩ := visitsAll_ok w hM0 (fs := fs) (M := M)
    (fun f hfs => ⟨hf f hfs, below0 f ⟨f, hfs, .refl _⟩⟩) ⟨fun _ => Or.inl rfl, fun a n h h' => absurd h' h⟩
  have hz : ∀ a, M' a = 0 := by
    intro a
    by_cases ha : M a = 0
    · rcases o.vis.or a with h | h
      · rw [h, ha]
      · exact h
    · obtain ⟨f, hfs, y, hy, rfl⟩ := a3 a ha
      have h0 := z f hfs
      have hm := below0 f ⟨f, hfs, .refl _⟩
      clear ha hfs
      induction hy with
      | refl => exact h0
      | thn hk b ih =>
        obtain ⟨n, hn, rfl, rfl⟩ := kids_node hk
        exact ih (o.vis.closed _ _ hm h0 hn).1 (hM0 _ _ hm hn).1
      | els hk b ih =>
        obtain ⟨n, hn, rfl, rfl⟩ := kids_node hk
        exact ih (o.vis.closed _ _ hm h0 hn).2 (hM0 _ _ hm hn).2
  have hin : ∀ a, M a ≠ 0 → ∃ p ∈ l, p.1.addr = a := by
    intro a ha
    have := hz a
    rw [o.eq] at this
    by_cases h : a ∈ addrs l
    · obtain ⟨p, hp, e⟩ := List.mem_map.1 h
      exact ⟨p, hp, e⟩
    · rw [if_neg h] at this; exact absurd this ha
  refine ⟨M, l, h1, by rw [h2, show M' = fun _ => 0 from funext hz], o.nodup, ?_, ?_⟩
  · intro p hp
    obtain ⟨b1, b2, b3⟩ := o.mem p hp
    exact ⟨b1, b3 ▸ b2, b3 ▸ a1 _⟩
  · intro x
    constructor
    · rintro ⟨f, hfs, hb⟩
      have hx := hb.eok w (hf f hfs)
      obtain ⟨p, hp, e⟩ := hin x.addr (below0 x ⟨f, hfs, hb⟩)
      refine ⟨hx, p, hp, e, ?_⟩
      rw [(o.mem p hp).2.2, e]
      exact (a2 x hx).2 ⟨f, hfs, hb⟩
    · rintro ⟨hx, p, hp, e, hm⟩
      rw [(o.mem p hp).2.2, e] at hm
      exact (a2 x hx).1 hm

/-! ## Profiles -/

/-- the entry of the profile a node counts for -/
def slot (s : Store) (f : Edge) : Nat := if f.isConst then s.ord.numVars else s.ord.lvl f.id

/-- the counts of the visited nodes of entry `i` -/
def slotTotal (s : Store) (cnt : Nat → Nat) (l : List (Edge × Nat)) (i : Nat) : Nat :=
  total cnt (l.filter fun p => slot s p.1 == i)

theorem slotTotal_append (s : Store) (cnt : Nat → Nat) (l l' : List (Edge × Nat)) (i : Nat) :
    slotTotal s cnt (l ++ l') i = slotTotal s cnt l i + slotTotal s cnt l' i := by
  simp [slotTotal, total]

theorem slotTotal_cons (s : Store) (cnt : Nat → Nat) (p : Edge × Nat) (l : List (Edge × Nat)) (i : Nat) :
    slotTotal s cnt (p :: l) i = (if slot s p.1 = i then cnt p.2 else 0) + slotTotal s cnt l i := by
  by_cases h : slot s p.1 = i
  · simp [slotTotal, total, h]
  · simp [slotTotal, h]

theorem profileStep_eq {s : Store} (w : s.WF) (cnt : Nat → Nat) : ∀ k M C f, s.EOK f →
    profileStep s cnt k M C f =
      (visits s k M f).map fun p => ((fun i => C i + slotTotal s cnt p.1 i), p.2) := by
  intro k
  induction k with
  | zero => intros; rfl
  | succ k ih =>
    intro M C f hf
    unfold profileStep visits
    split
    · simp [slotTotal, total]
    · by_cases hc : f.isConst
      · rw [if_pos hc, if_pos hc]
        simp only [Option.map_some, Option.some.injEq, Prod.mk.injEq, and_true]
        funext i
        rw [slotTotal_cons]
        simp only [slot, hc, if_true, slotTotal, List.filter_nil, total, List.map_nil, List.sum_nil]
        by_cases hi : i = s.ord.numVars
        · subst hi; simp
        · rw [upd_ne _ _ hi, if_neg (fun h => hi h.symm)]; rfl
      · rw [if_neg hc, if_neg hc]
        have hc0 : f.id ≠ 0 := by simpa [Edge.isConst] using hc
        obtain ⟨t, u, hkid, ht, hu, l1, l2⟩ := kids_spec w hf hc0
        have := hf.lvl_lt w hc0
        simp only
        rw [if_neg (by omega), hkid]
        simp only [ih _ _ _ ht]
        cases visits s k M t with
        | none => rfl
        | some q =>
          simp only [Option.map_some, ih _ _ _ hu]
          cases visits s k q.2 u with
          | none => rfl
          | some q' =>
            simp only [Option.map_some, Option.some.injEq, Prod.mk.injEq, and_true]
            funext i
            rw [slotTotal_cons, slotTotal_append]
            simp only [slot, hc]
            by_cases hi : i = s.ord.lvl f.id
            · subst hi; simp; omega
            · rw [upd_ne _ _ hi, if_neg (by simpa using fun h => hi h.symm)]
              omega

theorem profileAll_eq {s : Store} (w : s.WF) (cnt : Nat → Nat) (k : Nat) : ∀ fs M C,
    (∀ f ∈ fs, s.EOK f) → profileAll s cnt k M C fs =
      (visitsAll s k M fs).map fun p => ((fun i => C i + slotTotal s cnt p.1 i), p.2) := by
  intro fs
  induction fs with
  | nil => intros; simp [profileAll, visitsAll, slotTotal, total]
  | cons f fs ih =>
    intro M C hf
    simp only [profileAll, visitsAll, profileStep_eq w _ _ _ _ _ (hf f (by simp))]
    cases visits s k M f with
    | none => rfl
    | some q =>
      simp only [Option.map_some, ih _ _ (fun g hg => hf g (by simp [hg]))]
      cases visitsAll s k q.2 fs with
      | none => rfl
      | some q' =>
        simp only [Option.map_some, Option.some.injEq, Prod.mk.injEq, and_true]
        funext i
        rw [slotTotal_append]
        omega

end Cal
