import Verif.EngRefs

/-!
# Invariant of the engine with several queues

`G a` is the function the request at address `a` stands for.
-/

namespace Cal

/-- Meaning of the problems of an operation: `Ok s k x F` — the result of problem `x` is `F` and it
only depends on variables of index at least `k`; `Null s x` — problem `x` has the null result;
`Pd s p F` — `p` is the contents of a pending request for `F`. -/
structure RulesSem {P : Type} (R : Rules P) where
  Ok : Store → Nat → P → BFn → Prop
  Null : Store → P → Prop
  Pd : Store → P → BFn → Prop
  /-- the function that selects between the two sub-results of a request in a table of a queue; the
  variable of the table unless the operation substitutes for it -/
  sel : Nat → Nat → BFn := fun _ i ρ => ρ i
  /-- whether a sub-result that is a node may be at any index (results found in the cache when the
  operation substitutes) -/
  loose : Prop := False
  ok_mono : ∀ {s s' k x F}, s.Le s' → Ok s k x F → Ok s' k x F
  null_mono : ∀ {s s' x}, s.Le s' → Null s x → Null s' x
  pd_mono : ∀ {s s' x F}, s.Le s' → Pd s x F → Pd s' x F

/-- The edge is at index `k` or below, or it is a node and nodes may be anywhere. -/
def RulesSem.From {P : Type} {R : Rules P} (S : RulesSem R) (s : Store) (k : Nat) (e : Edge) : Prop :=
  k ≤ s.ord.lvl e.id ∨ S.loose ∧ s.EOK e

theorem RulesSem.From.mono {P : Type} {R : Rules P} {S : RulesSem R} {s s' : Store} {k e}
    (h : S.From s k e) (hl : s.Le s') : S.From s' k e := by
  rcases h with h | ⟨h, h'⟩
  · exact Or.inl (by rw [hl.ord]; exact h)
  · exact Or.inr ⟨h, h'.mono hl⟩

theorem RulesSem.From.strict {P : Type} {R : Rules P} {S : RulesSem R} {s : Store} {k e}
    (h : S.From s k e) (hs : ¬ S.loose) : k ≤ s.ord.lvl e.id :=
  h.elim id (fun h => absurd h.1 hs)

/-- Requests are selected by the variable of their table and nodes are below it. -/
def RulesSem.Plain {P : Type} {R : Rules P} (S : RulesSem R) (A : Nat → Prop) : Prop :=
  (∀ d i, A d → S.sel d i = fun ρ => ρ i) ∧ ¬ S.loose

/-- The result of a problem can be obtained. -/
inductive WantOk {P : Type} {R : Rules P} (S : RulesSem R) (A : Nat → Prop) (s : Store) (k : Nat) (x : P)
    (F : BFn) : Prop
  | edge (e : Edge) (h : R.want s x = some (.edge e)) (hr : Rep s e F) (hl : k ≤ s.ord.lvl e.id)
  | far (e : Edge) (h : R.want s x = some (.edge e)) (hr : Rep s e F) (hl : S.loose)
  | req (p : P) (c : Bool) (H : BFn) (h : R.want s x = some (.req p c)) (hp : S.Pd s p H)
      (ha : A (R.que p)) (hi : 1 ≤ R.top s.ord p ∧ R.top s.ord p ≤ s.ord.numVars)
      (hl : k ≤ s.ord.lvl (R.top s.ord p)) (hF : F = fun ρ => xor c (H ρ))
  | node (i : Nat) (t e : Edge) (T E : BFn) (h : R.want s x = some (.node i t e)) (ht : Rep s t T)
      (he : Rep s e E) (hi : 1 ≤ i ∧ i ≤ s.ord.numVars) (l1 : s.ord.lvl i < s.ord.lvl t.id)
      (l2 : s.ord.lvl i < s.ord.lvl e.id) (hl : k ≤ s.ord.lvl i)
      (hF : F = fun ρ => if ρ i then T ρ else E ρ)

/-- A pending request can be split. -/
inductive SplitOk {P : Type} {R : Rules P} (S : RulesSem R) (s : Store) (p : P) (F : BFn) : Prop
  | two (x y : P) (T E : BFn) (h : R.split s p = some (x, y))
      (hx : S.Ok s (s.ord.lvl (R.top s.ord p) + 1) x T)
      (hy : S.Ok s (s.ord.lvl (R.top s.ord p) + 1) y E)
      (hF : F = fun ρ => if S.sel (R.que p) (R.top s.ord p) ρ then T ρ else E ρ)
  | left (x y : P) (h : R.split s p = some (x, y))
      (hx : S.Ok s (s.ord.lvl (R.top s.ord p) + 1) x F) (hy : S.Null s y)
  | right (x y : P) (h : R.split s p = some (x, y)) (hx : S.Null s x)
      (hy : S.Ok s (s.ord.lvl (R.top s.ord p) + 1) y F)

/-- Laws for obtaining results by requests in the queues `A`. -/
structure ActOk {P : Type} {R : Rules P} (S : RulesSem R) (A : Nat → Prop) : Prop where
  pd_fun : ∀ {s p F F'}, s.WF → A (R.que p) → S.Pd s p F → S.Pd s p F' → F = F'
  want_null : ∀ {s x}, s.WF → S.Null s x → R.want s x = some .null
  want_ok : ∀ {s k x F}, s.WF → S.Ok s k x F → WantOk S A s k x F

/-- Laws for the requests in the queues `A`. -/
structure RulesOk {P : Type} {R : Rules P} (S : RulesSem R) (A : Nat → Prop) : Prop extends
    ActOk S A where
  split_ok : ∀ {s p F}, s.WF → A (R.que p) → S.Pd s p F → SplitOk S s p F

namespace BF

variable {P : Type} {R : Rules P} {S : RulesSem R} {A : Nat → Prop}

/-- In state `b` the edge `e`, possibly to a request, stands for `F`. -/
def Val (b : BF P) (G : Nat → BFn) (e : Edge) (F : BFn) : Prop :=
  Rep b.st e F ∨ ∃ r, b.req e.addr = some r ∧ r.id = e.id ∧ F = fun ρ => xor e.neg (G e.addr ρ)

/-- a node or a request in the queues `A` -/
def EVa (A : Nat → Prop) (b : BF P) (e : Edge) : Prop :=
  b.st.EOK e ∨ ∃ r, b.req e.addr = some r ∧ r.id = e.id ∧ A r.dep

theorem EVa.x {b : BF P} {e} (h : EVa A b e) : b.EVx e := by
  rcases h with h | ⟨r, h1, h2, _⟩
  · exact Or.inl h
  · exact Or.inr ⟨r, h1, h2⟩

structure EI (S : RulesSem R) (A : Nat → Prop) (b : BF P) (G : Nat → BFn) : Prop where
  sh : QShape b
  pend : ∀ a i d p, b.req a = some ⟨i, d, .pend p⟩ →
    S.Pd b.st p (G a) ∧ (A d → R.que p = d ∧ R.top b.st.ord p = i)
  done : ∀ a i d t e, b.req a = some ⟨i, d, .done t e⟩ → ∃ T E, b.Val G t T ∧ b.Val G e E ∧
    G a = fun ρ => if S.sel d i ρ then T ρ else E ρ
  half : ∀ a i d e, b.req a = some ⟨i, d, .half e⟩ → b.Val G e (G a)
  fwd : ∀ a i d t, b.req a = some ⟨i, d, .fwd t⟩ → Rep b.st t (G a)
  done_act : ∀ a i d t e, A d → b.req a = some ⟨i, d, .done t e⟩ →
    EVa A b t ∧ EVa A b e ∧ S.From b.st (b.st.ord.lvl i + 1) t ∧ S.From b.st (b.st.ord.lvl i + 1) e
  half_act : ∀ a i d e, A d → b.req a = some ⟨i, d, .half e⟩ →
    EVa A b e ∧ S.From b.st (b.st.ord.lvl i + 1) e
  fwd_act : ∀ a i d t, A d → b.req a = some ⟨i, d, .fwd t⟩ → b.st.ord.lvl i ≤ b.st.ord.lvl t.id

/-- What every step keeps. -/
structure Stp (A : Nat → Prop) (b : BF P) (G : Nat → BFn) (b' : BF P) (G' : Nat → BFn) : Prop where
  st : b.st.Le b'.st
  req : ∀ a r, b.req a = some r → (∃ r', b'.req a = some r' ∧ r'.id = r.id ∧ r'.dep = r.dep) ∨
    Rep b'.st ⟨r.id, a, false⟩ (G a)
  ghost : ∀ a, b.Used a → G' a = G a
  inact : ∀ a r, ¬ A r.dep → (b'.req a = some r ↔ b.req a = some r)
  keep : ∀ ext, b.RefOK ext → (∀ a r, b.req a = some r → ext a = 0) →
    b'.RefOK ext ∧ (∀ a r, b'.req a = some r → ext a = 0)
  num : b.st.NumOK → b'.st.NumOK

theorem used_req {b : BF P} {a r} (h : b.req a = some r) : b.Used a :=
  Or.inr (Or.inr (by rw [h]; simp))

theorem Stp.refl (b : BF P) (G) : Stp A b G b G :=
  ⟨Store.Le.refl _, fun _ r h => Or.inl ⟨r, h, rfl, rfl⟩, fun _ _ => rfl, fun _ _ _ => Iff.rfl,
    fun _ h h' => ⟨h, h'⟩, fun h => h⟩

theorem Stp.used {b b' : BF P} {G G'} (h : Stp A b G b' G') {a} (ha : b.Used a) : b'.Used a := by
  rcases ha with h0 | h1 | h2
  · exact Or.inl h0
  · right; left
    cases hh : b.st.heap a with
    | none => exact absurd hh h1
    | some n => rw [h.st.heap a n hh]; simp
  · cases hh : b.req a with
    | none => exact absurd hh h2
    | some r =>
      rcases h.req a r hh with ⟨r', h3, _⟩ | h3
      · exact used_req h3
      · rcases h3.eok with ⟨_, h4⟩ | ⟨n, h4, _⟩
        · exact Or.inl h4
        · exact Or.inr (Or.inl (by rw [h4]; simp))

theorem Stp.trans {b b' b'' : BF P} {G G' G''} (h1 : Stp A b G b' G') (h2 : Stp A b' G' b'' G'') :
    Stp A b G b'' G'' where
  st := h1.st.trans h2.st
  req := by
    intro a r hr
    rcases h1.req a r hr with ⟨r', h3, h4, h5⟩ | h3
    · rcases h2.req a r' h3 with ⟨r'', h6, h7, h8⟩ | h6
      · exact Or.inl ⟨r'', h6, h7.trans h4, h8.trans h5⟩
      · right; rw [← h1.ghost a (used_req hr), ← h4]; exact h6
    · exact Or.inr (h3.mono h2.st)
  ghost := fun a ha => (h2.ghost a (h1.used ha)).trans (h1.ghost a ha)
  inact := fun a r hA => (h2.inact a r hA).trans (h1.inact a r hA)
  keep := fun ext h h' => by
    obtain ⟨a1, a2⟩ := h1.keep ext h h'
    exact h2.keep ext a1 a2
  num := fun h => h2.num (h1.num h)

theorem Stp.le {b b' : BF P} {G G'} (h : Stp A b G b' G') (sh : QShape b) : b.Le b' := by
  refine ⟨h.st, fun a r hr => ?_⟩
  rcases h.req a r hr with ⟨r', h1, h2, h3⟩ | h3
  · exact Or.inl ⟨r', h1, h2, h3⟩
  · rcases h3.eok with ⟨_, h4⟩ | ⟨n, h4, h5⟩
    · simp only at h4
      have := (sh.req_ok a r hr).2.1; omega
    · exact Or.inr ⟨n, h4, h5⟩

theorem Stp.weaken {B : Nat → Prop} {b b' : BF P} {G G'} (h : Stp A b G b' G') (hAB : ∀ d, A d → B d) :
    Stp B b G b' G' :=
  ⟨h.st, h.req, h.ghost, fun a r hn => h.inact a r (fun ha => hn (hAB _ ha)), h.keep, h.num⟩

theorem Val.mono {b b' : BF P} {G G'} (h : Stp A b G b' G') {e F} (v : b.Val G e F) :
    b'.Val G' e F := by
  rcases v with v | ⟨r, h1, h2, h3⟩
  · exact Or.inl (v.mono h.st)
  · rcases h.req _ _ h1 with ⟨r', h4, h5, h6⟩ | h4
    · exact Or.inr ⟨r', h4, h5.trans h2, by rw [h.ghost _ (used_req h1)]; exact h3⟩
    · left
      have := h4.phase e.neg
      rw [h2] at this
      rw [h3]
      have he : (⟨e.id, e.addr, false⟩ : Edge).phase e.neg = e := by
        cases e; simp [Edge.phase]
      rw [he] at this; exact this

theorem EVa.mono {b b' : BF P} {G G'} (h : Stp A b G b' G') {B : Nat → Prop} {e} (v : EVa B b e) :
    EVa B b' e := by
  rcases v with v | ⟨r, h1, h2, h3⟩
  · exact Or.inl (v.mono h.st)
  · rcases h.req _ _ h1 with ⟨r', h4, h5, h6⟩ | h4
    · exact Or.inr ⟨r', h4, h5.trans h2, by rw [h6]; exact h3⟩
    · left
      rcases h4.eok with ⟨h5, h6⟩ | ⟨n, h5, h6⟩
      · exact Or.inl ⟨h2 ▸ h5, h6⟩
      · exact Or.inr ⟨n, h5, by rw [← h2]; exact h6⟩

theorem EVx.monoS {b b' : BF P} {G G'} (h : Stp A b G b' G') {e} (v : b.EVx e) :
    b'.EVx e := by
  rcases v with v | ⟨r, h1, h2⟩
  · exact Or.inl (v.mono h.st)
  · have := EVa.mono h (B := fun _ => True) (e := e) (Or.inr ⟨r, h1, h2, trivial⟩)
    exact this.x

theorem Val.phase {b : BF P} {G e F} (v : b.Val G e F) (c : Bool) :
    b.Val G (e.phase c) (fun ρ => xor c (F ρ)) := by
  rcases v with v | ⟨r, h1, h2, h3⟩
  · exact Or.inl (v.phase c)
  · refine Or.inr ⟨r, h1, h2, ?_⟩
    subst h3
    funext ρ
    simp only [Edge.phase]
    cases c <;> cases e.neg <;> simp

theorem EVa.phase {b : BF P} {e} (v : EVa A b e) (c : Bool) : EVa A b (e.phase c) := v

/-! ### Obtaining results in the apply phase -/

/-- Requests were added, and nodes. -/
structure Grow (A : Nat → Prop) (k : Nat) (b b' : BF P) (G G' : Nat → BFn) : Prop where
  le : b.st.Le b'.st
  old : ∀ a r, b.req a = some r → b'.req a = some r
  new : ∀ a r, b'.req a = some r → b.req a = some r ∨
    (¬ b.Used a ∧ A r.dep ∧ k ≤ b.st.ord.lvl r.id ∧ ∃ p, r.cell = .pend p)
  ghost : ∀ a, b.Used a → G' a = G a
  num : b.st.NumOK → b'.st.NumOK

theorem Grow.refl (k) (b : BF P) (G) : Grow A k b b G G :=
  ⟨Store.Le.refl _, fun _ _ h => h, fun _ _ h => Or.inl h, fun _ _ => rfl, fun h => h⟩

theorem Grow.used {k} {b b' : BF P} {G G'} (h : Grow A k b b' G G') {a} (ha : b.Used a) : b'.Used a := by
  rcases ha with h0 | h1 | h2
  · exact Or.inl h0
  · right; left
    cases hh : b.st.heap a with
    | none => exact absurd hh h1
    | some n => rw [h.le.heap a n hh]; simp
  · cases hh : b.req a with
    | none => exact absurd hh h2
    | some r => exact used_req (h.old a r hh)

theorem Grow.trans {k} {b b' b'' : BF P} {G G' G''} (h1 : Grow A k b b' G G')
    (h2 : Grow A k b' b'' G' G'') : Grow A k b b'' G G'' where
  le := h1.le.trans h2.le
  old := fun a r h => h2.old a r (h1.old a r h)
  new := by
    intro a r h
    rcases h2.new a r h with h3 | ⟨h3, h4, h5, h6⟩
    · exact h1.new a r h3
    · rw [h1.le.ord] at h5
      exact Or.inr ⟨fun hu => h3 (h1.used hu), h4, h5, h6⟩
  ghost := fun a ha => (h2.ghost a (h1.used ha)).trans (h1.ghost a ha)
  num := fun h => h2.num (h1.num h)

theorem Grow.stp {k} {b b' : BF P} {G G'} (h : Grow A k b b' G G')
    (hk : ∀ ext, b.RefOK ext → b'.RefOK ext) : Stp A b G b' G' where
  st := h.le
  req := fun a r hr => Or.inl ⟨r, h.old a r hr, rfl, rfl⟩
  ghost := h.ghost
  inact := by
    intro a r hn
    constructor
    · intro hr
      rcases h.new a r hr with h1 | ⟨_, h1, _⟩
      · exact h1
      · exact absurd h1 hn
    · exact h.old a r
  keep := by
    intro ext h1 h2
    refine ⟨hk ext h1, fun a r hr => ?_⟩
    rcases h.new a r hr with h3 | ⟨h3, _⟩
    · exact h2 a r h3
    · by_cases h0 : a = 0
      · exact absurd (Or.inl h0) h3
      · exact h1.ext0 a h0 (not_live_of_not_used h3)
  num := h.num

/-- Requests of `A` at index `k` and below are still pending. -/
def Open (A : Nat → Prop) (k : Nat) (b : BF P) : Prop :=
  ∀ a r, b.req a = some r → A r.dep → k ≤ b.st.ord.lvl r.id → ∃ p, r.cell = .pend p

theorem Open.grow {k j} {b b' : BF P} {G G'} (h : Open A k b) (g : Grow A j b b' G G') : Open A k b' := by
  intro a r hr ha hl
  rw [g.le.ord] at hl
  rcases g.new a r hr with h1 | ⟨_, _, _, h1⟩
  · exact h a r h1 ha hl
  · exact h1

theorem EI.pushReq {b : BF P} {G} (ei : EI S A b G) {p : P} {F} (hp : S.Pd b.st p F) {d i : Nat}
    (hdi : A d → R.que p = d ∧ R.top b.st.ord p = i) (hi : 1 ≤ i ∧ i ≤ b.st.ord.numVars)
    (had : A d) {k} (hk : k ≤ b.st.ord.lvl i) :
    EI S A (b.pushReq d i p) (upd G (b.st.alloc i).1 F) ∧
      Grow A k b (b.pushReq d i p) G (upd G (b.st.alloc i).1 F) ∧
      (b.pushReq d i p).req (b.st.alloc i).1 = some ⟨i, d, .pend p⟩ := by
  have sh := ei.sh
  obtain ⟨sp, w'⟩ := Store.alloc_spec sh.wf i
  have hfr := sh.fresh i
  generalize ha : (b.st.alloc i).1 = a at *
  have hb'st : (b.pushReq d i p).st = (b.st.alloc i).2 := rfl
  have hheap : (b.pushReq d i p).st.heap = b.st.heap := Store.alloc_heap _ _
  have hord : (b.pushReq d i p).st.ord = b.st.ord := Store.alloc_ord _ _
  have hreq_ne : ∀ x, x ≠ a → (b.pushReq d i p).req x = b.req x := by
    intro x hx; subst ha; exact upd_ne _ _ hx
  have hreq_a : (b.pushReq d i p).req a = some ⟨i, d, .pend p⟩ := by subst ha; exact upd_same _ _ _
  have hque : (b.pushReq d i p).que = upd2 b.que d i (a :: b.que d i) := by subst ha; rfl
  generalize hb' : b.pushReq d i p = b' at *
  have hle : b.st.Le b'.st := ⟨hord, fun x n hn => by rw [hheap]; exact hn⟩
  have hne : ∀ x, b.Used x → x ≠ a := by rintro x hx rfl; exact hfr hx
  have old : ∀ x r, b.req x = some r → b'.req x = some r := by
    intro x r hx; rw [hreq_ne x (hne x (used_req hx))]; exact hx
  have new : ∀ x r, b'.req x = some r → (x = a ∧ r = ⟨i, d, .pend p⟩) ∨ (x ≠ a ∧ b.req x = some r) := by
    intro x r hx
    by_cases hxa : x = a
    · subst hxa; rw [hreq_a] at hx; cases hx; exact Or.inl ⟨rfl, rfl⟩
    · rw [hreq_ne x hxa] at hx; exact Or.inr ⟨hxa, hx⟩
  have gr : Grow A k b b' G (upd G a F) := by
    refine ⟨hle, old, ?_, fun x hx => upd_ne _ _ (hne x hx), ?_⟩
    · intro x r hx
      rcases new x r hx with ⟨rfl, rfl⟩ | ⟨_, h⟩
      · exact Or.inr ⟨hfr, had, hk, p, rfl⟩
      · exact Or.inl h
    · intro h
      obtain ⟨f1, f2, f3, f4⟩ := pushReq_fields b d i p
      rw [hb'] at f1 f2 f3
      exact h.congr f2 f1 f3
  have hst : ∀ e F, b.Val G e F → b'.Val (upd G a F) e F := by
    intro e F v
    rcases v with v | ⟨r, h1, h2, h3⟩
    · exact Or.inl (v.mono hle)
    · exact Or.inr ⟨r, old _ _ h1, h2, by rw [upd_ne _ _ (hne _ (used_req h1))]; exact h3⟩
  have hval : ∀ e H, b.Val G e H → b'.Val (upd G a F) e H := by
    intro e H v
    rcases v with v | ⟨r, h1, h2, h3⟩
    · exact Or.inl (v.mono hle)
    · exact Or.inr ⟨r, old _ _ h1, h2, by rw [upd_ne _ _ (hne _ (used_req h1))]; exact h3⟩
  have hxv : ∀ e, b.EVx e → b'.EVx e := by
    intro e v
    rcases v with v | ⟨r, h1, h2⟩
    · exact Or.inl (v.mono hle)
    · exact Or.inr ⟨r, old _ _ h1, h2⟩
  have hav : ∀ e, EVa A b e → EVa A b' e := by
    intro e v
    rcases v with v | ⟨r, h1, h2⟩
    · exact Or.inl (v.mono hle)
    · exact Or.inr ⟨r, old _ _ h1, h2⟩
  refine ⟨?_, gr, hreq_a⟩
  exact {
    sh := {
      wf := hb'st ▸ w'
      req_ok := by
        intro x r hx
        rcases new x r hx with ⟨rfl, rfl⟩ | ⟨hxa, h⟩
        · rw [hheap, hb'st]; exact ⟨sp.old, sp.pos, sp.lt, sp.notfree⟩
        · have := sh.req_ok x r h
          rw [hheap, hb'st]
          exact ⟨this.1, this.2.1, Nat.lt_of_lt_of_le this.2.2.1 sp.next_le,
            fun j hj => this.2.2.2 j (sp.free_sub j x hj)⟩
      req_id := by
        intro x r hx
        rw [hord]
        rcases new x r hx with ⟨rfl, rfl⟩ | ⟨hxa, h⟩
        · exact hi
        · exact sh.req_id x r h
      que_iff := by
        intro d' j x
        rw [hque]
        by_cases hdj : d' = d ∧ j = i
        · obtain ⟨rfl, rfl⟩ := hdj
          simp only [upd2, and_self, if_true, List.mem_cons, sh.que_iff]
          constructor
          · rintro (rfl | ⟨r, h1, h2, h3⟩)
            · exact ⟨_, hreq_a, rfl, rfl⟩
            · exact ⟨r, old _ _ h1, h2, h3⟩
          · rintro ⟨r, h1, h2, h3⟩
            rcases new x r h1 with ⟨rfl, rfl⟩ | ⟨hxa, h⟩
            · exact Or.inl rfl
            · exact Or.inr ⟨r, h, h2, h3⟩
        · simp only [upd2, hdj, if_false, sh.que_iff]
          constructor
          · rintro ⟨r, h1, h2, h3⟩; exact ⟨r, old _ _ h1, h2, h3⟩
          · rintro ⟨r, h1, h2, h3⟩
            rcases new x r h1 with ⟨rfl, rfl⟩ | ⟨hxa, h⟩
            · exact absurd ⟨h3.symm, h2.symm⟩ hdj
            · exact ⟨r, h, h2, h3⟩
      que_nodup := by
        intro d' j
        rw [hque]
        by_cases hdj : d' = d ∧ j = i
        · obtain ⟨rfl, rfl⟩ := hdj
          simp only [upd2, and_self, if_true, List.nodup_cons]
          refine ⟨?_, sh.que_nodup _ _⟩
          intro hm
          obtain ⟨r, h1, _⟩ := (sh.que_iff _ _ _).1 hm
          exact hfr (used_req h1)
        · simp only [upd2, hdj, if_false]; exact sh.que_nodup _ _
      done_thn := by
        intro x j d' t e hx
        rcases new x _ hx with ⟨_, h⟩ | ⟨_, h⟩
        · cases h
        · exact hxv _ (sh.done_thn _ _ _ _ _ h)
      done_els := by
        intro x j d' t e hx
        rcases new x _ hx with ⟨_, h⟩ | ⟨_, h⟩
        · cases h
        · exact hxv _ (sh.done_els _ _ _ _ _ h)
      half_ok := by
        intro x j d' e hx
        rcases new x _ hx with ⟨_, h⟩ | ⟨_, h⟩
        · cases h
        · exact hxv _ (sh.half_ok _ _ _ _ h)
      fwd_ok := by
        intro x j d' e hx
        rcases new x _ hx with ⟨_, h⟩ | ⟨_, h⟩
        · cases h
        · exact (sh.fwd_ok _ _ _ _ h).mono hle }
    pend := by
      intro x j d' q hx
      rw [hord]
      rcases new x _ hx with ⟨rfl, h⟩ | ⟨hxa, h⟩
      · cases h; rw [upd_same]; exact ⟨S.pd_mono hle hp, hdi⟩
      · rw [upd_ne _ _ hxa]
        exact ⟨S.pd_mono hle (ei.pend _ _ _ _ h).1, (ei.pend _ _ _ _ h).2⟩
    done := by
      intro x j d' t e hx
      rcases new x _ hx with ⟨_, h⟩ | ⟨hxa, h⟩
      · cases h
      · obtain ⟨T, E, h1, h2, h3⟩ := ei.done _ _ _ _ _ h
        exact ⟨T, E, hval _ _ h1, hval _ _ h2, by rw [upd_ne _ _ hxa]; exact h3⟩
    half := by
      intro x j d' e hx
      rcases new x _ hx with ⟨_, h⟩ | ⟨hxa, h⟩
      · cases h
      · rw [upd_ne _ _ hxa]; exact hval _ _ (ei.half _ _ _ _ h)
    fwd := by
      intro x j d' e hx
      rcases new x _ hx with ⟨_, h⟩ | ⟨hxa, h⟩
      · cases h
      · rw [upd_ne _ _ hxa]; exact (ei.fwd _ _ _ _ h).mono hle
    done_act := by
      intro x j d' t e hA hx
      rw [hord]
      rcases new x _ hx with ⟨_, h⟩ | ⟨hxa, h⟩
      · cases h
      · obtain ⟨h1, h2, h3⟩ := ei.done_act _ _ _ _ _ hA h
        exact ⟨hav _ h1, hav _ h2, h3.1.mono hle, h3.2.mono hle⟩
    half_act := by
      intro x j d' e hA hx
      rw [hord]
      rcases new x _ hx with ⟨_, h⟩ | ⟨hxa, h⟩
      · cases h
      · obtain ⟨h1, h2⟩ := ei.half_act _ _ _ _ hA h
        exact ⟨hav _ h1, h2.mono hle⟩
    fwd_act := by
      intro x j d' e hA hx
      rw [hord]
      rcases new x _ hx with ⟨_, h⟩ | ⟨hxa, h⟩
      · cases h
      · exact ei.fwd_act _ _ _ _ hA h }

/-- The store grows by nodes. -/
theorem EI.grow {b : BF P} {G} (ei : EI S A b G) {s' : Store} (w' : s'.WF) (hle : b.st.Le s')
    (hfr : b.st.Frm s') : EI S A { b with st := s' } G := by
  have sh := ei.sh
  have ho : s'.ord = b.st.ord := hle.ord
  have hval : ∀ e H, b.Val G e H → ({ b with st := s' } : BF P).Val G e H := by
    intro e H v
    rcases v with v | h
    · exact Or.inl (v.mono hle)
    · exact Or.inr h
  have hav : ∀ e, EVa A b e → EVa A ({ b with st := s' } : BF P) e := by
    intro e v
    rcases v with v | h
    · exact Or.inl (v.mono hle)
    · exact Or.inr h
  exact {
    sh := (sh.grow w' hle (fun a r hr => by
      obtain ⟨h1, h2, h3, h4⟩ := sh.req_ok a r hr
      obtain ⟨g1, g2, g3, _⟩ := hfr a h2 h3 h1 h4
      exact ⟨g1, g2, g3⟩)).1
    pend := fun a i d p hr => by
      have := ei.pend a i d p hr
      exact ⟨S.pd_mono hle this.1, fun hA => by
        show _ ∧ R.top s'.ord p = i
        rw [ho]; exact this.2 hA⟩
    done := fun a i d t e hr => by
      obtain ⟨T, E, h1, h2, h3⟩ := ei.done a i d t e hr
      exact ⟨T, E, hval _ _ h1, hval _ _ h2, h3⟩
    half := fun a i d e hr => hval _ _ (ei.half a i d e hr)
    fwd := fun a i d t hr => (ei.fwd a i d t hr).mono hle
    done_act := fun a i d t e hA hr => by
      obtain ⟨h1, h2, h3⟩ := ei.done_act a i d t e hA hr
      show _ ∧ _ ∧ S.From s' (s'.ord.lvl i + 1) t ∧ S.From s' (s'.ord.lvl i + 1) e
      rw [ho]; exact ⟨hav _ h1, hav _ h2, h3.1.mono hle, h3.2.mono hle⟩
    half_act := fun a i d e hA hr => by
      obtain ⟨h1, h2⟩ := ei.half_act a i d e hA hr
      show _ ∧ S.From s' (s'.ord.lvl i + 1) e
      rw [ho]; exact ⟨hav _ h1, h2.mono hle⟩
    fwd_act := fun a i d t hA hr => by
      show s'.ord.lvl i ≤ s'.ord.lvl t.id
      rw [ho]; exact ei.fwd_act a i d t hA hr }

/-- Only counts change. -/
theorem EI.ref {b : BF P} {G} (ei : EI S A b G) (ref : Nat → Nat) :
    EI S A { b with st := { b.st with ref := ref } } G := by
  have sh := ei.sh
  have hle : b.st.Le { b.st with ref := ref } := ⟨rfl, fun _ _ h => h⟩
  have hval : ∀ e H, b.Val G e H → ({ b with st := { b.st with ref := ref } } : BF P).Val G e H := by
    intro e H v
    rcases v with v | h
    · exact Or.inl (v.mono hle)
    · exact Or.inr h
  exact {
    sh := (sh.grow (sh.wf.ref ref) hle (fun a r hr => by
      obtain ⟨h1, h2, h3, h4⟩ := sh.req_ok a r hr
      exact ⟨h1, h3, h4⟩)).1
    pend := fun a i d p hr => by
      have := ei.pend a i d p hr
      exact ⟨S.pd_mono hle this.1, this.2⟩
    done := fun a i d t e hr => by
      obtain ⟨T, E, h1, h2, h3⟩ := ei.done a i d t e hr
      exact ⟨T, E, hval _ _ h1, hval _ _ h2, h3⟩
    half := fun a i d e hr => hval _ _ (ei.half a i d e hr)
    fwd := fun a i d t hr => (ei.fwd a i d t hr).mono hle
    done_act := ei.done_act
    half_act := ei.half_act
    fwd_act := ei.fwd_act }

theorem mkNode_rep {s : Store} (w : s.WF) {i : Nat} {t e : Edge} {T E}
    (hi : 1 ≤ i ∧ i ≤ s.ord.numVars) (ht : Rep s t T) (he : Rep s e E)
    (l1 : s.ord.lvl i < s.ord.lvl t.id) (l2 : s.ord.lvl i < s.ord.lvl e.id) :
    (s.mkNode i t e).1.WF ∧ s.Le (s.mkNode i t e).1 ∧ s.Keep (s.mkNode i t e).1 ∧
      Rep (s.mkNode i t e).1 (s.mkNode i t e).2 (fun ρ => if ρ i then T ρ else E ρ) := by
  obtain ⟨δ, hδ⟩ := w.exists_lab
  obtain ⟨s', r, δ', h1, h2, h3, h4, h5, h6, h7, h8⟩ := mkNode_ok w hδ hi ht.eok he.eok l1 l2
  have h1' := Option.some.inj h1
  rw [h1']
  refine ⟨h2, h3, h8, ?_⟩
  have := h5.rep h2 h4
  rw [h7, hδ.rep_eq ht, hδ.rep_eq he] at this
  exact this

theorem mkNode_lvl {s : Store} {i : Nat} {t e : Edge} {k}
    (hk : k ≤ s.ord.lvl i) (l1 : s.ord.lvl i < s.ord.lvl t.id) :
    k ≤ s.ord.lvl (s.mkNode i t e).2.id := by
  have : (s.mkNode i t e).2.id = i ∨ (s.mkNode i t e).2 = t := by
    have h1 : (s.findOrAdd i t e).2.1.id = i ∨ (s.findOrAdd i t e).2.1 = t := by
      have hh : ∀ t e, (s.hashFindOrAdd i t e).2.1.id = i := by
        intro t e; unfold Store.hashFindOrAdd; split <;> rfl
      unfold Store.findOrAdd
      split
      · right; rfl
      · left; simp only; split <;> split <;> simp [hh]
    unfold Store.mkNode
    simp only
    split <;> exact h1
  rcases this with h | h
  · rw [h]; exact hk
  · rw [h]; omega

theorem lookup_next {s : Store} (w : s.WF) (i : Nat) (t e : Edge) :
    s.next ≤ (s.hashFindOrAdd i t e).1.next := by
  unfold Store.hashFindOrAdd
  split
  · exact Nat.le_refl _
  · exact (Store.alloc_spec w i).1.next_le

theorem mkNode_next {s : Store} (w : s.WF) (i : Nat) (t e : Edge) : s.next ≤ (s.mkNode i t e).1.next := by
  have h1 : s.next ≤ (s.findOrAdd i t e).1.next := by
    unfold Store.findOrAdd
    split
    · exact Nat.le_refl _
    · simp only; split <;> split <;> exact lookup_next w i _ _
  unfold Store.mkNode
  simp only
  split <;> exact h1

theorem push_spec [DecidableEq P] (H : ActOk S A) {b : BF P} {G} (ei : EI S A b G) {k} (op : Open A k b)
    {p F} (hp : S.Pd b.st p F) (ha : A (R.que p))
    (hi : 1 ≤ R.top b.st.ord p ∧ R.top b.st.ord p ≤ b.st.ord.numVars)
    (hl : k ≤ b.st.ord.lvl (R.top b.st.ord p)) :
    ∃ b' e G', b.findOrAddReq (R.que p) (R.top b.st.ord p) p = some (b', e) ∧ EI S A b' G' ∧
      Grow A k b b' G G' ∧ (∀ ext, b.RefOK ext → b'.RefOK ext) ∧ b'.Val G' e F ∧ EVa A b' e ∧
      k ≤ b'.st.ord.lvl e.id := by
  have w := ei.sh.wf
  have hpend : ∀ a ∈ b.que (R.que p) (R.top b.st.ord p), ∃ i d q, b.req a = some ⟨i, d, .pend q⟩ := by
    intro a hm
    obtain ⟨r, h1, h2, h3⟩ := (ei.sh.que_iff _ _ _).1 hm
    obtain ⟨q, hq⟩ := op a r h1 (by rw [h3]; exact ha) (by rw [h2]; exact hl)
    obtain ⟨i, d, cc⟩ := r
    simp only at hq; subst hq
    exact ⟨_, _, _, h1⟩
  rcases findReq_ok b p _ hpend with ⟨a, hm, i, d, hr, hf⟩ | hf
  · obtain ⟨r, h1, h2, h3⟩ := (ei.sh.que_iff _ _ _).1 hm
    rw [hr] at h1; cases h1
    simp only at h2 h3
    have hpd := (ei.pend _ _ _ _ hr).1
    have hG := H.pd_fun w ha hpd hp
    refine ⟨b, ⟨R.top b.st.ord p, a, false⟩, G, ?_, ei, Grow.refl _ _ _,
      fun _ h => h, ?_, ?_, hl⟩
    · simp [findOrAddReq, hf]
    · rw [← hG]; exact Or.inr ⟨_, hr, h2, by simp⟩
    · exact Or.inr ⟨_, hr, h2, by show A d; rw [h3]; exact ha⟩
  · obtain ⟨e1, e2, e3⟩ := ei.pushReq hp (d := R.que p) (i := R.top b.st.ord p) (fun _ => ⟨rfl, rfl⟩) hi ha hl
    refine ⟨_, ⟨R.top b.st.ord p, (b.st.alloc (R.top b.st.ord p)).1, false⟩, _, ?_,
      e1, e2, fun ext h => h.push ei.sh _ _ _, ?_, ?_, ?_⟩
    · simp [findOrAddReq, hf]
    · exact Or.inr ⟨_, e3, rfl, by simp⟩
    · exact Or.inr ⟨_, e3, rfl, ha⟩
    · rw [e2.le.ord]; exact hl

theorem act_specL [DecidableEq P] (H : ActOk S A) {b : BF P} {G} (ei : EI S A b G) {k} (op : Open A k b)
    {x F} (hx : S.Ok b.st k x F) :
    ∃ b' e G', b.act R x = some (b', some e) ∧ EI S A b' G' ∧ Grow A k b b' G G' ∧
      (∀ ext, b.RefOK ext → b'.RefOK ext) ∧ b'.Val G' e F ∧ EVa A b' e ∧ S.From b'.st k e := by
  have w := ei.sh.wf
  cases H.want_ok w hx with
  | edge e h hr hl =>
    exact ⟨b, e, G, by simp [act, h], ei, Grow.refl _ _ _, fun _ h => h, Or.inl hr, Or.inl hr.eok,
      Or.inl hl⟩
  | far e h hr hl =>
    exact ⟨b, e, G, by simp [act, h], ei, Grow.refl _ _ _, fun _ h => h, Or.inl hr, Or.inl hr.eok,
      Or.inr ⟨hl, hr.eok⟩⟩
  | req p c Hf h hp ha hi hl hF =>
    obtain ⟨b', e, G', h1, h2, h3, h4, h5, h6, h7⟩ := push_spec H ei op hp ha hi hl
    refine ⟨b', e.phase c, G', by simp [act, h, h1], h2, h3, h4, ?_, h6.phase c, Or.inl h7⟩
    rw [hF]; exact h5.phase c
  | node i t e T E h ht he hi l1 l2 hl hF =>
    obtain ⟨w', le', kp, rp⟩ := mkNode_rep w hi ht he l1 l2
    have fr := Store.Frm.mkNode w i ht.eok he.eok
    refine ⟨{ b with st := (b.st.mkNode i t e).1 }, (b.st.mkNode i t e).2, G, by simp only [act, h],
      ei.grow w' le' fr, ?_, ?_, ?_, ?_, ?_⟩
    · exact ⟨le', fun _ _ h => h, fun _ _ h => Or.inl h, fun _ _ => rfl, kp.2⟩
    · exact fun ext h => h.nest ei.sh w' le' (mkNode_next w i t e) fr kp.1
    · rw [hF]; exact Or.inl rp
    · exact Or.inl rp.eok
    · left
      show k ≤ (b.st.mkNode i t e).1.ord.lvl _
      rw [le'.ord]; exact mkNode_lvl hl l1

theorem act_spec [DecidableEq P] (H : ActOk S A) {b : BF P} {G} (ei : EI S A b G) {k} (op : Open A k b)
    {x F} (hx : S.Ok b.st k x F) (hS : ¬ S.loose := by exact id) :
    ∃ b' e G', b.act R x = some (b', some e) ∧ EI S A b' G' ∧ Grow A k b b' G G' ∧
      (∀ ext, b.RefOK ext → b'.RefOK ext) ∧ b'.Val G' e F ∧ EVa A b' e ∧ k ≤ b'.st.ord.lvl e.id := by
  obtain ⟨b', e, G', h1, h2, h3, h4, h5, h6, h7⟩ := act_specL H ei op hx
  exact ⟨b', e, G', h1, h2, h3, h4, h5, h6, h7.strict hS⟩

end BF
end Cal
