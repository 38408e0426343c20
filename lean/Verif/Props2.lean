import Verif.Props1

/-!
# Properties of the API, part 2: quantifiers, intersection, types, variables, associations

`AssocDen m j T` (`ApiAssoc2.lean`) says that the association with id `j` (-1 for the temporary one)
associates exactly the variables `v` with `T v ≠ none`, and each of them with the function `T v`.
-/

namespace Cal

variable {E : Env} {own : Nat → Nat} {lk : Bool} {m : Mgr}

/-- the variables of an association -/
def Dom (T : Nat → Option BFn) (v : Nat) : Prop := T v ≠ none

/-- There always is a current association. -/
theorem Reachable.current (S : E.Sound) (R : Reachable E own lk m) : ∃ T, AssocDen m m.cur T := by
  obtain ⟨Γ, leak, -, i⟩ := R.inv S
  obtain ⟨A, hA⟩ := i.cur_assoc
  exact i.assocDen hA

theorem AssocDen.dom {j T} (h : AssocDen m j T) : ∃ A, m.assoc j = some A ∧ A.dom = Dom T := by
  obtain ⟨A, h1, h2⟩ := h
  refine ⟨A, h1, funext fun v => propext ?_⟩
  unfold Assoc.dom Dom
  rcases h2 v with ⟨h3, h4⟩ | ⟨e, F, h3, h4, -⟩
  · simp [h3, h4]
  · simp [h3, h4]

/-! ## C14, C15, C16 -/

/-- `Cal_BddExists`: `exFn V F ρ` holds iff `F σ` does for some `σ` that differs from `ρ` only on
variables of `V`; `V` are the variables of the current association. -/
theorem C14_exists (S : E.Sound) (R : Reachable E own lk m) {T} (hT : AssocDen m m.cur T)
    (hc : m.cur = -1 → 1 ≤ m.codesLeft) {f F} (lf : UTab.Live own f) (hf : Den m f F) :
    YieldsOrOverflows own m (m.exists_ E f) (exFn (Dom T) F) := by
  obtain ⟨A, hA, hd⟩ := hT.dom
  rw [← hd]
  exact (Mgr.exists_ok S (R.inv S) hA (fun h => Mgr.codes_left (R.inv S) (hc h)) lf hf).overflows

theorem C15_forAll (S : E.Sound) (R : Reachable E own lk m) {T} (hT : AssocDen m m.cur T)
    (hc : m.cur = -1 → 1 ≤ m.codesLeft) {f F} (lf : UTab.Live own f) (hf : Den m f F) :
    YieldsOrOverflows own m (m.forAll E f) (allFn (Dom T) F) := by
  obtain ⟨A, hA, hd⟩ := hT.dom
  rw [← hd]
  exact (Mgr.forAll_ok S (R.inv S) hA (fun h => Mgr.codes_left (R.inv S) (hc h)) lf hf).overflows

theorem C16_relProd (S : E.Sound) (R : Reachable E own lk m) {T} (hT : AssocDen m m.cur T)
    (hc : m.cur = -1 → 2 ≤ m.codesLeft) {f F g G} (lf : UTab.Live own f) (lg : UTab.Live own g)
    (hf : Den m f F) (hg : Den m g G) :
    YieldsOrOverflows own m (m.relProd E f g) (exFn (Dom T) fun ρ => F ρ && G ρ) := by
  obtain ⟨A, hA, hd⟩ := hT.dom
  rw [← hd]
  exact (Mgr.relProd_ok S (R.inv S) hA (fun h => Mgr.codes_left (R.inv S) (hc h)) lf lg hf hg).overflows

namespace Demo

/-- in the example the current association is that of the variable `a`, with id 0 -/
theorem cur0 : sess.m.cur = 0 := by decide +kernel

theorem assoc0 : AssocDen sess.m sess.m.cur (upd (fun _ => none) 1 (some fun _ => true)) := by
  have ha : (sess.m.assoc sess.m.cur).map (fun A => (A.var 1)) = some (some one) := by decide +kernel
  obtain ⟨T, hT⟩ := reach.current Env.plain_sound
  obtain ⟨A, h1, h2⟩ := hT
  rw [h1] at ha
  simp only [Option.map_some, Option.some.injEq] at ha
  refine ⟨A, h1, fun v => ?_⟩
  by_cases hv : v = 1
  · subst hv
    rw [upd_same]
    exact Or.inr ⟨one, _, ha, rfl, .one⟩
  · rw [upd_ne _ _ hv]
    refine Or.inl ⟨?_, rfl⟩
    by_cases h23 : v = 2 ∨ v = 3
    · have hb : (sess.m.assoc sess.m.cur).map (fun A => (A.var 2, A.var 3)) = some (none, none) := by
        decide +kernel
      rw [h1] at hb
      simp only [Option.map_some, Option.some.injEq, Prod.mk.injEq] at hb
      rcases h23 with rfl | rfl
      · exact hb.1
      · exact hb.2
    · obtain ⟨Γ, leak, -, i⟩ := reach.inv Env.plain_sound
      have ok := (i.assoc_aok h1).ok
      cases hA : A.var v with
      | none => rfl
      | some e =>
        have := ok.rng v (by unfold Assoc.dom; rw [hA]; rfl)
        have hn : sess.m.st.ord.numVars = 3 := by decide +kernel
        omega

end Demo

/-- `∃ a. (a ∧ b) ∨ c`; the result is the handle of `b ∨ c` -/
example : YieldsOrOverflows Demo.sess.own Demo.sess.m (Demo.sess.m.exists_ Env.plain ⟨6, false⟩)
    (exFn (Dom (upd (fun _ => none) 1 (some fun _ => true))) fun ρ => ρ 1 && ρ 2 || ρ 3) :=
  C14_exists Env.plain_sound Demo.reach Demo.assoc0 (by rw [Demo.cur0]; intro h; cases h) Demo.live6
    Demo.den6
example := C15_forAll Env.plain_sound Demo.reach Demo.assoc0 (by rw [Demo.cur0]; intro h; cases h)
  Demo.live6 Demo.den6
example := C16_relProd Env.plain_sound Demo.reach Demo.assoc0 (by rw [Demo.cur0]; intro h; cases h)
  Demo.live6 Demo.live5 Demo.den6 Demo.den5
example : Demo.results (Demo.script ++ [.exists_ ⟨6, false⟩, .or ⟨3, false⟩ ⟨4, false⟩,
      .forAll ⟨6, false⟩, .relProd ⟨6, false⟩ ⟨5, false⟩]) =
    some ([.handle ⟨3, false⟩, .handle ⟨4, false⟩, .handle ⟨7, false⟩, .handle ⟨7, false⟩]
      ++ Demo.sess.rets) := by decide +kernel

/-! ## C28 -/

/-- `Cal_BddIntersects`: something that implies both, false exactly when they are disjoint. -/
theorem C28_intersects (S : E.Sound) (R : Reachable E own lk m) {f g F G} (lf : UTab.Live own f)
    (lg : UTab.Live own g) (hf : Den m f F) (hg : Den m g G) :
    ∃ H, Yields own m (m.intersects E f g) H ∧ (∀ ρ, H ρ = true → F ρ = true ∧ G ρ = true) ∧
      (H = (fun _ => false) ↔ ∀ ρ, ¬ (F ρ = true ∧ G ρ = true)) := by
  obtain ⟨H, hr, M⟩ := Mgr.intersects_ok S (R.inv S) lf lg hf hg
  refine ⟨H, hr.yields, M.imp, ?_, ?_⟩
  · rintro rfl ρ h
    obtain ⟨σ, hs⟩ := M.sat ⟨ρ, h⟩
    cases hs
  · intro h
    funext ρ
    cases hH : H ρ with
    | false => rfl
    | true => exact absurd (M.imp ρ hH) (h ρ)

/-- `Cal_BddImplies`: false exactly when `f` implies `g`, otherwise a counterexample. -/
theorem C28_implies (S : E.Sound) (R : Reachable E own lk m) {f g F G} (lf : UTab.Live own f)
    (lg : UTab.Live own g) (hf : Den m f F) (hg : Den m g G) :
    ∃ H, Yields own m (m.implies E f g) H ∧ (∀ ρ, H ρ = true → F ρ = true ∧ G ρ = false) ∧
      (H = (fun _ => false) ↔ ∀ ρ, F ρ = true → G ρ = true) := by
  obtain ⟨H, hr, M⟩ := Mgr.implies_ok S (R.inv S) lf lg hf hg
  refine ⟨H, hr.yields, fun ρ h => by simpa using M.imp ρ h, ?_, ?_⟩
  · rintro rfl ρ h
    cases hG : G ρ with
    | true => rfl
    | false =>
      obtain ⟨σ, hs⟩ := M.sat ⟨ρ, h, by simp [hG]⟩
      cases hs
  · intro h
    funext ρ
    cases hH : H ρ with
    | false => rfl
    | true =>
      have := M.imp ρ hH
      simp only [Bool.not_eq_eq_eq_not, Bool.not_true] at this
      rw [h ρ this.1] at this; cases this.2

example := C28_intersects Env.plain_sound Demo.reach Demo.live5 Demo.live6 Demo.den5 Demo.den6
/-- `a ∧ b` implies `(a ∧ b) ∨ c`, not the other way round -/
example : Demo.results (Demo.script ++ [.implies ⟨5, false⟩ ⟨6, false⟩, .implies ⟨6, false⟩ ⟨5, false⟩]) =
    some ([.handle ⟨7, true⟩, .handle ⟨1, true⟩] ++ Demo.sess.rets) := by decide +kernel

/-! ## C32 -/

/-- `Cal_BddType` -/
theorem C32_type (S : E.Sound) (R : Reachable E own lk m) {f F} (lf : UTab.Live own f)
    (hf : Den m f F) :
    ∃ m' t, m.type E f = some (m', t) ∧
      (t = .zero ↔ F = fun _ => false) ∧ (t = .one ↔ F = fun _ => true) ∧
      (t = .posvar ↔ ∃ v, F = fun ρ => ρ v) ∧ (t = .negvar ↔ ∃ v, F = fun ρ => !ρ v) ∧
      (t = .nonterminal ↔ F ≠ (fun _ => false) ∧ F ≠ (fun _ => true) ∧ (¬ ∃ v, F = fun ρ => ρ v) ∧
        ¬ ∃ v, F = fun ρ => !ρ v) := by
  obtain ⟨m', t, h, -, -, sp⟩ := Mgr.type_ok S (R.inv S) lf hf
  refine ⟨m', t, h, sp.zero, sp.one, sp.pos, sp.neg, ?_⟩
  rw [← sp.pos, ← sp.neg]
  simp only [ne_eq]
  rw [← sp.zero, ← sp.one]
  have := sp.ovf
  cases t <;> simp_all

/-- `Cal_BddIsCube` -/
theorem C32_isCube (S : E.Sound) (R : Reachable E own lk m) {f F} (hf : Den m f F)
    (hF : F ≠ fun _ => false) :
    ∃ b, m.isCube f = some b ∧
      (b = true ↔ ∃ L : List (Nat × Bool), F = fun ρ => L.all fun l => ρ l.1 == l.2) :=
  Mgr.isCube_ok (R.inv S) hf hF

example : Demo.sess.m.isCube ⟨5, false⟩ = some true ∧ Demo.sess.m.isCube ⟨6, false⟩ = some false ∧
    Demo.sess.m.isCube ⟨1, true⟩ = none := by decide +kernel
example := C32_isCube Env.plain_sound Demo.reach Demo.den6 (Demo.nonconst6 false)
example : Demo.results (Demo.script ++ [.type ⟨1, true⟩, .type ⟨1, false⟩, .type ⟨3, false⟩,
      .type ⟨3, true⟩, .type ⟨5, false⟩]) =
    some ([.type .nonterminal, .type .negvar, .type .posvar, .type .one, .type .zero]
      ++ Demo.sess.rets) := by decide +kernel

/-! ## C33 -/

/-- A call makes a new variable at position `index`: its id is the next number, the variables from
there on move back by one, all handles keep their functions, and the result denotes the variable. -/
def NewAt (own : Nat → Nat) (m : Mgr) (index : Nat) (out : Option (Mgr × Handle)) : Prop :=
  ∃ m' h, out = some (m', h) ∧ h ≠ Handle.null ∧ Den m' h (fun ρ => ρ (m.numVars + 1)) ∧
    m'.numVars = m.numVars + 1 ∧ m'.st.ord.idToIndex (m.numVars + 1) = index ∧
    (∀ v, 1 ≤ v → v ≤ m.numVars → m'.st.ord.idToIndex v =
      if m.st.ord.idToIndex v < index then m.st.ord.idToIndex v else m.st.ord.idToIndex v + 1) ∧
    ∀ f, UTab.Live own f → ∀ F, Den m f F → Den m' f F

theorem Mgr.NewVar.newAt {index out} (h : NewVar own lk index m out) : NewAt own m index out := by
  obtain ⟨m', x, h1, h2, -, g, d⟩ := h
  exact ⟨m', x, h1, h2, d, g.nv, g.new, g.old, g.fns⟩

theorem C33_first (S : E.Sound) (R : Reachable E own lk m) (h : m.numVars < 65534) :
    NewAt own m 0 m.newVarFirst := (Mgr.newVarFirst_ok (R.inv S) h).newAt

theorem C33_last (S : E.Sound) (R : Reachable E own lk m) (h : m.numVars < 65534) :
    NewAt own m m.numVars m.newVarLast := (Mgr.newVarLast_ok (R.inv S) h).newAt

/-- Before, or after, the top variable of the argument. -/
theorem C33_beside (S : E.Sound) (R : Reachable E own lk m) (h : m.numVars < 65534) {f F}
    (hf : Den m f F) (hc : ∀ b, F ≠ fun _ => b) :
    ∃ v, TopVar m.st.ord F v ∧ NewAt own m (m.st.ord.idToIndex v) (m.newVarBefore f) ∧
      NewAt own m (m.st.ord.idToIndex v + 1) (m.newVarAfter f) := by
  obtain ⟨v, h1, h2, h3⟩ := Mgr.newVarBeside_ok (R.inv S) h hf ⟨hc true, hc false⟩
  exact ⟨v, h1, h2.newAt, h3.newAt⟩

/-- For a constant argument the new variable comes last. -/
theorem C33_beside_const (S : E.Sound) (R : Reachable E own lk m) (h : m.numVars < 65534) {f b}
    (hf : Den m f fun _ => b) :
    NewAt own m m.numVars (m.newVarBefore f) ∧ NewAt own m m.numVars (m.newVarAfter f) := by
  obtain ⟨h2, h3⟩ := Mgr.newVarBeside_const (R.inv S) h hf (by
    intro hc; cases b
    · exact hc.2 rfl
    · exact hc.1 rfl)
  exact ⟨h2.newAt, h3.newAt⟩

example := C33_beside Env.plain_sound Demo.reach (by decide +kernel) Demo.den6 Demo.nonconst6
/-- the order after adding one variable each way -/
example : ((Demo.run Env.plain Demo.start (Demo.script ++ [.newVarFirst, .newVarAfter ⟨6, false⟩,
      .newVarBefore ⟨4, false⟩])).map fun s =>
    (List.range 6).map s.m.st.ord.indexToId) = some [4, 1, 5, 2, 6, 3] := by decide +kernel

/-! ## C34 -/

/-- Ids `1..n` and indices `0..n-1` are in one-to-one correspondence. -/
theorem C34_order (S : E.Sound) (R : Reachable E own lk m) :
    (∀ v, 1 ≤ v → v ≤ m.numVars → m.st.ord.idToIndex v < m.numVars ∧
      m.st.ord.indexToId (m.st.ord.idToIndex v) = v) ∧
    (∀ k, k < m.numVars → 1 ≤ m.st.ord.indexToId k ∧ m.st.ord.indexToId k ≤ m.numVars ∧
      m.st.ord.idToIndex (m.st.ord.indexToId k) = k) := by
  have w := (R.inv S).wf.ord
  exact ⟨fun v h1 h2 => ⟨w.idx_lt v h1 h2, w.left v h1 h2⟩,
    fun k h => ⟨(w.id_range k h).1, (w.id_range k h).2, w.right k h⟩⟩

/-- `Cal_BddManagerGetVarWithId`, `-WithIndex` -/
theorem C34_withId (S : E.Sound) (R : Reachable E own lk m) (v : Nat) :
    (1 ≤ v → v ≤ m.numVars → Yields own m (m.varWithId v) fun ρ => ρ v) ∧
    (v = 0 ∨ m.numVars < v → m.varWithId v = some (m, Handle.null)) :=
  ⟨fun h1 h2 => (Mgr.varWithId_ok (R.inv S) h1 h2).yields, Mgr.varWithId_none⟩

theorem C34_withIndex (S : E.Sound) (R : Reachable E own lk m) (k : Nat) :
    (∀ v, 1 ≤ v → v ≤ m.numVars → m.st.ord.idToIndex v = k →
      Yields own m (m.varWithIndex k) fun ρ => ρ v) ∧
    (m.numVars ≤ k → m.varWithIndex k = some (m, Handle.null)) := by
  refine ⟨?_, Mgr.varWithIndex_none⟩
  rintro v h1 h2 rfl
  have w := (R.inv S).wf.ord
  have := (Mgr.varWithIndex_ok (R.inv S) (w.idx_lt v h1 h2)).yields
  rw [w.left v h1 h2] at this
  exact this

/-- `Cal_BddGetIfIndex`, `Cal_BddGetIfId`: index and id of the top variable; 65535 and 0 for
constants. -/
theorem C34_getIf (S : E.Sound) (R : Reachable E own lk m) {f F} (lf : UTab.Live own f) (hf : Den m f F) :
    ∃ m', ((∃ b, F = fun _ => b) → m.getIfIndex E f = some (m', 65535) ∧ m.getIfId E f = some (m', 0)) ∧
      ((∀ b, F ≠ fun _ => b) → ∃ v, TopVar m'.st.ord F v ∧
        m.getIfIndex E f = some (m', m'.st.ord.idToIndex v) ∧ m.getIfId E f = some (m', v)) := by
  obtain ⟨m', -, -, h1, h2⟩ := Mgr.getIf_ok S (R.inv S) lf hf
  refine ⟨m', fun ⟨b, hb⟩ => h1 ?_, fun h => h2 ⟨h true, h false⟩⟩
  cases b
  · exact Or.inr hb
  · exact Or.inl hb

example : Demo.results (Demo.script ++ [.varWithId 2, .varWithId 4, .varWithIndex 2, .varWithIndex 3,
      .newVarFirst, .getIfIndex ⟨6, false⟩, .getIfId ⟨6, false⟩]) =
    some ([.num 1, .num 1, .handle ⟨7, false⟩, .handle Handle.null, .handle ⟨4, false⟩,
      .handle Handle.null, .handle ⟨3, false⟩] ++ Demo.sess.rets) := by decide +kernel
example := C34_getIf Env.plain_sound Demo.reach Demo.live6 Demo.den6

/-! ## C35 -/

/-- `Cal_AssociationInit` on legal entries: the association with the returned id means the table of
the entries; existing associations stay; the id is an old one exactly when an association with the
same meaning was there already. -/
theorem C35_init (S : E.Sound) (R : Reachable E own lk m) {hs : List Handle} {Fs} {pairs : Bool} {L}
    (hl : ∀ h ∈ hs, UTab.Live own h) (hd : F2 (Den m) hs Fs) (lg : Legal pairs Fs L)
    (hlen : m.assocs.length < 4096) :
    ∃ m' k, m.associationInit E hs pairs = some (m', k) ∧ 0 ≤ k ∧ m'.cur = m.cur ∧
      AssocDen m' k (tableFrom (fun _ => none) L) ∧
      (∀ j T, AssocDen m j T → AssocDen m' j T) ∧
      (∀ j, m'.count j = m.count j + if j = k then 1 else 0) ∧
      (m.count k ≠ 0 ↔ ∃ j, j ≠ -1 ∧ AssocDen m j (tableFrom (fun _ => none) L)) := by
  obtain ⟨m', k, h1, -, -, h2, h3, h4, h5, h6, h7, h8⟩ :=
    Mgr.associationInit_ok S (R.inv S) hl hd lg hlen
  exact ⟨m', k, h1, h3, h2, h4, h5, h6, fun h => ⟨k, by omega, h7 h⟩, h8⟩

/-- Entries that are not about variables are rejected. -/
theorem C35_init_illegal (S : E.Sound) (R : Reachable E own lk m) {hs : List Handle} {Fs}
    (hl : ∀ h ∈ hs, UTab.Live own h) (hd : F2 (Den m) hs Fs)
    (lg : ∃ q ∈ entries true Fs, ¬ ∃ v, q.1 = fun ρ => ρ v) :
    ∃ m', m.associationInit E hs true = some (m', -1) ∧ (∀ j T, AssocDen m j T → AssocDen m' j T) ∧
      ∀ j, m'.count j = m.count j := by
  obtain ⟨m', h1, -, p⟩ := Mgr.associationInit_illegal S (R.inv S) hl hd lg
  exact ⟨m', h1, fun _ _ h => p.assocDen h, p.count⟩

/-- `Cal_AssociationQuit`: the use count of that association goes down by one; the association stays
what it is while the count is positive, and is gone when it reaches zero. Other associations stay. If
it was the current one, the temporary association becomes current. -/
theorem C35_quit (S : E.Sound) (R : Reachable E own lk m) (j : Int) :
    (∀ l, (m.associationQuit j).count l = if l = j then m.count j - 1 else m.count l) ∧
    (∀ l T, l ≠ j ∨ 1 < m.count j ∨ l = -1 → AssocDen m l T → AssocDen (m.associationQuit j) l T) ∧
    (j ≠ -1 → m.count j ≤ 1 → ∀ T, ¬ AssocDen (m.associationQuit j) j T) ∧
    (m.associationQuit j).cur = (if m.cur = j then -1 else m.cur) ∧
    ∀ h, UTab.Live own h → ∀ F, Den m h F → Den (m.associationQuit j) h F := by
  obtain ⟨-, f, h1, h2, h3, h4⟩ := Mgr.associationQuit_ok (R.inv S) j
  exact ⟨h2, h3, h4, h1, f.fns⟩

/-- `Cal_AssociationSetCurrent`: that association, or the temporary one if there is none with the
id; returns the old one. -/
theorem C35_setCurrent (S : E.Sound) (R : Reachable E own lk m) (j : Int) :
    (m.associationSetCurrent j).2 = m.cur ∧
    (m.associationSetCurrent j).1.cur = (if m.count j = 0 then -1 else j) ∧
    (∀ l, (m.associationSetCurrent j).1.count l = m.count l) ∧
    (∀ l T, AssocDen m l T → AssocDen (m.associationSetCurrent j).1 l T) := by
  obtain ⟨h1, -, -, h2, h3, h4⟩ := Mgr.associationSetCurrent_ok (R.inv S) j
  exact ⟨h1, h2, h3, h4⟩

/-- An association is there exactly while its use count is positive. -/
theorem C35_count (S : E.Sound) (R : Reachable E own lk m) {j : Int} (hj : j ≠ -1) :
    m.count j ≠ 0 ↔ ∃ T, AssocDen m j T := by
  obtain ⟨Γ, leak, -, i⟩ := R.inv S
  unfold Mgr.count
  constructor
  · intro h
    cases hf : m.assocs.find? fun p => p.a.id == j with
    | none => rw [hf] at h; exact absurd rfl h
    | some p => exact i.assocDen (A := p.a) (by unfold Mgr.assoc; rw [if_neg hj, hf]; rfl)
  · rintro ⟨T, A, hA, -⟩
    unfold Mgr.assoc at hA
    rw [if_neg hj] at hA
    cases hf : m.assocs.find? fun p => p.a.id == j with
    | none => rw [hf] at hA; cases hA
    | some p =>
      have := (i.assocs p (List.mem_of_find?_eq_some hf)).2
      show p.refCount ≠ 0
      omega

/-! ## C36 -/

/-- `Cal_TempAssociationInit`: exactly the entries given, the last one for each variable. -/
theorem C36_init (S : E.Sound) (R : Reachable E own lk m) {hs : List Handle} {Fs} {pairs : Bool} {L}
    (hl : ∀ h ∈ hs, UTab.Live own h) (hd : F2 (Den m) hs Fs) (lg : Legal pairs Fs L) :
    ∃ m', m.tempInit E hs pairs = some m' ∧ m'.cur = m.cur ∧
      AssocDen m' (-1) (tableFrom (fun _ => none) L) ∧
      (∀ j T, j ≠ -1 → AssocDen m j T → AssocDen m' j T) ∧
      ∀ h, UTab.Live own h → ∀ F, Den m h F → Den m' h F := by
  obtain ⟨m', h1, -, k, h2⟩ := Mgr.tempInit_ok S (R.inv S) hl hd lg
  exact ⟨m', h1, k.cur, h2, k.others, k.frame.fns⟩

/-- `Cal_TempAssociationAugment`: the entries given on top of what was there. -/
theorem C36_augment (S : E.Sound) (R : Reachable E own lk m) {hs : List Handle} {Fs} {pairs : Bool} {L T}
    (hl : ∀ h ∈ hs, UTab.Live own h) (hd : F2 (Den m) hs Fs) (lg : Legal pairs Fs L)
    (hT : AssocDen m (-1) T) :
    ∃ m', m.tempAugment E hs pairs = some m' ∧ m'.cur = m.cur ∧ AssocDen m' (-1) (tableFrom T L) ∧
      (∀ j T, j ≠ -1 → AssocDen m j T → AssocDen m' j T) ∧
      ∀ h, UTab.Live own h → ∀ F, Den m h F → Den m' h F := by
  obtain ⟨m', h1, -, k, h2⟩ := Mgr.tempAugment_ok S (R.inv S) hl hd lg hT
  exact ⟨m', h1, k.cur, h2, k.others, k.frame.fns⟩

/-- `Cal_TempAssociationQuit`: nothing. -/
theorem C36_quit (S : E.Sound) (R : Reachable E own lk m) :
    AssocDen m.tempQuit (-1) (fun _ => none) ∧ m.tempQuit.cur = m.cur ∧
      (∀ j T, j ≠ -1 → AssocDen m j T → AssocDen m.tempQuit j T) ∧
      ∀ h, UTab.Live own h → ∀ F, Den m h F → Den m.tempQuit h F := by
  obtain ⟨-, k, h2⟩ := Mgr.tempQuit_ok (R.inv S)
  exact ⟨h2, k.cur, k.others, k.frame.fns⟩

/-- Entries that are not about variables are ignored altogether. -/
theorem C36_illegal (S : E.Sound) (R : Reachable E own lk m) {hs : List Handle} {Fs}
    (hl : ∀ h ∈ hs, UTab.Live own h) (hd : F2 (Den m) hs Fs)
    (lg : ∃ q ∈ entries true Fs, ¬ ∃ v, q.1 = fun ρ => ρ v) :
    (∃ m', m.tempAugment E hs true = some m' ∧ ∀ j T, AssocDen m j T → AssocDen m' j T) ∧
    ∃ m', m.tempInit E hs true = some m' ∧ AssocDen m' (-1) fun _ => none := by
  obtain ⟨m1, h1, -, p⟩ := Mgr.tempAugment_illegal S (R.inv S) hl hd lg
  obtain ⟨m2, h2, -, -, h3⟩ := Mgr.tempInit_illegal S (R.inv S) hl hd lg
  exact ⟨⟨m1, h1, fun _ _ h => p.assocDen h⟩, m2, h2, h3⟩

/-- `lastBddIndex`, which cuts off recursions, is the largest index of an associated variable, or -1
when there is none, in every reachable state and for every association. -/
theorem C36_last (S : E.Sound) (R : Reachable E own lk m) {j A T} (hA : m.assoc j = some A)
    (hT : AssocDen m j T) : (∀ v, T v ≠ none → (m.st.ord.idToIndex v : Int) ≤ A.last) ∧
      (A.last = -1 ∨ ∃ v, T v ≠ none ∧ (m.st.ord.idToIndex v : Int) = A.last) := by
  obtain ⟨Γ, leak, -, i⟩ := R.inv S
  have ok := (i.assoc_aok hA).ok
  obtain ⟨B, hB, hd⟩ := hT.dom
  rw [hA] at hB; cases hB
  refine ⟨fun v hv => ?_, ok.ex.imp_right fun ⟨v, hv, h⟩ => ⟨v, by rw [hd] at hv; exact hv, ?_⟩⟩
  · have hdv : A.dom v := by rw [hd]; exact hv
    have h1 := ok.rng v hdv
    have := ok.le v hdv
    rw [Order.lvl, if_neg (by omega)] at this
    exact this
  · have h1 := ok.rng v hv
    rw [Order.lvl, if_neg (by omega)] at h
    exact h

/-- In the example: `a ↦ b ∧ a`, then `c ↦ b`, as pairs. -/
theorem Demo.legal_pair : Legal true [fun ρ => ρ 1, fun ρ => ρ 1 && ρ 2] [(1, fun ρ => ρ 1 && ρ 2)] :=
  .cons ⟨Or.inl rfl, rfl⟩ .nil

theorem Demo.live_pair : ∀ h ∈ [(⟨2, false⟩ : Handle), ⟨5, false⟩], UTab.Live Demo.sess.own h := by
  simp only [List.mem_cons, List.not_mem_nil, or_false]
  rintro h (rfl | rfl)
  · exact Demo.live2
  · exact Demo.live5

theorem Demo.den_pair : F2 (Den Demo.sess.m) [⟨2, false⟩, ⟨5, false⟩]
    [fun ρ => ρ 1, fun ρ => ρ 1 && ρ 2] := .cons Demo.den2 (.cons Demo.den5 .nil)

example := C35_init Env.plain_sound Demo.reach Demo.live_pair Demo.den_pair Demo.legal_pair
  (by decide +kernel)
example := C36_init Env.plain_sound Demo.reach Demo.live_pair Demo.den_pair Demo.legal_pair
/-- the same association again gives the same id, another one a new id -/
example : Demo.results (Demo.script ++ [.associationInit [⟨2, false⟩] false,
      .associationInit [⟨2, false⟩, ⟨5, false⟩] true, .associationInit [⟨5, false⟩, ⟨2, false⟩] true]) =
    some ([.num (-1), .num 1, .num 0] ++ Demo.sess.rets) := by decide +kernel

end Cal
