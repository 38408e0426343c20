import Verif.Props7
import Verif.ApiPair

/-!
# Properties of the API, part 8: pairwise operations

`Decided`, `StartsAbove`, `LastFirst` (conditions on functions and the variable order only) and
`pairsOf` are defined in `Verif.ApiPair`.
-/

namespace Cal

variable {E : Env} {own : Nat → Nat} {lk : Bool} {m : Mgr}

/-! ## C05 -/

theorem pairsOf_get {α : Type} : ∀ (l : List α) (k : Nat) (x y : α), l[2 * k]? = some x →
    l[2 * k + 1]? = some y → (pairsOf l)[k]? = some (x, y)
  | [], _, _, _, h, _ => by simp at h
  | [_], 0, _, _, _, h => by simp at h
  | [_], k + 1, _, _, _, h => by simp at h
  | a :: b :: l, 0, x, y, h, h' => by simp at h h'; simp [pairsOf, h, h']
  | a :: b :: l, k + 1, x, y, h, h' => by
    have e1 : 2 * (k + 1) = 2 * k + 1 + 1 := by omega
    rw [e1] at h h'
    simp only [List.getElem?_cons_succ] at h h'
    simp only [pairsOf, List.getElem?_cons_succ]
    exact pairsOf_get l k x y h h'

theorem pairsOf_length {α : Type} : ∀ (l : List α), (pairsOf l).length = l.length / 2
  | [] => by simp [pairsOf]
  | [_] => by simp [pairsOf]
  | _ :: _ :: l => by simp [pairsOf, pairsOf_length l]; omega

theorem F2.get {α β : Type} {R : α → β → Prop} {l : List α} {m : List β} (h : F2 R l m) {k : Nat} {x : α}
    (hx : l[k]? = some x) : ∃ y, m[k]? = some y ∧ R x y := by
  induction h generalizing k with
  | nil => simp at hx
  | cons h _ ih =>
    cases k with
    | zero => simp at hx; subst hx; exact ⟨_, rfl, h⟩
    | succ k => simp at hx ⊢; exact ih hx

/-- The results of a pairwise operation: at position `k` the operation applied to the elements `2k` and
`2k+1` of the array. -/
def PairResults (fn : Bool → Bool → Bool) (m m' : Mgr) (hs rs : List Handle) : Prop :=
  2 * rs.length = hs.length ∧ (∀ r ∈ rs, r ≠ Handle.null) ∧
  ∀ k f g F G r, hs[2 * k]? = some f → hs[2 * k + 1]? = some g → Den m f F → Den m g G →
    rs[k]? = some r → Den m' r fun ρ => fn (F ρ) (G ρ)

theorem pairResults {fn m m' hs rs Fs} (R : m.Inv own lk) (hd : F2 (Den m) hs Fs)
    (he : hs.length % 2 = 0) (hn : ∀ r ∈ rs, r ≠ Handle.null)
    (h : F2 (Den m') rs ((pairsOf Fs).map fun P ρ => fn (P.1 ρ) (P.2 ρ))) :
    PairResults fn m m' hs rs := by
  refine ⟨?_, hn, ?_⟩
  · have := h.length
    rw [List.length_map, pairsOf_length, ← hd.length] at this
    omega
  · intro k f g F G r h1 h2 hf hg hr
    obtain ⟨F', h3, d3⟩ := hd.get h1
    obtain ⟨G', h4, d4⟩ := hd.get h2
    obtain ⟨X, h5, d5⟩ := h.get hr
    rw [List.getElem?_map, pairsOf_get _ _ _ _ h3 h4] at h5
    simp only [Option.map_some, Option.some.injEq] at h5
    subst h5
    rw [R.den_unique hf d3, R.den_unique hg d4]
    exact d5

/-- `Cal_BddPairwiseAnd` on a non-empty array of even length: the conjunctions of the pairs, or nulls when
the node limit was exceeded. Missing: arrays in which the last pair that needs work starts below another
one, see `C05_violated`. (With dynamic reordering on, the condition has to hold for every order.) -/
theorem C05_and_partial (S : E.Sound) (R : Reachable E own lk m) {hs Fs}
    (hl : ∀ h ∈ hs, UTab.Live own h) (hd : F2 (Den m) hs Fs) (hn : hs ≠ []) (he : hs.length % 2 = 0)
    (hf : ∀ o : Order, (m.technique = 0 → o = m.st.ord) → LastFirst o (pairsOf Fs)) :
    ∃ m' rs, m.pairwise E opAnd true hs = some (m', some rs) ∧
      (∀ h, UTab.Live own h → ∀ G, Den m h G → Den m' h G) ∧
      (PairResults (· && ·) m m' hs rs ∨
        (2 * rs.length = hs.length ∧ (∀ r ∈ rs, r = Handle.null) ∧ m'.overflow = true ∧ m'.nodeLimit ≠ 0)) := by
  obtain ⟨m', rs, h1, p, h⟩ := Mgr.pairwise_ok S (R.inv S) opAnd_law opAnd_terminal true hl hd
    (by simpa using hn) he hf
  refine ⟨m', rs, h1, p.fns, ?_⟩
  rcases h with ⟨-, h2, h3⟩ | ⟨-, h2, h3, -, h4⟩
  · exact Or.inl (pairResults (R.inv S) hd he h2 h3)
  · refine Or.inr ⟨?_, h2, h4⟩
    rw [h3, pairsOf_length, ← hd.length]
    omega

/-- `Cal_BddPairwiseOr`, as `C05_and_partial`. It does not check the node limit. -/
theorem C05_or_partial (S : E.Sound) (R : Reachable E own lk m) {hs Fs}
    (hl : ∀ h ∈ hs, UTab.Live own h) (hd : F2 (Den m) hs Fs) (hn : hs ≠ []) (he : hs.length % 2 = 0)
    (hf : ∀ o : Order, (m.technique = 0 → o = m.st.ord) → LastFirst o (pairsOf Fs)) :
    ∃ m' rs, m.pairwise E opOr false hs = some (m', some rs) ∧
      (∀ h, UTab.Live own h → ∀ G, Den m h G → Den m' h G) ∧ PairResults (· || ·) m m' hs rs := by
  obtain ⟨m', rs, h1, p, h⟩ := Mgr.pairwise_ok S (R.inv S) opOr_law opOr_terminal false hl hd
    (by simpa using hn) he hf
  rcases h with ⟨-, h2, h3⟩ | ⟨h, -⟩
  · exact ⟨m', rs, h1, p.fns, pairResults (R.inv S) hd he h2 h3⟩
  · cases h

/-- `Cal_BddPairwiseXor`, as `C05_or_partial`. -/
theorem C05_xor_partial (S : E.Sound) (R : Reachable E own lk m) {hs Fs}
    (hl : ∀ h ∈ hs, UTab.Live own h) (hd : F2 (Den m) hs Fs) (hn : hs ≠ []) (he : hs.length % 2 = 0)
    (hf : ∀ o : Order, (m.technique = 0 → o = m.st.ord) → LastFirst o (pairsOf Fs)) :
    ∃ m' rs, m.pairwise E opXor false hs = some (m', some rs) ∧
      (∀ h, UTab.Live own h → ∀ G, Den m h G → Den m' h G) ∧ PairResults (· ^^ ·) m m' hs rs := by
  obtain ⟨m', rs, h1, p, h⟩ := Mgr.pairwise_ok S (R.inv S) opXor_law opXor_terminal false hl hd
    (by simpa using hn) he hf
  rcases h with ⟨-, h2, h3⟩ | ⟨h, -⟩
  · exact ⟨m', rs, h1, p.fns, pairResults (R.inv S) hd he h2 h3⟩
  · cases h

/-- the condition always holds for one pair -/
theorem LastFirst.single (o : Order) (P : BFn × BFn) : LastFirst o [P] := by
  intro l p r e _ _ q hq
  cases l with
  | nil => cases hq
  | cons x l => simp at e

/-- For a single pair there is no condition: `C05_or_partial` applies to any two operands. -/
theorem C05_single (S : E.Sound) (R : Reachable E own lk m) {f g F G} (lf : UTab.Live own f)
    (lg : UTab.Live own g) (hf : Den m f F) (hg : Den m g G) :
    ∃ m' r, m.pairwise E opOr false [f, g] = some (m', some [r]) ∧ Den m' r fun ρ => F ρ || G ρ := by
  obtain ⟨m', rs, h1, -, h2, -, h3⟩ := C05_or_partial S R (hs := [f, g]) (Fs := [F, G])
    (by simp [lf, lg]) (.cons hf (.cons hg .nil)) (by simp) (by simp) fun o _ => LastFirst.single o _
  match rs, h2 with
  | [r], _ => exact ⟨m', r, h1, h3 0 f g F G r rfl rfl hf hg rfl⟩

/-- The elements of an array of odd length are checked and no result is made. -/
theorem C05_odd (S : E.Sound) (R : Reachable E own lk m) {hs op post} (hl : ∀ h ∈ hs, UTab.Live own h)
    (ho : hs.length % 2 = 1 ∨ hs = []) :
    ∃ m', m.pairwise E op post hs = some (m', none) ∧
      ∀ h, UTab.Live own h → ∀ G, Den m h G → Den m' h G := by
  obtain ⟨m', h1, -, p⟩ := Mgr.arrayPreProc_ok S (R.inv S) hl
  refine ⟨m', ?_, p.fns⟩
  simp only [Mgr.pairwise, h1]
  rw [if_pos]
  rcases ho with h | rfl
  · omega
  · simp

/-- For `b ∧ c, a ∧ b` (in the order of the array: the pair starting lower comes first) the code is right. -/
example : ∃ s : Demo.Sess, Reachable Env.plain s.own s.lk s.m ∧
    (match s.m.pairwise Env.plain opOr false [⟨3, false⟩, ⟨4, false⟩, ⟨2, false⟩, ⟨3, false⟩] with
      | some (_, some rs) => rs.length
      | _ => 0) = 2 := by
  obtain ⟨s, R, h⟩ := Demo.witness (cs := Demo.script)
    (P := fun s => (match s.m.pairwise Env.plain opOr false [⟨3, false⟩, ⟨4, false⟩, ⟨2, false⟩, ⟨3, false⟩] with
      | some (_, some rs) => rs.length
      | _ => 0) == 2) (by decide +kernel)
  exact ⟨s, R, by simpa using h⟩

/-- For the array `a, b, b, c`, in a manager with the variables `a`, `b`, `c` in this order, the first
result of each of the three operations is not a BDD but an unprocessed request, left in the queue. -/
theorem C05_violated : ∃ s : Demo.Sess, Reachable Env.plain s.own s.lk s.m ∧
    ∃ a b c, UTab.Live s.own a ∧ UTab.Live s.own b ∧ UTab.Live s.own c ∧
      s.m.pairwise Env.plain opAnd true [a, b, b, c] = none ∧
      s.m.pairwise Env.plain opOr false [a, b, b, c] = none ∧
      s.m.pairwise Env.plain opXor false [a, b, b, c] = none := by
  obtain ⟨s, R, h⟩ := Demo.witness (cs := Demo.script)
    (P := fun s => Demo.liveB s.own ⟨2, false⟩ && Demo.liveB s.own ⟨3, false⟩ && Demo.liveB s.own ⟨4, false⟩ &&
      (s.m.pairwise Env.plain opAnd true [⟨2, false⟩, ⟨3, false⟩, ⟨3, false⟩, ⟨4, false⟩]).isNone &&
      (s.m.pairwise Env.plain opOr false [⟨2, false⟩, ⟨3, false⟩, ⟨3, false⟩, ⟨4, false⟩]).isNone &&
      (s.m.pairwise Env.plain opXor false [⟨2, false⟩, ⟨3, false⟩, ⟨3, false⟩, ⟨4, false⟩]).isNone)
    (by decide +kernel)
  simp only [Bool.and_eq_true, Option.isNone_iff_eq_none] at h
  obtain ⟨⟨⟨⟨⟨h1, h2⟩, h3⟩, h4⟩, h5⟩, h6⟩ := h
  exact ⟨s, R, _, _, _, Demo.liveB_ok h1, Demo.liveB_ok h2, Demo.liveB_ok h3, h4, h5, h6⟩

/-- the hypotheses of the partial theorems are met by the array `c, b, b, a` -/
theorem lastFirst_demo : LastFirst Demo.sess.m.st.ord
    (pairsOf [fun ρ => ρ 3, fun ρ => ρ 2, fun ρ => ρ 2, fun ρ => ρ 1]) := by
  have dep : ∀ v : Nat, ¬ Indep (fun ρ => ρ v) v := by
    intro v h
    have := h (fun _ => false) true
    simp [upd] at this
  have ind : ∀ u v : Nat, u ≠ v → Indep (fun ρ => ρ u) v := by
    intro u v h ρ b
    simp [upd, h]
  have h13 : Demo.sess.m.st.ord.lvl 1 ≤ Demo.sess.m.st.ord.lvl 3 := by decide +kernel
  have h12 : Demo.sess.m.st.ord.lvl 1 ≤ Demo.sess.m.st.ord.lvl 2 := by decide +kernel
  have nd : ¬ Decided (fun ρ => ρ 2) fun ρ => ρ 1 := by
    have e : ∀ f g : BFn, f = g → ∀ ρ, f ρ = g ρ := fun f g h ρ => by rw [h]
    rintro (⟨b, h⟩ | ⟨b, h⟩ | h | h)
    · have h1 := e _ _ h fun _ => true
      have h2 := e _ _ h fun _ => false
      simp at h1 h2; simp_all
    · have h1 := e _ _ h fun _ => true
      have h2 := e _ _ h fun _ => false
      simp at h1 h2; simp_all
    · have h1 := e _ _ h fun v => v == 1
      simp at h1
    · have h1 := e _ _ h fun _ => true
      simp at h1
  intro l p r e _ hr q hq _
  match l, e with
  | [], _ => cases hq
  | [x], e =>
    simp only [pairsOf, List.cons_append, List.nil_append, List.cons.injEq] at e
    obtain ⟨rfl, rfl, rfl⟩ := e
    simp only [List.mem_singleton] at hq
    subst hq
    intro v hv
    refine ⟨1, fun h => dep 1 h.2, ?_⟩
    by_cases h3 : v = 3
    · subst h3; exact h13
    · by_cases h2 : v = 2
      · subst h2; exact h12
      · exact absurd ⟨ind 3 v (Ne.symm h3), ind 2 v (Ne.symm h2)⟩ hv
  | _ :: _ :: l, e => simp [pairsOf] at e

example := C05_and_partial Env.plain_sound Demo.reach (hs := [⟨4, false⟩, ⟨3, false⟩, ⟨3, false⟩, ⟨2, false⟩])
  (by simp [Demo.live2, Demo.live3, Demo.live4])
  (.cons Demo.den4 (.cons Demo.den3 (.cons Demo.den3 (.cons Demo.den2 .nil)))) (by simp) rfl
  (fun o ho => by rw [ho (by decide +kernel)]; exact lastFirst_demo)
example := C05_xor_partial Env.plain_sound Demo.reach (hs := [⟨4, false⟩, ⟨3, false⟩, ⟨3, false⟩, ⟨2, false⟩])
  (by simp [Demo.live2, Demo.live3, Demo.live4])
  (.cons Demo.den4 (.cons Demo.den3 (.cons Demo.den3 (.cons Demo.den2 .nil)))) (by simp) rfl
  (fun o ho => by rw [ho (by decide +kernel)]; exact lastFirst_demo)
example := C05_single Env.plain_sound Demo.reach Demo.live6 Demo.live5 Demo.den6 Demo.den5
example := C05_odd Env.plain_sound Demo.reach (hs := [⟨4, false⟩]) (op := opOr) (post := false)
  (by simp [Demo.live4]) (Or.inl rfl)

end Cal
