import Verif.PrintProfile
import Verif.Props22
import Verif.Props23

/-!
# Properties, part 25: printing profiles

Specification: `Chart`, `Row` and `profileRows` in `Verif.PrintProfile`, `nameAt` in `Verif.Print` (the name of the
variable at an index), `Counts`, `Subfn` and `AtEntry` at the start of `Verif.Subfn`, `Left` at the start of
`Verif.FnProfile3`.
-/

namespace Cal

open Print

variable {E : Env} {own : Nat → Nat} {lk : Bool} {m : Mgr}

namespace Print

theorem varName_at {o : Order} (w : o.WF) (nm : Option (Nat → Option (List Char))) {i : Nat} (hi : i < o.numVars) :
    varName o nm (o.indexToId i) = nameAt o nm i := by
  have h := w.id_range i hi
  unfold varName nameAt
  rw [Order.lvl, if_neg (by omega), w.right i hi]

/-- There are at most two constants. -/
theorem Number.le_two {P : BFn → Prop} {n : Nat} (h : Number P n) (hP : ∀ G, P G → G = (fun _ => true) ∨ G = (fun _ => false)) : n < 10 := by
  obtain ⟨L, nd, h1, rfl⟩ := h
  have := nodup_length_le (l' := [fun _ => true, fun _ => false]) nd fun G hG => by
    simpa using hP G ((h1 G).1 hG)
  simp at this; omega

theorem Counts.le_two {neg : Bool} {P : BFn → Prop} {n : Nat} (h : Counts neg P n) (hP : ∀ G, P G → G = (fun _ => true) ∨ G = (fun _ => false)) :
    n < 10 := by
  cases neg with
  | false => exact Number.le_two h hP
  | true =>
    obtain ⟨L, nd, h1, -, rfl⟩ := h
    have := nodup_length_le (l' := [fun _ => true, fun _ => false]) (nd.imp fun h => h.1) fun G hG => by
      simpa using hP G (h1 G hG)
    simp at this; omega

theorem f2_mem {α β : Type} {R : α → β → Prop} {a : List α} {b : List β} (h : F2 R a b) {y : β} (hy : y ∈ b) : ∃ x ∈ a, R x y := by
  induction h with
  | nil => cases hy
  | cons h _ ih =>
    rcases List.mem_cons.1 hy with rfl | hy
    · exact ⟨_, by simp, h⟩
    · obtain ⟨x, hx, hr⟩ := ih hy
      exact ⟨x, by simp [hx], hr⟩

theorem left_const {s : Store} (w : s.WF) {e : Edge} {F : BFn} (r : Rep s e F) {G : BFn} (h : Left s.ord s.ord.numVars F G) :
    G = (fun _ => true) ∨ G = (fun _ => false) := by
  obtain ⟨ρ, rfl⟩ := h
  have : ∀ σ, restr s.ord s.ord.numVars ρ F σ = F ρ := by
    intro σ
    unfold restr
    refine r.agree w _ _ fun v h1 h2 _ => ?_
    rw [if_pos ⟨h1, h2, w.ord.idx_lt v h1 h2⟩]
  cases hb : F ρ with
  | true => left; funext σ; rw [this, hb]
  | false => right; funext σ; rw [this, hb]

theorem rows_sum (n : Nat) (name : Nat → List Char) (c : Nat → Nat) :
    ((profileRows n name c).map (·.2)).sum = (Mgr.counts n c).sum := by
  have h : ∀ l : List Nat, ((l.filter fun i => c i ≠ 0).map c).sum = (l.map c).sum := by
    intro l
    induction l with
    | nil => rfl
    | cons i l ih =>
      rw [List.filter_cons]
      by_cases hc : c i = 0
      · simp only [ne_eq, hc, not_true_eq_false, decide_false, List.map_cons, List.sum_cons]
        simpa using ih
      · simp only [ne_eq, hc, not_false_eq_true, decide_true, if_true, List.map_cons, List.sum_cons]
        have : ((l.filter fun i => c i ≠ 0).map c).sum = (l.map c).sum := ih
        simp only [ne_eq] at this
        rw [this]
  have e : (((List.range n).filter fun i => c i ≠ 0).map fun i => (name i, c i)).map (·.2) = ((List.range n).filter fun i => c i ≠ 0).map c := by
    rw [List.map_map]; rfl
  unfold profileRows Mgr.counts
  rw [List.map_append, e, List.sum_append, h, List.range_succ, List.map_append, List.sum_append]
  rfl

/-- What is printed for counts: a chart if all have at most nine digits, and else the buffer is overrun. -/
def Prints (o : Order) (nm : Option (Nat → Option (List Char))) (len : Int) (c : Nat → Nat) (t : Printed) : Prop :=
  ((∀ j ≤ o.numVars, c j < 10 ^ 9) → ∃ txt, t = .text txt ∧ Chart len (profileRows o.numVars (nameAt o nm) c) txt) ∧
  ((∃ j ≤ o.numVars, 10 ^ 9 ≤ c j) → t = .overflow)

theorem printCounts_ok {m : Mgr} (w : m.st.ord.WF) (nm : Option (Nat → Option (List Char))) (len : Int) {c : Nat → Nat} {l : List Int}
    (hl : ∀ i ≤ m.st.ord.numVars, l[i]? = some (c i : Int)) (hc : c m.st.ord.numVars < 10) :
    Prints m.st.ord nm len c (m.printCounts nm len (some l)) := by
  have e : m.printCounts nm len (some l) = profileOut m.st.ord.numVars (nameAt m.st.ord nm) (fun i => (c i : Int)) len :=
    profileOut_congr (fun i hi => by rw [hl i hi]; rfl) (fun i hi => varName_at w nm hi) len
  rw [e]
  refine ⟨fun h => ⟨_, profileOut_text h len, profileText_chart _ _ _ hc len⟩, ?_⟩
  rintro ⟨j, hj, h⟩
  exact profileOut_overflow hj h len

end Print

/-! ## C68 -/

/-- `Cal_BddPrintProfile` prints the profile in which a function and its complement count as one. `m'` is the manager
after pre-processing, which may have reordered. -/
theorem C68_profile (S : E.Sound) (R : Reachable E own lk m) {f F} (lf : UTab.Live own f) (hf : Den m f F)
    (nm : Option (Nat → Option (List Char))) (len : Int) :
    ∃ m' t c, m.printProfile E f nm len = some (m', t) ∧ Prints m'.st.ord nm len c t ∧
      (∀ j ≤ m.numVars, Counts true (fun G => AtEntry m'.st.ord j G ∧ Subfn m'.st.ord F G) (c j)) ∧
      Counts true (Subfn m'.st.ord F) ((profileRows m.numVars (nameAt m'.st.ord nm) c).map (·.2)).sum ∧
      m'.numVars = m.numVars ∧ (m.technique = 0 → m'.st.ord = m.st.ord) ∧ Reachable E own lk m' ∧
      ∀ h, UTab.Live own h → ∀ G, Den m h G → Den m' h G := by
  have i := R.inv S
  obtain ⟨m1, h1, i1, p1⟩ := Mgr.preProc_ok S i (Mgr.forall1 lf)
  have hc := Mgr.preProc_calm S h1
  obtain ⟨m2, C, h2, i2, p2, ⟨n, h3, h4⟩, h5⟩ := Mgr.profile_ok S i lf hf true
  have hn : m2.st.ord.numVars = m.numVars := p2.nv
  have hp := h2
  unfold Mgr.profile at h2
  rw [h1] at h2
  simp only at h2
  have e2 : m2 = m1 := by
    split at h2
    · cases h2
    · obtain ⟨a, -, e⟩ := Option.map_eq_some_iff.1 h2
      exact (Prod.mk.inj e).1.symm
  subst e2
  have h6 : m2.profile E f true = some (m2, some (Mgr.counts m.numVars C)) := by
    unfold Mgr.profile
    rw [hc.pre i1 (Mgr.forall1 lf)]
    exact h2
  refine ⟨m2, m2.printCounts nm len (some ((Mgr.counts m.numVars C).map fun c : Nat => (c : Int))), C,
    by simp only [Mgr.printProfile, h1, h6, Option.map_some], ?_, h5, ?_, hn, p2.ord, ?_, p2.fns⟩
  · refine printCounts_ok i1.wf.ord nm len (fun j hj => ?_) ?_
    · rw [List.getElem?_map, Mgr.counts_get (by omega)]; rfl
    · refine Counts.le_two (h5 m2.st.ord.numVars (by omega)) fun G hG => ?_
      have := hG.1
      unfold AtEntry at this
      rwa [if_pos rfl] at this
  · rw [rows_sum, h3]; exact h4
  · have := R.call (.profile f true) (Or.inr lf) (ret := .nums (Mgr.counts m.numVars C)) (m' := m2) (by
      simp only [Call.run, hp, Option.map_some])
    simpa [Call.own, Call.leaks] using this

/-- `Cal_BddPrintProfileMultiple` does so for an array. -/
theorem C68_profileMultiple (S : E.Sound) (R : Reachable E own lk m) {fs Fs} (lf : ∀ f ∈ fs, UTab.Live own f)
    (hf : F2 (Den m) fs Fs) (nm : Option (Nat → Option (List Char))) (len : Int) :
    ∃ m' t c, m.printProfileMultiple E fs nm len = some (m', t) ∧ Prints m'.st.ord nm len c t ∧
      (∀ j ≤ m.numVars, Counts true (fun G => AtEntry m'.st.ord j G ∧ ∃ F ∈ Fs, Subfn m'.st.ord F G) (c j)) ∧
      Counts true (fun G => ∃ F ∈ Fs, Subfn m'.st.ord F G) ((profileRows m.numVars (nameAt m'.st.ord nm) c).map (·.2)).sum ∧
      m'.numVars = m.numVars ∧ (m.technique = 0 → m'.st.ord = m.st.ord) ∧ Reachable E own lk m' ∧
      ∀ h, UTab.Live own h → ∀ G, Den m h G → Den m' h G := by
  have i := R.inv S
  obtain ⟨m1, h1, i1, p1⟩ := Mgr.arrayPreProc_ok S i lf
  have ha := Mgr.arrayPreProc_again S i i1 lf h1
  obtain ⟨m2, C, h2, i2, p2, ⟨n, h3, h4⟩, h5⟩ := Mgr.profileMultiple_ok S i lf hf true
  have hn : m2.st.ord.numVars = m.numVars := p2.nv
  have hp := h2
  unfold Mgr.profileMultiple at h2
  rw [h1] at h2
  simp only at h2
  have e2 : m2 = m1 := by
    split at h2
    · cases h2
    · obtain ⟨a, -, e⟩ := Option.map_eq_some_iff.1 h2
      exact (Prod.mk.inj e).1.symm
  subst e2
  have h6 : m2.profileMultiple E fs true = some (m2, some (Mgr.counts m.numVars C)) := by
    unfold Mgr.profileMultiple
    rw [ha]
    exact h2
  refine ⟨m2, m2.printCounts nm len (some ((Mgr.counts m.numVars C).map fun c : Nat => (c : Int))), C,
    by simp only [Mgr.printProfileMultiple, h1, h6, Option.map_some], ?_, h5, ?_, hn, p2.ord, ?_, p2.fns⟩
  · refine printCounts_ok i1.wf.ord nm len (fun j hj => ?_) ?_
    · rw [List.getElem?_map, Mgr.counts_get (by omega)]; rfl
    · refine Counts.le_two (h5 m2.st.ord.numVars (by omega)) fun G hG => ?_
      have := hG.1
      unfold AtEntry at this
      rwa [if_pos rfl] at this
  · rw [rows_sum, h3]; exact h4
  · have := R.call (.profileMultiple fs true) lf (ret := .nums (Mgr.counts m.numVars C)) (m' := m2) (by
      simp only [Call.run, hp, Option.map_some])
    simpa [Call.own, Call.leaks] using this

/-- `Cal_BddPrintFunctionProfileMultiple`, for the arrays for which the function profile is right (`C63_multiple_partial`):
it prints that one. -/
theorem C68_functionMultiple_partial (S : E.Sound) (R : Reachable E own lk m) {fs Fs} (lf : ∀ f ∈ fs, UTab.Live own f)
    (hf : F2 (Den m) fs Fs) (hlen : fs.length < 65536) (nm : Option (Nat → Option (List Char))) (len : Int) :
    ∃ m', (m.technique = 0 → m'.st.ord = m.st.ord) ∧ m'.numVars = m.numVars ∧
      (∀ h, UTab.Live own h → ∀ G, Den m h G → Den m' h G) ∧
      (Markable m'.st.ord Fs → ∃ t c, m.printFunctionProfileMultiple E fs nm len = some (m', t) ∧ Prints m'.st.ord nm len c t ∧
        ∀ j ≤ m.numVars,
          (j < m.numVars → (∀ F ∈ Fs, Indep F (m'.st.ord.indexToId j)) → c j = 0) ∧
          ((j = m.numVars ∨ ∃ F ∈ Fs, ¬ Indep F (m'.st.ord.indexToId j)) →
            Number (fun G => ∃ F ∈ Fs, Left m'.st.ord j F G) (c j))) := by
  have i := R.inv S
  obtain ⟨m1, h1, i1, p1⟩ := Mgr.arrayPreProc_ok S i lf
  obtain ⟨m2, i2, p2, -, h2⟩ := Mgr.functionProfileMultiple_ok S i1 lf (p1.dens lf hf) hlen
  have ha := Mgr.arrayPreProc_again S i i1 lf h1
  have hn1 : m1.st.ord.numVars = m.st.ord.numVars := p1.nv
  have hn2 : m2.st.ord.numVars = m1.st.ord.numVars := p2.nv
  refine ⟨m2, fun ht => ?_, by show m2.st.ord.numVars = m.st.ord.numVars; omega, fun h hl G hG => p2.fns h hl G (p1.fns h hl G hG), fun hm => ?_⟩
  · rw [p2.ord (by rw [p1.technique]; exact ht), p1.ord ht]
  · obtain ⟨D, h3, h4⟩ := h2 hm
    have hd2 := p2.dens lf (p1.dens lf hf)
    have hnat : ∀ j ≤ m1.numVars, D j = ((D j).toNat : Int) ∧ FnEntry m2.st.ord Fs j ((D j).toNat : Nat) := by
      intro j hj
      have h5 := h4 j hj
      have e : D j = ((D j).toNat : Int) := by
        by_cases hz : j < m2.st.ord.numVars ∧ ∀ F ∈ Fs, Indep F (m2.st.ord.indexToId j)
        · rw [h5.1 hz]; rfl
        · obtain ⟨n, hn, -⟩ := h5.2 hz
          rw [hn]; rfl
      exact ⟨e, by rw [← e]; exact h5⟩
    have hent : ∀ j ≤ m.numVars, (j < m.numVars → (∀ F ∈ Fs, Indep F (m2.st.ord.indexToId j)) → (D j).toNat = 0) ∧
        ((j = m.numVars ∨ ∃ F ∈ Fs, ¬ Indep F (m2.st.ord.indexToId j)) →
            Number (fun G => ∃ F ∈ Fs, Left m2.st.ord j F G) (D j).toNat) := by
      intro j hj
      have hj : j ≤ m.st.ord.numVars := hj
      have h6 := (hnat j (by show j ≤ m1.st.ord.numVars; omega)).2
      constructor
      · intro (hlt : j < m.st.ord.numVars) hi
        have := h6.1 ⟨by omega, hi⟩
        omega
      · intro hd
        obtain ⟨n, hn, h7⟩ := h6.2 (by
          rintro ⟨h8, h9⟩
          rcases hd with (hd : j = m.st.ord.numVars) | ⟨F, hF, hd⟩
          · omega
          · exact hd (h9 F hF))
        have : (D j).toNat = n := by omega
        rw [this]; exact h7
    refine ⟨m2.printCounts nm len (some ((List.range (m1.numVars + 1)).map D)), fun j => (D j).toNat, by simp only [Mgr.printFunctionProfileMultiple, h1, h3, Option.map_some], ?_, hent⟩
    refine printCounts_ok i2.wf.ord nm len (fun j hj => ?_) ?_
    · have hj' : j ≤ m1.numVars := by show j ≤ m1.st.ord.numVars; omega
      rw [range_entry hj', ← (hnat j hj').1]
    · have hnum := (hent m.st.ord.numVars (Nat.le_refl _)).2 (.inl rfl)
      rw [show m2.st.ord.numVars = m.st.ord.numVars by omega]
      refine Number.le_two hnum ?_
      rintro G ⟨F, hF, hG⟩
      obtain ⟨f, hf', hd⟩ := f2_mem hd2 hF
      obtain ⟨e, -, r⟩ := hd
      exact left_const i2.wf r (by rw [show m2.st.ord.numVars = m.st.ord.numVars by omega]; exact hG)

/-- The lines of a chart fit into the line length, with the newline, if that leaves room for bars of 20 characters. -/
theorem C68_width {len : Int} {rows : List (List Char × Nat)} {t : List Char} (h : Chart len rows t) :
    ∃ (col : Nat) (ls : List (List Char)), ls.length = rows.length ∧
      t = ls.flatten ++ ['T', 'o', 't', 'a', 'l', ':', ' '] ++ decimal (rows.map (·.2)).sum ++ ['\n'] ∧
      ∀ l ∈ ls, (l.length : Int) ≤ max ((col : Int) + 21) len := by
  obtain ⟨col, scale, ls, h1, h2, h3, h4, -⟩ := h
  refine ⟨col, ls, (Dump.F2.length_eq h1).symm, h2, fun l hl => ?_⟩
  obtain ⟨r, hr, hrow⟩ := f2_mem h1 hl
  have h5 := h4 r hr
  have e := hrow.length
  have h6 : ((r.2 / scale : Nat) : Int) ≤ max 20 (len - col - 1) := by
    obtain ⟨W, hW⟩ : ∃ W : Nat, max 20 (len - (col : Int) - 1) = W := ⟨(max 20 (len - (col : Int) - 1)).toNat, by omega⟩
    rw [hW] at h5 ⊢
    have h7 : r.2 ≤ scale * W := by exact_mod_cast h5
    have h8 : r.2 / scale ≤ W := Nat.div_le_of_le_mul h7
    omega
  omega

/-- For null nothing is printed and nothing is changed. -/
theorem C68_null (S : E.Sound) (R : Reachable E own lk m) (nm : Option (Nat → Option (List Char))) (len : Int) :
    m.printProfile E .null nm len = some (m, .text []) := by
  have h : m.preProc E [.null] = some (m, false) := Mgr.preProc_null (R.inv S) (by simp) (by simp)
  simp only [Mgr.printProfile, h]

/-! ## What is wrong -/

/-- `Cal_BddPrintFunctionProfile` prints nothing, for every BDD, although every function profile has a text that is not
empty. -/
theorem C68_function_violated (S : E.Sound) (R : Reachable E own lk m) {f F} (lf : UTab.Live own f) (hf : Den m f F)
    (nm : Option (Nat → Option (List Char))) (len : Int) :
    (∃ m', m.printFunctionProfile E f nm len = some (m', .text [])) ∧
    ∃ m' l, m.functionProfile E f = some (m', some l) ∧ m'.printCounts nm len (some l) ≠ .text [] := by
  refine ⟨?_, ?_⟩
  · obtain ⟨m1, h1, -, -⟩ := Mgr.preProc_ok S (R.inv S) (Mgr.forall1 lf)
    exact ⟨m1, by simp only [Mgr.printFunctionProfile, h1]⟩
  · obtain ⟨m', l, h1, -⟩ := C63_profile S R lf hf
    refine ⟨m', l, h1, ?_⟩
    unfold Mgr.printCounts
    simp only
    unfold profileOut
    split
    · intro h; cases h
    · intro h
      injection h with h
      unfold profileText at h
      simp at h

/-- For null it goes on and prints counts that were never written. -/
theorem C68_function_null_violated (S : E.Sound) (R : Reachable E own lk m) (nm : Option (Nat → Option (List Char))) (len : Int) :
    m.printFunctionProfile E .null nm len = some (m, .unwritten) := by
  have h : m.preProc E [.null] = some (m, false) := Mgr.preProc_null (R.inv S) (by simp) (by simp)
  simp only [Mgr.printFunctionProfile, h, C63_null S R, Option.map_some, Mgr.printCounts]

example := C68_profile Env.plain_sound Demo.reach Demo.live6 Demo.den6 none 80
example := C68_profileMultiple Env.plain_sound Demo.reach (fs := [⟨5, false⟩, ⟨6, false⟩]) (by
  intro f hf
  simp only [List.mem_cons, List.not_mem_nil, or_false] at hf
  rcases hf with rfl | rfl
  · exact Demo.live5
  · exact Demo.live6) (.cons Demo.den5 (.cons Demo.den6 .nil)) (some fun x => some [Char.ofNat (96 + x)]) 40
/-- an array with one function, twice -/
example : ∃ m' t, Demo.sess.m.printFunctionProfileMultiple Env.plain [⟨6, false⟩, ⟨6, false⟩] none 80 = some (m', t) := by
  obtain ⟨m', -, -, -, h⟩ := C68_functionMultiple_partial Env.plain_sound Demo.reach (fs := [⟨6, false⟩, ⟨6, false⟩]) (by
    intro f hf
    simp only [List.mem_cons, List.not_mem_nil, or_false] at hf
    rcases hf with rfl | rfl <;> exact Demo.live6) (.cons Demo.den6 (.cons Demo.den6 .nil)) (by decide) none 80
  obtain ⟨t, -, h1, -⟩ := h (Or.inr fun G hG H hH _ => by
    simp only [List.mem_cons, List.not_mem_nil, or_false, or_self] at hG hH
    rw [hG, hH])
  exact ⟨m', t, h1⟩
example : (Demo.sess.m.printFunctionProfileMultiple Env.plain [⟨6, false⟩, ⟨6, false⟩] none 80).map (·.2) =
    some (.text "var.0: 1 #\nvar.1: 2 ##\nvar.2: 2 ##\nleaf:  2 ##\nTotal: 7\n".toList) := by decide +kernel
example := C68_null Env.plain_sound Demo.reach none 80
example := C68_function_null_violated Env.plain_sound Demo.reach none 80
example := C68_function_violated Env.plain_sound Demo.reach Demo.live6 Demo.den6 none 80
example : (Demo.sess.m.printProfile Env.plain ⟨6, false⟩ none 80).map (·.2) =
    some (.text "var.0: 1 #\nvar.1: 1 #\nvar.2: 1 #\nleaf:  1 #\nTotal: 4\n".toList) := by decide +kernel
example : profileText 2 (fun i => if i = 0 then ['a', 'b'] else ['x']) (fun i => if i = 0 then 45 else if i = 1 then 7 else 1) 0 =
    "ab:  45 ###############\nx:    7 ##\nleaf: 1 \nTotal: 53\n".toList := by
  have h45 : decimal 45 = ['4', '5'] := by unfold decimal; simp; unfold decimal; simp; decide
  have h53 : decimal 53 = ['5', '3'] := by unfold decimal; simp; unfold decimal; simp; decide
  have h7 : decimal 7 = ['7'] := by unfold decimal; decide
  have h1 : decimal 1 = ['1'] := by unfold decimal; decide
  simp [profileText, Print.measure, profileLine, signed, h45, h53, h7, h1, chars, List.range_succ]

end Cal
