import Verif.FnProfile4
import Verif.Demo
import Verif.Props6

/-!
# C63: function profiles

Specification: `BFn`, `Den`, `Reachable`, `UTab.Live` as everywhere; `restr` and `Number` at the start of
`Verif.Subfn`, `Left` at the start of `Verif.FnProfile3`: `Left o j F G` says that `G` is what is left of `F` when
all variables of index below `j` are given values. `o.indexToId j` is the variable of index `j`.
-/

namespace Cal

variable {E : Env} {own : Nat → Nat} {lk : Bool} {m : Mgr}

theorem range_entry {n : Nat} {D : Nat → Int} {j : Nat} (hj : j ≤ n) : ((List.range (n + 1)).map D)[j]? = some (D j) := by
  rw [List.getElem?_map, List.getElem?_range (by omega)]; rfl

/-- `Cal_BddFunctionProfile`: an array with one entry for each index and a last one. Entry `j` is 0 if the function does
not depend on the variable of index `j`, and otherwise the number of functions that are left of it when the variables
before that one are given values; the last entry is the number of constants that are left when all are. -/
theorem C63_profile (S : E.Sound) (R : Reachable E own lk m) {f F} (lf : UTab.Live own f) (hf : Den m f F) :
    ∃ m' l, m.functionProfile E f = some (m', some l) ∧ l.length = m.numVars + 1 ∧
      (∀ j ≤ m.numVars, ∃ c, l[j]? = some c ∧
        (j < m.numVars → Indep F (m'.st.ord.indexToId j) → c = 0) ∧
        ((j = m.numVars ∨ ¬ Indep F (m'.st.ord.indexToId j)) → ∃ n : Nat, c = n ∧ Number (Left m'.st.ord j F) n)) ∧
      (m.technique = 0 → m'.st.ord = m.st.ord) ∧
      Reachable E own lk m' ∧ ∀ h, UTab.Live own h → ∀ G, Den m h G → Den m' h G := by
  obtain ⟨m', D, h1, i1, p, ⟨l, hp⟩, h2⟩ := Mgr.functionProfile_ok S (R.inv S) lf hf
  have hn : m'.st.ord.numVars = m.numVars := p.nv
  refine ⟨m', _, h1, by simp, fun j hj => ⟨_, range_entry hj, ?_, ?_⟩, p.ord, ?_, p.fns⟩
  · intro hlt hi
    refine (h2 j hj).1 ⟨by rw [hn]; exact hlt, fun G hG => ?_⟩
    rw [List.mem_singleton] at hG
    subst hG; exact hi
  · intro hd
    obtain ⟨n, h3, L, l1, l2, l3⟩ := (h2 j hj).2 (by
      rintro ⟨h4, h5⟩
      rw [hn] at h4
      rcases hd with hd | hd
      · omega
      · exact hd (h5 F (by simp)))
    exact ⟨n, h3, L, l1, fun G => by rw [l2 G]; simp, l3⟩
  · have := R.call (.profile f false) (Or.inr lf) (ret := .nums l) (m' := m') (by simp only [Call.run, hp, Option.map_some])
    simpa [Call.own, Call.leaks] using this

/-- For null nothing is written. -/
theorem C63_null (S : E.Sound) (R : Reachable E own lk m) : m.functionProfile E .null = some (m, none) := by
  obtain ⟨Γ, leak, -, i⟩ := R.inv S
  have h : m.preProc E [.null] = some (m, false) :=
    Mgr.preProc_null (R.inv S) (by simp) (by simp)
  simp only [Mgr.functionProfile, Mgr.profile, h]

/-- `Cal_BddFunctionProfileMultiple`, for an array of less than 65536 BDDs of which `Markable` holds: the functions left
of them and the BDDs are together less than 1280, or no function of the array is left of another one. `m'` is the
manager after pre-processing, which may have reordered. Missing: other arrays, for which it is wrong (`C63_violated`,
`C63_endless`). -/
theorem C63_multiple_partial (S : E.Sound) (R : Reachable E own lk m) {fs Fs} (lf : ∀ f ∈ fs, UTab.Live own f)
    (hf : F2 (Den m) fs Fs) (hlen : fs.length < 65536) :
    ∃ m', (m.technique = 0 → m'.st.ord = m.st.ord) ∧ Reachable E own lk m' ∧
      (∀ h, UTab.Live own h → ∀ G, Den m h G → Den m' h G) ∧
      (Markable m'.st.ord Fs → ∃ l, m.functionProfileMultiple E fs = some (m', l) ∧ l.length = m.numVars + 1 ∧
        ∀ j ≤ m.numVars, ∃ c, l[j]? = some c ∧
          (j < m.numVars → (∀ F ∈ Fs, Indep F (m'.st.ord.indexToId j)) → c = 0) ∧
          ((j = m.numVars ∨ ∃ F ∈ Fs, ¬ Indep F (m'.st.ord.indexToId j)) →
            ∃ n : Nat, c = n ∧ Number (fun G => ∃ F ∈ Fs, Left m'.st.ord j F G) n)) := by
  obtain ⟨m', i1, p, ⟨l, hp⟩, h1⟩ := Mgr.functionProfileMultiple_ok S (R.inv S) lf hf hlen
  have hn : m'.st.ord.numVars = m.numVars := p.nv
  refine ⟨m', p.ord, ?_, p.fns, fun hm => ?_⟩
  · have := R.call (.profileMultiple fs false) lf (ret := .nums l) (m' := m') (by simp only [Call.run, hp, Option.map_some])
    simpa [Call.own, Call.leaks] using this
  · obtain ⟨D, h2, h3⟩ := h1 hm
    refine ⟨_, h2, by simp, fun j hj => ⟨_, range_entry hj, ?_, ?_⟩⟩
    · intro hlt hi
      exact (h3 j hj).1 ⟨by rw [hn]; exact hlt, hi⟩
    · intro hd
      refine (h3 j hj).2 ?_
      rintro ⟨h4, h5⟩
      rw [hn] at h4
      rcases hd with hd | ⟨F, hF, hd⟩
      · omega
      · exact hd (h5 F hF)

example := C63_profile Env.plain_sound Demo.reach Demo.live6 Demo.den6
example : (Demo.sess.m.functionProfile Env.plain ⟨6, false⟩).map (·.2) = some (some [1, 2, 2, 2]) := by decide +kernel
example : (Demo.sess.m.functionProfile Env.plain ⟨5, false⟩).map (·.2) = some (some [1, 2, 0, 2]) := by decide +kernel

/-- An array whose functions are left of each other (`x2` of `x1 && x2`) and that is small. -/
example : ∃ m' l, Demo.sess.m.functionProfileMultiple Env.plain [⟨3, false⟩, ⟨5, false⟩] = some (m', l) ∧ l[0]? = some 2 ∧
    Markable Demo.sess.m.st.ord [fun ρ => ρ 2, fun ρ => ρ 1 && ρ 2] := by
  have hl : ∀ f ∈ [(⟨3, false⟩ : Handle), ⟨5, false⟩], UTab.Live Demo.sess.own f := by
    intro f hf
    simp only [List.mem_cons, List.not_mem_nil, or_false] at hf
    rcases hf with rfl | rfl
    · exact Demo.live3
    · exact Demo.live5
  have hmk : Markable Demo.sess.m.st.ord [fun ρ => ρ 2, fun ρ => ρ 1 && ρ 2] := by
    obtain ⟨m', n, h1, h2, h3, -⟩ := C30_sizeMultiple Env.plain_sound Demo.reach hl (.cons Demo.den3 (.cons Demo.den5 .nil)) false
    have ht : Demo.sess.m.technique = 0 := by decide +kernel
    rw [h3 ht] at h2
    have hn : (Demo.sess.m.sizeMultiple Env.plain [⟨3, false⟩, ⟨5, false⟩] false).map (·.2) = some 4 := by decide +kernel
    rw [h1] at hn
    have hn : (n : Int) = 4 := by simpa using hn
    exact Or.inl ⟨n, h2, by simp only [List.length_cons, List.length_nil]; omega⟩
  obtain ⟨m', h1, -, -, h2⟩ := C63_multiple_partial Env.plain_sound Demo.reach hl (.cons Demo.den3 (.cons Demo.den5 .nil)) (by decide)
  rw [h1 (by decide +kernel)] at h2
  obtain ⟨l, h3, -, -⟩ := h2 hmk
  have hv : (Demo.sess.m.functionProfileMultiple Env.plain [⟨3, false⟩, ⟨5, false⟩]).map (·.2) = some [2, 2, 0, 2] := by decide +kernel
  rw [h3] at hv
  have hv : l = [2, 2, 0, 2] := by simpa using hv
  exact ⟨m', l, h3, by rw [hv]; rfl, hmk⟩

/-- A large array of one function. -/
example (o : Order) (F : BFn) (n : Nat) : Markable o (List.replicate n F) :=
  Or.inr fun G hG H hH _ => by rw [(List.mem_replicate.1 hG).2, (List.mem_replicate.1 hH).2]

/-! ## What is wrong -/

/-- The loop over the array has an `unsigned short` as its counter: with 65536 BDDs or more it does not end, for however
long it runs. -/
theorem C63_endless {n : Nat} (hn : 65536 ≤ n) (fuel : Nat) : copyLoop fuel n 0 = none :=
  copyLoop_endless hn fuel 0 (by omega)

/-- With less it does. -/
theorem C63_copy {n : Nat} (hn : n < 65536) : copyLoop (n + 1) n 0 = some n := copyLoop_ok hn

example : copyLoop 101 100 0 = some 100 := by decide +kernel

namespace FnDemo

/-- the second variable -/
def f : Edge := ⟨2, 2, false⟩
/-- its conjunction with the first one -/
def g : Edge := ⟨1, 4, false⟩
/-- the store of the session -/
def st : Store := Demo.sess.m.st

theorem wf : st.WF := (Demo.reach.inv Env.plain_sound).wf

theorem kids_f : st.kids f = some (one, zero) := by decide +kernel
theorem kids_g : st.kids g = some (f, zero) := by decide +kernel
theorem kids_one : st.kids one = none := by decide +kernel
theorem kids_zero : st.kids zero = none := by decide +kernel

theorem kid {p x : Edge} (hp : p ∈ [f, g, one, zero]) (c : KidOf st p x) : x ∈ [f, g, one, zero] := by
  obtain ⟨t, u, hk, hx⟩ := c
  simp only [List.mem_cons, List.not_mem_nil, or_false] at hp
  rcases hp with rfl | rfl | rfl | rfl
  · rw [kids_f] at hk; cases hk; rcases hx with rfl | rfl <;> simp
  · rw [kids_g] at hk; cases hk; rcases hx with rfl | rfl <;> simp
  · rw [kids_one] at hk; cases hk
  · rw [kids_zero] at hk; cases hk

/-- the array -/
def arr (n : Nat) : List Edge := f :: List.replicate n g

theorem reach {n : Nat} (hn : 0 < n) (x : Edge) : ReachFrom st (arr n) x ↔ x ∈ [f, g, one, zero] := by
  constructor
  · rintro ⟨e, he, b⟩
    refine below_ind (P := (· ∈ [f, g, one, zero])) ?_ (fun p x _ hp c => kid hp c) b
    rcases List.mem_cons.1 he with rfl | he
    · simp
    · rw [(List.mem_replicate.1 he).2]; simp
  · have hf : f ∈ arr n := List.mem_cons_self ..
    have hg : g ∈ arr n := List.mem_cons_of_mem _ (List.mem_replicate.2 ⟨by omega, rfl⟩)
    intro hx
    simp only [List.mem_cons, List.not_mem_nil, or_false] at hx
    rcases hx with rfl | rfl | rfl | rfl
    · exact ⟨f, hf, .refl _⟩
    · exact ⟨g, hg, .refl _⟩
    · exact ⟨f, hf, .thn kids_f (.refl _)⟩
    · exact ⟨f, hf, .els kids_f (.refl _)⟩

/-- A function that has been seen changes nothing. -/
theorem again {s : Store} {k : Nat} {h : HRef} {e t u : Edge} (hc : e.isConst = false) (hk : s.kids e = some (t, u)) {v v' : Int}
    (h1 : h.get t = some v) (h2 : v ≤ s.ord.lvl e.id) (h3 : h.get u = some v') (h4 : v' ≤ s.ord.lvl e.id) :
    highestRef s (k + 1) h e = some h := by
  obtain ⟨a, ha, rfl⟩ := Option.map_eq_some_iff.1 h1
  obtain ⟨b, hb, rfl⟩ := Option.map_eq_some_iff.1 h3
  unfold highestRef
  rw [if_neg (by simp [hc]), hk]
  simp only [refKid, ha]
  rw [if_neg (by omega)]
  simp only [hb]
  rw [if_neg (by omega)]

theorem again_many {s : Store} {h : HRef} {e : Edge} (ha : highestRef s (s.ord.numVars + 1) h e = some h) : ∀ n,
    highestRefs s h (List.replicate n e) = some h := by
  intro n
  induction n with
  | zero => rfl
  | succ n ih => rw [List.replicate_succ, highestRefs, ha]; exact ih

/-- what the first traversal leaves -/
theorem first : (highestRefs st .init [f, g]).map (fun h => (h.get f, h.get g, h.get one, h.get zero, h.t.numEntries, h.t.sizeIndex)) =
    some (some 0, none, some 1, some 0, 3, 8) := by decide +kernel

theorem int3 : Demo.sess.m.internal ⟨3, false⟩ = some f := by decide +kernel
theorem int5 : Demo.sess.m.internal ⟨5, false⟩ = some g := by decide +kernel

theorem rep {h : Handle} {F} {e : Edge} (d : Den Demo.sess.m h F) (hi : Demo.sess.m.internal h = some e) : Rep st e F := by
  obtain ⟨es, h1, h2⟩ := Mgr.internals_ok (.cons d .nil)
  simp only [Mgr.internals, hi] at h1
  cases h1
  cases h2
  assumption

theorem rep_f : Rep st f (fun ρ => ρ 2) := rep Demo.den3 int3
theorem rep_g : Rep st g (fun ρ => ρ 1 && ρ 2) := rep Demo.den5 int5

theorem eok : ∀ e ∈ [f, g], st.EOK e := by
  intro e he
  simp only [List.mem_cons, List.not_mem_nil, or_false] at he
  rcases he with rfl | rfl
  · exact rep_f.eok
  · exact rep_g.eok

theorem table {n : Nat} : ∃ h l, highestRefs st .init (arr (n + 1)) = some h ∧ h.OK l ∧ HRef.Uniq l ∧ h.get f = some 0 ∧ h.get g = none ∧
    h.get one = some 1 ∧ h.get zero = some 0 ∧ h.t.numEntries = 3 ∧ h.t.sizeIndex = 8 := by
  obtain ⟨h, l, e, ok, u, -⟩ := highestRefs_ok wf eok HRef.OK.init List.nodup_nil
  have hv := first
  rw [e, Option.map_some] at hv
  simp only [Option.some.injEq, Prod.mk.injEq] at hv
  obtain ⟨v1, v2, v3, v4, v5, v6⟩ := hv
  refine ⟨h, l, ?_, ok, u, v1, v2, v3, v4, v5, v6⟩
  have e1 : ∀ (h0 : HRef) (a b : Edge) (r : List Edge), highestRefs st h0 (a :: b :: r) = (highestRefs st h0 [a, b]).bind fun h => highestRefs st h r := by
    intro h0 a b r
    simp only [highestRefs]
    cases highestRef st (st.ord.numVars + 1) h0 a with
    | none => rfl
    | some h1 =>
      simp only
      cases highestRef st (st.ord.numVars + 1) h1 b <;> rfl
  show highestRefs st .init (f :: g :: List.replicate n g) = some h
  rw [e1, e]
  refine again_many (again (by decide) kids_g v1 ?_ v4 ?_) n <;> omega

/-- what is found after marking -/
theorem marks {n : Nat} (h1 : 1276 ≤ n) (h2 : n < 2000) : ∃ h l, highestRefs st .init (arr n) = some h ∧ (insertRoots h (arr n)).OK l ∧
    (insertRoots h (arr n)).get f = some 0 ∧ (insertRoots h (arr n)).get g = some (-1) ∧
    (insertRoots h (arr n)).get one = some 1 ∧ (insertRoots h (arr n)).get zero = some 0 := by
  obtain ⟨k, rfl⟩ : ∃ k, n = k + 1 := ⟨n - 1, by omega⟩
  obtain ⟨h, l, e, ok, u, v1, v2, v3, v4, v5, v6⟩ := table (n := k)
  obtain ⟨l', o, -⟩ := insertRoots_ent (fs := arr (k + 1)) ok
  have hno : ∀ x, x ≠ f → x ≠ g → x ∉ arr (k + 1) := by
    intro x hf hg hx
    rcases List.mem_cons.1 hx with hx | hx
    · exact hf hx
    · exact hg (List.mem_replicate.1 hx).2
  refine ⟨h, _, e, o, shadowed ok u (by decide) v1 v6 (by omega) (by omega) (by omega), ?_, ?_, ?_⟩
  · exact insertRoots_root ok (List.mem_cons_of_mem _ (List.mem_replicate.2 ⟨by omega, rfl⟩)) v2
  · rw [insertRoots_other ok u (hno _ (by decide) (by decide)), v3]
  · rw [insertRoots_other ok u (hno _ (by decide) (by decide)), v4]

theorem reps : ∀ n, F2 (Rep st) (List.replicate n g) (List.replicate n fun ρ => ρ 1 && ρ 2) := by
  intro n
  induction n with
  | zero => exact .nil
  | succ n ih => exact .cons rep_g ih

/-- The first entry that is computed. -/
theorem wrong {n : Nat} (h1 : 1276 ≤ n) (h2 : n < 2000) {C : Nat → Nat} (hC : ∀ i, i ≤ st.ord.numVars →
    Counts false (fun G => AtEntry st.ord i G ∧ ∃ F ∈ (fun ρ => ρ 2) :: List.replicate n (fun ρ => ρ 1 && ρ 2), Subfn st.ord F G) (C i)) :
    ∃ D, fnProfilesOf st C (arr n) = some D ∧ D 0 = 1 := by
  obtain ⟨h, l, e, ok, v1, v2, v3, v4⟩ := marks h1 h2
  have hr : F2 (Rep st) (arr n) ((fun ρ => ρ 2) :: List.replicate n (fun ρ => ρ 1 && ρ 2)) := .cons rep_f (reps n)
  have hnv : st.ord.numVars = 3 := by decide +kernel
  obtain ⟨h', C', N, e', nd, hN, hc⟩ := dominateds_all (C0 := encode st.ord.numVars C) wf (f2_eok hr) ok (fun x r => by
    have hx := (reach (by omega) x).1 r
    simp only [List.mem_cons, List.not_mem_nil, or_false] at hx
    rw [hnv]
    rcases hx with rfl | rfl | rfl | rfl
    · exact ⟨_, v1, by decide, by decide⟩
    · exact ⟨_, v2, by decide, by decide⟩
    · exact ⟨_, v3, by decide, by decide⟩
    · exact ⟨_, v4, by decide, by decide⟩)
  have hp : N.Perm [f, g, one, zero] := (List.perm_ext_iff_of_nodup nd (by decide)).2 fun x => by
    rw [hN, reach (by omega)]
  have hCi : ∀ i, i ≤ 3 → C i = [f, g, one, zero].countP fun x => slot st x == i := by
    intro i hi
    rw [← hp.countP_eq]
    exact profile_edges wf hr nd hN (hC i (by rw [hnv]; exact hi))
  have hcj : ∀ j : Nat, C' j = encode 3 C j - 2 * ([f, g, one, zero].countP fun x => (insertRoots h (arr n)).get x == some (j : Int) : Nat) := by
    intro j
    rw [hc, hp.countP_eq, hnv]
  have C0 : C 0 = 1 := (hCi 0 (by omega)).trans (by decide +kernel)
  have C1 : C 1 = 1 := (hCi 1 (by omega)).trans (by decide +kernel)
  have C2 : C 2 = 0 := (hCi 2 (by omega)).trans (by decide +kernel)
  have C3 : C 3 = 2 := (hCi 3 (by omega)).trans (by decide +kernel)
  have d0 : C' 0 = -2 := by rw [hcj]; simp [v1, v2, v3, v4, encode, C0]
  have d1 : C' 1 = 0 := by rw [hcj]; simp [v1, v2, v3, v4, encode, C1]
  have d2 : C' 2 = 1 := by rw [hcj]; simp [v1, v2, v3, v4, encode, C2]
  have d3 : C' 3 = 2 := by rw [hcj]; simp [v1, v2, v3, v4, encode, C3]
  refine ⟨_, by simp only [fnProfilesOf, e, e']; rfl, ?_⟩
  rw [hnv]
  simp [addUp, upd, d0, d1, d2, d3]

/-- the handles -/
def hs (n : Nat) : List Handle := ⟨3, false⟩ :: List.replicate n ⟨5, false⟩

theorem internals (n : Nat) : Demo.sess.m.internals (hs n) = some (arr n) := by
  have : ∀ n, Demo.sess.m.internals (List.replicate n ⟨5, false⟩) = some (List.replicate n g) := by
    intro n
    induction n with
    | zero => rfl
    | succ n ih => simp only [List.replicate_succ, Mgr.internals, int5, ih]
  simp only [hs, Mgr.internals, int3, this, arr]

theorem lives (n : Nat) : ∀ h ∈ hs n, UTab.Live Demo.sess.own h := by
  intro h hh
  rcases List.mem_cons.1 hh with rfl | hh
  · exact Demo.live3
  · rw [(List.mem_replicate.1 hh).2]; exact Demo.live5

theorem calm : Demo.sess.m.Calm := by
  show Demo.sess.m.st.gcCheck > 0
  decide +kernel

end FnDemo

/-- `Cal_BddFunctionProfileMultiple` is wrong when the hash table grows while the functions of the array are marked and
one of them is left of another one. The array here holds one variable, `x2`, and 1276 times or more its conjunction with
the variable before it. Two functions are left when no variable is given a value, but the first entry is 1. -/
theorem C63_violated {n : Nat} (h1 : 1276 ≤ n) (h2 : n < 2000) :
    Reachable Env.plain Demo.sess.own Demo.sess.lk Demo.sess.m ∧
    (∀ h ∈ FnDemo.hs n, UTab.Live Demo.sess.own h) ∧
    Den Demo.sess.m ⟨3, false⟩ (fun ρ => ρ 2) ∧ Den Demo.sess.m ⟨5, false⟩ (fun ρ => ρ 1 && ρ 2) ∧
    (∃ l, Demo.sess.m.functionProfileMultiple Env.plain (FnDemo.hs n) = some (Demo.sess.m, l) ∧ l[0]? = some 1) ∧
    ¬ Indep (fun ρ => ρ 1 && ρ 2) (Demo.sess.m.st.ord.indexToId 0) ∧
    Number (fun G => ∃ F ∈ (fun ρ => ρ 2) :: List.replicate n (fun ρ => ρ 1 && ρ 2), Left Demo.sess.m.st.ord 0 F G) 2 := by
  refine ⟨Demo.reach, FnDemo.lives n, Demo.den3, Demo.den5, ?_, ?_, ?_⟩
  · have i := Demo.reach.inv Env.plain_sound
    have hpre : Demo.sess.m.arrayPreProc Env.plain (FnDemo.hs n) = some (Demo.sess.m, true) := FnDemo.calm.array i (FnDemo.lives n)
    obtain ⟨C, n', h3, -, -, h7⟩ := profileOf_ok FnDemo.wf false (.cons FnDemo.rep_f (FnDemo.reps n))
    obtain ⟨D, h5, h6⟩ := FnDemo.wrong (C := fun j => (Mgr.counts FnDemo.st.ord.numVars C)[j]?.getD 0) h1 h2 (fun j hj => by
      rw [Mgr.counts_getD hj]; exact h7 j hj)
    have hlen : (FnDemo.hs n).length < 65536 := by simp [FnDemo.hs]; omega
    have hp : Demo.sess.m.profileMultiple Env.plain (FnDemo.hs n) false = some (Demo.sess.m, some (Mgr.counts FnDemo.st.ord.numVars C)) := by
      simp only [Mgr.profileMultiple, hpre, FnDemo.internals]
      rw [show profileOf Demo.sess.m.st false (fun _ => 0) (FnDemo.arr n) = _ from h3]
      rfl
    refine ⟨(List.range (Demo.sess.m.st.ord.numVars + 1)).map D, ?_, by rw [range_entry (Nat.zero_le _), h6]⟩
    simp only [Mgr.functionProfileMultiple, hpre, copyLoop_ok hlen, FnDemo.internals, hp]
    rw [show fnProfilesOf Demo.sess.m.st _ (FnDemo.arr n) = _ from h5]
    rfl
  · intro h
    have : Demo.sess.m.st.ord.indexToId 0 = 1 := by decide +kernel
    rw [this] at h
    have := h (fun _ => true) false
    simp [upd] at this
  · have hr : ∀ ρ F, restr Demo.sess.m.st.ord 0 ρ F = F := by
      intro ρ F
      funext σ
      unfold restr
      congr 1
      funext v
      rw [if_neg (by omega)]
    refine ⟨[fun ρ => ρ 2, fun ρ => ρ 1 && ρ 2], ?_, ?_, rfl⟩
    · simp only [List.nodup_cons, List.mem_singleton, List.not_mem_nil, not_false_eq_true, List.nodup_nil, and_true]
      intro h
      have := congrFun h (fun v => v == 2)
      simp at this
    · intro G
      constructor
      · intro hG
        simp only [List.mem_cons, List.not_mem_nil, or_false] at hG
        rcases hG with rfl | rfl
        · exact ⟨_, List.mem_cons_self .., fun _ => false, (hr _ _).symm⟩
        · exact ⟨_, List.mem_cons_of_mem _ (List.mem_replicate.2 ⟨by omega, rfl⟩), fun _ => false, (hr _ _).symm⟩
      · rintro ⟨F, hF, ρ, rfl⟩
        rw [hr]
        rcases List.mem_cons.1 hF with rfl | hF
        · simp
        · rw [(List.mem_replicate.1 hF).2]; simp

example := C63_violated (n := 1276) (by omega) (by omega)

end Cal
