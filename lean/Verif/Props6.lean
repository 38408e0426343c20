import Verif.Props2

/-!
# Properties of the API, part 6: satisfying cubes, fractions, support, size, profile

`cubeOf`, `asgs`, `fraction` and `Rounding` are defined in `Verif.Satisfy`, `Verif.Fraction` and
`Verif.Mgr`; `Subfn`, `AtEntry`, `Number`, `NumberUpToNot`, `Counts` at the start of `Verif.Subfn`.
-/

namespace Cal

variable {E : Env} {own : Nat → Nat} {lk : Bool} {m : Mgr}

/-! ## C26 -/

/-- `Cal_BddSatisfy`: for a satisfiable `f` a cube that implies `f`; it has each variable at most once
(so it is satisfiable), and only variables `f` depends on. For the constant false it gives `f` back. -/
theorem C26_satisfy (S : E.Sound) (R : Reachable E own lk m) {f F} (lf : UTab.Live own f)
    (hf : Den m f F) :
    ((F = fun _ => false) → ∃ m', m.satisfy E f = some (m', f) ∧ Den m' f F) ∧
    ((∃ ρ, F ρ = true) → ∃ L : List (Nat × Bool),
      Yields own m (m.satisfy E f) (fun ρ => L.all fun l => ρ l.1 == l.2) ∧
      (∀ ρ, (∀ l ∈ L, ρ l.1 = l.2) → F ρ = true) ∧ (L.map (·.1)).Nodup ∧
      ∀ l ∈ L, ¬ Indep F l.1) := by
  have i := R.inv S
  obtain ⟨h1, h2⟩ := Mgr.satisfy_ok S i lf hf
  constructor
  · intro h0
    obtain ⟨m', r, h3, p, h4⟩ := h1 h0
    refine ⟨m', ?_, p.fns f lf F hf⟩
    rcases h4 with ⟨-, i', d⟩ | ⟨h, -⟩
    · rw [h3, (Mgr.handle_eq i' d (p.fns f lf F hf)).2 rfl]
    · cases h
  · rintro ⟨ρ, hρ⟩
    obtain ⟨L, h3, sc⟩ := h2 (by rintro rfl; cases hρ)
    refine ⟨L, h3.yields, fun ρ h => sc.imp ρ ?_, sc.nodup, fun l hl => ?_⟩
    · simp only [cubeOf, List.all_eq_true, beq_iff_eq]; exact h
    · exact (sc.dep l hl).resolve_right id

/-- `Cal_BddSatisfySupport`: for a satisfiable `f` a cube that implies `f`; it has each variable at most
once, every variable of the current association, and other variables only if `f` depends on them. -/
theorem C26_satisfySupport (S : E.Sound) (R : Reachable E own lk m) {T} (hT : AssocDen m m.cur T) {f F}
    (lf : UTab.Live own f) (hf : Den m f F) :
    ((F = fun _ => false) → ∃ m', m.satisfySupport E f = some (m', f) ∧ Den m' f F) ∧
    ((∃ ρ, F ρ = true) → ∃ L : List (Nat × Bool),
      Yields own m (m.satisfySupport E f) (fun ρ => L.all fun l => ρ l.1 == l.2) ∧
      (∀ ρ, (∀ l ∈ L, ρ l.1 = l.2) → F ρ = true) ∧ (L.map (·.1)).Nodup ∧
      (∀ v, Dom T v → v ∈ L.map (·.1)) ∧ ∀ l ∈ L, ¬ Indep F l.1 ∨ Dom T l.1) := by
  have i := R.inv S
  obtain ⟨A, hA, hd⟩ := hT.dom
  obtain ⟨h1, h2⟩ := Mgr.satisfySupport_ok S i hA lf hf
  rw [hd] at h2
  constructor
  · intro h0
    obtain ⟨m', r, h3, p, h4⟩ := h1 h0
    refine ⟨m', ?_, p.fns f lf F hf⟩
    rcases h4 with ⟨-, i', d⟩ | ⟨h, -⟩
    · rw [h3, (Mgr.handle_eq i' d (p.fns f lf F hf)).2 rfl]
    · cases h
  · rintro ⟨ρ, hρ⟩
    obtain ⟨L, h3, sc⟩ := h2 (by rintro rfl; cases hρ)
    refine ⟨L, h3.yields, fun ρ h => sc.imp ρ ?_, sc.nodup, sc.all, sc.dep⟩
    simp only [cubeOf, List.all_eq_true, beq_iff_eq]; exact h

example := (C26_satisfy Env.plain_sound Demo.reach Demo.live6 Demo.den6).2 ⟨fun _ => true, rfl⟩
example := (C26_satisfySupport Env.plain_sound Demo.reach Demo.assoc0 Demo.live6 Demo.den6).2
  ⟨fun _ => true, rfl⟩

/-- `(a ∧ b) ∨ c` with the variable `a` associated: `a ∧ b` -/
example : Demo.checks (Demo.script ++ [.satisfySupport ⟨6, false⟩]) (fun s =>
    Demo.treeOf s.m ⟨5, false⟩ == some (.node 1 (Demo.lit 2) (.leaf false)) &&
    match s.rets with
    | .handle h :: _ => h == ⟨5, false⟩
    | _ => false) = true := by decide +kernel

/-! ## C27 -/

/-- `Cal_BddSatisfyingFraction`: between 0 and 1; exactly the fraction of the assignments to all
variables that satisfy `f` if there are at most 53 variables, and otherwise off by at most 3 · 2⁻⁵³ for
each variable. -/
theorem C27_fraction (S : E.Sound) (R : Reachable E own lk m) {f F} (lf : UTab.Live own f)
    (hf : Den m f F) :
    ∃ m' x, m.satisfyingFraction E f = some (m', x) ∧ 0 ≤ x ∧ x ≤ 1 ∧
      (m.numVars ≤ 53 → x = ((asgs m.numVars).countP F : Rat) / 2 ^ m.numVars) ∧
      ((asgs m.numVars).countP F : Rat) / 2 ^ m.numVars ≤ x + 3 * (m.numVars : Rat) * (1 / 2 ^ 53) ∧
      x ≤ ((asgs m.numVars).countP F : Rat) / 2 ^ m.numVars + 3 * (m.numVars : Rat) * (1 / 2 ^ 53) ∧
      ∀ h, UTab.Live own h → ∀ G, Den m h G → Den m' h G := by
  obtain ⟨m', x, h1, -, p, h2⟩ := Mgr.satisfyingFraction_ok S (R.inv S) lf hf
  obtain ⟨h3, h4, h5, h6, h7⟩ := h2
  exact ⟨m', x, h1, h3, h4, h5, h6, h7, p.fns⟩

/-- `asgs n` is the list of all assignments to the variables 1, …, n (false elsewhere), each once. -/
theorem C27_assignments (n : Nat) : (asgs n).Nodup ∧ (asgs n).length = 2 ^ n ∧
    ∀ ρ : Asg, ρ ∈ asgs n ↔ ∀ v, v < 1 ∨ n < v → ρ v = false :=
  ⟨nodup_asgs n, length_asgs n, mem_asgs n⟩

example := C27_fraction Env.plain_sound Demo.reach Demo.live6 Demo.den6
example : (Demo.sess.m.satisfyingFraction Env.plain ⟨6, false⟩).map (·.2) = some (5 / 8) := by
  decide +kernel

/-! ## C29 -/

/-- `Cal_BddSupport`: handles of exactly the variables `f` depends on, each once. -/
theorem C29_support (S : E.Sound) (R : Reachable E own lk m) {f F} (lf : UTab.Live own f)
    (hf : Den m f F) :
    ∃ m' hs vs, m.support E f = some (m', hs) ∧ F2 (fun h v => Den m' h fun ρ => ρ v) hs vs ∧
      vs.Nodup ∧ (∀ v, v ∈ vs ↔ ¬ Indep F v) ∧
      ∀ h, UTab.Live own h → ∀ G, Den m h G → Den m' h G := by
  obtain ⟨m', hs, vs, h1, -, p, -, h2, h3, h4⟩ := Mgr.support_ok S (R.inv S) lf hf
  exact ⟨m', hs, vs, h1, h2, h3, h4, p.fns⟩

/-- `Cal_BddDependsOn(f, v)` for a variable `v`: true exactly if `f` depends on `v`. -/
theorem C29_dependsOn (S : E.Sound) (R : Reachable E own lk m) {f v x F} (lf : UTab.Live own f)
    (lv : UTab.Live own v) (hf : Den m f F) (hv : Den m v fun ρ => ρ x) :
    ∃ m' b, m.dependsOn E f v = some (m', b) ∧ (b = true ↔ ¬ Indep F x) ∧
      ∀ h, UTab.Live own h → ∀ G, Den m h G → Den m' h G := by
  obtain ⟨m', b, h1, i1, p, -, h2⟩ := Mgr.dependsOn_ok S (R.inv S) lf lv hf hv
  refine ⟨m', b, h1, h2 x ?_, p.fns⟩
  have hd : ¬ Indep (fun ρ : Asg => ρ x) x := by
    intro h
    have := (h (fun _ => false) true)
    simp at this
  obtain ⟨e, -, r⟩ := p.fns v lv _ hv
  refine ⟨r.dep_range i1.wf hd, hd, fun y _ _ hy ρ c => ?_⟩
  exact upd_ne _ _ (by rintro rfl; omega)

/-- In general the top variable of the second argument counts; for a constant the answer is yes. -/
theorem C29_dependsOn_top (S : E.Sound) (R : Reachable E own lk m) {f v F G} (lf : UTab.Live own f)
    (lv : UTab.Live own v) (hf : Den m f F) (hv : Den m v G) :
    ∃ m' b, m.dependsOn E f v = some (m', b) ∧ (¬ Mgr.NonConst G → b = true) ∧
      ∀ x, TopVar m'.st.ord G x → (b = true ↔ ¬ Indep F x) := by
  obtain ⟨m', b, h1, -, -, h2⟩ := Mgr.dependsOn_ok S (R.inv S) lf lv hf hv
  exact ⟨m', b, h1, h2⟩

example := C29_support Env.plain_sound Demo.reach Demo.live6 Demo.den6
example := C29_dependsOn Env.plain_sound Demo.reach Demo.live6 Demo.live4 Demo.den6 Demo.den4
example : (Demo.sess.m.support Env.plain ⟨5, false⟩).map (·.2) = some [⟨2, false⟩, ⟨3, false⟩] := by
  decide +kernel
example : (Demo.sess.m.dependsOn Env.plain ⟨5, false⟩ ⟨4, false⟩).map (·.2) = some false := by
  decide +kernel
example : (Demo.sess.m.dependsOn Env.plain ⟨5, false⟩ ⟨3, false⟩).map (·.2) = some true := by
  decide +kernel

/-- The marks of these traversals are clear at the end if they are at the beginning. -/
theorem C29_marks {s : Store} (w : s.WF) {vars} (hv : VarsOK s vars) {f F} (r : Rep s f F) {v}
    (hr : 1 ≤ v ∧ v ≤ s.ord.numVars) :
    (∃ l, supportOf s vars (fun _ => false) f = some (l, fun _ => false)) ∧
    ∃ b, dependsOnOf s (s.ord.idToIndex v) (fun _ => false) f = some (b, fun _ => false) := by
  obtain ⟨l, h, -⟩ := supportOf_ok w hv r
  obtain ⟨b, h', -⟩ := dependsOnOf_ok w r hr
  exact ⟨⟨l, h⟩, b, h'⟩

/-! ## C30 -/

/-- `Cal_BddSize`, `Cal_BddSizeMultiple`: the number of different functions that are left of `f` (of
the functions in the array) when the first variables of the order, some number of them, are given
values; with `negout` a function and its complement count as one. -/
theorem C30_size (S : E.Sound) (R : Reachable E own lk m) {f F} (lf : UTab.Live own f) (hf : Den m f F)
    (negout : Bool) :
    ∃ m', ∃ n : Nat, m.size E f negout = some (m', (n : Int)) ∧ Counts negout (Subfn m'.st.ord F) n ∧
      (m.technique = 0 → m'.st.ord = m.st.ord) ∧
      ∀ h, UTab.Live own h → ∀ G, Den m h G → Den m' h G := by
  obtain ⟨m', n, h1, -, p, h2⟩ := Mgr.size_ok S (R.inv S) lf hf negout
  exact ⟨m', n, h1, h2, p.ord, p.fns⟩

theorem C30_sizeMultiple (S : E.Sound) (R : Reachable E own lk m) {fs Fs}
    (lf : ∀ f ∈ fs, UTab.Live own f) (hf : F2 (Den m) fs Fs) (negout : Bool) :
    ∃ m', ∃ n : Nat, m.sizeMultiple E fs negout = some (m', (n : Int)) ∧
      Counts negout (fun G => ∃ F ∈ Fs, Subfn m'.st.ord F G) n ∧
      (m.technique = 0 → m'.st.ord = m.st.ord) ∧
      ∀ h, UTab.Live own h → ∀ G, Den m h G → Den m' h G := by
  obtain ⟨m', n, h1, -, p, h2⟩ := Mgr.sizeMultiple_ok S (R.inv S) lf hf negout
  exact ⟨m', n, h1, h2, p.ord, p.fns⟩

/-- A function and its complement have the same size (without automatic reordering in between). -/
theorem C30_not (S : E.Sound) (R : Reachable E own lk m) (ht : m.technique = 0) {f g F}
    (lf : UTab.Live own f) (lg : UTab.Live own g) (hf : Den m f F) (hg : Den m g fun ρ => !F ρ)
    (negout : Bool) : (m.size E f negout).map (·.2) = (m.size E g negout).map (·.2) := by
  obtain ⟨m1, n1, h1, c1, o1, -⟩ := C30_size S R lf hf negout
  obtain ⟨m2, n2, h2, c2, o2, -⟩ := C30_size S R lg hg negout
  rw [h1, h2]
  rw [o1 ht] at c1
  rw [o2 ht] at c2
  have : n1 = n2 := c1.unique (c2.not.congr fun G => by
    rw [show (fun ρ => !F ρ) = F.not from rfl, subfn_not, BFn.not_not])
  rw [this]
  rfl

/-- The marks are clear at the end if they are at the beginning. -/
theorem C30_marks {s : Store} (w : s.WF) (negout : Bool) {fs Fs} (h : F2 (Rep s) fs Fs) :
    (∃ n, sizeOf s negout (fun _ => 0) fs = some (n, fun _ => 0)) ∧
    ∃ C, profileOf s negout (fun _ => 0) fs = some (C, fun _ => 0) := by
  obtain ⟨n, h1, -⟩ := sizeOf_ok w negout h
  obtain ⟨C, _, h2, -⟩ := profileOf_ok w negout h
  exact ⟨⟨n, h1⟩, C, h2⟩

example := C30_size Env.plain_sound Demo.reach Demo.live6 Demo.den6 false
example := C30_sizeMultiple Env.plain_sound Demo.reach (fs := [⟨5, false⟩, ⟨6, false⟩]) (by
  intro f hf
  simp only [List.mem_cons, List.not_mem_nil, or_false] at hf
  rcases hf with rfl | rfl
  · exact Demo.live5
  · exact Demo.live6) (.cons Demo.den5 (.cons Demo.den6 .nil)) true
example : (Demo.sess.m.size Env.plain ⟨6, false⟩ false).map (·.2) = some 5 := by decide +kernel
example : (Demo.sess.m.size Env.plain ⟨6, false⟩ true).map (·.2) = some 4 := by decide +kernel

/-! ## C31 -/

/-- `Cal_BddProfile`: an array with one entry for each index and one for the constants; entry `j`
counts the functions `Cal_BddSize` counts that have a top variable of index `j`, the last entry the
constants; the entries sum up to the size. -/
theorem C31_profile (S : E.Sound) (R : Reachable E own lk m) {f F} (lf : UTab.Live own f)
    (hf : Den m f F) (negout : Bool) :
    ∃ m' l, m.profile E f negout = some (m', some l) ∧ l.length = m.numVars + 1 ∧
      Counts negout (Subfn m'.st.ord F) l.sum ∧
      (∀ j ≤ m.numVars, ∃ c, l[j]? = some c ∧
        Counts negout (fun G => AtEntry m'.st.ord j G ∧ Subfn m'.st.ord F G) c) ∧
      (m.technique = 0 → m'.st.ord = m.st.ord) ∧
      ∀ h, UTab.Live own h → ∀ G, Den m h G → Den m' h G := by
  obtain ⟨m', C, h1, -, p, ⟨n, h2, h3⟩, h4⟩ := Mgr.profile_ok S (R.inv S) lf hf negout
  refine ⟨m', _, h1, Mgr.counts_length _ _, by rw [h2]; exact h3, fun j hj => ⟨C j, Mgr.counts_get hj, h4 j hj⟩,
    p.ord, p.fns⟩

theorem C31_profileMultiple (S : E.Sound) (R : Reachable E own lk m) {fs Fs}
    (lf : ∀ f ∈ fs, UTab.Live own f) (hf : F2 (Den m) fs Fs) (negout : Bool) :
    ∃ m' l, m.profileMultiple E fs negout = some (m', some l) ∧ l.length = m.numVars + 1 ∧
      Counts negout (fun G => ∃ F ∈ Fs, Subfn m'.st.ord F G) l.sum ∧
      (∀ j ≤ m.numVars, ∃ c, l[j]? = some c ∧
        Counts negout (fun G => AtEntry m'.st.ord j G ∧ ∃ F ∈ Fs, Subfn m'.st.ord F G) c) ∧
      (m.technique = 0 → m'.st.ord = m.st.ord) ∧
      ∀ h, UTab.Live own h → ∀ G, Den m h G → Den m' h G := by
  obtain ⟨m', C, h1, -, p, ⟨n, h2, h3⟩, h4⟩ := Mgr.profileMultiple_ok S (R.inv S) lf hf negout
  refine ⟨m', _, h1, Mgr.counts_length _ _, by rw [h2]; exact h3, fun j hj => ⟨C j, Mgr.counts_get hj, h4 j hj⟩,
    p.ord, p.fns⟩

/-- The sum of the profile is the size (without automatic reordering in between). -/
theorem C31_sum (S : E.Sound) (R : Reachable E own lk m) (ht : m.technique = 0) {f F}
    (lf : UTab.Live own f) (hf : Den m f F) (negout : Bool) :
    ∃ m1 m2 l, m.profile E f negout = some (m1, some l) ∧
      m.size E f negout = some (m2, (l.sum : Int)) := by
  obtain ⟨m1, l, h1, -, h2, -, o1, -⟩ := C31_profile S R lf hf negout
  obtain ⟨m2, n, h3, h4, o2, -⟩ := C30_size S R lf hf negout
  rw [o1 ht] at h2
  rw [o2 ht] at h4
  exact ⟨m1, m2, l, h1, by rw [h3, h2.unique h4]⟩

example := C31_profile Env.plain_sound Demo.reach Demo.live6 Demo.den6 true
example : (Demo.sess.m.profile Env.plain ⟨6, false⟩ false).map (·.2) = some (some [1, 1, 1, 2]) := by
  decide +kernel

end Cal
