import Verif.Props6

/-!
# Properties of the API, part 7: generalised cofactor, reduce, between, compose, exchanging
variables

`cubeOf` (a conjunction of literals) is defined in `Verif.Satisfy`; `Counts` and `Subfn` (the size of a
BDD as the number of subfunctions) in `Verif.Subfn`.
-/

namespace Cal

variable {E : Env} {own : Nat → Nat} {lk : Bool} {m : Mgr}

/-! ## C19 -/

/-- `Cal_BddCofactor`: for a satisfiable `c`, a function that agrees with `f` wherever `c` holds; and
everywhere else it takes the value that `f` has at some point where `c` holds, which differs from the
given one only in variables of `c`. -/
theorem C19_cofactor (S : E.Sound) (R : Reachable E own lk m) {f c F C} (lf : UTab.Live own f)
    (lc : UTab.Live own c) (hf : Den m f F) (hc : Den m c C) (hs : ∃ ρ, C ρ = true) :
    ∃ H, YieldsOrOverflows own m (m.cofactor E f c) H ∧ (∀ ρ, C ρ = true → H ρ = F ρ) ∧
      ∀ ρ, ∃ σ, C σ = true ∧ (∀ v, Indep C v → σ v = ρ v) ∧ H ρ = F σ := by
  obtain ⟨H, h, h1⟩ := Mgr.cofactor_ok S (R.inv S) lf lc hf hc hs
  exact ⟨H, h.overflows, h1.agree, h1.value⟩

/-- For a cube it is the ordinary cofactor: `f` with the variables of the cube set to the values they
have there. -/
theorem C19_cube (S : E.Sound) (R : Reachable E own lk m) {f c F} {L : List (Nat × Bool)}
    (hL : (L.map (·.1)).Nodup) (lf : UTab.Live own f) (lc : UTab.Live own c) (hf : Den m f F)
    (hc : Den m c (cubeOf L)) :
    YieldsOrOverflows own m (m.cofactor E f c) fun ρ =>
      F fun v => match L.lookup v with
        | some b => b
        | none => ρ v := by
  obtain ⟨H, h, -, h2⟩ := C19_cofactor S R lf lc hf hc (cubeOf_sat hL)
  refine (congrArg (YieldsOrOverflows own m _) ?_).mp h
  funext ρ
  obtain ⟨σ, h3, h4, h5⟩ := h2 ρ
  rw [h5]
  congr 1
  funext v
  simp only [cubeOf, List.all_eq_true, beq_iff_eq] at h3
  cases hv : L.lookup v with
  | some b =>
    have : (v, b) ∈ L := by
      clear h3 h4 h2 h hc hL
      induction L with
      | nil => simp at hv
      | cons p L ih =>
        obtain ⟨x, y⟩ := p
        rw [List.lookup_cons] at hv
        split at hv
        · rename_i hx
          obtain rfl : v = x := by simpa using hx
          cases hv; simp
        · exact List.mem_cons_of_mem _ (ih hv)
    exact h3 _ this
  | none =>
    refine h4 v (cubeOf_indep ?_)
    intro hm
    simp only [List.mem_map] at hm
    obtain ⟨⟨x, y⟩, hm, rfl⟩ := hm
    rw [List.lookup_eq_none_iff] at hv
    have := hv _ hm
    simp at this

/-- For `c = 0` it is the constant 1. -/
theorem C19_zero (S : E.Sound) (R : Reachable E own lk m) {f c F} (lf : UTab.Live own f)
    (lc : UTab.Live own c) (hf : Den m f F) (hc : Den m c fun _ => false) :
    YieldsOrOverflows own m (m.cofactor E f c) fun _ => true :=
  (Mgr.cofactor_zero S (R.inv S) lf lc hf hc).overflows

example := C19_cofactor Env.plain_sound Demo.reach Demo.live6 Demo.live5 Demo.den6 Demo.den5
  ⟨fun _ => true, rfl⟩
example := C19_cofactor Env.plain_sound Demo.reach Demo.live5 Demo.live6 Demo.den5 Demo.den6
  ⟨fun _ => true, rfl⟩
example := C19_cube Env.plain_sound Demo.reach (L := [(1, true), (2, true)]) (by decide) Demo.live6
  Demo.live5 Demo.den6 ((congrArg (Den _ _) (by funext ρ; simp [cubeOf])).mp Demo.den5)

/-! ## C20 -/

/-- `Cal_BddReduce`: for a satisfiable `c`, a function that agrees with `f` wherever `c` holds, depends on
no variable that `f` does not depend on, and whose BDD (under the order at the time of return) is no
larger than that of `f`. Missing: `c = 0`, see `C20_zero_violated`. -/
theorem C20_reduce_partial (S : E.Sound) (R : Reachable E own lk m) {f c F C} (lf : UTab.Live own f)
    (lc : UTab.Live own c) (hf : Den m f F) (hc : Den m c C) (hs : ∃ ρ, C ρ = true) :
    ∃ H, YieldsOrOverflows own m (m.reduce E f c) H ∧ (∀ ρ, C ρ = true → H ρ = F ρ) ∧
      (∀ v, Indep F v → Indep H v) ∧
      ∀ m' r, m.reduce E f c = some (m', r) → r ≠ Handle.null → ∀ n k,
        Counts true (Subfn m'.st.ord H) n → Counts true (Subfn m'.st.ord F) k → n ≤ k := by
  obtain ⟨H, h, h1, h2, h3⟩ := Mgr.reduce_ok S (R.inv S) lf lc hf hc hs
  exact ⟨H, h.overflows, h1, h2, h3⟩

/-- For `c = 0` the call goes wrong (undefined behaviour), whatever `f` is: `BddReduceBF` returns the null
BDD, for which `Cal_BddReduce` makes a user BDD whose size it then asks for. -/
theorem C20_zero_violated (S : E.Sound) (R : Reachable E own lk m) {f c F} (lf : UTab.Live own f)
    (lc : UTab.Live own c) (hf : Den m f F) (hc : Den m c fun _ => false) : m.reduce E f c = none :=
  Mgr.reduce_zero S (R.inv S) lf lc hf hc

example := C20_reduce_partial Env.plain_sound Demo.reach Demo.live6 Demo.live5 Demo.den6 Demo.den5
  ⟨fun _ => true, rfl⟩
example := C20_reduce_partial Env.plain_sound Demo.reach Demo.live5 Demo.live6 Demo.den5 Demo.den6
  ⟨fun _ => true, rfl⟩
example := C20_zero_violated Env.plain_sound Demo.reach Demo.live6 (Or.inl rfl) Demo.den6
  (Mgr.const_den (Demo.reach.inv Env.plain_sound) true)

/-! ## C21 -/

/-- `Cal_BddBetween`: for `fMin` implying `fMax`, a function that contains `fMin` and is contained in
`fMax`, and whose BDD is no larger than either. Missing: the pair false, true, see `C21_all_violated`. -/
theorem C21_between_partial (S : E.Sound) (R : Reachable E own lk m) {f g F G} (lf : UTab.Live own f)
    (lg : UTab.Live own g) (hf : Den m f F) (hg : Den m g G) (hle : ∀ ρ, F ρ = true → G ρ = true)
    (hs : (∃ ρ, F ρ = true) ∨ ∃ ρ, G ρ = false) :
    ∃ H, YieldsOrOverflows own m (m.between E f g) H ∧ (∀ ρ, F ρ = true → H ρ = true) ∧
      (∀ ρ, H ρ = true → G ρ = true) ∧
      ∀ m' r, m.between E f g = some (m', r) → r ≠ Handle.null → ∀ n k,
        Counts true (Subfn m'.st.ord H) n →
        (Counts true (Subfn m'.st.ord F) k ∨ Counts true (Subfn m'.st.ord G) k) → n ≤ k := by
  obtain ⟨H, h, h1, h2⟩ := Mgr.between_ok S (R.inv S) lf lg hf hg
    (hs.elim (fun ⟨ρ, h⟩ => ⟨ρ, Or.inl h⟩) fun ⟨ρ, h⟩ => ⟨ρ, Or.inr h⟩)
  refine ⟨H, h.overflows, (h1 hle).1, (h1 hle).2, fun m' r e hr n k a b => ?_⟩
  rcases b with b | b
  · exact (h2 m' r e hr).1 n k a b
  · exact (h2 m' r e hr).2 n k a b

/-- Any function lies between false and true, but the call goes wrong (undefined behaviour): the care set
is empty. -/
theorem C21_all_violated (S : E.Sound) (R : Reachable E own lk m) {f g} (lf : UTab.Live own f)
    (lg : UTab.Live own g) (hf : Den m f fun _ => false) (hg : Den m g fun _ => true) :
    m.between E f g = none :=
  Mgr.between_zero S (R.inv S) lf lg hf hg

example := C21_between_partial Env.plain_sound Demo.reach Demo.live5 Demo.live6 Demo.den5 Demo.den6
  (fun ρ h => by simp_all) (Or.inl ⟨fun _ => true, rfl⟩)
example := C21_all_violated Env.plain_sound Demo.reach (Or.inl rfl) (Or.inl rfl)
  (Mgr.const_den (Demo.reach.inv Env.plain_sound) true)
  (Mgr.const_den (Demo.reach.inv Env.plain_sound) false)

/-! ## C22 -/

/-- `Cal_BddCompose`: `f` with the variable `x` of `g` replaced by `h`. -/
theorem C22_compose (S : E.Sound) (R : Reachable E own lk m) {f g h F x H} (lf : UTab.Live own f)
    (lg : UTab.Live own g) (lh : UTab.Live own h) (hf : Den m f F) (hg : Den m g fun ρ => ρ x)
    (hh : Den m h H) :
    Yields own m (m.compose E f g h) fun ρ => F fun v => if v = x then H ρ else ρ v := by
  obtain ⟨-, -, h1⟩ := Mgr.compose_ok S (R.inv S) lf lg lh hf hg hh
  obtain ⟨o, v, t, h2⟩ := h1 ⟨fun h => by have := congrFun h fun _ => false; simp at this,
    fun h => by have := congrFun h fun _ => true; simp at this⟩
  have hv : v = x := by
    apply Classical.byContradiction
    intro hne
    exact t.dep fun ρ c => upd_ne _ _ (Ne.symm hne)
  subst hv
  exact h2.yields

/-- For a `g` that is neither a variable nor a constant it is the top variable of `g` that is
replaced. -/
theorem C22_compose_top (S : E.Sound) (R : Reachable E own lk m) {f g h F G H} (lf : UTab.Live own f)
    (lg : UTab.Live own g) (lh : UTab.Live own h) (hf : Den m f F) (hg : Den m g G) (hh : Den m h H)
    (hn : ∀ b, G ≠ fun _ => b) :
    ∃ o x, TopVar o G x ∧
      Yields own m (m.compose E f g h) fun ρ => F fun v => if v = x then H ρ else ρ v := by
  obtain ⟨-, -, h1⟩ := Mgr.compose_ok S (R.inv S) lf lg lh hf hg hh
  obtain ⟨o, v, t, h2⟩ := h1 ⟨hn true, hn false⟩
  exact ⟨o, v, t, h2.yields⟩

/-- With a constant in place of the variable `f` itself is returned, but this goes wrong (undefined
behaviour) for every complemented handle `f`: calBddCompose.c:90-93. -/
theorem C22_constant (S : E.Sound) (R : Reachable E own lk m) {f g h F H b} (lf : UTab.Live own f)
    (lg : UTab.Live own g) (lh : UTab.Live own h) (hf : Den m f F) (hg : Den m g fun _ => b)
    (hh : Den m h H) :
    (f.neg = false → Yields own m (m.compose E f g h) F) ∧ (f.neg = true → m.compose E f g h = none) := by
  obtain ⟨h1, h2, -⟩ := Mgr.compose_ok S (R.inv S) lf lg lh hf hg hh
  exact ⟨fun hn => (h1 ⟨b, rfl⟩ hn).yields, h2 ⟨b, rfl⟩⟩

example := C22_compose Env.plain_sound Demo.reach Demo.live6 Demo.live3 Demo.live5 Demo.den6 Demo.den3 Demo.den5
example := C22_compose_top Env.plain_sound Demo.reach Demo.live6 Demo.live6 Demo.live5 Demo.den6 Demo.den6 Demo.den5
  (fun b h => by
    have h1 := congrFun h fun _ => true
    have h2 := congrFun h fun _ => false
    simp at h1 h2
    simp_all)

/-- the negation of a function and a constant: undefined behaviour -/
theorem C22_constant_witness : ∃ s : Demo.Sess, Reachable Env.plain s.own s.lk s.m ∧
    ∃ f g h, UTab.Live s.own f ∧ UTab.Live s.own g ∧ UTab.Live s.own h ∧
      s.m.compose Env.plain f g h = none := by
  obtain ⟨s, R, h⟩ := Demo.witness (cs := Demo.script)
    (P := fun s => Demo.liveB s.own ⟨6, true⟩ && Demo.liveB s.own ⟨1, false⟩ && Demo.liveB s.own ⟨5, false⟩ &&
      (s.m.compose Env.plain ⟨6, true⟩ ⟨1, false⟩ ⟨5, false⟩).isNone) (by decide +kernel)
  simp only [Bool.and_eq_true, Option.isNone_iff_eq_none] at h
  exact ⟨s, R, _, _, _, Demo.liveB_ok h.1.1.1, Demo.liveB_ok h.1.1.2, Demo.liveB_ok h.1.2, h.2⟩

/-! ## C25 -/

/-- `Cal_BddSwapVars`: `f` with the variables `x` and `y` exchanged. -/
theorem C25_swapVars (S : E.Sound) (R : Reachable E own lk m) {f g h F x y} (lf : UTab.Live own f)
    (lg : UTab.Live own g) (lh : UTab.Live own h) (hf : Den m f F) (hg : Den m g fun ρ => ρ x)
    (hh : Den m h fun ρ => ρ y) :
    Yields own m (m.swapVars E f g h) fun ρ =>
      F fun v => if v = x then ρ y else if v = y then ρ x else ρ v := by
  have h1 := (Mgr.swapVars_ok S (R.inv S) lf lg lh hf hg hh).yields
  refine (congrArg (Yields own m _) ?_).mp h1
  funext ρ
  simp only [BFn.swap, Asg.swap]
  congr 1
  funext v
  simp only [upd]
  by_cases h1 : v = y
  · subst h1
    by_cases h2 : v = x
    · subst h2; simp
    · simp [h2]
  · simp only [if_neg h1]

/-- Constants cannot be exchanged: the result is null and nothing changes for the user. -/
theorem C25_constant (S : E.Sound) (R : Reachable E own lk m) {f g h F G H} (lf : UTab.Live own f)
    (lg : UTab.Live own g) (lh : UTab.Live own h) (hf : Den m f F) (hg : Den m g G) (hh : Den m h H)
    (hc : (∃ b, G = fun _ => b) ∨ ∃ b, H = fun _ => b) :
    ∃ m', m.swapVars E f g h = some (m', Handle.null) ∧
      ∀ h, UTab.Live own h → ∀ G, Den m h G → Den m' h G := by
  obtain ⟨m', h1, -, p⟩ := Mgr.swapVars_const S (R.inv S) lf lg lh hf hg hh hc
  exact ⟨m', h1, p.fns⟩

example := C25_swapVars Env.plain_sound Demo.reach Demo.live6 Demo.live2 Demo.live4 Demo.den6 Demo.den2 Demo.den4
example := C25_swapVars Env.plain_sound Demo.reach Demo.live6 Demo.live3 Demo.live3 Demo.den6 Demo.den3 Demo.den3
example := C25_constant Env.plain_sound Demo.reach Demo.live6 Demo.live3 (Or.inl rfl) Demo.den6 Demo.den3
  (Mgr.const_den (Demo.reach.inv Env.plain_sound) false) (Or.inr ⟨_, rfl⟩)

end Cal
