import Verif.CppOps
/-!
# Properties of the C++ interface: operators, ranges, vectors
-/

namespace Cal.Cpp

variable {E : Env}

/-! ## C69: operators -/

/-- `o &= p`: afterwards `o` is the conjunction (or null after an overflow, with a node limit), the temporary object
is gone, and no other object has changed. `o` and `p` may be the same object. By `C55_balance` the reference counts
are those of the objects. -/
theorem C69_andAssign (S : E.Sound) {x : X} (r : Reach E x) {t o p F G} (ht : get x.objs t = none)
    (ho : Holds x o F) (hp : Holds x p G) :
    ∃ y, compound E x .and o p t = some y ∧ Reach E y ∧ Gets x y o (fun ρ => F ρ && G ρ) ∧ Only x y o :=
  compound_ok S r (c := .and) (f := x.m.and E) (fn := fun A B ρ => A ρ && B ρ) (fun _ _ => rfl)
    (fun _ _ _ ha hb => ⟨ha, hb⟩) (fun _ _ => rfl) (fun _ _ R _ _ _ _ la lb da db => C02_and S R la lb da db) ht ho hp

/-- `o |= p` -/
theorem C69_orAssign (S : E.Sound) {x : X} (r : Reach E x) {t o p F G} (ht : get x.objs t = none)
    (ho : Holds x o F) (hp : Holds x p G) :
    ∃ y, compound E x .or o p t = some y ∧ Reach E y ∧ Gets x y o (fun ρ => F ρ || G ρ) ∧ Only x y o :=
  compound_ok S r (c := .or) (f := x.m.or E) (fn := fun A B ρ => A ρ || B ρ) (fun _ _ => rfl)
    (fun _ _ _ ha hb => ⟨ha, hb⟩) (fun _ _ => rfl) (fun _ _ R _ _ _ _ la lb da db => C02_or S R la lb da db) ht ho hp

/-- `o ^= p` -/
theorem C69_xorAssign (S : E.Sound) {x : X} (r : Reach E x) {t o p F G} (ht : get x.objs t = none)
    (ho : Holds x o F) (hp : Holds x p G) :
    ∃ y, compound E x .xor o p t = some y ∧ Reach E y ∧ Gets x y o (fun ρ => F ρ != G ρ) ∧ Only x y o :=
  compound_ok S r (c := .xor) (f := x.m.xor E) (fn := fun A B ρ => A ρ != B ρ) (fun _ _ => rfl)
    (fun _ _ _ ha hb => ⟨ha, hb⟩) (fun _ _ => rfl) (fun _ _ R _ _ _ _ la lb da db => C02_xor S R la lb da db) ht ho hp

/-- `BDD q = o - p`. Missing: null operands, see `C69_diff_null_violated`. -/
theorem C69_diff_partial (S : E.Sound) {x : X} (r : Reach E x) {q t o p F G} (hq : get x.objs q = none)
    (ht : get x.objs t = none) (hqt : q ≠ t) (ho : Holds x o F) (hp : Holds x p G) :
    ∃ y, diff E x q o p t = some y ∧ Reach E y ∧ Gets x y q (fun ρ => F ρ && !G ρ) ∧ Only x y q :=
  diff_ok S r hq ht hqt ho hp

/-- `o -= p`. Missing: null operands. -/
theorem C69_diffAssign_partial (S : E.Sound) {x : X} (r : Reach E x) {t u o p F G} (ht : get x.objs t = none)
    (hu : get x.objs u = none) (htu : t ≠ u) (ho : Holds x o F) (hp : Holds x p G) :
    ∃ y, diffAssign E x o p t u = some y ∧ Reach E y ∧ Gets x y o (fun ρ => F ρ && !G ρ) ∧ Only x y o := by
  obtain ⟨y, e, ry, hg, hon⟩ := diff_ok S r ht hu htu ho hp
  have hne : t ≠ o := by rintro rfl; exact ho.get_ne ht
  obtain ⟨z, e2, h⟩ := assign_after S ry hne ho.get_ne ht hg hon
  exact ⟨z, by simp only [diffAssign, e, Option.bind_eq_bind, Option.bind_some]; exact e2, h⟩

/-- With a null operand the operators `&=`, `|=`, `^=` make the object null and leave the others alone. -/
theorem C69_null (S : E.Sound) {x : X} (r : Reach E x) {t o p f g} (ht : get x.objs t = none)
    (ho : get x.objs o = some f) (hp : get x.objs p = some g) (hn : f = Handle.null ∨ g = Handle.null)
    {c : Handle → Handle → Call} (hc : c = .and ∨ c = .or ∨ c = .xor) :
    ∃ y, compound E x c o p t = some y ∧ Reach E y ∧ get y.objs o = some Handle.null ∧ Only x y o := by
  obtain ⟨own, i⟩ := r.inv S
  obtain ⟨lk, R⟩ := i.reach
  have oa : ∀ {q h}, get x.objs q = some h → OArg own h := fun {q h} gq => by
    by_cases hh : h = Handle.null
    · exact Or.inl hh
    · exact Or.inr (i.live S gq hh)
  have oa' : ∀ {q h}, get x.objs q = some h → OArg (holders x.objs) h := fun {q h} gq => by
    by_cases hh : h = Handle.null
    · exact Or.inl hh
    · exact Or.inr ((i.live_iff S h).1 (i.live S gq hh))
  obtain ⟨h1, -, h3, -, h5, -⟩ := C02_null S R (oa ho) (oa hp) hn
  have key : (c f g).run E x.m = some (x.m, .handle Handle.null) ∧ Legal x (.api t (c f g)) := by
    rcases hc with rfl | rfl | rfl
    · exact ⟨by simp only [Call.run, h1]; rfl, ht, ⟨oa' ho, oa' hp⟩, rfl⟩
    · exact ⟨by simp only [Call.run, h3]; rfl, ht, ⟨oa' ho, oa' hp⟩, rfl⟩
    · exact ⟨by simp only [Call.run, h5]; rfl, ht, ⟨oa' ho, oa' hp⟩, rfl⟩
  obtain ⟨y, e, ry, hm, gy, hoth⟩ := api_new S r key.2 key.1
  have hne : t ≠ o := by rintro rfl; rw [ht] at ho; cases ho
  have goy : get y.objs o ≠ none := by rw [(hoth o (Ne.symm hne)).1, ho]; simp
  obtain ⟨z, e2, rz, gz, gt, hot, -, hd⟩ := assignTemp_ok S ry hne goy gy
  refine ⟨z, by simp only [compound, binary, ho, hp, e, Option.bind_eq_bind, Option.bind_some]; exact e2, rz, gz,
    fun q hq => ?_⟩
  by_cases hqt : q = t
  · subst hqt; exact ⟨by rw [gt, ht], fun G hG => absurd ht hG.get_ne⟩
  · refine ⟨(hot q hq hqt).trans (hoth q hqt).1, fun G hG => ?_⟩
    obtain ⟨h, g, hn, d⟩ := (hoth q hqt).2 G hG
    exact ⟨h, (hot q hq hqt).trans g, hn, hd _ _ d⟩

/-- But `o - p` with `p` null is not null: complementing null follows the null pointer, so there is no defined
outcome. -/
theorem C69_diff_null_violated (S : E.Sound) {x : X} (r : Reach E x) {q t o p : Nat}
    (hp : get x.objs p = some Handle.null) : diff E x q o p t = none := by
  obtain ⟨own, i⟩ := r.inv S
  obtain ⟨lk, R⟩ := i.reach
  obtain ⟨Γ, leak, -, ig⟩ := R.inv S
  have : x.m.ut.heap Handle.null.addr = none := ig.ut.heap0
  simp only [diff, hp, Option.bind_eq_bind, Option.bind_some, step, Call.run, Mgr.not, Mgr.unFree, this]
  rfl

/-- `o == p`: two objects that are not null are equal exactly when they denote the same function, and null is equal
to null only. -/
theorem C69_equal (S : E.Sound) {x : X} (r : Reach E x) {o p f g} (ho : get x.objs o = some f)
    (hp : get x.objs p = some g) :
    (∀ F G, Den x.m f F → Den x.m g G → (Mgr.isEqual f g = true ↔ F = G)) ∧
    (f = Handle.null ∨ g = Handle.null → (Mgr.isEqual f g = true ↔ f = Handle.null ∧ g = Handle.null)) ∧
    (f ≠ Handle.null → ∃ F, Den x.m f F) := by
  obtain ⟨own, i⟩ := r.inv S
  obtain ⟨lk, R⟩ := i.reach
  refine ⟨fun F G hf hg => C01_canonical S R hf hg, fun hn => ?_, fun hn => (R.inv S).den (i.live S ho hn)⟩
  simp only [Mgr.isEqual, beq_iff_eq]
  constructor
  · rintro rfl; rcases hn with h | h <;> exact ⟨h, h⟩
  · rintro ⟨rfl, rfl⟩; rfl

theorem newVars_ok (S : E.Sound) : ∀ (n : Nat) {x : X}, Reach E x → get x.objs 0 = none → x.m.numVars + n ≤ 65534 →
    ∃ y, newVars E x n = some y ∧ Reach E y ∧ y.objs = x.objs ∧ y.m.numVars = x.m.numVars + n ∧
      (∀ v, 1 ≤ v → v ≤ x.m.numVars → x.m.st.ord.idToIndex v < x.m.numVars → y.m.st.ord.idToIndex v = x.m.st.ord.idToIndex v) ∧
      (∀ v, x.m.numVars < v → v ≤ x.m.numVars + n → y.m.st.ord.idToIndex v = v - 1)
  | 0, x, r, _, _ => ⟨x, rfl, r, rfl, rfl, fun _ _ _ _ => rfl, fun v h1 h2 => by omega⟩
  | n+1, x, r, h0, hn => by
    obtain ⟨own, i⟩ := r.inv S
    obtain ⟨lk, R⟩ := i.reach
    obtain ⟨m', h, h1, h2, -, h3, h4, h5, -⟩ := C33_last S R (show x.m.numVars < 65534 by omega)
    have l : Legal x (.api 0 .newVarLast) := ⟨h0, by show x.m.numVars < 65534; omega, rfl⟩
    obtain ⟨y, e, ry, hm, gy, hoth⟩ := api_new S r l (m' := m') (h := h) (by simp only [Call.run, h1]; rfl)
    have hy : y.objs = put x.objs 0 h := by
      simp only [step, Call.run, h1, retH, Option.map_some, made, Option.some.injEq] at e
      rw [← e]
    have l2 : Legal y (.destroy 0) := by show get y.objs 0 ≠ none; rw [gy]; simp
    obtain ⟨z, e2⟩ := C55_total S ry l2
    have rz := ry.step _ l2 e2
    have e2' := e2
    simp only [step, gy, Option.bind_eq_bind, Option.bind_some, Option.bind_eq_some_iff] at e2'
    obtain ⟨m2, f2, hz⟩ := e2'
    cases hz
    have hst : m2.st = m'.st := by
      rw [← hm]
      unfold freeH at f2
      split at f2
      · cases f2; rfl
      · unfold Mgr.free at f2
        cases hh : y.m.ut.heap h.addr with
        | none => rw [hh] at f2; cases f2
        | some v => rw [hh] at f2; cases f2; rfl
    have hobj : del y.objs 0 = x.objs := by
      rw [hy]
      unfold put
      have := del_mid (A := []) (B := del x.objs 0) (n := 0) (h := h) (by simp) (by simp [del])
      simp only [List.nil_append] at this
      rw [this, del_dead h0]
    rw [hobj] at rz e2
    have hnv : m2.numVars = x.m.numVars + 1 := by
      show m2.st.ord.numVars = _
      rw [hst]; exact h3
    obtain ⟨w, e3, rw3, ow, nw, kw, lw⟩ := newVars_ok S n rz h0 (by show m2.numVars + n ≤ _; omega)
    have nw' : w.m.numVars = m2.numVars + n := nw
    refine ⟨w, ?_, rw3, ow, by omega, fun v a b c => ?_, fun v a b => ?_⟩
    · simp only [newVars, e, e2, Option.bind_eq_bind, Option.bind_some]; exact e3
    · have h6 := h5 v a b
      rw [if_pos c] at h6
      have := kw v a (by show v ≤ m2.numVars; omega) (by show m2.st.ord.idToIndex v < m2.numVars; rw [hst, h6]; omega)
      rw [this]
      show m2.st.ord.idToIndex v = _
      rw [hst, h6]
    · by_cases hv : v = x.m.numVars + 1
      · subst hv
        have := kw (x.m.numVars + 1) (by omega) (by show _ ≤ m2.numVars; omega)
          (by show m2.st.ord.idToIndex _ < m2.numVars; rw [hst, h4]; omega)
        rw [this]
        show m2.st.ord.idToIndex _ = _
        rw [hst, h4]; omega
      · exact lw v (by show m2.numVars < v; omega) (by show v ≤ m2.numVars + n; omega)

/-- `Cal(n)` with at most 65534 variables: a manager with `n` variables in the order of their ids and without
objects. -/
theorem C69_newVars (S : E.Sound) (hash : Ptr → Ptr → Nat → Nat) {n : Nat} (hn : n ≤ 65534) :
    ∃ y, newVars E ⟨Mgr.init hash, []⟩ n = some y ∧ Reach E y ∧ y.objs = [] ∧ y.m.numVars = n ∧
      ∀ v, 1 ≤ v → v ≤ n → y.m.st.ord.idToIndex v = v - 1 := by
  have h0 : (Mgr.init hash).numVars = 0 := rfl
  obtain ⟨y, h1, h2, h3, h4, -, h5⟩ := newVars_ok S n (x := ⟨Mgr.init hash, []⟩) (.init hash) rfl
    (by show (Mgr.init hash).numVars + n ≤ 65534; omega)
  have h4' : y.m.numVars = (Mgr.init hash).numVars + n := h4
  exact ⟨y, h1, h2, h3, by omega, fun v a b => h5 v (by show (Mgr.init hash).numVars < v; omega)
    (by show v ≤ (Mgr.init hash).numVars + n; omega)⟩

/-! ## C70: ranges -/

/-- What the objects of a range denote, up to the first null object. -/
inductive Upto (x : X) : List Nat → List BFn → Prop
  | done : Upto x [] []
  | null {o os} : get x.objs o = some Handle.null → (∀ p ∈ os, get x.objs p ≠ none) → Upto x (o :: os) []
  | obj {o F os Fs} : Holds x o F → Upto x os Fs → Upto x (o :: os) (F :: Fs)

/-- The variables that a range of ids names, up to the first that is not the id of one of the `n` variables. Ids are
read as 16 bit numbers. -/
inductive Ids (n : Nat) : List Int → List Nat → Prop
  | done : Ids n [] []
  | bad {i is} : i % 65536 = 0 ∨ (n : Int) < i % 65536 → Ids n (i :: is) []
  | var {i is v vs} : 1 ≤ v → v ≤ n → i % 65536 = (v : Int) → Ids n is vs → Ids n (i :: is) (v :: vs)

/-- The functions in a range of objects or of ids of variables. -/
inductive Reads (x : X) : Option (Mgr × List Handle) → List BFn → Prop
  | objs {os Fs} : Upto x os Fs → Reads x (cVector x.m x.objs os) Fs
  | ids {is vs} : Ids x.m.numVars is vs → Reads x (idVector x.m is) (vs.map fun v ρ => ρ v)

theorem Upto.alive {x : X} {os Fs} (h : Upto x os Fs) : ∀ o ∈ os, get x.objs o ≠ none := by
  induction h with
  | done => simp
  | null g hr =>
    intro p hp
    rcases List.mem_cons.1 hp with rfl | hp
    · rw [g]; simp
    · exact hr p hp
  | obj a _ ih =>
    intro o ho
    rcases List.mem_cons.1 ho with rfl | ho
    · exact a.get_ne
    · exact ih o ho

/-- A range of objects that are not null is read to its end. -/
theorem Upto.of {x : X} : ∀ {os : List Nat} {Fs : List BFn}, F2 (Holds x) os Fs → Upto x os Fs
  | _, _, .nil => .done
  | _, _, .cons a as => .obj a (Upto.of as)

/-- A range of valid ids is read to its end. -/
theorem Ids.of {n : Nat} (hn : n < 65536) : ∀ {vs : List Nat}, (∀ v ∈ vs, 1 ≤ v ∧ v ≤ n) →
    Ids n (vs.map fun v : Nat => (v : Int)) vs
  | [], _ => .done
  | v :: vs, h => .var (h v (by simp)).1 (h v (by simp)).2 (by have := h v (by simp); show (v : Int) % 65536 = v; omega)
      (Ids.of hn fun w hw => h w (by simp [hw]))

theorem upToNull_cons {h : Handle} (hn : h ≠ Handle.null) (hs : List Handle) :
    upToNull (h :: hs) = h :: upToNull hs := by
  unfold upToNull
  rw [List.takeWhile_cons, if_pos (by simpa using hn)]

theorem upto_dens {x : X} {m1 : Mgr} (keep : ∀ o h, get x.objs o = some h → ∀ F, Den x.m h F → Den m1 h F)
    {os : List Nat} {Fs : List BFn} (u : Upto x os Fs) :
    ∀ {hs : List Handle}, F2 (fun o h => get x.objs o = some h) os hs → F2 (Den m1) (upToNull hs) Fs := by
  induction u with
  | done => intro hs h; cases h; exact .nil
  | null g _ =>
    intro hs h
    cases h with
    | cons a as =>
      rw [g] at a
      cases a
      exact .nil
  | obj hF _ ih =>
    intro hs h
    cases h with
    | cons a as =>
      obtain ⟨k, g, hn, d⟩ := hF
      have a' := a
      rw [g] at a
      cases a
      rw [upToNull_cons hn]
      exact .cons (keep _ _ g _ d) (ih as)

theorem ids_dens {n : Nat} {m1 : Mgr} {is : List Int} {vs : List Nat} (u : Ids n is vs) :
    ∀ {hs : List Handle}, F2 (fun (i : Int) h =>
        (∃ v, 1 ≤ v ∧ v ≤ n ∧ i % 65536 = (v : Int) ∧ h ≠ Handle.null ∧ Den m1 h fun ρ => ρ v) ∨
          ((i % 65536 = 0 ∨ (n : Int) < i % 65536) ∧ h = Handle.null)) is hs →
      F2 (Den m1) (upToNull hs) (vs.map fun v ρ => ρ v) := by
  induction u with
  | done => intro hs h; cases h; exact .nil
  | bad hb =>
    intro hs h
    cases h with
    | cons a as =>
      rcases a with ⟨v, h1, h2, h3, -⟩ | ⟨-, rfl⟩
      · omega
      · exact .nil
  | var h1 h2 h3 _ ih =>
    intro hs h
    cases h with
    | cons a as =>
      rcases a with ⟨v, g1, g2, g3, hn, d⟩ | ⟨hb, -⟩
      · obtain rfl : v = _ := Int.natCast_inj.1 (g3.symm.trans h3)
        rw [upToNull_cons hn]
        exact .cons d (ih as)
      · omega

theorem Reads.vec (S : E.Sound) {x : X} (r : Reach E x) {v Fs} (h : Reads x v Fs) :
    ∃ m1 hs, v = some (m1, hs) ∧ Vec E x m1 hs ∧ F2 (Den m1) (upToNull hs) Fs := by
  cases h with
  | objs u =>
    obtain ⟨m1, hs, hv, V, hg⟩ := cVector_vec S r u.alive
    exact ⟨m1, hs, hv, V, upto_dens V.keep u hg⟩
  | ids u =>
    obtain ⟨m1, hs, hv, V, -, hg⟩ := idVector_vec S r _
    exact ⟨m1, hs, hv, V, ids_dens u hg⟩

theorem f2_ne_nil {α β : Type} {R : α → β → Prop} {l : List α} {k : List β} (h : F2 R l k) (hk : k ≠ []) : l ≠ [] := by
  rintro rfl; cases h; exact hk rfl

/-- a multiway function on a range -/
theorem rangeMulti (S : E.Sound) {x : X} (r : Reach E x) {t : Nat} (ht : get x.objs t = none)
    {v : Option (Mgr × List Handle)} {Fs : List BFn} (hr : Reads x v Fs) (hlen : Fs.length ≤ 1024)
    (c : List Handle → Call) (op : Edge → Edge → Option Edge)
    (hrun : ∀ l m, (c l).run E m = retH (m.multiway E op l))
    (hleg : ∀ own l m, (∀ h ∈ l, UTab.Live own h) → l.length ≤ 1024 → (c l).Legal own m)
    (hcpp : ∀ l, inCpp (c l) = true) {F : BFn}
    (hok : ∀ m1 own lk l, Reachable E own lk m1 → (∀ h ∈ l, UTab.Live own h) → F2 (Den m1) l Fs →
      Yields own m1 (m1.multiway E op l) F) :
    ∃ y ret, range E x v c t = some (y, ret) ∧ Reach E y ∧ Holds y t F ∧ Only x y t := by
  obtain ⟨m1, hs, hv, V, hd⟩ := hr.vec S r
  have hl := Dump.F2.length_eq hd
  obtain ⟨own, lk, R, hlv, -⟩ := V.own S
  obtain ⟨m', k, e, hn, d, -⟩ := hok m1 own lk _ R (fun h hh => (hlv h hh).1) hd
  obtain ⟨m2, ret, y, h1, h2, h3, h4, h5, h6, h7⟩ := range_ok S hv V (c := c) ht
    (fun own hl => hleg own _ m1 hl (by omega)) (hcpp _)
  rw [hrun, e] at h1
  simp only [retH, Option.map_some, Option.some.injEq, Prod.mk.injEq] at h1
  obtain ⟨rfl, rfl⟩ := h1
  have ho : y.objs = put x.objs t k := h4
  refine ⟨y, _, h2, h3, ⟨k, by rw [ho, get_put, if_pos rfl], hn, h6 _ _ d⟩, fun p hp => ?_⟩
  have g : get y.objs p = get x.objs p := by rw [ho, get_put, if_neg hp]
  refine ⟨g, fun G ⟨h, gh, hn, d⟩ => ⟨h, g.trans gh, hn, h7 _ _ gh _ d⟩⟩

/-- `And` of a range of objects or of ids, with at least one and at most 1024 before the first null object or invalid
id: a new object for their conjunction; nothing else changes. If no object is null (`Upto.of`) or all ids are valid
(`Ids.of`), it is the conjunction of all. Missing: that null objects make the result null, see `C70_null_violated`. -/
theorem C70_and_partial (S : E.Sound) {x : X} (r : Reach E x) {t v Fs} (ht : get x.objs t = none)
    (hr : Reads x v Fs) (hne : Fs ≠ []) (hlen : Fs.length ≤ 1024) :
    ∃ y ret, range E x v .multiwayAnd t = some (y, ret) ∧ Reach E y ∧
      Holds y t (fun ρ => Fs.all fun F => F ρ) ∧ Only x y t :=
  rangeMulti S r ht hr hlen .multiwayAnd opAnd (fun _ _ => rfl) (fun _ _ _ a b => ⟨a, b⟩) (fun _ => rfl)
    fun _ _ _ _ R hlv hd => C04_multiwayAnd S R hlv hd (f2_ne_nil hd hne) (by have := Dump.F2.length_eq hd; omega)

/-- `Or` of a range -/
theorem C70_or_partial (S : E.Sound) {x : X} (r : Reach E x) {t v Fs} (ht : get x.objs t = none)
    (hr : Reads x v Fs) (hne : Fs ≠ []) (hlen : Fs.length ≤ 1024) :
    ∃ y ret, range E x v .multiwayOr t = some (y, ret) ∧ Reach E y ∧
      Holds y t (fun ρ => Fs.any fun F => F ρ) ∧ Only x y t :=
  rangeMulti S r ht hr hlen .multiwayOr opOr (fun _ _ => rfl) (fun _ _ _ a b => ⟨a, b⟩) (fun _ => rfl)
    fun _ _ _ _ R hlv hd => C04_multiwayOr S R hlv hd (f2_ne_nil hd hne) (by have := Dump.F2.length_eq hd; omega)

/-- `Xor` of a range -/
theorem C70_xor_partial (S : E.Sound) {x : X} (r : Reach E x) {t v Fs} (ht : get x.objs t = none)
    (hr : Reads x v Fs) (hne : Fs ≠ []) (hlen : Fs.length ≤ 1024) :
    ∃ y ret, range E x v .multiwayXor t = some (y, ret) ∧ Reach E y ∧
      Holds y t (fun ρ => (Fs.countP fun F => F ρ) % 2 == 1) ∧ Only x y t :=
  rangeMulti S r ht hr hlen .multiwayXor opXor (fun _ _ => rfl) (fun _ _ _ a b => ⟨a, b⟩) (fun _ => rfl)
    fun _ _ _ _ R hlv hd => C04_multiwayXor S R hlv hd (f2_ne_nil hd hne) (by have := Dump.F2.length_eq hd; omega)

/-- A null object does not make the result null: the rest of the range is ignored. With `o` a function `F`, then a
null object, then anything: `And` is `F`, while `o & n` is null (`C69_null`). -/
theorem C70_null_violated (S : E.Sound) {x : X} (r : Reach E x) {t o n p F} (ht : get x.objs t = none)
    (ho : Holds x o F) (hn : get x.objs n = some Handle.null) (hp : get x.objs p ≠ none) :
    ∃ y ret, range E x (cVector x.m x.objs [o, n, p]) .multiwayAnd t = some (y, ret) ∧ Holds y t F := by
  obtain ⟨y, ret, h1, -, h2, -⟩ := C70_and_partial S r ht (.objs (.obj ho (.null hn (os := [p]) (by simpa using hp))))
    (by simp) (by simp)
  exact ⟨y, ret, h1, by simpa using h2⟩

/-- The empty range, and a range that starts with a null object or an invalid id, give null. -/
theorem C70_empty (S : E.Sound) {x : X} (r : Reach E x) {t v} (ht : get x.objs t = none)
    (hr : Reads x v []) {c : List Handle → Call} (hc : c = .multiwayAnd ∨ c = .multiwayOr ∨ c = .multiwayXor) :
    ∃ y ret, range E x v c t = some (y, ret) ∧ Reach E y ∧
      get y.objs t = some Handle.null ∧ Only x y t := by
  obtain ⟨m1, hs, hv, V, hd⟩ := hr.vec S r
  have hu : upToNull hs = [] := by
    generalize upToNull hs = l at hd
    cases hd; rfl
  have hrun : (c []).run E m1 = some (m1, .handle Handle.null) := by
    rcases hc with rfl | rfl | rfl <;> rfl
  have hleg : ∀ own, (c []).Legal own m1 := by
    intro own; rcases hc with rfl | rfl | rfl <;> exact ⟨by simp, by simp⟩
  have hcpp : inCpp (c []) = true := by rcases hc with rfl | rfl | rfl <;> rfl
  obtain ⟨m2, ret, y, h1, h2, h3, h4, h5, h6, h7⟩ := range_ok S hv V (c := c) ht
    (fun own _ => by rw [hu]; exact hleg own) (by rw [hu]; exact hcpp)
  rw [hu, hrun] at h1
  cases h1
  have ho : y.objs = put x.objs t Handle.null := h4
  refine ⟨y, _, h2, h3, by rw [ho, get_put, if_pos rfl], fun p hp => ?_⟩
  have g : get y.objs p = get x.objs p := by rw [ho, get_put, if_neg hp]
  exact ⟨g, fun G ⟨h, gh, hn, d⟩ => ⟨h, g.trans gh, hn, h7 _ _ gh _ d⟩⟩

/-- `Size` of a range: the number of nodes of the functions before the first null object or invalid id, shared ones
counted once; no object changes. -/
theorem C70_size_partial (S : E.Sound) {x : X} (r : Reach E x) {v Fs} (hr : Reads x v Fs) (negout : Bool) {t}
    (ht : get x.objs t = none) :
    ∃ y, ∃ n : Nat, range E x v (.sizeMultiple · negout) t = some (y, .num n) ∧ Reach E y ∧
      Counts negout (fun G => ∃ F ∈ Fs, Subfn y.m.st.ord F G) n ∧ y.objs = x.objs ∧
      ∀ p G, Holds x p G → Holds y p G := by
  obtain ⟨m1, hs, hv, V, hd⟩ := hr.vec S r
  obtain ⟨own, lk, R, hlv, -⟩ := V.own S
  obtain ⟨m', n, e, hc, -⟩ := C30_sizeMultiple S R (fun h hh => (hlv h hh).1) hd negout
  obtain ⟨m2, ret, y, h1, h2, h3, h4, h5, h6, h7⟩ := range_ok S hv V (c := (.sizeMultiple · negout)) ht
    (fun own hl => hl) rfl
  have h1' : (m1.sizeMultiple E (upToNull hs) negout).map (fun p => (p.1, Ret.num p.2)) = some (m2, ret) := h1
  rw [e] at h1'
  cases h1'
  have ho : y.objs = x.objs := h4
  refine ⟨y, n, h2, h3, ?_, ho, fun p G ⟨h, gh, hn, d⟩ => ⟨h, by rw [ho]; exact gh, hn, h7 _ _ gh _ d⟩⟩
  rw [h5]; exact hc

theorem literals_of {m : Mgr} : ∀ {hs : List Handle} {Fs : List BFn} {L}, F2 (Den m) hs Fs →
    Cal.Legal false Fs L → Literals m hs
  | _, _, _, .nil, _ => fun h hh => by cases hh
  | _, _, _, .cons (y := F) d ds, .cons a as => fun h hh => by
    rcases List.mem_cons.1 hh with rfl | hh
    · rcases a.1 with e | ⟨-, e⟩
      · have e : F = _ := e
        exact ⟨_, Or.inl (e ▸ d)⟩
      · have e : F = _ := e
        exact ⟨_, Or.inr (e ▸ d)⟩
    · exact literals_of ds as h hh

/-- `AssociationInit` of a range: the result is an association id, and that association relates the variables to the
functions (or, without pairs, to true) as they are listed up to the first null object or invalid id; no object
changes. -/
theorem C70_association_partial (S : E.Sound) {x : X} (r : Reach E x) {v Fs} (hr : Reads x v Fs) {pairs : Bool} {L}
    (lg : Cal.Legal pairs Fs L) (hlen : x.m.assocs.length < 4096) {t} (ht : get x.objs t = none) :
    ∃ y k, range E x v (.associationInit · pairs) t = some (y, .num k) ∧ Reach E y ∧ 0 ≤ k ∧
      AssocDen y.m k (tableFrom (fun _ => none) L) ∧ y.objs = x.objs ∧
      ∀ p G, Holds x p G → Holds y p G := by
  obtain ⟨m1, hs, hv, V, hd⟩ := hr.vec S r
  obtain ⟨own, lk, R, hlv, -⟩ := V.own S
  have hal : m1.assocs.length < 4096 := by rw [V.assocs]; exact hlen
  obtain ⟨m', k, e, hk, -, ha, -⟩ := C35_init S R (fun h hh => (hlv h hh).1) hd lg hal
  obtain ⟨m2, ret, y, h1, h2, h3, h4, h5, h6, h7⟩ := range_ok S hv V (c := (.associationInit · pairs)) ht
    (fun own hl => ⟨hl, fun hp => by subst hp; exact literals_of hd lg, hal⟩) rfl
  have h1' : (m1.associationInit E (upToNull hs) pairs).map (fun p => (p.1, Ret.num p.2)) = some (m2, ret) := h1
  rw [e] at h1'
  cases h1'
  have ho : y.objs = x.objs := h4
  refine ⟨y, k, h2, h3, hk, ?_, ho, fun p G ⟨h, gh, hn, d⟩ => ⟨h, by rw [ho]; exact gh, hn, h7 _ _ gh _ d⟩⟩
  rw [h5]; exact ha

/-! ## C71: results in vectors -/

/-- `Profile` of an object that is not null: the numbers of nodes on each level (`C31_profile`) are written into the
memory of the vector, and there is room for them. Missing: that they are the elements of the vector, see
`C71_profile_violated`. -/
theorem C71_profile_partial (S : E.Sound) {x : X} (r : Reach E x) {o h F} (ho : get x.objs o = some h)
    (hn : h ≠ Handle.null) (hd : Den x.m h F) (negout : Bool) :
    ∃ m' w, profileVec E x.m h negout = some (m', w) ∧ w.mem.length = x.m.numVars + 1 ∧ w.mem.length ≤ w.room ∧
      ∀ j ≤ x.m.numVars, ∃ c : Nat, w.mem[j]? = some (c : Int) ∧
        Counts negout (fun G => AtEntry m'.st.ord j G ∧ Subfn m'.st.ord F G) c := by
  obtain ⟨own, i⟩ := r.inv S
  obtain ⟨lk, R⟩ := i.reach
  obtain ⟨m', l, h1, h2, -, h3, -⟩ := C31_profile S R (i.live S ho hn) hd negout
  refine ⟨m', ⟨0, x.m.numVars + 1, l.map fun (n : Nat) => (n : Int)⟩, ?_, by simp [h2], by simp [h2], fun j hj => ?_⟩
  · simp [profileVec, h1, LongVec.write, LongVec.reserve, h2]
  · obtain ⟨c, h4, h5⟩ := h3 j hj
    exact ⟨c, by simp [h4], h5⟩

/-- `FunctionProfile`, the same (`C63_profile`). -/
theorem C71_functionProfile_partial (S : E.Sound) {x : X} (r : Reach E x) {o h F} (ho : get x.objs o = some h)
    (hn : h ≠ Handle.null) (hd : Den x.m h F) :
    ∃ m' w, functionProfileVec E x.m h = some (m', w) ∧ w.mem.length = x.m.numVars + 1 ∧ w.mem.length ≤ w.room ∧
      ∀ j ≤ x.m.numVars, ∃ c, w.mem[j]? = some c ∧
        (j < x.m.numVars → Indep F (m'.st.ord.indexToId j) → c = 0) ∧
        ((j = x.m.numVars ∨ ¬ Indep F (m'.st.ord.indexToId j)) → ∃ n : Nat, c = n ∧ Number (Left m'.st.ord j F) n) := by
  obtain ⟨own, i⟩ := r.inv S
  obtain ⟨lk, R⟩ := i.reach
  obtain ⟨m', l, h1, h2, h3, -⟩ := C63_profile S R (i.live S ho hn) hd
  refine ⟨m', ⟨0, x.m.numVars + 1, l⟩, ?_, h2, by simp [h2], h3⟩
  simp [functionProfileVec, h1, LongVec.write, LongVec.reserve, h2]

/-- `Profile` and `FunctionProfile` always return a vector without elements. -/
theorem C71_profile_violated (m : Mgr) (h : Handle) (m' : Mgr) (w : LongVec) :
    (∀ negout, profileVec E m h negout = some (m', w) → w.elems = []) ∧
    (functionProfileVec E m h = some (m', w) → w.elems = []) := by
  have key : ∀ n l v, (LongVec.reserve n).write l = some v → v.elems = [] := by
    intro n l v h
    unfold LongVec.write at h
    split at h
    · cases h; simp [LongVec.elems, LongVec.reserve]
    · cases h
  constructor
  · intro negout h
    simp only [profileVec, bind, Option.bind_eq_some_iff] at h
    obtain ⟨⟨m1, l⟩, -, v, hv, h⟩ := h
    cases h
    exact key _ _ _ hv
  · intro h
    simp only [functionProfileVec, bind, Option.bind_eq_some_iff] at h
    obtain ⟨⟨m1, l⟩, -, v, hv, h⟩ := h
    cases h
    exact key _ _ _ hv

/-- user node addresses are positive -/
structure Pos (u : UTab) : Prop where
  heap0 : u.heap 0 = none
  next : 0 < u.next
  free : ∀ a ∈ u.free, 0 < a

theorem Pos.external {m : Mgr} (p : Pos m.ut) (e : Edge) : Pos (m.external e).1.ut ∧ (m.external e).2 ≠ Handle.null := by
  have key : Pos (m.ut.findOrAdd (e.phase e.neg)).1 ∧ (m.ut.findOrAdd (e.phase e.neg)).2.1 ≠ 0 := by
    unfold UTab.findOrAdd
    cases hl : m.ut.lookup (e.phase e.neg) with
    | some a =>
      refine ⟨p, fun h0 : a = 0 => ?_⟩
      have := UTab.OK.lookup_some hl
      rw [h0, p.heap0] at this; cases this
    | none =>
      unfold UTab.alloc
      cases hf : m.ut.free with
      | nil =>
        have h := p.next
        refine ⟨⟨?_, by show 0 < m.ut.next + 1; omega, fun a ha => p.free a (by rw [hf]; exact ha)⟩,
          by show m.ut.next ≠ 0; omega⟩
        show upd m.ut.heap m.ut.next _ 0 = none
        rw [upd_ne _ _ (by omega)]; exact p.heap0
      | cons b bs =>
        have h : 0 < b := p.free b (by simp [hf])
        refine ⟨⟨?_, p.next, fun a (ha : a ∈ bs) => p.free a (by simp [hf, ha])⟩, by show b ≠ 0; omega⟩
        show upd m.ut.heap b _ 0 = none
        rw [upd_ne _ _ (by omega)]; exact p.heap0
  refine ⟨⟨key.1.heap0, key.1.next, key.1.free⟩, fun h => key.2 ?_⟩
  have := congrArg (fun k : Handle => k.1) h
  exact this

theorem Pos.externals : ∀ {es : List Edge} {m : Mgr}, Pos m.ut → ∀ h ∈ (m.externals es).2, h ≠ Handle.null
  | [], _, _ => by simp [Mgr.externals]
  | e :: es, m, p => by
    intro h hh
    rcases List.mem_cons.1 (show h ∈ (m.external e).2 :: ((m.external e).1.externals es).2 from hh) with rfl | hh
    · exact (p.external e).2
    · exact Pos.externals (p.external e).1 h hh

theorem fromCArray_end (E : Env) : ∀ {hs : List Handle} {m : Mgr}, (∀ h ∈ hs, h ≠ Handle.null) → fromCArray E m hs = none
  | [], _, _ => rfl
  | h :: hs, m, hn => by
    have h1 := hn h (by simp)
    have ih := fun m' => fromCArray_end E (m := m') (hs := hs) fun k hk => hn k (by simp [hk])
    have hc : m.check [h] ≠ some false := by
      simp only [Mgr.check, if_neg h1]
      split
      · simp
      · split <;> simp
    unfold fromCArray
    rw [if_neg h1]
    cases hp : m.preProc E [h] with
    | none => rfl
    | some q =>
      obtain ⟨m', b⟩ := q
      cases b with
      | true => simp [ih]
      | false =>
        exfalso
        unfold Mgr.preProc at hp
        split at hp
        · cases hp
        · rename_i hk; exact hc hk
        · split at hp <;> cases hp

/-- `PairwiseOr` and `PairwiseXor` read behind the end of the array of results or from a null pointer, for every range;
`PairwiseAnd` does, or returns an empty vector (when it overflowed). They never return results. -/
theorem C71_pairwise_violated (S : E.Sound) {x : X} (r : Reach E x) {v Fs} (hr : Reads x v Fs)
    (op : Edge → Edge → Option Edge) :
    pairwise E v op false = none ∧
    (pairwise E v op true = none ∨ ∃ m', pairwise E v op true = some (m', []) ∧ Fs.length % 2 = 0 ∧ Fs ≠ []) := by
  obtain ⟨m1, hs, hv, V, hd⟩ := hr.vec S r
  have hlen := Dump.F2.length_eq hd
  obtain ⟨own, lk, R, hlv, -⟩ := V.own S
  obtain ⟨m2, hpre, i2, -⟩ := Mgr.arrayPreProc_ok S (R.inv S) fun h hh => (hlv h hh).1
  have pos : Pos m2.ut := by
    obtain ⟨Γ, leak, -, i⟩ := i2
    exact ⟨i.ut.heap0, i.ut.next_pos, fun a ha => (i.ut.free_ok a ha).2.1⟩
  have hnull : ∀ (rs : List Handle) m, fromCArray E m (rs.map fun _ : Handle => Handle.null) = none ∨
      fromCArray E m (rs.map fun _ : Handle => Handle.null) = some (m, []) := by
    intro rs m
    cases rs with
    | nil => exact Or.inl rfl
    | cons _ _ => exact Or.inr rfl
  have main : ∀ post, pairwise E v op post = none ∨
      (post = true ∧ (∃ m', pairwise E v op true = some (m', [])) ∧ Fs.length % 2 = 0 ∧ Fs ≠ []) := by
    intro post
    have hpw : pairwise E v op post = (m1.pairwise E op post (upToNull hs)).bind fun q =>
        match q.2 with
        | none => none
        | some rs => fromCArray E q.1 rs := by
      rw [hv]; rfl
    by_cases hev : (upToNull hs).length = 0 ∨ (upToNull hs).length % 2 ≠ 0
    · left
      have : m1.pairwise E op post (upToNull hs) = some (m2, none) := by
        simp only [Mgr.pairwise, hpre]
        rw [if_pos hev]
      rw [hpw, this]; rfl
    · cases hq : m1.pairwise E op post (upToNull hs) with
      | none => left; rw [hpw, hq]; rfl
      | some q =>
        have hq' := hq
        simp only [Mgr.pairwise, hpre] at hq'
        rw [if_neg hev] at hq'
        split at hq'
        · cases hq'
        · split at hq'
          · cases hq'
          · rename_i es _ _ b rs hb
            split at hq'
            · have hnn := Pos.externals (es := rs) (m := { m2 with st := b.st }) pos
              split at hq'
              · rename_i hpost
                subst hpost
                split at hq'
                · cases hq'
                · cases hq'
                  left; rw [hpw, hq]; exact fromCArray_end E hnn
                · split at hq'
                  · cases hq'
                  · split at hq'
                    · cases hq'
                    · rename_i m4 _
                      cases hq'
                      rcases hnull (({ m2 with st := b.st } : Mgr).externals rs).2 m4 with h | h
                      · left; rw [hpw, hq]; exact h
                      · refine Or.inr ⟨rfl, ⟨m4, by rw [hpw, hq]; exact h⟩, by omega, ?_⟩
                        rintro rfl
                        exact hev (Or.inl hlen)
              · cases hq'
                left; rw [hpw, hq]; exact fromCArray_end E hnn
            · cases hq'
  refine ⟨?_, ?_⟩
  · rcases main false with h | ⟨h, -⟩
    · exact h
    · cases h
  · rcases main true with h | ⟨-, ⟨m', h⟩, h2, h3⟩
    · exact Or.inl h
    · exact Or.inr ⟨m', h, h2, h3⟩

/-! The hypotheses are met: `BDD a = cal.NewVar(), b = cal.NewVar(), c = a & b, n;` -/

namespace Small

/-- the program -/
def ops : List Op :=
  [.api 0 .newVarLast, .api 1 .newVarLast, .api 2 (.and ⟨2, false⟩ ⟨3, false⟩), .null 3]

/-- its final state -/
def x : X := (steps Env.plain ⟨Mgr.init fun _ _ _ => 0, []⟩ ops).getD ⟨Mgr.init fun _ _ _ => 0, []⟩

theorem run : steps Env.plain ⟨Mgr.init fun _ _ _ => 0, []⟩ ops = some x := by
  have h : (steps Env.plain ⟨Mgr.init fun _ _ _ => 0, []⟩ ops).isSome = true := by decide +kernel
  rw [Option.isSome_iff_exists] at h
  obtain ⟨y, hy⟩ := h
  unfold x
  rw [hy]; rfl

theorem reach : Reach Env.plain x := steps_reach (.init _) run

theorem a : Holds x 0 fun ρ => ρ 1 :=
  ⟨⟨2, false⟩, by decide +kernel, by decide, Demo.den_of (T := Demo.lit 1) (by decide +kernel) fun ρ => by
    simp [Demo.Tree.fn, Demo.lit]⟩

theorem b : Holds x 1 fun ρ => ρ 2 :=
  ⟨⟨3, false⟩, by decide +kernel, by decide, Demo.den_of (T := Demo.lit 2) (by decide +kernel) fun ρ => by
    simp [Demo.Tree.fn, Demo.lit]⟩

theorem c : Holds x 2 fun ρ => ρ 1 && ρ 2 :=
  ⟨⟨4, false⟩, by decide +kernel, by decide, Demo.den_of (T := .node 1 (Demo.lit 2) (.leaf false)) (by decide +kernel)
    fun ρ => by cases h1 : ρ 1 <;> cases h2 : ρ 2 <;> simp [Demo.Tree.fn, Demo.lit, h1, h2]⟩

theorem n : get x.objs 3 = some Handle.null := by decide +kernel
theorem t : get x.objs 4 = none := by decide +kernel
theorem u : get x.objs 5 = none := by decide +kernel

theorem vars : x.m.numVars = 2 := by decide +kernel
theorem assocs : x.m.assocs.length < 4096 := by decide +kernel

/-- a range of objects -/
theorem objs : Reads x (cVector x.m x.objs [0, 2, 1]) [fun ρ => ρ 1, fun ρ => ρ 1 && ρ 2, fun ρ => ρ 2] :=
  .objs (.of (.cons a (.cons c (.cons b .nil))))

/-- a range of ids, the last one invalid -/
theorem ids : Reads x (idVector x.m [2, 1, 7]) ([2, 1].map fun v ρ => ρ v) :=
  .ids (.var (by decide) (by rw [vars]; decide) (by decide) (.var (by decide) (by rw [vars]; decide) (by decide)
    (.bad (Or.inr (by rw [vars]; decide)))))

end Small

open Small

example := C69_andAssign Env.plain_sound reach t b c
example := C69_orAssign Env.plain_sound reach t b b
example := C69_xorAssign Env.plain_sound reach t b c
example := C69_diff_partial Env.plain_sound reach t u (by decide) b c
example := C69_diffAssign_partial Env.plain_sound reach t u (by decide) c c
example := C69_null Env.plain_sound reach t n n (Or.inl rfl) (Or.inl rfl)
example : diff Env.plain x 4 0 3 5 = none := C69_diff_null_violated Env.plain_sound reach n
example := C69_newVars Env.plain_sound (fun _ _ _ => 0) (n := 65534) (by decide)
example := C70_and_partial Env.plain_sound reach t objs (by simp) (by simp)
example := C70_or_partial Env.plain_sound reach t ids (by simp) (by simp)
example := C70_xor_partial Env.plain_sound reach t objs (by simp) (by simp)
example := C70_null_violated Env.plain_sound reach t a n (p := 1) b.get_ne
example := C70_empty Env.plain_sound reach t (.objs (.null (os := [0]) n (by simpa using a.get_ne))) (Or.inl rfl)
example := C70_size_partial Env.plain_sound reach objs true t
example := C70_association_partial Env.plain_sound reach (pairs := false) (L := [(2, fun _ => true), (1, fun _ => true)])
  ids (.cons ⟨Or.inl rfl, rfl⟩ (.cons ⟨Or.inl rfl, rfl⟩ .nil)) assocs t
example := C70_association_partial Env.plain_sound reach (pairs := true) (L := [(1, fun ρ => ρ 1 && ρ 2)])
  objs (.cons ⟨Or.inl rfl, rfl⟩ .nil) assocs t
example : ∃ m' w, profileVec Env.plain x.m ⟨4, false⟩ true = some (m', w) ∧ w.mem.length = 2 + 1 ∧ w.elems = [] := by
  obtain ⟨h, g, hn, d⟩ := c
  obtain rfl : h = ⟨4, false⟩ := by
    have : get x.objs 2 = some ⟨4, false⟩ := by decide +kernel
    rw [this] at g; exact (Option.some.inj g).symm
  obtain ⟨m', w, h1, h2, -⟩ := C71_profile_partial Env.plain_sound reach g hn d true
  exact ⟨m', w, h1, by rw [h2, vars], (C71_profile_violated x.m _ m' w).1 _ h1⟩
example := (C71_pairwise_violated Env.plain_sound reach ids opOr).1

end Cal.Cpp
