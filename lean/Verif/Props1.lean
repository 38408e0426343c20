import Verif.Demo

/-!
# Properties of the API, part 1

The theorems below are about `Reachable` managers: what some history of legal calls (`Session.lean`)
leads to. `Den m h F` says that the handle `h` denotes the Boolean function `F` of assignments; by
`den_iff_eval` (`ApiMisc.lean`) this is the same as saying that walking down from the node of the
handle gives `F ρ` for every assignment `ρ`. `UTab.Live own h` says that the user holds `h`.
`E.Sound` is what is assumed of the parts of the package that are not modelled (`MgrOps.lean`);
`Env.plain_sound` shows that it can be met.
-/

namespace Cal

variable {E : Env} {own : Nat → Nat} {lk : Bool} {m : Mgr}

/-- A call returns a handle that denotes `F`, and all handles held before keep their meaning. -/
def Yields (own : Nat → Nat) (m : Mgr) (out : Option (Mgr × Handle)) (F : BFn) : Prop :=
  ∃ m' r, out = some (m', r) ∧ r ≠ Handle.null ∧ Den m' r F ∧
    ∀ h, UTab.Live own h → ∀ G, Den m h G → Den m' h G

/-- The same, except that with a node limit the call can return null instead; then the overflow flag
is set. -/
def YieldsOrOverflows (own : Nat → Nat) (m : Mgr) (out : Option (Mgr × Handle)) (F : BFn) : Prop :=
  ∃ m' r, out = some (m', r) ∧
    ((r ≠ Handle.null ∧ Den m' r F) ∨ (r = Handle.null ∧ m.nodeLimit ≠ 0 ∧ m'.overflow = true)) ∧
    ∀ h, UTab.Live own h → ∀ G, Den m h G → Den m' h G

theorem Mgr.Res.yields {k out F} (h : Mgr.Res own lk false k m out F) : Yields own m out F := by
  obtain ⟨m', r, h1, p, h2 | ⟨h2, -⟩⟩ := h
  · exact ⟨m', r, h1, h2.1, h2.2.2, p.fns⟩
  · cases h2

theorem Mgr.Res.overflows {nul k out F} (h : Mgr.Res own lk nul k m out F) :
    YieldsOrOverflows own m out F := by
  obtain ⟨m', r, h1, p, h2 | ⟨-, h2, -, h3, h4⟩⟩ := h
  · exact ⟨m', r, h1, Or.inl ⟨h2.1, h2.2.2⟩, p.fns⟩
  · exact ⟨m', r, h1, Or.inr ⟨h2, by rw [← p.nodeLimit]; exact h4, h3⟩, p.fns⟩

/-- Without a node limit there is no overflow. -/
theorem YieldsOrOverflows.noLimit {out F} (h : YieldsOrOverflows own m out F) (h0 : m.nodeLimit = 0) :
    Yields own m out F := by
  obtain ⟨m', r, h1, h2 | ⟨-, h2, -⟩, p⟩ := h
  · exact ⟨m', r, h1, h2.1, h2.2, p⟩
  · exact absurd h0 h2

/-! ## C01 -/

/-- Two handles are equal iff they denote the same function. -/
theorem C01_canonical (S : E.Sound) (R : Reachable E own lk m) {f g : Handle} {F G}
    (hf : Den m f F) (hg : Den m g G) : Mgr.isEqual f g = true ↔ F = G := by
  rw [← Mgr.handle_eq (R.inv S) hf hg]
  simp [Mgr.isEqual]

/-- Every handle the user holds denotes exactly one function. -/
theorem C01_denotes (S : E.Sound) (R : Reachable E own lk m) {f : Handle} (l : UTab.Live own f) :
    ∃ F, Den m f F ∧ ∀ G, Den m f G → G = F := by
  obtain ⟨F, hF⟩ := (R.inv S).den l
  exact ⟨F, hF, fun G hG => (R.inv S).den_unique hG hF⟩

/-- `Cal_BddOne` and `Cal_BddZero` are the only handles of the constants. -/
theorem C01_constants (S : E.Sound) (R : Reachable E own lk m) {f : Handle} {F} (hf : Den m f F) :
    (Mgr.isOne f = true ↔ F = fun _ => true) ∧ (Mgr.isZero f = true ↔ F = fun _ => false) ∧
    (Mgr.isConst f = true ↔ F = (fun _ => true) ∨ F = fun _ => false) := by
  have h1 := Mgr.handle_eq (R.inv S) hf (Mgr.const_den (R.inv S) false)
  have h2 := Mgr.handle_eq (R.inv S) hf (Mgr.const_den (R.inv S) true)
  refine ⟨?_, ?_, ?_⟩
  · simpa [Mgr.isOne, Mgr.oneH] using h1
  · simpa [Mgr.isZero, Mgr.zeroH] using h2
  · simp only [Mgr.isConst, Mgr.oneH, Mgr.zeroH, Bool.or_eq_true, beq_iff_eq]
    rw [h1, h2]; simp

example : Mgr.isEqual ⟨2, false⟩ ⟨3, false⟩ = true ↔ (fun ρ : Asg => ρ 1) = fun ρ => ρ 2 :=
  C01_canonical Env.plain_sound Demo.reach Demo.den2 Demo.den3

/-- computing `a ∧ b` twice, in either order, and as `¬(¬a ∨ ¬b)`, gives the same handle -/
example : Demo.results [.newVarLast, .newVarLast, .and ⟨2, false⟩ ⟨3, false⟩, .and ⟨3, false⟩ ⟨2, false⟩,
    .nor ⟨2, true⟩ ⟨3, true⟩] = some [.handle ⟨4, false⟩, .handle ⟨4, false⟩, .handle ⟨4, false⟩,
      .handle ⟨3, false⟩, .handle ⟨2, false⟩] := by decide +kernel

/-! ## C02 -/

theorem C02_and (S : E.Sound) (R : Reachable E own lk m) {f g F G} (lf : UTab.Live own f)
    (lg : UTab.Live own g) (hf : Den m f F) (hg : Den m g G) :
    YieldsOrOverflows own m (m.and E f g) (fun ρ => F ρ && G ρ) :=
  (Mgr.op2_ok S (R.inv S) opAnd_law lf lg hf hg).overflows

theorem C02_nand (S : E.Sound) (R : Reachable E own lk m) {f g F G} (lf : UTab.Live own f)
    (lg : UTab.Live own g) (hf : Den m f F) (hg : Den m g G) :
    YieldsOrOverflows own m (m.nand E f g) (fun ρ => !(F ρ && G ρ)) :=
  (Mgr.op2_ok S (R.inv S) opNand_law lf lg hf hg).overflows

theorem C02_or (S : E.Sound) (R : Reachable E own lk m) {f g F G} (lf : UTab.Live own f)
    (lg : UTab.Live own g) (hf : Den m f F) (hg : Den m g G) :
    YieldsOrOverflows own m (m.or E f g) (fun ρ => F ρ || G ρ) :=
  (Mgr.op2_ok S (R.inv S) opOr_law lf lg hf hg).overflows

theorem C02_nor (S : E.Sound) (R : Reachable E own lk m) {f g F G} (lf : UTab.Live own f)
    (lg : UTab.Live own g) (hf : Den m f F) (hg : Den m g G) :
    YieldsOrOverflows own m (m.nor E f g) (fun ρ => !(F ρ || G ρ)) :=
  (Mgr.op2neg_ok S (R.inv S) opOr_law lf lg hf hg).overflows

theorem C02_xor (S : E.Sound) (R : Reachable E own lk m) {f g F G} (lf : UTab.Live own f)
    (lg : UTab.Live own g) (hf : Den m f F) (hg : Den m g G) :
    YieldsOrOverflows own m (m.xor E f g) (fun ρ => F ρ != G ρ) := by
  have := (Mgr.op2_ok S (R.inv S) opXor_law lf lg hf hg).overflows
  have he : (fun ρ => Bool.xor (F ρ) (G ρ)) = fun ρ => F ρ != G ρ := by
    funext ρ; cases F ρ <;> cases G ρ <;> rfl
  rw [he] at this
  exact this

theorem C02_xnor (S : E.Sound) (R : Reachable E own lk m) {f g F G} (lf : UTab.Live own f)
    (lg : UTab.Live own g) (hf : Den m f F) (hg : Den m g G) :
    YieldsOrOverflows own m (m.xnor E f g) (fun ρ => F ρ == G ρ) := by
  have := (Mgr.op2neg_ok S (R.inv S) opXor_law lf lg hf hg).overflows
  have he : (fun ρ => !Bool.xor (F ρ) (G ρ)) = fun ρ => F ρ == G ρ := by
    funext ρ; cases F ρ <;> cases G ρ <;> rfl
  rw [he] at this
  exact this

/-- A null argument gives a null result and changes nothing. -/
theorem C02_null (S : E.Sound) (R : Reachable E own lk m) {f g} (hf : OArg own f) (hg : OArg own g)
    (h : f = Handle.null ∨ g = Handle.null) :
    m.and E f g = some (m, Handle.null) ∧ m.nand E f g = some (m, Handle.null) ∧
    m.or E f g = some (m, Handle.null) ∧ m.nor E f g = some (m, Handle.null) ∧
    m.xor E f g = some (m, Handle.null) ∧ m.xnor E f g = some (m, Handle.null) := by
  have args : ∀ x ∈ [f, g], x = Handle.null ∨ UTab.Live own x := by
    intro x hx
    simp only [List.mem_cons, List.not_mem_nil, or_false] at hx
    rcases hx with rfl | rfl
    · exact hf
    · exact hg
  have hn : Handle.null ∈ [f, g] := by rcases h with h | h <;> simp [h]
  exact ⟨Mgr.api_null (R.inv S) args hn, Mgr.api_null (R.inv S) args hn,
    Mgr.api_null (R.inv S) args hn, Mgr.api_null (R.inv S) args hn,
    Mgr.api_null (R.inv S) args hn, Mgr.api_null (R.inv S) args hn⟩

example : YieldsOrOverflows Demo.sess.own Demo.sess.m (Demo.sess.m.xor Env.plain ⟨5, false⟩ ⟨6, false⟩)
    (fun ρ => (ρ 1 && ρ 2) != (ρ 1 && ρ 2 || ρ 3)) :=
  C02_xor Env.plain_sound Demo.reach Demo.live5 Demo.live6 Demo.den5 Demo.den6

/-! ## C03 -/

theorem C03_ite (S : E.Sound) (R : Reachable E own lk m) {f g h F G H} (lf : UTab.Live own f)
    (lg : UTab.Live own g) (lh : UTab.Live own h) (hf : Den m f F) (hg : Den m g G)
    (hh : Den m h H) :
    YieldsOrOverflows own m (m.ite E f g h) (fun ρ => (F ρ && G ρ) || (!F ρ && H ρ)) := by
  have := (Mgr.ite_ok S (R.inv S) lf lg lh hf hg hh).overflows
  have he : (fun ρ => if F ρ then G ρ else H ρ) = fun ρ => (F ρ && G ρ) || (!F ρ && H ρ) := by
    funext ρ; cases F ρ <;> simp
  rw [he] at this
  exact this

example : YieldsOrOverflows Demo.sess.own Demo.sess.m
    (Demo.sess.m.ite Env.plain ⟨4, false⟩ ⟨5, false⟩ ⟨6, false⟩)
    (fun ρ => (ρ 3 && (ρ 1 && ρ 2)) || (!ρ 3 && (ρ 1 && ρ 2 || ρ 3))) :=
  C03_ite Env.plain_sound Demo.reach Demo.live4 Demo.live5 Demo.live6 Demo.den4 Demo.den5 Demo.den6

/-! ## C04 -/

theorem C04_multiwayAnd (S : E.Sound) (R : Reachable E own lk m) {hs : List Handle} {Fs : List BFn}
    (hl : ∀ h ∈ hs, UTab.Live own h) (hd : F2 (Den m) hs Fs) (h1 : hs ≠ []) (h2 : hs.length ≤ 1024) :
    Yields own m (m.multiway E opAnd hs) (fun ρ => Fs.all fun F => F ρ) := by
  have := (Mgr.multiway_ok S (R.inv S) opAnd_law Mgr.and_mon hl hd h1 h2).yields
  have he : big (· && ·) true Fs = fun ρ => Fs.all fun F => F ρ := by
    funext ρ
    induction Fs generalizing hs with
    | nil => rfl
    | cons F Fs ih =>
      clear this
      simp only [big, List.all_cons]
      congr 1
      clear ih h1 h2 hd hl
      induction Fs with
      | nil => rfl
      | cons G Fs ih => simp only [big, List.all_cons, ih]
  rw [he] at this
  exact this

theorem C04_multiwayOr (S : E.Sound) (R : Reachable E own lk m) {hs : List Handle} {Fs : List BFn}
    (hl : ∀ h ∈ hs, UTab.Live own h) (hd : F2 (Den m) hs Fs) (h1 : hs ≠ []) (h2 : hs.length ≤ 1024) :
    Yields own m (m.multiway E opOr hs) (fun ρ => Fs.any fun F => F ρ) := by
  have := (Mgr.multiway_ok S (R.inv S) opOr_law Mgr.or_mon hl hd h1 h2).yields
  have he : big (· || ·) false Fs = fun ρ => Fs.any fun F => F ρ := by
    funext ρ
    clear this hd
    induction Fs with
    | nil => rfl
    | cons G Fs ih => simp only [big, List.any_cons, ih]
  rw [he] at this
  exact this

/-- The exclusive or of all: whether the number of true ones is odd. -/
theorem C04_multiwayXor (S : E.Sound) (R : Reachable E own lk m) {hs : List Handle} {Fs : List BFn}
    (hl : ∀ h ∈ hs, UTab.Live own h) (hd : F2 (Den m) hs Fs) (h1 : hs ≠ []) (h2 : hs.length ≤ 1024) :
    Yields own m (m.multiway E opXor hs) (fun ρ => (Fs.countP fun F => F ρ) % 2 == 1) := by
  have := (Mgr.multiway_ok S (R.inv S) opXor_law Mgr.xor_mon hl hd h1 h2).yields
  have he : big Bool.xor false Fs = fun ρ => (Fs.countP fun F => F ρ) % 2 == 1 := by
    funext ρ
    clear this hd
    induction Fs with
    | nil => rfl
    | cons G Fs ih =>
      simp only [big, List.countP_cons, ih]
      rw [Bool.eq_iff_iff]
      have := Nat.mod_two_eq_zero_or_one (Fs.countP fun F => F ρ)
      cases hG : G ρ with
      | true =>
        simp only [if_true, Bool.true_xor, Bool.not_eq_true', beq_eq_false_iff_ne, beq_iff_eq]
        omega
      | false => simp
  rw [he] at this
  exact this

example : Yields Demo.sess.own Demo.sess.m
    (Demo.sess.m.multiway Env.plain opXor [⟨2, false⟩, ⟨4, false⟩, ⟨5, false⟩])
    (fun ρ => ([fun ρ => ρ 1, fun ρ => ρ 3, fun ρ => ρ 1 && ρ 2].countP fun F : BFn => F ρ) % 2 == 1) :=
  C04_multiwayXor Env.plain_sound Demo.reach
    (by simp only [List.mem_cons, List.not_mem_nil, or_false]
        rintro h (rfl | rfl | rfl)
        · exact Demo.live2
        · exact Demo.live4
        · exact Demo.live5)
    (.cons Demo.den2 (.cons Demo.den4 (.cons Demo.den5 .nil))) (by simp) (by simp)

/-! ## C06 -/

/-- Complement: the result is the handle with the complement bit flipped; the store, the cache and
the user nodes' contents do not change at all. -/
theorem C06_not (S : E.Sound) (R : Reachable E own lk m) {f F} (lf : UTab.Live own f)
    (hf : Den m f F) :
    Yields own m (m.not f) (fun ρ => !F ρ) ∧
    ∃ m', m.not f = some (m', ⟨f.addr, !f.neg⟩) ∧ m'.st = m.st ∧ m'.ca = m.ca ∧
      m'.ut.heap = m.ut.heap := by
  refine ⟨(Mgr.not_ok (R.inv S) lf hf).yields, ?_⟩
  obtain ⟨e, he, -⟩ := hf
  refine ⟨{ m with ut := m.ut.icr f.addr }, ?_, rfl, rfl, rfl⟩
  simp only [Mgr.not, Mgr.unFree, he, Option.map_some]

/-- Complementing twice gives the handle back. -/
theorem C06_not_not (S : E.Sound) (R : Reachable E own lk m) {f} (lf : UTab.Live own f) :
    ∃ m1 g m2, m.not f = some (m1, g) ∧ m1.not g = some (m2, f) ∧ g ≠ f := by
  obtain ⟨F, hF⟩ := (R.inv S).den lf
  obtain ⟨-, m1, h1, -, -, hh⟩ := C06_not S R lf hF
  obtain ⟨e, he, -⟩ := hF
  refine ⟨m1, ⟨f.addr, !f.neg⟩, { m1 with ut := m1.ut.icr f.addr }, h1, ?_, ?_⟩
  · simp only [Mgr.not, Mgr.unFree, hh, he, Option.map_some, Bool.not_not]
  · intro h
    have := congrArg Ptr.neg h
    simp at this

theorem C06_identity (S : E.Sound) (R : Reachable E own lk m) {f F} (lf : UTab.Live own f)
    (hf : Den m f F) : Yields own m (m.identity f) F ∧ ∃ m', m.identity f = some (m', f) := by
  refine ⟨(Mgr.identity_ok (R.inv S) lf hf).yields, ?_⟩
  obtain ⟨e, he, -⟩ := hf
  exact ⟨{ m with ut := m.ut.icr f.addr }, by simp only [Mgr.identity, Mgr.unFree, he, Option.map_some]⟩

/-- The regular form denotes the function or its complement, and is the same for both. -/
theorem C06_regular {f F} (hf : Den m f F) :
    (Den m (Mgr.regular f) F ∨ Den m (Mgr.regular f) (fun ρ => !F ρ)) ∧
    Mgr.regular ⟨f.addr, !f.neg⟩ = Mgr.regular f := by
  refine ⟨?_, rfl⟩
  obtain ⟨e, he, r⟩ := hf
  cases hn : f.neg with
  | false => exact Or.inl ⟨e, he, by rw [hn] at r; exact r⟩
  | true =>
    refine Or.inr ⟨e, he, ?_⟩
    rw [hn] at r
    have := r.not
    simpa [Edge.phase, Edge.not, Mgr.regular] using this

example : Yields Demo.sess.own Demo.sess.m (Demo.sess.m.not ⟨5, false⟩) (fun ρ => !(ρ 1 && ρ 2)) :=
  (C06_not Env.plain_sound Demo.reach Demo.live5 Demo.den5).1

/-! ## C07 -/

theorem Mgr.shannon_ok (S : E.Sound) (i : m.Inv own lk) {f F} (lf : UTab.Live own f)
    (hf : Den m f F) (hc : Mgr.NonConst F) :
    ∃ v, Yields own m (m.if_ E f) (fun ρ => ρ v) ∧
      Yields own m (m.then_ E f) (fun ρ => F (upd ρ v true)) ∧
      Yields own m (m.else_ E f) (fun ρ => F (upd ρ v false)) ∧ ¬ Indep F v ∧
      ∀ m' r, m.if_ E f = some (m', r) → TopVar m'.st.ord F v := by
  obtain ⟨m1, h1, i1, p1⟩ := Mgr.preProc_ok S i (Mgr.forall1 lf)
  obtain ⟨e, he, r⟩ := p1.fns f lf F hf
  have hid := Mgr.nonConst_id i1.wf r hc
  have tv := r.topVar i1.wf hid
  obtain ⟨t, u, hk, rt, ru, -, -, -⟩ := r.kids i1.wf hid
  have ⟨Γ, leak, hl, ii⟩ := i1
  obtain ⟨d, hd, rd⟩ := Mgr.var_rep ii tv.rng.1 tv.rng.2
  have hif : m.if_ E f = some (m1.external d) := by
    simp only [Mgr.if_, Mgr.api, h1, Mgr.internals, Mgr.internal, he, Option.map_some, hd, Mgr.extern]
  refine ⟨_, ?_, ?_, ?_, tv.dep, fun m' r' h' => ?_⟩
  · have := (Mgr.Res.pre p1 (Mgr.extern_ok i1 rd)).yields
    rw [hif]; exact this
  · have := (Mgr.Res.pre p1 (Mgr.extern_ok i1 rt)).yields
    simp only [Mgr.then_, Mgr.api, h1, Mgr.internals, Mgr.internal, he, Option.map_some, hk]
    exact this
  · have := (Mgr.Res.pre p1 (Mgr.extern_ok i1 ru)).yields
    simp only [Mgr.else_, Mgr.api, h1, Mgr.internals, Mgr.internal, he, Option.map_some, hk]
    exact this
  · obtain ⟨-, -, -, -, hs⟩ := ii.external rd.eok
    rw [hif] at h'
    simp only [Option.some.injEq] at h'
    rw [h'] at hs
    rw [hs.ord]; exact tv

/-- `f` is `if v then Then f else Else f`, where `v` is what `Cal_BddIf` returns; `f` depends on `v`,
`Then f` and `Else f` do not, and `v` is the first variable that `f` depends on in the order of the
variables after the call (a call can reorder them). -/
theorem C07_shannon (S : E.Sound) (R : Reachable E own lk m) {f F} (lf : UTab.Live own f)
    (hf : Den m f F) (hc : ∀ b, F ≠ fun _ => b) :
    ∃ v T L, Yields own m (m.if_ E f) (fun ρ => ρ v) ∧ Yields own m (m.then_ E f) T ∧
      Yields own m (m.else_ E f) L ∧ (∀ ρ, F ρ = if ρ v then T ρ else L ρ) ∧
      ¬ Indep F v ∧ Indep T v ∧ Indep L v ∧
      ∀ m' r, m.if_ E f = some (m', r) → TopVar m'.st.ord F v := by
  have hn : Mgr.NonConst F := ⟨hc true, hc false⟩
  obtain ⟨v, h1, h2, h3, h4, h5⟩ := Mgr.shannon_ok S (R.inv S) lf hf hn
  refine ⟨v, _, _, h1, h2, h3, fun ρ => ?_, h4, ?_, ?_, h5⟩
  · cases hv : ρ v
    · simp only [Bool.false_eq_true, if_false]
      congr 1
      funext x
      by_cases h : x = v
      · rw [h, upd_same, hv]
      · rw [upd_ne _ _ h]
    · simp only [if_true]
      congr 1
      funext x
      by_cases h : x = v
      · rw [h, upd_same, hv]
      · rw [upd_ne _ _ h]
  all_goals
    intro ρ b
    simp only [upd_upd]

theorem Demo.nonconst6 : ∀ b, (fun ρ : Asg => ρ 1 && ρ 2 || ρ 3) ≠ fun _ => b := by
  intro b h
  have h1 := congrFun h fun _ => true
  have h2 := congrFun h fun _ => false
  simp at h1 h2
  rw [h1] at h2; cases h2

/-- hypotheses: `(a ∧ b) ∨ c` is not constant; its parts are `a`, `b ∨ c` and `c` -/
example := C07_shannon Env.plain_sound Demo.reach Demo.live6 Demo.den6 Demo.nonconst6
example : Demo.results (Demo.script ++ [.if_ ⟨6, false⟩, .else_ ⟨6, false⟩, .or ⟨3, false⟩ ⟨4, false⟩,
      .then_ ⟨6, false⟩]) =
    some ([.handle ⟨7, false⟩, .handle ⟨7, false⟩, .handle ⟨4, false⟩, .handle ⟨2, false⟩]
      ++ Demo.sess.rets) := by decide +kernel

/-! ## C08 -/

/-- Any legal call goes through (the model has no undefined behaviour there), and every handle the
user held before and still holds denotes the same function afterwards. -/
theorem C08_frame (S : E.Sound) (R : Reachable E own lk m) (c : Call) (l : c.Legal own m) :
    ∃ m' ret, c.run E m = some (m', ret) ∧
      ∀ h, UTab.Live own h → UTab.Live (c.own own ret) h → ∀ F, Den m h F → Den m' h F := by
  obtain ⟨m', ret, h1, -, h2, -⟩ := call_ok E S (R.inv S) c l
  exact ⟨m', ret, h1, h2⟩

/-- The store is reduced and ordered. -/
structure ReducedOrdered (s : Store) : Prop where
  /-- no two nodes are the same -/
  unique : ∀ a b n, s.heap a = some n → s.heap b = some n → a = b
  /-- no node is redundant -/
  reduced : ∀ a n, s.heap a = some n → n.thn ≠ n.els
  /-- then-edges are not complemented -/
  regular : ∀ a n, s.heap a = some n → n.thn.neg = false
  /-- children are constants or existing nodes, of variables further down in the order -/
  thn : ∀ a n, s.heap a = some n → n.thn.id = 0 ∧ n.thn.addr = 0 ∨
    ∃ k, s.heap n.thn.addr = some k ∧ k.var = n.thn.id ∧ s.ord.idToIndex n.var < s.ord.idToIndex k.var
  els : ∀ a n, s.heap a = some n → n.els.id = 0 ∧ n.els.addr = 0 ∨
    ∃ k, s.heap n.els.addr = some k ∧ k.var = n.els.id ∧ s.ord.idToIndex n.var < s.ord.idToIndex k.var

theorem C08_reduced (S : E.Sound) (R : Reachable E own lk m) : ReducedOrdered m.st := by
  have w := (R.inv S).wf
  have aux : ∀ (n : Node) (e : Edge) a, m.st.heap a = some n → m.st.EOK e →
      m.st.ord.lvl n.var < m.st.ord.lvl e.id → e.id = 0 ∧ e.addr = 0 ∨
      ∃ k, m.st.heap e.addr = some k ∧ k.var = e.id ∧
        m.st.ord.idToIndex n.var < m.st.ord.idToIndex k.var := by
    intro n e a hn he hl
    rcases he with he | ⟨k, hk, hv⟩
    · exact Or.inl he
    · refine Or.inr ⟨k, hk, hv, ?_⟩
      have h1 := w.var_range _ _ hn
      have h2 := w.var_range _ _ hk
      rw [← hv, Order.lvl, Order.lvl, if_neg (by omega), if_neg (by omega)] at hl
      exact hl
  exact ⟨fun a b n h1 h2 => w.unique a b n h1 h2, fun a n h => w.reduced a n h,
    fun a n h => w.thn_pos a n h,
    fun a n h => aux n _ a h (w.thn_ok a n h) (w.thn_lt a n h),
    fun a n h => aux n _ a h (w.els_ok a n h) (w.els_lt a n h)⟩

/-- a legal call: garbage collection -/
example := C08_frame Env.plain_sound Demo.reach .gc trivial
/-- the store of the example holds more than the variables -/
example : Demo.sess.m.st.numNodes = 7 := by decide +kernel
example := C08_reduced Env.plain_sound Demo.reach

/-! ## C56 -/

/-- The managers that a history of legal calls leads to from `m`, during which the user keeps at
least one reference to `h`. -/
inductive Later (E : Env) (h : Handle) : (Nat → Nat) → Mgr → (Nat → Nat) → Mgr → Prop
  | refl (own : Nat → Nat) (m : Mgr) : Later E h own m own m
  | call {own m own1 m1 m2 ret} (c : Call) (r : Later E h own m own1 m1) (l : c.Legal own1 m1)
      (hr : c.run E m1 = some (m2, ret)) (hl : UTab.Live (c.own own1 ret) h) :
      Later E h own m (c.own own1 ret) m2
  | pipeline {own m own1 m1 m2 p p' out} (op : PipeOp) (cs : List (POperand × POperand))
      (us : List (Nat × Bool)) (r : Later E h own m own1 m1) (hp : p.Idle) (l : PipeLegal own1 op cs us)
      (hr : Cal.pipeline E m1 p op cs us = some (m2, p', out)) :
      Later E h own m (pipelineOwn own1 out) m2

/-- A handle denotes the same function for as long as the user holds it, whatever is called. -/
theorem C56_history (S : E.Sound) (R : Reachable E own lk m) {h F} (l : UTab.Live own h)
    (hF : Den m h F) {own' m'} (L : Later E h own m own' m') : Den m' h F := by
  suffices (∃ lk', Reachable E own' lk' m') ∧ UTab.Live own' h ∧ Den m' h F from this.2.2
  induction L with
  | refl => exact ⟨⟨lk, R⟩, l, hF⟩
  | call c r lg hr hl ih =>
    obtain ⟨⟨lk1, R1⟩, l1, d1⟩ := ih
    refine ⟨⟨_, R1.call c lg hr⟩, hl, ?_⟩
    obtain ⟨m3, ret3, h1, -, h2, -⟩ := call_ok E S (R1.inv S) c lg
    rw [hr] at h1; cases h1
    exact h2 h l1 hl F d1
  | pipeline op cs us r hp lg hr ih =>
    obtain ⟨⟨lk1, R1⟩, l1, d1⟩ := ih
    refine ⟨⟨_, R1.pipeline op cs us hp lg hr⟩, live_pipelineOwn l1, ?_⟩
    obtain ⟨Fs, d⟩ := (R1.inv S).oneByOne lg
    obtain ⟨m3, p3, out3, h1, -, h2, -⟩ := pipeline_ok S (R1.inv S) hp lg d
    rw [hr] at h1; cases h1
    exact h2.fns h l1 F d1

theorem Demo.live_free {own : Nat → Nat} {f g : Handle} (h : f.addr ≠ g.addr) (l : UTab.Live own g) {r} :
    UTab.Live ((Call.free f).own own r) g := by
  show UTab.Live (if f.addr = 1 then own else upd own f.addr (own f.addr - 1)) g
  split
  · exact l
  · exact l.imp id fun h' => by rw [upd_ne _ _ (Ne.symm h)]; exact h'

/-- a history: drop `(a ∧ b) ∨ c`, collect garbage; the handle of `a ∧ b` stays what it was -/
example : ∃ own' m', Later Env.plain ⟨5, false⟩ Demo.sess.own Demo.sess.m own' m' ∧
    Den m' ⟨5, false⟩ (fun ρ => ρ 1 && ρ 2) := by
  obtain ⟨m1, r1, h1, -⟩ := C08_frame Env.plain_sound Demo.reach (.free ⟨6, false⟩) Demo.live6
  have hl : UTab.Live ((Call.free ⟨6, false⟩).own Demo.sess.own r1) ⟨5, false⟩ :=
    Demo.live_free (by decide) Demo.live5
  have L := Later.call (.free ⟨6, false⟩) (.refl Demo.sess.own Demo.sess.m) Demo.live6 h1 hl
  have R := Demo.reach.call (.free ⟨6, false⟩) Demo.live6 h1
  obtain ⟨m2, r2, h2, -⟩ := C08_frame Env.plain_sound R .gc trivial
  have hr : r2 = .unit := by
    simp only [Call.run] at h2
    cases hg : m1.gc with
    | none => rw [hg] at h2; cases h2
    | some x => rw [hg] at h2; cases h2; rfl
  subst hr
  have L2 := Later.call .gc L trivial h2 hl
  exact ⟨_, _, L2, C56_history Env.plain_sound Demo.reach Demo.live5 Demo.den5 L2⟩

end Cal
