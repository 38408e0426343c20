import Verif.Demo

/-!
# Properties, part 12: BDD files
-/

namespace Cal

/-- The handles of an array are the variables `xs`, in this order. -/
def AreVars (m : Mgr) (vs : List Handle) (xs : List Nat) : Prop :=
  F2 (fun h x => Den m h fun ρ => ρ x) vs xs

/-! ## C37: dumping and reading back -/

/-- `Cal_BddDumpBdd` writes a file exactly if the array consists of distinct variables among which are
all that the function depends on. The call never fails in any other way, and the user's BDDs stay what
they are. -/
theorem C37_dump_writes {E own lk m} (S : E.Sound) (R : Reachable E own lk m) {f : Handle} {F : BFn}
    (lf : UTab.Live own f) (hf : Den m f F) {vs : List Handle} (lv : ∀ v ∈ vs, UTab.Live own v) :
    ∃ m' own' sup out, m.dump E f vs = some (m', sup, out) ∧ Reachable E own' lk m' ∧ Keeps own own' m m' ∧
      (∀ h, UTab.Live own h → UTab.Live own' h) ∧
      (out ≠ none ↔ ∃ xs, AreVars m vs xs ∧ xs.Nodup ∧ ∀ x, ¬ Indep F x → x ∈ xs) := by
  obtain ⟨m', sup, o, h1, h2, h3, h4, -⟩ := Mgr.dump_ok S (R.inv S) lf hf lv
  have hr : (Call.dump f vs).run E m = some (m', .dumped sup o) := by simp only [Call.run, h1]; rfl
  have := Reachable.call (Call.dump f vs) R ⟨Or.inr lf, lv⟩ hr
  simp only [Call.leaks, Bool.or_false] at this
  exact ⟨m', _, sup, o, h1, this, fun h l _ F d => h3.fns h l F d, fun h l => Mgr.bump_live l sup, h4⟩

/-- The round trip. The file written for `F` over the distinct variables `xs` (which include all that `F`
depends on) can be read in any reachable manager (the same one later, or another), over any variables `ys`,
as many as there are in `xs`: reading reports no error and gives a BDD of the function got from `F` by
renaming `xs[j]` to `ys[j]` for all `j`. What follows in the stream does not matter. The assumptions on
sizes: the manager that wrote the file has at most `2 ^ 32` nodes, and the one that reads it can allocate 16
bytes for each of them. -/
theorem C37_roundtrip {E own lk m} (S : E.Sound) (R : Reachable E own lk m) {f : Handle} {F : BFn}
    (lf : UTab.Live own f) (hf : Den m f F) {vs : List Handle} (lv : ∀ v ∈ vs, UTab.Live own v)
    {xs : List Nat} (hv : AreVars m vs xs) (hn : xs.Nodup) (hs : ∀ x, ¬ Indep F x → x ∈ xs) :
    ∃ m' sup file, m.dump E f vs = some (m', sup, some file) ∧ (∀ c ∈ file, c < 256) ∧
      (m'.st.numNodes ≤ 2 ^ 32 →
        ∀ (E₂ : Env) (own₂ : Nat → Nat) (lk₂ : Bool) (m₂ : Mgr), E₂.Sound → Reachable E₂ own₂ lk₂ m₂ →
        ∀ (ws : List Handle) (ys : List Nat), (∀ w ∈ ws, UTab.Live own₂ w) → AreVars m₂ ws ys →
        ws.length = vs.length →
        ∀ (rest : List Nat) (mem : Nat) (fin : Dump.Err), 16 * m'.st.numNodes ≤ mem →
        ∃ m₃ g G, m₂.undump E₂ mem ws (file ++ rest) fin = some (m₃, none, g) ∧
          Reachable E₂ (bump own₂ g.addr) lk₂ m₃ ∧ Keeps own₂ (bump own₂ g.addr) m₂ m₃ ∧ Den m₃ g G ∧
          ∀ ρ σ : Nat → Bool, (∀ (j x y : Nat), xs[j]? = some x → ys[j]? = some y → σ x = ρ y) → G ρ = F σ) := by
  obtain ⟨m', sup, o, h1, h2, h3, h4, h5⟩ := Mgr.dump_ok S (R.inv S) lf hf lv
  cases o with
  | none => exact absurd rfl (h4.2 ⟨xs, hv, hn, hs⟩)
  | some file =>
    obtain ⟨hb, h6⟩ := h5 file rfl
    refine ⟨m', sup, file, h1, hb, ?_⟩
    intro hN E₂ own₂ lk₂ m₂ S₂ R₂ ws ys lw hw hlen rest mem fin hm
    have e1 := Dump.F2.length_eq hv
    have e2 := Dump.F2.length_eq hw
    have hxy : ∀ zs : List Nat, zs.length = ws.length → zs.length = xs.length := fun zs h => by omega
    obtain ⟨G, hG, hu⟩ := h6 xs hv ys (by omega) hN
    have hu := hu rest mem fin hm
    have hyx : xs.length = ys.length := by omega
    rw [hyx] at hu
    obtain ⟨-, h7⟩ := Mgr.undump_ok S₂ (R₂.inv S₂) lw mem (file ++ rest) fin
    rcases h7 ys hw with ⟨h8, -⟩ | ⟨m₃, x, Q, h8, -⟩ | ⟨m₃, g, G', h8, h9, hnn, i3, p3, d3⟩
    · rw [hu] at h8; cases h8
    · rw [hu] at h8; cases h8
    · rw [hu] at h8
      cases h8
      have hr : (Call.undump mem ws (file ++ rest) fin).run E₂ m₂ = some (m₃, .undumped none g) := by
        simp only [Call.run, h9]; rfl
      have hl : (Call.undump mem ws (file ++ rest) fin).Legal own₂ m₂ := by
        refine ⟨lw, fun zs hz => ?_⟩
        obtain ⟨G₂, -, hu₂⟩ := h6 xs hv zs (by omega) hN
        have := hu₂ rest mem fin hm
        rw [← hxy zs hz] at this
        rw [this]; exact fun h => nomatch h
      have := Reachable.call _ R₂ hl hr
      simp only [Call.leaks, Bool.or_false, Call.own, if_neg hnn] at this
      exact ⟨m₃, g, G, h9, this, fun h l _ F d => p3.fns h l F d, d3, hG⟩

/-- Read back with the same variables in a later state of the same manager (one in which the handle still
stands for the function), the result is the same handle. -/
theorem C37_same_bdd {E own lk m} (S : E.Sound) (R : Reachable E own lk m) {f : Handle} {F : BFn}
    (lf : UTab.Live own f) (hf : Den m f F) {vs : List Handle} (lv : ∀ v ∈ vs, UTab.Live own v)
    {xs : List Nat} (hv : AreVars m vs xs) (hn : xs.Nodup) (hs : ∀ x, ¬ Indep F x → x ∈ xs) :
    ∃ m' sup file, m.dump E f vs = some (m', sup, some file) ∧
      (m'.st.numNodes ≤ 2 ^ 32 →
        ∀ own₂ lk₂ m₂, Reachable E own₂ lk₂ m₂ → UTab.Live own₂ f → (∀ v ∈ vs, UTab.Live own₂ v) →
        Den m₂ f F → AreVars m₂ vs xs → ∀ mem fin, 16 * m'.st.numNodes ≤ mem →
        ∃ m₃, m₂.undump E mem vs file fin = some (m₃, none, f)) := by
  obtain ⟨m', sup, file, h1, -, h2⟩ := C37_roundtrip S R lf hf lv hv hn hs
  refine ⟨m', sup, file, h1, fun hN own₂ lk₂ m₂ R₂ lf₂ lv₂ hf₂ hv₂ mem fin hm => ?_⟩
  obtain ⟨m₃, g, G, h3, R₃, K, d, hG⟩ := h2 hN E own₂ lk₂ m₂ S R₂ vs xs lv₂ hv₂ rfl [] mem fin hm
  rw [List.append_nil] at h3
  have hGF : G = F := funext fun ρ => hG ρ ρ fun j x y hx hy => by
    rw [hx] at hy; cases hy; rfl
  have lf₃ : UTab.Live (bump own₂ g.addr) f :=
    live_bump lf₂
  have := (Mgr.handle_eq (R₃.inv S) d (K f lf₂ lf₃ F hf₂)).2 hGF
  exact ⟨m₃, by rw [h3, this]⟩

namespace Demo

theorem live234 : ∀ v ∈ [(⟨2, false⟩ : Handle), ⟨3, false⟩, ⟨4, false⟩], UTab.Live sess.own v := by
  intro v hv
  simp only [List.mem_cons, List.not_mem_nil, or_false] at hv
  rcases hv with rfl | rfl | rfl
  · exact live2
  · exact live3
  · exact live4

theorem vars234 : AreVars sess.m [⟨2, false⟩, ⟨3, false⟩, ⟨4, false⟩] [1, 2, 3] :=
  .cons den2 (.cons den3 (.cons den4 .nil))

theorem dep6 : ∀ x, ¬ Indep (fun ρ : Nat → Bool => ρ 1 && ρ 2 || ρ 3) x → x ∈ [1, 2, 3] := by
  intro x h
  apply Classical.byContradiction
  intro hx
  simp only [List.mem_cons, List.not_mem_nil, or_false, not_or] at hx
  obtain ⟨h1, h2, h3⟩ := hx
  refine h fun ρ b => ?_
  simp only [upd_ne ρ b (Ne.symm h1), upd_ne ρ b (Ne.symm h2), upd_ne ρ b (Ne.symm h3)]

end Demo

/-- `(a ∧ b) ∨ c` over `a`, `b`, `c` -/
example := C37_roundtrip Env.plain_sound Demo.reach Demo.live6 Demo.den6 Demo.live234 Demo.vars234 (by decide)
  Demo.dep6
example := C37_same_bdd Env.plain_sound Demo.reach Demo.live6 Demo.den6 Demo.live234 Demo.vars234 (by decide)
  Demo.dep6

/-- the file of `a ⊕ (b ∧ c)`, which has a shared node, and what reading it gives over the variables in the
other order: `c ⊕ (b ∧ a)`, handle 9 -/
def Demo.file8 : List Nat :=
  [0, 0, 0, 0, 94, 2, 247, 149, 0, 3, 0, 0, 0, 0, 0, 0, 0, 1, 0, 255, 6, 1, 255, 3, 2, 255, 0, 255, 5, 0]

example : (Demo.results (Demo.script ++ [.and ⟨3, false⟩ ⟨4, false⟩, .xor ⟨2, false⟩ ⟨7, false⟩,
    .xor ⟨4, false⟩ ⟨5, false⟩, .dump ⟨8, true⟩ [⟨2, false⟩, ⟨3, false⟩, ⟨4, false⟩],
    .undump 1000 [⟨4, false⟩, ⟨3, false⟩, ⟨2, false⟩] Demo.file8 .eof])).map (·.take 2) =
    some [.undumped none ⟨9, true⟩, .dumped [⟨2, false⟩, ⟨3, false⟩, ⟨4, false⟩] (some Demo.file8)] := by
  decide +kernel

/-! ## C38: reading any bytes -/

/-- The number of shared nodes that a file claims to have: bytes 10 to 17, the highest first. -/
def claimedShared (file : List Nat) : Nat := ((file.drop 10).take 8).foldl (fun n c => n * 256 + c) 0

/-- Files exist on which the behaviour is undefined, however much memory there is (`2 ^ 63` bytes): one that
claims to have no shared nodes and then labels one, which is written behind the table, and one that claims to
have `2 ^ 62` of them, the size of whose table overflows. -/
theorem C38_violated : ∃ (own : Nat → Nat) (lk : Bool) (m : Mgr) (v : Handle) (file₁ file₂ : List Nat),
    Reachable Env.plain own lk m ∧ UTab.Live own v ∧ Den m v (fun ρ => ρ 1) ∧ (∀ c ∈ file₁ ++ file₂, c < 256) ∧
    claimedShared file₁ = 0 ∧ claimedShared file₂ = 2 ^ 62 ∧
    m.undump Env.plain (2 ^ 63) [v] file₁ .eof = none ∧ m.undump Env.plain (2 ^ 63) [v] file₂ .eof = none := by
  refine ⟨_, _, _, ⟨2, false⟩, [0, 0, 0, 0, 94, 2, 247, 149, 0, 1, 0, 0, 0, 0, 0, 0, 0, 0, 255, 6, 255, 0],
    [0, 0, 0, 0, 94, 2, 247, 149, 0, 1, 64, 0, 0, 0, 0, 0, 0, 0, 255, 6, 255, 0],
    Demo.reach, Demo.live2, Demo.den2, by decide, by decide, by decide, ?_, ?_⟩
  · have : (Demo.sess.m.undump Env.plain (2 ^ 63) [⟨2, false⟩]
        [0, 0, 0, 0, 94, 2, 247, 149, 0, 1, 0, 0, 0, 0, 0, 0, 0, 0, 255, 6, 255, 0] .eof).isNone = true := by
      decide +kernel
    exact Option.isNone_iff_eq_none.1 this
  · have : (Demo.sess.m.undump Env.plain (2 ^ 63) [⟨2, false⟩]
        [0, 0, 0, 0, 94, 2, 247, 149, 0, 1, 64, 0, 0, 0, 0, 0, 0, 0, 255, 6, 255, 0] .eof).isNone = true := by
      decide +kernel
    exact Option.isNone_iff_eq_none.1 this

theorem claimed_eq (file : List Nat) : claimedShared file = Dump.claimed file := rfl

/-- On every byte stream that does not have more bytes 6 (the labels are among these) after its header than
shared nodes claimed in the header, and whose table of shared nodes can be allocated, reading is defined: it
gives a BDD and no error, or an error and no BDD. Either way all BDDs of the user stay what they are, and the
only new reference is to the result. -/
theorem C38_total_partial {E own lk m} (S : E.Sound) (R : Reachable E own lk m) {vs : List Handle}
    (lv : ∀ v ∈ vs, UTab.Live own v) {ys : List Nat} (hv : AreVars m vs ys) {file : List Nat}
    (hb : ∀ c ∈ file, c < 256) {mem : Nat}
    (hf : 18 ≤ file.length → 16 * claimedShared file ≤ mem ∧ (file.drop 18).count 6 ≤ claimedShared file)
    (fin : Dump.Err) :
    ∃ m' er h, m.undump E mem vs file fin = some (m', er, h) ∧
      ((er ≠ none ∧ h = Handle.null ∧ Reachable E own lk m' ∧ Keeps own own m m') ∨
       (er = none ∧ h ≠ Handle.null ∧ Reachable E (bump own h.addr) lk m' ∧ Keeps own (bump own h.addr) m m' ∧
         ∃ F, Den m' h F)) := by
  have hfit : Dump.Fits mem file := by
    unfold Dump.Fits; rw [← claimed_eq]; exact hf
  have hl : (Call.undump mem vs file fin).Legal own m := by
    refine ⟨lv, fun zs _ he => ?_⟩
    obtain ⟨er, Q, h⟩ := Dump.file_total zs mem fin hb hfit
    rw [h] at he; cases he
  obtain ⟨-, h7⟩ := Mgr.undump_ok S (R.inv S) lv mem file fin
  rcases h7 ys hv with ⟨h8, -⟩ | ⟨m', x, Q, h8, h9, i3, p3⟩ | ⟨m', h, G, h8, h9, hnn, i3, p3, d3⟩
  · exact absurd h8 (hl.2 ys (Dump.F2.length_eq hv).symm)
  · have hr : (Call.undump mem vs file fin).run E m = some (m', .undumped (some x) Handle.null) := by
      simp only [Call.run, h9]; rfl
    have := Reachable.call _ R hl hr
    simp only [Call.leaks, Bool.or_false, Call.own, if_pos] at this
    exact ⟨m', _, _, h9, Or.inl ⟨(fun h => nomatch h), rfl, this, fun h l _ F d => p3.fns h l F d⟩⟩
  · have hr : (Call.undump mem vs file fin).run E m = some (m', .undumped none h) := by
      simp only [Call.run, h9]; rfl
    have := Reachable.call _ R hl hr
    simp only [Call.leaks, Bool.or_false, Call.own, if_neg hnn] at this
    exact ⟨m', _, _, h9, Or.inr ⟨rfl, hnn, this, fun h l _ F d => p3.fns h l F d, G, d3⟩⟩

/-- a file with an unknown code, one that ends too early, and one that is fine -/
example := C38_total_partial Env.plain_sound Demo.reach Demo.live234 Demo.vars234 (mem := 1000)
  (file := Demo.file8) (by decide) (by decide) .eof
example : (Demo.results (Demo.script ++ [
    .undump 1000 [⟨2, false⟩] [0, 0, 0, 0, 94, 2, 247, 149, 0, 1, 0, 0, 0, 0, 0, 0, 0, 0, 255, 9] .eof,
    .undump 1000 [⟨2, false⟩] [0, 0, 0, 0, 94, 2, 247, 149, 0, 1, 0, 0, 0, 0, 0, 0, 0, 0, 0, 255, 0] .eof,
    .undump 1000 [⟨2, false⟩] [0, 0, 0, 0, 94, 2, 247, 149, 0, 1, 0, 0, 0, 0, 0, 0, 0, 0, 0, 255, 0, 255, 1] .eof])).map
      (·.take 3) = some [.undumped none ⟨2, false⟩, .undumped (some .eof) ⟨0, false⟩,
        .undumped (some .format) ⟨0, false⟩] := by
  decide +kernel

end Cal
