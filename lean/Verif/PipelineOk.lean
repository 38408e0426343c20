import Verif.Pipeline

/-!
# Pipelines: what the execution computes

`loop_ok`: executing the lists of a pipeline some depths at a time, with garbage collection and
reordering in between, gives every request node the BDD of its function.
-/

namespace Cal

/-- The Boolean function of the operation of a pipeline. -/
def PipeOp.fn : PipeOp → Bool → Bool → Bool
  | .and => fun a b => a && b
  | .or => fun a b => a || b
  | .xor => fun a b => Bool.xor a b
  | .other => fun _ _ => false

theorem PipeOp.law {o : PipeOp} {op} (h : o.op = some op) : BinLaw op o.fn := by
  cases o <;> cases h
  · exact opAnd_law
  · exact opOr_law
  · exact opXor_law

namespace Pipe

variable {own : Nat → Nat} {lk : Bool} {E : Env} {fn : Bool → Bool → Bool}
  {op : Edge → Edge → Option Edge}

/-- An operand of a request at depth `d` stands for `F`. -/
def ArgOK (own : Nat → Nat) (m : Mgr) (p : Pipe) (Fs : List BFn) (d : Nat) : PArg → BFn → Prop
  | .bdd e, F => ∃ h, UTab.Live own h ∧ m.internal h = some e ∧ Den m h F
  | .prov i neg, F => ∃ r F', p.reqs[i]? = some r ∧ r.depth < d ∧ Fs[i]? = some F' ∧
      F = if neg then BFn.not F' else F'

/-- A pipeline whose requests stand for the functions `Fs`; the lists below `base` have been
executed. -/
structure PInv (own : Nat → Nat) (fn : Bool → Bool → Bool) (m : Mgr) (p : Pipe) (Fs : List BFn)
    (base : Nat) : Prop where
  len : p.reqs.length = Fs.length
  lists : ∀ d j, j ∈ p.lists d ↔ ∃ r : PReq, p.reqs[j]? = some r ∧ r.depth = d
  nodup : ∀ d, (p.lists d).Nodup
  depth : ∀ (j : Nat) (r : PReq), p.reqs[j]? = some r → r.depth < p.pdepth
  fns : ∀ (j : Nat) (r : PReq), p.reqs[j]? = some r → ∃ F G, ArgOK own m p Fs r.depth r.f F ∧
    ArgOK own m p Fs r.depth r.g G ∧ Fs[j]? = some (fun ρ => fn (F ρ) (G ρ))
  todo : ∀ (j : Nat) (r : PReq), p.reqs[j]? = some r → base ≤ r.depth → p.res j = none
  done : ∀ (j : Nat) (r : PReq), p.reqs[j]? = some r → r.depth < base → ∃ e F, p.res j = some e ∧ Fs[j]? = some F ∧
    Rep m.st e F

/-- the function of request `j` -/
def fat (Fs : List BFn) (j : Nat) : BFn := (Fs[j]?).getD fun _ => false

theorem fat_eq {Fs : List BFn} {j F} (h : Fs[j]? = some F) : fat Fs j = F := by simp [fat, h]

/-- the functions of a list -/
def frow (p : Pipe) (Fs : List BFn) (d : Nat) : List BFn := (p.lists d).map (fat Fs)

theorem get_idxOf {α β : Type} [DecidableEq α] (f : α → β) : ∀ {l : List α} {x}, x ∈ l →
    (l.map f)[l.idxOf x]? = some (f x) := by
  intro l
  induction l with
  | nil => intro x h; cases h
  | cons a l ih =>
    intro x h
    rw [List.idxOf_cons]
    by_cases e : a = x
    · subst e; simp
    · have : (a == x) = false := by simp [e]
      rw [this]
      simp only [cond_false, List.map_cons]
      rcases List.mem_cons.1 h with h | h
      · exact absurd h.symm e
      · simpa using ih h

theorem rep_den {s : Store} (w : s.WF) {δ} (hδ : Lab s δ) {e F} (r : Rep s e F) : den δ e = F :=
  (hδ.rep w r.eok).unique w r

theorem argOK_rep {m : Mgr} {p : Pipe} {Fs d e F} (h : ArgOK own m p Fs d (.bdd e) F) :
    Rep m.st e F := by
  obtain ⟨x, -, h1, e', h2, r⟩ := h
  simp only [Mgr.internal, h2, Option.map_some, Option.some.injEq] at h1
  rw [← h1]; exact r

theorem toArg_spec {m : Mgr} {p : Pipe} {Fs : List BFn} {base : Nat} (w : m.st.WF) {δ}
    (hδ : Lab m.st δ) (P : PInv own fn m p Fs base) {d a F} (hd : base ≤ d)
    (h : ArgOK own m p Fs d a F) :
    ∃ x, p.toArg base a = some x ∧ x.OK m.st ∧
      x.get (den δ) BFn.not ((List.range' base (d - base)).map (p.frow Fs)) = some F := by
  cases a with
  | bdd e => exact ⟨.bdd e, rfl, (argOK_rep h).eok, by simp only [Arg.get]; rw [rep_den w hδ (argOK_rep h)]⟩
  | prov i neg =>
    obtain ⟨r, F', h1, h2, h3, rfl⟩ := h
    by_cases hb : r.depth < base
    · obtain ⟨e, F'', h4, h5, h6⟩ := P.done i r h1 hb
      rw [h3] at h5; cases h5
      refine ⟨.bdd (e.phase neg), by simp only [toArg, h4], ?_, ?_⟩
      · cases neg
        · exact h6.eok
        · exact h6.eok
      · simp only [Arg.get]
        cases neg
        · rw [rep_den w hδ (F := F') (by simpa [Edge.phase] using h6)]; rfl
        · have h7 : Rep m.st (e.phase true) (fun ρ => !F' ρ) := by
            have := h6.not
            simpa [Edge.phase, Edge.not] using this
          rw [rep_den w hδ h7]; rfl
    · refine ⟨.node (r.depth - base) ((p.lists r.depth).idxOf i) neg,
        by simp only [toArg, P.todo i r h1 (by omega), h1], trivial, ?_⟩
      have hi : i ∈ p.lists r.depth := (P.lists _ _).2 ⟨r, h1, rfl⟩
      have hg : ((List.range' base (d - base)).map (p.frow Fs))[r.depth - base]? =
          some (p.frow Fs r.depth) := by
        rw [List.getElem?_map, List.getElem?_range' (by omega)]
        simp only [Option.map_some, Option.some.injEq]
        congr 1; omega
      simp only [Arg.get, hg, frow, get_idxOf (fat Fs) hi, Option.map_some, fat_eq h3]

theorem row_spec {m : Mgr} {p : Pipe} {Fs : List BFn} {base : Nat} (w : m.st.WF) {δ}
    (hδ : Lab m.st δ) (P : PInv own fn m p Fs base) {d} (hd : base ≤ d) :
    ∀ {js : List Nat}, (∀ j ∈ js, j ∈ p.lists d) →
    ∃ l, p.row base js = some l ∧ (∀ q ∈ l, q.1.OK m.st ∧ q.2.OK m.st) ∧
      specDepth fn (den δ) ((List.range' base (d - base)).map (p.frow Fs)) l = some (js.map (fat Fs)) := by
  intro js
  induction js with
  | nil => intro _; exact ⟨[], rfl, by simp, rfl⟩
  | cons j js ih =>
    intro hj
    obtain ⟨l, h1, h2, h3⟩ := ih fun x hx => hj x (by simp [hx])
    obtain ⟨r, hr, rfl⟩ := (P.lists _ _).1 (hj j (by simp))
    obtain ⟨F, G, hF, hG, hFs⟩ := P.fns j r hr
    obtain ⟨x, x1, x2, x3⟩ := toArg_spec w hδ P hd hF
    obtain ⟨y, y1, y2, y3⟩ := toArg_spec w hδ P hd hG
    refine ⟨(x, y) :: l, by simp only [row, hr, x1, y1, h1], ?_, ?_⟩
    · intro q hq
      rcases List.mem_cons.1 hq with rfl | hq
      · exact ⟨x2, y2⟩
      · exact h2 q hq
    · simp only [specDepth, x3, y3, h3, List.map_cons, fat_eq hFs]

theorem rows_spec {m : Mgr} {p : Pipe} {Fs : List BFn} {base : Nat} (w : m.st.WF) {δ}
    (hδ : Lab m.st δ) (P : PInv own fn m p Fs base) : ∀ (n d : Nat), base ≤ d →
    ∃ ls, p.rows base (List.range' d n) = some ls ∧ LsOK m.st ls ∧
      specAll fn (den δ) ((List.range' base (d - base)).map (p.frow Fs)) ls =
        some ((List.range' base (d - base + n)).map (p.frow Fs)) := by
  intro n
  induction n with
  | zero => intro d _; exact ⟨[], rfl, by simp [LsOK], rfl⟩
  | succ n ih =>
    intro d hd
    obtain ⟨l, h1, h2, h3⟩ := row_spec w hδ P hd (js := p.lists d) fun _ h => h
    obtain ⟨ls, h4, h5, h6⟩ := ih (d + 1) (by omega)
    refine ⟨l :: ls, by simp only [List.range'_succ, rows, h1, h4], ?_, ?_⟩
    · intro q hq
      rcases List.mem_cons.1 hq with rfl | hq
      · exact h2
      · exact h5 q hq
    · simp only [specAll, h3]
      have e1 : (List.range' base (d - base)).map (p.frow Fs) ++ [(p.lists d).map (fat Fs)] =
          (List.range' base (d + 1 - base)).map (p.frow Fs) := by
        have : d + 1 - base = (d - base) + 1 := by omega
        rw [this, List.range'_concat, List.map_append]
        simp only [List.map_cons, List.map_nil, frow, Nat.one_mul]
        have : base + (d - base) = d := by omega
        rw [this]
      rw [e1, h6]
      congr 3; omega

/-! ## Results -/

theorem setRow_spec {R : Edge → BFn → Prop} {Fs : List BFn} : ∀ {js : List Nat} {es : List Edge}
    {res : Nat → Option Edge}, js.Nodup → F2 R es (js.map (fat Fs)) →
    (∀ j ∈ js, ∃ e, setRow res js es j = some e ∧ R e (fat Fs j)) ∧
    ∀ j, j ∉ js → setRow res js es j = res j := by
  intro js
  induction js with
  | nil => intro es res _ h; exact ⟨by simp, fun j _ => by cases es <;> rfl⟩
  | cons a js ih =>
    intro es res hn h
    cases h with
    | cons h1 h2 =>
      rename_i e es
      have hn' := List.nodup_cons.1 hn
      obtain ⟨g1, g2⟩ := ih (res := upd res a (some e)) hn'.2 h2
      constructor
      · intro j hj
        rcases List.mem_cons.1 hj with rfl | hj
        · refine ⟨e, ?_, h1⟩
          simp only [setRow]
          rw [g2 _ hn'.1, upd_same]
        · exact g1 j hj
      · intro j hj
        simp only [List.mem_cons, not_or] at hj
        simp only [setRow]
        rw [g2 j hj.2, upd_ne _ _ hj.1]

theorem setRows_spec {R : Edge → BFn → Prop} {p : Pipe} {Fs : List BFn}
    (hn : ∀ d, (p.lists d).Nodup) (hd : ∀ d d' j, j ∈ p.lists d → j ∈ p.lists d' → d = d') :
    ∀ {n d : Nat} {rs : List (List Edge)} {res : Nat → Option Edge},
    F2 (F2 R) rs ((List.range' d n).map (p.frow Fs)) →
    (∀ i j, d ≤ i → i < d + n → j ∈ p.lists i →
      ∃ e, setRows p.lists res (List.range' d n) rs j = some e ∧ R e (fat Fs j)) ∧
    ∀ j, (∀ i, d ≤ i → i < d + n → j ∉ p.lists i) →
      setRows p.lists res (List.range' d n) rs j = res j := by
  intro n
  induction n with
  | zero => intro d rs res h; exact ⟨by intros; omega, fun j _ => by cases rs <;> rfl⟩
  | succ n ih =>
    intro d rs res h
    rw [List.range'_succ] at h ⊢
    cases h with
    | cons h1 h2 =>
      rename_i r rs
      obtain ⟨a1, a2⟩ := setRow_spec (res := res) (hn d) h1
      obtain ⟨g1, g2⟩ := ih (d := d + 1) (res := setRow res (p.lists d) r) h2
      constructor
      · intro i j hi1 hi2 hj
        simp only [setRows]
        by_cases e : i = d
        · subst e
          rw [g2 j fun i' h1 h2 hj' => by have := hd _ _ j hj hj'; omega]
          exact a1 j hj
        · exact g1 i j (by omega) (by omega) hj
      · intro j hj
        simp only [setRows]
        rw [g2 j fun i h1 h2 => hj i (by omega) (by omega), a2 j (hj d (by omega) (by omega))]

/-! ## References held by the pipeline -/

theorem pend_append (ps qs : List Edge) (x : Nat) : pend (ps ++ qs) x = pend ps x + pend qs x := by
  simp [pend]

theorem pend_cons (e : Edge) (ps : List Edge) (x : Nat) : pend (e :: ps) x = hits e x + pend ps x := by
  simp [pend]

theorem lock {m : Mgr} {ps : List Edge} {e : Edge} (i : m.InvP own lk ps) (he : m.st.EOK e) :
    Mgr.InvP own lk (ps ++ [e]) { m with st := m.st.icr e } := by
  obtain ⟨Γ, leak, hl, i, ok⟩ := i
  refine ⟨Γ, leak, hl, ?_, ?_⟩
  · have hs := Store.Same.icr m.st e
    have i' : Mgr.InvG Γ (fun x => leak x + pend (ps ++ [e]) x) own { m with st := m.st.icr e } := by
      have hr := i.ref
      have hrest : ∀ x, m.rest (fun x => leak x + pend (ps ++ [e]) x) x =
          m.rest (fun x => leak x + pend ps x) x + hits e x := by
        intro x; simp only [Mgr.rest, pend_append, pend_cons]; simp [pend]; omega
      have r' : (m.st.icr e).RefOK (m.roots (fun x => leak x + pend (ps ++ [e]) x)) := by
        refine UTab.RefOK_icr hr e ?_ ?_
        · intro x _; simp only [Mgr.roots, hrest]; omega
        · intro x hx hn
          have h1 := hr.ext0 x hx hn
          have h2 := EOK.hits_none he hx hn
          simp only [Mgr.roots, hrest] at h1 ⊢; omega
      exact ⟨hs.wf i.wf, hs.numOK i.num, r', i.ut, fun a f h => (i.uok a f h).mono hs.le, i.var, i.var0,
        i.ca.mono hs.le, i.nand, fun p hp => ⟨(i.assocs p hp).1.mono i.wf (hs.wf i.wf) hs.le, (i.assocs p hp).2⟩,
        i.sorted, i.temp.mono hs.le, i.tempId, i.cur, i.top, i.top', i.fresh⟩
    exact i'
  · intro f hf
    rcases List.mem_append.1 hf with hf | hf
    · exact ok f hf
    · simp only [List.mem_singleton] at hf; subst hf; exact he

theorem unlock {m : Mgr} {ps : List Edge} {e : Edge} (i : m.InvP own lk (e :: ps)) :
    Mgr.InvP own lk ps { m with st := m.st.dcr e } := by
  obtain ⟨Γ, leak, hl, i, ok⟩ := i
  refine ⟨Γ, leak, hl, ?_, fun f hf => ok f (by simp [hf])⟩
  have hs := Store.Same.dcr m.st e
  have hr := i.ref
  have hrest : ∀ x, m.rest (fun x => leak x + pend (e :: ps) x) x =
      m.rest (fun x => leak x + pend ps x) x + hits e x := by
    intro x; simp only [Mgr.rest, pend_cons]; omega
  have r' : (m.st.dcr e).RefOK (m.roots (fun x => leak x + pend ps x)) := by
    refine UTab.RefOK_dcr hr e ?_ ?_
    · intro x _; simp only [Mgr.roots, hrest]; omega
    · intro x hx hn
      have h1 := hr.ext0 x hx hn
      simp only [Mgr.roots, hrest] at h1 ⊢; omega
  exact ⟨hs.wf i.wf, hs.numOK i.num, r', i.ut, fun a f h => (i.uok a f h).mono hs.le, i.var, i.var0,
    i.ca.mono hs.le, i.nand, fun p hp => ⟨(i.assocs p hp).1.mono i.wf (hs.wf i.wf) hs.le, (i.assocs p hp).2⟩,
    i.sorted, i.temp.mono hs.le, i.tempId, i.cur, i.top, i.top', i.fresh⟩

theorem icrs_same : ∀ {es : List Edge} {s : Store}, s.Same (icrs s es)
  | [], s => .refl s
  | e :: _, s => (Store.Same.icr s e).trans icrs_same

theorem dcrs_same : ∀ {es : List Edge} {s : Store}, s.Same (dcrs s es)
  | [], s => .refl s
  | e :: _, s => (Store.Same.dcr s e).trans dcrs_same

theorem locks : ∀ {es ps : List Edge} {m : Mgr}, m.InvP own lk ps → (∀ e ∈ es, m.st.EOK e) →
    Mgr.InvP own lk (ps ++ es) { m with st := icrs m.st es }
  | [], ps, m, i, _ => by simpa [icrs] using i
  | e :: es, ps, m, i, h => by
    have i1 := lock i (h e (by simp))
    have i2 := locks (es := es) i1 fun f hf => h f (by simp [hf])
    simpa [icrs] using i2

theorem unlocks : ∀ {es : List Edge} {m : Mgr}, m.InvP own lk es →
    Mgr.Inv own lk { m with st := dcrs m.st es }
  | [], m, i => i.inv
  | e :: es, m, i => by
    have := unlocks (es := es) (m := { m with st := m.st.dcr e }) (unlock i)
    simpa only [dcrs] using this

/-- results that are never given back are leaked -/
theorem leaked {ps : List Edge} {m : Mgr} (i : m.InvP own lk ps) : m.Inv own true := by
  obtain ⟨Γ, leak, -, i, -⟩ := i
  exact ⟨Γ, _, by simp, i⟩

/-! ## Forwarding -/

theorem held_forward (φ : Edge → Edge) (p : Pipe) (n : Nat) :
    (p.forward φ).held n = (p.held n).map φ := by
  simp only [held, forward, List.map_flatMap, List.map_filterMap]

theorem mem_held {p : Pipe} {n j d e} (hd : d < n) (hj : j ∈ p.lists d) (he : p.res j = some e) :
    e ∈ p.held n := by
  simp only [held, List.mem_flatMap, List.mem_filterMap, List.mem_range]
  exact ⟨d, hd, j, hj, he⟩

theorem PInv.fwd {m m' : Mgr} {p : Pipe} {Fs : List BFn} {base k : Nat} {φ : Edge → Edge}
    (P : PInv own fn m p Fs base) (pr : Pres own k m m') (f : Fwd own (p.held base) m m' φ) :
    PInv own fn m' (p.forward φ) Fs base := by
  have hreq : ∀ (j : Nat) (r : PReq), (p.forward φ).reqs[j]? = some r → ∃ r0 : PReq, p.reqs[j]? = some r0 ∧
      r.depth = r0.depth ∧ (∀ F, ArgOK own m p Fs r0.depth r0.f F → ArgOK own m' (p.forward φ) Fs r.depth r.f F) ∧
      ∀ F, ArgOK own m p Fs r0.depth r0.g F → ArgOK own m' (p.forward φ) Fs r.depth r.g F := by
    intro j r h
    simp only [forward, List.getElem?_map, Option.map_eq_some_iff] at h
    obtain ⟨r0, h1, rfl⟩ := h
    have key : ∀ a F, ArgOK own m p Fs r0.depth a F → ArgOK own m' (p.forward φ) Fs r0.depth
        (a.forward φ) F := by
      intro a F ha
      cases a with
      | bdd e =>
        obtain ⟨h, l, h2, h3⟩ := ha
        exact ⟨h, l, f.held h e l h2, pr.fns h l F h3⟩
      | prov i neg =>
        obtain ⟨r1, F', h2, h3, h4, h5⟩ := ha
        exact ⟨⟨r1.f.forward φ, r1.g.forward φ, r1.depth⟩, F', by simp only [forward, List.getElem?_map, h2, Option.map_some], h3, h4, h5⟩
    exact ⟨r0, h1, rfl, fun F h => key _ F h, fun F h => key _ F h⟩
  refine ⟨?_, ?_, P.nodup, ?_, ?_, ?_, ?_⟩
  · simp only [forward, List.length_map]; exact P.len
  · intro d j
    show j ∈ p.lists d ↔ _
    rw [P.lists]
    constructor
    · rintro ⟨r, h1, h2⟩
      exact ⟨⟨r.f.forward φ, r.g.forward φ, r.depth⟩, by simp only [forward, List.getElem?_map, h1, Option.map_some], h2⟩
    · rintro ⟨r, h1, h2⟩
      obtain ⟨r0, h3, h4, -⟩ := hreq j r h1
      exact ⟨r0, h3, h4 ▸ h2⟩
  · intro j r h1
    obtain ⟨r0, h3, h4, -⟩ := hreq j r h1
    rw [h4]; exact P.depth j r0 h3
  · intro j r h1
    obtain ⟨r0, h3, h4, h5, h6⟩ := hreq j r h1
    obtain ⟨F, G, h7, h8, h9⟩ := P.fns j r0 h3
    exact ⟨F, G, h5 F h7, h6 G h8, h9⟩
  · intro j r h1 hb
    obtain ⟨r0, h3, h4, -⟩ := hreq j r h1
    simp only [forward, P.todo j r0 h3 (h4 ▸ hb), Option.map_none]
  · intro j r h1 hb
    obtain ⟨r0, h3, h4, -⟩ := hreq j r h1
    obtain ⟨e, F, h5, h6, h7⟩ := P.done j r0 h3 (h4 ▸ hb)
    exact ⟨φ e, F, by simp only [forward, h5, Option.map_some], h6,
      f.pend e (mem_held (h4 ▸ hb) ((P.lists _ _).2 ⟨r0, h3, rfl⟩) h5) F h7⟩

/-! ## The loop -/

/-- One round: the lists from `base` on, `n` of them. -/
theorem round_ok (law : BinLaw op fn) {m : Mgr} {p : Pipe} {Fs : List BFn} {base n : Nat}
    (i : m.InvP own lk (p.held base)) (P : PInv own fn m p Fs base) :
    ∃ ls s rs, p.rows base (List.range' base n) = some ls ∧ listArrayOp op m.st ls = some (s, rs) ∧
      ∀ p', p' = { p with depth := n, res := setRows p.lists p.res (List.range' base n) rs } →
      ∀ m', m' = { m with st := icrs s ((List.range' base n).flatMap fun i =>
          (p.lists i).filterMap (setRows p.lists p.res (List.range' base n) rs)) } →
        m'.InvP own lk (p'.held (base + n)) ∧ PInv own fn m' p' Fs (base + n) ∧ Pres own 0 m m' := by
  obtain ⟨Γ, leak, hl, ig, ok⟩ := i
  have w := ig.wf
  obtain ⟨δ, hδ⟩ := w.exists_lab
  obtain ⟨ls, h1, h2, h3⟩ := rows_spec w hδ P n base (Nat.le_refl _)
  simp only [Nat.sub_self, List.range'_zero, List.map_nil, Nat.zero_add] at h3
  obtain ⟨s, rs, δ', h4, w', le, lab, ag, rows, keep⟩ := listArrayOp_lab law w hδ h2 h3
  refine ⟨ls, s, rs, h1, h4, ?_⟩
  rintro p' rfl m' rfl
  -- the results
  have hdis : ∀ d d' j, j ∈ p.lists d → j ∈ p.lists d' → d = d' := by
    intro d d' j h h'
    obtain ⟨r, e1, e2⟩ := (P.lists _ _).1 h
    obtain ⟨r', e1', e2'⟩ := (P.lists _ _).1 h'
    rw [e1] at e1'; cases e1'
    exact e2.symm.trans e2'
  obtain ⟨g1, g2⟩ := setRows_spec (R := fun e F => s.EOK e ∧ den δ' e = F) (Fs := Fs) (res := p.res) P.nodup hdis rows
  generalize hres : setRows p.lists p.res (List.range' base n) rs = res' at *
  have old : ∀ j r, p.reqs[j]? = some r → r.depth < base → res' j = p.res j := by
    intro j r hr hd
    refine g2 j fun d h1 h2 hj => ?_
    obtain ⟨r', e1, e2⟩ := (P.lists _ _).1 hj
    rw [hr] at e1; cases e1; omega
  have hheld : ({ p with depth := n, res := res' } : Pipe).held base = p.held base := by
    unfold held
    simp only
    have key : ∀ ds : List Nat, (∀ d ∈ ds, d < base) →
        (ds.flatMap fun d => (p.lists d).filterMap res') = ds.flatMap fun d => (p.lists d).filterMap p.res := by
      intro ds hds
      induction ds with
      | nil => rfl
      | cons d ds ih =>
        simp only [List.flatMap_cons]
        rw [ih fun x hx => hds x (by simp [hx])]
        congr 1
        have : ∀ l : List Nat, (∀ j ∈ l, res' j = p.res j) → l.filterMap res' = l.filterMap p.res := by
          intro l hl
          induction l with
          | nil => rfl
          | cons a l ih' =>
            rw [List.filterMap_cons, List.filterMap_cons, hl a (by simp), ih' fun x hx => hl x (by simp [hx])]
        refine this _ fun j hj => ?_
        obtain ⟨r, e1, e2⟩ := (P.lists _ _).1 hj
        exact old j r e1 (by have := hds d (by simp); omega)
    exact key _ fun d hd => List.mem_range.1 hd
  have hsplit : ({ p with depth := n, res := res' } : Pipe).held (base + n) =
      p.held base ++ (List.range' base n).flatMap fun i => (p.lists i).filterMap res' := by
    rw [← hheld]
    simp only [held, List.range_eq_range']
    rw [← List.flatMap_append]
    congr 1
    have := List.range'_append (s := 0) (m := base) (n := n) (step := 1)
    simp only [Nat.one_mul, Nat.zero_add] at this
    exact this.symm
  -- the store of the engine
  have i1 : Mgr.InvP own lk (p.held base) { m with st := s } :=
    ⟨Γ, leak, hl, ig.core w' le keep (ig.ca.mono le), fun e he => (ok e he).mono le⟩
  have i2 := locks (es := (List.range' base n).flatMap fun i => (p.lists i).filterMap res') i1 (by
    intro e he
    simp only [List.mem_flatMap, List.mem_filterMap, List.mem_range'_1] at he
    obtain ⟨d, hd, j, hj, hje⟩ := he
    obtain ⟨e', h5, h6⟩ := g1 d j hd.1 hd.2 hj
    rw [hje] at h5; cases h5
    exact h6.1)
  have hsame : s.Same (icrs s ((List.range' base n).flatMap fun i => (p.lists i).filterMap res')) := icrs_same
  have pr : Pres own 0 m { m with st := icrs s ((List.range' base n).flatMap fun i => (p.lists i).filterMap res') } :=
    Mgr.core_pres (c' := m.ca) (le.trans hsame.le)
  refine ⟨by rw [hsplit]; exact i2, ?_, pr⟩
  have args : ∀ d a F, ArgOK own m p Fs d a F →
      ArgOK own { m with st := icrs s ((List.range' base n).flatMap fun i => (p.lists i).filterMap res') }
        { p with depth := n, res := res' } Fs d a F := by
    intro d a F h
    cases a with
    | bdd e =>
      obtain ⟨x, l, h5, h6⟩ := h
      exact ⟨x, l, h5, pr.fns x l F h6⟩
    | prov i neg => exact h
  refine ⟨P.len, P.lists, P.nodup, P.depth, ?_, ?_, ?_⟩
  · intro j r hr
    obtain ⟨F, G, h5, h6, h7⟩ := P.fns j r hr
    exact ⟨F, G, args _ _ _ h5, args _ _ _ h6, h7⟩
  · intro j r hr hd
    show res' j = none
    rw [g2 j fun d h1 h2 hj => ?_]
    · exact P.todo j r hr (by omega)
    · obtain ⟨r', e1, e2⟩ := (P.lists _ _).1 hj
      rw [hr] at e1; cases e1; omega
  · intro j r hr hd
    by_cases hb : r.depth < base
    · obtain ⟨e, F, h5, h6, h7⟩ := P.done j r hr hb
      exact ⟨e, F, by show res' j = _; rw [old j r hr hb]; exact h5, h6, h7.mono (le.trans hsame.le)⟩
    · obtain ⟨e, h5, h6⟩ := g1 r.depth j (by omega) hd ((P.lists _ _).2 ⟨r, hr, rfl⟩)
      obtain ⟨F, G, -, -, h7⟩ := P.fns j r hr
      refine ⟨e, _, h5, h7, ?_⟩
      have := (lab.rep w' h6.1).mono hsame.le
      rw [h6.2, fat_eq h7] at this
      exact this

theorem loop_ok (S : E.Sound) (law : BinLaw op fn) (auto : Bool) {Fs : List BFn} :
    ∀ (fuel base : Nat) (m : Mgr) (p : Pipe), m.InvP own lk (p.held base) → PInv own fn m p Fs base →
    base ≤ p.pdepth → p.pdepth ≤ base + fuel → (auto = true ∨ p.depth ≠ 0) →
    ∃ m' p' b, loop E auto op fuel base m p = some (m', p', b) ∧ Pres own 0 m m' ∧
      p'.pdepth = p.pdepth ∧ p'.state = p.state ∧ p'.op = p.op ∧
      (b = true → m'.InvP own lk (p'.held p'.pdepth) ∧ PInv own fn m' p' Fs p'.pdepth) ∧
      (b = false → m'.Inv own true ∧ m'.overflow = true ∧ m'.nodeLimit ≠ 0) := by
  intro fuel
  induction fuel with
  | zero =>
    intro base m p i P h1 h2 _
    have hb : base = p.pdepth := by omega
    subst hb
    exact ⟨m, p, true, by simp only [loop, if_true], .refl _ _, rfl, rfl, rfl, fun _ => ⟨i, P⟩, by simp⟩
  | succ fuel ih =>
    intro base m p i P h1 h2 ha
    by_cases hb : base = p.pdepth
    · subst hb
      exact ⟨m, p, true, by simp only [loop, if_true], .refl _ _, rfl, rfl, rfl, fun _ => ⟨i, P⟩, by simp⟩
    · unfold loop
      simp only [if_neg hb]
      generalize hd0 : (if auto = true then autoDepth m.st.numNodes else p.depth) = d0
      generalize hd1 : (if d0 > p.pdepth - base then p.pdepth - base else d0) = d
      have hd0' : d0 ≠ 0 := by
        rw [← hd0]
        split
        · unfold autoDepth; split
          · omega
          · split <;> omega
        · rename_i h
          exact ha.resolve_left h
      have hd : 1 ≤ d ∧ base + d ≤ p.pdepth := by
        rw [← hd1]; split <;> omega
      obtain ⟨ls, s, rs, g1, g2, g3⟩ := round_ok law (n := d) i P
      simp only [g1, g2]
      obtain ⟨i1, P1, p1⟩ := g3 _ rfl _ rfl
      generalize hp' : ({ p with depth := d, res := setRows p.lists p.res (List.range' base d) rs } : Pipe) = p' at *
      have e1 : p'.pdepth = p.pdepth := by rw [← hp']
      have e2 : p'.state = p.state := by rw [← hp']
      have e3 : p'.depth = d := by rw [← hp']
      have e4 : p'.op = p.op := by rw [← hp']
      generalize ({ m with st := icrs s ((List.range' base d).flatMap fun i =>
        (p.lists i).filterMap (setRows p.lists p.res (List.range' base d) rs)) } : Mgr) = m1 at *
      obtain ⟨m2, o, φ, g4, i2, p2, ho, -, fw⟩ := Mgr.postProcP_ok S i1
      rw [g4]
      have P2 := P1.fwd p2 fw
      rw [← held_forward] at i2
      cases o with
      | true =>
        obtain ⟨o1, o2, -⟩ := ho rfl
        exact ⟨m2, _, false, rfl, p1.trans p2, e1, e2, e4, by simp, fun _ => ⟨leaked i2, o1, o2⟩⟩
      | false =>
        obtain ⟨m3, p3, b, g5, g6, g7, g8, g10, g9⟩ := ih (base + d) m2 (p'.forward φ) i2 P2
          (by show base + d ≤ p'.pdepth; rw [e1]; exact hd.2) (by show p'.pdepth ≤ _; omega)
          (Or.inr (by show p'.depth ≠ 0; omega))
        refine ⟨m3, p3, b, g5, (p1.trans p2).trans g6, g7.trans e1, g8.trans e2, g10.trans e4, g9⟩

end Pipe

end Cal
