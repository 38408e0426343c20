import Verif.Demo

/-!
# Properties, part 14: pipelines
-/

namespace Cal

variable {E : Env} {own : Nat → Nat} {lk : Bool} {m : Mgr}

/-! ## C45 -/

/-- The operations of a legal pipeline, done one at a time, define one function for each provisional
BDD. -/
theorem C45_one_by_one (S : E.Sound) (R : Reachable E own lk m) {op cs us} (l : PipeLegal own op cs us) :
    ∃ Fs, OneByOne op.fn m [] cs Fs ∧ ∀ Gs, OneByOne op.fn m [] cs Gs → Gs = Fs := by
  obtain ⟨Fs, d⟩ := (R.inv S).oneByOne l
  refine ⟨Fs, d, ?_⟩
  clear l
  generalize ([] : List BFn) = Hs at d
  have uni : ∀ {Hs x F G}, OpDen m Hs x F → OpDen m Hs x G → F = G := by
    intro Hs x F G h1 h2
    cases h1 with
    | bdd h1 => cases h2 with | bdd h2 => exact (R.inv S).den_unique h1 h2
    | prov h1 => cases h2 with | prov h2 => rw [h1] at h2; exact Option.some.inj h2
    | not h1 => cases h2 with | not h2 => rw [h1] at h2; rw [Option.some.inj h2]
  induction d with
  | nil => intro Gs h; cases h; rfl
  | cons hx hy _ ih =>
    intro Gs h
    cases h with
    | cons hx' hy' h =>
      rw [uni hx' hx, uni hy' hy] at h
      exact ih Gs h

/-- A pipeline, from initialisation to the end, on whatever earlier pipelines and depth settings left:
it gives the user one BDD for each provisional BDD updated (complemented if the user asks for that), and these
are the BDDs of the functions that the same operations define when done one at a time. In particular each
is the very handle that the user would have got that way. All BDDs that the user holds stay what they are. If a
node limit is set, it may give nothing at all instead, and the overflow flag says so.

Missing for the full property: pipelines of more than 256 levels (`C45_deep_violated`), and other calls between the
initialisation and the end of a pipeline (a reordering there forwards the first operands only). -/
theorem C45_pipeline_partial (S : E.Sound) (R : Reachable E own lk m) {p : Pipe} (hp : p.Idle) {op cs us}
    (l : PipeLegal own op cs us) {Fs} (d : OneByOne op.fn m [] cs Fs) :
    ∃ m' p' out, pipeline E m p op cs us = some (m', p', out) ∧ p'.Idle ∧
      Reachable E (pipelineOwn own out) (lk || out.isNone) m' ∧ Keeps own (pipelineOwn own out) m m' ∧
      match out with
      | some hs => F2 (fun (u : Nat × Bool) h => UTab.Live (pipelineOwn own out) h ∧ ∃ F, Fs[u.1]? = some F ∧
          Den m' h (fun ρ => Bool.xor (F ρ) u.2)) us hs
      | none => m.nodeLimit ≠ 0 ∧ m'.overflow = true := by
  obtain ⟨m', p', out, h1, h2, h3, h4⟩ := pipeline_ok S (R.inv S) hp l d
  refine ⟨m', p', out, h1, h2, R.pipeline op cs us hp l h1, fun h l _ F d => h3.fns h l F d, ?_⟩
  cases out with
  | none => exact ⟨by rw [← h3.nodeLimit]; exact h4.2.2, h4.2.1⟩
  | some hs =>
    have key : ∀ {us : List (Nat × Bool)} {hs : List Handle} {o : Nat → Nat},
        F2 (fun (u : Nat × Bool) h => h ≠ Handle.null ∧ ∃ F, Fs[u.1]? = some F ∧
          Den m' h (Pipe.updFn F u.2)) us hs →
        F2 (fun (u : Nat × Bool) h => UTab.Live (pipelineOwn o (some hs)) h ∧ ∃ F, Fs[u.1]? = some F ∧
          Den m' h (fun ρ => Bool.xor (F ρ) u.2)) us hs := by
      intro us hs o h
      induction h generalizing o with
      | nil => exact .nil
      | @cons u h us hs hh _ ih =>
        obtain ⟨-, F, k1, k2⟩ := hh
        refine .cons ⟨live_pipelineOwn (out := some hs) (live_bumped o h.addr h.neg), F, k1, ?_⟩
          (ih (o := bump o h.addr))
        have : Pipe.updFn F u.2 = fun ρ => Bool.xor (F ρ) u.2 := by
          funext ρ
          unfold Pipe.updFn
          cases u.2 <;> simp
        rw [← this]; exact k2
    exact key h4.2

/-- Without a node limit a pipeline gives all results. -/
theorem C45_no_limit (S : E.Sound) (R : Reachable E own lk m) (hn : m.nodeLimit = 0) {p : Pipe} (hp : p.Idle)
    {op cs us} (l : PipeLegal own op cs us) :
    ∃ m' p' hs, pipeline E m p op cs us = some (m', p', some hs) ∧ hs.length = us.length := by
  obtain ⟨Fs, d, -⟩ := C45_one_by_one S R l
  obtain ⟨m', p', out, h1, -, -, -, h2⟩ := C45_pipeline_partial S R hp l d
  cases out with
  | none => exact absurd hn h2.1
  | some hs => exact ⟨m', p', hs, h1, (Dump.F2.length_eq h2).symm⟩

/-- The result of a pipeline is the handle of any BDD of the same function that the user holds. -/
theorem C45_same_handle (S : E.Sound) (R : Reachable E own lk m) {p : Pipe} (hp : p.Idle) {op cs j neg}
    (l : PipeLegal own op cs [(j, neg)]) {Fs F} (d : OneByOne op.fn m [] cs Fs) (hF : Fs[j]? = some F)
    {g : Handle} (lg : UTab.Live own g) (hg : Den m g fun ρ => Bool.xor (F ρ) neg) :
    ∃ m' p' out, pipeline E m p op cs [(j, neg)] = some (m', p', out) ∧
      (out = some [g] ∨ out = none ∧ m.nodeLimit ≠ 0 ∧ m'.overflow = true) := by
  obtain ⟨m', p', out, h1, -, R', K, h2⟩ := C45_pipeline_partial S R hp l d
  refine ⟨m', p', out, h1, ?_⟩
  cases out with
  | none => exact Or.inr ⟨rfl, h2⟩
  | some hs =>
    refine Or.inl ?_
    cases h2 with
    | cons h hs =>
      cases hs
      obtain ⟨-, F', k1, k2⟩ := h
      rw [hF] at k1; cases k1
      rw [(Mgr.handle_eq (R'.inv S) k2 (K g lg (live_pipelineOwn lg) _ hg)).2 rfl]

/-- a chain of `n` provisional BDDs on top of each other -/
def pipeChain (n : Nat) : List (POperand × POperand) :=
  (.bdd ⟨1, false⟩, .bdd ⟨1, false⟩) :: (List.range n).map fun j => (.prov j false, .prov j false)

theorem pipeChain_refused (m : Mgr) : ∀ (n k : Nat) (p : Pipe) (r : PReq), p.state = .create →
    p.reqs.length = k + 1 → p.reqs[k]? = some r → r.depth = k → k + n = 256 → n ≠ 0 →
    ∃ p', p.creates m ((List.range' k n).map fun j => (.prov j false, .prov j false)) = some (p', false) ∧
      256 < p'.pdepth := by
  intro n
  induction n with
  | zero => intro k p r _ _ _ _ _ h; exact absurd rfl h
  | succ n ih =>
    intro k p r st hl hr hd hk _
    have ha : p.arg m (.prov k false) = some (.prov k false) := by
      simp only [Pipe.arg]; rw [if_pos (by omega)]
    have hdep : p.argDepth (.prov k false) = k + 1 := by simp only [Pipe.argDepth, hr, hd]
    have hst : ¬ p.state ≠ .create := by simp [st]
    simp only [List.range'_succ, List.map_cons, Pipe.creates, Pipe.create, ha, if_neg hst, hdep, Nat.max_self]
    by_cases hk' : n = 0
    · have : maxInsertDepth ≤ k + 1 := by unfold maxInsertDepth; omega
      simp only [if_pos this]
      refine ⟨_, rfl, ?_⟩
      simp only
      split <;> omega
    · have : ¬ maxInsertDepth ≤ k + 1 := by unfold maxInsertDepth; omega
      simp only [if_neg this]
      exact ih (k + 1) _ ⟨.prov k false, .prov k false, k + 1⟩ st (by simp [hl])
        (by simp only; rw [← hl]; simp) rfl (by omega) hk'

/-- The limit on the levels in `PipeLegal` is needed, in every state. In a chain of 257 provisional BDDs the
creation of the last one is refused, but the depth of the pipeline has been raised, so that quitting the pipeline
reads behind the end of the array of lists. -/
theorem C45_deep_violated (S : E.Sound) (R : Reachable E own lk m) {p : Pipe} (hp : p.Idle) (us) :
    pipeline E m p .and (pipeChain 256) us = none := by
  obtain ⟨m1, o, h1, i1, -⟩ := Mgr.postProc_ok S (R.inv S)
  have hst : ¬ p.state ≠ .ready := by simp [hp.state]
  have e1 : p.start E m .and = some (m1, { p with state := .create, op := .and }, true) := by
    simp only [Pipe.start, h1, if_neg hst]
    rw [if_neg (by simp)]
  obtain ⟨e, he⟩ : ∃ e, m1.internal ⟨1, false⟩ = some e := by
    obtain ⟨e, he, -⟩ := Mgr.const_den i1 false
    exact ⟨_, by simp only [Mgr.internal]; rw [he]; rfl⟩
  obtain ⟨q, q1, q2⟩ := pipeChain_refused m1 256 0
    { p with state := .create, op := .and, reqs := [⟨.bdd e, .bdd e, 0⟩], lists := upd p.lists 0 (0 :: p.lists 0)
             pdepth := if p.pdepth ≤ 0 then 0 + 1 else p.pdepth } ⟨.bdd e, .bdd e, 0⟩ rfl rfl rfl rfl rfl (by omega)
  have c0 : Pipe.create m1 { p with state := .create, op := .and } (.bdd ⟨1, false⟩) (.bdd ⟨1, false⟩) = some
      ({ p with state := .create, op := .and, reqs := [⟨.bdd e, .bdd e, 0⟩],
                lists := upd p.lists 0 (0 :: p.lists 0),
                pdepth := if p.pdepth ≤ 0 then 0 + 1 else p.pdepth }, some 0) := by
    simp only [Pipe.create, Pipe.arg, he, Option.map_some, Pipe.argDepth, hp.reqs]
    rfl
  have c1 : Pipe.creates m1 { p with state := .create, op := .and } (pipeChain 256) = some (q, false) := by
    simp only [pipeChain, Pipe.creates, c0, List.range_eq_range']
    exact q1
  simp only [pipeline, e1, c1, Pipe.quit]
  rw [if_pos (by unfold maxInsertDepth; exact q2)]
  rfl

/-! ### Calls between the steps of a pipeline -/

namespace Demo

/-- A pipeline for `a ∧ c` with a garbage collection between execution and update: is a handle returned for a node that is
not there? -/
def pipeGc (m : Mgr) : Bool :=
  match Pipe.init.start Env.plain m .and with
  | some (m1, p1, true) =>
    match p1.creates m1 [(.bdd ⟨2, false⟩, .bdd ⟨4, false⟩)] with
    | some (p2, true) =>
      match p2.execute Env.plain m1 with
      | some (m3, p3, true) =>
        match m3.gc with
        | some m4 =>
          match p3.update m4 0 false with
          | some (m5, h) =>
            match m5.ut.heap h.addr with
            | some e => e.addr != 0 && (m5.st.heap e.addr).isNone
            | none => false
          | none => false
        | none => false
      | _ => false
    | _ => false
  | _ => false

/-- A pipeline for `a ∧ c` with a composition between creation and execution: is `a` the result? -/
def pipeCompose (m : Mgr) : Bool :=
  match Pipe.init.start Env.plain m .and with
  | some (m1, p1, true) =>
    match p1.creates m1 [(.bdd ⟨2, false⟩, .bdd ⟨4, false⟩)] with
    | some (p2, true) =>
      match m1.compose Env.plain ⟨3, false⟩ ⟨3, false⟩ ⟨3, false⟩ with
      | some (m2, _) =>
        match p2.composed.execute Env.plain m2 with
        | some (m3, p3, true) =>
          match p3.update m3 0 false with
          | some (_, h) => h == ⟨2, false⟩
          | none => false
        | _ => false
      | none => false
    | _ => false
  | _ => false

theorem pipeGc_sess : pipeGc sess.m = true := by decide +kernel
theorem pipeCompose_sess : pipeCompose sess.m = true := by decide +kernel

end Demo

/-- Results are not protected between execution and update: after a garbage collection in between, the handle returned
need not denote any function. -/
theorem C45_gc_violated : ∃ s : Demo.Sess, Reachable Env.plain s.own s.lk s.m ∧
    ∃ a b, UTab.Live s.own a ∧ UTab.Live s.own b ∧
    ∃ m1 p1 p2 m3 p3 m4 m5 h, Pipe.init.start Env.plain s.m .and = some (m1, p1, true) ∧
      p1.creates m1 [(.bdd a, .bdd b)] = some (p2, true) ∧ p2.execute Env.plain m1 = some (m3, p3, true) ∧
      m3.gc = some m4 ∧ p3.update m4 0 false = some (m5, h) ∧ ∀ F, ¬ Den m5 h F := by
  refine ⟨Demo.sess, Demo.reach, ⟨2, false⟩, ⟨4, false⟩, Demo.live2, Demo.live4, ?_⟩
  have h := Demo.pipeGc_sess
  unfold Demo.pipeGc at h
  split at h
  · rename_i m1 p1 h1
    split at h
    · rename_i p2 h2
      split at h
      · rename_i m3 p3 h3
        split at h
        · rename_i m4 h4
          split at h
          · rename_i m5 k h5
            refine ⟨m1, p1, p2, m3, p3, m4, m5, k, h1, h2, h3, h4, h5, ?_⟩
            rintro F ⟨e, he, r⟩
            rw [he] at h
            simp only [Bool.and_eq_true, bne_iff_ne, Option.isNone_iff_eq_none] at h
            generalize hq : e.phase k.neg = q at r
            have ha : q.addr = e.addr := by rw [← hq]; rfl
            cases r with
            | one => exact h.1 ha.symm
            | zero => exact h.1 ha.symm
            | pos g => rw [← ha] at h; exact absurd h.2 (by rw [g]; simp)
            | neg g => rw [← ha] at h; exact absurd h.2 (by rw [g]; simp)
          · cases h
        · cases h
      · cases h
    · cases h
  · cases h

/-- `Cal_BddCompose` between creation and execution throws the requests away: the result of the pipeline is then the
first operand, not the conjunction. -/
theorem C45_compose_violated : ∃ s : Demo.Sess, Reachable Env.plain s.own s.lk s.m ∧
    ∃ a b c, UTab.Live s.own a ∧ UTab.Live s.own b ∧ UTab.Live s.own c ∧
    ∃ m1 p1 p2 m2 k m3 p3 m5, Pipe.init.start Env.plain s.m .and = some (m1, p1, true) ∧
      p1.creates m1 [(.bdd a, .bdd b)] = some (p2, true) ∧
      m1.compose Env.plain c c c = some (m2, k) ∧
      p2.composed.execute Env.plain m2 = some (m3, p3, true) ∧
      p3.update m3 0 false = some (m5, a) ∧ ∃ F G, Den s.m a F ∧ Den s.m b G ∧ F ≠ (fun ρ => F ρ && G ρ) := by
  refine ⟨Demo.sess, Demo.reach, ⟨2, false⟩, ⟨4, false⟩, ⟨3, false⟩, Demo.live2, Demo.live4, Demo.live3, ?_⟩
  have h := Demo.pipeCompose_sess
  unfold Demo.pipeCompose at h
  split at h
  · rename_i m1 p1 h1
    split at h
    · rename_i p2 h2
      split at h
      · rename_i m2 k h3
        split at h
        · rename_i m3 p3 h4
          split at h
          · rename_i m5 q h5
            have hq : q = ⟨2, false⟩ := by simpa using h
            subst hq
            refine ⟨m1, p1, p2, m2, k, m3, p3, m5, h1, h2, h3, h4, h5, _, _, Demo.den2, Demo.den4, fun e => ?_⟩
            have := congrFun e fun v => decide (v = 1)
            simp at this
          · cases h
        · cases h
      · cases h
    · cases h
  · cases h

/-! ### The hypotheses are met -/

namespace Demo

/-- `a ∧ b`, its complement with `c`, and the two together, at levels 0, 1 and 2 -/
def pipeReqs : List (POperand × POperand) :=
  [(.bdd ⟨2, false⟩, .bdd ⟨3, false⟩), (.prov 0 true, .bdd ⟨4, false⟩), (.prov 1 false, .prov 0 false)]

theorem pipeLegal : PipeLegal sess.own .or pipeReqs [(2, true), (0, false), (1, false)] :=
  ⟨by simp, by
    intro c hc
    simp only [pipeReqs, List.mem_cons, List.not_mem_nil, or_false] at hc
    rcases hc with rfl | rfl | rfl
    · exact ⟨live2, live3⟩
    · exact ⟨trivial, live4⟩
    · exact ⟨trivial, trivial⟩, ⟨[0, 1, 2], rfl, by decide⟩, by decide⟩

example := C45_one_by_one Env.plain_sound reach pipeLegal
example := C45_no_limit Env.plain_sound reach (by decide +kernel) Pipe.init_idle pipeLegal
example := C45_deep_violated Env.plain_sound reach Pipe.init_idle [(0, false)]

theorem pipeOne : OneByOne PipeOp.or.fn sess.m [] pipeReqs
    [fun ρ => ρ 1 || ρ 2, fun ρ => !(ρ 1 || ρ 2) || ρ 3, fun ρ => (!(ρ 1 || ρ 2) || ρ 3) || (ρ 1 || ρ 2)] :=
  .cons (.bdd den2) (.bdd den3) (.cons (.not rfl) (.bdd den4) (.cons (.prov rfl) (.prov rfl) .nil))

example := C45_pipeline_partial Env.plain_sound reach Pipe.init_idle pipeLegal pipeOne

/-- the results: three different BDDs, the first of them constant; another depth gives the same -/
example : (pipeline Env.plain sess.m Pipe.init .or pipeReqs [(2, true), (0, false), (1, false)]).map
    (fun r => r.2.2.map fun hs => (hs.map fun h => h == ⟨1, true⟩, decide hs.Nodup)) =
    some (some ([true, false, false], true)) := by decide +kernel
example : (pipeline Env.plain sess.m (Pipe.init.setDepth 1) .or pipeReqs [(2, true), (0, false), (1, false)]).map
    (fun r => r.2.2) = (pipeline Env.plain sess.m Pipe.init .or pipeReqs [(2, true), (0, false), (1, false)]).map
    (fun r => r.2.2) := by decide +kernel

/-- `(a ∧ b)` of a pipeline is the handle of `a ∧ b` that the session already has -/
example := C45_same_handle Env.plain_sound reach Pipe.init_idle (op := .and) (neg := false)
  ⟨by simp, by
    intro c hc
    simp only [List.mem_cons, List.not_mem_nil, or_false] at hc
    subst hc
    exact ⟨live2, live3⟩, ⟨[0], rfl, by decide⟩, by decide⟩
  (.cons (.bdd den2) (.bdd den3) .nil) (j := 0) rfl live5 (by simpa [PipeOp.fn] using den5)

end Demo

end Cal
