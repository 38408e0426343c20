import Verif.Props3

/-!
# Properties of the API, part 4: the computed table, limits and modes
-/

namespace Cal

variable {E : Env} {own : Nat → Nat} {lk : Bool} {m : Mgr}

/-! ## C17 -/

/-- `c'` holds some of the entries of `c`, anywhere; its size and hash function may differ. -/
structure Cache.Part (c' c : Cache) : Prop where
  sub : ∀ i e, c'.bins i = some e → ∃ j, c.bins j = some e
  range : ∀ i e, c'.bins i = some e → i < c'.numBins
  count : c'.numEntries = Cache.tally (fun i => Cache.used (c'.bins i)) c'.numBins

theorem Mgr.InvG.part {Γ leak} (i : m.InvG Γ leak own) {c' : Cache} (h : c'.Part m.ca) :
    Mgr.InvG Γ leak own { m with ca := c' } :=
  { i with
    ca := ⟨fun j e hj => by obtain ⟨k, hk⟩ := h.sub j e hj; exact i.ca.ent k e hk, h.count, h.range⟩ }

theorem Reachable.part (S : E.Sound) (R : Reachable E own lk m) {c' : Cache} (h : c'.Part m.ca) :
    Mgr.Inv own lk { m with ca := c' } := by
  obtain ⟨Γ, leak, hl, i⟩ := R.inv S
  exact ⟨Γ, leak, hl, i.part h⟩

/-- Losing entries of the computed table, in any way, does not change the results of the operations
that use it. -/
theorem C17_transparent (S : E.Sound) (R : Reachable E own lk m) {c' : Cache} (hc' : c'.Part m.ca)
    {T} (hT : AssocDen m m.cur T) (hc : m.cur = -1 → 2 ≤ m.codesLeft) {f F g G}
    (lf : UTab.Live own f) (lg : UTab.Live own g) (hf : Den m f F) (hg : Den m g G) :
    (∃ H, YieldsOrOverflows own m (m.exists_ E f) H ∧
      YieldsOrOverflows own m (Mgr.exists_ E { m with ca := c' } f) H) ∧
    (∃ H, YieldsOrOverflows own m (m.forAll E f) H ∧
      YieldsOrOverflows own m (Mgr.forAll E { m with ca := c' } f) H) ∧
    (∃ H, YieldsOrOverflows own m (m.relProd E f g) H ∧
      YieldsOrOverflows own m (Mgr.relProd E { m with ca := c' } f g) H) := by
  have hc1 : m.cur = -1 → 1 ≤ m.codesLeft := fun h => by have := hc h; omega
  have j := R.part S hc'
  obtain ⟨A, hA, -⟩ := hT.dom
  have c1 : m.cur = -1 → 0x8FFF + 1 ≤ m.tempOp := fun h => Mgr.codes_left (R.inv S) (hc1 h)
  have c2 : m.cur = -1 → 0x8FFF + 2 ≤ m.tempOp := fun h => Mgr.codes_left (R.inv S) (hc h)
  refine ⟨⟨_, (Mgr.exists_ok S (R.inv S) hA c1 lf hf).overflows,
    (Mgr.exists_ok (m := { m with ca := c' }) S j hA c1 lf hf).overflows⟩,
    ⟨_, (Mgr.forAll_ok S (R.inv S) hA c1 lf hf).overflows,
    (Mgr.forAll_ok (m := { m with ca := c' }) S j hA c1 lf hf).overflows⟩,
    ⟨_, (Mgr.relProd_ok S (R.inv S) hA c2 lf lg hf hg).overflows,
    (Mgr.relProd_ok (m := { m with ca := c' }) S j hA c2 lf lg hf hg).overflows⟩⟩

/-- In particular with an empty table. -/
theorem Cache.Part.flush (c : Cache) : c.flush.Part c :=
  ⟨by simp [Cache.flush], by simp [Cache.flush], by
    simp only [Cache.flush, Cache.used]; exact (sumTo_zero (fun _ _ => rfl)).symm⟩

/-- What the computed table has been through: `L` lists the insertions, as first operand, second
operand, op code and result. -/
inductive Cache.Built : Cache → List (Ptr × Ptr × Nat × Edge) → Prop
  | init (h) : Built (Cache.init h) []
  | insert {c L} (b : Built c L) (f g r : Edge) (op : Nat) (hop : op < 65536) (t : Bool) :
      Built (c.insert f g r op t) ((f.ptr, g.ptr, op, r) :: L)
  | flush {c L} (b : Built c L) : Built c.flush L
  | gcFlush {c L} (b : Built c L) (p : Nat → Bool) : Built (c.gcFlush p) L
  | flushAssoc {c L} (b : Built c L) (id : Nat) : Built (c.flushAssoc id) L
  | rehash {c L} (b : Built c L) (grow : Bool) : Built (c.rehash grow) L

theorem Cache.drop_sub {c : Cache} {p i e} (h : (c.drop p).bins i = some e) : c.bins i = some e := by
  simp only [Cache.drop] at h
  split at h
  · cases h
  · exact h

theorem Cache.rehash_sub {c : Cache} {grow i e} (h : (c.rehash grow).bins i = some e) :
    ∃ j, c.bins j = some e := by
  unfold Cache.rehash at h
  split at h
  · exact ⟨i, h⟩
  · have key : ∀ (l : List Nat) (d : Cache), (∀ i e, d.bins i = some e → ∃ j, c.bins j = some e) →
        ∀ i e, (l.foldl (fun d i => d.rehashStep (c.bins i)) d).bins i = some e →
          ∃ j, c.bins j = some e := by
      intro l
      induction l with
      | nil => intro d hd; exact hd
      | cons k l ih =>
        intro d hd
        refine ih _ ?_
        intro i e h
        simp only [Cache.rehashStep] at h
        split at h
        · exact hd i e h
        · rename_i e' he'
          split at h
          · exact hd i e h
          · simp only at h
            by_cases hi : i = d.index e'.o1 e'.o2 e'.op
            · subst hi; rw [upd_same] at h; cases h; exact ⟨k, he'⟩
            · rw [upd_ne _ _ hi] at h; exact hd i e h
    exact key _ _ (by simp) i e h

theorem Cache.Built.entry {c : Cache} {L} (b : c.Built L) : ∀ i e, c.bins i = some e →
    ∃ p q, (p, q, e.op, e.r) ∈ L ∧ (e.o1, e.o2) = Cache.sortOps p q := by
  induction b with
  | init h => intro i e hi; simp [Cache.init] at hi
  | @insert c L b f g r op hop t ih =>
    intro i e hi
    simp only [Cache.insert] at hi
    by_cases h : i = c.index f.ptr g.ptr op
    · subst h
      rw [upd_same] at hi; cases hi
      exact ⟨f.ptr, g.ptr, by simp [Nat.mod_eq_of_lt hop], rfl⟩
    · rw [upd_ne _ _ h] at hi
      obtain ⟨p, q, h1, h2⟩ := ih i e hi
      exact ⟨p, q, by simp [h1], h2⟩
  | flush b ih => intro i e hi; simp [Cache.flush] at hi
  | gcFlush b p ih =>
    intro i e hi
    unfold Cache.gcFlush at hi
    split at hi
    · exact ih i e hi
    · exact ih i e (Cache.drop_sub hi)
  | flushAssoc b id ih => intro i e hi; exact ih i e (Cache.drop_sub hi)
  | rehash b grow ih =>
    intro i e hi
    obtain ⟨j, hj⟩ := Cache.rehash_sub hi
    exact ih j e hj

/-- A hit returns what some earlier operation inserted for the same op code and the same two
operands. -/
theorem C17_lookup {c : Cache} {L} (b : c.Built L) {f g r : Edge} {op} (h : c.lookup f g op = some r) :
    (f.ptr, g.ptr, op, r) ∈ L ∨ (g.ptr, f.ptr, op, r) ∈ L := by
  unfold Cache.lookup at h
  split at h
  · cases h
  · rename_i e he
    split at h
    · rename_i hc
      cases h
      obtain ⟨p, q, h1, h2⟩ := b.entry _ _ he
      rw [hc.2.2] at h1
      have h3 : (p = f.ptr ∧ q = g.ptr) ∨ (p = g.ptr ∧ q = f.ptr) := by
        have h4 : Cache.sortOps p q = Cache.sortOps f.ptr g.ptr := by
          rw [← h2, hc.1, hc.2.1]
        unfold Cache.sortOps at h4
        split at h4 <;> split at h4 <;> simp only [Prod.mk.injEq] at h4 <;> simp [h4.1, h4.2]
      rcases h3 with ⟨rfl, rfl⟩ | ⟨rfl, rfl⟩
      · exact Or.inl h1
      · exact Or.inr h1
    · cases h

/-- What was inserted last is found. -/
theorem C17_hit (c : Cache) (f g r : Edge) {op} (hop : op < 65536) (t : Bool) :
    (c.insert f g r op t).lookup f g op = some r := by
  unfold Cache.lookup
  have : (c.insert f g r op t).index f.ptr g.ptr op = c.index f.ptr g.ptr op := rfl
  rw [this]
  simp [Cache.insert, Nat.mod_eq_of_lt hop]

example := C17_transparent Env.plain_sound Demo.reach (Cache.Part.flush _) Demo.assoc0
  (by rw [Demo.cur0]; intro h; cases h) Demo.live6 Demo.live5 Demo.den6 Demo.den5
/-- the table of the example, after a quantification, is not empty -/
example : (Demo.run Env.plain Demo.start (Demo.script ++ [.exists_ ⟨6, false⟩])).map
    (fun s => decide (s.m.ca.numEntries = 0)) = some false := by decide +kernel
example : ((Cache.init fun _ _ _ => 0).insert ⟨1, 5, false⟩ ⟨1, 4, true⟩ one 0x4000 false).lookup
    ⟨1, 4, true⟩ ⟨1, 5, false⟩ 0x4000 = some one := by decide +kernel

/-! ## C18 -/

/-- The function of a pointer to an existing node. -/
def PDen (m : Mgr) (p : Ptr) (F : BFn) : Prop :=
  (p.addr = 0 ∧ F = fun _ => !p.neg) ∨ ∃ n, m.st.heap p.addr = some n ∧
    Rep m.st ⟨n.var, p.addr, p.neg⟩ F

/-- No entry of the computed table mentions a node that does not exist (any more). -/
theorem C18_exist (S : E.Sound) (R : Reachable E own lk m) {i e} (h : m.ca.bins i = some e) :
    (∃ F, PDen m e.o1 F) ∧ (∃ F, PDen m e.o2 F) ∧ (∃ F, Rep m.st e.r F) := by
  obtain ⟨Γ, leak, hl, j⟩ := R.inv S
  have v := j.ca.ent i e h
  have aux : ∀ p : Ptr, m.st.POK p → ∃ F, PDen m p F := by
    intro p hp
    rcases hp with hp | hp
    · exact ⟨_, Or.inl ⟨hp, rfl⟩⟩
    · cases hn : m.st.heap p.addr with
      | none => exact absurd hn hp
      | some n =>
        obtain ⟨F, hF⟩ := j.wf.rep_exists (e := ⟨n.var, p.addr, p.neg⟩) (Or.inr ⟨n, hn, rfl⟩)
        exact ⟨F, Or.inr ⟨n, hn, hF⟩⟩
  exact ⟨aux _ v.p1, aux _ v.p2, j.wf.rep_exists v.res⟩

/-- Entries of the quantifications under a registered association are right about the nodes that are
there now: the result is the quantification of the conjunction of the operands. -/
theorem C18_right (S : E.Sound) (R : Reachable E own lk m) {i e} (h : m.ca.bins i = some e)
    {j T} (h0 : 0 ≤ j) (hT : AssocDen m j T) (hop : e.op = 0x4000 + j.toNat ∨ e.op = 0x5000 + j.toNat)
    {F G} (hF : PDen m e.o1 F) (hG : PDen m e.o2 G) :
    Rep m.st e.r (exFn (Dom T) fun ρ => F ρ && G ρ) := by
  obtain ⟨Γ, leak, hl, k⟩ := R.inv S
  have v := k.ca.ent i e h
  obtain ⟨A, hA, hd⟩ := hT.dom
  obtain ⟨δ, l⟩ := k.wf.exists_lab
  have aux : ∀ p F, PDen m p F → pden δ p = F := by
    rintro p F (⟨hp, rfl⟩ | ⟨n, hn, r⟩)
    · funext ρ; simp [pden, hp, l.const]
    · exact l.rep_eq r
  have hΓ : Γ e.op = exFn A.dom := by
    have hne : ¬ j = -1 := by omega
    simp only [Mgr.assoc, if_neg hne] at hA
    cases hf : m.assocs.find? (fun p => p.a.id == j) with
    | none => rw [hf] at hA; cases hA
    | some p =>
      rw [hf] at hA
      cases hA
      have hid : p.a.id = j := by simpa using List.find?_some hf
      have ok := (k.assocs p (List.mem_of_find?_eq_some hf)).1
      have hi := ok.id1
      rw [hid] at hi
      have e1 : p.a.opCode Cache.opQUANT = 0x4000 + j.toNat := by
        simp only [Assoc.opCode, hid, Cache.opQUANT]; omega
      have e2 : p.a.opCode Cache.opRELPROD = 0x5000 + j.toNat := by
        simp only [Assoc.opCode, hid, Cache.opRELPROD]; omega
      rcases hop with hop | hop
      · rw [hop, ← e1]; exact ok.quant
      · rw [hop, ← e2]; exact ok.relprod
  have := v.sem δ l
  rw [aux _ _ hF, aux _ _ hG, hΓ, hd] at this
  rw [← this]
  exact l.rep k.wf v.res

namespace Demo

/-- after a quantification: the table holds entries -/
def quant : List Call := script ++ [.exists_ ⟨6, false⟩, .free ⟨6, false⟩]
theorem quant_runs : (run Env.plain start quant).isSome = true := by decide +kernel
def qsess : Sess := go quant quant_runs
theorem qreach : Reachable Env.plain qsess.own qsess.lk qsess.m := go_reachable quant quant_runs

end Demo

/-- the entry of `∃ a. (a ∧ b) ∨ c`, there before a collection, and gone with its operand after -/
example : (Demo.qsess.m.ca.bins 0).isSome = true ∧
    Demo.qsess.m.gc.map (fun m' => (m'.ca.bins 0).isSome) = some false := by decide +kernel

/-! ## C46 -/

/-- Without a node limit no call overflows: the flag is as before, and operations do not return
null. -/
theorem C46_noLimit (S : E.Sound) (R : Reachable E own lk m) (h0 : m.nodeLimit = 0) :
    (∀ c m' ret, c ≠ Call.overflow → c.Legal own m → c.run E m = some (m', ret) →
      m'.overflow = m.overflow) ∧
    (∀ f g F G, UTab.Live own f → UTab.Live own g → Den m f F → Den m g G →
      Yields own m (m.and E f g) fun ρ => F ρ && G ρ) := by
  refine ⟨fun c m' ret hc l h => ?_, fun f g F G lf lg hf hg =>
    (C02_and S R lf lg hf hg).noLimit h0⟩
  obtain ⟨m1, r1, h1, -, -, h2⟩ := call_ok E S (R.inv S) c l
  rw [h] at h1
  cases h1
  exact (h2 hc).2 h0

/-- The flag stays set until `Cal_BddOverflow` reports it; that call clears it, and a second one
reports nothing. -/
theorem C46_sticky (S : E.Sound) (R : Reachable E own lk m) {c : Call} (l : c.Legal own m)
    {m' ret} (h : c.run E m = some (m', ret)) :
    (c ≠ .overflow → m.overflow = true → m'.overflow = true) ∧
    (c = .overflow → ret = .flag m.overflow ∧ m'.overflow = false) := by
  obtain ⟨m1, r1, h1, -, -, h2⟩ := call_ok E S (R.inv S) c l
  rw [h] at h1
  cases h1
  refine ⟨fun hc => (h2 hc).1, ?_⟩
  rintro rfl
  simp only [Call.run, Mgr.getOverflow, Option.some.injEq, Prod.mk.injEq] at h
  exact ⟨h.2.symm, by rw [← h.1]⟩

/-- `Cal_BddNodeLimit` sets the limit, none for an argument that is not positive. It
returns the previous limit. -/
theorem C46_set {n : Int} {m' ret} (h : (Call.nodeLimit n).run E m = some (m', ret)) :
    ret = .num m.nodeLimit ∧ (n ≤ 0 → m'.nodeLimit = 0) ∧ (0 ≤ n → (m'.nodeLimit : Int) = n) := by
  simp only [Call.run, Mgr.setNodeLimit, Option.some.injEq, Prod.mk.injEq] at h
  obtain ⟨rfl, rfl⟩ := h
  exact ⟨rfl, fun hn => (by show n.toNat = 0; omega), fun hn => (by show (n.toNat : Int) = n; omega)⟩

/-- The check of the limit: it is made only when about a hundred nodes have been made since the last
one, and only above the garbage collection limit; it reports an overflow exactly when after a garbage
collection more nodes than the limit are in use. An operation returns null exactly when this check at
its end reports an overflow. What is missing for the full property: between checks the limit can be
exceeded without effect, see `C46_violated`. -/
theorem C46_check_partial (E : Env) {m m' : Mgr} :
    (∀ b, m.postProc E = some (m', b) → (b = true ↔ m.st.gcCheck ≤ 0 ∧ m.gcLimit < m.st.numNodes ∧
      m'.nodeLimit ≠ 0 ∧ m'.nodeLimit < m'.st.numNodes) ∧ (b = true → m'.overflow = true)) ∧
    (∀ r h, (m.external r).2 ≠ Handle.null → m.finish E r = some (m', h) →
      (h = Handle.null ↔ ∃ m2, (m.external r).1.postProc E = some (m2, true))) := by
  constructor
  · intro b h
    obtain ⟨φ, h⟩ := Mgr.postProc_some h
    unfold Mgr.postProcP at h
    split at h
    · cases h
      exact ⟨⟨fun h => (by cases h), fun h => (by omega)⟩, fun h => (by cases h)⟩
    · rename_i hg
      simp only at h
      split at h
      · rename_i hl
        split at h
        · cases h
        · split at h
          · cases h
          · split at h
            · rename_i hn
              simp only [Option.some.injEq, Prod.mk.injEq] at h
              rw [← h.1, ← h.2.1]
              exact ⟨⟨fun _ => ⟨by omega, hl, hn.1, hn.2⟩, fun _ => rfl⟩, fun _ => rfl⟩
            · rename_i hn
              simp only [Option.some.injEq, Prod.mk.injEq] at h
              rw [← h.1, ← h.2.1]
              exact ⟨⟨fun h => by (cases h), fun h => absurd ⟨h.2.2.1, h.2.2.2⟩ hn⟩,
                fun h => by (cases h)⟩
      · rename_i hl
        cases h
        exact ⟨⟨fun h => (by cases h), fun h => absurd h.2.1 hl⟩, fun h => (by cases h)⟩
  · intro r h h0 hf
    simp only [Mgr.finish] at hf
    split at hf
    · cases hf
    · rename_i m2 hp
      cases hf
      refine ⟨fun h => absurd h h0, fun ⟨m3, h3⟩ => ?_⟩
      rw [hp] at h3; cases h3
    · rename_i m2 hp
      refine ⟨fun _ => ⟨m2, hp⟩, fun _ => ?_⟩
      split at hf
      · cases hf
      · split at hf
        · cases hf
        · cases hf; rfl

/-- An operation can go past the limit and still return a BDD. -/
theorem C46_violated : ∃ own lk m f g m' r, Reachable Env.plain own lk m ∧ UTab.Live own f ∧
    UTab.Live own g ∧ m.nodeLimit ≠ 0 ∧ m.nodeLimit < m.st.numNodes ∧
    m.and Env.plain f g = some (m', r) ∧ r ≠ Handle.null ∧ m.st.numNodes < m'.st.numNodes ∧
    m'.overflow = false := by
  obtain ⟨s, R, h⟩ := Demo.witness (cs := [.newVarLast, .newVarLast, .nodeLimit 2]) (P := fun s =>
    Demo.liveB s.own ⟨2, false⟩ && Demo.liveB s.own ⟨3, false⟩ && s.m.nodeLimit != 0 &&
    decide (s.m.nodeLimit < s.m.st.numNodes) &&
    match s.m.and Env.plain ⟨2, false⟩ ⟨3, false⟩ with
    | some (m', r) => r != Handle.null && decide (s.m.st.numNodes < m'.st.numNodes) && !m'.overflow
    | none => false) (by decide +kernel)
  split at h
  · rename_i m' r hr
    simp only [Bool.and_eq_true, bne_iff_ne, ne_eq, decide_eq_true_eq, Bool.not_eq_true'] at h
    exact ⟨s.own, s.lk, s.m, _, _, m', r, R, Demo.liveB_ok h.1.1.1.1, Demo.liveB_ok h.1.1.1.2,
      h.1.1.2, h.1.2, hr, h.2.1.1, h.2.1.2, h.2.2⟩
  · simp at h

namespace Demo

/-- All nodes with top variable `a` (handle 2) over functions of `b` and `c` (handles 3 to 9): enough
of them to make the check due. -/
def mux (k : Nat) : List Call :=
  (((List.range 7).map fun i => ((List.range 16).filter fun j => j ≠ 2 * i + 4 ∧ j ≠ 0 ∧ j ≠ 1).map
    fun j => Call.ite ⟨2, false⟩ ⟨i + 3, false⟩ ⟨j / 2 + 1, j % 2 == 1⟩).flatten ++
  ((List.range 7).map fun i => [Call.and ⟨2, false⟩ ⟨i + 3, false⟩, Call.and ⟨2, true⟩ ⟨i + 3, false⟩]).flatten).take k

/-- the variables and the functions of `b` and `c` -/
def funs : List Call := [.newVarLast, .newVarLast, .newVarLast,
  .and ⟨3, false⟩ ⟨4, false⟩, .or ⟨3, false⟩ ⟨4, false⟩, .xor ⟨3, false⟩ ⟨4, false⟩,
  .and ⟨3, false⟩ ⟨4, true⟩, .and ⟨3, true⟩ ⟨4, false⟩]

end Demo

/-- the check when it is due: the operation returns null, the flag is set, a second call reports it -/
theorem Demo.overflows : ∃ s : Demo.Sess, Reachable Env.plain s.own s.lk s.m ∧
    (!s.m.overflow && match s.m.and Env.plain ⟨2, true⟩ ⟨5, false⟩ with
      | some (m', r) => r == Handle.null && m'.overflow
      | none => false) = true :=
  Demo.witness (cs := Demo.funs ++ [.nodeLimit 5] ++ Demo.mux 97) (by decide +kernel)

/-! ## C47 -/

/-- `Cal_BddManagerSetGCLimit`: twice the number of nodes, at least 10000, at most the node limit if
there is one; nothing else changes. -/
theorem C47_limit (m : Mgr) :
    (m.nodeLimit = 0 → m.setGCLimit.gcLimit = max (2 * m.totalSize) 10000) ∧
    (m.nodeLimit ≠ 0 → m.setGCLimit.gcLimit = min (max (2 * m.totalSize) 10000) m.nodeLimit) ∧
    m.setGCLimit = { m with gcLimit := m.setGCLimit.gcLimit } := by
  refine ⟨fun h => ?_, fun h => ?_, rfl⟩
  · by_cases h1 : 2 * m.st.numNodes < 10000
    · simp [Mgr.setGCLimit, h, Mgr.totalSize, minGCLimit, h1]; omega
    · simp [Mgr.setGCLimit, h, Mgr.totalSize, minGCLimit, h1]; omega
  · by_cases h1 : 2 * m.st.numNodes < 10000
    · by_cases h2 : m.nodeLimit < 10000
      · simp [Mgr.setGCLimit, h, Mgr.totalSize, minGCLimit, h1, h2]; omega
      · simp [Mgr.setGCLimit, h, Mgr.totalSize, minGCLimit, h1, h2]; omega
    · by_cases h2 : m.nodeLimit < 2 * m.st.numNodes
      · simp [Mgr.setGCLimit, h, Mgr.totalSize, minGCLimit, h1, h2]; omega
      · simp [Mgr.setGCLimit, h, Mgr.totalSize, minGCLimit, h1, h2]; omega

example : (Mgr.setGCLimit { Mgr.init (fun _ _ _ => 0) with nodeLimit := 77 }).gcLimit = 77 :=
  ((C47_limit _).2.1 (by simp)).trans (by simp [Mgr.totalSize, Mgr.init])

/-! ## C48 -/

/-- `CalBddManagerGCCheck` does nothing when garbage collection is switched off. What is missing:
the library never calls this function; `CalBddPostProcessing` collects garbage whatever the mode is,
see `C48_violated`. -/
theorem C48_check_partial {m : Mgr} (h : m.gcMode = 0) : m.gcCheck = some m := by
  simp [Mgr.gcCheck, h]

/-- With garbage collection switched off an operation still collects garbage: a node that was there
before is gone after it. -/
theorem C48_violated : ∃ own lk m f g m' r a n, Reachable Env.plain own lk m ∧ m.gcMode = 0 ∧
    UTab.Live own f ∧ UTab.Live own g ∧ m.and Env.plain f g = some (m', r) ∧
    m.st.heap a = some n ∧ m'.st.heap a = none := by
  obtain ⟨s, R, h⟩ := Demo.witness (cs := Demo.funs ++ [.setGCMode 0, .nodeLimit 5, .nodeLimit 0] ++
    Demo.mux 97 ++ [.free ⟨13, false⟩]) (P := fun s => s.m.gcMode == 0 && Demo.liveB s.own ⟨2, true⟩ &&
      Demo.liveB s.own ⟨5, false⟩ &&
      match s.m.and Env.plain ⟨2, true⟩ ⟨5, false⟩ with
      | some (m', _) => (s.m.st.heap 13).isSome && (m'.st.heap 13).isNone
      | none => false) (by decide +kernel)
  split at h
  · rename_i m' r hr
    simp only [Bool.and_eq_true, beq_iff_eq, Option.isSome_iff_exists, Option.isNone_iff_eq_none] at h
    obtain ⟨⟨⟨h1, h2⟩, h3⟩, ⟨n, h4⟩, h5⟩ := h
    exact ⟨s.own, s.lk, s.m, _, _, m', r, 13, n, R, h1, Demo.liveB_ok h2, Demo.liveB_ok h3, hr, h4, h5⟩
  · simp at h

/-! ## C50 -/

/-- While there are codes left, no entry of the computed table has the op code that the next
quantification under the temporary association will use. What is missing: the codes are not renewed,
see `C50_violated`. -/
theorem C50_fresh_partial (S : E.Sound) (R : Reachable E own lk m) {k} (hk : k < m.codesLeft) {i e}
    (h : m.ca.bins i = some e) : e.op ≠ m.tempOp - k := by
  obtain ⟨Γ, leak, hl, j⟩ := R.inv S
  have h1 := j.top
  have h2 := j.top'
  have h3 : k < m.tempOp - 36863 := hk
  refine (j.ca.ent i e h).ne_op j.wf (j.fresh _ ⟨by omega, ?_, ?_⟩)
  · intro h4
    have h5 : m.tempOp - k = 12288 := h4
    omega
  · intro p hp
    have ok := (j.assocs p hp).1
    have h4 := ok.id0
    have h5 := ok.id1
    have aux : ∀ b : Nat, b ≤ 32768 → m.tempOp - k ≠ p.a.opCode b := by
      intro b hb
      simp only [Assoc.opCode]
      omega
    exact ⟨aux _ (by decide), aux _ (by decide), aux _ (by decide)⟩

end Cal
