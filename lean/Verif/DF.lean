import Verif.Cache
import Verif.Spec
import Verif.Kernels
import Verif.KernelLaws

/-!
# Depth-first operations with the result cache

`BddDFStep`, `BddExistsStep`, `BddRelProdStep` (calQuant.c:372-401, 253-296, 300-368). The state is the store together with the
cache.
-/

namespace Cal

/-- Unique tables and result cache. -/
structure Core where
  st : Store
  ca : Cache

/-- `CalBddGetCofactors` (calInt.h:639-649): the children if the top variable is `id`, otherwise the
edge itself twice. -/
def Store.cofs (s : Store) (e : Edge) (id : Nat) : Option (Edge × Edge) :=
  if e.id = id then s.kids e else some (e, e)

/-- `CalUniqueTableForIdFindOrAdd` (calHashTable.c:376-400) and reference counts, on the store of a core. -/
def Core.mkNode (c : Core) (id : Nat) (t e : Edge) : Core × Edge :=
  ({ c with st := (c.st.mkNode id t e).1 }, (c.st.mkNode id t e).2)

/-- `CalCacheTableTwoInsert` (calCacheTableTwo.c:230-280) with level 0. -/
def Core.insert (c : Core) (f g r : Edge) (op : Nat) : Core :=
  { c with ca := c.ca.insert f g r op false }

/-- `BddDFStep` (calQuant.c:369-402) with the terminal-case function `op` and op code `code`. The
recursion depth is given by `fuel`; `none` means that it ran out or that the children of a constant
were read. -/
def dfStep (op : Edge → Edge → Option Edge) (code : Nat) : Nat → Core → Edge → Edge →
    Option (Core × Edge)
  | 0, _, _, _ => none
  | k + 1, c, f0, g0 =>
    match op f0 g0 with
    | some r => some (c, r)
    | none =>
      let f := (normalize (f0, g0)).1
      let g := (normalize (f0, g0)).2
      match c.ca.lookup f g code with
      | some r => some (c, r)
      | none =>
        let top := minId2 c.st.ord (f, g)
        match c.st.cofs f top, c.st.cofs g top with
        | some (fx, fxbar), some (gx, gxbar) =>
          match dfStep op code k c fx gx with
          | some (c1, t1) =>
            match dfStep op code k c1 fxbar gxbar with
            | some (c2, t2) =>
              let (c3, r) := c2.mkNode top t1 t2
              some (c3.insert f g r code, r)
            | none => none
          | none => none
        | _, _ => none

/-- `CalAssociationStruct` (calInt.h): `id` is -1 for the temporary association, `var v` the value
associated with variable `v` (`none` is null), `last` is `lastBddIndex` (-1 if nothing is
associated). -/
structure Assoc where
  id : Int
  var : Nat → Option Edge
  last : Int

/-- `CAL_OP_QUANT + assoc->id` as an unsigned short. -/
def Assoc.opCode (base : Nat) (A : Assoc) : Nat := ((base : Int) + A.id).toNat % 65536

/-- `BddExistsStep` (calQuant.c:251-296). -/
def existsStep (A : Assoc) (code : Nat) : Nat → Core → Edge → Option (Core × Edge)
  | 0, _, _ => none
  | k + 1, c, f =>
    if (c.st.elvl f : Int) > A.last then some (c, f)
    else
      match c.ca.lookup f one code with
      | some r => some (c, r)
      | none =>
        let quantifying := (A.var f.id).isSome
        match c.st.cofs f f.id with
        | none => none
        | some (f1, f2) =>
          match existsStep A code k c f1 with
          | none => none
          | some (c1, t1) =>
            if quantifying && t1.same one then some (c1.insert f one t1 code, t1)
            else
              match existsStep A code k c1 f2 with
              | none => none
              | some (c2, t2) =>
                if quantifying then
                  match dfStep opNand Cache.opNAND (c2.st.ord.numVars + 1) c2 t1.not t2.not with
                  | none => none
                  | some (c3, r) => some (c3.insert f one r code, r)
                else
                  let (c3, r) := c2.mkNode f.id t1 t2
                  some (c3.insert f one r code, r)

/-- `CalOpRelProd` (calQuant.c:235-249). -/
def opRelProd (f g : Edge) : Option Edge :=
  if f.same zero || g.same zero || (f.addr == g.addr && f.neg != g.neg) then some zero
  else if f.isOne && g.isOne then some one
  else none

/-- `BddRelProdStep` (calQuant.c:300-368). `opCode--` on an unsigned short. -/
def relProdStep (A : Assoc) (code : Nat) : Nat → Core → Edge → Edge → Option (Core × Edge)
  | 0, _, _, _ => none
  | k + 1, c, f0, g0 =>
    if f0.isConst || g0.isConst then
      if f0.same zero || g0.same zero then some (c, zero)
      else
        let code' := if A.id ≠ -1 then A.opCode Cache.opQUANT else (code + 65535) % 65536
        if f0.isOne then existsStep A code' (c.st.ord.numVars + 1) c g0
        else existsStep A code' (c.st.ord.numVars + 1) c f0
    else if (c.st.elvl f0 : Int) > A.last ∧ (c.st.elvl g0 : Int) > A.last then
      match dfStep opNand Cache.opNAND (c.st.ord.numVars + 1) c f0 g0 with
      | none => none
      | some (c1, r) => some (c1, r.not)
    else
      match opRelProd f0 g0 with
      | some r => some (c, r)
      | none =>
        let f := (normalize (f0, g0)).1
        let g := (normalize (f0, g0)).2
        match c.ca.lookup f g code with
        | some r => some (c, r)
        | none =>
          let top := minId2 c.st.ord (f, g)
          let quantifying := (A.var top).isSome
          match c.st.cofs f top, c.st.cofs g top with
          | some (f1, f2), some (g1, g2) =>
            match relProdStep A code k c f1 g1 with
            | none => none
            | some (c1, t1) =>
              if quantifying && t1.isOne then some (c1.insert f g t1 code, t1)
              else
                match relProdStep A code k c1 f2 g2 with
                | none => none
                | some (c2, t2) =>
                  if quantifying then
                    match dfStep opNand Cache.opNAND (c2.st.ord.numVars + 1) c2 t1.not t2.not with
                    | none => none
                    | some (c3, r) => some (c3.insert f g r code, r)
                  else
                    let (c3, r) := c2.mkNode top t1 t2
                    some (c3.insert f g r code, r)
          | _, _ => none

/-! ## Correctness -/

/-- `c'` extends `c`: nodes are only added, everything keeps its function, the cache is valid. -/
structure Ext (Γ : Nat → BFn → BFn) (c : Core) (δ : Nat → BFn) (c' : Core) (δ' : Nat → BFn) :
    Prop where
  wf : c'.st.WF
  ca : c'.ca.Valid c'.st Γ
  lab : Lab c'.st δ'
  le : c.st.Le c'.st
  agree : ∀ a, (a = 0 ∨ c.st.heap a ≠ none) → δ' a = δ a
  keep : c.st.Keep c'.st

theorem Ext.refl {Γ c δ} (w : c.st.WF) (v : c.ca.Valid c.st Γ) (l : Lab c.st δ) :
    Ext Γ c δ c δ :=
  ⟨w, v, l, Store.Le.refl _, fun _ _ => rfl, Store.Keep.refl _⟩

theorem Store.EOK.alive {s : Store} {e : Edge} (h : s.EOK e) : e.addr = 0 ∨ s.heap e.addr ≠ none := by
  rcases h with ⟨_, h⟩ | ⟨n, h, _⟩
  · exact Or.inl h
  · exact Or.inr (by rw [h]; simp)

theorem Ext.trans {Γ c δ c1 δ1 c2 δ2} (h : Ext Γ c δ c1 δ1) (g : Ext Γ c1 δ1 c2 δ2) :
    Ext Γ c δ c2 δ2 := by
  refine ⟨g.wf, g.ca, g.lab, h.le.trans g.le, ?_, h.keep.trans g.keep⟩
  intro a ha
  rw [g.agree a ?_, h.agree a ha]
  rcases ha with ha | ha
  · exact Or.inl ha
  · right
    cases hn : c.st.heap a with
    | none => exact absurd hn ha
    | some n => rw [h.le.heap a n hn]; simp

theorem Ext.den {Γ c δ c' δ'} (h : Ext Γ c δ c' δ') {e : Edge} (he : c.st.EOK e) :
    den δ' e = den δ e := by
  funext ρ; simp only [Cal.den]; rw [h.agree _ he.alive]

theorem Ext.eok {Γ c δ c' δ'} (h : Ext Γ c δ c' δ') {e : Edge} (he : c.st.EOK e) :
    c'.st.EOK e := he.mono h.le

/-- The outcome of a depth-first step: success, with a result that stands for `F`. -/
def COk (Γ : Nat → BFn → BFn) (c : Core) (δ : Nat → BFn) (out : Option (Core × Edge)) (F : BFn) :
    Prop :=
  ∃ c' r δ', out = some (c', r) ∧ Ext Γ c δ c' δ' ∧ c'.st.EOK r ∧ den δ' r = F

theorem cofs_spec {s : Store} (w : s.WF) {δ} (hδ : Lab s δ) {e : Edge} (he : s.EOK e) {v : Nat}
    (hv : 1 ≤ v ∧ v ≤ s.ord.numVars) (hl : s.ord.lvl v ≤ s.ord.lvl e.id) :
    ∃ t u, s.cofs e v = some (t, u) ∧ s.EOK t ∧ s.EOK u ∧ s.ord.lvl v < s.ord.lvl t.id ∧
      s.ord.lvl v < s.ord.lvl u.id ∧ ∀ ρ, den δ e ρ = if ρ v then den δ t ρ else den δ u ρ := by
  by_cases hc : e.id = v
  · subst hc
    obtain ⟨n, hn, hvar⟩ := he.node w (by omega)
    have hk : s.cofs e e.id = some (n.thn.phase e.neg, n.els.phase e.neg) := by
      simp [Store.cofs, Store.kids, hn]
    refine ⟨_, _, hk, (w.thn_ok _ _ hn).phase _, (w.els_ok _ _ hn).phase _, ?_, ?_, ?_⟩
    · rw [Edge.phase_id, ← hvar]; exact w.thn_lt _ _ hn
    · rw [Edge.phase_id, ← hvar]; exact w.els_lt _ _ hn
    · intro ρ
      rw [den_phase, den_phase]
      show xor e.neg (δ e.addr ρ) = _
      rw [hδ.node _ _ hn, ← hvar]
      by_cases hr : ρ n.var = true <;> simp [hr]
  · have hlt : s.ord.lvl v < s.ord.lvl e.id := by
      rcases Nat.lt_or_ge (s.ord.lvl v) (s.ord.lvl e.id) with h | h
      · exact h
      · have heq : s.ord.lvl e.id = s.ord.lvl v := by omega
        by_cases h0 : e.id = 0
        · rw [h0] at heq
          have := w.ord.lvl_lt hv.1 hv.2
          have := w.ord.bound
          rw [Order.lvl_zero] at heq; omega
        · obtain ⟨n, hn, hvar⟩ := he.node w h0
          have hr := w.var_range _ _ hn
          rw [hvar] at hr
          exact absurd (w.ord.lvl_inj hr.1 hr.2 hv.1 hv.2 heq) hc
    refine ⟨e, e, by simp [Store.cofs, hc], he, he, hlt, hlt, fun ρ => by simp⟩

theorem Indep.not {F : BFn} {v} (h : Indep F v) : Indep (fun ρ => !F ρ) v := fun ρ b => by
  simp only [h ρ b]
theorem Indep.and {F G : BFn} {v} (h : Indep F v) (h' : Indep G v) :
    Indep (fun ρ => F ρ && G ρ) v := fun ρ b => by simp only [h ρ b, h' ρ b]

/-- `CalUniqueTableForIdFindOrAdd` on a core. -/
theorem Core.mkNode_ok {Γ} {c : Core} (w : c.st.WF) (v : c.ca.Valid c.st Γ) {δ} (hδ : Lab c.st δ)
    {i : Nat} {t e : Edge} (hi : 1 ≤ i ∧ i ≤ c.st.ord.numVars) (ht : c.st.EOK t) (he : c.st.EOK e)
    (l1 : c.st.ord.lvl i < c.st.ord.lvl t.id) (l2 : c.st.ord.lvl i < c.st.ord.lvl e.id) :
    COk Γ c δ (some (c.mkNode i t e)) (fun ρ => if ρ i then den δ t ρ else den δ e ρ) := by
  obtain ⟨s', r, δ', h1, h2, h3, h4, h5, h6, h7, h8⟩ := Cal.mkNode_ok w hδ hi ht he l1 l2
  injection h1 with h1
  refine ⟨_, _, δ', rfl, ⟨?_, ?_, ?_, ?_, h6, ?_⟩, ?_, ?_⟩ <;>
    simp only [h1] <;> first | assumption | exact v.mono h3

/-- Remembering a result. -/
theorem COk.insert {Γ c δ c' r F} (h : COk Γ c δ (some (c', r)) F) {f g : Edge} {op : Nat}
    (hop : op ≠ 0) (hop' : op < 65536) (hf : c.st.EOK f) (hg : c.st.EOK g)
    (hs : F = Γ op (fun ρ => den δ f ρ && den δ g ρ)) :
    COk Γ c δ (some (c'.insert f g r op, r)) F := by
  obtain ⟨_, _, δ', h1, x, hr, hF⟩ := h
  cases h1
  refine ⟨_, _, δ', rfl, ⟨x.wf, ?_, x.lab, x.le, x.agree, x.keep⟩, hr, hF⟩
  refine x.ca.insert hop hop' (x.eok hf) (x.eok hg) hr ?_
  intro δ2 l2
  have : ∀ e, c'.st.EOK e → Cal.den δ2 e = Cal.den δ' e := fun e he =>
    l2.rep_eq (x.lab.rep x.wf he)
  rw [this _ hr, this _ (x.eok hf), this _ (x.eok hg), x.den hf, x.den hg, hF, hs]

theorem minId2_or (o : Order) (p : Edge × Edge) : minId2 o p = p.1.id ∨ minId2 o p = p.2.id := by
  unfold minId2; split <;> simp

theorem minId2_le (o : Order) (p : Edge × Edge) :
    o.lvl (minId2 o p) ≤ o.lvl p.1.id ∧ o.lvl (minId2 o p) ≤ o.lvl p.2.id := by
  unfold minId2; split <;> constructor <;> omega

/-- the top variable of two non-constant operands -/
theorem minId2_range {s : Store} (w : s.WF) {f g : Edge} (hf : s.EOK f) (hg : s.EOK g)
    (h1 : f.id ≠ 0) (h2 : g.id ≠ 0) :
    1 ≤ minId2 s.ord (f, g) ∧ minId2 s.ord (f, g) ≤ s.ord.numVars := by
  have aux : ∀ e : Edge, s.EOK e → e.id ≠ 0 → 1 ≤ e.id ∧ e.id ≤ s.ord.numVars := by
    intro e he h
    obtain ⟨n, hn, hv⟩ := he.node w h
    have := w.var_range _ _ hn
    rw [hv] at this; exact this
  rcases minId2_or s.ord (f, g) with h | h <;> rw [h]
  · exact aux f hf h1
  · exact aux g hg h2

theorem normalize_cases (f g : Edge) :
    normalize (f, g) = (f, g) ∨ normalize (f, g) = (g, f) := by
  unfold normalize; split <;> simp

/-- `BddDFStep` computes NAND. -/
theorem dfStep_ok {Γ} {code : Nat} (hΓ : Γ code = fun F ρ => !F ρ) (hop : code ≠ 0)
    (hop' : code < 65536) : ∀ (k : Nat) {c : Core} (_ : c.st.WF) (_ : c.ca.Valid c.st Γ) {δ}
    (_ : Lab c.st δ) {f g : Edge} (_ : c.st.EOK f) (_ : c.st.EOK g) (_ : 1 ≤ k)
    (_ : c.st.ord.numVars + 1 ≤ k + c.st.ord.lvl f.id)
    (_ : c.st.ord.numVars + 1 ≤ k + c.st.ord.lvl g.id),
    COk Γ c δ (dfStep opNand code k c f g) (fun ρ => !(den δ f ρ && den δ g ρ)) := by
  intro k
  induction k with
  | zero => intro c _ _ δ _ f g _ _ h; omega
  | succ k ih =>
    intro c w v δ hδ f0 g0 hf0 hg0 _ hk1 hk2
    simp only [dfStep]
    cases ht : opNand f0 g0 with
    | some r =>
      obtain ⟨hs, hcl⟩ := opNand_law.hit δ f0 g0 r hδ.const (hf0.addr_zero w).symm
        (hg0.addr_zero w).symm ht
      refine ⟨c, r, δ, rfl, Ext.refl w v hδ, ?_, (funext hs).symm⟩
      rcases hcl with rfl | rfl | ⟨o, ho, h⟩
      · exact Store.EOK_one _
      · exact Store.EOK_zero _
      · have : c.st.EOK o := by
          simp at ho; rcases ho with rfl | rfl <;> assumption
        rcases h with rfl | rfl
        · exact this
        · exact this.not
    | none =>
      obtain ⟨n1, n2⟩ := opNand_law.miss _ _ ht
      have main : ∀ f g : Edge, c.st.EOK f → c.st.EOK g → f.id ≠ 0 → g.id ≠ 0 →
          c.st.ord.numVars + 1 ≤ k + 1 + c.st.ord.lvl f.id →
          c.st.ord.numVars + 1 ≤ k + 1 + c.st.ord.lvl g.id →
          COk Γ c δ (match c.ca.lookup f g code with
            | some r => some (c, r)
            | none =>
              match c.st.cofs f (minId2 c.st.ord (f, g)), c.st.cofs g (minId2 c.st.ord (f, g)) with
              | some (fx, fxbar), some (gx, gxbar) =>
                match dfStep opNand code k c fx gx with
                | some (c1, t1) =>
                  match dfStep opNand code k c1 fxbar gxbar with
                  | some (c2, t2) =>
                    some ((c2.mkNode (minId2 c.st.ord (f, g)) t1 t2).1.insert f g
                      (c2.mkNode (minId2 c.st.ord (f, g)) t1 t2).2 code,
                      (c2.mkNode (minId2 c.st.ord (f, g)) t1 t2).2)
                  | none => none
                | none => none
              | _, _ => none) (fun ρ => !(den δ f ρ && den δ g ρ)) := by
        intro f g hf hg m1 m2 hk1 hk2
        cases hl : c.ca.lookup f g code with
        | some r =>
          obtain ⟨hr, hsem⟩ := v.lookup hl
          refine ⟨c, r, δ, rfl, Ext.refl w v hδ, hr, ?_⟩
          rw [hsem δ hδ, hΓ]
        | none =>
          have hr := minId2_range w hf hg m1 m2
          have hle := minId2_le c.st.ord (f, g)
          generalize htop : minId2 c.st.ord (f, g) = top at *
          obtain ⟨fx, fb, ef, okfx, okfb, lfx, lfb, sf⟩ := cofs_spec w hδ hf hr hle.1
          obtain ⟨gx, gb, eg, okgx, okgb, lgx, lgb, sg⟩ := cofs_spec w hδ hg hr hle.2
          have hlvl := w.ord.lvl_lt hr.1 hr.2
          have hkt : c.st.ord.numVars + 1 ≤ k + 1 + c.st.ord.lvl top := by
            rcases minId2_or c.st.ord (f, g) with h | h <;> rw [htop] at h <;> rw [h] <;> assumption
          rw [ef, eg]
          simp only
          obtain ⟨c1, t1, δ1, e1, x1, ok1, s1⟩ := ih w v hδ okfx okgx (by omega) (by omega)
            (by omega)
          rw [e1]; simp only
          have ho1 : c1.st.ord = c.st.ord := x1.le.ord
          obtain ⟨c2, t2, δ2, e2, x2, ok2, s2⟩ := ih x1.wf x1.ca x1.lab (x1.eok okfb) (x1.eok okgb)
            (by omega) (by rw [ho1]; omega) (by rw [ho1]; omega)
          rw [e2]; simp only
          have ho2 : c2.st.ord = c.st.ord := x2.le.ord.trans ho1
          have x := x1.trans x2
          have d1 : den δ2 t1 = fun ρ => !(den δ fx ρ && den δ gx ρ) := by rw [x2.den ok1, s1]
          have d2 : den δ2 t2 = fun ρ => !(den δ fb ρ && den δ gb ρ) := by
            rw [s2, x1.den okfb, x1.den okgb]
          have hc : c.st.ord.lvl top + 1 ≤ constIndex := by
            have := w.ord.bound; omega
          have L1 : c.st.ord.lvl top + 1 ≤ c2.st.ord.lvl t1.id := by
            refine x2.lab.lvl_ge x2.wf (x2.eok ok1) hc ?_
            intro u _ _ hu
            rw [ho2] at hu
            rw [d1]
            exact ((hδ.indep w okfx (by omega)).and (hδ.indep w okgx (by omega))).not
          have L2 : c.st.ord.lvl top + 1 ≤ c2.st.ord.lvl t2.id := by
            refine x2.lab.lvl_ge x2.wf ok2 hc ?_
            intro u _ _ hu
            rw [ho2] at hu
            rw [d2]
            exact ((hδ.indep w okfb (by omega)).and (hδ.indep w okgb (by omega))).not
          obtain ⟨c3, r, δ3, e3, x3, ok3, s3⟩ := Core.mkNode_ok (Γ := Γ) x2.wf x2.ca x2.lab
            (by rw [ho2]; exact hr) (x2.eok ok1) ok2 (by rw [ho2] at L1 ⊢; omega)
            (by rw [ho2] at L2 ⊢; omega)
          injection e3 with e3
          refine COk.insert (F := _) ⟨_, _, δ3, rfl, ?_, ?_, ?_⟩ hop hop' hf hg ?_
          · rw [e3]; exact x.trans x3
          · rw [e3]; exact ok3
          · rw [e3, s3, d1, d2]
            funext ρ
            rw [sf ρ, sg ρ]
            by_cases hr : ρ top = true <;> simp [hr]
          · rw [hΓ]
      rcases normalize_cases f0 g0 with h | h
      · simp only [h]; exact main f0 g0 hf0 hg0 n1 n2 hk1 hk2
      · simp only [h]
        have := main g0 f0 hg0 hf0 n2 n1 hk2 hk1
        simpa only [Bool.and_comm] using this

/-! ### Quantification -/

/-- the variables an association associates with something -/
def Assoc.dom (A : Assoc) (v : Nat) : Prop := (A.var v).isSome = true

/-- `lastBddIndex` is the largest index of an associated variable, or -1 if there is none. -/
structure Assoc.OK (A : Assoc) (o : Order) : Prop where
  rng : ∀ v, A.dom v → 1 ≤ v ∧ v ≤ o.numVars
  le : ∀ v, A.dom v → (o.lvl v : Int) ≤ A.last
  lt : A.last < o.numVars
  ex : A.last = -1 ∨ ∃ v, A.dom v ∧ (o.lvl v : Int) = A.last

/-- A function of an edge only looks at variables from the top variable downwards. -/
theorem Rep.agree {s : Store} (w : s.WF) {e F} (h : Rep s e F) : ∀ (σ ρ : Asg),
    (∀ v, 1 ≤ v → v ≤ s.ord.numVars → s.ord.lvl e.id ≤ s.ord.lvl v → σ v = ρ v) → F σ = F ρ := by
  induction h with
  | one => intros; rfl
  | zero => intros; rfl
  | @pos a n F G hn ht he iht ihe =>
    intro σ ρ hag
    have h1 := w.thn_lt _ _ hn
    have h2 := w.els_lt _ _ hn
    have hv := w.var_range _ _ hn
    simp only at hag
    have := iht σ ρ (fun v a b c => hag v a b (by omega))
    have := ihe σ ρ (fun v a b c => hag v a b (by omega))
    have := hag n.var hv.1 hv.2 (Nat.le_refl _)
    simp only [*]
  | @neg a n F G hn ht he iht ihe =>
    intro σ ρ hag
    have h1 := w.thn_lt _ _ hn
    have h2 := w.els_lt _ _ hn
    have hv := w.var_range _ _ hn
    simp only at hag
    have := iht σ ρ (fun v a b c => hag v a b (by omega))
    have := ihe σ ρ (fun v a b c => hag v a b (by omega))
    have := hag n.var hv.1 hv.2 (Nat.le_refl _)
    simp only [*]

theorem Lab.agree {s : Store} (w : s.WF) {δ} (hδ : Lab s δ) {e : Edge} (he : s.EOK e) {σ ρ : Asg}
    (h : ∀ v, 1 ≤ v → v ≤ s.ord.numVars → s.ord.lvl e.id ≤ s.ord.lvl v → σ v = ρ v) :
    den δ e σ = den δ e ρ := (hδ.rep w he).agree w σ ρ h

/-- nothing to quantify below `lastBddIndex` -/
theorem Assoc.OK.below {A : Assoc} {s : Store} (ha : A.OK s.ord) (w : s.WF) {δ} (hδ : Lab s δ)
    {e : Edge} (he : s.EOK e) (hl : (s.ord.lvl e.id : Int) > A.last) {σ ρ : Asg}
    (h : ∀ v, ¬ A.dom v → σ v = ρ v) : den δ e σ = den δ e ρ := by
  refine hδ.agree w he fun v h1 h2 h3 => h v fun hd => ?_
  have := ha.le v hd
  omega

theorem same_one {s : Store} (w : s.WF) {e : Edge} (he : s.EOK e) (h : e.same one = true) :
    e = one := by
  simp only [Edge.same, one_addr, one_neg, Bool.and_eq_true, beq_iff_eq] at h
  exact Edge.ext' ((he.addr_zero w).1 h.1) h.1 h.2

theorem same_zero {s : Store} (w : s.WF) {e : Edge} (he : s.EOK e) (h : e.same zero = true) :
    e = zero := by
  simp only [Edge.same, zero_addr, zero_neg, Bool.and_eq_true, beq_iff_eq] at h
  exact Edge.ext' ((he.addr_zero w).1 h.1) h.1 h.2

theorem isOne_same (e : Edge) : e.isOne = e.same one := by
  obtain ⟨i, a, n⟩ := e; cases n <;> simp [Edge.isOne, Edge.same, one]

/-- The common last part of the two quantification steps: combine the results for the cofactors of
a variable that is, or is not, quantified. -/
theorem quant_join {Γ} {A : Assoc} (hN : Γ Cache.opNAND = fun F ρ => !F ρ)
    {c c2 : Core} {δ δ2} (w : c.st.WF) (x : Ext Γ c δ c2 δ2) {top : Nat}
    (hr : 1 ≤ top ∧ top ≤ c.st.ord.numVars) {F F1 F2 : BFn}
    (hF : ∀ ρ, F ρ = if ρ top then F1 ρ else F2 ρ)
    (i1 : ∀ u, c.st.ord.lvl u < c.st.ord.lvl top + 1 → Indep F1 u)
    (i2 : ∀ u, c.st.ord.lvl u < c.st.ord.lvl top + 1 → Indep F2 u)
    {t1 t2 : Edge} (ok1 : c2.st.EOK t1) (ok2 : c2.st.EOK t2)
    (d1 : den δ2 t1 = exFn A.dom F1)
    (d2 : den δ2 t2 = exFn A.dom F2) {f g : Edge} {code : Nat} :
    code ≠ 0 → code < 65536 → c.st.EOK f → c.st.EOK g →
    exFn A.dom F = Γ code (fun ρ => den δ f ρ && den δ g ρ) →
    COk Γ c δ (if (A.var top).isSome = true then
        match dfStep opNand Cache.opNAND (c2.st.ord.numVars + 1) c2 t1.not t2.not with
        | none => none
        | some (c3, r) => some (c3.insert f g r code, r)
      else some ((c2.mkNode top t1 t2).1.insert f g (c2.mkNode top t1 t2).2 code,
        (c2.mkNode top t1 t2).2))
      (exFn A.dom F) := by
  intro hop hop' hf hg hsem
  have ho2 : c2.st.ord = c.st.ord := x.le.ord
  have hlvl := w.ord.lvl_lt hr.1 hr.2
  have hc : c.st.ord.lvl top + 1 ≤ constIndex := by
    have := w.ord.bound; omega
  by_cases hq : (A.var top).isSome = true
  · rw [if_pos hq]
    obtain ⟨c3, r, δ3, e3, x3, ok3, s3⟩ := dfStep_ok hN (by decide) (by decide)
      (c2.st.ord.numVars + 1) x.wf x.ca x.lab ok1.not ok2.not (by omega) (by omega) (by omega)
    rw [e3]
    refine COk.insert ⟨_, _, δ3, rfl, x.trans x3, ok3, ?_⟩ hop hop' hf hg hsem
    have hd : A.dom top := hq
    rw [s3, den_not, den_not, d1, d2, exFn_split hd hF (i1 _ (by omega)) (i2 _ (by omega))]
    funext ρ; simp
  · rw [if_neg hq]
    have L1 : c.st.ord.lvl top + 1 ≤ c2.st.ord.lvl t1.id := by
      refine x.lab.lvl_ge x.wf ok1 hc ?_
      intro u _ _ hu
      rw [ho2] at hu
      rw [d1]; exact exFn_indep' (i1 u hu)
    have L2 : c.st.ord.lvl top + 1 ≤ c2.st.ord.lvl t2.id := by
      refine x.lab.lvl_ge x.wf ok2 hc ?_
      intro u _ _ hu
      rw [ho2] at hu
      rw [d2]; exact exFn_indep' (i2 u hu)
    obtain ⟨c3, r, δ3, e3, x3, ok3, s3⟩ := Core.mkNode_ok (Γ := Γ) x.wf x.ca x.lab
      (by rw [ho2]; exact hr) ok1 ok2 (by rw [ho2] at L1 ⊢; omega) (by rw [ho2] at L2 ⊢; omega)
    injection e3 with e3
    refine COk.insert (F := _) ⟨_, _, δ3, rfl, ?_, ?_, ?_⟩ hop hop' hf hg hsem
    · rw [e3]; exact x.trans x3
    · rw [e3]; exact ok3
    · rw [e3, s3, d1, d2, exFn_node (hq) hF]

theorem den_one_and {s : Store} {δ} (hδ : Lab s δ) (F : BFn) :
    (fun ρ => F ρ && den δ one ρ) = F := by
  rw [hδ.den_one]; funext ρ; simp

/-- `BddExistsStep` computes existential quantification. -/
theorem existsStep_ok {Γ} {A : Assoc} {n code : Nat} (hN : Γ Cache.opNAND = fun F ρ => !F ρ)
    (hΓ : Γ code = exFn A.dom) (hop : code ≠ 0) (hop' : code < 65536) :
    ∀ (k : Nat) {c : Core} (_ : c.st.ord.numVars = n) (_ : A.OK c.st.ord) (_ : c.st.WF)
    (_ : c.ca.Valid c.st Γ) {δ}
    (_ : Lab c.st δ) {f : Edge} (_ : c.st.EOK f) (_ : 1 ≤ k) (_ : n + 1 ≤ k + c.st.ord.lvl f.id),
    COk Γ c δ (existsStep A code k c f) (exFn A.dom (den δ f)) := by
  intro k
  induction k with
  | zero => intro c _ _ _ _ δ _ f _ h; omega
  | succ k ih =>
    intro c hn ha w v δ hδ f hf _ hk
    subst hn
    simp only [existsStep]
    by_cases hlast : (c.st.elvl f : Int) > A.last
    · rw [if_pos hlast]
      exact ⟨c, f, δ, rfl, Ext.refl w v hδ, hf,
        (exFn_id fun ρ σ h => ha.below w hδ hf hlast h).symm⟩
    · rw [if_neg hlast]
      cases hl : c.ca.lookup f one code with
      | some r =>
        obtain ⟨hr, hsem⟩ := v.lookup hl
        refine ⟨c, r, δ, rfl, Ext.refl w v hδ, hr, ?_⟩
        rw [hsem δ hδ, hΓ, den_one_and hδ]
      | none =>
        simp only
        have hc : f.id ≠ 0 := by
          intro h
          have := ha.lt
          have := w.ord.bound
          simp only [Store.elvl, h, Order.lvl_zero] at hlast
          omega
        have hr : 1 ≤ f.id ∧ f.id ≤ c.st.ord.numVars := by
          obtain ⟨n, hn, hv⟩ := hf.node w hc
          have := w.var_range _ _ hn
          rw [hv] at this; exact this
        have hlvl := w.ord.lvl_lt hr.1 hr.2
        obtain ⟨f1, f2, ef, ok1, ok2, l1, l2, sf⟩ := cofs_spec w hδ hf hr (Nat.le_refl _)
        rw [ef]; simp only
        obtain ⟨c1, t1, δ1, e1, x1, okt1, s1⟩ := ih rfl ha w v hδ ok1 (by omega) (by omega)
        rw [e1]; simp only
        have ho1 : c1.st.ord = c.st.ord := x1.le.ord
        have i1 : ∀ u, c.st.ord.lvl u < c.st.ord.lvl f.id + 1 → Indep (den δ f1) u :=
          fun u hu => hδ.indep w ok1 (by omega)
        have i2 : ∀ u, c.st.ord.lvl u < c.st.ord.lvl f.id + 1 → Indep (den δ f2) u :=
          fun u hu => hδ.indep w ok2 (by omega)
        have hsem : exFn A.dom (den δ f) =
            Γ code (fun ρ => den δ f ρ && den δ one ρ) := by rw [hΓ, den_one_and hδ]
        by_cases hq : ((A.var f.id).isSome && t1.same one) = true
        · rw [if_pos hq]
          rw [Bool.and_eq_true] at hq
          have ht1 := same_one x1.wf okt1 hq.2
          refine COk.insert ⟨_, _, δ1, rfl, x1, okt1, ?_⟩ hop hop' hf (Store.EOK_one _) hsem
          have hd : A.dom f.id := hq.1
          rw [exFn_split hd sf (i1 _ (by omega)) (i2 _ (by omega)), ← s1, ht1, x1.lab.den_one]
          funext ρ; simp
        · rw [if_neg hq]
          obtain ⟨c2, t2, δ2, e2, x2, okt2, s2⟩ := ih (by rw [ho1]) (by rw [ho1]; exact ha) x1.wf
            x1.ca x1.lab (x1.eok ok2) (by omega) (by rw [ho1]; omega)
          rw [e2]; simp only
          exact quant_join hN w (x1.trans x2) hr sf i1 i2 (x2.eok okt1) okt2
            (by rw [x2.den okt1, s1]) (by rw [s2, x1.den ok2]) hop hop' hf (Store.EOK_one _) hsem

theorem opRelProd_hit {s : Store} (w : s.WF) {δ} (hδ : Lab s δ) {f g r : Edge} (hf : s.EOK f)
    (hg : s.EOK g) (h : opRelProd f g = some r) (V : Nat → Prop) :
    s.EOK r ∧ den δ r = exFn V (fun ρ => den δ f ρ && den δ g ρ) := by
  unfold opRelProd at h
  split at h
  · rename_i hc
    cases h
    refine ⟨Store.EOK_zero _, ?_⟩
    have : (fun ρ => den δ f ρ && den δ g ρ) = fun _ => false := by
      funext ρ
      rw [Bool.or_eq_true, Bool.or_eq_true] at hc
      rcases hc with (hc | hc) | hc
      · rw [same_zero w hf hc, hδ.den_zero]; simp
      · rw [same_zero w hg hc, hδ.den_zero]; simp
      · simp only [Bool.and_eq_true, beq_iff_eq, bne_iff_ne, ne_eq] at hc
        simp only [den, hc.1]
        cases hfn : f.neg <;> cases hgn : g.neg <;> simp_all
    rw [this, exFn_false, hδ.den_zero]
  · split at h
    · rename_i hc
      cases h
      refine ⟨Store.EOK_one _, ?_⟩
      rw [Bool.and_eq_true, isOne_same, isOne_same] at hc
      rw [same_one w hf hc.1, same_one w hg hc.2, hδ.den_one]
      simp [exFn_true]
    · cases h

/-- `BddRelProdStep` computes the existential quantification of the conjunction. -/
theorem relProdStep_ok {Γ} {A : Assoc} {n code : Nat} (hN : Γ Cache.opNAND = fun F ρ => !F ρ)
    (hΓ : Γ code = exFn A.dom) (hop : code ≠ 0) (hop' : code < 65536)
    {code' : Nat}
    (hcode' : code' = if A.id ≠ -1 then A.opCode Cache.opQUANT else (code + 65535) % 65536)
    (hΓ' : Γ code' = exFn A.dom) (hop2 : code' ≠ 0) (hop2' : code' < 65536) :
    ∀ (k : Nat) {c : Core} (_ : c.st.ord.numVars = n) (_ : A.OK c.st.ord) (_ : c.st.WF)
    (_ : c.ca.Valid c.st Γ) {δ}
    (_ : Lab c.st δ) {f g : Edge} (_ : c.st.EOK f) (_ : c.st.EOK g) (_ : 1 ≤ k)
    (_ : n + 1 ≤ k + c.st.ord.lvl f.id) (_ : n + 1 ≤ k + c.st.ord.lvl g.id),
    COk Γ c δ (relProdStep A code k c f g)
      (exFn A.dom (fun ρ => den δ f ρ && den δ g ρ)) := by
  intro k
  induction k with
  | zero => intro c _ _ _ _ δ _ f g _ _ h; omega
  | succ k ih =>
    intro c hn ha w v δ hδ f0 g0 hf0 hg0 _ hk1 hk2
    subst hn
    simp only [relProdStep]
    rw [← hcode']
    by_cases hconst : (f0.isConst || g0.isConst) = true
    · rw [if_pos hconst]
      by_cases hz : (f0.same zero || g0.same zero) = true
      · rw [if_pos hz]
        refine ⟨c, zero, δ, rfl, Ext.refl w v hδ, Store.EOK_zero _, ?_⟩
        have : (fun ρ => den δ f0 ρ && den δ g0 ρ) = fun _ => false := by
          funext ρ
          rw [Bool.or_eq_true] at hz
          rcases hz with hz | hz
          · rw [same_zero w hf0 hz, hδ.den_zero]; simp
          · rw [same_zero w hg0 hz, hδ.den_zero]; simp
        rw [this, exFn_false, hδ.den_zero]
      · rw [if_neg hz]
        by_cases h1 : f0.isOne = true
        · rw [if_pos h1]
          rw [isOne_same] at h1
          have h1 := same_one w hf0 h1
          subst h1
          have : (fun ρ => den δ one ρ && den δ g0 ρ) = den δ g0 := by
            rw [hδ.den_one]; funext ρ; simp
          rw [this]
          exact existsStep_ok hN hΓ' hop2 hop2' _ rfl ha w v hδ hg0 (by omega) (by omega)
        · rw [if_neg h1]
          have hg1 : g0 = one := by
            have key : ∀ e : Edge, c.st.EOK e → e.isConst = true → e.same zero ≠ true → e = one := by
              intro e he h h'
              have hid : e.id = 0 := by simpa [Edge.isConst] using h
              have had : e.addr = 0 := (he.addr_zero w).2 hid
              refine Edge.ext' hid had ?_
              cases hneg : e.neg
              · rfl
              · exact absurd (by simp [Edge.same, had, hneg]) h'
            rw [Bool.or_eq_true, not_or] at hz
            rw [Bool.or_eq_true] at hconst
            rcases hconst with h | h
            · have := key f0 hf0 h hz.1
              rw [this] at h1; exact absurd rfl h1
            · exact key g0 hg0 h hz.2
          subst hg1
          rw [den_one_and hδ]
          exact existsStep_ok hN hΓ' hop2 hop2' _ rfl ha w v hδ hf0 (by omega) (by omega)
    · rw [if_neg hconst]
      by_cases hlast : (c.st.elvl f0 : Int) > A.last ∧ (c.st.elvl g0 : Int) > A.last
      · rw [if_pos hlast]
        obtain ⟨c1, r, δ1, e1, x1, ok1, s1⟩ := dfStep_ok hN (by decide) (by decide)
          (c.st.ord.numVars + 1) w v hδ hf0 hg0 (by omega) (by omega) (by omega)
        rw [e1]
        refine ⟨c1, r.not, δ1, rfl, x1, ok1.not, ?_⟩
        rw [den_not, s1, exFn_id]
        · funext ρ; simp
        · intro ρ σ h
          rw [ha.below w hδ hf0 hlast.1 h, ha.below w hδ hg0 hlast.2 h]
      · rw [if_neg hlast]
        cases hor : opRelProd f0 g0 with
        | some r =>
          obtain ⟨h1, h2⟩ := opRelProd_hit w hδ hf0 hg0 hor A.dom
          exact ⟨c, r, δ, rfl, Ext.refl w v hδ, h1, h2⟩
        | none =>
          simp only
          rw [Bool.or_eq_true, not_or] at hconst
          have n1 : f0.id ≠ 0 := by simpa [Edge.isConst] using hconst.1
          have n2 : g0.id ≠ 0 := by simpa [Edge.isConst] using hconst.2
          have main : ∀ f g : Edge, c.st.EOK f → c.st.EOK g → f.id ≠ 0 → g.id ≠ 0 →
              c.st.ord.numVars + 1 ≤ k + 1 + c.st.ord.lvl f.id →
              c.st.ord.numVars + 1 ≤ k + 1 + c.st.ord.lvl g.id →
              COk Γ c δ (match c.ca.lookup f g code with
                | some r => some (c, r)
                | none =>
                  match c.st.cofs f (minId2 c.st.ord (f, g)),
                      c.st.cofs g (minId2 c.st.ord (f, g)) with
                  | some (f1, f2), some (g1, g2) =>
                    match relProdStep A code k c f1 g1 with
                    | none => none
                    | some (c1, t1) =>
                      if ((A.var (minId2 c.st.ord (f, g))).isSome && t1.isOne) = true then
                        some (c1.insert f g t1 code, t1)
                      else
                        match relProdStep A code k c1 f2 g2 with
                        | none => none
                        | some (c2, t2) =>
                          if (A.var (minId2 c.st.ord (f, g))).isSome = true then
                            match dfStep opNand Cache.opNAND (c2.st.ord.numVars + 1) c2
                              t1.not t2.not with
                            | none => none
                            | some (c3, r) => some (c3.insert f g r code, r)
                          else
                            some ((c2.mkNode (minId2 c.st.ord (f, g)) t1 t2).1.insert f g
                              (c2.mkNode (minId2 c.st.ord (f, g)) t1 t2).2 code,
                              (c2.mkNode (minId2 c.st.ord (f, g)) t1 t2).2)
                  | _, _ => none)
                (exFn A.dom (fun ρ => den δ f ρ && den δ g ρ)) := by
            intro f g hf hg m1 m2 hk1 hk2
            cases hl : c.ca.lookup f g code with
            | some r =>
              obtain ⟨hr, hsem⟩ := v.lookup hl
              refine ⟨c, r, δ, rfl, Ext.refl w v hδ, hr, ?_⟩
              rw [hsem δ hδ, hΓ]
            | none =>
              have hr := minId2_range w hf hg m1 m2
              have hle := minId2_le c.st.ord (f, g)
              generalize htop : minId2 c.st.ord (f, g) = top at *
              obtain ⟨f1, f2, ef, okf1, okf2, lf1, lf2, sf⟩ := cofs_spec w hδ hf hr hle.1
              obtain ⟨g1, g2, eg, okg1, okg2, lg1, lg2, sg⟩ := cofs_spec w hδ hg hr hle.2
              have hlvl := w.ord.lvl_lt hr.1 hr.2
              have hkt : c.st.ord.numVars + 1 ≤ k + 1 + c.st.ord.lvl top := by
                rcases minId2_or c.st.ord (f, g) with h | h <;> rw [htop] at h <;> rw [h] <;>
                  assumption
              rw [ef, eg]
              simp only
              obtain ⟨c1, t1, δ1, e1, x1, okt1, s1⟩ := ih rfl ha w v hδ okf1 okg1 (by omega)
                (by omega) (by omega)
              rw [e1]; simp only
              have ho1 : c1.st.ord = c.st.ord := x1.le.ord
              have hF : ∀ ρ, (den δ f ρ && den δ g ρ) =
                  if ρ top then (den δ f1 ρ && den δ g1 ρ) else (den δ f2 ρ && den δ g2 ρ) := by
                intro ρ; rw [sf ρ, sg ρ]; by_cases hr : ρ top = true <;> simp [hr]
              have i1 : ∀ u, c.st.ord.lvl u < c.st.ord.lvl top + 1 →
                  Indep (fun ρ => den δ f1 ρ && den δ g1 ρ) u := fun u hu =>
                (hδ.indep w okf1 (by omega)).and (hδ.indep w okg1 (by omega))
              have i2 : ∀ u, c.st.ord.lvl u < c.st.ord.lvl top + 1 →
                  Indep (fun ρ => den δ f2 ρ && den δ g2 ρ) u := fun u hu =>
                (hδ.indep w okf2 (by omega)).and (hδ.indep w okg2 (by omega))
              have hsem : exFn A.dom (fun ρ => den δ f ρ && den δ g ρ) =
                  Γ code (fun ρ => den δ f ρ && den δ g ρ) := by rw [hΓ]
              by_cases hq : ((A.var top).isSome && t1.isOne) = true
              · rw [if_pos hq]
                rw [Bool.and_eq_true, isOne_same] at hq
                have ht1 := same_one x1.wf okt1 hq.2
                refine COk.insert ⟨_, _, δ1, rfl, x1, okt1, ?_⟩ hop hop' hf hg hsem
                have hd : A.dom top := hq.1
                rw [exFn_split hd hF (i1 _ (by omega)) (i2 _ (by omega)), ← s1, ht1,
                  x1.lab.den_one]
                funext ρ; simp
              · rw [if_neg hq]
                obtain ⟨c2, t2, δ2, e2, x2, okt2, s2⟩ := ih (by rw [ho1]) (by rw [ho1]; exact ha)
                  x1.wf x1.ca x1.lab (x1.eok okf2) (x1.eok okg2) (by omega) (by rw [ho1]; omega)
                  (by rw [ho1]; omega)
                rw [e2]; simp only
                exact quant_join hN w (x1.trans x2) hr hF i1 i2 (x2.eok okt1) okt2
                  (by rw [x2.den okt1, s1]) (by rw [s2, x1.den okf2, x1.den okg2])
                  hop hop' hf hg hsem
          rcases normalize_cases f0 g0 with h | h
          · simp only [h]; exact main f0 g0 hf0 hg0 n1 n2 hk1 hk2
          · simp only [h]
            have := main g0 f0 hg0 hf0 n2 n1 hk2 hk1
            simpa only [Bool.and_comm] using this

end Cal
