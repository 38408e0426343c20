import Verif.Subst
import Verif.DF

/-!
# VarSubstitute

`Cal_BddVarSubstitute` (calBddVarSubstitute.c:80-106) on internal BDDs. Like `Cal_BddSubstitute`, with the
computed table: while the requests are applied their results are put in the table as temporary
entries, which are replaced by the nodes at the end. If the value of a variable is a variable above
both branches a node of that variable is made.
-/

namespace Cal
namespace Eng

open BF

/-- The result for a branch (calBddVarSubstitute.c:226-239, 246-259): the branch itself if it is below
`lastBddIndex`, otherwise the result in the computed table, otherwise a request, which is put in the
computed table. The table of one operand is that of two operands with the second operand 1
(calInt.h:1477-1479). -/
def vsGet (op : Nat) (last : Int) (f : Edge) (b : BF Prob) (c : Cache) :
    Option (BF Prob × Cache × Edge) :=
  if (b.st.ord.lvl f.id : Int) ≤ last then
    match c.lookup f one op with
    | some r => some (b, c, b.forward r)
    | none =>
      match b.findOrAddReq 0 f.id (.sub f) with
      | none => none
      | some (b', e) => some (b', c.insert f one e op true, e)
  else some (b, c, f)

/-- One request in `CalHashTableSubstituteApply` (calBddVarSubstitute.c:220-263). -/
def vsApply (op : Nat) (last : Int) (a : Nat) (b : BF Prob) (c : Cache) : Option (BF Prob × Cache) :=
  match b.req a with
  | some ⟨i, d, .pend (.sub f)⟩ =>
    match b.st.kids f with
    | none => none
    | some (ft, fe) =>
      match vsGet op last ft b c with
      | none => none
      | some (b1, c1, t) =>
        match vsGet op last fe (b1.icr t) c1 with
        | none => none
        | some (b2, c2, e) =>
          some ({ b2.icr e with req := upd (b2.icr e).req a (some ⟨i, d, .done t e⟩) }, c2)
  | _ => none

/-- `CalHashTableSubstituteApply` (calBddVarSubstitute.c:197-262) -/
def vsList (op : Nat) (last : Int) : List Nat → BF Prob → Cache → Option (BF Prob × Cache)
  | [], b, c => some (b, c)
  | a :: as, b, c =>
    match vsApply op last a b c with
    | none => none
    | some (b', c') => vsList op last as b' c'

/-- The apply phase over the indices `k`, ..., `k+n-1` (calBddVarSubstitute.c:149-157). -/
def vsRange (op : Nat) (last : Int) (k : Nat) : Nat → BF Prob → Cache → Option (BF Prob × Cache)
  | 0, b, c => some (b, c)
  | n+1, b, c =>
    match vsList op last (b.que 0 (b.st.ord.indexToId k)) b c with
    | none => none
    | some (b', c') => vsRange op last (k+1) n b' c'

/-- One request in `CalHashTableSubstituteReduce` (calBddVarSubstitute.c:301-375 and 383-453). Without
a value for the variable it is the loop of `Cal_BddSubstitute`. -/
def vsStep (last : Int) (σ vb : Nat → Option Edge) (a : Nat) (b : BF Prob) (l : List (Nat × Edge)) :
    Option (BF Prob × List (Nat × Edge)) :=
  match b.req a with
  | some ⟨i, d, .done t0 e0⟩ =>
    match σ i with
    | none => subStep last σ vb a b l
    | some h =>
      if b.forward t0 = b.forward e0 then (b.reduceOne i a).map fun b' => (b', l)
      else if b.st.ord.lvl h.id < b.st.ord.lvl (b.forward t0).id ∧
          b.st.ord.lvl h.id < b.st.ord.lvl (b.forward e0).id then
        (b.nodeOne h.id a).map fun b' => (b', l)
      else listIte last a i d h (b.forward t0) (b.forward e0) b l
  | _ => none

/-- `minITEindex` (calBddVarSubstitute.c:290, 364-367, 443-446) -/
def minIte (o : Order) (l : List (Nat × Edge)) : Nat :=
  l.foldr (fun p n => min (o.lvl p.2.id) n) o.numVars

/-- `CalBddVarSubstitute` (calBddVarSubstitute.c:123-178). In C the computed table is fixed after the
requests were freed; the contents of freed requests are still those before, as they are only linked
into a list of free nodes. -/
def varSubstBF (c : Core) (σ vb : Nat → Option Edge) (last : Int) (op : Nat) (f : Edge) :
    Option (Core × Edge) :=
  let s := c.st
  let k := s.ord.lvl f.id
  if last < (k : Int) then some (c, f)
  else
    match c.ca.lookup f one op with
    | some r => some (c, r)
    | none =>
      match (BF.init s).findOrAddReq 0 f.id (.sub f) with
      | none => none
      | some (b, e) =>
        match vsRange op last k (s.ord.numVars - k) b c.ca with
        | none => none
        | some (b1, c1) =>
          match subRange last (vsStep last σ vb) minIte k (s.ord.numVars - k) b1 with
          | none => none
          | some b2 =>
            some (⟨(cleanUpTabs [0] (allIds s.ord) b2).st,
              (c1.fixResults b2.forward).insert f one (b2.forward e) op false⟩, b2.forward e)

/-! ## The computed table during the apply phase -/

section
variable {last : Int} {S : Nat → BFn} {op : Nat} {Γ : Nat → BFn → BFn}

/-- A temporary entry for the operand `f`: its result is a request for the substitution in `f`. -/
def TmpOk (op : Nat) (S : Nat → BFn) (b : BF Prob) (G : Nat → BFn) (x : Entry) : Prop :=
  x.tmp = true ∧ x.op = op ∧ ∃ f X, Rep b.st f X ∧ f.id ≠ 0 ∧
    x.o1 = (Cache.sortOps f.ptr one.ptr).1 ∧ x.o2 = (Cache.sortOps f.ptr one.ptr).2 ∧
    x.r.id = f.id ∧ b.Val G x.r (substFn S X) ∧ EVa Q0 b x.r

structure CI (op : Nat) (S : Nat → BFn) (Γ : Nat → BFn → BFn) (b : BF Prob) (G : Nat → BFn) (c : Cache) :
    Prop where
  ent : ∀ i x, c.bins i = some x → x.Valid b.st Γ ∨ TmpOk op S b G x
  count : c.numEntries = Cache.tally (fun i => Cache.used (c.bins i)) c.numBins
  range : ∀ i x, c.bins i = some x → i < c.numBins

theorem TmpOk.grow {k} {b b' : BF Prob} {G G' x} (h : TmpOk op S b G x) (g : Grow Q0 k b b' G G') :
    TmpOk op S b' G' x := by
  obtain ⟨h1, h2, f, X, h3, h4, h5, h6, h7, h8, h9⟩ := h
  exact ⟨h1, h2, f, X, h3.mono g.le, h4, h5, h6, h7, h8.grow g, h9.grow g⟩

theorem CI.grow {k} {b b' : BF Prob} {G G' c} (h : CI op S Γ b G c) (g : Grow Q0 k b b' G G') :
    CI op S Γ b' G' c :=
  ⟨fun i x hx => (h.ent i x hx).imp (fun v => v.mono g.le) (fun t => t.grow g), h.count, h.range⟩

theorem CI.stp {A} {b b' : BF Prob} {G G' c} (h : CI op S Γ b G c) (g : Stp A b G b' G') :
    CI op S Γ b' G' c := by
  refine ⟨fun i x hx => (h.ent i x hx).imp (fun v => v.mono g.st) ?_, h.count, h.range⟩
  rintro ⟨h1, h2, f, X, h3, h4, h5, h6, h7, h8, h9⟩
  exact ⟨h1, h2, f, X, h3.mono g.st, h4, h5, h6, h7, h8.mono g, h9.mono g⟩

theorem CI.out {b b' : BF Prob} {G G' c} (h : CI op S Γ b G c) (g : Out Q0 b G b' G') (sh : QShape b) :
    CI op S Γ b' G' c := by
  refine ⟨fun i x hx => (h.ent i x hx).imp (fun v => v.mono g.st) ?_, h.count, h.range⟩
  rintro ⟨h1, h2, f, X, h3, h4, h5, h6, h7, h8, h9⟩
  exact ⟨h1, h2, f, X, h3.mono g.st, h4, h5, h6, h7, g.val sh h8 h9, g.eva h9⟩

/-- A hit returns a node, or a request for the same substitution. -/
theorem CI.lookup {b : BF Prob} {G c} (h : CI op S Γ b G c) (hΓ : Γ op = substFn S) (w : b.st.WF)
    {f : Edge} {X} (rf : Rep b.st f X) (f0 : f.id ≠ 0) {r} (hl : c.lookup f one op = some r) :
    b.Val G r (substFn S X) ∧ EVa Q0 b r ∧ (r.id = f.id ∨ b.st.EOK r) := by
  unfold Cache.lookup at hl
  cases hb : c.bins (c.index f.ptr one.ptr op) with
  | none => rw [hb] at hl; cases hl
  | some x =>
    rw [hb] at hl
    simp only at hl
    split at hl
    · rename_i hc
      cases hl
      rcases h.ent _ _ hb with v | ⟨-, -, f', X', h3, h4, h5, h6, h7, h8, h9⟩
      · obtain ⟨δ, hδ⟩ := w.exists_lab
        have hs := v.sem δ hδ
        rw [hc.1, hc.2.1, hc.2.2, Cache.sort_and, hΓ] at hs
        have hX : (fun ρ => pden δ f.ptr ρ && pden δ one.ptr ρ) = X := by
          rw [← hδ.rep_eq rf]
          funext ρ
          simp [pden_ptr, den, hδ.const, one]
        rw [hX] at hs
        exact ⟨Or.inl (by rw [← hs]; exact hδ.rep w v.res), Or.inl v.res, Or.inr v.res⟩
      · have hf : f'.ptr = f.ptr := by
          have e1 := Cache.sort_mem hc.1 hc.2.1
          have e2 := Cache.sort_mem h5 h6
          have ne : ∀ {g : Edge}, b.st.EOK g → g.id ≠ 0 → g.ptr ≠ one.ptr := by
            intro g hg hg0 he
            have ha : g.addr = 0 := congrArg Ptr.addr he
            rcases hg with ⟨h, _⟩ | ⟨n, hn, hv⟩
            · exact hg0 h
            · have := w.heap_pos hn; omega
          have n1 := ne rf.eok f0
          have n2 := ne h3.eok h4
          rcases e1 with ⟨p1, p2⟩ | ⟨p1, p2⟩ <;> rcases e2 with ⟨q1, q2⟩ | ⟨q1, q2⟩
          · rw [← q1, p1]
          · exact absurd (q2.symm.trans p2) n2
          · exact absurd (q1.symm.trans p1) n2
          · rw [← q2, p2]
        have hf' : f' = f := by
          obtain ⟨n, hn, hv⟩ := rf.eok.node w f0
          obtain ⟨n', hn', hv'⟩ := h3.eok.node w h4
          have ha : f'.addr = f.addr := congrArg Ptr.addr hf
          have hneg : f'.neg = f.neg := congrArg Ptr.neg hf
          rw [ha, hn] at hn'; cases hn'
          obtain ⟨i1, a1, n1⟩ := f
          obtain ⟨i2, a2, n2⟩ := f'
          simp only at ha hneg hv hv'
          rw [ha, hneg, ← hv, ← hv']
        subst hf'
        rw [h3.unique w rf] at h8
        exact ⟨h8, h9, Or.inl h7⟩
    · cases hl

theorem tally_insert {c : Cache} {f g r : Edge} {lv : Bool} (h0 : op % 65536 ≠ 0)
    (hv : c.numEntries = Cache.tally (fun i => Cache.used (c.bins i)) c.numBins) :
    (c.insert f g r op lv).numEntries =
      Cache.tally (fun i => Cache.used ((c.insert f g r op lv).bins i)) (c.insert f g r op lv).numBins := by
  have hc := Cache.count_upd (f := fun j => Cache.used ((c.insert f g r op lv).bins j))
    (g := fun j => Cache.used (c.bins j)) (c.index_lt f.ptr g.ptr op)
    (fun j hj => by simp only [Cache.insert, upd_ne _ _ hj])
  have hu : Cache.used ((c.insert f g r op lv).bins (c.index f.ptr g.ptr op)) = true := by
    simp [Cache.insert, Cache.used, h0]
  simp only [hu, Bool.toNat_true] at hc
  show (if Cache.used (c.bins (c.index f.ptr g.ptr op)) then c.numEntries else c.numEntries + 1) =
    Cache.tally (fun j => Cache.used ((c.insert f g r op lv).bins j)) c.numBins
  split
  · rename_i h; rw [h] at hc; simp at hc; omega
  · rename_i h; rw [Bool.not_eq_true] at h; rw [h] at hc; simp at hc; omega

/-- Putting a request in the table. -/
theorem CI.insert {b : BF Prob} {G c} (h : CI op S Γ b G c) (hop : op ≠ 0) (hop' : op < 65536) {f r : Edge}
    {X} (rf : Rep b.st f X) (f0 : f.id ≠ 0) (hid : r.id = f.id) (v : b.Val G r (substFn S X))
    (ev : EVa Q0 b r) : CI op S Γ b G (c.insert f one r op true) := by
  have hm : op % 65536 = op := Nat.mod_eq_of_lt hop'
  refine ⟨?_, tally_insert (by rw [hm]; exact hop) h.count, ?_⟩
  · intro i x hi
    simp only [Cache.insert] at hi
    by_cases hx : i = c.index f.ptr one.ptr op
    · subst hx
      rw [upd_same] at hi; cases hi
      exact Or.inr ⟨rfl, hm, f, X, rf, f0, rfl, rfl, hid, v, ev⟩
    · rw [upd_ne _ _ hx] at hi; exact h.ent i x hi
  · intro i x hi
    simp only [Cache.insert] at hi
    by_cases hx : i = c.index f.ptr one.ptr op
    · subst hx; exact c.index_lt _ _ _
    · rw [upd_ne _ _ hx] at hi; exact h.range i x hi

/-- When all requests are forwarded, following the pointers of the temporary entries makes the table
valid. -/
theorem CI.fix {b : BF Prob} {G c} (h : CI op S Γ b G c) (hΓ : Γ op = substFn S) (hop : op ≠ 0)
    (ei : EI (iteS last S) Q1 b G) (hf : ∀ a r, b.req a = some r → ∃ t, r.cell = .fwd t) :
    (c.fixResults b.forward).Valid b.st Γ := by
  refine ⟨?_, ?_, ?_⟩
  · intro i x hi
    simp only [Cache.fixResults] at hi
    cases hb : c.bins i with
    | none => rw [hb] at hi; cases hi
    | some y =>
      rw [hb] at hi
      simp only at hi
      rcases h.ent i y hb with v | ⟨h1, h2, f, X, h3, h4, h5, h6, h7, h8, h9⟩
      · rw [v.fixed] at hi
        simp only [Bool.false_eq_true, if_false, Option.some.injEq] at hi
        subst hi; exact v
      · rw [h1] at hi
        simp only [if_true, Option.some.injEq] at hi
        subst hi
        have rr := fwd_rep ei h8 h9 (fun r hr _ _ => hf _ r hr)
        have pk : ∀ q, b.st.POK q ↔ b.st.POK q := fun _ => Iff.rfl
        have ok1 : b.st.POK one.ptr := Or.inl rfl
        obtain ⟨k1, k2⟩ := Cache.sort_pok h3.eok.pok ok1
        refine ⟨by simp only [h2]; exact hop, rfl, by simp only [h5]; exact k1, by simp only [h6]; exact k2,
          rr.eok, ?_⟩
        intro δ hδ
        simp only [h2, h5, h6]
        rw [hδ.rep_eq rr, Cache.sort_and, hΓ]
        congr 1
        rw [← hδ.rep_eq h3]
        funext ρ
        simp [pden_ptr, den, hδ.const, one]
  · show c.numEntries = Cache.tally (fun i => Cache.used ((c.fixResults b.forward).bins i)) c.numBins
    rw [h.count]
    apply sumTo_congr
    intro i _
    simp only [Cache.fixResults]
    cases hb : c.bins i with
    | none => rfl
    | some y => simp only; cases hy : y.tmp <;> simp [Cache.used]
  · intro i x hi
    simp only [Cache.fixResults] at hi
    cases hb : c.bins i with
    | none => rw [hb] at hi; cases hi
    | some y => exact h.range i y hb

theorem findOrAddReq_id {b b' : BF Prob} {d id p e} (h : b.findOrAddReq d id p = some (b', e)) :
    e.id = id := by
  simp only [findOrAddReq] at h
  split at h
  · cases h
  · cases h; rfl
  · cases h; rfl

/-! ## The apply phase -/

theorem vsGet_spec (hop : op ≠ 0) (hop' : op < 65536) (hΓ : Γ op = substFn S) {b : BF Prob} {G c}
    (ei : EI (subSem last S) Q0 b G) {k} (hopn : Open Q0 k b) (ci : CI op S Γ b G c) {f F}
    (hf : SubOk last S b.st k f F) :
    ∃ b' c' e G', vsGet op last f b c = some (b', c', e) ∧ EI (subSem last S) Q0 b' G' ∧
      Grow Q0 k b b' G G' ∧ (∀ ext, b.RefOK ext → b'.RefOK ext) ∧ b'.Val G' e F ∧ EVa Q0 b' e ∧
      (subSem last S).From b'.st k e ∧ CI op S Γ b' G' c' := by
  have w := ei.sh.wf
  obtain ⟨hb, X, rf, hk, rfl⟩ := hf
  by_cases hl : (b.st.ord.lvl f.id : Int) ≤ last
  · have hf0 : f.id ≠ 0 := by
      intro h0
      have := hb.1
      have := w.ord.bound
      rw [h0] at hl; simp only [Order.lvl, if_true] at hl; omega
    cases hc : c.lookup f one op with
    | some r =>
      obtain ⟨v, ev, hid⟩ := ci.lookup hΓ w rf hf0 hc
      refine ⟨b, c, b.forward r, G, by simp only [vsGet, hl, if_true, hc], ei, Grow.refl _ _ _,
        fun _ h => h, ?_⟩
      rcases forward_eq_or (b := b) r with ⟨h, _⟩ | ⟨j, d, t, h, h'⟩
      · rw [h]
        refine ⟨v, ev, ?_, ci⟩
        rcases hid with h | h
        · exact Or.inl (by rw [h]; exact hk)
        · exact Or.inr ⟨trivial, h⟩
      · have rt : Rep b.st (b.forward r) (substFn S X) := by
          rcases v with v | ⟨r', h1, h2, h3⟩
          · exact absurd rfl (EOK_ne_req ei.sh h v.eok)
          · rw [h', h3]; exact (ei.fwd _ _ _ _ h).phase r.neg
        exact ⟨Or.inl rt, Or.inl rt.eok, Or.inr ⟨trivial, rt.eok⟩, ci⟩
    | none =>
      obtain ⟨b', e, G', h1, e1, g1, k1, v1, ev1, l1⟩ := push_spec (subOk last S).toActOk ei hopn
        (p := .sub f) (F := substFn S X) ⟨hb, hf0, X, rf, rfl⟩ rfl (eok_range w rf.eok hf0) hk
      have h1 : b.findOrAddReq 0 f.id (.sub f) = some (b', e) := h1
      refine ⟨b', c.insert f one e op true, e, G', by simp only [vsGet, hl, if_true, hc, h1], e1, g1, k1, v1, ev1, Or.inl l1, ?_⟩
      exact (ci.grow g1).insert hop hop' (rf.mono g1.le) hf0 (findOrAddReq_id h1) v1 ev1
  · refine ⟨b, c, f, G, by simp only [vsGet, hl, if_false], ei, Grow.refl _ _ _, fun _ h => h, ?_,
      Or.inl rf.eok, Or.inl hk, ci⟩
    rw [substFn_below w hb rf (by omega)]; exact Or.inl rf

theorem vsApply_spec (hop : op ≠ 0) (hop' : op < 65536) (hΓ : Γ op = substFn S) {b : BF Prob} {G c}
    (ei : EI (subSem last S) Q0 b G) (ci : CI op S Γ b G c) {a i p}
    (hr : b.req a = some ⟨i, 0, .pend p⟩) (hopn : Open Q0 (b.st.ord.lvl i + 1) b) :
    ∃ b' c' G' t e, vsApply op last a b c = some (b', c') ∧ EI (subSem last S) Q0 b' G' ∧
      Stp Q0 b G b' G' ∧ CI op S Γ b' G' c' ∧
      b'.req a = some ⟨i, 0, .done t e⟩ ∧ (∀ x r, x ≠ a → b.req x = some r → b'.req x = some r) ∧
      (∀ x r, x ≠ a → b'.req x = some r → b.req x = some r ∨
        (Q0 r.dep ∧ b.st.ord.lvl i < b.st.ord.lvl r.id ∧ ∃ p, r.cell = .pend p)) := by
  have w := ei.sh.wf
  obtain ⟨hpd, hpq⟩ := ei.pend _ _ _ _ hr
  obtain ⟨hq, htop⟩ := hpq rfl
  cases p with
  | sub f =>
    obtain ⟨hb, hf0, X, rf, hX⟩ := hpd
    have htop : f.id = i := htop
    subst htop
    obtain ⟨ft, fe, hk, rt, ru, l1, l2, -⟩ := rf.kids w hf0
    obtain ⟨b1, c1, t, G1, a1, e1, g1, k1, v1, ev1, m1, ci1⟩ := vsGet_spec hop hop' hΓ ei hopn ci
      (f := ft) ⟨hb, _, rt, l1, rfl⟩
    have gi : Grow Q0 (b.st.ord.lvl f.id + 1) b1 (b1.icr t) G1 G1 := Grow.icr t
    have g1' := g1.trans gi
    obtain ⟨b2, c2, e, G2, a2, e2, g2, k2, v2, ev2, m2, ci2⟩ := vsGet_spec hop hop' hΓ (e1.icr t)
      (hopn.grow g1') (ci1.grow gi) (f := fe) (SubOk.mono g1'.le ⟨hb, _, ru, l2, rfl⟩)
    obtain ⟨b', hb', r1, r2, r3, r4, r5⟩ := apply_two ei hr rfl rfl hopn (t := t) (e := e)
      (by rw [hX]; exact substFn_shannon S X f.id) e1 g1 k1 v1 ev1 m1 e2 g2 k2 v2 ev2 m2
    refine ⟨b', c2, G2, t, e, ?_, r1, r2, ?_, r3, r4, r5⟩
    · simp only [vsApply, hr, hk, a1, a2, hb']
    · have gi2 : Grow Q0 (b.st.ord.lvl f.id + 1) b2 (b2.icr e) G2 G2 := Grow.icr e
      have ci3 := ci2.grow gi2
      have hr3 := gi2.old _ _ (g2.old _ _ (g1'.old _ _ hr))
      have hs : (b'.st = (b2.icr e).st) := by rw [hb']
      refine ⟨fun j x hx => (ci3.ent j x hx).imp (fun v => by rw [hs]; exact v) ?_, ci3.count, ci3.range⟩
      have tr : ∀ y r, (b2.icr e).req y = some r → ∃ r', b'.req y = some r' ∧ r'.id = r.id ∧ r'.dep = r.dep := by
        intro y r hy
        by_cases hya : y = a
        · subst hya; rw [hr3] at hy; cases hy; exact ⟨_, r3, rfl, rfl⟩
        · exact ⟨r, by rw [hb']; show upd _ _ _ y = _; rw [upd_ne _ _ hya]; exact hy, rfl, rfl⟩
      rintro ⟨q1, q2, f', X', q3, q4, q5, q6, q7, q8, q9⟩
      refine ⟨q1, q2, f', X', by rw [hs]; exact q3, q4, q5, q6, q7, ?_, ?_⟩
      · rcases q8 with q8 | ⟨r, z1, z2, z3⟩
        · exact Or.inl (by rw [hs]; exact q8)
        · obtain ⟨r', z4, z5, -⟩ := tr _ _ z1
          exact Or.inr ⟨r', z4, z5.trans z2, z3⟩
      · rcases q9 with q9 | ⟨r, z1, z2, z3⟩
        · exact Or.inl (by rw [hs]; exact q9)
        · obtain ⟨r', z4, z5, z6⟩ := tr _ _ z1
          exact Or.inr ⟨r', z4, z5.trans z2, by rw [z6]; exact z3⟩
  | ite q => simp [subRules] at hq
  | wait => simp [subRules] at hq
  | _ => exact hpd.elim

theorem vsList_spec (hop : op ≠ 0) (hop' : op < 65536) (hΓ : Γ op = substFn S) {lo k} :
    ∀ (L : List Nat) (b : BF Prob) (G c), EI (subSem last S) Q0 b G → CI op S Γ b G c → NoHalf b →
    AD Q0 lo k L [] b →
    ∃ b' c' G', vsList op last L b c = some (b', c') ∧ EI (subSem last S) Q0 b' G' ∧ Stp Q0 b G b' G' ∧
      CI op S Γ b' G' c' ∧ NoHalf b' ∧ AD Q0 lo k [] [] b' := by
  intro L
  induction L with
  | nil => intro b G c ei ci nh ad; exact ⟨b, c, G, rfl, ei, Stp.refl _ _, ci, nh, ad⟩
  | cons a L ih =>
    intro b G c ei ci nh ad
    obtain ⟨r, hr, hA, hl, hds⟩ := ad.left a (by simp)
    obtain ⟨p, hp⟩ := ad.todo a r hr ⟨hA, Or.inr ⟨hl, Or.inl (by simp)⟩⟩
    obtain ⟨i, d, cc⟩ := r
    simp only at hp hA hl hds
    subst hp
    have hd : d = 0 := hA
    subst hd
    have opn : Open Q0 (b.st.ord.lvl i + 1) b := by
      intro x r hx hAx hlx
      exact ad.todo x r hx ⟨hAx, Or.inl (by omega)⟩
    obtain ⟨b1, c1, G1, t, e, h1, e1, s1, ci1, r1, o1, n1⟩ := vsApply_spec hop hop' hΓ ei ci hr opn
    have nh1 : NoHalf b1 := by
      intro x j d u hx
      by_cases hxa : x = a
      · subst hxa; rw [r1] at hx; cases hx
      · rcases n1 x _ hxa hx with h | ⟨-, -, p, h⟩
        · exact nh _ _ _ _ h
        · cases h
    have ad1 : AD Q0 lo k L [] b1 := ad.step hr rfl s1.st.ord r1 trivial o1 n1
    obtain ⟨b2, c2, G2, h2, e2, s2, ci2, nh2, ad2⟩ := ih b1 G1 c1 e1 ci1 nh1 ad1
    exact ⟨b2, c2, G2, by simp only [vsList, h1, h2], e2, s1.trans s2, ci2, nh2, ad2⟩

theorem vsRange_spec (hop : op ≠ 0) (hop' : op < 65536) (hΓ : Γ op = substFn S) {lo} :
    ∀ (n k : Nat) (b : BF Prob) (G c), k + n = b.st.ord.numVars →
    EI (subSem last S) Q0 b G → CI op S Γ b G c → NoHalf b → AD Q0 lo k [] [0] b →
    ∃ b' c' G', vsRange op last k n b c = some (b', c') ∧ EI (subSem last S) Q0 b' G' ∧ Stp Q0 b G b' G' ∧
      CI op S Γ b' G' c' ∧ NoHalf b' ∧ (∀ a r, b'.req a = some r → Q0 r.dep → isDone r.cell) ∧
      (∀ a r, b'.req a = some r → Q0 r.dep → lo ≤ b'.st.ord.lvl r.id) := by
  intro n
  induction n with
  | zero =>
    intro k b G c hk ei ci nh ad
    refine ⟨b, c, G, rfl, ei, Stp.refl _ _, ci, nh, ?_, ad.lob⟩
    intro a r hr hA
    refine ad.past a r hr hA ?_
    have := ei.sh.lvl_lt hr
    rintro ⟨_, h | ⟨h, _⟩⟩ <;> omega
  | succ n ih =>
    intro k b G c hk ei ci nh ad
    have hm := fun a => ei.sh.mem_tab (d := 0) (a := a) (show k < b.st.ord.numVars by omega)
    have eqv : ∀ a r, b.req a = some r → (ADo Q0 k (b.que 0 (b.st.ord.indexToId k)) [] b a r ↔
        ADo Q0 k [] [0] b a r) := by
      intro a r hr
      unfold ADo
      constructor
      · rintro ⟨h1, h2 | ⟨h2, h3 | h3⟩⟩
        · exact ⟨h1, Or.inl h2⟩
        · exact ⟨h1, Or.inr ⟨h2, Or.inr (by simpa using h1)⟩⟩
        · simp at h3
      · rintro ⟨h1, h2 | ⟨h2, h3 | h3⟩⟩
        · exact ⟨h1, Or.inl h2⟩
        · simp at h3
        · exact ⟨h1, Or.inr ⟨h2, Or.inl ((hm a).2 ⟨r, hr, h1, h2⟩)⟩⟩
    have ad1 : AD Q0 lo k (b.que 0 (b.st.ord.indexToId k)) [] b := by
      refine ⟨?_, ?_, ?_, ei.sh.que_nodup _ _, ad.lob⟩
      · intro a r hr htd; exact ad.todo a r hr ((eqv a r hr).1 htd)
      · intro a r hr hA htd; exact ad.past a r hr hA (fun h => htd ((eqv a r hr).2 h))
      · intro a ha
        obtain ⟨r, h1, h2, h3⟩ := (hm a).1 ha
        exact ⟨r, h1, h2, h3, by simp⟩
    obtain ⟨b1, c1, G1, h1, e1, s1, ci1, nh1, ad2⟩ := vsList_spec hop hop' hΓ _ b G c ei ci nh ad1
    obtain ⟨b2, c2, G2, h2, e2, s2, ci2, nh2, r2, r3⟩ := ih (k+1) b1 G1 c1 (by rw [s1.st.ord]; omega) e1 ci1 nh1
      (ad2.next (fun d hd => by simpa using hd))
    exact ⟨b2, c2, G2, by simp only [vsRange, h1, h2], e2, s1.trans s2, ci2, nh2, r2, r3⟩

/-! ## The reduce phase -/

/-- the values are constants or variables -/
def VarVals (σ : Nat → Option Edge) (S : Nat → BFn) (o : Order) : Prop :=
  ∀ i h, σ i = some h → h.id = 0 ∨ (S i = (fun ρ => ρ h.id) ∧ 1 ≤ h.id ∧ h.id ≤ o.numVars)

theorem vsStep_ok {σ vb} {s0 : Store} (hσ : SelOk σ vb S s0) (hv : VarVals σ S s0.ord) {start}
    (hst : StartOk start) : StepOk last S s0 start (vsStep last σ vb) := by
  intro P k a L l b G hle ei h
  obtain ⟨i, t0, e0, T, E, hr, hlv, rt, re, hG⟩ := h.branches ei
  have hir := ei.sh.req_id _ _ hr
  simp only at hir
  have hsub := subStep_ok (last := last) hσ hst P k a L l b G hle ei h
  obtain ⟨h1, -⟩ := (hσ.mono hle) i hir.1 hir.2
  simp only [vsStep, hr]
  cases hs : σ i with
  | none => exact hsub
  | some hh =>
    simp only
    by_cases hte : b.forward t0 = b.forward e0
    · have hTE : T = E := Rep.unique ei.sh.wf rt (hte ▸ re)
      have hGT : G a = T := by rw [hG, ← hTE]; funext ρ; simp
      obtain ⟨b', hb', e', s', n', r'⟩ := reduceEq_spec (B := Q01) ei hr (Or.inl rfl) (by rw [hGT]; exact rt) hte
        (by simp)
      refine ⟨b', l, G, ?_, e', s', h.reduced hr s' n' r'⟩
      rw [if_pos hte, hb']; rfl
    · rw [if_neg hte]
      by_cases hc : b.st.ord.lvl hh.id < b.st.ord.lvl (b.forward t0).id ∧
          b.st.ord.lvl hh.id < b.st.ord.lvl (b.forward e0).id
      · rw [if_pos hc]
        rcases hv i hh hs with h0 | ⟨hS, h3, h4⟩
        · exfalso
          have w := ei.sh.wf
          have hle' : b.st.ord.lvl (b.forward t0).id ≤ constIndex := by
            by_cases h5 : (b.forward t0).id = 0
            · rw [h5]; simp [Order.lvl]
            · obtain ⟨h6, h7⟩ := eok_range w rt.eok h5
              have := w.ord.idx_lt _ h6 h7
              have := w.ord.bound
              simp only [Order.lvl, h5, if_false]; omega
          have := hc.1
          rw [h0] at this; simp only [Order.lvl, if_true] at this hle'; omega
        · obtain ⟨b', hb', e', s', n', r'⟩ := nodeOne_spec (B := Q01) ei hr (Or.inl rfl) (by simp)
            (by rw [hle.ord]; exact ⟨h3, h4⟩) rt re hte (by rw [hG, hS]) hc.1 hc.2
          refine ⟨b', l, G, ?_, e', s', h.reduced hr s' n' (Or.inr r')⟩
          rw [hb']; rfl
      · rw [if_neg hc]
        exact listIte_spec hst h ei hr rt re (h1 hh hs) hG

theorem minIte_ok : StartOk minIte := by
  refine ⟨fun o p l => ?_, fun o p l => ?_, fun o l => ?_⟩
  · exact Nat.min_le_right _ _
  · exact Nat.min_le_left _ _
  · induction l with
    | nil => exact Nat.le_refl _
    | cons p l ih => exact Nat.le_trans (Nat.min_le_right _ _) ih

/-- `CalBddVarSubstitute` -/
theorem varSubstBF_spec {c : Core} (w : c.st.WF) (v : c.ca.Valid c.st Γ) {σ vb : Nat → Option Edge}
    (hop : op ≠ 0) (hop' : op < 65536) (hΓ : Γ op = substFn S)
    (hσ : SelOk σ vb S c.st) (hv : VarVals σ S c.st.ord) (hb : Below last S c.st.ord)
    {f : Edge} {F : BFn} (rf : Rep c.st f F) :
    ∃ c' r, varSubstBF c σ vb last op f = some (c', r) ∧ c'.st.WF ∧ c'.ca.Valid c'.st Γ ∧
      c.st.Le c'.st ∧ c.st.Keep c'.st ∧ Rep c'.st r (substFn S F) := by
  by_cases hl : last < (c.st.ord.lvl f.id : Int)
  · refine ⟨c, f, by simp only [varSubstBF, hl, if_true], w, v, Store.Le.refl _, Store.Keep.refl _, ?_⟩
    rw [substFn_below w hb rf hl]; exact rf
  have f0 : f.id ≠ 0 := by
    intro h0
    have := hb.1
    have := w.ord.bound
    rw [h0] at hl; simp only [Order.lvl, if_true] at hl; omega
  have hi := eok_range w rf.eok f0
  have hklt : c.st.ord.lvl f.id < c.st.ord.numVars := by
    simp only [Order.lvl, f0, if_false]; exact w.ord.idx_lt _ hi.1 hi.2
  have and1 : ∀ {s : Store} {δ}, Lab s δ → ∀ e : Edge, (fun ρ => den δ e ρ && den δ one ρ) = den δ e := by
    intro s δ hδ e
    funext ρ
    simp [den, hδ.const, one]
  cases hlk : c.ca.lookup f one op with
  | some r =>
    obtain ⟨ok, hs⟩ := v.lookup hlk
    refine ⟨c, r, by simp only [varSubstBF, hl, if_false, hlk], w, v, Store.Le.refl _, Store.Keep.refl _, ?_⟩
    obtain ⟨δ, hδ⟩ := w.exists_lab
    have := hs δ hδ
    rw [hΓ, and1 hδ, hδ.rep_eq rf] at this
    rw [← this]; exact hδ.rep w ok
  | none =>
    have id0 : BF.Idle (BF.init c.st : BF Prob) := BF.init_idle c.st
    have hn : ∀ a r, (BF.init c.st : BF Prob).req a ≠ some r := fun a r hr => by rw [id0.req] at hr; cases hr
    have ei0 : EI (subSem last S) Q0 (BF.init c.st : BF Prob) (fun _ _ => false) := id0.ei w _
    have ci0 : CI op S Γ (BF.init c.st : BF Prob) (fun _ _ => false) c.ca :=
      ⟨fun i x hx => Or.inl (v.ent i x hx), v.count, v.range⟩
    obtain ⟨b1, e, G1, h1, ei1, g1, k1, v1, ev1, l1⟩ := push_spec (subOk last S).toActOk ei0
      (k := c.st.ord.lvl f.id) (fun a r hr => absurd hr (hn a r)) (p := .sub f)
      (F := substFn S F) ⟨hb, f0, F, rf, rfl⟩ rfl hi (Nat.le_refl _)
    have h1 : (BF.init c.st : BF Prob).findOrAddReq 0 f.id (.sub f) = some (b1, e) := h1
    have ho1 : b1.st.ord = c.st.ord := g1.le.ord
    have hnew : ∀ a r, b1.req a = some r → r.dep = 0 ∧ c.st.ord.lvl f.id ≤ c.st.ord.lvl r.id ∧
        ∃ p, r.cell = .pend p := by
      intro a r hr
      rcases g1.new a r hr with h | ⟨_, h2, h3, h4⟩
      · exact absurd h (hn a r)
      · exact ⟨h2, h3, h4⟩
    obtain ⟨b2, c2, G2, h2, ei2, s2, ci2, nh2, d2, lo2⟩ := vsRange_spec hop hop' hΓ
      (lo := c.st.ord.lvl f.id) (c.st.ord.numVars - c.st.ord.lvl f.id) (c.st.ord.lvl f.id) b1 G1 c.ca
      (by rw [ho1]; omega) ei1 (ci0.grow g1) (by
        intro a i d u hr
        obtain ⟨-, -, p, hp⟩ := hnew a _ hr
        cases hp)
      (AD.start (fun d hd => by simpa using hd) (fun a r hr _ => by
        rw [ho1]; exact (hnew a r hr).2))
    have ho2 : b2.st.ord = c.st.ord := s2.st.ord.trans ho1
    have dp2 : ∀ a r, b2.req a = some r → r.dep = 0 := by
      intro a r hr
      by_cases h : r.dep = 0
      · exact h
      · exact (hnew a r ((s2.inact a r h).1 hr)).1
    have hle2 : c.st.Le b2.st := g1.le.trans s2.st
    have hsum : c.st.ord.lvl f.id + (c.st.ord.numVars - c.st.ord.lvl f.id) = c.st.ord.numVars := by omega
    have sb2 : SB (fun i => c.st.ord.lvl f.id ≤ c.st.ord.lvl i) last S (c.st.ord.lvl f.id + (c.st.ord.numVars - c.st.ord.lvl f.id)) b2 G2 := by
      refine ⟨?_, dp2, ?_, ?_, fun a r hr => by rw [← ho2]; exact ho2 ▸ lo2 a r hr (dp2 a r hr)⟩
      · exact EI.none (S := subSem last S) (S' := iteS last S) (fun _ _ _ h => h) rfl ei2
          (fun a r hr => by rw [dp2 a r hr]; decide)
      · intro a r hr _
        have hd := d2 a r hr (dp2 a r hr)
        have hdp := dp2 a r hr
        obtain ⟨i, d, cc⟩ := r
        simp only at hdp hd
        subst hdp
        cases cc with
        | pend p => exact absurd hd id
        | fwd t => exact absurd hd id
        | half u => exact absurd hr (nh2 _ _ _ _)
        | done t u =>
          obtain ⟨a1, a2, a3, a4⟩ := ei2.done_act _ _ _ _ _ rfl hr
          exact ⟨t, u, rfl, ⟨a1, a3.imp id (·.2)⟩, ⟨a2, a4.imp id (·.2)⟩⟩
      · intro a r hr hlv
        have := ei2.sh.lvl_lt hr
        rw [ho2] at this hlv; omega
    obtain ⟨b3, G3, h3, i3, o3⟩ := subRange_spec minIte_ok (vsStep_ok hσ hv minIte_ok)
      (lo := c.st.ord.lvl f.id) (c.st.ord.numVars - c.st.ord.lvl f.id) b2 G2 hle2
      (by rw [ho2]; omega) sb2
    have lo3 : ∀ a r, b3.req a = some r → c.st.ord.lvl f.id ≤ b3.st.ord.lvl r.id := by
      intro a r hr
      rw [o3.st.ord, ho2]; exact i3.ids a r hr
    have hfwd : ∀ a r, b3.req a = some r → ∃ t, r.cell = .fwd t := fun a r hr =>
      i3.past a r hr (lo3 a r hr)
    have fin : Rep b3.st (b3.forward e) (substFn S F) :=
      fwd_rep i3.ei (o3.val ei2.sh (v1.mono s2) (ev1.mono s2)) (o3.eva (ev1.mono s2)) (fun r hr _ _ => hfwd _ r hr)
    have kp : BF.Keep c.st b3 := by
      refine ⟨hle2.trans o3.st, fun ext h => ?_, fun h => o3.num (s2.num (g1.num h))⟩
      have q0 := (BF.Keep.init c.st (P := Prob)).2.1 ext h
      have q1 := (g1.stp k1).keep ext q0 (fun a r hr => absurd hr (hn a r))
      have q2 := s2.keep ext q1.1 q1.2
      exact (o3.keep ext q2.1 q2.2).1
    obtain ⟨cc, sn, q⟩ := cleanUpTabs_spec [0] (allIds c.st.ord) b3 i3.ei.sh.cinv
    have hle3 : b3.st.Le (cleanUpTabs [0] (allIds c.st.ord) b3).st :=
      ⟨sn.ord, fun a n hn => by rw [sn.heap]; exact hn⟩
    have cv := (((ci2.out o3 ei2.sh).fix hΓ hop i3.ei hfwd).mono hle3)
    have fin' := SameNodes.rep sn fin
    refine ⟨_, b3.forward e, by simp only [varSubstBF, hl, if_false, hlk, h1, h2, h3]; rfl, cc.wf, ?_,
      kp.1.trans hle3, kp.final hfwd sn, fin'⟩
    have rf' := rf.mono (kp.1.trans hle3)
    refine cv.insert hop hop' rf'.eok (Or.inl ⟨rfl, rfl⟩) fin'.eok ?_
    intro δ hδ
    rw [hΓ, and1 hδ, hδ.rep_eq rf', hδ.rep_eq fin']

end

end Eng
end Cal
