import Verif.Repack
import Verif.MoveMgr

/-!
# Repacking a manager
-/

namespace Cal

namespace Rp

open Df (Rl fwdE)

variable {s : Store} {pg : Pages}

theorem le_foldl_max (l : List Nat) : ∀ n, n ≤ l.foldl (fun n a => max n (a + 1)) n ∧
    ∀ a ∈ l, a < l.foldl (fun n a => max n (a + 1)) n := by
  induction l with
  | nil => intro n; exact ⟨Nat.le_refl n, fun a h => by cases h⟩
  | cons x l ih =>
    intro n
    obtain ⟨h1, h2⟩ := ih (max n (x + 1))
    rw [List.foldl_cons]
    refine ⟨by omega, fun a ha => ?_⟩
    rcases List.mem_cons.1 ha with rfl | ha
    · omega
    · exact h2 a ha

theorem reserve_wf (w : s.WF) (pg : Pages) : (reserve pg s).WF := by
  have hle := (le_foldl_max (addresses pg s.ord.numVars) s.next).1
  refine ⟨w.ord, w.heap0, w.var_range, w.tab_iff, w.tab_nodup, w.thn_ok, w.els_ok, w.thn_pos, w.thn_lt, w.els_lt,
    w.reduced, w.unique, Nat.lt_of_lt_of_le w.next_pos hle, fun a n hn => Nat.lt_of_lt_of_le (w.heap_next a n hn) hle,
    w.free_nodup, fun i a ha => ?_, w.free_disj⟩
  have := w.free_ok i a ha
  exact ⟨this.1, this.2.1, Nat.lt_of_lt_of_le this.2.2 hle⟩

theorem reserve_lt {i a : Nat} (hi : i ≤ s.ord.numVars) (ha : a ∈ (pg i).flatten) : a < (reserve pg s).next := by
  refine (le_foldl_max (addresses pg s.ord.numVars) s.next).2 a ?_
  unfold addresses
  rw [List.mem_flatMap]
  exact ⟨i, List.mem_range.2 (by omega), ha⟩

/-- The loop over the indices starts with all nodes where they are. -/
theorem LoopInv.start (w : s.WF) (L : Layout s pg) (low : Nat → Nat → Bool) :
    LoopInv low (reserve pg s) pg s.ord.numVars false ⟨reserve pg s, fun _ => none⟩ := by
  have w1 := reserve_wf w pg
  have hnone : ∀ a n, (reserve pg s).heap a = some n → ¬ Below (reserve pg s) s.ord.numVars a := by
    rintro a n hn ⟨m, hm, h⟩
    rw [hn] at hm; cases hm
    have hv := w1.var_range a n hn
    have := w1.ord.idx_lt n.var hv.1 hv.2
    unfold Order.lvl at h
    rw [if_neg (by omega)] at h
    have e : (reserve pg s).ord.numVars = s.ord.numVars := rfl
    omega
  refine ⟨⟨rfl, rfl, rfl, rfl, fun a n hn _ => ⟨hn, rfl⟩, fun a n hn hd => absurd hd (hnone a n hn), fun _ _ _ => rfl,
    fun a b h => (by cases h), fun a a' b h => (by cases h), fun b hb => ⟨b, hb, rfl⟩,
    fun a n hn hd => absurd hd (hnone a n hn)⟩, fun _ _ => rfl, ?_, fun _ _ => rfl, w.free_nodup, ?_, ?_, fun _ _ _ _ => rfl,
    ?_⟩
  · intro i h1 h2 h3
    have := w1.ord.idx_lt i h1 h2
    unfold Order.lvl at h3
    rw [if_neg (by omega)] at h3
    have e : (reserve pg s).ord.numVars = s.ord.numVars := rfl
    omega
  · intro i b hb
    have := w.free_ok i b hb
    exact ⟨this.1, this.1, by omega, L.free i b hb⟩
  · intro i b hb
    exact (w1.free_ok i b hb).2.2
  · intro i h1 h2 h3
    have := w1.ord.idx_lt i h1 h2
    unfold Order.lvl at h3
    rw [if_neg (by omega)] at h3
    have e : (reserve pg s).ord.numVars = s.ord.numVars := rfl
    omega

/-- The unique tables after repacking: every node is still there, at its old or a new address. -/
theorem repackStore_ok (w : s.WF) (L : Layout s pg) (hlive : ∀ a, s.heap a ≠ none → s.ref a ≠ 0)
    {low : Nat → Nat → Bool} (hlow : ∀ n p, low n p = true → n < perPage * p) :
    ∃ r, repackStore low pg s = some r ∧ s.Moved r.st r.at ∧ r.st.gcCheck = s.gcCheck ∧
      (∀ a n, s.heap a = some n → a ∈ ((pg n.var).take (required s n.var)).flatten → r.fwd a = none) ∧
      (∀ a n, s.heap a = some n → r.at a ∈ (pg n.var).flatten) ∧ (∀ j, ∀ b ∈ r.st.free j, b ∈ (pg j).flatten) ∧
      ∀ i, 1 ≤ i → i ≤ s.ord.numVars → needs low pg s i = true →
        (∀ a ∈ (pg i).flatten, s.heap a ≠ none → r.at a ∈ ((pg i).take (required s i)).flatten) ∧
        (∀ b ∈ r.st.free i, b ∈ ((pg i).take (required s i)).flatten) ∧
        ∀ a ∈ ((pg i).drop (required s i)).flatten, r.st.heap a = none := by
  have w1 := reserve_wf w pg
  have L1 : Layout (reserve pg s) pg := ⟨L.size, L.nodup, L.pos, L.own, L.all, L.free, L.disj⟩
  have I := LoopInv.start w L low
  obtain ⟨r, flag, e, J⟩ := packLoop_ok w1 L1 hlive (fun i a h1 h2 => reserve_lt h1 h2) hlow _ _ _ (Nat.le_refl _) I
  have hall : ∀ a, s.heap a ≠ none → Below (reserve pg s) 0 a := by
    intro a ha
    cases hn : s.heap a with
    | none => exact absurd hn ha
    | some n => exact ⟨n, hn, Nat.zero_le _⟩
  have hat0 : r.at 0 = 0 := at_none (J.inv.fwd0 w1.heap0)
  refine ⟨r, e, ⟨hat0, ?_, ?_, ?_, ?_, ?_, ?_, ?_, J.inv.ord, J.inv.num, ?_, ?_, J.freeNodup, ?_, ?_⟩, J.inv.chk, J.first,
    fun a n hn => ?_, fun j b hb => (J.free j b hb).2.2.2, fun i i1 i2 hneed => ?_⟩
  · intro a b ha hb h
    cases h1 : r.fwd a with
    | none =>
      rw [at_none h1] at h
      cases h2 : r.fwd b with
      | none => rw [at_none h2] at h; exact h
      | some c =>
        rw [at_some h2] at h
        have := (J.inv.move b c h2).2.2.1
        rw [← h] at this
        exact absurd this ha
    | some c =>
      rw [at_some h1] at h
      cases h2 : r.fwd b with
      | none =>
        rw [at_none h2] at h
        have := (J.inv.move a c h1).2.2.1
        rw [h] at this
        exact absurd this hb
      | some d =>
        rw [at_some h2] at h
        exact J.inv.inj a b c h1 (by rw [h2, h])
  · intro a ha h0
    cases h1 : r.fwd a with
    | none =>
      rw [at_none h1] at h0; rw [h0] at ha; exact ha w.heap0
    | some c =>
      rw [at_some h1] at h0
      exact (J.inv.move a c h1).2.2.2.1 h0
  · intro a n hn
    cases h1 : r.fwd a with
    | none => rw [at_none h1]; exact J.inv.stay a n hn (hall a (by rw [hn]; simp)) h1
    | some c =>
      rw [at_some h1]
      obtain ⟨-, -, -, -, m, hm, -, h, -⟩ := J.inv.move a c h1
      have hm : s.heap a = some m := hm
      rw [hn] at hm; cases hm
      exact h
  · exact J.inv.only
  · intro a ha
    cases h1 : r.fwd a with
    | none => rw [at_none h1]; exact J.inv.ref a h1 (Or.inr ha)
    | some c =>
      rw [at_some h1]
      obtain ⟨-, -, -, -, m, -, -, -, h⟩ := J.inv.move a c h1
      exact h
  · exact J.inv.ref 0 (J.inv.fwd0 w1.heap0) (Or.inl rfl)
  · intro i
    by_cases hi : 1 ≤ i ∧ i ≤ s.ord.numVars
    · exact J.done i hi.1 hi.2 (Nat.zero_le _)
    · have he : s.tab i = [] := by
        apply List.eq_nil_iff_forall_not_mem.2
        intro a ha
        obtain ⟨n, hn, rfl⟩ := (w.tab_iff i a).1 ha
        exact hi (w.var_range a n hn)
      have := J.todo i fun h => hi ⟨h.1, h.2.1⟩
      rw [this]
      show (s.tab i).Perm _
      rw [he]; exact .nil
  · rw [J.inv.next]; exact w1.next_pos
  · intro b hb
    rw [J.inv.next]
    obtain ⟨a, ha, h⟩ := J.inv.only b hb
    cases h1 : r.fwd a with
    | none =>
      rw [at_none h1] at h; subst h
      cases hn : (reserve pg s).heap a with
      | none => exact absurd hn ha
      | some n => exact w1.heap_next a n hn
    | some c =>
      rw [at_some h1] at h; subst h
      obtain ⟨-, -, -, -, m, hm, hp, -⟩ := J.inv.move a c h1
      exact reserve_lt (w.var_range a m hm).2 hp
  · intro i a ha
    obtain ⟨h1, h2, h3, h4⟩ := J.free i a ha
    refine ⟨h2, by omega, ?_⟩
    rw [J.inv.next]
    exact J.freeLt i a ha
  · intro i j a ha hb
    exact L.disj i j a (J.free i a ha).2.2.2 (J.free j a hb).2.2.2
  · cases h1 : r.fwd a with
    | none => rw [at_none h1]; exact L.all a n hn
    | some c =>
      rw [at_some h1]
      obtain ⟨-, -, -, -, m, hm, hp, -⟩ := J.inv.move a c h1
      have hm : s.heap a = some m := hm
      rw [hn] at hm; cases hm
      exact hp
  · obtain ⟨k1, k2⟩ := J.kept i i1 i2 (Nat.zero_le _) hneed
    refine ⟨k1, k2, fun b hb => ?_⟩
    have hbi : b ∈ (pg i).flatten := by
      rw [← List.take_append_drop (required s i) (pg i), List.flatten_append]
      exact List.mem_append_right _ hb
    cases hn : r.st.heap b with
    | none => rfl
    | some n =>
      exfalso
      obtain ⟨a, ha, h⟩ := J.inv.only b (by rw [hn]; simp)
      have hai : a ∈ (pg i).flatten := by
        cases h1 : r.fwd a with
        | none => rw [at_none h1] at h; rw [h]; exact hbi
        | some c =>
          rw [at_some h1] at h; subst h
          obtain ⟨-, -, -, -, m, hm, hp, -⟩ := J.inv.move a c h1
          have := L.disj _ _ c hp hbi
          rw [← this]
          exact L.all a m hm
      have hF := k1 a hai ha
      rw [h] at hF
      have hnd := L.nodup i
      rw [← List.take_append_drop (required s i) (pg i), List.flatten_append] at hnd
      exact (List.nodup_append.1 hnd).2.2 b hF b hb rfl

/-! ## Outside the unique tables -/

/-- `CalBddNodeForward` if the node is forwarded (calInt.h:1342-1349), on the pointers of cache entries -/
def fwdP (fwd : Nat → Option Nat) (p : Ptr) : Ptr :=
  match fwd p.addr with
  | some b => { p with addr := b }
  | none => p

/-- `CalCacheTableTwoRepackUpdate` (calCacheTableTwo.c:369-388): the entries stay in their bins. -/
def fixCache (fwd : Nat → Option Nat) (c : Cache) : Cache :=
  { c with bins := fun j => (c.bins j).map fun e =>
      if e.op ≠ 0 then { e with o1 := fwdP fwd e.o1, o2 := fwdP fwd e.o2, r := fwdE fwd e.r } else e }

/-- `CalReorderAssociationFix` (calAssociation.c:426-448) on one association. -/
def fixAssoc (fwd : Nat → Option Nat) (A : Assoc) : Assoc := { A with var := fun v => (A.var v).map (fwdE fwd) }

/-- The manager at the end (calGC.c:358-371): cache, user handles and associations are forwarded. The
variables (`varBdds`) are not. -/
def finish (m : Mgr) (r : Rl) : Mgr :=
  { m with
    st := r.st
    ca := fixCache r.fwd m.ca
    ut := { m.ut with heap := fun a => (m.ut.heap a).map (fwdE r.fwd) }
    assocs := m.assocs.map fun p => { p with a := fixAssoc r.fwd p.a }
    temp := fixAssoc r.fwd m.temp }

/-- `CalRepackNodesAfterGC` (calGC.c:209-373); the function forwards the results in a pipeline
(`CalBddReorderFixProvisionalNodes`). -/
def repack (low : Nat → Nat → Bool) (pg : Pages) (m : Mgr) : Option (Mgr × (Edge → Edge)) :=
  (repackStore low pg m.st).map fun r => (finish m r, fwdE r.fwd)

/-- What repacking leaves behind. -/
structure Repacked (Γ : Nat → BFn → BFn) (own leak : Nat → Nat) (ps : List Edge) (m m' : Mgr)
    (φ : Edge → Edge) : Prop where
  inv : ∃ leak', (leak = (fun _ => 0) → leak' = fun _ => 0) ∧
    Mgr.InvG Γ (fun x => leak' x + pend (ps.map φ) x) own m'
  eok : ∀ e ∈ ps.map φ, m'.st.EOK e
  pres : Pres own 0 m m'
  fwd : Fwd own ps m m' φ
  ovf : m'.overflow = m.overflow
  chk : m'.st.gcCheck = m.st.gcCheck
  ord : m'.st.ord = m.st.ord
  num : m'.st.numNodes = m.st.numNodes

theorem lab_pull {s s' : Store} {φ : Nat → Nat} (M : s.Moved s' φ) {δ : Nat → BFn} (l : Lab s' δ) :
    Lab s (fun a => δ (φ a)) := by
  refine ⟨by show δ (φ 0) = _; rw [M.zero]; exact l.const, fun a n hn ρ => ?_⟩
  exact l.node (φ a) (mvN φ n) (M.node a n hn) ρ

theorem fixCache_valid {Γ : Nat → BFn → BFn} {c : Cache} {r : Rl} (M : s.Moved r.st r.at) (v : c.Valid s Γ) :
    (fixCache r.fwd c).Valid r.st Γ := by
  have hp : ∀ p, fwdP r.fwd p = ⟨r.at p.addr, p.neg⟩ := by
    intro p
    unfold fwdP Rl.at
    cases r.fwd p.addr <;> rfl
  have hu : ∀ j, Cache.used ((fixCache r.fwd c).bins j) = Cache.used (c.bins j) := by
    intro j
    unfold fixCache
    simp only
    cases hj : c.bins j with
    | none => rfl
    | some e =>
      simp only [Option.map_some, Cache.used]
      split <;> rfl
  have hpok : ∀ p, s.POK p → r.st.POK ⟨r.at p.addr, p.neg⟩ := by
    rintro p (h | h)
    · exact Or.inl (by show r.at p.addr = 0; rw [h]; exact M.zero)
    · cases hn : s.heap p.addr with
      | none => exact absurd hn h
      | some n => exact Or.inr (by show r.st.heap (r.at p.addr) ≠ none; rw [M.node _ n hn]; simp)
  refine ⟨fun j e h => ?_, ?_, fun j e h => ?_⟩
  · unfold fixCache at h
    simp only [Option.map_eq_some_iff] at h
    obtain ⟨e0, h0, h⟩ := h
    have V := v.ent j e0 h0
    rw [if_pos V.used] at h
    subst h
    refine ⟨V.used, V.fixed, ?_, ?_, ?_, fun δ l => ?_⟩
    · show r.st.POK (fwdP r.fwd e0.o1); rw [hp]; exact hpok _ V.p1
    · show r.st.POK (fwdP r.fwd e0.o2); rw [hp]; exact hpok _ V.p2
    · show r.st.EOK (fwdE r.fwd e0.r); rw [Df.fwdE_eq]; exact M.eok V.res
    · have := V.sem _ (lab_pull M l)
      show den δ (fwdE r.fwd e0.r) = Γ e0.op fun ρ => pden δ (fwdP r.fwd e0.o1) ρ && pden δ (fwdP r.fwd e0.o2) ρ
      rw [hp, hp, Df.fwdE_eq]
      exact this
  · show c.numEntries = _
    rw [v.count]
    apply sumTo_congr
    intro j _
    simp only [hu]
  · unfold fixCache at h
    simp only [Option.map_eq_some_iff] at h
    obtain ⟨e0, h0, -⟩ := h
    exact v.range j e0 h0

theorem assoc_ok_map {A : Assoc} {o : Order} (h : A.OK o) (f : Nat → Option Nat) : (fixAssoc f A).OK o := by
  have hd : ∀ v, (fixAssoc f A).dom v ↔ A.dom v := by
    intro v
    simp [Assoc.dom, fixAssoc]
  exact ⟨fun v hv => h.rng v ((hd v).1 hv), fun v hv => h.le v ((hd v).1 hv), h.lt,
    h.ex.imp id fun ⟨v, hv, e⟩ => ⟨v, (hd v).2 hv, e⟩⟩

theorem repack_ok {Γ : Nat → BFn → BFn} {own leak : Nat → Nat} {ps : List Edge} {m : Mgr}
    (i : Mgr.InvG Γ (fun x => leak x + pend ps x) own m) (ok : ∀ e ∈ ps, m.st.EOK e) (L : Layout m.st pg)
    (hlive : ∀ a, m.st.heap a ≠ none → m.st.ref a ≠ 0)
    (hvars : ∀ v a, m.vars v = some ⟨v, a, false⟩ → a ∈ ((pg v).take (required m.st v)).flatten)
    {low : Nat → Nat → Bool} (hlow : ∀ n p, low n p = true → n < perPage * p) :
    ∃ m' φ, repack low pg m = some (m', φ) ∧ Repacked Γ own leak ps m m' φ := by
  obtain ⟨r, hr, M, hchk, hfirst, -⟩ := repackStore_ok i.wf L hlive hlow
  refine ⟨finish m r, fwdE r.fwd, by unfold repack; rw [hr]; rfl, ?_⟩
  have hψ : fwdE r.fwd = mvE r.at := funext (Df.fwdE_eq r)
  have livem : ∀ a, 0 < m.roots (fun x => leak x + pend ps x) a → a ≠ 0 → m.st.heap a ≠ none := by
    intro a h1 h0 h
    have := i.ref.ext0 a h0 h
    omega
  have F : m.Forwards (fun x => leak x + pend ps x) r.st r.at (fwdE r.fwd) := by
    refine ⟨M.wf i.wf, M.numOK i.num, by rw [M.ord], M.zero, ?_, ?_, ?_, ?_, ?_, ?_⟩
    · intro a b h1 h2 h3 h4 h
      exact M.inj a b (livem a h1 h2) (livem b h3 h4) h
    · intro a h1 h2; exact M.pos a (livem a h1 h2)
    · intro e; rw [hψ]; rfl
    · intro e; rw [hψ]; rfl
    · intro e F _ rp; rw [hψ]; exact M.rep rp
    · intro ext' h1 h2
      refine M.refOK i.wf i.ref (fun a ha => ?_) (fun b b0 hb => ?_)
      · have a0 : a ≠ 0 := fun h => by subst h; exact ha i.wf.heap0
        by_cases hp : 0 < m.roots (fun x => leak x + pend ps x) a
        · exact h1 a hp a0
        · rw [h2 (r.at a) (M.pos a ha)]
          · omega
          · rintro ⟨c, c1, c0, hc⟩
            have := M.inj c a (livem c c1 c0) ha hc
            subst this; exact hp c1
      · refine h2 b b0 ?_
        rintro ⟨c, c1, c0, rfl⟩
        cases hn : m.st.heap c with
        | none => exact livem c c1 c0 hn
        | some n => rw [M.node c n hn] at hb; cases hb
  have ha : F2 (fun p q : RAssoc => Assoc.Mvd (fwdE r.fwd) p.a q.a ∧ q.refCount = p.refCount) m.assocs
      (m.assocs.map fun p => { p with a := fixAssoc r.fwd p.a }) := by
    generalize m.assocs = as
    induction as with
    | nil => exact .nil
    | cons p as ih => exact .cons ⟨⟨rfl, fun v => rfl⟩, rfl⟩ ih
  have ht : Assoc.Mvd (fwdE r.fwd) m.temp (fixAssoc r.fwd m.temp) := ⟨rfl, fun v => rfl⟩
  have hv : (fun v => (m.vars v).map (fwdE r.fwd)) = m.vars := by
    funext v
    by_cases h : 1 ≤ v ∧ v ≤ m.st.ord.numVars
    · obtain ⟨a, h1, h2⟩ := i.var v h.1 h.2
      have := hfirst a _ h2 (hvars v a h1)
      rw [h1, Option.map_some, hψ]
      unfold mvE
      rw [at_none this]
    · rw [i.var0 v (by omega)]; rfl
  have hfin : finish m r = m.fwdAll r.st (fixCache r.fwd m.ca) (fwdE r.fwd)
      (m.assocs.map fun p => { p with a := fixAssoc r.fwd p.a }) (fixAssoc r.fwd m.temp) := by
    unfold finish Mgr.fwdAll
    rw [hv]
  obtain ⟨k1, k2⟩ := i.fwdAll ok F (fixCache_valid M i.ca) ha (fun q hq => by
    obtain ⟨p, hp, rfl⟩ := List.mem_map.1 hq
    rw [M.ord]; exact assoc_ok_map (i.assocs p hp).1.ok r.fwd) ht (by rw [M.ord]; exact assoc_ok_map i.temp.ok r.fwd)
  obtain ⟨k3, k4⟩ := i.fwd_pres ok F (ca' := fixCache r.fwd m.ca) (fun _ => M.ord) ha ht (by
    intro e b; rw [hψ]; rfl)
  rw [← hfin] at k1 k3 k4
  refine ⟨⟨_, ?_, k1⟩, k2, k3, k4, rfl, hchk, M.ord, M.num⟩
  rintro rfl
  funext b
  unfold Mgr.push
  split <;> rfl

/-! ## An environment that repacks -/

/-- The situations in which repacking is safe: after a collection, with the node of every variable on a page that
is kept. -/
structure Ready (m : Mgr) (pg : Pages) : Prop where
  layout : Layout m.st pg
  live : ∀ a, m.st.heap a ≠ none → m.st.ref a ≠ 0
  vars : ∀ v a, m.vars v = some ⟨v, a, false⟩ → a ∈ ((pg v).take (required m.st v)).flatten

end Rp

open Classical in
/-- The environment `E`, but with repacking as in the code wherever it is safe. `pg` gives the pages, which are not
part of the manager model. -/
noncomputable def Env.rp (E : Env) (low : Nat → Nat → Bool) (pg : Mgr → Rp.Pages) : Env :=
  { E with
    repack := fun m ps =>
      if Rp.Ready m (pg m) then
        match Rp.repack low (pg m) m with
        | some x => some x
        | none => E.repack m ps
      else E.repack m ps }

theorem packLoop_chk {low : Nat → Nat → Bool} {pg : Rp.Pages} : ∀ (k : Nat) (flag : Bool) (r r' : Df.Rl),
    Rp.packLoop low pg k flag r = some r' → r'.st.gcCheck = r.st.gcCheck := by
  have fix : ∀ (l : List Nat) (r : Df.Rl), (l.foldl Rp.fixNode r).st.gcCheck = r.st.gcCheck := by
    intro l
    induction l with
    | nil => intro r; rfl
    | cons a l ih =>
      intro r
      rw [List.foldl_cons, ih]
      unfold Rp.fixNode
      split
      · rfl
      · split <;> rfl
  have pack : ∀ (b : Bool) (l : List Nat) (p p' : Rp.Pk), l.foldlM (Rp.packNode b) p = some p' →
      p'.r.st.gcCheck = p.r.st.gcCheck := by
    intro b l
    induction l with
    | nil => intro p p' h; cases h; rfl
    | cons a l ih =>
      intro p p' h
      rw [List.foldlM_cons] at h
      cases hx : Rp.packNode b p a with
      | none => rw [hx] at h; cases h
      | some q =>
        rw [hx] at h
        rw [ih q p' h]
        unfold Rp.packNode at hx
        split at hx
        · cases hx; cases b <;> rfl
        · split at hx
          · cases hx; rfl
          · simp only at hx
            split at hx
            · cases hx; rfl
            · split at hx
              · cases hx
              · cases hx; rfl
  intro k
  induction k with
  | zero => intro flag r r' h; cases h; rfl
  | succ k ih =>
    intro flag r r' h
    unfold Rp.packLoop at h
    simp only at h
    split at h
    · cases hx : Rp.packTable pg r (r.st.ord.indexToId k) with
      | none => rw [hx] at h; cases h
      | some q =>
        rw [hx] at h
        rw [ih _ _ _ h]
        unfold Rp.packTable at hx
        simp only at hx
        split at hx
        · cases hx
        · rename_i p1 e1
          split at hx
          · cases hx
          · rename_i p2 e2
            cases hx
            show p2.r.st.gcCheck = _
            rw [pack _ _ _ _ e2, pack _ _ _ _ e1]
    · split at h
      · rw [ih _ _ _ h, fix]
      · exact ih _ _ _ h

theorem Env.rp_sound {E : Env} (S : E.Sound) {low : Nat → Nat → Bool}
    (hlow : ∀ n p, low n p = true → n < Rp.perPage * p) (pg : Mgr → Rp.Pages) : (E.rp low pg).Sound := by
  refine ⟨S.reorder, ?_, S.reorderCheck, ?_, S.existsBF, S.relProdBF, S.rnd⟩
  · intro own lk ps m i
    simp only [Env.rp]
    split
    · rename_i c
      obtain ⟨Γ, leak, hl, i, ok⟩ := i
      obtain ⟨m', φ, e, R⟩ := Rp.repack_ok i ok c.layout c.live c.vars hlow
      obtain ⟨leak', h1, h2⟩ := R.inv
      rw [e]
      exact ⟨m', φ, rfl, ⟨Γ, leak', fun h => h1 (hl h), h2, R.eok⟩, R.pres, R.ovf, R.fwd⟩
    · exact S.repack own lk ps m i
  · intro m ps m' φ
    simp only [Env.rp]
    split
    · split
      · rename_i x e
        intro h
        cases h
        unfold Rp.repack at e
        rw [Option.map_eq_some_iff] at e
        obtain ⟨r, hr, h⟩ := e
        cases h
        exact packLoop_chk _ _ _ _ hr
      · exact S.repackCheck m ps m' φ
    · exact S.repackCheck m ps m' φ

end Cal
