import Verif.BfSift
import Verif.DfEnv

/-!
# A whole breadth-first reordering (`CalBddReorderAuxBF`, calReorderBF.c:101-130)
-/

namespace Cal

namespace Bfr

open Df (Fr PWF)

/-! ## The code -/

/-- The state in which `CalBddReorderAuxBF` (calReorderBF.c:100-122) calls `BddReorderVarSift` (calReorderBF.c:720-771). The lists of forwarding nodes are
empty, and there are no forwarding nodes. -/
def enter (P : Par) (m : Mgr) (mat : Interact.Matrix) : St :=
  { st := m.st, fwd := fun _ => none, list := fun _ => [], ends := fun _ => false, numFwd := P.numFwd0
    mat := mat, swaps := 0, trivial := 0, users := m.ut.heap, vars := m.vars, assocs := m.assocs
    temp := m.temp, pipe := id }

/-- The manager at the end. -/
def finish (m : Mgr) (w : St) : Mgr :=
  { m with st := w.st, ut := { m.ut with heap := w.users }, vars := w.vars, assocs := w.assocs, temp := w.temp }

/-- `CalBddReorderAuxBF` (calReorderBF.c:100-122) when the technique is not `CAL_REORDER_WINDOW`. `ps` are
the results in the pipeline; the result has the map that forwards them
(`CalBddReorderFixProvisionalNodes`, calPipeline.c:324-362). Not modelled: the counter `numReorderings` and the
sums of swaps that `Cal_BddManagerStats` prints. -/
def reorderBF (P : Par) (m : Mgr) (ps : List Edge) : Option (Mgr × (Edge → Edge)) :=
  match Interact.initInteract m.st (Df.userBdds m.ut ++ ps) with
  | none => none
  | some mat => (sift P (enter P m mat)).map fun w => (finish m w, w.pipe)

/-! ## Back to the depth-first store -/

section
variable {ext : Nat → Nat} {δ0 : Nat → BFn} {d0 : Df.St} {Root : Edge → Prop} {u0 v0 : Nat → Option Edge}
variable {w : St} {d : Df.St} {ab : Nat → Nat}

open Classical in
/-- The node that stands for the depth-first node at `b`. -/
noncomputable def back (w : St) (ab : Nat → Nat) (b : Nat) : Nat :=
  if h : ∃ a, w.st.heap a ≠ none ∧ ab a = b then Classical.choose h else 0

theorem back_of (B : BInv ext δ0 d0 Root u0 v0 w d ab) {a : Nat} (h : w.st.heap a ≠ none) : back w ab (ab a) = a := by
  have h' : ∃ c, w.st.heap c ≠ none ∧ ab c = ab a := ⟨a, h, rfl⟩
  unfold back
  rw [dif_pos h']
  have := Classical.choose_spec h'
  exact B.sim.inj _ _ this.1 h this.2

theorem live_ab (B : BInv ext δ0 d0 Root u0 v0 w d ab) {a : Nat} (h : w.st.heap a ≠ none) : d.st.heap (ab a) ≠ none := by
  cases hn : w.st.heap a with
  | none => exact absurd hn h
  | some n => obtain ⟨n', h1, _⟩ := B.sim.node a n hn; rw [h1]; simp

theorem back_zero (B : BInv ext δ0 d0 Root u0 v0 w d ab) : back w ab 0 = 0 := by
  unfold back
  rw [dif_neg]
  rintro ⟨a, h, h0⟩
  have := live_ab B h
  rw [h0] at this
  exact this B.r.inv.w.heap0

theorem back_live (B : BInv ext δ0 d0 Root u0 v0 w d ab) {b : Nat} (h : d.st.heap b ≠ none) :
    w.st.heap (back w ab b) ≠ none ∧ ab (back w ab b) = b := by
  obtain ⟨a, h1, rfl⟩ := B.sim.sur b h
  rw [back_of B h1]; exact ⟨h1, rfl⟩

theorem back_eok (B : BInv ext δ0 d0 Root u0 v0 w d ab) {e : Edge} (h : w.st.EOK e) :
    mvE (back w ab) (Df.reidE d.st (absE ab e)) = e := by
  rcases h with ⟨h1, h2⟩ | ⟨n, hn, hv⟩
  · refine Edge.ext' ?_ ?_ rfl
    · show Df.tagId d.st (absE ab e) = e.id
      rw [Df.tagId_const (by show ab e.addr = 0; rw [h2, B.sim.zero]), h1]
    · show back w ab (ab e.addr) = e.addr
      rw [h2, B.sim.zero, back_zero B]
  · obtain ⟨n', h1, h2, _⟩ := B.sim.node _ _ hn
    refine Edge.ext' ?_ (back_of B (by rw [hn]; simp)) rfl
    show Df.tagId d.st (absE ab e) = e.id
    rw [Df.tagId_node (e := absE ab e) B.r.inv.w.heap0 h1, h2, hv]

theorem moved (B : BInv ext δ0 d0 Root u0 v0 w d ab) (C : Clean Root w) : (Df.reid d.st).Moved w.st (back w ab) := by
  have S := B.sim
  have live : ∀ a, (Df.reid d.st).heap a ≠ none → d.st.heap a ≠ none := fun a h => mt Df.reid_none.2 h
  refine ⟨back_zero B, ?_, ?_, ?_, ?_, ?_, ?_, ?_, S.ord.symm, S.num, S.fw.fr.next_pos, ?_, S.fw.fr.free_nodup,
    S.fw.fr.free_ok, S.fw.fr.free_disj⟩
  · intro a b ha hb h
    rw [← (back_live B (live a ha)).2, ← (back_live B (live b hb)).2, h]
  · intro a ha h
    have := (back_live B (live a ha)).1
    rw [h] at this
    exact this S.fw.fr.heap0
  · intro b N hN
    obtain ⟨n', hn', rfl⟩ := Df.reid_some hN
    obtain ⟨h1, h2⟩ := back_live B (b := b) (by rw [hn']; simp)
    cases hn : w.st.heap (back w ab b) with
    | none => exact absurd hn h1
    | some n =>
      obtain ⟨n'', h3, h4, T1, T0⟩ := S.node _ _ hn
      rw [h2, hn'] at h3
      cases h3
      have key : ∀ e e', Trk Root w e → Tr (follow w) w ab e e' → mvE (back w ab) (Df.reidE d.st e') = e := by
        rintro e e' ht ⟨_, t2⟩
        have hE := C.trk e ht
        rw [S.fw.follow hE] at t2
        rw [← t2]; exact back_eok B hE
      have k1 := key _ _ (Or.inl ⟨_, n, hn, Or.inl rfl⟩) T1
      have k0 := key _ _ (Or.inl ⟨_, n, hn, Or.inr rfl⟩) T0
      unfold mvN Df.reidN
      simp only
      rw [k1, k0, h4]
  · intro b hb
    exact ⟨ab b, mt Df.reid_none.1 (live_ab B hb), back_of B hb⟩
  · intro a ha
    obtain ⟨h1, h2⟩ := back_live B (live a ha)
    rw [S.ref _ (Or.inr h1), h2]; rfl
  · rw [S.ref 0 (Or.inl rfl), S.zero]; rfl
  · intro i
    show (w.st.tab i).Perm ((d.st.tab i).map (back w ab))
    rw [S.tab, List.map_map]
    have : (w.st.tab i).map (back w ab ∘ ab) = w.st.tab i := by
      conv => rhs; rw [← List.map_id (w.st.tab i)]
      apply List.map_congr_left
      intro a ha
      obtain ⟨n, hn, _⟩ := (S.tabW i a).1 ha
      exact back_of B (by rw [hn]; simp)
    rw [this]
  · intro a ha
    cases hn : w.st.heap a with
    | none => exact absurd hn ha
    | some n => exact S.fw.fr.heap_next a n hn

/-- The pipe as a map of all edges. -/
noncomputable def fwdE (w : St) (ab : Nat → Nat) (e : Edge) : Edge :=
  if e.addr = 0 then e else
    ⟨match w.st.heap (back w ab e.addr) with | some n => n.var | none => e.id, back w ab e.addr, e.neg⟩

theorem fwdE_addr (B : BInv ext δ0 d0 Root u0 v0 w d ab) (e : Edge) : (fwdE w ab e).addr = back w ab e.addr := by
  unfold fwdE
  by_cases h : e.addr = 0
  · rw [if_pos h, h, back_zero B]
  · rw [if_neg h]

theorem fwdE_neg (e : Edge) : (fwdE w ab e).neg = e.neg := by
  unfold fwdE
  split <;> rfl

theorem fwdE_phase (e : Edge) (b : Bool) : fwdE w ab (e.phase b) = (fwdE w ab e).phase b := by
  unfold fwdE
  by_cases h : e.addr = 0
  · rw [if_pos h, if_pos (show (e.phase b).addr = 0 from h)]
  · rw [if_neg h, if_neg (show (e.phase b).addr ≠ 0 from h)]
    rfl

theorem fwdE_root (B : BInv ext δ0 d0 Root u0 v0 w d ab) (C : Clean Root w) {e : Edge} (he : Root e) (h0 : e.addr = 0 → e.id = 0) :
    fwdE w ab e = w.pipe e := by
  have hE := C.trk _ (Or.inr ⟨e, he, rfl⟩)
  obtain ⟨_, t2⟩ := B.root e he
  rw [B.sim.fw.follow hE] at t2
  have ha : ab (w.pipe e).addr = e.addr := congrArg Edge.addr t2
  have hg : (w.pipe e).neg = e.neg := by have := congrArg Edge.neg t2; exact this
  unfold fwdE
  rcases hE with ⟨h1, h2⟩ | ⟨n, hn, hv⟩
  · rw [h2, B.sim.zero] at ha
    rw [if_pos ha.symm]
    exact Edge.ext' (by rw [h1]; exact h0 ha.symm) (by rw [h2]; exact ha.symm) hg.symm
  · have hl := live_ab B (a := (w.pipe e).addr) (by rw [hn]; simp)
    have hb := back_of B (a := (w.pipe e).addr) (by rw [hn]; simp)
    rw [ha] at hl hb
    have : e.addr ≠ 0 := by intro h; rw [h] at hl; exact hl B.r.inv.w.heap0
    rw [if_neg this, hb, hn]
    exact Edge.ext' hv rfl hg.symm

end

/-! ## The beginning -/

/-- The manager is as `CalBddReorderAuxBF` expects: in particular no node is without references, as after a
garbage collection (cal.c:464-467, calUtil.c:215-228). -/
structure Ready (m : Mgr) (ps : List Edge) : Prop where
  vars : m.st.ord.numVars ≤ 46341
  cache : m.ca.Empty
  on : m.technique ≠ 0
  eok : ∀ e ∈ ps, m.st.EOK e
  ref : ∀ a, m.st.heap a ≠ none → m.st.ref a ≠ 0
  cov : ∃ Γ own leak, Mgr.InvG Γ (fun x => leak x + pend ps x) own m ∧ Df.Covered m leak ps

theorem Ready.covered {m : Mgr} {ps : List Edge} (h : Ready m ps) {Γ : Nat → BFn → BFn}
    {own leak : Nat → Nat} (i : Mgr.InvG Γ (fun x => leak x + pend ps x) own m) : Df.Covered m leak ps := by
  obtain ⟨Γ', own', leak', i', c⟩ := h.cov
  intro a n F hn r hr
  refine c a n F hn r ?_
  by_cases hm : m.st.ref a = maxRef
  · exact Or.inr (Or.inr (Or.inr hm))
  · have := Df.leak_unique i i' (a := a) (by rw [hn]; simp) hm
    rcases hr with h | h | h | h
    · exact Or.inl h
    · exact Or.inr (Or.inl h)
    · exact Or.inr (Or.inr (Or.inl (by omega)))
    · exact absurd h hm

section
variable {Γ : Nat → BFn → BFn} {own leak : Nat → Nat} {ps : List Edge} {m : Mgr}

/-- The depth-first state the breadth-first state stands for at the beginning. -/
def dfStart (m : Mgr) (mat : Interact.Matrix) : Df.St := ⟨Df.strip m.st, 1, m.assocs, m.temp, mat, 0, 0⟩

theorem start_ok (i : Mgr.InvG Γ (fun x => leak x + pend ps x) own m) (h : Ready m ps) (P : Par) :
    ∃ mat δ0, Interact.initInteract m.st (Df.userBdds m.ut ++ ps) = some mat ∧ Lab m.st δ0 ∧
      Between (m.roots fun x => leak x + pend ps x) δ0 (dfStart m mat) (m.Held fun x => leak x + pend ps x)
        m.ut.heap m.vars m.st.ord.numVars (enter P m mat) := by
  have w := i.wf
  have cov := h.covered i
  have hfs : ∀ f ∈ Df.userBdds m.ut ++ ps, m.st.EOK f := by
    intro f hf
    rcases List.mem_append.1 hf with h' | h'
    · obtain ⟨x, hx⟩ := (Df.mem_userBdds i.ut).1 h'
      exact i.uok x f hx
    · exact h.eok f h'
  obtain ⟨mat, hm, hmat⟩ := Interact.initInteract_ok w h.vars hfs
  obtain ⟨δ, l⟩ := w.exists_lab
  have hcov : ∀ x y, x ≠ 0 → y ≠ 0 → x ≠ y → (¬ ∃ f ∈ Df.userBdds m.ut ++ ps, Interact.Both m.st f x y) →
      ∀ a, m.st.heap a ≠ none → ¬ Df.Dep2 (δ a) x y := by
    intro x y hx0 hy0 hxy hno a ha hd
    obtain ⟨c, hc, hr, hd⟩ := Df.root_dep w l (Store.GCInv.all_reach ⟨i.wf, i.ref⟩ h.ref a ha) hd
    cases hcn : m.st.heap c with
    | none => exact hc hcn
    | some n =>
      have rc : Rep m.st ⟨n.var, c, false⟩ (den δ ⟨n.var, c, false⟩) := l.rep w (Or.inr ⟨n, hcn, rfl⟩)
      have dc : den δ ⟨n.var, c, false⟩ = δ c := by funext ρ; simp [den]
      rw [dc] at rc
      have viaCov : (0 < listHits m.assocs m.st.ord.numVars c ∨ 0 < tabHits m.temp.var m.st.ord.numVars c ∨
          0 < leak c ∨ m.st.ref c = maxRef) → False := by
        intro h
        rcases cov c n _ hcn rc h x y hxy hd with ⟨z, e, F, h1, h2, h3, h4⟩ | ⟨e, h1, F, h3, h4⟩
        · exact hno ⟨e, List.mem_append_left _ ((Df.mem_userBdds i.ut).2 ⟨z, h1⟩), (Df.both_iff w h3 hx0 hy0).2 h4⟩
        · exact hno ⟨e, List.mem_append_right _ h1, (Df.both_iff w h3 hx0 hy0).2 h4⟩
      rcases hr with hr | hr
      · simp only [Mgr.roots, Mgr.rest] at hr
        by_cases h1 : 0 < m.ut.hits c
        · obtain ⟨z, e, h2, h3⟩ := Df.utHits_inv h1
          exact hno ⟨e, List.mem_append_left _ ((Df.mem_userBdds i.ut).2 ⟨z, h2⟩),
            Df.seen_root w (i.uok z e h2) l h3 hd hx0 hy0⟩
        · by_cases h2 : 0 < pend ps c
          · obtain ⟨e, h3, h4⟩ := Df.pend_inv h2
            exact hno ⟨e, List.mem_append_right _ h3, Df.seen_root w (h.eok e h3) l h4 hd hx0 hy0⟩
          · by_cases h3 : 0 < tabHits m.vars m.st.ord.numVars c
            · obtain ⟨v, e, hv, h4, h5⟩ := Df.tabHits_inv h3
              have hv1 : 1 ≤ v := by
                apply Classical.byContradiction
                intro hx
                rw [i.var0 v (by omega)] at h4; cases h4
              obtain ⟨b, k1, k2⟩ := i.var v hv1 hv
              rw [h4] at k1; cases k1
              cases h5
              have rv : Rep m.st ⟨v, b, false⟩ fun ρ => ρ v := by
                have := Rep.pos (s := m.st) k2 .one .zero
                simpa using this
              rw [hcn] at k2; cases k2
              have := rc.unique w rv
              rw [this] at hd
              exact hxy (Df.dep2_var hd)
            · exact viaCov (by omega)
      · exact viaCov (Or.inr (Or.inr (Or.inr hr)))
  have w0 : (Df.strip m.st).heap 0 = none := Df.strip_none.2 w.heap0
  have DI : Df.DInv (m.roots fun x => leak x + pend ps x) (dfStart m mat) := by
    refine ⟨PWF.strip w, Df.refOK_strip.2 i.ref, i.num, ?_, fun p hp => (i.assocs p hp).1.ok, i.temp.ok⟩
    intro x y x1 x2 y1 y2 hxy
    obtain ⟨b, t, hb⟩ := hmat x y x1 x2 y1 y2 hxy
    refine ⟨b, t, ?_⟩
    rintro rfl
    intro δ' l' a n hna
    have hnn : m.st.heap a ≠ none := fun h => by
      have : (Df.strip m.st).heap a = none := Df.strip_none.2 h
      rw [show (dfStart m mat).st.heap a = (Df.strip m.st).heap a from rfl, this] at hna; cases hna
    have h1 := Df.lab_unique (PWF.strip w) l' (Df.lab_strip.2 l) hna
    have h2 := hcov x y (by omega) (by omega) hxy (fun h => by have := hb.2 h; cases this) a hnn
    rw [h1]
    apply Classical.byContradiction
    intro hx
    exact h2 ⟨fun h => hx (Or.inl h), fun h => hx (Or.inr h)⟩
  refine ⟨mat, δ, hm, l, rfl, ⟨?_, fun _ => rfl⟩, dfStart m mat, id, ?_, Less.refl _ _⟩
  · rintro e (⟨a, n, hn, rfl | rfl⟩ | ⟨e0, he0, rfl⟩)
    · exact w.thn_ok a n hn
    · exact w.els_ok a n hn
    · exact he0.1
  · have fo : ∀ e, follow (enter P m mat) e = e := fun e => rfl
    have ae : ∀ e, absE id e = Df.stripE e := fun e => rfl
    constructor
    · refine ⟨rfl, rfl, ⟨⟨w.heap0, w.next_pos, w.heap_next, w.free_nodup, w.free_ok, w.free_disj⟩, fun a t h => by cases h⟩,
        fun a b _ _ h => h, ?_, ?_, fun i => (List.map_id _).symm, ?_, fun a _ => rfl, ?_, rfl, rfl, rfl⟩
      · intro b hb; exact ⟨b, fun h => hb (Df.strip_none.2 h), rfl⟩
      · intro a n hn
        refine ⟨_, Df.strip_heap hn, rfl, ⟨w.thn_ok a n hn, rfl⟩, ⟨w.els_ok a n hn, rfl⟩⟩
      · intro j a; exact w.tab_iff j a
      · rintro a (rfl | h)
        · show m.st.ref 0 ≤ _
          rw [i.ref.const]; exact Nat.le_refl _
        · exact i.ref.le a h
    · exact Df.RInv.start DI (Df.lab_strip.2 l)
    · intro a n hn
      exact h.ref a (fun h' => by
        have : (Df.strip m.st).heap a = none := Df.strip_none.2 h'
        rw [show (dfStart m mat).st.heap a = (Df.strip m.st).heap a from rfl, this] at hn; cases hn)
    · intro _; rfl
    · intro e he; exact he.2
    · intro e he; exact ⟨he.1, rfl⟩
    · show m.assocs = m.assocs.map (mapR id)
      conv => lhs; rw [← List.map_id m.assocs]
      apply List.map_congr_left
      intro p _
      show p = mapR id p
      simp [mapR, mapA]
    · show m.temp = mapA id m.temp
      simp [mapA]
    · show m.ut.heap = fun a => (m.ut.heap a).map id
      funext a; simp
    · show m.vars = fun a => (m.vars a).map id
      funext a; simp
    · intro id e he
      refine ⟨Mgr.held_var i he, ?_⟩
      intro u hu
      have hid : 1 ≤ id ∧ id ≤ m.st.ord.numVars := by
        apply Classical.byContradiction
        intro hx
        rw [i.var0 id (by omega)] at he; cases he
      obtain ⟨b, k1, k2⟩ := i.var id hid.1 hid.2
      rw [he] at k1; cases k1
      have := l.node b _ k2
      show Indep (δ b) u
      rw [show δ b = fun ρ => ρ id from ?_]
      · intro ρ c; exact upd_ne _ _ (fun h => hu h.symm)
      · funext ρ
        rw [this]
        simp [den, one, zero, l.const]
    · intro id e he; exact (Mgr.held_var i he).1
    · rfl

/-! ## The end -/

/-- What a reordering leaves behind. -/
structure Reordered (Γ : Nat → BFn → BFn) (own leak : Nat → Nat) (ps : List Edge) (m m' : Mgr) (φ : Edge → Edge) : Prop where
  inv : ∃ leak', (leak = (fun _ => 0) → leak' = fun _ => 0) ∧
    Mgr.InvG Γ (fun x => leak' x + pend (ps.map φ) x) own m'
  eok : ∀ e ∈ ps.map φ, m'.st.EOK e
  pres : Pres own 0 m m'
  fwd : Fwd own ps m m' φ
  ovf : m'.overflow = m.overflow
  chk : m'.st.gcCheck = m.st.gcCheck
  nv : m'.st.ord.numVars = m.st.ord.numVars

theorem mapA_ok {A : Assoc} {o : Order} (h : A.OK o) (φ : Edge → Edge) : (mapA φ A).OK o := by
  have hd : ∀ v, (mapA φ A).dom v ↔ A.dom v := by
    intro v
    simp [Assoc.dom, mapA]
  exact ⟨fun v hv => h.rng v ((hd v).1 hv), fun v hv => h.le v ((hd v).1 hv), h.lt,
    h.ex.imp id fun ⟨v, hv, e⟩ => ⟨v, (hd v).2 hv, e⟩⟩

theorem finish_ok (i : Mgr.InvG Γ (fun x => leak x + pend ps x) own m) (h : Ready m ps) {mat : Interact.Matrix} {δ0 : Nat → BFn}
    (l0 : Lab m.st δ0) {w : St}
    (Bt : Between (m.roots fun x => leak x + pend ps x) δ0 (dfStart m mat) (m.Held fun x => leak x + pend ps x)
        m.ut.heap m.vars m.st.ord.numVars w) : Reordered Γ own leak ps m (finish m w) w.pipe := by
  obtain ⟨hnv, C, d, ab, B, -⟩ := Bt
  generalize hL : (fun x => leak x + pend ps x) = L at *
  have I := B.r
  have M := moved B C
  have wD := I.inv.w.reid
  have w' : w.st.WF := M.wf wD
  have livem : ∀ a, 0 < m.roots L a → a ≠ 0 → d.st.heap a ≠ none := by
    intro a h1 h2 h3
    have := I.inv.ref.ext0 a h2 h3
    omega
  have held0 : ∀ e, m.Held L e → e.addr = 0 → e.id = 0 := by
    intro e he h0
    rcases he.1 with h | ⟨n, hn, -⟩
    · exact h.1
    · rw [h0, i.wf.heap0] at hn; cases hn
  have ψp : ∀ e, m.Held L e → fwdE w ab e = w.pipe e := fun e he => fwdE_root B C he (held0 e he)
  have F : m.Forwards L w.st (back w ab) (fwdE w ab) := by
    refine ⟨w', ?_, hnv, back_zero B, ?_, ?_, fwdE_addr B, fwdE_neg, ?_, ?_⟩
    · exact M.numOK (show (Df.reid d.st).NumOK from I.inv.num)
    · intro a b a1 a0 b1 b0 h
      exact M.inj a b (mt Df.reid_none.1 (livem a a1 a0)) (mt Df.reid_none.1 (livem b b1 b0)) h
    · intro a a1 a0
      exact M.pos a (mt Df.reid_none.1 (livem a a1 a0))
    · intro e G he rep
      have hden : den δ0 e = G := l0.rep_eq rep
      obtain ⟨δ, l, hδ⟩ := I.fns
      by_cases h0 : e.addr = 0
      · have hz : fwdE w ab e = e := by unfold fwdE; rw [if_pos h0]
        have hid := held0 e he h0
        rw [hz]
        have hc : e = one ∨ e = zero := by
          cases hneg : e.neg with
          | false => exact Or.inl (Edge.ext' hid h0 hneg)
          | true => exact Or.inr (Edge.ext' hid h0 hneg)
        rcases hc with rfl | rfl
        · have := rep.unique i.wf .one; subst this; exact .one
        · have := rep.unique i.wf .zero; subst this; exact .zero
      · have hpos : 0 < m.roots L e.addr := he.2.resolve_left h0
        have hl := livem e.addr hpos h0
        cases hn : d.st.heap e.addr with
        | none => exact absurd hn hl
        | some n =>
          have rD : Rep (Df.reid d.st) ⟨n.var, e.addr, e.neg⟩ (den δ ⟨n.var, e.addr, e.neg⟩) :=
            (Df.lab_reid.2 l).rep wD (Or.inr ⟨_, Df.reid_heap hn, rfl⟩)
          have hG : den δ ⟨n.var, e.addr, e.neg⟩ = G := by
            rw [← hden]
            unfold den
            rw [hδ e.addr hpos]
          rw [hG] at rD
          have rM := M.rep rD
          have hnb : w.st.heap (back w ab e.addr) = some (mvN (back w ab) (Df.reidN d.st n)) := M.node _ _ (Df.reid_heap hn)
          have hfw : fwdE w ab e = mvE (back w ab) ⟨n.var, e.addr, e.neg⟩ := by
            unfold fwdE
            rw [if_neg h0, hnb]
            rfl
          rw [hfw]
          exact rM
    · intro ext' h1 h2
      refine M.refOK wD (Df.refOK_reid.2 I.inv.ref) (ext' := ext') ?_ ?_
      · intro a ha
        have ha' : d.st.heap a ≠ none := mt Df.reid_none.2 ha
        have a0 : a ≠ 0 := fun h => by subst h; exact ha' I.inv.w.heap0
        by_cases hp : 0 < m.roots L a
        · exact h1 a hp a0
        · rw [h2 (back w ab a) (M.pos a ha)]
          · omega
          · rintro ⟨c, c1, c0, hc⟩
            have := M.inj c a (mt Df.reid_none.1 (livem c c1 c0)) ha hc
            subst this; exact hp c1
      · intro b b0 hb
        refine h2 b b0 ?_
        rintro ⟨c, c1, c0, rfl⟩
        have := M.node c _ (Df.reid_heap (Classical.choose_spec (Option.ne_none_iff_exists'.1 (livem c c1 c0))))
        rw [hb] at this; cases this
  have mvd : ∀ {A A' : Assoc}, (∀ v e, A.var v = some e → m.Held L e) → Df.Assoc.SameVars A A' →
      Assoc.Mvd (fwdE w ab) A (mapA w.pipe A') := by
    rintro A A' hA ⟨h1, h2⟩
    refine ⟨h1, fun v => ?_⟩
    simp only [mapA, h2]
    cases hq : A.var v with
    | none => rfl
    | some e => simp only [Option.map_some]; rw [ψp e (hA v e hq)]
  have ha : F2 (fun p q : RAssoc => Assoc.Mvd (fwdE w ab) p.a q.a ∧ q.refCount = p.refCount) m.assocs w.assocs := by
    rw [B.assocs]
    have key : ∀ {as bs : List RAssoc}, (∀ p, p ∈ as → p ∈ m.assocs) →
        F2 (fun p q : RAssoc => Df.Assoc.SameVars p.a q.a ∧ q.refCount = p.refCount) as bs →
        F2 (fun p q : RAssoc => Assoc.Mvd (fwdE w ab) p.a q.a ∧ q.refCount = p.refCount) as (bs.map (mapR w.pipe)) := by
      intro as bs hm h
      induction h with
      | nil => exact .nil
      | cons h1 _ ih =>
        exact .cons ⟨mvd (fun v e he => Mgr.held_assoc i (hm _ List.mem_cons_self) he) h1.1, h1.2⟩
          (ih fun p hp => hm p (List.mem_cons_of_mem _ hp))
    exact key (fun _ h => h) I.assocs
  have ht' : Assoc.Mvd (fwdE w ab) m.temp w.temp := by
    rw [B.temp]
    exact mvd (fun v e he => Mgr.held_temp i he) I.temp
  have hfin : finish m w = m.fwdAll w.st m.ca (fwdE w ab) w.assocs w.temp := by
    have h1 : w.users = fun a => (m.ut.heap a).map (fwdE w ab) := by
      rw [B.users]
      funext a
      cases hq : m.ut.heap a with
      | none => rfl
      | some e => simp only [Option.map_some]; rw [ψp e (Mgr.held_ut i hq)]
    have h2 : w.vars = fun a => (m.vars a).map (fwdE w ab) := by
      rw [B.vars]
      funext a
      cases hq : m.vars a with
      | none => rfl
      | some e => simp only [Option.map_some]; rw [ψp e (Mgr.held_var i hq)]
    unfold finish Mgr.fwdAll
    rw [h1, h2]
  have cav : m.ca.Valid w.st Γ := ⟨fun j e h' => (by rw [h.cache j] at h'; cases h'), i.ca.count, i.ca.range⟩
  have hord : w.st.ord = d.st.ord := B.sim.ord.symm
  have heps : ∀ e ∈ ps, m.Held L e := by
    intro e he
    refine ⟨h.eok e he, Or.inr ?_⟩
    have := Mgr.pend_pos he
    have hx : L e.addr = leak e.addr + pend ps e.addr := by rw [← hL]
    simp only [Mgr.roots, Mgr.rest]
    omega
  have hmap : ps.map (fwdE w ab) = ps.map w.pipe := List.map_congr_left fun e he => ψp e (heps e he)
  have heu : ∀ x e, m.internal x = some e → m.Held L e := by
    intro x e he
    unfold Mgr.internal at he
    cases hq : m.ut.heap x.addr with
    | none => rw [hq] at he; cases he
    | some e0 =>
      rw [hq] at he
      simp only [Option.map_some, Option.some.injEq] at he
      have := Mgr.held_ut i hq
      rw [← he]
      refine ⟨?_, this.2⟩
      rcases this.1 with h' | ⟨n, hn, hv⟩
      · exact Or.inl h'
      · exact Or.inr ⟨n, hn, hv⟩
  subst hL
  obtain ⟨k1, k2⟩ := i.fwdAll h.eok F cav ha (fun q hq => by
    rw [B.assocs] at hq
    obtain ⟨p, hp, rfl⟩ := List.mem_map.1 hq
    rw [hord]; exact mapA_ok (I.inv.assocs p hp) _) ht' (by rw [hord, B.temp]; exact mapA_ok I.inv.temp _)
  obtain ⟨k3, k4⟩ := i.fwd_pres h.eok F (ca' := m.ca) (fun h' => absurd h' h.on) ha ht' fwdE_phase
  rw [← hfin] at k1 k3 k4
  rw [hmap] at k1 k2
  refine ⟨⟨_, ?_, k1⟩, k2, k3, ⟨?_, ?_⟩, rfl, ?_, hnv⟩
  · rintro rfl
    funext b
    unfold Mgr.push
    split <;> rfl
  · intro x e lv he
    rw [k4.held x e lv he, ψp e (heu x e he)]
  · intro e he G r
    rw [← ψp e (heps e he)]
    exact k4.pend e he G r
  · show w.st.gcCheck = _
    rw [B.sim.gcc, B.chk]; rfl

/-- A whole reordering by sifting: it ends without a fault, whatever the limits. -/
theorem reorderBF_sift (i : Mgr.InvG Γ (fun x => leak x + pend ps x) own m) (h : Ready m ps) (P : Par) :
    ∃ m' φ, reorderBF P m ps = some (m', φ) ∧ Reordered Γ own leak ps m m' φ := by
  obtain ⟨mat, δ0, e1, l0, Bt⟩ := start_ok i h P
  obtain ⟨w, e2, Bt'⟩ := sift_spec P Bt
  refine ⟨_, _, ?_, finish_ok i h l0 Bt'⟩
  unfold reorderBF
  rw [e1]
  simp only [e2, Option.map_some]

end

end Bfr

end Cal
