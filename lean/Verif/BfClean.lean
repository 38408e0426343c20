import Verif.BfPhase

/-!
# Clean-up during breadth-first sifting

After `CalBddReorderFixProvisionalNodes`, `CalBddReorderFixUserBddPtrs`, `CalReorderAssociationFix` and
`CalBddReorderFixCofactors` for the variables above, no pointer leads to a forwarding node any more.
-/

namespace Cal

namespace Bfr

open Df (Fr PWF)

section
variable {ext : Nat → Nat} {δ0 : Nat → BFn} {d0 : Df.St} {Root : Edge → Prop} {u0 v0 : Nat → Option Edge}
variable {w : St} {d : Df.St} {ab : Nat → Nat}

theorem fixOutside_spec (B : BInv ext δ0 d0 Root u0 v0 w d ab) : BInv ext δ0 d0 Root u0 v0 (fixOutside w) d ab ∧
    ∀ e, Root e → w.st.EOK ((fixOutside w).pipe e) := by
  have hr : ∀ e, Root e → w.st.EOK (follow w (w.pipe e)) := fun e he => (B.root e he).1
  have hv : ∀ id e, v0 id = some e → follow w (w.pipe e) = w.pipe e := fun id e he => B.sim.fw.follow (B.varE id e he)
  refine ⟨⟨?_, B.r, B.nz, B.ends, B.rootE, ?_, ?_, ?_, ?_, ?_, B.varR, ?_, B.chk⟩, hr⟩
  · have S := B.sim
    exact ⟨S.ord, S.zero, ⟨S.fw.fr, S.fw.fw⟩, S.inj, S.sur, S.node, S.tab, S.tabW, S.ref, S.le, S.num, S.gcc, S.mat⟩
  · intro e he
    obtain ⟨h1, h2⟩ := B.root e he
    have : follow w (follow w (w.pipe e)) = follow w (w.pipe e) := B.sim.fw.follow h1
    show w.st.EOK (follow w (follow w (w.pipe e))) ∧ absE ab (follow w (follow w (w.pipe e))) = _
    rw [this]; exact ⟨h1, h2⟩
  · show (w.assocs.map fun p => { p with a := fixAssoc w p.a }) = d.assocs.map (mapR fun e => follow w (w.pipe e))
    rw [B.assocs, List.map_map]
    apply List.map_congr_left
    intro p _
    exact mapR_mapR (follow w) w.pipe p
  · show fixAssoc w w.temp = mapA (fun e => follow w (w.pipe e)) d.temp
    rw [B.temp]
    exact mapA_mapA (follow w) w.pipe d.temp
  · show (fun a => (w.users a).map (follow w)) = fun a => (u0 a).map fun e => follow w (w.pipe e)
    rw [B.users]
    funext a
    rw [Option.map_map]; rfl
  · show w.vars = fun a => (v0 a).map fun e => follow w (w.pipe e)
    rw [B.vars]
    funext a
    cases h : v0 a with
    | none => rfl
    | some e => simp only [Option.map_some]; rw [hv a e h]
  · intro id e he
    show w.st.EOK (follow w (w.pipe e))
    rw [hv id e he]; exact B.varE id e he

/-- The nodes with redirected children. -/
theorem fixCofactors_spec (B : BInv ext δ0 d0 Root u0 v0 w d ab) (id : Nat) : BInv ext δ0 d0 Root u0 v0 (fixCofactors w id) d ab ∧
    (∀ e, (fixCofactors w id).st.EOK e ↔ w.st.EOK e) ∧
    ∀ a n, (fixCofactors w id).st.heap a = some n → (n.var = id ∧ w.st.EOK n.thn ∧ w.st.EOK n.els) ∨ (n.var ≠ id ∧ w.st.heap a = some n) := by
  have S := B.sim
  have hh : ∀ a n, (fixCofactors w id).st.heap a = some n → ∃ m, w.st.heap a = some m ∧ m.var = n.var ∧
      ((n.var = id ∧ n = followKids w m) ∨ (n.var ≠ id ∧ n = m)) := by
    intro a n hn
    have hn : (if a ∈ w.st.tab id then (w.st.heap a).map (followKids w) else w.st.heap a) = some n := hn
    by_cases ha : a ∈ w.st.tab id
    · rw [if_pos ha] at hn
      obtain ⟨m, hm, hv⟩ := (S.tabW id a).1 ha
      rw [hm] at hn; cases hn
      exact ⟨m, hm, rfl, Or.inl ⟨hv, rfl⟩⟩
    · rw [if_neg ha] at hn
      refine ⟨n, hn, rfl, Or.inr ⟨?_, rfl⟩⟩
      intro hv; exact ha ((S.tabW id a).2 ⟨n, hn, hv⟩)
  have hb : ∀ a m, w.st.heap a = some m → ∃ n, (fixCofactors w id).st.heap a = some n ∧ n.var = m.var := by
    intro a m hm
    show ∃ n, (if a ∈ w.st.tab id then (w.st.heap a).map (followKids w) else w.st.heap a) = some n ∧ _
    by_cases ha : a ∈ w.st.tab id
    · rw [if_pos ha, hm]; exact ⟨_, rfl, rfl⟩
    · rw [if_neg ha, hm]; exact ⟨_, rfl, rfl⟩
  have hnone : ∀ a, w.st.heap a = none → (fixCofactors w id).st.heap a = none := by
    intro a h
    cases hq : (fixCofactors w id).st.heap a with
    | none => rfl
    | some n => obtain ⟨m, hm, _⟩ := hh a n hq; rw [h] at hm; cases hm
  have hlive : ∀ a, (fixCofactors w id).st.heap a ≠ none → w.st.heap a ≠ none := fun a h h' => h (hnone a h')
  have hlive' : ∀ a, w.st.heap a ≠ none → (fixCofactors w id).st.heap a ≠ none := by
    intro a h h'
    cases hq : w.st.heap a with
    | none => exact h hq
    | some m => obtain ⟨n, hn, _⟩ := hb a m hq; rw [h'] at hn; cases hn
  have hE : ∀ e, (fixCofactors w id).st.EOK e ↔ w.st.EOK e := by
    intro e
    constructor
    · rintro (h | ⟨n, hn, hv⟩)
      · exact Or.inl h
      · obtain ⟨m, hm, h1, _⟩ := hh _ _ hn
        exact Or.inr ⟨m, hm, h1.trans hv⟩
    · rintro (h | ⟨n, hn, hv⟩)
      · exact Or.inl h
      · obtain ⟨m, hm, h1⟩ := hb _ _ hn
        exact Or.inr ⟨m, hm, h1.trans hv⟩
  refine ⟨⟨?_, B.r, B.nz, B.ends, B.rootE, ?_, B.assocs, B.temp, B.users, B.vars, B.varR, ?_, B.chk⟩, hE, ?_⟩
  · refine ⟨S.ord, S.zero, ⟨⟨hnone 0 S.fw.fr.heap0, S.fw.fr.next_pos, ?_, S.fw.fr.free_nodup, ?_, S.fw.fr.free_disj⟩, ?_⟩,
      fun a b h1 h2 => S.inj a b (hlive a h1) (hlive b h2), ?_, ?_, S.tab, ?_, fun a h => S.ref a (h.imp_right (hlive a)),
      fun a h => S.le a (h.imp_right (hlive a)), S.num, S.gcc, S.mat⟩
    · intro a n hn
      obtain ⟨m, hm, _⟩ := hh a n hn
      exact S.fw.fr.heap_next a m hm
    · intro i a ha
      obtain ⟨h1, h2⟩ := S.fw.fr.free_ok i a ha
      exact ⟨hnone a h1, h2⟩
    · intro a t ht
      obtain ⟨h1, h2⟩ := S.fw.fw a t ht
      exact ⟨hnone a h1, h2⟩
    · intro b hb'
      obtain ⟨a, h1, h2⟩ := S.sur b hb'
      exact ⟨a, hlive' a h1, h2⟩
    · intro a n hn
      obtain ⟨m, hm, hv, hc⟩ := hh a n hn
      obtain ⟨n', h1, h2, T1, T0⟩ := S.node a m hm
      refine ⟨n', h1, h2.trans hv, ?_⟩
      have key : ∀ e e', Tr (follow w) w ab e e' → Tr (follow (fixCofactors w id)) (fixCofactors w id) ab e e' ∧
          Tr (follow (fixCofactors w id)) (fixCofactors w id) ab (follow w e) e' := by
        intro e e' T
        have h3 : follow w (follow w e) = follow w e := S.fw.follow T.1
        refine ⟨⟨(hE _).2 T.1, T.2⟩, ?_⟩
        show _ ∧ absE ab (follow w (follow w e)) = e'
        refine ⟨?_, by rw [h3]; exact T.2⟩
        show (fixCofactors w id).st.EOK (follow w (follow w e))
        rw [h3]; exact (hE _).2 T.1
      rcases hc with ⟨_, rfl⟩ | ⟨_, rfl⟩
      · exact ⟨(key _ _ T1).2, (key _ _ T0).2⟩
      · exact ⟨(key _ _ T1).1, (key _ _ T0).1⟩
    · intro i a
      show a ∈ w.st.tab i ↔ _
      rw [S.tabW]
      constructor
      · rintro ⟨m, hm, hv⟩
        obtain ⟨n, hn, h1⟩ := hb a m hm
        exact ⟨n, hn, h1.trans hv⟩
      · rintro ⟨n, hn, hv⟩
        obtain ⟨m, hm, h1, _⟩ := hh a n hn
        exact ⟨m, hm, h1.trans hv⟩
  · intro e he
    obtain ⟨h1, h2⟩ := B.root e he
    exact ⟨(hE _).2 h1, h2⟩
  · intro i e he
    exact (hE _).2 (B.varE i e he)
  · intro a n hn
    obtain ⟨m, hm, hv, hc⟩ := hh a n hn
    rcases hc with ⟨h1, rfl⟩ | ⟨h1, rfl⟩
    · obtain ⟨n', _, _, T1, T0⟩ := S.node a m hm
      exact Or.inl ⟨h1, T1.1, T0.1⟩
    · exact Or.inr ⟨h1, hm⟩

theorem fixAbove_spec : ∀ (k : Nat) {w : St}, BInv ext δ0 d0 Root u0 v0 w d ab → k ≤ w.st.ord.numVars →
    (∀ a n, w.st.heap a = some n → k ≤ w.st.ord.lvl n.var → w.st.EOK n.thn ∧ w.st.EOK n.els) →
    ∃ h', fixAbove k w = { w with st := { w.st with heap := h' } } ∧ BInv ext δ0 d0 Root u0 v0 (fixAbove k w) d ab ∧
      (∀ e, (fixAbove k w).st.EOK e ↔ w.st.EOK e) ∧
      ∀ a n, (fixAbove k w).st.heap a = some n → (fixAbove k w).st.EOK n.thn ∧ (fixAbove k w).st.EOK n.els := by
  intro k
  induction k with
  | zero =>
    intro w B _ h
    exact ⟨w.st.heap, rfl, B, fun _ => Iff.rfl, fun a n hn => h a n hn (Nat.zero_le _)⟩
  | succ k ih =>
    intro w B hk h
    obtain ⟨B1, E1, N1⟩ := fixCofactors_spec B (w.st.ord.indexToId k)
    have W := B.ordWF
    have hlow : ∀ a n, (fixCofactors w (w.st.ord.indexToId k)).st.heap a = some n →
        k ≤ (fixCofactors w (w.st.ord.indexToId k)).st.ord.lvl n.var →
        (fixCofactors w (w.st.ord.indexToId k)).st.EOK n.thn ∧ (fixCofactors w (w.st.ord.indexToId k)).st.EOK n.els := by
      intro a n hn hl
      rcases N1 a n hn with ⟨_, h1, h2⟩ | ⟨h1, h2⟩
      · exact ⟨(E1 _).2 h1, (E1 _).2 h2⟩
      · have hl : k ≤ w.st.ord.lvl n.var := hl
        have : w.st.ord.lvl n.var ≠ k := fun h' => h1 (lvl_inj W (B.sim.var_range B.r.inv.w h2) (W.id_range k (by omega))
          (by rw [h', W.lvl_indexToId (by omega)]))
        obtain ⟨k1, k2⟩ := h a n h2 (by omega)
        exact ⟨(E1 _).2 k1, (E1 _).2 k2⟩
    obtain ⟨h', e1, B2, E2, N2⟩ := ih B1 (by show k ≤ w.st.ord.numVars; omega) hlow
    exact ⟨h', e1, B2, fun e => (E2 e).trans (E1 e), N2⟩

theorem reclaimLoop_spec : ∀ (k i : Nat) {w : St}, BInv ext δ0 d0 Root u0 v0 w d ab →
    BInv ext δ0 d0 Root u0 v0 (reclaimLoop k i w) d ab ∧ (reclaimLoop k i w).st = w.st ∧ (reclaimLoop k i w).pipe = w.pipe ∧
      ∀ u, (reclaimLoop k i w).list u = [] ∨ ((reclaimLoop k i w).list u = w.list u ∧ ∀ j, i ≤ j → j < i + k → u ≠ w.st.ord.indexToId j) := by
  intro k
  induction k with
  | zero => intro i w B; exact ⟨B, rfl, rfl, fun u => Or.inr ⟨rfl, fun j h1 h2 => by omega⟩⟩
  | succ k ih =>
    intro i w B
    let id := w.st.ord.indexToId i
    have hst : (reclaimId w id).st = w.st := by
      show (if w.ends id = true then _ else w.st) = w.st
      rw [B.ends]; rfl
    have hends : (reclaimId w id).ends = w.ends := by
      show upd w.ends id false = w.ends
      rw [← B.ends id]; exact upd_self _ _
    have hfwd : (reclaimId w id).fwd = w.fwd := by
      show (if w.ends id = true then _ else w.fwd) = w.fwd
      rw [B.ends]; rfl
    have heq : reclaimId w id = { w with list := upd w.list id [] } := by
      show ({ w with st := (reclaimId w id).st, fwd := (reclaimId w id).fwd, ends := (reclaimId w id).ends, list := upd w.list id [] } : St) = _
      rw [hst, hends, hfwd]
    have B1 : BInv ext δ0 d0 Root u0 v0 (reclaimId w id) d ab := by
      rw [heq]
      have S := B.sim
      exact ⟨⟨S.ord, S.zero, ⟨S.fw.fr, S.fw.fw⟩, S.inj, S.sur, S.node, S.tab, S.tabW, S.ref, S.le, S.num, S.gcc, S.mat⟩,
        B.r, B.nz, B.ends, B.rootE, B.root, B.assocs, B.temp, B.users, B.vars, B.varR, B.varE, B.chk⟩
    obtain ⟨B2, e1, e2, e3⟩ := ih (i + 1) B1
    refine ⟨B2, e1.trans hst, e2, ?_⟩
    intro u
    show (reclaimLoop k (i + 1) (reclaimId w id)).list u = [] ∨ ((reclaimLoop k (i + 1) (reclaimId w id)).list u = w.list u ∧ _)
    rcases e3 u with h | ⟨h1, h2⟩
    · exact Or.inl h
    · by_cases hu : u = id
      · left; rw [h1, heq, hu]; exact upd_same _ _ _
      · right
        rw [h1, heq]
        refine ⟨upd_ne _ _ hu, ?_⟩
        intro j h3 h4
        rw [hst] at h2
        by_cases hj : j = i
        · rw [hj]; exact hu
        · exact h2 j (by omega) (by omega)

theorem reclaim_spec (B : BInv ext δ0 d0 Root u0 v0 w d ab) (i j : Nat) : BInv ext δ0 d0 Root u0 v0 (reclaim w i j) d ab ∧
    (reclaim w i j).st = w.st ∧ (reclaim w i j).pipe = w.pipe ∧
      ∀ u, (reclaim w i j).list u = [] ∨ ((reclaim w i j).list u = w.list u ∧ ∀ m, i ≤ m → m ≤ j → u ≠ w.st.ord.indexToId m) := by
  obtain ⟨B1, h1, h2, h3⟩ := reclaimLoop_spec (j + 1 - i) i B
  refine ⟨?_, h1, h2, ?_⟩
  · have S := B1.sim
    exact ⟨⟨S.ord, S.zero, ⟨S.fw.fr, S.fw.fw⟩, S.inj, S.sur, S.node, S.tab, S.tabW, S.ref, S.le, S.num, S.gcc, S.mat⟩,
      B1.r, B1.nz, B1.ends, B1.rootE, B1.root, B1.assocs, B1.temp, B1.users, B1.vars, B1.varR, B1.varE, B1.chk⟩
  · intro u
    rcases h3 u with h | ⟨h, h'⟩
    · exact Or.inl h
    · exact Or.inr ⟨h, fun m a b => h' m a (by omega)⟩

theorem trk_clean (hk : ∀ a n, w.st.heap a = some n → w.st.EOK n.thn ∧ w.st.EOK n.els) (hr : ∀ e, Root e → w.st.EOK (w.pipe e)) :
    ∀ e, Trk Root w e → w.st.EOK e := by
  rintro e (⟨a, n, hn, rfl | rfl⟩ | ⟨e0, h0, rfl⟩)
  · exact (hk a n hn).1
  · exact (hk a n hn).2
  · exact hr e0 h0

/-- The lists that are emptied are all that can have elements. -/
def Covers (w : St) (i j : Nat) : Prop := ∀ u, w.list u ≠ [] → ∃ m, i ≤ m ∧ m ≤ j ∧ u = w.st.ord.indexToId m

theorem reclaim_clean (B : BInv ext δ0 d0 Root u0 v0 w d ab) (hk : ∀ e, Trk Root w e → w.st.EOK e) {i j : Nat} (hc : Covers w i j) :
    BInv ext δ0 d0 Root u0 v0 (reclaim w i j) d ab ∧ Clean Root (reclaim w i j) := by
  obtain ⟨B1, h1, h2, h3⟩ := reclaim_spec B i j
  refine ⟨B1, ?_, ?_⟩
  · intro e he
    rw [h1]
    apply hk
    unfold Trk at he ⊢
    rw [h1, h2] at he
    exact he
  · intro u
    rcases h3 u with h | ⟨h, h'⟩
    · exact h
    · rw [h]
      cases hq : w.list u with
      | nil => rfl
      | cons a as =>
        obtain ⟨m, a1, a2, a3⟩ := hc u (by rw [hq]; simp)
        exact absurd a3 (h' m a1 a2)

theorem fixAndReclaim_spec (B : BInv ext δ0 d0 Root u0 v0 w d ab) {k i j : Nat} (hk : k ≤ w.st.ord.numVars)
    (low : ∀ a n, w.st.heap a = some n → k ≤ w.st.ord.lvl n.var → w.st.EOK n.thn ∧ w.st.EOK n.els) (hc : Covers w i j) :
    BInv ext δ0 d0 Root u0 v0 (fixAndReclaim w k i j) d ab ∧ Clean Root (fixAndReclaim w k i j) ∧
      (fixAndReclaim w k i j).st.ord = w.st.ord := by
  obtain ⟨B1, r1⟩ := fixOutside_spec B
  obtain ⟨h', e1, B2, E2, N2⟩ := fixAbove_spec k B1 hk low
  obtain ⟨B3, C⟩ := reclaim_clean B2 (i := i) (j := j) (trk_clean N2 (fun e he => (E2 _).2 (by rw [e1]; exact r1 e he)))
    (by rw [e1]; exact hc)
  refine ⟨B3, C, ?_⟩
  show (reclaim (fixAbove k (fixOutside w)) i j).st.ord = _
  rw [(reclaim_spec B2 i j).2.1, e1]; rfl

theorem phaseIV_spec (B : BInv ext δ0 d0 Root u0 v0 w d ab) {start best bottom : Nat} (hk : best ≤ w.st.ord.numVars)
    (low : ∀ a n, w.st.heap a = some n → best ≤ w.st.ord.lvl n.var → w.st.EOK n.thn ∧ w.st.EOK n.els)
    (hc : Covers w best (if w.st.ord.numVars / 2 ≤ start then best else bottom)) :
    BInv ext δ0 d0 Root u0 v0 (phaseIV w start best bottom) d ab ∧ Clean Root (phaseIV w start best bottom) ∧
      (phaseIV w start best bottom).st.ord = w.st.ord := by
  obtain ⟨h', e1, B1, E1, N1⟩ := fixAbove_spec best B hk low
  obtain ⟨B2, r2⟩ := fixOutside_spec B1
  have hT : ∀ e, Trk Root (fixOutside (fixAbove best w)) e → (fixOutside (fixAbove best w)).st.EOK e := trk_clean N1 r2
  have ho : (fixOutside (fixAbove best w)).st.ord = w.st.ord := by rw [e1]; rfl
  have hC : ∀ j, Covers w best j → Covers (fixOutside (fixAbove best w)) best j := by
    intro j h; rw [e1]; exact h
  unfold phaseIV
  simp only [ho]
  by_cases hs : w.st.ord.numVars / 2 ≤ start
  · rw [if_pos hs] at hc ⊢
    obtain ⟨B3, C⟩ := reclaim_clean B2 hT (hC _ hc)
    exact ⟨B3, C, by rw [(reclaim_spec B2 _ _).2.1]; exact ho⟩
  · rw [if_neg hs] at hc ⊢
    obtain ⟨B3, C⟩ := reclaim_clean B2 hT (hC _ hc)
    exact ⟨B3, C, by rw [(reclaim_spec B2 _ _).2.1]; exact ho⟩

/-- The lists that have elements during a phase. -/
theorem Ph.covers {dn : Bool} {v c s hi i j : Nat} (p : Ph Root dn v c s hi w d ab) (h1 : i ≤ c ∨ (c ≤ s ∧ i ≤ c + 1)) (h2 : c ≤ j)
    (h3 : dn = false → hi ≤ j) : Covers w i j := by
  intro u hu
  rcases p.sup u hu with h | ⟨hd, m, k1, k2, k3, k4⟩
  · subst h
    rcases h1 with h1 | ⟨h1, _⟩
    · exact ⟨c, h1, h2, p.idx.symm⟩
    · exfalso
      apply hu
      cases hq : w.list u with
      | nil => rfl
      | cons a as =>
        obtain ⟨t, _, _, q1, q2, _⟩ := p.lst a (by rw [hq]; simp)
        omega
  · have := h3 hd
    exact ⟨m, by omega, by omega, k1⟩

end

end Bfr

end Cal
