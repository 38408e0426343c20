import Verif.DfMono
import Verif.Props19

/-!
# Depth-first reordering does not make the BDDs bigger
-/

namespace Cal

/-! ## The two collections -/

/-- Two stores that differ at most in their free lists. -/
structure ButFree (s t : Store) : Prop where
  ord : t.ord = s.ord
  heap : t.heap = s.heap
  tab : t.tab = s.tab
  ref : t.ref = s.ref
  num : t.numNodes = s.numNodes

theorem dcr_ref {s t : Store} (h : t.ref = s.ref) {e : Edge} : (t.dcr e).ref = (s.dcr e).ref := by
  unfold Store.dcr; simp only; rw [h]

theorem ButFree.gcList : ∀ (as : List Nat) {s t s' t' : Store} {k k' i fr fr'}, ButFree s t →
    s.gcList k i as = some (s', fr) → t.gcList k' i as = some (t', fr') → ButFree s' t' ∧ fr' = fr := by
  intro as
  induction as with
  | nil =>
    intro s t s' t' k k' i fr fr' h e e'
    cases e; cases e'
    exact ⟨h, rfl⟩
  | cons a as ih =>
    intro s t s' t' k k' i fr fr' h e e'
    simp only [Store.gcList] at e e'
    rw [h.heap, h.ref] at e'
    cases hn : s.heap a with
    | none => rw [hn] at e; cases e
    | some n =>
      simp only [hn] at e e'
      by_cases c : s.ref a = 0
      · rw [if_pos c] at e e'
        split at e
        · rename_i s1 f1 g1
          cases e
          split at e'
          · rename_i s2 f2 g2
            cases e'
            obtain ⟨r1, r2⟩ := ih (s := s.freeNode k i a n) (t := t.freeNode k' i a n) ⟨h.ord, by simp [Store.freeNode, Store.dcr, h.heap], by simp [Store.freeNode, Store.dcr, h.tab], dcr_ref (dcr_ref h.ref), by simp [Store.freeNode, Store.dcr, h.num]⟩ g1 g2
            exact ⟨r1, by rw [r2]⟩
          · cases e'
        · cases e
      · rw [if_neg c] at e e'
        exact ih h e e'

theorem ButFree.gcTable {s t s' t' : Store} {k k' i fr fr'} (h : ButFree s t)
    (e : s.gcTable k i = some (s', fr)) (e' : t.gcTable k' i = some (t', fr')) : ButFree s' t' ∧ fr' = fr := by
  unfold Store.gcTable at e e'
  rw [h.tab] at e'
  split at e
  · split at e'
    · rename_i g1 _ _ _ g2
      obtain ⟨r1, r2⟩ := h.gcList _ g1 g2
      cases e; cases e'
      exact ⟨⟨r1.ord, r1.heap, r1.tab, r1.ref, by simp [r1.num, r2]⟩, r2⟩
    · cases e'
  · cases e

theorem ButFree.gcTables {κ κ' : Nat → Nat} : ∀ (is : List Nat) {s t s' t' : Store} {fr fr'}, ButFree s t →
    s.gcTables κ is = some (s', fr) → t.gcTables κ' is = some (t', fr') → ButFree s' t' := by
  intro is
  induction is with
  | nil =>
    intro s t s' t' fr fr' h e e'
    cases e; cases e'
    exact h
  | cons i is ih =>
    intro s t s' t' fr fr' h e e'
    simp only [Store.gcTables] at e e'
    split at e
    · rename_i g1
      split at e
      · rename_i g3
        split at e'
        · rename_i g2
          split at e'
          · rename_i g4
            cases e; cases e'
            exact ih (h.gcTable g1 g2).1 g3 g4
          · cases e'
        · cases e'
      · cases e
    · cases e

namespace Df

/-- The conversion keeps as many nodes as a garbage collection. -/
theorem convert_num {m g : Mgr} {u s d} (hu : m.ut.gc m.st = some (u, s)) (hc : convert s = some d)
    (hg : m.gc = some g) : d.numNodes = g.st.numNodes := by
  unfold Mgr.gc at hg
  rw [hu] at hg
  simp only at hg
  split at hg
  · cases hg
  · rename_i s' fr e
    cases hg
    unfold convert at hc
    cases e1 : (freshManager s).gcTables (fun _ => 0) (Store.idsByIndex s.ord) with
    | none => rw [e1] at hc; cases hc
    | some r =>
      rw [e1] at hc
      cases hc
      have h : ButFree s (freshManager s) := ⟨rfl, rfl, rfl, rfl, rfl⟩
      exact (h.gcTables _ e e1).num

/-- Functions that have a name: those of handles, of variables and of values of associations. -/
inductive _root_.Cal.Named (own : Nat → Nat) (m : Mgr) (F : BFn) : Prop
  | handle {h} (l : UTab.Live own h) (d : Den m h F)
  | var {v} (h1 : 1 ≤ v) (h2 : v ≤ m.st.ord.numVars) (h : F = fun ρ => ρ v)
  | assoc (h : AssocVal m F)

section
variable {Γ : Nat → BFn → BFn} {own leak : Nat → Nat} {ps : List Edge} {m : Mgr} {b : Block}

theorem named_held {u : UTab} {s : Store} {d0 : St} {δ0 : Nat → BFn} (S : Start Γ own leak ps m u s d0 δ0)
    (i : Mgr.InvG Γ (fun x => leak x + pend ps x) own m) {F} (h : Named own m F) :
    ∃ e c, Mgr.Held { m with st := s, ut := u } (fun x => leak x + pend ps x) e ∧ F = fun ρ => xor c (den δ0 e ρ) := by
  have fin : ∀ {e F}, Mgr.Held { m with st := s, ut := u } (fun x => leak x + pend ps x) e → Rep m.st e F →
      F = fun ρ => xor false (den δ0 e ρ) := by
    intro e F he r
    rw [S.fns e F he (r.mono S.same.le)]
    simp
  cases h with
  | handle l d =>
    rename_i h
    obtain ⟨e, he, r⟩ := d
    have hh := Mgr.held_ut S.inv (S.kept _ _ he (i.ut.live_ref l))
    obtain ⟨G, rG⟩ := i.wf.rep_exists (i.uok _ _ he)
    refine ⟨e, h.neg, hh, ?_⟩
    have h1 := (rG.phase h.neg).unique i.wf r
    have h2 := fin hh rG
    rw [← h1, h2]
    simp
  | var h1 h2 h =>
    rename_i v
    obtain ⟨a, e, k⟩ := i.var v h1 h2
    have hh : Mgr.Held { m with st := s, ut := u } (fun x => leak x + pend ps x) ⟨v, a, false⟩ :=
      Mgr.held_var S.inv (v := v) e
    refine ⟨_, false, hh, ?_⟩
    have r : Rep m.st ⟨v, a, false⟩ fun ρ => ρ v := by
      have := Rep.pos (s := m.st) k .one .zero
      simpa using this
    rw [h]
    exact fin hh r
  | assoc h =>
    obtain ⟨j, A, v, e, h1, h2, r⟩ := h
    have hh : Mgr.Held { m with st := s, ut := u } (fun x => leak x + pend ps x) e := by
      unfold Mgr.assoc at h1
      split at h1
      · cases h1
        exact Mgr.held_temp S.inv (v := v) h2
      · cases hf : m.assocs.find? fun p => p.a.id == j with
        | none => rw [hf] at h1; cases h1
        | some p =>
          rw [hf] at h1; cases h1
          exact Mgr.held_assoc S.inv (p := p) (List.mem_of_find?_eq_some hf) h2
    exact ⟨e, false, hh, fin hh r⟩

/-- When all stuck functions are held at the end, only nodes with references from outside are stuck. -/
theorem unstuck_core {ext : Nat → Nat} {d0 d : St} {δ0 : Nat → BFn} (I : RInv ext δ0 d0 d) (h1 : δ0 0 = fun _ => true)
    {s' : Store} {φ : Nat → Nat} (M : (reid d.st).Moved s' φ)
    (hs : ∀ a n F, s'.heap a = some n → s'.ref a = maxRef → Rep s' ⟨n.var, a, false⟩ F →
      ∃ (e : Edge) (c : Bool), (e.addr = 0 ∨ 0 < ext e.addr) ∧ F = fun ρ => xor c (den δ0 e ρ)) : Unstuck ext d := by
  have P := I.inv.w
  intro a ha h255
  obtain ⟨δ, l, hδ⟩ := I.fns
  have rl := lab_reid.2 l
  cases hn : d.st.heap a with
  | none => exact absurd hn ha
  | some n =>
    have rF : Rep (reid d.st) ⟨n.var, a, false⟩ (δ a) := by
      have := rl.rep P.reid (e := ⟨n.var, a, false⟩) (Or.inr ⟨_, reid_heap hn, rfl⟩)
      have h1 : den δ ⟨n.var, a, false⟩ = δ a := by funext ρ; simp [den]
      rwa [h1] at this
    obtain ⟨e, c, he, hF⟩ := hs _ _ (δ a) (M.node a _ (reid_heap hn))
      ((M.ref a (mt reid_none.1 ha)).trans h255) (M.rep rF)
    have const : e.addr = 0 → False := by
      intro h0
      have h1 : δ a = fun _ => !(xor c e.neg) := by
        rw [hF]; funext ρ
        unfold den
        rw [h0, h1]
        cases c <;> cases e.neg <;> rfl
      have h2 : Rep (reid d.st) ⟨0, 0, xor c e.neg⟩ (δ a) := by
        rw [h1]
        cases hx : xor c e.neg
        · exact .one
        · exact .zero
      have := canonical P.reid rF h2
      injection this with _ h3
      rw [h3, P.heap0] at hn; cases hn
    rcases he with h0 | hpos
    · exact absurd h0 const
    · have e0 : e.addr ≠ 0 := const
      cases hn2 : d.st.heap e.addr with
      | none => have := I.inv.ref.ext0 _ e0 hn2; omega
      | some n2 =>
        have r2 := rl.rep P.reid (e := ⟨n2.var, e.addr, xor c e.neg⟩) (Or.inr ⟨_, reid_heap hn2, rfl⟩)
        have h1 : den δ ⟨n2.var, e.addr, xor c e.neg⟩ = δ a := by
          rw [hF]; funext ρ
          unfold den
          simp only [hδ _ hpos]
          cases c <;> cases e.neg <;> simp
        rw [h1] at r2
        have := canonical P.reid rF r2
        injection this with _ h3
        rw [h3]; exact hpos

/-- When only functions that have names are stuck at the end, only nodes with references from outside are. -/
theorem unstuck_of {u : UTab} {s : Store} {d0 d : St} {δ0 : Nat → BFn} (S : Start Γ own leak ps m u s d0 δ0)
    (i : Mgr.InvG Γ (fun x => leak x + pend ps x) own m)
    (I : RInv (Mgr.roots { m with st := s, ut := u } fun x => leak x + pend ps x) δ0 d0 d) {r}
    (hr : realloc d.st = some r)
    (hs : ∀ F, Stuck (finish m u d r) F → Named own m F ∨ Named own m fun ρ => !F ρ) :
    Unstuck (Mgr.roots { m with st := s, ut := u } fun x => leak x + pend ps x) d ∧
      (finish m u d r).st.numNodes = d.st.numNodes := by
  obtain ⟨r', hr', M, -⟩ := realloc_spec I.inv.w
  rw [hr] at hr'; cases hr'
  refine ⟨unstuck_core I S.lab.const (moved_reid I.inv.w M) fun a n F h1 h2 h3 => ?_, M.num⟩
  have st : Stuck (finish m u d r) F :=
    ⟨a, n, h1, h2, h3.mono (⟨rfl, fun _ _ h => h⟩ : (reid r.st).Le (finish m u d r).st)⟩
  rcases hs _ st with h | h
  · obtain ⟨e, c, h1, h2⟩ := named_held S i h
    exact ⟨e, c, h1.2, h2⟩
  · obtain ⟨e, c, h1, h2⟩ := named_held S i h
    refine ⟨e, !c, h1.2, ?_⟩
    funext ρ
    have := congrFun h2 ρ
    cases c <;> simp at this ⊢ <;> rw [← this] <;> simp

/-- A depth-first reordering ends with at most as many nodes as garbage collection leaves. -/
theorem reorderDF_le (i : Mgr.InvG Γ (fun x => leak x + pend ps x) own m) (ok : ∀ e ∈ ps, m.st.EOK e)
    (hn : m.st.ord.numVars ≤ 46341) (cov : Covered m leak ps) (hb : Block.SuperOK m.st.ord.numVars b)
    {L : Sift.Limits} {passes : Nat} {m' φ b'} (h : reorderDF L passes m ps b = some (m', φ, b'))
    (hs : ∀ F, Stuck m' F → Named own m F ∨ Named own m fun ρ => !F ρ) {g} (hg : m.gc = some g) :
    m'.st.numNodes ≤ g.st.numNodes := by
  obtain ⟨u, s, d0, δ0, e1, S⟩ := start_ok i ok hn cov
  have hnv : d0.st.ord.numVars = m.st.ord.numVars := by rw [S.dord]
  have F := fixed (ext := Mgr.roots { m with st := s, ut := u } fun x => leak x + pend ps x) (δ0 := δ0)
    (d0 := d0) m.st.gcCheck
  rw [hnv] at F
  have J0 : ZInv (Mgr.roots { m with st := s, ut := u } fun x => leak x + pend ps x) δ0 d0 m.st.gcCheck d0 :=
    ⟨⟨RInv.start S.d S.lab, S.dchk⟩, S.zero, .start⟩
  unfold reorderDF rearrange at h
  simp only [e1, hnv] at h
  split at h
  · cases h
  · rename_i d b1 e4
    split at h
    · cases h
    · rename_i r e5
      cases h
      have fin : RInv (Mgr.roots { m with st := s, ut := u } fun x => leak x + pend ps x) δ0 d0 d →
          (Unstuck (Mgr.roots { m with st := s, ut := u } fun x => leak x + pend ps x) d → sys.size d ≤ sys.size d0) →
          (finish m u d r).st.numNodes ≤ g.st.numNodes := by
        intro I hle
        obtain ⟨k1, k2⟩ := unstuck_of S i I e5 hs
        have k3 : (d.st.numNodes : Int) ≤ d0.st.numNodes := hle k1
        have k4 := convert_num S.ugc S.cvt hg
        omega
      split at e4
      · have J := (Sift.reorderWindowN_tra F.agree m.st.ord.numVars passes b J0 _ e4).1
        exact fin J.1.1 fun k => F.window_le hb J0 e4 k
      · have J := (Sift.reorderSift_tra F.agree L m.st.ord.numVars b J0 _ e4).1
        exact fin J.1.1 fun k => F.sift_le L hb J0 e4 k

/-- The loops of window permutation end, unless some order of the variables gives a stuck count to a node without
references from outside. -/
theorem reorderDF_window_ends (i : Mgr.InvG Γ (fun x => leak x + pend ps x) own m) (ok : ∀ e ∈ ps, m.st.EOK e)
    (hn : m.st.ord.numVars ≤ 46341) (cov : Covered m leak ps) (hca : m.ca.Empty) (hw : m.technique = 2)
    (hb : Block.SuperOK m.st.ord.numVars b) (L : Sift.Limits) :
    (∃ passes m' φ b', reorderDF L passes m ps b = some (m', φ, b')) ∨
      ∃ u d0 d, enter m ps = some (u, d0) ∧ Exch d0 d ∧
        ∃ a, d.st.heap a ≠ none ∧ d.st.ref a = maxRef ∧
          ¬ ∃ s, m.ut.gc m.st = some (u, s) ∧ 0 < Mgr.roots { m with st := s, ut := u } (fun x => leak x + pend ps x) a := by
  obtain ⟨u, s, d0, δ0, e1, S⟩ := start_ok i ok hn cov
  have hnv : d0.st.ord.numVars = m.st.ord.numVars := by rw [S.dord]
  have F := fixed (ext := Mgr.roots { m with st := s, ut := u } fun x => leak x + pend ps x) (δ0 := δ0)
    (d0 := d0) m.st.gcCheck
  rw [hnv] at F
  have J0 : ZInv (Mgr.roots { m with st := s, ut := u } fun x => leak x + pend ps x) δ0 d0 m.st.gcCheck d0 :=
    ⟨⟨RInv.start S.d S.lab, S.dchk⟩, S.zero, .start⟩
  rcases F.window_ends hb J0 with ⟨N, d, b', e4⟩ | ⟨d, J, nu⟩
  · have J := (Sift.reorderWindowN_tra F.agree m.st.ord.numVars N b J0 _ e4).1
    obtain ⟨r, e5, -⟩ := finish_ok S ok hca (by omega) J.1.1
    refine Or.inl ⟨N, finish m u d r, forward r, b', ?_⟩
    unfold reorderDF rearrange
    simp only [e1, if_pos hw, hnv, e4, e5]
  · refine Or.inr ⟨u, d0, d, e1, J.2.2, ?_⟩
    unfold Unstuck at nu
    simp only [Classical.not_forall] at nu
    obtain ⟨a, h1, h2, h3⟩ := nu
    refine ⟨a, h1, h2, ?_⟩
    rintro ⟨s', h4, h5⟩
    rw [S.ugc] at h4; cases h4
    exact h3 h5

end

end Df

end Cal
