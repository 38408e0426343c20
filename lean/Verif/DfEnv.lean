import Verif.DfMain
import Verif.ApiAssoc3

/-!
# When depth-first reordering is safe, and an environment that reorders with it
-/

namespace Cal

/-- A function that an association has for one of its variables (`-1` is the temporary association). -/
def AssocVal (m : Mgr) (F : BFn) : Prop :=
  ∃ j A v e, m.assoc j = some A ∧ A.var v = some e ∧ Rep m.st e F

/-- The function of a node whose count has reached the maximum, from which it never comes down. -/
def Stuck (m : Mgr) (F : BFn) : Prop :=
  ∃ a n, m.st.heap a = some n ∧ m.st.ref a = maxRef ∧ Rep m.st ⟨n.var, a, false⟩ F

/-- `F` depends on both variables. -/
def DependsOnBoth (F : BFn) (x y : Nat) : Prop := ¬ Indep F x ∧ ¬ Indep F y

/-- Whenever a function that is kept by an association or by a stuck count depends on two variables, so
does the function of a handle the user holds. -/
def Tracked (own : Nat → Nat) (m : Mgr) : Prop :=
  ∀ F, AssocVal m F ∨ Stuck m F → ∀ x y, x ≠ y → DependsOnBoth F x y →
    ∃ h G, UTab.Live own h ∧ Den m h G ∧ DependsOnBoth G x y

namespace Df

theorem indep_not {F : BFn} {v : Nat} : Indep (fun ρ => !F ρ) v ↔ Indep F v := by
  unfold Indep
  constructor
  · intro h ρ b
    have := h ρ b
    simpa using this
  · intro h ρ b
    show (!F (upd ρ v b)) = !F ρ
    rw [h ρ b]

theorem rep_phase {s : Store} (w : s.WF) {e : Edge} {F G a} {n : Node} (ha : e.addr = a)
    (r : Rep s e F) (r' : Rep s ⟨n.var, a, false⟩ G) {x y} : Dep2 F x y ↔ Dep2 G x y := by
  obtain ⟨δ, l⟩ := w.exists_lab
  have h1 := r.unique w (l.rep w r.eok)
  have h2 := r'.unique w (l.rep w r'.eok)
  rw [h1, h2]
  unfold Dep2
  simp only [indep_den, ha]

theorem listHits_inv {as : List RAssoc} {n a} (h : 0 < listHits as n a) :
    ∃ p ∈ as, 0 < tabHits p.a.var n a := by
  induction as with
  | nil => simp [listHits] at h
  | cons p as ih =>
    simp only [listHits, List.map_cons, List.sum_cons] at h
    by_cases c : 0 < tabHits p.a.var n a
    · exact ⟨p, List.mem_cons_self, c⟩
    · obtain ⟨q, hq, hc⟩ := ih (by unfold listHits; omega)
      exact ⟨q, List.mem_cons_of_mem _ hq, hc⟩

theorem tracked_covered {Γ : Nat → BFn → BFn} {own : Nat → Nat} {m : Mgr} (i : Mgr.InvG Γ (fun _ => 0) own m)
    (h : Tracked own m) : Covered m (fun _ => 0) [] := by
  intro a n F hn r hr x y hxy hd
  have fin : (∃ G, (AssocVal m G ∨ Stuck m G) ∧ Dep2 G x y) → Seen m [] x y := by
    rintro ⟨G, hG, hd⟩
    obtain ⟨k, K, lk, ⟨e, he, rk⟩, dk⟩ := h G hG x y hxy hd
    refine Or.inl ⟨k.addr, e, den (Classical.choose i.wf.exists_lab) e, he, i.ut.live_ref lk, ?_, ?_⟩
    · exact (Classical.choose_spec i.wf.exists_lab).rep i.wf (i.uok _ _ he)
    · have r0 := (Classical.choose_spec i.wf.exists_lab).rep i.wf (i.uok _ _ he)
      generalize den (Classical.choose i.wf.exists_lab) e = E0 at r0 ⊢
      cases hb : k.neg with
      | false =>
        rw [hb] at rk
        have : e.phase false = e := by cases e; simp [Edge.phase]
        rw [this] at rk
        rw [← rk.unique i.wf r0]; exact dk
      | true =>
        rw [hb] at rk
        have h1 := rk.not
        have : (e.phase true).not = e := by cases e; simp [Edge.phase, Edge.not]
        rw [this] at h1
        rw [← h1.unique i.wf r0]
        unfold Dep2
        rw [indep_not, indep_not]; exact dk
  rcases hr with hr | hr | hr | hr
  · obtain ⟨p, hp, hp'⟩ := listHits_inv hr
    obtain ⟨v, e, _, hv, he⟩ := tabHits_inv hp'
    obtain ⟨δ, l⟩ := i.wf.exists_lab
    have ha := (i.assocs p hp).1
    have hfind := (Mgr.find_iff i.sorted (j := p.a.id)).2 ⟨hp, rfl⟩
    have hid : p.a.id ≠ -1 := by have := ha.id0; omega
    have re : Rep m.st e (den δ e) := l.rep i.wf (ha.toAOK.vals v e hv)
    refine fin ⟨den δ e, Or.inl ⟨p.a.id, p.a, v, e, ?_, hv, re⟩, (rep_phase i.wf he re r).2 hd⟩
    unfold Mgr.assoc
    rw [if_neg hid, hfind]; rfl
  · obtain ⟨v, e, _, hv, he⟩ := tabHits_inv hr
    obtain ⟨δ, l⟩ := i.wf.exists_lab
    have re : Rep m.st e (den δ e) := l.rep i.wf (i.temp.vals v e hv)
    exact fin ⟨den δ e, Or.inl ⟨-1, m.temp, v, e, rfl, hv, re⟩, (rep_phase i.wf he re r).2 hd⟩
  · simp at hr
  · exact fin ⟨F, Or.inr ⟨a, n, hn, hr, r⟩, hd⟩

/-- References that nobody gives up are determined by the counts, as far as these are exact. -/
theorem leak_unique {Γ Γ' : Nat → BFn → BFn} {own own' leak leak' : Nat → Nat} {m : Mgr}
    (i : Mgr.InvG Γ leak own m) (i' : Mgr.InvG Γ' leak' own' m) {a} (h : m.st.heap a ≠ none)
    (hr : m.st.ref a ≠ maxRef) : leak a = leak' a := by
  have h1 := i.ref.cnt a h
  have h2 := i'.ref.cnt a h
  simp only [Mgr.roots, Mgr.rest] at h1 h2
  omega

/-- The situations in which depth-first reordering is safe. -/
structure Ready (m : Mgr) (ps : List Edge) (b : Block) : Prop where
  vars : m.st.ord.numVars ≤ 46341
  block : Block.SuperOK m.st.ord.numVars b
  cache : m.ca.Empty
  on : m.technique ≠ 0
  eok : ∀ e ∈ ps, m.st.EOK e
  cov : ∃ Γ own leak, Mgr.InvG Γ (fun x => leak x + pend ps x) own m ∧ Covered m leak ps

theorem Ready.covered {m : Mgr} {ps : List Edge} {b : Block} (h : Ready m ps b) {Γ : Nat → BFn → BFn}
    {own leak : Nat → Nat} (i : Mgr.InvG Γ (fun x => leak x + pend ps x) own m) : Covered m leak ps := by
  obtain ⟨Γ', own', leak', i', c⟩ := h.cov
  intro a n F hn r hr
  refine c a n F hn r ?_
  by_cases hm : m.st.ref a = maxRef
  · exact Or.inr (Or.inr (Or.inr hm))
  · have := leak_unique i i' (a := a) (by rw [hn]; simp) hm
    rcases hr with h | h | h | h
    · exact Or.inl h
    · exact Or.inr (Or.inl h)
    · exact Or.inr (Or.inr (Or.inl (by omega)))
    · exact absurd h hm

theorem Ready.spec {m : Mgr} {ps : List Edge} {b : Block} (h : Ready m ps b) {L passes m' φ b'}
    (e : reorderDF L passes m ps b = some (m', φ, b')) {Γ : Nat → BFn → BFn}
    {own leak : Nat → Nat} (i : Mgr.InvG Γ (fun x => leak x + pend ps x) own m) :
    Reordered Γ own leak ps m b m' φ b' := by
  by_cases hw : m.technique = 2
  · exact reorderDF_window i h.eok h.vars (h.covered i) h.cache hw h.block e
  · obtain ⟨m1, φ1, b1, e1, R⟩ := reorderDF_sift i h.eok h.vars (h.covered i) h.cache h.on hw h.block L passes
    rw [e1] at e; cases e; exact R

end Df

open Classical in
/-- The environment `E`, but with depth-first reordering as in the code wherever it is safe (and, for window
permutation, ends within the given number of passes). `blk` gives the super block, which is not part of the
manager model. -/
noncomputable def Env.df (E : Env) (L : Sift.Limits) (passes : Nat) (blk : Mgr → List Edge → Block) : Env :=
  { E with
    reorder := fun m ps =>
      if m.method = 1 ∧ Df.Ready m ps (blk m ps) then
        match Df.reorderDF L passes m ps (blk m ps) with
        | some (m', φ, _) => some (m', φ)
        | none => E.reorder m ps
      else E.reorder m ps }

theorem Env.df_sound {E : Env} (S : E.Sound) (L : Sift.Limits) (passes : Nat) (blk : Mgr → List Edge → Block) :
    (E.df L passes blk).Sound := by
  refine ⟨?_, S.repack, ?_, S.repackCheck, S.existsBF, S.relProdBF, S.rnd⟩
  · intro own lk ps m i hca ht
    simp only [Env.df]
    split
    · rename_i c
      obtain ⟨-, c⟩ := c
      split
      · rename_i m' φ b' e
        obtain ⟨Γ, leak, hl, i, ok⟩ := i
        have R := c.spec e i
        obtain ⟨leak', h1, h2⟩ := R.inv
        exact ⟨m', φ, rfl, ⟨Γ, leak', fun h => h1 (hl h), h2, R.eok⟩, R.pres, R.ovf, R.fwd⟩
      · exact S.reorder own lk ps m i hca ht
    · exact S.reorder own lk ps m i hca ht
  · intro m ps m' φ
    simp only [Env.df]
    split
    · rename_i c
      obtain ⟨-, c⟩ := c
      split
      · rename_i m1 φ1 b' e
        rintro h
        cases h
        obtain ⟨Γ, own, leak, i, -⟩ := c.cov
        exact (c.spec e i).chk
      · exact S.reorderCheck m ps m' φ
    · exact S.reorderCheck m ps m' φ

end Cal
