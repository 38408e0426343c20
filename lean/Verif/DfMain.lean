import Verif.DfAux
import Verif.Props11

/-!
# What a whole depth-first reordering does
-/

namespace Cal

namespace Df

/-- The variable at an index. -/
def varAt (o : Order) (x : Int) : Nat := if 0 ≤ x then o.indexToId x.toNat else 0

/-- What a reordering leaves behind. -/
structure Reordered (Γ : Nat → BFn → BFn) (own leak : Nat → Nat) (ps : List Edge) (m : Mgr) (b : Block) (m' : Mgr)
    (φ : Edge → Edge) (b' : Block) : Prop where
  inv : ∃ leak', (leak = (fun _ => 0) → leak' = fun _ => 0) ∧
    Mgr.InvG Γ (fun x => leak' x + pend (ps.map φ) x) own m'
  eok : ∀ e ∈ ps.map φ, m'.st.EOK e
  pres : Pres own 0 m m'
  fwd : Fwd own ps m m' φ
  ovf : m'.overflow = m.overflow
  chk : m'.st.gcCheck = m.st.gcCheck
  super : Block.SuperOK m.st.ord.numVars b'
  tree : Sift.Rearr (.node b.reorderable (Sift.trL (varAt m.st.ord) b.children))
    (.node b'.reorderable (Sift.trL (varAt m'.st.ord) b'.children))
  perm : ((Block.upto 0 m.st.ord.numVars).map (varAt m'.st.ord)).Perm ((Block.upto 0 m.st.ord.numVars).map (varAt m.st.ord))

section
variable {Γ : Nat → BFn → BFn} {own leak : Nat → Nat} {ps : List Edge} {m : Mgr} {b : Block}

theorem finish_reordered {u : UTab} {s : Store} {d0 d : St} {δ0 : Nat → BFn} {b' : Block}
    (S : Start Γ own leak ps m u s d0 δ0) (ok : ∀ e ∈ ps, m.st.EOK e) (hca : m.ca.Empty) (ht : m.technique ≠ 0)
    (I : RInv (Mgr.roots { m with st := s, ut := u } fun x => leak x + pend ps x) δ0 d0 d)
    (hc : d.st.gcCheck = m.st.gcCheck) (hb : Block.SuperOK m.st.ord.numVars b')
    (htree : Sift.Rearr (.node b.reorderable (Sift.trL (at_ d0) b.children))
      (.node b'.reorderable (Sift.trL (at_ d) b'.children)))
    (hperm : ((Block.upto 0 m.st.ord.numVars).map (at_ d)).Perm ((Block.upto 0 m.st.ord.numVars).map (at_ d0))) :
    ∃ r, realloc d.st = some r ∧ Reordered Γ own leak ps m b (finish m u d r) (forward r) b' := by
  obtain ⟨r, hr, ho, hi, he, hp, hf⟩ := finish_ok S ok hca ht I
  have h1 : varAt (finish m u d r).st.ord = at_ d := by rw [ho]; rfl
  have h0 : varAt m.st.ord = at_ d0 := by rw [← S.dord]; rfl
  refine ⟨r, hr, hi, he, hp, hf, rfl, ?_, hb, by rw [h1, h0]; exact htree, by rw [h1, h0]; exact hperm⟩
  have := realloc_chk _ hr
  show r.st.gcCheck = _
  rw [this]; exact hc

/-- Sifting (`CAL_REORDER_SIFT`): it always ends without a fault. -/
theorem reorderDF_sift (i : Mgr.InvG Γ (fun x => leak x + pend ps x) own m) (ok : ∀ e ∈ ps, m.st.EOK e)
    (hn : m.st.ord.numVars ≤ 46341) (cov : Covered m leak ps) (hca : m.ca.Empty) (ht : m.technique ≠ 0)
    (hw : m.technique ≠ 2) (hb : Block.SuperOK m.st.ord.numVars b) (L : Sift.Limits) (passes : Nat) :
    ∃ m' φ b', reorderDF L passes m ps b = some (m', φ, b') ∧ Reordered Γ own leak ps m b m' φ b' := by
  obtain ⟨u, s, d0, δ0, e1, S⟩ := start_ok i ok hn cov
  have hnv : d0.st.ord.numVars = m.st.ord.numVars := by rw [S.dord]
  have hJ := sys_ok' (ext := Mgr.roots { m with st := s, ut := u } fun x => leak x + pend ps x) (δ0 := δ0)
    (d0 := d0) m.st.gcCheck
  rw [hnv] at hJ
  obtain ⟨d, b', e4, ⟨I, hc⟩, hb', htree, hperm, -⟩ := C43_sift hJ L hb ⟨RInv.start S.d S.lab, S.dchk⟩
  obtain ⟨r, e5, R⟩ := finish_reordered S ok hca ht I hc hb' htree hperm
  refine ⟨_, _, b', ?_, R⟩
  unfold reorderDF rearrange
  simp only [e1, if_neg hw, hnv, e4, e5]

/-- Window permutation: whenever its loops end. -/
theorem reorderDF_window (i : Mgr.InvG Γ (fun x => leak x + pend ps x) own m) (ok : ∀ e ∈ ps, m.st.EOK e)
    (hn : m.st.ord.numVars ≤ 46341) (cov : Covered m leak ps) (hca : m.ca.Empty)
    (hw : m.technique = 2) (hb : Block.SuperOK m.st.ord.numVars b) {L : Sift.Limits} {passes : Nat} {m' φ b'}
    (h : reorderDF L passes m ps b = some (m', φ, b')) : Reordered Γ own leak ps m b m' φ b' := by
  obtain ⟨u, s, d0, δ0, e1, S⟩ := start_ok i ok hn cov
  have hnv : d0.st.ord.numVars = m.st.ord.numVars := by rw [S.dord]
  have hJ := sys_ok' (ext := Mgr.roots { m with st := s, ut := u } fun x => leak x + pend ps x) (δ0 := δ0)
    (d0 := d0) m.st.gcCheck
  rw [hnv] at hJ
  unfold reorderDF rearrange at h
  simp only [e1, if_pos hw, hnv] at h
  split at h
  · cases h
  · rename_i d b1 e4
    obtain ⟨⟨I, hc⟩, hb', htree, hperm⟩ := Sift.windowN_spec hJ passes hb ⟨RInv.start S.d S.lab, S.dchk⟩ e4
    obtain ⟨r, e5, R⟩ := finish_reordered S ok hca (by omega) I hc hb' htree hperm
    rw [e5] at h
    cases h
    exact R

end

end Df

end Cal
