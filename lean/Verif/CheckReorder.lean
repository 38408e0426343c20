import Verif.CheckOk
import Verif.BfLess
import Verif.RepackMgr

/-!
# The checks at the end of a reordering

`CalCheckAllValidity` is called at the end of both kinds of reordering, without a garbage collection before it
(calReorderBF.c:119, calReorderDF.c:181). So no node may be left without references.
-/

namespace Cal

section
variable {Γ : Nat → BFn → BFn} {own leak : Nat → Nat} {ps : List Edge} {m : Mgr}

/-- Every node has a count other than zero after breadth-first sifting. -/
theorem Bfr.reorderBF_live (i : Mgr.InvG Γ (fun x => leak x + pend ps x) own m) (h : Bfr.Ready m ps) {P : Bfr.Par} {m' φ}
    (e : Bfr.reorderBF P m ps = some (m', φ)) :
    (∀ a, m'.st.heap a ≠ none → m'.st.ref a ≠ 0) ∧ m'.ut.ref = m.ut.ref ∧
      ∀ a, m'.ut.heap a ≠ none → m.ut.heap a ≠ none := by
  obtain ⟨mat, δ0, e1, l0, Bt⟩ := Bfr.start_ok i h P
  obtain ⟨w, e2, -, C, d, ab, B, -⟩ := Bfr.sift_spec P Bt
  unfold Bfr.reorderBF at e
  rw [e1] at e
  simp only [e2, Option.map_some, Option.some.injEq, Prod.mk.injEq] at e
  obtain ⟨rfl, -⟩ := e
  have M := Bfr.moved B C
  refine ⟨fun b hb => ?_, rfl, fun a ha h0 => ha ?_⟩
  · obtain ⟨a, ha, rfl⟩ := M.only b hb
    have := M.ref a ha
    rw [show (Bfr.finish m w).st = w.st from rfl, this]
    cases hd : d.st.heap a with
    | none => exact absurd (Df.reid_none.2 hd) ha
    | some n => exact B.nz a n hd
  · show w.users a = none
    rw [B.users]
    simp only [h0, Option.map_none]

/-- Every node has a count other than zero when the nodes have been copied at the end of a depth-first
reordering. -/
theorem Df.finish_live {u : UTab} {s : Store} {d0 d : Df.St} {δ0 : Nat → BFn} {c : Int} {r : Df.Rl}
    (i : Mgr.InvG Γ (fun x => leak x + pend ps x) own m) (S : Df.Start Γ own leak ps m u s d0 δ0)
    (J : Df.ZInv (Mgr.roots { m with st := s, ut := u } fun x => leak x + pend ps x) δ0 d0 c d)
    (e5 : Df.realloc d.st = some r) :
    (∀ a, (Df.finish m u d r).st.heap a ≠ none → (Df.finish m u d r).st.ref a ≠ 0) ∧
      ∀ a, (Df.finish m u d r).ut.heap a ≠ none → (Df.finish m u d r).ut.ref a ≠ 0 := by
  obtain ⟨r', hr', M0, -⟩ := Df.realloc_spec J.1.1.inv.w
  rw [e5] at hr'; cases hr'
  have M := Df.moved_reid J.1.1.inv.w M0
  constructor
  · intro b hb
    obtain ⟨a, ha, rfl⟩ := M.only b hb
    have h1 := M.ref a ha
    rw [show (Df.finish m u d r).st.ref = (Df.reid r.st).ref from rfl, h1]
    cases hd : d.st.heap a with
    | none => exact absurd (Df.reid_none.2 hd) ha
    | some n => exact J.2.1 a n hd
  · intro a ha
    obtain ⟨u', s', hg, G⟩ := UTab.gcList_spec (rest := m.rest fun x => leak x + pend ps x) m.ut.tab m.ut m.st
      i.ut i.uok (fun a ha => (i.ut.tab_iff a).1 ha) i.ut.tab_nodup i.ref
    have hg' : m.ut.gc m.st = some (u', s') := hg
    rw [S.ugc] at hg'; cases hg'
    have hu : u.heap a ≠ none := by
      intro h0
      apply ha
      show (u.heap a).map _ = none
      rw [h0]; rfl
    show u.ref a ≠ 0
    rw [G.refs]
    obtain ⟨e, he⟩ := Option.ne_none_iff_exists'.1 hu
    exact G.done a ((i.ut.tab_iff a).2 (by rw [G.sub a e he]; simp)) hu

/-- Every node has a count other than zero after a depth-first reordering. -/
theorem Df.reorderDF_live {b : Block} (i : Mgr.InvG Γ (fun x => leak x + pend ps x) own m) (ok : ∀ e ∈ ps, m.st.EOK e)
    (hn : m.st.ord.numVars ≤ 46341) (cov : Df.Covered m leak ps)
    {L : Sift.Limits} {passes : Nat} {m' φ b'} (h : Df.reorderDF L passes m ps b = some (m', φ, b')) :
    (∀ a, m'.st.heap a ≠ none → m'.st.ref a ≠ 0) ∧ ∀ a, m'.ut.heap a ≠ none → m'.ut.ref a ≠ 0 := by
  obtain ⟨u, s, d0, δ0, e1, S⟩ := Df.start_ok i ok hn cov
  have hnv : d0.st.ord.numVars = m.st.ord.numVars := by rw [S.dord]
  have F := Df.fixed (ext := Mgr.roots { m with st := s, ut := u } fun x => leak x + pend ps x) (δ0 := δ0)
    (d0 := d0) m.st.gcCheck
  rw [hnv] at F
  have J0 : Df.ZInv (Mgr.roots { m with st := s, ut := u } fun x => leak x + pend ps x) δ0 d0 m.st.gcCheck d0 :=
    ⟨⟨Df.RInv.start S.d S.lab, S.dchk⟩, S.zero, .start⟩
  unfold Df.reorderDF Df.rearrange at h
  simp only [e1, hnv] at h
  split at h
  · cases h
  · rename_i d b1 e4
    split at h
    · cases h
    · rename_i r e5
      cases h
      have J : Df.ZInv (Mgr.roots { m with st := s, ut := u } fun x => leak x + pend ps x) δ0 d0 m.st.gcCheck d := by
        split at e4
        · exact (Sift.reorderWindowN_tra F.agree m.st.ord.numVars passes b J0 _ e4).1
        · exact (Sift.reorderSift_tra F.agree L m.st.ord.numVars b J0 _ e4).1
      exact Df.finish_live i S J e5

/-- Every node has a count other than zero after repacking, as it had before. -/
theorem Rp.repack_live {pg : Rp.Pages} (i : Mgr.InvG Γ leak own m) (L : Rp.Layout m.st pg)
    (hlive : ∀ a, m.st.heap a ≠ none → m.st.ref a ≠ 0)
    {low : Nat → Nat → Bool} (hlow : ∀ n p, low n p = true → n < Rp.perPage * p) {m' φ}
    (e : Rp.repack low pg m = some (m', φ)) :
    (∀ a, m'.st.heap a ≠ none → m'.st.ref a ≠ 0) ∧ m'.ut.ref = m.ut.ref ∧
      ∀ a, m'.ut.heap a ≠ none → m.ut.heap a ≠ none := by
  obtain ⟨r, hr, M, -⟩ := Rp.repackStore_ok i.wf L hlive hlow
  unfold Rp.repack at e
  simp only [hr, Option.map_some, Option.some.injEq, Prod.mk.injEq] at e
  obtain ⟨rfl, -⟩ := e
  refine ⟨fun b hb => ?_, rfl, fun a ha h0 => ha ?_⟩
  · obtain ⟨a, ha, rfl⟩ := M.only b hb
    rw [show (Rp.finish m r).st = r.st from rfl, M.ref a ha]
    exact hlive a ha
  · show (m.ut.heap a).map _ = none
    rw [h0]; rfl

end

end Cal
