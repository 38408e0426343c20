import Verif.BfMgr
import Verif.Props3

/-!
# An environment that reorders breadth-first
-/

namespace Cal

open Classical in
/-- The environment `E`, but with breadth-first reordering by sifting as in the code wherever it is safe. The
parameters may be different in each reordering. -/
noncomputable def Env.bfr (E : Env) (P : Mgr → List Edge → Bfr.Par) : Env :=
  { E with
    reorder := fun m ps =>
      if m.method = 0 ∧ m.technique ≠ 2 ∧ Bfr.Ready m ps then
        match Bfr.reorderBF (P m ps) m ps with
        | some r => some r
        | none => E.reorder m ps
      else E.reorder m ps }

theorem Env.bfr_sound {E : Env} (S : E.Sound) (P : Mgr → List Edge → Bfr.Par) : (E.bfr P).Sound := by
  refine ⟨?_, S.repack, ?_, S.repackCheck, S.existsBF, S.relProdBF, S.rnd⟩
  · intro own lk ps m i hca ht
    simp only [Env.bfr]
    split
    · rename_i c
      obtain ⟨-, -, c⟩ := c
      obtain ⟨Γ, leak, hl, i, ok⟩ := i
      obtain ⟨m', φ, e, R⟩ := Bfr.reorderBF_sift i c (P m ps)
      rw [e]
      obtain ⟨leak', h1, h2⟩ := R.inv
      exact ⟨m', φ, rfl, ⟨Γ, leak', fun h => h1 (hl h), h2, R.eok⟩, R.pres, R.ovf, R.fwd⟩
    · exact S.reorder own lk ps m i hca ht
  · intro m ps m' φ
    simp only [Env.bfr]
    split
    · rename_i c
      obtain ⟨-, -, c⟩ := c
      obtain ⟨Γ, own, leak, i, -⟩ := c.cov
      obtain ⟨m1, φ1, e, R⟩ := Bfr.reorderBF_sift i c (P m ps)
      rw [e]
      rintro h
      cases h
      exact R.chk
    · exact S.reorderCheck m ps m' φ

/-- Garbage collection takes away nothing that is tracked. -/
theorem tracked_gc {own : Nat → Nat} {lk : Bool} {m m1 : Mgr} (i : m.Inv own lk) (h : m.gc = some m1) (t : Tracked own m) :
    Tracked own m1 := by
  obtain ⟨Γ, leak, -, i⟩ := i
  obtain ⟨m', h', i', p, -, -, -, sh, -⟩ := i.gc
  rw [h] at h'; cases h'
  obtain ⟨f, r, us, uk, hv, has, ht⟩ := Mgr.gc_fades h
  intro F hF x y hxy hd
  have le : m1.st.Le m.st := ⟨sh.ord.symm, sh.heap⟩
  have hF' : AssocVal m F ∨ Stuck m F := by
    rcases hF with ⟨j, A, v, e, h1, h2, h3⟩ | ⟨a, n, h1, h2, h3⟩
    · refine Or.inl ⟨j, A, v, e, ?_, h2, h3.mono le⟩
      unfold Mgr.assoc at h1 ⊢
      rw [← has, ← ht]; exact h1
    · refine Or.inr ⟨a, n, sh.heap a n h1, ?_, h3.mono le⟩
      have k1 := f.le a
      have k2 := i.ref.le a (by rw [sh.heap a n h1]; simp)
      omega
  obtain ⟨g, G, h1, h2, h3⟩ := t F hF' x y hxy hd
  exact ⟨g, G, h1, p.fns g h1 G h2, h3⟩

end Cal
