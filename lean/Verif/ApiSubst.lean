import Verif.ApiAssoc2
import Verif.ApiEng
import Verif.Subst

/-!
# Substitution through the API
-/

namespace Cal

/-- `F` with the variables of `T` replaced, all at once. -/
def BFn.replace (T : Nat → Option BFn) (F : BFn) : BFn := fun ρ =>
  F fun v => match T v with
    | some G => G ρ
    | none => ρ v

namespace Mgr

/-- The part of `Cal_BddSubstitute` between pre-processing and making the result external
(calBddSubstitute.c:97-131). -/
def substRun (m : Mgr) (f : Edge) : Option (Mgr × Edge) :=
  if f.isConst then some (m, f)
  else
    match m.assoc m.cur with
    | none => none
    | some A => m.onStore (Eng.substBF m.st A.var m.vars A.last f)

/-- `Cal_BddSubstitute` (calBddSubstitute.c:82-134) -/
def substitute (E : Env) (m : Mgr) (f : Handle) : Option (Mgr × Handle) :=
  m.api E [f] (fun m es => match es with
    | [f] => m.substRun f
    | _ => none) extern

/-! ## Proofs -/

variable {own : Nat → Nat} {m : Mgr} {lk : Bool} {E : Env}

theorem ValIs.sub {s : Store} {A : Assoc} {T : Nat → Option BFn} (h : ∀ v, ValIs s (A.var v) (T v)) :
    A.Sub s (fun v => (T v).getD fun ρ => ρ v) := by
  intro v
  rcases h v with ⟨h1, h2⟩ | ⟨e, F, h1, h2, h3⟩
  · simp only [h1, h2]; exact ⟨nofun, fun _ => rfl⟩
  · simp only [h1, h2]
    refine ⟨?_, nofun⟩
    rintro _ ⟨⟩
    exact h3

theorem replace_eq (T : Nat → Option BFn) (F : BFn) :
    substFn (fun v => (T v).getD fun ρ => ρ v) F = BFn.replace T F := by
  funext ρ
  simp only [substFn, BFn.replace]
  congr 1
  funext v
  cases T v <;> rfl

theorem _root_.Cal.Assoc.Eqv.sub {s s' : Store} {A A' : Assoc} (q : A.Eqv s s' A') {S} (h : A.Sub s S) :
    A'.Sub s' S := by
  intro v
  obtain ⟨h1, h2⟩ := h v
  refine ⟨fun e' he' => ?_, fun hn => h2 ((q.dom v).1 hn)⟩
  cases hv : A.var v with
  | none => rw [(q.dom v).2 hv] at he'; cases he'
  | some e => exact q.vals v e e' hv he' _ (h1 e hv)

/-- Variables after the last associated one are not replaced. -/
theorem _root_.Cal.Assoc.Sub.below {s : Store} {A : Assoc} {S} (h : A.Sub s S) (ok : A.OK s.ord) :
    Eng.Below A.last S s.ord := by
  refine ⟨ok.lt, fun v _ _ hl => (h v).2 ?_⟩
  cases hv : A.var v with
  | none => rfl
  | some e =>
    have := ok.le v (by unfold Assoc.dom; rw [hv]; rfl)
    omega

theorem InvG.sel {Γ leak} (i : InvG Γ leak own m) {A : Assoc} {S} (h : A.Sub m.st S) :
    Eng.SelOk A.var m.vars S m.st := by
  intro v v1 v2
  obtain ⟨h1, h2⟩ := h v
  refine ⟨h1, fun hn => ⟨h2 hn, ?_⟩⟩
  obtain ⟨a, h3, h4⟩ := i.var v v1 v2
  refine ⟨_, h3, ?_⟩
  have := Rep.pos h4 Rep.one Rep.zero
  have e : (fun ρ : Asg => if ρ v = true then true else false) = fun ρ => ρ v := by
    funext ρ; cases ρ v <;> rfl
  rw [← e]; exact this

theorem substRun_ok (i : m.Inv own lk) {A} (hA : m.assoc m.cur = some A) {S} (hS : A.Sub m.st S) {f F}
    (hf : Rep m.st f F) : RunOk own lk 0 m (m.substRun f) (substFn S F) := by
  unfold substRun
  by_cases hc : f.id = 0
  · rw [if_pos (by simpa [Edge.isConst] using hc)]
    have : substFn S F = F := by
      rcases (hf.const_iff i.wf).1 hc with rfl | rfl <;> rfl
    rw [this]
    exact ⟨m, f, rfl, i, Pres.refl _ _, hf⟩
  · rw [if_neg (by simpa [Edge.isConst] using hc)]
    simp only [hA]
    have i' := i
    obtain ⟨Γ, leak, hl, i⟩ := i
    exact gives_run i' (Eng.substBF_spec i.wf (i.sel hS) (hS.below (i.assoc_aok hA).ok) hf hc)

theorem substitute_ok (S : E.Sound) (i : m.Inv own lk) {T} (hT : AssocDen m m.cur T) {f F}
    (lf : UTab.Live own f) (hf : Den m f F) :
    Res own lk false 0 m (m.substitute E f) (BFn.replace T F) := by
  rw [← replace_eq]
  refine api_ok S i (forall1 lf) (.one hf) (fun m1 i1 p1 es h => ?_) fun _ _ i1 r => extern_ok i1 r
  cases h with
  | cons r1 h => cases h with
    | nil =>
      obtain ⟨A, hA, hT⟩ := hT
      obtain ⟨A', hA', q⟩ := p1.assoc_eqv hA
      have hcu := p1.cur
      rw [← hcu] at hA'
      exact substRun_ok i1 hA' (q.sub (ValIs.sub hT)) r1

end Mgr
end Cal
