import Verif.Sem

/-!
# Specifications of the operations on Boolean functions

Independent of the data structures: everything here is about functions of assignments.
-/

namespace Cal

open Classical in
/-- `∃ V. F`: some assignment that differs from `ρ` only on variables of `V` satisfies `F`. -/
noncomputable def exFn (V : Nat → Prop) (F : BFn) : BFn :=
  fun ρ => decide (∃ σ : Asg, (∀ v, ¬ V v → σ v = ρ v) ∧ F σ = true)

open Classical in
/-- `∀ V. F`: every assignment that differs from `ρ` only on variables of `V` satisfies `F`. -/
noncomputable def allFn (V : Nat → Prop) (F : BFn) : BFn :=
  fun ρ => decide (∀ σ : Asg, (∀ v, ¬ V v → σ v = ρ v) → F σ = true)

/-- Simultaneous substitution of functions for variables. -/
def substFn (S : Nat → BFn) (F : BFn) : BFn := fun ρ => F (fun v => S v ρ)

theorem exFn_iff {V : Nat → Prop} {F : BFn} {ρ : Asg} :
    exFn V F ρ = true ↔ ∃ σ : Asg, (∀ v, ¬ V v → σ v = ρ v) ∧ F σ = true := by
  simp [exFn]

theorem allFn_iff {V : Nat → Prop} {F : BFn} {ρ : Asg} :
    allFn V F ρ = true ↔ ∀ σ : Asg, (∀ v, ¬ V v → σ v = ρ v) → F σ = true := by
  simp [allFn]

theorem allFn_eq (V : Nat → Prop) (F : BFn) :
    allFn V F = fun ρ => !exFn V (fun ρ => !F ρ) ρ := by
  funext ρ
  rw [Bool.eq_iff_iff, allFn_iff, Bool.not_eq_true', ← Bool.not_eq_true, exFn_iff]
  constructor
  · rintro h ⟨σ, h1, h2⟩; have := h σ h1; rw [this] at h2; cases h2
  · intro h σ h1
    cases h2 : F σ
    · exact absurd ⟨σ, h1, by simp [h2]⟩ h
    · rfl

/-- Quantifying a variable: the disjunction of the two cofactors. -/
theorem exFn_split {V : Nat → Prop} {v} (hv : V v) {F F1 F2 : BFn}
    (hF : ∀ ρ, F ρ = if ρ v then F1 ρ else F2 ρ) (h1 : Indep F1 v) (h2 : Indep F2 v) :
    exFn V F = fun ρ => exFn V F1 ρ || exFn V F2 ρ := by
  funext ρ
  rw [Bool.eq_iff_iff, Bool.or_eq_true, exFn_iff, exFn_iff, exFn_iff]
  constructor
  · rintro ⟨σ, ha, hs⟩
    rw [hF] at hs
    by_cases hr : σ v = true
    · left; exact ⟨σ, ha, by simpa [hr] using hs⟩
    · right; exact ⟨σ, ha, by simpa [hr] using hs⟩
  · have agree : ∀ (σ : Asg) c, (∀ u, ¬ V u → σ u = ρ u) → ∀ u, ¬ V u → upd σ v c u = ρ u := by
      intro σ c ha u hu
      have : u ≠ v := by rintro rfl; exact hu hv
      rw [upd_ne _ _ this]; exact ha u hu
    rintro (⟨σ, ha, hs⟩ | ⟨σ, ha, hs⟩)
    · exact ⟨upd σ v true, agree σ _ ha, by rw [hF]; simp [h1 σ true, hs]⟩
    · exact ⟨upd σ v false, agree σ _ ha, by rw [hF]; simp [h2 σ false, hs]⟩

/-- Quantification below a variable that is not quantified. -/
theorem exFn_node {V : Nat → Prop} {v} (hv : ¬ V v) {F F1 F2 : BFn}
    (hF : ∀ ρ, F ρ = if ρ v then F1 ρ else F2 ρ) :
    exFn V F = fun ρ => if ρ v then exFn V F1 ρ else exFn V F2 ρ := by
  funext ρ
  rw [Bool.eq_iff_iff, exFn_iff]
  by_cases hr : ρ v = true
  · simp only [hr, if_true]
    rw [exFn_iff]
    constructor
    · rintro ⟨σ, ha, hs⟩
      exact ⟨σ, ha, by rw [hF] at hs; simpa [ha v hv, hr] using hs⟩
    · rintro ⟨σ, ha, hs⟩
      exact ⟨σ, ha, by rw [hF]; simpa [ha v hv, hr] using hs⟩
  · simp only [hr]
    rw [if_neg (by simp), exFn_iff]
    constructor
    · rintro ⟨σ, ha, hs⟩
      exact ⟨σ, ha, by rw [hF] at hs; simpa [ha v hv, hr] using hs⟩
    · rintro ⟨σ, ha, hs⟩
      exact ⟨σ, ha, by rw [hF]; simpa [ha v hv, hr] using hs⟩

/-- If `F` does not change on `V`, quantification does nothing. -/
theorem exFn_id {V : Nat → Prop} {F : BFn}
    (h : ∀ ρ σ : Asg, (∀ v, ¬ V v → σ v = ρ v) → F σ = F ρ) : exFn V F = F := by
  funext ρ
  rw [Bool.eq_iff_iff, exFn_iff]
  constructor
  · rintro ⟨σ, ha, hs⟩; rw [← h ρ σ ha]; exact hs
  · intro hs; exact ⟨ρ, fun _ _ => rfl, hs⟩

theorem exFn_false (V : Nat → Prop) : exFn V (fun _ => false) = fun _ => false :=
  exFn_id (fun _ _ _ => rfl)
theorem exFn_true (V : Nat → Prop) : exFn V (fun _ => true) = fun _ => true :=
  exFn_id (fun _ _ _ => rfl)

theorem exFn_indep {V : Nat → Prop} {v} (hv : V v) {F : BFn} : Indep (exFn V F) v := by
  intro ρ c
  rw [Bool.eq_iff_iff, exFn_iff, exFn_iff]
  constructor
  · rintro ⟨σ, ha, hs⟩
    refine ⟨σ, fun u hu => ?_, hs⟩
    have : u ≠ v := by rintro rfl; exact hu hv
    rw [ha u hu, upd_ne _ _ this]
  · rintro ⟨σ, ha, hs⟩
    refine ⟨σ, fun u hu => ?_, hs⟩
    have : u ≠ v := by rintro rfl; exact hu hv
    rw [ha u hu, upd_ne _ _ this]

theorem exFn_indep' {V : Nat → Prop} {v} {F : BFn} (h : Indep F v) : Indep (exFn V F) v := by
  by_cases hv : V v
  · exact exFn_indep hv
  · intro ρ c
    rw [Bool.eq_iff_iff, exFn_iff, exFn_iff]
    constructor
    · rintro ⟨σ, ha, hs⟩
      refine ⟨upd σ v (ρ v), fun u hu => ?_, by rw [h]; exact hs⟩
      by_cases huv : u = v
      · subst huv; simp
      · rw [upd_ne _ _ huv, ha u hu, upd_ne _ _ huv]
    · rintro ⟨σ, ha, hs⟩
      refine ⟨upd σ v c, fun u hu => ?_, by rw [h]; exact hs⟩
      by_cases huv : u = v
      · subst huv; simp
      · rw [upd_ne _ _ huv, ha u hu, upd_ne _ _ huv]

end Cal
