import Verif.Cofactor

/-!
# The function computed by `Cal_BddReduce`

The "restrict" operation: like the generalised cofactor, but a variable `F` does not depend on is
first removed from `C` by existential quantification.
-/

namespace Cal

/-- `C` with variable `v` quantified existentially -/
def BFn.some (C : BFn) (v : Nat) : BFn := fun ρ => BFn.fix C v true ρ || BFn.fix C v false ρ

open Classical in
/-- Go through the last `n` variables in order. -/
noncomputable def restrTo (o : Order) : Nat → BFn → BFn → BFn
  | 0, F, _ => F
  | n+1, F, C =>
    let v := o.indexToId (o.numVars - (n+1))
    if Indep F v then restrTo o n F (BFn.some C v)
    else if ¬ Sat (BFn.fix C v false) then restrTo o n (BFn.fix F v true) (BFn.fix C v true)
    else if ¬ Sat (BFn.fix C v true) then restrTo o n (BFn.fix F v false) (BFn.fix C v false)
    else fun ρ => if ρ v then restrTo o n (BFn.fix F v true) (BFn.fix C v true) ρ
      else restrTo o n (BFn.fix F v false) (BFn.fix C v false) ρ

/-- `F` restricted to `C`. -/
noncomputable def restrict (o : Order) (F C : BFn) : BFn := restrTo o o.numVars F C

theorem BFn.fix_at {F : BFn} {v : Nat} {b : Bool} {ρ : Asg} (h : ρ v = b) : BFn.fix F v b ρ = F ρ := by
  subst h; simp only [BFn.fix, upd_self']

theorem BFn.some_of {C : BFn} {v : Nat} {ρ : Asg} (h : C ρ = true) : BFn.some C v ρ = true := by
  simp only [BFn.some, Bool.or_eq_true]
  cases hv : ρ v
  · right; rw [BFn.fix_at hv]; exact h
  · left; rw [BFn.fix_at hv]; exact h

theorem BFn.some_indep {C : BFn} {v : Nat} (h : Indep C v) : BFn.some C v = C := by
  funext ρ; simp only [BFn.some, BFn.fix_indep h, Bool.or_self]

theorem not_sat {C : BFn} (h : ¬ Sat C) (ρ : Asg) : C ρ = false := by
  cases hc : C ρ
  · rfl
  · exact absurd ⟨ρ, hc⟩ h

/-- The result agrees with `F` on `C`. -/
theorem restrTo_in (o : Order) : ∀ (n : Nat) (F C : BFn) (ρ : Asg), C ρ = true → restrTo o n F C ρ = F ρ := by
  intro n
  induction n with
  | zero => intro F C ρ _; rfl
  | succ n ih =>
    intro F C ρ h
    simp only [restrTo]
    generalize o.indexToId (o.numVars - (n+1)) = v
    have side : ∀ b, ρ v = b → restrTo o n (BFn.fix F v b) (BFn.fix C v b) ρ = F ρ := by
      intro b hb
      rw [ih _ _ _ (by rw [BFn.fix_at hb]; exact h), BFn.fix_at hb]
    have hsat : ∀ b, ρ v = b → Sat (BFn.fix C v b) := fun b hb => ⟨ρ, by rw [BFn.fix_at hb]; exact h⟩
    split
    · exact ih _ _ _ (BFn.some_of h)
    · split
      · rename_i h0
        refine side _ ?_
        cases hv : ρ v
        · exact absurd (hsat _ hv) h0
        · rfl
      · split
        · rename_i h1
          refine side _ ?_
          cases hv : ρ v
          · rfl
          · exact absurd (hsat _ hv) h1
        · cases hv : ρ v
          · simp only [hv, Bool.false_eq_true, if_false]; exact side _ hv
          · simp only [hv, if_true]; exact side _ hv

theorem restrict_in (o : Order) {F C : BFn} {ρ : Asg} (h : C ρ = true) : restrict o F C ρ = F ρ :=
  restrTo_in o _ F C ρ h

theorem restrict_one (o : Order) (F : BFn) : restrict o F (fun _ => true) = F := by
  funext ρ; exact restrict_in o rfl

theorem restrTo_const (o : Order) (b : Bool) : ∀ (n : Nat) (C : BFn),
    restrTo o n (fun _ => b) C = fun _ => b := by
  intro n
  induction n with
  | zero => intro C; rfl
  | succ n ih =>
    intro C
    have : Indep (fun _ => b) (o.indexToId (o.numVars - (n+1))) := fun _ _ => rfl
    simp only [restrTo, this, if_true]; exact ih _

theorem restrict_const (o : Order) (C : BFn) (b : Bool) : restrict o (fun _ => b) C = fun _ => b :=
  restrTo_const o b _ C

theorem BFn.fix_indep_other {F : BFn} {u v : Nat} (h : Indep F u) (b : Bool) : Indep (BFn.fix F v b) u := by
  intro ρ c
  by_cases hne : u = v
  · subst hne; simp only [BFn.fix, upd_upd]
  · simp only [BFn.fix]; rw [upd_comm hne]; exact h _ _

theorem BFn.fix_indep_self {F : BFn} {v : Nat} (b : Bool) : Indep (BFn.fix F v b) v := by
  intro ρ c; simp only [BFn.fix, upd_upd]

theorem BFn.some_indep_other {C : BFn} {u v : Nat} (h : Indep C u) : Indep (BFn.some C v) u := by
  intro ρ c
  simp only [BFn.some]
  rw [BFn.fix_indep_other h true ρ c, BFn.fix_indep_other h false ρ c]

theorem BFn.some_indep_self {C : BFn} {v : Nat} : Indep (BFn.some C v) v := by
  intro ρ c
  simp only [BFn.some]
  rw [BFn.fix_indep_self (F := C) true ρ c, BFn.fix_indep_self (F := C) false ρ c]

/-- No variable is introduced. -/
theorem restrTo_indep (o : Order) {u : Nat} : ∀ (n : Nat) (F C : BFn), Indep F u → Indep (restrTo o n F C) u := by
  intro n
  induction n with
  | zero => intro F C h; exact h
  | succ n ih =>
    intro F C h
    simp only [restrTo]
    generalize o.indexToId (o.numVars - (n+1)) = v
    split
    · exact ih _ _ h
    · rename_i hv
      split
      · exact ih _ _ (BFn.fix_indep_other h _)
      · split
        · exact ih _ _ (BFn.fix_indep_other h _)
        · have hne : v ≠ u := by rintro rfl; exact hv h
          intro ρ c
          have h1 := ih _ (BFn.fix C v true) (BFn.fix_indep_other (v := v) h true) ρ c
          have h2 := ih _ (BFn.fix C v false) (BFn.fix_indep_other (v := v) h false) ρ c
          simp only [upd_ne _ _ hne, h1, h2]

theorem restrict_indep (o : Order) {F C : BFn} {u : Nat} (h : Indep F u) : Indep (restrict o F C) u :=
  restrTo_indep o _ F C h

/-- leading variables neither `F` nor `C` depends on -/
theorem restrTo_skip {o : Order} {F C : BFn} : ∀ (d n : Nat),
    n + d ≤ o.numVars →
    (∀ k, o.numVars - (n + d) ≤ k → k < o.numVars - n →
      Indep F (o.indexToId k) ∧ Indep C (o.indexToId k)) →
    restrTo o (n + d) F C = restrTo o n F C := by
  intro d
  induction d with
  | zero => intro n _ _; rfl
  | succ d ih =>
    intro n hn h
    have hi := h (o.numVars - (n + d + 1)) (by omega) (by omega)
    have hstep : restrTo o (n + d + 1) F C = restrTo o (n + d) F C := by
      simp only [restrTo, hi.1, if_true, BFn.some_indep hi.2]
    rw [show n + (d + 1) = n + d + 1 by omega, hstep]
    exact ih n (by omega) fun k h1 h2 => h k (by omega) h2

section
variable {o : Order} (ow : o.WF) {F C : BFn} {v : Nat} (hv : 1 ≤ v ∧ v ≤ o.numVars)
include ow hv

theorem restrict_below
    (h : ∀ u, 1 ≤ u ∧ u ≤ o.numVars → o.lvl u ≤ o.lvl v → Indep F u ∧ Indep C u) :
    restrict o F C = restrTo o (o.numVars - (o.lvl v + 1)) F C := by
  have hl := ow.lvl_lt hv.1 hv.2
  have := restrTo_skip (o := o) (F := F) (C := C) (o.lvl v + 1) (o.numVars - (o.lvl v + 1)) (by omega)
    (fun k h1 h2 => by
      have a := ow.id_range k (by omega)
      exact h _ ⟨a.1, a.2⟩ (by rw [ow.lvl_indexToId (by omega)]; omega))
  rw [show o.numVars - (o.lvl v + 1) + (o.lvl v + 1) = o.numVars by omega] at this
  exact this

open Classical in
/-- opening the first variable `F` or `C` may depend on -/
theorem restrict_open
    (h : ∀ u, 1 ≤ u ∧ u ≤ o.numVars → o.lvl u < o.lvl v → Indep F u ∧ Indep C u) :
    restrict o F C =
      if Indep F v then restrict o F (BFn.some C v)
      else if ¬ Sat (BFn.fix C v false) then restrict o (BFn.fix F v true) (BFn.fix C v true)
      else if ¬ Sat (BFn.fix C v true) then restrict o (BFn.fix F v false) (BFn.fix C v false)
      else fun ρ => if ρ v then restrict o (BFn.fix F v true) (BFn.fix C v true) ρ
        else restrict o (BFn.fix F v false) (BFn.fix C v false) ρ := by
  have hl := ow.lvl_lt hv.1 hv.2
  have hvid : o.indexToId (o.lvl v) = v := by
    have h0 : v ≠ 0 := by omega
    simp only [Order.lvl, h0, if_false]; exact ow.left v hv.1 hv.2
  have e1 := restrTo_skip (o := o) (F := F) (C := C) (o.lvl v) (o.numVars - o.lvl v) (by omega)
    (fun k h1 h2 => by
      have a := ow.id_range k (by omega)
      exact h _ ⟨a.1, a.2⟩ (by rw [ow.lvl_indexToId (by omega)]; omega))
  rw [show o.numVars - o.lvl v + o.lvl v = o.numVars by omega] at e1
  have hle : ∀ u, 1 ≤ u ∧ u ≤ o.numVars → o.lvl u ≤ o.lvl v → u ≠ v → Indep F u ∧ Indep C u := by
    intro u hu hlu hne
    refine h u hu ?_
    rcases Nat.lt_or_ge (o.lvl u) (o.lvl v) with h1 | h1
    · exact h1
    · exact absurd (ow.lvl_inj hu.1 hu.2 hv.1 hv.2 (by omega)) hne
  have efix : ∀ b, restrict o (BFn.fix F v b) (BFn.fix C v b) =
      restrTo o (o.numVars - (o.lvl v + 1)) (BFn.fix F v b) (BFn.fix C v b) := by
    intro b
    refine restrict_below ow hv fun u hu hlu => ?_
    by_cases hne : u = v
    · subst hne; exact ⟨BFn.fix_indep_self _, BFn.fix_indep_self _⟩
    · exact ⟨BFn.fix_indep_other (hle u hu hlu hne).1 _, BFn.fix_indep_other (hle u hu hlu hne).2 _⟩
  have esome : Indep F v → restrict o F (BFn.some C v) =
      restrTo o (o.numVars - (o.lvl v + 1)) F (BFn.some C v) := by
    intro hF
    refine restrict_below ow hv fun u hu hlu => ?_
    by_cases hne : u = v
    · subst hne; exact ⟨hF, BFn.some_indep_self⟩
    · exact ⟨(hle u hu hlu hne).1, BFn.some_indep_other (hle u hu hlu hne).2⟩
  have e2 : restrict o F C = restrTo o (o.numVars - (o.lvl v + 1) + 1) F C := by
    rw [show o.numVars - (o.lvl v + 1) + 1 = o.numVars - o.lvl v by omega]; exact e1
  rw [e2, efix, efix]
  obtain ⟨m, hm⟩ : ∃ m, o.numVars - (o.lvl v + 1) = m := ⟨_, rfl⟩
  rw [hm] at esome ⊢
  simp only [restrTo]
  rw [show o.numVars - (m + 1) = o.lvl v by omega, hvid]
  by_cases hF : Indep F v
  · simp only [hF, if_true]; rw [esome hF]
  · simp only [hF, if_false]

theorem restrict_some (hF : Indep F v)
    (h : ∀ u, 1 ≤ u ∧ u ≤ o.numVars → o.lvl u < o.lvl v → Indep F u ∧ Indep C u) :
    restrict o F C = restrict o F (BFn.some C v) := by
  rw [restrict_open ow hv h, if_pos hF]
end

theorem sat_some {C : BFn} {v : Nat} (h : Sat C) : Sat (BFn.some C v) := by
  obtain ⟨ρ, h⟩ := h; exact ⟨ρ, BFn.some_of h⟩

end Cal
