import Verif.Props27

/-!
# Associations give back their memory when they are no longer used

`C72_quit_partial` speaks of the end of a manager. An association gives back its memory before: when it has been quit as
often as it was initialised (calAssociation.c:85-183, 189-220).
-/

namespace Cal.Ledger

/-- `s` with one more association, at position `i`. -/
def Mgr.withAssoc (s : Mgr) (i : Nat) (a : As) : Mgr := { s with assocs := s.assocs.take i ++ a :: s.assocs.drop i }

theorem Mgr.withAssoc_get {s : Mgr} {i : Nat} (hi : i ≤ s.assocs.length) (a : As) :
    (s.withAssoc i a).assocs[i]? = some a := by
  show (s.assocs.take i ++ a :: s.assocs.drop i)[i]? = _
  rw [List.getElem?_append_right (by rw [List.length_take]; omega), List.length_take, Nat.min_eq_left hi, Nat.sub_self]
  rfl

theorem Mgr.withAssoc_set {s : Mgr} {i : Nat} (hi : i ≤ s.assocs.length) (a b : As) :
    { s.withAssoc i a with assocs := (s.withAssoc i a).assocs.set i b } = s.withAssoc i b := by
  show ({ s with assocs := (s.assocs.take i ++ a :: s.assocs.drop i).set i b } : Mgr) = _
  rw [List.set_append_right _ _ (by rw [List.length_take]; omega), List.length_take, Nat.min_eq_left hi, Nat.sub_self]
  rfl

theorem Mgr.withAssoc_erase {s : Mgr} {i : Nat} (hi : i ≤ s.assocs.length) (a : As) :
    { s.withAssoc i a with assocs := (s.withAssoc i a).assocs.eraseIdx i } = s := by
  show ({ s with assocs := (s.assocs.take i ++ a :: s.assocs.drop i).eraseIdx i } : Mgr) = _
  rw [List.eraseIdx_append_of_length_le (by rw [List.length_take]; omega), List.length_take, Nat.min_eq_left hi,
    Nat.sub_self]
  show ({ s with assocs := s.assocs.take i ++ s.assocs.drop i } : Mgr) = _
  rw [List.take_append_drop]

theorem Mgr.withAssoc_own (s : Mgr) (i : Nat) (a : As) (q : Nat) : (s.withAssoc i a).own q = s.own q + a.own q := by
  have := sum_take_drop As.own i s.assocs q
  simp only [Mgr.withAssoc, Mgr.own, sum_append, sum_cons] at this ⊢
  omega

theorem Mgr.assocNew_does (s : Mgr) (i : Nat) :
    Does (s.assocInit false i) s.own (fun t => ∃ self va, t = s.withAssoc i ⟨self, va, 1⟩) Mgr.own := by
  unfold Mgr.assocInit
  refine Does.call malloc_ok (fun _ => Nat.zero_le _) fun info _ => ?_
  refine Does.call malloc_ok (fun _ => Nat.zero_le _) fun va _ => ?_
  simp only [Bool.false_eq_true, if_false]
  refine Does.call malloc_ok (fun _ => Nat.zero_le _) fun self _ => ?_
  refine Does.call (free_ok _) (fun q => by omega) fun _ _ => ?_
  refine Does.ret ⟨self, va, rfl⟩ fun q => ?_
  have := s.withAssoc_own i ⟨self, va, 1⟩ q
  simp only [Mgr.withAssoc, As.own] at this ⊢
  omega

theorem Mgr.assocOld_does {s : Mgr} {i : Nat} (hi : i ≤ s.assocs.length) (self va r : Nat) :
    Does ((s.withAssoc i ⟨self, va, r⟩).assocInit true i) (s.withAssoc i ⟨self, va, r⟩).own
      (fun t => t = s.withAssoc i ⟨self, va, r + 1⟩) Mgr.own := by
  unfold Mgr.assocInit
  refine Does.call malloc_ok (fun _ => Nat.zero_le _) fun info _ => ?_
  refine Does.call malloc_ok (fun _ => Nat.zero_le _) fun va' _ => ?_
  simp only [if_true, Mgr.withAssoc_get hi]
  refine Does.call (free_ok _) (fun q => by omega) fun _ _ => ?_
  refine Does.call (free_ok _) (fun q => by omega) fun _ _ => ?_
  refine Does.ret (Mgr.withAssoc_set hi _ _) fun q => ?_
  rw [Mgr.withAssoc_set hi, Mgr.withAssoc_own, Mgr.withAssoc_own]
  simp only [As.own]
  omega

theorem Mgr.assocLess_does {s : Mgr} {i : Nat} (hi : i ≤ s.assocs.length) (self va r : Nat) :
    Does ((s.withAssoc i ⟨self, va, r + 2⟩).assocQuit i) (s.withAssoc i ⟨self, va, r + 2⟩).own
      (fun t => t = s.withAssoc i ⟨self, va, r + 1⟩) Mgr.own := by
  unfold Mgr.assocQuit
  rw [Mgr.withAssoc_get hi]
  have : ¬ r + 2 - 1 = 0 := by omega
  simp only [if_neg this]
  refine Does.ret (Mgr.withAssoc_set hi _ _) fun q => ?_
  rw [Mgr.withAssoc_set hi, Mgr.withAssoc_own, Mgr.withAssoc_own]
  simp only [As.own]

theorem Mgr.assocLast_does {s : Mgr} {i : Nat} (hi : i ≤ s.assocs.length) (self va : Nat) :
    Does ((s.withAssoc i ⟨self, va, 1⟩).assocQuit i) (s.withAssoc i ⟨self, va, 1⟩).own (fun t => t = s) Mgr.own := by
  unfold Mgr.assocQuit
  rw [Mgr.withAssoc_get hi]
  simp only [Nat.sub_self, if_true]
  have ow := s.withAssoc_own i ⟨self, va, 1⟩
  simp only [As.own] at ow
  refine Does.use (fun q => by rw [ow]; omega) ?_
  refine Does.call (free_ok _) (fun q => by rw [ow]; omega) fun _ _ => ?_
  refine Does.call (free_ok _) (fun q => by rw [ow]; omega) fun _ _ => ?_
  refine Does.ret (Mgr.withAssoc_erase hi _) fun q => ?_
  rw [Mgr.withAssoc_erase hi, ow]
  omega

/-- Going on after a list of calls. -/
theorem Call.runs_append (cs ds : List Call) (s : Mgr) (os : Os) (h : Heap) :
    Call.runs s (cs ++ ds) os h = M.bind (Call.runs s cs) (fun t => Call.runs t ds) os h := by
  induction cs generalizing s h with
  | nil => rfl
  | cons c cs ih =>
    show M.bind (c.run s) (fun t => Call.runs t (cs ++ ds)) os h = M.bind (M.bind (c.run s) fun t => Call.runs t cs) _ os h
    simp only [M.bind]
    cases c.run s os h with
    | none => rfl
    | some r => exact ih r.1 r.2

theorem Call.inits_does {s : Mgr} {i : Nat} (hi : i ≤ s.assocs.length) (self va : Nat) : ∀ k r,
    Does (Call.runs (s.withAssoc i ⟨self, va, r⟩) (List.replicate k (.assocInit true i))) (s.withAssoc i ⟨self, va, r⟩).own
      (fun t => t = s.withAssoc i ⟨self, va, r + k⟩) Mgr.own
  | 0, _ => Does.ret rfl fun _ => rfl
  | k + 1, r => by
    refine Does.call (Mgr.assocOld_does hi self va r) (fun _ => Nat.le_refl _) fun t ht => ?_
    subst ht
    exact (Call.inits_does hi self va k (r + 1)).weaken (fun q => by omega)
      (fun t ht => by rw [ht, Nat.add_assoc, Nat.add_comm 1 k]) (fun _ _ _ => rfl)

theorem Call.quits_does {s : Mgr} {i : Nat} (hi : i ≤ s.assocs.length) (self va : Nat) : ∀ k,
    Does (Call.runs (s.withAssoc i ⟨self, va, k + 1⟩) (List.replicate (k + 1) (.assocQuit i)))
      (s.withAssoc i ⟨self, va, k + 1⟩).own (fun t => t = s) Mgr.own
  | 0 => by
    refine Does.call (Mgr.assocLast_does hi self va) (fun _ => Nat.le_refl _) fun t ht => ?_
    subst ht
    exact Does.ret rfl fun q => by simp only [Nat.zero_add]; omega
  | k + 1 => by
    refine Does.call (Mgr.assocLess_does hi self va k) (fun _ => Nat.le_refl _) fun t ht => ?_
    subst ht
    exact (Call.quits_does hi self va k).weaken (fun q => by rw [show k + 1 + 1 = k + 2 from rfl]; omega) (fun _ h => h) (fun _ _ _ => rfl)

/-- **C72, associations.** After any calls, an association is made (at any place in the list of associations), initialised
`k` more times and quit `k + 1` times. Then the manager is as before and the blocks allocated are those that were
allocated before the association was made: nothing is left of it, and nothing else was freed. -/
theorem C72_assoc (os : Os) (h h1 : Heap) (h0 : 0 ∉ h.live) (n1 n2 : Nat) (cs : List Call) (s : Mgr)
    (run : (do let s ← Mgr.init n1 n2; Call.runs s cs : M Mgr) os h = some (s, h1))
    (i : Nat) (hi : i ≤ s.assocs.length) (k : Nat) :
    ∃ h2, Call.runs s (.assocInit false i :: (List.replicate k (.assocInit true i) ++
        List.replicate (k + 1) (.assocQuit i))) os h1 = some (s, h2) ∧ ∀ a, h2.live.count a = h1.live.count a := by
  have start : Does (do let s ← Mgr.init n1 n2; Call.runs s cs : M Mgr) (fun _ => 0) (fun _ => True) Mgr.own := by
    refine Does.call (Mgr.init_ok n1 n2) (fun _ => Nat.le_refl _) fun t ht => ?_
    exact (Call.runs_ok cs t ht.1).weaken (fun q => by omega) (fun _ _ => trivial) (fun _ _ _ => rfl)
  obtain ⟨s', h1', e, c, z, -⟩ := start os h (fun p => h.live.count p) (fun p => by simp) h0
  rw [run] at e; cases e
  obtain ⟨t1, g1, e1, c1, z1, self, va, rfl⟩ := Mgr.assocNew_does s i os h1 _ c z
  obtain ⟨t2, g2, e2, c2, z2, rfl⟩ := Call.inits_does hi self va k 1 os g1 _ c1 z1
  rw [Nat.add_comm 1 k] at e2 c2
  obtain ⟨t3, g3, e3, c3, z3, rfl⟩ := Call.quits_does hi self va k os g2 _ c2 z2
  refine ⟨g3, ?_, fun a => by rw [c3, c]⟩
  show M.bind (t3.assocInit false i) (fun t => Call.runs t _) os h1 = _
  simp only [M.bind, e1]
  rw [Call.runs_append]
  simp only [M.bind, e2, e3]

/-- An instance: after two associations have been made, a third one between them is initialised twice. It takes two blocks,
which are there until it has been quit twice. -/
example : (List.map (fun cs => ((do let s ← Mgr.init 5 5; Call.runs s cs : M Mgr) Os.next ⟨[], 0⟩).map
      fun r => (r.1.assocs.length, r.2.live.length)) (let p : List Call := [.newVar 5 none, .assocInit false 0, .assocInit false 1]
      [p, p ++ [.assocInit false 1, .assocInit true 1], p ++ [.assocInit false 1, .assocInit true 1, .assocQuit 1],
        p ++ [.assocInit false 1, .assocInit true 1, .assocQuit 1, .assocQuit 1]])) =
      [some (2, 63), some (3, 65), some (3, 65), some (2, 63)] := by decide +kernel

end Cal.Ledger
