import Verif.Subfn

/-!
# Support and dependence (calBddSupport.c)

These traversals use one mark bit per node (bit 2 of the pointer to the then child,
calInt.h:1181-1196). As in `Verif.Walk` the marks are a local array, clear before and after.
-/

namespace Cal

/-! ## The code -/

/-- `CalBddSupportStep` (calBddSupport.c:136-158). The list is what is appended to the array
`support`. -/
def supportStep (s : Store) (vars : Nat → Option Edge) :
    Nat → (Nat → Bool) → Edge → Option (List Edge × (Nat → Bool))
  | 0, _, _ => none
  | k + 1, M, f =>
    if M f.addr || f.isConst then some ([], M)
    else
      match vars f.id, s.kids f with
      | some v, some (t, e) =>
        let new := if M v.addr then [] else [v]
        let M := if M v.addr then M else upd M v.addr true
        let M := upd M f.addr true
        match supportStep s vars k M t with
        | none => none
        | some (l1, M1) =>
          match supportStep s vars k M1 e with
          | none => none
          | some (l2, M2) => some (new ++ (l1 ++ l2), M2)
      | _, _ => none

/-- `CalBddUnmarkNodes` (calBddSupport.c:164-181) -/
def unmarkNodes (s : Store) (vars : Nat → Option Edge) :
    Nat → (Nat → Bool) → Edge → Option (Nat → Bool)
  | 0, _, _ => none
  | k + 1, M, f =>
    if !M f.addr || f.isConst then some M
    else
      let M := upd M f.addr false
      match vars f.id, s.kids f with
      | some v, some (t, e) =>
        let M := upd M v.addr false
        match unmarkNodes s vars k M t with
        | none => none
        | some M1 => unmarkNodes s vars k M1 e
      | _, _ => none

/-- `CalBddDependsOnStep` (calBddSupport.c:186-218) -/
def dependsOnStep (s : Store) (varIndex : Nat) (mark : Bool) :
    Nat → (Nat → Bool) → Edge → Option (Bool × (Nat → Bool))
  | 0, _, _ => none
  | k + 1, M, f =>
    if s.elvl f > varIndex then some (false, M)
    else if s.elvl f = varIndex then some (true, M)
    else if (mark && M f.addr) || (!mark && !M f.addr) then some (false, M)
    else
      let M := upd M f.addr mark
      match s.kids f with
      | none => none
      | some (t, e) =>
        match dependsOnStep s varIndex mark k M t with
        | none => none
        | some (true, M1) => some (true, M1)
        | some (false, M1) => dependsOnStep s varIndex mark k M1 e

/-- The two passes of `Cal_BddDependsOn` (calBddSupport.c:119-120), with the marks on entry and
exit. -/
def dependsOnOf (s : Store) (varIndex : Nat) (M : Nat → Bool) (f : Edge) : Option (Bool × (Nat → Bool)) :=
  match dependsOnStep s varIndex true (s.ord.numVars + 1) M f with
  | none => none
  | some (_, M1) => dependsOnStep s varIndex false (s.ord.numVars + 1) M1 f

/-- The two passes of `Cal_BddSupport` (calBddSupport.c:89-91), with the marks on entry and exit. The
array has `numVars + 1` entries, one of them for the terminating null; writing beyond it is
`none`. -/
def supportOf (s : Store) (vars : Nat → Option Edge) (M : Nat → Bool) (f : Edge) :
    Option (List Edge × (Nat → Bool)) :=
  match supportStep s vars (s.ord.numVars + 1) M f with
  | none => none
  | some (l, M1) =>
    if s.ord.numVars < l.length then none
    else
      match unmarkNodes s vars (s.ord.numVars + 1) M1 f with
      | none => none
      | some M2 => some (l, M2)

/-! ## Dependence and the nodes below -/

variable {s : Store}

theorem restr_indep {o : Order} {k ρ F v} (h : Indep F v) : Indep (restr o k ρ F) v := by
  intro σ b
  unfold restr
  by_cases hc : 1 ≤ v ∧ v ≤ o.numVars ∧ o.idToIndex v < k
  · congr 1
    funext x
    by_cases hx : x = v
    · subst hx; rw [if_pos hc, if_pos hc]
    · rw [upd_ne _ _ hx]
  · rw [← h (fun x => if 1 ≤ x ∧ x ≤ o.numVars ∧ o.idToIndex x < k then ρ x else σ x) b]
    congr 1
    funext x
    by_cases hx : x = v
    · subst hx; rw [if_neg hc, upd_same, upd_same]
    · rw [upd_ne _ _ hx, upd_ne _ _ hx]

/-- A function depends on the variables that label the nodes below it, and on no others. -/
theorem depends_iff (w : s.WF) {v : Nat} : ∀ n {e F}, Rep s e F →
    s.ord.numVars + 1 ≤ n + s.ord.lvl e.id → v ≠ 0 →
    ((∃ x, Below s e x ∧ x.id = v) ↔ ¬ Indep F v) := by
  intro n e F r hn hv
  constructor
  · rintro ⟨x, hb, rfl⟩ hi
    obtain ⟨G, rx⟩ := hb.rep w r
    obtain ⟨ρ, h⟩ := hb.restr w r rx
    exact rx.dep w hv (h ▸ restr_indep hi)
  · intro hd
    apply Classical.byContradiction
    intro hx
    apply hd
    clear hd
    induction n generalizing e F with
    | zero =>
      by_cases hc : e.id = 0
      · rcases (r.const_iff w).1 hc with h | h <;> rw [h] <;> exact fun _ _ => rfl
      · have := r.eok.lvl_lt w hc; omega
    | succ n ih =>
      by_cases hc : e.id = 0
      · rcases (r.const_iff w).1 hc with h | h <;> rw [h] <;> exact fun _ _ => rfl
      obtain ⟨t, u, hk, rt, ru, l1, l2, -⟩ := r.kids w hc
      have i1 := ih rt (by omega) fun ⟨x, hb, e⟩ => hx ⟨x, .thn hk hb, e⟩
      have i2 := ih ru (by omega) fun ⟨x, hb, e⟩ => hx ⟨x, .els hk hb, e⟩
      have hne : e.id ≠ v := fun h => hx ⟨e, .refl _, h⟩
      intro σ b
      have hs : ∀ (τ : Asg) c, τ e.id = c → upd τ e.id c = τ := by
        rintro τ c rfl
        funext x
        by_cases h : x = e.id
        · rw [h, upd_same]
        · rw [upd_ne _ _ h]
      cases hc : σ e.id
      · have := i2 σ b
        simp only at this
        rw [hs σ _ hc, hs (upd σ v b) _ (by rw [upd_ne _ _ hne, hc])] at this
        exact this
      · have := i1 σ b
        simp only at this
        rw [hs σ _ hc, hs (upd σ v b) _ (by rw [upd_ne _ _ hne, hc])] at this
        exact this

/-! ## `Cal_BddDependsOn` -/

/-- An edge is dealt with: it lies below the variable, or above it and marked. -/
def Done (s : Store) (i : Nat) (M : Nat → Bool) (x : Edge) : Prop :=
  i < s.ord.lvl x.id ∨ (s.ord.lvl x.id < i ∧ M x.addr = true)

theorem dependsOnStep_ok (w : s.WF) (i : Nat) (hi : i < s.ord.numVars) : ∀ k {f : Edge} {M}, s.EOK f →
    1 ≤ k → s.ord.numVars + 1 ≤ k + s.ord.lvl f.id → ∃ b M', dependsOnStep s i true k M f = some (b, M') ∧
      (∀ a, M a = true → M' a = true) ∧
      (b = true → ∃ x, Below s f x ∧ s.ord.lvl x.id = i) ∧
      (b = false → Done s i M' f ∧ ∀ x t u, s.EOK x → M x.addr = false → M' x.addr = true →
        s.kids x = some (t, u) → Done s i M' t ∧ Done s i M' u) := by
  intro k
  induction k with
  | zero => intro f M _ h; omega
  | succ k ih =>
    intro f M hf _ hk
    unfold dependsOnStep
    simp only [Store.elvl]
    by_cases h1 : s.ord.lvl f.id > i
    · rw [if_pos h1]
      exact ⟨_, _, rfl, fun _ h => h, by simp, fun _ => ⟨Or.inl h1, fun x t u _ h h' => by simp_all⟩⟩
    rw [if_neg h1]
    by_cases h2 : s.ord.lvl f.id = i
    · rw [if_pos h2]
      exact ⟨_, _, rfl, fun _ h => h, fun _ => ⟨f, .refl _, h2⟩, by simp⟩
    rw [if_neg h2]
    simp only [Bool.true_and, Bool.not_true, Bool.false_and, Bool.or_false]
    by_cases h3 : M f.addr = true
    · rw [if_pos h3]
      exact ⟨_, _, rfl, fun _ h => h, by simp,
        fun _ => ⟨Or.inr ⟨by omega, h3⟩, fun x t u _ h h' => by simp_all⟩⟩
    rw [if_neg h3]
    have hc : f.id ≠ 0 := by
      intro h
      rw [h, Order.lvl_zero] at h1
      have := w.ord.bound
      omega
    obtain ⟨t, u, hkid, ht, hu, l1, l2⟩ := kids_spec w hf hc
    rw [hkid]
    simp only
    have hmono1 : ∀ a, M a = true → upd M f.addr true a = true := by
      intro a ha
      by_cases h : a = f.addr
      · rw [h, upd_same]
      · rw [upd_ne _ _ h]; exact ha
    obtain ⟨b1, M1, e1, m1, t1, f1⟩ := ih (M := upd M f.addr true) ht (by omega) (by omega)
    rw [e1]
    cases b1 with
    | true =>
      obtain ⟨x, hb, hx⟩ := t1 rfl
      exact ⟨_, _, rfl, fun a ha => m1 a (hmono1 a ha), fun _ => ⟨x, .thn hkid hb, hx⟩, by simp⟩
    | false =>
      obtain ⟨d1, c1⟩ := f1 rfl
      obtain ⟨b2, M2, e2, m2, t2, f2⟩ := ih (M := M1) hu (by omega) (by omega)
      refine ⟨b2, M2, e2, fun a ha => m2 a (m1 a (hmono1 a ha)), ?_, ?_⟩
      · intro h
        obtain ⟨x, hb, hx⟩ := t2 h
        exact ⟨x, .els hkid hb, hx⟩
      · intro h
        obtain ⟨d2, c2⟩ := f2 h
        have up : ∀ {x}, Done s i M1 x → Done s i M2 x := by
          rintro x (h | ⟨h, h'⟩)
          · exact Or.inl h
          · exact Or.inr ⟨h, m2 _ h'⟩
        refine ⟨Or.inr ⟨by omega, m2 _ (m1 _ (by rw [upd_same]))⟩, ?_⟩
        intro x t' u' hx hm hm' hk'
        by_cases hxf : x.addr = f.addr
        · have hkx : t'.id = t.id ∧ t'.addr = t.addr ∧ u'.id = u.id ∧ u'.addr = u.addr := by
            obtain ⟨n, hn, rfl, rfl⟩ := kids_node hkid
            obtain ⟨n', hn', rfl, rfl⟩ := kids_node hk'
            rw [hxf, hn] at hn'
            cases hn'
            exact ⟨rfl, rfl, rfl, rfl⟩
          have dt := up d1
          unfold Done at *
          rw [hkx.1, hkx.2.1, hkx.2.2.1, hkx.2.2.2]
          exact ⟨dt, d2⟩
        · by_cases hm1 : M1 x.addr = true
          · obtain ⟨a1, a2⟩ := c1 x t' u' hx (by rw [upd_ne _ _ hxf]; exact hm) hm1 hk'
            exact ⟨up a1, up a2⟩
          · exact c2 x t' u' hx (by simpa using hm1) hm' hk'

/-- The second pass undoes the marks of the first and gives the same answer. -/
theorem dependsOnStep_undo (i : Nat) (T : Nat → Bool) : ∀ k {f : Edge} {M b M'},
    dependsOnStep s i true k M f = some (b, M') → (∀ a, M' a = true → T a = true) →
    (∀ a, M a = true → M' a = true) ∧
    dependsOnStep s i false k (fun a => T a && !M a) f = some (b, fun a => T a && !M' a) := by
  intro k
  induction k with
  | zero => intro f M b M' h; cases h
  | succ k ih =>
    intro f M b M' h hT
    unfold dependsOnStep at h ⊢
    by_cases h1 : s.elvl f > i
    · rw [if_pos h1] at h ⊢; cases h; exact ⟨fun _ h => h, rfl⟩
    rw [if_neg h1] at h ⊢
    by_cases h2 : s.elvl f = i
    · rw [if_pos h2] at h ⊢; cases h; exact ⟨fun _ h => h, rfl⟩
    rw [if_neg h2] at h ⊢
    simp only [Bool.true_and, Bool.not_true, Bool.false_and, Bool.or_false, Bool.not_false,
      Bool.false_or] at h ⊢
    by_cases h3 : M f.addr = true
    · rw [if_pos h3] at h
      cases h
      rw [if_pos (by simp [h3])]
      exact ⟨fun _ h => h, rfl⟩
    rw [if_neg h3] at h
    have h3' : M f.addr = false := by simpa using h3
    cases hk : s.kids f with
    | none => rw [hk] at h; cases h
    | some p =>
      rw [hk] at h
      simp only at h ⊢
      have hmono : ∀ a, M a = true → upd M f.addr true a = true := by
        intro a ha
        by_cases h : a = f.addr
        · rw [h, upd_same]
        · rw [upd_ne _ _ h]; exact ha
      have hupd : (fun a => T a && !upd M f.addr true a) = upd (fun a => T a && !M a) f.addr false := by
        funext a
        by_cases h : a = f.addr
        · subst h; rw [upd_same, upd_same]; simp
        · rw [upd_ne _ _ h, upd_ne _ _ h]
      cases hd : dependsOnStep s i true k (upd M f.addr true) p.1 with
      | none => rw [hd] at h; cases h
      | some q =>
        obtain ⟨b1, M1⟩ := q
        rw [hd] at h
        cases b1 with
        | true =>
          simp only [Option.some.injEq, Prod.mk.injEq] at h
          obtain ⟨rfl, rfl⟩ := h
          obtain ⟨m1, e1⟩ := ih hd hT
          have hTf : T f.addr = true := hT _ (m1 _ (by rw [upd_same]))
          rw [if_neg (by simp [h3', hTf]), ← hupd, e1]
          exact ⟨fun a ha => m1 a (hmono a ha), rfl⟩
        | false =>
          simp only at h
          obtain ⟨m2, e2⟩ := ih h hT
          obtain ⟨m1, e1⟩ := ih hd (fun a ha => hT a (m2 a ha))
          have hTf : T f.addr = true := hT _ (m2 _ (m1 _ (by rw [upd_same])))
          rw [if_neg (by simp [h3', hTf]), ← hupd, e1]
          exact ⟨fun a ha => m2 a (m1 a (hmono a ha)), e2⟩

/-- `Cal_BddDependsOn`: exact, and all marks are clear afterwards. -/
theorem dependsOnOf_ok (w : s.WF) {f F} (r : Rep s f F) {v : Nat} (hv : 1 ≤ v ∧ v ≤ s.ord.numVars) :
    ∃ b, dependsOnOf s (s.ord.idToIndex v) (fun _ => false) f = some (b, fun _ => false) ∧
      (b = true ↔ ¬ Indep F v) := by
  have hi := w.ord.idx_lt v hv.1 hv.2
  obtain ⟨b, M, h1, -, ht, hf⟩ := dependsOnStep_ok w _ hi (s.ord.numVars + 1) (M := fun _ => false) r.eok
    (by omega) (by omega)
  obtain ⟨-, h2⟩ := dependsOnStep_undo _ M _ h1 fun _ h => h
  refine ⟨b, ?_, ?_⟩
  · unfold dependsOnOf
    rw [h1]
    simp only
    have e1 : (fun a => M a && !false) = M := by funext a; simp
    have e2 : (fun a => M a && !M a) = fun _ => false := by funext a; simp
    rw [e1, e2] at h2
    exact h2
  · rw [← depends_iff w _ r (Nat.le_add_right _ _) (by omega)]
    constructor
    · intro hb
      obtain ⟨x, hx, e⟩ := ht hb
      refine ⟨x, hx, ?_⟩
      have hc : x.id ≠ 0 := by
        intro h
        rw [h, Order.lvl_zero] at e
        have := w.ord.bound
        omega
      obtain ⟨a1, a2, a3⟩ := in_range w (hx.eok w r.eok) hc
      rw [a3] at e
      rw [← w.ord.left _ a1 a2, e, w.ord.left _ hv.1 hv.2]
    · rintro ⟨x, hx, rfl⟩
      cases b with
      | true => rfl
      | false =>
        exfalso
        obtain ⟨d, c⟩ := hf rfl
        have key : ∀ {e x : Edge} {i}, Below s e x → s.EOK e → Done s i M e →
            (∀ y t u, s.EOK y → (fun _ : Nat => false) y.addr = false → M y.addr = true →
              s.kids y = some (t, u) → Done s i M t ∧ Done s i M u) → s.ord.lvl x.id ≠ i := by
          intro e x i hb he hd hc
          induction hb with
          | refl =>
            rcases hd with h | ⟨h, -⟩ <;> omega
          | @thn e t u x hk b ih =>
            rcases hd with h | ⟨h, hm⟩
            · have := (Below.thn hk b).lvl_le w he; omega
            · exact ih ((Below.thn hk (.refl _)).eok w he) (hc e t u he rfl hm hk).1
          | @els e t u x hk b ih =>
            rcases hd with h | ⟨h, hm⟩
            · have := (Below.els hk b).lvl_le w he; omega
            · exact ih ((Below.els hk (.refl _)).eok w he) (hc e t u he rfl hm hk).2
        exact key hx r.eok d c (by simp [Order.lvl, show x.id ≠ 0 by omega])

/-! ## `Cal_BddSupport` -/

/-- `varBdds` holds the nodes of the variables. -/
def VarsOK (s : Store) (vars : Nat → Option Edge) : Prop :=
  ∀ v, 1 ≤ v → v ≤ s.ord.numVars → ∃ a, vars v = some ⟨v, a, false⟩ ∧ s.heap a = some ⟨v, one, zero⟩

/-- marked, or a constant -/
def MarkedC (M : Nat → Bool) (x : Edge) : Prop := x.id = 0 ∨ M x.addr = true

/-- What `CalBddSupportStep` (calBddSupport.c:136-158) does. -/
structure SupOk (s : Store) (vars : Nat → Option Edge) (f : Edge) (M : Nat → Bool) (l : List Edge)
    (M' : Nat → Bool) : Prop where
  mono : ∀ a, M a = true → M' a = true
  self : MarkedC M' f
  /-- newly marked nodes have their children and the node of their variable marked -/
  closed : ∀ a n, M a = false → M' a = true → s.heap a = some n →
    MarkedC M' n.thn ∧ MarkedC M' n.els ∧ ∃ v, vars n.var = some v ∧ M' v.addr = true
  /-- newly marked nodes are below `f` or are nodes of variables of nodes below `f` -/
  new : ∀ a, M a = false → M' a = true → (∃ x, Below s f x ∧ x.id ≠ 0 ∧ x.addr = a) ∨
    ∃ x v, Below s f x ∧ x.id ≠ 0 ∧ vars x.id = some v ∧ v.addr = a
  /-- the variables returned are those whose nodes got marked -/
  mem : ∀ v, v ∈ l ↔ vars v.id = some v ∧ 1 ≤ v.id ∧ v.id ≤ s.ord.numVars ∧ M v.addr = false ∧
    M' v.addr = true
  nodup : l.Nodup

theorem supportStep_ok (w : s.WF) {vars} (hv : VarsOK s vars) : ∀ k {f : Edge} {M}, s.EOK f →
    1 ≤ k → s.ord.numVars + 1 ≤ k + s.ord.lvl f.id → ∃ l M', supportStep s vars k M f = some (l, M') ∧
      SupOk s vars f M l M' := by
  intro k
  induction k with
  | zero => intro f M _ h; omega
  | succ k ih =>
    intro f M hf _ hk
    unfold supportStep
    by_cases h1 : (M f.addr || f.isConst) = true
    · rw [if_pos h1]
      refine ⟨_, _, rfl, fun _ h => h, ?_, fun _ _ h h' => by simp_all, fun _ h h' => by simp_all,
        fun v => ?_, List.nodup_nil⟩
      · rcases Bool.or_eq_true_iff.1 h1 with h | h
        · exact Or.inr h
        · exact Or.inl (by simpa [Edge.isConst] using h)
      · simp only [List.not_mem_nil, false_iff]
        rintro ⟨-, -, -, h, h'⟩
        rw [h] at h'; cases h'
    rw [if_neg h1]
    have hmf : M f.addr = false := by
      cases h : M f.addr
      · rfl
      · simp [h] at h1
    have hc : f.id ≠ 0 := by
      intro h
      apply h1
      simp [Edge.isConst, h]
    obtain ⟨r1, r2, -⟩ := in_range w hf hc
    obtain ⟨va, ev, hva⟩ := hv f.id r1 r2
    obtain ⟨t, u, hkid, ht, hu, l1, l2⟩ := kids_spec w hf hc
    obtain ⟨n, hn, et, eu⟩ := kids_node hkid
    rw [ev, hkid]
    simp only
    have hlt := hf.lvl_lt w hc
    -- the marks with which the children are visited
    generalize hM1 : upd (if M va = true then M else upd M va true) f.addr true = M1
    have M1_eq : ∀ a, M1 a = (M a || decide (a = va) || decide (a = f.addr)) := by
      intro a
      rw [← hM1]
      by_cases h : a = f.addr
      · subst h; rw [upd_same]; simp
      · rw [upd_ne _ _ h]
        split
        · by_cases h' : a = va
          · subst h'; simp_all
          · simp [h, h']
        · by_cases h' : a = va
          · subst h'; rw [upd_same]; simp
          · rw [upd_ne _ _ h']; simp [h, h']
    obtain ⟨L1, M2, e2, o2⟩ := ih (M := M1) ht (by omega) (by omega)
    rw [e2]
    simp only
    obtain ⟨L2, M3, e3, o3⟩ := ih (M := M2) hu (by omega) (by omega)
    rw [e3]
    have m1 : ∀ a, M a = true → M1 a = true := fun a h => by rw [M1_eq, h]; rfl
    have mva : M1 va = true := by rw [M1_eq]; simp
    have mf : M1 f.addr = true := by rw [M1_eq]; simp
    have m13 : ∀ a, M1 a = true → M3 a = true := fun a h => o3.mono a (o2.mono a h)
    have up : ∀ {x}, MarkedC M2 x → MarkedC M3 x := by
      rintro x (h | h)
      · exact Or.inl h
      · exact Or.inr (o3.mono _ h)
    have hone : MarkedC M3 one := Or.inl rfl
    have hzero : MarkedC M3 zero := Or.inl rfl
    refine ⟨_, _, rfl, fun a h => m13 a (m1 a h), Or.inr (m13 _ mf), ?_, ?_, ?_, ?_⟩
    · intro a n' h h' hn'
      by_cases c1 : M1 a = true
      · rw [M1_eq, h, Bool.false_or, Bool.or_eq_true, decide_eq_true_eq, decide_eq_true_eq] at c1
        by_cases c : a = f.addr
        · subst c
          rw [hn] at hn'; cases hn'
          have hvn : n.var = f.id := by
            obtain ⟨n', hn', h⟩ := hf.node w hc
            rw [hn] at hn'; cases hn'; exact h
          refine ⟨?_, ?_, _, by rw [hvn]; exact ev, m13 _ mva⟩
          · have := up o2.self; rw [et] at this; exact this
          · have := o3.self; rw [eu] at this; exact this
        · have := c1.resolve_right c
          subst this
          rw [hva] at hn'; cases hn'
          exact ⟨hone, hzero, _, ev, m13 _ mva⟩
      · by_cases c2 : M2 a = true
        · obtain ⟨a1, a2, v, a3, a4⟩ := o2.closed a n' (by simpa using c1) c2 hn'
          exact ⟨up a1, up a2, v, a3, o3.mono _ a4⟩
        · exact o3.closed a n' (by simpa using c2) h' hn'
    · intro a h h'
      by_cases c1 : M1 a = true
      · rw [M1_eq, h, Bool.false_or, Bool.or_eq_true, decide_eq_true_eq, decide_eq_true_eq] at c1
        rcases c1 with rfl | rfl
        · exact Or.inr ⟨f, _, .refl _, hc, ev, rfl⟩
        · exact Or.inl ⟨f, .refl _, hc, rfl⟩
      · by_cases c2 : M2 a = true
        · rcases o2.new a (by simpa using c1) c2 with ⟨x, b, a1, a2⟩ | ⟨x, v, b, a1, a2⟩
          · exact Or.inl ⟨x, .thn hkid b, a1, a2⟩
          · exact Or.inr ⟨x, v, .thn hkid b, a1, a2⟩
        · rcases o3.new a (by simpa using c2) h' with ⟨x, b, a1, a2⟩ | ⟨x, v, b, a1, a2⟩
          · exact Or.inl ⟨x, .els hkid b, a1, a2⟩
          · exact Or.inr ⟨x, v, .els hkid b, a1, a2⟩
    · -- a variable node at the address of `f` is that of `f`
      have vf : ∀ v : Edge, vars v.id = some v → 1 ≤ v.id → v.id ≤ s.ord.numVars →
          (v.addr = f.addr ∨ v.addr = va) → v = ⟨f.id, va, false⟩ := by
        intro v h1 h2 h3 h4
        obtain ⟨a, e1, e2⟩ := hv v.id h2 h3
        have : v = ⟨v.id, a, false⟩ := by rw [h1] at e1; exact Option.some.inj e1
        have ha : v.addr = a := by rw [this]
        have hid : v.id = f.id := by
          rcases h4 with h4 | h4
          · obtain ⟨n', hn', h⟩ := hf.node w hc
            rw [← h4, ha, e2] at hn'
            cases hn'; exact h
          · rw [← ha, h4, hva] at e2
            have := congrArg (fun o => o.map Node.var) e2
            simpa using this.symm
        rw [hid, ev] at h1
        exact (Option.some.inj h1).symm
      intro v
      simp only [List.mem_append]
      rw [o2.mem, o3.mem]
      constructor
      · rintro (h | ⟨a1, a2, a3, a4, a5⟩ | ⟨a1, a2, a3, a4, a5⟩)
        · split at h
          · cases h
          · rename_i hm
            rw [List.mem_singleton] at h
            subst h
            exact ⟨ev, r1, r2, by simpa using hm, m13 _ mva⟩
        · refine ⟨a1, a2, a3, ?_, o3.mono _ a5⟩
          cases hm : M v.addr
          · rfl
          · rw [m1 _ hm] at a4; cases a4
        · refine ⟨a1, a2, a3, ?_, a5⟩
          cases hm : M v.addr
          · rfl
          · rw [o2.mono _ (m1 _ hm)] at a4; cases a4
      · rintro ⟨a1, a2, a3, a4, a5⟩
        by_cases c1 : M1 v.addr = true
        · left
          have c := c1
          rw [M1_eq, a4, Bool.false_or, Bool.or_eq_true, decide_eq_true_eq, decide_eq_true_eq] at c
          have := vf v a1 a2 a3 c.symm
          subst this
          simp only at a4
          rw [if_neg (by simp [a4])]
          simp
        · by_cases c2 : M2 v.addr = true
          · exact Or.inr (Or.inl ⟨a1, a2, a3, by simpa using c1, c2⟩)
          · exact Or.inr (Or.inr ⟨a1, a2, a3, by simpa using c2, a5⟩)
    · rw [List.nodup_append, List.nodup_append]
      refine ⟨by split <;> simp, ⟨o2.nodup, o3.nodup, ?_⟩, ?_⟩
      · rintro a ha b hb rfl
        have h1 := (o2.mem _).1 ha
        have h2 := (o3.mem _).1 hb
        rw [h1.2.2.2.2] at h2
        cases h2.2.2.2.1
      · rintro a ha b hb rfl
        split at ha
        · cases ha
        · rw [List.mem_singleton] at ha
          subst ha
          rcases List.mem_append.1 hb with hb | hb
          · have := ((o2.mem _).1 hb).2.2.2.1
            rw [mva] at this; cases this
          · have := ((o3.mem _).1 hb).2.2.2.1
            rw [o2.mono _ mva] at this; cases this

/-- What `CalBddUnmarkNodes` does. -/
structure UnOk (s : Store) (vars : Nat → Option Edge) (f : Edge) (M M' : Nat → Bool) : Prop where
  mono : ∀ a, M a = false → M' a = false
  self : f.id = 0 ∨ M' f.addr = false
  closed : ∀ a n, M a = true → M' a = false → s.heap a = some n →
    (n.thn.id = 0 ∨ M' n.thn.addr = false) ∧ (n.els.id = 0 ∨ M' n.els.addr = false) ∧
    ∀ v, vars n.var = some v → M' v.addr = false

theorem unmarkNodes_ok (w : s.WF) {vars} (hv : VarsOK s vars) : ∀ k {f : Edge} {M}, s.EOK f →
    1 ≤ k → s.ord.numVars + 1 ≤ k + s.ord.lvl f.id → ∃ M', unmarkNodes s vars k M f = some M' ∧
      UnOk s vars f M M' := by
  intro k
  induction k with
  | zero => intro f M _ h; omega
  | succ k ih =>
    intro f M hf _ hk
    unfold unmarkNodes
    by_cases h1 : (!M f.addr || f.isConst) = true
    · rw [if_pos h1]
      refine ⟨_, rfl, fun _ h => h, ?_, fun _ _ h h' => by simp_all⟩
      rcases Bool.or_eq_true_iff.1 h1 with h | h
      · exact Or.inr (by simpa using h)
      · exact Or.inl (by simpa [Edge.isConst] using h)
    rw [if_neg h1]
    have hc : f.id ≠ 0 := by
      intro h
      apply h1
      simp [Edge.isConst, h]
    obtain ⟨r1, r2, -⟩ := in_range w hf hc
    obtain ⟨va, ev, hva⟩ := hv f.id r1 r2
    obtain ⟨t, u, hkid, ht, hu, l1, l2⟩ := kids_spec w hf hc
    obtain ⟨n, hn, et, eu⟩ := kids_node hkid
    rw [ev, hkid]
    simp only
    have hlt := hf.lvl_lt w hc
    generalize hM1 : upd (upd M f.addr false) va false = M1
    have M1_eq : ∀ a, M1 a = (M a && !decide (a = va) && !decide (a = f.addr)) := by
      intro a
      rw [← hM1]
      by_cases h : a = va
      · subst h; rw [upd_same]; simp
      · rw [upd_ne _ _ h]
        by_cases h' : a = f.addr
        · subst h'; rw [upd_same]; simp
        · rw [upd_ne _ _ h']; simp [h, h']
    obtain ⟨M2, e2, o2⟩ := ih (M := M1) ht (by omega) (by omega)
    rw [e2]
    simp only
    obtain ⟨M3, e3, o3⟩ := ih (M := M2) hu (by omega) (by omega)
    have m1 : ∀ a, M a = false → M1 a = false := fun a h => by rw [M1_eq, h]; rfl
    have mva : M1 va = false := by rw [M1_eq]; simp
    have mf : M1 f.addr = false := by rw [M1_eq]; simp
    have m13 : ∀ a, M1 a = false → M3 a = false := fun a h => o3.mono a (o2.mono a h)
    have up : ∀ {x : Edge}, (x.id = 0 ∨ M2 x.addr = false) → (x.id = 0 ∨ M3 x.addr = false) := by
      rintro x (h | h)
      · exact Or.inl h
      · exact Or.inr (o3.mono _ h)
    refine ⟨_, e3, fun a h => m13 a (m1 a h), Or.inr (m13 _ mf), ?_⟩
    intro a n' h h' hn'
    by_cases c1 : M1 a = false
    · have c : a = va ∨ a = f.addr := by
        rw [M1_eq, h] at c1
        by_cases x : a = va
        · exact Or.inl x
        · by_cases y : a = f.addr
          · exact Or.inr y
          · simp [x, y] at c1
      by_cases c : a = f.addr
      · subst c
        rw [hn] at hn'; cases hn'
        have hvn : n.var = f.id := by
          obtain ⟨n', hn', h⟩ := hf.node w hc
          rw [hn] at hn'; cases hn'; exact h
        refine ⟨?_, ?_, ?_⟩
        · have := up o2.self; rw [et] at this; exact this
        · have := o3.self; rw [eu] at this; exact this
        · intro v hv'
          rw [hvn, ev] at hv'
          cases hv'
          exact m13 _ mva
      · have : a = va := by
          rcases ‹a = va ∨ a = f.addr› with h | h
          · exact h
          · exact absurd h c
        subst this
        rw [hva] at hn'; cases hn'
        refine ⟨Or.inl rfl, Or.inl rfl, fun v hv' => ?_⟩
        simp only [ev] at hv'
        cases hv'
        exact m13 _ mva
    · by_cases c2 : M2 a = false
      · obtain ⟨a1, a2, a3⟩ := o2.closed a n' (by simpa using c1) c2 hn'
        exact ⟨up a1, up a2, fun v hv' => o3.mono _ (a3 v hv')⟩
      · exact o3.closed a n' (by simpa using c2) h' hn'

/-- `Cal_BddSupport`: exactly the variables the function depends on, each once, in an array that is
large enough; all marks are clear afterwards. -/
theorem supportOf_ok (w : s.WF) {vars} (hv : VarsOK s vars) {f F} (r : Rep s f F) :
    ∃ l, supportOf s vars (fun _ => false) f = some (l, fun _ => false) ∧ l.Nodup ∧
      ∀ v, v ∈ l ↔ vars v.id = some v ∧ 1 ≤ v.id ∧ v.id ≤ s.ord.numVars ∧ ¬ Indep F v.id := by
  obtain ⟨l, M1, h1, o1⟩ := supportStep_ok w hv (s.ord.numVars + 1) (M := fun _ => false) r.eok
    (by omega) (by omega)
  obtain ⟨M2, h2, o2⟩ := unmarkNodes_ok w hv (s.ord.numVars + 1) (M := M1) r.eok (by omega) (by omega)
  -- everything below is marked
  have all : ∀ {e x}, Below s e x → s.EOK e → MarkedC M1 e → MarkedC M1 x := by
    intro e x hb he hm
    induction hb with
    | refl => exact hm
    | thn hk b ih =>
      obtain ⟨n, hn, rfl, rfl⟩ := kids_node hk
      have hc := hm.resolve_left fun h => by rw [kids_const w he h] at hk; cases hk
      exact ih ((Below.thn hk (.refl _)).eok w he) (o1.closed _ n rfl hc hn).1
    | els hk b ih =>
      obtain ⟨n, hn, rfl, rfl⟩ := kids_node hk
      have hc := hm.resolve_left fun h => by rw [kids_const w he h] at hk; cases hk
      exact ih ((Below.els hk (.refl _)).eok w he) (o1.closed _ n rfl hc hn).2.1
  -- and unmarked
  have none : ∀ {e x}, Below s e x → s.EOK e → MarkedC M1 e → (e.id = 0 ∨ M2 e.addr = false) →
      (x.id = 0 ∨ M2 x.addr = false) := by
    intro e x hb he hm hu
    induction hb with
    | refl => exact hu
    | thn hk b ih =>
      have hx := all (.thn hk (.refl _)) he hm
      have he' := (Below.thn hk (.refl _)).eok w he
      obtain ⟨n, hn, rfl, rfl⟩ := kids_node hk
      have hne : ¬ _ = 0 := fun h => by rw [kids_const w he h] at hk; cases hk
      exact ih he' hx (o2.closed _ n (hm.resolve_left hne) (hu.resolve_left hne) hn).1
    | els hk b ih =>
      have hx := all (.els hk (.refl _)) he hm
      have he' := (Below.els hk (.refl _)).eok w he
      obtain ⟨n, hn, rfl, rfl⟩ := kids_node hk
      have hne : ¬ _ = 0 := fun h => by rw [kids_const w he h] at hk; cases hk
      exact ih he' hx (o2.closed _ n (hm.resolve_left hne) (hu.resolve_left hne) hn).2.1
  have clear : M2 = fun _ => false := by
    funext a
    cases ha : M1 a with
    | false => exact o2.mono a ha
    | true =>
      rcases o1.new a rfl ha with ⟨x, hb, hx, rfl⟩ | ⟨x, v, hb, hx, hv', rfl⟩
      · exact (none hb r.eok o1.self o2.self).resolve_left hx
      · obtain ⟨n, hn, hvn⟩ := (hb.eok w r.eok).node w hx
        exact (o2.closed _ n ((all hb r.eok o1.self).resolve_left hx)
          ((none hb r.eok o1.self o2.self).resolve_left hx) hn).2.2 v (by rw [hvn]; exact hv')
  have mem : ∀ v, v ∈ l ↔ vars v.id = some v ∧ 1 ≤ v.id ∧ v.id ≤ s.ord.numVars ∧ ¬ Indep F v.id := by
    intro v
    rw [o1.mem]
    constructor
    · rintro ⟨a1, a2, a3, -, a5⟩
      refine ⟨a1, a2, a3, (depends_iff w _ r (Nat.le_add_right _ _) (by omega)).1 ?_⟩
      obtain ⟨a, e1, e2⟩ := hv v.id a2 a3
      have ha : v.addr = a := by rw [a1] at e1; rw [Option.some.inj e1]
      rcases o1.new v.addr rfl a5 with ⟨x, hb, hx, e⟩ | ⟨x, v', hb, hx, hv', e⟩
      · obtain ⟨n, hn, hvn⟩ := (hb.eok w r.eok).node w hx
        rw [e, ha, e2] at hn
        cases hn
        exact ⟨x, hb, hvn.symm⟩
      · obtain ⟨b1, b2, -⟩ := in_range w (hb.eok w r.eok) hx
        obtain ⟨a', e1', e2'⟩ := hv x.id b1 b2
        have : v'.addr = a' := by rw [hv'] at e1'; rw [Option.some.inj e1']
        rw [← this, e, ha, e2] at e2'
        have := congrArg (fun o => o.map Node.var) e2'
        simp only [Option.map_some, Option.some.injEq] at this
        exact ⟨x, hb, this.symm⟩
    · rintro ⟨a1, a2, a3, a4⟩
      obtain ⟨x, hb, hx⟩ := (depends_iff w _ r (Nat.le_add_right _ _) (by omega)).2 a4
      have hx0 : x.id ≠ 0 := by omega
      obtain ⟨n, hn, hvn⟩ := (hb.eok w r.eok).node w hx0
      obtain ⟨v', b1, b2⟩ := (o1.closed x.addr n rfl ((all hb r.eok o1.self).resolve_left hx0) hn).2.2
      rw [hvn, hx, a1] at b1
      cases b1
      exact ⟨a1, a2, a3, rfl, b2⟩
  refine ⟨l, ?_, o1.nodup, mem⟩
  have len : l.length ≤ s.ord.numVars := by
    have h := nodup_length_le (l := l.map Edge.id) (l' := (List.range s.ord.numVars).map (· + 1))
      (nodup_map_inj (fun x hx y hy e => ?_) o1.nodup) (fun v hv' => ?_)
    · simpa using h
    · have h1 := ((mem x).1 hx).1
      rw [e, ((mem y).1 hy).1] at h1
      exact (Option.some.inj h1).symm
    · obtain ⟨x, hx, rfl⟩ := List.mem_map.1 hv'
      have := (mem x).1 hx
      exact List.mem_map.2 ⟨x.id - 1, by rw [List.mem_range]; omega, by omega⟩
  unfold supportOf
  rw [h1]
  simp only
  rw [if_neg (by omega), h2, clear]

end Cal
