import Verif.Support
import Verif.Interact

/-!
# Filling the interaction matrix (`CalInitInteract`, calInteract.c:163-313)
-/

namespace Cal.Interact

/-! ## The code -/

/-- `ddSuppInteract` (calInteract.c:249-264): marks and support array. A visited node is marked after
its children. -/
def suppInteract (s : Store) : Nat → (Nat → Bool) → (Nat → Bool) → Edge →
    Option ((Nat → Bool) × (Nat → Bool))
  | 0, _, _, _ => none
  | k + 1, M, S, f =>
    if f.isConst || M f.addr then some (M, S)
    else
      match s.kids f with
      | none => none
      | some (t, e) =>
        match suppInteract s k M (upd S f.id true) t with
        | none => none
        | some (M1, S1) =>
          match suppInteract s k M1 S1 e with
          | none => none
          | some (M2, S2) => some (upd M2 f.addr true, S2)

/-- `ddClearLocal` (calInteract.c:270-286) -/
def clearLocal (s : Store) : Nat → (Nat → Bool) → Edge → Option (Nat → Bool)
  | 0, _, _ => none
  | k + 1, M, f =>
    if f.isConst || !M f.addr then some M
    else
      match s.kids f with
      | none => none
      | some (t, e) =>
        match clearLocal s k (upd M f.addr false) t with
        | none => none
        | some M1 => clearLocal s k M1 e

/-- The pairs `ddUpdateInteract` (calInteract.c:295-310) sets, positions from 0. -/
def suppPairs (n : Nat) (S : Nat → Bool) : List (Nat × Nat) :=
  (List.range (n - 1)).flatMap fun i =>
    if S (i + 1) then ((List.range n).filter fun j => decide (i < j) && S (j + 1)).map fun j => (i, j)
    else []

/-- One BDD in the loops of `CalInitInteract` (calInteract.c:198-204, 223-228), with the marks on entry
and exit. -/
def addBdd (s : Store) (p : (Nat → Bool) × Matrix) (f : Edge) : Option ((Nat → Bool) × Matrix) :=
  match suppInteract s (s.ord.numVars + 1) p.1 (fun _ => false) f with
  | none => none
  | some (M1, S) =>
    match clearLocal s (s.ord.numVars + 1) M1 f with
    | none => none
    | some M2 =>
      (setAll s.ord.numVars p.2
        ((suppPairs s.ord.numVars S).map fun q => ((q.1 : Int), (q.2 : Int)))).map fun m => (M2, m)

/-- `CalInitInteract` (calInteract.c:163-236) for the BDDs of the user nodes and the results in the
pipeline. -/
def initInteract (s : Store) (fs : List Edge) : Option Matrix :=
  (init s.ord.numVars).bind fun m => (fs.foldlM (addBdd s) (fun _ => false, m)).map (·.2)

/-! ## Proofs -/

variable {s : Store}

/-- An edge is dealt with. -/
def Mk (M : Nat → Bool) (e : Edge) : Prop := e.id = 0 ∨ M e.addr = true

/-- Marked nodes have their variable in the support and their children dealt with. -/
def Closed (s : Store) (M S : Nat → Bool) : Prop :=
  ∀ x t u, s.EOK x → x.id ≠ 0 → M x.addr = true → s.kids x = some (t, u) →
    S x.id = true ∧ Mk M t ∧ Mk M u

theorem kids_same {x y t u t' u'} (h : s.kids x = some (t, u)) (h' : s.kids y = some (t', u'))
    (e : x.addr = y.addr) : t.id = t'.id ∧ t.addr = t'.addr ∧ u.id = u'.id ∧ u.addr = u'.addr := by
  obtain ⟨n, hn, rfl, rfl⟩ := kids_node h
  obtain ⟨n', hn', rfl, rfl⟩ := kids_node h'
  rw [e, hn'] at hn
  cases hn
  exact ⟨rfl, rfl, rfl, rfl⟩

theorem eok_same (w : s.WF) {x y : Edge} (hx : s.EOK x) (hy : s.EOK y) (cx : x.id ≠ 0) (cy : y.id ≠ 0)
    (e : x.addr = y.addr) : x.id = y.id := by
  obtain ⟨n, hn, hv⟩ := hx.node w cx
  obtain ⟨n', hn', hv'⟩ := hy.node w cy
  rw [e, hn'] at hn
  cases hn
  rw [← hv, ← hv']

theorem suppInteract_ok (w : s.WF) : ∀ k {f : Edge} {M S}, s.EOK f → 1 ≤ k →
    s.ord.numVars + 1 ≤ k + s.ord.lvl f.id → ∃ M' S', suppInteract s k M S f = some (M', S') ∧
      (∀ a, M a = true → M' a = true) ∧ (∀ v, S v = true → S' v = true) ∧ Mk M' f ∧
      (Closed s M S → Closed s M' S') ∧
      (∀ a, M' a = true → M a = true ∨ ∃ x, Cal.Below s f x ∧ x.addr = a ∧ x.id ≠ 0) ∧
      (∀ v, S' v = true → S v = true ∨ ∃ x, Cal.Below s f x ∧ x.id = v ∧ v ≠ 0) := by
  intro k
  induction k with
  | zero => intro f M S _ h; omega
  | succ k ih =>
    intro f M S hf _ hk
    unfold suppInteract
    by_cases hc : f.id = 0
    · rw [if_pos (by simp [Edge.isConst, hc])]
      exact ⟨_, _, rfl, fun _ h => h, fun _ h => h, Or.inl hc, fun h => h, fun _ h => Or.inl h,
        fun _ h => Or.inl h⟩
    by_cases hm : M f.addr = true
    · rw [if_pos (by simp [hm])]
      exact ⟨_, _, rfl, fun _ h => h, fun _ h => h, Or.inr hm, fun h => h, fun _ h => Or.inl h,
        fun _ h => Or.inl h⟩
    rw [if_neg (by simp [Edge.isConst, hc, hm])]
    obtain ⟨t, u, hkid, ht, hu, l1, l2⟩ := kids_spec w hf hc
    have hlt := hf.lvl_lt w hc
    rw [hkid]
    simp only
    obtain ⟨M1, S1, e1, m1, s1, k1, c1, n1, v1⟩ := ih (M := M) (S := upd S f.id true) ht (by omega) (by omega)
    rw [e1]
    simp only
    obtain ⟨M2, S2, e2, m2, s2, k2, c2, n2, v2⟩ := ih (M := M1) (S := S1) hu (by omega) (by omega)
    rw [e2]
    simp only
    have hS : ∀ v, S v = true → upd S f.id true v = true := by
      intro v hv
      by_cases h : v = f.id
      · rw [h, upd_same]
      · rw [upd_ne _ _ h]; exact hv
    have hM : ∀ a, M2 a = true → upd M2 f.addr true a = true := by
      intro a ha
      by_cases h : a = f.addr
      · rw [h, upd_same]
      · rw [upd_ne _ _ h]; exact ha
    have up : ∀ {e}, Mk M1 e → Mk (upd M2 f.addr true) e := by
      rintro e (h | h)
      · exact Or.inl h
      · exact Or.inr (hM _ (m2 _ h))
    have up2 : ∀ {e}, Mk M2 e → Mk (upd M2 f.addr true) e := by
      rintro e (h | h)
      · exact Or.inl h
      · exact Or.inr (hM _ h)
    refine ⟨_, _, rfl, fun a h => hM _ (m2 _ (m1 _ h)), fun v h => s2 _ (s1 _ (hS v h)),
      Or.inr (upd_same _ _ _), ?_, ?_, ?_⟩
    · intro hcl x t' u' hx xc xm xk
      by_cases hxf : x.addr = f.addr
      · rw [eok_same w hx hf xc hc hxf]
        obtain ⟨q1, q2, q3, q4⟩ := kids_same xk hkid hxf
        have g1 := up k1
        have g2 := up2 k2
        unfold Mk at *
        rw [q1, q2, q3, q4]
        exact ⟨s2 _ (s1 _ (upd_same _ _ _)), g1, g2⟩
      · rw [upd_ne _ _ hxf] at xm
        have hcl1 : Closed s M (upd S f.id true) := fun x t u a b c d => by
          obtain ⟨h1, h2⟩ := hcl x t u a b c d
          exact ⟨hS _ h1, h2⟩
        obtain ⟨g1, g2, g3⟩ := c2 (c1 hcl1) x t' u' hx xc xm xk
        exact ⟨g1, up2 g2, up2 g3⟩
    · intro a ha
      by_cases h : a = f.addr
      · exact Or.inr ⟨f, .refl _, h.symm, hc⟩
      · rw [upd_ne _ _ h] at ha
        rcases n2 a ha with h | ⟨x, hb, hx⟩
        · rcases n1 a h with h | ⟨x, hb, hx⟩
          · exact Or.inl h
          · exact Or.inr ⟨x, .thn hkid hb, hx⟩
        · exact Or.inr ⟨x, .els hkid hb, hx⟩
    · intro v hv
      rcases v2 v hv with h | ⟨x, hb, hx⟩
      · rcases v1 v h with h | ⟨x, hb, hx⟩
        · by_cases hvf : v = f.id
          · exact Or.inr ⟨f, .refl _, hvf.symm, by rw [hvf]; exact hc⟩
          · rw [upd_ne _ _ hvf] at h; exact Or.inl h
        · exact Or.inr ⟨x, .thn hkid hb, hx⟩
      · exact Or.inr ⟨x, .els hkid hb, hx⟩

/-- An edge without mark. -/
def Un (M : Nat → Bool) (e : Edge) : Prop := e.id = 0 ∨ M e.addr = false

theorem clearLocal_ok (w : s.WF) : ∀ k {f : Edge} {M}, s.EOK f → 1 ≤ k →
    s.ord.numVars + 1 ≤ k + s.ord.lvl f.id → ∃ M', clearLocal s k M f = some M' ∧
      (∀ a, M a = false → M' a = false) ∧ Un M' f ∧
      (∀ x t u, s.EOK x → x.id ≠ 0 → M x.addr = true → M' x.addr = false → s.kids x = some (t, u) →
        Un M' t ∧ Un M' u) := by
  intro k
  induction k with
  | zero => intro f M _ h; omega
  | succ k ih =>
    intro f M hf _ hk
    unfold clearLocal
    by_cases hc : f.id = 0
    · rw [if_pos (by simp [Edge.isConst, hc])]
      exact ⟨_, rfl, fun _ h => h, Or.inl hc, fun x t u _ _ h h' => by simp_all⟩
    by_cases hm : M f.addr = true
    · rw [if_neg (by simp [Edge.isConst, hc, hm])]
      obtain ⟨t, u, hkid, ht, hu, l1, l2⟩ := kids_spec w hf hc
      have hlt := hf.lvl_lt w hc
      rw [hkid]
      simp only
      obtain ⟨M1, e1, m1, k1, c1⟩ := ih (M := upd M f.addr false) ht (by omega) (by omega)
      rw [e1]
      simp only
      obtain ⟨M2, e2, m2, k2, c2⟩ := ih (M := M1) hu (by omega) (by omega)
      rw [e2]
      have hM : ∀ a, M a = false → upd M f.addr false a = false := by
        intro a ha
        by_cases h : a = f.addr
        · rw [h, upd_same]
        · rw [upd_ne _ _ h]; exact ha
      have up : ∀ {e}, Un M1 e → Un M2 e := by
        rintro e (h | h)
        · exact Or.inl h
        · exact Or.inr (m2 _ h)
      refine ⟨_, rfl, fun a h => m2 _ (m1 _ (hM a h)), Or.inr (m2 _ (m1 _ (upd_same _ _ _))), ?_⟩
      intro x t' u' hx xc xm xm' xk
      by_cases hxf : x.addr = f.addr
      · obtain ⟨q1, q2, q3, q4⟩ := kids_same xk hkid hxf
        have g1 := up k1
        unfold Un at *
        rw [q1, q2, q3, q4]
        exact ⟨g1, k2⟩
      · by_cases hx1 : M1 x.addr = true
        · exact c2 x t' u' hx xc hx1 xm' xk
        · obtain ⟨g1, g2⟩ := c1 x t' u' hx xc (by rw [upd_ne _ _ hxf]; exact xm) (by simpa using hx1) xk
          exact ⟨up g1, up g2⟩
    · rw [if_pos (by simp [hm])]
      exact ⟨_, rfl, fun _ h => h, Or.inr (by simpa using hm), fun x t u _ _ h h' => by simp_all⟩

theorem closed_below (w : s.WF) {M S : Nat → Bool} (c : Closed s M S) {f x : Edge} (b : Cal.Below s f x) :
    s.EOK f → Mk M f → Mk M x ∧ (x.id ≠ 0 → S x.id = true) := by
  have key : ∀ {f t u : Edge}, s.EOK f → Mk M f → s.kids f = some (t, u) →
      (s.EOK t ∧ s.EOK u) ∧ Mk M t ∧ Mk M u := by
    intro f t u hf hm hk
    by_cases hc : f.id = 0
    · rw [kids_const w hf hc] at hk; cases hk
    · obtain ⟨t', u', hk', ht, hu, -⟩ := kids_spec w hf hc
      rw [hk] at hk'; cases hk'
      have hm' : M f.addr = true := by rcases hm with h | h; exact absurd h hc; exact h
      exact ⟨⟨ht, hu⟩, (c f t u hf hc hm' hk).2⟩
  induction b with
  | refl e =>
    intro hf hm
    refine ⟨hm, fun hc => ?_⟩
    obtain ⟨t', u', hk', -⟩ := kids_spec w hf hc
    have hm' : M e.addr = true := by rcases hm with h | h; exact absurd h hc; exact h
    exact (c e _ _ hf hc hm' hk').1
  | thn h _ ih => intro hf hm; obtain ⟨k1, k2⟩ := key hf hm h; exact ih k1.1 k2.1
  | els h _ ih => intro hf hm; obtain ⟨k1, k2⟩ := key hf hm h; exact ih k1.2 k2.2

/-- One BDD: the support is exact and the marks are clear again. -/
theorem support_ok (w : s.WF) {f : Edge} (hf : s.EOK f) :
    ∃ M1 S, suppInteract s (s.ord.numVars + 1) (fun _ => false) (fun _ => false) f = some (M1, S) ∧
      clearLocal s (s.ord.numVars + 1) M1 f = some (fun _ => false) ∧
      ∀ v, S v = true ↔ v ≠ 0 ∧ ∃ x, Cal.Below s f x ∧ x.id = v := by
  obtain ⟨M1, S, e1, -, -, k1, c1, n1, v1⟩ := suppInteract_ok w (s.ord.numVars + 1) (M := fun _ => false)
    (S := fun _ => false) hf (by omega) (by omega)
  have c := c1 fun x t u _ _ h => by cases h
  obtain ⟨M2, e2, m2, k2, c2⟩ := clearLocal_ok w (s.ord.numVars + 1) (M := M1) hf (by omega) (by omega)
  have key : ∀ {f x : Edge}, Cal.Below s f x → s.EOK f → Mk M1 f → Un M2 f → Un M2 x := by
    intro f x b
    have step : ∀ {f t u : Edge}, s.EOK f → Mk M1 f → Un M2 f → s.kids f = some (t, u) →
        (s.EOK t ∧ Mk M1 t ∧ Un M2 t) ∧ (s.EOK u ∧ Mk M1 u ∧ Un M2 u) := by
      intro f t u hf hm hu hk
      by_cases hc : f.id = 0
      · rw [kids_const w hf hc] at hk; cases hk
      · obtain ⟨t', u', hk', ht, hu', -⟩ := kids_spec w hf hc
        rw [hk] at hk'; cases hk'
        have hm' : M1 f.addr = true := by rcases hm with h | h; exact absurd h hc; exact h
        have hu'' : M2 f.addr = false := by rcases hu with h | h; exact absurd h hc; exact h
        have g := c f t u hf hc hm' hk
        have g' := c2 f t u hf hc hm' hu'' hk
        exact ⟨⟨ht, g.2.1, g'.1⟩, ⟨hu', g.2.2, g'.2⟩⟩
    induction b with
    | refl e => intro _ _ h; exact h
    | thn h _ ih =>
      intro hf hm hu; obtain ⟨a, -⟩ := step hf hm hu h; exact ih a.1 a.2.1 a.2.2
    | els h _ ih =>
      intro hf hm hu; obtain ⟨-, a⟩ := step hf hm hu h; exact ih a.1 a.2.1 a.2.2
  have hz : M2 = fun _ => false := by
    funext a
    cases h : M1 a with
    | false => exact m2 a h
    | true =>
      rcases n1 a h with h | ⟨x, hb, rfl, hx⟩
      · cases h
      · rcases key hb hf k1 k2 with h | h
        · exact absurd h hx
        · exact h
  refine ⟨M1, S, e1, hz ▸ e2, fun v => ⟨fun h => ?_, ?_⟩⟩
  · rcases v1 v h with h | ⟨x, hb, hx, h0⟩
    · cases h
    · exact ⟨h0, x, hb, hx⟩
  · rintro ⟨h0, x, hb, rfl⟩
    exact (closed_below w c hb hf k1).2 h0

theorem suppPairs_mem {n : Nat} {S : Nat → Bool} {i j : Nat} :
    (i, j) ∈ suppPairs n S ↔ i < j ∧ j < n ∧ S (i + 1) = true ∧ S (j + 1) = true := by
  unfold suppPairs
  rw [List.mem_flatMap]
  constructor
  · rintro ⟨k, hk, h⟩
    by_cases hs : S (k + 1) = true
    · rw [if_pos hs] at h
      simp only [List.mem_map, List.mem_filter, List.mem_range, Bool.and_eq_true, decide_eq_true_eq,
        Prod.mk.injEq] at h
      obtain ⟨l, ⟨h1, h2, h3⟩, rfl, rfl⟩ := h
      exact ⟨h2, h1, hs, h3⟩
    · rw [if_neg hs] at h; cases h
  · rintro ⟨h1, h2, h3, h4⟩
    refine ⟨i, List.mem_range.2 (by omega), ?_⟩
    rw [if_pos h3]
    simp only [List.mem_map, List.mem_filter, List.mem_range, Bool.and_eq_true, decide_eq_true_eq,
      Prod.mk.injEq]
    exact ⟨j, ⟨h2, h1, h4⟩, by simp⟩

/-- `f` depends on both variables. -/
def Both (s : Store) (f : Edge) (u v : Nat) : Prop :=
  (∃ x, Cal.Below s f x ∧ x.id = u) ∧ ∃ x, Cal.Below s f x ∧ x.id = v

theorem addAll_ok (w : s.WF) (hn : s.ord.numVars ≤ 46341) : ∀ (fs : List Edge) {m : Matrix},
    m.words = (s.ord.numVars : Int) * (s.ord.numVars - 1) / 64 + 1 → (∀ f ∈ fs, s.EOK f) →
    ∃ m', fs.foldlM (addBdd s) (fun _ => false, m) = some (fun _ => false, m') ∧ m'.words = m.words ∧
      ∀ i j, i < j → j < s.ord.numVars → (m'.bit (pos s.ord.numVars i j) = true ↔
        m.bit (pos s.ord.numVars i j) = true ∨ ∃ f ∈ fs, Both s f (i + 1) (j + 1)) := by
  intro fs
  induction fs with
  | nil => intro m hm _; exact ⟨m, rfl, rfl, by simp⟩
  | cons f fs ih =>
    intro m hm hfs
    obtain ⟨M1, S, e1, e2, hS⟩ := support_ok w (hfs f List.mem_cons_self)
    obtain ⟨m1, e3, w1, b1⟩ := setAll_ok hn (suppPairs s.ord.numVars S) hm (by
      rintro ⟨i, j⟩ hq
      have := suppPairs_mem.1 hq
      exact ⟨this.1, this.2.1⟩)
    obtain ⟨m2, e4, w2, b2⟩ := ih (m := m1) (by rw [w1, hm]) fun g hg => hfs g (List.mem_cons_of_mem _ hg)
    refine ⟨m2, ?_, by rw [w2, w1], ?_⟩
    · rw [List.foldlM_cons]
      have : addBdd s (fun _ => false, m) f = some (fun _ => false, m1) := by
        unfold addBdd
        simp only [e1, e2, e3, Option.map_some]
      rw [this]
      exact e4
    · intro i j hij hj
      rw [b2 i j hij hj, b1, Bool.or_eq_true, List.any_eq_true]
      have : (∃ q, q ∈ suppPairs s.ord.numVars S ∧
          decide (pos s.ord.numVars i j = pos s.ord.numVars q.1 q.2) = true) ↔ Both s f (i + 1) (j + 1) := by
        constructor
        · rintro ⟨⟨i', j'⟩, hq, he⟩
          have hq' := suppPairs_mem.1 hq
          obtain ⟨r1, r2⟩ := pos_inj hij hj hq'.1 hq'.2.1 (of_decide_eq_true he)
          subst r1 r2
          exact ⟨((hS _).1 hq'.2.2.1).2, ((hS _).1 hq'.2.2.2).2⟩
        · rintro ⟨h1, h2⟩
          refine ⟨(i, j), suppPairs_mem.2 ⟨hij, hj, (hS _).2 ⟨by omega, h1⟩, (hS _).2 ⟨by omega, h2⟩⟩, by simp⟩
      rw [this]
      constructor
      · rintro ((h | h) | ⟨g, hg, h⟩)
        · exact Or.inl h
        · exact Or.inr ⟨f, List.mem_cons_self, h⟩
        · exact Or.inr ⟨g, List.mem_cons_of_mem _ hg, h⟩
      · rintro (h | ⟨g, hg, h⟩)
        · exact Or.inl (Or.inl h)
        · rcases List.mem_cons.1 hg with rfl | hg
          · exact Or.inl (Or.inr h)
          · exact Or.inr ⟨g, hg, h⟩

/-- The matrix `CalInitInteract` makes: two variables interact exactly if one of the BDDs depends on
both. -/
theorem initInteract_ok (w : s.WF) (hn : s.ord.numVars ≤ 46341) {fs : List Edge} (hfs : ∀ f ∈ fs, s.EOK f) :
    ∃ m, initInteract s fs = some m ∧ ∀ u v, 1 ≤ u → u ≤ s.ord.numVars → 1 ≤ v → v ≤ s.ord.numVars → u ≠ v →
      ∃ b, test s.ord.numVars m u v = some b ∧ (b = true ↔ ∃ f ∈ fs, Both s f u v) := by
  obtain ⟨m, e, hw, hb⟩ := addAll_ok w hn fs
    (m := ⟨(s.ord.numVars : Int) * (s.ord.numVars - 1) / 64 + 1, fun _ => 0⟩) rfl hfs
  refine ⟨m, ?_, ?_⟩
  · unfold initInteract
    rw [init_eq hn, Option.bind_some, e]; rfl
  · have hz : ∀ p, (Matrix.mk ((s.ord.numVars : Int) * (s.ord.numVars - 1) / 64 + 1) fun _ => 0).bit p = false := by
      intro p
      simp only [Matrix.bit]
      rw [getBit _ _ (Nat.mod_lt _ (by omega))]
      exact BitVec.getLsbD_zero
    intro u v u1 u2 v1 v2 huv
    obtain ⟨i, rfl⟩ : ∃ i, u = i + 1 := ⟨u - 1, by omega⟩
    obtain ⟨j, rfl⟩ : ∃ j, v = j + 1 := ⟨v - 1, by omega⟩
    rcases Nat.lt_or_gt_of_ne (show i ≠ j by omega) with h | h
    · have t := (test_ok hn h (by omega) hw).1
      refine ⟨_, by rw [← t]; congr 1, ?_⟩
      rw [hb i j h (by omega), hz]; simp
    · have t := (test_ok hn h (by omega) hw).2
      refine ⟨_, by rw [← t]; congr 1, ?_⟩
      rw [hb j i h (by omega), hz]
      simp only [Bool.false_eq_true, false_or]
      constructor
      · rintro ⟨f, hf, h1, h2⟩; exact ⟨f, hf, h2, h1⟩
      · rintro ⟨f, hf, h1, h2⟩; exact ⟨f, hf, h2, h1⟩

end Cal.Interact
