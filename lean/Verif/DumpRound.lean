import Verif.DumpSem

/-!
# Dumping and reading back
-/

namespace Cal.Dump

open Mgr (typeAux TypeSpec typeAux_ok)

/-- A BDD that is neither constant nor a variable nor a complemented variable. -/
def NT (s : Store) (f : Edge) : Prop := typeAux s f = some .nonterminal

/-- The cases of the type of a BDD. -/
inductive Kind (s : Store) (f : Edge) (F : BFn) : Prop
  | zero (h : typeAux s f = some .zero) (hi : f.id = 0) (hF : F = fun _ => false)
  | one (h : typeAux s f = some .one) (hi : f.id = 0) (hF : F = fun _ => true)
  | pos (h : typeAux s f = some .posvar) (hi : f.id ≠ 0) (hF : F = fun ρ => ρ f.id)
  | neg (h : typeAux s f = some .negvar) (hi : f.id ≠ 0) (hF : F = fun ρ => !ρ f.id)
  | nt (h : NT s f) (hi : f.id ≠ 0)

theorem kind {s : Store} (w : s.WF) {f F} (r : Rep s f F) : Kind s f F := by
  obtain ⟨t, ht, sp⟩ := typeAux_ok w r
  have hid : ∀ v (b : Bool), F = (fun ρ => xor b (ρ v)) → f.id ≠ 0 → v = f.id := by
    intro v b hF hi
    apply Classical.byContradiction
    intro hv
    apply r.dep w hi
    intro ρ c
    rw [hF]
    simp only [upd_ne ρ c hv]
  have hnc : ∀ v (b : Bool), F = (fun ρ => xor b (ρ v)) → f.id ≠ 0 := by
    rintro v b rfl hi
    rcases (r.const_iff w).1 hi with h | h <;>
    · have h1 := congrFun h (fun _ => true)
      have h2 := congrFun h (fun _ => false)
      cases b <;> simp at h1 h2
  cases t with
  | zero =>
    have := sp.zero.1 rfl
    exact .zero ht ((r.const_iff w).2 (.inr this)) this
  | one =>
    have := sp.one.1 rfl
    exact .one ht ((r.const_iff w).2 (.inl this)) this
  | posvar =>
    obtain ⟨v, hv⟩ := sp.pos.1 rfl
    have h1 := hnc v false (by simpa using hv)
    have h2 := hid v false (by simpa using hv) h1
    subst h2
    exact .pos ht h1 hv
  | negvar =>
    obtain ⟨v, hv⟩ := sp.neg.1 rfl
    have h1 := hnc v true (by simpa using hv)
    have h2 := hid v true (by simpa using hv) h1
    subst h2
    exact .neg ht h1 hv
  | nonterminal =>
    refine .nt ht fun h0 => ?_
    rcases (r.const_iff w).1 h0 with h | h
    · have := sp.one.2 h; cases this
    · have := sp.zero.2 h; cases this
  | overflow => exact absurd rfl sp.ovf

theorem NT.sem {s : Store} (w : s.WF) {f F} (r : Rep s f F) : NT s f ↔
    (F ≠ (fun _ => false) ∧ F ≠ (fun _ => true) ∧ (¬ ∃ v, F = fun ρ => ρ v) ∧ ¬ ∃ v, F = fun ρ => !ρ v) := by
  obtain ⟨t, ht, sp⟩ := typeAux_ok w r
  unfold NT
  rw [ht]
  constructor
  · intro h
    cases h
    exact ⟨(fun h => nomatch sp.zero.2 h), (fun h => nomatch sp.one.2 h), (fun h => nomatch sp.pos.2 h),
      (fun h => nomatch sp.neg.2 h)⟩
  · rintro ⟨h1, h2, h3, h4⟩
    cases t with
    | zero => exact absurd (sp.zero.1 rfl) h1
    | one => exact absurd (sp.one.1 rfl) h2
    | posvar => exact absurd (sp.pos.1 rfl) h3
    | negvar => exact absurd (sp.neg.1 rfl) h4
    | nonterminal => rfl
    | overflow => exact absurd rfl sp.ovf

theorem NT.not {s : Store} (w : s.WF) {f F} (r : Rep s f F) (h : NT s f) : NT s f.not := by
  rw [NT.sem w r] at h
  rw [NT.sem w r.not]
  obtain ⟨h1, h2, h3, h4⟩ := h
  have e : ∀ G : BFn, (fun ρ => !F ρ) = G → F = fun ρ => !G ρ := by rintro G rfl; funext ρ; simp
  refine ⟨fun h => h2 ?_, fun h => h1 ?_, ?_, ?_⟩
  · have := e _ h; simpa using this
  · have := e _ h; simpa using this
  · rintro ⟨v, h⟩; exact h4 ⟨v, e _ h⟩
  · rintro ⟨v, h⟩; exact h3 ⟨v, by have := e _ h; simpa using this⟩

theorem NT.id {s : Store} (w : s.WF) {f F} (r : Rep s f F) (h : NT s f) : f.id ≠ 0 := by
  have h' : typeAux s f = some .nonterminal := h
  cases kind w r with
  | zero h1 | one h1 => rw [h'] at h1; cases h1
  | pos h1 | neg h1 => rw [h'] at h1; cases h1
  | nt _ hi => exact hi

theorem not_not (f : Edge) : f.not.not = f := by cases f; simp [Edge.not]

theorem addr_eq {s : Store} (w : s.WF) {x f : Edge} (hx : s.EOK x) (hf : s.EOK f) (h : x.addr = f.addr) :
    x = f ∨ x = f.not := by
  by_cases hn : x.neg = f.neg
  · exact .inl (same_edge w hx hf h hn)
  · right
    have hf' : s.EOK f.not := hf
    refine same_edge w hx hf' h ?_
    simp only [Edge.not]
    revert hn; cases x.neg <;> cases f.neg <;> simp

theorem lvl_addr {s : Store} (w : s.WF) {x f : Edge} (hx : s.EOK x) (hf : s.EOK f) (h : x.addr = f.addr) :
    s.ord.lvl x.id = s.ord.lvl f.id := by
  rcases addr_eq w hx hf h with rfl | rfl
  · rfl
  · rfl

/-! ## Marking -/

/-- The nodes marked, from level `l` on, are closed downwards. -/
def MarkClosed (s : Store) (M : Nat → Nat) (l : Nat) : Prop :=
  ∀ g t u, s.EOK g → NT s g → l ≤ s.ord.lvl g.id → M g.addr ≠ 0 → s.kids g = some (t, u) →
    (NT s t → M t.addr ≠ 0) ∧ (NT s u → M u.addr ≠ 0)

structure MarkSpec (s : Store) (f : Edge) (M M' : Nat → Nat) : Prop where
  mono : ∀ a, M a ≠ 0 → M' a ≠ 0
  self : NT s f → M' f.addr ≠ 0
  above : ∀ g, s.EOK g → s.ord.lvl g.id < s.ord.lvl f.id → M' g.addr = M g.addr
  closed : ∀ l, l ≤ s.ord.lvl f.id → MarkClosed s M l → MarkClosed s M' l

theorem kids_not {s : Store} {f t u : Edge} (h : s.kids f = some (t, u)) : s.kids f.not = some (t.not, u.not) := by
  unfold Store.kids at h ⊢
  simp only [Edge.not]
  cases hn : s.heap f.addr with
  | none => rw [hn] at h; cases h
  | some n =>
    rw [hn] at h
    simp only [Option.some.injEq, Prod.mk.injEq] at h ⊢
    obtain ⟨rfl, rfl⟩ := h
    constructor <;> cases f.neg <;> simp [Edge.phase, Edge.not]

theorem NT.of_not {s : Store} (w : s.WF) {f : Edge} (h : s.EOK f) (hn : NT s f.not) : NT s f := by
  obtain ⟨F, r⟩ := w.rep_exists h
  have := NT.not w r.not hn
  rwa [not_not] at this

theorem markShared_ok {s : Store} (w : s.WF) : ∀ (k : Nat) {f : Edge} {F} (M : Nat → Nat), Rep s f F → 1 ≤ k →
    s.ord.numVars + 1 ≤ k + s.ord.lvl f.id → ∃ M', markShared s k M f = some M' ∧ MarkSpec s f M M'
  | 0, _, _, _, _, h, _ => by omega
  | k + 1, f0, F0, M, r0, _, hk => by
    unfold markShared
    -- the regular edge
    obtain ⟨f, hf, F, r, hb⟩ : ∃ f : Edge, ({ f0 with neg := false } : Edge) = f ∧ ∃ F, Rep s f F ∧ (f0 = f ∨ f0 = f.not) := by
      by_cases hn : f0.neg = false
      · exact ⟨f0, by cases f0; simp only at hn; rw [hn], F0, r0, .inl rfl⟩
      · refine ⟨f0.not, ?_, _, r0.not, .inr (not_not f0).symm⟩
        cases f0; simp only at hn; simp only [Edge.not]; simp [hn]
    have hnt : NT s f0 → NT s f := by
      rcases hb with rfl | rfl
      · exact fun h => h
      · exact fun h => NT.of_not w r.eok h
    have ha : f0.addr = f.addr := by rcases hb with rfl | rfl <;> rfl
    have hid : f0.id = f.id := by rcases hb with rfl | rfl <;> rfl
    have hneg : f.neg = false := by rw [← hf]
    simp only [hf]
    rw [hid] at hk
    have triv : ¬ NT s f0 → MarkSpec s f0 M M := fun h =>
      ⟨fun _ h => h, fun h' => absurd h' h, fun _ _ _ => rfl, fun _ _ h => h⟩
    have K := kind w r
    have ntcase : NT s f → f.id ≠ 0 → ∃ M', (if M f.addr = 1 then some (upd M f.addr 2)
        else
          match s.kids f with
          | none => none
          | some (t, e) =>
            match markShared s k (upd M f.addr 1) t with
            | none => none
            | some M => markShared s k M e) = some M' ∧ MarkSpec s f0 M M' := by
      intro _ hi
      obtain ⟨t, u, hk1, rt, ru, l1, l2, -⟩ := r.kids w hi
      have hlt := r.eok.lvl_lt w hi
      by_cases h1 : M f.addr = 1
      · rw [if_pos h1]
        have nz : ∀ a, upd M f.addr 2 a ≠ 0 ↔ M a ≠ 0 := by
          intro a
          by_cases hh : a = f.addr
          · subst hh; simp [h1]
          · rw [upd_ne _ _ hh]
        refine ⟨_, rfl, fun a h => (nz a).2 h, fun _ => by rw [ha]; simp, fun g hg hl => ?_, fun l _ hc => ?_⟩
        · rw [upd_ne _ _ fun hh => ?_]
          rw [hid, lvl_addr w hg r.eok hh] at hl
          omega
        · intro g t u hg hn hl hm hkk
          obtain ⟨c1, c2⟩ := hc g t u hg hn hl ((nz _).1 hm) hkk
          exact ⟨fun h => (nz _).2 (c1 h), fun h => (nz _).2 (c2 h)⟩
      · rw [if_neg h1]
        simp only [hk1]
        obtain ⟨M2, e2, s2⟩ := markShared_ok w k (upd M f.addr 1) rt (by omega) (by omega)
        obtain ⟨M3, e3, s3⟩ := markShared_ok w k M2 ru (by omega) (by omega)
        simp only [e2, e3]
        have hmono : ∀ a, M a ≠ 0 → M3 a ≠ 0 := fun a h => s3.mono a (s2.mono a (by
          by_cases hh : a = f.addr
          · subst hh; simp
          · rwa [upd_ne _ _ hh]))
        have hself : M3 f.addr ≠ 0 := s3.mono _ (s2.mono _ (by simp))
        have hab : ∀ g, s.EOK g → s.ord.lvl g.id ≤ s.ord.lvl f.id → g.addr ≠ f.addr → M3 g.addr = M g.addr := by
          intro g hg hl hne
          rw [s3.above g hg (by omega), s2.above g hg (by omega), upd_ne _ _ hne]
        refine ⟨_, rfl, hmono, fun _ => by rw [ha]; exact hself, fun g hg hl => ?_, fun l hl hc => ?_⟩
        · rw [hid] at hl
          exact hab g hg (by omega) fun h => by rw [lvl_addr w hg r.eok h] at hl; omega
        · rw [hid] at hl
          have c1 : MarkClosed s (upd M f.addr 1) (s.ord.lvl f.id + 1) := by
            intro g t u hg hn hl' hm hkk
            have : g.addr ≠ f.addr := fun h => by rw [lvl_addr w hg r.eok h] at hl'; omega
            rw [upd_ne _ _ this] at hm
            obtain ⟨c1, c2⟩ := hc g t u hg hn (by omega) hm hkk
            have up : ∀ a, M a ≠ 0 → upd M f.addr 1 a ≠ 0 := fun a h => by
              by_cases hh : a = f.addr
              · subst hh; simp
              · rwa [upd_ne _ _ hh]
            exact ⟨fun h => up _ (c1 h), fun h => up _ (c2 h)⟩
          have c3 := s3.closed _ (by omega) (s2.closed _ (by omega) c1)
          intro g t' u' hg hn hl' hm hkk
          by_cases hl2 : s.ord.lvl f.id + 1 ≤ s.ord.lvl g.id
          · exact c3 g t' u' hg hn hl2 hm hkk
          · by_cases hgf : g.addr = f.addr
            · rcases addr_eq w hg r.eok hgf with rfl | rfl
              · rw [hk1] at hkk
                cases hkk
                exact ⟨fun h => s3.mono _ (s2.self h), fun h => s3.self h⟩
              · rw [kids_not hk1] at hkk
                cases hkk
                exact ⟨fun h => s3.mono _ (s2.self (NT.of_not w rt.eok h)), fun h => s3.self (NT.of_not w ru.eok h)⟩
            · rw [hab g hg (by omega) hgf] at hm
              obtain ⟨d1, d2⟩ := hc g t' u' hg hn hl' hm hkk
              exact ⟨fun h => hmono _ (d1 h), fun h => hmono _ (d2 h)⟩
    cases K with
    | zero h hi hF =>
      rw [if_pos (by simp [Edge.isConst, hi])]
      exact ⟨M, rfl, triv fun h' => (hnt h').id w r hi⟩
    | one h hi hF =>
      rw [if_pos (by simp [Edge.isConst, hi])]
      exact ⟨M, rfl, triv fun h' => (hnt h').id w r hi⟩
    | pos h hi hF =>
      rw [if_neg (by simp [Edge.isConst, hi])]
      simp only [h]
      refine ⟨M, rfl, triv fun h' => ?_⟩
      have := hnt h'
      unfold NT at this
      rw [h] at this; cases this
    | nt h hi =>
      rw [if_neg (by simp [Edge.isConst, hi])]
      have h' : typeAux s f = some .nonterminal := h
      simp only [h', ha]
      exact ntcase h hi
    | neg h hi hF =>
      -- a regular edge is not a complemented variable
      exfalso
      obtain ⟨t, u, hk1, rt, ru, l1, l2, -⟩ := r.kids w hi
      obtain ⟨n, hn, hv⟩ := r.eok.node w hi
      have : t.neg = false := by
        simp only [Store.kids, hn, hneg] at hk1
        cases hk1
        simpa using w.thn_pos _ _ hn
      have ht0 : (fun ρ => F (upd ρ f.id true)) = fun _ => false := by rw [hF]; funext ρ; simp
      rw [ht0] at rt
      have := canonical w rt .zero
      subst this
      cases ‹(⟨0, 0, true⟩ : Edge).neg = false›

/-! ## The table of labels -/

/-- The table when the nodes `K` are numbered in their order and the first `t` have been written. -/
def tab (K : List Edge) (t : Nat) : List (Edge × Int) :=
  (K.zipIdx.map fun p => (p.1, if p.2 < t then -(p.2 : Int) - 1 else p.2)).reverse

theorem tab_snoc (K : List Edge) (f : Edge) : tab (K ++ [f]) 0 = (f, (K.length : Int)) :: tab K 0 := by
  simp [tab, List.zipIdx_append]

theorem tab_inj {K K' : List Edge} (h : tab K 0 = tab K' 0) : K = K' := by
  have : ∀ K : List Edge, (tab K 0).reverse.map Prod.fst = K := by
    intro K
    simp only [tab, List.reverse_reverse, List.map_map]
    have : (Prod.fst ∘ fun p : Edge × Nat => (p.1, if p.2 < 0 then -(p.2 : Int) - 1 else (p.2 : Int))) = Prod.fst := rfl
    rw [this, List.zipIdx_map_fst]
  rw [← this K, h, this]

/-- no two keys are on the same node -/
def Distinct (K : List Edge) : Prop := ∀ (i j : Nat) (x y : Edge), K[i]? = some x → K[j]? = some y → x.addr = y.addr → i = j

theorem find_unique {α : Type} {p : α → Bool} : ∀ {l : List α} {x}, x ∈ l → p x = true →
    (∀ y ∈ l, p y = true → y = x) → l.find? p = some x
  | [], _, h, _, _ => by cases h
  | a :: l, x, h, hp, hu => by
    rw [List.find?_cons]
    cases ha : p a with
    | true => simp only; rw [hu a List.mem_cons_self ha]
    | false =>
      simp only
      rcases List.mem_cons.1 h with rfl | h
      · rw [hp] at ha; cases ha
      · exact find_unique h hp fun y hy => hu y (List.mem_cons_of_mem _ hy)

theorem mem_tab {K t p} : p ∈ tab K t ↔ ∃ i x, K[i]? = some x ∧ p = (x, if i < t then -(i : Int) - 1 else i) := by
  simp only [tab, List.mem_reverse, List.mem_map]
  constructor
  · rintro ⟨⟨x, i⟩, h, rfl⟩
    exact ⟨i, x, by simpa using List.mem_zipIdx_iff_getElem?.1 h, rfl⟩
  · rintro ⟨i, x, h, rfl⟩
    exact ⟨(x, i), List.mem_zipIdx_iff_getElem?.2 h, rfl⟩

theorem lookup_tab {K : List Edge} (d : Distinct K) {t i : Nat} {f : Edge} (h : K[i]? = some f) :
    lookup (tab K t) f = some (if i < t then -(i : Int) - 1 else i) := by
  unfold lookup
  rw [find_unique (x := (f, if i < t then -(i : Int) - 1 else (i : Int))) (mem_tab.2 ⟨i, f, h, rfl⟩) (by simp [Edge.same])]
  · rfl
  · rintro y hy hs
    obtain ⟨j, x, hj, rfl⟩ := mem_tab.1 hy
    simp only [Edge.same, Bool.and_eq_true, beq_iff_eq] at hs
    have := d j i x f hj h hs.1
    subst this
    rw [h] at hj; cases hj; rfl

theorem lookup_tab_none {K : List Edge} {t : Nat} {f : Edge} (h : ∀ (i : Nat) (x : Edge), K[i]? = some x → x.same f = false) :
    lookup (tab K t) f = none := by
  unfold lookup
  rw [List.find?_eq_none.2 ?_]
  · rfl
  · intro y hy
    obtain ⟨j, x, hj, rfl⟩ := mem_tab.1 hy
    simp [h j x hj]

theorem flip_tab {K : List Edge} (d : Distinct K) {t : Nat} {f : Edge} (h : K[t]? = some f) :
    flip (tab K t) f = tab K (t + 1) := by
  unfold flip tab
  rw [List.map_reverse, List.map_map]
  congr 1
  apply List.map_congr_left
  rintro ⟨x, i⟩ hx
  have hx' : K[i]? = some x := by simpa using List.mem_zipIdx_iff_getElem?.1 hx
  simp only [Function.comp]
  by_cases hi : i = t
  · subst hi
    rw [h] at hx'; cases hx'
    simp [Edge.same]
  · have : x.same f = false := by
      cases hs : x.same f with
      | false => rfl
      | true =>
        simp only [Edge.same, Bool.and_eq_true, beq_iff_eq] at hs
        exact absurd (d i t x f hx' h hs.1) hi
    rw [this]
    simp only [Bool.false_eq_true, if_false]
    have : (i < t) = (i < t + 1) := propext (by omega)
    simp only [this]

/-! ## Numbering -/

/-- The nodes already numbered (mark 0), from level `l` on, are closed downwards. -/
def NumClosed (s : Store) (M0 M : Nat → Nat) (l : Nat) : Prop :=
  ∀ g t u, s.EOK g → NT s g → l ≤ s.ord.lvl g.id → M0 g.addr ≠ 0 → M g.addr = 0 → s.kids g = some (t, u) →
    (NT s t → M t.addr = 0) ∧ (NT s u → M u.addr = 0)

structure NumSpec (s : Store) (M0 : Nat → Nat) (f : Edge) (M M' : Nat → Nat) (new : List Edge) : Prop where
  mono : ∀ a, M' a = M a ∨ M' a = 0
  self : NT s f → M' f.addr = 0
  above : ∀ g, s.EOK g → s.ord.lvl g.id < s.ord.lvl f.id → M' g.addr = M g.addr
  fresh : ∀ x ∈ new, M x.addr ≠ 0 ∧ M' x.addr = 0 ∧ NT s x ∧ s.EOK x ∧ s.ord.lvl f.id ≤ s.ord.lvl x.id
  distinct : (new.map (·.addr)).Nodup
  closed : ∀ l, l ≤ s.ord.lvl f.id → NumClosed s M0 M l → NumClosed s M0 M' l

theorem numberShared_ok {s : Store} (w : s.WF) (M0 : Nat → Nat) : ∀ (k : Nat) {f : Edge} {F} (M : Nat → Nat) (K : List Edge),
    Rep s f F → 1 ≤ k → s.ord.numVars + 1 ≤ k + s.ord.lvl f.id →
    ∃ M' new, numberShared s k (M, tab K 0, K.length) f = some (M', tab (K ++ new) 0, (K ++ new).length) ∧
      NumSpec s M0 f M M' new
  | 0, _, _, _, _, _, h, _ => by omega
  | k + 1, f, F, M, K, r, _, hk => by
    unfold numberShared
    have triv : (NT s f → M f.addr = 0) → ∃ M' new, some (M, tab K 0, K.length) = some (M', tab (K ++ new) 0, (K ++ new).length) ∧
        NumSpec s M0 f M M' new := fun h =>
      ⟨M, [], by simp, fun _ => .inl rfl, h, fun _ _ _ => rfl, (fun x hx => nomatch hx), by simp, fun _ _ h => h⟩
    cases kind w r with
    | zero h hi hF =>
      rw [if_pos (by simp [Edge.isConst, hi])]; exact triv fun h' => absurd hi (h'.id w r)
    | one h hi hF =>
      rw [if_pos (by simp [Edge.isConst, hi])]; exact triv fun h' => absurd hi (h'.id w r)
    | pos h hi hF =>
      rw [if_neg (by simp [Edge.isConst, hi])]
      simp only [h]
      exact triv fun h' => by unfold NT at h'; rw [h] at h'; cases h'
    | neg h hi hF =>
      rw [if_neg (by simp [Edge.isConst, hi])]
      simp only [h]
      exact triv fun h' => by unfold NT at h'; rw [h] at h'; cases h'
    | nt h hi =>
      rw [if_neg (by simp [Edge.isConst, hi])]
      have h' : typeAux s f = some .nonterminal := h
      simp only [h']
      by_cases hm : M f.addr = 0
      · rw [if_pos hm]; exact triv fun _ => hm
      rw [if_neg hm]
      obtain ⟨t, u, hk1, rt, ru, l1, l2, -⟩ := r.kids w hi
      have hlt := r.eok.lvl_lt w hi
      simp only [hk1]
      -- the table with `f`, if it gets a label
      obtain ⟨pre, hp1, hp2, hp3⟩ : ∃ pre : List Edge, (if M f.addr = 2 then ((f, ((K.length : Nat) : Int)) :: tab K 0, K.length + 1)
          else (tab K 0, K.length)) = (tab (K ++ pre) 0, (K ++ pre).length) ∧ (pre = [] ∨ pre = [f]) ∧ True := by
        by_cases h2 : M f.addr = 2
        · exact ⟨[f], by rw [if_pos h2, tab_snoc]; simp, .inr rfl, trivial⟩
        · exact ⟨[], by rw [if_neg h2]; simp, .inl rfl, trivial⟩
      simp only [hp1]
      obtain ⟨M2, n2, e2, s2⟩ := numberShared_ok w M0 k (upd M f.addr 0) (K ++ pre) rt (by omega) (by omega)
      obtain ⟨M3, n3, e3, s3⟩ := numberShared_ok w M0 k M2 (K ++ pre ++ n2) ru (by omega) (by omega)
      simp only [e2, e3]
      have hz : ∀ a, M3 a = M a ∨ M3 a = 0 := by
        intro a
        rcases s3.mono a with h | h
        · rcases s2.mono a with h2 | h2
          · rw [h, h2]
            by_cases ha : a = f.addr
            · subst ha; right; simp
            · left; rw [upd_ne _ _ ha]
          · right; rw [h, h2]
        · exact .inr h
      have z2 : ∀ a, M2 a = 0 → M3 a = 0 := fun a h => by
        rcases s3.mono a with h3 | h3
        · rw [h3, h]
        · exact h3
      have hself : M3 f.addr = 0 := z2 _ (by
        rcases s2.mono f.addr with h | h
        · rw [h]; simp
        · exact h)
      have hab : ∀ g, s.EOK g → s.ord.lvl g.id ≤ s.ord.lvl f.id → g.addr ≠ f.addr → M3 g.addr = M g.addr := by
        intro g hg hl hne
        rw [s3.above g hg (by omega), s2.above g hg (by omega), upd_ne _ _ hne]
      have ne2 : ∀ x ∈ n2, x.addr ≠ f.addr ∧ M x.addr ≠ 0 := by
        intro x hx
        have := (s2.fresh x hx).1
        by_cases ha : x.addr = f.addr
        · rw [ha] at this; simp at this
        · rw [upd_ne _ _ ha] at this; exact ⟨ha, this⟩
      have ne3 : ∀ x ∈ n3, x.addr ≠ f.addr ∧ M2 x.addr ≠ 0 ∧ M x.addr ≠ 0 := by
        intro x hx
        have h1 := (s3.fresh x hx).1
        have h2 : upd M f.addr 0 x.addr ≠ 0 := by
          rcases s2.mono x.addr with h | h
          · rw [← h]; exact h1
          · exact absurd h h1
        by_cases ha : x.addr = f.addr
        · rw [ha] at h2; simp at h2
        · rw [upd_ne _ _ ha] at h2; exact ⟨ha, h1, h2⟩
      refine ⟨M3, pre ++ n2 ++ n3, by simp only [List.append_assoc], hz, fun _ => hself, fun g hg hl => ?_, ?_, ?_, ?_⟩
      · exact hab g hg (by omega) fun h => by rw [lvl_addr w hg r.eok h] at hl; omega
      · intro x hx
        rw [List.mem_append, List.mem_append] at hx
        rcases hx with (hx | hx) | hx
        · rcases hp2 with rfl | rfl
          · cases hx
          · rw [List.mem_singleton] at hx
            subst hx
            exact ⟨hm, hself, h, r.eok, Nat.le_refl _⟩
        · obtain ⟨q1, q2, q3, q4, q5⟩ := s2.fresh x hx
          exact ⟨(ne2 x hx).2, z2 _ q2, q3, q4, by omega⟩
        · obtain ⟨q1, q2, q3, q4, q5⟩ := s3.fresh x hx
          exact ⟨(ne3 x hx).2.2, q2, q3, q4, by omega⟩
      · simp only [List.map_append]
        rw [List.nodup_append, List.nodup_append]
        refine ⟨⟨?_, s2.distinct, ?_⟩, s3.distinct, ?_⟩
        · rcases hp2 with rfl | rfl <;> simp
        · intro a ha b hb hab'
          obtain ⟨y, hy, rfl⟩ := List.mem_map.1 hb
          rcases hp2 with rfl | rfl
          · cases ha
          · simp only [List.map_cons, List.map_nil, List.mem_singleton] at ha
            exact (ne2 y hy).1 (by rw [← hab', ha])
        · intro a ha b hb hab'
          obtain ⟨y, hy, rfl⟩ := List.mem_map.1 hb
          rw [List.mem_append] at ha
          rcases ha with ha | ha
          · rcases hp2 with rfl | rfl
            · cases ha
            · simp only [List.map_cons, List.map_nil, List.mem_singleton] at ha
              exact (ne3 y hy).1 (by rw [← hab', ha])
          · obtain ⟨x, hx, rfl⟩ := List.mem_map.1 ha
            exact (ne3 y hy).2.1 (by rw [← hab']; exact (s2.fresh x hx).2.1)
      · intro l hl hc
        have c1 : NumClosed s M0 (upd M f.addr 0) (s.ord.lvl f.id + 1) := by
          intro g t u hg hn hl' h0 hm hkk
          have : g.addr ≠ f.addr := fun h => by rw [lvl_addr w hg r.eok h] at hl'; omega
          rw [upd_ne _ _ this] at hm
          obtain ⟨c1, c2⟩ := hc g t u hg hn (by omega) h0 hm hkk
          have up : ∀ a, M a = 0 → upd M f.addr 0 a = 0 := fun a h => by
            by_cases hh : a = f.addr
            · subst hh; simp
            · rwa [upd_ne _ _ hh]
          exact ⟨fun h => up _ (c1 h), fun h => up _ (c2 h)⟩
        have c3 := s3.closed _ (by omega) (s2.closed _ (by omega) c1)
        intro g t' u' hg hn hl' h0 hm hkk
        by_cases hl2 : s.ord.lvl f.id + 1 ≤ s.ord.lvl g.id
        · exact c3 g t' u' hg hn hl2 h0 hm hkk
        · by_cases hgf : g.addr = f.addr
          · rcases addr_eq w hg r.eok hgf with rfl | rfl
            · rw [hk1] at hkk
              cases hkk
              exact ⟨fun h => z2 _ (s2.self h), fun h => s3.self h⟩
            · rw [kids_not hk1] at hkk
              cases hkk
              exact ⟨fun h => z2 _ (s2.self (NT.of_not w rt.eok h)), fun h => s3.self (NT.of_not w ru.eok h)⟩
          · rw [hab g hg (by omega) hgf] at hm
            obtain ⟨d1, d2⟩ := hc g t' u' hg hn hl' h0 hm hkk
            have hd : ∀ a, M a = 0 → M3 a = 0 := fun a h => by
              rcases hz a with h3 | h3
              · rw [h3, h]
              · exact h3
            exact ⟨fun h => hd _ (d1 h), fun h => hd _ (d2 h)⟩

end Cal.Dump
