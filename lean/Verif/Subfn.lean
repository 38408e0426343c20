import Verif.Walk

/-!
# Size and profile of a function

What `Cal_BddSize` and `Cal_BddProfile` count, said about functions: the functions that are left when
the first variables of the order are given values.
-/

namespace Cal

/-! ## Specification -/

/-- `F` with the variables of index below `k` fixed as in `ρ` -/
def restr (o : Order) (k : Nat) (ρ : Asg) (F : BFn) : BFn :=
  fun σ => F fun v => if 1 ≤ v ∧ v ≤ o.numVars ∧ o.idToIndex v < k then ρ v else σ v

/-- `G` is what is left of `F` when the first variables of the order, some number of them, are given
values. -/
def Subfn (o : Order) (F G : BFn) : Prop := ∃ k ρ, G = restr o k ρ F

/-- A function is counted in entry `i` of a profile: its top variable has index `i`, or it is constant
and `i` is the number of variables. -/
def AtEntry (o : Order) (i : Nat) (G : BFn) : Prop :=
  if i = o.numVars then G = (fun _ => true) ∨ G = (fun _ => false)
  else ∃ v, TopVar o G v ∧ o.idToIndex v = i

/-- `n` is the number of functions with property `P`. -/
def Number (P : BFn → Prop) (n : Nat) : Prop :=
  ∃ L : List BFn, L.Nodup ∧ (∀ G, G ∈ L ↔ P G) ∧ L.length = n

/-- `n` is the number of functions with property `P` when a function and its complement count as
one: there is a list of `n` of them, none equal to another or to its complement, in which every one of
them occurs or its complement does. -/
def NumberUpToNot (P : BFn → Prop) (n : Nat) : Prop :=
  ∃ L : List BFn, L.Pairwise (fun G H => G ≠ H ∧ G ≠ H.not) ∧ (∀ G ∈ L, P G) ∧
    (∀ G, P G → G ∈ L ∨ G.not ∈ L) ∧ L.length = n

/-- The count `negout` asks for. -/
def Counts (negout : Bool) (P : BFn → Prop) (n : Nat) : Prop :=
  if negout then NumberUpToNot P n else Number P n

theorem BFn.not_not (F : BFn) : F.not.not = F := by funext ρ; simp [BFn.not]
theorem BFn.not_inj {F G : BFn} (h : F.not = G.not) : F = G := by
  rw [← F.not_not, h, G.not_not]

/-! ## Edges below and functions left -/

theorem in_range {s : Store} (w : s.WF) {e : Edge} (he : s.EOK e) (hc : e.id ≠ 0) :
    1 ≤ e.id ∧ e.id ≤ s.ord.numVars ∧ s.ord.lvl e.id = s.ord.idToIndex e.id := by
  obtain ⟨n, hn, hv⟩ := he.node w hc
  have := w.var_range _ _ hn
  rw [hv] at this
  exact ⟨this.1, this.2, by simp [Order.lvl, hc]⟩

theorem restr_top {s : Store} (w : s.WF) {e F} (r : Rep s e F) {k} (hk : k ≤ s.ord.lvl e.id) (ρ : Asg) :
    restr s.ord k ρ F = F := by
  funext σ
  unfold restr
  refine r.agree w _ _ fun v h1 h2 h3 => ?_
  rw [if_neg]
  rintro ⟨-, -, h⟩
  rw [Order.lvl, Order.lvl] at h3
  rw [if_neg (show v ≠ 0 by omega)] at h3
  rw [Order.lvl] at hk
  omega

theorem Below.lvl_le {s : Store} (w : s.WF) {e x : Edge} (h : Below s e x) (he : s.EOK e) :
    s.ord.lvl e.id ≤ s.ord.lvl x.id := by
  induction h with
  | refl => exact Nat.le_refl _
  | @thn e t u x hk b ih =>
    have hc : e.id ≠ 0 := fun h => by rw [kids_const w he h] at hk; cases hk
    obtain ⟨t', u', hk', ht, hu, l1, l2⟩ := kids_spec w he hc
    rw [hk] at hk'; cases hk'
    have := ih ht; omega
  | @els e t u x hk b ih =>
    have hc : e.id ≠ 0 := fun h => by rw [kids_const w he h] at hk; cases hk
    obtain ⟨t', u', hk', ht, hu, l1, l2⟩ := kids_spec w he hc
    rw [hk] at hk'; cases hk'
    have := ih hu; omega

theorem restr_kid {s : Store} (w : s.WF) {e : Edge} (he : s.EOK e) (hc : e.id ≠ 0) {k}
    (hk : s.ord.lvl e.id < k) (ρ : Asg) (b : Bool) (F : BFn) :
    restr s.ord k ρ (fun σ => F (upd σ e.id b)) = restr s.ord k (upd ρ e.id b) F := by
  obtain ⟨h1, h2, h3⟩ := in_range w he hc
  funext σ
  unfold restr
  show F _ = F _
  congr 1
  funext v
  by_cases h : v = e.id
  · subst h
    rw [upd_same, if_pos ⟨h1, h2, by omega⟩, upd_same]
  · rw [upd_ne _ _ h, upd_ne _ _ h]

theorem Below.restr {s : Store} (w : s.WF) {e x : Edge} (h : Below s e x) :
    ∀ {F G}, Rep s e F → Rep s x G → ∃ ρ, G = restr s.ord (s.ord.lvl x.id) ρ F := by
  induction h with
  | refl =>
    intro F G r r'
    exact ⟨fun _ => false, by rw [restr_top w r (Nat.le_refl _), r.unique w r']⟩
  | @thn e t u x hk b ih =>
    intro F G r r'
    have hc : e.id ≠ 0 := fun h => by rw [kids_const w r.eok h] at hk; cases hk
    obtain ⟨t', u', hk', rt, ru, l1, l2, -⟩ := r.kids w hc
    rw [hk] at hk'; cases hk'
    obtain ⟨ρ, h⟩ := ih rt r'
    exact ⟨_, by rw [h, restr_kid w r.eok hc (Nat.lt_of_lt_of_le l1 (b.lvl_le w rt.eok))]⟩
  | @els e t u x hk b ih =>
    intro F G r r'
    have hc : e.id ≠ 0 := fun h => by rw [kids_const w r.eok h] at hk; cases hk
    obtain ⟨t', u', hk', rt, ru, l1, l2, -⟩ := r.kids w hc
    rw [hk] at hk'; cases hk'
    obtain ⟨ρ, h⟩ := ih ru r'
    exact ⟨_, by rw [h, restr_kid w r.eok hc (Nat.lt_of_lt_of_le l2 (b.lvl_le w ru.eok))]⟩

theorem restr_below {s : Store} (w : s.WF) (k : Nat) (ρ : Asg) : ∀ n {e F}, Rep s e F →
    s.ord.numVars + 1 ≤ n + s.ord.lvl e.id → ∃ x, Below s e x ∧ Rep s x (restr s.ord k ρ F) := by
  intro n
  induction n with
  | zero =>
    intro e F r h
    by_cases hc : e.id = 0
    · refine ⟨e, .refl _, ?_⟩
      have : restr s.ord k ρ F = F := by
        rcases (r.const_iff w).1 hc with h | h <;> rw [h] <;> rfl
      rw [this]; exact r
    · have := r.eok.lvl_lt w hc; omega
  | succ n ih =>
    intro e F r h
    by_cases hc : e.id = 0
    · refine ⟨e, .refl _, ?_⟩
      have : restr s.ord k ρ F = F := by
        rcases (r.const_iff w).1 hc with h | h <;> rw [h] <;> rfl
      rw [this]; exact r
    by_cases hk : k ≤ s.ord.lvl e.id
    · exact ⟨e, .refl _, by rw [restr_top w r hk]; exact r⟩
    obtain ⟨t, u, hkid, rt, ru, l1, l2, -⟩ := r.kids w hc
    have hu : ∀ b, ρ e.id = b → upd ρ e.id b = ρ := by
      rintro b rfl
      funext v
      by_cases h : v = e.id
      · rw [h, upd_same]
      · rw [upd_ne _ _ h]
    cases hb : ρ e.id
    · obtain ⟨x, hx, rx⟩ := ih ru (by omega)
      rw [restr_kid w r.eok hc (by omega), hu _ hb] at rx
      exact ⟨x, .els hkid hx, rx⟩
    · obtain ⟨x, hx, rx⟩ := ih rt (by omega)
      rw [restr_kid w r.eok hc (by omega), hu _ hb] at rx
      exact ⟨x, .thn hkid hx, rx⟩

/-- The functions of the edges below are the functions that are left. -/
theorem below_iff {s : Store} (w : s.WF) {e F} (r : Rep s e F) (G : BFn) :
    (∃ x, Below s e x ∧ Rep s x G) ↔ Subfn s.ord F G := by
  constructor
  · rintro ⟨x, hx, rx⟩
    obtain ⟨ρ, h⟩ := hx.restr w r rx
    exact ⟨_, ρ, h⟩
  · rintro ⟨k, ρ, rfl⟩
    exact restr_below w k ρ _ r (Nat.le_add_right _ _)

/-! ## Lists of edges from the visited nodes -/

/-- the edges visited, in both polarities where the mark says so -/
def edgesOf (l : List (Edge × Nat)) : List Edge :=
  l.flatMap fun p => (if p.2 &&& 1 ≠ 0 then [⟨p.1.id, p.1.addr, false⟩] else []) ++
    (if p.2 &&& 2 ≠ 0 then [⟨p.1.id, p.1.addr, true⟩] else [])

theorem edgesOf_length (l : List (Edge × Nat)) : (edgesOf l).length = total countNodes l := by
  induction l with
  | nil => rfl
  | cons p l ih =>
    simp only [edgesOf, List.flatMap_cons, List.length_append] at ih ⊢
    simp only [total, List.map_cons, List.sum_cons, countNodes] at ih ⊢
    rw [ih]
    split <;> split <;> simp_all

theorem mem_edgesOf {l : List (Edge × Nat)} {x : Edge} : x ∈ edgesOf l ↔
    ∃ p ∈ l, p.1.id = x.id ∧ p.1.addr = x.addr ∧ p.2 &&& (1 <<< x.neg.toNat) ≠ 0 := by
  simp only [edgesOf, List.mem_flatMap, List.mem_append]
  refine exists_congr fun p => and_congr_right fun _ => ?_
  cases x with
  | mk i a b =>
    cases b
    · simp only [Bool.toNat_false, Nat.shiftLeft_zero]
      split <;> split <;> simp_all [eq_comm]
    · simp only [Bool.toNat_true]
      have : 1 <<< 1 = 2 := rfl
      rw [this]
      split <;> split <;> simp_all [eq_comm]

theorem edgesOf_nodup {l : List (Edge × Nat)} (h : (addrs l).Nodup) : (edgesOf l).Nodup := by
  induction l with
  | nil => exact List.nodup_nil
  | cons p l ih =>
    rw [addrs, List.map_cons, List.nodup_cons] at h
    rw [show edgesOf (p :: l) = _ ++ edgesOf l from rfl, List.nodup_append]
    refine ⟨?_, ih h.2, ?_⟩
    · simp only
      split <;> split <;> simp
    · intro a ha b hb e
      subst e
      obtain ⟨q, hq, -, e, -⟩ := mem_edgesOf.1 hb
      apply h.1
      have : a.addr = p.1.addr := by
        rw [List.mem_append] at ha
        rcases ha with ha | ha <;> split at ha <;> simp_all
      exact List.mem_map.2 ⟨q, hq, by rw [e, this]⟩

/-- one polarity of each visited node -/
def repsOf (l : List (Edge × Nat)) : List Edge :=
  l.map fun p => ⟨p.1.id, p.1.addr, decide (p.2 &&& 1 = 0)⟩

/-! ## Counting -/

variable {s : Store}

theorem den_inj (w : s.WF) {δ} (hδ : Lab s δ) {e f : Edge} (he : s.EOK e) (hf : s.EOK f)
    (h : den δ e = den δ f) : e = f :=
  canonical w (hδ.rep w he) (by rw [h]; exact hδ.rep w hf)

theorem nodup_map_inj {α β : Type} {f : α → β} : ∀ {l : List α},
    (∀ x ∈ l, ∀ y ∈ l, f x = f y → x = y) → l.Nodup → (l.map f).Nodup
  | [], _, _ => List.nodup_nil
  | a :: l, hi, h => by
    rw [List.nodup_cons] at h
    rw [List.map_cons, List.nodup_cons]
    refine ⟨fun hm => ?_, nodup_map_inj (fun x hx y hy => hi x (by simp [hx]) y (by simp [hy])) h.2⟩
    obtain ⟨y, hy, e⟩ := List.mem_map.1 hm
    exact h.1 (hi y (by simp [hy]) a (by simp) e ▸ hy)

theorem nodup_length_le {α : Type} : ∀ {l l' : List α}, l.Nodup → (∀ x ∈ l, x ∈ l') →
    l.length ≤ l'.length
  | [], _, _, _ => Nat.zero_le _
  | a :: l, l', h, hs => by
    rw [List.nodup_cons] at h
    obtain ⟨l1, l2, rfl⟩ := List.append_of_mem (hs a (by simp))
    have := nodup_length_le (l := l) (l' := l1 ++ l2) h.2 fun x hx => by
      have := hs x (by simp [hx])
      simp only [List.mem_append, List.mem_cons] at this ⊢
      rcases this with h' | rfl | h'
      · exact Or.inl h'
      · exact absurd hx h.1
      · exact Or.inr h'
    simp only [List.length_append, List.length_cons] at this ⊢
    omega

theorem pairwise_map_of_nodup {α β : Type} {f : α → Nat} {g : α → β} {R : β → β → Prop} :
    ∀ {l : List α}, (∀ x ∈ l, ∀ y ∈ l, f x ≠ f y → R (g x) (g y)) → (l.map f).Nodup →
      (l.map g).Pairwise R
  | [], _, _ => List.Pairwise.nil
  | a :: l, hi, h => by
    rw [List.map_cons, List.nodup_cons] at h
    rw [List.map_cons, List.pairwise_cons]
    refine ⟨fun y hy => ?_, pairwise_map_of_nodup (fun x hx y hy => hi x (by simp [hx]) y (by simp [hy])) h.2⟩
    obtain ⟨x, hx, rfl⟩ := List.mem_map.1 hy
    exact hi a (by simp) x (by simp [hx]) fun e => h.1 (List.mem_map.2 ⟨x, hx, e.symm⟩)

/-- The number is unique. -/
theorem Counts.unique {negout P n n'} (h : Counts negout P n) (h' : Counts negout P n') : n = n' := by
  have one : ∀ {n n'}, Counts negout P n → Counts negout P n' → n ≤ n' := by
    intro n n' h h'
    cases negout with
    | false =>
      obtain ⟨L, a1, a2, rfl⟩ := h
      obtain ⟨L', b1, b2, rfl⟩ := h'
      exact nodup_length_le a1 fun G hG => (b2 G).2 ((a2 G).1 hG)
    | true =>
      obtain ⟨L, a1, a2, a3, rfl⟩ := h
      obtain ⟨L', b1, b2, b3, rfl⟩ := h'
      open Classical in
      have := nodup_length_le (l := L.map fun G => if G ∈ L' then G else G.not) (l' := L') ?_ ?_
      · simpa using this
      · clear h' a2 a3
        rw [List.Nodup, List.pairwise_map]
        refine a1.imp ?_
        rintro G H ⟨h1, h2⟩ e
        split at e <;> split at e
        · exact h1 e
        · exact h2 e
        · exact h2 (by rw [← e, BFn.not_not])
        · exact h1 (BFn.not_inj e)
      · intro G hG
        obtain ⟨H, hH, rfl⟩ := List.mem_map.1 hG
        split
        · assumption
        · rename_i hn; exact (b3 H (a2 H hH)).resolve_left hn
  exact Nat.le_antisymm (one h h') (one h' h)

theorem restr_not (o : Order) (k : Nat) (ρ : Asg) (F : BFn) : restr o k ρ F.not = (restr o k ρ F).not := rfl

theorem subfn_not {o : Order} {F G : BFn} : Subfn o F.not G ↔ Subfn o F G.not := by
  constructor
  · rintro ⟨k, ρ, rfl⟩; exact ⟨k, ρ, by rw [restr_not, BFn.not_not]⟩
  · rintro ⟨k, ρ, h⟩; exact ⟨k, ρ, by rw [restr_not, ← h, BFn.not_not]⟩

/-- The number does not change if every function is complemented. -/
theorem Counts.not {negout P n} (h : Counts negout P n) : Counts negout (fun G => P G.not) n := by
  cases negout with
  | false =>
    obtain ⟨L, a1, a2, rfl⟩ := h
    refine ⟨L.map BFn.not, nodup_map_inj (fun _ _ _ _ h => BFn.not_inj h) a1, fun G => ?_, by simp⟩
    show _ ↔ P G.not
    rw [← a2, List.mem_map]
    constructor
    · rintro ⟨H, hH, rfl⟩; rw [BFn.not_not]; exact hH
    · intro h; exact ⟨_, h, G.not_not⟩
  | true =>
    obtain ⟨L, a1, a2, a3, rfl⟩ := h
    refine ⟨L.map BFn.not, ?_, ?_, ?_, by simp⟩
    · rw [List.pairwise_map]
      refine a1.imp ?_
      rintro G H ⟨h1, h2⟩
      exact ⟨fun e => h1 (BFn.not_inj e), fun e => h2 (BFn.not_inj e)⟩
    · intro G hG
      obtain ⟨H, hH, rfl⟩ := List.mem_map.1 hG
      rw [BFn.not_not]; exact a2 H hH
    · intro G hG
      rcases a3 _ hG with h | h
      · exact Or.inl (List.mem_map.2 ⟨_, h, G.not_not⟩)
      · rw [BFn.not_not] at h; exact Or.inr (List.mem_map.2 ⟨_, h, rfl⟩)

theorem Counts.congr {negout P Q n} (h : Counts negout P n) (hpq : ∀ G, P G ↔ Q G) :
    Counts negout Q n := by
  rw [show Q = P from funext fun G => propext (hpq G).symm]; exact h

/-- Counting visited nodes is counting functions. `Q` picks some of them. -/
theorem counts_ok (w : s.WF) (negout : Bool) {l : List (Edge × Nat)} (nd : (addrs l).Nodup)
    (hl : ∀ p ∈ l, s.EOK p.1 ∧ p.2 ≠ 0 ∧ p.2 < 4) {P : BFn → Prop}
    (hP : ∀ G, P G ↔ ∃ x, s.EOK x ∧ Rep s x G ∧
      ∃ p ∈ l, p.1.addr = x.addr ∧ p.2 &&& (1 <<< x.neg.toNat) ≠ 0) :
    Counts negout P (total (countFn negout) l) := by
  obtain ⟨δ, hδ⟩ := w.exists_lab
  have eok : ∀ p ∈ l, ∀ b, s.EOK ⟨p.1.id, p.1.addr, b⟩ := fun p hp b => (hl p hp).1
  cases negout with
  | false =>
    refine ⟨(edgesOf l).map (den δ), ?_, ?_, ?_⟩
    · refine nodup_map_inj ?_ (edgesOf_nodup nd)
      intro x hx y hy e
      obtain ⟨p, hp, a1, a2, -⟩ := mem_edgesOf.1 hx
      obtain ⟨q, hq, b1, b2, -⟩ := mem_edgesOf.1 hy
      refine den_inj w hδ ?_ ?_ e
      · have := eok p hp x.neg; rw [a1, a2] at this; exact this
      · have := eok q hq y.neg; rw [b1, b2] at this; exact this
    · intro G
      rw [hP, List.mem_map]
      constructor
      · rintro ⟨x, hx, rfl⟩
        obtain ⟨p, hp, a1, a2, a3⟩ := mem_edgesOf.1 hx
        have hx : s.EOK x := by have := eok p hp x.neg; rw [a1, a2] at this; exact this
        exact ⟨x, hx, hδ.rep w hx, p, hp, a2, a3⟩
      · rintro ⟨x, hx, r, p, hp, a2, a3⟩
        exact ⟨x, mem_edgesOf.2 ⟨p, hp, (hl p hp).1.id_eq w hx a2, a2, a3⟩, hδ.rep_eq r⟩
    · rw [List.length_map, edgesOf_length]; rfl
  | true =>
    have mk : ∀ p ∈ l, p.2 &&& (1 <<< (decide (p.2 &&& 1 = 0)).toNat) ≠ 0 := by
      intro p hp
      obtain ⟨-, h1, h2⟩ := hl p hp
      generalize p.2 = v at *
      have : v = 1 ∨ v = 2 ∨ v = 3 := by omega
      rcases this with rfl | rfl | rfl <;> decide
    refine ⟨(repsOf l).map (den δ), ?_, ?_, ?_, ?_⟩
    · rw [repsOf, List.map_map]
      refine pairwise_map_of_nodup (f := fun p : Edge × Nat => p.1.addr) ?_ nd
      intro p hp q hq hne
      constructor
      · intro e
        have := congrArg Edge.addr (den_inj w hδ (eok p hp _) (eok q hq _) e)
        exact hne this
      · intro e
        rw [show BFn.not ((den δ ∘ _) q) = den δ (Edge.not _) from (den_not δ _).symm] at e
        have := congrArg Edge.addr (den_inj w hδ (eok p hp _) (eok q hq _).not e)
        exact hne this
    · intro G hG
      obtain ⟨x, hx, rfl⟩ := List.mem_map.1 hG
      obtain ⟨p, hp, rfl⟩ := List.mem_map.1 hx
      exact (hP _).2 ⟨_, eok p hp _, hδ.rep w (eok p hp _), p, hp, rfl, mk p hp⟩
    · intro G hG
      obtain ⟨x, hx, r, p, hp, a2, a3⟩ := (hP G).1 hG
      have hid := (hl p hp).1.id_eq w hx a2
      have hm : (⟨p.1.id, p.1.addr, decide (p.2 &&& 1 = 0)⟩ : Edge) ∈ repsOf l :=
        List.mem_map.2 ⟨p, hp, rfl⟩
      by_cases hb : decide (p.2 &&& 1 = 0) = x.neg
      · left
        refine List.mem_map.2 ⟨_, hm, ?_⟩
        rw [show (⟨p.1.id, p.1.addr, decide (p.2 &&& 1 = 0)⟩ : Edge) = x from Edge.ext' hid a2 hb]
        exact hδ.rep_eq r
      · right
        refine List.mem_map.2 ⟨_, hm, ?_⟩
        rw [show (⟨p.1.id, p.1.addr, decide (p.2 &&& 1 = 0)⟩ : Edge) = x.not from
          Edge.ext' hid a2 (by
            show decide (p.2 &&& 1 = 0) = !x.neg
            revert hb
            cases decide (p.2 &&& 1 = 0) <;> cases x.neg <;> simp)]
        rw [den_not, hδ.rep_eq r]
        rfl
    · rw [List.length_map, repsOf, List.length_map]
      show _ = total countNoNodes l
      clear nd hP eok mk
      induction l with
      | nil => rfl
      | cons p l ih =>
        have h1 := (hl p (by simp)).2.1
        have := ih fun q hq => hl q (by simp [hq])
        simp only [total, List.length_cons, List.map_cons, List.sum_cons, countNoNodes] at this ⊢
        rw [if_pos (by omega)]
        omega

theorem f2_eok : ∀ {fs : List Edge} {Fs}, F2 (Rep s) fs Fs → ∀ f ∈ fs, s.EOK f := by
  intro fs Fs h
  induction h with
  | nil => simp
  | cons r _ ih =>
    intro f hf
    rcases List.mem_cons.1 hf with rfl | hf
    · exact r.eok
    · exact ih f hf

theorem f2_below (w : s.WF) {fs : List Edge} {Fs} (h : F2 (Rep s) fs Fs) (G : BFn) :
    (∃ F ∈ Fs, Subfn s.ord F G) ↔ ∃ f ∈ fs, ∃ x, Below s f x ∧ Rep s x G := by
  induction h with
  | nil => simp
  | cons r _ ih => simp only [List.mem_cons, exists_eq_or_imp, ih, below_iff w r]

theorem subfns_iff (w : s.WF) {fs : List Edge} {Fs} (h : F2 (Rep s) fs Fs) {l : List (Edge × Nat)}
    (hx : ∀ x, (∃ f ∈ fs, Below s f x) ↔ s.EOK x ∧ ∃ p ∈ l, p.1.addr = x.addr ∧
        p.2 &&& (1 <<< x.neg.toNat) ≠ 0) (G : BFn) :
    (∃ F ∈ Fs, Subfn s.ord F G) ↔ ∃ x, s.EOK x ∧ Rep s x G ∧
      ∃ p ∈ l, p.1.addr = x.addr ∧ p.2 &&& (1 <<< x.neg.toNat) ≠ 0 := by
  rw [f2_below w h]
  constructor
  · rintro ⟨f, hf, x, hb, r⟩
    obtain ⟨h1, h2⟩ := (hx x).1 ⟨f, hf, hb⟩
    exact ⟨x, h1, r, h2⟩
  · rintro ⟨x, h1, r, h2⟩
    obtain ⟨f, hf, hb⟩ := (hx x).2 ⟨h1, h2⟩
    exact ⟨f, hf, x, hb, r⟩

theorem atEntry_iff (w : s.WF) {x G} (r : Rep s x G) (i : Nat) : AtEntry s.ord i G ↔ slot s x = i := by
  unfold AtEntry slot
  by_cases hc : x.id = 0
  · have hcc : x.isConst = true := by simp [Edge.isConst, hc]
    have hG := (r.const_iff w).1 hc
    simp only [hcc, if_true]
    constructor
    · intro h
      split at h
      · rename_i hi; exact hi.symm
      · obtain ⟨v, hv, -⟩ := h
        exfalso
        apply hv.dep
        rcases hG with h | h <;> rw [h] <;> exact fun _ _ => rfl
    · rintro rfl; rw [if_pos rfl]; exact hG
  · have hcc : ¬ x.isConst = true := by simp [Edge.isConst, hc]
    obtain ⟨h1, h2, h3⟩ := in_range w r.eok hc
    have hlt := r.eok.lvl_lt w hc
    have ht := r.topVar w hc
    rw [if_neg hcc]
    constructor
    · intro h
      split at h
      · exact absurd ((r.const_iff w).2 h) hc
      · obtain ⟨v, hv, hi⟩ := h
        have : v = x.id := by
          by_cases hlt : s.ord.idToIndex v < s.ord.idToIndex x.id
          · exact absurd (ht.first v hv.rng.1 hv.rng.2 hlt) hv.dep
          · by_cases hlt' : s.ord.idToIndex x.id < s.ord.idToIndex v
            · exact absurd (hv.first x.id h1 h2 hlt') ht.dep
            · have e : s.ord.idToIndex v = s.ord.idToIndex x.id := by omega
              rw [← w.ord.left v hv.rng.1 hv.rng.2, e, w.ord.left _ h1 h2]
        rw [h3, ← this]; exact hi
    · rintro rfl
      rw [if_neg (by omega)]
      exact ⟨x.id, ht, h3.symm⟩

theorem total_slots (cnt : Nat → Nat) (n : Nat) {l : List (Edge × Nat)} (h : ∀ p ∈ l, slot s p.1 ≤ n) :
    ((List.range (n + 1)).map (slotTotal s cnt l)).sum = total cnt l := by
  induction l with
  | nil =>
    generalize n + 1 = k
    induction k with
    | zero => rfl
    | succ k ih =>
      rw [List.range_succ, List.map_append, List.sum_append, ih]; rfl
  | cons p l ih =>
    have ih := ih fun q hq => h q (by simp [hq])
    have hp := h p (by simp)
    have : ((List.range (n + 1)).map (slotTotal s cnt (p :: l))).sum =
        ((List.range (n + 1)).map fun i => if slot s p.1 = i then cnt p.2 else 0).sum +
        ((List.range (n + 1)).map (slotTotal s cnt l)).sum := by
      generalize n + 1 = k
      induction k with
      | zero => rfl
      | succ k ih =>
        simp only [List.range_succ, List.map_append, List.sum_append, ih, List.map_cons, List.map_nil,
          List.sum_cons, List.sum_nil, slotTotal_cons]
        omega
    rw [this, ih]
    have one : ∀ k, ((List.range k).map fun i => if slot s p.1 = i then cnt p.2 else 0).sum =
        if slot s p.1 < k then cnt p.2 else 0 := by
      intro k
      induction k with
      | zero => rfl
      | succ k ih =>
        simp only [List.range_succ, List.map_append, List.sum_append, ih, List.map_cons, List.map_nil,
          List.sum_cons, List.sum_nil]
        by_cases c1 : slot s p.1 < k
        · rw [if_pos c1, if_neg (by omega), if_pos (by omega)]; omega
        · by_cases c2 : slot s p.1 = k
          · rw [if_neg c1, if_pos c2, if_pos (by omega)]; omega
          · rw [if_neg c1, if_neg c2, if_neg (by omega)]; rfl
    rw [one, if_pos (by omega)]
    simp [total]

/-- `Cal_BddSize`, `Cal_BddSizeMultiple`: the number of distinct functions left; marks are clear
afterwards. -/
theorem sizeOf_ok (w : s.WF) (negout : Bool) {fs : List Edge} {Fs} (h : F2 (Rep s) fs Fs) :
    ∃ n, sizeOf s negout (fun _ => 0) fs = some (n, fun _ => 0) ∧
      Counts negout (fun G => ∃ F ∈ Fs, Subfn s.ord F G) n := by
  obtain ⟨M, l, h1, h2, nd, hl, hx⟩ := traverse_ok w (f2_eok h)
  refine ⟨total (countFn negout) l, ?_, counts_ok w negout nd hl (subfns_iff w h hx)⟩
  have : upd (fun _ => 0) one.addr 0 = fun _ : Nat => 0 := by
    funext a; unfold upd; split <;> rfl
  simp only [sizeOf, this, h1, sizeAll_eq, h2, Option.map_some]

/-- `Cal_BddProfile`, `Cal_BddProfileMultiple`. -/
theorem profileOf_ok (w : s.WF) (negout : Bool) {fs : List Edge} {Fs} (h : F2 (Rep s) fs Fs) :
    ∃ C n, profileOf s negout (fun _ => 0) fs = some (C, fun _ => 0) ∧
      sizeOf s negout (fun _ => 0) fs = some (n, fun _ => 0) ∧
      ((List.range (s.ord.numVars + 1)).map C).sum = n ∧
      ∀ i, i ≤ s.ord.numVars →
        Counts negout (fun G => AtEntry s.ord i G ∧ ∃ F ∈ Fs, Subfn s.ord F G) (C i) := by
  obtain ⟨M, l, h1, h2, nd, hl, hx⟩ := traverse_ok w (f2_eok h)
  have h0 : upd (fun _ => 0) one.addr 0 = fun _ : Nat => 0 := by
    funext a; unfold upd; split <;> rfl
  have hz : (fun i => 0 + slotTotal s (countFn negout) l i) = slotTotal s (countFn negout) l := by
    funext i; omega
  refine ⟨slotTotal s (countFn negout) l, total (countFn negout) l, ?_, ?_, ?_, ?_⟩
  · simp only [profileOf, h0, h1, profileAll_eq w _ _ _ _ _ (f2_eok h), h2, Option.map_some, hz]
  · simp only [sizeOf, h0, h1, sizeAll_eq, h2, Option.map_some]
  · refine total_slots _ _ fun p hp => ?_
    unfold slot
    split
    · exact Nat.le_refl _
    · rename_i hc
      exact Nat.le_of_lt ((hl p hp).1.lvl_lt w (by simpa [Edge.isConst] using hc))
  · intro i _
    refine counts_ok w negout (l := l.filter fun p => slot s p.1 == i) ?_ ?_ ?_
    · exact List.Nodup.sublist (List.Sublist.map _ List.filter_sublist) nd
    · intro p hp; exact hl p (List.mem_filter.1 hp).1
    · intro G
      rw [subfns_iff w h hx]
      constructor
      · rintro ⟨ha, x, h1, r, p, hp, a2, a3⟩
        refine ⟨x, h1, r, p, List.mem_filter.2 ⟨hp, ?_⟩, a2, a3⟩
        have e := (hl p hp).1.id_eq w h1 a2
        have : slot s p.1 = slot s x := by simp [slot, Edge.isConst, e]
        rw [this, (atEntry_iff w r i).1 ha]; simp
      · rintro ⟨x, h1, r, p, hp, a2, a3⟩
        rw [List.mem_filter] at hp
        have e := (hl p hp.1).1.id_eq w h1 a2
        have : slot s p.1 = slot s x := by simp [slot, Edge.isConst, e]
        refine ⟨(atEntry_iff w r i).2 ?_, x, h1, r, p, hp.1, a2, a3⟩
        rw [← this]; simpa using hp.2

end Cal
