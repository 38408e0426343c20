import Verif.FnProfile2

/-!
# Function profiles: counting
-/

namespace Cal

variable {s : Store}

/-! ## Specification -/

/-- `G` is what is left of `F` when all variables of index below `n` are given values. -/
def Left (o : Order) (n : Nat) (F G : BFn) : Prop := ∃ ρ, G = restr o n ρ F

/-! ## `BddDominatedStep` -/

/-- The state of the second traversal when the edges `N` have been visited. -/
structure DomSt (h0 : HRef) (C0 : Nat → Int) (h : HRef) (C : Nat → Int) (N : List Edge) : Prop where
  ok : ∃ l, h.OK l
  nodup : N.Nodup
  get : ∀ x, h.get x = if x ∈ N then some (-2) else h0.get x
  cnt : ∀ j : Nat, C j = C0 j - 2 * (N.countP fun x => h0.get x == some (j : Int) : Nat)

/-- What visiting `f` adds. -/
structure DomVisit (s : Store) (f : Edge) (N N' : List Edge) : Prop where
  sub : ∀ x ∈ N, x ∈ N'
  here : f ∈ N'
  closed : ∀ p ∈ N', p ∉ N → ∀ x, KidOf s p x → x ∈ N'
  below : ∀ x ∈ N', x ∈ N ∨ Below s f x

theorem dominated_ok (w : s.WF) {h0 : HRef} {C0 : Nat → Int} : ∀ k {f : Edge} {h C N}, s.EOK f → 1 ≤ k →
    s.ord.numVars + 1 ≤ k + s.ord.lvl f.id →
    (∀ x, Below s f x → ∃ v, h0.get x = some v ∧ -2 < v ∧ v ≤ s.ord.numVars) → DomSt h0 C0 h C N →
    ∃ h' C' N', dominated s k h C f = some (h', C') ∧ DomSt h0 C0 h' C' N' ∧ DomVisit s f N N' := by
  intro k
  induction k with
  | zero => intro f h C N _ h1; omega
  | succ k ih =>
    intro f h C N hf _ hk hv D
    obtain ⟨v, e, v1, v2⟩ := hv f (.refl _)
    obtain ⟨l, ok⟩ := D.ok
    unfold dominated
    have gf := D.get f
    by_cases hN : f ∈ N
    · rw [if_pos hN] at gf
      obtain ⟨a, ha, hd⟩ := Option.map_eq_some_iff.1 gf
      rw [ha]
      simp only [hd]
      rw [if_neg (by omega), if_neg (by omega), if_neg (by omega)]
      exact ⟨h, C, N, rfl, D, fun _ h => h, hN, fun p h1 h2 => absurd h1 h2, fun x hx => Or.inl hx⟩
    · rw [if_neg hN, e] at gf
      obtain ⟨a, ha, hd⟩ := Option.map_eq_some_iff.1 gf
      rw [ha]
      simp only [hd]
      rw [if_neg (by omega), if_pos v1]
      have D1 : DomSt h0 C0 (h.set a (-2)) (if 0 ≤ v then upd C v.toNat (C v.toNat - 2) else C) (f :: N) := by
        refine ⟨⟨l, ok.set _ _⟩, List.nodup_cons.2 ⟨hN, D.nodup⟩, ?_, ?_⟩
        · intro x
          rw [ok.get_set ha, D.get]
          by_cases hx : x = f
          · rw [if_pos hx, if_pos (by simp [hx])]
          · rw [if_neg hx]; simp [hx]
        · intro j
          have hc := D.cnt j
          rw [List.countP_cons, e]
          by_cases hj : v = (j : Int)
          · subst hj
            rw [if_pos (by omega), Int.toNat_natCast, upd_same, if_pos (by simp)]
            omega
          · rw [if_neg (show ¬ ((some v == some (j : Int)) = true) by simpa using hj)]
            split
            · rw [upd_ne _ _ (by omega)]; omega
            · omega
      by_cases hc : f.isConst
      · rw [if_pos hc]
        refine ⟨_, _, _, rfl, D1, fun x hx => by simp [hx], by simp, ?_, ?_⟩
        · rintro p h1 h2 x ⟨t, u, hk', -⟩
          rcases List.mem_cons.1 h1 with rfl | h1
          · rw [kids_const w hf (by simpa [Edge.isConst] using hc)] at hk'; cases hk'
          · exact absurd h1 h2
        · intro x hx
          rcases List.mem_cons.1 hx with rfl | hx
          · exact Or.inr (.refl _)
          · exact Or.inl hx
      · rw [if_neg hc]
        have hc0 : f.id ≠ 0 := by simpa [Edge.isConst] using hc
        obtain ⟨t, u, hkid, ht, hu, l1, l2⟩ := kids_spec w hf hc0
        have := hf.lvl_lt w hc0
        rw [hkid]
        simp only
        obtain ⟨h1, C1, N1, e1, D1', V1⟩ := ih ht (by omega) (by omega) (fun x b => hv x (.thn hkid b)) D1
        rw [e1]
        simp only
        obtain ⟨h2, C2, N2, e2, D2, V2⟩ := ih hu (by omega) (by omega) (fun x b => hv x (.els hkid b)) D1'
        refine ⟨h2, C2, N2, e2, D2, fun x hx => V2.sub _ (V1.sub _ (by simp [hx])), V2.sub _ (V1.sub _ (by simp)), ?_, ?_⟩
        · intro p h3 h4 x c
          by_cases hp1 : p ∈ N1
          · by_cases hp : p = f
            · subst hp
              obtain ⟨t', u', hk', hx⟩ := c
              rw [hkid] at hk'; cases hk'
              rcases hx with rfl | rfl
              · exact V2.sub _ V1.here
              · exact V2.here
            · exact V2.sub _ (V1.closed p hp1 (by simp [hp, h4]) x c)
          · exact V2.closed p h3 hp1 x c
        · intro x hx
          rcases V2.below x hx with h3 | h3
          · rcases V1.below x h3 with h4 | h4
            · rcases List.mem_cons.1 h4 with rfl | h4
              · exact Or.inr (.refl _)
              · exact Or.inl h4
            · exact Or.inr (.thn hkid h4)
          · exact Or.inr (.els hkid h3)

theorem dominateds_ok (w : s.WF) {h0 : HRef} {C0 : Nat → Int} : ∀ {fs : List Edge} {h C N}, (∀ f ∈ fs, s.EOK f) →
    (∀ x, ReachFrom s fs x → ∃ v, h0.get x = some v ∧ -2 < v ∧ v ≤ s.ord.numVars) → DomSt h0 C0 h C N →
    ∃ h' C' N', dominateds s h C fs = some (h', C') ∧ DomSt h0 C0 h' C' N' ∧ (∀ x ∈ N, x ∈ N') ∧ (∀ f ∈ fs, f ∈ N') ∧
      (∀ p ∈ N', p ∉ N → ∀ x, KidOf s p x → x ∈ N') ∧ ∀ x ∈ N', x ∈ N ∨ ReachFrom s fs x := by
  intro fs
  induction fs with
  | nil =>
    intro h C N _ _ D
    exact ⟨h, C, N, rfl, D, fun _ h => h, by simp, fun p h1 h2 => absurd h1 h2, fun x hx => Or.inl hx⟩
  | cons f fs ih =>
    intro h C N hf hv D
    obtain ⟨h1, C1, N1, e1, D1, V1⟩ := dominated_ok w (s.ord.numVars + 1) (hf f (by simp)) (by omega) (by omega)
      (fun x b => hv x ⟨f, by simp, b⟩) D
    obtain ⟨h2, C2, N2, e2, D2, a1, a2, a3, a4⟩ := ih (fun x hx => hf x (by simp [hx]))
      (fun x ⟨g, hg, b⟩ => hv x ⟨g, by simp [hg], b⟩) D1
    refine ⟨h2, C2, N2, by simp only [dominateds, e1, e2], D2, fun x hx => a1 _ (V1.sub _ hx), ?_, ?_, ?_⟩
    · intro g hg
      rcases List.mem_cons.1 hg with rfl | hg
      · exact a1 _ V1.here
      · exact a2 g hg
    · intro p h3 h4 x c
      by_cases hp : p ∈ N1
      · exact a1 _ (V1.closed p hp h4 x c)
      · exact a3 p h3 hp x c
    · intro x hx
      rcases a4 x hx with h3 | ⟨g, hg, b⟩
      · rcases V1.below x h3 with h4 | h4
        · exact Or.inl h4
        · exact Or.inr ⟨f, by simp, h4⟩
      · exact Or.inr ⟨g, by simp [hg], b⟩

/-- The second traversal visits what can be reached, each edge once. -/
theorem dominateds_all (w : s.WF) {h0 : HRef} {C0 : Nat → Int} {fs : List Edge} (hf : ∀ f ∈ fs, s.EOK f) {l} (ok : h0.OK l)
    (hv : ∀ x, ReachFrom s fs x → ∃ v, h0.get x = some v ∧ -2 < v ∧ v ≤ s.ord.numVars) :
    ∃ (h : HRef) (C : Nat → Int) (N : List Edge), dominateds s h0 C0 fs = some (h, C) ∧ N.Nodup ∧ (∀ x, x ∈ N ↔ ReachFrom s fs x) ∧
      ∀ j : Nat, C j = C0 j - 2 * (N.countP fun x => h0.get x == some (j : Int) : Nat) := by
  have D : DomSt h0 C0 h0 C0 [] := ⟨⟨l, ok⟩, List.nodup_nil, fun x => by simp, fun j => by simp⟩
  obtain ⟨h, C, N, e, D', -, a2, a3, a4⟩ := dominateds_ok w hf hv D
  refine ⟨h, C, N, e, D'.nodup, fun x => ⟨fun hx => (a4 x hx).resolve_left (by simp), ?_⟩, D'.cnt⟩
  rintro ⟨f, hm, b⟩
  exact below_ind (P := (· ∈ N)) (a2 f hm) (fun p x _ hp c => a3 p hp (by simp) x c) b

theorem dominateds_one {h : HRef} {C} {f : Edge} :
    dominateds s h C [f] = dominated s (s.ord.numVars + 1) h C f := by
  simp only [dominateds]
  cases dominated s (s.ord.numVars + 1) h C f <;> rfl

/-! ## Adding up -/

theorem addUp_ok {c S : Nat → Int} : ∀ k j (C : Nat → Int), k ≤ j → C j = S k → (∀ i < k, C i = c i) →
    (∀ i < k, c i = 1 → S i = S (i + 1)) → (∀ i < k, c i ≠ 1 → c i / 2 + S (i + 1) = S i) →
    (∀ i < k, addUp k j C i = if c i = 1 then 0 else S i) ∧ ∀ i, k ≤ i → addUp k j C i = C i := by
  intro k
  induction k with
  | zero => intro j C _ _ _ _ _; exact ⟨by simp, fun i _ => rfl⟩
  | succ k ih =>
    intro j C hj hC h1 h2 h3
    have hk := h1 k (by omega)
    unfold addUp
    rw [hk]
    by_cases hc : c k = 1
    · rw [if_neg (by simpa using hc)]
      obtain ⟨a1, a2⟩ := ih j (upd C k 0) (by omega) (by rw [upd_ne _ _ (by omega), hC, ← h2 k (by omega) hc])
        (fun i hi => by rw [upd_ne _ _ (by omega)]; exact h1 i (by omega)) (fun i hi => h2 i (by omega)) (fun i hi => h3 i (by omega))
      refine ⟨fun i hi => ?_, fun i hi => ?_⟩
      · by_cases e : i = k
        · subst e
          rw [a2 i (Nat.le_refl _), upd_same, if_pos hc]
        · exact a1 i (by omega)
      · rw [a2 i (by omega), upd_ne _ _ (by omega)]
    · rw [if_pos hc]
      have hv : c k / 2 + C j = S k := by rw [hC]; exact h3 k (by omega) hc
      rw [hv]
      obtain ⟨a1, a2⟩ := ih k (upd C k (S k)) (Nat.le_refl _) (by rw [upd_same])
        (fun i hi => by rw [upd_ne _ _ (by omega)]; exact h1 i (by omega)) (fun i hi => h2 i (by omega)) (fun i hi => h3 i (by omega))
      refine ⟨fun i hi => ?_, fun i hi => ?_⟩
      · by_cases e : i = k
        · subst e
          rw [a2 i (Nat.le_refl _), upd_same, if_neg hc]
        · exact a1 i (by omega)
      · rw [a2 i (by omega), upd_ne _ _ (by omega)]

/-- The number of edges of `N` that are at level `j` or below and referenced from above it. -/
def crossing (s : Store) (N : List Edge) (val : Edge → Int) (j : Nat) : Nat :=
  N.countP fun x => decide (j ≤ slot s x) && decide (val x < j)

theorem crossing_step (N : List Edge) (val : Edge → Int) (hv : ∀ x ∈ N, val x < slot s x) (j : Nat) :
    crossing s N val j + (N.countP fun x => val x == (j : Int)) =
      crossing s N val (j + 1) + N.countP fun x => slot s x == j := by
  induction N with
  | nil => rfl
  | cons x N ih =>
    have ih := ih fun y hy => hv y (by simp [hy])
    have := hv x (by simp)
    unfold crossing at ih ⊢
    simp only [List.countP_cons, Bool.and_eq_true, decide_eq_true_eq, beq_iff_eq]
    rcases Nat.lt_trichotomy (slot s x) j with c | c | c
    · rw [if_neg (by omega), if_neg (by omega), if_neg (by omega), if_neg (by omega)]; omega
    · rw [if_pos (by omega), if_neg (by omega), if_neg (by omega), if_pos c]; omega
    · rw [if_neg (show ¬ slot s x = j by omega)]
      rcases Int.lt_trichotomy (val x) j with d | d | d
      · rw [if_pos (by omega), if_neg (by omega), if_pos (by omega)]; omega
      · rw [if_neg (by omega), if_pos (by omega), if_pos (by omega)]; omega
      · rw [if_neg (by omega), if_neg (by omega), if_neg (by omega)]; omega

/-! ## Edges and functions -/

/-- Counting edges is counting their functions. -/
theorem number_edges (w : s.WF) {N : List Edge} (nd : N.Nodup) (hN : ∀ x ∈ N, s.EOK x) (p : Edge → Bool) {P : BFn → Prop}
    (h1 : ∀ x ∈ N, ∀ G, Rep s x G → p x = true → P G) (h2 : ∀ G, P G → ∃ x ∈ N, Rep s x G ∧ p x = true) :
    Number P (N.countP p) := by
  obtain ⟨δ, hδ⟩ := w.exists_lab
  refine ⟨(N.filter p).map (den δ), ?_, ?_, ?_⟩
  · refine nodup_map_inj ?_ (List.Nodup.sublist List.filter_sublist nd)
    intro x hx y hy e
    exact den_inj w hδ (hN x (List.mem_filter.1 hx).1) (hN y (List.mem_filter.1 hy).1) e
  · intro G
    rw [List.mem_map]
    constructor
    · rintro ⟨x, hx, rfl⟩
      rw [List.mem_filter] at hx
      exact h1 x hx.1 _ (hδ.rep w (hN x hx.1)) hx.2
    · intro h
      obtain ⟨x, hx, r, hp⟩ := h2 G h
      exact ⟨x, List.mem_filter.2 ⟨hx, hp⟩, hδ.rep_eq r⟩
  · rw [List.length_map, List.countP_eq_length_filter]

theorem eok_child (w : s.WF) {p x : Edge} (hp : s.EOK p) (c : KidOf s p x) : s.EOK x ∧ p.id ≠ 0 ∧ s.ord.lvl p.id < s.ord.lvl x.id := by
  obtain ⟨t, u, hk, hx⟩ := c
  have hc : p.id ≠ 0 := fun h => by rw [kids_const w hp h] at hk; cases hk
  obtain ⟨t', u', hk', ht, hu, l1, l2⟩ := kids_spec w hp hc
  rw [hk] at hk'; cases hk'
  rcases hx with rfl | rfl
  · exact ⟨ht, hc, l1⟩
  · exact ⟨hu, hc, l2⟩

theorem eok_below (w : s.WF) {f x : Edge} (hf : s.EOK f) (b : Below s f x) : s.EOK x :=
  below_ind (P := fun x => s.EOK x) hf (fun _ _ _ h c => (eok_child w h c).1) b

/-- A reference from above level `k` to `k` or below gives a function that is left. -/
theorem left_of_child (w : s.WF) {k : Nat} {f p x : Edge} (b : Below s f p) : KidOf s p x → s.ord.lvl p.id < k → k ≤ s.ord.lvl x.id →
    ∀ {F G}, Rep s f F → Rep s x G → ∃ ρ, G = restr s.ord k ρ F := by
  intro c h1 h2
  induction b with
  | refl p =>
    intro F G r rx
    obtain ⟨t, u, hk, hx⟩ := c
    have hc : p.id ≠ 0 := fun h => by rw [kids_const w r.eok h] at hk; cases hk
    obtain ⟨t', u', hk', rt, ru, -, -, -⟩ := r.kids w hc
    rw [hk] at hk'; cases hk'
    rcases hx with rfl | rfl
    · have hG := rx.unique w rt
      subst hG
      exact ⟨_, by rw [← restr_kid w r.eok hc h1 (fun _ => false) true, restr_top w rx h2]⟩
    · have hG := rx.unique w ru
      subst hG
      exact ⟨_, by rw [← restr_kid w r.eok hc h1 (fun _ => false) false, restr_top w rx h2]⟩
  | @thn e t u p hk b ih =>
    intro F G r rx
    have hc : e.id ≠ 0 := fun h => by rw [kids_const w r.eok h] at hk; cases hk
    obtain ⟨t', u', hk', rt, ru, l1, l2, -⟩ := r.kids w hc
    rw [hk] at hk'; cases hk'
    obtain ⟨ρ, h⟩ := ih c h1 rt rx
    have := b.lvl_le w rt.eok
    exact ⟨_, by rw [h, restr_kid w r.eok hc (by omega)]⟩
  | @els e t u p hk b ih =>
    intro F G r rx
    have hc : e.id ≠ 0 := fun h => by rw [kids_const w r.eok h] at hk; cases hk
    obtain ⟨t', u', hk', rt, ru, l1, l2, -⟩ := r.kids w hc
    rw [hk] at hk'; cases hk'
    obtain ⟨ρ, h⟩ := ih c h1 ru rx
    have := b.lvl_le w ru.eok
    exact ⟨_, by rw [h, restr_kid w r.eok hc (by omega)]⟩

/-- A function that is left is at level `k` or below, and referenced from above or the function itself. -/
theorem left_below (w : s.WF) (k : Nat) (ρ : Asg) : ∀ n {e F}, Rep s e F →
    s.ord.numVars + 1 ≤ n + s.ord.lvl e.id → k ≤ s.ord.numVars → ∃ x, Below s e x ∧ Rep s x (restr s.ord k ρ F) ∧ k ≤ s.ord.lvl x.id ∧
      (x = e ∨ ∃ p, Below s e p ∧ KidOf s p x ∧ s.ord.lvl p.id < k) := by
  intro n
  have hb := w.ord.bound
  have const : ∀ {e F}, Rep s e F → k ≤ s.ord.numVars → e.id = 0 → ∃ x, Below s e x ∧ Rep s x (restr s.ord k ρ F) ∧ k ≤ s.ord.lvl x.id ∧
      (x = e ∨ ∃ p, Below s e p ∧ KidOf s p x ∧ s.ord.lvl p.id < k) := by
    intro e F r hn hc
    have hl : k ≤ s.ord.lvl e.id := by rw [Order.lvl, if_pos hc]; omega
    exact ⟨e, .refl _, by rw [restr_top w r hl]; exact r, hl, Or.inl rfl⟩
  induction n with
  | zero =>
    intro e F r h hn
    by_cases hc : e.id = 0
    · exact const r hn hc
    · have := r.eok.lvl_lt w hc; omega
  | succ n ih =>
    intro e F r h hn
    by_cases hc : e.id = 0
    · exact const r hn hc
    by_cases hk : k ≤ s.ord.lvl e.id
    · exact ⟨e, .refl _, by rw [restr_top w r hk]; exact r, hk, Or.inl rfl⟩
    obtain ⟨t, u, hkid, rt, ru, l1, l2, -⟩ := r.kids w hc
    have hu : ∀ b, ρ e.id = b → upd ρ e.id b = ρ := by
      rintro b rfl
      funext v
      by_cases h : v = e.id
      · rw [h, upd_same]
      · rw [upd_ne _ _ h]
    cases hb : ρ e.id
    · obtain ⟨x, hx, rx, hl, hp⟩ := ih ru (by omega) hn
      rw [restr_kid w r.eok hc (by omega), hu _ hb] at rx
      refine ⟨x, .els hkid hx, rx, hl, Or.inr ?_⟩
      rcases hp with rfl | ⟨p, h1, h2, h3⟩
      · exact ⟨e, .refl _, ⟨_, _, hkid, Or.inr rfl⟩, by omega⟩
      · exact ⟨p, .els hkid h1, h2, h3⟩
    · obtain ⟨x, hx, rx, hl, hp⟩ := ih rt (by omega) hn
      rw [restr_kid w r.eok hc (by omega), hu _ hb] at rx
      refine ⟨x, .thn hkid hx, rx, hl, Or.inr ?_⟩
      rcases hp with rfl | ⟨p, h1, h2, h3⟩
      · exact ⟨e, .refl _, ⟨_, _, hkid, Or.inl rfl⟩, by omega⟩
      · exact ⟨p, .thn hkid h1, h2, h3⟩

theorem f2_reach {fs : List Edge} {Fs} (h : F2 (Rep s) fs Fs) {f} (hf : f ∈ fs) : ∃ F ∈ Fs, Rep s f F := by
  induction h with
  | nil => cases hf
  | cons r _ ih =>
    rcases List.mem_cons.1 hf with rfl | hf
    · exact ⟨_, by simp, r⟩
    · obtain ⟨F, h1, h2⟩ := ih hf
      exact ⟨F, by simp [h1], h2⟩

theorem f2_reach' {fs : List Edge} {Fs} (h : F2 (Rep s) fs Fs) {F} (hF : F ∈ Fs) : ∃ f ∈ fs, Rep s f F := by
  induction h with
  | nil => cases hF
  | cons r _ ih =>
    rcases List.mem_cons.1 hF with rfl | hF
    · exact ⟨_, by simp, r⟩
    · obtain ⟨f, h1, h2⟩ := ih hF
      exact ⟨f, by simp [h1], h2⟩

theorem le_slot (w : s.WF) {x : Edge} {j : Nat} (hj : j ≤ s.ord.numVars) : j ≤ slot s x ↔ j ≤ s.ord.lvl x.id := by
  have := w.ord.bound
  unfold slot
  by_cases hc : x.isConst
  · rw [if_pos hc, Order.lvl, if_pos (by simpa [Edge.isConst] using hc)]; omega
  · rw [if_neg hc]

theorem HighestRefs.val (w : s.WF) {fs : List Edge} {h : HRef} (H : HighestRefs s fs h) (hf : ∀ f ∈ fs, s.EOK f) {x} (r : ReachFrom s fs x) :
    ∃ v, h.get x = some v ∧ -2 < v ∧ v < slot s x ∧ v < s.ord.numVars := by
  by_cases hx : x ∈ fs
  · exact ⟨-1, H.root x hx, by omega, by omega, by omega⟩
  · obtain ⟨p, ⟨f, h1, h2⟩, c, e, -⟩ := H.other x r hx
    have hp := eok_below w (hf f h1) h2
    obtain ⟨-, hc, hl⟩ := eok_child w hp c
    have hlt := hp.lvl_lt w hc
    refine ⟨_, e, by omega, ?_, by omega⟩
    have := (le_slot (x := x) w (show s.ord.lvl p.id + 1 ≤ s.ord.numVars by omega)).2 hl
    omega

/-- The edges that cross level `j` are the functions that are left. -/
theorem crossing_ok (w : s.WF) {fs : List Edge} {Fs} (hr : F2 (Rep s) fs Fs) {h : HRef} (H : HighestRefs s fs h) {N : List Edge}
    (nd : N.Nodup) (hN : ∀ x, x ∈ N ↔ ReachFrom s fs x) {j : Nat} (hj : j ≤ s.ord.numVars) :
    Number (fun G => ∃ F ∈ Fs, Left s.ord j F G) (crossing s N (fun x => (h.get x).getD 0) j) := by
  have hf := f2_eok hr
  refine number_edges w nd (fun x hx => ?_) _ ?_ ?_
  · obtain ⟨f, h1, h2⟩ := (hN x).1 hx
    exact eok_below w (hf f h1) h2
  · intro x hx G rx hp
    simp only [Bool.and_eq_true, decide_eq_true_eq] at hp
    have hl := (le_slot w hj).1 hp.1
    by_cases hm : x ∈ fs
    · obtain ⟨F, hF, rF⟩ := f2_reach hr hm
      exact ⟨F, hF, fun _ => false, by rw [restr_top w rF hl, rx.unique w rF]⟩
    · obtain ⟨p, ⟨f, h1, h2⟩, c, e, -⟩ := H.other x ((hN x).1 hx) hm
      rw [e, Option.getD_some] at hp
      obtain ⟨F, hF, rF⟩ := f2_reach hr h1
      obtain ⟨ρ, hG⟩ := left_of_child w h2 c (by omega) hl rF rx
      exact ⟨F, hF, ρ, hG⟩
  · rintro G ⟨F, hF, ρ, rfl⟩
    obtain ⟨f, h1, rF⟩ := f2_reach' hr hF
    obtain ⟨x, b, rx, hl, hp⟩ := left_below w j ρ _ rF (Nat.le_add_right _ _) hj
    refine ⟨x, (hN x).2 ⟨f, h1, b⟩, rx, ?_⟩
    simp only [Bool.and_eq_true, decide_eq_true_eq]
    refine ⟨(le_slot w hj).2 hl, ?_⟩
    by_cases hm : x ∈ fs
    · rw [H.root x hm, Option.getD_some]; omega
    · obtain ⟨q, -, -, e, hmin⟩ := H.other x ⟨f, h1, b⟩ hm
      rw [e, Option.getD_some]
      rcases hp with rfl | ⟨p, h2, h3, h4⟩
      · exact absurd h1 hm
      · have := hmin p ⟨f, h1, h2⟩ h3
        omega

/-- There is an edge at level `j` if and only if one of the functions depends on the variable there. -/
theorem level_dep (w : s.WF) {fs : List Edge} {Fs} (hr : F2 (Rep s) fs Fs) {j : Nat} (hj : j < s.ord.numVars) :
    (∃ x, ReachFrom s fs x ∧ slot s x = j) ↔ ∃ F ∈ Fs, ¬ Indep F (s.ord.indexToId j) := by
  have hR := w.ord.right j hj
  obtain ⟨v1, v2⟩ := w.ord.id_range j hj
  constructor
  · rintro ⟨x, ⟨f, h1, b⟩, hs⟩
    obtain ⟨F, hF, rF⟩ := f2_reach hr h1
    refine ⟨F, hF, fun hi => ?_⟩
    have hx := eok_below w (hf := rF.eok) b
    obtain ⟨δ, hδ⟩ := w.exists_lab
    have rx := hδ.rep w hx
    obtain ⟨ρ, hG⟩ := b.restr w rF rx
    have ha := (atEntry_iff w rx j).2 hs
    rw [AtEntry, if_neg (by omega)] at ha
    obtain ⟨v, ht, hv⟩ := ha
    have : v = s.ord.indexToId j := by rw [← hv, w.ord.left v ht.rng.1 ht.rng.2]
    subst this
    apply ht.dep
    rw [hG]
    intro σ c
    show F _ = F _
    by_cases hlt : s.ord.idToIndex (s.ord.indexToId j) < s.ord.lvl x.id
    · congr 1
      funext u
      by_cases hu : u = s.ord.indexToId j
      · subst hu
        rw [if_pos ⟨v1, v2, hlt⟩, if_pos ⟨v1, v2, hlt⟩]
      · rw [upd_ne _ _ hu]
    · rw [← hi (fun u => if 1 ≤ u ∧ u ≤ s.ord.numVars ∧ s.ord.idToIndex u < s.ord.lvl x.id then ρ u else σ u) c]
      congr 1
      funext u
      by_cases hu : u = s.ord.indexToId j
      · subst hu
        rw [if_neg (fun h => hlt h.2.2), upd_same, upd_same]
      · rw [upd_ne _ _ hu, upd_ne _ _ hu]
  · rintro ⟨F, hF, hd⟩
    obtain ⟨f, h1, rF⟩ := f2_reach' hr hF
    apply Classical.byContradiction
    intro hn
    apply hd
    intro ρ c
    obtain ⟨x, b, rx, hl, -⟩ := left_below w j ρ _ rF (Nat.le_add_right _ _) (Nat.le_of_lt hj)
    have hs : slot s x ≠ j := fun h => hn ⟨x, ⟨f, h1, b⟩, h⟩
    have hs' := (le_slot w (x := x) (Nat.le_of_lt hj)).2 hl
    have hl' := (le_slot w (x := x) (show j + 1 ≤ s.ord.numVars by omega)).1 (by omega)
    have hi := rx.indep w (s.ord.indexToId j) (by rw [Order.lvl, if_neg (by omega), hR]; omega) ρ c
    have e1 : restr s.ord j ρ F (upd ρ (s.ord.indexToId j) c) = F (upd ρ (s.ord.indexToId j) c) := by
      show F _ = F _
      congr 1
      funext u
      split
      · rename_i h
        rw [upd_ne _ _ (fun e => by rw [e, hR] at h; omega)]
      · rfl
    have e2 : restr s.ord j ρ F ρ = F ρ := by
      show F _ = F _
      congr 1
      funext u
      split <;> rfl
    rw [e1, e2] at hi
    exact hi

/-! ## The function profile -/

/-- What the entries of a function profile are. -/
def FnEntry (o : Order) (Fs : List BFn) (j : Nat) (c : Int) : Prop :=
  ((j < o.numVars ∧ ∀ F ∈ Fs, Indep F (o.indexToId j)) → c = 0) ∧
  (¬ (j < o.numVars ∧ ∀ F ∈ Fs, Indep F (o.indexToId j)) →
    ∃ n : Nat, c = n ∧ Number (fun G => ∃ F ∈ Fs, Left o j F G) n)

/-- The entries of the profile count the edges that can be reached. -/
theorem profile_edges (w : s.WF) {fs : List Edge} {Fs} (hr : F2 (Rep s) fs Fs) {N : List Edge} (nd : N.Nodup)
    (hN : ∀ x, x ∈ N ↔ ReachFrom s fs x) {i : Nat} {c : Nat}
    (hC : Counts false (fun G => AtEntry s.ord i G ∧ ∃ F ∈ Fs, Subfn s.ord F G) c) : c = N.countP fun x => slot s x == i := by
  refine Counts.unique hC (show Counts false _ _ from number_edges w nd (fun x hx => ?_) _ ?_ ?_)
  · obtain ⟨f, h1, h2⟩ := (hN x).1 hx
    exact eok_below w (f2_eok hr f h1) h2
  · intro x hx G rx hp
    refine ⟨(atEntry_iff w rx i).2 (by simpa using hp), ?_⟩
    obtain ⟨f, h1, h2⟩ := (hN x).1 hx
    exact (f2_below w hr G).2 ⟨f, h1, x, h2, rx⟩
  · rintro G ⟨ha, hs⟩
    obtain ⟨f, h1, x, h2, rx⟩ := (f2_below w hr G).1 hs
    exact ⟨x, (hN x).2 ⟨f, h1, h2⟩, rx, by simpa using (atEntry_iff w rx i).1 ha⟩

/-- The second traversal and the sums. -/
theorem fnProfile_end (w : s.WF) {fs : List Edge} {Fs} (hr : F2 (Rep s) fs Fs) {h : HRef} {l} (ok : h.OK l) (H : HighestRefs s fs h)
    {C : Nat → Nat} (hC : ∀ i, i ≤ s.ord.numVars → Counts false (fun G => AtEntry s.ord i G ∧ ∃ F ∈ Fs, Subfn s.ord F G) (C i)) :
    ∃ h' C', dominateds s h (encode s.ord.numVars C) fs = some (h', C') ∧
      ∀ j, j ≤ s.ord.numVars → FnEntry s.ord Fs j (addUp s.ord.numVars s.ord.numVars C' j) := by
  have hf := f2_eok hr
  obtain ⟨h', C', N, e, nd, hN, hc⟩ := dominateds_all (C0 := encode s.ord.numVars C) w hf ok (fun x r => by
    obtain ⟨v, h1, h2, -, h3⟩ := H.val w hf r; exact ⟨v, h1, h2, by omega⟩)
  refine ⟨h', C', e, ?_⟩
  have hE : ∀ x ∈ N, s.EOK x := fun x hx => by
    obtain ⟨f, h1, h2⟩ := (hN x).1 hx
    exact eok_below w (hf f h1) h2
  -- the profile counts the edges
  have hCN : ∀ i, i ≤ s.ord.numVars → C i = N.countP fun x => slot s x == i :=
    fun i hi => profile_edges w hr nd hN (hC i hi)
  have hval : ∀ x ∈ N, ((h.get x).getD 0) < slot s x := by
    intro x hx
    obtain ⟨v, h1, -, h2, -⟩ := H.val w hf ((hN x).1 hx)
    rw [h1]; exact h2
  have hcount : ∀ j : Nat, (N.countP fun x => h.get x == some (j : Int)) = N.countP fun x => (h.get x).getD 0 == (j : Int) := by
    intro j
    refine List.countP_congr fun x hx => ?_
    obtain ⟨v, h1, -⟩ := H.val w hf ((hN x).1 hx)
    rw [h1]; simp
  have step := crossing_step (s := s) N _ hval
  -- a level without edges is not a level of references
  have hzero : ∀ j, j < s.ord.numVars → C j = 0 → (N.countP fun x => (h.get x).getD 0 == (j : Int)) = 0 := by
    intro j hj h0
    rw [hCN j (Nat.le_of_lt hj), List.countP_eq_zero] at h0
    rw [List.countP_eq_zero]
    intro x hx hv
    by_cases hm : x ∈ fs
    · rw [H.root x hm] at hv; simp at hv
    · obtain ⟨p, r, c, e', -⟩ := H.other x ((hN x).1 hx) hm
      rw [e'] at hv
      simp only [Option.getD_some, beq_iff_eq] at hv
      refine h0 p ((hN p).2 r) ?_
      obtain ⟨-, hc0, -⟩ := eok_child w (hE p ((hN p).2 r)) c
      simp only [slot, Edge.isConst, hc0, beq_iff_eq]
      simp
      omega
  have hle : ∀ j, j < s.ord.numVars → (N.countP fun x => (h.get x).getD 0 == (j : Int)) ≤ crossing s N (fun x => (h.get x).getD 0) (j + 1) + C j := by
    intro j hj
    have := step j
    rw [hCN j (Nat.le_of_lt hj)]
    omega
  have hCj : ∀ j, j < s.ord.numVars → C' j = if C j = 0 then 1 else
      2 * ((C j : Int) - (N.countP fun x => (h.get x).getD 0 == (j : Int) : Nat)) := by
    intro j hj
    rw [hc, hcount, encode, if_pos hj]
    by_cases h0 : C j = 0
    · rw [if_pos h0, if_pos h0, hzero j hj h0]; rfl
    · rw [if_neg h0, if_neg h0]; omega
  have hlast : C' s.ord.numVars = crossing s N (fun x => (h.get x).getD 0) s.ord.numVars := by
    rw [hc, hcount, encode, if_neg (by omega), hCN _ (Nat.le_refl _)]
    have h0 : (N.countP fun x => (h.get x).getD 0 == (s.ord.numVars : Int)) = 0 := by
      rw [List.countP_eq_zero]
      intro x hx hv
      obtain ⟨v, h1, -, -, h2⟩ := H.val w hf ((hN x).1 hx)
      rw [h1] at hv
      simp at hv
      omega
    rw [h0]
    have : (N.countP fun x => slot s x == s.ord.numVars) = crossing s N (fun x => (h.get x).getD 0) s.ord.numVars := by
      refine List.countP_congr fun x hx => ?_
      obtain ⟨v, h1, -, -, h2⟩ := H.val w hf ((hN x).1 hx)
      simp only [h1, beq_iff_eq, Option.getD_some, Bool.and_eq_true, decide_eq_true_eq]
      have : slot s x ≤ s.ord.numVars := by
        unfold slot
        split
        · exact Nat.le_refl _
        · rename_i hc
          exact Nat.le_of_lt ((hE x hx).lvl_lt w (by simpa [Edge.isConst] using hc))
      omega
    rw [this]; simp
  have hone : ∀ j, j < s.ord.numVars → (C' j = 1 ↔ C j = 0) := by
    intro j hj
    rw [hCj j hj]
    by_cases h0 : C j = 0
    · simp [h0]
    · rw [if_neg h0]; constructor
      · intro h; omega
      · intro h; exact absurd h h0
  obtain ⟨a1, a2⟩ := addUp_ok (c := C') (S := fun j => (crossing s N (fun x => (h.get x).getD 0) j : Int)) s.ord.numVars s.ord.numVars C'
    (Nat.le_refl _) hlast (fun _ _ => rfl)
    (fun i hi h1 => by
      have h0 := (hone i hi).1 h1
      have := step i
      rw [hzero i hi h0, ← hCN i (Nat.le_of_lt hi), h0] at this
      omega)
    (fun i hi h1 => by
      have h0 : ¬ C i = 0 := fun h => h1 ((hone i hi).2 h)
      rw [hCj i hi, if_neg h0]
      have := step i
      rw [← hCN i (Nat.le_of_lt hi)] at this
      omega)
  intro j hj
  unfold FnEntry
  have hnum := crossing_ok w hr H nd hN hj
  by_cases hjn : j < s.ord.numVars
  · rw [a1 j hjn]
    have hdep : C j = 0 ↔ ∀ F ∈ Fs, Indep F (s.ord.indexToId j) := by
      have hl := level_dep w hr hjn
      rw [hCN j hj, List.countP_eq_zero]
      constructor
      · intro h0 F hF
        apply Classical.byContradiction
        intro hd
        obtain ⟨x, r, hx⟩ := hl.2 ⟨F, hF, hd⟩
        exact h0 x ((hN x).2 r) (by simpa using hx)
      · intro hi x hx hv
        obtain ⟨F, hF, hd⟩ := hl.1 ⟨x, (hN x).1 hx, by simpa using hv⟩
        exact hd (hi F hF)
    by_cases h0 : C j = 0
    · rw [if_pos ((hone j hjn).2 h0)]
      exact ⟨fun _ => rfl, fun h => absurd ⟨hjn, hdep.1 h0⟩ h⟩
    · rw [if_neg (fun h => h0 ((hone j hjn).1 h))]
      exact ⟨fun h => absurd (hdep.2 h.2) h0, fun _ => ⟨_, rfl, hnum⟩⟩
  · have : j = s.ord.numVars := by omega
    subst this
    rw [a2 _ (Nat.le_refl _), hlast]
    exact ⟨fun h => absurd h.1 hjn, fun _ => ⟨_, rfl, hnum⟩⟩

/-- `Cal_BddFunctionProfile` -/
theorem fnProfileOf_ok (w : s.WF) {f : Edge} {F} (r : Rep s f F)
    {C : Nat → Nat} (hC : ∀ i, i ≤ s.ord.numVars → Counts false (fun G => AtEntry s.ord i G ∧ Subfn s.ord F G) (C i)) :
    ∃ D, fnProfileOf s C f = some D ∧ ∀ j, j ≤ s.ord.numVars → FnEntry s.ord [F] j (D j) := by
  obtain ⟨h, l, e, ok, H⟩ := highest_one w r.eok
  obtain ⟨h', C', e', hD⟩ := fnProfile_end w (.cons r .nil) ok H (C := C) (fun i hi => (hC i hi).congr fun G => by simp)
  rw [dominateds_one] at e'
  exact ⟨_, by simp only [fnProfileOf, e, e'], hD⟩

/-! ## Many functions -/

/-- What is enough for the marks of the functions of the array to be found: the table does not grow, or no function is
left of another one. -/
def Markable (o : Order) (Fs : List BFn) : Prop :=
  (∃ n, Number (fun G => ∃ F ∈ Fs, Subfn o F G) n ∧ n + Fs.length < 1280) ∨
  ∀ F ∈ Fs, ∀ G ∈ Fs, Subfn o F G → G = F

theorem f2_len {fs : List Edge} {Fs} (h : F2 (Rep s) fs Fs) : fs.length = Fs.length := by
  induction h with
  | nil => rfl
  | cons _ _ ih => rw [List.length_cons, List.length_cons, ih]

theorem highest_many (w : s.WF) {fs : List Edge} {Fs} (hr : F2 (Rep s) fs Fs) (hm : Markable s.ord Fs) :
    ∃ h l, highestRefs s .init fs = some h ∧ (insertRoots h fs).OK l ∧ HighestRefs s fs (insertRoots h fs) := by
  have hf := f2_eok hr
  obtain ⟨h, l, e, ok, u, -, a2, a3, a4⟩ := highestRefs_ok w hf HRef.OK.init List.nodup_nil
  have b1 : ∀ p, ReachFrom s fs p → ∀ x, KidOf s p x → AtMost h x (s.ord.lvl p.id) := by
    rintro p ⟨f, hm, b⟩
    exact below_ind (P := fun p => ∀ x, KidOf s p x → AtMost h x (s.ord.lvl p.id)) (a2 f hm)
      (fun p x _ hp c y cy => a3 x y rfl (hp x c).some cy) b
  have b2 : ∀ x v, h.get x = some v → ∃ p, ReachFrom s fs p ∧ KidOf s p x ∧ v = s.ord.lvl p.id := by
    intro x v h1
    rcases a4 x v h1 with h2 | h2
    · cases h2
    · exact h2
  have key : (∃ l', (insertRoots h fs).OK l') ∧ ∀ x, (insertRoots h fs).get x = if x ∈ fs then some (-1) else h.get x := by
    rcases hm with ⟨n, hn, hlt⟩ | hm
    · refine insertRoots_small ok ?_
      have hcap : 1280 ≤ h.t.maxCapacity := by
        have := Nat.pow_le_pow_right (show 0 < 2 by omega) ok.size
        simp only [Hash.Table.maxCapacity, Hash.Table.numBins]
        omega
      have hne : h.t.numEntries ≤ n := by
        rw [ok.tab.cnt]
        obtain ⟨L, -, hL, rfl⟩ := hn
        obtain ⟨δ, hδ⟩ := w.exists_lab
        have hre : ∀ y ∈ l, ReachFrom s fs y.key := by
          intro y hy
          obtain ⟨p, ⟨f, h1, h2⟩, c, -⟩ := b2 y.key _ (ok.get_uniq u hy)
          exact ⟨f, h1, h2.trans (below_child c (.refl _))⟩
        have hE : ∀ x, ReachFrom s fs x → s.EOK x := fun x ⟨f, h1, h2⟩ => eok_below w (hf f h1) h2
        have := nodup_length_le (l := (l.map (·.key)).map (den δ)) (l' := L) ?_ ?_
        · simpa using this
        · refine nodup_map_inj ?_ u
          intro x hx y hy he
          obtain ⟨x', h1, rfl⟩ := List.mem_map.1 hx
          obtain ⟨y', h2, rfl⟩ := List.mem_map.1 hy
          exact den_inj w hδ (hE _ (hre _ h1)) (hE _ (hre _ h2)) he
        · intro G hG
          obtain ⟨x, hx, rfl⟩ := List.mem_map.1 hG
          obtain ⟨y, hy, rfl⟩ := List.mem_map.1 hx
          obtain ⟨f, h1, h2⟩ := hre y hy
          exact (hL _).2 ((f2_below w hr _).2 ⟨f, h1, y.key, h2, hδ.rep w (hE _ (hre y hy))⟩)
      have := f2_len hr
      omega
    · refine insertRoots_new ok u fun f hm' => ?_
      cases he : h.get f with
      | none => rfl
      | some v =>
        exfalso
        obtain ⟨p, ⟨g, h1, h2⟩, c, -⟩ := b2 f v he
        obtain ⟨F, hF, rF⟩ := f2_reach hr hm'
        obtain ⟨G, hG, rG⟩ := f2_reach hr h1
        have hb : Below s g f := h2.trans (below_child c (.refl _))
        have hs : Subfn s.ord G F := (below_iff w rG F).1 ⟨f, hb, rF⟩
        have hFG := hm G hG F hF hs
        subst hFG
        have := canonical w rF rG
        subst this
        have h3 := h2.lvl_le w rG.eok
        have h4 := (eok_child w (eok_below w rG.eok h2) c).2.2
        omega
  obtain ⟨⟨l', ok'⟩, g⟩ := key
  exact ⟨h, l', e, ok', highest_of b1 (fun x v _ => b2 x v) g⟩

/-- `Cal_BddFunctionProfileMultiple` -/
theorem fnProfilesOf_ok (w : s.WF) {fs : List Edge} {Fs} (hr : F2 (Rep s) fs Fs) (hm : Markable s.ord Fs)
    {C : Nat → Nat} (hC : ∀ i, i ≤ s.ord.numVars → Counts false (fun G => AtEntry s.ord i G ∧ ∃ F ∈ Fs, Subfn s.ord F G) (C i)) :
    ∃ D, fnProfilesOf s C fs = some D ∧ ∀ j, j ≤ s.ord.numVars → FnEntry s.ord Fs j (D j) := by
  obtain ⟨h, l, e, ok, H⟩ := highest_many w hr hm
  obtain ⟨h', C', e', hD⟩ := fnProfile_end w hr ok H hC
  exact ⟨_, by simp only [fnProfilesOf, e, e'], hD⟩

/-! ## The loop with the short counter -/

theorem copyLoop_ok {n : Nat} (hn : n < 65536) : copyLoop (n + 1) n 0 = some n := by
  have : ∀ d j, j + d = n → copyLoop (d + 1) n j = some n := by
    intro d
    induction d with
    | zero =>
      intro j h
      rw [copyLoop, if_neg (by omega)]
      exact congrArg some (by omega)
    | succ d ih =>
      intro j h
      rw [copyLoop, if_pos (by omega), Nat.mod_eq_of_lt (by omega)]
      exact ih (j + 1) (by omega)
  exact this n 0 (by omega)

theorem copyLoop_endless {n : Nat} (hn : 65536 ≤ n) : ∀ fuel j, j < 65536 → copyLoop fuel n j = none := by
  intro fuel
  induction fuel with
  | zero => intro j _; rfl
  | succ fuel ih =>
    intro j hj
    rw [copyLoop, if_pos (by omega)]
    exact ih _ (Nat.mod_lt _ (by omega))

/-! ## The API functions -/

namespace Mgr

variable {E : Env} {own : Nat → Nat} {lk : Bool} {m : Mgr}

theorem counts_getD {n : Nat} {C : Nat → Nat} {i : Nat} (hi : i ≤ n) : (counts n C)[i]?.getD 0 = C i := by
  rw [counts_get hi]; rfl

theorem functionProfile_ok (S : E.Sound) (i : m.Inv own lk) {f F} (lf : UTab.Live own f) (hf : Den m f F) :
    ∃ m' D, m.functionProfile E f = some (m', some ((List.range (m.numVars + 1)).map D)) ∧ m'.Inv own lk ∧ Pres own 0 m m' ∧
      (∃ l, m.profile E f false = some (m', l)) ∧ ∀ j ≤ m.numVars, FnEntry m'.st.ord [F] j (D j) := by
  obtain ⟨m1, C, h1, i1, p1, -, h4⟩ := profile_ok S i lf hf false
  obtain ⟨m2, h2, i2, p2⟩ := preProc_ok S i1 (forall1 lf)
  have hn1 : m1.st.ord.numVars = m.numVars := p1.nv
  have hc : m1.Calm := by
    obtain ⟨m3, h3, -, -⟩ := preProc_ok S i (forall1 lf)
    have hc := preProc_calm S h3
    unfold profile at h1
    rw [h3] at h1
    simp only at h1
    split at h1
    · cases h1
    · obtain ⟨a, -, e⟩ := Option.map_eq_some_iff.1 h1
      rw [← (Prod.mk.inj e).1]; exact hc
  have hd := p1.fns f lf F hf
  obtain ⟨e, he, r⟩ := hd
  obtain ⟨D, h5, h6⟩ := fnProfileOf_ok (C := fun j => (counts m.numVars C)[j]?.getD 0) i1.wf r (fun j hj => by
    rw [hn1] at hj
    rw [counts_getD hj]; exact h4 j hj)
  refine ⟨m1, D, ?_, i1, p1, ⟨_, h1⟩, fun j hj => h6 j (by rw [hn1]; exact hj)⟩
  simp only [functionProfile, h1, hc.pre i1 (forall1 lf), internal, he, Option.map_some, h5, hn1]

theorem Calm.array (c : m.Calm) (i : m.Inv own lk) : ∀ {hs : List Handle}, (∀ h ∈ hs, UTab.Live own h) →
    m.arrayPreProc E hs = some (m, true) := by
  intro hs
  induction hs with
  | nil => intro _; rfl
  | cons h hs ih =>
    intro hl
    simp only [arrayPreProc, c.pre i (forall1 (hl h (by simp))), ih fun x hx => hl x (by simp [hx])]

theorem arrayPreProc_calm (S : E.Sound) : ∀ {hs : List Handle} {m m' : Mgr}, m.Inv own lk → (∀ h ∈ hs, UTab.Live own h) →
    hs ≠ [] → m.arrayPreProc E hs = some (m', true) → m'.Calm := by
  intro hs m m' i hl hne h
  cases hs with
  | nil => exact absurd rfl hne
  | cons x hs =>
    obtain ⟨m1, h1, i1, -⟩ := preProc_ok S i (forall1 (hl x (by simp)))
    have c := preProc_calm S h1
    simp only [arrayPreProc, h1] at h
    rw [c.array i1 fun y hy => hl y (by simp [hy])] at h
    cases h; exact c

theorem arrayPreProc_again (S : E.Sound) {hs : List Handle} {m' : Mgr} (i : m.Inv own lk) (i' : m'.Inv own lk)
    (hl : ∀ h ∈ hs, UTab.Live own h) (h : m.arrayPreProc E hs = some (m', true)) : m'.arrayPreProc E hs = some (m', true) := by
  by_cases hne : hs = []
  · subst hne; rfl
  · exact (arrayPreProc_calm S i hl hne h).array i' hl

theorem functionProfileMultiple_ok (S : E.Sound) (i : m.Inv own lk) {fs Fs} (lf : ∀ f ∈ fs, UTab.Live own f)
    (hf : F2 (Den m) fs Fs) (hlen : fs.length < 65536) :
    ∃ m', m'.Inv own lk ∧ Pres own 0 m m' ∧ (∃ l, m.profileMultiple E fs false = some (m', l)) ∧ (Markable m'.st.ord Fs →
      ∃ D, m.functionProfileMultiple E fs = some (m', (List.range (m.numVars + 1)).map D) ∧
        ∀ j ≤ m.numVars, FnEntry m'.st.ord Fs j (D j)) := by
  obtain ⟨m1, h1, i1, p1⟩ := arrayPreProc_ok S i lf
  have hd := p1.dens lf hf
  obtain ⟨es, h2, r⟩ := internals_ok hd
  have hn : m1.st.ord.numVars = m.numVars := p1.nv
  obtain ⟨C, n', h3, -, -, h7⟩ := profileOf_ok i1.wf false r
  refine ⟨m1, i1, p1, ⟨some (counts m1.st.ord.numVars C), by simp only [profileMultiple, h1, h2, h3, Option.map_some]⟩, fun hm => ?_⟩
  obtain ⟨D, h5, h6⟩ := fnProfilesOf_ok (C := fun j => (counts m1.st.ord.numVars C)[j]?.getD 0) i1.wf r hm (fun j hj => by
    rw [counts_getD hj]; exact h7 j hj)
  refine ⟨D, ?_, fun j hj => h6 j (by rw [hn]; exact hj)⟩
  have hp : m1.profileMultiple E fs false = some (m1, some (counts m1.st.ord.numVars C)) := by
    simp only [profileMultiple, arrayPreProc_again S i i1 lf h1, h2, h3, Option.map_some]
  rw [hn] at h5 hp
  simp only [functionProfileMultiple, h1, copyLoop_ok hlen, h2, hp, h5, Option.map_some, hn]

end Mgr

end Cal
