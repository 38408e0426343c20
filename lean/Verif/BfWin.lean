import Verif.BfReal

/-!
# Breadth-first window permutation: the invariant within a window

Within a window the forwarding pointers form chains. The proof runs an ideal state next to the real one, in which
all chains have length one; the two differ in nothing but the forwarding pointers and the ends of the lists.
-/

namespace Cal

namespace Bfr

open Df (Fr PWF)

/-! ## Chains -/

theorem phase_phase (e : Edge) (a b : Bool) : (e.phase a).phase b = e.phase (a ^^ b) := by
  simp only [Edge.phase]
  cases e.neg <;> cases a <;> cases b <;> rfl

theorem chase_phase (g : Nat → Option Edge) : ∀ (k : Nat) (e : Edge) (b : Bool), chase g k (e.phase b) = (chase g k e).map (·.phase b) := by
  intro k
  induction k with
  | zero => intro e b; rfl
  | succ k ih =>
    intro e b
    rw [chase, chase]
    have : (e.phase b).addr = e.addr := rfl
    rw [this]
    cases g e.addr with
    | none => rfl
    | some t =>
      simp only
      have hb : (e.phase b).neg = (e.neg ^^ b) := rfl
      rw [hb, ← phase_phase, ih]

theorem chase_pos {g : Nat → Option Edge} {k : Nat} {e t : Edge} (h : chase g k e = some t) : ∃ k', k = k' + 1 := by
  cases k with
  | zero => cases h
  | succ k => exact ⟨k, rfl⟩

theorem chase_end {g : Nat → Option Edge} {k : Nat} {e : Edge} (h : g e.addr = none) : chase g (k + 1) e = some e := by
  rw [chase, h]

theorem chase_stop {g : Nat → Option Edge} : ∀ {k : Nat} {e t : Edge}, chase g k e = some t → g t.addr = none := by
  intro k
  induction k with
  | zero => intro e t h; cases h
  | succ k ih =>
    intro e t h
    rw [chase] at h
    cases hg : g e.addr with
    | none => rw [hg] at h; cases h; exact hg
    | some q => rw [hg] at h; exact ih h

theorem chase_mono {g : Nat → Option Edge} : ∀ {k : Nat} {e t : Edge}, chase g k e = some t → chase g (k + 1) e = some t := by
  intro k
  induction k with
  | zero => intro e t h; cases h
  | succ k ih =>
    intro e t h
    rw [chase] at h ⊢
    cases hg : g e.addr with
    | none => rw [hg] at h; exact h
    | some q => rw [hg] at h; exact ih h

theorem chase_le {g : Nat → Option Edge} {k k' : Nat} (hk : k ≤ k') {e t : Edge} (h : chase g k e = some t) : chase g k' e = some t := by
  induction hk with
  | refl => exact h
  | step _ ih => exact chase_mono ih

theorem chase_det {g : Nat → Option Edge} {k k' : Nat} {e t t' : Edge} (h : chase g k e = some t) (h' : chase g k' e = some t') : t = t' := by
  rcases Nat.le_total k k' with hk | hk
  · have := chase_le hk h; rw [h'] at this; cases this; rfl
  · have := chase_le hk h'; rw [h] at this; cases this; rfl

/-- Chains after more nodes have become forwarding nodes. -/
theorem chase_grow {g g' : Nat → Option Edge} (hg : ∀ a s, g a = some s → g' a = some s) : ∀ {k : Nat} {e t : Edge}, chase g k e = some t →
    (g' t.addr = none → chase g' (k + 1) e = some t) ∧
    (∀ q, g' t.addr = some q → g' q.addr = none → chase g' (k + 1) e = some (q.phase t.neg)) := by
  intro k
  induction k with
  | zero => intro e t h; cases h
  | succ k ih =>
    intro e t h
    rw [chase] at h
    cases hq : g e.addr with
    | none =>
      rw [hq] at h; cases h
      refine ⟨fun h => chase_end h, ?_⟩
      intro q h1 h2
      rw [chase, h1]
      exact chase_end h2
    | some s =>
      rw [hq] at h
      obtain ⟨h1, h2⟩ := ih h
      rw [chase, hg _ _ hq]
      exact ⟨h1, h2⟩

/-- A chain is shortened. -/
theorem chase_short {g : Nat → Option Edge} {a : Nat} {t0 r : Edge} {k0 : Nat} (ha : g a = some t0) (hr : chase g k0 t0 = some r) :
    ∀ {k : Nat} {e t : Edge}, chase g k e = some t → chase (upd g a (some r)) k e = some t := by
  have hra : r.addr ≠ a := by
    intro h; have := chase_stop hr; rw [h, ha] at this; cases this
  intro k
  induction k with
  | zero => intro e t h; cases h
  | succ k ih =>
    intro e t h
    by_cases he : e.addr = a
    · rw [chase, he, ha] at h
      replace h : chase g k (t0.phase e.neg) = some t := h
      rw [chase, he, upd_same]
      show chase _ k (r.phase e.neg) = _
      obtain ⟨k', rfl⟩ := chase_pos h
      rw [chase_phase] at h
      obtain ⟨u, hu, rfl⟩ := Option.map_eq_some_iff.1 h
      rw [chase_det hu hr]
      refine chase_end ?_
      show upd g a (some r) r.addr = none
      rw [upd_ne _ _ hra]; exact chase_stop hr
    · rw [chase] at h ⊢
      rw [upd_ne _ _ he]
      cases hq : g e.addr with
      | none => rw [hq] at h; exact h
      | some s => rw [hq] at h; exact ih h

/-! ## The invariant -/

section
variable (ext : Nat → Nat) (δ0 : Nat → BFn) (d0 : Df.St) (Root : Edge → Prop) (u0 v0 : Nat → Option Edge)

/-- `w` is the real state and `v` the ideal one, in a window from index `i` on; chains have at most `k` nodes. -/
structure Win (i k : Nat) (w v : St) (d : Df.St) (ab : Nat → Nat) : Prop where
  B : BInv ext δ0 d0 Root u0 v0 v d ab
  eq : w = re v w.fwd w.ends
  nn : ∀ a, w.fwd a = none ↔ v.fwd a = none
  ng : ∀ a t, w.fwd a = some t → t.neg = false
  flat : ∀ u a, a ∈ v.list u → i ≤ v.st.ord.lvl u → ∃ t t0, v.fwd a = some t ∧ v.fwd t.addr = none ∧ w.fwd a = some t0 ∧
    chase w.fwd k t0 = some t
  tgt : ∀ e t, Trk Root v e → v.fwd e.addr = some t →
    (∃ u, i ≤ v.st.ord.lvl u ∧ (1 ≤ u ∧ u ≤ v.st.ord.numVars) ∧ e.addr ∈ v.list u ∧ ∀ δ, Lab d.st δ → ¬ Indep (δ (ab t.addr)) u) ∨
    (w.fwd e.addr = some t ∧ v.st.ord.lvl t.id < i)
  lf : ∀ u a, a ∈ v.list u → v.fwd a ≠ none
  nd : ∀ u, (v.list u).Nodup
  dj : ∀ u u' a, a ∈ v.list u → a ∈ v.list u' → u = u'
  sup : ∀ u, v.list u ≠ [] → (1 ≤ u ∧ u ≤ v.st.ord.numVars) ∧ v.st.ord.lvl u < i + 3
  endR : ∀ u, w.ends u = true → (1 ≤ u ∧ u ≤ v.st.ord.numVars) ∧ v.st.ord.lvl u < i + 3

end

/-- The nodes from index `i` on have no forwarded children. -/
def Low (i : Nat) (v : St) : Prop := ∀ a n, v.st.heap a = some n → i ≤ v.st.ord.lvl n.var → v.st.EOK n.thn ∧ v.st.EOK n.els

/-- The nodes below index `i` have no forwarded children, those at index `i` may have children that have been forwarded
to nodes at index `i + 1`, in one step. -/
structure Low1 (i : Nat) (g : Nat → Option Edge) (v : St) : Prop where
  low : Low (i + 1) v
  kid : ∀ a n, v.st.heap a = some n → n.var = v.st.ord.indexToId i → ∀ e, e = n.thn ∨ e = n.els →
    v.st.EOK e ∨ ∃ t, v.fwd e.addr = some t ∧ g e.addr = some t ∧ t.id = v.st.ord.indexToId (i + 1)

/-- The ideal forwarding pointers after an exchange. -/
def cp (v : St) : Nat → Option Edge := fun a => (v.fwd a).map (follow v)

section
variable {ext : Nat → Nat} {δ0 : Nat → BFn} {d0 : Df.St} {Root : Edge → Prop} {u0 v0 : Nat → Option Edge}
variable {w v v1 : St} {d d' : Df.St} {ab ab' : Nat → Nat} {i j k : Nat} {R : List Nat}

theorem ab_zero (B : BInv ext δ0 d0 Root u0 v0 v d ab) {e : Edge} (h : v.st.EOK e) (h0 : ab e.addr = 0) : e.addr = 0 := by
  rcases h with ⟨_, h⟩ | ⟨n, hn, _⟩
  · exact h
  · obtain ⟨n', k1, _⟩ := B.sim.node _ _ hn
    rw [h0, B.r.inv.w.heap0] at k1; cases k1

/-- What a forwarded pointer stands for survives the exchange. -/
theorem Swapped.live_trk (B : BInv ext δ0 d0 Root u0 v0 v d ab) (X : Swapped ext δ0 d0 Root u0 v0 j R v d ab v1 d' ab') {e t : Edge}
    (he : Trk Root v1 e) (hn : ¬ v1.st.EOK e) (ht : v.fwd e.addr = some t) : t.addr = 0 ∨ d'.st.heap (ab t.addr) ≠ none := by
  have P := B.r.inv.w
  have hE := B.target (X.trk_old he hn) ht
  rcases he with ⟨a, n, h1, h2⟩ | ⟨e0, h1, rfl⟩
  · rcases X.eff.node a n h1 with ⟨n1, n2, h3⟩ | ⟨_, h3, h4⟩
    · obtain ⟨n', m1, m2, T1, T0⟩ := B.sim.node a n h3
      have hd := X.eff.keepD _ n' m1 (by rw [m2]; exact n2) (fun h => absurd (m2.symm.trans h) n1)
      have key : ∀ e', Tr (follow v) v ab e e' → Df.Below d'.st (d'.st.ord.lvl n'.var) e' → t.addr = 0 ∨ d'.st.heap (ab t.addr) ≠ none := by
        intro e' T hb
        have ha : ab t.addr = e'.addr := by
          have := congrArg Edge.addr T.2
          rw [follow_some ht] at this
          exact this
        rcases hb with h0 | ⟨m, hm, _⟩
        · exact Or.inl (ab_zero B hE (by rw [ha]; exact h0))
        · right; rw [ha, hm]; simp
      rcases h2 with rfl | rfl
      · exact key _ T1 (X.r.inv.w.thn_lo _ _ hd)
      · exact key _ T0 (X.r.inv.w.els_lo _ _ hd)
    · rcases h2 with rfl | rfl
      · exact absurd h3 hn
      · exact absurd h4 hn
  · rw [X.eff.pipe] at ht
    obtain ⟨_, t2⟩ := B.root e0 h1
    have ha : ab t.addr = e0.addr := by
      have := congrArg Edge.addr t2
      rw [follow_some ht] at this
      exact this
    rcases B.rootE e0 h1 with h | h
    · exact Or.inl (ab_zero B hE (by rw [ha]; exact h))
    · by_cases h0 : e0.addr = 0
      · exact Or.inl (ab_zero B hE (by rw [ha]; exact h0))
      · right; rw [ha]
        intro hh
        have := X.r.inv.ref.ext0 _ h0 hh; omega

/-- The function a forwarded pointer leads to still depends on the variable. -/
theorem Swapped.dep_trk (B : BInv ext δ0 d0 Root u0 v0 v d ab) (X : Swapped ext δ0 d0 Root u0 v0 j R v d ab v1 d' ab') {e t : Edge} {u : Nat}
    (he : Trk Root v1 e) (hn : ¬ v1.st.EOK e) (ht : v.fwd e.addr = some t)
    (h : ∀ δ, Lab d.st δ → ¬ Indep (δ (ab t.addr)) u) : ∀ δ, Lab d'.st δ → ¬ Indep (δ (ab' (follow v1 t).addr)) u := by
  have hE := B.target (X.trk_old he hn) ht
  have hl := X.live_trk B he hn ht
  obtain ⟨δ, hδ⟩ := B.r.inv.w.exists_lab
  have h0 : t.addr ≠ 0 := by
    intro h0
    refine absurd ?_ (h δ hδ)
    intro ρ b
    rw [h0, B.sim.zero, hδ.const]
  obtain ⟨_, m4⟩ := X.eff.after t hE hl
  have m5 : ab' (follow v1 t).addr = ab t.addr := congrArg Edge.addr m4
  have m3 := hl.resolve_left h0
  obtain ⟨n, hn⟩ : ∃ n, v.st.heap t.addr = some n := by
    rcases hE with ⟨_, h1⟩ | ⟨n, hn, _⟩
    · exact absurd h1 h0
    · exact ⟨n, hn⟩
  obtain ⟨n', m1, _⟩ := B.sim.node _ _ hn
  obtain ⟨δ1, k1, k2⟩ := X.fns δ hδ
  intro δ' l'
  cases hq : d'.st.heap (ab t.addr) with
  | none => exact absurd hq m3
  | some q =>
    rw [m5, Df.lab_unique X.r.inv.w l' k1 hq, k2 _ (by rw [m1]; simp)]
    exact h δ hδ

/-- The ideal state after an exchange. -/
theorem Swapped.ideal (B : BInv ext δ0 d0 Root u0 v0 v d ab) (X : Swapped ext δ0 d0 Root u0 v0 j R v d ab v1 d' ab') :
    BInv ext δ0 d0 Root u0 v0 { v1 with fwd := cp v1 } d' ab' := by
  refine X.binv B (f := cp v1) (l := v1.list) ?_ ?_
  · refine ⟨X.sim.fw.fr, ?_⟩
    intro a t ht
    replace ht : (v1.fwd a).map (follow v1) = some t := ht
    obtain ⟨t0, h1, rfl⟩ := Option.map_eq_some_iff.1 ht
    obtain ⟨k1, k2, k3, k4, k5⟩ := X.sim.fw.fw a t0 h1
    refine ⟨k1, k2, k3, k4, ?_⟩
    cases hq : v1.fwd t0.addr with
    | none => rw [follow_none hq]; exact k5
    | some u =>
      have := (X.sim.fw.fw _ u hq).2.2.2.2
      rw [follow_some hq]
      simp [Edge.phase, this, k5]
  · intro e he
    have hf : follow { v1 with fwd := cp v1, list := v1.list } e = match (v1.fwd e.addr).map (follow v1) with | some t => t.phase e.neg | none => e := rfl
    rw [hf]
    cases ht : v.fwd e.addr with
    | none =>
      rw [follow_none ht]
      cases hq : v1.fwd e.addr with
      | none => rw [follow_none hq]; rfl
      | some t =>
        rcases X.fwd_new hq with ⟨_, _, hE, _⟩ | ⟨_, h⟩
        · rw [follow_some hq]
          simp only [Option.map_some]
          rw [X.sim.fw.follow hE]
        · rw [ht] at h; cases h
    | some t =>
      rw [X.fwd_old B ht, follow_some ht, follow_phase]
      rfl

/-- One exchange within a window. -/
theorem Win.swap (H : Win ext δ0 d0 Root u0 v0 i k w v d ab) (hj : j = i ∨ j = i + 1) (hn : j + 1 < v.st.ord.numVars) {flag : Bool}
    (hy : ∀ a n, v.st.heap a = some n → n.var = v.st.ord.indexToId (j + 1) → v.st.EOK n.thn ∧ v.st.EOK n.els)
    (hx : ∀ a n, v.st.heap a = some n → n.var = v.st.ord.indexToId j → ∀ e, e = n.thn ∨ e = n.els →
      v.st.EOK e ∨ (flag = true ∧ (follow v e).id = v.st.ord.indexToId (j + 1)))
    (A : flag = true → Agree v w.fwd (v.st.ord.indexToId j)) :
    ∃ w' v' d' ab', Bfr.swap w j flag = some w' ∧ Win ext δ0 d0 Root u0 v0 i (k + 1) w' v' d' ab' ∧
      (∃ v1 R, v' = { v1 with fwd := cp v1 } ∧ Swapped ext δ0 d0 Root u0 v0 j R v d ab v1 d' ab') ∧
      ∀ a s, v.fwd a = none → v'.fwd a = some s → w'.fwd a = some s := by
  have B := H.B
  have W := B.ordWF
  obtain ⟨v1, d', ab', R, e1, X⟩ := B.swap hn hy hx
  obtain ⟨g', e2, wr⟩ := swap_re w.fwd w.ends A e1
  rw [← H.eq] at e2
  have B' := X.ideal B
  have lx := W.lvl_indexToId (k := j) (by omega)
  have ly := W.lvl_indexToId (k := j + 1) hn
  have rx := W.id_range j (by omega)
  have hnv : v1.st.ord.numVars = v.st.ord.numVars := by rw [X.ord]; rfl
  have lv := X.lvl B
  have hne := X.adj.ne
  -- levels
  have lv1 : ∀ u, i ≤ v1.st.ord.lvl u ↔ i ≤ v.st.ord.lvl u := by
    intro u; rw [lv]
    split
    · rename_i h; rw [h, lx]; omega
    · split
      · rename_i h; rw [h, lx, ly]; omega
      · rfl
  have lv2 : ∀ u, v.st.ord.lvl u < i → v1.st.ord.lvl u = v.st.ord.lvl u := by
    intro u hu; rw [lv]
    split
    · rename_i h; rw [h, lx] at hu; omega
    · split
      · rename_i h; rw [h, ly] at hu; omega
      · rfl
  have lv3 : ∀ u, v1.st.ord.lvl u < i + 3 ↔ v.st.ord.lvl u < i + 3 := by
    intro u; rw [lv]
    split
    · rename_i h; rw [h, lx]; omega
    · split
      · rename_i h; rw [h, lx, ly]; omega
      · rfl
  -- forwarding pointers
  have cpn : ∀ a, cp v1 a = none ↔ v1.fwd a = none := fun a => Option.map_eq_none_iff
  have old : ∀ a s, w.fwd a = some s → g' a = some s := by
    intro a s hs
    have h1 : v.fwd a ≠ none := fun h => by rw [(H.nn a).2 h] at hs; cases hs
    rcases wr a with ⟨k1, k2⟩ | ⟨k1, _⟩
    · exfalso
      rcases k2 with k2 | k2
      · cases hq : v.fwd a with
        | none => exact h1 hq
        | some q => rw [X.fwd_old B hq] at k2; cases k2
      · obtain ⟨n, hn, _⟩ := (B.sim.tabW _ a).1 k2
        exact h1 (B.sim.fw.live hn)
    · rw [k1]; exact hs
  have nn' : ∀ a, g' a = none ↔ v1.fwd a = none := by
    intro a
    rcases wr a with ⟨k1, _⟩ | ⟨k1, k2⟩
    · rw [k1]
    · rw [k1, k2]; exact H.nn a
  have new : ∀ a s, v.fwd a = none → v1.fwd a = some s → g' a = some s := by
    intro a s h1 h2
    rcases wr a with ⟨k1, _⟩ | ⟨_, k2⟩
    · rw [k1]; exact h2
    · rw [h2, h1] at k2; cases k2
  have fR : ∀ a, a ∈ R → ∃ t, v1.fwd a = some t ∧ v.fwd a = none ∧ v1.st.EOK t ∧ ab' t.addr = ab a := by
    intro a ha
    obtain ⟨g, h1, _⟩ := X.eff.fwdR a ha
    obtain ⟨n, _, m1, _⟩ := (X.eff.rem a).1 ha
    rcases X.fwd_new h1 with ⟨_, _, h2, h3⟩ | ⟨h, _⟩
    · exact ⟨_, h1, B.sim.fw.live m1, h2, h3⟩
    · exact absurd ha h
  have cE : ∀ t, v1.st.EOK t → follow v1 t = t := fun t h => X.sim.fw.follow h
  have mem : ∀ u a, a ∈ v1.list u → (u = v.st.ord.indexToId j ∧ a ∈ R) ∨ a ∈ v.list u := by
    intro u a ha
    rw [X.eff.list] at ha
    by_cases hu : u = v.st.ord.indexToId j
    · rw [hu, upd_same] at ha
      rcases List.mem_append.1 ha with h | h
      · exact Or.inl ⟨hu, List.mem_reverse.1 h⟩
      · exact Or.inr (hu ▸ h)
    · rw [upd_ne _ _ hu] at ha; exact Or.inr ha
  have memO : ∀ u a, a ∈ v.list u → a ∈ v1.list u := by
    intro u a ha
    rw [X.eff.list]
    by_cases hu : u = v.st.ord.indexToId j
    · rw [hu, upd_same]; exact List.mem_append_right _ (hu ▸ ha)
    · rw [upd_ne _ _ hu]; exact ha
  have memR : ∀ a, a ∈ R → a ∈ v1.list (v.st.ord.indexToId j) := by
    intro a ha
    rw [X.eff.list, upd_same]
    exact List.mem_append_left _ (List.mem_reverse.2 ha)
  have notR : ∀ u a, a ∈ v.list u → a ∉ R := by
    intro u a ha hR
    obtain ⟨_, _, h, _⟩ := fR a hR
    exact H.lf u a ha h
  refine ⟨re v1 g' w.ends, { v1 with fwd := cp v1 }, d', ab', e2, ?_, ⟨v1, R, rfl, X⟩, ?_⟩
  · constructor
    · exact B'
    · rfl
    · intro a; exact (nn' a).trans (cpn a).symm
    · intro a t ht
      replace ht : g' a = some t := ht
      rcases wr a with ⟨k1, _⟩ | ⟨k1, _⟩
      · rw [k1] at ht; exact (X.sim.fw.fw a t ht).2.2.2.2
      · rw [k1] at ht; exact H.ng a t ht
    · intro u a ha hu
      replace ha : a ∈ v1.list u := ha
      replace hu : i ≤ v1.st.ord.lvl u := hu
      show ∃ t t0, cp v1 a = some t ∧ cp v1 t.addr = none ∧ g' a = some t0 ∧ chase g' (k + 1) t0 = some t
      rcases mem u a ha with ⟨_, hR⟩ | ho
      · obtain ⟨t, h1, h2, h3, _⟩ := fR a hR
        have ht0 := X.sim.fw.eok h3
        refine ⟨t, t, by show (v1.fwd a).map _ = _; rw [h1, Option.map_some, cE t h3], (cpn _).2 ht0, new a t h2 h1, ?_⟩
        exact chase_end ((nn' _).2 ht0)
      · obtain ⟨t, t0, h1, h2, h3, h4⟩ := H.flat u a ho ((lv1 u).1 hu)
        refine ⟨follow v1 t, t0, by show (v1.fwd a).map _ = _; rw [X.fwd_old B h1, Option.map_some], ?_, old _ _ h3, ?_⟩
        · rw [cpn]
          cases hq : v1.fwd t.addr with
          | none => rw [follow_none hq]; exact hq
          | some q =>
            rw [follow_some hq]
            rcases X.fwd_new hq with ⟨_, _, h5, _⟩ | ⟨_, h5⟩
            · exact X.sim.fw.eok h5
            · rw [h2] at h5; cases h5
        · obtain ⟨c1, c2⟩ := chase_grow old h4
          cases hq : v1.fwd t.addr with
          | none => rw [follow_none hq]; exact c1 ((nn' _).2 hq)
          | some q =>
            rw [follow_some hq]
            refine c2 q (new _ q h2 hq) ?_
            rcases X.fwd_new hq with ⟨_, _, h5, _⟩ | ⟨_, h5⟩
            · exact (nn' _).2 (X.sim.fw.eok h5)
            · rw [h2] at h5; cases h5
    · intro e t he ht
      replace he : Trk Root v1 e := he
      replace ht : (v1.fwd e.addr).map (follow v1) = some t := ht
      obtain ⟨t0, h1, rfl⟩ := Option.map_eq_some_iff.1 ht
      have hE : ¬ v1.st.EOK e := fun h => by rw [X.sim.fw.eok h] at h1; cases h1
      show (∃ u, i ≤ v1.st.ord.lvl u ∧ (1 ≤ u ∧ u ≤ v1.st.ord.numVars) ∧ e.addr ∈ v1.list u ∧ _) ∨
        (g' e.addr = some (follow v1 t0) ∧ v1.st.ord.lvl (follow v1 t0).id < i)
      rcases X.fwd_new h1 with ⟨hR, h2, h3, h4⟩ | ⟨_, h2⟩
      · left
        refine ⟨v.st.ord.indexToId j, (lv1 _).2 (by rw [lx]; omega), by rw [hnv]; exact rx, memR _ hR, ?_⟩
        rw [cE t0 h3]
        intro δ' l'
        obtain ⟨δ, hδ⟩ := B.r.inv.w.exists_lab
        obtain ⟨δ1, k1, k2⟩ := X.fns δ hδ
        obtain ⟨n, n', m1, m2, m3, m4⟩ := (X.eff.rem _).1 hR
        obtain ⟨n'', m5, m6, _⟩ := B.sim.node _ _ m1
        rw [m3] at m5; cases m5
        cases hh : d'.st.heap (ab e.addr) with
        | none => exact absurd hh (X.live _ hR)
        | some q =>
          rw [h4, Df.lab_unique X.r.inv.w l' k1 hh, k2 _ (by rw [m3]; simp)]
          have := Df.dep_self B.r.inv.w hδ m3
          rw [m6, m2] at this
          exact this
      · have ho := X.trk_old he hE
        rcases H.tgt e t0 ho h2 with ⟨u, q1, q2, q3, q4⟩ | ⟨q1, q2⟩
        · exact Or.inl ⟨u, (lv1 u).2 q1, by rw [hnv]; exact q2, memO _ _ q3, X.dep_trk B he hE h2 q4⟩
        · right
          have hE0 := B.target ho h2
          have hk := X.keepE hE0 (fun h => by rw [h, lx] at q2; omega) (fun h => by rw [h, ly] at q2; omega)
          rw [cE t0 hk]
          exact ⟨old _ _ q1, by rw [lv2 _ q2]; exact q2⟩
    · intro u a ha
      show cp v1 a ≠ none
      rw [Ne, cpn]
      rcases mem u a ha with ⟨_, hR⟩ | ho
      · obtain ⟨t, h1, _⟩ := fR a hR
        rw [h1]; simp
      · cases hq : v.fwd a with
        | none => exact absurd hq (H.lf u a ho)
        | some q => rw [X.fwd_old B hq]; simp
    · intro u
      show (v1.list u).Nodup
      rw [X.eff.list]
      by_cases hu : u = v.st.ord.indexToId j
      · rw [hu, upd_same]
        refine List.nodup_append.2 ⟨(List.reverse_perm _).nodup_iff.2 X.eff.nodup, H.nd _, ?_⟩
        intro a ha b hb hab
        subst hab
        exact notR _ _ hb (List.mem_reverse.1 ha)
      · rw [upd_ne _ _ hu]; exact H.nd u
    · intro u u' a h1 h2
      rcases mem u a h1 with ⟨e1, r1⟩ | o1
      · rcases mem u' a h2 with ⟨e2, _⟩ | o2
        · rw [e1, e2]
        · exact absurd r1 (notR _ _ o2)
      · rcases mem u' a h2 with ⟨_, r2⟩ | o2
        · exact absurd r2 (notR _ _ o1)
        · exact H.dj u u' a o1 o2
    · intro u hu
      replace hu : v1.list u ≠ [] := hu
      show (1 ≤ u ∧ u ≤ v1.st.ord.numVars) ∧ v1.st.ord.lvl u < i + 3
      rw [hnv, lv3]
      by_cases hux : u = v.st.ord.indexToId j
      · rw [hux, lx]; exact ⟨rx, by omega⟩
      · rw [X.eff.list, upd_ne _ _ hux] at hu
        exact H.sup u hu
    · intro u hu
      show (1 ≤ u ∧ u ≤ v1.st.ord.numVars) ∧ v1.st.ord.lvl u < i + 3
      rw [hnv, lv3]; exact H.endR u hu
  · intro a s h1 h2
    replace h2 : (v1.fwd a).map (follow v1) = some s := h2
    obtain ⟨t0, h3, rfl⟩ := Option.map_eq_some_iff.1 h2
    show g' a = _
    rcases X.fwd_new h3 with ⟨_, _, h4, _⟩ | ⟨_, h4⟩
    · rw [cE t0 h4]; exact new a t0 h1 h3
    · rw [h1] at h4; cases h4

end

end Bfr

end Cal
