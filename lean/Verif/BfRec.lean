import Verif.BfWin3

/-!
# Breadth-first window permutation: reclaiming the forwarding nodes
-/

namespace Cal

namespace Bfr

open Df (Fr PWF)

section
variable (ext : Nat → Nat) (δ0 : Nat → BFn) (d0 : Df.St) (Root : Edge → Prop) (u0 v0 : Nat → Option Edge)

/-- Nothing is forwarded any more, but the lists have not been emptied. -/
structure Rec (w : St) (d : Df.St) (ab : Nat → Nat) : Prop where
  B : BInv ext δ0 d0 Root u0 v0 (idl w) d ab
  trk : ∀ e, Trk Root w e → w.st.EOK e
  lf : ∀ u a, a ∈ w.list u → w.fwd a ≠ none
  nd : ∀ u, (w.list u).Nodup
  dj : ∀ u u' a, a ∈ w.list u → a ∈ w.list u' → u = u'

end

section
variable {ext : Nat → Nat} {δ0 : Nat → BFn} {d0 : Df.St} {Root : Edge → Prop} {u0 v0 : Nat → Option Edge}
variable {w : St} {d : Df.St} {ab : Nat → Nat} {i j k n : Nat}

theorem Rec.id (H : Rec ext δ0 d0 Root u0 v0 w d ab) (x : Nat) : Rec ext δ0 d0 Root u0 v0 (reclaimId w x) d ab ∧
    (reclaimId w x).st.ord = w.st.ord := by
  obtain ⟨B, trk, lf, nd, dj⟩ := H
  have S := B.sim
  have F : FwOK w := ⟨S.fw.fr, S.fw.fw⟩
  have fsub : ∀ a t, (reclaimId w x).fwd a = some t → w.fwd a = some t ∧ (w.ends x = true → a ∉ w.list x) := by
    intro a t ht
    replace ht : (if w.ends x = true then fun a => if a ∈ w.list x then none else w.fwd a else w.fwd) a = some t := ht
    by_cases he : w.ends x = true
    · rw [if_pos he] at ht
      by_cases hm : a ∈ w.list x
      · simp only [hm, if_true] at ht; cases ht
      · simp only [hm, if_false] at ht; exact ⟨ht, fun _ => hm⟩
    · rw [if_neg he] at ht; exact ⟨ht, fun h => absurd h he⟩
  have fnone : ∀ a, w.fwd a = none → (reclaimId w x).fwd a = none := by
    intro a h
    cases hq : (reclaimId w x).fwd a with
    | none => rfl
    | some t => have := (fsub a t hq).1; rw [h] at this; cases this
  have fsame : ∀ a, a ∉ w.list x → (reclaimId w x).fwd a = w.fwd a := by
    intro a ha
    show (if w.ends x = true then fun a => if a ∈ w.list x then none else w.fwd a else w.fwd) a = _
    by_cases he : w.ends x = true
    · rw [if_pos he]; simp only [ha, if_false]
    · rw [if_neg he]
  have hst : (reclaimId w x).st = { w.st with free := (reclaimId w x).st.free } := by
    show (if w.ends x = true then { w.st with free := upd w.st.free x (w.list x ++ w.st.free x) } else w.st) = _
    by_cases he : w.ends x = true
    · show _ = { w.st with free := (if w.ends x = true then { w.st with free := upd w.st.free x (w.list x ++ w.st.free x) } else w.st : Store).free }
      rw [if_pos he]
    · show _ = { w.st with free := (if w.ends x = true then { w.st with free := upd w.st.free x (w.list x ++ w.st.free x) } else w.st : Store).free }
      rw [if_neg he]
  have hfree : ∀ i a, a ∈ (reclaimId w x).st.free i → a ∈ w.st.free i ∨ (i = x ∧ w.ends x = true ∧ a ∈ w.list x) := by
    intro i a ha
    replace ha : a ∈ (if w.ends x = true then { w.st with free := upd w.st.free x (w.list x ++ w.st.free x) } else w.st : Store).free i := ha
    by_cases he : w.ends x = true
    · rw [if_pos he] at ha
      replace ha : a ∈ upd w.st.free x (w.list x ++ w.st.free x) i := ha
      by_cases hi : i = x
      · rw [hi, upd_same] at ha
        rcases List.mem_append.1 ha with h | h
        · exact Or.inr ⟨hi, he, h⟩
        · exact Or.inl (hi ▸ h)
      · rw [upd_ne _ _ hi] at ha; exact Or.inl ha
    · rw [if_neg he] at ha; exact Or.inl ha
  have linfo : ∀ u a, a ∈ w.list u → w.st.heap a = none ∧ a ≠ 0 ∧ a < w.st.next ∧ ∀ i, a ∉ w.st.free i := by
    intro u a ha
    cases hq : w.fwd a with
    | none => exact absurd hq (lf u a ha)
    | some t =>
      obtain ⟨h1, h2, h3, h4, _⟩ := F.fw a t hq
      exact ⟨h1, h2, h3, h4⟩
  have F' : FwOK (idl (reclaimId w x)) := by
    have hx : (idl (reclaimId w x)).st = { w.st with free := (reclaimId w x).st.free } := hst
    constructor
    · rw [hx]
      refine ⟨F.fr.heap0, F.fr.next_pos, F.fr.heap_next, ?_, ?_, ?_⟩
      · intro i
        show ((if w.ends x = true then { w.st with free := upd w.st.free x (w.list x ++ w.st.free x) } else w.st : Store).free i).Nodup
        by_cases he : w.ends x = true
        · rw [if_pos he]
          show (upd w.st.free x (w.list x ++ w.st.free x) i).Nodup
          by_cases hi : i = x
          · rw [hi, upd_same]
            refine List.nodup_append.2 ⟨nd x, F.fr.free_nodup x, ?_⟩
            rintro a ha b hb rfl
            exact (linfo x a ha).2.2.2 x hb
          · rw [upd_ne _ _ hi]; exact F.fr.free_nodup i
        · rw [if_neg he]; exact F.fr.free_nodup i
      · intro i a ha
        rcases hfree i a ha with h | ⟨_, _, h⟩
        · exact F.fr.free_ok i a h
        · obtain ⟨h1, h2, h3, _⟩ := linfo x a h
          exact ⟨h1, by omega, h3⟩
      · intro i j a h1 h2
        rcases hfree i a h1 with k1 | ⟨e1, _, k1⟩
        · rcases hfree j a h2 with k2 | ⟨_, _, k2⟩
          · exact F.fr.free_disj i j a k1 k2
          · exact absurd k1 ((linfo x a k2).2.2.2 i)
        · rcases hfree j a h2 with k2 | ⟨e2, _, _⟩
          · exact absurd k2 ((linfo x a k1).2.2.2 j)
          · rw [e1, e2]
    · intro a t ht
      obtain ⟨h1, h2⟩ := fsub a t ht
      obtain ⟨k1, k2, k3, k4, k5⟩ := F.fw a t h1
      rw [hx]
      refine ⟨k1, k2, k3, ?_, k5⟩
      intro i hi
      rcases hfree i a hi with h | ⟨_, he, h⟩
      · exact k4 i h
      · exact h2 he h
  have fol : ∀ e, w.st.EOK e → follow (idl (reclaimId w x)) e = e ∧ follow (idl w) e = e := by
    intro e he
    have h := F.eok he
    exact ⟨follow_none (fnone _ h), follow_none h⟩
  have hheap : (reclaimId w x).st.heap = w.st.heap := by rw [hst]
  have eok : ∀ e, (reclaimId w x).st.EOK e ↔ w.st.EOK e := by
    intro e; unfold Store.EOK; rw [hheap]
  refine ⟨⟨⟨?_, B.r, B.nz, fun _ => rfl, B.rootE, ?_, B.assocs, B.temp, B.users, B.vars, B.varR, ?_, B.chk⟩, ?_, ?_, ?_, ?_⟩, by rw [hst]⟩
  · have hx : (idl (reclaimId w x)).st = { w.st with free := (reclaimId w x).st.free } := hst
    refine ⟨by rw [hx]; exact S.ord, S.zero, F', by rw [hx]; exact S.inj, by rw [hx]; exact S.sur, ?_, by rw [hx]; exact S.tab, by rw [hx]; exact S.tabW,
      by rw [hx]; exact S.ref, by rw [hx]; exact S.le, by rw [hx]; exact S.num, by rw [hx]; exact S.gcc, S.mat⟩
    intro a m hm
    replace hm : (reclaimId w x).st.heap a = some m := hm
    rw [hheap] at hm
    obtain ⟨m', h1, h2, T1, T0⟩ := S.node a m hm
    refine ⟨m', h1, h2, ?_, ?_⟩
    · have hE := trk m.thn (Or.inl ⟨a, m, hm, Or.inl rfl⟩)
      unfold Tr at T1 ⊢
      rw [(fol _ hE).2] at T1
      rw [(fol _ hE).1]
      exact ⟨(eok _).2 T1.1, T1.2⟩
    · have hE := trk m.els (Or.inl ⟨a, m, hm, Or.inr rfl⟩)
      unfold Tr at T0 ⊢
      rw [(fol _ hE).2] at T0
      rw [(fol _ hE).1]
      exact ⟨(eok _).2 T0.1, T0.2⟩
  · intro e he
    have T := B.root e he
    have hE := trk (w.pipe e) (Or.inr ⟨e, he, rfl⟩)
    unfold Tr at T ⊢
    replace T : w.st.EOK (follow (idl w) (w.pipe e)) ∧ absE ab (follow (idl w) (w.pipe e)) = Df.stripE e := T
    show (reclaimId w x).st.EOK (follow (idl (reclaimId w x)) (w.pipe e)) ∧ absE ab (follow (idl (reclaimId w x)) (w.pipe e)) = _
    rw [(fol _ hE).2] at T
    rw [(fol _ hE).1]
    exact ⟨(eok _).2 T.1, T.2⟩
  · intro id e he
    exact (eok _).2 (B.varE id e he)
  · intro e he
    rw [eok]
    apply trk
    unfold Trk at he ⊢
    rw [hheap] at he
    exact he
  · intro u a ha
    replace ha : a ∈ upd w.list x [] u := ha
    by_cases hu : u = x
    · rw [hu, upd_same] at ha; cases ha
    · rw [upd_ne _ _ hu] at ha
      rw [fsame a (fun h => hu (dj u x a ha h))]
      exact lf u a ha
  · intro u
    show (upd w.list x [] u).Nodup
    by_cases hu : u = x
    · rw [hu, upd_same]; exact List.nodup_nil
    · rw [upd_ne _ _ hu]; exact nd u
  · intro u u' a h1 h2
    replace h1 : a ∈ upd w.list x [] u := h1
    replace h2 : a ∈ upd w.list x [] u' := h2
    by_cases hu : u = x
    · rw [hu, upd_same] at h1; cases h1
    · by_cases hu' : u' = x
      · rw [hu', upd_same] at h2; cases h2
      · rw [upd_ne _ _ hu] at h1; rw [upd_ne _ _ hu'] at h2
        exact dj u u' a h1 h2

theorem Rec.loop : ∀ (k i : Nat) {w : St}, Rec ext δ0 d0 Root u0 v0 w d ab →
    Rec ext δ0 d0 Root u0 v0 (reclaimLoop k i w) d ab ∧ (reclaimLoop k i w).st.ord = w.st.ord ∧
      ∀ u, ((reclaimLoop k i w).list u = [] ∧ (reclaimLoop k i w).ends u = false) ∨
        ((reclaimLoop k i w).list u = w.list u ∧ (reclaimLoop k i w).ends u = w.ends u ∧
          ∀ j, i ≤ j → j < i + k → u ≠ w.st.ord.indexToId j) := by
  intro k
  induction k with
  | zero => intro i w H; exact ⟨H, rfl, fun u => Or.inr ⟨rfl, rfl, fun j h1 h2 => by omega⟩⟩
  | succ k ih =>
    intro i w H
    obtain ⟨H1, o1⟩ := H.id (w.st.ord.indexToId i)
    obtain ⟨H2, o2, h2⟩ := ih (i + 1) H1
    refine ⟨H2, o2.trans o1, ?_⟩
    intro u
    rw [reclaimLoop]
    rcases h2 u with h | ⟨h, h', h''⟩
    · exact Or.inl h
    · by_cases hu : u = w.st.ord.indexToId i
      · left
        rw [h, h', hu]
        exact ⟨upd_same _ _ _, upd_same _ _ _⟩
      · right
        rw [h, h']
        refine ⟨upd_ne _ _ hu, upd_ne _ _ hu, ?_⟩
        intro j h3 h4
        rw [o1] at h''
        by_cases hj : j = i
        · rw [hj]; exact hu
        · exact h'' j (by omega) (by omega)

/-- With all lists emptied nothing is left. -/
theorem Rec.clean (H : Rec ext δ0 d0 Root u0 v0 w d ab) (he : ∀ u, w.ends u = false) (hl : ∀ u, w.list u = []) :
    BInv ext δ0 d0 Root u0 v0 w d ab ∧ Clean Root w := by
  have : idl w = w := by
    have : w.ends = fun _ => false := funext he
    unfold idl; rw [← this]
  have B := H.B
  rw [this] at B
  exact ⟨B, H.trk, hl⟩

theorem BInv.numFwd (B : BInv ext δ0 d0 Root u0 v0 w d ab) (x : Nat) : BInv ext δ0 d0 Root u0 v0 { w with numFwd := x } d ab := by
  have S := B.sim
  exact ⟨⟨S.ord, S.zero, ⟨S.fw.fr, S.fw.fw⟩, S.inj, S.sur, S.node, S.tab, S.tabW, S.ref, S.le, S.num, S.gcc, S.mat⟩,
    B.r, B.nz, B.ends, B.rootE, B.root, B.assocs, B.temp, B.users, B.vars, B.varR, B.varE, B.chk⟩

theorem fixAbove_ends : ∀ (k : Nat) (w : St) (h : Nat → Bool), fixAbove k { w with ends := h } = { fixAbove k w with ends := h } := by
  intro k
  induction k with
  | zero => intro w h; rfl
  | succ k ih => intro w h; exact ih (fixCofactors w (w.st.ord.indexToId k)) h

theorem lvl_id {o : Order} (W : o.WF) {u : Nat} (h : 1 ≤ u ∧ u ≤ o.numVars) : o.indexToId (o.lvl u) = u := by
  have h0 : u ≠ 0 := by omega
  unfold Order.lvl
  rw [if_neg h0]
  exact W.left u h.1 h.2

/-- The clean-up after a pass. -/
theorem endPass_spec (G : Gap ext δ0 d0 Root u0 v0 n i w d ab) : BInv ext δ0 d0 Root u0 v0 (endPass w) d ab ∧
    Clean Root (endPass w) ∧ (endPass w).st.ord.numVars = n := by
  obtain ⟨H, L, hn⟩ := G
  have W := H.B.ordWF
  have low : ∀ a m, (idl w).st.heap a = some m → w.st.ord.numVars ≤ (idl w).st.ord.lvl m.var → (idl w).st.EOK m.thn ∧ (idl w).st.EOK m.els := by
    intro a m hm hl
    have := H.B.sim.var_range H.B.r.inv.w hm
    have := W.lvl_lt this.1 this.2
    replace this : (idl w).st.ord.lvl m.var < w.st.ord.numVars := this
    omega
  obtain ⟨h', e1, B1, E1, N1⟩ := fixAbove_spec w.st.ord.numVars H.B (Nat.le_refl _) low
  obtain ⟨B2, r2⟩ := fixOutside_spec B1
  let x := fixOutside (fixAbove w.st.ord.numVars w)
  have hx : idl x = fixOutside (fixAbove w.st.ord.numVars (idl w)) := by
    show idl (fixOutside (fixAbove _ w)) = fixOutside (fixAbove _ { w with ends := fun _ => false })
    rw [fixAbove_ends w.st.ord.numVars w (fun _ => false)]; rfl
  have hx' : x = { fixOutside (fixAbove w.st.ord.numVars (idl w)) with ends := w.ends } := by
    rw [← hx]
    show x = { x with ends := w.ends }
    have : x.ends = w.ends := by
      show (fixAbove _ w).ends = _
      have := fixAbove_ends w.st.ord.numVars w w.ends
      have h0 : ({ w with ends := w.ends } : St) = w := rfl
      rw [h0] at this
      rw [this]
    rw [← this]
  have hlist : x.list = w.list := by
    rw [hx']; show (fixAbove _ (idl w)).list = _; rw [e1]; rfl
  have hfwd : x.fwd = w.fwd := by
    rw [hx']; show (fixAbove _ (idl w)).fwd = _; rw [e1]; rfl
  have hord : x.st.ord = w.st.ord := by
    rw [hx']; show (fixAbove _ (idl w)).st.ord = _; rw [e1]; rfl
  have hends : x.ends = w.ends := by rw [hx']
  have R : Rec ext δ0 d0 Root u0 v0 x d ab := by
    refine ⟨by rw [hx]; exact B2, ?_, ?_, ?_, ?_⟩
    · have := trk_clean (w := fixOutside (fixAbove w.st.ord.numVars (idl w))) (Root := Root) N1 r2
      rw [hx']; exact this
    · intro u a ha; rw [hlist] at ha; rw [hfwd]; exact H.lf u a ha
    · intro u; rw [hlist]; exact H.nd u
    · intro u u' a h1 h2; rw [hlist] at h1 h2; exact H.dj u u' a h1 h2
  obtain ⟨R2, o2, h2⟩ := R.loop w.st.ord.numVars 0
  have all : ∀ u, (reclaimLoop w.st.ord.numVars 0 x).list u = [] ∧ (reclaimLoop w.st.ord.numVars 0 x).ends u = false := by
    intro u
    rcases h2 u with h | ⟨h, h', h''⟩
    · exact h
    · have out : ¬ (1 ≤ u ∧ u ≤ w.st.ord.numVars) := by
        intro hr
        exact h'' (w.st.ord.lvl u) (Nat.zero_le _) (by have := W.lvl_lt hr.1 hr.2; replace this : w.st.ord.lvl u < w.st.ord.numVars := this; omega)
          (by rw [hord]; exact (lvl_id W hr).symm)
      rw [h, h', hlist, hends]
      constructor
      · cases hq : w.list u with
        | nil => rfl
        | cons a as => exact absurd (H.sup u (by show w.list u ≠ []; rw [hq]; simp)).1 out
      · cases hq : w.ends u with
        | false => rfl
        | true => exact absurd (H.endR u hq).1 out
  obtain ⟨B3, C3⟩ := R2.clean (fun u => (all u).2) (fun u => (all u).1)
  refine ⟨B3.numFwd 0, ⟨C3.trk, C3.lists⟩, ?_⟩
  show (reclaimLoop w.st.ord.numVars 0 x).st.ord.numVars = n
  rw [o2, hord]; exact hn

/-- The clean-up before packing. -/
theorem fixAndReclaim_win (G : Gap ext δ0 d0 Root u0 v0 n i w d ab) (hi : i + 2 < n) :
    BInv ext δ0 d0 Root u0 v0 (fixAndReclaim w i 0 (i + 2)) d ab ∧ Clean Root (fixAndReclaim w i 0 (i + 2)) ∧
      (fixAndReclaim w i 0 (i + 2)).st.ord.numVars = n := by
  obtain ⟨H, L, hn⟩ := G
  have W := H.B.ordWF
  obtain ⟨B1, r1⟩ := fixOutside_spec H.B
  obtain ⟨h', e1, B2, E2, N2⟩ := fixAbove_spec i B1 (by show i ≤ w.st.ord.numVars; omega) L
  let x := fixAbove i (fixOutside w)
  have hx : idl x = fixAbove i (fixOutside (idl w)) := by
    show idl (fixAbove i (fixOutside w)) = fixAbove i { fixOutside w with ends := fun _ => false }
    rw [fixAbove_ends i (fixOutside w) (fun _ => false)]; rfl
  have hx' : x = { fixAbove i (fixOutside (idl w)) with ends := w.ends } := by
    rw [← hx]
    show x = { x with ends := w.ends }
    have : x.ends = w.ends := by
      show (fixAbove _ (fixOutside w)).ends = _
      have := fixAbove_ends i (fixOutside w) w.ends
      have h0 : ({ fixOutside w with ends := w.ends } : St) = fixOutside w := rfl
      rw [h0] at this
      rw [this]
    rw [← this]
  have hlist : x.list = w.list := by
    rw [hx']; show (fixAbove _ (fixOutside (idl w))).list = _; rw [e1]; rfl
  have hfwd : x.fwd = w.fwd := by
    rw [hx']; show (fixAbove _ (fixOutside (idl w))).fwd = _; rw [e1]; rfl
  have hord : x.st.ord = w.st.ord := by
    rw [hx']; show (fixAbove _ (fixOutside (idl w))).st.ord = _; rw [e1]; rfl
  have hends : x.ends = w.ends := by rw [hx']
  have R : Rec ext δ0 d0 Root u0 v0 x d ab := by
    refine ⟨by rw [hx]; exact B2, ?_, ?_, ?_, ?_⟩
    · have := trk_clean (w := fixAbove i (fixOutside (idl w))) (Root := Root) N2 (fun e he => (E2 _).2 (by rw [e1]; exact r1 e he))
      rw [hx']; exact this
    · intro u a ha; rw [hlist] at ha; rw [hfwd]; exact H.lf u a ha
    · intro u; rw [hlist]; exact H.nd u
    · intro u u' a h1 h2; rw [hlist] at h1 h2; exact H.dj u u' a h1 h2
  obtain ⟨R2, o2, h2⟩ := R.loop (i + 2 + 1 - 0) 0
  have all : ∀ u, (reclaimLoop (i + 2 + 1 - 0) 0 x).list u = [] ∧ (reclaimLoop (i + 2 + 1 - 0) 0 x).ends u = false := by
    intro u
    rcases h2 u with h | ⟨h, h', h''⟩
    · exact h
    · have out : ¬ ((1 ≤ u ∧ u ≤ w.st.ord.numVars) ∧ w.st.ord.lvl u < i + 3) := by
        rintro ⟨hr, hl⟩
        exact h'' (w.st.ord.lvl u) (Nat.zero_le _) (by omega) (by rw [hord]; exact (lvl_id W hr).symm)
      rw [h, h', hlist, hends]
      constructor
      · cases hq : w.list u with
        | nil => rfl
        | cons a as => exact absurd (H.sup u (by show w.list u ≠ []; rw [hq]; simp)) out
      · cases hq : w.ends u with
        | false => rfl
        | true => exact absurd (H.endR u hq) out
  obtain ⟨B3, C3⟩ := R2.clean (fun u => (all u).2) (fun u => (all u).1)
  refine ⟨B3.numFwd 0, ⟨C3.trk, C3.lists⟩, ?_⟩
  show (reclaimLoop (i + 2 + 1 - 0) 0 x).st.ord.numVars = n
  rw [o2, hord]; exact hn

/-- A clean state is one between two windows. -/
theorem Clean.gap (B : BInv ext δ0 d0 Root u0 v0 w d ab) (C : Clean Root w) (i : Nat) (hn : w.st.ord.numVars = n) :
    Gap ext δ0 d0 Root u0 v0 n i w d ab := by
  have hi : idl w = w := by
    have : w.ends = fun _ => false := funext B.ends
    unfold idl; rw [← this]
  refine ⟨?_, ?_, hn⟩
  · rw [hi]
    refine ⟨B, rfl, fun _ => Iff.rfl, fun a t h => (B.sim.fw.fw a t h).2.2.2.2, ?_, ?_, ?_, ?_, ?_, ?_, ?_⟩
    · intro u a ha; rw [C.lists] at ha; cases ha
    · intro e t he ht; rw [B.sim.fw.eok (C.trk e he)] at ht; cases ht
    · intro u a ha; rw [C.lists] at ha; cases ha
    · intro u; rw [C.lists]; exact List.nodup_nil
    · intro u u' a ha; rw [C.lists] at ha; cases ha
    · intro u hu; exact absurd (C.lists u) hu
    · intro u hu; rw [B.ends] at hu; cases hu
  · intro a m hm _
    exact ⟨C.trk _ (Or.inl ⟨a, m, hm, Or.inl rfl⟩), C.trk _ (Or.inl ⟨a, m, hm, Or.inr rfl⟩)⟩

end

end Bfr

end Cal
