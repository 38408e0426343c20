import Verif.BfWin
import Verif.BfSift

/-!
# Breadth-first window permutation: one window
-/

namespace Cal

namespace Bfr

open Df (Fr PWF)

/-- The variables at the indices `i`, `i + 1` and `i + 2` are `p`; the others are where `g` says. -/
def Tri (i : Nat) (g : Nat → Nat) (p : Nat × Nat × Nat) (o : Order) : Prop :=
  (o.indexToId i = p.1 ∧ o.indexToId (i + 1) = p.2.1 ∧ o.indexToId (i + 2) = p.2.2) ∧
    ∀ j, j ≠ i → j ≠ i + 1 → j ≠ i + 2 → o.indexToId j = g j

theorem Tri.swap0 {i : Nat} {g : Nat → Nat} {a b c : Nat} {o : Order} (h : Tri i g (a, b, c) o) (w : o.WF) (hi : i < o.numVars) :
    Tri i g (b, a, c) (Df.swapOrder o (o.indexToId i) (o.indexToId (i + 1))) := by
  obtain ⟨⟨h1, h2, h3⟩, h4⟩ := h
  have hr := w.right i hi
  refine ⟨⟨?_, ?_, ?_⟩, fun j n1 n2 n3 => ?_⟩ <;> simp only [Df.swapOrder, hr]
  · rw [upd_ne _ _ (by omega), upd_same]; exact h2
  · rw [upd_same]; exact h1
  · rw [upd_ne _ _ (by omega), upd_ne _ _ (by omega)]; exact h3
  · rw [upd_ne _ _ n2, upd_ne _ _ n1]; exact h4 j n1 n2 n3

theorem Tri.swap1 {i : Nat} {g : Nat → Nat} {a b c : Nat} {o : Order} (h : Tri i g (a, b, c) o) (w : o.WF) (hi : i + 1 < o.numVars) :
    Tri i g (a, c, b) (Df.swapOrder o (o.indexToId (i + 1)) (o.indexToId (i + 2))) := by
  obtain ⟨⟨h1, h2, h3⟩, h4⟩ := h
  have hr := w.right (i + 1) hi
  refine ⟨⟨?_, ?_, ?_⟩, fun j n1 n2 n3 => ?_⟩ <;> simp only [Df.swapOrder, hr]
  · rw [upd_ne _ _ (by omega), upd_ne _ _ (by omega)]; exact h1
  · rw [upd_ne _ _ (by omega), upd_same]; exact h3
  · rw [upd_same]; exact h2
  · rw [upd_ne _ _ n3, upd_ne _ _ n2]; exact h4 j n1 n2 n3

theorem Tri.same {i : Nat} {g : Nat → Nat} {p : Nat × Nat × Nat} {o o' : Order} (h : Tri i g p o) (h' : Tri i g p o') (j : Nat) :
    o'.indexToId j = o.indexToId j := by
  by_cases h1 : j = i
  · rw [h1, h.1.1, h'.1.1]
  · by_cases h2 : j = i + 1
    · rw [h2, h.1.2.1, h'.1.2.1]
    · by_cases h3 : j = i + 2
      · rw [h3, h.1.2.2, h'.1.2.2]
      · rw [h.2 j h1 h2 h3, h'.2 j h1 h2 h3]

theorem Sticky.trans {d d' d2 : Df.St} (h : Sticky d d') (h' : Sticky d' d2) : Sticky d d2 := fun a h1 h2 => by
  obtain ⟨k1, k2⟩ := h a h1 h2
  exact h' a k1 k2

section
variable (ext : Nat → Nat) (δ0 : Nat → BFn) (d0 : Df.St) (Root : Edge → Prop) (u0 v0 : Nat → Option Edge)

/-- The state of a window: `fst` says that the nodes at index `i` may have forwarded children. -/
def WS (fst : Bool) (n i k : Nat) (g : Nat → Nat) (p : Nat × Nat × Nat) (d1 : Df.St) (w : St) : Prop :=
  ∃ v d ab, Win ext δ0 d0 Root u0 v0 i k w v d ab ∧ (if fst then Low1 i w.fwd v else Low i v) ∧ v.st.ord.numVars = n ∧
    Tri i g p v.st.ord ∧ Sticky d1 d

/-- There has been a state with `b` nodes and the order `p`. -/
def Seen (i : Nat) (g : Nat → Nat) (p : Nat × Nat × Nat) (b : Nat) : Prop :=
  ∃ d, Df.RInv ext δ0 d0 d ∧ d.st.numNodes = b ∧ Tri i g p d.st.ord

end

section
variable {ext : Nat → Nat} {δ0 : Nat → BFn} {d0 : Df.St} {Root : Edge → Prop} {u0 v0 : Nat → Option Edge}
variable {w v v1 : St} {d d' : Df.St} {ab ab' : Nat → Nat} {i j k n : Nat} {g : Nat → Nat} {d1 : Df.St} {a b c : Nat}

theorem WS.seen {fst : Bool} {p} (h : WS ext δ0 d0 Root u0 v0 fst n i k g p d1 w) : Seen ext δ0 d0 i g p w.st.numNodes := by
  obtain ⟨v, d, ab, H, -, -, t, -⟩ := h
  refine ⟨d, H.B.r, ?_, by rw [H.B.sim.ord]; exact t⟩
  rw [H.eq]
  exact H.B.sim.num.symm

theorem step0 (h : WS ext δ0 d0 Root u0 v0 false n i k g (a, b, c) d1 w) (hi : i + 1 < n) :
    ∃ w', swap w i false = some w' ∧ WS ext δ0 d0 Root u0 v0 false n i (k + 1) g (b, a, c) d1 w' := by
  obtain ⟨v, d, ab, H, L, hn, t, st⟩ := h
  have W := H.B.ordWF
  have lx := W.lvl_indexToId (k := i) (by omega)
  have ly := W.lvl_indexToId (k := i + 1) (by omega)
  replace L : Low i v := L
  obtain ⟨w', v', d', ab', e, H', ⟨v1, R, rfl, X⟩, _⟩ := H.swap (Or.inl rfl) (by omega) (flag := false)
    (fun a n hn hv => L a n hn (by rw [hv, ly]; omega))
    (fun a n hn hv e he => Or.inl (by
      have := L a n hn (by rw [hv, lx]; omega)
      rcases he with rfl | rfl
      · exact this.1
      · exact this.2)) (by simp)
  refine ⟨w', e, _, d', ab', H', ?_, ?_, ?_, st.trans (Trail.step H.B.r (by rw [H.B.nv]; omega) X.ex).2⟩
  · show Low i v1
    exact X.low H.B (by omega) (fun a n hn hl => L a n hn (by omega))
  · show v1.st.ord.numVars = n
    rw [X.ord]; exact hn
  · show Tri i g _ v1.st.ord
    rw [X.ord]; exact t.swap0 W (by omega)

theorem step1 (h : WS ext δ0 d0 Root u0 v0 false n i k g (a, b, c) d1 w) (hi : i + 2 < n) :
    ∃ w', swap w (i + 1) false = some w' ∧ WS ext δ0 d0 Root u0 v0 true n i (k + 1) g (a, c, b) d1 w' := by
  obtain ⟨v, d, ab, H, L, hn, t, st⟩ := h
  have W := H.B.ordWF
  have l0 := W.lvl_indexToId (k := i) (by omega)
  have lx := W.lvl_indexToId (k := i + 1) (by omega)
  have ly := W.lvl_indexToId (k := i + 2) (by omega)
  replace L : Low i v := L
  obtain ⟨w', v', d', ab', e, H', ⟨v1, R, rfl, X⟩, N⟩ := H.swap (Or.inr rfl) (by omega) (flag := false)
    (fun a n hn hv => L a n hn (by rw [hv, ly]; omega))
    (fun a n hn hv e he => Or.inl (by
      have := L a n hn (by rw [hv, lx]; omega)
      rcases he with rfl | rfl
      · exact this.1
      · exact this.2)) (by simp)
  have hr := W.right (i + 1) (by omega)
  have o0 : v1.st.ord.indexToId i = v.st.ord.indexToId i := by
    rw [X.ord]; simp only [Df.swapOrder, hr]
    rw [upd_ne _ _ (by omega), upd_ne _ _ (by omega)]
  have o1 : v1.st.ord.indexToId (i + 1) = v.st.ord.indexToId (i + 2) := by
    rw [X.ord]; simp only [Df.swapOrder, hr]
    rw [upd_ne _ _ (by omega), upd_same]
  refine ⟨w', e, _, d', ab', H', ?_, ?_, ?_, st.trans (Trail.step H.B.r (by rw [H.B.nv]; omega) X.ex).2⟩
  · rw [if_pos rfl]
    refine ⟨?_, ?_⟩
    · show Low (i + 1) v1
      exact X.low H.B (by omega) (fun a n hn hl => L a n hn (by omega))
    · intro a n hn' hv e he
      replace hn' : v1.st.heap a = some n := hn'
      replace hv : n.var = v1.st.ord.indexToId i := hv
      rw [o0] at hv
      rcases X.eff.node a n hn' with ⟨_, _, h3⟩ | ⟨_, h3, h4⟩
      · have hE : v.st.EOK e := by
          have := L a n h3 (by rw [hv, l0]; omega)
          rcases he with rfl | rfl
          · exact this.1
          · exact this.2
        cases hq : v1.fwd e.addr with
        | none =>
          left
          have := H'.B.trk (e := e) (Or.inl ⟨a, n, hn', he⟩)
          rwa [follow_none (by show (v1.fwd e.addr).map _ = none; rw [hq]; rfl)] at this
        | some t =>
          right
          rcases X.fwd_new hq with ⟨_, q1, q2, _⟩ | ⟨_, q1⟩
          · have hc : ({ v1 with fwd := cp v1 } : St).fwd e.addr = some t := by
              show (v1.fwd e.addr).map _ = _
              rw [hq, Option.map_some, X.sim.fw.follow q2]
            refine ⟨t, hc, N e.addr t (H.B.sim.fw.eok hE) hc, ?_⟩
            show t.id = v1.st.ord.indexToId (i + 1)
            rw [o1]; exact q1
          · rw [H.B.sim.fw.eok hE] at q1; cases q1
      · left
        rcases he with rfl | rfl
        · exact h3
        · exact h4
  · show v1.st.ord.numVars = n
    rw [X.ord]; exact hn
  · show Tri i g _ v1.st.ord
    rw [X.ord]; exact t.swap1 W (by omega)

theorem Low1.agree (L : Low1 i w.fwd v) (H : Win ext δ0 d0 Root u0 v0 i k w v d ab) : Agree v w.fwd (v.st.ord.indexToId i) := by
  have key : ∀ a n, v.st.heap a = some n → n.var = v.st.ord.indexToId i → ∀ e, e = n.thn ∨ e = n.els → w.fwd e.addr = v.fwd e.addr := by
    intro a n hn hv e he
    rcases L.kid a n hn hv e he with h | ⟨t, h1, h2, _⟩
    · have := H.B.sim.fw.eok h
      rw [this, (H.nn _).2 this]
    · rw [h1, h2]
  intro a n ha hn
  obtain ⟨m, hm, hv⟩ := (H.B.sim.tabW _ a).1 ha
  rw [hn] at hm; cases hm
  exact ⟨key a n hn hv _ (Or.inl rfl), key a n hn hv _ (Or.inr rfl)⟩

theorem step2 (h : WS ext δ0 d0 Root u0 v0 true n i k g (a, b, c) d1 w) (hi : i + 1 < n) :
    ∃ w', swap w i true = some w' ∧ WS ext δ0 d0 Root u0 v0 false n i (k + 1) g (b, a, c) d1 w' := by
  obtain ⟨v, d, ab, H, L, hn, t, st⟩ := h
  have W := H.B.ordWF
  have ly := W.lvl_indexToId (k := i + 1) (by omega)
  replace L : Low1 i w.fwd v := L
  obtain ⟨w', v', d', ab', e, H', ⟨v1, R, rfl, X⟩, _⟩ := H.swap (Or.inl rfl) (by omega) (flag := true)
    (fun a n hn hv => L.low a n hn (by rw [hv, ly]; omega))
    (fun a n hn hv e he => by
      rcases L.kid a n hn hv e he with h | ⟨t, h1, _, h3⟩
      · exact Or.inl h
      · exact Or.inr ⟨rfl, by rw [follow_some h1]; exact h3⟩) (fun _ => L.agree H)
  refine ⟨w', e, _, d', ab', H', ?_, ?_, ?_, st.trans (Trail.step H.B.r (by rw [H.B.nv]; omega) X.ex).2⟩
  · show Low i v1
    exact X.low H.B (by omega) L.low
  · show v1.st.ord.numVars = n
    rw [X.ord]; exact hn
  · show Tri i g _ v1.st.ord
    rw [X.ord]; exact t.swap0 W (by omega)

theorem fixCofactors_re {x : Nat} {g h} (A : Agree v g x) : fixCofactors (re v g h) x = re (fixCofactors v x) g h := by
  have hf : (fun a => if a ∈ v.st.tab x then (v.st.heap a).map (followKids (re v g h)) else v.st.heap a) =
      fun a => if a ∈ v.st.tab x then (v.st.heap a).map (followKids v) else v.st.heap a := by
    funext a
    by_cases ha : a ∈ v.st.tab x
    · rw [if_pos ha, if_pos ha]
      cases hn : v.st.heap a with
      | none => rfl
      | some n =>
        simp only [Option.map_some]
        congr 1
        exact A.kids (h := h) ha hn
    · rw [if_neg ha, if_neg ha]
  show ({ re v g h with st := { v.st with heap := fun a => if a ∈ v.st.tab x then (v.st.heap a).map (followKids (re v g h)) else v.st.heap a } } : St) = _
  rw [hf]
  rfl

theorem stepFix {p} (h : WS ext δ0 d0 Root u0 v0 true n i k g p d1 w) (hi : i < n) :
    WS ext δ0 d0 Root u0 v0 false n i k g p d1 (fixCofactors w (w.st.ord.indexToId i)) := by
  obtain ⟨v, d, ab, H, L, hn, t, st⟩ := h
  replace L : Low1 i w.fwd v := L
  have W := H.B.ordWF
  have hw : w.st = v.st := by rw [H.eq]; rfl
  rw [hw]
  obtain ⟨B1, E1, N1⟩ := fixCofactors_spec H.B (v.st.ord.indexToId i)
  have heq : fixCofactors w (v.st.ord.indexToId i) = re (fixCofactors v (v.st.ord.indexToId i)) w.fwd w.ends := by
    have := fixCofactors_re (h := w.ends) (L.agree H)
    rw [← H.eq] at this
    exact this
  refine ⟨fixCofactors v (v.st.ord.indexToId i), d, ab, ?_, ?_, hn, t, st⟩
  · rw [heq]
    refine ⟨B1, rfl, H.nn, H.ng, H.flat, ?_, H.lf, H.nd, H.dj, H.sup, H.endR⟩
    intro e t he ht
    refine H.tgt e t ?_ ht
    have hE : ¬ v.st.EOK e := fun h => by
      have := H.B.sim.fw.eok h
      replace ht : v.fwd e.addr = some t := ht
      rw [this] at ht; cases ht
    rcases he with ⟨a, m, h1, h2⟩ | ⟨e0, h1, h2⟩
    · rcases N1 a m h1 with ⟨_, k1, k2⟩ | ⟨_, k1⟩
      · rcases h2 with rfl | rfl
        · exact absurd k1 hE
        · exact absurd k2 hE
      · exact Or.inl ⟨a, m, k1, h2⟩
    · exact Or.inr ⟨e0, h1, h2⟩
  · show Low i _
    intro a m h1 hl
    replace hl : i ≤ v.st.ord.lvl m.var := hl
    rcases N1 a m h1 with ⟨_, k1, k2⟩ | ⟨k0, k1⟩
    · exact ⟨(E1 _).2 k1, (E1 _).2 k2⟩
    · have : v.st.ord.lvl m.var ≠ i := fun h => k0 (lvl_inj W (H.B.sim.var_range H.B.r.inv.w k1) (W.id_range i (by omega))
          (by rw [h, W.lvl_indexToId (by omega)]))
      obtain ⟨q1, q2⟩ := L.low a m k1 (by omega)
      exact ⟨(E1 _).2 q1, (E1 _).2 q2⟩

/-! ## The end of a window -/

theorem fixList_spec (f : Nat → Option Edge) : ∀ (l : List Nat) (w : St),
    (∀ a, a ∈ l → ∃ t0 t, w.fwd a = some t0 ∧ chase w.fwd maxChain t0 = some t ∧ f a = some t) →
    ∃ g', fixList l w = some { w with fwd := g' } ∧ (∀ a, a ∈ l → g' a = f a) ∧ (∀ a, a ∉ l → g' a = w.fwd a) ∧
      ∀ e s, chase w.fwd maxChain e = some s → chase g' maxChain e = some s := by
  intro l
  induction l with
  | nil => intro w _; exact ⟨w.fwd, rfl, by simp, fun _ _ => rfl, fun _ _ h => h⟩
  | cons a as ih =>
    intro w h
    obtain ⟨t0, t, h1, h2, h3⟩ := h a (by simp)
    have sh : ∀ e s, chase w.fwd maxChain e = some s → chase (upd w.fwd a (some t)) maxChain e = some s :=
      fun e s hs => chase_short h1 h2 hs
    have hta : t.addr ≠ a := fun h => by have := chase_stop h2; rw [h, h1] at this; cases this
    obtain ⟨g', e1, e2, e3, e4⟩ := ih { w with fwd := upd w.fwd a (some t) } (by
      intro b hb
      by_cases hba : b = a
      · subst hba
        refine ⟨t, t, upd_same _ _ _, ?_, h3⟩
        refine chase_end (k := 15) ?_
        show upd w.fwd b (some t) t.addr = none
        rw [upd_ne _ _ hta]; exact chase_stop h2
      · obtain ⟨q0, q, k1, k2, k3⟩ := h b (by simp [hb])
        exact ⟨q0, q, by show upd w.fwd a (some t) b = _; rw [upd_ne _ _ hba]; exact k1, sh _ _ k2, k3⟩)
    refine ⟨g', ?_, ?_, ?_, fun e s hs => e4 e s (sh e s hs)⟩
    · rw [fixList, h1]
      simp only [h2]
      exact e1
    · intro b hb
      by_cases hm : b ∈ as
      · exact e2 b hm
      · have hba : b = a := (List.mem_cons.1 hb).resolve_right hm
        rw [e3 b hm, hba]
        show upd w.fwd a (some t) a = _
        rw [upd_same, h3]
    · intro b hb
      rw [e3 b (fun h => hb (by simp [h]))]
      exact upd_ne _ _ (fun h => hb (by simp [h]))

theorem fixLists_spec (f : Nat → Option Edge) : ∀ (k i : Nat) (w : St),
    (∀ j a, i ≤ j → j < i + k → a ∈ w.list (w.st.ord.indexToId j) →
      ∃ t0 t, w.fwd a = some t0 ∧ chase w.fwd maxChain t0 = some t ∧ f a = some t) →
    ∃ g', fixLists k i w = some { w with fwd := g' } ∧
      (∀ j a, i ≤ j → j < i + k → a ∈ w.list (w.st.ord.indexToId j) → g' a = f a) ∧
      ∀ a, g' a = f a ∨ g' a = w.fwd a := by
  intro k
  induction k with
  | zero => intro i w _; exact ⟨w.fwd, rfl, fun j a h1 h2 => by omega, fun _ => Or.inr rfl⟩
  | succ k ih =>
    intro i w h
    obtain ⟨g1, e1, e2, e3, e4⟩ := fixList_spec f (w.list (w.st.ord.indexToId (i + k))) w
      (fun a ha => h (i + k) a (by omega) (by omega) ha)
    have sound : ∀ a, a ∈ w.list (w.st.ord.indexToId (i + k)) → g1 a = f a := e2
    obtain ⟨g', e5, e6, e7⟩ := ih i { w with fwd := g1 } (by
      intro j a h1 h2 ha
      obtain ⟨t0, t, k1, k2, k3⟩ := h j a h1 (by omega) ha
      by_cases hm : a ∈ w.list (w.st.ord.indexToId (i + k))
      · refine ⟨t, t, by show g1 a = _; rw [sound a hm, k3], ?_, k3⟩
        refine chase_end (k := 15) ?_
        exact chase_stop (e4 _ _ k2)
      · exact ⟨t0, t, by show g1 a = _; rw [e3 a hm, k1], e4 _ _ k2, k3⟩)
    have cov : ∀ a, a ∈ w.list (w.st.ord.indexToId (i + k)) → g' a = f a := by
      intro a ha
      rcases e7 a with h | h
      · exact h
      · rw [h]; exact e2 a ha
    refine ⟨g', ?_, ?_, ?_⟩
    · rw [fixLists, e1]; exact e5
    · intro j a h1 h2 ha
      by_cases hj : j = i + k
      · rw [hj] at ha; exact cov a ha
      · exact e6 j a h1 (by omega) ha
    · intro a
      rcases e7 a with h | h
      · exact Or.inl h
      · by_cases hm : a ∈ w.list (w.st.ord.indexToId (i + k))
        · exact Or.inl (cov a hm)
        · exact Or.inr (h.trans (e3 a hm))

theorem setEnds_spec : ∀ (k i : Nat) (w : St), ∃ h', setEnds k i w = { w with ends := h' } ∧
    ∀ u, h' u = true → w.ends u = true ∨ ∃ j, j < i + k ∧ u = w.st.ord.indexToId j := by
  intro k
  induction k with
  | zero => intro i w; exact ⟨w.ends, rfl, fun _ h => Or.inl h⟩
  | succ k ih =>
    intro i w
    obtain ⟨h', e, h⟩ := ih i { w with ends := upd w.ends (w.st.ord.indexToId (i + k)) (!(w.list (w.st.ord.indexToId (i + k))).isEmpty) }
    refine ⟨h', by rw [setEnds]; exact e, ?_⟩
    intro u hu
    rcases h u hu with h1 | ⟨j, h1, h2⟩
    · by_cases hx : u = w.st.ord.indexToId (i + k)
      · exact Or.inr ⟨i + k, by omega, hx⟩
      · replace h1 : upd w.ends _ _ u = true := h1
        rw [upd_ne _ _ hx] at h1
        exact Or.inl h1
    · exact Or.inr ⟨j, by omega, h2⟩

/-- Other forwarding pointers that lead to the same nodes. -/
theorem BInv.other (B : BInv ext δ0 d0 Root u0 v0 v d ab) {f : Nat → Option Edge} (hF : ∀ a t, f a = some t → v.fwd a ≠ none ∧ t.neg = false)
    (hc : ∀ e, Trk Root v e → f e.addr = v.fwd e.addr) : BInv ext δ0 d0 Root u0 v0 { v with fwd := f } d ab := by
  have S := B.sim
  have hf : ∀ e, Trk Root v e → follow { v with fwd := f } e = follow v e := by
    intro e he
    have : ({ v with fwd := f } : St).fwd e.addr = v.fwd e.addr := hc e he
    unfold follow
    rw [this]
  refine ⟨?_, B.r, B.nz, B.ends, B.rootE, ?_, B.assocs, B.temp, B.users, B.vars, B.varR, B.varE, B.chk⟩
  · refine ⟨S.ord, S.zero, ⟨S.fw.fr, ?_⟩, S.inj, S.sur, ?_, S.tab, S.tabW, S.ref, S.le, S.num, S.gcc, S.mat⟩
    · intro a t ht
      obtain ⟨h1, h2⟩ := hF a t ht
      cases hq : v.fwd a with
      | none => exact absurd hq h1
      | some q =>
        obtain ⟨k1, k2, k3, k4, _⟩ := S.fw.fw a q hq
        exact ⟨k1, k2, k3, k4, h2⟩
    · intro a n hn
      obtain ⟨n', h1, h2, T1, T0⟩ := S.node a n hn
      refine ⟨n', h1, h2, ?_, ?_⟩
      · unfold Tr at T1 ⊢
        rw [hf _ (Or.inl ⟨a, n, hn, Or.inl rfl⟩)]; exact T1
      · unfold Tr at T0 ⊢
        rw [hf _ (Or.inl ⟨a, n, hn, Or.inr rfl⟩)]; exact T0
  · intro e he
    have := B.root e he
    unfold Tr at this ⊢
    show v.st.EOK (follow _ (v.pipe e)) ∧ _
    rw [hf _ (Or.inr ⟨e, he, rfl⟩)]; exact this

/-- The state between two windows. -/
def idl (w : St) : St := { w with ends := fun _ => false }

theorem fixAndFree_spec {p} {q : Nat} (h : WS ext δ0 d0 Root u0 v0 false n i k g p d1 w) (hk : k ≤ maxChain) (hq : i + q ≤ n)
    (hq3 : q = 3 ∨ i + q = n) (hq4 : q ≤ 3) :
    ∃ w', fixAndFree w i q = some w' ∧ ∃ d ab, Win ext δ0 d0 Root u0 v0 i 1 w' (idl w') d ab ∧ Low i w' ∧
      w'.st.ord.numVars = n ∧ Tri i g p w'.st.ord ∧ Sticky d1 d ∧ w'.st.numNodes = d.st.numNodes ∧ w'.st.numNodes = w.st.numNodes ∧ w'.list = w.list ∧
      w'.numFwd = w.numFwd := by
  obtain ⟨v, d, ab, H, L, hn, t, st⟩ := h
  replace L : Low i v := L
  have W := H.B.ordWF
  have hwl : w.list = v.list := by rw [H.eq]; rfl
  have hws : w.st = v.st := by rw [H.eq]; rfl
  obtain ⟨g', e1, e2, e3⟩ := fixLists_spec v.fwd q i w (by
    intro j a h1 h2 ha
    rw [hwl, hws] at ha
    obtain ⟨t, t0, k1, k2, k3, k4⟩ := H.flat _ a ha (by rw [W.lvl_indexToId (by omega)]; exact h1)
    exact ⟨t0, t, k3, chase_le hk k4, k1⟩)
  obtain ⟨h', e4, e5⟩ := setEnds_spec q i { w with fwd := g' }
  have hlev : ∀ u a, a ∈ v.list u → i ≤ v.st.ord.lvl u → g' a = v.fwd a := by
    intro u a ha hu
    obtain ⟨h1, h2⟩ := H.sup u (by intro h; rw [h] at ha; cases ha)
    have hlt := W.lvl_lt h1.1 h1.2
    refine e2 (v.st.ord.lvl u) a hu ?_ ?_
    · rcases hq3 with rfl | h3
      · exact h2
      · omega
    · rw [hwl, hws]
      have : v.st.ord.indexToId (v.st.ord.lvl u) = u := by
        have h0 : u ≠ 0 := by omega
        unfold Order.lvl
        rw [if_neg h0]
        exact W.left u h1.1 h1.2
      rw [this]; exact ha
  have nn' : ∀ a, g' a = none ↔ v.fwd a = none := by
    intro a
    rcases e3 a with h | h
    · rw [h]
    · rw [h]; exact H.nn a
  have trk : ∀ e, Trk Root v e → g' e.addr = v.fwd e.addr := by
    intro e he
    cases hq : v.fwd e.addr with
    | none => exact (nn' _).2 hq
    | some t =>
      rcases H.tgt e t he hq with ⟨u, h1, _, h3, _⟩ | ⟨h1, _⟩
      · rw [hlev u _ h3 h1, hq]
      · rcases e3 e.addr with h | h
        · rw [h, hq]
        · rw [h, h1]
  have neg' : ∀ a t, g' a = some t → t.neg = false := by
    intro a t ht
    rcases e3 a with h | h
    · rw [h] at ht; exact (H.B.sim.fw.fw a t ht).2.2.2.2
    · rw [h] at ht; exact H.ng a t ht
  have B' := H.B.other (f := g') (fun a t ht => ⟨fun h => (by rw [(nn' a).2 h] at ht; cases ht), neg' a t ht⟩) trk
  have hends : v.ends = fun _ => false := funext H.B.ends
  have hw' : ({ w with fwd := g', ends := h' } : St) = re v g' h' := by rw [H.eq]; rfl
  have hv' : idl (re v g' h') = { v with fwd := g' } := by
    unfold idl re
    simp only
    rw [← hends]
  refine ⟨re v g' h', ?_, d, ab, ?_, L, hn, t, st, H.B.sim.num, by rw [hws]; rfl, by rw [hwl]; rfl, by rw [H.eq]; rfl⟩
  · unfold fixAndFree
    rw [e1, Option.map_some, e4, ← hw']
  · rw [hv']
    refine ⟨B', rfl, fun _ => Iff.rfl, neg', ?_, ?_, ?_, H.nd, H.dj, H.sup, ?_⟩
    · intro u a ha hu
      obtain ⟨t, t0, h1, h2, h3, h4⟩ := H.flat u a ha hu
      have hg : g' a = some t := by rw [hlev u a ha hu, h1]
      have hz := (nn' t.addr).2 h2
      exact ⟨t, t, hg, hz, hg, chase_end hz⟩
    · intro e t he ht
      replace ht : g' e.addr = some t := ht
      have ht' := ht
      rw [trk e he] at ht'
      rcases H.tgt e t he ht' with h | ⟨h1, h2⟩
      · exact Or.inl h
      · exact Or.inr ⟨ht, h2⟩
    · intro u a ha h
      exact H.lf u a ha ((nn' a).1 h)
    · intro u hu
      rcases e5 u hu with h | ⟨j, h1, h2⟩
      · exact H.endR u h
      · replace h2 : u = w.st.ord.indexToId j := h2
        rw [hws] at h2
        rw [h2]
        refine ⟨W.id_range j (by omega), ?_⟩
        show v.st.ord.lvl _ < _
        rw [W.lvl_indexToId (by omega)]
        omega

end

end Bfr

end Cal
