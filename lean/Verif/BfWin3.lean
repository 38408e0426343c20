import Verif.BfWin2

/-!
# Breadth-first window permutation: the windows of two and of three variables
-/

namespace Cal

namespace Bfr

open Df (Fr PWF)

section
variable (ext : Nat → Nat) (δ0 : Nat → BFn) (d0 : Df.St) (Root : Edge → Prop) (u0 v0 : Nat → Option Edge)

/-- Between two windows; the next one is at index `i`. -/
structure Gap (n i : Nat) (w : St) (d : Df.St) (ab : Nat → Nat) : Prop where
  win : Win ext δ0 d0 Root u0 v0 i 1 w (idl w) d ab
  low : Low i w
  nv : w.st.ord.numVars = n

end

section
variable {ext : Nat → Nat} {δ0 : Nat → BFn} {d0 : Df.St} {Root : Edge → Prop} {u0 v0 : Nat → Option Edge}
variable {w v v1 : St} {d d' : Df.St} {ab ab' : Nat → Nat} {i j k n : Nat} {g : Nat → Nat} {d1 : Df.St} {a b c : Nat}

theorem WS.mono {f : Bool} {p} (h : WS ext δ0 d0 Root u0 v0 f n i k g p d1 w) : WS ext δ0 d0 Root u0 v0 f n i (k + 1) g p d1 w := by
  obtain ⟨v, d, ab, H, r⟩ := h
  refine ⟨v, d, ab, ⟨H.B, H.eq, H.nn, H.ng, ?_, H.tgt, H.lf, H.nd, H.dj, H.sup, H.endR⟩, r⟩
  intro u a ha hu
  obtain ⟨t, t0, h1, h2, h3, h4⟩ := H.flat u a ha hu
  exact ⟨t, t0, h1, h2, h3, chase_mono h4⟩

theorem WS.le {f : Bool} {p} {k' : Nat} (hk : k ≤ k') (h : WS ext δ0 d0 Root u0 v0 f n i k g p d1 w) :
    WS ext δ0 d0 Root u0 v0 f n i k' g p d1 w := by
  induction hk with
  | refl => exact h
  | step _ ih => exact ih.mono

theorem Gap.ws (h : Gap ext δ0 d0 Root u0 v0 n i w d ab) :
    WS ext δ0 d0 Root u0 v0 false n i 1 w.st.ord.indexToId
      (w.st.ord.indexToId i, w.st.ord.indexToId (i + 1), w.st.ord.indexToId (i + 2)) d w :=
  ⟨idl w, d, ab, h.win, h.low, h.nv, ⟨⟨rfl, rfl, rfl⟩, fun _ _ _ _ => rfl⟩, fun _ h h' => ⟨h, h'⟩⟩

/-- The six orders of three variables, as the exchanges go through them. -/
def perm (a b c : Nat) : Nat → Nat × Nat × Nat
  | 0 => (a, b, c)
  | 1 => (b, a, c)
  | 2 => (b, c, a)
  | 3 => (c, b, a)
  | 4 => (c, a, b)
  | _ => (a, c, b)

theorem better_spec {q : Nat → Nat × Nat × Nat} {strict : Bool} {k size : Nat} {r : Nat × Nat}
    (h : Seen ext δ0 d0 i g (q k) size) (hr : Seen ext δ0 d0 i g (q r.1) r.2) :
    Seen ext δ0 d0 i g (q (better strict k size r).1) (better strict k size r).2 ∧ (better strict k size r).2 ≤ r.2 ∧
      ((better strict k size r).1 = k ∨ (better strict k size r).1 = r.1) := by
  unfold better
  by_cases hc : (if strict = true then size < r.2 else size ≤ r.2)
  · rw [if_pos hc]
    refine ⟨h, ?_, Or.inl rfl⟩
    cases strict
    · simpa using hc
    · have : size < r.2 := by simpa using hc
      show size ≤ r.2
      omega
  · rw [if_neg hc]
    exact ⟨hr, Nat.le_refl _, Or.inr rfl⟩

theorem tryAll_spec (h : WS ext δ0 d0 Root u0 v0 false n i 1 g (a, b, c) d1 w) (hi : i + 2 < n) :
    ∃ w5 best size, tryAll w i = some (w5, best, size) ∧ WS ext δ0 d0 Root u0 v0 false n i 6 g (a, c, b) d1 w5 ∧
      Seen ext δ0 d0 i g (perm a b c best) size ∧ size ≤ w.st.numNodes ∧ best ≤ 5 := by
  obtain ⟨w1, e1, h1⟩ := step0 h (by omega)
  obtain ⟨w2, e2, h2⟩ := step1 h1 hi
  obtain ⟨w3, e3, h3⟩ := step2 h2 (by omega)
  obtain ⟨w4, e4, h4⟩ := step1 h3 hi
  obtain ⟨w5, e5, h5⟩ := step2 h4 (by omega)
  have s0 : Seen ext δ0 d0 i g (perm a b c ((0, w.st.numNodes) : Nat × Nat).1) ((0, w.st.numNodes) : Nat × Nat).2 := h.seen
  obtain ⟨s1, l1, b1⟩ := better_spec (q := perm a b c) (strict := true) (k := 1) h1.seen s0
  obtain ⟨s2, l2, b2⟩ := better_spec (q := perm a b c) (strict := true) (k := 2) h2.seen s1
  obtain ⟨s3, l3, b3⟩ := better_spec (q := perm a b c) (strict := false) (k := 3) h3.seen s2
  obtain ⟨s4, l4, b4⟩ := better_spec (q := perm a b c) (strict := false) (k := 4) h4.seen s3
  obtain ⟨s5, l5, b5⟩ := better_spec (q := perm a b c) (strict := false) (k := 5) h5.seen s4
  refine ⟨w5, _, _, ?_, h5, s5, ?_, ?_⟩
  · unfold tryAll
    simp only [e1, e2, e3, e4, e5]
  · simp only at l1; omega
  · simp only at b1; omega

theorem backTo_spec (h : WS ext δ0 d0 Root u0 v0 false n i 6 g (a, c, b) d1 w) (hi : i + 2 < n) {best : Nat} (hb : best ≤ 5) :
    ∃ w2, swaps (backTo i best) w = some w2 ∧ WS ext δ0 d0 Root u0 v0 (decide (best = 0 ∨ best = 3)) n i 9 g (perm a b c best) d1 w2 := by
  have hb' : best = 0 ∨ best = 1 ∨ best = 2 ∨ best = 3 ∨ best = 4 ∨ best = 5 := by omega
  rcases hb' with rfl | rfl | rfl | rfl | rfl | rfl
  · obtain ⟨w1, e1, h1⟩ := step1 h hi
    exact ⟨w1, by simp only [backTo, swaps, e1], h1.le (by omega)⟩
  · obtain ⟨w1, e1, h1⟩ := step1 h hi
    obtain ⟨w2, e2, h2⟩ := step2 h1 (by omega)
    exact ⟨w2, by simp only [backTo, swaps, e1, e2], h2.le (by omega)⟩
  · obtain ⟨w1, e1, h1⟩ := step0 h (by omega)
    obtain ⟨w2, e2, h2⟩ := step1 h1 hi
    obtain ⟨w3, e3, h3⟩ := step2 h2 (by omega)
    exact ⟨w3, by simp only [backTo, swaps, e1, e2, e3], h3.le (by omega)⟩
  · obtain ⟨w1, e1, h1⟩ := step0 h (by omega)
    obtain ⟨w2, e2, h2⟩ := step1 h1 hi
    exact ⟨w2, by simp only [backTo, swaps, e1, e2], h2.le (by omega)⟩
  · obtain ⟨w1, e1, h1⟩ := step0 h (by omega)
    exact ⟨w1, by simp only [backTo, swaps, e1], h1.le (by omega)⟩
  · exact ⟨w, rfl, h.le (by omega)⟩

/-- In an order that has been seen there are not more nodes than then. -/
theorem seen_le {p} {size : Nat} (I : Df.RInv ext δ0 d0 d) (Z : NoZero d) (t : Tri i g p d.st.ord) (h : Seen ext δ0 d0 i g p size)
    (u : Df.Unstuck ext d) : d.st.numNodes ≤ size := by
  obtain ⟨db, Ib, rfl, tb⟩ := h
  refine Df.num_le_df I Ib (Df.order_of_ids I.inv.w.ord Ib.inv.w.ord (by rw [Ib.nv, I.nv]) fun j _ => t.same tb j) Z u

/-- A window of three variables. -/
theorem window3_spec (G : Gap ext δ0 d0 Root u0 v0 n i w d ab) (hi : i + 2 < n) :
    ∃ w' m d' ab', window3 w i = some (w', m) ∧ Gap ext δ0 d0 Root u0 v0 n i w' d' ab' ∧ Less ext d d' ∧
      (m = true → Df.Unstuck ext d' → d'.st.numNodes < d.st.numNodes) := by
  obtain ⟨w5, best, size, e1, h1, s1, l1, b1⟩ := tryAll_spec G.ws hi
  obtain ⟨w2, e2, h2⟩ := backTo_spec h1 hi b1
  have h3 : WS ext δ0 d0 Root u0 v0 false n i 9 w.st.ord.indexToId
      (perm (w.st.ord.indexToId i) (w.st.ord.indexToId (i + 1)) (w.st.ord.indexToId (i + 2)) best) d
      (if best = 0 ∨ best = 3 then fixCofactors w2 (w2.st.ord.indexToId i) else w2) := by
    by_cases hc : best = 0 ∨ best = 3
    · rw [if_pos hc]
      have : decide (best = 0 ∨ best = 3) = true := decide_eq_true hc
      rw [this] at h2
      exact stepFix h2 (by omega)
    · rw [if_neg hc]
      have : decide (best = 0 ∨ best = 3) = false := decide_eq_false hc
      rw [this] at h2
      exact h2
  obtain ⟨w4, e3, d', ab', H, L, hn, t, st, num, -⟩ := fixAndFree_spec (q := 3) h3 (by decide) (by omega) (Or.inl rfl) (by omega)
  have numw : w.st.numNodes = d.st.numNodes := G.win.B.sim.num
  have key : Df.Unstuck ext d' → d'.st.numNodes ≤ size := by
    refine seen_le H.B.r H.B.nz ?_ s1
    rw [H.B.sim.ord]; exact t
  refine ⟨w4, decide (0 < best ∧ size < w.st.numNodes), d', ab', ?_, ⟨H, L, hn⟩, ⟨st, fun u => ?_⟩, ?_⟩
  · unfold window3
    rw [e1]
    simp only [e2, e3, Option.map_some]
  · have := key u; omega
  · intro hm u
    have hm := (of_decide_eq_true hm).2
    have := key u; omega

/-- A window of two variables, at the end. -/
theorem window2_spec (G : Gap ext δ0 d0 Root u0 v0 n i w d ab) (hi : i + 2 = n) :
    ∃ w' m d' ab', window2 w i = some (w', m) ∧ Gap ext δ0 d0 Root u0 v0 n i w' d' ab' ∧ Less ext d d' ∧
      (m = true → Df.Unstuck ext d' → d'.st.numNodes < d.st.numNodes) := by
  obtain ⟨w1, e1, h1⟩ := step0 G.ws (by omega)
  have numw : w.st.numNodes = d.st.numNodes := G.win.B.sim.num
  unfold window2
  rw [e1]
  simp only
  by_cases hc : w.st.numNodes < w1.st.numNodes
  · rw [if_pos hc]
    obtain ⟨w2, e2, h2⟩ := step0 h1 (by omega)
    rw [e2]
    simp only
    obtain ⟨w4, e3, d', ab', H, L, hn, t, st, num, -⟩ := fixAndFree_spec (q := 2) h2 (by decide) (by omega) (Or.inr hi) (by omega)
    rw [e3]
    refine ⟨w4, _, d', ab', rfl, ⟨H, L, hn⟩, ⟨st, fun u => ?_⟩, ?_⟩
    · rw [← numw]
      refine seen_le H.B.r H.B.nz ?_ G.ws.seen u
      rw [H.B.sim.ord]; exact t
    · intro hm
      have := of_decide_eq_true hm
      omega
  · rw [if_neg hc]
    simp only
    obtain ⟨w4, e3, d', ab', H, L, hn, t, st, num, num2, -⟩ := fixAndFree_spec (q := 2) h1 (by decide) (by omega) (Or.inr hi) (by omega)
    rw [e3]
    refine ⟨w4, _, d', ab', rfl, ⟨H, L, hn⟩, ⟨st, fun u => ?_⟩, ?_⟩
    · omega
    · intro hm _
      have := of_decide_eq_true hm
      omega

/-- On to the next index. -/
theorem Gap.next (G : Gap ext δ0 d0 Root u0 v0 n i w d ab) (hi : i < n) : Gap ext δ0 d0 Root u0 v0 n (i + 1) w d ab := by
  obtain ⟨H, L, hn⟩ := G
  have W := H.B.ordWF
  refine ⟨⟨H.B, H.eq, H.nn, H.ng, fun u a ha hu => H.flat u a ha (by omega), ?_, H.lf, H.nd, H.dj, fun u hu => ?_, fun u hu => ?_⟩,
    fun a n hn hl => L a n hn (by omega), hn⟩
  · intro e t he ht
    rcases H.tgt e t he ht with ⟨u, h1, h2, h3, h4⟩ | ⟨h1, h2⟩
    · by_cases hu : (idl w).st.ord.lvl u = i
      · right
        refine ⟨ht, ?_⟩
        show w.st.ord.lvl t.id < i + 1
        replace hu : w.st.ord.lvl u = i := hu
        have hE := H.B.target he ht
        obtain ⟨δ, hδ⟩ := H.B.r.inv.w.exists_lab
        have hd := h4 δ hδ
        replace hE : w.st.EOK t := hE
        rcases hE with ⟨_, h0⟩ | ⟨m, hm, hv⟩
        · exfalso
          apply hd
          intro ρ b
          rw [h0, H.B.sim.zero, hδ.const]
        · obtain ⟨m', m1, m2, _⟩ := H.B.sim.node _ _ hm
          apply Classical.byContradiction
          intro hlt
          apply hd
          have hk := Df.kid_indep H.B.r.inv.w hδ (v := u) (e := ⟨0, ab t.addr, false⟩)
            (Or.inr ⟨m', m1, by
              rw [m2, hv, H.B.sim.ord]
              show w.st.ord.lvl u < w.st.ord.lvl t.id
              omega⟩)
          have h1 : den δ ⟨0, ab t.addr, false⟩ = δ (ab t.addr) := by funext ρ; simp [den]
          rwa [h1] at hk
      · exact Or.inl ⟨u, by omega, h2, h3, h4⟩
    · exact Or.inr ⟨h1, by omega⟩
  · obtain ⟨h1, h2⟩ := H.sup u hu
    exact ⟨h1, by omega⟩
  · obtain ⟨h1, h2⟩ := H.endR u hu
    exact ⟨h1, by omega⟩

end

end Bfr

end Cal
