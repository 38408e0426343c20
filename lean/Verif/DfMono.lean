import Verif.SiftMono
import Verif.BfZero
import Verif.Count
import Verif.DfMain

/-!
# Depth-first reordering: the order determines the number of nodes

As long as only nodes that are referenced from outside have stuck counts, the number of nodes between two exchanges
is determined by the order of the variables. Sifting and window permutation therefore never end with more nodes
than they begin with.
-/

namespace Cal

open Sift Block

/-! ## For any package -/

namespace Sift

variable {σ : Type} {S : Sys σ} {J U : σ → Prop} {o : σ → Int → Nat} {n : Nat}

theorem Fixed.sift_le (F : Fixed S J U o n) (L : Limits) {b b' : Block} (hb : SuperOK n b) {s s' : σ} (hs : J s)
    (h : reorderSift S L n s b = some (s', b')) (u : U s') : S.size s' ≤ S.size s := by
  obtain ⟨j', t⟩ := reorderSift_tra F.agree L n b hs _ h
  obtain ⟨us, e⟩ := t u
  obtain ⟨s2, b2, e2, -, -, -, -, hle⟩ := C43_sift (F.ok' _) L hb hs
  rw [e] at e2
  cases e2
  have := hle _ Fixed.sizeOf
  have h1 := F.agree.size s' j' u
  have h2 := F.agree.size s hs us
  rw [← h1, ← h2]
  exact this

theorem Fixed.window_le (F : Fixed S J U o n) {b b' : Block} (hb : SuperOK n b) {s s' : σ} (hs : J s) {passes : Nat}
    (h : reorderWindowN S n passes s b = some (s', b')) (u : U s') : S.size s' ≤ S.size s := by
  obtain ⟨j', t⟩ := reorderWindowN_tra F.agree n passes b hs _ h
  obtain ⟨us, e⟩ := t u
  obtain ⟨s2, b2, e2, -, -, -, -, hle⟩ := C43_window (F.ok' _) Fixed.sizeOf (fun l => sizeFor_pos l) hb hs
  obtain ⟨N0, hN⟩ := reorderWindow_N e2
  have h1 := hN (max N0 passes) (by omega)
  rw [reorderWindowN_mono (by omega : passes ≤ max N0 passes) e] at h1
  cases h1
  have h1' := F.agree.size s' j' u
  have h2' := F.agree.size s hs us
  rw [← h1', ← h2']
  exact hle

theorem Fixed.window_ends (F : Fixed S J U o n) {b : Block} (hb : SuperOK n b) {s : σ} (hs : J s) :
    (∃ passes s' b', reorderWindowN S n passes s b = some (s', b')) ∨ ∃ s', J s' ∧ ¬ U s' := by
  obtain ⟨s2, b2, e2, j2, -⟩ := C43_window (F.ok' _) Fixed.sizeOf (fun l => sizeFor_pos l) hb hs
  by_cases u : U s2
  · obtain ⟨N0, hN⟩ := reorderWindow_N e2
    obtain ⟨-, t⟩ := reorderWindowN_tra F.swap n N0 b hs _ (hN N0 (Nat.le_refl _))
    exact Or.inl ⟨N0, s2, b2, (t u).2⟩
  · exact Or.inr ⟨s2, j2, u⟩

end Sift

namespace Df

open Bfr (NoZero)

/-! ## Every node keeps a reference -/

/-- The breadth-first state that stands for a depth-first state before anything has been moved. -/
def asBf (d : St) : Bfr.St :=
  { st := reid d.st, fwd := fun _ => none, list := fun _ => [], ends := fun _ => false, numFwd := 0, mat := d.mat,
    swaps := d.swaps, trivial := d.trivial, users := fun _ => none, vars := fun _ => none, assocs := d.assocs,
    temp := d.temp, pipe := id }

theorem asBf_follow (d : St) (e : Edge) : Bfr.follow (asBf d) e = e := rfl

theorem asBf_eok {d : St} (P : PWF d.st) {a n} (h : d.st.heap a = some n) {e : Edge} (he : e = n.thn ∨ e = n.els) :
    (reid d.st).EOK (reidE d.st e) := by
  rcases he with rfl | rfl
  · exact Below.eok P.heap0 (P.thn_lo _ _ h)
  · exact Below.eok P.heap0 (P.els_lo _ _ h)

theorem asBf_sim {ext : Nat → Nat} {d : St} (I : DInv ext d) : Bfr.Sim (Bfr.follow (asBf d)) (asBf d) d id := by
  have P := I.w
  have abs : ∀ e : Edge, e.id = 0 → Bfr.absE id (reidE d.st e) = e := by
    intro e h
    cases e
    simp only at h
    subst h
    rfl
  have fr : Fr (reid d.st) :=
    ⟨reid_none.2 P.heap0, P.next_pos, fun a n h => by obtain ⟨k, hk, -⟩ := reid_some h; exact P.heap_next _ _ hk, P.free_nodup,
      fun i a h => ⟨reid_none.2 (P.free_ok i a h).1, (P.free_ok i a h).2⟩, P.free_disj⟩
  refine ⟨rfl, rfl, ⟨fr, fun a t h => by cases h⟩, fun a b _ _ h => h, fun b h => ⟨b, fun h' => h (reid_none.1 h'), rfl⟩, ?_,
    fun i => by simp [asBf, reid], ?_, fun a _ => rfl, ?_, rfl, rfl, rfl⟩
  · intro a n h
    obtain ⟨k, hk, rfl⟩ := reid_some h
    obtain ⟨p1, p2⟩ := P.plain _ _ hk
    exact ⟨k, hk, rfl, ⟨asBf_eok P hk (Or.inl rfl), abs _ p1⟩, ⟨asBf_eok P hk (Or.inr rfl), abs _ p2⟩⟩
  · intro i a
    refine (P.tab_iff i a).trans ⟨?_, ?_⟩
    · rintro ⟨n, h1, h2⟩; exact ⟨_, reid_heap h1, h2⟩
    · rintro ⟨n, h1, h2⟩
      obtain ⟨k, hk, rfl⟩ := reid_some h1
      exact ⟨k, hk, h2⟩
  · intro a h
    rcases h with rfl | h
    · show d.st.ref 0 ≤ _
      rw [I.ref.const]; exact Nat.le_refl _
    · exact I.ref.le a fun h' => h (reid_none.2 h')

/-- An exchange leaves every node with a reference. -/
theorem noZero_exchange {ext : Nat → Nat} {d d' : St} (I : DInv ext d) {i : Nat} (hi : i + 1 < d.st.ord.numVars)
    (h : exchange d (d.st.ord.indexToId i) = some d') (Z : NoZero d) : NoZero d' := by
  have P := I.w
  have hr := P.ord.id_range i (by omega)
  have hidx : d.st.ord.idToIndex (d.st.ord.indexToId i) = i := P.ord.right i (by omega)
  obtain ⟨d1, e1, I', K, ho⟩ := exchange_spec I hr.1 hr.2 (by omega)
  rw [h] at e1; cases e1
  have A := adj_of P hr.1 hr.2 (by omega)
  rw [hidx] at A ho
  have kids : ∀ a n, (asBf d).st.heap a = some n → (asBf d).st.EOK n.thn ∧ (asBf d).st.EOK n.els := by
    intro a n hn
    obtain ⟨k, hk, rfl⟩ := reid_some hn
    exact ⟨asBf_eok P hk (Or.inl rfl), asBf_eok P hk (Or.inr rfl)⟩
  obtain ⟨w', d2, ab', R, -, e2, S', E, -⟩ := Bfr.swap_sim (flag := false) (asBf_sim I) I hi (fun a n hn _ => kids a n hn)
    (fun a n hn _ e he => by
      left
      rcases he with rfl | rfl
      · exact (kids a n hn).1
      · exact (kids a n hn).2)
  rw [h] at e2; cases e2
  exact Bfr.noZero_swap (asBf_sim I) S' E I I' K A ho h Z

/-! ## The order determines the number of nodes -/

/-- Only nodes that are referenced from outside have stuck counts. -/
def Unstuck (ext : Nat → Nat) (d : St) : Prop := ∀ a, d.st.heap a ≠ none → d.st.ref a = maxRef → 0 < ext a

theorem num_le_df {ext : Nat → Nat} {δ0 : Nat → BFn} {d0 d d' : St} (I : RInv ext δ0 d0 d) (I' : RInv ext δ0 d0 d')
    (o : SameOrder d.st d'.st) (Z : NoZero d) (u : Unstuck ext d) : d.st.numNodes ≤ d'.st.numNodes := by
  have P := I.inv.w
  have P' := I'.inv.w
  obtain ⟨δ, l, hl⟩ := I.fns
  obtain ⟨δ', l', hl'⟩ := I'.fns
  have rl := lab_reid.2 l
  have rl' := lab_reid.2 l'
  have ref := refOK_reid.2 I.inv.ref
  refine num_le (s := reid d.st) (s' := reid d'.st) (ext := ext) P.reid P'.reid ⟨o.nv, o.lvl⟩ ref ?_ ?_ I.inv.num I'.inv.num
  · intro a h
    cases hn : d.st.heap a with
    | none => exact absurd (reid_none.2 hn) h
    | some n => exact Z a n hn
  · intro a h hx
    have h' : d.st.heap a ≠ none := fun h' => h (reid_none.2 h')
    have hpos : 0 < ext a := by
      rcases hx with hx | hx
      · exact hx
      · exact u a h' hx
    have a0 : a ≠ 0 := by rintro rfl; exact h' P.heap0
    cases hn : d.st.heap a with
    | none => exact absurd hn h'
    | some n =>
      cases hn' : d'.st.heap a with
      | none => have := I'.inv.ref.ext0 a a0 hn'; omega
      | some n' =>
        refine ⟨_, a, _, δ a, reid_heap hn, reid_heap hn', ?_, ?_⟩
        · have := rl.rep P.reid (e := ⟨n.var, a, false⟩) (Or.inr ⟨_, reid_heap hn, rfl⟩)
          have h1 : den δ ⟨n.var, a, false⟩ = δ a := by funext ρ; simp [den]
          rwa [h1] at this
        · have := rl'.rep P'.reid (e := ⟨n'.var, a, false⟩) (Or.inr ⟨_, reid_heap hn', rfl⟩)
          have h1 : den δ' ⟨n'.var, a, false⟩ = δ a := by funext ρ; simp [den, hl' a hpos, hl a hpos]
          rwa [h1] at this

/-- States that exchanges lead to. -/
inductive Exch (d0 : St) : St → Prop
  | start : Exch d0 d0
  | ex {d d' : St} {i : Int} (h : Exch d0 d) (e : sys.ex d i = some d') : Exch d0 d'
  | reset {d : St} (h : Exch d0 d) : Exch d0 (sys.reset d)

theorem order_of_ids {d d' : St} (w : d.st.ord.WF) (w' : d'.st.ord.WF) (nv : d'.st.ord.numVars = d.st.ord.numVars)
    (key : ∀ k, k < d.st.ord.numVars → d'.st.ord.indexToId k = d.st.ord.indexToId k) : SameOrder d.st d'.st := by
  refine ⟨nv, fun v hv => ?_⟩
  unfold Order.lvl
  by_cases c : v = 0
  · rw [if_pos c, if_pos c]
  · rw [if_neg c, if_neg c]
    have h1 := w.idx_lt v (by omega) hv
    have h2 := w.left v (by omega) hv
    have h3 := key _ h1
    rw [h2] at h3
    have h4 := w'.right (d.st.ord.idToIndex v) (by rw [nv]; exact h1)
    rw [h3] at h4
    exact h4

theorem order_of_list {d d' : St} (w : d.st.ord.WF) (w' : d'.st.ord.WF) (nv : d'.st.ord.numVars = d.st.ord.numVars)
    (h : (upto 0 d.st.ord.numVars).map (at_ d) = (upto 0 d.st.ord.numVars).map (at_ d')) : SameOrder d.st d'.st := by
  refine order_of_ids w w' nv fun k hk => ?_
  have := congrArg (fun l => l[k]?) h
  simp only [upto, List.getElem?_map, Int.sub_zero, Int.toNat_natCast] at this
  rw [List.getElem?_range hk] at this
  simp only [Option.map_some, Option.some.injEq, at_] at this
  rw [if_pos (by omega), if_pos (by omega)] at this
  simpa using this.symm

/-- The invariant with references for all nodes. -/
def ZInv (ext : Nat → Nat) (δ0 : Nat → BFn) (d0 : St) (c : Int) (d : St) : Prop :=
  (RInv ext δ0 d0 d ∧ d.st.gcCheck = c) ∧ NoZero d ∧ Exch d0 d

theorem fixed {ext : Nat → Nat} {δ0 : Nat → BFn} {d0 : St} (c : Int) :
    Fixed sys (ZInv ext δ0 d0 c) (Unstuck ext) at_ d0.st.ord.numVars := by
  have key : ∀ (d : St) (i : Int) d', ZInv ext δ0 d0 c d → sys.ex d i = some d' → ZInv ext δ0 d0 c d' ∧
      (Unstuck ext d' → Unstuck ext d) := by
    rintro d i d' ⟨⟨I, hc⟩, Z, R⟩ e
    have e0 := e
    have e' : (if 0 ≤ i ∧ i < d.st.ord.numVars then exchange d (d.st.ord.indexToId i.toNat) else none) = some d' := e
    split at e'
    · rename_i hi
      have hidx := I.inv.w.ord.right i.toNat (by omega)
      have hi' : i.toNat + 1 < d.st.ord.numVars := by
        have := e'
        unfold exchange at this
        simp only at this
        split at this
        · rename_i h; rw [hidx] at h; exact h.2.2
        · cases this
      have hn := I.nv
      obtain ⟨d2, e2, J2, -⟩ := (sys_ok' (ext := ext) (δ0 := δ0) (d0 := d0) c).ex d i ⟨I, hc⟩ hi.1 (by omega)
      rw [e] at e2; cases e2
      refine ⟨⟨J2, noZero_exchange I.inv hi' e' Z, .ex R e0⟩, fun u a ha hr => ?_⟩
      obtain ⟨h1, h2⟩ := Bfr.sat_exchange I.inv.w.fr e' a ha hr
      exact u a h1 h2
    · cases e'
  refine ⟨⟨fun d i J h0 hi => ?_, fun d J => ?_⟩, key, fun d J u => u, fun d => ?_, ?_⟩
  · obtain ⟨d', e, -, ho⟩ := (sys_ok' (ext := ext) (δ0 := δ0) (d0 := d0) c).ex d i J.1 h0 hi
    exact ⟨d', e, (key d i d' J e).1, ho⟩
  · obtain ⟨h1, h2⟩ := (sys_ok' (ext := ext) (δ0 := δ0) (d0 := d0) c).reset d J.1
    exact ⟨⟨h1, J.2.1, .reset J.2.2⟩, h2⟩
  · show (0 : Int) ≤ (d.st.numNodes : Int)
    omega
  · intro d d' J u J' u' h
    have o : SameOrder d.st d'.st := by
      have n1 := J.1.1.nv
      have n2 := J'.1.1.nv
      refine order_of_list J.1.1.inv.w.ord J'.1.1.inv.w.ord (by omega) ?_
      rw [n1]; exact h
    have h1 := num_le_df J.1.1 J'.1.1 o J.2.1 u
    have h2 := num_le_df J'.1.1 J.1.1 o.symm J'.2.1 u'
    show (d.st.numNodes : Int) = d'.st.numNodes
    omega

end Df

end Cal
