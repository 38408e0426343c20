import Verif.DfSwap
import Verif.SiftTree

/-!
# Sifting and window permutation on the store of the depth-first package
-/

namespace Cal

namespace Df

/-- The state of depth-first reordering as the reordering routines see it. -/
def sys : Sift.Sys St where
  ex d i := if 0 ≤ i ∧ i < d.st.ord.numVars then exchange d (d.st.ord.indexToId i.toNat) else none
  size d := d.st.numNodes
  width d k := (d.st.tab (d.st.ord.indexToId k.toNat)).length
  swaps d := d.swaps
  reset d := { d with swaps := 0 }

/-- The variable at an index. -/
def at_ (d : St) (x : Int) : Nat := if 0 ≤ x then d.st.ord.indexToId x.toNat else 0

/-- What holds all through the reordering that begins in `d0`: the invariant, and the functions of
the referenced nodes are those of `δ0`. -/
structure RInv (ext : Nat → Nat) (δ0 : Nat → BFn) (d0 d : St) : Prop where
  inv : DInv ext d
  nv : d.st.ord.numVars = d0.st.ord.numVars
  fns : ∃ δ, Lab d.st δ ∧ ∀ a, 0 < ext a → δ a = δ0 a
  assocs : F2 (fun p q : RAssoc => Assoc.SameVars p.a q.a ∧ q.refCount = p.refCount) d0.assocs d.assocs
  temp : Assoc.SameVars d0.temp d.temp
  mat : d.mat = d0.mat

theorem F2_trans {α : Type} {R : α → α → Prop} (tr : ∀ a b c, R a b → R b c → R a c) :
    ∀ {a b c : List α}, F2 R a b → F2 R b c → F2 R a c
  | _, _, _, .nil, .nil => .nil
  | _, _, _, .cons h t, .cons h' t' => .cons (tr _ _ _ h h') (F2_trans tr t t')

theorem F2_refl {α : Type} {R : α → α → Prop} (rf : ∀ a, R a a) : ∀ (a : List α), F2 R a a
  | [] => .nil
  | x :: xs => .cons (rf x) (F2_refl rf xs)

theorem RInv.start {ext : Nat → Nat} {δ0 : Nat → BFn} {d : St} (I : DInv ext d) (l : Lab d.st δ0) :
    RInv ext δ0 d d :=
  ⟨I, rfl, ⟨δ0, l, fun _ _ => rfl⟩, F2_refl (fun _ => ⟨⟨rfl, rfl⟩, rfl⟩) _, ⟨rfl, rfl⟩, rfl⟩

theorem RInv.exchange {ext : Nat → Nat} {δ0 : Nat → BFn} {d0 d : St} (I : RInv ext δ0 d0 d) {i : Nat}
    (hi : i + 1 < d.st.ord.numVars) :
    ∃ d', Df.exchange d (d.st.ord.indexToId i) = some d' ∧ RInv ext δ0 d0 d' ∧
      d'.st.ord = swapOrder d.st.ord (d.st.ord.indexToId i) (d.st.ord.indexToId (i + 1)) := by
  have hr := I.inv.w.ord.id_range i (by omega)
  have hidx : d.st.ord.idToIndex (d.st.ord.indexToId i) = i := I.inv.w.ord.right i (by omega)
  obtain ⟨d', e, I', K, ho⟩ := exchange_spec I.inv hr.1 hr.2 (by omega)
  rw [hidx] at ho
  refine ⟨d', e, ⟨I', by rw [K.nv, I.nv], ?_, ?_, ?_, by rw [K.mat, I.mat]⟩, ho⟩
  · obtain ⟨δ, l, h⟩ := I.fns
    obtain ⟨δ', l', h'⟩ := K.fns δ l
    refine ⟨δ', l', fun a ha => ?_⟩
    by_cases a0 : a = 0
    · subst a0; rw [l'.const, ← h 0 ha, l.const]
    · rw [h' a (fun hn => by have := I.inv.ref.ext0 a a0 hn; omega), h a ha]
  · refine F2_trans ?_ I.assocs K.assocs
    rintro a b c ⟨⟨h1, h2⟩, h3⟩ ⟨⟨k1, k2⟩, k3⟩
    exact ⟨⟨k1.trans h1, k2.trans h2⟩, k3.trans h3⟩
  · exact ⟨K.temp.1.trans I.temp.1, K.temp.2.trans I.temp.2⟩

theorem sys_ok {ext : Nat → Nat} {δ0 : Nat → BFn} {d0 : St} :
    Sift.SysOK sys (RInv ext δ0 d0) at_ d0.st.ord.numVars := by
  constructor
  · intro d i I h0 hi
    obtain ⟨k, rfl⟩ : ∃ k : Nat, i = (k : Int) := ⟨i.toNat, by omega⟩
    have hn := I.nv
    obtain ⟨d', e, I', ho⟩ := I.exchange (i := k) (by omega)
    refine ⟨d', ?_, I', ?_⟩
    · show (if _ then _ else _) = _
      rw [if_pos (by omega), Int.toNat_natCast]; exact e
    · funext x
      unfold at_ Sift.swapF
      rw [ho]
      have hidx : d.st.ord.idToIndex (d.st.ord.indexToId k) = k := I.inv.w.ord.right k (by omega)
      simp only [swapOrder, hidx]
      by_cases c1 : x = k
      · subst c1
        simp only [Int.toNat_natCast, h0, if_true, if_pos (show (0 : Int) ≤ (k : Int) + 1 by omega)]
        rw [upd_ne _ _ (by omega), upd_same, show ((k : Int) + 1).toNat = k + 1 by omega]
      · rw [if_neg c1]
        by_cases c2 : x = (k : Int) + 1
        · subst c2
          simp only [if_pos (show (0 : Int) ≤ (k : Int) + 1 by omega), if_true, h0, Int.toNat_natCast]
          rw [show ((k : Int) + 1).toNat = k + 1 by omega, upd_same]
        · rw [if_neg c2]
          by_cases c3 : 0 ≤ x
          · simp only [if_pos c3]
            rw [upd_ne _ _ (by omega), upd_ne _ _ (by omega)]
          · simp only [if_neg c3]
  · intro d I
    exact ⟨⟨⟨I.inv.w, I.inv.ref, I.inv.num, I.inv.cov, I.inv.assocs, I.inv.temp⟩, I.nv, I.fns, I.assocs, I.temp, I.mat⟩, rfl⟩

end Df

end Cal
