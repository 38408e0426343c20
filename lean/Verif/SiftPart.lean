import Verif.SiftTree

/-!
# Window permutation when the size is not determined by the order

The counts of nodes saturate, so the number of nodes after a few exchanges and their inverses may have
grown. `windowAux` then may take more passes than `Verif/SiftTree.lean` shows. Whatever the number of passes:
if the loops end, the tree of blocks is rearranged within the blocks and the invariant holds.
-/

namespace Cal.Sift

open Block

/-- `BddReorderStableWindow3Aux` (calReorderDF.c:1158-1212) with a bound on the number of passes of each
`do` loop. -/
def windowAuxN {σ : Type} (S : Sys σ) (numVars passes : Nat) : Nat → σ → Block → Option (σ × Block)
  | 0, _, _ => none
  | fuel + 1, s, .mk f l r cs =>
    match (if r then
            if numVars + 1 < cs.length then none else
            (windowLoop (exchange S) (fun p => S.size p.1) numVars cs.length passes
              (s, tagged cs) (fun _ => true)).map (·.1)
           else some (s, tagged cs)) with
    | none => none
    | some (s, ks) =>
      match overKids (windowAuxN S numVars passes fuel) s (ks.map (·.2)) with
      | none => none
      | some (s, cs') => some (s, .mk f l r cs')

/-- `BddReorderStableWindow3` (calReorderDF.c:1217-1226) with a bound on the number of passes. -/
def reorderWindowN {σ : Type} (S : Sys σ) (numVars passes : Nat) (s : σ) (super : Block) : Option (σ × Block) :=
  windowAuxN S numVars passes (depth super) (S.reset s) super

section
variable {π α : Type} {X : π → Int → Option π} {size : π → Int} {I : π → Prop} {arr : π → List α}

theorem swapAt_perm {l : List α} {i : Nat} (h : i + 1 < l.length) : (swapAt i l).Perm l := by
  obtain ⟨A, a, b, D, e, hA⟩ := split2 h
  rw [e, ← hA, swapAt_mid]
  exact List.Perm.append_left _ (List.Perm.swap _ _ _)

theorem LawX.step (h : LawX X I arr) {p : π} (hp : I p) {i : Int} (h0 : 0 ≤ i) (hi : i + 1 < (arr p).length) :
    ∃ q, X p i = some q ∧ I q ∧ (arr q).Perm (arr p) := by
  obtain ⟨k, rfl⟩ : ∃ k : Nat, i = (k : Int) := ⟨i.toNat, by omega⟩
  obtain ⟨q, e, iq, ea⟩ := h.ex p k hp (by omega)
  exact ⟨q, e, iq, by rw [ea]; exact swapAt_perm (by omega)⟩

theorem LawX.run (h : LawX X I arr) : ∀ (is : List Int) {p : π}, I p →
    (∀ i ∈ is, 0 ≤ i ∧ i + 1 < (arr p).length) → ∃ q, runX X p is = some q ∧ I q ∧ (arr q).Perm (arr p)
  | [], p, hp, _ => ⟨p, rfl, hp, List.Perm.refl _⟩
  | i :: is, p, hp, hi => by
    obtain ⟨q, e, iq, pq⟩ := h.step hp (hi i List.mem_cons_self).1 (hi i List.mem_cons_self).2
    obtain ⟨r, e', ir, pr⟩ := h.run is iq (fun j hj => by
      rw [pq.length_eq]; exact hi j (List.mem_cons_of_mem _ hj))
    refine ⟨r, ?_, ir, pr.trans pq⟩
    unfold runX at *
    rw [List.foldlM_cons, e]; exact e'

theorem window2_run (h : LawX X I arr) (size : π → Int) {p : π} (hp : I p) {i : Int} (h0 : 0 ≤ i)
    (hi : i + 1 < (arr p).length) :
    ∃ q m, window2 X size p i = some (q, m) ∧ I q ∧ (arr q).Perm (arr p) := by
  obtain ⟨q, e, iq, pq⟩ := h.step hp h0 hi
  unfold window2
  rw [e]
  dsimp only
  split
  · exact ⟨q, true, rfl, iq, pq⟩
  · obtain ⟨r, e', ir, pr⟩ := h.step iq h0 (by rw [pq.length_eq]; exact hi)
    rw [e']
    exact ⟨r, false, rfl, ir, pr.trans pq⟩

theorem window3_run (h : LawX X I arr) (size : π → Int) {p : π} (hp : I p) {i : Int} (h0 : 0 ≤ i)
    (hi : i + 2 < (arr p).length) :
    ∃ q m, window3 X size p i = some (q, m) ∧ I q ∧ (arr q).Perm (arr p) := by
  obtain ⟨p1, e1, i1, q1⟩ := h.step hp h0 (by omega)
  have l1 := q1.length_eq
  obtain ⟨p2, e2, i2, q2⟩ := h.step i1 (i := i + 1) (by omega) (by omega)
  have l2 := q2.length_eq
  obtain ⟨p3, e3, i3, q3⟩ := h.step i2 h0 (by omega)
  have l3 := q3.length_eq
  obtain ⟨p4, e4, i4, q4⟩ := h.step i3 (i := i + 1) (by omega) (by omega)
  have l4 := q4.length_eq
  obtain ⟨p5, e5, i5, q5⟩ := h.step i4 h0 (by omega)
  have l5 := q5.length_eq
  unfold window3
  simp only [e1, e2, e3, e4, e5]
  have fin : ∀ is : List Int, (∀ j ∈ is, j = i ∨ j = i + 1) →
      ∃ q, runX X p5 is = some q ∧ I q ∧ (arr q).Perm (arr p) := by
    intro is his
    obtain ⟨q, e, iq, pq⟩ := h.run is i5 (fun j hj => by have := his j hj; omega)
    exact ⟨q, e, iq, pq.trans (q5.trans (q4.trans (q3.trans (q2.trans q1))))⟩
  have key : ∀ (best : Nat) (z : Option π), runX X p5
      (match best with
       | 0 => [i + 1]
       | 1 => [i + 1, i]
       | 2 => [i + 1, i, i + 1]
       | 3 => [i, i + 1]
       | 4 => [i]
       | _ => []) = z → ∃ q, z = some q ∧ I q ∧ (arr q).Perm (arr p) := by
    rintro best z rfl
    apply fin
    intro j hj
    split at hj <;> simp only [List.mem_cons, List.not_mem_nil, or_false] at hj <;> omega
  split
  · rename_i hx
    obtain ⟨q, e, -⟩ := key _ _ hx
    cases e
  · rename_i q hx
    obtain ⟨q', e, hq⟩ := key _ _ hx
    cases e
    exact ⟨q, _, rfl, hq⟩

theorem windowStep_run (h : LawX X I arr) (size : π → Int) {p : π} (hp : I p) {i : Nat} (hi : i + 1 < (arr p).length)
    {numVars : Nat} (hn : (arr p).length ≤ numVars) (levels : Int → Bool) (any : Bool) :
    ∃ q l m, windowStep X size numVars (arr p).length (p, levels, any) i = some (q, l, m) ∧ I q ∧
      (arr q).Perm (arr p) := by
  unfold windowStep
  simp only
  by_cases c : levels i = true
  · rw [if_pos c]
    have key : ∃ q m, (if (i : Int) < ((arr p).length : Int) - 2 then window3 X size p i else window2 X size p i) =
        some (q, m) ∧ I q ∧ (arr q).Perm (arr p) := by
      by_cases c2 : (i : Int) < ((arr p).length : Int) - 2
      · rw [if_pos c2]; exact window3_run h size hp (by omega) (by omega)
      · rw [if_neg c2]; exact window2_run h size hp (by omega) (by omega)
    obtain ⟨q, m, e1, iq, e2⟩ := key
    rw [e1]
    cases m with
    | true =>
      obtain ⟨l, el⟩ := raise_some (numVars := numVars) hi hn levels
      simp only [el]
      exact ⟨q, l, true, rfl, iq, e2⟩
    | false =>
      have : setLevel numVars levels i false = some (fun k => if k = (i : Int) then false else levels k) := by
        unfold setLevel; rw [if_pos (by omega)]
      simp only [this]
      exact ⟨q, _, any, rfl, iq, e2⟩
  · rw [if_neg c]
    exact ⟨p, levels, any, rfl, hp, List.Perm.refl _⟩

theorem windowFold_run (h : LawX X I arr) (size : π → Int) {numVars n : Nat} (hn : n ≤ numVars) :
    ∀ (is : List Nat) (p : π) (levels : Int → Bool) (any : Bool), I p → (arr p).length = n →
      (∀ i ∈ is, i + 1 < n) →
      ∃ q l m, is.foldlM (fun a (i : Nat) => windowStep X size numVars n a i) (p, levels, any) = some (q, l, m) ∧
        I q ∧ (arr q).Perm (arr p)
  | [], p, levels, any, hp, _, _ => ⟨p, levels, any, rfl, hp, List.Perm.refl _⟩
  | i :: is, p, levels, any, hp, hl, hi => by
    subst hl
    obtain ⟨q, l, m, e1, iq, e2⟩ := windowStep_run h size hp (hi i (by simp)) hn levels any
    obtain ⟨r, l', m', f1, ir, f2⟩ := windowFold_run h size hn is q l m iq e2.length_eq
      (fun k hk => hi k (by simp [hk]))
    refine ⟨r, l', m', ?_, ir, f2.trans e2⟩
    rw [List.foldlM, e1]; exact f1

/-- If the loop ends within the given number of passes, the children are permuted. -/
theorem windowLoop_run (h : LawX X I arr) (size : π → Int) {numVars n : Nat} (hn : n ≤ numVars) :
    ∀ (fuel : Nat) (p : π) (levels : Int → Bool), I p → (arr p).length = n →
      ∀ {q l}, windowLoop X size numVars n fuel p levels = some (q, l) → I q ∧ (arr q).Perm (arr p)
  | 0, p, levels, hp, _, q, l, e => by cases e
  | fuel + 1, p, levels, hp, hl, q, l, e => by
    obtain ⟨q1, l1, m, e1, iq, e2⟩ := windowFold_run h size hn (List.range (n - 1)) p levels false hp hl
      (fun i hi => by have := List.mem_range.1 hi; omega)
    have e1' : windowPass X size numVars n p levels = some (q1, l1, m) := by
      unfold windowPass
      rw [show ((n : Int) - 1).toNat = n - 1 by omega]
      exact e1
    rw [windowLoop, e1'] at e
    cases m with
    | false => cases e; exact ⟨iq, e2⟩
    | true =>
      obtain ⟨k1, k2⟩ := windowLoop_run h size hn fuel q1 l1 iq (by rw [e2.length_eq, hl]) e
      exact ⟨k1, k2.trans e2⟩

end

section
variable {σ : Type} {S : Sys σ} {J : σ → Prop} {o : σ → Int → Nat} {n : Nat}

theorem overKids_mono {F F' : σ → Block → Option (σ × Block)} (h : ∀ s b x, F s b = some x → F' s b = some x) :
    ∀ (cs : List Block) {s x}, overKids F s cs = some x → overKids F' s cs = some x
  | [], s, x, e => e
  | b :: bs, s, x, e => by
    unfold overKids at e ⊢
    cases hf : F s b with
    | none => rw [hf] at e; cases e
    | some p =>
      obtain ⟨s1, b1⟩ := p
      rw [hf] at e
      rw [h _ _ _ hf]
      dsimp only at e ⊢
      cases hg : overKids F s1 bs with
      | none => rw [hg] at e; cases e
      | some q =>
        rw [hg] at e
        rw [overKids_mono h bs hg]; exact e

/-- One level, or nothing if that does not end. -/
def levelN (S : Sys σ) (numVars passes : Nat) (r : Bool) (s : σ) (cs : List Block) : Option (σ × Kids) :=
  if r then
    if numVars + 1 < cs.length then none else
    (windowLoop (exchange S) (fun p => S.size p.1) numVars cs.length passes
      (s, tagged cs) (fun _ => true)).map (·.1)
  else some (s, tagged cs)

/-- The recursion that skips the levels that do not end. -/
def windowSkip (S : Sys σ) (numVars passes : Nat) : Nat → σ → Block → Option (σ × Block)
  | 0, _, _ => none
  | fuel + 1, s, .mk f l r cs =>
    match (match levelN S numVars passes r s cs with | some x => some x | none => some (s, tagged cs)) with
    | none => none
    | some (s, ks) =>
      match overKids (windowSkip S numVars passes fuel) s (ks.map (·.2)) with
      | none => none
      | some (s, cs') => some (s, .mk f l r cs')

theorem windowAuxN_skip (passes : Nat) : ∀ (fuel : Nat) (s : σ) (b : Block) (x),
    windowAuxN S n passes fuel s b = some x → windowSkip S n passes fuel s b = some x
  | 0, _, _, _, e => by cases e
  | fuel + 1, s, .mk f l r cs, x, e => by
    unfold windowAuxN at e
    unfold windowSkip
    change (match levelN S n passes r s cs with
      | none => none
      | some (s, ks) =>
        match overKids (windowAuxN S n passes fuel) s (ks.map (·.2)) with
        | none => none
        | some (s, cs') => some (s, Block.mk f l r cs')) = some x at e
    cases hl : levelN S n passes r s cs with
    | none => rw [hl] at e; cases e
    | some p =>
      obtain ⟨s1, ks⟩ := p
      rw [hl] at e
      dsimp only at e ⊢
      cases hk : overKids (windowAuxN S n passes fuel) s1 (ks.map (·.2)) with
      | none => rw [hk] at e; cases e
      | some q =>
        rw [hk] at e
        rw [overKids_mono (windowAuxN_skip passes fuel) _ hk]; exact e

theorem windowSkip_spec (h : SysOK S J o n) (passes : Nat) :
    ∀ (fuel : Nat) (s : σ) (f l : Int) (r : Bool) (cs : List Block) (lo hi : Int), J s → Parts lo hi cs → OKL cs →
      0 ≤ lo → hi ≤ n → depthL cs < fuel →
      ∃ s' cs', windowSkip S n passes fuel s (.mk f l r cs) = some (s', .mk f l r cs') ∧
        Done { S with size := fun _ => 0 } J o n lo hi r s cs s' cs' := by
  apply tree_spec (G := fun r s cs =>
    match levelN S n passes r s cs with | some x => some x | none => some (s, tagged cs))
  · intro fuel s f l r cs; rfl
  · intro r s cs lo hi D hs hp hk hlo hhi hd
    obtain ⟨k0, a0⟩ := level_start h hs hp hk hd hs rfl
    have hlen := Parts_length hp
    have triv : Level { S with size := fun _ => 0 } J o n lo hi D r s cs s (tagged cs) :=
      ⟨k0, by rw [a0], fun _ => a0, fun _ _ => Int.le_refl _⟩
    cases hl : levelN S n passes r s cs with
    | none => exact ⟨_, _, rfl, triv⟩
    | some x =>
      cases r with
      | false => cases hl; exact ⟨_, _, rfl, triv⟩
      | true =>
        unfold levelN at hl
        simp only [if_true] at hl
        split at hl
        · cases hl
        · rw [Option.map_eq_some_iff] at hl
          obtain ⟨⟨q, l⟩, e, rfl⟩ := hl
          have hl : (arr o (s, tagged cs)).length = cs.length := by simp [arr, tagged]
          obtain ⟨iq, e2⟩ := windowLoop_run (exchange_law h hlo hhi) (fun p => S.size p.1) (numVars := n)
            (by omega : cs.length ≤ n) passes (s, tagged cs) (fun _ => true) k0 hl e
          refine ⟨q.1, q.2, rfl, iq, ?_, fun e => by simp at e, fun _ _ => Int.le_refl _⟩
          rw [← a0]; exact e2.map _

/-- `BddReorderStableWindow3`, if it ends: the invariant holds, the blocks still form a tree of blocks, and
the variables are rearranged within blocks only. -/
theorem windowN_spec (h : SysOK S J o n) (passes : Nat) {b : Block} (hb : SuperOK n b) {s : σ} (hs : J s) {s' b'}
    (e : reorderWindowN S n passes s b = some (s', b')) :
    J s' ∧ SuperOK n b' ∧
      Rearr (.node b.reorderable (trL (o s) b.children)) (.node b'.reorderable (trL (o s') b'.children)) ∧
      ((upto 0 n).map (o s')).Perm ((upto 0 n).map (o s)) := by
  cases b with
  | mk f l r cs =>
    obtain ⟨h1, h2, h3, h4⟩ := hb
    obtain ⟨r1, r2⟩ := h.reset s hs
    obtain ⟨s1, cs', e1, dn⟩ := windowSkip_spec h passes (depth (.mk f l r cs)) (S.reset s) f l r cs 0 n r1 h3 h4
      (by omega) (by omega) (by simp only [depth]; omega)
    have e2 := windowAuxN_skip passes _ _ _ _ e
    rw [e1] at e2
    cases e2
    obtain ⟨ms, m1, m2, m3⟩ := dn.tree
    rw [r2] at m1 m2
    have re : Rearr (.node r (trL (o s) cs)) (.node r (trL (o s') cs')) := .node m1 m2 m3
    refine ⟨dn.inv, ⟨h1, h2, dn.parts, dn.ok⟩, re, ?_⟩
    have := re.perm.symm
    simp only [T.ids] at this
    rwa [idsL_tr dn.parts (fun b hb => ids_tr b (OKL_iff.1 dn.ok b hb)),
      idsL_tr (cs := cs) h3 (fun b hb => ids_tr b (OKL_iff.1 h4 b hb))] at this

end

end Cal.Sift
