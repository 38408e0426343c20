import Verif.Relocate
import Verif.DfInv

/-!
# Depth-first reordering: moving the nodes to new pages (`BddReallocateNodes`)
-/

namespace Cal

namespace Df

/-- State of `BddReallocateNodes` (calReorderDF.c:703-817): the store and the forwarding addresses. A node that has been moved
is marked by a null else pointer and its then pointer leads to the new place; here it is taken out of
the heap and `fwd` has the new place. -/
structure Rl where
  st : Store
  fwd : Nat → Option Nat

/-- `CalBddNodeIsForwardedTo` (calInt.h:1351-1360), on tagged pointers. -/
def fwdE (fwd : Nat → Option Nat) (e : Edge) : Edge :=
  match fwd e.addr with
  | some b => { e with addr := b }
  | none => e

/-- The body of the loop over the nodes of an id (calReorderDF.c:763-793): a copy on a new page, with the
same id and count, in the new bins. A place on a new page is the next fresh address; the old pages are
given back to the system at the end (calReorderDF.c:811-816), their addresses are not used again. -/
def moveNode (i : Nat) (r : Rl) (a : Nat) : Option Rl :=
  match r.st.heap a with
  | none => none
  | some n =>
    let b := r.st.next
    some
      { st :=
          { r.st with
            heap := upd (upd r.st.heap a none) b (some ⟨n.var, fwdE r.fwd n.thn, fwdE r.fwd n.els⟩)
            ref := upd r.st.ref b (r.st.ref a)
            tab := upd r.st.tab i (b :: r.st.tab i)
            next := b + 1 }
        fwd := upd r.fwd a (some b) }

/-- The body of the loop over the indices (calReorderDF.c:727-796): an empty free list and empty bins,
then all nodes of the id. -/
def moveTable (r : Rl) (i : Nat) : Option Rl :=
  (r.st.tab i).foldlM (moveNode i)
    { r with st := { r.st with tab := upd r.st.tab i [], free := upd r.st.free i [] } }

/-- The loop over the indices, from the last to the first (calReorderDF.c:727). -/
def reallocLoop : Nat → Rl → Option Rl
  | 0, r => some r
  | k + 1, r =>
    match moveTable r (r.st.ord.indexToId k) with
    | none => none
    | some r => reallocLoop k r

/-- `BddReallocateNodes` (calReorderDF.c:703-817), the part about the unique tables. -/
def realloc (s : Store) : Option Rl := reallocLoop s.ord.numVars ⟨s, fun _ => none⟩

/-- The new address: 0 for the constant, which does not move. -/
def Rl.at (r : Rl) (a : Nat) : Nat := (r.fwd a).getD a

theorem fwdE_eq (r : Rl) (e : Edge) : fwdE r.fwd e = mvE r.at e := by
  unfold fwdE mvE Rl.at
  cases r.fwd e.addr <;> rfl

/-- A child whose place is final. -/
def Fin (r : Rl) (e : Edge) : Prop := e.addr = 0 ∨ ∃ b, r.fwd e.addr = some b

/-- Invariant of the moving. -/
structure RlInv (s : Store) (r : Rl) : Prop where
  ord : r.st.ord = s.ord
  num : r.st.numNodes = s.numNodes
  next : s.next ≤ r.st.next
  old : ∀ a, r.fwd a = none → a < s.next → r.st.heap a = s.heap a
  oldref : ∀ a, a < s.next → r.st.ref a = s.ref a
  moved : ∀ a b, r.fwd a = some b → s.next ≤ b ∧ b < r.st.next ∧ r.st.heap a = none ∧
    ∃ n, s.heap a = some n ∧ r.st.heap b = some (mvN r.at n) ∧ r.st.ref b = s.ref a ∧
      Fin r n.thn ∧ Fin r n.els
  inj : ∀ a a' b, r.fwd a = some b → r.fwd a' = some b → a = a'
  only : ∀ b, s.next ≤ b → r.st.heap b ≠ none → ∃ a, r.fwd a = some b

/-- `r'` has moved more. -/
def Ext (r r' : Rl) : Prop := ∀ a b, r.fwd a = some b → r'.fwd a = some b

theorem Fin.mono {r r' : Rl} {e} (h : Fin r e) (x : Ext r r') : Fin r' e := by
  rcases h with h | ⟨b, h⟩
  · exact Or.inl h
  · exact Or.inr ⟨b, x _ _ h⟩

theorem Fin.same {r r' : Rl} {e} (h : Fin r e) (x : Ext r r') (h0 : r'.fwd 0 = none) (h0' : r.fwd 0 = none) :
    mvE r'.at e = mvE r.at e := by
  unfold mvE Rl.at
  rcases h with h | ⟨b, h⟩
  · rw [h, h0, h0']
  · rw [h, x _ _ h]

theorem RlInv.fwd0 {s : Store} {r : Rl} (h0 : s.heap 0 = none) (I : RlInv s r) : r.fwd 0 = none := by
  cases h : r.fwd 0 with
  | none => rfl
  | some b =>
    obtain ⟨-, -, -, n, hn, -⟩ := I.moved 0 b h
    rw [h0] at hn; cases hn

theorem moveNode_spec {s : Store} (w : PWF s) {r : Rl} (I : RlInv s r) {i a n} (hn : s.heap a = some n)
    (ha : r.fwd a = none) (h1 : Fin r n.thn) (h2 : Fin r n.els) :
    ∃ r', moveNode i r a = some r' ∧ RlInv s r' ∧ Ext r r' ∧ (∀ c, r'.fwd c ≠ none ↔ r.fwd c ≠ none ∨ c = a) ∧
      r'.st.tab = upd r.st.tab i (r'.at a :: r.st.tab i) ∧ r'.st.free = r.st.free := by
  have hlt := w.heap_next a n hn
  have hra : r.st.heap a = some n := by rw [I.old a ha hlt]; exact hn
  have hnx := I.next
  have e0 := I.fwd0 w.heap0
  unfold moveNode
  rw [hra]
  refine ⟨_, rfl, ?_, ?_, ?_, ?_, rfl⟩
  · have hx : Ext r ⟨{ r.st with
            heap := upd (upd r.st.heap a none) r.st.next (some ⟨n.var, fwdE r.fwd n.thn, fwdE r.fwd n.els⟩)
            ref := upd r.st.ref r.st.next (r.st.ref a)
            tab := upd r.st.tab i (r.st.next :: r.st.tab i)
            next := r.st.next + 1 }, upd r.fwd a (some r.st.next)⟩ := by
      intro c b h
      have : c ≠ a := by rintro rfl; rw [ha] at h; cases h
      show upd _ _ _ _ = _
      rw [upd_ne _ _ this]; exact h
    have h0' : upd r.fwd a (some r.st.next) 0 = none := by
      rw [upd_ne _ _ (fun h => w.heap_pos hn h.symm)]; exact e0
    refine ⟨I.ord, I.num, by show s.next ≤ r.st.next + 1; omega, ?_, ?_, ?_, ?_, ?_⟩
    · intro c hc hcl
      have hca : c ≠ a := by rintro rfl; simp only [upd_same] at hc; cases hc
      simp only [upd_ne _ _ hca] at hc
      show upd (upd _ _ _) _ _ _ = _
      rw [upd_ne _ _ (by omega), upd_ne _ _ hca]
      exact I.old c hc hcl
    · intro c hcl
      show upd _ _ _ _ = _
      rw [upd_ne _ _ (by omega)]
      exact I.oldref c hcl
    · intro c b hc
      by_cases hca : c = a
      · subst hca
        simp only [upd_same, Option.some.injEq] at hc
        subst hc
        refine ⟨hnx, Nat.lt_succ_self _, ?_, n, hn, ?_, ?_, h1.mono hx, h2.mono hx⟩
        · show upd (upd _ _ _) _ _ _ = _
          rw [upd_ne _ _ (by omega), upd_same]
        · show upd (upd _ _ _) _ _ _ = _
          rw [upd_same]
          have k1 := (fwdE_eq r n.thn).trans (h1.same hx h0' e0).symm
          have k2 := (fwdE_eq r n.els).trans (h2.same hx h0' e0).symm
          unfold mvN
          exact congrArg some (by rw [← k1, ← k2])
        · show upd _ _ _ _ = _
          rw [upd_same, I.oldref _ hlt]
      · simp only [upd_ne _ _ hca] at hc
        obtain ⟨m1, m2, m3, n', m4, m5, m6, m7, m8⟩ := I.moved c b hc
        refine ⟨m1, by show b < r.st.next + 1; omega, ?_, n', m4, ?_, ?_, m7.mono hx, m8.mono hx⟩
        · show upd (upd _ _ _) _ _ _ = _
          have := w.heap_next c n' m4
          rw [upd_ne _ _ (by omega), upd_ne _ _ hca]; exact m3
        · show upd (upd _ _ _) _ _ _ = _
          rw [upd_ne _ _ (by omega), upd_ne _ _ (by omega), m5]
          unfold mvN
          rw [m7.same hx h0' e0, m8.same hx h0' e0]
        · show upd _ _ _ _ = _
          rw [upd_ne _ _ (by omega)]; exact m6
    · intro c c' b hc hc'
      by_cases h1 : c = a
      · subst h1
        simp only [upd_same, Option.some.injEq] at hc
        subst hc
        by_cases h2 : c' = c
        · exact h2.symm
        · simp only [upd_ne _ _ h2] at hc'
          have := (I.moved _ _ hc').2.1; omega
      · simp only [upd_ne _ _ h1] at hc
        by_cases h2 : c' = a
        · subst h2
          simp only [upd_same, Option.some.injEq] at hc'
          subst hc'
          have := (I.moved _ _ hc).2.1; omega
        · simp only [upd_ne _ _ h2] at hc'
          exact I.inj _ _ _ hc hc'
    · intro b hb hbn
      by_cases hbx : b = r.st.next
      · exact ⟨a, by show upd _ _ _ _ = _; rw [upd_same, hbx]⟩
      · simp only [upd_ne _ _ hbx, upd_ne _ _ (show b ≠ a by omega)] at hbn
        obtain ⟨c, hc⟩ := I.only b hb hbn
        exact ⟨c, hx _ _ hc⟩
  · intro c b h
    have : c ≠ a := by rintro rfl; rw [ha] at h; cases h
    show upd _ _ _ _ = _
    rw [upd_ne _ _ this]; exact h
  · intro c
    show upd _ _ _ _ ≠ none ↔ _
    by_cases hc : c = a
    · subst hc; rw [upd_same]; simp
    · rw [upd_ne _ _ hc]; simp [hc]
  · show upd _ _ _ = upd _ _ _
    unfold Rl.at
    simp only [upd_same, Option.getD_some]

theorem moveList_spec {s : Store} (w : PWF s) {i : Nat} : ∀ (l : List Nat) {r : Rl}, RlInv s r → l.Nodup →
    (∀ a ∈ l, r.fwd a = none ∧ ∃ n, s.heap a = some n ∧ Fin r n.thn ∧ Fin r n.els) →
    ∃ r', l.foldlM (moveNode i) r = some r' ∧ RlInv s r' ∧ Ext r r' ∧
      (∀ c, r'.fwd c ≠ none ↔ r.fwd c ≠ none ∨ c ∈ l) ∧ (∀ j, j ≠ i → r'.st.tab j = r.st.tab j) ∧
      r'.st.tab i = (l.map r'.at).reverse ++ r.st.tab i ∧ r'.st.free = r.st.free := by
  intro l
  induction l with
  | nil =>
    intro r I _ _
    exact ⟨r, rfl, I, fun _ _ h => h, fun c => by simp, fun _ _ => rfl, rfl, rfl⟩
  | cons a l ih =>
    intro r I nd h
    obtain ⟨hnl, nd'⟩ := List.nodup_cons.1 nd
    obtain ⟨ha, n, hn, f1, f2⟩ := h a List.mem_cons_self
    obtain ⟨r1, e1, I1, x1, d1, t1, fr1⟩ := moveNode_spec w I (i := i) hn ha f1 f2
    obtain ⟨r2, e2, I2, x2, d2, t2, t3, fr2⟩ := ih I1 nd' (by
      intro c hc
      obtain ⟨hc1, n', hn', g1, g2⟩ := h c (List.mem_cons_of_mem _ hc)
      refine ⟨?_, n', hn', g1.mono x1, g2.mono x1⟩
      cases hx : r1.fwd c with
      | none => rfl
      | some b =>
        rcases (d1 c).1 (by rw [hx]; simp) with h | h
        · exact absurd hc1 h
        · exact absurd (h ▸ hc) hnl)
    have hat : r2.at a = r1.at a := by
      have : r1.fwd a ≠ none := (d1 a).2 (Or.inr rfl)
      unfold Rl.at
      cases hx : r1.fwd a with
      | none => exact absurd hx this
      | some b => rw [x2 _ _ hx]
    refine ⟨r2, ?_, I2, fun c b hc => x2 _ _ (x1 _ _ hc), ?_, ?_, ?_, fr2.trans fr1⟩
    · rw [List.foldlM_cons, e1]; exact e2
    · intro c
      rw [d2, d1, List.mem_cons]
      constructor
      · rintro ((h | h) | h)
        · exact Or.inl h
        · exact Or.inr (Or.inl h)
        · exact Or.inr (Or.inr h)
      · rintro (h | h | h)
        · exact Or.inl (Or.inl h)
        · exact Or.inl (Or.inr h)
        · exact Or.inr h
    · intro j hj
      rw [t2 j hj, t1, upd_ne _ _ hj]
    · rw [t3, t1, upd_same, List.map_cons, List.reverse_cons, hat]
      simp

/-- After the indices from `k` on. -/
structure RlAt (s : Store) (k : Nat) (r : Rl) : Prop extends RlInv s r where
  dom : ∀ a, r.fwd a ≠ none ↔ ∃ n, s.heap a = some n ∧ k ≤ s.ord.lvl n.var
  done : ∀ i, 1 ≤ i → i ≤ s.ord.numVars → k ≤ s.ord.lvl i → (r.st.tab i).Perm ((s.tab i).map r.at)
  todo : ∀ i, (i < 1 ∨ s.ord.numVars < i ∨ s.ord.lvl i < k) → r.st.tab i = s.tab i
  free : ∀ i a, a ∈ r.st.free i → a ∈ s.free i
  freeN : ∀ i, (r.st.free i).Nodup

theorem reallocLoop_spec {s : Store} (w : PWF s) : ∀ (k : Nat) {r : Rl}, k ≤ s.ord.numVars → RlAt s k r →
    ∃ r', reallocLoop k r = some r' ∧ RlAt s 0 r' := by
  intro k
  induction k with
  | zero => intro r _ A; exact ⟨r, rfl, A⟩
  | succ k ih =>
    intro r hk A
    have hir := w.ord.id_range k (by omega)
    have hlv : s.ord.lvl (s.ord.indexToId k) = k := w.ord.lvl_indexToId (by omega)
    unfold reallocLoop moveTable
    rw [A.ord]
    generalize hi : s.ord.indexToId k = i at *
    have htab : r.st.tab i = s.tab i := A.todo i (Or.inr (Or.inr (by omega)))
    rw [htab]
    have I0 : RlInv s { r with st := { r.st with tab := upd r.st.tab i [], free := upd r.st.free i [] } } :=
      ⟨A.ord, A.num, A.next, A.old, A.oldref, A.moved, A.inj, A.only⟩
    have hch : ∀ a n, s.heap a = some n → n.var = i → ∀ e, Below s (s.ord.lvl n.var) e →
        Fin { r with st := { r.st with tab := upd r.st.tab i [], free := upd r.st.free i [] } } e := by
      rintro a n hn rfl e (h | ⟨m, hm, hl⟩)
      · exact Or.inl h
      · have : r.fwd e.addr ≠ none := (A.dom _).2 ⟨m, hm, by omega⟩
        cases hx : r.fwd e.addr with
        | none => exact absurd hx this
        | some b => exact Or.inr ⟨b, hx⟩
    obtain ⟨r1, e1, I1, x1, d1, t1, t2, fr⟩ := moveList_spec w (i := i) (s.tab i) I0 (w.tab_nodup i) (by
      intro a ha
      obtain ⟨n, hn, hv⟩ := (w.tab_iff i a).1 ha
      refine ⟨?_, n, hn, hch a n hn hv _ (w.thn_lo a n hn), hch a n hn hv _ (w.els_lo a n hn)⟩
      cases hx : r.fwd a with
      | none => rfl
      | some b =>
        obtain ⟨n', hn', hl⟩ := (A.dom a).1 (by rw [hx]; simp)
        rw [hn] at hn'; cases hn'
        rw [hv] at hl; omega)
    rw [e1]
    refine ih (by omega) ⟨I1, ?_, ?_, ?_, ?_, ?_⟩
    · intro a
      rw [d1]
      constructor
      · rintro (h | h)
        · obtain ⟨n, hn, hl⟩ := (A.dom a).1 h
          exact ⟨n, hn, by omega⟩
        · obtain ⟨n, hn, hv⟩ := (w.tab_iff i a).1 h
          exact ⟨n, hn, by rw [hv]; omega⟩
      · rintro ⟨n, hn, hl⟩
        by_cases hv : n.var = i
        · exact Or.inr ((w.tab_iff i a).2 ⟨n, hn, hv⟩)
        · left
          refine (A.dom a).2 ⟨n, hn, ?_⟩
          have hr := w.var_range a n hn
          have : s.ord.lvl n.var ≠ k := fun h => hv (w.ord.lvl_inj hr.1 hr.2 hir.1 hir.2 (h.trans hlv.symm))
          omega
    · intro j h1 h2 h3
      by_cases hj : j = i
      · subst hj
        rw [t2]
        show (List.reverse _ ++ upd _ _ _ _).Perm _
        rw [upd_same, List.append_nil]
        exact List.reverse_perm _
      · have : s.ord.lvl j ≠ k := fun h => hj (w.ord.lvl_inj h1 h2 hir.1 hir.2 (h.trans hlv.symm))
        rw [t1 j hj]
        show (upd _ _ _ _ : List Nat).Perm _
        rw [upd_ne _ _ hj]
        have hp := A.done j h1 h2 (by omega)
        have : (s.tab j).map r1.at = (s.tab j).map r.at := by
          apply List.map_congr_left
          intro a ha
          obtain ⟨n, hn, hv⟩ := (w.tab_iff j a).1 ha
          have : r.fwd a ≠ none := (A.dom a).2 ⟨n, hn, by rw [hv]; omega⟩
          unfold Rl.at
          cases hx : r.fwd a with
          | none => exact absurd hx this
          | some b => rw [x1 a b hx]
        rw [this]; exact hp
    · intro j hj
      have hji : j ≠ i := by rintro rfl; omega
      rw [t1 j hji]
      show upd _ _ _ _ = _
      rw [upd_ne _ _ hji]
      exact A.todo j (by omega)
    · intro j a ha
      rw [fr] at ha
      by_cases hj : j = i
      · subst hj; simp only [upd_same] at ha; cases ha
      · simp only [upd_ne _ _ hj] at ha; exact A.free j a ha
    · intro j
      rw [fr]
      show (upd _ _ _ _ : List Nat).Nodup
      by_cases hj : j = i
      · subst hj; rw [upd_same]; exact List.nodup_nil
      · rw [upd_ne _ _ hj]; exact A.freeN j

/-- `BddReallocateNodes` succeeds and moves the store. -/
theorem realloc_spec {s : Store} (w : PWF s) :
    ∃ r, realloc s = some r ∧ s.Moved r.st r.at ∧ ∀ a n, s.heap a = some n → ∃ b, r.fwd a = some b := by
  obtain ⟨r, e, A⟩ := reallocLoop_spec w s.ord.numVars (r := ⟨s, fun _ => none⟩) (Nat.le_refl _) (by
    refine ⟨⟨rfl, rfl, Nat.le_refl _, fun _ _ _ => rfl, fun _ _ => rfl, ?_, ?_, ?_⟩, ?_, ?_, fun _ _ => rfl,
      fun _ _ h => h, w.free_nodup⟩
    · intro a b h; cases h
    · intro a a' b h; cases h
    · intro b hb hn
      cases h : s.heap b with
      | none => exact absurd h hn
      | some n => have := w.heap_next b n h; omega
    · intro a
      constructor
      · intro h; exact absurd rfl h
      · rintro ⟨n, hn, hl⟩
        have hr := w.var_range a n hn
        have := w.ord.lvl_lt hr.1 hr.2
        omega
    · intro i h1 h2 h3
      have := w.ord.lvl_lt h1 h2
      omega)
  suffices h : (∀ a n, s.heap a = some n → ∃ b, r.fwd a = some b) → s.Moved r.st r.at by
    have hf : ∀ a n, s.heap a = some n → ∃ b, r.fwd a = some b := by
      intro a n hn
      have := (A.dom a).2 ⟨n, hn, Nat.zero_le _⟩
      cases hx : r.fwd a with
      | none => exact absurd hx this
      | some b => exact ⟨b, rfl⟩
    exact ⟨r, e, h hf, hf⟩
  intro hf
  have hf' : ∀ a, s.heap a ≠ none → ∃ n b, s.heap a = some n ∧ r.fwd a = some b ∧ r.at a = b := by
    intro a ha
    cases hn : s.heap a with
    | none => exact absurd hn ha
    | some n =>
      obtain ⟨b, hb⟩ := hf a n hn
      exact ⟨n, b, rfl, hb, by unfold Rl.at; rw [hb]; rfl⟩
  have h0 := A.toRlInv.fwd0 w.heap0
  have hn0 := w.next_pos
  have hnx := A.next
  refine ⟨by unfold Rl.at; rw [h0]; rfl, ?_, ?_, ?_, ?_, ?_, A.oldref 0 hn0, ?_, A.ord, A.num, by omega, ?_, A.freeN, ?_, ?_⟩
  · intro a b ha hb hab
    obtain ⟨n, c, _, h1, h2⟩ := hf' a ha
    obtain ⟨n', c', _, h1', h2'⟩ := hf' b hb
    rw [h2, h2'] at hab
    subst hab
    exact A.inj a b c h1 h1'
  · intro a ha
    obtain ⟨n, c, _, h1, h2⟩ := hf' a ha
    have := (A.moved a c h1).1
    omega
  · intro a n hn
    obtain ⟨n', c, h, h1, h2⟩ := hf' a (by rw [hn]; simp)
    obtain ⟨-, -, -, n'', k1, k2, -⟩ := A.moved a c h1
    rw [hn] at k1; cases k1
    rw [h2]; exact k2
  · intro b hb
    by_cases hlt : b < s.next
    · exfalso
      cases hx : r.fwd b with
      | none =>
        rw [A.old b hx hlt] at hb
        obtain ⟨n, c, _, h1, _⟩ := hf' b hb
        rw [hx] at h1; cases h1
      | some c => exact hb (A.moved b c hx).2.2.1
    · obtain ⟨a, ha⟩ := A.only b (by omega) hb
      obtain ⟨-, -, -, n, k1, -⟩ := A.moved a b ha
      exact ⟨a, by rw [k1]; simp, by unfold Rl.at; rw [ha]; rfl⟩
  · intro a ha
    obtain ⟨n, c, _, h1, h2⟩ := hf' a ha
    obtain ⟨-, -, -, n', _, _, k3, -⟩ := A.moved a c h1
    rw [h2]; exact k3
  · intro i
    by_cases hi : 1 ≤ i ∧ i ≤ s.ord.numVars
    · exact A.done i hi.1 hi.2 (Nat.zero_le _)
    · have ht : s.tab i = [] := by
        apply List.eq_nil_iff_forall_not_mem.2
        intro a ha
        obtain ⟨n, hn, hv⟩ := (w.tab_iff i a).1 ha
        have := w.var_range a n hn
        omega
      rw [A.todo i (by omega), ht]
      exact List.Perm.refl _
  · intro b hb
    by_cases hlt : b < s.next
    · omega
    · obtain ⟨a, ha⟩ := A.only b (by omega) hb
      exact (A.moved a b ha).2.1
  · intro i a ha
    have hf := A.free i a ha
    obtain ⟨k1, k2, k3⟩ := w.free_ok i a hf
    refine ⟨?_, k2, by omega⟩
    cases hx : r.fwd a with
    | none => rw [A.old a hx k3]; exact k1
    | some b => exact (A.moved a b hx).2.2.1
  · intro i j a h1 h2
    exact w.free_disj i j a (A.free i a h1) (A.free j a h2)

/-- The move seen through `BddConvertDataStructBack`. -/
theorem moved_reid {s s' : Store} (w : PWF s) {φ : Nat → Nat} (h : s.Moved s' φ) :
    (reid s).Moved (reid s') φ := by
  have h0' : s'.heap 0 = none := by
    cases h0 : s'.heap 0 with
    | none => rfl
    | some m =>
      obtain ⟨a, ha, h1⟩ := h.only 0 (by rw [h0]; simp)
      exact absurd h1 (h.pos a ha)
  have live : ∀ a, (reid s).heap a ≠ none ↔ s.heap a ≠ none := fun a => by rw [Ne, Ne, reid_none]
  have live' : ∀ a, (reid s').heap a ≠ none ↔ s'.heap a ≠ none := fun a => by rw [Ne, Ne, reid_none]
  have htag : ∀ k e, Below s k e → tagId s' (mvE φ e) = tagId s e := by
    rintro k e (h1 | ⟨m, hm, -⟩)
    · rw [tagId_const h1, tagId_const (show (mvE φ e).addr = 0 by show φ e.addr = 0; rw [h1, h.zero])]
    · rw [tagId_node w.heap0 hm, tagId_node h0' (n := mvN φ m) (h.node _ _ hm)]; rfl
  refine ⟨h.zero, fun a b ha hb => h.inj a b ((live a).1 ha) ((live b).1 hb), fun a ha => h.pos a ((live a).1 ha),
    ?_, ?_, fun a ha => h.ref a ((live a).1 ha), h.ref0, h.tab, h.ord, h.num, h.next_pos,
    fun a ha => h.heap_next a ((live' a).1 ha), h.free_nodup, ?_, h.free_disj⟩
  · intro a N hN
    obtain ⟨n, hn, rfl⟩ := reid_some hN
    rw [reid_heap (h.node a n hn)]
    congr 1
    unfold reidN mvN reidE
    rw [htag _ _ (w.thn_lo a n hn), htag _ _ (w.els_lo a n hn)]
    rfl
  · intro b hb
    obtain ⟨a, ha, hh⟩ := h.only b ((live' b).1 hb)
    exact ⟨a, (live a).2 ha, hh⟩
  · intro i a ha
    have := h.free_ok i a ha
    exact ⟨reid_none.2 this.1, this.2⟩

end Df

end Cal
