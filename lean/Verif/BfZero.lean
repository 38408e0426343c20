import Verif.BfSwap

/-!
# An exchange leaves no node without references

If every node has a reference before an exchange, every node has one afterwards. Breadth-first reordering
relies on it: a forwarding pointer to a node that has been freed would end `BddReorderFixForwardingNodes` too
early.
-/

namespace Cal

namespace Bfr

open Df (Fr PWF)

/-! ## Saturated counts stay -/

def Sat (s s' : Store) : Prop := ∀ a, s.heap a ≠ none → s'.heap a ≠ none ∧ (s.ref a = maxRef → s'.ref a = maxRef)

theorem Sat.refl (s : Store) : Sat s s := fun _ h => ⟨h, fun h' => h'⟩

theorem Sat.trans {s s' s'' : Store} (h : Sat s s') (g : Sat s' s'') : Sat s s'' := by
  intro a h1
  obtain ⟨h3, h4⟩ := h a h1
  obtain ⟨h5, h6⟩ := g a h3
  exact ⟨h5, fun h => h6 (h4 h)⟩

theorem sat_icr (s : Store) (e : Edge) : Sat s (s.icr e) := by
  intro a h1
  refine ⟨h1, fun h2 => ?_⟩
  show upd s.ref e.addr _ a = _
  unfold upd
  split
  · rename_i h; subst h; simp [h2]
  · exact h2

theorem dcr_sat {s : Store} {e : Edge} {a : Nat} (h2 : s.ref a = maxRef) : (s.dcr e).ref a = maxRef := by
  show upd s.ref e.addr _ a = _
  unfold upd
  split
  · rename_i h; subst h; simp [h2]
  · exact h2

theorem sat_dcr (s : Store) (e : Edge) : Sat s (s.dcr e) := fun _ h1 => ⟨h1, dcr_sat⟩

theorem fr_icr {s : Store} (f : Fr s) (e : Edge) : Fr (s.icr e) := fr_refs f _
theorem fr_dcr {s : Store} (f : Fr s) (e : Edge) : Fr (s.dcr e) := fr_refs f _

theorem sat_hfa {d : Df.St} (f : Fr d.st) (x : Nat) (t e : Edge) :
    Sat d.st (Df.hashFindOrAdd d x t e).1.st ∧ Fr (Df.hashFindOrAdd d x t e).1.st := by
  unfold Df.hashFindOrAdd
  cases hl : d.st.lookup x t e with
  | some a => exact ⟨Sat.refl _, f⟩
  | none =>
    have A := Df.alloc_spec f
    generalize Df.alloc d = p at A ⊢
    obtain ⟨a, d1⟩ := p
    simp only at A ⊢
    constructor
    · intro b h1
      have hb : b ≠ a := by rintro rfl; exact h1 A.old
      constructor
      · show upd d1.st.heap a _ b ≠ none
        rw [upd_ne _ _ hb, A.heap]; exact h1
      · intro h2
        show d1.st.ref b = _
        rw [A.ref, upd_ne _ _ hb]; exact h2
    · refine ⟨?_, A.fr.next_pos, ?_, A.fr.free_nodup, ?_, A.fr.free_disj⟩
      · show upd d1.st.heap a _ 0 = none
        rw [upd_ne _ _ (Ne.symm A.pos)]; exact A.fr.heap0
      · intro b n hb
        have hb : upd d1.st.heap a _ b = some n := hb
        by_cases h : b = a
        · subst h; exact A.lt
        · rw [upd_ne _ _ h] at hb; exact A.fr.heap_next b n hb
      · intro j b hb
        have h : b ≠ a := by rintro rfl; exact A.notfree j hb
        obtain ⟨h1, h2⟩ := A.fr.free_ok j b hb
        refine ⟨?_, h2⟩
        show upd d1.st.heap a _ b = none
        rw [upd_ne _ _ h]; exact h1

theorem sat_num {s s' : Store} (h : Sat s s') (k : Nat) : Sat s { s' with numNodes := k } := h

theorem sat_foa {d : Df.St} (f : Fr d.st) (x : Nat) (t e : Edge) :
    Sat d.st (Df.findOrAdd d x t e).1.st ∧ Fr (Df.findOrAdd d x t e).1.st := by
  unfold Df.findOrAdd
  by_cases h : t = e
  · rw [if_pos h]; exact ⟨Sat.refl _, f⟩
  · rw [if_neg h]
    have key : ∀ (r : Df.St × Edge × Bool), Sat d.st r.1.st ∧ Fr r.1.st →
        Sat d.st (if r.2.2 = true then r else ({ r.1 with st := { r.1.st with numNodes := r.1.st.numNodes + 1 } }, r.2.1, r.2.2)).1.st ∧
        Fr (if r.2.2 = true then r else ({ r.1 with st := { r.1.st with numNodes := r.1.st.numNodes + 1 } }, r.2.1, r.2.2)).1.st := by
      intro r hr
      by_cases hf : r.2.2 = true
      · rw [if_pos hf]; exact hr
      · rw [if_neg hf]; exact ⟨sat_num hr.1 _, fr_num hr.2 _⟩
    apply key
    by_cases hn : t.neg = false
    · rw [if_pos hn]; exact sat_hfa f x t e
    · rw [if_neg hn]; exact sat_hfa f x t.not e.not

theorem sat_newChild {d : Df.St} (f : Fr d.st) (x : Nat) (t e : Edge) :
    Sat d.st (Df.newChild d x t e).1.st ∧ Fr (Df.newChild d x t e).1.st := by
  unfold Df.newChild
  by_cases h : e = t
  · rw [if_pos h]; exact ⟨sat_icr _ _, fr_icr f _⟩
  · rw [if_neg h]
    obtain ⟨h1, h2⟩ := sat_foa f x t e
    exact ⟨h1.trans (sat_icr _ _), fr_icr h2 _⟩

theorem sat_ite {c : Bool} {s s1 s2 : Store} (h1 : Sat s s1 ∧ Fr s1) (h2 : Sat s s2 ∧ Fr s2) :
    Sat s (if c then s1 else s2) ∧ Fr (if c then s1 else s2) := by
  cases c
  · exact h2
  · exact h1

theorem sat_exchangeAux {d d' : Df.St} (f : Fr d.st) {a x y : Nat} (h : Df.exchangeAux d a x y = some d') :
    Sat d.st d'.st ∧ Fr d'.st := by
  unfold Df.exchangeAux at h
  cases hn : d.st.heap a with
  | none => rw [hn] at h; cases h
  | some n =>
    rw [hn] at h
    simp only at h
    cases h1 : Df.cof d.st y n.els with
    | none => rw [h1] at h; simp at h
    | some p =>
      cases h2 : Df.cof d.st y n.thn with
      | none => rw [h1, h2] at h; simp at h
      | some q =>
        obtain ⟨f01, f00⟩ := p
        obtain ⟨f11, f10⟩ := q
        rw [h1, h2] at h
        simp only at h
        obtain ⟨s1, r1⟩ := sat_newChild f x f10 f00
        obtain ⟨s2, r2⟩ := sat_newChild r1 x f11 f01
        have s2 := s1.trans s2
        generalize Df.newChild (Df.newChild d x f10 f00).1 x f11 f01 = q at s2 r2 h
        have a0 : a ≠ 0 := by rintro rfl; rw [f.heap0] at hn; cases hn
        have alive := (s2 a (by simp [hn])).1
        injection h with h
        subst h
        have put : Sat q.1.st { q.1.st with heap := upd q.1.st.heap a (some ⟨y, q.2.1, (Df.newChild d x f10 f00).2.1⟩) } ∧
            Fr { q.1.st with heap := upd q.1.st.heap a (some ⟨y, q.2.1, (Df.newChild d x f10 f00).2.1⟩) } := by
          refine ⟨fun b hb => ⟨?_, fun h => h⟩, ?_, r2.next_pos, ?_, r2.free_nodup, ?_, r2.free_disj⟩
          · show upd q.1.st.heap a _ b ≠ none
            by_cases h : b = a
            · subst h; rw [upd_same]; simp
            · rw [upd_ne _ _ h]; exact hb
          · show upd q.1.st.heap a _ 0 = none
            rw [upd_ne _ _ (Ne.symm a0)]; exact r2.heap0
          · intro b m hb
            have hb : upd q.1.st.heap a _ b = some m := hb
            by_cases h : b = a
            · subst h
              cases hq : q.1.st.heap b with
              | none => exact absurd hq alive
              | some m => exact r2.heap_next b m hq
            · rw [upd_ne _ _ h] at hb; exact r2.heap_next b m hb
          · intro j b hb
            obtain ⟨h1, h2⟩ := r2.free_ok j b hb
            have h : b ≠ a := by rintro rfl; exact alive h1
            refine ⟨?_, h2⟩
            show upd q.1.st.heap a _ b = none
            rw [upd_ne _ _ h]; exact h1
        have s3 : Sat d.st _ := s2.trans put.1
        have r3 := put.2
        generalize ({ q.1.st with heap := upd q.1.st.heap a (some ⟨y, q.2.1, (Df.newChild d x f10 f00).2.1⟩) } : Store) = u at s3 r3 ⊢
        have k1 := sat_ite (c := (Df.newChild d x f10 f00).2.2) (s1 := u) (s2 := (u.icr f00).icr f10) ⟨s3, r3⟩
          ⟨(s3.trans (sat_icr _ _)).trans (sat_icr _ _), fr_icr (fr_icr r3 _) _⟩
        generalize (if (Df.newChild d x f10 f00).2.2 = true then u else (u.icr f00).icr f10) = u2 at k1 ⊢
        have k2 := sat_ite (c := q.2.2) (s1 := u2) (s2 := (u2.icr f01).icr f11) k1
          ⟨(k1.1.trans (sat_icr _ _)).trans (sat_icr _ _), fr_icr (fr_icr k1.2 _) _⟩
        exact ⟨(k2.1.trans (sat_dcr _ _)).trans (sat_dcr _ _), fr_dcr (fr_dcr k2.2 _) _⟩

theorem sat_exchangeList {x y : Nat} : ∀ (l : List Nat) {d d' : Df.St}, Fr d.st → Df.exchangeList x y l d = some d' →
    Sat d.st d'.st ∧ Fr d'.st
  | [], d, d', f, h => by
    cases h; exact ⟨Sat.refl _, f⟩
  | a :: l, d, d', f, h => by
    unfold Df.exchangeList at h
    cases h1 : Df.exchangeAux d a x y with
    | none => rw [h1] at h; cases h
    | some d1 =>
      rw [h1] at h
      obtain ⟨s1, r1⟩ := sat_exchangeAux f h1
      obtain ⟨s2, r2⟩ := sat_exchangeList l (d := { d1 with st := { d1.st with tab := upd d1.st.tab y (a :: d1.st.tab y) } })
        ⟨r1.heap0, r1.next_pos, r1.heap_next, r1.free_nodup, r1.free_ok, r1.free_disj⟩ h
      exact ⟨s1.trans (fun b hb => s2 b hb), r2⟩

theorem sat_gcList {k y : Nat} : ∀ (l : List Nat) {s s' : Store} {fr : List Nat}, Store.gcList k y l s = some (s', fr) →
    ∀ a, s.heap a ≠ none → s.ref a = maxRef → s'.heap a ≠ none ∧ s'.ref a = maxRef
  | [], s, s', fr, h, a, h1, h2 => by
    cases h; exact ⟨h1, h2⟩
  | b :: l, s, s', fr, h, a, h1, h2 => by
    unfold Store.gcList at h
    cases hn : s.heap b with
    | none => rw [hn] at h; cases h
    | some n =>
      rw [hn] at h
      simp only at h
      by_cases hr : s.ref b = 0
      · rw [if_pos hr] at h
        have hab : a ≠ b := by
          rintro rfl
          rw [h2] at hr; exact absurd hr (by decide)
        cases h3 : Store.gcList k y l (s.freeNode k y b n) with
        | none => rw [h3] at h; cases h
        | some p =>
          rw [h3] at h
          cases h
          refine sat_gcList l h3 a ?_ ?_
          · show upd s.heap b none a ≠ none
            rw [upd_ne _ _ hab]; exact h1
          · exact dcr_sat (dcr_sat h2)
      · rw [if_neg hr] at h
        exact sat_gcList l h a h1 h2

theorem sat_exchangeNodes {d d' : Df.St} (f : Fr d.st) {x y : Nat} (h : Df.exchangeNodes d x y = some d') :
    ∀ a, d.st.heap a ≠ none → d.st.ref a = maxRef → d'.st.heap a ≠ none ∧ d'.st.ref a = maxRef := by
  unfold Df.exchangeNodes at h
  cases h1 : Df.unlink d.st y (d.st.tab x) [] with
  | none => rw [h1] at h; cases h
  | some p =>
    rw [h1] at h
    obtain ⟨keep, l⟩ := p
    simp only at h
    cases h2 : Df.exchangeList x y l { d with st := { d.st with tab := upd d.st.tab x keep } } with
    | none => rw [h2] at h; cases h
    | some d1 =>
      rw [h2] at h
      obtain ⟨s1, r1⟩ := sat_exchangeList l (d := { d with st := { d.st with tab := upd d.st.tab x keep } })
        ⟨f.heap0, f.next_pos, f.heap_next, f.free_nodup, f.free_ok, f.free_disj⟩ h2
      unfold Store.gcTable at h
      cases h3 : Store.gcList 0 y (d1.st.tab y) d1.st with
      | none => simp [h3] at h
      | some q =>
        simp only [h3] at h
        cases h
        intro a ha hr
        obtain ⟨k1, k2⟩ := s1 a ha
        exact sat_gcList _ h3 a k1 (k2 hr)

theorem sat_exchange {d d' : Df.St} (f : Fr d.st) {x : Nat} (h : Df.exchange d x = some d') :
    ∀ a, d.st.heap a ≠ none → d.st.ref a = maxRef → d'.st.heap a ≠ none ∧ d'.st.ref a = maxRef := by
  unfold Df.exchange at h
  simp only at h
  split at h
  · split at h
    · cases h
    · rename_i y _
      cases h1 : Df.exchangeNodes { d with swaps := d.swaps + 1 } x (d.st.ord.indexToId (d.st.ord.idToIndex x + 1)) with
      | none => rw [h1] at h; cases h
      | some d1 =>
        rw [h1] at h
        cases h
        have := sat_exchangeNodes (d := { d with swaps := d.swaps + 1 }) f h1
        exact this
    · cases h
      intro a h1 h2; exact ⟨h1, h2⟩
  · cases h

/-! ## Nodes below keep a parent -/

def Parent (s : Store) (a : Nat) : Prop := ∃ p n, s.heap p = some n ∧ (n.thn.addr = a ∨ n.els.addr = a)

theorem parent_of_inDeg {s : Store} {a : Nat} (h : 0 < s.inDeg a) : Parent s a := by
  obtain ⟨p, _, hp⟩ := sumTo_pos h
  unfold Store.arcs at hp
  cases hn : s.heap p with
  | none => rw [hn] at hp; exact absurd hp (by simp)
  | some n =>
    rw [hn] at hp
    refine ⟨p, n, hn, ?_⟩
    simp only [hits] at hp
    by_cases h1 : n.thn.addr = a
    · exact Or.inl h1
    · by_cases h2 : n.els.addr = a
      · exact Or.inr h2
      · rw [if_neg h1, if_neg h2] at hp; exact absurd hp (by decide)

theorem inDeg_of_parent {s : Store} (f : Fr s) {a : Nat} (h : Parent s a) : 0 < s.inDeg a := by
  obtain ⟨p, n, hn, h⟩ := h
  have h1 := sumTo_ge (f := fun q => s.arcs q a) (n := s.next) (f.heap_next p n hn)
  have h2 : 0 < s.arcs p a := by
    unfold Store.arcs
    rw [hn]
    simp only [hits]
    rcases h with h | h
    · rw [if_pos h]; omega
    · rw [if_pos h]; omega
  unfold Store.inDeg
  omega

theorem ref_pos {s : Store} {ext : Nat → Nat} (r : s.RefOK ext) {a : Nat} (hl : s.heap a ≠ none) (h : 0 < s.inDeg a + ext a) :
    s.ref a ≠ 0 := by
  rcases r.cnt a hl with h1 | h1
  · rw [h1]; decide
  · omega

theorem canon_edge {s : Store} (P : PWF s) {δ} (l : Lab s δ) {k : Nat} {e : Edge} (he : Df.Below s k e) {b : Nat} {nb : Node}
    (hb : s.heap b = some nb) {c : Bool} (h : ∀ ρ, den δ e ρ = xor c (δ b ρ)) : e.addr = b := by
  have l' := Df.lab_reid.2 l
  have r1 := l'.rep P.reid (Df.Below.eok P.heap0 he)
  have r2 : Rep (Df.reid s) ⟨nb.var, b, c⟩ (den δ ⟨nb.var, b, c⟩) := l'.rep P.reid (Or.inr ⟨_, Df.reid_heap hb, rfl⟩)
  have e1 : den δ (Df.reidE s e) = den δ ⟨nb.var, b, c⟩ := by
    funext ρ; exact h ρ
  rw [e1] at r1
  exact congrArg Edge.addr (canonical P.reid r1 r2)

theorem upd_upd_same {ρ : Asg} {x y : Nat} {i j : Bool} (h : x ≠ y) : upd (upd ρ x i) y j x = i ∧ upd (upd ρ x i) y j y = j := by
  constructor
  · rw [upd_ne _ _ h, upd_same]
  · rw [upd_same]

theorem low_parent {s : Store} (P : PWF s) {δ} (l : Lab s δ) {x y f b : Nat} (hxy : x ≠ y) {m nb : Node} (hm : s.heap f = some m)
    (mv : m.var = y) (lyx : s.ord.lvl y < s.ord.lvl x)
    (kids : ∀ e, e = m.thn ∨ e = m.els → Df.Below s (s.ord.lvl x) e ∨ ∃ k, s.heap e.addr = some k ∧ k.var = x)
    (hb : s.heap b = some nb) (ix : Indep (δ b) x) (iy : Indep (δ b) y) {i j c : Bool}
    (occ : ∀ ρ, ρ x = i → ρ y = j → δ f ρ = xor c (δ b ρ)) : Parent s b := by
  have mono : ∀ {e}, Df.Below s (s.ord.lvl x) e → Df.Below s (s.ord.lvl y) e := by
    rintro e (h | ⟨n, h1, h2⟩)
    · exact Or.inl h
    · exact Or.inr ⟨n, h1, by omega⟩
  have iib : ∀ ρ, δ b (upd (upd ρ x i) y j) = δ b ρ := fun ρ => by rw [iy, ix]
  -- the child for `j`
  let e := if j then m.thn else m.els
  have he : e = m.thn ∨ e = m.els := by
    show (if j = true then m.thn else m.els) = _ ∨ _
    cases j
    · exact Or.inr rfl
    · exact Or.inl rfl
  have hey : Df.Below s (s.ord.lvl y) e := by
    rcases he with h | h
    · rw [h, ← mv]; exact P.thn_lo _ _ hm
    · rw [h, ← mv]; exact P.els_lo _ _ hm
  have hfe : ∀ ρ, ρ y = j → den δ e ρ = δ f ρ := by
    intro ρ hρ
    have := l.node f m hm ρ
    rw [mv, hρ] at this
    rw [this]
    show den δ (if j = true then m.thn else m.els) ρ = _
    cases j <;> rfl
  rcases kids e he with hx | ⟨k, hk, kv⟩
  · have key : ∀ ρ, den δ e ρ = xor c (δ b ρ) := by
      intro ρ
      have i1 := Df.kid_indep P l hx
      have i2 := Df.kid_indep P l hey
      obtain ⟨u1, u2⟩ := upd_upd_same (ρ := ρ) (i := i) (j := j) hxy
      have h1 := hfe _ u2
      rw [i2, i1] at h1
      rw [h1, occ _ u1 u2, iib]
    refine ⟨f, m, hm, ?_⟩
    have := canon_edge P l hx hb key
    rcases he with h | h
    · left; rw [← h]; exact this
    · right; rw [← h]; exact this
  · let e2 := if i then k.thn else k.els
    have he2 : e2 = k.thn ∨ e2 = k.els := by
      show (if i = true then k.thn else k.els) = _ ∨ _
      cases i
      · exact Or.inr rfl
      · exact Or.inl rfl
    have hx2 : Df.Below s (s.ord.lvl x) e2 := by
      rcases he2 with h | h
      · rw [h, ← kv]; exact P.thn_lo _ _ hk
      · rw [h, ← kv]; exact P.els_lo _ _ hk
    have key : ∀ ρ, den δ e2 ρ = xor (xor e.neg c) (δ b ρ) := by
      intro ρ
      have i1 := Df.kid_indep P l hx2
      have i2 := Df.kid_indep P l (mono hx2)
      obtain ⟨u1, u2⟩ := upd_upd_same (ρ := ρ) (i := i) (j := j) hxy
      have h1 := hfe _ u2
      have h2 := l.node e.addr k hk (upd (upd ρ x i) y j)
      rw [kv, u1] at h2
      have h3 : δ e.addr (upd (upd ρ x i) y j) = den δ e2 ρ := by
        rw [h2]
        have : (if i = true then den δ k.thn (upd (upd ρ x i) y j) else den δ k.els (upd (upd ρ x i) y j)) =
            den δ e2 (upd (upd ρ x i) y j) := by
          show _ = den δ (if i = true then k.thn else k.els) _
          cases i <;> rfl
        rw [this, i2, i1]
      rw [occ _ u1 u2, iib] at h1
      have h4 : den δ e (upd (upd ρ x i) y j) = xor e.neg (den δ e2 ρ) := by
        unfold den at h3 ⊢; rw [h3]
      rw [h4] at h1
      revert h1
      cases e.neg <;> cases c <;> cases δ b ρ <;> cases den δ e2 ρ <;> simp
    refine ⟨e.addr, k, hk, ?_⟩
    have := canon_edge P l hx2 hb key
    rcases he2 with h | h
    · left; rw [← h]; exact this
    · right; rw [← h]; exact this

/-! ## The exchange -/

/-- Every node has a reference. -/
def NoZero (d : Df.St) : Prop := ∀ a n, d.st.heap a = some n → d.st.ref a ≠ 0

theorem noZero_swap {F F' : Edge → Edge} {w w' : St} {d d' : Df.St} {ab ab' : Nat → Nat} {x y : Nat} {R : List Nat} {ext : Nat → Nat}
    (S : Sim F w d ab) (S' : Sim F' w' d' ab') (E : Eff x y R w d ab w' d' ab') (I : Df.DInv ext d) (I' : Df.DInv ext d')
    (K : Df.Keeps d d') (A : Df.Adj d.st x y) (ho : d'.st.ord = Df.swapOrder d.st.ord x y)
    (hex : Df.exchange d x = some d') (Z : NoZero d) : NoZero d' := by
  rcases E.swept with swept | ⟨h1, h2⟩
  rotate_left
  · intro a n h
    rw [h1] at h; rw [h2]; exact Z a n h
  have P := I.w
  have P' := I'.w
  have sat := sat_exchange P.fr hex
  obtain ⟨δ, l⟩ := P.exists_lab
  obtain ⟨δ', l', ag⟩ := K.fns δ l
  have hxy := A.ne
  have lx' : d'.st.ord.lvl x = d.st.ord.lvl x + 1 := by rw [ho, A.lvl', if_pos rfl]
  have ly' : d'.st.ord.lvl y = d.st.ord.lvl x := by rw [ho, A.lvl', if_neg (Ne.symm hxy), if_pos rfl]
  have lyx : d'.st.ord.lvl y < d'.st.ord.lvl x := by omega
  have nv : d'.st.ord.numVars = d.st.ord.numVars := K.nv
  have closed : ∀ {k e}, Df.Below d'.st k e → e.addr = 0 ∨ d'.st.heap e.addr ≠ none := by
    rintro k e (h | ⟨m, hm, _⟩)
    · exact Or.inl h
    · exact Or.inr (by simp [hm])
  have nz : ∀ a n, d.st.heap a = some n → a ≠ 0 := by
    rintro a n h rfl; rw [P.heap0] at h; cases h
  -- a node with a reference from a node above stays
  have survives : ∀ a n, d.st.heap a = some n →
      (∀ p np, d.st.heap p = some np → np.thn.addr = a ∨ np.els.addr = a → np.var ≠ x ∧ np.var ≠ y) → d'.st.heap a ≠ none := by
    intro a n hn hp
    rcases I.ref.cnt a (by simp [hn]) with h | h
    · exact (sat a (by simp [hn]) h).1
    · have h0 := Z a n hn
      by_cases he : ext a = 0
      · obtain ⟨p, np, h1, h2⟩ := parent_of_inDeg (s := d.st) (a := a) (by omega)
        obtain ⟨h3, h4⟩ := hp p np h1 h2
        have h5 := E.keepD p np h1 h4 (fun h => absurd h h3)
        rcases h2 with h2 | h2
        · rw [← h2]
          exact (closed (P'.thn_lo _ _ h5)).resolve_left (by rw [h2]; exact nz a n hn)
        · rw [← h2]
          exact (closed (P'.els_lo _ _ h5)).resolve_left (by rw [h2]; exact nz a n hn)
      · intro hd
        exact he (I'.ref.ext0 a (nz a n hn) hd)
  -- a replaced node becomes a node of the lower variable
  have repl : ∀ b nb, d.st.heap b = some nb → nb.var = x → Df.HasY d.st y nb → ∃ m, d'.st.heap b = some m ∧ m.var = y := by
    intro b nb hb hv hy
    have hl : d'.st.heap b ≠ none := by
      refine survives b nb hb ?_
      intro p np hp hk
      have : d.st.ord.lvl np.var < d.st.ord.lvl x := by
        have low : ∀ {e}, Df.Below d.st (d.st.ord.lvl np.var) e → e.addr = b → d.st.ord.lvl np.var < d.st.ord.lvl x := by
          rintro e (h | ⟨m, hm, hlt⟩) he
          · exact absurd (he.symm.trans h) (nz b nb hb)
          · rw [he, hb] at hm; cases hm; rw [← hv]; exact hlt
        rcases hk with hk | hk
        · exact low (P.thn_lo _ _ hp) hk
        · exact low (P.els_lo _ _ hp) hk
      constructor
      · intro h; rw [h] at this; omega
      · intro h; rw [h, A.lv] at this; omega
    obtain ⟨c, hc, rfl⟩ := S.sur b (by simp [hb])
    cases hn : w.st.heap c with
    | none => exact absurd hn hc
    | some nc =>
      obtain ⟨n', h1, h2, _⟩ := S.node c nc hn
      rw [hb] at h1; cases h1
      have hR := (E.rem c).2 ⟨nc, nb, hn, h2.symm.trans hv, hb, hy⟩
      obtain ⟨g, _, h3⟩ := E.fwdR c hR
      obtain ⟨m, h4, h5, h6⟩ := h3 hl
      obtain ⟨m', h7, h8, _⟩ := S'.node g m h4
      rw [h6] at h7
      exact ⟨m', h7, h8.trans h5⟩
  intro a n ha
  by_cases hvy : n.var = y
  · exact swept a n ha hvy
  · cases hd : d.st.heap a with
    | none =>
      obtain ⟨_, b, nb, h1, h2, h3, h4⟩ := E.newD a n ha hd
      obtain ⟨m, h5, _⟩ := repl b nb h1 h2 h3
      have := inDeg_of_parent P'.fr ⟨b, m, h5, h4 m h5⟩
      exact ref_pos I'.ref (by simp [ha]) (by omega)
    | some n0 =>
      have hl' : d'.st.heap a ≠ none := by simp [ha]
      have byPar : Parent d'.st a → d'.st.ref a ≠ 0 := fun h => ref_pos I'.ref hl' (by
        have := inDeg_of_parent P'.fr h; omega)
      rcases I.ref.cnt a (by simp [hd]) with h | h
      · rw [(sat a (by simp [hd]) h).2]; decide
      · have h0 := Z a n0 hd
        by_cases he : ext a = 0
        · obtain ⟨p, np, hp, hk⟩ := parent_of_inDeg (s := d.st) (a := a) (by omega)
          have n0y : n0.var ≠ y := by
            intro h
            rcases E.keepY a n0 hd h with h1 | h1
            · rw [ha] at h1; cases h1; exact hvy h
            · rw [ha] at h1; cases h1
          -- the functions below
          have low : ∀ {e k}, Df.Below d.st k e → e.addr = a → d.st.ord.lvl x ≤ k → Indep (δ' a) x ∧ Indep (δ' a) y := by
            rintro e k hb hea hk
            rcases hb with hb | ⟨m, hm, hlt⟩
            · exact absurd (hea.symm.trans hb) (nz a n0 hd)
            · rw [hea, hd] at hm; cases hm
              have hvr := P.var_range a n0 hd
              have : d.st.ord.lvl n0.var ≠ d.st.ord.lvl y := fun h => n0y (lvl_inj P.ord hvr ⟨A.y1, A.y2⟩ h)
              have hly := A.lv
              have b1 : Df.Below d.st (d.st.ord.lvl x) ⟨0, a, false⟩ := Or.inr ⟨n0, hd, by omega⟩
              have b2 : Df.Below d.st (d.st.ord.lvl y) ⟨0, a, false⟩ := Or.inr ⟨n0, hd, by omega⟩
              have e0 : den δ ⟨0, a, false⟩ = δ' a := by
                rw [ag a (by simp [hd])]
                funext ρ; simp [den]
              have i1 := Df.kid_indep P l b1
              have i2 := Df.kid_indep P l b2
              rw [e0] at i1 i2
              exact ⟨i1, i2⟩
          have kidsOf : ∀ f m, d'.st.heap f = some m → m.var = y → ∀ e, e = m.thn ∨ e = m.els →
              Df.Below d'.st (d'.st.ord.lvl x) e ∨ ∃ k, d'.st.heap e.addr = some k ∧ k.var = x := by
            intro f m hm hmv e he
            have hb : Df.Below d'.st (d'.st.ord.lvl y) e := by
              rcases he with rfl | rfl
              · rw [← hmv]; exact P'.thn_lo _ _ hm
              · rw [← hmv]; exact P'.els_lo _ _ hm
            rcases hb with hb | ⟨k, hk, hlt⟩
            · exact Or.inl (Or.inl hb)
            · by_cases hkx : k.var = x
              · exact Or.inr ⟨k, hk, hkx⟩
              · left; right
                refine ⟨k, hk, ?_⟩
                have hvr := P'.var_range _ _ hk
                have : d'.st.ord.lvl k.var ≠ d'.st.ord.lvl x := fun h =>
                  hkx (lvl_inj P'.ord hvr ⟨A.x1, by rw [nv]; exact A.x2⟩ h)
                omega
          by_cases hpx : np.var = x ∧ Df.HasY d.st y np
          · -- the parent has been replaced
            obtain ⟨m, hm, hmv⟩ := repl p np hp hpx.1 hpx.2
            have lp := l.node p np hp
            rw [hpx.1] at lp
            apply byPar
            rcases hk with hk | hk
            · obtain ⟨i1, i2⟩ := low (P.thn_lo _ _ hp) hk (by rw [hpx.1]; omega)
              refine low_parent P' l' hxy hm hmv lyx (kidsOf p m hm hmv) ha i1 i2 (i := true) (j := true) (c := np.thn.neg) ?_
              intro ρ hρ _
              rw [ag p (by simp [hp]), lp, hρ, ag a (by simp [hd]), ← hk]; rfl
            · obtain ⟨i1, i2⟩ := low (P.els_lo _ _ hp) hk (by rw [hpx.1]; omega)
              refine low_parent P' l' hxy hm hmv lyx (kidsOf p m hm hmv) ha i1 i2 (i := false) (j := true) (c := np.els.neg) ?_
              intro ρ hρ _
              rw [ag p (by simp [hp]), lp, hρ, ag a (by simp [hd]), ← hk]; rfl
          · by_cases hpy : np.var = y
            · rcases E.keepY p np hp hpy with h1 | h1
              · exact byPar ⟨p, np, h1, hk⟩
              · -- the parent has been freed: its parents have been replaced
                have hp0 : ∃ q nq, d.st.heap q = some nq ∧ (nq.thn.addr = p ∨ nq.els.addr = p) ∧ nq.var = x := by
                  refine Classical.byContradiction fun hno => ?_
                  refine survives p np hp ?_ h1
                  intro q nq hq hkq
                  have : d.st.ord.lvl nq.var < d.st.ord.lvl y := by
                    have low : ∀ {e}, Df.Below d.st (d.st.ord.lvl nq.var) e → e.addr = p → d.st.ord.lvl nq.var < d.st.ord.lvl y := by
                      rintro e (h | ⟨m, hm, hlt⟩) he
                      · exact absurd (he.symm.trans h) (nz p np hp)
                      · rw [he, hp] at hm; cases hm; rw [← hpy]; exact hlt
                    rcases hkq with hk | hk
                    · exact low (P.thn_lo _ _ hq) hk
                    · exact low (P.els_lo _ _ hq) hk
                  refine ⟨fun h => hno ⟨q, nq, hq, hkq, h⟩, fun h => ?_⟩
                  rw [h] at this; omega
                obtain ⟨q, nq, hq, hkq, hqx⟩ := hp0
                have hqy : Df.HasY d.st y nq := by
                  rcases hkq with h | h
                  · exact Or.inl ⟨np, by rw [h]; exact hp, hpy⟩
                  · exact Or.inr ⟨np, by rw [h]; exact hp, hpy⟩
                obtain ⟨m, hm, hmv⟩ := repl q nq hq hqx hqy
                have lq := l.node q nq hq
                have lp := l.node p np hp
                rw [hqx] at lq
                rw [hpy] at lp
                have hly := A.lv
                have inds : Indep (δ' a) x ∧ Indep (δ' a) y := by
                  rcases hk with hk | hk
                  · exact low (P.thn_lo _ _ hp) hk (by rw [hpy]; omega)
                  · exact low (P.els_lo _ _ hp) hk (by rw [hpy]; omega)
                have o1 : ∃ i c, ∀ ρ, ρ x = i → δ q ρ = xor c (δ p ρ) := by
                  rcases hkq with h | h
                  · exact ⟨true, nq.thn.neg, fun ρ hρ => by rw [lq, hρ, ← h]; rfl⟩
                  · exact ⟨false, nq.els.neg, fun ρ hρ => by rw [lq, hρ, ← h]; rfl⟩
                have o2 : ∃ j c, ∀ ρ, ρ y = j → δ p ρ = xor c (δ a ρ) := by
                  rcases hk with h | h
                  · exact ⟨true, np.thn.neg, fun ρ hρ => by rw [lp, hρ, ← h]; rfl⟩
                  · exact ⟨false, np.els.neg, fun ρ hρ => by rw [lp, hρ, ← h]; rfl⟩
                obtain ⟨i, c1, o1⟩ := o1
                obtain ⟨j, c2, o2⟩ := o2
                apply byPar
                refine low_parent P' l' hxy hm hmv lyx (kidsOf q m hm hmv) ha inds.1 inds.2 (i := i) (j := j) (c := xor c1 c2) ?_
                intro ρ h1 h2
                rw [ag q (by simp [hq]), o1 ρ h1, o2 ρ h2, ag a (by simp [hd])]
                cases c1 <;> cases c2 <;> cases δ a ρ <;> rfl
            · exact byPar ⟨p, np, E.keepD p np hp hpy (fun h h' => hpx ⟨h, h'⟩), hk⟩
        · exact ref_pos I'.ref hl' (by omega)

/-- The nodes that have been replaced are still there in the depth-first state. -/
theorem survive_swap {F : Edge → Edge} {w w' : St} {d d' : Df.St} {ab ab' : Nat → Nat} {x y : Nat} {R : List Nat} {ext : Nat → Nat}
    (S : Sim F w d ab) (E : Eff x y R w d ab w' d' ab') (I : Df.DInv ext d) (I' : Df.DInv ext d') (A : Df.Adj d.st x y)
    (hex : Df.exchange d x = some d') (Z : NoZero d) {f : Nat} (hf : f ∈ R) : d'.st.heap (ab f) ≠ none := by
  have P := I.w
  have P' := I'.w
  have sat := sat_exchange P.fr hex
  obtain ⟨n, b, hn, hv, hb, hy⟩ := (E.rem f).1 hf
  obtain ⟨n', h1, h2, _⟩ := S.node f n hn
  rw [hb] at h1; cases h1
  have h2 : b.var = x := h2.trans hv
  have nz : ab f ≠ 0 := by
    intro h; rw [h, P.heap0] at hb; cases hb
  have closed : ∀ {k e}, Df.Below d'.st k e → e.addr = 0 ∨ d'.st.heap e.addr ≠ none := by
    rintro k e (h | ⟨m, hm, _⟩)
    · exact Or.inl h
    · exact Or.inr (by simp [hm])
  rcases I.ref.cnt (ab f) (by simp [hb]) with h | h
  · exact (sat _ (by simp [hb]) h).1
  · have h0 := Z _ _ hb
    by_cases he : ext (ab f) = 0
    · obtain ⟨p, np, h3, h4⟩ := parent_of_inDeg (s := d.st) (a := ab f) (by omega)
      have : d.st.ord.lvl np.var < d.st.ord.lvl x := by
        have low : ∀ {e}, Df.Below d.st (d.st.ord.lvl np.var) e → e.addr = ab f → d.st.ord.lvl np.var < d.st.ord.lvl x := by
          rintro e (h | ⟨m, hm, hlt⟩) he
          · exact absurd (he.symm.trans h) nz
          · rw [he, hb] at hm; cases hm; rw [← h2]; exact hlt
        rcases h4 with hk | hk
        · exact low (P.thn_lo _ _ h3) hk
        · exact low (P.els_lo _ _ h3) hk
      have p1 : np.var ≠ x := by intro h; rw [h] at this; omega
      have p2 : np.var ≠ y := by intro h; rw [h, A.lv] at this; omega
      have h5 := E.keepD p np h3 p2 (fun h => absurd h p1)
      rcases h4 with h2 | h2
      · rw [← h2]
        exact (closed (P'.thn_lo _ _ h5)).resolve_left (by rw [h2]; exact nz)
      · rw [← h2]
        exact (closed (P'.els_lo _ _ h5)).resolve_left (by rw [h2]; exact nz)
    · intro hd
      exact he (I'.ref.ext0 _ nz hd)

end Bfr

end Cal
