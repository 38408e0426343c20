import Verif.GC
import Verif.MkNode

/-!
# The order and the functions held from outside determine the number of nodes

In a store in which every node has a reference, every node is the node of a function that is reached from the
functions that are held from outside or whose counts are stuck by taking cofactors by the top variable. Any other
store with the same order that has these functions also has a node for each of the others.
-/

namespace Cal

/-- The value under the assignment that is true everywhere shows the complement bit. -/
theorem Rep.ones {s : Store} (w : s.WF) {e F} (h : Rep s e F) : F (fun _ => true) = !e.neg := by
  induction h with
  | one => rfl
  | zero => rfl
  | pos hn _ _ ih1 _ => simp [ih1, w.thn_pos _ _ hn]
  | neg hn _ _ ih1 _ => simp [ih1, w.thn_pos _ _ hn]

/-- Two stores order the variables alike. -/
structure SameOrder (s s' : Store) : Prop where
  nv : s'.ord.numVars = s.ord.numVars
  lvl : ∀ v, v ≤ s.ord.numVars → s'.ord.lvl v = s.ord.lvl v

theorem SameOrder.symm {s s' : Store} (h : SameOrder s s') : SameOrder s' s :=
  ⟨h.nv.symm, fun v hv => (h.lvl v (by rw [← h.nv]; exact hv)).symm⟩

theorem Store.EOK.id_le {s : Store} (w : s.WF) {e : Edge} (h : s.EOK e) : e.id ≤ s.ord.numVars := by
  rcases h with ⟨h, _⟩ | ⟨n, hn, hv⟩
  · omega
  · have := w.var_range _ _ hn; omega

theorem SameOrder.id_eq {s s' : Store} (w : s.WF) (w' : s'.WF) (o : SameOrder s s') {e e' F} (h : Rep s e F) (h' : Rep s' e' F) :
    e'.id = e.id := by
  have key : ∀ {s s' : Store} (w : s.WF) (w' : s'.WF) (o : SameOrder s s') {e e' F}, Rep s e F → Rep s' e' F →
      ¬ s.ord.lvl e.id < s.ord.lvl e'.id := by
    intro s s' w w' o e e' F h h' hl
    have le := h.eok.id_le w
    have le' := h'.eok.id_le w'
    rw [o.nv] at le'
    have hc : e.id ≠ 0 := by
      intro hc
      rw [hc] at hl
      by_cases h0 : e'.id = 0
      · rw [h0] at hl; omega
      · have := h'.eok.lvl_lt w' h0
        rw [o.lvl _ le', o.nv] at this
        have := w.ord.bound
        simp at hl
        omega
    refine h.dep w hc (h'.indep w' e.id ?_)
    rw [o.lvl _ le, o.lvl _ le']; exact hl
  have h1 := key w w' o h h'
  have h2 := key w' w o.symm h' h
  have le := h.eok.id_le w
  have le' := h'.eok.id_le w'
  rw [o.nv] at le'
  rw [o.lvl _ le, o.lvl _ le'] at h2
  have hl : s.ord.lvl e.id = s.ord.lvl e'.id := by omega
  by_cases c : e.id = 0
  · by_cases c' : e'.id = 0
    · omega
    · have := h'.eok.lvl_lt w' c'
      rw [o.lvl _ le', o.nv] at this
      have := w.ord.bound
      rw [c] at hl
      simp at hl
      omega
  · by_cases c' : e'.id = 0
    · have := h.eok.lvl_lt w c
      have := w.ord.bound
      rw [c'] at hl
      simp at hl
      omega
    · unfold Order.lvl at hl
      rw [if_neg c, if_neg c'] at hl
      have h1 := w.ord.left e.id (by omega) le
      have h2 := w.ord.left e'.id (by omega) le'
      rw [← h2, ← hl, h1]

/-- A function of a node of `s` is that of a node of `s'`. -/
def HasNode (s s' : Store) (a : Nat) : Prop :=
  ∃ n b n' F, s.heap a = some n ∧ s'.heap b = some n' ∧ Rep s ⟨n.var, a, false⟩ F ∧ Rep s' ⟨n'.var, b, false⟩ F

theorem upd_cof {F T G : BFn} {v : Nat} (h : F = fun ρ => if ρ v then T ρ else G ρ) (iT : Indep T v) (iG : Indep G v) :
    T = (fun ρ => F (upd ρ v true)) ∧ G = fun ρ => F (upd ρ v false) := by
  subst h
  constructor
  · funext ρ; simp [iT ρ true]
  · funext ρ; simp [iG ρ false]

theorem Rep.node_inv {s : Store} (w : s.WF) {a n F} (hn : s.heap a = some n) (h : Rep s ⟨n.var, a, false⟩ F) :
    Rep s n.thn (fun ρ => F (upd ρ n.var true)) ∧ Rep s n.els (fun ρ => F (upd ρ n.var false)) := by
  obtain ⟨T, hT⟩ := w.rep_exists (w.thn_ok _ _ hn)
  obtain ⟨G, hG⟩ := w.rep_exists (w.els_ok _ _ hn)
  have := upd_cof (h.unique w (Rep.pos hn hT hG)) (hT.indep w _ (w.thn_lt _ _ hn)) (hG.indep w _ (w.els_lt _ _ hn))
  rw [← this.1, ← this.2]
  exact ⟨hT, hG⟩

theorem HasNode.kid {s s' : Store} (w : s.WF) (w' : s'.WF) (o : SameOrder s s') {e e' : Edge} {F}
    (h : Rep s e F) (h' : Rep s' e' F) (h0 : e.addr ≠ 0) : HasNode s s' e.addr := by
  have hid := o.id_eq w w' h h'
  have hneg : e'.neg = e.neg := by
    have h1 := h.ones w
    have h2 := h'.ones w'
    rw [h1] at h2
    cases hx : e.neg <;> cases hy : e'.neg <;> simp_all
  rcases h.eok with ⟨_, h2⟩ | ⟨n, hn, hv⟩
  · exact absurd h2 h0
  rcases h'.eok with ⟨h1, _⟩ | ⟨n', hn', hv'⟩
  · have := (w.var_range _ _ hn).1; omega
  have r1 : Rep s (e.phase e.neg) (fun ρ => xor e.neg (F ρ)) := h.phase e.neg
  have r2 : Rep s' (e'.phase e.neg) (fun ρ => xor e.neg (F ρ)) := h'.phase e.neg
  refine ⟨n, e'.addr, n', fun ρ => xor e.neg (F ρ), hn, hn', ?_, ?_⟩
  · rw [show (⟨n.var, e.addr, false⟩ : Edge) = e.phase e.neg from Edge.ext' hv rfl (by simp)]; exact r1
  · rw [show (⟨n'.var, e'.addr, false⟩ : Edge) = e'.phase e.neg from Edge.ext' hv' rfl (by simp [hneg])]; exact r2

theorem HasNode.thn {s s' : Store} (w : s.WF) (w' : s'.WF) (o : SameOrder s s') {a n} (h : HasNode s s' a)
    (hn : s.heap a = some n) : (n.thn.addr ≠ 0 → HasNode s s' n.thn.addr) ∧ (n.els.addr ≠ 0 → HasNode s s' n.els.addr) := by
  obtain ⟨n1, b, n', F, h1, h2, r1, r2⟩ := h
  rw [hn] at h1; cases h1
  have hv := o.id_eq w w' r1 r2
  simp only at hv
  have k1 := r1.node_inv w hn
  have k2 := r2.node_inv w' h2
  rw [hv] at k2
  exact ⟨HasNode.kid w w' o k1.1 k2.1, HasNode.kid w w' o k1.2 k2.2⟩

/-- If the nodes held from outside and the stuck nodes have counterparts, all nodes do. -/
theorem hasNode {s s' : Store} {ext : Nat → Nat} (w : s.WF) (w' : s'.WF) (o : SameOrder s s') (r : s.RefOK ext)
    (nz : ∀ a, s.heap a ≠ none → s.ref a ≠ 0)
    (hx : ∀ a, s.heap a ≠ none → 0 < ext a ∨ s.ref a = maxRef → HasNode s s' a) : ∀ a, s.heap a ≠ none → HasNode s s' a := by
  intro a ha
  have := Store.GCInv.all_reach ⟨w, r⟩ nz a ha
  clear ha
  induction this with
  | root ha h =>
    exact hx _ ha h
  | thn h hn h0 ih => exact (ih.thn w w' o hn).1 h0
  | els h hn h0 ih => exact (ih.thn w w' o hn).2 h0

theorem length_le_of_inj {α β : Type} {R : α → β → Prop} (inj : ∀ a a' b, R a b → R a' b → a = a') :
    ∀ (l : List α) (l' : List β), l.Nodup → (∀ a, a ∈ l → ∃ b, b ∈ l' ∧ R a b) → l.length ≤ l'.length
  | [], _, _, _ => Nat.zero_le _
  | a :: l, l', nd, h => by
    classical
    obtain ⟨b, hb, hr⟩ := h a (by simp)
    rw [List.nodup_cons] at nd
    have := length_le_of_inj inj l (l'.erase b) nd.2 fun c hc => by
      obtain ⟨d, hd, hd'⟩ := h c (by simp [hc])
      refine ⟨d, ?_, hd'⟩
      by_cases hdb : d = b
      · subst hdb
        have := inj _ _ _ hr hd'
        subst this
        exact absurd hc nd.1
      · exact (List.mem_erase_of_ne hdb).2 hd
    have hl := List.length_erase_of_mem hb
    have := List.length_pos_of_mem hb
    simp only [List.length_cons]
    omega

/-- No variable has more nodes in `s` than in `s'`. -/
theorem tab_le {s s' : Store} {ext : Nat → Nat} (w : s.WF) (w' : s'.WF) (o : SameOrder s s') (r : s.RefOK ext)
    (nz : ∀ a, s.heap a ≠ none → s.ref a ≠ 0)
    (hx : ∀ a, s.heap a ≠ none → 0 < ext a ∨ s.ref a = maxRef → HasNode s s' a) (i : Nat) : (s.tab i).length ≤ (s'.tab i).length := by
  refine length_le_of_inj
    (R := fun a b => ∃ n n' F, s.heap a = some n ∧ s'.heap b = some n' ∧ Rep s ⟨n.var, a, false⟩ F ∧ Rep s' ⟨n'.var, b, false⟩ F)
    ?_ _ _ (w.tab_nodup i) ?_
  · rintro a a' b ⟨n, n', F, h1, h2, h3, h4⟩ ⟨m, m', G, k1, k2, k3, k4⟩
    rw [h2] at k2; cases k2
    have := h4.unique w' k4
    subst this
    exact congrArg Edge.addr (canonical w h3 k3)
  · intro a ha
    obtain ⟨n, hn, hv⟩ := (w.tab_iff i a).1 ha
    obtain ⟨n1, b, n', F, h1, h2, h3, h4⟩ := hasNode w w' o r nz hx a (by rw [hn]; simp)
    rw [hn] at h1; cases h1
    have := o.id_eq w w' h3 h4
    exact ⟨b, (w'.tab_iff i b).2 ⟨n', h2, by simp only at this; omega⟩, n, n', F, hn, h2, h3, h4⟩

theorem sumTo_le {f g : Nat → Nat} : ∀ {n : Nat}, (∀ a, a < n → f a ≤ g a) → sumTo f n ≤ sumTo g n
  | 0, _ => by simp [sumTo]
  | n + 1, h => by
    simp only [sumTo]
    have := sumTo_le (f := f) (g := g) (n := n) fun a ha => h a (by omega)
    have := h n (by omega)
    omega

theorem num_le {s s' : Store} {ext : Nat → Nat} (w : s.WF) (w' : s'.WF) (o : SameOrder s s') (r : s.RefOK ext)
    (nz : ∀ a, s.heap a ≠ none → s.ref a ≠ 0)
    (hx : ∀ a, s.heap a ≠ none → 0 < ext a ∨ s.ref a = maxRef → HasNode s s' a) (k : s.NumOK) (k' : s'.NumOK) : s.numNodes ≤ s'.numNodes := by
  unfold Store.NumOK at k k'
  rw [k, k', o.nv]
  have := sumTo_le (n := s.ord.numVars + 1) fun i _ => tab_le w w' o r nz hx i
  omega

end Cal
