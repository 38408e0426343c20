import Verif.BfZero
import Verif.DfAux

/-!
# The phases of breadth-first sifting

While a variable is moved down, the nodes it leaves behind are forwarding nodes in its list; while it is moved
up, those of the variables it passes are in their lists, and the forwarding nodes in its own list are
redirected by `BddReorderFixForwardingNodes`. The invariant says where the forwarding pointers that can still
be followed lead.
-/

namespace Cal

namespace Bfr

open Df (Fr PWF)

/-! ## Associations -/

def mapA (φ : Edge → Edge) (A : Assoc) : Assoc := { A with var := fun v => (A.var v).map φ }

def mapR (φ : Edge → Edge) (p : RAssoc) : RAssoc := { p with a := mapA φ p.a }

theorem fixup_map (o : Order) (x y : Nat) (φ : Edge → Edge) (A : Assoc) :
    Df.fixupAssoc o x y (mapA φ A) = mapA φ (Df.fixupAssoc o x y A) := by
  unfold Df.fixupAssoc mapA
  by_cases h1 : A.last = -1
  · simp [h1]
  · simp only [h1, if_false, Option.isSome_map, Option.isNone_map]
    split
    · rfl
    · split <;> rfl

theorem mapA_mapA (φ ψ : Edge → Edge) (A : Assoc) : mapA φ (mapA ψ A) = mapA (fun e => φ (ψ e)) A := by
  unfold mapA
  simp only [Option.map_map]
  rfl

theorem mapR_mapR (φ ψ : Edge → Edge) (p : RAssoc) : mapR φ (mapR ψ p) = mapR (fun e => φ (ψ e)) p := by
  unfold mapR
  simp only [mapA_mapA]

theorem follow_phase (w : St) (e : Edge) (b : Bool) : follow w (e.phase b) = (follow w e).phase b := by
  unfold follow
  have : (e.phase b).addr = e.addr := rfl
  rw [this]
  cases w.fwd e.addr with
  | none => rfl
  | some t =>
    simp only [Edge.phase]
    cases e.neg <;> cases b <;> simp

/-! ## The invariant -/

section
variable (ext : Nat → Nat) (δ0 : Nat → BFn) (d0 : Df.St) (Root : Edge → Prop) (u0 v0 : Nat → Option Edge)

/-- What holds between the steps: `w` stands for `d`, a state reached from `d0` by exchanges; `Root` has the
pointers held from outside. -/
structure BInv (w : St) (d : Df.St) (ab : Nat → Nat) : Prop where
  sim : Sim (follow w) w d ab
  r : Df.RInv ext δ0 d0 d
  nz : NoZero d
  ends : ∀ u, w.ends u = false
  rootE : ∀ e, Root e → e.addr = 0 ∨ 0 < ext e.addr
  root : ∀ e, Root e → Tr (follow w) w ab (w.pipe e) (Df.stripE e)
  assocs : w.assocs = d.assocs.map (mapR w.pipe)
  temp : w.temp = mapA w.pipe d.temp
  users : w.users = fun a => (u0 a).map w.pipe
  vars : w.vars = fun a => (v0 a).map w.pipe
  varR : ∀ id e, v0 id = some e → Root e ∧ ∀ u, u ≠ id → Indep (δ0 e.addr) u
  varE : ∀ id e, v0 id = some e → w.st.EOK (w.pipe e)
  chk : d.st.gcCheck = d0.st.gcCheck

/-- A pointer in a node or held from outside. -/
def Trk (w : St) (e : Edge) : Prop :=
  (∃ a n, w.st.heap a = some n ∧ (e = n.thn ∨ e = n.els)) ∨ ∃ e0, Root e0 ∧ e = w.pipe e0

/-- Nothing is forwarded any more. -/
structure Clean (w : St) : Prop where
  trk : ∀ e, Trk Root w e → w.st.EOK e
  lists : ∀ u, w.list u = []

/-- The forwarding pointers while variable `v` is at index `c`, moving down (`dn`) or up. -/
structure Ph (dn : Bool) (v c s hi : Nat) (w : St) (d : Df.St) (ab : Nat → Nat) : Prop where
  idx : w.st.ord.indexToId c = v
  lt : c < w.st.ord.numVars
  low : ∀ a n, w.st.heap a = some n → c ≤ w.st.ord.lvl n.var → w.st.EOK n.thn ∧ w.st.EOK n.els
  tgt : ∀ e t, Trk Root w e → w.fwd e.addr = some t → (dn = false ∧ t.id = v) ∨ e.addr ∈ w.list v
  lst : ∀ a, a ∈ w.list v → ∃ t, w.fwd a = some t ∧ w.st.EOK t ∧ w.st.ord.lvl t.id < c ∧ s ≤ w.st.ord.lvl t.id ∧
    ∀ δ, Lab d.st δ → ¬ Indep (δ (ab t.addr)) v
  srt : (w.list v).Pairwise fun a b => ∀ t u, w.fwd a = some t → w.fwd b = some u → w.st.ord.lvl u.id ≤ w.st.ord.lvl t.id
  nd : (w.list v).Nodup
  sup : ∀ u, w.list u ≠ [] → u = v ∨ (dn = false ∧ ∃ j, u = w.st.ord.indexToId j ∧ c < j ∧ j ≤ hi ∧ j < w.st.ord.numVars)

end

section
variable {ext : Nat → Nat} {δ0 : Nat → BFn} {d0 : Df.St} {Root : Edge → Prop} {u0 v0 : Nat → Option Edge}
variable {w : St} {d : Df.St} {ab : Nat → Nat}

theorem Ph.weaken {v c s hi hi' : Nat} (h : Ph Root true v c s hi w d ab) (b : Bool) : Ph Root b v c s hi' w d ab :=
  ⟨h.idx, h.lt, h.low, fun e t he ht => Or.inr ((h.tgt e t he ht).resolve_left (by simp)), h.lst, h.srt, h.nd,
    fun u hu => Or.inl ((h.sup u hu).resolve_right (by simp))⟩

theorem Clean.ph (B : BInv ext δ0 d0 Root u0 v0 w d ab) (C : Clean Root w) {v c s hi : Nat} (hidx : w.st.ord.indexToId c = v)
    (hlt : c < w.st.ord.numVars) (b : Bool) : Ph Root b v c s hi w d ab := by
  refine ⟨hidx, hlt, ?_, ?_, ?_, ?_, ?_, ?_⟩
  · intro a n hn _
    exact ⟨C.trk _ (Or.inl ⟨a, n, hn, Or.inl rfl⟩), C.trk _ (Or.inl ⟨a, n, hn, Or.inr rfl⟩)⟩
  · intro e t he ht
    rw [B.sim.fw.eok (C.trk e he)] at ht; cases ht
  · intro a ha; rw [C.lists] at ha; cases ha
  · rw [C.lists]; exact List.Pairwise.nil
  · rw [C.lists]; exact List.nodup_nil
  · intro u hu; exact absurd (C.lists u) hu

/-- What a pointer that can be followed leads to. -/
theorem BInv.trk (B : BInv ext δ0 d0 Root u0 v0 w d ab) {e : Edge} (h : Trk Root w e) : w.st.EOK (follow w e) := by
  rcases h with ⟨a, n, hn, he⟩ | ⟨e0, h0, rfl⟩
  · obtain ⟨n', _, _, T1, T0⟩ := B.sim.node a n hn
    rcases he with rfl | rfl
    · exact T1.1
    · exact T0.1
  · exact (B.root e0 h0).1

theorem eok_phase {s : Store} {e : Edge} {b : Bool} : s.EOK (e.phase b) ↔ s.EOK e := Iff.rfl

theorem BInv.target (B : BInv ext δ0 d0 Root u0 v0 w d ab) {e t : Edge} (h : Trk Root w e) (ht : w.fwd e.addr = some t) :
    w.st.EOK t := by
  have := B.trk h
  rw [follow_some ht] at this
  exact this

/-! ## One exchange -/

/-- What is known after an exchange, before the forwarding pointers are looked at. -/
structure Swapped (ext : Nat → Nat) (δ0 : Nat → BFn) (d0 : Df.St) (Root : Edge → Prop) (u0 v0 : Nat → Option Edge) (i : Nat) (R : List Nat)
    (w : St) (d : Df.St) (ab : Nat → Nat) (w' : St) (d' : Df.St) (ab' : Nat → Nat) : Prop where
  sim : Sim (fun e => follow w' (follow w e)) w' d' ab'
  eff : Eff (w.st.ord.indexToId i) (w.st.ord.indexToId (i + 1)) R w d ab w' d' ab'
  adj : Df.Adj d.st (w.st.ord.indexToId i) (w.st.ord.indexToId (i + 1))
  r : Df.RInv ext δ0 d0 d'
  nz : NoZero d'
  fns : ∀ δ, Lab d.st δ → ∃ δ', Lab d'.st δ' ∧ ∀ a, d.st.heap a ≠ none → δ' a = δ a
  live : ∀ f, f ∈ R → d'.st.heap (ab f) ≠ none
  root : ∀ e, Root e → Tr (fun e => follow w' (follow w e)) w' ab' (w'.pipe e) (Df.stripE e)
  assocs : w'.assocs = d'.assocs.map (mapR w'.pipe)
  temp : w'.temp = mapA w'.pipe d'.temp
  varE : ∀ id e, v0 id = some e → w'.st.EOK (w'.pipe e)
  chk : d'.st.gcCheck = d.st.gcCheck
  ord : w'.st.ord = Df.swapOrder w.st.ord (w.st.ord.indexToId i) (w.st.ord.indexToId (i + 1))
  ex : Df.exchange d (d.st.ord.indexToId i) = some d'

theorem BInv.swap (B : BInv ext δ0 d0 Root u0 v0 w d ab) {i : Nat} (hi : i + 1 < w.st.ord.numVars) {flag : Bool}
    (hy : ∀ a n, w.st.heap a = some n → n.var = w.st.ord.indexToId (i + 1) → w.st.EOK n.thn ∧ w.st.EOK n.els)
    (hx : ∀ a n, w.st.heap a = some n → n.var = w.st.ord.indexToId i → ∀ e, e = n.thn ∨ e = n.els →
      w.st.EOK e ∨ (flag = true ∧ (follow w e).id = w.st.ord.indexToId (i + 1))) :
    ∃ w' d' ab' R, Bfr.swap w i flag = some w' ∧ Swapped ext δ0 d0 Root u0 v0 i R w d ab w' d' ab' := by
  have hi' : i + 1 < d.st.ord.numVars := by rw [B.sim.ord]; exact hi
  have P := B.r.inv.w
  obtain ⟨w', d', ab', R, e1, e2, S', E, h1, h2, h3, h4, h5⟩ := swap_sim B.sim B.r.inv hi' hy hx
  have hr := P.ord.id_range i (by omega)
  have hidx : d.st.ord.idToIndex (d.st.ord.indexToId i) = i := P.ord.right i (by omega)
  have A := Df.adj_of P hr.1 hr.2 (by omega)
  rw [hidx] at A
  obtain ⟨d1, e3, I', ho⟩ := B.r.exchange hi'
  rw [e2] at e3; cases e3
  obtain ⟨d1, e3, _, K, _⟩ := Df.exchange_spec B.r.inv hr.1 hr.2 (by omega)
  rw [e2] at e3; cases e3
  have nz : NoZero d' := noZero_swap B.sim S' (by rw [← B.sim.ord] at E; exact E) B.r.inv I'.inv K A ho e2 B.nz
  have live : ∀ f, f ∈ R → d'.st.heap (ab f) ≠ none := fun f hf =>
    survive_swap B.sim (by rw [← B.sim.ord] at E; exact E) B.r.inv I'.inv A e2 B.nz hf
  rw [B.sim.ord] at A
  have rl : ∀ e, Root e → e.addr = 0 ∨ d'.st.heap e.addr ≠ none := by
    intro e he
    rcases B.rootE e he with h | h
    · exact Or.inl h
    · by_cases h0 : e.addr = 0
      · exact Or.inl h0
      · right; intro hn
        have := I'.inv.ref.ext0 _ h0 hn; omega
  have ab0 : ∀ e, w.st.EOK e → ab e.addr = 0 → e.addr = 0 := by
    rintro e (⟨_, h⟩ | ⟨n, hn, _⟩) h0
    · exact h
    · obtain ⟨n', k1, _⟩ := B.sim.node _ _ hn
      rw [h0, P.heap0] at k1; cases k1
  have aft : ∀ e r, Root e → w.st.EOK r → absE ab r = Df.stripE e → w'.st.EOK (follow w' r) ∧ absE ab' (follow w' r) = Df.stripE e := by
    intro e r he hr hab
    have ha : ab r.addr = e.addr := congrArg Edge.addr hab
    have hl : r.addr = 0 ∨ d'.st.heap (ab r.addr) ≠ none := by
      rcases rl e he with h | h
      · exact Or.inl (ab0 r hr (by rw [ha]; exact h))
      · right; rw [ha]; exact h
    obtain ⟨k1, k2⟩ := E.after r hr hl
    exact ⟨k1, k2.trans hab⟩
  refine ⟨w', d', ab', R, e1, S', E, A, I', nz, K.fns, live, ?_, ?_, ?_, ?_, Df.exchange_chk e2, h5, e2⟩
  · intro e he
    obtain ⟨t1, t2⟩ := B.root e he
    rw [E.pipe]
    exact aft e _ he t1 t2
  · rw [h1, B.assocs, h3, List.map_map, List.map_map, E.pipe]
    apply List.map_congr_left
    intro p _
    simp only [Function.comp, mapR, fixup_map]
  · rw [h2, B.temp, h4, fixup_map, E.pipe]
  · intro id e he
    obtain ⟨hR, hI⟩ := B.varR id e he
    have hE := B.varE id e he
    obtain ⟨t1, t2⟩ := B.root e hR
    have hf : follow w (w.pipe e) = w.pipe e := B.sim.fw.follow hE
    rw [hf] at t1 t2
    obtain ⟨k1, k2⟩ := aft e _ hR hE t2
    have hnR : (w.pipe e).addr ∉ R := by
      intro hm
      obtain ⟨n, n', m1, m2, m3, m4⟩ := (E.rem _).1 hm
      have ha : ab (w.pipe e).addr = e.addr := congrArg Edge.addr t2
      obtain ⟨n'', m5, m6, _⟩ := B.sim.node _ _ m1
      rw [m3] at m5; cases m5
      rw [ha] at m3
      have hpos : 0 < ext e.addr := by
        rcases B.rootE e hR with h | h
        · rw [h, P.heap0] at m3; cases m3
        · exact h
      obtain ⟨δ, l, hδ⟩ := B.r.fns
      have d1 := Df.dep_self P l m3
      have d2 := Df.dep_kid P l m3 m4
      rw [hδ _ hpos] at d1 d2
      by_cases hx : n'.var = id
      · refine d2 (hI _ ?_)
        intro h
        exact A.ne (by rw [← m2, ← m6, hx, h])
      · exact d1 (hI _ hx)
    have hfw : follow w' (w.pipe e) = w.pipe e := follow_none (by rw [E.fwdO _ hnR]; exact B.sim.fw.eok hE)
    rw [hfw] at k1
    rw [E.pipe]; exact k1

end

/-! ## Consequences of an exchange -/

section
variable {ext : Nat → Nat} {δ0 : Nat → BFn} {d0 : Df.St} {Root : Edge → Prop} {u0 v0 : Nat → Option Edge}
variable {w w' : St} {d d' : Df.St} {ab ab' : Nat → Nat} {i : Nat} {R : List Nat}

theorem BInv.kid_lvl (B : BInv ext δ0 d0 Root u0 v0 w d ab) {a n e} (hn : w.st.heap a = some n) (he : e = n.thn ∨ e = n.els) :
    w.st.ord.lvl n.var < w.st.ord.lvl (follow w e).id := by
  have P := B.r.inv.w
  obtain ⟨n', h1, h2, T1, T0⟩ := B.sim.node a n hn
  have hv := P.var_range _ _ h1
  have hl := P.ord.lvl_lt hv.1 hv.2
  rw [← h2, ← B.sim.ord]
  rcases he with rfl | rfl
  · have := B.sim.below P T1.1 hl (by rw [T1.2]; exact P.thn_lo _ _ h1)
    rw [← B.sim.ord] at this; exact this
  · have := B.sim.below P T0.1 hl (by rw [T0.2]; exact P.els_lo _ _ h1)
    rw [← B.sim.ord] at this; exact this

theorem BInv.ordWF (B : BInv ext δ0 d0 Root u0 v0 w d ab) : w.st.ord.WF := by
  rw [← B.sim.ord]; exact B.r.inv.w.ord

variable (B : BInv ext δ0 d0 Root u0 v0 w d ab) (X : Swapped ext δ0 d0 Root u0 v0 i R w d ab w' d' ab')
include B X

omit B in
theorem Swapped.trk_old {e : Edge} (h : Trk Root w' e) (hn : ¬ w'.st.EOK e) : Trk Root w e := by
  rcases h with ⟨a, n, h1, h2⟩ | ⟨e0, h1, rfl⟩
  · rcases X.eff.node a n h1 with ⟨_, _, h3⟩ | ⟨_, h3, h4⟩
    · exact Or.inl ⟨a, n, h3, h2⟩
    · rcases h2 with rfl | rfl
      · exact absurd h3 hn
      · exact absurd h4 hn
  · exact Or.inr ⟨e0, h1, by rw [X.eff.pipe]⟩

theorem Swapped.lvl (z : Nat) : w'.st.ord.lvl z = if z = w.st.ord.indexToId i then w.st.ord.lvl (w.st.ord.indexToId i) + 1
    else if z = w.st.ord.indexToId (i + 1) then w.st.ord.lvl (w.st.ord.indexToId i) else w.st.ord.lvl z := by
  have := X.adj.lvl' z
  rw [B.sim.ord] at this
  rw [X.ord]; exact this

omit B in
theorem Swapped.keepE {e : Edge} (h : w.st.EOK e) (h1 : e.id ≠ w.st.ord.indexToId i) (h2 : e.id ≠ w.st.ord.indexToId (i + 1)) :
    w'.st.EOK e := by
  rcases h with h | ⟨n, hn, hv⟩
  · exact Or.inl h
  · exact Or.inr ⟨n, X.eff.keep _ n hn (by rw [hv]; exact h1) (by rw [hv]; exact h2), hv⟩

theorem Swapped.low (hi : i + 1 < w.st.ord.numVars)
    (h : ∀ a n, w.st.heap a = some n → i + 1 ≤ w.st.ord.lvl n.var → w.st.EOK n.thn ∧ w.st.EOK n.els) :
    ∀ a n, w'.st.heap a = some n → i ≤ w'.st.ord.lvl n.var → w'.st.EOK n.thn ∧ w'.st.EOK n.els := by
  intro a n hn hl
  have W := B.ordWF
  have lx := W.lvl_indexToId (k := i) (by omega)
  have ly := W.lvl_indexToId (k := i + 1) hi
  rcases X.eff.node a n hn with ⟨h1, h2, h3⟩ | ⟨_, h3, h4⟩
  · have hv := B.sim.var_range B.r.inv.w h3
    rw [X.lvl B, if_neg h1, if_neg h2] at hl
    have n1 : w.st.ord.lvl n.var ≠ i := fun h => h1 (lvl_inj W hv (W.id_range i (by omega)) (by rw [h, lx]))
    obtain ⟨k1, k0⟩ := h a n h3 (by omega)
    have key : ∀ e, e = n.thn ∨ e = n.els → w.st.EOK e → w'.st.EOK e := by
      intro e he hE
      have hk := B.kid_lvl h3 he
      rw [B.sim.fw.follow hE] at hk
      refine X.keepE hE ?_ ?_ <;> intro h5 <;> rw [h5] at hk <;> omega
    exact ⟨key _ (Or.inl rfl) k1, key _ (Or.inr rfl) k0⟩
  · exact ⟨h3, h4⟩

/-- The invariant after the exchange, once the forwarding pointers lead to the right nodes. -/
theorem Swapped.binv {f : Nat → Option Edge} {l : Nat → List Nat}
    (hF : FwOK { w' with fwd := f, list := l })
    (hc : ∀ e, Trk Root w' e → follow { w' with fwd := f, list := l } e = follow w' (follow w e)) :
    BInv ext δ0 d0 Root u0 v0 { w' with fwd := f, list := l } d' ab' := by
  have S := X.sim
  constructor
  · refine ⟨S.ord, S.zero, hF, S.inj, S.sur, ?_, S.tab, S.tabW, S.ref, S.le, S.num, S.gcc, S.mat⟩
    intro a n hn
    obtain ⟨n', h1, h2, T1, T0⟩ := S.node a n hn
    refine ⟨n', h1, h2, ?_, ?_⟩
    · unfold Tr at T1 ⊢
      rw [hc _ (Or.inl ⟨a, n, hn, Or.inl rfl⟩)]; exact T1
    · unfold Tr at T0 ⊢
      rw [hc _ (Or.inl ⟨a, n, hn, Or.inr rfl⟩)]; exact T0
  · exact X.r
  · exact X.nz
  · intro u; show w'.ends u = false
    rw [X.eff.ends]; exact B.ends u
  · exact B.rootE
  · intro e he
    have := X.root e he
    unfold Tr at this ⊢
    show w'.st.EOK (follow _ (w'.pipe e)) ∧ _
    rw [hc _ (Or.inr ⟨e, he, rfl⟩)]; exact this
  · exact X.assocs
  · exact X.temp
  · show w'.users = _
    rw [X.eff.users, B.users, X.eff.pipe]
  · show w'.vars = _
    rw [X.eff.vars, B.vars, X.eff.pipe]
  · exact B.varR
  · exact X.varE
  · exact X.chk.trans B.chk

/-- The forwarding pointers that were there before. -/
theorem Swapped.fwd_old {a t} (h : w.fwd a = some t) : w'.fwd a = some t := by
  rw [X.eff.fwdO, h]
  intro hm
  obtain ⟨n, _, h1, _⟩ := (X.eff.rem a).1 hm
  rw [B.sim.fw.live h1] at h; cases h

omit B in
theorem Swapped.fwd_new {a t} (h : w'.fwd a = some t) : (a ∈ R ∧ t.id = w.st.ord.indexToId (i + 1) ∧ w'.st.EOK t ∧ ab' t.addr = ab a) ∨
    (a ∉ R ∧ w.fwd a = some t) := by
  by_cases hm : a ∈ R
  · obtain ⟨g, h1, h2⟩ := X.eff.fwdR a hm
    obtain ⟨m, h3, h4, h5⟩ := h2 (X.live a hm)
    rw [h1] at h; cases h
    exact Or.inl ⟨hm, rfl, Or.inr ⟨m, h3, h4⟩, h5⟩
  · exact Or.inr ⟨hm, by rw [← X.eff.fwdO a hm]; exact h⟩

/-- The function of a node that is not touched. -/
theorem Swapped.dep {t : Edge} {v : Nat} (hE : w.st.EOK t) (h1 : t.id ≠ w.st.ord.indexToId i) (h2 : t.id ≠ w.st.ord.indexToId (i + 1))
    (h : ∀ δ, Lab d.st δ → ¬ Indep (δ (ab t.addr)) v) : ∀ δ, Lab d'.st δ → ¬ Indep (δ (ab' t.addr)) v := by
  rcases id hE with ⟨h3, h4⟩ | ⟨n, hn, hv⟩
  · obtain ⟨δ, hδ⟩ := B.r.inv.w.exists_lab
    refine absurd ?_ (h δ hδ)
    intro ρ b
    rw [h4, B.sim.zero, hδ.const]
  · obtain ⟨n', m1, m2, _⟩ := B.sim.node _ _ hn
    have m3 := X.eff.keepD _ n' m1 (by rw [m2, hv]; exact h2) (fun h => absurd (by rw [← hv, ← m2, h]) h1)
    have hf : follow w' t = t := X.sim.fw.follow (X.keepE hE h1 h2)
    obtain ⟨_, m4⟩ := X.eff.after t hE (Or.inr (by rw [m3]; simp))
    rw [hf] at m4
    have m5 : ab' t.addr = ab t.addr := congrArg Edge.addr m4
    intro δ' l'
    obtain ⟨δ, hδ⟩ := B.r.inv.w.exists_lab
    obtain ⟨δ1, k1, k2⟩ := X.fns δ hδ
    rw [m5, Df.lab_unique X.r.inv.w l' k1 m3, k2 _ (by rw [m1]; simp)]
    exact h δ hδ

end

/-! ## A step down -/

section
variable {ext : Nat → Nat} {δ0 : Nat → BFn} {d0 : Df.St} {Root : Edge → Prop} {u0 v0 : Nat → Option Edge}
variable {w : St} {d : Df.St} {ab : Nat → Nat} {v c s hi : Nat}

theorem down_step (B : BInv ext δ0 d0 Root u0 v0 w d ab) (p : Ph Root true v c s hi w d ab) (hs : s ≤ c) (hc : c + 1 < w.st.ord.numVars) :
    ∃ w' d' ab', swap w c false = some w' ∧ BInv ext δ0 d0 Root u0 v0 w' d' ab' ∧ Ph Root true v (c + 1) s hi w' d' ab' ∧
      (∀ a n, w'.st.heap a = some n → c ≤ w'.st.ord.lvl n.var → w'.st.EOK n.thn ∧ w'.st.EOK n.els) ∧
      w'.st.ord.numVars = w.st.ord.numVars ∧ Df.exchange d (d.st.ord.indexToId c) = some d' := by
  have W := B.ordWF
  have lx := W.lvl_indexToId (k := c) (by omega)
  have ly := W.lvl_indexToId (k := c + 1) hc
  obtain ⟨w', d', ab', R, e1, X⟩ := B.swap (i := c) hc (flag := false)
    (fun a n hn hv => p.low a n hn (by rw [hv, ly]; omega))
    (fun a n hn hv e he => Or.inl (by
      have := p.low a n hn (by rw [hv, lx]; omega)
      rcases he with rfl | rfl
      · exact this.1
      · exact this.2))
  have hl := X.low B hc (fun a n hn h => p.low a n hn (by omega))
  have hne : w.st.ord.indexToId c ≠ w.st.ord.indexToId (c + 1) := X.adj.ne
  have hidx := p.idx
  have hlist : w'.list v = R.reverse ++ w.list v := by rw [X.eff.list, hidx, upd_same]
  have olist : ∀ u, u ≠ v → w'.list u = w.list u := by
    intro u hu; rw [X.eff.list, hidx, upd_ne _ _ hu]
  -- the targets of the old list are above
  have tgtE : ∀ a t, a ∈ w.list v → w.fwd a = some t →
      w.st.EOK t ∧ w.st.ord.lvl t.id < c ∧ t.id ≠ w.st.ord.indexToId c ∧ t.id ≠ w.st.ord.indexToId (c + 1) := by
    intro a t ha ht
    obtain ⟨t', h1, h2, h3, _⟩ := p.lst a ha
    rw [ht] at h1; cases h1
    refine ⟨h2, h3, ?_, ?_⟩ <;> intro h <;> rw [h] at h3 <;> omega
  have hcf : ∀ e, Trk Root w' e → follow w' e = follow w' (follow w e) := by
    intro e he
    cases ht : w.fwd e.addr with
    | none => rw [follow_none ht]
    | some t =>
      have ht' := X.fwd_old B ht
      have hne' : ¬ w'.st.EOK e := fun h => by rw [X.sim.fw.eok h] at ht'; cases ht'
      have ho := X.trk_old he hne'
      have hm := (p.tgt e t ho ht).resolve_left (by simp)
      obtain ⟨h2, _, h3, h4⟩ := tgtE _ _ hm ht
      rw [follow_some ht, follow_some ht', follow_none]
      exact X.sim.fw.eok (X.keepE h2 h3 h4)
  have eq : ({ w' with fwd := w'.fwd, list := w'.list } : St) = w' := rfl
  have B' := X.binv B (f := w'.fwd) (l := w'.list) X.sim.fw hcf
  have W' : w'.st.ord.WF := by have := B'.ordWF; exact this
  have hnv : w'.st.ord.numVars = w.st.ord.numVars := by rw [X.ord]; rfl
  refine ⟨w', d', ab', e1, B', ⟨?_, by omega, fun a n hn h => hl a n hn (by omega), ?_, ?_, ?_, ?_, ?_⟩, hl, hnv, X.ex⟩
  · rw [X.ord]
    have := W.right c (by omega)
    simp only [Df.swapOrder, this]
    rw [upd_same]; exact hidx
  · intro e t he ht
    right
    rw [hlist]
    rcases X.fwd_new ht with ⟨hm, _⟩ | ⟨_, hf⟩
    · exact List.mem_append_left _ (List.mem_reverse.2 hm)
    · have hne' : ¬ w'.st.EOK e := fun h => by rw [X.sim.fw.eok h] at ht; cases ht
      exact List.mem_append_right _ ((p.tgt e t (X.trk_old he hne') hf).resolve_left (by simp))
  · intro a ha
    rw [hlist] at ha
    rcases List.mem_append.1 ha with ha | ha
    · have hm := List.mem_reverse.1 ha
      obtain ⟨g, h1, h2⟩ := X.eff.fwdR a hm
      obtain ⟨m, h3, h4, h5⟩ := h2 (X.live a hm)
      have lv' : w'.st.ord.lvl (w.st.ord.indexToId (c + 1)) = c := by
        rw [X.lvl B, if_neg (Ne.symm hne), if_pos rfl, lx]
      refine ⟨_, h1, Or.inr ⟨m, h3, h4⟩, by show w'.st.ord.lvl (w.st.ord.indexToId (c + 1)) < c + 1; omega,
        by show s ≤ w'.st.ord.lvl (w.st.ord.indexToId (c + 1)); omega, ?_⟩
      intro δ' l'
      obtain ⟨δ, hδ⟩ := B.r.inv.w.exists_lab
      obtain ⟨δ1, k1, k2⟩ := X.fns δ hδ
      obtain ⟨n, n', m1, m2, m3, m4⟩ := (X.eff.rem a).1 hm
      obtain ⟨n'', m5, m6, _⟩ := B.sim.node _ _ m1
      rw [m3] at m5; cases m5
      show ¬ Indep (δ' (ab' g)) v
      cases hh : d'.st.heap (ab a) with
      | none => exact absurd hh (X.live a hm)
      | some q =>
        rw [h5, Df.lab_unique X.r.inv.w l' k1 hh, k2 _ (by rw [m3]; simp)]
        have := Df.dep_self B.r.inv.w hδ m3
        rw [m6, m2, hidx] at this
        exact this
    · obtain ⟨t, h1, h2, h3, h4, h5⟩ := p.lst a ha
      obtain ⟨_, _, q1, q2⟩ := tgtE a t ha h1
      have : w'.st.ord.lvl t.id = w.st.ord.lvl t.id := by rw [X.lvl B, if_neg q1, if_neg q2]
      exact ⟨t, X.fwd_old B h1, X.keepE h2 q1 q2, by omega, by omega, X.dep B h2 q1 q2 h5⟩
  · rw [hlist]
    have lR : ∀ a t, a ∈ R → w'.fwd a = some t → w'.st.ord.lvl t.id = c := by
      intro a t ha ht
      rcases X.fwd_new ht with ⟨_, h, _⟩ | ⟨h, _⟩
      · rw [h, X.lvl B, if_neg (Ne.symm hne), if_pos rfl, lx]
      · exact absurd ha h
    have lO : ∀ a t, a ∈ w.list v → w'.fwd a = some t → w.fwd a = some t ∧ w'.st.ord.lvl t.id = w.st.ord.lvl t.id ∧ w.st.ord.lvl t.id < c := by
      intro a t ha ht
      obtain ⟨t', h1, _⟩ := p.lst a ha
      have := X.fwd_old B h1
      rw [ht] at this; cases this
      obtain ⟨_, q0, q1, q2⟩ := tgtE a t ha h1
      exact ⟨h1, by rw [X.lvl B, if_neg q1, if_neg q2], q0⟩
    refine List.pairwise_append.2 ⟨?_, ?_, ?_⟩
    · refine List.Pairwise.imp_of_mem ?_ (List.pairwise_of_forall (R := fun _ _ => True) (fun _ _ => trivial))
      intro a b ha hb _ t u ht hu
      rw [lR a t (List.mem_reverse.1 ha) ht, lR b u (List.mem_reverse.1 hb) hu]
      exact Nat.le_refl _
    · refine List.Pairwise.imp_of_mem ?_ p.srt
      intro a b ha hb hr t u ht hu
      obtain ⟨k1, k2, _⟩ := lO a t ha ht
      obtain ⟨k3, k4, _⟩ := lO b u hb hu
      rw [k2, k4]; exact hr t u k1 k3
    · intro a ha b hb t u ht hu
      obtain ⟨k3, k4, k5⟩ := lO b u hb hu
      rw [lR a t (List.mem_reverse.1 ha) ht, k4]; omega
  · rw [hlist]
    refine List.nodup_append.2 ⟨(List.reverse_perm _).nodup_iff.2 X.eff.nodup, p.nd, ?_⟩
    intro a ha b hb hab
    subst hab
    obtain ⟨n, _, h1, _⟩ := (X.eff.rem a).1 (List.mem_reverse.1 ha)
    obtain ⟨t, h2, _⟩ := p.lst a hb
    rw [B.sim.fw.live h1] at h2; cases h2
  · intro u hu
    by_cases h : u = v
    · exact Or.inl h
    · rw [olist u h] at hu
      exact absurd ((p.sup u hu).resolve_right (by simp)) h

end

/-! ## A step up -/

/-- A node whose function depends on the next variable has a child of it. -/
theorem hasY_of_dep {s : Store} {x y : Nat} (A : Df.Adj s x y) {δ : Nat → BFn} (l : Lab s δ) {a n} (h : s.heap a = some n)
    (hv : n.var = x) (hd : ¬ Indep (δ a) y) : Df.HasY s y n := by
  by_cases hh : Df.HasY s y n
  · exact hh
  · refine absurd ?_ hd
    have P := A.w
    have key : ∀ e, Df.Below s (s.ord.lvl n.var) e → (∀ m, s.heap e.addr = some m → m.var ≠ y) → Indep (den δ e) y := by
      intro e hb hy
      rw [hv] at hb
      apply Df.kid_indep P l
      rcases A.low_of hb hy with h0 | ⟨m, hm, hl⟩
      · exact Or.inl h0
      · exact Or.inr ⟨m, hm, by have := A.lv; omega⟩
    have k1 := key _ (P.thn_lo a n h) (fun m hm hv => hh (Or.inl ⟨m, hm, hv⟩))
    have k0 := key _ (P.els_lo a n h) (fun m hm hv => hh (Or.inr ⟨m, hm, hv⟩))
    intro ρ b
    rw [l.node a n h, l.node a n h, upd_ne _ _ (by rw [hv]; exact A.ne), k1, k0]

theorem shorten_spec : ∀ (l : List Nat) (w : St), l.Nodup → (∀ a, a ∈ l → ∃ t, w.fwd a = some t) →
    (∀ a t, a ∈ l → w.fwd a = some t → t.addr ∉ l) →
    ∃ pre post, l = pre ++ post ∧
      shorten l w = some ({ w with fwd := fun a => if a ∈ pre then (w.fwd a).map (follow w) else w.fwd a }, post) ∧
      (∀ a t, a ∈ pre → w.fwd a = some t → (w.fwd t.addr).isSome) ∧
      (∀ a t, post.head? = some a → w.fwd a = some t → w.fwd t.addr = none) := by
  intro l
  induction l with
  | nil =>
    intro w _ _ _
    exact ⟨[], [], rfl, by simp [shorten], by simp, by simp⟩
  | cons a as ih =>
    intro w hnd hf hd
    obtain ⟨t, ht⟩ := hf a (by simp)
    by_cases hs : (w.fwd t.addr).isSome
    · have hta := hd a t (by simp) ht
      let w1 : St := { w with fwd := upd w.fwd a (some (follow w t)) }
      have hne : ∀ b, b ∈ as → b ≠ a := fun b hb h => (List.nodup_cons.1 hnd).1 (h ▸ hb)
      have f1 : ∀ b, b ≠ a → w1.fwd b = w.fwd b := fun b hb => upd_ne _ _ hb
      obtain ⟨pre, post, e1, e2, e3, e4⟩ := ih w1 (List.nodup_cons.1 hnd).2
        (fun b hb => by rw [f1 b (hne b hb)]; exact hf b (by simp [hb]))
        (fun b u hb hu => by
          rw [f1 b (hne b hb)] at hu
          have := hd b u (by simp [hb]) hu
          exact fun h => this (by simp [h]))
      have hpre : ∀ b, b ∈ pre → b ∈ as := fun b hb => by rw [e1]; simp [hb]
      have hpost : ∀ b, b ∈ post → b ∈ as := fun b hb => by rw [e1]; simp [hb]
      have nin : ∀ b u, b ∈ as → w.fwd b = some u → u.addr ≠ a := by
        intro b u hb hu h
        exact hd b u (by simp [hb]) hu (by simp [h])
      refine ⟨a :: pre, post, by simp [e1], ?_, ?_, ?_⟩
      · rw [shorten, ht]
        simp only [hs, if_true]
        rw [e2]
        congr 2
        show ({ w with fwd := _ } : St) = _
        congr 1
        funext b
        by_cases hb : b = a
        · subst hb
          have : b ∉ pre := fun h => hne b (hpre b h) rfl
          simp [this, w1, ht]
        · by_cases hp : b ∈ pre
          · have hm : b ∈ a :: pre := by simp [hp]
            rw [if_pos hp, if_pos hm, f1 b hb]
            obtain ⟨u, hu⟩ := hf b (by simp [hpre b hp])
            rw [hu]
            simp only [Option.map_some]
            congr 1
            have hx : w1.fwd u.addr = w.fwd u.addr := f1 _ (nin b u (hpre b hp) hu)
            unfold follow; rw [hx]
          · rw [if_neg hp, if_neg (by simp [hb, hp]), f1 b hb]
      · intro b u hb hu
        rcases List.mem_cons.1 hb with rfl | hb
        · rw [ht] at hu; cases hu; exact hs
        · have := e3 b u hb (by rw [f1 b (hne b (hpre b hb))]; exact hu)
          rwa [f1 _ (nin b u (hpre b hb) hu)] at this
      · intro b u hb hu
        have hbm : b ∈ as := hpost b (List.mem_of_mem_head? hb)
        have := e4 b u hb (by rw [f1 b (hne b hbm)]; exact hu)
        rwa [f1 _ (nin b u hbm hu)] at this
    · refine ⟨[], a :: as, rfl, ?_, by simp, ?_⟩
      · rw [shorten, ht]
        simp only [hs]
        simp
      · intro b u hb hu
        simp at hb; subst hb
        rw [ht] at hu; cases hu
        simpa using hs

section
variable {ext : Nat → Nat} {δ0 : Nat → BFn} {d0 : Df.St} {Root : Edge → Prop} {u0 v0 : Nat → Option Edge}
variable {w : St} {d : Df.St} {ab : Nat → Nat} {v i s hi : Nat}

theorem up_step (B : BInv ext δ0 d0 Root u0 v0 w d ab) (p : Ph Root false v (i + 1) s hi w d ab) (hhi : i + 1 ≤ hi) :
    ∃ w' w2 d' ab', swap w i true = some w' ∧ fixForwarding w' (w'.st.ord.indexToId i) = some w2 ∧
      BInv ext δ0 d0 Root u0 v0 w2 d' ab' ∧ Ph Root false v i s hi w2 d' ab' ∧ (i + 1 ≤ s → w2 = w') ∧
      w2.st.ord.numVars = w.st.ord.numVars ∧ Df.exchange d (d.st.ord.indexToId i) = some d' := by
  have W := B.ordWF
  have hc := p.lt
  have lx := W.lvl_indexToId (k := i) (by omega)
  have ly := W.lvl_indexToId (k := i + 1) hc
  have hidx := p.idx
  rw [hidx] at ly
  have hx : ∀ a n, w.st.heap a = some n → n.var = w.st.ord.indexToId i → ∀ e, e = n.thn ∨ e = n.els →
      w.st.EOK e ∨ (true = true ∧ (follow w e).id = w.st.ord.indexToId (i + 1)) := by
    intro a n hn hv e he
    have hT : Trk Root w e := Or.inl ⟨a, n, hn, he⟩
    cases ht : w.fwd e.addr with
    | none =>
      left
      have := B.trk hT
      rwa [follow_none ht] at this
    | some t =>
      right
      refine ⟨rfl, ?_⟩
      rcases p.tgt e t hT ht with ⟨_, h⟩ | h
      · rw [follow_some ht, hidx]; exact h
      · exfalso
        obtain ⟨t', h1, _, h3, _⟩ := p.lst _ h
        rw [ht] at h1; cases h1
        have := B.kid_lvl hn he
        rw [follow_some ht, hv, lx] at this
        have : i < w.st.ord.lvl t.id := this
        omega
  obtain ⟨w', d', ab', R, e1, X⟩ := B.swap (i := i) hc (flag := true)
    (fun a n hn hv => p.low a n hn (by rw [hv, hidx, ly]; omega)) hx
  have A := X.adj
  have hl := X.low B hc (fun a n hn h => p.low a n hn (by omega))
  have hne : w.st.ord.indexToId i ≠ v := by have := A.ne; rw [hidx] at this; exact this
  have hlist : w'.list v = w.list v := by rw [X.eff.list, upd_ne _ _ (Ne.symm hne)]
  have idx' : w'.st.ord.indexToId i = v := by
    rw [X.ord]
    have := W.right i (by omega)
    simp only [Df.swapOrder, this]
    rw [upd_ne _ _ (by omega), upd_same]; exact hidx
  have hnv : w'.st.ord.numVars = w.st.ord.numVars := by rw [X.ord]; rfl
  -- targets of the list that are at index i are forwarded now
  have tR : ∀ a t, a ∈ w.list v → w.fwd a = some t → (t.addr ∈ R ↔ w.st.ord.lvl t.id = i) ∧ w.st.EOK t ∧
      w.st.ord.lvl t.id < i + 1 ∧ t.id ≠ v := by
    intro a t ha ht
    obtain ⟨t', h1, h2, h3, h4, h5⟩ := p.lst a ha
    rw [ht] at h1; cases h1
    refine ⟨⟨?_, ?_⟩, h2, h3, fun h => by rw [h] at h3; omega⟩
    · intro hm
      obtain ⟨n, _, m1, m2, _⟩ := (X.eff.rem _).1 hm
      rcases h2 with ⟨_, h0⟩ | ⟨n', hn', hv'⟩
      · rw [h0] at m1
        obtain ⟨q, q1, _⟩ := B.sim.node _ _ m1
        rw [B.sim.zero, B.r.inv.w.heap0] at q1; cases q1
      · rw [m1] at hn'; cases hn'
        rw [← hv', m2, lx]
    · intro hlv
      rcases h2 with ⟨h0, _⟩ | ⟨n, hn, hv⟩
      · have := const_lvl W (k := i) (by omega)
        rw [h0] at hlv; omega
      · have hr := B.sim.var_range B.r.inv.w hn
        have hvx : n.var = w.st.ord.indexToId i := lvl_inj W hr (W.id_range i (by omega)) (by rw [hv, hlv, lx])
        obtain ⟨n', m1, m2, _⟩ := B.sim.node _ _ hn
        obtain ⟨δ, hδ⟩ := B.r.inv.w.exists_lab
        exact (X.eff.rem _).2 ⟨n, n', hn, hvx, m1, hasY_of_dep A hδ m1 (by rw [m2, hvx]) (by rw [hidx]; exact h5 δ hδ)⟩
  -- which targets are forwarded after the exchange
  have tF : ∀ a t, a ∈ w.list v → w.fwd a = some t → ((w'.fwd t.addr).isSome ↔ t.addr ∈ R) := by
    intro a t ha ht
    obtain ⟨_, h2, _⟩ := tR a t ha ht
    constructor
    · intro h
      obtain ⟨u, hu⟩ := Option.isSome_iff_exists.1 h
      rcases X.fwd_new hu with ⟨h3, _⟩ | ⟨_, h3⟩
      · exact h3
      · rw [B.sim.fw.eok h2] at h3; cases h3
    · intro h
      obtain ⟨g, h1, _⟩ := X.eff.fwdR _ h
      rw [h1]; rfl
  have hfl : ∀ a, a ∈ w.list v → ∃ t, w.fwd a = some t ∧ w'.fwd a = some t := fun a ha => by
    obtain ⟨t, h1, _⟩ := p.lst a ha
    exact ⟨t, h1, X.fwd_old B h1⟩
  have hdis : ∀ a t, a ∈ w.list v → w'.fwd a = some t → t.addr ∉ w.list v := by
    intro a t ha ht hm
    obtain ⟨t', h1, h2⟩ := hfl a ha
    rw [ht] at h2; cases h2
    obtain ⟨_, h3, _⟩ := tR a t ha h1
    obtain ⟨u, h4, _⟩ := hfl _ hm
    rw [B.sim.fw.eok h3] at h4; cases h4
  obtain ⟨pre, post, s1, s2, s3, s4⟩ := shorten_spec (w'.list v) w' (by rw [hlist]; exact p.nd)
    (fun a ha => by obtain ⟨t, _, h⟩ := hfl a (by rw [← hlist]; exact ha); exact ⟨t, h⟩)
    (fun a t ha ht => by rw [hlist] at ha ⊢; exact hdis a t ha ht)
  rw [hlist] at s1
  have hpre : ∀ a, a ∈ pre → a ∈ w.list v := fun a h => by rw [s1]; simp [h]
  have hpost : ∀ a, a ∈ post → a ∈ w.list v := fun a h => by rw [s1]; simp [h]
  have hpp : ∀ a, a ∈ pre → a ∉ post := by
    intro a h h'
    have := p.nd; rw [s1] at this
    exact (List.nodup_append.1 this).2.2 a h a h' rfl
  -- the targets of the rest of the list are above i
  have s5 : ∀ a t, a ∈ post → w.fwd a = some t → w.st.ord.lvl t.id < i := by
    intro a t ha ht
    cases hp : post with
    | nil => rw [hp] at ha; cases ha
    | cons b bs =>
      obtain ⟨u, hu, hu'⟩ := hfl b (hpost b (by rw [hp]; simp))
      have hb := hpost b (by rw [hp]; simp)
      have n1 := s4 b u (by rw [hp]; rfl) hu'
      obtain ⟨q1, q2, q3, _⟩ := tR b u hb hu
      have n2 : u.addr ∉ R := fun h => by have := (tF b u hb hu).2 h; rw [n1] at this; cases this
      have n3 : w.st.ord.lvl u.id < i := by
        have : w.st.ord.lvl u.id ≠ i := fun h => n2 (q1.2 h)
        omega
      rw [hp] at ha
      rcases List.mem_cons.1 ha with rfl | ha
      · rw [hu] at ht; cases ht; exact n3
      · have hs := p.srt
        rw [s1, hp] at hs
        have := (List.pairwise_cons.1 (List.pairwise_append.1 hs).2.1).1 a ha u t hu ht
        omega
  let f2 : Nat → Option Edge := fun a => if a ∈ pre then (w'.fwd a).map (follow w') else w'.fwd a
  let l2 : Nat → List Nat := upd w'.list v post
  have e2 : fixForwarding w' (w'.st.ord.indexToId i) = some { w' with fwd := f2, list := l2 } := by
    unfold fixForwarding
    have he : w'.ends v = false := by rw [X.eff.ends]; exact B.ends v
    rw [idx', he, s2]
    rfl
  -- what a forwarding node in the first part now leads to
  have fpre : ∀ a, a ∈ pre → ∃ t u, w.fwd a = some t ∧ w'.fwd t.addr = some u ∧ f2 a = some (u.phase t.neg) ∧ u.id = v ∧ t.addr ∈ R := by
    intro a ha
    obtain ⟨t, h1, h2⟩ := hfl a (hpre a ha)
    have h3 := s3 a t ha h2
    obtain ⟨u, hu⟩ := Option.isSome_iff_exists.1 h3
    have hm := (tF a t (hpre a ha) h1).1 h3
    refine ⟨t, u, h1, hu, ?_, ?_, hm⟩
    · show (if a ∈ pre then _ else _) = _
      rw [if_pos ha, h2, Option.map_some, follow_some hu]
    · rcases X.fwd_new hu with ⟨_, h, _⟩ | ⟨h, _⟩
      · rw [h, hidx]
      · exact absurd hm h
  have fother : ∀ a, a ∉ pre → f2 a = w'.fwd a := fun a h => if_neg h
  have F2 : FwOK { w' with fwd := f2, list := l2 } := by
    refine ⟨X.sim.fw.fr, ?_⟩
    intro a t ht
    have ht : f2 a = some t := ht
    by_cases ha : a ∈ pre
    · obtain ⟨t0, u, h1, h2, h3, _⟩ := fpre a ha
      have k1 := X.sim.fw.fw a t0 (X.fwd_old B h1)
      have k2 := X.sim.fw.fw _ u h2
      rw [h3] at ht; cases ht
      refine ⟨k1.1, k1.2.1, k1.2.2.1, k1.2.2.2.1, ?_⟩
      simp [Edge.phase, k1.2.2.2.2, k2.2.2.2.2]
    · rw [fother a ha] at ht
      exact X.sim.fw.fw a t ht
  have hcf : ∀ e, Trk Root w' e → follow { w' with fwd := f2, list := l2 } e = follow w' (follow w e) := by
    intro e he
    cases ht : w.fwd e.addr with
    | none =>
      rw [follow_none ht]
      have hp : e.addr ∉ pre := fun h => by
        obtain ⟨t, h1, _⟩ := hfl _ (hpre _ h)
        rw [ht] at h1; cases h1
      show (match f2 e.addr with | some t => t.phase e.neg | none => e) = _
      rw [fother _ hp]
      rfl
    | some t =>
      have ht' := X.fwd_old B ht
      have hne' : ¬ w'.st.EOK e := fun h => by rw [X.sim.fw.eok h] at ht'; cases ht'
      have ho := X.trk_old he hne'
      by_cases hp : e.addr ∈ pre
      · obtain ⟨t', u, h1, h2, h3, _⟩ := fpre _ hp
        rw [ht] at h1; cases h1
        rw [follow_some ht, follow_phase, follow_some h2]
        exact follow_some (w := { w' with fwd := f2, list := l2 }) h3
      · have hf : f2 e.addr = some t := by rw [fother _ hp]; exact ht'
        rw [follow_some ht, follow_some (w := { w' with fwd := f2, list := l2 }) hf, follow_none]
        show w'.fwd t.addr = none
        have hE := B.target ho ht
        rcases p.tgt e t ho ht with ⟨_, h⟩ | h
        · cases hq : w'.fwd t.addr with
          | none => rfl
          | some u =>
            exfalso
            rcases X.fwd_new hq with ⟨h3, _⟩ | ⟨_, h3⟩
            · obtain ⟨n, _, m1, m2, _⟩ := (X.eff.rem _).1 h3
              rcases hE with ⟨h0, _⟩ | ⟨n', hn', hv'⟩
              · rw [h] at h0; rw [h0] at hidx
                have := (W.id_range (i + 1) hc).1; omega
              · rw [m1] at hn'; cases hn'
                exact hne (by rw [← m2, hv', h])
            · rw [B.sim.fw.eok hE] at h3; cases h3
        · have hm : e.addr ∈ post := by
            rw [s1] at h
            exact (List.mem_append.1 h).resolve_left hp
          cases hq : w'.fwd t.addr with
          | none => rfl
          | some u =>
            have := (tR _ t h ht).1.1 ((tF _ t h ht).1 (by rw [hq]; rfl))
            have := s5 _ t hm ht
            omega
  have B2 := X.binv B F2 hcf
  -- the levels of the other variables
  have olv : ∀ t : Edge, w.st.ord.lvl t.id < i → t.id ≠ w.st.ord.indexToId i ∧ t.id ≠ w.st.ord.indexToId (i + 1) ∧
      w'.st.ord.lvl t.id = w.st.ord.lvl t.id := by
    intro t ht
    have q1 : t.id ≠ w.st.ord.indexToId i := fun h => by rw [h, lx] at ht; omega
    have q2 : t.id ≠ w.st.ord.indexToId (i + 1) := fun h => by rw [h, hidx, ly] at ht; omega
    exact ⟨q1, q2, by rw [X.lvl B, if_neg q1, if_neg q2]⟩
  have l2v : l2 v = post := upd_same _ _ _
  have fpost : ∀ a, a ∈ post → ∃ t, w.fwd a = some t ∧ f2 a = some t := by
    intro a ha
    obtain ⟨t, h1, h2⟩ := hfl a (hpost a ha)
    exact ⟨t, h1, by rw [fother a (fun h => hpp a h ha)]; exact h2⟩
  refine ⟨w', _, d', ab', e1, e2, B2, ⟨idx', by show i < w'.st.ord.numVars; omega, hl, ?_, ?_, ?_, ?_, ?_⟩, ?_, hnv, X.ex⟩
  · intro e t he ht
    have ht : f2 e.addr = some t := ht
    show _ ∨ e.addr ∈ l2 v
    rw [l2v]
    by_cases hp : e.addr ∈ pre
    · obtain ⟨t0, u, _, _, h3, h4, _⟩ := fpre _ hp
      rw [h3] at ht; cases ht
      exact Or.inl ⟨rfl, h4⟩
    · rw [fother _ hp] at ht
      rcases X.fwd_new ht with ⟨_, h, _⟩ | ⟨_, hf⟩
      · exact Or.inl ⟨rfl, by rw [h, hidx]⟩
      · have hne' : ¬ w'.st.EOK e := fun h => by rw [X.sim.fw.eok h] at ht; cases ht
        rcases p.tgt e t (X.trk_old he hne') hf with h | h
        · exact Or.inl h
        · rw [s1] at h
          exact Or.inr ((List.mem_append.1 h).resolve_left hp)
  · intro a ha
    have ha : a ∈ l2 v := ha
    rw [l2v] at ha
    obtain ⟨t, h1, h2⟩ := fpost a ha
    have h3 := s5 a t ha h1
    obtain ⟨q1, q2, q3⟩ := olv t h3
    obtain ⟨t', k1, k2, k3, k4, k5⟩ := p.lst a (hpost a ha)
    rw [h1] at k1; cases k1
    exact ⟨t, h2, X.keepE k2 q1 q2, by show w'.st.ord.lvl t.id < i; omega, by show s ≤ w'.st.ord.lvl t.id; omega, X.dep B k2 q1 q2 k5⟩
  · show (l2 v).Pairwise _
    rw [l2v]
    have hs := p.srt
    rw [s1] at hs
    refine List.Pairwise.imp_of_mem ?_ (List.pairwise_append.1 hs).2.1
    intro a b ha hb hr t u ht hu
    obtain ⟨t', h1, h2⟩ := fpost a ha
    obtain ⟨u', h3, h4⟩ := fpost b hb
    have ht : f2 a = some t := ht
    have hu : f2 b = some u := hu
    rw [h2] at ht; cases ht
    rw [h4] at hu; cases hu
    show w'.st.ord.lvl u.id ≤ w'.st.ord.lvl t.id
    rw [(olv t (s5 a t ha h1)).2.2, (olv u (s5 b u hb h3)).2.2]
    exact hr t u h1 h3
  · show (l2 v).Nodup
    rw [l2v]
    have := p.nd; rw [s1] at this
    exact (List.nodup_append.1 this).2.1
  · intro u hu
    by_cases huv : u = v
    · exact Or.inl huv
    · right
      refine ⟨rfl, ?_⟩
      have hu : l2 u ≠ [] := hu
      have : l2 u = w'.list u := upd_ne _ _ huv
      rw [this] at hu
      show ∃ j, u = w'.st.ord.indexToId j ∧ i < j ∧ j ≤ hi ∧ j < w'.st.ord.numVars
      have hr := W.right i (by omega)
      by_cases hux : u = w.st.ord.indexToId i
      · refine ⟨i + 1, ?_, by omega, hhi, by omega⟩
        rw [X.ord, hux]
        simp only [Df.swapOrder, hr]
        rw [upd_same]
      · rw [X.eff.list, upd_ne _ _ hux] at hu
        obtain ⟨_, j, h1, h2, h3, h4⟩ := (p.sup u hu).resolve_left huv
        refine ⟨j, ?_, by omega, h3, by omega⟩
        rw [X.ord, h1]
        simp only [Df.swapOrder, hr]
        rw [upd_ne _ _ (by omega), upd_ne _ _ (by omega)]
  · intro hs
    have hnil : w.list v = [] := by
      cases hq : w.list v with
      | nil => rfl
      | cons a as =>
        obtain ⟨t, _, _, h3, h4, _⟩ := p.lst a (by rw [hq]; simp)
        omega
    rw [hnil] at s1
    have s1' := List.append_eq_nil_iff.1 s1.symm
    have hf : f2 = w'.fwd := by
      funext a
      exact fother a (by rw [s1'.1]; simp)
    have hl2 : l2 = w'.list := by
      funext u
      by_cases huv : u = v
      · rw [huv, l2v, s1'.2, hlist, hnil]
      · exact upd_ne _ _ huv
    rw [hf, hl2]

end

end Bfr

end Cal
