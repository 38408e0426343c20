import Verif.BfRec

/-!
# Packing the nodes of several ids

`CalBddPackNodesForMultipleIds` copies the nodes of the ids of one window, from the last to the first, to new
pages. The children, the user pointers, `varBdds` and the association values are redirected as it goes along.
-/

namespace Cal

namespace Bfr

open Df (Fr PWF)

/-- Without the variables. -/
def sv (w : St) (f : Nat → Option Edge) : St := { w with vars := f }

theorem copyNodes_sv (f : Nat → Option Edge) (id : Nat) : ∀ (as : List Nat) (w : St),
    copyNodes id as (sv w f) = (copyNodes id as w).map fun r => (sv r.1 f, r.2) := by
  intro as
  induction as with
  | nil => intro w; rfl
  | cons a as ih =>
    intro w
    rw [copyNodes, copyNodes]
    show (match w.st.heap a with | none => none | some n => _) = _
    cases w.st.heap a with
    | none => rfl
    | some n =>
      simp only
      have := ih { w with
        st := { (w.st.alloc id).2 with
          heap := upd (upd (w.st.alloc id).2.heap (w.st.alloc id).1 (some n)) a none
          ref := upd (w.st.alloc id).2.ref (w.st.alloc id).1 ((w.st.alloc id).2.ref a) }
        fwd := upd (upd w.fwd (w.st.alloc id).1 none) a (some ⟨id, (w.st.alloc id).1, false⟩) }
      rw [show ∀ w f, sv w f = { w with vars := f } from fun _ _ => rfl] at this ⊢
      simp only at this ⊢
      rw [this]
      cases copyNodes id as _ with
      | none => rfl
      | some r => rfl

theorem packId_sv (f : Nat → Option Edge) (id : Nat) (w : St) : packId (sv w f) id = (packId w id).map (sv · f) := by
  unfold packId
  have := copyNodes_sv f id (w.st.tab id) { w with st := { w.st with free := upd w.st.free id [] } }
  have h : copyNodes id ((sv w f).st.tab id) { sv w f with st := { (sv w f).st with free := upd (sv w f).st.free id [] } } = _ := this
  rw [h]
  cases copyNodes id (w.st.tab id) { w with st := { w.st with free := upd w.st.free id [] } } with
  | none => rfl
  | some r => rfl

theorem packLevels_sv (P : Par) (f : Nat → Option Edge) : ∀ (k i : Nat) (done : Bool) (w : St),
    packLevels P k i done (sv w f) = (packLevels P k i done w).map (sv · f) := by
  intro k
  induction k with
  | zero => intro i done w; rfl
  | succ k ih =>
    intro i done w
    rw [packLevels, packLevels]
    have h1 : (sv w f).st = w.st := rfl
    rw [h1]
    split
    · have : fixCofactors (sv w f) (w.st.ord.indexToId (i + k)) = sv (fixCofactors w (w.st.ord.indexToId (i + k))) f := rfl
      rw [this, packId_sv]
      cases packId (fixCofactors w (w.st.ord.indexToId (i + k))) (w.st.ord.indexToId (i + k)) with
      | none => rfl
      | some w1 => exact ih i true w1
    · cases done with
      | false => exact ih i false w
      | true => exact ih i true (fixCofactors w (w.st.ord.indexToId (i + k)))

section
variable {ext : Nat → Nat} {δ0 : Nat → BFn} {d0 : Df.St} {Root : Edge → Prop} {u0 v0 : Nat → Option Edge}
variable {w : St} {d : Df.St} {ab : Nat → Nat} {i j k n : Nat}

/-- The forwarded pointers point to index `m` or below. -/
def Tg (Root : Edge → Prop) (m : Nat) (w : St) : Prop := ∀ e t, Trk Root w e → w.fwd e.addr = some t → m ≤ w.st.ord.lvl t.id

/-- What copying the nodes at one index does. -/
structure Copied (id : Nat) (w w' : St) : Prop where
  eqs : w' = { w with st := w'.st, fwd := w'.fwd }
  ord : w'.st.ord = w.st.ord
  other : ∀ e, w.st.EOK e → e.id ≠ id → w'.st.EOK e
  own : ∀ e, w.st.EOK e → e.id = id → ∃ t, w'.fwd e.addr = some t ∧ w'.st.EOK t ∧ t.id = id
  old : ∀ a t, w.fwd a = some t → w'.fwd a = some t

theorem packId_spec (B : BInv ext δ0 d0 Root u0 (fun _ => none) w d ab) {m : Nat} (hm : m < w.st.ord.numVars) (L : Low m w)
    (T : Tg Root (m + 1) w) : ∃ w' ab', packId w (w.st.ord.indexToId m) = some w' ∧ BInv ext δ0 d0 Root u0 (fun _ => none) w' d ab' ∧
      Low m w' ∧ Tg Root m w' ∧ Copied (w.st.ord.indexToId m) w w' := by
  have P := B.r.inv.w
  have W := B.ordWF
  have S := B.sim
  have lv := W.lvl_indexToId hm
  have hr := W.id_range m hm
  generalize hv : w.st.ord.indexToId m = v at lv hr
  let w0 : St := { w with st := { w.st with free := upd w.st.free v [] } }
  have F0 : FwOK w0 := by
    refine ⟨⟨S.fw.fr.heap0, S.fw.fr.next_pos, S.fw.fr.heap_next, ?_, ?_, ?_⟩, ?_⟩
    · intro i
      show (upd w.st.free v [] i).Nodup
      by_cases hi : i = v
      · rw [hi, upd_same]; exact List.nodup_nil
      · rw [upd_ne _ _ hi]; exact S.fw.fr.free_nodup i
    · intro i a ha
      replace ha : a ∈ upd w.st.free v [] i := ha
      by_cases hi : i = v
      · rw [hi, upd_same] at ha; cases ha
      · rw [upd_ne _ _ hi] at ha; exact S.fw.fr.free_ok i a ha
    · intro i j a h1 h2
      replace h1 : a ∈ upd w.st.free v [] i := h1
      replace h2 : a ∈ upd w.st.free v [] j := h2
      by_cases hi : i = v
      · rw [hi, upd_same] at h1; cases h1
      · by_cases hj : j = v
        · rw [hj, upd_same] at h2; cases h2
        · rw [upd_ne _ _ hi] at h1; rw [upd_ne _ _ hj] at h2; exact S.fw.fr.free_disj i j a h1 h2
    · intro a t ht
      obtain ⟨h1, h2, h3, h4, h5⟩ := S.fw.fw a t ht
      refine ⟨h1, h2, h3, ?_, h5⟩
      intro i hi'
      replace hi' : a ∈ upd w.st.free v [] i := hi'
      by_cases hi : i = v
      · rw [hi, upd_same] at hi'; cases hi'
      · rw [upd_ne _ _ hi] at hi'; exact h4 i hi'
  have hwt : wt w0 v ([] ++ w.st.tab v) = w0 := by
    unfold wt
    show ({ w0 with st := { w0.st with tab := upd w.st.tab v ([] ++ w.st.tab v) } } : St) = w0
    rw [List.nil_append, upd_self]
  have S0 : Sim (follow w) w0 d ab :=
    ⟨S.ord, S.zero, F0, S.inj, S.sur, S.node, S.tab, S.tabW, S.ref, S.le, S.num, S.gcc, S.mat⟩
  have nd : ([] ++ w.st.tab v).Nodup := by
    rw [List.nil_append]
    have := P.tab_nodup v
    rw [S.tab] at this
    exact List.Pairwise.of_map ab (fun a b h h' => h (by rw [h'])) this
  obtain ⟨w1, bs, ab1, e1, S1, M⟩ := copyNodes_sim (w.st.tab v) [] w0 ab (follow w) (by rw [hwt]; exact S0) nd
  rw [List.nil_append] at S1
  let w2 : St := wt w1 v bs
  have hL : ∀ a, a ∈ w.st.tab v → ∃ n, w0.st.heap a = some n ∧ n.var = v := fun a ha => (S.tabW v a).1 ha
  have aft := fun r (hr : w.st.EOK r) => M.after F0 hL (r := r) hr
  have E1 : w1 = { w with st := w1.st, fwd := w1.fwd } := M.eqs
  have hp : w1.pipe = w.pipe := by rw [E1]
  have ho : w1.st.ord = w.st.ord := M.ord
  have keepE : ∀ e, w.st.EOK e → e.id ≠ v → w1.st.EOK e ∧ w1.fwd e.addr = none := by
    intro e he hne
    have hm : e.addr ∉ w.st.tab v := by
      intro h
      obtain ⟨n, hn, hv⟩ := (S.tabW v e.addr).1 h
      rcases he with ⟨_, h0⟩ | ⟨m, hm, hv'⟩
      · rw [h0, S.fw.fr.heap0] at hn; cases hn
      · rw [hn] at hm; cases hm; exact hne (hv'.symm.trans hv)
    refine ⟨?_, by rw [M.fwdO _ hm]; exact S.fw.eok he⟩
    rcases he with h | ⟨m, hm', hv'⟩
    · exact Or.inl h
    · exact Or.inr ⟨m, M.keep _ m hm hm', hv'⟩
  have hold : ∀ a t, w.fwd a = some t → w1.fwd a = some t := by
    intro a t ht
    have hnt : a ∉ w.st.tab v := by
      intro h
      obtain ⟨n, hn, _⟩ := (S.tabW v a).1 h
      rw [S.fw.live hn] at ht; cases ht
    rw [M.fwdO _ hnt]; exact ht
  have one : ∀ e, Trk Root w e → follow w1 (follow w e) = follow w1 e := by
    intro e he
    cases ht : w.fwd e.addr with
    | none => rw [follow_none ht]
    | some t =>
      have hm := T e t he ht
      have hne : t.id ≠ v := fun h => by rw [h, lv] at hm; omega
      rw [follow_some ht, follow_some (hold _ t ht), follow_none]
      exact (keepE t (B.target he ht) hne).2
  have trk1 : ∀ e, Trk Root w2 e → Trk Root w e := by
    rintro e (⟨a, n, hn, he⟩ | ⟨e0, h0, rfl⟩)
    · rcases M.back a n hn with ⟨h, _⟩ | ⟨_, c, _, h⟩
      · exact Or.inl ⟨a, n, h, he⟩
      · exact Or.inl ⟨c, n, h, he⟩
    · exact Or.inr ⟨e0, h0, by show w1.pipe e0 = _; rw [hp]⟩
  have S2 : Sim (follow w2) w2 d ab1 := S1.congr (fun a n e hn he => one e (trk1 e (Or.inl ⟨a, n, hn, he⟩)))
  refine ⟨w2, ab1, ?_, ⟨S2, B.r, B.nz, ?_, B.rootE, ?_, ?_, ?_, ?_, ?_, ?_, ?_, B.chk⟩, ?_, ?_, ⟨?_, ho, fun e h1 h2 => (keepE e h1 h2).1, ?_, hold⟩⟩
  · unfold packId
    have : copyNodes v (w.st.tab v) { w with st := { w.st with free := upd w.st.free v [] } } = some (w1, bs) := e1
    rw [this]
    rfl
  · intro u; show w1.ends u = false; rw [E1]; exact B.ends u
  · intro e he
    obtain ⟨t1, t2⟩ := B.root e he
    obtain ⟨k1, k2⟩ := aft _ t1
    show w1.st.EOK (follow w1 (w1.pipe e)) ∧ absE ab1 (follow w1 (w1.pipe e)) = _
    rw [hp, ← one _ (Or.inr ⟨e, he, rfl⟩)]
    exact ⟨k1, k2.trans t2⟩
  · show w1.assocs = d.assocs.map (mapR w1.pipe)
    rw [E1]; exact B.assocs
  · show w1.temp = mapA w1.pipe d.temp
    rw [E1]; exact B.temp
  · show w1.users = fun a => (u0 a).map w1.pipe
    rw [E1]; exact B.users
  · show w1.vars = _
    rw [E1]; exact B.vars
  · intro id e he; cases he
  · intro id e he; cases he
  · intro a n hn hl
    replace hn : w1.st.heap a = some n := hn
    replace hl : m ≤ w1.st.ord.lvl n.var := hl
    rw [ho] at hl
    have : ∃ c, w.st.heap c = some n := by
      rcases M.back a n hn with ⟨h, _⟩ | ⟨_, c, _, h⟩
      · exact ⟨_, h⟩
      · exact ⟨_, h⟩
    obtain ⟨c, hc⟩ := this
    have key : ∀ e, e = n.thn ∨ e = n.els → w.st.EOK e → w1.st.EOK e := by
      intro e he hE
      have := B.kid_lvl hc he
      rw [S.fw.follow hE] at this
      exact (keepE e hE (fun h => by rw [h, lv] at this; omega)).1
    obtain ⟨k1, k2⟩ := L c n hc hl
    exact ⟨key _ (Or.inl rfl) k1, key _ (Or.inr rfl) k2⟩
  · intro e t he ht
    replace ht : w1.fwd e.addr = some t := ht
    show m ≤ w1.st.ord.lvl t.id
    rw [ho]
    by_cases hm' : e.addr ∈ w.st.tab v
    · obtain ⟨b, n, h1, _⟩ := M.fwdL _ hm'
      rw [ht] at h1; cases h1
      show m ≤ w.st.ord.lvl v
      omega
    · rw [M.fwdO _ hm'] at ht
      have := T e t (trk1 e he) ht
      omega
  · show w2 = { w with st := w2.st, fwd := w1.fwd }
    have : w2 = { w1 with st := w2.st } := rfl
    rw [this, E1]
  · intro e he hid
    have hm' : e.addr ∈ w.st.tab v := by
      rcases he with ⟨h0, _⟩ | ⟨n, hn, hv'⟩
      · omega
      · exact (S.tabW v _).2 ⟨n, hn, hv'.trans hid⟩
    obtain ⟨b, n, h1, h2, h3, _, h5⟩ := M.fwdL _ hm'
    exact ⟨_, h1, Or.inr ⟨n, h3, h5⟩, rfl⟩

/-- What has happened to a pointer of the state before packing. -/
def Fate (K i m : Nat) (all : Bool) (w0 w : St) : Prop := ∀ e, w0.st.EOK e →
  (w.st.EOK e ∧ (all = true → w0.st.ord.lvl e.id < m ∨ i + K ≤ w0.st.ord.lvl e.id)) ∨
    ∃ t, w.fwd e.addr = some t ∧ w.st.EOK t ∧ t.id = e.id ∧ m ≤ w0.st.ord.lvl e.id ∧ w0.st.ord.lvl e.id < i + K

/-- Redirecting the children of the nodes at the next index. -/
theorem fixCofactors_low (B : BInv ext δ0 d0 Root u0 v0 w d ab) {m : Nat} (hm : m < w.st.ord.numVars) (L : Low (m + 1) w)
    (T : Tg Root (m + 1) w) : BInv ext δ0 d0 Root u0 v0 (fixCofactors w (w.st.ord.indexToId m)) d ab ∧
      Low m (fixCofactors w (w.st.ord.indexToId m)) ∧ Tg Root (m + 1) (fixCofactors w (w.st.ord.indexToId m)) ∧
      ∀ e, (fixCofactors w (w.st.ord.indexToId m)).st.EOK e ↔ w.st.EOK e := by
  have W := B.ordWF
  obtain ⟨B1, E1, N1⟩ := fixCofactors_spec B (w.st.ord.indexToId m)
  refine ⟨B1, ?_, ?_, E1⟩
  · intro a n hn hl
    rcases N1 a n hn with ⟨_, h1, h2⟩ | ⟨h1, h2⟩
    · exact ⟨(E1 _).2 h1, (E1 _).2 h2⟩
    · replace hl : m ≤ w.st.ord.lvl n.var := hl
      have hr := B.sim.var_range B.r.inv.w h2
      have : w.st.ord.lvl n.var ≠ m := by
        intro h
        apply h1
        rw [← h, lvl_id W hr]
      obtain ⟨k1, k2⟩ := L a n h2 (by omega)
      exact ⟨(E1 _).2 k1, (E1 _).2 k2⟩
  · intro e t he ht
    replace ht : w.fwd e.addr = some t := ht
    show m + 1 ≤ w.st.ord.lvl t.id
    refine T e t ?_ ht
    rcases he with ⟨a, n, hn, he⟩ | h
    · rcases N1 a n hn with ⟨_, h1, h2⟩ | ⟨h1, h2⟩
      · exfalso
        have : w.st.EOK e := by rcases he with rfl | rfl; exact h1; exact h2
        rw [B.sim.fw.eok this] at ht; cases ht
      · exact Or.inl ⟨a, n, h2, he⟩
    · exact Or.inr h

theorem packLevels_spec (P : Par) {K : Nat} {w0 : St} (hK : i + K ≤ w0.st.ord.numVars) (all : Bool) (hall : all = true → ∀ s id, P.needs s id = true) :
    ∀ (k : Nat) (done : Bool) {w : St} {ab : Nat → Nat}, k ≤ K → BInv ext δ0 d0 Root u0 (fun _ => none) w d ab → Low (i + k) w →
      Tg Root (i + k) w → (done = false → ∀ e, Trk Root w e → w.st.EOK e) → w.st.ord = w0.st.ord →
      w = { w0 with st := w.st, fwd := w.fwd } → Fate K i (i + k) all w0 w →
      ∃ w' ab', packLevels P k i done w = some w' ∧ BInv ext δ0 d0 Root u0 (fun _ => none) w' d ab' ∧ Low i w' ∧
        w'.st.ord = w0.st.ord ∧ w' = { w0 with st := w'.st, fwd := w'.fwd } ∧ Fate K i i all w0 w' := by
  intro k
  induction k with
  | zero => intro done w ab _ B L T _ ho he hf; exact ⟨w, ab, rfl, B, L, ho, he, hf⟩
  | succ k ih =>
    intro done w ab hk B L T hd ho he hf
    have W := B.ordWF
    have hm : i + k < w.st.ord.numVars := by rw [ho]; omega
    have lv := W.lvl_indexToId hm
    have fin : Low (i + k + 1) w := L
    rw [packLevels]
    by_cases hn : P.needs w.st (w.st.ord.indexToId (i + k)) = true
    · rw [if_pos hn]
      obtain ⟨B1, L1, T1, E1⟩ := fixCofactors_low B hm L T
      obtain ⟨w1, ab1, e1, B2, L2, T2, C⟩ := packId_spec B1 hm L1 T1
      replace e1 : packId (fixCofactors w (w.st.ord.indexToId (i + k))) (w.st.ord.indexToId (i + k)) = some w1 := e1
      rw [e1]
      simp only
      refine ih true (by omega) B2 L2 T2 (by simp) (C.ord.trans ho) ?_ ?_
      · rw [C.eqs]
        show ({ w with st := _, fwd := _ } : St) = _
        rw [he]
      · intro e hE
        rcases hf e hE with ⟨h1, h2⟩ | ⟨t, h1, h2, h3, h4, h5⟩
        · by_cases hid : e.id = w.st.ord.indexToId (i + k)
          · right
            obtain ⟨t, k1, k2, k3⟩ := C.own e ((E1 e).2 h1) hid
            refine ⟨t, k1, k2, k3.trans hid.symm, ?_⟩
            rw [← ho, hid, lv]
            omega
          · left
            refine ⟨C.other e ((E1 e).2 h1) hid, fun ha => ?_⟩
            rcases h2 ha with h | h
            · left
              have : w0.st.ord.lvl e.id ≠ i + k := by
                intro h'
                apply hid
                rw [← h', ← ho]
                by_cases h0 : e.id = 0
                · exfalso
                  rw [h0, ← ho] at h'
                  have := const_lvl W hm
                  omega
                · rcases h1 with ⟨h1, _⟩ | ⟨n, hn, hv⟩
                  · exact absurd h1 h0
                  · rw [← hv]
                    exact (lvl_id W (B.sim.var_range B.r.inv.w hn)).symm
              omega
            · exact Or.inr h
        · right
          refine ⟨t, C.old _ t h1, C.other t ((E1 t).2 h2) ?_, h3, by omega, h5⟩
          rw [h3]
          intro h
          replace h : e.id = w.st.ord.indexToId (i + k) := h
          rw [h, ← ho, lv] at h4
          omega
    · rw [if_neg hn]
      have hna : all ≠ true := fun h => hn (hall h _ _)
      have hf' : Fate K i (i + k) all w0 w := by
        intro e hE
        rcases hf e hE with ⟨h1, h2⟩ | ⟨t, h1, h2, h3, h4, h5⟩
        · exact Or.inl ⟨h1, fun h => absurd h hna⟩
        · exact Or.inr ⟨t, h1, h2, h3, by omega, h5⟩
      cases done with
      | false =>
        have hc := hd rfl
        refine ih false (by omega) B ?_ ?_ hd ho he hf'
        · intro a n hn' _
          exact ⟨hc _ (Or.inl ⟨a, n, hn', Or.inl rfl⟩), hc _ (Or.inl ⟨a, n, hn', Or.inr rfl⟩)⟩
        · intro e t he ht
          replace ht : w.fwd e.addr = some t := ht
          rw [B.sim.fw.eok (hc e he)] at ht; cases ht
      | true =>
        obtain ⟨B1, L1, T1, E1⟩ := fixCofactors_low B hm L T
        refine ih true (by omega) B1 L1 (fun e t he ht => ?_) (by simp) ho ?_ ?_
        · have := T1 e t he ht; exact Nat.le_of_succ_le this
        · rw [he]; rfl
        · intro e hE
          rcases hf' e hE with ⟨h1, h2⟩ | ⟨t, h1, h2, h3, h4, h5⟩
          · exact Or.inl ⟨(E1 e).2 h1, h2⟩
          · exact Or.inr ⟨t, h1, (E1 t).2 h2, h3, h4, h5⟩

/-- All that `CalVarAssociationRepackUpdate` does to one value. -/
def forwardAll (w : St) : Nat → Nat → Edge → Edge
  | 0, _, e => e
  | k + 1, i, e => forwardAll w k i (forwardId w (w.st.ord.indexToId (i + k)) e)

theorem forwardAll_out : ∀ (k i : Nat) (e : Edge), (∀ j, j < k → e.id ≠ w.st.ord.indexToId (i + j)) → forwardAll w k i e = e := by
  intro k
  induction k with
  | zero => intro i e _; rfl
  | succ k ih =>
    intro i e h
    have h1 : forwardId w (w.st.ord.indexToId (i + k)) e = e := if_neg (h k (by omega))
    rw [forwardAll, h1]
    exact ih i e (fun j hj => h j (by omega))

theorem forwardAll_in {e : Edge} {t : Edge} (ht : w.fwd e.addr = some t) (hid : t.id = e.id) :
    ∀ (k i : Nat), (∀ j j', j < k → j' < k → w.st.ord.indexToId (i + j) = w.st.ord.indexToId (i + j') → j = j') →
      (∃ j, j < k ∧ e.id = w.st.ord.indexToId (i + j)) → forwardAll w k i e = follow w e := by
  intro k
  induction k with
  | zero => rintro i _ ⟨j, hj, _⟩; omega
  | succ k ih =>
    intro i inj h
    rw [forwardAll]
    by_cases hk : e.id = w.st.ord.indexToId (i + k)
    · have h1 : forwardId w (w.st.ord.indexToId (i + k)) e = t.phase e.neg := by
        unfold forwardId; rw [if_pos hk, ht]
      rw [h1, follow_some ht]
      apply forwardAll_out
      intro j hj h2
      replace h2 : t.id = _ := h2
      rw [hid, hk] at h2
      have := inj k j (by omega) (by omega) h2
      omega
    · have h1 : forwardId w (w.st.ord.indexToId (i + k)) e = e := if_neg hk
      rw [h1]
      refine ih i (fun j j' h1 h2 => inj j j' (by omega) (by omega)) ?_
      obtain ⟨j, h1, h2⟩ := h
      by_cases hj : j = k
      · exact absurd (hj ▸ h2) hk
      · exact ⟨j, by omega, h2⟩

/-- The last loop. -/
theorem packTail_eq : ∀ (k i : Nat) (w : St), (∀ j j', j < k → j' < k → w.st.ord.indexToId (i + j) = w.st.ord.indexToId (i + j') → j = j') →
    packTail k i w = { w with
      vars := (packTail k i w).vars
      assocs := w.assocs.map (mapR (forwardAll w k i))
      temp := mapA (forwardAll w k i) w.temp } ∧
    (∀ u, (∀ j, j < k → u ≠ w.st.ord.indexToId (i + j)) → (packTail k i w).vars u = w.vars u) ∧
    ∀ j, j < k → (packTail k i w).vars (w.st.ord.indexToId (i + j)) = (w.vars (w.st.ord.indexToId (i + j))).map (follow w) := by
  intro k
  induction k with
  | zero =>
    intro i w _
    refine ⟨?_, fun _ _ => rfl, fun j h => by omega⟩
    have h1 : mapA (forwardAll w 0 i) w.temp = w.temp := by
      unfold mapA
      have : (fun v => (w.temp.var v).map (forwardAll w 0 i)) = w.temp.var := by
        funext v; cases w.temp.var v <;> rfl
      rw [this]
    have h2 : w.assocs.map (mapR (forwardAll w 0 i)) = w.assocs := by
      conv => rhs; rw [← List.map_id w.assocs]
      apply List.map_congr_left
      intro p _
      unfold mapR mapA
      have : (fun v => (p.a.var v).map (forwardAll w 0 i)) = p.a.var := by
        funext v; cases p.a.var v <;> rfl
      rw [this]; rfl
    rw [h1, h2]; rfl
  | succ k ih =>
    intro i w inj
    let w1 : St := { w with
      vars := upd w.vars (w.st.ord.indexToId (i + k)) ((w.vars (w.st.ord.indexToId (i + k))).map (follow w))
      assocs := w.assocs.map fun p => { p with a := forwardAssoc w (w.st.ord.indexToId (i + k)) p.a }
      temp := forwardAssoc w (w.st.ord.indexToId (i + k)) w.temp }
    have h0 : packTail (k + 1) i w = packTail k i w1 := rfl
    obtain ⟨h1, h2, h3⟩ := ih i w1 (fun j j' a b => inj j j' (by omega) (by omega))
    have fa : ∀ (k : Nat) (e : Edge), forwardAll w1 k i e = forwardAll w k i e := by
      intro k
      induction k with
      | zero => intro e; rfl
      | succ k ih => intro e; exact ih _
    have hA : ∀ A : Assoc, mapA (forwardAll w1 k i) (forwardAssoc w (w.st.ord.indexToId (i + k)) A) = mapA (forwardAll w (k + 1) i) A := by
      intro A
      unfold mapA forwardAssoc
      simp only [Option.map_map]
      have : forwardAll w1 k i ∘ forwardId w (w.st.ord.indexToId (i + k)) = forwardAll w (k + 1) i := by
        funext e; exact fa k _
      rw [this]
    refine ⟨?_, ?_, ?_⟩
    · rw [h0]
      refine h1.trans ?_
      have a1 : w1.assocs.map (mapR (forwardAll w1 k i)) = w.assocs.map (mapR (forwardAll w (k + 1) i)) := by
        show (w.assocs.map fun p => { p with a := forwardAssoc w (w.st.ord.indexToId (i + k)) p.a }).map (mapR (forwardAll w1 k i)) = _
        rw [List.map_map]
        apply List.map_congr_left
        intro p _
        show ({ p with a := mapA (forwardAll w1 k i) (forwardAssoc w _ p.a) } : RAssoc) = _
        rw [hA]; rfl
      have a2 : mapA (forwardAll w1 k i) w1.temp = mapA (forwardAll w (k + 1) i) w.temp := hA w.temp
      rw [a1, a2]
    · intro u hu
      rw [h0, h2 u (fun j hj => hu j (by omega))]
      exact upd_ne _ _ (hu k (by omega))
    · intro j hj
      rw [h0]
      by_cases hjk : j = k
      · rw [hjk]
        rw [h2 _ ?_]
        · exact upd_same _ _ _
        · intro j' hj' h
          have := inj k j' (by omega) (by omega) h
          omega
      · have := h3 j (by omega)
        rw [show w.st.ord.indexToId (i + j) = w1.st.ord.indexToId (i + j) from rfl, this]
        show Option.map (follow w) (upd w.vars _ _ (w.st.ord.indexToId (i + j))) = _
        rw [upd_ne]
        intro h
        exact hjk (inj j k (by omega) (by omega) h)

/-- A value of an association. -/
def AVal (d : Df.St) (e : Edge) : Prop := (∃ p, p ∈ d.assocs ∧ ∃ v, p.a.var v = some e) ∨ ∃ v, d.temp.var v = some e

theorem F2_mem {α : Type} {R : α → α → Prop} : ∀ {as bs : List α}, F2 R as bs → ∀ {b}, b ∈ bs → ∃ a, a ∈ as ∧ R a b
  | _, _, .nil, _, h => by cases h
  | _, _, .cons (x := x) h t, b, hb => by
    rcases List.mem_cons.1 hb with rfl | hb
    · exact ⟨x, by simp, h⟩
    · obtain ⟨a, h1, h2⟩ := F2_mem t hb
      exact ⟨a, by simp [h1], h2⟩

theorem AVal.start {d0 d : Df.St} (R : Df.RInv ext δ0 d0 d) {e : Edge} (h : AVal d e) : AVal d0 e := by
  rcases h with ⟨p, hp, v, hv⟩ | ⟨v, hv⟩
  · obtain ⟨q, h1, ⟨_, h2⟩, _⟩ := F2_mem R.assocs hp
    exact Or.inl ⟨q, h1, v, by rw [← h2]; exact hv⟩
  · exact Or.inr ⟨v, by rw [← R.temp.2]; exact hv⟩

/-- The values of the associations survive packing: they are held, and either no value has a top variable or all
ids are always packed. -/
def Safe (P : Par) (Root : Edge → Prop) (d0 : Df.St) : Prop :=
  ∀ e, AVal d0 e → Root e ∧ (e.addr = 0 ∨ ∀ s id, P.needs s id = true)

theorem mapA_congr {φ ψ : Edge → Edge} {A : Assoc} (h : ∀ v e, A.var v = some e → φ e = ψ e) : mapA φ A = mapA ψ A := by
  unfold mapA
  have : (fun v => (A.var v).map φ) = fun v => (A.var v).map ψ := by
    funext v
    cases hq : A.var v with
    | none => rfl
    | some e => simp only [Option.map_some]; rw [h v e hq]
  rw [this]

/-- `CalBddPackNodesForMultipleIds` on a state where nothing is forwarded. -/
theorem packMany_spec (P : Par) {K : Nat} (B : BInv ext δ0 d0 Root u0 v0 w d ab) (C : Clean Root w) (hK : i + K ≤ w.st.ord.numVars)
    (hs : Safe P Root d0) : ∃ w' ab', packMany P w i K = some w' ∧ BInv ext δ0 d0 Root u0 v0 w' d ab' ∧ Clean Root w' ∧
      w'.st.ord = w.st.ord := by
  have W := B.ordWF
  let y : St := sv w (fun _ => none)
  have S := B.sim
  have By : BInv ext δ0 d0 Root u0 (fun _ => none) y d ab := by
    refine ⟨⟨S.ord, S.zero, ⟨S.fw.fr, S.fw.fw⟩, S.inj, S.sur, S.node, S.tab, S.tabW, S.ref, S.le, S.num, S.gcc, S.mat⟩,
      B.r, B.nz, B.ends, B.rootE, B.root, B.assocs, B.temp, B.users, rfl, ?_, ?_, B.chk⟩
    · intro id e he; cases he
    · intro id e he; cases he
  obtain ⟨all, hall1, hall2⟩ : ∃ all : Bool, (all = true → ∀ s id, P.needs s id = true) ∧ ((∀ s id, P.needs s id = true) → all = true) := by
    by_cases h : ∀ s id, P.needs s id = true
    · exact ⟨true, fun _ => h, fun _ => rfl⟩
    · exact ⟨false, by simp, fun h' => absurd h' h⟩
  obtain ⟨y1, ab1, e1, B1, L1, o1, q1, f1⟩ := packLevels_spec P (w0 := y) hK all hall1 K false (Nat.le_refl _) By
    (fun a n hn _ => ⟨C.trk _ (Or.inl ⟨a, n, hn, Or.inl rfl⟩), C.trk _ (Or.inl ⟨a, n, hn, Or.inr rfl⟩)⟩)
    (fun e t he ht => by
      have : y.fwd e.addr = none := S.fw.eok (C.trk e he)
      rw [this] at ht; cases ht) (fun _ => C.trk) rfl rfl
    (fun e hE => Or.inl ⟨hE, fun _ => by omega⟩)
  replace o1 : y1.st.ord = w.st.ord := o1
  obtain ⟨h', e2, B2, E2, N2⟩ := fixAbove_spec i B1 (by rw [o1]; omega) L1
  obtain ⟨B3, r3⟩ := fixOutside_spec B2
  let y2 : St := fixAbove i y1
  have hy2 : y2 = { y1 with st := { y1.st with heap := h' } } := e2
  have o2 : y2.st.ord = w.st.ord := by rw [hy2]; exact o1
  have pw : y2.pipe = w.pipe := by rw [hy2]; show y1.pipe = _; rw [q1]; rfl
  have fw2 : y2.fwd = y1.fwd := by rw [hy2]
  have fa : ∀ (k : Nat) (w : St) (f : Nat → Option Edge), fixAbove k (sv w f) = sv (fixAbove k w) f := by
    intro k
    induction k with
    | zero => intro w f; rfl
    | succ k ih => intro w f; exact ih (fixCofactors w (w.st.ord.indexToId k)) f
  let x : St := { sv y2 w.vars with
      users := fun a => (y2.users a).map (follow y2)
      pipe := fun e => follow y2 (y2.pipe e) }
  have hpm : packMany P w i K = some (packTail K i x) := by
    unfold packMany
    have : w = sv y w.vars := rfl
    rw [this, packLevels_sv, e1]
    simp only [Option.map_some]
    rw [fa]
    rfl
  have inj : ∀ j j', j < K → j' < K → x.st.ord.indexToId (i + j) = x.st.ord.indexToId (i + j') → j = j' := by
    intro j j' h1 h2 h
    replace h : y2.st.ord.indexToId (i + j) = y2.st.ord.indexToId (i + j') := h
    rw [o2] at h
    have := congrArg w.st.ord.lvl h
    rw [W.lvl_indexToId (by omega), W.lvl_indexToId (by omega)] at this
    omega
  obtain ⟨t1, t2, t3⟩ := packTail_eq K i x inj
  -- a pointer of the old state
  have fate : ∀ e, w.st.EOK e → (y2.fwd e.addr = none ∧ (all = true → w.st.ord.lvl e.id < i ∨ i + K ≤ w.st.ord.lvl e.id)) ∨
      ∃ t, y2.fwd e.addr = some t ∧ t.id = e.id ∧ ∃ j, j < K ∧ e.id = w.st.ord.indexToId (i + j) := by
    intro e hE
    rcases f1 e hE with ⟨h1, h2⟩ | ⟨t, h1, _, h3, h4, h5⟩
    · left
      refine ⟨?_, h2⟩
      rw [fw2]; exact B1.sim.fw.eok h1
    · right
      replace h4 : i ≤ w.st.ord.lvl e.id := h4
      replace h5 : w.st.ord.lvl e.id < i + K := h5
      refine ⟨t, by rw [fw2]; exact h1, h3, w.st.ord.lvl e.id - i, by omega, ?_⟩
      rw [show i + (w.st.ord.lvl e.id - i) = w.st.ord.lvl e.id from by omega]
      rcases hE with ⟨h0, _⟩ | ⟨n, hn, hv⟩
      · exfalso
        rw [h0] at h5
        have := const_lvl W (k := i + K - 1) (by omega)
        omega
      · rw [← hv]
        exact (lvl_id W (S.var_range B.r.inv.w hn)).symm
  have nwin : ∀ e, w.st.EOK e → (∀ j, j < K → e.id ≠ w.st.ord.indexToId (i + j)) → follow y2 e = e := by
    intro e hE h
    rcases fate e hE with ⟨h1, _⟩ | ⟨t, _, _, j, h1, h2⟩
    · exact follow_none h1
    · exact absurd h2 (h j h1)
  have fx : ∀ e, follow x e = follow y2 e := fun _ => rfl
  -- the values of the associations
  have hval : ∀ e, AVal d e → forwardAll x K i (w.pipe e) = follow y2 (w.pipe e) := by
    intro e he
    obtain ⟨hR, hc⟩ := hs e (he.start B.r)
    have hE : w.st.EOK (w.pipe e) := C.trk _ (Or.inr ⟨e, hR, rfl⟩)
    have out : (∀ j, j < K → (w.pipe e).id ≠ w.st.ord.indexToId (i + j)) → forwardAll x K i (w.pipe e) = follow y2 (w.pipe e) := by
      intro h
      rw [nwin _ hE h]
      apply forwardAll_out
      intro j hj
      show (w.pipe e).id ≠ y2.st.ord.indexToId (i + j)
      rw [o2]; exact h j hj
    rcases hc with hc | hc
    · apply out
      intro j hj h
      obtain ⟨k1, k2⟩ := B.root e hR
      rw [S.fw.follow hE] at k2
      have ha : ab (w.pipe e).addr = e.addr := congrArg Edge.addr k2
      have h0 := ab_zero B hE (ha.trans hc)
      have := W.id_range (i + j) (by omega)
      rcases hE with ⟨h1, _⟩ | ⟨n, hn, _⟩
      · rw [h1] at h; omega
      · rw [h0, S.fw.fr.heap0] at hn; cases hn
    · have ha := hall2 hc
      rcases fate _ hE with ⟨h1, h2⟩ | ⟨t, h1, h2, j, h3, h4⟩
      · apply out
        intro j hj h
        have := W.lvl_indexToId (k := i + j) (by omega)
        have h3 := h2 ha
        rw [h] at h3
        omega
      · refine forwardAll_in (w := x) h1 h2 K i inj ⟨j, h3, ?_⟩
        show _ = y2.st.ord.indexToId (i + j)
        rw [o2]; exact h4
  -- `varBdds`
  have hvar : ∀ u e, v0 u = some e → (w.pipe e).id = 0 ∨ (w.pipe e).id = u := by
    intro u e he
    obtain ⟨hR, hI⟩ := B.varR u e he
    have hE := B.varE u e he
    obtain ⟨k1, k2⟩ := B.root e hR
    rw [S.fw.follow hE] at k1 k2
    rcases hE with ⟨h0, _⟩ | ⟨n, hn, hv'⟩
    · exact Or.inl h0
    · right
      obtain ⟨n', m1, m2, _⟩ := S.node _ _ hn
      have ha : ab (w.pipe e).addr = e.addr := congrArg Edge.addr k2
      rw [ha] at m1
      have hpos : 0 < ext e.addr := by
        rcases B.rootE e hR with h | h
        · rw [h, B.r.inv.w.heap0] at m1; cases m1
        · exact h
      obtain ⟨δ, l, hδ⟩ := B.r.fns
      have d1 := Df.dep_self B.r.inv.w l m1
      rw [hδ _ hpos, m2, hv'] at d1
      by_cases h : (w.pipe e).id = u
      · exact h
      · exact absurd (hI _ h) d1
  have hxv : (packTail K i x).vars = fun a => (v0 a).map fun e => follow y2 (w.pipe e) := by
    funext u
    have hxu : x.vars u = (v0 u).map w.pipe := by
      show w.vars u = _
      rw [B.vars]
    by_cases hu : ∃ j, j < K ∧ u = w.st.ord.indexToId (i + j)
    · obtain ⟨j, hj, rfl⟩ := hu
      have h := t3 j hj
      rw [show x.st.ord.indexToId (i + j) = w.st.ord.indexToId (i + j) from by show y2.st.ord.indexToId _ = _; rw [o2]] at h
      rw [h, hxu, Option.map_map]
      rfl
    · rw [t2 u ?_, hxu]
      · cases hq : v0 u with
        | none => rfl
        | some e =>
          simp only [Option.map_some]
          rw [nwin _ (B.varE u e hq)]
          intro j hj h
          rcases hvar u e hq with h0 | h0
          · have := W.id_range (i + j) (by omega)
            omega
          · exact hu ⟨j, hj, h0.symm.trans h⟩
      · intro j hj h
        replace h : u = y2.st.ord.indexToId (i + j) := h
        rw [o2] at h
        exact hu ⟨j, hj, h⟩
  have ya : y2.assocs = w.assocs := by rw [hy2]; show y1.assocs = _; rw [q1]; rfl
  have yt : y2.temp = w.temp := by rw [hy2]; show y1.temp = _; rw [q1]; rfl
  have hA : x.assocs.map (mapR (forwardAll x K i)) = (fixOutside y2).assocs := by
    show y2.assocs.map (mapR (forwardAll x K i)) = y2.assocs.map (mapR (follow y2))
    rw [ya, B.assocs, List.map_map, List.map_map]
    apply List.map_congr_left
    intro p hp
    show mapR (forwardAll x K i) (mapR w.pipe p) = mapR (follow y2) (mapR w.pipe p)
    unfold mapR
    simp only
    rw [mapA_mapA, mapA_mapA, mapA_congr]
    intro v e hv
    exact hval e (Or.inl ⟨p, hp, v, hv⟩)
  have hT : mapA (forwardAll x K i) x.temp = (fixOutside y2).temp := by
    show mapA (forwardAll x K i) y2.temp = mapA (follow y2) y2.temp
    rw [yt, B.temp, mapA_mapA, mapA_mapA, mapA_congr]
    intro v e hv
    exact hval e (Or.inr ⟨v, hv⟩)
  have fin : packTail K i x = { fixOutside y2 with vars := (packTail K i x).vars } := by
    rw [hA, hT] at t1
    refine t1.trans ?_
    rfl
  have r3' : ∀ e, Root e → y2.st.EOK (follow y2 (w.pipe e)) := by
    intro e he
    have := r3 e he
    rw [show (fixOutside (fixAbove i y1)).pipe e = follow y2 (y2.pipe e) from rfl, pw] at this
    exact this
  refine ⟨packTail K i x, ab1, hpm, ?_, ?_, ?_⟩
  · have S3 := B3.sim
    rw [fin]
    refine ⟨⟨S3.ord, S3.zero, ⟨S3.fw.fr, S3.fw.fw⟩, S3.inj, S3.sur, S3.node, S3.tab, S3.tabW, S3.ref, S3.le, S3.num, S3.gcc, S3.mat⟩,
      B3.r, B3.nz, B3.ends, B3.rootE, B3.root, B3.assocs, B3.temp, B3.users, ?_, B.varR, ?_, B.chk⟩
    · show (packTail K i x).vars = fun a => (v0 a).map fun e => follow y2 (y2.pipe e)
      rw [hxv, pw]
    · intro id e he
      show y2.st.EOK (follow y2 (y2.pipe e))
      rw [pw]
      exact r3' e (B.varR id e he).1
  · rw [fin]
    refine ⟨trk_clean (w := { fixOutside y2 with vars := _ }) N2 ?_, ?_⟩
    · intro e he
      show y2.st.EOK (follow y2 (y2.pipe e))
      rw [pw]; exact r3' e he
    · intro u
      show y2.list u = []
      rw [hy2]
      show y1.list u = []
      rw [q1]
      exact C.lists u
  · rw [fin]; exact o2

end

end Bfr

end Cal
