import Verif.BFInv

/-!
# Steps of the reduce phase
-/

namespace Cal
namespace BF

variable {P : Type} {K : Kernel P} {S : KernelSem K}

/-- Whether the request at `a` is still to be reduced when the reduce phase stands at index `k`,
depth `D`, with the requests `L` of that table left. -/
def ToRed (b : BF P) (k D : Nat) (L : List Nat) (a : Nat) (r : Req P) : Prop :=
  b.st.ord.lvl r.id < k ∨ (b.st.ord.lvl r.id = k ∧ (D < r.dep ∨ (r.dep = D ∧ a ∈ L)))

/-- Reduce-phase invariant. -/
structure RInv (S : KernelSem K) (M : Bnd) (b : BF P) (k D : Nat) (L : List Nat) : Prop where
  shape : Shape S b
  dep_lt : ∀ a r, b.req a = some r → r.dep < M.dep
  lo_le : ∀ a r, b.req a = some r → M.lo ≤ b.st.ord.lvl r.id
  left : ∀ a ∈ L, ∃ r, b.req a = some r ∧ b.st.ord.lvl r.id = k ∧ r.dep = D
  left_nodup : L.Nodup
  todo : ∀ a r, b.req a = some r → b.ToRed k D L a r → ∃ t e, r.cell = .done t e
  past : ∀ a r, b.req a = some r → ¬ b.ToRed k D L a r → ∃ t, r.cell = .fwd t

/-- Following the forwarding pointer of a sub-request below the frontier gives a node or constant
for the same function. -/
theorem forward_spec {M} {b : BF P} {k D L} (inv : RInv S M b k D L) {δ} (hδ : BLab S b δ)
    {e : Edge} {d} (he : b.EV d e) (hl : k < b.st.ord.lvl e.id) :
    b.st.EOK (b.forward e) ∧ b.st.ord.lvl e.id ≤ b.st.ord.lvl (b.forward e).id ∧
      den δ (b.forward e) = den δ e := by
  rcases he with he | ⟨r, hr, h1, h2⟩
  · have hn : b.req e.addr = none := by
      cases hq : b.req e.addr with
      | none => rfl
      | some r =>
        have := inv.shape.req_ok _ _ hq
        rcases he with ⟨_, h0⟩ | ⟨n, hn, _⟩
        · omega
        · rw [this.1] at hn; cases hn
    have : b.forward e = e := by simp [forward, hn]
    rw [this]; exact ⟨he, Nat.le_refl _, rfl⟩
  · have hnt : ¬ b.ToRed k D L e.addr r := by
      rintro (h | ⟨h, _⟩) <;> rw [h1] at h <;> omega
    obtain ⟨t, hc⟩ := inv.past _ _ hr hnt
    obtain ⟨ri, rd, rc⟩ := r
    simp only at hc h1
    subst hc; subst h1
    have : b.forward e = t.phase e.neg := by simp [forward, hr]
    rw [this]
    have hf := inv.shape.fwd_ok _ _ _ _ hr
    refine ⟨hf.1.phase _, hf.2, ?_⟩
    rw [den_phase]
    funext ρ
    have := congrFun (hδ.fwd _ _ _ _ hr) ρ
    simp only [den] at this ⊢
    rw [this]

/-- Turning a done request into a forwarded one. -/
theorem set_fwd {M} {b : BF P} {k D a L} (inv : RInv S M b k D (a :: L)) {δ} (hδ : BLab S b δ)
    {i d t0 e0} (hr : b.req a = some ⟨i, d, .done t0 e0⟩) {t : Edge} (ht : b.st.EOK t)
    (hl : b.st.ord.lvl i ≤ b.st.ord.lvl t.id) (hd : δ a = den δ t) (ref : Nat → Nat) :
    let b' : BF P := { b with st := { b.st with ref := ref },
                              req := upd b.req a (some ⟨i, d, .fwd t⟩) }
    RInv S M b' k D L ∧ BLab S b' δ ∧ b.Le b' := by
  intro b'
  have hnd := inv.left_nodup
  simp only [List.nodup_cons] at hnd
  obtain ⟨r', hr', hl', hd'⟩ := inv.left a (by simp)
  rw [hr] at hr'; cases hr'
  simp only at hl' hd'
  have hreq_a : b'.req a = some ⟨i, d, .fwd t⟩ := upd_same _ _ _
  have old : ∀ x r, b'.req x = some r → x ≠ a → b.req x = some r := by
    intro x r hx hxa
    have : b'.req x = b.req x := upd_ne _ _ hxa
    rwa [this] at hx
  have new : ∀ x, x ≠ a → b'.req x = b.req x := fun x hxa => upd_ne _ _ hxa
  have hle : b.Le b' := by
    refine ⟨⟨rfl, fun _ _ h => h⟩, fun x r hx => Or.inl ?_⟩
    by_cases hxa : x = a
    · subst hxa; rw [hr] at hx; cases hx; exact ⟨_, hreq_a, rfl, rfl⟩
    · exact ⟨r, by rw [new x hxa]; exact hx, rfl, rfl⟩
  have sh := inv.shape
  refine ⟨⟨?_, ?_, ?_, ?_, hnd.2, ?_, ?_⟩, ?_, hle⟩
  · exact {
      wf := sh.wf.ref _
      req_ok := by
        intro x r hx
        by_cases hxa : x = a
        · subst hxa; exact sh.req_ok _ _ hr
        · exact sh.req_ok x r (old x r hx hxa)
      req_id := by
        intro x r hx
        by_cases hxa : x = a
        · subst hxa; rw [hreq_a] at hx; cases hx; have := sh.req_id _ _ hr; exact this
        · exact sh.req_id x r (old x r hx hxa)
      que_iff := by
        intro d' j x
        have : b'.que = b.que := rfl
        rw [this, sh.que_iff d' j x]
        by_cases hxa : x = a
        · subst hxa; rw [hreq_a, hr]
          constructor
          · rintro ⟨r, hx, h1, h2⟩; cases hx; exact ⟨_, rfl, h1, h2⟩
          · rintro ⟨r, hx, h1, h2⟩; cases hx; exact ⟨_, rfl, h1, h2⟩
        · rw [new x hxa]
      que_nodup := sh.que_nodup
      pend_top := by
        intro x j d q hx
        by_cases hxa : x = a
        · subst hxa; rw [hreq_a] at hx; cases hx
        · exact sh.pend_top x j d q (old x _ hx hxa)
      pend_mem := by
        intro x j d q hx
        by_cases hxa : x = a
        · subst hxa; rw [hreq_a] at hx; cases hx
        · exact sh.pend_mem x j d q (old x _ hx hxa)
      pend_ops := by
        intro x j d q hx y hy
        by_cases hxa : x = a
        · subst hxa; rw [hreq_a] at hx; cases hx
        · have := sh.pend_ops x j d q (old x _ hx hxa) y hy
          exact ⟨this.1.mono hle, this.2⟩
      done_thn := by
        intro x j d t' e' hx
        by_cases hxa : x = a
        · subst hxa; rw [hreq_a] at hx; cases hx
        · have := sh.done_thn x j d t' e' (old x _ hx hxa)
          exact ⟨this.1.mono hle, this.2⟩
      done_els := by
        intro x j d t' e' hx
        by_cases hxa : x = a
        · subst hxa; rw [hreq_a] at hx; cases hx
        · have := sh.done_els x j d t' e' (old x _ hx hxa)
          exact ⟨this.1.mono hle, this.2⟩
      nohalf := by
        intro x j d t' hx
        by_cases hxa : x = a
        · subst hxa; rw [hreq_a] at hx; cases hx
        · exact sh.nohalf x j d t' (old x _ hx hxa)
      fwd_ok := by
        intro x j d t' hx
        by_cases hxa : x = a
        · subst hxa; rw [hreq_a] at hx; cases hx; exact ⟨ht, hl⟩
        · exact sh.fwd_ok x j d t' (old x _ hx hxa) }
  · intro x r hx
    by_cases hxa : x = a
    · subst hxa; rw [hreq_a] at hx; cases hx; have := inv.dep_lt _ _ hr; exact this
    · exact inv.dep_lt x r (old x r hx hxa)
  · intro x r hx
    by_cases hxa : x = a
    · subst hxa; rw [hreq_a] at hx; cases hx; have := inv.lo_le _ _ hr; exact this
    · exact inv.lo_le x r (old x r hx hxa)
  · intro x hx
    have hxa : x ≠ a := by rintro rfl; exact hnd.1 hx
    obtain ⟨r, hr, h1, h2⟩ := inv.left x (by simp [hx])
    exact ⟨r, by rw [new x hxa]; exact hr, h1, h2⟩
  · intro x r hx htd
    by_cases hxa : x = a
    · subst hxa; rw [hreq_a] at hx; cases hx
      rcases htd with h | ⟨_, h | ⟨_, h⟩⟩
      · have h : b.st.ord.lvl i < k := h
        omega
      · simp only at h; omega
      · exact absurd h hnd.1
    · refine inv.todo x r (old x r hx hxa) ?_
      rcases htd with h | ⟨h1, h | ⟨h2, h⟩⟩
      · exact Or.inl h
      · exact Or.inr ⟨h1, Or.inl h⟩
      · exact Or.inr ⟨h1, Or.inr ⟨h2, by simp [h]⟩⟩
  · intro x r hx htd
    by_cases hxa : x = a
    · subst hxa; rw [hreq_a] at hx; cases hx; exact ⟨_, rfl⟩
    · refine inv.past x r (old x r hx hxa) ?_
      intro h
      apply htd
      rcases h with h | ⟨h1, h | ⟨h2, h⟩⟩
      · exact Or.inl h
      · exact Or.inr ⟨h1, Or.inl h⟩
      · exact Or.inr ⟨h1, Or.inr ⟨h2, by simpa [hxa] using h⟩⟩
  · exact {
      lab := { const := hδ.lab.const, node := hδ.lab.node }
      pend := by
        intro x j d q hx
        by_cases hxa : x = a
        · subst hxa; rw [hreq_a] at hx; cases hx
        · exact hδ.pend x j d q (old x _ hx hxa)
      done := by
        intro x j d t' e' hx ρ
        by_cases hxa : x = a
        · subst hxa; rw [hreq_a] at hx; cases hx
        · exact hδ.done x j d t' e' (old x _ hx hxa) ρ
      fwd := by
        intro x j d t' hx
        by_cases hxa : x = a
        · subst hxa; rw [hreq_a] at hx; cases hx; exact hd
        · exact hδ.fwd x j d t' (old x _ hx hxa) }

/-- The store grows by a node at an address no request uses. -/
theorem grow_store {M} {b : BF P} {k D L} (inv : RInv S M b k D L) {δ δ' : Nat → BFn}
    (hδ : BLab S b δ) {st' : Store} (w' : st'.WF) (hle : b.st.Le st')
    (hkeep : ∀ a r, b.req a = some r → st'.heap a = none ∧ a < st'.next ∧ ∀ i, a ∉ st'.free i)
    (hlab : Lab st' δ') (hag : b.Agree δ δ') :
    RInv S M { b with st := st' } k D L ∧ BLab S { b with st := st' } δ' ∧
      b.Le { b with st := st' } := by
  have hle' : b.Le { b with st := st' } := ⟨hle, fun _ r h => Or.inl ⟨r, h, rfl, rfl⟩⟩
  have sh := inv.shape
  have ho : st'.ord = b.st.ord := hle.ord
  refine ⟨⟨?_, inv.dep_lt, fun a r h => by simp only [ho]; exact inv.lo_le a r h, ?_,
    inv.left_nodup, ?_, ?_⟩, ?_, hle'⟩
  · exact {
      wf := w'
      req_ok := fun a r hr =>
        ⟨(hkeep a r hr).1, (sh.req_ok a r hr).2.1, (hkeep a r hr).2.1, (hkeep a r hr).2.2⟩
      req_id := fun a r hr => by simp only [ho]; exact sh.req_id a r hr
      que_iff := sh.que_iff
      que_nodup := sh.que_nodup
      pend_top := fun a i d p hr => by simp only [ho]; exact sh.pend_top a i d p hr
      pend_mem := sh.pend_mem
      pend_ops := fun a i d p hr x hx => by
        have := sh.pend_ops a i d p hr x hx
        simp only [ho]; exact ⟨this.1.mono hle', this.2⟩
      done_thn := fun a i d t e hr => by
        have := sh.done_thn a i d t e hr
        simp only [ho]; exact ⟨this.1.mono hle', this.2⟩
      done_els := fun a i d t e hr => by
        have := sh.done_els a i d t e hr
        simp only [ho]; exact ⟨this.1.mono hle', this.2⟩
      nohalf := sh.nohalf
      fwd_ok := fun a i d t hr => by
        have := sh.fwd_ok a i d t hr
        simp only [ho]; exact ⟨this.1.mono hle, this.2⟩ }
  · intro x hx
    simp only [ho]; exact inv.left x hx
  · intro a r hr h
    exact inv.todo a r hr (by unfold ToRed at h ⊢; simp only [ho] at h; exact h)
  · intro a r hr h
    exact inv.past a r hr (by unfold ToRed at h ⊢; simp only [ho] at h; exact h)
  · have used : ∀ {a r}, b.req a = some r → b.Used a := fun h => Or.inr (Or.inr (by rw [h]; simp))
    exact {
      lab := hlab
      pend := fun a i d p hr => by
        rw [hag a (used hr), hδ.pend a i d p hr]
        exact S.sem_congr _ _ _ fun e he => (hag.den (sh.pend_ops a i d p hr e he).1).symm
      done := fun a i d t e hr ρ => by
        rw [hag a (used hr), hδ.done a i d t e hr ρ, hag.den (sh.done_thn a i d t e hr).1,
          hag.den (sh.done_els a i d t e hr).1]
      fwd := fun a i d t hr => by
        rw [hag a (used hr), hδ.fwd a i d t hr]
        exact (hag.den (d := 0) (Or.inl (sh.fwd_ok a i d t hr).1)).symm }

/-- One iteration of the reduce loop. -/
theorem reduceOne_spec {M : Bnd} {b : BF P} {k D a L} (inv : RInv S M b k D (a :: L)) {δ}
    (hδ : BLab S b δ) :
    ∃ b' δ', b.reduceOne (b.st.ord.indexToId k) a = some b' ∧ RInv S M b' k D L ∧
      BLab S b' δ' ∧ b.Le b' ∧ b.Agree δ δ' := by
  obtain ⟨r, hr, hl, hd⟩ := inv.left a (by simp)
  obtain ⟨t0, e0, hp⟩ := inv.todo a r hr (Or.inr ⟨hl, Or.inr ⟨hd, by simp⟩⟩)
  have hnd := inv.left_nodup
  simp only [List.nodup_cons] at hnd
  obtain ⟨i, D', c⟩ := r
  simp only at hp hl hd
  subst hp; subst hd
  have hir := inv.shape.req_id _ _ hr
  simp only at hir
  have hid : b.st.ord.indexToId k = i := by
    have h0 : i ≠ 0 := by omega
    rw [← hl]; simp only [Order.lvl, h0, if_false]
    exact inv.shape.wf.ord.left i hir.1 hir.2
  rw [hid]
  obtain ⟨ev1, lv1⟩ := inv.shape.done_thn _ _ _ _ _ hr
  obtain ⟨ev2, lv2⟩ := inv.shape.done_els _ _ _ _ _ hr
  obtain ⟨okt, lt1, dt⟩ := forward_spec inv hδ ev1 (by omega)
  obtain ⟨oke, lt2, de⟩ := forward_spec inv hδ ev2 (by omega)
  have hdone := hδ.done _ _ _ _ _ hr
  have w := inv.shape.wf
  have hrok := inv.shape.req_ok _ _ hr
  generalize ht : b.forward t0 = t at *
  generalize he : b.forward e0 = e at *
  by_cases hte : t = e
  · -- both branches equal
    obtain ⟨ref, href⟩ := Store.addRef_eq b.st t ((b.st.ref a : Int) - 2)
    have := set_fwd inv hδ hr okt (by omega)
      (by funext ρ; rw [hdone ρ, ← dt, ← de, hte]; simp) ref
    refine ⟨_, δ, ?_, this.1, this.2.1, this.2.2, Agree.refl _ _⟩
    rw [← href]
    simp [reduceOne, hr, ht, he, hte]
  · cases hlk : b.st.uniqueLookup i t e with
    | some r =>
      obtain ⟨hri, hrh, hrn⟩ := Store.uniqueLookup_some w hlk
      obtain ⟨ref1, h1⟩ := Store.dcr_eq b.st t
      obtain ⟨ref2, h2⟩ := Store.dcr_eq (b.st.dcr t) e
      obtain ⟨ref, h3⟩ := Store.addRef_eq ((b.st.dcr t).dcr e) r (((b.st.dcr t).dcr e).ref a)
      have href : ((b.st.dcr t).dcr e).addRef r (((b.st.dcr t).dcr e).ref a) =
          { b.st with ref := ref } := by rw [h3, h2, h1]
      have := set_fwd inv hδ hr (t := r) (Or.inr ⟨_, hrh, hri.symm⟩) (by rw [hri]; exact Nat.le_refl _)
        (by
          funext ρ
          have hn := hδ.lab.node _ _ hrh ρ
          rw [hdone ρ, ← dt, ← de]
          simp only [den_phase] at hn
          simp only [den, hn]
          cases r.neg <;> cases ρ i <;> simp) ref
      refine ⟨_, δ, ?_, this.1, this.2.1, this.2.2, Agree.refl _ _⟩
      rw [← href]
      simp [reduceOne, hr, ht, he, hte, hlk]
    | none =>
      have hlk' := Store.uniqueLookup_none hlk
      cases hn : t.neg with
      | false =>
        -- the request becomes the node
        rw [hn] at hlk'; simp only [Edge.phase_false] at hlk'
        have w' := Store.insertAt_wf w hrok.1 hrok.2.1 hrok.2.2.1 hrok.2.2.2 hir okt oke (by omega)
          (by omega) hte hn hlk'
        have hle := Store.insertAt_le (s := b.st) (i := i) (t := t) (e := e) hrok.1
        let st' : Store := b.st.insertAt i a t e
        let b' : BF P := { st := { st' with numNodes := st'.numNodes + 1, gcCheck := st'.gcCheck - 1 },
                           req := upd b.req a none,
                           que := upd2 b.que D' i ((b.que D' i).erase a) }
        have hreq_a : b'.req a = none := upd_same _ _ _
        have new : ∀ x, x ≠ a → b'.req x = b.req x := fun x hxa => upd_ne _ _ hxa
        have old : ∀ x r, b'.req x = some r → x ≠ a ∧ b.req x = some r := by
          intro x r hx
          by_cases hxa : x = a
          · subst hxa; rw [hreq_a] at hx; cases hx
          · rw [new x hxa] at hx; exact ⟨hxa, hx⟩
        have hheapa : b'.st.heap a = some ⟨i, t, e⟩ := by
          show upd b.st.heap a _ a = _; simp
        have hheapn : ∀ x, x ≠ a → b'.st.heap x = b.st.heap x := by
          intro x hx; show upd b.st.heap a _ x = _; rw [upd_ne _ _ hx]
        have hle' : b.Le b' := by
          refine ⟨⟨rfl, fun x n h => hle.heap x n h⟩, fun x r hx => ?_⟩
          by_cases hxa : x = a
          · subst hxa; rw [hr] at hx; cases hx; exact Or.inr ⟨_, hheapa, rfl⟩
          · exact Or.inl ⟨r, by rw [new x hxa]; exact hx, rfl, rfl⟩
        have sh := inv.shape
        refine ⟨b', δ, ?_, ⟨?_, ?_, ?_, ?_, hnd.2, ?_, ?_⟩, ?_, hle', Agree.refl _ _⟩
        · simp [reduceOne, hr, ht, he, hte, hlk, hn, b', st']
        · exact {
            wf := w'.counters _ _
            req_ok := by
              intro x r hx
              obtain ⟨hxa, hx⟩ := old x r hx
              have := sh.req_ok x r hx
              exact ⟨by rw [hheapn x hxa]; exact this.1, this.2⟩
            req_id := fun x r hx => by have := sh.req_id x r (old x r hx).2; exact this
            que_iff := by
              intro d' j x
              by_cases hdj : d' = D' ∧ j = i
              · obtain ⟨rfl, rfl⟩ := hdj
                have : b'.que d' j = (b.que d' j).erase a := by simp [b', upd2]
                rw [this, (sh.que_nodup d' j).mem_erase_iff, sh.que_iff d' j x]
                constructor
                · rintro ⟨hxa, r, hx, h1, h2⟩; exact ⟨r, by rw [new x hxa]; exact hx, h1, h2⟩
                · rintro ⟨r, hx, h1, h2⟩
                  obtain ⟨hxa, hx⟩ := old x r hx
                  exact ⟨hxa, r, hx, h1, h2⟩
              · have : b'.que d' j = b.que d' j := by simp [b', upd2, hdj]
                rw [this, sh.que_iff d' j x]
                constructor
                · rintro ⟨r, hx, h1, h2⟩
                  have hxa : x ≠ a := by
                    rintro rfl; rw [hr] at hx; cases hx; exact hdj ⟨h2.symm, h1.symm⟩
                  exact ⟨r, by rw [new x hxa]; exact hx, h1, h2⟩
                · rintro ⟨r, hx, h1, h2⟩
                  exact ⟨r, (old x r hx).2, h1, h2⟩
            que_nodup := by
              intro d' j
              by_cases hdj : d' = D' ∧ j = i
              · obtain ⟨rfl, rfl⟩ := hdj
                have : b'.que d' j = (b.que d' j).erase a := by simp [b', upd2]
                rw [this]; exact (sh.que_nodup _ _).erase _
              · have : b'.que d' j = b.que d' j := by simp [b', upd2, hdj]
                rw [this]; exact sh.que_nodup _ _
            pend_top := fun x j d q hx => by
              have := sh.pend_top x j d q (old x _ hx).2; exact this
            pend_mem := fun x j d q hx => sh.pend_mem x j d q (old x _ hx).2
            pend_ops := fun x j d q hx y hy => by
              have := sh.pend_ops x j d q (old x _ hx).2 y hy
              exact ⟨this.1.mono hle', this.2⟩
            done_thn := fun x j d t' e' hx => by
              have := sh.done_thn x j d t' e' (old x _ hx).2
              exact ⟨this.1.mono hle', this.2⟩
            done_els := fun x j d t' e' hx => by
              have := sh.done_els x j d t' e' (old x _ hx).2
              exact ⟨this.1.mono hle', this.2⟩
            nohalf := fun x j d t' hx => sh.nohalf x j d t' (old x _ hx).2
            fwd_ok := fun x j d t' hx => by
              have := sh.fwd_ok x j d t' (old x _ hx).2
              exact ⟨this.1.mono hle'.st, this.2⟩ }
        · exact fun x r hx => inv.dep_lt x r (old x r hx).2
        · exact fun x r hx => inv.lo_le x r (old x r hx).2
        · intro x hx
          have hxa : x ≠ a := by rintro rfl; exact hnd.1 hx
          obtain ⟨r, hr, h1, h2⟩ := inv.left x (by simp [hx])
          exact ⟨r, by rw [new x hxa]; exact hr, h1, h2⟩
        · intro x r hx htd
          refine inv.todo x r (old x r hx).2 ?_
          rcases htd with h | ⟨h1, h | ⟨h2, h⟩⟩
          · exact Or.inl h
          · exact Or.inr ⟨h1, Or.inl h⟩
          · exact Or.inr ⟨h1, Or.inr ⟨h2, by simp [h]⟩⟩
        · intro x r hx htd
          refine inv.past x r (old x r hx).2 ?_
          intro h
          apply htd
          rcases h with h | ⟨h1, h | ⟨h2, h⟩⟩
          · exact Or.inl h
          · exact Or.inr ⟨h1, Or.inl h⟩
          · exact Or.inr ⟨h1, Or.inr ⟨h2, by simpa [(old x r hx).1] using h⟩⟩
        · exact {
            lab := {
              const := hδ.lab.const
              node := by
                intro x n hx ρ
                by_cases hxa : x = a
                · subst hxa; rw [hheapa] at hx; cases hx
                  simp only
                  rw [hdone ρ, dt, de]
                · rw [hheapn x hxa] at hx; exact hδ.lab.node x n hx ρ }
            pend := fun x j d q hx => hδ.pend x j d q (old x _ hx).2
            done := fun x j d t' e' hx ρ => hδ.done x j d t' e' (old x _ hx).2 ρ
            fwd := fun x j d t' hx => hδ.fwd x j d t' (old x _ hx).2 }
      | true =>
        -- a new node for the complement
        rw [hn] at hlk'; simp only [Edge.phase_true] at hlk'
        obtain ⟨sp, wa⟩ := Store.alloc_spec w i
        have hfr := inv.shape.fresh i
        let n := (b.st.alloc i).1
        let s1 : Store := { (b.st.alloc i).2 with ref := upd (b.st.alloc i).2.ref n (b.st.ref a) }
        have w1 : s1.WF := wa.ref _
        have hh1 : s1.heap = b.st.heap := Store.alloc_heap _ _
        have ho1 : s1.ord = b.st.ord := Store.alloc_ord _ _
        have hl1 : ∀ e, b.st.EOK e → s1.EOK e := fun e h => by
          unfold Store.EOK at h ⊢; rw [hh1]; exact h
        have hlk1 : s1.lookup i t.not e.not = none := by
          have : s1.lookup i t.not e.not = b.st.lookup i t.not e.not := by
            unfold Store.lookup; rw [hh1]
            have : s1.tab = b.st.tab := Store.alloc_tab _ _
            rw [this]
          rw [this]; exact hlk'
        have hold : s1.heap n = none := by rw [hh1]; exact sp.old
        have w2 := Store.insertAt_wf w1 (a := n) hold sp.pos sp.lt sp.notfree
          (i := i) (by rw [ho1]; exact hir) (hl1 _ okt.not) (hl1 _ oke.not)
          (by rw [ho1]; simp; omega) (by rw [ho1]; simp; omega)
          (by simpa using hte) (by simp [hn]) hlk1
        let s2 : Store := s1.insertAt i n t.not e.not
        let s3 : Store := { s2 with numNodes := s2.numNodes + 1, gcCheck := s2.gcCheck - 1 }
        have hle3 : b.st.Le s3 := by
          refine ⟨ho1, fun x m hx => ?_⟩
          have := Store.insertAt_le (s := s1) (i := i) (t := t.not) (e := e.not) (a := n) hold
          exact this.heap x m (by rw [hh1]; exact hx)
        have lab1 : Lab s1 δ := ⟨hδ.lab.const, by rw [hh1]; exact hδ.lab.node⟩
        have lab2 := Lab.insertAt w1 lab1 (i := i) hold sp.pos (hl1 _ okt.not) (hl1 _ oke.not)
        let δ' := upd δ n (fun ρ => if ρ i then den δ t.not ρ else den δ e.not ρ)
        have lab3 : Lab s3 δ' := ⟨lab2.const, lab2.node⟩
        have hag : b.Agree δ δ' := by
          intro x hx
          have : x ≠ n := by rintro rfl; exact hfr hx
          exact upd_ne _ _ this
        have g := grow_store inv hδ (w2.counters _ _) hle3
          (by
            intro x r hx
            have hxn : x ≠ n := by
              rintro rfl; exact hfr (Or.inr (Or.inr (by rw [hx]; simp)))
            have := inv.shape.req_ok x r hx
            refine ⟨?_, ?_, ?_⟩
            · show upd s1.heap n _ x = none
              rw [upd_ne _ _ hxn, hh1]; exact this.1
            · exact Nat.lt_of_lt_of_le this.2.2.1 sp.next_le
            · exact fun j hj => this.2.2.2 j (sp.free_sub j x hj)) lab3 hag
        have hnewn : s3.heap n = some ⟨i, t.not, e.not⟩ := by
          show upd s1.heap n _ n = _; simp
        have hua : δ' a = δ a := hag a (Or.inr (Or.inr (by rw [hr]; simp)))
        have f := set_fwd g.1 g.2.1 (a := a) (t := ⟨i, n, true⟩) hr
          (Or.inr ⟨_, hnewn, rfl⟩) (Nat.le_refl _)
          (by
            funext ρ
            have h1 : δ' n ρ = if ρ i then den δ t.not ρ else den δ e.not ρ := by simp [δ']
            rw [hua, hdone ρ, ← dt, ← de]
            simp only [den] at h1 ⊢
            rw [h1]
            simp only [Edge.not_neg, Edge.not_addr]
            cases ρ i <;> simp) s3.ref
        refine ⟨_, δ', ?_, f.1, f.2.1, g.2.2.trans f.2.2, hag⟩
        simp [reduceOne, hr, ht, he, hte, hlk, hn, s3, s2, s1, n]

end BF
end Cal
