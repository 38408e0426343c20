import Verif.BF
import Verif.StoreLemmas

/-!
# Invariants of the breadth-first engine and the steps of the apply phase
-/

namespace Cal

/-- an edge built from one of the operands or a constant -/
def Cl (xs : List Edge) (e : Edge) : Prop :=
  e = one ∨ e = zero ∨ ∃ o ∈ xs, e = o ∨ e = o.not

/-- What the proofs need to know about the operation-specific part. -/
structure KernelSem {P : Type} (K : Kernel P) where
  sem : (Edge → BFn) → P → BFn
  ops : P → List Edge
  sem_congr : ∀ D D' p, (∀ e ∈ ops p, D e = D' e) → sem D p = sem D' p
  term_inl : ∀ δ p e, δ 0 = (fun _ => true) → (∀ o ∈ ops p, (o.id = 0 ↔ o.addr = 0)) →
    K.term p = .inl e → sem (den δ) p = den δ e ∧ Cl (ops p) e
  term_inr : ∀ δ p q c, δ 0 = (fun _ => true) → (∀ o ∈ ops p, (o.id = 0 ↔ o.addr = 0)) →
    K.term p = .inr (q, c) →
    (sem (den δ) p = fun ρ => xor c (sem (den δ) q ρ)) ∧ (∀ o ∈ ops q, Cl (ops p) o) ∧
      ∃ o ∈ ops q, o.id ≠ 0
  top_law : ∀ (o : Order) p, (∃ x ∈ ops p, x.id ≠ 0) →
    (∀ x ∈ ops p, x.id ≠ 0 → o.lvl x.id < constIndex) →
    K.top o p ≠ 0 ∧ (∃ x ∈ ops p, x.id = K.top o p) ∧
      ∀ x ∈ ops p, o.lvl (K.top o p) ≤ o.lvl x.id
  cof_law : ∀ (o : Order) δ kd p, K.top o p ≠ 0 →
    (∀ x ∈ ops p, ∀ y ∈ ops p, o.lvl x.id = o.lvl y.id → x.id = y.id) →
    (∀ x ∈ ops p, o.lvl (K.top o p) ≤ o.lvl x.id) → (∃ x ∈ ops p, x.id = K.top o p) →
    (∀ x ∈ ops p, x.id = K.top o p → ∃ t e, kd x = some (t, e) ∧
      ∀ ρ, den δ x ρ = if ρ (K.top o p) then den δ t ρ else den δ e ρ) →
    ∃ p1 p2, K.cof o kd p = some (p1, p2) ∧
      (∀ ρ, sem (den δ) p ρ = if ρ (K.top o p) then sem (den δ) p1 ρ else sem (den δ) p2 ρ) ∧
      ∀ y ∈ ops p1 ++ ops p2, (∃ x ∈ ops p, x.id ≠ K.top o p ∧ y = x) ∨
        (∃ x ∈ ops p, x.id = K.top o p ∧ ∃ t e, kd x = some (t, e) ∧ (y = t ∨ y = e))

namespace BF

variable {P : Type}

/-- edge valid in a breadth-first state: a constant, a node, or a request of depth below `d` -/
def EV (b : BF P) (d : Nat) (e : Edge) : Prop :=
  b.st.EOK e ∨ ∃ r, b.req e.addr = some r ∧ r.id = e.id ∧ r.dep < d

/-- structural invariant of the request queues -/
structure Shape {K : Kernel P} (S : KernelSem K) (b : BF P) : Prop where
  wf : b.st.WF
  req_ok : ∀ a r, b.req a = some r → b.st.heap a = none ∧ 0 < a ∧ a < b.st.next ∧
    (∀ i, a ∉ b.st.free i)
  req_id : ∀ a r, b.req a = some r → 1 ≤ r.id ∧ r.id ≤ b.st.ord.numVars
  que_iff : ∀ d i a, a ∈ b.que d i ↔ ∃ r, b.req a = some r ∧ r.id = i ∧ r.dep = d
  que_nodup : ∀ d i, (b.que d i).Nodup
  pend_top : ∀ a i d p, b.req a = some ⟨i, d, .pend p⟩ → K.top b.st.ord p = i
  pend_mem : ∀ a i d p, b.req a = some ⟨i, d, .pend p⟩ → ∃ x ∈ S.ops p, x.id = i
  pend_ops : ∀ a i d p, b.req a = some ⟨i, d, .pend p⟩ →
    ∀ x ∈ S.ops p, b.EV d x ∧ b.st.ord.lvl i ≤ b.st.ord.lvl x.id
  done_thn : ∀ a i d t e, b.req a = some ⟨i, d, .done t e⟩ →
    b.EV (d+1) t ∧ b.st.ord.lvl i < b.st.ord.lvl t.id
  done_els : ∀ a i d t e, b.req a = some ⟨i, d, .done t e⟩ →
    b.EV (d+1) e ∧ b.st.ord.lvl i < b.st.ord.lvl e.id
  nohalf : ∀ a i d e, b.req a ≠ some ⟨i, d, .half e⟩
  fwd_ok : ∀ a i d t, b.req a = some ⟨i, d, .fwd t⟩ →
    b.st.EOK t ∧ b.st.ord.lvl i ≤ b.st.ord.lvl t.id

/-- labelling of nodes and requests by the functions they stand for -/
structure BLab {K : Kernel P} (S : KernelSem K) (b : BF P) (δ : Nat → BFn) : Prop where
  lab : Lab b.st δ
  pend : ∀ a i d p, b.req a = some ⟨i, d, .pend p⟩ → δ a = S.sem (den δ) p
  done : ∀ a i d t e, b.req a = some ⟨i, d, .done t e⟩ →
    ∀ ρ, δ a ρ = if ρ i then den δ t ρ else den δ e ρ
  fwd : ∀ a i d t, b.req a = some ⟨i, d, .fwd t⟩ → δ a = den δ t

/-- address in use -/
def Used (b : BF P) (a : Nat) : Prop := a = 0 ∨ b.st.heap a ≠ none ∨ b.req a ≠ none

theorem EV.used {b : BF P} {d e} (h : b.EV d e) : b.Used e.addr := by
  rcases h with (⟨_, h⟩ | ⟨n, h, _⟩) | ⟨r, h, _⟩
  · exact Or.inl h
  · exact Or.inr (Or.inl (by rw [h]; simp))
  · exact Or.inr (Or.inr (by rw [h]; simp))

/-- `b'` keeps the nodes and requests of `b`; a request may have turned into a node -/
structure Le (b b' : BF P) : Prop where
  st : b.st.Le b'.st
  req : ∀ a r, b.req a = some r → (∃ r', b'.req a = some r' ∧ r'.id = r.id ∧ r'.dep = r.dep) ∨
    ∃ n, b'.st.heap a = some n ∧ n.var = r.id

theorem Le.refl (b : BF P) : b.Le b := ⟨Store.Le.refl _, fun _ r h => Or.inl ⟨r, h, rfl, rfl⟩⟩

theorem Le.trans {b c d : BF P} (h1 : b.Le c) (h2 : c.Le d) : b.Le d := by
  refine ⟨h1.st.trans h2.st, fun a r h => ?_⟩
  rcases h1.req a r h with ⟨r', h', e1, e2⟩ | ⟨n, hn, hv⟩
  · rcases h2.req a r' h' with ⟨r'', h'', e3, e4⟩ | ⟨n, hn, hv⟩
    · exact Or.inl ⟨r'', h'', by omega, by omega⟩
    · exact Or.inr ⟨n, hn, by omega⟩
  · exact Or.inr ⟨n, h2.st.heap _ _ hn, hv⟩

theorem EV.mono {b b' : BF P} (h : b.Le b') {d e} (he : b.EV d e) : b'.EV d e := by
  rcases he with he | ⟨r, hr, h1, h2⟩
  · exact Or.inl (he.mono h.st)
  · rcases h.req _ _ hr with ⟨r', h', e1, e2⟩ | ⟨n, hn, hv⟩
    · exact Or.inr ⟨r', h', by omega, by omega⟩
    · exact Or.inl (Or.inr ⟨n, hn, by omega⟩)

theorem EV.weaken {b : BF P} {d d' e} (hd : d ≤ d') (he : b.EV d e) : b.EV d' e := by
  rcases he with he | ⟨r, hr, h1, h2⟩
  · exact Or.inl he
  · exact Or.inr ⟨r, hr, h1, by omega⟩

theorem EV.phase {b : BF P} {d e} (he : b.EV d e) (c : Bool) : b.EV d (e.phase c) := he
theorem EV.not {b : BF P} {d e} (he : b.EV d e) : b.EV d e.not := he

theorem Used.mono {b b' : BF P} (h : b.Le b') {a} (ha : b.Used a) : b'.Used a := by
  rcases ha with h0 | hh | hr
  · exact Or.inl h0
  · cases hn : b.st.heap a with
    | none => exact absurd hn hh
    | some n => exact Or.inr (Or.inl (by rw [h.st.heap _ _ hn]; simp))
  · cases hn : b.req a with
    | none => exact absurd hn hr
    | some r =>
      rcases h.req _ _ hn with ⟨r', h', _⟩ | ⟨n, hn, _⟩
      · exact Or.inr (Or.inr (by rw [h']; simp))
      · exact Or.inr (Or.inl (by rw [hn]; simp))

/-- two labellings agree on the addresses in use in `b` -/
def Agree (b : BF P) (δ δ' : Nat → BFn) : Prop := ∀ a, b.Used a → δ' a = δ a

theorem Agree.refl (b : BF P) (δ) : b.Agree δ δ := fun _ _ => rfl
theorem Agree.trans {b b' : BF P} (h : b.Le b') {δ δ' δ''} (h1 : b.Agree δ δ')
    (h2 : b'.Agree δ' δ'') : b.Agree δ δ'' :=
  fun a ha => (h2 a (ha.mono h)).trans (h1 a ha)

theorem Agree.den {b : BF P} {δ δ'} (h : b.Agree δ δ') {d e} (he : b.EV d e) :
    den δ' e = den δ e := by
  unfold Cal.den; rw [h _ he.used]

variable {K : Kernel P} {S : KernelSem K}

namespace Shape
variable {b : BF P} (h : Shape S b)
include h

theorem ev_id {d e} (he : b.EV d e) (h0 : e.id ≠ 0) : 1 ≤ e.id ∧ e.id ≤ b.st.ord.numVars := by
  rcases he with he | ⟨r, hr, h1, _⟩
  · obtain ⟨n, hn, hv⟩ := he.node h.wf h0
    rw [← hv]; exact h.wf.var_range _ _ hn
  · rw [← h1]; exact h.req_id _ _ hr

theorem ev_lvl {d e} (he : b.EV d e) (h0 : e.id ≠ 0) :
    b.st.ord.lvl e.id < b.st.ord.numVars :=
  h.wf.ord.lvl_lt (h.ev_id he h0).1 (h.ev_id he h0).2

theorem ev_lvl_const {d e} (he : b.EV d e) (h0 : e.id ≠ 0) :
    b.st.ord.lvl e.id < constIndex :=
  Nat.lt_trans (h.ev_lvl he h0) h.wf.ord.bound

theorem ev_good {d e} (he : b.EV d e) : e.id = 0 ↔ e.addr = 0 := by
  rcases he with he | ⟨r, hr, h1, _⟩
  · exact (he.addr_zero h.wf).symm
  · have := h.req_id _ _ hr
    have := (h.req_ok _ _ hr).2.1
    constructor <;> intro <;> omega

theorem ev_lvl_inj {d d' e f} (he : b.EV d e) (hf : b.EV d' f)
    (hl : b.st.ord.lvl e.id = b.st.ord.lvl f.id) : e.id = f.id := by
  by_cases h1 : e.id = 0
  · by_cases h2 : f.id = 0
    · omega
    · have := h.ev_lvl_const hf h2; rw [← hl, h1] at this; simp at this
  · by_cases h2 : f.id = 0
    · have := h.ev_lvl_const he h1; rw [hl, h2] at this; simp at this
    · exact h.wf.ord.lvl_inj (h.ev_id he h1).1 (h.ev_id he h1).2 (h.ev_id hf h2).1
        (h.ev_id hf h2).2 hl

end Shape

/-- Freshly allocated addresses are unused. -/
theorem Shape.fresh {b : BF P} (h : Shape S b) (i : Nat) : ¬ b.Used (b.st.alloc i).1 := by
  have sp := (Store.alloc_spec h.wf i).1
  rintro (h0 | hh | hr)
  · have := sp.pos; omega
  · exact hh sp.old
  · cases hn : b.req (b.st.alloc i).1 with
    | none => exact hr hn
    | some r =>
      have := h.req_ok _ _ hn
      rcases sp.was_free with ⟨j, hj⟩ | hj
      · exact this.2.2.2 j hj
      · rw [hj] at this; omega

theorem den_upd_ne {δ : Nat → BFn} {a F} {e : Edge} (h : e.addr ≠ a) :
    Cal.den (upd δ a F) e = Cal.den δ e := by
  unfold Cal.den; rw [upd_ne _ _ h]

/-- A search that only meets pending requests succeeds. -/
theorem findReq_ok [DecidableEq P] (b : BF P) (p : P) (L : List Nat)
    (h : ∀ a ∈ L, ∃ i d q, b.req a = some ⟨i, d, .pend q⟩) :
    (∃ a ∈ L, ∃ i d, b.req a = some ⟨i, d, .pend p⟩ ∧ b.findReq p L = some (some a)) ∨
      b.findReq p L = some none := by
  induction L with
  | nil => right; rfl
  | cons a as ih =>
    obtain ⟨i, d, q, hq⟩ := h a (by simp)
    simp only [findReq, hq]
    by_cases hqp : q = p
    · left; subst hqp; exact ⟨a, by simp, i, d, hq, by simp⟩
    · simp only [hqp, if_false]
      rcases ih (fun x hx => h x (by simp [hx])) with ⟨x, hx, i, d, h1, h2⟩ | h2
      · left; exact ⟨x, by simp [hx], i, d, h1, h2⟩
      · right; exact h2

/-- The state after adding a pending request at a fresh address. -/
theorem add_pend {b : BF P} (h : Shape S b) (d i : Nat) (p : P)
    (hi : 1 ≤ i ∧ i ≤ b.st.ord.numVars) (htop : K.top b.st.ord p = i)
    (hmem : ∃ x ∈ S.ops p, x.id = i)
    (hops : ∀ x ∈ S.ops p, b.EV d x ∧ b.st.ord.lvl i ≤ b.st.ord.lvl x.id)
    {δ} (hδ : BLab S b δ) :
    let a := (b.st.alloc i).1
    let b' : BF P := b.pushReq d i p
    Shape S b' ∧ b.Le b' ∧ BLab S b' (upd δ a (S.sem (den δ) p)) ∧
      b.Agree δ (upd δ a (S.sem (den δ) p)) ∧ b'.EV (d+1) ⟨i, a, false⟩ := by
  intro a b'
  obtain ⟨sp, w'⟩ := Store.alloc_spec h.wf i
  have hfr := h.fresh i
  have hheap : b'.st.heap = b.st.heap := Store.alloc_heap _ _
  have hord : b'.st.ord = b.st.ord := Store.alloc_ord _ _
  have ha_req : b.req a = none := by
    cases hn : b.req a with
    | none => rfl
    | some r => exact absurd (Or.inr (Or.inr (by rw [hn]; simp))) hfr
  have hreq_ne : ∀ x, x ≠ a → b'.req x = b.req x := fun x hx => upd_ne _ _ hx
  have hreq_a : b'.req a = some ⟨i, d, .pend p⟩ := upd_same _ _ _
  have hle : b.Le b' := by
    refine ⟨⟨hord, fun x n hn => by rw [hheap]; exact hn⟩, fun x r hr => Or.inl ⟨r, ?_, rfl, rfl⟩⟩
    have : x ≠ a := by rintro rfl; rw [ha_req] at hr; cases hr
    rw [hreq_ne x this]; exact hr
  have hold : ∀ x r, b'.req x = some r → x ≠ a → b.req x = some r := by
    intro x r hr hx; rwa [hreq_ne x hx] at hr
  have hda : ∀ {D e}, b.EV D e → e.addr ≠ a := by
    intro D e he hea; have := he.used; rw [hea] at this; exact hfr this
  have hag : b.Agree δ (upd δ a (S.sem (den δ) p)) := by
    intro x hx
    have : x ≠ a := by rintro rfl; exact hfr hx
    exact upd_ne _ _ this
  refine ⟨?_, hle, ?_, hag, ?_⟩
  · exact {
      wf := w'
      req_ok := by
        intro x r hr
        by_cases hx : x = a
        · subst hx; exact ⟨by rw [hheap]; exact sp.old, sp.pos, sp.lt, sp.notfree⟩
        · have := h.req_ok x r (hold x r hr hx)
          exact ⟨by rw [hheap]; exact this.1, this.2.1, Nat.lt_of_lt_of_le this.2.2.1 sp.next_le,
            fun j hj => this.2.2.2 j (sp.free_sub j x hj)⟩
      req_id := by
        intro x r hr
        by_cases hx : x = a
        · subst hx; rw [hreq_a] at hr; cases hr; rw [hord]; exact hi
        · rw [hord]; exact h.req_id x r (hold x r hr hx)
      que_iff := by
        intro d' i' x
        by_cases hdi : d' = d ∧ i' = i
        · obtain ⟨rfl, rfl⟩ := hdi
          simp only [b', pushReq, upd2, and_self, if_true, List.mem_cons]
          constructor
          · rintro (rfl | hx)
            · exact ⟨_, hreq_a, rfl, rfl⟩
            · obtain ⟨r, hr, h1, h2⟩ := (h.que_iff d' i' x).1 hx
              have : x ≠ a := by rintro rfl; rw [ha_req] at hr; cases hr
              exact ⟨r, by rw [← hreq_ne x this] at hr; exact hr, h1, h2⟩
          · rintro ⟨r, hr, h1, h2⟩
            by_cases hx : x = a
            · left; exact hx
            · right; exact (h.que_iff d' i' x).2 ⟨r, hold x r hr hx, h1, h2⟩
        · simp only [b', pushReq, upd2, hdi, if_false]
          rw [h.que_iff d' i' x]
          constructor
          · rintro ⟨r, hr, h1, h2⟩
            have : x ≠ a := by rintro rfl; rw [ha_req] at hr; cases hr
            exact ⟨r, by rw [← hreq_ne x this] at hr; exact hr, h1, h2⟩
          · rintro ⟨r, hr, h1, h2⟩
            by_cases hx : x = a
            · subst hx
              have hr : b'.req a = some r := hr
              rw [hreq_a] at hr; cases hr; exact absurd ⟨h2.symm, h1.symm⟩ hdi
            · exact ⟨r, hold x r hr hx, h1, h2⟩
      que_nodup := by
        intro d' i'
        by_cases hdi : d' = d ∧ i' = i
        · obtain ⟨rfl, rfl⟩ := hdi
          simp only [b', pushReq, upd2, and_self, if_true, List.nodup_cons]
          refine ⟨fun hx => ?_, h.que_nodup _ _⟩
          obtain ⟨r, hr, _⟩ := (h.que_iff d' i' a).1 hx
          rw [ha_req] at hr; cases hr
        · simp only [b', pushReq, upd2, hdi, if_false]; exact h.que_nodup _ _
      pend_top := by
        intro x i' d' q hr
        rw [hord]
        by_cases hx : x = a
        · subst hx; rw [hreq_a] at hr; cases hr; exact htop
        · exact h.pend_top x i' d' q (hold x _ hr hx)
      pend_mem := by
        intro x i' d' q hr
        by_cases hx : x = a
        · subst hx; rw [hreq_a] at hr; cases hr; exact hmem
        · exact h.pend_mem x i' d' q (hold x _ hr hx)
      pend_ops := by
        intro x i' d' q hr y hy
        rw [hord]
        by_cases hx : x = a
        · subst hx; rw [hreq_a] at hr; cases hr
          exact ⟨(hops y hy).1.mono hle, (hops y hy).2⟩
        · have := h.pend_ops x i' d' q (hold x _ hr hx) y hy
          exact ⟨this.1.mono hle, this.2⟩
      done_thn := by
        intro x i' d' t e hr
        rw [hord]
        by_cases hx : x = a
        · subst hx; rw [hreq_a] at hr; cases hr
        · have := h.done_thn x i' d' t e (hold x _ hr hx)
          exact ⟨this.1.mono hle, this.2⟩
      done_els := by
        intro x i' d' t e hr
        rw [hord]
        by_cases hx : x = a
        · subst hx; rw [hreq_a] at hr; cases hr
        · have := h.done_els x i' d' t e (hold x _ hr hx)
          exact ⟨this.1.mono hle, this.2⟩
      nohalf := by
        intro x i' d' t hr
        by_cases hx : x = a
        · subst hx; rw [hreq_a] at hr; cases hr
        · exact h.nohalf x i' d' t (hold x _ hr hx)
      fwd_ok := by
        intro x i' d' t hr
        rw [hord]
        by_cases hx : x = a
        · subst hx; rw [hreq_a] at hr; cases hr
        · have := h.fwd_ok x i' d' t (hold x _ hr hx)
          exact ⟨this.1.mono hle.st, this.2⟩ }
  · have hdu : ∀ {D e}, b.EV D e → Cal.den (upd δ a (S.sem (den δ) p)) e = Cal.den δ e :=
      fun he => den_upd_ne (hda he)
    have h0 : (0:Nat) ≠ a := by have := sp.pos; omega
    exact {
      lab := {
        const := by rw [upd_ne _ _ h0]; exact hδ.lab.const
        node := by
          intro x n hn ρ
          rw [hheap] at hn
          have hx : x ≠ a := by
            rintro rfl; exact hfr (Or.inr (Or.inl (by rw [hn]; simp)))
          rw [upd_ne _ _ hx, hdu (D := 0) (Or.inl (h.wf.thn_ok _ _ hn)),
            hdu (D := 0) (Or.inl (h.wf.els_ok _ _ hn))]
          exact hδ.lab.node x n hn ρ }
      pend := by
        intro x i' d' q hr
        by_cases hx : x = a
        · subst hx; rw [hreq_a] at hr; cases hr
          rw [upd_same]
          exact S.sem_congr _ _ _ fun e he => (hdu (hops e he).1).symm
        · rw [upd_ne _ _ hx, hδ.pend x i' d' q (hold x _ hr hx)]
          exact S.sem_congr _ _ _ fun e he =>
            (hdu (h.pend_ops x i' d' q (hold x _ hr hx) e he).1).symm
      done := by
        intro x i' d' t e hr ρ
        by_cases hx : x = a
        · subst hx; rw [hreq_a] at hr; cases hr
        · have hr := hold x _ hr hx
          rw [upd_ne _ _ hx, hdu (h.done_thn x i' d' t e hr).1, hdu (h.done_els x i' d' t e hr).1]
          exact hδ.done x i' d' t e hr ρ
      fwd := by
        intro x i' d' t hr
        by_cases hx : x = a
        · subst hx; rw [hreq_a] at hr; cases hr
        · have hr := hold x _ hr hx
          rw [upd_ne _ _ hx, hdu (D := 0) (Or.inl (h.fwd_ok x i' d' t hr).1)]
          exact hδ.fwd x i' d' t hr }
  · exact Or.inr ⟨_, hreq_a, rfl, Nat.lt_succ_self _⟩

/-! ## The apply phase -/

/-- Whether the request at `a` is still to be applied when the apply phase stands at index `k`,
depth `D`, with the requests `L` of that table left. -/
def ToDo (b : BF P) (k D : Nat) (L : List Nat) (a : Nat) (r : Req P) : Prop :=
  k < b.st.ord.lvl r.id ∨ (b.st.ord.lvl r.id = k ∧ (D < r.dep ∨ (r.dep = D ∧ a ∈ L)))

/-- bounds of a run: number of depths in use and smallest index with requests -/
structure Bnd where
  dep : Nat
  lo : Nat

/-- Apply-phase invariant. -/
structure AInv (S : KernelSem K) (M : Bnd) (b : BF P) (k D : Nat) (L : List Nat) : Prop where
  shape : Shape S b
  dep_lt : ∀ a r, b.req a = some r → r.dep < M.dep
  lo_le : ∀ a r, b.req a = some r → M.lo ≤ b.st.ord.lvl r.id
  left : ∀ a ∈ L, ∃ r, b.req a = some r ∧ b.st.ord.lvl r.id = k ∧ r.dep = D
  left_nodup : L.Nodup
  todo : ∀ a r, b.req a = some r → b.ToDo k D L a r → ∃ p, r.cell = .pend p
  past : ∀ a r, b.req a = some r → ¬ b.ToDo k D L a r → ∃ t e, r.cell = .done t e

/-- `findOrAddReq` for operands that are not all constant. -/
theorem findOrAddReq_core [DecidableEq P] {b : BF P} (sh : Shape S b) {δ} (hδ : BLab S b δ)
    {κ : Nat}
    (hpd : ∀ a r, b.req a = some r → κ ≤ b.st.ord.lvl r.id → ∃ p, r.cell = .pend p)
    {q : P} {d : Nat} (hnc : ∃ o ∈ S.ops q, o.id ≠ 0)
    (hq : ∀ x ∈ S.ops q, b.EV d x ∧ κ ≤ b.st.ord.lvl x.id) :
    ∃ b' r δ', b.findOrAddReq d (K.top b.st.ord q) q = some (b', r) ∧ Shape S b' ∧ BLab S b' δ' ∧
      b.Le b' ∧ b.Agree δ δ' ∧ b'.EV (d+1) r ∧ κ ≤ b'.st.ord.lvl r.id ∧
      den δ' r = S.sem (den δ) q ∧
      (∀ a r, b.req a = some r → b'.req a = some r) ∧
      (∀ a r, b'.req a = some r → b.req a = some r ∨
        (r.dep = d ∧ κ ≤ b'.st.ord.lvl r.id ∧ ∃ q, r.cell = .pend q)) ∧
      r.id = K.top b.st.ord q ∧ (∃ rq, b'.req r.addr = some rq) := by
  obtain ⟨t0, tm, tmin⟩ := S.top_law b.st.ord q hnc
    (fun x hx h0 => sh.ev_lvl_const (hq x hx).1 h0)
  generalize hi : K.top b.st.ord q = i at t0 tm tmin
  obtain ⟨y, hy, hyi⟩ := tm
  have hir : 1 ≤ i ∧ i ≤ b.st.ord.numVars := by
    have := sh.ev_id (hq y hy).1 (by rw [hyi]; exact t0)
    rwa [hyi] at this
  have hki : κ ≤ b.st.ord.lvl i := by rw [← hyi]; exact (hq y hy).2
  have hpend : ∀ a ∈ b.que d i, ∃ i d q, b.req a = some ⟨i, d, .pend q⟩ := by
    intro a ha
    obtain ⟨r, hr, h1, h2⟩ := (sh.que_iff d i a).1 ha
    obtain ⟨p', hp'⟩ := hpd a r hr (by rw [h1]; exact hki)
    obtain ⟨ri, rd, rc⟩ := r
    simp only at hp'
    subst hp'
    exact ⟨_, _, _, hr⟩
  rcases findReq_ok b q (b.que d i) hpend with ⟨a, ha, i', d', hr, hf⟩ | hf
  · obtain ⟨r, hr', h1, h2⟩ := (sh.que_iff d i a).1 ha
    rw [hr] at hr'; cases hr'
    simp only at h1 h2; subst h1; subst h2
    refine ⟨b, ⟨i', a, false⟩, δ, ?_, sh, hδ, Le.refl _, Agree.refl _ _, ?_, ?_,
      ?_, fun _ _ h => h, fun _ _ h => Or.inl h, rfl, _, hr⟩
    · simp [findOrAddReq, hf]
    · exact Or.inr ⟨_, hr, rfl, Nat.lt_succ_self _⟩
    · exact hki
    · funext ρ
      have := congrFun (hδ.pend a _ _ _ hr) ρ
      simp [Cal.den, this]
  · have ap := add_pend sh d i q hir hi ⟨y, hy, hyi⟩
      (fun x hx => ⟨(hq x hx).1, tmin x hx⟩) hδ
    have ha_req : b.req (b.st.alloc i).1 = none := by
      cases hn : b.req (b.st.alloc i).1 with
      | none => rfl
      | some r => exact absurd (Or.inr (Or.inr (by rw [hn]; simp))) (sh.fresh i)
    generalize hb' : b.pushReq d i q = b' at ap
    obtain ⟨sh', hle, hbl, hag, hev⟩ := ap
    have hreq_ne : ∀ x, x ≠ (b.st.alloc i).1 → b'.req x = b.req x := by
      intro x hx; rw [← hb']; exact upd_ne _ _ hx
    have hreq_a : b'.req (b.st.alloc i).1 = some ⟨i, d, .pend q⟩ := by
      rw [← hb']; exact upd_same _ _ _
    refine ⟨b', ⟨i, (b.st.alloc i).1, false⟩, _, ?_, sh', hbl, hle, hag, hev, ?_,
      ?_, ?_, ?_, rfl, _, hreq_a⟩
    · simp [findOrAddReq, hf, ← hb']
    · rw [hle.st.ord]; exact hki
    · funext ρ
      simp [Cal.den]
    · intro a r hr
      have : a ≠ (b.st.alloc i).1 := by rintro rfl; rw [ha_req] at hr; cases hr
      rw [hreq_ne a this]; exact hr
    · intro a r hr
      by_cases hx : a = (b.st.alloc i).1
      · subst hx; rw [hreq_a] at hr; cases hr
        exact Or.inr ⟨rfl, by rw [hle.st.ord]; exact hki, q, rfl⟩
      · rw [hreq_ne a hx] at hr; exact Or.inl hr

/-- One operand tuple: the call succeeds and its result stands for the right function. All request
tables from level `κ` on hold only pending requests. -/
theorem request_core [DecidableEq P] {b : BF P} (sh : Shape S b) {δ} (hδ : BLab S b δ) {κ : Nat}
    (hpd : ∀ a r, b.req a = some r → κ ≤ b.st.ord.lvl r.id → ∃ p, r.cell = .pend p)
    (hk : κ ≤ constIndex) {p : P} {d : Nat}
    (hops : ∀ x ∈ S.ops p, b.EV d x ∧ κ ≤ b.st.ord.lvl x.id) :
    ∃ b' r δ', b.request K d p = some (b', r) ∧ Shape S b' ∧ BLab S b' δ' ∧ b.Le b' ∧
      b.Agree δ δ' ∧ b'.EV (d+1) r ∧ κ ≤ b'.st.ord.lvl r.id ∧ den δ' r = S.sem (den δ) p ∧
      (∀ a r, b.req a = some r → b'.req a = some r) ∧
      (∀ a r, b'.req a = some r → b.req a = some r ∨
        (r.dep = d ∧ κ ≤ b'.st.ord.lvl r.id ∧ ∃ q, r.cell = .pend q)) := by
  have hgood : ∀ o ∈ S.ops p, (o.id = 0 ↔ o.addr = 0) := fun o ho => sh.ev_good (hops o ho).1
  cases ht : K.term p with
  | inl e =>
    obtain ⟨hs, hcl⟩ := S.term_inl δ p e hδ.lab.const hgood ht
    refine ⟨b, e, δ, by simp [request, ht], sh, hδ, Le.refl _, Agree.refl _ _, ?_, ?_, hs.symm,
      fun _ _ h => h, fun _ _ h => Or.inl h⟩
    · rcases hcl with rfl | rfl | ⟨o, ho, rfl | rfl⟩
      · exact Or.inl (Store.EOK_one _)
      · exact Or.inl (Store.EOK_zero _)
      · exact (hops _ ho).1.weaken (Nat.le_succ _)
      · exact (hops _ ho).1.not.weaken (Nat.le_succ _)
    · rcases hcl with rfl | rfl | ⟨o, ho, rfl | rfl⟩
      · simpa using hk
      · simpa using hk
      · exact (hops _ ho).2
      · exact (hops _ ho).2
  | inr qc =>
    obtain ⟨q, c⟩ := qc
    obtain ⟨hs, hcl, hnc⟩ := S.term_inr δ p q c hδ.lab.const hgood ht
    have hq : ∀ x ∈ S.ops q, b.EV d x ∧ κ ≤ b.st.ord.lvl x.id := by
      intro x hx
      rcases hcl x hx with rfl | rfl | ⟨o, ho, rfl | rfl⟩
      · exact ⟨Or.inl (Store.EOK_one _), by simpa using hk⟩
      · exact ⟨Or.inl (Store.EOK_zero _), by simpa using hk⟩
      · exact hops _ ho
      · exact hops o ho
    obtain ⟨b', r, δ', h1, h2, h3, h4, h5, h6, h7, h8, h9, h10, -⟩ :=
      findOrAddReq_core sh hδ hpd hnc hq
    refine ⟨b', r.phase c, δ', by simp [request, ht, h1], h2, h3, h4, h5, h6.phase c, h7, ?_, h9,
      h10⟩
    rw [den_phase, hs, h8]

theorem request_spec [DecidableEq P] {M : Bnd} {b : BF P} {k D L}
    (inv : AInv S M b k D L) {δ} (hδ : BLab S b δ) (hk : k < constIndex) (hlo : M.lo ≤ k) {p : P}
    {d : Nat} (hd : d < M.dep)
    (hops : ∀ x ∈ S.ops p, b.EV d x ∧ k < b.st.ord.lvl x.id) :
    ∃ b' r δ', b.request K d p = some (b', r) ∧ AInv S M b' k D L ∧ BLab S b' δ' ∧ b.Le b' ∧
      b.Agree δ δ' ∧ b'.EV (d+1) r ∧ k < b'.st.ord.lvl r.id ∧ den δ' r = S.sem (den δ) p ∧
      (∀ a r, b.req a = some r → b'.req a = some r) := by
  obtain ⟨b', r, δ', h1, sh, bl, le, ag, ev, lv, dn, kp, nw⟩ :=
    request_core inv.shape hδ (κ := k+1)
      (fun a r hr hl => inv.todo a r hr (Or.inl hl)) hk hops
  refine ⟨b', r, δ', h1, ⟨sh, ?_, ?_, ?_, inv.left_nodup, ?_, ?_⟩, bl, le, ag, ev, lv, dn, kp⟩
  · intro a r hr
    rcases nw a r hr with h | ⟨h, _⟩
    · exact inv.dep_lt a r h
    · omega
  · intro a r hr
    rcases nw a r hr with h | ⟨_, h, _⟩
    · rw [le.st.ord]; exact inv.lo_le a r h
    · omega
  · intro a ha
    obtain ⟨r, hr, h1, h2⟩ := inv.left a ha
    exact ⟨r, kp a r hr, by rw [le.st.ord]; exact h1, h2⟩
  · intro a r hr htd
    rcases nw a r hr with h | ⟨_, _, h⟩
    · exact inv.todo a r h (by unfold ToDo at htd ⊢; rwa [le.st.ord] at htd)
    · exact h
  · intro a r hr htd
    rcases nw a r hr with h | ⟨_, h, _⟩
    · exact inv.past a r h (by unfold ToDo at htd ⊢; rwa [le.st.ord] at htd)
    · exact absurd (Or.inl h) htd

theorem icr_kids (b : BF P) (e : Edge) : (b.icr e).kids = b.kids := rfl

theorem Le.icr (b : BF P) (e : Edge) : b.Le (b.icr e) :=
  ⟨⟨rfl, fun _ _ h => h⟩, fun _ r h => Or.inl ⟨r, h, rfl, rfl⟩⟩

theorem Shape.icr {b : BF P} (h : Shape S b) (e : Edge) : Shape S (b.icr e) :=
  { wf := h.wf.ref _, req_ok := h.req_ok, req_id := h.req_id, que_iff := h.que_iff,
    que_nodup := h.que_nodup, pend_top := h.pend_top, pend_mem := h.pend_mem,
    pend_ops := h.pend_ops, done_thn := h.done_thn, done_els := h.done_els,
    nohalf := h.nohalf, fwd_ok := h.fwd_ok }

theorem AInv.icr {M} {b : BF P} {k D L} (h : AInv S M b k D L) (e : Edge) :
    AInv S M (b.icr e) k D L :=
  { shape := h.shape.icr e, dep_lt := h.dep_lt, lo_le := h.lo_le, left := h.left, left_nodup := h.left_nodup,
    todo := h.todo, past := h.past }

theorem BLab.icr {b : BF P} {δ} (h : BLab S b δ) (e : Edge) : BLab S (b.icr e) δ :=
  { lab := { const := h.lab.const, node := h.lab.node }, pend := h.pend, done := h.done,
    fwd := h.fwd }

/-- children of valid edges above the frontier can be read and satisfy Shannon's equation -/
theorem kids_spec {M} {b : BF P} {k D L} (inv : AInv S M b k D L) {δ} (hδ : BLab S b δ) {e : Edge}
    (he : b.EV D e) (hl : b.st.ord.lvl e.id = k) (h0 : e.id ≠ 0) :
    ∃ t u, b.kids e = some (t, u) ∧ (∀ ρ, den δ e ρ = if ρ e.id then den δ t ρ else den δ u ρ) ∧
      b.EV D t ∧ b.EV D u ∧ k < b.st.ord.lvl t.id ∧ k < b.st.ord.lvl u.id := by
  rcases he with he | ⟨r, hr, h1, h2⟩
  · obtain ⟨n, hn, hv⟩ := he.node inv.shape.wf h0
    refine ⟨n.thn.phase e.neg, n.els.phase e.neg, by simp [kids, hn], ?_, ?_, ?_, ?_, ?_⟩
    · intro ρ
      have := hδ.lab.node _ _ hn ρ
      rw [den_phase, den_phase, ← hv]
      simp only [den, this]
      split <;> rfl
    · exact Or.inl ((inv.shape.wf.thn_ok _ _ hn).phase _)
    · exact Or.inl ((inv.shape.wf.els_ok _ _ hn).phase _)
    · have := inv.shape.wf.thn_lt _ _ hn; rw [hv, hl] at this; exact this
    · have := inv.shape.wf.els_lt _ _ hn; rw [hv, hl] at this; exact this
  · have hnt : ¬ b.ToDo k D L e.addr r := by
      rintro (h | ⟨_, h | h⟩)
      · rw [h1, hl] at h; omega
      · omega
      · omega
    obtain ⟨t, u, hc⟩ := inv.past _ _ hr hnt
    obtain ⟨ri, rd, rc⟩ := r
    simp only at hc h1 h2
    subst hc; subst h1
    have hh := (inv.shape.req_ok _ _ hr).1
    refine ⟨t.phase e.neg, u.phase e.neg, by simp [kids, hh, hr], ?_, ?_, ?_, ?_, ?_⟩
    · intro ρ
      have := hδ.done _ _ _ _ _ hr ρ
      rw [den_phase, den_phase]
      simp only [den, this]
      split <;> rfl
    · exact ((inv.shape.done_thn _ _ _ _ _ hr).1.phase _).weaken h2
    · exact ((inv.shape.done_els _ _ _ _ _ hr).1.phase _).weaken h2
    · have := (inv.shape.done_thn _ _ _ _ _ hr).2; rw [hl] at this; exact this
    · have := (inv.shape.done_els _ _ _ _ _ hr).2; rw [hl] at this; exact this

/-- The steps of `applyOne`: two requests, with the facts that hold between them. -/
theorem applyOne_trace [DecidableEq P] {M : Bnd} {b : BF P} {k D a L}
    (inv : AInv S M b k D (a :: L)) {δ} (hδ : BLab S b δ) :
    ∃ i p p1 p2 b1 t δ1 b2 e δ2, b.req a = some ⟨i, D, .pend p⟩ ∧ b.st.ord.lvl i = k ∧
      K.cof b.st.ord b.kids p = some (p1, p2) ∧
      b.request K D p1 = some (b1, t) ∧ AInv S M b1 k D (a :: L) ∧ BLab S b1 δ1 ∧ b.Le b1 ∧
      b1.EV (D+1) t ∧ k < b1.st.ord.lvl t.id ∧
      (b1.icr t).request K D p2 = some (b2, e) ∧ AInv S M b2 k D (a :: L) ∧ BLab S b2 δ2 ∧
      (b1.icr t).Le b2 ∧ b2.EV (D+1) e ∧ k < b2.st.ord.lvl e.id ∧ b.Agree δ δ2 ∧
      b2.req a = some ⟨i, D, .pend p⟩ ∧ den δ2 t = S.sem (den δ) p1 ∧
      den δ2 e = S.sem (den δ) p2 ∧
      (∀ ρ, S.sem (den δ) p ρ = if ρ i then S.sem (den δ) p1 ρ else S.sem (den δ) p2 ρ) := by
  obtain ⟨r, hr, hl, hd⟩ := inv.left a (by simp)
  obtain ⟨p, hp⟩ := inv.todo a r hr (Or.inr ⟨hl, Or.inr ⟨hd, by simp⟩⟩)
  have hnd := inv.left_nodup
  simp only [List.nodup_cons] at hnd
  obtain ⟨i, D', c⟩ := r
  simp only at hp hl hd
  subst hp; subst hd
  have hdM : D' < M.dep := inv.dep_lt _ _ hr
  have hloM : M.lo ≤ k := by rw [← hl]; exact inv.lo_le _ _ hr
  have htop := inv.shape.pend_top _ _ _ _ hr
  have hmem := inv.shape.pend_mem _ _ _ _ hr
  have hops := inv.shape.pend_ops _ _ _ _ hr
  have hir := inv.shape.req_id _ _ hr
  simp only at hir
  have hi0 : i ≠ 0 := by omega
  have hk : k < constIndex := by
    rw [← hl]; exact Nat.lt_trans (inv.shape.wf.ord.lvl_lt hir.1 hir.2) inv.shape.wf.ord.bound
  obtain ⟨p1, p2, hcof, hsh, hsub⟩ := S.cof_law b.st.ord δ b.kids p (by rw [htop]; exact hi0)
    (fun x hx y hy h => inv.shape.ev_lvl_inj (hops x hx).1 (hops y hy).1 h)
    (fun x hx => by rw [htop]; exact (hops x hx).2) (by rw [htop]; exact hmem)
    (by
      intro x hx hxi
      rw [htop] at hxi ⊢
      obtain ⟨t, u, h1, h2, _⟩ := kids_spec inv hδ (hops x hx).1 (by rw [hxi]; exact hl)
        (by rw [hxi]; exact hi0)
      rw [hxi] at h2
      exact ⟨t, u, h1, h2⟩)
  rw [htop] at hsh
  have hsubok : ∀ y ∈ S.ops p1 ++ S.ops p2, b.EV D' y ∧ k < b.st.ord.lvl y.id := by
    intro y hy
    rcases hsub y hy with ⟨x, hx, hne, rfl⟩ | ⟨x, hx, hxi, t, e, hk1, hye⟩
    · refine ⟨(hops y hx).1, ?_⟩
      rcases Nat.lt_or_ge k (b.st.ord.lvl y.id) with h | h
      · exact h
      · exfalso
        have h2 := (hops y hx).2
        rw [hl] at h2
        obtain ⟨z, hz, hzi⟩ := hmem
        have : y.id = z.id := inv.shape.ev_lvl_inj (hops y hx).1 (hops z hz).1
          (by rw [hzi, hl]; omega)
        rw [htop] at hne; omega
    · rw [htop] at hxi
      obtain ⟨t', u', h1, _, h3, h4, h5, h6⟩ := kids_spec inv hδ (hops x hx).1
        (by rw [hxi]; exact hl) (by rw [hxi]; exact hi0)
      rw [h1] at hk1; cases hk1
      rcases hye with rfl | rfl
      · exact ⟨h3, h5⟩
      · exact ⟨h4, h6⟩
  obtain ⟨b1, t, δ1, q1, inv1, bl1, le1, ag1, ev1, lv1, dn1, kp1⟩ :=
    request_spec inv hδ hk hloM hdM (p := p1) (fun x hx => hsubok x (by simp [hx]))
  have inv1' := inv1.icr t
  have bl1' := bl1.icr t
  have le1' := le1.trans (Le.icr b1 t)
  obtain ⟨b2, e, δ2, q2, inv2, bl2, le2, ag2, ev2, lv2, dn2, kp2⟩ :=
    request_spec inv1' bl1' hk hloM hdM (p := p2)
      (fun x hx => ⟨(hsubok x (by simp [hx])).1.mono le1', by
        rw [le1'.st.ord]; exact (hsubok x (by simp [hx])).2⟩)
  have inv3 := inv2.icr e
  have bl3 := bl2.icr e
  have le3 := le2.trans (Le.icr b2 e)
  have ag12 : b.Agree δ δ2 := Agree.trans le1' ag1 ag2
  have lefull := le1'.trans le3
  have hr3 : (b2.icr e).req a = some ⟨i, D', .pend p⟩ := kp2 _ _ (kp1 _ _ hr)
  have htden : den δ2 t = S.sem (den δ) p1 := by
    rw [← dn1]; exact ag2.den (ev1.mono (Le.icr b1 t))
  have heden : den δ2 e = S.sem (den δ) p2 := by
    rw [dn2]; exact S.sem_congr _ _ _ fun x hx => ag1.den (hsubok x (by simp [hx])).1
  exact ⟨i, p, p1, p2, b1, t, δ1, b2, e, δ2, hr, hl, hcof, q1, inv1, bl1, le1, ev1, lv1, q2, inv2,
    bl2, le2, ev2, lv2, ag12, hr3, htden, heden, hsh⟩

/-- One iteration of the apply loop. -/
theorem applyOne_spec [DecidableEq P] {M : Bnd} {b : BF P} {k D a L}
    (inv : AInv S M b k D (a :: L)) {δ} (hδ : BLab S b δ) :
    ∃ b' δ', b.applyOne K D a = some b' ∧ AInv S M b' k D L ∧ BLab S b' δ' ∧ b.Le b' ∧
      b.Agree δ δ' := by
  obtain ⟨i, p, p1, p2, b1, t, δ1, b2, e, δ2, hr, hl, hcof, q1, inv1, bl1, le1, ev1, lv1, q2, inv2,
    bl2, le2, ev2, lv2, ag12, hr2, htden, heden, hsh⟩ := applyOne_trace inv hδ
  have hnd := inv.left_nodup
  simp only [List.nodup_cons] at hnd
  have inv3 := inv2.icr e
  have bl3 := bl2.icr e
  have le1' := le1.trans (Le.icr b1 t)
  have le3 := le2.trans (Le.icr b2 e)
  have lefull := le1'.trans le3
  have hr3 : (b2.icr e).req a = some ⟨i, D, .pend p⟩ := hr2
  have hdM : D < M.dep := inv.dep_lt _ _ hr
  generalize hb3 : b2.icr e = b3 at *
  have evt : b3.EV (D+1) t := (ev1.mono (Le.icr b1 t)).mono le3
  have eve : b3.EV (D+1) e := ev2.mono (by rw [← hb3]; exact Le.icr b2 e)
  have hord3 : b3.st.ord = b.st.ord := lefull.st.ord
  have lvt : k < b3.st.ord.lvl t.id := by
    rw [le3.st.ord]; exact lv1
  have lve : k < b3.st.ord.lvl e.id := by
    rw [← hb3]; exact lv2
  have hle4 : b3.Le { b3 with req := upd b3.req a (some ⟨i, D, .done t e⟩) } := by
    refine ⟨⟨rfl, fun _ _ h => h⟩, fun x r hx => Or.inl ?_⟩
    by_cases hxa : x = a
    · subst hxa; rw [hr3] at hx; cases hx; exact ⟨_, upd_same _ _ _, rfl, rfl⟩
    · exact ⟨r, by simp only [upd_ne _ _ hxa]; exact hx, rfl, rfl⟩
  have hl3 : b3.st.ord.lvl i = k := by rw [hord3]; exact hl
  refine ⟨{ b3 with req := upd b3.req a (some ⟨i, D, .done t e⟩) }, δ2, ?_, ?_, ?_,
    lefull.trans hle4, ag12⟩
  · simp [applyOne, hr, hcof, q1, q2, hb3]
  · have old : ∀ x r, upd b3.req a (some (⟨i, D, .done t e⟩ : Req P)) x = some r → x ≠ a →
        b3.req x = some r := by
      intro x r hx hxa; rwa [upd_ne _ _ hxa] at hx
    have sh := inv3.shape
    refine ⟨?_, ?_, ?_, ?_, hnd.2, ?_, ?_⟩
    · exact {
        wf := sh.wf
        req_ok := by
          intro x r hx
          by_cases hxa : x = a
          · subst hxa; exact sh.req_ok _ _ hr3
          · exact sh.req_ok x r (old x r hx hxa)
        req_id := by
          intro x r hx
          by_cases hxa : x = a
          · subst hxa; simp only [upd_same] at hx; cases hx; have := sh.req_id _ _ hr3; exact this
          · exact sh.req_id x r (old x r hx hxa)
        que_iff := by
          intro d j x
          rw [sh.que_iff d j x]
          by_cases hxa : x = a
          · subst hxa; simp only [upd_same, hr3]
            constructor
            · rintro ⟨r, hx, h1, h2⟩; cases hx; exact ⟨_, rfl, h1, h2⟩
            · rintro ⟨r, hx, h1, h2⟩; cases hx; exact ⟨_, rfl, h1, h2⟩
          · simp only [upd_ne _ _ hxa]
        que_nodup := sh.que_nodup
        pend_top := by
          intro x j d q hx
          by_cases hxa : x = a
          · subst hxa; simp only [upd_same] at hx; cases hx
          · exact sh.pend_top x j d q (old x _ hx hxa)
        pend_mem := by
          intro x j d q hx
          by_cases hxa : x = a
          · subst hxa; simp only [upd_same] at hx; cases hx
          · exact sh.pend_mem x j d q (old x _ hx hxa)
        pend_ops := by
          intro x j d q hx y hy
          by_cases hxa : x = a
          · subst hxa; simp only [upd_same] at hx; cases hx
          · have := sh.pend_ops x j d q (old x _ hx hxa) y hy
            exact ⟨this.1.mono hle4, this.2⟩
        done_thn := by
          intro x j d t' e' hx
          by_cases hxa : x = a
          · subst hxa; simp only [upd_same] at hx; cases hx
            exact ⟨evt.mono hle4, by simp only; rw [hl3]; exact lvt⟩
          · have := sh.done_thn x j d t' e' (old x _ hx hxa)
            exact ⟨this.1.mono hle4, this.2⟩
        done_els := by
          intro x j d t' e' hx
          by_cases hxa : x = a
          · subst hxa; simp only [upd_same] at hx; cases hx
            exact ⟨eve.mono hle4, by simp only; rw [hl3]; exact lve⟩
          · have := sh.done_els x j d t' e' (old x _ hx hxa)
            exact ⟨this.1.mono hle4, this.2⟩
        nohalf := by
          intro x j d t' hx
          by_cases hxa : x = a
          · subst hxa; simp only [upd_same] at hx; cases hx
          · exact sh.nohalf x j d t' (old x _ hx hxa)
        fwd_ok := by
          intro x j d t' hx
          by_cases hxa : x = a
          · subst hxa; simp only [upd_same] at hx; cases hx
          · exact sh.fwd_ok x j d t' (old x _ hx hxa) }
    · intro x r hx
      by_cases hxa : x = a
      · subst hxa; simp only [upd_same] at hx; cases hx; exact hdM
      · exact inv3.dep_lt x r (old x r hx hxa)
    · intro x r hx
      by_cases hxa : x = a
      · subst hxa; simp only [upd_same] at hx; cases hx; have := inv3.lo_le _ _ hr3; exact this
      · exact inv3.lo_le x r (old x r hx hxa)
    · intro x hx
      have hxa : x ≠ a := by rintro rfl; exact hnd.1 hx
      obtain ⟨r, hr, h1, h2⟩ := inv3.left x (by simp [hx])
      exact ⟨r, by simp only [upd_ne _ _ hxa]; exact hr, h1, h2⟩
    · intro x r hx htd
      by_cases hxa : x = a
      · subst hxa; simp only [upd_same] at hx; cases hx
        rcases htd with h | ⟨_, h | ⟨_, h⟩⟩
        · simp only at h; omega
        · simp only at h; omega
        · exact absurd h hnd.1
      · refine inv3.todo x r (old x r hx hxa) ?_
        rcases htd with h | ⟨h1, h | ⟨h2, h⟩⟩
        · exact Or.inl h
        · exact Or.inr ⟨h1, Or.inl h⟩
        · exact Or.inr ⟨h1, Or.inr ⟨h2, by simp [h]⟩⟩
    · intro x r hx htd
      by_cases hxa : x = a
      · subst hxa; simp only [upd_same] at hx; cases hx; exact ⟨_, _, rfl⟩
      · refine inv3.past x r (old x r hx hxa) ?_
        intro h
        apply htd
        rcases h with h | ⟨h1, h | ⟨h2, h⟩⟩
        · exact Or.inl h
        · exact Or.inr ⟨h1, Or.inl h⟩
        · refine Or.inr ⟨h1, Or.inr ⟨h2, ?_⟩⟩
          simpa [hxa] using h
  · have old : ∀ x r, upd b3.req a (some (⟨i, D, .done t e⟩ : Req P)) x = some r → x ≠ a →
        b3.req x = some r := by
      intro x r hx hxa; rwa [upd_ne _ _ hxa] at hx
    exact {
      lab := bl3.lab
      pend := by
        intro x j d q hx
        by_cases hxa : x = a
        · subst hxa; simp only [upd_same] at hx; cases hx
        · exact bl3.pend x j d q (old x _ hx hxa)
      done := by
        intro x j d t' e' hx ρ
        by_cases hxa : x = a
        · subst hxa; simp only [upd_same] at hx; cases hx
          have h1 := congrFun (ag12 x (Or.inr (Or.inr (by rw [hr]; simp)))) ρ
          have h2 := congrFun (hδ.pend _ _ _ _ hr) ρ
          rw [h1, h2, hsh ρ, htden, heden]
        · exact bl3.done x j d t' e' (old x _ hx hxa) ρ
      fwd := by
        intro x j d t' hx
        by_cases hxa : x = a
        · subst hxa; simp only [upd_same] at hx; cases hx
        · exact bl3.fwd x j d t' (old x _ hx hxa) }

end BF

end Cal
