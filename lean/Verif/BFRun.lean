import Verif.BFReduce

/-!
# The loops of the breadth-first engine

`R` is an arbitrary further invariant that the single steps keep (used for reference counts).
-/

namespace Cal
namespace BF

variable {P : Type} {K : Kernel P} {S : KernelSem K}

/-- A property kept by the single steps of the engine. -/
structure Kept [DecidableEq P] (S : KernelSem K) (R : BF P → Prop) : Prop where
  app : ∀ M b b' δ k D a L, AInv S M b k D (a :: L) → BLab S b δ → R b →
    b.applyOne K D a = some b' → R b'
  red : ∀ M b b' δ k D a L, RInv S M b k D (a :: L) → BLab S b δ → R b →
    b.reduceOne (b.st.ord.indexToId k) a = some b' → R b'
  push : ∀ b d i p, Shape S b → R b → R (b.pushReq d i p)

theorem Kept.trivial [DecidableEq P] (S : KernelSem K) : Kept S (fun _ => True) :=
  ⟨fun _ _ _ _ _ _ _ _ _ _ _ _ => True.intro, fun _ _ _ _ _ _ _ _ _ _ _ _ => True.intro,
    fun _ _ _ _ _ _ => True.intro⟩

/-- state and labelling after a loop, compared with before -/
def Step (S : KernelSem K) (R : BF P → Prop) (b : BF P) (δ : Nat → BFn) (b' : BF P)
    (δ' : Nat → BFn) : Prop := BLab S b' δ' ∧ b.Le b' ∧ b.Agree δ δ' ∧ R b'

theorem Step.trans {R : BF P → Prop} {b b' b'' : BF P} {δ δ' δ''} (h1 : Step S R b δ b' δ')
    (h2 : Step S R b' δ' b'' δ'') : Step S R b δ b'' δ'' :=
  ⟨h2.1, h1.2.1.trans h2.2.1, Agree.trans h1.2.1 h1.2.2.1 h2.2.2.1, h2.2.2.2⟩

theorem Step.refl {R : BF P → Prop} {b : BF P} {δ} (h : BLab S b δ) (hR : R b) :
    Step S R b δ b δ := ⟨h, Le.refl _, Agree.refl _ _, hR⟩

section
variable [DecidableEq P] {R : BF P → Prop} (kept : Kept S R) {M : Bnd}
include kept

theorem applyList_spec : ∀ (L : List Nat) (b : BF P) (δ) (k D : Nat),
    AInv S M b k D L → BLab S b δ → R b →
    ∃ b' δ', applyList K D L b = some b' ∧ AInv S M b' k D [] ∧ Step S R b δ b' δ' := by
  intro L
  induction L with
  | nil => intro b δ k D inv hδ hR; exact ⟨b, δ, rfl, inv, Step.refl hδ hR⟩
  | cons a L ih =>
    intro b δ k D inv hδ hR
    obtain ⟨b1, δ1, h1, inv1, bl1, le1, ag1⟩ := applyOne_spec inv hδ
    have hR1 := kept.app M b b1 δ k D a L inv hδ hR h1
    obtain ⟨b2, δ2, h2, inv2, st2⟩ := ih b1 δ1 k D inv1 bl1 hR1
    exact ⟨b2, δ2, by simp [applyList, h1, h2], inv2, Step.trans ⟨bl1, le1, ag1, hR1⟩ st2⟩

end

/-- A request at level `k` belongs to the id at index `k`. -/
theorem Shape.id_of_lvl {b : BF P} (sh : Shape S b) {a r k} (hr : b.req a = some r)
    (hl : b.st.ord.lvl r.id = k) : r.id = b.st.ord.indexToId k := by
  have := sh.req_id a r hr
  have h0 : r.id ≠ 0 := by omega
  rw [← hl]; simp only [Order.lvl, h0, if_false]
  exact (sh.wf.ord.left r.id this.1 this.2).symm

theorem Shape.mem_que {b : BF P} (sh : Shape S b) {a r k} (hr : b.req a = some r)
    (hl : b.st.ord.lvl r.id = k) : a ∈ b.que r.dep (b.st.ord.indexToId k) :=
  (sh.que_iff _ _ _).2 ⟨r, hr, sh.id_of_lvl hr hl, rfl⟩

theorem Shape.que_lvl {b : BF P} (sh : Shape S b) {a d k}
    (hk : k < b.st.ord.numVars) (ha : a ∈ b.que d (b.st.ord.indexToId k)) :
    ∃ r, b.req a = some r ∧ b.st.ord.lvl r.id = k ∧ r.dep = d := by
  obtain ⟨r, hr, h1, h2⟩ := (sh.que_iff _ _ _).1 ha
  exact ⟨r, hr, by rw [h1, sh.wf.ord.lvl_indexToId hk], h2⟩

theorem AInv.next_depth {M : Bnd} {b : BF P} {k D} (hk : k < b.st.ord.numVars)
    (inv : AInv S M b k D []) :
    AInv S M b k (D+1) (b.que (D+1) (b.st.ord.indexToId k)) := by
  have sh := inv.shape
  refine ⟨sh, inv.dep_lt, inv.lo_le, fun a ha => sh.que_lvl hk ha, sh.que_nodup _ _, ?_, ?_⟩
  · intro a r hr h
    refine inv.todo a r hr ?_
    rcases h with h | ⟨h1, h | ⟨h2, _⟩⟩
    · exact Or.inl h
    · exact Or.inr ⟨h1, Or.inl (by omega)⟩
    · exact Or.inr ⟨h1, Or.inl (by omega)⟩
  · intro a r hr h
    refine inv.past a r hr ?_
    intro h'
    apply h
    rcases h' with h' | ⟨h1, h' | ⟨_, h'⟩⟩
    · exact Or.inl h'
    · refine Or.inr ⟨h1, ?_⟩
      rcases Nat.lt_or_ge (D+1) r.dep with h2 | h2
      · exact Or.inl h2
      · have : r.dep = D+1 := by omega
        exact Or.inr ⟨this, this ▸ sh.mem_que hr h1⟩
    · simp at h'

theorem AInv.next_index {M : Bnd} {b : BF P} {k L} (inv : AInv S M b k M.dep L) :
    AInv S M b (k+1) 0 (b.que 0 (b.st.ord.indexToId (k+1))) ∨ b.st.ord.numVars ≤ k + 1 := by
  by_cases hk : k + 1 < b.st.ord.numVars
  case neg => right; omega
  left
  have sh := inv.shape
  refine ⟨sh, inv.dep_lt, inv.lo_le, fun a ha => sh.que_lvl hk ha, sh.que_nodup _ _, ?_, ?_⟩
  · intro a r hr h
    refine inv.todo a r hr ?_
    rcases h with h | ⟨h1, _⟩
    · exact Or.inl (by omega)
    · exact Or.inl (by omega)
  · intro a r hr h
    refine inv.past a r hr ?_
    intro h'
    apply h
    have hd := inv.dep_lt a r hr
    rcases h' with h' | ⟨h1, h' | ⟨h', _⟩⟩
    · rcases Nat.lt_or_ge (k+1) (b.st.ord.lvl r.id) with h2 | h2
      · exact Or.inl h2
      · have h3 : b.st.ord.lvl r.id = k+1 := by omega
        refine Or.inr ⟨h3, ?_⟩
        rcases Nat.eq_zero_or_pos r.dep with h4 | h4
        · exact Or.inr ⟨h4, h4 ▸ sh.mem_que hr h3⟩
        · exact Or.inl h4
    · omega
    · omega

section
variable [DecidableEq P] {R : BF P → Prop} (kept : Kept S R) {M : Bnd}
include kept

theorem applyDepths_spec : ∀ (n d : Nat) (b : BF P) (δ) (k : Nat), k < b.st.ord.numVars →
    AInv S M b k d (b.que d (b.st.ord.indexToId k)) → BLab S b δ → R b →
    ∃ b' δ', applyDepths K (b.st.ord.indexToId k) d n b = some b' ∧
      AInv S M b' k (d+n) (b'.que (d+n) (b.st.ord.indexToId k)) ∧ Step S R b δ b' δ' := by
  intro n
  induction n with
  | zero => intro d b δ k _ inv hδ hR; exact ⟨b, δ, rfl, inv, Step.refl hδ hR⟩
  | succ n ih =>
    intro d b δ k hk inv hδ hR
    obtain ⟨b1, δ1, h1, inv1, st1⟩ := applyList_spec kept _ b δ k d inv hδ hR
    have ho : b1.st.ord = b.st.ord := st1.2.1.st.ord
    have inv1' := inv1.next_depth (by rw [ho]; exact hk)
    obtain ⟨b2, δ2, h2, inv2, st2⟩ := ih (d+1) b1 δ1 k (by rw [ho]; exact hk) inv1' st1.1 st1.2.2.2
    rw [ho] at h2 inv2
    refine ⟨b2, δ2, by simp [applyDepths, h1, h2], ?_, st1.trans st2⟩
    rw [show d + (n+1) = d + 1 + n by omega]; exact inv2

/-- after the apply phase: every request is applied -/
def AllDone (b : BF P) : Prop := ∀ a r, b.req a = some r → ∃ t e, r.cell = .done t e

theorem applyPhase_spec : ∀ (n k : Nat) (b : BF P) (δ), k + n = b.st.ord.numVars →
    (0 < n → AInv S M b k 0 (b.que 0 (b.st.ord.indexToId k))) →
    (n = 0 → AllDone b ∧ Shape S b ∧ (∀ a r, b.req a = some r → r.dep < M.dep) ∧
      (∀ a r, b.req a = some r → M.lo ≤ b.st.ord.lvl r.id)) →
    BLab S b δ → R b →
    ∃ b' δ', applyPhase K M.dep k n b = some b' ∧ Shape S b' ∧ AllDone b' ∧
      (∀ a r, b'.req a = some r → r.dep < M.dep) ∧
      (∀ a r, b'.req a = some r → M.lo ≤ b'.st.ord.lvl r.id) ∧ Step S R b δ b' δ' := by
  intro n
  induction n with
  | zero =>
    intro k b δ _ _ h0 hδ hR
    obtain ⟨h1, h2, h3, h4⟩ := h0 rfl
    exact ⟨b, δ, rfl, h2, h1, h3, h4, Step.refl hδ hR⟩
  | succ n ih =>
    intro k b δ hkn hinv _ hδ hR
    have inv := hinv (by omega)
    obtain ⟨b1, δ1, h1, inv1, st1⟩ :=
      applyDepths_spec kept M.dep 0 b δ k (by omega) inv hδ hR
    rw [Nat.zero_add] at inv1
    have ho : b1.st.ord = b.st.ord := st1.2.1.st.ord
    obtain ⟨b2, δ2, h2, r2⟩ := ih (k+1) b1 δ1 (by rw [ho]; omega)
      (by
        intro hn
        rcases inv1.next_index with h | h
        · exact h
        · rw [ho] at h; omega)
      (by
        intro hn
        refine ⟨?_, inv1.shape, inv1.dep_lt, inv1.lo_le⟩
        intro a r hr
        refine inv1.past a r hr ?_
        have hd := inv1.dep_lt a r hr
        have hi := inv1.shape.req_id a r hr
        have hlv := inv1.shape.wf.ord.lvl_lt hi.1 hi.2
        rw [ho] at hlv
        rintro (h | ⟨_, h | ⟨h, _⟩⟩)
        · rw [ho] at h; omega
        · omega
        · omega)
      st1.1 st1.2.2.2
    exact ⟨b2, δ2, by simp [applyPhase, h1, h2], r2.1, r2.2.1, r2.2.2.1, r2.2.2.2.1,
      st1.trans r2.2.2.2.2⟩

theorem reduceList_spec : ∀ (L : List Nat) (b : BF P) (δ) (k D : Nat),
    RInv S M b k D L → BLab S b δ → R b →
    ∃ b' δ', reduceList (b.st.ord.indexToId k) L b = some b' ∧ RInv S M b' k D [] ∧
      Step S R b δ b' δ' := by
  intro L
  induction L with
  | nil => intro b δ k D inv hδ hR; exact ⟨b, δ, rfl, inv, Step.refl hδ hR⟩
  | cons a L ih =>
    intro b δ k D inv hδ hR
    obtain ⟨b1, δ1, h1, inv1, bl1, le1, ag1⟩ := reduceOne_spec inv hδ
    have hR1 := kept.red M b b1 δ k D a L inv hδ hR h1
    obtain ⟨b2, δ2, h2, inv2, st2⟩ := ih b1 δ1 k D inv1 bl1 hR1
    rw [le1.st.ord] at h2
    exact ⟨b2, δ2, by simp [reduceList, h1, h2], inv2, Step.trans ⟨bl1, le1, ag1, hR1⟩ st2⟩

end

theorem RInv.next_depth {M : Bnd} {b : BF P} {k D} (hk : k < b.st.ord.numVars)
    (inv : RInv S M b k D []) :
    RInv S M b k (D+1) (b.que (D+1) (b.st.ord.indexToId k)) := by
  have sh := inv.shape
  refine ⟨sh, inv.dep_lt, inv.lo_le, fun a ha => sh.que_lvl hk ha, sh.que_nodup _ _, ?_, ?_⟩
  · intro a r hr h
    refine inv.todo a r hr ?_
    rcases h with h | ⟨h1, h | ⟨h2, _⟩⟩
    · exact Or.inl h
    · exact Or.inr ⟨h1, Or.inl (by omega)⟩
    · exact Or.inr ⟨h1, Or.inl (by omega)⟩
  · intro a r hr h
    refine inv.past a r hr ?_
    intro h'
    apply h
    rcases h' with h' | ⟨h1, h' | ⟨_, h'⟩⟩
    · exact Or.inl h'
    · refine Or.inr ⟨h1, ?_⟩
      rcases Nat.lt_or_ge (D+1) r.dep with h2 | h2
      · exact Or.inl h2
      · have : r.dep = D+1 := by omega
        exact Or.inr ⟨this, this ▸ sh.mem_que hr h1⟩
    · simp at h'

/-- Invariant between two indices of the reduce phase: everything from index `κ` on is reduced. -/
structure RBetween (S : KernelSem K) (M : Bnd) (b : BF P) (κ : Nat) : Prop where
  shape : Shape S b
  dep_lt : ∀ a r, b.req a = some r → r.dep < M.dep
  lo_le : ∀ a r, b.req a = some r → M.lo ≤ b.st.ord.lvl r.id
  todo : ∀ a r, b.req a = some r → b.st.ord.lvl r.id < κ → ∃ t e, r.cell = .done t e
  past : ∀ a r, b.req a = some r → κ ≤ b.st.ord.lvl r.id → ∃ t, r.cell = .fwd t

theorem RBetween.start {M : Bnd} {b : BF P} {k} (hk : k < b.st.ord.numVars)
    (inv : RBetween S M b (k+1)) : RInv S M b k 0 (b.que 0 (b.st.ord.indexToId k)) := by
  have sh := inv.shape
  refine ⟨sh, inv.dep_lt, inv.lo_le, fun a ha => sh.que_lvl hk ha, sh.que_nodup _ _, ?_, ?_⟩
  · intro a r hr h
    refine inv.todo a r hr ?_
    rcases h with h | ⟨h, _⟩ <;> omega
  · intro a r hr h
    refine inv.past a r hr ?_
    rcases Nat.lt_or_ge k (b.st.ord.lvl r.id) with h1 | h1
    · exact h1
    · exfalso; apply h
      rcases Nat.lt_or_ge (b.st.ord.lvl r.id) k with h2 | h2
      · exact Or.inl h2
      · have h3 : b.st.ord.lvl r.id = k := by omega
        refine Or.inr ⟨h3, ?_⟩
        rcases Nat.eq_zero_or_pos r.dep with h4 | h4
        · exact Or.inr ⟨h4, h4 ▸ sh.mem_que hr h3⟩
        · exact Or.inl h4

theorem RInv.finish {M : Bnd} {b : BF P} {k L} (inv : RInv S M b k M.dep L) : RBetween S M b k := by
  refine ⟨inv.shape, inv.dep_lt, inv.lo_le, ?_, ?_⟩
  · intro a r hr h; exact inv.todo a r hr (Or.inl h)
  · intro a r hr h
    refine inv.past a r hr ?_
    have hd := inv.dep_lt a r hr
    rintro (h' | ⟨_, h' | ⟨h', _⟩⟩) <;> omega

section
variable [DecidableEq P] {R : BF P → Prop} (kept : Kept S R) {M : Bnd}
include kept

theorem reduceDepths_spec : ∀ (n d : Nat) (b : BF P) (δ) (k : Nat), k < b.st.ord.numVars →
    RInv S M b k d (b.que d (b.st.ord.indexToId k)) → BLab S b δ → R b →
    ∃ b' δ', reduceDepths (b.st.ord.indexToId k) d n b = some b' ∧
      RInv S M b' k (d+n) (b'.que (d+n) (b.st.ord.indexToId k)) ∧ Step S R b δ b' δ' := by
  intro n
  induction n with
  | zero => intro d b δ k _ inv hδ hR; exact ⟨b, δ, rfl, inv, Step.refl hδ hR⟩
  | succ n ih =>
    intro d b δ k hk inv hδ hR
    obtain ⟨b1, δ1, h1, inv1, st1⟩ := reduceList_spec kept _ b δ k d inv hδ hR
    have ho : b1.st.ord = b.st.ord := st1.2.1.st.ord
    have inv1' := inv1.next_depth (by rw [ho]; exact hk)
    obtain ⟨b2, δ2, h2, inv2, st2⟩ := ih (d+1) b1 δ1 k (by rw [ho]; exact hk) inv1' st1.1 st1.2.2.2
    rw [ho] at h2 inv2
    refine ⟨b2, δ2, by simp [reduceDepths, h1, h2], ?_, st1.trans st2⟩
    rw [show d + (n+1) = d + 1 + n by omega]; exact inv2

theorem reducePhase_spec : ∀ (n : Nat) (b : BF P) (δ), M.lo + n ≤ b.st.ord.numVars →
    RBetween S M b (M.lo + n) → BLab S b δ → R b →
    ∃ b' δ', reducePhase M.dep M.lo n b = some b' ∧ RBetween S M b' M.lo ∧
      Step S R b δ b' δ' := by
  intro n
  induction n with
  | zero => intro b δ _ inv hδ hR; exact ⟨b, δ, rfl, inv, Step.refl hδ hR⟩
  | succ n ih =>
    intro b δ hn inv hδ hR
    have inv0 := RBetween.start (k := M.lo + n) (by omega) inv
    obtain ⟨b1, δ1, h1, inv1, st1⟩ :=
      reduceDepths_spec kept M.dep 0 b δ (M.lo + n) (by omega) inv0 hδ hR
    rw [Nat.zero_add] at inv1
    have ho : b1.st.ord = b.st.ord := st1.2.1.st.ord
    obtain ⟨b2, δ2, h2, inv2, st2⟩ := ih b1 δ1 (by rw [ho]; omega) inv1.finish st1.1 st1.2.2.2
    exact ⟨b2, δ2, by simp [reducePhase, h1, h2], inv2, st1.trans st2⟩

end

/-- State in which all requests are pending, within the bounds: the state before the apply phase. -/
structure Fresh (S : KernelSem K) (M : Bnd) (b : BF P) : Prop where
  shape : Shape S b
  dep_lt : ∀ a r, b.req a = some r → r.dep < M.dep
  lo_le : ∀ a r, b.req a = some r → M.lo ≤ b.st.ord.lvl r.id
  pend : ∀ a r, b.req a = some r → ∃ p, r.cell = .pend p

/-- State in which all requests are forwarded. -/
def AllFwd (b : BF P) : Prop := ∀ a r, b.req a = some r → ∃ t, r.cell = .fwd t

/-- Apply and reduce together: they succeed, all requests end up forwarded or turned into nodes, and
every edge keeps its function. -/
theorem run_spec [DecidableEq P] {R : BF P → Prop} (kept : Kept S R) {M : Bnd} {b : BF P} {δ}
    (fr : Fresh S M b) (hδ : BLab S b δ) (hR : R b) (hlo : M.lo ≤ b.st.ord.numVars) :
    ∃ b1 b2 δ', applyPhase K M.dep M.lo (b.st.ord.numVars - M.lo) b = some b1 ∧
      b1.st.ord = b.st.ord ∧
      reducePhase M.dep M.lo (b.st.ord.numVars - M.lo) b1 = some b2 ∧
      Shape S b2 ∧ AllFwd b2 ∧ (∀ a r, b2.req a = some r → r.dep < M.dep) ∧
      (∀ a r, b2.req a = some r → M.lo ≤ b2.st.ord.lvl r.id) ∧ Step S R b δ b2 δ' := by
  have sh := fr.shape
  obtain ⟨b1, δ1, h1, sh1, ad1, dl1, ll1, st1⟩ := applyPhase_spec kept (M := M)
    (b.st.ord.numVars - M.lo) M.lo b δ (by omega)
    (by
      intro hn
      have hk : M.lo < b.st.ord.numVars := by omega
      refine ⟨sh, fr.dep_lt, fr.lo_le, fun a ha => sh.que_lvl hk ha, sh.que_nodup _ _,
        fun a r hr _ => fr.pend a r hr, ?_⟩
      intro a r hr h
      exfalso; apply h
      have := fr.lo_le a r hr
      rcases Nat.lt_or_ge M.lo (b.st.ord.lvl r.id) with h2 | h2
      · exact Or.inl h2
      · have h3 : b.st.ord.lvl r.id = M.lo := by omega
        refine Or.inr ⟨h3, ?_⟩
        rcases Nat.eq_zero_or_pos r.dep with h4 | h4
        · exact Or.inr ⟨h4, h4 ▸ sh.mem_que hr h3⟩
        · exact Or.inl h4)
    (by
      intro hn
      have hno : ∀ a r, b.req a ≠ some r := by
        intro a r hr
        have h1 := fr.lo_le a r hr
        have h2 := sh.req_id a r hr
        have := sh.wf.ord.lvl_lt h2.1 h2.2
        omega
      exact ⟨fun a r hr => absurd hr (hno a r), sh, fr.dep_lt, fr.lo_le⟩)
    hδ hR
  have ho : b1.st.ord = b.st.ord := st1.2.1.st.ord
  obtain ⟨b2, δ2, h2, inv2, st2⟩ := reducePhase_spec kept (M := M) (b.st.ord.numVars - M.lo) b1 δ1
    (by rw [ho]; omega)
    (by
      refine ⟨sh1, dl1, ll1, fun a r hr _ => ad1 a r hr, ?_⟩
      intro a r hr h
      have h2 := sh1.req_id a r hr
      have := sh1.wf.ord.lvl_lt h2.1 h2.2
      rw [ho] at this h; omega)
    st1.1 st1.2.2.2
  refine ⟨b1, b2, δ2, h1, ho, h2, inv2.shape, ?_, inv2.dep_lt, inv2.lo_le, st1.trans st2⟩
  intro a r hr
  exact inv2.past a r hr (inv2.lo_le a r hr)

/-- After the run, following the forwarding pointer of a valid edge gives a node or constant for
the same function. -/
theorem forward_final {b : BF P} (sh : Shape S b) (af : AllFwd b) {δ} (hδ : BLab S b δ) {e : Edge}
    {d} (he : b.EV d e) : b.st.EOK (b.forward e) ∧ den δ (b.forward e) = den δ e := by
  rcases he with he | ⟨r, hr, h1, h2⟩
  · have hn : b.req e.addr = none := by
      cases hq : b.req e.addr with
      | none => rfl
      | some r =>
        have := sh.req_ok _ _ hq
        rcases he with ⟨_, h0⟩ | ⟨n, hn, _⟩
        · omega
        · rw [this.1] at hn; cases hn
    have : b.forward e = e := by simp [forward, hn]
    rw [this]; exact ⟨he, rfl⟩
  · obtain ⟨t, hc⟩ := af _ _ hr
    obtain ⟨ri, rd, rc⟩ := r
    simp only at hc h1
    subst hc; subst h1
    have : b.forward e = t.phase e.neg := by simp [forward, hr]
    rw [this]
    refine ⟨(sh.fwd_ok _ _ _ _ hr).1.phase _, ?_⟩
    rw [den_phase]
    funext ρ
    have := congrFun (hδ.fwd _ _ _ _ hr) ρ
    simp only [den] at this ⊢
    rw [this]

/-! ## Clean-up -/

/-- What clean-up needs of the request tables. -/
structure CInv (b : BF P) : Prop where
  wf : b.st.WF
  req_ok : ∀ a r, b.req a = some r → b.st.heap a = none ∧ 0 < a ∧ a < b.st.next ∧
    (∀ i, a ∉ b.st.free i)
  que_iff : ∀ d i a, a ∈ b.que d i ↔ ∃ r, b.req a = some r ∧ r.id = i ∧ r.dep = d
  que_nodup : ∀ d i, (b.que d i).Nodup

theorem Shape.cinv {b : BF P} (sh : Shape S b) : CInv b :=
  ⟨sh.wf, sh.req_ok, sh.que_iff, sh.que_nodup⟩

/-- the parts of the state clean-up leaves alone -/
structure SameNodes (b b' : BF P) : Prop where
  heap : b'.st.heap = b.st.heap
  ord : b'.st.ord = b.st.ord
  ref : b'.st.ref = b.st.ref
  next : b'.st.next = b.st.next
  tab : b'.st.tab = b.st.tab
  numNodes : b'.st.numNodes = b.st.numNodes
  gcCheck : b'.st.gcCheck = b.st.gcCheck

theorem cleanUp_spec {b : BF P} (h : CInv b) (d i : Nat) :
    CInv (b.cleanUp d i) ∧ SameNodes b (b.cleanUp d i) ∧
      ∀ a r, (b.cleanUp d i).req a = some r ↔ b.req a = some r ∧ ¬ (r.dep = d ∧ r.id = i) := by
  have hreq : ∀ a r, (b.cleanUp d i).req a = some r ↔
      b.req a = some r ∧ ¬ (r.dep = d ∧ r.id = i) := by
    intro a r
    have : (b.cleanUp d i).req a = if a ∈ b.que d i then none else b.req a := rfl
    rw [this]
    by_cases ha : a ∈ b.que d i
    · simp only [ha, if_true]
      obtain ⟨r', hr', h1, h2⟩ := (h.que_iff d i a).1 ha
      constructor
      · intro h; cases h
      · rintro ⟨h3, h4⟩; rw [hr'] at h3; cases h3; exact absurd ⟨h2, h1⟩ h4
    · simp only [ha, if_false]
      constructor
      · intro h3; exact ⟨h3, fun h4 => ha ((h.que_iff d i a).2 ⟨r, h3, h4.2, h4.1⟩)⟩
      · exact fun h => h.1
  have hfree : ∀ j a, a ∈ (b.cleanUp d i).st.free j →
      a ∈ b.st.free j ∨ (j = i ∧ a ∈ b.que d i) := by
    intro j a ha
    have : (b.cleanUp d i).st.free j = upd b.st.free i (b.que d i ++ b.st.free i) j := rfl
    rw [this] at ha
    by_cases hj : j = i
    · subst hj; rw [upd_same] at ha
      rcases List.mem_append.1 ha with ha | ha
      · exact Or.inr ⟨rfl, ha⟩
      · exact Or.inl ha
    · rw [upd_ne _ _ hj] at ha; exact Or.inl ha
  have hqfree : ∀ a, a ∈ b.que d i → ∀ j, a ∉ b.st.free j := by
    intro a ha
    obtain ⟨r, hr, _⟩ := (h.que_iff d i a).1 ha
    exact (h.req_ok a r hr).2.2.2
  refine ⟨⟨?_, ?_, ?_, ?_⟩, ⟨rfl, rfl, rfl, rfl, rfl, rfl, rfl⟩, hreq⟩
  · exact { h.wf with
      free_nodup := by
        intro j
        have : (b.cleanUp d i).st.free j = upd b.st.free i (b.que d i ++ b.st.free i) j := rfl
        rw [this]
        by_cases hj : j = i
        · subst hj; rw [upd_same, List.nodup_append]
          refine ⟨h.que_nodup _ _, h.wf.free_nodup _, ?_⟩
          rintro a ha c hc rfl
          exact hqfree a ha j hc
        · rw [upd_ne _ _ hj]; exact h.wf.free_nodup j
      free_ok := by
        intro j a ha
        rcases hfree j a ha with ha | ⟨_, ha⟩
        · exact h.wf.free_ok j a ha
        · obtain ⟨r, hr, _⟩ := (h.que_iff d i a).1 ha
          have := h.req_ok a r hr
          exact ⟨this.1, this.2.1, this.2.2.1⟩
      free_disj := by
        intro j k a h1 h2
        rcases hfree j a h1 with h1 | ⟨h1, h1'⟩ <;> rcases hfree k a h2 with h2 | ⟨h2, h2'⟩
        · exact h.wf.free_disj j k a h1 h2
        · exact absurd h1 (hqfree a h2' j)
        · exact absurd h2 (hqfree a h1' k)
        · omega }
  · intro a r hr
    obtain ⟨h1, h2⟩ := (hreq a r).1 hr
    have := h.req_ok a r h1
    refine ⟨this.1, this.2.1, this.2.2.1, ?_⟩
    intro j hj
    rcases hfree j a hj with hj | ⟨_, hj⟩
    · exact this.2.2.2 j hj
    · obtain ⟨r', hr', h3, h4⟩ := (h.que_iff d i a).1 hj
      rw [h1] at hr'; cases hr'
      exact h2 ⟨h4, h3⟩
  · intro d' i' a
    have : (b.cleanUp d i).que d' i' = upd2 b.que d i [] d' i' := rfl
    rw [this]
    by_cases hdi : d' = d ∧ i' = i
    · obtain ⟨rfl, rfl⟩ := hdi
      simp only [upd2, and_self, if_true, List.not_mem_nil, false_iff]
      rintro ⟨r, hr, h1, h2⟩
      exact ((hreq a r).1 hr).2 ⟨h2, h1⟩
    · simp only [upd2, hdi, if_false]
      rw [h.que_iff d' i' a]
      constructor
      · rintro ⟨r, hr, h1, h2⟩
        exact ⟨r, (hreq a r).2 ⟨hr, fun h3 => hdi ⟨by omega, by omega⟩⟩, h1, h2⟩
      · rintro ⟨r, hr, h1, h2⟩
        exact ⟨r, ((hreq a r).1 hr).1, h1, h2⟩
  · intro d' i'
    have : (b.cleanUp d i).que d' i' = upd2 b.que d i [] d' i' := rfl
    rw [this]
    by_cases hdi : d' = d ∧ i' = i
    · simp [upd2, hdi]
    · simp only [upd2, hdi, if_false]; exact h.que_nodup d' i'

theorem SameNodes.trans {b b' b'' : BF P} (h1 : SameNodes b b') (h2 : SameNodes b' b'') :
    SameNodes b b'' :=
  ⟨h2.heap.trans h1.heap, h2.ord.trans h1.ord, h2.ref.trans h1.ref, h2.next.trans h1.next,
    h2.tab.trans h1.tab, h2.numNodes.trans h1.numNodes, h2.gcCheck.trans h1.gcCheck⟩

theorem cleanUpIds_spec (d : Nat) : ∀ (ids : List Nat) (b : BF P), CInv b →
    CInv (cleanUpIds d ids b) ∧ SameNodes b (cleanUpIds d ids b) ∧
      ∀ a r, (cleanUpIds d ids b).req a = some r ↔ b.req a = some r ∧ ¬ (r.dep = d ∧ r.id ∈ ids) := by
  intro ids
  induction ids with
  | nil => intro b h; exact ⟨h, ⟨rfl, rfl, rfl, rfl, rfl, rfl, rfl⟩, by simp [cleanUpIds]⟩
  | cons i is ih =>
    intro b h
    obtain ⟨c1, s1, q1⟩ := cleanUp_spec h d i
    obtain ⟨c2, s2, q2⟩ := ih _ c1
    refine ⟨c2, s1.trans s2, ?_⟩
    intro a r
    have : cleanUpIds d (i :: is) b = cleanUpIds d is (b.cleanUp d i) := rfl
    rw [this, q2 a r, q1 a r]
    simp only [List.mem_cons]
    constructor
    · rintro ⟨⟨h1, h2⟩, h3⟩
      refine ⟨h1, ?_⟩
      rintro ⟨h4, h5 | h5⟩
      · exact h2 ⟨h4, h5⟩
      · exact h3 ⟨h4, h5⟩
    · rintro ⟨h1, h2⟩
      exact ⟨⟨h1, fun h => h2 ⟨h.1, Or.inl h.2⟩⟩, fun h => h2 ⟨h.1, Or.inr h.2⟩⟩

theorem cleanUpDepths_spec (ids : List Nat) : ∀ (n d : Nat) (b : BF P), CInv b →
    CInv (cleanUpDepths ids d n b) ∧ SameNodes b (cleanUpDepths ids d n b) ∧
      ∀ a r, (cleanUpDepths ids d n b).req a = some r ↔
        b.req a = some r ∧ ¬ (d ≤ r.dep ∧ r.dep < d + n ∧ r.id ∈ ids) := by
  intro n
  induction n with
  | zero =>
    intro d b h
    refine ⟨h, ⟨rfl, rfl, rfl, rfl, rfl, rfl, rfl⟩, fun a r => ?_⟩
    simp only [cleanUpDepths]
    exact ⟨fun h => ⟨h, fun h2 => by omega⟩, fun h => h.1⟩
  | succ n ih =>
    intro d b h
    obtain ⟨c1, s1, q1⟩ := cleanUpIds_spec d ids b h
    obtain ⟨c2, s2, q2⟩ := ih (d+1) _ c1
    refine ⟨c2, s1.trans s2, ?_⟩
    intro a r
    have : cleanUpDepths ids d (n+1) b = cleanUpDepths ids (d+1) n (cleanUpIds d ids b) := rfl
    rw [this, q2 a r, q1 a r]
    constructor
    · rintro ⟨⟨h1, h2⟩, h3⟩
      refine ⟨h1, ?_⟩
      rintro ⟨h4, h5, h6⟩
      by_cases hd : r.dep = d
      · exact h2 ⟨hd, h6⟩
      · exact h3 ⟨by omega, by omega, h6⟩
    · rintro ⟨h1, h2⟩
      exact ⟨⟨h1, fun h => h2 ⟨by omega, by omega, h.2⟩⟩, fun h => h2 ⟨by omega, by omega, h.2.2⟩⟩

/-- No requests anywhere: the state between operations. -/
structure Idle (b : BF P) : Prop where
  req : ∀ a, b.req a = none
  que : ∀ d i, b.que d i = []

theorem CInv.idle {b : BF P} (h : CInv b) (h0 : ∀ a r, b.req a ≠ some r) : Idle b := by
  refine ⟨fun a => ?_, fun d i => ?_⟩
  · cases hr : b.req a with
    | none => rfl
    | some r => exact absurd hr (h0 a r)
  · cases hq : b.que d i with
    | nil => rfl
    | cons a as =>
      obtain ⟨r, hr, _⟩ := (h.que_iff d i a).1 (by rw [hq]; simp)
      exact absurd hr (h0 a r)

theorem Idle.shape {b : BF P} (h : Idle b) (w : b.st.WF) : Shape S b := by
  have hn : ∀ a r, b.req a ≠ some r := fun a r hr => by rw [h.req] at hr; cases hr
  exact {
    wf := w
    req_ok := fun a r hr => absurd hr (hn a r)
    req_id := fun a r hr => absurd hr (hn a r)
    que_iff := fun d i a => by
      rw [h.que]; simp only [List.not_mem_nil, false_iff]
      rintro ⟨r, hr, _⟩; exact hn a r hr
    que_nodup := fun d i => by rw [h.que]; exact List.nodup_nil
    pend_top := fun a _ _ _ hr => absurd hr (hn a _)
    pend_mem := fun a _ _ _ hr => absurd hr (hn a _)
    pend_ops := fun a _ _ _ hr => absurd hr (hn a _)
    done_thn := fun a _ _ _ _ hr => absurd hr (hn a _)
    done_els := fun a _ _ _ _ hr => absurd hr (hn a _)
    nohalf := fun a _ _ _ hr => hn a _ hr
    fwd_ok := fun a _ _ _ hr => absurd hr (hn a _) }

theorem Idle.fresh {b : BF P} (h : Idle b) (w : b.st.WF) (M : Bnd) : Fresh S M b := by
  have hn : ∀ a r, b.req a ≠ some r := fun a r hr => by rw [h.req] at hr; cases hr
  exact ⟨h.shape w, fun a r hr => absurd hr (hn a r), fun a r hr => absurd hr (hn a r),
    fun a r hr => absurd hr (hn a r)⟩

theorem Idle.blab {b : BF P} (h : Idle b) {δ} (hl : Lab b.st δ) : BLab S b δ := by
  have hn : ∀ a r, b.req a ≠ some r := fun a r hr => by rw [h.req] at hr; cases hr
  exact ⟨hl, fun a _ _ _ hr => absurd hr (hn a _), fun a _ _ _ _ hr => absurd hr (hn a _),
    fun a _ _ _ hr => absurd hr (hn a _)⟩

theorem init_idle (s : Store) : Idle (init s : BF P) := ⟨fun _ => rfl, fun _ _ => rfl⟩

theorem Kept.findOrAddReq [DecidableEq P] {R : BF P → Prop} (kept : Kept S R) {b b' : BF P} {r d i}
    {p : P} (sh : Shape S b) (hR : R b) (h : b.findOrAddReq d i p = some (b', r)) : R b' := by
  unfold BF.findOrAddReq at h
  split at h
  · cases h
  · cases h; exact hR
  · cases h; exact kept.push b d i p sh hR

theorem Kept.request [DecidableEq P] {R : BF P → Prop} (kept : Kept S R) {b b' : BF P} {r d}
    {p : P} (sh : Shape S b) (hR : R b) (h : b.request K d p = some (b', r)) : R b' := by
  unfold BF.request at h
  split at h
  · cases h; exact hR
  · split at h
    · cases h
    · rename_i h1; cases h; exact kept.findOrAddReq sh hR h1

/-- Making a request before the apply phase. -/
theorem Fresh.request [DecidableEq P] {M : Bnd} {b : BF P} (fr : Fresh S M b) {δ} (hδ : BLab S b δ)
    {p : P} {d : Nat} (hd : d < M.dep) (hlo : M.lo ≤ constIndex)
    (hops : ∀ x ∈ S.ops p, b.EV d x ∧ M.lo ≤ b.st.ord.lvl x.id) :
    ∃ b' r δ', b.request K d p = some (b', r) ∧ Fresh S M b' ∧ BLab S b' δ' ∧ b.Le b' ∧
      b.Agree δ δ' ∧ b'.EV (d+1) r ∧ M.lo ≤ b'.st.ord.lvl r.id ∧ den δ' r = S.sem (den δ) p := by
  obtain ⟨b', r, δ', h1, sh, bl, le, ag, ev, lv, dn, kp, nw⟩ :=
    request_core fr.shape hδ (κ := M.lo) (fun a r hr _ => fr.pend a r hr) hlo hops
  refine ⟨b', r, δ', h1, ⟨sh, ?_, ?_, ?_⟩, bl, le, ag, ev, lv, dn⟩
  · intro a r hr
    rcases nw a r hr with h | ⟨h, _⟩
    · exact fr.dep_lt a r h
    · omega
  · intro a r hr
    rcases nw a r hr with h | ⟨_, h, _⟩
    · rw [le.st.ord]; exact fr.lo_le a r h
    · exact h
  · intro a r hr
    rcases nw a r hr with h | ⟨_, _, h⟩
    · exact fr.pend a r h
    · exact h

end BF
end Cal
