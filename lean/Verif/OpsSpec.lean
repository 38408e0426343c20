import Verif.Ops
import Verif.Refs
import Verif.KernelLaws

/-! # The breadth-first operations compute the right functions -/

namespace Cal

variable {P : Type} {K : Kernel P} {S : KernelSem K}

namespace BF

theorem run_ok [DecidableEq P] {R : BF P → Prop} (kept : Kept S R) {D lo : Nat} {b : BF P} {δ}
    (fr : Fresh S ⟨D, lo⟩ b) (hδ : BLab S b δ) (hR : R b) :
    ∃ b' δ', run K D lo b = some b' ∧ Shape S b' ∧ AllFwd b' ∧
      (∀ a r, b'.req a = some r → r.dep < D) ∧
      (∀ a r, b'.req a = some r → lo ≤ b'.st.ord.lvl r.id) ∧ Step S R b δ b' δ' := by
  by_cases hlo : lo ≤ b.st.ord.numVars
  case neg =>
    have hno : ∀ a r, b.req a ≠ some r := by
      intro a r hr
      have h1 := fr.lo_le a r hr
      have h2 := fr.shape.req_id a r hr
      have := fr.shape.wf.ord.lvl_lt h2.1 h2.2
      simp only at h1
      omega
    have hz : b.st.ord.numVars - lo = 0 := by omega
    refine ⟨b, δ, ?_, fr.shape, fun a r hr => absurd hr (hno a r), fun a r hr => absurd hr (hno a r),
      fun a r hr => absurd hr (hno a r), Step.refl hδ hR⟩
    simp [run, hz, applyPhase, reducePhase]
  obtain ⟨b1, b2, δ', h1, ho, h2, h3⟩ := run_spec kept fr hδ hR hlo
  refine ⟨b2, δ', ?_, h3⟩
  simp only [run, h1, ho]; exact h2

theorem mem_idsFrom {o : Order} {lo i : Nat} (ow : o.WF) (hi : 1 ≤ i ∧ i ≤ o.numVars)
    (hl : lo ≤ o.lvl i) : i ∈ idsFrom o lo := by
  have h0 : i ≠ 0 := by omega
  have hlt := ow.lvl_lt hi.1 hi.2
  have hleft := ow.left i hi.1 hi.2
  simp only [Order.lvl, h0, if_false] at hl hlt
  simp only [idsFrom, List.mem_map, List.mem_range]
  exact ⟨o.idToIndex i - lo, by omega, by rw [show lo + (o.idToIndex i - lo) = o.idToIndex i by omega, hleft]⟩

/-- Clean-up after a single-depth operation removes every request. -/
theorem clean_ok {lo : Nat} {b : BF P} (sh : Shape S b)
    (hd : ∀ a r, b.req a = some r → r.dep < 1)
    (hlo : ∀ a r, b.req a = some r → lo ≤ b.st.ord.lvl r.id) :
    (cleanUpIds 0 (idsFrom b.st.ord lo) b).st.WF ∧ Idle (cleanUpIds 0 (idsFrom b.st.ord lo) b) ∧
      SameNodes b (cleanUpIds 0 (idsFrom b.st.ord lo) b) := by
  obtain ⟨c, sn, q⟩ := cleanUpIds_spec 0 (idsFrom b.st.ord lo) b sh.cinv
  refine ⟨c.wf, c.idle ?_, sn⟩
  intro a r hr
  obtain ⟨h1, h2⟩ := (q a r).1 hr
  exact h2 ⟨by have := hd a r h1; omega, mem_idsFrom sh.wf.ord (sh.req_id a r h1) (hlo a r h1)⟩

/-- Clean-up of all ids and depths removes every request. -/
theorem clean_all {D : Nat} {b : BF P} (sh : Shape S b)
    (hd : ∀ a r, b.req a = some r → r.dep < D) :
    let b' := cleanUpDepths ((List.range b.st.ord.numVars).map (· + 1)) 0 D b
    b'.st.WF ∧ Idle b' ∧ SameNodes b b' := by
  obtain ⟨c, sn, q⟩ := cleanUpDepths_spec ((List.range b.st.ord.numVars).map (· + 1)) D 0 b sh.cinv
  refine ⟨c.wf, c.idle ?_, sn⟩
  intro a r hr
  obtain ⟨h1, h2⟩ := (q a r).1 hr
  have := sh.req_id a r h1
  refine h2 ⟨by omega, by have := hd a r h1; omega, ?_⟩
  simp only [List.mem_map, List.mem_range]
  exact ⟨r.id - 1, by omega, by omega⟩

end BF

/-- Outcome of an operation on internal BDDs: it succeeds, keeps the store well-formed and all
nodes, and its result stands for `F`. `Q` is a further property of the final store. -/
def OpOk (Q : Store → Prop) (s : Store) (δ : Nat → BFn) (out : Option (Store × Edge)) (F : BFn) :
    Prop :=
  ∃ s' r δ', out = some (s', r) ∧ s'.WF ∧ s.Le s' ∧ s'.EOK r ∧ Lab s' δ' ∧
    (∀ a, (a = 0 ∨ s.heap a ≠ none) → δ' a = δ a) ∧ den δ' r = F ∧ Q s'

theorem Lab.congr {s s' : Store} {δ} (h : Lab s δ) (hh : s'.heap = s.heap) : Lab s' δ :=
  ⟨h.const, fun a n hn => h.node a n (by rw [← hh]; exact hn)⟩

theorem Store.EOK.congr {s s' : Store} {e : Edge} (h : s.EOK e) (hh : s'.heap = s.heap) :
    s'.EOK e := by
  rcases h with h | ⟨n, h1, h2⟩
  · exact Or.inl h
  · exact Or.inr ⟨n, by rw [hh]; exact h1, h2⟩

theorem Store.EOK.good {s : Store} {e : Edge} (w : s.WF) (h : s.EOK e) : e.id = 0 ↔ e.addr = 0 := by
  rcases h with ⟨h1, h2⟩ | ⟨n, h1, h2⟩
  · simp [h1, h2]
  · have := w.heap_pos h1
    have := w.var_range _ _ h1
    omega

theorem Store.Le.congr {s s' s'' : Store} (h : s.Le s') (hh : s''.heap = s'.heap)
    (ho : s''.ord = s'.ord) : s.Le s'' :=
  ⟨ho.trans h.ord, fun a n hn => by rw [hh]; exact h.heap a n hn⟩

/-- Assemble the outcome of a single-depth operation. -/
theorem assemble [DecidableEq P] {R : BF P → Prop} {Q : Store → Prop} (kept : BF.Kept S R)
    {s : Store} {lo : Nat} {b : BF P} {δ δ1 : Nat → BFn} {r : Edge}
    (fr : BF.Fresh S ⟨1, lo⟩ b) (hδ : BF.BLab S b δ1) (hR : R b)
    (hle : s.Le b.st)
    (hag : ∀ a, (a = 0 ∨ s.heap a ≠ none) → δ1 a = δ a) {d} (hev : b.EV d r)
    (hQ : ∀ b', BF.Shape S b' → BF.AllFwd b' → R b' → ∀ b'', BF.SameNodes b' b'' → b''.st.WF →
      BF.Idle b'' → b'.EV d r → b'.st.EOK (b'.forward r) → Q b''.st) :
    OpOk Q s δ (BF.finish K lo b r) (den δ1 r) := by
  obtain ⟨b', δ', h1, sh, af, hd, hl, bl, le, ag, hR'⟩ := BF.run_ok kept fr hδ hR
  simp only [BF.finish, h1]
  obtain ⟨w, idle, sn⟩ := BF.clean_ok sh hd hl
  obtain ⟨ok, dn⟩ := BF.forward_final sh af bl (hev.mono le)
  refine ⟨_, _, δ', rfl, w, ?_, ok.congr sn.heap, bl.lab.congr sn.heap, ?_, ?_, ?_⟩
  · exact (Store.Le.trans hle le.st).congr sn.heap sn.ord
  · intro a ha
    have hu : b.Used a := by
      rcases ha with ha | ha
      · exact Or.inl ha
      · refine Or.inr (Or.inl ?_)
        cases hn : s.heap a with
        | none => exact absurd hn ha
        | some n => rw [hle.heap a n hn]; simp
    rw [ag a hu, hag a ha]
  · rw [dn]; exact ag.den hev
  · exact hQ b' sh af hR' _ sn w idle (hev.mono le) ok

/-- `CalBddOpBF` computes its boolean operation. `Q` lets a further property be carried along. -/
theorem opBF_lab {op : Edge → Edge → Option Edge} {fn : Bool → Bool → Bool} (law : BinLaw op fn)
    {s : Store} (w : s.WF) {δ} (hδ : Lab s δ) {f g : Edge} (hf : s.EOK f) (hg : s.EOK g) :
    OpOk s.Keep s δ (opBF op s f g) (fun ρ => fn (den δ f ρ) (den δ g ρ)) := by
  unfold opBF
  have gf : f.id = 0 ↔ f.addr = 0 := hf.good w
  have gg : g.id = 0 ↔ g.addr = 0 := hg.good w
  cases hop : op f g with
  | some r =>
    obtain ⟨h1, h2⟩ := law.hit δ f g r hδ.const gf gg hop
    refine ⟨s, r, δ, rfl, w, Store.Le.refl s, ?_, hδ, fun _ _ => rfl, ?_, Store.Keep.refl s⟩
    · rcases h2 with rfl | rfl | ⟨o, ho, rfl | rfl⟩
      · exact Store.EOK_one _
      · exact Store.EOK_zero _
      · simp only [List.mem_cons, List.not_mem_nil, or_false] at ho
        rcases ho with rfl | rfl <;> assumption
      · simp only [List.mem_cons, List.not_mem_nil, or_false] at ho
        rcases ho with rfl | rfl
        · exact hf.not
        · exact hg.not
    · funext ρ; exact (h1 ρ).symm
  | none =>
    have idle : BF.Idle (BF.init s : BF (Edge × Edge)) := BF.init_idle s
    have sh : BF.Shape (binSem law) (BF.init s) := idle.shape w
    have bl : BF.BLab (binSem law) (BF.init s) δ := idle.blab hδ
    have hm := law.miss f g hop
    have hmin : ∀ x ∈ (binSem law).ops (f, g), (BF.init s : BF (Edge × Edge)).EV 0 x ∧
        s.ord.lvl (minId2 s.ord (f, g)) ≤ s.ord.lvl x.id := by
      intro x hx
      have hx' : x = f ∨ x = g := by simpa [binSem] using hx
      constructor
      · rcases hx' with rfl | rfl
        · exact Or.inl hf
        · exact Or.inl hg
      · simp only [minId2]
        rcases hx' with rfl | rfl <;> split <;> omega
    obtain ⟨b, r, δ1, h1, sh1, bl1, le1, ag1, ev1, lv1, dn1, -, nw, -⟩ :=
      BF.findOrAddReq_core sh bl (κ := s.ord.lvl (minId2 s.ord (f, g))) (d := 0)
        (fun a r hr _ => by rw [idle.req] at hr; cases hr)
        ⟨f, by simp [binSem], hm.1⟩ hmin
    have h1' : (BF.init s : BF (Edge × Edge)).findOrAddReq 0 (minId2 s.ord (f, g)) (f, g) =
      some (b, r) := h1
    simp only [h1']
    have fr : BF.Fresh (binSem law) ⟨1, s.ord.lvl (minId2 s.ord (f, g))⟩ b := by
      refine ⟨sh1, ?_, ?_, ?_⟩
      · intro a rq hrq
        rcases nw a rq hrq with h | ⟨h, _⟩
        · rw [idle.req] at h; cases h
        · simp [h]
      · intro a rq hrq
        rcases nw a rq hrq with h | ⟨_, h, _⟩
        · rw [idle.req] at h; cases h
        · exact h
      · intro a rq hrq
        rcases nw a rq hrq with h | ⟨_, _, h⟩
        · rw [idle.req] at h; cases h
        · exact h
    have := assemble (BF.keep_kept (S := binSem law) s) (Q := s.Keep) (s := s) (δ := δ) (r := r)
      fr bl1 ((BF.keep_kept s).findOrAddReq sh (BF.Keep.init s) h1) le1.st
      (fun a ha => ag1 a (by
        rcases ha with ha | ha
        · exact Or.inl ha
        · exact Or.inr (Or.inl ha))) ev1
      (fun b' sh af hR b'' sn _ _ _ _ => hR.final af sn)
    rw [dn1] at this
    exact this

/-- `CalBddOpITEBF` computes if-then-else. -/
theorem iteBF_lab {s : Store} (w : s.WF) {δ} (hδ : Lab s δ) {f g h : Edge} (hf : s.EOK f)
    (hg : s.EOK g) (hh : s.EOK h) :
    OpOk s.Keep s δ (iteBF s f g h)
      (fun ρ => if den δ f ρ then den δ g ρ else den δ h ρ) := by
  unfold iteBF
  have idle : BF.Idle (BF.init s : BF Tri) := BF.init_idle s
  have fr0 : BF.Fresh iteSem ⟨1, minIndex3 s.ord (f, g, h)⟩ (BF.init s) := idle.fresh w _
  have bl : BF.BLab iteSem (BF.init s) δ := idle.blab hδ
  have hle : ∀ x ∈ [f, g, h], minIndex3 s.ord (f, g, h) ≤ s.ord.lvl x.id := by
    intro x hx
    simp only [List.mem_cons, List.not_mem_nil, or_false] at hx
    simp only [minIndex3]
    rcases hx with rfl | rfl | rfl <;> repeat' split
    all_goals omega
  have hlc : minIndex3 s.ord (f, g, h) ≤ constIndex :=
    Nat.le_trans (hle f (by simp)) (hf.lvl_le w)
  obtain ⟨b, r, δ1, h1, fr, bl1, le1, ag1, ev1, lv1, dn1⟩ :=
    BF.Fresh.request fr0 bl (p := (f, g, h)) (d := 0) (by simp) hlc (by
      intro x hx
      refine ⟨Or.inl ?_, hle x hx⟩
      have hx' : x = f ∨ x = g ∨ x = h := by simpa [iteSem] using hx
      rcases hx' with rfl | rfl | rfl <;> assumption)
  simp only [h1]
  have := assemble (BF.keep_kept (S := iteSem) s) (Q := s.Keep) (s := s) (δ := δ) (r := r)
    fr bl1 ((BF.keep_kept s).request fr0.shape (BF.Keep.init s) h1) le1.st
    (fun a ha => ag1 a (by
      rcases ha with ha | ha
      · exact Or.inl ha
      · exact Or.inr (Or.inl ha))) ev1
    (fun b' sh af hR b'' sn _ _ _ _ => hR.final af sn)
  rw [dn1] at this
  exact this

end Cal
