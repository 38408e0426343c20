import Verif.EngOps
import Verif.ApiParts

/-!
# Problems of the multi-queue operations: shared parts

The problems of if-then-else and of the binary operations, used by other operations through the
request queue they hand over, and the cofactors of two operands.
-/

namespace Cal

/-- The problems of all multi-queue operations. -/
inductive Prob where
  /-- binary operation on two operands -/
  | bin (f g : Edge)
  /-- if-then-else -/
  | ite (t : Tri)
  /-- replace a fixed variable of `f` by `h` -/
  | cmp (f h : Edge)
  /-- cofactor of `f` by `c` -/
  | cof (f c : Edge)
  /-- swap two fixed variables in `f`, the argument of the operation -/
  | root (f : Edge)
  /-- swap two fixed variables in `f` -/
  | swp (f : Edge)
  /-- positive side of a swap -/
  | plus (f g : Edge)
  /-- negative side of a swap -/
  | minus (f g : Edge)
  /-- substitute in `f` as the current association says -/
  | sub (f : Edge)
  /-- a substitute request waiting for an if-then-else -/
  | wait
deriving DecidableEq

/-- function with variable `v` fixed -/
def BFn.fix (F : BFn) (v : Nat) (b : Bool) : BFn := fun ρ => F (upd ρ v b)

theorem BFn.fix_indep {F : BFn} {v : Nat} (h : Indep F v) (b : Bool) : BFn.fix F v b = F := by
  funext ρ; exact h ρ b

theorem BFn.shannon (F : BFn) (v : Nat) (ρ : Asg) :
    F ρ = if ρ v then BFn.fix F v true ρ else BFn.fix F v false ρ := by
  have h : upd ρ v (ρ v) = ρ := by funext x; simp only [upd]; split <;> simp_all
  cases hv : ρ v <;> simp only [hv, if_true, if_false, BFn.fix, Bool.false_eq_true] <;>
    rw [← hv, h]

namespace Eng

variable {P : Type} {K : Kernel P}

/-- the operands are BDDs at index `k` or below and the operation yields `F` -/
def KOk (S : KernelSem K) (s : Store) (k : Nat) (p : P) (F : BFn) : Prop :=
  (∀ o ∈ S.ops p, s.EOK o ∧ k ≤ s.ord.lvl o.id) ∧ ∀ δ, Lab s δ → S.sem (den δ) p = F

/-- the operands are BDDs, not all constant, and the operation yields `F` -/
def KPd (S : KernelSem K) (s : Store) (p : P) (F : BFn) : Prop :=
  (∀ o ∈ S.ops p, s.EOK o) ∧ (∃ o ∈ S.ops p, o.id ≠ 0) ∧ ∀ δ, Lab s δ → S.sem (den δ) p = F

theorem KOk.mono {S : KernelSem K} {s s' k p F} (h : s.Le s') (x : KOk S s k p F) : KOk S s' k p F :=
  ⟨fun o ho => ⟨(x.1 o ho).1.mono h, by rw [h.ord]; exact (x.1 o ho).2⟩,
    fun δ l => x.2 δ (l.anti h)⟩

theorem KPd.mono {S : KernelSem K} {s s' p F} (h : s.Le s') (x : KPd S s p F) : KPd S s' p F :=
  ⟨fun o ho => (x.1 o ho).mono h, x.2.1, fun δ l => x.2.2 δ (l.anti h)⟩

theorem KPd.fun {S : KernelSem K} {s p F F'} (w : s.WF) (h : KPd S s p F) (h' : KPd S s p F') :
    F = F' := by
  obtain ⟨δ, l⟩ := w.exists_lab
  rw [← h.2.2 δ l, h'.2.2 δ l]

theorem eok_const {s : Store} (w : s.WF) {e : Edge} (h : s.EOK e) : e.id = 0 ↔ e.addr = 0 := by
  rcases h with ⟨h1, h2⟩ | ⟨n, hn, hv⟩
  · simp [h1, h2]
  · have h1 := w.var_range _ _ hn
    constructor
    · intro h; omega
    · intro h; rw [h, w.heap0] at hn; cases hn

theorem eok_range {s : Store} (w : s.WF) {e : Edge} (h : s.EOK e) (hc : e.id ≠ 0) :
    1 ≤ e.id ∧ e.id ≤ s.ord.numVars := by
  rcases h with ⟨h1, h2⟩ | ⟨n, hn, hv⟩
  · exact absurd h1 hc
  · have h1 := w.var_range _ _ hn; omega

theorem eok_lvl {s : Store} (w : s.WF) {e : Edge} (h : s.EOK e) (hc : e.id ≠ 0) :
    s.ord.lvl e.id < constIndex := by
  have := eok_range w h hc
  have h1 := w.ord.lvl_lt this.1 this.2
  have := w.ord.bound; omega

theorem cl_ok {s : Store} {k} {xs : List Edge} {e : Edge} (hk : k ≤ constIndex)
    (h : ∀ o ∈ xs, s.EOK o ∧ k ≤ s.ord.lvl o.id) (c : Cl xs e) : s.EOK e ∧ k ≤ s.ord.lvl e.id := by
  rcases c with rfl | rfl | ⟨o, ho, rfl | rfl⟩
  · exact ⟨Or.inl ⟨rfl, rfl⟩, by simpa [Order.lvl, one] using hk⟩
  · exact ⟨Or.inl ⟨rfl, rfl⟩, by simpa [Order.lvl, zero] using hk⟩
  · exact h _ ho
  · exact h o ho

theorem lvl_le {s : Store} (w : s.WF) {e : Edge} (h : s.EOK e) : s.ord.lvl e.id ≤ constIndex := by
  by_cases hc : e.id = 0
  · simp [hc, Order.lvl]
  · have := eok_lvl w h hc; omega

/-- terminal cases and requests of an operation -/
theorem K_term {S : KernelSem K} {s k p F} (w : s.WF) (h : KOk S s k p F) (hne : ∃ o, o ∈ S.ops p) :
    (∀ e, K.term p = .inl e → Rep s e F ∧ k ≤ s.ord.lvl e.id) ∧
    (∀ q c, K.term p = .inr (q, c) → ∃ H, KPd S s q H ∧ (F = fun ρ => xor c (H ρ)) ∧
      (1 ≤ K.top s.ord q ∧ K.top s.ord q ≤ s.ord.numVars) ∧ k ≤ s.ord.lvl (K.top s.ord q)) := by
  obtain ⟨δ, l⟩ := w.exists_lab
  have hg : ∀ o ∈ S.ops p, (o.id = 0 ↔ o.addr = 0) := fun o ho => eok_const w (h.1 o ho).1
  have hk : k ≤ constIndex := by
    obtain ⟨o, ho⟩ := hne
    exact Nat.le_trans (h.1 o ho).2 (lvl_le w (h.1 o ho).1)
  constructor
  · intro e he
    obtain ⟨h1, h2⟩ := S.term_inl δ p e l.const hg he
    obtain ⟨h3, h4⟩ := cl_ok hk h.1 h2
    refine ⟨?_, h4⟩
    rw [← h.2 δ l, h1]; exact l.rep w h3
  · intro q c he
    obtain ⟨h1, h2, h3⟩ := S.term_inr δ p q c l.const hg he
    have hq : ∀ o ∈ S.ops q, s.EOK o ∧ k ≤ s.ord.lvl o.id := fun o ho => cl_ok hk h.1 (h2 o ho)
    obtain ⟨t1, ⟨x, hx, hxt⟩, t3⟩ := S.top_law s.ord q h3 (fun x hx hc => eok_lvl w (hq x hx).1 hc)
    refine ⟨S.sem (den δ) q, ⟨fun o ho => (hq o ho).1, h3, ?_⟩, ?_, ?_, ?_⟩
    · intro δ' l'
      apply S.sem_congr
      intro e he
      obtain ⟨E, hE⟩ := w.rep_exists (hq e he).1
      rw [l.rep_eq hE, l'.rep_eq hE]
    · rw [← h.2 δ l]; exact h1
    · rw [← hxt]; exact eok_range w (hq x hx).1 (by rw [hxt]; exact t1)
    · rw [← hxt]; exact (hq x hx).2

/-- the two sub-problems of a request -/
theorem K_split {S : KernelSem K} {s p F} (w : s.WF) (h : KPd S s p F) :
    ∃ p1 p2 T E, K.cof s.ord s.kids p = some (p1, p2) ∧
      KOk S s (s.ord.lvl (K.top s.ord p) + 1) p1 T ∧ KOk S s (s.ord.lvl (K.top s.ord p) + 1) p2 E ∧
      F = fun ρ => if ρ (K.top s.ord p) then T ρ else E ρ := by
  obtain ⟨δ, l⟩ := w.exists_lab
  obtain ⟨t1, t2, t3⟩ := S.top_law s.ord p h.2.1 (fun x hx hc => eok_lvl w (h.1 x hx) hc)
  have hkids : ∀ x ∈ S.ops p, x.id = K.top s.ord p → ∃ t e, s.kids x = some (t, e) ∧
      s.EOK t ∧ s.EOK e ∧ s.ord.lvl (K.top s.ord p) < s.ord.lvl t.id ∧
      s.ord.lvl (K.top s.ord p) < s.ord.lvl e.id ∧
      ∀ ρ, den δ x ρ = if ρ (K.top s.ord p) then den δ t ρ else den δ e ρ := by
    intro x hx hxt
    have hr := l.rep w (h.1 x hx)
    obtain ⟨t, u, hk, rt, ru, l1, l2, -⟩ := hr.kids w (by rw [hxt]; exact t1)
    rw [hxt] at rt ru l1 l2
    refine ⟨t, u, hk, rt.eok, ru.eok, l1, l2, fun ρ => ?_⟩
    rw [l.rep_eq rt, l.rep_eq ru]
    exact BFn.shannon (den δ x) _ ρ
  obtain ⟨p1, p2, h1, h2, h3⟩ := S.cof_law s.ord δ s.kids p t1
    (fun x hx y hy he => by
      by_cases hx0 : x.id = 0
      · by_cases hy0 : y.id = 0
        · omega
        · have := eok_lvl w (h.1 y hy) hy0
          rw [hx0] at he; simp only [Order.lvl, if_true] at he this; omega
      · by_cases hy0 : y.id = 0
        · have := eok_lvl w (h.1 x hx) hx0
          rw [hy0] at he; simp only [Order.lvl, if_true] at he this; omega
        · have a1 := eok_range w (h.1 x hx) hx0
          have a2 := eok_range w (h.1 y hy) hy0
          exact w.ord.lvl_inj a1.1 a1.2 a2.1 a2.2 he)
    t3 t2 (fun x hx hxt => by
      obtain ⟨t, e, a, -, -, -, -, b⟩ := hkids x hx hxt
      exact ⟨t, e, a, b⟩)
  have hops : ∀ y ∈ S.ops p1 ++ S.ops p2, s.EOK y ∧ s.ord.lvl (K.top s.ord p) + 1 ≤ s.ord.lvl y.id := by
    intro y hy
    rcases h3 y hy with ⟨x, hx, hne, rfl⟩ | ⟨x, hx, hxt, t, e, hk, hy⟩
    · refine ⟨h.1 y hx, ?_⟩
      have := t3 y hx
      rcases Nat.lt_or_ge (s.ord.lvl (K.top s.ord p)) (s.ord.lvl y.id) with h4 | h4
      · exact h4
      · exfalso
        have he : s.ord.lvl y.id = s.ord.lvl (K.top s.ord p) := by omega
        obtain ⟨z, hz, hzt⟩ := t2
        have a2 := eok_range w (h.1 z hz) (by rw [hzt]; exact t1)
        rw [hzt] at a2
        by_cases hy0 : y.id = 0
        · have := w.ord.lvl_lt a2.1 a2.2
          have := w.ord.bound
          rw [hy0] at he; simp only [Order.lvl, if_true] at he
          simp only [Order.lvl] at *; omega
        · have a1 := eok_range w (h.1 y hx) hy0
          exact hne (w.ord.lvl_inj a1.1 a1.2 a2.1 a2.2 he)
    · obtain ⟨t', e', a, b1, b2, b3, b4, -⟩ := hkids x hx hxt
      rw [a] at hk; cases hk
      rcases hy with rfl | rfl
      · exact ⟨b1, b3⟩
      · exact ⟨b2, b4⟩
  have hcong : ∀ q, (∀ y ∈ S.ops q, s.EOK y) → ∀ δ', Lab s δ' → S.sem (den δ') q = S.sem (den δ) q := by
    intro q hq δ' l'
    apply S.sem_congr
    intro e he
    obtain ⟨E, hE⟩ := w.rep_exists (hq e he)
    rw [l.rep_eq hE, l'.rep_eq hE]
  refine ⟨p1, p2, S.sem (den δ) p1, S.sem (den δ) p2, h1, ⟨fun o ho => hops o (by simp [ho]), ?_⟩,
    ⟨fun o ho => hops o (by simp [ho]), ?_⟩, ?_⟩
  · exact hcong p1 fun y hy => (hops y (by simp [hy])).1
  · exact hcong p2 fun y hy => (hops y (by simp [hy])).1
  · rw [← h.2.2 δ l]; funext ρ; exact h2 ρ

/-! ## If-then-else -/

/-- `CalOpITE` (calTerminal.c:269-356) with a given request queue. -/
def iteWant (q : Tri) : Want Prob :=
  match iteTerm q with
  | .inl e => .edge e
  | .inr (q, c) => .req (.ite q) c

/-- `CalITERequestNodeGetCofactors` (calInt.h:1397-1475). -/
def iteSplit (s : Store) (q : Tri) : Option (Prob × Prob) :=
  match cof3 s.ord s.kids q with
  | some (x, y) => some (.ite x, .ite y)
  | none => none

theorem KOk.ite {s : Store} {k} {f g h : Edge} {F G H} (rf : Rep s f F) (rg : Rep s g G)
    (rh : Rep s h H) (lf : k ≤ s.ord.lvl f.id) (lg : k ≤ s.ord.lvl g.id) (lh : k ≤ s.ord.lvl h.id) :
    KOk iteSem s k (f, g, h) (fun ρ => if F ρ then G ρ else H ρ) := by
  refine ⟨?_, ?_⟩
  · intro o ho
    simp only [iteSem, List.mem_cons, List.not_mem_nil, or_false] at ho
    rcases ho with rfl | rfl | rfl
    · exact ⟨rf.eok, lf⟩
    · exact ⟨rg.eok, lg⟩
    · exact ⟨rh.eok, lh⟩
  · intro δ l
    funext ρ
    simp only [iteSem, l.rep_eq rf, l.rep_eq rg, l.rep_eq rh, iteB]

theorem KOk.bin {op f} (law : BinLaw op f) {s : Store} {k} {a b : Edge} {F G} (rf : Rep s a F)
    (rg : Rep s b G) (lf : k ≤ s.ord.lvl a.id) (lg : k ≤ s.ord.lvl b.id) :
    KOk (binSem law) s k (a, b) (fun ρ => f (F ρ) (G ρ)) := by
  refine ⟨?_, ?_⟩
  · intro o ho
    simp only [binSem, List.mem_cons, List.not_mem_nil, or_false] at ho
    rcases ho with rfl | rfl
    · exact ⟨rf.eok, lf⟩
    · exact ⟨rg.eok, lg⟩
  · intro δ l
    funext ρ
    simp only [binSem, l.rep_eq rf, l.rep_eq rg]

/-- `CalBddNormalize` (calInt.h:1377-1386) and the terminal cases of a binary operation, with a given request queue. -/
def binWant (op : Edge → Edge → Option Edge) (f g : Edge) : Want Prob :=
  match op f g with
  | some e => .edge e
  | none => .req (.bin (normalize (f, g)).1 (normalize (f, g)).2) false

/-- `CalRequestNodeGetCofactors` (calInt.h:1276-1299). -/
def binSplit (s : Store) (f g : Edge) : Option (Prob × Prob) :=
  match cof2 s.ord s.kids (f, g) with
  | some (x, y) => some (.bin x.1 x.2, .bin y.1 y.2)
  | none => none

/-! ## Cofactors of two operands -/

theorem minId2_spec {s : Store} (w : s.WF) {f g : Edge} (ef : s.EOK f) (eg : s.EOK g)
    (hc : f.id ≠ 0 ∨ g.id ≠ 0) :
    (1 ≤ minId2 s.ord (f, g) ∧ minId2 s.ord (f, g) ≤ s.ord.numVars) ∧
      s.ord.lvl (minId2 s.ord (f, g)) ≤ s.ord.lvl f.id ∧
      s.ord.lvl (minId2 s.ord (f, g)) ≤ s.ord.lvl g.id ∧
      (minId2 s.ord (f, g) = f.id ∨ minId2 s.ord (f, g) = g.id) := by
  have lf := lvl_le w ef
  have lg := lvl_le w eg
  have l0 : s.ord.lvl 0 = constIndex := by simp [Order.lvl]
  simp only [minId2]
  by_cases h : s.ord.lvl f.id < s.ord.lvl g.id
  · simp only [h, if_true]
    refine ⟨eok_range w ef ?_, Nat.le_refl _, Nat.le_of_lt h, Or.inl trivial⟩
    intro h0; rw [h0, l0] at h; omega
  · simp only [h, if_false]
    refine ⟨eok_range w eg ?_, by omega, Nat.le_refl _, Or.inr trivial⟩
    intro h0; rw [h0, l0] at h
    rcases hc with h1 | h1
    · have := eok_lvl w ef h1; omega
    · exact h1 h0

theorem cof_one {s : Store} (w : s.WF) {f : Edge} {F} (rf : Rep s f F) {i : Nat}
    (hl : s.ord.lvl i < s.ord.lvl f.id) (b : Bool) :
    Rep s f (BFn.fix F i b) := by
  rw [BFn.fix_indep (rf.indep w _ hl)]; exact rf

theorem cof2_spec {s : Store} (w : s.WF) {f g : Edge} {F G} (rf : Rep s f F) (rg : Rep s g G)
    (hc : f.id ≠ 0 ∨ g.id ≠ 0) :
    ∃ f1 g1 f0 g0, cof2 s.ord s.kids (f, g) = some ((f1, g1), (f0, g0)) ∧
      Rep s f1 (BFn.fix F (minId2 s.ord (f, g)) true) ∧
      Rep s f0 (BFn.fix F (minId2 s.ord (f, g)) false) ∧
      Rep s g1 (BFn.fix G (minId2 s.ord (f, g)) true) ∧
      Rep s g0 (BFn.fix G (minId2 s.ord (f, g)) false) ∧
      s.ord.lvl (minId2 s.ord (f, g)) < s.ord.lvl f1.id ∧
      s.ord.lvl (minId2 s.ord (f, g)) < s.ord.lvl f0.id ∧
      s.ord.lvl (minId2 s.ord (f, g)) < s.ord.lvl g1.id ∧
      s.ord.lvl (minId2 s.ord (f, g)) < s.ord.lvl g0.id := by
  obtain ⟨hi, lf, lg, -⟩ := minId2_spec w rf.eok rg.eok hc
  have l0 : s.ord.lvl 0 = constIndex := by simp [Order.lvl]
  have hlt := w.ord.lvl_lt hi.1 hi.2
  have hb := w.ord.bound
  have idf : s.ord.lvl f.id = s.ord.lvl (minId2 s.ord (f, g)) → f.id = minId2 s.ord (f, g) := by
    intro h
    have h0 : f.id ≠ 0 := by intro h0; rw [h0, l0] at h; omega
    have a := eok_range w rf.eok h0
    exact w.ord.lvl_inj a.1 a.2 hi.1 hi.2 h
  have idg : s.ord.lvl g.id = s.ord.lvl (minId2 s.ord (f, g)) → g.id = minId2 s.ord (f, g) := by
    intro h
    have h0 : g.id ≠ 0 := by intro h0; rw [h0, l0] at h; omega
    have a := eok_range w rg.eok h0
    exact w.ord.lvl_inj a.1 a.2 hi.1 hi.2 h
  have hm : s.ord.lvl (minId2 s.ord (f, g)) = if s.ord.lvl f.id < s.ord.lvl g.id then s.ord.lvl f.id
      else s.ord.lvl g.id := by
    simp only [minId2]; split <;> rfl
  have hne0 : minId2 s.ord (f, g) ≠ 0 := by omega
  simp only [cof2]
  by_cases h1 : s.ord.lvl f.id = s.ord.lvl g.id
  · have e1 := idf (by rw [hm, h1]; simp)
    have e2 := idg (by rw [hm, h1]; simp)
    obtain ⟨t, u, hk, rt, ru, l1, l2, -⟩ := rf.kids w (by rw [e1]; exact hne0)
    obtain ⟨t', u', hk', rt', ru', l1', l2', -⟩ := rg.kids w (by rw [e2]; exact hne0)
    rw [e1] at rt ru l1 l2
    rw [e2] at rt' ru' l1' l2'
    exact ⟨t, t', u, u', by simp [h1, hk, hk'], rt, ru, rt', ru', l1, l2, l1', l2'⟩
  · by_cases h2 : s.ord.lvl f.id < s.ord.lvl g.id
    · have e1 := idf (by rw [hm]; simp [h2])
      obtain ⟨t, u, hk, rt, ru, l1, l2, -⟩ := rf.kids w (by rw [e1]; exact hne0)
      rw [e1] at rt ru l1 l2
      have hl : s.ord.lvl (minId2 s.ord (f, g)) < s.ord.lvl g.id := by rw [hm]; simp [h2]
      exact ⟨t, g, u, g, by simp [h1, h2, hk], rt, ru, cof_one w rg hl _, cof_one w rg hl _,
        l1, l2, hl, hl⟩
    · have e1 := idg (by rw [hm]; simp [h2])
      obtain ⟨t, u, hk, rt, ru, l1, l2, -⟩ := rg.kids w (by rw [e1]; exact hne0)
      rw [e1] at rt ru l1 l2
      have hl : s.ord.lvl (minId2 s.ord (f, g)) < s.ord.lvl f.id := by rw [hm]; simp only [h2, if_false]; omega
      exact ⟨f, t, f, u, by simp [h1, h2, hk], cof_one w rf hl _, cof_one w rf hl _, rt, ru,
        hl, hl, l1, l2⟩

end Eng
end Cal
