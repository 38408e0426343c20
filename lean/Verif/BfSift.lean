import Verif.BfPack
import Verif.DfMono

/-!
# Breadth-first sifting

Every phase of `BddReorderSiftToBestPos` keeps the invariant, and after it nothing is forwarded. At the end the variable
is where the number of nodes was the least, and if no count is stuck there are as many nodes as there were then.
-/

namespace Cal

namespace Bfr

open Df (Fr PWF)

/-! ## Where the variable has been -/

/-- Stuck nodes remain. -/
def Sticky (d d' : Df.St) : Prop :=
  ∀ a, d.st.heap a ≠ none → d.st.ref a = maxRef → d'.st.heap a ≠ none ∧ d'.st.ref a = maxRef

/-- Stuck nodes remain; if there are none but those with references from outside, there are no more nodes than before. -/
def Less (ext : Nat → Nat) (d d' : Df.St) : Prop :=
  Sticky d d' ∧ (Df.Unstuck ext d' → d'.st.numNodes ≤ d.st.numNodes)

theorem Less.refl (ext : Nat → Nat) (d : Df.St) : Less ext d d := ⟨fun _ h h' => ⟨h, h'⟩, fun _ => Nat.le_refl _⟩

theorem Less.trans {ext : Nat → Nat} {d d' d2 : Df.St} (h : Less ext d d') (h' : Less ext d' d2) : Less ext d d2 := by
  refine ⟨fun a h1 h2 => ?_, fun u => ?_⟩
  · obtain ⟨k1, k2⟩ := h.1 a h1 h2
    exact h'.1 a k1 k2
  · have k1 := h'.2 u
    have k2 := h.2 fun a h1 h2 => u a (h'.1 a h1 h2).1 (h'.1 a h1 h2).2
    omega

/-- Variable `v` is at index `c`, and the others are in the order `g`. -/
def Line (n v c : Nat) (g : Nat → Nat) (d : Df.St) : Prop :=
  d.st.ord.indexToId c = v ∧ ∀ j, j + 1 < n → d.st.ord.indexToId (if j < c then j else j + 1) = g j

/-- What is known while variable `v` is sifted: it is at index `c`; the least number of nodes was `b`, when it was at
index `k`; at the beginning the state was `d1`. -/
structure Trail (ext : Nat → Nat) (δ0 : Nat → BFn) (d0 : Df.St) (n v : Nat) (d1 : Df.St) (c b k : Nat) (d : Df.St) : Prop where
  stk : Sticky d1 d
  le : b ≤ d1.st.numNodes
  line : ∃ g, Line n v c g d ∧ ∃ db, Df.RInv ext δ0 d0 db ∧ db.st.numNodes = b ∧ Line n v k g db

theorem Line.swap {n v c : Nat} {g : Nat → Nat} {d d' : Df.St} (h : Line n v c g d) (hc : c + 1 < n) (w : d.st.ord.WF)
    (hn : d.st.ord.numVars = n)
    (ho : d'.st.ord = Df.swapOrder d.st.ord (d.st.ord.indexToId c) (d.st.ord.indexToId (c + 1))) : Line n v (c + 1) g d' := by
  have hr := w.right c (by omega)
  obtain ⟨h1, h2⟩ := h
  refine ⟨by rw [ho]; simp only [Df.swapOrder, hr, upd_same]; exact h1, fun j hj => ?_⟩
  rw [← h2 j hj, ho]
  simp only [Df.swapOrder, hr]
  by_cases c1 : j < c
  · rw [if_pos c1, if_pos (by omega), upd_ne _ _ (by omega), upd_ne _ _ (by omega)]
  · rw [if_neg c1]
    by_cases c2 : j = c
    · subst c2
      rw [if_pos (by omega), upd_ne _ _ (by omega), upd_same]
    · rw [if_neg (by omega), upd_ne _ _ (by omega), upd_ne _ _ (by omega)]

theorem Line.swapUp {n v c : Nat} {g : Nat → Nat} {d d' : Df.St} (h : Line n v (c + 1) g d) (hc : c + 1 < n) (w : d.st.ord.WF)
    (hn : d.st.ord.numVars = n)
    (ho : d'.st.ord = Df.swapOrder d.st.ord (d.st.ord.indexToId c) (d.st.ord.indexToId (c + 1))) : Line n v c g d' := by
  have hr := w.right c (by omega)
  obtain ⟨h1, h2⟩ := h
  refine ⟨by rw [ho]; simp only [Df.swapOrder, hr]; rw [upd_ne _ _ (by omega), upd_same]; exact h1, fun j hj => ?_⟩
  rw [← h2 j hj, ho]
  simp only [Df.swapOrder, hr]
  by_cases c1 : j < c
  · rw [if_pos c1, if_pos (by omega), upd_ne _ _ (by omega), upd_ne _ _ (by omega)]
  · rw [if_neg c1]
    by_cases c2 : j = c
    · subst c2
      rw [if_pos (by omega), upd_same]
    · rw [if_neg (by omega), upd_ne _ _ (by omega), upd_ne _ _ (by omega)]

section
variable {ext : Nat → Nat} {δ0 : Nat → BFn} {d0 d1 d d' : Df.St} {n v c b k : Nat}

theorem Trail.step (I : Df.RInv ext δ0 d0 d) (hi : c + 1 < d.st.ord.numVars) (e : Df.exchange d (d.st.ord.indexToId c) = some d') :
    d'.st.ord = Df.swapOrder d.st.ord (d.st.ord.indexToId c) (d.st.ord.indexToId (c + 1)) ∧ Sticky d d' := by
  obtain ⟨d2, e2, -, ho⟩ := I.exchange hi
  rw [e] at e2; cases e2
  exact ⟨ho, sat_exchange I.inv.w.fr e⟩

theorem Trail.down (h : Trail ext δ0 d0 n v d1 c b k d) (I : Df.RInv ext δ0 d0 d) (hn : d.st.ord.numVars = n) (hi : c + 1 < n)
    (e : Df.exchange d (d.st.ord.indexToId c) = some d') : Trail ext δ0 d0 n v d1 (c + 1) b k d' := by
  obtain ⟨ho, st⟩ := Trail.step I (by omega) e
  obtain ⟨g, h1, h2⟩ := h.line
  refine ⟨fun a k1 k2 => ?_, h.le, g, h1.swap hi I.inv.w.ord hn ho, h2⟩
  obtain ⟨q1, q2⟩ := h.stk a k1 k2
  exact st a q1 q2

theorem Trail.up (h : Trail ext δ0 d0 n v d1 (c + 1) b k d) (I : Df.RInv ext δ0 d0 d) (hn : d.st.ord.numVars = n) (hi : c + 1 < n)
    (e : Df.exchange d (d.st.ord.indexToId c) = some d') : Trail ext δ0 d0 n v d1 c b k d' := by
  obtain ⟨ho, st⟩ := Trail.step I (by omega) e
  obtain ⟨g, h1, h2⟩ := h.line
  refine ⟨fun a k1 k2 => ?_, h.le, g, h1.swapUp hi I.inv.w.ord hn ho, h2⟩
  obtain ⟨q1, q2⟩ := h.stk a k1 k2
  exact st a q1 q2

theorem Trail.record (h : Trail ext δ0 d0 n v d1 c b k d) (I : Df.RInv ext δ0 d0 d) (hb : d.st.numNodes ≤ b) :
    Trail ext δ0 d0 n v d1 c d.st.numNodes c d := by
  obtain ⟨g, h1, -⟩ := h.line
  exact ⟨h.stk, by have := h.le; omega, g, h1, d, I, rfl, h1⟩

theorem Trail.start (I : Df.RInv ext δ0 d0 d) (hv : d.st.ord.indexToId c = v) : Trail ext δ0 d0 n v d c d.st.numNodes c d := by
  have : Line n v c (fun j => d.st.ord.indexToId (if j < c then j else j + 1)) d := ⟨hv, fun _ _ => rfl⟩
  exact ⟨fun _ h h' => ⟨h, h'⟩, Nat.le_refl _, _, this, d, I, rfl, this⟩

/-- Back where the number of nodes was the least. -/
theorem Trail.less (h : Trail ext δ0 d0 n v d1 c b c d) (I : Df.RInv ext δ0 d0 d) (Z : NoZero d) (hn : d.st.ord.numVars = n)
    (hc : c < n) : Less ext d1 d := by
  refine ⟨h.stk, fun u => ?_⟩
  obtain ⟨g, ⟨h1, h2⟩, db, Ib, hb, h3, h4⟩ := h.line
  have key : ∀ j, j < d.st.ord.numVars → db.st.ord.indexToId j = d.st.ord.indexToId j := by
    intro j hj
    by_cases c1 : j < c
    · have k1 := h2 j (by omega)
      have k2 := h4 j (by omega)
      rw [if_pos c1] at k1 k2
      rw [k1, k2]
    · by_cases c2 : j = c
      · rw [c2, h1, h3]
      · have k1 := h2 (j - 1) (by omega)
        have k2 := h4 (j - 1) (by omega)
        have hj' : j - 1 + 1 = j := by omega
        rw [if_neg (by omega), hj'] at k1 k2
        rw [k1, k2]
  have nv : db.st.ord.numVars = d.st.ord.numVars := by rw [Ib.nv, I.nv]
  have := Df.num_le_df I Ib (Df.order_of_ids I.inv.w.ord Ib.inv.w.ord nv key) Z u
  have := h.le
  omega

end

section
variable (ext : Nat → Nat) (δ0 : Nat → BFn) (d0 : Df.St) (Root : Edge → Prop) (u0 v0 : Nat → Option Edge)

/-- The invariant, for some depth-first state. -/
def Good (w : St) : Prop := ∃ d ab, BInv ext δ0 d0 Root u0 v0 w d ab

/-- Between the steps of a phase. -/
def SInv (d1 : Df.St) (n : Nat) (dn : Bool) (v s hi : Nat) (f : Sf) : Prop :=
  f.w.st.ord.numVars = n ∧ (f.flag = false → Clean Root f.w) ∧
    ∃ d ab, BInv ext δ0 d0 Root u0 v0 f.w d ab ∧ Ph Root dn v f.cur s hi f.w d ab ∧
      Trail ext δ0 d0 n v d1 f.cur f.best f.bestIdx d

end

section
variable {ext : Nat → Nat} {δ0 : Nat → BFn} {d0 d1 : Df.St} {Root : Edge → Prop} {u0 v0 : Nat → Option Edge}

theorem SInv.weaken {n v s hi hi' : Nat} {f : Sf} (h : SInv ext δ0 d0 Root u0 v0 d1 n true v s hi f) (b : Bool) :
    SInv ext δ0 d0 Root u0 v0 d1 n b v s hi' f := by
  obtain ⟨h1, h2, d, ab, B, p, t⟩ := h
  exact ⟨h1, h2, d, ab, B, p.weaken b, t⟩

theorem SInv.clean {n v s hi : Nat} {b : Bool} {f : Sf} (h : SInv ext δ0 d0 Root u0 v0 d1 n b v s hi f) (C : Clean Root f.w)
    (b' : Bool) (s' hi' : Nat) : SInv ext δ0 d0 Root u0 v0 d1 n b' v s' hi' f := by
  obtain ⟨h1, h2, d, ab, B, p, t⟩ := h
  exact ⟨h1, h2, d, ab, B, C.ph B p.idx p.lt b', t⟩

theorem BInv.nv {w : St} {d : Df.St} {ab : Nat → Nat} (B : BInv ext δ0 d0 Root u0 v0 w d ab) :
    d.st.ord.numVars = w.st.ord.numVars := by rw [B.sim.ord]

/-- The least number of nodes so far. -/
theorem SInv.record {n v s hi : Nat} {b : Bool} {f : Sf} (h : SInv ext δ0 d0 Root u0 v0 d1 n b v s hi f)
    (hb : f.w.st.numNodes ≤ f.best) :
    SInv ext δ0 d0 Root u0 v0 d1 n b v s hi { f with best := f.w.st.numNodes, bestIdx := f.cur } := by
  obtain ⟨h1, h2, d, ab, B, p, t⟩ := h
  refine ⟨h1, h2, d, ab, B, p, ?_⟩
  show Trail ext δ0 d0 n v d1 f.cur f.w.st.numNodes f.cur d
  rw [B.sim.num] at hb ⊢
  exact t.record B.r hb

theorem downStep_spec (P : Par) {n v s hi : Nat} {f : Sf} (h : SInv ext δ0 d0 Root u0 v0 d1 n true v s hi f) (hs : s ≤ f.cur)
    (hc : f.cur + 1 < n) : ∃ w fl, downStep P f = some { f with w := w, flag := fl, cur := f.cur + 1 } ∧
      SInv ext δ0 d0 Root u0 v0 d1 n true v s hi { f with w := w, flag := fl, cur := f.cur + 1 } := by
  obtain ⟨h1, _, d, ab, B, p, t⟩ := h
  obtain ⟨w', d', ab', e1, B', p', low, hn, ex⟩ := down_step B p hs (by omega)
  have t' := t.down B.r (by rw [B.nv]; exact h1) hc ex
  unfold downStep
  rw [e1]
  simp only
  by_cases hm : P.maxFwd < w'.numFwd
  · rw [if_pos hm]
    obtain ⟨B2, C, ho⟩ := fixAndReclaim_spec B' (k := f.cur) (i := f.cur + 1) (j := f.cur + 1) (by omega) low
      (p'.covers (Or.inl (Nat.le_refl _)) (Nat.le_refl _) (by simp))
    refine ⟨_, _, rfl, by show (fixAndReclaim w' _ _ _).st.ord.numVars = n; rw [ho]; omega, fun _ => C, d', ab', B2, ?_⟩
    exact ⟨C.ph B2 (by rw [ho]; exact p'.idx) (by rw [ho]; exact p'.lt) _, t'⟩
  · rw [if_neg hm]
    exact ⟨_, _, rfl, by show w'.st.ord.numVars = n; omega, fun h => by simp at h, d', ab', B', p', t'⟩

theorem downTo_spec (P : Par) {n v s hi : Nat} : ∀ (k : Nat) {f : Sf}, SInv ext δ0 d0 Root u0 v0 d1 n true v s hi f → s ≤ f.cur →
    f.cur + k < n → ∃ w fl, downTo P k f = some { f with w := w, flag := fl, cur := f.cur + k } ∧
      SInv ext δ0 d0 Root u0 v0 d1 n true v s hi { f with w := w, flag := fl, cur := f.cur + k } := by
  intro k
  induction k with
  | zero => intro f h _ _; exact ⟨f.w, f.flag, rfl, h⟩
  | succ k ih =>
    intro f h hs hc
    obtain ⟨w, fl, e1, h1⟩ := downStep_spec P h hs (by omega)
    obtain ⟨w2, fl2, e2, h2⟩ := ih h1 (by show s ≤ f.cur + 1; omega) (by show f.cur + 1 + k < n; omega)
    have hk : f.cur + (k + 1) = f.cur + 1 + k := by omega
    refine ⟨w2, fl2, ?_, ?_⟩
    · rw [downTo, e1]
      simp only
      rw [e2, hk]
    · rw [hk]; exact h2

theorem downSearch_spec (P : Par) (strict : Bool) {n v s hi : Nat} : ∀ (k : Nat) {f : Sf}, SInv ext δ0 d0 Root u0 v0 d1 n true v s hi f →
    s ≤ f.cur → f.cur + k + 1 = n → f.bottom = f.cur + k →
    ∃ f', downSearch P strict k f = some f' ∧ SInv ext δ0 d0 Root u0 v0 d1 n true v s hi f' ∧ f.cur ≤ f'.cur ∧ f'.cur < n ∧
      f'.bottom = f'.cur ∧ f'.top = f.top ∧ (f'.bestIdx = f.bestIdx ∨ (f.cur ≤ f'.bestIdx ∧ f'.bestIdx ≤ f'.cur)) := by
  intro k
  induction k with
  | zero => intro f h _ hn hb; exact ⟨f, rfl, h, Nat.le_refl _, by omega, hb, rfl, Or.inl rfl⟩
  | succ k ih =>
    intro f h hs hn hb
    obtain ⟨w, fl, e1, h1⟩ := downStep_spec P h hs (by omega)
    rw [downSearch, e1]
    simp only
    by_cases c1 : 2 * f.best ≤ w.st.numNodes
    · rw [if_pos c1]
      exact ⟨_, rfl, h1, by show f.cur ≤ f.cur + 1; omega, by show f.cur + 1 < n; omega, rfl, rfl, Or.inl rfl⟩
    · rw [if_neg c1]
      by_cases c2 : (if strict = true then w.st.numNodes < f.best else w.st.numNodes ≤ f.best)
      · rw [if_pos c2]
        have hle : w.st.numNodes ≤ f.best := by
          cases strict
          · simpa using c2
          · have : w.st.numNodes < f.best := by simpa using c2
            omega
        obtain ⟨f', e2, h2, q1, q2, q3, q4, q5⟩ := ih (f := { f with w := w, flag := fl, cur := f.cur + 1, best := w.st.numNodes, bestIdx := f.cur + 1 })
          (h1.record hle) (by show s ≤ f.cur + 1; omega) (by show f.cur + 1 + k + 1 = n; omega) (by show f.bottom = f.cur + 1 + k; omega)
        replace q1 : f.cur + 1 ≤ f'.cur := q1
        replace q5 : f'.bestIdx = f.cur + 1 ∨ (f.cur + 1 ≤ f'.bestIdx ∧ f'.bestIdx ≤ f'.cur) := q5
        exact ⟨f', e2, h2, by omega, q2, q3, q4, Or.inr (by omega)⟩
      · rw [if_neg c2]
        obtain ⟨f', e2, h2, q1, q2, q3, q4, q5⟩ := ih h1 (by show s ≤ f.cur + 1; omega) (by show f.cur + 1 + k + 1 = n; omega)
          (by show f.bottom = f.cur + 1 + k; omega)
        replace q1 : f.cur + 1 ≤ f'.cur := q1
        replace q5 : f'.bestIdx = f.bestIdx ∨ (f.cur + 1 ≤ f'.bestIdx ∧ f'.bestIdx ≤ f'.cur) := q5
        exact ⟨f', e2, h2, by omega, q2, q3, q4, by omega⟩

theorem upTo_spec (P : Par) {n v s : Nat} : ∀ (k : Nat) {f : Sf}, SInv ext δ0 d0 Root u0 v0 d1 n false v s f.bottom f → k ≤ f.cur →
    f.cur ≤ f.bottom → ∃ w fl, upTo P k f = some { f with w := w, flag := fl, cur := f.cur - k } ∧
      SInv ext δ0 d0 Root u0 v0 d1 n false v s f.bottom { f with w := w, flag := fl, cur := f.cur - k } := by
  intro k
  induction k with
  | zero => intro f h _ _; exact ⟨f.w, f.flag, rfl, h⟩
  | succ k ih =>
    intro f h hk hb
    obtain ⟨h1, _, d, ab, B, p, t⟩ := h
    have hcur : f.cur = f.cur - 1 + 1 := by omega
    rw [hcur] at p t
    obtain ⟨w', w2, d', ab', e1, e2, B', p', _, hn, ex⟩ := up_step B p (by omega)
    have t' := t.up B.r (by rw [B.nv]; exact h1) (by have := p.lt; omega) ex
    have hj : f.cur - (k + 1) = f.cur - 1 - k := by omega
    rw [upTo, e1]
    simp only
    rw [e2]
    simp only
    by_cases hm : P.maxFwd < w2.numFwd
    · rw [if_pos hm]
      obtain ⟨B2, C, ho⟩ := fixAndReclaim_spec B' (k := f.cur - 1) (i := f.cur - 1) (j := f.bottom) (by have := p'.lt; omega) p'.low
        (p'.covers (Or.inl (Nat.le_refl _)) (by omega) (fun _ => Nat.le_refl _))
      obtain ⟨w3, fl3, e3, h3⟩ := ih (f := { f with w := fixAndReclaim w2 (f.cur - 1) (f.cur - 1) f.bottom, flag := false, cur := f.cur - 1 })
        ⟨by show (fixAndReclaim w2 _ _ _).st.ord.numVars = n; rw [ho]; omega, fun _ => C, d', ab', B2,
          C.ph B2 (by rw [ho]; exact p'.idx) (by rw [ho]; exact p'.lt) _, t'⟩
        (by show k ≤ f.cur - 1; omega) (by show f.cur - 1 ≤ f.bottom; omega)
      exact ⟨w3, fl3, by rw [e3, hj], by rw [hj]; exact h3⟩
    · rw [if_neg hm]
      obtain ⟨w3, fl3, e3, h3⟩ := ih (f := { f with w := w2, flag := true, cur := f.cur - 1 })
        ⟨by show w2.st.ord.numVars = n; omega, fun h => by simp at h, d', ab', B', p', t'⟩
        (by show k ≤ f.cur - 1; omega) (by show f.cur - 1 ≤ f.bottom; omega)
      exact ⟨w3, fl3, by rw [e3, hj], by rw [hj]; exact h3⟩

theorem upSearch_spec (P : Par) (strict : Bool) (maxSize : Int) {off : Nat} (hoff : off ≤ 1) {n v s hi : Nat} :
    ∀ (k : Nat) {f : Sf}, SInv ext δ0 d0 Root u0 v0 d1 n false v s hi f → k = f.cur → f.cur ≤ s → f.cur ≤ hi → f.top = 0 →
    ∃ f', upSearch P strict maxSize off hi k f = some f' ∧ SInv ext δ0 d0 Root u0 v0 d1 n false v s hi f' ∧ f'.cur ≤ f.cur ∧
      f'.top = f'.cur ∧ f'.bottom = f.bottom ∧ (f'.bestIdx = f.bestIdx ∨ (f'.cur ≤ f'.bestIdx ∧ f'.bestIdx ≤ f.cur)) := by
  intro k
  induction k with
  | zero => intro f h hk _ _ ht; exact ⟨f, rfl, h, Nat.le_refl _, by omega, rfl, Or.inl rfl⟩
  | succ k ih =>
    intro f h hk hs hhi ht
    obtain ⟨h1, _, d, ab, B, p, t⟩ := h
    have hcur : f.cur = f.cur - 1 + 1 := by omega
    rw [hcur] at p t
    obtain ⟨w', w2, d', ab', e1, e2, B', p', heq, hn, ex⟩ := up_step B p (by omega)
    have t' := t.up B.r (by rw [B.nv]; exact h1) (by have := p.lt; omega) ex
    rw [heq (by omega)] at B' p' hn
    rw [upSearch, e1]
    simp only
    let f1 : Sf := if P.maxFwd < w'.numFwd then
          { f with w := fixAndReclaim w' (f.cur - 1) (f.cur - 1 + off) hi, flag := false, cur := f.cur - 1 }
        else { f with w := w', flag := true, cur := f.cur - 1 }
    have I1 : SInv ext δ0 d0 Root u0 v0 d1 n false v s hi f1 ∧ f1.cur = f.cur - 1 ∧ f1.top = f.top ∧ f1.bottom = f.bottom ∧ f1.bestIdx = f.bestIdx ∧
        f1.w.st.numNodes = w'.st.numNodes := by
      by_cases hm : P.maxFwd < w'.numFwd
      · have : f1 = { f with w := fixAndReclaim w' (f.cur - 1) (f.cur - 1 + off) hi, flag := false, cur := f.cur - 1 } := if_pos hm
        rw [this]
        obtain ⟨B2, C, ho⟩ := fixAndReclaim_spec B' (k := f.cur - 1) (i := f.cur - 1 + off) (j := hi) (by have := p'.lt; omega) p'.low
          (p'.covers (Or.inr ⟨by omega, by omega⟩) (by omega) (fun _ => Nat.le_refl _))
        exact ⟨⟨by show (fixAndReclaim w' _ _ _).st.ord.numVars = n; rw [ho]; omega, fun _ => C, d', ab', B2,
          C.ph B2 (by rw [ho]; exact p'.idx) (by rw [ho]; exact p'.lt) _, t'⟩, rfl, rfl, rfl, rfl, B2.sim.num.trans B'.sim.num.symm⟩
      · have : f1 = { f with w := w', flag := true, cur := f.cur - 1 } := if_neg hm
        rw [this]
        exact ⟨⟨by show w'.st.ord.numVars = n; omega, fun h => by simp at h, d', ab', B', p', t'⟩, rfl, rfl, rfl, rfl, rfl⟩
    obtain ⟨I1, i1, i2, i3, i4, i5⟩ := I1
    show ∃ f', (if maxSize < (w'.st.numNodes : Int) then some { f1 with top := f1.cur }
      else if (if strict = true then w'.st.numNodes < f1.best else w'.st.numNodes ≤ f1.best) then
        upSearch P strict maxSize off hi k { f1 with best := w'.st.numNodes, bestIdx := f1.cur }
      else upSearch P strict maxSize off hi k f1) = some f' ∧ _
    by_cases c1 : maxSize < (w'.st.numNodes : Int)
    · rw [if_pos c1]
      exact ⟨_, rfl, I1, by show f1.cur ≤ f.cur; omega, rfl, i3, Or.inl i4⟩
    · rw [if_neg c1]
      by_cases c2 : (if strict = true then w'.st.numNodes < f1.best else w'.st.numNodes ≤ f1.best)
      · rw [if_pos c2]
        have hle : f1.w.st.numNodes ≤ f1.best := by
          rw [i5]
          cases strict
          · simpa using c2
          · have : w'.st.numNodes < f1.best := by simpa using c2
            omega
        have I2 := I1.record hle
        rw [i5] at I2
        obtain ⟨f', e3, h3, q1, q2, q3, q4⟩ := ih (f := { f1 with best := w'.st.numNodes, bestIdx := f1.cur }) I2
          (by show k = f1.cur; omega) (by show f1.cur ≤ s; omega) (by show f1.cur ≤ hi; omega) (by show f1.top = 0; omega)
        replace q1 : f'.cur ≤ f1.cur := q1
        replace q3 : f'.bottom = f1.bottom := q3
        replace q4 : f'.bestIdx = f1.cur ∨ (f'.cur ≤ f'.bestIdx ∧ f'.bestIdx ≤ f1.cur) := q4
        exact ⟨f', e3, h3, by omega, q2, by omega, by omega⟩
      · rw [if_neg c2]
        obtain ⟨f', e3, h3, q1, q2, q3, q4⟩ := ih I1 (by omega) (by omega) (by omega) (by omega)
        exact ⟨f', e3, h3, by omega, q2, by omega, by omega⟩

theorem cleanUp_spec {n v s hi : Nat} {f : Sf} (h : SInv ext δ0 d0 Root u0 v0 d1 n false v s hi f) (ht : f.top = f.cur) (hhi : f.cur ≤ hi) :
    ∃ w, cleanUp f hi = { f with w := w, flag := false } ∧ Clean Root w ∧
      ∀ b s' hi', SInv ext δ0 d0 Root u0 v0 d1 n b v s' hi' { f with w := w, flag := false } := by
  obtain ⟨h1, h2, d, ab, B, p, t⟩ := h
  unfold cleanUp
  by_cases hf : f.flag = true
  · rw [if_pos hf, ht]
    obtain ⟨B2, C, ho⟩ := fixAndReclaim_spec B (k := f.cur) (i := f.cur) (j := hi) (by have := p.lt; omega) p.low
        (p.covers (Or.inl (Nat.le_refl _)) hhi (fun _ => Nat.le_refl _))
    exact ⟨_, rfl, C, fun b s' hi' => ⟨by show (fixAndReclaim f.w _ _ _).st.ord.numVars = n; rw [ho]; exact h1, fun _ => C, d, ab, B2,
      C.ph B2 (by rw [ho]; exact p.idx) (by rw [ho]; exact p.lt) _, t⟩⟩
  · rw [if_neg hf]
    have hf' : f.flag = false := by simpa using hf
    have C := h2 hf'
    refine ⟨f.w, by rw [← hf'], C, fun b s' hi' => ⟨h1, fun _ => C, d, ab, B, C.ph B p.idx p.lt b, t⟩⟩

theorem lowerHalf_spec (P : Par) {n v start : Nat} (maxSize : Int) {f : Sf} (h : SInv ext δ0 d0 Root u0 v0 d1 n true v start 0 f)
    (hc : f.cur = start) (hb : f.bestIdx = start) (hbot : f.bottom + 1 = n) (hlt : start < n) (ht : f.top = 0) :
    ∃ f' s', lowerHalf P start maxSize f = some f' ∧ SInv ext δ0 d0 Root u0 v0 d1 n true v s' 0 f' ∧ f'.cur = f'.bestIdx := by
  unfold lowerHalf
  obtain ⟨f1, e1, h1, q1, q2, q3, q4, q5⟩ := downSearch_spec P true (f.bottom - f.cur) h (by omega) (by omega) (by omega)
  rw [e1]; simp only
  obtain ⟨w2, fl2, e2, h2⟩ := upTo_spec P (f1.cur - start) (h1.weaken (hi' := f1.bottom) false) (by omega) (by omega)
  rw [e2]; simp only
  have hs : f1.cur - (f1.cur - start) = start := by omega
  rw [hs] at h2
  simp only [hs]
  obtain ⟨f3, e3, h3, r1, r2, r3, r4⟩ := upSearch_spec P false maxSize (Nat.zero_le 1) start h2 rfl (Nat.le_refl _)
    (by show start ≤ f1.bottom; omega) (by show f1.top = 0; omega)
  replace r1 : f3.cur ≤ start := r1
  replace r3 : f3.bottom = f1.bottom := r3
  replace r4 : f3.bestIdx = f1.bestIdx ∨ (f3.cur ≤ f3.bestIdx ∧ f3.bestIdx ≤ start) := r4
  rw [e3]; simp only
  rw [← r3] at h3
  obtain ⟨w4, e4, C4, h4⟩ := cleanUp_spec h3 r2 (by omega)
  rw [e4]
  obtain ⟨w5, fl5, e5, h5⟩ := downTo_spec P (f3.bestIdx - f3.cur) (h4 true f3.cur 0) (Nat.le_refl _)
    (by show f3.cur + (f3.bestIdx - f3.cur) < n; omega)
  refine ⟨_, _, e5, h5, ?_⟩
  show f3.cur + (f3.bestIdx - f3.cur) = f3.bestIdx
  omega

theorem upperHalf_spec (P : Par) {n v start : Nat} (maxSize : Int) {f : Sf} (h : SInv ext δ0 d0 Root u0 v0 d1 n false v start start f)
    (hc : f.cur = start) (hb : f.bestIdx = start) (hbot : f.bottom + 1 = n) (hlt : start < n) (ht : f.top = 0) :
    ∃ f' s', upperHalf P start maxSize f = some f' ∧ SInv ext δ0 d0 Root u0 v0 d1 n false v s' f'.bottom f' ∧ f'.cur = f'.bestIdx ∧
      f'.bestIdx ≤ f'.bottom := by
  unfold upperHalf
  obtain ⟨f1, e1, h1, q1, q2, q3, q4⟩ := upSearch_spec P true maxSize (Nat.le_refl 1) f.cur h rfl (by omega) (by omega) ht
  rw [e1]; simp only
  obtain ⟨w2, e2, C2, h2⟩ := cleanUp_spec h1 q2 (by omega)
  rw [e2]; simp only
  obtain ⟨w3, fl3, e3, h3⟩ := downTo_spec P (start - f1.cur) (h2 true f1.cur 0) (Nat.le_refl _)
    (by show f1.cur + (start - f1.cur) < n; omega)
  replace e3 : downTo P (start - f1.cur) { f1 with w := w2, flag := false } = some { f1 with w := w3, flag := fl3, cur := f1.cur + (start - f1.cur) } := e3
  rw [e3]; simp only
  have hs : f1.cur + (start - f1.cur) = start := by omega
  replace h3 : SInv ext δ0 d0 Root u0 v0 d1 n true v f1.cur 0 { f1 with w := w3, flag := fl3, cur := f1.cur + (start - f1.cur) } := h3
  rw [hs] at h3
  simp only [hs]
  obtain ⟨f4, e4, h4, r1, r2, r3, r4, r5⟩ := downSearch_spec P false (f1.bottom - start) h3 (by show f1.cur ≤ start; omega)
    (by show start + (f1.bottom - start) + 1 = n; omega) (by show f1.bottom = start + (f1.bottom - start); omega)
  replace r1 : start ≤ f4.cur := r1
  replace r5 : f4.bestIdx = f1.bestIdx ∨ (start ≤ f4.bestIdx ∧ f4.bestIdx ≤ f4.cur) := r5
  rw [e4]; simp only
  obtain ⟨w5, fl5, e5, h5⟩ := upTo_spec P (f4.cur - f4.bestIdx) (h4.weaken (hi' := f4.bottom) false) (by omega) (by omega)
  refine ⟨_, _, e5, h5, ?_, ?_⟩
  · show f4.cur - (f4.cur - f4.bestIdx) = f4.bestIdx
    omega
  · show f4.bestIdx ≤ f4.bottom
    omega

/-- What holds between the variables. Unless a count is stuck, there are at most as many nodes as at the beginning. -/
def Between (ext : Nat → Nat) (δ0 : Nat → BFn) (d0 : Df.St) (Root : Edge → Prop) (u0 v0 : Nat → Option Edge) (n : Nat) (w : St) : Prop :=
  w.st.ord.numVars = n ∧ Clean Root w ∧ ∃ d ab, BInv ext δ0 d0 Root u0 v0 w d ab ∧ Less ext d0 d

theorem siftToBest_spec (P : Par) {n start : Nat} {w : St} (h : Between ext δ0 d0 Root u0 v0 n w) (hlt : start < n) :
    ∃ w', siftToBest P w start = some w' ∧ Between ext δ0 d0 Root u0 v0 n w' := by
  obtain ⟨hn, C, d, ab, B, le0⟩ := h
  have hst : start < w.st.ord.numVars := by omega
  -- the end, with nothing forwarded
  have packC : ∀ w' k, Between ext δ0 d0 Root u0 v0 n w' → k < n → ∃ w2, pack w' k = some w2 ∧ Between ext δ0 d0 Root u0 v0 n w2 := by
    rintro w' k ⟨h1, C, d, ab, B, le⟩ hk
    obtain ⟨w2, ab2, e, B2, C2, ho⟩ := pack_spec B (C.ph B (c := k) (v := w'.st.ord.indexToId k) (s := 0) (hi := 0) rfl (by omega) true)
    exact ⟨w2, e, by rw [ho]; exact h1, C2, d, ab2, B2, le⟩
  have tr0 : Trail ext δ0 d0 n (w.st.ord.indexToId start) d start w.st.numNodes start d := by
    rw [B.sim.num]
    exact Trail.start B.r (by rw [B.sim.ord])
  unfold siftToBest
  simp only
  by_cases hh : w.st.ord.numVars / 2 ≤ start
  · rw [if_pos hh]
    obtain ⟨f, s', e1, ⟨h1, h2, d', ab', B', p', tr⟩, h4⟩ := lowerHalf_spec P (P.lim.maxSize w.st.numNodes)
      (f := ⟨w, start, w.st.numNodes, start, 0, w.st.ord.numVars - 1, false⟩) (v := w.st.ord.indexToId start) (n := n)
      ⟨hn, fun _ => C, d, ab, B, C.ph B rfl hst _, tr0⟩ rfl rfl (by show w.st.ord.numVars - 1 + 1 = n; omega) hlt rfl
    rw [e1]
    simp only
    rw [h4] at p' tr
    have hk : f.bestIdx < n := by have := p'.lt; omega
    have le' : Less ext d0 d' := le0.trans (tr.less B'.r B'.nz (by rw [B'.nv]; exact h1) hk)
    by_cases c1 : P.needs f.w.st (w.st.ord.indexToId start) = true
    · rw [if_pos c1]
      by_cases c2 : f.flag = true
      · rw [if_pos c2, if_pos hh]
        obtain ⟨w2, ab2, e, B2, C2, ho⟩ := pack_spec B' p'
        exact ⟨w2, e, by rw [ho]; exact h1, C2, _, ab2, B2, le'⟩
      · rw [if_neg c2]
        exact packC f.w _ ⟨h1, h2 (by simpa using c2), d', ab', B', le'⟩ hk
    · rw [if_neg c1]
      by_cases c2 : f.flag = true
      · rw [if_pos c2]
        obtain ⟨B2, C2, ho⟩ := phaseIV_spec B' (start := start) (best := f.bestIdx) (bottom := f.bottom) (by omega) p'.low
          (by rw [h1, ← hn, if_pos hh]; exact p'.covers (Or.inl (Nat.le_refl _)) (Nat.le_refl _) (by simp))
        exact ⟨_, rfl, by rw [ho]; exact h1, C2, _, _, B2, le'⟩
      · rw [if_neg c2]
        exact ⟨_, rfl, h1, h2 (by simpa using c2), d', ab', B', le'⟩
  · rw [if_neg hh]
    obtain ⟨f, s', e1, ⟨h1, h2, d', ab', B', p', tr⟩, h4, h5⟩ := upperHalf_spec P (P.lim.maxSize w.st.numNodes)
      (f := ⟨w, start, w.st.numNodes, start, 0, w.st.ord.numVars - 1, false⟩) (v := w.st.ord.indexToId start) (n := n)
      ⟨hn, fun _ => C, d, ab, B, C.ph B rfl hst _, tr0⟩ rfl rfl (by show w.st.ord.numVars - 1 + 1 = n; omega) hlt rfl
    rw [e1]
    simp only
    rw [h4] at p' tr
    have hk : f.bestIdx < n := by have := p'.lt; omega
    have le' : Less ext d0 d' := le0.trans (tr.less B'.r B'.nz (by rw [B'.nv]; exact h1) hk)
    obtain ⟨B2, C2, ho⟩ := phaseIV_spec B' (start := start) (best := f.bestIdx) (bottom := f.bottom) (by omega) p'.low
          (by rw [h1, ← hn, if_neg hh]; exact p'.covers (Or.inl (Nat.le_refl _)) (by omega) (fun _ => Nat.le_refl _))
    have Bt : Between ext δ0 d0 Root u0 v0 n (phaseIV f.w start f.bestIdx f.bottom) := ⟨by rw [ho]; exact h1, C2, _, _, B2, le'⟩
    by_cases c1 : P.needs f.w.st (w.st.ord.indexToId start) = true
    · rw [if_pos c1]
      by_cases c2 : f.flag = true
      · rw [if_pos c2, if_neg hh]
        exact packC _ _ Bt hk
      · rw [if_neg c2]
        exact packC f.w _ ⟨h1, h2 (by simpa using c2), d', ab', B', le'⟩ hk
    · rw [if_neg c1]
      by_cases c2 : f.flag = true
      · rw [if_pos c2]
        exact ⟨_, rfl, Bt⟩
      · rw [if_neg c2]
        exact ⟨_, rfl, h1, h2 (by simpa using c2), d', ab', B', le'⟩

theorem mostNodes_lt (s : Store) : ∀ (ids : List Nat) (j : Nat) (r : Nat × Nat),
    (mostNodes s ids j r).1 < j + ids.length ∨ mostNodes s ids j r = r := by
  intro ids
  induction ids with
  | nil => intro j r; exact Or.inr rfl
  | cons id ids ih =>
    intro j r
    rw [mostNodes]
    simp only [List.length_cons]
    by_cases h : r.2 < (s.tab id).length
    · rw [if_pos h]
      rcases ih (j + 1) (j, (s.tab id).length) with h' | h'
      · left; omega
      · left; rw [h']; simp
    · rw [if_neg h]
      rcases ih (j + 1) r with h' | h'
      · left; omega
      · exact Or.inr h'

theorem siftLoop_spec (P : Par) {n : Nat} : ∀ (i : Nat) (ids : List Nat) (k : Nat) {w : St}, Between ext δ0 d0 Root u0 v0 n w →
    ids.length = i → (∀ id, id ∈ ids → 1 ≤ id ∧ id ≤ n) → ∃ w', siftLoop P i ids k w = some w' ∧ Between ext δ0 d0 Root u0 v0 n w' := by
  intro i
  induction i with
  | zero => intro ids k w h _ _; exact ⟨w, rfl, h⟩
  | succ i ih =>
    intro ids k w h hl hr
    rw [siftLoop]
    by_cases c1 : (k : Int) ≤ P.lim.maxVars ∧ (w.swaps : Int) ≤ P.lim.maxSwaps
    · rw [if_pos c1]
      simp only
      by_cases c2 : (mostNodes w.st ids 0 (0, 0)).2 ≤ 1
      · rw [if_pos c2]; exact ⟨w, rfl, h⟩
      · rw [if_neg c2]
        have hlt : (mostNodes w.st ids 0 (0, 0)).1 < ids.length := by
          rcases mostNodes_lt w.st ids 0 (0, 0) with h' | h'
          · omega
          · rw [h'] at c2; simp at c2
        rw [List.getElem?_eq_getElem hlt, List.getElem?_eq_getElem (by omega : i < ids.length)]
        simp only
        have hid := hr _ (List.getElem_mem hlt)
        have hst : w.st.ord.idToIndex ids[(mostNodes w.st ids 0 (0, 0)).1] < n := by
          obtain ⟨hn, _, d, ab, B, _⟩ := h
          have := B.ordWF.idx_lt _ hid.1 (by rw [hn]; exact hid.2)
          omega
        obtain ⟨w1, e1, h1⟩ := siftToBest_spec P h hst
        rw [e1]
        simp only
        refine ih _ _ h1 ?_ ?_
        · rw [List.length_take, List.length_set]; omega
        · intro id hm
          rcases List.mem_or_eq_of_mem_set (List.mem_of_mem_take hm) with h' | h'
          · exact hr id h'
          · rw [h']; exact hr _ (List.getElem_mem _)
    · rw [if_neg c1]; exact ⟨w, rfl, h⟩

theorem sift_spec (P : Par) {n : Nat} {w : St} (h : Between ext δ0 d0 Root u0 v0 n w) :
    ∃ w', sift P w = some w' ∧ Between ext δ0 d0 Root u0 v0 n w' := by
  unfold sift
  simp only
  obtain ⟨hn, C, d, ab, B, le⟩ := h
  refine siftLoop_spec P _ _ 0 (w := { w with swaps := 0 }) ?_ (by simp) ?_
  · refine ⟨hn, ⟨C.trk, C.lists⟩, d, ab, ?_, le⟩
    have S := B.sim
    exact ⟨⟨S.ord, S.zero, ⟨S.fw.fr, S.fw.fw⟩, S.inj, S.sur, S.node, S.tab, S.tabW, S.ref, S.le, S.num, S.gcc, S.mat⟩,
      B.r, B.nz, B.ends, B.rootE, B.root, B.assocs, B.temp, B.users, B.vars, B.varR, B.varE, B.chk⟩
  · intro id hm
    obtain ⟨k, hk, rfl⟩ := List.mem_map.1 hm
    have := B.ordWF.id_range k (by simpa using hk)
    rw [hn] at this; exact this

end

end Bfr

end Cal
