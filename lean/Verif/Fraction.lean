import Verif.Satisfy

/-!
# `Cal_BddSatisfyingFraction`
-/

namespace Cal

/-! ## Model -/

/-- The memo table of `Cal_BddSatisfyingFraction` (calBddSatisfy.c:139-153): a hash table from BDDs to doubles
(calHashTableOne.c); as a map, see `HashTable.lean` for the table itself. -/
abbrev Memo := Edge → Option Rat

/-- `CalHashTableOneInsert` (calHashTableOne.c:148-168) -/
def Memo.insert (M : Memo) (f : Edge) (x : Rat) : Memo := fun g => if g = f then some x else M g

/-- `BddSatisfyingFractionStep` (calBddSatisfy.c:269-294). Doubles are rational numbers with `rnd`
applied after each multiplication and addition. C leaves open which of the two recursive calls comes
first; here it is the one for the then branch. The recursion is bounded by `k`. -/
def fracStep (rnd : Rat → Rat) (s : Store) : Nat → Memo → Edge → Option (Rat × Memo)
  | 0, _, _ => none
  | k + 1, M, f =>
    if f.isConst then some (if f.same zero then 0 else 1, M)
    else
      match M f with
      | some x => some (x, M)
      | none =>
        match s.kids f with
        | none => none
        | some (t, e) =>
          match fracStep rnd s k M t with
          | none => none
          | some (x, M1) =>
            match fracStep rnd s k M1 e with
            | none => none
            | some (y, M2) =>
              let r := rnd (rnd (1 / 2 * x) + rnd (1 / 2 * y))
              some (r, M2.insert f r)

/-- `Cal_BddSatisfyingFraction` (calBddSatisfy.c:139-153) -/
def Mgr.satisfyingFraction (E : Env) (m : Mgr) (f : Handle) : Option (Mgr × Rat) :=
  match m.preProc E [f] with
  | none => none
  | some (m1, false) => some (m1, 0)
  | some (m1, true) =>
    match m1.internal f with
    | none => none
    | some e => (fracStep E.rnd m1.st (m1.st.ord.numVars + 1) (fun _ => none) e).map fun p => (m1, p.1)

/-! ## Specification -/

/-- All assignments to the variables 1, …, n (false elsewhere), see `mem_asgs`. -/
def asgs : Nat → List Asg
  | 0 => [fun _ => false]
  | n + 1 => asgs n ++ (asgs n).map fun ρ => upd ρ (n + 1) true

/-- number of satisfying assignments over n variables -/
def satCount (n : Nat) (F : BFn) : Nat := (asgs n).countP F

/-- The fraction of the 2ⁿ assignments to n variables that satisfy `F`. -/
def fraction (n : Nat) (F : BFn) : Rat := (satCount n F : Rat) / 2 ^ n

/-! ## Counting -/

theorem mem_asgs (n : Nat) (ρ : Asg) : ρ ∈ asgs n ↔ ∀ v, v < 1 ∨ n < v → ρ v = false := by
  induction n generalizing ρ with
  | zero =>
    simp only [asgs, List.mem_singleton]
    constructor
    · rintro rfl v _; rfl
    · intro h; funext v; exact h v (by omega)
  | succ n ih =>
    simp only [asgs, List.mem_append, List.mem_map]
    constructor
    · rintro (h | ⟨σ, h, rfl⟩) v hv
      · exact (ih ρ).1 h v (by omega)
      · rw [upd_ne _ _ (by omega)]; exact (ih σ).1 h v (by omega)
    · intro h
      by_cases hn : ρ (n + 1) = true
      · right
        refine ⟨upd ρ (n + 1) false, (ih _).2 ?_, ?_⟩
        · intro v hv
          by_cases he : v = n + 1
          · subst he; simp
          · rw [upd_ne _ _ he]; exact h v (by omega)
        · rw [upd_upd]; funext v
          by_cases he : v = n + 1
          · subst he; simp [hn]
          · rw [upd_ne _ _ he]
      · left
        refine (ih ρ).2 fun v hv => ?_
        by_cases he : v = n + 1
        · subst he; simpa using hn
        · exact h v (by omega)

theorem length_asgs (n : Nat) : (asgs n).length = 2 ^ n := by
  induction n with
  | zero => rfl
  | succ n ih => simp [asgs, ih]; omega

theorem nodup_asgs (n : Nat) : (asgs n).Nodup := by
  induction n with
  | zero => simp [asgs]
  | succ n ih =>
    rw [asgs, List.nodup_append]
    refine ⟨ih, ?_, ?_⟩
    · refine nodup_map_inj ?_ ih
      intro ρ hρ σ hσ h
      funext v
      by_cases hv : v = n + 1
      · rw [(mem_asgs n ρ).1 hρ v (by omega), (mem_asgs n σ).1 hσ v (by omega)]
      · have := congrFun h v
        simpa [upd_ne _ _ hv] using this
    · intro ρ hρ σ hσ h
      obtain ⟨τ, -, rfl⟩ := List.mem_map.1 hσ
      have := (mem_asgs n ρ).1 hρ (n + 1) (by omega)
      rw [h] at this; simp at this

theorem satCount_succ (n F) :
    satCount (n + 1) F = satCount n F + satCount n fun ρ => F (upd ρ (n + 1) true) := by
  simp only [satCount, asgs, List.countP_append, List.countP_map]; rfl

theorem satCount_le (n F) : satCount n F ≤ 2 ^ n := by
  rw [← length_asgs]; exact List.countP_le_length

theorem satCount_out (n F) {v} (h : n < v) : satCount n (fun ρ => F (upd ρ v false)) = satCount n F := by
  apply List.countP_congr
  intro ρ hρ
  have : upd ρ v false = ρ := by
    funext w
    by_cases hw : w = v
    · subst hw; rw [upd_same, (mem_asgs n ρ).1 hρ w (by omega)]
    · rw [upd_ne _ _ hw]
  rw [this]

theorem upd_swap (ρ : Asg) {v w : Nat} (a b : Bool) (h : v ≠ w) :
    upd (upd ρ v a) w b = upd (upd ρ w b) v a := by
  funext x; unfold upd; split <;> split <;> simp_all

/-- Half of the assignments have a given variable true. -/
theorem satCount_half {v} (hv : 1 ≤ v) : ∀ {n} (F : BFn), v ≤ n →
    2 * satCount n F = satCount n (fun ρ => F (upd ρ v true)) + satCount n fun ρ => F (upd ρ v false) := by
  intro n
  induction n with
  | zero => intro F h; omega
  | succ n ih =>
    intro F h
    rw [satCount_succ, satCount_succ, satCount_succ]
    by_cases he : v = n + 1
    · subst he
      simp only [upd_upd, satCount_out n F (Nat.lt_succ_self n)]
      omega
    · have h1 := ih F (by omega)
      have h2 := ih (fun ρ => F (upd ρ (n + 1) true)) (by omega)
      simp only [fun (ρ : Asg) (b : Bool) => upd_swap ρ b true he] at h2
      omega

theorem satCount_const (n) (b : Bool) : satCount n (fun _ => b) = if b then 2 ^ n else 0 := by
  unfold satCount
  cases b
  · simp
  · simp [length_asgs]

theorem fraction_one (n) : fraction n (fun _ => true) = 1 := by
  simp only [fraction, satCount_const, if_true]
  have h : (2 : Rat) ^ n ≠ 0 := fun h => absurd (Rat.pow_pos (a := 2) (n := n) (by decide)) (by
    rw [h]; decide)
  have h2 : (((2 : Nat) ^ n : Nat) : Rat) = (2 : Rat) ^ n := Rat.natCast_pow 2 n
  rw [h2, Rat.div_def, Rat.mul_inv_cancel _ h]

theorem fraction_zero (n) : fraction n (fun _ => false) = 0 := by
  simp only [fraction, satCount_const]
  grind

theorem fraction_half {v n} (hv : 1 ≤ v) (hn : v ≤ n) (F : BFn) :
    fraction n F =
      1 / 2 * fraction n (fun ρ => F (upd ρ v true)) + 1 / 2 * fraction n fun ρ => F (upd ρ v false) := by
  have h := satCount_half hv F hn
  have h' : (2 : Rat) * (satCount n F : Rat) = (satCount n (fun ρ => F (upd ρ v true)) : Rat) +
      (satCount n (fun ρ => F (upd ρ v false)) : Rat) := by
    have := congrArg (fun k : Nat => (k : Rat)) h
    grind
  unfold fraction
  grind

/-! ## The recursion -/

/-- levels below -/
def Store.depth (s : Store) (e : Edge) : Nat := s.ord.numVars - s.ord.lvl e.id

/-- A good value for `e`. -/
structure FracOk (s : Store) (e : Edge) (F : BFn) (x : Rat) : Prop where
  nonneg : 0 ≤ x
  le_one : x ≤ 1
  exact : s.ord.numVars ≤ 53 → x = fraction s.ord.numVars F
  lower : fraction s.ord.numVars F ≤ x + 3 * (s.depth e : Rat) * (1 / 2 ^ 53)
  upper : x ≤ fraction s.ord.numVars F + 3 * (s.depth e : Rat) * (1 / 2 ^ 53)

/-- A good memo table. -/
def MemoOk (s : Store) (M : Memo) : Prop := ∀ e x, M e = some x → ∀ F, Rep s e F → FracOk s e F x

theorem natCast_le {a b : Nat} (h : a ≤ b) : (a : Rat) ≤ (b : Rat) := by
  exact Rat.natCast_le_natCast.2 h

theorem fracStep_ok {rnd} (R : Rounding rnd) {s : Store} (w : s.WF) : ∀ k {M : Memo} {f F},
    MemoOk s M → Rep s f F → 1 ≤ k → s.ord.numVars + 1 ≤ k + s.ord.lvl f.id →
    ∃ x M', fracStep rnd s k M f = some (x, M') ∧ MemoOk s M' ∧ FracOk s f F x := by
  intro k
  induction k with
  | zero => intro M f F _ _ h; omega
  | succ k ih =>
    intro M f F hM r _ hk
    unfold fracStep
    have hp : (0 : Rat) ≤ 1 / 2 ^ 53 := by decide +kernel
    by_cases hc : f.id = 0
    · rw [if_pos (by simp [Edge.isConst, hc])]
      refine ⟨_, M, rfl, hM, ?_⟩
      have hd : (0 : Rat) ≤ (s.depth f : Rat) := Rat.natCast_nonneg
      rcases (r.const_iff w).1 hc with h | h
      · subst h
        have := canonical w r .one; subst this
        rw [if_neg (by simp [Edge.same])]
        refine ⟨by decide, by decide, fun _ => by rw [fraction_one], ?_, ?_⟩ <;> rw [fraction_one] <;>
          grind
      · subst h
        have := canonical w r .zero; subst this
        rw [if_pos (by simp [Edge.same])]
        refine ⟨by decide, by decide, fun _ => by rw [fraction_zero], ?_, ?_⟩ <;> rw [fraction_zero] <;>
          grind
    · rw [if_neg (by simp [Edge.isConst, hc])]
      cases hm : M f with
      | some x => exact ⟨x, M, rfl, hM, hM f x hm F r⟩
      | none =>
        obtain ⟨t, u, hk', rt, ru, l1, l2, hne⟩ := r.kids w hc
        have top := r.topVar w hc
        have hl := w.ord.lvl_lt top.rng.1 top.rng.2
        simp only [hk']
        obtain ⟨x, M1, h1, hM1, ox⟩ := ih hM rt (by omega) (by omega)
        rw [h1]
        simp only
        obtain ⟨y, M2, h2, hM2, oy⟩ := ih hM1 ru (by omega) (by omega)
        rw [h2]
        simp only
        have e0 : rnd 0 = 0 := by
          have := R.exact 0 0 (by decide) (by decide); simpa [Rat.div_def] using this
        have eh : rnd (1 / 2) = 1 / 2 := by
          have := R.exact 1 1 (by decide) (by decide); simpa using this
        have e1 : rnd 1 = 1 := by
          have := R.exact 1 0 (by decide) (by decide)
          rwa [show ((1 : Nat) : Rat) / 2 ^ 0 = 1 by decide +kernel] at this
        have half := fraction_half top.rng.1 top.rng.2 F
        have ok : FracOk s f F (rnd (rnd (1 / 2 * x) + rnd (1 / 2 * y))) := by
          obtain ⟨x0, x1, xe, xl, xu⟩ := ox
          obtain ⟨y0, y1, ye, yl, yu⟩ := oy
          have a0 := R.mono 0 (1 / 2 * x) (by grind)
          have a1 := R.mono (1 / 2 * x) (1 / 2) (by grind)
          have b0 := R.mono 0 (1 / 2 * y) (by grind)
          have b1 := R.mono (1 / 2 * y) (1 / 2) (by grind)
          have al := R.lower (1 / 2 * x) (by grind) (by grind)
          have au := R.upper (1 / 2 * x) (by grind) (by grind)
          have bl := R.lower (1 / 2 * y) (by grind) (by grind)
          have bu := R.upper (1 / 2 * y) (by grind) (by grind)
          have xex : s.ord.numVars ≤ 53 → rnd (rnd (1 / 2 * x) + rnd (1 / 2 * y)) = fraction s.ord.numVars F := by
            intro hn
            have hx := xe hn
            have hy := ye hn
            have pw : ∀ G, satCount s.ord.numVars G ≤ 2 ^ 53 := fun G =>
              Nat.le_trans (satCount_le _ _) (Nat.pow_le_pow_right (by decide) hn)
            have ea := R.exact (satCount s.ord.numVars fun ρ => F (upd ρ f.id true)) (s.ord.numVars + 1)
              (pw _) (by omega)
            have eb := R.exact (satCount s.ord.numVars fun ρ => F (upd ρ f.id false)) (s.ord.numVars + 1)
              (pw _) (by omega)
            have ec := R.exact (satCount s.ord.numVars F) s.ord.numVars (pw _) (by omega)
            have h1 : 1 / 2 * x = (satCount s.ord.numVars fun ρ => F (upd ρ f.id true) : Rat) /
                2 ^ (s.ord.numVars + 1) := by
              rw [hx]; unfold fraction; grind
            have h2 : 1 / 2 * y = (satCount s.ord.numVars fun ρ => F (upd ρ f.id false) : Rat) /
                2 ^ (s.ord.numVars + 1) := by
              rw [hy]; unfold fraction; grind
            rw [h1, h2, ea, eb, ← h1, ← h2, hx, hy, ← half]
            unfold fraction; exact ec
          revert a0 a1 b0 b1 al au bl bu xex
          rw [e0, eh]
          generalize rnd (1 / 2 * x) = a
          generalize rnd (1 / 2 * y) = b
          intro a0 a1 b0 b1 al au bl bu xex
          have c0 := R.mono 0 (a + b) (by grind)
          have c1 := R.mono (a + b) 1 (by grind)
          have cl := R.lower (a + b) (by grind) (by grind)
          have cu := R.upper (a + b) (by grind) (by grind)
          rw [e0] at c0
          rw [e1] at c1
          have dt : (s.depth t : Rat) + 1 ≤ (s.depth f : Rat) := by
            have : s.depth t + 1 ≤ s.depth f := by simp only [Store.depth]; omega
            have := natCast_le this
            grind
          have du : (s.depth u : Rat) + 1 ≤ (s.depth f : Rat) := by
            have : s.depth u + 1 ≤ s.depth f := by simp only [Store.depth]; omega
            have := natCast_le this
            grind
          have dt' := Rat.mul_le_mul_of_nonneg_right dt hp
          have du' := Rat.mul_le_mul_of_nonneg_right du hp
          refine ⟨c0, c1, xex, ?_, ?_⟩
          · rw [half]
            generalize rnd (a + b) = c at *
            generalize fraction s.ord.numVars _ = p at *
            generalize fraction s.ord.numVars _ = q at *
            grind
          · rw [half]
            generalize rnd (a + b) = c at *
            generalize fraction s.ord.numVars _ = p at *
            generalize fraction s.ord.numVars _ = q at *
            grind
        refine ⟨_, _, rfl, ?_, ok⟩
        intro e z he G rG
        unfold Memo.insert at he
        split at he
        · rename_i hef
          subst hef
          cases he
          have : G = F := rG.unique w r
          subst this; exact ok
        · exact hM2 e z he G rG

theorem Mgr.satisfyingFraction_ok {own lk} {m : Mgr} {E : Env} (S : E.Sound) (i : m.Inv own lk) {f F} (lf : UTab.Live own f) (hf : Den m f F) :
    ∃ m' x, m.satisfyingFraction E f = some (m', x) ∧ m'.Inv own lk ∧ Pres own 0 m m' ∧
      0 ≤ x ∧ x ≤ 1 ∧ (m.numVars ≤ 53 → x = fraction m.numVars F) ∧
      fraction m.numVars F ≤ x + 3 * (m.numVars : Rat) * (1 / 2 ^ 53) ∧
      x ≤ fraction m.numVars F + 3 * (m.numVars : Rat) * (1 / 2 ^ 53) := by
  obtain ⟨m1, h1, i1, p1⟩ := preProc_ok S i (forall1 lf)
  obtain ⟨e, he, r⟩ := p1.fns f lf F hf
  obtain ⟨x, M', h2, -, ok⟩ := fracStep_ok S.rnd i1.wf (m1.st.ord.numVars + 1) (M := fun _ => none)
    (fun e x h => by cases h) r (by omega) (by omega)
  refine ⟨m1, x, ?_, i1, p1, ok.nonneg, ok.le_one, ?_⟩
  · simp only [satisfyingFraction, h1, internal, he, Option.map_some, h2]
  · have hn : m1.st.ord.numVars = m.numVars := p1.nv
    have o1 := ok.exact
    have o2 := ok.lower
    have o3 := ok.upper
    have hd : (m1.st.depth (e.phase f.neg) : Rat) ≤ (m.numVars : Rat) := by
      apply natCast_le; rw [← hn]; exact Nat.sub_le _ _
    have hd' := Rat.mul_le_mul_of_nonneg_right hd (show (0 : Rat) ≤ 1 / 2 ^ 53 by decide +kernel)
    rw [hn] at o1 o2 o3
    refine ⟨o1, ?_, ?_⟩ <;> grind

end Cal
