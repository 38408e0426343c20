import Verif.ApiEng
import Verif.Reduce

/-! The API functions `Cal_BddReduce` and `Cal_BddBetween` (calReduce.c:111-135, 140-181). -/

namespace Cal

namespace Mgr

/-- `Cal_BddReduce` (calReduce.c:109-133). The two sizes are taken from left to right; C leaves the
order open. -/
def reduce (E : Env) (m : Mgr) (f c : Handle) : Option (Mgr × Handle) :=
  match m.preProc E [f, c] with
  | none => none
  | some (m1, false) => some (m1, Handle.null)
  | some (m1, true) =>
    match m1.internals [f, c] with
    | some [F, C] =>
      match m1.onStore (Eng.reduceBF m1.st F C) with
      | none => none
      | some (m2, x) =>
        match m2.finish E x with
        | none => none
        | some (m3, r) =>
          if r = Handle.null then some (m3, r)
          else
            match m3.size E r true with
            | none => none
            | some (m4, n) =>
              match m4.size E f true with
              | none => none
              | some (m5, k) =>
                if n < k then some (m5, r)
                else
                  match m5.free r with
                  | none => none
                  | some m6 => m6.identity f
    | _ => none

/-- `Cal_BddBetween` (calReduce.c:138-182) -/
def between (E : Env) (m : Mgr) (f g : Handle) : Option (Mgr × Handle) :=
  match m.preProc E [f, g] with
  | none => none
  | some (m1, false) => some (m1, Handle.null)
  | some (m1, true) =>
    match m1.internals [f, g] with
    | some [F, G] =>
      match m1.onStore (opBF opOr m1.st F G.not) with
      | none => none
      | some (ma, C) =>
      match ma.onStore (Eng.reduceBF ma.st F C) with
      | none => none
      | some (m2, x) =>
        match m2.finish E x with
        | none => none
        | some (m3, r) =>
          if r = Handle.null then some (m3, r)
          else
            match m3.size E f true with
            | none => none
            | some (m4, nMin) =>
              match m4.size E g true with
              | none => none
              | some (m5, nMax) =>
                match m5.size E r true with
                | none => none
                | some (m6, n) =>
                  if n < nMin then
                    if n < nMax then some (m6, r)
                    else
                      match m6.free r with
                      | none => none
                      | some m7 => m7.identity g
                  else
                    match m6.free r with
                    | none => none
                    | some m7 => if nMin < nMax then m7.identity f else m7.identity g
    | _ => none

/-! ## Proofs -/

variable {own : Nat → Nat} {m : Mgr} {lk : Bool} {E : Env}

/-- Nothing is due: the next pre- or post-processing neither collects garbage nor reorders. -/
def Quiet (m : Mgr) : Prop := m.st.gcCheck > 0 ∨ m.st.numNodes ≤ m.gcLimit

theorem setGCLimit_quiet {m : Mgr} (h : ¬ (m.setGCLimit.nodeLimit ≠ 0 ∧
    m.setGCLimit.st.numNodes > m.setGCLimit.nodeLimit)) :
    m.setGCLimit.st.numNodes ≤ m.setGCLimit.gcLimit := by
  simp only [setGCLimit] at h ⊢
  by_cases h1 : 2 * m.st.numNodes < minGCLimit
  · simp only [if_pos h1]
    split <;> omega
  · simp only [if_neg h1]
    split <;> omega

theorem postProc_quiet {m m' : Mgr} (h : m.postProc E = some (m', false)) : m'.Quiet := by
  obtain ⟨φ, h⟩ := postProc_some h
  unfold postProcP at h
  split at h
  · cases h; left; assumption
  · dsimp only at h
    split at h
    · split at h
      · cases h
      · split at h
        · cases h
        · split at h
          · simp at h
          · rename_i hq
            simp only [Option.some.injEq, Prod.mk.injEq, true_and] at h
            obtain ⟨h, -⟩ := h
            subst h
            right
            exact setGCLimit_quiet hq
    · rename_i hn
      simp only [Option.some.injEq, Prod.mk.injEq, true_and] at h
      obtain ⟨h, -⟩ := h
      subst h
      right
      simp only at hn ⊢
      omega

theorem Quiet.post (q : m.Quiet) : ∃ m', m.postProc E = some (m', false) ∧ m'.Quiet ∧ m'.st.ord = m.st.ord := by
  unfold postProc postProcP
  by_cases h : m.st.gcCheck > 0
  · exact ⟨m, by rw [if_pos h]; rfl, q, rfl⟩
  · rw [if_neg h]
    have hn := q.resolve_left h
    dsimp only
    rw [if_neg (by omega)]
    exact ⟨_, rfl, Or.inr hn, rfl⟩

theorem Quiet.pre (q : m.Quiet) {hs m'} {b : Bool} (h : m.preProc E hs = some (m', b)) :
    m'.Quiet ∧ m'.st.ord = m.st.ord := by
  unfold preProc at h
  obtain ⟨m1, h1, q1, o1⟩ := q.post (E := E)
  split at h
  · cases h
  · cases h; exact ⟨q, rfl⟩
  · rw [h1] at h; cases h; exact ⟨q1, o1⟩

theorem Quiet.size (q : m.Quiet) {f negout m' n} (h : m.size E f negout = some (m', n)) :
    m'.Quiet ∧ m'.st.ord = m.st.ord := by
  unfold Mgr.size at h
  split at h
  · cases h
  · cases h; exact q.pre (by assumption)
  · rename_i m1 hp
    split at h
    · cases h
    · simp only [Option.map_eq_some_iff] at h
      obtain ⟨p, -, hp'⟩ := h
      cases hp'
      exact q.pre hp

theorem finish_quiet {m m' : Mgr} {x : Edge} {r : Handle} (h : m.finish E x = some (m', r))
    (hr : r ≠ Handle.null) : m'.Quiet := by
  unfold finish at h
  dsimp only at h
  split at h
  · cases h
  · cases h; exact postProc_quiet (by assumption)
  · split at h
    · cases h
    · split at h
      · cases h
      · cases h; exact absurd rfl hr

/-- The BDD of `H` has no more nodes than that of `F`, under the variable order `o`. -/
def NoLarger (o : Order) (H F : BFn) : Prop :=
  ∀ n k, Counts true (Subfn o H) n → Counts true (Subfn o F) k → n ≤ k

/-- The sizes of a list of live handles, in a quiet state. -/
theorem size_quiet (S : E.Sound) (i : m.Inv own lk) (q : m.Quiet) {f F} (lf : UTab.Live own f)
    (hf : Den m f F) : ∃ m', ∃ n : Nat, m.size E f true = some (m', (n : Int)) ∧ m'.Inv own lk ∧
      Pres own 0 m m' ∧ Counts true (Subfn m.st.ord F) n ∧ m'.Quiet ∧ m'.st.ord = m.st.ord := by
  obtain ⟨m', n, h, i', p, c⟩ := size_ok S i lf hf true
  obtain ⟨q', o⟩ := q.size h
  rw [o] at c
  exact ⟨m', n, h, i', p, c, q', o⟩

/-- Freeing a result again and returning another handle. -/
theorem free_identity (i : m.Inv (bump own r) lk) (hr : r = x.addr) {f F} (lf : UTab.Live own f) (hf : Den m f F) :
    ∃ m1 m2, m.free x = some m1 ∧ m1.identity f = some (m2, f) ∧ m2.Inv (bump own f.addr) lk ∧
      Pres own 0 m m2 ∧ Den m2 f F ∧ f ≠ Handle.null ∧ m2.st.ord = m.st.ord := by
  subst hr
  obtain ⟨Γ, leak, hl, i⟩ := i
  obtain ⟨m1, h1, i1, p1, s1, -, -⟩ := i.free (h := x) (by simp [bump])
  rw [bump_drop] at i1
  have p1' : Pres own 0 m m1 := p1.weaken fun _ => live_bump
  obtain ⟨m2, h2, i2, p2, -, s2⟩ := i1.unFree lf
  have hd := p2.fns f lf F (p1'.fns f lf F hf)
  exact ⟨m1, m2, h1, by simp [identity, h2], ⟨Γ, leak, hl, i2⟩, p1'.trans p2, hd, i1.live_ne lf,
    by rw [s2, s1]⟩

theorem opBF_gives {op fn} (law : BinLaw op fn) {s : Store} (w : s.WF) {f g F G} (r1 : Rep s f F)
    (r2 : Rep s g G) : Gives s (opBF op s f g) (fun ρ => fn (F ρ) (G ρ)) := by
  obtain ⟨δ, hδ⟩ := w.exists_lab
  have := opBF_lab law w hδ r1.eok r2.eok
  rw [hδ.rep_eq r1, hδ.rep_eq r2] at this
  obtain ⟨s', r, δ', h, w', le, ok, hδ', -, hF, k⟩ := this
  exact ⟨s', r, h, w', le, k, by rw [← hF]; exact hδ'.rep w' ok⟩

theorem reduceBF_zero {s : Store} (w : s.WF) (f : Edge) {c} (r : Rep s c fun _ => false) :
    Eng.reduceBF s f c = none := by
  have hz := (r.same_zero_iff w).2 rfl
  have h0 : c.isConst = true := by
    have : c.id = 0 := (r.const_iff w).2 (Or.inr rfl)
    simpa [Edge.isConst] using this
  simp only [Eng.reduceBF, Eng.opCofactor, h0, hz, if_true]

/-- What `Cal_BddReduce` gives. -/
theorem reduce_ok (S : E.Sound) (i : m.Inv own lk) {f c F C} (lf : UTab.Live own f)
    (lc : UTab.Live own c) (hf : Den m f F) (hc : Den m c C) (hs : Sat C) :
    ∃ H, Res own lk true 0 m (m.reduce E f c) H ∧ (∀ ρ, C ρ = true → H ρ = F ρ) ∧
      (∀ v, Indep F v → Indep H v) ∧
      ∀ m' r, m.reduce E f c = some (m', r) → r ≠ Handle.null → NoLarger m'.st.ord H F := by
  obtain ⟨m1, h1, i1, p1⟩ := preProc_ok S i (forall2 lf lc)
  obtain ⟨e, he, r⟩ := p1.fns f lf F hf
  obtain ⟨e', he', r'⟩ := p1.fns c lc C hc
  obtain ⟨m2, x, h2, i2, p2, r2⟩ := gives_run i1 (Eng.reduceBF_spec i1.wf r r' hs)
  have res := finish_ok S i2 r2
  obtain ⟨m3, y, h3, p3, res⟩ := res
  simp only [reduce, h1, internals, internal, he, he', Option.map_some, h2, h3]
  have p13 := (p1.trans p2).trans p3
  rcases res with ⟨hy, i3, d3⟩ | ⟨-, rfl, i3, o3, l3⟩
  · have q3 := finish_quiet h3 hy
    rw [if_neg hy]
    have lb : UTab.Live (bump own y.addr) f := live_bump lf
    have ly : UTab.Live (bump own y.addr) y := live_bumped own y.addr y.neg
    obtain ⟨m4, n, h4, i4, p4, c4, q4, o4⟩ := size_quiet S i3 q3 ly d3
    have hf3 := p13.fns f lf F hf
    have hf4 := p4.fns f lb F hf3
    obtain ⟨m5, k, h5, i5, p5, c5, q5, o5⟩ := size_quiet S i4 q4 lb hf4
    simp only [h4, h5]
    have p45 := (p4.trans p5)
    have hf5 := p5.fns f lb F hf4
    by_cases hnk : (n : Int) < (k : Int)
    · rw [if_pos hnk]
      refine ⟨restrict m1.st.ord F C, ⟨m5, y, rfl, p13.trans (p45.weaken fun _ => live_bump),
        Or.inl ⟨hy, i5, p45.fns y ly _ d3⟩⟩, fun ρ h => restrict_in _ h, fun v h => restrict_indep _ h, ?_⟩
      intro m' r' he _
      cases he
      intro a b ha hb
      rw [o5, o4] at ha hb
      rw [o4] at c5
      have := ha.unique c4
      have := hb.unique c5
      omega
    · rw [if_neg hnk]
      obtain ⟨m6, m7, h6, h7, i7, p7, d7, n7, -⟩ := free_identity i5 rfl lf hf5
      simp only [h6, h7]
      refine ⟨F, ⟨m7, f, rfl, p13.trans ((p45.weaken fun _ => live_bump).trans p7),
        Or.inl ⟨n7, i7, d7⟩⟩, fun _ _ => rfl, fun _ h => h, ?_⟩
      intro m' r' _ _ a b ha hb
      exact Nat.le_of_eq (ha.unique hb)
  · rw [if_pos rfl]
    refine ⟨F, ⟨m3, Handle.null, rfl, p13, Or.inr ⟨rfl, rfl, i3, o3, l3⟩⟩, fun _ _ => rfl, fun _ h => h, ?_⟩
    intro m' r' he hne
    cases he
    exact absurd rfl hne

/-- `Cal_BddReduce` with the constant false as care set: the null BDD that the loop leaves is taken for
a node. -/
theorem reduce_zero (S : E.Sound) (i : m.Inv own lk) {f c F} (lf : UTab.Live own f)
    (lc : UTab.Live own c) (hf : Den m f F) (hc : Den m c fun _ => false) :
    m.reduce E f c = none := by
  obtain ⟨m1, h1, i1, p1⟩ := preProc_ok S i (forall2 lf lc)
  obtain ⟨e, he, r⟩ := p1.fns f lf F hf
  obtain ⟨e', he', r'⟩ := p1.fns c lc _ hc
  simp only [reduce, h1, internals, internal, he, he', Option.map_some, reduceBF_zero i1.wf _ r',
    onStore]

/-- What `Cal_BddBetween` gives. -/
theorem between_ok (S : E.Sound) (i : m.Inv own lk) {f g F G} (lf : UTab.Live own f)
    (lg : UTab.Live own g) (hf : Den m f F) (hg : Den m g G) (hs : ∃ ρ, F ρ = true ∨ G ρ = false) :
    ∃ H, Res own lk true 0 m (m.between E f g) H ∧
      ((∀ ρ, F ρ = true → G ρ = true) →
        (∀ ρ, F ρ = true → H ρ = true) ∧ ∀ ρ, H ρ = true → G ρ = true) ∧
      ∀ m' r, m.between E f g = some (m', r) → r ≠ Handle.null →
        NoLarger m'.st.ord H F ∧ NoLarger m'.st.ord H G := by
  obtain ⟨m1, h1, i1, p1⟩ := preProc_ok S i (forall2 lf lg)
  obtain ⟨e, he, r⟩ := p1.fns f lf F hf
  obtain ⟨e', he', r'⟩ := p1.fns g lg G hg
  obtain ⟨sa, y, ha, wa, lea, ka, ra⟩ := opBF_gives opOr_law i1.wf r r'.not
  obtain ⟨ma, y', ha', ia, pa, -⟩ := gives_run i1 (opBF_gives opOr_law i1.wf r r'.not)
  rw [ha] at ha'
  cases ha'
  have rF := r.mono lea
  have sat : Sat fun ρ => (F ρ || !G ρ) := by
    obtain ⟨ρ, h⟩ := hs
    exact ⟨ρ, by rcases h with h | h <;> simp [h]⟩
  obtain ⟨m2, x, h2, i2, p2, r2⟩ := gives_run ia (Eng.reduceBF_spec wa rF ra sat)
  have res := finish_ok S i2 r2
  obtain ⟨m3, y, h3, p3, res⟩ := res
  simp only [between, h1, internals, internal, he, he', Option.map_some, ha, onStore] at h2 ⊢
  simp only [h2, h3]
  have p13 := ((p1.trans pa).trans p2).trans p3
  rcases res with ⟨hy, i3, d3⟩ | ⟨-, rfl, i3, o3, l3⟩
  · have q3 := finish_quiet h3 hy
    rw [if_neg hy]
    have lb : UTab.Live (bump own y.addr) f := live_bump lf
    have lgb : UTab.Live (bump own y.addr) g := live_bump lg
    have ly : UTab.Live (bump own y.addr) y := live_bumped own y.addr y.neg
    have hf3 := p13.fns f lf F hf
    have hg3 := p13.fns g lg G hg
    obtain ⟨m4, nMin, h4, i4, p4, c4, q4, o4⟩ := size_quiet S i3 q3 lb hf3
    obtain ⟨m5, nMax, h5, i5, p5, c5, q5, o5⟩ := size_quiet S i4 q4 lgb (p4.fns g lgb G hg3)
    obtain ⟨m6, n, h6, i6, p6, c6, q6, o6⟩ := size_quiet S i5 q5 ly (p5.fns y ly _ (p4.fns y ly _ d3))
    simp only [h4, h5, h6]
    have p46 := (p4.trans p5).trans p6
    have p46' : Pres own 0 m3 m6 := p46.weaken fun _ => live_bump
    rw [o5, o4] at c6
    rw [o4] at c5
    have o36 : m6.st.ord = m3.st.ord := by rw [o6, o5, o4]
    have back : ∀ {h X}, UTab.Live own h → Den m3 h X → ∃ m7 m8, m6.free y = some m7 ∧
        m7.identity h = some (m8, h) ∧ m8.Inv (bump own h.addr) lk ∧ Pres own 0 m m8 ∧ Den m8 h X ∧
        h ≠ Handle.null ∧ m8.st.ord = m3.st.ord := by
      intro h X l d
      obtain ⟨m7, m8, h7, h8, i8, p8, d8, n8, o8⟩ := free_identity i6 rfl l (p46.fns h (live_bump l) X d)
      exact ⟨m7, m8, h7, h8, i8, p13.trans (p46'.trans p8), d8, n8, by rw [o8, o36]⟩
    have lt : ∀ {o X Y a b}, o = m3.st.ord → Counts true (Subfn m3.st.ord X) a →
        Counts true (Subfn m3.st.ord Y) b → a ≤ b → NoLarger o X Y := by
      intro o X Y a b ho ca cb hab a' b' ha hb
      rw [ho] at ha hb
      have := ha.unique ca
      have := hb.unique cb
      omega
    by_cases hMin : (n : Int) < (nMin : Int)
    · rw [if_pos hMin]
      by_cases hMax : (n : Int) < (nMax : Int)
      · rw [if_pos hMax]
        refine ⟨_, ⟨m6, y, rfl, p13.trans p46', Or.inl ⟨hy, i6, p46.fns y ly _ d3⟩⟩, fun hle => ⟨?_, ?_⟩, ?_⟩
        · intro ρ h
          rw [restrict_in _ (by simp [h])]; exact h
        · intro ρ h
          cases hG : G ρ with
          | true => rfl
          | false =>
            rw [restrict_in _ (by simp [hG])] at h
            rw [← hG]; exact hle ρ h
        · intro m' r' he _
          cases he
          exact ⟨lt o36 c6 c4 (by omega), lt o36 c6 c5 (by omega)⟩
      · rw [if_neg hMax]
        obtain ⟨m7, m8, h7, h8, i8, p8, d8, n8, o8⟩ := back lg hg3
        simp only [h7, h8]
        refine ⟨G, ⟨m8, g, rfl, p8, Or.inl ⟨n8, i8, d8⟩⟩, fun hle => ⟨hle, fun _ h => h⟩, ?_⟩
        intro m' r' he _
        cases he
        exact ⟨lt o8 c5 c4 (by omega), lt o8 c5 c5 (by omega)⟩
    · rw [if_neg hMin]
      obtain ⟨m7, m8, h7, h8, i8, p8, d8, n8, o8⟩ := back lf hf3
      obtain ⟨m7', m9, h7', h9, i9, p9, d9, n9, o9⟩ := back lg hg3
      rw [h7] at h7'
      cases h7'
      simp only [h7, h8, h9]
      by_cases hMax : (nMin : Int) < (nMax : Int)
      · simp only [if_pos hMax]
        refine ⟨F, ⟨m8, f, rfl, p8, Or.inl ⟨n8, i8, d8⟩⟩, fun hle => ⟨fun _ h => h, hle⟩, ?_⟩
        intro m' r' he _
        cases he
        exact ⟨lt o8 c4 c4 (by omega), lt o8 c4 c5 (by omega)⟩
      · simp only [if_neg hMax]
        refine ⟨G, ⟨m9, g, rfl, p9, Or.inl ⟨n9, i9, d9⟩⟩, fun hle => ⟨hle, fun _ h => h⟩, ?_⟩
        intro m' r' he _
        cases he
        exact ⟨lt o9 c5 c4 (by omega), lt o9 c5 c5 (by omega)⟩
  · rw [if_pos rfl]
    refine ⟨F, ⟨m3, Handle.null, rfl, p13, Or.inr ⟨rfl, rfl, i3, o3, l3⟩⟩, fun hle => ⟨fun _ h => h, hle⟩, ?_⟩
    intro m' r' he hne
    cases he
    exact absurd rfl hne

/-- `Cal_BddBetween` of false and true: the care set is empty. -/
theorem between_zero (S : E.Sound) (i : m.Inv own lk) {f g} (lf : UTab.Live own f)
    (lg : UTab.Live own g) (hf : Den m f fun _ => false) (hg : Den m g fun _ => true) :
    m.between E f g = none := by
  obtain ⟨m1, h1, i1, p1⟩ := preProc_ok S i (forall2 lf lg)
  obtain ⟨e, he, r⟩ := p1.fns f lf _ hf
  obtain ⟨e', he', r'⟩ := p1.fns g lg _ hg
  obtain ⟨sa, y, ha, wa, lea, ka, ra⟩ := opBF_gives opOr_law i1.wf r r'.not
  have ra : Rep sa y fun _ => false := ra
  simp only [between, h1, internals, internal, he, he', Option.map_some, ha, onStore,
    reduceBF_zero wa _ ra]

end Mgr

end Cal
