import Verif.Fraction

/-!
# Size, profile, support and dependence through the API

The mark bits are clear on entry; that they are clear on exit is part of `sizeOf_ok`, `profileOf_ok`,
`supportOf_ok` and `dependsOnOf_ok`.
-/

namespace Cal

namespace Mgr

/-! ## Model -/

/-- `Cal_BddSize` (calBddSize.c:94-107) -/
def size (E : Env) (m : Mgr) (f : Handle) (negout : Bool) : Option (Mgr × Int) :=
  match m.preProc E [f] with
  | none => none
  | some (m1, false) => some (m1, 0)
  | some (m1, true) =>
    match m1.internals [f] with
    | none => none
    | some es => (sizeOf m1.st negout (fun _ => 0) es).map fun p => (m1, (p.1 : Int))

/-- `Cal_BddSizeMultiple` (calBddSize.c:112-147), on the array up to its terminating null -/
def sizeMultiple (E : Env) (m : Mgr) (fs : List Handle) (negout : Bool) : Option (Mgr × Int) :=
  match m.arrayPreProc E fs with
  | none => none
  | some (m1, false) => some (m1, -1)
  | some (m1, true) =>
    match m1.internals fs with
    | none => none
    | some es => (sizeOf m1.st negout (fun _ => 0) es).map fun p => (m1, (p.1 : Int))

/-- the array `levelCounts`, with entries 0, …, `numVars` -/
def counts (n : Nat) (C : Nat → Nat) : List Nat := (List.range (n + 1)).map C

/-- `Cal_BddProfile` (calBddSize.c:149-165). For null, the array is not written: `none` inside. -/
def profile (E : Env) (m : Mgr) (f : Handle) (negout : Bool) : Option (Mgr × Option (List Nat)) :=
  match m.preProc E [f] with
  | none => none
  | some (m1, false) => some (m1, none)
  | some (m1, true) =>
    match m1.internals [f] with
    | none => none
    | some es =>
      (profileOf m1.st negout (fun _ => 0) es).map fun p => (m1, some (counts m1.st.ord.numVars p.1))

/-- `Cal_BddProfileMultiple` (calBddSize.c:170-202), on the array up to its terminating null -/
def profileMultiple (E : Env) (m : Mgr) (fs : List Handle) (negout : Bool) :
    Option (Mgr × Option (List Nat)) :=
  match m.arrayPreProc E fs with
  | none => none
  | some (m1, _) =>
    match m1.internals fs with
    | none => none
    | some es =>
      (profileOf m1.st negout (fun _ => 0) es).map fun p => (m1, some (counts m1.st.ord.numVars p.1))

/-- The loop of `Cal_BddSupport` that makes the variables external (calBddSupport.c:92-96). -/
def externals (m : Mgr) : List Edge → Mgr × List Handle
  | [] => (m, [])
  | e :: es => ((externals (m.external e).1 es).1, (m.external e).2 :: (externals (m.external e).1 es).2)

/-- `Cal_BddSupport` (calBddSupport.c:79-100). The array up to its terminating null. -/
def support (E : Env) (m : Mgr) (f : Handle) : Option (Mgr × List Handle) :=
  match m.preProc E [f] with
  | none => none
  | some (m1, false) => some (m1, [])
  | some (m1, true) =>
    match m1.internal f with
    | none => none
    | some e => (supportOf m1.st m1.vars (fun _ => false) e).map fun p => m1.externals p.1

/-- `Cal_BddDependsOn` (calBddSupport.c:105-124) -/
def dependsOn (E : Env) (m : Mgr) (f v : Handle) : Option (Mgr × Bool) :=
  match m.preProc E [f, v] with
  | none => none
  | some (m1, false) => some (m1, false)
  | some (m1, true) =>
    match m1.internals [f, v] with
    | some [f, v] =>
      if v.isConst then some (m1, true)
      else (dependsOnOf m1.st (m1.st.elvl v) (fun _ => false) f).map fun p => (m1, p.1)
    | _ => none

/-! ## Proofs -/

variable {own : Nat → Nat} {m : Mgr} {lk : Bool} {E : Env}

theorem size_ok (S : E.Sound) (i : m.Inv own lk) {f F} (lf : UTab.Live own f) (hf : Den m f F)
    (negout : Bool) : ∃ m', ∃ n : Nat, m.size E f negout = some (m', (n : Int)) ∧ m'.Inv own lk ∧ Pres own 0 m m' ∧
      Counts negout (Subfn m'.st.ord F) n := by
  obtain ⟨m1, h1, i1, p1⟩ := preProc_ok S i (forall1 lf)
  obtain ⟨es, h2, r⟩ := internals_ok (.one (p1.fns f lf F hf))
  obtain ⟨n, h3, c⟩ := sizeOf_ok i1.wf negout r
  refine ⟨m1, n, by simp only [size, h1, h2, h3, Option.map_some], i1, p1, ?_⟩
  exact c.congr fun G => by simp

theorem sizeMultiple_ok (S : E.Sound) (i : m.Inv own lk) {fs Fs} (lf : ∀ f ∈ fs, UTab.Live own f)
    (hf : F2 (Den m) fs Fs) (negout : Bool) :
    ∃ m', ∃ n : Nat, m.sizeMultiple E fs negout = some (m', (n : Int)) ∧ m'.Inv own lk ∧ Pres own 0 m m' ∧
      Counts negout (fun G => ∃ F ∈ Fs, Subfn m'.st.ord F G) n := by
  obtain ⟨m1, h1, i1, p1⟩ := arrayPreProc_ok S i lf
  obtain ⟨es, h2, r⟩ := internals_ok (p1.dens lf hf)
  obtain ⟨n, h3, c⟩ := sizeOf_ok i1.wf negout r
  exact ⟨m1, n, by simp only [sizeMultiple, h1, h2, h3, Option.map_some], i1, p1, c⟩

theorem counts_length (n C) : (counts n C).length = n + 1 := by simp [counts]

theorem counts_get {n C i} (h : i ≤ n) : (counts n C)[i]? = some (C i) := by
  simp [counts, show i < n + 1 by omega]

theorem profile_ok (S : E.Sound) (i : m.Inv own lk) {f F} (lf : UTab.Live own f) (hf : Den m f F)
    (negout : Bool) : ∃ m' C, m.profile E f negout = some (m', some (counts m.numVars C)) ∧
      m'.Inv own lk ∧ Pres own 0 m m' ∧
      (∃ n, (counts m.numVars C).sum = n ∧ Counts negout (Subfn m'.st.ord F) n) ∧
      ∀ j ≤ m.numVars, Counts negout (fun G => AtEntry m'.st.ord j G ∧ Subfn m'.st.ord F G) (C j) := by
  obtain ⟨m1, h1, i1, p1⟩ := preProc_ok S i (forall1 lf)
  obtain ⟨es, h2, r⟩ := internals_ok (.one (p1.fns f lf F hf))
  obtain ⟨n, h4, c⟩ := sizeOf_ok i1.wf negout r
  obtain ⟨C, n', h3, h5, h6, h7⟩ := profileOf_ok i1.wf negout r
  rw [h4] at h5
  cases h5
  have hn : m1.st.ord.numVars = m.numVars := p1.nv
  refine ⟨m1, C, by simp only [profile, h1, h2, h3, Option.map_some, hn], i1, p1, ⟨n, ?_, ?_⟩, ?_⟩
  · rw [← hn]; exact h6
  · exact c.congr fun G => by simp
  · intro j hj
    exact (h7 j (by omega)).congr fun G => by simp

theorem profileMultiple_ok (S : E.Sound) (i : m.Inv own lk) {fs Fs} (lf : ∀ f ∈ fs, UTab.Live own f)
    (hf : F2 (Den m) fs Fs) (negout : Bool) :
    ∃ m' C, m.profileMultiple E fs negout = some (m', some (counts m.numVars C)) ∧
      m'.Inv own lk ∧ Pres own 0 m m' ∧
      (∃ n, (counts m.numVars C).sum = n ∧ Counts negout (fun G => ∃ F ∈ Fs, Subfn m'.st.ord F G) n) ∧
      ∀ j ≤ m.numVars,
        Counts negout (fun G => AtEntry m'.st.ord j G ∧ ∃ F ∈ Fs, Subfn m'.st.ord F G) (C j) := by
  obtain ⟨m1, h1, i1, p1⟩ := arrayPreProc_ok S i lf
  obtain ⟨es, h2, r⟩ := internals_ok (p1.dens lf hf)
  obtain ⟨n, h4, c⟩ := sizeOf_ok i1.wf negout r
  obtain ⟨C, n', h3, h5, h6, h7⟩ := profileOf_ok i1.wf negout r
  rw [h4] at h5
  cases h5
  have hn : m1.st.ord.numVars = m.numVars := p1.nv
  refine ⟨m1, C, by simp only [profileMultiple, h1, h2, h3, Option.map_some, hn], i1, p1, ⟨n, ?_, c⟩, ?_⟩
  · rw [← hn]; exact h6
  · intro j hj
    exact h7 j (by omega)

theorem externals_ok : ∀ {es : List Edge} {own : Nat → Nat} {m : Mgr} {Fs : List BFn}, m.Inv own lk →
    F2 (Rep m.st) es Fs →
    Inv ((m.externals es).2.foldl (fun o h => bump o h.addr) own) lk (m.externals es).1 ∧
    Pres own 0 m (m.externals es).1 ∧ (∀ h ∈ (m.externals es).2, h ≠ Handle.null) ∧
    F2 (Den (m.externals es).1) (m.externals es).2 Fs := by
  intro es
  induction es with
  | nil =>
    intro own m Fs i h
    cases h
    exact ⟨i, .refl _ _, by simp [externals], .nil⟩
  | cons e es ih =>
    intro own m Fs i h
    cases h with
    | cons r h =>
      obtain ⟨Γ, leak, hl, i⟩ := i
      obtain ⟨i1, p1, hne, hd, hs⟩ := i.external r.eok
      have h' : F2 (Rep (m.external e).1.st) es _ := forall₂_imp (fun _ _ r => r.mono hs.le) h
      obtain ⟨i2, p2, hn, hF⟩ := ih (own := bump own (m.external e).2.addr) ⟨Γ, leak, hl, i1⟩ h'
      refine ⟨i2, p1.trans (p2.weaken fun _ l => live_bump l), ?_, ?_⟩
      · intro x hx
        rcases List.mem_cons.1 hx with rfl | hx
        · exact hne
        · exact hn x hx
      · exact .cons (p2.fns _ (live_bumped _ _ _) _ (hd _ r)) hF

theorem _root_.Cal.Rep.dep_range {s : Store} (w : s.WF) {e F} (r : Rep s e F) {v} :
    ¬ Indep F v → 1 ≤ v ∧ v ≤ s.ord.numVars := by
  intro hd
  apply Classical.byContradiction
  intro hv
  apply hd
  clear hd
  induction r with
  | one => exact fun _ _ => rfl
  | zero => exact fun _ _ => rfl
  | pos hn _ _ ih1 ih2 =>
    have := w.var_range _ _ hn
    intro ρ b
    simp only [ih1 ρ b, ih2 ρ b]
    rw [upd_ne _ _ (by rintro h; apply hv; rw [← h]; exact this)]
  | neg hn _ _ ih1 ih2 =>
    have := w.var_range _ _ hn
    intro ρ b
    simp only [ih1 ρ b, ih2 ρ b]
    rw [upd_ne _ _ (by rintro h; apply hv; rw [← h]; exact this)]

theorem f2_map {α β γ : Type} {R : α → γ → Prop} (g : β → γ) {l : List α} {k : List β} :
    F2 R l (k.map g) ↔ F2 (fun x y => R x (g y)) l k := by
  induction k generalizing l with
  | nil =>
    constructor
    · intro h; cases h; exact .nil
    · intro h; cases h; exact .nil
  | cons y k ih =>
    constructor
    · intro h
      cases h with
      | cons a b => exact .cons a (ih.1 b)
    · intro h
      cases h with
      | cons a b => exact .cons a (ih.2 b)

theorem f2_self {α : Type} {R : α → α → Prop} {l : List α} (h : ∀ x ∈ l, R x x) : F2 R l l := by
  induction l with
  | nil => exact .nil
  | cons x l ih => exact .cons (h x (by simp)) (ih fun y hy => h y (by simp [hy]))

theorem support_ok (S : E.Sound) (i : m.Inv own lk) {f F} (lf : UTab.Live own f) (hf : Den m f F) :
    ∃ m' hs vs, m.support E f = some (m', hs) ∧
      m'.Inv (hs.foldl (fun o h => bump o h.addr) own) lk ∧ Pres own 0 m m' ∧
      (∀ h ∈ hs, h ≠ Handle.null) ∧ F2 (fun h v => Den m' h fun ρ => ρ v) hs vs ∧ vs.Nodup ∧
      ∀ v, v ∈ vs ↔ ¬ Indep F v := by
  obtain ⟨m1, h1, i1, p1⟩ := preProc_ok S i (forall1 lf)
  obtain ⟨e, he, r⟩ := p1.fns f lf F hf
  have ⟨Γ, leak, hl, ig⟩ := i1
  obtain ⟨l, h2, h3, h4⟩ := supportOf_ok i1.wf ig.var r
  have hF : F2 (Rep m1.st) l (l.map fun v ρ => ρ v.id) := by
    rw [f2_map]
    refine f2_self fun v hv => ?_
    obtain ⟨h5, h6, h7, -⟩ := (h4 v).1 hv
    obtain ⟨e2, he2, r2⟩ := var_rep ig h6 h7
    rw [h5] at he2
    injection he2 with he2
    rw [he2]; rw [he2] at r2; exact r2
  obtain ⟨i2, p2, hn, hd⟩ := externals_ok i1 hF
  refine ⟨_, _, l.map (·.id), by simp only [support, h1, internal, he, Option.map_some, h2], i2,
    p1.trans p2, hn, ?_, ?_, ?_⟩
  · exact (f2_map _).2 ((f2_map _).1 hd)
  · refine nodup_map_inj ?_ h3
    intro x hx y hy h
    have h5 := ((h4 x).1 hx).1
    have h6 := ((h4 y).1 hy).1
    rw [h, h6] at h5
    injection h5 with h5
    exact h5.symm
  · intro v
    rw [List.mem_map]
    constructor
    · rintro ⟨x, hx, rfl⟩; exact ((h4 x).1 hx).2.2.2
    · intro hd
      obtain ⟨h6, h7⟩ := r.dep_range i1.wf hd
      obtain ⟨a, ha, -⟩ := ig.var v h6 h7
      exact ⟨⟨v, a, false⟩, (h4 _).2 ⟨ha, h6, h7, hd⟩, rfl⟩

theorem dependsOn_ok (S : E.Sound) (i : m.Inv own lk) {f v F G} (lf : UTab.Live own f)
    (lv : UTab.Live own v) (hf : Den m f F) (hv : Den m v G) :
    ∃ m' b, m.dependsOn E f v = some (m', b) ∧ m'.Inv own lk ∧ Pres own 0 m m' ∧
      (¬ NonConst G → b = true) ∧ ∀ x, TopVar m'.st.ord G x → (b = true ↔ ¬ Indep F x) := by
  obtain ⟨m1, h1, i1, p1⟩ := preProc_ok S i (forall2 lf lv)
  obtain ⟨e, he, r⟩ := p1.fns f lf F hf
  obtain ⟨e', he', r'⟩ := p1.fns v lv G hv
  simp only [dependsOn, h1, internals, internal, he, he', Option.map_some]
  by_cases hc : (e'.phase v.neg).id = 0
  · rw [if_pos (by simpa [Edge.isConst] using hc)]
    refine ⟨m1, true, rfl, i1, p1, fun _ => rfl, fun x hx => ?_⟩
    exfalso
    apply hx.dep
    rcases (r'.const_iff i1.wf).1 hc with h | h <;> · rw [h]; exact fun _ _ => rfl
  · rw [if_neg (by simpa [Edge.isConst] using hc)]
    have top := r'.topVar i1.wf hc
    have hl : m1.st.elvl (e'.phase v.neg) = m1.st.ord.idToIndex (e'.phase v.neg).id := by
      unfold Store.elvl Order.lvl; rw [if_neg hc]
    obtain ⟨b, h2, h3⟩ := dependsOnOf_ok i1.wf r top.rng
    rw [hl, h2]
    refine ⟨m1, b, rfl, i1, p1, fun h => ?_, fun x hx => ?_⟩
    · exfalso
      apply hc
      rw [r'.const_iff i1.wf]
      unfold NonConst at h
      by_cases h1 : G = fun _ => true
      · exact Or.inl h1
      · exact Or.inr (Classical.byContradiction fun h2 => h ⟨h1, h2⟩)
    · rw [top.unique i1.wf.ord hx] at h3
      exact h3

end Mgr

end Cal
