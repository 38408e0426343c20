import Verif.OpsSpec

/-! # Lists of dependent requests and the multiway operations -/

namespace Cal

/-- Values of the requests of one depth: `Fs` has the values of the earlier depths. -/
def specDepth (fn : Bool → Bool → Bool) (dn : Edge → BFn) (Fs : List (List BFn)) :
    List (Arg × Arg) → Option (List BFn)
  | [] => some []
  | (x, y) :: as =>
    match x.get dn BFn.not Fs, y.get dn BFn.not Fs, specDepth fn dn Fs as with
    | some f, some g, some l => some ((fun ρ => fn (f ρ) (g ρ)) :: l)
    | _, _, _ => none

/-- Values of all requests, one operation at a time. -/
def specAll (fn : Bool → Bool → Bool) (dn : Edge → BFn) :
    List (List BFn) → List (List (Arg × Arg)) → Option (List (List BFn))
  | Fs, [] => some Fs
  | Fs, l :: ls =>
    match specDepth fn dn Fs l with
    | none => none
    | some F => specAll fn dn (Fs ++ [F]) ls

/-- all BDD operands are valid -/
def Arg.OK (s : Store) : Arg → Prop
  | .bdd e => s.EOK e
  | .node _ _ _ => True

def LsOK (s : Store) (ls : List (List (Arg × Arg))) : Prop :=
  ∀ l ∈ ls, ∀ p ∈ l, p.1.OK s ∧ p.2.OK s

variable {op : Edge → Edge → Option Edge} {fn : Bool → Bool → Bool}

/-- element-wise related lists -/
inductive F2 {α β : Type} (R : α → β → Prop) : List α → List β → Prop
  | nil : F2 R [] []
  | cons {x y l m} : R x y → F2 R l m → F2 R (x :: l) (y :: m)

/-- results of one depth and the functions they stand for -/
abbrev RowOK (b : BF (Edge × Edge)) (δ : Nat → BFn) (d : Nat) (r : List Edge) (F : List BFn) : Prop :=
  F2 (fun e f => b.EV (d+1) e ∧ den δ e = f) r F

def RowsOK (b : BF (Edge × Edge)) (δ : Nat → BFn) (rs : List (List Edge)) (Fs : List (List BFn)) :
    Prop :=
  rs.length = Fs.length ∧ ∀ d r F, rs[d]? = some r → Fs[d]? = some F → RowOK b δ d r F

theorem forall₂_imp {α β : Type} {R R' : α → β → Prop} (h : ∀ x y, R x y → R' x y) {l m}
    (hf : F2 R l m) : F2 R' l m := by
  induction hf with
  | nil => exact .nil
  | cons h1 _ ih => exact .cons (h _ _ h1) ih

theorem forall₂_get {α β : Type} {R : α → β → Prop} {l m}
    (hf : F2 R l m) {k : Nat} {y} (h : m[k]? = some y) : ∃ x, l[k]? = some x ∧ R x y := by
  induction hf generalizing k with
  | nil => simp at h
  | cons h1 _ ih =>
    cases k with
    | zero => simp at h; subst h; exact ⟨_, by simp, h1⟩
    | succ k => simpa using ih (by simpa using h)

theorem RowOK.mono {b b' : BF (Edge × Edge)} {δ δ'} (hle : b.Le b') (hag : b.Agree δ δ') {d r F}
    (h : RowOK b δ d r F) : RowOK b' δ' d r F :=
  forall₂_imp (fun e f ⟨h1, h2⟩ => ⟨h1.mono hle, by rw [hag.den h1, h2]⟩) h

theorem RowsOK.mono {b b' : BF (Edge × Edge)} {δ δ'} (hle : b.Le b') (hag : b.Agree δ δ') {rs Fs}
    (h : RowsOK b δ rs Fs) : RowsOK b' δ' rs Fs :=
  ⟨h.1, fun d r F h1 h2 => (h.2 d r F h1 h2).mono hle hag⟩

theorem Arg.get_spec {b : BF (Edge × Edge)} {δ rs Fs} (h : RowsOK b δ rs Fs) {s : Store}
    (hs : s.Le b.st) {δ0} (hag : ∀ a, (a = 0 ∨ s.heap a ≠ none) → δ a = δ0 a) {x : Arg} (hx : x.OK s)
    {f} (hf : x.get (den δ0) BFn.not Fs = some f) :
    ∃ e, x.get id Edge.not rs = some e ∧ b.EV rs.length e ∧ den δ e = f := by
  cases x with
  | bdd e =>
    simp only [Arg.get, Option.some.injEq] at hf ⊢
    refine ⟨e, rfl, Or.inl (Store.EOK.mono hs hx), ?_⟩
    rw [← hf]
    unfold den
    rw [hag]
    rcases hx with ⟨_, h⟩ | ⟨n, h, _⟩
    · exact Or.inl h
    · exact Or.inr (by rw [h]; simp)
  | node d k neg =>
    simp only [Arg.get] at hf ⊢
    cases hd : Fs[d]? with
    | none => rw [hd] at hf; cases hf
    | some F =>
      rw [hd] at hf
      have hlt : d < rs.length := by
        rw [h.1]; exact (List.getElem?_eq_some_iff.1 hd).1
      obtain ⟨r, hr⟩ : ∃ r, rs[d]? = some r := ⟨_, List.getElem?_eq_getElem hlt⟩
      simp only [Option.map_eq_some_iff] at hf
      obtain ⟨f', hf', rfl⟩ := hf
      obtain ⟨e, he, h1, h2⟩ := forall₂_get (h.2 d r F hr hd) hf'
      refine ⟨if neg then e.not else e, by rw [hr]; simp [he], ?_, ?_⟩
      · cases neg
        · exact h1.weaken (by omega)
        · exact (h1.weaken (by omega)).not
      · cases neg
        · exact h2
        · simp only [if_true, den_not, h2]; rfl

theorem insertDepth_spec (law : BinLaw op fn) {R : BF (Edge × Edge) → Prop}
    (kept : BF.Kept (binSem law) R) {s : Store} {δ0 : Nat → BFn} {D : Nat} {rs Fs}
    (hd : rs.length < D) : ∀ (l : List (Arg × Arg)) (b : BF (Edge × Edge)) (δ : Nat → BFn) F,
    (∀ p ∈ l, p.1.OK s ∧ p.2.OK s) → BF.Fresh (binSem law) ⟨D, 0⟩ b → BF.BLab (binSem law) b δ →
    R b → s.Le b.st → (∀ a, (a = 0 ∨ s.heap a ≠ none) → δ a = δ0 a) → RowsOK b δ rs Fs →
    specDepth fn (den δ0) Fs l = some F →
    ∃ b' r δ', insertDepth (binKernel op) rs.length rs l b = some (b', r) ∧
      BF.Fresh (binSem law) ⟨D, 0⟩ b' ∧ BF.BLab (binSem law) b' δ' ∧ R b' ∧ b.Le b' ∧ b.Agree δ δ' ∧
      RowOK b' δ' rs.length r F
  | [], b, δ, F, _, fr, bl, hR, _, _, _, hF => by
    simp only [specDepth, Option.some.injEq] at hF; subst hF
    exact ⟨b, [], δ, rfl, fr, bl, hR, BF.Le.refl b, BF.Agree.refl b δ, .nil⟩
  | (x, y) :: as, b, δ, F, hok, fr, bl, hR, hle, hag, hrows, hF => by
    simp only [specDepth] at hF
    cases hx : x.get (den δ0) BFn.not Fs with
    | none => simp [hx] at hF
    | some f =>
      cases hy : y.get (den δ0) BFn.not Fs with
      | none => simp [hx, hy] at hF
      | some g =>
        cases hl : specDepth fn (den δ0) Fs as with
        | none => simp [hx, hy, hl] at hF
        | some Fl =>
          simp only [hx, hy, hl, Option.some.injEq] at hF
          subst hF
          have hxy := hok (x, y) (by simp)
          obtain ⟨ex, gx, evx, dx⟩ := Arg.get_spec hrows hle hag hxy.1 hx
          obtain ⟨ey, gy, evy, dy⟩ := Arg.get_spec hrows hle hag hxy.2 hy
          obtain ⟨b1, r, δ1, h1, fr1, bl1, le1, ag1, ev1, -, dn1⟩ :=
            BF.Fresh.request fr bl (p := (ex, ey)) (d := rs.length) hd (Nat.zero_le _) (by
              intro z hz
              have hz' : z = ex ∨ z = ey := by simpa [binSem] using hz
              rcases hz' with rfl | rfl
              · exact ⟨evx, Nat.zero_le _⟩
              · exact ⟨evy, Nat.zero_le _⟩)
          have hR1 := kept.request fr.shape hR h1
          have hus : ∀ a, (a = 0 ∨ s.heap a ≠ none) → b.Used a := by
            intro a ha
            rcases ha with ha | ha
            · exact Or.inl ha
            · refine Or.inr (Or.inl ?_)
              cases hn : s.heap a with
              | none => exact absurd hn ha
              | some n => rw [hle.heap a n hn]; simp
          obtain ⟨b2, rl, δ2, h2, fr2, bl2, hR2, le2, ag2, row2⟩ :=
            insertDepth_spec law kept hd as b1 δ1 Fl (fun p hp => hok p (by simp [hp])) fr1 bl1 hR1
              (hle.trans le1.st) (fun a ha => by rw [ag1 a (hus a ha), hag a ha])
              (hrows.mono le1 ag1) hl
          refine ⟨b2, r :: rl, δ2, ?_, fr2, bl2, hR2, le1.trans le2, ag1.trans le1 ag2, ?_⟩
          · simp [insertDepth, gx, gy, h1, h2]
          · refine .cons ⟨ev1.mono le2, ?_⟩ row2
            rw [ag2.den ev1, dn1]
            simp only [binSem, dx, dy]

theorem insertAll_spec (law : BinLaw op fn) {R : BF (Edge × Edge) → Prop}
    (kept : BF.Kept (binSem law) R) {s : Store} {δ0 : Nat → BFn} {D : Nat} :
    ∀ (ls : List (List (Arg × Arg))) (rs : List (List Edge)) (Fs : List (List BFn))
      (b : BF (Edge × Edge)) (δ : Nat → BFn) Gs,
    rs.length + ls.length ≤ D → LsOK s ls → BF.Fresh (binSem law) ⟨D, 0⟩ b →
    BF.BLab (binSem law) b δ →
    R b → s.Le b.st → (∀ a, (a = 0 ∨ s.heap a ≠ none) → δ a = δ0 a) → RowsOK b δ rs Fs →
    specAll fn (den δ0) Fs ls = some Gs →
    ∃ b' rs' δ', insertAll (binKernel op) rs.length rs ls b = some (b', rs') ∧
      BF.Fresh (binSem law) ⟨D, 0⟩ b' ∧ BF.BLab (binSem law) b' δ' ∧ R b' ∧ b.Le b' ∧
      b.Agree δ δ' ∧ RowsOK b' δ' rs' Gs
  | [], rs, Fs, b, δ, Gs, _, _, fr, bl, hR, _, _, hrows, hG => by
    simp only [specAll, Option.some.injEq] at hG; subst hG
    exact ⟨b, rs, δ, rfl, fr, bl, hR, BF.Le.refl b, BF.Agree.refl b δ, hrows⟩
  | l :: ls, rs, Fs, b, δ, Gs, hD, hok, fr, bl, hR, hle, hag, hrows, hG => by
    simp only [specAll] at hG
    simp only [List.length_cons] at hD
    cases hF : specDepth fn (den δ0) Fs l with
    | none => simp [hF] at hG
    | some F =>
      simp only [hF] at hG
      obtain ⟨b1, r, δ1, h1, fr1, bl1, hR1, le1, ag1, row⟩ :=
        insertDepth_spec law kept (by omega) l b δ F (hok l (by simp)) fr bl hR hle hag hrows hF
      have hrows1 : RowsOK b1 δ1 (rs ++ [r]) (Fs ++ [F]) := by
        refine ⟨by simp [hrows.1], fun d r' F' hr' hF' => ?_⟩
        by_cases hlt : d < rs.length
        · rw [List.getElem?_append_left hlt] at hr'
          rw [List.getElem?_append_left (by rw [← hrows.1]; exact hlt)] at hF'
          exact (hrows.2 d r' F' hr' hF').mono le1 ag1
        · have hlt' := (List.getElem?_eq_some_iff.1 hr').1
          simp only [List.length_append, List.length_singleton] at hlt'
          have hde : d = rs.length := by omega
          subst hde
          rw [List.getElem?_append_right (by omega)] at hr'
          rw [List.getElem?_append_right (by rw [hrows.1]; omega)] at hF'
          simp [hrows.1] at hr' hF'
          subst hr'; subst hF'; exact row
      have hus : ∀ a, (a = 0 ∨ s.heap a ≠ none) → b.Used a := by
        intro a ha
        rcases ha with ha | ha
        · exact Or.inl ha
        · refine Or.inr (Or.inl ?_)
          cases hn : s.heap a with
          | none => exact absurd hn ha
          | some n => rw [hle.heap a n hn]; simp
      obtain ⟨b2, rs2, δ2, h2, fr2, bl2, hR2, le2, ag2, rows2⟩ :=
        insertAll_spec law kept ls (rs ++ [r]) (Fs ++ [F]) b1 δ1 Gs (by simp; omega)
          (fun l' hl' => hok l' (by simp [hl'])) fr1 bl1 hR1 (hle.trans le1.st)
          (fun a ha => by rw [ag1 a (hus a ha), hag a ha]) hrows1 hG
      refine ⟨b2, rs2, δ2, ?_, fr2, bl2, hR2, le1.trans le2, ag1.trans le1 ag2, rows2⟩
      simp only [List.length_append, List.length_singleton] at h2
      simp [insertAll, h1, h2]

/-- The results in `rs` are valid edges of `s'` that stand for `Fs`. -/
abbrev RowsRep (s' : Store) (δ' : Nat → BFn) (rs : List (List Edge)) (Fs : List (List BFn)) : Prop :=
  F2 (F2 (fun e f => s'.EOK e ∧ den δ' e = f)) rs Fs

theorem forall₂_of_get {α β : Type} {R : α → β → Prop} {l : List α} {m : List β}
    (hl : l.length = m.length) (h : ∀ (d : Nat) x y, l[d]? = some x → m[d]? = some y → R x y) :
    F2 R l m := by
  induction l generalizing m with
  | nil => cases m with
    | nil => exact .nil
    | cons => simp at hl
  | cons a l ih =>
    cases m with
    | nil => simp at hl
    | cons c m =>
      exact .cons (h 0 a c (by simp) (by simp))
        (ih (by simpa using hl) (fun d x y hx hy => h (d+1) x y (by simpa using hx) (by simpa using hy)))

theorem forall₂_map_left {α β γ : Type} {R : β → γ → Prop} {g : α → β} {l m}
    (h : F2 (fun x y => R (g x) y) l m) : F2 R (l.map g) m := by
  induction h with
  | nil => exact .nil
  | cons h1 _ ih => exact .cons h1 ih

/-- `CalRequestNodeListArrayOp` gives what doing the requests one at a time gives. -/
theorem listArrayOp_lab (law : BinLaw op fn) {s : Store} (w : s.WF) {δ} (hδ : Lab s δ)
    {ls : List (List (Arg × Arg))} (hok : LsOK s ls) {Gs}
    (hG : specAll fn (den δ) [] ls = some Gs) :
    ∃ s' rs δ', listArrayOp op s ls = some (s', rs) ∧ s'.WF ∧ s.Le s' ∧ Lab s' δ' ∧
      (∀ a, (a = 0 ∨ s.heap a ≠ none) → δ' a = δ a) ∧ RowsRep s' δ' rs Gs ∧ s.Keep s' := by
  have idle : BF.Idle (BF.init s : BF (Edge × Edge)) := BF.init_idle s
  obtain ⟨b, rs, δ1, h1, fr, bl, hR, le, ag, rows⟩ :=
    insertAll_spec law (BF.keep_kept (S := binSem law) s) (s := s) (δ0 := δ) (D := ls.length) ls [] []
      (BF.init s) δ Gs (by simp) hok (idle.fresh w _) (idle.blab hδ) (BF.Keep.init s)
      (Store.Le.refl s) (fun _ _ => rfl) ⟨rfl, by simp⟩ hG
  obtain ⟨b', δ', h2, sh, af, hdep, hlo, bl', le', ag', hR'⟩ :=
    BF.run_ok (BF.keep_kept (S := binSem law) s) fr bl hR
  obtain ⟨w', idle', sn⟩ := BF.clean_all sh hdep
  simp only [List.length_nil] at h1
  refine ⟨_, _, δ', by simp only [listArrayOp, h1, h2]; rfl, w', ?_, bl'.lab.congr sn.heap, ?_, ?_,
    hR'.final af sn⟩
  · exact (Store.Le.trans le.st le'.st).congr sn.heap sn.ord
  · intro a ha
    have hu : (BF.init s : BF (Edge × Edge)).Used a := by
      rcases ha with ha | ha
      · exact Or.inl ha
      · exact Or.inr (Or.inl ha)
    rw [ag' a (hu.mono le), ag a hu]
  · apply forall₂_map_left
    refine forall₂_of_get rows.1 (fun d r F hr hF => ?_)
    apply forall₂_map_left
    refine forall₂_imp ?_ (rows.2 d r F hr hF)
    rintro e f ⟨he, hf⟩
    obtain ⟨ok, dn⟩ := BF.forward_final sh af bl' (he.mono le')
    refine ⟨ok.congr sn.heap, ?_⟩
    rw [dn, ag'.den he, hf]

/-! ## The pairing of the multiway operations -/

/-- An associative commutative operation with a unit. -/
structure Mon (fn : Bool → Bool → Bool) (u : Bool) : Prop where
  assoc : ∀ x y z, fn (fn x y) z = fn x (fn y z)
  comm : ∀ x y, fn x y = fn y x
  unit : ∀ x, fn u x = x

/-- the operation on a list of functions -/
def big (fn : Bool → Bool → Bool) (u : Bool) : List BFn → BFn
  | [] => fun _ => u
  | f :: l => fun ρ => fn (f ρ) (big fn u l ρ)

theorem big_append {u} (m : Mon fn u) (l l' : List BFn) :
    big fn u (l ++ l') = fun ρ => fn (big fn u l ρ) (big fn u l' ρ) := by
  induction l with
  | nil => funext ρ; simp [big, m.unit]
  | cons f l ih => funext ρ; simp [big, ih, m.assoc]

theorem big_reverse {u} (m : Mon fn u) (l : List BFn) : big fn u l.reverse = big fn u l := by
  induction l with
  | nil => rfl
  | cons f l ih =>
    rw [List.reverse_cons, big_append m, ih]
    funext ρ
    simp only [big]
    rw [m.comm _ u, m.unit, m.comm]

theorem specDepth_append {dn : Edge → BFn} {Fs} (l l' : List (Arg × Arg)) {F F'}
    (h : specDepth fn dn Fs l = some F) (h' : specDepth fn dn Fs l' = some F') :
    specDepth fn dn Fs (l ++ l') = some (F ++ F') := by
  induction l generalizing F with
  | nil => simp only [specDepth, Option.some.injEq] at h; subst h; simpa using h'
  | cons p l ih =>
    obtain ⟨x, y⟩ := p
    simp only [specDepth] at h
    split at h
    · rename_i f g l1 hx hy hl
      cases h
      simp [specDepth, hx, hy, ih hl]
    · cases h

theorem specDepth_reverse {dn : Edge → BFn} {Fs} (l : List (Arg × Arg)) {F}
    (h : specDepth fn dn Fs l = some F) : specDepth fn dn Fs l.reverse = some F.reverse := by
  induction l generalizing F with
  | nil => simp only [specDepth, Option.some.injEq] at h; subst h; rfl
  | cons p l ih =>
    obtain ⟨x, y⟩ := p
    simp only [specDepth] at h
    split at h
    · rename_i f g l1 hx hy hl
      cases h
      rw [List.reverse_cons, List.reverse_cons]
      exact specDepth_append _ _ (ih hl) (by simp [specDepth, hx, hy])
    · cases h

/-- values of a list of operands -/
abbrev Vals (dn : Edge → BFn) (Fs : List (List BFn)) (xs : List Arg) (V : List BFn) : Prop :=
  F2 (fun x v => x.get dn BFn.not Fs = some v) xs V

theorem pairUp_spec {u} (m : Mon fn u) {dn Fs} : ∀ (xs : List Arg) (V : List BFn),
    Vals dn Fs xs V → ∃ F O, specDepth fn dn Fs (pairUp xs).1 = some F ∧
      Vals dn Fs (pairUp xs).2.toList O ∧ F.length = xs.length / 2 ∧
      O.length = xs.length % 2 ∧ big fn u (F ++ O) = big fn u V
  | [], V, h => by
    cases h
    exact ⟨[], [], rfl, .nil, by simp, by simp, rfl⟩
  | [x], V, h => by
    cases h with
    | cons h1 h2 =>
      cases h2
      exact ⟨[], _, rfl, .cons h1 .nil, by simp, by simp, rfl⟩
  | x :: y :: xs, V, h => by
    cases h with
    | cons h1 h2 =>
      cases h2 with
      | cons h2 h3 =>
        obtain ⟨F, O, e1, e2, e3, e4, e5⟩ := pairUp_spec m xs _ h3
        refine ⟨_, O, by simp only [pairUp, specDepth, h1, h2, e1]; rfl, e2, ?_, ?_, ?_⟩
        · simp only [List.length_cons, e3]; omega
        · simp only [List.length_cons, e4]; omega
        · simp only [List.cons_append]
          funext ρ
          simp only [big, e5, m.assoc]

theorem pairUp_length {α : Type} : ∀ (xs : List α), (pairUp xs).1.length = xs.length / 2 ∧
    (pairUp xs).2.toList.length = xs.length % 2
  | [] => ⟨by simp [pairUp], by simp [pairUp]⟩
  | [_] => ⟨by simp [pairUp], by simp [pairUp]⟩
  | x :: y :: xs => by
    have := pairUp_length xs
    simp only [pairUp, List.length_cons, this.1, this.2]
    omega

theorem vals_range {dn : Edge → BFn} {Fs : List (List BFn)} {i : Nat} {V : List BFn}
    (h : Fs[i]? = some V) : Vals dn Fs ((List.range V.length).map fun k => Arg.node i k) V := by
  refine forall₂_of_get (by simp) (fun d x y hx hy => ?_)
  have hd := (List.getElem?_eq_some_iff.1 hy).1
  simp [hd] at hx
  subst hx
  simp only [Arg.get, h]; simp [hy]

theorem pairLevel_spec {u} (m : Mon fn u) {dn : Edge → BFn} {Fs : List (List BFn)} {i : Nat}
    (hi : 1 ≤ i) {V : List BFn} (h : Fs[i-1]? = some V) {last : Option Arg} {L : List BFn}
    (hl : Vals dn Fs last.toList L) :
    ∃ F L', specDepth fn dn Fs (pairLevel i V.length last).1 = some F ∧
      Vals dn Fs (pairLevel i V.length last).2.toList L' ∧
      (pairLevel i V.length last).1.length = F.length ∧
      F.length + L'.length = (V.length + L.length + 1) / 2 ∧ L'.length ≤ 1 ∧
      (1 ≤ V.length → 2 ≤ V.length + L.length → 1 ≤ F.length) ∧
      big fn u (F ++ L') = big fn u (V ++ L) := by
  have hlen : L.length = last.toList.length := by
    have : ∀ {xs V}, Vals dn Fs xs V → V.length = xs.length := by
      intro xs V h
      induction h with
      | nil => rfl
      | cons _ _ ih => simp [ih]
    exact this hl
  obtain ⟨F, O, e1, e2, e3, e4, e5⟩ := pairUp_spec m _ _ (vals_range (dn := dn) h)
  have pl := pairUp_length ((List.range V.length).map fun k => Arg.node (i-1) k)
  generalize hp : pairUp ((List.range V.length).map fun k => Arg.node (i-1) k) = pu at *
  obtain ⟨ps, odd⟩ := pu
  simp only [List.length_map, List.length_range] at *
  have r1 := specDepth_reverse _ e1
  cases odd with
  | none =>
    cases e2
    have hpl : pairLevel i V.length last = (ps.reverse, last) := by simp [pairLevel, hp]
    rw [hpl]
    refine ⟨_, L, r1, hl, by simp [e3, pl.1], ?_, ?_, ?_, ?_⟩
    · simp only [List.length_nil, List.length_reverse] at e4 ⊢
      cases last with
      | none => simp only [Option.toList_none, List.length_nil] at hlen; omega
      | some x => simp only [Option.toList_some, List.length_singleton] at hlen; omega
    · cases last <;> simp at hlen
      · simp [hlen]
      · omega
    · simp only [List.length_nil, List.length_reverse] at e4 ⊢; omega
    · rw [big_append m, big_reverse m, big_append m]
      simp only [List.append_nil] at e5
      rw [e5]
  | some o =>
    cases e2 with
    | cons ho hnil =>
      cases hnil
      rename_i v
      simp at e4
      cases last with
      | none =>
        have hpl : pairLevel i V.length none = (ps.reverse, some o) := by simp [pairLevel, hp]
        rw [hpl]
        cases hl
        refine ⟨_, [v], r1, .cons ho .nil, by simp [e3, pl.1], ?_, by simp, ?_, ?_⟩
        · simp; omega
        · simp; omega
        · rw [big_append m, big_reverse m]
          rw [big_append m] at e5
          rw [e5]; simp
      | some x =>
        have hpl : pairLevel i V.length (some x) = ((o, x) :: ps.reverse, none) := by
          simp [pairLevel, hp]
        rw [hpl]
        cases hl with
        | cons hx hnil =>
          cases hnil
          rename_i z
          refine ⟨(fun ρ => fn (v ρ) (z ρ)) :: F.reverse, [], ?_, .nil, by simp [e3, pl.1], ?_, by simp,
            by simp, ?_⟩
          · simp [specDepth, ho, hx, r1]
          · simp; omega
          · rw [List.append_nil, big_append m, ← e5, big_append m]
            funext ρ
            simp only [big, big_reverse m]
            rw [m.comm _ u, m.unit, m.comm _ u, m.unit, m.comm (fn _ _), m.assoc]

theorem Arg.get_append {dn : Edge → BFn} {Fs : List (List BFn)} {x : Arg} {v} (F : List BFn)
    (h : x.get dn BFn.not Fs = some v) : x.get dn BFn.not (Fs ++ [F]) = some v := by
  cases x with
  | bdd e => exact h
  | node d k neg =>
    simp only [Arg.get] at h ⊢
    cases hd : Fs[d]? with
    | none => rw [hd] at h; cases h
    | some V =>
      rw [hd] at h
      rw [List.getElem?_append_left (List.getElem?_eq_some_iff.1 hd).1, hd]; exact h

theorem pairLevels_spec {u} (m : Mon fn u) {dn : Edge → BFn} : ∀ (k : Nat) (i : Nat)
    (Fs : List (List BFn)) (V : List BFn) (last : Option Arg) (L : List BFn),
    1 ≤ i → Fs.length = i → Fs[i-1]? = some V → Vals dn Fs last.toList L →
    1 ≤ V.length → V.length + L.length ≤ 2 ^ k → (1 ≤ k → 2 ^ (k-1) < V.length + L.length) →
    ∃ Gs f, specAll fn dn Fs (pairLevels k i V.length last) = some Gs ∧
      Gs.getLast? = some [f] ∧ f = big fn u (V ++ L)
  | 0, i, Fs, V, last, L, hi, hFs, hV, hl, h1, h2, _ => by
    simp at h2
    have hV1 : V.length = 1 := by omega
    have hL0 : L = [] := List.eq_nil_of_length_eq_zero (by omega)
    subst hL0
    match V, hV1 with
    | [f], _ =>
      refine ⟨Fs, f, rfl, ?_, ?_⟩
      · rw [List.getLast?_eq_getElem?, hFs]; exact hV
      · funext ρ; simp only [List.append_nil, big]; rw [m.comm, m.unit]
  | k+1, i, Fs, V, last, L, hi, hFs, hV, hl, h1, h2, h3 => by
    have h3 := h3 (by omega)
    simp only [Nat.add_sub_cancel] at h3
    have hpos : 1 ≤ 2 ^ k := Nat.one_le_two_pow
    obtain ⟨F, L', e1, e2, e3, e4, e5, e6, e7⟩ := pairLevel_spec m hi hV hl
    have e6 := e6 h1 (by omega)
    simp only [pairLevels, specAll, e1]
    rw [e3]
    have hpow : 2 ^ (k+1) = 2 * 2 ^ k := by rw [Nat.pow_succ]; omega
    obtain ⟨Gs, f, g1, g2, g3⟩ := pairLevels_spec m k (i+1) (Fs ++ [F]) F
      (pairLevel i V.length last).2 L' (by omega) (by simp [hFs])
      (by rw [Nat.add_sub_cancel, ← hFs]; simp)
      (forall₂_imp (fun x v h => Arg.get_append F h) e2) e6 (by omega)
      (by
        intro hk
        have : 2 ^ k = 2 * 2 ^ (k-1) := by
          have : k = (k-1) + 1 := by omega
          rw [this, Nat.pow_succ]; simp; omega
        omega)
    exact ⟨Gs, f, g1, g2, by rw [g3, e7]⟩

theorem log2Loop_spec : ∀ (n c : Nat), 1 ≤ n → 2 ^ (log2Loop n c) ≤ n * 2 ^ c ∧
    n * 2 ^ c < 2 ^ (log2Loop n c + 1) ∧ c ≤ log2Loop n c := by
  intro n
  induction n using Nat.strongRecOn with
  | _ n ih =>
    intro c hn
    unfold log2Loop
    split
    · rename_i h
      obtain ⟨h1, h2, h3⟩ := ih (n/2) (by omega) (c+1) (by omega)
      have e : 2 ^ (c+1) = 2 * 2 ^ c := by rw [Nat.pow_succ]; omega
      have hd : n / 2 * 2 ≤ n := by omega
      have hd' : n < (n / 2 + 1) * 2 := by omega
      have e1 : n / 2 * 2 ^ (c+1) = n / 2 * 2 * 2 ^ c := by rw [e]; rw [Nat.mul_assoc]
      refine ⟨?_, ?_, by omega⟩
      · have := Nat.mul_le_mul_right (2 ^ c) hd
        omega
      · -- both are multiples of 2^(c+1)
        generalize hL : log2Loop (n/2) (c+1) = l at *
        have hp : 2 ^ (l + 1) = 2 ^ (l - c) * 2 ^ (c + 1) := by
          rw [← Nat.pow_add]; congr 1; omega
        rw [hp] at h2
        have hp2 : 0 < 2 ^ (c+1) := Nat.two_pow_pos _
        have h4 : n / 2 < 2 ^ (l - c) := Nat.lt_of_mul_lt_mul_right h2
        have h5 : (n / 2 + 1) * 2 ^ (c+1) ≤ 2 ^ (l - c) * 2 ^ (c+1) := Nat.mul_le_mul_right _ h4
        have h6 : n * 2 ^ c < (n / 2 + 1) * 2 * 2 ^ c := by
          apply Nat.mul_lt_mul_of_pos_right hd' (Nat.two_pow_pos _)
        rw [Nat.mul_assoc, ← e] at h6
        omega
    · have : n = 1 := by omega
      subst this
      have e : 2 ^ (c+1) = 2 * 2 ^ c := by rw [Nat.pow_succ]; omega
      have := Nat.two_pow_pos c
      omega

theorem ceilLog2_spec {n : Nat} (hn : 2 ≤ n) : 1 ≤ ceilLog2 n ∧ n ≤ 2 ^ ceilLog2 n ∧
    2 ^ (ceilLog2 n - 1) < n := by
  obtain ⟨h1, h2, h3⟩ := log2Loop_spec n 0 (by omega)
  simp only [ceilLog2]
  generalize log2Loop n 0 = c at *
  simp only [Nat.pow_zero, Nat.mul_one] at h1 h2
  have hc : 1 ≤ c := by
    rcases Nat.eq_zero_or_pos c with h | h
    · subst h; simp at h2; omega
    · exact h
  have e : 2 ^ c = 2 * 2 ^ (c - 1) := by
    have : c = (c - 1) + 1 := by omega
    rw [this, Nat.pow_succ]; simp; omega
  have := Nat.two_pow_pos (c - 1)
  by_cases h : 2 ^ c = n
  · simp only [ne_eq, h, not_true, if_false]; omega
  · simp only [ne_eq, h, not_false_iff, if_true, Nat.add_sub_cancel]; omega

theorem ceilLog2_le {n : Nat} (hn : 2 ≤ n) (h : n ≤ 1024) : ceilLog2 n ≤ 10 := by
  obtain ⟨h1, h2, h3⟩ := ceilLog2_spec hn
  rcases Nat.lt_or_ge 10 (ceilLog2 n) with h4 | h4
  · have : 2 ^ 10 ≤ 2 ^ (ceilLog2 n - 1) := Nat.pow_le_pow_right (by omega) (by omega)
    omega
  · exact h4

theorem pairUp_mem {α : Type} : ∀ (xs : List α) p, p ∈ (pairUp xs).1 → p.1 ∈ xs ∧ p.2 ∈ xs
  | [], p, h => by simp [pairUp] at h
  | [x], p, h => by simp [pairUp] at h
  | x :: y :: xs, p, h => by
    simp only [pairUp, List.mem_cons] at h
    rcases h with rfl | h
    · simp
    · have := pairUp_mem xs p h
      simp [this.1, this.2]

theorem pairUp_mem2 {α : Type} : ∀ (xs : List α) o, (pairUp xs).2 = some o → o ∈ xs
  | [], p, h => by simp [pairUp] at h
  | [x], p, h => by simp [pairUp] at h; simp [h]
  | x :: y :: xs, p, h => by
    simp only [pairUp] at h
    have := pairUp_mem2 xs p h
    simp [this]

theorem pairLevels_ok {s : Store} : ∀ (k i n : Nat) (last : Option Arg),
    (∀ x, last = some x → x.OK s) → LsOK s (pairLevels k i n last)
  | 0, i, n, last, _ => by simp [pairLevels, LsOK]
  | k+1, i, n, last, hl => by
    have hp := fun p h => pairUp_mem ((List.range n).map fun k => Arg.node (i-1) k) p h
    have ho := fun o h => pairUp_mem2 ((List.range n).map fun k => Arg.node (i-1) k) o h
    have hn : ∀ x ∈ ((List.range n).map fun k => Arg.node (i-1) k), x.OK s := by
      intro x hx
      simp only [List.mem_map] at hx
      obtain ⟨k, _, rfl⟩ := hx
      trivial
    have key : (∀ p ∈ (pairLevel i n last).1, p.1.OK s ∧ p.2.OK s) ∧
        ∀ x, (pairLevel i n last).2 = some x → x.OK s := by
      generalize hpu : pairUp ((List.range n).map fun k => Arg.node (i-1) k) = pu at *
      obtain ⟨ps, odd⟩ := pu
      simp only [pairLevel, hpu]
      split
      · refine ⟨fun p hp' => ?_, hl⟩
        have := hp p (by simpa using hp')
        exact ⟨hn _ this.1, hn _ this.2⟩
      · rename_i o
        refine ⟨fun p hp' => ?_, fun x hx => ?_⟩
        · have := hp p (by simpa using hp')
          exact ⟨hn _ this.1, hn _ this.2⟩
        · cases hx; exact hn _ (ho o rfl)
      · rename_i o l
        refine ⟨fun p hp' => ?_, fun x hx => by cases hx⟩
        simp only [List.mem_cons, List.mem_reverse] at hp'
        rcases hp' with rfl | hp'
        · exact ⟨hn _ (ho o rfl), hl _ rfl⟩
        · have := hp p hp'
          exact ⟨hn _ this.1, hn _ this.2⟩
    intro l hl'
    simp only [pairLevels, List.mem_cons] at hl'
    rcases hl' with rfl | hl'
    · exact key.1
    · exact pairLevels_ok k (i+1) _ _ key.2 l hl'

/-- `BddMultiwayOp` on 2 to 1024 BDDs. -/
theorem multiwayOp_lab (law : BinLaw op fn) {u} (m : Mon fn u) {s : Store} (w : s.WF) {δ}
    (hδ : Lab s δ) {fs : List Edge} (hf : ∀ f ∈ fs, s.EOK f) (h2 : 2 ≤ fs.length)
    (h3 : fs.length ≤ 1024) :
    OpOk s.Keep s δ (multiwayOp op s fs) (big fn u (fs.map (den δ))) := by
  obtain ⟨c1, c2, c3⟩ := ceilLog2_spec h2
  have c4 := ceilLog2_le h2 h3
  have hv : Vals (den δ) [] (fs.map Arg.bdd) (fs.map (den δ)) := by
    clear c1 c2 c3 c4 h2 h3 hf
    induction fs with
    | nil => exact .nil
    | cons f fs ih => exact .cons rfl ih
  obtain ⟨F, O, e1, e2, e3, e4, e5⟩ := pairUp_spec m _ _ hv
  have pl := pairUp_length (fs.map Arg.bdd)
  have hmem := pairUp_mem (fs.map Arg.bdd)
  have hmem2 := pairUp_mem2 (fs.map Arg.bdd)
  have hbo : ∀ x ∈ fs.map Arg.bdd, x.OK s := by
    intro x hx
    simp only [List.mem_map] at hx
    obtain ⟨e, he, rfl⟩ := hx
    exact hf e he
  generalize hp : pairUp (fs.map Arg.bdd) = pu at *
  obtain ⟨ps, last⟩ := pu
  simp only [List.length_map] at *
  have hta : toListArray fs = some (ps.reverse :: pairLevels (ceilLog2 fs.length - 1) 1 ps.length last) := by
    simp only [toListArray, hp]
    rw [if_neg (by omega)]
  have r1 := specDepth_reverse _ e1
  have hFl : F.length = ps.length := by omega
  have key : ∃ Gs f, specAll fn (den δ) [F.reverse]
      (pairLevels (ceilLog2 fs.length - 1) 1 ps.length last) = some Gs ∧
      Gs.getLast? = some [f] ∧ f = big fn u (F.reverse ++ O) := by
    have := pairLevels_spec m (dn := den δ) (ceilLog2 fs.length - 1) 1 [F.reverse] F.reverse last O
      (by omega) (by simp) (by simp)
      (forall₂_imp (fun x v h => by
        have := Arg.get_append (F.reverse) h; simpa using this) e2) (by simp; omega)
      (by
        simp only [List.length_reverse]
        have : 2 ^ ceilLog2 fs.length = 2 * 2 ^ (ceilLog2 fs.length - 1) := by
          have h : ceilLog2 fs.length = (ceilLog2 fs.length - 1) + 1 := by omega
          rw [h, Nat.pow_succ]; simp; omega
        omega)
      (by
        intro hk
        simp only [List.length_reverse]
        have : 2 ^ (ceilLog2 fs.length - 1) = 2 * 2 ^ (ceilLog2 fs.length - 1 - 1) := by
          have h : ceilLog2 fs.length - 1 = (ceilLog2 fs.length - 1 - 1) + 1 := by omega
          rw [h, Nat.pow_succ]; simp; omega
        omega)
    simpa [hFl] using this
  obtain ⟨Gs, f, g1, g2, g3⟩ := key
  have hspec : specAll fn (den δ) [] (ps.reverse :: pairLevels (ceilLog2 fs.length - 1) 1 ps.length last)
      = some Gs := by
    simp only [specAll, r1, List.nil_append]; exact g1
  have hlsok : LsOK s (ps.reverse :: pairLevels (ceilLog2 fs.length - 1) 1 ps.length last) := by
    intro l hl
    simp only [List.mem_cons] at hl
    rcases hl with rfl | hl
    · intro p hp'
      have := hmem p (by simpa using hp')
      exact ⟨hbo _ this.1, hbo _ this.2⟩
    · exact pairLevels_ok _ _ _ _ (fun x hx => hbo _ (hmem2 x hx)) l hl
  obtain ⟨s', rs, δ', h4, w', le, lab, ag, rows, keep⟩ := listArrayOp_lab law w hδ hlsok hspec
  -- the last row
  have hlast : ∃ r, rs.getLast? = some [r] ∧ s'.EOK r ∧ den δ' r = f := by
    have hlen : rs.length = Gs.length := by
      clear hspec h4 hlsok g1 g2
      induction rows with
      | nil => rfl
      | cons _ _ ih => simp [ih]
    rw [List.getLast?_eq_getElem?] at g2 ⊢
    obtain ⟨r, hr, hR⟩ := forall₂_get rows g2
    rw [hlen]
    cases hR with
    | cons h1 h2 => cases h2; exact ⟨_, hr, h1⟩
  obtain ⟨r, hr, hok, hd⟩ := hlast
  refine ⟨s', r, δ', ?_, w', le, hok, lab, ag, ?_, keep⟩
  · simp only [multiwayOp, hta, h4, hr]
  · rw [hd, g3, big_append m, big_reverse m, ← e5, big_append m]

end Cal
