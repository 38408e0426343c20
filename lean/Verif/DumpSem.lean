import Verif.Dump

/-!
# Reading a dumped BDD: correctness

The operations on the store do what the operations on Boolean functions do, and all references taken
while reading are given up again.
-/

namespace Cal.Dump

/-- The operations on functions; `ys` are the variables of the array. -/
def fnAlg (ys : List Nat) : Alg Unit BFn where
  one := fun _ => true
  zero := fun _ => false
  var i := (ys[i]?).map fun v ρ => ρ v
  not F := fun ρ => !F ρ
  share _ _ := ()
  free _ _ := ()
  ite _ F G H := some ((), fun ρ => if F ρ then G ρ else H ρ)

theorem read_eq (fin : Err) (b : Nat) (inp : List Nat) (err : Option Err) :
    ∃ v l e, (∀ (σ α : Type) (u : U σ α), u.inp = inp → u.err = err →
      read fin b u = (v, { u with inp := l, err := e })) ∧ (err.isSome → e = err) ∧
      (e = none → l.length + b = inp.length) ∧ l.length ≤ inp.length := by
  have loop : ∀ (k r : Nat) (l : List Nat), (∃ v, (readLoop k r l).1 = some v ∧ (readLoop k r l).2.length + k = l.length) ∨
      ((readLoop k r l).1 = none ∧ (readLoop k r l).2.length ≤ l.length) := by
    intro k
    induction k with
    | zero => intro r l; exact .inl ⟨r, rfl, rfl⟩
    | succ k ih =>
      intro r l
      cases l with
      | nil => exact .inr ⟨rfl, Nat.le_refl _⟩
      | cons c l =>
        rcases ih ((r * 256 + c) % 2 ^ 64) l with ⟨v, h1, h2⟩ | ⟨h1, h2⟩
        · exact .inl ⟨v, h1, by show _ + (k + 1) = l.length + 1; simp only [readLoop]; omega⟩
        · exact .inr ⟨h1, by show _ ≤ l.length + 1; simp only [readLoop]; omega⟩
  cases err with
  | some x =>
    refine ⟨0, inp, some x, fun σ α u h1 h2 => ?_, fun _ => rfl, (fun h => nomatch h), Nat.le_refl _⟩
    unfold read
    rw [if_pos (by rw [h2]; rfl)]
    cases u; cases h1; cases h2; rfl
  | none =>
    rcases h : readLoop b 0 inp with ⟨o, l⟩
    have hl := loop b 0 inp
    rw [h] at hl
    cases o with
    | none =>
      rcases hl with ⟨v, h1, -⟩ | ⟨-, h2⟩
      · cases h1
      refine ⟨0, l, some fin, fun σ α u h1 h2 => ?_, (fun h => nomatch h), (fun h => nomatch h), h2⟩
      unfold read
      rw [if_neg (by rw [h2]; simp), h1, h]
    | some v =>
      rcases hl with ⟨v', h1, h2⟩ | ⟨h1, -⟩
      · refine ⟨v, l, none, fun σ α u h1 h2 => ?_, (fun h => nomatch h), (fun _ => h2), by simp only at h2; omega⟩
        unfold read
        rw [if_neg (by rw [h2]; simp), h1, h]
        simp only
        rw [← h2]
      · cases h1

/-! ## The simulation -/

/-- A BDD or null, and its function. -/
inductive ORel (s : Store) : Option Edge → Option BFn → Prop
  | none : ORel s none none
  | some {e F} : Rep s e F → ORel s (some e) (some F)

theorem ORel.mono {s s' : Store} (le : s.Le s') {e F} (h : ORel s e F) : ORel s' e F := by
  cases h with
  | none => exact .none
  | some r => exact .some (r.mono le)

theorem ORel.isSome {s : Store} {e F} (h : ORel s e F) : e.isSome = F.isSome := by cases h <;> rfl

/-- References from a list of edges -/
def hitsL (l : List Edge) (x : Nat) : Nat := (l.map fun e => hits e x).sum

/-- References from the table of shared nodes -/
def hitsO (l : List (Option Edge)) (x : Nat) : Nat := (l.map fun e => optHits e x).sum

/-- Two states of reading, on the store and on functions, that fit together. `ext` are the references
held elsewhere, `held` the BDDs being worked on. -/
structure Match (s0 : Store) (ext : Nat → Nat) (held : List Edge) (u : U Store Edge) (p : U Unit BFn) : Prop where
  wf : u.st.WF
  le : s0.Le u.st
  num : u.st.NumOK
  ref : u.st.RefOK (fun x => ext x + hitsO u.sh x + hitsL held x)
  inp : u.inp = p.inp
  so : u.so = p.so
  err : u.err = p.err
  sh : F2 (ORel u.st) u.sh p.sh
  fresh : ∀ j, u.so ≤ j → (u.sh[j]?).join = none

theorem hitsL_cons (e l x) : hitsL (e :: l) x = hits e x + hitsL l x := by simp [hitsL]

theorem hitsO_set {l : List (Option Edge)} {j : Nat} {e : Edge} (hj : j < l.length) (h : (l[j]?).join = none)
    (x : Nat) : hitsO (l.set j (some e)) x = hitsO l x + hits e x := by
  induction l generalizing j with
  | nil => simp at hj
  | cons a l ih =>
    cases j with
    | zero =>
      have : a = none := by simpa using h
      subst this
      simp [hitsO, optHits]; omega
    | succ j =>
      have := ih (j := j) (by simpa using hj) (by simpa using h)
      simp only [List.set_cons_succ, hitsO, List.map_cons, List.sum_cons] at this ⊢
      omega

theorem hitsO_set_none {l : List (Option Edge)} {j : Nat} (h : (l[j]?).join = none) : l.set j none = l := by
  induction l generalizing j with
  | nil => rfl
  | cons a l ih =>
    cases j with
    | zero =>
      have : a = none := by simpa using h
      subst this; rfl
    | succ j => simp only [List.set_cons_succ]; rw [ih (by simpa using h)]

theorem F2.get {α β : Type} {R : α → β → Prop} : ∀ {l m}, F2 R l m → ∀ j : Nat,
    (l[j]? = none ∧ m[j]? = none) ∨ ∃ a b, l[j]? = some a ∧ m[j]? = some b ∧ R a b
  | _, _, .nil, j => .inl (by simp)
  | _, _, .cons r h, 0 => .inr ⟨_, _, rfl, rfl, r⟩
  | _, _, .cons r h, j + 1 => by simpa using F2.get h j

theorem F2.set {α β : Type} {R : α → β → Prop} {a b} (hr : R a b) : ∀ {l m}, F2 R l m → ∀ j : Nat,
    F2 R (l.set j a) (m.set j b)
  | _, _, .nil, j => by simpa using F2.nil
  | _, _, .cons r h, 0 => .cons hr h
  | _, _, .cons r h, j + 1 => .cons r (F2.set hr h j)

theorem F2.mono' {α β : Type} {R R' : α → β → Prop} (hr : ∀ a b, R a b → R' a b) : ∀ {l m}, F2 R l m → F2 R' l m
  | _, _, .nil => .nil
  | _, _, .cons r h => .cons (hr _ _ r) (F2.mono' hr h)

theorem F2.length_eq {α β : Type} {R : α → β → Prop} : ∀ {l m}, F2 R l m → l.length = m.length
  | _, _, .nil => rfl
  | _, _, .cons _ h => by simp [F2.length_eq h]

variable {s0 : Store} {ext : Nat → Nat} {held : List Edge} {u : U Store Edge} {p : U Unit BFn}

theorem Match.io (h : Match s0 ext held u p) (l e) :
    Match s0 ext held { u with inp := l, err := e } { p with inp := l, err := e } :=
  ⟨h.wf, h.le, h.num, h.ref, rfl, h.so, rfl, h.sh, h.fresh⟩

theorem Match.setErr (h : Match s0 ext held u p) (e) :
    Match s0 ext held { u with err := e } { p with err := e } :=
  ⟨h.wf, h.le, h.num, h.ref, h.inp, h.so, rfl, h.sh, h.fresh⟩

theorem le_icr (s : Store) (e) : s.Le (s.icr e) := ⟨rfl, fun _ _ h => h⟩
theorem le_dcr (s : Store) (e) : s.Le (s.dcr e) := ⟨rfl, fun _ _ h => h⟩

/-- `CalBddIdentity` -/
theorem Match.share (h : Match s0 ext held u p) {e F} (r : Rep u.st e F) :
    Match s0 ext (e :: held) { u with st := u.st.icr e } p := by
  refine ⟨h.wf.ref _, h.le.trans (le_icr _ _), h.num, ?_, h.inp, h.so, h.err,
    F2.mono' (fun _ _ => ORel.mono (le_icr _ _)) h.sh, h.fresh⟩
  refine UTab.RefOK_icr h.ref e (fun x hx => by rw [hitsL_cons]; simp only; omega) fun x hx hn => ?_
  rw [hitsL_cons]
  have := h.ref.ext0 x hx hn
  have := EOK.hits_none r.eok hx hn
  simp only at *
  omega

/-- `CalBddFree` -/
theorem Match.free {e} (h : Match s0 ext (e :: held) u p) : Match s0 ext held { u with st := u.st.dcr e } p := by
  refine ⟨h.wf.ref _, h.le.trans (le_dcr _ _), h.num, ?_, h.inp, h.so, h.err,
    F2.mono' (fun _ _ => ORel.mono (le_dcr _ _)) h.sh, h.fresh⟩
  refine UTab.RefOK_dcr h.ref e (fun x hx => by rw [hitsL_cons]; simp only; omega) fun x hx hn => ?_
  have := h.ref.ext0 x hx hn
  rw [hitsL_cons] at this
  simp only at *
  omega

theorem Match.heldCongr {held'} (h : Match s0 ext held u p) (e : ∀ x, hitsL held' x = hitsL held x) :
    Match s0 ext held' u p :=
  ⟨h.wf, h.le, h.num, by simpa only [e] using h.ref, h.inp, h.so, h.err, h.sh, h.fresh⟩

/-- a BDD whose count is at the maximum need not be counted -/
theorem Match.sat (h : Match s0 ext held u p) {e F} (r : Rep u.st e F) (hs : u.st.ref e.addr = maxRef) :
    Match s0 ext (e :: held) u p := by
  refine ⟨h.wf, h.le, h.num, ?_, h.inp, h.so, h.err, h.sh, h.fresh⟩
  refine ⟨h.ref.const, h.ref.le, fun a ha => ?_, fun x hx hn => ?_⟩
  · by_cases c : a = e.addr
    · subst c; exact .inl hs
    · rcases h.ref.cnt a ha with h1 | h1
      · exact .inl h1
      · right; rw [hitsL_cons]; simp only [hits, if_neg (Ne.symm c)]; omega
  · rw [hitsL_cons]
    have := h.ref.ext0 x hx hn
    have := EOK.hits_none r.eok hx hn
    omega

theorem sat_of {s : Store} {e' : Nat → Nat} (r : s.RefOK e') {a : Nat} (ha : a = 0 ∨ s.heap a ≠ none) (h : a ≠ 0 → 256 ≤ e' a) :
    s.ref a = maxRef := by
  rcases ha with rfl | ha
  · exact r.const
  · by_cases c : a = 0
    · subst c; exact r.const
    · have h1 := r.le a ha
      have h2 := h c
      rcases r.cnt a ha with h3 | h3
      · exact h3
      · simp only [maxRef] at *; omega

/-- Outcome of a step of reading in both. -/
def SimRes (s0 : Store) (ext : Nat → Nat) (held : List Edge) (u : U Store Edge)
    (o : Option (U Store Edge × Option Edge)) (o' : Option (U Unit BFn × Option BFn)) : Prop :=
  (o = none ∧ o' = none) ∨ ∃ u' r p' R, o = some (u', r) ∧ o' = some (p', R) ∧
    Match s0 ext (r.toList ++ held) u' p' ∧ ORel u'.st r R ∧ u'.sh.length = u.sh.length ∧
    (∀ j, j < u.so → u'.sh[j]? = u.sh[j]?) ∧ u.so ≤ u'.so ∧ (r.isNone = u'.err.isSome) ∧
    u.st.Le u'.st

/-- What is known of the array of variables. -/
structure VarsAre (s0 : Store) (ext : Nat → Nat) (vars : List Edge) (ys : List Nat) : Prop where
  rep : F2 (fun e y => Rep s0 e fun ρ => ρ y) vars ys
  sat : ∀ e ∈ vars, 256 ≤ ext e.addr

theorem Match.var {vars ys} (hv : VarsAre s0 ext vars ys) (h : Match s0 ext held u p) {i : Nat} {e} (he : vars[i]? = some e) :
    ∃ y, ys[i]? = some y ∧ Rep u.st e (fun ρ => ρ y) ∧ u.st.ref e.addr = maxRef := by
  rcases F2.get hv.rep i with ⟨h1, -⟩ | ⟨a, b, h1, h2, r⟩
  · rw [he] at h1; cases h1
  · rw [he] at h1; cases h1
    have r' := r.mono h.le
    refine ⟨b, h2, r', sat_of h.ref ?_ fun _ => ?_⟩
    · rcases r'.eok with ⟨-, h0⟩ | ⟨n, hn, -⟩
      · exact .inl h0
      · exact .inr (by rw [hn]; simp)
    · have := hv.sat e (List.mem_of_getElem? he)
      omega

theorem SimRes.null (h : Match s0 ext held u p) {u0 : U Store Edge} (h0 : u0.st = u.st) (h1 : u.sh = u0.sh) (h2 : u.so = u0.so)
    (he : u.err.isSome) : SimRes s0 ext held u0 (some (u, none)) (some (p, none)) :=
  .inr ⟨u, none, p, none, rfl, rfl, h, .none, by rw [h1], fun j _ => by rw [h1], by rw [h2]; exact Nat.le_refl _,
    by rw [he]; rfl, by rw [h0]; exact Store.Le.refl _⟩

theorem SimRes.val (h : Match s0 ext held u p) {u0 : U Store Edge} (h0 : u0.st = u.st) (h1 : u.sh = u0.sh) (h2 : u.so = u0.so)
    (he : u.err = none) {e F} (r : Rep u.st e F) (hs : u.st.ref e.addr = maxRef) :
    SimRes s0 ext held u0 (some (u, some e)) (some (p, some F)) :=
  .inr ⟨u, some e, p, some F, rfl, rfl, h.sat r hs, .some r, by rw [h1], fun j _ => by rw [h1],
    by rw [h2]; exact Nat.le_refl _, by rw [he]; rfl, by rw [h0]; exact Store.Le.refl _⟩

theorem sim {vars : List Edge} {ys : List Nat} (hv : VarsAre s0 ext vars ys) (n isz nsz : Nat) (fin : Err) :
    ∀ (k : Nat) {held u p}, Match s0 ext held u p →
    SimRes s0 ext held u (undumpStep (storeAlg vars) n isz nsz fin k u) (undumpStep (fnAlg ys) n isz nsz fin k p)
  | 0, _, _, _, _ => .inl ⟨rfl, rfl⟩
  | k + 1, held, u, p, h => by
    unfold undumpStep
    obtain ⟨i, l, e, hr, -⟩ := read_eq fin isz u.inp u.err
    rw [hr _ _ u rfl rfl, hr _ _ p h.inp.symm h.err.symm]
    simp only
    have h1 := h.io l e
    cases e with
    | some x => exact .null h1 rfl rfl rfl rfl
    | none =>
    simp only [Option.isSome_none, Bool.false_eq_true, if_false]
    cases hm : indexMask[isz - 1]? with
    | none => exact .inl ⟨rfl, rfl⟩
    | some mask =>
    simp only
    by_cases ci : i % 65536 = mask
    · rw [if_pos ci, if_pos ci]
      obtain ⟨c, l2, e2, hr2, -⟩ := read_eq fin 1 l none
      rw [hr2 _ _ _ rfl rfl, hr2 _ _ _ rfl rfl]
      simp only
      have h2 := h.io l2 e2
      cases e2 with
      | some x => exact .null h2 rfl rfl rfl rfl
      | none =>
      simp only [Option.isSome_none, Bool.false_eq_true, if_false]
      by_cases c1 : c = cTRUE
      · rw [if_pos c1, if_pos c1]
        exact .val h2 rfl rfl rfl rfl .one h2.ref.const
      rw [if_neg c1, if_neg c1]
      by_cases c2 : c = cFALSE
      · rw [if_pos c2, if_pos c2]
        exact .val h2 rfl rfl rfl rfl .zero h2.ref.const
      rw [if_neg c2, if_neg c2]
      by_cases c3 : c = cCONSTANT
      · rw [if_pos c3, if_pos c3]
        obtain ⟨_, l3, e3, hr3, -⟩ := read_eq fin 8 l2 none
        have g1 := hr3 _ _ { u with inp := l2, err := none } rfl rfl
        have g2 := hr3 _ _ { p with inp := l2, err := none } rfl rfl
        simp only at g1 g2
        simp only [g1, g2]
        obtain ⟨_, l4, e4, hr4, -⟩ := read_eq fin 8 l3 e3
        have g1 := hr4 _ _ { u with inp := l3, err := e3 } rfl rfl
        have g2 := hr4 _ _ { p with inp := l3, err := e3 } rfl rfl
        simp only at g1 g2
        simp only [g1, g2]
        cases e4 with
        | some x => exact .null (h.io l4 _) rfl rfl rfl rfl
        | none =>
          simp only [Option.isSome_none, Bool.false_eq_true, if_false]
          exact .null (h.io l4 _) rfl rfl rfl rfl
      rw [if_neg c3, if_neg c3]
      by_cases c4 : c = cPOSVAR ∨ c = cNEGVAR
      · rw [if_pos c4, if_pos c4]
        obtain ⟨j, l3, e3, hr3, -⟩ := read_eq fin isz l2 none
        rw [hr3 _ _ _ rfl rfl, hr3 _ _ _ rfl rfl]
        simp only
        cases e3 with
        | some x =>
          simp only [Option.isNone_some, Bool.false_eq_true, false_and, if_false, Option.isSome_some, if_true]
          exact .null (h.io l3 _) rfl rfl rfl rfl
        | none =>
          simp only [Option.isNone_none, true_and]
          by_cases cj : j % 65536 ≥ n
          · simp only [if_pos cj, Option.isSome_some, if_true]
            exact .null (h.io l3 _) rfl rfl rfl rfl
          · simp only [if_neg cj, Option.isSome_none, Bool.false_eq_true, if_false]
            have h3 := h.io l3 none
            cases hj : vars[j % 65536]? with
            | none =>
              rcases F2.get hv.rep (j % 65536) with ⟨-, h5⟩ | ⟨a, b, h5, -, -⟩
              · simp only [storeAlg, fnAlg, hj, h5, Option.map_none]; exact .inl ⟨rfl, rfl⟩
              · rw [hj] at h5; cases h5
            | some v =>
              obtain ⟨y, hy, r, hs⟩ := h3.var hv hj
              simp only [storeAlg, fnAlg, hj, hy, Option.map_some]
              by_cases cp : c = cPOSVAR
              · rw [if_pos cp, if_pos cp]
                exact .val h3 rfl rfl rfl rfl r hs
              · rw [if_neg cp, if_neg cp]
                exact .val h3 rfl rfl rfl rfl r.not hs
      rw [if_neg c4, if_neg c4]
      by_cases c5 : c = cPOSNODE ∨ c = cNEGNODE
      · rw [if_pos c5, if_pos c5]
        obtain ⟨j, l3, e3, hr3, -⟩ := read_eq fin nsz l2 none
        rw [hr3 _ _ _ rfl rfl, hr3 _ _ _ rfl rfl]
        simp only
        cases e3 with
        | some x =>
          simp only [Option.isNone_some, Bool.false_eq_true, false_and, if_false, Option.isSome_some, if_true]
          exact .null (h.io l3 _) rfl rfl rfl rfl
        | none =>
          simp only [Option.isNone_none, true_and]
          have h3 := h.io l3 none
          have hb : ORel u.st ((u.sh[j]?).join) ((p.sh[j]?).join) := by
            rcases F2.get h.sh j with ⟨q1, q2⟩ | ⟨a, b, q1, q2, r⟩
            · rw [q1, q2]; exact .none
            · rw [q1, q2]; exact r
          generalize ga : (u.sh[j]?).join = a at hb
          generalize gb : (p.sh[j]?).join = b at hb
          cases hb with
          | none =>
            simp only [Option.isNone_none, if_true, Option.isSome_some]
            exact .null (h.io l3 _) rfl rfl rfl rfl
          | @some v F r =>
            simp only [Option.isNone_some, Bool.false_eq_true, if_false, Option.isSome_none]
            simp only [ga, gb]
            have h4 := h3.share r
            by_cases cp : c = cPOSNODE
            · rw [if_pos cp, if_pos cp]
              exact .inr ⟨_, _, _, _, rfl, rfl, h4, .some (r.mono (le_icr _ _)), rfl, fun _ _ => rfl, Nat.le_refl _, rfl,
                le_icr _ _⟩
            · rw [if_neg cp, if_neg cp]
              exact .inr ⟨_, _, _, _, rfl, rfl, h4.heldCongr fun x => by
                show hitsL (v.not :: held) x = hitsL (v :: held) x
                simp only [hitsL_cons, hits_not], .some (r.mono (le_icr _ _)).not, rfl, fun _ _ => rfl, Nat.le_refl _, rfl,
                le_icr _ _⟩
      rw [if_neg c5, if_neg c5]
      by_cases c6 : c = cLABEL
      · rw [if_pos c6, if_pos c6]
        have hm2 : Match s0 ext held { u with inp := l2, err := none, so := u.so + 1 }
            { p with inp := l2, err := none, so := p.so + 1 } :=
          ⟨h2.wf, h2.le, h2.num, h2.ref, rfl, by simp only; rw [h.so], rfl, h2.sh,
            fun j hj => h2.fresh j (by simp only at hj ⊢; omega)⟩
        rcases sim hv n isz nsz fin k hm2 with ⟨q1, q2⟩ | ⟨u', r, p', R, q1, q2, hM, hR, q3, q4, q5, q6, q7⟩
        · simp only [q1, q2]; exact .inl ⟨rfl, rfl⟩
        · simp only [q1, q2]
          have hlen := F2.length_eq hM.sh
          simp only at q3 q4 q5
          have hso : u.so = p.so := h.so
          by_cases cj : u.so < u'.sh.length
          · rw [if_pos cj, if_pos (by rw [← hso, ← hlen]; exact cj)]
            have hf : (u'.sh[u.so]?).join = none := by rw [q4 u.so (by omega)]; exact h.fresh _ (Nat.le_refl _)
            cases hR with
            | none =>
              simp only
              refine .inr ⟨_, none, _, none, rfl, rfl, ?_, .none, ?_, ?_, ?_, q6, q7⟩
              · refine ⟨hM.wf, hM.le, hM.num, ?_, hM.inp, hM.so, hM.err, ?_, ?_⟩
                · simp only [hitsO_set_none hf]; exact hM.ref
                · simp only [← hso]; exact F2.set .none hM.sh _
                · simp only [hitsO_set_none hf]; exact hM.fresh
              · simp only [hitsO_set_none hf]; exact q3
              · intro j hj; simp only [hitsO_set_none hf]; exact q4 j (by omega)
              · simp only; omega
            | @some v F r =>
              simp only
              have h4 := hM.share r
              have r' := r.mono (le_icr u'.st v)
              refine .inr ⟨_, some v, _, some F, rfl, rfl, ?_, .some r', ?_, ?_, ?_, q6, q7.trans (le_icr _ _)⟩
              · refine ⟨h4.wf, h4.le, h4.num, ?_, h4.inp, h4.so, h4.err, ?_, ?_⟩
                · have e1 : (fun x => ext x + hitsO (u'.sh.set u.so (some v)) x + hitsL (v :: held) x) =
                      fun x => ext x + hitsO u'.sh x + hitsL (v :: v :: held) x := by
                    funext x
                    rw [hitsO_set cj hf]
                    simp only [hitsL_cons]; omega
                  show Store.RefOK _ (fun x => ext x + hitsO (u'.sh.set u.so (some v)) x + hitsL (v :: held) x)
                  rw [e1]; exact h4.ref
                · simp only [← hso]; exact F2.set (.some r') h4.sh _
                · intro j hj
                  simp only at hj ⊢
                  rw [List.getElem?_set_ne (by omega)]
                  exact hM.fresh j hj
              · simp only [List.length_set]; exact q3
              · intro j hj
                simp only at hj ⊢
                rw [List.getElem?_set_ne (by omega)]; exact q4 j (by omega)
              · simp only; omega
          · rw [if_neg cj, if_neg (by rw [← hso, ← hlen]; exact cj)]
            exact .inl ⟨rfl, rfl⟩
      rw [if_neg c6, if_neg c6]
      exact .null (h.io l2 _) rfl rfl rfl rfl
    · rw [if_neg ci, if_neg ci]
      by_cases cn : i % 65536 ≥ n
      · rw [if_pos cn, if_pos cn]
        exact .null (h.io l _) rfl rfl rfl rfl
      · rw [if_neg cn, if_neg cn]
        rcases sim hv n isz nsz fin k h1 with ⟨q1, q2⟩ | ⟨u1, r1, p1, R1, q1, q2, hM1, hR1, q3, q4, q5, q6, q7⟩
        · simp only [q1, q2]; exact .inl ⟨rfl, rfl⟩
        simp only [q1, q2]
        rcases sim hv n isz nsz fin k hM1 with ⟨t1, t2⟩ | ⟨u2, r2, p2, R2, t1, t2, hM2, hR2, t3, t4, t5, t6, t7⟩
        · simp only [t1, t2]; exact .inl ⟨rfl, rfl⟩
        simp only [t1, t2]
        simp only at q3 q4 q5
        have hlen2 : u2.sh.length = u.sh.length := t3.trans q3
        have hsh : ∀ j, j < u.so → u2.sh[j]? = u.sh[j]? := fun j hj => by rw [t4 j (by omega), q4 j hj]
        have herr : u2.err = p2.err := hM2.err
        cases he2 : u2.err with
        | some x =>
          rw [he2] at herr t6
          simp only [Option.isSome_some, if_true, ← herr]
          have : r2 = none := by cases r2 <;> simp_all
          subst this
          cases hR2
          cases hR1 with
          | none =>
            exact .inr ⟨_, none, _, none, rfl, rfl, hM2.setErr (some x), .none, hlen2, hsh,
              by show u.so ≤ u2.so; omega, rfl, q7.trans t7⟩
          | @some v F r =>
            exact .inr ⟨_, none, _, none, rfl, rfl, Match.free (hM2.setErr (some x)), .none, hlen2, hsh,
              by show u.so ≤ u2.so; omega, rfl, (q7.trans t7).trans (le_dcr _ _)⟩
        | none =>
          rw [he2] at herr t6
          simp only [Option.isSome_none, Bool.false_eq_true, if_false, ← herr]
          cases hR2 with
          | none => simp at t6
          | @some b G rb =>
          have he1 : u1.err = none := by
            cases he1 : u1.err with
            | none => rfl
            | some x =>
              exfalso
              -- an error stays
              cases k with
              | zero => simp [undumpStep] at t1
              | succ k =>
                unfold undumpStep at t1
                obtain ⟨i', l', e', hr', hx, -⟩ := read_eq fin isz u1.inp u1.err
                rw [hr' _ _ u1 rfl rfl] at t1
                have := hx (by rw [he1]; rfl)
                subst this
                simp only [he1, Option.isSome_some, if_true] at t1
                cases t1
          rw [he1] at q6
          cases hR1 with
          | none => simp at q6
          | @some a F ra =>
          cases hj : vars[i % 65536]? with
          | none =>
            rcases F2.get hv.rep (i % 65536) with ⟨-, h5⟩ | ⟨a, b, h5, -, -⟩
            · simp only [storeAlg, fnAlg, hj, h5, Option.map_none]; exact .inl ⟨rfl, rfl⟩
            · rw [hj] at h5; cases h5
          | some v =>
          obtain ⟨y, hy, rv, hs⟩ := hM2.var hv hj
          simp only [storeAlg, fnAlg, hj, hy, Option.map_some]
          have ra2 : Rep u2.st a F := ra.mono t7
          obtain ⟨δ, hδ⟩ := hM2.wf.exists_lab
          obtain ⟨s', r, δ', hit, w', le', ok', hδ', ag, hF, kp⟩ := iteBF_lab hM2.wf hδ rv.eok ra2.eok rb.eok
          rw [hδ.rep_eq rv, hδ.rep_eq ra2, hδ.rep_eq rb] at hF
          simp only [hit, Option.map_some]
          have rr : Rep s' r (fun ρ => if ρ y then F ρ else G ρ) := by rw [← hF]; exact hδ'.rep w' ok'
          have hM3 : Match s0 ext (b :: a :: held) { u2 with st := s' } p2 :=
            ⟨w', hM2.le.trans le', kp.2 hM2.num, kp.1 _ hM2.ref, hM2.inp, hM2.so, hM2.err,
              F2.mono' (fun _ _ => ORel.mono le') hM2.sh, hM2.fresh⟩
          have hM4 := hM3.share rr
          have hM5 : Match s0 ext (a :: b :: r :: held) { u2 with st := s'.icr r } p2 :=
            hM4.heldCongr fun x => by simp only [hitsL_cons]; omega
          have hM6 := (Match.free hM5)
          have hM7 := (Match.free hM6)
          refine .inr ⟨_, some r, _, _, rfl, rfl, hM7.setErr none, .some ?_, hlen2, hsh, by show u.so ≤ u2.so; omega, rfl,
            (((q7.trans t7).trans le').trans (le_icr _ _)).trans ((le_dcr _ _).trans (le_dcr _ _))⟩
          exact ((rr.mono (le_icr _ _)).mono (le_dcr _ _)).mono (le_dcr _ _)

/-! ## A whole file -/

/-- what is freed at the end -/
theorem freeAll_ok (vars : List Edge) : ∀ (l : List (Option Edge)) {s : Store} {g : Nat → Nat},
    s.WF → s.NumOK → s.RefOK (fun x => g x + hitsO l x) →
    (freeAll (storeAlg vars) s l).WF ∧ (freeAll (storeAlg vars) s l).NumOK ∧
    (freeAll (storeAlg vars) s l).RefOK g ∧ s.Le (freeAll (storeAlg vars) s l)
  | [], s, g, w, n, r => ⟨w, n, r, .refl _⟩
  | none :: l, s, g, w, n, r => freeAll_ok vars l w n (by simpa [hitsO, optHits] using r)
  | some e :: l, s, g, w, n, r => by
    have r' : (s.dcr e).RefOK (fun x => g x + hitsO l x) := by
      refine UTab.RefOK_dcr r e (fun x hx => by simp [hitsO, optHits]; omega) fun x hx hn => ?_
      have := r.ext0 x hx hn
      simp only [hitsO, List.map_cons, List.sum_cons] at this ⊢
      omega
    obtain ⟨h1, h2, h3, h4⟩ := freeAll_ok vars l (s := s.dcr e) (w.ref _) n r'
    exact ⟨h1, h2, h3, (le_dcr _ _).trans h4⟩

/-- Outcomes of reading a file in both. -/
def FileRes (s0 : Store) (ext : Nat → Nat) (o : Option (Store × Option Err × Option Edge))
    (o' : Option (Unit × Option Err × Option BFn)) : Prop :=
  (o = none ∧ o' = none) ∨ ∃ s' er r R, o = some (s', er, r) ∧ o' = some ((), er, R) ∧ s'.WF ∧ s0.Le s' ∧
    s'.NumOK ∧ s'.RefOK ext ∧ ORel s' r R ∧ r.isNone = er.isSome

theorem file_sim {s0 : Store} {ext : Nat → Nat} {vars : List Edge} {ys : List Nat} (w : s0.WF) (hn : s0.NumOK) (hr : s0.RefOK ext)
    (hv : VarsAre s0 ext vars ys) (mem n : Nat) (fin : Err) (inp : List Nat) :
    FileRes s0 ext (undumpFile (storeAlg vars) mem n fin s0 inp) (undumpFile (fnAlg ys) mem n fin () inp) := by
  have bad : ∀ x : Err, FileRes s0 ext (some (s0, some x, none)) (some ((), some x, none)) := fun x =>
    .inr ⟨s0, some x, none, none, rfl, rfl, w, .refl _, hn, hr, .none, rfl⟩
  unfold undumpFile
  obtain ⟨c, l1, e1, g1, -⟩ := read_eq fin 8 inp none
  rw [g1 _ _ _ rfl rfl, g1 _ _ _ rfl rfl]
  simp only
  by_cases cm : c ≠ magic
  · rw [if_pos cm, if_pos cm]; exact bad _
  rw [if_neg cm, if_neg cm]
  obtain ⟨nv, l2, e2, g2, -⟩ := read_eq fin 2 l1 e1
  rw [g2 _ _ _ rfl rfl, g2 _ _ _ rfl rfl]
  cases e2 with
  | some x => exact bad _
  | none =>
  simp only
  by_cases cn : nv ≠ n
  · rw [if_pos cn, if_pos cn]; exact bad _
  rw [if_neg cn, if_neg cn]
  obtain ⟨ns, l3, e3, g3, -⟩ := read_eq fin 8 l2 none
  rw [g3 _ _ _ rfl rfl, g3 _ _ _ rfl rfl]
  cases e3 with
  | some x => exact bad _
  | none =>
  simp only
  by_cases c0 : toLong ns < 0
  · rw [if_pos c0, if_pos c0]; exact bad _
  rw [if_neg c0, if_neg c0]
  by_cases c1 : 16 * ns > mem
  · rw [if_pos c1, if_pos c1]; exact .inl ⟨rfl, rfl⟩
  rw [if_neg c1, if_neg c1]
  have h0 : ∀ x, hitsO (List.replicate ns none) x = 0 := by
    intro x
    have : ∀ k, hitsO (List.replicate k none) x = 0 := by
      intro k
      induction k with
      | zero => rfl
      | succ k ih => simpa [List.replicate_succ, hitsO, optHits] using ih
    exact this ns
  have hM : Match s0 ext [] ⟨s0, l3, List.replicate ns none, 0, none⟩ ⟨(), l3, List.replicate ns none, 0, none⟩ := by
    refine ⟨w, .refl _, hn, ?_, rfl, rfl, rfl, ?_, ?_⟩
    · have : (fun x => ext x + hitsO (List.replicate ns none) x + hitsL [] x) = ext := by
        funext x; rw [h0]; rfl
      simp only [this]; exact hr
    · have : ∀ k, F2 (ORel s0) (List.replicate k none) (List.replicate k none) := by
        intro k
        induction k with
        | zero => exact .nil
        | succ k ih => exact .cons .none ih
      exact this ns
    · intro j _
      simp only [List.getElem?_replicate]
      split <;> rfl
  rcases sim hv n (bytesNeeded (nv + 1)) (bytesNeeded ns) fin (inp.length + 1) hM with
    ⟨q1, q2⟩ | ⟨u', r, p', R, q1, q2, hM', hR, q3, q4, q5, q6, q7⟩
  · simp only [q1, q2]; exact .inl ⟨rfl, rfl⟩
  simp only [q1, q2]
  have hl := F2.length_eq hM'.sh
  rw [← hM'.err, ← hM'.so, ← hl]
  have hf : u'.st.RefOK (fun x => (ext x + hitsL (r.toList) x) + hitsO u'.sh x) := by
    have := hM'.ref
    rw [List.append_nil] at this
    have e : (fun x => ext x + hitsL (r.toList) x + hitsO u'.sh x) =
        fun x => ext x + hitsO u'.sh x + hitsL (r.toList) x := by funext x; omega
    rw [e]; exact this
  obtain ⟨f1, f2, f3, f4⟩ := freeAll_ok vars u'.sh hM'.wf hM'.num hf
  generalize freeAll (storeAlg vars) u'.st u'.sh = s2 at f1 f2 f3 f4
  generalize hee : (if u'.err.isNone = true ∧ u'.so ≠ u'.sh.length then some Err.format else u'.err) = er
  have her : r = none → er.isSome := by
    rintro rfl
    rw [← hee]
    split
    · rfl
    · exact q6.symm
  cases hR with
  | none =>
    have := her rfl
    cases er with
    | none => cases this
    | some x =>
      refine .inr ⟨s2, some x, none, none, rfl, rfl, f1, hM'.le.trans f4, f2, ?_, .none, rfl⟩
      simpa [hitsL] using f3
  | @some e F r =>
    have r3 : (s2.dcr e).RefOK ext := by
      refine UTab.RefOK_dcr f3 e (fun x hx => by simp [hitsL]) fun x hx hn => ?_
      have := f3.ext0 x hx hn
      omega
    have le3 := hM'.le.trans (f4.trans (le_dcr s2 e))
    cases er with
    | none =>
      exact .inr ⟨s2.dcr e, none, some e, some F, rfl, rfl, f1.ref _, le3, f2, r3,
        .some (r.mono (f4.trans (le_dcr _ _))), rfl⟩
    | some x => exact .inr ⟨s2.dcr e, some x, none, none, rfl, rfl, f1.ref _, le3, f2, r3, .none, rfl⟩

/-! ## Reading ends -/

theorem readLoop_suffix : ∀ (k r : Nat) (l : List Nat), ∃ pre, l = pre ++ (readLoop k r l).2 ∧
    ((readLoop k r l).1 ≠ none → pre.length = k)
  | 0, r, l => ⟨[], rfl, fun _ => rfl⟩
  | k + 1, r, [] => ⟨[], rfl, fun h => absurd rfl h⟩
  | k + 1, r, c :: l => by
    obtain ⟨pre, h1, h2⟩ := readLoop_suffix k ((r * 256 + c) % 2 ^ 64) l
    refine ⟨c :: pre, ?_, fun h => by simp [h2 h]⟩
    simp only [readLoop, List.cons_append]
    rw [← h1]

/-- a read takes bytes from the front -/
theorem read_suffix {σ α : Type} (fin : Err) (b : Nat) (u : U σ α) : ∃ v l e,
    read fin b u = (v, { u with inp := l, err := e }) ∧ l.length ≤ u.inp.length ∧
    (∀ c, l.count c ≤ u.inp.count c) ∧ (∀ c ∈ l, c ∈ u.inp) ∧
    (e = none → u.err = none ∧ l.length + b = u.inp.length ∧
      (b = 1 → ∃ c, u.inp = c :: l ∧ v = c % 2 ^ 64)) := by
  unfold read
  by_cases he : u.err.isSome
  · rw [if_pos he]
    refine ⟨0, u.inp, u.err, rfl, Nat.le_refl _, fun _ => Nat.le_refl _, fun _ h => h, fun h => ?_⟩
    rw [h] at he; cases he
  · rw [if_neg he]
    have hn : u.err = none := by cases h : u.err with
      | none => rfl
      | some x => simp [h] at he
    obtain ⟨pre, h1, h2⟩ := readLoop_suffix b 0 u.inp
    have h1b : b = 1 → (readLoop b 0 u.inp).1 ≠ none → ∃ c, u.inp = c :: (readLoop b 0 u.inp).2 ∧
        (readLoop b 0 u.inp).1 = some (c % 2 ^ 64) := by
      rintro rfl h
      cases hi : u.inp with
      | nil => rw [hi] at h; exact absurd rfl h
      | cons c l => exact ⟨c, rfl, by simp [readLoop]⟩
    rcases hr : readLoop b 0 u.inp with ⟨o, l⟩
    rw [hr] at h1 h2 h1b
    simp only at h1 h2 h1b
    have hl : l.length ≤ u.inp.length := by rw [h1, List.length_append]; omega
    have hc : ∀ c, l.count c ≤ u.inp.count c := fun c => by rw [h1, List.count_append]; omega
    have hm : ∀ c ∈ l, c ∈ u.inp := fun c h => by rw [h1]; exact List.mem_append_right _ h
    cases o with
    | none => exact ⟨0, l, some fin, rfl, hl, hc, hm, fun h => by cases h⟩
    | some v =>
      refine ⟨v, l, none, ?_, hl, hc, hm, fun _ => ⟨hn, ?_, fun hb => ?_⟩⟩
      · simp only; rw [← hn]
      · have := h2 (by simp)
        have := congrArg List.length h1
        rw [List.length_append] at this
        omega
      · obtain ⟨c, g1, g2⟩ := h1b hb (by simp)
        exact ⟨c, g1, by cases g2; rfl⟩

/-- A step of reading on functions comes to an end, unless there are too many labels. -/
theorem pure_total (ys : List Nat) {isz : Nat} (hi : isz = 1 ∨ isz = 2) (nsz : Nat) (fin : Err) :
    ∀ (k : Nat) (u : U Unit BFn), 1 ≤ k → (u.err = none → u.inp.length < k) → (∀ c ∈ u.inp, c < 256) →
    u.so + u.inp.count cLABEL ≤ u.sh.length →
    ∃ u' r, undumpStep (fnAlg ys) ys.length isz nsz fin k u = some (u', r) ∧
      u'.so + u'.inp.count cLABEL ≤ u'.sh.length ∧ u'.sh.length = u.sh.length ∧
      (∀ c ∈ u'.inp, c < 256) ∧ (u'.err = none → u.err = none ∧ u'.inp.length < u.inp.length ∧ r ≠ none)
  | 0, u, hk, _, _, _ => by omega
  | k + 1, u, _, hk, hb, hc => by
    unfold undumpStep
    obtain ⟨i, l1, e1, g1, a1, b1, m1, d1⟩ := read_suffix fin isz u
    rw [g1]
    simp only
    have hb1 : ∀ c ∈ l1, c < 256 := fun c h => hb c (m1 c h)
    have hc1 : u.so + l1.count cLABEL ≤ u.sh.length := by have := b1 cLABEL; omega
    cases e1 with
    | some x => exact ⟨_, _, rfl, hc1, rfl, hb1, fun h => by cases h⟩
    | none =>
    obtain ⟨en, len1, -⟩ := d1 rfl
    have hk' := hk en
    simp only [Option.isSome_none, Bool.false_eq_true, if_false]
    have hmask : ∃ mask, indexMask[isz - 1]? = some mask := by rcases hi with rfl | rfl <;> exact ⟨_, rfl⟩
    obtain ⟨mask, hmask⟩ := hmask
    simp only [hmask]
    have bad : ∀ l x, (∀ c ∈ l, c < 256) → u.so + l.count cLABEL ≤ u.sh.length →
        ∃ u' r, some (({ u with inp := l, err := some x } : U Unit BFn), (none : Option BFn)) = some (u', r) ∧
      u'.so + u'.inp.count cLABEL ≤ u'.sh.length ∧ u'.sh.length = u.sh.length ∧
      (∀ c ∈ u'.inp, c < 256) ∧ (u'.err = none → u.err = none ∧ u'.inp.length < u.inp.length ∧ r ≠ none) :=
      fun l x h1 h2 => ⟨_, _, rfl, h2, rfl, h1, fun h => by cases h⟩
    have good : ∀ l (s : Unit) r, (∀ c ∈ l, c < 256) → u.so + l.count cLABEL ≤ u.sh.length → l.length < u.inp.length →
        ∃ u' r', some (({ u with st := s, inp := l, err := none } : U Unit BFn), (some r : Option BFn)) = some (u', r') ∧
      u'.so + u'.inp.count cLABEL ≤ u'.sh.length ∧ u'.sh.length = u.sh.length ∧
      (∀ c ∈ u'.inp, c < 256) ∧ (u'.err = none → u.err = none ∧ u'.inp.length < u.inp.length ∧ r' ≠ none) :=
      fun l s r h1 h2 h3 => ⟨_, _, rfl, h2, rfl, h1, fun _ => ⟨en, h3, by simp⟩⟩
    by_cases ci : i % 65536 = mask
    · rw [if_pos ci]
      obtain ⟨c, l2, e2, g2, a2, b2, m2, d2⟩ := read_suffix fin 1 { u with inp := l1, err := none }
      rw [g2]
      simp only at a2 b2 m2 d2 ⊢
      have hb2 : ∀ c ∈ l2, c < 256 := fun c h => hb1 c (m2 c h)
      have hc2 : u.so + l2.count cLABEL ≤ u.sh.length := by have := b2 cLABEL; omega
      cases e2 with
      | some x => exact bad _ _ hb2 hc2
      | none =>
      obtain ⟨-, len2, hcons⟩ := d2 rfl
      simp only [Option.isSome_none, Bool.false_eq_true, if_false]
      by_cases c1 : c = cTRUE
      · rw [if_pos c1]; exact good _ _ _ hb2 hc2 (by omega)
      rw [if_neg c1]
      by_cases c2 : c = cFALSE
      · rw [if_pos c2]; exact good _ _ _ hb2 hc2 (by omega)
      rw [if_neg c2]
      by_cases c3 : c = cCONSTANT
      · rw [if_pos c3]
        obtain ⟨v3, l3, e3, g3, a3, b3, m3, d3⟩ := read_suffix fin 8 { u with inp := l2, err := none }
        simp only [g3]
        obtain ⟨v4, l4, e4, g4, a4, b4, m4, d4⟩ := read_suffix fin 8 { u with inp := l3, err := e3 }
        simp only [g4]
        simp only at a3 b3 m3 a4 b4 m4
        have hb4 : ∀ c ∈ l4, c < 256 := fun c h => hb2 c (m3 c (m4 c h))
        have hc4 : u.so + l4.count cLABEL ≤ u.sh.length := by have := b3 cLABEL; have := b4 cLABEL; omega
        cases e4 with
        | some x => exact bad _ _ hb4 hc4
        | none => exact bad _ _ hb4 hc4
      rw [if_neg c3]
      by_cases c4 : c = cPOSVAR ∨ c = cNEGVAR
      · rw [if_pos c4]
        obtain ⟨j, l3, e3, g3, a3, b3, m3, d3⟩ := read_suffix fin isz { u with inp := l2, err := none }
        rw [g3]
        simp only at a3 b3 m3 d3 ⊢
        have hb3 : ∀ c ∈ l3, c < 256 := fun c h => hb2 c (m3 c h)
        have hc3 : u.so + l3.count cLABEL ≤ u.sh.length := by have := b3 cLABEL; omega
        cases e3 with
        | some x => exact bad _ _ hb3 hc3
        | none =>
          simp only [Option.isNone_none, true_and]
          by_cases cj : j % 65536 ≥ ys.length
          · simp only [if_pos cj]; exact bad _ _ hb3 hc3
          · simp only [if_neg cj, Option.isSome_none, Bool.false_eq_true, if_false]
            have : (fnAlg ys).var (j % 65536) = some (fun ρ => ρ (ys[j % 65536]'(by omega))) := by
              simp only [fnAlg, List.getElem?_eq_getElem (show j % 65536 < ys.length by omega), Option.map_some]
            simp only [this]
            exact good _ _ _ hb3 hc3 (by omega)
      rw [if_neg c4]
      by_cases c5 : c = cPOSNODE ∨ c = cNEGNODE
      · rw [if_pos c5]
        obtain ⟨j, l3, e3, g3, a3, b3, m3, d3⟩ := read_suffix fin nsz { u with inp := l2, err := none }
        rw [g3]
        simp only at a3 b3 m3 d3 ⊢
        have hb3 : ∀ c ∈ l3, c < 256 := fun c h => hb2 c (m3 c h)
        have hc3 : u.so + l3.count cLABEL ≤ u.sh.length := by have := b3 cLABEL; omega
        cases e3 with
        | some x => exact bad _ _ hb3 hc3
        | none =>
          simp only [Option.isNone_none, true_and]
          cases hj : (u.sh[j]?).join with
          | none => simp only [Option.isNone_none, if_true]; exact bad _ _ hb3 hc3
          | some v =>
            simp only [Option.isNone_some, Bool.false_eq_true, if_false, Option.isSome_none, hj]
            exact good _ _ _ hb3 hc3 (by omega)
      rw [if_neg c5]
      by_cases c6 : c = cLABEL
      · rw [if_pos c6]
        obtain ⟨c', hl1, hcc⟩ := hcons trivial
        have hcc' : c' = cLABEL := by
          have : c' < 256 := hb1 c' (by rw [hl1]; exact List.mem_cons_self)
          rw [← c6, hcc, Nat.mod_eq_of_lt (by omega)]
        have hcnt : l1.count cLABEL = l2.count cLABEL + 1 := by rw [hl1, hcc']; simp
        obtain ⟨u', r, h1, h2, h3, h4, h5⟩ := pure_total ys hi nsz fin k
          { u with inp := l2, err := none, so := u.so + 1 } (by omega) (fun _ => by simp only; omega) hb2
          (by simp only; omega)
        simp only [h1]
        simp only at h3 h5
        rw [if_pos (by rw [h3]; omega)]
        refine ⟨_, _, rfl, ?_, ?_, h4, fun h => ?_⟩
        · simp only [List.length_set]; exact h2
        · simp only [List.length_set]; exact h3
        · obtain ⟨-, h6, h7⟩ := h5 h
          exact ⟨en, by simp only; omega, h7⟩
      rw [if_neg c6]
      exact bad _ _ hb2 hc2
    · rw [if_neg ci]
      by_cases cn : i % 65536 ≥ ys.length
      · rw [if_pos cn]; exact bad _ _ hb1 hc1
      rw [if_neg cn]
      obtain ⟨u1, r1, h1, h2, h3, h4, h5⟩ := pure_total ys hi nsz fin k
          { u with inp := l1, err := none } (by omega) (fun _ => by simp only; omega) hb1 hc1
      simp only at h3 h5
      obtain ⟨u2, r2, t1, t2, t3, t4, t5⟩ := pure_total ys hi nsz fin k u1 (by omega) (fun h => by
        have := (h5 h).2.1; omega) h4 h2
      simp only [h1, t1]
      cases he2 : u2.err with
      | some x =>
        refine ⟨_, _, rfl, t2, by rw [t3, h3], t4, fun h => by simp [he2] at h⟩
      | none =>
        obtain ⟨e1, l2, n2⟩ := t5 he2
        obtain ⟨-, l3, n1⟩ := h5 e1
        cases r1 with
        | none => exact absurd rfl n1
        | some a =>
        cases r2 with
        | none => exact absurd rfl n2
        | some b =>
        have : (fnAlg ys).var (i % 65536) = some (fun ρ => ρ (ys[i % 65536]'(by omega))) := by
          simp only [fnAlg, List.getElem?_eq_getElem (show i % 65536 < ys.length by omega), Option.map_some]
        simp only [this, Option.isSome_none, Bool.false_eq_true, if_false]
        exact ⟨_, _, rfl, t2, by rw [t3, h3], t4, fun h => ⟨en, by simp only; omega, by simp⟩⟩

end Cal.Dump
