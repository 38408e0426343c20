import Verif.ApiVars
import Verif.ApiQuant

/-!
# Associations through the API
-/

namespace Cal

/-! ## Counting references -/

theorem tabHits_upd {f : Nat → Option Edge} {n v : Nat} (hv : v ≤ n) (o : Option Edge) (x : Nat) :
    tabHits (upd f v o) n x + optHits (f v) x = tabHits f n x + optHits o x := by
  have := sumTo_change (f := fun u => optHits (upd f v o u) x) (g := fun u => optHits (f u) x)
    (n := n + 1) (a := v) (by omega) (fun b hb => by simp only [upd_ne _ _ hb])
  simp only [upd_same] at this
  exact this

/-- references from the values of a list of pairs -/
def valHits (ps : List (Edge × Edge)) (x : Nat) : Nat := (ps.map fun p => hits p.2 x).sum

/-- references from values that later pairs for the same variable overwrite -/
def dropped : (Nat → Option Edge) → List (Edge × Edge) → Nat → Nat
  | _, [], _ => 0
  | f, p :: ps, x => optHits (f p.1.id) x + dropped (upd f p.1.id (some p.2)) ps x

/-- `assocMap`, starting from a given table -/
def assocFold (f : Nat → Option Edge) (ps : List (Edge × Edge)) : Nat → Option Edge :=
  ps.foldl (fun f p => upd f p.1.id (some p.2)) f

theorem assocFold_hits {n : Nat} : ∀ {ps : List (Edge × Edge)} {f : Nat → Option Edge},
    (∀ p ∈ ps, p.1.id ≤ n) → ∀ x,
    tabHits (assocFold f ps) n x + dropped f ps x = tabHits f n x + valHits ps x
  | [], f, _, x => by simp [assocFold, dropped, valHits]
  | p :: ps, f, h, x => by
    have ih := assocFold_hits (ps := ps) (f := upd f p.1.id (some p.2)) (fun q hq => h q (by simp [hq])) x
    have := tabHits_upd (f := f) (h p (by simp)) (some p.2) x
    simp only [optHits] at this
    simp only [assocFold, List.foldl_cons, dropped, valHits, List.map_cons, List.sum_cons] at ih ⊢
    unfold optHits
    omega

theorem dropped_zero : ∀ {ps : List (Edge × Edge)} {f : Nat → Option Edge},
    (ps.map fun p => p.1.id).Nodup → (∀ p ∈ ps, f p.1.id = none) → ∀ x, dropped f ps x = 0
  | [], _, _, _, _ => rfl
  | p :: ps, f, hn, hf, x => by
    simp only [List.map_cons, List.nodup_cons] at hn
    simp only [dropped]
    rw [hf p (by simp), dropped_zero hn.2 (fun q hq => ?_)]
    · rfl
    · have : q.1.id ≠ p.1.id := fun h => hn.1 (h ▸ List.mem_map.2 ⟨q, hq, rfl⟩)
      rw [upd_ne _ _ this]; exact hf q (by simp [hq])

theorem dropped_one : ∀ {ps : List (Edge × Edge)} {f : Nat → Option Edge} {x : Nat}, x ≠ 0 →
    (∀ p ∈ ps, p.2 = one) → (∀ v e, f v = some e → hits e x = 0) → dropped f ps x = 0
  | [], _, _, _, _, _ => rfl
  | p :: ps, f, x, hx, h, hf => by
    have h1 : hits one x = 0 := by simp [hits, Ne.symm hx]
    simp only [dropped]
    rw [dropped_one hx (fun q hq => h q (by simp [hq]))]
    · unfold optHits
      split
      · rename_i e he; exact hf _ e he
      · rfl
    · intro v e he
      by_cases hv : v = p.1.id
      · subst hv
        rw [upd_same, h p (by simp)] at he; cases he; exact h1
      · rw [upd_ne _ _ hv] at he; exact hf v e he

theorem icrAll_same : ∀ {ps : List (Edge × Edge)} {s : Store}, s.Same (Mgr.icrAll s ps)
  | [], _ => .refl _
  | p :: ps, s => (Store.Same.icr s p.2).trans (icrAll_same (ps := ps))

theorem icrAll_ref : ∀ {ps : List (Edge × Edge)} {s : Store} {ext : Nat → Nat}, s.RefOK ext →
    (∀ p ∈ ps, s.EOK p.2) → (Mgr.icrAll s ps).RefOK (fun x => ext x + valHits ps x)
  | [], s, ext, r, _ => by simpa [valHits, Mgr.icrAll] using r
  | p :: ps, s, ext, r, h => by
    have h1 := UTab.RefOK_icr r p.2 (ext' := fun x => ext x + hits p.2 x) (fun _ _ => rfl)
      (fun x hx hn => by simp only [r.ext0 x hx hn, EOK.hits_none (h p (by simp)) hx hn])
    have := icrAll_ref (ps := ps) h1 (fun q hq => ((Store.Same.icr s p.2).eok _).2 (h q (by simp [hq])))
    have e : (fun x => ext x + valHits (p :: ps) x) =
        fun x => ext x + hits p.2 x + valHits ps x := by
      funext x; simp only [valHits, List.map_cons, List.sum_cons]; omega
    rw [e]; exact this

/-- the values of the variables `1..k` -/
def valsTo (f : Nat → Option Edge) (k x : Nat) : Nat := sumTo (fun i => optHits (f (i + 1)) x) k

theorem valsTo_tab {f : Nat → Option Edge} (h0 : f 0 = none) (n x : Nat) :
    valsTo f n x = tabHits f n x := by
  induction n with
  | zero => simp [valsTo, tabHits, sumTo, h0, optHits]
  | succ n ih =>
    have e1 : valsTo f (n + 1) x = valsTo f n x + optHits (f (n + 1)) x := rfl
    have e2 : tabHits f (n + 1) x = tabHits f n x + optHits (f (n + 1)) x := rfl
    rw [e1, e2, ih]

theorem dcrVals_fold {f : Nat → Option Edge} : ∀ (k : Nat) {s : Store} {ext ext' : Nat → Nat},
    s.RefOK ext → (∀ x, x ≠ 0 → ext x = ext' x + valsTo f k x) →
    s.Same ((List.range k).foldl (fun s i => match f (i + 1) with
      | some e => s.dcr e | none => s) s) ∧
    ((List.range k).foldl (fun s i => match f (i + 1) with
      | some e => s.dcr e | none => s) s).RefOK (fun x => if x = 0 then ext x else ext' x)
  | 0, s, ext, ext', r, h => by
    refine ⟨.refl _, ?_⟩
    have : (fun x => if x = 0 then ext x else ext' x) = ext := by
      funext x
      by_cases hx : x = 0
      · rw [if_pos hx]
      · rw [if_neg hx, h x hx]; rfl
    rw [this]; exact r
  | k + 1, s, ext, ext', r, h => by
    obtain ⟨h1, h2⟩ := dcrVals_fold (f := f) k (ext' := fun x => ext' x + optHits (f (k + 1)) x) r
      (fun x hx => by
        rw [h x hx]
        have : valsTo f (k + 1) x = valsTo f k x + optHits (f (k + 1)) x := rfl
        omega)
    rw [List.range_succ, List.foldl_append]
    revert h1 h2
    generalize (List.range k).foldl _ s = t
    intro h1 h2
    simp only [List.foldl_cons, List.foldl_nil]
    cases hf : f (k + 1) with
    | none =>
      simp only [hf, optHits, Nat.add_zero] at h2 ⊢
      exact ⟨h1, h2⟩
    | some e =>
      simp only [hf, optHits] at h2 ⊢
      refine ⟨h1.trans (.dcr _ _), ?_⟩
      by_cases he : e.addr = 0
      · -- the constant
        have hz : ∀ x, x ≠ 0 → hits e x = 0 := fun x hx => by
          simp [hits, he, Ne.symm hx]
        have hc : t.dcr e = t := by
          unfold Store.dcr
          rw [he, h2.const]
          simp only [if_true]
          have : upd t.ref 0 maxRef = t.ref := by
            funext b; by_cases hb : b = 0
            · subst hb; rw [upd_same, h2.const]
            · rw [upd_ne _ _ hb]
          rw [this]
        rw [hc]
        have e1 : (fun x => if x = 0 then ext x else ext' x) =
            fun x => if x = 0 then ext x else ext' x + hits e x := by
          funext x
          by_cases hx : x = 0
          · simp [hx]
          · simp [hx, hz x hx]
        rw [e1]; exact h2
      · refine UTab.RefOK_dcr h2 e (fun x _ => ?_) (fun x hx hn => ?_)
        · by_cases hx : x = 0
          · subst hx; simp [hits, he]
          · simp [hx]
        · have := h2.ext0 x hx hn
          simp only [hx, if_false] at this ⊢; omega

theorem dcrVals_ok {f : Nat → Option Edge} (h0 : f 0 = none) {s : Store} {ext ext' : Nat → Nat}
    (r : s.RefOK ext) (h : ∀ x, x ≠ 0 → ext x = ext' x + tabHits f s.ord.numVars x) :
    s.Same (Mgr.dcrVals s f) ∧ (Mgr.dcrVals s f).RefOK (fun x => if x = 0 then ext x else ext' x) :=
  dcrVals_fold _ r fun x hx => by rw [valsTo_tab h0]; exact h x hx

/-- references from outside to the constant do not matter -/
theorem Store.RefOK.congr0 {s : Store} {ext ext' : Nat → Nat} (r : s.RefOK ext)
    (w : s.WF) (h : ∀ x, x ≠ 0 → ext' x = ext x) : s.RefOK ext' := by
  refine ⟨r.const, r.le, fun a ha => ?_, fun a h0 ha => by rw [h a h0]; exact r.ext0 a h0 ha⟩
  have : a ≠ 0 := by rintro rfl; exact ha w.heap0
  rw [h a this]; exact r.cnt a ha

/-! ## The list of associations -/

namespace Mgr

theorem freeId_spec : ∀ {as : List RAssoc} {i : Nat}, IdSorted as → (∀ p ∈ as, (i : Int) ≤ p.a.id) →
    i ≤ freeId as i ∧ freeId as i ≤ i + as.length ∧ (∀ p ∈ as, p.a.id ≠ freeId as i) ∧
    (∀ j : Nat, i ≤ j → j < freeId as i → ∃ p ∈ as, p.a.id = j)
  | [], i, _, _ => by simp [freeId]
  | p :: ps, i, hs, h => by
    unfold freeId
    by_cases hp : p.a.id = i
    · rw [if_pos hp]
      have hge : ∀ q ∈ ps, ((i + 1 : Nat) : Int) ≤ q.a.id := fun q hq => by
        have := hs.1 q hq; omega
      obtain ⟨h1, h2, h3, h4⟩ := freeId_spec (i := i + 1) hs.2 hge
      refine ⟨by omega, by simp only [List.length_cons]; omega, fun q hq => ?_, fun j h5 h6 => ?_⟩
      · rcases List.mem_cons.1 hq with rfl | hq
        · omega
        · exact h3 q hq
      · by_cases hj : j = i
        · exact ⟨p, by simp, by omega⟩
        · obtain ⟨q, hq, hq'⟩ := h4 j (by omega) h6
          exact ⟨q, by simp [hq], hq'⟩
    · rw [if_neg hp]
      refine ⟨by omega, by omega, fun q hq => ?_, fun j h5 h6 => by omega⟩
      have := h p (by simp)
      rcases List.mem_cons.1 hq with rfl | hq
      · exact hp
      · have := hs.1 q hq; omega

theorem mem_insertAssoc {new : RAssoc} : ∀ {as : List RAssoc} {i : Nat} {p},
    p ∈ insertAssoc new as i ↔ p = new ∨ p ∈ as
  | [], i, p => by simp [insertAssoc]
  | q :: qs, i, p => by
    unfold insertAssoc
    split
    · simp only [List.mem_cons, mem_insertAssoc (as := qs)]
      constructor
      · rintro (h | h | h) <;> simp [h]
      · rintro (h | h | h) <;> simp [h]
    · simp

theorem insertAssoc_sorted {new : RAssoc} : ∀ {as : List RAssoc} {i : Nat}, IdSorted as →
    (∀ p ∈ as, (i : Int) ≤ p.a.id) → new.a.id = freeId as i → IdSorted (insertAssoc new as i)
  | [], i, _, _, _ => ⟨by simp, trivial⟩
  | q :: qs, i, hs, h, hn => by
    unfold freeId at hn
    unfold insertAssoc
    split
    · rename_i hq
      rw [if_pos hq] at hn
      have hge : ∀ p ∈ qs, ((i + 1 : Nat) : Int) ≤ p.a.id := fun p hp => by
        have := hs.1 p hp; omega
      refine ⟨fun p hp => ?_, insertAssoc_sorted hs.2 hge hn⟩
      rcases mem_insertAssoc.1 hp with rfl | hp
      · have := (freeId_spec hs.2 hge).1; omega
      · exact hs.1 p hp
    · rename_i hq
      rw [if_neg hq] at hn
      have := h q (by simp)
      refine ⟨fun p hp => ?_, hs⟩
      rcases List.mem_cons.1 hp with rfl | hp
      · omega
      · have := hs.1 p hp; omega

theorem insertAssoc_hits {new : RAssoc} {n x : Nat} : ∀ {as : List RAssoc} {i : Nat},
    listHits (insertAssoc new as i) n x = tabHits new.a.var n x + listHits as n x
  | [], _ => by simp [insertAssoc, listHits]
  | q :: qs, i => by
    unfold insertAssoc
    split
    · have := insertAssoc_hits (new := new) (n := n) (x := x) (as := qs) (i := i + 1)
      simp only [listHits, List.map_cons, List.sum_cons] at this ⊢
      omega
    · simp [listHits]

/-- In a sorted list the ids determine the members. -/
theorem sorted_unique : ∀ {as : List RAssoc}, IdSorted as → ∀ {p q}, p ∈ as → q ∈ as →
    p.a.id = q.a.id → p = q
  | [], _, _, _, h, _, _ => by simp at h
  | r :: rs, hs, p, q, hp, hq, h => by
    rcases List.mem_cons.1 hp with hp' | hp' <;> rcases List.mem_cons.1 hq with hq' | hq'
    · rw [hp', hq']
    · have := hs.1 q hq'; rw [hp'] at h; omega
    · have := hs.1 p hp'; rw [hq'] at h; omega
    · exact sorted_unique hs.2 hp' hq' h

theorem find_iff {as : List RAssoc} (hs : IdSorted as) {j : Int} {p} :
    as.find? (fun p => p.a.id == j) = some p ↔ p ∈ as ∧ p.a.id = j := by
  constructor
  · intro h
    exact ⟨List.mem_of_find?_eq_some h, by simpa using List.find?_some h⟩
  · rintro ⟨h1, h2⟩
    cases hf : as.find? fun p => p.a.id == j with
    | none => have := List.find?_eq_none.1 hf p h1; simp [h2] at this
    | some q =>
      have h3 := List.mem_of_find?_eq_some hf
      have h4 : q.a.id = j := by simpa using List.find?_some hf
      rw [sorted_unique hs h1 h3 (by omega)]

theorem bumpAssoc_spec {n : Nat} {f : Nat → Option Edge} : ∀ {as as' : List RAssoc} {k : Int},
    IdSorted as → bumpAssoc n f as = some (as', k) →
    ∃ p ∈ as, p.a.id = k ∧ assocEq n p.a.var f = true ∧ IdSorted as' ∧
      (∀ q, q ∈ as' ↔ (q ∈ as ∧ q.a.id ≠ k) ∨ q = { p with refCount := p.refCount + 1 }) ∧
      ∀ m x, listHits as' m x = listHits as m x
  | [], _, _, _, h => by simp [bumpAssoc] at h
  | p :: ps, as', k, hs, h => by
    unfold bumpAssoc at h
    split at h
    · rename_i he
      cases h
      refine ⟨p, by simp, rfl, he, ⟨hs.1, hs.2⟩, fun q => ?_, fun m x => rfl⟩
      constructor
      · intro hq
        rcases List.mem_cons.1 hq with rfl | hq
        · exact Or.inr rfl
        · have := hs.1 q hq; exact Or.inl ⟨by simp [hq], by omega⟩
      · rintro (⟨h1, h2⟩ | rfl)
        · rcases List.mem_cons.1 h1 with rfl | h1
          · exact absurd rfl h2
          · simp [h1]
        · simp
    · cases hb : bumpAssoc n f ps with
      | none => rw [hb] at h; simp at h
      | some r =>
        rw [hb] at h; simp only [Option.map_some, Option.some.injEq, Prod.mk.injEq] at h
        obtain ⟨rfl, rfl⟩ := h
        obtain ⟨q, h1, h2, h3, h4, h5, h6⟩ := bumpAssoc_spec (as' := r.1) (k := r.2) hs.2 hb
        refine ⟨q, by simp [h1], h2, h3, ⟨fun z hz => ?_, h4⟩, fun z => ?_, fun m x => ?_⟩
        · rcases (h5 z).1 hz with ⟨hz, _⟩ | rfl
          · exact hs.1 z hz
          · exact hs.1 q h1
        · have := hs.1 q h1
          constructor
          · intro hz
            rcases List.mem_cons.1 hz with rfl | hz
            · exact Or.inl ⟨by simp, by omega⟩
            · rcases (h5 z).1 hz with ⟨a, b⟩ | rfl
              · exact Or.inl ⟨by simp [a], b⟩
              · exact Or.inr rfl
          · rintro (⟨a, b⟩ | rfl)
            · rcases List.mem_cons.1 a with rfl | a
              · simp
              · exact List.mem_cons_of_mem _ ((h5 z).2 (Or.inl ⟨a, b⟩))
            · exact List.mem_cons_of_mem _ ((h5 _).2 (Or.inr rfl))
        · have := h6 m x
          simp only [listHits, List.map_cons, List.sum_cons] at this ⊢
          omega

theorem bumpAssoc_none {n : Nat} {f : Nat → Option Edge} : ∀ {as : List RAssoc},
    bumpAssoc n f as = none → ∀ p ∈ as, assocEq n p.a.var f = false
  | [], _, _, h => by simp at h
  | p :: ps, h, q, hq => by
    unfold bumpAssoc at h
    split at h
    · cases h
    · rename_i he
      rcases List.mem_cons.1 hq with rfl | hq
      · simpa using he
      · refine bumpAssoc_none ?_ q hq
        cases hb : bumpAssoc n f ps with
        | none => rfl
        | some r => rw [hb] at h; simp at h

theorem dropAssoc_none {k : Int} : ∀ {as : List RAssoc}, dropAssoc k as = none →
    ∀ p ∈ as, p.a.id ≠ k
  | [], _, _, h => by simp at h
  | p :: ps, h, q, hq => by
    unfold dropAssoc at h
    split at h
    · split at h <;> cases h
    · rename_i he
      rcases List.mem_cons.1 hq with rfl | hq
      · exact he
      · refine dropAssoc_none ?_ q hq
        cases hb : dropAssoc k ps with
        | none => rfl
        | some r => rw [hb] at h; simp at h

theorem dropAssoc_spec {k : Int} : ∀ {as as' : List RAssoc} {o : Option Assoc},
    IdSorted as → dropAssoc k as = some (as', o) →
    ∃ p ∈ as, p.a.id = k ∧ IdSorted as' ∧
      ((o = some p.a ∧ p.refCount - 1 = 0 ∧ (∀ q, q ∈ as' ↔ q ∈ as ∧ q.a.id ≠ k) ∧
        ∀ m x, listHits as m x = listHits as' m x + tabHits p.a.var m x) ∨
       (o = none ∧ p.refCount - 1 ≠ 0 ∧
        (∀ q, q ∈ as' ↔ (q ∈ as ∧ q.a.id ≠ k) ∨ q = { p with refCount := p.refCount - 1 }) ∧
        ∀ m x, listHits as' m x = listHits as m x))
  | [], _, _, _, h => by simp [dropAssoc] at h
  | p :: ps, as', o, hs, h => by
    unfold dropAssoc at h
    split at h
    · rename_i hp
      have hne : ∀ q ∈ ps, q.a.id ≠ k := fun q hq => by have := hs.1 q hq; omega
      split at h
      · rename_i h1
        cases h
        refine ⟨p, by simp, hp, hs.2, Or.inl ⟨rfl, h1, fun q => ?_, fun m x => ?_⟩⟩
        · constructor
          · intro hq; exact ⟨by simp [hq], hne q hq⟩
          · rintro ⟨a, b⟩
            rcases List.mem_cons.1 a with rfl | a
            · exact absurd hp b
            · exact a
        · simp only [listHits, List.map_cons, List.sum_cons]; omega
      · rename_i h1
        cases h
        refine ⟨p, by simp, hp, ⟨hs.1, hs.2⟩, Or.inr ⟨rfl, h1, fun q => ?_, fun m x => rfl⟩⟩
        constructor
        · intro hq
          rcases List.mem_cons.1 hq with rfl | hq
          · exact Or.inr rfl
          · exact Or.inl ⟨by simp [hq], hne q hq⟩
        · rintro (⟨a, b⟩ | rfl)
          · rcases List.mem_cons.1 a with rfl | a
            · exact absurd hp b
            · simp [a]
          · simp
    · rename_i hp
      cases hb : dropAssoc k ps with
      | none => rw [hb] at h; simp at h
      | some r =>
        rw [hb] at h; simp only [Option.map_some, Option.some.injEq, Prod.mk.injEq] at h
        obtain ⟨rfl, rfl⟩ := h
        obtain ⟨q, h1, h2, h4, h5⟩ := dropAssoc_spec (as' := r.1) (o := r.2) hs.2 hb
        have hlt := hs.1 q h1
        refine ⟨q, by simp [h1], h2, ⟨fun z hz => ?_, h4⟩, ?_⟩
        · rcases h5 with ⟨_, _, h5, _⟩ | ⟨_, _, h5, _⟩
          · exact hs.1 z ((h5 z).1 hz).1
          · rcases (h5 z).1 hz with ⟨hz, _⟩ | rfl
            · exact hs.1 z hz
            · exact hs.1 q h1
        · rcases h5 with ⟨a1, a2, a3, a4⟩ | ⟨a1, a2, a3, a4⟩
          · refine Or.inl ⟨a1, a2, fun z => ?_, fun m x => ?_⟩
            · simp only [List.mem_cons, a3]
              constructor
              · rintro (rfl | ⟨h, h'⟩)
                · exact ⟨Or.inl rfl, hp⟩
                · exact ⟨Or.inr h, h'⟩
              · rintro ⟨rfl | h, h'⟩
                · exact Or.inl rfl
                · exact Or.inr ⟨h, h'⟩
            · have := a4 m x
              simp only [listHits, List.map_cons, List.sum_cons] at this ⊢
              omega
          · refine Or.inr ⟨a1, a2, fun z => ?_, fun m x => ?_⟩
            · simp only [List.mem_cons, a3]
              constructor
              · rintro (rfl | ⟨h, h'⟩ | h)
                · exact Or.inl ⟨Or.inl rfl, hp⟩
                · exact Or.inl ⟨Or.inr h, h'⟩
                · exact Or.inr h
              · rintro (⟨rfl | h, h'⟩ | h)
                · exact Or.inl rfl
                · exact Or.inr (Or.inl ⟨h, h'⟩)
                · exact Or.inr (Or.inr h)
            · have := a4 m x
              simp only [listHits, List.map_cons, List.sum_cons] at this ⊢
              omega

end Mgr

end Cal
