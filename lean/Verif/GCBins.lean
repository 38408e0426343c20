import Verif.HashWalk

/-!
# Garbage collection and the bins of the unique tables

`Verif/GC.lean` goes through the nodes of an id as a list; here the same loops go through the chains.
-/

namespace Cal

open Hash

namespace GcBins

/-- The inner loop of `CalHashTableGC` (calGC.c:175-201), over a chain. Returns the store, what is left of the chain, and
the freed addresses. -/
def sweepChain (k i : Nat) : List (Ent (Edge × Edge)) → Store → Option (Store × List (Ent (Edge × Edge)) × List Nat)
  | [], s => some (s, [], [])
  | e :: c, s =>
    match s.heap e.addr with
    | none => none
    | some n =>
      if s.ref e.addr = 0 then
        match sweepChain k i c (s.freeNode k i e.addr n) with
        | some (s', left, fr) => some (s', left, e.addr :: fr)
        | none => none
      else
        match sweepChain k i c s with
        | some (s', left, fr) => some (s', e :: left, fr)
        | none => none

/-- The outer loop of `CalHashTableGC` (calGC.c:172-202), over bins. -/
def sweepBins (k i : Nat) : List Nat → Store → Table (Edge × Edge) → Option (Store × Table (Edge × Edge) × List Nat)
  | [], s, t => some (s, t, [])
  | j :: js, s, t =>
    match sweepChain k i (t.bins j) s with
    | some (s', c, fr) =>
      match sweepBins k i js s' { t with bins := upd t.bins j c, numEntries := t.numEntries - fr.length } with
      | some (s'', t', fr') => some (s'', t', fr ++ fr')
      | none => none
    | none => none

/-- The loop of `Cal_BddManagerGC` over the ids (calGC.c:105-110). What is taken from `numNodes` is what `CalHashTableGC`
returns, the change of `numEntries`. -/
def collect (κ : Nat → Nat) : List Nat → Store → Rp.Tabs → Option (Store × Rp.Tabs × List Nat)
  | [], s, tb => some (s, tb, [])
  | i :: is, s, tb =>
    match sweepBins (κ i) i (List.range (tb i).numBins) s (tb i) with
    | some (s', t', fr) =>
      match collect κ is { s' with numNodes := s'.numNodes - ((tb i).numEntries - t'.numEntries) } (upd tb i t') with
      | some (s'', tb', fr') => some (s'', tb', fr ++ fr')
      | none => none
    | none => none

/-- The tables hold the nodes of the store, which has the nodes of an id in the order of the bins. -/
structure Holds (s : Store) (tb : Rp.Tabs) : Prop where
  ok : ∀ i, (tb i).OK hash2 (tabEntries s i)
  order : ∀ i, s.tab i = (tb i).entries.map (·.addr)

/-! ## Proofs -/

/-- entries that are not freed -/
def keepB (fr : List Nat) (e : Ent (Edge × Edge)) : Bool := decide (e.addr ∉ fr)

theorem gcList_sub {k i : Nat} : ∀ {as : List Nat} {s s' : Store} {fr : List Nat},
    s.gcList k i as = some (s', fr) → ∀ a ∈ fr, a ∈ as := by
  intro as
  induction as with
  | nil => intro s s' fr h a ha; cases h; cases ha
  | cons b as ih =>
    intro s s' fr h a ha
    unfold Store.gcList at h
    split at h
    · cases h
    · split at h
      · split at h
        · rename_i x _ hx
          cases h
          rcases List.mem_cons.1 ha with rfl | ha
          · exact List.mem_cons_self
          · exact List.mem_cons_of_mem _ (ih hx a ha)
        · cases h
      · exact List.mem_cons_of_mem _ (ih h a ha)

theorem chain_eq {k i : Nat} : ∀ {c : List (Ent (Edge × Edge))} {s s' : Store} {fr : List Nat},
    (c.map (·.addr)).Nodup → s.gcList k i (c.map (·.addr)) = some (s', fr) →
    sweepChain k i c s = some (s', c.filter (keepB fr), fr) := by
  intro c
  induction c with
  | nil => intro s s' fr _ h; cases h; rfl
  | cons e c ih =>
    intro s s' fr hn h
    rw [List.map_cons, List.nodup_cons] at hn
    rw [List.map_cons] at h
    unfold Store.gcList at h
    unfold sweepChain
    cases hh : s.heap e.addr with
    | none => rw [hh] at h; cases h
    | some n =>
      rw [hh] at h
      simp only at h ⊢
      by_cases h0 : s.ref e.addr = 0
      · rw [if_pos h0] at h ⊢
        split at h
        · rename_i s₁ fr₁ hx
          cases h
          rw [ih hn.2 hx]
          simp only
          have h1 : keepB (e.addr :: fr₁) e = false := by simp [keepB]
          rw [List.filter_cons, h1]
          simp only [Bool.false_eq_true, if_false]
          have : c.filter (keepB fr₁) = c.filter (keepB (e.addr :: fr₁)) := by
            refine List.filter_congr fun x hx' => ?_
            have hne : x.addr ≠ e.addr := fun h => hn.1 (List.mem_map.2 ⟨x, hx', h⟩)
            simp [keepB, hne]
          rw [this]
        · cases h
      · rw [if_neg h0] at h ⊢
        rw [ih hn.2 h]
        simp only
        have h1 : keepB fr e = true := by
          have : e.addr ∉ fr := fun hm => hn.1 (gcList_sub h _ hm)
          simp [keepB, this]
        rw [List.filter_cons, h1]
        rfl

theorem gcList_append {k i : Nat} : ∀ {as bs : List Nat} {s s' : Store} {fr : List Nat},
    s.gcList k i (as ++ bs) = some (s', fr) →
    ∃ s₁ f₁ f₂, s.gcList k i as = some (s₁, f₁) ∧ s₁.gcList k i bs = some (s', f₂) ∧ fr = f₁ ++ f₂ := by
  intro as
  induction as with
  | nil => intro bs s s' fr h; exact ⟨s, [], fr, rfl, h, rfl⟩
  | cons a as ih =>
    intro bs s s' fr h
    rw [List.cons_append] at h
    unfold Store.gcList at h
    cases hh : s.heap a with
    | none => rw [hh] at h; cases h
    | some n =>
      rw [hh] at h
      simp only at h
      by_cases h0 : s.ref a = 0
      · rw [if_pos h0] at h
        split at h
        · rename_i s₂ fr₂ hx
          cases h
          obtain ⟨s₁, f₁, f₂, e1, e2, rfl⟩ := ih hx
          exact ⟨s₁, a :: f₁, f₂, by simp only [Store.gcList, hh, h0, if_true, e1], e2, rfl⟩
        · cases h
      · rw [if_neg h0] at h
        obtain ⟨s₁, f₁, f₂, e1, e2, e3⟩ := ih h
        exact ⟨s₁, f₁, f₂, by simp only [Store.gcList, hh, if_neg h0, e1], e2, e3⟩

theorem bins_eq {k i : Nat} : ∀ {js : List Nat} {s s' : Store} {t : Table (Edge × Edge)} {fr : List Nat},
    js.Nodup → ((js.flatMap t.bins).map (·.addr)).Nodup → s.gcList k i ((js.flatMap t.bins).map (·.addr)) = some (s', fr) →
    sweepBins k i js s t = some (s',
      { t with bins := fun j => if j ∈ js then (t.bins j).filter (keepB fr) else t.bins j
               numEntries := t.numEntries - fr.length }, fr) := by
  intro js
  induction js with
  | nil =>
    intro s s' t fr _ _ h
    cases h
    simp [sweepBins]
  | cons j js ih =>
    intro s s' t fr hj hn h
    have hj := List.nodup_cons.1 hj
    rw [List.flatMap_cons, List.map_append] at h hn
    obtain ⟨s₁, f₁, f₂, e1, e2, rfl⟩ := gcList_append h
    have hn' := List.nodup_append.1 hn
    unfold sweepBins
    rw [chain_eq hn'.1 e1]
    simp only
    have hfm : js.flatMap (upd t.bins j ((t.bins j).filter (keepB f₁))) = js.flatMap t.bins := by
      refine Table.flatMap_ext fun x hx => ?_
      unfold upd
      rw [if_neg]
      rintro rfl; exact hj.1 hx
    rw [ih hj.2 (t := { t with bins := upd t.bins j ((t.bins j).filter (keepB f₁)), numEntries := t.numEntries - f₁.length })
      (by rw [hfm]; exact hn'.2.1) (by rw [hfm]; exact e2)]
    simp only [Option.some.injEq, Prod.mk.injEq, true_and, and_true]
    congr 1
    · funext x
      by_cases hx : x = j
      · subst hx
        rw [if_neg hj.1, if_pos List.mem_cons_self, upd_same]
        refine List.filter_congr fun y hy => ?_
        have : y.addr ∉ f₂ := by
          intro hm
          exact hn'.2.2 _ (List.mem_map.2 ⟨y, hy, rfl⟩) _ (gcList_sub e2 _ hm) rfl
        simp [keepB, this]
      · by_cases hm : x ∈ js
        · rw [if_pos hm, if_pos (List.mem_cons_of_mem _ hm)]
          unfold upd
          rw [if_neg hx]
          refine List.filter_congr fun y hy => ?_
          have : y.addr ∉ f₁ := by
            intro hm'
            exact hn'.2.2 _ (gcList_sub e1 _ hm') _ (List.mem_map.2 ⟨y, List.mem_flatMap.2 ⟨x, hm, hy⟩, rfl⟩) rfl
          simp [keepB, this]
        · rw [if_neg hm, if_neg (by rw [List.mem_cons]; rintro (h | h); exact hx h; exact hm h)]
          unfold upd
          rw [if_neg hx]
    · rw [List.length_append]; omega

theorem gcList_tab {k i : Nat} : ∀ {as : List Nat} {s s' : Store} {fr : List Nat},
    (s.tab i).Nodup → s.gcList k i as = some (s', fr) → s'.tab i = (s.tab i).filter fun a => decide (a ∉ fr) := by
  intro as
  induction as with
  | nil => intro s s' fr _ h; cases h; exact (List.filter_eq_self.2 fun a _ => by simp).symm
  | cons a as ih =>
    intro s s' fr hn h
    unfold Store.gcList at h
    split at h
    · cases h
    · rename_i n hh
      split at h
      · split at h
        · rename_i s₁ f₁ hx
          cases h
          have ht : (s.freeNode k i a n).tab i = (s.tab i).erase a := by
            unfold Store.freeNode
            simp only [upd_same]
            rfl
          rw [ih (by rw [ht]; exact hn.erase a) hx, ht, hn.erase_eq_filter, List.filter_filter]
          refine List.filter_congr fun x _ => ?_
          simp only [List.mem_cons, not_or]
          by_cases hxa : x = a <;> simp [hxa]
        · cases h
      · exact ih hn h

/-- One table. -/
theorem sweep_ok {ext : Nat → Nat} {s : Store} (g : s.GCInv ext) {tb : Rp.Tabs} (H : Holds s tb) (k i : Nat) :
    ∃ s' t' fr, sweepBins k i (List.range (tb i).numBins) s (tb i) = some (s', t', fr) ∧
      s.gcList k i (s.tab i) = some (s', fr) ∧ (tb i).numEntries - t'.numEntries = fr.length ∧
      t'.sizeIndex = (tb i).sizeIndex ∧ Holds s' (upd tb i t') := by
  obtain ⟨s', fr, e, R⟩ := Store.gcList_spec k i (s.tab i) s g (fun _ h => h) (g.wf.tab_nodup i)
  have hn : (((List.range (tb i).numBins).flatMap (tb i).bins).map (·.addr)).Nodup := by
    have := g.wf.tab_nodup i
    rwa [H.order i] at this
  have e' : s.gcList k i (((List.range (tb i).numBins).flatMap (tb i).bins).map (·.addr)) = some (s', fr) := by
    rw [← e, H.order i]; rfl
  have hb := bins_eq List.nodup_range hn e'
  refine ⟨s', _, fr, hb, e, ?_, rfl, ?_⟩
  · have h1 := (H.ok i).cnt
    have h2 : (tabEntries s i).length = (s.tab i).length := by
      rw [← List.length_map (f := fun e : Ent (Edge × Edge) => e.addr), Rp.tabEntries_addr g.wf]
    have := R.len
    show (tb i).numEntries - ((tb i).numEntries - fr.length) = _
    omega
  · generalize hT : ({ tb i with
        bins := fun j => if j ∈ List.range (tb i).numBins then ((tb i).bins j).filter (keepB fr) else (tb i).bins j
        numEntries := (tb i).numEntries - fr.length } : Table (Edge × Edge)) = T
    have hen : T.entries = (tb i).entries.filter (keepB fr) := by
      rw [← hT]
      unfold Table.entries
      show (List.range (tb i).numBins).flatMap _ = _
      rw [List.filter_flatMap]
      exact Table.flatMap_ext fun x hx => if_pos hx
    have hord : s'.tab i = T.entries.map (·.addr) := by
      rw [gcList_tab (g.wf.tab_nodup i) e, hen, H.order i, List.filter_map]
      rfl
    have hte : tabEntries s' i = (tabEntries s i).filter (keepB fr) := by
      unfold tabEntries
      rw [gcList_tab (g.wf.tab_nodup i) e]
      have hv : ∀ a ∈ s.tab i, s.heap a ≠ none := fun a ha => by
        obtain ⟨n, hn, -⟩ := (g.wf.tab_iff i a).1 ha
        rw [hn]; simp
      generalize s.tab i = l at hv
      induction l with
      | nil => rfl
      | cons a l ih =>
        have ih := ih fun b hb => hv b (List.mem_cons_of_mem _ hb)
        cases hh : s.heap a with
        | none => exact absurd hh (hv a List.mem_cons_self)
        | some n =>
          by_cases hf : a ∈ fr
          · have h1 : keepB fr ⟨a, (n.thn, n.els)⟩ = false := by simp [keepB, hf]
            rw [List.filter_cons, List.filterMap_cons]
            simp only [hf, not_true, decide_false, Bool.false_eq_true, if_false, hh, Option.map_some]
            rw [List.filter_cons, h1]
            simp only [Bool.false_eq_true, if_false]
            exact ih
          · have h1 : keepB fr ⟨a, (n.thn, n.els)⟩ = true := by simp [keepB, hf]
            rw [List.filter_cons, List.filterMap_cons (l := l)]
            simp only [hf, not_false_eq_true, decide_true, if_true, hh, Option.map_some]
            rw [List.filterMap_cons, List.filter_cons, h1]
            simp only [R.kept a n hh hf, Option.map_some, if_true]
            rw [ih]
    constructor
    · intro j
      by_cases hj : j = i
      · subst hj
        rw [upd_same, hte]
        refine ⟨by rw [hen]; exact (H.ok j).perm.filter _, ?_, ?_⟩
        · intro x y hy
          have hs : T.slot hash2 y.key = (tb j).slot hash2 y.key := by rw [← hT]; rfl
          rw [hs]
          refine (H.ok j).slots x y ?_
          rw [← hT] at hy
          simp only at hy
          split at hy
          · exact (List.mem_filter.1 hy).1
          · exact hy
        · rw [← hte]
          have h1 := (H.ok j).cnt
          have h2 : (tabEntries s j).length = (s.tab j).length := by
            rw [← List.length_map (f := fun e : Ent (Edge × Edge) => e.addr), Rp.tabEntries_addr g.wf]
          have h3 : (tabEntries s' j).length = (s'.tab j).length := by
            rw [← List.length_map (f := fun e : Ent (Edge × Edge) => e.addr), Rp.tabEntries_addr R.inv.wf]
          have := R.len
          rw [← hT]
          show (tb j).numEntries - fr.length = _
          omega
      · have ht : tabEntries s' j = tabEntries s j := by
          unfold tabEntries
          rw [R.tabs j hj]
          refine Rp.filterMap_congr' fun a ha => ?_
          obtain ⟨n, hn, hv⟩ := (g.wf.tab_iff j a).1 ha
          rw [R.kept a n hn, hn]
          intro hf
          obtain ⟨n', hn', hv'⟩ := (g.wf.tab_iff i a).1 (R.sub a hf)
          rw [hn] at hn'; cases hn'
          exact hj (by rw [← hv, hv'])
        simp only [upd, if_neg hj]
        rw [ht]; exact H.ok j
    · intro j
      by_cases hj : j = i
      · subst hj; rw [upd_same]; exact hord
      · simp only [upd, if_neg hj]
        rw [R.tabs j hj]; exact H.order j

/-- All tables. -/
theorem collect_ok {ext : Nat → Nat} (κ : Nat → Nat) : ∀ (is : List Nat) (s : Store) (tb : Rp.Tabs), s.GCInv ext →
    Holds s tb → (∀ i ∈ is, i ≤ s.ord.numVars) →
    ∃ s' tb' fr, collect κ is s tb = some (s', tb', fr) ∧ s.gcTables κ is = some (s', fr) ∧ Holds s' tb' ∧
      ∀ i, (tb' i).sizeIndex = (tb i).sizeIndex := by
  intro is
  induction is with
  | nil => intro s tb _ H _; exact ⟨s, tb, [], rfl, rfl, H, fun _ => rfl⟩
  | cons i is ih =>
    intro s tb g H hi
    obtain ⟨s₁, t₁, f₁, e1, e2, hc, hs, H₁⟩ := sweep_ok g H (κ i) i
    obtain ⟨s₂, f₂, e3, R⟩ := Store.gcTable_spec g (κ i) (hi i List.mem_cons_self)
    have e4 : s.gcTable (κ i) i = some ({ s₁ with numNodes := s₁.numNodes - f₁.length }, f₁) := by
      unfold Store.gcTable; rw [e2]
    rw [e4] at e3; cases e3
    have H₂ : Holds { s₁ with numNodes := s₁.numNodes - f₁.length } (upd tb i t₁) := ⟨H₁.ok, H₁.order⟩
    obtain ⟨s', tb', f', c1, c2, c3, c4⟩ := ih _ _ R.inv H₂ fun j hj => by
      rw [R.shrink.ord]; exact hi j (List.mem_cons_of_mem _ hj)
    refine ⟨s', tb', f₁ ++ f', ?_, ?_, c3, fun j => ?_⟩
    · unfold collect
      rw [e1]
      simp only
      rw [hc, c1]
    · unfold Store.gcTables
      rw [e4]
      simp only
      rw [c2]
    · rw [c4 j]
      unfold upd
      split
      · rename_i h; rw [h]; exact hs
      · rfl

end GcBins

end Cal
