import Verif.Support

/-!
# `Cal_BddSatisfy`, `Cal_BddSatisfySupport`: the recursive steps
-/

namespace Cal

/-! ## Model -/

/-- The node made at the end of the two steps: `CalUniqueTableForIdFindOrAdd` with the constant false
as one child, and a reference to the other child if the node is new (calBddSatisfy.c:188-204). -/
def Store.half (s : Store) (i : Nat) (a b t : Edge) : Store × Edge :=
  (if (s.findOrAdd i a b).2.2 then (s.findOrAdd i a b).1 else (s.findOrAdd i a b).1.icr t,
    (s.findOrAdd i a b).2.1)

/-- `BddSatisfyStep` (calBddSatisfy.c:167-197). The recursion is bounded by `k`. -/
def satisfyStep : Nat → Store → Edge → Option (Store × Edge)
  | 0, _, _ => none
  | k + 1, s, f =>
    if f.isConst then some (s, f)
    else
      match s.kids f with
      | none => none
      | some (t, e) =>
        if t.same zero then
          match satisfyStep k s e with
          | none => none
          | some (s1, r) => some (s1.half f.id zero r r)
        else
          match satisfyStep k s t with
          | none => none
          | some (s1, r) => some (s1.half f.id r zero r)

/-- `BddSatisfySupportStep` (calBddSatisfy.c:202-246). The recursion is bounded by `k`. `support` is the
zero terminated array of ids. -/
def satisfySupportStep : Nat → Store → Edge → List Nat → Option (Store × Edge)
  | 0, _, _, _ => none
  | _ + 1, s, f, [] => satisfyStep (s.ord.numVars + 1) s f
  | k + 1, s, f, v :: vs =>
    if s.elvl f ≤ s.ord.idToIndex v then
      match s.kids f with
      | none => none
      | some (t, e) =>
        if t.same zero then
          match satisfySupportStep k s e (if f.id = v then vs else v :: vs) with
          | none => none
          | some (s1, r) => some (s1.half f.id zero r r)
        else
          match satisfySupportStep k s t (if f.id = v then vs else v :: vs) with
          | none => none
          | some (s1, r) => some (s1.half f.id r zero r)
    else
      match satisfySupportStep k s f vs with
      | none => none
      | some (s1, r) => some (s1.half v zero r r)

/-- insertion into a sorted list; see `sortIdx` -/
def insertIdx (x : Nat) : List Nat → List Nat
  | [] => [x]
  | y :: ys => if x ≤ y then x :: y :: ys else y :: insertIdx x ys

/-- `qsort` with `IndexCmp` (calBddSatisfy.c:251-265): the ascending list. That `qsort` sorts is
trusted. -/
def sortIdx : List Nat → List Nat
  | [] => []
  | x :: xs => insertIdx x (sortIdx xs)

/-- The support array of `Cal_BddSatisfySupport` (calBddSatisfy.c:117-132): the variables of the current
association, in the order of their indices. -/
def supportIds (o : Order) (A : Assoc) : List Nat :=
  (sortIdx ((((List.range o.numVars).map (· + 1)).filter fun v => (A.var v).isSome).map o.idToIndex)).map
    o.indexToId

namespace Mgr

/-- `Cal_BddSatisfy` (calBddSatisfy.c:80-97). For the constant false the argument itself comes back. -/
def satisfy (E : Env) (m : Mgr) (f : Handle) : Option (Mgr × Handle) :=
  match m.preProc E [f] with
  | none => none
  | some (m1, false) => some (m1, Handle.null)
  | some (m1, true) =>
    match m1.internal f with
    | none => none
    | some e =>
      if e.same Cal.zero then some (m1, f)
      else
        match m1.onStore (satisfyStep (m1.st.ord.numVars + 1) m1.st e) with
        | none => none
        | some (m2, r) => m2.extern r

/-- `Cal_BddSatisfySupport` (calBddSatisfy.c:102-135). For the constant false the argument itself comes
back. -/
def satisfySupport (E : Env) (m : Mgr) (f : Handle) : Option (Mgr × Handle) :=
  match m.preProc E [f] with
  | none => none
  | some (m1, false) => some (m1, Handle.null)
  | some (m1, true) =>
    match m1.internal f, m1.assoc m1.cur with
    | some e, some A =>
      if e.same Cal.zero then some (m1, f)
      else
        let l := supportIds m1.st.ord A
        match m1.onStore (satisfySupportStep (m1.st.ord.numVars + 1 + l.length) m1.st e l) with
        | none => none
        | some (m2, r) => m2.extern r
    | _, _ => none

end Mgr

/-! ## Specification -/

/-- the cube with the given literals: a conjunction of variables (`true`) and complements (`false`) -/
def cubeOf (L : List (Nat × Bool)) : BFn := fun ρ => L.all fun l => ρ l.1 == l.2

/-! ## Proofs -/

theorem insertIdx_mem (x y : Nat) : ∀ l, y ∈ insertIdx x l ↔ y = x ∨ y ∈ l
  | [] => by simp [insertIdx]
  | z :: l => by
    unfold insertIdx
    split
    · simp
    · simp only [List.mem_cons, insertIdx_mem x y l]
      constructor
      · rintro (h | h | h) <;> simp [h]
      · rintro (h | h | h) <;> simp [h]

theorem sortIdx_mem (y : Nat) : ∀ l, y ∈ sortIdx l ↔ y ∈ l
  | [] => by simp [sortIdx]
  | x :: l => by rw [sortIdx, insertIdx_mem, sortIdx_mem y l, List.mem_cons]

theorem insertIdx_sorted (x : Nat) : ∀ {l}, l.Pairwise (· < ·) → x ∉ l → (insertIdx x l).Pairwise (· < ·)
  | [], _, _ => by simp [insertIdx]
  | y :: l, h, hn => by
    unfold insertIdx
    rw [List.pairwise_cons] at h
    simp only [List.mem_cons, not_or] at hn
    split
    · rw [List.pairwise_cons, List.pairwise_cons]
      refine ⟨?_, h⟩
      intro z hz
      rcases List.mem_cons.1 hz with rfl | hz
      · omega
      · have := h.1 z hz; omega
    · rw [List.pairwise_cons]
      refine ⟨?_, insertIdx_sorted x h.2 hn.2⟩
      intro z hz
      rcases (insertIdx_mem x z l).1 hz with rfl | hz
      · omega
      · exact h.1 z hz

theorem sortIdx_sorted : ∀ {l}, l.Nodup → (sortIdx l).Pairwise (· < ·)
  | [], _ => .nil
  | x :: l, h => by
    rw [List.nodup_cons] at h
    exact insertIdx_sorted x (sortIdx_sorted h.2) (by rw [sortIdx_mem]; exact h.1)

theorem supportIds_mem {o : Order} (w : o.WF) (A : Assoc) (v : Nat) :
    v ∈ supportIds o A ↔ (1 ≤ v ∧ v ≤ o.numVars) ∧ A.var v ≠ none := by
  simp only [supportIds, List.mem_map, sortIdx_mem, List.mem_filter, List.mem_range]
  constructor
  · rintro ⟨k, ⟨x, ⟨⟨y, hy, rfl⟩, hx⟩, rfl⟩, rfl⟩
    rw [w.left (y + 1) (by omega) (by omega)]
    exact ⟨by omega, Option.isSome_iff_ne_none.1 hx⟩
  · rintro ⟨⟨h1, h2⟩, h3⟩
    exact ⟨o.idToIndex v, ⟨v, ⟨⟨v - 1, by omega, by omega⟩, Option.isSome_iff_ne_none.2 h3⟩, rfl⟩,
      w.left v h1 h2⟩

/-- in ascending order of index -/
def Ascending (o : Order) (l : List Nat) : Prop := l.Pairwise fun v w => o.lvl v < o.lvl w

theorem supportIds_sorted {o : Order} (w : o.WF) (A : Assoc) : Ascending o (supportIds o A) := by
  have nd : ((((List.range o.numVars).map (· + 1)).filter fun v => (A.var v).isSome).map
      o.idToIndex).Nodup := by
    apply nodup_map_inj
    · intro x hx y hy h
      simp only [List.mem_filter, List.mem_map, List.mem_range] at hx hy
      obtain ⟨⟨a, ha, rfl⟩, -⟩ := hx
      obtain ⟨⟨b, hb, rfl⟩, -⟩ := hy
      rw [← w.left (a + 1) (by omega) (by omega), ← w.left (b + 1) (by omega) (by omega), h]
    · apply List.Pairwise.filter
      apply nodup_map_inj
      · intro x _ y _ h; simpa using h
      · exact List.nodup_range
  have h := sortIdx_sorted nd
  have rng : ∀ x ∈ sortIdx ((((List.range o.numVars).map (· + 1)).filter
      fun v => (A.var v).isSome).map o.idToIndex), x < o.numVars := by
    intro x hx
    rw [sortIdx_mem] at hx
    simp only [List.mem_map, List.mem_filter, List.mem_range] at hx
    obtain ⟨_, ⟨⟨a, ha, rfl⟩, -⟩, rfl⟩ := hx
    exact w.idx_lt _ (by omega) (by omega)
  unfold Ascending supportIds
  rw [List.pairwise_map]
  revert h rng
  generalize sortIdx _ = l
  intro h rng
  refine List.Pairwise.imp_of_mem ?_ h
  intro a b ha hb hab
  rw [w.lvl_indexToId (rng a ha), w.lvl_indexToId (rng b hb)]
  exact hab

theorem cubeOf_cons (v b L ρ) : cubeOf ((v, b) :: L) ρ = (ρ v == b && cubeOf L ρ) := by
  simp [cubeOf]

theorem cubeOf_indep {L : List (Nat × Bool)} {v} (h : v ∉ L.map (·.1)) : Indep (cubeOf L) v := by
  intro ρ b
  unfold cubeOf
  rw [Bool.eq_iff_iff]
  simp only [List.all_eq_true]
  constructor
  · intro hh l hl
    have := hh l hl
    rw [upd_ne _ _ (fun e => h (by rw [← e]; exact List.mem_map_of_mem hl))] at this
    exact this
  · intro hh l hl
    rw [upd_ne _ _ (fun e => h (by rw [← e]; exact List.mem_map_of_mem hl))]
    exact hh l hl

theorem cubeOf_sat : ∀ {L : List (Nat × Bool)}, (L.map (·.1)).Nodup → ∃ ρ, cubeOf L ρ = true
  | [], _ => ⟨fun _ => false, rfl⟩
  | (v, b) :: L, h => by
    rw [List.map_cons, List.nodup_cons] at h
    obtain ⟨ρ, hρ⟩ := cubeOf_sat h.2
    refine ⟨upd ρ v b, ?_⟩
    rw [cubeOf_cons, upd_same, cubeOf_indep h.1 ρ b, hρ]; simp

/-- What holds of the literals of the result: `b` is a level above which there are none. -/
structure SatLits (o : Order) (b : Nat) (F : BFn) (vs : List Nat) (L : List (Nat × Bool)) : Prop where
  imp : ∀ ρ, cubeOf L ρ = true → F ρ = true
  nodup : (L.map (·.1)).Nodup
  rng : ∀ l ∈ L, (1 ≤ l.1 ∧ l.1 ≤ o.numVars) ∧ b ≤ o.lvl l.1
  dep : ∀ l ∈ L, ¬ Indep F l.1 ∨ l.1 ∈ vs
  all : ∀ v ∈ vs, v ∈ L.map (·.1)

/-- Outcome of the two steps. -/
def SatOk (s : Store) (δ : Nat → BFn) (b : Nat) (F : BFn) (vs : List Nat)
    (out : Option (Store × Edge)) : Prop :=
  ∃ s' r δ' L, out = some (s', r) ∧ s'.WF ∧ s.Le s' ∧ s'.EOK r ∧ Lab s' δ' ∧
    (∀ a, (a = 0 ∨ s.heap a ≠ none) → δ' a = δ a) ∧ s.Keep s' ∧ den δ' r = cubeOf L ∧
    SatLits s.ord b F vs L

/-- Put a literal on top. -/
theorem SatOk.half {s : Store} {δ b b' F F' vs vs'} (i : Nat) (hi : 1 ≤ i ∧ i ≤ s.ord.numVars)
    (c : Bool) {out : Option (Store × Edge)} (h : SatOk s δ b F vs out) (hb : s.ord.lvl i < b)
    (hbc : b ≤ constIndex) (hb' : b' ≤ s.ord.lvl i)
    (imp : ∀ ρ, ρ i = c → F ρ = true → F' ρ = true)
    (dep : ¬ Indep F' i ∨ i ∈ vs') (dep' : ∀ v, ¬ Indep F v → ¬ Indep F' v)
    (sub : ∀ v ∈ vs, v ∈ vs') (all : ∀ v ∈ vs', v = i ∨ v ∈ vs) :
    SatOk s δ b' F' vs' (match out with
      | none => none
      | some (s1, r) => some (if c then s1.half i r zero r else s1.half i zero r r)) := by
  obtain ⟨s1, r, δ1, L, rfl, w1, le1, ok1, hδ1, ag1, kp1, hd, SL⟩ := h
  have hr : i ∉ L.map (·.1) := by
    intro hm
    obtain ⟨l, hl, he⟩ := List.mem_map.1 hm
    have := (SL.rng l hl).2
    rw [he] at this; omega
  have lr : s1.ord.lvl i < s1.ord.lvl r.id := by
    have := hδ1.lvl_ge w1 ok1 (k := b) hbc ?_
    · rw [le1.ord] at this ⊢; omega
    · intro v _ _ hv
      rw [hd]
      apply cubeOf_indep
      intro hm
      obtain ⟨l, hl, he⟩ := List.mem_map.1 hm
      have := (SL.rng l hl).2
      rw [he, ← le1.ord] at this; omega
  have key : ∀ (x y : Edge), ((c = true ∧ x = r ∧ y = zero) ∨ (c = false ∧ x = zero ∧ y = r)) →
      SatOk s δ b' F' vs' (some (s1.half i x y r)) := by
    intro x y hxy
    obtain ⟨s2, q, δ2, h1, h2, h3, h4, h5, h6, h7, h8⟩ :=
      Mgr.halfNode_ok w1 hδ1 (i := i) (a := x) (b := y) (t := r)
        (hxy.imp And.right And.right) (by rw [le1.ord]; exact hi) ok1 lr
    refine ⟨s2, q, δ2, (i, c) :: L, h1, h2, le1.trans h3, h4, h5, Mgr.ag_trans le1 ag1 h6, kp1.trans h8,
      ?_, ?_⟩
    · rw [h7]
      funext ρ
      rw [cubeOf_cons, ← hd]
      rcases hxy with ⟨rfl, rfl, rfl⟩ | ⟨rfl, rfl, rfl⟩
      · rw [hδ1.den_zero]; cases ρ i <;> simp
      · rw [hδ1.den_zero]; cases ρ i <;> simp
    · refine ⟨?_, ?_, ?_, ?_, ?_⟩
      · intro ρ h
        rw [cubeOf_cons, Bool.and_eq_true, beq_iff_eq] at h
        exact imp ρ h.1 (SL.imp ρ h.2)
      · rw [List.map_cons, List.nodup_cons]; exact ⟨hr, SL.nodup⟩
      · intro l hl
        rcases List.mem_cons.1 hl with rfl | hl
        · exact ⟨hi, hb'⟩
        · have := SL.rng l hl
          exact ⟨this.1, by omega⟩
      · intro l hl
        rcases List.mem_cons.1 hl with rfl | hl
        · exact dep
        · rcases SL.dep l hl with h | h
          · exact Or.inl (dep' _ h)
          · exact Or.inr (sub _ h)
      · intro v hv
        rcases all v hv with rfl | h
        · simp
        · rw [List.map_cons]; exact List.mem_cons_of_mem _ (SL.all v h)
  cases c
  · exact key zero r (Or.inr ⟨rfl, rfl, rfl⟩)
  · exact key r zero (Or.inl ⟨rfl, rfl, rfl⟩)

/-- What the choice of a child needs. -/
theorem child_imp {F : BFn} {i : Nat} {c : Bool} {ρ : Asg} (h : ρ i = c)
    (hF : F (upd ρ i c) = true) : F ρ = true := by
  have : upd ρ i c = ρ := by
    funext v
    by_cases hv : v = i
    · subst hv; rw [upd_same, h]
    · rw [upd_ne _ _ hv]
  rwa [this] at hF

theorem child_dep {F : BFn} {i : Nat} {c : Bool} {v} (h : ¬ Indep (fun ρ => F (upd ρ i c)) v) :
    ¬ Indep F v := by
  intro hF
  apply h
  intro ρ b
  show F _ = F _
  by_cases hv : v = i
  · subst hv; rw [upd_upd]
  · have : upd (upd ρ v b) i c = upd (upd ρ i c) v b := by
      funext x
      unfold upd
      split <;> split <;> simp_all
    rw [this]
    exact hF _ b

theorem satisfyStep_ok : ∀ (k : Nat) {s : Store} (_ : s.WF) {δ} (_ : Lab s δ) {f : Edge} {F : BFn}
    (_ : Rep s f F) (_ : f ≠ zero) (_ : 1 ≤ k) (_ : s.ord.numVars + 1 ≤ k + s.ord.lvl f.id) {b : Nat}
    (_ : b ≤ s.ord.lvl f.id), SatOk s δ b F [] (satisfyStep k s f) := by
  intro k
  induction k with
  | zero => intro s _ δ _ f F _ _ h; omega
  | succ k ih =>
    intro s w δ hδ f F r hz _ hk b hb
    unfold satisfyStep
    by_cases hc : f.id = 0
    · rw [if_pos (by simp [Edge.isConst, hc])]
      have : f = one := by
        rcases (r.const_iff w).1 hc with h | h
        · subst h; exact canonical w r .one
        · subst h; exact absurd (canonical w r .zero) hz
      subst this
      refine ⟨s, one, δ, [], rfl, w, Store.Le.refl s, Store.EOK_one _, hδ, fun _ _ => rfl,
        Store.Keep.refl s, ?_, ?_⟩
      · rw [hδ.den_one]; rfl
      · have : F = fun _ => true := r.unique w .one
        subst this
        exact ⟨fun _ _ => rfl, .nil, fun l h => by simp at h, fun l h => by simp at h,
          fun l h => by simp at h⟩
    · rw [if_neg (by simp [Edge.isConst, hc])]
      obtain ⟨t, u, hk', rt, ru, l1, l2, hne⟩ := r.kids w hc
      have top := r.topVar w hc
      have hl := w.ord.lvl_lt top.rng.1 top.rng.2
      have hbd := w.ord.bound
      rw [hk']
      simp only
      have step : ∀ (c : Bool) (x : Edge), Rep s x (fun ρ => F (upd ρ f.id c)) → x ≠ zero →
          s.ord.lvl f.id < s.ord.lvl x.id → SatOk s δ b F [] (match satisfyStep k s x with
            | none => none
            | some (s1, r) => some (if c then s1.half f.id r zero r else s1.half f.id zero r r)) := by
        intro c x rx hx lx
        refine SatOk.half f.id top.rng c (ih w hδ rx hx (by omega) (by omega) (b := s.ord.lvl f.id + 1)
          (by omega)) (by omega) (by omega) hb ?_ (Or.inl top.dep) (fun v => child_dep)
          (fun v h => h) (fun v h => Or.inr h)
        intro ρ h hF; exact child_imp h hF
      by_cases hs : t.same zero = true
      · rw [if_pos hs]
        have : t = zero := same_zero w rt.eok hs
        exact step false u ru (by rw [← this]; exact fun h => hne h.symm) l2
      · rw [if_neg hs]
        exact step true t rt (by rintro rfl; exact hs (by simp [Edge.same])) l1

theorem satisfySupportStep_ok : ∀ (k : Nat) {s : Store} (_ : s.WF) {δ} (_ : Lab s δ) {f : Edge}
    {F : BFn} {vs : List Nat} (_ : Rep s f F) (_ : f ≠ zero)
    (_ : ∀ v ∈ vs, 1 ≤ v ∧ v ≤ s.ord.numVars) (_ : Ascending s.ord vs)
    (_ : 1 + vs.length ≤ k) (_ : s.ord.numVars + 1 + vs.length ≤ k + s.ord.lvl f.id) {b : Nat}
    (_ : b ≤ s.ord.lvl f.id) (_ : ∀ v ∈ vs, b ≤ s.ord.lvl v),
    SatOk s δ b F vs (satisfySupportStep k s f vs) := by
  intro k
  induction k with
  | zero => intro s _ δ _ f F vs _ _ _ _ h; omega
  | succ k ih =>
    intro s w δ hδ f F vs r hz hv ha hk1 hk2 b hb hb'
    cases vs with
    | nil => exact satisfyStep_ok _ w hδ r hz (by omega) (by omega) hb
    | cons v vs =>
      unfold satisfySupportStep
      have hvr := hv v (by simp)
      have hlv := w.ord.lvl_lt hvr.1 hvr.2
      have hlv' : s.ord.idToIndex v = s.ord.lvl v := by
        unfold Order.lvl; rw [if_neg (by omega)]
      have hbd := w.ord.bound
      have hle : s.elvl f = s.ord.lvl f.id := rfl
      have ha' := List.pairwise_cons.1 ha
      rw [hlv', hle]
      simp only [List.length_cons] at hk1 hk2
      by_cases hlt : s.ord.lvl f.id ≤ s.ord.lvl v
      · rw [if_pos hlt]
        have hc : f.id ≠ 0 := by
          intro h; rw [h, Order.lvl_zero] at hlt; omega
        obtain ⟨t, u, hk', rt, ru, l1, l2, hne⟩ := r.kids w hc
        have top := r.topVar w hc
        have hl := w.ord.lvl_lt top.rng.1 top.rng.2
        rw [hk']
        simp only
        have hsup : (∀ x ∈ (if f.id = v then vs else v :: vs), x ∈ v :: vs ∧
              s.ord.lvl f.id < s.ord.lvl x) ∧
            Ascending s.ord (if f.id = v then vs else v :: vs) ∧
            (if f.id = v then vs else v :: vs).length ≤ vs.length + 1 ∧
            (∀ x ∈ v :: vs, x = f.id ∨ x ∈ (if f.id = v then vs else v :: vs)) := by
          split
          · rename_i he
            refine ⟨fun x hx => ⟨by simp [hx], by rw [he]; exact ha'.1 x hx⟩, ha'.2, by omega, ?_⟩
            intro x hx
            rcases List.mem_cons.1 hx with rfl | hx
            · exact Or.inl he.symm
            · exact Or.inr hx
          · rename_i he
            have lt : s.ord.lvl f.id < s.ord.lvl v := by
              rcases Nat.lt_or_eq_of_le hlt with h | h
              · exact h
              · exact absurd (w.ord.lvl_inj top.rng.1 top.rng.2 hvr.1 hvr.2 h) he
            refine ⟨fun x hx => ⟨hx, ?_⟩, ha, by simp, fun x hx => Or.inr hx⟩
            rcases List.mem_cons.1 hx with rfl | hx
            · exact lt
            · have := ha'.1 x hx; omega
        revert hsup
        generalize (if f.id = v then vs else v :: vs) = ws
        rintro ⟨s1, s2, s3, s4⟩
        have step : ∀ (c : Bool) (x : Edge), Rep s x (fun ρ => F (upd ρ f.id c)) → x ≠ zero →
            s.ord.lvl f.id < s.ord.lvl x.id →
            SatOk s δ b F (v :: vs) (match satisfySupportStep k s x ws with
              | none => none
              | some (s1, r) => some (if c then s1.half f.id r zero r else s1.half f.id zero r r)) := by
          intro c x rx hx lx
          refine SatOk.half f.id top.rng c (ih w hδ rx hx (fun y hy => hv y (s1 y hy).1) s2 (by omega)
            (by omega) (b := s.ord.lvl f.id + 1) (by omega) (fun y hy => (s1 y hy).2)) (by omega)
            (by omega) hb ?_ (Or.inl top.dep) (fun v => child_dep) (fun y hy => (s1 y hy).1) s4
          intro ρ h hF; exact child_imp h hF
        by_cases hs : t.same zero = true
        · rw [if_pos hs]
          have : t = zero := same_zero w rt.eok hs
          exact step false u ru (by rw [← this]; exact fun h => hne h.symm) l2
        · rw [if_neg hs]
          exact step true t rt (by rintro rfl; exact hs (by simp [Edge.same])) l1
      · rw [if_neg hlt]
        refine SatOk.half v hvr false (ih w hδ r hz (fun y hy => hv y (by simp [hy])) ha'.2 (by omega)
          (by omega) (b := s.ord.lvl v + 1) (by omega) (fun y hy => ha'.1 y hy)) (by omega) (by omega)
          (hb' v (by simp)) (fun _ _ h => h) (Or.inr (by simp)) (fun _ h => h)
          (fun y hy => by simp [hy]) (fun y hy => List.mem_cons.1 hy)

namespace Mgr

variable {own : Nat → Nat} {m : Mgr} {lk : Bool} {E : Env}

/-- One more reference to the constant changes nothing: its count is saturated. -/
theorem Inv.bump_one (i : m.Inv own lk) : m.Inv (bump own 1) lk := by
  obtain ⟨Γ, leak, hl, i⟩ := i
  refine ⟨Γ, leak, hl, { i with ut := { i.ut with cnt := ?_, own0 := ?_ } }⟩
  · intro a ha
    by_cases h : a = 1
    · subst h; exact Or.inl i.ut.one_ref
    · simp only [bump, upd_ne _ _ h]; exact i.ut.cnt a ha
  · intro a ha
    by_cases h : a = 1
    · subst h; rw [i.ut.one] at ha; cases ha
    · simp only [bump, upd_ne _ _ h]; exact i.ut.own0 a ha

/-- What the two functions return for the constant false. -/
theorem satisfy_zero (i : m.Inv own lk) {f} (hf : Den m f fun _ => false) :
    Res own lk false 0 m (some (m, f)) (fun _ => false) := by
  have : f = ⟨1, true⟩ := (handle_eq i hf (const_den i true)).2 (by simp)
  subst this
  exact ⟨m, _, rfl, .refl _ _, Or.inl ⟨fun h => absurd (congrArg Ptr.addr h) (by decide), i.bump_one, hf⟩⟩

/-- What the result of the two functions is, for a satisfiable `F`: a cube `L` that implies it,
satisfiable, with all variables in `vs`; other variables only if `F` depends on them. -/
structure SatCube (numVars : Nat) (F : BFn) (vs : Nat → Prop) (L : List (Nat × Bool)) : Prop where
  imp : ∀ ρ, cubeOf L ρ = true → F ρ = true
  nodup : (L.map (·.1)).Nodup
  rng : ∀ l ∈ L, 1 ≤ l.1 ∧ l.1 ≤ numVars
  dep : ∀ l ∈ L, ¬ Indep F l.1 ∨ vs l.1
  all : ∀ v, vs v → v ∈ L.map (·.1)

theorem satRun_ok (i : m.Inv own lk) {F : BFn} {vs out}
    (h : ∀ δ, Lab m.st δ → SatOk m.st δ 0 F vs out) :
    ∃ L, RunOk own lk 0 m (m.onStore out) (cubeOf L) ∧ SatLits m.st.ord 0 F vs L := by
  obtain ⟨δ, hδ⟩ := i.wf.exists_lab
  obtain ⟨s', r, δ', L, h1, h2, h3, h4, h5, h6, h7, h8, h9⟩ := h δ hδ
  obtain ⟨Γ, leak, hl, ii⟩ := i
  refine ⟨L, ⟨{ m with st := s' }, r, by rw [h1]; rfl,
    ⟨Γ, leak, hl, ii.core h2 h3 h7 (ii.ca.mono h3)⟩, core_pres (c' := m.ca) h3, ?_⟩, h9⟩
  rw [← h8]; exact h5.rep h2 h4

theorem satisfy_ok (S : E.Sound) (i : m.Inv own lk) {f F} (lf : UTab.Live own f) (hf : Den m f F) :
    ((F = fun _ => false) → Res own lk false 0 m (m.satisfy E f) F) ∧
    ((F ≠ fun _ => false) → ∃ L, Res own lk false 0 m (m.satisfy E f) (cubeOf L) ∧
      SatCube m.numVars F (fun _ => False) L) := by
  obtain ⟨m1, h1, i1, p1⟩ := preProc_ok S i (forall1 lf)
  have d1 := p1.fns f lf F hf
  obtain ⟨e, he, r⟩ := d1
  have hz := r.same_zero_iff i1.wf
  constructor
  · intro h0
    simp only [satisfy, h1, internal, he, Option.map_some]
    rw [if_pos (hz.2 h0)]
    subst h0
    have := Res.pre p1 (satisfy_zero i1 ⟨e, he, r⟩)
    simpa using this
  · intro h0
    simp only [satisfy, h1, internal, he, Option.map_some]
    rw [if_neg (fun h => h0 (hz.1 h))]
    obtain ⟨L, ⟨m2, x, h2, i2, p2, r2⟩, SL⟩ := satRun_ok i1 (F := F) (vs := [])
      (out := satisfyStep (m1.st.ord.numVars + 1) m1.st (e.phase f.neg)) fun δ hδ =>
        satisfyStep_ok _ i1.wf hδ r (fun h => h0 (hz.1 (by rw [h]; simp [Edge.same]))) (by omega)
          (by omega) (by omega)
    refine ⟨L, ?_, SL.imp, SL.nodup, fun l hl => ?_, fun l hl => ?_, fun _ h => h.elim⟩
    · rw [h2]
      have := Res.pre (p1.trans p2) (extern_ok i2 r2)
      simpa using this
    · have := (SL.rng l hl).1
      rw [p1.nv] at this; exact this
    · rcases SL.dep l hl with h | h
      · exact Or.inl h
      · simp at h

theorem satisfySupport_ok (S : E.Sound) (i : m.Inv own lk) {A} (hA : m.assoc m.cur = some A) {f F}
    (lf : UTab.Live own f) (hf : Den m f F) :
    ((F = fun _ => false) → Res own lk false 0 m (m.satisfySupport E f) F) ∧
    ((F ≠ fun _ => false) → ∃ L, Res own lk false 0 m (m.satisfySupport E f) (cubeOf L) ∧
      SatCube m.numVars F A.dom L) := by
  obtain ⟨m1, h1, i1, p1⟩ := preProc_ok S i (forall1 lf)
  have d1 := p1.fns f lf F hf
  obtain ⟨e, he, r⟩ := d1
  have hz := r.same_zero_iff i1.wf
  obtain ⟨A', hA', q⟩ := p1.assoc_eqv hA
  rw [← p1.cur] at hA'
  constructor
  · intro h0
    simp only [satisfySupport, h1, internal, he, Option.map_some, hA']
    rw [if_pos (hz.2 h0)]
    subst h0
    have := Res.pre p1 (satisfy_zero i1 ⟨e, he, r⟩)
    simpa using this
  · intro h0
    simp only [satisfySupport, h1, internal, he, Option.map_some, hA']
    rw [if_neg (fun h => h0 (hz.1 h))]
    have mem := supportIds_mem i1.wf.ord A'
    have srt := supportIds_sorted i1.wf.ord A'
    revert mem srt
    generalize supportIds m1.st.ord A' = vs
    intro mem srt
    obtain ⟨L, ⟨m2, x, h2, i2, p2, r2⟩, SL⟩ := satRun_ok i1 (F := F) (vs := vs)
      (out := satisfySupportStep (m1.st.ord.numVars + 1 + vs.length) m1.st (e.phase f.neg) vs)
        fun δ hδ =>
        satisfySupportStep_ok _ i1.wf hδ r (fun h => h0 (hz.1 (by rw [h]; simp [Edge.same])))
          (fun v hv => ((mem v).1 hv).1) srt (by omega) (by omega) (by omega) (fun _ _ => by omega)
    have dom : ∀ v, v ∈ vs ↔ A.dom v := by
      intro v
      rw [mem v, ← q.domEq]
      constructor
      · exact fun h => Option.isSome_iff_ne_none.2 h.2
      · intro h
        have ⟨Γ, leak, _, ig⟩ := i1
        exact ⟨(ig.assoc_aok hA').ok.rng v h, Option.isSome_iff_ne_none.1 h⟩
    refine ⟨L, ?_, SL.imp, SL.nodup, fun l hl => ?_, fun l hl => ?_, fun v h => SL.all v ((dom v).2 h)⟩
    · rw [h2]
      have := Res.pre (p1.trans p2) (extern_ok i2 r2)
      simpa using this
    · have := (SL.rng l hl).1
      rw [p1.nv] at this; exact this
    · rcases SL.dep l hl with h | h
      · exact Or.inl h
      · exact Or.inr ((dom _).1 h)

end Mgr

end Cal
