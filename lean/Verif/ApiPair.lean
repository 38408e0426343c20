import Verif.ApiReduce

/-! The pairwise operations (calBddOp.c:247-352, 677-729). -/

namespace Cal

/-- elements 2i and 2i+1 -/
def pairsOf {α : Type} : List α → List (α × α)
  | x :: y :: l => (x, y) :: pairsOf l
  | _ => []

namespace Mgr

/-- `Cal_BddFree` (cal.c:255-260) on each handle -/
def freeAll : Mgr → List Handle → Option Mgr
  | m, [] => some m
  | m, h :: hs =>
    match m.free h with
    | none => none
    | some m' => freeAll m' hs

/-- The value of a result (`CalRequestIsForwardedTo`, calBddOp.c:720-722) is a BDD. -/
def isBdd (s : Store) (e : Edge) : Bool := e.addr == 0 || (s.heap e.addr).isSome

/-- `Cal_BddPairwiseAnd` (with `post`, calBddOp.c:247-286), `Cal_BddPairwiseOr`, `Cal_BddPairwiseXor`
(without, calBddOp.c:290-352), on the array up to its terminating null. The inner `none` is the null
pointer. `BddArrayOpBF` can leave requests unprocessed: such a request node, still in the queue, is then
taken for a BDD, `none`. -/
def pairwise (E : Env) (op : Edge → Edge → Option Edge) (post : Bool) (m : Mgr) (hs : List Handle) :
    Option (Mgr × Option (List Handle)) :=
  match m.arrayPreProc E hs with
  | none => none
  | some (m1, false) => some (m1, none)
  | some (m1, true) =>
    if hs.length = 0 ∨ hs.length % 2 ≠ 0 then some (m1, none)
    else
      match m1.internals hs with
      | none => none
      | some es =>
        match arrayOpBF op m1.st (pairsOf es) with
        | none => none
        | some (b, rs) =>
          if rs.all (isBdd b.st) then
            let p := ({ m1 with st := b.st } : Mgr).externals rs
            if post then
              match p.1.postProc E with
              | none => none
              | some (m2, false) => some (m2, some p.2)
              | some (m2, true) =>
                match m2.freeAll p.2 with
                | none => none
                | some m3 =>
                  match m3.gc with
                  | none => none
                  | some m4 => some (m4, some (p.2.map fun _ => Handle.null))
            else some (p.1, some p.2)
          else none

end Mgr

/-! ## The array operation -/

/-- the start level of the array operation: that of the last pair that is not a terminal case -/
def lastLo (op : Edge → Edge → Option Edge) (o : Order) : List (Edge × Edge) → Nat → Nat
  | [], lo => lo
  | p :: ps, lo =>
    match op p.1 p.2 with
    | some _ => lastLo op o ps lo
    | none => lastLo op o ps (o.lvl (minId2 o p))

variable {op : Edge → Edge → Option Edge} {fn : Bool → Bool → Bool}

theorem arrayInsert_spec (law : BinLaw op fn) {R : BF (Edge × Edge) → Prop}
    (kept : BF.Kept (binSem law) R) {s : Store} (w : s.WF) {δ0 : Nat → BFn} (h0 : Lab s δ0) :
    ∀ (ps : List (Edge × Edge)) (b : BF (Edge × Edge)) (δ : Nat → BFn) (lo : Nat),
    (∀ p ∈ ps, s.EOK p.1 ∧ s.EOK p.2) → BF.Fresh (binSem law) ⟨1, 0⟩ b → BF.BLab (binSem law) b δ →
    R b → s.Le b.st → (∀ a, (a = 0 ∨ s.heap a ≠ none) → δ a = δ0 a) →
    ∃ b' rs δ', arrayInsert op ps b lo = some (b', rs, lastLo op s.ord ps lo) ∧
      BF.Fresh (binSem law) ⟨1, 0⟩ b' ∧ BF.BLab (binSem law) b' δ' ∧ R b' ∧ b.Le b' ∧ b.Agree δ δ' ∧
      F2 (fun e f => b'.EV 1 e ∧ den δ' e = f) rs
        (ps.map fun p ρ => fn (den δ0 p.1 ρ) (den δ0 p.2 ρ)) ∧
      ∀ a r, b'.req a = some r → b.req a = some r ∨
        ∃ p ∈ ps, op p.1 p.2 = none ∧ s.ord.lvl (minId2 s.ord p) ≤ s.ord.lvl r.id
  | [], b, δ, lo, _, fr, bl, hR, _, _ =>
    ⟨b, [], δ, rfl, fr, bl, hR, BF.Le.refl b, BF.Agree.refl b δ, .nil, fun _ _ h => Or.inl h⟩
  | (f, g) :: ps, b, δ, lo, hok, fr, bl, hR, hle, hag => by
    obtain ⟨hf, hg⟩ := hok (f, g) (by simp)
    have hok' : ∀ p ∈ ps, s.EOK p.1 ∧ s.EOK p.2 := fun p hp => hok p (by simp [hp])
    have hus : ∀ a, (a = 0 ∨ s.heap a ≠ none) → b.Used a := by
      intro a ha
      rcases ha with ha | ha
      · exact Or.inl ha
      · refine Or.inr (Or.inl ?_)
        cases hn : s.heap a with
        | none => exact absurd hn ha
        | some n => rw [hle.heap a n hn]; simp
    have hd : ∀ {e}, s.EOK e → den δ e = den δ0 e := by
      intro e he
      unfold den
      rw [hag]
      rcases he with ⟨_, h⟩ | ⟨n, h, _⟩
      · exact Or.inl h
      · exact Or.inr (by rw [h]; simp)
    cases hop : op f g with
    | some r =>
      obtain ⟨b2, rs, δ2, h2, fr2, bl2, hR2, le2, ag2, row2, nw2⟩ :=
        arrayInsert_spec law kept w h0 ps b δ lo hok' fr bl hR hle hag
      obtain ⟨h3, h4⟩ := law.hit δ f g r (by rw [hag 0 (Or.inl rfl)]; exact h0.const) (hf.good w) (hg.good w) hop
      have er : s.EOK r := by
        rcases h4 with rfl | rfl | ⟨o, ho, rfl | rfl⟩
        · exact Store.EOK_one _
        · exact Store.EOK_zero _
        · simp only [List.mem_cons, List.not_mem_nil, or_false] at ho
          rcases ho with rfl | rfl <;> assumption
        · simp only [List.mem_cons, List.not_mem_nil, or_false] at ho
          rcases ho with rfl | rfl
          · exact hf.not
          · exact hg.not
      have ev : b.EV 1 r := Or.inl (Store.EOK.mono hle er)
      refine ⟨b2, r :: rs, δ2, ?_, fr2, bl2, hR2, le2, ag2, ?_, ?_⟩
      · simp only [arrayInsert, hop, h2, lastLo]
      · refine .cons ⟨ev.mono le2, ?_⟩ row2
        rw [ag2.den ev]
        funext ρ
        rw [← h3 ρ, hd hf, hd hg]
      · intro a q hq
        rcases nw2 a q hq with h | ⟨p, hp, h⟩
        · exact Or.inl h
        · exact Or.inr ⟨p, by simp [hp], h⟩
    | none =>
      have hm := law.miss f g hop
      have ho : b.st.ord = s.ord := hle.ord
      have hmin : ∀ x ∈ (binSem law).ops (f, g), b.EV 0 x ∧
          b.st.ord.lvl (minId2 b.st.ord (f, g)) ≤ b.st.ord.lvl x.id := by
        intro x hx
        have hx' : x = f ∨ x = g := by simpa [binSem] using hx
        constructor
        · rcases hx' with rfl | rfl
          · exact Or.inl (Store.EOK.mono hle hf)
          · exact Or.inl (Store.EOK.mono hle hg)
        · simp only [minId2]
          rcases hx' with rfl | rfl <;> split <;> omega
      obtain ⟨b1, r, δ1, h1, sh1, bl1, le1, ag1, ev1, lv1, dn1, -, nw, -⟩ :=
        BF.findOrAddReq_core fr.shape bl (κ := b.st.ord.lvl (minId2 b.st.ord (f, g))) (d := 0)
          (fun a r hr _ => fr.pend a r hr) ⟨f, by simp [binSem], hm.1⟩ hmin
      have h1' : b.findOrAddReq 0 (minId2 b.st.ord (f, g)) (f, g) = some (b1, r) := h1
      have fr1 : BF.Fresh (binSem law) ⟨1, 0⟩ b1 := by
        refine ⟨sh1, ?_, fun _ _ _ => Nat.zero_le _, ?_⟩
        · intro a rq hrq
          rcases nw a rq hrq with h | ⟨h, _⟩
          · exact fr.dep_lt a rq h
          · simp [h]
        · intro a rq hrq
          rcases nw a rq hrq with h | ⟨_, _, h⟩
          · exact fr.pend a rq h
          · exact h
      have hR1 := kept.findOrAddReq fr.shape hR h1
      obtain ⟨b2, rs, δ2, h2, fr2, bl2, hR2, le2, ag2, row2, nw2⟩ :=
        arrayInsert_spec law kept w h0 ps b1 δ1 (s.ord.lvl (minId2 s.ord (f, g))) hok' fr1 bl1 hR1
          (hle.trans le1.st) (fun a ha => by rw [ag1 a (hus a ha), hag a ha])
      rw [← ho] at h2
      refine ⟨b2, r :: rs, δ2, ?_, fr2, bl2, hR2, le1.trans le2, ag1.trans le1 ag2, ?_, ?_⟩
      · simp only [arrayInsert, hop, h1', h2, lastLo, ← ho]
      · refine .cons ⟨ev1.mono le2, ?_⟩ row2
        rw [ag2.den ev1, dn1]
        simp only [binSem, hd hf, hd hg]
      · intro a q hq
        rcases nw2 a q hq with h | ⟨p, hp, h⟩
        · rcases nw a q h with h | ⟨-, h, -⟩
          · exact Or.inl h
          · refine Or.inr ⟨(f, g), by simp, hop, ?_⟩
            have : b1.st.ord = s.ord := by rw [le1.st.ord, ho]
            rw [this, ho] at h
            exact h
        · exact Or.inr ⟨p, by simp [hp], h⟩

/-- `BddArrayOpBF` when no pair starts above the last one that is not a terminal case. -/
theorem arrayOpBF_lab (law : BinLaw op fn) {s : Store} (w : s.WF) {δ} (hδ : Lab s δ)
    {ps : List (Edge × Edge)} (hok : ∀ p ∈ ps, s.EOK p.1 ∧ s.EOK p.2)
    (hlo : ∀ p ∈ ps, op p.1 p.2 = none → lastLo op s.ord ps 0 ≤ s.ord.lvl (minId2 s.ord p)) :
    ∃ b rs δ', arrayOpBF op s ps = some (b, rs) ∧ BF.Idle b ∧ b.st.WF ∧ s.Le b.st ∧ Lab b.st δ' ∧
      F2 (fun e f => b.st.EOK e ∧ den δ' e = f) rs (ps.map fun p ρ => fn (den δ p.1 ρ) (den δ p.2 ρ)) ∧
      s.Keep b.st := by
  have idle : BF.Idle (BF.init s : BF (Edge × Edge)) := BF.init_idle s
  obtain ⟨b, rs, δ1, h1, fr, bl, hR, le, ag, rows, nw⟩ :=
    arrayInsert_spec law (BF.keep_kept (S := binSem law) s) w hδ ps (BF.init s) δ 0 hok
      (idle.fresh w _) (idle.blab hδ) (BF.Keep.init s) (Store.Le.refl s) (fun _ _ => rfl)
  have fr' : BF.Fresh (binSem law) ⟨1, lastLo op s.ord ps 0⟩ b := by
    refine ⟨fr.shape, fr.dep_lt, ?_, fr.pend⟩
    intro a r hr
    rcases nw a r hr with h | ⟨p, hp, h2, h3⟩
    · rw [idle.req] at h; cases h
    · have ho : b.st.ord = s.ord := le.st.ord
      show _ ≤ b.st.ord.lvl r.id
      rw [ho]
      exact Nat.le_trans (hlo p hp h2) h3
  obtain ⟨b', δ', h2, sh, af, hdep, hl, bl', le', ag', hR'⟩ :=
    BF.run_ok (BF.keep_kept (S := binSem law) s) fr' bl hR
  have ho : b'.st.ord = s.ord := by rw [le'.st.ord]; exact le.st.ord
  obtain ⟨w', idle', sn⟩ := BF.clean_ok sh hdep hl
  rw [ho] at w' idle' sn
  refine ⟨_, _, δ', by simp only [arrayOpBF, h1, h2]; rfl, idle', w', ?_, bl'.lab.congr sn.heap, ?_,
    hR'.final af sn⟩
  · exact (Store.Le.trans le.st le'.st).congr sn.heap sn.ord
  · apply forall₂_map_left
    refine forall₂_imp ?_ rows
    rintro e f ⟨he, hf⟩
    obtain ⟨ok, dn⟩ := BF.forward_final sh af bl' (he.mono le')
    exact ⟨ok.congr sn.heap, by rw [dn, ag'.den he, hf]⟩

/-! ## In terms of functions -/

/-- The operation on these two functions needs no recursion: one of them is constant, or they are equal
or complements of each other. -/
def Decided (F G : BFn) : Prop :=
  (∃ b, F = fun _ => b) ∨ (∃ b, G = fun _ => b) ∨ F = G ∨ F = fun ρ => !G ρ

/-- The pair `p` has a variable at or above every variable of the pair `q`. -/
def StartsAbove (o : Order) (p q : BFn × BFn) : Prop :=
  ∀ v, ¬ (Indep q.1 v ∧ Indep q.2 v) → ∃ u, ¬ (Indep p.1 u ∧ Indep p.2 u) ∧ o.lvl u ≤ o.lvl v

/-- The last pair that is not decided at once has a variable at or above those of all the others. -/
def LastFirst (o : Order) (Ps : List (BFn × BFn)) : Prop :=
  ∀ l p r, Ps = l ++ p :: r → ¬ Decided p.1 p.2 → (∀ q ∈ r, Decided q.1 q.2) →
    ∀ q ∈ l, ¬ Decided q.1 q.2 → StartsAbove o p q

/-- The terminal cases of an operation are the pairs that are decided. -/
def Terminal (op : Edge → Edge → Option Edge) : Prop :=
  ∀ f g : Edge, op f g = none ↔ f.isConst = false ∧ g.isConst = false ∧ f.addr ≠ g.addr

theorem opAnd_terminal : Terminal opAnd := by
  intro f g
  unfold opAnd
  cases f.isConst <;> cases g.isConst <;> simp
  split <;> simp_all

theorem opOr_terminal : Terminal opOr := by
  intro f g
  unfold opOr
  cases f.isConst <;> cases g.isConst <;> simp
  split <;> simp_all

theorem opXor_terminal : Terminal opXor := by
  intro f g
  unfold opXor
  cases f.isConst <;> cases g.isConst <;> simp
  split <;> simp_all

theorem Terminal.decided (t : Terminal op) {s : Store} (w : s.WF) {f g F G} (rf : Rep s f F)
    (rg : Rep s g G) : op f g = none ↔ ¬ Decided F G := by
  rw [t f g]
  have cst : ∀ {e X}, Rep s e X → (e.isConst = true ↔ ∃ b, X = fun _ => b) := by
    intro e X r
    have := r.const_iff w
    simp only [Edge.isConst, beq_iff_eq, this]
    constructor
    · rintro (h | h)
      · exact ⟨_, h⟩
      · exact ⟨_, h⟩
    · rintro ⟨b, h⟩
      cases b
      · exact Or.inr h
      · exact Or.inl h
  constructor
  · rintro ⟨h1, h2, h3⟩ (h | h | h | h)
    · rw [(cst rf).2 h] at h1; cases h1
    · rw [(cst rg).2 h] at h2; cases h2
    · subst h
      exact h3 (by rw [canonical w rf rg])
    · have := rg.not
      rw [← h] at this
      exact h3 (by rw [canonical w rf this]; rfl)
  · intro h
    have h1 : f.isConst = false := by
      cases hc : f.isConst
      · rfl
      · exact absurd (Or.inl ((cst rf).1 hc)) h
    have h2 : g.isConst = false := by
      cases hc : g.isConst
      · rfl
      · exact absurd (Or.inr (Or.inl ((cst rg).1 hc))) h
    refine ⟨h1, h2, fun ha => h ?_⟩
    simp only [Edge.isConst, beq_eq_false_iff_ne, ne_eq] at h1 h2
    obtain ⟨n, hn, hv⟩ := rf.eok.node w h1
    obtain ⟨n', hn', hv'⟩ := rg.eok.node w h2
    rw [ha, hn'] at hn
    cases hn
    obtain ⟨i, a, x⟩ := f
    obtain ⟨i', a', x'⟩ := g
    simp only at ha hv hv'
    subst ha hv hv'
    right; right
    by_cases hx : x = x'
    · subst hx
      exact Or.inl (rf.unique w rg)
    · right
      have : x = !x' := by cases x <;> cases x' <;> simp at hx ⊢
      subst this
      exact rf.unique w rg.not

theorem lastLo_spec (t : Terminal op) {s : Store} (w : s.WF) {ps : List (Edge × Edge)}
    {Ps : List (BFn × BFn)} (h : F2 (fun p P => Rep s p.1 P.1 ∧ Rep s p.2 P.2) ps Ps) (lo : Nat) :
    (lastLo op s.ord ps lo = lo ∧ ∀ P ∈ Ps, Decided P.1 P.2) ∨
    ∃ l p P r, Ps = l ++ P :: r ∧ ¬ Decided P.1 P.2 ∧ (∀ q ∈ r, Decided q.1 q.2) ∧
      Rep s p.1 P.1 ∧ Rep s p.2 P.2 ∧ op p.1 p.2 = none ∧
      lastLo op s.ord ps lo = s.ord.lvl (minId2 s.ord p) := by
  induction h generalizing lo with
  | nil => left; exact ⟨rfl, by simp⟩
  | @cons p P ps Ps hp _ ih =>
    have hd := t.decided w hp.1 hp.2
    cases hop : op p.1 p.2 with
    | some r =>
      have hdec : Decided P.1 P.2 := by
        apply Classical.byContradiction
        intro hn
        rw [hd.2 hn] at hop; cases hop
      simp only [lastLo, hop]
      rcases ih lo with ⟨h1, h2⟩ | ⟨l, p', P', r', e, h1, h2, h3⟩
      · left
        refine ⟨h1, fun Q hQ => ?_⟩
        simp only [List.mem_cons] at hQ
        rcases hQ with rfl | hQ
        · exact hdec
        · exact h2 Q hQ
      · right
        exact ⟨P :: l, p', P', r', by rw [e]; rfl, h1, h2, h3⟩
    | none =>
      simp only [lastLo, hop]
      rcases ih (s.ord.lvl (minId2 s.ord p)) with ⟨h1, h2⟩ | ⟨l, p', P', r', e, h1, h2, h3⟩
      · right
        exact ⟨[], p, P, Ps, rfl, hd.1 hop, h2, hp.1, hp.2, hop, h1⟩
      · right
        exact ⟨P :: l, p', P', r', by rw [e]; rfl, h1, h2, h3⟩

theorem minId2_top {s : Store} (w : s.WF) {p : Edge × Edge} {P : BFn × BFn} (r1 : Rep s p.1 P.1)
    (r2 : Rep s p.2 P.2) {v} (h : ¬ (Indep P.1 v ∧ Indep P.2 v)) :
    s.ord.lvl (minId2 s.ord p) ≤ s.ord.lvl v := by
  apply Classical.byContradiction
  intro hlt
  apply h
  have hm : s.ord.lvl (minId2 s.ord p) ≤ s.ord.lvl p.1.id ∧ s.ord.lvl (minId2 s.ord p) ≤ s.ord.lvl p.2.id := by
    simp only [minId2]; split <;> omega
  exact ⟨r1.indep w v (by omega), r2.indep w v (by omega)⟩

theorem minId2_dep {s : Store} (w : s.WF) {p : Edge × Edge} {P : BFn × BFn} (r1 : Rep s p.1 P.1)
    (r2 : Rep s p.2 P.2) (h1 : p.1.id ≠ 0) (h2 : p.2.id ≠ 0) :
    ¬ (Indep P.1 (minId2 s.ord p) ∧ Indep P.2 (minId2 s.ord p)) := by
  rintro ⟨a, b⟩
  simp only [minId2] at a b
  split at a
  · exact r1.dep w h1 a
  · rename_i hc
    rw [if_neg hc] at b
    exact r2.dep w h2 b

/-- the condition on the start level, from the condition on the functions -/
theorem lastLo_le (t : Terminal op) (law : BinLaw op fn) {s : Store} (w : s.WF) {ps : List (Edge × Edge)}
    {Ps : List (BFn × BFn)} (h : F2 (fun p P => Rep s p.1 P.1 ∧ Rep s p.2 P.2) ps Ps)
    (hl : LastFirst s.ord Ps) :
    ∀ p ∈ ps, op p.1 p.2 = none → lastLo op s.ord ps 0 ≤ s.ord.lvl (minId2 s.ord p) := by
  rcases lastLo_spec t w h 0 with ⟨h1, -⟩ | ⟨l, q, Q, r, e, hn, hr, r1, r2, hq, hlo⟩
  · intro p _ _; omega
  · intro p hp hop
    rw [hlo]
    have : ∃ P ∈ Ps, Rep s p.1 P.1 ∧ Rep s p.2 P.2 := by
      clear e hlo hl
      induction h with
      | nil => cases hp
      | cons hh _ ih =>
        simp only [List.mem_cons] at hp
        rcases hp with rfl | hp
        · exact ⟨_, by simp, hh⟩
        · obtain ⟨P, hP, h⟩ := ih hp
          exact ⟨P, by simp [hP], h⟩
    obtain ⟨P, hP, p1, p2⟩ := this
    have hPn := (t.decided w p1 p2).1 hop
    obtain ⟨m1, m2⟩ := law.miss _ _ hop
    rw [e, List.mem_append, List.mem_cons] at hP
    have up : StartsAbove s.ord Q P → s.ord.lvl (minId2 s.ord q) ≤ s.ord.lvl (minId2 s.ord p) := by
      intro sa
      obtain ⟨u, hu, hle⟩ := sa _ (minId2_dep w p1 p2 m1 m2)
      exact Nat.le_trans (minId2_top w r1 r2 hu) hle
    rcases hP with hP | rfl | hP
    · exact up (hl l Q r e hn hr P hP hPn)
    · exact up fun v hv => ⟨v, hv, Nat.le_refl _⟩
    · exact absurd (hr P hP) hPn

namespace Mgr

variable {own : Nat → Nat} {m : Mgr} {lk : Bool} {E : Env}

/-- references to all of the handles -/
def bumps (own : Nat → Nat) (hs : List Handle) : Nat → Nat := hs.foldl (fun o h => bump o h.addr) own

theorem bumps_apply (hs : List Handle) : ∀ (own : Nat → Nat) (x : Nat),
    bumps own hs x = own x + (hs.filter fun h => h.addr == x).length := by
  induction hs with
  | nil => intro own x; rfl
  | cons h hs ih =>
    intro own x
    show bumps (bump own h.addr) hs x = _
    rw [ih]
    by_cases hx : h.addr = x
    · subst hx; simp [bump]; omega
    · have : x ≠ h.addr := fun h' => hx h'.symm
      simp [bump, upd_ne _ _ this, hx]

theorem live_bumps {hs : List Handle} {h : Handle} (l : UTab.Live own h) : UTab.Live (bumps own hs) h := by
  rcases l with l | l
  · exact Or.inl l
  · right; rw [bumps_apply]; omega

theorem bumps_mem {hs : List Handle} {h : Handle} (hm : h ∈ hs) : UTab.Live (bumps own hs) h := by
  right
  rw [bumps_apply]
  have : 0 < (hs.filter fun g => g.addr == h.addr).length :=
    List.length_pos_of_mem (List.mem_filter.2 ⟨hm, by simp⟩)
  omega

theorem freeAll_ok {own : Nat → Nat} : ∀ (hs : List Handle) {m : Mgr}, m.Inv (bumps own hs) lk →
    ∃ m', m.freeAll hs = some m' ∧ m'.Inv own lk ∧ Pres own 0 m m' ∧ m'.overflow = m.overflow ∧
      m'.nodeLimit = m.nodeLimit
  | [], m, i => ⟨m, rfl, i, .refl _ _, rfl, rfl⟩
  | h :: hs, m, i => by
    obtain ⟨Γ, leak, hl, i⟩ := i
    obtain ⟨m1, h1, i1, p1, -, -, o1⟩ := i.free (h := h) (by
      rw [bumps_apply]; simp; omega)
    have e : upd (bumps own (h :: hs)) h.addr (bumps own (h :: hs) h.addr - 1) = bumps own hs := by
      funext x
      by_cases hx : x = h.addr
      · subst hx; simp [bumps_apply]
      · have : ¬ h.addr = x := fun h' => hx h'.symm
        simp [upd_ne _ _ hx, bumps_apply, this]
    rw [e] at i1
    obtain ⟨m2, h2, i2, p2, o2, l2⟩ := freeAll_ok hs ⟨Γ, leak, hl, i1⟩
    exact ⟨m2, by simp only [freeAll, h1, h2], i2, (p1.weaken fun _ => live_bumps).trans p2,
      by rw [o2, o1], by rw [l2, p1.nodeLimit]⟩

/-- functions of the pairs -/
theorem pairs_rep {s : Store} : ∀ {es : List Edge} {Fs : List BFn}, F2 (Rep s) es Fs →
    F2 (fun p P => Rep s p.1 P.1 ∧ Rep s p.2 P.2) (pairsOf es) (pairsOf Fs)
  | _, _, .nil => .nil
  | _, _, .cons _ .nil => .nil
  | _, _, .cons h1 (.cons h2 h) => .cons ⟨h1, h2⟩ (pairs_rep h)

theorem isBdd_of {s : Store} {e : Edge} (h : s.EOK e) : isBdd s e = true := by
  rcases h with h | ⟨n, h, _⟩
  · simp [isBdd, h.2]
  · simp [isBdd, h]

/-- What the pairwise operations give. -/
theorem pairwise_ok (S : E.Sound) (i : m.Inv own lk) {op fn} (law : BinLaw op fn) (t : Terminal op)
    (post : Bool) {hs : List Handle} {Fs : List BFn} (hl : ∀ h ∈ hs, UTab.Live own h)
    (hd : F2 (Den m) hs Fs) (hn : hs.length ≠ 0) (he : hs.length % 2 = 0)
    (hf : ∀ o : Order, (m.technique = 0 → o = m.st.ord) → LastFirst o (pairsOf Fs)) :
    ∃ m' rs, m.pairwise E op post hs = some (m', some rs) ∧ Pres own 0 m m' ∧
      ((m'.Inv (bumps own rs) lk ∧ (∀ h ∈ rs, h ≠ Handle.null) ∧
        F2 (Den m') rs ((pairsOf Fs).map fun P ρ => fn (P.1 ρ) (P.2 ρ))) ∨
      (post = true ∧ (∀ h ∈ rs, h = Handle.null) ∧ rs.length = (pairsOf Fs).length ∧ m'.Inv own lk ∧
        m'.overflow = true ∧ m'.nodeLimit ≠ 0)) := by
  obtain ⟨m1, h1, i1, p1⟩ := arrayPreProc_ok S i hl
  obtain ⟨es, h2, r⟩ := internals_ok (p1.dens hl hd)
  have pr := pairs_rep r
  have hlo := lastLo_le t law i1.wf pr (hf m1.st.ord fun h => p1.ord h)
  obtain ⟨δ, hδ⟩ := i1.wf.exists_lab
  have hok : ∀ p ∈ pairsOf es, m1.st.EOK p.1 ∧ m1.st.EOK p.2 := by
    clear hlo hf
    intro p hp
    generalize pairsOf es = ps at *
    generalize pairsOf Fs = Ps at *
    induction pr with
    | nil => cases hp
    | cons hh _ ih =>
      simp only [List.mem_cons] at hp
      rcases hp with rfl | hp
      · exact ⟨hh.1.eok, hh.2.eok⟩
      · exact ih hp
  obtain ⟨b, rs, δ', h3, -, w, le, hδ', rows, k⟩ := arrayOpBF_lab law i1.wf hδ hok hlo
  have rr : F2 (Rep b.st) rs ((pairsOf Fs).map fun P ρ => fn (P.1 ρ) (P.2 ρ)) := by
    have e : ((pairsOf es).map fun p ρ => fn (den δ p.1 ρ) (den δ p.2 ρ)) =
        (pairsOf Fs).map fun P ρ => fn (P.1 ρ) (P.2 ρ) := by
      clear rows h3 hlo hok hf
      generalize pairsOf es = ps at *
      generalize pairsOf Fs = Ps at *
      induction pr with
      | nil => rfl
      | cons hh _ ih =>
        simp only [List.map_cons, ih]
        rw [hδ.rep_eq hh.1, hδ.rep_eq hh.2]
    rw [← e]
    refine forall₂_imp ?_ rows
    rintro x y ⟨a, rfl⟩
    exact hδ'.rep w a
  have hall : rs.all (isBdd b.st) = true := by
    rw [List.all_eq_true]
    intro x hx
    clear h3 rows
    generalize ((pairsOf Fs).map fun P ρ => fn (P.1 ρ) (P.2 ρ)) = Rs at rr
    induction rr with
    | nil => cases hx
    | cons hh _ ih =>
      simp only [List.mem_cons] at hx
      rcases hx with rfl | hx
      · exact isBdd_of hh.eok
      · exact ih hx
  have i2 : ({ m1 with st := b.st } : Mgr).Inv own lk := by
    obtain ⟨Γ, leak, hl, i1⟩ := i1
    exact ⟨Γ, leak, hl, i1.core w le k (i1.ca.mono le)⟩
  have p2 : Pres own 0 m1 { m1 with st := b.st } := core_pres (c' := m1.ca) le
  obtain ⟨i3, p3, nn, ds⟩ := externals_ok (m := { m1 with st := b.st }) i2 rr
  have p13 := (p1.trans p2).trans p3
  simp only [pairwise, h1]
  rw [if_neg (by omega)]
  simp only [h2, h3]
  rw [if_pos hall]
  cases post with
  | false => exact ⟨_, _, rfl, p13, Or.inl ⟨i3, nn, ds⟩⟩
  | true =>
    rw [if_pos rfl]
    obtain ⟨m4, o, h4, i4, p4, ho, -⟩ := postProc_ok S i3
    have ds4 := p4.dens (fun h hh => bumps_mem hh) ds
    simp only [h4]
    cases o with
    | false => exact ⟨_, _, rfl, p13.trans (p4.weaken fun _ => live_bumps), Or.inl ⟨i4, nn, ds4⟩⟩
    | true =>
      obtain ⟨o1, o2, -⟩ := ho rfl
      obtain ⟨m5, h5, i5, p5, o5, l5⟩ := freeAll_ok (own := own) _ i4
      obtain ⟨Γ, leak, hl5, i5⟩ := i5
      obtain ⟨m6, h6, i6, p6, -, o6, -⟩ := i5.gc
      simp only [h5, h6]
      refine ⟨_, _, rfl, p13.trans ((p4.weaken fun _ => live_bumps).trans (p5.trans p6)),
        Or.inr ⟨trivial, by simp, ?_, ⟨Γ, leak, hl5, i6⟩, by rw [o6, o5]; exact o1, ?_⟩⟩
      · have : ∀ {α β : Type} {R : α → β → Prop} {l m}, F2 R l m → l.length = m.length := by
          intro α β R l m h
          induction h with
          | nil => rfl
          | cons _ _ ih => simp [ih]
        rw [List.length_map, this ds, List.length_map]
      · rw [p6.nodeLimit, l5]; exact o2

end Mgr

end Cal
