import Verif.PipelineOk

/-!
# A whole pipeline

What the provisional BDDs of a pipeline stand for, doing the operations one at a time, and the proof
that a pipeline from `Cal_PipelineInit` to `Cal_PipelineQuit` computes just that.
-/

namespace Cal

/-! ## Specification -/

/-- What an operand denotes in a pipeline whose provisional BDDs so far stand for `Fs`. -/
inductive OpDen (m : Mgr) (Fs : List BFn) : POperand → BFn → Prop
  | bdd {h F} : Den m h F → OpDen m Fs (.bdd h) F
  | prov {j F} : Fs[j]? = some F → OpDen m Fs (.prov j false) F
  | not {j F} : Fs[j]? = some F → OpDen m Fs (.prov j true) fun ρ => !F ρ

/-- Doing the operations one at a time: the functions of the provisional BDDs, first `Fs`, then those
of `cs` in order. -/
inductive OneByOne (fn : Bool → Bool → Bool) (m : Mgr) :
    List BFn → List (POperand × POperand) → List BFn → Prop
  | nil {Fs} : OneByOne fn m Fs [] Fs
  | cons {Fs x y F G cs Gs} : OpDen m Fs x F → OpDen m Fs y G →
      OneByOne fn m (Fs ++ [fun ρ => fn (F ρ) (G ρ)]) cs Gs → OneByOne fn m Fs ((x, y) :: cs) Gs

/-- The level of an operand above BDDs: 0 for a BDD. `ls` are the levels of the provisional BDDs. -/
def POperand.level (ls : List Nat) : POperand → Option Nat
  | .bdd _ => some 0
  | .prov j _ => ls[j]?.map (· + 1)

/-- The levels of the provisional BDDs, or `none` if one refers to one that is not yet created. -/
def levels : List Nat → List (POperand × POperand) → Option (List Nat)
  | ls, [] => some ls
  | ls, (x, y) :: cs =>
    match x.level ls, y.level ls with
    | some a, some b => levels (ls ++ [max a b]) cs
    | _, _ => none

/-- an operand: a handle the user holds, or a provisional BDD -/
def POperand.Held (own : Nat → Nat) : POperand → Prop
  | .bdd h => UTab.Live own h
  | .prov _ _ => True

/-- No pipeline is open: after initialisation, and after `Cal_PipelineQuit` (calPipeline.c:291-316). -/
structure Pipe.Idle (p : Pipe) : Prop where
  state : p.state = .ready
  reqs : p.reqs = []
  lists : ∀ d, p.lists d = []
  res : ∀ j, p.res j = none
  pdepth : p.pdepth ≤ 1

/-- What the user has to respect with a pipeline: the operation is AND, OR or XOR; the operands are BDDs
that the user holds or provisional BDDs created before; no provisional BDD lies more than 255 levels above
BDDs; the BDDs updated have been created. -/
structure PipeLegal (own : Nat → Nat) (op : PipeOp) (cs : List (POperand × POperand))
    (us : List (Nat × Bool)) : Prop where
  op : op ≠ .other
  held : ∀ c ∈ cs, c.1.Held own ∧ c.2.Held own
  levels : ∃ ls, levels [] cs = some ls ∧ ∀ l ∈ ls, l < 256
  upd : ∀ u ∈ us, u.1 < cs.length

namespace Pipe

theorem init_idle : Pipe.init.Idle := ⟨rfl, rfl, fun _ => rfl, fun _ => rfl, Nat.le_refl _⟩

variable {own : Nat → Nat} {lk : Bool} {E : Env} {fn : Bool → Bool → Bool}
  {op : Edge → Edge → Option Edge}

/-! ## Creation -/

theorem getElem?_snoc {α : Type} {l : List α} {x y : α} {j : Nat} (h : (l ++ [x])[j]? = some y) :
    l[j]? = some y ∨ j = l.length ∧ y = x := by
  rw [List.getElem?_append] at h
  split at h
  · exact Or.inl h
  · rename_i hj
    have : j - l.length = 0 := by
      rcases Nat.eq_zero_or_pos (j - l.length) with h0 | h0
      · exact h0
      · rw [List.getElem?_eq_none (by simp; omega)] at h; cases h
    rw [this] at h
    simp only [List.getElem?_cons_zero, Option.some.injEq] at h
    exact Or.inr ⟨by omega, h.symm⟩

theorem getElem?_keep {α : Type} {l : List α} {x y : α} {j : Nat} (h : l[j]? = some y) :
    (l ++ [x])[j]? = some y := by
  rw [List.getElem?_append_left (List.getElem?_eq_some_iff.1 h).1]; exact h

theorem arg_ok {m : Mgr} {p : Pipe} {Fs : List BFn} (P : PInv own fn m p Fs 0) {x : POperand} {F}
    (hx : x.Held own) (h : OpDen m Fs x F) {a} (hl : x.level (p.reqs.map PReq.depth) = some a) :
    ∃ f, p.arg m x = some f ∧ p.argDepth f = a ∧ ∀ d, a ≤ d → ArgOK own m p Fs d f F := by
  have key : ∀ {j F'} (neg : Bool), Fs[j]? = some F' →
      (POperand.prov j neg).level (p.reqs.map PReq.depth) = some a →
      ∃ f, p.arg m (.prov j neg) = some f ∧ p.argDepth f = a ∧
        ∀ d, a ≤ d → ArgOK own m p Fs d f (if neg then BFn.not F' else F') := by
    intro j F' neg hj hl
    have hlt : j < p.reqs.length := by rw [P.len]; exact (List.getElem?_eq_some_iff.1 hj).1
    simp only [POperand.level, List.getElem?_map, Option.map_map, Option.map_eq_some_iff,
      Function.comp] at hl
    obtain ⟨r, h1, h2⟩ := hl
    refine ⟨.prov j neg, by simp only [arg, if_pos hlt], by simp only [argDepth, h1]; exact h2,
      fun d hd => ⟨r, F', h1, by omega, hj, rfl⟩⟩
  cases h with
  | bdd h =>
    rename_i y
    obtain ⟨e, h1, h2⟩ := h
    simp only [POperand.level, Option.some.injEq] at hl
    refine ⟨.bdd (e.phase y.neg), by simp only [arg, Mgr.internal, h1, Option.map_some], hl,
      fun d _ => ⟨y, hx, by simp only [Mgr.internal, h1, Option.map_some], e, h1, h2⟩⟩
  | prov h => exact key false h hl
  | not h => exact key true h hl

theorem ArgOK.snoc {m : Mgr} {p : Pipe} {Fs : List BFn} {d : Nat} {a : PArg} {F G : BFn} {r : PReq}
    {l pd} (h : ArgOK own m p Fs d a F) :
    ArgOK own m { p with reqs := p.reqs ++ [r], lists := l, pdepth := pd } (Fs ++ [G]) d a F := by
  cases a with
  | bdd e => exact h
  | prov i neg =>
    obtain ⟨r', F', h1, h2, h3, h4⟩ := h
    exact ⟨r', F', getElem?_keep h1, h2, getElem?_keep h3, h4⟩

/-- `Cal_PipelineCreateProvisionalBdd`. -/
theorem create_ok {m : Mgr} {p : Pipe} {Fs : List BFn} (P : PInv own fn m p Fs 0)
    (st : p.state = .create) (hp : p.pdepth ≤ 256) (hres : ∀ j, p.res j = none) {x y : POperand} {F G}
    (hx : x.Held own) (hy : y.Held own) (dx : OpDen m Fs x F) (dy : OpDen m Fs y G) {a b}
    (lx : x.level (p.reqs.map PReq.depth) = some a) (ly : y.level (p.reqs.map PReq.depth) = some b)
    (hab : max a b < 256) :
    ∃ p', p.create m x y = some (p', some p.reqs.length) ∧
      PInv own fn m p' (Fs ++ [fun ρ => fn (F ρ) (G ρ)]) 0 ∧ p'.state = .create ∧ p'.pdepth ≤ 256 ∧
      p'.op = p.op ∧ p'.depth = p.depth ∧ (∀ j, p'.res j = none) ∧ p'.reqs.map PReq.depth = p.reqs.map PReq.depth ++ [max a b] := by
  obtain ⟨f, f1, f2, f3⟩ := arg_ok P hx dx lx
  obtain ⟨g, g1, g2, g3⟩ := arg_ok P hy dy ly
  refine ⟨{ p with
      reqs := p.reqs ++ [⟨f, g, max a b⟩]
      lists := upd p.lists (max a b) (p.reqs.length :: p.lists (max a b))
      pdepth := if p.pdepth ≤ max a b then max a b + 1 else p.pdepth }, ?_,
    ?_, st, ?_, rfl, rfl, hres, by simp⟩
  · have hst : ¬ p.state ≠ .create := by simp [st]
    simp only [create, f1, g1, f2, g2]
    rw [if_neg hst, if_neg (by unfold maxInsertDepth; omega)]
  · have hfree : ∀ d, p.reqs.length ∉ p.lists d := by
      intro d hd
      obtain ⟨r, h1, -⟩ := (P.lists _ _).1 hd
      have := (List.getElem?_eq_some_iff.1 h1).1
      omega
    have hpd : p.pdepth ≤ (if p.pdepth ≤ max a b then max a b + 1 else p.pdepth) ∧
        max a b < (if p.pdepth ≤ max a b then max a b + 1 else p.pdepth) := by split <;> omega
    refine ⟨by simp [P.len], ?_, ?_, ?_, ?_, ?_, ?_⟩
    · intro d j
      simp only
      by_cases hd : d = max a b
      · subst hd
        rw [upd_same, List.mem_cons, P.lists]
        constructor
        · rintro (rfl | ⟨r, h1, h2⟩)
          · exact ⟨⟨f, g, max a b⟩, by simp, rfl⟩
          · exact ⟨r, getElem?_keep h1, h2⟩
        · rintro ⟨r, h1, h2⟩
          rcases getElem?_snoc h1 with h | ⟨h, -⟩
          · exact Or.inr ⟨r, h, h2⟩
          · exact Or.inl h
      · rw [upd_ne _ _ hd, P.lists]
        constructor
        · rintro ⟨r, h1, h2⟩
          exact ⟨r, getElem?_keep h1, h2⟩
        · rintro ⟨r, h1, h2⟩
          rcases getElem?_snoc h1 with h | ⟨-, rfl⟩
          · exact ⟨r, h, h2⟩
          · exact absurd h2.symm hd
    · intro d
      simp only
      by_cases hd : d = max a b
      · subst hd
        rw [upd_same]
        exact List.nodup_cons.2 ⟨hfree _, P.nodup _⟩
      · rw [upd_ne _ _ hd]; exact P.nodup d
    · intro j r h
      rcases getElem?_snoc h with h | ⟨-, rfl⟩
      · have := P.depth j r h
        simp only; omega
      · exact hpd.2
    · intro j r h
      rcases getElem?_snoc h with h | ⟨rfl, rfl⟩
      · obtain ⟨F', G', h1, h2, h3⟩ := P.fns j r h
        exact ⟨F', G', h1.snoc, h2.snoc, getElem?_keep h3⟩
      · refine ⟨F, G, (f3 _ (by simp only; omega)).snoc, (g3 _ (by simp only; omega)).snoc, ?_⟩
        rw [P.len]; simp
    · intro j r h _
      exact hres j
    · intro j r _ h
      omega
  · simp only
    split <;> omega

theorem creates_ok {m : Mgr} : ∀ (cs : List (POperand × POperand)) (p : Pipe) (Fs Gs : List BFn),
    PInv own fn m p Fs 0 → p.state = .create → p.pdepth ≤ 256 → (∀ j, p.res j = none) →
    (∀ c ∈ cs, c.1.Held own ∧ c.2.Held own) → OneByOne fn m Fs cs Gs →
    ∀ ls, levels (p.reqs.map PReq.depth) cs = some ls → (∀ l ∈ ls, l < 256) →
    ∃ p', p.creates m cs = some (p', true) ∧ PInv own fn m p' Gs 0 ∧ p'.state = .create ∧
      p'.pdepth ≤ 256 ∧ p'.op = p.op ∧ p'.depth = p.depth ∧ (∀ j, p'.res j = none) := by
  intro cs
  induction cs with
  | nil =>
    intro p Fs Gs P st hp hres _ hd ls _ _
    cases hd
    exact ⟨p, rfl, P, st, hp, rfl, rfl, hres⟩
  | cons c cs ih =>
    obtain ⟨x, y⟩ := c
    intro p Fs Gs P st hp hres hh hd ls hls hlt
    cases hd with
    | cons dx dy hd =>
      obtain ⟨hx, hy⟩ := hh (x, y) (by simp)
      simp only [levels] at hls
      cases lx : x.level (p.reqs.map PReq.depth) with
      | none => rw [lx] at hls; cases hls
      | some a =>
        cases ly : y.level (p.reqs.map PReq.depth) with
        | none => rw [lx, ly] at hls; cases hls
        | some b =>
          rw [lx, ly] at hls
          simp only at hls
          have hmem : ∀ (cs : List (POperand × POperand)) (l0 ls : List Nat), levels l0 cs = some ls →
              ∀ l ∈ l0, l ∈ ls := by
            intro cs
            induction cs with
            | nil => intro l0 ls h l hl; cases h; exact hl
            | cons c cs ih =>
              obtain ⟨u, v⟩ := c
              intro l0 ls h l hl
              simp only [levels] at h
              split at h
              · exact ih _ _ h l (by simp [hl])
              · cases h
          obtain ⟨p1, c1, P1, c2, c3, c4, c5, c6, c7⟩ := create_ok P st hp hres hx hy dx dy lx ly
            (hlt _ (hmem _ _ _ hls _ (by simp)))
          obtain ⟨p2, d1, d2, d3, d4, d5, d6, d7⟩ := ih p1 _ Gs P1 c2 c3 c6
            (fun c hc => hh c (by simp [hc])) hd ls (by rw [c7]; exact hls) hlt
          exact ⟨p2, by simp only [creates, c1, d1], d2, d3, d4, d5.trans c4, d6.trans c5, d7⟩

/-! ## Update -/

/-- the function of an updated provisional BDD -/
def updFn (F : BFn) (neg : Bool) : BFn := if neg then fun ρ => !F ρ else F

theorem updates_ok {p : Pipe} (hs : p.state = .update) {Fs : List BFn} : ∀ (us : List (Nat × Bool))
    {own : Nat → Nat} {m : Mgr}, m.Inv own lk →
    (∀ u ∈ us, ∃ e F, p.res u.1 = some e ∧ Fs[u.1]? = some F ∧ Rep m.st e F) →
    ∃ m' hs, p.updates m us = some (m', hs) ∧ m'.Inv (hs.foldl (fun o h => bump o h.addr) own) lk ∧
      Pres own 0 m m' ∧ (m'.overflow = m.overflow) ∧
      F2 (fun (u : Nat × Bool) h => h ≠ Handle.null ∧ ∃ F, Fs[u.1]? = some F ∧ Den m' h (updFn F u.2)) us hs := by
  intro us
  induction us with
  | nil => intro own m i _; exact ⟨m, [], rfl, i, .refl _ _, rfl, .nil⟩
  | cons u us ih =>
    obtain ⟨j, neg⟩ := u
    intro own m i h
    obtain ⟨e, F, h1, h2, h3⟩ := h (j, neg) (by simp)
    have h4 : Rep m.st (e.phase neg) (updFn F neg) := by
      cases neg
      · simpa [Edge.phase, updFn] using h3
      · have := h3.not
        simpa [Edge.phase, Edge.not, updFn] using this
    obtain ⟨Γ, leak, hl, i⟩ := i
    obtain ⟨i1, p1, hne, hd, sm⟩ := i.external h4.eok
    obtain ⟨m2, hs2, g1, g2, g3, g5, g4⟩ := ih (own := bump own (m.external (e.phase neg)).2.addr)
      (m := (m.external (e.phase neg)).1) ⟨Γ, leak, hl, i1⟩ (by
        intro u hu
        obtain ⟨e', F', k1, k2, k3⟩ := h u (by simp [hu])
        exact ⟨e', F', k1, k2, k3.mono sm.le⟩)
    have hu : p.update m j neg = some (m.external (e.phase neg)) := by
      have : ¬ p.state ≠ .update := by simp [hs]
      simp only [update, if_neg this, h1]
    refine ⟨m2, (m.external (e.phase neg)).2 :: hs2, by simp only [updates, hu, g1], g2,
      p1.trans (g3.weaken fun _ => live_bump), g5, .cons ⟨hne, F, h2, ?_⟩ g4⟩
    exact g3.fns _ (live_bumped own _ (m.external (e.phase neg)).2.neg) _ (hd _ h4)

theorem dcrs_pres {m : Mgr} {es : List Edge} : Pres own 0 m { m with st := dcrs m.st es } :=
  Mgr.core_pres (c' := m.ca) dcrs_same.le

end Pipe

open Pipe

/-- A whole pipeline: no undefined behaviour, and the updated handles are those of the functions
obtained one at a time; or the node limit is exceeded. -/
theorem pipeline_ok {E : Env} (S : E.Sound) {own : Nat → Nat} {lk : Bool} {m : Mgr}
    (i : m.Inv own lk) {p : Pipe} (hp : p.Idle) {op : PipeOp} {cs us}
    (l : PipeLegal own op cs us) {Fs} (d : OneByOne op.fn m [] cs Fs) :
    ∃ m' p' out, pipeline E m p op cs us = some (m', p', out) ∧ p'.Idle ∧ Pres own 0 m m' ∧
      match out with
      | some hs => m'.Inv (hs.foldl (fun o h => bump o h.addr) own) lk ∧
          F2 (fun (u : Nat × Bool) h => h ≠ Handle.null ∧ ∃ F, Fs[u.1]? = some F ∧ Den m' h (updFn F u.2)) us hs
      | none => m'.Inv own true ∧ m'.overflow = true ∧ m'.nodeLimit ≠ 0 := by
  obtain ⟨m1, o, h1, i1, p1, -⟩ := Mgr.postProc_ok S i
  have hst : ¬ p.state ≠ .ready := by simp [hp.state]
  have e1 : p.start E m op = some (m1, { p with state := .create, op := op }, true) := by
    simp only [start, h1, if_neg hst, if_neg l.op]
  have hlen : ∀ {Gs cs Fs}, OneByOne op.fn m Gs cs Fs → Fs.length = Gs.length + cs.length := by
    intro Gs cs Fs h
    induction h with
    | nil => simp
    | cons _ _ _ ih => rw [ih, List.length_append, List.length_cons, List.length_cons]; simp only [List.length_nil]; omega
  have hn := hlen d
  simp only [List.length_nil, Nat.zero_add] at hn
  have d1 : OneByOne op.fn m1 [] cs Fs := by
    have hl := l.held
    clear hn hlen l
    generalize ([] : List BFn) = Gs at d ⊢
    induction d with
    | nil => exact .nil
    | @cons _ x y F G cs _ hx hy _ ih =>
      have key : ∀ {x F Hs}, POperand.Held own x → OpDen m Hs x F → OpDen m1 Hs x F := by
        intro x F Hs hx h
        cases h with
        | bdd h => exact .bdd (p1.fns _ hx _ h)
        | prov h => exact .prov h
        | not h => exact .not h
      exact .cons (key (hl (x, y) (by simp)).1 hx) (key (hl (x, y) (by simp)).2 hy)
        (ih fun c hc => hl c (by simp [hc]))
  obtain ⟨ls, hls, hlt⟩ := l.levels
  have P0 : PInv own op.fn m1 { p with state := .create, op := op } [] 0 := by
    refine ⟨by simp [hp.reqs], ?_, ?_, ?_, ?_, ?_, ?_⟩
    · intro d j; simp [hp.reqs, hp.lists]
    · intro d; simp [hp.lists]
    · intro j r h; simp [hp.reqs] at h
    · intro j r h; simp [hp.reqs] at h
    · intro j r h; simp [hp.reqs] at h
    · intro j r h; simp [hp.reqs] at h
  obtain ⟨p2, c1, P2, c2, c3, c4, c5, c6⟩ := creates_ok cs { p with state := .create, op := op } [] Fs P0 rfl
    (by have := hp.pdepth; simp only; omega) hp.res l.held d1 ls (by simpa [hp.reqs] using hls) hlt
  -- execution
  have hop : ∃ f, op.op = some f := by
    cases op
    · exact ⟨_, rfl⟩
    · exact ⟨_, rfl⟩
    · exact ⟨_, rfl⟩
    · exact absurd rfl l.op
  obtain ⟨f, hf⟩ := hop
  have hheld : p2.held 0 = [] := rfl
  obtain ⟨m3, p3, b, g1, g2, g3, g4, g5, g6, g7⟩ := loop_ok S (PipeOp.law hf) (p2.depth == 0) p2.pdepth 0 m1 p2
    (by rw [hheld]; exact i1.invP) P2 (by omega) (by omega) (by
      cases h : p2.depth with
      | zero => exact Or.inl rfl
      | succ n => exact Or.inr (by omega))
  have quit_ok : ∀ q : Pipe, q.pdepth ≤ 256 → ∃ q', q.quit = some q' ∧ q'.Idle := by
    intro q hq
    refine ⟨_, by unfold quit; rw [if_neg (by unfold maxInsertDepth; omega)], rfl, rfl, fun _ => rfl,
      fun _ => rfl, Nat.zero_le _⟩
  have hst2 : ¬ p2.state ≠ .create := by simp [c2]
  have hmax : ¬ maxInsertDepth < p2.pdepth := by unfold maxInsertDepth; omega
  have hop2 : p2.op.op = some f := by rw [c4]; exact hf
  cases b with
  | false =>
    obtain ⟨q, q1, q2⟩ := quit_ok p3 (by omega)
    have ex : p2.execute E m1 = some (m3, p3, false) := by
      simp only [execute, if_neg hst2, if_neg hmax, hop2, g1]
    refine ⟨m3, q, none, by simp only [pipeline, e1, c1, ex, q1, Option.map_some], q2, p1.trans g2, ?_⟩
    exact g7 rfl
  | true =>
    obtain ⟨i3, P3⟩ := g6 rfl
    have ex : p2.execute E m1 = some ({ m3 with st := dcrs m3.st (p3.held p3.pdepth) }, { p3 with state := .update }, true) := by
      simp only [execute, if_neg hst2, if_neg hmax, hop2, g1]
    obtain ⟨m4, hs, u1, u2, u3, -, u4⟩ := updates_ok (p := { p3 with state := .update }) rfl (Fs := Fs) us (unlocks i3) (by
      intro u hu
      have hj : u.1 < p3.reqs.length := by rw [P3.len, hn]; exact l.upd u hu
      obtain ⟨r, hr⟩ : ∃ r, p3.reqs[u.1]? = some r := ⟨_, List.getElem?_eq_getElem hj⟩
      obtain ⟨e, F, k1, k2, k3⟩ := P3.done u.1 r hr (P3.depth _ r hr)
      exact ⟨e, F, k1, k2, k3.mono dcrs_same.le⟩)
    obtain ⟨q, q1, q2⟩ := quit_ok { p3 with state := .update } (by simp only; omega)
    refine ⟨m4, q, some hs, by simp only [pipeline, e1, c1, ex, u1, q1, Option.map_some], q2, ?_, u2, u4⟩
    exact ((p1.trans g2).trans dcrs_pres).trans u3

end Cal
