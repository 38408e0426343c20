import Verif.SiftPart

/-!
# Reordering with sizes that are determined by the order as long as counts do not saturate

`U` stands for "no count has saturated". Exchanges never establish it. A run that ends in a state with `U` is also
a run of the system with any other sizes that agree where `U` holds.
-/

namespace Cal.Sift

open Block

section
variable {π : Type} {X : π → Int → Option π} {size size' : π → Int} {J U : π → Prop}

/-- Exchanges keep `J` and never establish `U`. -/
def Down (X : π → Int → Option π) (J U : π → Prop) : Prop :=
  ∀ p i q, J p → X p i = some q → J q ∧ (U q → U p)

/-- A result whose state fulfils `U` is also one of `g`. -/
def Tra {ρ : Type} (J U : π → Prop) (V : ρ → π) (p : π) (f g : Option ρ) : Prop :=
  ∀ r, f = some r → J (V r) ∧ (U (V r) → U p ∧ g = some r)

theorem runX_tra (hX : Down X J U) : ∀ (is : List Int) {p}, J p → Tra J U id p (runX X p is) (runX X p is)
  | [], p, hp => fun r h => by cases h; exact ⟨hp, fun u => ⟨u, rfl⟩⟩
  | i :: is, p, hp => by
    intro r h
    refine (fun k => ⟨k.1, fun u => ⟨k.2 u, h⟩⟩ : J r ∧ (U r → U p) → _) ?_
    unfold runX at h
    rw [List.foldlM_cons] at h
    cases e : X p i with
    | none => rw [e] at h; cases h
    | some q =>
      rw [e] at h
      obtain ⟨jq, uq⟩ := hX p i q hp e
      obtain ⟨jr, ur⟩ := runX_tra hX is jq r h
      exact ⟨jr, fun u => uq (ur u).1⟩

theorem window2_tra (hX : Down X J U) (hs : ∀ p, J p → U p → size' p = size p) {p : π} (hp : J p) (i : Int) :
    Tra J U (·.1) p (window2 X size p i) (window2 X size' p i) := by
  intro r h
  unfold window2 at h ⊢
  cases e : X p i with
  | none => rw [e] at h; cases h
  | some q =>
    rw [e] at h
    obtain ⟨jq, uq⟩ := hX p i q hp e
    dsimp only at h ⊢
    split at h
    · rename_i c
      cases h
      refine ⟨jq, fun u => ⟨uq u, ?_⟩⟩
      rw [if_pos (by rw [hs _ jq u, hs _ hp (uq u)]; exact c)]
    · rename_i c
      cases e2 : X q i with
      | none => rw [e2] at h; cases h
      | some t =>
        rw [e2] at h
        cases h
        obtain ⟨jt, ut⟩ := hX q i t jq e2
        refine ⟨jt, fun u => ⟨uq (ut u), ?_⟩⟩
        rw [if_neg (by rw [hs _ jq (ut u), hs _ hp (uq (ut u))]; exact c)]

theorem window3_tra (hX : Down X J U) (hs : ∀ p, J p → U p → size' p = size p) {p : π} (hp : J p) (i : Int) :
    Tra J U (·.1) p (window3 X size p i) (window3 X size' p i) := by
  intro r h
  have h0 := h
  unfold window3 at h
  cases e1 : X p i with
  | none => rw [e1] at h; cases h
  | some p1 =>
  rw [e1] at h
  dsimp only at h
  cases e2 : X p1 (i + 1) with
  | none => rw [e2] at h; cases h
  | some p2 =>
  rw [e2] at h
  dsimp only at h
  cases e3 : X p2 i with
  | none => rw [e3] at h; cases h
  | some p3 =>
  rw [e3] at h
  dsimp only at h
  cases e4 : X p3 (i + 1) with
  | none => rw [e4] at h; cases h
  | some p4 =>
  rw [e4] at h
  dsimp only at h
  cases e5 : X p4 i with
  | none => rw [e5] at h; cases h
  | some p5 =>
  rw [e5] at h
  dsimp only at h
  obtain ⟨j1, u1⟩ := hX _ _ _ hp e1
  obtain ⟨j2, u2⟩ := hX _ _ _ j1 e2
  obtain ⟨j3, u3⟩ := hX _ _ _ j2 e3
  obtain ⟨j4, u4⟩ := hX _ _ _ j3 e4
  obtain ⟨j5, u5⟩ := hX _ _ _ j4 e5
  split at h
  · cases h
  · rename_i q hq
    obtain ⟨jq, uq⟩ := runX_tra hX _ j5 _ hq
    have hr : r.1 = q := by cases h; rfl
    show J r.1 ∧ (U r.1 → _)
    rw [hr]
    refine ⟨jq, fun u => ?_⟩
    have v5 := (uq u).1
    have v4 := u5 v5
    have v3 := u4 v4
    have v2 := u3 v3
    have v1 := u2 v2
    have v0 := u1 v1
    refine ⟨v0, ?_⟩
    rw [← h0]
    unfold window3
    simp only [e1, e2, e3, e4, e5, hs _ hp v0, hs _ j1 v1, hs _ j2 v2, hs _ j3 v3, hs _ j4 v4, hs _ j5 v5]

theorem windowStep_tra (hX : Down X J U) (hs : ∀ p, J p → U p → size' p = size p) (numVars : Nat) (n : Int)
    (a : π × (Int → Bool) × Bool) (hp : J a.1) (i : Int) :
    Tra J U (·.1) a.1 (windowStep X size numVars n a i) (windowStep X size' numVars n a i) := by
  intro r h
  have k : Tra J U (·.1) a.1 (if i < n - 2 then window3 X size a.1 i else window2 X size a.1 i)
      (if i < n - 2 then window3 X size' a.1 i else window2 X size' a.1 i) := by
    split
    · exact window3_tra hX hs hp i
    · exact window2_tra hX hs hp i
  unfold windowStep at h ⊢
  split at h
  · rename_i c
    rw [if_pos c]
    split at h
    · cases h
    · rename_i p e
      obtain ⟨jp, up⟩ := k _ e
      cases hr : raise numVars n i a.2.1 with
      | none => rw [hr] at h; cases h
      | some l =>
        rw [hr] at h; cases h
        exact ⟨jp, fun u => ⟨(up u).1, by rw [(up u).2]; simp only [hr]; rfl⟩⟩
    · rename_i p e
      obtain ⟨jp, up⟩ := k _ e
      cases hr : setLevel numVars a.2.1 i false with
      | none => rw [hr] at h; cases h
      | some l =>
        rw [hr] at h; cases h
        exact ⟨jp, fun u => ⟨(up u).1, by rw [(up u).2]; simp only [hr]; rfl⟩⟩
  · rename_i c
    cases h
    exact ⟨hp, fun u => ⟨u, by rw [if_neg c]⟩⟩

theorem foldlM_tra {ρ β : Type} {V : ρ → π} {f g : ρ → β → Option ρ}
    (h : ∀ a b, J (V a) → Tra J U V (V a) (f a b) (g a b)) :
    ∀ (l : List β) (a : ρ), J (V a) → Tra J U V (V a) (l.foldlM f a) (l.foldlM g a)
  | [], a, ja => fun r hr => by cases hr; exact ⟨ja, fun u => ⟨u, rfl⟩⟩
  | b :: l, a, ja => by
    intro r hr
    rw [List.foldlM_cons] at hr ⊢
    cases e : f a b with
    | none => rw [e] at hr; cases hr
    | some c =>
      rw [e] at hr
      obtain ⟨jc, uc⟩ := h a b ja c e
      obtain ⟨jr, ur⟩ := foldlM_tra h l c jc r hr
      refine ⟨jr, fun u => ⟨(uc (ur u).1).1, ?_⟩⟩
      rw [(uc (ur u).1).2]
      exact (ur u).2

theorem windowPass_tra (hX : Down X J U) (hs : ∀ p, J p → U p → size' p = size p) (numVars : Nat) (n : Int)
    (p : π) (hp : J p) (levels : Int → Bool) :
    Tra J U (·.1) p (windowPass X size numVars n p levels) (windowPass X size' numVars n p levels) :=
  foldlM_tra (V := fun a : π × (Int → Bool) × Bool => a.1) (f := fun a (i : Nat) => windowStep X size numVars n a i)
    (g := fun a (i : Nat) => windowStep X size' numVars n a i)
    (fun a b ja => windowStep_tra hX hs numVars n a ja b) _ (p, levels, false) hp

theorem windowLoop_tra (hX : Down X J U) (hs : ∀ p, J p → U p → size' p = size p) (numVars : Nat) (n : Int) :
    ∀ (fuel : Nat) (p : π) (_ : J p) (levels : Int → Bool),
      Tra J U (·.1) p (windowLoop X size numVars n fuel p levels) (windowLoop X size' numVars n fuel p levels)
  | 0, _, _, _ => fun r h => by cases h
  | fuel + 1, p, hp, levels => by
    intro r h
    unfold windowLoop at h ⊢
    split at h
    · cases h
    · rename_i q l e
      obtain ⟨jq, uq⟩ := windowPass_tra hX hs numVars n p hp levels _ e
      obtain ⟨jr, ur⟩ := windowLoop_tra hX hs numVars n fuel q jq l r h
      refine ⟨jr, fun u => ⟨(uq (ur u).1).1, ?_⟩⟩
      rw [(uq (ur u).1).2]
      exact (ur u).2
    · rename_i q l e
      obtain ⟨jq, uq⟩ := windowPass_tra hX hs numVars n p hp levels _ e
      cases h
      refine ⟨jq, fun u => ⟨(uq u).1, ?_⟩⟩
      rw [(uq u).2]

theorem down_tra (hX : Down X J U) (hs : ∀ p, J p → U p → size' p = size p) (n maxSize : Int) (strict : Bool) :
    ∀ (fuel : Nat) (a : Search π) (_ : J a.p),
      Tra J U (·.p) a.p (down X size n maxSize strict fuel a) (down X size' n maxSize strict fuel a)
  | 0, a, hp => fun r h => by cases h; exact ⟨hp, fun u => ⟨u, rfl⟩⟩
  | fuel + 1, a, hp => by
    intro r h
    unfold down at h ⊢
    split at h
    · rename_i c
      rw [if_pos c]
      cases e : X a.p a.cur with
      | none => rw [e] at h; cases h
      | some q =>
        rw [e] at h
        obtain ⟨jq, uq⟩ := hX _ _ _ hp e
        dsimp only at h ⊢
        by_cases c2 : if strict then size q < a.bestSize else size q ≤ a.bestSize
        · rw [if_pos c2] at h
          obtain ⟨jr, ur⟩ := down_tra hX hs n maxSize strict fuel _ (by exact jq) r h
          refine ⟨jr, fun u => ⟨uq (ur u).1, ?_⟩⟩
          have v : U q := (ur u).1
          simp only [hs q jq v]
          rw [if_pos c2]; exact (ur u).2
        · rw [if_neg c2] at h
          obtain ⟨jr, ur⟩ := down_tra hX hs n maxSize strict fuel _ (by exact jq) r h
          refine ⟨jr, fun u => ⟨uq (ur u).1, ?_⟩⟩
          have v : U q := (ur u).1
          simp only [hs q jq v]
          rw [if_neg c2]; exact (ur u).2
    · rename_i c
      cases h
      exact ⟨hp, fun u => ⟨u, by rw [if_neg c]⟩⟩

theorem up_tra (hX : Down X J U) (hs : ∀ p, J p → U p → size' p = size p) (maxSize : Int) (strict : Bool) :
    ∀ (fuel : Nat) (a : Search π) (_ : J a.p),
      Tra J U (·.p) a.p (up X size maxSize strict fuel a) (up X size' maxSize strict fuel a)
  | 0, a, hp => fun r h => by cases h; exact ⟨hp, fun u => ⟨u, rfl⟩⟩
  | fuel + 1, a, hp => by
    intro r h
    unfold up at h ⊢
    split at h
    · rename_i c
      rw [if_pos c]
      cases e : X a.p (a.cur - 1) with
      | none => rw [e] at h; cases h
      | some q =>
        rw [e] at h
        obtain ⟨jq, uq⟩ := hX _ _ _ hp e
        dsimp only at h ⊢
        by_cases c2 : if strict then size q < a.bestSize else size q ≤ a.bestSize
        · rw [if_pos c2] at h
          obtain ⟨jr, ur⟩ := up_tra hX hs maxSize strict fuel _ (by exact jq) r h
          refine ⟨jr, fun u => ⟨uq (ur u).1, ?_⟩⟩
          have v : U q := (ur u).1
          simp only [hs q jq v]
          rw [if_pos c2]; exact (ur u).2
        · rw [if_neg c2] at h
          obtain ⟨jr, ur⟩ := up_tra hX hs maxSize strict fuel _ (by exact jq) r h
          refine ⟨jr, fun u => ⟨uq (ur u).1, ?_⟩⟩
          have v : U q := (ur u).1
          simp only [hs q jq v]
          rw [if_neg c2]; exact (ur u).2
    · rename_i c
      cases h
      exact ⟨hp, fun u => ⟨u, by rw [if_neg c]⟩⟩

theorem backUp_tra (hX : Down X J U) (to : Int) : ∀ (fuel : Nat) (p : π) (cur : Int) (_ : J p),
    Tra J U id p (backUp X to fuel p cur) (backUp X to fuel p cur)
  | 0, p, cur, hp => fun r h => by
    unfold backUp at h ⊢
    split at h
    · cases h
    · rename_i c
      cases h; exact ⟨hp, fun u => ⟨u, by rw [if_neg c]⟩⟩
  | fuel + 1, p, cur, hp => by
    intro r h
    refine (fun k => ⟨k.1, fun u => ⟨k.2 u, h⟩⟩ : J r ∧ (U r → U p) → _) ?_
    unfold backUp at h
    split at h
    · cases e : X p (cur - 1) with
      | none => rw [e] at h; cases h
      | some q =>
        rw [e] at h
        obtain ⟨jq, uq⟩ := hX _ _ _ hp e
        obtain ⟨jr, ur⟩ := backUp_tra hX to fuel q _ jq r h
        exact ⟨jr, fun u => uq (ur u).1⟩
    · cases h; exact ⟨hp, id⟩

theorem backDown_tra (hX : Down X J U) (to : Int) : ∀ (fuel : Nat) (p : π) (cur : Int) (_ : J p),
    Tra J U id p (backDown X to fuel p cur) (backDown X to fuel p cur)
  | 0, p, cur, hp => fun r h => by
    unfold backDown at h ⊢
    split at h
    · cases h
    · rename_i c
      cases h; exact ⟨hp, fun u => ⟨u, by rw [if_neg c]⟩⟩
  | fuel + 1, p, cur, hp => by
    intro r h
    refine (fun k => ⟨k.1, fun u => ⟨k.2 u, h⟩⟩ : J r ∧ (U r → U p) → _) ?_
    unfold backDown at h
    split at h
    · cases e : X p cur with
      | none => rw [e] at h; cases h
      | some q =>
        rw [e] at h
        obtain ⟨jq, uq⟩ := hX _ _ _ hp e
        obtain ⟨jr, ur⟩ := backDown_tra hX to fuel q _ jq r h
        exact ⟨jr, fun u => uq (ur u).1⟩
    · cases h; exact ⟨hp, id⟩

theorem siftBlock_tra (hX : Down X J U) (hs : ∀ p, J p → U p → size' p = size p) (n : Int) (limit : Int → Int)
    {p : π} (hp : J p) (start : Int) :
    Tra J U id p (siftBlock X size n limit p start) (siftBlock X size' n limit p start) := by
  intro r h
  have h0 := h
  unfold siftBlock at h
  dsimp only at h
  split at h
  · rename_i c
    split at h
    · cases h
    · rename_i a ea
      obtain ⟨ja, ua⟩ := down_tra hX hs _ _ _ _ _ hp _ ea
      split at h
      · cases h
      · rename_i q eq
        obtain ⟨jq, uq⟩ := backUp_tra hX _ _ _ _ ja _ eq
        split at h
        · cases h
        · rename_i b eb
          obtain ⟨jb, ub⟩ := up_tra hX hs _ _ _ _ jq _ eb
          obtain ⟨jr, ur⟩ := backDown_tra hX _ _ _ _ jb _ h
          refine ⟨jr, fun u => ?_⟩
          have vb := (ur u).1
          have vq : U q := (ub vb).1
          have va := (uq vq).1
          have vp : U p := (ua va).1
          refine ⟨vp, ?_⟩
          unfold siftBlock
          simp only [hs p hp vp, if_pos c]
          rw [(ua va).2]
          simp only [eq]
          rw [(ub vb).2]
          exact h
  · rename_i c
    split at h
    · cases h
    · rename_i a ea
      obtain ⟨ja, ua⟩ := up_tra hX hs _ _ _ _ hp _ ea
      split at h
      · cases h
      · rename_i q eq
        obtain ⟨jq, uq⟩ := backDown_tra hX _ _ _ _ ja _ eq
        split at h
        · cases h
        · rename_i b eb
          obtain ⟨jb, ub⟩ := down_tra hX hs _ _ _ _ _ jq _ eb
          obtain ⟨jr, ur⟩ := backUp_tra hX _ _ _ _ jb _ h
          refine ⟨jr, fun u => ?_⟩
          have vb := (ur u).1
          have vq : U q := (ub vb).1
          have va := (uq vq).1
          have vp : U p := (ua va).1
          refine ⟨vp, ?_⟩
          unfold siftBlock
          simp only [hs p hp vp, if_neg c]
          rw [(ua va).2]
          simp only [eq]
          rw [(ub vb).2]
          exact h

end

section
variable {σ : Type} {S : Sys σ} {sz : σ → Int} {J U : σ → Prop}

/-- The system with another size. -/
def Sys.sized {σ : Type} (S : Sys σ) (sz : σ → Int) : Sys σ := { S with size := sz }

theorem slide_down (hX : Down S.ex J U) (b1 b2 : Block) {s : σ} (hp : J s) :
    Tra J U id s (slide S b1 b2 s) (slide S b1 b2 s) := by
  have row : ∀ (f2 w1 w2 i : Int) (s : σ), J s → Tra J U id s (slideRow S f2 w1 w2 i s) (slideRow S f2 w1 w2 i s) := by
    intro f2 w1 w2 i s hs
    unfold slideRow
    refine foldlM_tra (V := id) (fun a b ja r h => ?_) _ s hs
    obtain ⟨jr, ur⟩ := hX _ _ _ ja h
    exact ⟨jr, fun u => ⟨ur u, h⟩⟩
  unfold slide
  exact foldlM_tra (V := id) (fun a b ja => row _ _ _ _ a ja) _ s hp

theorem exchange_down (hX : Down S.ex J U) : Down (exchange S) (fun p => J p.1) (fun p => U p.1) := by
  intro p i q hp h
  unfold exchange at h
  split at h
  · cases h
  · split at h
    · split at h
      · cases h
      · rename_i s e
        cases h
        obtain ⟨js, us⟩ := slide_down hX _ _ hp _ e
        exact ⟨js, fun u => (us u).1⟩
    · cases h

/-- What the runs have in common. -/
structure Agree (S : Sys σ) (sz : σ → Int) (J U : σ → Prop) : Prop where
  down : Down S.ex J U
  size : ∀ s, J s → U s → sz s = S.size s
  reset : ∀ s, J s → J (S.reset s) ∧ (U (S.reset s) → U s)

theorem siftLoop_tra (A : Agree S sz J U) (L : Limits) : ∀ (i : Nat) (toSift : List Nat) (shifted : Int) (p : σ × Kids),
    J p.1 → Tra (fun p : σ × Kids => J p.1) (fun p => U p.1) id p (siftLoop S L i toSift shifted p)
      (siftLoop (S.sized sz) L i toSift shifted p)
  | 0, _, _, p, hp => fun r h => by cases h; exact ⟨hp, fun u => ⟨u, rfl⟩⟩
  | i + 1, toSift, shifted, p, hp => by
    intro r h
    unfold siftLoop at h ⊢
    split at h
    · rename_i c
      rw [if_pos (show shifted ≤ L.maxVars ∧ (S.sized sz).swaps p.1 ≤ L.maxSwaps from c)]
      split at h
      · cases h
      · rename_i w mw e
        have e' : widest (S.sized sz) p.1 p.2 (toSift.take (i + 1)) 0 0 0 = some (w, mw) := by
          rw [← e]
          have : ∀ ts j mw best, widest (S.sized sz) p.1 p.2 ts j mw best = widest S p.1 p.2 ts j mw best := by
            intro ts
            induction ts with
            | nil => intros; rfl
            | cons t ts ih =>
              intro j mw best
              unfold widest
              simp only [ih]
              rfl
          exact this _ _ _ _
        rw [e']
        dsimp only
        split at h
        · rename_i c2
          rw [if_pos c2]
          split at h
          · rename_i t ti h1 h2
            split at h
            · cases h
            · rename_i j hj
              split at h
              · cases h
              · rename_i q hq
                obtain ⟨jq, uq⟩ := siftBlock_tra (size' := fun p : σ × Kids => sz p.1) (exchange_down A.down) (fun p jp up => A.size p.1 jp up) _ _ hp _ _ hq
                obtain ⟨jr, ur⟩ := siftLoop_tra A L i _ _ q jq r h
                refine ⟨jr, fun u => ?_⟩
                have v := (ur u).1
                refine ⟨(uq v).1, ?_⟩
                have := (uq v).2
                have this : siftBlock (exchange (S.sized sz)) (fun p => (S.sized sz).size p.1) p.2.length L.maxSize p j = some q := this
                rw [this]
                exact (ur u).2
          · cases h
        · rename_i c2
          cases h
          rw [if_neg c2]
          exact ⟨hp, fun u => ⟨u, rfl⟩⟩
    · rename_i c
      rw [if_neg (show ¬ (shifted ≤ L.maxVars ∧ (S.sized sz).swaps p.1 ≤ L.maxSwaps) from c)]
      cases h
      exact ⟨hp, fun u => ⟨u, rfl⟩⟩

theorem overKids_tra {f g : σ → Block → Option (σ × Block)} (h : ∀ s b, J s → Tra J U (·.1) s (f s b) (g s b)) :
    ∀ (bs : List Block) (s : σ), J s → Tra J U (·.1) s (overKids f s bs) (overKids g s bs)
  | [], s, js => fun r hr => by cases hr; exact ⟨js, fun u => ⟨u, rfl⟩⟩
  | b :: bs, s, js => by
    intro r hr
    unfold overKids at hr ⊢
    split at hr
    · cases hr
    · rename_i s1 b1 e1
      obtain ⟨j1, u1⟩ := h s b js _ e1
      split at hr
      · cases hr
      · rename_i s2 b2 e2
        obtain ⟨j2, u2⟩ := overKids_tra h bs s1 j1 _ e2
        cases hr
        refine ⟨j2, fun u => ?_⟩
        have v := (u2 u).1
        refine ⟨(u1 v).1, ?_⟩
        rw [(u1 v).2]
        dsimp only
        rw [(u2 u).2]

theorem siftAux_tra (A : Agree S sz J U) (L : Limits) (numVars : Nat) : ∀ (fuel : Nat) (s : σ) (b : Block), J s →
    Tra J U (·.1) s (siftAux S L numVars fuel s b) (siftAux (S.sized sz) L numVars fuel s b)
  | 0, _, _, _ => fun r h => by cases h
  | fuel + 1, s, .mk f l rr cs, js => by
    intro r h
    unfold siftAux at h ⊢
    obtain ⟨jr, ur⟩ := A.reset s js
    have k : Tra (fun p : σ × Kids => J p.1) (fun p => U p.1) id (S.reset s, tagged cs)
      (if rr then
            (if numVars < cs.length then none
             else siftLoop S L cs.length (List.range cs.length) 0 (S.reset s, tagged cs))
           else some (S.reset s, tagged cs))
      (if rr then
            (if numVars < cs.length then none
             else siftLoop (S.sized sz) L cs.length (List.range cs.length) 0 (S.reset s, tagged cs))
           else some (S.reset s, tagged cs)) := by
      split
      · split
        · intro r h; cases h
        · exact siftLoop_tra A L _ _ _ _ jr
      · intro r h; cases h; exact ⟨jr, fun u => ⟨u, rfl⟩⟩
    split at h
    · cases h
    · rename_i s1 ks e1
      obtain ⟨j1, u1⟩ := k _ e1
      split at h
      · cases h
      · rename_i s2 cs2 e2
        obtain ⟨j2, u2⟩ := overKids_tra (fun s b => siftAux_tra A L numVars fuel s b) _ s1 j1 _ e2
        cases h
        refine ⟨j2, fun u => ?_⟩
        have v := (u2 u).1
        refine ⟨ur (u1 v).1, ?_⟩
        have := (u1 v).2
        have this : (if rr then
            (if numVars < cs.length then none
             else siftLoop (S.sized sz) L cs.length (List.range cs.length) 0 ((S.sized sz).reset s, tagged cs))
           else some ((S.sized sz).reset s, tagged cs)) = some (s1, ks) := this
        rw [this]
        dsimp only
        rw [(u2 u).2]

theorem reorderSift_tra (A : Agree S sz J U) (L : Limits) (numVars : Nat) {s : σ} (b : Block) (js : J s) :
    Tra J U (·.1) s (reorderSift S L numVars s b) (reorderSift (S.sized sz) L numVars s b) :=
  siftAux_tra A L numVars _ s b js

theorem windowAuxN_tra (A : Agree S sz J U) (numVars passes : Nat) : ∀ (fuel : Nat) (s : σ) (b : Block), J s →
    Tra J U (·.1) s (windowAuxN S numVars passes fuel s b) (windowAuxN (S.sized sz) numVars passes fuel s b)
  | 0, _, _, _ => fun r h => by cases h
  | fuel + 1, s, .mk f l rr cs, js => by
    intro r h
    unfold windowAuxN at h ⊢
    have k : Tra (fun p : σ × Kids => J p.1) (fun p => U p.1) id (s, tagged cs)
      (if rr then
            if numVars + 1 < cs.length then none else
            (windowLoop (exchange S) (fun p => S.size p.1) numVars cs.length passes
              (s, tagged cs) (fun _ => true)).map (·.1)
           else some (s, tagged cs))
      (if rr then
            if numVars + 1 < cs.length then none else
            (windowLoop (exchange S) (fun p => sz p.1) numVars cs.length passes
              (s, tagged cs) (fun _ => true)).map (·.1)
           else some (s, tagged cs)) := by
      split
      · split
        · intro r h; cases h
        · intro r h
          cases e : windowLoop (exchange S) (fun p => S.size p.1) numVars cs.length passes (s, tagged cs) (fun _ => true) with
          | none => rw [e] at h; cases h
          | some q =>
            rw [e] at h; cases h
            obtain ⟨jq, uq⟩ := windowLoop_tra (size' := fun p : σ × Kids => sz p.1) (exchange_down A.down)
              (fun p jp up => A.size p.1 jp up) _ _ _ _ (show J (s, tagged cs).1 from js) _ _ e
            refine ⟨jq, fun u => ⟨(uq u).1, ?_⟩⟩
            rw [(uq u).2]; rfl
      · intro r h; cases h; exact ⟨js, fun u => ⟨u, rfl⟩⟩
    split at h
    · cases h
    · rename_i s1 ks e1
      obtain ⟨j1, u1⟩ := k _ e1
      split at h
      · cases h
      · rename_i s2 cs2 e2
        obtain ⟨j2, u2⟩ := overKids_tra (fun s b => windowAuxN_tra A numVars passes fuel s b) _ s1 j1 _ e2
        cases h
        refine ⟨j2, fun u => ?_⟩
        have v := (u2 u).1
        refine ⟨(u1 v).1, ?_⟩
        have this : (if rr then
            if numVars + 1 < cs.length then none else
            (windowLoop (exchange (S.sized sz)) (fun p => (S.sized sz).size p.1) numVars cs.length passes
              (s, tagged cs) (fun _ => true)).map (·.1)
           else some (s, tagged cs)) = some (s1, ks) := (u1 v).2
        rw [this]
        dsimp only
        rw [(u2 u).2]

theorem reorderWindowN_tra (A : Agree S sz J U) (numVars passes : Nat) {s : σ} (b : Block) (js : J s) :
    Tra J U (·.1) s (reorderWindowN S numVars passes s b) (reorderWindowN (S.sized sz) numVars passes s b) := by
  intro r h
  obtain ⟨j1, u1⟩ := A.reset s js
  obtain ⟨jr, ur⟩ := windowAuxN_tra A numVars passes _ (S.reset s) b j1 r h
  exact ⟨jr, fun u => ⟨u1 (ur u).1, (ur u).2⟩⟩

end

/-! ## Passes of the window algorithm -/

section
variable {π : Type} {X : π → Int → Option π} {size : π → Int}

theorem windowLoop_mono {numVars : Nat} {n : Int} : ∀ (k : Nat) (p : π) (levels : Int → Bool) {r} {N : Nat},
    windowLoop X size numVars n k p levels = some r → k ≤ N → windowLoop X size numVars n N p levels = some r
  | 0, _, _, _, _, h, _ => by cases h
  | k + 1, p, levels, r, 0, _, hN => by omega
  | k + 1, p, levels, r, N + 1, h, hN => by
    unfold windowLoop at h ⊢
    split at h
    · cases h
    · exact windowLoop_mono k _ _ h (by omega)
    · exact h

end

section
variable {σ : Type} {S : Sys σ}

theorem overKids_of {f g : σ → Block → Option (σ × Block)} (h : ∀ s b r, f s b = some r → g s b = some r) :
    ∀ (bs : List Block) (s : σ) {r}, overKids f s bs = some r → overKids g s bs = some r
  | [], s, r, hr => hr
  | b :: bs, s, r, hr => by
    unfold overKids at hr ⊢
    split at hr
    · cases hr
    · rename_i s1 b1 e1
      split at hr
      · cases hr
      · rename_i s2 b2 e2
        rw [h _ _ _ e1]
        dsimp only
        rw [overKids_of h bs s1 e2]
        exact hr

theorem windowAuxN_mono {numVars passes N : Nat} (hN : passes ≤ N) : ∀ (fuel : Nat) (s : σ) (b : Block) (r : σ × Block),
    windowAuxN S numVars passes fuel s b = some r → windowAuxN S numVars N fuel s b = some r
  | 0, _, _, _, h => by cases h
  | fuel + 1, s, .mk f l rr cs, r, h => by
    unfold windowAuxN at h ⊢
    split at h
    · cases h
    · rename_i s1 ks e1
      split at h
      · cases h
      · rename_i s2 cs2 e2
        have e1' : (if rr then
            if numVars + 1 < cs.length then none else
            (windowLoop (exchange S) (fun p => S.size p.1) numVars cs.length N
              (s, tagged cs) (fun _ => true)).map (·.1)
           else some (s, tagged cs)) = some (s1, ks) := by
          cases rr with
          | false => exact e1
          | true =>
            simp only [if_true] at e1 ⊢
            split at e1
            · cases e1
            · rename_i c
              rw [if_neg c]
              cases e : windowLoop (exchange S) (fun p => S.size p.1) numVars cs.length passes (s, tagged cs) (fun _ => true) with
              | none => rw [e] at e1; cases e1
              | some q => rw [windowLoop_mono _ _ _ e hN, ← e]; exact e1
        rw [e1']
        dsimp only
        rw [overKids_of (fun s b r => windowAuxN_mono hN fuel s b r) _ _ e2]
        exact h

theorem overKids_N {f : σ → Block → Option (σ × Block)} {g : Nat → σ → Block → Option (σ × Block)}
    (h : ∀ s b r, f s b = some r → ∃ N0, ∀ N, N0 ≤ N → g N s b = some r) :
    ∀ (bs : List Block) (s : σ) {r}, overKids f s bs = some r → ∃ N0, ∀ N, N0 ≤ N → overKids (g N) s bs = some r
  | [], s, r, hr => ⟨0, fun _ _ => hr⟩
  | b :: bs, s, r, hr => by
    unfold overKids at hr
    split at hr
    · cases hr
    · rename_i s1 b1 e1
      split at hr
      · cases hr
      · rename_i s2 b2 e2
        obtain ⟨N1, h1⟩ := h _ _ _ e1
        obtain ⟨N2, h2⟩ := overKids_N h bs s1 e2
        refine ⟨max N1 N2, fun N hN => ?_⟩
        unfold overKids
        rw [h1 N (by omega)]
        dsimp only
        rw [h2 N (by omega)]
        exact hr

/-- The passes the algorithm takes are some number of passes. -/
theorem windowAux_N {numVars : Nat} : ∀ (fuel : Nat) (s : σ) (b : Block) (r : σ × Block),
    windowAux S numVars fuel s b = some r → ∃ N0, ∀ N, N0 ≤ N → windowAuxN S numVars N fuel s b = some r
  | 0, _, _, _, h => by cases h
  | fuel + 1, s, .mk f l rr cs, r, h => by
    unfold windowAux at h
    split at h
    · cases h
    · rename_i s1 ks e1
      split at h
      · cases h
      · rename_i s2 cs2 e2
        have e1' : ∀ N, (S.size s).toNat + 1 ≤ N → (if rr then
            if numVars + 1 < cs.length then none else
            (windowLoop (exchange S) (fun p => S.size p.1) numVars cs.length N
              (s, tagged cs) (fun _ => true)).map (·.1)
           else some (s, tagged cs)) = some (s1, ks) := by
          intro N hN
          cases rr with
          | false => exact e1
          | true =>
            simp only [if_true] at e1 ⊢
            split at e1
            · cases e1
            · rename_i c
              rw [if_neg c]
              cases e : windowLoop (exchange S) (fun p => S.size p.1) numVars cs.length ((S.size s).toNat + 1) (s, tagged cs) (fun _ => true) with
              | none => rw [e] at e1; cases e1
              | some q => rw [windowLoop_mono _ _ _ e hN, ← e]; exact e1
        obtain ⟨N2, h2⟩ := overKids_N (fun s b r => windowAux_N fuel s b r) _ _ e2
        refine ⟨max ((S.size s).toNat + 1) N2, fun N hN => ?_⟩
        unfold windowAuxN
        rw [e1' N (by omega)]
        dsimp only
        rw [h2 N (by omega)]
        exact h

theorem reorderWindowN_mono {numVars passes N : Nat} (hN : passes ≤ N) {s : σ} {b : Block} {r : σ × Block}
    (h : reorderWindowN S numVars passes s b = some r) : reorderWindowN S numVars N s b = some r :=
  windowAuxN_mono hN _ _ _ _ h

theorem reorderWindow_N {numVars : Nat} {s : σ} {b : Block} {r : σ × Block} (h : reorderWindow S numVars s b = some r) :
    ∃ N0, ∀ N, N0 ≤ N → reorderWindowN S numVars N s b = some r :=
  windowAux_N _ _ _ _ h

end

/-! ## Sizes -/

section
variable {σ : Type} {S : Sys σ} {J U : σ → Prop} {o : σ → Int → Nat} {n : Nat}

/-- The size of the states of an order in which no count has saturated. -/
noncomputable def sizeFor (S : Sys σ) (J U : σ → Prop) (o : σ → Int → Nat) (n : Nat) (l : List Nat) : Int :=
  open Classical in
  if h : ∃ s, J s ∧ U s ∧ 0 ≤ S.size s ∧ (upto 0 n).map (o s) = l then S.size (Classical.choose h) else 0

/-- Sizes are determined by the order among the states with `U`. -/
structure Fixed (S : Sys σ) (J U : σ → Prop) (o : σ → Int → Nat) (n : Nat) : Prop where
  ok : SysOK S J o n
  down : Down S.ex J U
  reset : ∀ s, J s → (U (S.reset s) → U s)
  pos : ∀ s, 0 ≤ S.size s
  same : ∀ s s', J s → U s → J s' → U s' → (upto 0 n).map (o s) = (upto 0 n).map (o s') → S.size s = S.size s'

theorem Fixed.agree (F : Fixed S J U o n) : Agree S (fun s => sizeFor S J U o n ((upto 0 n).map (o s))) J U := by
  refine ⟨F.down, fun s js us => ?_, fun s js => ⟨(F.ok.reset s js).1, F.reset s js⟩⟩
  have h : ∃ t, J t ∧ U t ∧ 0 ≤ S.size t ∧ (upto 0 n).map (o t) = (upto 0 n).map (o s) := ⟨s, js, us, F.pos s, rfl⟩
  unfold sizeFor
  rw [dif_pos h]
  obtain ⟨h1, h2, -, h4⟩ := Classical.choose_spec h
  exact F.same _ _ h1 h2 js us h4

theorem Fixed.sizeOf : SizeOf (S.sized fun s => sizeFor S J U o n ((upto 0 n).map (o s))) J o n (sizeFor S J U o n) :=
  fun _ _ => rfl

theorem sizeFor_pos (l : List Nat) : 0 ≤ sizeFor S J U o n l := by
  unfold sizeFor
  split
  · rename_i h; exact (Classical.choose_spec h).2.2.1
  · exact Int.le_refl _

theorem Fixed.ok' (F : Fixed S J U o n) (sz : σ → Int) : SysOK (S.sized sz) J o n := ⟨F.ok.ex, F.ok.reset⟩

theorem Fixed.swap (F : Fixed S J U o n) : Agree (S.sized fun s => sizeFor S J U o n ((upto 0 n).map (o s))) S.size J U :=
  ⟨F.down, fun s js us => (F.agree.size s js us).symm, F.agree.reset⟩

end

end Cal.Sift
