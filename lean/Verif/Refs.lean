import Verif.BFRun

/-!
# Reference counts are exact

Every count is either saturated (255) or equals the number of arcs into the node plus the number of
references held from outside (`ext`).
-/

namespace Cal

/-- `f 0 + f 1 + ... + f (n-1)` -/
def sumTo (f : Nat → Nat) : Nat → Nat
  | 0 => 0
  | n+1 => sumTo f n + f n

theorem sumTo_congr {f g : Nat → Nat} {n} (h : ∀ a, a < n → f a = g a) : sumTo f n = sumTo g n := by
  induction n with
  | zero => rfl
  | succ n ih => rw [sumTo, sumTo, ih (fun a ha => h a (by omega)), h n (by omega)]

theorem sumTo_add (f g : Nat → Nat) (n) : sumTo (fun a => f a + g a) n = sumTo f n + sumTo g n := by
  induction n with
  | zero => rfl
  | succ n ih => simp only [sumTo, ih]; omega

theorem sumTo_zero {f : Nat → Nat} {n} (h : ∀ a, a < n → f a = 0) : sumTo f n = 0 := by
  induction n with
  | zero => rfl
  | succ n ih => rw [sumTo, ih (fun a ha => h a (by omega)), h n (by omega)]

theorem sumTo_ext {f : Nat → Nat} {n m} (h : ∀ a, n ≤ a → f a = 0) (hm : n ≤ m) :
    sumTo f m = sumTo f n := by
  induction m with
  | zero => have : n = 0 := by omega
            rw [this]
  | succ m ih =>
    by_cases hn : n = m + 1
    · rw [hn]
    · rw [sumTo, ih (by omega), h m (by omega)]; rfl

/-- two summands that agree except at `a` -/
theorem sumTo_change {f g : Nat → Nat} {n a} (ha : a < n) (h : ∀ b, b ≠ a → f b = g b) :
    sumTo f n + g a = sumTo g n + f a := by
  induction n with
  | zero => omega
  | succ n ih =>
    simp only [sumTo]
    by_cases hn : a = n
    · subst hn
      rw [sumTo_congr (g := g) (fun b hb => h b (by omega))]; omega
    · have := ih (by omega)
      rw [h n (by omega)]; omega

theorem sumTo_pos {f : Nat → Nat} {n} (h : 0 < sumTo f n) : ∃ a, a < n ∧ 0 < f a := by
  induction n with
  | zero => simp [sumTo] at h
  | succ n ih =>
    simp only [sumTo] at h
    by_cases hf : 0 < f n
    · exact ⟨n, by omega, hf⟩
    · obtain ⟨a, h1, h2⟩ := ih (by omega)
      exact ⟨a, by omega, h2⟩

theorem sumTo_ge {f : Nat → Nat} {n a} (ha : a < n) : f a ≤ sumTo f n := by
  induction n with
  | zero => omega
  | succ n ih =>
    simp only [sumTo]
    by_cases hn : a = n
    · subst hn; omega
    · have := ih (by omega); omega

/-- 1 if the edge points to `x` -/
def hits (e : Edge) (x : Nat) : Nat := if e.addr = x then 1 else 0

@[simp] theorem hits_not (e : Edge) (x) : hits e.not x = hits e x := rfl
@[simp] theorem hits_phase (e : Edge) (c) (x) : hits (e.phase c) x = hits e x := rfl

/-- number of arcs from the node at `a` to `x` -/
def Store.arcs (s : Store) (a x : Nat) : Nat :=
  match s.heap a with
  | some n => hits n.thn x + hits n.els x
  | none => 0

/-- number of arcs from nodes to `x` -/
def Store.inDeg (s : Store) (x : Nat) : Nat := sumTo (fun a => s.arcs a x) s.next

/-- All reference counts are exact or saturated; `ext x` references to `x` are held from outside. -/
structure Store.RefOK (s : Store) (ext : Nat → Nat) : Prop where
  const : s.ref 0 = maxRef
  le : ∀ a, s.heap a ≠ none → s.ref a ≤ maxRef
  cnt : ∀ a, s.heap a ≠ none → s.ref a = maxRef ∨ s.ref a = s.inDeg a + ext a
  ext0 : ∀ a, a ≠ 0 → s.heap a = none → ext a = 0

/-- `numNodes` is the number of nodes in the unique tables, plus one for the constant node
(`numNodes = 1` in `Cal_BddManagerInit` (calBddManager.c:139-282)). -/
def Store.NumOK (s : Store) : Prop :=
  s.numNodes = 1 + sumTo (fun i => (s.tab i).length) (s.ord.numVars + 1)

/-- What every operation keeps besides the nodes: counts stay exact for the same outside references,
and `numNodes` stays right. -/
def Store.Keep (s s' : Store) : Prop :=
  (∀ ext, s.RefOK ext → s'.RefOK ext) ∧ (s.NumOK → s'.NumOK)

theorem Store.Keep.refl (s : Store) : s.Keep s := ⟨fun _ h => h, fun h => h⟩

theorem Store.Keep.trans {s s' s'' : Store} (h : s.Keep s') (h' : s'.Keep s'') : s.Keep s'' :=
  ⟨fun e h0 => h'.1 e (h.1 e h0), fun h0 => h'.2 (h.2 h0)⟩

theorem Store.NumOK.congr {s s' : Store} (h : s.NumOK) (ho : s'.ord = s.ord) (ht : s'.tab = s.tab)
    (hn : s'.numNodes = s.numNodes) : s'.NumOK := by
  unfold Store.NumOK at *; rw [hn, ht, ho]; exact h

theorem Store.NumOK.add {s s' : Store} (h : s.NumOK) {i a} (hi : i ≤ s.ord.numVars)
    (ho : s'.ord = s.ord) (ht : s'.tab = upd s.tab i (a :: s.tab i))
    (hn : s'.numNodes = s.numNodes + 1) : s'.NumOK := by
  unfold Store.NumOK at *
  rw [hn, ht, ho, h]
  have := sumTo_change (f := fun j => (upd s.tab i (a :: s.tab i) j).length)
    (g := fun j => (s.tab j).length) (n := s.ord.numVars + 1) (a := i) (by omega)
    (fun j hj => by simp [upd_ne _ _ hj])
  simp only [upd_same, List.length_cons] at this
  omega

namespace BF

variable {P : Type} {K : Kernel P} {S : KernelSem K}

/-- a constant, a node or a request -/
def EVx (b : BF P) (e : Edge) : Prop :=
  b.st.EOK e ∨ ∃ r, b.req e.addr = some r ∧ r.id = e.id

theorem EV.x {b : BF P} {d e} (h : b.EV d e) : b.EVx e := by
  rcases h with h | ⟨r, h1, h2, _⟩
  · exact Or.inl h
  · exact Or.inr ⟨r, h1, h2⟩

theorem EVx.mono {b b' : BF P} (h : b.Le b') {e} (he : b.EVx e) : b'.EVx e := by
  rcases he with he | ⟨r, hr, h1⟩
  · exact Or.inl (he.mono h.st)
  · rcases h.req _ _ hr with ⟨r', h', e1, e2⟩ | ⟨n, hn, hv⟩
    · exact Or.inr ⟨r', h', by omega⟩
    · exact Or.inl (Or.inr ⟨n, hn, by omega⟩)

theorem EVx.phase {b : BF P} {e} (he : b.EVx e) (c : Bool) : b.EVx (e.phase c) := he

/-- The part of the structural invariant that does not depend on the operation. -/
structure QShape (b : BF P) : Prop where
  wf : b.st.WF
  req_ok : ∀ a r, b.req a = some r → b.st.heap a = none ∧ 0 < a ∧ a < b.st.next ∧
    (∀ i, a ∉ b.st.free i)
  req_id : ∀ a r, b.req a = some r → 1 ≤ r.id ∧ r.id ≤ b.st.ord.numVars
  que_iff : ∀ d i a, a ∈ b.que d i ↔ ∃ r, b.req a = some r ∧ r.id = i ∧ r.dep = d
  que_nodup : ∀ d i, (b.que d i).Nodup
  done_thn : ∀ a i d t e, b.req a = some ⟨i, d, .done t e⟩ → b.EVx t
  done_els : ∀ a i d t e, b.req a = some ⟨i, d, .done t e⟩ → b.EVx e
  half_ok : ∀ a i d e, b.req a = some ⟨i, d, .half e⟩ → b.EVx e
  fwd_ok : ∀ a i d t, b.req a = some ⟨i, d, .fwd t⟩ → b.st.EOK t

theorem Shape.q {b : BF P} (sh : Shape S b) : QShape b where
  wf := sh.wf
  req_ok := sh.req_ok
  req_id := sh.req_id
  que_iff := sh.que_iff
  que_nodup := sh.que_nodup
  done_thn := fun a i d t e hr => (sh.done_thn a i d t e hr).1.x
  done_els := fun a i d t e hr => (sh.done_els a i d t e hr).1.x
  half_ok := fun a i d e hr => absurd hr (sh.nohalf a i d e)
  fwd_ok := fun a i d t hr => (sh.fwd_ok a i d t hr).1

theorem QShape.fresh {b : BF P} (h : QShape b) (i : Nat) : ¬ b.Used (b.st.alloc i).1 := by
  have sp := (Store.alloc_spec h.wf i).1
  rintro (h0 | hh | hr)
  · have := sp.pos; omega
  · exact hh sp.old
  · cases hn : b.req (b.st.alloc i).1 with
    | none => exact hr hn
    | some r =>
      have := h.req_ok _ _ hn
      rcases sp.was_free with ⟨j, hj⟩ | hj
      · exact this.2.2.2 j hj
      · rw [hj] at this; omega

/-- number of arcs from the node or applied request at `a` to `x`, requests being replaced by what
they are forwarded to -/
def arcs (b : BF P) (a x : Nat) : Nat :=
  match b.st.heap a with
  | some n => hits n.thn x + hits n.els x
  | none =>
    match b.req a with
    | some ⟨_, _, .done t e⟩ => hits (b.forward t) x + hits (b.forward e) x
    | some ⟨_, _, .half e⟩ => hits (b.forward e) x
    | _ => 0

def inDeg (b : BF P) (x : Nat) : Nat := sumTo (fun a => b.arcs a x) b.st.next

/-- a node, or a request not yet forwarded -/
def Live (b : BF P) (x : Nat) : Prop :=
  b.st.heap x ≠ none ∨ ∃ r, b.req x = some r ∧ ∀ t, r.cell ≠ .fwd t

structure RefOK (b : BF P) (ext : Nat → Nat) : Prop where
  const : b.st.ref 0 = maxRef
  le : ∀ a, b.Live a → b.st.ref a ≤ maxRef
  cnt : ∀ a, b.Live a → b.st.ref a = maxRef ∨ b.st.ref a = b.inDeg a + ext a
  ext0 : ∀ a, a ≠ 0 → ¬ b.Live a → ext a = 0

theorem forward_eq_or {b : BF P} (e : Edge) :
    (b.forward e = e ∧ ∀ i d t, b.req e.addr ≠ some ⟨i, d, .fwd t⟩) ∨
      ∃ i d t, b.req e.addr = some ⟨i, d, .fwd t⟩ ∧ b.forward e = t.phase e.neg := by
  unfold forward
  split
  · rename_i i d t h; exact Or.inr ⟨i, d, t, h, rfl⟩
  · rename_i h; exact Or.inl ⟨rfl, fun i d t h' => h i d t h'⟩

/-- The target of a forwarded valid edge is in use and is not a forwarded request. -/
theorem forward_live {b : BF P} (sh : QShape b) {e} (he : b.EVx e) :
    (b.forward e).addr = 0 ∨ b.Live (b.forward e).addr := by
  rcases forward_eq_or (b := b) e with ⟨h, hn⟩ | ⟨i, d', t, hr, h⟩
  · rw [h]
    rcases he with (⟨_, h0⟩ | ⟨n, hh, _⟩) | ⟨r, hr, _⟩
    · exact Or.inl h0
    · exact Or.inr (Or.inl (by rw [hh]; simp))
    · refine Or.inr (Or.inr ⟨r, hr, ?_⟩)
      intro t ht
      obtain ⟨i, d, c⟩ := r
      simp only at ht; subst ht
      exact hn _ _ _ hr
  · rw [h]
    rcases sh.fwd_ok _ _ _ _ hr with ⟨_, h0⟩ | ⟨n, hh, _⟩
    · exact Or.inl h0
    · exact Or.inr (Or.inl (by simp [hh]))

theorem arcs_target {b : BF P} (sh : QShape b) {a x} (h : 0 < b.arcs a x) : x = 0 ∨ b.Live x := by
  have key : ∀ e : Edge, 0 < hits e x → e.addr = x := by
    intro e he; unfold hits at he; split at he
    · assumption
    · omega
  unfold arcs at h
  cases hh : b.st.heap a with
  | some n =>
    rw [hh] at h; simp only at h
    have eok : ∀ e, b.st.EOK e → 0 < hits e x → x = 0 ∨ b.Live x := by
      intro e he hx
      have := key e hx
      rcases he with ⟨_, h0⟩ | ⟨m, hm, _⟩
      · left; omega
      · right; left; rw [← this, hm]; simp
    by_cases h1 : 0 < hits n.thn x
    · exact eok _ (sh.wf.thn_ok a n hh) h1
    · exact eok _ (sh.wf.els_ok a n hh) (by omega)
  | none =>
    rw [hh] at h; simp only at h
    cases hr : b.req a with
    | none => rw [hr] at h; simp at h
    | some r =>
      rw [hr] at h
      obtain ⟨i, d, c⟩ := r
      have fin : ∀ e, b.EVx e → 0 < hits (b.forward e) x → x = 0 ∨ b.Live x := by
        intro e he hx
        have := key _ hx
        rcases forward_live sh he with h0 | h0
        · left; omega
        · right; rw [← this]; exact h0
      cases c with
      | pend p => simp at h
      | fwd t => simp at h
      | done t e =>
        simp only at h
        by_cases h1 : 0 < hits (b.forward t) x
        · exact fin _ (sh.done_thn _ _ _ _ _ hr) h1
        · exact fin _ (sh.done_els _ _ _ _ _ hr) (by omega)
      | half e => exact fin _ (sh.half_ok _ _ _ _ hr) h

/-- nothing points to an address that is not live -/
theorem inDeg_dead {b : BF P} (sh : QShape b) {x} (h0 : x ≠ 0) (h : ¬ b.Live x) : b.inDeg x = 0 := by
  unfold inDeg
  apply sumTo_zero
  intro a _
  rcases Nat.eq_zero_or_pos (b.arcs a x) with h1 | h1
  · exact h1
  · rcases arcs_target sh h1 with h2 | h2
    · exact absurd h2 h0
    · exact absurd h2 h

theorem arcs_beyond {b : BF P} (sh : QShape b) {a x} (h : b.st.next ≤ a) : b.arcs a x = 0 := by
  unfold arcs
  cases hh : b.st.heap a with
  | some n => have := sh.wf.heap_next a n hh; omega
  | none =>
    cases hr : b.req a with
    | none => rfl
    | some r => have := (sh.req_ok a r hr).2.2.1; omega

theorem not_live_of_not_used {b : BF P} {x} (h : ¬ b.Used x) : ¬ b.Live x := by
  rintro (h1 | ⟨r, h1, _⟩)
  · exact h (Or.inr (Or.inl h1))
  · exact h (Or.inr (Or.inr (by rw [h1]; simp)))

/-! ### Changes of the counts only -/

theorem RefOK.of_ref {b : BF P} {ext ext' : Nat → Nat} (h : b.RefOK ext) {ref : Nat → Nat}
    (h0 : ref 0 = maxRef)
    (hl : ∀ a, a ≠ 0 → b.Live a → ref a ≤ maxRef ∧ (ref a = maxRef ∨ ref a + ext a = b.st.ref a + ext' a))
    (hm : ∀ a, a ≠ 0 → b.Live a → b.st.ref a = maxRef → ref a = maxRef)
    (h00 : ¬ b.Live 0)
    (he : ∀ a, a ≠ 0 → ¬ b.Live a → ext' a = 0) :
    RefOK { b with st := { b.st with ref := ref } } ext' := by
  have key : ∀ a, a ≠ 0 → b.Live a → ref a = maxRef ∨ ref a = b.inDeg a + ext' a := by
    intro a ha hlv
    have hc := h.cnt a hlv
    rcases (hl a ha hlv).2 with h1 | h1
    · exact Or.inl h1
    · rcases hc with h2 | h2
      · exact Or.inl (hm a ha hlv h2)
      · right; omega
  refine ⟨h0, fun a hlv => ?_, fun a hlv => ?_, fun a ha hlv => ?_⟩
  · have hlv' : b.Live a := hlv
    have ha : a ≠ 0 := by rintro rfl; exact h00 hlv'
    exact (hl a ha hlv').1
  · have hlv' : b.Live a := hlv
    have ha : a ≠ 0 := by rintro rfl; exact h00 hlv'
    exact key a ha hlv'
  · exact he a ha hlv

theorem QShape.live0 {b : BF P} (sh : QShape b) : ¬ b.Live 0 := by
  rintro (h | ⟨r, h, _⟩)
  · exact h sh.wf.heap0
  · have := (sh.req_ok 0 r h).2.1; omega

/-- one more outside reference -/
def bump (ext : Nat → Nat) (x : Nat) : Nat → Nat := upd ext x (ext x + 1)

theorem RefOK.icr {b : BF P} (sh : QShape b) {ext : Nat → Nat} (h : b.RefOK ext) {e : Edge}
    (he : e.addr = 0 ∨ b.Live e.addr) : (b.icr e).RefOK (bump ext e.addr) := by
  refine RefOK.of_ref h (ref := upd b.st.ref e.addr
    (if b.st.ref e.addr < maxRef then b.st.ref e.addr + 1 else maxRef)) ?_ ?_ ?_ sh.live0 ?_
  · by_cases h0 : e.addr = 0
    · rw [h0, upd_same]; simp [h.const]
    · rw [upd_ne _ _ (Ne.symm h0)]; exact h.const
  · intro a ha hl
    have hle := h.le a hl
    by_cases hx : a = e.addr
    · subst hx
      simp only [bump, upd_same]
      split
      · refine ⟨by omega, Or.inr (by omega)⟩
      · exact ⟨Nat.le_refl _, Or.inl rfl⟩
    · simp only [bump, upd_ne _ _ hx]; exact ⟨hle, Or.inr trivial⟩
  · intro a ha hl hm
    by_cases hx : a = e.addr
    · subst hx; simp [hm]
    · rw [upd_ne _ _ hx]; exact hm
  · intro a ha hl
    by_cases hx : a = e.addr
    · subst hx
      rcases he with h1 | h1
      · exact absurd h1 ha
      · exact absurd h1 hl
    · simp only [bump, upd_ne _ _ hx]; exact h.ext0 a ha hl

/-! ### New requests -/

theorem RefOK.push {b : BF P} (sh : QShape b) {ext : Nat → Nat} (h : b.RefOK ext) (d i : Nat)
    (p : P) : (b.pushReq d i p).RefOK ext := by
  obtain ⟨sp, w'⟩ := Store.alloc_spec sh.wf i
  have hfr := sh.fresh i
  have hnl := not_live_of_not_used hfr
  generalize ha : (b.st.alloc i).1 = a at *
  have hheap : (b.pushReq d i p).st.heap = b.st.heap := Store.alloc_heap _ _
  have hreq : ∀ x, x ≠ a → (b.pushReq d i p).req x = b.req x := by
    intro x hx; show upd b.req (b.st.alloc i).1 _ x = _; rw [ha, upd_ne _ _ hx]
  have hreqa : (b.pushReq d i p).req a = some ⟨i, d, .pend p⟩ := by
    show upd b.req (b.st.alloc i).1 _ a = _; rw [ha, upd_same]
  have hna : b.req a = none := by
    cases hq : b.req a with
    | none => rfl
    | some r => exact absurd (Or.inr (Or.inr (by rw [hq]; simp))) hfr
  have hfwd : ∀ e, (b.pushReq d i p).forward e = b.forward e := by
    intro e
    unfold forward
    by_cases hx : e.addr = a
    · rw [hx, hreqa, hna]
    · rw [hreq _ hx]
  have harcs : ∀ c x, (b.pushReq d i p).arcs c x = b.arcs c x := by
    intro c x
    unfold arcs
    rw [hheap]
    by_cases hx : c = a
    · subst hx; rw [hreqa, hna]
    · rw [hreq _ hx]; simp only [hfwd]
  have hdeg : ∀ x, (b.pushReq d i p).inDeg x = b.inDeg x := by
    intro x
    unfold inDeg
    simp only [harcs]
    exact sumTo_ext (fun c hc => arcs_beyond sh hc) sp.next_le
  have hlive : ∀ x, x ≠ a → ((b.pushReq d i p).Live x ↔ b.Live x) := by
    intro x hx; unfold Live; rw [hheap, hreq x hx]
  have href : ∀ x, x ≠ a → (b.pushReq d i p).st.ref x = b.st.ref x := by
    intro x hx
    show (b.st.alloc i).2.ref x = _
    unfold Store.alloc at ha ⊢
    split at ha <;> simp only at ha ⊢ <;> subst ha <;> exact upd_ne _ _ hx
  have hrefa : (b.pushReq d i p).st.ref a = 0 := by
    show (b.st.alloc i).2.ref a = _
    unfold Store.alloc at ha ⊢
    split at ha <;> simp only at ha ⊢ <;> subst ha <;> exact upd_same _ _ _
  have ha0 : a ≠ 0 := by have := sp.pos; omega
  refine ⟨?_, ?_, ?_, ?_⟩
  · rw [href 0 (Ne.symm ha0)]; exact h.const
  · intro x hl
    by_cases hx : x = a
    · rw [hx, hrefa]; exact Nat.zero_le _
    · rw [href x hx]; exact h.le x ((hlive x hx).1 hl)
  · intro x hl
    by_cases hx : x = a
    · right; rw [hx, hrefa, hdeg, inDeg_dead sh ha0 hnl, h.ext0 a ha0 hnl]
    · rw [href x hx, hdeg]; exact h.cnt x ((hlive x hx).1 hl)
  · intro x h0 hl
    by_cases hx : x = a
    · rw [hx]; exact h.ext0 a ha0 hnl
    · exact h.ext0 x h0 (fun hl' => hl ((hlive x hx).2 hl'))

theorem RefOK.findOrAddReq [DecidableEq P] {b b' : BF P} {r d i} {p : P} (sh : QShape b) {ext}
    (hR : b.RefOK ext) (h : b.findOrAddReq d i p = some (b', r)) : b'.RefOK ext := by
  unfold BF.findOrAddReq at h
  split at h
  · cases h
  · cases h; exact hR
  · cases h; exact hR.push sh d i p

theorem RefOK.request [DecidableEq P] {b b' : BF P} {r d} {p : P} (sh : QShape b) {ext}
    (hR : b.RefOK ext) (h : b.request K d p = some (b', r)) : b'.RefOK ext := by
  unfold BF.request at h
  split at h
  · cases h; exact hR
  · split at h
    · cases h
    · rename_i h1; cases h; exact hR.findOrAddReq sh h1

/-! ### Applying a request -/

/-- no request is forwarded yet -/
theorem AInv.no_fwd {M : Bnd} {b : BF P} {k D L} (inv : AInv S M b k D L) {a i d t} :
    b.req a ≠ some ⟨i, d, .fwd t⟩ := by
  intro hr
  by_cases h : b.ToDo k D L a ⟨i, d, .fwd t⟩
  · obtain ⟨p, hp⟩ := inv.todo _ _ hr h; cases hp
  · obtain ⟨t', e', hp⟩ := inv.past _ _ hr h; cases hp

theorem RefOK.set_done {b : BF P} (sh : QShape b) (hnf : ∀ a i d t, b.req a ≠ some ⟨i, d, .fwd t⟩)
    {ext : Nat → Nat} {t e : Edge} (h : b.RefOK (bump (bump ext t.addr) e.addr)) {a i d p}
    (hr : b.req a = some ⟨i, d, .pend p⟩) (hext : ∀ x, x ≠ 0 → ¬ b.Live x → ext x = 0) :
    RefOK { b with req := upd b.req a (some ⟨i, d, .done t e⟩) } ext := by
  have hra := sh.req_ok _ _ hr
  generalize hb' : ({ b with req := upd b.req a (some ⟨i, d, .done t e⟩) } : BF P) = b'
  have hst : b'.st = b.st := by rw [← hb']
  have hreq : ∀ x, x ≠ a → b'.req x = b.req x := by
    intro x hx; rw [← hb']; exact upd_ne _ _ hx
  have hreqa : b'.req a = some ⟨i, d, .done t e⟩ := by rw [← hb']; exact upd_same _ _ _
  have hf : ∀ x : Edge, b.forward x = x := by
    intro x
    rcases forward_eq_or (b := b) x with ⟨h, _⟩ | ⟨i, d, t, h, _⟩
    · exact h
    · exact absurd h (hnf _ _ _ _)
  have hf' : ∀ x : Edge, b'.forward x = x := by
    intro x
    rcases forward_eq_or (b := b') x with ⟨h, _⟩ | ⟨i, d, t, h, _⟩
    · exact h
    · by_cases hx : x.addr = a
      · rw [hx, hreqa] at h; cases h
      · rw [hreq _ hx] at h; exact absurd h (hnf _ _ _ _)
  have harcs : ∀ c x, c ≠ a → b'.arcs c x = b.arcs c x := by
    intro c x hc; unfold arcs; rw [hst, hreq c hc]; simp only [hf, hf']
  have harca : ∀ x, b'.arcs a x = hits t x + hits e x := by
    intro x; unfold arcs; rw [hst, hra.1, hreqa]; simp only [hf']
  have harca0 : ∀ x, b.arcs a x = 0 := by
    intro x; unfold arcs; rw [hra.1, hr]
  have hdeg : ∀ x, b'.inDeg x = b.inDeg x + hits t x + hits e x := by
    intro x
    unfold inDeg
    rw [hst]
    have := sumTo_change (f := fun c => b'.arcs c x) (g := fun c => b.arcs c x) hra.2.2.1
      (fun c hc => harcs c x hc)
    simp only [harca, harca0] at this
    omega
  have hlive : ∀ x, b'.Live x ↔ b.Live x := by
    intro x
    unfold Live
    rw [hst]
    by_cases hx : x = a
    · rw [hx, hreqa, hr]
      constructor
      · intro _; exact Or.inr ⟨_, rfl, by simp⟩
      · intro _; exact Or.inr ⟨_, rfl, by simp⟩
    · rw [hreq x hx]
  have hb : ∀ x, bump (bump ext t.addr) e.addr x = ext x + hits t x + hits e x := by
    intro x
    unfold bump hits upd
    by_cases h1 : x = t.addr
    · by_cases h2 : x = e.addr
      · subst h1; simp [h2]
      · subst h1; simp [h2]; intro h3; exact absurd h3.symm h2
    · by_cases h2 : x = e.addr
      · subst h2
        simp [h1]
        have : ¬ t.addr = e.addr := fun h => h1 h.symm
        simp [this]
      · have h3 : ¬ t.addr = x := fun h => h1 h.symm
        have h4 : ¬ e.addr = x := fun h => h2 h.symm
        simp [h1, h2, h3, h4]
  refine ⟨?_, ?_, ?_, ?_⟩
  · rw [hst]; exact h.const
  · intro x hl; rw [hst]; exact h.le x ((hlive x).1 hl)
  · intro x hl
    rw [hst, hdeg]
    rcases h.cnt x ((hlive x).1 hl) with h1 | h1
    · exact Or.inl h1
    · right; rw [h1, hb]; omega
  · intro x hx hl
    exact hext x hx (fun h' => hl ((hlive x).2 h'))

theorem live_of_EV {b : BF P} (hnf : ∀ a i d t, b.req a ≠ some ⟨i, d, .fwd t⟩)
    {e} (he : b.EVx e) : e.addr = 0 ∨ b.Live e.addr := by
  rcases he with (⟨_, h0⟩ | ⟨n, hh, _⟩) | ⟨r, hr, _⟩
  · exact Or.inl h0
  · exact Or.inr (Or.inl (by rw [hh]; simp))
  · refine Or.inr (Or.inr ⟨r, hr, ?_⟩)
    intro t ht
    obtain ⟨i, d, c⟩ := r
    simp only at ht; subst ht
    exact hnf _ _ _ _ hr

theorem RefOK.applyOne [DecidableEq P] {M : Bnd} {b b' : BF P} {k D a L}
    (inv : AInv S M b k D (a :: L)) {δ} (hδ : BLab S b δ) {ext} (h : b.RefOK ext)
    (hap : b.applyOne K D a = some b') : b'.RefOK ext := by
  obtain ⟨i, p, p1, p2, b1, t, δ1, b2, e, δ2, hr, hl, hcof, q1, inv1, bl1, le1, ev1, lv1, q2, inv2,
    bl2, le2, ev2, lv2, ag12, hr2, htden, heden, hsh⟩ := applyOne_trace inv hδ
  have hb' : b' = { b2.icr e with req := upd (b2.icr e).req a (some ⟨i, D, .done t e⟩) } := by
    simp [BF.applyOne, hr, hcof, q1, q2] at hap
    exact hap.symm
  have r1 := h.request inv.shape.q q1
  have r1' := r1.icr inv1.shape.q (live_of_EV (fun _ _ _ _ => inv1.no_fwd) ev1.x)
  have r2 := r1'.request (inv1.icr t).shape.q q2
  have r2' := r2.icr inv2.shape.q (live_of_EV (fun _ _ _ _ => inv2.no_fwd) ev2.x)
  rw [hb']
  refine RefOK.set_done (inv2.icr e).shape.q (fun _ _ _ _ => (inv2.icr e).no_fwd) r2' (p := p) hr2 ?_
  intro x hx hlv
  have := r2'.ext0 x hx hlv
  unfold bump upd at this
  split at this
  · omega
  · split at this
    · omega
    · exact this

/-! ### Reducing a request -/

theorem EOK_ne_req {b : BF P} (sh : QShape b) {a r} (hr : b.req a = some r) {e : Edge}
    (he : b.st.EOK e) : e.addr ≠ a := by
  have := sh.req_ok a r hr
  rcases he with ⟨_, h0⟩ | ⟨n, hn, _⟩
  · omega
  · rintro rfl; rw [this.1] at hn; cases hn

theorem hits_ne {e : Edge} {x} (h : e.addr ≠ x) : hits e x = 0 := by simp [hits, h]
theorem hits_eq {e : Edge} {x} (h : e.addr = x) : hits e x = 1 := by simp [hits, h]

/-- Arcs into `x` after the request `a` is forwarded to `τ`. -/
theorem inDeg_fwdG {b b' : BF P} (sh : QShape b) {a r i' d'} {τ : Edge}
    (hr : b.req a = some r) (hnf : ∀ t, r.cell ≠ .fwd t) (haa : b.arcs a a = 0)
    (hheap : b'.st.heap = b.st.heap) (hnext : b'.st.next = b.st.next)
    (hreq : b'.req = upd b.req a (some ⟨i', d', .fwd τ⟩)) {x} (hx : x ≠ a) :
    b'.inDeg x + b.arcs a x = b.inDeg x + (if τ.addr = x then b.inDeg a else 0) := by
  have hne : ∀ e, b.st.EOK e → hits e a = 0 := fun e he => hits_ne (EOK_ne_req sh hr he)
  have hf : ∀ e : Edge, hits (b'.forward e) x =
      hits (b.forward e) x + (if τ.addr = x then hits (b.forward e) a else 0) := by
    intro e
    by_cases h1 : e.addr = a
    · have e1 : b.forward e = e := by
        rcases forward_eq_or (b := b) e with ⟨h, _⟩ | ⟨j, d1, t, h, h2⟩
        · exact h
        · rw [h1, hr] at h; cases h; exact absurd rfl (hnf t)
      have e2 : b'.forward e = τ.phase e.neg := by simp [forward, h1, hreq]
      rw [e1, e2, hits_ne (e := e) (x := x) (by omega), hits_eq h1, hits_phase]
      unfold hits; split <;> simp_all
    · have e1 : b'.forward e = b.forward e := by
        simp only [forward, hreq, upd_ne _ _ h1]
      rw [e1]
      have : hits (b.forward e) a = 0 := by
        rcases forward_eq_or (b := b) e with ⟨h, _⟩ | ⟨j, d1, t, h, h2⟩
        · rw [h]; exact hits_ne h1
        · rw [h2, hits_phase]; exact hne t (sh.fwd_ok _ _ _ _ h)
      simp [this]
  have harc : ∀ c, c ≠ a → b'.arcs c x = b.arcs c x + (if τ.addr = x then b.arcs c a else 0) := by
    intro c hc
    unfold arcs
    rw [hheap, hreq, upd_ne _ _ hc]
    cases hh : b.st.heap c with
    | some n =>
      simp only
      rw [hne _ (sh.wf.thn_ok c n hh), hne _ (sh.wf.els_ok c n hh)]; simp
    | none =>
      simp only
      split
      · rw [hf, hf]; split <;> omega
      · rw [hf]
      · simp
  have hra := sh.req_ok _ _ hr
  have h1 : b'.arcs a x = 0 := by unfold arcs; rw [hheap, hra.1, hreq, upd_same]
  have := sumTo_change (f := fun c => b'.arcs c x)
    (g := fun c => b.arcs c x + (if τ.addr = x then b.arcs c a else 0)) hra.2.2.1
    (fun c hc => harc c hc)
  simp only [h1, haa] at this
  unfold inDeg
  rw [hnext]
  rw [sumTo_add] at this
  have h4 : sumTo (fun c => if τ.addr = x then b.arcs c a else 0) b.st.next =
      if τ.addr = x then sumTo (fun c => b.arcs c a) b.st.next else 0 := by
    split
    · rfl
    · exact sumTo_zero (fun _ _ => rfl)
  rw [h4] at this
  simp only [ite_self, Nat.add_zero] at this
  omega

theorem arcs_done {b : BF P} (sh : QShape b) {a i d t0 e0}
    (hr : b.req a = some ⟨i, d, .done t0 e0⟩) (y : Nat) :
    b.arcs a y = hits (b.forward t0) y + hits (b.forward e0) y := by
  unfold arcs; rw [(sh.req_ok _ _ hr).1, hr]

theorem arcs_half {b : BF P} (sh : QShape b) {a i d e0}
    (hr : b.req a = some ⟨i, d, .half e0⟩) (y : Nat) :
    b.arcs a y = hits (b.forward e0) y := by
  unfold arcs; rw [(sh.req_ok _ _ hr).1, hr]

theorem inDeg_fwd {b b' : BF P} (sh : QShape b) {a i d t0 e0 i' d'} {τ : Edge}
    (hr : b.req a = some ⟨i, d, .done t0 e0⟩)
    (ht : b.st.EOK (b.forward t0)) (he : b.st.EOK (b.forward e0))
    (hheap : b'.st.heap = b.st.heap) (hnext : b'.st.next = b.st.next)
    (hreq : b'.req = upd b.req a (some ⟨i', d', .fwd τ⟩)) {x} (hx : x ≠ a) :
    b'.inDeg x + hits (b.forward t0) x + hits (b.forward e0) x =
      b.inDeg x + (if τ.addr = x then b.inDeg a else 0) := by
  have h := inDeg_fwdG sh hr (by simp) (by
    rw [arcs_done sh hr, hits_ne (EOK_ne_req sh hr ht), hits_ne (EOK_ne_req sh hr he)])
    hheap hnext hreq hx
  rw [arcs_done sh hr] at h
  omega

theorem live_fwd {b b' : BF P} (sh : QShape b) {a r i' d'} {τ : Edge}
    (hr : b.req a = some r) (hheap : b'.st.heap = b.st.heap)
    (hreq : b'.req = upd b.req a (some ⟨i', d', .fwd τ⟩)) {x} : b'.Live x ↔ x ≠ a ∧ b.Live x := by
  unfold Live
  rw [hheap, hreq]
  by_cases hx : x = a
  · subst hx
    simp [(sh.req_ok _ _ hr).1]
  · rw [upd_ne _ _ hx]; simp [hx]

/-- Forwarding a request keeps the counts exact if they are adjusted accordingly. -/
theorem RefOK.fwdG {b b' : BF P} (sh : QShape b) {ext} (h : b.RefOK ext) {a r i' d'}
    {τ : Edge} (hr : b.req a = some r) (hnf : ∀ t, r.cell ≠ .fwd t) (haa : b.arcs a a = 0)
    (hheap : b'.st.heap = b.st.heap) (hnext : b'.st.next = b.st.next)
    (hreq : b'.req = upd b.req a (some ⟨i', d', .fwd τ⟩))
    (hext : ext a = 0)
    (h0 : b'.st.ref 0 = maxRef)
    (hle : ∀ x, b.st.ref x ≤ maxRef → b'.st.ref x ≤ maxRef)
    (hcnt : ∀ x, x ≠ 0 → x ≠ a → b.Live x →
      b'.st.ref x = maxRef ∨ b.st.ref x ≠ maxRef ∧
      b'.st.ref x + b.arcs a x =
        b.st.ref x + (if τ.addr = x then b.inDeg a else 0)) : b'.RefOK ext := by
  have lv : ∀ {x}, b'.Live x ↔ x ≠ a ∧ b.Live x := live_fwd (b' := b') sh hr hheap hreq
  refine ⟨h0, ?_, ?_, ?_⟩
  · intro x hl; exact hle x (h.le x (lv.1 hl).2)
  · intro x hl
    obtain ⟨hx, hl⟩ := lv.1 hl
    have hx0 : x ≠ 0 := by rintro rfl; exact sh.live0 hl
    rcases hcnt x hx0 hx hl with h1 | ⟨h1, h3⟩
    · exact Or.inl h1
    · right
      have hd := inDeg_fwdG sh hr hnf haa hheap hnext hreq hx
      rcases h.cnt x hl with h2 | h2
      · exact absurd h2 h1
      · omega
  · intro x hx0 hl
    by_cases hx : x = a
    · rw [hx]; exact hext
    · exact h.ext0 x hx0 (fun h' => hl (lv.2 ⟨hx, h'⟩))

theorem RefOK.fwd {b b' : BF P} (sh : QShape b) {ext} (h : b.RefOK ext) {a i d t0 e0 i' d'}
    {τ : Edge} (hr : b.req a = some ⟨i, d, .done t0 e0⟩)
    (ht : b.st.EOK (b.forward t0)) (he : b.st.EOK (b.forward e0))
    (hheap : b'.st.heap = b.st.heap) (hnext : b'.st.next = b.st.next)
    (hreq : b'.req = upd b.req a (some ⟨i', d', .fwd τ⟩))
    (hext : ext a = 0)
    (h0 : b'.st.ref 0 = maxRef)
    (hle : ∀ x, b.st.ref x ≤ maxRef → b'.st.ref x ≤ maxRef)
    (hcnt : ∀ x, x ≠ 0 → x ≠ a → b.Live x →
      b'.st.ref x = maxRef ∨ b.st.ref x ≠ maxRef ∧
      b'.st.ref x + hits (b.forward t0) x + hits (b.forward e0) x =
        b.st.ref x + (if τ.addr = x then b.inDeg a else 0)) : b'.RefOK ext := by
  refine RefOK.fwdG sh h hr (by simp) (by
    rw [arcs_done sh hr, hits_ne (EOK_ne_req sh hr ht), hits_ne (EOK_ne_req sh hr he)])
    hheap hnext hreq hext h0 hle ?_
  intro x hx hxa hl
  rcases hcnt x hx hxa hl with h1 | ⟨h1, h2⟩
  · exact Or.inl h1
  · exact Or.inr ⟨h1, by rw [arcs_done sh hr]; omega⟩

theorem addRef_ne {s : Store} {e : Edge} {n : Int} {x : Nat} (h : x ≠ e.addr) :
    (s.addRef e n).ref x = s.ref x := by
  unfold Store.addRef
  split
  · exact upd_ne _ _ h
  · rfl

theorem addRef_sat {s : Store} {e : Edge} {n : Int} {x : Nat} (h : s.ref x = maxRef) :
    (s.addRef e n).ref x = maxRef := by
  by_cases hx : x = e.addr
  · subst hx; simp [Store.addRef, h]
  · rw [addRef_ne hx, h]

theorem addRef_lt {s : Store} {e : Edge} {n : Int} (h : s.ref e.addr < maxRef)
    (hn : 0 ≤ s.ref e.addr + n) :
    ((s.addRef e n).ref e.addr = maxRef ∨
      ((s.addRef e n).ref e.addr : Int) = s.ref e.addr + n) ∧ (s.addRef e n).ref e.addr ≤ maxRef ∧
    (254 < s.ref e.addr + n → (s.addRef e n).ref e.addr = maxRef) := by
  have h1 : ¬ ((s.ref e.addr : Int) + n < 0) := by omega
  unfold Store.addRef
  simp only [h, if_true, upd_same, h1, if_false]
  by_cases h2 : (maxRef : Int) < s.ref e.addr + n
  · simp [h2]
  · simp only [h2, if_false]
    simp only [maxRef] at *
    omega

theorem addRef_le {s : Store} {e : Edge} {n : Int} {x : Nat} (h : s.ref x ≤ maxRef) :
    (s.addRef e n).ref x ≤ maxRef := by
  by_cases hx : x = e.addr
  · subst hx
    unfold Store.addRef
    split
    · simp only [upd_same]
      by_cases h1 : ((s.ref e.addr : Int) + n < 0)
      · simp [h1]
      · simp only [h1, if_false]
        by_cases h2 : (maxRef : Int) < s.ref e.addr + n
        · simp [h2]
        · simp only [h2, if_false]; omega
    · exact h
  · rw [addRef_ne hx]; exact h

theorem dcr_ne {s : Store} {e : Edge} {x : Nat} (h : x ≠ e.addr) : (s.dcr e).ref x = s.ref x :=
  upd_ne _ _ h

theorem dcr_sat {s : Store} {e : Edge} {x : Nat} (h : s.ref x = maxRef) :
    (s.dcr e).ref x = maxRef := by
  by_cases hx : x = e.addr
  · subst hx; simp [Store.dcr, h]
  · rw [dcr_ne hx, h]

theorem dcr_lt {s : Store} {e : Edge} (h : s.ref e.addr ≠ maxRef) :
    (s.dcr e).ref e.addr = s.ref e.addr - 1 := by
  simp [Store.dcr, h]

theorem dcr_le {s : Store} {e : Edge} {x : Nat} (h : s.ref x ≤ maxRef) :
    (s.dcr e).ref x ≤ maxRef := by
  by_cases hx : x = e.addr
  · subst hx
    by_cases h' : s.ref e.addr = maxRef
    · rw [dcr_sat h']; exact Nat.le_refl _
    · rw [dcr_lt h']; omega
  · rw [dcr_ne hx]; exact h

/-- the count of `x` after taking off one reference per edge -/
theorem dcr_hits {s : Store} {e : Edge} {x : Nat} (h : s.ref x < maxRef) (hh : hits e x ≤ s.ref x) :
    (s.dcr e).ref x + hits e x = s.ref x ∧ (s.dcr e).ref x < maxRef := by
  by_cases hx : e.addr = x
  · subst hx
    rw [hits_eq rfl] at *
    rw [dcr_lt (by omega)]; omega
  · rw [hits_ne hx, dcr_ne (fun h => hx h.symm)]; omega

/-- a node's arcs are counted -/
theorem hits_le_inDeg {b : BF P} (sh : QShape b) {a i d t e} (hr : b.req a = some ⟨i, d, .done t e⟩)
    (x : Nat) : hits (b.forward t) x + hits (b.forward e) x ≤ b.inDeg x := by
  have hra := sh.req_ok _ _ hr
  have h2 : b.arcs a x = hits (b.forward t) x + hits (b.forward e) x := by
    unfold arcs; rw [hra.1, hr]
  rw [← h2]
  exact sumTo_ge (f := fun c => b.arcs c x) hra.2.2.1

/-- The store after a fresh node of variable `i`, with the reference count of request `a`, was
added. -/
def newStore (s : Store) (i a : Nat) (t e : Edge) : Store :=
  let st := (s.alloc i).2
  let st := { st with ref := upd st.ref (s.alloc i).1 (s.ref a) }
  let st := st.insertAt i (s.alloc i).1 t e
  { st with numNodes := st.numNodes + 1, gcCheck := st.gcCheck - 1 }

/-- The store after a fresh node for the complement of request `a` was added. -/
def negStore (s : Store) (i a : Nat) (t e : Edge) : Store := newStore s i a t.not e.not

/-- The store grows by nodes at addresses no request uses. -/
theorem QShape.grow {b : BF P} (sh : QShape b) {st' : Store} (w' : st'.WF) (hle : b.st.Le st')
    (hkeep : ∀ a r, b.req a = some r → st'.heap a = none ∧ a < st'.next ∧ ∀ i, a ∉ st'.free i) :
    QShape { b with st := st' } ∧ b.Le { b with st := st' } := by
  have hle' : b.Le { b with st := st' } := ⟨hle, fun _ r h => Or.inl ⟨r, h, rfl, rfl⟩⟩
  have ho : st'.ord = b.st.ord := hle.ord
  refine ⟨?_, hle'⟩
  exact {
    wf := w'
    req_ok := fun a r hr =>
      ⟨(hkeep a r hr).1, (sh.req_ok a r hr).2.1, (hkeep a r hr).2.1, (hkeep a r hr).2.2⟩
    req_id := fun a r hr => by simp only [ho]; exact sh.req_id a r hr
    que_iff := sh.que_iff
    que_nodup := sh.que_nodup
    done_thn := fun a i d t e hr => (sh.done_thn a i d t e hr).mono hle'
    done_els := fun a i d t e hr => (sh.done_els a i d t e hr).mono hle'
    half_ok := fun a i d e hr => (sh.half_ok a i d e hr).mono hle'
    fwd_ok := fun a i d t hr => (sh.fwd_ok a i d t hr).mono hle }

theorem newStore_shape {b : BF P} (sh : QShape b)
    {i a : Nat} {t e : Edge} (hir : 1 ≤ i ∧ i ≤ b.st.ord.numVars) (okt : b.st.EOK t)
    (oke : b.st.EOK e) (ht : b.st.ord.lvl i < b.st.ord.lvl t.id)
    (he : b.st.ord.lvl i < b.st.ord.lvl e.id) (hte : t ≠ e) (hn : t.neg = false)
    (hlk' : b.st.lookup i t e = none) :
    QShape { b with st := newStore b.st i a t e } ∧ b.st.Le (newStore b.st i a t e) := by
  have w := sh.wf
  obtain ⟨sp, wa⟩ := Store.alloc_spec w i
  have hfr := sh.fresh i
  let n := (b.st.alloc i).1
  let s1 : Store := { (b.st.alloc i).2 with ref := upd (b.st.alloc i).2.ref n (b.st.ref a) }
  have w1 : s1.WF := wa.ref _
  have hh1 : s1.heap = b.st.heap := Store.alloc_heap _ _
  have ho1 : s1.ord = b.st.ord := Store.alloc_ord _ _
  have hl1 : ∀ e, b.st.EOK e → s1.EOK e := fun e h => by
    unfold Store.EOK at h ⊢; rw [hh1]; exact h
  have hlk1 : s1.lookup i t e = none := by
    have : s1.lookup i t e = b.st.lookup i t e := by
      unfold Store.lookup; rw [hh1]
      have : s1.tab = b.st.tab := Store.alloc_tab _ _
      rw [this]
    rw [this]; exact hlk'
  have hold : s1.heap n = none := by rw [hh1]; exact sp.old
  have w2 := Store.insertAt_wf w1 (a := n) hold sp.pos sp.lt sp.notfree
    (i := i) (by rw [ho1]; exact hir) (hl1 _ okt) (hl1 _ oke)
    (by rw [ho1]; exact ht) (by rw [ho1]; exact he) hte hn hlk1
  let s2 : Store := s1.insertAt i n t e
  let s3 : Store := { s2 with numNodes := s2.numNodes + 1, gcCheck := s2.gcCheck - 1 }
  have hle3 : b.st.Le s3 := by
    refine ⟨ho1, fun x m hx => ?_⟩
    have := Store.insertAt_le (s := s1) (i := i) (t := t) (e := e) (a := n) hold
    exact this.heap x m (by rw [hh1]; exact hx)
  have g := sh.grow (w2.counters _ _) hle3
    (by
      intro x r hx
      have hxn : x ≠ n := by
        rintro rfl; exact hfr (Or.inr (Or.inr (by rw [hx]; simp)))
      have := sh.req_ok x r hx
      refine ⟨?_, ?_, ?_⟩
      · show upd s1.heap n _ x = none
        rw [upd_ne _ _ hxn, hh1]; exact this.1
      · exact Nat.lt_of_lt_of_le this.2.2.1 sp.next_le
      · exact fun j hj => this.2.2.2 j (sp.free_sub j x hj))
  exact ⟨g.1, hle3⟩

theorem negStore_shape {b : BF P} (sh : QShape b)
    {i a : Nat} {t e : Edge} (hir : 1 ≤ i ∧ i ≤ b.st.ord.numVars) (okt : b.st.EOK t)
    (oke : b.st.EOK e) (ht : b.st.ord.lvl i < b.st.ord.lvl t.id)
    (he : b.st.ord.lvl i < b.st.ord.lvl e.id) (hte : t ≠ e) (hn : t.neg = true)
    (hlk' : b.st.lookup i t.not e.not = none) :
    QShape { b with st := negStore b.st i a t e } ∧ b.st.Le (negStore b.st i a t e) :=
  newStore_shape sh hir okt.not oke.not ht he (by simpa using hte) (by simp [hn]) hlk'

/-- Reducing an applied request whose two results are the same keeps the counts exact. -/
theorem RefOK.reduceEq {b b' : BF P} (sh : QShape b) {ext} (h : b.RefOK ext)
    (hext : ∀ x r, b.req x = some r → ext x = 0) {a i D' t0 e0}
    (hr : b.req a = some ⟨i, D', .done t0 e0⟩)
    (okt : b.st.EOK (b.forward t0)) (hte : b.forward t0 = b.forward e0)
    (hred : b.reduceOne i a = some b') : b'.RefOK ext := by
  have oke : b.st.EOK (b.forward e0) := hte ▸ okt
  have hrok := sh.req_ok _ _ hr
  have hea := hext _ _ hr
  have hla : b.Live a := Or.inr ⟨_, hr, by simp⟩
  have hca := h.cnt a hla
  have hlea := h.le a hla
  have hge := hits_le_inDeg sh hr
  have hnt := EOK_ne_req sh hr okt
  have hne := EOK_ne_req sh hr oke
  simp only [BF.reduceOne, hr] at hred
  simp only [hte, if_true, Option.some.injEq] at hred
  subst hred
  obtain ⟨ref, href⟩ := Store.addRef_eq b.st (b.forward e0) ((b.st.ref a : Int) - 2)
  have hz : b.st.ref 0 = maxRef := h.const
  refine RefOK.fwd sh h hr okt oke (by simp [href]) (by simp [href]) rfl hea
    (addRef_sat hz) (fun x hx => addRef_le hx) ?_
  intro x hx0 hxa hlx
  have hgx := hge x
  have hcx := h.cnt x hlx
  have hlex := h.le x hlx
  by_cases hs : b.st.ref x = maxRef
  · exact Or.inl (addRef_sat hs)
  have hs' : b.st.ref x < maxRef := by omega
  rw [hte] at *
  by_cases hxe : (b.forward e0).addr = x
  · rw [← hxe] at hs hs' hgx hcx ⊢
    simp only [hits_eq rfl, if_true] at *
    have := addRef_lt (n := (b.st.ref a : Int) - 2) hs' (by omega)
    simp only [maxRef] at *
    omega
  · have hxe' : ¬ x = (b.forward e0).addr := fun h => hxe h.symm
    refine Or.inr ⟨hs, ?_⟩
    show (b.st.addRef _ _).ref x + _ + _ = _
    rw [addRef_ne hxe', hits_ne hxe, if_neg hxe]

/-- Forwarding an applied request to a node that is in the table of variable `j` keeps the counts
exact. -/
theorem RefOK.found {b : BF P} (sh : QShape b) {ext} (h : b.RefOK ext)
    (hext : ∀ x r, b.req x = some r → ext x = 0) {a i j D' t0 e0 r}
    (hr : b.req a = some ⟨i, D', .done t0 e0⟩)
    (okt : b.st.EOK (b.forward t0)) (oke : b.st.EOK (b.forward e0))
    (lt1 : b.st.ord.lvl j < b.st.ord.lvl (b.forward t0).id)
    (lt2 : b.st.ord.lvl j < b.st.ord.lvl (b.forward e0).id)
    (hlk : b.st.uniqueLookup j (b.forward t0) (b.forward e0) = some r) :
    RefOK { b with
      st := ((b.st.dcr (b.forward t0)).dcr (b.forward e0)).addRef r
        (((b.st.dcr (b.forward t0)).dcr (b.forward e0)).ref a)
      req := upd b.req a (some ⟨i, D', .fwd r⟩) } ext := by
  have w := sh.wf
  have hge := hits_le_inDeg sh hr
  have hrok := sh.req_ok _ _ hr
  have hea := hext _ _ hr
  have hla : b.Live a := Or.inr ⟨_, hr, by simp⟩
  have hca := h.cnt a hla
  have hlea := h.le a hla
  have hnt := EOK_ne_req sh hr okt
  have hne := EOK_ne_req sh hr oke
  obtain ⟨hri, hrh, hrn⟩ := Store.uniqueLookup_some w hlk
  obtain ⟨ref1, h1⟩ := Store.dcr_eq b.st (b.forward t0)
  obtain ⟨ref2, h2⟩ := Store.dcr_eq (b.st.dcr (b.forward t0)) (b.forward e0)
  obtain ⟨ref, h3⟩ := Store.addRef_eq ((b.st.dcr (b.forward t0)).dcr (b.forward e0)) r
    (((b.st.dcr (b.forward t0)).dcr (b.forward e0)).ref a)
  have hz : b.st.ref 0 = maxRef := h.const
  have hra : ((b.st.dcr (b.forward t0)).dcr (b.forward e0)).ref a = b.st.ref a := by
    rw [dcr_ne hne.symm, dcr_ne hnt.symm]
  have hlt : ∀ e, b.st.EOK e → b.st.ord.lvl j < b.st.ord.lvl e.id → e.addr ≠ r.addr := by
    rintro e (⟨_, he⟩ | ⟨n, he, hv⟩) hlt hc
    · have := w.heap_pos hrh; omega
    · rw [hc, hrh] at he; cases he; simp only at hv; rw [hv] at hlt; exact Nat.lt_irrefl _ hlt
  have htr := hlt _ okt (by omega)
  have her := hlt _ oke (by omega)
  refine RefOK.fwd sh h hr (τ := r) okt oke (by rw [h3, h2, h1])
    (by rw [h3, h2, h1]) rfl hea ?_ ?_ ?_
  · exact addRef_sat (dcr_sat (dcr_sat hz))
  · exact fun x hx => addRef_le (dcr_le (dcr_le hx))
  · intro x hx0 hxa hlx
    have hgx := hge x
    have hcx := h.cnt x hlx
    have hlex := h.le x hlx
    rw [hra]
    by_cases hs : b.st.ref x = maxRef
    · exact Or.inl (addRef_sat (dcr_sat (dcr_sat hs)))
    have hs' : b.st.ref x < maxRef := by omega
    obtain ⟨d1, d1'⟩ := dcr_hits (e := b.forward t0) hs' (by omega)
    obtain ⟨d2, d2'⟩ := dcr_hits (e := b.forward e0) d1' (by omega)
    by_cases hxr : r.addr = x
    · have hx1 : (b.forward t0).addr ≠ x := by omega
      have hx2 : (b.forward e0).addr ≠ x := by omega
      have := addRef_lt (e := r) (n := (b.st.ref a : Int)) (by rw [hxr]; exact d2') (by omega)
      rw [hxr] at this
      rw [hits_ne hx1] at *
      rw [hits_ne hx2] at *
      simp only [hxr, if_true]
      simp only [maxRef] at *
      omega
    · have hxr' : ¬ x = r.addr := fun h => hxr h.symm
      rw [addRef_ne hxr']
      simp only [hxr, if_false]
      omega

/-- Forwarding an applied request to a fresh node of variable `j` keeps the counts exact. -/
theorem RefOK.fresh {b b' : BF P} (sh : QShape b) {ext} (h : b.RefOK ext)
    (hext : ∀ x r, b.req x = some r → ext x = 0) {a i j D' t0 e0 t e} {c : Bool}
    (hr : b.req a = some ⟨i, D', .done t0 e0⟩)
    (okt : b.st.EOK (b.forward t0)) (oke : b.st.EOK (b.forward e0))
    (ta : t.addr = (b.forward t0).addr) (ea : e.addr = (b.forward e0).addr)
    (sh1 : QShape { b with st := newStore b.st j a t e })
    (hle1 : b.st.Le (newStore b.st j a t e))
    (hb' : b'.st = newStore b.st j a t e)
    (hreq : b'.req = upd b.req a (some ⟨i, D', .fwd ⟨j, (b.st.alloc j).1, c⟩⟩)) :
    b'.RefOK ext := by
  have hrok := sh.req_ok _ _ hr
  have hea := hext _ _ hr
  have hla : b.Live a := Or.inr ⟨_, hr, by simp⟩
  have hca := h.cnt a hla
  have hlea := h.le a hla
  have hnt := EOK_ne_req sh hr okt
  have hne := EOK_ne_req sh hr oke
  obtain ⟨sp, wa⟩ := Store.alloc_spec sh.wf j
  have hfr := sh.fresh j
  have hdead := not_live_of_not_used hfr
  have hreq : b'.req = upd b.req a (some ⟨i, D', .fwd ⟨j, (b.st.alloc j).1, c⟩⟩) := hreq
  generalize hN : (b.st.alloc j).1 = n at *
  have hn0 : n ≠ 0 := by have := sp.pos; omega
  generalize hs3 : newStore b.st j a t e = s3 at *
  have hnm : (b.st.alloc j).2.heap = b.st.heap := Store.alloc_heap _ _
  have hheapn : ∀ x, x ≠ n → s3.heap x = b.st.heap x := by
    intro x hx; rw [← hs3, ← hnm, ← hN] at *; exact upd_ne _ _ hx
  have hheapN : s3.heap n = some ⟨j, t, e⟩ := by
    rw [← hs3, ← hN]; exact upd_same _ _ _
  have hnext : s3.next = (b.st.alloc j).2.next := by rw [← hs3]; rfl
  have hrefN : s3.ref n = b.st.ref a := by rw [← hs3, ← hN]; exact upd_same _ _ _
  have href : ∀ x, x ≠ n → s3.ref x = b.st.ref x := by
    intro x hx
    have h1 : s3.ref x = (b.st.alloc j).2.ref x := by
      rw [← hs3]; exact upd_ne _ _ (by rw [hN]; exact hx)
    rw [h1]
    unfold Store.alloc at hN ⊢
    split at hN <;> simp only at hN ⊢ <;> subst hN <;> exact upd_ne _ _ hx
  have hna : n ≠ a := by
    rintro rfl; exact hfr (Or.inr (Or.inr (by rw [hr]; simp)))
  have hnreq : b.req n = none := by
    cases hq : b.req n with
    | none => rfl
    | some r => exact absurd (Or.inr (Or.inr (by rw [hq]; simp))) hfr
  -- the state with the new node, before the request is forwarded
  let b1 : BF P := { b with st := s3 }
  have hfw : ∀ e, b1.forward e = b.forward e := fun e => rfl
  have hd1 : ∀ x, b1.inDeg x = b.inDeg x + hits (b.forward t0) x + hits (b.forward e0) x := by
    intro x
    have e1 : ∀ c, c ≠ n → b1.arcs c x = b.arcs c x := by
      intro c hc
      show (match s3.heap c with | some n => _ | none => _) = _
      rw [hheapn c hc]; rfl
    have e2 : b1.arcs n x = hits (b.forward t0) x + hits (b.forward e0) x := by
      show (match s3.heap n with | some n => _ | none => _) = _
      rw [hheapN]; simp only [hits, ta, ea]
    have e3 : b.arcs n x = 0 := by unfold arcs; rw [sp.old, hnreq]
    have := sumTo_change (f := fun c => b1.arcs c x) (g := fun c => b.arcs c x)
      (n := s3.next) (a := n) (by rw [hnext]; exact sp.lt) e1
    have e4 := sumTo_ext (f := fun c => b.arcs c x) (fun c hc => arcs_beyond sh hc)
      (m := s3.next) (by rw [hnext]; exact sp.next_le)
    simp only [e2, e3] at this
    show sumTo (fun c => b1.arcs c x) s3.next = sumTo (fun c => b.arcs c x) b.st.next + _ + _
    omega
  have hdn : b.inDeg n = 0 := inDeg_dead sh hn0 hdead
  have htn : (b.forward t0).addr ≠ n := by
    rintro hc
    rcases okt with ⟨_, h0⟩ | ⟨m, hm, _⟩
    · omega
    · rw [hc, sp.old] at hm; cases hm
  have hen : (b.forward e0).addr ≠ n := by
    rintro hc
    rcases oke with ⟨_, h0⟩ | ⟨m, hm, _⟩
    · omega
    · rw [hc, sp.old] at hm; cases hm
  have hdeg : ∀ x, x ≠ a → b'.inDeg x = b.inDeg x + (if n = x then b.inDeg a else 0) := by
    intro x hx
    have h1 := inDeg_fwd (b := b1) (b' := b') sh1 (τ := ⟨j, n, c⟩) hr (okt.mono hle1)
      (oke.mono hle1) (by rw [hb']) (by rw [hb']) hreq hx
    have h2 := hd1 x
    have h3 := hd1 a
    rw [hits_ne hnt, hits_ne hne] at h3
    simp only [hfw, h3] at h1
    simp only [Nat.add_zero] at h1
    omega
  have hlive : ∀ x, b'.Live x ↔ x = n ∨ x ≠ a ∧ b.Live x := by
    intro x
    unfold Live
    rw [hb', hreq]
    by_cases hx : x = n
    · subst hx; simp [hheapN]
    · rw [hheapn x hx]
      by_cases hxa : x = a
      · subst hxa; simp [hrok.1, hx]
      · rw [upd_ne _ _ hxa]; simp [hx, hxa]
  refine ⟨?_, ?_, ?_, ?_⟩
  · rw [hb', href 0 (Ne.symm hn0)]; exact h.const
  · intro x hx
    rw [hb']
    by_cases hxn : x = n
    · rw [hxn, hrefN]; exact hlea
    · rw [href x hxn]
      rcases (hlive x).1 hx with h1 | h1
      · exact absurd h1 hxn
      · exact h.le x h1.2
  · intro x hx
    rw [hb']
    by_cases hxn : x = n
    · rw [hxn, hrefN, hdeg n hna, hdn, h.ext0 n hn0 hdead]
      simp only [if_true]
      omega
    · rcases (hlive x).1 hx with h1 | h1
      · exact absurd h1 hxn
      · rw [href x hxn, hdeg x h1.1, if_neg (fun h => hxn h.symm)]
        exact h.cnt x h1.2
  · intro x hx hl
    by_cases hxa : x = a
    · rw [hxa]; exact hea
    · exact h.ext0 x hx (fun h' => hl ((hlive x).2 (Or.inr ⟨hxa, h'⟩)))

/-- Reducing an applied request keeps the counts exact. -/
theorem RefOK.reduceDone {b b' : BF P} (sh : QShape b) {ext} (h : b.RefOK ext)
    (hext : ∀ x r, b.req x = some r → ext x = 0) {a i D' t0 e0}
    (hr : b.req a = some ⟨i, D', .done t0 e0⟩)
    (okt : b.st.EOK (b.forward t0)) (oke : b.st.EOK (b.forward e0))
    (lt1 : b.st.ord.lvl i < b.st.ord.lvl (b.forward t0).id)
    (lt2 : b.st.ord.lvl i < b.st.ord.lvl (b.forward e0).id)
    (hred : b.reduceOne i a = some b') : b'.RefOK ext := by
  have hir := sh.req_id _ _ hr
  simp only at hir
  have w := sh.wf
  have hrok := sh.req_ok _ _ hr
  have hea := hext _ _ hr
  have hla : b.Live a := Or.inr ⟨_, hr, by simp⟩
  have hca := h.cnt a hla
  have hlea := h.le a hla
  have hge := hits_le_inDeg sh hr
  have hnt := EOK_ne_req sh hr okt
  have hne := EOK_ne_req sh hr oke
  simp only [BF.reduceOne, hr] at hred
  by_cases hte : b.forward t0 = b.forward e0
  · exact RefOK.reduceEq sh h hext hr okt hte (by simp only [BF.reduceOne, hr]; exact hred)
  · simp only [hte, if_false] at hred
    cases hlk : b.st.uniqueLookup i (b.forward t0) (b.forward e0) with
    | some r =>
      simp only [hlk, Option.some.injEq] at hred
      subst hred
      exact RefOK.found sh h hext hr okt oke lt1 lt2 hlk
    | none =>
      simp only [hlk] at hred
      cases hn : (b.forward t0).neg with
      | false =>
        simp only [hn, if_true, Option.some.injEq] at hred
        have hheapn : ∀ x, x ≠ a → b'.st.heap x = b.st.heap x := by
          intro x hx; rw [← hred]; exact upd_ne _ _ hx
        have hheapa : b'.st.heap a = some ⟨i, b.forward t0, b.forward e0⟩ := by
          rw [← hred]; exact upd_same _ _ _
        have hreqn : ∀ x, x ≠ a → b'.req x = b.req x := by
          intro x hx; rw [← hred]; exact upd_ne _ _ hx
        have hreqa : b'.req a = none := by rw [← hred]; exact upd_same _ _ _
        have href : b'.st.ref = b.st.ref := by rw [← hred]; rfl
        have hnext : b'.st.next = b.st.next := by rw [← hred]; rfl
        have hfw : ∀ e, b'.forward e = b.forward e := by
          intro e
          by_cases hx : e.addr = a
          · simp [forward, hx, hreqa, hr]
          · simp [forward, hreqn _ hx]
        have hdeg : ∀ x, b'.inDeg x = b.inDeg x := by
          intro x
          unfold inDeg
          rw [hnext]
          apply sumTo_congr
          intro c _
          unfold arcs
          by_cases hc : c = a
          · rw [hc, hheapa, hrok.1, hr]
          · rw [hheapn c hc, hreqn c hc]; simp only [hfw]
        have hlive : ∀ x, b'.Live x ↔ b.Live x := by
          intro x
          by_cases hx : x = a
          · rw [hx]
            exact ⟨fun _ => hla, fun _ => Or.inl (by rw [hheapa]; simp)⟩
          · unfold Live; rw [hheapn x hx, hreqn x hx]
        exact ⟨by rw [href]; exact h.const, fun x hx => by rw [href]; exact h.le x ((hlive x).1 hx),
          fun x hx => by rw [href, hdeg]; exact h.cnt x ((hlive x).1 hx),
          fun x hx hx' => h.ext0 x hx (fun h' => hx' ((hlive x).2 h'))⟩
      | true =>
        simp only [hn, Bool.true_eq_false, if_false, Option.some.injEq] at hred
        have hlk' := Store.uniqueLookup_none hlk
        rw [hn] at hlk'; simp only [Edge.phase_true] at hlk'
        obtain ⟨sh1, hle1⟩ := negStore_shape (a := a) sh hir okt oke (by omega) (by omega) hte hn hlk'
        exact RefOK.fresh (t := (b.forward t0).not) (e := (b.forward e0).not) (c := true) (j := i)
          sh h hext hr okt oke rfl rfl sh1 hle1 (by rw [← hred]; rfl)
          (by rw [← hred])

/-- Forwarding a request with one null branch keeps the counts exact. -/
theorem RefOK.reduceHalf {b b' : BF P} (sh : QShape b) {ext} (h : b.RefOK ext)
    (hext : ∀ x r, b.req x = some r → ext x = 0) {a i D' e0}
    (hr : b.req a = some ⟨i, D', .half e0⟩) (oke : b.st.EOK (b.forward e0))
    (hred : b.reduceOne i a = some b') : b'.RefOK ext := by
  have hrok := sh.req_ok _ _ hr
  have hea := hext _ _ hr
  have hla : b.Live a := Or.inr ⟨_, hr, by simp⟩
  have hca := h.cnt a hla
  have hlea := h.le a hla
  have hne := EOK_ne_req sh hr oke
  have hge : ∀ x, hits (b.forward e0) x ≤ b.inDeg x := by
    intro x
    rw [← arcs_half sh hr]
    exact sumTo_ge (f := fun c => b.arcs c x) hrok.2.2.1
  simp only [BF.reduceOne, hr, Option.some.injEq] at hred
  subst hred
  obtain ⟨ref, href⟩ := Store.addRef_eq b.st (b.forward e0) ((b.st.ref a : Int) - 1)
  have hz : b.st.ref 0 = maxRef := h.const
  refine RefOK.fwdG sh h hr (by simp) (by rw [arcs_half sh hr, hits_ne hne]) (by simp [href])
    (by simp [href]) rfl hea (addRef_sat hz) (fun x hx => addRef_le hx) ?_
  intro x hx0 hxa hlx
  have hgx := hge x
  have hcx := h.cnt x hlx
  have hlex := h.le x hlx
  by_cases hs : b.st.ref x = maxRef
  · exact Or.inl (addRef_sat hs)
  have hs' : b.st.ref x < maxRef := by omega
  rw [arcs_half sh hr]
  by_cases hxe : (b.forward e0).addr = x
  · rw [← hxe] at hs hs' hgx hcx ⊢
    simp only [hits_eq rfl, if_true] at *
    have := addRef_lt (n := (b.st.ref a : Int) - 1) hs' (by omega)
    simp only [maxRef] at *
    omega
  · have hxe' : ¬ x = (b.forward e0).addr := fun h => hxe h.symm
    refine Or.inr ⟨hs, ?_⟩
    show (b.st.addRef _ _).ref x + _ = _
    rw [addRef_ne hxe', hits_ne hxe, if_neg hxe]

theorem RefOK.reduceOne {M : Bnd} {b b' : BF P} {k D a L}
    (inv : RInv S M b k D (a :: L)) {δ} (hδ : BLab S b δ) {ext} (h : b.RefOK ext)
    (hext : ∀ x r, b.req x = some r → ext x = 0)
    (hred : b.reduceOne (b.st.ord.indexToId k) a = some b') : b'.RefOK ext := by
  obtain ⟨r, hr, hl, hd⟩ := inv.left a (by simp)
  obtain ⟨t0, e0, hp⟩ := inv.todo a r hr (Or.inr ⟨hl, Or.inr ⟨hd, by simp⟩⟩)
  obtain ⟨i, D', c⟩ := r
  simp only at hp hl hd
  subst hp; subst hd
  have hir := inv.shape.req_id _ _ hr
  simp only at hir
  have hid : b.st.ord.indexToId k = i := by
    have h0 : i ≠ 0 := by omega
    rw [← hl]; simp only [Order.lvl, h0, if_false]
    exact inv.shape.wf.ord.left i hir.1 hir.2
  rw [hid] at hred
  obtain ⟨ev1, lv1⟩ := inv.shape.done_thn _ _ _ _ _ hr
  obtain ⟨ev2, lv2⟩ := inv.shape.done_els _ _ _ _ _ hr
  obtain ⟨okt, lt1, dt⟩ := forward_spec inv hδ ev1 (by omega)
  obtain ⟨oke, lt2, de⟩ := forward_spec inv hδ ev2 (by omega)
  exact RefOK.reduceDone inv.shape.q h hext hr okt oke (by omega) (by omega) hred

/-! ### All together -/

theorem pushReq_fields (b : BF P) (d i : Nat) (p : P) :
    (b.pushReq d i p).st.tab = b.st.tab ∧ (b.pushReq d i p).st.ord = b.st.ord ∧
    (b.pushReq d i p).st.numNodes = b.st.numNodes ∧ (b.pushReq d i p).st.heap = b.st.heap := by
  refine ⟨Store.alloc_tab _ _, Store.alloc_ord _ _, ?_, Store.alloc_heap _ _⟩
  show (b.st.alloc i).2.numNodes = _
  unfold Store.alloc; split <;> rfl

theorem findOrAddReq_fields [DecidableEq P] {b b' : BF P} {r d i} {p : P}
    (h : b.findOrAddReq d i p = some (b', r)) :
    b'.st.tab = b.st.tab ∧ b'.st.ord = b.st.ord ∧ b'.st.numNodes = b.st.numNodes ∧
      b'.st.heap = b.st.heap := by
  unfold BF.findOrAddReq at h
  split at h
  · cases h
  · cases h; exact ⟨rfl, rfl, rfl, rfl⟩
  · cases h; exact pushReq_fields b d i p

theorem request_fields [DecidableEq P] {b b' : BF P} {r d} {p : P}
    (h : b.request K d p = some (b', r)) :
    b'.st.tab = b.st.tab ∧ b'.st.ord = b.st.ord ∧ b'.st.numNodes = b.st.numNodes ∧
      b'.st.heap = b.st.heap := by
  unfold BF.request at h
  split at h
  · cases h; exact ⟨rfl, rfl, rfl, rfl⟩
  · split at h
    · cases h
    · rename_i h1; cases h; exact findOrAddReq_fields h1

theorem applyOne_fields [DecidableEq P] {b b' : BF P} {D a} (h : b.applyOne K D a = some b') :
    b'.st.tab = b.st.tab ∧ b'.st.ord = b.st.ord ∧ b'.st.numNodes = b.st.numNodes ∧
      b'.st.heap = b.st.heap := by
  unfold BF.applyOne at h
  repeat' split at h
  all_goals (try (cases h))
  rename_i h1 _ _ _ h2
  have f1 := request_fields h1
  have f2 := request_fields h2
  obtain ⟨a1, a2, a3, a4⟩ := f1
  obtain ⟨c1, c2, c3, c4⟩ := f2
  exact ⟨c1.trans a1, c2.trans a2, c3.trans a3, c4.trans a4⟩

theorem reduceOne_num {b b' : BF P} {i a} (hi : i ≤ b.st.ord.numVars) (h : b.st.NumOK)
    (hr : b.reduceOne i a = some b') : b'.st.NumOK := by
  unfold BF.reduceOne at hr
  split at hr
  · rename_i dep t0 e0 _
    simp only at hr
    split at hr
    · cases hr
      obtain ⟨ref, h1⟩ := Store.addRef_eq b.st (b.forward t0) ((b.st.ref a : Int) - 2)
      simp only [h1]; exact h.congr rfl rfl rfl
    · split at hr
      · rename_i r _
        cases hr
        obtain ⟨ref1, h1⟩ := Store.dcr_eq b.st (b.forward t0)
        obtain ⟨ref2, h2⟩ := Store.dcr_eq (b.st.dcr (b.forward t0)) (b.forward e0)
        obtain ⟨ref, h3⟩ := Store.addRef_eq ((b.st.dcr (b.forward t0)).dcr (b.forward e0)) r
          (((b.st.dcr (b.forward t0)).dcr (b.forward e0)).ref a)
        simp only [h3]; rw [h2, h1]; exact h.congr rfl rfl rfl
      · split at hr
        · cases hr
          exact h.add hi rfl rfl rfl
        · cases hr
          have e1 : (b.st.alloc i).2.numNodes = b.st.numNodes := by
            unfold Store.alloc; split <;> rfl
          refine h.add (a := (b.st.alloc i).1) hi (Store.alloc_ord _ _) ?_ ?_
          · show upd (b.st.alloc i).2.tab i ((b.st.alloc i).1 :: (b.st.alloc i).2.tab i) = _
            rw [Store.alloc_tab]
          · show (b.st.alloc i).2.numNodes + 1 = _; rw [e1]
  · rename_i x _
    cases hr
    obtain ⟨ref, h1⟩ := Store.addRef_eq b.st (b.forward x) ((b.st.ref a : Int) - 1)
    simp only [h1]; exact h.congr rfl rfl rfl
  · cases hr

/-- what the engine keeps, relative to the store `s` it was started on -/
def Keep (s : Store) (b : BF P) : Prop :=
  s.Le b.st ∧ (∀ ext, s.RefOK ext → b.RefOK ext) ∧ (s.NumOK → b.st.NumOK)

theorem Keep.ext {s : Store} {b : BF P} (sh : QShape b) (k : Keep s b) {ext} (h : s.RefOK ext)
    {x r} (hr : b.req x = some r) : ext x = 0 := by
  have h1 := sh.req_ok x r hr
  refine h.ext0 x (by omega) ?_
  cases hs : s.heap x with
  | none => rfl
  | some n => have := k.1.heap x n hs; rw [h1.1] at this; cases this

theorem keep_kept [DecidableEq P] (s : Store) : Kept S (Keep s) where
  app := by
    intro M b b' δ k D a L inv hδ hk hap
    obtain ⟨b2, δ2, h2, -, -, hle, -⟩ := applyOne_spec inv hδ
    rw [hap] at h2; cases h2
    obtain ⟨f1, f2, f3, f4⟩ := applyOne_fields hap
    exact ⟨hk.1.trans hle.st, fun e he => (hk.2.1 e he).applyOne inv hδ hap,
      fun h => (hk.2.2 h).congr f2 f1 f3⟩
  red := by
    intro M b b' δ k D a L inv hδ hk hred
    obtain ⟨b2, δ2, h2, -, -, hle, -⟩ := reduceOne_spec inv hδ
    rw [hred] at h2; cases h2
    have hi : b.st.ord.indexToId k ≤ b.st.ord.numVars := by
      obtain ⟨r, hr, hl, -⟩ := inv.left a (by simp)
      have hir := inv.shape.req_id _ _ hr
      have h0 : r.id ≠ 0 := by omega
      rw [← hl]; simp only [Order.lvl, h0, if_false]
      rw [inv.shape.wf.ord.left r.id hir.1 hir.2]; exact hir.2
    exact ⟨hk.1.trans hle.st,
      fun e he => (hk.2.1 e he).reduceOne inv hδ (fun x r hr => hk.ext inv.shape.q he hr) hred,
      fun h => reduceOne_num hi (hk.2.2 h) hred⟩
  push := by
    intro b d i p sh hk
    obtain ⟨f1, f2, f3, f4⟩ := pushReq_fields b d i p
    exact ⟨hk.1.trans ⟨f2, fun a n hn => by rw [f4]; exact hn⟩,
      fun e he => (hk.2.1 e he).push sh.q d i p, fun h => (hk.2.2 h).congr f2 f1 f3⟩

theorem Keep.init (s : Store) : Keep s (BF.init s : BF P) := by
  refine ⟨Store.Le.refl s, fun ext h => ?_, fun h => h⟩
  have hl : ∀ x, (BF.init s : BF P).Live x ↔ s.heap x ≠ none := by
    intro x; unfold Live; simp [BF.init]
  have hd : ∀ x, (BF.init s : BF P).inDeg x = s.inDeg x := by
    intro x; unfold inDeg Store.inDeg
    apply sumTo_congr
    intro a _
    unfold arcs Store.arcs
    show (match s.heap a with | some n => _ | none => _) = _
    cases s.heap a <;> rfl
  exact ⟨h.const, fun a ha => h.le a ((hl a).1 ha),
    fun a ha => by rw [hd]; exact h.cnt a ((hl a).1 ha),
    fun a h0 ha => h.ext0 a h0 (by
      cases hh : s.heap a with
      | none => rfl
      | some n => exact absurd ((hl a).2 (by rw [hh]; simp)) ha)⟩

theorem Keep.final {s : Store} {b b' : BF P} (k : Keep s b) (af : AllFwd b)
    (sn : SameNodes b b') : s.Keep b'.st := by
  refine ⟨fun ext h => ?_, fun h => (k.2.2 h).congr sn.ord sn.tab sn.numNodes⟩
  have h1 := k.2.1 ext h
  have hl : ∀ x, b.Live x ↔ b.st.heap x ≠ none := by
    intro x
    constructor
    · rintro (h | ⟨r, hr, hn⟩)
      · exact h
      · obtain ⟨t, ht⟩ := af x r hr; exact absurd ht (hn t)
    · exact Or.inl
  have hd : ∀ x, b'.st.inDeg x = b.inDeg x := by
    intro x; unfold inDeg Store.inDeg
    rw [sn.next]
    apply sumTo_congr
    intro a _
    unfold arcs Store.arcs
    rw [sn.heap]
    cases hh : b.st.heap a with
    | some n => rfl
    | none =>
      simp only
      split
      · rename_i hr; obtain ⟨t, ht⟩ := af _ _ hr; cases ht
      · rename_i hr; obtain ⟨t, ht⟩ := af _ _ hr; cases ht
      · rfl
  refine ⟨by rw [sn.ref]; exact h1.const, fun a ha => ?_, fun a ha => ?_, fun a h0 ha => ?_⟩
  · rw [sn.heap] at ha; rw [sn.ref]; exact h1.le a ((hl a).2 ha)
  · rw [sn.heap] at ha; rw [sn.ref, hd]; exact h1.cnt a ((hl a).2 ha)
  · rw [sn.heap] at ha; exact h1.ext0 a h0 (fun h' => (hl a).1 h' ha)

end BF
end Cal
