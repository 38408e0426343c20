import Verif.BfGc
import Verif.DfReorder

/-!
# The breadth-first exchange of two variables follows the depth-first exchange
-/

namespace Cal

namespace Bfr

open Df (Fr PWF)

/-! ## Following a forwarding pointer -/

theorem FwOK.live {w : St} (F : FwOK w) {a n} (h : w.st.heap a = some n) : w.fwd a = none := by
  cases ht : w.fwd a with
  | none => rfl
  | some t => have := (F.fw a t ht).1; rw [h] at this; cases this

theorem FwOK.zero {w : St} (F : FwOK w) : w.fwd 0 = none := by
  cases ht : w.fwd 0 with
  | none => rfl
  | some t => exact absurd rfl (F.fw 0 t ht).2.1

theorem FwOK.eok {w : St} (F : FwOK w) {e : Edge} (h : w.st.EOK e) : w.fwd e.addr = none := by
  rcases h with ⟨_, h⟩ | ⟨n, hn, _⟩
  · rw [h]; exact F.zero
  · exact F.live hn

theorem follow_none {w : St} {e : Edge} (h : w.fwd e.addr = none) : follow w e = e := by
  unfold follow; rw [h]

theorem follow_some {w : St} {e t : Edge} (h : w.fwd e.addr = some t) : follow w e = t.phase e.neg := by
  unfold follow; rw [h]

theorem FwOK.follow {w : St} (F : FwOK w) {e : Edge} (h : w.st.EOK e) : follow w e = e := follow_none (F.eok h)

theorem FwOK.followKids {w : St} (F : FwOK w) {n : Node} (h1 : w.st.EOK n.thn) (h0 : w.st.EOK n.els) : followKids w n = n := by
  unfold Bfr.followKids; rw [F.follow h1, F.follow h0]

/-! ## The relation between the two states -/

/-- The edge leads, by `F`, to a node that stands for `e'`. -/
def Tr (F : Edge → Edge) (w : St) (ab : Nat → Nat) (e e' : Edge) : Prop := w.st.EOK (F e) ∧ absE ab (F e) = e'

/-- The breadth-first state `w` stands for the depth-first state `d`. -/
structure Sim (F : Edge → Edge) (w : St) (d : Df.St) (ab : Nat → Nat) : Prop where
  ord : d.st.ord = w.st.ord
  zero : ab 0 = 0
  fw : FwOK w
  inj : ∀ a b, w.st.heap a ≠ none → w.st.heap b ≠ none → ab a = ab b → a = b
  sur : ∀ b, d.st.heap b ≠ none → ∃ a, w.st.heap a ≠ none ∧ ab a = b
  node : ∀ a n, w.st.heap a = some n → ∃ n', d.st.heap (ab a) = some n' ∧ n'.var = n.var ∧ Tr F w ab n.thn n'.thn ∧ Tr F w ab n.els n'.els
  tab : ∀ i, d.st.tab i = (w.st.tab i).map ab
  tabW : ∀ i a, a ∈ w.st.tab i ↔ ∃ n, w.st.heap a = some n ∧ n.var = i
  ref : ∀ a, a = 0 ∨ w.st.heap a ≠ none → w.st.ref a = d.st.ref (ab a)
  le : ∀ a, a = 0 ∨ w.st.heap a ≠ none → w.st.ref a ≤ maxRef
  num : w.st.numNodes = d.st.numNodes
  gcc : w.st.gcCheck = d.st.gcCheck
  mat : w.mat = d.mat

section
variable {F : Edge → Edge} {w : St} {d : Df.St} {ab : Nat → Nat}

theorem Sim.pvar (S : Sim F w d ab) (P : PWF d.st) {e : Edge} (he : w.st.EOK e) : Df.pvar d.st (absE ab e) = some e.id := by
  unfold Df.pvar
  rcases he with ⟨h1, h2⟩ | ⟨n, hn, hv⟩
  · simp [absE, h2, S.zero, h1]
  · obtain ⟨n', h1, h2, _⟩ := S.node _ _ hn
    have : ab e.addr ≠ 0 := by intro h; rw [h, P.heap0] at h1; cases h1
    simp only [absE, this, if_false, h1, Option.map_some, h2, hv]

theorem const_lvl {o : Order} (h : o.WF) {k : Nat} (hk : k < o.numVars) : k < o.lvl 0 := by
  have := h.bound
  simp only [Order.lvl, if_true]; omega

/-- A child is below its node. -/
theorem Sim.below (S : Sim F w d ab) (P : PWF d.st) {e : Edge} (he : w.st.EOK e) {k : Nat} (hk : k < d.st.ord.numVars)
    (h : Df.Below d.st k (absE ab e)) : k < w.st.ord.lvl e.id := by
  rw [← S.ord]
  rcases he with ⟨h1, h2⟩ | ⟨n, hn, hv⟩
  · rw [h1]; exact const_lvl P.ord hk
  · obtain ⟨n', h1, h2, _⟩ := S.node _ _ hn
    rcases h with h | ⟨m, hm, hl⟩
    · have h : ab e.addr = 0 := h
      rw [h, P.heap0] at h1; cases h1
    · have hm : d.st.heap (ab e.addr) = some m := hm
      rw [h1] at hm; cases hm
      rw [h2, hv] at hl; exact hl

theorem Sim.hasY (S : Sim F w d ab) (P : PWF d.st) {y : Nat} (y1 : 1 ≤ y) {n m : Node} (h1 : w.st.EOK m.thn) (h0 : w.st.EOK m.els)
    (e1 : n.thn = absE ab m.thn) (e0 : n.els = absE ab m.els) : Df.HasY d.st y n ↔ (m.thn.id = y ∨ m.els.id = y) := by
  have key : ∀ e, w.st.EOK e → ((∃ k, d.st.heap (absE ab e).addr = some k ∧ k.var = y) ↔ e.id = y) := by
    intro e he
    rw [← Df.pvar_iff P.heap0 y1, S.pvar P he]
    simp
  unfold Df.HasY
  rw [e1, e0, key _ h1, key _ h0]

/-! ## The first loop -/

/-- What is known about a node of the upper variable. -/
structure Up (w : St) (d : Df.St) (ab : Nat → Nat) (flag : Bool) (i y : Nat) (a : Nat) (n n' : Node) : Prop where
  here : w.st.heap a = some n
  there : d.st.heap (ab a) = some n'
  e1 : w.st.EOK (follow w n.thn)
  e0 : w.st.EOK (follow w n.els)
  a1 : n'.thn = absE ab (follow w n.thn)
  a0 : n'.els = absE ab (follow w n.els)
  l1 : i + 1 < w.st.elvl (follow w n.thn) ↔ (follow w n.thn).id ≠ y
  l0 : i + 1 < w.st.elvl (follow w n.els) ↔ (follow w n.els).id ≠ y
  noflag : flag = false → followKids w n = n
  moved : followKids w n ≠ n → (follow w n.thn).id = y ∨ (follow w n.els).id = y

theorem split_sim (S : Sim F w d ab) (P : PWF d.st) {flag : Bool} {i y : Nat} : ∀ (as l : List Nat),
    (∀ a, a ∈ as → ∃ n n', Up w d ab flag i y a n n') →
    ∃ keep l', split w flag i as l = some (keep, l') ∧
      Df.unlink d.st y (as.map ab) (l.map ab) = some (keep.map ab, l'.map ab) ∧
      (keep ++ l').Perm (as ++ l) ∧
      (∀ a, a ∈ keep → a ∈ as ∧ ∀ n, w.st.heap a = some n → followKids w n = n ∧ n.thn.id ≠ y ∧ n.els.id ≠ y) ∧
      (∀ a, a ∈ l' → a ∈ l ∨ (a ∈ as ∧ ∀ n, w.st.heap a = some n → (follow w n.thn).id = y ∨ (follow w n.els).id = y))
  | [], l, _ => ⟨[], l, rfl, rfl, List.Perm.refl _, by simp, fun a h => Or.inl h⟩
  | a :: as, l, H => by
    obtain ⟨n, n', U⟩ := H a (by simp)
    have hm : (if flag then followKids w n else n) = followKids w n := by
      cases flag with
      | true => rfl
      | false => simp [U.noflag rfl]
    have p1 : Df.pvar d.st n'.els = some (follow w n.els).id := by rw [U.a0]; exact S.pvar P U.e0
    have p2 : Df.pvar d.st n'.thn = some (follow w n.thn).id := by rw [U.a1]; exact S.pvar P U.e1
    simp only [split, U.here, hm, List.map_cons, Df.unlink, U.there, p1, p2]
    have c : (i + 1 < w.st.elvl (followKids w n).els ∧ i + 1 < w.st.elvl (followKids w n).thn) ↔
        ((follow w n.els).id ≠ y ∧ (follow w n.thn).id ≠ y) := by
      show i + 1 < w.st.elvl (follow w n.els) ∧ i + 1 < w.st.elvl (follow w n.thn) ↔ _
      rw [U.l0, U.l1]
    by_cases hc : (follow w n.els).id ≠ y ∧ (follow w n.thn).id ≠ y
    · have heq : followKids w n = n := by
        refine Classical.byContradiction fun hne => ?_
        rcases U.moved hne with h | h
        · exact hc.2 h
        · exact hc.1 h
      obtain ⟨keep, l', h1, h2, h3, h4, h5⟩ := split_sim S P as l (fun b hb => H b (by simp [hb]))
      refine ⟨a :: keep, l', ?_, ?_, List.Perm.cons a h3, ?_, ?_⟩
      · rw [if_pos (c.2 hc), if_pos heq, h1]; rfl
      · rw [if_pos hc, h2]; rfl
      · intro b hb
        rcases List.mem_cons.1 hb with rfl | hb
        · refine ⟨by simp, fun m hm => ?_⟩
          rw [U.here] at hm; cases hm
          have e1 : follow w n.thn = n.thn := congrArg Node.thn heq
          have e0 : follow w n.els = n.els := congrArg Node.els heq
          rw [e1, e0] at hc
          exact ⟨heq, hc.2, hc.1⟩
        · obtain ⟨h6, h7⟩ := h4 b hb
          exact ⟨List.mem_cons_of_mem _ h6, h7⟩
      · intro b hb
        rcases h5 b hb with h | ⟨h, h'⟩
        · exact Or.inl h
        · exact Or.inr ⟨List.mem_cons_of_mem _ h, h'⟩
    · obtain ⟨keep, l', h1, h2, h3, h4, h5⟩ := split_sim S P as (a :: l) (fun b hb => H b (by simp [hb]))
      refine ⟨keep, l', ?_, ?_, h3.trans List.perm_middle, ?_, ?_⟩
      · rw [if_neg (fun h => hc (c.1 h)), h1]
      · rw [if_neg hc]; exact h2
      · intro b hb
        obtain ⟨h6, h7⟩ := h4 b hb
        exact ⟨List.mem_cons_of_mem _ h6, h7⟩
      · intro b hb
        rcases h5 b hb with h | ⟨h, h'⟩
        · rcases List.mem_cons.1 h with rfl | h
          · refine Or.inr ⟨by simp, fun m hm => ?_⟩
            rw [U.here] at hm; cases hm
            refine Classical.byContradiction fun hne => hc ?_
            simp only [not_or] at hne
            exact ⟨hne.2, hne.1⟩
          · exact Or.inl h
        · exact Or.inr ⟨List.mem_cons_of_mem _ h, h'⟩

end

/-! ## The exchange of the nodes -/

/-- What an exchange of the variables `x` (above) and `y` (below) does; `R` has the nodes of `x` that have been replaced. -/
structure Eff (x y : Nat) (R : List Nat) (w : St) (d : Df.St) (ab : Nat → Nat) (w' : St) (d' : Df.St) (ab' : Nat → Nat) : Prop where
  after : ∀ r, w.st.EOK r → (r.addr = 0 ∨ d'.st.heap (ab r.addr) ≠ none) →
    w'.st.EOK (follow w' r) ∧ absE ab' (follow w' r) = absE ab r
  fwdO : ∀ a, a ∉ R → w'.fwd a = w.fwd a
  fwdR : ∀ f, f ∈ R → ∃ g, w'.fwd f = some ⟨y, g, false⟩ ∧
    (d'.st.heap (ab f) ≠ none → ∃ m, w'.st.heap g = some m ∧ m.var = y ∧ ab' g = ab f)
  rem : ∀ f, f ∈ R ↔ ∃ n n', w.st.heap f = some n ∧ n.var = x ∧ d.st.heap (ab f) = some n' ∧ Df.HasY d.st y n'
  nodup : R.Nodup
  node : ∀ a n, w'.st.heap a = some n → (n.var ≠ x ∧ n.var ≠ y ∧ w.st.heap a = some n) ∨
    ((n.var = x ∨ n.var = y) ∧ w'.st.EOK n.thn ∧ w'.st.EOK n.els)
  keep : ∀ a n, w.st.heap a = some n → n.var ≠ x → n.var ≠ y → w'.st.heap a = some n
  list : w'.list = upd w.list x (R.reverse ++ w.list x)
  users : w'.users = w.users
  vars : w'.vars = w.vars
  ends : w'.ends = w.ends
  pipe : w'.pipe = w.pipe
  keepD : ∀ a n, d.st.heap a = some n → n.var ≠ y → (n.var = x → ¬ Df.HasY d.st y n) → d'.st.heap a = some n
  keepY : ∀ a n, d.st.heap a = some n → n.var = y → d'.st.heap a = some n ∨ d'.st.heap a = none
  swept : (∀ a n, d'.st.heap a = some n → n.var = y → d'.st.ref a ≠ 0) ∨ (d'.st.heap = d.st.heap ∧ d'.st.ref = d.st.ref)
  newD : ∀ a n, d'.st.heap a = some n → d.st.heap a = none → n.var = x ∧
    ∃ b nb, d.st.heap b = some nb ∧ nb.var = x ∧ Df.HasY d.st y nb ∧ ∀ m, d'.st.heap b = some m → m.thn.addr = a ∨ m.els.addr = a

section
variable {w : St} {d : Df.St} {ab : Nat → Nat} {x y i : Nat}

theorem Sim.var_range {F : Edge → Edge} (S : Sim F w d ab) (P : PWF d.st) {a n} (h : w.st.heap a = some n) :
    1 ≤ n.var ∧ n.var ≤ w.st.ord.numVars := by
  obtain ⟨n', h1, h2, _⟩ := S.node _ _ h
  rw [← h2, ← S.ord]; exact P.var_range _ _ h1

theorem lvl_inj {o : Order} (w : o.WF) {x y : Nat} (hx : 1 ≤ x ∧ x ≤ o.numVars) (hy : 1 ≤ y ∧ y ≤ o.numVars)
    (h : o.lvl x = o.lvl y) : x = y := by
  unfold Order.lvl at h
  rw [if_neg (by omega), if_neg (by omega)] at h
  rw [← w.left x hx.1 hx.2, ← w.left y hy.1 hy.2, h]

/-- Below the lower level or of the lower variable. -/
theorem lev_iff {F : Edge → Edge} (S : Sim F w d ab) (A : Df.Adj d.st x y) (hi : d.st.ord.lvl x = i) {e : Edge} (he : w.st.EOK e)
    (hb : Df.Below d.st i (absE ab e)) : i + 1 < w.st.elvl e ↔ e.id ≠ y := by
  have P := A.w
  have hxl := P.ord.lvl_lt A.x1 A.x2
  have hyl := P.ord.lvl_lt A.y1 A.y2
  have hlv := A.lv
  have h1 := S.below P he (by rw [hi] at hxl; exact hxl) hb
  show i + 1 < w.st.ord.lvl e.id ↔ _
  constructor
  · rintro h rfl
    rw [← S.ord] at h; omega
  · intro h
    refine Classical.byContradiction fun hn => h ?_
    have heq : d.st.ord.lvl e.id = d.st.ord.lvl y := by rw [S.ord] at *; omega
    rcases he with ⟨h0, _⟩ | ⟨n, hn, hv⟩
    · rw [h0] at heq
      have := const_lvl P.ord hyl
      omega
    · have := S.var_range P hn
      rw [← S.ord] at this
      rw [hv] at this
      exact lvl_inj P.ord this ⟨A.y1, A.y2⟩ heq

/-- The state before the second loop. -/
structure Begun (x y i : Nat) (w : St) (d : Df.St) (ab : Nat → Nat) (keep l : List Nat) (s1 : Store) : Prop where
  loc : Loc x y l s1 { d.st with tab := upd d.st.tab x (keep.map ab) } ab
  fw : FwOK { w with st := s1 }
  lev : ∀ f n, f ∈ l → s1.heap f = some n → (i + 1 < s1.elvl n.thn ↔ n.thn.id ≠ y) ∧ (i + 1 < s1.elvl n.els ↔ n.els.id ≠ y) ∧
    (n.thn.id = y ∨ n.els.id = y)
  heapO : ∀ a, a ∉ l → s1.heap a = w.st.heap a
  heapN : ∀ a, s1.heap a = none ↔ w.st.heap a = none
  rem : ∀ f, f ∈ l ↔ ∃ n n', w.st.heap f = some n ∧ n.var = x ∧ d.st.heap (ab f) = some n' ∧ Df.HasY d.st y n'
  tab : ∀ j, j ≠ x → s1.tab j = w.st.tab j
  tabx : ∀ a, a ∈ s1.tab x ↔ a ∈ w.st.tab x ∧ a ∉ l
  num : s1.numNodes + l.length = w.st.numNodes
  gcc : s1.gcCheck = w.st.gcCheck
  ord : s1.ord = w.st.ord

theorem start_sim (S : Sim (follow w) w d ab) (A : Df.Adj d.st x y) (hi : d.st.ord.lvl x = i) (nm : d.st.NumOK) {flag : Bool}
    (hy : ∀ a n, w.st.heap a = some n → n.var = y → w.st.EOK n.thn ∧ w.st.EOK n.els)
    (hx : ∀ a n, w.st.heap a = some n → n.var = x → ∀ e, e = n.thn ∨ e = n.els →
      w.st.EOK e ∨ (flag = true ∧ (follow w e).id = y)) :
    ∃ keep l s1, split w flag i (w.st.tab x) [] = some (keep, l) ∧
      Df.unlink d.st y (d.st.tab x) [] = some (keep.map ab, l.map ab) ∧
      (let w0 := if flag then redirect w l else w
       { w0 with st := { w0.st with tab := upd w0.st.tab x keep, numNodes := w0.st.numNodes - l.length } }) = { w with st := s1 } ∧
      Begun x y i w d ab keep l s1 := by
  have P := A.w
  have up : ∀ a, a ∈ w.st.tab x → ∃ n n', Up w d ab flag i y a n n' := by
    intro a ha
    obtain ⟨n, hn, hv⟩ := (S.tabW x a).1 ha
    obtain ⟨n', h1, h2, T1, T0⟩ := S.node a n hn
    have b1 := P.thn_lo _ _ h1
    have b0 := P.els_lo _ _ h1
    rw [h2, hv, hi] at b1 b0
    refine ⟨n, n', hn, h1, T1.1, T0.1, T1.2.symm, T0.2.symm, lev_iff S A hi T1.1 (by rw [T1.2]; exact b1),
      lev_iff S A hi T0.1 (by rw [T0.2]; exact b0), ?_, ?_⟩
    · intro hf
      have h1 := hx a n hn hv _ (Or.inl rfl)
      have h0 := hx a n hn hv _ (Or.inr rfl)
      simp only [hf, Bool.false_eq_true, false_and, or_false] at h1 h0
      exact S.fw.followKids h1 h0
    · intro hne
      rcases hx a n hn hv _ (Or.inl rfl) with h1 | h1
      · rcases hx a n hn hv _ (Or.inr rfl) with h0 | h0
        · exact absurd (S.fw.followKids h1 h0) hne
        · exact Or.inr h0.2
      · exact Or.inl h1.2
  obtain ⟨keep, l, e1, e2, pm, hk, hl⟩ := split_sim S P (w.st.tab x) [] up
  rw [List.append_nil] at pm
  rw [List.map_nil, ← S.tab] at e2
  have nd : (keep ++ l).Nodup := by
    refine pm.nodup_iff.2 ?_
    have := P.tab_nodup x
    rw [S.tab] at this
    exact List.Pairwise.of_map ab (fun a b h h' => h (by rw [h'])) this
  obtain ⟨ndk, ndl, dis⟩ := List.nodup_append.1 nd
  have mem : ∀ a, a ∈ w.st.tab x ↔ a ∈ keep ∨ a ∈ l := by
    intro a; rw [← pm.mem_iff, List.mem_append]
  have hlx : ∀ f, f ∈ l → f ∈ w.st.tab x := fun f hf => (mem f).2 (Or.inr hf)
  let h0 : Nat → Option Node := fun a => if a ∈ l then (w.st.heap a).map (followKids w) else w.st.heap a
  let s1 : Store := { w.st with heap := h0, tab := upd w.st.tab x keep, numNodes := w.st.numNodes - l.length }
  have heapO : ∀ a, a ∉ l → s1.heap a = w.st.heap a := fun a h => if_neg h
  have heapI : ∀ a n, a ∈ l → w.st.heap a = some n → s1.heap a = some (followKids w n) := by
    intro a n h hn
    show (if a ∈ l then _ else _) = _
    rw [if_pos h, hn]; rfl
  have heapN : ∀ a, s1.heap a = none ↔ w.st.heap a = none := by
    intro a
    by_cases h : a ∈ l
    · show (if a ∈ l then _ else _) = none ↔ _
      rw [if_pos h]; simp
    · rw [heapO a h]
  have hvar : ∀ a n, s1.heap a = some n → ∃ n0, w.st.heap a = some n0 ∧ n0.var = n.var ∧ (n = n0 ∨ (a ∈ l ∧ n = followKids w n0)) := by
    intro a n h
    by_cases hm : a ∈ l
    · cases hn : w.st.heap a with
      | none => rw [(heapN a).2 hn] at h; cases h
      | some n0 =>
        rw [heapI a n0 hm hn] at h; cases h
        exact ⟨n0, rfl, rfl, Or.inr ⟨hm, rfl⟩⟩
    · rw [heapO a hm] at h
      exact ⟨n, h, rfl, Or.inl rfl⟩
  have eok : ∀ e, w.st.EOK e → s1.EOK e := by
    rintro e (h | ⟨n, hn, hv⟩)
    · exact Or.inl h
    · by_cases hm : e.addr ∈ l
      · exact Or.inr ⟨_, heapI _ n hm hn, hv⟩
      · exact Or.inr ⟨n, by rw [heapO _ hm]; exact hn, hv⟩
  have eqw : (let w0 := if flag then redirect w l else w
       { w0 with st := { w0.st with tab := upd w0.st.tab x keep, numNodes := w0.st.numNodes - l.length } }) = { w with st := s1 } := by
    cases hf : flag with
    | true => rfl
    | false =>
      have : h0 = w.st.heap := by
        funext a
        by_cases hm : a ∈ l
        · obtain ⟨n, n', U⟩ := up a (hlx a hm)
          show (if a ∈ l then _ else _) = _
          rw [if_pos hm, U.here, Option.map_some, U.noflag hf]
        · exact if_neg hm
      show ({ w with st := { w.st with tab := upd w.st.tab x keep, numNodes := w.st.numNodes - l.length } } : St) = _
      rw [show s1 = { w.st with heap := w.st.heap, tab := upd w.st.tab x keep, numNodes := w.st.numNodes - l.length } from by rw [← this]]
  refine ⟨keep, l, s1, e1, e2, eqw, ?_⟩
  have xl : ∀ a n, w.st.heap a = some n → (a ∈ l → n.var = x) := by
    intro a n hn hm
    obtain ⟨m, h1, h2⟩ := (S.tabW x a).1 (hlx a hm)
    rw [hn] at h1; cases h1; exact h2
  have wf0 : w.st.heap 0 = none := S.fw.fr.heap0
  have n0l : (0 : Nat) ∉ l := by
    intro h
    obtain ⟨m, h1, _⟩ := (S.tabW x 0).1 (hlx 0 h)
    rw [wf0] at h1; cases h1
  -- a pointer below level `i` leads to no node of `x`
  have nol : ∀ e, w.st.EOK e → Df.Below d.st i (absE ab e) → e.addr ∉ l := by
    intro e he hb hm
    rcases he with ⟨_, h⟩ | ⟨n, hn, hv⟩
    · rw [h] at hm; exact n0l hm
    · have := xl _ _ hn hm
      have h1 := S.below P (Or.inr ⟨n, hn, hv⟩) (by have := P.ord.lvl_lt A.x1 A.x2; rw [hi] at this; exact this) hb
      rw [← hv, this, ← S.ord] at h1
      omega
  have kid : ∀ a n, w.st.heap a = some n → n.var = x ∨ n.var = y →
      ∃ n', d.st.heap (ab a) = some n' ∧ w.st.EOK (follow w n.thn) ∧ w.st.EOK (follow w n.els) ∧
        n' = ⟨n.var, absE ab (follow w n.thn), absE ab (follow w n.els)⟩ ∧ Df.Below d.st (d.st.ord.lvl n.var) n'.thn ∧
        Df.Below d.st (d.st.ord.lvl n.var) n'.els ∧
        (follow w n.thn).addr ∉ l ∧ (follow w n.els).addr ∉ l := by
    intro a n hn hv
    obtain ⟨n', h1, h2, T1, T0⟩ := S.node a n hn
    have b1 := P.thn_lo _ _ h1
    have b0 := P.els_lo _ _ h1
    rw [h2] at b1 b0
    have mono : ∀ {e}, Df.Below d.st (d.st.ord.lvl n.var) e → Df.Below d.st i e := by
      rintro e (h | ⟨m, hm, hlt⟩)
      · exact Or.inl h
      · refine Or.inr ⟨m, hm, ?_⟩
        rcases hv with hv | hv
        · rw [hv, hi] at hlt; exact hlt
        · rw [hv, A.lv, hi] at hlt; omega
    refine ⟨n', h1, T1.1, T0.1, ?_, b1, b0, nol _ T1.1 (by rw [T1.2]; exact mono b1), nol _ T0.1 (by rw [T0.2]; exact mono b0)⟩
    rw [T1.2, T0.2, ← h2]
  have same : ∀ a n, s1.heap a = some n → n.var = x ∨ n.var = y → ∃ n0, w.st.heap a = some n0 ∧ n0.var = n.var ∧
      n.thn = follow w n0.thn ∧ n.els = follow w n0.els := by
    intro a n h hv
    obtain ⟨n0, h1, h2, h3⟩ := hvar a n h
    refine ⟨n0, h1, h2, ?_⟩
    rcases h3 with rfl | ⟨_, rfl⟩
    · have : followKids w n = n := by
        rcases hv with hv | hv
        · have ha := (S.tabW x a).2 ⟨n, h1, hv⟩
          rcases (mem a).1 ha with hk' | hl'
          · exact ((hk a hk').2 n h1).1
          · have := heapI a n hl' h1
            rw [h] at this; injection this with this; exact this.symm
        · exact S.fw.followKids (hy a n h1 hv).1 (hy a n h1 hv).2
      constructor
      · conv => lhs; rw [← this]
        rfl
      · conv => lhs; rw [← this]
        rfl
    · exact ⟨rfl, rfl⟩
  have rem : ∀ f, f ∈ l ↔ ∃ n n', w.st.heap f = some n ∧ n.var = x ∧ d.st.heap (ab f) = some n' ∧ Df.HasY d.st y n' := by
    intro f
    have hasy : ∀ n, w.st.heap f = some n → n.var = x → ∃ n', d.st.heap (ab f) = some n' ∧
        (Df.HasY d.st y n' ↔ ((follow w n.thn).id = y ∨ (follow w n.els).id = y)) := by
      intro n hn hv
      obtain ⟨n', h1, h2, h3, h4, _⟩ := kid f n hn (Or.inl hv)
      exact ⟨n', h1, S.hasY P A.y1 (m := followKids w n) h2 h3 (by rw [h4]; rfl) (by rw [h4]; rfl)⟩
    constructor
    · intro hf
      obtain ⟨n, hn, hv⟩ := (S.tabW x f).1 (hlx f hf)
      obtain ⟨n', h1, h2⟩ := hasy n hn hv
      rcases hl f hf with h | ⟨_, h⟩
      · cases h
      · exact ⟨n, n', hn, hv, h1, h2.2 (h n hn)⟩
    · rintro ⟨n, n', hn, hv, h1, h2⟩
      obtain ⟨n'', h1', h2'⟩ := hasy n hn hv
      rw [h1] at h1'; cases h1'
      rcases (mem f).1 ((S.tabW x f).2 ⟨n, hn, hv⟩) with hk' | hl'
      · obtain ⟨_, h3⟩ := hk f hk'
        obtain ⟨h4, h5, h6⟩ := h3 n hn
        have e1 : follow w n.thn = n.thn := congrArg Node.thn h4
        have e0 : follow w n.els = n.els := congrArg Node.els h4
        rw [e1, e0] at h2'
        exact absurd (h2'.1 h2) (by simp [h5, h6])
      · exact hl'
  refine ⟨?_, ?_, ?_, heapO, heapN, rem, fun j hj => upd_ne _ _ hj, ?_, ?_, rfl, rfl⟩
  · refine ⟨S.ord, S.zero, by rw [heapN]; exact wf0, P.heap0, ?_, ?_, ?_, ?_, ?_, ?_, ?_, ?_, ?_, ?_, ?_, ndl, ?_, ?_⟩
    · intro a n h
      obtain ⟨n0, h1, h2, _⟩ := hvar a n h
      obtain ⟨n', h3, h4, _⟩ := S.node _ _ h1
      exact ⟨n', h3, by rw [h4, h2]⟩
    · intro a b ha hb
      exact S.inj a b (fun h => ha ((heapN a).2 h)) (fun h => hb ((heapN b).2 h))
    · intro b hb
      obtain ⟨a, ha, he⟩ := S.sur b hb
      exact ⟨a, fun h => ha ((heapN a).1 h), he⟩
    · intro a n h hv
      obtain ⟨n0, h1, h2, h3, h4⟩ := same a n h hv
      obtain ⟨n', h5, k1, k0, h6, _, _, h7, h8⟩ := kid a n0 h1 (by rw [h2]; exact hv)
      rw [← h3] at k1 h6 h7
      rw [← h4] at k0 h6 h8
      refine ⟨⟨eok _ k1, h7⟩, ⟨eok _ k0, h8⟩, ?_⟩
      show d.st.heap (ab a) = _
      rw [h5, h6, h2]; rfl
    · show upd d.st.tab x _ x = _
      rw [upd_same]
      show _ = (upd w.st.tab x keep x).map ab
      rw [upd_same]
    · show upd d.st.tab x _ y = _
      rw [upd_ne _ _ (Ne.symm A.ne)]
      show _ = (upd w.st.tab x keep y).map ab
      rw [upd_ne _ _ (Ne.symm A.ne)]; exact S.tab y
    · intro a ha
      have ha : a ∈ upd w.st.tab x keep x := ha
      rw [upd_same] at ha
      have hnl : a ∉ l := fun h => dis a ha a h rfl
      obtain ⟨n, hn, hv⟩ := (S.tabW x a).1 ((mem a).2 (Or.inl ha))
      exact ⟨hnl, n, by rw [heapO a hnl]; exact hn, hv⟩
    · intro a ha
      have ha : a ∈ upd w.st.tab x keep y := ha
      rw [upd_ne _ _ (Ne.symm A.ne)] at ha
      obtain ⟨n, hn, hv⟩ := (S.tabW y a).1 ha
      have hnl : a ∉ l := fun h => A.ne (by rw [← xl a n hn h, hv])
      exact ⟨n, by rw [heapO a hnl]; exact hn, hv⟩
    · intro a ha
      exact S.ref a (ha.imp id fun h h' => h ((heapN a).2 h'))
    · intro a ha
      exact S.le a (ha.imp id fun h h' => h ((heapN a).2 h'))
    · intro f hf
      obtain ⟨n, hn, hv⟩ := (S.tabW x f).1 (hlx f hf)
      exact ⟨_, heapI f n hf hn, hv⟩
    · show (upd w.st.tab x keep y).Nodup
      rw [upd_ne _ _ (Ne.symm A.ne)]
      have := P.tab_nodup y
      rw [S.tab] at this
      exact List.Pairwise.of_map ab (fun a b h h' => h (by rw [h'])) this
    · intro a n h hv
      obtain ⟨n0, h1, h2, h3, h4⟩ := same a n h (Or.inr hv)
      obtain ⟨n', h5, k1, k0, h6, b1, b0, _, _⟩ := kid a n0 h1 (Or.inr (h2.trans hv))
      have ylt := P.ord.lvl_lt A.y1 A.y2
      rw [h2, hv, h6] at b1 b0
      have l1 := S.below P k1 ylt b1
      have l0 := S.below P k0 ylt b0
      rw [h3, h4]
      rw [S.ord] at l1 l0
      constructor
      · intro h; rw [h] at l1; omega
      · intro h; rw [h] at l0; omega
  · refine ⟨⟨by rw [heapN]; exact wf0, S.fw.fr.next_pos, ?_, S.fw.fr.free_nodup, ?_, S.fw.fr.free_disj⟩, ?_⟩
    · intro a n h
      obtain ⟨n0, h1, _⟩ := hvar a n h
      exact S.fw.fr.heap_next a n0 h1
    · intro j a ha
      obtain ⟨h1, h2⟩ := S.fw.fr.free_ok j a ha
      exact ⟨(heapN a).2 h1, h2⟩
    · intro a t ht
      obtain ⟨h1, h2⟩ := S.fw.fw a t ht
      exact ⟨(heapN a).2 h1, h2⟩
  · intro f n hf hn
    obtain ⟨n0, m, U⟩ := up f (hlx f hf)
    rw [heapI f n0 hf U.here] at hn; cases hn
    refine ⟨U.l1, U.l0, ?_⟩
    rcases hl f hf with h | ⟨_, h⟩
    · cases h
    · exact h n0 U.here
  · intro a
    show a ∈ upd w.st.tab x keep x ↔ _
    rw [upd_same, mem]
    constructor
    · intro h; exact ⟨Or.inl h, fun h' => dis a h a h' rfl⟩
    · rintro ⟨h | h, h'⟩
      · exact h
      · exact absurd h h'
  · show w.st.numNodes - l.length + l.length = w.st.numNodes
    have h1 : l.length ≤ (w.st.tab x).length := by
      have := pm.length_eq
      rw [List.length_append] at this; omega
    have h2 : (w.st.tab x).length = (d.st.tab x).length := by rw [S.tab, List.length_map]
    have h3 := sumTo_ge (f := fun j => (d.st.tab j).length) (n := d.st.ord.numVars + 1) (a := x) (by have := A.x2; omega)
    have h4 := S.num
    unfold Store.NumOK at nm
    omega

end

section
variable {w : St} {d : Df.St} {ab : Nat → Nat} {x y i : Nat}

theorem swapNodes_sim {ext : Nat → Nat} {δ} (S : Sim (follow w) w d ab) (A : Df.Adj d.st x y) (hi : d.st.ord.lvl x = i)
    (r : d.st.RefOK ext) (nm : d.st.NumOK) (hδ : Lab d.st δ) {flag : Bool}
    (hy : ∀ a n, w.st.heap a = some n → n.var = y → w.st.EOK n.thn ∧ w.st.EOK n.els)
    (hx : ∀ a n, w.st.heap a = some n → n.var = x → ∀ e, e = n.thn ∨ e = n.els →
      w.st.EOK e ∨ (flag = true ∧ (follow w e).id = y)) :
    ∃ w' d' ab' R, swapNodes w flag i x y = some w' ∧ Df.exchangeNodes d x y = some d' ∧
      Sim (fun e => follow w' (follow w e)) w' d' ab' ∧ Eff x y R w d ab w' d' ab' ∧ w'.assocs = w.assocs ∧ w'.temp = w.temp := by
  have P := A.w
  have hxy := A.ne
  obtain ⟨keep, l, s1, e1, e2, e3, B⟩ := start_sim S A hi nm hy hx
  let d1 : Df.St := { d with st := { d.st with tab := upd d.st.tab x (keep.map ab) } }
  let w1 : St := { w with st := s1 }
  obtain ⟨w2, d2, ab2, e4, e5, L2, F2, Fd2, C⟩ := swapList_sim (i := i) hxy A.y1 l w1 d1 ab B.loc B.fw
    (show Fr d1.st from ⟨P.heap0, P.next_pos, P.heap_next, P.free_nodup, P.free_ok, P.free_disj⟩) B.lev
  have abs0 : ∀ a, w2.st.heap a ≠ none → ab2 a ≠ 0 := fun a h => L2.abs0 h
  have G : GRel ab2 (fun a => a = 0 ∨ w2.st.heap a ≠ none) y w2.st d2.st :=
    ⟨fun a b ha hb => L2.inj' ha hb, L2.ref, L2.taby, fun a ha => by
      obtain ⟨n, hn, _⟩ := L2.ty a ha; exact Or.inr (by simp [hn]), L2.ndy⟩
  obtain ⟨s3, t3, fr, g1, g2, G3, W⟩ := gcList_sim (w2.st.tab y) w2.st d2.st G L2.ndy (by
    intro a ha
    obtain ⟨n, hn, hv⟩ := L2.ty a ha
    obtain ⟨k1, k0, h⟩ := L2.node a n hn (Or.inr hv)
    exact ⟨ha, n, hn, h, eok_live k1.1, eok_live k0.1⟩)
  let w' : St := { w2 with st := { s3 with numNodes := s3.numNodes - fr.length } }
  let d' : Df.St := { d2 with st := { t3 with numNodes := t3.numNodes - fr.length } }
  have ew : swapNodes w flag i x y = some w' := by
    unfold swapNodes
    simp only [e1]
    have e3' := e3
    simp only at e3'
    rw [e3', e4]
    simp only [Store.gcTable, g1]
    rfl
  have ed : Df.exchangeNodes d x y = some d' := by
    unfold Df.exchangeNodes
    simp only [e2]
    have e5' : Df.exchangeList x y (l.map ab) { d with st := { d.st with tab := upd d.st.tab x (keep.map ab) } } = some d2 := e5
    rw [e5']
    simp only [Store.gcTable, L2.taby, g2, List.length_map]
    rfl
  obtain ⟨d'', δ', ed', Fr', ord', P', R', N', l', old', src'⟩ := Df.exchangeNodes_spec A r nm hδ
  rw [ed] at ed'; cases ed'
  -- the heaps
  have hh : ∀ a, w'.st.heap a = if a ∈ fr then none else w2.st.heap a := fun a => congrFun W.heap a
  have hhd : ∀ b, d'.st.heap b = if b ∈ fr.map ab2 then none else d2.st.heap b := fun b => congrFun W.heapD b
  have frl : ∀ a, a ∈ fr → ∃ n, w2.st.heap a = some n ∧ n.var = y := fun a ha => L2.ty a (W.sub a ha)
  have hmem : ∀ a, w2.st.heap a ≠ none → (ab2 a ∈ fr.map ab2 ↔ a ∈ fr) := by
    intro a ha
    constructor
    · intro h
      obtain ⟨b, hb, he⟩ := List.mem_map.1 h
      obtain ⟨n, hn, _⟩ := frl b hb
      rw [← L2.inj b a (by simp [hn]) ha he]; exact hb
    · exact fun h => List.mem_map_of_mem h
  have hd' : ∀ a, w2.st.heap a ≠ none → d'.st.heap (ab2 a) = if a ∈ fr then none else d2.st.heap (ab2 a) := by
    intro a ha
    rw [hhd]
    by_cases h : a ∈ fr
    · rw [if_pos h, if_pos ((hmem a ha).2 h)]
    · rw [if_neg h, if_neg (fun h' => h ((hmem a ha).1 h'))]
  have live : ∀ a n, w'.st.heap a = some n → a ∉ fr ∧ w2.st.heap a = some n := by
    intro a n h
    rw [hh] at h
    by_cases hf : a ∈ fr
    · rw [if_pos hf] at h; cases h
    · rw [if_neg hf] at h; exact ⟨hf, h⟩
  have alive : ∀ a n, w2.st.heap a = some n → d'.st.heap (ab2 a) ≠ none → w'.st.heap a = some n := by
    intro a n h h'
    rw [hd' a (by simp [h])] at h'
    by_cases hf : a ∈ fr
    · rw [if_pos hf] at h'; exact absurd rfl h'
    · rw [hh, if_neg hf]; exact h
  have fwd' : w'.fwd = w2.fwd := rfl
  have lw : ∀ a, s1.heap a ≠ none ↔ w.st.heap a ≠ none := fun a => not_congr (B.heapN a)
  have lx : ∀ a, a ∈ l → ∃ n, w.st.heap a = some n ∧ n.var = x := by
    intro a ha
    obtain ⟨n, _, h1, h2, _⟩ := (B.rem a).1 ha
    exact ⟨n, h1, h2⟩
  have keepW : ∀ a n, w.st.heap a = some n → a ∉ l → w2.st.heap a = some n ∧ ab2 a = ab a := by
    intro a n hn hl
    refine ⟨C.keep a n (by show s1.heap a = _; rw [B.heapO a hl]; exact hn) hl, C.abk a ?_ hl⟩
    show s1.heap a ≠ none
    rw [lw]; simp [hn]
  have FW' : FwOK w' := by
    have f3 := W.fr F2.fr (fun a ha => by obtain ⟨n, hn, _⟩ := L2.ty a ha; simp [hn])
    refine ⟨⟨f3.heap0, f3.next_pos, f3.heap_next, f3.free_nodup, f3.free_ok, f3.free_disj⟩, ?_⟩
    intro a t ht
    obtain ⟨h1, h2, h3, h4, h5⟩ := F2.fw a t ht
    have hnf : a ∉ fr := by
      intro h
      obtain ⟨n, hn, _⟩ := frl a h
      rw [h1] at hn; cases hn
    refine ⟨by rw [hh, if_neg hnf]; exact h1, h2, by show a < s3.next; rw [W.next]; exact h3, ?_, h5⟩
    intro j hj
    have hj : a ∈ s3.free j := hj
    rw [W.free] at hj
    unfold upd at hj
    split at hj
    · rcases List.mem_append.1 hj with h | h
      · exact hnf (List.mem_reverse.1 h)
      · exact h4 y h
    · exact h4 j hj
  have z' : ab2 0 = 0 := L2.zero
  have after : ∀ e, w.st.EOK e → (e.addr = 0 ∨ d'.st.heap (ab e.addr) ≠ none) →
      w'.st.EOK (follow w' e) ∧ absE ab2 (follow w' e) = absE ab e := by
    intro e he hl
    rcases he with ⟨h1, h2⟩ | ⟨n, hn, hv⟩
    · have : follow w' e = e := follow_none (by rw [h2]; exact FW'.zero)
      rw [this]
      exact ⟨Or.inl ⟨h1, h2⟩, by unfold absE; rw [h2, z', S.zero]⟩
    · have h0 : e.addr ≠ 0 := by
        intro h; rw [h, S.fw.fr.heap0] at hn; cases hn
      have hl : d'.st.heap (ab e.addr) ≠ none := hl.resolve_left h0
      by_cases hm : e.addr ∈ l
      · obtain ⟨g, m, h3, h4, h5, h6⟩ := C.fwdR _ hm
        have hf : follow w' e = ⟨y, g, e.neg⟩ := by
          rw [follow_some (w := w') (t := ⟨y, g, false⟩) h3]
          simp [Edge.phase]
        rw [hf]
        refine ⟨Or.inr ⟨m, alive g m h4 (by rw [h6]; exact hl), h5⟩, ?_⟩
        unfold absE
        rw [h6]
      · obtain ⟨h3, h4⟩ := keepW _ n hn hm
        have hf : follow w' e = e := follow_none (by
          show w2.fwd e.addr = none
          rw [C.fwdO _ hm]; exact S.fw.live hn)
        rw [hf]
        refine ⟨Or.inr ⟨n, alive _ n h3 (by rw [h4]; exact hl), hv⟩, ?_⟩
        unfold absE
        rw [h4]
  -- the children of the nodes of the two variables
  have kidok : ∀ e, w2.st.EOK e → ((absE ab2 e).addr = 0 ∨ d'.st.heap (absE ab2 e).addr ≠ none) → w'.st.EOK e := by
    intro e he hb
    rcases he with h | ⟨n, hn, hv⟩
    · exact Or.inl h
    · refine Or.inr ⟨n, alive _ n hn ?_, hv⟩
      exact hb.resolve_left (abs0 _ (by simp [hn]))
  have belowD : ∀ {k e}, Df.Below { d'.st with ord := Df.swapOrder d.st.ord x y } k e → e.addr = 0 ∨ d'.st.heap e.addr ≠ none := by
    rintro k e (h | ⟨m, hm, _⟩)
    · exact Or.inl h
    · exact Or.inr (by have hm : d'.st.heap e.addr = some m := hm; simp [hm])
  have old : ∀ a n, w'.st.heap a = some n → n.var ≠ x → n.var ≠ y → w.st.heap a = some n ∧ a ∉ l ∧ ab2 a = ab a := by
    intro a n h h1 h2
    obtain ⟨hnf, h3⟩ := live a n h
    have hal : a ∉ l := by
      intro hm
      rw [C.gone a hm] at h3; cases h3
    cases h4 : s1.heap a with
    | none =>
      rcases (C.new a n h3 h4).1 with h5 | h5
      · exact absurd h5 h1
      · exact absurd h5 h2
    | some n0 =>
      have h5 : w.st.heap a = some n0 := by rw [← B.heapO a hal]; exact h4
      obtain ⟨h6, h7⟩ := keepW a n0 h5 hal
      rw [h3] at h6; cases h6
      exact ⟨h5, hal, h7⟩
  have keepDD : ∀ c n n', w.st.heap c = some n → c ∉ l → d.st.heap (ab c) = some n' → d2.st.heap (ab c) = some n' := by
    intro c n n' hc hl h
    refine C.keepD _ n' h ?_
    intro hm
    obtain ⟨b, hb, he⟩ := List.mem_map.1 hm
    obtain ⟨m, h1, _⟩ := lx b hb
    exact hl (by rw [← S.inj b c (by simp [h1]) (by simp [hc]) he]; exact hb)
  have xynode : ∀ a n, w'.st.heap a = some n → n.var = x ∨ n.var = y →
      d'.st.heap (ab2 a) = some (absN ab2 n) ∧ w'.st.EOK n.thn ∧ w'.st.EOK n.els ∧ w2.st.EOK n.thn ∧ w2.st.EOK n.els := by
    intro a n h hv
    obtain ⟨hnf, h3⟩ := live a n h
    obtain ⟨k1, k0, h4⟩ := L2.node a n h3 hv
    have h5 : d'.st.heap (ab2 a) = some (absN ab2 n) := by
      rw [hd' a (by simp [h3]), if_neg hnf]; exact h4
    exact ⟨h5, kidok _ k1.1 (belowD (P'.thn_lo _ _ h5)), kidok _ k0.1 (belowD (P'.els_lo _ _ h5)), k1.1, k0.1⟩
  have nofw : ∀ e, w2.st.EOK e → w.fwd e.addr = none := by
    rintro e (⟨_, h⟩ | ⟨n, hn, _⟩)
    · rw [h]; exact S.fw.zero
    · cases h4 : s1.heap e.addr with
      | none => exact (C.new _ n hn h4).2
      | some n0 =>
        cases h5 : w.st.heap e.addr with
        | none => rw [(B.heapN _).2 h5] at h4; cases h4
        | some n1 => exact S.fw.live h5
  have hF' : ∀ e, w2.st.EOK e → w'.st.EOK e → follow w' (follow w e) = e := by
    intro e h1 h2
    rw [follow_none (nofw e h1), FW'.follow h2]
  -- the relation
  have ab0 : ∀ e, w.st.EOK e → (absE ab e).addr = 0 → e.addr = 0 := by
    rintro e (⟨_, h⟩ | ⟨n, hn, _⟩) h0
    · exact h
    · obtain ⟨n', h1, _⟩ := S.node _ _ hn
      have h0 : ab e.addr = 0 := h0
      rw [h0, P.heap0] at h1; cases h1
  have node' : ∀ a n, w'.st.heap a = some n → ∃ n', d'.st.heap (ab2 a) = some n' ∧ n'.var = n.var ∧
      Tr (fun e => follow w' (follow w e)) w' ab2 n.thn n'.thn ∧ Tr (fun e => follow w' (follow w e)) w' ab2 n.els n'.els := by
    intro a n h
    by_cases hv : n.var = x ∨ n.var = y
    · obtain ⟨h1, k1, k0, j1, j0⟩ := xynode a n h hv
      refine ⟨_, h1, rfl, ⟨?_, ?_⟩, ⟨?_, ?_⟩⟩
      · show w'.st.EOK (follow w' (follow w n.thn)); rw [hF' _ j1 k1]; exact k1
      · show absE ab2 (follow w' (follow w n.thn)) = _; rw [hF' _ j1 k1]; rfl
      · show w'.st.EOK (follow w' (follow w n.els)); rw [hF' _ j0 k0]; exact k0
      · show absE ab2 (follow w' (follow w n.els)) = _; rw [hF' _ j0 k0]; rfl
    · have hv1 : n.var ≠ x := fun h => hv (Or.inl h)
      have hv2 : n.var ≠ y := fun h => hv (Or.inr h)
      obtain ⟨h1, h2, h3⟩ := old a n h hv1 hv2
      obtain ⟨n', h4, h5, T1, T0⟩ := S.node a n h1
      have h6 : d'.st.heap (ab2 a) = some n' := by
        obtain ⟨hnf, h7⟩ := live a n h
        rw [hd' a (by simp [h7]), if_neg hnf, h3]
        exact keepDD a n n' h1 h2 h4
      have tr : ∀ e e', Tr (follow w) w ab e e' → (e'.addr = 0 ∨ d'.st.heap e'.addr ≠ none) →
          Tr (fun e => follow w' (follow w e)) w' ab2 e e' := by
        intro e e' ⟨t1, t2⟩ hl
        have hl' : (follow w e).addr = 0 ∨ d'.st.heap (ab (follow w e).addr) ≠ none := by
          rcases hl with hl | hl
          · exact Or.inl (ab0 _ t1 (by rw [t2]; exact hl))
          · right; rw [← t2] at hl; exact hl
        obtain ⟨h8, h9⟩ := after _ t1 hl'
        exact ⟨h8, h9.trans t2⟩
      exact ⟨n', h6, h5, tr _ _ T1 (belowD (P'.thn_lo _ _ h6)), tr _ _ T0 (belowD (P'.els_lo _ _ h6))⟩
  have sur' : ∀ b, d'.st.heap b ≠ none → ∃ a, w'.st.heap a ≠ none ∧ ab2 a = b := by
    intro b hb
    have hb2 : d2.st.heap b ≠ none := by
      intro h; rw [hhd, h] at hb
      split at hb <;> exact hb rfl
    obtain ⟨a, ha, he⟩ := L2.sur b hb2
    refine ⟨a, ?_, he⟩
    cases hn : w2.st.heap a with
    | none => exact absurd hn ha
    | some n => rw [alive a n hn (by rw [he]; exact hb)]; simp
  have tab' : ∀ j, d'.st.tab j = (w'.st.tab j).map ab2 := by
    intro j
    by_cases hjy : j = y
    · subst hjy; exact G3.taby
    · show t3.tab j = (s3.tab j).map ab2
      rw [W.tab j hjy, W.tabD j hjy]
      by_cases hjx : j = x
      · subst hjx; exact L2.tabx
      · rw [C.tab j hjx hjy, C.tabD j hjx hjy]
        show upd d.st.tab x _ j = (s1.tab j).map ab2
        rw [upd_ne _ _ hjx, B.tab j hjx, S.tab]
        apply List.map_congr_left
        intro a ha
        obtain ⟨n, hn, hv⟩ := (S.tabW j a).1 ha
        refine (keepW a n hn ?_).2.symm
        intro hm
        obtain ⟨m, h1, h2⟩ := lx a hm
        rw [hn] at h1; cases h1
        exact hjx (hv.symm.trans h2)
  have inj' : ∀ a b, w'.st.heap a ≠ none → w'.st.heap b ≠ none → ab2 a = ab2 b → a = b := by
    intro a b ha hb he
    refine L2.inj a b ?_ ?_ he
    · intro h; apply ha; rw [hh, h]; split <;> rfl
    · intro h; apply hb; rw [hh, h]; split <;> rfl
  have tabLive : ∀ j a, a ∈ w'.st.tab j → w'.st.heap a ≠ none := by
    intro j a ha
    have h1 : ab2 a ∈ d'.st.tab j := by rw [tab']; exact List.mem_map_of_mem ha
    obtain ⟨n', h2, h3⟩ := (P'.tab_iff j (ab2 a)).1 h1
    have h2 : d'.st.heap (ab2 a) = some n' := h2
    have h4 : w2.st.heap a ≠ none := by
      by_cases hjy : j = y
      · subst hjy
        obtain ⟨n, hn, _⟩ := L2.ty a ((W.taby a).1 ha).1
        simp [hn]
      · have ha : a ∈ s3.tab j := ha
        rw [W.tab j hjy] at ha
        by_cases hjx : j = x
        · subst hjx
          obtain ⟨_, n, hn, _⟩ := L2.tx a ha
          simp [hn]
        · rw [C.tab j hjx hjy] at ha
          have ha : a ∈ s1.tab j := ha
          rw [B.tab j hjx] at ha
          obtain ⟨n, hn, hv⟩ := (S.tabW j a).1 ha
          have : a ∉ l := by
            intro hm
            obtain ⟨m, h1, h2⟩ := lx a hm
            rw [hn] at h1; cases h1
            exact hjx (hv.symm.trans h2)
          simp [(keepW a n hn this).1]
    cases hn : w2.st.heap a with
    | none => exact absurd hn h4
    | some n => rw [alive a n hn (by simp [h2])]; simp
  have tabW' : ∀ j a, a ∈ w'.st.tab j ↔ ∃ n, w'.st.heap a = some n ∧ n.var = j := by
    intro j a
    constructor
    · intro ha
      have h1 : ab2 a ∈ d'.st.tab j := by rw [tab']; exact List.mem_map_of_mem ha
      obtain ⟨n', h2, h3⟩ := (P'.tab_iff j (ab2 a)).1 h1
      cases hn : w'.st.heap a with
      | none => exact absurd hn (tabLive j a ha)
      | some n =>
        obtain ⟨n'', h4, h5, _⟩ := node' a n hn
        rw [h4] at h2; cases h2
        exact ⟨n, rfl, by rw [← h5]; exact h3⟩
    · rintro ⟨n, hn, hv⟩
      obtain ⟨n', h4, h5, _⟩ := node' a n hn
      have h6 : ab2 a ∈ d'.st.tab j := (P'.tab_iff j (ab2 a)).2 ⟨n', h4, h5.trans hv⟩
      rw [tab'] at h6
      obtain ⟨b, hb, he⟩ := List.mem_map.1 h6
      rw [← inj' b a (tabLive j b hb) (by simp [hn]) he]; exact hb
  have lvl2 : ∀ a, (a = 0 ∨ w'.st.heap a ≠ none) → (a = 0 ∨ w2.st.heap a ≠ none) := by
    rintro a (h | h)
    · exact Or.inl h
    · right; intro h'; apply h; rw [hh, h']; split <;> rfl
  refine ⟨w', d', ab2, l, ew, ed, ⟨?_, z', FW', inj', sur', node', tab', tabW', ?_, ?_, ?_, ?_, ?_⟩, ?_, ?_, ?_⟩
  · show t3.ord = s3.ord
    rw [W.ord, W.ordD]; exact L2.ord
  · intro a ha; exact G3.ref a (lvl2 a ha)
  · intro a ha; exact W.le a (L2.le a (lvl2 a ha))
  · show s3.numNodes - fr.length = t3.numNodes - fr.length
    have h1 : w2.st.numNodes + d.st.numNodes = d2.st.numNodes + s1.numNodes + l.length := C.num
    have h2 := B.num
    have h3 := S.num
    rw [W.num, W.numD]; omega
  · show s3.gcCheck = t3.gcCheck
    rw [W.gcc, W.gccD, C.gcc, C.gccD]
    exact B.gcc.trans S.gcc
  · show w2.mat = d'.mat
    rw [Fr'.mat, C.rest]; exact S.mat
  · refine ⟨after, C.fwdO, ?_, B.rem, B.loc.nodup, ?_, ?_, C.list, by show w2.users = _; rw [C.rest], by show w2.vars = _; rw [C.rest],
      by show w2.ends = _; rw [C.rest], by show w2.pipe = _; rw [C.rest], ?_, ?_, ?_, ?_⟩
    · intro f hf
      obtain ⟨g, m, h3, h4, h5, h6⟩ := C.fwdR _ hf
      exact ⟨g, h3, fun hl => ⟨m, alive g m h4 (by rw [h6]; exact hl), h5, h6⟩⟩
    · intro a n h
      by_cases hv : n.var = x ∨ n.var = y
      · obtain ⟨_, k1, k0, _⟩ := xynode a n h hv
        exact Or.inr ⟨hv, k1, k0⟩
      · have hv1 : n.var ≠ x := fun h => hv (Or.inl h)
        have hv2 : n.var ≠ y := fun h => hv (Or.inr h)
        exact Or.inl ⟨hv1, hv2, (old a n h hv1 hv2).1⟩
    · intro a n h h1 h2
      have hal : a ∉ l := by
        intro hm
        obtain ⟨m, h3, h4⟩ := lx a hm
        rw [h] at h3; cases h3; exact h1 h4
      have h3 := (keepW a n h hal).1
      have : a ∉ fr := by
        intro hf
        obtain ⟨m, h4, h5⟩ := frl a hf
        rw [h3] at h4; cases h4; exact h2 h5
      rw [hh, if_neg this]; exact h3
    · intro a n h h1 h2
      obtain ⟨c, hc, rfl⟩ := S.sur a (by simp [h])
      cases hn : w.st.heap c with
      | none => exact absurd hn hc
      | some m =>
        obtain ⟨n', h3, h4, _⟩ := S.node c m hn
        rw [h] at h3; cases h3
        have hal : c ∉ l := by
          intro hm
          obtain ⟨q, q', q1, q2, q3, q4⟩ := (B.rem c).1 hm
          rw [hn] at q1; cases q1
          rw [h] at q3; cases q3
          exact h2 (h4.trans q2) q4
        obtain ⟨h5, h6⟩ := keepW c m hn hal
        have : c ∉ fr := by
          intro hf
          obtain ⟨q, q1, q2⟩ := frl c hf
          rw [h5] at q1; cases q1
          exact h1 (h4.trans q2)
        rw [← h6, hd' c (by simp [h5]), if_neg this, h6]
        exact keepDD c m n hn hal h
    · intro a n h h1
      obtain ⟨c, hc, rfl⟩ := S.sur a (by simp [h])
      cases hn : w.st.heap c with
      | none => exact absurd hn hc
      | some m =>
        obtain ⟨n', h3, h4, _⟩ := S.node c m hn
        rw [h] at h3; cases h3
        have hal : c ∉ l := by
          intro hm
          obtain ⟨q, q1, q2⟩ := lx c hm
          rw [hn] at q1; cases q1
          exact hxy (by rw [← q2, ← h4, h1])
        obtain ⟨h5, h6⟩ := keepW c m hn hal
        rw [← h6, hd' c (by simp [h5]), h6]
        by_cases hf : c ∈ fr
        · right; rw [if_pos hf]
        · left; rw [if_neg hf]; exact keepDD c m n hn hal h
    · left
      intro a n h h1
      obtain ⟨c, hc, rfl⟩ := sur' a (by simp [h])
      cases hn : w'.st.heap c with
      | none => exact absurd hn hc
      | some m =>
        obtain ⟨n', h3, h4, _⟩ := node' c m hn
        rw [h] at h3; cases h3
        obtain ⟨hnf, h5⟩ := live c m hn
        have hcy : c ∈ w2.st.tab y := ((W.taby c).1 ((tabW' y c).2 ⟨m, hn, h4.symm.trans h1⟩)).1
        have noy : ∀ a n b, a ∈ w2.st.tab y → b ∈ w2.st.tab y → w2.st.heap a = some n → n.thn.addr ≠ b ∧ n.els.addr ≠ b := by
          intro a n b ha hb hn
          obtain ⟨n0, q1, q2⟩ := L2.ty a ha
          rw [hn] at q1; cases q1
          obtain ⟨k1, k0, _⟩ := L2.node a n hn (Or.inr q2)
          obtain ⟨i1, i0⟩ := L2.nky a n hn q2
          obtain ⟨nb, q3, q4⟩ := L2.ty b hb
          have key : ∀ e, w2.st.EOK e → e.id ≠ y → e.addr ≠ b := by
            rintro e (⟨_, h⟩ | ⟨n, hn, hv⟩) hi he
            · rw [← he, h, L2.s0] at q3; cases q3
            · rw [he, q3] at hn; cases hn
              exact hi (hv.symm.trans q4)
          exact ⟨key _ k1.1 i1, key _ k0.1 i0⟩
        have h6 := (not_congr (W.zero noy c hcy)).1 hnf
        have h7 : s3.ref c = w2.st.ref c := W.same c (fun a n ha hn => noy a n c ha hcy hn)
        have h8 := G3.ref c (Or.inr (by simp [h5]))
        show t3.ref (ab2 c) ≠ 0
        rw [← h8, h7]; exact h6
    · intro a n h h1
      have h2 : d2.st.heap a = some n := by
        rw [hhd] at h
        split at h
        · cases h
        · exact h
      have hv := C.newD a n h2 h1
      refine ⟨hv, ?_⟩
      obtain ⟨c, hc, rfl⟩ := L2.sur a (by simp [h2])
      cases hn : w2.st.heap c with
      | none => exact absurd hn hc
      | some m =>
        obtain ⟨n', h3, h4⟩ := L2.var c m hn
        rw [h2] at h3; cases h3
        have hcl : c ∉ l := by intro hm; rw [C.gone c hm] at hn; cases hn
        have h5 : s1.heap c = none := by
          cases h6 : s1.heap c with
          | none => rfl
          | some q =>
            have h7 : w.st.heap c = some q := by rw [← B.heapO c hcl]; exact h6
            obtain ⟨_, h8⟩ := keepW c q h7 hcl
            obtain ⟨q', h9, _⟩ := S.node c q h7
            rw [h8, h9] at h1; cases h1
        obtain ⟨f, hf, g, q, q1, q2, q3⟩ := C.par c m hn h5 (h4.symm.trans hv)
        obtain ⟨f1, f1', r1, r2, r3, r4⟩ := (B.rem f).1 hf
        obtain ⟨f2, h7, h8, _⟩ := S.node f f1 r1
        rw [r3] at h7; cases h7
        refine ⟨ab f, f1', r3, h8.trans r2, r4, ?_⟩
        intro m' hm'
        obtain ⟨g', q', u1, u2, u3, u4⟩ := C.fwdR f hf
        rw [q1] at u1; cases u1
        rw [q2] at u2; cases u2
        have h9 := alive g q q2 (by rw [u4, hm']; simp)
        obtain ⟨h10, _⟩ := xynode g q h9 (Or.inr u3)
        rw [u4, hm'] at h10; cases h10
        rcases q3 with h | h
        · left; show ab2 q.thn.addr = _; rw [h]
        · right; show ab2 q.els.addr = _; rw [h]
  · show w2.assocs = _; rw [C.rest]
  · show w2.temp = _; rw [C.rest]

end

section
variable {w : St} {d : Df.St} {ab : Nat → Nat} {i : Nat}

/-- `BddReorderSwapVarIndex` does to the state what `BddExchange` does to the state it stands for. -/
theorem swap_sim {ext : Nat → Nat} (S : Sim (follow w) w d ab) (I : Df.DInv ext d) (hi : i + 1 < d.st.ord.numVars) {flag : Bool}
    (hy : ∀ a n, w.st.heap a = some n → n.var = w.st.ord.indexToId (i + 1) → w.st.EOK n.thn ∧ w.st.EOK n.els)
    (hx : ∀ a n, w.st.heap a = some n → n.var = w.st.ord.indexToId i → ∀ e, e = n.thn ∨ e = n.els →
      w.st.EOK e ∨ (flag = true ∧ (follow w e).id = w.st.ord.indexToId (i + 1))) :
    ∃ w' d' ab' R, swap w i flag = some w' ∧ Df.exchange d (d.st.ord.indexToId i) = some d' ∧
      Sim (fun e => follow w' (follow w e)) w' d' ab' ∧
      Eff (w.st.ord.indexToId i) (w.st.ord.indexToId (i + 1)) R w d ab w' d' ab' ∧
      w'.assocs = w.assocs.map (fun p => { p with a := Df.fixupAssoc w.st.ord (w.st.ord.indexToId i) (w.st.ord.indexToId (i + 1)) p.a }) ∧
      w'.temp = Df.fixupAssoc w.st.ord (w.st.ord.indexToId i) (w.st.ord.indexToId (i + 1)) w.temp ∧
      d'.assocs = d.assocs.map (fun p => { p with a := Df.fixupAssoc w.st.ord (w.st.ord.indexToId i) (w.st.ord.indexToId (i + 1)) p.a }) ∧
      d'.temp = Df.fixupAssoc w.st.ord (w.st.ord.indexToId i) (w.st.ord.indexToId (i + 1)) d.temp ∧
      w'.st.ord = Df.swapOrder w.st.ord (w.st.ord.indexToId i) (w.st.ord.indexToId (i + 1)) := by
  have P := I.w
  have hr := P.ord.id_range i (by omega)
  have hidx : d.st.ord.idToIndex (d.st.ord.indexToId i) = i := P.ord.right i (by omega)
  have A := Df.adj_of P hr.1 hr.2 (by omega)
  rw [hidx] at A
  have hlv : d.st.ord.lvl (d.st.ord.indexToId i) = i := P.ord.lvl_indexToId (by omega)
  obtain ⟨b, hb, hc⟩ := I.cov _ _ A.x1 A.x2 A.y1 A.y2 A.ne
  have hb' := hb
  rw [← S.mat] at hb'
  unfold swap Df.exchange
  rw [← S.ord] at hy hx ⊢
  simp only [if_pos hi, hidx, if_pos (And.intro hr.1 (And.intro hr.2 (show i + 1 < d.st.ord.numVars from hi))), hb, hb']
  cases b with
  | true =>
    simp only
    let w0 : St := { w with swaps := w.swaps + 1 }
    let d0 : Df.St := { d with swaps := d.swaps + 1 }
    obtain ⟨δ, l⟩ := P.exists_lab
    have S0 : Sim (follow w0) w0 d0 ab :=
      ⟨S.ord, S.zero, ⟨S.fw.fr, S.fw.fw⟩, S.inj, S.sur, S.node, S.tab, S.tabW, S.ref, S.le, S.num, S.gcc, S.mat⟩
    obtain ⟨w1, d1, ab1, R, e1, e2, S1, E, ha, ht⟩ := swapNodes_sim (w := w0) (d := d0) (flag := flag) S0 A hlv I.ref I.num l hy hx
    obtain ⟨d1', δ1, h1, fr, ho, _⟩ := Df.exchangeNodes_spec (d := d0) A I.ref I.num l
    rw [e2] at h1; cases h1
    have ho : d1.st.ord = d.st.ord := ho
    have how : w1.st.ord = d.st.ord := by rw [← S1.ord]; exact ho
    refine ⟨_, _, ab1, R, by rw [e1]; rfl, by rw [e2]; rfl, ?_, ?_, ?_, ?_, ?_, ?_, ?_⟩
    · refine ⟨?_, S1.zero, ⟨⟨S1.fw.fr.heap0, S1.fw.fr.next_pos, S1.fw.fr.heap_next, S1.fw.fr.free_nodup, S1.fw.fr.free_ok,
        S1.fw.fr.free_disj⟩, S1.fw.fw⟩, S1.inj, S1.sur, S1.node, S1.tab, S1.tabW, S1.ref, S1.le, S1.num, S1.gcc, S1.mat⟩
      show Df.swapOrder _ _ _ = Df.swapOrder _ _ _
      rw [how, ho]
    · exact ⟨E.after, E.fwdO, E.fwdR, E.rem, E.nodup, E.node, E.keep, E.list, E.users, E.vars, E.ends, E.pipe, E.keepD, E.keepY,
        E.swept, E.newD⟩
    · show w1.assocs.map _ = _
      rw [ha, how]
    · show Df.fixupAssoc _ _ _ w1.temp = _
      rw [ht, how]
    · show d1.assocs.map _ = _
      rw [fr.assocs, ho]
    · show Df.fixupAssoc _ _ _ d1.temp = _
      rw [fr.temp, ho]
    · show Df.swapOrder _ _ _ = _
      rw [how]
  | false =>
    simp only
    have hno : ∀ a n, d.st.heap a = some n → n.var = d.st.ord.indexToId i → ¬ Df.HasY d.st (d.st.ord.indexToId (i + 1)) n := by
      intro a n hn hv hh
      obtain ⟨δ, l⟩ := P.exists_lab
      rcases hc rfl δ l a n hn with g | g
      · exact Df.dep_self P l hn (by rw [hv]; exact g)
      · exact Df.dep_kid P l hn hh g
    have tr : ∀ e e', Tr (follow w) w ab e e' → Tr (fun e => follow w (follow w e)) w ab e e' := by
      rintro e e' ⟨h1, h2⟩
      have : follow w (follow w e) = follow w e := S.fw.follow h1
      exact ⟨by show w.st.EOK (follow w (follow w e)); rw [this]; exact h1,
        by show absE ab (follow w (follow w e)) = _; rw [this]; exact h2⟩
    refine ⟨_, _, ab, [], rfl, rfl, ?_, ?_, ?_, ?_, rfl, rfl, ?_⟩
    · refine ⟨?_, S.zero, ⟨⟨S.fw.fr.heap0, S.fw.fr.next_pos, S.fw.fr.heap_next, S.fw.fr.free_nodup, S.fw.fr.free_ok,
        S.fw.fr.free_disj⟩, S.fw.fw⟩, S.inj, S.sur, ?_, S.tab, S.tabW, S.ref, S.le, S.num, S.gcc, S.mat⟩
      · show Df.swapOrder _ _ _ = Df.swapOrder _ _ _
        rw [S.ord]
      · intro a n hn
        obtain ⟨n', h1, h2, T1, T0⟩ := S.node a n hn
        exact ⟨n', h1, h2, tr _ _ T1, tr _ _ T0⟩
    · refine ⟨?_, fun _ _ => rfl, by simp, ?_, List.nodup_nil, ?_, fun a n h _ _ => h, ?_, rfl, rfl, rfl, rfl, fun a n h _ _ => h,
        fun a n h _ => Or.inl h, Or.inr ⟨rfl, rfl⟩, ?_⟩
      · intro r hr _
        have : follow w r = r := S.fw.follow hr
        exact ⟨by show w.st.EOK (follow w r); rw [this]; exact hr, by show absE ab (follow w r) = _; rw [this]⟩
      · intro f
        constructor
        · intro h; cases h
        · rintro ⟨n, n', h1, h2, h3, h4⟩
          obtain ⟨n'', h5, h6, _⟩ := S.node _ _ h1
          rw [h3] at h5; cases h5
          exact absurd h4 (hno _ _ h3 (h6.trans h2))
      · intro a n hn
        have hn : w.st.heap a = some n := hn
        by_cases h1 : n.var = d.st.ord.indexToId i
        · right
          refine ⟨Or.inl h1, ?_⟩
          have key : ∀ e, e = n.thn ∨ e = n.els → w.st.EOK e := by
            intro e he
            rcases hx a n hn h1 e he with h | ⟨_, h⟩
            · exact h
            · exfalso
              obtain ⟨n', h2, h3, T1, T0⟩ := S.node a n hn
              refine hno _ n' h2 (h3.trans h1) ((S.hasY P A.y1 (m := followKids w n) T1.1 T0.1 T1.2.symm T0.2.symm).2 ?_)
              rcases he with rfl | rfl
              · exact Or.inl h
              · exact Or.inr h
          exact ⟨key _ (Or.inl rfl), key _ (Or.inr rfl)⟩
        · by_cases h2 : n.var = d.st.ord.indexToId (i + 1)
          · exact Or.inr ⟨Or.inr h2, hy a n hn h2⟩
          · exact Or.inl ⟨h1, h2, hn⟩
      · show w.list = _
        rw [List.reverse_nil, List.nil_append, upd_self]
      · intro a n h h'
        have h : d.st.heap a = some n := h
        rw [h'] at h; cases h
    · show w.assocs.map _ = _
      rw [S.ord]
    · show Df.fixupAssoc _ _ _ w.temp = _
      rw [S.ord]
    · rw [S.ord]; rfl

end

end Bfr

end Cal
