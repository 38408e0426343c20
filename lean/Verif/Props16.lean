import Verif.RepackMgr
import Verif.Demo

/-!
# Properties, part 16: repacking
-/

namespace Cal

variable {E : Env} {own : Nat → Nat} {lk : Bool} {m : Mgr}

/-! ## C58 -/

/-- What the user can see of repacking: all handles they hold denote the same functions, all associations have the
same functions for the same variables, every variable is still there, in the same order, and there are as many
nodes as before. `Mgr.Inv` is the invariant of managers from which the other theorems about single calls follow (no
two nodes for one function, exact reference counts, valid cache, ...). -/
structure SameAfterRepacking (own : Nat → Nat) (m m' : Mgr) : Prop where
  inv : m'.Inv own false
  fns : ∀ h F, UTab.Live own h → Den m h F → Den m' h F
  assocs : ∀ j T, AssocDen m' j T ↔ AssocDen m j T
  cur : m'.cur = m.cur
  order : m'.st.ord = m.st.ord
  vars : ∀ v, 1 ≤ v → v ≤ m.st.ord.numVars → ∃ e, m'.vars v = some e ∧ Rep m'.st e (fun ρ => ρ v)
  nodes : m'.st.numNodes = m.st.numNodes

/-- Repacking after a garbage collection, in any manager that a session can lead to, for every way in which the nodes
are laid out on pages. It ends without fault (in particular, the free list of the pages that are kept never runs
out), and nothing that the user can see changes.

Partial: the node of every variable is assumed to be on a page that is kept (`hvars`), see `C58_violated`, and the
threshold of `Cal_BddManagerSetGCLimit`/`Cal_BddManagerSetParameters` for pages is assumed to be at most 1
(`hlow`). -/
theorem C58_repack_partial (S : E.Sound) (R : Reachable E own false m) {m1 : Mgr} (hg : m.gc = some m1)
    {pg : Rp.Pages} (L : Rp.Layout m1.st pg)
    (hvars : ∀ v a, m1.vars v = some ⟨v, a, false⟩ → a ∈ ((pg v).take ((m1.st.tab v).length / 128 + 1)).flatten)
    {low : Nat → Nat → Bool} (hlow : ∀ n p, low n p = true → n < 128 * p) :
    ∃ m' φ, Rp.repack low pg m1 = some (m', φ) ∧ SameAfterRepacking own m1 m' ∧
      ∀ h F, UTab.Live own h → Den m h F → Den m' h F := by
  obtain ⟨Γ, leak, hl, i⟩ := R.inv S
  obtain rfl := hl rfl
  obtain ⟨m1', h, i1, p1, -, -, -, -, -, -, live, -⟩ := i.gc
  rw [hg] at h; cases h
  have i0 : Mgr.InvG Γ (fun x => (fun _ => 0) x + pend [] x) own m1 := by simpa [pend] using i1
  obtain ⟨m', φ, e, Q⟩ := Rp.repack_ok i0 (by simp) L live hvars hlow
  obtain ⟨leak', h1, h2⟩ := Q.inv
  have h1 := h1 rfl
  have h2 : Mgr.InvG Γ (fun _ => 0) own m' := by rw [h1] at h2; simpa [pend] using h2
  have j1 : m1.Inv own false := ⟨Γ, _, fun _ => rfl, i1⟩
  have j' : m'.Inv own false := ⟨Γ, _, fun _ => rfl, h2⟩
  refine ⟨m', φ, e, ⟨j', fun x F l d => Q.pres.fns x l F d, fun j T => Q.pres.assocDen_iff j1 j', Q.pres.cur, Q.ord,
    fun v v1 v2 => ?_, Q.num⟩, fun x F l d => Q.pres.fns x l F (p1.fns x l F d)⟩
  obtain ⟨a, k1, k2⟩ := h2.var v v1 (by rw [Q.ord]; exact v2)
  refine ⟨_, k1, ?_⟩
  have := Rep.pos k2 Rep.one Rep.zero
  rwa [show (fun ρ : Asg => if ρ v then true else false) = fun ρ => ρ v from funext fun ρ => by simp] at this

/-- Repacking in the middle of a pipeline: the results that the pipeline has so far are forwarded. -/
theorem C58_pipeline_partial {ps : List Edge} (i : m.InvP own false ps)
    (live : ∀ a, m.st.heap a ≠ none → m.st.ref a ≠ 0) {pg : Rp.Pages} (L : Rp.Layout m.st pg)
    (hvars : ∀ v a, m.vars v = some ⟨v, a, false⟩ → a ∈ ((pg v).take ((m.st.tab v).length / 128 + 1)).flatten)
    {low : Nat → Nat → Bool} (hlow : ∀ n p, low n p = true → n < 128 * p) :
    ∃ m' φ, Rp.repack low pg m = some (m', φ) ∧ m'.InvP own false (ps.map φ) ∧
      (∀ e ∈ ps, ∀ F, Rep m.st e F → Rep m'.st (φ e) F) ∧
      ∀ h F, UTab.Live own h → Den m h F → Den m' h F := by
  obtain ⟨Γ, leak, hl, i, ok⟩ := i
  obtain rfl := hl rfl
  obtain ⟨m', φ, e, Q⟩ := Rp.repack_ok i ok L live hvars hlow
  obtain ⟨leak', h1, h2⟩ := Q.inv
  exact ⟨m', φ, e, ⟨Γ, leak', fun _ => h1 rfl, h2, Q.eok⟩, Q.fwd.pend, fun x F l d => Q.pres.fns x l F d⟩

/-- The pages of an id after repacking: as many of the first ones as are needed, if there are more than three of
them and `low` finds that they are badly used; otherwise all of them. -/
def keptPages (low : Nat → Nat → Bool) (s : Store) (pg : Rp.Pages) : Rp.Pages := fun i =>
  if 3 < (pg i).length ∧ low (s.tab i).length (pg i).length = true then (pg i).take ((s.tab i).length / 128 + 1)
  else pg i

/-- The pages that are not needed are given back: all nodes, and all free places that can be used for new nodes, are on
pages that are kept. -/
theorem C58_pages {s : Store} (w : s.WF) {pg : Rp.Pages} (L : Rp.Layout s pg)
    (live : ∀ a, s.heap a ≠ none → s.ref a ≠ 0) {low : Nat → Nat → Bool}
    (hlow : ∀ n p, low n p = true → n < 128 * p) (hids : ∀ i, ¬ (1 ≤ i ∧ i ≤ s.ord.numVars) → pg i = []) :
    ∃ r, Rp.repackStore low pg s = some r ∧ Rp.Layout r.st (keptPages low s pg) := by
  obtain ⟨r, e, M, -, -, H1, H2, H⟩ := Rp.repackStore_ok w L live hlow
  have hsub : ∀ i a, a ∈ (keptPages low s pg i).flatten → a ∈ (pg i).flatten := by
    intro i a ha
    unfold keptPages at ha
    split at ha
    · rw [← List.take_append_drop ((s.tab i).length / 128 + 1) (pg i), List.flatten_append]
      exact List.mem_append_left _ ha
    · exact ha
  have hneed : ∀ i, (3 < (pg i).length ∧ low (s.tab i).length (pg i).length = true) →
      (1 ≤ i ∧ i ≤ s.ord.numVars) ∧ Rp.needs low pg s i = true := by
    intro i h
    refine ⟨?_, by unfold Rp.needs; rw [h.2]; simpa using h.1⟩
    by_cases hi : 1 ≤ i ∧ i ≤ s.ord.numVars
    · exact hi
    · have := h.1; rw [hids i hi] at this; cases this
  refine ⟨r, e, ?_, ?_, fun i h => L.pos i (hsub i 0 h), ?_, ?_, ?_, fun i j a h1 h2 => L.disj i j a (hsub i a h1) (hsub j a h2)⟩
  · intro i p hp
    unfold keptPages at hp
    split at hp
    · exact L.size i p (List.mem_of_mem_take hp)
    · exact L.size i p hp
  · intro i
    unfold keptPages
    split
    · have hnd := L.nodup i
      rw [← List.take_append_drop ((s.tab i).length / 128 + 1) (pg i), List.flatten_append] at hnd
      exact (List.nodup_append.1 hnd).1
    · exact L.nodup i
  · intro i a ha n hn
    obtain ⟨x, hx, h⟩ := M.only a (by rw [hn]; simp)
    cases hk : s.heap x with
    | none => exact absurd hk hx
    | some k =>
      rw [← h, M.node x k hk] at hn
      cases hn
      exact L.disj _ _ _ (H1 x k hk) (by rw [h]; exact hsub i a ha)
  · intro a n hn
    obtain ⟨x, hx, h⟩ := M.only a (by rw [hn]; simp)
    cases hk : s.heap x with
    | none => exact absurd hk hx
    | some k =>
      rw [← h, M.node x k hk] at hn
      cases hn
      rw [← h]
      show r.at x ∈ (keptPages low s pg k.var).flatten
      unfold keptPages
      split
      · rename_i hc
        obtain ⟨hi, hn⟩ := hneed _ hc
        exact (H k.var hi.1 hi.2 hn).1 x (L.all x k hk) hx
      · exact H1 x k hk
  · intro i b hb
    unfold keptPages
    split
    · rename_i hc
      obtain ⟨hi, hn⟩ := hneed _ hc
      exact (H i hi.1 hi.2 hn).2.1 b hb
    · exact H2 i b hb

/-- With the real code put in place of the assumed one wherever it is safe, the environment is still sound, so that
everything that is proved for sound environments holds for sessions with real repacking. -/
theorem C58_env (S : E.Sound) {low : Nat → Nat → Bool} (hlow : ∀ n p, low n p = true → n < 128 * p)
    (pg : Mgr → Rp.Pages) : (E.rp low pg).Sound :=
  Env.rp_sound S hlow pg

/-! Witnesses -/

namespace Demo

/-- 90 per cent, the default -/
def low90 (n p : Nat) : Bool := decide (10 * n < 9 * 128 * p)

theorem low90_ok (n p : Nat) (h : low90 n p = true) : n < 128 * p := by
  unfold low90 at h
  have := of_decide_eq_true h
  omega

/-- A page that begins with the addresses in `l`, padded with addresses from `b` on. -/
def page (l : List Nat) (b : Nat) : List Nat := l ++ (List.range (128 - l.length)).map (· + b)

/-- The nodes of a are spread over four pages: the node of the variable is on the first page, the nodes 4 and 5 are
on the last one. -/
def spread : Rp.Pages
  | 1 => [page [1] 1000, page [] 1128, page [] 1256, page [4, 5] 1384]
  | 2 => [page [2, 6] 2000]
  | 3 => [page [3] 3000]
  | _ => []

/-- The same, but the node of the variable a is on the last page. -/
def astray : Rp.Pages
  | 1 => [page [] 1000, page [] 1128, page [] 1256, page [1, 4, 5] 1384]
  | 2 => [page [2, 6] 2000]
  | 3 => [page [3] 3000]
  | _ => []

def ascending : List Nat → Bool
  | a :: b :: l => decide (a < b) && ascending (b :: l)
  | _ => true

theorem ascending_ok : ∀ l, ascending l = true → l.Nodup ∧ ∀ a l', l = a :: l' → ∀ b ∈ l', a < b
  | [], _ => ⟨.nil, fun _ _ h => by cases h⟩
  | [a], _ => ⟨by simp, fun _ _ h => by cases h; simp⟩
  | a :: b :: l, h => by
    unfold ascending at h
    rw [Bool.and_eq_true] at h
    have hab := of_decide_eq_true h.1
    obtain ⟨h1, h2⟩ := ascending_ok (b :: l) h.2
    have h3 : ∀ c ∈ b :: l, a < c := by
      intro c hc
      rcases List.mem_cons.1 hc with rfl | hc
      · exact hab
      · have := h2 b l rfl c hc; omega
    refine ⟨List.nodup_cons.2 ⟨fun h => ?_, h1⟩, fun x y hx c hc => ?_⟩
    · have := h3 a h; omega
    · cases hx; exact h3 c hc

/-- A fast sufficient check. -/
def nodupB (l : List Nat) : Bool := decide (l.filter (· < 100)).Nodup && ascending (l.filter fun a => !decide (a < 100))

theorem nodupB_ok {l : List Nat} (h : nodupB l = true) : l.Nodup := by
  unfold nodupB at h
  rw [Bool.and_eq_true] at h
  rw [← (List.filter_append_perm (fun a => decide (a < 100)) l).nodup_iff]
  refine List.nodup_append.2 ⟨of_decide_eq_true h.1, (ascending_ok _ h.2).1, fun a ha b hb => ?_⟩
  have h1 := (List.mem_filter.1 ha).2
  have h2 := (List.mem_filter.1 hb).2
  rintro rfl
  rw [h1] at h2; cases h2

/-- Check of `Rp.Layout` for ids up to 3 and full heaps. -/
def layoutB (s : Store) (pg : Rp.Pages) : Bool :=
  (List.range 4).all (fun i => (pg i).all (fun p => p.length == 128) && (pg i).flatten.all (fun a => a != 0 &&
    (match s.heap a with | none => true | some n => n.var == i))) &&
  nodupB ((pg 0).flatten ++ ((pg 1).flatten ++ ((pg 2).flatten ++ (pg 3).flatten))) &&
  (List.range s.next).all (fun a => match s.heap a with | none => a == 0 | some n => (pg n.var).flatten.contains a)

theorem layoutB_ok {s : Store} (w : s.WF) {pg : Rp.Pages} (h4 : ∀ i, 4 ≤ i → pg i = []) (h : layoutB s pg = true) :
    Rp.Layout s pg := by
  unfold layoutB at h
  rw [Bool.and_eq_true, Bool.and_eq_true] at h
  obtain ⟨⟨h1, h2⟩, h3⟩ := h
  rw [List.all_eq_true] at h1 h3
  have h2 := nodupB_ok h2
  have hi : ∀ i, 4 ≤ i ∨ ((∀ p ∈ pg i, p.length = 128) ∧ ∀ a ∈ (pg i).flatten, a ≠ 0 ∧
      ∀ n, s.heap a = some n → n.var = i) := by
    intro i
    by_cases hi : 4 ≤ i
    · exact Or.inl hi
    · have := h1 i (List.mem_range.2 (by omega))
      rw [Bool.and_eq_true, List.all_eq_true, List.all_eq_true] at this
      refine Or.inr ⟨fun p hp => by simpa using this.1 p hp, fun a ha => ?_⟩
      have := this.2 a ha
      rw [Bool.and_eq_true] at this
      refine ⟨by simpa using this.1, fun n hn => ?_⟩
      have := this.2
      rw [hn] at this
      simpa using this
  have hno : ∀ i, 4 ≤ i → ∀ a, a ∉ (pg i).flatten := by
    intro i hi a ha; rw [h4 i hi] at ha; cases ha
  have hfree : ∀ i a, a ∉ s.free i := by
    intro i a ha
    obtain ⟨f1, f2, f3⟩ := w.free_ok i a ha
    have := h3 a (List.mem_range.2 f3)
    rw [f1] at this
    simp at this; omega
  obtain ⟨n0, h2, d0⟩ := List.nodup_append.1 h2
  obtain ⟨n1, h2, d1⟩ := List.nodup_append.1 h2
  obtain ⟨n2, n3, d2⟩ := List.nodup_append.1 h2
  have four : ∀ i, ¬ 4 ≤ i → i = 0 ∨ i = 1 ∨ i = 2 ∨ i = 3 := by omega
  refine ⟨?_, ?_, ?_, ?_, ?_, fun i a ha => absurd ha (hfree i a), ?_⟩
  · intro i p hp
    rcases hi i with h | h
    · rw [h4 i h] at hp; cases hp
    · exact h.1 p hp
  · intro i
    by_cases hi : 4 ≤ i
    · rw [h4 i hi]; exact .nil
    · rcases four i hi with rfl | rfl | rfl | rfl <;> assumption
  · intro i h0
    rcases hi i with h | h
    · exact hno i h 0 h0
    · exact (h.2 0 h0).1 rfl
  · intro i a ha n hn
    rcases hi i with h | h
    · exact absurd ha (hno i h a)
    · exact (h.2 a ha).2 n hn
  · intro a n hn
    have := h3 a (List.mem_range.2 (w.heap_next a n hn))
    rw [hn] at this
    simpa using this
  · intro i j a ha hb
    by_cases i4 : 4 ≤ i
    · exact absurd ha (hno i i4 a)
    by_cases j4 : 4 ≤ j
    · exact absurd hb (hno j j4 a)
    have key : ∀ i j, i < j → ¬ 4 ≤ j → ∀ a, a ∈ (pg i).flatten → a ∈ (pg j).flatten → False := by
      intro i j hij hj a ha hb
      rcases four i (by omega) with rfl | rfl | rfl | rfl <;> rcases four j hj with rfl | rfl | rfl | rfl <;>
        first
        | omega
        | exact d0 a ha a (by simp only [List.mem_append]; simp only [hb, true_or, or_true]) rfl
        | exact d1 a ha a (by simp only [List.mem_append]; simp only [hb, true_or, or_true]) rfl
        | exact d2 a ha a hb rfl
    rcases Nat.lt_trichotomy i j with h | h | h
    · exact (key i j h j4 a ha hb).elim
    · exact h
    · exact (key j i h i4 a hb ha).elim

/-- the session of `Demo.script` after a garbage collection -/
def gcMgr : Mgr := sess.m.gc.get (by decide +kernel)

theorem gcMgr_eq : sess.m.gc = some gcMgr := by unfold gcMgr; rw [Option.some_get]

theorem reachF : Reachable Env.plain sess.own false sess.m := by
  have h : Reachable Env.plain sess.own sess.lk sess.m := reach
  rwa [show sess.lk = false by decide +kernel] at h

theorem gcMgr_wf : gcMgr.st.WF := by
  obtain ⟨Γ, leak, -, i⟩ := reachF.inv Env.plain_sound
  obtain ⟨m1, h, i1, -⟩ := i.gc
  rw [gcMgr_eq] at h; cases h
  exact i1.wf

theorem spread_layout : Rp.Layout gcMgr.st spread :=
  layoutB_ok gcMgr_wf (fun i h => by unfold spread; split <;> first | omega | rfl) (by decide +kernel)

theorem astray_layout : Rp.Layout gcMgr.st astray :=
  layoutB_ok gcMgr_wf (fun i h => by unfold astray; split <;> first | omega | rfl) (by decide +kernel)

theorem spread_vars (v a : Nat) (h : gcMgr.vars v = some ⟨v, a, false⟩) :
    a ∈ ((spread v).take ((gcMgr.st.tab v).length / 128 + 1)).flatten := by
  obtain ⟨Γ, leak, -, i⟩ := reachF.inv Env.plain_sound
  obtain ⟨m1, hm, i1, -⟩ := i.gc
  rw [gcMgr_eq] at hm; cases hm
  have hn : gcMgr.st.ord.numVars = 3 := by decide +kernel
  have hv : v = 1 ∨ v = 2 ∨ v = 3 := by
    by_cases h0 : 1 ≤ v ∧ v ≤ 3
    · omega
    · rw [i1.var0 v (by omega)] at h; cases h
  rcases hv with rfl | rfl | rfl
  · rw [show gcMgr.vars 1 = some ⟨1, 1, false⟩ by decide +kernel] at h
    cases h; decide +kernel
  · rw [show gcMgr.vars 2 = some ⟨2, 2, false⟩ by decide +kernel] at h
    cases h; decide +kernel
  · rw [show gcMgr.vars 3 = some ⟨3, 3, false⟩ by decide +kernel] at h
    cases h; decide +kernel

end Demo

/-- The assumptions of `C58_repack_partial` are met by a session with four pages for a variable. -/
example : ∃ m' φ, Rp.repack Demo.low90 Demo.spread Demo.gcMgr = some (m', φ) ∧
    SameAfterRepacking Demo.sess.own Demo.gcMgr m' ∧
    ∀ h F, UTab.Live Demo.sess.own h → Den Demo.sess.m h F → Den m' h F :=
  C58_repack_partial Env.plain_sound Demo.reachF Demo.gcMgr_eq Demo.spread_layout Demo.spread_vars Demo.low90_ok

/-- Two nodes of a move to the first page. -/
example : (Rp.repackStore Demo.low90 Demo.spread Demo.gcMgr.st).map
    (fun r => ((List.range 8).map r.fwd, r.st.tab 1, (r.st.heap 4).isNone, (r.st.heap 1126).isSome)) =
    some ([none, none, none, none, some 1126, some 1125, none, none], [1125, 1126, 1], true, true) := by decide +kernel

/-- Repacking forgets the variables: the BDDs `varBdds` of the manager are not forwarded. In a manager in which the
node of a variable is on a page that is given back, `Cal_BddManagerGetVarWithId` and all operations that make use of
the variable work with a node on a page that has been freed. A variable is on the first page of its id as long as its
id has not been reordered; reordering lays out nodes anew, in the order of the bins of the unique table
(calReorderDF.c:703-820). -/
theorem C58_violated : ∃ own m m1 pg m' φ e, Reachable Env.plain own false m ∧ m.gc = some m1 ∧ Rp.Layout m1.st pg ∧
    Rp.repack Demo.low90 pg m1 = some (m', φ) ∧ m1.vars 1 = some e ∧ Rep m1.st e (fun ρ => ρ 1) ∧
    m'.vars 1 = some e ∧ ∀ F, ¬ Rep m'.st e F := by
  have h : (Rp.repack Demo.low90 Demo.astray Demo.gcMgr).map (fun r => (r.1.vars 1, (r.1.st.heap 1).isNone)) =
      some (some ⟨1, 1, false⟩, true) := by decide +kernel
  rw [Option.map_eq_some_iff] at h
  obtain ⟨⟨m', φ⟩, e, h⟩ := h
  have h1 : m'.vars 1 = some ⟨1, 1, false⟩ := (Prod.mk.inj h).1
  have h2 : m'.st.heap 1 = none := by simpa using (Prod.mk.inj h).2
  have hg : Demo.gcMgr.st.heap 1 = some ⟨1, ⟨0, 0, false⟩, ⟨0, 0, true⟩⟩ := by decide +kernel
  refine ⟨_, _, _, _, m', φ, ⟨1, 1, false⟩, Demo.reachF, Demo.gcMgr_eq, Demo.astray_layout, e, by decide +kernel, ?_, h1,
    fun F r => ?_⟩
  · have := Rep.pos hg Rep.one Rep.zero
    rwa [show (fun ρ : Asg => if ρ 1 then true else false) = fun ρ => ρ 1 from funext fun ρ => by simp] at this
  · rcases r.eok with ⟨-, h0⟩ | ⟨n, hn, -⟩
    · cases h0
    · rw [show m'.st.heap 1 = some n from hn] at h2; cases h2

end Cal
