import Verif.PrintBlow
import Verif.Props1

/-!
# Managers with products of clauses

For every `n` that the number of variables allows: `n` variables in the order of their ids, and any product of
clauses over them.
-/

namespace Cal.Print

/-- A manager with `n` variables, in the order of their ids, of which the user has handles. There is no node limit
and no reordering. -/
structure World (E : Env) (n : Nat) (own : Nat → Nat) (m : Mgr) : Prop where
  reach : Reachable E own false m
  tech : m.technique = 0
  limit : m.nodeLimit = 0
  nv : m.st.ord.numVars = n
  idx : ∀ v, 1 ≤ v → v ≤ n → m.st.ord.idToIndex v = v - 1
  vars : ∀ v, 1 ≤ v → v ≤ n → ∃ h, UTab.Live own h ∧ Den m h fun ρ => ρ v

variable {E : Env} {n : Nat} {own : Nat → Nat} {m : Mgr}

theorem World.more (S : E.Sound) (W : World E n own m) (hn : n < 65534) : ∃ own' m', World E (n + 1) own' m' := by
  have hnv := W.nv
  obtain ⟨m', h, h1, h2, -, g, d⟩ := Mgr.newVarLast_ok (W.reach.inv S) (show m.st.ord.numVars < maxVarId by rw [hnv]; exact hn)
  have hr : (Call.newVarLast).run E m = some (m', .handle h) := by simp only [Call.run, h1]; rfl
  have R := Reachable.call (Call.newVarLast) W.reach (show m.st.ord.numVars < 65534 by omega) hr
  simp only [Call.own, if_neg h2, Call.leaks, Bool.or_false] at R
  refine ⟨_, m', R, g.technique.trans W.tech, g.nodeLimit.trans W.limit, by rw [g.nv, hnv], fun v h1 h2 => ?_, fun v h1 h2 => ?_⟩
  · by_cases hv : v = n + 1
    · subst hv
      have := g.new
      rw [hnv] at this
      rw [this]; rfl
    · have := g.old v h1 (by omega)
      rw [W.idx v h1 (by omega), hnv, if_pos (by omega)] at this
      exact this
  · by_cases hv : v = n + 1
    · subst hv
      rw [hnv] at d
      exact ⟨h, live_bumped own h.addr h.neg, d⟩
    · obtain ⟨x, lx, dx⟩ := W.vars v h1 (by omega)
      exact ⟨x, live_bump lx, g.fns x lx _ dx⟩

theorem World.exists (S : E.Sound) : ∀ n, n ≤ 65534 → ∃ own m, World E n own m
  | 0, _ => ⟨_, _, .init (fun _ _ _ => 0), rfl, rfl, rfl, fun v h1 h2 => by omega, fun v h1 h2 => by omega⟩
  | n + 1, h => by
    obtain ⟨own, m, W⟩ := World.exists S n (by omega)
    exact W.more S (by omega)

/-- Handles and functions are kept. -/
def Kept (own own' : Nat → Nat) (m m' : Mgr) : Prop := ∀ h F, UTab.Live own h → Den m h F → UTab.Live own' h ∧ Den m' h F

theorem World.step (S : E.Sound) (W : World E n own m) {c : Call} {out : Option (Mgr × Handle)} {F : BFn}
    (hl : c.Legal own m) (hk : c.leaks = false) (ho : ∀ h, c.own own (.handle h) = if h = Handle.null then own else bump own h.addr)
    (hc : ∀ m' h, out = some (m', h) → c.run E m = some (m', .handle h)) (r : Mgr.Res own false true 0 m out F) :
    ∃ own' m' h, World E n own' m' ∧ Kept own own' m m' ∧ UTab.Live own' h ∧ Den m' h F := by
  obtain ⟨m', x, h1, p, h2 | ⟨-, -, -, -, h4⟩⟩ := r
  · obtain ⟨h2, -, d⟩ := h2
    have R := Reachable.call c W.reach hl (hc m' x h1)
    rw [ho, if_neg h2, hk, Bool.or_false] at R
    have kept : Kept own (bump own x.addr) m m' := fun h F l d => ⟨live_bump l, p.fns h l F d⟩
    have ho := p.ord W.tech
    refine ⟨_, m', x, ⟨R, p.technique.trans W.tech, p.nodeLimit.trans W.limit, by rw [ho]; exact W.nv, by rw [ho]; exact W.idx,
      fun v h1 h2 => ?_⟩, kept, live_bumped own x.addr x.neg, d⟩
    obtain ⟨y, ly, dy⟩ := W.vars v h1 h2
    exact ⟨y, kept y _ ly dy⟩
  · exact absurd (p.nodeLimit.trans W.limit) h4

theorem World.clause (S : E.Sound) : ∀ (c : List Nat) {own m}, World E n own m → (∀ v ∈ c, 1 ≤ v ∧ v ≤ n) →
    ∃ own' m' h, World E n own' m' ∧ Kept own own' m m' ∧ UTab.Live own' h ∧ Den m' h fun ρ => c.any ρ
  | [], own, m, W, _ => ⟨own, m, ⟨1, true⟩, W, fun h F l d => ⟨l, d⟩, .inl rfl, Mgr.const_den (W.reach.inv S) true⟩
  | v :: c, own, m, W, hv => by
    obtain ⟨own1, m1, h1, W1, k1, l1, d1⟩ := World.clause S c W fun v h => hv v (by simp [h])
    obtain ⟨y, ly, dy⟩ := W1.vars v (hv v (by simp)).1 (hv v (by simp)).2
    obtain ⟨own2, m2, h2, W2, k2, l2, d2⟩ := W1.step S (c := .or y h1) (F := fun ρ => ρ v || c.any ρ) ⟨.inr ly, .inr l1⟩ rfl (fun _ => rfl)
      (out := m1.or E y h1) (fun m' h e => by simp only [Call.run, e]; rfl) (Mgr.op2_ok S (W1.reach.inv S) opOr_law ly l1 dy d1)
    refine ⟨own2, m2, h2, W2, fun h F l d => ?_, l2, d2⟩
    obtain ⟨a, b⟩ := k1 h F l d
    exact k2 h F a b

theorem World.cnf (S : E.Sound) : ∀ (cs : List (List Nat)) {own m}, World E n own m → (∀ v ∈ cs.flatten, 1 ≤ v ∧ v ≤ n) →
    ∃ own' m' h, World E n own' m' ∧ UTab.Live own' h ∧ Den m' h (cnf cs)
  | [], own, m, W, _ => ⟨own, m, ⟨1, false⟩, W, .inl rfl, Mgr.const_den (W.reach.inv S) false⟩
  | c :: cs, own, m, W, hv => by
    obtain ⟨own1, m1, h1, W1, l1, d1⟩ := World.cnf S cs W fun v h => hv v (by rw [List.flatten_cons]; exact List.mem_append_right _ h)
    obtain ⟨own2, m2, h2, W2, k2, l2, d2⟩ := W1.clause S c fun v h => hv v (by rw [List.flatten_cons]; exact List.mem_append_left _ h)
    obtain ⟨l1', d1'⟩ := k2 h1 _ l1 d1
    obtain ⟨own3, m3, h3, W3, k3, l3, d3⟩ := W2.step S (c := .and h2 h1) (F := Print.cnf (c :: cs)) ⟨.inr l2, .inr l1'⟩ rfl (fun _ => rfl)
      (out := m2.and E h2 h1) (fun m' h e => by simp only [Call.run, e]; rfl) (by
        have := Mgr.op2_ok S (W2.reach.inv S) opAnd_law l2 l1' d2 d1'
        rw [show Print.cnf (c :: cs) = fun ρ => c.any ρ && Print.cnf cs ρ from funext (cnf_cons c cs)]
        exact this)
    exact ⟨own3, m3, h3, W3, l3, d3⟩

/-- Variables in the order of ids are in the order of the diagram. -/
theorem World.increasing (W : World E n own m) {xs : List Nat} (h : xs.Pairwise (· < ·)) (hr : ∀ x ∈ xs, 1 ≤ x ∧ x ≤ n) :
    Increasing m.st.ord xs := by
  refine ⟨fun x hx => by rw [W.nv]; exact hr x hx, ?_⟩
  refine List.Pairwise.imp_of_mem ?_ h
  intro x y hx hy hxy
  have h1 := hr x hx
  have h2 := hr y hy
  rw [W.idx x h1.1 h1.2, W.idx y h2.1 h2.2]
  omega

/-- The pairs `(k, k + 1)`, `(k + 2, k + 3)`, … -/
def somePairs (k : Nat) : Nat → List (Nat × Nat)
  | 0 => []
  | n + 1 => (k, k + 1) :: somePairs (k + 2) n

theorem somePairs_length : ∀ n k, (somePairs k n).length = n
  | 0, _ => rfl
  | n + 1, k => by rw [somePairs, List.length_cons, somePairs_length n]

theorem somePairs_flatten : ∀ n k, (pairs (k + 2 * n) (somePairs k n)).flatten = List.range' k (2 * n + 1)
  | 0, k => rfl
  | n + 1, k => by
    have := somePairs_flatten n (k + 2)
    rw [show k + 2 + 2 * n = k + 2 * (n + 1) by omega] at this
    rw [somePairs, pairs_cons, List.flatten_cons, this, show 2 * (n + 1) + 1 = 2 * n + 1 + 1 + 1 by omega, List.range'_succ, List.range'_succ]
    rfl

end Cal.Print
