import Verif.ApiQuantBF
import Verif.Props2
import Verif.DfEnv
import Verif.RepackMgr

/-!
# Breadth-first quantification

`Cal_BddExists`, `Cal_BddForAll` and `Cal_BddRelProd` switch from depth-first recursion to a breadth-first algorithm
with queues of requests when the manager has more than `CAL_LARGE_BDD` nodes. `m.existsWith E bf f` is the call with the
algorithm `bf` forced (`true` for breadth-first) at any number of nodes.
-/

namespace Cal

variable {E : Env} {own : Nat → Nat} {lk : Bool} {m : Mgr}

/-! ## C59 -/

/-- With either algorithm, whatever the number of nodes: the quantifier succeeds and yields the existential
quantification over the variables of the current association; other handles keep their functions. -/
theorem C59_exists (S : E.Sound) (R : Reachable E own lk m) (bf : Bool) {T} (hT : AssocDen m m.cur T)
    (hc : m.cur = -1 → 1 ≤ m.codesLeft) {f F} (lf : UTab.Live own f) (hf : Den m f F) :
    YieldsOrOverflows own m (m.existsWith E bf f) (exFn (Dom T) F) := by
  obtain ⟨A, hA, hd⟩ := hT.dom
  rw [← hd]
  exact (Mgr.existsWith_ok S bf (R.inv S) hA (fun h => Mgr.codes_left (R.inv S) (hc h)) lf hf).overflows

theorem C59_forAll (S : E.Sound) (R : Reachable E own lk m) (bf : Bool) {T} (hT : AssocDen m m.cur T)
    (hc : m.cur = -1 → 1 ≤ m.codesLeft) {f F} (lf : UTab.Live own f) (hf : Den m f F) :
    YieldsOrOverflows own m (m.forAllWith E bf f) (allFn (Dom T) F) := by
  obtain ⟨A, hA, hd⟩ := hT.dom
  rw [← hd]
  exact (Mgr.forAllWith_ok S bf (R.inv S) hA (fun h => Mgr.codes_left (R.inv S) (hc h)) lf hf).overflows

theorem C59_relProd (S : E.Sound) (R : Reachable E own lk m) (bf : Bool) {T} (hT : AssocDen m m.cur T)
    (hc : m.cur = -1 → 2 ≤ m.codesLeft) {f F g G} (lf : UTab.Live own f) (lg : UTab.Live own g)
    (hf : Den m f F) (hg : Den m g G) :
    YieldsOrOverflows own m (m.relProdWith E bf f g) (exFn (Dom T) fun ρ => F ρ && G ρ) := by
  obtain ⟨A, hA, hd⟩ := hT.dom
  rw [← hd]
  exact (Mgr.relProdWith_ok S bf (R.inv S) hA (fun h => Mgr.codes_left (R.inv S) (hc h)) lf lg hf hg).overflows

theorem res_handle {nul k out F} (h : Mgr.Res own lk nul k m out F) {x} (lx : UTab.Live own x) (hx : Den m x F)
    {m' r} (e : out = some (m', r)) (hr : r ≠ Handle.null) : r = x := by
  obtain ⟨m1, r1, h1, p, h2 | ⟨-, h2, -⟩⟩ := h
  · rw [e] at h1; cases h1
    exact (Mgr.handle_eq h2.2.1 h2.2.2 (p.fns x lx F hx)).2 rfl
  · rw [e] at h1; cases h1; exact absurd h2 hr

/-- The two algorithms return the same handle: the one the user holds, if they already have a handle of the result. -/
theorem C59_same (S : E.Sound) (R : Reachable E own lk m) {T} (hT : AssocDen m m.cur T)
    (hc : m.cur = -1 → 2 ≤ m.codesLeft) {f F g G} (lf : UTab.Live own f) (lg : UTab.Live own g) (hf : Den m f F)
    (hg : Den m g G) (bf : Bool) :
    (∀ x m' r, UTab.Live own x → Den m x (exFn (Dom T) F) → m.existsWith E bf f = some (m', r) →
      r ≠ Handle.null → r = x) ∧
    (∀ x m' r, UTab.Live own x → Den m x (allFn (Dom T) F) → m.forAllWith E bf f = some (m', r) →
      r ≠ Handle.null → r = x) ∧
    (∀ x m' r, UTab.Live own x → Den m x (exFn (Dom T) fun ρ => F ρ && G ρ) → m.relProdWith E bf f g = some (m', r) →
      r ≠ Handle.null → r = x) := by
  obtain ⟨A, hA, hd⟩ := hT.dom
  rw [← hd]
  have hc1 : m.cur = -1 → 1 ≤ m.codesLeft := fun h => by have := hc h; omega
  exact ⟨fun x m' r lx hx e hr => res_handle (Mgr.existsWith_ok S bf (R.inv S) hA
      (fun h => Mgr.codes_left (R.inv S) (hc1 h)) lf hf) lx hx e hr,
    fun x m' r lx hx e hr => res_handle (Mgr.forAllWith_ok S bf (R.inv S) hA
      (fun h => Mgr.codes_left (R.inv S) (hc1 h)) lf hf) lx hx e hr,
    fun x m' r lx hx e hr => res_handle (Mgr.relProdWith_ok S bf (R.inv S) hA
      (fun h => Mgr.codes_left (R.inv S) (hc h)) lf lg hf hg) lx hx e hr⟩

/-- What the package runs is one of the two, by the number of nodes when the operation starts: `E.bf` is the
environment `E` with the breadth-first algorithms of the code. -/
theorem C59_choice (f g : Edge) :
    m.existsRun E.bf f = m.existsBy (decide (2 ^ 19 < m.st.numNodes)) f ∧
    m.relProdRun E.bf f g = m.relProdBy (decide (2 ^ 19 < m.st.numNodes)) f g :=
  ⟨Mgr.existsRun_by f, Mgr.relProdRun_by f g⟩

/-- So nothing has to be assumed of breadth-first quantification: all theorems about sessions that assume `E.Sound`
apply to the environment with the code's algorithms. -/
theorem C59_nothing_assumed (S : E.Sound) : E.bf.Sound := Env.bf_sound S

/-- All parts of the environment together: depth-first reordering (where it is safe), repacking (where it is safe)
and the quantifiers as in the code. -/
noncomputable def Env.code (E : Env) (L : Sift.Limits) (passes : Nat) (blk : Mgr → List Edge → Block)
    (low : Nat → Nat → Bool) (pg : Mgr → Rp.Pages) : Env :=
  ((E.df L passes blk).rp low pg).bf

theorem C59_code_sound (S : E.Sound) (L : Sift.Limits) (passes : Nat) (blk : Mgr → List Edge → Block)
    {low : Nat → Nat → Bool} (hlow : ∀ n p, low n p = true → n < Rp.perPage * p) (pg : Mgr → Rp.Pages) :
    (E.code L passes blk low pg).Sound :=
  Env.bf_sound (Env.rp_sound (Env.df_sound S L passes blk) hlow pg)

/-- `∃ a. (a ∧ b) ∨ c`, breadth-first -/
example : YieldsOrOverflows Demo.sess.own Demo.sess.m (Demo.sess.m.existsWith Env.plain true ⟨6, false⟩)
    (exFn (Dom (upd (fun _ => none) 1 (some fun _ => true))) fun ρ => ρ 1 && ρ 2 || ρ 3) :=
  C59_exists Env.plain_sound Demo.reach true Demo.assoc0 (by rw [Demo.cur0]; intro h; cases h) Demo.live6 Demo.den6
example := C59_forAll Env.plain_sound Demo.reach true Demo.assoc0 (by rw [Demo.cur0]; intro h; cases h)
  Demo.live6 Demo.den6
example := C59_relProd Env.plain_sound Demo.reach true Demo.assoc0 (by rw [Demo.cur0]; intro h; cases h)
  Demo.live6 Demo.live5 Demo.den6 Demo.den5
example := C59_same Env.plain_sound Demo.reach Demo.assoc0 (by rw [Demo.cur0]; intro h; cases h)
  Demo.live6 Demo.live5 Demo.den6 Demo.den5 true

/-- Both algorithms return the same handles: `b ∨ c` is new, `∀ a. (a ∧ b) ∨ c` is `c`, and `∃ a. ((a ∧ b) ∨ c) ∧ (a ∧ b)`
is `b`. -/
example : [false, true].map (fun b => ((Demo.sess.m.existsWith Env.plain b ⟨6, false⟩).map (·.2),
      (Demo.sess.m.forAllWith Env.plain b ⟨6, false⟩).map (·.2),
      (Demo.sess.m.relProdWith Env.plain b ⟨6, false⟩ ⟨5, false⟩).map (·.2))) =
    [(some ⟨7, false⟩, some ⟨4, false⟩, some ⟨3, false⟩), (some ⟨7, false⟩, some ⟨4, false⟩, some ⟨3, false⟩)] := by
  decide +kernel

end Cal
