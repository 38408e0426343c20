import Verif.CheckDf
import Verif.Props29

/-!
# C74: the assertions inside of depth-first reordering

`Df.exchangeA` is the exchange of two adjacent variables with the assertions of the code, which end the program
when they do not hold; `Df.exchange` is the exchange without them.
-/

namespace Cal

variable {E : Env} {own : Nat → Nat} {m : Mgr}

/-- C74. Depth-first reordering of a manager that a program can get to: in all states that exchanges lead to, no
assertion in an exchange of a variable with the one below it fails, and the exchange succeeds. -/
theorem C74_exchange_partial (S : E.Sound) (R : Reachable E own false m) (hn : m.st.ord.numVars ≤ 46341)
    (ht : Tracked own m) :
    ∃ u d0, Df.enter { m with ca := m.ca.flush } [] = some (u, d0) ∧ d0.st.ord = m.st.ord ∧
      ∀ d, Df.Exch d0 d → ∀ k, k + 1 < m.st.ord.numVars →
        ∃ d', Df.exchangeA d (d.st.ord.indexToId k) = some d' ∧ Df.exchange d (d.st.ord.indexToId k) = some d' := by
  obtain ⟨Γ, leak, hl, i⟩ := flush_inv (R.inv S)
  obtain rfl := hl rfl
  have i0 : Mgr.InvG Γ (fun x => (fun _ => 0) x + pend [] x) own { m with ca := m.ca.flush } := by
    simpa [pend] using i
  obtain ⟨u, s, d0, δ0, e1, T⟩ := Df.start_ok i0 (by simp) hn (Df.tracked_covered i ht)
  have F := Df.fixed (ext := Mgr.roots { { m with ca := m.ca.flush } with st := s, ut := u }
    fun x => (fun _ => 0) x + pend [] x) (δ0 := δ0) (d0 := d0) m.st.gcCheck
  refine ⟨u, d0, e1, T.dord, fun d X k hk => ?_⟩
  have J : Df.ZInv (Mgr.roots { { m with ca := m.ca.flush } with st := s, ut := u }
      fun x => (fun _ => 0) x + pend [] x) δ0 d0 m.st.gcCheck d := by
    clear hk
    induction X with
    | start => exact ⟨⟨Df.RInv.start T.d T.lab, T.dchk⟩, T.zero, .start⟩
    | ex _ e ih => exact (F.down _ _ _ ih e).1
    | reset _ ih => exact (F.ok.reset _ ih).1
  have I := J.1.1.inv
  have nv : d.st.ord.numVars = m.st.ord.numVars := by rw [J.1.1.nv, T.dord]
  have r := I.w.ord.id_range k (by omega)
  have h : d.st.ord.idToIndex (d.st.ord.indexToId k) + 1 < d.st.ord.numVars := by
    rw [I.w.ord.right k (by omega)]; omega
  obtain ⟨d', e, -⟩ := Df.exchange_spec I r.1 r.2 h
  exact ⟨d', (Df.exchangeA_eq I J.2.1 r.1 r.2 h).trans e, e⟩

/-- C74. Depth-first sifting with the assertions of the code: none fails, the checks pass at
its end, and all BDDs of the user keep their functions. -/
theorem C74_asserts_partial (S : E.Sound) (R : Reachable E own false m) (hn : m.st.ord.numVars ≤ 46341)
    (ht : Tracked own m) (h0 : m.technique ≠ 0) (h2 : m.technique ≠ 2) {b : Block}
    (hb : Block.SuperOK m.st.ord.numVars b) (L : Sift.Limits) (passes : Nat) :
    ∃ m' φ b', Df.reorderDFA L passes { m with ca := m.ca.flush } [] b = some (m', φ, b') ∧
      Check.all m' = some m' ∧ Pres own 0 { m with ca := m.ca.flush } m' := by
  obtain ⟨Γ, leak, hl, i⟩ := flush_inv (R.inv S)
  obtain rfl := hl rfl
  have i0 : Mgr.InvG Γ (fun x => (fun _ => 0) x + pend [] x) own { m with ca := m.ca.flush } := by
    simpa [pend] using i
  obtain ⟨u, s, d0, δ0, e1, T⟩ := Df.start_ok i0 (by simp) hn (Df.tracked_covered i ht)
  have hnv : d0.st.ord.numVars = m.st.ord.numVars := by rw [T.dord]
  have hJ := Df.sysA_ok (ext := Mgr.roots { { m with ca := m.ca.flush } with st := s, ut := u }
    fun x => (fun _ => 0) x + pend [] x) (δ0 := δ0) (d0 := d0) m.st.gcCheck
  rw [hnv] at hJ
  obtain ⟨d, b', e4, J, hb', htree, hperm, -⟩ := C43_sift hJ L hb
    ⟨⟨Df.RInv.start T.d T.lab, T.dchk⟩, T.zero, .start⟩
  obtain ⟨r, e5, Q⟩ := Df.finish_reordered T (by simp) (fun _ => rfl) h0 J.1.1 J.1.2 hb' htree hperm
  obtain ⟨leak', h1, i'⟩ := Q.inv
  have h1 := h1 rfl
  subst h1
  have i' : Mgr.InvG Γ (fun _ => 0) own (Df.finish { m with ca := m.ca.flush } u d r) := by simpa [pend] using i'
  have ha : Check.assocs (Df.finish { m with ca := m.ca.flush } u d r) = true := Check.assocs_ok i'
  obtain ⟨k1, k2⟩ := Df.finish_live i0 T J e5
  refine ⟨Df.finish { m with ca := m.ca.flush } u d r, Df.forward r, b', ?_, Check.all_ok i' k2 k1, Q.pres⟩
  unfold Df.reorderDFA
  simp only [e1, Df.convertOk_ok T.d T.zero, Bool.not_true, Bool.false_eq_true, if_false, if_neg h2, hnv, e4, e5, ha,
    if_true]

example := C74_exchange_partial Env.plain_sound Demo.siftReach (by decide +kernel) Demo.siftTracked
example := C74_asserts_partial Env.plain_sound Demo.siftReach (by decide +kernel) Demo.siftTracked (by decide +kernel)
  (by decide +kernel) (by rw [show Demo.siftSess.m.st.ord.numVars = 3 by decide +kernel]; exact Demo.flat3_ok)
  Demo.limits 0

namespace Demo

/-- The assertions are not passed by everything: on the state with two variables that interact, they fail when a
node of the upper variable has no references, when a node below the exchanged variables claims to be above them,
when the then-pointer of a node is tagged, and when the last index of an association is wrong. -/
def assertB : Bool :=
  match Df.enter { siftSess.m with ca := siftSess.m.ca.flush } [] with
  | none => false
  | some (_, d) =>
    Interact.test 3 d.mat 1 2 == some true && (Df.exchangeA d 1).isSome && (Df.exchangeA d 2).isSome &&
    (Df.exchangeA { d with st := { d.st with ref := upd d.st.ref 4 0 } } 1).isNone &&
    (Df.exchange { d with st := { d.st with ref := upd d.st.ref 4 0 } } 1).isSome &&
    (Df.exchangeA { d with st := { d.st with
      heap := upd d.st.heap 3 ((d.st.heap 3).map fun n => { n with var := 1 }) } } 1).isNone &&
    (Df.exchangeA { d with st := { d.st with
      heap := upd d.st.heap 1 ((d.st.heap 1).map fun n => { n with thn := n.thn.not }) } } 1).isNone &&
    (Df.exchangeA { d with temp := { d.temp with last := 2 } } 1).isNone &&
    (Df.exchangeA { d with assocs := d.assocs.map fun p => { p with a := { p.a with last := 2 } } } 1).isNone

example : assertB = true := by decide +kernel

end Demo

end Cal
