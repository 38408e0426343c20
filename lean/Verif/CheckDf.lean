import Verif.Check
import Verif.CheckOk
import Verif.DfMono

/-!
# The assertions of depth-first reordering

`BddExchangeAux`, `BddExchange` and `BddReallocateNodes` contain assertions (`Cal_Assert` and `assert`). Here
the exchange is modelled with them: an assertion that does not hold ends the program (`none`).
-/

namespace Cal

namespace Df

/-- The assertions on one of the four grandchildren in `BddExchangeAux` (calReorderDF.c:875-887): it is below
the variable `x`, and not a node of `y`. -/
def grandOk (s : Store) (x y : Nat) (e : Edge) : Bool :=
  match pvar s e with
  | none => false
  | some v => decide (s.ord.lvl x < s.ord.lvl v) && v != y

/-- `BddExchangeAux` (calReorderDF.c:822-901) with its assertions. They come before the last changes of the
reference counts, and read none of these; so they are modelled on the state at the end. The assertion of
`HashTableFindOrAdd` that the then-pointer is not tagged (calReorderDF.c:303) is not here: its only caller has
just tested this (calReorderDF.c:246-269). -/
def exchangeAuxA (d : St) (f x y : Nat) : Option St :=
  match d.st.heap f with
  | none => none
  | some n =>
    match cof d.st y n.els, cof d.st y n.thn, exchangeAux d f x y with
    | some (f01, f00), some (f11, f10), some d1 =>
      if grandOk d1.st x y f00 && grandOk d1.st x y f10 && grandOk d1.st x y f01 && grandOk d1.st x y f11 then some d1
      else none
    | _, _, _ => none

/-- The second loop of `BddExchange` (calReorderDF.c:996-1001), with the assertions in `BddExchangeAux`
and the one in `HashTableAddDirect` that the then-pointer is not tagged (calReorderDF.c:285). -/
def exchangeListA (x y : Nat) : List Nat → St → Option St
  | [], d => some d
  | f :: fs, d =>
    match exchangeAuxA d f x y with
    | none => none
    | some d1 =>
      if (d1.st.heap f).all fun n => !n.thn.neg then
        exchangeListA x y fs { d1 with st := { d1.st with tab := upd d1.st.tab y (f :: d1.st.tab y) } }
      else none

/-- The first part of `BddExchange` for interacting variables (calReorderDF.c:973-1003), with the assertion
that every node of `x` has a reference (calReorderDF.c:982). The first loop changes no reference counts, so all
of its assertions are modelled before it. -/
def exchangeNodesA (d : St) (x y : Nat) : Option St :=
  if (d.st.tab x).all fun a => d.st.ref a != 0 then
    match unlink d.st y (d.st.tab x) [] with
    | none => none
    | some (keep, l) =>
      match exchangeListA x y l { d with st := { d.st with tab := upd d.st.tab x keep } } with
      | none => none
      | some d1 =>
        match d1.st.gcTable 0 y with
        | none => none
        | some (s', _) => some { d1 with st := s' }
  else none

/-- `CheckValidityOfNodes` (calReorderDF.c:905-921). The pointer to the then-child is followed as it is, so it
must not be tagged. -/
def validNodes (s : Store) (id : Nat) : Bool :=
  (s.tab id).all fun a =>
    match s.heap a with
    | none => false
    | some n =>
      match pvar s n.thn, pvar s n.els with
      | some t, some e => !n.thn.neg && decide (s.ord.lvl id < s.ord.lvl t) && decide (s.ord.lvl id < s.ord.lvl e)
      | _, _ => false

/-- `CalCheckAssoc` (calReorderUtil.c:395-428) during depth-first reordering. -/
def validAssocs (d : St) : Bool :=
  d.assocs.all (fun p => Check.expected d.st.ord p.a.var (Check.ids d.st.ord.numVars) (-1) == p.a.last) &&
    Check.expected d.st.ord d.temp.var (Check.ids d.st.ord.numVars) (-1) == d.temp.last

/-- The assertion at the end of `CalFixupAssoc` (calReorderUtil.c:448-449). -/
def fixupOk (o : Order) (x y : Nat) (A : Assoc) : Bool :=
  A.last == -1 || decide (0 ≤ (fixupAssoc o x y A).last ∧ (fixupAssoc o x y A).last ≤ constIndex)

/-- The assertions of `CalTestInteract` (calInteract.c:145-147). -/
def interactOk (n x y : Nat) : Bool :=
  let lo := min ((x : Int) - 1) (y - 1)
  let hi := max ((x : Int) - 1) (y - 1)
  decide (lo < hi ∧ hi < n ∧ 0 ≤ lo)

/-- `BddExchange` (calReorderDF.c:957-1028) with its assertions; those at its end are in lines 1018-1020. The
associations are not touched before `CalFixupAssoc`, so its assertion is modelled on the state at the start. -/
def exchangeA (d : St) (x : Nat) : Option St :=
  let o := d.st.ord
  if 1 ≤ x ∧ x ≤ o.numVars ∧ o.idToIndex x + 1 < o.numVars then
    let y := o.indexToId (o.idToIndex x + 1)
    let r := if !interactOk o.numVars x y || !fixupOk o x y d.temp || !d.assocs.all (fun p => fixupOk o x y p.a) then none
      else match Interact.test o.numVars d.mat x y with
      | none => none
      | some true => (exchangeNodesA { d with swaps := d.swaps + 1 } x y).map fun d' => swapLevels d' x y
      | some false => some (swapLevels { d with trivial := d.trivial + 1 } x y)
    r.bind fun d' => if validNodes d'.st x && validNodes d'.st y && validAssocs d' then some d' else none
  else none

/-- What the reordering routines see of a library with assertions (as `sys`, calReorderDF.c:1033-1387). -/
def sysA : Sift.Sys St :=
  { sys with
    ex := fun d i => if 0 ≤ i ∧ i < d.st.ord.numVars then exchangeA d (d.st.ord.indexToId i.toNat) else none }

/-- The assertions of `BddConvertDataStruct` that all nodes and the constant have references (calReorderDF.c:404,
417). The counts that it stores are the ones that it has read. -/
def convertOk (s : Store) : Bool :=
  (Check.ids s.ord.numVars).all (fun v => (s.tab v).all fun a => s.ref a != 0) && s.ref 0 != 0

/-- `CalBddReorderAuxDF` (calReorderDF.c:153-184) with the assertions of `BddConvertDataStruct`, those in the
exchanges and the one at the end of `BddReallocateNodes` (calReorderDF.c:809). Not here: the assertions on single
nodes in `BddReallocateNodes` (calReorderDF.c:768-791) and `BddConvertDataStructBack` (calReorderDF.c:468-473),
which `CalCheckAllValidity` repeats for all nodes at the end (calReorderDF.c:181). -/
def reorderDFA (L : Sift.Limits) (passes : Nat) (m : Mgr) (ps : List Edge) (b : Block) :
    Option (Mgr × (Edge → Edge) × Block) :=
  match enter m ps with
  | none => none
  | some (u, d0) =>
    if !convertOk d0.st then none else
    match (if m.technique = 2 then Sift.reorderWindowN sysA d0.st.ord.numVars passes d0 b
        else Sift.reorderSift sysA L d0.st.ord.numVars d0 b) with
    | none => none
    | some (d, b') =>
      match realloc d.st with
      | none => none
      | some r => if Check.assocs (finish m u d r) then some (finish m u d r, forward r, b') else none

/-! ## Proofs -/

theorem grandOk_low {s0 : Store} {x y : Nat} {δ0 δ : Nat → BFn} {D R : List Nat} {s : Store} (A : Adj s0 x y)
    (M : Mid s0 x y δ0 D R s δ) {e : Edge} (h : Low s0 x e) : grandOk s x y e = true := by
  have hb := M.below A h.below
  have y0 := A.y1
  have hx : s0.ord.lvl x < constIndex := by
    have x1 := A.x1
    have := A.w.ord.idx_lt x A.x1 A.x2
    have := A.w.ord.bound
    simp only [Order.lvl, if_neg (show x ≠ 0 by omega)]
    omega
  unfold grandOk pvar
  rw [M.ord]
  rcases h with h | ⟨m, hm, hl⟩
  · rw [if_pos h]
    have h0 : s0.ord.lvl 0 = constIndex := rfl
    have : (0 : Nat) ≠ y := by omega
    simp [h0, hx, this]
  · by_cases h0 : e.addr = 0
    · rw [h0, A.w.heap0] at hm; cases hm
    · rw [if_neg h0, hb, hm]
      have : m.var ≠ y := by
        rintro rfl
        have := A.lv
        omega
      have : s0.ord.lvl x < s0.ord.lvl m.var := by omega
      simp [*]

theorem exchangeAuxA_eq {s0 : Store} {x y : Nat} {δ0 δ : Nat → BFn} {D R : List Nat} {ext : Nat → Nat}
    (A : Adj s0 x y) {f} {d : St} (L : Loop s0 x y δ0 ext D (f :: R) d δ)
    (e0 : ∀ a, a ≠ 0 → s0.heap a = none → ext a = 0) : exchangeAuxA d f x y = exchangeAux d f x y := by
  have M := L.mid
  obtain ⟨d1, δ', h1, -, L1⟩ := step_spec A L e0
  obtain ⟨fD, n0, hn0, hv0, hasY⟩ := M.rem f List.mem_cons_self
  have hcur : d.st.heap f = some n0 := M.keep f n0 hn0 fD
  have lot : Below s0 (s0.ord.lvl x) n0.thn := by have := A.w.thn_lo f n0 hn0; rwa [hv0] at this
  have loe : Below s0 (s0.ord.lvl x) n0.els := by have := A.w.els_lo f n0 hn0; rwa [hv0] at this
  obtain ⟨f11, f10, ct, l11, l10, -⟩ := A.cofy lot (A.w.plain f n0 hn0).1
  obtain ⟨f01, f00, ce, l01, l00, -⟩ := A.cofy loe (A.w.plain f n0 hn0).2
  have ct' : cof d.st y n0.thn = some (f11, f10) := by rw [cof_congr (M.below A lot)]; exact ct
  have ce' : cof d.st y n0.els = some (f01, f00) := by rw [cof_congr (M.below A loe)]; exact ce
  have M1 := L1.mid
  have g : ∀ {e}, Low s0 x e → grandOk d1.st x y e = true := fun h => grandOk_low A M1 h
  unfold exchangeAuxA
  simp [hcur, ct', ce', h1, g l00, g l10, g l01, g l11]

theorem exchangeListA_eq {s0 : Store} {x y : Nat} {δ0 : Nat → BFn} {ext : Nat → Nat}
    (A : Adj s0 x y) (e0 : ∀ a, a ≠ 0 → s0.heap a = none → ext a = 0) :
    ∀ (R D : List Nat) (d : St) (δ : Nat → BFn), Loop s0 x y δ0 ext D R d δ →
      exchangeListA x y R d = exchangeList x y R d
  | [], _, _, _, _ => rfl
  | f :: R, D, d, δ, L => by
    obtain ⟨d1, δ1, h1, -, L1⟩ := step_spec A L e0
    have hp : ((d1.st.heap f).all fun n => !n.thn.neg) = true := by
      obtain ⟨n0, n, f11, f10, f01, f00, K⟩ := L1.mid.done f List.mem_cons_self
      have hc : d1.st.heap f = some n := K.cur
      simp [hc, K.pos]
    simp only [exchangeListA, exchangeList, exchangeAuxA_eq A L e0, h1, if_pos hp]
    exact exchangeListA_eq A e0 R _ _ _ L1

theorem exchangeNodesA_eq {x y : Nat} {ext : Nat → Nat} {d : St} (A : Adj d.st x y) (r : d.st.RefOK ext)
    (nm : d.st.NumOK) (Z : Bfr.NoZero d) : exchangeNodesA d x y = exchangeNodes d x y := by
  have w := A.w
  obtain ⟨δ0, l⟩ := w.exists_lab
  obtain ⟨keep, R, hu, k1, k2, k3, k4, k5⟩ := unlink_spec w A.y1 (d.st.tab x) [] (w.tab_nodup x) List.nodup_nil
    (by simp) (fun a ha => by obtain ⟨n, hn, _⟩ := (w.tab_iff x a).1 ha; simp [hn])
  simp only [List.not_mem_nil, false_or] at k4
  have M := Mid.start A l k1 k2 k3 k4
  let s1 : Store := { d.st with tab := upd d.st.tab x keep }
  have L : Loop d.st x y δ0 ext [] R { d with st := s1 } δ0 := by
    refine ⟨M, ?_, ?_⟩
    · exact (refOK_cnt.1 r).1
    · show d.st.numNodes = 1 + tabSum s1 + R.length
      have e1 := sumTo_change (f := fun j => (s1.tab j).length) (g := fun j => (d.st.tab j).length)
        (n := d.st.ord.numVars + 1) (a := x) (by have := A.x2; omega) (by
          intro j hj
          show (upd d.st.tab x _ j).length = _
          rw [upd_ne _ _ hj])
      have e2 : s1.tab x = keep := upd_same _ _ _
      simp only [e2] at e1
      simp only [List.length_nil, Nat.add_zero] at k5
      have e3 : tabSum s1 = sumTo (fun j => (s1.tab j).length) (d.st.ord.numVars + 1) := rfl
      unfold Store.NumOK at nm
      omega
  have hz : ((d.st.tab x).all fun a => d.st.ref a != 0) = true := by
    rw [List.all_eq_true]
    intro a ha
    obtain ⟨n, hn, _⟩ := (w.tab_iff x a).1 ha
    simp [Z a n hn]
  unfold exchangeNodesA exchangeNodes
  rw [if_pos hz]
  simp only [hu]
  rw [show exchangeListA x y R { d with st := { d.st with tab := upd d.st.tab x keep } } =
    exchangeList x y R { d with st := { d.st with tab := upd d.st.tab x keep } } from
    exchangeListA_eq A r.ext0 R _ _ _ L]
  rfl

theorem validNodes_ok {s : Store} (w : PWF s) {v : Nat} (v1 : 1 ≤ v) (v2 : v ≤ s.ord.numVars) :
    validNodes s v = true := by
  have hc : s.ord.lvl v < constIndex := by
    have := w.ord.idx_lt v v1 v2
    have := w.ord.bound
    simp only [Order.lvl, if_neg (show v ≠ 0 by omega)]
    omega
  have key : ∀ e, Below s (s.ord.lvl v) e → ∃ u, pvar s e = some u ∧ s.ord.lvl v < s.ord.lvl u := by
    intro e h
    unfold pvar
    rcases h with h | ⟨m, hm, hl⟩
    · exact ⟨0, by simp [h], hc⟩
    · have h0 : e.addr ≠ 0 := by intro h0; rw [h0, w.heap0] at hm; cases hm
      exact ⟨m.var, by simp [h0, hm], hl⟩
  unfold validNodes
  rw [List.all_eq_true]
  intro a ha
  obtain ⟨n, hn, hv⟩ := (w.tab_iff v a).1 ha
  have lt := w.thn_lo a n hn
  have le := w.els_lo a n hn
  rw [hv] at lt le
  obtain ⟨t, ht, ht'⟩ := key _ lt
  obtain ⟨e, he, he'⟩ := key _ le
  simp [hn, ht, he, ht', he', w.thn_pos a n hn]

theorem validAssocs_ok {ext : Nat → Nat} {d : St} (I : DInv ext d) : validAssocs d = true := by
  unfold validAssocs
  rw [Bool.and_eq_true, List.all_eq_true]
  exact ⟨fun p hp => by simp [Check.last_ok (s := d.st) (I.assocs p hp)],
    by simp [Check.last_ok (s := d.st) I.temp]⟩

theorem fixupOk_ok {o : Order} (w : o.WF) {x y : Nat}
    (hx : o.idToIndex x + 1 < o.numVars) (hxy : o.idToIndex y = o.idToIndex x + 1) {A : Assoc} (h : A.OK o) :
    fixupOk o x y A = true := by
  have b := w.bound
  have lt := h.lt
  unfold fixupOk
  by_cases hl : A.last = -1
  · simp [hl]
  · have h0 : 0 ≤ A.last := by
      rcases h.ex with h1 | ⟨v, -, hv⟩
      · exact absurd h1 hl
      · omega
    have : 0 ≤ (fixupAssoc o x y A).last ∧ (fixupAssoc o x y A).last ≤ constIndex := by
      unfold fixupAssoc
      rw [if_neg hl]
      split
      · rename_i h1
        have := h1.2
        show 0 ≤ A.last + 1 ∧ A.last + 1 ≤ constIndex
        omega
      · split
        · rename_i h1
          have := h1.2.2
          show 0 ≤ A.last - 1 ∧ A.last - 1 ≤ constIndex
          omega
        · omega
    simp [this]

theorem interactOk_ok {n x y : Nat} (x1 : 1 ≤ x) (y1 : 1 ≤ y) (hx : x ≤ n) (hy : y ≤ n) (h : x ≠ y) :
    interactOk n x y = true := by
  unfold interactOk
  simp only [decide_eq_true_eq]
  omega

theorem convertOk_ok {ext : Nat → Nat} {d : St} (I : DInv ext d) (Z : Bfr.NoZero d) : convertOk d.st = true := by
  unfold convertOk
  rw [Bool.and_eq_true, List.all_eq_true]
  refine ⟨fun v _ => ?_, by rw [I.ref.const]; decide⟩
  rw [List.all_eq_true]
  intro a ha
  obtain ⟨n, hn, _⟩ := (I.w.tab_iff v a).1 ha
  simp [Z a n hn]

/-- No assertion in an exchange fails. -/
theorem exchangeA_eq {ext : Nat → Nat} {d : St} (I : DInv ext d) (Z : Bfr.NoZero d) {x : Nat} (x1 : 1 ≤ x)
    (x2 : x ≤ d.st.ord.numVars) (h : d.st.ord.idToIndex x + 1 < d.st.ord.numVars) :
    exchangeA d x = exchange d x := by
  have A := adj_of I.w x1 x2 h
  obtain ⟨d', e, I', K, ho⟩ := exchange_spec I x1 x2 h
  have nv := K.nv
  have hval : (validNodes d'.st x && validNodes d'.st (d.st.ord.indexToId (d.st.ord.idToIndex x + 1)) &&
      validAssocs d') = true := by
    rw [validNodes_ok I'.w x1 (by omega), validNodes_ok I'.w A.y1 (by have := A.y2; omega), validAssocs_ok I']
    rfl
  rw [e]
  unfold exchange at e
  unfold exchangeA
  simp only [if_pos (And.intro x1 (And.intro x2 h))] at e ⊢
  have A' : Adj { d with swaps := d.swaps + 1 }.st x (d.st.ord.indexToId (d.st.ord.idToIndex x + 1)) := A
  have hr := I.w.ord.right (d.st.ord.idToIndex x + 1) h
  have hpre : (!interactOk d.st.ord.numVars x (d.st.ord.indexToId (d.st.ord.idToIndex x + 1)) ||
      !fixupOk d.st.ord x (d.st.ord.indexToId (d.st.ord.idToIndex x + 1)) d.temp ||
      !d.assocs.all (fun p => fixupOk d.st.ord x (d.st.ord.indexToId (d.st.ord.idToIndex x + 1)) p.a)) = false := by
    have h3 : (d.assocs.all fun p => fixupOk d.st.ord x (d.st.ord.indexToId (d.st.ord.idToIndex x + 1)) p.a) = true :=
      List.all_eq_true.2 fun p hp => fixupOk_ok I.w.ord h hr (I.assocs p hp)
    rw [interactOk_ok x1 A.y1 x2 A.y2 (fun e => A.ne e), fixupOk_ok I.w.ord h hr I.temp, h3]
    rfl
  simp only [hpre, Bool.false_eq_true, if_false]
  rw [exchangeNodesA_eq A' I.ref I.num Z]
  rw [show (match Interact.test d.st.ord.numVars d.mat x (d.st.ord.indexToId (d.st.ord.idToIndex x + 1)) with
      | none => none
      | some true => (exchangeNodes { d with swaps := d.swaps + 1 } x
          (d.st.ord.indexToId (d.st.ord.idToIndex x + 1))).map fun d' =>
            swapLevels d' x (d.st.ord.indexToId (d.st.ord.idToIndex x + 1))
      | some false => some (swapLevels { d with trivial := d.trivial + 1 } x
          (d.st.ord.indexToId (d.st.ord.idToIndex x + 1)))) = some d' from e]
  show (if _ then some d' else none) = some d'
  rw [if_pos hval]

/-- All exchanges that reordering can ask for. -/
theorem sysA_ex {ext : Nat → Nat} {d : St} (I : DInv ext d) (Z : Bfr.NoZero d) (i : Int) :
    sysA.ex d i = sys.ex d i := by
  show (if 0 ≤ i ∧ i < d.st.ord.numVars then exchangeA d (d.st.ord.indexToId i.toNat) else none) =
    if 0 ≤ i ∧ i < d.st.ord.numVars then exchange d (d.st.ord.indexToId i.toNat) else none
  by_cases hi : 0 ≤ i ∧ i < d.st.ord.numVars
  · rw [if_pos hi, if_pos hi]
    have hidx := I.w.ord.right i.toNat (by omega)
    have r := I.w.ord.id_range i.toNat (by omega)
    by_cases h : i.toNat + 1 < d.st.ord.numVars
    · exact exchangeA_eq I Z r.1 r.2 (by rw [hidx]; exact h)
    · unfold exchangeA exchange
      simp only [hidx, h, and_false, if_false]
  · rw [if_neg hi, if_neg hi]

theorem sysA_ok {ext : Nat → Nat} {δ0 : Nat → BFn} {d0 : St} (c : Int) :
    Sift.SysOK sysA (ZInv ext δ0 d0 c) at_ d0.st.ord.numVars := by
  have F := fixed (ext := ext) (δ0 := δ0) (d0 := d0) c
  refine ⟨fun d i J h0 hi => ?_, F.ok.reset⟩
  rw [sysA_ex J.1.1.inv J.2.1]
  exact F.ok.ex d i J h0 hi

end Df

end Cal
