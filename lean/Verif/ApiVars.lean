import Verif.ApiParts

/-!
# New variables
-/

namespace Cal

theorem Order.insertVar_idx {o : Order} (ow : o.WF) {index v : Nat} (h1 : 1 ≤ v)
    (h2 : v ≤ o.numVars) :
    (o.insertVar index).idToIndex v =
      if o.idToIndex v < index then o.idToIndex v else o.idToIndex v + 1 := by
  have := ow.idx_lt v h1 h2
  simp only [Order.insertVar]
  rw [upd_ne _ _ (by omega)]
  by_cases h : o.idToIndex v < index
  · rw [if_pos h, if_neg (by omega)]
  · rw [if_neg h, if_pos (by omega)]

theorem Order.insertVar_new (o : Order) (index : Nat) :
    (o.insertVar index).idToIndex (o.numVars + 1) = index := by
  simp [Order.insertVar]

theorem Order.insertVar_id {o : Order} {index k : Nat} (hk : k ≤ o.numVars) :
    (o.insertVar index).indexToId k = if k = index then o.numVars + 1 else
      if index < k then o.indexToId (k - 1) else o.indexToId k := by
  simp only [Order.insertVar, upd]
  split
  · rfl
  · split
    · rw [if_pos (by omega)]
    · rw [if_neg (by omega)]

theorem Order.insertVar_wf {o : Order} (ow : o.WF) {index : Nat} (hi : index ≤ o.numVars)
    (hb : o.numVars + 1 < constIndex) : (o.insertVar index).WF := by
  refine ⟨hb, ?_, ?_, ?_, ?_⟩
  · intro v h1 h2
    show _ < o.numVars + 1
    have h2 : v ≤ o.numVars + 1 := h2
    rcases Nat.lt_or_ge o.numVars v with h | h
    · have : v = o.numVars + 1 := by omega
      rw [this, Order.insertVar_new]; omega
    · have := ow.idx_lt v h1 h
      rw [Order.insertVar_idx ow h1 h]; split <;> omega
  · intro k hk
    have hk : k < o.numVars + 1 := hk
    show 1 ≤ _ ∧ _ ≤ o.numVars + 1
    rw [Order.insertVar_id (by omega)]
    split
    · omega
    · split
      · have := ow.id_range (k - 1) (by omega); omega
      · have := ow.id_range k (by omega); omega
  · intro v h1 h2
    have h2 : v ≤ o.numVars + 1 := h2
    rcases Nat.lt_or_ge o.numVars v with h | h
    · have : v = o.numVars + 1 := by omega
      rw [this, Order.insertVar_new, Order.insertVar_id hi, if_pos rfl]
    · have hx := ow.idx_lt v h1 h
      have hl := ow.left v h1 h
      rw [Order.insertVar_idx ow h1 h]
      by_cases hc : o.idToIndex v < index
      · rw [if_pos hc, Order.insertVar_id (by omega), if_neg (by omega), if_neg (by omega), hl]
      · rw [if_neg hc, Order.insertVar_id (by omega), if_neg (by omega), if_pos (by omega)]
        simpa using hl
  · intro k hk
    have hk : k < o.numVars + 1 := hk
    rw [Order.insertVar_id (by omega)]
    by_cases h1 : k = index
    · rw [if_pos h1, Order.insertVar_new, h1]
    · rw [if_neg h1]
      by_cases h2 : index < k
      · rw [if_pos h2]
        have hr := ow.id_range (k - 1) (by omega)
        have := ow.right (k - 1) (by omega)
        rw [Order.insertVar_idx ow hr.1 hr.2, this, if_neg (by omega)]; omega
      · rw [if_neg h2]
        have hr := ow.id_range k (by omega)
        have := ow.right k (by omega)
        rw [Order.insertVar_idx ow hr.1 hr.2, this, if_pos (by omega)]

/-- old variables keep their relative order -/
theorem Order.insertVar_lvl {o : Order} (ow : o.WF) {index v : Nat} (h : v ≤ o.numVars) :
    (o.insertVar index).lvl v = if o.lvl v < index ∨ v = 0 then o.lvl v else o.lvl v + 1 := by
  by_cases h0 : v = 0
  · subst h0; simp [Order.lvl]
  · simp only [Order.lvl, if_neg h0, h0, or_false]
    exact Order.insertVar_idx ow (by omega) h

theorem Order.insertVar_mono {o : Order} (ow : o.WF) {index u v : Nat} (hu : u ≤ o.numVars)
    (hv : v ≤ o.numVars) (hi : index ≤ o.numVars) (hb : o.numVars + 1 < constIndex)
    (h : o.lvl u < o.lvl v) : (o.insertVar index).lvl u < (o.insertVar index).lvl v := by
  rw [Order.insertVar_lvl ow hu, Order.insertVar_lvl ow hv]
  by_cases h0 : u = 0
  · subst h0
    rw [Order.lvl_zero] at h
    by_cases hv0 : v = 0
    · subst hv0; rw [Order.lvl_zero] at h; omega
    · have := ow.lvl_lt (by omega : 1 ≤ v) hv; omega
  · have hul := ow.lvl_lt (by omega : 1 ≤ u) hu
    by_cases hv0 : v = 0
    · subst hv0
      rw [Order.lvl_zero]
      split
      · simp only [or_true, if_true]; omega
      · simp only [or_true, if_true]; omega
    · simp only [h0, hv0, or_false]
      split <;> split <;> omega

/-- `Rep` only looks at the nodes. -/
theorem Rep.congr {s s' : Store} (hh : s'.heap = s.heap) {e F} (r : Rep s e F) : Rep s' e F := by
  induction r with
  | one => exact .one
  | zero => exact .zero
  | pos h _ _ ih1 ih2 => exact .pos (by rw [hh]; exact h) ih1 ih2
  | neg h _ _ ih1 ih2 => exact .neg (by rw [hh]; exact h) ih1 ih2

theorem Cache.Valid.congr {s s' : Store} {Γ} (hh : s'.heap = s.heap) {c : Cache}
    (v : c.Valid s Γ) : c.Valid s' Γ := by
  refine ⟨fun i e hi => ?_, v.count, v.range⟩
  have ve := v.ent i e hi
  have pok : ∀ {p}, s.POK p → s'.POK p := fun {p} hp => by
    rcases hp with hp | hp
    · exact Or.inl hp
    · exact Or.inr (by rw [hh]; exact hp)
  exact ⟨ve.used, ve.fixed, pok ve.p1, pok ve.p2, ve.res.congr hh,
    fun δ l => ve.sem δ (l.congr hh.symm)⟩

/-- The new node and the new order. -/
theorem Store.insertVar_wf {s : Store} (w : s.WF) {index : Nat} (hi : index ≤ s.ord.numVars)
    (hb : s.ord.numVars + 1 < constIndex) : (s.insertVar index).1.WF := by
  have hidle : ∀ e : Edge, s.EOK e → e.id ≤ s.ord.numVars := by
    intro e he
    by_cases h0 : e.id = 0
    · omega
    · obtain ⟨n, hn, hv⟩ := he.node w h0
      have := w.var_range _ _ hn; omega
  have hnn : s.heap s.next = none := by
    cases hn : s.heap s.next with
    | none => rfl
    | some n => have := w.heap_next _ _ hn; omega
  have hh : ∀ a n, (s.insertVar index).1.heap a = some n →
      (a = s.next ∧ n = ⟨s.ord.numVars + 1, one, zero⟩) ∨ (a ≠ s.next ∧ s.heap a = some n) := by
    intro a n h
    by_cases ha : a = s.next
    · subst ha
      simp only [Store.insertVar, upd_same, Option.some.injEq] at h
      exact Or.inl ⟨rfl, h.symm⟩
    · simp only [Store.insertVar, upd_ne _ _ ha] at h
      exact Or.inr ⟨ha, h⟩
  have keep : ∀ a n, s.heap a = some n → (s.insertVar index).1.heap a = some n := by
    intro a n h
    have : a ≠ s.next := by rintro rfl; rw [hnn] at h; cases h
    simp only [Store.insertVar, upd_ne _ _ this]; exact h
  have eok : ∀ e : Edge, s.EOK e → (s.insertVar index).1.EOK e := by
    rintro e (h | ⟨n, hn, hv⟩)
    · exact Or.inl h
    · exact Or.inr ⟨n, keep _ _ hn, hv⟩
  have hmono : ∀ {u v}, u ≤ s.ord.numVars → v ≤ s.ord.numVars → s.ord.lvl u < s.ord.lvl v →
      (s.insertVar index).1.ord.lvl u < (s.insertVar index).1.ord.lvl v := fun hu hv h =>
    Order.insertVar_mono w.ord hu hv hi hb h
  have hnew : (s.insertVar index).1.ord.lvl (s.ord.numVars + 1) < (s.insertVar index).1.ord.lvl 0 := by
    show (s.ord.insertVar index).lvl _ < (s.ord.insertVar index).lvl 0
    rw [Order.lvl_zero]
    have := (Order.insertVar_wf w.ord hi hb).lvl_lt (i := s.ord.numVars + 1) (by omega)
      (Nat.le_refl _)
    have h2 : (s.ord.insertVar index).numVars = s.ord.numVars + 1 := rfl
    omega
  refine ⟨Order.insertVar_wf w.ord hi hb, ?_, ?_, ?_, ?_, ?_, ?_, ?_, ?_, ?_, ?_, ?_, ?_, ?_, ?_, ?_,
    ?_⟩
  · have := w.next_pos
    simp only [Store.insertVar]; rw [upd_ne _ _ (by omega)]; exact w.heap0
  · intro a n h
    show _ ∧ n.var ≤ s.ord.numVars + 1
    rcases hh a n h with ⟨_, rfl⟩ | ⟨_, h⟩
    · simp
    · have := w.var_range _ _ h; omega
  · intro i a
    by_cases hiv : i = s.ord.numVars + 1
    · subst hiv
      simp only [Store.insertVar, upd_same, List.mem_singleton]
      constructor
      · rintro rfl; exact ⟨⟨s.ord.numVars + 1, one, zero⟩, by simp, rfl⟩
      · rintro ⟨n, h, hv⟩
        rcases hh a n h with ⟨h, _⟩ | ⟨_, h⟩
        · exact h
        · have := w.var_range _ _ h; omega
    · simp only [Store.insertVar, upd_ne _ _ hiv]
      rw [w.tab_iff]
      constructor
      · rintro ⟨n, h, hv⟩; exact ⟨n, keep _ _ h, hv⟩
      · rintro ⟨n, h, hv⟩
        rcases hh a n h with ⟨_, rfl⟩ | ⟨_, h⟩
        · simp only at hv; omega
        · exact ⟨n, h, hv⟩
  · intro i
    by_cases hiv : i = s.ord.numVars + 1
    · subst hiv; simp [Store.insertVar]
    · simp only [Store.insertVar, upd_ne _ _ hiv]; exact w.tab_nodup i
  · intro a n h
    rcases hh a n h with ⟨_, rfl⟩ | ⟨_, h⟩
    · exact Store.EOK_one _
    · exact eok _ (w.thn_ok _ _ h)
  · intro a n h
    rcases hh a n h with ⟨_, rfl⟩ | ⟨_, h⟩
    · exact Store.EOK_zero _
    · exact eok _ (w.els_ok _ _ h)
  · intro a n h
    rcases hh a n h with ⟨_, rfl⟩ | ⟨_, h⟩
    · rfl
    · exact w.thn_pos _ _ h
  · intro a n h
    rcases hh a n h with ⟨_, rfl⟩ | ⟨_, h⟩
    · exact hnew
    · exact hmono (w.var_range _ _ h).2 (hidle _ (w.thn_ok _ _ h)) (w.thn_lt _ _ h)
  · intro a n h
    rcases hh a n h with ⟨_, rfl⟩ | ⟨_, h⟩
    · exact hnew
    · exact hmono (w.var_range _ _ h).2 (hidle _ (w.els_ok _ _ h)) (w.els_lt _ _ h)
  · intro a n h
    rcases hh a n h with ⟨_, rfl⟩ | ⟨_, h⟩
    · show one ≠ zero; decide
    · exact w.reduced _ _ h
  · intro a b n h1 h2
    rcases hh a n h1 with ⟨ha, hn⟩ | ⟨ha, h1⟩ <;> rcases hh b n h2 with ⟨hb', hn'⟩ | ⟨hb', h2⟩
    · rw [ha, hb']
    · have := w.var_range _ _ h2; rw [hn] at this; simp only at this; omega
    · have := w.var_range _ _ h1; rw [hn'] at this; simp only at this; omega
    · exact w.unique _ _ _ h1 h2
  · show 0 < s.next + 1; omega
  · intro a n h
    show a < s.next + 1
    rcases hh a n h with ⟨ha, _⟩ | ⟨_, h⟩
    · omega
    · have := w.heap_next _ _ h; omega
  · intro i
    by_cases hiv : i = s.ord.numVars + 1
    · subst hiv; simp [Store.insertVar]
    · simp only [Store.insertVar, upd_ne _ _ hiv]; exact w.free_nodup i
  · intro i a
    by_cases hiv : i = s.ord.numVars + 1
    · subst hiv; simp [Store.insertVar]
    · simp only [Store.insertVar, upd_ne _ _ hiv]
      intro ha
      obtain ⟨h1, h2, h3⟩ := w.free_ok i a ha
      rw [upd_ne _ _ (by omega)]
      exact ⟨h1, h2, by omega⟩
  · intro i j a
    by_cases hiv : i = s.ord.numVars + 1
    · subst hiv; simp [Store.insertVar]
    · by_cases hjv : j = s.ord.numVars + 1
      · subst hjv; simp [Store.insertVar]
      · simp only [Store.insertVar, upd_ne _ _ hiv, upd_ne _ _ hjv]
        exact w.free_disj i j a

/-- What creating a variable at `index` keeps and changes. -/
structure Grown (own : Nat → Nat) (index : Nat) (m m' : Mgr) : Prop where
  fns : ∀ h, UTab.Live own h → ∀ F, Den m h F → Den m' h F
  nv : m'.st.ord.numVars = m.st.ord.numVars + 1
  new : m'.st.ord.idToIndex (m.st.ord.numVars + 1) = index
  old : ∀ v, 1 ≤ v → v ≤ m.st.ord.numVars → m'.st.ord.idToIndex v =
    if m.st.ord.idToIndex v < index then m.st.ord.idToIndex v else m.st.ord.idToIndex v + 1
  cur : m'.cur = m.cur
  assocs : F2 (RAssoc.Eqv m.st m'.st) m.assocs m'.assocs
  temp : m.temp.Eqv m.st m'.st m'.temp
  top : m'.tempOp = m.tempOp
  gcMode : m'.gcMode = m.gcMode
  nodeLimit : m'.nodeLimit = m.nodeLimit
  technique : m'.technique = m.technique
  method : m'.method = m.method
  threshold : m'.reorderingThreshold = m.reorderingThreshold
  ovf : m'.overflow = m.overflow

theorem Assoc.insertVar_var (A : Assoc) (i : Nat) : (A.insertVar i).var = A.var := by
  unfold Assoc.insertVar; split <;> rfl
theorem Assoc.insertVar_aid (A : Assoc) (i : Nat) : (A.insertVar i).id = A.id := by
  unfold Assoc.insertVar; split <;> rfl
theorem Assoc.insertVar_dom (A : Assoc) (i : Nat) : (A.insertVar i).dom = A.dom := by
  funext v; simp only [Assoc.dom, Assoc.insertVar_var]

theorem Assoc.OK.insertVar {A : Assoc} {o : Order} (ow : o.WF) (h : A.OK o) {index : Nat}
    (_hi : index ≤ o.numVars) : (A.insertVar index).OK (o.insertVar index) := by
  have hn : (o.insertVar index).numVars = o.numVars + 1 := rfl
  refine ⟨fun v hv => ?_, fun v hv => ?_, ?_, ?_⟩
  · rw [Assoc.insertVar_dom] at hv
    have := h.rng v hv; rw [hn]; omega
  · rw [Assoc.insertVar_dom] at hv
    have hr := h.rng v hv
    have hle := h.le v hv
    rw [Order.insertVar_lvl ow hr.2]
    unfold Assoc.insertVar
    split <;> split <;> (try simp only) <;> omega
  · have := h.lt
    rw [hn]
    unfold Assoc.insertVar
    split <;> (try simp only) <;> omega
  · rcases h.ex with hx | ⟨v, hv, hx⟩
    · left
      unfold Assoc.insertVar
      rw [if_neg (by omega)]
      exact hx
    · right
      refine ⟨v, by rw [Assoc.insertVar_dom]; exact hv, ?_⟩
      have hr := h.rng v hv
      rw [Order.insertVar_lvl ow hr.2]
      unfold Assoc.insertVar
      by_cases hc : A.last ≥ index
      · rw [if_pos hc, if_neg (by omega)]
        show ((_ + 1 : Nat) : Int) = A.last + 1
        omega
      · rw [if_neg hc, if_pos (by omega)]
        exact hx

theorem F2.map_self {α : Type} {R : α → α → Prop} {f : α → α} : ∀ {l : List α},
    (∀ x ∈ l, R x (f x)) → F2 R l (l.map f)
  | [], _ => .nil
  | x :: l, h => .cons (h x (by simp)) (F2.map_self fun y hy => h y (by simp [hy]))

theorem tabHits_succ {f : Nat → Option Edge} {n x} (h : ∀ v, n < v → f v = none) :
    tabHits f (n + 1) x = tabHits f n x := by
  show sumTo _ (n + 1 + 1) = sumTo _ (n + 1)
  refine sumTo_ext (fun v hv => ?_) (by omega)
  simp [h v (by omega), optHits]

theorem IdSorted.map {f : RAssoc → RAssoc} (hf : ∀ p, (f p).a.id = p.a.id) :
    ∀ {as}, IdSorted as → IdSorted (as.map f)
  | [], _ => trivial
  | p :: ps, h => by
    refine ⟨fun q hq => ?_, IdSorted.map hf h.2⟩
    obtain ⟨q', hq', rfl⟩ := List.mem_map.1 hq
    rw [hf, hf]; exact h.1 q' hq'

namespace Mgr

variable {Γ : Nat → BFn → BFn} {leak own : Nat → Nat} {m : Mgr} {lk : Bool} {E : Env}

/-- `CalBddManagerCreateNewVar`. -/
theorem createVar_ok (i : InvG Γ leak own m) {index : Nat} (hi : index ≤ m.st.ord.numVars)
    (hb : m.st.ord.numVars < maxVarId) :
    ∃ m' e, m.createVar index = some (m', e) ∧ InvG Γ leak own m' ∧ Grown own index m m' ∧
      Rep m'.st e (fun ρ => ρ (m.st.ord.numVars + 1)) := by
  have hb' : m.st.ord.numVars + 1 < constIndex := by simp only [maxVarId, constIndex] at *; omega
  have w := i.wf
  have w' := Store.insertVar_wf w hi hb'
  have hnn : m.st.heap m.st.next = none := by
    cases hn : m.st.heap m.st.next with
    | none => rfl
    | some n => have := w.heap_next _ _ hn; omega
  -- an intermediate store with the old order
  obtain ⟨s1, hs1⟩ : ∃ s1 : Store, s1 = { (m.st.insertVar index).1 with ord := m.st.ord } := ⟨_, rfl⟩
  have hh1 : s1.heap = upd m.st.heap m.st.next (some ⟨m.st.ord.numVars + 1, one, zero⟩) := by
    rw [hs1]; rfl
  have le1 : m.st.Le s1 := by
    refine ⟨by rw [hs1], fun a n h => ?_⟩
    have : a ≠ m.st.next := by rintro rfl; rw [hnn] at h; cases h
    rw [hh1, upd_ne _ _ this]; exact h
  have hh : (m.st.insertVar index).1.heap = s1.heap := by rw [hs1]
  have rep : ∀ e F, Rep m.st e F → Rep (m.st.insertVar index).1 e F := fun e F r =>
    (r.mono le1).congr hh
  have eok : ∀ e : Edge, m.st.EOK e → (m.st.insertVar index).1.EOK e := fun e h =>
    (h.mono le1).congr hh
  have hnv : (m.st.insertVar index).1.ord.numVars = m.st.ord.numVars + 1 := rfl
  have hrep : Rep (m.st.insertVar index).1 ⟨m.st.ord.numVars + 1, m.st.next, false⟩
      (fun ρ => ρ (m.st.ord.numVars + 1)) := by
    have := Rep.pos (s := (m.st.insertVar index).1) (a := m.st.next)
      (n := ⟨m.st.ord.numVars + 1, one, zero⟩) (by rw [hh, hh1, upd_same]) .one .zero
    have he : (fun ρ : Asg => ρ (m.st.ord.numVars + 1)) =
        fun ρ => if ρ (m.st.ord.numVars + 1) then true else false := by
      funext ρ; by_cases hr : ρ (m.st.ord.numVars + 1) = true <;> simp [hr]
    rw [he]; exact this
  refine ⟨_, _, by
    unfold createVar
    rw [if_neg (by omega), if_neg (by omega)], ?_, ?_, hrep⟩
  · refine ⟨w', ?_, ?_, i.ut, fun a e h => eok e (i.uok a e h), ?_, ?_, ?_, i.nand, ?_, ?_, ?_, ?_, ?_,
      i.top, i.top', ?_⟩
    · have hn := i.num
      unfold Store.NumOK at hn ⊢
      have e1 : (m.st.insertVar index).1.numNodes = m.st.numNodes + 1 := rfl
      rw [e1, hnv, hn]
      show _ = 1 + (sumTo _ (m.st.ord.numVars + 1) + _)
      have e2 : sumTo (fun j => ((m.st.insertVar index).1.tab j).length) (m.st.ord.numVars + 1) =
          sumTo (fun j => (m.st.tab j).length) (m.st.ord.numVars + 1) :=
        sumTo_congr fun j hj => by
          show (upd m.st.tab _ _ j).length = _
          rw [upd_ne _ _ (by omega)]
      rw [e2]
      simp only [Store.insertVar, upd_same, List.length_singleton]; omega
    · -- reference counts
      have hr := i.ref
      have hpos := w.next_pos
      have hv0 := i.var0
      have hroots : ∀ x, x ≠ m.st.next → 
          (Mgr.roots { m with
            st := (m.st.insertVar index).1
            vars := upd m.vars (m.st.ord.numVars + 1) (some (m.st.insertVar index).2)
            assocs := m.assocs.map fun p => { p with a := p.a.insertVar index }
            temp := m.temp.insertVar index } leak x) = m.roots leak x := by
        intro x hx
        have hsnd : (m.st.insertVar index).2 = ⟨m.st.ord.numVars + 1, m.st.next, false⟩ := rfl
        simp only [roots, rest, hnv, hsnd]
        have e1 : tabHits (upd m.vars (m.st.ord.numVars + 1)
            (some ⟨m.st.ord.numVars + 1, m.st.next, false⟩)) (m.st.ord.numVars + 1) x =
            tabHits m.vars m.st.ord.numVars x := by
          show sumTo _ (m.st.ord.numVars + 1) + _ = _
          have : sumTo (fun v => optHits (upd m.vars (m.st.ord.numVars + 1)
              (some ⟨m.st.ord.numVars + 1, m.st.next, false⟩) v) x) (m.st.ord.numVars + 1) =
              tabHits m.vars m.st.ord.numVars x :=
            sumTo_congr fun j hj => by simp only [upd_ne m.vars _ (show j ≠ m.st.ord.numVars + 1 by omega)]
          rw [this]
          simp only [upd_same, optHits, hits, Ne.symm hx, if_false, Nat.add_zero]
        have e2 : listHits (m.assocs.map fun p => { p with a := p.a.insertVar index })
            (m.st.ord.numVars + 1) x = listHits m.assocs m.st.ord.numVars x := by
          simp only [listHits, List.map_map]
          congr 1
          apply List.map_congr_left
          intro p hp
          simp only [Function.comp, Assoc.insertVar_var]
          refine tabHits_succ fun v hv => ?_
          cases hx : p.a.var v with
          | none => rfl
          | some e =>
            have := ((i.assocs p hp).1.ok.rng v (by simp [Assoc.dom, hx])).2; omega
        have e3 : tabHits (m.temp.insertVar index).var (m.st.ord.numVars + 1) x =
            tabHits m.temp.var m.st.ord.numVars x := by
          rw [Assoc.insertVar_var]
          refine tabHits_succ fun v hv => ?_
          cases hx : m.temp.var v with
          | none => rfl
          | some e => have := (i.temp.ok.rng v (by simp [Assoc.dom, hx])).2; omega
        rw [e1, e2, e3]
      have hd : ∀ x, x ≠ 0 → (m.st.insertVar index).1.inDeg x = m.st.inDeg x := by
        intro x hx
        rw [Store.inDeg_insert (s := m.st) (s' := (m.st.insertVar index).1) w hnn (i := m.st.ord.numVars + 1)
          (t := one) (e := zero) (by rw [hh, hh1]) (by show _ < m.st.next + 1; omega)
          (by show _ ≤ m.st.next + 1; omega)]
        simp [hits, Ne.symm hx]
      have hre : (m.st.insertVar index).1.ref = upd m.st.ref m.st.next maxRef := rfl
      refine ⟨?_, ?_, ?_, ?_⟩
      · show (m.st.insertVar index).1.ref 0 = _
        rw [hre, upd_ne _ _ (by omega)]; exact hr.const
      · intro a ha
        show (m.st.insertVar index).1.ref a ≤ _
        rw [hre]
        by_cases hx : a = m.st.next
        · subst hx; rw [upd_same]; exact Nat.le_refl _
        · rw [upd_ne _ _ hx]
          refine hr.le a ?_
          intro h0; apply ha
          show (m.st.insertVar index).1.heap a = none
          rw [hh, hh1, upd_ne _ _ hx]; exact h0
      · intro a ha
        show (m.st.insertVar index).1.ref a = _ ∨ (m.st.insertVar index).1.ref a = _
        rw [hre]
        by_cases hx : a = m.st.next
        · subst hx; rw [upd_same]; exact Or.inl rfl
        · rw [upd_ne _ _ hx]
          have hal : m.st.heap a ≠ none := by
            intro h0; apply ha
            show (m.st.insertVar index).1.heap a = none
            rw [hh, hh1, upd_ne _ _ hx]; exact h0
          have ha0 : a ≠ 0 := by rintro rfl; exact hal w.heap0
          have h1 := hroots a hx
          have h2 := hd a ha0
          have := hr.cnt a hal
          simp only at h1 h2 ⊢
          rw [h1, h2]; exact this
      · intro a h0 ha
        have ha : (m.st.insertVar index).1.heap a = none := ha
        rw [hh, hh1] at ha
        by_cases hx : a = m.st.next
        · subst hx; rw [upd_same] at ha; cases ha
        · rw [upd_ne _ _ hx] at ha
          have h1 := hroots a hx
          rw [h1]; exact hr.ext0 a h0 ha
    · intro v h1 h2
      have h2 : v ≤ m.st.ord.numVars + 1 := h2
      simp only
      by_cases hv : v = m.st.ord.numVars + 1
      · subst hv
        exact ⟨m.st.next, by rw [upd_same]; rfl, by rw [hh, hh1, upd_same]⟩
      · rw [upd_ne _ _ hv]
        obtain ⟨a, ha, hn⟩ := i.var v h1 (by omega)
        exact ⟨a, ha, by rw [hh]; exact le1.heap _ _ hn⟩
    · intro v hv
      have hv : v < 1 ∨ m.st.ord.numVars + 1 < v := hv
      simp only
      rw [upd_ne _ _ (by omega)]
      exact i.var0 v (by omega)
    · exact (i.ca.mono le1).congr hh
    · intro p hp
      obtain ⟨q, hq, rfl⟩ := List.mem_map.1 hp
      obtain ⟨A, r⟩ := i.assocs q hq
      refine ⟨?_, r⟩
      have hop : ∀ b, (q.a.insertVar index).opCode b = q.a.opCode b := by
        intro b; simp only [Assoc.opCode, Assoc.insertVar_aid]
      refine { ok := A.ok.insertVar w.ord hi, vals := ?_, id0 := ?_, id1 := ?_, quant := ?_,
               relprod := ?_, subst := ?_ }
      · intro v e he; rw [Assoc.insertVar_var] at he; exact eok e (A.vals v e he)
      · rw [Assoc.insertVar_aid]; exact A.id0
      · rw [Assoc.insertVar_aid]; exact A.id1
      · rw [hop, Assoc.insertVar_dom]; exact A.quant
      · rw [hop, Assoc.insertVar_dom]; exact A.relprod
      · intro S hS
        rw [hop]
        refine A.subst S ?_
        have hS' : q.a.Sub (m.st.insertVar index).1 S := by
          intro v
          have := hS v
          rw [Assoc.insertVar_var] at this; exact this
        exact hS'.anti w w' A.vals fun _ _ _ _ r => rep _ _ r
    · exact i.sorted.map fun p => Assoc.insertVar_aid _ _
    · exact ⟨i.temp.ok.insertVar w.ord hi, fun v e he => by
        rw [Assoc.insertVar_var] at he; exact eok e (i.temp.vals v e he)⟩
    · show (m.temp.insertVar index).id = -1
      rw [Assoc.insertVar_aid]; exact i.tempId
    · rcases i.cur with h | ⟨p, hp, h⟩
      · exact Or.inl h
      · exact Or.inr ⟨_, List.mem_map.2 ⟨p, hp, rfl⟩, by rw [Assoc.insertVar_aid]; exact h⟩
    · intro c hc
      refine i.fresh c ⟨hc.1, hc.2.1, fun p hp => ?_⟩
      have := hc.2.2 _ (List.mem_map.2 ⟨p, hp, rfl⟩)
      simpa only [Assoc.opCode, Assoc.insertVar_aid] using this
  · refine ⟨?_, rfl, Order.insertVar_new _ _, fun v h1 h2 => Order.insertVar_idx w.ord h1 h2, rfl, ?_,
      ?_, rfl, rfl, rfl, rfl, rfl, rfl, rfl⟩
    · rintro h _ F ⟨e, he, r⟩
      exact ⟨e, he, rep _ _ r⟩
    · refine F2.map_self fun p _ => ⟨⟨Assoc.insertVar_aid _ _, fun v => ?_, fun v e e' h1 h2 F r => ?_⟩, rfl⟩
      · rw [Assoc.insertVar_var]
      · rw [Assoc.insertVar_var, h1] at h2; cases h2; exact rep _ _ r
    · refine ⟨Assoc.insertVar_aid _ _, fun v => ?_, fun v e e' h1 h2 F r => ?_⟩
      · show (m.temp.insertVar index).var v = none ↔ _
        rw [Assoc.insertVar_var]
      · change (m.temp.insertVar index).var v = _ at h2
        rw [Assoc.insertVar_var, h1] at h2; cases h2; exact rep _ _ r

theorem _root_.Cal.Grown.trans0 {index} {m m1 m2 : Mgr} (g : Grown own index m m1) (p : Pres own 0 m1 m2)
    (ho : m2.st.ord = m1.st.ord) (hov : m2.overflow = m1.overflow) : Grown own index m m2 :=
  ⟨fun h l F d => p.fns h l F (g.fns h l F d), by rw [ho]; exact g.nv, by rw [ho]; exact g.new,
    by rw [ho]; exact g.old, p.cur.trans g.cur, RAssoc.Eqv.transL g.assocs p.assocs,
    g.temp.trans p.temp, by have := p.top; have := g.top; omega, p.gcMode.trans g.gcMode,
    p.nodeLimit.trans g.nodeLimit, p.technique.trans g.technique, p.method.trans g.method,
    p.threshold.trans g.threshold, hov.trans g.ovf⟩

/-- Outcome of the functions that make a variable: a handle for the new variable. -/
def NewVar (own : Nat → Nat) (lk : Bool) (index : Nat) (m : Mgr) (out : Option (Mgr × Handle)) :
    Prop :=
  ∃ m' h, out = some (m', h) ∧ h ≠ Handle.null ∧ m'.Inv (bump own h.addr) lk ∧
    Grown own index m m' ∧ Den m' h (fun ρ => ρ (m.st.ord.numVars + 1))

theorem newVar_ok (i : m.Inv own lk) {index : Nat} (hi : index ≤ m.st.ord.numVars)
    (hb : m.st.ord.numVars < maxVarId) :
    NewVar own lk index m ((m.createVar index).map fun p => p.1.external p.2) := by
  obtain ⟨Γ, leak, hl, i⟩ := i
  obtain ⟨m', e, h1, i1, g, r⟩ := createVar_ok i hi hb
  obtain ⟨i2, p2, hne, hd, hs⟩ := i1.external r.eok
  rw [h1]
  refine ⟨_, _, rfl, hne, ⟨Γ, leak, hl, i2⟩, g.trans0 p2 hs.ord ?_, hd _ r⟩
  rfl

theorem newVarFirst_ok (i : m.Inv own lk) (hb : m.st.ord.numVars < maxVarId) :
    NewVar own lk 0 m m.newVarFirst := newVar_ok i (by omega) hb

theorem newVarLast_ok (i : m.Inv own lk) (hb : m.st.ord.numVars < maxVarId) :
    NewVar own lk m.st.ord.numVars m m.newVarLast := newVar_ok i (by omega) hb

/-- `Cal_BddManagerCreateNewVarBefore`, `-After`, on a non-constant argument: next to its top
variable. -/
theorem newVarBeside_ok (i : m.Inv own lk) (hb : m.st.ord.numVars < maxVarId) {f F}
    (hf : Den m f F) (hc : NonConst F) :
    ∃ v, TopVar m.st.ord F v ∧ NewVar own lk (m.st.ord.idToIndex v) m (m.newVarBefore f) ∧
      NewVar own lk (m.st.ord.idToIndex v + 1) m (m.newVarAfter f) := by
  obtain ⟨e, he, r⟩ := hf
  have h0 := nonConst_id i.wf r hc
  have tv := r.topVar i.wf h0
  have hlt := i.wf.ord.idx_lt _ tv.rng.1 tv.rng.2
  refine ⟨_, tv, ?_, ?_⟩
  · have := newVar_ok (index := m.st.ord.idToIndex (e.phase f.neg).id) i (by omega) hb
    simp only [Edge.phase_id] at h0 this
    simpa [newVarBefore, internal, he, Edge.isConst, h0, Store.elvl, Order.lvl] using this
  · have := newVar_ok (index := m.st.ord.idToIndex (e.phase f.neg).id + 1) i (by omega) hb
    simp only [Edge.phase_id] at h0 this
    simpa [newVarAfter, internal, he, Edge.isConst, h0, Store.elvl, Order.lvl] using this

/-- ... on a constant argument: last. -/
theorem newVarBeside_const (i : m.Inv own lk) (hb : m.st.ord.numVars < maxVarId) {f F}
    (hf : Den m f F) (hc : ¬ NonConst F) :
    NewVar own lk m.st.ord.numVars m (m.newVarBefore f) ∧
      NewVar own lk m.st.ord.numVars m (m.newVarAfter f) := by
  obtain ⟨e, he, r⟩ := hf
  have h0 : (e.phase f.neg).id = 0 := by
    rw [r.const_iff i.wf]
    unfold NonConst at hc
    by_cases h : F = fun _ => true
    · exact Or.inl h
    · right; exact Classical.byContradiction fun h' => hc ⟨h, h'⟩
  have := newVarLast_ok i hb
  simp only [Edge.phase_id] at h0
  constructor
  · simpa [newVarBefore, internal, he, Edge.isConst, h0] using this
  · simpa [newVarAfter, internal, he, Edge.isConst, h0] using this

/-- `Cal_BddManagerGetVarWithId` -/
theorem varWithId_ok (i : m.Inv own lk) {v : Nat} (h1 : 1 ≤ v) (h2 : v ≤ m.st.ord.numVars) :
    Res own lk false 0 m (m.varWithId v) (fun ρ => ρ v) := by
  have i0 := i
  obtain ⟨Γ, leak, hl, i⟩ := i
  obtain ⟨e, he, r⟩ := var_rep i h1 h2
  have := extern_ok i0 r
  unfold varWithId
  rw [if_neg (by omega), he]
  exact this

theorem varWithId_none {v : Nat} (h : v = 0 ∨ m.st.ord.numVars < v) :
    m.varWithId v = some (m, Handle.null) := by
  unfold varWithId; rw [if_pos h]

/-- `Cal_BddManagerGetVarWithIndex` -/
theorem varWithIndex_ok (i : m.Inv own lk) {k : Nat} (h : k < m.st.ord.numVars) :
    Res own lk false 0 m (m.varWithIndex k) (fun ρ => ρ (m.st.ord.indexToId k)) := by
  have hr := i.wf.ord.id_range k h
  have := varWithId_ok i hr.1 hr.2
  unfold varWithId at this
  rw [if_neg (by omega)] at this
  unfold varWithIndex
  rw [if_neg (by omega)]
  exact this

theorem varWithIndex_none {k : Nat} (h : m.st.ord.numVars ≤ k) :
    m.varWithIndex k = some (m, Handle.null) := by
  unfold varWithIndex; rw [if_pos h]

end Mgr

end Cal
