import Verif.ArraysOk
/-!
# Every history keeps the arrays in order
-/

namespace Cal.Arrays

/-- What holds between calls. -/
structure Inv (t : Spec) (s : Mgr) : Prop where
  num : s.numVars = t.order.length
  le : s.numVars ≤ s.maxVars
  one : 1 ≤ s.maxVars
  top : s.maxVars ≤ 65534
  depth : s.maxDepth = t.depth
  lvar : s.varBdds.length = s.maxVars + 1
  lnm : s.nms.length = s.maxVars + 1
  lut : s.uts.length = s.maxVars + 1
  lid : s.idToIndex.length = s.maxVars + 1
  lix : s.indexToId.length = s.maxVars
  lq : s.reqQue.length = s.maxDepth
  var : ∀ id, 1 ≤ id → id ≤ s.numVars → get s.varBdds id = some id
  nm : ∀ id, id ≤ s.numVars → get s.nms id = some id
  ut : ∀ id, id ≤ s.numVars → get s.uts id = some id
  row : Rows (s.maxVars + 1) (s.numVars + 1) s.maxDepth s.reqQue
  const : get s.idToIndex 0 = some 65535
  ord : ∀ (k x : Nat), t.order[k]? = some x →
    get s.indexToId k = some x ∧ get s.idToIndex x = some k ∧ 1 ≤ x ∧ x ≤ s.numVars
  surj : ∀ id, 1 ≤ id → id ≤ s.numVars → ∃ k : Nat, t.order[k]? = some id
  temp : Assoc s.maxVars t.temp s.temp
  tempz : ∀ i, s.numVars < i → t.temp i = 0
  assocs : Assocs s.maxVars t.assocs s.assocs
  assocz : ∀ f ∈ t.assocs, ∀ i, s.numVars < i → f i = 0

theorem init_ok : ∃ s, init = some s ∧ Inv .init s := by
  obtain ⟨nm, e1, l1, g1⟩ := put_ok (a := (alloc 31 : Arr Nat)) (i := 0) (by rw [length_alloc]; omega) 0
  obtain ⟨ix, e2, l2, g2⟩ := put_ok (a := (alloc 31 : Arr Nat)) (i := 0) (by rw [length_alloc]; omega) 65535
  obtain ⟨q, e3, l3, g3⟩ := queues_ok (room := 31) (n := 1) (by omega) 6 0 (alloc 6)
    (by rw [length_alloc]; omega) (fun i h => by omega)
  obtain ⟨tm, e4, l4, g4⟩ := fill_ok 0 31 0 (alloc 31 : Arr Nat) (by rw [length_alloc]; omega)
  rw [length_alloc] at l1 l2 l3 l4
  simp only [init, e1, e2, e3, e4, Option.bind_eq_bind, Option.bind_some]
  refine ⟨_, rfl, ?_⟩
  constructor
  all_goals dsimp only [Spec.init]
  case num => rfl
  case le => omega
  case one => omega
  case top => omega
  case lvar => rw [length_alloc]
  case lnm => exact l1
  case lut => exact l1
  case lid => exact l2
  case lix => rw [length_alloc]
  case lq => exact l3
  case var => intro id h1 h2; omega
  case nm => intro id h; rw [g1, if_pos (by omega)]; congr 1; omega
  case ut => intro id h; rw [g1, if_pos (by omega)]; congr 1; omega
  case row => exact g3
  case const => rw [g2, if_pos rfl]
  case ord => intro k x h; simp at h
  case surj => intro id h1 h2; omega
  case temp => exact ⟨l4, fun i h1 h2 => by rw [g4, if_pos (by omega)]⟩
  case tempz => intros; rfl
  case assocs => exact .nil
  case assocz => intro f h; simp at h

theorem room_ok {t : Spec} {s : Mgr} (h : Inv t s) (hn : s.numVars ≠ 65534) :
    ∃ s', s.room = some s' ∧ Inv t s' ∧ s'.numVars = s.numVars ∧ s'.numVars < s'.maxVars := by
  simp only [Mgr.room]
  have h1 := h.le
  have h2 := h.one
  have h3 := h.top
  by_cases hm : s.numVars = s.maxVars
  · rw [if_pos hm]
    have hnew : s.maxVars < (if 2 * s.maxVars > 65534 then 65534 else 2 * s.maxVars) ∧
        (if 2 * s.maxVars > 65534 then 65534 else 2 * s.maxVars) ≤ 65534 := by
      split <;> omega
    simp only [Mgr.grow]
    generalize (if 2 * s.maxVars > 65534 then 65534 else 2 * s.maxVars) = new at hnew ⊢
    obtain ⟨hnew, hnew2⟩ := hnew
    obtain ⟨q, e1, l1, g1⟩ := growQueues_ok (room' := new + 1) (n := s.numVars + 1) (D := s.maxDepth)
      (Nat.succ_le_succ (Nat.le_of_lt hnew)) s.maxDepth 0
      s.reqQue (by omega) (by rw [h.lq]; omega) (fun i hi => by omega) (fun i _ hi => h.row i hi)
    obtain ⟨tm, e2, htm⟩ := growAssoc_ok h.temp (Nat.le_of_lt hnew) (fun i hi => h.tempz i (by omega))
    obtain ⟨as, e3, has⟩ := growAssocs_ok (Nat.le_of_lt hnew) h.assocs
      (fun f m i hi => h.assocz f m i (by omega))
    simp only [e1, e2, e3, Option.bind_eq_bind, Option.bind_some]
    refine ⟨_, rfl, ?_, rfl, by simpa using (by omega : s.numVars < new)⟩
    constructor
    all_goals dsimp only
    case num => exact h.num
    case le => omega
    case one => omega
    case top => exact hnew2
    case depth => exact h.depth
    case lvar => exact length_realloc _ _
    case lnm => exact length_realloc _ _
    case lut => exact length_realloc _ _
    case lid => exact length_realloc _ _
    case lix => exact length_realloc _ _
    case lq => rw [l1, h.lq]
    case var => intro id a b; rw [get_realloc (by rw [h.lvar]; omega)]; exact h.var id a b
    case nm => intro id a; rw [get_realloc (by rw [h.lnm]; omega)]; exact h.nm id a
    case ut => intro id a; rw [get_realloc (by rw [h.lut]; omega)]; exact h.ut id a
    case row => exact g1
    case const => rw [get_realloc (by rw [h.lid]; omega)]; exact h.const
    case ord =>
      intro k x e
      rw [get_realloc (by rw [h.lix]; omega), get_realloc (by rw [h.lid]; omega)]
      exact h.ord k x e
    case surj => exact h.surj
    case temp => exact htm
    case tempz => exact h.tempz
    case assocs => exact has
    case assocz => exact h.assocz
  · rw [if_neg hm]
    exact ⟨s, rfl, h, rfl, by omega⟩

theorem Inv.idx {t : Spec} {s : Mgr} (h : Inv t s) (id : Nat) (h1 : 1 ≤ id) (h2 : id ≤ s.numVars) :
    ∃ k, t.order[k]? = some id ∧ get s.idToIndex id = some k ∧ k < s.numVars := by
  obtain ⟨k, e⟩ := h.surj id h1 h2
  refine ⟨k, e, (h.ord k id e).2.1, ?_⟩
  rw [h.num]
  exact (List.getElem?_eq_some_iff.1 e).1

theorem inserted {l : List Nat} {index : Nat} (h : index ≤ l.length) (x k : Nat) :
    (l.take index ++ x :: l.drop index)[k]? =
      if k < index then l[k]? else if k = index then some x else l[k - 1]? := by
  by_cases h1 : k < index
  · rw [if_pos h1, List.getElem?_append_left (by rw [List.length_take]; omega), List.getElem?_take, if_pos h1]
  · rw [if_neg h1, List.getElem?_append_right (by rw [List.length_take]; omega), List.length_take,
      Nat.min_eq_left h]
    by_cases h2 : k = index
    · rw [if_pos h2, h2, Nat.sub_self]
      rfl
    · rw [if_neg h2]
      have e : k - index = (k - 1 - index) + 1 := by omega
      rw [e, List.getElem?_cons_succ, List.getElem?_drop]
      congr 1
      omega

theorem maybeBump_ok {t : Spec} {s : Mgr} (h : Inv t s) (index : Nat) :
    ∃ b, maybeBump index s.numVars s.idToIndex = some b ∧ b.length = s.idToIndex.length ∧
      get b 0 = get s.idToIndex 0 ∧ ∀ j k, 1 ≤ j → j ≤ s.numVars → get s.idToIndex j = some k →
        get b j = some (if index ≤ k then k + 1 else k) := by
  simp only [maybeBump]
  by_cases hi : index = s.numVars
  · subst hi
    rw [if_neg (by simp)]
    refine ⟨_, rfl, rfl, rfl, fun j k h1 h2 e => ?_⟩
    obtain ⟨k', _, e', hk⟩ := h.idx j h1 h2
    rw [e] at e'
    injection e' with e'
    rw [e, if_neg (by omega)]
  · rw [if_pos hi]
    obtain ⟨b, e, l, g⟩ := bump_ok index s.numVars 0 s.idToIndex (fun j h1 h2 => by
      obtain ⟨k', _, e', hk⟩ := h.idx j h1 (by omega)
      rw [e']
      rfl)
    refine ⟨b, e, l, by rw [g, if_neg (by omega)], fun j k h1 h2 e => ?_⟩
    rw [g, if_pos (by omega), e]
    rfl

theorem addVar_ok {t : Spec} {s : Mgr} (h : Inv t s) (hm : s.numVars < s.maxVars) {index : Nat}
    (hi : index ≤ s.numVars) :
    ∃ s', s.addVar index = some s' ∧
      Inv { t with order := t.order.take index ++ (t.order.length + 1) :: t.order.drop index } s' := by
  obtain ⟨ix, e1, l1, z1, g1⟩ := maybeBump_ok h index
  obtain ⟨xi, e2, l2, g2⟩ := shift_ok index (s.numVars - index) s.indexToId
    (fun j h1 h2 => by
      have hl : j < t.order.length := by have := h.num; omega
      rw [(h.ord j _ (List.getElem?_eq_getElem hl)).1]
      rfl)
    (fun _ => by rw [h.lix]; omega)
  obtain ⟨ix', e3, l3, g3⟩ := put_ok (a := ix) (i := s.numVars + 1) (by rw [l1, h.lid]; omega) index
  obtain ⟨xi', e4, l4, g4⟩ := put_ok (a := xi) (i := index) (by rw [l2, h.lix]; omega) (s.numVars + 1)
  obtain ⟨nm, e5, l5, g5⟩ := put_ok (a := s.nms) (i := s.numVars + 1) (by rw [h.lnm]; omega) (s.numVars + 1)
  obtain ⟨ut, e6, l6, g6⟩ := put_ok (a := s.uts) (i := s.numVars + 1) (by rw [h.lut]; omega) (s.numVars + 1)
  obtain ⟨vb, e7, l7, g7⟩ := put_ok (a := s.varBdds) (i := s.numVars + 1) (by rw [h.lvar]; omega)
    (s.numVars + 1)
  obtain ⟨q, e8, l8, g8⟩ := addTables_ok (room := s.maxVars + 1) (n := s.numVars + 1) (D := s.maxDepth)
    (by omega) s.maxDepth 0 s.reqQue (by omega) (by rw [h.lq]; omega) (fun i hi => by omega)
    (fun i _ hi => h.row i hi)
  have hnum := h.num
  simp only [Mgr.addVar, e1, e2, e3, e4, e5, e6, e7, e8, Option.bind_eq_bind,
    Option.bind_some]
  refine ⟨_, rfl, ?_⟩
  constructor
  all_goals dsimp only
  case num =>
    simp only [List.length_append, List.length_take, List.length_cons, List.length_drop]
    omega
  case le => omega
  case one => exact h.one
  case top => exact h.top
  case depth => exact h.depth
  case lvar => rw [l7, h.lvar]
  case lnm => rw [l5, h.lnm]
  case lut => rw [l6, h.lut]
  case lid => rw [l3, l1, h.lid]
  case lix => rw [l4, l2, h.lix]
  case lq => rw [l8, h.lq]
  case var =>
    intro id a b
    rw [g7]
    split
    next e => rw [e]
    next e => exact h.var id a (by omega)
  case nm =>
    intro id b
    rw [g5]
    split
    next e => rw [e]
    next e => exact h.nm id (by omega)
  case ut =>
    intro id b
    rw [g6]
    split
    next e => rw [e]
    next e => exact h.ut id (by omega)
  case row => exact g8
  case const =>
    rw [g3, if_neg (by omega), z1]
    exact h.const
  case ord =>
    intro k x e
    rw [inserted (by omega)] at e
    rw [g4, g3, g2]
    by_cases h1 : k < index
    · rw [if_pos h1] at e
      obtain ⟨a, b, c, d⟩ := h.ord k x e
      rw [if_neg (by omega), if_neg (by omega), if_neg (by omega), g1 x k c d b, if_neg (by omega)]
      exact ⟨a, rfl, c, by omega⟩
    · rw [if_neg h1] at e
      by_cases h2 : k = index
      · rw [if_pos h2] at e
        injection e with e
        subst h2
        rw [if_pos rfl, if_pos (by omega)]
        exact ⟨by rw [hnum, e], rfl, by omega, by omega⟩
      · rw [if_neg h2] at e
        have hk := (List.getElem?_eq_some_iff.1 e).1
        obtain ⟨a, b, c, d⟩ := h.ord (k - 1) x e
        rw [if_neg h2, if_pos (by omega), if_neg (by omega), g1 x (k - 1) c d b, if_pos (by omega)]
        exact ⟨a, by congr 1; omega, c, by omega⟩
  case surj =>
    intro id a b
    by_cases e : id = s.numVars + 1
    · refine ⟨index, ?_⟩
      rw [inserted (by omega), if_neg (by omega), if_pos rfl, e, hnum]
    · obtain ⟨k, hk⟩ := h.surj id a (by omega)
      by_cases hki : k < index
      · exact ⟨k, by rw [inserted (by omega), if_pos hki, hk]⟩
      · refine ⟨k + 1, ?_⟩
        rw [inserted (by omega), if_neg (by omega), if_neg (by omega)]
        exact hk
  case temp => exact h.temp
  case tempz => exact fun i hi => h.tempz i (by omega)
  case assocs => exact h.assocs
  case assocz => exact fun f m i hi => h.assocz f m i (by omega)

theorem newVar_ok {t : Spec} {s : Mgr} (h : Inv t s) (index : Nat) :
    ∃ s', s.newVar index = some s' ∧ Inv (t.newVar index) s' := by
  simp only [Mgr.newVar, Spec.newVar, ← h.num]
  by_cases hc : s.numVars = 65534 ∨ s.numVars < index
  · rw [if_pos hc, if_pos hc]
    exact ⟨s, rfl, h⟩
  · rw [if_neg hc, if_neg hc]
    obtain ⟨s1, e1, h1, n1, m1⟩ := room_ok h (by omega)
    obtain ⟨s2, e2, h2⟩ := addVar_ok h1 m1 (index := index) (by omega)
    refine ⟨s2, by simp only [e1, e2, Option.bind_eq_bind, Option.bind_some], ?_⟩
    rw [h.num]
    exact h2

theorem setDepth_ok {t : Spec} {s : Mgr} (h : Inv t s) (d : Nat) :
    ∃ s', s.setDepth d = some s' ∧ Inv { t with depth := max t.depth d } s' := by
  simp only [Mgr.setDepth]
  have hd := h.depth
  have hle := h.le
  by_cases hc : s.maxDepth < d
  · rw [if_pos hc]
    obtain ⟨q, e, l, g⟩ := queues_ok (room := s.maxVars + 1) (n := s.numVars + 1) (by omega) (d - s.maxDepth)
      s.maxDepth (realloc s.reqQue d) (by rw [length_realloc]; omega) (fun i hi => by
        rw [get_realloc (by rw [h.lq]; omega)]
        exact h.row i hi)
    simp only [e, Option.bind_eq_bind, Option.bind_some]
    refine ⟨_, rfl, ?_⟩
    have e2 : s.maxDepth + (d - s.maxDepth) = d := by omega
    rw [e2] at g
    rw [length_realloc] at l
    exact { h with depth := by dsimp only; omega, lq := l, row := g }
  · rw [if_neg hc]
    exact ⟨s, rfl, { h with depth := by dsimp only; omega }⟩

theorem assocInit_ok {t : Spec} {s : Mgr} (h : Inv t s) {ps : List (Nat × Nat)}
    (hp : ∀ p ∈ ps, 1 ≤ p.1 ∧ p.1 ≤ t.order.length) :
    ∃ s', s.assocInit ps = some s' ∧ Inv (t.assocInit ps) s' := by
  have hle := h.le
  have hnum := h.num
  obtain ⟨a, e1, l1, g1⟩ := fill_ok 0 (s.maxVars + 1) 0 (alloc (s.maxVars + 1) : Arr Nat)
    (by rw [length_alloc]; omega)
  rw [length_alloc] at l1
  obtain ⟨b, e2, h2⟩ := enter_ok ps (fun _ => 0) a ⟨l1, fun i h1 h2 => by rw [g1, if_pos (by omega)]⟩
    (fun p m => by have := hp p m; omega)
  have hz := assign_out ps (fun _ => 0) s.numVars (fun p m => by have := hp p m; omega) (fun _ _ => rfl)
  have e3 := found_ok h.le hz h2 h.assocs h.assocz
  simp only [Mgr.assocInit, e1, e2, e3, Option.bind_eq_bind, Option.bind_some, Spec.assocInit, ← hnum]
  cases (t.assocs.any fun f => agree s.numVars f (assign ps fun _ => 0)) with
  | true => exact ⟨s, rfl, h⟩
  | false =>
    refine ⟨_, rfl, ?_⟩
    exact { h with
      assocs := h.assocs.snoc h2
      assocz := fun f m => by
        rcases List.mem_append.1 m with m | m
        · exact h.assocz f m
        · rw [List.mem_singleton.1 m]
          exact hz }

theorem assocQuit_ok {t : Spec} {s : Mgr} (h : Inv t s) (i : Nat) :
    ∃ s', s.assocQuit i = some s' ∧ Inv { t with assocs := t.assocs.eraseIdx i } s' := by
  simp only [Mgr.assocQuit]
  rcases h.assocs.get i with ⟨h1, h2⟩ | ⟨f, a, h1, h2, h3⟩
  · rw [h2]
    refine ⟨s, rfl, ?_⟩
    have e : t.assocs.eraseIdx i = t.assocs := List.eraseIdx_of_length_le (List.getElem?_eq_none_iff.1 h1)
    rw [e]
    exact h
  · rw [h2]
    have := readAll_ok h3 s.numVars 0 (by have := h.le; omega)
    simp only [this, Option.bind_eq_bind, Option.bind_some]
    refine ⟨_, rfl, ?_⟩
    exact { h with
      assocs := h.assocs.erase i
      assocz := fun f m => h.assocz f ((List.eraseIdx_sublist t.assocs i).subset m) }

theorem tempAugment_ok {t : Spec} {s : Mgr} (h : Inv t s) {ps : List (Nat × Nat)}
    (hp : ∀ p ∈ ps, 1 ≤ p.1 ∧ p.1 ≤ t.order.length) :
    ∃ s', s.tempAugment ps = some s' ∧ Inv { t with temp := assign ps t.temp } s' := by
  rw [← h.num] at hp
  obtain ⟨b, e, hb⟩ := augment_ok (ix := s.idToIndex) (n := s.numVars) (fun i h1 h2 => by
    obtain ⟨k, _, e, _⟩ := h.idx i h1 h2
    rw [e]
    rfl) h.le ps t.temp s.temp h.temp hp
  simp only [Mgr.tempAugment, e, Option.bind_eq_bind, Option.bind_some]
  refine ⟨_, rfl, ?_⟩
  exact { h with
    temp := hb
    tempz := assign_out ps t.temp s.numVars (fun p m => (hp p m).2) h.tempz }

theorem tempQuit_ok {t : Spec} {s : Mgr} (h : Inv t s) :
    ∃ s', s.tempQuit = some s' ∧ Inv { t with temp := fun _ => 0 } s' := by
  obtain ⟨b, e, hb⟩ := clear_ok s.numVars 0 t.temp s.temp h.temp (by have := h.le; omega)
  simp only [Mgr.tempQuit, e, Option.bind_eq_bind, Option.bind_some]
  refine ⟨_, rfl, ?_⟩
  exact { h with
    temp := ⟨hb.len, fun i h1 h2 => by
      rw [hb.val i h1 h2]
      split
      next => rfl
      next hn => rw [h.tempz i (by omega)]⟩
    tempz := fun _ _ => rfl }

theorem tempInit_ok {t : Spec} {s : Mgr} (h : Inv t s) {ps : List (Nat × Nat)}
    (hp : ∀ p ∈ ps, 1 ≤ p.1 ∧ p.1 ≤ t.order.length) :
    ∃ s', s.tempInit ps = some s' ∧ Inv { t with temp := assign ps fun _ => 0 } s' := by
  obtain ⟨s1, e1, h1⟩ := tempQuit_ok h
  obtain ⟨s2, e2, h2⟩ := tempAugment_ok h1 hp
  exact ⟨s2, by simp only [Mgr.tempInit, e1, e2, Option.bind_eq_bind, Option.bind_some], h2⟩

theorem swap_ok {t : Spec} {s : Mgr} (h : Inv t s) {index : Nat} (hi : index + 1 < t.order.length) :
    ∃ s', s.swap index = some s' ∧ Inv (t.swap index) s' := by
  obtain ⟨x, ex⟩ : ∃ x, t.order[index]? = some x := ⟨_, List.getElem?_eq_getElem (by omega)⟩
  obtain ⟨y, ey⟩ : ∃ y, t.order[index + 1]? = some y := ⟨_, List.getElem?_eq_getElem hi⟩
  obtain ⟨x1, x2, x3, x4⟩ := h.ord _ _ ex
  obtain ⟨y1, y2, y3, y4⟩ := h.ord _ _ ey
  have hle := h.le
  have hnum := h.num
  have hxy : x ≠ y := by
    intro e
    rw [e, y2] at x2
    injection x2
    omega
  obtain ⟨ix, e1, l1, g1⟩ := put_ok (a := s.idToIndex) (i := x) (get_lt x2) (index + 1)
  obtain ⟨ix', e2, l2, g2⟩ := put_ok (a := ix) (i := y) (by rw [l1]; exact get_lt y2) index
  obtain ⟨xi, e3, l3, g3⟩ := put_ok (a := s.indexToId) (i := index) (get_lt x1) y
  obtain ⟨xi', e4, l4, g4⟩ := put_ok (a := xi) (i := index + 1) (by rw [l3]; exact get_lt y1) x
  simp only [Mgr.swap, x1, y1, e1, e2, e3, e4, Option.bind_eq_bind, Option.bind_some]
  refine ⟨_, rfl, ?_⟩
  have es : t.swap index = { t with order := (t.order.set index y).set (index + 1) x } := by
    simp only [Spec.swap, ex, ey]
  rw [es]
  have ho : ∀ k : Nat, ((t.order.set index y).set (index + 1) x)[k]? =
      if k = index + 1 then some x else if k = index then some y else t.order[k]? := by
    intro k
    rw [List.getElem?_set, List.getElem?_set, List.length_set]
    grind
  exact { h with
    num := by simp [hnum]
    lid := by rw [l2, l1, h.lid]
    lix := by rw [l4, l3, h.lix]
    const := by
      rw [g2, if_neg (by omega), g1, if_neg (by omega)]
      exact h.const
    ord := fun k z e => by
      rw [ho] at e
      dsimp only
      rw [g4, g3, g2, g1]
      by_cases h1 : k = index + 1
      · rw [if_pos h1] at e
        injection e with e
        subst e
        rw [if_pos h1, if_neg hxy, if_pos rfl, h1]
        exact ⟨rfl, rfl, x3, x4⟩
      · rw [if_neg h1] at e
        by_cases h2 : k = index
        · rw [if_pos h2] at e
          injection e with e
          subst e
          rw [if_neg h1, if_pos h2, if_pos rfl, h2]
          exact ⟨rfl, rfl, y3, y4⟩
        · rw [if_neg h2] at e
          obtain ⟨a, b, c, d⟩ := h.ord k z e
          rw [if_neg h1, if_neg h2, if_neg, if_neg]
          · exact ⟨a, b, c, d⟩
          · intro e
            rw [e, x2] at b
            injection b
            omega
          · intro e
            rw [e, y2] at b
            injection b
            omega
    surj := fun id a b => by
      obtain ⟨k, hk⟩ := h.surj id a b
      by_cases h1 : k = index
      · refine ⟨index + 1, ?_⟩
        rw [ho, if_pos rfl, ← ex, ← h1, hk]
      · by_cases h2 : k = index + 1
        · refine ⟨index, ?_⟩
          rw [ho, if_neg (by omega), if_pos rfl, ← ey, ← h2, hk]
        · exact ⟨k, by rw [ho, if_neg h2, if_neg h1, hk]⟩ }

theorem run_ok {t : Spec} {s : Mgr} (h : Inv t s) (c : Call) (hl : c.Legal t) :
    ∃ s', c.run s = some s' ∧ Inv (t.step c) s' := by
  cases c with
  | newVar index => exact newVar_ok h index
  | setDepth d => exact setDepth_ok h d
  | assocInit ps => exact assocInit_ok h hl
  | assocQuit i => exact assocQuit_ok h i
  | tempInit ps => exact tempInit_ok h hl
  | tempAugment ps => exact tempAugment_ok h hl
  | tempQuit => exact tempQuit_ok h
  | swap index => exact swap_ok h hl

theorem runs_ok : ∀ (cs : List Call) {t : Spec} {s : Mgr}, Inv t s → Legal t cs →
    ∃ s', runs s cs = some s' ∧ Inv (t.steps cs) s'
  | [], t, s, h, _ => ⟨s, rfl, h⟩
  | c :: cs, t, s, h, hl => by
    obtain ⟨s1, e1, h1⟩ := run_ok h c hl.1
    obtain ⟨s2, e2, h2⟩ := runs_ok cs h1 hl.2
    exact ⟨s2, by simp only [runs, e1, e2, Option.bind_eq_bind, Option.bind_some], h2⟩

theorem program_ok (cs : List Call) (h : Legal .init cs) :
    ∃ s, program cs = some s ∧ Inv (Spec.init.steps cs) s := by
  obtain ⟨s0, e0, h0⟩ := init_ok
  obtain ⟨s, e, h⟩ := runs_ok cs h0 h
  exact ⟨s, by simp only [program, e0, e, Option.bind_eq_bind, Option.bind_some], h⟩

end Cal.Arrays
