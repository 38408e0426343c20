import Verif.Props3
/-!
# The C++ objects

Model of the class `BDD` of `/repo/src/calObj.hh` over the sessions of the C API: an object holds one
handle; constructors, assignments and the destructor call `Cal_BddFree` and `Cal_BddUnFree`. All
objects belong to one manager (`Cal` is not copyable). Any API call may build an object from the
handle it returns.
-/

namespace Cal.Cpp

/-- The objects alive, by name, with the handle in `_bdd` (calObj.hh:95-98), and their manager. -/
structure X where
  m : Mgr
  objs : List (Nat × Handle)

/-- the handle of an object, `none` if there is no such object -/
def get (objs : List (Nat × Handle)) (o : Nat) : Option Handle :=
  (objs.find? fun p => p.1 == o).map (·.2)

/-- an object goes away -/
def del (objs : List (Nat × Handle)) (o : Nat) : List (Nat × Handle) := objs.filter fun p => p.1 != o

/-- an object is created, or its handle is replaced -/
def put (objs : List (Nat × Handle)) (o : Nat) (h : Handle) : List (Nat × Handle) :=
  (o, h) :: del objs o

/-- `BDD::Free` (calObj.hh:771-777): null is skipped. -/
def freeH (m : Mgr) (h : Handle) : Option Mgr := if h = Handle.null then some m else m.free h

/-- `BDD::UnFree` (calObj.hh:803-809) -/
def unFreeH (m : Mgr) (h : Handle) : Option Mgr := if h = Handle.null then some m else m.unFree h

/-- `BDD(Cal_Manager, Cal_Bdd)` (calObj.hh:110-112) on the result of a call, if it is a handle. -/
def made (m : Mgr) (objs : List (Nat × Handle)) (o : Nat) : Ret → X
  | .handle h => ⟨m, put objs o h⟩
  | _ => ⟨m, objs⟩

/-- What a program does with objects. -/
inductive Op where
  /-- `BDD()` -/
  | null (o : Nat)
  /-- call the API; if it returns a handle, that becomes the new object `o` -/
  | api (o : Nat) (c : Call)
  /-- `BDD o = src.Regular()` -/
  | regular (o src : Nat)
  /-- `BDD o(src)` -/
  | copy (o src : Nat)
  /-- `o = src` -/
  | assign (o src : Nat)
  /-- `BDD o(std::move(src))` -/
  | move (o src : Nat)
  /-- `o = std::move(src)` -/
  | moveAssign (o src : Nat)
  /-- `~BDD()` -/
  | destroy (o : Nat)

/-- One step of a program. -/
def step (E : Env) (x : X) : Op → Option X
  /- calObj.hh:118-120 -/
  | .null o => some ⟨x.m, put x.objs o Handle.null⟩
  /- calObj.hh:110-112: the constructor takes over the reference of the returned handle -/
  | .api o c => (c.run E x.m).map fun r => made r.1 x.objs o r.2
  /- calObj.hh:352-360 -/
  | .regular o src => do
    let h ← get x.objs src
    let m ← unFreeH x.m (Mgr.regular h)
    return ⟨m, put x.objs o (Mgr.regular h)⟩
  /- calObj.hh:125-129 -/
  | .copy o src => do
    let h ← get x.objs src
    let m ← unFreeH x.m h
    return ⟨m, put x.objs o h⟩
  /- calObj.hh:134-144: free the own handle, copy the members of the other (which may be this very
  object), take a reference -/
  | .assign o src => do
    let h0 ← get x.objs o
    let m ← freeH x.m h0
    let h ← get x.objs src
    let objs := put x.objs o h
    let h' ← get objs o
    let m ← unFreeH m h'
    return ⟨m, objs⟩
  /- calObj.hh:149-153 -/
  | .move o src => do
    let h ← get x.objs src
    return ⟨x.m, put (put x.objs o h) src Handle.null⟩
  /- calObj.hh:158-168 -/
  | .moveAssign o src => do
    let h0 ← get x.objs o
    let m ← freeH x.m h0
    let h ← get x.objs src
    return ⟨m, put (put x.objs o h) src Handle.null⟩
  /- calObj.hh:173-176 -/
  | .destroy o => do
    let h ← get x.objs o
    let m ← freeH x.m h
    return ⟨m, del x.objs o⟩

/-- The number of objects that hold a handle of user node `a` (a handle or its complement). -/
def holders (objs : List (Nat × Handle)) (a : Nat) : Nat :=
  if a = 0 then 0 else objs.countP fun p => p.2.addr == a

/-- `Cal_BddFree` (cal.c:255-260), `Cal_BddUnFree` (cal.c:265-271), `Cal_BddGetRegular` (cal.c:276-280), `Cal_BddSupport` (calBddSupport.c:80-100), `Cal_BddDumpBdd` (calDump.c:191-265) and
`Cal_BddUndumpBdd` (calDump.c:97-187) are not in the C++ interface. -/
def inCpp : Call → Bool
  | .free _ | .unFree _ | .regular _ | .support _ | .dump _ _ | .undump _ _ _ _ => false
  | _ => true

/-- What C++ and the API ask for: constructors make new objects, the others name living ones; API
calls get handles of living objects. -/
def Legal (x : X) : Op → Prop
  | .null o => get x.objs o = none
  | .api o c => get x.objs o = none ∧ c.Legal (holders x.objs) x.m ∧
      inCpp c = true
  | .regular o src => get x.objs o = none ∧ ∃ h, get x.objs src = some h ∧ h ≠ Handle.null
  | .copy o src | .move o src => get x.objs o = none ∧ get x.objs src ≠ none
  | .assign o src | .moveAssign o src => get x.objs o ≠ none ∧ get x.objs src ≠ none
  | .destroy o => get x.objs o ≠ none

/-- The states programs lead to. -/
inductive Reach (E : Env) : X → Prop
  | init (hash : Ptr → Ptr → Nat → Nat) : Reach E ⟨Mgr.init hash, []⟩
  | step {x y : X} (op : Op) : Reach E x → Legal x op → step E x op = some y → Reach E y

/-! ## Bookkeeping -/

theorem get_put (objs : List (Nat × Handle)) (o p : Nat) (h : Handle) :
    get (put objs o h) p = if p = o then some h else get objs p := by
  unfold get put
  rw [List.find?_cons]
  by_cases e : p = o
  · subst e; simp
  · have h1 : (o == p) = false := by simp; exact fun h => e h.symm
    simp only [h1, if_neg e, del]
    rw [List.find?_filter]
    congr 2
    funext q
    by_cases hq : q.1 = p
    · simp [hq, e]
    · simp [hq]

theorem get_del (objs : List (Nat × Handle)) (o p : Nat) :
    get (del objs o) p = if p = o then none else get objs p := by
  unfold get del
  rw [List.find?_filter]
  by_cases e : p = o
  · subst e
    simp only [if_true, Option.map_eq_none_iff, List.find?_eq_none]
    intro q _; simp
  · rw [if_neg e]
    congr 2
    funext q
    by_cases hq : q.1 = p
    · simp [hq, e]
    · simp [hq]

/-- names are distinct -/
def Names (objs : List (Nat × Handle)) : Prop := (objs.map (·.1)).Nodup

theorem mem_of_get {objs : List (Nat × Handle)} {o h} (g : get objs o = some h) : (o, h) ∈ objs := by
  unfold get at g
  simp only [Option.map_eq_some_iff] at g
  obtain ⟨q, hq, rfl⟩ := g
  have h1 := List.find?_some hq
  simp only [beq_iff_eq] at h1
  subst h1
  exact List.mem_of_find?_eq_some hq

theorem names_del {objs : List (Nat × Handle)} (n : Names objs) (o : Nat) : Names (del objs o) :=
  (List.filter_sublist.map _).nodup n

theorem names_put {objs : List (Nat × Handle)} (n : Names objs) (o : Nat) (h : Handle) :
    Names (put objs o h) := by
  unfold Names put
  rw [List.map_cons, List.nodup_cons]
  refine ⟨?_, names_del n o⟩
  simp [del]

theorem del_dead {objs : List (Nat × Handle)} {o : Nat} (g : get objs o = none) : del objs o = objs := by
  unfold get at g
  simp only [Option.map_eq_none_iff, List.find?_eq_none, beq_iff_eq] at g
  unfold del
  rw [List.filter_eq_self]
  intro q hq
  simpa using g q hq

theorem count_del {objs : List (Nat × Handle)} (n : Names objs) {o h} (g : get objs o = some h) (a : Nat) :
    objs.countP (fun p => p.2.addr == a) =
      (del objs o).countP (fun p => p.2.addr == a) + if h.addr = a then 1 else 0 := by
  induction objs with
  | nil => cases g
  | cons q objs ih =>
    unfold Names at n
    rw [List.map_cons, List.nodup_cons] at n
    by_cases hq : q.1 = o
    · have hqh : q.2 = h := by
        unfold get at g
        rw [List.find?_cons] at g
        simp only [hq, beq_self_eq_true, Option.map_some, Option.some.injEq] at g
        exact g
      have hd : del (q :: objs) o = objs := by
        unfold del
        rw [List.filter_cons]
        simp only [hq, bne_self_eq_false, Bool.false_eq_true, if_false]
        rw [List.filter_eq_self]
        intro r hr
        have : r.1 ≠ o := by
          intro e
          exact n.1 (by rw [hq, ← e]; exact List.mem_map_of_mem hr)
        simpa using this
      rw [hd, List.countP_cons, hqh]
      simp
    · have g' : get objs o = some h := by
        unfold get at g ⊢
        rw [List.find?_cons] at g
        have h1 : (q.1 == o) = false := by simpa using hq
        simp only [h1] at g
        exact g
      have hd : del (q :: objs) o = q :: del objs o := by
        unfold del
        rw [List.filter_cons]
        have h1 : (q.1 != o) = true := by simpa using hq
        simp only [h1, if_true]
      rw [hd, List.countP_cons, List.countP_cons, ih n.2 g']
      omega

theorem holders_put {objs : List (Nat × Handle)} {o : Nat} (h : Handle) {a : Nat} (ha : 1 < a) :
    holders (put objs o h) a = holders (del objs o) a + if h.addr = a then 1 else 0 := by
  unfold holders put
  rw [if_neg (by omega), if_neg (by omega), List.countP_cons]
  simp

theorem holders_del {objs : List (Nat × Handle)} (n : Names objs) {o h} (g : get objs o = some h)
    {a : Nat} (ha : 1 < a) :
    holders objs a = holders (del objs o) a + if h.addr = a then 1 else 0 := by
  unfold holders
  rw [if_neg (by omega), if_neg (by omega), count_del n g]

theorem holders_pos {objs : List (Nat × Handle)} {o h} (g : get objs o = some h) (ha : h.addr ≠ 0) :
    0 < holders objs h.addr := by
  unfold holders
  rw [if_neg ha, List.countP_pos_iff]
  exact ⟨_, mem_of_get g, by simp⟩

theorem null_addr {a : Nat} (ha : 1 < a) : ¬ Handle.null.addr = a := by
  show ¬ 0 = a
  omega

/-! ## The invariant -/

variable {E : Env}

/-- the references held through the C API are the objects -/
structure Inv (E : Env) (x : X) (own : Nat → Nat) : Prop where
  reach : ∃ lk, Reachable E own lk x.m
  cnt : ∀ a, 1 < a → own a = holders x.objs a
  names : Names x.objs
  null : ∀ o h, get x.objs o = some h → h.addr = 0 → h = Handle.null

theorem own_zero (S : E.Sound) {own lk m} (R : Reachable E own lk m) : own 0 = 0 := by
  obtain ⟨Γ, leak, -, i⟩ := R.inv S
  exact i.ut.own0 0 i.ut.heap0

theorem Inv.live_iff (S : E.Sound) {x own} (i : Inv E x own) (h : Handle) :
    UTab.Live own h ↔ UTab.Live (holders x.objs) h := by
  obtain ⟨lk, R⟩ := i.reach
  unfold UTab.Live
  by_cases h1 : h.addr = 1
  · simp [h1]
  · by_cases h0 : h.addr = 0
    · rw [h0, own_zero S R]; simp [holders]
    · rw [i.cnt h.addr (by omega)]

theorem Inv.live (S : E.Sound) {x own} (i : Inv E x own) {o h} (g : get x.objs o = some h)
    (hn : h ≠ Handle.null) : UTab.Live own h := by
  rw [i.live_iff S]
  exact Or.inr (holders_pos g fun h0 => hn (i.null o h g h0))

theorem Legal_congr {own own' : Nat → Nat} (e : ∀ h, UTab.Live own h ↔ UTab.Live own' h) {m : Mgr}
    {c : Call} (l : c.Legal own m) : c.Legal own' m := by
  have e' : UTab.Live own = UTab.Live own' := funext fun h => propext (e h)
  cases c <;> first
    | exact l
    | (simp only [Call.Legal, OArg, VarArg, e'] at l ⊢; exact l)
    | exact (e _).mp l

theorem freeH_ok (S : E.Sound) {own lk m} (R : Reachable E own lk m) {h : Handle}
    (hl : h ≠ Handle.null → UTab.Live own h) :
    ∃ m' own', freeH m h = some m' ∧ Reachable E own' lk m' ∧
      (∀ a, 1 < a → own' a = own a - if h.addr = a then 1 else 0) := by
  unfold freeH
  split
  · rename_i hn
    exact ⟨m, own, rfl, R, fun a ha => by subst hn; rw [if_neg]; · rfl
                                          · intro h; simp [Handle.null] at h; omega⟩
  · rename_i hn
    obtain ⟨m', ret, h1, -⟩ := call_ok E S (R.inv S) (.free h) (hl hn)
    have h2 : m.free h = some m' ∧ ret = .unit := by
      simp only [Call.run, Option.map_eq_some_iff, Prod.mk.injEq] at h1
      obtain ⟨x, hx, rfl, rfl⟩ := h1
      exact ⟨hx, rfl⟩
    have R' := R.call (.free h) (hl hn) h1
    simp only [Call.leaks, Bool.or_false] at R'
    refine ⟨m', _, h2.1, R', fun a ha => ?_⟩
    simp only [Call.own]
    by_cases h1 : h.addr = 1
    · rw [if_pos h1, if_neg (by omega)]; rfl
    · rw [if_neg h1]
      by_cases e : h.addr = a
      · subst e; simp
      · rw [upd_ne _ _ (Ne.symm e), if_neg e]; rfl

theorem unFreeH_ok (S : E.Sound) {own lk m} (R : Reachable E own lk m) {h : Handle}
    (hl : h ≠ Handle.null → UTab.Live own h) :
    ∃ m' own', unFreeH m h = some m' ∧ Reachable E own' lk m' ∧
      (∀ a, 1 < a → own' a = own a + if h.addr = a then 1 else 0) ∧
      ∀ g, UTab.Live own g → ∀ F, Den m g F → Den m' g F := by
  unfold unFreeH
  split
  · rename_i hn
    exact ⟨m, own, rfl, R, fun a ha => by subst hn; rw [if_neg]; · rfl
                                          · intro h; simp [Handle.null] at h; omega,
      fun _ _ _ d => d⟩
  · rename_i hn
    obtain ⟨m', ret, h1, -, k, -⟩ := call_ok E S (R.inv S) (.unFree h) (hl hn)
    have h2 : m.unFree h = some m' ∧ ret = .unit := by
      simp only [Call.run, Option.map_eq_some_iff, Prod.mk.injEq] at h1
      obtain ⟨x, hx, rfl, rfl⟩ := h1
      exact ⟨hx, rfl⟩
    have R' := R.call (.unFree h) (hl hn) h1
    simp only [Call.leaks, Bool.or_false] at R'
    refine ⟨m', _, h2.1, R', fun a ha => ?_, fun g lg F d => k g lg (live_bump lg) F d⟩
    simp only [Call.own, bump]
    by_cases e : h.addr = a
    · subst e; simp
    · rw [upd_ne _ _ (Ne.symm e), if_neg e]; rfl

/-- `Cal_BddFree` never changes what a handle denotes: only the next collection may. -/
theorem freeH_den {m m' : Mgr} {h : Handle} (e : freeH m h = some m') {g F} (d : Den m g F) :
    Den m' g F := by
  unfold freeH at e
  split at e
  · cases e; exact d
  · unfold Mgr.free at e
    cases hh : m.ut.heap h.addr with
    | none => rw [hh] at e; cases e
    | some v => rw [hh] at e; cases e; exact d

/-- giving a reference up and taking it back is nothing -/
theorem free_unFree (S : E.Sound) {own lk m} (R : Reachable E own lk m) {h : Handle}
    (hl : h ≠ Handle.null → UTab.Live own h) {m1} (e : freeH m h = some m1) :
    unFreeH m1 h = some m := by
  unfold freeH at e
  unfold unFreeH
  split at e
  · cases e; rw [if_pos (by assumption)]
  · rename_i hn
    rw [if_neg hn]
    obtain ⟨Γ, leak, -, i⟩ := R.inv S
    unfold Mgr.free at e
    cases hh : m.ut.heap h.addr with
    | none => rw [hh] at e; cases e
    | some v =>
      rw [hh] at e
      cases e
      have hv : (m.ut.dcr h.addr).heap h.addr = some v := hh
      simp only [Mgr.unFree, hv, Option.some.injEq]
      have hpos : 0 < m.ut.ref h.addr := by
        rcases hl hn with l | l
        · rw [l, i.ut.one_ref]; decide
        · rcases i.ut.cnt h.addr (by rw [hh]; simp) with c | c
          · rw [c]; decide
          · omega
      have hle := i.ut.ref_le h.addr (by rw [hh]; simp)
      have : (m.ut.dcr h.addr).icr h.addr = m.ut := by
        simp only [UTab.dcr, UTab.icr, upd_same]
        have : (upd (upd m.ut.ref h.addr (if m.ut.ref h.addr = maxRef then maxRef else m.ut.ref h.addr - 1)) h.addr
            (if (if m.ut.ref h.addr = maxRef then maxRef else m.ut.ref h.addr - 1) < maxRef then
              (if m.ut.ref h.addr = maxRef then maxRef else m.ut.ref h.addr - 1) + 1 else maxRef)) = m.ut.ref := by
          funext a
          simp only [upd]
          by_cases e : a = h.addr
          · subst e
            simp only [if_true]
            split <;> split <;> omega
          · simp only [if_neg e]
        rw [this]
      rw [this]

theorem null_put {objs : List (Nat × Handle)} (n : ∀ o h, get objs o = some h → h.addr = 0 → h = Handle.null)
    {o : Nat} {h : Handle} (hh : h.addr = 0 → h = Handle.null) :
    ∀ p k, get (put objs o h) p = some k → k.addr = 0 → k = Handle.null := by
  intro p k g
  rw [get_put] at g
  split at g
  · cases g; exact hh
  · exact n p k g

theorem null_del {objs : List (Nat × Handle)} (n : ∀ o h, get objs o = some h → h.addr = 0 → h = Handle.null)
    (o : Nat) : ∀ p k, get (del objs o) p = some k → k.addr = 0 → k = Handle.null := by
  intro p k g
  rw [get_del] at g
  split at g
  · cases g
  · exact n p k g

theorem put_put (objs : List (Nat × Handle)) (o : Nat) (h k : Handle) :
    put (put objs o h) o k = put objs o k := by
  unfold put del
  rw [List.filter_cons]
  simp

/-- the references after an API call that is not `free`, `unFree` or `regular` -/
theorem own_call {own : Nat → Nat} {c : Call} {ret : Ret}
    (hc : inCpp c = true) (hone : ∀ h, (c = .one ∨ c = .zero) → ret = .handle h → h.addr = 1)
    (hh : ∀ hs, ret ≠ .handles hs) (hd : (∀ hs o, ret ≠ .dumped hs o) ∧ ∀ e h, ret ≠ .undumped e h) {a : Nat} (ha : 1 < a) :
    c.own own ret a = own a + (match ret with | .handle h => if h.addr = a then 1 else 0 | _ => 0) := by
  have key : ∀ h : Handle, (if h = Handle.null then own else bump own h.addr) a =
      own a + if h.addr = a then 1 else 0 := by
    intro h
    by_cases hn : h = Handle.null
    · subst hn
      rw [if_pos rfl, if_neg]
      · rfl
      · intro h; simp [Handle.null] at h; omega
    · rw [if_neg hn]
      unfold bump
      by_cases e : h.addr = a
      · subst e; simp
      · rw [upd_ne _ _ (Ne.symm e), if_neg e]; rfl
  cases c with
  | free f => simp [inCpp] at hc
  | unFree f => simp [inCpp] at hc
  | regular f => simp [inCpp] at hc
  | one =>
    cases ret with
    | handle h => have := hone h (Or.inl rfl) rfl; simp only [Call.own]; rw [if_neg (by omega)]; rfl
    | _ => rfl
  | zero =>
    cases ret with
    | handle h => have := hone h (Or.inr rfl) rfl; simp only [Call.own]; rw [if_neg (by omega)]; rfl
    | _ => rfl
  | _ =>
    cases ret with
    | handle h => exact key h
    | handles hs => exact absurd rfl (hh hs)
    | dumped hs o => exact absurd rfl (hd.1 hs o)
    | undumped e h => exact absurd rfl (hd.2 e h)
    | _ => rfl

theorem own_ret_null {own : Nat → Nat} {c : Call} {h : Handle}
    (hc : inCpp c = true) (hone : (c = .one ∨ c = .zero) → h.addr = 1)
    (h0 : c.own own (.handle h) 0 = 0) : h.addr = 0 → h = Handle.null := by
  intro ha
  apply Classical.byContradiction
  intro hn
  have key : (if h = Handle.null then own else bump own h.addr) 0 = 0 → False := by
    rw [if_neg hn, ha]; simp [bump]
  cases c with
  | free f => simp [inCpp] at hc
  | unFree f => simp [inCpp] at hc
  | regular f => simp [inCpp] at hc
  | one => have := hone (Or.inl rfl); omega
  | zero => have := hone (Or.inr rfl); omega
  | _ => exact key h0

theorem run_const {m m' : Mgr} {c : Call} {ret h} (hr : c.run E m = some (m', ret))
    (hc : c = .one ∨ c = .zero) (hh : ret = .handle h) : h.addr = 1 := by
  rcases hc with rfl | rfl <;> (simp only [Call.run, Option.some.injEq, Prod.mk.injEq] at hr
                                obtain ⟨-, rfl⟩ := hr; cases hh; rfl)

theorem run_handles {m m' : Mgr} {c : Call} {ret hs} (hr : c.run E m = some (m', ret))
    (hc : inCpp c = true) : ret ≠ .handles hs := by
  rintro rfl
  cases c with
  | support f => simp [inCpp] at hc
  | _ => simp [Call.run, retH] at hr

theorem run_dumped {m m' : Mgr} {c : Call} {ret} (hr : c.run E m = some (m', ret))
    (hc : inCpp c = true) : (∀ hs o, ret ≠ .dumped hs o) ∧ ∀ e h, ret ≠ .undumped e h := by
  constructor
  · rintro hs o rfl
    cases c with
    | dump f vs => simp [inCpp] at hc
    | _ => simp [Call.run, retH] at hr
  · rintro e h rfl
    cases c with
    | undump mem vs file fin => simp [inCpp] at hc
    | _ => simp [Call.run, retH] at hr

/-- The kept meaning of an object: same handle, same function. -/
def KeepsObj (x y : X) : Prop :=
  ∀ o h, get x.objs o = some h → get y.objs o = some h → ∀ F, Den x.m h F → Den y.m h F

theorem null_not_den (S : E.Sound) {own lk m} (R : Reachable E own lk m) {F} : ¬ Den m Handle.null F := by
  obtain ⟨Γ, leak, -, i⟩ := R.inv S
  rintro ⟨e, he, -⟩
  rw [show Handle.null.addr = 0 from rfl, i.ut.heap0] at he
  cases he

/-- Every legal step goes through, keeps the balance and the meaning of all objects. -/
theorem step_ok (S : E.Sound) {x own} (i : Inv E x own) {op : Op} (l : Legal x op) :
    ∃ y own', step E x op = some y ∧ Inv E y own' ∧ KeepsObj x y := by
  obtain ⟨lk, R⟩ := i.reach
  cases op with
  | null o =>
    refine ⟨_, own, rfl, ⟨⟨lk, R⟩, fun a ha => ?_, names_put i.names _ _, null_put i.null fun _ => rfl⟩,
      fun _ _ _ _ _ d => d⟩
    rw [holders_put _ ha, del_dead l, if_neg (null_addr ha)]
    exact i.cnt a ha
  | api o c =>
    obtain ⟨hd, hl, hc⟩ := l
    have hl' := Legal_congr (fun h => (i.live_iff S h).symm) hl
    obtain ⟨m', ret, hr, -, k, -⟩ := call_ok E S (R.inv S) c hl'
    have R' := R.call c hl' hr
    have hone : ∀ h, (c = .one ∨ c = .zero) → ret = .handle h → h.addr = 1 :=
      fun h h1 h2 => run_const hr h1 h2
    have hh : ∀ hs, ret ≠ .handles hs := fun hs => run_handles hr hc
    have hdu := run_dumped hr hc
    have hkeep : KeepsObj x (made m' x.objs o ret) := by
      intro p h g g' F d
      have hn : h ≠ Handle.null := by rintro rfl; exact null_not_den S R d
      have lv := i.live S g hn
      have lv' : UTab.Live (c.own own ret) h := by
        rcases lv with lv | lv
        · exact Or.inl lv
        · by_cases h1 : h.addr = 1
          · exact Or.inl h1
          · have h0 : h.addr ≠ 0 := by intro h0; rw [h0, own_zero S R] at lv; omega
            right
            rw [own_call hc hone hh hdu (by omega)]
            omega
      have := k h lv lv' F d
      revert g'
      cases ret <;> exact fun _ => this
    refine ⟨_, c.own own ret, by simp only [step, hr, Option.map_some], ?_, hkeep⟩
    cases ret with
    | handle h =>
      refine ⟨⟨_, R'⟩, fun a ha => ?_, names_put i.names _ _,
        null_put i.null (own_ret_null hc (fun h1 => hone h h1 rfl) (own_zero S R'))⟩
      rw [own_call hc hone hh hdu ha]
      show _ = holders (put x.objs o h) a
      rw [holders_put _ ha, del_dead hd, i.cnt a ha]
    | _ =>
      refine ⟨⟨_, R'⟩, fun a ha => ?_, i.names, i.null⟩
      rw [own_call hc hone hh hdu ha, i.cnt a ha]
      rfl
  | regular o src =>
    obtain ⟨hd, h, g, hn⟩ := l
    have lv := i.live S g hn
    obtain ⟨m', own', e, R', c, kp⟩ := unFreeH_ok S R (h := Mgr.regular h) fun _ => lv
    refine ⟨⟨m', put x.objs o (Mgr.regular h)⟩, own', by simp only [step, g, e, Option.bind_eq_bind, Option.bind_some]; rfl,
      ⟨⟨lk, R'⟩, fun a ha => ?_, names_put i.names _ _, null_put i.null ?_⟩, ?_⟩
    · rw [c a ha, holders_put _ ha, del_dead hd, i.cnt a ha]
    · intro h0; exact absurd (i.null _ _ g h0) hn
    · intro p q gp _ F d
      have : q ≠ Handle.null := by rintro rfl; exact null_not_den S R d
      exact kp q (i.live S gp this) F d
  | copy o src =>
    obtain ⟨hd, hs⟩ := l
    obtain ⟨h, g⟩ := Option.ne_none_iff_exists'.mp hs
    obtain ⟨m', own', e, R', c, kp⟩ := unFreeH_ok S R (h := h) fun hn => i.live S g hn
    refine ⟨⟨m', put x.objs o h⟩, own', by simp only [step, g, e, Option.bind_eq_bind, Option.bind_some]; rfl, ⟨⟨lk, R'⟩, fun a ha => ?_, names_put i.names _ _,
      null_put i.null (i.null _ _ g)⟩, ?_⟩
    · rw [c a ha, holders_put _ ha, del_dead hd, i.cnt a ha]
    · intro p q gp _ F d
      have : q ≠ Handle.null := by rintro rfl; exact null_not_den S R d
      exact kp q (i.live S gp this) F d
  | move o src =>
    obtain ⟨hd, hs⟩ := l
    obtain ⟨h, g⟩ := Option.ne_none_iff_exists'.mp hs
    have hne : src ≠ o := by rintro rfl; exact hs hd
    have g2 : get (put x.objs o h) src = some h := by rw [get_put, if_neg hne]; exact g
    refine ⟨⟨x.m, put (put x.objs o h) src Handle.null⟩, own, by simp only [step, g]; rfl, ⟨⟨lk, R⟩, fun a ha => ?_,
      names_put (names_put i.names _ _) _ _, null_put (null_put i.null (i.null _ _ g)) fun _ => rfl⟩,
      fun _ _ _ _ _ d => d⟩
    have h1 := holders_del (names_put i.names o h) g2 ha
    rw [holders_put _ ha, del_dead hd] at h1
    rw [holders_put _ ha, if_neg (null_addr ha), i.cnt a ha]
    omega
  | assign o src =>
    obtain ⟨ho, hs⟩ := l
    obtain ⟨h0, g0⟩ := Option.ne_none_iff_exists'.mp ho
    obtain ⟨h, g⟩ := Option.ne_none_iff_exists'.mp hs
    obtain ⟨m1, own1, e1, R1, c1⟩ := freeH_ok S R (h := h0) fun hn => i.live S g0 hn
    have hg : get (put x.objs o h) o = some h := by rw [get_put, if_pos rfl]
    by_cases hso : src = o
    · subst hso
      rw [g0] at g
      obtain rfl := Option.some.inj g
      have e2 := free_unFree S R (h := h0) (fun hn => i.live S g0 hn) e1
      refine ⟨⟨x.m, put x.objs src h0⟩, own, by simp only [step, g0, e1, hg, Option.bind_eq_bind, Option.bind_some, e2]; rfl,
        ⟨⟨lk, R⟩, fun a ha => ?_, names_put i.names _ _, null_put i.null (i.null _ _ g0)⟩,
        fun _ _ _ _ _ d => d⟩
      rw [holders_put _ ha, i.cnt a ha, ← holders_del i.names g0 ha]
    · have gs : get (del x.objs o) src = some h := by rw [get_del, if_neg hso]; exact g
      have l1 : h ≠ Handle.null → UTab.Live own1 h := by
        intro hn
        by_cases h1 : h.addr = 1
        · exact Or.inl h1
        · have h0 : h.addr ≠ 0 := fun h0 => hn (i.null _ _ g h0)
          right
          have ha : 1 < h.addr := by omega
          have := holders_pos gs h0
          rw [c1 _ ha, i.cnt _ ha, holders_del i.names g0 ha]
          omega
      obtain ⟨m2, own2, e2, R2, c2, kp⟩ := unFreeH_ok S R1 l1
      refine ⟨⟨m2, put x.objs o h⟩, own2, by simp only [step, g0, e1, g, hg, Option.bind_eq_bind, Option.bind_some, e2]; rfl,
        ⟨⟨lk, R2⟩, fun a ha => ?_, names_put i.names _ _, null_put i.null (i.null _ _ g)⟩, ?_⟩
      · rw [holders_put _ ha, c2 a ha, c1 a ha, i.cnt a ha, holders_del i.names g0 ha]
        omega
      · intro p q gp gp' F d
        have d1 := freeH_den e1 d
        have hqn : q ≠ Handle.null := by rintro rfl; exact null_not_den S R d
        unfold unFreeH at e2
        split at e2
        · cases e2; exact d1
        · unfold Mgr.unFree at e2
          cases hh : m1.ut.heap h.addr with
          | none => rw [hh] at e2; cases e2
          | some v => rw [hh] at e2; cases e2; exact d1
  | moveAssign o src =>
    obtain ⟨ho, hs⟩ := l
    obtain ⟨h0, g0⟩ := Option.ne_none_iff_exists'.mp ho
    obtain ⟨h, g⟩ := Option.ne_none_iff_exists'.mp hs
    obtain ⟨m1, own1, e1, R1, c1⟩ := freeH_ok S R (h := h0) fun hn => i.live S g0 hn
    refine ⟨⟨m1, put (put x.objs o h) src Handle.null⟩, own1,
      by simp only [step, g0, e1, g, Option.bind_eq_bind, Option.bind_some]; rfl, ⟨⟨lk, R1⟩, fun a ha => ?_,
      names_put (names_put i.names _ _) _ _, null_put (null_put i.null (i.null _ _ g)) fun _ => rfl⟩,
      fun _ _ _ _ _ d => freeH_den e1 d⟩
    rw [c1 a ha, i.cnt a ha]
    by_cases hso : src = o
    · subst hso
      rw [g0] at g
      obtain rfl := Option.some.inj g
      rw [put_put, holders_put _ ha, if_neg (null_addr ha),
        holders_del i.names g0 ha, Nat.add_sub_cancel]
      rfl
    · have g2 : get (put x.objs o h) src = some h := by rw [get_put, if_neg hso]; exact g
      have h1 := holders_del (names_put i.names o h) g2 ha
      rw [holders_put _ ha] at h1
      rw [holders_put _ ha, if_neg (null_addr ha), holders_del i.names g0 ha, Nat.add_sub_cancel]
      omega
  | destroy o =>
    obtain ⟨h, g⟩ := Option.ne_none_iff_exists'.mp l
    obtain ⟨m1, own1, e1, R1, c1⟩ := freeH_ok S R (h := h) fun hn => i.live S g hn
    refine ⟨⟨m1, del x.objs o⟩, own1, by simp only [step, g, e1, Option.bind_eq_bind, Option.bind_some]; rfl, ⟨⟨lk, R1⟩, fun a ha => ?_, names_del i.names _,
      null_del i.null _⟩, fun _ _ _ _ _ d => freeH_den e1 d⟩
    rw [c1 a ha, i.cnt a ha, holders_del i.names g ha]
    exact Nat.add_sub_cancel ..

theorem Reach.inv (S : E.Sound) {x : X} (r : Reach E x) : ∃ own, Inv E x own := by
  induction r with
  | init hash => exact ⟨fun _ => 0, ⟨_, .init hash⟩, fun a _ => by simp [holders],
      by simp [Names], fun o h g => by cases g⟩
  | step op _ l e ih =>
    obtain ⟨own, i⟩ := ih
    obtain ⟨y, own', e', i', -⟩ := step_ok S i l
    rw [e] at e'; cases e'
    exact ⟨own', i'⟩

/-! ## The property -/

/-- C55: no legal use of objects - copies, moves, assignments including self-assignment, destruction,
in any order, mixed with any API calls - ever touches a handle that is not valid: every step goes
through. -/
theorem C55_total (S : E.Sound) {x : X} (r : Reach E x) {op : Op} (l : Legal x op) :
    ∃ y, step E x op = some y := by
  obtain ⟨own, i⟩ := r.inv S
  obtain ⟨y, own', e, -⟩ := step_ok S i l
  exact ⟨y, e⟩

/-- C55: the reference count of every handle is the number of living objects that hold it (or stuck
at 255). Node 1 is the constant, whose count is always 255. -/
theorem C55_balance (S : E.Sound) {x : X} (r : Reach E x) {u : Nat} (hu : x.m.ut.heap u ≠ none) :
    x.m.ut.ref u = 255 ∨ x.m.ut.ref u = x.objs.countP fun p => p.2.addr == u := by
  obtain ⟨own, i⟩ := r.inv S
  obtain ⟨lk, R⟩ := i.reach
  obtain ⟨Γ, leak, -, ig⟩ := R.inv S
  by_cases h1 : u = 1
  · left; rw [h1]; exact ig.ut.one_ref
  · have h0 : u ≠ 0 := by rintro rfl; exact hu ig.ut.heap0
    have := i.cnt u (by omega)
    unfold holders at this
    rw [if_neg h0] at this
    rw [← this]
    exact ig.ut.cnt u hu

/-- C55: a living object that is not assigned to keeps denoting the same function, and every living
object that is not null denotes one. -/
theorem C55_meaning (S : E.Sound) {x y : X} (r : Reach E x) {op : Op} (l : Legal x op)
    (e : step E x op = some y) {o h} (g : get x.objs o = some h) (hn : h ≠ Handle.null) :
    ∃ F, Den x.m h F ∧ (get y.objs o = some h → Den y.m h F) := by
  obtain ⟨own, i⟩ := r.inv S
  obtain ⟨y', own', e', -, k⟩ := step_ok S i l
  rw [e] at e'; cases e'
  obtain ⟨lk, R⟩ := i.reach
  obtain ⟨F, hF⟩ := (R.inv S).den (i.live S g hn)
  exact ⟨F, hF, fun g' => k o h g g' F hF⟩

/-- C55: moving from an object leaves it null, also when an object is moved to itself. -/
theorem C55_moved {x y : X} {o src : Nat} (e : step E x (.moveAssign o src) = some y) :
    get y.objs src = some Handle.null := by
  simp only [step, Option.bind_eq_bind, Option.bind_eq_some_iff] at e
  obtain ⟨_, _, _, _, _, _, h⟩ := e
  cases h
  rw [get_put, if_pos rfl]

/-! A concrete program, step by step legal. -/

/-- `Legal`, decided, for the operations of the example. -/
def legalB (x : X) : Op → Bool
  | .null o => (get x.objs o).isNone
  | .api o .newVarLast => (get x.objs o).isNone && decide (x.m.numVars < 65534)
  | .api o (.and f g) => (get x.objs o).isNone && decide (0 < holders x.objs f.addr) &&
      decide (0 < holders x.objs g.addr)
  | .api _ _ => false
  | .regular o src => (get x.objs o).isNone && (get x.objs src).any fun h => h != Handle.null
  | .copy o src | .move o src => (get x.objs o).isNone && (get x.objs src).isSome
  | .assign o src | .moveAssign o src => (get x.objs o).isSome && (get x.objs src).isSome
  | .destroy o => (get x.objs o).isSome

theorem legalB_ok {x : X} {op : Op} (h : legalB x op = true) : Legal x op := by
  cases op with
  | api o c =>
    cases c with
    | newVarLast =>
      simp only [legalB, Bool.and_eq_true, Option.isNone_iff_eq_none, decide_eq_true_eq] at h
      exact ⟨h.1, h.2, rfl⟩
    | and f g =>
      simp only [legalB, Bool.and_eq_true, Option.isNone_iff_eq_none, decide_eq_true_eq] at h
      exact ⟨h.1.1, ⟨Or.inr (Or.inr h.1.2), Or.inr (Or.inr h.2)⟩, rfl⟩
    | _ => cases h
  | regular o src =>
    simp only [legalB, Bool.and_eq_true, Option.isNone_iff_eq_none, Option.any_eq_true, bne_iff_ne] at h
    exact h
  | _ =>
    simp only [legalB, Bool.and_eq_true, Option.isNone_iff_eq_none, Option.isSome_iff_ne_none] at h
    exact h

/-- Run a program, checking that each step is legal. -/
def steps (E : Env) : X → List Op → Option X
  | x, [] => some x
  | x, op :: ops => if legalB x op then (step E x op).bind fun y => steps E y ops else none

theorem steps_reach {x y : X} {ops : List Op} (r : Reach E x) (h : steps E x ops = some y) :
    Reach E y := by
  induction ops generalizing x with
  | nil => cases h; exact r
  | cons op ops ih =>
    unfold steps at h
    split at h
    · rename_i hl
      simp only [Option.bind_eq_some_iff] at h
      obtain ⟨z, hz, h⟩ := h
      exact ih (r.step op (legalB_ok hl) hz) h
    · cases h

/-- `BDD a = cal.NewVar(); BDD b = cal.NewVar(); BDD c = a & b; c = c; BDD d(c); BDD e = c.Regular();
BDD n; n = d; c = std::move(d); e = std::move(e); a.~BDD();` -/
def demo : List Op :=
  [.api 0 .newVarLast, .api 1 .newVarLast, .api 2 (.and ⟨2, false⟩ ⟨3, false⟩),
    .assign 2 2, .copy 3 2, .regular 4 2, .null 5, .assign 5 3, .moveAssign 2 3, .moveAssign 4 4, .destroy 0]

theorem demo_run : ((steps Env.plain ⟨Mgr.init fun _ _ _ => 0, []⟩ demo).map fun x =>
      (x.objs.map fun p => (p.1, p.2.addr), x.m.ut.ref 4, x.m.ut.ref 3, x.m.ut.ref 2)) =
    some ([(4, 0), (3, 0), (2, 4), (5, 4), (1, 3)], 2, 1, 0) := by decide +kernel

/-- The hypotheses of the theorems above are met by this program: in the end two objects hold the
conjunction, one the second variable, and two are null. -/
example : ∃ x, Reach Env.plain x ∧ x.objs.map (fun p => (p.1, p.2.addr)) =
    [(4, 0), (3, 0), (2, 4), (5, 4), (1, 3)] ∧ x.m.ut.ref 4 = 2 ∧ Legal x (.destroy 5) := by
  have h := demo_run
  simp only [Option.map_eq_some_iff, Prod.mk.injEq] at h
  obtain ⟨x, hx, h1, h2, -⟩ := h
  refine ⟨x, steps_reach (.init _) hx, h1, h2, ?_⟩
  intro hn
  have : (5, 4) ∈ x.objs.map fun p => (p.1, p.2.addr) := by rw [h1]; decide
  obtain ⟨q, hq, he⟩ := List.mem_map.mp this
  unfold get at hn
  simp only [Option.map_eq_none_iff, List.find?_eq_none, beq_iff_eq] at hn
  exact hn q hq (Prod.mk.inj he).1

end Cal.Cpp
