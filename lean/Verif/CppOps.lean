import Verif.Cpp
import Verif.Props1
import Verif.Props2
import Verif.Props6
import Verif.Props8
import Verif.Props22
/-!
# The operators and container functions of the C++ interface

Model of the functions of `/repo/src/calObj.hh` that do more than one thing: the operators `&=`, `|=`,
`^=`, `-`, `-=`, which make and drop temporary objects, the functions on ranges, which make an array
of handles for the C API, and the constructor of a manager with variables.
-/

namespace Cal.Cpp

variable {E : Env}

/-! ## Model -/

/-- `BDD r = o.And(p)` and its like (calObj.hh:415-416, 433-440, 457-464, 481-482),
also as `o & p`, `o | p`, `o ^ p` (calObj.hh:421-422, 445-446, 469-470): `c` is the function of the
C API. -/
def binary (E : Env) (x : X) (c : Handle → Handle → Call) (r o p : Nat) : Option X := do
  let f ← get x.objs o
  let g ← get x.objs p
  step E x (.api r (c f g))

/-- `o = t` for a temporary `t` that goes away at the end of the statement -/
def assignTemp (E : Env) (x : X) (o t : Nat) : Option X := do
  let y ← step E x (.moveAssign o t)
  step E y (.destroy t)

/-- `o &= p`, `o |= p`, `o ^= p` (calObj.hh:427-428, 451-452, 475-476): `*this = (*this) & other`.
The temporary is called `t`. -/
def compound (E : Env) (x : X) (c : Handle → Handle → Call) (o p t : Nat) : Option X := do
  let y ← binary E x c t o p
  assignTemp E y o t

/-- `BDD r = o.Diff(p)`, `o - p` (calObj.hh:487-494): `*this & ~g`, where `~g` is the temporary `t`. -/
def diff (E : Env) (x : X) (r o p t : Nat) : Option X := do
  let g ← get x.objs p
  let y ← step E x (.api t (.not g))
  let z ← binary E y .and r o t
  step E z (.destroy t)

/-- `o -= p` (calObj.hh:499-500) -/
def diffAssign (E : Env) (x : X) (o p t u : Nat) : Option X := do
  let y ← diff E x t o p u
  assignTemp E y o t

/-- `C_Bdd_vector` (calObj.hh:708-733) on a range of objects: a reference is taken for each, but null is
just copied. The terminating null is left out. -/
def cVector (m : Mgr) (objs : List (Nat × Handle)) : List Nat → Option (Mgr × List Handle)
  | [] => some (m, [])
  | o :: os => do
    let h ← get objs o
    let m1 ← unFreeH m h
    let r ← cVector m1 objs os
    return (r.1, h :: r.2)

/-- `C_Bdd_vector` (calObj.hh:708-733) on a range of integers: each is cut down to an `unsigned short`
and taken for the id of a variable. -/
def idVector (m : Mgr) : List Int → Option (Mgr × List Handle)
  | [] => some (m, [])
  | i :: is => do
    let r ← m.varWithId (i % 65536).toNat
    let r' ← idVector r.1 is
    return (r'.1, r.2 :: r'.2)

/-- How the C API sees an array: up to the first null. -/
def upToNull (hs : List Handle) : List Handle := hs.takeWhile fun h => h != Handle.null

/-- `BDD::Free(bddManager, begin, end)` (calObj.hh:791-799) -/
def freeVector (m : Mgr) : List Handle → Option Mgr
  | [] => some m
  | h :: hs => do
    let m1 ← freeH m h
    freeVector m1 hs

/-- The functions on ranges: `And`, `Or`, `Xor` (calObj.hh:1458-1469, 1513-1524, 1568-1579), `Size`
(calObj.hh:1347-1361), `AssociationInit`, `TempAssociationInit`, `TempAssociationAugment`
(calObj.hh:1093-1104, 1142-1151, 1164-1173): make the array, call the C API, free the entries of the
array. `res` is returned, or becomes the object `t`. -/
def range (E : Env) (x : X) (v : Option (Mgr × List Handle)) (c : List Handle → Call) (t : Nat) :
    Option (X × Ret) := do
  let (m1, hs) ← v
  let (m2, ret) ← (c (upToNull hs)).run E m1
  let m3 ← freeVector m2 (hs ++ [Handle.null])
  return (made m3 x.objs t ret, ret)

/-- The constructor `Cal(numVars)` (calObj.hh:878-885): the loop. Each new variable is a temporary object
(called 0 here). -/
def newVars (E : Env) (x : X) : Nat → Option X
  | 0 => some x
  | n+1 => do
    let y ← step E x (.api 0 .newVarLast)
    let z ← step E y (.destroy 0)
    newVars E z n

/-- A `std::vector<long>`: the number of its elements, the room reserved, and what was written there. -/
structure LongVec where
  size : Nat
  room : Nat
  mem : List Int

/-- the elements -/
def LongVec.elems (v : LongVec) : List Int := v.mem.take v.size

/-- `reserve` on an empty vector: there are still no elements. -/
def LongVec.reserve (n : Nat) : LongVec := ⟨0, n, []⟩

/-- A C function writes numbers through `data()`: `none` if there is no room for them. The size is not
changed. -/
def LongVec.write (v : LongVec) (l : List Int) : Option LongVec :=
  if l.length ≤ v.room then some { v with mem := l } else none

/-- `BDD::Profile` (calObj.hh:598-604): what the C function wrote and the vector returned. -/
def profileVec (E : Env) (m : Mgr) (f : Handle) (negout : Bool) : Option (Mgr × LongVec) := do
  let v := LongVec.reserve (m.numVars + 1)
  let (m', l) ← m.profile E f negout
  let v' ← v.write ((l.getD []).map fun (n : Nat) => (n : Int))
  return (m', v')

/-- `BDD::FunctionProfile` (calObj.hh:630-636) -/
def functionProfileVec (E : Env) (m : Mgr) (f : Handle) : Option (Mgr × LongVec) := do
  let v := LongVec.reserve (m.numVars + 1)
  let (m', l) ← m.functionProfile E f
  let v' ← v.write (l.getD [])
  return (m', v')

/-- `From_C_Array` (calObj.hh:739-753) on an array with the given entries: `none` is a read behind its
end. -/
def fromCArray (E : Env) (m : Mgr) : List Handle → Option (Mgr × List Handle)
  | [] => none
  | h :: hs =>
    if h = Handle.null then some (m, [])
    else
      match m.preProc E [h] with
      | none => none
      | some (m', false) => some (m', [])
      | some (m', true) => (fromCArray E m' hs).map fun r => (r.1, h :: r.2)

/-- `PairwiseAnd`, `PairwiseOr`, `PairwiseXor` (calObj.hh:1615-1628, 1659-1672, 1696-1709) up to the array of results:
the C function may return a null pointer, which is then read from. -/
def pairwise (E : Env) (v : Option (Mgr × List Handle)) (op : Edge → Edge → Option Edge) (post : Bool) :
    Option (Mgr × List Handle) := do
  let (m1, hs) ← v
  let (m2, rs) ← m1.pairwise E op post (upToNull hs)
  match rs with
  | none => none
  | some rs => fromCArray E m2 rs

/-! ## Specification -/

/-- The living object `o` is not null and denotes `F`. -/
def Holds (x : X) (o : Nat) (F : BFn) : Prop :=
  ∃ h, get x.objs o = some h ∧ h ≠ Handle.null ∧ Den x.m h F

/-- Object `o` denotes `F` afterwards, or there is a node limit, the operation overflowed and the object
is null. -/
def Gets (x y : X) (o : Nat) (F : BFn) : Prop :=
  Holds y o F ∨ (get y.objs o = some Handle.null ∧ x.m.nodeLimit ≠ 0 ∧ y.m.overflow = true)

/-- No other object is created, changed or destroyed, and all keep what they denote. -/
def Only (x y : X) (o : Nat) : Prop :=
  ∀ p, p ≠ o → get y.objs p = get x.objs p ∧ ∀ G, Holds x p G → Holds y p G

/-! ## Steps -/

theorem Holds.get_ne {x : X} {o F} (h : Holds x o F) : get x.objs o ≠ none := by
  obtain ⟨h, g, -⟩ := h; rw [g]; simp

/-- a step that leaves an object alone leaves its meaning alone -/
theorem step_holds (S : E.Sound) {x y : X} (r : Reach E x) {op : Op} (l : Legal x op)
    (e : step E x op = some y) {p G} (g : get y.objs p = get x.objs p) (h : Holds x p G) : Holds y p G := by
  obtain ⟨own, i⟩ := r.inv S
  obtain ⟨y', own', e', -, k⟩ := step_ok S i l
  rw [e] at e'; cases e'
  obtain ⟨h, hg, hn, d⟩ := h
  exact ⟨h, g.trans hg, hn, k p h hg (g.trans hg) G d⟩

theorem freeH_flags {m m' : Mgr} {h : Handle} (e : freeH m h = some m') :
    m'.overflow = m.overflow ∧ m'.nodeLimit = m.nodeLimit ∧ m'.numVars = m.numVars := by
  unfold freeH at e
  split at e
  · cases e; exact ⟨rfl, rfl, rfl⟩
  · unfold Mgr.free at e
    cases hh : m.ut.heap h.addr with
    | none => rw [hh] at e; cases e
    | some v => rw [hh] at e; cases e; exact ⟨rfl, rfl, rfl⟩

theorem unFreeH_flags {m m' : Mgr} {h : Handle} (e : unFreeH m h = some m') :
    m'.assocs = m.assocs ∧ m'.nodeLimit = m.nodeLimit ∧ m'.numVars = m.numVars := by
  unfold unFreeH at e
  split at e
  · cases e; exact ⟨rfl, rfl, rfl⟩
  · unfold Mgr.unFree at e
    cases hh : m.ut.heap h.addr with
    | none => rw [hh] at e; cases e
    | some v => rw [hh] at e; cases e; exact ⟨rfl, rfl, rfl⟩

theorem freeH_ut {m m' : Mgr} {h : Handle} (e : freeH m h = some m') : m' = { m with ut := m'.ut } := by
  unfold freeH at e
  split at e
  · cases e; rfl
  · unfold Mgr.free at e
    cases hh : m.ut.heap h.addr with
    | none => rw [hh] at e; cases e
    | some v => rw [hh] at e; cases e; rfl

/-- `o = t` for a temporary `t` -/
theorem assignTemp_ok (S : E.Sound) {x : X} (r : Reach E x) {o t : Nat} {k : Handle} (hne : t ≠ o)
    (ho : get x.objs o ≠ none) (ht : get x.objs t = some k) :
    ∃ y, assignTemp E x o t = some y ∧ Reach E y ∧ get y.objs o = some k ∧ get y.objs t = none ∧
      (∀ p, p ≠ o → p ≠ t → get y.objs p = get x.objs p) ∧ y.m.overflow = x.m.overflow ∧
      (∀ h F, Den x.m h F → Den y.m h F) := by
  have l1 : Legal x (.moveAssign o t) := ⟨ho, by rw [ht]; simp⟩
  obtain ⟨y, e1⟩ := C55_total S r l1
  have r1 := r.step _ l1 e1
  have e1' := e1
  simp only [step, ht, Option.bind_eq_bind, Option.bind_eq_some_iff, Option.bind_some] at e1'
  obtain ⟨h0, g0, m1, f1, hy⟩ := e1'
  cases hy
  have gt : get (put (put x.objs o k) t Handle.null) t = some Handle.null := by rw [get_put, if_pos rfl]
  have l2 : Legal ⟨m1, put (put x.objs o k) t Handle.null⟩ (.destroy t) := by
    show get (put (put x.objs o k) t Handle.null) t ≠ none
    rw [gt]; simp
  obtain ⟨z, e2⟩ := C55_total S r1 l2
  have r2 := r1.step _ l2 e2
  have e2' := e2
  simp only [step, gt, Option.bind_eq_bind, Option.bind_some, Option.bind_eq_some_iff] at e2'
  obtain ⟨m2, f2, hz⟩ := e2'
  cases hz
  refine ⟨⟨m2, del (put (put x.objs o k) t Handle.null) t⟩, ?_, r2, ?_, ?_, ?_, ?_, ?_⟩
  · simp only [assignTemp, e1, Option.bind_eq_bind, Option.bind_some]; exact e2
  · show get (del (put (put x.objs o k) t Handle.null) t) o = some k
    rw [get_del, if_neg (Ne.symm hne), get_put, if_neg (Ne.symm hne), get_put, if_pos rfl]
  · show get (del _ t) t = none
    rw [get_del, if_pos rfl]
  · intro p hp hpt
    show get (del _ t) p = _
    rw [get_del, if_neg hpt, get_put, if_neg hpt, get_put, if_neg hp]
  · exact (freeH_flags f2).1.trans (freeH_flags f1).1
  · intro h F d; exact freeH_den f2 (freeH_den f1 d)

/-- A call that gives a handle makes a new object. -/
theorem api_new (S : E.Sound) {x : X} (r : Reach E x) {t : Nat} {c : Call} {m' h}
    (l : Legal x (.api t c)) (hr : c.run E x.m = some (m', .handle h)) :
    ∃ y, step E x (.api t c) = some y ∧ Reach E y ∧ y.m = m' ∧ get y.objs t = some h ∧
      (∀ p, p ≠ t → get y.objs p = get x.objs p ∧ ∀ G, Holds x p G → Holds y p G) := by
  have e : step E x (.api t c) = some ⟨m', put x.objs t h⟩ := by
    simp only [step, hr, Option.map_some]; rfl
  refine ⟨_, e, r.step _ l e, rfl, by rw [get_put, if_pos rfl], fun p hp => ?_⟩
  have g : get (put x.objs t h) p = get x.objs p := by rw [get_put, if_neg hp]
  exact ⟨g, fun G hG => step_holds S r l e g hG⟩

/-- The two-argument functions, given what the C function does. -/
theorem binary_ok (S : E.Sound) {x : X} (r : Reach E x) {c : Handle → Handle → Call}
    {f : Handle → Handle → Option (Mgr × Handle)} {fn : BFn → BFn → BFn}
    (hrun : ∀ a b, (c a b).run E x.m = retH (f a b))
    (hleg : ∀ own a b, OArg own a → OArg own b → (c a b).Legal own x.m) (hcpp : ∀ a b, inCpp (c a b) = true)
    (hok : ∀ own lk, Reachable E own lk x.m → ∀ a b A B, UTab.Live own a → UTab.Live own b → Den x.m a A →
      Den x.m b B → YieldsOrOverflows own x.m (f a b) (fn A B))
    {t o p F G} (ht : get x.objs t = none) (ho : Holds x o F) (hp : Holds x p G) :
    ∃ y, binary E x c t o p = some y ∧ Reach E y ∧ Gets x y t (fn F G) ∧ Only x y t := by
  obtain ⟨a, ga, na, da⟩ := ho
  obtain ⟨b, gb, nb, db⟩ := hp
  obtain ⟨own, i⟩ := r.inv S
  obtain ⟨lk, R⟩ := i.reach
  obtain ⟨m', k, hr, hk, -⟩ := hok own lk R a b F G (i.live S ga na) (i.live S gb nb) da db
  have l : Legal x (.api t (c a b)) := ⟨ht, hleg _ _ _ (Or.inr ((i.live_iff S a).1 (i.live S ga na)))
    (Or.inr ((i.live_iff S b).1 (i.live S gb nb))), hcpp a b⟩
  obtain ⟨y, e, ry, hm, gy, hoth⟩ := api_new S r l (h := k) (m' := m') (by rw [hrun, hr]; rfl)
  subst hm
  refine ⟨y, by simp only [binary, ga, gb, Option.bind_eq_bind, Option.bind_some]; exact e, ry, ?_, hoth⟩
  rcases hk with ⟨hn, d⟩ | ⟨rfl, hn, ov⟩
  · exact Or.inl ⟨k, gy, hn, d⟩
  · exact Or.inr ⟨gy, hn, ov⟩

/-- an operation into a temporary, then assigned -/
theorem assign_after (S : E.Sound) {x y : X} (r : Reach E y) {o t : Nat} {F : BFn} (hne : t ≠ o)
    (ho : get x.objs o ≠ none) (ht : get x.objs t = none) (hg : Gets x y t F) (hon : Only x y t) :
    ∃ z, assignTemp E y o t = some z ∧ Reach E z ∧ Gets x z o F ∧ Only x z o := by
  have ho' : get y.objs o ≠ none := by rw [(hon o (Ne.symm hne)).1]; exact ho
  have ⟨k, gk⟩ : ∃ k, get y.objs t = some k := by
    rcases hg with ⟨k, g, -⟩ | ⟨g, -⟩ <;> exact ⟨_, g⟩
  obtain ⟨z, e, rz, gz, gt, hoth, hov, hd⟩ := assignTemp_ok S r hne ho' gk
  refine ⟨z, e, rz, ?_, fun p hp => ?_⟩
  · rcases hg with ⟨k', g, hn, d⟩ | ⟨g, hn, ov⟩
    · rw [gk] at g; cases g
      exact Or.inl ⟨k, gz, hn, hd _ _ d⟩
    · rw [gk] at g; cases g
      exact Or.inr ⟨gz, hn, by rw [hov]; exact ov⟩
  · by_cases hpt : p = t
    · subst hpt
      refine ⟨by rw [gt, ht], fun G hG => absurd ht hG.get_ne⟩
    · have h1 := hoth p hp hpt
      have h2 := hon p hpt
      refine ⟨h1.trans h2.1, fun G hG => ?_⟩
      obtain ⟨h, g, hn, d⟩ := h2.2 G hG
      exact ⟨h, h1.trans g, hn, hd _ _ d⟩

theorem compound_ok (S : E.Sound) {x : X} (r : Reach E x) {c : Handle → Handle → Call}
    {f : Handle → Handle → Option (Mgr × Handle)} {fn : BFn → BFn → BFn}
    (hrun : ∀ a b, (c a b).run E x.m = retH (f a b))
    (hleg : ∀ own a b, OArg own a → OArg own b → (c a b).Legal own x.m) (hcpp : ∀ a b, inCpp (c a b) = true)
    (hok : ∀ own lk, Reachable E own lk x.m → ∀ a b A B, UTab.Live own a → UTab.Live own b → Den x.m a A →
      Den x.m b B → YieldsOrOverflows own x.m (f a b) (fn A B))
    {t o p F G} (ht : get x.objs t = none) (ho : Holds x o F) (hp : Holds x p G) :
    ∃ y, compound E x c o p t = some y ∧ Reach E y ∧ Gets x y o (fn F G) ∧ Only x y o := by
  obtain ⟨y, e, ry, hg, hon⟩ := binary_ok S r hrun hleg hcpp hok ht ho hp
  have hne : t ≠ o := by rintro rfl; exact ho.get_ne ht
  obtain ⟨z, e2, h⟩ := assign_after S ry hne ho.get_ne ht hg hon
  exact ⟨z, by simp only [compound, e, Option.bind_eq_bind, Option.bind_some]; exact e2, h⟩

/-- destroying a temporary -/
theorem destroy_ok (S : E.Sound) {x : X} (r : Reach E x) {t : Nat} (ht : get x.objs t ≠ none) :
    ∃ y, step E x (.destroy t) = some y ∧ Reach E y ∧ get y.objs t = none ∧
      (∀ p, p ≠ t → get y.objs p = get x.objs p) ∧ y.m.overflow = x.m.overflow ∧ y.m.nodeLimit = x.m.nodeLimit ∧
      y.m.numVars = x.m.numVars ∧ y.objs = del x.objs t ∧
      (∀ h F, Den x.m h F → Den y.m h F) := by
  have l : Legal x (.destroy t) := ht
  obtain ⟨y, e⟩ := C55_total S r l
  have e' := e
  simp only [step, Option.bind_eq_bind, Option.bind_eq_some_iff] at e'
  obtain ⟨h, g, m1, f1, hy⟩ := e'
  cases hy
  refine ⟨_, e, r.step _ l e, ?_, ?_, (freeH_flags f1).1, (freeH_flags f1).2.1, (freeH_flags f1).2.2, rfl, fun h F d => freeH_den f1 d⟩
  · show get (del x.objs t) t = none
    rw [get_del, if_pos rfl]
  · intro p hp
    show get (del x.objs t) p = _
    rw [get_del, if_neg hp]

theorem diff_ok (S : E.Sound) {x : X} (r : Reach E x) {q t o p F G} (hq : get x.objs q = none)
    (ht : get x.objs t = none) (hqt : q ≠ t) (ho : Holds x o F) (hp : Holds x p G) :
    ∃ y, diff E x q o p t = some y ∧ Reach E y ∧ Gets x y q (fun ρ => F ρ && !G ρ) ∧ Only x y q := by
  obtain ⟨b, gb, nb, db⟩ := hp
  obtain ⟨own, i⟩ := r.inv S
  obtain ⟨lk, R⟩ := i.reach
  have lb := i.live S gb nb
  have l1 : Legal x (.api t (.not b)) := ⟨ht, (i.live_iff S b).1 lb, rfl⟩
  obtain ⟨⟨m1, k, hr, hn, d, -⟩, -⟩ := C06_not S R lb db
  obtain ⟨y, e1, r1, hm, gt, hoth⟩ := api_new S r l1 (h := k) (m' := m1) (by simp only [Call.run, hr]; rfl)
  have hlim : y.m.nodeLimit = x.m.nodeLimit := by
    rw [hm]
    simp only [Mgr.not, Mgr.unFree, Option.map_eq_some_iff] at hr
    obtain ⟨m', hm', he⟩ := hr
    cases hh : x.m.ut.heap b.addr with
    | none => rw [hh] at hm'; cases hm'
    | some v => rw [hh] at hm'; cases hm'; cases he; rfl
  have hot : o ≠ t := by rintro rfl; exact ho.get_ne ht
  have ho1 : Holds y o F := (hoth o hot).2 F ho
  have ht1 : Holds y t (fun ρ => !G ρ) := ⟨k, gt, hn, by rw [hm]; exact d⟩
  have hq1 : get y.objs q = none := by rw [(hoth q hqt).1]; exact hq
  obtain ⟨z, e2, r2, hg, hon⟩ := binary_ok S r1 (c := .and) (f := y.m.and E) (fn := fun A B ρ => A ρ && B ρ)
    (fun _ _ => rfl) (fun _ _ _ ha hb => ⟨ha, hb⟩) (fun _ _ => rfl)
    (fun own lk R a b A B la lb da db => C02_and S R la lb da db) hq1 ho1 ht1
  have gz : get z.objs t = some k := by rw [(hon t (Ne.symm hqt)).1]; exact gt
  obtain ⟨w, e3, r3, g3, hoth3, ov3, -, -, -, d3⟩ := destroy_ok S r2 (t := t) (by rw [gz]; simp)
  refine ⟨w, ?_, r3, ?_, fun s hs => ?_⟩
  · simp only [diff, gb, Option.bind_eq_bind, Option.bind_some, e1, e2]; exact e3
  · rcases hg with ⟨h, g, hn, dd⟩ | ⟨g, hn, ov⟩
    · exact Or.inl ⟨h, by rw [hoth3 q hqt]; exact g, hn, d3 _ _ dd⟩
    · exact Or.inr ⟨by rw [hoth3 q hqt]; exact g, by rw [← hlim]; exact hn, by rw [ov3]; exact ov⟩
  · by_cases hst : s = t
    · subst hst
      exact ⟨by rw [g3, ht], fun G hG => absurd ht hG.get_ne⟩
    · refine ⟨by rw [hoth3 s hst, (hon s hs).1, (hoth s hst).1], fun G hG => ?_⟩
      obtain ⟨h, g, hn, dd⟩ := (hon s hs).2 G ((hoth s hst).2 G hG)
      exact ⟨h, by rw [hoth3 s hst]; exact g, hn, d3 _ _ dd⟩

/-! ## Ranges -/

theorem get_append (A B : List (Nat × Handle)) (o : Nat) :
    get (A ++ B) o = (get A o).or (get B o) := by
  unfold get
  rw [List.find?_append]
  cases A.find? fun p => p.1 == o <;> simp

theorem get_none_of {A : List (Nat × Handle)} {o : Nat} (h : o ∉ A.map (·.1)) : get A o = none := by
  unfold get
  rw [Option.map_eq_none_iff, List.find?_eq_none]
  intro q hq
  simp only [beq_iff_eq]
  rintro rfl
  exact h (List.mem_map_of_mem hq)

theorem get_mid {A B : List (Nat × Handle)} {n : Nat} {h : Handle} (ha : n ∉ A.map (·.1)) :
    get (A ++ (n, h) :: B) n = some h := by
  rw [get_append, get_none_of ha]
  simp [get]

theorem del_mid {A B : List (Nat × Handle)} {n : Nat} {h : Handle} (ha : n ∉ A.map (·.1))
    (hb : n ∉ B.map (·.1)) : del (A ++ (n, h) :: B) n = A ++ B := by
  unfold del
  rw [List.filter_append, List.filter_cons]
  simp only [bne_self_eq_false, Bool.false_eq_true, if_false]
  congr 1
  · rw [List.filter_eq_self]
    intro q hq
    simp only [bne_iff_ne, ne_eq]
    rintro rfl
    exact ha (List.mem_map_of_mem hq)
  · rw [List.filter_eq_self]
    intro q hq
    simp only [bne_iff_ne, ne_eq]
    rintro rfl
    exact hb (List.mem_map_of_mem hq)

/-- The temporary entries `tmp` stand for the entries of the array: their names are `N`, `N + 1`, ... -/
def Temps (N : Nat) (tmp : List (Nat × Handle)) : Prop := tmp.map (·.1) = List.range' N tmp.length

theorem Temps.snoc {N : Nat} {tmp : List (Nat × Handle)} (h : Temps N tmp) (k : Handle) :
    Temps N (tmp ++ [(N + tmp.length, k)]) := by
  unfold Temps at *
  rw [List.map_append, h, List.length_append, List.length_singleton, List.range'_concat]
  simp

theorem Temps.fresh {N : Nat} {tmp : List (Nat × Handle)} (h : Temps N tmp) {n : Nat} (hn : N + tmp.length ≤ n) :
    n ∉ (tmp.reverse).map (·.1) := by
  rw [List.map_reverse, List.mem_reverse, h, List.mem_range'_1]
  omega

theorem Temps.below {N : Nat} {tmp : List (Nat × Handle)} (h : Temps N tmp) {n : Nat} (hn : n < N) :
    n ∉ (tmp.reverse).map (·.1) := by
  rw [List.map_reverse, List.mem_reverse, h, List.mem_range'_1]
  omega

/-- the names of the objects are below `N` -/
def Below (objs : List (Nat × Handle)) (N : Nat) : Prop := ∀ p ∈ objs, p.1 < N

theorem Below.get {objs : List (Nat × Handle)} {N} (b : Below objs N) {n : Nat} (hn : N ≤ n) :
    n ∉ objs.map (·.1) := by
  rw [List.mem_map]
  rintro ⟨q, hq, rfl⟩
  have := b q hq
  omega

theorem exists_below (objs : List (Nat × Handle)) (t : Nat) : ∃ N, t < N ∧ Below objs N := by
  induction objs with
  | nil => exact ⟨t + 1, by omega, fun _ h => by cases h⟩
  | cons q objs ih =>
    obtain ⟨N, h1, h2⟩ := ih
    refine ⟨max N (q.1 + 1), by omega, fun p hp => ?_⟩
    rcases List.mem_cons.1 hp with rfl | hp
    · omega
    · have := h2 p hp; omega

theorem get_lt {objs : List (Nat × Handle)} {N : Nat} (b : Below objs N) {o : Nat}
    (h : Cal.Cpp.get objs o ≠ none) : o < N := by
  obtain ⟨k, g⟩ := Option.ne_none_iff_exists'.mp h
  exact b _ (mem_of_get g)

/-- Making the array of a range of objects is like making copies of the objects. -/
theorem cVector_ok (S : E.Sound) {objs : List (Nat × Handle)} {N : Nat} (b : Below objs N) :
    ∀ (os : List Nat) (m : Mgr) (tmp : List (Nat × Handle)), Temps N tmp → Reach E ⟨m, tmp.reverse ++ objs⟩ →
      (∀ o ∈ os, get objs o ≠ none) →
      ∃ m' hs tmp', cVector m objs os = some (m', hs) ∧ Temps N (tmp ++ tmp') ∧ tmp'.map (·.2) = hs ∧
        Reach E ⟨m', (tmp ++ tmp').reverse ++ objs⟩ ∧ F2 (fun o h => get objs o = some h) os hs ∧
        m'.assocs = m.assocs ∧ m'.nodeLimit = m.nodeLimit ∧ (∀ h F, Den m h F → Den m' h F)
  | [], m, tmp, ht, r, _ => ⟨m, [], [], rfl, by simpa using ht, rfl, by simpa using r, .nil, rfl, rfl, fun _ _ d => d⟩
  | o :: os, m, tmp, ht, r, hos => by
    have ho := hos o (by simp)
    obtain ⟨h, g⟩ := Option.ne_none_iff_exists'.mp ho
    have hlt := get_lt b ho
    have g1 : get (tmp.reverse ++ objs) o = some h := by
      rw [get_append, get_none_of (ht.below hlt)]; simpa using g
    have hf : get (tmp.reverse ++ objs) (N + tmp.length) = none := by
      rw [get_append, get_none_of (ht.fresh (Nat.le_refl _)), get_none_of (b.get (by omega))]; rfl
    have l : Legal ⟨m, tmp.reverse ++ objs⟩ (.copy (N + tmp.length) o) := ⟨hf, by
      show get (tmp.reverse ++ objs) o ≠ none
      rw [g1]; simp⟩
    obtain ⟨y, e⟩ := C55_total S r l
    have r1 := r.step _ l e
    have e' := e
    simp only [step, g1, Option.bind_eq_bind, Option.bind_some, Option.bind_eq_some_iff] at e'
    obtain ⟨m1, f1, hy⟩ := e'
    cases hy
    have hobj : put (tmp.reverse ++ objs) (N + tmp.length) h =
        (tmp ++ [(N + tmp.length, h)]).reverse ++ objs := by
      unfold put
      rw [del_dead hf, List.reverse_append]; rfl
    have hd1 : ∀ k F, Den m k F → Den m1 k F := by
      intro k F d
      unfold unFreeH at f1
      split at f1
      · cases f1; exact d
      · unfold Mgr.unFree at f1
        cases hh : m.ut.heap h.addr with
        | none => rw [hh] at f1; cases f1
        | some v => rw [hh] at f1; cases f1; exact d
    rw [hobj] at r1
    obtain ⟨m2, hs, tmp', h1, h2, h3, h4, h5, h6, h7, h8⟩ :=
      cVector_ok S b os m1 _ (ht.snoc h) r1 fun p hp => hos p (by simp [hp])
    refine ⟨m2, h :: hs, (N + tmp.length, h) :: tmp', ?_, ?_, ?_, ?_, .cons g h5,
      h6.trans (unFreeH_flags f1).1, h7.trans (unFreeH_flags f1).2.1, fun k F d => h8 k F (hd1 k F d)⟩
    · simp only [cVector, g, Option.bind_eq_bind, Option.bind_some, f1, h1]; rfl
    · simpa using h2
    · simp [h3]
    · simpa using h4

/-- Making the array of a range of ids is like making objects for these variables. -/
theorem idVector_ok (S : E.Sound) {objs : List (Nat × Handle)} {N : Nat} (b : Below objs N) :
    ∀ (is : List Int) (m : Mgr) (tmp : List (Nat × Handle)), Temps N tmp → Reach E ⟨m, tmp.reverse ++ objs⟩ →
      ∃ m' hs tmp', idVector m is = some (m', hs) ∧ Temps N (tmp ++ tmp') ∧ tmp'.map (·.2) = hs ∧
        Reach E ⟨m', (tmp ++ tmp').reverse ++ objs⟩ ∧ m'.numVars = m.numVars ∧ m'.nodeLimit = m.nodeLimit ∧
        m'.assocs.length = m.assocs.length ∧
        F2 (fun i h => (∃ v, 1 ≤ v ∧ v ≤ m.numVars ∧ i % 65536 = (v : Int) ∧ h ≠ Handle.null ∧ Den m' h fun ρ => ρ v) ∨
          ((i % 65536 = 0 ∨ (m.numVars : Int) < i % 65536) ∧ h = Handle.null)) is hs ∧
        (∀ o h, get (tmp.reverse ++ objs) o = some h → ∀ F, Den m h F → Den m' h F)
  | [], m, tmp, ht, r => ⟨m, [], [], rfl, by simpa using ht, rfl, by simpa using r, rfl, rfl, rfl, .nil, fun _ _ _ _ d => d⟩
  | i :: is, m, tmp, ht, r => by
    have hf : get (tmp.reverse ++ objs) (N + tmp.length) = none := by
      rw [get_append, get_none_of (ht.fresh (Nat.le_refl _)), get_none_of (b.get (by omega))]; rfl
    have l : Legal ⟨m, tmp.reverse ++ objs⟩ (.api (N + tmp.length) (.varWithId (i % 65536).toNat)) :=
      ⟨hf, trivial, rfl⟩
    obtain ⟨own, iv⟩ := r.inv S
    obtain ⟨lk, R⟩ := iv.reach
    have hcast : ((i % 65536).toNat : Int) = i % 65536 := Int.toNat_of_nonneg (Int.emod_nonneg _ (by decide))
    have key : ∃ m1 h, m.varWithId (i % 65536).toNat = some (m1, h) ∧ m1.numVars = m.numVars ∧
        m1.nodeLimit = m.nodeLimit ∧ m1.assocs.length = m.assocs.length ∧
        ((∃ v, 1 ≤ v ∧ v ≤ m.numVars ∧ i % 65536 = (v : Int) ∧ h ≠ Handle.null ∧ Den m1 h fun ρ => ρ v) ∨
          ((i % 65536 = 0 ∨ (m.numVars : Int) < i % 65536) ∧ h = Handle.null)) := by
      by_cases hv : (i % 65536).toNat = 0 ∨ m.numVars < (i % 65536).toNat
      · refine ⟨m, Handle.null, Mgr.varWithId_none hv, rfl, rfl, rfl, Or.inr ⟨?_, rfl⟩⟩
        rw [← hcast]; omega
      · obtain ⟨m1, h, h1, p, h2 | ⟨h2, -⟩⟩ := Mgr.varWithId_ok (R.inv S) (v := (i % 65536).toNat) (by omega)
          (by show _ ≤ m.numVars; omega)
        · exact ⟨m1, h, h1, p.nv, p.nodeLimit, (Dump.F2.length_eq p.assocs).symm, Or.inl ⟨_, by omega, by omega, hcast.symm, h2.1, h2.2.2⟩⟩
        · cases h2
    obtain ⟨m1, h, hr, hnv, hnl, hal, hk⟩ := key
    obtain ⟨y, e, r1, hm, gy, hoth⟩ := api_new S r l (h := h) (m' := m1)
      (by simp only [Call.run, hr]; rfl)
    have hy : y = ⟨m1, (tmp ++ [(N + tmp.length, h)]).reverse ++ objs⟩ := by
      simp only [step, Call.run, hr, retH, Option.map_some, made, Option.some.injEq] at e
      rw [← e]
      unfold put
      rw [del_dead hf, List.reverse_append]; rfl
    subst hy
    obtain ⟨m2, hs, tmp', h1, h2, h3, h4, h5, h6, ha, h7, h8⟩ := idVector_ok S b is m1 _ (ht.snoc h) r1
    refine ⟨m2, h :: hs, (N + tmp.length, h) :: tmp', ?_, ?_, ?_, ?_, h5.trans hnv, h6.trans hnl, ha.trans hal, .cons ?_ ?_, ?_⟩
    · simp only [idVector, hr, Option.bind_eq_bind, Option.bind_some, h1]; rfl
    · simpa using h2
    · simp [h3]
    · simpa using h4
    · rcases hk with ⟨v, a, b, c, d, dd⟩ | hk
      · exact Or.inl ⟨v, a, b, c, d, h8 _ _ gy _ dd⟩
      · exact Or.inr hk
    · rw [hnv] at h7; exact h7
    · intro o k g F d
      have hne : o ≠ N + tmp.length := by rintro rfl; rw [hf] at g; cases g
      have hn : k ≠ Handle.null := by rintro rfl; exact null_not_den S R d
      obtain ⟨k', g', -, d'⟩ := (hoth o hne).2 F ⟨k, g, hn, d⟩
      rw [(hoth o hne).1] at g'
      have : k = k' := by
        have := g.symm.trans g'
        exact Option.some.inj this
      subst this
      exact h8 o k ((hoth o hne).1.trans g) F d'

/-- Freeing the entries of the array is like destroying the copies. -/
theorem freeVector_ok (S : E.Sound) {pre objs : List (Nat × Handle)} {N : Nat} (b : Below objs N) (bp : Below pre N) :
    ∀ (tmp : List (Nat × Handle)) (m : Mgr) (K : Nat), N ≤ K → Temps K tmp →
      Reach E ⟨m, pre ++ (tmp.reverse ++ objs)⟩ →
      ∃ m', freeVector m (tmp.map (·.2) ++ [Handle.null]) = some m' ∧ Reach E ⟨m', pre ++ objs⟩ ∧
        m' = { m with ut := m'.ut } ∧ (∀ h F, Den m h F → Den m' h F)
  | [], m, K, _, _, r => ⟨m, rfl, by simpa using r, rfl, fun _ _ d => d⟩
  | (n, h) :: tmp, m, K, hK, ht, r => by
    have hn : n = K ∧ Temps (K + 1) tmp := by
      unfold Temps at ht
      rw [List.map_cons, List.length_cons, List.range'_succ, List.cons.injEq] at ht
      exact ht
    obtain ⟨rfl, ht'⟩ := hn
    have hA : n ∉ (pre ++ tmp.reverse).map (·.1) := by
      rw [List.map_append, List.mem_append, not_or]
      exact ⟨bp.get hK, ht'.below (by omega)⟩
    have e0 : pre ++ (((n, h) :: tmp).reverse ++ objs) = (pre ++ tmp.reverse) ++ (n, h) :: objs := by simp
    rw [e0] at r
    have g : get ((pre ++ tmp.reverse) ++ (n, h) :: objs) n = some h := get_mid hA
    have l : Legal ⟨m, (pre ++ tmp.reverse) ++ (n, h) :: objs⟩ (.destroy n) := by
      show get ((pre ++ tmp.reverse) ++ (n, h) :: objs) n ≠ none
      rw [g]; simp
    obtain ⟨y, e⟩ := C55_total S r l
    have r1 := r.step _ l e
    simp only [step, g, Option.bind_eq_bind, Option.bind_some, Option.bind_eq_some_iff] at e
    obtain ⟨m1, f1, hy⟩ := e
    cases hy
    rw [del_mid hA (b.get hK), List.append_assoc] at r1
    obtain ⟨m2, h1, h2, h3, h4⟩ := freeVector_ok S b bp tmp m1 (n + 1) (by omega) ht' r1
    refine ⟨m2, ?_, h2, by rw [h3, freeH_ut f1], fun k F d => h4 k F (freeH_den f1 d)⟩
    simp only [List.map_cons, List.cons_append, freeVector, f1, Option.bind_eq_bind, Option.bind_some]
    exact h1

/-- The objects after making the array are those before, with the same meaning. -/
structure Vec (E : Env) (x : X) (m1 : Mgr) (hs : List Handle) : Prop where
  sim : ∀ N, Below x.objs N → ∃ tmp, Temps N tmp ∧ tmp.map (·.2) = hs ∧ Reach E ⟨m1, tmp.reverse ++ x.objs⟩
  lim : m1.nodeLimit = x.m.nodeLimit
  assocs : m1.assocs.length = x.m.assocs.length
  keep : ∀ o h, get x.objs o = some h → ∀ F, Den x.m h F → Den m1 h F

theorem Temps.nil {N} : Temps N [] := rfl

theorem cVector_vec (S : E.Sound) {x : X} (r : Reach E x) {os : List Nat} (hos : ∀ o ∈ os, get x.objs o ≠ none) :
    ∃ m1 hs, cVector x.m x.objs os = some (m1, hs) ∧ Vec E x m1 hs ∧ F2 (fun o h => get x.objs o = some h) os hs := by
  obtain ⟨N, -, b⟩ := exists_below x.objs 0
  obtain ⟨m1, hs, tmp, h1, -, -, -, h5, ha, h7, h8⟩ := cVector_ok S b os x.m [] .nil r hos
  refine ⟨m1, hs, h1, ⟨fun N b => ?_, h7, by rw [ha], fun _ h _ F d => h8 h F d⟩, h5⟩
  obtain ⟨m1', hs', tmp', h1', h2', h3', h4', -⟩ := cVector_ok S b os x.m [] .nil r hos
  rw [h1] at h1'; cases h1'
  exact ⟨tmp', by simpa using h2', h3', by simpa using h4'⟩

theorem idVector_vec (S : E.Sound) {x : X} (r : Reach E x) (is : List Int) :
    ∃ m1 hs, idVector x.m is = some (m1, hs) ∧ Vec E x m1 hs ∧ m1.numVars = x.m.numVars ∧
      F2 (fun i h => (∃ v, 1 ≤ v ∧ v ≤ x.m.numVars ∧ i % 65536 = (v : Int) ∧ h ≠ Handle.null ∧ Den m1 h fun ρ => ρ v) ∨
          ((i % 65536 = 0 ∨ (x.m.numVars : Int) < i % 65536) ∧ h = Handle.null)) is hs := by
  obtain ⟨N, -, b⟩ := exists_below x.objs 0
  obtain ⟨m1, hs, tmp, h1, -, -, -, h5, h6, ha, h7, h8⟩ := idVector_ok S b is x.m [] .nil r
  refine ⟨m1, hs, h1, ⟨fun N b => ?_, h6, ha, fun o h g F d => h8 o h (by simpa using g) F d⟩, h5, h7⟩
  obtain ⟨m1', hs', tmp', h1', h2', h3', h4', -⟩ := idVector_ok S b is x.m [] .nil r
  rw [h1] at h1'; cases h1'
  exact ⟨tmp', by simpa using h2', h3', by simpa using h4'⟩

theorem upToNull_ne {hs : List Handle} {h : Handle} (hh : h ∈ upToNull hs) : h ≠ Handle.null := by
  unfold upToNull at hh
  induction hs with
  | nil => cases hh
  | cons k hs ih =>
    rw [List.takeWhile_cons] at hh
    split at hh
    · rename_i hk
      rcases List.mem_cons.1 hh with rfl | hh
      · simpa using hk
      · exact ih hh
    · cases hh

/-- The entries of the array are held. -/
theorem Vec.own (S : E.Sound) {x m1 hs} (v : Vec E x m1 hs) :
    ∃ own lk, Reachable E own lk m1 ∧ (∀ h ∈ upToNull hs, UTab.Live own h ∧ h ≠ Handle.null) ∧
      (∀ o h, get x.objs o = some h → h ≠ Handle.null → UTab.Live own h) := by
  obtain ⟨N, -, b⟩ := exists_below x.objs 0
  obtain ⟨tmp, ht, hm, r⟩ := v.sim N b
  obtain ⟨own, i⟩ := r.inv S
  obtain ⟨lk, R⟩ := i.reach
  refine ⟨own, lk, R, fun h hh => ?_, fun o h g hn => ?_⟩
  · have hn : h ≠ Handle.null := by
      exact upToNull_ne hh
    have hmem : h ∈ hs := List.takeWhile_subset _ hh
    refine ⟨?_, hn⟩
    rw [← hm, List.mem_map] at hmem
    obtain ⟨q, hq, rfl⟩ := hmem
    have hq' : q ∈ tmp.reverse ++ x.objs := by simp [hq]
    have : 0 < holders (tmp.reverse ++ x.objs) q.2.addr := by
      have h0 : q.2.addr ≠ 0 := by
        intro h0
        obtain ⟨i1, i2⟩ := List.append_of_mem (List.mem_reverse.2 hq)
        obtain ⟨i2, hsplit⟩ := i2
        have hnd := i.names
        have hg : get (tmp.reverse ++ x.objs) q.1 = some q.2 := by
          show get (tmp.reverse ++ x.objs) q.1 = some q.2
          have hnd' : ((tmp.reverse ++ x.objs).map (·.1)).Nodup := hnd
          rw [hsplit, List.append_assoc]
          refine get_mid (h := q.2) ?_
          rw [hsplit, List.append_assoc, List.map_append, List.nodup_append] at hnd'
          intro hc
          exact hnd'.2.2 _ hc q.1 (by simp) rfl
        exact hn (i.null _ _ hg h0)
      unfold holders
      rw [if_neg h0, List.countP_pos_iff]
      exact ⟨q, hq', by simp⟩
    rw [i.live_iff S]
    exact Or.inr this
  · refine i.live S (o := o) ?_ hn
    show get (tmp.reverse ++ x.objs) o = some h
    have hlt := get_lt b (o := o) (by rw [g]; simp)
    rw [get_append, get_none_of (ht.below hlt)]
    simpa using g

/-- A function on a range: the C function is called with the entries up to the first null, and then
everything is as before but for the result. -/
theorem range_ok (S : E.Sound) {x : X} {v} {m1 : Mgr} {hs : List Handle} (hv : v = some (m1, hs))
    (V : Vec E x m1 hs) {c : List Handle → Call} {t : Nat} (ht : get x.objs t = none)
    (hleg : ∀ own, (∀ h ∈ upToNull hs, UTab.Live own h) → (c (upToNull hs)).Legal own m1)
    (hcpp : inCpp (c (upToNull hs)) = true) :
    ∃ m2 ret y, (c (upToNull hs)).run E m1 = some (m2, ret) ∧ range E x v c t = some (y, ret) ∧ Reach E y ∧
      y.objs = (made y.m x.objs t ret).objs ∧ y.m = { m2 with ut := y.m.ut } ∧ (∀ h F, Den m2 h F → Den y.m h F) ∧
      (∀ o h, get x.objs o = some h → ∀ F, Den x.m h F → Den y.m h F) := by
  obtain ⟨N, htN, b⟩ := exists_below x.objs t
  obtain ⟨tmp, hT, hm, r⟩ := V.sim N b
  have hfr : get (tmp.reverse ++ x.objs) t = none := by
    rw [get_append, get_none_of (hT.below htN)]; simpa using ht
  obtain ⟨own, i⟩ := r.inv S
  obtain ⟨own1, lk1, R1, hlive, -⟩ := V.own S
  have hlv : ∀ h ∈ upToNull hs, UTab.Live (holders (tmp.reverse ++ x.objs)) h := by
    intro h hh
    have hn := (hlive h hh).2
    have hmem : h ∈ hs := List.takeWhile_subset _ hh
    rw [← hm, List.mem_map] at hmem
    obtain ⟨q, hq, rfl⟩ := hmem
    have hq' : q ∈ tmp.reverse ++ x.objs := by simp [hq]
    refine Or.inr ?_
    have h0 : q.2.addr ≠ 0 := by
      intro h0
      rcases (hlive _ hh).1 with h1 | h1
      · omega
      · rw [h0, own_zero S R1] at h1; omega
    unfold holders
    rw [if_neg h0, List.countP_pos_iff]
    exact ⟨q, hq', by simp⟩
  have l : Legal ⟨m1, tmp.reverse ++ x.objs⟩ (.api t (c (upToNull hs))) := ⟨hfr, hleg _ hlv, hcpp⟩
  obtain ⟨own', i'⟩ := r.inv S
  obtain ⟨y1, ow, e, -, k⟩ := step_ok S i l
  have r1 := r.step _ l e
  simp only [step, Option.map_eq_some_iff] at e
  obtain ⟨⟨m2, ret⟩, hrun, hy1⟩ := e
  have hy : ∃ pre, Below pre N ∧ y1 = ⟨m2, pre ++ (tmp.reverse ++ x.objs)⟩ ∧
      ∀ m3, made m3 x.objs t ret = ⟨m3, pre ++ x.objs⟩ := by
    have key : (∃ h, ret = .handle h) ∨ ∀ m objs, made m objs t ret = ⟨m, objs⟩ := by
      cases ret <;> first | exact Or.inl ⟨_, rfl⟩ | exact Or.inr fun _ _ => rfl
    rcases key with ⟨h, rfl⟩ | key
    · refine ⟨[(t, h)], fun p hp => by simp at hp; subst hp; exact htN, ?_, fun m3 => ?_⟩
      · rw [← hy1]; simp only [made, put, del_dead hfr]; rfl
      · simp only [made, put, del_dead ht]; rfl
    · refine ⟨[], fun p hp => ?_, ?_, fun m3 => key m3 _⟩
      · cases hp
      · rw [← hy1, key]; rfl
  obtain ⟨pre, bp, rfl, hmade⟩ := hy
  obtain ⟨m3, h1, h2, h3, h4⟩ := freeVector_ok S b bp tmp m2 N (Nat.le_refl _) hT r1
  rw [hm] at h1
  refine ⟨m2, ret, ⟨m3, pre ++ x.objs⟩, hrun, ?_, h2, ?_, h3, h4, fun o h g F d => ?_⟩
  · simp only [range, hv, Option.bind_eq_bind, Option.bind_some, hrun, h1, hmade]; rfl
  · rw [hmade]
  · have hlt := get_lt b (o := o) (by rw [g]; simp)
    have g1 : get (tmp.reverse ++ x.objs) o = some h := by
      rw [get_append, get_none_of (hT.below hlt)]; simpa using g
    have hot : o ≠ t := by rintro rfl; rw [ht] at g; cases g
    have g2 : get (pre ++ (tmp.reverse ++ x.objs)) o = some h := by
      have : get (made m2 (tmp.reverse ++ x.objs) t ret).objs o = some h := by
        cases ret <;> first
          | exact g1
          | (show get (put _ _ _) o = _; rw [get_put, if_neg hot]; exact g1)
      rw [hy1] at this
      exact this
    exact h4 h F (k o h g1 g2 F (V.keep o h g F d))

end Cal.Cpp
