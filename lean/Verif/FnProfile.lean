import Verif.DumpApi
import Verif.HashTable

/-!
# Function profiles (`Cal_BddFunctionProfile`, `Cal_BddFunctionProfileMultiple`, calBddSize.c:207-320)
-/

namespace Cal

/-! ## The code -/

/-- The table `h` of calBddSize.c:238, 290 (calHashTableOne.c): from BDDs to nodes that hold an `int`. The
nodes for the data are numbered in the order in which they are taken; none is given back before the end. -/
structure HRef where
  t : Hash.Table Edge
  data : Nat → Int
  next : Nat

namespace HRef

/-- `CalHashTableOneInit` (calHashTableOne.c:89-117) -/
def init : HRef := ⟨.init, fun _ => 0, 0⟩

/-- `CalHashTableOneLookup` (calHashTableOne.c:171-196): where the data is -/
def ptr (h : HRef) (e : Edge) : Option Nat := h.t.lookup Hash.hash1 e

/-- the data that is found -/
def get (h : HRef) (e : Edge) : Option Int := (h.ptr e).map h.data

/-- `CalHashTableOneInsert` (calHashTableOne.c:146-166) -/
def insert (h : HRef) (e : Edge) (v : Int) : HRef :=
  ⟨h.t.addDirect Hash.hash1 e h.next, upd h.data h.next v, h.next + 1⟩

/-- an assignment to `*dataPtr` -/
def set (h : HRef) (a : Nat) (v : Int) : HRef := { h with data := upd h.data a v }

end HRef

/-- What `BddHighestRefStep` does with one child `x` of a node of index `i` (calBddSize.c:451-459, 461-469);
`next` is the recursive call. -/
def refKid (next : HRef → Edge → Option HRef) (i : Nat) (h : HRef) (x : Edge) : Option HRef :=
  match h.ptr x with
  | some a => some (if (i : Int) < h.data a then h.set a i else h)
  | none => next (h.insert x i) x

/-- `BddHighestRefStep` (calBddSize.c:437-470) -/
def highestRef (s : Store) : Nat → HRef → Edge → Option HRef
  | 0, _, _ => none
  | k + 1, h, f =>
    if f.isConst then some h
    else
      match s.kids f with
      | none => none
      | some (t, u) =>
        match refKid (highestRef s k) (s.ord.lvl f.id) h t with
        | none => none
        | some h1 => refKid (highestRef s k) (s.ord.lvl f.id) h1 u

/-- `BddDominatedStep` (calBddSize.c:475-496). `C` is the array `funcCounts`, of size `numVars + 1`; writing
beyond it is `none`, as is using the null pointer that a lookup without success returns. -/
def dominated (s : Store) : Nat → HRef → (Nat → Int) → Edge → Option (HRef × (Nat → Int))
  | 0, _, _, _ => none
  | k + 1, h, C, f =>
    match h.ptr f with
    | none => none
    | some a =>
      let v := h.data a
      if (s.ord.numVars : Int) < v then none
      else
        let C := if 0 ≤ v then upd C v.toNat (C v.toNat - 2) else C
        if -2 < v then
          let h := h.set a (-2)
          if f.isConst then some (h, C)
          else
            match s.kids f with
            | none => none
            | some (t, u) =>
              match dominated s k h C t with
              | none => none
              | some (h1, C1) => dominated s k h1 C1 u
        else some (h, C)

/-- The encoding of the profile (calBddSize.c:232-239, 281-288). -/
def encode (n : Nat) (C : Nat → Nat) : Nat → Int := fun j =>
  if j < n then (if C j = 0 then 1 else 2 * (C j : Int)) else C j

/-- The loop that adds up (calBddSize.c:253-261, 301-309) for the indices `k - 1`, ..., 0. The shift of a
`long` is division by two, also of a negative one. -/
def addUp : Nat → Nat → (Nat → Int) → (Nat → Int)
  | 0, _, C => C
  | k + 1, j, C => if C k ≠ 1 then addUp k k (upd C k (C k / 2 + C j)) else addUp k j (upd C k 0)

/-- the loop at calBddSize.c:291-293 -/
def highestRefs (s : Store) : HRef → List Edge → Option HRef
  | h, [] => some h
  | h, f :: fs =>
    match highestRef s (s.ord.numVars + 1) h f with
    | none => none
    | some h1 => highestRefs s h1 fs

/-- the loop at calBddSize.c:295-297 -/
def insertRoots (h : HRef) (fs : List Edge) : HRef := fs.foldl (fun h f => h.insert f (-1)) h

/-- the loop at calBddSize.c:298-300 -/
def dominateds (s : Store) : HRef → (Nat → Int) → List Edge → Option (HRef × (Nat → Int))
  | h, C, [] => some (h, C)
  | h, C, f :: fs =>
    match dominated s (s.ord.numVars + 1) h C f with
    | none => none
    | some (h1, C1) => dominateds s h1 C1 fs

/-- `Cal_BddFunctionProfile` after the profile `C` has been computed (calBddSize.c:229-261) -/
def fnProfileOf (s : Store) (C : Nat → Nat) (f : Edge) : Option (Nat → Int) :=
  match highestRef s (s.ord.numVars + 1) (HRef.init.insert f (-1)) f with
  | none => none
  | some h =>
    match dominated s (s.ord.numVars + 1) h (encode s.ord.numVars C) f with
    | none => none
    | some (_, C1) => some (addUp s.ord.numVars s.ord.numVars C1)

/-- `Cal_BddFunctionProfileMultiple` after the profile `C` has been computed (calBddSize.c:281-309) -/
def fnProfilesOf (s : Store) (C : Nat → Nat) (fs : List Edge) : Option (Nat → Int) :=
  match highestRefs s .init fs with
  | none => none
  | some h =>
    match dominateds s (insertRoots h fs) (encode s.ord.numVars C) fs with
    | none => none
    | some (_, C1) => some (addUp s.ord.numVars s.ord.numVars C1)

/-- The loop at calBddSize.c:275-277 over an array of `i` BDDs, with at most `fuel` rounds: `j` is an `unsigned
short` (cal.h:111). The result is `j` at the end. -/
def copyLoop : Nat → Nat → Nat → Option Nat
  | 0, _, _ => none
  | fuel + 1, i, j => if j < i then copyLoop fuel i ((j + 1) % 65536) else some j

namespace Mgr

/-- `Cal_BddFunctionProfile` (calBddSize.c:207-263). For null, the array is not written: `none` inside. -/
def functionProfile (E : Env) (m : Mgr) (f : Handle) : Option (Mgr × Option (List Int)) :=
  match m.profile E f false with
  | none => none
  | some (m1, l) =>
    match m1.preProc E [f] with
    | none => none
    | some (m2, false) => some (m2, none)
    | some (m2, true) =>
      match m2.internal f, l with
      | some e, some l =>
        (fnProfileOf m2.st (fun j => l[j]?.getD 0) e).map fun C => (m2, some ((List.range (m2.st.ord.numVars + 1)).map C))
      | _, _ => none

/-- `Cal_BddFunctionProfileMultiple` (calBddSize.c:267-320), on the array up to its terminating null. The
internal BDDs are those from before the profile is computed. -/
def functionProfileMultiple (E : Env) (m : Mgr) (fs : List Handle) : Option (Mgr × List Int) :=
  match m.arrayPreProc E fs with
  | none => none
  | some (m1, _) =>
    match copyLoop (fs.length + 1) fs.length 0, m1.internals fs with
    | some _, some es =>
      match m1.profileMultiple E fs false with
      | some (m2, some l) =>
        (fnProfilesOf m2.st (fun j => l[j]?.getD 0) es).map fun C => (m2, (List.range (m2.st.ord.numVars + 1)).map C)
      | _ => none
    | _, _ => none

end Mgr

/-! ## The table -/

namespace HRef

open Hash Table

/-- The table holds the entries `l`; data is not shared. -/
structure OK (h : HRef) (l : List (Ent Edge)) : Prop where
  tab : h.t.OK hash1 l
  addrs : (l.map (·.addr)).Nodup
  fresh : ∀ e ∈ l, e.addr < h.next
  size : 8 ≤ h.t.sizeIndex

theorem OK.init : OK .init [] := ⟨init_ok _, List.nodup_nil, by simp, Nat.le_refl _⟩

theorem OK.ptr_mem {h : HRef} {l} (w : h.OK l) {x a} (e : h.ptr x = some a) : ⟨a, x⟩ ∈ l := by
  obtain ⟨y, h1, h2⟩ := Option.map_eq_some_iff.1 e
  have hk : y.key = x := by simpa using List.find?_some h1
  have hb := List.mem_of_find?_eq_some h1
  have : y ∈ l := w.tab.mem.2 (by rw [hk]; exact hb)
  rw [← h2, ← hk]; exact this

theorem OK.ptr_none {h : HRef} {l} (w : h.OK l) {x} (e : h.ptr x = none) : ∀ y ∈ l, y.key ≠ x := by
  intro y hy hk
  have h1 := Option.map_eq_none_iff.1 e
  rw [List.find?_eq_none] at h1
  have := w.tab.mem.1 hy
  rw [hk] at this
  exact h1 y this (by simpa using hk)

theorem OK.ptr_ex {h : HRef} {l} (w : h.OK l) {y} (hy : y ∈ l) : ∃ a, h.ptr y.key = some a := by
  cases e : h.ptr y.key with
  | some a => exact ⟨a, rfl⟩
  | none => exact absurd rfl (w.ptr_none e y hy)

theorem ent_inj {l : List (Ent Edge)} (n : (l.map (·.addr)).Nodup) : ∀ {x y}, x ∈ l → y ∈ l → x.addr = y.addr → x = y := by
  induction l with
  | nil => intro x y h; cases h
  | cons z l ih =>
    intro x y hx hy e
    rw [List.map_cons, List.nodup_cons] at n
    rcases List.mem_cons.1 hx with h1 | h1 <;> rcases List.mem_cons.1 hy with h2 | h2
    · rw [h1, h2]
    · exact absurd (List.mem_map.2 ⟨y, h2, by rw [← e, h1]⟩) n.1
    · exact absurd (List.mem_map.2 ⟨x, h1, by rw [e, h2]⟩) n.1
    · exact ih n.2 h1 h2 e

theorem OK.set {h : HRef} {l} (w : h.OK l) (a v) : (h.set a v).OK l := ⟨w.tab, w.addrs, w.fresh, w.size⟩

/-- An assignment changes the data of one key. -/
theorem OK.get_set {h : HRef} {l} (w : h.OK l) {x a} (e : h.ptr x = some a) (v : Int) (y : Edge) :
    (h.set a v).get y = if y = x then some v else h.get y := by
  show (h.ptr y).map (upd h.data a v) = _
  by_cases c : y = x
  · rw [if_pos c, c, e]; simp
  · rw [if_neg c]
    cases e' : h.ptr y with
    | none => simp [get, e']
    | some b =>
      have : b ≠ a := by
        rintro rfl
        have := ent_inj w.addrs (w.ptr_mem e) (w.ptr_mem e') rfl
        exact c (congrArg Ent.key this).symm
      simp [get, e', upd_ne _ _ this]

theorem OK.insert {h : HRef} {l} (w : h.OK l) (x v) : (h.insert x v).OK (⟨h.next, x⟩ :: l) := by
  refine ⟨?_, ?_, ?_, ?_⟩
  · exact Hash.Table.OK.insert w.tab x h.next _
  · rw [List.map_cons, List.nodup_cons]
    refine ⟨fun hm => ?_, w.addrs⟩
    obtain ⟨y, hy, e⟩ := List.mem_map.1 hm
    have := w.fresh y hy
    simp only at e
    omega
  · intro e he
    show e.addr < h.next + 1
    rcases List.mem_cons.1 he with rfl | he
    · exact Nat.lt_succ_self _
    · exact Nat.lt_succ_of_lt (w.fresh e he)
  · show 8 ≤ (h.t.addDirect hash1 x h.next).sizeIndex
    have := w.size
    unfold addDirect
    dsimp only
    split
    · simp only [Table.rehash]
      simp
      omega
    · exact this

theorem OK.data_insert {h : HRef} {l} (w : h.OK l) (x v) {e} (he : e ∈ l) : (h.insert x v).data e.addr = h.data e.addr := by
  show upd h.data h.next v e.addr = _
  rw [upd_ne _ _ (by have := w.fresh e he; omega)]

/-- All keys are different. -/
def Uniq (l : List (Ent Edge)) : Prop := (l.map (·.key)).Nodup

theorem OK.get_uniq {h : HRef} {l} (w : h.OK l) (u : Uniq l) {y : Ent Edge} (hy : y ∈ l) : h.get y.key = some (h.data y.addr) := by
  unfold get ptr lookup
  rw [w.tab.find u, find_unique u hy]
  rfl

theorem OK.get_none {h : HRef} {l} (w : h.OK l) {x} (e : h.get x = none) : ∀ y ∈ l, y.key ≠ x :=
  w.ptr_none (by simpa [get] using e)

theorem OK.get_mem {h : HRef} {l} (w : h.OK l) {x v} (e : h.get x = some v) : ∃ y ∈ l, y.key = x ∧ h.data y.addr = v := by
  obtain ⟨a, h1, h2⟩ := Option.map_eq_some_iff.1 e
  exact ⟨_, w.ptr_mem h1, rfl, h2⟩

theorem Uniq.cons {h : HRef} {l} (w : h.OK l) (u : Uniq l) {x} (e : h.get x = none) (a : Nat) : Uniq (⟨a, x⟩ :: l) := by
  unfold Uniq
  rw [List.map_cons, List.nodup_cons]
  refine ⟨fun hm => ?_, u⟩
  obtain ⟨y, hy, e'⟩ := List.mem_map.1 hm
  exact w.get_none e y hy e'

/-- A new key. -/
theorem OK.get_insert {h : HRef} {l} (w : h.OK l) (u : Uniq l) {x} (e : h.get x = none) (v : Int) (y : Edge) :
    (h.insert x v).get y = if y = x then some v else h.get y := by
  have w' := w.insert x v
  have u' := u.cons w e h.next
  by_cases c : y = x
  · rw [if_pos c, c, w'.get_uniq u' (List.mem_cons_self ..)]
    show some (upd h.data h.next v h.next) = _
    rw [upd_same]
  · rw [if_neg c]
    cases e' : h.get y with
    | some v' =>
      obtain ⟨z, hz, h1, h2⟩ := w.get_mem e'
      rw [← h1, w'.get_uniq u' (List.mem_cons_of_mem _ hz), w.data_insert x v hz, h2]
    | none =>
      cases e'' : (h.insert x v).get y with
      | none => rfl
      | some v' =>
        obtain ⟨z, hz, h1, -⟩ := w'.get_mem e''
        rcases List.mem_cons.1 hz with rfl | hz
        · exact absurd h1.symm c
        · exact absurd h1 (w.get_none e' z hz)

/-- A key that may be there already, while the table does not grow. -/
theorem get_push (h : HRef) (x v) (hc : h.t.numEntries + 1 < h.t.maxCapacity) {l} (w : h.OK l) (y : Edge) :
    (h.insert x v).get y = if y = x then some v else h.get y := by
  have e : (h.insert x v).t = { h.t with numEntries := h.t.numEntries + 1, bins := push h.t.bins (h.t.slot hash1 x) ⟨h.next, x⟩ } := by
    show h.t.addDirect hash1 x h.next = _
    unfold addDirect
    dsimp only
    rw [if_neg (by simp only [maxCapacity, numBins] at hc ⊢; omega)]
    rfl
  have hs : ∀ k, Table.slot hash1 (h.insert x v).t k = h.t.slot hash1 k := by intro k; rw [e]; rfl
  unfold get ptr lookup
  rw [hs]
  have hb : (h.insert x v).t.bins = push h.t.bins (h.t.slot hash1 x) ⟨h.next, x⟩ := by rw [e]
  rw [hb]
  by_cases c : y = x
  · subst c
    simp [push, insert, upd_same]
  · rw [if_neg c]
    have key : (push h.t.bins (h.t.slot hash1 x) ⟨h.next, x⟩ (h.t.slot hash1 y)).find? (fun e => e.key = y) =
        (h.t.bins (h.t.slot hash1 y)).find? (fun e => e.key = y) := by
      unfold push
      by_cases c' : h.t.slot hash1 y = h.t.slot hash1 x
      · rw [c', upd_same, List.find?_cons]
        simp [show ¬ x = y from fun h => c h.symm]
      · rw [upd_ne _ _ c']
    rw [key]
    cases e' : (h.t.bins (h.t.slot hash1 y)).find? (fun e => e.key = y) with
    | none => rfl
    | some z =>
      have hk : z.key = y := by simpa using List.find?_some e'
      have hm := List.mem_of_find?_eq_some e'
      have hz : z ∈ l := w.tab.mem.2 (by rw [hk]; exact hm)
      simp only [Option.map_some]
      exact congrArg some (w.data_insert x v hz)

end HRef

end Cal
