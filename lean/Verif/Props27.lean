import Verif.LedgerRun
/-!
# Quitting a manager gives back its memory

Specification: a program creates a manager, makes any calls, each with any sequence of page requests,
rehashings, repackings and reorderings inside, and destroys the manager. Undefined behaviour (`none`)
is freeing what is not allocated, reading or writing freed pages, arrays or records and reading pointers that were never
stored.

* `C72_quit_partial`: every such program runs without undefined behaviour, for every allocator, and
  afterwards nothing that was allocated before has been freed; what is allocated now is that, the
  arrays which the user got and has not freed, and at most one block for each level that was repacked
  by `CalBddPackNodesForMultipleIds`.
* `C72_all_partial`: without such repackings only the user's arrays remain.
* `C72_violated`: with them a block can remain to which there is no pointer any more.
-/

namespace Cal.Ledger

theorem sum_one_count {a : Nat} (h0 : a ≠ 0) : ∀ xs : List Nat, sum one xs a = xs.count a
  | [] => rfl
  | x :: xs => by
    have := sum_one_count h0 xs
    simp only [sum_cons, List.count_cons, this, one]
    by_cases h : a = x
    · subst h
      simp [h0]
      omega
    · have : ¬ x = a := fun e => h e.symm
      simp [h, this]

/-- **C72.** Whatever the calls are and whatever happens in them, and wherever the allocator puts the
blocks: no block is freed twice, no freed page, array or record is used, and after `Cal_BddManagerQuit` the allocated
blocks are those from before, the arrays given to the user, and at most one for each level
repacked in breadth-first reordering. -/
theorem C72_quit_partial (os : Os) (h : Heap) (h0 : 0 ∉ h.live) (n1 n2 : Nat) (cs : List Call) :
    ∃ user lost h', program n1 n2 cs os h = some ((user, lost), h') ∧
      (∀ a, a ≠ 0 → h'.live.count a = h.live.count a + user.count a + lost.count a) ∧
      lost.length ≤ Call.packss cs := by
  obtain ⟨r, h', e, c, -, l⟩ := program_ok n1 n2 cs os h (fun p => h.live.count p) (fun p => by simp) h0
  refine ⟨r.1, r.2, h', e, fun a ha => ?_, l⟩
  have := c a
  simp only [sum_one_count ha] at this
  omega

/-- **C72.** Without repacking in breadth-first reordering, all that a program on a fresh heap leaves
are the user's own arrays; if it asks for none or frees them, nothing. -/
theorem C72_all_partial (os : Os) (n1 n2 : Nat) (cs : List Call) (hc : Call.packss cs = 0) :
    ∃ user h', program n1 n2 cs os ⟨[], 0⟩ = some ((user, []), h') ∧
      (∀ a, a ∈ h'.live ↔ a ∈ user ∧ a ≠ 0) ∧ (user = [] → h'.live = []) := by
  obtain ⟨r, h', e, c, z, l⟩ := program_ok n1 n2 cs os ⟨[], 0⟩ (fun _ => 0) (fun p => by simp) (by simp)
  obtain ⟨user, lost⟩ := r
  have : lost = [] := by
    rw [hc] at l
    simpa using l
  subst this
  have iff : ∀ a, a ∈ h'.live ↔ a ∈ user ∧ a ≠ 0 := fun a => by
    by_cases ha : a = 0
    · subst ha
      simp [z]
    · have := c a
      simp only [sum_one_count ha, List.count_nil, Nat.add_zero] at this
      rw [← List.count_pos_iff, this, List.count_pos_iff]
      simp [ha]
  refine ⟨user, h', e, iff, fun hu => List.eq_nil_iff_forall_not_mem.2 fun a m => ?_⟩
  have := (iff a).1 m
  simp [hu] at this

/-! ## Witnesses -/

def most : List Nat → Nat
  | [] => 0
  | a :: as => max a (most as)

theorem le_most : ∀ (xs : List Nat) (a : Nat), a ∈ xs → a ≤ most xs
  | x :: xs, a, m => by
    rcases List.mem_cons.1 m with e | m
    · subst e
      exact Nat.le_max_left _ _
    · exact Nat.le_trans (le_most xs a m) (Nat.le_max_right _ _)

/-- an allocator that takes the address behind the largest one in use -/
def Os.next : Os where
  pick h := most h.live + 1
  nonzero _ := Nat.succ_ne_zero _
  fresh h m := by have := le_most _ _ m; omega

/-- A session: three variables with blocks, an association, operations that need pages and rehash
tables, garbage collection with repacking, depth-first and breadth-first reordering, a pairwise
operation whose array the user frees. -/
def session : List Call :=
  [.newVar 5 none, .newVar 5 (some ([], 0)), .newVar 5 none, .newBlock [] 0 4, .assocInit false 0,
   .op [.mid (.small (.page 5 1)), .mid (.small (.page 5 1)), .mid (.small (.rehash 2)),
     .mid (.small .cache), .mid (.small (.rehashReq 1 2)), .depth 9],
   .pairwise [.mid (.gcPack true 1 2), .mid (.pack 5 2 1 1)] [.mid (.small (.page 5 3))],
   .op [.df [.page 5, .rehash 1] 5 (fun _ => (2, 2)) [3, 2, 1], .bf [.pack 5 1 1 1]],
   .dump [] 2, .undump false [.mid (.small (.page 5 2))], .userFree 0, .assocQuit 0]

example : Call.packss session = 0 := by decide
/-- the session allocates and frees a lot, and everything is given back -/
example : ((program 5 5 session Os.next ⟨[], 0⟩).map fun r => (r.1, r.2.live)) = some (([], []), []) := by
  decide +kernel
example : ((program 5 5 (session.take 7) Os.next ⟨[], 0⟩).map fun r => (r.1.1.length, r.2.live.length))
    = some (1, 1) := by
  decide +kernel
example : ((program 5 5 session Os.next ⟨[], 0⟩).map fun r => decide (200 < r.2.time)) = some true := by
  decide +kernel

/-- **C72, as the code is.** A variable gets four pages, and a window of breadth-first reordering
packs its nodes: after `Cal_BddManagerQuit` a block is still allocated, although the user was given
none. The array of bins that is replaced (calHashTable.c:709-881) is not freed. -/
theorem C72_violated : ∃ (os : Os) (n1 n2 : Nat) (cs : List Call) (h' : Heap) (lost : List Nat),
    program n1 n2 cs os ⟨[], 0⟩ = some (([], lost), h') ∧ h'.live.length = 1 := by
  let cs : List Call := [.newVar 5 none, .op [.mid (.small (.page 5 1)), .mid (.small (.page 5 1)),
    .mid (.small (.page 5 1)), .bf [.packMany 5 [(1, 1, 1)]]]]
  have e : ((program 5 5 cs Os.next ⟨[], 0⟩).map fun r => (r.1.1, r.2.live.length)) = some ([], 1) := by
    decide +kernel
  match hp : program 5 5 cs Os.next ⟨[], 0⟩ with
  | none => rw [hp] at e; cases e
  | some ((user, lost), h') =>
    rw [hp] at e
    simp only [Option.map_some, Option.some.injEq, Prod.mk.injEq] at e
    exact ⟨Os.next, 5, 5, cs, h', lost, by rw [hp, e.1], e.2⟩

end Cal.Ledger
