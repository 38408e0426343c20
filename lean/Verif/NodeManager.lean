import Verif.Store
/-!
# Pages and nodes: the memory managers

Model of `/repo/src/calMemoryManagement.c` and of the node manager macros of `calInt.h`. Free lists
are real linked lists here: the first word of every free page and of every free node is the pointer
to the next one, and the memory that holds these words is the same memory clients write to.

Addresses are in units of nodes (32 bytes); `0` is the nil pointer. A page is 4096 bytes, the
default of `PAGE_SIZE` (calInt.h:97-99), hence 128 nodes; its address is a multiple of 128. Only the
first word (`nextBddNode`) of a node is modelled, the other fields belong to the client. The arrays
`pageList`, `pageSegmentArray` and `numPagesArray`, which are reallocated when full, are lists. The
operating system (`aligned_alloc`) is the environment: it answers a request with failure or with any
range of pages it has not handed out before.
-/

namespace Cal.Pages

/-- `NUM_NODES_PER_PAGE` (calInt.h:170) -/
abbrev perPage : Nat := 128

/-- `CalNodeManager_t` (calInt.h:345-352): head of the free list and the pages taken -/
structure NM where
  free : Nat
  pages : List Nat

/-- `CalPageManager_t` (calInt.h:334-343), the node managers fed by it, and the first word of every
node. `segs` are the segments (base, number of pages). -/
structure St where
  mem : Nat → Nat
  freePage : Nat
  perSeg : Nat
  segs : List (Nat × Nat)
  nm : Nat → NM

/-- Answers of `aligned_alloc`: a base address or failure. -/
abbrev Os := List (Option Nat)

/-- `SegmentToPageList` (calMemoryManagement.c:359-381): `k` links still to be written, the next one
at page `i` of the segment -/
def segLoop (base : Nat) : Nat → Nat → (Nat → Nat) → Nat → Nat → Nat
  | 0, i, mem, last => upd mem (base + perPage * i) last
  | k + 1, i, mem, last =>
    segLoop base k (i + 1) (upd mem (base + perPage * i) (base + perPage * (i + 1))) last

/-- `PageManagerExpandStorage` (calMemoryManagement.c:283-331): ask the system, halve the request
after a failure, give up below `MIN_NUM_PAGES_PER_SEGMENT` = 4 pages. `none`: out of memory (fatal)
or the list of answers is used up. -/
def expand (s : St) : Os → Option (St × Os)
  | [] => none
  | none :: os =>
    if s.perSeg / 2 < 4 then none else expand { s with perSeg := s.perSeg / 2 } os
  | some base :: os =>
    let mem := fun a => if base ≤ a ∧ a < base + perPage * s.perSeg then 0 else s.mem a
    some ({ s with
      mem := segLoop base (s.perSeg - 1) 0 mem s.freePage
      freePage := base
      segs := (base, s.perSeg) :: s.segs }, os)

/-- `CalPageManagerAllocPage` (calMemoryManagement.c:241-259) -/
def allocPage (s : St) (os : Os) : Option (Nat × St × Os) :=
  if s.freePage = 0 then
    (expand s os).map fun r => (r.1.freePage, { r.1 with freePage := r.1.mem r.1.freePage }, r.2)
  else some (s.freePage, { s with freePage := s.mem s.freePage }, os)

/-- `CalPageManagerFreePage` (calMemoryManagement.c:266-271) -/
def freePage (s : St) (p : Nat) : St :=
  { s with mem := upd s.mem p s.freePage, freePage := p }

/-- the loop of `CalNodeManagerAllocNode` that links the nodes of a new page, from the last one down
to the second (calInt.h:486-489): `k` nodes still to be linked -/
def linkLoop (first : Nat) : Nat → Nat → (Nat → Nat) → Nat → Nat
  | 0, _, mem => mem
  | k + 1, next, mem => linkLoop first k (first + (k + 1)) (upd mem (first + (k + 1)) next)

/-- `CalNodeManagerAllocNode`, and the allocation in `CalNodeManagerInitBddNode` and
`CalNodeManagerCreateAndDupBddNode` (calInt.h:475-573). `w` is what is written to the first word of
the new node (0, the next node of the bin, or the link of the duplicated node). -/
def allocNode (s : St) (id w : Nat) (os : Os) : Option (Nat × St × Os) :=
  if (s.nm id).free ≠ 0 then
    let n := (s.nm id).free
    some (n, { s with
      nm := upd s.nm id { s.nm id with free := s.mem n }
      mem := upd s.mem n w }, os)
  else
    (allocPage s os).map fun r =>
      let p := r.1
      let s := r.2.1
      let mem := linkLoop p (perPage - 1) 0 s.mem
      (p, { s with
        nm := upd s.nm id ⟨p + 1, (s.nm id).pages ++ [p]⟩
        mem := upd mem p w }, r.2.2)

/-- `CalNodeManagerFreeNode` (calInt.h:508-512) -/
def freeNode (s : St) (id n : Nat) : St :=
  { s with
    mem := upd s.mem n (s.nm id).free
    nm := upd s.nm id { s.nm id with free := n } }

/-- `CalNodeManagerQuit` (calMemoryManagement.c:196-213) followed by `CalNodeManagerInit`: all pages
go back to the page manager. Repacking gives back the pages of a level the same way
(calHashTable.c:695-703, 868-877). -/
def quit (s : St) (id : Nat) : St :=
  let s' := (s.nm id).pages.foldl freePage s
  { s' with nm := upd s'.nm id ⟨0, []⟩ }

/-- `CalPageManagerInit` (calMemoryManagement.c:102-124) before its first expansion, with `n` pages
per segment, and empty node managers. The first `CalPageManagerAllocPage` would do that expansion. -/
def init (n : Nat) : St := ⟨fun _ => 0, 0, n, [], fun _ => ⟨0, []⟩⟩

/-! ## The client's view -/

/-- What a client of the memory managers does. -/
inductive Op where
  /-- take a node from the manager of `id` and set its first word -/
  | alloc (id w : Nat)
  /-- give node `n` back to the manager of `id` -/
  | free (id n : Nat)
  /-- overwrite the first word of a node -/
  | write (n w : Nat)
  /-- give back everything of `id` -/
  | quit (id : Nat)

/-- A client together with the managers: the nodes it holds from every id. -/
structure World where
  st : St
  held : Nat → List Nat

/-- The client only touches what it holds. -/
def World.Legal (x : World) : Op → Prop
  | .alloc _ _ => True
  | .free id n => n ∈ x.held id
  | .write n _ => ∃ id, n ∈ x.held id
  | .quit _ => True

/-- Execute one operation; the result is the node handed out, if any. -/
def World.step (x : World) (os : Os) : Op → Option (Option Nat × World × Os)
  | .alloc id w =>
    (allocNode x.st id w os).map fun r =>
      (some r.1, ⟨r.2.1, upd x.held id (r.1 :: x.held id)⟩, r.2.2)
  | .free id n => some (none, ⟨freeNode x.st id n, upd x.held id ((x.held id).erase n)⟩, os)
  | .write n w => some (none, ⟨{ x.st with mem := upd x.st.mem n w }, x.held⟩, os)
  | .quit id => some (none, ⟨quit x.st id, upd x.held id []⟩, os)

/-- The system hands out page aligned memory that overlaps nothing it handed out before. -/
def OsOk (segs : List (Nat × Nat)) (n : Nat) (base : Nat) : Prop :=
  0 < base ∧ base % perPage = 0 ∧
    ∀ q ∈ segs, base + perPage * n ≤ q.1 ∨ q.1 + perPage * q.2 ≤ base

/-- All answers of the system to a request by `s` are sound, whatever size is asked for. -/
def OsSound (s : St) (os : Os) : Prop := ∀ base, some base ∈ os → ∀ n ≤ s.perSeg, OsOk s.segs n base

/-- `Reach x`: some legal history leads to `x`. Each step comes with the answers of the system it
may need. -/
inductive Reach (n : Nat) : World → Prop
  | init : Reach n ⟨init n, fun _ => []⟩
  | step {x y : World} {op : Op} {os os' : Os} {r : Option Nat} :
      Reach n x → x.Legal op → OsSound x.st os → x.step os op = some (r, y, os') → Reach n y

/-! ## Linked lists in memory -/

/-- the list in memory that starts at a pointer -/
def Chain (mem : Nat → Nat) : Nat → List Nat → Prop
  | p, [] => p = 0
  | p, a :: l => p = a ∧ a ≠ 0 ∧ Chain mem (mem a) l

theorem Chain.upd {mem : Nat → Nat} {a w : Nat} : ∀ {l : List Nat} {p : Nat}, Chain mem p l →
    a ∉ l → Chain (Cal.upd mem a w) p l
  | [], _, h, _ => h
  | b :: l, p, h, hn => by
    simp only [List.mem_cons, not_or] at hn
    refine ⟨h.1, h.2.1, ?_⟩
    rw [upd_ne _ _ (Ne.symm hn.1)]
    exact h.2.2.upd hn.2

theorem Chain.congr {mem mem' : Nat → Nat} : ∀ {l : List Nat} {p : Nat}, Chain mem p l →
    (∀ a ∈ l, mem' a = mem a) → Chain mem' p l
  | [], _, h, _ => h
  | b :: l, p, h, hm => by
    refine ⟨h.1, h.2.1, ?_⟩
    rw [hm b (List.mem_cons_self ..)]
    exact h.2.2.congr fun a ha => hm a (List.mem_cons_of_mem _ ha)

theorem Chain.nil_iff {mem : Nat → Nat} {l : List Nat} {p : Nat} (h : Chain mem p l) :
    p = 0 ↔ l = [] := by
  cases l with
  | nil => exact ⟨fun _ => rfl, fun _ => h⟩
  | cons a l => exact ⟨fun hp => absurd (h.1.symm.trans hp) h.2.1, fun h => by cases h⟩

/-- the nodes of a page -/
def nodes (p : Nat) : List Nat := List.range' p perPage

theorem mem_nodes {p a : Nat} : a ∈ nodes p ↔ p ≤ a ∧ a < p + 128 := by
  simp [nodes, perPage]

/-- a page address -/
def PageAddr (p : Nat) : Prop := 0 < p ∧ p % 128 = 0

/-- Invariant. `P` is the list of free pages, `L id` the free nodes of `id`. -/
structure Inv (x : World) (P : List Nat) (L : Nat → List Nat) : Prop where
  pchain : Chain x.st.mem x.st.freePage P
  nchain : ∀ id, Chain x.st.mem (x.st.nm id).free (L id)
  pnd : P.Nodup
  gnd : ∀ id, (x.st.nm id).pages.Nodup
  dis : ∀ id, ∀ p ∈ (x.st.nm id).pages, p ∉ P
  dis2 : ∀ id id', id ≠ id' → ∀ p ∈ (x.st.nm id).pages, p ∉ (x.st.nm id').pages
  addr : ∀ p ∈ P, PageAddr p
  gaddr : ∀ id, ∀ p ∈ (x.st.nm id).pages, PageAddr p
  seg : ∀ p ∈ P, ∃ q ∈ x.st.segs, q.1 ≤ p ∧ p + 128 ≤ q.1 + 128 * q.2
  gseg : ∀ id, ∀ p ∈ (x.st.nm id).pages, ∃ q ∈ x.st.segs, q.1 ≤ p ∧ p + 128 ≤ q.1 + 128 * q.2
  part : ∀ id, ((x.st.nm id).pages.flatMap nodes).Perm (L id ++ x.held id)

theorem page_eq {p q a : Nat} (hp : PageAddr p) (hq : PageAddr q) (h1 : a ∈ nodes p) (h2 : a ∈ nodes q) :
    p = q := by
  rw [mem_nodes] at h1 h2
  have := hp.2; have := hq.2; omega

theorem self_mem (p : Nat) : p ∈ nodes p := by rw [mem_nodes]; omega

theorem nodup_nodes {l : List Nat} (hn : l.Nodup) (ha : ∀ p ∈ l, PageAddr p) :
    (l.flatMap nodes).Nodup := by
  induction l with
  | nil => exact List.nodup_nil
  | cons p l ih =>
    rw [List.flatMap_cons, List.nodup_append]
    simp only [List.nodup_cons] at hn
    refine ⟨List.nodup_range', ih hn.2 fun q hq => ha q (List.mem_cons_of_mem _ hq), ?_⟩
    intro a h1 b h2 hab
    subst hab
    obtain ⟨q, hq, h3⟩ := List.mem_flatMap.mp h2
    have := page_eq (ha p (List.mem_cons_self ..)) (ha q (List.mem_cons_of_mem _ hq)) h1 h3
    subst this
    exact hn.1 hq

theorem Inv.mem_part {x : World} {P : List Nat} {L : Nat → List Nat} (v : Inv x P L) {id a : Nat} :
    (a ∈ L id ∨ a ∈ x.held id) ↔ ∃ p ∈ (x.st.nm id).pages, a ∈ nodes p := by
  rw [← List.mem_append, ← (v.part id).mem_iff, List.mem_flatMap]

theorem Inv.nodup {x : World} {P : List Nat} {L : Nat → List Nat} (v : Inv x P L) (id : Nat) :
    (L id ++ x.held id).Nodup :=
  (v.part id).nodup (nodup_nodes (v.gnd id) (v.gaddr id))

theorem Inv.apart {x : World} {P : List Nat} {L : Nat → List Nat} (v : Inv x P L) {id id' a : Nat}
    (h : a ∈ L id ∨ a ∈ x.held id) (h' : a ∈ L id' ∨ a ∈ x.held id') : id = id' := by
  obtain ⟨p, hp, h1⟩ := v.mem_part.mp h
  obtain ⟨q, hq, h2⟩ := v.mem_part.mp h'
  have := page_eq (v.gaddr _ p hp) (v.gaddr _ q hq) h1 h2
  subst this
  by_cases e : id = id'
  · exact e
  · exact absurd hq (v.dis2 id id' e p hp)

theorem Inv.notPage {x : World} {P : List Nat} {L : Nat → List Nat} (v : Inv x P L) {id a p : Nat}
    (h : a ∈ L id ∨ a ∈ x.held id) (hp : p ∈ P) : a ∉ nodes p := by
  intro h1
  obtain ⟨q, hq, h2⟩ := v.mem_part.mp h
  have := page_eq (v.addr p hp) (v.gaddr _ q hq) h1 h2
  subst this
  exact v.dis _ _ hq hp

theorem Inv.ne_zero {x : World} {P : List Nat} {L : Nat → List Nat} (v : Inv x P L) {id a : Nat}
    (h : a ∈ L id ∨ a ∈ x.held id) : a ≠ 0 := by
  obtain ⟨q, hq, h2⟩ := v.mem_part.mp h
  have := (v.gaddr _ q hq).1
  rw [mem_nodes] at h2; omega

/-! ## The loops -/

theorem linkLoop_spec (first : Nat) : ∀ (k next : Nat) (mem : Nat → Nat) (a : Nat),
    linkLoop first k next mem a =
      if first < a ∧ a ≤ first + k then (if a = first + k then next else a + 1) else mem a
  | 0, next, mem, a => by simp only [linkLoop]; split <;> omega
  | k + 1, next, mem, a => by
    rw [linkLoop, linkLoop_spec first k]
    simp only [upd]
    split <;> split <;> split <;> (try split) <;> omega

theorem chain_range {mem : Nat → Nat} : ∀ (k p : Nat), 0 < p →
    (∀ a, p ≤ a → a < p + k → mem a = if a + 1 = p + k then 0 else a + 1) → 0 < k →
    Chain mem p (List.range' p k)
  | 0, _, _, _, h => absurd h (by omega)
  | k + 1, p, hp, hm, _ => by
    rw [List.range'_succ]
    refine ⟨rfl, by omega, ?_⟩
    rw [hm p (by omega) (by omega)]
    split
    · have : k = 0 := by omega
      subst this; exact rfl
    · refine chain_range k (p + 1) (by omega) (fun a h1 h2 => ?_) (by omega)
      rw [hm a (by omega) (by omega)]
      split <;> split <;> omega

/-- pages of a segment from page `i` on -/
def segPages (base : Nat) (i k : Nat) : List Nat := (List.range' i k).map fun j => base + 128 * j

theorem segLoop_other (base : Nat) : ∀ (k i : Nat) (mem : Nat → Nat) (last a : Nat),
    (∀ j, i ≤ j → j ≤ i + k → a ≠ base + 128 * j) → segLoop base k i mem last a = mem a
  | 0, i, mem, last, a, h => by
    rw [segLoop, upd_ne]; exact h i (by omega) (by omega)
  | k + 1, i, mem, last, a, h => by
    rw [segLoop, segLoop_other base k (i + 1) _ last a (fun j h1 h2 => h j (by omega) (by omega)),
      upd_ne]
    exact h i (by omega) (by omega)

theorem segLoop_chain (base : Nat) (hb : 0 < base) : ∀ (k i : Nat) (mem : Nat → Nat) (last : Nat)
    (P : List Nat), Chain mem last P → (∀ p ∈ P, ∀ j, i ≤ j → j ≤ i + k → p ≠ base + 128 * j) →
    Chain (segLoop base k i mem last) (base + 128 * i) (segPages base i (k + 1) ++ P)
  | 0, i, mem, last, P, hc, hd => by
    show Chain _ _ ((base + 128 * i) :: P)
    refine ⟨rfl, by omega, ?_⟩
    simp only [segLoop, perPage, upd_same]
    exact hc.upd fun h => hd _ h i (by omega) (by omega) rfl
  | k + 1, i, mem, last, P, hc, hd => by
    have e : segPages base i (k + 1 + 1) = (base + 128 * i) :: segPages base (i + 1) (k + 1) := by
      simp [segPages, List.range'_succ]
    rw [e]
    refine ⟨rfl, by omega, ?_⟩
    simp only [segLoop, perPage]
    rw [segLoop_other base k (i + 1) _ last (base + 128 * i) (fun j h1 h2 => by omega), upd_same]
    refine segLoop_chain base hb k (i + 1) _ last P (hc.upd fun h => hd _ h i (by omega) (by omega) rfl) ?_
    intro p hp j h1 h2
    exact hd p hp j (by omega) (by omega)

theorem mem_segPages {base i k p : Nat} :
    p ∈ segPages base i k ↔ ∃ j, i ≤ j ∧ j < i + k ∧ p = base + 128 * j := by
  simp only [segPages, List.mem_map, List.mem_range'_1]
  exact ⟨fun ⟨j, h, e⟩ => ⟨j, h.1, h.2, e.symm⟩, fun ⟨j, h1, h2, e⟩ => ⟨j, ⟨h1, h2⟩, e.symm⟩⟩

theorem segPages_nodup (base i k : Nat) : (segPages base i k).Nodup := by
  unfold segPages
  rw [List.nodup_iff_pairwise_ne, List.pairwise_map]
  have := List.nodup_range' (s := i) (n := k) (step := 1)
  exact this.imp fun h he => h (by omega)

/-! ## The operations keep the invariant -/

/-- changing only words outside all free pages and free nodes -/
theorem Inv.mem_change {x : World} {P : List Nat} {L : Nat → List Nat} (v : Inv x P L) {mem : Nat → Nat}
    (h1 : ∀ p ∈ P, mem p = x.st.mem p) (h2 : ∀ id, ∀ a ∈ L id, mem a = x.st.mem a) :
    Inv ⟨{ x.st with mem := mem }, x.held⟩ P L :=
  { v with
    pchain := v.pchain.congr h1
    nchain := fun id => (v.nchain id).congr (h2 id) }

theorem expand_ok {P : List Nat} {L : Nat → List Nat} (os : Os) :
    ∀ {x : World}, Inv x P L → OsSound x.st os → 0 < x.st.perSeg → P = [] →
    ∀ {s' : St} {os' : Os}, expand x.st os = some (s', os') →
      ∃ P', P' ≠ [] ∧ Inv ⟨s', x.held⟩ P' L ∧ s'.nm = x.st.nm ∧ 0 < s'.perSeg := by
  induction os with
  | nil => intro x v hs hn hP s' os' h; cases h
  | cons o os ih =>
    intro x v hs hn hP s' os' h
    cases o with
    | none =>
      simp only [expand] at h
      split at h
      · cases h
      · have v' : Inv ⟨{ x.st with perSeg := x.st.perSeg / 2 }, x.held⟩ P L := { v with }
        refine ih (x := ⟨{ x.st with perSeg := x.st.perSeg / 2 }, x.held⟩) v' ?_ ?_ hP h
        · intro b hb n hn'
          exact hs b (List.mem_cons_of_mem _ hb) n (by simp only at hn'; omega)
        · simp only; omega
    | some base =>
      simp only [expand, Option.some.injEq, Prod.mk.injEq] at h
      obtain ⟨rfl, -⟩ := h
      obtain ⟨hb0, hba, hbd⟩ := hs base (List.mem_cons_self ..) x.st.perSeg (Nat.le_refl _)
      have hba : base % 128 = 0 := hba
      have hbd : ∀ q ∈ x.st.segs, base + 128 * x.st.perSeg ≤ q.1 ∨ q.1 + 128 * q.2 ≤ base := hbd
      subst hP
      -- nodes in use lie outside the new segment
      have hout : ∀ id a, (∃ p ∈ (x.st.nm id).pages, a ∈ nodes p) →
          ¬ (base ≤ a ∧ a < base + 128 * x.st.perSeg) := by
        rintro id a ⟨p, hp, ha⟩
        obtain ⟨q, hq, h1, h2⟩ := v.gseg id p hp
        rw [mem_nodes] at ha
        rcases hbd q hq with h3 | h3 <;> omega
      have hfp : x.st.freePage = 0 := v.pchain
      refine ⟨segPages base 0 x.st.perSeg, ?_, ?_, rfl, hn⟩
      · intro h
        have h5 : (segPages base 0 x.st.perSeg).length = 0 := by rw [h]; rfl
        simp [segPages] at h5; omega
      · have hk : x.st.perSeg = (x.st.perSeg - 1) + 1 := by omega
        refine { v with
          pchain := ?_, nchain := ?_, pnd := segPages_nodup _ _ _, dis := ?_, addr := ?_, seg := ?_,
          gseg := ?_ }
        · have := segLoop_chain base hb0 (x.st.perSeg - 1) 0
            (fun a => if base ≤ a ∧ a < base + 128 * x.st.perSeg then 0 else x.st.mem a)
            x.st.freePage [] hfp (by simp)
          rw [← hk, List.append_nil] at this
          exact this
        · intro id
          refine (v.nchain id).congr fun a ha => ?_
          have hna := hout id a (v.mem_part.mp (Or.inl ha))
          show segLoop base (x.st.perSeg - 1) 0 _ _ a = _
          rw [segLoop_other]
          · exact if_neg hna
          · intro j h1 h2 h3; apply hna; omega
        · intro id p hp hm
          obtain ⟨j, _, h2, rfl⟩ := mem_segPages.mp hm
          exact hout id _ ⟨_, hp, self_mem _⟩ (by omega)
        · intro p hp
          obtain ⟨j, _, h2, rfl⟩ := mem_segPages.mp hp
          exact ⟨by omega, by omega⟩
        · intro p hp
          obtain ⟨j, _, h2, rfl⟩ := mem_segPages.mp hp
          exact ⟨(base, x.st.perSeg), List.mem_cons_self .., by simp only; omega, by simp only; omega⟩
        · intro id p hp
          obtain ⟨q, hq, h⟩ := v.gseg id p hp
          exact ⟨q, List.mem_cons_of_mem _ hq, h⟩

/-- what `allocPage` gives: a page that nobody has, the rest as before -/
theorem allocPage_ok {x : World} {P : List Nat} {L : Nat → List Nat} {os os' : Os} {p : Nat} {s' : St}
    (v : Inv x P L) (hs : OsSound x.st os) (hn : 0 < x.st.perSeg)
    (h : allocPage x.st os = some (p, s', os')) :
    ∃ P', Inv ⟨s', x.held⟩ P' L ∧ s'.nm = x.st.nm ∧ 0 < s'.perSeg ∧ PageAddr p ∧ p ∉ P' ∧
      (∀ id, p ∉ (x.st.nm id).pages) ∧ ∃ q ∈ s'.segs, q.1 ≤ p ∧ p + 128 ≤ q.1 + 128 * q.2 := by
  have pop : ∀ {s : St} {P : List Nat}, Inv ⟨s, x.held⟩ P L → P ≠ [] → s.nm = x.st.nm → 0 < s.perSeg →
      ∃ P', Inv ⟨{ s with freePage := s.mem s.freePage }, x.held⟩ P' L ∧ s.nm = x.st.nm ∧ 0 < s.perSeg ∧
        PageAddr s.freePage ∧ s.freePage ∉ P' ∧ (∀ id, s.freePage ∉ (x.st.nm id).pages) ∧
        ∃ q ∈ s.segs, q.1 ≤ s.freePage ∧ s.freePage + 128 ≤ q.1 + 128 * q.2 := by
    intro s P v hP hnm hps
    cases P with
    | nil => exact absurd rfl hP
    | cons a P =>
      obtain ⟨h1, h2, h3⟩ := v.pchain
      have h1 : s.freePage = a := h1
      have hnd := v.pnd
      simp only [List.nodup_cons] at hnd
      refine ⟨P, ?_, hnm, hps, ?_, ?_, ?_, ?_⟩
      · exact { v with
          pchain := by rw [← h1] at h3; exact h3
          pnd := hnd.2
          dis := fun id p hp hm => v.dis id p hp (List.mem_cons_of_mem _ hm)
          addr := fun p hp => v.addr p (List.mem_cons_of_mem _ hp)
          seg := fun p hp => v.seg p (List.mem_cons_of_mem _ hp) }
      · rw [h1]; exact v.addr a (List.mem_cons_self ..)
      · rw [h1]; exact hnd.1
      · intro id hm
        rw [← hnm, h1] at hm
        exact v.dis id a hm (List.mem_cons_self ..)
      · rw [h1]; exact v.seg a (List.mem_cons_self ..)
  unfold allocPage at h
  split at h
  · rename_i hf
    simp only [Option.map_eq_some_iff] at h
    obtain ⟨⟨s1, o1⟩, he, h⟩ := h
    simp only [Prod.mk.injEq] at h
    obtain ⟨rfl, rfl, rfl⟩ := h
    have hP : P = [] := v.pchain.nil_iff.mp hf
    obtain ⟨P', h1, h2, h3, h4⟩ := expand_ok os v hs hn hP he
    exact pop h2 h1 h3 h4
  · rename_i hf
    simp only [Option.some.injEq, Prod.mk.injEq] at h
    obtain ⟨rfl, rfl, rfl⟩ := h
    exact pop (s := x.st) v (fun e => hf (v.pchain.nil_iff.mpr e)) rfl hn

theorem allocNode_ok {x : World} {P : List Nat} {L : Nat → List Nat} {os os' : Os} {id w n : Nat}
    {s' : St} (v : Inv x P L) (hs : OsSound x.st os) (hn : 0 < x.st.perSeg)
    (h : allocNode x.st id w os = some (n, s', os')) :
    n ≠ 0 ∧ (∀ id', n ∉ x.held id') ∧ 0 < s'.perSeg ∧
      ∃ P' L', Inv ⟨s', upd x.held id (n :: x.held id)⟩ P' L' := by
  unfold allocNode at h
  split at h
  · rename_i hf
    simp only [Option.some.injEq, Prod.mk.injEq] at h
    obtain ⟨h1, h2, -⟩ := h
    have hc := v.nchain id
    cases hL : L id with
    | nil => rw [hL] at hc; exact absurd hc hf
    | cons a l =>
      rw [hL] at hc
      obtain ⟨hc1, hc2, hc3⟩ := hc
      have han : n = a := by rw [← h1, hc1]
      subst han
      have hin : n ∈ L id := by rw [hL]; exact List.mem_cons_self ..
      have hnd := v.nodup id
      rw [hL, List.cons_append, List.nodup_cons, List.mem_append, not_or] at hnd
      refine ⟨hc2, ?_, by rw [← h2]; exact hn, P, upd L id l, ?_⟩
      · intro id' hm
        have := v.apart (Or.inl hin) (Or.inr hm)
        subst this
        exact hnd.1.2 hm
      · subst h2
        have hnp : ∀ p ∈ P, p ≠ n := fun p hp e => v.notPage (Or.inl hin) hp (by rw [← e]; exact self_mem p)
        have hpg : ∀ id', ((upd x.st.nm id { x.st.nm id with free := x.st.mem (x.st.nm id).free }) id').pages =
            (x.st.nm id').pages := by
          intro id'; simp only [upd]; split
          · rename_i h; rw [h]
          · rfl
        refine
          { pchain := ?_, nchain := ?_, pnd := v.pnd, gnd := ?_, dis := ?_, dis2 := ?_, addr := v.addr,
            gaddr := ?_, seg := v.seg, gseg := ?_, part := ?_ }
        · rw [h1]
          exact v.pchain.congr fun p hp => upd_ne _ _ (hnp p hp)
        · intro id'
          rw [h1]
          by_cases e : id' = id
          · subst e
            simp only [upd_same]
            have : (x.st.nm id').free = n := h1
            try rw [this]
            exact hc3.upd hnd.1.1
          · simp only [upd_ne _ _ e]
            refine (v.nchain id').upd ?_
            intro hm
            exact e (v.apart (Or.inl hm) (Or.inl hin))
        · intro id'; simp only [hpg]; exact v.gnd id'
        · intro id'; simp only [hpg]; exact v.dis id'
        · intro i j; simp only [hpg]; exact v.dis2 i j
        · intro id'; simp only [hpg]; exact v.gaddr id'
        · intro id'; simp only [hpg]; exact v.gseg id'
        · intro id'
          simp only [hpg]
          refine (v.part id').trans ?_
          by_cases e : id' = id
          · subst e
            simp only [upd_same, hL]
            rw [List.cons_append]
            exact List.perm_middle.symm
          · simp only [upd_ne _ _ e]; exact List.Perm.refl _
  · rename_i hf
    have hf : (x.st.nm id).free = 0 := by omega
    have hLid : L id = [] := (v.nchain id).nil_iff.mp hf
    simp only [Option.map_eq_some_iff] at h
    obtain ⟨⟨p, s1, o1⟩, he, h⟩ := h
    simp only [Prod.mk.injEq] at h
    obtain ⟨rfl, rfl, rfl⟩ := h
    obtain ⟨P', v1, hnm, hps, hpa, hpP, hpg, hseg⟩ := allocPage_ok v hs hn he
    have hnew : ∀ id' a, (∃ q ∈ (s1.nm id').pages, a ∈ nodes q) → a ∉ nodes p := by
      rintro id' a ⟨q, hq, h1⟩ h2
      have := page_eq hpa (v1.gaddr id' q hq) h2 h1
      subst this
      rw [hnm] at hq
      exact hpg id' hq
    refine ⟨by have := hpa.1; omega, ?_, hps, P', upd L id (List.range' (p + 1) 127), ?_⟩
    · intro id' hm
      exact hnew id' p (v1.mem_part.mp (Or.inr hm)) (self_mem p)
    · have hmem : ∀ a, a ∉ nodes p → upd (linkLoop p (perPage - 1) 0 s1.mem) p w a = s1.mem a := by
        intro a ha
        rw [mem_nodes] at ha
        rw [upd_ne _ _ (by omega), linkLoop_spec, if_neg (by simp only [perPage]; omega)]
      refine
        { pchain := ?_, nchain := ?_, pnd := v1.pnd, gnd := ?_, dis := ?_, dis2 := ?_, addr := v1.addr,
          gaddr := ?_, seg := v1.seg, gseg := ?_, part := ?_ }
      · refine v1.pchain.congr fun q hq => hmem q ?_
        intro h1
        have := page_eq hpa (v1.addr q hq) h1 (self_mem q)
        subst this
        exact hpP hq
      · intro id'
        by_cases e : id' = id
        · subst e
          simp only [upd_same]
          refine chain_range 127 (p + 1) (by omega) (fun a h1 h2 => ?_) (by omega)
          rw [upd_ne _ _ (by omega), linkLoop_spec, if_pos (by simp only [perPage]; omega)]
          simp only [perPage]
          split <;> split <;> omega
        · simp only [upd_ne _ _ e]
          refine (v1.nchain id').congr fun a ha => hmem a ?_
          exact hnew id' a (v1.mem_part.mp (Or.inl ha))
      · intro id'
        by_cases e : id' = id
        · subst e
          simp only [upd_same]
          rw [List.nodup_append]
          refine ⟨v1.gnd _, by simp, ?_⟩
          intro a ha b hb hab
          simp only [List.mem_singleton] at hb
          subst hb; subst hab
          rw [hnm] at ha
          exact hpg _ ha
        · simp only [upd_ne _ _ e]; exact v1.gnd id'
      · intro id' q hq
        by_cases e : id' = id
        · subst e
          simp only [upd_same, List.mem_append, List.mem_singleton] at hq
          rcases hq with hq | hq
          · exact v1.dis _ q hq
          · subst hq; exact hpP
        · simp only [upd_ne _ _ e] at hq; exact v1.dis id' q hq
      · intro i j hij q hq
        have hq' : q ∈ (s1.nm i).pages ∨ (i = id ∧ q = p) := by
          by_cases e : i = id
          · subst e
            simp only [upd_same, List.mem_append, List.mem_singleton] at hq
            exact hq.imp_right fun h => ⟨rfl, h⟩
          · simp only [upd_ne _ _ e] at hq; exact Or.inl hq
        intro hm
        have hm' : q ∈ (s1.nm j).pages ∨ (j = id ∧ q = p) := by
          by_cases e : j = id
          · subst e
            simp only [upd_same, List.mem_append, List.mem_singleton] at hm
            exact hm.imp_right fun h => ⟨rfl, h⟩
          · simp only [upd_ne _ _ e] at hm; exact Or.inl hm
        rcases hq' with h1 | ⟨h1, h1'⟩ <;> rcases hm' with h2 | ⟨h2, h2'⟩
        · exact v1.dis2 i j hij q h1 h2
        · subst h2'; rw [hnm] at h1; exact hpg i h1
        · subst h1'; rw [hnm] at h2; exact hpg j h2
        · omega
      · intro id' q hq
        by_cases e : id' = id
        · subst e
          simp only [upd_same, List.mem_append, List.mem_singleton] at hq
          rcases hq with hq | hq
          · exact v1.gaddr _ q hq
          · subst hq; exact hpa
        · simp only [upd_ne _ _ e] at hq; exact v1.gaddr id' q hq
      · intro id' q hq
        by_cases e : id' = id
        · subst e
          simp only [upd_same, List.mem_append, List.mem_singleton] at hq
          rcases hq with hq | hq
          · exact v1.gseg _ q hq
          · subst hq; exact hseg
        · simp only [upd_ne _ _ e] at hq; exact v1.gseg id' q hq
      · intro id'
        by_cases e : id' = id
        · subst e
          simp only [upd_same]
          rw [List.flatMap_append]
          have h1 := v1.part id'
          have hL : L id' = [] := hLid
          rw [hL, List.nil_append] at h1
          have h2 : List.flatMap nodes [p] = p :: List.range' (p + 1) 127 := by
            simp [nodes, List.range'_succ, perPage]
          rw [h2]
          refine (h1.append_right _).trans ?_
          refine List.perm_append_comm.trans ?_
          rw [List.cons_append]
          exact List.perm_middle.symm
        · simp only [upd_ne _ _ e]; exact v1.part id'

theorem freeNode_ok {x : World} {P : List Nat} {L : Nat → List Nat} {id n : Nat} (v : Inv x P L)
    (hm : n ∈ x.held id) :
    Inv ⟨freeNode x.st id n, upd x.held id ((x.held id).erase n)⟩ P (upd L id (n :: L id)) := by
  have hnp : ∀ p ∈ P, p ≠ n := fun p hp e => v.notPage (Or.inr hm) hp (by rw [← e]; exact self_mem p)
  have hnd := v.nodup id
  rw [List.nodup_append] at hnd
  have hnL : ∀ id', n ∉ L id' := by
    intro id' h
    have := v.apart (Or.inl h) (Or.inr hm)
    subst this
    exact hnd.2.2 n h n hm rfl
  have hpg : ∀ id', ((upd x.st.nm id { x.st.nm id with free := n }) id').pages =
      (x.st.nm id').pages := by
    intro id'; simp only [upd]; split
    · rename_i h; rw [h]
    · rfl
  refine
    { pchain := v.pchain.congr fun p hp => upd_ne _ _ (hnp p hp), nchain := ?_, pnd := v.pnd, gnd := ?_,
      dis := ?_, dis2 := ?_, addr := v.addr, gaddr := ?_, seg := v.seg, gseg := ?_, part := ?_ }
  · intro id'
    simp only [freeNode]
    by_cases e : id' = id
    · subst e
      simp only [upd_same]
      refine ⟨rfl, v.ne_zero (Or.inr hm), ?_⟩
      rw [upd_same]
      exact (v.nchain id').upd (hnL id')
    · simp only [upd_ne _ _ e]
      exact (v.nchain id').upd (hnL id')
  · intro id'; simp only [freeNode, hpg]; exact v.gnd id'
  · intro id'; simp only [freeNode, hpg]; exact v.dis id'
  · intro i j; simp only [freeNode, hpg]; exact v.dis2 i j
  · intro id'; simp only [freeNode, hpg]; exact v.gaddr id'
  · intro id'; simp only [freeNode, hpg]; exact v.gseg id'
  · intro id'
    simp only [freeNode, hpg]
    refine (v.part id').trans ?_
    by_cases e : id' = id
    · subst e
      simp only [upd_same]
      refine ((List.perm_cons_erase hm).append_left (L id')).trans ?_
      rw [List.cons_append]
      exact List.perm_middle
    · simp only [upd_ne _ _ e]; exact List.Perm.refl _

theorem write_ok {x : World} {P : List Nat} {L : Nat → List Nat} {id n w : Nat} (v : Inv x P L)
    (hm : n ∈ x.held id) : Inv ⟨{ x.st with mem := upd x.st.mem n w }, x.held⟩ P L := by
  refine v.mem_change (fun p hp => upd_ne _ _ fun e => ?_) (fun id' a ha => upd_ne _ _ fun e => ?_)
  · exact v.notPage (Or.inr hm) hp (by rw [← e]; exact self_mem p)
  · subst e
    have := v.apart (Or.inl ha) (Or.inr hm)
    subst this
    have hnd := v.nodup id'
    rw [List.nodup_append] at hnd
    exact hnd.2.2 a ha a hm rfl

/-- giving back pages one after the other -/
theorem freePages_chain (ps : List Nat) : ∀ (s : St) (P : List Nat), Chain s.mem s.freePage P →
    ps.Nodup → (∀ p ∈ ps, p ∉ P ∧ p ≠ 0) →
    Chain (ps.foldl freePage s).mem (ps.foldl freePage s).freePage (ps.reverse ++ P) ∧
      (ps.foldl freePage s).nm = s.nm ∧ (ps.foldl freePage s).segs = s.segs ∧
      (ps.foldl freePage s).perSeg = s.perSeg ∧
      ∀ a, a ∉ ps → (ps.foldl freePage s).mem a = s.mem a := by
  induction ps with
  | nil => intro s P h _ _; exact ⟨h, rfl, rfl, rfl, fun _ _ => rfl⟩
  | cons p ps ih =>
    intro s P h hn hd
    simp only [List.nodup_cons] at hn
    obtain ⟨h1, h2⟩ := hd p (List.mem_cons_self ..)
    have hc : Chain (freePage s p).mem (freePage s p).freePage (p :: P) := by
      refine ⟨rfl, h2, ?_⟩
      simp only [freePage, upd_same]
      exact h.upd h1
    obtain ⟨a1, a2, a3, a4, a5⟩ := ih (freePage s p) (p :: P) hc hn.2 (by
      intro q hq
      refine ⟨?_, (hd q (List.mem_cons_of_mem _ hq)).2⟩
      simp only [List.mem_cons, not_or]
      exact ⟨fun e => hn.1 (by rw [← e]; exact hq), (hd q (List.mem_cons_of_mem _ hq)).1⟩)
    refine ⟨?_, a2, a3, a4, ?_⟩
    · rw [List.reverse_cons, List.append_assoc]; exact a1
    · intro a ha
      simp only [List.mem_cons, not_or] at ha
      rw [List.foldl_cons, a5 a ha.2]
      simp only [freePage, upd_ne _ _ ha.1]

theorem nodup_rev {l : List Nat} (h : l.Nodup) : l.reverse.Nodup :=
  (List.reverse_perm l).symm.nodup h

theorem quit_ok {x : World} {P : List Nat} {L : Nat → List Nat} (v : Inv x P L) (id : Nat) :
    Inv ⟨quit x.st id, upd x.held id []⟩ ((x.st.nm id).pages.reverse ++ P) (upd L id []) ∧
      (quit x.st id).perSeg = x.st.perSeg := by
  obtain ⟨h1, h2, h3, h4, h5⟩ := freePages_chain (x.st.nm id).pages x.st P v.pchain (v.gnd id)
    (fun p hp => ⟨v.dis id p hp, by have := (v.gaddr id p hp).1; omega⟩)
  refine ⟨?_, h4⟩
  unfold quit
  have hnm : ∀ id', (upd (List.foldl freePage x.st (x.st.nm id).pages).nm id ⟨0, []⟩) id' =
      if id' = id then ⟨0, []⟩ else x.st.nm id' := by
    intro id'; rw [h2]; rfl
  refine
    { pchain := h1, nchain := ?_, pnd := ?_, gnd := ?_, dis := ?_, dis2 := ?_, addr := ?_, gaddr := ?_,
      seg := ?_, gseg := ?_, part := ?_ }
  · intro id'
    simp only [hnm]
    by_cases e : id' = id
    · subst e; simp only [if_true, upd_same]; exact rfl
    · simp only [if_neg e, upd_ne _ _ e]
      refine (v.nchain id').congr fun a ha => h5 a fun hm => ?_
      obtain ⟨q, hq, hq2⟩ := v.mem_part.mp (Or.inl ha)
      have := page_eq (v.gaddr _ _ hm) (v.gaddr _ _ hq) (self_mem a) hq2
      subst this
      exact v.dis2 _ _ e _ hq hm
  · rw [List.nodup_append]
    refine ⟨nodup_rev (v.gnd id), v.pnd, ?_⟩
    intro a ha b hb e
    subst e
    exact v.dis id a (List.mem_reverse.mp ha) hb
  · intro id'; simp only [hnm]; split
    · exact List.nodup_nil
    · exact v.gnd id'
  · intro id' p hp
    simp only [hnm] at hp
    split at hp
    · cases hp
    · rename_i e
      simp only [List.mem_append, List.mem_reverse, not_or]
      exact ⟨v.dis2 _ _ e p hp, v.dis id' p hp⟩
  · intro i j hij p hp
    simp only [hnm] at hp ⊢
    split at hp
    · cases hp
    · split
      · exact List.not_mem_nil
      · exact v.dis2 i j hij p hp
  · intro p hp
    simp only [List.mem_append, List.mem_reverse] at hp
    exact hp.elim (v.gaddr id p) (v.addr p)
  · intro id' p hp
    simp only [hnm] at hp
    split at hp
    · cases hp
    · exact v.gaddr id' p hp
  · intro p hp
    simp only [List.mem_append, List.mem_reverse] at hp
    simp only [h3]
    exact hp.elim (v.gseg id p) (v.seg p)
  · intro id' p hp
    simp only [hnm] at hp
    simp only [h3]
    split at hp
    · cases hp
    · exact v.gseg id' p hp
  · intro id'
    simp only [hnm]
    by_cases e : id' = id
    · subst e; simp
    · simp only [if_neg e, upd_ne _ _ e]; exact v.part id'

theorem Reach.inv {n : Nat} (hn : 0 < n) {x : World} (h : Reach n x) :
    (∃ P L, Inv x P L) ∧ 0 < x.st.perSeg := by
  induction h with
  | init =>
    refine ⟨⟨[], fun _ => [], ?_⟩, hn⟩
    constructor <;> simp [Pages.init, Chain]
  | @step x y op os os' r hr hl hs hstep ih =>
    obtain ⟨⟨P, L, v⟩, hp⟩ := ih
    cases op with
    | alloc id w =>
      simp only [World.step, Option.map_eq_some_iff] at hstep
      obtain ⟨⟨m, s', o⟩, he, h⟩ := hstep
      simp only [Prod.mk.injEq] at h
      obtain ⟨-, rfl, -⟩ := h
      obtain ⟨-, -, h3, h4⟩ := allocNode_ok v hs hp he
      exact ⟨h4, h3⟩
    | free id m =>
      simp only [World.step, Option.some.injEq, Prod.mk.injEq] at hstep
      obtain ⟨-, rfl, -⟩ := hstep
      exact ⟨⟨_, _, freeNode_ok v hl⟩, hp⟩
    | write m w =>
      simp only [World.step, Option.some.injEq, Prod.mk.injEq] at hstep
      obtain ⟨-, rfl, -⟩ := hstep
      obtain ⟨id, hm⟩ := hl
      exact ⟨⟨_, _, write_ok v hm⟩, hp⟩
    | quit id =>
      simp only [World.step, Option.some.injEq, Prod.mk.injEq] at hstep
      obtain ⟨-, rfl, -⟩ := hstep
      obtain ⟨h1, h2⟩ := quit_ok v id
      exact ⟨⟨_, _, h1⟩, by simp only [h2]; exact hp⟩

/-! ## The property -/

/-- C51: in every legal history of allocations, frees, writes to held nodes and returned levels - for
every number of managers sharing the pages and every sound behaviour of the system - an allocation
hands out a non-nil node that no one holds, under any id. -/
theorem C51_fresh {n : Nat} (hn : 0 < n) {x y : World} {os os' : Os} {id w : Nat} {r : Option Nat}
    (h : Reach n x) (hs : OsSound x.st os) (hst : x.step os (.alloc id w) = some (r, y, os')) :
    ∃ a, r = some a ∧ a ≠ 0 ∧ (∀ id', a ∉ x.held id') ∧ y.held id = a :: x.held id := by
  obtain ⟨⟨P, L, v⟩, hp⟩ := h.inv hn
  simp only [World.step, Option.map_eq_some_iff] at hst
  obtain ⟨⟨m, s', o⟩, he, h⟩ := hst
  simp only [Prod.mk.injEq] at h
  obtain ⟨rfl, rfl, -⟩ := h
  obtain ⟨h1, h2, -, -⟩ := allocNode_ok v hs hp he
  exact ⟨m, rfl, h1, h2, by simp⟩

/-- C51: no two holders ever share a node, and no node is held twice. -/
theorem C51_disjoint {n : Nat} (hn : 0 < n) {x : World} (h : Reach n x) :
    (∀ id, (x.held id).Nodup) ∧ ∀ id id', id ≠ id' → ∀ a ∈ x.held id, a ∉ x.held id' := by
  obtain ⟨⟨P, L, v⟩, -⟩ := h.inv hn
  refine ⟨fun id => ?_, fun id id' hne a h1 h2 => hne (v.apart (Or.inr h1) (Or.inr h2))⟩
  have := v.nodup id
  rw [List.nodup_append] at this
  exact this.2.1

/-- C51: no node is lost. In every reachable state the nodes of the pages of an id are exactly the
nodes held plus the nodes on its free list, and that free list is a nil-terminated list in memory. -/
theorem C51_no_leak {n : Nat} (hn : 0 < n) {x : World} (h : Reach n x) (id : Nat) :
    ∃ L, Chain x.st.mem (x.st.nm id).free L ∧
      ((x.st.nm id).pages.flatMap nodes).Perm (L ++ x.held id) := by
  obtain ⟨⟨P, L, v⟩, -⟩ := h.inv hn
  exact ⟨L id, v.nchain id, v.part id⟩

/-- C51: a freed node is available again: it is what the next allocation for that id returns, and no
request to the system is needed for it. -/
theorem C51_reuse {n : Nat} (hn : 0 < n) {x : World} (h : Reach n x) {id a : Nat} (ha : a ∈ x.held id)
    (w : Nat) (os : Os) :
    ∃ y z, x.step os (.free id a) = some (none, y, os) ∧
      y.step os (.alloc id w) = some (some a, z, os) := by
  obtain ⟨⟨P, L, v⟩, -⟩ := h.inv hn
  have h0 := v.ne_zero (Or.inr ha)
  refine ⟨_, ⟨{ freeNode x.st id a with
      nm := upd (freeNode x.st id a).nm id
        { (freeNode x.st id a).nm id with free := (freeNode x.st id a).mem a }
      mem := upd (freeNode x.st id a).mem a w },
    upd (upd x.held id ((x.held id).erase a)) id
      (a :: (upd x.held id ((x.held id).erase a)) id)⟩, rfl, ?_⟩
  have hf : ((freeNode x.st id a).nm id).free = a := by simp [freeNode]
  simp only [World.step, allocNode, hf]
  rw [if_pos h0]
  rfl

/-- A run: take two nodes for id 1, one for id 2, give one back, return the level of id 2. -/
def demo : Option (World × Os) := do
  let x : World := ⟨init 4, fun _ => []⟩
  let (_, x, _) ← x.step [some 256] (.alloc 1 7)
  let (_, x, _) ← x.step [] (.alloc 1 7)
  let (_, x, _) ← x.step [] (.alloc 2 7)
  let (_, x, _) ← x.step [] (.free 1 256)
  let (_, x, _) ← x.step [] (.quit 2)
  let (r, x, o) ← x.step [] (.alloc 1 9)
  if r = some 256 then return (x, o) else none

/-- the run goes through, hands node 256 out again, and what is held at the end is as expected -/
example : (demo.map fun r => (r.1.held 1, r.1.held 2, r.1.st.freePage)) =
    some ([256, 257], [], 384) := by decide +kernel

/-- a reachable world in which nodes of two ids are held, after an answer of the system -/
example : ∃ x, Reach 4 x ∧ x.held 1 = [256] := by
  refine ⟨⟨((allocNode (init 4) 1 7 [some 256]).map (·.2.1)).getD (init 4), upd (fun _ => []) 1 [256]⟩, ?_, by simp⟩
  refine Reach.step (op := .alloc 1 7) (os := [some 256]) (r := some 256) Reach.init trivial ?_ rfl
  intro b hb n hn
  simp only [List.mem_singleton, Option.some.injEq] at hb
  subst hb
  exact ⟨by decide, by decide, fun q hq => by cases hq⟩

end Cal.Pages
