import Verif.GC

/-!
# The computed table (`calCacheTableTwo.c`)

A direct-mapped cache of results. The hash function is an arbitrary function: correctness may not
depend on it.
-/

namespace Cal

/-- A node pointer with its complement bit, as stored in a cache entry (no variable id). -/
structure Ptr where
  addr : Nat
  neg : Bool
deriving DecidableEq, Repr

/-- `CalBddGetBddNode` (calInt.h:692) -/
def Edge.ptr (e : Edge) : Ptr := ⟨e.addr, e.neg⟩

/-- The pointer as a number, used to sort operands. -/
def Ptr.key (p : Ptr) : Nat := 2 * p.addr + p.neg.toNat

/-- `CacheEntryStruct` (calCacheTableTwo.c:68-75). `tmp` is the tag `0x2` of `operand1`, set while the
result is a request that still has to be replaced by the node it is forwarded to. -/
structure Entry where
  op : Nat
  o1 : Ptr
  o2 : Ptr
  r : Edge
  tmp : Bool
deriving DecidableEq, Repr

/-- `CalCacheTableStruct` (calCacheTableTwo.c:56-66). `none` is a zeroed bin. The statistics counters
are left out. -/
structure Cache where
  /-- `numBins = TABLE_SIZE(sizeIndex)` = `1 << sizeIndex` -/
  sizeIndex : Nat
  bins : Nat → Option Entry
  numEntries : Nat
  /-- `CacheTableTwoDoHash` before masking -/
  hash : Ptr → Ptr → Nat → Nat

namespace Cache

def numBins (c : Cache) : Nat := 2 ^ c.sizeIndex

/-- `CacheTableTwoDoHash` (calCacheTableTwo.c:84-95) -/
def index (c : Cache) (p q : Ptr) (op : Nat) : Nat := c.hash p q op % c.numBins

/-- a bin that is in use: its op code is not `CAL_OP_INVALID` (calInt.h:235) (0) -/
def used : Option Entry → Bool
  | some e => e.op != 0
  | none => false

/-- `CalCacheTableTwoInit` (calCacheTableTwo.c:131-162): 2^16 empty bins. -/
def init (h : Ptr → Ptr → Nat → Nat) : Cache := ⟨16, fun _ => none, 0, h⟩

/-- the operands in the order of their pointers (calCacheTableTwo.c:256-264) -/
def sortOps (p q : Ptr) : Ptr × Ptr := if p.key > q.key then (q, p) else (p, q)

/-- `CalCacheTableTwoInsert` (calCacheTableTwo.c:230-280). The op code is stored as an unsigned
short. -/
def insert (c : Cache) (f g r : Edge) (op : Nat) (level : Bool) : Cache :=
  let i := c.index f.ptr g.ptr op
  { c with
    numEntries := if used (c.bins i) then c.numEntries else c.numEntries + 1
    bins := upd c.bins i
      (some ⟨op % 65536, (sortOps f.ptr g.ptr).1, (sortOps f.ptr g.ptr).2, r, level⟩) }

/-- `CalCacheTableTwoLookup` (calCacheTableTwo.c:285-319). -/
def lookup (c : Cache) (f g : Edge) (op : Nat) : Option Edge :=
  match c.bins (c.index f.ptr g.ptr op) with
  | none => none
  | some e =>
    if e.o1 = (sortOps f.ptr g.ptr).1 ∧ e.o2 = (sortOps f.ptr g.ptr).2 ∧ e.op = op then some e.r
    else none

/-- `CalCacheTableTwoFlush` (calCacheTableTwo.c:324-330). -/
def flush (c : Cache) : Cache := { c with bins := fun _ => none, numEntries := 0 }

/-- number of `i < n` with `f i` -/
def tally (f : Nat → Bool) (n : Nat) : Nat := sumTo (fun i => (f i).toNat) n

/-- whether a bin holds an entry that satisfies `p` -/
def holds (p : Entry → Bool) : Option Entry → Bool
  | some e => p e
  | none => false

/-- Zero the bins whose entry satisfies `p`, decrementing `numEntries` for each. -/
def drop (c : Cache) (p : Entry → Bool) : Cache :=
  { c with
    bins := fun i => if holds p (c.bins i) then none else c.bins i
    numEntries := c.numEntries - tally (fun i => holds p (c.bins i)) c.numBins }

/-- `CalCacheTableTwoGCFlush` (calCacheTableTwo.c:347-365): nothing to do if no entry is counted,
otherwise drop the entries in use that mention a marked node. `marked` says which addresses are
marked. -/
def gcFlush (c : Cache) (marked : Nat → Bool) : Cache :=
  if c.numEntries = 0 then c
  else c.drop fun e => e.op != 0 && (marked e.o1.addr || marked e.o2.addr || marked e.r.addr)

/-- `CAL_OP_*` (calInt.h). -/
def opNAND : Nat := 0x3000
def opQUANT : Nat := 0x4000
def opRELPROD : Nat := 0x5000
def opVARSUBST : Nat := 0x8000

/-- `CalCacheTableTwoFlushAssociationId` (calCacheTableTwo.c:476-494). -/
def flushAssoc (c : Cache) (id : Nat) : Cache :=
  c.drop fun e => e.op == opQUANT + id || e.op == opRELPROD + id || e.op == opVARSUBST + id

/-- One step of the copy loop of `CacheTableTwoRehash` (calCacheTableTwo.c:195-212): the entry of an
old bin goes to its new bin. -/
def rehashStep (c : Cache) : Option Entry → Cache
  | none => c
  | some e =>
    if e.op = 0 then c
    else
      let i := c.index e.o1 e.o2 e.op
      { c with
        numEntries := if used (c.bins i) then c.numEntries - 1 else c.numEntries
        bins := upd c.bins i (some e) }

/-- `CacheTableTwoRehash` (calCacheTableTwo.c:167-214). -/
def rehash (c : Cache) (grow : Bool) : Cache :=
  if !grow && c.sizeIndex ≤ 16 then c
  else
    let c' := { c with sizeIndex := if grow then c.sizeIndex + 1 else c.sizeIndex - 1,
                       bins := fun _ => none }
    (List.range c.numBins).foldl (fun d i => d.rehashStep (c.bins i)) c'

/-- `CalCacheTableRehash` (calCacheTableTwo.c:463-473); `cacheRatio` is 4. -/
def rehashCheck (c : Cache) (numNodes : Nat) : Cache :=
  if 3 * c.numBins < 4 * c.numEntries ∧ 32 * c.numBins < 8 * numNodes then c.rehash true else c

/-- `CalCacheTableTwoFixResultPointers` (calCacheTableTwo.c:415-431) on the bins of the table; `fwd`
is `CacheResultNodeIsForwardedTo`. -/
def fixResults (c : Cache) (fwd : Edge → Edge) : Cache :=
  { c with bins := fun i => match c.bins i with
    | some e => if e.tmp then some { e with r := fwd e.r, tmp := false } else some e
    | none => none }

end Cache

/-! ## Valid entries -/

/-- function of a pointer -/
def pden (δ : Nat → BFn) (p : Ptr) : BFn := fun ρ => xor p.neg (δ p.addr ρ)

theorem pden_ptr (δ : Nat → BFn) (e : Edge) : pden δ e.ptr = den δ e := rfl

/-- a pointer to a node of the store -/
def Store.POK (s : Store) (p : Ptr) : Prop := p.addr = 0 ∨ s.heap p.addr ≠ none

theorem Store.EOK.pok {s : Store} {e : Edge} (h : s.EOK e) : s.POK e.ptr := by
  rcases h with ⟨_, h⟩ | ⟨n, h, _⟩
  · exact Or.inl h
  · exact Or.inr (by show s.heap e.addr ≠ none; rw [h]; simp)

/-- An entry that may be used: operands and result are nodes of the store, and the result stands for
`Γ op` of the conjunction of the operands. `Γ` is the meaning of op codes: negation for `NAND`,
existential quantification for `QUANT` and `RELPROD`, a substitution for `VAR_SUBSTITUTE`. -/
structure Entry.Valid (s : Store) (Γ : Nat → BFn → BFn) (e : Entry) : Prop where
  used : e.op ≠ 0
  fixed : e.tmp = false
  p1 : s.POK e.o1
  p2 : s.POK e.o2
  res : s.EOK e.r
  sem : ∀ δ, Lab s δ → den δ e.r = Γ e.op (fun ρ => pden δ e.o1 ρ && pden δ e.o2 ρ)

/-- All entries are valid. -/
structure Cache.Valid (s : Store) (Γ : Nat → BFn → BFn) (c : Cache) : Prop where
  ent : ∀ i e, c.bins i = some e → e.Valid s Γ
  count : c.numEntries = Cache.tally (fun i => Cache.used (c.bins i)) c.numBins
  range : ∀ i e, c.bins i = some e → i < c.numBins

theorem Store.POK.mono {s s' : Store} (h : s.Le s') {p} (hp : s.POK p) : s'.POK p := by
  rcases hp with hp | hp
  · exact Or.inl hp
  · cases hx : s.heap p.addr with
    | none => exact absurd hx hp
    | some n => exact Or.inr (by rw [h.heap _ _ hx]; simp)

theorem Lab.anti {s s' : Store} (h : s.Le s') {δ} (l : Lab s' δ) : Lab s δ :=
  ⟨l.const, fun a n hn => l.node a n (h.heap a n hn)⟩

theorem Entry.Valid.mono {s s' : Store} {Γ} (h : s.Le s') {e : Entry} (v : e.Valid s Γ) :
    e.Valid s' Γ :=
  ⟨v.used, v.fixed, v.p1.mono h, v.p2.mono h, v.res.mono h, fun δ l => v.sem δ (l.anti h)⟩

theorem Cache.Valid.mono {s s' : Store} {Γ} (h : s.Le s') {c : Cache} (v : c.Valid s Γ) :
    c.Valid s' Γ := ⟨fun i e hi => (v.ent i e hi).mono h, v.count, v.range⟩

namespace Cache

theorem numBins_pos (c : Cache) : 0 < c.numBins := Nat.two_pow_pos _

theorem index_lt (c : Cache) (p q op) : c.index p q op < c.numBins := Nat.mod_lt _ c.numBins_pos

theorem sort_and (δ : Nat → BFn) (p q : Ptr) :
    (fun ρ => pden δ (sortOps p q).1 ρ && pden δ (sortOps p q).2 ρ) =
      fun ρ => pden δ p ρ && pden δ q ρ := by
  funext ρ
  unfold sortOps
  split
  · exact Bool.and_comm _ _
  · rfl

theorem sort_pok {s : Store} {p q : Ptr} (hp : s.POK p) (hq : s.POK q) :
    s.POK (sortOps p q).1 ∧ s.POK (sortOps p q).2 := by
  unfold sortOps; split
  · exact ⟨hq, hp⟩
  · exact ⟨hp, hq⟩

theorem sort_mem {p q a b : Ptr} (h1 : a = (sortOps p q).1) (h2 : b = (sortOps p q).2) :
    (a = p ∧ b = q) ∨ (a = q ∧ b = p) := by
  unfold sortOps at h1 h2; split at h1 <;> simp_all

theorem Valid.init (s : Store) (Γ) (h) : (Cache.init h).Valid s Γ := by
  refine ⟨by simp [Cache.init], ?_, by simp [Cache.init]⟩
  simp only [Cache.init, used]
  exact (sumTo_zero (fun _ _ => rfl)).symm

/-- changing one bin changes the count by one -/
theorem count_upd {f g : Nat → Bool} {n i} (hi : i < n) (h : ∀ j, j ≠ i → f j = g j) :
    tally f n + (g i).toNat = tally g n + (f i).toNat :=
  sumTo_change (f := fun j => (f j).toNat) (g := fun j => (g j).toNat) hi
    (fun j hj => by simp only [h j hj])

theorem Valid.insert {s : Store} {Γ} {c : Cache} (v : c.Valid s Γ) {f g r : Edge} {op : Nat}
    (hop : op ≠ 0) (hop' : op < 65536) (hf : s.EOK f) (hg : s.EOK g) (hr : s.EOK r)
    (hs : ∀ δ, Lab s δ → den δ r = Γ op (fun ρ => den δ f ρ && den δ g ρ)) :
    (c.insert f g r op false).Valid s Γ := by
  have hm : op % 65536 = op := Nat.mod_eq_of_lt hop'
  have pk := sort_pok hf.pok hg.pok
  refine ⟨?_, ?_, ?_⟩
  · intro i e hi
    simp only [Cache.insert] at hi
    by_cases h : i = c.index f.ptr g.ptr op
    · subst h
      rw [upd_same] at hi; cases hi
      refine ⟨by simp only [hm]; exact hop, rfl, pk.1, pk.2, hr, ?_⟩
      intro δ l
      simp only [hm]
      rw [sort_and]
      exact hs δ l
    · rw [upd_ne _ _ h] at hi; exact v.ent i e hi
  · have hc := count_upd (f := fun j => used ((c.insert f g r op false).bins j))
      (g := fun j => used (c.bins j)) (c.index_lt f.ptr g.ptr op)
      (fun j hj => by simp only [Cache.insert, upd_ne _ _ hj])
    have hu : used ((c.insert f g r op false).bins (c.index f.ptr g.ptr op)) = true := by
      simp [Cache.insert, used, hm, hop]
    have hv := v.count
    simp only [hu, Bool.toNat_true] at hc
    show (if used (c.bins (c.index f.ptr g.ptr op)) then c.numEntries else c.numEntries + 1) =
      tally (fun j => used ((c.insert f g r op false).bins j)) c.numBins
    split
    · rename_i h; rw [h] at hc; simp at hc; omega
    · rename_i h; rw [Bool.not_eq_true] at h; rw [h] at hc; simp at hc; omega
  · intro i e hi
    simp only [Cache.insert] at hi
    by_cases h : i = c.index f.ptr g.ptr op
    · subst h; exact c.index_lt _ _ _
    · rw [upd_ne _ _ h] at hi; exact v.range i e hi

/-- A hit returns a correct result. -/
theorem Valid.lookup {s : Store} {Γ} {c : Cache} (v : c.Valid s Γ) {f g r : Edge} {op : Nat}
    (h : c.lookup f g op = some r) :
    s.EOK r ∧ ∀ δ, Lab s δ → den δ r = Γ op (fun ρ => den δ f ρ && den δ g ρ) := by
  unfold Cache.lookup at h
  cases hb : c.bins (c.index f.ptr g.ptr op) with
  | none => rw [hb] at h; cases h
  | some e =>
    rw [hb] at h
    simp only at h
    split at h
    · rename_i hc
      cases h
      have := v.ent _ _ hb
      refine ⟨this.res, fun δ l => ?_⟩
      rw [this.sem δ l, hc.1, hc.2.1, hc.2.2, sort_and]
      rfl
    · cases h

theorem Valid.flush {s : Store} {Γ} {c : Cache} : c.flush.Valid s Γ := by
  refine ⟨by simp [Cache.flush], ?_, by simp [Cache.flush]⟩
  simp only [Cache.flush, used]
  exact (sumTo_zero (fun _ _ => rfl)).symm

theorem count_split (f g : Nat → Bool) (n) (h : ∀ i, g i = true → f i = true) :
    tally f n = tally (fun i => f i && !g i) n + tally g n := by
  unfold tally
  rw [← sumTo_add]
  apply sumTo_congr
  intro i _
  have := h i
  cases hf : f i <;> cases hg : g i <;> simp_all

/-- Dropping entries keeps the rest. -/
theorem Valid.drop {s s' : Store} {Γ Γ'} {c : Cache} (v : c.Valid s Γ) (p : Entry → Bool)
    (hk : ∀ i e, c.bins i = some e → p e = false → e.Valid s' Γ') :
    (c.drop p).Valid s' Γ' := by
  refine ⟨?_, ?_, ?_⟩
  · intro i e hi
    simp only [Cache.drop] at hi
    split at hi
    · cases hi
    · rename_i h
      rw [hi] at h
      exact hk i e hi (by simpa [holds] using h)
  · have hs := count_split (fun i => used (c.bins i))
      (fun i => holds p (c.bins i)) c.numBins (by
        intro i hi
        cases hb : c.bins i with
        | none => rw [hb] at hi; cases hi
        | some e => simp [used, (v.ent i e hb).used])
    have he : tally (fun i => used ((c.drop p).bins i)) c.numBins =
        tally (fun i => used (c.bins i) &&
          !holds p (c.bins i)) c.numBins := by
      apply sumTo_congr
      intro i _
      simp only [Cache.drop]
      cases hb : c.bins i with
      | none => simp [used, holds]
      | some e => cases hp : p e <;> simp [used, holds, hp]
    have hv := v.count
    show c.numEntries - tally (fun i => holds p (c.bins i)) c.numBins
      = tally (fun i => used ((c.drop p).bins i)) c.numBins
    rw [he]; omega
  · intro i e hi
    simp only [Cache.drop] at hi
    split at hi
    · cases hi
    · exact v.range i e hi

theorem count_zero {f : Nat → Bool} {n} (h : tally f n = 0) : ∀ i, i < n → f i = false := by
  intro i hi
  have := sumTo_ge (f := fun i => (f i).toNat) hi
  unfold tally at h
  rw [h] at this
  cases hf : f i
  · rfl
  · simp [hf] at this

/-- If no entries are counted the cache is empty. -/
theorem Valid.empty {s : Store} {Γ} {c : Cache} (v : c.Valid s Γ) (h : c.numEntries = 0) :
    ∀ i, c.bins i = none := by
  intro i
  cases hb : c.bins i with
  | none => rfl
  | some e =>
    have h1 := count_zero (v.count ▸ h) i (v.range i e hb)
    simp [hb, used, (v.ent i e hb).used] at h1

/-- A valid entry whose nodes all survive stays valid when other nodes disappear. -/
theorem _root_.Cal.Entry.Valid.shrink {s s' : Store} {Γ} (sh : s.Shrink s') (w : s.WF) (w' : s'.WF)
    {e : Entry} (v : e.Valid s Γ) (h1 : s'.POK e.o1) (h2 : s'.POK e.o2) (h3 : s'.EOK e.r) :
    e.Valid s' Γ := by
  refine ⟨v.used, v.fixed, h1, h2, h3, ?_⟩
  intro δ l
  obtain ⟨δ0, hδ0⟩ := w.exists_lab
  have hsem := v.sem δ0 hδ0
  have agree : ∀ e : Edge, s'.EOK e → den δ e = den δ0 e := by
    intro e he
    have := (sh.lab hδ0).rep w' he
    exact l.rep_eq this
  have pagree : ∀ p : Ptr, s'.POK p → pden δ p = pden δ0 p := by
    intro p hp
    rcases hp with hp | hp
    · funext ρ; simp only [pden, hp, l.const, hδ0.const]
    · cases hx : s'.heap p.addr with
      | none => exact absurd hx hp
      | some n => exact agree ⟨n.var, p.addr, p.neg⟩ (Or.inr ⟨n, hx, rfl⟩)
  rw [agree _ h3, hsem, pagree _ h1, pagree _ h2]

/-- After a garbage collection the flush of the entries of freed nodes makes the cache valid again,
even though the addresses of freed nodes will be reused. -/
theorem Valid.gcFlush {s s' : Store} {Γ} {c : Cache} (v : c.Valid s Γ) (w : s.WF) (w' : s'.WF)
    (sh : s.Shrink s') {fr : List Nat}
    (hfr : ∀ a n, s.heap a = some n → (s'.heap a = some n ∨ (a ∈ fr ∧ s'.heap a = none))) :
    (c.gcFlush (fun a => fr.contains a)).Valid s' Γ := by
  unfold Cache.gcFlush
  split
  · rename_i h0
    have he := v.empty h0
    refine ⟨fun i e hi => ?_, ?_, fun i e hi => v.range i e hi⟩
    · rw [he i] at hi; cases hi
    · exact v.count
  · refine v.drop _ ?_
    intro i e hi hp
    have ev := v.ent i e hi
    have hu : (e.op != 0) = true := by simpa using ev.used
    rw [hu, Bool.true_and] at hp
    simp only [Bool.or_eq_false_iff, List.contains_eq_mem, decide_eq_false_iff_not] at hp
    have surv : ∀ p : Ptr, s.POK p → p.addr ∉ fr → s'.POK p := by
      intro p hp hn
      rcases hp with hp | hp
      · exact Or.inl hp
      · cases hx : s.heap p.addr with
        | none => exact absurd hx hp
        | some n =>
          rcases hfr _ _ hx with h | ⟨h, _⟩
          · exact Or.inr (by rw [h]; simp)
          · exact absurd h hn
    refine ev.shrink sh w w' (surv _ ev.p1 hp.1.1) (surv _ ev.p2 hp.1.2) ?_
    rcases ev.res with h | ⟨n, hn, hv⟩
    · exact Or.inl h
    · rcases hfr _ _ hn with h | ⟨h, _⟩
      · exact Or.inr ⟨n, h, hv⟩
      · exact absurd h hp.2

/-- Rehashing. -/
theorem Valid.rehash {s : Store} {Γ} {c : Cache} (v : c.Valid s Γ) (grow : Bool) :
    (c.rehash grow).Valid s Γ := by
  unfold Cache.rehash
  split
  · exact v
  · -- invariant of the copy loop: `numEntries` is the number of bins used plus those not copied yet
    have key : ∀ n (d : Cache), d.hash = c.hash → (∀ i e, d.bins i = some e → e.Valid s Γ) →
        (∀ i e, d.bins i = some e → i < d.numBins) →
        d.numEntries = tally (fun i => used (d.bins i)) d.numBins +
          tally (fun i => used (c.bins (c.numBins - n + i))) n → n ≤ c.numBins →
        (((List.range' (c.numBins - n) n)).foldl (fun d i => d.rehashStep (c.bins i)) d).Valid s Γ := by
      intro n
      induction n with
      | zero =>
        intro d _ h1 h2 h3 _
        simp only [List.range', List.foldl_nil]
        exact ⟨h1, by simpa [tally, sumTo] using h3, h2⟩
      | succ n ih =>
        intro d hh h1 h2 h3 hn
        rw [List.range'_succ, List.foldl_cons]
        have e1 : c.numBins - (n + 1) + 1 = c.numBins - n := by omega
        rw [e1]
        have hshift : tally (fun i => used (c.bins (c.numBins - (n+1) + i))) (n+1) =
            (used (c.bins (c.numBins - (n+1)))).toNat +
              tally (fun i => used (c.bins (c.numBins - n + i))) n := by
          have : ∀ (f : Nat → Nat) m, sumTo f (m+1) = f 0 + sumTo (fun i => f (i+1)) m := by
            intro f m
            induction m with
            | zero => simp [sumTo]
            | succ m ih => rw [sumTo, ih, sumTo]; omega
          unfold tally
          rw [this]
          congr 1
          apply sumTo_congr
          intro i _
          simp only []
          rw [show c.numBins - (n+1) + (i+1) = c.numBins - n + i by omega]
        rw [hshift] at h3
        cases hb : c.bins (c.numBins - (n+1)) with
        | none =>
          simp only [rehashStep]
          refine ih d hh h1 h2 ?_ (by omega)
          rw [hb] at h3
          simpa [used] using h3
        | some e =>
          have ev := v.ent _ _ hb
          have hu : used (c.bins (c.numBins - (n+1))) = true := by simp [hb, used, ev.used]
          rw [hu] at h3
          simp only [rehashStep, ev.used, if_false]
          refine ih _ hh ?_ ?_ ?_ (by omega)
          · intro i e' hi
            by_cases h : i = d.index e.o1 e.o2 e.op
            · subst h; simp only [upd_same] at hi; cases hi; exact ev
            · simp only [upd_ne _ _ h] at hi; exact h1 i e' hi
          · intro i e' hi
            by_cases h : i = d.index e.o1 e.o2 e.op
            · subst h; exact d.index_lt _ _ _
            · simp only [upd_ne _ _ h] at hi; exact h2 i e' hi
          · have hc := count_upd
              (f := fun j => used (upd d.bins (d.index e.o1 e.o2 e.op) (some e) j))
              (g := fun j => used (d.bins j)) (d.index_lt e.o1 e.o2 e.op)
              (fun j hj => by simp only [upd_ne _ _ hj])
            have hu : used (upd d.bins (d.index e.o1 e.o2 e.op) (some e)
                (d.index e.o1 e.o2 e.op)) = true := by simp [used, ev.used]
            simp only [hu, Bool.toNat_true] at hc
            show (if used (d.bins (d.index e.o1 e.o2 e.op)) then d.numEntries - 1 else d.numEntries)
              = tally (fun j => used (upd d.bins (d.index e.o1 e.o2 e.op) (some e) j)) d.numBins + _
            simp only [Bool.toNat_true] at h3
            split
            · rename_i h; rw [h] at hc; simp at hc; omega
            · rename_i h; rw [Bool.not_eq_true] at h; rw [h] at hc; simp at hc; omega
    have := key c.numBins { c with sizeIndex := if grow then c.sizeIndex + 1 else c.sizeIndex - 1,
                                   bins := fun _ => none } rfl
      (by intro i e hi; cases hi) (by intro i e hi; cases hi) (by
        have h0 : ∀ n, tally (fun _ => used none) n = 0 := fun n => sumTo_zero (fun _ _ => rfl)
        simp only [h0, Nat.sub_self, Nat.zero_add]
        exact v.count) (Nat.le_refl _)
    rw [Nat.sub_self, ← List.range_eq_range'] at this
    exact this

theorem Valid.rehashCheck {s : Store} {Γ} {c : Cache} (v : c.Valid s Γ) (n : Nat) :
    (c.rehashCheck n).Valid s Γ := by
  unfold Cache.rehashCheck; split
  · exact v.rehash true
  · exact v

end Cache

end Cal
