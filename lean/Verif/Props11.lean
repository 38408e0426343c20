import Verif.DfReorder
import Verif.Demo

/-!
# Properties, part 11: variable blocks and the steps of reordering
-/

namespace Cal

/-! ## C39: the exchange of two adjacent variables -/

/-- `BddExchange` on any well-formed store (converted by `BddConvertDataStruct`, here `Df.strip`), for any
variable `x` with a variable `y` below it: it succeeds; converted back the store is well formed
(reduced, canonical and ordered) for the order with `x` and `y` exchanged; the reference counts are
exact for the same external references; every node that is left stands for the same function as
before, and every node with an external reference is left. -/
theorem C39_exchange {s : Store} (w : s.WF) {ext : Nat → Nat} (r : s.RefOK ext) (nm : s.NumOK) {d : Df.St}
    (hd : d.st = Df.strip s) {i : Nat} (hi : i + 1 < s.ord.numVars)
    (hit : Interact.test s.ord.numVars d.mat (s.ord.indexToId i) (s.ord.indexToId (i + 1)) = some true) :
    ∃ d' s', Df.exchange d (s.ord.indexToId i) = some d' ∧ s' = Df.reid d'.st ∧
      s'.WF ∧ s'.RefOK ext ∧ s'.NumOK ∧
      s'.ord.numVars = s.ord.numVars ∧
      (∀ k, s'.ord.indexToId k = if k = i then s.ord.indexToId (i + 1)
        else if k = i + 1 then s.ord.indexToId i else s.ord.indexToId k) ∧
      (∀ e F, Rep s e F → e.addr = 0 ∨ s'.heap e.addr ≠ none → Rep s' (Df.reidE d'.st e) F) ∧
      (∀ a, a ≠ 0 → 0 < ext a → s'.heap a ≠ none) := by
  have pw : Df.PWF d.st := by rw [hd]; exact Df.PWF.strip w
  have hr := w.ord.id_range i (by omega)
  have hidx : s.ord.idToIndex (s.ord.indexToId i) = i := w.ord.right i (by omega)
  have ho : d.st.ord = s.ord := by rw [hd]; rfl
  generalize hx : s.ord.indexToId i = x at *
  generalize hy : s.ord.indexToId (i + 1) = y at *
  have A : Df.Adj d.st x y := by
    have := Df.adj_of pw (x := x) hr.1 (by rw [ho]; exact hr.2) (by rw [ho, hidx]; exact hi)
    rw [ho, hidx, hy] at this; exact this
  have pr : d.st.RefOK ext := by rw [hd]; exact Df.refOK_strip.2 r
  have pn : d.st.NumOK := by rw [hd]; exact nm
  obtain ⟨δ, l⟩ := w.exists_lab
  have pl : Lab d.st δ := by rw [hd]; exact Df.lab_strip.2 l
  have A' : Df.Adj { d with swaps := d.swaps + 1 }.st x y := A
  obtain ⟨d1, δ1, e1, fr, ho1, w1, r1, n1, l1, ag, _⟩ := Df.exchangeNodes_spec A' pr pn pl
  have hst : (Df.swapLevels d1 x y).st = { d1.st with ord := Df.swapOrder d.st.ord x y } := by
    show ({ d1.st with ord := Df.swapOrder d1.st.ord x y } : Store) = _
    rw [ho1]
  refine ⟨Df.swapLevels d1 x y, _, ?_, rfl, ?_, ?_, ?_, ?_, ?_, ?_, ?_⟩
  · unfold Df.exchange
    simp only [ho]
    rw [if_pos ⟨hr.1, hr.2, by omega⟩, hidx, hy, hit]
    simp only
    rw [e1]; rfl
  · rw [hst]; exact w1.reid
  · rw [hst]; exact Df.refOK_reid.2 r1
  · rw [hst]; exact n1
  · rw [hst]; show (Df.swapOrder d.st.ord x y).numVars = _; rw [ho]; rfl
  · intro k
    rw [hst]
    show (Df.swapOrder d.st.ord x y).indexToId k = _
    rw [ho]
    simp only [Df.swapOrder, hidx]
    by_cases c1 : k = i
    · rw [if_pos c1, c1, upd_ne _ _ (by omega), upd_same]
    · rw [if_neg c1]
      by_cases c2 : k = i + 1
      · rw [if_pos c2, c2, upd_same]
      · rw [if_neg c2, upd_ne _ _ c2, upd_ne _ _ c1]
  · intro e F hF hlive
    have l2 : Lab (Df.reid (Df.swapLevels d1 x y).st) δ1 := by
      rw [Df.lab_reid, hst]; exact ⟨l1.const, l1.node⟩
    have eok : (Df.reid (Df.swapLevels d1 x y).st).EOK (Df.reidE (Df.swapLevels d1 x y).st e) := by
      rcases hlive with h0 | h1
      · left
        exact ⟨by simp [Df.reidE, Df.tagId, h0], h0⟩
      · rw [ne_eq, Df.reid_none] at h1
        cases hn : (Df.swapLevels d1 x y).st.heap e.addr with
        | none => exact absurd hn h1
        | some n =>
          right
          refine ⟨_, Df.reid_heap hn, ?_⟩
          have h0 : (Df.swapLevels d1 x y).st.heap 0 = none := by rw [hst]; exact w1.heap0
          exact (Df.tagId_node h0 hn).symm
    have wr : (Df.reid (Df.swapLevels d1 x y).st).WF := by rw [hst]; exact w1.reid
    have rep := l2.rep wr eok
    have : den δ1 (Df.reidE (Df.swapLevels d1 x y).st e) = F := by
      rw [Df.den_reidE]
      rw [← l.rep_eq hF]
      have hda : δ1 e.addr = δ e.addr := by
        rcases hF.eok with ⟨_, h0⟩ | ⟨n, hn, _⟩
        · rw [h0, l1.const, l.const]
        · exact ag e.addr (by show d.st.heap _ ≠ none; rw [hd, ne_eq, Df.strip_none, hn]; simp)
      funext ρ
      simp only [den, hda]
    rw [this] at rep
    exact rep
  · intro a a0 ha hn
    rw [Df.reid_none, hst] at hn
    have := r1.ext0 a a0 hn
    omega

/-! ## C42: the exchange of two adjacent blocks -/

open Sift in
/-- `BddExchangeVarBlocks` on blocks `b1` and `b2` of any sizes, over any package whose `BddExchange`
exchanges two adjacent variables of the order `o`: afterwards the variables of `b2` come first, in
their order, then those of `b1`, in their order, and all others are where they were. -/
theorem C42_blocks {σ : Type} {S : Sys σ} {J : σ → Prop} {o : σ → Int → Nat} {n : Nat} (h : SysOK S J o n)
    {b1 b2 : Block} (h1 : b1.first ≤ b1.last) (h2 : b2.first ≤ b2.last) (h12 : b2.first = b1.last + 1)
    (hf : 0 ≤ b1.first) (hn : b2.last < n) {s : σ} (hs : J s) :
    ∃ s', slide S b1 b2 s = some s' ∧ J s' ∧
      (∀ k, 0 ≤ k → k ≤ b2.last - b2.first → o s' (b1.first + k) = o s (b2.first + k)) ∧
      (∀ k, 0 ≤ k → k ≤ b1.last - b1.first →
        o s' (b1.first + (b2.last - b2.first + 1) + k) = o s (b1.first + k)) ∧
      (∀ x, x < b1.first ∨ b2.last < x → o s' x = o s x) := by
  obtain ⟨s', e, hJ, q1, q2, q3⟩ := slide_spec h h1 h2 h12 hf hn hs
  refine ⟨s', e, hJ, fun k k0 k1 => ?_, fun k k0 k1 => ?_, q3⟩
  · have := q2 (b2.first + k) (by omega) (by omega)
    rwa [show b2.first + k - (b1.last - b1.first + 1) = b1.first + k by omega] at this
  · have := q1 (b1.first + k) (by omega) (by omega)
    rwa [show b1.first + k + (b2.last - b2.first + 1) = b1.first + (b2.last - b2.first + 1) + k by omega] at this

/-- The depth-first package is such a package: between exchanges the store is well formed, the
reference counts are exact, and all externally referenced nodes keep their functions. -/
theorem C42_store {ext : Nat → Nat} {δ0 : Nat → BFn} {d0 : Df.St} :
    Sift.SysOK Df.sys (Df.RInv ext δ0 d0) Df.at_ d0.st.ord.numVars := Df.sys_ok

/-! ## C43: sifting and window permutation -/

open Sift in
/-- `BddReorderWindow2`: of the two arrangements of two neighbouring blocks the smaller one stays. -/
theorem C43_window2 {σ : Type} {S : Sys σ} {J : σ → Prop} {o : σ → Int → Nat} {n : Nat} (h : SysOK S J o n)
    {sz : List Nat → Int} (hz : SizeOf S J o n sz) {lo hi : Int} {D : Nat} {o0 : Int → Nat} (hlo : 0 ≤ lo)
    (hhi : hi ≤ n) {p : σ × Kids} (hp : KidsOK J o lo hi D o0 p) {A E : List (Nat × T)} {a b : Nat × T}
    (e : arr o p = A ++ a :: b :: E) :
    ∃ q m, window2 (exchange S) (fun p => S.size p.1) p A.length = some (q, m) ∧ KidsOK J o lo hi D o0 q ∧
      arr o q ∈ [A ++ a :: b :: E, A ++ b :: a :: E] ∧
      (∀ l ∈ [A ++ a :: b :: E, A ++ b :: a :: E], szArr sz lo hi n o0 (arr o q) ≤ szArr sz lo hi n o0 l) ∧
      (m = true ↔ S.size q.1 < S.size p.1) := by
  obtain ⟨q, m, e1, iq, e2, e3, e4⟩ := window2_spec (exchange_law_size h hz hlo hhi) hp e
  refine ⟨q, m, e1, iq, e2, e3, ?_⟩
  rw [size_arr hz hlo hhi iq, size_arr hz hlo hhi hp]; exact e4

open Sift in
/-- `BddReorderWindow3`: of the six arrangements of three neighbouring blocks a smallest one stays. -/
theorem C43_window3 {σ : Type} {S : Sys σ} {J : σ → Prop} {o : σ → Int → Nat} {n : Nat} (h : SysOK S J o n)
    {sz : List Nat → Int} (hz : SizeOf S J o n sz) {lo hi : Int} {D : Nat} {o0 : Int → Nat} (hlo : 0 ≤ lo)
    (hhi : hi ≤ n) {p : σ × Kids} (hp : KidsOK J o lo hi D o0 p) {A E : List (Nat × T)} {a b c : Nat × T}
    (e : arr o p = A ++ a :: b :: c :: E) :
    ∃ q m, window3 (exchange S) (fun p => S.size p.1) p A.length = some (q, m) ∧ KidsOK J o lo hi D o0 q ∧
      (∃ x y z, [x, y, z].Perm [a, b, c] ∧ arr o q = A ++ x :: y :: z :: E) ∧
      (∀ x y z, [x, y, z].Perm [a, b, c] →
        szArr sz lo hi n o0 (arr o q) ≤ szArr sz lo hi n o0 (A ++ x :: y :: z :: E)) ∧
      (m = true ↔ S.size q.1 < S.size p.1) := by
  obtain ⟨q, m, e1, iq, e2, e3, e4⟩ := window3_spec (exchange_law_size h hz hlo hhi) hp e
  refine ⟨q, m, e1, iq, six_iff.1 e2, fun x y z hp => e3 _ (six_iff.2 ⟨x, y, z, hp, rfl⟩), ?_⟩
  rw [size_arr hz hlo hhi iq, size_arr hz hlo hhi hp]; exact e4

open Sift in
/-- `BddSiftBlock`: the block at position `start` of the children ends at a position `k` that is best
among all positions it can reach from `start` in either direction while the size stays within
`maxSize` (`limit` of the size before); all other blocks keep their order. -/
theorem C43_siftBlock {σ : Type} {S : Sys σ} {J : σ → Prop} {o : σ → Int → Nat} {n : Nat} (h : SysOK S J o n)
    {sz : List Nat → Int} (hz : SizeOf S J o n sz) {lo hi : Int} {D : Nat} {o0 : Int → Nat} (hlo : 0 ≤ lo)
    (hhi : hi ≤ n) {p : σ × Kids} (hp : KidsOK J o lo hi D o0 p) (limit : Int → Int)
    {A E : List (Nat × T)} {x : Nat × T} (e : arr o p = A ++ x :: E) :
    ∃ q k, siftBlock (exchange S) (fun p => S.size p.1) (arr o p).length limit p A.length = some q ∧
      KidsOK J o lo hi D o0 q ∧ k ≤ (A ++ E).length ∧ arr o q = (A ++ E).insertIdx k x ∧
      Visited (fun j => szArr sz lo hi n o0 ((A ++ E).insertIdx j x)) (limit (S.size p.1)) A.length k ∧
      (∀ j, j ≤ (A ++ E).length →
        Visited (fun j => szArr sz lo hi n o0 ((A ++ E).insertIdx j x)) (limit (S.size p.1)) A.length j →
        szArr sz lo hi n o0 (arr o q) ≤ szArr sz lo hi n o0 ((A ++ E).insertIdx j x)) := by
  have e' : arr o p = put x (A ++ E) A.length := by
    unfold put; rw [List.take_left, List.drop_left]; exact e
  obtain ⟨q, k, e1, iq, e2, e3, e4, e5⟩ := siftBlock_spec (exchange_law_size h hz hlo hhi) hp limit
    (x := x) (R := A ++ E) (start := A.length) (by simp) e'
  have hs := size_arr hz hlo hhi hp
  rw [← hs] at e4 e5
  refine ⟨q, k, e1, iq, e3, by rw [e2, put_insert _ _ e3], ?_, ?_⟩
  · refine e4.congr (by simp) e3 fun j hj => ?_
    rw [put_insert _ _ hj]
  · intro j hj hv
    rw [e2, ← put_insert _ _ hj]
    refine e5 j hj (hv.congr (by simp) hj fun i hi => ?_)
    rw [put_insert _ _ hi]

open Sift Block in
/-- `BddReorderSift` over the whole block tree: it ends, without touching memory it should not; the
block tree is still a tree of blocks over the same variables; the variables are rearranged only by
permuting the children of blocks marked reorderable; and if the size depends on the order only, it
has not grown. -/
theorem C43_sift {σ : Type} {S : Sys σ} {J : σ → Prop} {o : σ → Int → Nat} {n : Nat} (h : SysOK S J o n)
    (L : Limits) {b : Block} (hb : SuperOK n b) {s : σ} (hs : J s) :
    ∃ s' b', reorderSift S L n s b = some (s', b') ∧ J s' ∧ SuperOK n b' ∧
      Rearr (.node b.reorderable (trL (o s) b.children)) (.node b'.reorderable (trL (o s') b'.children)) ∧
      ((upto 0 n).map (o s')).Perm ((upto 0 n).map (o s)) ∧
      (∀ sz, SizeOf S J o n sz → S.size s' ≤ S.size s) := by
  cases b with
  | mk f l r cs =>
    obtain ⟨h1, h2, h3, h4⟩ := hb
    obtain ⟨s', cs', e, dn⟩ := siftAux_spec h L (depth (.mk f l r cs)) s f l r cs 0 n hs h3 h4 (by omega) (by omega)
      (by simp only [depth]; omega)
    obtain ⟨ms, m1, m2, m3⟩ := dn.tree
    have re : Rearr (.node r (trL (o s) cs)) (.node r (trL (o s') cs')) := .node m1 m2 m3
    refine ⟨s', _, e, dn.inv, ⟨h1, h2, dn.parts, dn.ok⟩, re, ?_, dn.size⟩
    have := re.perm.symm
    simp only [T.ids] at this
    rwa [idsL_tr dn.parts (fun b hb => ids_tr b (OKL_iff.1 dn.ok b hb)),
      idsL_tr (cs := cs) h3 (fun b hb => ids_tr b (OKL_iff.1 h4 b hb))] at this

open Sift Block in
/-- `BddReorderStableWindow3` over the whole block tree, for a size that depends on the order only: the
loop ends, the variables are rearranged only within the blocks, and the size has not grown. -/
theorem C43_window {σ : Type} {S : Sys σ} {J : σ → Prop} {o : σ → Int → Nat} {n : Nat} (h : SysOK S J o n)
    {sz : List Nat → Int} (hz : SizeOf S J o n sz) (h0 : ∀ l, 0 ≤ sz l) {b : Block} (hb : SuperOK n b) {s : σ}
    (hs : J s) :
    ∃ s' b', reorderWindow S n s b = some (s', b') ∧ J s' ∧ SuperOK n b' ∧
      Rearr (.node b.reorderable (trL (o s) b.children)) (.node b'.reorderable (trL (o s') b'.children)) ∧
      ((upto 0 n).map (o s')).Perm ((upto 0 n).map (o s)) ∧ S.size s' ≤ S.size s := by
  cases b with
  | mk f l r cs =>
    obtain ⟨h1, h2, h3, h4⟩ := hb
    obtain ⟨r1, r2⟩ := h.reset s hs
    obtain ⟨s', cs', e, dn⟩ := windowAux_spec h hz h0 (depth (.mk f l r cs)) (S.reset s) f l r cs 0 n r1 h3 h4
      (by omega) (by omega) (by simp only [depth]; omega)
    obtain ⟨ms, m1, m2, m3⟩ := dn.tree
    rw [r2] at m1 m2
    have re : Rearr (.node r (trL (o s) cs)) (.node r (trL (o s') cs')) := .node m1 m2 m3
    refine ⟨s', _, e, dn.inv, ⟨h1, h2, dn.parts, dn.ok⟩, re, ?_, ?_⟩
    · have := re.perm.symm
      simp only [T.ids] at this
      rwa [idsL_tr dn.parts (fun b hb => ids_tr b (OKL_iff.1 dn.ok b hb)),
        idsL_tr (cs := cs) h3 (fun b hb => ids_tr b (OKL_iff.1 h4 b hb))] at this
    · have := dn.size sz hz
      rwa [hz _ r1, r2, ← hz _ hs] at this

/-! ### Every size function gives such a package -/

/-- The package that only keeps the order; its size is any function of the order. -/
def orderSys (n : Nat) (f : List Nat → Int) : Sift.Sys (Int → Nat) where
  ex o i := some (Sift.swapF o i)
  size o := f ((Block.upto 0 n).map o)
  width _ _ := 2
  swaps _ := 0
  reset o := o

theorem orderSys_ok (n : Nat) (f : List Nat → Int) :
    Sift.SysOK (orderSys n f) (fun _ => True) id n ∧ Sift.SizeOf (orderSys n f) (fun _ => True) id n f :=
  ⟨⟨fun _ _ _ _ _ => ⟨_, rfl, trivial, rfl⟩, fun _ _ => ⟨trivial, rfl⟩⟩, fun _ _ => rfl⟩

/-! ## C44: variable blocks -/

namespace Block

/-- The states of the block tree after any sequence of new variables (at any index up to the number
of variables), new blocks and changes of the flag `reorderable` of any block, with the number of variables. -/
inductive History : Nat → Block → Prop
  | init : History 0 super0
  | newVar {n b b'} (index : Nat) : History n b → index ≤ n → shift index b = some b' → History (n + 1) b'
  | newBlock {n b b'} (index : Nat) (length : Int) : History n b → index < n →
      newVarBlock n index length b = some (.ok b') → History n b'
  | reorderable {n b} (r : Bool) (path : List Nat) : History n b → History n (setFlag r path b)

/-- The range a caller of `Cal_BddNewVarBlock` (calBlk.c:74-102) gets: `length` variables from `index` on, at least one,
at most up to the last variable. -/
def wanted (n : Nat) (index length : Int) : Int × Int := (index, min (n - 1) (index + max 1 length - 1))

theorem range_eq {n : Nat} {index length : Int} (h : index + length ≤ 9223372036854775807)
    (h2 : index < 9223372036854775807) : range n index length = some (wanted n index length) := by
  unfold range wanted
  simp only
  rw [if_neg (by split <;> omega)]
  congr 2
  split <;> split <;> omega

theorem History.ok {n : Nat} {b : Block} (h : History n b) : SuperOK n b := by
  induction h with
  | init => exact .init
  | newVar index _ hi e ih =>
    obtain ⟨b', e', h', _⟩ := ih.shift hi
    rw [e] at e'; cases e'; exact h'
  | @newBlock n b b' index length _ hi e ih =>
    unfold newVarBlock at e
    cases hr : range n index length with
    | none => rw [hr] at e; cases e
    | some r =>
      rw [hr] at e
      simp only at e
      have hr' : r.1 = index ∧ (index : Int) ≤ r.2 ∧ r.2 < n := by
        unfold range at hr
        simp only at hr
        generalize hm : (if length ≤ 0 then (1 : Int) else length) = m at hr
        have h1 : 1 ≤ m := by split at hm <;> omega
        by_cases c : (index : Int) + m > 9223372036854775807
        · rw [if_pos c] at hr; cases hr
        · rw [if_neg c] at hr
          cases hr
          refine ⟨rfl, ?_, ?_⟩ <;> simp only <;> split <;> omega
      obtain ⟨p, q⟩ := r
      rcases ih.add (p := p) (q := q) (by omega) (by omega) (by omega) with ⟨e', _⟩ | ⟨b', e', h', _⟩
      · rw [e] at e'; cases e'
      · rw [e] at e'; cases e'; exact h'
  | reorderable r p _ ih => exact (ih.setFlag r p).1

end Block

open Block in
/-- After any history the leaves of the block tree are the variables in order, every block with
children is partitioned by them, and no two blocks overlap without one containing the other. -/
theorem C44_tree {n : Nat} {b : Block} (h : History n b) :
    leavesL b.children = (List.range n).map (fun k : Nat => (k : Int)) ∧ Parts 0 n b.children ∧ OKL b.children ∧
      (∀ r ∈ rangesL b.children, ∀ s ∈ rangesL b.children, ¬ Cross r s) := by
  have ok := h.ok
  refine ⟨?_, ok.parts, ok.kids, ?_⟩
  · rw [leavesL_parts ok.parts (fun b hb => OK.leaves b (OKL_iff.1 ok.kids b hb))]
    unfold upto
    simp
  · intro r hr s hs
    by_cases c : b.children = []
    · rw [c] at hr; simp [rangesL] at hr
    · have hb : OK (mk 0 (n - 1) false b.children) := by
        simp only [OK]
        exact ⟨ok.kids, fun e => absurd e c, fun _ => by
          rw [show (n : Int) - 1 + 1 = n by omega]; exact ok.parts⟩
      apply OK.laminar _ hb
      · simp only [ranges, List.mem_cons]; exact .inr hr
      · simp only [ranges, List.mem_cons]; exact .inr hs

open Block in
/-- A new variable at any index keeps every block: the blocks after the index move by one, a block
around it grows by one, and the new variable is a block of its own. -/
theorem C44_newVar {n : Nat} {b : Block} (h : History n b) {index : Nat} (hi : index ≤ n) :
    ∃ b', shift index b = some b' ∧ History (n + 1) b' ∧
      (rangesL b'.children).Perm (((index : Int), (index : Int)) :: (rangesL b.children).map (push index)) := by
  obtain ⟨b', e, _, _, hr⟩ := h.ok.shift hi
  exact ⟨b', e, .newVar index h hi e, hr⟩

open Block in
/-- `Cal_BddNewVarBlock` never splits a block: it stops with a fatal error exactly if the new block
overlaps an existing one without one containing the other; otherwise the blocks are the old ones and
the new one. -/
theorem C44_newBlock {n : Nat} {b : Block} (h : History n b) {index : Nat} (hi : index < n) {length : Int}
    (hl : index + length ≤ 9223372036854775807) (hn : (n : Int) < 9223372036854775807) :
    (newVarBlock n index length b = some .fatal ∧ ∃ r ∈ rangesL b.children, Cross r (wanted n index length)) ∨
    (∃ b', newVarBlock n index length b = some (.ok b') ∧ History n b' ∧
      (rangesL b'.children).Perm (wanted n index length :: rangesL b.children) ∧
      ∀ r ∈ rangesL b.children, ¬ Cross r (wanted n index length)) := by
  have hr := range_eq (n := n) hl (by omega)
  have e : newVarBlock n index length b = add (wanted n index length) b := by
    unfold newVarBlock; rw [hr]
  rcases h.ok.add (p := (wanted n index length).1) (q := (wanted n index length).2) (by simp [wanted])
      (by simp only [wanted]; omega) (by simp only [wanted]; omega) with ⟨e', r, hr, hx⟩ | ⟨b', e', _, _, hp⟩
  · left; rw [e]; exact ⟨e', r, hr, hx⟩
  · right
    have hb' : History n b' := .newBlock index length h hi (by rw [e]; exact e')
    refine ⟨b', by rw [e]; exact e', hb', hp, fun r hr => ?_⟩
    exact (C44_tree hb').2.2.2 r (hp.symm.subset (by simp [hr])) _ (hp.symm.subset (by simp))

/-! ## The hypotheses can be met -/

namespace Demo

/-- The matrix of three variables that all interact. -/
def matAll : Interact.Matrix := ⟨1, fun _ => 7⟩

/-- The session of `Demo.sess` has a node for `(a ∧ b) ∨ c`: exchanging `a` and `b` rebuilds nodes. -/
def dfSess : Df.St :=
  { st := Df.strip sess.m.st, fid := 0, assocs := sess.m.assocs, temp := sess.m.temp, mat := matAll, swaps := 0,
    trivial := 0 }

example : ∃ d' s', Df.exchange dfSess (sess.m.st.ord.indexToId 0) = some d' ∧ s' = Df.reid d'.st ∧ s'.WF ∧
    s'.ord.indexToId 0 = sess.m.st.ord.indexToId 1 ∧ s'.ord.indexToId 1 = sess.m.st.ord.indexToId 0 := by
  obtain ⟨Γ, leak, -, i⟩ := reach.inv Env.plain_sound
  obtain ⟨d', s', h1, h2, h3, _, _, _, h4, _⟩ := C39_exchange i.wf i.ref i.num (d := dfSess) rfl (i := 0)
    (by decide +kernel) (by decide +kernel)
  exact ⟨d', s', h1, h2, h3, by rw [h4]; rfl, by rw [h4]; rfl⟩

/-- Four variables 6, 7, 8, 9, the first two in a block of their own. -/
def tree4 : Block :=
  .mk (-1) 4 true [.mk 0 1 false [.mk 0 0 false [], .mk 1 1 false []], .mk 2 2 false [], .mk 3 3 false []]

/-- A size: 9 should come early, then 8. -/
def size4 (l : List Nat) : Int := 10 * (l.idxOf 9 : Int) + (l.idxOf 8 : Int)

def order4 (i : Int) : Nat := if i = 0 then 6 else if i = 1 then 7 else if i = 2 then 8 else 9

theorem tree4_ok : Block.SuperOK 4 tree4 := by
  refine ⟨rfl, rfl, ?_, ?_⟩ <;> simp [tree4, Block.children_mk, Block.first_mk, Block.last_mk, Block.Parts, Block.OKL, Block.OK]

example : Block.SuperOK 4 tree4 ∧ Sift.SysOK (orderSys 4 size4) (fun _ => True) id 4 ∧
    Sift.SizeOf (orderSys 4 size4) (fun _ => True) id 4 size4 ∧
    (Sift.reorderSift (orderSys 4 size4) ⟨fun s => 2 * s, 1000, 1000⟩ 4 order4 tree4).map (fun p =>
      ((Block.upto 0 4).map p.1, Block.ranges p.2)) =
      some ([9, 8, 6, 7], [(-1, 4), (0, 0), (1, 1), (2, 3), (2, 2), (3, 3)]) ∧
    (Sift.reorderWindow (orderSys 4 size4) 4 order4 tree4).map (fun p =>
      ((Block.upto 0 4).map p.1, Block.ranges p.2)) =
      some ([9, 8, 6, 7], [(-1, 4), (0, 0), (1, 1), (2, 3), (2, 2), (3, 3)]) :=
  ⟨tree4_ok, (orderSys_ok 4 size4).1, (orderSys_ok 4 size4).2, by decide +kernel, by decide +kernel⟩

/-- Blocks of two and one variables. -/
example : ((Sift.slide (orderSys 4 size4) (.mk 0 1 false []) (.mk 2 2 false []) order4).map
    fun o => (Block.upto 0 4).map o) = some [8, 6, 7, 9] := by decide +kernel

/-- A history: four variables, the block 1..2, then a variable into the middle of that block. -/
def blocks1 : Block := .mk (-1) 4 true [.mk 0 0 false [], .mk 1 2 false [.mk 1 1 false [], .mk 2 2 false []],
  .mk 3 3 false []]

theorem blocks1_history : Block.History 4 blocks1 := by
  refine .newBlock (b := .mk (-1) 4 true [.mk 0 0 false [], .mk 1 1 false [], .mk 2 2 false [],
    .mk 3 3 false []]) 1 2 ?_ (by omega) (by rfl)
  refine .newVar (b := .mk (-1) 3 true [.mk 0 0 false [], .mk 1 1 false [], .mk 2 2 false []]) 3 ?_ (by omega)
    (by rfl)
  refine .newVar (b := .mk (-1) 2 true [.mk 0 0 false [], .mk 1 1 false []]) 2 ?_ (by omega) (by rfl)
  refine .newVar (b := .mk (-1) 1 true [.mk 0 0 false []]) 1 ?_ (by omega) (by rfl)
  exact .newVar 0 .init (by omega) (by rfl)

/-- A variable at index 2 makes the block larger; a block 0..1 would split it. -/
example : (Block.shift 2 blocks1).map (fun b => Block.rangesL b.children) =
      some [(0, 0), (1, 3), (1, 1), (2, 2), (3, 3), (4, 4)] ∧
    (match Block.newVarBlock 4 0 2 blocks1 with | some .fatal => true | _ => false) = true := by
  constructor <;> decide +kernel

end Demo

end Cal
