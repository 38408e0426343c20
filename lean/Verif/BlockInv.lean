import Verif.Block

/-!
# The tree of variable blocks: invariant and the effect of the operations
-/

namespace Cal.Block

theorem first_mk (f l r cs) : (mk f l r cs).first = f := rfl
theorem last_mk (f l r cs) : (mk f l r cs).last = l := rfl
theorem children_mk (f l r cs) : (mk f l r cs).children = cs := rfl
theorem reorderable_mk (f l r cs) : (mk f l r cs).reorderable = r := rfl

/-- The blocks of the list cover `lo, …, hi - 1` from left to right without gap or overlap. -/
def Parts (lo hi : Int) : List Block → Prop
  | [] => lo = hi
  | b :: bs => b.first = lo ∧ b.first ≤ b.last ∧ Parts (b.last + 1) hi bs

mutual
/-- A block without children stands for one variable; the children of any other block partition
it. -/
def OK : Block → Prop
  | mk f l _ cs => OKL cs ∧ (cs = [] → f = l) ∧ (cs ≠ [] → Parts f (l + 1) cs)
def OKL : List Block → Prop
  | [] => True
  | b :: bs => OK b ∧ OKL bs
end

/-- The super block over `n` variables. -/
structure SuperOK (n : Nat) (b : Block) : Prop where
  first : b.first = -1
  last : b.last = n
  parts : Parts 0 n b.children
  kids : OKL b.children

mutual
/-- The index ranges of all blocks in the tree. -/
def ranges : Block → List (Int × Int)
  | mk f l _ cs => (f, l) :: rangesL cs
def rangesL : List Block → List (Int × Int)
  | [] => []
  | b :: bs => ranges b ++ rangesL bs
end

mutual
/-- The indices of the blocks without children, from left to right. -/
def leaves : Block → List Int
  | mk f _ _ cs => if cs.isEmpty then [f] else leavesL cs
def leavesL : List Block → List Int
  | [] => []
  | b :: bs => leaves b ++ leavesL bs
end

/-- `lo, lo + 1, …, hi - 1`. -/
def upto (lo hi : Int) : List Int := (List.range (hi - lo).toNat).map (fun k : Nat => lo + (k : Int))

/-- Two ranges that overlap without one containing the other. -/
def Cross (r s : Int × Int) : Prop :=
  (r.1 < s.1 ∧ s.1 ≤ r.2 ∧ r.2 < s.2) ∨ (s.1 < r.1 ∧ r.1 ≤ s.2 ∧ s.2 < r.2)

/-- Where an index range goes when a variable is inserted at `index`. -/
def push (index : Int) (r : Int × Int) : Int × Int :=
  (if r.1 ≥ index then r.1 + 1 else r.1, if r.2 ≥ index then r.2 + 1 else r.2)

theorem OKL_iff : ∀ {cs : List Block}, OKL cs ↔ ∀ b ∈ cs, OK b
  | [] => by simp [OKL]
  | c :: cs => by simp [OKL, OKL_iff (cs := cs)]

theorem rangesL_append : ∀ (a b : List Block), rangesL (a ++ b) = rangesL a ++ rangesL b
  | [], b => by simp [rangesL]
  | c :: cs, b => by simp [rangesL, rangesL_append cs b]

theorem leavesL_append : ∀ (a b : List Block), leavesL (a ++ b) = leavesL a ++ leavesL b
  | [], b => by simp [leavesL]
  | c :: cs, b => by simp [leavesL, leavesL_append cs b]

theorem mem_rangesL {r : Int × Int} : ∀ {cs : List Block}, r ∈ rangesL cs ↔ ∃ b ∈ cs, r ∈ ranges b
  | [] => by simp [rangesL]
  | c :: cs => by simp [rangesL, mem_rangesL (cs := cs)]

theorem Parts.le : ∀ {cs : List Block} {lo hi : Int}, Parts lo hi cs → lo ≤ hi
  | [], lo, hi, h => by simp only [Parts] at h; omega
  | b :: bs, lo, hi, h => by
    obtain ⟨h1, h2, h3⟩ := h
    have := h3.le
    omega

theorem Parts.append : ∀ {a b : List Block} {lo hi : Int},
    Parts lo hi (a ++ b) ↔ ∃ m, Parts lo m a ∧ Parts m hi b
  | [], b, lo, hi => by simp [Parts]
  | c :: cs, b, lo, hi => by
    simp only [List.cons_append, Parts, Parts.append (a := cs)]
    constructor
    · rintro ⟨h1, h2, m, h3, h4⟩; exact ⟨m, ⟨h1, h2, h3⟩, h4⟩
    · rintro ⟨m, ⟨h1, h2, h3⟩, h4⟩; exact ⟨h1, h2, m, h3, h4⟩

theorem Parts.mem {cs : List Block} {lo hi : Int} (h : Parts lo hi cs) {b : Block} (hb : b ∈ cs) :
    lo ≤ b.first ∧ b.first ≤ b.last ∧ b.last < hi := by
  obtain ⟨s, t, rfl⟩ := List.append_of_mem hb
  obtain ⟨m, h1, h2, h3, h4⟩ := Parts.append.1 h
  have := h1.le
  have := h4.le
  omega

theorem Parts.sorted {cs : List Block} {lo hi : Int} (h : Parts lo hi cs) {i j : Nat} {b c : Block}
    (hi : cs[i]? = some b) (hj : cs[j]? = some c) (hij : i < j) : b.last < c.first := by
  have e : cs = cs.take j ++ cs.drop j := (List.take_append_drop j cs).symm
  rw [e] at h
  obtain ⟨m, h1, h2⟩ := Parts.append.1 h
  have hb : b ∈ cs.take j := by
    apply List.mem_of_getElem? (i := i)
    rw [List.getElem?_take, if_pos hij, hi]
  have hc : c ∈ cs.drop j := by
    apply List.mem_of_getElem? (i := 0)
    rw [List.getElem?_drop]; simpa using hj
  have := (h1.mem hb).2.2
  have := (h2.mem hc).1
  omega

theorem Parts.cover : ∀ {cs : List Block} {lo hi : Int}, Parts lo hi cs → ∀ {x : Int}, lo ≤ x → x < hi →
    ∃ (k : Nat) (b : Block), cs[k]? = some b ∧ b.first ≤ x ∧ x ≤ b.last
  | [], lo, hi, h, x, h1, h2 => by simp only [Parts] at h; omega
  | b :: bs, lo, hi, h, x, h1, h2 => by
    obtain ⟨e, e2, h3⟩ := h
    by_cases hx : x ≤ b.last
    · exact ⟨0, b, rfl, by omega, hx⟩
    · obtain ⟨k, c, hc, hc2⟩ := h3.cover (x := x) (by omega) h2
      exact ⟨k + 1, c, by simpa using hc, hc2⟩

/-- The binary search meets its invariant: everything left of `i` ends before `index`, everything
right of `j` begins after it. -/
theorem findLoop_spec {cs : List Block} {lo hi index : Int} (h : Parts lo hi cs) :
    ∀ (fuel : Nat) (i j : Int), 0 ≤ i → j < cs.length → i ≤ j + 1 → j + 1 - i < fuel →
      (∀ (k : Nat) (b : Block), cs[k]? = some b → (k : Int) < i → b.last < index) →
      (∀ (k : Nat) (b : Block), cs[k]? = some b → j < (k : Int) → index < b.first) →
      ∃ n : Nat, findLoop cs index fuel i j = some (n : Int) ∧
        ((∃ b, cs[n]? = some b ∧ b.first ≤ index ∧ index ≤ b.last) ∨
         (n ≤ cs.length ∧ (∀ (k : Nat) (b : Block), cs[k]? = some b → k < n → b.last < index) ∧
          (∀ (k : Nat) (b : Block), cs[k]? = some b → n ≤ k → index < b.first)))
  | 0, i, j, h0, hj, hij, hf, _, _ => by omega
  | fuel + 1, i, j, h0, hj, hij, hf, hl, hr => by
    unfold findLoop
    by_cases c : i ≤ j
    · rw [if_pos c]
      have hk : (i + j).tdiv 2 = (i + j) / 2 := Int.tdiv_eq_ediv_of_nonneg (by omega)
      simp only [hk]
      have h1 : i ≤ (i + j) / 2 := by omega
      have h2 : (i + j) / 2 ≤ j := by omega
      rw [if_neg (by omega)]
      obtain ⟨k, hkk⟩ : ∃ k : Nat, (i + j) / 2 = (k : Int) := ⟨((i + j) / 2).toNat, by omega⟩
      rw [hkk] at h1 h2 ⊢
      have hlt : k < cs.length := by omega
      have hg : cs[(k : Int).toNat]? = some cs[k] := by simp [hlt]
      rw [hg]
      have hg' : cs[k]? = some cs[k] := by simp [hlt]
      simp only
      by_cases c1 : cs[k].first ≤ index ∧ cs[k].last ≥ index
      · rw [if_pos c1]; exact ⟨k, rfl, .inl ⟨_, hg', c1.1, c1.2⟩⟩
      · rw [if_neg c1]
        have hb := (h.mem (List.mem_of_getElem? hg')).2.1
        by_cases c2 : cs[k].first > index
        · rw [if_pos c2]
          apply findLoop_spec h fuel i (k - 1) h0 (by omega) (by omega) (by omega) hl
          intro k' b hb' hlt'
          by_cases e : k' = k
          · subst e; rw [hg'] at hb'; cases hb'; exact c2
          · have := h.sorted hg' hb' (by omega); omega
        · rw [if_neg c2]
          apply findLoop_spec h fuel (k + 1) j (by omega) hj (by omega) (by omega) _ hr
          intro k' b hb' hlt'
          by_cases e : k' = k
          · subst e; rw [hg'] at hb'; cases hb'; omega
          · have := h.sorted hb' hg' (by omega)
            have := (h.mem (List.mem_of_getElem? hb')).2.1
            omega
    · rw [if_neg c]
      refine ⟨i.toNat, by rw [Int.toNat_of_nonneg h0], .inr ⟨by omega, fun k b hb hk => hl k b hb (by omega),
        fun k b hb hk => hr k b hb (by omega)⟩⟩

theorem find_in {cs : List Block} {lo hi index : Int} (h : Parts lo hi cs) (h1 : lo ≤ index)
    (h2 : index < hi) :
    ∃ (n : Nat) (b : Block), find cs index = some (n : Int) ∧ cs[n]? = some b ∧ b.first ≤ index ∧ index ≤ b.last := by
  obtain ⟨n, e, c⟩ := findLoop_spec (index := index) h (cs.length + 1) 0 (cs.length - 1) (by omega) (by omega)
    (by omega) (by omega) (fun k b _ hk => by omega) (fun k b hb hk => by
      have := (List.getElem?_eq_some_iff.1 hb).1; omega)
  rcases c with ⟨b, hb, c1⟩ | ⟨hn, c1, c2⟩
  · exact ⟨n, b, e, hb, c1⟩
  · obtain ⟨k, b, hb, h3, h4⟩ := h.cover h1 h2
    by_cases c : k < n
    · have := c1 k b hb c; omega
    · have := c2 k b hb (by omega); omega

theorem find_end {cs : List Block} {lo hi index : Int} (h : Parts lo hi cs) (h2 : hi ≤ index) :
    find cs index = some (cs.length : Int) := by
  obtain ⟨n, e, c⟩ := findLoop_spec (index := index) h (cs.length + 1) 0 (cs.length - 1) (by omega) (by omega)
    (by omega) (by omega) (fun k b _ hk => by omega) (fun k b hb hk => by
      have := (List.getElem?_eq_some_iff.1 hb).1; omega)
  rcases c with ⟨b, hb, c1⟩ | ⟨hn, c1, c2⟩
  · have := h.mem (List.mem_of_getElem? hb); omega
  · by_cases c : n = cs.length
    · rw [← c]; exact e
    · have hg : cs[n]? = some cs[n] := by simp [show n < cs.length by omega]
      have := c2 n _ hg (by omega)
      have := h.mem (List.mem_of_getElem? hg)
      omega

/-! ### Ranges -/

theorem OK.bounds : ∀ (b : Block), OK b → b.first ≤ b.last →
    ∀ r ∈ ranges b, b.first ≤ r.1 ∧ r.1 ≤ r.2 ∧ r.2 ≤ b.last
  | mk f l re cs, h, hle, r, hr => by
    simp only [ranges, List.mem_cons] at hr
    simp only [OK] at h
    simp only [first_mk, last_mk] at hle ⊢
    rcases hr with rfl | hr
    · exact ⟨Int.le_refl _, hle, Int.le_refl _⟩
    · obtain ⟨c, hc, hr⟩ := mem_rangesL.1 hr
      have hp := h.2.2 (List.ne_nil_of_mem hc)
      have := hp.mem hc
      have := OK.bounds c (OKL_iff.1 h.1 c hc) this.2.1 r hr
      omega
termination_by b => sizeOf b
decreasing_by
  have := List.sizeOf_lt_of_mem hc
  simp only [mk.sizeOf_spec]; omega

theorem OK.le {b : Block} (h : OK b) : b.first ≤ b.last := by
  cases b with
  | mk f l r cs =>
    simp only [OK] at h
    simp only [first_mk, last_mk]
    by_cases c : cs = []
    · rw [h.2.1 c]; exact Int.le_refl _
    · have := h.2.2 c
      cases cs with
      | nil => exact absurd rfl c
      | cons a as =>
        obtain ⟨h1, h2, h3⟩ := this
        have := h3.le
        omega

/-- Blocks of one tree never overlap without one containing the other. -/
theorem OK.laminar : ∀ (b : Block), OK b → ∀ r ∈ ranges b, ∀ s ∈ ranges b, ¬ Cross r s
  | mk f l re cs, h, r, hr, s, hs => by
    have hb := OK.bounds _ h h.le
    have b1 := hb r hr
    have b2 := hb s hs
    simp only [first_mk, last_mk] at b1 b2
    simp only [ranges, List.mem_cons] at hr hs
    simp only [OK] at h
    rcases hr with rfl | hr
    · simp only [Cross]; omega
    · rcases hs with rfl | hs
      · simp only [Cross]; omega
      · obtain ⟨c, hc, hr⟩ := mem_rangesL.1 hr
        obtain ⟨d, hd, hs⟩ := mem_rangesL.1 hs
        have hp := h.2.2 (List.ne_nil_of_mem hc)
        have okc := OKL_iff.1 h.1 c hc
        have okd := OKL_iff.1 h.1 d hd
        obtain ⟨i, hi⟩ := List.getElem?_of_mem hc
        obtain ⟨j, hj⟩ := List.getElem?_of_mem hd
        have c1 := OK.bounds _ okc okc.le r hr
        have c2 := OK.bounds _ okd okd.le s hs
        rcases Nat.lt_trichotomy i j with hij | hij | hij
        · have := hp.sorted hi hj hij
          simp only [Cross]; omega
        · subst hij
          rw [hi] at hj; cases hj
          exact OK.laminar c okc r hr s hs
        · have := hp.sorted hj hi hij
          simp only [Cross]; omega
termination_by b => sizeOf b
decreasing_by
  have := List.sizeOf_lt_of_mem hc
  simp only [mk.sizeOf_spec]; omega

theorem upto_append {a b c : Int} (h1 : a ≤ b) (h2 : b ≤ c) : upto a b ++ upto b c = upto a c := by
  unfold upto
  have e : (c - a).toNat = (b - a).toNat + (c - b).toNat := by omega
  rw [e, List.range_add, List.map_append, List.map_map]
  congr 1
  apply List.map_congr_left
  intro k _
  simp only [Function.comp]
  omega

theorem leavesL_parts : ∀ {cs : List Block} {lo hi : Int}, Parts lo hi cs →
    (∀ b ∈ cs, leaves b = upto b.first (b.last + 1)) → leavesL cs = upto lo hi
  | [], lo, hi, h, _ => by simp only [Parts] at h; subst h; simp [leavesL, upto]
  | b :: bs, lo, hi, h, hl => by
    obtain ⟨h1, h2, h3⟩ := h
    rw [leavesL, hl b (by simp), leavesL_parts h3 (fun c hc => hl c (by simp [hc])), h1]
    exact upto_append (by omega) h3.le

theorem OK.leaves : ∀ (b : Block), OK b → leaves b = upto b.first (b.last + 1)
  | mk f l re cs, h => by
    simp only [OK] at h
    by_cases c : cs = []
    · subst c
      have := h.2.1 rfl
      subst this
      simp [Block.leaves, upto, first_mk, last_mk]
      have : (f + 1 - f).toNat = 1 := by omega
      simp [this]
    · have c' : cs.isEmpty = false := by cases cs <;> simp_all
      simp only [Block.leaves, c', first_mk, last_mk]
      exact leavesL_parts (h.2.2 c) (fun b hb => OK.leaves b (OKL_iff.1 h.1 b hb))
termination_by b => sizeOf b
decreasing_by
  have := List.sizeOf_lt_of_mem hb
  simp only [mk.sizeOf_spec]; omega

/-! ### Shifting a block -/

theorem deltaL_eq (d : Int) : ∀ cs : List Block, deltaL d cs = cs.map (delta d)
  | [] => rfl
  | c :: cs => by simp [deltaL, deltaL_eq d cs]

@[simp] theorem delta_first (d : Int) (b : Block) : (delta d b).first = b.first + d := by
  cases b; simp [delta, first_mk]

@[simp] theorem delta_last (d : Int) (b : Block) : (delta d b).last = b.last + d := by
  cases b; simp [delta, last_mk]

theorem Parts.delta (d : Int) : ∀ {cs : List Block} {lo hi : Int}, Parts lo hi cs →
    Parts (lo + d) (hi + d) (cs.map (Block.delta d))
  | [], lo, hi, h => by simp only [Parts] at h; simp [Parts, h]
  | b :: bs, lo, hi, h => by
    obtain ⟨h1, h2, h3⟩ := h
    have := h3.delta d
    simp only [List.map_cons, Parts, delta_first, delta_last]
    refine ⟨by omega, by omega, ?_⟩
    rw [show b.last + d + 1 = b.last + 1 + d by omega]; exact this

theorem OK.delta (d : Int) : ∀ (b : Block), OK b → OK (Block.delta d b)
  | mk f l re cs, h => by
    simp only [OK] at h
    simp only [Block.delta, OK, deltaL_eq]
    refine ⟨OKL_iff.2 ?_, fun e => ?_, fun e => ?_⟩
    · intro b hb
      obtain ⟨c, hc, rfl⟩ := List.mem_map.1 hb
      exact OK.delta d c (OKL_iff.1 h.1 c hc)
    · rw [h.2.1 (List.map_eq_nil_iff.1 e)]
    · have := (h.2.2 (fun e' => e (by simp [e']))).delta d
      rwa [show l + d + 1 = l + 1 + d by omega]
termination_by b => sizeOf b
decreasing_by
  have := List.sizeOf_lt_of_mem hc
  simp only [mk.sizeOf_spec]; omega

theorem rangesL_map {f : Block → Block} {g : Int × Int → Int × Int} : ∀ {cs : List Block},
    (∀ b ∈ cs, ranges (f b) = (ranges b).map g) → rangesL (cs.map f) = (rangesL cs).map g
  | [], _ => by simp [rangesL]
  | c :: cs, h => by
    simp only [List.map_cons, rangesL, List.map_append]
    rw [h c (by simp), rangesL_map (fun b hb => h b (by simp [hb]))]

theorem ranges_delta (d : Int) : ∀ (b : Block),
    ranges (Block.delta d b) = (ranges b).map (fun r => (r.1 + d, r.2 + d))
  | mk f l re cs => by
    simp only [Block.delta, ranges, deltaL_eq, List.map_cons]
    rw [rangesL_map (g := fun r => (r.1 + d, r.2 + d)) (fun b hb => ranges_delta d b)]
termination_by b => sizeOf b
decreasing_by
  have := List.sizeOf_lt_of_mem hb
  simp only [mk.sizeOf_spec]; omega

theorem ranges_push_right {b : Block} (h : OK b) {index : Int} (hi : index ≤ b.first) :
    ranges (Block.delta 1 b) = (ranges b).map (push index) := by
  rw [ranges_delta]
  apply List.map_congr_left
  intro r hr
  have := OK.bounds b h h.le r hr
  simp only [push]
  rw [if_pos (by omega), if_pos (by omega)]

theorem ranges_push_left {b : Block} (h : OK b) {index : Int} (hi : b.last < index) :
    (ranges b).map (push index) = ranges b := by
  rw [List.map_congr_left (g := id)]
  · simp
  · intro r hr
    have := OK.bounds b h h.le r hr
    simp only [push, id]
    rw [if_neg (by omega), if_neg (by omega)]

/-! ### Inserting a variable -/

theorem shift_right {b : Block} {index : Int} (h : index ≤ b.first) : shift index b = some (delta 1 b) := by
  cases b with
  | mk f l r cs =>
    unfold shift
    rw [if_pos (show f ≥ index from h)]

theorem shift_left {b : Block} (h : OK b) {index : Int} (hi : b.last < index) : shift index b = some b := by
  have := h.le
  cases b with
  | mk f l r cs =>
    simp only [first_mk, last_mk] at *
    unfold shift
    rw [if_neg (by omega), if_pos hi]

theorem shiftL_right {index : Int} : ∀ {cs : List Block}, (∀ b ∈ cs, index ≤ b.first) →
    shiftL index 0 cs = some (cs.map (delta 1))
  | [], _ => by simp [shiftL]
  | c :: cs, h => by
    rw [shiftL]
    simp only [if_pos, shift_right (h c (by simp))]
    rw [shiftL_right (fun b hb => h b (by simp [hb]))]
    rfl

/-- The children before the position found stay, the rest is shifted. -/
theorem shiftL_skip {index : Int} : ∀ (a : List Block) {b : List Block},
    shiftL index a.length (a ++ b) = (shiftL index 0 b).map (a ++ ·)
  | [], b => by cases h : shiftL index 0 b <;> simp [h]
  | c :: cs, b => by
    rw [List.length_cons, List.cons_append, shiftL]
    simp only [Nat.add_one_sub_one, Nat.add_eq_zero_iff, Nat.one_ne_zero, and_false, if_false]
    rw [shiftL_skip cs]
    cases h : shiftL index 0 b <;> simp

theorem shift_eq {f l : Int} {r : Bool} {cs : List Block} {index : Int} (h1 : f < index) (h2 : index ≤ l)
    {i : Nat} (hf : find cs index = some (i : Int)) {cs' : List Block}
    (hs : shiftL index i cs = some cs') :
    shift index (mk f l r cs) =
      if (i : Int) = cs.length then some (mk f (l + 1) r (cs ++ [mk index index false []]))
      else
        match cs[i]? with
        | none => none
        | some b =>
          if b.first = index then
            some (mk f (l + 1) r (cs'.take i ++ mk index index false [] :: cs'.drop i))
          else some (mk f (l + 1) r cs') := by
  rw [shift]
  rw [if_neg (by omega), if_neg (by omega), hf]
  simp only [Int.toNat_natCast]
  rw [if_neg (by omega), hs]
  rfl

theorem ok_leaf (x : Int) : OK (mk x x false []) := by
  simp [OK, OKL]

theorem perm_insert {α : Type} {a b : List α} {x : α} : (a ++ x :: b).Perm (x :: (a ++ b)) :=
  List.perm_middle

/-- What the insertion does to the children of a block that has the new index inside or at its
end. -/
structure Inserted (index : Int) (lo hi : Int) (cs cs' : List Block) : Prop where
  parts : Parts lo (hi + 1) cs'
  ok : OKL cs'
  ranges : (rangesL cs').Perm ((index, index) :: (rangesL cs).map (push index))

mutual
theorem shift_spec : ∀ (b : Block), OK b → ∀ (index : Int), b.first < index → index ≤ b.last →
    ∃ cs', shift index b = some (mk b.first (b.last + 1) b.reorderable cs') ∧
      Inserted index b.first (b.last + 1) b.children cs'
  | mk f l re cs, h, index, h1, h2 => by
    simp only [first_mk, last_mk, children_mk, reorderable_mk] at *
    have h' := h
    simp only [OK] at h
    have ne : cs ≠ [] := fun e => by have := h.2.1 e; omega
    exact shift_kids cs (h.2.2 ne) h.1 f l re index h1 h2 (by have := (h.2.2 ne).le; omega) (by omega)
termination_by b => sizeOf b

/-- The insertion below a block whose children cover `lo, …, hi - 1`. -/
theorem shift_kids : ∀ (cs : List Block) {lo hi : Int}, Parts lo hi cs → OKL cs → ∀ (f l : Int) (re : Bool)
    (index : Int), f < index → index ≤ l → lo ≤ index → index ≤ hi →
    ∃ cs', shift index (mk f l re cs) = some (mk f (l + 1) re cs') ∧ Inserted index lo hi cs cs' := by
  intro cs lo hi hp hk f l re index h1 h2 h3 h4
  by_cases he : index = hi
  · have hf := find_end hp (by omega : hi ≤ index)
    have hs : shiftL index cs.length cs = some cs := by
      have := shiftL_skip (index := index) cs (b := [])
      simpa [shiftL] using this
    rw [shift_eq h1 h2 hf hs, if_pos rfl]
    refine ⟨_, rfl, Parts.append.2 ⟨hi, hp, ?_⟩, ?_, ?_⟩
    · simp only [Parts, first_mk, last_mk]; omega
    · rw [OKL_iff]; intro b hb
      rcases List.mem_append.1 hb with hb | hb
      · exact OKL_iff.1 hk b hb
      · rw [List.mem_singleton.1 hb]; exact ok_leaf _
    · rw [rangesL_append]
      have e : (rangesL cs).map (push index) = rangesL cs := by
        have : rangesL (cs.map id) = (rangesL cs).map (push index) := by
          apply rangesL_map
          intro b hb
          have := hp.mem hb
          exact (ranges_push_left (OKL_iff.1 hk b hb) (by omega)).symm
        simpa using this.symm
      rw [e]
      simp only [rangesL, Block.ranges, List.append_nil]
      exact List.perm_append_comm
  · obtain ⟨n, b, hf, hb, hb1, hb2⟩ := find_in hp h3 (by omega)
    have hlt : n < cs.length := (List.getElem?_eq_some_iff.1 hb).1
    have hsplit : cs = cs.take n ++ b :: cs.drop (n + 1) := by
      have hg := (List.getElem?_eq_some_iff.1 hb).2
      rw [← hg]
      simp
    generalize hA : cs.take n = A at hsplit
    generalize hB : cs.drop (n + 1) = B at hsplit
    have hn : A.length = n := by rw [← hA, List.length_take]; omega
    have okA : ∀ c ∈ A, OK c := fun c hc => OKL_iff.1 hk c (by rw [hsplit]; simp [hc])
    have okB : ∀ c ∈ B, OK c := fun c hc => OKL_iff.1 hk c (by rw [hsplit]; simp [hc])
    have okb : OK b := OKL_iff.1 hk b (List.mem_of_getElem? hb)
    have hp' := hp
    rw [hsplit] at hp'
    obtain ⟨m, pA, pb1, pb2, pB⟩ := Parts.append.1 hp'
    have eA : (rangesL A).map (push index) = rangesL A := by
      have : rangesL (A.map id) = (rangesL A).map (push index) := by
        apply rangesL_map
        intro c hc
        have := pA.mem hc
        exact (ranges_push_left (okA c hc) (by omega)).symm
      simpa using this.symm
    have eB : rangesL (B.map (delta 1)) = (rangesL B).map (push index) := by
      apply rangesL_map
      intro c hc
      have := pB.mem hc
      exact ranges_push_right (okB c hc) (by omega)
    have hsB : shiftL index 0 B = some (B.map (delta 1)) :=
      shiftL_right (fun c hc => by have := pB.mem hc; omega)
    by_cases c : b.first = index
    · have hs : shiftL index n cs = some (A ++ delta 1 b :: B.map (delta 1)) := by
        rw [hsplit, ← hn, shiftL_skip, shiftL]
        simp only [if_pos, shift_right (show index ≤ b.first by omega)]
        rw [hsB]; rfl
      rw [shift_eq h1 h2 hf hs, if_neg (by omega), hb]
      simp only [c, if_true]
      rw [← hn, List.take_left, List.drop_left]
      have q : Parts (index + 1) (hi + 1) (delta 1 b :: B.map (delta 1)) := by
        have := pB.delta 1
        simp only [Parts, delta_first, delta_last]
        refine ⟨by omega, by omega, ?_⟩
        rw [show b.last + 1 + 1 = b.last + 1 + 1 from rfl]; exact this
      refine ⟨_, rfl, Parts.append.2 ⟨m, pA, ?_⟩, ?_, ?_⟩
      · simp only [Parts, first_mk, last_mk] at q ⊢
        exact ⟨by omega, by omega, q⟩
      · rw [OKL_iff]; intro x hx
        rcases List.mem_append.1 hx with hx | hx
        · exact okA x hx
        · rcases List.mem_cons.1 hx with e | hx
          · rw [e]; exact ok_leaf _
          · rcases List.mem_cons.1 hx with e | hx
            · rw [e]; exact OK.delta 1 b okb
            · obtain ⟨y, hy, rfl⟩ := List.mem_map.1 hx
              exact OK.delta 1 y (okB y hy)
      · rw [rangesL_append, hsplit, rangesL_append]
        simp only [rangesL, Block.ranges, List.map_append, List.nil_append, List.cons_append]
        rw [eA, eB, ranges_push_right (index := index) okb (by omega)]
        exact perm_insert
    · obtain ⟨bs', e1, i1⟩ := shift_spec b okb index (by omega) hb2
      have hs : shiftL index n cs = some (A ++ mk b.first (b.last + 1) b.reorderable bs' :: B.map (delta 1)) := by
        rw [hsplit, ← hn, shiftL_skip, shiftL]
        simp only [if_pos, e1]
        rw [hsB]; rfl
      rw [shift_eq h1 h2 hf hs, if_neg (by omega), hb]
      simp only [c, if_false]
      refine ⟨_, rfl, Parts.append.2 ⟨m, pA, ?_⟩, ?_, ?_⟩
      · have := pB.delta 1
        simp only [Parts, first_mk, last_mk]
        exact ⟨by omega, by omega, this⟩
      · rw [OKL_iff]; intro x hx
        rcases List.mem_append.1 hx with hx | hx
        · exact okA x hx
        · rcases List.mem_cons.1 hx with e | hx
          · rw [e]
            simp only [OK]
            exact ⟨i1.ok, fun e => by have := i1.parts; rw [e] at this; simp only [Parts] at this; omega,
              fun _ => i1.parts⟩
          · obtain ⟨y, hy, rfl⟩ := List.mem_map.1 hx
            exact OK.delta 1 y (okB y hy)
      · rw [rangesL_append, hsplit, rangesL_append]
        simp only [rangesL, Block.ranges, List.map_append]
        rw [eA, eB]
        have hr : (ranges b).map (push index) =
            (b.first, b.last + 1) :: (rangesL b.children).map (push index) := by
          cases b with
          | mk f' l' r' c' =>
            simp only [Block.ranges, first_mk, last_mk, children_mk, List.map_cons, push] at *
            rw [if_neg (by omega), if_pos (by omega)]
        rw [hr]
        have := i1.ranges
        refine List.Perm.trans ?_ perm_insert
        apply List.Perm.append_left
        refine List.Perm.trans (List.Perm.append_right _ (List.Perm.cons _ this)) ?_
        exact List.Perm.swap _ _ _
termination_by cs => 1 + sizeOf cs
decreasing_by
  have := List.sizeOf_lt_of_mem (List.mem_of_getElem? hb)
  omega
end

theorem SuperOK.init : SuperOK 0 super0 := by
  refine ⟨rfl, rfl, ?_, ?_⟩ <;> simp [super0, children_mk, Parts, OKL]

theorem SuperOK.shift {n : Nat} {b : Block} (h : SuperOK n b) {index : Nat} (hi : index ≤ n) :
    ∃ b', Block.shift index b = some b' ∧ SuperOK (n + 1) b' ∧ b'.reorderable = b.reorderable ∧
      (rangesL b'.children).Perm (((index : Int), (index : Int)) :: (rangesL b.children).map (push index)) := by
  cases b with
  | mk f l re cs =>
    obtain ⟨h1, h2, h3, h4⟩ := h
    simp only [first_mk, last_mk, children_mk] at h1 h2 h3 h4
    obtain ⟨cs', e, i⟩ := shift_kids cs h3 h4 f l re index (by omega) (by omega) (by omega) (by omega)
    refine ⟨_, e, ⟨h1, ?_, ?_, i.ok⟩, rfl, i.ranges⟩
    · simp only [last_mk]; omega
    · have := i.parts
      simpa [children] using this

/-! ### Adding a block -/

theorem addL_at (r : Int × Int) : ∀ (a : List Block) {b : Block} {c : List Block},
    addL r a.length (a ++ b :: c) =
      match add r b with
      | none => none
      | some .fatal => some .fatal
      | some (.ok b') => some (.ok (a ++ b' :: c))
  | [], b, c => by
    simp only [List.length_nil, List.nil_append]
    rw [addL]
    cases add r b with
    | none => rfl
    | some o => cases o <;> rfl
  | x :: xs, b, c => by
    simp only [List.length_cons, List.cons_append]
    rw [addL, addL_at r xs]
    cases add r b with
    | none => rfl
    | some o => cases o <;> rfl

theorem split_at {cs : List Block} {n : Nat} {b : Block} (hb : cs[n]? = some b) :
    cs = cs.take n ++ b :: cs.drop (n + 1) ∧ (cs.take n).length = n := by
  have hlt : n < cs.length := (List.getElem?_eq_some_iff.1 hb).1
  have hg := (List.getElem?_eq_some_iff.1 hb).2
  constructor
  · rw [← hg]; simp
  · rw [List.length_take]; omega

/-- The children after the new block went in. -/
structure Added (r : Int × Int) (lo hi : Int) (cs cs' : List Block) : Prop where
  parts : Parts lo hi cs'
  ok : OKL cs'
  ranges : (rangesL cs').Perm (r :: rangesL cs)

mutual
theorem add_spec : ∀ (b : Block), OK b → ∀ (p q : Int), b.first ≤ p → p ≤ q → q ≤ b.last →
    (add (p, q) b = some .fatal ∧ ∃ r ∈ rangesL b.children, Cross r (p, q)) ∨
    (∃ cs', add (p, q) b = some (.ok (mk b.first b.last b.reorderable cs')) ∧
      Added (p, q) b.first (b.last + 1) b.children cs')
  | mk f l re cs, h, p, q, h1, h2, h3 => by
    simp only [first_mk, last_mk, children_mk, reorderable_mk] at *
    simp only [OK] at h
    by_cases c : cs = []
    · subst c
      have := h.2.1 rfl
      refine .inr ⟨_, by rw [add], ?_, ?_, ?_⟩
      · simp only [Parts, first_mk, last_mk]; omega
      · have : p = q := by omega
        subst this
        simp only [OKL]
        exact ⟨ok_leaf _, trivial⟩
      · simp [rangesL, Block.ranges]
    · exact add_kids cs c (h.2.2 c) h.1 f l re p q h1 h2 (by omega)
termination_by b => sizeOf b

theorem add_kids : ∀ (cs : List Block), cs ≠ [] → ∀ {lo hi : Int}, Parts lo hi cs → OKL cs →
    ∀ (f l : Int) (re : Bool) (p q : Int), lo ≤ p → p ≤ q → q < hi →
    (add (p, q) (mk f l re cs) = some .fatal ∧ ∃ r ∈ rangesL cs, Cross r (p, q)) ∨
    (∃ cs', add (p, q) (mk f l re cs) = some (.ok (mk f l re cs')) ∧ Added (p, q) lo hi cs cs') := by
  intro cs hne lo hi hp hk f l re p q h1 h2 h3
  obtain ⟨i, b, hi1, hb, hb1, hb2⟩ := find_in hp h1 (by omega)
  obtain ⟨j, c, hj1, hc, hc1, hc2⟩ := find_in hp (by omega : lo ≤ q) h3
  have okb : OK b := OKL_iff.1 hk b (List.mem_of_getElem? hb)
  have okc : OK c := OKL_iff.1 hk c (List.mem_of_getElem? hc)
  have hadd : add (p, q) (mk f l re cs) =
      if i = j then
        match addL (p, q) i cs with
        | none => none
        | some .fatal => some .fatal
        | some (.ok cs') => some (.ok (mk f l re cs'))
      else if b.first ≠ p ∨ c.last ≠ q then some .fatal
      else some (.ok (mk f l re (cs.take i ++ mk p q false ((cs.take (j + 1)).drop i) :: cs.drop (j + 1)))) := by
    cases cs with
    | nil => exact absurd rfl hne
    | cons x xs =>
      rw [add]
      simp only
      rw [hi1, hj1]
      simp only [Int.toNat_natCast]
      rw [if_neg (by omega), hb, hc]
      simp only [Int.ofNat_inj]
      rfl
  rw [hadd]
  obtain ⟨si, li⟩ := split_at hb
  obtain ⟨sj, lj⟩ := split_at hc
  by_cases e : i = j
  · subst e
    rw [hb] at hc; cases hc
    rw [if_pos rfl]
    generalize hA : cs.take i = A at si li
    generalize hB : cs.drop (i + 1) = B at si
    have hL := addL_at (p, q) A (b := b) (c := B)
    rw [li, ← si] at hL
    rw [hL]
    have hp' := hp
    rw [si] at hp'
    obtain ⟨m, pA, pb1, pb2, pB⟩ := Parts.append.1 hp'
    rcases add_spec b okb p q hb1 h2 hc2 with ⟨e1, r, hr, hx⟩ | ⟨bs', e1, a1⟩
    · left
      rw [e1]
      refine ⟨rfl, r, mem_rangesL.2 ⟨b, List.mem_of_getElem? hb, ?_⟩, hx⟩
      cases b with
      | mk _ _ _ _ => simp only [Block.ranges, List.mem_cons]; exact .inr hr
    · right
      rw [e1]
      refine ⟨_, rfl, Parts.append.2 ⟨m, pA, ?_⟩, ?_, ?_⟩
      · simp only [Parts, first_mk, last_mk]; exact ⟨pb1, pb2, pB⟩
      · rw [OKL_iff]; intro x hx
        rcases List.mem_append.1 hx with hx | hx
        · exact OKL_iff.1 hk x (by rw [si]; simp [hx])
        · rcases List.mem_cons.1 hx with e | hx
          · rw [e]
            simp only [OK]
            exact ⟨a1.ok, fun e => by have := a1.parts; rw [e] at this; simp only [Parts] at this; omega,
              fun _ => a1.parts⟩
          · exact OKL_iff.1 hk x (by rw [si]; simp [hx])
      · rw [rangesL_append, si, rangesL_append]
        simp only [rangesL, Block.ranges]
        have hr : ranges b = (b.first, b.last) :: rangesL b.children := by
          cases b with
          | mk f' l' r' c' => simp only [Block.ranges, first_mk, last_mk, children_mk]
        rw [hr]
        refine List.Perm.trans ?_ perm_insert
        apply List.Perm.append_left
        refine List.Perm.trans (List.Perm.append_right _ (List.Perm.cons _ a1.ranges)) ?_
        exact List.Perm.swap _ _ _
  · rw [if_neg e]
    have hij : i < j := by
      rcases Nat.lt_trichotomy i j with h | h | h
      · exact h
      · exact absurd h e
      · have := hp.sorted hc hb h; omega
    have hs := hp.sorted hb hc hij
    have mb : (b.first, b.last) ∈ rangesL cs := mem_rangesL.2 ⟨b, List.mem_of_getElem? hb, by
      cases b with
      | mk _ _ _ _ => simp [Block.ranges, first_mk, last_mk]⟩
    have mc : (c.first, c.last) ∈ rangesL cs := mem_rangesL.2 ⟨c, List.mem_of_getElem? hc, by
      cases c with
      | mk _ _ _ _ => simp [Block.ranges, first_mk, last_mk]⟩
    by_cases c1 : b.first ≠ p ∨ c.last ≠ q
    · left
      rw [if_pos c1]
      refine ⟨rfl, ?_⟩
      by_cases c2 : b.first ≠ p
      · exact ⟨_, mb, by simp only [Cross]; omega⟩
      · exact ⟨_, mc, by simp only [Cross]; omega⟩
    · right
      rw [if_neg c1]
      have c1' : b.first = p ∧ c.last = q := by
        constructor
        · exact Classical.byContradiction fun h => c1 (.inl h)
        · exact Classical.byContradiction fun h => c1 (.inr h)
      have split3 : cs = cs.take i ++ ((cs.take (j + 1)).drop i ++ cs.drop (j + 1)) := by
        have : cs.take i = (cs.take (j + 1)).take i := by rw [List.take_take]; congr 1; omega
        rw [← List.append_assoc, this, List.take_append_drop, List.take_append_drop]
      generalize hA : cs.take i = A at split3 si li
      generalize hM : (cs.take (j + 1)).drop i = M at split3
      generalize hC : cs.drop (j + 1) = C at split3 sj
      have hp' := hp
      rw [split3] at hp'
      obtain ⟨m, pA, hp2⟩ := Parts.append.1 hp'
      obtain ⟨m2, pM, pC⟩ := Parts.append.1 hp2
      have em : m = p := by
        have hq := hp
        rw [si] at hq
        obtain ⟨m', pA', pb1, _, _⟩ := Parts.append.1 hq
        have : m = m' := by
          have hu : ∀ (a : List Block) {lo x y : Int}, Parts lo x a → Parts lo y a → x = y := by
            intro a
            induction a with
            | nil => intro lo x y hx hy; simp only [Parts] at hx hy; omega
            | cons d ds ih => intro lo x y hx hy; exact ih hx.2.2 hy.2.2
          exact hu _ pA pA'
        omega
      have em2 : m2 = q + 1 := by
        have hcM : c ∈ M := by
          rw [← hM]
          apply List.mem_of_getElem? (i := j - i)
          rw [List.getElem?_drop, List.getElem?_take, if_pos (by omega)]
          rw [show i + (j - i) = j by omega]; exact hc
        have := (pM.mem hcM).2.2
        have hcl := pC.le
        -- the next block begins right after `c`
        have hM' : M = M.dropLast ++ [c] := by
          have hlast : M.getLast? = some c := by
            rw [← hM, List.getLast?_eq_getElem?]
            have hlen : ((cs.take (j + 1)).drop i).length = j + 1 - i := by
              have := (List.getElem?_eq_some_iff.1 hc).1
              simp [List.length_drop, List.length_take]; omega
            rw [hlen, List.getElem?_drop, List.getElem?_take, if_pos (by omega)]
            rw [show i + (j + 1 - i - 1) = j by omega]; exact hc
          obtain ⟨ys, hys⟩ := List.getLast?_eq_some_iff.1 hlast
          rw [hys]; simp
        rw [hM'] at pM
        obtain ⟨m3, _, d1, d2, d3⟩ := Parts.append.1 pM
        simp only [Parts] at d3
        omega
      subst em em2
      have hMne : M ≠ [] := by
        intro e; rw [e] at pM; simp only [Parts] at pM; omega
      refine ⟨_, rfl, Parts.append.2 ⟨m, pA, ?_⟩, ?_, ?_⟩
      · simp only [Parts, first_mk, last_mk]; exact ⟨trivial, h2, pC⟩
      · rw [OKL_iff]; intro x hx
        rcases List.mem_append.1 hx with hx | hx
        · exact OKL_iff.1 hk x (by rw [split3]; simp [hx])
        · rcases List.mem_cons.1 hx with e | hx
          · rw [e]
            simp only [OK]
            refine ⟨OKL_iff.2 fun y hy => OKL_iff.1 hk y (by rw [split3]; simp [hy]),
              fun e => absurd e hMne, fun _ => pM⟩
          · exact OKL_iff.1 hk x (by rw [split3]; simp [hx])
      · rw [rangesL_append, split3, rangesL_append, rangesL_append]
        simp only [rangesL, Block.ranges, List.cons_append]
        exact perm_insert
termination_by cs => 1 + sizeOf cs
decreasing_by
  have := List.sizeOf_lt_of_mem (List.mem_of_getElem? hb)
  omega
end

theorem SuperOK.add {n : Nat} {b : Block} (h : SuperOK n b) {p q : Int} (h1 : 0 ≤ p) (h2 : p ≤ q) (h3 : q < n) :
    (Block.add (p, q) b = some .fatal ∧ ∃ r ∈ rangesL b.children, Cross r (p, q)) ∨
    (∃ b', Block.add (p, q) b = some (.ok b') ∧ SuperOK n b' ∧ b'.reorderable = b.reorderable ∧
      (rangesL b'.children).Perm ((p, q) :: rangesL b.children)) := by
  cases b with
  | mk f l re cs =>
    obtain ⟨k1, k2, k3, k4⟩ := h
    simp only [first_mk, last_mk, children_mk] at k1 k2 k3 k4
    have hne : cs ≠ [] := by intro e; rw [e] at k3; simp only [Parts] at k3; omega
    rcases add_kids cs hne k3 k4 f l re p q h1 h2 h3 with h | ⟨cs', e, a⟩
    · exact .inl h
    · exact .inr ⟨_, e, ⟨k1, k2, a.parts, a.ok⟩, rfl, a.ranges⟩

/-! ### Changing the flag of a block -/

theorem setFlag_first (r p) (b : Block) : (setFlag r p b).first = b.first := by
  cases b; cases p <;> rfl

theorem setFlag_last (r p) (b : Block) : (setFlag r p b).last = b.last := by
  cases b; cases p <;> rfl

theorem Parts.modify {g : Block → Block} (h1 : ∀ b, (g b).first = b.first) (h2 : ∀ b, (g b).last = b.last) :
    ∀ {cs : List Block} {lo hi} (i : Nat), Parts lo hi (cs.modify i g) ↔ Parts lo hi cs
  | [], _, _, i => by simp
  | c :: cs, lo, hi, 0 => by simp [Parts, h1, h2]
  | c :: cs, lo, hi, i + 1 => by
    simp [Parts, Parts.modify h1 h2 (cs := cs) i]

theorem OKL.modify {g : Block → Block} (h : ∀ b, OK b → OK (g b)) {cs : List Block} (i : Nat) (hc : OKL cs) :
    OKL (cs.modify i g) := by
  induction cs generalizing i with
  | nil => simpa using hc
  | cons c cs ih =>
    simp only [OKL] at hc
    cases i with
    | zero => simp only [List.modify_zero_cons, OKL]; exact ⟨h c hc.1, hc.2⟩
    | succ i => simp only [List.modify_succ_cons, OKL]; exact ⟨hc.1, ih i hc.2⟩

theorem rangesL_modify {g : Block → Block} (h : ∀ b, ranges (g b) = ranges b) (cs : List Block) (i : Nat) :
    rangesL (cs.modify i g) = rangesL cs := by
  induction cs generalizing i with
  | nil => simp
  | cons c cs ih =>
    cases i with
    | zero => simp [rangesL, h]
    | succ i => simp [rangesL, ih]

theorem setFlag_ranges (r) : ∀ p (b : Block), ranges (setFlag r p b) = ranges b
  | [], mk _ _ _ _ => rfl
  | i :: p, mk f l _ cs => by
    simp only [setFlag, ranges]
    rw [rangesL_modify (setFlag_ranges r p)]

theorem setFlag_ok (r) : ∀ p (b : Block), OK b → OK (setFlag r p b)
  | [], mk _ _ _ _, h => by simpa only [setFlag, OK] using h
  | i :: p, mk f l _ cs, h => by
    simp only [setFlag, OK] at h ⊢
    refine ⟨OKL.modify (setFlag_ok r p) i h.1, fun e => h.2.1 ?_, fun e => ?_⟩
    · cases cs with
      | nil => rfl
      | cons c cs => cases i <;> simp at e
    · rw [Parts.modify (setFlag_first r p) (setFlag_last r p)]
      exact h.2.2 (by intro e'; subst e'; simp at e)

theorem SuperOK.setFlag {n : Nat} {b : Block} (h : SuperOK n b) (r : Bool) (p : List Nat) :
    SuperOK n (setFlag r p b) ∧ rangesL (Block.setFlag r p b).children = rangesL b.children := by
  cases b with
  | mk f l r0 cs =>
    obtain ⟨h1, h2, h3, h4⟩ := h
    cases p with
    | nil => exact ⟨⟨h1, h2, h3, h4⟩, rfl⟩
    | cons i p =>
      refine ⟨⟨h1, h2, ?_, ?_⟩, rangesL_modify (setFlag_ranges r p) cs i⟩
      · exact (Parts.modify (setFlag_first r p) (setFlag_last r p) i).2 h3
      · exact OKL.modify (setFlag_ok r p) i h4

end Cal.Block
