import Verif.FnProfile3

/-!
# Function profiles: a key that is in the table twice
-/

namespace Cal

namespace Hash

variable {K : Type} [DecidableEq K]

/-- The entries for a key, in the order in which a lookup meets them. -/
def Table.chain (h : K → Nat) (t : Table K) (k : K) : List (Ent K) :=
  (t.bins (t.slot h k)).filter fun e => e.key = k

theorem Table.lookup_chain (h : K → Nat) (t : Table K) (k : K) : t.lookup h k = (t.chain h k).head?.map (·.addr) := by
  unfold Table.lookup Table.chain
  rw [List.head?_filter]

open Table

theorem push_chain (h : K → Nat) (b : Nat → List (Ent K)) (n : Nat) (e : Ent K) (k : K) :
    (push b (h e.key &&& (n - 1)) e (h k &&& (n - 1))).filter (fun e => e.key = k) =
      (if e.key = k then [e] else []) ++ (b (h k &&& (n - 1))).filter fun e => e.key = k := by
  unfold push
  by_cases c : e.key = k
  · rw [if_pos c, c, upd_same, List.filter_cons_of_pos (by simpa using c)]
    rfl
  · rw [if_neg c, List.nil_append]
    by_cases d : (h k &&& (n - 1)) = (h e.key &&& (n - 1))
    · rw [← d, upd_same, List.filter_cons_of_neg (by simpa using c)]
    · rw [upd_ne _ _ d]

theorem foldl_chain (h : K → Nat) (n : Nat) (k : K) : ∀ (l : List (Ent K)) (b : Nat → List (Ent K)),
    ((l.foldl (fun b e => push b (h e.key &&& (n - 1)) e) b) (h k &&& (n - 1))).filter (fun e => e.key = k) =
      (l.filter fun e => e.key = k).reverse ++ (b (h k &&& (n - 1))).filter fun e => e.key = k := by
  intro l
  induction l with
  | nil => intro b; rfl
  | cons e l ih =>
    intro b
    rw [List.foldl_cons, ih, push_chain]
    by_cases c : e.key = k
    · rw [if_pos c, List.filter_cons_of_pos (by simpa using c), List.reverse_cons, List.append_assoc]
    · rw [if_neg c, List.filter_cons_of_neg (by simpa using c), List.nil_append]

theorem relink_chain (h : K → Nat) (n : Nat) (k : K) (old : Nat → List (Ent K)) (is : List Nat) :
    (relink h n old is (h k &&& (n - 1))).filter (fun e => e.key = k) =
      ((is.flatMap old).filter fun e => e.key = k).reverse := by
  have key : ∀ (is : List Nat) (b : Nat → List (Ent K)),
      ((is.foldl (fun b i => (old i).foldl (fun b e => push b (h e.key &&& (n - 1)) e) b) b) (h k &&& (n - 1))).filter (fun e => e.key = k) =
        ((is.flatMap old).filter fun e => e.key = k).reverse ++ (b (h k &&& (n - 1))).filter fun e => e.key = k := by
    intro is
    induction is with
    | nil => intro b; rfl
    | cons i is ih =>
      intro b
      rw [List.foldl_cons, ih, foldl_chain, List.flatMap_cons, List.filter_append, List.reverse_append, List.append_assoc]
  have := key is (fun _ => [])
  rw [List.filter_nil, List.append_nil] at this
  exact this

theorem range_chain {h : K → Nat} {t : Table K} {l} (w : t.OK h l) (k : K) : ∀ n, ((List.range n).flatMap t.bins).filter (fun e => e.key = k) =
    if t.slot h k < n then t.chain h k else [] := by
  intro n
  induction n with
  | zero => rfl
  | succ n ih =>
    rw [List.range_succ, List.flatMap_append, List.filter_append, ih]
    simp only [List.flatMap_cons, List.flatMap_nil, List.append_nil]
    by_cases c : t.slot h k = n
    · subst c
      rw [if_neg (by omega), if_pos (by omega), List.nil_append]
      rfl
    · have : (t.bins n).filter (fun e => e.key = k) = [] := by
        rw [List.filter_eq_nil_iff]
        intro e he hk
        have := w.slots n e he
        rw [show e.key = k by simpa using hk] at this
        exact c this.symm
      rw [this, List.append_nil]
      by_cases d : t.slot h k < n
      · rw [if_pos d, if_pos (by omega)]
      · rw [if_neg d, if_neg (by omega)]

/-- Growing turns the entries for a key round. -/
theorem rehash_chain {h : K → Nat} {t : Table K} {l} (w : t.OK h l) (k : K) : (t.rehash h true).chain h k = (t.chain h k).reverse := by
  have : (t.rehash h true).chain h k = (relink h (2 ^ (t.sizeIndex + 1)) t.bins (List.range t.numBins) (h k &&& (2 ^ (t.sizeIndex + 1) - 1))).filter fun e => e.key = k := rfl
  rw [this, relink_chain, range_chain w, if_pos]
  unfold Table.slot
  have : 0 < t.numBins := Nat.pos_of_ne_zero (by simp [Table.numBins])
  have := Nat.and_le_right (n := h k) (m := t.numBins - 1)
  omega

end Hash

namespace HRef

open Hash

/-- the entries for `x` -/
def chain (h : HRef) (x : Edge) : List (Ent Edge) := h.t.chain hash1 x

theorem get_chain (h : HRef) (x : Edge) : h.get x = (h.chain x).head?.map fun e => h.data e.addr := by
  rw [get, ptr, Table.lookup_chain, Option.map_map]; rfl

private def bumped (t : Table Edge) : Table Edge := { t with numEntries := t.numEntries + 1 }

private def put (t : Table Edge) (k : Edge) (a : Nat) : Table Edge := { t with bins := Table.push t.bins (t.slot hash1 k) ⟨a, k⟩ }

private theorem addDirect_eq (t : Table Edge) (k : Edge) (a : Nat) : t.addDirect hash1 k a =
    put (if t.maxCapacity ≤ t.numEntries + 1 then (bumped t).rehash hash1 true else bumped t) k a := rfl

theorem chain_insert {h : HRef} {l} (w : h.OK l) (x v) (y : Edge) :
    (h.insert x v).chain y = (if x = y then [⟨h.next, x⟩] else []) ++
      (if h.t.maxCapacity ≤ h.t.numEntries + 1 then (h.chain y).reverse else h.chain y) := by
  show Table.chain hash1 (h.t.addDirect hash1 x h.next) y = _
  rw [addDirect_eq]
  by_cases c : h.t.maxCapacity ≤ h.t.numEntries + 1
  · rw [if_pos c, if_pos c]
    have := push_chain hash1 (h.t.rehash hash1 true).bins (2 ^ (h.t.sizeIndex + 1)) ⟨h.next, x⟩ y
    rw [show (h.chain y).reverse = (h.t.rehash hash1 true).chain hash1 y from (rehash_chain w.tab y).symm]
    exact this
  · rw [if_neg c, if_neg c]
    exact push_chain hash1 h.t.bins (2 ^ h.t.sizeIndex) ⟨h.next, x⟩ y

theorem insert_size (h : HRef) (x v) : (h.insert x v).t.numEntries = h.t.numEntries + 1 ∧
    (h.insert x v).t.sizeIndex = if h.t.maxCapacity ≤ h.t.numEntries + 1 then h.t.sizeIndex + 1 else h.t.sizeIndex := by
  show (h.t.addDirect hash1 x h.next).numEntries = _ ∧ (h.t.addDirect hash1 x h.next).sizeIndex = _
  rw [addDirect_eq]
  by_cases c : h.t.maxCapacity ≤ h.t.numEntries + 1
  · rw [if_pos c, if_pos c]
    exact ⟨rfl, rfl⟩
  · rw [if_neg c, if_neg c]
    exact ⟨rfl, rfl⟩

/-- Inserting another key a number of times, without growing. -/
theorem chain_many {x y : Edge} (hxy : x ≠ y) : ∀ n {h : HRef} {l}, h.OK l → h.t.numEntries + n < h.t.maxCapacity →
    (insertRoots h (List.replicate n x)).chain y = h.chain y ∧ (∃ l', (insertRoots h (List.replicate n x)).OK l') ∧
    (insertRoots h (List.replicate n x)).t.numEntries = h.t.numEntries + n ∧
    (insertRoots h (List.replicate n x)).t.sizeIndex = h.t.sizeIndex := by
  intro n
  induction n with
  | zero => intro h l w _; exact ⟨rfl, ⟨l, w⟩, rfl, rfl⟩
  | succ n ih =>
    intro h l w hc
    have hs := insert_size h x (-1)
    have hn : ¬ h.t.maxCapacity ≤ h.t.numEntries + 1 := by omega
    rw [if_neg hn] at hs
    have hcap : (h.insert x (-1)).t.maxCapacity = h.t.maxCapacity := by
      unfold Table.maxCapacity Table.numBins; rw [hs.2]
    obtain ⟨h1, h2, h3, h4⟩ := ih (w.insert x (-1)) (by rw [hcap, hs.1]; omega)
    have e : insertRoots h (List.replicate (n + 1) x) = insertRoots (h.insert x (-1)) (List.replicate n x) := rfl
    rw [e]
    refine ⟨?_, h2, by rw [h3, hs.1]; omega, by rw [h4, hs.2]⟩
    rw [h1, chain_insert w, if_neg hxy, if_neg hn, List.nil_append]

end HRef

theorem insertRoots_append (h : HRef) (l l' : List Edge) : insertRoots h (l ++ l') = insertRoots (insertRoots h l) l' := List.foldl_append

/-- A function `f` that has an entry already, and another one that is marked often enough for the table to grow once:
the old entry is found. -/
theorem shadowed {h : HRef} {l} (w : h.OK l) (u : HRef.Uniq l) {f g : Edge} (hfg : g ≠ f) {v} (hv : h.get f = some v)
    (hs : h.t.sizeIndex = 8) {n : Nat} (h1 : 1279 ≤ h.t.numEntries + n) (h0 : h.t.numEntries < 1279) (h2 : h.t.numEntries + n < 2500) :
    (insertRoots h (f :: List.replicate n g)).get f = some v := by
  have hcap : h.t.maxCapacity = 1280 := by unfold Hash.Table.maxCapacity Hash.Table.numBins; rw [hs]
  -- the mark
  have w1 := w.insert f (-1)
  have s1 := HRef.insert_size h f (-1)
  rw [if_neg (by omega)] at s1
  have c1 := HRef.chain_insert w f (-1) f
  rw [if_pos rfl, if_neg (by omega)] at c1
  have cap1 : (h.insert f (-1)).t.maxCapacity = 1280 := by unfold Hash.Table.maxCapacity Hash.Table.numBins; rw [s1.2, hs]
  -- up to growing
  obtain ⟨b, hb⟩ : ∃ b, h.t.numEntries + 1 + b + 1 = 1280 := ⟨1278 - h.t.numEntries, by omega⟩
  obtain ⟨d, hd⟩ : ∃ d, n = b + (1 + d) := ⟨n - b - 1, by omega⟩
  have e : f :: List.replicate n g = [f] ++ (List.replicate b g ++ (List.replicate 1 g ++ List.replicate d g)) := by
    rw [List.replicate_append_replicate, List.replicate_append_replicate, hd]; rfl
  rw [e, insertRoots_append, insertRoots_append, insertRoots_append]
  obtain ⟨c2, ⟨l2, w2⟩, n2, s2⟩ := HRef.chain_many hfg b w1 (by rw [cap1, s1.1]; omega)
  rw [show insertRoots h [f] = h.insert f (-1) from rfl]
  generalize hh2 : insertRoots (h.insert f (-1)) (List.replicate b g) = h2 at *
  rw [show insertRoots h2 (List.replicate 1 g) = h2.insert g (-1) from rfl]
  have cap2 : h2.t.maxCapacity = 1280 := by unfold Hash.Table.maxCapacity Hash.Table.numBins; rw [s2, s1.2, hs]
  have s3 := HRef.insert_size h2 g (-1)
  rw [if_pos (by rw [cap2, n2, s1.1]; omega)] at s3
  have c3 := HRef.chain_insert w2 g (-1) f
  rw [if_neg hfg, if_pos (by rw [cap2, n2, s1.1]; omega), List.nil_append] at c3
  have cap3 : (h2.insert g (-1)).t.maxCapacity = 2560 := by unfold Hash.Table.maxCapacity Hash.Table.numBins; rw [s3.2, s2, s1.2, hs]
  obtain ⟨c4, -⟩ := HRef.chain_many hfg d (w2.insert g (-1)) (by rw [cap3, s3.1, n2, s1.1]; omega)
  -- the entry that is found
  have hm : ∀ y ∈ h.chain f, y ∈ l ∧ y.key = f := by
    intro y hy
    rw [HRef.chain, Hash.Table.chain, List.mem_filter] at hy
    have hk : y.key = f := by simpa using hy.2
    exact ⟨w.tab.mem.2 (by rw [hk]; exact hy.1), hk⟩
  have hne : h.chain f ≠ [] := by
    intro h0
    rw [HRef.get_chain, h0] at hv
    cases hv
  obtain ⟨y, r, hy⟩ := List.exists_cons_of_ne_nil (show (h.chain f).reverse ≠ [] by simpa using hne)
  have hy' : y ∈ h.chain f := by rw [← List.mem_reverse, hy]; simp
  obtain ⟨m1, m2⟩ := hm y hy'
  rw [HRef.get_chain, c4, c3, c2, c1, List.singleton_append, List.reverse_cons, hy, List.cons_append, List.head?_cons, Option.map_some]
  obtain ⟨l', -, -, a2, -⟩ := insertRoots_ent (fs := f :: List.replicate n g) w
  have hd2 := a2 y m1
  rw [e, insertRoots_append, insertRoots_append, insertRoots_append, show insertRoots h [f] = h.insert f (-1) from rfl, hh2] at hd2
  rw [show insertRoots h2 (List.replicate 1 g) = h2.insert g (-1) from rfl] at hd2
  rw [hd2, ← hv, ← m2, w.get_uniq u m1]

end Cal
