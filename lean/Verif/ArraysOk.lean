import Verif.Arrays
import Verif.ArraysSpec
/-!
# The arrays are long enough, and hold what they should
-/

namespace Cal.Arrays

theorem put_ok {a : Arr α} {i : Nat} (h : i < a.length) (x : α) :
    ∃ b, put a i x = some b ∧ b.length = a.length ∧ ∀ j, get b j = if j = i then some x else get a j := by
  refine ⟨a.set i (some x), by simp [put, h], by simp, fun j => ?_⟩
  simp only [get, List.getElem?_set]
  by_cases e : j = i
  · subst e
    simp [h]
  · have : ¬ i = j := fun h => e h.symm
    simp [this, e]

theorem get_lt {a : Arr α} {i : Nat} {x : α} (h : get a i = some x) : i < a.length := by
  simp only [get] at h
  rcases Nat.lt_or_ge i a.length with h1 | h1
  · exact h1
  · rw [List.getElem?_eq_none h1] at h
    cases h

theorem get_alloc (n i : Nat) : get (alloc n : Arr α) i = none := by
  simp only [get, alloc, List.getElem?_replicate]
  split <;> rfl

theorem length_alloc (n : Nat) : (alloc n : Arr α).length = n := by simp [alloc]

theorem length_realloc (a : Arr α) (n : Nat) : (realloc a n).length = n := by
  simp only [realloc, alloc, List.length_append, List.length_take, List.length_replicate]
  omega

theorem get_realloc {a : Arr α} {n : Nat} (h : a.length ≤ n) (i : Nat) : get (realloc a n) i = get a i := by
  simp only [realloc]
  rw [List.take_of_length_le h]
  by_cases hi : i < a.length
  · simp only [get]
    rw [List.getElem?_append_left hi]
  · have e : get a i = none := by
      simp only [get]
      rw [List.getElem?_eq_none (by omega)]
      rfl
    rw [e]
    simp only [get]
    rw [List.getElem?_append_right (by omega)]
    exact get_alloc _ _

theorem fill_ok (x : α) : ∀ (k i : Nat) (a : Arr α), i + k ≤ a.length →
    ∃ b, fill x i k a = some b ∧ b.length = a.length ∧
      ∀ j, get b j = if i ≤ j ∧ j < i + k then some x else get a j
  | 0, i, a, _ => ⟨a, rfl, rfl, fun j => by rw [if_neg (by omega)]⟩
  | k + 1, i, a, h => by
    obtain ⟨b, e1, l1, g1⟩ := put_ok (a := a) (i := i) (by omega) x
    obtain ⟨c, e2, l2, g2⟩ := fill_ok x k (i + 1) b (by omega)
    refine ⟨c, by simp [fill, e1, e2], by omega, fun j => ?_⟩
    rw [g2, g1]
    by_cases h1 : j = i
    · subst h1
      rw [if_neg (by omega), if_pos rfl, if_pos (by omega)]
    · by_cases h2 : i + 1 ≤ j ∧ j < i + 1 + k
      · rw [if_pos h2, if_pos (by omega)]
      · rw [if_neg h2, if_neg h1, if_neg (by omega)]

theorem tables_ok : ∀ (k j : Nat) (a : Arr Nat), j + k ≤ a.length →
    ∃ b, tables j k a = some b ∧ b.length = a.length ∧
      ∀ i, get b i = if j ≤ i ∧ i < j + k then some i else get a i
  | 0, j, a, _ => ⟨a, rfl, rfl, fun i => by rw [if_neg (by omega)]⟩
  | k + 1, j, a, h => by
    obtain ⟨b, e1, l1, g1⟩ := put_ok (a := a) (i := j) (by omega) j
    obtain ⟨c, e2, l2, g2⟩ := tables_ok k (j + 1) b (by omega)
    refine ⟨c, by simp [tables, e1, e2], by omega, fun i => ?_⟩
    rw [g2, g1]
    by_cases h1 : i = j
    · subst h1
      rw [if_neg (by omega), if_pos rfl, if_pos (by omega)]
    · by_cases h2 : j + 1 ≤ i ∧ i < j + 1 + k
      · rw [if_pos h2, if_pos (by omega)]
      · rw [if_neg h2, if_neg h1, if_neg (by omega)]

/-- a queue with room for `room` tables has those of the ids below `n` -/
structure Row (room n : Nat) (r : Arr Nat) : Prop where
  len : r.length = room
  val : ∀ j, j < n → get r j = some j

/-- the queues below `d` -/
def Rows (room n d : Nat) (q : Arr (Arr Nat)) : Prop := ∀ i, i < d → ∃ r, get q i = some r ∧ Row room n r

theorem queues_ok {room n : Nat} (hn : n ≤ room) : ∀ (k d : Nat) (q : Arr (Arr Nat)), d + k ≤ q.length →
    Rows room n d q → ∃ p, queues room n d k q = some p ∧ p.length = q.length ∧ Rows room n (d + k) p
  | 0, d, q, _, h => ⟨q, rfl, rfl, h⟩
  | k + 1, d, q, hl, h => by
    obtain ⟨r, e0, l0, g0⟩ := tables_ok n 0 (alloc room) (by rw [length_alloc]; omega)
    obtain ⟨b, e1, l1, g1⟩ := put_ok (a := q) (i := d) (by omega) r
    obtain ⟨c, e2, l2, g2⟩ := queues_ok hn k (d + 1) b (by omega) (fun i hi => by
      rw [g1]
      by_cases e : i = d
      · rw [if_pos e]
        exact ⟨r, rfl, by rw [l0, length_alloc], fun j hj => by rw [g0, if_pos (by omega)]⟩
      · rw [if_neg e]
        exact h i (by omega))
    refine ⟨c, by simp [queues, e0, e1, e2], by omega, ?_⟩
    have : d + (k + 1) = d + 1 + k := by omega
    rw [this]
    exact g2

/-- a loop that replaces each queue -/
theorem growQueues_ok {room room' n D : Nat} (hr : room ≤ room') : ∀ (k d : Nat) (q : Arr (Arr Nat)),
    d + k = D → D ≤ q.length → Rows room' n d q →
    (∀ i, d ≤ i → i < D → ∃ r, get q i = some r ∧ Row room n r) →
    ∃ p, growQueues room' d k q = some p ∧ p.length = q.length ∧ Rows room' n D p
  | 0, d, q, e, _, h, _ => ⟨q, rfl, rfl, by rw [← e]; exact h⟩
  | k + 1, d, q, e, hl, h, h2 => by
    obtain ⟨r, e0, hr0⟩ := h2 d (Nat.le_refl _) (by omega)
    obtain ⟨b, e1, l1, g1⟩ := put_ok (a := q) (i := d) (by omega) (realloc r room')
    obtain ⟨c, e2, l2, g2⟩ := growQueues_ok hr (D := D) k (d + 1) b (by omega) (by omega)
      (fun i hi => by
        rw [g1]
        by_cases e : i = d
        · rw [if_pos e]
          exact ⟨_, rfl, length_realloc _ _, fun j hj => by
            rw [get_realloc (by rw [hr0.len]; exact hr)]
            exact hr0.val j hj⟩
        · rw [if_neg e]
          exact h i (by omega))
      (fun i h1 h3 => by
        rw [g1, if_neg (by omega)]
        exact h2 i (by omega) h3)
    exact ⟨c, by simp [growQueues, e0, e1, e2], by omega, g2⟩

theorem addTables_ok {room n D : Nat} (hn : n < room) : ∀ (k d : Nat) (q : Arr (Arr Nat)),
    d + k = D → D ≤ q.length → Rows room (n + 1) d q →
    (∀ i, d ≤ i → i < D → ∃ r, get q i = some r ∧ Row room n r) →
    ∃ p, addTables n d k q = some p ∧ p.length = q.length ∧ Rows room (n + 1) D p
  | 0, d, q, e, _, h, _ => ⟨q, rfl, rfl, by rw [← e]; exact h⟩
  | k + 1, d, q, e, hl, h, h2 => by
    obtain ⟨r, e0, hr0⟩ := h2 d (Nat.le_refl _) (by omega)
    obtain ⟨r', er, lr, gr⟩ := put_ok (a := r) (i := n) (by rw [hr0.len]; exact hn) n
    obtain ⟨b, e1, l1, g1⟩ := put_ok (a := q) (i := d) (by omega) r'
    obtain ⟨c, e2, l2, g2⟩ := addTables_ok hn (D := D) k (d + 1) b (by omega) (by omega)
      (fun i hi => by
        rw [g1]
        by_cases e : i = d
        · rw [if_pos e]
          exact ⟨_, rfl, by rw [lr, hr0.len], fun j hj => by
            rw [gr]
            by_cases ej : j = n
            · rw [if_pos ej, ej]
            · rw [if_neg ej]
              exact hr0.val j (by omega)⟩
        · rw [if_neg e]
          exact h i (by omega))
      (fun i h1 h3 => by
        rw [g1, if_neg (by omega)]
        exact h2 i (by omega) h3)
    exact ⟨c, by simp [addTables, e0, er, e1, e2], by omega, g2⟩

/-! ## Associations -/

/-- an association with entries for 0 to `m` whose entries above 0 are those of `f` -/
structure Assoc (m : Nat) (f : Nat → Nat) (a : Arr Nat) : Prop where
  len : a.length = m + 1
  val : ∀ i, 1 ≤ i → i ≤ m → get a i = some (f i)

theorem growAssoc_ok {old new : Nat} {f : Nat → Nat} {a : Arr Nat} (h : Assoc old f a) (hl : old ≤ new)
    (hz : ∀ i, old < i → f i = 0) : ∃ b, growAssoc old new a = some b ∧ Assoc new f b := by
  obtain ⟨b, e, l, g⟩ := fill_ok 0 (new - old) (old + 1) (realloc a (new + 1))
    (by rw [length_realloc]; omega)
  refine ⟨b, e, by rw [l, length_realloc], fun i h1 h2 => ?_⟩
  rw [g]
  by_cases hi : i ≤ old
  · rw [if_neg (by omega), get_realloc (by rw [h.len]; omega)]
    exact h.val i h1 hi
  · rw [if_pos (by omega), hz i (by omega)]

/-- each association is that of its function -/
inductive Assocs (m : Nat) : List (Nat → Nat) → List (Arr Nat) → Prop where
  | nil : Assocs m [] []
  | cons : Assoc m f a → Assocs m fs as → Assocs m (f :: fs) (a :: as)

theorem growAssocs_ok {old new : Nat} (hl : old ≤ new) {fs : List (Nat → Nat)} {as : List (Arr Nat)}
    (h : Assocs old fs as) (hz : ∀ f ∈ fs, ∀ i, old < i → f i = 0) :
    ∃ bs, growAssocs old new as = some bs ∧ Assocs new fs bs := by
  induction h with
  | nil => exact ⟨[], rfl, .nil⟩
  | cons ha _ ih =>
    obtain ⟨b, e, hb⟩ := growAssoc_ok ha hl (hz _ (by simp))
    obtain ⟨bs, es, hbs⟩ := ih fun f m => hz f (by simp [m])
    exact ⟨b :: bs, by simp [growAssocs, e, es], .cons hb hbs⟩

theorem Assocs.snoc {m : Nat} {fs : List (Nat → Nat)} {as : List (Arr Nat)} (h : Assocs m fs as)
    (ha : Assoc m f a) : Assocs m (fs ++ [f]) (as ++ [a]) := by
  induction h with
  | nil => exact .cons ha .nil
  | cons hb _ ih => exact .cons hb ih

theorem Assocs.get {m : Nat} {fs : List (Nat → Nat)} {as : List (Arr Nat)} (h : Assocs m fs as) :
    ∀ i : Nat, (fs[i]? = none ∧ as[i]? = none) ∨ ∃ f a, fs[i]? = some f ∧ as[i]? = some a ∧ Assoc m f a := by
  induction h with
  | nil => exact fun _ => .inl ⟨by simp, by simp⟩
  | cons ha _ ih =>
    intro i
    match i with
    | 0 => exact .inr ⟨_, _, rfl, rfl, ha⟩
    | i + 1 => simpa using ih i

theorem Assocs.length {m : Nat} {fs : List (Nat → Nat)} {as : List (Arr Nat)} (h : Assocs m fs as) :
    as.length = fs.length := by
  induction h with
  | nil => rfl
  | cons _ _ ih => simp [ih]

theorem Assocs.erase {m : Nat} {fs : List (Nat → Nat)} {as : List (Arr Nat)} (h : Assocs m fs as) :
    ∀ i, Assocs m (fs.eraseIdx i) (as.eraseIdx i) := by
  induction h with
  | nil => exact fun _ => by simpa using .nil
  | cons ha hs ih =>
    intro i
    match i with
    | 0 => simpa using hs
    | i + 1 => simpa using .cons ha (ih i)

theorem enter_ok {m : Nat} : ∀ (ps : List (Nat × Nat)) (f : Nat → Nat) (a : Arr Nat), Assoc m f a →
    (∀ p ∈ ps, p.1 ≤ m) → ∃ b, enter ps a = some b ∧ Assoc m (assign ps f) b
  | [], f, a, h, _ => ⟨a, rfl, h⟩
  | (id, v) :: ps, f, a, h, hp => by
    obtain ⟨b, e, l, g⟩ := put_ok (a := a) (i := id) (by
      have := hp (id, v) (by simp)
      rw [h.len]
      dsimp only at this
      omega) v
    obtain ⟨c, e2, h2⟩ := enter_ok ps (fun i => if i = id then v else f i) b
      ⟨by rw [l, h.len], fun i h1 h2 => by
        rw [g]
        split
        next => rfl
        next => exact h.val i h1 h2⟩
      (fun p m => hp p (by simp [m]))
    exact ⟨c, by simp [enter, e, e2], h2⟩

theorem augment_ok {m : Nat} {ix : Arr Nat} {n : Nat} (hx : ∀ i, 1 ≤ i → i ≤ n → (get ix i).isSome)
    (hn : n ≤ m) : ∀ (ps : List (Nat × Nat)) (f : Nat → Nat) (a : Arr Nat), Assoc m f a →
    (∀ p ∈ ps, 1 ≤ p.1 ∧ p.1 ≤ n) → ∃ b, augment ix ps a = some b ∧ Assoc m (assign ps f) b
  | [], f, a, h, _ => ⟨a, rfl, h⟩
  | (id, v) :: ps, f, a, h, hp => by
    have hid : 1 ≤ id ∧ id ≤ n := hp (id, v) (by simp)
    obtain ⟨x, ex⟩ := Option.isSome_iff_exists.1 (hx id hid.1 hid.2)
    have ey := h.val id hid.1 (by omega)
    obtain ⟨b, e, l, g⟩ := put_ok (a := a) (i := id) (get_lt ey) v
    obtain ⟨c, e2, h2⟩ := augment_ok hx hn ps (fun i => if i = id then v else f i) b
      ⟨by rw [l, h.len], fun i h1 h2 => by
        rw [g]
        split
        next => rfl
        next => exact h.val i h1 h2⟩
      (fun p m => hp p (by simp [m]))
    exact ⟨c, by simp [augment, ex, ey, e, e2], h2⟩

theorem assign_out : ∀ (ps : List (Nat × Nat)) (f : Nat → Nat) (n : Nat), (∀ p ∈ ps, p.1 ≤ n) →
    (∀ i, n < i → f i = 0) → ∀ i, n < i → assign ps f i = 0
  | [], _, _, _, hf, i, hi => hf i hi
  | (id, v) :: ps, f, n, hp, hf, i, hi => by
    refine assign_out ps _ n (fun p m => hp p (by simp [m])) (fun j hj => ?_) i hi
    have := hp (id, v) (by simp)
    dsimp only at this ⊢
    rw [if_neg (by omega)]
    exact hf j hj

/-- `assign` on variables only depends on the function on variables -/
theorem assign_congr : ∀ (ps : List (Nat × Nat)) (f g : Nat → Nat) (i : Nat), f i = g i →
    assign ps f i = assign ps g i
  | [], _, _, _, h => h
  | (id, v) :: ps, f, g, i, h => assign_congr ps _ _ i (by rw [h])

theorem same_ok {m : Nat} {f g : Nat → Nat} {a b : Arr Nat} (ha : Assoc m f a) (hb : Assoc m g b) :
    ∀ (k i : Nat), i + k ≤ m → ∃ r, same a b i k = some r ∧
      (r = true ↔ ∀ j, i < j → j ≤ i + k → f j = g j)
  | 0, i, _ => ⟨true, rfl, by simp; intro j h1 h2; omega⟩
  | k + 1, i, h => by
    obtain ⟨r, e, hr⟩ := same_ok ha hb k (i + 1) (by omega)
    simp only [same, ha.val (i + 1) (by omega) (by omega), hb.val (i + 1) (by omega) (by omega),
      Option.bind_eq_bind, Option.bind_some]
    by_cases he : f (i + 1) = g (i + 1)
    · rw [if_pos he]
      refine ⟨r, e, hr.trans ⟨fun H j h1 h2 => ?_, fun H j h1 h2 => H j (by omega) (by omega)⟩⟩
      by_cases hj : j = i + 1
      · rw [hj]; exact he
      · exact H j (by omega) (by omega)
    · rw [if_neg he]
      refine ⟨false, rfl, ?_⟩
      simp only [Bool.false_eq_true, false_iff]
      exact fun H => he (H (i + 1) (by omega) (by omega))

theorem agree_iff {n : Nat} {f g : Nat → Nat} : agree n f g = true ↔ ∀ j, 0 < j → j ≤ n → f j = g j := by
  simp only [agree, List.all_eq_true, List.mem_range, decide_eq_true_eq]
  refine ⟨fun H j h1 h2 => ?_, fun H i hi => H (i + 1) (by omega) (by omega)⟩
  have := H (j - 1) (by omega)
  have e : j - 1 + 1 = j := by omega
  rwa [e] at this

theorem found_ok {m n : Nat} {g : Nat → Nat} {a : Arr Nat} (hn : n ≤ m) (hg : ∀ i, n < i → g i = 0)
    (ha : Assoc m g a) {fs : List (Nat → Nat)} {as : List (Arr Nat)} (h : Assocs m fs as)
    (hz : ∀ f ∈ fs, ∀ i, n < i → f i = 0) :
    found m a as = some (fs.any fun f => agree n f g) := by
  induction h with
  | nil => rfl
  | @cons f b fs bs hb _ ih =>
    obtain ⟨r, e, hr⟩ := same_ok hb ha m 0 (by omega)
    have e2 : r = agree n f g := by
      rw [Bool.eq_iff_iff, hr, agree_iff]
      refine ⟨fun H j h1 h2 => H j h1 (by omega), fun H j h1 h2 => ?_⟩
      by_cases hj : j ≤ n
      · exact H j h1 hj
      · rw [hz f (by simp) j (by omega), hg j (by omega)]
    simp only [found, e, Option.bind_eq_bind, Option.bind_some, List.any_cons, ← e2]
    cases r with
    | true => rfl
    | false => simpa using ih fun f m => hz f (by simp [m])

theorem readAll_ok {m : Nat} {f : Nat → Nat} {a : Arr Nat} (h : Assoc m f a) :
    ∀ (k i : Nat), i + k ≤ m → readAll a i k = some ()
  | 0, _, _ => rfl
  | k + 1, i, hi => by
    simp [readAll, h.val (i + 1) (by omega) (by omega), readAll_ok h k (i + 1) (by omega)]

theorem clear_ok {m : Nat} : ∀ (k i : Nat) (f : Nat → Nat) (a : Arr Nat), Assoc m f a → i + k ≤ m →
    ∃ b, clear i k a = some b ∧ Assoc m (fun j => if i < j ∧ j ≤ i + k then 0 else f j) b
  | 0, i, f, a, h, _ => ⟨a, rfl, ⟨h.len, fun j h1 h2 => by
      rw [h.val j h1 h2, if_neg (by omega)]⟩⟩
  | k + 1, i, f, a, h, hl => by
    have hv := h.val (i + 1) (by omega) (by omega)
    obtain ⟨b, e, hb⟩ : ∃ b, clearOne (i + 1) (f (i + 1)) a = some b ∧
        Assoc m (fun j => if j = i + 1 then 0 else f j) b := by
      by_cases hz : f (i + 1) = 0
      · refine ⟨a, by simp [clearOne, hz], ⟨h.len, fun j h1 h2 => ?_⟩⟩
        rw [h.val j h1 h2]
        split
        next e => rw [e, hz]
        next => rfl
      · obtain ⟨b, e, l, g⟩ := put_ok (get_lt hv) 0
        refine ⟨b, by simp [clearOne, hz, e], ⟨by rw [l, h.len], fun j h1 h2 => ?_⟩⟩
        rw [g]
        split
        next => rfl
        next => exact h.val j h1 h2
    obtain ⟨c, e2, hc⟩ := clear_ok k (i + 1) _ b hb (by omega)
    refine ⟨c, by simp only [clear, hv, Option.bind_eq_bind, Option.bind_some, e, e2],
      ⟨hc.len, fun j h1 h2 => ?_⟩⟩
    rw [hc.val j h1 h2]
    congr 1
    by_cases e1 : j = i + 1
    · subst e1
      rw [if_neg (by omega), if_pos rfl, if_pos (by omega)]
    · by_cases e3 : i + 1 < j ∧ j ≤ i + 1 + k
      · rw [if_pos e3, if_pos (by omega)]
      · rw [if_neg e3, if_neg e1, if_neg (by omega)]

/-! ## The order -/

theorem bump_ok (index : Nat) : ∀ (k i : Nat) (a : Arr Nat), (∀ j, i < j → j ≤ i + k → (get a j).isSome) →
    ∃ b, bump index i k a = some b ∧ b.length = a.length ∧
      ∀ j, get b j = if i < j ∧ j ≤ i + k then (get a j).map (fun v => if index ≤ v then v + 1 else v)
        else get a j
  | 0, i, a, _ => ⟨a, rfl, rfl, fun j => by rw [if_neg (by omega)]⟩
  | k + 1, i, a, h => by
    obtain ⟨v, hv⟩ := Option.isSome_iff_exists.1 (h (i + 1) (by omega) (by omega))
    obtain ⟨b, e, l, g⟩ : ∃ b, bumpOne index (i + 1) v a = some b ∧
        b.length = a.length ∧
        ∀ j, get b j = if j = i + 1 then some (if index ≤ v then v + 1 else v) else get a j := by
      by_cases hi : index ≤ v
      · obtain ⟨b, e, l, g⟩ := put_ok (get_lt hv) (v + 1)
        exact ⟨b, by simp [bumpOne, hi, e], l, fun j => by rw [g, if_pos hi]⟩
      · refine ⟨a, by simp [bumpOne, hi], rfl, fun j => ?_⟩
        rw [if_neg hi]
        split
        next e => rw [e, hv]
        next => rfl
    obtain ⟨c, e2, l2, g2⟩ := bump_ok index k (i + 1) b (fun j h1 h2 => by
      rw [g, if_neg (by omega)]
      exact h j (by omega) (by omega))
    refine ⟨c, by simp only [bump, hv, Option.bind_eq_bind, Option.bind_some, e, e2], by omega, fun j => ?_⟩
    rw [g2, g]
    by_cases e1 : j = i + 1
    · subst e1
      rw [if_neg (by omega), if_pos rfl, if_pos (c := i < i + 1 ∧ i + 1 ≤ i + (k + 1)) (by omega), hv]
      rfl
    · by_cases e3 : i + 1 < j ∧ j ≤ i + 1 + k
      · rw [if_pos e3, if_neg e1, if_pos (by omega)]
      · rw [if_neg e3, if_neg e1, if_neg (by omega)]

theorem shift_ok (index : Nat) : ∀ (k : Nat) (a : Arr Nat), (∀ j, index ≤ j → j < index + k → (get a j).isSome) →
    (0 < k → index + k < a.length) →
    ∃ b, shift index k a = some b ∧ b.length = a.length ∧
      ∀ j, get b j = if index < j ∧ j ≤ index + k then get a (j - 1) else get a j
  | 0, a, _, _ => ⟨a, rfl, rfl, fun j => by rw [if_neg (by omega)]⟩
  | k + 1, a, h, hl => by
    obtain ⟨v, hv⟩ := Option.isSome_iff_exists.1 (h (index + k) (by omega) (by omega))
    obtain ⟨b, e, l, g⟩ := put_ok (a := a) (i := index + k + 1) (by have := hl (by omega); omega) v
    obtain ⟨c, e2, l2, g2⟩ := shift_ok index k b (fun j h1 h2 => by
      rw [g, if_neg (by omega)]
      exact h j h1 (by omega)) (fun _ => by have := hl (by omega); omega)
    refine ⟨c, by simp only [shift, hv, Option.bind_eq_bind, Option.bind_some, e, e2], by omega, fun j => ?_⟩
    rw [g2, g, g]
    by_cases e1 : j = index + k + 1
    · subst e1
      rw [if_neg (by omega), if_pos rfl, if_pos (by omega)]
      simpa using hv.symm
    · by_cases e3 : index < j ∧ j ≤ index + k
      · rw [if_pos e3, if_neg (by omega), if_pos (by omega)]
      · rw [if_neg e3, if_neg e1, if_neg (by omega)]

end Cal.Arrays
