import Verif.RepackBins
import Verif.GC

/-!
# Traversals that change the table they traverse

`CalBddReorderFixUserBddPtrs` and `CalBddReorderFixCofactors` go through the bins of a table and put nodes into other bins
on the way, maybe into one that they have still to visit, maybe into one that they have already left. `CalHashTableGC`
unlinks nodes on the way.
-/

namespace Cal.Hash

variable {K : Type} [DecidableEq K]

namespace Table

/-- The body of the loops (calReorderUtil.c:103-133, 471-507): the children of the node are forwarded (`g`), and if this
changes anything the node is put into the bin of its new children. -/
def fixEntry (h : K → Nat) (g : K → K) (t : Table K) (e : Ent K) : Option (Table K) :=
  if g e.key = e.key then some t else t.rekey h e.addr e.key (g e.key)

/-- The inner loop, over the chain of a bin. The next node is read before the node is put elsewhere, and nodes are only
unlinked by their own visit and only linked in front of other bins: the nodes visited are those that are in the bin when
the loop comes to it. -/
def fixBin (h : K → Nat) (g : K → K) (t : Table K) (i : Nat) : Option (Table K) :=
  (t.bins i).foldlM (fixEntry h g) t

/-- `CalBddReorderFixUserBddPtrs` (calReorderUtil.c:87-135) and `CalBddReorderFixCofactors` (calReorderUtil.c:458-509); `none`: fatal error "Node not found in the unique table". -/
def fixAll (h : K → Nat) (g : K → K) (t : Table K) : Option (Table K) :=
  (List.range t.numBins).foldlM (fixBin h g) t

/-! ## Proofs -/

/-- The entry of a node: new if the node has been visited. -/
def cur (g : K → K) (D : Nat → Bool) (e : Ent K) : Ent K := if D e.addr then ⟨e.addr, g e.key⟩ else e

omit [DecidableEq K] in
theorem cur_addr (g : K → K) (D : Nat → Bool) (e : Ent K) : (cur g D e).addr = e.addr := by
  unfold cur; split <;> rfl

omit [DecidableEq K] in
theorem map_cur_addr (g : K → K) (D : Nat → Bool) (l : List (Ent K)) :
    (l.map (cur g D)).map (·.addr) = l.map (·.addr) := by
  rw [List.map_map]
  exact List.map_congr_left fun e _ => cur_addr g D e

theorem fix_chain {h : K → Nat} {g : K → K} {l : List (Ent K)} (u : (l.map (·.addr)).Nodup)
    (hg : ∀ e ∈ l, g (g e.key) = g e.key) : ∀ (c : List (Ent K)) (t : Table K) (D : Nat → Bool),
    t.Has h (l.map (cur g D)) → (∀ e ∈ c, e ∈ l.map (cur g D)) → (c.map (·.addr)).Nodup →
    ∃ t' D', c.foldlM (fixEntry h g) t = some t' ∧ t'.Has h (l.map (cur g D')) ∧ t'.numEntries = t.numEntries ∧
      t'.sizeIndex = t.sizeIndex ∧ (∀ a, D a = true → D' a = true) ∧ ∀ e ∈ c, D' e.addr = true := by
  intro c
  induction c with
  | nil => intro t D w _ _; exact ⟨t, D, rfl, w, rfl, rfl, fun _ h => h, fun e he => by cases he⟩
  | cons e c ih =>
    intro t D w hc hn
    rw [List.map_cons, List.nodup_cons] at hn
    obtain ⟨x, hx, hxe⟩ := List.mem_map.1 (hc e List.mem_cons_self)
    have hxa : x.addr = e.addr := by rw [← hxe, cur_addr]
    generalize hD : (fun a => if a = e.addr then true else D a) = D₁
    have hD1 : D₁ e.addr = true := by rw [← hD]; simp
    have hDo : ∀ a, a ≠ e.addr → D₁ a = D a := fun a ha => by rw [← hD]; simp [ha]
    have hsub : ∀ a, D a = true → D₁ a = true := by
      intro a ha
      by_cases hae : a = e.addr
      · rw [hae]; exact hD1
      · rw [hDo a hae]; exact ha
    have cur_o : ∀ y : Ent K, y.addr ≠ e.addr → cur g D₁ y = cur g D y := by
      intro y hy; unfold cur; rw [hDo _ hy]
    have cur_x : cur g D₁ x = ⟨e.addr, g x.key⟩ := by
      unfold cur; rw [hxa, hD1]; rfl
    have rest : ∀ y ∈ c, y ∈ l.map (cur g D₁) := by
      intro y hy
      obtain ⟨z, hz, hzy⟩ := List.mem_map.1 (hc y (List.mem_cons_of_mem _ hy))
      refine List.mem_map.2 ⟨z, hz, ?_⟩
      rw [cur_o, hzy]
      rw [← cur_addr g D z, hzy]
      intro h
      exact hn.1 (List.mem_map.2 ⟨y, hy, h⟩)
    have step : ∃ t₁, fixEntry h g t e = some t₁ ∧ t₁.Has h (l.map (cur g D₁)) ∧ t₁.numEntries = t.numEntries ∧
        t₁.sizeIndex = t.sizeIndex := by
      unfold fixEntry
      by_cases hk : g e.key = e.key
      · rw [if_pos hk]
        refine ⟨t, rfl, ?_, rfl, rfl⟩
        have : l.map (cur g D₁) = l.map (cur g D) := by
          refine List.map_congr_left fun y hy => ?_
          by_cases hya : y.addr = e.addr
          · have := addr_uniq u hy hx (by rw [hya, hxa])
            subst this
            rw [cur_x, hxe]
            have : g y.key = e.key := by
              rw [← hxe] at hk ⊢
              unfold cur at hk ⊢
              split
              · rfl
              · rename_i hd
                rw [if_neg hd] at hk
                exact hk
            rw [this]
          · exact cur_o y hya
        rw [this]; exact w
      · rw [if_neg hk]
        have hd : D x.addr = false := by
          cases hd : D x.addr with
          | false => rfl
          | true =>
            refine absurd ?_ hk
            rw [← hxe]
            unfold cur
            rw [if_pos hd]
            exact hg x hx
        have hxx : x = e := by
          rw [← hxe]; unfold cur; rw [if_neg (by rw [hd]; simp)]
        subst hxx
        obtain ⟨t₁, e₁, w₁, c₁⟩ := rekey_has w (by rw [map_cur_addr]; exact u) (a := x.addr) (k := x.key)
          (List.mem_map.2 ⟨x, hx, hxe⟩) (g x.key)
        refine ⟨t₁, e₁, ?_, c₁⟩
        rw [List.map_map] at w₁
        have : l.map (relabel x.addr (g x.key) ∘ cur g D) = l.map (cur g D₁) := by
          refine List.map_congr_left fun y hy => ?_
          simp only [Function.comp]
          by_cases hya : y.addr = x.addr
          · have := addr_uniq u hy hx hya
            subst this
            rw [cur_x]
            unfold relabel
            rw [if_pos (cur_addr g D y)]
          · rw [relabel_other (by rw [cur_addr]; exact hya), cur_o y hya]
        rw [this] at w₁
        exact w₁
    obtain ⟨t₁, e₁, w₁, n₁, s₁⟩ := step
    obtain ⟨t', D', e', w', n', s', d', a'⟩ := ih t₁ D₁ w₁ rest hn.2
    refine ⟨t', D', ?_, w', by rw [n', n₁], by rw [s', s₁], fun a ha => d' a (hsub a ha), fun y hy => ?_⟩
    · rw [List.foldlM_cons, e₁]; exact e'
    · rcases List.mem_cons.1 hy with rfl | hy
      · exact d' _ hD1
      · exact a' y hy

omit [DecidableEq K] in
theorem Has.bin {h : K → Nat} {t : Table K} {l : List (Ent K)} (w : t.Has h l) {i : Nat} {e : Ent K}
    (he : e ∈ t.bins i) : e ∈ l := by
  rw [← w.perm.mem_iff, mem_entries]
  exact ⟨i, by rw [w.slots i e he]; exact slot_lt h t _, he⟩

omit [DecidableEq K] in
theorem Has.home {h : K → Nat} {t : Table K} {l : List (Ent K)} (w : t.Has h l) {e : Ent K} (he : e ∈ l) :
    e ∈ t.bins (t.slot h e.key) := by
  rw [← w.perm.mem_iff, mem_entries] at he
  obtain ⟨i, -, hi⟩ := he
  rw [← w.slots i e hi]; exact hi

omit [DecidableEq K] in
theorem Has.bin_nodup {h : K → Nat} {t : Table K} {l : List (Ent K)} (w : t.Has h l) (u : (l.map (·.addr)).Nodup)
    {i : Nat} (hi : i < t.numBins) : ((t.bins i).map (·.addr)).Nodup := by
  have h1 : (t.entries.map (·.addr)).Nodup := (w.perm.map _).nodup_iff.2 u
  have h2 : (t.bins i).Sublist t.entries := by
    unfold entries
    have : ∀ (n : Nat), i < n → (t.bins i).Sublist ((List.range n).flatMap t.bins) := by
      intro n
      induction n with
      | zero => intro h; omega
      | succ n ih =>
        intro h
        rw [List.range_succ, List.flatMap_append]
        by_cases hin : i = n
        · subst hin
          simp only [List.flatMap_cons, List.flatMap_nil, List.append_nil]
          exact List.sublist_append_right _ _
        · exact (ih (by omega)).trans (List.sublist_append_left _ _)
    exact this _ hi
  exact (h2.map _).nodup h1

omit [DecidableEq K] in
theorem slot_size {h : K → Nat} {t t' : Table K} (e : t'.sizeIndex = t.sizeIndex) (k : K) : t'.slot h k = t.slot h k := by
  rw [slot_eq, slot_eq, e]

/-- Every node is visited, and is in the right bin in the end. -/
theorem fixAll_has {h : K → Nat} {g : K → K} {t : Table K} {l : List (Ent K)} (w : t.Has h l)
    (u : (l.map (·.addr)).Nodup) (hg : ∀ e ∈ l, g (g e.key) = g e.key) :
    ∃ t', t.fixAll h g = some t' ∧ t'.Has h (l.map fun e => ⟨e.addr, g e.key⟩) ∧ t'.numEntries = t.numEntries ∧
      t'.sizeIndex = t.sizeIndex := by
  have loop : ∀ n, n ≤ t.numBins → ∃ t' D, (List.range n).foldlM (fixBin h g) t = some t' ∧
      t'.Has h (l.map (cur g D)) ∧ t'.numEntries = t.numEntries ∧ t'.sizeIndex = t.sizeIndex ∧
      ∀ x ∈ l, t.slot h x.key < n → D x.addr = true := by
    intro n
    induction n with
    | zero =>
      intro _
      refine ⟨t, fun _ => false, rfl, ?_, rfl, rfl, fun x _ h => by omega⟩
      have : l.map (cur g fun _ => false) = l := by
        conv => rhs; rw [← List.map_id l]
        exact List.map_congr_left fun e _ => by simp [cur]
      rw [this]; exact w
    | succ n ih =>
      intro hn
      obtain ⟨t₁, D, e₁, w₁, n₁, s₁, d₁⟩ := ih (by omega)
      have hu : ((l.map (cur g D)).map (·.addr)).Nodup := by rw [map_cur_addr]; exact u
      have hnb : n < t₁.numBins := by
        show n < 2 ^ t₁.sizeIndex
        rw [s₁]; exact hn
      obtain ⟨t', D', e', w', n', s', m', c'⟩ := fix_chain u hg (t₁.bins n) t₁ D w₁ (fun e he => w₁.bin he)
        (w₁.bin_nodup hu hnb)
      refine ⟨t', D', ?_, w', by rw [n', n₁], by rw [s', s₁], fun x hx hs => ?_⟩
      · rw [List.range_succ, List.foldlM_append, e₁]
        show (List.foldlM (fixBin h g) t₁ [n]) = _
        rw [List.foldlM_cons]
        show (fixBin h g t₁ n >>= fun t => some t) = _
        unfold fixBin
        rw [e']; rfl
      · cases hd : D x.addr with
        | true => exact m' _ hd
        | false =>
          have hsn : t.slot h x.key = n := by
            by_cases hlt : t.slot h x.key < n
            · rw [d₁ x hx hlt] at hd; cases hd
            · omega
          have hcx : cur g D x = x := by unfold cur; rw [hd]; rfl
          have := w₁.home (List.mem_map.2 ⟨x, hx, hcx⟩)
          rw [slot_size s₁, hsn] at this
          exact c' x this
  obtain ⟨t', D, e, w', n', s', d⟩ := loop _ (Nat.le_refl _)
  refine ⟨t', e, ?_, n', s'⟩
  have : l.map (cur g D) = l.map fun e => ⟨e.addr, g e.key⟩ := by
    refine List.map_congr_left fun x hx => ?_
    unfold cur
    rw [if_pos (d x hx (slot_lt h t _))]
  rw [← this]; exact w'

end Table

end Cal.Hash
