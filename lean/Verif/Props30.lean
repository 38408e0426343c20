import Verif.RepackBins
import Verif.Props16

/-!
# Properties, part 30: repacking and the bins of the unique tables
-/

namespace Cal

open Hash

/-- No two nodes of an id have the same children. -/
theorem tabEntries_keys {s : Store} (w : s.WF) (i : Nat) : ((tabEntries s i).map (·.key)).Nodup := by
  have h := w.tab_nodup i
  have hv : ∀ a ∈ s.tab i, ∃ n, s.heap a = some n ∧ n.var = i := fun a ha => (w.tab_iff i a).1 ha
  unfold tabEntries
  generalize s.tab i = l at h hv
  induction l with
  | nil => exact .nil
  | cons a l ih =>
    obtain ⟨n, hn, hni⟩ := hv a List.mem_cons_self
    have hnd := List.nodup_cons.1 h
    rw [List.filterMap_cons]
    simp only [hn, Option.map_some, List.map_cons]
    refine List.nodup_cons.2 ⟨fun hm => ?_, ih hnd.2 fun b hb => hv b (List.mem_cons_of_mem _ hb)⟩
    obtain ⟨e, he, hk⟩ := List.mem_map.1 hm
    obtain ⟨b, hb, hx⟩ := List.mem_filterMap.1 he
    obtain ⟨n', hn', hni'⟩ := hv b (List.mem_cons_of_mem _ hb)
    rw [hn'] at hx
    cases hx
    have : n' = n := by
      have h1 := (Prod.mk.inj hk).1
      have h2 := (Prod.mk.inj hk).2
      cases n; cases n'
      simp only at h1 h2 hni hni'
      rw [h1, h2, hni, hni']
    subst this
    rw [w.unique b a n' hn' hn] at hb
    exact hnd.1 hb

/-- Repacking, with the chained tables as they are in memory: any tables `tb` that hold the nodes of the store, whatever
their numbers of bins and the order of the nodes in the chains. No node is missed in its bin, so that there is no fatal
error; afterwards every lookup of a pair of children finds the node, if there is one, at its new address; the nodes in
the bins are exactly those of the store, and the counters of the tables are right. No table gets more bins or fewer than
a new table has, and none is fuller than it may be (at most 4 nodes more than its capacity, if the numbers are rounded
so). -/
theorem C58_bins {s : Store} (w : s.WF) {pg : Rp.Pages} (L : Rp.Layout s pg)
    (live : ∀ a, s.heap a ≠ none → s.ref a ≠ 0) {low : Nat → Nat → Bool}
    (hlow : ∀ n p, low n p = true → n < 128 * p) {tb : Nat → Table (Edge × Edge)}
    (ht : ∀ i, (tb i).OK hash2 (tabEntries s i)) :
    ∃ r tb', Rp.repackStore low pg s = some r ∧ Rp.repackTabs low pg s tb = some (r, tb') ∧
      (∀ i t e, (tb' i).lookup hash2 (t, e) = r.st.lookup i t e ∧
        uniqueLookup (tb' i) i t e = r.st.uniqueLookup i t e) ∧
      (∀ i, (((tb' i).entries.map (·.addr)).Perm (r.st.tab i)) ∧ (tb' i).numEntries = (r.st.tab i).length) ∧
      ∀ i, (tb' i).numBins ≤ (tb i).numBins ∧ (256 ≤ (tb i).numBins → 256 ≤ (tb' i).numBins) ∧
        ((tb i).numEntries ≤ (tb i).maxCapacity + 4 → (tb' i).numEntries ≤ (tb' i).maxCapacity + 4) := by
  obtain ⟨r, tb', e1, e2, ok, sh⟩ := Rp.repackTabs_ok w L live hlow ht
  obtain ⟨r', e1', M, -⟩ := Rp.repackStore_ok w L live hlow
  rw [e1] at e1'; cases e1'
  have w' := M.wf w
  refine ⟨r, tb', e1, e2, fun i t e => C49_store (ok i) (tabEntries_keys w' i) t e, fun i => ⟨?_, ?_⟩,
    fun i => ⟨Nat.pow_le_pow_right (by omega) (sh i).le, fun h => ?_, (sh i).load⟩⟩
  · have := (ok i).perm.map (·.addr)
    rwa [Rp.tabEntries_addr w'] at this
  · rw [(ok i).cnt, ← Rp.tabEntries_addr w', List.length_map]
  · have h8 : 2 ^ 8 ≤ 2 ^ (tb i).sizeIndex := h
    show 2 ^ 8 ≤ 2 ^ (tb' i).sizeIndex
    exact Nat.pow_le_pow_right (by omega) ((sh i).ge ((Nat.pow_le_pow_iff_right (by omega)).1 h8))

/-! Witnesses -/

namespace Demo

/-- Tables with 1024 bins for every id. -/
def wide (s : Store) (i : Nat) : Table (Edge × Edge) :=
  Table.fill hash2 ⟨10, fun _ => [], (s.tab i).length⟩ (tabEntries s i)

theorem wide_ok {s : Store} (w : s.WF) (i : Nat) : (wide s i).OK hash2 (tabEntries s i) := by
  have h := Table.fill_has hash2 ⟨10, fun _ => [], (s.tab i).length⟩ (tabEntries s i) rfl
  refine ⟨h.perm, h.slots, ?_⟩
  show (s.tab i).length = _
  rw [← Rp.tabEntries_addr w, List.length_map]

/-- The nodes of b are spread' over four pages, and 6, a child of nodes of a, is on the last one. -/
def spread' : Rp.Pages
  | 1 => [page [1, 4, 5] 1000]
  | 2 => [page [2] 2000, page [] 2128, page [] 2256, page [6] 2384]
  | 3 => [page [3] 3000]
  | _ => []

theorem spread'_layout : Rp.Layout gcMgr.st spread' :=
  layoutB_ok gcMgr_wf (fun i h => by unfold spread'; split <;> first | omega | rfl) (by decide +kernel)

theorem gcMgr_live (a : Nat) (h : gcMgr.st.heap a ≠ none) : gcMgr.st.ref a ≠ 0 := by
  obtain ⟨Γ, leak, -, i⟩ := reachF.inv Env.plain_sound
  obtain ⟨m1, hm, -, -, -, -, -, -, -, -, live, -⟩ := i.gc
  rw [gcMgr_eq] at hm; cases hm
  exact live a h

end Demo

/-- The assumptions of `C58_bins` are met by a session with four pages for a variable. -/
example : ∃ r tb', Rp.repackTabs Demo.low90 Demo.spread' Demo.gcMgr.st (Demo.wide Demo.gcMgr.st) = some (r, tb') ∧
    ∀ i t e, (tb' i).lookup hash2 (t, e) = r.st.lookup i t e := by
  obtain ⟨r, tb', -, e, h, -⟩ := C58_bins Demo.gcMgr_wf Demo.spread'_layout Demo.gcMgr_live Demo.low90_ok
    (fun i => Demo.wide_ok Demo.gcMgr_wf i)
  exact ⟨r, tb', e, fun i t e => (h i t e).1⟩

/-- The node 6 moves to the first page of its id, whose table shrinks from 1024 to 256 bins, and its parent 5 moves from
bin 9 to bin 81. -/
example : ((Demo.wide Demo.gcMgr.st 1).bins 9).map (·.addr) = [5] ∧
    (Rp.repackTabs Demo.low90 Demo.spread' Demo.gcMgr.st (Demo.wide Demo.gcMgr.st)).map
      (fun x => (x.1.fwd 6, (x.2 2).numBins, (x.2 2).lookup hash2 (⟨0, 0, false⟩, ⟨3, 3, false⟩),
        ((x.2 1).bins 9).map (·.addr), ((x.2 1).bins 81).map (·.addr))) =
    some (some 2126, 256, some 2126, [], [5]) := by decide +kernel

end Cal
