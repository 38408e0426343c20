import Verif.GCBins
import Verif.Props30

/-!
# Properties, part 31: hash tables that are changed while they are traversed
-/

namespace Cal

open Hash

/-- Forwarding the children of all nodes of a table, bin after bin, while nodes change bins on the way: for every hash
function, every table and every forwarding `g` that is complete (forwarded children are not forwarded again), no node is
missed in its bin (no fatal error), no node is skipped, lost or linked twice, and afterwards a lookup finds a node exactly
if its forwarded children are those that are looked for. -/
theorem C49_forward {K : Type} [DecidableEq K] (h : K → Nat) (g : K → K) {t : Table K} {l : List (Ent K)}
    (w : t.OK h l) (addrs : (l.map (·.addr)).Nodup) (complete : ∀ e ∈ l, g (g e.key) = g e.key)
    (keys : (l.map fun e => g e.key).Nodup) :
    ∃ t', t.fixAll h g = some t' ∧ (t'.entries.map fun e => (e.addr, e.key)).Perm (l.map fun e => (e.addr, g e.key)) ∧
      t'.numEntries = l.length ∧ t'.numBins = t.numBins ∧
      ∀ k, t'.lookup h k = (l.find? fun e => g e.key = k).map (·.addr) := by
  obtain ⟨t', e, w', n', s'⟩ := Table.fixAll_has ⟨w.perm, w.slots⟩ addrs complete
  have ok : t'.OK h (l.map fun e => ⟨e.addr, g e.key⟩) := ⟨w'.perm, w'.slots, by rw [n', w.cnt, List.length_map]⟩
  refine ⟨t', e, ?_, by rw [n', w.cnt], by unfold Table.numBins; rw [s'], fun k => ?_⟩
  · have := w'.perm.map fun e => (e.addr, e.key)
    rwa [List.map_map] at this
  · unfold Table.lookup
    rw [ok.find (by rw [List.map_map]; exact keys), List.find?_map, Option.map_map]
    rfl

/-- 3 moves to a bin that has been visited, 10 to one that is visited later, 4 stays in its bin. -/
example : (Table.fixAll (fun k : Nat => k) (fun k => if k = 7 then 2 else if k = 1 then 9 else if k = 4 then 260 else k)
      ((run (fun k : Nat => k) Table.init [.findOrAdd 7 3, .findOrAdd 1 10, .findOrAdd 4 4, .findOrAdd 5 5]).1)).map
      (fun t => [7, 2, 1, 9, 4, 260, 5].map (t.lookup fun k => k)) =
    some [none, some 3, none, some 10, none, some 4, some 5] := by decide +kernel

/-- The assumptions of `C49_forward` can be met with the same nodes. -/
example : ∃ t : Table Nat, t.OK (fun k => k) [⟨3, 7⟩, ⟨10, 1⟩, ⟨4, 4⟩, ⟨5, 5⟩] ∧
    (([⟨3, 7⟩, ⟨10, 1⟩, ⟨4, 4⟩, ⟨5, 5⟩] : List (Ent Nat)).map (·.addr)).Nodup ∧
    let g := fun k => if k = 7 then 2 else if k = 1 then 9 else if k = 4 then 260 else k
    (∀ e ∈ ([⟨3, 7⟩, ⟨10, 1⟩, ⟨4, 4⟩, ⟨5, 5⟩] : List (Ent Nat)), g (g e.key) = g e.key) ∧
    (([⟨3, 7⟩, ⟨10, 1⟩, ⟨4, 4⟩, ⟨5, 5⟩] : List (Ent Nat)).map fun e => g e.key).Nodup := by
  obtain ⟨t, h⟩ := table_exists (fun k : Nat => k) [⟨3, 7⟩, ⟨10, 1⟩, ⟨4, 4⟩, ⟨5, 5⟩]
  exact ⟨t, h, by decide, by decide, by decide⟩

/-- The store with the nodes of each id in the order in which they are met in the bins. -/
def inBinOrder (s : Store) (tb : Nat → Table (Edge × Edge)) : Store :=
  { s with tab := fun i => (tb i).entries.map (·.addr) }

/-- Garbage collection of the unique tables, with the chained tables as they are in memory, whatever their numbers of bins
and the order of the nodes in the chains. It ends without fault, removes the same nodes as the collection of the store
model, and afterwards the tables hold exactly the nodes that are left: lookups find a node exactly if it has not been
freed, the counters are right, the numbers of bins are unchanged, and no dead node is left. -/
theorem C49_gc {s : Store} {ext : Nat → Nat} (w : s.WF) (refs : s.RefOK ext) {tb : Nat → Table (Edge × Edge)}
    (ht : ∀ i, (tb i).OK hash2 (tabEntries s i)) :
    ∃ s' tb' fr, GcBins.collect id (Store.idsByIndex s.ord) (inBinOrder s tb) tb = some (s', tb', fr) ∧
      (inBinOrder s tb).gcNodes = some (s', fr) ∧
      (∀ i t e, (tb' i).lookup hash2 (t, e) = s'.lookup i t e ∧ uniqueLookup (tb' i) i t e = s'.uniqueLookup i t e) ∧
      (∀ i, (tb' i).entries.map (·.addr) = s'.tab i ∧ (tb' i).numEntries = (s'.tab i).length ∧
        (tb' i).numBins = (tb i).numBins) ∧
      (∀ a n, s.heap a = some n → s'.heap a = some n ∨ (a ∈ fr ∧ s'.heap a = none)) ∧
      ∀ a, s'.heap a ≠ none → s'.ref a ≠ 0 := by
  have hp : ∀ i, ((tb i).entries.map (·.addr)).Perm (s.tab i) := fun i => by
    have := (ht i).perm.map (·.addr)
    rwa [Rp.tabEntries_addr w] at this
  have w0 : (inBinOrder s tb).WF :=
    ⟨w.ord, w.heap0, w.var_range, fun i a => (hp i).mem_iff.trans (w.tab_iff i a),
      fun i => (hp i).nodup_iff.2 (w.tab_nodup i), w.thn_ok, w.els_ok, w.thn_pos, w.thn_lt, w.els_lt,
      w.reduced, w.unique, w.next_pos, w.heap_next, w.free_nodup, w.free_ok, w.free_disj⟩
  have g0 : (inBinOrder s tb).GCInv ext := ⟨w0, ⟨refs.const, refs.le, refs.cnt, refs.ext0⟩⟩
  have H0 : GcBins.Holds (inBinOrder s tb) tb := by
    refine ⟨fun i => ?_, fun _ => rfl⟩
    have hpe : (tabEntries (inBinOrder s tb) i).Perm (tabEntries s i) := (hp i).filterMap _
    exact ⟨(ht i).perm.trans hpe.symm, (ht i).slots, by rw [(ht i).cnt, hpe.length_eq]⟩
  obtain ⟨s', tb', fr, e1, e2, H, hs⟩ := GcBins.collect_ok id (Store.idsByIndex s.ord) _ tb g0 H0
    (fun i hi => ((Store.mem_idsByIndex w.ord).1 hi).2)
  obtain ⟨s'', fr', e3, g', -, -, -, -, h1, -, h2⟩ := Store.gcNodes_spec g0
  have e2' : (inBinOrder s tb).gcNodes = some (s', fr) := e2
  rw [e2'] at e3; cases e3
  refine ⟨s', tb', fr, e1, e2', fun i t e => C49_store (H.ok i) (tabEntries_keys g'.wf i) t e, fun i => ⟨(H.order i).symm, ?_, ?_⟩,
    h1, h2⟩
  · rw [(H.ok i).cnt, ← Rp.tabEntries_addr g'.wf, List.length_map]
  · unfold Table.numBins; rw [hs i]

/-- The assumptions of `C49_gc` are met by every manager that a session can lead to. -/
example {E : Env} {own : Nat → Nat} {m : Mgr} (S : E.Sound) (R : Reachable E own false m) :
    ∃ (ext : Nat → Nat) (tb : Nat → Table (Edge × Edge)), m.st.WF ∧ m.st.RefOK ext ∧ ∀ i, (tb i).OK hash2 (tabEntries m.st i) := by
  obtain ⟨Γ, leak, -, i⟩ := R.inv S
  exact ⟨_, fun i => (table_exists hash2 (tabEntries m.st i)).choose, i.wf, i.ref,
    fun i => (table_exists hash2 (tabEntries m.st i)).choose_spec⟩

end Cal
