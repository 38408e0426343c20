import Verif.ArraysRun
/-!
# C73: the arrays over variables are long enough and initialised, whatever the history

`Spec` (in `ArraysSpec`) says what the arrays stand for: a list of variables, associations as functions,
a number of queues. `program cs` is the outcome `none` if a call reads an entry that was never written,
or reads or writes outside an array.
-/

namespace Cal.Arrays

/-- C73. After any history no call has touched memory outside an array, nor used an entry that was not
initialised. The variable at each index, and the index of each variable, are those of the list in which
the variables were inserted and exchanged. Its own BDD, node manager and unique table are found for each
variable, and its own table in each queue. -/
theorem C73_variables (cs : List Call) (h : Legal .init cs) :
    ∃ s, program cs = some s ∧ s.numVars = (Spec.init.steps cs).order.length ∧
      (∀ k, k < s.numVars → get s.indexToId k = (Spec.init.steps cs).order[k]?) ∧
      (∀ (k id : Nat), (Spec.init.steps cs).order[k]? = some id → get s.idToIndex id = some k) ∧
      (∀ id, 1 ≤ id → id ≤ s.numVars → get s.varBdds id = some id ∧ get s.nms id = some id ∧
        get s.uts id = some id) ∧
      ∀ d, d < (Spec.init.steps cs).depth → ∃ q, get s.reqQue d = some q ∧
        ∀ id, id ≤ s.numVars → get q id = some id := by
  obtain ⟨s, e, i⟩ := program_ok cs h
  refine ⟨s, e, i.num, fun k hk => ?_, fun k id hk => (i.ord k id hk).2.1,
    fun id h1 h2 => ⟨i.var id h1 h2, i.nm id h2, i.ut id h2⟩, fun d hd => ?_⟩
  · rw [i.num] at hk
    have := (i.ord k _ (List.getElem?_eq_getElem hk)).1
    rw [this, List.getElem?_eq_getElem hk]
  · obtain ⟨q, e1, hq⟩ := i.row d (by rw [i.depth]; exact hd)
    exact ⟨q, e1, fun id hid => hq.val id (by omega)⟩

/-- C73. The entries of every association, and of the temporary one, are those that were given, also
for variables created after the association. An association is read up to `maxVars`. -/
theorem C73_associations (cs : List Call) (h : Legal .init cs) :
    ∃ s, program cs = some s ∧
      (∀ id, 1 ≤ id → id ≤ s.maxVars → get s.temp id = some ((Spec.init.steps cs).temp id)) ∧
      s.assocs.length = (Spec.init.steps cs).assocs.length ∧
      ∀ (i : Nat) (a : Arr Nat) (f : Nat → Nat), s.assocs[i]? = some a →
        (Spec.init.steps cs).assocs[i]? = some f → ∀ id, 1 ≤ id → id ≤ s.maxVars → get a id = some (f id) := by
  obtain ⟨s, e, i⟩ := program_ok cs h
  refine ⟨s, e, i.temp.val, i.assocs.length, fun k a f ha hf id h1 h2 => ?_⟩
  rcases i.assocs.get k with ⟨h3, _⟩ | ⟨f', a', h3, h4, h5⟩
  · rw [h3] at hf
    cases hf
  · rw [h3] at hf
    rw [h4] at ha
    injection hf with hf
    injection ha with ha
    subst hf ha
    exact h5.val id h1 h2

/-- C73. The list of variables has each id from 1 to the number of variables once. -/
theorem C73_order (cs : List Call) (h : Legal .init cs) :
    (Spec.init.steps cs).order.Nodup ∧
      ∀ id, id ∈ (Spec.init.steps cs).order ↔ 1 ≤ id ∧ id ≤ (Spec.init.steps cs).order.length := by
  obtain ⟨s, _, i⟩ := program_ok cs h
  refine ⟨?_, fun id => ⟨fun m => ?_, fun ⟨h1, h2⟩ => ?_⟩⟩
  · rw [List.Nodup, List.pairwise_iff_getElem]
    intro a b ha hb hab e
    have e1 := (i.ord b _ (List.getElem?_eq_getElem hb)).2.1
    have e2 := (i.ord a _ (List.getElem?_eq_getElem ha)).2.1
    rw [e, e1] at e2
    injection e2
    omega
  · obtain ⟨k, hk⟩ := List.mem_iff_getElem?.1 m
    have := i.ord k id hk
    rw [← i.num]
    exact this.2.2
  · rw [← i.num] at h2
    obtain ⟨k, hk⟩ := i.surj id h1 h2
    exact List.mem_iff_getElem?.2 ⟨k, hk⟩

/-- 35 variables, each before all others: the arrays grow. An association from before has entries of
later variables, and the last variable changes places with its neighbour. -/
def busy : List Call :=
  [.newVar 0, .newVar 0, .assocInit [(1, 7), (2, 9)], .tempInit [(2, 5)], .setDepth 8] ++
    List.replicate 33 (.newVar 0) ++ [.swap 33, .assocInit [(35, 4)], .setDepth 9, .tempAugment [(35, 3)]]

instance (t : Spec) : (c : Call) → Decidable (c.Legal t)
  | .newVar _ | .setDepth _ | .assocQuit _ | .tempQuit => .isTrue trivial
  | .assocInit ps | .tempInit ps | .tempAugment ps =>
    inferInstanceAs (Decidable (∀ p ∈ ps, 1 ≤ p.1 ∧ p.1 ≤ t.order.length))
  | .swap index => inferInstanceAs (Decidable (index + 1 < t.order.length))

instance decLegal : (t : Spec) → (cs : List Call) → Decidable (Legal t cs)
  | _, [] => .isTrue trivial
  | t, c :: cs =>
    have := decLegal (t.step c) cs
    inferInstanceAs (Decidable (c.Legal t ∧ Legal (t.step c) cs))

/-- the hypothesis of the three theorems holds of `busy` -/
example : Legal .init busy := by decide +kernel

example : (program busy).map (fun s => (s.numVars, s.maxVars, s.maxDepth)) = some (35, 60, 9) := by
  decide +kernel
example : (program busy).map (fun s => (get s.indexToId 0, get s.indexToId 33, get s.indexToId 34)) =
    some (some 35, some 1, some 2) := by decide +kernel
example : (program busy).map (fun s => (get s.idToIndex 2, get s.temp 2, get s.temp 35, get s.temp 60)) =
    some (some 34, some 5, some 3, some 0) := by decide +kernel
example : (program busy).map (fun s => s.assocs.map fun a => (get a 1, get a 35, get a 60)) =
    some [(some 7, some 0, some 0), (some 0, some 4, some 0)] := by decide +kernel

/-- An entry of a variable that is not there is outside the array: calls that are not legal are not
covered. -/
example : (program [.tempInit [(31, 1)]]).isNone := by decide +kernel

end Cal.Arrays
