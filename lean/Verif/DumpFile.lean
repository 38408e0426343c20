import Verif.DumpLock

/-!
# A whole file: what `Cal_BddDumpBdd` writes, `Cal_BddUndumpBdd` reads back (on functions)
-/

namespace Cal.Dump

open Mgr

/-! ## How many labels there are -/

theorem length_le {α : Type} [DecidableEq α] : ∀ {l m : List α}, l.Nodup → (∀ x ∈ l, x ∈ m) → l.length ≤ m.length
  | [], _, _, _ => Nat.zero_le _
  | a :: l, m, hd, hs => by
    have ha := hs a (by simp)
    have h1 : l.length ≤ (m.erase a).length := length_le (List.nodup_cons.1 hd).2 fun x hx => by
      have hne : x ≠ a := fun h => (List.nodup_cons.1 hd).1 (h ▸ hx)
      exact (List.mem_erase_of_ne hne).2 (hs x (by simp [hx]))
    rw [List.length_erase_of_mem ha] at h1
    have : 0 < m.length := List.length_pos_of_mem ha
    simp only [List.length_cons]
    omega

theorem flat_length (t : Nat → List Nat) : ∀ n, ((List.range n).flatMap t).length = sumTo (fun i => (t i).length) n
  | 0 => rfl
  | n + 1 => by
    rw [List.range_succ, List.flatMap_append, List.length_append, flat_length t n]
    simp [sumTo]

/-- Nodes at different addresses: not more than the manager has. -/
theorem nodes_le {s : Store} (w : s.WF) (hn : s.NumOK) {K : List Edge} (hd : (K.map (·.addr)).Nodup)
    (hK : ∀ x ∈ K, s.EOK x ∧ x.id ≠ 0) : K.length ≤ s.numNodes := by
  have h := length_le (m := (List.range (s.ord.numVars + 1)).flatMap s.tab) hd (by
    intro a ha
    obtain ⟨x, hx, rfl⟩ := List.mem_map.1 ha
    obtain ⟨he, hi⟩ := hK x hx
    rcases he with ⟨h0, -⟩ | ⟨n, hn, hv⟩
    · exact absurd h0 hi
    · have hr := w.var_range _ _ hn
      exact List.mem_flatMap.2 ⟨n.var, List.mem_range.2 (by omega), (w.tab_iff _ _).2 ⟨n, hn, rfl⟩⟩)
  rw [flat_length, List.length_map] at h
  have : s.numNodes = _ := hn
  omega

theorem distinct_of {K : List Edge} (h : (K.map (·.addr)).Nodup) : Distinct K := by
  intro i j x y hx hy ha
  have h1 : (K.map (·.addr))[i]? = some x.addr := by rw [List.getElem?_map, hx]; rfl
  have h2 : (K.map (·.addr))[j]? = some x.addr := by rw [List.getElem?_map, hy, ha]; rfl
  have hl : i < (K.map (·.addr)).length := (List.getElem?_eq_some_iff.1 h1).1
  exact (List.getElem?_inj hl h).1 (h1.trans h2.symm)

theorem bytes_le8 (n : Int) : bytesNeeded n ≤ 8 := by
  unfold bytesNeeded; (repeat' split) <;> omega

theorem bytes_fit {N : Nat} (h : N ≤ 2 ^ 32) : N ≤ 256 ^ bytesNeeded N := by
  unfold bytesNeeded
  split
  · show N ≤ 256; omega
  · split
    · show N ≤ 65536; omega
    · split
      · show N ≤ 16777216; omega
      · show N ≤ 4294967296; omega

theorem width {n : Nat} (h : n < 65536) : Width n (bytesNeeded (n + 1)) := by
  unfold bytesNeeded
  split
  · exact .inl ⟨rfl, by omega⟩
  · rw [if_pos (by omega)]; exact .inr ⟨rfl, h⟩

/-- Writing the file goes well, and what is read from it is the same function of other variables. -/
theorem file_trip {s : Store} (w : s.WF) (hn : s.NumOK) {f : Edge} {F : BFn} (r : Rep s f F) (norm : Nat → Nat) {n : Nat}
    (hw : n < 65536) (cov : Cov s.ord norm n F) :
    ∃ out, dumpFile s norm n f = some out ∧ (∀ c ∈ out, c < 256) ∧
      ∀ (ys rest : List Nat) (mem : Nat) (fin : Err), ys.length = n → s.numNodes ≤ 2 ^ 32 → 16 * s.numNodes ≤ mem →
        undumpFile (fnAlg ys) mem n fin () (out ++ rest) = some ((), none, some (ren s.ord norm ys F)) := by
  obtain ⟨M, hM, sM⟩ := markShared_ok w (s.ord.numVars + 1) (fun _ => 0) r (by omega) (by omega)
  have mc : MarkClosed s M 0 := sM.closed 0 (Nat.zero_le _) fun g t u _ _ _ h => absurd rfl h
  obtain ⟨M', K, hK, sK⟩ := numberShared_ok w M (s.ord.numVars + 1) M [] r (by omega) (by omega)
  simp only [List.nil_append, List.length_nil] at hK
  have hd := distinct_of sK.distinct
  have hKf : ∀ (i : Nat) (x : Edge), K[i]? = some x → s.EOK x ∧ NT s x := fun i x hx =>
    have h := sK.fresh x (List.mem_of_getElem? hx)
    ⟨h.2.2.2.1, h.2.2.1⟩
  have hlen : K.length ≤ s.numNodes := nodes_le w hn sK.distinct fun x hx => by
    have h := sK.fresh x hx
    obtain ⟨X, rx⟩ := w.rep_exists h.2.2.2.1
    exact ⟨h.2.2.2.1, h.2.2.1.id w rx⟩
  have T : ∀ (ys : List Nat) (fin : Err), ys.length = n →
      Trip s norm ys (bytesNeeded (n + 1)) (bytesNeeded K.length) K fin (s.ord.numVars + 1) f F 0 K.length := by
    intro ys fin hy
    subst hy
    exact trip w M norm (width hw) (bytes_le8 _) hd hKf fin (s.ord.numVars + 1) (K := []) r (by omega) (by omega) cov sM.self mc
      (fun g t u _ _ _ h0 h1 => absurd h1 h0) (fun x hx => nomatch hx) hK (List.prefix_refl _)
      (fun i x hi hx => by
        have := (List.getElem?_eq_some_iff.1 hx).1
        omega)
  obtain ⟨o, ho, ho1, ho2, -⟩ := T (List.replicate n 0) .eof (by simp)
  have tab0 : (tab [] 0 : List (Edge × Int)) = [] := rfl
  rw [tab0] at hK
  refine ⟨write magic 8 ++ write n 2 ++ write K.length 8 ++ o, ?_, ?_, ?_⟩
  · unfold dumpFile
    simp only [hM, hK, ho]
  · intro c hc
    simp only [List.mem_append] at hc
    rcases hc with ((hc | hc) | hc) | hc
    · exact write_lt _ _ c hc
    · exact write_lt _ _ c hc
    · exact write_lt _ _ c hc
    · exact ho2 c hc
  · intro ys rest mem fin hy h32 hmem
    obtain ⟨o', ho', -, -, rd⟩ := T ys fin hy
    have hoo : o' = o := by
      rw [ho] at ho'
      exact (congrArg Prod.fst (Option.some.inj ho')).symm
    subst hoo
    have e1 := read_write fin (k := 8) (n := magic) (rest := write n 2 ++ (write K.length 8 ++ (o' ++ rest)))
      ({ st := (), inp := write magic 8 ++ write n 2 ++ write K.length 8 ++ o' ++ rest, sh := [], so := 0, err := none } : U Unit BFn)
      (by omega) (by decide) rfl (by simp only [List.append_assoc])
    have e2 := read_write fin (k := 2) (n := n) (rest := write K.length 8 ++ (o' ++ rest))
      ({ st := (), inp := write n 2 ++ (write K.length 8 ++ (o' ++ rest)), sh := [], so := 0, err := none } : U Unit BFn)
      (by omega) (by show n < 65536; exact hw) rfl rfl
    have e3 := read_write fin (k := 8) (n := K.length) (rest := o' ++ rest)
      ({ st := (), inp := write K.length 8 ++ (o' ++ rest), sh := [], so := 0, err := none } : U Unit BFn)
      (by omega) (by show K.length < 18446744073709551616; omega) rfl rfl
    obtain ⟨u', q0, q1, q2, q3, q4, -⟩ := rd ((write magic 8 ++ write n 2 ++ write K.length 8 ++ o' ++ rest).length + 1)
      { st := (), inp := o' ++ rest, sh := List.replicate K.length none, so := 0, err := none } rest
      (bytes_fit (by omega)) (by simp only [List.length_append]; omega) rfl rfl rfl (by simp) (fun i _ _ h => absurd h (Nat.not_lt_zero i))
    rw [hy] at q0
    unfold undumpFile
    simp only [e1, e2, e3, ne_eq, not_true, if_false]
    rw [if_neg (by unfold toLong; rw [if_pos (by omega)]; omega), if_neg (by omega)]
    simp only [q0]
    simp only [q1, q3, q4, Option.isNone_none, not_true, and_false, if_false]

/-! ## Any file at all -/

/-- The number written in `bytes`, the highest first. -/
def bigEndian (bytes : List Nat) : Nat := bytes.foldl (fun r c => r * 256 + c) 0

/-- The number of shared nodes that a file claims to have: bytes 10 to 17. -/
def claimed (file : List Nat) : Nat := bigEndian ((file.drop 10).take 8)

/-- The table of shared nodes has room: there is memory for it, and the file does not have more label
codes than the number of shared nodes it claims. -/
def Fits (mem : Nat) (file : List Nat) : Prop :=
  18 ≤ file.length → 16 * claimed file ≤ mem ∧ (file.drop 18).count cLABEL ≤ claimed file

instance (mem : Nat) (file : List Nat) : Decidable (Fits mem file) := by unfold Fits; infer_instance

theorem readLoop_eq : ∀ (k r : Nat) (l : List Nat), (∀ c ∈ l, c < 256) → (r + 1) * 256 ^ k ≤ 2 ^ 64 →
    readLoop k r l = if k ≤ l.length then (some ((l.take k).foldl (fun r c => r * 256 + c) r), l.drop k) else (none, [])
  | 0, r, l, _, _ => by simp [readLoop]
  | k + 1, r, [], _, _ => by simp [readLoop]
  | k + 1, r, c :: l, hb, h => by
    have hc := hb c (by simp)
    have hp : 0 < 256 ^ k := Nat.pow_pos (by omega)
    have h1 : (r * 256 + c + 1) * 256 ^ k ≤ 2 ^ 64 := by
      refine Nat.le_trans ?_ h
      rw [Nat.pow_succ, Nat.mul_comm (256 ^ k) 256, ← Nat.mul_assoc]
      exact Nat.mul_le_mul_right _ (by omega)
    have h2 : r * 256 + c < 2 ^ 64 := by
      have : r * 256 + c + 1 ≤ (r * 256 + c + 1) * 256 ^ k := Nat.le_mul_of_pos_right _ hp
      omega
    simp only [readLoop]
    rw [Nat.mod_eq_of_lt h2, readLoop_eq k _ l (fun x hx => hb x (by simp [hx])) h1]
    simp

theorem bigEndian_lt : ∀ (l : List Nat) (r : Nat), (∀ c ∈ l, c < 256) →
    l.foldl (fun r c => r * 256 + c) r < (r + 1) * 256 ^ l.length
  | [], r, _ => by simp
  | c :: l, r, hb => by
    have hc := hb c (by simp)
    refine Nat.lt_of_lt_of_le (bigEndian_lt l _ fun x hx => hb x (by simp [hx])) ?_
    rw [List.length_cons, Nat.pow_succ, Nat.mul_comm (256 ^ _) 256, ← Nat.mul_assoc]
    exact Nat.mul_le_mul_right _ (by show r * 256 + c + 1 ≤ _; omega)

theorem read_field {σ α : Type} (fin : Err) {k : Nat} (hk : k ≤ 8) (s : σ) (l : List Nat) (sh : List (Option α)) (so : Nat)
    (hb : ∀ c ∈ l, c < 256) : read fin k ⟨s, l, sh, so, none⟩ = if k ≤ l.length then
      (bigEndian (l.take k), ⟨s, l.drop k, sh, so, none⟩) else (0, ⟨s, [], sh, so, some fin⟩) := by
  unfold read
  rw [if_neg (by simp)]
  simp only
  rw [readLoop_eq k 0 l hb (by
    simp only [Nat.zero_add, Nat.one_mul]
    have : 256 ^ k ≤ 256 ^ 8 := Nat.pow_le_pow_right (by omega) hk
    simpa using this)]
  by_cases h : k ≤ l.length
  · simp only [if_pos h]; rfl
  · simp only [if_neg h]

/-- Reading a file whose table fits comes to an end, with a BDD or an error. -/
theorem file_total (ys : List Nat) (mem : Nat) (fin : Err) {inp : List Nat} (hb : ∀ c ∈ inp, c < 256) (hf : Fits mem inp) :
    ∃ er R, undumpFile (fnAlg ys) mem ys.length fin () inp = some ((), er, R) := by
  unfold undumpFile
  rw [read_field fin (by omega) _ _ _ _ hb]
  rcases Nat.lt_or_ge inp.length 8 with l1 | l1
  · rw [if_neg (Nat.not_le.2 l1)]
    simp only
    rw [if_pos (by decide)]
    exact ⟨_, _, rfl⟩
  rw [if_pos l1]
  simp only
  split
  · exact ⟨_, _, rfl⟩
  have hb1 : ∀ c ∈ inp.drop 8, c < 256 := fun c hc => hb c (List.mem_of_mem_drop hc)
  rw [read_field fin (by omega) _ _ _ _ hb1]
  rcases Nat.lt_or_ge (inp.drop 8).length 2 with l2 | l2
  · rw [if_neg (Nat.not_le.2 l2)]; exact ⟨_, _, rfl⟩
  rw [if_pos l2]
  simp only
  split
  · exact ⟨_, _, rfl⟩
  rename_i hn
  rw [List.length_drop] at l2
  have hnv : ys.length < 65536 := by
    have h1 := bigEndian_lt ((inp.drop 8).take 2) 0 fun c hc => hb1 c (List.mem_of_mem_take hc)
    have h2 : ((inp.drop 8).take 2).length = 2 := by simp; omega
    rw [h2] at h1
    have h3 := Classical.not_not.1 hn
    unfold bigEndian at h3
    omega
  have hnl := Classical.not_not.1 hn
  rw [List.drop_drop]
  have hb2 : ∀ c ∈ inp.drop (8 + 2), c < 256 := fun c hc => hb c (List.mem_of_mem_drop hc)
  rw [read_field fin (by omega) _ _ _ _ hb2]
  rcases Nat.lt_or_ge (inp.drop (8 + 2)).length 8 with l3 | l3
  · rw [if_neg (Nat.not_le.2 l3)]; exact ⟨_, _, rfl⟩
  rw [if_pos l3]
  simp only
  rw [List.length_drop] at l3
  obtain ⟨f1, f2⟩ := hf (by omega)
  split
  · exact ⟨_, _, rfl⟩
  rw [if_neg (show ¬ 16 * bigEndian ((inp.drop (8 + 2)).take 8) > mem from Nat.not_lt.2 f1), List.drop_drop, hnl]
  have hb3 : ∀ c ∈ inp.drop (8 + 2 + 8), c < 256 := fun c hc => hb c (List.mem_of_mem_drop hc)
  have hi : bytesNeeded ((ys.length : Nat) + 1) = 1 ∨ bytesNeeded ((ys.length : Nat) + 1) = 2 := by
    rcases width hnv with h | h
    · exact .inl h.1
    · exact .inr h.1
  obtain ⟨u', r, q1, -, -, -, q2⟩ := pure_total ys hi (bytesNeeded (bigEndian ((inp.drop (8 + 2)).take 8))) fin (inp.length + 1)
    ⟨(), inp.drop (8 + 2 + 8), List.replicate (bigEndian ((inp.drop (8 + 2)).take 8)) none, 0, none⟩ (by omega)
    (fun _ => by simp only [List.length_drop]; omega) hb3 (by
      simp only [List.length_replicate, Nat.zero_add]
      exact f2)
  simp only [q1]
  generalize hee : (if u'.err.isNone = true ∧ u'.so ≠ u'.sh.length then some Err.format else u'.err) = er
  cases er with
  | some x => cases r <;> exact ⟨_, _, rfl⟩
  | none =>
    have he : u'.err = none := by
      cases h : u'.err with
      | none => rfl
      | some x => rw [h] at hee; simp at hee
    cases r with
    | some e => exact ⟨_, _, rfl⟩
    | none => exact absurd rfl (q2 he).2.2

end Cal.Dump
