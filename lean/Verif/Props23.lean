import Verif.PrintMake
import Verif.Props6
import Verif.Props12

/-!
# Properties, part 23: printing

What the texts mean is said by the readers in `PrintSpec.lean` and at the start of `FnPrint.lean`.
-/

namespace Cal

open Print

/-! ## C64: the text of `Cal_BddPrintBdd` -/

/-- `Cal_BddPrintBdd` prints a text that reads as the function. The indices in the text stand for the variables at
these places of the order. Afterwards all marks are clear, as they were before. -/
theorem C64_text {E own lk m} (S : E.Sound) (R : Reachable E own lk m) {f : Handle} {F : BFn} (hf : Den m f F) :
    ∃ txt, m.printBdd f none none = some (txt, fun _ => 0) ∧ readText m.st.ord.indexToId txt = some F := by
  have i := R.inv S
  obtain ⟨e, he, r⟩ := hf
  obtain ⟨ls, σ, h1, h2⟩ := printEdge_ok i.wf none none r
  refine ⟨linesText m.st.ord none none ls, ?_, ?_⟩
  · unfold Mgr.printBdd Mgr.internal
    simp only [he, Option.map_some]
    exact h1
  · unfold readText
    simp only [readLines_text, h2]

/-- With functions for names: the lines are the same, with the names that the functions give in the place of the
default ones. -/
theorem C64_names {E own lk m} (S : E.Sound) (R : Reachable E own lk m) {f : Handle} {F : BFn} (hf : Den m f F)
    (nm : Option (Nat → Option (List Char))) (tn : Option (Bool → Option (List Char))) :
    ∃ ls σ, m.printBdd f nm tn = some (linesText m.st.ord nm tn ls, fun _ => 0) ∧
      readFn m.st.ord.indexToId ls.length 0 ls (fun _ => none) = some (F, σ, []) := by
  have i := R.inv S
  obtain ⟨e, he, r⟩ := hf
  obtain ⟨ls, σ, h1, h2⟩ := printEdge_ok i.wf nm tn r
  refine ⟨ls, σ, ?_, h2⟩
  unfold Mgr.printBdd Mgr.internal
  simp only [he, Option.map_some]
  exact h1

/-- Two BDDs with the same text are equal. -/
theorem C64_injective {E own lk m} (S : E.Sound) (R : Reachable E own lk m) {f g : Handle} {F G : BFn} (hf : Den m f F) (hg : Den m g G)
    (h : (m.printBdd f none none).map (·.1) = (m.printBdd g none none).map (·.1)) : f = g := by
  obtain ⟨t1, a1, b1⟩ := C64_text S R hf
  obtain ⟨t2, a2, b2⟩ := C64_text S R hg
  rw [a1, a2] at h
  simp only [Option.map_some, Option.some.injEq] at h
  subst h
  rw [b1] at b2
  cases b2
  exact (Mgr.handle_eq (R.inv S) hf hg).2 rfl

example := C64_text Env.plain_sound Demo.reach Demo.den6
example := C64_names Env.plain_sound Demo.reach Demo.den6 (some fun x => some [Char.ofNat (96 + x)]) none
example := C64_injective Env.plain_sound Demo.reach Demo.den6 Demo.den6 rfl
example : (Demo.sess.m.printBdd ⟨6, true⟩ none none).map (fun p => String.ofList p.1) = some
    "if var.0\n  if var.1\n    0\n  else if !var.1\n    !var.2\n  endif var.1\nelse if !var.0\n  !var.2\nendif var.0\n" := by
  decide +kernel
example : Demo.sess.m.printBdd Handle.null none none = none := by decide +kernel

/-! ## C65: the text of `Cal_BddFunctionPrint` -/

/-- With at most 256 variables `Cal_BddFunctionPrint` prints a text that reads as the function. -/
theorem C65_text_partial {E own lk m} (S : E.Sound) (R : Reachable E own lk m) (hv : m.st.ord.numVars ≤ 256) {f : Handle} {F : BFn}
    (hf : Den m f F) (name : List Char) : ∃ txt, m.functionPrint f name = some txt ∧ readFunction name txt = some F := by
  have i := R.inv S
  obtain ⟨e, he, r⟩ := hf
  obtain ⟨l, h1, h2, h3⟩ := fnPrint_ok i.wf hv (m.st.ord.numVars + 1) r (by omega) (by omega)
  refine ⟨(name ++ [' ', '=', ' ']) ++ (l ++ ['\n']), ?_, ?_⟩
  · unfold Mgr.functionPrint Mgr.internal
    simp only [he, Option.map_some, h1]
    rfl
  · have hs : ∀ p q : List Char, strip p (p ++ q) = some q := by
      intro p
      induction p with
      | nil => intro q; rfl
      | cons a p ih => intro q; simp only [List.cons_append, strip, if_true, ih]
    unfold readFunction
    rw [hs]
    simp only [h3 (l ++ ['\n']).length ['\n'] (by simp)]

/-- What is printed for a variable -/
theorem fnPrint_var {s : Store} (w : s.WF) {f : Edge} {v : Nat} (r : Rep s f fun ρ => ρ v) (k : Nat) (name : List Char) :
    fnPrint s (k + 2) 0 name f = some (name ++ [' ', '=', ' '] ++ (['(', ' ', byteOf v, ' ', '(', ' ', '1', ' ', ')', ' ', '+', ' ',
      byteOf v, '\'', ' ', '(', ' ', '0', ' ', ')', ' ', ')', ' ', '\n'])) := by
  have hi : f.id ≠ 0 := by
    intro h
    rcases (r.const_iff w).1 h with h | h
    · have := congrFun h fun _ => false; cases this
    · have := congrFun h fun _ => true; cases this
  have hid : f.id = v := by
    apply Classical.byContradiction
    intro h
    refine r.dep w hi fun ρ b => ?_
    show upd ρ f.id b v = ρ v
    rw [upd_ne _ _ (Ne.symm h)]
  obtain ⟨t, e, hk, rt, re, -⟩ := r.kids w hi
  rw [hid] at rt re
  simp only [upd_same] at rt re
  have ht : t = one := canonical w rt .one
  have he : e = zero := canonical w re .zero
  have ha : f.addr ≠ 0 := fun h => hi ((r.eok.addr_zero w).1 h)
  have hz : f.same zero = false := by simp [Edge.same, zero, ha]
  have ho : f.same one = false := by simp [Edge.same, one, ha]
  subst ht he
  unfold fnPrint
  simp only [hz, ho, Bool.false_eq_true, if_false, if_true, hk]
  unfold fnPrint
  simp [hid, Edge.same, one, zero]

/-- With more variables the text can be ambiguous: the variables made first and last of 257 print alike. -/
theorem C65_violated : ∃ own m f g, Reachable Env.plain own false m ∧ UTab.Live own f ∧ UTab.Live own g ∧
    Den m f (fun ρ => ρ 1) ∧ Den m g (fun ρ => ρ 257) ∧ f ≠ g ∧ ∀ name, ∃ txt, m.functionPrint f name = some txt ∧ m.functionPrint g name = some txt := by
  obtain ⟨own, m, W⟩ := World.exists Env.plain_sound 257 (by omega)
  obtain ⟨f, lf, hf⟩ := W.vars 1 (by omega) (by omega)
  obtain ⟨g, lg, hg⟩ := W.vars 257 (by omega) (by omega)
  have i := W.reach.inv Env.plain_sound
  refine ⟨own, m, f, g, W.reach, lf, lg, hf, hg, ?_, fun name => ?_⟩
  · intro h
    have := (Mgr.handle_eq i hf hg).1 h
    have := congrFun this fun v => v == 1
    cases this
  · obtain ⟨e1, h1, r1⟩ := hf
    obtain ⟨e2, h2, r2⟩ := hg
    refine ⟨name ++ [' ', '=', ' '] ++ (['(', ' ', 'a', ' ', '(', ' ', '1', ' ', ')', ' ', '+', ' ', 'a', '\'', ' ', '(', ' ', '0', ' ', ')', ' ',
      ')', ' ', '\n']), ?_, ?_⟩
    · unfold Mgr.functionPrint Mgr.internal
      simp only [h1, Option.map_some, W.nv]
      exact fnPrint_var i.wf r1 256 name
    · unfold Mgr.functionPrint Mgr.internal
      simp only [h2, Option.map_some, W.nv]
      exact fnPrint_var i.wf r2 256 name

example := C65_text_partial Env.plain_sound Demo.reach (by decide +kernel) Demo.den6 ['F']
example : (Demo.sess.m.functionPrint ⟨6, true⟩ ['F']).map String.ofList =
    some "F = ( a ( b ( 0 ) + b' ( c ( 0 ) + c' ( 1 ) ) ) + a' ( c ( 0 ) + c' ( 1 ) ) ) \n" := by decide +kernel
example : Demo.sess.m.functionPrint Handle.null ['F'] = none := by decide +kernel

/-! ## C66: the lengths of texts and files -/

/-- The number of lines on which label `n` is defined -/
def defs (n : Nat) (ls : List (Nat × Line)) : Nat := ls.countP fun x => match x.2 with
  | .ifThen (some l) _ => l == n
  | _ => false

theorem readFn_defs {v : Nat → Nat} : ∀ {k d : Nat} {ls : List (Nat × Line)} {σ : Labels} {F σ' rest},
    readFn v k d ls σ = some (F, σ', rest) → ∃ used, ls = used ++ rest ∧
      ∀ n, defs n used + (if (σ n).isSome then 1 else 0) = if (σ' n).isSome then 1 else 0
  | 0, _, _, _, _, _, _, h => by simp [readFn] at h
  | _ + 1, _, [], _, _, _, _, h => by simp [readFn] at h
  | k + 1, d, (i, l) :: ls, σ, F, σ', rest, h => by
    unfold readFn at h
    split at h
    · cases h
    cases l with
    | const b => cases h; exact ⟨[_], rfl, fun n => by simp [defs]⟩
    | var neg j => cases h; exact ⟨[_], rfl, fun n => by simp [defs]⟩
    | elseIf j => cases h
    | endIf j => cases h
    | ref neg j =>
      simp only at h
      split at h
      · cases h
      · cases h; exact ⟨[_], rfl, fun n => by simp [defs]⟩
    | ifThen lab j =>
      simp only at h
      split at h
      case h_2 => cases h
      case h_1 A σ1 i1 j1 ls1 h1 =>
        split at h
        case isFalse => cases h
        split at h
        case h_2 => cases h
        case h_1 B σ2 i2 j2 ls2 h2 =>
          split at h
          case isFalse => cases h
          obtain ⟨u1, rfl, d1⟩ := readFn_defs h1
          obtain ⟨u2, rfl, d2⟩ := readFn_defs h2
          cases lab with
          | none =>
            cases h
            refine ⟨(i, .ifThen none j) :: (u1 ++ (i1, .elseIf j1) :: (u2 ++ [(i2, .endIf j2)])), by simp, fun n => ?_⟩
            have e1 := d1 n
            have e2 := d2 n
            simp only [defs, List.countP_cons, List.countP_append, List.countP_nil] at e1 e2 ⊢
            simp only [Bool.false_eq_true, if_false]
            omega
          | some l =>
            simp only at h
            split at h
            · cases h
            · rename_i hl
              cases h
              refine ⟨(i, .ifThen (some l) j) :: (u1 ++ (i1, .elseIf j1) :: (u2 ++ [(i2, .endIf j2)])), by simp, fun n => ?_⟩
              have e1 := d1 n
              have e2 := d2 n
              simp only [defs, List.countP_cons, List.countP_append, List.countP_nil] at e1 e2 ⊢
              by_cases hn : n = l
              · subst hn
                rw [if_neg hl] at e2
                simp only [upd_same, Option.isSome_some, if_true, beq_self_eq_true, Bool.false_eq_true, if_false]
                omega
              · rw [upd_ne _ _ hn]
                simp only [Bool.false_eq_true, if_false, beq_iff_eq, Ne.symm hn]
                omega

/-- A node that has a label is printed in full once. The full property is that every node that occurs more than once
is, so that the text is no longer than a constant times the number of nodes. -/
theorem C66_labels_partial {E own lk m} (S : E.Sound) (R : Reachable E own lk m) {f : Handle} {F : BFn} (hf : Den m f F) :
    ∃ txt ls, m.printBdd f none none = some (txt, fun _ => 0) ∧ readLines (lines txt) = some ls ∧ ∀ n, defs n ls ≤ 1 := by
  obtain ⟨ls, σ, h1, h2⟩ := C64_names S R hf none none
  refine ⟨_, ls, h1, readLines_text _ ls, fun n => ?_⟩
  obtain ⟨u, h3, h4⟩ := readFn_defs h2
  rw [List.append_nil] at h3
  subst h3
  have := h4 n
  simp only [Option.isSome_none, Bool.false_eq_true, if_false] at this
  split at this <;> omega

/-- It is not so: `CalBddMarkSharedNodes` does not notice a node that it meets three or five times. For a product of a
clause of five variables, `n` clauses of two and one variable, in this order, the size is `2 * n + 8`, but the text is
longer than `5 * 2 ^ n`, and so is the file that `Cal_BddDumpBdd` writes. -/
theorem C66_long {E own lk m} (S : E.Sound) (R : Reachable E own lk m) (ht : m.technique = 0) {f : Handle} (lf : UTab.Live own f)
    {ys : List Nat} {ps : List (Nat × Nat)} {z : Nat} (hy : ys.length = 5) (inc : Increasing m.st.ord (ys :: pairs z ps).flatten)
    (hf : Den m f (cnf (ys :: pairs z ps))) :
    (∃ m' n, m.size E f false = some (m', (n : Int)) ∧ n ≤ 2 * ps.length + 8) ∧
    (∀ nm tn, ∃ txt, m.printBdd f nm tn = some (txt, fun _ => 0) ∧ 5 * 2 ^ ps.length ≤ txt.length) ∧
    ∀ vs, (∀ v ∈ vs, UTab.Live own v) → ∀ m' sup file, m.dump E f vs = some (m', sup, some file) → 5 * 2 ^ ps.length ≤ file.length := by
  have i := R.inv S
  refine ⟨?_, fun nm tn => ?_, fun vs lv m' sup file h => ?_⟩
  · obtain ⟨m', n, h1, h2, h3, h4⟩ := C30_size S R lf hf false
    refine ⟨m', n, h1, ?_⟩
    rw [h3 ht] at h2
    obtain ⟨e, -, r⟩ := hf
    have := small i.wf (fun c hc => by
      rcases List.mem_cons.1 hc with rfl | hc
      · intro h; rw [h] at hy; cases hy
      · exact pairs_ne z ps c hc) (by simp) inc r h2
    have hlen : (pairs z ps).flatten.length = 2 * ps.length + 1 := by
      clear inc h2 r this
      induction ps with
      | nil => rfl
      | cons p ps ih => rw [show pairs z (p :: ps) = [p.1, p.2] :: pairs z ps from rfl]; simp [ih]; omega
    rw [List.flatten_cons, List.length_append, hlen, hy] at this
    omega
  · obtain ⟨ls, σ, h1, -⟩ := C64_names S R hf nm tn
    refine ⟨_, h1, ?_⟩
    obtain ⟨e, he, r⟩ := hf
    unfold Mgr.printBdd Mgr.internal at h1
    simp only [he, Option.map_some] at h1
    exact print_long i.wf nm tn hy inc r h1
  · obtain ⟨m1, sup', o, h1, i1, p, -⟩ := Mgr.dump_ok S i lf hf lv
    rw [h] at h1
    cases h1
    obtain ⟨e, he, r⟩ := p.fns f lf _ hf
    rw [← p.ord ht] at inc
    have key : ∃ norm, Dump.dumpFile m'.st norm vs.length (e.phase f.neg) = some file := by
      unfold Mgr.dump at h
      split at h
      · cases h
      · cases h
      · split at h
        · cases h
        · cases h
        · split at h
          · cases h
          · cases h
          · split at h
            · cases h
            · split at h
              · cases h
              · cases h
              · split at h
                · cases h
                · rename_i norm _ _ _ _ _ _ m2 _ _ e2 he2
                  cases hd : Dump.dumpFile m2.st norm vs.length e2 with
                  | none => rw [hd] at h; cases h
                  | some out =>
                    rw [hd] at h
                    cases h
                    rw [Mgr.internal, he] at he2
                    cases he2
                    exact ⟨_, hd⟩
    obtain ⟨norm, hd⟩ := key
    exact dump_long i1.wf norm vs.length hy inc r hd

/-- There are such BDDs for every `n` (up to the largest number of variables). -/
theorem C66_violated (n : Nat) (hn : 2 * n + 6 ≤ 65534) : ∃ own m f F m' k, Reachable Env.plain own false m ∧ UTab.Live own f ∧
    Den m f F ∧ m.size Env.plain f false = some (m', (k : Int)) ∧ k ≤ 2 * n + 8 ∧
    (∃ txt, m.printBdd f none none = some (txt, fun _ => 0) ∧ 5 * 2 ^ n ≤ txt.length) ∧
    ∃ vs m' sup file, (∀ v ∈ vs, UTab.Live own v) ∧ m.dump Env.plain f vs = some (m', sup, some file) ∧ 5 * 2 ^ n ≤ file.length := by
  obtain ⟨own0, m0, W0⟩ := World.exists Env.plain_sound (2 * n + 6) hn
  have hfl : ([1, 2, 3, 4, 5] :: pairs (6 + 2 * n) (somePairs 6 n)).flatten = List.range' 1 (2 * n + 6) := by
    rw [List.flatten_cons, somePairs_flatten, show 2 * n + 6 = 2 * n + 1 + 1 + 1 + 1 + 1 + 1 by omega]
    simp only [List.range'_succ]
    rfl
  have hr : ∀ v ∈ ([1, 2, 3, 4, 5] :: pairs (6 + 2 * n) (somePairs 6 n)).flatten, 1 ≤ v ∧ v ≤ 2 * n + 6 := by
    intro v hv
    rw [hfl, List.mem_range'_1] at hv
    omega
  obtain ⟨own, m, f, W, lf, hf⟩ := W0.cnf Env.plain_sound _ hr
  have inc := W.increasing (by rw [hfl]; exact List.pairwise_lt_range') hr
  obtain ⟨⟨m', k, h1, h2⟩, h3, h4⟩ := C66_long Env.plain_sound W.reach W.tech lf rfl inc hf
  rw [somePairs_length] at h2 h3 h4
  refine ⟨own, m, f, _, m', k, W.reach, lf, hf, h1, h2, h3 none none, ?_⟩
  have vars : ∀ xs : List Nat, (∀ x ∈ xs, 1 ≤ x ∧ x ≤ 2 * n + 6) → ∃ vs, (∀ v ∈ vs, UTab.Live own v) ∧ AreVars m vs xs := by
    intro xs
    induction xs with
    | nil => exact fun _ => ⟨[], fun v h => (by cases h), .nil⟩
    | cons x xs ih =>
      intro h
      obtain ⟨vs, h1, h2⟩ := ih fun y hy => h y (by simp [hy])
      obtain ⟨g, lg, hg⟩ := W.vars x (h x (by simp)).1 (h x (by simp)).2
      exact ⟨g :: vs, fun v hv => (List.mem_cons.1 hv).elim (fun e => e ▸ lg) (h1 v), .cons hg h2⟩
  obtain ⟨vs, lv, hv⟩ := vars _ hr
  obtain ⟨m2, own2, sup, out, d1, -, -, -, d2⟩ := C37_dump_writes Env.plain_sound W.reach lf hf lv
  cases out with
  | none =>
    refine absurd rfl (d2.2 ⟨_, hv, ?_, fun x hx => ?_⟩)
    · rw [hfl]; exact List.nodup_range'
    · apply Classical.byContradiction
      intro h
      exact hx fun ρ b => cnf_upd h ρ b
  | some file => exact ⟨vs, m2, sup, file, lv, d1, h4 vs lv m2 sup file d1⟩

example := C66_labels_partial Env.plain_sound Demo.reach Demo.den6
example := C66_violated 100 (by omega)

end Cal
