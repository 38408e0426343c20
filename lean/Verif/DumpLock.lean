import Verif.DumpRound

/-!
# Dumping and reading back, in lockstep
-/

namespace Cal.Dump

open Mgr (typeAux)

theorem readLoop_write : ∀ (k n r : Nat) (rest : List Nat), (r + 1) * 256 ^ k ≤ 2 ^ 64 →
    readLoop k r (write n k ++ rest) = (some (r * 256 ^ k + n % 256 ^ k), rest)
  | 0, n, r, rest, _ => by simp [readLoop, write, Nat.mod_one]
  | k + 1, n, r, rest, h => by
    have hb : n / 256 ^ k % 256 < 256 := Nat.mod_lt _ (by omega)
    have hp : 0 < 256 ^ k := Nat.pow_pos (by omega)
    have h1 : (r * 256 + n / 256 ^ k % 256 + 1) * 256 ^ k ≤ 2 ^ 64 := by
      refine Nat.le_trans ?_ h
      rw [Nat.pow_succ, Nat.mul_comm (256 ^ k) 256, ← Nat.mul_assoc]
      exact Nat.mul_le_mul_right _ (by omega)
    have h2 : r * 256 + n / 256 ^ k % 256 < 2 ^ 64 := by
      have : (r * 256 + n / 256 ^ k % 256 + 1) * 1 ≤ (r * 256 + n / 256 ^ k % 256 + 1) * 256 ^ k :=
        Nat.mul_le_mul_left _ hp
      omega
    simp only [write, List.cons_append, readLoop]
    rw [Nat.mod_eq_of_lt h2, readLoop_write k n _ rest h1, Nat.mod_pow_succ]
    congr 2
    rw [Nat.add_mul, Nat.pow_succ, Nat.mul_assoc, Nat.mul_comm 256 (256 ^ k), Nat.mul_comm (256 ^ k) (n / 256 ^ k % 256)]
    omega

variable {σ α : Type}

theorem read_write (fin : Err) {k n : Nat} (u : U σ α) {rest : List Nat} (hk : k ≤ 8) (hn : n < 256 ^ k) (he : u.err = none)
    (hi : u.inp = write n k ++ rest) : read fin k u = (n, { u with inp := rest }) := by
  unfold read
  rw [if_neg (by rw [he]; simp), hi, readLoop_write k n 0 rest (by
    simp only [Nat.zero_add, Nat.one_mul]
    have : 256 ^ k ≤ 256 ^ 8 := Nat.pow_le_pow_right (by omega) hk
    simpa using this)]
  simp [Nat.mod_eq_of_lt hn]

theorem write_len (n : Nat) : ∀ k, (write n k).length = k
  | 0 => rfl
  | k + 1 => by simp [write, write_len n k]

theorem write_lt (n : Nat) : ∀ k, ∀ c ∈ write n k, c < 256
  | 0, _, h => by cases h
  | k + 1, c, h => by
    simp only [write, List.mem_cons] at h
    rcases h with rfl | h
    · exact Nat.mod_lt _ (by omega)
    · exact write_lt n k c h

/-- The width of the variable indexes, for `n` variables: the number with all bits set is not used. -/
def Width (n isz : Nat) : Prop := (isz = 1 ∧ n < 256) ∨ (isz = 2 ∧ n < 65536)

section
variable (A : Alg σ α) {n isz : Nat} (nsz : Nat) (fin : Err) (k : Nat) (u : U σ α) {rest : List Nat}

theorem read_code (hw : Width n isz) {c : Nat} (hc : c < 8) (he : u.err = none)
    (hi : u.inp = write (code c) (isz + 1) ++ rest) : ∃ m, indexMask[isz - 1]? = some m ∧ m < 65536 ∧
      read fin isz u = (m, { u with inp := c :: rest }) ∧
      ∀ v : U σ α, v.err = none → v.inp = c :: rest → read fin 1 v = (c, { v with inp := rest }) := by
  have hv : ∀ v : U σ α, v.err = none → v.inp = c :: rest → read fin 1 v = (c, { v with inp := rest }) := by
    intro v h1 h2
    refine read_write fin (n := c) v (by omega) (by omega) h1 ?_
    rw [h2]
    simp [write]
    omega
  rcases hw with ⟨rfl, hn⟩ | ⟨rfl, hn⟩
  · refine ⟨255, rfl, by omega, read_write fin u (by omega) (by omega) he ?_, hv⟩
    rw [hi]
    simp only [write, code, List.cons_append, List.nil_append]
    have h1 : (0xffffff00 + c) / 256 ^ 1 % 256 = 255 := by omega
    have h2 : (0xffffff00 + c) / 256 ^ 0 % 256 = c := by omega
    simp only [h1, h2]
  · refine ⟨65535, rfl, by omega, read_write fin u (by omega) (by omega) he ?_, hv⟩
    rw [hi]
    simp only [write, code, List.cons_append, List.nil_append]
    have h0 : (0xffffff00 + c) / 256 ^ 2 % 256 = 255 := by omega
    have h1 : (0xffffff00 + c) / 256 ^ 1 % 256 = 255 := by omega
    have h2 : (0xffffff00 + c) / 256 ^ 0 % 256 = c := by omega
    simp only [h0, h1, h2]

theorem step_true (hw : Width n isz) (he : u.err = none) (hi : u.inp = write (code cTRUE) (isz + 1) ++ rest) :
    undumpStep A n isz nsz fin (k + 1) u = some ({ u with inp := rest }, some A.one) := by
  obtain ⟨st, inp, sh, so, err⟩ := u
  simp only at he hi
  subst he hi
  obtain ⟨m, h1, h2, h3, h4⟩ := read_code (n := n) fin
    (⟨st, write (code cTRUE) (isz + 1) ++ rest, sh, so, none⟩ : U σ α) hw (c := cTRUE) (by decide) rfl rfl
  have h5 := h4 ⟨st, cTRUE :: rest, sh, so, none⟩ rfl rfl
  simp only at h3 h5
  unfold undumpStep
  simp +decide [h1, h3, h5, Nat.mod_eq_of_lt h2]

theorem step_false (hw : Width n isz) (he : u.err = none) (hi : u.inp = write (code cFALSE) (isz + 1) ++ rest) :
    undumpStep A n isz nsz fin (k + 1) u = some ({ u with inp := rest }, some A.zero) := by
  obtain ⟨st, inp, sh, so, err⟩ := u
  simp only at he hi
  subst he hi
  obtain ⟨m, h1, h2, h3, h4⟩ := read_code (n := n) fin
    (⟨st, write (code cFALSE) (isz + 1) ++ rest, sh, so, none⟩ : U σ α) hw (c := cFALSE) (by decide) rfl rfl
  have h5 := h4 ⟨st, cFALSE :: rest, sh, so, none⟩ rfl rfl
  simp only at h3 h5
  unfold undumpStep
  simp +decide [h1, h3, h5, Nat.mod_eq_of_lt h2]

theorem Width.lt (hw : Width n isz) {i : Nat} (hi : i < n) : isz ≤ 8 ∧ i < 256 ^ isz ∧ i < 65536 := by
  rcases hw with ⟨rfl, hn⟩ | ⟨rfl, hn⟩
  · refine ⟨by omega, ?_, by omega⟩
    show i < 256 ^ 1; omega
  · refine ⟨by omega, ?_, by omega⟩
    show i < 256 ^ 2; omega

theorem step_var (hw : Width n isz) (neg : Bool) {i : Nat} {v : α} (hn : i < n) (hv : A.var i = some v) (he : u.err = none)
    (hi : u.inp = write (code (if neg then cNEGVAR else cPOSVAR)) (isz + 1) ++ (write i isz ++ rest)) :
    undumpStep A n isz nsz fin (k + 1) u = some ({ u with inp := rest }, some (if neg then A.not v else v)) := by
  have hwl := hw.lt hn
  obtain ⟨st, inp, sh, so, err⟩ := u
  simp only at he hi
  subst he hi
  cases neg with
  | false =>
    obtain ⟨m, h1, h2, h3, h4⟩ := read_code (n := n) fin (⟨st, write (code cPOSVAR) (isz + 1) ++ (write i isz ++ rest), sh, so, none⟩ : U σ α) hw (c := cPOSVAR) (by decide) rfl rfl
    have h5 := h4 ⟨st, cPOSVAR :: (write i isz ++ rest), sh, so, none⟩ rfl rfl
    have h6 := read_write fin (⟨st, write i isz ++ rest, sh, so, none⟩ : U σ α) hwl.1 hwl.2.1 rfl rfl
    simp only at h3 h5 h6
    unfold undumpStep
    simp +decide [h1, h3, h5, h6, Nat.mod_eq_of_lt h2, Nat.mod_eq_of_lt hwl.2.2, Nat.not_le.2 hn, hv]
  | true =>
    obtain ⟨m, h1, h2, h3, h4⟩ := read_code (n := n) fin (⟨st, write (code cNEGVAR) (isz + 1) ++ (write i isz ++ rest), sh, so, none⟩ : U σ α) hw (c := cNEGVAR) (by decide) rfl rfl
    have h5 := h4 ⟨st, cNEGVAR :: (write i isz ++ rest), sh, so, none⟩ rfl rfl
    have h6 := read_write fin (⟨st, write i isz ++ rest, sh, so, none⟩ : U σ α) hwl.1 hwl.2.1 rfl rfl
    simp only at h3 h5 h6
    unfold undumpStep
    simp +decide [h1, h3, h5, h6, Nat.mod_eq_of_lt h2, Nat.mod_eq_of_lt hwl.2.2, Nat.not_le.2 hn, hv]

theorem step_node (hw : Width n isz) (neg : Bool) {j : Nat} {v : α} (h8 : nsz ≤ 8) (hj : j < 256 ^ nsz)
    (hv : u.sh[j]? = some (some v)) (he : u.err = none)
    (hi : u.inp = write (code (if neg then cNEGNODE else cPOSNODE)) (isz + 1) ++ (write j nsz ++ rest)) :
    undumpStep A n isz nsz fin (k + 1) u =
      some ({ u with inp := rest, st := A.share u.st v }, some (if neg then A.not v else v)) := by
  obtain ⟨st, inp, sh, so, err⟩ := u
  simp only at he hi hv
  subst he hi
  cases neg with
  | false =>
    obtain ⟨m, h1, h2, h3, h4⟩ := read_code (n := n) fin (⟨st, write (code cPOSNODE) (isz + 1) ++ (write j nsz ++ rest), sh, so, none⟩ : U σ α) hw (c := cPOSNODE) (by decide) rfl rfl
    have h5 := h4 ⟨st, cPOSNODE :: (write j nsz ++ rest), sh, so, none⟩ rfl rfl
    have h6 := read_write fin (⟨st, write j nsz ++ rest, sh, so, none⟩ : U σ α) h8 hj rfl rfl
    simp only at h3 h5 h6
    unfold undumpStep
    simp +decide [h1, h3, h5, h6, Nat.mod_eq_of_lt h2, hv]
  | true =>
    obtain ⟨m, h1, h2, h3, h4⟩ := read_code (n := n) fin (⟨st, write (code cNEGNODE) (isz + 1) ++ (write j nsz ++ rest), sh, so, none⟩ : U σ α) hw (c := cNEGNODE) (by decide) rfl rfl
    have h5 := h4 ⟨st, cNEGNODE :: (write j nsz ++ rest), sh, so, none⟩ rfl rfl
    have h6 := read_write fin (⟨st, write j nsz ++ rest, sh, so, none⟩ : U σ α) h8 hj rfl rfl
    simp only at h3 h5 h6
    unfold undumpStep
    simp +decide [h1, h3, h5, h6, Nat.mod_eq_of_lt h2, hv]

theorem step_label (hw : Width n isz) (he : u.err = none) (hi : u.inp = write (code cLABEL) (isz + 1) ++ rest) {u' v}
    (hr : undumpStep A n isz nsz fin k { u with inp := rest, so := u.so + 1 } = some (u', some v))
    (hl : u.so < u'.sh.length) :
    undumpStep A n isz nsz fin (k + 1) u =
      some ({ u' with sh := u'.sh.set u.so (some v), st := A.share u'.st v }, some v) := by
  obtain ⟨st, inp, sh, so, err⟩ := u
  simp only at he hi hr hl
  subst he hi
  obtain ⟨m, h1, h2, h3, h4⟩ := read_code (n := n) fin (⟨st, write (code cLABEL) (isz + 1) ++ rest, sh, so, none⟩ : U σ α) hw (c := cLABEL) (by decide) rfl rfl
  have h5 := h4 ⟨st, cLABEL :: rest, sh, so, none⟩ rfl rfl
  simp only at h3 h5
  unfold undumpStep
  simp +decide [h1, h3, h5, Nat.mod_eq_of_lt h2, hr, hl]

theorem step_ite (hw : Width n isz) {i : Nat} (hn : i < n) (he : u.err = none) (hi : u.inp = write i isz ++ rest)
    {u1 a u2 b v s r}
    (h1 : undumpStep A n isz nsz fin k { u with inp := rest } = some (u1, some a))
    (h2 : undumpStep A n isz nsz fin k u1 = some (u2, some b)) (h3 : u2.err = none) (hv : A.var i = some v)
    (h4 : A.ite u2.st v a b = some (s, r)) :
    undumpStep A n isz nsz fin (k + 1) u = some ({ u2 with st := A.free (A.free s a) b }, some r) := by
  have hwl := hw.lt hn
  have h5 := read_write fin u hwl.1 hwl.2.1 he hi
  have hm : ∃ m, indexMask[isz - 1]? = some m ∧ i ≠ m := by
    rcases hw with ⟨rfl, hn⟩ | ⟨rfl, hn⟩
    · exact ⟨255, rfl, by omega⟩
    · exact ⟨65535, rfl, by omega⟩
  obtain ⟨m, hm1, hm2⟩ := hm
  unfold undumpStep
  simp [h5, he, hm1, Nat.mod_eq_of_lt hwl.2.2, hm2, Nat.not_le.2 hn]
  rw [he] at h1
  simp [h1, h2, h3, hv, h4]

end

/-! ## The round trip -/

/-- An assignment to the variables read stands for one to the variables written: the one at index `i`
gets the value of the `norm i`-th of `ys`. -/
def asg (o : Order) (norm : Nat → Nat) (ys : List Nat) (ρ : Asg) : Asg := fun v =>
  match ys[norm (o.lvl v)]? with
  | some y => ρ y
  | none => false

/-- The function read, from the function written. -/
def ren (o : Order) (norm : Nat → Nat) (ys : List Nat) (F : BFn) : BFn := fun ρ => F (asg o norm ys ρ)

/-- All variables of `F` have a number. -/
def Cov (o : Order) (norm : Nat → Nat) (n : Nat) (F : BFn) : Prop := ∀ v, ¬ Indep F v → norm (o.lvl v) < n

theorem Cov.kid {o : Order} {norm : Nat → Nat} {n : Nat} {F : BFn} (h : Cov o norm n F) (x : Nat) (b : Bool) :
    Cov o norm n (fun ρ => F (upd ρ x b)) := by
  intro v hv
  refine h v fun hi => hv fun ρ c => ?_
  by_cases hx : v = x
  · subst hx; simp only [upd_upd]
  · have : upd (upd ρ v c) x b = upd (upd ρ x b) v c := by
      funext y
      simp only [upd]
      by_cases h1 : y = x <;> by_cases h2 : y = v <;> simp_all
    simp only [this]
    exact hi _ _

theorem res_inj {M M' : Nat → Nat} {K K' : List Edge} {a b : Nat}
    (h : some (M, tab K 0, a) = some (M', tab K' 0, b)) : M' = M ∧ K' = K := by
  obtain ⟨h1, h2⟩ := Prod.mk.inj (Option.some.inj h)
  exact ⟨h1.symm, (tab_inj (Prod.mk.inj h2).1).symm⟩

section
variable {s : Store} (w : s.WF) (M0 : Nat → Nat) (norm : Nat → Nat) {ys : List Nat} {isz nsz : Nat}
  (hw : Width ys.length isz) (h8 : nsz ≤ 8) {Kf : List Edge} (hd : Distinct Kf)
  (hKf : ∀ (i : Nat) (x : Edge), Kf[i]? = some x → s.EOK x ∧ NT s x) (fin : Err)
include w hw h8 hd hKf

/-- Outcome of writing and reading `f`, when the nodes of the first `a` labels have been met before and
the nodes of the first `b` have been afterwards. -/
def Trip (s : Store) (norm : Nat → Nat) (ys : List Nat) (isz nsz : Nat) (Kf : List Edge) (fin : Err)
    (k : Nat) (f : Edge) (F : BFn) (a b : Nat) : Prop :=
  ∃ out, dumpStep s norm isz nsz k (tab Kf a) f = some (out, tab Kf b) ∧ 1 ≤ out.length ∧ (∀ c ∈ out, c < 256) ∧
    ∀ (k2 : Nat) (u : U Unit BFn) (rest : List Nat), Kf.length ≤ 256 ^ nsz → out.length ≤ k2 → u.err = none → u.inp = out ++ rest → u.so = a →
      u.sh.length = Kf.length →
      (∀ (i : Nat) (x : Edge) (G : BFn), i < a → Kf[i]? = some x → Rep s x G → s.ord.lvl f.id ≤ s.ord.lvl x.id →
        u.sh[i]? = some (some (ren s.ord norm ys G))) →
      ∃ u', undumpStep (fnAlg ys) ys.length isz nsz fin k2 u = some (u', some (ren s.ord norm ys F)) ∧ u'.err = none ∧
        u'.inp = rest ∧ u'.so = b ∧ u'.sh.length = Kf.length ∧ (∀ i, i < a → u'.sh[i]? = u.sh[i]?) ∧
        ∀ (i : Nat) (x : Edge) (G : BFn), a ≤ i → i < b → Kf[i]? = some x → Rep s x G →
          u'.sh[i]? = some (some (ren s.ord norm ys G))

theorem trip : ∀ (k : Nat) {f : Edge} {F : BFn} {M M' : Nat → Nat} {K K' : List Edge}, Rep s f F → 1 ≤ k →
    s.ord.numVars + 1 ≤ k + s.ord.lvl f.id → Cov s.ord norm ys.length F → (NT s f → M0 f.addr ≠ 0) →
    MarkClosed s M0 0 → NumClosed s M0 M (s.ord.lvl f.id) → (∀ x ∈ K, M x.addr = 0) →
    numberShared s k (M, tab K 0, K.length) f = some (M', tab K' 0, K'.length) → K' <+: Kf →
    (∀ (i : Nat) (x : Edge), K'.length ≤ i → Kf[i]? = some x → M' x.addr ≠ 0) →
    Trip s norm ys isz nsz Kf fin k f F K.length K'.length
  | 0, _, _, _, _, _, _, _, h, _, _, _, _, _, _, _, _, _ => by omega
  | k + 1, f, F, M, M', K, K', r, _, hk, cov, hm0, mc, nc, hK, hnum, pre, hrest => by
    have hcode : ∀ c, c < 8 → ∀ x ∈ write (code c) (isz + 1), x < 256 := fun c _ => write_lt _ _
    -- a terminal case: nothing happens to the table
    have leaf : ∀ out, K' = K → dumpStep s norm isz nsz (k + 1) (tab Kf K.length) f = some (out, tab Kf K.length) →
        1 ≤ out.length → (∀ c ∈ out, c < 256) →
        (∀ (k2 : Nat) (u : U Unit BFn) (rest : List Nat), u.err = none → u.inp = out ++ rest →
          undumpStep (fnAlg ys) ys.length isz nsz fin (k2 + 1) u = some ({ u with inp := rest }, some (ren s.ord norm ys F))) →
        Trip s norm ys isz nsz Kf fin (k + 1) f F K.length K'.length := by
      rintro out rfl h1 h2 h3 h4
      refine ⟨out, h1, h2, h3, fun k2 u rest g0 g1 g2 g3 g4 g5 g6 => ?_⟩
      obtain ⟨k2, rfl⟩ : ∃ j, k2 = j + 1 := ⟨k2 - 1, by omega⟩
      exact ⟨_, h4 k2 u rest g2 g3, g2, rfl, g4, g5, fun _ _ => rfl, fun i x G q1 q2 => by omega⟩
    have hy : ∀ v, norm (s.ord.lvl v) < ys.length → ∃ y, ys[norm (s.ord.lvl v)]? = some y ∧
        ∀ ρ, asg s.ord norm ys ρ v = ρ y := by
      intro v hv
      refine ⟨ys[norm (s.ord.lvl v)], List.getElem?_eq_getElem hv, fun ρ => ?_⟩
      simp only [asg, List.getElem?_eq_getElem hv]
    cases kind w r with
    | zero h hi hF =>
      unfold numberShared at hnum
      rw [if_pos (by simp [Edge.isConst, hi])] at hnum
      have hKK : K' = K := (res_inj hnum).2
      refine leaf (write (code cFALSE) (isz + 1)) hKK (by unfold dumpStep; simp only [h]) (by simp [write_len]) (write_lt _ _) ?_
      intro k2 u rest g1 g2
      rw [step_false (fnAlg ys) nsz fin k2 u hw g1 g2, hF]
      rfl
    | one h hi hF =>
      unfold numberShared at hnum
      rw [if_pos (by simp [Edge.isConst, hi])] at hnum
      have hKK : K' = K := (res_inj hnum).2
      refine leaf (write (code cTRUE) (isz + 1)) hKK (by unfold dumpStep; simp only [h]) (by simp [write_len]) (write_lt _ _) ?_
      intro k2 u rest g1 g2
      rw [step_true (fnAlg ys) nsz fin k2 u hw g1 g2, hF]
      rfl
    | pos h hi hF =>
      unfold numberShared at hnum
      rw [if_neg (by simp [Edge.isConst, hi])] at hnum
      simp only [h] at hnum
      have hKK : K' = K := (res_inj hnum).2
      refine leaf (write (code cPOSVAR) (isz + 1) ++ write (norm (s.ord.lvl f.id)) isz) hKK (by unfold dumpStep; simp only [h])
        (by simp [write_len]; omega) (fun c hc => ?_) ?_
      · rcases List.mem_append.1 hc with hc | hc <;> exact write_lt _ _ c hc
      intro k2 u rest g1 g2
      have hlt := cov _ (r.dep w hi)
      obtain ⟨y, hy1, hy2⟩ := hy f.id hlt
      rw [step_var (fnAlg ys) nsz fin k2 u (rest := rest) hw false (i := norm (s.ord.lvl f.id)) (v := fun ρ => ρ y) hlt
        (by simp only [fnAlg, hy1, Option.map_some]) g1 (by rw [g2, List.append_assoc]; rfl)]
      unfold ren
      simp only [Bool.false_eq_true, if_false, hF, hy2]
    | neg h hi hF =>
      unfold numberShared at hnum
      rw [if_neg (by simp [Edge.isConst, hi])] at hnum
      simp only [h] at hnum
      have hKK : K' = K := (res_inj hnum).2
      refine leaf (write (code cNEGVAR) (isz + 1) ++ write (norm (s.ord.lvl f.id)) isz) hKK (by unfold dumpStep; simp only [h])
        (by simp [write_len]; omega) (fun c hc => ?_) ?_
      · rcases List.mem_append.1 hc with hc | hc <;> exact write_lt _ _ c hc
      intro k2 u rest g1 g2
      have hlt := cov _ (r.dep w hi)
      obtain ⟨y, hy1, hy2⟩ := hy f.id hlt
      rw [step_var (fnAlg ys) nsz fin k2 u (rest := rest) hw true (i := norm (s.ord.lvl f.id)) (v := fun ρ => ρ y) hlt
        (by simp only [fnAlg, hy1, Option.map_some]) g1 (by rw [g2, List.append_assoc]; rfl)]
      unfold ren
      simp only [if_true, hF, hy2, fnAlg]
    | nt h hi =>
      obtain ⟨t, e, hk1, rt, re, l1, l2, -⟩ := r.kids w hi
      have hlt := r.eok.lvl_lt w hi
      have hmf := hm0 h
      have hfc := mc f t e r.eok h (Nat.zero_le _) hmf hk1
      have hv := cov _ (r.dep w hi)
      obtain ⟨y, hy1, hy2⟩ := hy f.id hv
      have hFk : (fun ρ => if ρ y then ren s.ord norm ys (fun ρ => F (upd ρ f.id true)) ρ else
          ren s.ord norm ys (fun ρ => F (upd ρ f.id false)) ρ) = ren s.ord norm ys F := by
        funext ρ
        simp only [ren]
        have : ∀ σ : Asg, F σ = F (upd σ f.id (σ f.id)) := by
          intro σ; congr 1; funext x; unfold upd; split
          · rename_i hx; rw [hx]
          · rfl
        rw [this (asg s.ord norm ys ρ), hy2]
        cases ρ y <;> rfl
      -- writing and reading the two cofactors
      have both : ∀ {a b c : Nat} {ft fe}, (hft : Trip s norm ys isz nsz Kf fin k t ft a b) →
          (hfe : Trip s norm ys isz nsz Kf fin k e fe b c) → a ≤ b → b ≤ c →
          ∃ o1 o2, dumpStep s norm isz nsz k (tab Kf a) t = some (o1, tab Kf b) ∧
            dumpStep s norm isz nsz k (tab Kf b) e = some (o2, tab Kf c) ∧ (∀ c ∈ o1 ++ o2, c < 256) ∧
            1 ≤ o1.length ∧ 1 ≤ o2.length ∧
            ∀ (k2 : Nat) (u : U Unit BFn) (rest : List Nat), Kf.length ≤ 256 ^ nsz → (o1 ++ o2).length ≤ k2 → u.err = none →
              u.inp = write (norm (s.ord.lvl f.id)) isz ++ (o1 ++ (o2 ++ rest)) → u.so = a →
              u.sh.length = Kf.length →
              (∀ (i : Nat) (x : Edge) (G : BFn), i < a → Kf[i]? = some x → Rep s x G → s.ord.lvl f.id < s.ord.lvl x.id →
                u.sh[i]? = some (some (ren s.ord norm ys G))) →
              ∃ u', undumpStep (fnAlg ys) ys.length isz nsz fin (k2 + 1) u =
                  some (u', some (fun ρ => if ρ y then ren s.ord norm ys ft ρ else ren s.ord norm ys fe ρ)) ∧ u'.err = none ∧
                u'.inp = rest ∧ u'.so = c ∧ u'.sh.length = Kf.length ∧ (∀ i, i < a → u'.sh[i]? = u.sh[i]?) ∧
                ∀ (i : Nat) (x : Edge) (G : BFn), a ≤ i → i < c → Kf[i]? = some x → Rep s x G →
                  u'.sh[i]? = some (some (ren s.ord norm ys G)) := by
        intro a b c ft fe hft hfe hab hbc
        obtain ⟨o1, d1, p1, b1, t1⟩ := hft
        obtain ⟨o2, d2, p2, b2, t2⟩ := hfe
        refine ⟨o1, o2, d1, d2, fun c hc => ?_, p1, p2, ?_⟩
        · rcases List.mem_append.1 hc with hc | hc
          · exact b1 c hc
          · exact b2 c hc
        intro k2 u rest g0 g1 g2 g3 g4 g5 g6
        rw [List.length_append] at g1
        obtain ⟨u1, r1, q1, q2, q3, q4, q5, q6⟩ := t1 k2 { u with inp := o1 ++ (o2 ++ rest) } (o2 ++ rest) g0 (by omega) g2 rfl g4 g5
          (fun i x G h1 h2 h3 h4 => g6 i x G h1 h2 h3 (by omega))
        obtain ⟨u2, r2, z1, z2, z3, z4, z5, z6⟩ := t2 k2 u1 rest g0 (by omega) q1 q2 q3 q4 (fun i x G h1 h2 h3 h4 => by
          by_cases hia : i < a
          · rw [q5 i hia]; exact g6 i x G hia h2 h3 (by omega)
          · exact q6 i x G (by omega) h1 h2 h3)
        refine ⟨_, step_ite (fnAlg ys) nsz fin k2 u hw hv g2 g3 r1 r2 z1 (v := fun ρ => ρ y) (by simp only [fnAlg, hy1, Option.map_some]) rfl,
          z1, z2, z3, z4, fun i hia => ?_, fun i x G h1 h2 h3 h4 => ?_⟩
        · show u2.sh[i]? = u.sh[i]?
          rw [z5 i (by omega), q5 i hia]
        · show u2.sh[i]? = _
          by_cases hib : i < b
          · rw [z5 i hib]; exact q6 i x G h1 hib h3 h4
          · exact z6 i x G (by omega) h2 h3 h4
      have h' : typeAux s f = some .nonterminal := h
      -- the key for the node, if there is one
      have key : ∀ {i : Nat} {x : Edge}, Kf[i]? = some x → x.addr = f.addr → x = f ∨ x = f.not := fun hx ha =>
        addr_eq w (hKf _ _ hx).1 r.eok ha
      have hne : ∀ g : Edge, g.not ≠ g := by intro g hg; have := congrArg Edge.neg hg; simp [Edge.not] at this
      have nokey : (∀ (i : Nat) (x : Edge), Kf[i]? = some x → x.addr ≠ f.addr) → ∀ a,
          lookup (tab Kf a) f = none ∧ lookup (tab Kf a) f.not = none := by
        intro hno a
        refine ⟨lookup_tab_none fun i x hx => ?_, lookup_tab_none fun i x hx => ?_⟩ <;>
        · have := hno i x hx
          simp [Edge.same, Edge.not, this]
      have rtc := cov.kid f.id true
      have rec' := cov.kid f.id false
      -- a node without a label is written in full
      have plain : ∀ {b}, (∀ (i : Nat) (x : Edge), Kf[i]? = some x → x.addr ≠ f.addr) →
          Trip s norm ys isz nsz Kf fin k t (fun ρ => F (upd ρ f.id true)) K.length b →
          Trip s norm ys isz nsz Kf fin k e (fun ρ => F (upd ρ f.id false)) b K'.length → K.length ≤ b → b ≤ K'.length →
          Trip s norm ys isz nsz Kf fin (k + 1) f F K.length K'.length := by
        intro b hno T1 T2 hab hbc
        obtain ⟨o1, o2, d1, d2, hby, p1, p2, rd⟩ := both T1 T2 hab hbc
        obtain ⟨n1, n2⟩ := nokey hno K.length
        refine ⟨write (norm (s.ord.lvl f.id)) isz ++ o1 ++ o2, ?_, ?_, ?_, ?_⟩
        · unfold dumpStep
          simp only [h', n1, n2, Option.isSome_none, Bool.false_eq_true, if_false, Option.filter_none, hk1, d1, d2, List.nil_append]
        · simp only [List.length_append]; omega
        · intro c hc
          rw [List.append_assoc] at hc
          rcases List.mem_append.1 hc with hc | hc
          · exact write_lt _ _ c hc
          · exact hby c hc
        · intro k2 u rest g0 g1 g2 g3 g4 g5 g6
          have hisz : 1 ≤ isz := by rcases hw with ⟨rfl, -⟩ | ⟨rfl, -⟩ <;> omega
          simp only [List.length_append, write_len] at g1
          obtain ⟨k2, rfl⟩ : ∃ j, k2 = j + 1 := ⟨k2 - 1, by omega⟩
          obtain ⟨u', q⟩ := rd k2 u rest g0 (by rw [List.length_append]; omega) g2 (by rw [g3]; simp only [List.append_assoc]) g4 g5
            (fun i x G h1 h2 h3 h4 => g6 i x G h1 h2 h3 (by omega))
          rw [hFk] at q
          exact ⟨u', q⟩
      by_cases hm : M f.addr = 0
      · -- met before
        have hnum' := hnum
        unfold numberShared at hnum'
        rw [if_neg (by simp [Edge.isConst, hi])] at hnum'
        simp only [h', if_pos hm] at hnum'
        have hMM : M' = M := (res_inj hnum').1
        have hKK : K' = K := (res_inj hnum').2
        subst hMM hKK
        by_cases hex : ∃ (i : Nat) (x : Edge), Kf[i]? = some x ∧ x.addr = f.addr
        · obtain ⟨i, x, hx, ha⟩ := hex
          have hiK : i < K'.length := by
            apply Classical.byContradiction
            intro hc
            exact hrest i x (by omega) hx (by rw [ha, hm])
          have hlk : lookup (tab Kf K'.length) x = some (-(i : Int) - 1) := by rw [lookup_tab hd hx, if_pos hiK]
          have hln : lookup (tab Kf K'.length) x.not = none := lookup_tab_none fun j z hz => by
            by_cases hza : z.addr = x.addr
            · have := hd j i z x hz hx hza
              subst this
              rw [hx] at hz; cases hz
              simp [Edge.same, Edge.not]
            · simp [Edge.same, Edge.not, hza]
          have hto : (-(-(i : Int) - 1) - 1).toNat = i := by omega
          have hilen : i < Kf.length := by
            have := (List.getElem?_eq_some_iff.1 hx).1; exact this
          refine ⟨write (code (if x = f then cPOSNODE else cNEGNODE)) (isz + 1) ++ write i nsz, ?_, ?_, ?_, ?_⟩
          · unfold dumpStep
            rcases key hx ha with rfl | rfl
            · simp only [h', hln, Option.isSome_none, Bool.false_eq_true, if_false, hlk]
              rw [Option.filter_some, if_pos (by simp; omega)]
              simp only [hto, if_true]
            · rw [not_not] at hln
              simp only [h', Option.isSome_some, if_true, hlk]
              rw [Option.filter_some, if_pos (by simp; omega)]
              simp only [hto, if_neg (hne f)]
          · simp only [List.length_append, write_len]; omega
          · intro c hc
            rcases List.mem_append.1 hc with hc | hc <;> exact write_lt _ _ c hc
          · intro k2 u rest g0 g1 g2 g3 g4 g5 g6
            simp only [List.length_append, write_len] at g1
            obtain ⟨k2, rfl⟩ : ∃ j, k2 = j + 1 := ⟨k2 - 1, by omega⟩
            obtain ⟨G, rx⟩ := w.rep_exists (hKf i x hx).1
            have hsh := g6 i x G hiK hx rx (by rw [lvl_addr w rx.eok r.eok ha]; exact Nat.le_refl _)
            have hst := step_node (fnAlg ys) nsz fin k2 u (rest := rest) hw (if x = f then false else true) h8 (by omega : i < 256 ^ nsz)
              hsh g2 (by rw [g3, List.append_assoc]; by_cases hxf : x = f <;> simp [hxf])
            have hval : (if (if x = f then false else true) = true then (fnAlg ys).not (ren s.ord norm ys G) else
                ren s.ord norm ys G) = ren s.ord norm ys F := by
              rcases key hx ha with rfl | rfl
              · simp only [if_true, Bool.false_eq_true, if_false]
                rw [rx.unique w r]
              · simp only [if_neg (hne f), if_true]
                have := rx.unique w r.not
                rw [this]
                funext ρ; simp [fnAlg, ren]
            rw [hval] at hst
            exact ⟨_, hst, g2, rfl, g4, g5, fun _ _ => rfl, fun i x G q1 q2 => by omega⟩
        · -- no label: it is written again
          have hno : ∀ (i : Nat) (x : Edge), Kf[i]? = some x → x.addr ≠ f.addr := fun i x hx ha => hex ⟨i, x, hx, ha⟩
          have hcl := nc f t e r.eok h (Nat.le_refl _) hmf hm hk1
          have same : ∀ {g : Edge} {G}, Rep s g G → (NT s g → M' g.addr = 0) →
              numberShared s k (M', tab K' 0, K'.length) g = some (M', tab K' 0, K'.length) := by
            intro g G rg hg
            obtain ⟨k, rfl⟩ : ∃ j, k = j + 1 := ⟨k - 1, by omega⟩
            unfold numberShared
            cases kind w rg with
            | zero _ hi _ => rw [if_pos (by simp [Edge.isConst, hi])]
            | one _ hi _ => rw [if_pos (by simp [Edge.isConst, hi])]
            | pos hh hi _ => rw [if_neg (by simp [Edge.isConst, hi])]; simp only [hh]
            | neg hh hi _ => rw [if_neg (by simp [Edge.isConst, hi])]; simp only [hh]
            | nt hh hi =>
              have hh' : typeAux s g = some .nonterminal := hh
              rw [if_neg (by simp [Edge.isConst, hi])]; simp only [hh', if_pos (hg hh)]
          have nct : ∀ l, s.ord.lvl f.id ≤ l → NumClosed s M0 M' l := fun l hl g t u q1 q2 q3 => nc g t u q1 q2 (by omega)
          exact plain hno (trip k rt (by omega) (by omega) rtc hfc.1 mc (nct _ (by omega)) hK (same rt hcl.1) pre hrest)
            (trip k re (by omega) (by omega) rec' hfc.2 mc (nct _ (by omega)) hK (same re hcl.2) pre hrest)
            (Nat.le_refl _) (Nat.le_refl _)
      · -- met for the first time
        have hnum' := hnum
        unfold numberShared at hnum'
        rw [if_neg (by simp [Edge.isConst, hi])] at hnum'
        simp only [h', if_neg hm, hk1] at hnum'
        obtain ⟨lab, hp1, hp2⟩ : ∃ lab : List Edge, (if M f.addr = 2 then ((f, ((K.length : Nat) : Int)) :: tab K 0, K.length + 1)
            else (tab K 0, K.length)) = (tab (K ++ lab) 0, (K ++ lab).length) ∧ (lab = [] ∨ lab = [f]) := by
          by_cases h2 : M f.addr = 2
          · exact ⟨[f], by rw [if_pos h2, tab_snoc]; simp, .inr rfl⟩
          · exact ⟨[], by rw [if_neg h2]; simp, .inl rfl⟩
        simp only [hp1] at hnum'
        obtain ⟨M2, n2, e2, s2⟩ := numberShared_ok w M0 k (upd M f.addr 0) (K ++ lab) rt (by omega) (by omega)
        obtain ⟨M3, n3, e3, s3⟩ := numberShared_ok w M0 k M2 (K ++ lab ++ n2) re (by omega) (by omega)
        simp only [e2, e3] at hnum'
        have hMM : M' = M3 := (res_inj hnum').1
        have hKK : K' = K ++ lab ++ n2 ++ n3 := (res_inj hnum').2
        have z2 : ∀ a, M2 a = 0 → M3 a = 0 := fun a h => by
          rcases s3.mono a with h3 | h3
          · rw [h3, h]
          · exact h3
        have z1 : ∀ a, upd M f.addr 0 a = 0 → M2 a = 0 := fun a h => by
          rcases s2.mono a with h3 | h3
          · rw [h3, h]
          · exact h3
        have z0 : ∀ a, M a = 0 → upd M f.addr 0 a = 0 := fun a h => by
          by_cases hh : a = f.addr
          · subst hh; simp
          · rwa [upd_ne _ _ hh]
        have hf0 : upd M f.addr 0 f.addr = 0 := by simp
        have hKl : ∀ x ∈ K ++ lab, upd M f.addr 0 x.addr = 0 := by
          intro x hx
          rcases List.mem_append.1 hx with hx | hx
          · exact z0 _ (hK x hx)
          · rcases hp2 with rfl | rfl
            · cases hx
            · rw [List.mem_singleton] at hx; subst hx; exact hf0
        have hKl2 : ∀ x ∈ K ++ lab ++ n2, M2 x.addr = 0 := by
          intro x hx
          rcases List.mem_append.1 hx with hx | hx
          · exact z1 _ (hKl x hx)
          · exact (s2.fresh x hx).2.1
        have pre3 : K ++ lab ++ n2 ++ n3 <+: Kf := hKK ▸ pre
        have pre2 : K ++ lab ++ n2 <+: Kf := (List.prefix_append _ _).trans pre3
        have pre1 : K ++ lab <+: Kf := (List.prefix_append _ _).trans pre2
        have rest3 : ∀ (i : Nat) (x : Edge), (K ++ lab ++ n2 ++ n3).length ≤ i → Kf[i]? = some x → M3 x.addr ≠ 0 := by
          rw [← hKK, ← hMM]; exact hrest
        have rest2 : ∀ (i : Nat) (x : Edge), (K ++ lab ++ n2).length ≤ i → Kf[i]? = some x → M2 x.addr ≠ 0 := by
          intro i x hi hx
          by_cases hlt : i < (K ++ lab ++ n2 ++ n3).length
          · obtain ⟨tl, htl⟩ := pre3
            have : (K ++ lab ++ n2 ++ n3)[i]? = some x := by
              rw [← hx, ← htl, List.getElem?_append_left hlt]
            rw [List.getElem?_append_right hi] at this
            exact (s3.fresh x (List.mem_of_getElem? this)).1
          · intro h0
            exact rest3 i x (by omega) hx (z2 _ h0)
        have c1 : ∀ l, s.ord.lvl f.id < l → NumClosed s M0 (upd M f.addr 0) l := by
          intro l hl g t u hg hn hl' h0 hm hkk
          have : g.addr ≠ f.addr := fun h => by rw [lvl_addr w hg r.eok h] at hl'; omega
          rw [upd_ne _ _ this] at hm
          obtain ⟨c1, c2⟩ := nc g t u hg hn (by omega) h0 hm hkk
          exact ⟨fun h => z0 _ (c1 h), fun h => z0 _ (c2 h)⟩
        have c2 : NumClosed s M0 M2 (s.ord.lvl e.id) := by
          have := s2.closed (s.ord.lvl f.id + 1) (by omega) (c1 _ (by omega))
          intro g t u q1 q2 q3
          exact this g t u q1 q2 (by omega)
        have T1 := trip k rt (by omega) (by omega) rtc hfc.1 mc (c1 _ l1) hKl e2 pre2 rest2
        have T2 := trip k re (by omega) (by omega) rec' hfc.2 mc c2 hKl2 e3 pre3 rest3
        rw [← hKK] at T2
        rcases hp2 with rfl | rfl
        · -- no label
          simp only [List.append_nil] at T1 T2 hKK pre3 rest3
          refine plain (fun i x hx ha => ?_) T1 T2 (by simp) (by rw [hKK]; simp)
          by_cases hlt : i < (K ++ n2 ++ n3).length
          · obtain ⟨tl, htl⟩ := pre3
            have hg : (K ++ n2 ++ n3)[i]? = some x := by
              rw [← hx, ← htl, List.getElem?_append_left hlt]
            have hmem := List.mem_of_getElem? hg
            rw [List.mem_append, List.mem_append] at hmem
            rcases hmem with (hmem | hmem) | hmem
            · exact hm (ha ▸ hK x hmem)
            · exact (s2.fresh x hmem).1 (by rw [ha, hf0])
            · exact (s3.fresh x hmem).1 (by rw [ha]; exact z1 _ hf0)
          · exact rest3 i x (by omega) hx (by rw [ha]; exact z2 _ (z1 _ hf0))
        · -- a label
          have hkf : Kf[K.length]? = some f := by
            obtain ⟨tl, htl⟩ := pre1
            rw [← htl, List.append_assoc, List.getElem?_append_right (Nat.le_refl _)]
            simp
          have hflen : K.length < Kf.length := (List.getElem?_eq_some_iff.1 hkf).1
          have hlk : lookup (tab Kf K.length) f = some (K.length : Int) := by
            rw [lookup_tab hd hkf, if_neg (Nat.lt_irrefl _)]
          have hln : lookup (tab Kf K.length) f.not = none := lookup_tab_none fun j z hz => by
            by_cases hza : z.addr = f.addr
            · have := hd j _ z f hz hkf hza
              subst this
              rw [hkf] at hz; cases hz
              simp [Edge.same, Edge.not]
            · simp [Edge.same, Edge.not, hza]
          have hl1 : (K ++ [f]).length = K.length + 1 := by simp
          rw [hl1] at T1
          have hlab : K.length + 1 ≤ (K ++ [f] ++ n2).length := by simp
          have hlab' : (K ++ [f] ++ n2).length ≤ K'.length := by rw [hKK]; simp
          obtain ⟨o1, o2, d1, d2, hby, p1, p2, rd⟩ := both T1 T2 hlab hlab'
          refine ⟨write (code cLABEL) (isz + 1) ++ write (norm (s.ord.lvl f.id)) isz ++ o1 ++ o2, ?_, ?_, ?_, ?_⟩
          · unfold dumpStep
            simp only [h', hln, hlk, Option.isSome_none, Bool.false_eq_true, if_false, Option.isSome_some, if_true]
            rw [Option.filter_some, if_neg (by simp)]
            simp only [flip_tab hd hkf, hk1, d1, d2]
          · simp only [List.length_append]; omega
          · intro c hc
            rw [List.append_assoc] at hc
            rcases List.mem_append.1 hc with hc | hc
            · rcases List.mem_append.1 hc with hc | hc <;> exact write_lt _ _ c hc
            · exact hby c hc
          · intro k2 u rest g0 g1 g2 g3 g4 g5 g6
            simp only [List.length_append, write_len] at g1
            have hisz : 1 ≤ isz := by rcases hw with ⟨rfl, -⟩ | ⟨rfl, -⟩ <;> omega
            obtain ⟨k2, rfl⟩ : ∃ j, k2 = j + 1 + 1 := ⟨k2 - 2, by omega⟩
            obtain ⟨u', q0, q1, q2, q3, q4, q5, q6⟩ := rd k2 { u with inp := write (norm (s.ord.lvl f.id)) isz ++ (o1 ++ (o2 ++ rest)), so := u.so + 1 }
              rest g0 (by rw [List.length_append]; omega) g2 rfl (by show u.so + 1 = _; rw [g4]) g5
              (fun i x G h1 h2 h3 h4 => by
                by_cases hiK : i = K.length
                · subst hiK
                  rw [hkf] at h2; cases h2; omega
                · exact g6 i x G (by omega) h2 h3 (by omega))
            rw [hFk] at q0
            have hst := step_label (fnAlg ys) nsz fin (k2 + 1) u hw g2 (rest := write (norm (s.ord.lvl f.id)) isz ++ (o1 ++ (o2 ++ rest)))
              (by rw [g3]; simp only [List.append_assoc]) q0 (by rw [q4, g4]; exact hflen)
            refine ⟨_, hst, q1, q2, q3, by simp only [List.length_set]; exact q4, fun i hi => ?_, fun i x G h1 h2 h3 h4 => ?_⟩
            · simp only [g4]
              rw [List.getElem?_set_ne (by omega)]
              exact q5 i (by omega)
            · simp only [g4]
              by_cases hiK : i = K.length
              · subst hiK
                rw [hkf] at h3; cases h3
                rw [List.getElem?_set_self (by rw [q4]; exact hflen), h4.unique w r]
              · rw [List.getElem?_set_ne (by omega)]
                exact q6 i x G (by omega) h2 h3 h4

end
end Cal.Dump
