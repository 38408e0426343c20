import Verif.LedgerOk
/-!
# No manager frees a block twice, and quitting frees them all
-/

namespace Cal.Ledger

/-- the pointers of a manager -/
def Mgr.own (s : Mgr) : Res := fun q =>
  one s.self q + one s.varBdds q + one s.nmArr q + one s.utArr q + one s.indexToId q
    + one s.idToIndex q + one s.reqQue q + one s.reqLists q + s.pm1.own q + s.pm2.own q
    + sum Nm.own s.nms q + sum Two.own s.uts q + sum rowOwn s.rows q + s.cache.own q + s.temp.own q
    + sum As.own s.assocs q + s.root.own q + sum one s.user q + sum one s.lost q

/-- The pages of id `i` lie in segments of `O i`; there is one node manager, unique table and request
table for each id. -/
structure Mgr.OkWith (s : Mgr) (O : Nat → List Nat) : Prop where
  pm1 : s.pm1.Ok
  pm2 : s.pm2.Ok
  nms : ∀ (i : Nat) (v : Nm), s.nms[i]? = some v → v.Ok (O i)
  ln : s.nms.length = s.numVars + 1
  lu : s.uts.length = s.numVars + 1
  lr : s.rows.length = s.maxDepth
  lrs : ∀ r ∈ s.rows, r.2.length = s.numVars + 1
  root : s.root.Ok

def Mgr.segsOf (s : Mgr) : Nat → List Nat := fun i => if i = 0 then s.pm1.segs else s.pm2.segs

abbrev Mgr.Ok (s : Mgr) : Prop := s.OkWith s.segsOf

theorem nms_set {xs : List Nm} {O O' : Nat → List Nat} {k : Nat} {w : Nm}
    (h : ∀ (i : Nat) (v : Nm), xs[i]? = some v → v.Ok (O i)) (le : ∀ i, i ≠ k → ∀ a ∈ O i, a ∈ O' i) (hw : w.Ok (O' k)) :
    ∀ (i : Nat) (v : Nm), (xs.set k w)[i]? = some v → v.Ok (O' i) := by
  intro i v e
  rw [List.getElem?_set] at e
  split at e
  next hk =>
    subst hk
    split at e
    next => cases e; exact hw
    next => cases e
  next hk => exact (h i v e).mono (le i fun h => hk h.symm)

/-- at most `k` more blocks are lost -/
structure Mgr.Step (k : Nat) (s t : Mgr) : Prop where
  ok : t.Ok
  num : t.numVars = s.numVars
  lost : t.lost.length ≤ s.lost.length + k

theorem Mgr.Step.refl {s : Mgr} (h : s.Ok) : s.Step 0 s := ⟨h, rfl, Nat.le_refl _⟩

theorem Mgr.Step.trans {s t u : Mgr} {j k : Nat} (a : s.Step j t) (b : t.Step k u) : s.Step (j + k) u :=
  ⟨b.ok, b.num.trans a.num, by have := a.lost; have := b.lost; omega⟩

theorem Mgr.page_ok {s : Mgr} (n : Nat) {id : Nat} (h : s.Ok) (hi : id ≤ s.numVars) :
    Does (s.page n id) s.own (s.Step 0) Mgr.own := by
  unfold Mgr.page
  refine Does.call (entry_ok (by rw [h.ln]; omega)) (fun _ => Nat.zero_le _) fun v e => ?_
  have hv := h.nms id v e
  split
  next h0 =>
    have hv : v.Ok s.pm1.segs := by simpa [Mgr.segsOf, h0] using hv
    refine Does.call (Nm.page_ok n hv h.pm1) (fun q => ?_) ?_
    · have := sum_le Nm.own q _ _ _ e
      simp only [Mgr.own]
      omega
    · rintro ⟨w, p⟩ ⟨hw, hp, le⟩
      refine Does.ret ⟨⟨hp, h.pm2, ?_, by simpa using h.ln, h.lu, h.lr, h.lrs, h.root⟩, rfl, Nat.le_refl _⟩
        fun q => ?_
      · refine nms_set h.nms (fun i hi => ?_) ?_
        · simp only [Mgr.segsOf]
          split
          next => exact le
          next => exact fun _ m => m
        · simpa [Mgr.segsOf, h0] using hw
      · have := sum_le Nm.own q _ _ _ e
        have := sum_set Nm.own w v q _ _ e
        simp only [Mgr.own]
        omega
  next h0 =>
    have hv : v.Ok s.pm2.segs := by simpa [Mgr.segsOf, h0] using hv
    refine Does.call (Nm.page_ok n hv h.pm2) (fun q => ?_) ?_
    · have := sum_le Nm.own q _ _ _ e
      simp only [Mgr.own]
      omega
    · rintro ⟨w, p⟩ ⟨hw, hp, le⟩
      refine Does.ret ⟨⟨h.pm1, hp, ?_, by simpa using h.ln, h.lu, h.lr, h.lrs, h.root⟩, rfl, Nat.le_refl _⟩
        fun q => ?_
      · refine nms_set h.nms (fun i hi => ?_) ?_
        · simp only [Mgr.segsOf]
          split
          next => exact fun _ m => m
          next => exact le
        · simpa [Mgr.segsOf, h0] using hw
      · have := sum_le Nm.own q _ _ _ e
        have := sum_set Nm.own w v q _ _ e
        simp only [Mgr.own]
        omega

theorem Mgr.init_ok (n1 n2 : Nat) :
    Does (Mgr.init n1 n2) (fun _ => 0) (fun s => s.Ok ∧ s.lost = []) Mgr.own := by
  unfold Mgr.init
  refine Does.call malloc_ok (fun _ => Nat.zero_le _) fun self _ => ?_
  refine Does.call malloc_ok (fun _ => Nat.zero_le _) fun varBdds _ => ?_
  refine Does.call (Pm.init_ok n1) (fun _ => Nat.zero_le _) fun pm1 h1 => ?_
  refine Does.call (Pm.init_ok n2) (fun _ => Nat.zero_le _) fun pm2 h2 => ?_
  refine Does.call malloc_ok (fun _ => Nat.zero_le _) fun nmArr _ => ?_
  refine Does.call Nm.init_ok (fun _ => Nat.zero_le _) fun nm hn => ?_
  refine Does.call malloc_ok (fun _ => Nat.zero_le _) fun utArr _ => ?_
  refine Does.call Two.init_ok (fun _ => Nat.zero_le _) fun ut _ => ?_
  refine Does.call (Nm.page_ok n1 (hn _) h1) (fun q => by omega) ?_
  rintro ⟨nm', pm1'⟩ ⟨hn', h1', -⟩
  refine Does.call malloc_ok (fun _ => Nat.zero_le _) fun indexToId _ => ?_
  refine Does.call malloc_ok (fun _ => Nat.zero_le _) fun idToIndex _ => ?_
  refine Does.call malloc_ok (fun _ => Nat.zero_le _) fun reqQue _ => ?_
  refine Does.call Two.init_ok (fun _ => Nat.zero_le _) fun cache _ => ?_
  refine Does.call (newRows_ok 1 6) (fun _ => Nat.zero_le _) ?_
  rintro rows ⟨l, ls⟩
  refine Does.call malloc_ok (fun _ => Nat.zero_le _) fun reqLists _ => ?_
  refine Does.call Two.init_ok (fun _ => Nat.zero_le _) fun temp _ => ?_
  refine Does.call malloc_ok (fun _ => Nat.zero_le _) fun b _ => ?_
  refine Does.ret ⟨⟨h1', h2, ?_, rfl, rfl, l, ls, .mk (fun _ => rfl) (by simp)⟩, rfl⟩ fun q => ?_
  · intro i v e
    match i, e with
    | 0, e =>
      simp at e
      subst e
      exact hn'
  · simp only [Mgr.own, sum_cons, sum_nil, Blk.own_mk, one_zero]
    omega

theorem quitNms_ok : ∀ (vs : List Nm) (ts : List Two) (p : Pm), p.Ok → (∀ v ∈ vs, v.Ok p.segs) →
    vs.length = ts.length →
    Does (quitNms p vs ts vs.length) (fun q => p.own q + sum Nm.own vs q + sum Two.own ts q)
      (fun r => r.Ok) Pm.own
  | [], [], p, h, _, _ => Does.ret h fun q => by simp only [sum_nil]; omega
  | v :: vs, t :: ts, p, h, hv, l => by
    refine Does.call t.quit_ok (fun q => by simp only [sum_cons]; omega) fun _ _ => ?_
    refine Does.call (Nm.quit_ok (hv v (by simp)) h) (fun q => by simp only [sum_cons]; omega) ?_
    rintro r ⟨hr, es⟩
    exact (quitNms_ok vs ts r hr (fun w m => es ▸ hv w (by simp [m])) (by simpa using l)).weaken
      (fun q => by simp only [sum_cons]; omega) (fun _ h => h) (fun _ _ _ => rfl)

theorem Mgr.quit_ok {s : Mgr} (h : s.Ok) :
    Does s.quit s.own (fun _ => True) (fun _ q => sum one s.user q + sum one s.lost q) := by
  unfold Mgr.quit
  rw [← h.lr]
  refine Does.use (fun q => by simp only [Mgr.own]; omega) ?_
  refine Does.call (quitRows_ok s.rows h.lrs) (fun q => by simp only [Mgr.own]; omega) fun _ _ => ?_
  have ln := h.ln
  have lu := h.lu
  split
  next v vs t ts en eu =>
    have own : ∀ q, s.own q = one s.self q + one s.varBdds q + one s.nmArr q + one s.utArr q
        + one s.indexToId q + one s.idToIndex q + one s.reqQue q + one s.reqLists q + s.pm1.own q
        + s.pm2.own q + (v.own q + sum Nm.own vs q) + (t.own q + sum Two.own ts q)
        + sum rowOwn s.rows q + s.cache.own q + (one s.temp.self q + one s.temp.data q)
        + sum As.own s.assocs q + s.root.own q + sum one s.user q + sum one s.lost q := fun q => by
      simp only [Mgr.own, en, eu, sum_cons, Two.own]
    have hv : v.Ok s.pm1.segs := by simpa [Mgr.segsOf] using h.nms 0 v (by simp [en])
    have hvs : ∀ w ∈ vs, w.Ok s.pm2.segs := by
      intro w m
      obtain ⟨i, hi, e⟩ := List.getElem_of_mem m
      have := h.nms (i + 1) w (by simp [en, List.getElem?_eq_getElem hi, e])
      simpa [Mgr.segsOf] using this
    have l1 : vs.length = s.numVars := by simpa [en] using ln
    have l2 : vs.length = ts.length := by
      have : ts.length = s.numVars := by simpa [eu] using lu
      omega
    refine Does.use (fun q => by simp only [own]; omega) ?_
    refine Does.use (fun q => by simp only [own]; omega) ?_
    refine Does.call t.quit_ok (fun q => by simp only [own]; omega) fun _ _ => ?_
    refine Does.call (Nm.quit_ok hv h.pm1) (fun q => by simp only [own]; omega) ?_
    rintro pm1 ⟨h1, -⟩
    rw [← l1]
    refine Does.call (quitNms_ok vs ts s.pm2 h.pm2 hvs l2) (fun q => by simp only [own]; omega) fun pm2 h2 => ?_
    refine Does.res (P' := fun q => (one s.self q + one s.varBdds q + one s.nmArr q + one s.utArr q
        + one s.indexToId q + one s.idToIndex q + one s.reqQue q + one s.reqLists q + pm1.own q
        + pm2.own q + sum one s.user q + sum one s.lost q) + (s.cache.own q + one s.temp.self q
        + one s.temp.data q + sum As.own s.assocs q + s.root.own q)) (fun q => by simp only [own]; omega) ?_
    refine Does.call s.cache.quit_ok (fun q => by omega) fun _ _ => ?_
    refine Does.use (fun q => by omega) ?_
    refine Does.call (free_ok _) (fun q => by omega) fun _ _ => ?_
    refine Does.call (free_ok _) (fun q => by omega) fun _ _ => ?_
    refine Does.call s.root.quit_ok (fun q => by omega) fun _ _ => ?_
    refine Does.call (quitAssocs_ok s.assocs) (fun q => by omega) fun _ _ => ?_
    refine Does.res (P' := fun q => (one s.self q + pm1.own q + pm2.own q + sum one s.user q
        + sum one s.lost q) + (one s.varBdds q + one s.nmArr q + one s.utArr q
        + one s.indexToId q + one s.idToIndex q + one s.reqQue q + one s.reqLists q)) (fun q => by omega) ?_
    refine Does.call (free_ok _) (fun q => by omega) fun _ _ => ?_
    refine Does.call (free_ok _) (fun q => by omega) fun _ _ => ?_
    refine Does.call (free_ok _) (fun q => by omega) fun _ _ => ?_
    refine Does.call (free_ok _) (fun q => by omega) fun _ _ => ?_
    refine Does.call (free_ok _) (fun q => by omega) fun _ _ => ?_
    refine Does.call (free_ok _) (fun q => by omega) fun _ _ => ?_
    refine Does.call (free_ok _) (fun q => by omega) fun _ _ => ?_
    refine Does.res (P' := fun q => one s.self q + pm1.own q + pm2.own q + sum one s.user q
        + sum one s.lost q) (fun q => by omega) ?_
    refine Does.call (Pm.quit_ok h1) (fun q => by omega) fun _ _ => ?_
    refine Does.use (fun q => by omega) ?_
    refine Does.call (Pm.quit_ok h2) (fun q => by omega) fun _ _ => ?_
    exact (free_ok _).tail (fun q => by omega) (fun _ h => h) (fun _ _ q => by omega)
  next no =>
    exfalso
    match en : s.nms, eu : s.uts, no with
    | [], _, _ => simp [en] at ln
    | _ :: _, [], _ => simp [eu] at lu
    | v :: vs, t :: ts, no => exact no v vs t ts rfl rfl

/-! ## Calls without operations on BDDs -/

theorem lens_of_map {qs rs : List (Nat × List Two)} {n : Nat}
    (e : qs.map (·.2.length) = rs.map (·.2.length)) (h : ∀ r ∈ rs, r.2.length = n) :
    qs.length = rs.length ∧ ∀ r ∈ qs, r.2.length = n := by
  refine ⟨by simpa using congrArg List.length e, fun r m => ?_⟩
  have : r.2.length ∈ rs.map (·.2.length) := e ▸ List.mem_map.2 ⟨r, m, rfl⟩
  obtain ⟨x, mx, ex⟩ := List.mem_map.1 this
  exact ex.symm.trans (h x mx)

theorem lens_of_map' {qs rs : List (Nat × List Two)} {n : Nat}
    (e : qs.map (·.2.length) = rs.map (·.2.length + 1)) (h : ∀ r ∈ rs, r.2.length = n) :
    qs.length = rs.length ∧ ∀ r ∈ qs, r.2.length = n + 1 := by
  refine ⟨by simpa using congrArg List.length e, fun r m => ?_⟩
  have : r.2.length ∈ rs.map (·.2.length + 1) := e ▸ List.mem_map.2 ⟨r, m, rfl⟩
  obtain ⟨x, mx, ex⟩ := List.mem_map.1 this
  have := h x mx
  omega

theorem Mgr.grow_ok {s : Mgr} (h : s.Ok) : Does s.grow s.own (s.Step 0) Mgr.own := by
  unfold Mgr.grow
  rw [← h.lr]
  refine Does.res (P' := fun q => (one s.self q + one s.reqQue q + one s.reqLists q + s.pm1.own q
      + s.pm2.own q + sum Nm.own s.nms q + sum Two.own s.uts q + sum rowOwn s.rows q + s.cache.own q
      + s.temp.own q + sum As.own s.assocs q + s.root.own q + sum one s.user q + sum one s.lost q)
      + (one s.varBdds q + one s.nmArr q + one s.utArr q + one s.indexToId q + one s.idToIndex q))
    (fun q => by simp only [Mgr.own]; omega) ?_
  refine Does.call (realloc_ok _) (fun q => by omega) fun varBdds _ => ?_
  refine Does.call (realloc_ok _) (fun q => by omega) fun nmArr _ => ?_
  refine Does.call (realloc_ok _) (fun q => by omega) fun idToIndex _ => ?_
  refine Does.call (realloc_ok _) (fun q => by omega) fun indexToId _ => ?_
  refine Does.call (realloc_ok _) (fun q => by omega) fun utArr _ => ?_
  refine Does.res (P' := fun q => (one s.self q + one s.reqQue q + one s.reqLists q + s.pm1.own q
      + s.pm2.own q + sum Nm.own s.nms q + sum Two.own s.uts q + s.cache.own q
      + one s.temp.self q + s.root.own q + sum one s.user q + sum one s.lost q
      + one varBdds q + one nmArr q + one utArr q + one indexToId q + one idToIndex q)
      + (sum rowOwn s.rows q + one s.temp.data q + sum As.own s.assocs q))
    (fun q => by simp only [Two.own]; omega) ?_
  refine Does.use (fun q => by omega) ?_
  refine Does.call (growRows_ok s.rows) (fun q => by omega) fun rows e => ?_
  refine Does.call (realloc_ok _) (fun q => by omega) fun va _ => ?_
  refine Does.call (growAssocs_ok s.assocs) (fun q => by omega) fun as _ => ?_
  obtain ⟨l, ls⟩ := lens_of_map e h.lrs
  refine Does.ret ⟨⟨h.pm1, h.pm2, h.nms, h.ln, h.lu, l, ls, h.root⟩, rfl, Nat.le_refl _⟩
    fun q => ?_
  simp only [Mgr.own, Two.own]
  omega

theorem Mgr.room_ok {s : Mgr} (h : s.Ok) : Does s.room s.own (s.Step 0) Mgr.own := by
  unfold Mgr.room
  split
  next => exact Mgr.grow_ok h
  next => exact Does.ret (.refl h) fun _ => rfl

/-- at most `k` more blocks are lost in a call, which may make variables -/
structure Mgr.Goes (k : Nat) (s t : Mgr) : Prop where
  ok : t.Ok
  lost : t.lost.length ≤ s.lost.length + k

theorem Mgr.Step.goes {s t : Mgr} {k : Nat} (h : s.Step k t) : s.Goes k t := ⟨h.ok, h.lost⟩

theorem Mgr.addVar_ok {s : Mgr} (n : Nat) (block : Option (List Nat × Nat)) (h : s.Ok) :
    Does (s.addVar n block) s.own (s.Goes 0) Mgr.own := by
  unfold Mgr.addVar
  rw [← h.lr]
  refine Does.call Nm.init_ok (fun _ => Nat.zero_le _) fun v hv => ?_
  refine Does.call Two.init_ok (fun _ => Nat.zero_le _) fun t _ => ?_
  refine Does.call (Nm.page_ok n (hv _) h.pm2) (fun q => by simp only [Mgr.own]; omega) ?_
  rintro ⟨w, p⟩ ⟨hw, hp, le⟩
  refine Does.use (fun q => by simp only [Mgr.own]; omega) ?_
  refine Does.use (fun q => by simp only [Mgr.own]; omega) ?_
  refine Does.use (fun q => by simp only [Mgr.own]; omega) ?_
  refine Does.use (fun q => by simp only [Mgr.own]; omega) ?_
  refine Does.use (fun q => by simp only [Mgr.own]; omega) ?_
  refine Does.use (fun q => by simp only [Mgr.own]; omega) ?_
  refine Does.call (addTables_ok s.rows) (fun q => by simp only [Mgr.own]; omega) fun rows e => ?_
  refine Does.call (Blk.maybeShift_ok block h.root) (fun q => by simp only [Mgr.own]; omega) fun root hr => ?_
  obtain ⟨l, ls⟩ := lens_of_map' e h.lrs
  refine Does.ret ⟨⟨h.pm1, hp, ?_, ?_, ?_, l, ls, hr⟩, Nat.le_refl _⟩ fun q => ?_
  · intro i x e
    rw [List.getElem?_append] at e
    split at e
    next hi =>
      refine (h.nms i x e).mono ?_
      simp only [Mgr.segsOf]
      split
      next => exact fun _ m => m
      next => exact le
    next hi =>
      have h1 := List.mem_of_getElem? e
      rw [List.mem_singleton] at h1
      have : i ≠ 0 := by
        have := h.ln
        omega
      subst h1
      simpa [Mgr.segsOf, this] using hw
  · simp [h.ln]
  · simp [h.lu]
  · simp only [Mgr.own, sum_append, sum_cons, sum_nil]
    omega

theorem Mgr.newVar_ok {s : Mgr} (n : Nat) (block : Option (List Nat × Nat)) (h : s.Ok) :
    Does (s.newVar n block) s.own (s.Goes 0) Mgr.own := by
  unfold Mgr.newVar
  split
  next => exact Does.ret ⟨h, Nat.le_refl _⟩ fun _ => rfl
  next =>
    refine Does.call (Mgr.room_ok h) (fun _ => Nat.le_refl _) fun t ht => ?_
    exact (Mgr.addVar_ok n block ht.ok).weaken (fun q => by omega)
      (fun u hu => ⟨hu.ok, by have := hu.lost; have := ht.lost; omega⟩) (fun _ _ _ => rfl)

theorem Mgr.setDepth_ok {s : Mgr} (d : Nat) (h : s.Ok) :
    Does (s.setDepth d) s.own (s.Step 0) Mgr.own := by
  unfold Mgr.setDepth
  split
  next hd =>
    refine Does.call (realloc_ok _) (fun q => by simp only [Mgr.own]; omega) fun _ _ => ?_
    refine Does.use (fun q => by omega) ?_
    refine Does.call (newRows_ok (s.numVars + 1) (d - s.maxDepth)) (fun _ => Nat.zero_le _) ?_
    rintro rs ⟨l, ls⟩
    refine Does.ret ⟨⟨h.pm1, h.pm2, h.nms, h.ln, h.lu, ?_, ?_, h.root⟩, rfl, Nat.le_refl _⟩
      fun q => by simp only [Mgr.own, sum_append]; omega
    · have := h.lr
      simp only [List.length_append]
      omega
    · intro r m
      rcases List.mem_append.1 m with m | m
      · exact h.lrs r m
      · exact ls r m
  next => exact Does.ret (.refl h) fun _ => rfl

theorem Mgr.assocInit_ok {s : Mgr} (found : Bool) (i : Nat) (h : s.Ok) :
    Does (s.assocInit found i) s.own (s.Step 0) Mgr.own := by
  unfold Mgr.assocInit
  refine Does.call malloc_ok (fun _ => Nat.zero_le _) fun info _ => ?_
  refine Does.call malloc_ok (fun _ => Nat.zero_le _) fun va _ => ?_
  split
  next =>
    split
    next =>
      refine Does.call (free_ok _) (fun q => by omega) fun _ _ => ?_
      refine Does.call (free_ok _) (fun q => by omega) fun _ _ => ?_
      exact Does.ret (.refl h) fun q => by omega
    next a e =>
      refine Does.call (free_ok _) (fun q => by omega) fun _ _ => ?_
      refine Does.call (free_ok _) (fun q => by omega) fun _ _ => ?_
      refine Does.ret ⟨⟨h.pm1, h.pm2, h.nms, h.ln, h.lu, h.lr, h.lrs, h.root⟩, rfl, Nat.le_refl _⟩ fun q => ?_
      have := sum_set As.own { a with refs := a.refs + 1 } a q _ _ e
      simp only [Mgr.own, As.own] at this ⊢
      omega
  next =>
    refine Does.call malloc_ok (fun _ => Nat.zero_le _) fun self _ => ?_
    refine Does.call (free_ok _) (fun q => by omega) fun _ _ => ?_
    refine Does.ret ⟨⟨h.pm1, h.pm2, h.nms, h.ln, h.lu, h.lr, h.lrs, h.root⟩, rfl, Nat.le_refl _⟩ fun q => ?_
    have := sum_take_drop As.own i s.assocs q
    simp only [Mgr.own, sum_append, sum_cons, As.own] at this ⊢
    omega

theorem Mgr.assocQuit_ok {s : Mgr} (i : Nat) (h : s.Ok) :
    Does (s.assocQuit i) s.own (s.Step 0) Mgr.own := by
  unfold Mgr.assocQuit
  split
  next => exact Does.ret (.refl h) fun _ => rfl
  next a e =>
    split
    next =>
      refine Does.use (fun q => ?_) ?_
      · have := sum_le As.own q _ _ _ e
        simp only [Mgr.own, As.own] at this ⊢
        omega
      refine Does.call (free_ok _) (fun q => ?_) fun _ _ => ?_
      · have := sum_le As.own q _ _ _ e
        simp only [Mgr.own, As.own] at this ⊢
        omega
      refine Does.call (free_ok _) (fun q => ?_) fun _ _ => ?_
      · have := sum_le As.own q _ _ _ e
        simp only [Mgr.own, As.own] at this ⊢
        omega
      refine Does.ret ⟨⟨h.pm1, h.pm2, h.nms, h.ln, h.lu, h.lr, h.lrs, h.root⟩, rfl, Nat.le_refl _⟩ fun q => ?_
      have := sum_le As.own q _ _ _ e
      have := sum_eraseIdx As.own a q _ _ e
      simp only [Mgr.own, As.own] at *
      omega
    next =>
      refine Does.ret ⟨⟨h.pm1, h.pm2, h.nms, h.ln, h.lu, h.lr, h.lrs, h.root⟩, rfl, Nat.le_refl _⟩ fun q => ?_
      have := sum_set As.own { a with refs := a.refs - 1 } a q _ _ e
      simp only [Mgr.own, As.own] at this ⊢
      omega

theorem Mgr.newBlock_ok {s : Mgr} (path : List Nat) (i n : Nat) (h : s.Ok) :
    Does (s.newBlock path i n) s.own (s.Step 0) Mgr.own := by
  unfold Mgr.newBlock
  refine Does.call malloc_ok (fun _ => Nat.zero_le _) fun b _ => ?_
  refine Does.call (Blk.add_ok b path i n s.root h.root) (fun q => by simp only [Mgr.own]; omega) fun root hr => ?_
  exact Does.ret ⟨⟨h.pm1, h.pm2, h.nms, h.ln, h.lu, h.lr, h.lrs, hr⟩, rfl, Nat.le_refl _⟩
    fun q => by simp only [Mgr.own]; omega

end Cal.Ledger
