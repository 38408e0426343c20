import Verif.LedgerMgr
/-!
# Operations, reordering and whole programs in the ledger
-/

namespace Cal.Ledger

theorem Mgr.onReq_ok {s : Mgr} {f : Two → M Two} (hf : ∀ t, Does (f t) t.own (fun _ => True) Two.own)
    {d id : Nat} (h : s.Ok) (hd : d < s.maxDepth) (hi : id ≤ s.numVars) :
    Does (s.onReq f d id) s.own (s.Step 0) Mgr.own := by
  unfold Mgr.onReq
  refine Does.call (entry_ok (by rw [h.lr]; exact hd)) (fun _ => Nat.zero_le _) fun r er => ?_
  have lr := h.lrs r (List.mem_of_getElem? er)
  refine Does.call (entry_ok (by omega)) (fun _ => Nat.zero_le _) fun t et => ?_
  refine Does.call (hf t) (fun q => ?_) fun u _ => ?_
  · have := sum_le rowOwn q _ _ _ er
    have := sum_le Two.own q _ _ _ et
    simp only [Mgr.own, rowOwn] at *
    omega
  · refine Does.ret ⟨⟨h.pm1, h.pm2, h.nms, h.ln, h.lu, by simpa using h.lr, ?_, h.root⟩, rfl, Nat.le_refl _⟩
      fun q => ?_
    · intro x m
      rcases List.mem_or_eq_of_mem_set m with m | m
      · exact h.lrs x m
      · subst m
        simpa using lr
    · have := sum_le rowOwn q _ _ _ er
      have := sum_le Two.own q _ _ _ et
      have := sum_set rowOwn (r.1, r.2.set id u) r q _ _ er
      have := sum_set Two.own u t q _ _ et
      simp only [Mgr.own, rowOwn] at *
      omega

theorem Small.run_ok {s : Mgr} (h : s.Ok) : ∀ x : Small, Does (x.run s) s.own (s.Step 0) Mgr.own
  | .page n id => by
    simp only [Small.run]
    split
    next hi => exact Mgr.page_ok n h hi
    next => exact Does.ret (.refl h) fun _ => rfl
  | .rehash id => by
    simp only [Small.run]
    split
    next hi =>
      refine Does.call (entry_ok (by rw [h.lu]; omega)) (fun _ => Nat.zero_le _) fun t e => ?_
      refine Does.call t.rehash_ok (fun q => ?_) fun u _ => ?_
      · have := sum_le Two.own q _ _ _ e
        simp only [Mgr.own]
        omega
      · refine Does.ret ⟨⟨h.pm1, h.pm2, h.nms, h.ln, by simpa using h.lu, h.lr, h.lrs, h.root⟩, rfl,
          Nat.le_refl _⟩ fun q => ?_
        have := sum_le Two.own q _ _ _ e
        have := sum_set Two.own u t q _ _ e
        simp only [Mgr.own]
        omega
    next => exact Does.ret (.refl h) fun _ => rfl
  | .rehashReq d id => by
    simp only [Small.run]
    split
    next hi => exact Mgr.onReq_ok Two.rehash_ok h hi.1 hi.2
    next => exact Does.ret (.refl h) fun _ => rfl
  | .resetReq d id => by
    simp only [Small.run]
    split
    next hi => exact Mgr.onReq_ok Two.reset_ok h hi.1 hi.2
    next => exact Does.ret (.refl h) fun _ => rfl
  | .cache => by
    simp only [Small.run]
    refine Does.call s.cache.rehash_ok (fun q => by simp only [Mgr.own]; omega) fun t _ => ?_
    exact Does.ret ⟨⟨h.pm1, h.pm2, h.nms, h.ln, h.lu, h.lr, h.lrs, h.root⟩, rfl, Nat.le_refl _⟩
      fun q => by simp only [Mgr.own]; omega

/-- Copying the nodes of an id makes it independent of the old pages, the old bins and the old list
of pages. -/
theorem Mgr.copyNodes_ok {s : Mgr} {O : Nat → List Nat} (n : Nat) {id : Nat} (req k : Nat)
    (h : s.OkWith O) {v : Nm} {t : Two} (ev : s.nms[id]? = some v) (et : s.uts[id]? = some t)
    (E : Res) (hm : ∀ a ∈ v.pages, 1 ≤ s.pm2.own a + E a) (hd : ∀ q, one t.data q ≤ E q) :
    Does (s.copyNodes n id req k) (fun q => s.own q - one v.pageList q - one t.data q + E q)
      (fun u => u.OkWith (fun i => if i = id then u.pm2.segs else O i) ∧ s.pm2.Le u.pm2 ∧
        u.pm1 = s.pm1 ∧ u.numVars = s.numVars ∧ u.lost = s.lost)
      (fun u q => u.own q + E q) := by
  have le1 := fun q => sum_le Nm.own q _ _ _ ev
  have le2 := fun q => sum_le Two.own q _ _ _ et
  have hv := h.nms id v ev
  unfold Mgr.copyNodes
  refine Does.call (entry_ok (List.getElem?_eq_some_iff.1 ev).1) (fun _ => Nat.zero_le _) fun v' e => ?_
  have : v' = v := by rw [ev] at e; exact (Option.some.inj e).symm
  subst this
  refine Does.call (entry_ok (List.getElem?_eq_some_iff.1 et).1) (fun _ => Nat.zero_le _) fun t' e' => ?_
  have : t' = t := by rw [et] at e'; exact (Option.some.inj e').symm
  subst this
  refine Does.call malloc_ok (fun _ => Nat.zero_le _) fun pl _ => ?_
  refine Does.call malloc_ok (fun _ => Nat.zero_le _) fun data _ => ?_
  refine Does.use (fun q => by have := hd q; omega) ?_
  rw [hv.num]
  refine Does.call (eachTouch_ok v'.pages fun a m => ?_) (fun _ => Nat.le_refl _) fun _ _ => ?_
  · have := hm a m
    have := le1 a
    have := le2 a
    simp only [Mgr.own, Nm.own, Two.own] at *
    omega
  refine Does.call (Nm.morePages_ok n k _ s.pm2 ?_ h.pm2) (fun q => ?_) ?_
  · refine ⟨rfl, Nat.zero_le _, ?_, by simp⟩
    dsimp only
    split <;> omega
  · have := le1 q
    have := le2 q
    simp only [Mgr.own, Nm.own, Two.own] at *
    omega
  · rintro ⟨w, p⟩ ⟨hw, hp, le⟩
    refine Does.ret ⟨⟨h.pm1, hp, ?_, by simpa using h.ln, by simpa using h.lu, h.lr, h.lrs, h.root⟩, le,
      rfl, rfl, rfl⟩ fun q => ?_
    · refine nms_set h.nms (fun i hi a m => ?_) ?_
      · simpa [hi] using m
      · simpa using hw
    · have := le1 q
      have := le2 q
      have := sum_set Nm.own w v' q _ _ ev
      have := sum_set Two.own { t' with data := data } t' q _ _ et
      simp only [Mgr.own, Nm.own, Two.own] at *
      omega

theorem mem_of_own {p : Pm} {a : Nat} (h : p.Ok) (m : a ∈ p.segs) : 1 ≤ p.own a := by
  have := sum_mem m (h.nz a m)
  simp only [Pm.own]
  omega

theorem Mgr.OkWith.toOk {s u : Mgr} {id : Nat} (h0 : id ≠ 0) (le : s.pm2.Le u.pm2) (e : u.pm1 = s.pm1)
    (h : u.OkWith (fun i => if i = id then u.pm2.segs else s.segsOf i)) : u.Ok :=
  ⟨h.pm1, h.pm2, fun i v ev => (h.nms i v ev).mono (by
    simp only [Mgr.segsOf]
    by_cases hi : i = id
    · subst hi
      simp [h0]
    · by_cases hz : i = 0
      · subst hz
        simp [hi, e]
      · simp only [hi, hz, if_false]
        exact le), h.ln, h.lu, h.lr, h.lrs, h.root⟩

theorem Mgr.segs_eq {u : Mgr} {p : Pm} (h : u.Ok) (hp : p.Ok) (e : p.segs = u.pm2.segs) :
    ({ u with pm2 := p } : Mgr).Ok :=
  ⟨h.pm1, hp, fun i v ev => by
    have := h.nms i v ev
    simp only [Mgr.segsOf, e] at this ⊢
    exact this, h.ln, h.lu, h.lr, h.lrs, h.root⟩

theorem Mgr.pack_ok {s : Mgr} (n : Nat) {id : Nat} (req k : Nat) (h : s.Ok) (h0 : 0 < id)
    (hi : id ≤ s.numVars) : Does (s.pack n id req k) s.own (s.Step 0) Mgr.own := by
  unfold Mgr.pack
  refine Does.call (entry_ok (by rw [h.ln]; omega)) (fun _ => Nat.zero_le _) fun v ev => ?_
  refine Does.call (entry_ok (by rw [h.lu]; omega)) (fun _ => Nat.zero_le _) fun t et => ?_
  have le1 := fun q => sum_le Nm.own q _ _ _ ev
  have le2 := fun q => sum_le Two.own q _ _ _ et
  have hne : id ≠ 0 := by omega
  have hv : v.Ok s.pm2.segs := by simpa [Mgr.segsOf, hne] using h.nms id v ev
  have own : ∀ q, one v.pageList q + one t.data q ≤ s.own q := fun q => by
    have := le1 q
    have := le2 q
    simp only [Mgr.own, Nm.own, Two.own] at *
    omega
  refine Does.call (Mgr.copyNodes_ok n req k h ev et (one t.data) (fun a m =>
    Nat.le_trans (mem_of_own h.pm2 (hv.mem a m)) (Nat.le_add_right _ _)) fun _ => Nat.le_refl _)
    (fun q => by have := own q; omega) ?_
  rintro u ⟨hu, le, e1, en, el⟩
  have hu := hu.toOk hne le e1
  refine Does.res (P' := fun q => u.own q + one v.pageList q + one t.data q)
    (fun q => by have := own q; omega) ?_
  refine Does.call (free_ok _) (fun q => by omega) fun _ _ => ?_
  refine Does.use (fun q => by omega) ?_
  rw [hv.num]
  refine Does.call (giveBack_ok u.pm2 v.pages hu.pm2 fun a m => le a (hv.mem a m))
    (fun q => by simp only [Mgr.own]; omega) ?_
  rintro p ⟨hp, ep⟩
  refine Does.call (free_ok _) (fun q => by simp only [Mgr.own]; omega) fun _ _ => ?_
  exact Does.ret ⟨Mgr.segs_eq hu hp ep, en, by rw [el]; exact Nat.le_refl _⟩
    fun q => by simp only [Mgr.own]; omega

theorem Mgr.packOne_ok {s : Mgr} (n : Nat) {id : Nat} (req k : Nat) (h : s.Ok) (h0 : 0 < id)
    (hi : id ≤ s.numVars) : Does (s.packOne n id req k) s.own (s.Step 1) Mgr.own := by
  unfold Mgr.packOne
  refine Does.call (entry_ok (by rw [h.ln]; omega)) (fun _ => Nat.zero_le _) fun v ev => ?_
  refine Does.call (entry_ok (by rw [h.lu]; omega)) (fun _ => Nat.zero_le _) fun t et => ?_
  split
  next =>
    have le1 := fun q => sum_le Nm.own q _ _ _ ev
    have le2 := fun q => sum_le Two.own q _ _ _ et
    have hne : id ≠ 0 := by omega
    have hv : v.Ok s.pm2.segs := by simpa [Mgr.segsOf, hne] using h.nms id v ev
    have own : ∀ q, one v.pageList q + one t.data q ≤ s.own q := fun q => by
      have := le1 q
      have := le2 q
      simp only [Mgr.own, Nm.own, Two.own] at *
      omega
    refine Does.call (Mgr.copyNodes_ok n req k h ev et (one t.data) (fun a m =>
      Nat.le_trans (mem_of_own h.pm2 (hv.mem a m)) (Nat.le_add_right _ _)) fun _ => Nat.le_refl _)
      (fun q => by have := own q; omega) ?_
    rintro u ⟨hu, le, e1, en, el⟩
    have hu := hu.toOk hne le e1
    refine Does.res (P' := fun q => u.own q + one v.pageList q + one t.data q)
      (fun q => by have := own q; omega) ?_
    refine Does.use (fun q => by omega) ?_
    rw [hv.num]
    refine Does.call (giveBack_ok u.pm2 v.pages hu.pm2 fun a m => le a (hv.mem a m))
      (fun q => by simp only [Mgr.own]; omega) ?_
    rintro p ⟨hp, ep⟩
    refine Does.call (free_ok _) (fun q => by simp only [Mgr.own]; omega) fun _ _ => ?_
    have hp' := Mgr.segs_eq hu hp ep
    refine Does.ret ⟨⟨hp'.pm1, hp'.pm2, hp'.nms, hp'.ln, hp'.lu, hp'.lr, hp'.lrs, hp'.root⟩, en, ?_⟩ fun q => ?_
    · simp [el]
    · simp only [Mgr.own, sum_cons]
      omega
  next => exact Does.ret ⟨h, rfl, Nat.le_succ _⟩ fun q => by omega

theorem Mgr.packMany_ok (n : Nat) : ∀ (ls : List (Nat × Nat × Nat)) (s : Mgr), s.Ok →
    Does (s.packMany n ls) s.own (s.Step ls.length) Mgr.own
  | [], s, h => Does.ret (.refl h) fun _ => rfl
  | (id, req, k) :: ls, s, h => by
    unfold Mgr.packMany
    split
    next hi =>
      refine Does.call (Mgr.packOne_ok n req k h hi.1 hi.2) (fun _ => Nat.le_refl _) fun t ht => ?_
      exact (Mgr.packMany_ok n ls t ht.ok).weaken (fun q => by omega)
        (fun u hu => by have := ht.trans hu; rwa [Nat.add_comm] at this) (fun _ _ _ => rfl)
    next =>
      exact (Mgr.packMany_ok n ls s h).weaken (fun _ => rfl)
        (fun u hu => ⟨hu.ok, hu.num, by have := hu.lost; simp only [List.length_cons]; omega⟩)
        (fun _ _ _ => rfl)

theorem Mgr.gcPack_ok {s : Mgr} (bins : Bool) {id : Nat} (keep : Nat) (h : s.Ok) (h0 : 0 < id)
    (hi : id ≤ s.numVars) : Does (s.gcPack bins id keep) s.own (s.Step 0) Mgr.own := by
  unfold Mgr.gcPack
  refine Does.call (entry_ok (by rw [h.ln]; omega)) (fun _ => Nat.zero_le _) fun v ev => ?_
  refine Does.call (entry_ok (by rw [h.lu]; omega)) (fun _ => Nat.zero_le _) fun t et => ?_
  have le1 := fun q => sum_le Nm.own q _ _ _ ev
  have le2 := fun q => sum_le Two.own q _ _ _ et
  have hne : id ≠ 0 := by omega
  have hv : v.Ok s.pm2.segs := by simpa [Mgr.segsOf, hne] using h.nms id v ev
  refine Does.call (Two.maybeReset_ok bins t) (fun q => ?_) fun u _ => ?_
  · have := le2 q
    simp only [Mgr.own]
    omega
  refine Does.use (fun q => by simp only [Two.own]; omega) ?_
  refine Does.use (fun q => ?_) ?_
  · have := le1 q
    have := le2 q
    simp only [Mgr.own, Nm.own] at *
    omega
  have len : v.num - keep = (v.pages.drop keep).length := by simp [hv.num]
  rw [len]
  refine Does.call (giveBack_ok s.pm2 _ h.pm2 fun a m => hv.mem a (List.mem_of_mem_drop m)) (fun q => ?_) ?_
  · have := le2 q
    simp only [Mgr.own]
    omega
  rintro p ⟨hp, ep⟩
  refine Does.ret ⟨⟨h.pm1, hp, ?_, by simpa using h.ln, by simpa using h.lu, h.lr, h.lrs, h.root⟩, rfl,
    Nat.le_refl _⟩ fun q => ?_
  · refine nms_set h.nms (fun i hi a m => ?_) ?_
    · simpa [Mgr.segsOf, ep] using m
    · simp only [Mgr.segsOf, hne, if_false, ep]
      refine ⟨?_, ?_, hv.pos, fun a m => hv.mem a (List.mem_of_mem_take m)⟩
      · simp [hv.num, Nat.min_comm]
      · have := hv.le
        dsimp only
        omega
  · have := le1 q
    have := le2 q
    have := sum_set Nm.own { v with num := min v.num keep, pages := v.pages.take keep } v q _ _ ev
    have := sum_set Two.own u t q _ _ et
    simp only [Mgr.own, Nm.own] at *
    omega

/-- how many levels `CalBddPackNodesForMultipleIds` is called for -/
def Mid.packs : Mid → Nat
  | .packMany _ ls => ls.length
  | _ => 0

theorem Mid.run_ok {s : Mgr} (h : s.Ok) : ∀ x : Mid, Does (x.run s) s.own (s.Step x.packs) Mgr.own
  | .small x => Small.run_ok h x
  | .pack n id req k => by
    simp only [Mid.run]
    split
    next hi => exact Mgr.pack_ok n req k h hi.1 hi.2
    next => exact Does.ret (.refl h) fun _ => rfl
  | .packMany n ls => by
    simp only [Mid.run]
    refine Does.call malloc_ok (fun _ => Nat.zero_le _) fun a _ => ?_
    refine Does.call malloc_ok (fun _ => Nat.zero_le _) fun b _ => ?_
    refine Does.call (Mgr.packMany_ok n ls s h) (fun q => by omega) fun t ht => ?_
    refine Does.call (free_ok _) (fun q => by omega) fun _ _ => ?_
    refine Does.call (free_ok _) (fun q => by omega) fun _ _ => ?_
    exact Does.ret ht fun q => by omega
  | .gcPack bins id keep => by
    simp only [Mid.run]
    split
    next hi => exact Mgr.gcPack_ok bins keep h hi.1 hi.2
    next => exact Does.ret (.refl h) fun _ => rfl

def Mid.packss : List Mid → Nat
  | [] => 0
  | x :: xs => x.packs + Mid.packss xs

theorem Mid.runs_ok : ∀ (xs : List Mid) (s : Mgr), s.Ok →
    Does (Mid.runs s xs) s.own (s.Step (Mid.packss xs)) Mgr.own
  | [], s, h => Does.ret (.refl h) fun _ => rfl
  | x :: xs, s, h => by
    refine Does.call (Mid.run_ok h x) (fun _ => Nat.le_refl _) fun t ht => ?_
    exact (Mid.runs_ok xs t ht.ok).weaken (fun q => by omega) (fun u hu => ht.trans hu) (fun _ _ _ => rfl)

theorem interact_ok : Does interact (fun _ => 0) (fun a => a ≠ 0) one := by
  unfold interact
  refine Does.call malloc_ok (fun _ => Nat.zero_le _) fun a ha => ?_
  refine Does.call malloc_ok (fun _ => Nat.zero_le _) fun b _ => ?_
  refine Does.call (free_ok _) (fun q => by omega) fun _ _ => ?_
  exact Does.ret ha fun q => by omega

theorem Mgr.reorderBF_ok {s : Mgr} (xs : List Mid) (h : s.Ok) :
    Does (s.reorderBF xs) s.own (s.Step (Mid.packss xs)) Mgr.own := by
  unfold Mgr.reorderBF
  refine Does.call interact_ok (fun _ => Nat.zero_le _) fun m _ => ?_
  refine Does.call malloc_ok (fun _ => Nat.zero_le _) fun a _ => ?_
  refine Does.call (Mid.runs_ok xs s h) (fun q => by omega) fun t ht => ?_
  refine Does.call (free_ok _) (fun q => by omega) fun _ _ => ?_
  refine Does.call (free_ok _) (fun q => by omega) fun _ _ => ?_
  exact Does.ret ht fun q => by omega

theorem Small.rehash_ok {s : Mgr} (h : s.Ok) (id : Nat) :
    Does (Small.run s (.rehash id)) s.own (fun t => s.Step 0 t ∧ t.pm2 = s.pm2) Mgr.own := by
  simp only [Small.run]
  split
  next hi =>
    refine Does.call (entry_ok (by rw [h.lu]; omega)) (fun _ => Nat.zero_le _) fun t e => ?_
    refine Does.call t.rehash_ok (fun q => ?_) fun u _ => ?_
    · have := sum_le Two.own q _ _ _ e
      simp only [Mgr.own]
      omega
    · refine Does.ret ⟨⟨⟨h.pm1, h.pm2, h.nms, h.ln, by simpa using h.lu, h.lr, h.lrs, h.root⟩, rfl,
        Nat.le_refl _⟩, rfl⟩ fun q => ?_
      have := sum_le Two.own q _ _ _ e
      have := sum_set Two.own u t q _ _ e
      simp only [Mgr.own]
      omega
  next => exact Does.ret ⟨.refl h, rfl⟩ fun _ => rfl

theorem DfStep.runs_ok : ∀ (xs : List DfStep) (v : Nm) (s : Mgr), s.Ok → v.Ok s.pm2.segs →
    Does (DfStep.runs v s xs) (fun q => v.own q + s.own q) (fun r => s.Step 0 r.2)
      (fun r q => r.1.own q + r.2.own q)
  | [], v, s, h, hv => Does.ret (.refl h) fun _ => rfl
  | .page n :: xs, v, s, h, hv => by
    refine Does.call (Nm.page_ok n hv h.pm2) (fun q => by simp only [Mgr.own]; omega) ?_
    rintro ⟨w, p⟩ ⟨hw, hp, le⟩
    have hs : ({ s with pm2 := p } : Mgr).Ok :=
      ⟨h.pm1, hp, fun i v ev => (h.nms i v ev).mono (by
        simp only [Mgr.segsOf]
        split
        next => exact fun _ m => m
        next => exact le), h.ln, h.lu, h.lr, h.lrs, h.root⟩
    exact (DfStep.runs_ok xs w { s with pm2 := p } hs hw).weaken
      (fun q => by simp only [Mgr.own]; omega)
      (fun r hr => ⟨hr.ok, hr.num, hr.lost⟩) (fun _ _ _ => rfl)
  | .rehash id :: xs, v, s, h, hv => by
    refine Does.call (Small.rehash_ok h id) (fun q => by omega) ?_
    rintro t ⟨ht, e⟩
    exact (DfStep.runs_ok xs v t ht.ok (by rw [e]; exact hv)).weaken (fun q => by omega)
      (fun r hr => ht.trans hr) (fun _ _ _ => rfl)

/-- while the nodes are copied: the ids still to come have their pages in the old segments -/
def Mgr.segsIn (s : Mgr) (old ids : List Nat) : Nat → List Nat := fun i =>
  if i = 0 then s.pm1.segs else if i ∈ ids then old else s.pm2.segs

theorem Mgr.reallocIds_ok (n : Nat) (need : Nat → Nat × Nat) {old : List Nat} (nz : ∀ a ∈ old, a ≠ 0) :
    ∀ (ids : List Nat) (s : Mgr), ids.Nodup → (∀ i ∈ ids, 0 < i ∧ i ≤ s.numVars) →
      s.OkWith (s.segsIn old ids) →
      Does (Mgr.reallocIds n need ids s) (fun q => s.own q + sum one old q)
        (fun u => u.Ok ∧ u.numVars = s.numVars ∧ u.lost = s.lost) (fun u q => u.own q + sum one old q)
  | [], s, _, _, h => Does.ret ⟨by
      have e : s.segsIn old [] = s.segsOf := by
        funext i
        simp [Mgr.segsIn, Mgr.segsOf]
      rwa [e] at h, rfl, rfl⟩ fun _ => rfl
  | id :: ids, s, nd, hi, h => by
    obtain ⟨h0, hn⟩ := hi id (by simp)
    unfold Mgr.reallocIds
    refine Does.call (entry_ok (by rw [h.ln]; omega)) (fun _ => Nat.zero_le _) fun v ev => ?_
    refine Does.call (entry_ok (by rw [h.lu]; omega)) (fun _ => Nat.zero_le _) fun t et => ?_
    have hne : id ≠ 0 := by omega
    have hv : v.Ok old := by simpa [Mgr.segsIn, hne] using h.nms id v ev
    have own : ∀ q, one v.pageList q + one t.data q ≤ s.own q := fun q => by
      have := sum_le Nm.own q _ _ _ ev
      have := sum_le Two.own q _ _ _ et
      simp only [Mgr.own, Nm.own, Two.own] at *
      omega
    refine Does.call (free_ok _) (fun q => by have := own q; omega) fun _ _ => ?_
    refine Does.call (Mgr.copyNodes_ok n _ _ h ev et (fun q => sum one old q + one t.data q) (fun a m => by
      have := sum_mem (hv.mem a m) (nz a (hv.mem a m))
      omega) fun _ => Nat.le_add_left _ _)
      (fun q => by have := own q; omega) ?_
    rintro u ⟨hu, le, e1, en, el⟩
    refine Does.res (P' := fun q => u.own q + sum one old q + one t.data q)
      (fun q => by have := own q; omega) ?_
    refine Does.call (free_ok _) (fun q => by omega) fun _ _ => ?_
    have nd' := List.nodup_cons.1 nd
    have hu' : u.OkWith (u.segsIn old ids) :=
      ⟨hu.pm1, hu.pm2, fun i w ew => (hu.nms i w ew).mono (by
        simp only [Mgr.segsIn]
        by_cases hi : i = id
        · subst hi
          simp [hne, nd'.1]
        · by_cases hz : i = 0
          · subst hz
            simp [hi, e1]
          · by_cases hm : i ∈ ids
            · simp [hi, hz, hm]
            · simp only [hi, hz, hm, if_false, List.mem_cons, or_self]
              exact le), hu.ln, hu.lu, hu.lr, hu.lrs, hu.root⟩
    exact (Mgr.reallocIds_ok n need nz ids u nd'.2 (fun i m => by
      rw [en]; exact hi i (by simp [m])) hu').weaken (fun q => by omega)
      (fun w hw => ⟨hw.1, hw.2.1.trans en, hw.2.2.trans el⟩) (fun _ _ _ => rfl)

theorem Mgr.reallocate_ok {s : Mgr} (n : Nat) (need : Nat → Nat × Nat) {ids : List Nat} (h : s.Ok)
    (p : ids.Perm ((List.range s.numVars).map (· + 1))) :
    Does (s.reallocate n need ids) s.own (s.Step 0) Mgr.own := by
  have nd : ids.Nodup := p.nodup_iff.2 (List.pairwise_map.2
    (List.nodup_range.imp fun h e => h (Nat.add_right_cancel e)))
  have hi : ∀ i ∈ ids, 0 < i ∧ i ≤ s.numVars := fun i m => by
    have := p.mem_iff.1 m
    simp at this
    omega
  unfold Mgr.reallocate
  refine Does.call malloc_ok (fun _ => Nat.zero_le _) fun segArr _ => ?_
  refine Does.call (Mgr.reallocIds_ok n need h.pm2.nz ids
    { s with pm2 := { s.pm2 with segArr, num := 0, max := 32, segs := [], free := [] } } nd hi ?_)
    (fun q => by simp only [Mgr.own, Pm.own, sum_nil]; omega) ?_
  · refine ⟨h.pm1, ⟨rfl, by simp, by simp, by simp, by simp⟩, fun i v ev => (h.nms i v ev).mono ?_, h.ln,
      h.lu, h.lr, h.lrs, h.root⟩
    have : i < s.numVars + 1 := by
      rw [← h.ln]
      exact (List.getElem?_eq_some_iff.1 ev).1
    simp only [Mgr.segsOf, Mgr.segsIn]
    by_cases hz : i = 0
    · simp [hz]
    · have : i ∈ ids := p.mem_iff.2 (by simp; exact ⟨i - 1, by omega, by omega⟩)
      simp [hz, this]
  · rintro u ⟨hu, en, el⟩
    refine Does.res (P' := fun q => u.own q + sum one s.pm2.segs q + one s.pm2.segArr q)
      (fun q => by simp only [Mgr.own, Pm.own, sum_nil]; omega) ?_
    rw [h.pm2.num]
    refine Does.use (fun q => by omega) ?_
    refine Does.call (each_ok free_ok s.pm2.segs) (fun q => by omega) fun _ _ => ?_
    refine Does.call (free_ok _) (fun q => by omega) fun _ _ => ?_
    exact Does.ret ⟨hu, en, by rw [el]; exact Nat.le_refl _⟩ fun q => by omega

theorem Mgr.reorderDF_ok {s : Mgr} (xs : List DfStep) (n : Nat) (need : Nat → Nat × Nat) {ids : List Nat}
    (h : s.Ok) (p : ids.Perm ((List.range s.numVars).map (· + 1))) :
    Does (s.reorderDF xs n need ids) s.own (s.Step 0) Mgr.own := by
  unfold Mgr.reorderDF
  refine Does.call interact_ok (fun _ => Nat.zero_le _) fun m _ => ?_
  refine Does.call Nm.init_ok (fun _ => Nat.zero_le _) fun v hv => ?_
  refine Does.call malloc_ok (fun _ => Nat.zero_le _) fun a _ => ?_
  refine Does.call (DfStep.runs_ok xs v s h (hv _)) (fun q => by omega) fun r hr => ?_
  refine Does.call (free_ok _) (fun q => by omega) fun _ _ => ?_
  refine Does.call (Mgr.reallocate_ok n need hr.ok (by rw [hr.num]; exact p)) (fun q => by omega)
    fun u hu => ?_
  refine Does.res (P' := fun q => r.1.own q + u.own q + one m q) (fun q => by omega) ?_
  simp only [Nm.quit, giveBack]
  refine Does.call (P := r.1.own) (Φ := fun x => x = u.pm2) (Q := fun _ _ => 0) ?_ (fun q => by omega) ?_
  · refine Does.use (fun q => by simp only [Nm.own]; omega) ?_
    refine Does.call (Does.ret (P := fun _ => 0) (Φ := fun x => x = u.pm2) (Q := fun _ _ => 0) rfl fun _ => rfl)
      (fun _ => Nat.zero_le _) fun x e => ?_
    refine Does.use (fun q => by simp only [Nm.own]; omega) ?_
    refine Does.call (free_ok _) (fun q => by simp only [Nm.own]; omega) fun _ _ => ?_
    refine Does.call (free_ok _) (fun q => by simp only [Nm.own]; omega) fun _ _ => ?_
    exact Does.ret e fun q => by simp only [Nm.own]; omega
  · intro x e
    subst e
    refine Does.call (free_ok _) (fun q => by omega) fun _ _ => ?_
    exact Does.ret (hr.trans hu) fun q => by simp only [Mgr.own]; omega

/-! ## Calls -/

def Act.packs : Act → Nat
  | .mid x => x.packs
  | .bf xs => Mid.packss xs
  | _ => 0

theorem Act.run_ok {s : Mgr} (h : s.Ok) : ∀ x : Act, Does (x.run s) s.own (s.Step x.packs) Mgr.own
  | .mid x => Mid.run_ok h x
  | .bf xs => Mgr.reorderBF_ok xs h
  | .df xs n need ids => by
    simp only [Act.run]
    split
    next p => exact Mgr.reorderDF_ok xs n need h (List.isPerm_iff.1 p)
    next => exact Does.ret (.refl h) fun _ => rfl
  | .depth d => Mgr.setDepth_ok d h

def Act.packss : List Act → Nat
  | [] => 0
  | x :: xs => x.packs + Act.packss xs

theorem Act.runs_ok : ∀ (xs : List Act) (s : Mgr), s.Ok →
    Does (Act.runs s xs) s.own (s.Step (Act.packss xs)) Mgr.own
  | [], s, h => Does.ret (.refl h) fun _ => rfl
  | x :: xs, s, h => by
    refine Does.call (Act.run_ok h x) (fun _ => Nat.le_refl _) fun t ht => ?_
    exact (Act.runs_ok xs t ht.ok).weaken (fun q => by omega) (fun u hu => ht.trans hu) (fun _ _ _ => rfl)

def Call.packs : Call → Nat
  | .op xs => Act.packss xs
  | .array xs => Act.packss xs
  | .pairwise xs ys => Act.packss xs + Act.packss ys
  | .dump xs _ => Act.packss xs
  | .undump _ xs => Act.packss xs
  | _ => 0

/-- how often `CalBddPackNodesForMultipleIds` (calHashTable.c:709-881) comes to a level -/
def Call.packss : List Call → Nat
  | [] => 0
  | x :: xs => x.packs + Call.packss xs

theorem Call.run_ok {s : Mgr} (h : s.Ok) : ∀ c : Call, Does (c.run s) s.own (s.Goes c.packs) Mgr.own
  | .newVar n b => Mgr.newVar_ok n b h
  | .assocInit f i => (Mgr.assocInit_ok f i h).weaken (fun _ => rfl) (fun _ => Mgr.Step.goes) (fun _ _ _ => rfl)
  | .assocQuit i => (Mgr.assocQuit_ok i h).weaken (fun _ => rfl) (fun _ => Mgr.Step.goes) (fun _ _ _ => rfl)
  | .newBlock p i n => (Mgr.newBlock_ok p i n h).weaken (fun _ => rfl) (fun _ => Mgr.Step.goes) (fun _ _ _ => rfl)
  | .op xs => (Act.runs_ok xs s h).weaken (fun _ => rfl) (fun _ => Mgr.Step.goes) (fun _ _ _ => rfl)
  | .array xs => by
    simp only [Call.run]
    refine Does.call malloc_ok (fun _ => Nat.zero_le _) fun a _ => ?_
    refine Does.call (Act.runs_ok xs s h) (fun q => by omega) fun t ht => ?_
    refine Does.call (free_ok _) (fun q => by omega) fun _ _ => ?_
    exact Does.ret ht.goes fun q => by omega
  | .pairwise xs ys => by
    simp only [Call.run]
    refine Does.call malloc_ok (fun _ => Nat.zero_le _) fun a _ => ?_
    refine Does.call malloc_ok (fun _ => Nat.zero_le _) fun b _ => ?_
    refine Does.call (Act.runs_ok xs s h) (fun q => by omega) fun t ht => ?_
    refine Does.call malloc_ok (fun _ => Nat.zero_le _) fun c _ => ?_
    refine Does.call (free_ok _) (fun q => by omega) fun _ _ => ?_
    refine Does.call (free_ok _) (fun q => by omega) fun _ _ => ?_
    refine Does.call (Act.runs_ok ys t ht.ok) (fun q => by omega) fun u hu => ?_
    have hs := ht.trans hu
    refine Does.ret ⟨⟨hs.ok.pm1, hs.ok.pm2, hs.ok.nms, hs.ok.ln, hs.ok.lu, hs.ok.lr, hs.ok.lrs, hs.ok.root⟩,
      hs.lost⟩ fun q => ?_
    simp only [Mgr.own, sum_cons]
    omega
  | .userFree i => by
    simp only [Call.run]
    split
    next => exact Does.ret ⟨h, Nat.le_refl _⟩ fun _ => rfl
    next a e =>
      have := fun q => sum_eraseIdx one a q _ _ e
      refine Does.call (free_ok _) (fun q => by have := this q; simp only [Mgr.own]; omega) fun _ _ => ?_
      exact Does.ret ⟨⟨h.pm1, h.pm2, h.nms, h.ln, h.lu, h.lr, h.lrs, h.root⟩, Nat.le_refl _⟩
        fun q => by have := this q; simp only [Mgr.own]; omega
  | .dump xs k => by
    simp only [Call.run]
    refine Does.call malloc_ok (fun _ => Nat.zero_le _) fun a _ => ?_
    refine Does.call malloc_ok (fun _ => Nat.zero_le _) fun b _ => ?_
    refine Does.call malloc_ok (fun _ => Nat.zero_le _) fun c _ => ?_
    refine Does.call (free_ok _) (fun q => by omega) fun _ _ => ?_
    refine Does.call (free_ok _) (fun q => by omega) fun _ _ => ?_
    refine Does.call Two.init_ok (fun _ => Nat.zero_le _) fun t _ => ?_
    refine Does.call (rehashes_ok k t) (fun q => by omega) fun t' _ => ?_
    refine Does.call (Act.runs_ok xs s h) (fun q => by omega) fun u hu => ?_
    refine Does.call t'.quit_ok (fun q => by omega) fun _ _ => ?_
    refine Does.call (free_ok _) (fun q => by omega) fun _ _ => ?_
    exact Does.ret hu.goes fun q => by omega
  | .undump early xs => by
    simp only [Call.run]
    refine Does.call malloc_ok (fun _ => Nat.zero_le _) fun a _ => ?_
    split
    next =>
      refine Does.call (free_ok _) (fun q => by omega) fun _ _ => ?_
      exact Does.ret ⟨h, Nat.le_add_right _ _⟩ fun q => by omega
    next =>
      refine Does.call malloc_ok (fun _ => Nat.zero_le _) fun b _ => ?_
      refine Does.call (Act.runs_ok xs s h) (fun q => by omega) fun u hu => ?_
      refine Does.call (free_ok _) (fun q => by omega) fun _ _ => ?_
      refine Does.call (free_ok _) (fun q => by omega) fun _ _ => ?_
      exact Does.ret hu.goes fun q => by omega

theorem Call.runs_ok : ∀ (cs : List Call) (s : Mgr), s.Ok →
    Does (Call.runs s cs) s.own (s.Goes (Call.packss cs)) Mgr.own
  | [], s, h => Does.ret ⟨h, Nat.le_refl _⟩ fun _ => rfl
  | c :: cs, s, h => by
    refine Does.call (Call.run_ok h c) (fun _ => Nat.le_refl _) fun t ht => ?_
    refine (Call.runs_ok cs t ht.ok).weaken (fun q => by omega) (fun u hu => ⟨hu.ok, ?_⟩) (fun _ _ _ => rfl)
    have := hu.lost
    have := ht.lost
    simp only [Call.packss]
    omega

theorem program_ok (n1 n2 : Nat) (cs : List Call) :
    Does (program n1 n2 cs) (fun _ => 0) (fun r => r.2.length ≤ Call.packss cs)
      (fun r q => sum one r.1 q + sum one r.2 q) := by
  unfold program
  refine Does.call (Mgr.init_ok n1 n2) (fun _ => Nat.le_refl _) ?_
  rintro s ⟨hs, l0⟩
  refine Does.call (Call.runs_ok cs s hs) (fun q => by omega) fun t ht => ?_
  refine Does.call (Mgr.quit_ok ht.ok) (fun q => by omega) fun _ _ => ?_
  refine Does.ret ?_ fun q => by dsimp only; omega
  have := ht.lost
  simpa [l0] using this

end Cal.Ledger
