import Verif.DumpFile
import Verif.ApiEng

/-!
# `Cal_BddDumpBdd` and `Cal_BddUndumpBdd` on a manager
-/

namespace Cal.Mgr

open Dump

/-! ## Nothing happens between two checks -/

theorem _root_.Cal.Store.gcList_check {k i : Nat} : ∀ {as : List Nat} {s s' : Store} {fr},
    Store.gcList k i as s = some (s', fr) → s'.gcCheck = s.gcCheck
  | [], s, s', fr, h => by cases h; rfl
  | a :: as, s, s', fr, h => by
    unfold Store.gcList at h
    split at h
    · cases h
    · split at h
      · split at h
        · rename_i h2; cases h
          have := Store.gcList_check h2
          rw [this]; rfl
        · cases h
      · exact Store.gcList_check h

theorem _root_.Cal.Store.gcTables_check {κ : Nat → Nat} : ∀ {is : List Nat} {s s' : Store} {fr},
    s.gcTables κ is = some (s', fr) → s'.gcCheck = s.gcCheck
  | [], s, s', fr, h => by cases h; rfl
  | i :: is, s, s', fr, h => by
    unfold Store.gcTables at h
    split at h
    · rename_i s1 fr1 h1
      split at h
      · rename_i h2; cases h
        rw [Store.gcTables_check h2]
        unfold Store.gcTable at h1
        split at h1
        · rename_i h3; cases h1
          have := Store.gcList_check h3
          exact this
        · cases h1
      · cases h
    · cases h

theorem _root_.Cal.UTab.gcList_check : ∀ {as : List Nat} {u u' : UTab} {s s' : Store},
    UTab.gcList as u s = some (u', s') → s'.gcCheck = s.gcCheck
  | [], u, u', s, s', h => by cases h; rfl
  | a :: as, u, u', s, s', h => by
    unfold UTab.gcList at h
    split at h
    · cases h
    · split at h
      · rw [UTab.gcList_check h]; rfl
      · exact UTab.gcList_check h

theorem gc_check {m m' : Mgr} (h : m.gc = some m') : m'.st.gcCheck = m.st.gcCheck := by
  unfold gc at h
  split at h
  · cases h
  · rename_i h1
    split at h
    · cases h
    · rename_i h2
      cases h
      exact (Store.gcTables_check h2).trans (UTab.gcList_check h1)

/-- The next check is still to come: `gcCheck` is positive. -/
def Calm (m : Mgr) : Prop := m.st.gcCheck > 0

variable {E : Env} {m : Mgr} {own : Nat → Nat} {lk : Bool}

theorem postProc_calm (S : E.Sound) {m' : Mgr} {o} (h : m.postProc E = some (m', o)) : m'.Calm := by
  have h0 : (0 : Int) < gcCheckInit := by decide
  obtain ⟨φ, h⟩ := postProc_some h
  unfold postProcP at h
  split at h
  · cases h; assumption
  · dsimp only at h
    split at h
    · split at h
      · cases h
      · rename_i m1 hg
        have c1 : m1.st.gcCheck = gcCheckInit := gc_check hg
        split at h
        · cases h
        · rename_i m2 φ' hr
          have c2 : m2.st.gcCheck = gcCheckInit := by
            unfold reorderOrRepack at hr
            split at hr
            · exact (S.reorderCheck _ _ _ _ hr).trans c1
            · split at hr
              · exact (S.repackCheck _ _ _ _ hr).trans c1
              · cases hr; exact c1
          split at h <;> (cases h; show m2.st.gcCheck > 0; omega)
    · cases h; exact h0

theorem preProc_calm (S : E.Sound) {m' : Mgr} {hs} (h : m.preProc E hs = some (m', true)) : m'.Calm := by
  unfold preProc at h
  split at h
  · cases h
  · cases h
  · split at h
    · cases h
    · rename_i hp; cases h; exact postProc_calm S hp

theorem Calm.pre (c : m.Calm) (i : m.Inv own lk) {hs : List Handle} (hl : ∀ h ∈ hs, UTab.Live own h) :
    m.preProc E hs = some (m, true) := by
  have hn : Handle.null ∉ hs := fun h => by
    obtain ⟨Γ, leak, -, i⟩ := i; exact i.live_ne (hl _ h) rfl
  unfold preProc
  rw [check_ok i fun h hh => Or.inr (hl h hh)]
  simp only [hn, not_false_eq_true, decide_true]
  unfold postProc postProcP
  rw [if_pos (show m.st.gcCheck > 0 from c)]
  rfl

/-! ## Variables -/

theorem inv_den (i : m.Inv own lk) {h : Handle} (l : UTab.Live own h) : ∃ F, Den m h F := by
  obtain ⟨Γ, leak, -, i⟩ := i; exact i.den l

theorem den_unique (i : m.Inv own lk) {h : Handle} {F G} (d1 : Den m h F) (d2 : Den m h G) : F = G := by
  obtain ⟨e, he, r⟩ := d1
  obtain ⟨e', he', r'⟩ := d2
  rw [he] at he'; cases he'
  exact r.unique i.wf r'

theorem rep_var {s : Store} (w : s.WF) {e x} (r : Rep s e fun ρ => ρ x) : e.id = x ∧ 1 ≤ x ∧ x ≤ s.ord.numVars := by
  have hi : e.id ≠ 0 := by
    intro h
    rcases (r.const_iff w).1 h with h | h
    · have := congrFun h (fun _ => false); simp at this
    · have := congrFun h (fun _ => true); simp at this
  have ht := r.topVar w hi
  have hx : e.id = x := by
    apply Classical.byContradiction
    intro hne
    refine r.dep w hi fun ρ b => ?_
    exact upd_ne _ _ (fun h => hne h.symm)
  rw [hx] at ht
  exact ⟨hx, ht.1⟩

/-- The handles stand for the variables `xs`. -/
abbrev VarsOf (m : Mgr) (vs : List Handle) (xs : List Nat) : Prop := F2 (fun h x => Den m h fun ρ => ρ x) vs xs

theorem VarsOf.pres {m' : Mgr} {k} (p : Pres own k m m') : ∀ {vs xs}, VarsOf m vs xs → (∀ v ∈ vs, UTab.Live own v) →
    VarsOf m' vs xs
  | _, _, .nil, _ => .nil
  | _, _, .cons h t, hl => .cons (p.fns _ (hl _ (by simp)) _ h) (VarsOf.pres p t fun v hv => hl v (by simp [hv]))

theorem varsOf_back {m1 : Mgr} {k} (i : m.Inv own lk) (i1 : m1.Inv own lk) (p1 : Pres own k m m1) :
    ∀ {vs : List Handle} {xs}, (∀ w ∈ vs, UTab.Live own w) → VarsOf m1 vs xs → VarsOf m vs xs := by
  intro vs xs hl h
  induction h with
  | nil => exact .nil
  | cons h _ ih =>
    refine .cons ?_ (ih fun w hw => hl w (List.mem_cons_of_mem _ hw))
    obtain ⟨G, hG⟩ := inv_den i (hl _ List.mem_cons_self)
    have := den_unique i1 (p1.fns _ (hl _ List.mem_cons_self) _ hG) h
    rwa [this] at hG

theorem allPosvars_ok (S : E.Sound) : ∀ {vs : List Handle} {m : Mgr}, m.Inv own lk → (∀ v ∈ vs, UTab.Live own v) →
    ∃ m' b, m.allPosvars E vs = some (m', b) ∧ m'.Inv own lk ∧ Pres own 0 m m' ∧ (m.Calm → m' = m) ∧
      (b = true ↔ ∃ xs, VarsOf m vs xs)
  | [], m, i, _ => ⟨m, true, rfl, i, .refl _ _, fun _ => rfl, by simpa using ⟨[], F2.nil⟩⟩
  | v :: vs, m, i, hl => by
    have lv := hl v (by simp)
    have lvs : ∀ w ∈ vs, UTab.Live own w := fun w hw => hl w (by simp [hw])
    obtain ⟨V, hV⟩ := inv_den i lv
    obtain ⟨m1, t, h1, p1, i1, sp⟩ := type_ok S i lv hV
    have hc : m.Calm → m1 = m := by
      intro c
      have := c.pre (E := E) i (forall1 lv)
      unfold type at h1
      rw [this] at h1
      simp only at h1
      split at h1
      · cases h1
      · rw [Option.map_eq_some_iff] at h1
        obtain ⟨_, -, h⟩ := h1
        exact (Prod.mk.inj h).1.symm
    unfold allPosvars
    simp only [h1]
    by_cases ht : t = .posvar
    · rw [if_pos ht]
      obtain ⟨x, rfl⟩ := sp.pos.1 ht
      obtain ⟨m', b, h2, i2, p2, c2, hb⟩ := allPosvars_ok S i1 lvs
      refine ⟨m', b, h2, i2, p1.trans p2, fun c => ?_, hb.trans ⟨?_, ?_⟩⟩
      · have := hc c; subst this; exact c2 c
      · rintro ⟨xs, hx⟩
        exact ⟨x :: xs, .cons hV (varsOf_back i i1 p1 lvs hx)⟩
      · rintro ⟨_, hx⟩
        cases hx with
        | cons _ hx => exact ⟨_, VarsOf.pres p1 hx lvs⟩
    · rw [if_neg ht]
      refine ⟨m1, false, rfl, i1, p1, hc, by simp, ?_⟩
      rintro ⟨_, hx⟩
      cases hx with
      | cons h _ => exact absurd (sp.pos.2 ⟨_, den_unique i hV h⟩) ht

theorem getIfIndex_var (i : m.Inv own lk) (c : m.Calm) {v x} (lv : UTab.Live own v) (hv : Den m v fun ρ => ρ x) :
    m.getIfIndex E v = some (m, m.st.ord.lvl x) ∧ m.st.ord.lvl x < m.st.ord.numVars := by
  obtain ⟨e, he, r⟩ := hv
  obtain ⟨hx, h1, h2⟩ := rep_var i.wf r
  have hl : m.st.ord.lvl x = m.st.ord.idToIndex x := by unfold Order.lvl; rw [if_neg (by omega)]
  refine ⟨?_, by rw [hl]; exact i.wf.ord.idx_lt x h1 h2⟩
  unfold getIfIndex
  simp only [c.pre (E := E) i (forall1 lv), internal, he, Option.map_some]
  rw [if_neg (by simp only [Edge.isConst, hx]; simp; omega)]
  simp only [Store.elvl, hx]

/-! ## Numbering the variables -/

/-- The table `normalizedIndexes` for variables at the levels `ls`. -/
def normL (ls : List Nat) (l : Nat) : Nat := if l ∈ ls then ls.idxOf l else constIndex

theorem normL_snoc {ls : List Nat} {x : Nat} (h : x ∉ ls) : upd (normL ls) x ls.length = normL (ls ++ [x]) := by
  funext l
  by_cases hl : l = x
  · subst hl
    simp [normL, List.idxOf_append, h]
  · rw [upd_ne _ _ hl]
    by_cases hm : l ∈ ls
    · simp [normL, hm, List.idxOf_append]
    · simp [normL, hm, hl]

theorem normalize_ok (i : m.Inv own lk) (c : m.Calm) : ∀ {vs : List Handle} {xs : List Nat} {ls : List Nat},
    (∀ v ∈ vs, UTab.Live own v) → VarsOf m vs xs → ls.Nodup → (∀ l ∈ ls, l < m.st.ord.numVars) →
    m.normalize E (normL ls) ls.length vs =
      some (m, if (ls ++ xs.map m.st.ord.lvl).Nodup then some (normL (ls ++ xs.map m.st.ord.lvl)) else none)
  | _, _, ls, _, .nil, hd, _ => by simp [normalize, hd]
  | v :: vs, x :: xs, ls, hl, .cons hv hvs, hd, hb => by
    obtain ⟨h1, h2⟩ := getIfIndex_var (E := E) i c (hl v (by simp)) hv
    unfold normalize
    simp only [h1, if_pos h2]
    have hlen : ls.length < constIndex := by
      have h3 := length_le (m := List.range m.st.ord.numVars) hd fun l hl => List.mem_range.2 (hb l hl)
      rw [List.length_range] at h3
      have := i.wf.ord.bound
      omega
    by_cases hx : m.st.ord.lvl x ∈ ls
    · have hne : normL ls (m.st.ord.lvl x) ≠ constIndex := by
        have := List.idxOf_lt_length_of_mem hx
        simp only [normL, if_pos hx]; omega
      rw [if_pos hne, if_neg]
      intro h
      rw [List.nodup_append] at h
      exact h.2.2 _ hx _ (by simp) rfl
    · have he : normL ls (m.st.ord.lvl x) = constIndex := by simp only [normL, if_neg hx]
      rw [if_neg (fun h => h he), normL_snoc hx]
      have h3 := normalize_ok i c (vs := vs) (xs := xs) (ls := ls ++ [m.st.ord.lvl x]) (fun w hw => hl w (by simp [hw])) hvs
        (by
          rw [List.nodup_append]
          refine ⟨hd, by simp, ?_⟩
          intro a ha b hb' hab
          rw [List.mem_singleton] at hb'
          subst hb' hab
          exact hx ha)
        (by
          intro l hl'
          rcases List.mem_append.1 hl' with h | h
          · exact hb l h
          · rw [List.mem_singleton] at h; rw [h]; exact h2)
      rw [List.length_append, List.length_singleton] at h3
      rw [h3]
      simp only [List.append_assoc, List.singleton_append, List.map_cons]

theorem covered_ok (i : m.Inv own lk) (c : m.Calm) {ls : List Nat} (hd : ls.Nodup) (hb : ∀ l ∈ ls, l < m.st.ord.numVars) :
    ∀ {vs : List Handle} {xs : List Nat}, (∀ v ∈ vs, UTab.Live own v) → VarsOf m vs xs →
    m.covered E (normL ls) vs = some (m, decide (∀ x ∈ xs, m.st.ord.lvl x ∈ ls))
  | _, _, _, .nil => by simp [covered]
  | v :: vs, x :: xs, hl, .cons hv hvs => by
    obtain ⟨h1, h2⟩ := getIfIndex_var (E := E) i c (hl v (by simp)) hv
    unfold covered
    simp only [h1, if_pos h2]
    by_cases hx : m.st.ord.lvl x ∈ ls
    · have hne : normL ls (m.st.ord.lvl x) ≠ constIndex := by
        have h3 := length_le (m := List.range m.st.ord.numVars) hd fun l hl => List.mem_range.2 (hb l hl)
        rw [List.length_range] at h3
        have := i.wf.ord.bound
        have := List.idxOf_lt_length_of_mem hx
        simp only [normL, if_pos hx]; omega
      rw [if_neg hne, covered_ok i c hd hb (fun w hw => hl w (by simp [hw])) hvs]
      simp [hx]
    · have he : normL ls (m.st.ord.lvl x) = constIndex := by simp only [normL, if_neg hx]
      rw [if_pos he]
      simp [hx]

/-! ## Functions depend on their support -/

theorem rep_ext {s : Store} (w : s.WF) {e F} (r : Rep s e F) {σ τ : Asg} (h : ∀ v, ¬ Indep F v → σ v = τ v) : F σ = F τ := by
  have key : ∀ k, F (fun v => if v ≤ k then τ v else σ v) = F (fun v => if v ≤ 0 then τ v else σ v) := by
    intro k
    induction k with
    | zero => rfl
    | succ k ih =>
      rw [← ih]
      by_cases hi : Indep F (k + 1)
      · rw [← hi (fun v => if v ≤ k then τ v else σ v) (τ (k + 1))]
        congr 1
        funext v
        by_cases hv : v = k + 1
        · subst hv; simp
        · rw [upd_ne _ _ hv]
          have : v ≤ k + 1 ↔ v ≤ k := by omega
          simp only [this]
      · congr 1
        funext v
        by_cases hv : v = k + 1
        · subst hv; simp [h _ hi]
        · have : v ≤ k + 1 ↔ v ≤ k := by omega
          simp only [this]
  have h1 : F τ = F (fun v => if v ≤ s.ord.numVars then τ v else σ v) := r.ext_on w fun v _ hv => by simp [hv]
  have h2 : F σ = F (fun v => if v ≤ 0 then τ v else σ v) := r.ext_on w fun v hv _ => by simp; omega
  rw [h1, h2]
  exact (key _).symm

/-- What is read, from what was written: the variables are replaced. -/
theorem ren_spec {s : Store} (w : s.WF) {e F} (r : Rep s e F) {xs ys : List Nat} (hl : ys.length = xs.length)
    (hd : (xs.map s.ord.lvl).Nodup) (hc : ∀ v, ¬ Indep F v → v ∈ xs) {ρ σ : Asg}
    (h : ∀ (i x y : Nat), xs[i]? = some x → ys[i]? = some y → σ x = ρ y) :
    ren s.ord (normL (xs.map s.ord.lvl)) ys F ρ = F σ := by
  unfold ren
  refine rep_ext w r fun v hv => ?_
  obtain ⟨i, hi⟩ := List.mem_iff_getElem?.1 (hc v hv)
  have hil : i < xs.length := (List.getElem?_eq_some_iff.1 hi).1
  have hli : (xs.map s.ord.lvl)[i]? = some (s.ord.lvl v) := by rw [List.getElem?_map, hi]; rfl
  have hm : s.ord.lvl v ∈ xs.map s.ord.lvl := List.mem_of_getElem? hli
  have hn : normL (xs.map s.ord.lvl) (s.ord.lvl v) = i := by
    simp only [normL, if_pos hm]
    have hlt := List.idxOf_lt_length_of_mem hm
    have h2 : (xs.map s.ord.lvl)[(xs.map s.ord.lvl).idxOf (s.ord.lvl v)]? = some (s.ord.lvl v) := by
      rw [List.getElem?_eq_getElem hlt, List.getElem_idxOf hlt]
    exact (List.getElem?_inj hlt hd).1 (h2.trans hli.symm)
  simp only [asg, hn]
  rw [List.getElem?_eq_getElem (by omega : i < ys.length)]
  exact (h i v _ hi (List.getElem?_eq_getElem (by omega))).symm

theorem lvl_inj {o : Order} (w : o.WF) {x y : Nat} (hx : 1 ≤ x ∧ x ≤ o.numVars) (hy : 1 ≤ y ∧ y ≤ o.numVars)
    (h : o.lvl x = o.lvl y) : x = y := by
  unfold Order.lvl at h
  rw [if_neg (by omega), if_neg (by omega)] at h
  rw [← w.left x hx.1 hx.2, ← w.left y hy.1 hy.2, h]

theorem varsOf_range (i : m.Inv own lk) : ∀ {vs xs}, VarsOf m vs xs → ∀ x ∈ xs, 1 ≤ x ∧ x ≤ m.st.ord.numVars
  | _, _, .nil, _, h => by cases h
  | _, _, .cons h t, x, hx => by
    rcases List.mem_cons.1 hx with rfl | hx
    · obtain ⟨e, -, r⟩ := h
      exact (rep_var i.wf r).2
    · exact varsOf_range i t x hx

theorem lvls_nodup {o : Order} (w : o.WF) : ∀ {xs : List Nat}, (∀ x ∈ xs, 1 ≤ x ∧ x ≤ o.numVars) →
    ((xs.map o.lvl).Nodup ↔ xs.Nodup)
  | [], _ => by simp
  | x :: xs, h => by
    have ih := lvls_nodup w (xs := xs) fun y hy => h y (by simp [hy])
    simp only [List.map_cons, List.nodup_cons, ih]
    refine and_congr_left fun _ => not_congr ⟨fun hm => ?_, fun hm => List.mem_map.2 ⟨x, hm, rfl⟩⟩
    obtain ⟨y, hy, he⟩ := List.mem_map.1 hm
    rw [← lvl_inj w (h y (by simp [hy])) (h x (by simp)) he]
    exact hy

theorem varsOf_unique (i : m.Inv own lk) : ∀ {vs xs ys}, VarsOf m vs xs → VarsOf m vs ys → xs = ys
  | _, _, _, .nil, .nil => rfl
  | _, _, _, .cons h t, .cons h' t' => by
    rw [varsOf_unique i t t']
    have h1 := congrFun (den_unique i h h')
    rename_i a _ _ b _
    have : a = b := by
      apply Classical.byContradiction
      intro hne
      have h2 := h1 (fun v => decide (v = a))
      simp only [decide_true] at h2
      exact hne (of_decide_eq_true h2.symm).symm
    rw [this]

theorem external_check (m : Mgr) (e : Edge) : (m.external e).1.st.gcCheck = m.st.gcCheck := by
  unfold external
  simp only
  split <;> rfl

theorem external_ord (m : Mgr) (e : Edge) : (m.external e).1.st.ord = m.st.ord := by
  unfold external
  simp only
  split <;> rfl

theorem externals_check : ∀ (es : List Edge) (m : Mgr), (m.externals es).1.st.gcCheck = m.st.gcCheck ∧
    (m.externals es).1.st.ord = m.st.ord
  | [], m => ⟨rfl, rfl⟩
  | e :: es, m => by
    unfold externals
    simp only
    have := externals_check es (m.external e).1
    exact ⟨this.1.trans (external_check m e), this.2.trans (external_ord m e)⟩

theorem bump_live {own : Nat → Nat} {h : Handle} (l : UTab.Live own h) : ∀ (hs : List Handle),
    UTab.Live (hs.foldl (fun o h => bump o h.addr) own) h := by
  intro hs
  induction hs generalizing own with
  | nil => exact l
  | cons g hs ih =>
    refine ih ?_
    rcases l with l | l
    · exact .inl l
    · refine .inr ?_
      show 0 < bump own g.addr h.addr
      unfold bump upd
      split
      · omega
      · exact l

theorem bump_new : ∀ {hs : List Handle} {own : Nat → Nat} {h : Handle}, h ∈ hs →
    UTab.Live (hs.foldl (fun o h => bump o h.addr) own) h
  | g :: hs, own, h, hm => by
    rcases List.mem_cons.1 hm with rfl | hm'
    · refine bump_live (.inr ?_) hs
      simp [bump]
    · exact bump_new (hs := hs) (own := bump own g.addr) hm'

theorem support_calm (i : m.Inv own lk) (c : m.Calm) {f} (lf : UTab.Live own f) {m' hs} (h : m.support E f = some (m', hs)) :
    m'.Calm ∧ m'.st.ord = m.st.ord := by
  unfold support at h
  simp only [c.pre (E := E) i (forall1 lf)] at h
  split at h
  · cases h
  · rw [Option.map_eq_some_iff] at h
    obtain ⟨p, -, h⟩ := h
    have := externals_check p.1 m
    rw [h] at this
    exact ⟨by unfold Calm; rw [this.1]; exact c, this.2⟩

/-- `Cal_BddDumpBdd`: it writes a file if the variables are different variables and include the
support, and otherwise nothing. The file is described by what is read from it. -/
theorem dump_ok (S : E.Sound) (i : m.Inv own lk) {f F} (lf : UTab.Live own f) (hf : Den m f F) {vs : List Handle}
    (lv : ∀ v ∈ vs, UTab.Live own v) :
    ∃ m' sup o, m.dump E f vs = some (m', sup, o) ∧ m'.Inv (sup.foldl (fun o h => bump o h.addr) own) lk ∧ Pres own 0 m m' ∧
      (o ≠ none ↔ ∃ xs, VarsOf m vs xs ∧ xs.Nodup ∧ ∀ v, ¬ Indep F v → v ∈ xs) ∧
      ∀ out, o = some out → (∀ c ∈ out, c < 256) ∧ ∀ xs, VarsOf m vs xs → ∀ ys : List Nat, ys.length = xs.length →
        m'.st.numNodes ≤ 2 ^ 32 → ∃ G : BFn, (∀ ρ σ : Asg, (∀ (j x y : Nat), xs[j]? = some x → ys[j]? = some y → σ x = ρ y) → G ρ = F σ) ∧
          ∀ rest mem fin, 16 * m'.st.numNodes ≤ mem →
            undumpFile (fnAlg ys) mem xs.length fin () (out ++ rest) = some ((), none, some G) := by
  obtain ⟨m1, h1, i1, p1⟩ := preProc_ok S i (forall1 lf)
  have c1 := preProc_calm S h1
  have hf1 := p1.fns f lf F hf
  have back : (∃ xs, VarsOf m1 vs xs ∧ xs.Nodup ∧ ∀ v, ¬ Indep F v → v ∈ xs) ↔
      ∃ xs, VarsOf m vs xs ∧ xs.Nodup ∧ ∀ v, ¬ Indep F v → v ∈ xs :=
    ⟨fun ⟨xs, h, g⟩ => ⟨xs, varsOf_back i i1 p1 lv h, g⟩, fun ⟨xs, h, g⟩ => ⟨xs, VarsOf.pres p1 h lv, g⟩⟩
  obtain ⟨m2, b, h2, -, -, h3, hb⟩ := allPosvars_ok S i1 lv
  have := h3 c1; subst this
  unfold dump
  simp only [h1, h2]
  cases b with
  | false =>
    refine ⟨m2, [], none, rfl, i1, p1, ?_, (fun out h => nomatch h)⟩
    rw [← back]
    simp only [ne_eq, not_true_eq_false, false_iff]
    rintro ⟨xs, hx, -⟩
    exact Bool.false_ne_true (hb.2 ⟨xs, hx⟩)
  | true =>
    obtain ⟨xs, hx⟩ := hb.1 rfl
    have hr := varsOf_range i1 hx
    have hnd := lvls_nodup i1.wf.ord hr
    have hN := normalize_ok (E := E) i1 c1 (ls := []) lv hx List.nodup_nil (fun l h => nomatch h)
    have h0 : normL [] = fun _ => constIndex := by funext l; simp [normL]
    rw [h0, List.length_nil, List.nil_append] at hN
    simp only [hN]
    by_cases hd : xs.Nodup
    · have hd' := hnd.2 hd
      rw [if_pos hd']
      simp only
      obtain ⟨m3, sup, us, h4, i3, p3, -, hus, -, hsup⟩ := support_ok S i1 lf hf1
      obtain ⟨c3, o3⟩ := support_calm i1 c1 lf h4
      have h5 := covered_ok (E := E) i3 c3 (ls := xs.map m2.st.ord.lvl) hd' (by
        intro l hl
        obtain ⟨x, hx, rfl⟩ := List.mem_map.1 hl
        rw [o3]
        have := hr x hx
        unfold Order.lvl
        rw [if_neg (by omega)]
        exact i1.wf.ord.idx_lt x this.1 this.2) (fun v hv => bump_new hv) hus
      simp only [h4, h5]
      have hcov : (∀ x ∈ us, m3.st.ord.lvl x ∈ xs.map m2.st.ord.lvl) ↔ ∀ v, ¬ Indep F v → v ∈ xs := by
        have hu := varsOf_range i3 hus
        rw [o3] at hu ⊢
        constructor
        · intro h v hv
          have hv' := (hsup v).2 hv
          obtain ⟨x, hx, he⟩ := List.mem_map.1 (h v hv')
          rw [← lvl_inj i1.wf.ord (hr x hx) (hu v hv') he]
          exact hx
        · intro h x hx
          exact List.mem_map.2 ⟨x, h x ((hsup x).1 hx), rfl⟩
      by_cases hc : ∀ v, ¬ Indep F v → v ∈ xs
      · simp only [decide_eq_true (hcov.2 hc)]
        obtain ⟨e, he, r⟩ := p3.fns f lf F hf1
        simp only [internal, he, Option.map_some]
        have hlen : xs.length = vs.length := (F2.length_eq hx).symm
        have hle : xs.length ≤ m3.st.ord.numVars := by
          have h6 := length_le (m := List.range (m3.st.ord.numVars + 1)) (l := 0 :: xs) (by
            rw [List.nodup_cons]
            exact ⟨fun h => by have := hr 0 h; omega, hd⟩) (by
            intro x hx
            rw [List.mem_range, o3]
            rcases List.mem_cons.1 hx with rfl | hx
            · omega
            · have := hr x hx; omega)
          rw [List.length_range, List.length_cons] at h6
          omega
        have hb3 := i3.wf.ord.bound
        have ⟨Γ3, leak3, _, g3⟩ := i3
        obtain ⟨out, k1, k2, k3⟩ := file_trip g3.wf g3.num r (normL (xs.map m3.st.ord.lvl)) (n := vs.length)
          (by unfold constIndex at hb3; omega) (by
            intro v hv
            have hm : m3.st.ord.lvl v ∈ xs.map m3.st.ord.lvl := List.mem_map.2 ⟨v, hc v hv, rfl⟩
            have := List.idxOf_lt_length_of_mem hm
            rw [List.length_map] at this
            simp only [normL, if_pos hm]
            omega)
        rw [o3] at k1
        refine ⟨m3, sup, some out, by rw [k1]; rfl, i3, p1.trans p3, ?_, ?_⟩
        · rw [← back]
          simp only [ne_eq, reduceCtorEq, not_false_eq_true, true_iff]
          exact ⟨xs, hx, hd, hc⟩
        · intro out' ho
          cases ho
          refine ⟨k2, fun xs' hx' ys hys h32 => ?_⟩
          have : xs' = xs := varsOf_unique i1 (VarsOf.pres p1 hx' lv) hx
          subst this
          refine ⟨_, fun ρ σ h => ren_spec g3.wf r hys (by rw [o3]; exact hd') hc h, fun rest mem fin hm => ?_⟩
          rw [hlen]
          exact k3 ys rest mem fin (by omega) h32 hm
      · simp only [decide_eq_false (fun h => hc (hcov.1 h))]
        refine ⟨m3, sup, none, rfl, i3, p1.trans p3, ?_, (fun out h => nomatch h)⟩
        rw [← back]
        simp only [ne_eq, not_true_eq_false, false_iff]
        rintro ⟨ys, hy, -, hcy⟩
        exact hc (varsOf_unique i1 hx hy ▸ hcy)
    · rw [if_neg (fun h => hd (hnd.1 h))]
      refine ⟨m2, [], none, rfl, i1, p1, ?_, (fun out h => nomatch h)⟩
      rw [← back]
      simp only [ne_eq, not_true_eq_false, false_iff]
      rintro ⟨ys, hy, hdy, -⟩
      exact hd (varsOf_unique i1 hx hy ▸ hdy)

/-! ## Reading -/

theorem varsAre (i : m.Inv own lk) {Γ leak} (g : InvG Γ leak own m) {vs : List Handle} {ys : List Nat} (hy : VarsOf m vs ys)
    {es : List Edge} (h : m.internals vs = some es) (r : F2 (fun e y => Rep m.st e fun ρ => ρ y) es ys) :
    VarsAre m.st (m.roots leak) es ys := by
  refine ⟨r, ?_⟩
  have : ∀ {es : List Edge} {ys : List Nat}, F2 (fun e y => Rep m.st e fun ρ => ρ y) es ys → ∀ e ∈ es, 256 ≤ m.roots leak e.addr := by
    intro es ys h
    induction h with
    | nil => intro e h; cases h
    | cons r _ ih =>
      rename_i e0 y _ _ _
      intro e he
      rcases List.mem_cons.1 he with rfl | he
      · obtain ⟨-, h1, h2⟩ := rep_var i.wf r
        obtain ⟨e', he', r'⟩ := var_rep g h1 h2
        have hee : e = e' := canonical i.wf r r'
        subst hee
        have h3 := sumTo_ge (f := fun v => optHits (m.vars v) e.addr) (n := m.st.ord.numVars + 1) (a := y) (by omega)
        simp only [he', optHits, hits, if_true] at h3
        have h4 : 1 ≤ tabHits m.vars m.st.ord.numVars e.addr := h3
        unfold roots rest
        omega
      · exact ih e he
  exact this r

theorem internals_vars : ∀ {vs : List Handle} {ys : List Nat}, VarsOf m vs ys →
    ∃ es, m.internals vs = some es ∧ F2 (fun e y => Rep m.st e fun ρ => ρ y) es ys
  | _, _, .nil => ⟨[], rfl, .nil⟩
  | _, _, .cons h t => by
    obtain ⟨e, he, r⟩ := h
    obtain ⟨es, h1, h2⟩ := internals_vars t
    exact ⟨_ :: es, by simp only [internals, internal, he, Option.map_some, h1], .cons r h2⟩

/-- `Cal_BddUndumpBdd`: null if the array has other things than positive variables; otherwise what
reading on functions says. -/
theorem undump_ok (S : E.Sound) (i : m.Inv own lk) {vs : List Handle} (lv : ∀ v ∈ vs, UTab.Live own v) (mem : Nat)
    (inp : List Nat) (fin : Err) :
    ((¬ ∃ ys, VarsOf m vs ys) → ∃ m', m.undump E mem vs inp fin = some (m', none, Handle.null) ∧ m'.Inv own lk ∧ Pres own 0 m m') ∧
    ∀ ys, VarsOf m vs ys →
      (undumpFile (fnAlg ys) mem ys.length fin () inp = none ∧ m.undump E mem vs inp fin = none) ∨
      (∃ m' x R, undumpFile (fnAlg ys) mem ys.length fin () inp = some ((), some x, R) ∧
        m.undump E mem vs inp fin = some (m', some x, Handle.null) ∧ m'.Inv own lk ∧ Pres own 0 m m') ∨
      ∃ m' h G, undumpFile (fnAlg ys) mem ys.length fin () inp = some ((), none, some G) ∧
        m.undump E mem vs inp fin = some (m', none, h) ∧ h ≠ Handle.null ∧ m'.Inv (bump own h.addr) lk ∧ Pres own 0 m m' ∧
        Den m' h G := by
  obtain ⟨m1, b, h1, i1, p1, -, hb⟩ := allPosvars_ok S i lv
  unfold undump
  simp only [h1]
  cases b with
  | false =>
    refine ⟨fun _ => ⟨m1, rfl, i1, p1⟩, fun ys hy => ?_⟩
    exact absurd (hb.2 ⟨ys, hy⟩) Bool.false_ne_true
  | true =>
    refine ⟨fun h => absurd (hb.1 rfl) h, fun ys hy => ?_⟩
    have hy1 := VarsOf.pres p1 hy lv
    obtain ⟨es, he, re⟩ := internals_vars hy1
    have hlen : es.length = ys.length := F2.length_eq re
    have ⟨Γ, leak, hl, g⟩ := i1
    simp only [he, hlen]
    rcases file_sim g.wf g.num g.ref (varsAre i1 g hy1 he re) mem ys.length fin inp with
      ⟨q1, q2⟩ | ⟨s', er, r, R, q1, q2, w', le, hn, hr, ho, hre⟩
    · exact .inl ⟨q2, by rw [q1]⟩
    right
    have g' := g.core' (c' := m1.ca) w' le hn hr (g.ca.mono le)
    have pc : Pres own 0 m1 { m1 with st := s' } := core_pres le
    cases ho with
    | none =>
      left
      cases er with
      | none => simp at hre
      | some x => exact ⟨_, x, _, q2, by rw [q1], ⟨Γ, leak, hl, g'⟩, p1.trans pc⟩
    | some hrep =>
      right
      cases er with
      | some x => simp at hre
      | none =>
        rename_i e G
        have hx := g'.external (e := e) hrep.eok
        refine ⟨_, _, G, q2, by rw [q1], hx.2.2.1, ⟨Γ, leak, hl, hx.1⟩, (p1.trans pc).trans hx.2.1, hx.2.2.2.1 G hrep⟩

end Cal.Mgr
