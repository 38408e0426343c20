import Verif.MgrOps

/-!
# What the API functions compute
-/

namespace Cal

namespace Mgr

variable {own : Nat → Nat} {m : Mgr} {lk : Bool} {E : Env}

/-! ## Binary operations and ITE -/

theorem run2_ok {op fn} (law : BinLaw op fn) {F G : BFn} {m1 : Mgr} (i : m1.Inv own lk)
    {es : List Edge} (h : F2 (Rep m1.st) es [F, G]) :
    RunOk own lk 0 m1 (run2 op m1 es) (fun ρ => fn (F ρ) (G ρ)) := by
  cases h with
  | cons r1 h => cases h with
    | cons r2 h => cases h with
      | nil =>
        have w : m1.st.WF := by obtain ⟨Γ, leak, -, i⟩ := i; exact i.wf
        refine onStore_ok i fun δ hδ => ?_
        have := opBF_lab law w hδ r1.eok r2.eok
        rwa [hδ.rep_eq r1, hδ.rep_eq r2] at this

theorem op2_ok (S : E.Sound) (i : m.Inv own lk) {op fn} (law : BinLaw op fn) {f g : Handle} {F G}
    (lf : UTab.Live own f) (lg : UTab.Live own g) (hf : Den m f F) (hg : Den m g G) :
    Res own lk true 0 m (m.api E [f, g] (run2 op) (finish E)) (fun ρ => fn (F ρ) (G ρ)) :=
  api_ok S i (forall2 lf lg) (.two hf hg) (fun _ i1 _ _ h => run2_ok law i1 h)
    fun _ _ i1 r => finish_ok S i1 r

theorem op2neg_ok (S : E.Sound) (i : m.Inv own lk) {op fn} (law : BinLaw op fn) {f g : Handle} {F G}
    (lf : UTab.Live own f) (lg : UTab.Live own g) (hf : Den m f F) (hg : Den m g G) :
    Res own lk true 0 m (m.api E [f, g] (fun m es => negRes (run2 op m es)) (finish E))
      (fun ρ => !fn (F ρ) (G ρ)) :=
  api_ok S i (forall2 lf lg) (.two hf hg) (fun _ i1 _ _ h => (run2_ok law i1 h).neg)
    fun _ _ i1 r => finish_ok S i1 r

theorem ite_ok (S : E.Sound) (i : m.Inv own lk) {f g h : Handle} {F G H}
    (lf : UTab.Live own f) (lg : UTab.Live own g) (lh : UTab.Live own h) (hf : Den m f F)
    (hg : Den m g G) (hh : Den m h H) :
    Res own lk true 0 m (m.ite E f g h) (fun ρ => if F ρ then G ρ else H ρ) := by
  refine api_ok S i (fun x hx => ?_) (.three hf hg hh) (fun m1 i1 _ es h => ?_)
    fun _ _ i1 r => finish_ok S i1 r
  · simp only [List.mem_cons, List.not_mem_nil, or_false] at hx
    rcases hx with rfl | rfl | rfl
    · exact lf
    · exact lg
    · exact lh
  · cases h with
    | cons r1 h => cases h with
      | cons r2 h => cases h with
        | cons r3 h => cases h with
          | nil =>
            have w : m1.st.WF := by obtain ⟨Γ, leak, -, i⟩ := i1; exact i.wf
            refine onStore_ok i1 fun δ hδ => ?_
            have := iteBF_lab w hδ r1.eok r2.eok r3.eok
            rwa [hδ.rep_eq r1, hδ.rep_eq r2, hδ.rep_eq r3] at this

/-! ## Identity and complement -/

theorem unFree_ok (i : m.Inv own lk) {h : Handle} (l : UTab.Live own h) (b : Bool) {F}
    (hF : Den m h F) :
    ∃ m', m.unFree h = some m' ∧ m'.Inv (bump own h.addr) lk ∧ Pres own 0 m m' ∧
      Den m' ⟨h.addr, Bool.xor h.neg b⟩ (fun ρ => Bool.xor b (F ρ)) := by
  obtain ⟨Γ, leak, hl, i⟩ := i
  obtain ⟨m', h1, i1, p, hh, hs⟩ := i.unFree l
  refine ⟨m', h1, ⟨Γ, leak, hl, i1⟩, p, ?_⟩
  obtain ⟨e, he, r⟩ := hF
  refine ⟨e, by rw [hh]; exact he, ?_⟩
  have := r.phase b
  rw [Edge.phase_phase] at this
  rw [hs]; exact this

theorem identity_ok (i : m.Inv own lk) {h : Handle} (l : UTab.Live own h) {F} (hF : Den m h F) :
    Res own lk false 0 m (m.identity h) F := by
  obtain ⟨m', h1, i1, p, d⟩ := unFree_ok i l false hF
  have hne : h ≠ Handle.null := by obtain ⟨Γ, leak, -, i⟩ := i; exact i.live_ne l
  exact ⟨m', h, by simp [identity, h1], p, Or.inl ⟨hne, i1, by simpa using d⟩⟩

theorem not_ok (i : m.Inv own lk) {h : Handle} (l : UTab.Live own h) {F} (hF : Den m h F) :
    Res own lk false 0 m (m.not h) (fun ρ => !F ρ) := by
  obtain ⟨m', h1, i1, p, d⟩ := unFree_ok i l true hF
  have hne : h.addr ≠ 0 := by
    obtain ⟨Γ, leak, -, i⟩ := i
    obtain ⟨e, he, -⟩ := i.live l
    intro h0; rw [h0, i.ut.heap0] at he; cases he
  refine ⟨m', ⟨h.addr, !h.neg⟩, by simp [Mgr.not, h1], p, Or.inl ⟨?_, i1, by simpa using d⟩⟩
  intro h; exact hne (congrArg Ptr.addr h)

/-- a handle for the constant -/
theorem const_den (i : m.Inv own lk) (b : Bool) : Den m ⟨1, b⟩ (fun _ => !b) := by
  obtain ⟨Γ, leak, -, i⟩ := i
  refine ⟨one, i.ut.one, ?_⟩
  cases b
  · exact .one
  · exact .zero

/-! ## Canonicity -/

/-- Handles are equal iff their functions are. -/
theorem handle_eq (i : m.Inv own lk) {f g : Handle} {F G} (hf : Den m f F) (hg : Den m g G) :
    f = g ↔ F = G := by
  obtain ⟨Γ, leak, -, i⟩ := i
  constructor
  · rintro rfl; exact i.den_unique hf hg
  · rintro rfl
    obtain ⟨e, he, r⟩ := hf
    obtain ⟨e', he', r'⟩ := hg
    have := canonical i.wf r r'
    have h1 := i.ut.pos _ _ he
    have h2 := i.ut.pos _ _ he'
    have hn : f.neg = g.neg := by
      have := congrArg Edge.neg this
      simpa [h1, h2] using this
    have hee : e = e' := by
      have := congrArg (Edge.phase · f.neg) this
      simpa [Edge.phase_phase, hn] using this
    subst hee
    have ha := i.ut.uniq _ _ _ he he'
    cases f; cases g; simp_all

/-! ## Multiway operations -/

theorem _root_.Cal.F2.length {α β : Type} {R : α → β → Prop} {l m} (h : F2 R l m) : l.length = m.length := by
  induction h with
  | nil => rfl
  | cons _ _ ih => simp [ih]

theorem multiway_ok (S : E.Sound) (i : m.Inv own lk) {op fn u} (law : BinLaw op fn) (mon : Mon fn u)
    {hs : List Handle} {Fs : List BFn} (hl : ∀ h ∈ hs, UTab.Live own h) (hd : F2 (Den m) hs Fs)
    (h1 : hs ≠ []) (h2 : hs.length ≤ 1024) :
    Res own lk false 0 m (m.multiway E op hs) (big fn u Fs) := by
  obtain ⟨m1, e1, i1, p1⟩ := arrayPreProc_ok S i hl
  have hd1 := p1.dens hl hd
  unfold multiway
  rw [e1]
  simp only
  match hs, hl, hd1, h1, h2 with
  | [h], hl, hd1, _, _ =>
    cases hd1 with
    | @cons _ F _ _ d hd' => cases hd' with
      | nil =>
        have := Res.pre p1 (identity_ok i1 (hl h (by simp)) d)
        have he : big fn u [F] = F := by
          funext ρ; simp only [big]; rw [mon.comm, mon.unit]
        rw [he]; simpa using this
  | h :: h' :: hs, hl, hd1, _, h2 =>
    obtain ⟨es, e2, r2⟩ := internals_ok hd1
    have hlen := r2.length
    have hlen' := hd1.length
    have w : m1.st.WF := by obtain ⟨Γ, leak, -, i⟩ := i1; exact i.wf
    have hrun : RunOk own lk 0 m1 (m1.onStore (multiwayOp op m1.st es)) (big fn u Fs) := by
      refine onStore_ok i1 fun δ hδ => ?_
      have hmap : ∀ {es : List Edge} {Fs : List BFn}, F2 (Rep m1.st) es Fs →
          es.map (Cal.den δ) = Fs ∧ ∀ f ∈ es, m1.st.EOK f := by
        intro es Fs h
        induction h with
        | nil => simp
        | cons r _ ih =>
          refine ⟨by simp [hδ.rep_eq r, ih.1], ?_⟩
          intro f hf
          rcases List.mem_cons.1 hf with rfl | hf
          · exact r.eok
          · exact ih.2 f hf
      have := multiwayOp_lab law mon w hδ (hmap r2).2 (by simp at hlen'; omega)
        (by simp at hlen' h2; omega)
      rwa [(hmap r2).1] at this
    obtain ⟨m2, r, e3, i3, p3, r3⟩ := hrun
    simp only [e2, e3]
    have := Res.pre (p1.trans p3) (extern_ok i3 r3)
    simpa [extern] using this

theorem multiway_empty (op) : m.multiway E op [] = some (m, Handle.null) := rfl

end Mgr

end Cal
