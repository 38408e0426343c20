import Verif.QuantBFRed
import Verif.MgrOps

/-!
# Breadth-first quantification meets its specification
-/

namespace Cal
namespace QB

open BF Eng

variable {Γ : Nat → BFn → BFn} {o : Order} {Q : Cfg}

/-- no request yet -/
abbrev G0 : Nat → BFn := fun _ _ => false

theorem cok_of {c c' : Core} {δ} (hδ : Lab c.st δ) (w : c.st.WF) {r F} (w' : c'.st.WF) (v : c'.ca.Valid c'.st Γ)
    (hle : c.st.Le c'.st) (hk : c.st.Keep c'.st) (rr : Rep c'.st r F) : COk Γ c δ (some (c', r)) F := by
  obtain ⟨δ', hδ'⟩ := w'.exists_lab
  refine ⟨c', r, δ', rfl, ⟨w', v, hδ', hle, ?_, hk⟩, rr.eok, hδ'.rep_eq rr⟩
  intro a ha
  rcases ha with rfl | ha
  · rw [hδ'.const, hδ.const]
  · cases hn : c.st.heap a with
    | none => exact absurd hn ha
    | some n =>
      have r1 : Rep c.st ⟨n.var, a, false⟩ (den δ ⟨n.var, a, false⟩) := hδ.rep w (Or.inr ⟨n, hn, rfl⟩)
      have := hδ'.rep_eq (r1.mono hle)
      funext ρ
      simpa [den] using congrFun this ρ

/-- The state after the first request was made. -/
structure Start (Γ : Nat → BFn → BFn) (Q : Cfg) (o : Order) (k : Nat) (s : Store) (F : BFn) (b : BF QP)
    (c : Cache) (e : Edge) (G : Nat → BFn) : Prop where
  qi : QI Q o b G
  ci : CI Γ o b G c
  gr : Gr D01 o k k (BF.init s : BF QP) b G0 G
  ref : ∀ ext, (BF.init s : BF QP).RefOK ext → b.RefOK ext
  val : b.Val G e F

theorem init_no (s : Store) (a : Nat) (r : Req QP) : (BF.init s : BF QP).req a ≠ some r := by
  intro h; rw [(BF.init_idle s).req] at h; cases h

theorem init_qi {s : Store} (w : s.WF) : QI Q s.ord (BF.init s : BF QP) G0 :=
  ⟨(BF.init_idle s).ei w _, rfl, fun a r h => absurd h (init_no s a r)⟩

theorem init_ci {s : Store} {c : Cache} (v : c.Valid s Γ) : CI Γ s.ord (BF.init s : BF QP) G0 c :=
  ⟨fun i x hx => Or.inl (v.ent i x hx), v.count, v.range⟩

/-- Running all requests and cleaning up. -/
theorem whole {s : Store} (H : Hyp Q Γ s.ord) {k} (hk : k ≤ s.ord.numVars) {F b c e G}
    (st : Start Γ Q s.ord k s F b c e G) (ds : List Nat) :
    ∃ b1 c1, aux Q (s.ord.numVars + 1) k b c = some (b1, c1) ∧
      (cleanUpTabs ds (allIds s.ord) b1).st.WF ∧
      (c1.fixResults b1.forward).Valid (cleanUpTabs ds (allIds s.ord) b1).st Γ ∧
      s.Le (cleanUpTabs ds (allIds s.ord) b1).st ∧ s.Keep (cleanUpTabs ds (allIds s.ord) b1).st ∧
      Rep (cleanUpTabs ds (allIds s.ord) b1).st (b1.forward e) F := by
  have g0 : ∀ a r, b.req a = some r → opn D01 r ∧ k ≤ s.ord.lvl r.id := by
    intro a r hr
    rcases st.gr.fr a r hr with h | ⟨h1, h2, h3⟩
    · exact absurd h (init_no s a r)
    · exact ⟨Or.inr ⟨h1, h2⟩, h3⟩
  obtain ⟨b1, c1, G1, e1, r1, d1, l1⟩ := aux_spec H (s.ord.numVars + 1) k hk (by omega) b G c st.qi st.ci
    (fun a r hr _ => (g0 a r hr).1)
  have hf : ∀ a r, b1.req a = some r → isF r.cell := by
    intro a r hr
    by_cases h : k ≤ s.ord.lvl r.id
    · exact d1 a r hr h
    · have := (g0 a r ((l1 a r (by omega)).1 hr)).2
      exact absurd this h
  have hfwd : ∀ a r, b1.req a = some r → ∃ t, r.cell = .fwd t := fun a r hr => (hf a r hr).get
  have v1 := st.val.mono r1.stp
  have fin := (fwd_val r1.qi.ei v1 (Val.eva v1) (fun r hr _ _ => hfwd _ r hr)).1
  have kp : BF.Keep s b1 := by
    refine ⟨st.gr.le.trans r1.stp.st, fun ext h => ?_, fun h => r1.stp.num (st.gr.num h)⟩
    have q0 := (BF.Keep.init s (P := QP)).2.1 ext h
    have q1 := (st.gr.toGrow.stp st.ref).keep ext q0 (fun a r hr => absurd hr (init_no s a r))
    exact (r1.stp.keep ext q1.1 q1.2).1
  obtain ⟨cc, sn, q⟩ := cleanUpTabs_spec ds (allIds s.ord) b1 r1.qi.ei.sh.cinv
  have hle : b1.st.Le (cleanUpTabs ds (allIds s.ord) b1).st :=
    ⟨sn.ord, fun a n hn => by rw [sn.heap]; exact hn⟩
  exact ⟨b1, c1, e1, cc.wf, (r1.ci.fix r1.qi.ei hf).mono hle, kp.1.trans hle, kp.final hfwd sn,
    SameNodes.rep sn fin⟩

theorem start_ask {s : Store} (w : s.WF) {c : Cache} (v : c.Valid s Γ) {p F} (hp : qPd Q s p F)
    (hq : fresh (.pend p)) (hd : D01 (qR.que p)) (hi : 1 ≤ qR.top s.ord p ∧ qR.top s.ord p ≤ s.ord.numVars) :
    ∃ b e G, ask (BF.init s : BF QP) (qR.que p) (qR.top s.ord p) p = some (b, e) ∧
      Start Γ Q s.ord (s.ord.lvl (qR.top s.ord p)) s F b c e G := by
  obtain ⟨b, e, G, h1, h2, h3, h4, h5, h6, h7⟩ := ask_spec (init_qi w) (k := s.ord.lvl (qR.top s.ord p))
    (fun a r h => absurd h (init_no s a r)) hp hq hi (Nat.le_refl _)
  exact ⟨b, e, G, h1, h2, (init_ci v).grow h3.toGrow,
    h3.weaken (fun d hd' => by rw [hd']; exact hd) (Nat.le_refl _), h4, h5⟩

theorem existsBF_ok {A : Assoc} {code : Nat} (hN : Γ Cache.opNAND = fun F ρ => !F ρ) (hΓ : Γ code = exFn A.dom)
    (h0 : code ≠ 0) (h1 : code < 65536) {c : Core} {δ} {f : Edge} (ha : A.OK c.st.ord) (w : c.st.WF)
    (v : c.ca.Valid c.st Γ) (hδ : Lab c.st δ) (hf : c.st.EOK f) :
    COk Γ c δ (existsBF A code c f) (exFn A.dom (den δ f)) := by
  have rf := hδ.rep w hf
  have H : Hyp ⟨A, code, false⟩ Γ c.st.ord := ⟨hN, hΓ, h0, h1, ha⟩
  have hsem : Γ code (fun ρ => den δ f ρ && den δ one ρ) = exFn A.dom (den δ f) := by rw [hΓ, den_one_and hδ]
  by_cases hl : A.last < (c.st.ord.lvl f.id : Int)
  · simp only [existsBF, if_pos hl]
    refine ⟨c, f, δ, rfl, Ext.refl w v hδ, hf, ?_⟩
    exact (exFn_id fun ρ σ h => ha.below w hδ hf hl h).symm
  · simp only [existsBF, if_neg hl]
    have f0 : f.id ≠ 0 := by
      intro h0
      have := ha.lt
      have := w.ord.bound
      rw [h0] at hl; simp only [Order.lvl, if_true] at hl; omega
    have hi := eok_range w hf f0
    have hlv := w.ord.lvl_lt hi.1 hi.2
    cases hc : c.ca.lookup f one code with
    | some r =>
      obtain ⟨ok, hs⟩ := v.lookup hc
      exact ⟨c, r, δ, rfl, Ext.refl w v hδ, ok, by rw [hs δ hδ, hsem]⟩
    | none =>
      have hm : minId2 c.st.ord (f, one) = f.id := by
        have hb := w.ord.bound
        have h0 : c.st.ord.lvl one.id = constIndex := by simp [one, Order.lvl]
        unfold minId2
        exact if_pos (by show c.st.ord.lvl f.id < c.st.ord.lvl one.id; omega)
      obtain ⟨b, e, G, e1, st⟩ := start_ask (Q := ⟨A, code, false⟩) w v (p := .main f one)
        (F := exFn A.dom (den δ f)) ⟨den δ f, fun _ => true, rf, .one, fun _ => rfl, by
          show _ = exFn A.dom fun ρ => den δ f ρ && true
          simp only [Bool.and_true]⟩ trivial (Or.inl rfl)
        (by show 1 ≤ minId2 c.st.ord (f, one) ∧ minId2 c.st.ord (f, one) ≤ _; rw [hm]; exact hi)
      replace e1 : ask (BF.init c.st : BF QP) 0 (minId2 c.st.ord (f, one)) (.main f one) = some (b, e) := e1
      replace st : Start Γ ⟨A, code, false⟩ c.st.ord (c.st.ord.lvl (minId2 c.st.ord (f, one))) c.st
        (exFn A.dom (den δ f)) b c.ca e G := st
      rw [hm] at e1 st
      obtain ⟨b1, c1, e2, w', v', le', kp', rr⟩ := whole H (by omega) st [0, 2]
      simp only [e1, e2]
      refine cok_of hδ w w' ?_ le' kp' rr
      have rf' := rf.mono le'
      refine v'.insert h0 h1 rf'.eok (Store.EOK_one _) rr.eok ?_
      intro δ2 l2
      rw [hΓ, den_one_and l2, l2.rep_eq rf', l2.rep_eq rr]

theorem relStart_ok {A : Assoc} {code : Nat} {s : Store} (H : Hyp ⟨A, code, true⟩ Γ s.ord) (w : s.WF)
    {c : Cache} (v : c.Valid s Γ) {f g : Edge} {X Y} (rf : Rep s f X) (rg : Rep s g Y) (hc : f.id ≠ 0 ∨ g.id ≠ 0) :
    ∃ b c' e lo G, relStart A f g (BF.init s) c = some ⟨b, c', e, lo⟩ ∧
      Start Γ ⟨A, code, true⟩ s.ord (s.ord.lvl (minId2 s.ord (f, g))) s (exFn A.dom fun ρ => X ρ && Y ρ) b c' e G := by
  have qi := init_qi (Q := ⟨A, code, true⟩) w
  have ci := init_ci (Γ := Γ) v
  obtain ⟨hi, -⟩ := minId2_spec w rf.eok rg.eok hc
  have hle := minId2_le s.ord (f, g)
  simp only at hle
  have hst : (BF.init s : BF QP).st = s := rfl
  by_cases hl : A.last < (s.ord.lvl (minId2 s.ord (f, g)) : Int)
  · simp only [relStart, hst, if_pos hl]
    have hF : (exFn A.dom fun ρ => X ρ && Y ρ) = fun ρ => X ρ && Y ρ := exFn_id fun ρ σ h => by
      simp only [H.below w rfl rf (by show A.last < _; omega) h, H.below w rfl rg (by show A.last < _; omega) h]
    rw [hF]
    have neg : ∀ {b : BF QP} {G e}, b.Val G e (fun ρ => !(X ρ && Y ρ)) → b.Val G e.not (fun ρ => X ρ && Y ρ) := by
      intro b G e v
      have := v.phase true
      simp only [Bool.true_xor, Bool.not_not] at this
      rw [show e.phase true = e.not by simp [Edge.phase, Edge.not]] at this
      exact this
    cases hop : opAnd f g with
    | some r =>
      obtain ⟨rr, -⟩ := term_rep w opAnd_law rf rg hop
      exact ⟨_, _, _, _, _, rfl, qi, ci, Gr.refl _ _, fun _ h => h, Or.inl rr⟩
    | none =>
      simp only
      have hΓ : Γ Cache.opNAND (fun ρ => X ρ && Y ρ) = fun ρ => !(X ρ && Y ρ) := by rw [H.nand]
      cases hlk : c.lookup f g Cache.opNAND with
      | none =>
        obtain ⟨b, e, G, e1, st⟩ := start_ask (Q := ⟨A, code, true⟩) w v (p := .nand 1 f g)
          (F := fun ρ => !(X ρ && Y ρ)) ⟨X, Y, rf, rg, rfl⟩ (by show (1:Nat) ≠ 0; decide) (Or.inr rfl) hi
        replace e1 : ask (BF.init s : BF QP) 1 (minId2 s.ord (f, g)) (.nand 1 f g) = some (b, e) := e1
        exact ⟨b, c, e.not, s.ord.lvl (minId2 s.ord (f, g)), G, by simp only [e1, Option.map_some], st.qi, st.ci, st.gr, st.ref, neg st.val⟩
      | some r =>
        have lk : ∀ k, k ≤ s.ord.lvl f.id → k ≤ s.ord.lvl g.id →
            (BF.init s : BF QP).Val G0 r (fun ρ => !(X ρ && Y ρ)) ∧ k ≤ s.ord.lvl r.id := fun k kf kg => by
          have := ci.lookup w rfl (fun F v h => by rw [H.nand]; exact h.not) rf rg kf kg hlk
          rw [hΓ] at this; exact this
        have val := (lk 0 (Nat.zero_le _) (Nat.zero_le _)).1
        refine ⟨_, _, _, _, _, rfl, qi, ?_, Gr.refl _ _, fun _ h => h, neg val⟩
        exact ci.insert (by decide) (by decide) rf rg (by rw [hΓ]; exact val) fun k kf kg => (lk k kf kg).2
  · simp only [relStart, hst, if_neg hl]
    obtain ⟨b, e, G, e1, st⟩ := start_ask (Q := ⟨A, code, true⟩) w v (p := .main f g)
      (F := exFn A.dom fun ρ => X ρ && Y ρ) ⟨X, Y, rf, rg, fun h => (by cases h), rfl⟩ trivial (Or.inl rfl) hi
    replace e1 : ask (BF.init s : BF QP) 0 (minId2 s.ord (f, g)) (.main f g) = some (b, e) := e1
    exact ⟨b, c, e, s.ord.lvl (minId2 s.ord (f, g)), G, by simp only [e1, Option.map_some], st⟩

theorem relProdBF_ok {A : Assoc} {code : Nat} (hN : Γ Cache.opNAND = fun F ρ => !F ρ) (hΓ : Γ code = exFn A.dom)
    (h0 : code ≠ 0) (h1 : code < 65536) {c : Core} {δ} {f0 g0 : Edge} (ha : A.OK c.st.ord) (w : c.st.WF)
    (v : c.ca.Valid c.st Γ) (hδ : Lab c.st δ) (hf0 : c.st.EOK f0) (hg0 : c.st.EOK g0) :
    COk Γ c δ (relProdBF A code c f0 g0) (exFn A.dom fun ρ => den δ f0 ρ && den δ g0 ρ) := by
  have H : Hyp ⟨A, code, true⟩ Γ c.st.ord := ⟨hN, hΓ, h0, h1, ha⟩
  unfold relProdBF
  cases hop : opRelProd f0 g0 with
  | some r =>
    obtain ⟨k1, k2⟩ := opRelProd_hit w hδ hf0 hg0 hop A.dom
    exact ⟨c, r, δ, rfl, Ext.refl w v hδ, k1, k2⟩
  | none =>
    simp only
    obtain ⟨X, Y, rf, rg, hh⟩ := norm_pair (hδ.rep w hf0) (hδ.rep w hg0)
    have hXY : (fun ρ => den δ f0 ρ && den δ g0 ρ) = fun ρ => X ρ && Y ρ := by
      rcases hh with ⟨-, -, rfl, rfl⟩ | ⟨-, -, rfl, rfl⟩
      · rfl
      · funext ρ; rw [Bool.and_comm]
    have hc : (normalize (f0, g0)).1.id ≠ 0 ∨ (normalize (f0, g0)).2.id ≠ 0 := by
      have := relProd_miss w hf0 hg0 hop
      rcases hh with ⟨e1, e2, -⟩ | ⟨e1, e2, -⟩ <;> rw [e1, e2]
      · exact this
      · exact this.symm
    rw [hXY]
    clear hh
    generalize (normalize (f0, g0)).1 = f at *
    generalize (normalize (f0, g0)).2 = g at *
    cases hlk : c.ca.lookup f g code with
    | some r =>
      obtain ⟨ok, hs⟩ := v.lookup hlk
      refine ⟨c, r, δ, rfl, Ext.refl w v hδ, ok, ?_⟩
      rw [hs δ hδ, hΓ, hδ.rep_eq rf, hδ.rep_eq rg]
    | none =>
      simp only
      obtain ⟨hi, -⟩ := minId2_spec w rf.eok rg.eok hc
      have hlv := w.ord.lvl_lt hi.1 hi.2
      obtain ⟨b, c', e, lo, G, e1, st⟩ := relStart_ok H w v rf rg hc
      obtain ⟨b1, c1, e2, w', v', le', kp', rr⟩ := whole H (by omega) st [0, 1, 2]
      simp only [e1, e2]
      refine cok_of hδ w w' ?_ le' kp' rr
      have rf' := rf.mono le'
      have rg' := rg.mono le'
      refine v'.insert h0 h1 rf'.eok rg'.eok rr.eok ?_
      intro δ2 l2
      rw [hΓ, l2.rep_eq rf', l2.rep_eq rg', l2.rep_eq rr]

end QB

/-- The environment `E` with the breadth-first quantifiers of the code. -/
def Env.bf (E : Env) : Env := { E with existsBF := QB.existsBF, relProdBF := QB.relProdBF }

theorem Env.bf_sound {E : Env} (h : E.Sound) : E.bf.Sound :=
  ⟨h.reorder, h.repack, h.reorderCheck, h.repackCheck,
    fun _ _ _ hN hΓ h0 h1 _ _ _ ha w v l hf => QB.existsBF_ok hN hΓ h0 h1 ha w v l hf,
    fun _ _ _ _ hN hΓ h0 h1 _ _ _ _ _ _ _ _ ha w v l hf hg => QB.relProdBF_ok hN hΓ h0 h1 ha w v l hf hg,
    h.rnd⟩

end Cal
