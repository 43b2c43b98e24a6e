import Verif.CTL.FixedPointOps3

/-!
# The invariant is kept: looking at an edge
-/

namespace Verif
namespace CTL

set_option linter.unusedSectionVars false
set_option linter.unusedSimpArgs false

variable {κ : Type} [DecidableEq κ]

open St

variable {G : Graph κ} {V : κ → Prop} {lev : κ → Nat} {H K X : List (EId κ)} {s : St κ}

/-- The invariant does not depend on the order of the references held. -/
theorem Inv.perm {H' K' : List (EId κ)} (h : Inv G V lev H K X s) (hH : H'.Perm H) (hK : ∀ e, e ∈ K' ↔ e ∈ K) :
    Inv G V lev H' K' X s := by
  have htot : ∀ e, total G H' s e = total G H s e := fun e => by simp only [total, hH.count_eq]
  exact {
    rc := fun e => by rw [htot]; exact h.rc e
    range := fun e => by rw [htot]; exact h.range e
    depT := h.depT
    one := h.one
    czero := h.czero
    tgt := h.tgt
    ns := h.ns
    clos := h.clos
    pend := fun e h1 h2 h3 h4 => h.pend e h1 h2 h3 (by rw [← hK]; exact h4)
    wait := h.wait
    known := fun e h1 h2 => h.known e h1 (by rw [← hK]; exact h2)
    relW := h.relW
    relN := h.relN
    relD := h.relD
    uniq := h.uniq
    dist := h.dist
    distLe := h.distLe
    depD := h.depD
    stat := h.stat }

theorem releaseIf0_edge_ne {e e' : EId κ} (hne : e' ≠ e) : (s.releaseIf0 e).edge e' = s.edge e' := by
  unfold St.releaseIf0; split
  · exact upE_ne _ hne _
  · rfl

theorem notify_edge_ne {a : Asg} {e e' : EId κ} (hne : e' ≠ e) : (s.notifyDep G a e).edge e' = s.edge e' := by
  have h1 : ∀ s : St κ, (s.releaseIf0 e).edge e' = s.edge e' := by
    intro s; unfold St.releaseIf0; split
    · exact upE_ne _ hne _
    · rfl
  have h2 : ∀ s : St κ, (s.deref e).edge e' = s.edge e' := fun s => upE_ne _ hne _
  unfold St.notifyDep
  rw [h1, h2]
  split
  · rfl
  · split
    · unfold St.pushDependency
      split
      · rfl
      · simp [St.ref, upE_ne _ hne]
    · unfold St.pushNegation
      simp only
      split <;> simp [St.ref, upE_ne _ hne]

theorem finalAssign_edge_ne {c : κ} {a : Asg} {e : EId κ} (hne : e ∉ (s.conf c).deps) :
    (s.finalAssign G c a).edge e = s.edge e := by
  have key : ∀ (L : List (EId κ)) (s : St κ), e ∉ L → (L.foldl (St.notifyDep G a) s).edge e = s.edge e := by
    intro L
    induction L with
    | nil => exact fun _ _ => rfl
    | cons x L ih =>
      intro s hn
      simp only [List.mem_cons, not_or] at hn
      rw [List.foldl_cons, ih _ hn.2, notify_edge_ne hn.1]
  exact key _ _ hne

/-- A released edge is in no dependency set. -/
theorem Inv.released_dep (h : Inv G V lev H K X s) {e : EId κ} (he : (s.edge e).refcnt = -1) (c : κ) :
    e ∉ (s.conf c).deps := by
  intro hd
  have h1 := depCnt_pos (h.depT c e hd) hd
  have h2 : 0 < total G H s e := by unfold total; omega
  have := h.refcnt_pos h2
  omega

/-- What the loop over the targets tells. -/
theorem Inv.scan_facts (hV : G.Solution V) (h : Inv G V lev H K X s) {e : EId κ}
    (hu : s.asg e.1 ≠ .unknown) (hr : inRange G e) (hrc : (s.edge e).refcnt ≠ -1) (r : Scan κ)
    (hrs : ScanOK s none (s.edge e).targets r) :
    (G.isNeg e = true → r.allOne = true → Refuted G s e) ∧
    (G.isNeg e = true → r.hasCZero = true → V e.1) ∧
    (G.isNeg e = false → r.allOne = true → V e.1) ∧
    (G.isNeg e = false → r.hasCZero = true → Refuted G s e) := by
  obtain ⟨x, hx, hm⟩ := orig_of_range hr
  obtain ⟨ht1, ht2⟩ := h.tgt e hrc hu hr
  have hone : r.allOne = true → ∀ t ∈ G.origTargets e, s.asg t = .one := by
    intro ha t ht
    by_cases hm : t ∈ (s.edge e).targets
    · exact hrs.one t hm (by rw [hrs.all ha]; simp)
    · exact ht2 t ht hm
  have hcz : r.hasCZero = true → ∃ t ∈ G.origTargets e, s.asg t = .czero := by
    intro hc
    obtain ⟨t, h1, h2⟩ := hrs.cz hc
    exact ⟨t, ht1 t (hrs.sub t h1), h2⟩
  have hor : G.origTargets e = x.targets := by simp only [Graph.origTargets, hx]
  have hng : G.isNeg e = x.neg := by simp only [Graph.isNeg, hx]
  refine ⟨fun hn ha => ?_, fun hn hc => ?_, fun hn ha => ?_, fun hn hc => ?_⟩
  · simp only [Refuted, hn, if_true]; exact hone ha
  · refine (hV.fix _).2 ⟨x, hm, ?_⟩
    unfold HEdge.Fires
    rw [if_pos (by rw [← hng]; exact hn)]
    obtain ⟨t, h1, h2⟩ := hcz hc
    exact ⟨t, by rw [← hor]; exact h1, h.czero t h2⟩
  · refine (hV.fix _).2 ⟨x, hm, ?_⟩
    unfold HEdge.Fires
    rw [if_neg (by rw [← hng, hn]; simp), ← hor]
    exact fun t ht => h.one t (hone ha t ht)
  · simp only [Refuted, hn, Bool.false_eq_true, if_false]; exact hcz hc

theorem releaseIf0_held (h : Inv G V lev H K X s) {e : EId κ} (he : e ∈ H) : s.releaseIf0 e = s := by
  unfold St.releaseIf0
  have := h.held_pos he
  rw [if_neg (by omega)]

/-- Closing an edge, and its source when that was the last one. -/
theorem Inv.closeLast (hl : G.Layered lev) (hV : G.Solution V) (h : Inv G V lev H K X s) (hHK : ∀ x ∈ K, x ∈ H)
    (c : κ) (hz : s.asg c = .zero) :
    Inv G V lev H K X (if (s.conf c).nsuccs = 0 then s.finalAssign G c .czero else s) ∧
      ConfFrame c s (if (s.conf c).nsuccs = 0 then s.finalAssign G c .czero else s) ∧
      ((if (s.conf c).nsuccs = 0 then s.finalAssign G c .czero else s) = s ∨
        (if (s.conf c).nsuccs = 0 then s.finalAssign G c .czero else s).isDone c = true) ∧
      ∀ e, e ∉ (s.conf c).deps →
        (if (s.conf c).nsuccs = 0 then s.finalAssign G c .czero else s).edge e = s.edge e := by
  split
  · rename_i h0
    have hnV : ¬ V c := h.notV hV hz fun e he => by
      rw [h.ns c hz] at h0
      have := List.countP_eq_zero.1 h0 e he
      simpa using this
    obtain ⟨h1, h2⟩ := h.finalAssign hl hHK hz (.inr ⟨rfl, hnV⟩)
    obtain ⟨h3, h4⟩ := finalAssign_frame (.inr rfl) h2
    exact ⟨h1, h3, .inr (by rw [isDone_iff, h4]; exact .inr rfl), fun e he => finalAssign_edge_ne he⟩
  · exact ⟨h, ConfFrame.refl c s, .inl rfl, fun _ _ => rfl⟩

/-- The result of looking at an edge whose reference is kept. -/
theorem Inv.markHandled_keep (hl : G.Layered lev) (hV : G.Solution V) (h : Inv G V lev H K X s)
    (hHK : ∀ x ∈ K, x ∈ H) {e : EId κ} (he : e ∈ H) (hz : s.asg e.1 = .zero) (hr : inRange G e)
    (ho : s.isOpen e = true) (hf : Refuted G s e) :
    Inv G V lev H K X (s.markHandled G e false) ∧ ConfFrame e.1 s (s.markHandled G e false) ∧
      ((s.markHandled G e false).asg e.1 = .zero → (s.markHandled G e false).isOpen e = false) := by
  have h1 := h.close hz hr ho hf
  unfold St.markHandled
  simp only [Bool.false_eq_true, if_false]
  generalize hs1 : (s.upC e.1 fun c => { c with nsuccs := c.nsuccs - 1 }).upE e
      (fun r => { r with handled := true }) = s1 at h1 ⊢
  have hcf : ConfFrame e.1 s s1 := by
    subst hs1
    refine ⟨rfl, rfl, fun c' hc => ?_, fun c' hc => ?_, .inl ⟨?_, rfl, ?_⟩⟩
    · simp only [St.asg, upE_conf, upC_ne _ hc]
    · simp only [upE_conf, upC_ne _ hc]
    · simp [St.asg]
    · simp
  have hz1 : s1.asg e.1 = .zero := by subst hs1; simpa [St.asg] using hz
  have ho1 : s1.isOpen e = false := by subst hs1; simp [St.isOpen]
  obtain ⟨h2, h3, h4, _⟩ := h1.closeLast hl hV hHK e.1 hz1
  rw [releaseIf0_held h2 he]
  refine ⟨h2, hcf.trans h3, fun hz2 => ?_⟩
  rcases h4 with h4 | h4
  · rw [h4]; exact ho1
  · rw [zero_not_done hz2] at h4; cases h4

/-- The result of closing an edge whose reference is given up. -/
theorem Inv.markHandled_only (hl : G.Layered lev) (hV : G.Solution V) {e : EId κ}
    (h : Inv G V lev (e :: H) (e :: K) X s) (hHK : ∀ x ∈ K, x ∈ H) (hz : s.asg e.1 = .zero)
    (hr : inRange G e) (ho : s.isOpen e = true) (hf : Refuted G s e) (ht : total G H s e = 0) (hX : e ∉ X) :
    Inv G V lev H K X (s.markHandled G e true) ∧ ConfFrame e.1 s (s.markHandled G e true) ∧
      ((s.markHandled G e true).edge e).refcnt = -1 ∧
      (∀ e', e' ≠ e → (s.edge e').refcnt = -1 → (s.markHandled G e true).edge e' = s.edge e') ∧
      ((s.markHandled G e true).isDone e.1 = true ∨
        ∀ e', e' ≠ e → (s.markHandled G e true).edge e' = s.edge e') := by
  have h1 := h.close hz hr ho hf
  unfold St.markHandled
  simp only [if_true]
  generalize hs1 : (s.upC e.1 fun c => { c with nsuccs := c.nsuccs - 1 }).upE e
      (fun r => { r with handled := true }) = s1 at h1 ⊢
  have hcf : ConfFrame e.1 s s1 := by
    subst hs1
    refine ⟨rfl, rfl, fun c' hc => ?_, fun c' hc => ?_, .inl ⟨?_, rfl, ?_⟩⟩
    · simp only [St.asg, upE_conf, upC_ne _ hc]
    · simp only [upE_conf, upC_ne _ hc]
    · simp [St.asg]
    · simp
  have hne1 : ∀ e', e' ≠ e → s1.edge e' = s.edge e' := by
    intro e' hne; subst hs1; rw [upE_ne _ hne]; rfl
  have hz1 : s1.asg e.1 = .zero := by subst hs1; simpa [St.asg] using hz
  have ho1 : s1.isOpen e = false := by subst hs1; simp [St.isOpen]
  have h2 : Inv G V lev H K X (s1.deref e) :=
    h1.drop (fun e' hne => by simp [hne]) (fun _ _ ho => by rw [ho1] at ho; cases ho)
      (fun _ hx => absurd hx hX)
  have hcf2 : ConfFrame e.1 s (s1.deref e) := hcf.trans (upE_confFrame _ _ _ _)
  have hne2 : ∀ e', e' ≠ e → (s1.deref e).edge e' = s.edge e' := by
    intro e' hne; rw [← hne1 e' hne]; exact upE_ne _ hne _
  have hz2 : (s1.deref e).asg e.1 = .zero := hz1
  have htot2 : total G H (s1.deref e) e = 0 := by
    have : depCnt G (s1.deref e) e = depCnt G s e := by
      refine depCnt_congr (fun t => ?_) e
      subst hs1
      by_cases hc : t = e.1
      · subst hc; simp [St.deref]
      · simp [St.deref, upC_ne _ hc]
    have h3 : (s1.deref e).W = s.W := by subst hs1; rfl
    have h4 : (s1.deref e).N = s.N := by subst hs1; rfl
    have h5 : (s1.deref e).D = s.D := by subst hs1; rfl
    simp only [total, this, h3, h4, h5]
    exact ht
  have hdep2 : e ∉ ((s1.deref e).conf e.1).deps := by
    intro hd
    have := depCnt_pos (h2.depT e.1 e hd) hd
    have h3 : 0 < total G H (s1.deref e) e := by unfold total; omega
    omega
  have hrc2 : ((s1.deref e).edge e).refcnt = 0 := by
    have h3 := h1.held_pos (e := e) (by simp)
    rcases h2.rc e with ⟨h4, _⟩ | h4
    · have : ((s1.deref e).edge e).refcnt = (s1.edge e).refcnt - 1 := by simp [St.deref]
      omega
    · rw [h4, htot2]; rfl
  obtain ⟨h3, h4, h5, h6⟩ := h2.closeLast hl hV hHK e.1 hz2
  generalize hs3 : (if ((s1.deref e).conf e.1).nsuccs = 0 then (s1.deref e).finalAssign G e.1 .czero
    else (s1.deref e)) = s3 at h3 h4 h5 h6 ⊢
  have hrc3 : (s3.edge e).refcnt = 0 := by rw [h6 e hdep2]; exact hrc2
  have hne3 : ∀ e', e' ≠ e → (s3.releaseIf0 e).edge e' = s3.edge e' := by
    intro e' hne; exact releaseIf0_edge_ne hne
  have htot3 : total G H s3 e = 0 := by
    rcases h3.rc e with ⟨_, h7⟩ | h7
    · exact h7
    · omega
  refine ⟨h3.release0 e (fun hk => hHK e hk), (hcf2.trans h4).trans (releaseIf0_conf _ _ _), ?_, ?_, ?_⟩
  · unfold St.releaseIf0; rw [if_pos hrc3]; simp [St.release]
  · intro e' hne hrc
    rw [hne3 e' hne]
    rw [h6 e' (h2.released_dep (by rw [hne2 e' hne]; exact hrc) e.1), hne2 e' hne]
  · rcases h5 with h5 | h5
    · right
      intro e' hne
      rw [hne3 e' hne, h5, hne2 e' hne]
    · left
      have := releaseIf0_frame s3 e
      rw [isDone_iff] at h5 ⊢
      simpa only [St.asg, this.conf] using h5

/-- The outcomes of looking at a new edge. -/
structure OnlyRes (G : Graph κ) (V : κ → Prop) (lev : κ → Nat) (H K X : List (EId κ)) (e : EId κ)
    (s s' : St κ) : Prop where
  frame : ConfFrame e.1 s s'
  released : ∀ e', e' ≠ e → (s.edge e').refcnt = -1 → s'.edge e' = s.edge e'
  others : s'.isDone e.1 = true ∨ ∀ e', e' ≠ e → s'.edge e' = s.edge e'
  inv : (Inv G V lev (e :: H) (e :: K) X s' ∧ (s'.isDone e.1 = true ∨
      ((s'.edge e).processed = (s.edge e).processed ∧ (s'.edge e).status = (s.edge e).status ∧
        s'.isOpen e = true))) ∨
    (Inv G V lev H K X s' ∧ (s'.edge e).refcnt = -1)

/-- Looking at a new edge. -/
theorem Inv.checkOnly (hl : G.Layered lev) (hV : G.Solution V) (addr : EId κ → Nat) {e : EId κ}
    (h : Inv G V lev (e :: H) (e :: K) X s) (hHK : ∀ x ∈ K, x ∈ H) (hz : s.asg e.1 = .zero)
    (hr : inRange G e) (ho : s.isOpen e = true) (ht : total G H s e = 0) (hX : e ∉ X) :
    OnlyRes G V lev H K X e s (s.checkOnly G addr e) := by
  have hHK' : ∀ x ∈ e :: K, x ∈ e :: H := by
    intro x hx
    rcases List.mem_cons.1 hx with rfl | hx
    · simp
    · exact List.mem_cons_of_mem _ (hHK x hx)
  have hhd : (s.edge e).handled = false := by
    simp only [St.isOpen, Bool.and_eq_true, Bool.not_eq_true'] at ho; exact ho.1
  have hsd := zero_not_done hz
  have hrc := h.held_pos (e := e) (by simp)
  have hsc := scan_ok s (s.edge e).targets none
  obtain ⟨f1, f2, f3, f4⟩ := h.scan_facts hV (by rw [hz]; simp) hr (by omega) _ hsc
  have h1 := h.setTargets e (s.scan none (s.edge e).targets).targets hsc.sub hsc.one
  generalize hr' : s.scan none (s.edge e).targets = r at *
  generalize hs1 : (s.upE e fun x => { x with targets := r.targets }) = s1 at *
  have key : s.checkOnly G addr e = s1 ∨
      (V e.1 ∧ s.checkOnly G addr e = (s1.finalAssign G e.1 .one).checkTail e true) ∨
      (Refuted G s e ∧ s.checkOnly G addr e = (s1.markHandled G e true).checkTail e true) := by
    unfold St.checkOnly St.checkHead
    simp only [hhd, hsd, Bool.false_eq_true, if_false, hr', hs1]
    cases hng : G.isNeg e <;> cases ha : r.allOne <;> cases hcz : r.hasCZero <;>
      simp only [hng, ha, hcz, Bool.false_eq_true, if_false, if_true]
    · obtain ⟨u, hu⟩ := hsc.lastSome ha hcz
      simp only [hu]; exact .inl trivial
    · exact .inr (.inr ⟨f4 hng hcz, trivial⟩)
    · exact .inr (.inl ⟨f3 hng ha, trivial⟩)
    · exact .inr (.inl ⟨f3 hng ha, trivial⟩)
    · obtain ⟨u, hu⟩ := hsc.lastSome ha hcz
      simp only [hu]; exact .inl trivial
    · exact .inr (.inl ⟨f2 hng hcz, trivial⟩)
    · exact .inr (.inr ⟨f1 hng ha, trivial⟩)
    · exact .inr (.inr ⟨f1 hng ha, trivial⟩)
  have hz1 : s1.asg e.1 = .zero := by subst hs1; exact hz
  have ho1 : s1.isOpen e = true := by subst hs1; simpa [St.isOpen] using ho
  have ht1 : total G H s1 e = 0 := by subst hs1; exact ht
  have hcf1 : ConfFrame e.1 s s1 := by subst hs1; exact upE_confFrame _ _ _ _
  have hne1 : ∀ e', e' ≠ e → s1.edge e' = s.edge e' := by
    intro e' hne; subst hs1; exact upE_ne _ hne _
  have hst1 : (s1.edge e).status = (s.edge e).status ∧ (s1.edge e).processed = (s.edge e).processed := by
    subst hs1; simp
  have href1 : Refuted G s e → Refuted G s1 e := by
    intro hf; subst hs1; exact hf
  rcases key with hc | ⟨hv, hc⟩ | ⟨hf, hc⟩
  · rw [hc]
    exact ⟨hcf1, fun e' hne _ => hne1 e' hne, .inr hne1, .inl ⟨h1, .inr ⟨hst1.2, hst1.1, ho1⟩⟩⟩
  · obtain ⟨h2, h3⟩ := h1.finalAssign hl hHK' hz1 (.inl ⟨rfl, hv⟩)
    obtain ⟨h4, h5⟩ := finalAssign_frame (.inl rfl) h3
    have htail : (s1.finalAssign G e.1 .one).checkTail e true = s1.finalAssign G e.1 .one := by
      unfold St.checkTail
      simp only [Bool.not_true, Bool.and_false, Bool.false_eq_true, if_false]
      exact releaseIf0_held h2 (by simp)
    rw [hc, htail]
    have hdn : (s1.finalAssign G e.1 .one).isDone e.1 = true := by rw [isDone_iff, h5]; exact .inl rfl
    exact ⟨hcf1.trans h4, fun e' hne hrc' => by
      rw [finalAssign_edge_ne (h1.released_dep (by rw [hne1 e' hne]; exact hrc') e.1), hne1 e' hne],
      .inl hdn, .inl ⟨h2, .inl hdn⟩⟩
  · obtain ⟨h2, h3, h4, h5, h6⟩ := h1.markHandled_only hl hV hHK hz1 hr ho1 (href1 hf) ht1 hX
    have htail : (s1.markHandled G e true).checkTail e true = s1.markHandled G e true := by
      unfold St.checkTail
      simp only [Bool.not_true, Bool.and_false, Bool.false_eq_true, if_false]
      unfold St.releaseIf0
      rw [if_neg (by rw [h4]; decide)]
    rw [hc, htail]
    refine ⟨hcf1.trans h3, fun e' hne hrc' => by
      rw [h5 e' hne (by rw [hne1 e' hne]; exact hrc'), hne1 e' hne], ?_, .inr ⟨h2, h4⟩⟩
    rcases h6 with h6 | h6
    · exact .inl h6
    · exact .inr fun e' hne => by rw [h6 e' hne, hne1 e' hne]

end CTL
end Verif
