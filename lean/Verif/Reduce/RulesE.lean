import Verif.Reduce.Box

/-!
# Rules E, F, M, N, O, P
-/

namespace Verif
namespace Reduce

/-! ### Changes that keep the frame -/

theorem Frame.skipTrans {s : MState} {N : RNet} (h : Frame s N) (t : Nat) : Frame s (N.skipTrans t) := by
  refine ⟨h.low, fun i hi htf => ?_, fun i hi htf => ?_⟩
  · have hit : i ≠ t := by rintro rfl; rw [skipTrans_tr, if_pos rfl] at hi; cases hi
    rw [skipTrans_tr, if_neg hit] at hi ⊢
    exact h.on i hi htf
  · have hit : i ≠ t := by rintro rfl; rw [skipTrans_tr, if_pos rfl] at hi; cases hi
    rw [skipTrans_tr, if_neg hit] at hi ⊢
    exact h.off i hi htf

/-- All transitions that are left may fire. -/
def Live (s : MState) (N : RNet) : Prop := ∀ t, (N.tr t).skip = false → s.tf t = true

theorem Live.skipTrans {s : MState} {N : RNet} (h : Live s N) (t : Nat) : Live s (N.skipTrans t) := by
  intro i hi
  have hit : i ≠ t := by rintro rfl; rw [skipTrans_tr, if_pos rfl] at hi; cases hi
  rw [skipTrans_tr, if_neg hit] at hi
  exact h i hi

/-- Everything that is needed about the net while its arcs are removed. -/
structure EHyp (s : MState) (N : RNet) : Prop where
  wf : N.WF
  frame : Frame s N
  live : Live s N

/-- The relation between the nets. -/
structure EStep (Q : Nat → Bool) (s : MState) (p : Nat) (N N' : RNet) : Prop where
  fine : Fine Q N N'
  frame : Frame s N'
  live : Live s N'
  init : N'.init = N.init
  bad : N'.bad = N.bad
  shrink : ∀ t, arcAt (N.tr t).pre p = none → arcAt (N'.tr t).pre p = none

theorem EStep.refl {Q : Nat → Bool} {s : MState} {p : Nat} {N : RNet} (h : EHyp s N) : EStep Q s p N N :=
  ⟨Fine.refl h.wf, h.frame, h.live, rfl, rfl, fun _ h => h⟩

theorem EStep.hyp {Q : Nat → Bool} {s : MState} {p : Nat} {N N' : RNet} (h : EStep Q s p N N') : EHyp s N' :=
  ⟨h.fine.1, h.frame, h.live⟩

theorem EStep.trans {Q : Nat → Bool} {s : MState} {p : Nat} {N N' N'' : RNet} (h : EStep Q s p N N')
    (h' : EStep Q s p N' N'') : EStep Q s p N N'' :=
  ⟨h.fine.trans h'.fine, h'.frame, h'.live, h'.init.trans h.init, h'.bad.trans h.bad,
    fun t ht => h'.shrink t (h.shrink t ht)⟩

theorem eStep_skip {Q : Nat → Bool} {s : MState} {p : Nat} {N : RNet} (h : EHyp s N) {t : Nat}
    (hl : (N.tr t).skip = false) (ht : t < N.nt) (hnever : ∀ m, Box s N.init m → ¬ (N.tr t).En m) :
    EStep Q s p N (N.skipTrans t) := by
  refine ⟨Fine.skip h.wf hl ht (h.frame.inv h.wf) hnever, h.frame.skipTrans t, h.live.skipTrans t, rfl, rfl, ?_⟩
  intro i hi
  rw [skipTrans_tr]
  by_cases hit : i = t
  · rw [if_pos hit]; rfl
  · rw [if_neg hit]; exact hi

theorem eStep_absorb {Q : Nat → Bool} {s : MState} {p : Nat} {N : RNet} (h : EHyp s N) {t : Nat}
    (hl : (N.tr t).skip = false) {post : List Arc} (hS : Sorted post)
    (hok : ∀ a ∈ post, 0 < a.weight ∧ a.inhib = false ∧ N.okP a.place)
    (hle : (N.tr t).I p ≤ (N.tr t).O p)
    (hpost : ∀ q, wAt post q = if q = p then (N.tr t).O p - (N.tr t).I p else (N.tr t).O q)
    (hsat : ∀ m, Box s N.init m → ∀ a ∈ (N.tr t).pre, a.place = p → ArcSat a m) :
    EStep Q s p N (N.setTr t { N.tr t with pre := dropArc p (N.tr t).pre, post := post }) := by
  have htf := h.live t hl
  refine ⟨Fine.setTr h.wf hl ((h.wf.tr t).absorb hl p hS hok) (h.frame.inv h.wf)
    (trSim_absorb (h.wf.preS t) hle hpost hsat), ⟨h.frame.low, fun i hi hif => ?_, fun i hi hif => ?_⟩, fun i hi => ?_,
    rfl, rfl, fun i hi => ?_⟩
  · rw [setTr_tr] at hi ⊢
    by_cases hit : i = t
    · subst hit
      rw [if_pos rfl]
      obtain ⟨h1, h2⟩ := h.frame.on i hl hif
      refine ⟨fun q => ?_, fun a ha => h2 a (mem_dropArc.1 ha).1⟩
      have e2 : RTr.O { N.tr i with pre := dropArc p (N.tr i).pre, post := post } q = wAt post q := rfl
      rw [drop_I, e2, hpost]
      by_cases hq : q = p
      · subst hq
        simp only [if_true]
        exact ⟨fun hlt => (h1 q).1 (by omega), fun hlt => by omega⟩
      · simp only [if_neg hq]
        exact h1 q
    · rw [if_neg hit] at hi ⊢
      exact h.frame.on i hi hif
  · by_cases hit : i = t
    · subst hit; rw [htf] at hif; cases hif
    · rw [setTr_tr, if_neg hit] at hi
      rw [h.live i hi] at hif; cases hif
  · by_cases hit : i = t
    · subst hit; exact htf
    · rw [setTr_tr, if_neg hit] at hi
      exact h.live i hi
  · rw [setTr_tr]
    by_cases hit : i = t
    · rw [if_pos hit, arcAt_dropArc]; simp
    · rw [if_neg hit]; exact hi

/-! ### One place of rule EFMNOP -/

theorem eCons_spec {Q : Nat → Bool} {s : MState} {p : Nat} {N : RNet} (h : EHyp s N) (t : Nat) :
    EStep Q s p N (eCons s p t N).net ∧ ((eCons s p t N).allOk = true → arcAt ((eCons s p t N).net.tr t).pre p = none) := by
  unfold eCons
  cases ha : arcAt (N.tr t).pre p with
  | none => exact ⟨EStep.refl h, fun _ => ha⟩
  | some a =>
    simp only
    obtain ⟨ham, hap⟩ := arcAt_mem ha
    have hc : t ∈ N.consumers p := (mem_consumers h.wf).2 ⟨a, ham, hap⟩
    obtain ⟨hl, ht⟩ := consumers_live h.wf hc
    have huniq : ∀ b ∈ (N.tr t).pre, b.place = p → b = a := by
      intro b hb hbp
      have := arcAt_of_mem (h.wf.preS t) hb
      rw [hbp, ha] at this
      exact (Option.some.inj this).symm
    have hskip : arcAt ((N.skipTrans t).tr t).pre p = none := by rw [skipTrans_tr, if_pos rfl]; rfl
    have hnone : EStep Q s p N N ∧ (false = true → arcAt (N.tr t).pre p = none) := ⟨EStep.refl h, fun hc => by cases hc⟩
    cases hi : a.inhib with
    | true =>
      simp only [if_true]
      have hI0 : (N.tr t).I p = 0 := by rw [← hap]; exact RTr.I_inh (h.wf.preS t) ham hi
      by_cases h1 : a.weight ≤ s.low p
      · rw [if_pos h1]
        refine ⟨eStep_skip h hl ht fun m hm hen => ?_, fun _ => hskip⟩
        have h2 := hen.2.2 a ham hi
        rw [hap] at h2
        have := (hm p).1
        omega
      · rw [if_neg h1]
        by_cases h2 : s.inc p = false ∧ N.init p < a.weight
        · rw [if_pos h2]
          refine ⟨eStep_absorb h hl (h.wf.postS t) (h.wf.tr t).post_all (by rw [hI0]; exact Nat.zero_le _) (fun q => ?_)
            (fun m hm b hb hbp => ?_), fun _ => ?_⟩
          · rw [hI0]
            by_cases hq : q = p
            · subst hq; simp only [if_true]; rfl
            · simp only [if_neg hq]; rfl
          · rw [huniq b hb hbp]
            unfold ArcSat
            rw [hi, if_pos rfl, hap]
            have := (hm p).2 h2.1
            omega
          · show arcAt (((N.skipInArc p t)).tr t).pre p = none
            unfold RNet.skipInArc
            rw [setTr_tr, if_pos rfl, arcAt_dropArc]; simp
        · rw [if_neg h2]; exact hnone
    | false =>
      simp only [Bool.false_eq_true, if_false]
      have hIw : (N.tr t).I p = a.weight := by rw [← hap]; exact RTr.I_of_mem (h.wf.preS t) ham hi
      by_cases h1 : N.init p < a.weight ∧ s.inc p = false
      · rw [if_pos h1]
        refine ⟨eStep_skip h hl ht fun m hm hen => ?_, fun _ => hskip⟩
        have h2 := hen.2.1 p
        have := (hm p).2 h1.2
        omega
      · rw [if_neg h1]
        by_cases h2 : s.low p < a.weight
        · rw [if_pos h2]; exact hnone
        · rw [if_neg h2]
          have hsat : ∀ m, Box s N.init m → ∀ b ∈ (N.tr t).pre, b.place = p → ArcSat b m := by
            intro m hm b hb hbp
            rw [huniq b hb hbp]
            unfold ArcSat
            rw [hi, if_neg (by simp), hap]
            have := (hm p).1
            omega
          cases hb : arcAt (N.tr t).post p with
          | none => exact hnone
          | some b =>
            simp only
            obtain ⟨hbm, hbp⟩ := arcAt_mem hb
            have hOw : (N.tr t).O p = b.weight := wAt_of_arcAt hb
            by_cases h3 : a.weight < b.weight
            · rw [if_pos h3]
              refine ⟨eStep_absorb h hl (subArc_sorted (h.wf.postS t) p a.weight) ?_ (by omega) (fun q => ?_) hsat, fun _ => ?_⟩
              · intro c hc
                obtain ⟨d, hd, e1, e2, e3⟩ := subArc_mem hc
                obtain ⟨f1, f2, f3⟩ := (h.wf.tr t).post_all d hd
                refine ⟨?_, e2.trans f2, e1 ▸ f3⟩
                rw [e3]
                by_cases hdp : d.place = p
                · rw [if_pos hdp]
                  have := wAt_of_mem (h.wf.postS t) hd
                  rw [hdp] at this
                  have h4 : (N.tr t).O p = d.weight := this
                  omega
                · rw [if_neg hdp]; exact f1
              · rw [wAt_subArc, hIw]; rfl
              · show arcAt (((N.setTr t _)).tr t).pre p = none
                rw [setTr_tr, if_pos rfl, arcAt_dropArc]; simp
            · rw [if_neg h3]
              by_cases h4 : b.weight = a.weight
              · rw [if_pos h4]
                refine ⟨eStep_absorb h hl (dropArc_sorted (h.wf.postS t) p) ?_ (by omega) (fun q => ?_) hsat, fun _ => ?_⟩
                · intro c hc
                  exact (h.wf.tr t).post_all c (mem_dropArc.1 hc).1
                · rw [wAt_dropArc]
                  by_cases hq : q = p
                  · simp only [if_pos hq]; omega
                  · simp only [if_neg hq]; rfl
                · show arcAt (((N.setTr t _)).tr t).pre p = none
                  rw [setTr_tr, if_pos rfl, arcAt_dropArc]; simp
              · rw [if_neg h4]; exact hnone

theorem eAll_spec {Q : Nat → Bool} {s : MState} {p : Nat} : ∀ (l : List Nat) (N : RNet), EHyp s N →
    EStep Q s p N (eAll s p l N).net ∧
      ((eAll s p l N).allOk = true → ∀ t ∈ l, arcAt ((eAll s p l N).net.tr t).pre p = none) := by
  intro l
  induction l with
  | nil => intro N h; exact ⟨EStep.refl h, by simp⟩
  | cons t l ih =>
    intro N h
    obtain ⟨h1, h2⟩ := eCons_spec (Q := Q) (p := p) h t
    obtain ⟨i1, i2⟩ := ih _ h1.hyp
    refine ⟨h1.trans i1, fun hok => ?_⟩
    have hok : ((eCons s p t N).allOk && (eAll s p l (eCons s p t N).net).allOk) = true := hok
    rw [Bool.and_eq_true] at hok
    intro i hi
    rcases List.mem_cons.1 hi with rfl | hi
    · exact i1.shrink i (h2 hok.1)
    · exact i2 hok.2 i hi

theorem Frame.drop {s : MState} {N N' : RNet} (h : EHyp s N) (hi : N'.init = N.init) (p : Nat)
    (htr : ∀ t, N'.tr t = { N.tr t with pre := dropArc p (N.tr t).pre, post := dropArc p (N.tr t).post }) :
    Frame s N' ∧ Live s N' := by
  have hp : ∀ a, mPass N' s a = mPass N s a := by intro a; unfold mPass; rw [hi]
  refine ⟨⟨by unfold MLow; rw [hi]; exact h.frame.low, fun t hl htf => ?_, fun t hl htf => ?_⟩, fun t hl => ?_⟩
  · rw [htr] at hl ⊢
    obtain ⟨h1, h2⟩ := h.frame.on t hl htf
    refine ⟨fun q => ?_, fun a ha => (hp a).trans (h2 a (mem_dropArc.1 ha).1)⟩
    rw [drop_I, drop_O]
    by_cases hq : q = p
    · simp [hq]
    · simp only [if_neg hq]; exact h1 q
  · rw [htr] at hl
    rw [h.live t hl] at htf; cases htf
  · rw [htr] at hl
    exact h.live t hl

/-- The place neither gains nor loses tokens. -/
theorem const_sat {s : MState} {N : RNet} (h : EHyp s N) {p : Nat} (h1 : s.inc p = false) (h2 : s.dec p = false)
    {m : Nat → Nat} (hm : Box s N.init m) {t : Nat} : ∀ a ∈ (N.tr t).pre, a.place = p → ArcSat a m := by
  intro a ha hap
  have hl := (consumers_live h.wf ((mem_consumers h.wf).2 ⟨a, ha, rfl⟩)).1
  have hpass := (h.frame.on t hl (h.live t hl)).2 a ha
  have e1 := (h.frame.low p).2 h2
  have e2 := hm p
  have e3 := e2.2 h1
  unfold mPass at hpass
  unfold ArcSat
  rw [hap] at hpass ⊢
  rw [h1, h2] at hpass
  cases hi : a.inhib with
  | true =>
    have : N.init p < a.weight := by simpa [hi] using hpass
    simp only [if_true]; omega
  | false =>
    have : a.weight ≤ N.init p := by simpa [hi] using hpass
    simp only [Bool.false_eq_true, if_false]; omega

theorem const_eff {s : MState} {N : RNet} (h : EHyp s N) {p : Nat} (h1 : s.inc p = false) (h2 : s.dec p = false)
    {t : Nat} (hl : (N.tr t).skip = false) : (N.tr t).I p = (N.tr t).O p := by
  obtain ⟨e1, e2⟩ := (h.frame.on t hl (h.live t hl)).1 p
  have h3 : ¬ (N.tr t).I p < (N.tr t).O p := fun hc => by rw [e1 hc] at h1; cases h1
  have h4 : ¬ (N.tr t).O p < (N.tr t).I p := fun hc => by rw [(e2 hc).1] at h2; cases h2
  omega

theorem dropArcs_same {Q : Nat → Bool} {s : MState} {N : RNet} (h : EHyp s N) {p : Nat} (h1 : s.inc p = false)
    (h2 : s.dec p = false) : Fine Q N (dropArcs N p) := by
  refine ⟨⟨fun t => ?_, h.wf.out, h.wf.sk, h.wf.nd⟩, ?_⟩
  · exact (dropPlace_WF (h.wf.tr t) p).mono (fun q _ h => h.1) (fun _ h => h)
  · have hI := h.frame.inv h.wf
    refine Same.of_trSim (Box s N.init) (fun _ => True) (fun _ _ => trivial) (fun _ _ => rfl) hI.init hI.step fun t => ?_
    by_cases hl : (N.tr t).skip = false
    · have he := const_eff h h1 h2 hl
      refine trSim_absorb (h.wf.preS t) (by omega) (fun q => ?_) fun m hm => const_sat h h1 h2 hm
      rw [wAt_dropArc]
      by_cases hq : q = p
      · simp only [if_pos hq]; omega
      · simp only [if_neg hq]; rfl
    · refine trSim_skip (by change (N.tr t).skip = true; simpa using hl) fun m _ hen => hl hen.1

theorem ePlace_spec {Q : Nat → Bool} {s : MState} {N : RNet} (h : EHyp s N) (p : Nat) :
    EHyp s (ePlace Q s N p).1 ∧ Fine Q N (ePlace Q s N p).1 ∧ (ePlace Q s N p).1.bad = N.bad := by
  unfold ePlace
  by_cases h0 : N.pskip p = true
  · rw [if_pos h0]; exact ⟨h, Fine.refl h.wf, rfl⟩
  · rw [if_neg h0]
    by_cases h1 : s.inc p = false ∧ s.dec p = false
    · rw [if_pos h1]
      by_cases hQ : Q p = true
      · rw [if_pos hQ]
        have hf := dropArcs_same (Q := Q) h h1.1 h1.2
        obtain ⟨f1, f2⟩ := Frame.drop h (N' := dropArcs N p) rfl p (fun _ => rfl)
        exact ⟨⟨hf.1, f1, f2⟩, hf, rfl⟩
      · rw [if_neg hQ]
        have hI := h.frame.inv h.wf
        obtain ⟨f1, f2⟩ := Frame.drop h (N' := N.skipPlace p) rfl p (fun _ => rfl)
        refine ⟨⟨skipPlace_WF h.wf p, f1, f2⟩, ⟨skipPlace_WF h.wf p, ?_⟩, rfl⟩
        exact skipPlace_same h.wf (by simpa using hQ) (Box s N.init) hI.init hI.step
          (fun m hm t _ => const_sat h h1.1 h1.2 hm)
    · rw [if_neg h1]
      simp only
      obtain ⟨e1, e2⟩ := eAll_spec (Q := Q) (p := p) (N.consumers p).reverse N h
      have h2 := e1.hyp
      generalize eAll s p (N.consumers p).reverse N = r at e1 e2 h2
      by_cases hok : r.allOk = true ∧ Q p = false
      · rw [if_pos hok]
        obtain ⟨f1, f2⟩ := Frame.drop h2 (N' := r.net.skipPlace p) rfl p (fun _ => rfl)
        refine ⟨⟨skipPlace_WF h2.wf p, f1, f2⟩, e1.fine.trans ⟨skipPlace_WF h2.wf p, ?_⟩, e1.bad⟩
        refine skipPlace_same h2.wf hok.2 (fun _ => True) trivial (fun _ _ _ _ => trivial) fun m _ t _ a ha hap => ?_
        have : arcAt (r.net.tr t).pre p = none := by
          by_cases ht : t ∈ N.consumers p
          · exact e2 hok.1 t (by simpa using ht)
          · exact e1.shrink t (arcAt_none_of_not_consumer h.wf ht)
        exact absurd hap (arcAt_none.1 this a ha)
      · rw [if_neg hok]
        exact ⟨h2, e1.fine, e1.bad⟩

theorem ePlaces_spec {Q : Nat → Bool} {s : MState} : ∀ (l : List Nat) (N : RNet), EHyp s N →
    EHyp s (ePlaces Q s l N).1 ∧ Fine Q N (ePlaces Q s l N).1 := by
  intro l
  induction l with
  | nil => intro N h; exact ⟨h, Fine.refl h.wf⟩
  | cons p l ih =>
    intro N h
    obtain ⟨h1, h2, _⟩ := ePlace_spec (Q := Q) h p
    obtain ⟨i1, i2⟩ := ih _ h1
    exact ⟨i1, h2.trans i2⟩

theorem eCons_bad (s : MState) (p t : Nat) (N : RNet) : (eCons s p t N).net.bad = N.bad := by
  unfold eCons
  cases arcAt (N.tr t).pre p with
  | none => rfl
  | some a =>
    simp only
    split
    · split
      · rfl
      · split <;> rfl
    · split
      · rfl
      · split
        · rfl
        · cases arcAt (N.tr t).post p with
          | none => rfl
          | some b =>
            simp only
            split
            · rfl
            · split <;> rfl

theorem eAll_bad (s : MState) (p : Nat) : ∀ (l : List Nat) (N : RNet), (eAll s p l N).net.bad = N.bad := by
  intro l
  induction l with
  | nil => intro N; rfl
  | cons t l ih => intro N; exact (ih _).trans (eCons_bad s p t N)

theorem ePlace_bad (Q : Nat → Bool) (s : MState) (N : RNet) (p : Nat) : (ePlace Q s N p).1.bad = N.bad := by
  unfold ePlace
  split
  · rfl
  · split
    · split <;> rfl
    · simp only
      split
      · exact eAll_bad s p _ N
      · exact eAll_bad s p _ N

theorem ePlaces_bad (Q : Nat → Bool) (s : MState) : ∀ (l : List Nat) (N : RNet), (ePlaces Q s l N).1.bad = N.bad := by
  intro l
  induction l with
  | nil => intro N; rfl
  | cons p l ih => intro N; exact (ih _).trans (ePlace_bad Q s N p)

theorem mDead_bad (s : MState) (l : List Nat) (N : RNet) : (sweep (mDead s) l N).1.bad = N.bad := by
  refine sweep_bad (fun N c N' h => ?_) l N
  unfold mDead at h
  split at h
  · cases h; rfl
  · cases h

/-- After the transitions that never fire are gone. -/
theorem mDead_spec {Q : Nat → Bool} {s : MState} : ∀ (l : List Nat) (N : RNet), N.WF → Frame s N →
    (sweep (mDead s) l N).1.WF ∧ Frame s (sweep (mDead s) l N).1 ∧ Fine Q N (sweep (mDead s) l N).1 ∧
      (∀ t ∈ l, ((sweep (mDead s) l N).1.tr t).skip = false → s.tf t = true) ∧
      ∀ t, ((sweep (mDead s) l N).1.tr t).skip = false → (N.tr t).skip = false := by
  intro l
  induction l with
  | nil => intro N h hf; exact ⟨h, hf, Fine.refl h, by simp, fun _ h => h⟩
  | cons t l ih =>
    intro N h hf
    unfold sweep
    by_cases hd : (N.tr t).skip = false ∧ s.tf t = false
    · have he : mDead s N t = some (N.skipTrans t) := by unfold mDead; rw [if_pos hd]
      rw [he]
      have ht : t < N.nt := Nat.lt_of_not_le fun hc => by
        have := h.out t hc
        rw [hd.1] at this; cases this
      have h1 : Fine Q N (N.skipTrans t) := Fine.skip h hd.1 ht (hf.inv h) fun m hm => hf.never h hd.2 hm
      obtain ⟨a1, a2, a3, a4, a5⟩ := ih _ h1.1 (hf.skipTrans t)
      refine ⟨a1, a2, h1.trans a3, fun i hi hl => ?_, fun i hi => ?_⟩
      · rcases List.mem_cons.1 hi with rfl | hi
        · have := a5 i hl
          rw [skipTrans_tr, if_pos rfl] at this; cases this
        · exact a4 i hi hl
      · have := a5 i hi
        rw [skipTrans_tr] at this
        by_cases hit : i = t
        · rw [if_pos hit] at this; cases this
        · rw [if_neg hit] at this; exact this
    · have he : mDead s N t = none := by unfold mDead; rw [if_neg hd]
      rw [he]
      obtain ⟨a1, a2, a3, a4, a5⟩ := ih N h hf
      refine ⟨a1, a2, a3, fun i hi hl => ?_, a5⟩
      rcases List.mem_cons.1 hi with rfl | hi
      · have := a5 i hl
        simpa using fun hc => hd ⟨this, hc⟩
      · exact a4 i hi hl

theorem ruleE_good {Q : Nat → Bool} {N : RNet} (lim : Nat) : Good Q N (ruleE Q lim N).1 := by
  unfold ruleE
  cases hm : mFix N lim with
  | none => exact Good.refl Q N
  | some s =>
    simp only
    refine Good.of ((ePlaces_bad Q s _ _).trans (mDead_bad s _ N)) fun hN => ?_
    obtain ⟨a1, a2, a3, a4, a5⟩ := mDead_spec (Q := Q) (List.range N.nt) N hN (mFix_frame hN hm)
    have hlive : Live s (sweep (mDead s) (List.range N.nt) N).1 := by
      intro t hl
      refine a4 t (List.mem_range.2 (Nat.lt_of_not_le fun hc => ?_)) hl
      have := hN.out t hc
      rw [a5 t hl] at this; cases this
    exact a3.trans (ePlaces_spec (List.range N.np) _ ⟨a1, a2, hlive⟩).2

end Reduce
end Verif
