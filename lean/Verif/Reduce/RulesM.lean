import Verif.Reduce.RulesE
import Verif.Reduce.RulesL

/-!
# Rules M, E-P and F-N-O
-/

namespace Verif
namespace Reduce

/-! ### Rule M -/

theorem skip_comm (N : RNet) (p t : Nat) : (N.skipPlace p).skipTrans t = (N.skipTrans t).skipPlace p := by
  have h : ((N.skipPlace p).skipTrans t).tr = ((N.skipTrans t).skipPlace p).tr := by
    funext i
    by_cases hi : i = t
    · subst hi; simp [RNet.skipTrans, RNet.skipPlace, RNet.setTr, dropArc]
    · simp [RNet.skipTrans, RNet.skipPlace, RNet.setTr, hi]
  show { (N.skipPlace p).skipTrans t with tr := ((N.skipPlace p).skipTrans t).tr } =
    { (N.skipTrans t).skipPlace p with tr := ((N.skipTrans t).skipPlace p).tr }
  rw [h]; rfl

theorem sweep_some {step : RNet → Nat → Option RNet} {c : Nat} {l : List Nat} {N N' : RNet} (h : step N c = some N') :
    (sweep step (c :: l) N).1 = (sweep step l N').1 := by
  rw [sweep, h]

theorem sweep_none {step : RNet → Nat → Option RNet} {c : Nat} {l : List Nat} {N : RNet} (h : step N c = none) :
    (sweep step (c :: l) N).1 = (sweep step l N).1 := by
  rw [sweep, h]

theorem mConst_skip (Q : Nat → Bool) (s : MState) (t : Nat) : ∀ (l : List Nat) (N : RNet),
    (sweep (mConst Q s) l N).1.skipTrans t = (sweep (mConst Q s) l (N.skipTrans t)).1 ∧
      ((sweep (mConst Q s) l N).1.tr t).skip = (N.tr t).skip := by
  intro l
  induction l with
  | nil => intro N; exact ⟨rfl, rfl⟩
  | cons p l ih =>
    intro N
    unfold sweep
    by_cases hc : N.pskip p = false ∧ Q p = false ∧ s.inc p = false ∧ s.dec p = false
    · have e1 : mConst Q s N p = some (N.skipPlace p) := by unfold mConst; rw [if_pos hc]
      have e2 : mConst Q s (N.skipTrans t) p = some ((N.skipTrans t).skipPlace p) := by unfold mConst; exact if_pos hc
      rw [e1, e2, ← skip_comm]
      exact ih (N.skipPlace p)
    · have e1 : mConst Q s N p = none := by unfold mConst; rw [if_neg hc]
      have e2 : mConst Q s (N.skipTrans t) p = none := by unfold mConst; exact if_neg hc
      rw [e1, e2]
      exact ih N

theorem mDead_const (Q : Nat → Bool) (s : MState) (ps : List Nat) : ∀ (l : List Nat) (N : RNet),
    (sweep (mDead s) l (sweep (mConst Q s) ps N).1).1 = (sweep (mConst Q s) ps (sweep (mDead s) l N).1).1 := by
  intro l
  induction l with
  | nil => intro N; rfl
  | cons t l ih =>
    intro N
    obtain ⟨h1, h2⟩ := mConst_skip Q s t ps N
    by_cases hc : (N.tr t).skip = false ∧ s.tf t = false
    · have e1 : mDead s N t = some (N.skipTrans t) := by unfold mDead; rw [if_pos hc]
      have e2 : mDead s (sweep (mConst Q s) ps N).1 t = some ((sweep (mConst Q s) ps (N.skipTrans t)).1) := by
        unfold mDead; rw [h2, if_pos hc, h1]
      rw [sweep_some e1, sweep_some e2]
      exact ih _
    · have e1 : mDead s N t = none := by unfold mDead; rw [if_neg hc]
      have e2 : mDead s (sweep (mConst Q s) ps N).1 t = none := by unfold mDead; rw [h2, if_neg hc]
      rw [sweep_none e1, sweep_none e2]
      exact ih _

theorem mConst_spec {Q : Nat → Bool} {s : MState} : ∀ (l : List Nat) (N : RNet), EHyp s N →
    EHyp s (sweep (mConst Q s) l N).1 ∧ Fine Q N (sweep (mConst Q s) l N).1 := by
  intro l
  induction l with
  | nil => intro N h; exact ⟨h, Fine.refl h.wf⟩
  | cons p l ih =>
    intro N h
    unfold sweep
    by_cases hc : N.pskip p = false ∧ Q p = false ∧ s.inc p = false ∧ s.dec p = false
    · have e1 : mConst Q s N p = some (N.skipPlace p) := by unfold mConst; rw [if_pos hc]
      rw [e1]
      have hI := h.frame.inv h.wf
      obtain ⟨f1, f2⟩ := Frame.drop h (N' := N.skipPlace p) rfl p (fun _ => rfl)
      have h1 : Fine Q N (N.skipPlace p) := ⟨skipPlace_WF h.wf p, skipPlace_same h.wf hc.2.1 (Box s N.init) hI.init hI.step
          (fun m hm t _ => const_sat h hc.2.2.1 hc.2.2.2 hm)⟩
      obtain ⟨i1, i2⟩ := ih (N.skipPlace p) ⟨h1.1, f1, f2⟩
      exact ⟨i1, h1.trans i2⟩
    · have e1 : mConst Q s N p = none := by unfold mConst; rw [if_neg hc]
      rw [e1]
      exact ih N h

theorem mConst_bad (Q : Nat → Bool) (s : MState) (l : List Nat) (N : RNet) : (sweep (mConst Q s) l N).1.bad = N.bad := by
  refine sweep_bad (fun N c N' h => ?_) l N
  unfold mConst at h
  split at h
  · cases h; rfl
  · cases h

theorem ruleM_good {Q : Nat → Bool} {N : RNet} (lim : Nat) : Good Q N (ruleM Q lim N).1 := by
  unfold ruleM
  cases hm : mFix N lim with
  | none => exact Good.refl Q N
  | some s =>
    simp only
    have hnt : ∀ (l : List Nat) (M : RNet), (sweep (mConst Q s) l M).1.nt = M.nt := by
      intro l M
      refine sweep_inv (fun A => A.nt = M.nt) (mConst Q s) (fun A c A' hA h => ?_) l M rfl
      unfold mConst at h
      split at h
      · cases h; exact hA
      · cases h
    rw [mDead_const]
    refine Good.of ((mConst_bad Q s _ _).trans (mDead_bad s _ N)) fun hN => ?_
    obtain ⟨a1, a2, a3, a4, a5⟩ := mDead_spec (Q := Q) (List.range N.nt) N hN (mFix_frame hN hm)
    have hlive : Live s (sweep (mDead s) (List.range N.nt) N).1 := by
      intro t hl
      refine a4 t (List.mem_range.2 (Nat.lt_of_not_le fun hc => ?_)) hl
      have := hN.out t hc
      rw [a5 t hl] at this; cases this
    exact a3.trans (mConst_spec (List.range N.np) _ ⟨a1, a2, hlive⟩).2

/-! ### Rules E and P -/

/-- The place does not get more tokens than it has. -/
def Sinks (N : RNet) (p : Nat) : Prop := ∀ t, (N.tr t).I p ≤ N.init p → (N.tr t).O p ≤ (N.tr t).I p

theorem Sinks.inv {N : RNet} {p : Nat} (h : Sinks N p) : N.Inv fun m => m p ≤ N.init p := by
  refine ⟨Nat.le_refl _, fun m t hm hen => ?_⟩
  have h1 := hen.2.1 p
  have h2 := h t (Nat.le_trans h1 hm)
  unfold RTr.fire
  omega

theorem epDis_spec {Q : Nat → Bool} {p : Nat} : ∀ (l : List Nat) (N : RNet), N.WF → Sinks N p → l.Nodup →
    (∀ t ∈ l, (N.tr t).skip = false ∧ N.init p < (N.tr t).I p) →
    Fine Q N (l.foldl (fun N t => N.skipTrans t) N) ∧ Sinks (l.foldl (fun N t => N.skipTrans t) N) p ∧
      (l.foldl (fun N t => N.skipTrans t) N).init = N.init ∧ (l.foldl (fun N t => N.skipTrans t) N).bad = N.bad ∧
      ∀ s, s ∉ l → (l.foldl (fun N t => N.skipTrans t) N).tr s = N.tr s := by
  intro l
  induction l with
  | nil => intro N hN h _ _; exact ⟨Fine.refl hN, h, rfl, rfl, fun _ _ => rfl⟩
  | cons t l ih =>
    intro N hN h hnd hl
    obtain ⟨n1, n2⟩ := List.nodup_cons.1 hnd
    obtain ⟨h1, h2⟩ := hl t (by simp)
    have hlt : t < N.nt := Nat.lt_of_not_le fun hc => by
      have := hN.out t hc
      rw [h1] at this; cases this
    have hf : Fine Q N (N.skipTrans t) := Fine.skip hN h1 hlt h.inv fun m hm hen => by
      have := hen.2.1 p
      omega
    obtain ⟨i1, i2, i3, i4, i5⟩ := ih (N.skipTrans t) hf.1 (fun s hs => by
      rw [skipTrans_tr] at hs ⊢
      by_cases hst : s = t
      · rw [if_pos hst]; exact Nat.le_refl _
      · rw [if_neg hst] at hs ⊢; exact h s hs) n2 (fun s hs => by
      rw [skipTrans_tr, if_neg (by rintro rfl; exact n1 hs)]
      exact hl s (by simp [hs]))
    refine ⟨hf.trans i1, i2, i3, i4, fun s hs => ?_⟩
    rw [List.foldl_cons, i5 s (fun hc => hs (by simp [hc])), skipTrans_tr, if_neg (fun hc => hs (by simp [hc]))]

theorem dis_bad : ∀ (l : List Nat) (N : RNet), (l.foldl (fun N t => N.skipTrans t) N).bad = N.bad := by
  intro l
  induction l with
  | nil => intro N; rfl
  | cons t l ih => intro N; exact ih _

theorem inh_bad (p : Nat) : ∀ (l : List Nat) (N : RNet), (l.foldl (fun N t => N.skipInArc p t) N).bad = N.bad := by
  intro l
  induction l with
  | nil => intro N; rfl
  | cons t l ih => intro N; exact ih _

theorem epInh_spec {Q : Nat → Bool} {p : Nat} : ∀ (l : List Nat) (N : RNet), N.WF → Sinks N p → l.Nodup →
    (∀ t ∈ l, (N.tr t).skip = false ∧ ∀ a ∈ (N.tr t).pre, a.place = p → a.inhib = true ∧ N.init p < a.weight) →
    Fine Q N (l.foldl (fun N t => N.skipInArc p t) N) := by
  intro l
  induction l with
  | nil => intro N hN h _ _; exact Fine.refl hN
  | cons t l ih =>
    intro N hN h hnd hl
    obtain ⟨n1, n2⟩ := List.nodup_cons.1 hnd
    obtain ⟨h1, h2⟩ := hl t (by simp)
    have hI : (N.tr t).I p = 0 := by
      unfold RTr.I
      cases ha : arcAt (N.tr t).pre p with
      | none => rfl
      | some a => simp [(h2 a (arcAt_mem ha).1 (arcAt_mem ha).2).1]
    have hf : Fine Q N (N.skipInArc p t) := by
      refine Fine.setTr hN h1 ((hN.tr t).absorb h1 p (hN.postS t) (hN.tr t).post_all) h.inv
        (trSim_absorb (hN.preS t) (by rw [hI]; omega) (fun q => ?_) fun m hm a ha hap => ?_)
      · split
        · rename_i hq; subst hq; rw [hI]; rfl
        · rfl
      · obtain ⟨e1, e2⟩ := h2 a ha hap
        unfold ArcSat
        rw [if_pos e1, hap]
        exact Nat.lt_of_le_of_lt hm e2
    refine hf.trans (ih (N.skipInArc p t) hf.1 (fun s hs => ?_) n2 fun s hs => ?_)
    · unfold RNet.skipInArc at hs ⊢
      rw [setTr_tr] at hs ⊢
      by_cases hst : s = t
      · subst hst
        rw [if_pos rfl] at hs ⊢
        have h3 := h s (by rw [hI]; omega)
        rw [hI] at h3
        rw [drop_I, if_pos rfl]
        exact h3
      · rw [if_neg hst] at hs ⊢; exact h s hs
    · unfold RNet.skipInArc
      rw [setTr_tr, if_neg (by rintro rfl; exact n1 hs)]
      exact hl s (by simp [hs])

theorem ruleEPStep_good {Q : Nat → Bool} {N N' : RNet} {p : Nat} (h : ruleEPStep Q N p = some N') : Good Q N N' := by
  unfold ruleEPStep at h
  split at h
  · cases h
  split at h
  · cases h
  split at h
  · cases h
  rename_i h3
  split at h
  · cases h
  rename_i h4
  simp only at h
  split at h
  · cases h
  have hsink : N.WF → Sinks N p := fun hN t ht => by
    by_cases hp : t ∈ N.producers p
    · have h3' := fun hc => h3 (List.any_eq_true.2 ⟨t, hp, hc⟩)
      cases ha : arcAt (N.tr t).pre p with
      | none => rw [ha] at h3'; exact absurd rfl h3'
      | some a =>
        rw [ha] at h3'
        have hi : a.inhib = false := by simpa using h3'
        have hI : (N.tr t).I p = a.weight := by
          have := RTr.I_of_mem (hN.preS t) (arcAt_mem ha).1 hi
          rwa [(arcAt_mem ha).2] at this
        have hc : t ∈ N.consumers p := (mem_consumers hN).2 ⟨a, (arcAt_mem ha).1, (arcAt_mem ha).2⟩
        have h4' := fun hc' => h4 (List.any_eq_true.2 ⟨t, hc, hc'⟩)
        rw [ha] at h4'
        simp only [Bool.and_eq_true, decide_eq_true_eq, Bool.not_eq_true', hi, true_and] at h4'
        rw [hI] at ht ⊢
        exact Nat.le_of_not_lt fun hc => h4' ⟨ht, hc⟩
    · have : (N.tr t).O p = 0 := wAt_none (arcAt_none_of_not_producer hN hp)
      omega
  split at h
  · rename_i hall
    obtain rfl := Option.some.inj h
    refine Good.flag rfl fun hb hN => ?_
    have hdis := hb
    rw [decide_eq_false_iff_not] at hdis
    have hdis := Decidable.of_not_not hdis
    refine ⟨skipPlace_WF (flag_WF hN _) p, ?_⟩
    have hI := (hsink hN).inv
    rw [hdis] at hall
    simp only [List.length_nil, Nat.zero_add] at hall
    have hsub := (List.filter_eq_self (l := N.consumers p)).1 (List.filter_sublist.eq_of_length hall.1)
    refine (flag_Same Q N _).trans (skipPlace_same (flag_WF hN _) hall.2 (fun m => m p ≤ N.init p) hI.init hI.step
      fun m hm t _ a ha hap => ?_)
    have := hsub t ((mem_consumers hN).2 ⟨a, ha, hap⟩)
    have he := arcAt_of_mem (hN.preS t) ha
    rw [hap] at he
    rw [he] at this
    simp only [Bool.and_eq_true, decide_eq_true_eq] at this
    unfold ArcSat
    rw [if_pos this.1, hap]
    exact Nat.lt_of_le_of_lt hm this.2
  · obtain rfl := Option.some.inj h
    refine Good.of ((inh_bad p _ _).trans (dis_bad _ _)) fun hN => ?_
    obtain ⟨d1, d2, d3, d4, d5⟩ := epDis_spec (Q := Q) (p := p) ((N.consumers p).filter fun t =>
      match arcAt (N.tr t).pre p with
      | none => false
      | some a => !a.inhib && decide (N.init p < a.weight)) N hN (hsink hN) ((consumers_nodup N p).filter _) (fun t ht => by
        obtain ⟨t1, t2⟩ := List.mem_filter.1 ht
        refine ⟨(consumers_live hN t1).1, ?_⟩
        cases ha : arcAt (N.tr t).pre p with
        | none => rw [ha] at t2; cases t2
        | some a =>
          rw [ha] at t2
          simp only [Bool.and_eq_true, Bool.not_eq_true', decide_eq_true_eq] at t2
          have := RTr.I_of_mem (hN.preS t) (arcAt_mem ha).1 t2.1
          rw [(arcAt_mem ha).2] at this
          rw [this]; exact t2.2)
    refine d1.trans (epInh_spec _ _ d1.1 d2 ((consumers_nodup N p).filter _) fun t ht => ?_)
    obtain ⟨t1, t2⟩ := List.mem_filter.1 ht
    have hne : t ∉ (N.consumers p).filter fun t =>
      match arcAt (N.tr t).pre p with
      | none => false
      | some a => !a.inhib && decide (N.init p < a.weight) := fun hc => by
        have t3 := (List.mem_filter.1 hc).2
        cases ha : arcAt (N.tr t).pre p with
        | none => rw [ha] at t2; cases t2
        | some a =>
          rw [ha] at t2 t3
          simp only [Bool.and_eq_true, Bool.not_eq_true', decide_eq_true_eq] at t2 t3
          rw [t2.1] at t3; cases t3.1
    rw [d5 t hne, d3]
    refine ⟨(consumers_live hN t1).1, fun a ha hap => ?_⟩
    have he := arcAt_of_mem (hN.preS t) ha
    rw [hap] at he
    rw [he] at t2
    simpa using t2

theorem ruleEP_good {Q : Nat → Bool} {N : RNet} (lim : Nat) : Good Q N (ruleEP Q lim N).1 :=
  sweep_good (fun _ _ _ hs => ruleEPStep_good hs) _ _

end Reduce
end Verif
