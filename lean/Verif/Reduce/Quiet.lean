import Verif.Reduce.Keep
import Verif.Reduce.Pipeline

/-!
# The rules that are sound for all nets, and those that are sound for nets without inhibitor arcs

No rule sets the flag of a place for inhibitor arcs (`pinhib`); most rules never leave the conditions under which they
are sound (`bad`).
-/

namespace Verif
namespace Reduce

/-- Nothing unsound was done, and no place got the flag for inhibitor arcs. -/
structure Quiet (N N' : RNet) : Prop where
  bad : N'.bad = N.bad
  inh : ∀ p, N'.pinhib p = true → N.pinhib p = true

variable {Q : Nat → Bool}

theorem Quiet.refl (N : RNet) : Quiet N N := ⟨rfl, fun _ h => h⟩

theorem Quiet.trans {N N' N'' : RNet} (h : Quiet N N') (h' : Quiet N' N'') : Quiet N N'' :=
  ⟨h'.bad.trans h.bad, fun p hp => h.inh p (h'.inh p hp)⟩

theorem Quiet.of_eq {N N' : RNet} (h1 : N'.bad = N.bad) (h2 : N'.pinhib = N.pinhib) : Quiet N N' :=
  ⟨h1, fun p hp => by rw [h2] at hp; exact hp⟩

theorem Quiet.skipPlace {N : RNet} {p : Nat} : Quiet N (N.skipPlace p) := Quiet.of_eq rfl rfl

theorem Quiet.skipTrans {N : RNet} {t : Nat} : Quiet N (N.skipTrans t) := Quiet.of_eq rfl rfl

theorem Quiet.sweep {step : RNet → Nat → Option RNet} (h : ∀ N c N', step N c = some N' → Quiet N N') :
    ∀ (l : List Nat) (N : RNet), Quiet N (Reduce.sweep step l N).1 := by
  intro l
  induction l with
  | nil => intro N; exact Quiet.refl N
  | cons c l ih =>
    intro N
    cases hs : step N c with
    | none => rw [sweep_none hs]; exact ih N
    | some N' => rw [sweep_some hs]; exact (h N c N' hs).trans (ih N')

theorem moveInit_quiet (n : Nat) : ∀ (l : List Arc) (N : RNet), (moveInit n l N).bad = N.bad ∧ (moveInit n l N).pinhib = N.pinhib := by
  intro l
  induction l with
  | nil => intro N; exact ⟨rfl, rfl⟩
  | cons a l ih => intro N; exact ih _

theorem takeInit_quiet (n : Nat) : ∀ (l : List Arc) (N : RNet), (takeInit n l N).bad = N.bad ∧ (takeInit n l N).pinhib = N.pinhib := by
  intro l
  induction l with
  | nil => intro N; exact ⟨rfl, rfl⟩
  | cons a l ih => intro N; exact ih _

theorem aMove_quiet (p w : Nat) (post : List Arc) : ∀ (l : List Nat) (N : RNet),
    (aMove p w post l N).bad = N.bad ∧ (aMove p w post l N).pinhib = N.pinhib := by
  intro l
  induction l with
  | nil => intro N; exact ⟨rfl, rfl⟩
  | cons a l ih => intro N; exact ih _

theorem Quiet.skipAll : ∀ (l : List Nat) (N : RNet), Quiet N (skipAll l N) := by
  intro l
  induction l with
  | nil => intro N; exact Quiet.refl N
  | cons a l ih => intro N; exact Quiet.skipTrans.trans (ih _)

theorem ruleA_quiet (lim : Nat) (N : RNet) : Quiet N (ruleA Q lim N).1 := by
  refine Quiet.sweep (fun N t N' h => ?_) _ N
  unfold ruleAStep at h
  simp only at h
  split at h
  · cases h
  split at h
  · repeat' (split at h)
    all_goals first
      | cases h; done
      | skip
    rename_i a _ _ _ _ hQ _
    obtain rfl := Option.some.inj h
    refine Quiet.trans (N' := aMove a.place a.weight _ _ _) ?_ (Quiet.skipPlace)
    refine Quiet.of_eq ?_ ?_
    · rw [(aMove_quiet _ _ _ _ _).1]
      exact (moveInit_quiet _ _ N).1
    · rw [(aMove_quiet _ _ _ _ _).2]
      exact (moveInit_quiet _ _ N).2
  · cases h

theorem ruleF_quiet (lim : Nat) (N : RNet) : Quiet N (ruleF Q lim N).1 := by
  refine Quiet.sweep (fun N p N' h => ?_) _ N
  unfold ruleFStep at h
  iterate 3
    split at h
    · cases h
  split at h
  · cases h
  rename_i hQ
  split at h
  · cases h
  split at h
  · obtain rfl := Option.some.inj h
    exact Quiet.skipPlace
  · cases h

theorem ruleG_quiet (a b : Bool) (lim : Nat) (N : RNet) : Quiet N (ruleG Q a b lim N).1 := by
  unfold ruleG
  split
  · exact Quiet.refl N
  · refine Quiet.sweep (fun N p N' h => ?_) _ N
    unfold ruleGStep at h
    simp only at h
    iterate 3
      split at h
      · cases h
    split at h
    · obtain rfl := Option.some.inj h; exact Quiet.skipTrans
    · cases h

theorem mDead_quiet (s : MState) (l : List Nat) (N : RNet) : Quiet N (Reduce.sweep (mDead s) l N).1 := by
  refine Quiet.sweep (fun N t N' h => ?_) _ N
  unfold mDead at h
  split at h
  · obtain rfl := Option.some.inj h; exact Quiet.skipTrans
  · cases h

theorem ruleE_quiet (lim : Nat) (N : RNet) : Quiet N (ruleE Q lim N).1 := by
  have hc : ∀ (s : MState) (p t : Nat) (N : RNet), Quiet N (eCons s p t N).net := by
    intro s p t N
    unfold eCons
    repeat' split
    all_goals exact Quiet.of_eq rfl rfl
  have ha : ∀ (s : MState) (p : Nat) (l : List Nat) (N : RNet), Quiet N (eAll s p l N).net := by
    intro s p l
    induction l with
    | nil => intro N; exact Quiet.refl N
    | cons t l ih => intro N; exact (hc s p t N).trans (ih _)
  have hp : ∀ (s : MState) (p : Nat) (N : RNet), Quiet N (ePlace Q s N p).1 := by
    intro s p N
    unfold ePlace
    split
    · exact Quiet.refl N
    split
    · split
      · exact Quiet.of_eq rfl rfl
      · rename_i hQ; exact Quiet.skipPlace
    · simp only
      split
      · rename_i hq; exact (ha _ _ _ _).trans (Quiet.skipPlace)
      · exact ha _ _ _ _
  have hps : ∀ (s : MState) (l : List Nat) (N : RNet), Quiet N (ePlaces Q s l N).1 := by
    intro s l
    induction l with
    | nil => intro N; exact Quiet.refl N
    | cons p l ih => intro N; exact (hp s p N).trans (ih _)
  unfold ruleE
  split
  · exact Quiet.refl N
  · exact (mDead_quiet _ _ _).trans (hps _ _ _)

theorem ruleM_quiet (lim : Nat) (N : RNet) : Quiet N (ruleM Q lim N).1 := by
  unfold ruleM
  split
  · exact Quiet.refl N
  · refine (Quiet.sweep (fun N t N' h => ?_) _ N).trans (mDead_quiet _ _ _)
    unfold mConst at h
    split at h
    · rename_i hq; obtain rfl := Option.some.inj h; exact Quiet.skipPlace
    · cases h

theorem nApply_quiet (p : Nat) (s : NState) : ∀ (ts : List Nat) (o : NOut), (nApply p s ts o).net.bad = o.net.bad ∧
    (nApply p s ts o).net.pinhib = o.net.pinhib := by
  intro ts
  induction ts with
  | nil => intro o; exact ⟨rfl, rfl⟩
  | cons t ts ih =>
    intro o
    rw [nApply]
    split
    · exact ih o
    · split
      · exact ih o
      · split
        · exact ih o
        · split
          · exact ih _
          · obtain ⟨h1, h2⟩ := ih { o with net := nMerge o.net p t _, dnn := o.dnn - 1, changed := true }
            rw [h1, h2]
            simp only
            rw [nMerge_eq]; exact ⟨rfl, rfl⟩

theorem Quiet.clear (N : RNet) (p : Nat) : Quiet N (clearInh N p) := by
  refine ⟨rfl, fun q hq => ?_⟩
  have : (if q = p then false else N.pinhib q) = true := hq
  split at this
  · cases this
  · exact this

theorem ruleFNO_quiet (lim : Nat) (N : RNet) : Quiet N (ruleFNO Q lim N).1 := by
  have hp : ∀ (p : Nat) (N : RNet), Quiet N (nPlace Q N p).1 := by
    intro p N
    unfold nPlace
    split
    · exact Quiet.refl N
    simp only
    split
    · exact Quiet.refl N
    have hk : Quiet N (skipAll (nApply p (nScan N p (N.consumers p) ⟨N.init p, [], !Q p, 0, (N.consumers p).length⟩)
        (N.consumers p) ⟨N, [], (nScan N p (N.consumers p) ⟨N.init p, [], !Q p, 0, (N.consumers p).length⟩).dnn, false⟩).inhibited.reverse
        (nApply p (nScan N p (N.consumers p) ⟨N.init p, [], !Q p, 0, (N.consumers p).length⟩)
        (N.consumers p) ⟨N, [], (nScan N p (N.consumers p) ⟨N.init p, [], !Q p, 0, (N.consumers p).length⟩).dnn, false⟩).net) :=
      Quiet.trans (Quiet.of_eq (nApply_quiet p _ _ ⟨N, [], _, false⟩).1 (nApply_quiet p _ _ ⟨N, [], _, false⟩).2) (Quiet.skipAll _ _)
    split
    · rename_i hc
      have := nScan_remove _ _ hc.1
      exact hk.trans (Quiet.skipPlace)
    · split
      · exact hk.trans (Quiet.clear _ _)
      · exact hk
  have hps : ∀ (l : List Nat) (N : RNet), Quiet N (nPlaces Q l N).1 := by
    intro l
    induction l with
    | nil => intro N; exact Quiet.refl N
    | cons p l ih => intro N; exact (hp p N).trans (ih _)
  exact hps _ _

theorem ruleQ_quiet (lim : Nat) (N : RNet) : Quiet N (ruleQ Q lim N).1 := by
  refine Quiet.sweep (fun N p N' h => ?_) _ N
  unfold ruleQStep at h
  simp only at h
  split at h
  · cases h
  split at h
  · obtain rfl := Option.some.inj h
    exact Quiet.of_eq (by rw [(moveInit_quiet _ _ _).1, (takeInit_quiet _ _ _).1]) (by rw [(moveInit_quiet _ _ _).2, (takeInit_quiet _ _ _).2])
  · cases h

theorem ruleL_quiet (lim : Nat) (N : RNet) : Quiet N (ruleL lim N).1 := by
  have h : ∀ (l : List Nat) (N : RNet), Quiet N (lLoop l N).1 := by
    intro l
    induction l with
    | nil => intro N; exact Quiet.refl N
    | cons t l ih =>
      intro N
      rw [lLoop]
      split
      · exact Quiet.refl N
      · split
        · exact Quiet.skipTrans.trans (ih _)
        · exact ih _
  exact h _ _

theorem ruleH_quiet (a : Bool) (lim : Nat) (N : RNet) : Quiet N (ruleH Q a lim N).1 := by
  have hm : ∀ (l : List Nat) (p1 prev : Nat) (N : RNet), Quiet N (hMerge Q a p1 prev l N).1 := by
    intro l
    induction l with
    | nil => intro p1 prev N; exact Quiet.refl N
    | cons t l ih =>
      intro p1 prev N
      rw [hMerge]
      split
      · exact ih _ _ _
      · rename_i hq
        split
        · exact ih _ _ _
        · split
          · exact ih _ _ _
          · refine Quiet.trans ?_ (ih _ _ _)
            unfold hJoin
            refine Quiet.trans ?_ (Quiet.skipPlace)
            exact Quiet.of_eq rfl rfl
  have hr : ∀ (N : RNet) (st : List Nat) (nt : Nat), Quiet N (hRemove Q a N st nt).1 := by
    intro N st nt
    unfold hRemove
    split
    · exact Quiet.refl N
    · exact hm _ _ _ _
  have hs : ∀ (N N' : RNet) (st : List Nat) (it : Nat) (l : List Nat) (fl : Nat → Nat),
      hScan Q a N st it l fl = .removed N' → Quiet N N' := by
    intro N N' st it l
    induction l with
    | nil => intro fl h; cases h
    | cons nt l ih =>
      intro fl h
      rw [hScan] at h
      split at h
      · exact ih _ h
      · split at h
        · have hk := hr N st nt
          split at h
          · rename_i he; rw [he] at hk; cases h; exact hk
          · exact ih _ h
        · split at h
          · split at h
            · cases h
            · exact ih _ h
          · exact ih _ h
  have hse : ∀ (N N' : RNet) (f : Nat) (fl : Nat → Nat) (st : List Nat), hSearch Q a N f fl st = some N' → Quiet N N' := by
    intro N N' f
    induction f with
    | zero => intro fl st h; cases h
    | succ f ih =>
      intro fl st h
      rw [hSearch] at h
      split at h
      · cases h
      · split at h
        · rename_i he; cases h; exact hs _ _ _ _ _ _ he
        · exact ih _ _ h
        · exact ih _ _ h
  refine Quiet.sweep (fun N p N' h => ?_) _ N
  unfold ruleHStep at h
  split at h
  · cases h
  · split at h
    · exact hse _ _ _ _ _ h
    · cases h

/-! ### Nets without inhibitor arcs -/

/-- No inhibitor arcs. -/
structure RNet.Plain (N : RNet) : Prop where
  pl : ∀ p, N.pinhib p = false
  arc : ∀ t, ∀ a ∈ (N.tr t).pre, a.inhib = false

/-- On nets without inhibitor arcs nothing unsound was done. -/
def PQuiet (N N' : RNet) : Prop := N.Plain → N'.Plain ∧ N'.bad = N.bad

theorem PQuiet.refl (N : RNet) : PQuiet N N := fun h => ⟨h, rfl⟩

theorem PQuiet.trans {N N' N'' : RNet} (h : PQuiet N N') (h' : PQuiet N' N'') : PQuiet N N'' := fun hp =>
  let ⟨h1, h2⟩ := h hp
  let ⟨h3, h4⟩ := h' h1
  ⟨h3, h4.trans h2⟩

theorem PQuiet.skipTrans {N : RNet} {t : Nat} : PQuiet N (N.skipTrans t) := fun h => by
  refine ⟨⟨h.pl, fun s a ha => ?_⟩, rfl⟩
  have ha : a ∈ ((if s = t then _ else N.tr s : RTr)).pre := ha
  split at ha
  · cases ha
  · exact h.arc s a ha

theorem PQuiet.skipPlace {N : RNet} {p : Nat} : PQuiet N (N.skipPlace p) := fun h => by
  refine ⟨⟨h.pl, fun s a ha => ?_⟩, rfl⟩
  have ha : a ∈ dropArc p (N.tr s).pre := ha
  exact h.arc s a (mem_dropArc.1 ha).1

theorem PQuiet.flag {N : RNet} {b : Bool} (hb : N.Plain → b = false) : PQuiet N (N.flag b) := fun h => by
  rw [hb h, flag_false]; exact ⟨h, rfl⟩

theorem PQuiet.sweep {step : RNet → Nat → Option RNet} (h : ∀ N c N', step N c = some N' → PQuiet N N') :
    ∀ (l : List Nat) (N : RNet), PQuiet N (Reduce.sweep step l N).1 := by
  intro l
  induction l with
  | nil => intro N; exact PQuiet.refl N
  | cons c l ih =>
    intro N
    cases hs : step N c with
    | none => rw [sweep_none hs]; exact ih N
    | some N' => rw [sweep_some hs]; exact (h N c N' hs).trans (ih N')

theorem PQuiet.skipAll : ∀ (l : List Nat) (N : RNet), PQuiet N (skipAll l N) := by
  intro l
  induction l with
  | nil => intro N; exact PQuiet.refl N
  | cons a l ih => intro N; exact PQuiet.skipTrans.trans (ih _)

theorem ruleD_pquiet (a b : Bool) (lim : Nat) (N : RNet) : PQuiet N (ruleD Q a b lim N).1 := by
  have hempty : ∀ (l : List Nat) (s : Bool) (N : RNet), PQuiet N (dEmpty l s N) := by
    intro l
    induction l with
    | nil => intro s N; exact PQuiet.refl N
    | cons t l ih =>
      intro s N
      rw [dEmpty]
      split
      · refine PQuiet.trans ?_ (ih _ _)
        split
        · exact PQuiet.skipTrans
        · exact PQuiet.refl N
      · exact ih _ _
  have hrem : ∀ (N : RNet) (x y z : Nat), PQuiet N (dRemove Q N x y z) := fun N x y z =>
    (PQuiet.flag fun hp => by
      unfold dBad
      simp only
      rw [List.any_eq_false]
      intro a _
      rw [hp.pl]; simp).trans PQuiet.skipTrans
  have hin : ∀ (f i : Nat) (p to : Nat) (N : RNet), PQuiet N (dInner Q a b p to f i N).1 := by
    intro f
    induction f with
    | zero => intro i p to N; exact PQuiet.refl N
    | succ f ih =>
      intro i p to N
      rw [dInner]
      split
      · exact PQuiet.refl N
      · split
        · exact ih _ _ _ _
        · split
          · exact hrem _ _ _ _
          · exact (hrem _ _ _ _).trans (ih _ _ _ _)
  have hout : ∀ (f o p : Nat) (fl : List Nat) (N : RNet), PQuiet N (dOuter Q a b p f o fl N).1 := by
    intro f
    induction f with
    | zero => intro o p fl N; exact PQuiet.refl N
    | succ f ih =>
      intro o p fl N
      rw [dOuter]
      split
      · exact PQuiet.refl N
      · split
        · exact ih _ _ _ _
        · exact (hin _ _ _ _ _).trans (ih _ _ _ _)
  have hpl : ∀ (ps fl : List Nat) (N : RNet), PQuiet N (dPlaces Q a b ps fl N).1 := by
    intro ps
    induction ps with
    | nil => intro fl N; exact PQuiet.refl N
    | cons p ps ih => intro fl N; exact (hout _ _ _ _ _).trans (ih _ _)
  exact (hempty _ _ _).trans (hpl _ _ _)

theorem ruleC_pquiet (lim : Nat) (N : RNet) : PQuiet N (ruleC Q lim N).1 := by
  have hrem : ∀ (N : RNet) (po pi p2 : Nat), PQuiet N (cRemove N po pi p2) := fun N po pi p2 =>
    (PQuiet.flag fun hp => by
      unfold cBad
      rw [List.any_eq_false]
      intro t _
      cases he : arcAt (N.tr t).pre (if p2 = po then pi else po) with
      | none => simp
      | some a => simp [hp.arc t a (arcAt_mem he).1]).trans PQuiet.skipPlace
  have hin : ∀ (f i : Nat) (tid po : Nat) (N : RNet), PQuiet N (cInner Q tid po f i N).1 := by
    intro f
    induction f with
    | zero => intro i p to N; exact PQuiet.refl N
    | succ f ih =>
      intro i p to N
      rw [cInner]
      split
      · exact PQuiet.refl N
      · split
        · exact ih _ _ _ _
        · split
          · exact hrem _ _ _ _
          · exact (hrem _ _ _ _).trans (ih _ _ _ _)
  have hout : ∀ (f o p : Nat) (fl : List Nat) (N : RNet), PQuiet N (cOuter Q p f o fl N).1 := by
    intro f
    induction f with
    | zero => intro o p fl N; exact PQuiet.refl N
    | succ f ih =>
      intro o p fl N
      rw [cOuter]
      split
      · exact PQuiet.refl N
      · split
        · exact ih _ _ _ _
        · split
          · exact ih _ _ _ _
          · exact (hin _ _ _ _ _).trans (ih _ _ _ _)
  have hpl : ∀ (ps fl : List Nat) (N : RNet), PQuiet N (ruleCLoop Q ps fl N).1 := by
    intro ps
    induction ps with
    | nil => intro fl N; exact PQuiet.refl N
    | cons p ps ih => intro fl N; exact (hout _ _ _ _ _).trans (ih _ _)
  exact hpl _ _ _

theorem ruleI_pquiet (a : Bool) (lim : Nat) (N : RNet) : PQuiet N (ruleI Q a lim N).1 := by
  unfold ruleI
  split
  · exact PQuiet.refl N
  · rename_i seen _
    refine PQuiet.trans (N' := N.flag (iBad N seen)) (PQuiet.flag fun hp => ?_) ?_
    · unfold iBad
      rw [List.any_eq_false]
      intro t _ h
      obtain ⟨a, ha, h⟩ := List.any_eq_true.1 h
      rw [hp.arc t a ha] at h
      simp at h
    · refine (PQuiet.sweep (fun N t N' h => ?_) _ _).trans (PQuiet.sweep (fun N t N' h => ?_) _ _)
      · unfold iTrans at h
        split at h
        · obtain rfl := Option.some.inj h; exact PQuiet.skipTrans
        · cases h
      · unfold iPlace at h
        split at h
        · obtain rfl := Option.some.inj h; exact PQuiet.skipPlace
        · cases h

theorem ruleR_pquiet (e fuel : Nat) (N : RNet) : PQuiet N (ruleR Q e fuel N).1 := by
  have hnew : ∀ (N : RNet) (x : RTr), (∀ a ∈ x.pre, a.inhib = false) → PQuiet N (N.newTrans x).2 := by
    intro N x hx hp
    unfold RNet.newTrans
    split
    · refine ⟨⟨hp.pl, fun s a ha => ?_⟩, rfl⟩
      have ha : a ∈ (if s = _ then x else N.tr s : RTr).pre := ha
      split at ha
      · exact hx a ha
      · exact hp.arc s a ha
    · refine ⟨⟨hp.pl, fun s a ha => ?_⟩, rfl⟩
      have ha : a ∈ (if s = _ then x else N.tr s : RTr).pre := ha
      split at ha
      · exact hx a ha
      · exact hp.arc s a ha
  have hc : ∀ (pid : Nat) (x : RTr) (l : List Nat) (s : RNet × List Nat), (∀ a ∈ x.pre, a.inhib = false) →
      PQuiet s.1 (rCons pid x l s).1 := by
    intro pid x l
    induction l with
    | nil => intro s _; exact PQuiet.refl _
    | cons c l ih =>
      intro s hx
      rw [rCons]
      have h1 : PQuiet s.1 (s.1.newTrans (rNew pid x (s.1.tr c))).2 := hnew _ _
        (addAll_mem (fun a => a.inhib = false) (fun _ _ h => h) hx (by simp))
      have h2 := ih ((s.1.newTrans (rNew pid x (s.1.tr c))).2,
          if 0 < wAt x.post pid - wAt (s.1.tr c).pre pid then (s.1.newTrans (rNew pid x (s.1.tr c))).1 :: s.2
          else s.2) hx
      exact h1.trans h2
  have hl : ∀ (pid mw : Nat) (cons : List Nat) (f : Nat) (l : List Nat) (o : ROut), PQuiet o.net (rLoop pid mw cons f l o).net := by
    intro pid mw cons f
    induction f with
    | zero => intro l o; exact PQuiet.refl _
    | succ f ih =>
      intro l o
      cases l with
      | nil => exact PQuiet.refl _
      | cons t l =>
        rw [rLoop]
        simp only
        split
        · exact ih _ { o with all := false }
        · have h1 : PQuiet o.net (o.net.flag ((o.net.tr t).pre.any fun a => a.inhib)) := PQuiet.flag fun hp => by
            rw [List.any_eq_false]; intro a ha; rw [hp.arc t a ha]; simp
          have h3 := ih (rCons pid (o.net.tr t) cons (o.net.flag ((o.net.tr t).pre.any fun a => a.inhib), l)).2
            { net := (rCons pid (o.net.tr t) cons (o.net.flag ((o.net.tr t).pre.any fun a => a.inhib), l)).1.skipTrans t,
              fin := o.fin, all := o.all, changed := true, diff := o.diff + ↑cons.length - 1 }
          intro hp
          have h2 := hc pid (o.net.tr t) cons (o.net.flag ((o.net.tr t).pre.any fun a => a.inhib), l) (hp.arc t)
          exact h1.trans (h2.trans (PQuiet.skipTrans.trans h3)) hp
  have hp : ∀ (N : RNet) (p : Nat) (o : ROut), rPlace Q e fuel N p = some o → PQuiet N o.net := by
    intro N p o h
    unfold rPlace at h
    split at h
    · simp only at h
      have hk := hl p (rMax N p) (N.consumers p) fuel (N.producers p).reverse ⟨N, true, true, false, 0⟩
      split at h
      · obtain rfl := Option.some.inj h
        exact hk.trans ((PQuiet.skipAll _ _).trans PQuiet.skipPlace)
      · obtain rfl := Option.some.inj h; exact hk
    · cases h
  have hps : ∀ (l : List Nat) (N : RNet), PQuiet N (rPlaces Q e fuel l N).1 := by
    intro l
    induction l with
    | nil => intro N; exact PQuiet.refl N
    | cons p l ih =>
      intro N
      rw [rPlaces]
      split
      · exact ih N
      · rename_i o he
        split
        · exact hp N p o he
        · split
          · exact hp N p o he
          · exact (hp N p o he).trans (ih _)
  exact hps _ _

/-! ### The rules together with what they preserve -/

/-- On well-formed nets without inhibitor arcs: sound, and the result is such a net again. -/
def Calm (Q : Nat → Bool) (N N' : RNet) : Prop :=
  N.WF → N.Plain → N.bad = false → N'.WF ∧ N'.Plain ∧ N'.bad = false ∧ Same Q N N'

theorem calm_pre (Q : Nat → Bool) : Pre (Calm Q) where
  refl N h1 h2 h3 := ⟨h1, h2, h3, Same.refl Q N⟩
  trans h h' h1 h2 h3 :=
    let ⟨a1, a2, a3, a4⟩ := h h1 h2 h3
    let ⟨b1, b2, b3, b4⟩ := h' a1 a2 a3
    ⟨b1, b2, b3, a4.trans b4⟩

theorem Calm.of_quiet {N N' : RNet} (hg : Good Q N N') (hq : Quiet N N') : Calm Q N N' := by
  intro h1 h2 h3
  have hb : N'.bad = false := hq.bad.trans h3
  obtain ⟨w, s⟩ := hg.2 h1 hb
  have hp : ∀ p, N'.pinhib p = false := fun p => by
    cases he : N'.pinhib p with
    | false => rfl
    | true => have := hq.inh p he; rw [h2.pl] at this; cases this
  refine ⟨w, ⟨hp, fun t a ha => ?_⟩, hb, s⟩
  cases hi : a.inhib with
  | false => rfl
  | true => have := (w.tr t).inhP a ha hi; rw [hp] at this; cases this

theorem Calm.of_pquiet {N N' : RNet} (hg : Good Q N N') (hq : PQuiet N N') : Calm Q N N' := by
  intro h1 h2 h3
  obtain ⟨p1, p2⟩ := hq h2
  have hb : N'.bad = false := p2.trans h3
  obtain ⟨w, s⟩ := hg.2 h1 hb
  exact ⟨w, p1, hb, s⟩

variable {F : Flags} {C : Clock}

/-- The rules of the command line that never leave the conditions under which they are sound on nets without inhibitor
arcs: all except B, E, P, S (and K, which is not modelled). -/
def safeRule (r : Nat) : Bool := r != 1 && r != 4 && r != 15 && r != 18

theorem ruleA_calm : RGood (Calm Q) (ruleA Q) := fun n N => .of_quiet (ruleA_good n) (ruleA_quiet n N)
theorem ruleC_calm : RGood (Calm Q) (ruleC Q) := fun n N => .of_pquiet (ruleC_good n) (ruleC_pquiet n N)
theorem ruleD_calm (a b : Bool) : RGood (Calm Q) (ruleD Q a b) := fun n N => .of_pquiet (ruleD_good n) (ruleD_pquiet a b n N)
theorem ruleF_calm : RGood (Calm Q) (ruleF Q) := fun n N => .of_quiet (ruleF_good n) (ruleF_quiet n N)
theorem ruleG_calm (a b : Bool) : RGood (Calm Q) (ruleG Q a b) := fun n N => .of_quiet (ruleG_good a b n) (ruleG_quiet a b n N)
theorem ruleH_calm (a : Bool) : RGood (Calm Q) (ruleH Q a) := fun n N => .of_quiet (ruleH_good n) (ruleH_quiet a n N)
theorem ruleI_calm (a : Bool) : RGood (Calm Q) (ruleI Q a) := fun n N => .of_pquiet (ruleI_good n) (ruleI_pquiet a n N)
theorem ruleL_calm : RGood (Calm Q) ruleL := fun n N => .of_quiet (ruleL_good n) (ruleL_quiet n N)
theorem ruleM_calm : RGood (Calm Q) (ruleM Q) := fun n N => .of_quiet (ruleM_good n) (ruleM_quiet n N)
theorem ruleFNO_calm : RGood (Calm Q) (ruleFNO Q) := fun n N => .of_quiet (ruleFNO_good n) (ruleFNO_quiet n N)
theorem ruleQ_calm : RGood (Calm Q) (ruleQ Q) := fun n N => .of_quiet (ruleQ_good n) (ruleQ_quiet n N)
theorem ruleR_calm (e : Nat) : RGood (Calm Q) (ruleR Q e) := fun n N => .of_pquiet ruleR_good (ruleR_pquiet e n N)

theorem apply1_calm {i r : Nat} (hr : safeRule r = true) (s s' : PState) (h : apply1 Q F C i r s = some s') :
    Calm Q s.net s'.net := by
  have K := calm_pre Q
  unfold apply1 at h
  split at h
  · exact star_good K ruleA_calm _ _ _ h
  · cases hr
  · exact star_good K ruleC_calm _ _ _ h
  · exact star_good K (ruleD_calm _ _) _ _ _ h
  · cases hr
  · exact star_good K ruleF_calm _ _ _ h
  · exact star_good K (ruleG_calm _ _) _ _ _ h
  · exact star_good K (ruleH_calm _) _ _ _ h
  · exact star_good K (ruleI_calm _) _ _ _ h
  · cases h
  · obtain rfl := Option.some.inj h; exact once_good ruleL_calm s
  · obtain rfl := Option.some.inj h; exact once_good ruleM_calm s
  · obtain rfl := Option.some.inj h; exact once_good ruleFNO_calm s
  · obtain rfl := Option.some.inj h; exact once_good ruleFNO_calm s
  · cases hr
  · obtain rfl := Option.some.inj h; exact once_good ruleQ_calm s
  · exact star_good K (ruleR_calm _) _ _ _ h
  · cases hr
  · obtain rfl := Option.some.inj h; exact K.refl _

theorem applyAll_calm {i : Nat} : ∀ (rs : List Nat) (s s' : PState), (∀ r ∈ rs, safeRule r = true) →
    applyAll Q F C i rs s = some s' → Calm Q s.net s'.net := by
  have K := calm_pre Q
  intro rs
  induction rs with
  | nil => intro s s' _ h; obtain rfl := Option.some.inj h; exact K.refl _
  | cons r rs ih =>
    intro s s' hr h
    rw [applyAll] at h
    obtain ⟨s1, h1, h⟩ := Option.bind_eq_some_iff.1 h
    simp only at h
    have hg : Calm Q s.net (look C s1).1.net := apply1_calm (hr r (by simp)) s s1 h1
    split at h
    · obtain rfl := Option.some.inj h; exact hg
    · exact K.trans hg (ih _ _ (fun r hr' => hr r (by simp [hr'])) h)

theorem mode3_calm {i : Nat} {rs : List Nat} (hr : ∀ r ∈ rs, safeRule r = true) : ∀ (f : Nat) (s s' : PState),
    mode3 Q F C i rs f s = some s' → Calm Q s.net s'.net := by
  have K := calm_pre Q
  intro f
  induction f with
  | zero => intro s s' hs; cases hs
  | succ f ih =>
    intro s s' hs
    rw [mode3] at hs
    simp only at hs
    have hg : Calm Q s.net (again C s).1.net := by rw [again_net]; exact K.refl _
    split at hs
    · obtain ⟨s1, h1, h2⟩ := Option.bind_eq_some_iff.1 hs
      have h1 := applyAll_calm _ _ _ hr h1
      exact K.trans hg (K.trans h1 (ih _ _ h2))
    · obtain rfl := Option.some.inj hs; exact hg

/-- `-r 2`, and `-r 3` with a list of rules without B, E, P and S. -/
theorem reduce_calm {mode : Nat} {rs : List Nat} {fuel : Nat} {N N' : RNet} (h : reduce Q F C mode rs fuel N = some N')
    (hm : mode = 2 ∨ (mode ≠ 1 ∧ ∀ r ∈ rs, safeRule r = true)) : Calm Q N N' := by
  unfold reduce at h
  rcases hm with rfl | ⟨hm, hr⟩
  · rw [if_pos rfl] at h
    obtain ⟨s, h1, rfl⟩ := Option.map_eq_some_iff.1 h
    exact mode2_good (calm_pre Q) ruleA_calm ruleD_calm ruleH_calm _ _ _ h1
  · split at h
    · obtain ⟨s, h1, rfl⟩ := Option.map_eq_some_iff.1 h
      exact mode2_good (calm_pre Q) ruleA_calm ruleD_calm ruleH_calm _ _ _ h1
    · obtain ⟨s, h1, rfl⟩ := Option.map_eq_some_iff.1 h
      exact mode3_calm (fun r hr' => hr r (List.mem_filter.1 hr').1) _ _ _ h1

end Reduce
end Verif
