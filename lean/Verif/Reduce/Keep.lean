import Verif.Reduce.ModelP
import Verif.Reduce.RulesN
import Verif.Reduce.RulesH

/-!
# No reduction removes a place of the query
-/

namespace Verif
namespace Reduce

/-- The number of places stays, and the places of the query that are there stay. -/
structure Keep (Q : Nat → Bool) (N N' : RNet) : Prop where
  np : N'.np = N.np
  sk : ∀ p, Q p = true → N'.pskip p = N.pskip p

variable {Q : Nat → Bool}

theorem Keep.refl (N : RNet) : Keep Q N N := ⟨rfl, fun _ _ => rfl⟩

theorem Keep.trans {N N' N'' : RNet} (h : Keep Q N N') (h' : Keep Q N' N'') : Keep Q N N'' :=
  ⟨h'.np.trans h.np, fun p hp => (h'.sk p hp).trans (h.sk p hp)⟩

theorem Keep.of_eq {N N' : RNet} (h1 : N'.np = N.np) (h2 : N'.pskip = N.pskip) : Keep Q N N' :=
  ⟨h1, fun p _ => by rw [h2]⟩

theorem Keep.skipPlace {N : RNet} {p : Nat} (h : Q p = false) : Keep Q N (N.skipPlace p) := by
  refine ⟨rfl, fun q hq => ?_⟩
  show (if q = p then true else N.pskip q) = _
  rw [if_neg fun hc => by rw [hc, h] at hq; cases hq]

theorem Keep.skipTrans {N : RNet} {t : Nat} : Keep Q N (N.skipTrans t) := Keep.of_eq rfl rfl

theorem Keep.sweep {step : RNet → Nat → Option RNet} (h : ∀ N c N', step N c = some N' → Keep Q N N') :
    ∀ (l : List Nat) (N : RNet), Keep Q N (Reduce.sweep step l N).1 := by
  intro l
  induction l with
  | nil => intro N; exact Keep.refl N
  | cons c l ih =>
    intro N
    cases hs : step N c with
    | none => rw [sweep_none hs]; exact ih N
    | some N' => rw [sweep_some hs]; exact (h N c N' hs).trans (ih N')

theorem moveInit_keep (n : Nat) : ∀ (l : List Arc) (N : RNet), (moveInit n l N).np = N.np ∧ (moveInit n l N).pskip = N.pskip := by
  intro l
  induction l with
  | nil => intro N; exact ⟨rfl, rfl⟩
  | cons a l ih => intro N; exact ih _

theorem takeInit_keep (n : Nat) : ∀ (l : List Arc) (N : RNet), (takeInit n l N).np = N.np ∧ (takeInit n l N).pskip = N.pskip := by
  intro l
  induction l with
  | nil => intro N; exact ⟨rfl, rfl⟩
  | cons a l ih => intro N; exact ih _

theorem aMove_keep (p w : Nat) (post : List Arc) : ∀ (l : List Nat) (N : RNet),
    (aMove p w post l N).np = N.np ∧ (aMove p w post l N).pskip = N.pskip := by
  intro l
  induction l with
  | nil => intro N; exact ⟨rfl, rfl⟩
  | cons a l ih => intro N; exact ih _

theorem skipAll_eq : ∀ (l : List Nat) (N : RNet), (skipAll l N).np = N.np ∧ (skipAll l N).pskip = N.pskip := by
  intro l
  induction l with
  | nil => intro N; exact ⟨rfl, rfl⟩
  | cons a l ih => intro N; exact ih _

theorem newTrans_eq (N : RNet) (x : RTr) : (N.newTrans x).2.np = N.np ∧ (N.newTrans x).2.pskip = N.pskip := by
  unfold RNet.newTrans
  split <;> exact ⟨rfl, rfl⟩

theorem Keep.skipAll (l : List Nat) (N : RNet) : Keep Q N (skipAll l N) := Keep.of_eq (skipAll_eq l N).1 (skipAll_eq l N).2

theorem ruleA_keep (lim : Nat) (N : RNet) : Keep Q N (ruleA Q lim N).1 := by
  refine Keep.sweep (fun N t N' h => ?_) _ N
  unfold ruleAStep at h
  simp only at h
  split at h
  · cases h
  split at h
  · repeat' (split at h)
    all_goals first
      | cases h; done
      | skip
    rename_i a _ _ _ _ hQ _
    obtain rfl := Option.some.inj h
    refine Keep.trans (N' := aMove a.place a.weight _ _ _) ?_ (Keep.skipPlace (by simpa using hQ))
    refine Keep.of_eq ?_ ?_
    · rw [(aMove_keep _ _ _ _ _).1]
      exact (moveInit_keep _ _ N).1
    · rw [(aMove_keep _ _ _ _ _).2]
      exact (moveInit_keep _ _ N).2
  · cases h

theorem bStep_keep {rd rc : Bool} {p tIn : Nat} {N N' : RNet} {t : Nat} (h : bStep Q rd rc p tIn N t = some N') :
    Keep Q N N' := by
  have skel : ∀ (c : Prop) [Decidable c] {x : Option RNet}, (if c then none else x) = some N' → x = some N' := by
    intro c _ x hc
    by_cases hcc : c
    · rw [if_pos hcc] at hc; cases hc
    · rw [if_neg hcc] at hc; exact hc
  unfold bStep at h
  iterate 10 replace h := skel _ h
  obtain rfl := Option.some.inj h
  unfold bApply
  refine Keep.of_eq ?_ ?_
  · show (moveInit _ _ (moveInit _ _ _)).np = _
    rw [(moveInit_keep _ _ _).1, (moveInit_keep _ _ _).1]; rfl
  · show (moveInit _ _ (moveInit _ _ _)).pskip = _
    rw [(moveInit_keep _ _ _).2, (moveInit_keep _ _ _).2]; rfl

theorem ruleB_keep (rd rc : Bool) (lim : Nat) (N : RNet) : Keep Q N (ruleB Q rd rc lim N).1 := by
  refine Keep.sweep (fun N p N' h => ?_) _ N
  unfold ruleBStep at h
  split at h
  · cases h
  split at h
  · cases h
  rename_i hQ
  split at h
  · rename_i tIn _
    split at h
    · cases h
    split at h
    · cases h
    have hk := Keep.sweep (Q := Q) (step := bStep Q rd rc p tIn) (fun N c N' h => bStep_keep h) (N.producers p) N
    split at h
    · cases h
    · rename_i N1 he
      rw [he] at hk
      obtain rfl := Option.some.inj h
      split
      · exact hk.trans ((Keep.skipPlace (by simpa using hQ)).trans Keep.skipTrans)
      · exact hk
  · cases h

theorem ruleD_keep (a b : Bool) (lim : Nat) (N : RNet) : Keep Q N (ruleD Q a b lim N).1 := by
  have hempty : ∀ (l : List Nat) (s : Bool) (N : RNet), Keep Q N (dEmpty l s N) := by
    intro l
    induction l with
    | nil => intro s N; exact Keep.refl N
    | cons t l ih =>
      intro s N
      rw [dEmpty]
      split
      · refine Keep.trans ?_ (ih _ _)
        split
        · exact Keep.skipTrans
        · exact Keep.refl N
      · exact ih _ _
  have hin : ∀ (f i : Nat) (p to : Nat) (N : RNet), Keep Q N (dInner Q a b p to f i N).1 := by
    intro f
    induction f with
    | zero => intro i p to N; exact Keep.refl N
    | succ f ih =>
      intro i p to N
      rw [dInner]
      split
      · exact Keep.refl N
      · split
        · exact ih _ _ _ _
        · split
          · exact Keep.of_eq rfl rfl
          · exact Keep.trans (N' := dRemove Q N to _ _) (Keep.of_eq rfl rfl) (ih _ _ _ _)
  have hout : ∀ (f o p : Nat) (fl : List Nat) (N : RNet), Keep Q N (dOuter Q a b p f o fl N).1 := by
    intro f
    induction f with
    | zero => intro o p fl N; exact Keep.refl N
    | succ f ih =>
      intro o p fl N
      rw [dOuter]
      split
      · exact Keep.refl N
      · split
        · exact ih _ _ _ _
        · exact (hin _ _ _ _ _).trans (ih _ _ _ _)
  have hpl : ∀ (ps fl : List Nat) (N : RNet), Keep Q N (dPlaces Q a b ps fl N).1 := by
    intro ps
    induction ps with
    | nil => intro fl N; exact Keep.refl N
    | cons p ps ih => intro fl N; exact (hout _ _ _ _ _).trans (ih _ _)
  exact (hempty _ _ _).trans (hpl _ _ _)

theorem cPair_query {N : RNet} {po pi p2 : Nat} (h : cPair Q N po pi = some p2) : Q p2 = false := by
  have hc : ∀ p1 p2, (cCheck Q N p1 p2).1 = true → Q p2 = false := by
    intro p1 p2 h
    unfold cCheck at h
    split at h
    · cases h
    · rename_i hq; simpa using hq
  unfold cPair at h
  split at h
  · cases h
  split at h
  · rename_i he; cases h; exact hc po pi (by rw [he])
  · cases h
  · split at h
    · rename_i he; cases h; exact hc pi po he
    · cases h

theorem ruleC_keep (lim : Nat) (N : RNet) : Keep Q N (ruleC Q lim N).1 := by
  have hrem : ∀ {N : RNet} {po pi p2 : Nat}, cPair Q N po pi = some p2 → Keep Q N (cRemove N po pi p2) := fun {N po pi p2} h =>
    Keep.trans (N' := N.flag (cBad N (if p2 = po then pi else po) p2)) (Keep.of_eq rfl rfl) (Keep.skipPlace (cPair_query h))
  have hin : ∀ (f i : Nat) (tid po : Nat) (N : RNet), Keep Q N (cInner Q tid po f i N).1 := by
    intro f
    induction f with
    | zero => intro i p to N; exact Keep.refl N
    | succ f ih =>
      intro i p to N
      rw [cInner]
      split
      · exact Keep.refl N
      · split
        · exact ih _ _ _ _
        · rename_i he
          split
          · exact hrem he
          · exact (hrem he).trans (ih _ _ _ _)
  have hout : ∀ (f o p : Nat) (fl : List Nat) (N : RNet), Keep Q N (cOuter Q p f o fl N).1 := by
    intro f
    induction f with
    | zero => intro o p fl N; exact Keep.refl N
    | succ f ih =>
      intro o p fl N
      rw [cOuter]
      split
      · exact Keep.refl N
      · split
        · exact ih _ _ _ _
        · split
          · exact ih _ _ _ _
          · exact (hin _ _ _ _ _).trans (ih _ _ _ _)
  have hpl : ∀ (ps fl : List Nat) (N : RNet), Keep Q N (ruleCLoop Q ps fl N).1 := by
    intro ps
    induction ps with
    | nil => intro fl N; exact Keep.refl N
    | cons p ps ih => intro fl N; exact (hout _ _ _ _ _).trans (ih _ _)
  exact hpl _ _ _

theorem fold_keep {f : RNet → Nat → RNet} (h : ∀ N t, Keep Q N (f N t)) : ∀ (l : List Nat) (N : RNet), Keep Q N (l.foldl f N) := by
  intro l
  induction l with
  | nil => intro N; exact Keep.refl N
  | cons t l ih => intro N; exact (h N t).trans (ih _)

theorem ruleEP_keep (lim : Nat) (N : RNet) : Keep Q N (ruleEP Q lim N).1 := by
  refine Keep.sweep (fun N p N' h => ?_) _ N
  unfold ruleEPStep at h
  simp only at h
  iterate 5
    split at h
    · cases h
  split at h
  · rename_i hc
    obtain rfl := Option.some.inj h
    exact Keep.trans (N' := N.flag _) (Keep.of_eq rfl rfl) (Keep.skipPlace hc.2)
  · obtain rfl := Option.some.inj h
    exact (fold_keep (f := fun N t => N.skipTrans t) (fun _ _ => Keep.skipTrans) _ _).trans
      (fold_keep (f := fun N t => N.skipInArc p t) (fun _ _ => Keep.of_eq rfl rfl) _ _)

theorem ruleF_keep (lim : Nat) (N : RNet) : Keep Q N (ruleF Q lim N).1 := by
  refine Keep.sweep (fun N p N' h => ?_) _ N
  unfold ruleFStep at h
  iterate 3
    split at h
    · cases h
  split at h
  · cases h
  rename_i hQ
  split at h
  · cases h
  split at h
  · obtain rfl := Option.some.inj h
    exact Keep.skipPlace (by simpa using hQ)
  · cases h

theorem ruleG_keep (a b : Bool) (lim : Nat) (N : RNet) : Keep Q N (ruleG Q a b lim N).1 := by
  unfold ruleG
  split
  · exact Keep.refl N
  · refine Keep.sweep (fun N p N' h => ?_) _ N
    unfold ruleGStep at h
    simp only at h
    iterate 3
      split at h
      · cases h
    split at h
    · obtain rfl := Option.some.inj h; exact Keep.skipTrans
    · cases h

theorem ruleJ_keep (lim : Nat) (N : RNet) : Keep Q N (ruleJ Q lim N).1 := by
  refine Keep.sweep (fun N p N' h => ?_) _ N
  unfold ruleJStep at h
  simp only at h
  iterate 5
    split at h
    · cases h
  obtain rfl := Option.some.inj h
  exact Keep.of_eq rfl rfl

theorem mDead_keep (s : MState) (l : List Nat) (N : RNet) : Keep Q N (Reduce.sweep (mDead s) l N).1 := by
  refine Keep.sweep (fun N t N' h => ?_) _ N
  unfold mDead at h
  split at h
  · obtain rfl := Option.some.inj h; exact Keep.skipTrans
  · cases h

theorem ruleE_keep (lim : Nat) (N : RNet) : Keep Q N (ruleE Q lim N).1 := by
  have hc : ∀ (s : MState) (p t : Nat) (N : RNet), Keep Q N (eCons s p t N).net := by
    intro s p t N
    unfold eCons
    repeat' split
    all_goals exact Keep.of_eq rfl rfl
  have ha : ∀ (s : MState) (p : Nat) (l : List Nat) (N : RNet), Keep Q N (eAll s p l N).net := by
    intro s p l
    induction l with
    | nil => intro N; exact Keep.refl N
    | cons t l ih => intro N; exact (hc s p t N).trans (ih _)
  have hp : ∀ (s : MState) (p : Nat) (N : RNet), Keep Q N (ePlace Q s N p).1 := by
    intro s p N
    unfold ePlace
    split
    · exact Keep.refl N
    split
    · split
      · exact Keep.of_eq rfl rfl
      · rename_i hQ; exact Keep.skipPlace (by simpa using hQ)
    · simp only
      split
      · rename_i hq; exact (ha _ _ _ _).trans (Keep.skipPlace hq.2)
      · exact ha _ _ _ _
  have hps : ∀ (s : MState) (l : List Nat) (N : RNet), Keep Q N (ePlaces Q s l N).1 := by
    intro s l
    induction l with
    | nil => intro N; exact Keep.refl N
    | cons p l ih => intro N; exact (hp s p N).trans (ih _)
  unfold ruleE
  split
  · exact Keep.refl N
  · exact (mDead_keep _ _ _).trans (hps _ _ _)

theorem ruleM_keep (lim : Nat) (N : RNet) : Keep Q N (ruleM Q lim N).1 := by
  unfold ruleM
  split
  · exact Keep.refl N
  · refine (Keep.sweep (fun N t N' h => ?_) _ N).trans (mDead_keep _ _ _)
    unfold mConst at h
    split at h
    · rename_i hq; obtain rfl := Option.some.inj h; exact Keep.skipPlace hq.2.1
    · cases h

theorem nApply_eq (p : Nat) (s : NState) : ∀ (ts : List Nat) (o : NOut), (nApply p s ts o).net.np = o.net.np ∧
    (nApply p s ts o).net.pskip = o.net.pskip := by
  intro ts
  induction ts with
  | nil => intro o; exact ⟨rfl, rfl⟩
  | cons t ts ih =>
    intro o
    rw [nApply]
    split
    · exact ih o
    · split
      · exact ih o
      · split
        · exact ih o
        · split
          · exact ih _
          · obtain ⟨h1, h2⟩ := ih { o with net := nMerge o.net p t _, dnn := o.dnn - 1, changed := true }
            rw [h1, h2]
            simp only
            rw [nMerge_eq]; exact ⟨rfl, rfl⟩

theorem nScan_remove {N : RNet} {p : Nat} : ∀ (l : List Nat) (s : NState), (nScan N p l s).removePlace = true →
    s.removePlace = true := by
  intro l
  induction l with
  | nil => intro s h; exact h
  | cons t l ih =>
    intro s h
    rw [nScan] at h
    split at h
    · have := ih _ h; exact this
    · split at h
      · have := ih _ h; exact this
      · split at h
        · exact h
        · split at h
          · have := ih _ h; cases this
          · have := ih _ h; exact this

theorem ruleFNO_keep (lim : Nat) (N : RNet) : Keep Q N (ruleFNO Q lim N).1 := by
  have hp : ∀ (p : Nat) (N : RNet), Keep Q N (nPlace Q N p).1 := by
    intro p N
    unfold nPlace
    split
    · exact Keep.refl N
    simp only
    split
    · exact Keep.refl N
    have hk : Keep Q N (skipAll (nApply p (nScan N p (N.consumers p) ⟨N.init p, [], !Q p, 0, (N.consumers p).length⟩)
        (N.consumers p) ⟨N, [], (nScan N p (N.consumers p) ⟨N.init p, [], !Q p, 0, (N.consumers p).length⟩).dnn, false⟩).inhibited.reverse
        (nApply p (nScan N p (N.consumers p) ⟨N.init p, [], !Q p, 0, (N.consumers p).length⟩)
        (N.consumers p) ⟨N, [], (nScan N p (N.consumers p) ⟨N.init p, [], !Q p, 0, (N.consumers p).length⟩).dnn, false⟩).net) :=
      Keep.trans (Keep.of_eq (nApply_eq p _ _ ⟨N, [], _, false⟩).1 (nApply_eq p _ _ ⟨N, [], _, false⟩).2) (Keep.skipAll _ _)
    split
    · rename_i hc
      have := nScan_remove _ _ hc.1
      exact hk.trans (Keep.skipPlace (by simpa using this))
    · split
      · exact hk.trans (Keep.of_eq rfl rfl)
      · exact hk
  have hps : ∀ (l : List Nat) (N : RNet), Keep Q N (nPlaces Q l N).1 := by
    intro l
    induction l with
    | nil => intro N; exact Keep.refl N
    | cons p l ih => intro N; exact (hp p N).trans (ih _)
  exact hps _ _

theorem ruleQ_keep (lim : Nat) (N : RNet) : Keep Q N (ruleQ Q lim N).1 := by
  refine Keep.sweep (fun N p N' h => ?_) _ N
  unfold ruleQStep at h
  simp only at h
  split at h
  · cases h
  split at h
  · obtain rfl := Option.some.inj h
    exact Keep.of_eq (by rw [(moveInit_keep _ _ _).1, (takeInit_keep _ _ _).1]) (by rw [(moveInit_keep _ _ _).2, (takeInit_keep _ _ _).2])
  · cases h

theorem ruleL_keep (lim : Nat) (N : RNet) : Keep Q N (ruleL lim N).1 := by
  have h : ∀ (l : List Nat) (N : RNet), Keep Q N (lLoop l N).1 := by
    intro l
    induction l with
    | nil => intro N; exact Keep.refl N
    | cons t l ih =>
      intro N
      rw [lLoop]
      split
      · exact Keep.refl N
      · split
        · exact Keep.skipTrans.trans (ih _)
        · exact ih _
  exact h _ _

theorem ruleI_keep (a : Bool) (lim : Nat) (N : RNet) : Keep Q N (ruleI Q a lim N).1 := by
  unfold ruleI
  split
  · exact Keep.refl N
  · rename_i seen _
    refine Keep.trans (N' := N.flag (iBad N seen)) (Keep.of_eq rfl rfl) ?_
    refine (Keep.sweep (fun N t N' h => ?_) _ _).trans (Keep.sweep (fun N t N' h => ?_) _ _)
    · unfold iTrans at h
      split at h
      · obtain rfl := Option.some.inj h; exact Keep.skipTrans
      · cases h
    · unfold iPlace at h
      split at h
      · rename_i hq; obtain rfl := Option.some.inj h; exact Keep.skipPlace hq.2.2
      · cases h

theorem ruleH_keep (a : Bool) (lim : Nat) (N : RNet) : Keep Q N (ruleH Q a lim N).1 := by
  have hm : ∀ (l : List Nat) (p1 prev : Nat) (N : RNet), Keep Q N (hMerge Q a p1 prev l N).1 := by
    intro l
    induction l with
    | nil => intro p1 prev N; exact Keep.refl N
    | cons t l ih =>
      intro p1 prev N
      rw [hMerge]
      split
      · exact ih _ _ _
      · rename_i hq
        split
        · exact ih _ _ _
        · split
          · exact ih _ _ _
          · refine Keep.trans ?_ (ih _ _ _)
            unfold hJoin
            refine Keep.trans ?_ (Keep.skipPlace (by
              simp only [Bool.or_eq_true, not_or, Bool.not_eq_true] at hq; exact hq.1))
            exact Keep.of_eq rfl rfl
  have hr : ∀ (N : RNet) (st : List Nat) (nt : Nat), Keep Q N (hRemove Q a N st nt).1 := by
    intro N st nt
    unfold hRemove
    split
    · exact Keep.refl N
    · exact hm _ _ _ _
  have hs : ∀ (N N' : RNet) (st : List Nat) (it : Nat) (l : List Nat) (fl : Nat → Nat),
      hScan Q a N st it l fl = .removed N' → Keep Q N N' := by
    intro N N' st it l
    induction l with
    | nil => intro fl h; cases h
    | cons nt l ih =>
      intro fl h
      rw [hScan] at h
      split at h
      · exact ih _ h
      · split at h
        · have hk := hr N st nt
          split at h
          · rename_i he; rw [he] at hk; cases h; exact hk
          · exact ih _ h
        · split at h
          · split at h
            · cases h
            · exact ih _ h
          · exact ih _ h
  have hse : ∀ (N N' : RNet) (f : Nat) (fl : Nat → Nat) (st : List Nat), hSearch Q a N f fl st = some N' → Keep Q N N' := by
    intro N N' f
    induction f with
    | zero => intro fl st h; cases h
    | succ f ih =>
      intro fl st h
      rw [hSearch] at h
      split at h
      · cases h
      · split at h
        · rename_i he; cases h; exact hs _ _ _ _ _ _ he
        · exact ih _ _ h
        · exact ih _ _ h
  refine Keep.sweep (fun N p N' h => ?_) _ N
  unfold ruleHStep at h
  split at h
  · cases h
  · split at h
    · exact hse _ _ _ _ _ h
    · cases h

theorem ruleR_keep (e fuel : Nat) (N : RNet) : Keep Q N (ruleR Q e fuel N).1 := by
  have hc : ∀ (pid : Nat) (x : RTr) (l : List Nat) (s : RNet × List Nat), Keep Q s.1 (rCons pid x l s).1 := by
    intro pid x l
    induction l with
    | nil => intro s; exact Keep.refl _
    | cons c l ih =>
      intro s
      rw [rCons]
      have h1 : Keep Q s.1 (s.1.newTrans (rNew pid x (s.1.tr c))).2 := Keep.of_eq (newTrans_eq _ _).1 (newTrans_eq _ _).2
      have h2 := ih ((s.1.newTrans (rNew pid x (s.1.tr c))).2,
          if 0 < wAt x.post pid - wAt (s.1.tr c).pre pid then (s.1.newTrans (rNew pid x (s.1.tr c))).1 :: s.2
          else s.2)
      exact h1.trans h2
  have hl : ∀ (pid mw : Nat) (cons : List Nat) (f : Nat) (l : List Nat) (o : ROut), Keep Q o.net (rLoop pid mw cons f l o).net := by
    intro pid mw cons f
    induction f with
    | zero => intro l o; exact Keep.refl _
    | succ f ih =>
      intro l o
      cases l with
      | nil => exact Keep.refl _
      | cons t l =>
        rw [rLoop]
        simp only
        split
        · exact ih _ { o with all := false }
        · have h1 : Keep Q o.net (o.net.flag ((o.net.tr t).pre.any fun a => a.inhib)) := Keep.of_eq rfl rfl
          have h2 := hc pid (o.net.tr t) cons (o.net.flag ((o.net.tr t).pre.any fun a => a.inhib), l)
          have h3 := ih (rCons pid (o.net.tr t) cons (o.net.flag ((o.net.tr t).pre.any fun a => a.inhib), l)).2
            { net := (rCons pid (o.net.tr t) cons (o.net.flag ((o.net.tr t).pre.any fun a => a.inhib), l)).1.skipTrans t,
              fin := o.fin, all := o.all, changed := true, diff := o.diff + ↑cons.length - 1 }
          exact h1.trans (h2.trans (Keep.skipTrans.trans h3))
  have hp : ∀ (N : RNet) (p : Nat) (o : ROut), rPlace Q e fuel N p = some o → Keep Q N o.net := by
    intro N p o h
    unfold rPlace at h
    split at h
    · rename_i hok
      have hQ : Q p = false := by
        unfold rOk at hok
        simp only [Bool.and_eq_true, Bool.not_eq_true'] at hok
        exact hok.1.1.1.1.1.2
      simp only at h
      have hk := hl p (rMax N p) (N.consumers p) fuel (N.producers p).reverse ⟨N, true, true, false, 0⟩
      split at h
      · obtain rfl := Option.some.inj h
        exact hk.trans ((Keep.skipAll _ _).trans (Keep.skipPlace hQ))
      · obtain rfl := Option.some.inj h; exact hk
    · cases h
  have hps : ∀ (l : List Nat) (N : RNet), Keep Q N (rPlaces Q e fuel l N).1 := by
    intro l
    induction l with
    | nil => intro N; exact Keep.refl N
    | cons p l ih =>
      intro N
      rw [rPlaces]
      split
      · exact ih N
      · rename_i o he
        split
        · exact hp N p o he
        · split
          · exact hp N p o he
          · exact (hp N p o he).trans (ih _)
  exact hps _ _

theorem ruleS_keep (a b : Bool) (e lim : Nat) (N : RNet) : Keep Q N (ruleS Q a b e lim N).1 := by
  have hadd : ∀ (pid t c k w : Nat) (l : List Nat) (N : RNet), Keep Q N (sAdd pid t c k w l N) := by
    intro pid t c k w l
    induction l with
    | nil => intro N; exact Keep.refl N
    | cons ki l ih => intro N; exact Keep.trans (Keep.of_eq (newTrans_eq _ _).1 (newTrans_eq _ _).2) (ih _)
  have hall : ∀ (pid : Nat) (c : SCon) (sp : Bool) (l : List Nat) (s : RNet × Nat), Keep Q s.1 (sAddAll pid c sp l s).1 := by
    intro pid c sp l
    induction l with
    | nil => intro s; exact Keep.refl _
    | cons t l ih => 
      intro s
      rw [sAddAll]
      have h2 := ih (sAdd pid t c.id (if sp = true then wAt (s.1.tr t).post pid / c.w else 1) c.w
            (List.map (fun x => x + 1) (List.range (if sp = true then wAt (s.1.tr t).post pid / c.w else 1))) s.1,
          s.2 + if sp = true then wAt (s.1.tr t).post pid / c.w else 1)
      exact (hadd _ _ _ _ _ _ _).trans h2
  have hcons : ∀ (at' : Bool) (pid : Nat) (prods : List Nat) (l : List SCon) (o : SOut), Keep Q o.net (sCons at' pid prods l o).net := by
    intro at' pid prods l
    induction l with
    | nil => intro o; exact Keep.refl _
    | cons c l ih =>
      intro o
      rw [sCons]
      split
      · exact ih o
      · have h1 : Keep Q o.net (o.net.flag (at' && !c.one)) := Keep.of_eq rfl rfl
        have h2 := hall pid c (at' && !c.one) prods (o.net.flag (at' && !c.one), 0)
        have h3 := ih ⟨(sAddAll pid c (at' && !c.one) prods (o.net.flag (at' && !c.one), 0)).1.skipTrans c.id, true,
          o.diff + (sAddAll pid c (at' && !c.one) prods (o.net.flag (at' && !c.one), 0)).2 - 1⟩
        exact h1.trans (h2.trans (Keep.skipTrans.trans h3))
  have hp : ∀ (at' : Bool) (N : RNet) (p : Nat) (o : SOut), sPlace Q at' N p = some o → Keep Q N o.net := by
    intro at' N p o h
    unfold sPlace at h
    split at h
    · cases h
    rename_i hok
    have hQ : Q p = false := by
      simp only [Bool.or_eq_true, not_or, Bool.not_eq_true] at hok
      exact hok.1.1.1.2
    split at h
    · cases h
    · rename_i cs _
      have hk := hcons at' p (N.producers p) cs ⟨N, false, 0⟩
      simp only at h
      split at h
      · obtain rfl := Option.some.inj h
        exact hk.trans ((Keep.skipAll _ _).trans (Keep.skipPlace hQ))
      · obtain rfl := Option.some.inj h; exact hk
  have hps : ∀ (at' : Bool) (l : List Nat) (N : RNet), Keep Q N (sPlaces Q at' e l N).1 := by
    intro at' l
    induction l with
    | nil => intro N; exact Keep.refl N
    | cons p l ih =>
      intro N
      rw [sPlaces]
      split
      · exact ih N
      · rename_i o he
        split
        · exact hp _ N p o he
        · exact (hp _ N p o he).trans (ih _)
  exact hps _ _ _

end Reduce
end Verif
