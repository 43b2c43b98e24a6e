import Verif.TAR.CheckInv
import Verif.Props.Verdict

/-! # From the transitions in use to all of them, and runs that avoid the empty marking -/

namespace Verif
namespace TAR
open PRVec Solver TraceSet PQL

/-- The markings reached by used transitions. -/
inductive URun (N : FlatNet) (use : Nat → Bool) (m0 : Nat → Nat) : (Nat → Nat) → Prop
  | refl : URun N use m0 m0
  | step {m m' : Nat → Nat} (t : Nat) : URun N use m0 m → use (t + 1) = true → Fire N m t m' → URun N use m0 m'

variable {N : FlatNet} {use : Nat → Bool}

/-! ## Runs avoiding the empty marking -/

theorem NzRun.head {m0 m1 m : Nat → Nat} {t : Nat} (hu : use (t + 1) = true) (hf : Fire N m0 t m1) (hz : Nz N.nplaces m1)
    (h : NzRun N use m1 m) : NzRun N use m0 m := by
  induction h with
  | refl => exact .step t .refl hu hf hz
  | step t' _ hu' hf' hz' ih => exact .step t' ih hu' hf' hz'

theorem URun.lift {m0 m a : Nat → Nat} (ha : Nz N.nplaces a) (h : URun N use m0 m) :
    NzRun N use (fun p => m0 p + a p) (fun p => m p + a p) := by
  induction h with
  | refl => exact .refl
  | @step m m' t _ hu hf ih =>
    obtain ⟨h1, h2, rfl⟩ := hf
    refine .step t ih hu ⟨h1, fun p => Nat.le_trans (h2 p) (Nat.le_add_right _ _), ?_⟩ ?_
    · funext p; have := h2 p; simp only; omega
    · obtain ⟨p, hp, hne⟩ := ha
      exact ⟨p, hp, by simp only; omega⟩

/-- A non-empty marking that can be reached can be reached through non-empty markings. -/
theorem URun.nz (ok : NetOK N) {m0 m : Nat → Nat} (h : URun N use m0 m) (hz : Nz N.nplaces m) : NzRun N use m0 m := by
  induction h with
  | refl => exact .refl
  | @step m m' t hr hu hf ih =>
    by_cases hm : Nz N.nplaces m
    · exact .step t (ih hm) hu hf hz
    · have h0 : ∀ p < N.nplaces, m p = 0 := fun p hp => by
        apply Classical.byContradiction
        intro hne
        exact hm ⟨p, hp, hne⟩
      have hpre : ∀ p, pre N t p = 0 := fun p => by
        by_cases hp : p < N.nplaces
        · have h1 := hf.2.1 p
          rw [h0 p hp] at h1
          omega
        · exact arcSum_zero fun a ha he => by have := (ok.preLt t hf.1 a ha).1; omega
      have hm' : m' = fun p => m p + post N t p := by
        rw [hf.2.2]; funext p; rw [hpre p]; omega
      have ha : Nz N.nplaces (post N t) := by
        obtain ⟨p, hp, hne⟩ := hz
        refine ⟨p, hp, ?_⟩
        rw [hm'] at hne
        have := h0 p hp
        simp only at hne
        omega
      rw [hm']
      refine NzRun.head (t := t) hu (m1 := fun p => m0 p + post N t p) ⟨hf.1, fun p => by rw [hpre p]; omega, ?_⟩ ?_ (URun.lift ha hr)
      · funext p; rw [hpre p]; omega
      · obtain ⟨p, hp, hne⟩ := ha
        exact ⟨p, hp, by simp only; omega⟩

/-! ## The transitions in use -/

/-- Presets of used transitions are used. -/
def Uses.PreOK (N : FlatNet) (u : Uses) : Prop :=
  ∀ t < N.ntransitions, u.trans (t + 1) = true → ∀ a ∈ N.preset t, u.place a.place = true

theorem Uses.update_preOK {u : Uses} (h : u.PreOK N) : (u.update N).1.PreOK N := by
  intro t ht hu a ha
  simp only [Uses.update, Bool.or_eq_true, List.any_eq_true, beq_iff_eq] at hu ⊢
  rcases hu with hu | ⟨t', ht', he⟩
  · exact Or.inl (h t ht hu a ha)
  · obtain rfl : t' = t := by omega
    exact Or.inr ⟨t', ht', a, ha, rfl⟩

theorem Uses.update_place {u : Uses} {p : Nat} (h : u.place p = true) : (u.update N).1.place p = true := by
  simp [Uses.update, h]

theorem Uses.iter_inv (P : Uses → Prop) (hP : ∀ u, P u → P (u.update N).1) {u : Uses} (h : P u) :
    ∀ n, P ((fun x => (Uses.update N x).1)^[n] u) := by
  intro n
  induction n with
  | zero => exact h
  | succ n ih => rw [Function.iterate_succ_apply']; exact hP _ ih

/-- Nothing used is touched by a transition that is not used. -/
theorem Uses.closed {u : Uses} (h : (u.update N).2 = false) {t : Nat} (ht : t < N.ntransitions) (hu : u.trans (t + 1) = false) :
    (∀ a ∈ N.preset t, u.place a.place = false) ∧ ∀ a ∈ N.postset t, u.place a.place = false := by
  simp only [Uses.update, Bool.not_eq_false', List.isEmpty_iff, List.filter_eq_nil_iff, List.mem_range] at h
  have := h t ht
  simp only [Uses.fresh, hu, Bool.not_false, Bool.true_and, Bool.not_eq_true, Bool.or_eq_false_iff, List.any_eq_false] at this
  exact ⟨fun a ha => by simpa using this.1 a ha, fun a ha => by simpa using this.2 a ha⟩

/-- Every run has a counterpart with the used transitions only, which leads to the same tokens in the used places. -/
theorem slice_run {u : Uses} (h1 : u.PreOK N) (h2 : (u.update N).2 = false) {m0 m : Nat → Nat}
    (h : URun N (fun _ => true) m0 m) : ∃ m', URun N u.trans m0 m' ∧ ∀ p, u.place p = true → m' p = m p := by
  induction h with
  | refl => exact ⟨m0, .refl, fun _ _ => rfl⟩
  | @step m m1 t _ _ hf ih =>
    obtain ⟨m', h3, h4⟩ := ih
    obtain ⟨ht, he, rfl⟩ := hf
    cases hu : u.trans (t + 1) with
    | true =>
      have hpu : ∀ p, u.place p = false → pre N t p = 0 := fun p hp =>
        arcSum_zero fun a ha hap => by have := h1 t ht hu a ha; rw [hap, hp] at this; cases this
      refine ⟨_, .step t h3 hu ⟨ht, fun p => ?_, rfl⟩, fun p hp => ?_⟩
      · cases hp : u.place p with
        | true => rw [h4 p hp]; exact he p
        | false => rw [hpu p hp]; exact Nat.zero_le _
      · simp only [h4 p hp]
    | false =>
      obtain ⟨c1, c2⟩ := Uses.closed h2 ht hu
      refine ⟨m', h3, fun p hp => ?_⟩
      have e1 : pre N t p = 0 := arcSum_zero fun a ha hap => by have := c1 a ha; rw [hap, hp] at this; cases this
      have e2 : post N t p = 0 := arcSum_zero fun a ha hap => by have := c2 a ha; rw [hap, hp] at this; cases this
      simp only [h4 p hp, e1, e2]; omega

/-! ## What a goal depends on -/

theorem val_congr {m m' : Nat → Nat} (e : Expr) : (∀ p, exprUse p e = true → m p = m' p) → e.val m = e.val m' := by
  have list : ∀ es : List Expr, (∀ e ∈ es, (∀ p, exprUse p e = true → m p = m' p) → e.val m = e.val m') →
      (∀ p, exprsUse p es = true → m p = m' p) → vals m es = vals m' es := by
    intro es
    induction es with
    | nil => intro _ _; rfl
    | cons e es ih =>
      intro h1 h2
      simp only [vals]
      rw [h1 e (by simp) (fun p hp => h2 p (by simp [exprsUse, hp])),
        ih (fun x hx => h1 x (by simp [hx])) (fun p hp => h2 p (by simp [exprsUse, hp]))]
  have ids : ∀ is : List Nat, (∀ p, is.contains p = true → m p = m' p) →
      (is.map fun p => (m p : Int)) = is.map fun p => (m' p : Int) := by
    intro is h
    refine List.map_congr_left fun p hp => ?_
    rw [h p (by simpa using hp)]
  induction e using Expr.ind with
  | lit v => intro _; rfl
  | id p => intro h; simp only [Expr.val]; rw [h p (by simp [exprUse])]
  | plus k is es ih =>
    intro h
    simp only [Expr.val]
    rw [ids is (fun p hp => h p (by simp only [exprUse, hp, Bool.true_or])), list es ih (fun p hp => h p (by simp only [exprUse, hp, Bool.or_true]))]
  | mul k is es ih =>
    intro h
    simp only [Expr.val]
    rw [ids is (fun p hp => h p (by simp only [exprUse, hp, Bool.true_or])), list es ih (fun p hp => h p (by simp only [exprUse, hp, Bool.or_true]))]
  | sub e es ih1 ih =>
    intro h
    simp only [Expr.val]
    rw [ih1 (fun p hp => h p (by simp only [exprUse, hp, Bool.true_or])), list es ih (fun p hp => h p (by simp only [exprUse, hp, Bool.or_true]))]
  | minus e ih =>
    intro h
    simp only [Expr.val]
    rw [ih (fun p hp => h p (by simpa only [exprUse] using hp))]

theorem condsUse_of_mem {cs : List Cond} {c : Cond} (hc : c ∈ cs) {p : Nat} (hp : condUse p c = true) : condsUse p cs = true := by
  induction cs with
  | nil => cases hc
  | cons d cs ih =>
    simp only [condsUse, Bool.or_eq_true]
    rcases List.mem_cons.1 hc with rfl | hc
    · exact Or.inl hp
    · exact Or.inr (ih hc)

theorem goal_congr (q : Cond) {m m' : Nat → Nat} : (∀ p, condUse p q = true → m p = m' p) →
    goalI (N.deadlocked m) m q = goalI (N.deadlocked m') m' q := by
  induction q using Cond.ind with
  | dead =>
    intro h
    have : m = m' := funext fun p => h p rfl
    rw [this]
  | cmp op a b =>
    intro h
    have h1 : a.val m = a.val m' := val_congr a fun p hp => h p (by simp only [condUse, hp, Bool.true_or])
    have h2 : b.val m = b.val m' := val_congr b fun p hp => h p (by simp only [condUse, hp, Bool.or_true])
    simp only [goalI, PQL.compare, evalExpr_eq, h1, h2]
  | cc l neg =>
    intro h
    simp only [goalI]
    congr 1
    have : ∀ l' : List Cons, (∀ c ∈ l', m c.place = m' c.place) → consI m l' = consI m' l' := by
      intro l' hl'
      unfold consI
      rw [Bool.eq_iff_iff, List.all_eq_true, List.all_eq_true]
      refine forall₂_congr fun c hc => ?_
      rw [hl' c hc]
    exact this l fun c hc => h _ (by simp only [condUse, List.any_eq_true]; exact ⟨c, hc, by simp⟩)
  | and cs ih =>
    intro h
    simp only [goalI, goalAll_eq]
    rw [Bool.eq_iff_iff, List.all_eq_true, List.all_eq_true]
    refine forall₂_congr fun c hc => ?_
    rw [ih c hc fun p hp => h p (by simp only [condUse]; exact condsUse_of_mem hc hp)]
  | or cs ih =>
    intro h
    simp only [goalI, goalAny_eq]
    rw [Bool.eq_iff_iff, List.any_eq_true, List.any_eq_true]
    refine exists_congr fun c => ?_
    constructor
    · rintro ⟨hc, h1⟩
      exact ⟨hc, by rw [← ih c hc fun p hp => h p (by simp only [condUse]; exact condsUse_of_mem hc hp)]; exact h1⟩
    · rintro ⟨hc, h1⟩
      exact ⟨hc, by rw [ih c hc fun p hp => h p (by simp only [condUse]; exact condsUse_of_mem hc hp)]; exact h1⟩
  | _ => intro _; rfl

/-! ## All together -/

theorem urun_of_run (ok : NetOK N) {m0 m m' : Nat → Nat} (h : URun N (fun _ => true) m0 m) {ts : List (Fin N.ntransitions)}
    (hr : N.toNet.Run m ts m') : URun N (fun _ => true) m0 m' := by
  induction hr with
  | nil _ => exact h
  | @cons m t m1 ts m2 hs _ ih => exact ih (.step t.1 h rfl ((step_iff_fire ok t _ _).1 hs))

theorem urun_outside (ok : NetOK N) {m0 m : Nat → Nat} (h : URun N use m0 m) {p : Nat} (hp : N.nplaces ≤ p) : m p = m0 p := by
  induction h with
  | refl => rfl
  | @step m m' t _ _ hf ih =>
    obtain ⟨ht, _, rfl⟩ := hf
    have e1 : pre N t p = 0 := arcSum_zero fun a ha hap => by have := (ok.preLt t ht a ha).1; omega
    have e2 : post N t p = 0 := arcSum_zero fun a ha hap => by have := (ok.postLt t ht a ha).1; omega
    simp only [e1, e2, ih]
    omega

/-- When the engine gives up, no marking but perhaps the empty one is a goal. -/
theorem tryReach_none {S : Solver} (h : SOK S) {rand : Nat → Nat → Nat} {junk : Nat → Nat → Bool × Int} {fuel : Nat}
    (hr : tryReach S rand junk fuel = .ok none) (h0 : ∀ p, S.net.nplaces ≤ p → S.m0 p = 0)
    (hz : goalI (S.net.deadlocked fun _ => 0) (fun _ => 0) S.query = false) {m : Nat → Nat} (hm : S.net.toNet.Reach S.m0 m) :
    ¬ Goal S.net S.query m := by
  obtain ⟨ts, hrun⟩ := hm
  obtain ⟨n, u', hu, hcl, hgoal⟩ := tryLoop_none h rand junk fuel 0 _ _ (by simp [Uses.update]) (init_inv h.ok) hr
  have hpre : u'.PreOK S.net := by
    rw [hu]
    refine Uses.iter_inv (Uses.PreOK S.net) (fun _ => Uses.update_preOK) ?_ n
    refine Uses.update_preOK ?_
    intro t _ ht
    simp at ht
  have hinq : ∀ p, S.inq p = true → u'.place p = true := by
    rw [hu]
    exact Uses.iter_inv (fun u => ∀ p, S.inq p = true → u.place p = true) (fun u hu p hp => Uses.update_place (hu p hp))
      (fun p hp => Uses.update_place hp) n
  obtain ⟨m', h1, h2⟩ := slice_run hpre hcl (urun_of_run h.ok .refl hrun)
  intro hG
  have hG' : Goal S.net S.query m' := by
    unfold Goal at hG ⊢
    rw [goal_congr S.query (m' := m) (fun p hp => h2 p (hinq p (by rw [h.inq]; exact hp)))]
    exact hG
  by_cases hnz : Nz S.net.nplaces m'
  · exact hgoal m' (h1.nz h.ok hnz) hnz hG'
  · have : m' = fun _ => 0 := by
      funext p
      by_cases hp : p < S.net.nplaces
      · apply Classical.byContradiction
        intro hne
        exact hnz ⟨p, hp, hne⟩
      · rw [urun_outside h.ok h1 (by omega), h0 p (by omega)]
    rw [this] at hG'
    unfold Goal at hG'
    rw [hz] at hG'; cases hG'

/-! ## From the layout of the net -/

theorem en_iff (ok : NetOK N) {t : Nat} (ht : t < N.ntransitions) (m : Nat → Nat) : RCtx.En N m t ↔ ∀ p, pre N t p ≤ m p := by
  constructor
  · intro h p
    by_cases h0 : pre N t p = 0
    · rw [h0]; exact Nat.zero_le _
    · obtain ⟨a, ha, rfl⟩ := arcSum_le_mem h0
      unfold pre
      rw [arcSum_mem (ok.preSorted t ht) ha]
      exact h a ha
  · intro h a ha
    have := h a.place
    unfold pre at this
    rw [arcSum_mem (ok.preSorted t ht) ha] at this
    exact this

theorem dead_en (w : N.WF) (ok : NetOK N) (m : Nat → Nat) : N.deadlocked m = false ↔ ∃ t < N.ntransitions, RCtx.En N m t := by
  have hd : N.deadlocked m = true ↔ ∀ t, ¬ N.toNet.Enabled m t := C02_deadlock_exact N w m
  have he : ∀ t : Fin N.ntransitions, N.toNet.Enabled m t ↔ RCtx.En N m t := by
    intro t
    rw [en_iff ok t.2]
    constructor
    · intro h
      exact ((step_iff_fire ok t m _).1 ⟨h, rfl⟩).2.1
    · intro h
      exact ((step_iff_fire ok t m _).2 ⟨t.2, h, rfl⟩).1
  rw [← Bool.not_eq_true, hd]
  constructor
  · intro h
    apply Classical.byContradiction
    intro hn
    exact h fun t ht => hn ⟨t.1, t.2, (he t).1 ht⟩
  · rintro ⟨t, ht, hen⟩ h
    exact h ⟨t, ht⟩ ((he ⟨t, ht⟩).2 hen)

/-- A query whose value is true is a goal. -/
theorem goal_of_evaluate {q : Cond} (hs : supp q = true) {m : Nat → Nat} (hm : ∀ p, m p ≤ rmax)
    (h : evaluate (N.deadlocked m) m q = .rTrue) : Goal N q m := by
  unfold Goal
  have h1 := evaluateSet_goal hm (N.deadlocked m) q hs
  have h2 := evaluateSet_le (N.deadlocked m) m q
  rw [h1, h] at h2
  cases hg : goalI (N.deadlocked m) m q with
  | true => rfl
  | false => rw [hg] at h2; rcases h2 with h2 | h2 <;> cases h2

theorem goal_false_of_evaluate {q : Cond} (hs : supp q = true) {m : Nat → Nat} (hm : ∀ p, m p ≤ rmax)
    (h : evaluate (N.deadlocked m) m q ≠ .rTrue) : goalI (N.deadlocked m) m q = false := by
  have h1 := evaluateSet_goal hm (N.deadlocked m) q hs
  have h2 := evaluateSet_le (N.deadlocked m) m q
  rw [h1] at h2
  cases hg : goalI (N.deadlocked m) m q with
  | false => rfl
  | true =>
    rw [hg] at h2
    rcases h2 with h2 | h2
    · cases h2
    · exact (h h2.symm).elim

end TAR
end Verif
