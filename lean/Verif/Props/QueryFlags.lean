import Verif.PQL.Loops
import Verif.PQL.NetTS
import Verif.Reduce.QueryFlags

/-!
# C79, C80: what the checkers of queries promise

C79: a query that is not loop sensitive has the same truth when steps that change nothing are added or removed.
C80: a query without a next operator has the same truth in systems that are the same up to repetition of states that
agree on the places counted for the query.
-/

namespace Verif
namespace PQL

/-! ## C79 -/

/-- C79, full strength. -/
def C79_full : Prop :=
  ∀ (T T' : TS) (c : Cond) (π : Nat → Mark), AddsLoops T T' → c.proper = true → c.isState = true →
    c.loopSens = false → (c.sat T π ↔ c.sat T' π)

/-- C79 for queries on which the flag `_negated` tells the truth. -/
theorem C79_loops_partial (T T' : TS) (c : Cond) (π : Nat → Mark) (hL : AddsLoops T T') (hp : c.proper = true)
    (ha : c.aligned false false = true) (h : c.loopSens = false) : c.sat T π ↔ c.sat T' π :=
  c.sat_loops hL false false h ha hp π

/-- C79 for CTL queries, without further conditions. -/
theorem C79_ctl (T T' : TS) (c : Cond) (π : Nat → Mark) (hL : AddsLoops T T') (hc : c.ctlOnly = true)
    (h : c.loopSens = false) : c.sat T π ↔ c.sat T' π :=
  C79_loops_partial T T' c π hL (c.ctlOnly_proper hc) (c.ctlOnly_aligned _ _ hc) h

/-- C79 for LTL queries without negations (and their negations). -/
theorem C79_ltl (T T' : TS) (c : Cond) (π : Nat → Mark) (hL : AddsLoops T T') (hc : c.negFree = true) :
    ((Cond.A c).loopSens = false → ((Cond.A c).sat T π ↔ (Cond.A c).sat T' π)) ∧
    ((Cond.A (.not c)).loopSens = false → ((Cond.A (.not c)).sat T π ↔ (Cond.A (.not c)).sat T' π)) := by
  refine ⟨fun h => ?_, fun h => ?_⟩
  · exact C79_loops_partial T T' _ π hL (c.negFree_proper hc) (c.negFree_aligned true hc) h
  · refine C79_loops_partial T T' _ π hL (c.negFree_proper hc) ?_ h
    exact negFree_aligned_pos c hc
where
  /-- below `A ¬` nothing has to be checked -/
  negFree_aligned_pos (c : Cond) (h : c.negFree = true) : ∀ {b}, c.aligned false b = true := by
    induction c using Cond.ind with
    | and cs ih =>
      intro b
      simp only [Cond.aligned]
      simp only [Cond.negFree] at h
      induction cs generalizing b with
      | nil => rfl
      | cons c cs ihl =>
        simp only [negFreeL, Bool.and_eq_true] at h
        simp only [alignedL, ih c (by simp) h.1, Bool.true_and]
        exact ihl (fun c hc => ih c (by simp [hc])) h.2
    | or cs ih =>
      intro b
      simp only [Cond.aligned]
      simp only [Cond.negFree] at h
      induction cs generalizing b with
      | nil => rfl
      | cons c cs ihl =>
        simp only [negFreeL, Bool.and_eq_true] at h
        simp only [alignedL, ih c (by simp) h.1, Bool.true_and]
        exact ihl (fun c hc => ih c (by simp [hc])) h.2
    | U c d ih ih' =>
      intro b
      simp only [Cond.negFree, Bool.and_eq_true] at h
      simp [Cond.aligned, ih h.1, ih' h.2]
    | bool | dead | cmp | cc | X | F | G => exact rfl
    | _ => simp [Cond.negFree] at h

/-- The transition system of a net without some of its transitions. -/
def tsWithout (N : FlatNet) (S : Nat → Prop) : TS := ⟨fun m m' => ∃ t, ¬ S t.val ∧ N.toNet.Step m t m'⟩

/-- C79 for nets: transitions that change nothing where they are enabled may be removed. -/
theorem C79_net (N : FlatNet) (S : Nat → Prop)
    (hS : ∀ t, S t.val → ∀ m m', N.toNet.Step m t m' → m' = m) (qs : List Cond)
    (hf : (Reduce.queryFlags qs).removeLoops = true) (q : Cond) (hq : q ∈ qs) (hp : q.proper = true)
    (ha : q.aligned false false = true) (π : Nat → Mark) : q.sat (tsWithout N S) π ↔ q.sat N.ts π := by
  refine C79_loops_partial _ _ q π ⟨fun m => ∃ t, S t.val ∧ N.toNet.Step m t m, fun m m' => ?_⟩ hp ha ?_
  · constructor
    · rintro ⟨t, hs⟩
      by_cases h : S t.val
      · have := hS t h m m' hs
        subst this
        exact .inr ⟨rfl, t, h, hs⟩
      · exact .inl ⟨t, h, hs⟩
    · rintro (⟨t, _, hs⟩ | ⟨rfl, t, _, hs⟩)
      · exact ⟨t, hs⟩
      · exact ⟨t, hs⟩
  · have := List.all_eq_true.1 hf q hq
    simpa using this

/-- `p ≥ k` -/
def atLeast (p k : Nat) : Cond := .cc [⟨p, k, 4294967295⟩] false

/-- The queries the theorems are about: some pass, some do not. -/
example :
    (Cond.EF (.and [atLeast 0 1, .EU (atLeast 1 1) (atLeast 2 1)])).loopSens = false ∧
    (Cond.EF (.and [atLeast 0 1, .EU (atLeast 1 1) (atLeast 2 1)])).ctlOnly = true ∧
    (Cond.AG (.EF (atLeast 0 1))).loopSens = false ∧
    (Cond.A (.not (.and [atLeast 1 1, .U (atLeast 0 1) (atLeast 2 1)]))).loopSens = false ∧
    (Cond.A (.not (.and [atLeast 1 1, .U (atLeast 0 1) (atLeast 2 1)]))).aligned false false = true ∧
    (Cond.AF (atLeast 0 1)).loopSens = true ∧ (Cond.A (.U (atLeast 1 1) (atLeast 0 1))).loopSens = true ∧
    (Cond.EF .dead).loopSens = true := by decide

/-- One step from the empty marking to a token on place 0, and nothing else. -/
def oneStep : TS := ⟨fun m m' => m 0 = 0 ∧ m' 0 = 1⟩

/-- The same with a step from the empty marking to itself. -/
def oneStepLoop : TS := ⟨fun m m' => (m 0 = 0 ∧ m' 0 = 1) ∨ (m' = m ∧ m 0 = 0)⟩

theorem oneStep_adds : AddsLoops oneStep oneStepLoop := ⟨fun m => m 0 = 0, fun _ _ => Iff.rfl⟩

theorem oneStep_path {π : Nat → Mark} (h : oneStep.IsPath π) (h0 : π 0 = fun _ => 0) : π 1 0 = 1 := by
  rcases h 0 with hs | ⟨hd, _⟩
  · exact hs.2
  · exact (hd (fun _ => 1) ⟨by simp [h0], rfl⟩).elim

theorem oneStep_stay : oneStepLoop.IsPath fun _ _ => 0 := fun _ => .inl (.inr ⟨rfl, rfl⟩)

/-- The reachable markings are the same: the theorem has work to do. -/
example : (Cond.EF (atLeast 0 1)).sat oneStepLoop (fun _ _ => 0) := by
  rw [← C79_ctl oneStep oneStepLoop (.EF (atLeast 0 1)) (fun _ _ => 0) oneStep_adds (by decide) (by decide)]
  obtain ⟨π, hp, h0⟩ := oneStep.exists_path fun _ => 0
  refine ⟨π, hp, h0, 1, ?_⟩
  have := oneStep_path hp h0
  simp [atLeast, Cond.sat, ccHolds, Cons.holds, suffix, this]

theorem step_until (P : Cond) (hP : ∀ T π, P.sat T π ↔ True) {π : Nat → Mark} (hp : oneStep.IsPath π)
    (h0 : π 0 = fun _ => 0) : (Cond.U P (atLeast 0 1)).sat oneStep π := by
  refine ⟨1, ?_, fun j _ => (hP _ _).2 trivial⟩
  have := oneStep_path hp h0
  simp [atLeast, Cond.sat, ccHolds, Cons.holds, suffix, this]

theorem stay_until (P : Cond) : ¬ (Cond.U P (atLeast 0 1)).sat oneStepLoop fun _ _ => 0 := by
  rintro ⟨i, hi, _⟩
  simp [atLeast, Cond.sat, ccHolds, Cons.holds, suffix] at hi

/-- `A (¬ (p1 ≥ 1) ∧ (true U p0 ≥ 1))` -/
def afterNegation : Cond := .A (.and [.not (atLeast 1 1), .U (.bool true) (atLeast 0 1)])

/-- Finding F120: the flag that a negation turns is not turned back, so that an until after a negation passes although
it sees loops. -/
theorem C79_finding_flag : afterNegation.loopSens = false ∧ afterNegation.sat oneStep (fun _ _ => 0) ∧
    ¬ afterNegation.sat oneStepLoop (fun _ _ => 0) := by
  refine ⟨by decide, fun π hp h0 => ?_, fun h => ?_⟩
  · have h0 : π 0 = fun _ => 0 := h0
    refine ⟨?_, step_until _ (fun _ _ => by simp [Cond.sat]) hp h0, trivial⟩
    simp [atLeast, Cond.sat, ccHolds, Cons.holds, h0]
  · exact stay_until _ (h _ oneStep_stay rfl).2.1

/-- `¬ A (true U p0 ≥ 1)` -/
def negatedA : Cond := .not (.A (.U (.bool true) (atLeast 0 1)))

/-- Finding F121: below a negation, `A` turns the flag off. -/
theorem C79_finding_negated : negatedA.loopSens = false ∧ ¬ negatedA.sat oneStep (fun _ _ => 0) ∧
    negatedA.sat oneStepLoop (fun _ _ => 0) := by
  refine ⟨by decide, fun h => h fun π hp h0 => step_until _ (fun _ _ => by simp [Cond.sat]) hp h0, fun h => ?_⟩
  exact stay_until _ (h _ oneStep_stay rfl)

theorem C79_full_fails : ¬ C79_full := fun h =>
  C79_finding_flag.2.2 ((h _ _ afterNegation _ oneStep_adds (by decide) (by decide) C79_finding_flag.1).1
    C79_finding_flag.2.1)

/-! ## C80 -/

/-- C80, full strength: also about queries with deadlock propositions that pass for harmless. -/
def C80_full : Prop :=
  ∀ (T T' : TS) (R : Mark → Mark → Prop) (qs : List Cond) (π π' : Nat → Mark), StutterBisim R T T' →
    (∀ m m', R m m' → ∀ p, Reduce.queryPlaces qs p = true → m p = m' p) →
    (Reduce.queryFlags qs).next = false → Stair R π π' → ∀ q ∈ qs, (q.sat T π ↔ q.sat T' π')

/-- C80: queries without a next operator; where a deadlock is asked for, related states must agree on it. -/
theorem C80_next_partial (T T' : TS) (R : Mark → Mark → Prop) (qs : List Cond) (π π' : Nat → Mark)
    (hB : StutterBisim R T T') (hu : ∀ m m', R m m' → ∀ p, Reduce.queryPlaces qs p = true → m p = m' p)
    (hn : (Reduce.queryFlags qs).next = false) (hs : Stair R π π') (q : Cond) (hq : q ∈ qs)
    (hd : q.hasDead = true → ∀ m m', R m m' → (T.Dead m ↔ T'.Dead m')) : q.sat T π ↔ q.sat T' π' := by
  refine q.sat_stair hB ?_ (fun m m' hr p hp => hu m m' hr p (List.any_eq_true.2 ⟨q, hq, hp⟩)) hd π π' hs
  have := List.any_eq_false.1 hn q hq
  simp only [Bool.or_eq_true, not_or, Bool.not_eq_true] at this
  exact this.1

/-- The operators the checker looks for are there, and no others: a query passes exactly if none of its
subformulas starts with a next operator. -/
inductive HasNext : Cond → Prop
  | X (c) : HasNext (.X c)
  | EX (c) : HasNext (.EX c)
  | AX (c) : HasNext (.AX c)
  | not {c} : HasNext c → HasNext (.not c)
  | and {c cs} : c ∈ cs → HasNext c → HasNext (.and cs)
  | or {c cs} : c ∈ cs → HasNext c → HasNext (.or cs)
  | EF {c} : HasNext c → HasNext (.EF c)
  | AF {c} : HasNext c → HasNext (.AF c)
  | EG {c} : HasNext c → HasNext (.EG c)
  | AG {c} : HasNext c → HasNext (.AG c)
  | E {c} : HasNext c → HasNext (.E c)
  | A {c} : HasNext c → HasNext (.A c)
  | F {c} : HasNext c → HasNext (.F c)
  | G {c} : HasNext c → HasNext (.G c)
  | EU1 {c d} : HasNext c → HasNext (.EU c d)
  | EU2 {c d} : HasNext d → HasNext (.EU c d)
  | AU1 {c d} : HasNext c → HasNext (.AU c d)
  | AU2 {c d} : HasNext d → HasNext (.AU c d)
  | U1 {c d} : HasNext c → HasNext (.U c d)
  | U2 {c d} : HasNext d → HasNext (.U c d)

theorem nextL_true {cs : List Cond} : nextL cs = true ↔ ∃ c ∈ cs, c.next = true := by
  induction cs with
  | nil => simp [nextL]
  | cons e es ih => simp [nextL, ih]

theorem C80_next_exact (c : Cond) : c.next = true ↔ HasNext c := by
  constructor
  · induction c using Cond.ind with
    | bool | dead | cmp | cc => simp [Cond.next]
    | not c ih => exact fun h => .not (ih h)
    | and cs ih =>
      intro h
      obtain ⟨c, hc, hn⟩ := nextL_true.1 h
      exact .and hc (ih c hc hn)
    | or cs ih =>
      intro h
      obtain ⟨c, hc, hn⟩ := nextL_true.1 h
      exact .or hc (ih c hc hn)
    | X c => exact fun _ => .X c
    | EX c => exact fun _ => .EX c
    | AX c => exact fun _ => .AX c
    | EF c ih => exact fun h => .EF (ih h)
    | AF c ih => exact fun h => .AF (ih h)
    | EG c ih => exact fun h => .EG (ih h)
    | AG c ih => exact fun h => .AG (ih h)
    | E c ih => exact fun h => .E (ih h)
    | A c ih => exact fun h => .A (ih h)
    | F c ih => exact fun h => .F (ih h)
    | G c ih => exact fun h => .G (ih h)
    | EU c d ih ih' =>
      intro h
      simp only [Cond.next, Bool.or_eq_true] at h
      exact h.elim (fun h => .EU1 (ih h)) fun h => .EU2 (ih' h)
    | AU c d ih ih' =>
      intro h
      simp only [Cond.next, Bool.or_eq_true] at h
      exact h.elim (fun h => .AU1 (ih h)) fun h => .AU2 (ih' h)
    | U c d ih ih' =>
      intro h
      simp only [Cond.next, Bool.or_eq_true] at h
      exact h.elim (fun h => .U1 (ih h)) fun h => .U2 (ih' h)
  · intro h
    induction h with
    | X | EX | AX => rfl
    | and hc _ ih => exact nextL_true.2 ⟨_, hc, ih⟩
    | or hc _ ih => exact nextL_true.2 ⟨_, hc, ih⟩
    | not _ ih | EF _ ih | AF _ ih | EG _ ih | AG _ ih | E _ ih | A _ ih | F _ ih | G _ ih => exact ih
    | EU1 _ ih | AU1 _ ih | U1 _ ih | EU2 _ ih | AU2 _ ih | U2 _ ih => simp [Cond.next, ih]

/-- A step that nobody sees may be repeated: the path that fills place 1 for ever and the one that stays are the same
for queries about place 0. -/
example : Stair (fun m m' => m 0 = m' 0) (fun i p => if p = 1 then i else 0) fun _ _ => 0 :=
  ⟨id, id, rfl, rfl, fun _ => .inr rfl, fun _ => .inr rfl, fun i => ⟨i, rfl⟩, fun i => ⟨i, rfl⟩, fun _ => rfl⟩

/-- Counting up on place 1, never dead. -/
def counting : TS := ⟨fun m m' => m' = fun p => if p = 1 then m 1 + 1 else m p⟩

/-- Staying for ever, never dead. -/
def staying : TS := ⟨fun m m' => m' = m⟩

theorem counting_path {π : Nat → Mark} (h : counting.IsPath π) (i : Nat) : π i 0 = π 0 0 := by
  induction i with
  | zero => rfl
  | succ i ih =>
    rcases h i with hs | ⟨hd, _⟩
    · rw [hs]; simpa using ih
    · exact (hd _ rfl).elim

theorem staying_path {π : Nat → Mark} (h : staying.IsPath π) (i : Nat) : π i 0 = π 0 0 := by
  induction i with
  | zero => rfl
  | succ i ih =>
    rcases h i with hs | ⟨_, he⟩
    · rw [hs]; exact ih
    · rw [he]; exact ih

theorem counting_staying : StutterBisim (fun m m' => m 0 = m' 0) counting staying := by
  have lock : ∀ {R : Mark → Mark → Prop} {π π' : Nat → Mark}, (∀ i, R (π i) (π' i)) → Stair R π π' := fun h =>
    ⟨id, id, rfl, rfl, fun _ => .inr rfl, fun _ => .inr rfl, fun i => ⟨i, rfl⟩, fun i => ⟨i, rfl⟩, h⟩
  refine ⟨fun m m' hr π hp h0 => ?_, fun m m' hr π hp h0 => ?_⟩
  · refine ⟨fun _ => m', fun _ => .inl rfl, rfl, lock fun i => ?_⟩
    show π i 0 = m' 0
    rw [counting_path hp, h0]; exact hr
  · obtain ⟨π', hp', h0'⟩ := counting.exists_path m'
    refine ⟨π', hp', h0', lock fun i => ?_⟩
    show π' i 0 = π i 0
    rw [counting_path hp', staying_path hp, h0, h0']; exact hr

/-- The theorem applies to systems that are not the same: `A F (p0 ≥ 1)` is decided in the smaller one. -/
example : ¬ (Cond.A (.F (atLeast 0 1))).sat counting fun _ _ => 0 := by
  rw [C80_next_partial counting staying _ [.A (.F (atLeast 0 1))] (fun _ _ => 0) (fun _ _ => 0) counting_staying
    (fun m m' hr p hp => by
      have : 0 = p := by simpa [Reduce.queryPlaces, Cond.uses, atLeast] using hp
      rw [← this]; exact hr) (by decide)
    ⟨id, id, rfl, rfl, fun _ => .inr rfl, fun _ => .inr rfl, fun i => ⟨i, rfl⟩, fun i => ⟨i, rfl⟩, fun _ => rfl⟩ _
    (by simp) (by simp [Cond.hasDead, atLeast])]
  intro h
  obtain ⟨i, hi⟩ := h (fun _ _ => 0) (fun _ => .inl rfl) rfl
  simp [atLeast, Cond.sat, ccHolds, Cons.holds, suffix] at hi

/-! ### Deadlocks below connectives -/

mutual
/-- Specification: a deadlock proposition stands below a conjunction or disjunction.  `b`: we are below one. -/
def Cond.deadBelow (b : Bool) : Cond → Bool
  | .dead => b
  | .bool _ | .cmp _ _ _ | .cc _ _ => false
  | .not c => c.deadBelow b
  | .and cs => deadBelowL cs
  | .or cs => deadBelowL cs
  | .EX c | .AX c | .EF c | .AF c | .EG c | .AG c | .E c | .A c | .X c | .F c | .G c => c.deadBelow b
  | .EU c d | .AU c d | .U c d => c.deadBelow b || d.deadBelow b
def deadBelowL : List Cond → Bool
  | [] => false
  | c :: cs => c.deadBelow true || deadBelowL cs
end

mutual
/-- There is no conjunction or disjunction. -/
def Cond.noLogic : Cond → Bool
  | .dead | .bool _ | .cmp _ _ _ | .cc _ _ => true
  | .and _ | .or _ => false
  | .not c => c.noLogic
  | .EX c | .AX c | .EF c | .AF c | .EG c | .AG c | .E c | .A c | .X c | .F c | .G c => c.noLogic
  | .EU c d | .AU c d | .U c d => c.noLogic && d.noLogic
end

mutual
/-- Operands with conjunctions or disjunctions in them come last. -/
def Cond.logicLast : Cond → Bool
  | .dead | .bool _ | .cmp _ _ _ | .cc _ _ => true
  | .and cs => logicLastL cs
  | .or cs => logicLastL cs
  | .not c => c.logicLast
  | .EX c | .AX c | .EF c | .AF c | .EG c | .AG c | .E c | .A c | .X c | .F c | .G c => c.logicLast
  | .EU c d | .AU c d | .U c d => c.noLogic && d.logicLast
def logicLastL : List Cond → Bool
  | [] => true
  | c :: cs => c.logicLast && (cs.isEmpty || c.noLogic) && logicLastL cs
end

theorem Cond.noLogic_spec (c : Cond) (h : c.noLogic = true) : ∀ b, (c.nestedV b).1 = b ∧ (c.nestedV b).2 = c.deadBelow b := by
  induction c using Cond.ind with
  | and | or => simp [noLogic] at h
  | not c ih | EX c ih | AX c ih | EF c ih | AF c ih | EG c ih | AG c ih | E c ih | A c ih | X c ih | F c ih | G c ih =>
    exact ih h
  | EU c d ih ih' | AU c d ih ih' | U c d ih ih' =>
    simp only [noLogic, Bool.and_eq_true] at h
    intro b
    simp only [nestedV, deadBelow, (ih h.1 b).1, (ih h.1 b).2, (ih' h.2 b).1, (ih' h.2 b).2]
    exact ⟨trivial, trivial⟩
  | dead | bool | cmp | cc => exact fun _ => ⟨rfl, rfl⟩

theorem Cond.logicLast_spec (c : Cond) (h : c.logicLast = true) : ∀ b, (c.nestedV b).2 = c.deadBelow b := by
  have key : ∀ cs : List Cond, (∀ c ∈ cs, c.logicLast = true → ∀ b, (c.nestedV b).2 = c.deadBelow b) →
      logicLastL cs = true → nestedVL true cs = deadBelowL cs := by
    intro cs
    induction cs with
    | nil => exact fun _ _ => rfl
    | cons c cs ihl =>
      intro ih h
      simp only [logicLastL, Bool.and_eq_true, Bool.or_eq_true] at h
      simp only [nestedVL, deadBelowL, ih c (by simp) h.1.1 true]
      rcases h.1.2 with he | hn
      · have : cs = [] := by simpa using he
        subst this; rfl
      · rw [(c.noLogic_spec hn true).1, ihl (fun c hc => ih c (by simp [hc])) h.2]
  induction c using Cond.ind with
  | and cs ih => exact fun _ => key cs ih h
  | or cs ih => exact fun _ => key cs ih h
  | not c ih | EX c ih | AX c ih | EF c ih | AF c ih | EG c ih | AG c ih | E c ih | A c ih | X c ih | F c ih | G c ih =>
    exact ih h
  | EU c d ih ih' | AU c d ih ih' | U c d ih ih' =>
    simp only [logicLast, Bool.and_eq_true] at h
    intro b
    simp only [nestedV, deadBelow, (c.noLogic_spec h.1 b).1, (c.noLogic_spec h.1 b).2, ih' h.2 b]
  | dead | bool | cmp | cc => exact fun _ => rfl

theorem Cond.deadBelow_mono (c : Cond) (b : Bool) (h : c.deadBelow b = true) : c.deadBelow true = true := by
  induction c using Cond.ind with
  | not c ih | EX c ih | AX c ih | EF c ih | AF c ih | EG c ih | AG c ih | E c ih | A c ih | X c ih | F c ih | G c ih =>
    exact ih h
  | EU c d ih ih' | AU c d ih ih' | U c d ih ih' =>
    simp only [deadBelow, Bool.or_eq_true] at h ⊢
    exact h.imp ih ih'
  | dead => rfl
  | _ => exact h

/-- What the visitor knows: the flag is never set without a reason. -/
theorem Cond.nestedV_sound (c : Cond) : ∀ b, ((c.nestedV b).1 = true → b = true) ∧
    ((c.nestedV b).2 = true → c.deadBelow b = true) := by
  have key : ∀ cs : List Cond, (∀ c ∈ cs, ∀ b, ((c.nestedV b).1 = true → b = true) ∧
      ((c.nestedV b).2 = true → c.deadBelow b = true)) → ∀ b, nestedVL b cs = true → deadBelowL cs = true := by
    intro cs
    induction cs with
    | nil => exact fun _ _ h => h
    | cons c cs ihl =>
      intro ih b h
      simp only [nestedVL, Bool.or_eq_true] at h
      simp only [deadBelowL, Bool.or_eq_true]
      rcases h with h | h
      · exact .inl (c.deadBelow_mono b ((ih c (by simp) b).2 h))
      · exact .inr (ihl (fun c hc => ih c (by simp [hc])) _ h)
  induction c using Cond.ind with
  | and cs ih => exact fun b => ⟨fun h => by simp [nestedV] at h, key cs ih true⟩
  | or cs ih => exact fun b => ⟨fun h => by simp [nestedV] at h, key cs ih true⟩
  | not c ih | EX c ih | AX c ih | EF c ih | AF c ih | EG c ih | AG c ih | E c ih | A c ih | X c ih | F c ih | G c ih =>
    exact ih
  | EU c d ih ih' | AU c d ih ih' | U c d ih ih' =>
    intro b
    simp only [nestedV, deadBelow, Bool.or_eq_true]
    refine ⟨fun h => (ih b).1 ((ih' _).1 h), fun h => h.imp (ih b).2 fun h => ?_⟩
    have h2 := (ih' _).2 h
    cases hb : (c.nestedV b).1 with
    | true => rw [(ih b).1 hb]; exact d.deadBelow_mono _ h2
    | false =>
      rw [hb] at h2
      cases b
      · exact h2
      · exact d.deadBelow_mono _ h2
  | dead => exact fun b => ⟨id, id⟩
  | bool | cmp | cc => exact fun b => ⟨id, fun h => by simp [nestedV] at h⟩

/-- A query reported to have a deadlock below a connective has one; the converse holds if operands with connectives
come last. -/
theorem C80_nested_partial (c : Cond) : (c.nestedDead = true → c.deadBelow false = true) ∧
    (c.logicLast = true → c.deadBelow false = true → c.nestedDead = true) :=
  ⟨(c.nestedV_sound false).2, fun h hd => by rw [Cond.nestedDead, c.logicLast_spec h false]; exact hd⟩

example : (Cond.EF (.and [atLeast 0 1, .dead])).nestedDead = true ∧
    (Cond.EF (.and [atLeast 0 1, .dead])).logicLast = true ∧
    (Cond.EF .dead).nestedDead = false ∧
    (Cond.EF (.and [.dead, .or [atLeast 0 1, atLeast 1 1]])).logicLast = true := by decide

/-- `EF ((p0 ≥ 1 ∨ p1 ≥ 1) ∧ deadlock)` -/
def lateDead : Cond := .EF (.and [.or [atLeast 0 1, atLeast 1 1], .dead])

/-- Finding F122: the flag is off after an inner conjunction or disjunction; a deadlock after it is missed. -/
theorem C80_finding_late : lateDead.deadBelow false = true ∧ lateDead.nestedDead = false ∧
    (Reduce.queryFlags [lateDead]).next = false := by decide

/-- One step from the empty marking; the token on place 1 is not asked for. -/
def oneHidden : TS := ⟨fun m m' => m 1 = 0 ∧ m' = fun p => if p = 1 then 1 else m p⟩

theorem hidden_step {π : Nat → Mark} (h : oneHidden.IsPath π) (i : Nat) : π i 0 = π 0 0 := by
  induction i with
  | zero => rfl
  | succ i ih =>
    rcases h i with ⟨_, hs⟩ | ⟨_, he⟩
    · rw [hs]; simpa using ih
    · rw [he]; exact ih

theorem hidden_staying : StutterBisim (fun m m' => m 0 = m' 0) oneHidden staying := by
  have lock : ∀ {R : Mark → Mark → Prop} {π π' : Nat → Mark}, (∀ i, R (π i) (π' i)) → Stair R π π' := fun h =>
    ⟨id, id, rfl, rfl, fun _ => .inr rfl, fun _ => .inr rfl, fun i => ⟨i, rfl⟩, fun i => ⟨i, rfl⟩, h⟩
  refine ⟨fun m m' hr π hp h0 => ?_, fun m m' hr π hp h0 => ?_⟩
  · refine ⟨fun _ => m', fun _ => .inl rfl, rfl, lock fun i => ?_⟩
    show π i 0 = m' 0
    rw [hidden_step hp, h0]; exact hr
  · obtain ⟨π', hp', h0'⟩ := oneHidden.exists_path m'
    refine ⟨π', hp', h0', lock fun i => ?_⟩
    show π' i 0 = π i 0
    rw [hidden_step hp', staying_path hp, h0, h0']; exact hr

/-- `EF ((p0 ≥ 0 ∨ p0 ≥ 1) ∧ deadlock)` -/
def lateDead0 : Cond := .EF (.and [.or [atLeast 0 0, atLeast 0 1], .dead])

/-- Without the condition on deadlocks, passing the checks is not enough. -/
theorem C80_full_fails : ¬ C80_full := by
  intro h
  have := h oneHidden staying _ [lateDead0] (fun _ _ => 0) (fun _ _ => 0) hidden_staying
    (fun m m' hr p hp => by
      have : 0 = p := by simpa [Reduce.queryPlaces, lateDead0, Cond.uses, usesC, atLeast] using hp
      rw [← this]; exact hr) (by decide)
    ⟨id, id, rfl, rfl, fun _ => .inr rfl, fun _ => .inr rfl, fun i => ⟨i, rfl⟩, fun i => ⟨i, rfl⟩, fun _ => rfl⟩ lateDead0
    (by simp)
  obtain ⟨π, _, _, i, hi⟩ := this.1 (by
    obtain ⟨π, hp, h0⟩ := oneHidden.exists_path fun _ => 0
    refine ⟨π, hp, h0, 1, ?_, ?_, trivial⟩
    · left
      have := hidden_step hp 1
      simp [atLeast, Cond.sat, ccHolds, Cons.holds, suffix, this, h0]
    · intro m' hs
      have h1 : π 1 1 = 1 := by
        rcases hp 0 with ⟨_, hs⟩ | ⟨hd, _⟩
        · rw [hs]; rfl
        · exact (hd _ ⟨by simp [h0], rfl⟩).elim
      have : π 1 1 = 0 := hs.1
      omega)
  exact hi.2.1 _ rfl

end PQL
end Verif
