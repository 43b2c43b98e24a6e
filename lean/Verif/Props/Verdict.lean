import Verif.PQL.PrepareLemmas
import Verif.CTL.Engine
import Verif.Search.Results
import Verif.Props.Search
import Verif.Props.Net

/-!
# C13: verdict polarity

From the query over goal, invariant flag and search result to the printed verdict.  `Cond.sat` is the
meaning of the query, `Net.Reach` reachability in the net.
-/

namespace Verif
namespace VerdictProps
open PQL Search Queue StateSet SearchProps

/-- Some reachable marking satisfies the goal, as decided by `evaluate`. -/
def GoalReachable (N : FlatNet) (m0 : Mark) (g : Cond) : Prop :=
  ∃ m, N.toNet.Reach m0 m ∧ evaluate (N.deadlocked m) m g = .rTrue

theorem dead_iff (N : FlatNet) (w : N.WF) (m : Mark) : N.deadlocked m = true ↔ N.ts.Dead m :=
  (C02_deadlock_exact N w m).trans (N.ts_dead m).symm

/-- Every query accepted by `isReachability` has a goal (no null pointer, no exception), which is a
predicate on markings. -/
theorem C13_accepted_has_goal (c : Cond) (h : isReachability c = true) :
    ∃ g fresh inv, prepare false c = .goal g fresh inv ∧ g.isTemporal = false := by
  obtain ⟨g, f, i, h1, h2, _⟩ := prepare_spec ⟨fun _ _ => False⟩ c (by simpa [isReachability] using h) false
  exact ⟨g, f, i, h1, h2⟩

/-- **C13** (goal and flag).  An accepted query holds in the initial marking iff its goal is reachable
(flag not set) resp. not reachable (flag set), for every net, initial marking and path. -/
theorem C13_goal_polarity (N : FlatNet) (w : N.WF) (c : Cond) (h : isReachability c = true)
    {g : Cond} {fresh inv : Bool} (hp : prepare false c = .goal g fresh inv)
    (π : Nat → Mark) (hπ : N.ts.IsPath π) :
    c.sat N.ts π ↔ if inv then ¬ GoalReachable N (π 0) g else GoalReachable N (π 0) g := by
  obtain ⟨g', f', i', h1, h2, h3⟩ := prepare_spec N.ts c (by simpa [isReachability] using h) false
  rw [hp] at h1
  simp only [Prep.goal.injEq] at h1
  obtain ⟨rfl, rfl, rfl⟩ := h1
  rw [h3 π hπ]
  have := canReach_iff N (dead_iff N w) g h2 (π := π) rfl
  unfold GoalReachable
  cases inv <;> simp [this]

/-- **C13** (printer).  Without over-approximation and state space exploration, the verdict returned
is the printed one, and it is the search result, turned round iff the flag is set. -/
theorem C13_printer (inv : Bool) :
    printerHandle {} inv .satisfied = (if inv then .notSatisfied else .satisfied,
      some (if inv then .notSatisfied else .satisfied)) ∧
    printerHandle {} inv .notSatisfied = (if inv then .satisfied else .notSatisfied,
      some (if inv then .satisfied else .notSatisfied)) ∧
    printerHandle {} inv .unknown = (.unknown, none) := by
  cases inv <;> decide

/-- **C13** (over-approximation of coloured nets).  When the net searched over-approximates the real
one, a verdict is printed only if the goal was not found; that verdict is right for the real net (whose
reachable goals `R` are among those of the searched one, `R'`). -/
theorem C13_overapproximation (R R' : Prop) (hsub : R → R') (inv : Bool) (r : Answer)
    (hsat : r = .satisfied → R') (hnot : r = .notSatisfied → ¬ R') (v : Answer)
    (hv : (printerHandle { cpnOverApprox := true } inv r).2 = some v)
    (hr : r = .satisfied ∨ r = .notSatisfied) :
    (v = .satisfied ∧ (if inv then ¬ R else R)) ∨ (v = .notSatisfied ∧ ¬ (if inv then ¬ R else R)) := by
  rcases hr with rfl | rfl
  · simp [printerHandle, approxAnswer] at hv
  · have hR : ¬ R := fun h => hnot rfl (hsub h)
    cases inv <;> simp [printerHandle, approxAnswer, flipAnswer] at hv <;> subst hv <;> simp [hR]

/-! ### The whole tool run -/

/-- The flag-carrying objects of the queries: `(object, flag)` of query `i`. -/
def flagOf (i : Nat) (q : Cond) : Option (Obj × Bool) :=
  match prepare false q with
  | .goal g fresh inv => some (goalObj i fresh g, inv)
  | _ => none

/-- No two queries disagree about the flag of a shared constant. -/
def NoClash (results : Nat → Answer) (qs : List Cond) : Prop :=
  ∀ i j (hi : i < qs.length) (hj : j < qs.length), results i = .unknown → results j = .unknown →
    ∀ o b b', flagOf i qs[i] = some (o, b) → flagOf j qs[j] = some (o, b') → b = b'

theorem prepareLoop_spec (results : Nat → Answer) (qs : List Cond) : ∀ (i : Nat) (P P' : Prepared),
    prepareLoop results i qs P = some P' →
    P'.goals.length = P.goals.length + qs.length ∧
    (∀ k, k < P.goals.length → P'.goals[k]? = P.goals[k]?) ∧
    (∀ k (hk : k < qs.length), results (i + k) = .unknown → ∃ g f inv, prepare false qs[k] = .goal g f inv ∧
      P'.goals[P.goals.length + k]? = some (g, goalObj (i + k) f g) ∧
      ∃ j, ∃ hj : j < qs.length, results (i + j) = .unknown ∧
        flagOf (i + j) qs[j] = some (goalObj (i + k) f g, P'.inv (goalObj (i + k) f g))) ∧
    (∀ o, P'.inv o = P.inv o ∨ ∃ j, ∃ hj : j < qs.length, results (i + j) = .unknown ∧
        flagOf (i + j) qs[j] = some (o, P'.inv o)) := by
  induction qs with
  | nil =>
    intro i P P' h
    simp only [prepareLoop, Option.some.injEq] at h
    subst h
    simp
  | cons q qs ih =>
    intro i P P' h
    simp only [prepareLoop] at h
    split at h
    · rename_i hu
      split at h
      · rename_i c fresh inv hp
        obtain ⟨h1, h2, h3, h4⟩ := ih _ _ _ h
        simp only [List.length_append, List.length_singleton] at h1 h2 h3 h4
        have hfl : ∀ o, o = goalObj i fresh c → P'.inv o = inv ∨ ∃ j, ∃ hj : j < qs.length,
            results (i + 1 + j) = .unknown ∧ flagOf (i + 1 + j) qs[j] = some (o, P'.inv o) := by
          intro o ho
          have := h4 o
          rw [if_pos ho] at this
          exact this
        have hself : flagOf i q = some (goalObj i fresh c, inv) := by simp [flagOf, hp]
        refine ⟨by simp; omega, ?_, ?_, ?_⟩
        · intro k hk
          rw [h2 k (by omega), List.getElem?_append_left hk]
        · intro k hk hr
          cases k with
          | zero =>
            refine ⟨c, fresh, inv, hp, ?_, ?_⟩
            · rw [Nat.add_zero, h2 _ (by omega)]
              simp
            · rcases hfl _ rfl with he | ⟨j, hj, e1, e2⟩
              · exact ⟨0, by simp, by simpa using hu, by simpa [he] using hself⟩
              · exact ⟨j + 1, by simp; omega, by rw [← e1]; congr 1; omega, by
                  simp only [List.getElem_cons_succ]
                  rw [show i + (j + 1) = i + 1 + j by omega]; exact e2⟩
          | succ k =>
            have hk' : k < qs.length := by simpa using hk
            obtain ⟨g, f, inv', g1, g2, j, hj, g3, g4⟩ := h3 k hk' (by rw [← hr]; congr 1; omega)
            refine ⟨g, f, inv', by simpa using g1, ?_, j + 1, by simp; omega, ?_, ?_⟩
            · rw [show P.goals.length + (k + 1) = P.goals.length + 1 + k by omega, g2]
              rw [show i + 1 + k = i + (k + 1) by omega]
            · rw [← g3]; congr 1; omega
            · simp only [List.getElem_cons_succ]
              rw [show i + (j + 1) = i + 1 + j by omega, g4, show i + 1 + k = i + (k + 1) by omega]
        · intro o
          by_cases ho : o = goalObj i fresh c
          · right
            rcases hfl o ho with he | ⟨j, hj, e1, e2⟩
            · exact ⟨0, by simp, by simpa using hu, by rw [he, ho]; simpa using hself⟩
            · exact ⟨j + 1, by simp; omega, by rw [← e1]; congr 1; omega, by
                simp only [List.getElem_cons_succ]
                rw [show i + (j + 1) = i + 1 + j by omega]; exact e2⟩
          · have := h4 o
            rw [if_neg ho] at this
            rcases this with he | ⟨j, hj, e1, e2⟩
            · exact .inl he
            · exact .inr ⟨j + 1, by simp; omega, by rw [← e1]; congr 1; omega, by
                simp only [List.getElem_cons_succ]
                rw [show i + (j + 1) = i + 1 + j by omega]; exact e2⟩
      · simp at h
      · simp at h
      · simp at h
    · rename_i hu
      obtain ⟨h1, h2, h3, h4⟩ := ih _ _ _ h
      simp only [List.length_append, List.length_singleton] at h1 h2 h3 h4
      refine ⟨by simp; omega, ?_, ?_, ?_⟩
      · intro k hk
        rw [h2 k (by omega), List.getElem?_append_left hk]
      · intro k hk hr
        cases k with
        | zero => exact absurd hr hu
        | succ k =>
          have hk' : k < qs.length := by simpa using hk
          obtain ⟨g, f, inv', g1, g2, j, hj, g3, g4⟩ := h3 k hk' (by rw [← hr]; congr 1; omega)
          refine ⟨g, f, inv', by simpa using g1, ?_, j + 1, by simp; omega, ?_, ?_⟩
          · rw [show P.goals.length + (k + 1) = P.goals.length + 1 + k by omega, g2]
            rw [show i + 1 + k = i + (k + 1) by omega]
          · rw [← g3]; congr 1; omega
          · simp only [List.getElem_cons_succ]
            rw [show i + (j + 1) = i + 1 + j by omega, g4, show i + 1 + k = i + (k + 1) by omega]
      · intro o
        rcases h4 o with he | ⟨j, hj, e1, e2⟩
        · exact .inl he
        · exact .inr ⟨j + 1, by simp; omega, by rw [← e1]; congr 1; omega, by
            simp only [List.getElem_cons_succ]
            rw [show i + (j + 1) = i + 1 + j by omega]; exact e2⟩

/-- Preparation succeeds if all queries still open are accepted by `isReachability`. -/
theorem C13_preparation_succeeds (results : Nat → Answer) (qs : List Cond)
    (h : ∀ i (hi : i < qs.length), results i = .unknown → isReachability qs[i] = true) :
    ∃ P, prepareAll results qs = some P := by
  unfold prepareAll
  suffices ∀ (i : Nat) (P : Prepared), (∀ k (hk : k < qs.length), results (i + k) = .unknown →
      isReachability qs[k] = true) → ∃ P', prepareLoop results i qs P = some P' from
    this 0 _ (by simpa using h)
  clear h
  induction qs with
  | nil => intro i P _; exact ⟨P, rfl⟩
  | cons q qs ih =>
    intro i P h
    have ht : ∀ k (hk : k < qs.length), results (i + 1 + k) = .unknown → isReachability qs[k] = true := by
      intro k hk hr
      have := h (k + 1) (by simp; omega) (by rw [← hr]; congr 1; omega)
      simpa using this
    simp only [prepareLoop]
    split
    · rename_i hu
      obtain ⟨g, f, inv, hp, _⟩ := C13_accepted_has_goal q (h 0 (by simp) (by simpa using hu))
      rw [hp]
      exact ih _ _ ht
    · exact ih _ _ ht

/-- The queries as the search sees them. -/
def toolQueries (N : FlatNet) (P : Prepared) (results : Nat → Answer) (dist : Nat → Mark → Nat) : Queries where
  num := P.goals.length
  goal := fun i m => match P.goals[i]? with
    | some (g, _) => evaluate (N.deadlocked m) m g == .rTrue
    | none => false
  dist := dist
  handler := fun i a => match P.goals[i]? with
    | some (_, o) => ((printerHandle {} (P.inv o) a).1, false)
    | none => (a, false)
  results := results

theorem toolQueries_handler (N : FlatNet) (P : Prepared) (results : Nat → Answer) (dist : Nat → Mark → Nat) :
    (toolQueries N P results dist).HandlerOK := by
  intro i
  simp only [toolQueries]
  cases P.goals[i]? with
  | none => simp
  | some x =>
    obtain ⟨_, o⟩ := x
    simp only
    rw [(C13_printer _).1, (C13_printer _).2.1]; cases P.inv o <;> simp

/-- **C13** (the whole run).  The queries still open are reachability queries, and no two of them
disagree about the flag of a shared constant; then the explicit search (any strategy, without token
bound), when it returns, has the verdict `satisfied` for exactly the queries that hold in the initial
marking and `notSatisfied` for exactly those that do not. -/
theorem C13_tool_verdicts_partial (N : FlatNet) (w : N.WF) (m0 : Mark) (hpl : N.nplaces < W32)
    (htr : N.ntransitions ≤ W32) (hm0 : ∀ p, p < N.nplaces → m0 p < W32)
    (results : Nat → Answer) (qs : List Cond)
    (hq : ∀ i (hi : i < qs.length), results i = .unknown → isReachability qs[i] = true)
    (hclash : NoClash results qs) {P : Prepared} (hP : prepareAll results qs = some P)
    (st : Strategy) (rand : Nat → Rand) (dist : Nat → Mark → Nat) (heur0 : Nat) (hh : heur0 < qs.length)
    (fuel : Nat) {b : Bool} {s : St st.Q}
    (hrun : tryReach (env N m0 0 st (toolQueries N P results dist) rand heur0 true) fuel = .done b s)
    (hfit : Fits N m0 s) (i : Nat) (hi : i < qs.length) (hu : results i = .unknown)
    (π : Nat → Mark) (hπ : N.ts.IsPath π) (h0 : π 0 = m0) :
    (s.results i = .satisfied ↔ qs[i].sat N.ts π) ∧ (s.results i = .notSatisfied ↔ ¬ qs[i].sat N.ts π) := by
  obtain ⟨e1, _, e3, _⟩ := prepareLoop_spec results qs 0 _ P hP
  simp only [List.length_nil, Nat.zero_add] at e1 e3
  obtain ⟨g, f, inv, hp, hg, j, hj, hju, hjf⟩ := e3 i hi hu
  have hflag : P.inv (goalObj i f g) = inv :=
    hclash j i hj hi hju hu _ _ _ hjf (by simp [flagOf, hp])
  have S : Setting N m0 (toolQueries N P results dist) heur0 :=
    ⟨w, hpl, htr, hm0, toolQueries_handler N P results dist, by simp only [toolQueries]; omega⟩
  have hst : (tryReach (env N m0 0 st (toolQueries N P results dist) rand heur0 true) fuel).st = some s := by
    rw [hrun]; rfl
  have hnum : i < (toolQueries N P results dist).num := by simp only [toolQueries]; omega
  have hstop : ∀ i, ((toolQueries N P results dist).handler i .satisfied).2 = false := by
    intro i; simp only [toolQueries]; split <;> rfl
  obtain ⟨c0, hc0, hc0i⟩ := C10_all_answered S fuel hrun hfit hstop i hnum hu
  have hlast := results_last fuel s hst i
  have hpol := C13_goal_polarity N w qs[i] (hq i hi hu) hp π hπ
  rw [h0] at hpol
  rcases hlast with ⟨hno, _⟩ | ⟨c, hc, hci, hres⟩
  · exact absurd hc0i (hno c0 hc0)
  · have hgoal : ∀ m, (toolQueries N P results dist).goal i m = (evaluate (N.deadlocked m) m g == .rTrue) := by
      intro m; simp only [toolQueries, hg]
    have hhand : ∀ a, ((env N m0 0 st (toolQueries N P results dist) rand heur0 true).handler i a).1 =
        (printerHandle {} inv a).1 := by
      intro a; simp only [env, toolQueries, hg, hflag]
    rw [hhand] at hres
    rcases (C09_calls_wellformed S fuel hst hfit).1 c hc with ⟨ha | ha, _⟩
    · obtain ⟨_, m, hm, hgm⟩ := C09_satisfied_has_witness S fuel hst hfit hc ha
      rw [hci, hgoal] at hgm
      have hR : GoalReachable N m0 g := ⟨m, hm, by simpa using hgm⟩
      rw [ha, (C13_printer inv).1] at hres
      rw [hres]
      cases inv <;> simp_all
    · have hn := C10_not_satisfied_unreachable S fuel hst hfit hc ha
      have hR : ¬ GoalReachable N m0 g := by
        rintro ⟨m, hm, he⟩
        have := hn m hm
        rw [hci, hgoal, he] at this
        simp at this
      rw [ha, (C13_printer inv).2.1] at hres
      rw [hres]
      cases inv <;> simp_all

/-! ### Findings and non-vacuity -/

/-- The answers of a finished run. -/
def answers {Q : Type} (n : Nat) : Outcome Q → Option (List Answer)
  | .done _ s => some ((List.range n).map s.results)
  | _ => none

/-- The answers of the tool to the queries `qs` on the example net without tokens. -/
def exampleRun (qs : List Cond) (m0 : Mark) : Option (List Answer) :=
  (prepareAll (fun _ => .unknown) qs).bind fun P =>
    answers qs.length (tryReach (env Examples.net3 m0 0 .bfs
      (toolQueries Examples.net3 P (fun _ => .unknown) (fun _ _ => 0)) exRand 0 true) 20)

/-- Finding: the queries `EF deadlock` and `not EF deadlock` (what `AG not deadlock` is rewritten to),
checked in one run, share the goal object and hence the invariant flag, and the flag of the second
query is used for both: the verdicts are the same.  With the queries given in the other order both
verdicts are the opposite.  The marking is a deadlock, so the first query holds. -/
theorem C13_finding_shared_deadlock_flag :
    exampleRun [.EF .dead, .not (.EF .dead)] (fun _ => 0) = some [.notSatisfied, .notSatisfied] ∧
    exampleRun [.not (.EF .dead), .EF .dead] (fun _ => 0) = some [.satisfied, .satisfied] ∧
    exampleRun [.EF .dead] (fun _ => 0) = some [.satisfied] ∧
    exampleRun [.not (.EF .dead)] (fun _ => 0) = some [.notSatisfied] := by decide +kernel

/-- Finding: `prepareForReachability` dereferences a null pointer for `A φ` and `E φ` where `φ` does
not begin with `G` resp. `F`; `isReachability` rejects these queries, so the callers in main.cpp and
CTLEngine.cpp do not run into this. -/
theorem C13_finding_null_dereference (c : Cond) : prepare false (.A (.F c)) = .ub ∧ prepare false (.E (.G c)) = .ub ∧
    isReachability (.A (.F c)) = false ∧ isReachability (.E (.G c)) = false := by
  simp [prepare, isReachability, notReach]

/-- Both polarities, in one run, with goals that are not shared. -/
example : exampleRun [.not (.AG (.cmp .le (.id 1) (.lit 0))), .A (.G (.cmp .le (.id 1) (.lit 7))),
    .not (.EF (.cmp .lt (.lit 0) (.id 1))), .E (.F (.cmp .lt (.lit 7) (.id 1)))] exM0 =
    some [.satisfied, .satisfied, .notSatisfied, .notSatisfied] := by decide +kernel

example : NoClash (fun _ => .unknown) [.EF .dead, .AG (.not .dead)] := by
  intro i j hi hj _ _ o b b' h h'
  simp only [List.length_cons, List.length_nil] at hi hj
  have hi' : i = 0 ∨ i = 1 := by omega
  have hj' : j = 0 ∨ j = 1 := by omega
  rcases hi' with rfl | rfl <;> rcases hj' with rfl | rfl <;>
    simp [flagOf, prepare, goalObj] at h h' <;> obtain ⟨rfl, rfl⟩ := h <;> simp_all

end VerdictProps
end Verif
