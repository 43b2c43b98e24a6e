import Verif.Search.NetGen
import Verif.Net.Examples

/-!
# C09-C12: the explicit reachability search

`Search.tryReach` is the model of `ReachabilitySearch::tryReach`; here it is run on a flat net with
the plain successor generator and any of the five queues.  The specification is the textbook notion
of a run of the net denoted by the flat arrays (`Net.Run`).

`fuel` bounds the number of rounds of the main loop; every statement holds for every `fuel`, and
`C10_terminates` gives a sufficient one.  Markings are numbered with 32 bits, so the statements are
about searches that store at most `2^32` markings, or nets with at most that many (`Fits`).
-/

namespace Verif
namespace SearchProps
open Search Queue StateSet FlatNet

/-- The strategies of `ReachabilitySearch::reachable`
(src/PetriEngine/Reachability/ReachabilitySearch.cpp:146-187). -/
inductive Strategy
  | bfs | dfs | rdfs | heur
  | rpfs (c0 : Nat) (ps : List Nat)

def Strategy.Q : Strategy → Type
  | .bfs => Bfs
  | .dfs => List Nat
  | .rdfs => Rdfs
  | .heur => List Weighted
  | .rpfs _ _ => Pot

def Strategy.impl (nT : Nat) : (s : Strategy) → QImpl s.Q
  | .bfs => Queue.bfs
  | .dfs => Queue.dfs
  | .rdfs => Queue.rdfs
  | .heur => Queue.heur
  | .rpfs c0 ps => Queue.pot nT c0 ps

/-- All strategies but random potency first (whose potencies may wrap, see C08). -/
def Strategy.plain : Strategy → Prop
  | .rpfs _ _ => False
  | _ => True

theorem Strategy.lawful (nT : Nat) (s : Strategy) : ∃ base, Nonempty (Lawful (s.impl nT) base) :=
  match s with
  | .bfs => ⟨True, ⟨bfs_lawful⟩⟩
  | .dfs => ⟨True, ⟨dfs_lawful⟩⟩
  | .rdfs => ⟨True, ⟨rdfs_lawful⟩⟩
  | .heur => ⟨True, ⟨heur_lawful⟩⟩
  | .rpfs c0 ps => ⟨0 < nT, ⟨pot_lawful nT c0 ps⟩⟩

theorem Strategy.total (nT : Nat) (s : Strategy) (h : s.plain) : Total (s.impl nT) := by
  cases s with
  | bfs => exact ⟨fun _ _ _ _ => ⟨_, rfl⟩, fun _ _ => ⟨_, rfl⟩⟩
  | dfs => exact ⟨fun _ _ _ _ => ⟨_, rfl⟩, fun q _ => by cases q <;> exact ⟨_, rfl⟩⟩
  | rdfs => exact ⟨fun _ _ _ _ => ⟨_, rfl⟩, fun _ _ => ⟨_, rfl⟩⟩
  | heur => exact ⟨fun _ _ _ _ => ⟨_, rfl⟩, fun q r => by
      simp only [Strategy.impl, Queue.heur]; split <;> exact ⟨_, rfl⟩⟩
  | rpfs => exact h.elim

/-- The queries of one run of the tool: how many, what they ask for, the distance used by the
heuristic, and what the result handler returns. -/
structure Queries where
  num : Nat
  goal : Nat → (Nat → Nat) → Bool
  dist : Nat → (Nat → Nat) → Nat
  handler : Nat → Answer → Answer × Bool
  results : Nat → Answer

/-- The handler never turns a definite answer into `Unknown`. -/
def Queries.HandlerOK (q : Queries) : Prop :=
  ∀ i, (q.handler i .satisfied).1 ≠ .unknown ∧ (q.handler i .notSatisfied).1 ≠ .unknown

/-- `tryReach` on the net `N` from `m0`. -/
def env (N : FlatNet) (m0 : Nat → Nat) (k : Nat) (st : Strategy) (q : Queries) (rand : Nat → Rand)
    (heur0 : Nat) (useQueries : Bool) : Env st.Q where
  places := N.nplaces
  kbound := k
  I := st.impl N.ntransitions
  gen := N.succGen (fun _ => true)
  nq := q.num
  goal := q.goal
  dist := q.dist
  handler := q.handler
  rand := rand
  useQueries := useQueries
  m0 := m0
  heur0 := heur0
  results0 := q.results

/-- The 32-bit numbers given to markings suffice: at most `2^32` markings have been stored, or at most
that many are reachable (all of them, as vectors, are in a list of that length). -/
def Fits (N : FlatNet) (m0 : Nat → Nat) {Q : Type} (s : St Q) : Prop :=
  s.set.trie.length ≤ W32 ∨ ∃ L : List (List Nat), L.length ≤ W32 ∧
    ∀ m, N.toNet.Reach m0 m → (List.range N.nplaces).map m ∈ L

/-- The token bound: no bound (`k = 0`), or at most `k` tokens in total. -/
def Within (N : FlatNet) (k : Nat) (m : Nat → Nat) : Prop :=
  k = 0 ∨ ((List.range N.nplaces).map m).sum ≤ k

/-- The standing hypotheses: a well-formed net of 32-bit size and a 32-bit initial marking, a
sensible handler, and at least one query (the number of the heuristic query is drawn modulo the
number of queries). -/
structure Setting (N : FlatNet) (m0 : Nat → Nat) (q : Queries) (heur0 : Nat) : Prop where
  wf : N.WF
  places : N.nplaces < W32
  trans : N.ntransitions ≤ W32
  m0 : ∀ p, p < N.nplaces → m0 p < W32
  handler : q.HandlerOK
  heur : heur0 < q.num

variable {N : FlatNet} {m0 : Nat → Nat} {k : Nat} {st : Strategy} {q : Queries} {rand : Nat → Rand}
  {heur0 : Nat} {uq : Bool}

theorem within_inB {m : Nat → Nat} (h : Within N k m) : InB k N.nplaces m := by
  rintro ⟨h0, h1⟩
  rcases h with h | h
  · exact h0 h
  · have := Nat.mod_le (ml N.nplaces m).sum W32
    unfold ml at this h1
    omega

/-- If the list `L` lists all reachable markings (as vectors), then no family of different generator
reachable vectors is longer. -/
theorem fin_of_list (S : Setting N m0 q heur0) (L : List (List Nat))
    (hL : ∀ m, N.toNet.Reach m0 m → (List.range N.nplaces).map m ∈ L) :
    Fin' (env N m0 k st q rand heur0 uq) L.length := by
  intro M hn hM
  apply (List.subperm_of_subset hn ?_).length_le
  intro l hl
  obtain ⟨ts, m, hg, rfl⟩ := hM l hl
  obtain ⟨⟨us, _, hr⟩, _⟩ := hg.run S.wf rfl rfl S.m0
  exact hL m ⟨us, hr.run⟩

theorem Fits.small (S : Setting N m0 q heur0) {s : St st.Q} (h : Fits N m0 s) :
    Small (env N m0 k st q rand heur0 uq) s := by
  rcases h with h | ⟨L, h1, h2⟩
  · exact .inr h
  · exact .inl fun M a b => Nat.le_trans (fin_of_list S L h2 M a b) h1

theorem good_of (S : Setting N m0 q heur0) (fuel : Nat) {s : St st.Q}
    (h : (tryReach (env N m0 k st q rand heur0 uq) fuel).st = some s) (hs : Fits N m0 s) :
    Good (env N m0 k st q rand heur0 uq) s := by
  obtain ⟨base, ⟨L⟩⟩ := st.lawful N.ntransitions
  have := tryReach_good (E := env N m0 k st q rand heur0 uq) L
    (genOK_of_net S.wf S.trans rfl rfl) S.handler S.places S.m0 S.heur fuel
  revert this h
  cases tryReach (env N m0 k st q rand heur0 uq) fuel with
  | ub => simp [Outcome.st]
  | running s' =>
    simp only [Outcome.st, Option.some.injEq]
    rintro rfl h
    exact (h (hs.small S)).1
  | thrown s' =>
    simp only [Outcome.st, Option.some.injEq]
    rintro rfl h
    exact h (hs.small S)
  | done b s' =>
    simp only [Outcome.st, Option.some.injEq]
    rintro rfl h
    exact (h (hs.small S)).1

/-- **C09**.  Whenever the search tells the handler that query `c.query` is satisfied (at any time of
its execution: still running, finished, or ended by an exception), a marking reachable in the net
satisfies the goal of that query.  With `usequeries` off no such call is ever made. -/
theorem C09_satisfied_has_witness (S : Setting N m0 q heur0) (fuel : Nat) {s : St st.Q}
    (h : (tryReach (env N m0 k st q rand heur0 uq) fuel).st = some s) (hs : Fits N m0 s)
    {c : Call} (hc : c ∈ s.calls) (ha : c.answer = .satisfied) :
    c.query < q.num ∧ ∃ m, N.toNet.Reach m0 m ∧ q.goal c.query m = true := by
  have G := good_of S fuel h hs
  obtain ⟨ts, m, h1, h2, _⟩ := G.sat c hc ha
  obtain ⟨⟨us, _, hr⟩, _⟩ := h1.run S.wf rfl rfl S.m0
  exact ⟨(G.query c hc).1, m, ⟨us, hr.run⟩, h2⟩

/-- **C10**, completeness.  Whenever the search tells the handler that a query is not satisfied, no
marking reachable through markings within the token bound satisfies its goal. -/
theorem C10_not_satisfied_no_witness (S : Setting N m0 q heur0) (fuel : Nat) {s : St st.Q}
    (h : (tryReach (env N m0 k st q rand heur0 true) fuel).st = some s) (hs : Fits N m0 s)
    {c : Call} (hc : c ∈ s.calls) (ha : c.answer = .notSatisfied) :
    c.query < q.num ∧ ∀ ts m, N.toNet.RunWithin (Within N k) m0 ts m → q.goal c.query m = false := by
  have G := good_of S fuel h hs
  refine ⟨(G.query c hc).1, fun ts m hr => ?_⟩
  have hn := G.not c hc ha rfl
  have h0 : Within N k m0 := by cases hr with
    | nil h => exact h
    | cons h _ _ => exact h
  obtain ⟨ts', hg⟩ := gpath_of_run (E := env N m0 k st q rand heur0 true) S.wf rfl rfl S.m0
    (fun ts m hg => (hn ts m hg).2.1) (GPath.nil (within_inB h0)) (hr.mono _ (fun _ => within_inB))
  exact (hn _ _ hg).1

/-- **C10** without a token bound, in terms of plain reachability. -/
theorem C10_not_satisfied_unreachable (S : Setting N m0 q heur0) (fuel : Nat) {s : St st.Q}
    (h : (tryReach (env N m0 0 st q rand heur0 true) fuel).st = some s) (hs : Fits N m0 s)
    {c : Call} (hc : c ∈ s.calls) (ha : c.answer = .notSatisfied) :
    ∀ m, N.toNet.Reach m0 m → q.goal c.query m = false := by
  rintro m ⟨ts, hr⟩
  exact (C10_not_satisfied_no_witness S fuel h hs hc ha).2 ts m
    ((hr.within _).mono _ (fun _ _ => .inl rfl))

/-- Nothing but `satisfied` and `notSatisfied` is reported, only for queries that were given as
unknown, and at most once per query. -/
theorem C09_calls_wellformed (S : Setting N m0 q heur0) (fuel : Nat) {s : St st.Q}
    (h : (tryReach (env N m0 k st q rand heur0 uq) fuel).st = some s) (hs : Fits N m0 s) :
    (∀ c ∈ s.calls, (c.answer = .satisfied ∨ c.answer = .notSatisfied) ∧ c.query < q.num ∧
      q.results c.query = .unknown) ∧ (s.calls.map Call.query).Nodup := by
  have G := good_of S fuel h hs
  exact ⟨fun c hc => ⟨G.ans c hc, G.query c hc⟩, G.once⟩

/-- **C10**, termination.  If the net has finitely many reachable markings (all listed in `L`, not
more than `2^32`), the search ends: after `L.length + 1` rounds of the main loop it is not running any
more, whatever the strategy; and unless the strategy is random potency first, it has not run into
undefined behaviour either. -/
theorem C10_terminates (S : Setting N m0 q heur0) (L : List (List Nat))
    (hL : ∀ m, N.toNet.Reach m0 m → (List.range N.nplaces).map m ∈ L) (hlen : L.length ≤ W32)
    (fuel : Nat) (hf : L.length < fuel) :
    match tryReach (env N m0 k st q rand heur0 uq) fuel with
    | .running _ => False
    | .ub => ¬ st.plain
    | .done _ s | .thrown s => Fits N m0 s := by
  obtain ⟨base, ⟨LL⟩⟩ := st.lawful N.ntransitions
  have hfin := fin_of_list (k := k) (st := st) (rand := rand) (uq := uq) S L hL
  have hfin' : Fin' (env N m0 k st q rand heur0 uq) W32 :=
    fun M h1 h2 => Nat.le_trans (hfin M h1 h2) hlen
  have := tryReach_good (E := env N m0 k st q rand heur0 uq) LL
    (genOK_of_net S.wf S.trans rfl rfl) S.handler S.places S.m0 S.heur fuel
  revert this
  cases tryReach (env N m0 k st q rand heur0 uq) fuel with
  | ub =>
    simp only
    intro h hp
    exact h hfin' (st.total _ hp)
  | running s' =>
    simp only
    intro h
    obtain ⟨_, M, h1, h2, h3⟩ := h (.inl hfin')
    have := hfin M h1 h3
    omega
  | thrown s' => exact fun h => .inr ⟨L, hlen, hL⟩
  | done b s' => exact fun h => .inr ⟨L, hlen, hL⟩

/-- Every query given as unknown is answered when the search returns (unless the handler asked to stop
early, which `ResultPrinter::handle` never does). -/
theorem C10_all_answered (S : Setting N m0 q heur0) (fuel : Nat) {s : St st.Q} {b : Bool}
    (h : tryReach (env N m0 k st q rand heur0 uq) fuel = .done b s) (hs : Fits N m0 s)
    (hstop : ∀ i, (q.handler i .satisfied).2 = false) (i : Nat) (hi : i < q.num)
    (hu : q.results i = .unknown) : ∃ c ∈ s.calls, c.query = i := by
  obtain ⟨base, ⟨L⟩⟩ := st.lawful N.ntransitions
  have := tryReach_good (E := env N m0 k st q rand heur0 uq) L
    (genOK_of_net S.wf S.trans rfl rfl) S.handler S.places S.m0 S.heur fuel
  rw [h] at this
  exact (this (hs.small S)).2 hstop i hi hu

/-- **C11**.  Two searches of the same net from the same marking with the same token bound, with
whatever strategies, query sets, heuristics, handlers and random choices, at whatever point of their
execution, never report different answers for the same goal. -/
theorem C11_answers_agree {st' : Strategy} {q' : Queries} {rand' : Nat → Rand} {heur0' : Nat}
    (S : Setting N m0 q heur0) (S' : Setting N m0 q' heur0') (fuel fuel' : Nat)
    {s : St st.Q} {s' : St st'.Q}
    (h : (tryReach (env N m0 k st q rand heur0 true) fuel).st = some s) (hs : Fits N m0 s)
    (h' : (tryReach (env N m0 k st' q' rand' heur0' true) fuel').st = some s') (hs' : Fits N m0 s')
    {c c' : Call} (hc : c ∈ s.calls) (hc' : c' ∈ s'.calls)
    (hgoal : q.goal c.query = q'.goal c'.query) : c.answer = c'.answer := by
  have G := good_of S fuel h hs
  have G' := good_of S' fuel' h' hs'
  have key : ∀ {st1 st2 : Strategy} {q1 q2 : Queries} {r1 r2 : Nat → Rand} {h1 h2 : Nat}
      {s1 : St st1.Q} {s2 : St st2.Q} {c1 c2 : Call}, Setting N m0 q1 h1 → Setting N m0 q2 h2 →
      Good (env N m0 k st1 q1 r1 h1 true) s1 → Good (env N m0 k st2 q2 r2 h2 true) s2 →
      c1 ∈ s1.calls → c2 ∈ s2.calls → q1.goal c1.query = q2.goal c2.query →
      c1.answer = .satisfied → c2.answer = .notSatisfied → False := by
    intro st1 st2 q1 q2 r1 r2 h1 h2 s1 s2 c1 c2 S1 S2 G1 G2 m1 m2 hg a1 a2
    obtain ⟨ts, m, p1, p2, _⟩ := G1.sat c1 m1 a1
    have hn := G2.not c2 m2 a2 rfl
    obtain ⟨⟨us, _, hr⟩, _⟩ := p1.run S1.wf rfl rfl S1.m0
    have h0 : InB k N.nplaces m0 := by cases hr with
      | nil h => exact h
      | cons h _ _ => exact h
    obtain ⟨ts', hg'⟩ := gpath_of_run (E := env N m0 k st2 q2 r2 h2 true) S2.wf rfl rfl S2.m0
      (fun ts m hg => (hn ts m hg).2.1) (GPath.nil h0) hr
    have := (hn _ _ hg').1
    rw [show (env N m0 k st1 q1 r1 h1 true).goal = q1.goal from rfl, hg] at p2
    rw [show (env N m0 k st2 q2 r2 h2 true).goal = q2.goal from rfl] at this
    rw [p2] at this
    simp at this
  rcases G.ans c hc with a | a <;> rcases G'.ans c' hc' with a' | a'
  · rw [a, a']
  · exact (key S S' G G' hc hc' hgoal a a').elim
  · exact (key S' S G' G hc' hc hgoal.symm a' a).elim
  · rw [a, a']

/-- **C11**, the two runs that finish: both answer the query, with the same answer. -/
theorem C11_strategy_independent {st' : Strategy} {q' : Queries} {rand' : Nat → Rand} {heur0' : Nat}
    (S : Setting N m0 q heur0) (S' : Setting N m0 q' heur0') (fuel fuel' : Nat)
    {s : St st.Q} {s' : St st'.Q} {b b' : Bool}
    (h : tryReach (env N m0 k st q rand heur0 true) fuel = .done b s) (hs : Fits N m0 s)
    (h' : tryReach (env N m0 k st' q' rand' heur0' true) fuel' = .done b' s') (hs' : Fits N m0 s')
    (hstop : ∀ i, (q.handler i .satisfied).2 = false) (hstop' : ∀ i, (q'.handler i .satisfied).2 = false)
    (i j : Nat) (hi : i < q.num) (hj : j < q'.num) (hui : q.results i = .unknown)
    (huj : q'.results j = .unknown) (hgoal : q.goal i = q'.goal j) :
    ∃ c ∈ s.calls, ∃ c' ∈ s'.calls, c.query = i ∧ c'.query = j ∧ c.answer = c'.answer := by
  obtain ⟨c, hc, rfl⟩ := C10_all_answered S fuel h hs hstop i hi hui
  obtain ⟨c', hc', rfl⟩ := C10_all_answered S' fuel' h' hs' hstop' j hj huj
  exact ⟨c, hc, c', hc', rfl, rfl,
    C11_answers_agree S S' fuel fuel' (by rw [h]; rfl) hs (by rw [h']; rfl) hs' hc hc' hgoal⟩

/-- **C12**.  At the moment a query is reported satisfied, walking back through the history table
(as `printTrace` does) ends at the initial marking, and the transitions found form a run of the net
from the initial marking to a marking that satisfies the goal of the query. -/
theorem C12_trace_is_a_run (S : Setting N m0 q heur0) (fuel : Nat) {s : St st.Q}
    (h : (tryReach (env N m0 k st q rand heur0 uq) fuel).st = some s) (hs : Fits N m0 s)
    {c : Call} (hc : c ∈ s.calls) (ha : c.answer = .satisfied) :
    ∃ (ts : List (Fin N.ntransitions)) (m : Nat → Nat),
      traceWalk c.hist c.marking c.marking [] = some (ts.map Fin.val) ∧
      N.toNet.Run m0 ts m ∧ q.goal c.query m = true := by
  have G := good_of S fuel h hs
  obtain ⟨ts, m, h1, h2, h3⟩ := G.sat c hc ha
  obtain ⟨⟨us, rfl, hr⟩, _⟩ := h1.run S.wf rfl rfl S.m0
  exact ⟨us, m, h3.2 _ (Nat.le_refl _), hr.run, h2⟩

/-! ### Non-vacuity -/

def exQ : Queries where
  num := 2
  goal := fun i m => if i = 0 then decide (m 1 = 1) else decide (m 0 = 1 ∧ m 1 = 0 ∧ m 2 = 0)
  dist := fun _ _ => 0
  handler := fun _ a => (a, false)
  results := fun _ => .unknown

def exM0 : Nat → Nat := fun p => if p = 0 then 3 else if p = 2 then 2 else 0

theorem exSetting : Setting Examples.net3 exM0 exQ 1 where
  wf := Examples.net3_wf
  places := by decide
  trans := by decide
  m0 := by intro p _; unfold exM0; split <;> (try split) <;> decide
  handler := fun i => ⟨by simp [exQ], by simp [exQ]⟩
  heur := by decide

def exRand : Nat → Rand := fun _ => ⟨fun l => l, fun _ => .refl _, fun _ => false⟩

/-- What a run reports: query, answer and trace. -/
def report {Q : Type} : Outcome Q → Option (Bool × List (Nat × Answer × Option (List Nat)))
  | .done b s => some (b, s.calls.map fun c => (c.query, c.answer, traceWalk c.hist c.marking c.marking []))
  | _ => none

/-- Both answers occur, with every strategy, and the reported trace is the expected one. -/
example : report (tryReach (env Examples.net3 exM0 9 .bfs exQ exRand 1 true) 20) =
    some (false, [(0, .satisfied, some [1]), (1, .notSatisfied, some [1, 2, 1, 2])]) := by decide +kernel
example : report (tryReach (env Examples.net3 exM0 0 .heur exQ exRand 1 true) 20) =
    some (false, [(0, .satisfied, some [1]), (1, .notSatisfied, some [1, 2, 1, 2])]) := by decide +kernel
example : report (tryReach (env Examples.net3 exM0 0 (.rpfs 0 []) exQ exRand 1 true) 20) =
    some (false, [(0, .satisfied, some [1]), (1, .notSatisfied, some [1, 2, 1, 2])]) := by decide +kernel

/-- Observation: with a token bound the search reports `notSatisfied` for a goal that is reachable, if
all ways to it exceed the bound (here even the initial marking does); compare the first answers
above. -/
theorem C10_bound_cuts_states_silently :
    report (tryReach (env Examples.net3 exM0 1 .bfs exQ exRand 1 true) 20) =
      some (false, [(0, .notSatisfied, some []), (1, .notSatisfied, some [])]) ∧
    ∃ m, Examples.net3.toNet.Reach exM0 m ∧ exQ.goal 0 m = true := by
  refine ⟨by decide +kernel, ?_⟩
  have h : (tryReach (env Examples.net3 exM0 9 .bfs exQ exRand 1 true) 1).st.map
      (fun s => (decide (s.set.trie.length ≤ 10), s.calls.map fun c => (c.query, c.answer))) =
      some (true, [(0, .satisfied)]) := by decide +kernel
  obtain ⟨s, hs, h2⟩ := Option.map_eq_some_iff.1 h
  simp only [Prod.mk.injEq, decide_eq_true_eq] at h2
  obtain ⟨h3, h4⟩ := h2
  obtain ⟨c, hc⟩ : ∃ c, s.calls = [c] := by
    match hcs : s.calls with
    | [] => rw [hcs] at h4; simp at h4
    | [c] => exact ⟨c, rfl⟩
    | _ :: _ :: _ => rw [hcs] at h4; simp at h4
  rw [hc] at h4
  simp only [List.map_cons, List.map_nil, List.cons.injEq, Prod.mk.injEq, and_true] at h4
  have := C09_satisfied_has_witness exSetting 1 hs (.inl (Nat.le_trans h3 (by decide)))
    (c := c) (by rw [hc]; simp) h4.2
  rw [h4.1] at this
  exact this.2

end SearchProps
end Verif
