import Verif.Search.RandomWalkLemmas
import Verif.Search.NetGen
import Verif.Net.Examples

/-!
# C14: the random-walk search

`Search.randomWalk` models `ReachabilitySearch::tryReachRandomWalk`.  The random numbers, the depth of
the walks and their number (`fuel`) are arbitrary in all theorems.
-/

namespace Verif
namespace RandomWalkProps
open Search FlatNet

/-- The walk runs on the net `N` (all else is arbitrary). -/
structure OnNet (E : WEnv) (N : FlatNet) : Prop where
  wf : N.WF
  places : E.places = N.nplaces
  gen : E.gen = N.succGen (fun _ => true)
  m0 : ∀ p, p < N.nplaces → E.m0 p < W32

variable {E : WEnv} {N : FlatNet}

theorem run_of_path (h : OnNet E N) {ts : List Nat} {m : Nat → Nat} (hp : WPath E ts m) :
    (∃ us : List (Fin N.ntransitions), us.map Fin.val = ts ∧ N.toNet.Run E.m0 us m) ∧
      ∀ p, p < N.nplaces → m p < W32 := by
  induction hp with
  | nil => exact ⟨⟨[], rfl, .nil _⟩, h.m0⟩
  | snoc _ hmem ih =>
    obtain ⟨⟨us, rfl, hr⟩, hv⟩ := ih
    rw [h.gen] at hmem
    obtain ⟨t, h1, _, h3, h4⟩ := succGen_step h.wf _ hv hmem
    exact ⟨⟨us ++ [t], by simp [h1], hr.snoc _ h3⟩, h4⟩

/-- **C14**.  Whatever the random choices: every answer given says "satisfied", and the marking it is
about is reachable and satisfies the goal of the query. -/
theorem C14_answers_have_witnesses (h : OnNet E N) (depth : Nat → Nat) (fuel : Nat) {s : WSt}
    (hs : (randomWalk E depth fuel).st = some s) {c : WCall} (hc : c ∈ s.calls) :
    c.answer = .satisfied ∧ c.query < E.nq ∧ N.toNet.Reach E.m0 c.marking ∧
      E.goal c.query c.marking = true := by
  obtain ⟨h1, h2, h3, ts, h4⟩ := (randomWalk_ok depth fuel s hs).sat c hc
  obtain ⟨⟨us, _, hr⟩, _⟩ := run_of_path h h4
  exact ⟨h1, h2, ⟨us, hr⟩, h3⟩

/-- **C14** (traces).  The first trace printed is a run of the net to the marking found.  (Later ones
need not be, see the findings.) -/
theorem C14_first_trace_is_a_run (h : OnNet E N) (depth : Nat → Nat) (fuel : Nat) {s : WSt}
    (hs : (randomWalk E depth fuel).st = some s) {pre post : List WCall} {c : WCall}
    (hc : s.calls = pre ++ c :: post) (hpre : ∀ d ∈ pre, d.trace = none) {tr : List Nat}
    (htr : c.trace = some tr) :
    ∃ ts : List (Fin N.ntransitions), tr = ts.map Fin.val ∧ N.toNet.Run E.m0 ts c.marking := by
  have := (randomWalk_ok depth fuel s hs).first pre c post tr hc hpre htr
  obtain ⟨⟨us, hu, hr⟩, _⟩ := run_of_path h this
  exact ⟨us, hu.symm, hr⟩

/-- **C14** (traces, one query).  With a single query the search has no undefined behaviour and every
trace printed is a run of the net to a marking that satisfies the goal. -/
theorem C14_single_query_traces_partial (h : OnNet E N) (hN : N.nplaces ≠ 0) (hq : E.nq = 1) (hz : E.heur0 = 0)
    (hh : (E.handler 0 .satisfied).1 ≠ .unknown) (depth : Nat → Nat) (fuel : Nat) :
    ∃ s, (randomWalk E depth fuel).st = some s ∧ ∀ c ∈ s.calls, ∀ tr, c.trace = some tr →
      ∃ ts : List (Fin N.ntransitions), tr = ts.map Fin.val ∧ N.toNet.Run E.m0 ts c.marking ∧
        E.goal c.query c.marking = true := by
  obtain ⟨s, hs, hl⟩ := randomWalk_safe (.inr ⟨hq, hh⟩) hh (by rw [h.places]; exact hN) (by omega) depth fuel
  refine ⟨s, hs, fun c hc tr htr => ?_⟩
  have hl := hl hq
  have hcs : s.calls = [] ++ c :: [] := by
    match hcl : s.calls with
    | [] => rw [hcl] at hc; simp at hc
    | [d] => rw [hcl] at hc; simp at hc; simp [hc]
    | _ :: _ :: _ => rw [hcl] at hl; simp at hl
  obtain ⟨ts, h1, h2⟩ := C14_first_trace_is_a_run h depth fuel hs hcs (by simp) htr
  exact ⟨ts, h1, h2, (C14_answers_have_witnesses h depth fuel hs hc).2.2.2⟩

/-- C14: without traces, there is no undefined behaviour for any number of queries. -/
theorem C14_no_ub_without_traces (h : OnNet E N) (hN : N.nplaces ≠ 0) (hq : E.heur0 < E.nq)
    (ht : E.tracing = false) (hh : (E.handler 0 .satisfied).1 ≠ .unknown) (depth : Nat → Nat) (fuel : Nat) :
    ∃ s, (randomWalk E depth fuel).st = some s := by
  obtain ⟨s, hs, _⟩ := randomWalk_safe (E := E) (.inl fun i => by rw [ht]; rfl) hh (by rw [h.places]; exact hN) hq
    depth fuel
  exact ⟨s, hs⟩

/-- C14: a walk only stops early for lack of successors: the first successor considered in a step is
always chosen (without token bound, for potencies in the 32-bit range). -/
theorem C14_first_candidate_chosen {m : Nat → Nat} {t : Nat} {s : WSt} (hk : E.kbound = 0) (h0 : s.total = 0)
    (hp : 1 ≤ s.pot t) (hp2 : s.pot t + s.curDist < W32) (hr : ∀ i, E.rand i ≤ E.randMax) :
    (computeCandidate E m t s).2 = true ∧ 1 ≤ (computeCandidate E m t s).1.pot t ∧
      (computeCandidate E m t s).1.next = m :=
  computeCandidate_first hk h0 hp hp2 hr

/-! ### Findings and non-vacuity -/

/-- A walk on the net `Examples.net3` from 5 tokens on place 0, with traces: query `i` asks for a marking
with `goal i` tokens on place 1. -/
def exE (nq : Nat) (goal : Nat → Nat) : WEnv where
  places := 3
  kbound := 0
  gen := Examples.net3.succGen (fun _ => true)
  nq := nq
  goal := fun i m => decide (m 1 ≥ goal i)
  dist := fun _ _ => 0
  handler := fun _ a => (a, false)
  prints := fun _ _ => true
  tracing := true
  m0 := fun p => if p = 0 then 5 else if p = 2 then 2 else 0
  heur0 := 0
  results0 := fun _ => .unknown
  pot0 := fun _ => 1
  rand := fun i => if i = 2 then 100 else 0
  randMax := 100

/-- The traces printed, if the search ends normally. -/
def traces : WOut → Option (List (Option (List Nat)))
  | .done s => some (s.calls.map (·.trace))
  | _ => none

def isUb : WOut → Bool
  | .ub => true
  | _ => false

/-- Two transitions are needed to put two tokens on place 1; the trace is right with one query. -/
example : traces (randomWalk (exE 1 fun _ => 2) (fun _ => 5) 5) = some [some [1, 1]] := by decide +kernel

theorem exE_onNet (nq : Nat) (goal : Nat → Nat) : OnNet (exE nq goal) Examples.net3 where
  wf := Examples.net3_wf
  places := rfl
  gen := rfl
  m0 := by
    intro p _
    simp only [exE]
    split
    · decide
    · split <;> decide

/-- the hypotheses of the theorem about one query are met -/
example := C14_single_query_traces_partial (exE_onNet 1 fun _ => 2) (by decide) rfl rfl (by decide)

/-- Finding: with two queries the trace printed for the second lacks its beginning (printing the first
trace empties the stack that records the walk): `[1]` is printed, and firing transition 1 once from the
initial marking does not put two tokens on place 1. -/
theorem C14_finding_second_trace_wrong :
    traces (randomWalk (exE 2 fun i => i + 1) (fun _ => 5) 5) = some [some [1], some [1]] ∧
      (∀ m, Examples.net3.fire (exE 2 fun i => i + 1).m0 1 = some m → (exE 2 fun i => i + 1).goal 1 m = false) := by
  refine ⟨by decide +kernel, fun m hm => ?_⟩
  have : (Examples.net3.fire (exE 2 fun i => i + 1).m0 1).map (fun m => (exE 2 fun i => i + 1).goal 1 m)
      = some false := by decide +kernel
  rw [hm] at this
  simpa using this

/-- Finding: if two queries are satisfied by the same marking, the second trace is read from an empty
stack (undefined behaviour). -/
theorem C14_finding_empty_stack :
    isUb (randomWalk (exE 2 fun _ => 1) (fun _ => 5) 5) = true := by decide +kernel

/-- Finding: on a net without places the walk reads `_nextMarking[0]` of an empty array (and writes it,
in the constructor). -/
theorem C14_finding_no_places (E : WEnv) (h : E.places = 0) (depth : Nat → Nat) (fuel : Nat) :
    randomWalk E depth fuel = .ub := by
  unfold randomWalk
  rw [if_neg (fun hc => hc.2 h)]

end RandomWalkProps
end Verif
