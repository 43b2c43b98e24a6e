import Verif.StateSet.Model
import Verif.Queue.Model

/-!
# Model of the explicit reachability search

Models `include/PetriEngine/Reachability/ReachabilitySearch.h` (`tryReach`),
`src/PetriEngine/Reachability/ReachabilitySearch.cpp` (`checkQueries`, `doCallback`) and
`src/PetriEngine/Reachability/ResultPrinter.cpp` (`printTrace`, the history walk).
The search is generic in the queue, the successor generator (given by the list of fired transitions
and markings written by the loop `while (generator.next(working))`, with a flag telling whether that
loop ends by throwing), the query evaluation, the heuristic and the handler, as the C++ templates are.
-/

namespace Verif
namespace Search
open Queue StateSet

/-- models include/PetriEngine/Reachability/ReachabilityResult.h (`enum Result`). -/
inductive Answer
  | satisfied | notSatisfied | unknown | ctl | ltl | synthesis | ignore
deriving DecidableEq, Repr

/-- Everything the search is parameterised by. -/
structure Env (Q : Type) where
  /-- number of places -/
  places : Nat
  /-- `_kbound` -/
  kbound : Nat
  /-- the queue -/
  I : QImpl Q
  /-- the successor generator -/
  gen : (Nat → Nat) → List (Nat × (Nat → Nat)) × Bool
  /-- `queries.size()` -/
  nq : Nat
  /-- `evaluate(queries[i], marking) == RTRUE` -/
  goal : Nat → (Nat → Nat) → Bool
  /-- `queries[i]->distance(marking)` -/
  dist : Nat → (Nat → Nat) → Nat
  /-- `_callback.handle` -/
  handler : Nat → Answer → Answer × Bool
  /-- the random choices of the k-th `pop` -/
  rand : Nat → Rand
  /-- `usequeries` -/
  useQueries : Bool
  /-- the initial marking -/
  m0 : Nat → Nat
  /-- `std::rand() % queries.size()` -/
  heur0 : Nat
  /-- the results vector passed in -/
  results0 : Nat → Answer

/-- One call of the result handler: query, answer, `_satisfyingMarking` and the history table at
that time. -/
structure Call where
  query : Nat
  answer : Answer
  marking : Nat
  hist : Nat → Nat × Nat

/-- The variables of `tryReach`.  `hist` and `parent` belong to `TracableStateSet`
(include/PetriEngine/Structures/StateSet.h:530-563). -/
structure St (Q : Type) where
  set : SSet
  queue : Q
  state : Nat → Nat
  hist : Nat → Nat × Nat := fun _ => (0, 0)
  parent : Nat := 0
  results : Nat → Answer
  heur : Nat
  satisfying : Nat := 0
  expanded : Nat := 0
  explored : Nat := 1
  calls : List Call := []
  /-- The evaluations of queries so far, the last one first.  Not a variable of the C++: queries with
  state (`UnfoldedUpperBoundsCondition::_bound`) accumulate over these. -/
  evals : List (Nat × (Nat → Nat)) := []

variable {Q : Type}

/-- models src/PetriEngine/Reachability/ReachabilitySearch.cpp:60-72 (choosing another heuristic
query; the inner `if` tests `results[i]`, which is not `Unknown` here, so it never breaks). -/
def bumpHeur (E : Env Q) (i : Nat) (s : St Q) : St Q :=
  if i = s.heur ∧ s.results i ≠ .unknown then
    if E.nq ≥ 2 then
      { s with heur := (List.range (E.nq - 1)).foldl (fun h n => (h + (n + 1)) % E.nq) s.heur }
    else s
  else s

/-- models src/PetriEngine/Reachability/ReachabilitySearch.cpp:77-85 (`doCallback`) and the
assignment of its first component to `results[i]`. -/
def callback (E : Env Q) (i : Nat) (a : Answer) (s : St Q) : St Q :=
  { s with results := fun j => if j = i then (E.handler i a).1 else s.results j,
           calls := s.calls ++ [⟨i, a, s.satisfying, s.hist⟩] }

/-- `evaluate(queries[i], marking)` has been called, src/PetriEngine/Reachability/ReachabilitySearch.cpp:48-51. -/
def note (i : Nat) (m : Nat → Nat) (s : St Q) : St Q := { s with evals := (i, m) :: s.evals }

/-- models src/PetriEngine/Reachability/ReachabilitySearch.cpp:42-74 (the loop of
`checkQueries` over the remaining query indices). -/
def checkLoop (E : Env Q) (m : Nat → Nat) : List Nat → St Q → Bool → St Q × Bool
  | [], s, alldone => (s, alldone)
  | i :: is, s, alldone =>
    if s.results i = .unknown then
      if E.goal i m then
        let s := callback E i .satisfied (note i m s)
        if (E.handler i .satisfied).2 then (s, true)
        else checkLoop E m is (bumpHeur E i s) alldone
      else checkLoop E m is (bumpHeur E i (note i m s)) false
    else checkLoop E m is (bumpHeur E i s) alldone

/-- models src/PetriEngine/Reachability/ReachabilitySearch.cpp:35-75 (`checkQueries`). -/
def checkQueries (E : Env Q) (m : Nat → Nat) (s : St Q) : St Q × Bool :=
  if E.useQueries then checkLoop E m (List.range E.nq) s true else (s, false)

/-- Result of the inner loop: continue, return true, exception, undefined behaviour. -/
inductive Loop (Q : Type)
  | cont (s : St Q)
  | ret (s : St Q)
  | thrown (s : St Q)
  | ub

/-- models include/PetriEngine/Reachability/ReachabilitySearch.h:190-211: the part of the loop body
executed for a new marking `m` with number `id`. -/
def newState (E : Env Q) (id t : Nat) (m : Nat → Nat) (s : St Q) : Option (St Q × Bool) :=
  if s.heur < E.nq then
    match E.I.push s.queue id (E.dist s.heur m) (some t) with
    | none => none
    | some q =>
      some (checkQueries E m
        { s with queue := q,
                 hist := fun j => if j = id then (u32 s.parent, u32 t) else s.hist j,
                 satisfying := id, explored := s.explored + 1 })
  else none

/-- models include/PetriEngine/Reachability/ReachabilitySearch.h:187-212 (the loop over the
successors). -/
def succLoop (E : Env Q) : List (Nat × (Nat → Nat)) → St Q → Loop Q
  | [], s => .cont s
  | (t, m) :: rest, s =>
    match StateSet.add s.set m with
    | (_, .ub) => .ub
    | (S, .thrown) => .thrown { s with set := S }
    | (S, .ok false _) => succLoop E rest { s with set := S }
    | (_, .ok true none) => .ub
    | (S, .ok true (some id)) =>
      match newState E id t m { s with set := S } with
      | none => .ub
      | some (s, true) => .ret s
      | some (s, false) => succLoop E rest s

/-- Result of the search; `running` means that the fuel ran out. -/
inductive Outcome (Q : Type)
  | running (s : St Q)
  | done (ret : Bool) (s : St Q)
  | thrown (s : St Q)
  | ub

/-- models include/PetriEngine/Reachability/ReachabilitySearch.h:217-224 (last results). -/
def finish (E : Env Q) (s : St Q) : St Q :=
  (List.range E.nq).foldl (fun s i =>
    if s.results i = .unknown then callback E i .notSatisfied s else s) s

/-- models include/PetriEngine/Reachability/ReachabilitySearch.h:184-227 (the main loop), at most
`fuel` rounds. -/
def mainLoop (E : Env Q) : Nat → St Q → Outcome Q
  | 0, s => .running s
  | fuel + 1, s =>
    match E.I.pop s.queue (E.rand s.expanded) with
    | none => .ub
    | some (none, q) => .done false (finish E { s with queue := q })
    | some (some nid, q) =>
      match decodeId s.set nid s.state with
      | (_, none) => .ub
      | (S, some m) =>
        match succLoop E (E.gen m).1 { s with set := S, queue := q, state := m, parent := nid } with
        | .ub => .ub
        | .thrown s => .thrown s
        | .ret s => .done true s
        | .cont s =>
          if (E.gen m).2 then .thrown s
          else mainLoop E fuel { s with expanded := s.expanded + 1 }

/-- The variables at the start of `tryReach`. -/
def start (E : Env Q) : St Q :=
  { set := { places := E.places, kbound := E.kbound }, queue := E.I.init, state := E.m0,
    results := E.results0, heur := E.heur0 }

/-- models include/PetriEngine/Reachability/ReachabilitySearch.h:174-182 (initial push and main
loop). -/
def afterInit (E : Env Q) (fuel id : Nat) (s : St Q) : Outcome Q :=
  if s.heur < E.nq then
    match E.I.push s.queue id (E.dist s.heur E.m0) none with
    | none => .ub
    | some q => mainLoop E fuel { s with queue := q }
  else .ub

/-- models include/PetriEngine/Reachability/ReachabilitySearch.h:130-228 (`tryReach`). -/
def tryReach (E : Env Q) (fuel : Nat) : Outcome Q :=
  match StateSet.add (start E).set E.m0 with
  | (_, .ub) => .ub
  | (S, .thrown) => .thrown { start E with set := S }
  | (S, .ok false _) => .done false (finish E { start E with set := S })
  | (_, .ok true none) => .ub
  | (S, .ok true (some id)) =>
    match checkQueries E E.m0 { start E with set := S, satisfying := id } with
    | (s, true) => .done true s
    | (s, false) => afterInit E fuel id s

/-- models src/PetriEngine/Reachability/ResultPrinter.cpp:204-216 (`printTrace`: walking back from
`next` to marking 0; the head of the list is the top of the stack, i.e. the first transition
printed).  `none`: the walk has not ended after `fuel` steps. -/
def traceWalk (hist : Nat → Nat × Nat) : Nat → Nat → List Nat → Option (List Nat)
  | _, 0, acc => some acc
  | 0, _ + 1, _ => none
  | fuel + 1, n + 1, acc => traceWalk hist fuel (hist (n + 1)).1 ((hist (n + 1)).2 :: acc)

end Search
end Verif
