import Verif.Search.Model

/-!
# Model of the random-walk search

Models `include/PetriEngine/Reachability/ReachabilitySearch.h:230-343` (`tryReachRandomWalk`) with
`RandomWalkStateSet` and `TracableRandomWalkStateSet`
(`include/PetriEngine/Structures/StateSet.h:79-300`).  The random numbers are an arbitrary sequence.
Left out: the statistics; `ss.heurquery`, which is not used after the start; the `int` step counter,
which overflows in a walk of 2^31 steps.  The quotients of the sampling are compared exactly instead
of as `double`.
-/

namespace Verif
namespace Search

/-- What the random walk is parameterised by. -/
structure WEnv where
  places : Nat
  kbound : Nat
  gen : (Nat → Nat) → List (Nat × (Nat → Nat)) × Bool
  nq : Nat
  goal : Nat → (Nat → Nat) → Bool
  dist : Nat → (Nat → Nat) → Nat
  handler : Nat → Answer → Answer × Bool
  /-- whether `_callback.handle` calls `printTrace` -/
  prints : Nat → Answer → Bool
  /-- the state set is a `TracableRandomWalkStateSet` (`keep_trace`) -/
  tracing : Bool
  m0 : Nat → Nat
  heur0 : Nat
  results0 : Nat → Answer
  /-- `_potencies` at the start -/
  pot0 : Nat → Nat
  /-- the k-th value of `rand()` -/
  rand : Nat → Nat
  /-- `RAND_MAX` -/
  randMax : Nat

/-- One call of the result handler: query, answer, the marking it is about and the trace printed. -/
structure WCall where
  query : Nat
  answer : Answer
  marking : Nat → Nat
  trace : Option (List Nat)

/-- The variables of `tryReachRandomWalk` and of the state set.  The head of `stack` is the top of
`_stackTrace`. -/
structure WSt where
  next : Nat → Nat
  cur : Nat → Nat
  nextDist : Nat
  curDist : Nat := 0
  total : Nat := 0
  pot : Nat → Nat
  draws : Nat := 0
  stack : List Nat := []
  prev : Nat := 0
  satisfying : Nat := 0
  results : Nat → Answer
  calls : List WCall := []

/-- `std::numeric_limits<MarkVal>::max()`, the value of `_nextMarking[0]` if there is no candidate. -/
def noCandidate : Nat := W32 - 1

/-- models src/PetriEngine/Reachability/ResultPrinter.cpp:206-215 with
include/PetriEngine/Structures/StateSet.h:268-273 (`getHistory` pops the stack and returns its
remaining size).  `none`: `top()` of an empty stack. -/
def popTrace : List Nat → List Nat → Option (List Nat)
  | [], _ => none
  | [t], acc => some (t :: acc)
  | t :: t' :: rest, acc => popTrace (t' :: rest) (t :: acc)

/-- models `doCallback` for the answer `Satisfied` at marking `m`.  `none`: undefined behaviour. -/
def wCallback (E : WEnv) (i : Nat) (m : Nat → Nat) (s : WSt) : Option WSt :=
  if E.tracing && E.prints i .satisfied then
    if s.satisfying = 0 then
      some { s with results := fun j => if j = i then (E.handler i .satisfied).1 else s.results j,
                    calls := s.calls ++ [⟨i, .satisfied, m, some []⟩] }
    else
      match popTrace s.stack [] with
      | none => none
      | some tr =>
        some { s with results := fun j => if j = i then (E.handler i .satisfied).1 else s.results j,
                      calls := s.calls ++ [⟨i, .satisfied, m, some tr⟩], stack := [] }
  else
    some { s with results := fun j => if j = i then (E.handler i .satisfied).1 else s.results j,
                  calls := s.calls ++ [⟨i, .satisfied, m, none⟩] }

/-- models src/PetriEngine/Reachability/ReachabilitySearch.cpp:42-74 (loop of `checkQueries`). -/
def wCheckLoop (E : WEnv) (m : Nat → Nat) : List Nat → WSt → Bool → Option (WSt × Bool)
  | [], s, alldone => some (s, alldone)
  | i :: is, s, alldone =>
    if s.results i = .unknown then
      if E.goal i m then
        match wCallback E i m s with
        | none => none
        | some s => if (E.handler i .satisfied).2 then some (s, true) else wCheckLoop E m is s alldone
      else wCheckLoop E m is s false
    else wCheckLoop E m is s alldone

/-- models src/PetriEngine/Reachability/ReachabilitySearch.cpp:35-75 (`checkQueries`;
`usequeries` is set, see `reachable`, lines 157-160). -/
def wCheck (E : WEnv) (m : Nat → Nat) (s : WSt) : Option (WSt × Bool) :=
  wCheckLoop E m (List.range E.nq) s true

/-- models include/PetriEngine/Structures/StateSet.h:135-143: the new potency. -/
def newPotency (pot cur dist : Nat) : Nat :=
  if dist < cur then (pot + (cur - dist)) % W32
  else if (pot + W32 - 1) % W32 ≥ dist - cur then (pot + W32 - (dist - cur)) % W32
  else 1

/-- models include/PetriEngine/Structures/StateSet.h:117-156 (`computeCandidate`; `_maxTokens` and
`_maxPlaceBound` left out). -/
def computeCandidate (E : WEnv) (m : Nat → Nat) (t : Nat) (s : WSt) : WSt × Bool :=
  if E.kbound ≠ 0 ∧ ((List.range E.places).map m).sum % W32 > E.kbound then (s, false)
  else
    let dist := E.dist E.heur0 m
    let p := newPotency (s.pot t) s.curDist dist
    let total := (s.total + p) % W32
    let s := { s with pot := fun u => if u = t then p else s.pot u, total := total, draws := s.draws + 1 }
    if (total ≠ 0 ∨ p ≠ 0) ∧ E.rand (s.draws - 1) * total ≤ p * E.randMax then
      ({ s with next := m, nextDist := dist }, true)
    else (s, false)

/-- Result of a loop. -/
inductive WRes
  | cont (s : WSt)
  | ret (s : WSt)
  | thrown (s : WSt)
  | ub

/-- models include/PetriEngine/Structures/StateSet.h:255-258 (`setHistory`); `none`: empty stack. -/
def setTop (t : Nat) : List Nat → Option (List Nat)
  | [] => none
  | _ :: l => some (t :: l)

/-- models include/PetriEngine/Reachability/ReachabilitySearch.h:297-307: the trace is made to end
with the candidate. -/
def beforeCheck (E : WEnv) (t : Nat) (s : WSt) : Option WSt :=
  if E.tracing then
    match s.stack with
    | [] => none
    | u :: l => some { s with prev := u, stack := t :: l }
  else some s

/-- models include/PetriEngine/Reachability/ReachabilitySearch.h:315-324: `computeCandidate`, and the
trace is restored if the candidate is not chosen. -/
def afterCheck (E : WEnv) (t : Nat) (m : Nat → Nat) (s : WSt) : Option WSt :=
  let r := computeCandidate E m t s
  if E.tracing && !r.2 then
    match setTop r.1.prev r.1.stack with
    | none => none
    | some st => some { r.1 with stack := st }
  else some r.1

/-- models include/PetriEngine/Reachability/ReachabilitySearch.h:293-325 (loop over the successors). -/
def candLoop (E : WEnv) : List (Nat × (Nat → Nat)) → WSt → WRes
  | [], s => .cont s
  | (t, m) :: rest, s =>
    match beforeCheck E t s with
    | none => .ub
    | some s =>
      match wCheck E m s with
      | none => .ub
      | some (s, true) => .ret s
      | some (s, false) =>
        match afterCheck E t m s with
        | none => .ub
        | some s => candLoop E rest s

/-- models include/PetriEngine/Structures/StateSet.h:175-184 (`nextStep`) if there is a candidate, and
include/PetriEngine/Reachability/ReachabilitySearch.h:288-291 (`addStepTrace`). -/
def beginStep (E : WEnv) (s : WSt) : WSt :=
  { s with cur := s.next, curDist := s.nextDist, total := 0,
           next := fun p => if p = 0 then noCandidate else s.next p,
           stack := if E.tracing then 0 :: s.stack else s.stack }

/-- models include/PetriEngine/Reachability/ReachabilitySearch.h:280-327: at most `depth` steps. -/
def walk (E : WEnv) : Nat → WSt → WRes
  | 0, s => .cont s
  | depth + 1, s =>
    if E.places = 0 then .ub
    else if s.next 0 = noCandidate then .cont s
    else
      match candLoop E (E.gen s.next).1 (beginStep E s) with
      | .ub => .ub
      | .ret s => .ret s
      | .thrown s => .thrown s
      | .cont s' => if (E.gen s.next).2 then .thrown s' else walk E depth s'

/-- models include/PetriEngine/Structures/StateSet.h:163-168, 260-264 (`newWalk`). -/
def newWalk (E : WEnv) (s : WSt) : WSt :=
  { s with next := E.m0, nextDist := E.dist E.heur0 E.m0, stack := if E.tracing then [] else s.stack }

/-- Result of the search. -/
inductive WOut
  | running (s : WSt)
  | done (s : WSt)
  | thrown (s : WSt)
  | ub

/-- models include/PetriEngine/Reachability/ReachabilitySearch.h:275-331: at most `fuel` walks; `depth`
gives the bound on the length of each. -/
def walks (E : WEnv) (depth : Nat → Nat) : Nat → Nat → WSt → WOut
  | _, 0, s => .running s
  | k, fuel + 1, s =>
    match walk E (depth k) (newWalk E s) with
    | .ub => .ub
    | .ret s => .done s
    | .thrown s => .thrown s
    | .cont s => walks E depth (k + 1) fuel s

/-- models include/PetriEngine/Reachability/ReachabilitySearch.h:230-343 (`tryReachRandomWalk`). -/
def randomWalk (E : WEnv) (depth : Nat → Nat) (fuel : Nat) : WOut :=
  if E.heur0 < E.nq ∧ E.places ≠ 0 then
    match wCheck E E.m0
      { next := fun p => if p = 0 then noCandidate else 0, cur := E.m0, nextDist := 0, pot := E.pot0,
        results := E.results0 } with
    | none => .ub
    | some (s, true) => .done s
    | some (s, false) => walks E depth 0 fuel { s with satisfying := if E.tracing then 1 else s.satisfying }
  else .ub

/-- models include/PetriEngine/Reachability/ReachabilitySearch.h:271, 328-330: the depth of the k-th
walk (`maxDepth` is `2^63 - 1 - inc`). -/
def walkDepth (d inc maxDepth : Nat) : Nat → Nat
  | 0 => d
  | k + 1 => if walkDepth d inc maxDepth k < maxDepth then walkDepth d inc maxDepth k + inc
    else walkDepth d inc maxDepth k

end Search
end Verif
