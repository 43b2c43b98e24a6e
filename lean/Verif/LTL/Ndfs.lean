import Verif.LTL.Graph

/-!
# The nested depth-first search (src/LTL/Algorithm/NestedDepthFirstSearch.cpp)
-/

namespace Verif
namespace LTL
namespace Ndfs
variable {V : Type} [DecidableEq V]

/-- The variables of the search: `todo` and `nested_todo` (top first; with the successors still to come), the states
marked by the outer and by the nested search, `_violation`, the state set, the initial states not yet looked at, and
a clock for the orders chosen by the generator.  `nest` is `none` while the outer search runs; it contains the state
from which the nested search was started otherwise. -/
structure St (V : Type) where
  todo : List (V × List V) := []
  nest : Option (V × List (V × List V)) := none
  m1 : List V := []
  m2 : List V := []
  viol : Bool := false
  seen : List V := []
  inits : List V
  time : Nat := 0

variable (G : PGraph V) (weak : Bool)

/-- models src/LTL/Algorithm/NestedDepthFirstSearch.cpp:181-195: one successor `w` in the nested search -/
def visit2 (s : St V) (seed u w : V) (ws : List V) (ns : List (V × List V)) : St V :=
  if w = seed then { s with viol := true, nest := some (seed, (u, ws) :: ns) }
  else if G.bnd w then
    if s.m2.contains w then { s with nest := some (seed, (u, ws) :: ns), seen := w :: s.seen }
    else { s with
      nest := some (seed, (w, G.succ s.time w) :: (u, ws) :: ns), m2 := w :: s.m2, seen := w :: s.seen }
  else { s with nest := some (seed, (u, ws) :: ns) }

/-- models src/LTL/Algorithm/NestedDepthFirstSearch.cpp:140-158: one successor `w` of `v` in the outer search -/
def visit1 (s : St V) (v w : V) (ws : List V) (td : List (V × List V)) : St V :=
  if G.bnd w then
    if s.m1.contains w then { s with todo := (v, ws) :: td, seen := w :: s.seen }
    else if weak && G.acc v && G.inv v then
      { s with todo := (v, ws) :: td, m1 := w :: s.m1, seen := w :: s.seen, viol := true }
    else { s with todo := (w, G.succ s.time w) :: (v, ws) :: td, m1 := w :: s.m1, seen := w :: s.seen }
  else { s with todo := (v, ws) :: td }

/-- models src/LTL/Algorithm/NestedDepthFirstSearch.cpp:126-139: `v` has no more successors -/
def finish1 (s : St V) (v : V) (td : List (V × List V)) : St V :=
  if G.acc v then
    if G.inv v then { s with viol := true }
    else { s with nest := some (v, [(v, G.succ s.time v)]) }
  else { s with todo := td }

/-- models src/LTL/Algorithm/NestedDepthFirstSearch.cpp:97-105, 117: one initial state (it is added to the state set
but not marked) -/
def start (s : St V) (v : V) : St V :=
  if G.bnd v && !s.seen.contains v then { s with todo := [(v, G.succ s.time v)], seen := v :: s.seen } else s

/-- models src/LTL/Algorithm/NestedDepthFirstSearch.cpp:94-197: one round of the loops; `none`: finished -/
def step (s : St V) : Option (St V) :=
  if s.viol then none
  else match s.nest with
    | some (seed, (u, w :: ws) :: ns) => some { visit2 G s seed u w ws ns with time := s.time + 1 }
    | some (seed, (_, []) :: ns) => some { s with nest := some (seed, ns), time := s.time + 1 }
    | some (_, []) => some { s with nest := none, todo := s.todo.tail, time := s.time + 1 }
    | none =>
      match s.todo with
      | (v, w :: ws) :: td => some { visit1 G weak s v w ws td with time := s.time + 1 }
      | (v, []) :: td => some { finish1 G s v td with time := s.time + 1 }
      | [] =>
        match s.inits with
        | v :: vs => some { start G { s with inits := vs } v with time := s.time + 1 }
        | [] => none

/-- At most `fuel` rounds; the flag tells whether the search has finished. -/
def run : Nat → St V → St V × Bool
  | 0, s => (s, (step G weak s).isNone)
  | n + 1, s =>
    match step G weak s with
    | none => (s, true)
    | some s' => run n s'

/-- models src/LTL/Algorithm/NestedDepthFirstSearch.cpp:50-72: the answer, if the search ends within `fuel` rounds -/
def check (inits : List V) (fuel : Nat) : Option Bool :=
  match run G weak fuel { inits := inits } with
  | (s, true) => some (!s.viol)
  | (_, false) => none

end Ndfs
end LTL
end Verif
