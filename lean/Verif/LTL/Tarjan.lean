import Verif.LTL.Graph

/-!
# The search based on Tarjan's algorithm (src/LTL/Algorithm/TarjanModelChecker.cpp)
-/

namespace Verif
namespace LTL
namespace Tarjan
variable {V : Type} [DecidableEq V]

/-- models include/LTL/Algorithm/TarjanModelChecker.h:97-104 (`plain_centry_t`; `_dstack` is read only in code that
is never instantiated, see DESIGN.md) -/
structure CEntry (V : Type) where
  low : Nat
  id : V
  next : Option Nat

/-- The variables of the search: `cstack` (position 0 first), `dstack` (top first; the successors still to come),
`_astack` (top first), `_store`, `_chash`, `_violation`, the state set, the initial states not yet looked
at, and a clock for the orders chosen by the generator. -/
structure St (V : Type) where
  cs : List (CEntry V) := []
  ds : List (Nat × List V) := []
  as : List Nat := []
  store : List V := []
  chash : Nat → Option Nat := fun _ => none
  viol : Bool := false
  seen : List V := []
  inits : List V
  time : Nat := 0

variable (G : PGraph V)

/-- models src/LTL/Algorithm/TarjanModelChecker.cpp:161-170: walking down a chain of the hash table.  The fuel is the
size of `cstack`, positions decrease along a chain. -/
def find (cs : List (CEntry V)) (v : V) : Nat → Option Nat → Option Nat
  | _, none => none
  | 0, some _ => none
  | n + 1, some p =>
    match cs[p]? with
    | none => none
    | some e => if e.id = v then some p else find cs v n e.next

/-- models src/LTL/Algorithm/TarjanModelChecker.cpp:209-226 (`push`) -/
def push (s : St V) (v : V) : St V :=
  { s with
    cs := s.cs ++ [⟨s.cs.length, v, s.chash (G.hash v)⟩]
    chash := fun h => if h = G.hash v then some s.cs.length else s.chash h
    ds := (s.cs.length, G.succ s.time v) :: s.ds
    as := if G.acc v then s.cs.length :: s.as else s.as
    viol := s.viol || (G.acc v && G.inv v) }

/-- The field `_lowlink` of an entry of `cstack`. -/
def lowOf (cs : List (CEntry V)) (p : Nat) : Nat := match cs[p]? with | some e => e.low | none => 0

/-- Assignment to the field `_lowlink`. -/
def setLow (cs : List (CEntry V)) (p : Nat) (l : Nat) : List (CEntry V) :=
  match cs[p]? with | some e => cs.set p { e with low := l } | none => cs

/-- models src/LTL/Algorithm/TarjanModelChecker.cpp:269 -/
def accLoop (as : List Nat) (to : Nat) : Bool := match as with | [] => false | a :: _ => decide (to ≤ a)

/-- models src/LTL/Algorithm/TarjanModelChecker.cpp:260-278 (`update`); `lowTo` is the value read from
`cstack[to]._lowlink` (when `pop` has just removed that entry, this reads the slot behind the end of the stack,
which still contains the value). -/
def update (s : St V) (to lowTo : Nat) : St V :=
  match s.ds with
  | [] => s
  | (fr, _) :: _ =>
    if lowTo ≤ lowOf s.cs fr then
      { s with viol := accLoop s.as to, cs := setLow s.cs fr lowTo }
    else s

/-- models src/LTL/Algorithm/TarjanModelChecker.cpp:250-257 (`popCStack`), called while `cstack` has more than `p`
entries -/
def popC (s : St V) (p : Nat) : Nat → St V
  | 0 => s
  | n + 1 =>
    if p < s.cs.length then
      match s.cs[s.cs.length - 1]? with
      | none => s
      | some e => popC { s with
          store := e.id :: s.store
          chash := fun h => if h = G.hash e.id then e.next else s.chash h
          cs := s.cs.dropLast } p n
    else s

/-- models src/LTL/Algorithm/TarjanModelChecker.cpp:239-241 -/
def popA (as : List Nat) (p : Nat) : List Nat := match as with | [] => [] | a :: as => if p = a then as else a :: as

/-- models src/LTL/Algorithm/TarjanModelChecker.cpp:228-248 (`pop`) -/
def pop (s : St V) : St V :=
  match s.ds with
  | [] => s
  | (p, _) :: ds =>
    let low := lowOf s.cs p
    let s1 := { s with ds := ds }
    let s2 := if low = p then popC G s1 p s1.cs.length else s1
    update { s2 with as := popA s2.as p } p low

/-- models src/LTL/Algorithm/TarjanModelChecker.cpp:147-183: one successor -/
def visit (s : St V) (w : V) : St V :=
  if G.bnd w then
    let s1 := { s with seen := w :: s.seen }
    match find s1.cs w s1.cs.length (s1.chash (G.hash w)) with
    | some p => update s1 p (lowOf s1.cs p)
    | none => if s1.store.contains w then s1 else push G s1 w
  else s

/-- models src/LTL/Algorithm/TarjanModelChecker.cpp:125-128: one initial state -/
def start (s : St V) (v : V) : St V :=
  if G.bnd v && !s.seen.contains v then push G { s with seen := v :: s.seen } v else s

/-- models src/LTL/Algorithm/TarjanModelChecker.cpp:123-184: one round of the loops of `compute`; `none`: finished -/
def step (s : St V) : Option (St V) :=
  if s.viol then none
  else match s.ds with
    | [] =>
      match s.inits with
      | [] => none
      | v :: vs => some { start G { s with inits := vs } v with time := s.time + 1 }
    | (_, []) :: _ => some { pop G s with time := s.time + 1 }
    | (p, w :: ws) :: ds => some { visit G { s with ds := (p, ws) :: ds } w with time := s.time + 1 }

/-- At most `fuel` rounds; the flag tells whether the search has finished. -/
def run : Nat → St V → St V × Bool
  | 0, s => (s, (step G s).isNone)
  | n + 1, s =>
    match step G s with
    | none => (s, true)
    | some s' => run n s'

/-- models src/LTL/Algorithm/TarjanModelChecker.cpp:105-202 (`compute`): the answer, if the search ends within
`fuel` rounds. -/
def check (inits : List V) (fuel : Nat) : Option Bool :=
  match run G fuel { inits := inits } with
  | (s, true) => some (!s.viol)
  | (_, false) => none

end Tarjan
end LTL
end Verif
