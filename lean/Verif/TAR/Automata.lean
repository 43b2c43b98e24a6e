import Verif.TAR.Range
import Verif.Net.Flat

/-!
# Model: the interpolant automaton of trace abstraction refinement

Models `include/PetriEngine/TAR/TARAutomata.h`, `include/PetriEngine/TAR/TraceSet.h` and
`src/PetriEngine/TAR/TraceSet.cpp`.  A `std::set<size_t>` is a list read as a set: the code only asks for
membership and inclusion and only inserts and erases.  The simulators of a state are stored by the code and
never read; they are left out.
-/

namespace Verif
namespace TAR

/-- models include/PetriEngine/TAR/TARAutomata.h:30-33 (`AutomataEdge`): the symbol, 0 being the query and
`t + 1` the transition `t`, and the targets. -/
structure AEdge where
  sym : Nat
  to : List Nat
deriving DecidableEq, Repr

/-- models include/PetriEngine/TAR/TARAutomata.h:71-80: `std::lower_bound` followed by an
insertion unless the value is there. -/
def insSorted : List Nat → Nat → List Nat
  | [], i => [i]
  | x :: xs, i => if x < i then x :: insSorted xs i else if x = i then x :: xs else i :: x :: xs

/-- models include/PetriEngine/TAR/TARAutomata.h:66-81 (`AutomataEdge::add`): the false state absorbs the
other targets. -/
def AEdge.addTo (to : List Nat) (i : Nat) : List Nat :=
  if to.head? = some 0 then to
  else if i = 0 then [0]
  else insSorted to i

/-- models include/PetriEngine/TAR/TARAutomata.h:105-115 (`AutomataState`). -/
structure AState where
  interpolant : PRVec
  edges : List AEdge := []
  simulates : List Nat := []
deriving DecidableEq, Repr

/-- models include/PetriEngine/TAR/TARAutomata.h:148-169 (`AutomataState::add_edge`): the edges are sorted by
symbol. -/
def addEdgeL : List AEdge → Nat → Nat → List AEdge
  | [], e, to => [⟨e, AEdge.addTo [] to⟩]
  | x :: xs, e, to =>
    if x.sym < e then x :: addEdgeL xs e to
    else if x.sym = e then ⟨x.sym, AEdge.addTo x.to to⟩ :: xs
    else ⟨e, AEdge.addTo [] to⟩ :: x :: xs

def AState.addEdge (s : AState) (e to : Nat) : AState := { s with edges := addEdgeL s.edges e to }

/-- models include/PetriEngine/TAR/TARAutomata.h:205-210 (`first_edge`) and the loop of
src/PetriEngine/TAR/TraceSet.cpp:288-299: the targets under a symbol. -/
def targets : List AEdge → Nat → List Nat
  | [], _ => []
  | x :: xs, e => if x.sym < e then targets xs e else if x.sym = e then x.to else []

/-- models include/PetriEngine/TAR/TraceSet.h:46-50 (data members); `_intmap` maps the predicate of every
state to its index and is represented by the states themselves. -/
structure TraceSet where
  states : List AState
  initial : List Nat
deriving DecidableEq, Repr

namespace TraceSet

def state (s : TraceSet) (i : Nat) : AState := s.states.getD i ⟨[], [], []⟩

/-- The predicate of state `i`. -/
def pred (s : TraceSet) (i : Nat) : PRVec := (s.state i).interpolant

/-- Insertion in a `std::set`. -/
def ins (l : List Nat) (i : Nat) : List Nat := if i ∈ l then l else l ++ [i]

def insAll (l : List Nat) (is : List Nat) : List Nat := is.foldl ins l

/-- models src/PetriEngine/TAR/TraceSet.cpp:48-52: the "false" predicate, all places empty. -/
def falseRange (nplaces : Nat) : PRVec := (List.range nplaces).map fun p => ⟨p, ⟨0, 0⟩⟩

/-- models src/PetriEngine/TAR/TraceSet.cpp:245-260 (`computeSimulation`) for the state `x` at `index`, not
yet among the others: the states it simulates. -/
def simOf (x : AState) : List AState → Nat → List Nat
  | [], _ => []
  | o :: os, i =>
    if (PRVec.compare o.interpolant x.interpolant).1 then i :: simOf x os (i + 1) else simOf x os (i + 1)

/-- models src/PetriEngine/TAR/TraceSet.cpp:261-267: the other states that simulate the new one. -/
def simBack (x : AState) (index : Nat) (os : List AState) : List AState :=
  os.map fun o =>
    if (PRVec.compare o.interpolant x.interpolant).2 then { o with simulates := insSorted o.simulates index } else o

/-- `_states.emplace_back(predicate); computeSimulation(astate)`. -/
def push (s : TraceSet) (p : PRVec) : TraceSet :=
  let index := s.states.length
  let x : AState := ⟨p, [], []⟩
  { s with states := simBack x index s.states ++ [{ x with simulates := simOf x s.states 0 }] }

/-- models src/PetriEngine/TAR/TraceSet.cpp:45-77 (`init`): state 0 is false, state 1 is true, and
`computeSimulation(0)` compares the two. -/
def init (nplaces : Nat) : TraceSet :=
  let f : AState := ⟨falseRange nplaces, [], []⟩
  let t : AState := ⟨[], [], []⟩
  let r := PRVec.compare t.interpolant f.interpolant
  { states := [{ f with simulates := if r.1 then [1] else [] },
               { t with simulates := if r.2 then insSorted t.simulates 0 else t.simulates }],
    initial := [1] }

/-- models src/PetriEngine/TAR/TraceSet.cpp:88-95 (`minimize`). -/
def minimize (s : TraceSet) (org : List Nat) : List Nat :=
  org.filter fun e => !(org.any fun i => (s.state i).simulates.contains e)

/-- models src/PetriEngine/TAR/TraceSet.cpp:97-102 (`copyNonChanged`). -/
def copyNonChanged (s : TraceSet) (src : List Nat) (mods : List Nat) (to : List Nat) : List Nat :=
  src.foldl (fun to p => if (s.pred p).restricts mods then to else ins to p) to

/-- models src/PetriEngine/TAR/TraceSet.cpp:104-111 (`maximize`). -/
def maximize (s : TraceSet) (org : List Nat) : List Nat :=
  org.foldl (fun mx i => insAll mx (s.state i).simulates) (ins org 1)

/-- models src/PetriEngine/TAR/TraceSet.cpp:274-303 (`follow`): `none` when the automaton accepts. -/
def follow (s : TraceSet) (sym : Nat) : List Nat → List Nat → Option (List Nat)
  | [], next => some next
  | i :: is, next =>
    if i = 0 then follow s sym is next
    else
      let to := targets (s.state i).edges sym
      if to.head? = some 0 then none
      else follow s sym is (insAll next to)

/-- models src/PetriEngine/TAR/TraceSet.cpp:188-200 and 216-225: the tokens moved by the first arc of the
other side with the same place. -/
def otherTokens (l : List Invariant) (p : Nat) : Int :=
  match l.find? (fun i => i.place == p) with
  | some i => i.tokens
  | none => 0

/-- models src/PetriEngine/TAR/TraceSet.cpp:201-204 and 226-229: the change of a place is compatible with its
range. -/
def changeOK (r : Range) (change : Int) : Bool :=
  !(decide (change < 0) && !r.noLower) && !(decide (change > 0) && !r.noUpper)

/-- The outcome of a loop over the arcs: `ok`, `changes`, and whether an edge to the false state was added. -/
structure Self where
  ok : Bool := true
  changes : Bool := false
  dead : Bool := false
deriving DecidableEq, Repr

/-- models src/PetriEngine/TAR/TraceSet.cpp:179-207: the loop over the preset. -/
def selfPre (v : PRVec) (post : List Invariant) : List Invariant → Self → Self
  | [], s => s
  | i :: is, s =>
    match v.find? i.place with
    | none => if s.ok then selfPre v post is s else s
    | some r =>
      let s := { s with changes := true, dead := s.dead || decide (i.tokens > r.upper),
                        ok := s.ok && changeOK r (otherTokens post i.place - i.tokens) }
      if s.ok then selfPre v post is s else s

/-- models src/PetriEngine/TAR/TraceSet.cpp:209-232: the loop over the postset. -/
def selfPost (v : PRVec) (pre : List Invariant) : List Invariant → Self → Self
  | [], s => s
  | i :: is, s =>
    match v.find? i.place with
    | none => if s.ok then selfPost v pre is s else s
    | some r =>
      let s := { s with changes := true, ok := s.ok && changeOK r (i.tokens - otherTokens pre i.place) }
      if s.ok then selfPost v pre is s else s

def selfLoop (N : FlatNet) (v : PRVec) (t : Nat) : Self :=
  selfPost v (N.preset t) (N.postset t) (selfPre v (N.postset t) (N.preset t) {})

/-- models src/PetriEngine/TAR/TraceSet.cpp:176-238: the edges a new state gets for its transitions. -/
def selfEdges (N : FlatNet) (v : PRVec) (astate : Nat) : Nat → Nat → List AEdge → List AEdge
  | 0, _, es => es
  | n + 1, t, es =>
    let r := selfLoop N v t
    let es := if r.dead then addEdgeL es (t + 1) 0 else es
    let es := if r.changes && r.ok then addEdgeL es (t + 1) astate else es
    selfEdges N v astate n (t + 1) es

/-- models src/PetriEngine/TAR/TraceSet.cpp:157-175: the initial marking satisfies the predicate. -/
def initOK (m0 : Nat → Nat) (v : PRVec) : Bool :=
  v.all fun e => !(decide (m0 e.place > e.range.upper) || decide (m0 e.place < e.range.lower))

/-- The state with a given predicate: the lookup in `_intmap`, whose order `operator<` identifies equal
vectors only (`C36_vector_lt`). -/
def lookup (s : TraceSet) (v : PRVec) : Option Nat := s.states.findIdx? fun x => x.interpolant == v

/-- models src/PetriEngine/TAR/TraceSet.cpp:113-243 (`stateForPredicate`). -/
def stateFor (N : FlatNet) (m0 : Nat → Nat) (s : TraceSet) (predicate : PRVec) : TraceSet × Nat :=
  let v := predicate.compact
  if v.isTrue then (s, 1)
  else if v.isFalse N.nplaces then (s, 0)
  else match s.lookup v with
    | some i => (s, i)
    | none =>
      let astate := s.states.length
      let s := s.push v
      let s := { s with
        initial := if initOK m0 v then ins s.initial astate else s.initial
        states := s.states.modify astate fun x => { x with edges := selfEdges N v astate N.ntransitions 0 x.edges } }
      (s, astate)

def addEdge (s : TraceSet) (i e to : Nat) : TraceSet := { s with states := s.states.modify i fun x => x.addEdge e to }

/-- models src/PetriEngine/TAR/TraceSet.cpp:329-351: the loop of `addTrace`; `last` is the state of the
predicate of the first entry. -/
def addFrom (N : FlatNet) (m0 : Nat → Nat) : TraceSet → Nat → List (PRVec × Nat) → TraceSet
  | s, _, [] => s
  | s, last, [x] => s.addEdge last x.2 0
  | s, last, x :: y :: rest =>
    let r := stateFor N m0 s y.1
    addFrom N m0 (r.1.addEdge last x.2 r.2) r.2 (y :: rest)

/-- models src/PetriEngine/TAR/TraceSet.cpp:314-354 (`addTrace`). -/
def addTrace (N : FlatNet) (m0 : Nat → Nat) (s : TraceSet) : List (PRVec × Nat) → TraceSet
  | [] => s
  | x :: rest =>
    let r := stateFor N m0 s x.1
    addFrom N m0 r.1 r.2 (x :: rest)

end TraceSet
end TAR
end Verif
