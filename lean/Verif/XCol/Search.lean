import Verif.XCol.Gen
import Verif.XCol.Encoder

/-!
# The search of the explicit coloured engine

Models `include/PetriEngine/ExplicitColored/ColoredPetriNetState.h`, the functions `_nextFixed` and `_nextEven` of
`include/PetriEngine/ExplicitColored/SuccessorGenerator/ColoredSuccessorGenerator.h`,
`include/PetriEngine/ExplicitColored/FireabilityChecker.h`, the compiled propositions of
`src/PetriEngine/ExplicitColored/ExpressionCompilers/ExplicitQueryPropositionCompiler.cpp` and
`src/PetriEngine/ExplicitColored/Algorithms/ExplicitWorklist.cpp`.
-/

namespace Verif
namespace XCol
open Colored

/-- models ColoredSuccessorGenerator.h:58 (`_constraintData`): entries by key. -/
abbrev Cache := Nat → Option CData

def Cache.put (c : Cache) (k : Nat) (d : Option CData) : Cache := fun j => if j = k then d else c j

/-- models ColoredSuccessorGenerator.h:44-48 (`shrinkState`): the keys between two bounds are erased. -/
def Cache.shrink (c : Cache) (id : Nat) : Cache :=
  fun j => if getKey id 0 ≤ j ∧ j ≤ getKey id 0xFFFF then none else c j

/-- `findNextValidBinding` with the cache of all states. -/
def findIn (X : XNet) (m : XMark) (id t : Nat) (x : XTrans) (bid : Nat) (c : Cache) : Cache × Option (Nat × Bind) :=
  ((c.put (getKey id t) (findNext X m x bid Bind.none (c (getKey id t))).1),
    (findNext X m x bid Bind.none (c (getKey id t))).2)

/-! ## Propositions -/

/-- models ExplicitQueryPropositionCompiler.cpp:104-147 (`QueryValue`). -/
inductive QVal
  | place (p : Nat)
  | lit (k : Int)
deriving DecidableEq, Repr

/-- models ExplicitQueryPropositionCompiler.cpp:134-140 (`getCount`); literals are converted from `int` to `uint32_t`
(122). -/
def QVal.get (m : XMark) : QVal → Int
  | .place p => (m p).card
  | .lit k => k % 2 ^ 32

/-- models the classes of ExplicitQueryPropositionCompiler.cpp:26-282; conjunctions and disjunctions have two parts
here. -/
inductive XQ
  | and (a b : XQ)
  | or (a b : XQ)
  | not (a : XQ)
  | lt (x y : QVal)
  | le (x y : QVal)
  | eq (x y : QVal)
  | ne (x y : QVal)
  | dead
  | fire (t : Nat)
deriving DecidableEq, Repr

/-- models FireabilityChecker.h:12-18 (`canFire`); the transition exists (its name was looked up). -/
def canFire (X : XNet) (m : XMark) (id t : Nat) (c : Cache) : Cache × Bool :=
  match X.trans[t]? with
  | none => (c, false)
  | some x => ((findIn X m id t x 0 c).1, (findIn X m id t x 0 c).2.isSome)

/-- models FireabilityChecker.h:21-30 (`hasDeadlock`): `n` transitions are left, the next is `t`. -/
def deadLoop (X : XNet) (m : XMark) (id : Nat) : Nat → Nat → Cache → Cache × Bool
  | 0, _, c => (c, true)
  | n + 1, t, c =>
    if (canFire X m id t c).2 then ((canFire X m id t c).1, false) else deadLoop X m id n (t + 1) (canFire X m id t c).1

/-- models the functions `eval` of ExplicitQueryPropositionCompiler.cpp:26-282. -/
def XQ.eval (X : XNet) (m : XMark) (id : Nat) : XQ → Cache → Cache × Bool
  | .and a b, c => if !(a.eval X m id c).2 then ((a.eval X m id c).1, false) else b.eval X m id (a.eval X m id c).1
  | .or a b, c => if (a.eval X m id c).2 then ((a.eval X m id c).1, true) else b.eval X m id (a.eval X m id c).1
  | .not a, c => ((a.eval X m id c).1, !(a.eval X m id c).2)
  | .lt x y, c => (c, decide (x.get m < y.get m))
  | .le x y, c => (c, decide (x.get m ≤ y.get m))
  | .eq x y, c => (c, decide (x.get m = y.get m))
  | .ne x y, c => (c, decide (x.get m ≠ y.get m))
  | .dead, c => deadLoop X m id X.trans.length 0 c
  | .fire t, c => canFire X m id t c

/-! ## States and their successors -/

/-- models the part of ColoredPetriNetState.h:9-55 and 57-127 that remembers what was generated.  `fixed`:
`_currentTransition`, `_currentBinding`.  `even`: `_map` (`none`: the greatest `uint64_t`), `_currentIndex`,
`_completedTransitions`, `_done`. -/
inductive Gen
  | fixed (t bid : Nat)
  | even (map : List (Option Nat)) (idx completed : Nat) (isDone : Bool)
deriving DecidableEq, Repr

/-- The state is done, `shuffle` was set, or a successor was made with a transition and a binding. -/
inductive NextRes
  | done
  | shuffle
  | succ (m : XMark) (t bid : Nat)

/-- models ColoredSuccessorGenerator.h:73-96 (`_nextFixed`): the loop, over the transitions from `t` on. -/
def fixedLoop (X : XNet) (m : XMark) (id : Nat) : List XTrans → Nat → Nat → Cache → Cache × Gen × NextRes
  | [], t, bid, c => (c, .fixed t bid, .done)
  | x :: xs, t, bid, c =>
    match (findIn X m id t x bid c).2 with
    | some (k, b) => ((findIn X m id t x bid c).1, .fixed t (k + 1), .succ (fire m x b) t k)
    | none => fixedLoop X m id xs (t + 1) 0 (findIn X m id t x bid c).1

/-- models ColoredPetriNetState.h:74-94: the loop of `getNextPair`, the index of the first entry from `i` on that is not
the greatest number.  `none`: the end. -/
def firstOpen : List (Option Nat) → Nat → Option (Nat × Nat)
  | [], _ => none
  | none :: l, i => firstOpen l (i + 1)
  | some b :: _, i => some (i, b)

/-- models ColoredSuccessorGenerator.h:99-123 (`_nextEven`) with ColoredPetriNetState.h:74-115 (`getNextPair`,
`updatePair`); `fuel`: the loop, which sets one entry of the map to the greatest number each time round.  At the end of the
map the code reads an entry of `_transitions` that does not exist, whose value is not used. -/
def evenLoop (X : XNet) (m : XMark) (id : Nat) : Nat → List (Option Nat) → Nat → Nat → Bool → Cache → Cache × Gen × NextRes
  | 0, map, idx, n, d, c => (c, .even map idx n d, .done)
  | fuel + 1, map, idx, n, d, c =>
    if d then (c, .even map idx n d, .done)
    else
      match firstOpen (map.drop idx) idx with
      | none => (c, .even map 0 n d, .shuffle)
      | some (t, bid) =>
        match X.trans[t]? with
        | none => (c, .even map idx n d, .done)
        | some x =>
          match (findIn X m id t x bid c).2 with
          | some (k, b) =>
            ((findIn X m id t x bid c).1, .even (map.set t (some (k + 1))) (t + 1) n d, .succ (fire m x b) t k)
          | none =>
            evenLoop X m id fuel (map.set t none) (t + 1) (n + 1) (decide (n + 1 = map.length)) (findIn X m id t x bid c).1

def Gen.next (X : XNet) (m : XMark) (id : Nat) (c : Cache) : Gen → Cache × Gen × NextRes
  | .fixed t bid => fixedLoop X m id (X.trans.drop t) t bid c
  | .even map idx n d => evenLoop X m id (map.length + 1) map idx n d c

/-- A new state (ColoredPetriNetState.h:10-12, 58-66). -/
def Gen.new (X : XNet) (even : Bool) : Gen :=
  if even then .even (List.replicate X.trans.length (some 0)) 0 0 false else .fixed 0 0

/-- models ColoredPetriNetMarking.h:31-35 (`shrink`). -/
def shrinkM (m : XMark) : XMark := fun p => (m p).shrink

/-! ## The search -/

structure XState where
  id : Nat
  m : XMark
  gen : Gen

/-- the multisets of the places -/
def XNet.row (X : XNet) (m : XMark) : List MS := (List.range X.np).map m

/-- the numbers of colours of the places -/
def XNet.sizes (X : XNet) : List Nat := (List.range X.np).map fun p => (X.dims p).prod

def XNet.key (X : XNet) (m : XMark) : List Nat := XCol.key X.sizes (X.row m)

def XNet.fits (X : XNet) (m : XMark) : Bool := complete X.sizes (X.row m)

/-- models the variables of ExplicitWorklist.cpp:78-149 (`_genericSearch`): `passed`, `waiting`, `_fullStatespace` of the
encoder, `_nextId` and `_constraintData` of the generator, `_stateMap` (identity, predecessor, transition, binding). -/
structure SSt where
  passed : List (List Nat)
  waiting : List XState
  full : Bool
  nextId : Nat
  cache : Cache
  map : List (Nat × Nat × Nat × Nat)

/-- what the search finds: whether a state was found, whether all encodings were complete, the state (`_counterExampleId`)
and the map of the states -/
structure SRes where
  found : Bool
  full : Bool
  cex : Nat
  map : List (Nat × Nat × Nat × Nat)

/-- models ExplicitWorklist.cpp:117-137: what is done with a successor. -/
def visit (X : XNet) (q : XQ) (ef even : Bool) (st : SSt) (pred : Nat) (m' : XMark) (t k : Nat) : SRes ⊕ SSt :=
  let m := shrinkM m'
  let full := st.full && X.fits m
  if X.key m ∈ st.passed then .inr { st with full := full, nextId := st.nextId + 1 }
  else
    let e := q.eval X m st.nextId st.cache
    let map := (st.nextId, pred, t, k) :: st.map
    if e.2 = ef then .inl ⟨true, full, st.nextId, map⟩
    else .inr { passed := X.key m :: st.passed, waiting := ⟨st.nextId, m, Gen.new X even⟩ :: st.waiting, full := full
                nextId := st.nextId + 1, cache := e.1, map := map }

/-- models ExplicitWorklist.cpp:102-141: the loop.  `pick i`: the state that the waiting list yields in the `i`th round
(its number modulo the number of states), so that the theorems hold for every order of the list
(Algorithms/ColoredSearchTypes.h: DFS, BFS, RDFS, best first), and the identity of which the cache is shrunk (the code
reads it from a removed state, 106). -/
def searchLoop (X : XNet) (q : XQ) (ef even : Bool) (pick : Nat → Nat × Nat) : Nat → SSt → Option SRes
  | 0, _ => none
  | fuel + 1, st =>
    match st.waiting[(pick fuel).1 % st.waiting.length]? with
    | none => some ⟨false, st.full, 0, st.map⟩
    | some s =>
      let r := s.gen.next X s.m s.id st.cache
      let wl := st.waiting.set ((pick fuel).1 % st.waiting.length) { s with gen := r.2.1 }
      match r.2.2 with
      | .done => searchLoop X q ef even pick fuel
          { st with waiting := st.waiting.eraseIdx ((pick fuel).1 % st.waiting.length), cache := r.1.shrink (pick fuel).2 }
      | .shuffle => searchLoop X q ef even pick fuel { st with waiting := wl, cache := r.1 }
      | .succ m' t k =>
        match visit X q ef even { st with waiting := wl, cache := r.1 } s.id m' t k with
        | .inl r => some r
        | .inr st' => searchLoop X q ef even pick fuel st'

/-- models ExplicitWorklist.cpp:78-149 (`_genericSearch`).  `ef`: the quantifier is EF.  `none`: out of fuel. -/
def search (X : XNet) (q : XQ) (ef even : Bool) (pick : Nat → Nat × Nat) (fuel : Nat) : Option SRes :=
  let e := q.eval X X.init 0 fun _ => none
  if e.2 = ef then some ⟨true, X.fits X.init, 0, []⟩
  else if X.trans.length = 0 then some ⟨false, X.fits X.init, 0, []⟩
  else searchLoop X q ef even pick fuel
    ⟨[X.key X.init], [⟨0, X.init, Gen.new X even⟩], X.fits X.init, 1, e.1, []⟩

inductive Verdict3
  | satisfied | notSatisfied | unknown
deriving DecidableEq, Repr

/-- models ExplicitWorklist.cpp:194-204: the result. -/
def resultOf (ef : Bool) (r : SRes) : Verdict3 :=
  if !r.found && !r.full then .unknown
  else if (!r.found && !ef) || (r.found && ef) then .satisfied else .notSatisfied

/-- models ExplicitWorklist.cpp:205 and ExplicitColoredModelChecker.cpp:289: the answer, true for satisfied. -/
def answer (ef : Bool) (r : SRes) : Bool := decide (resultOf ef r = .satisfied)

/-! ## Traces -/

/-- models the look-up in `_stateMap`, ExplicitWorklist.cpp:61. -/
def lookup (map : List (Nat × Nat × Nat × Nat)) (id : Nat) : Option (Nat × Nat × Nat) :=
  (map.find? fun e => e.1 == id).map (·.2)

/-- models ExplicitWorklist.cpp:57-73 (`getTraceTo`): transitions and bindings, the last first; `fuel`: the loop.
`none`: a state without entry. -/
def traceBack (map : List (Nat × Nat × Nat × Nat)) : Nat → Nat → Option (List (Nat × Nat))
  | 0, id => if id = 0 then some [] else none
  | fuel + 1, id =>
    if id = 0 then some []
    else
      match lookup map id with
      | none => none
      | some (p, t, k) => (traceBack map fuel p).map fun l => (t, k) :: l

/-- models ExplicitWorklist.cpp:72: the trace is reversed.  Predecessors have smaller identities, so that the loop needs at
most `id` rounds. -/
def getTrace (map : List (Nat × Nat × Nat × Nat)) (id : Nat) : Option (List (Nat × Nat)) :=
  (traceBack map id id).map List.reverse

/-- models ExplicitColoredModelChecker.cpp:310-365 (`_translateTraceStep`): the markings along the trace.  The binding is
what `findNextValidBinding` leaves, also when it finds none (the binding is empty then; which values it has does not matter
below). -/
def replay (X : XNet) : XMark → List (Nat × Nat) → Option (List (Nat × Bind × XMark))
  | _, [] => some []
  | m, (t, k) :: l =>
    match X.trans[t]? with
    | none => none
    | some x =>
      match (findNext X m x k Bind.none none).2 with
      | none => none
      | some (_, b) => (replay X (shrinkM (fire m x b)) l).map fun r => (t, b, shrinkM (fire m x b)) :: r

end XCol
end Verif
