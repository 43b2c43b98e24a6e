import Verif.PQL.Prepare

/-!
# Splitting of CTL queries

Models `src/CTL/CTLEngine.cpp:110-270` (`ResultHandler`, `solveLogicalCondition`,
`recursiveSolve`): boolean combinations are taken apart, reachability queries are given to the
reachability search and everything else to the engines for CTL.
-/

namespace Verif
namespace CTL
open PQL Search

/-- The engines: `search1` is the answer of the reachability search for one goal; `search` the results
vector of the search for the goals of a logical condition (conjunction or not; goals with the sign
`lstate < 0`); `ctl` the answer of the CTL or LTL engine for any other query. -/
structure Engines where
  search1 : Cond → Answer
  search : Bool → List (Cond × Bool) → List Answer
  ctl : Cond → Bool

/-- models src/CTL/CTLEngine.cpp:110-143 (`ResultHandler::handle`): the result stored and whether the
search stops. -/
def resultHandle (conj neg : Bool) (r : Answer) : Answer × Bool :=
  let r' := match r with
    | .satisfied => if neg then .notSatisfied else .satisfied
    | .notSatisfied => if neg then .satisfied else .notSatisfied
    | a => a
  (r', if conj then r' = .notSatisfied else r' = .satisfied)

def isNot : Cond → Bool
  | .not _ => true
  | _ => false

/-- models src/CTL/CTLEngine.cpp:152-160: the operands given to the reachability search, with
`lstate < 0`.  `none`: `prepareForReachability` yields no goal. -/
def reachOps : List Cond → Option (List (Cond × Bool))
  | [] => some []
  | c :: cs =>
    if isReachability c then
      match prepare false c with
      | .goal g _ _ => (reachOps cs).map ((g, isNot c) :: ·)
      | _ => none
    else reachOps cs

/-- models src/CTL/CTLEngine.cpp:184-199: looks for a result that decides the whole condition. -/
def decided (conj : Bool) : List Answer → Bool
  | [] => false
  | r :: rs =>
    if r = .unknown then decided conj rs
    else if (decide (r = .satisfied)) ^^ conj then true
    else decided conj rs

mutual
/-- models src/CTL/CTLEngine.cpp:228-270 (`recursiveSolve`; the invariant flag of a query is not set
here, so the final `xor query->isInvariant()` has no effect). -/
def recursiveSolve (O : Engines) : Cond → Option Bool
  | .not c => (recursiveSolve O c).map (!·)
  | .and cs =>
    match reachOps cs with
    | none => none
    | some gs => if decided true (O.search true gs) then some false else solveRest O true cs
  | .or cs =>
    match reachOps cs with
    | none => none
    | some gs => if decided false (O.search false gs) then some true else solveRest O false cs
  | .bool b => solveOther O (.bool b)
  | .dead => solveOther O .dead
  | .cmp op a b => solveOther O (.cmp op a b)
  | .cc l n => solveOther O (.cc l n)
  | .EX c => solveOther O (.EX c)
  | .AX c => solveOther O (.AX c)
  | .EF c => solveOther O (.EF c)
  | .AF c => solveOther O (.AF c)
  | .EG c => solveOther O (.EG c)
  | .AG c => solveOther O (.AG c)
  | .EU c d => solveOther O (.EU c d)
  | .AU c d => solveOther O (.AU c d)
  | .E c => solveOther O (.E c)
  | .A c => solveOther O (.A c)
  | .X c => solveOther O (.X c)
  | .F c => solveOther O (.F c)
  | .G c => solveOther O (.G c)
  | .U c d => solveOther O (.U c d)
/-- models src/CTL/CTLEngine.cpp:241-270: neither negation, conjunction nor disjunction. -/
def solveOther (O : Engines) (c : Cond) : Option Bool :=
  if isReachability c then
    match prepare false c with
    | .goal g _ _ => some (decide (O.search1 g = .satisfied))
    | _ => none
  else some (O.ctl c)
/-- models src/CTL/CTLEngine.cpp:202-211: the operands that are not reachability queries. -/
def solveRest (O : Engines) (conj : Bool) : List Cond → Option Bool
  | [] => some conj
  | c :: cs =>
    if isReachability c then solveRest O conj cs
    else match recursiveSolve O c with
      | none => none
      | some b => if b ^^ conj then some (!conj) else solveRest O conj cs
end

end CTL
end Verif
