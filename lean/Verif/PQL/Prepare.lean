import Verif.PQL.Syntax
import Verif.Search.Model

/-!
# From a query to a reachability goal and back to a verdict

Models `src/PetriEngine/PQL/PredicateCheckers.cpp` (`isReachability`),
`src/PetriEngine/PQL/PrepareForReachability.cpp`, the loop of `src/main.cpp` that prepares the
queries and `src/PetriEngine/Reachability/ResultPrinter.cpp` (`handle`).
-/

namespace Verif
namespace PQL
open Search

mutual
/-- models src/PetriEngine/PQL/PredicateCheckers.cpp:88-226 (`IsNotReachabilityVisitor`; the
argument is `_is_nested`). -/
def notReach (nested : Bool) : Cond → Bool
  | .bool _ => !nested
  | .dead => !nested
  | .cmp _ _ _ => !nested
  | .cc _ _ => !nested
  | .not c => notReach nested c
  | .and cs => if nested then notReachAny cs else true
  | .or cs => if nested then notReachAny cs else true
  | .EF c => if nested then true else notReach true c
  | .AG c => if nested then true else notReach true c
  | .E (.F c) => if nested then true else notReach true c
  | .A (.G c) => if nested then true else notReach true c
  | .E _ => true
  | .A _ => true
  | .EX _ | .AX _ | .AF _ | .EG _ | .EU _ _ | .AU _ _ => true
  | .X _ | .F _ | .G _ | .U _ _ => true
/-- the loop over the operands of a conjunction or disjunction below a quantifier -/
def notReachAny : List Cond → Bool
  | [] => false
  | c :: cs => notReach true c || notReachAny cs
end

/-- models src/PetriEngine/PQL/PredicateCheckers.cpp:76-85. -/
def isReachability (c : Cond) : Bool := !notReach false c

/-- What `prepareForReachability` does: it returns a goal (an object made for the purpose or a
subformula of the query) after setting its invariant flag, or a null pointer, or it dereferences a
null pointer, or it throws. -/
inductive Prep
  | goal (c : Cond) (fresh inv : Bool)
  | null
  | ub
  | thrown

/-- models src/PetriEngine/PQL/PrepareForReachability.cpp:26-131 (the first argument is
`_negated`). -/
def prepare (neg : Bool) : Cond → Prep
  | .EF c => .goal c false neg
  | .AG c => .goal (.not c) true (!neg)
  | .A (.G c) => .goal (.not c) true (!neg)
  | .E (.F c) => .goal c false neg
  | .A _ => .ub
  | .E _ => .ub
  | .not c => prepare (!neg) c
  | .X _ | .F _ | .G _ => .thrown
  | .bool _ | .dead | .cmp _ _ _ | .cc _ _ | .and _ | .or _ => .null
  | .EX _ | .AX _ | .AF _ | .EG _ | .EU _ _ | .AU _ _ | .U _ _ => .null

/-- The condition objects that carry invariant flags.  After query rewriting the constants are shared
by all queries (src/PetriEngine/PQL/Expressions.cpp:156-158, PushNegation.cpp:687-688, 674-684); every
other goal belongs to one query. -/
inductive Obj
  | deadlock
  | const (b : Bool)
  | own (i : Nat)
deriving DecidableEq

/-- The object that is the goal of query `i`. -/
def goalObj (i : Nat) (fresh : Bool) (c : Cond) : Obj :=
  if fresh then .own i
  else match c with
    | .dead => .deadlock
    | .bool b => .const b
    | _ => .own i

/-- The goals and the invariant flags of the objects (include/PetriEngine/PQL/PQL.h:164, 198-205). -/
structure Prepared where
  goals : List (Cond × Obj)
  inv : Obj → Bool

/-- models src/main.cpp:509-513: all queries are prepared, in order (those with a known result are
left alone).  `none`: a null pointer is dereferenced, now or when the goal is evaluated, or an
exception ends the program. -/
def prepareLoop (results : Nat → Answer) : Nat → List Cond → Prepared → Option Prepared
  | _, [], P => some P
  | i, q :: qs, P =>
    if results i = .unknown then
      match prepare false q with
      | .goal c fresh inv =>
        prepareLoop results (i + 1) qs
          { goals := P.goals ++ [(c, goalObj i fresh c)],
            inv := fun o => if o = goalObj i fresh c then inv else P.inv o }
      | .null => none
      | .ub => none
      | .thrown => none
    else prepareLoop results (i + 1) qs { P with goals := P.goals ++ [(q, .own i)] }

/-- The prepared queries; flags are false initially. -/
def prepareAll (results : Nat → Answer) (qs : List Cond) : Option Prepared :=
  prepareLoop results 0 qs ⟨[], fun _ => false⟩

/-- Options read by the printer. -/
structure PrintOpts where
  cpnOverApprox : Bool := false
  statespace : Bool := false

/-- The change of a search result by the invariant flag. -/
def flipAnswer (inv : Bool) : Answer → Answer
  | .satisfied => if inv then .notSatisfied else .satisfied
  | .notSatisfied => if inv then .satisfied else .notSatisfied
  | a => a

/-- models src/PetriEngine/Reachability/ResultPrinter.cpp:39-56: the result after the
over-approximation has been taken into account (queries that are not upper-bound queries). -/
def approxAnswer (o : PrintOpts) (inv : Bool) (r : Answer) : Answer :=
  if o.cpnOverApprox then
    match r with
    | .satisfied => .unknown
    | .notSatisfied => if inv then .satisfied else .notSatisfied
    | a => a
  else r

/-- models src/PetriEngine/Reachability/ResultPrinter.cpp:22-162 (`handle` for queries that are
not upper-bound queries): the result returned, and the verdict printed if one is. -/
def printerHandle (o : PrintOpts) (inv : Bool) (r : Answer) : Answer × Option Answer :=
  if r = .unknown then (.unknown, none)
  else
    let retval := approxAnswer o inv r
    if o.cpnOverApprox = true ∧ retval = .unknown then (.ignore, none)
    else if o.statespace = false ∧ retval ≠ .unknown then
      match r with
      | .satisfied => (flipAnswer inv r, some (flipAnswer inv r))
      | .notSatisfied => (flipAnswer inv r, some (flipAnswer inv r))
      | _ => (retval, some retval)
    else (.satisfied, none)

end PQL
end Verif
