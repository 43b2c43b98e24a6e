import Verif.PQL.Semantics

/-!
# What the queries are asked before the net is reduced

Models the predicate checkers of src/PetriEngine/PQL/PredicateCheckers.cpp and the places counted by
`PetriEngine::PQL::analyze` with a `QueryPlaceAnalysisContext`.  From them `PetriNetBuilder::reduce`
(src/PetriEngine/PetriNetBuilder.cpp:545-579) and `reduceColored` (src/VerifyPN.cpp:75-98) compute the flags that
switch the reduction rules on and off.  The visitors never stop early; `_condition_found` is only ever set, so that it
is modelled as the second component of what a visit returns.  HyperLTL is not modelled.
-/

namespace Verif
namespace PQL

mutual
/-- models src/PetriEngine/PQL/Analyze.cpp:36-100,144-152 with include/PetriEngine/Reducer.h:58-72: the place is
counted when the expression is resolved. -/
def Expr.uses (p : Nat) : Expr → Bool
  | .lit _ => false
  | .id q => p == q
  | .plus _ is es => is.contains p || usesE p es
  | .mul _ is es => is.contains p || usesE p es
  | .sub e es => e.uses p || usesE p es
  | .minus e => e.uses p
def usesE (p : Nat) : List Expr → Bool
  | [] => false
  | e :: es => e.uses p || usesE p es
end

mutual
/-- models src/PetriEngine/PQL/Analyze.cpp:227-263,295-307 with include/PetriEngine/Reducer.h:58-72: the place is
counted when the condition is resolved (`getQueryPlaceCount` is not 0). -/
def Cond.uses (p : Nat) : Cond → Bool
  | .bool _ => false
  | .dead => false
  | .cmp _ a b => a.uses p || b.uses p
  | .cc l _ => l.any fun c => c.place == p
  | .not c => c.uses p
  | .and cs => usesC p cs
  | .or cs => usesC p cs
  | .EX c | .AX c | .EF c | .AF c | .EG c | .AG c | .E c | .A c | .X c | .F c | .G c => c.uses p
  | .EU c d | .AU c d | .U c d => c.uses p || d.uses p
def usesC (p : Nat) : List Cond → Bool
  | [] => false
  | c :: cs => c.uses p || usesC p cs
end

mutual
/-- models include/PetriEngine/PQL/PredicateCheckers.h:186-191 (`ContainsDeadlockVisitor`); also `setHasDeadlock`,
src/PetriEngine/PQL/Analyze.cpp:265-267. -/
def Cond.hasDead : Cond → Bool
  | .dead => true
  | .bool _ | .cmp _ _ _ | .cc _ _ => false
  | .not c => c.hasDead
  | .and cs => hasDeadL cs
  | .or cs => hasDeadL cs
  | .EX c | .AX c | .EF c | .AF c | .EG c | .AG c | .E c | .A c | .X c | .F c | .G c => c.hasDead
  | .EU c d | .AU c d | .U c d => c.hasDead || d.hasDead
def hasDeadL : List Cond → Bool
  | [] => false
  | c :: cs => c.hasDead || hasDeadL cs
end

mutual
/-- models src/PetriEngine/PQL/PredicateCheckers.cpp:316-342 (`containsNext`): below the operators found nothing more
is visited. -/
def Cond.next : Cond → Bool
  | .X _ | .EX _ | .AX _ => true
  | .bool _ | .dead | .cmp _ _ _ | .cc _ _ => false
  | .not c => c.next
  | .and cs => nextL cs
  | .or cs => nextL cs
  | .EF c | .AF c | .EG c | .AG c | .E c | .A c | .F c | .G c => c.next
  | .EU c d | .AU c d | .U c d => c.next || d.next
def nextL : List Cond → Bool
  | [] => false
  | c :: cs => c.next || nextL cs
end

mutual
/-- models src/PetriEngine/PQL/PredicateCheckers.cpp:26-50 (`NestedDeadlockVisitor`).  The argument is
`_nested_in_logical_condition`; the result is that flag after the visit, and whether the condition was found. -/
def Cond.nestedV (b : Bool) : Cond → Bool × Bool
  | .dead => (b, b)
  | .bool _ | .cmp _ _ _ | .cc _ _ => (b, false)
  | .not c => c.nestedV b
  | .and cs => (false, nestedVL true cs)
  | .or cs => (false, nestedVL true cs)
  | .EX c | .AX c | .EF c | .AF c | .EG c | .AG c | .E c | .A c | .X c | .F c | .G c => c.nestedV b
  | .EU c d | .AU c d | .U c d =>
    let r := c.nestedV b
    let s := d.nestedV r.1
    (s.1, r.2 || s.2)
/-- the operands of a conjunction or disjunction -/
def nestedVL (b : Bool) : List Cond → Bool
  | [] => false
  | c :: cs => (c.nestedV b).2 || nestedVL (c.nestedV b).1 cs
end

/-- models src/PetriEngine/PQL/PredicateCheckers.cpp:32-36 (`hasNestedDeadlock`). -/
def Cond.nestedDead (c : Cond) : Bool := (c.nestedV false).2

mutual
/-- models src/PetriEngine/PQL/PredicateCheckers.cpp:225-314 (`IsLoopSensitiveVisitor`).  The argument is `_negated`;
the result is that flag after the visit, and whether the condition was found.  The flag is turned by negations and by
the path quantifier `A`, and never turned back. -/
def Cond.loopV (b : Bool) : Cond → Bool × Bool
  | .bool _ | .cmp _ _ _ | .cc _ _ => (b, false)
  | .dead => (b, true)
  | .not c => c.loopV (!b)
  | .A c => c.loopV (!b)
  | .and cs => loopVL b cs
  | .or cs => loopVL b cs
  | .EX _ | .AX _ | .EG _ | .AF _ | .AU _ _ | .E _ | .X _ | .F _ | .G _ => (b, true)
  | .EF c | .AG c => c.loopV b
  | .EU c d | .U c d =>
    if b then (b, true)
    else
      let r := c.loopV b
      let s := d.loopV r.1
      (s.1, r.2 || s.2)
/-- the operands of a conjunction or disjunction -/
def loopVL (b : Bool) : List Cond → Bool × Bool
  | [] => (b, false)
  | c :: cs =>
    let r := c.loopV b
    let s := loopVL r.1 cs
    (s.1, r.2 || s.2)
end

/-- models src/PetriEngine/PQL/PredicateCheckers.cpp:219-223 (`isLoopSensitive`). -/
def Cond.loopSens (c : Cond) : Bool := (c.loopV false).2

end PQL
end Verif
