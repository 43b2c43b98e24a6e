import Verif.LTL.Product
import Verif.Stubborn.Model

/-!
# The automaton-guided stubborn sets of the LTL engine

Models src/LTL/Stubborn/SafeAutStubbornSet.cpp, include/LTL/Stubborn/SafeAutStubbornSet.h,
include/LTL/SuccessorGeneration/ReachStubProductSuccessorGenerator.h and the class
`InterestingLTLTransitionVisitor` (src/PetriEngine/Stubborn/InterestingTransitionVisitor.cpp:366-426).
-/

namespace Verif
namespace Stubborn
open PQL
namespace Cx
variable (C : Cx) (M : Mem)

/-- one constraint of a conjunction, models src/PetriEngine/Stubborn/InterestingTransitionVisitor.cpp:389-409: all
transitions that move the place towards the bounds (away from them, if `neg`), whether the bound is met or not.  The
tests of the bits `seenPre`, `seenPost` are repeated in `pre` and `post`. -/
def lccOne (neg : Bool) (s : Stub) (c : Cons) : Stub :=
  if !neg then
    let s := if c.lower ≠ 0 then C.pre c.place s else s
    if c.upper ≠ W32 - 1 then C.post c.place s else s
  else
    let s := if c.lower ≠ 0 then C.post c.place s else s
    if c.upper ≠ W32 - 1 then C.pre c.place s else s

/-- models src/PetriEngine/Stubborn/InterestingTransitionVisitor.cpp:386-411 (`CompareConjunction`) -/
def lcc (neg : Bool) (l : List Cons) (s : Stub) : Stub := l.foldl (C.lccOne neg) s

/-- models src/PetriEngine/Stubborn/InterestingTransitionVisitor.cpp:413-425 (`negate_if_satisfied`): the new value of
`negated` for a comparison whose stored result is `r` -/
def lneg (neg : Bool) (r : Res) : Bool := if decide (r = .rTrue) != neg then !neg else neg

mutual
/-- models `InterestingLTLTransitionVisitor` (include/PetriEngine/Stubborn/InterestingTransitionVisitor.h): comparisons
and conjunctions of bounds are its own, everything else is inherited.  Only conditions without temporal operators are
visited. -/
def visitL : Bool → List Nat → Cond → Stub → Stub
  | _, pos, .dead, s => C.visitDead M pos s
  | neg, pos, .cmp op e1 e2, s =>
    C.visitCmp (lneg neg (M.sat pos)) (M.ev (pos ++ [0])) (M.ev (pos ++ [1])) op e1 e2 s
  | neg, _, .cc l n, s => C.lcc (neg != n) l s
  | neg, pos, .not c, s => visitL (!neg) (pos ++ [0]) c s
  | neg, pos, .and cs, s => if !neg then visitLUnsat neg pos 0 cs s else visitLAll neg pos 0 cs s
  | neg, pos, .or cs, s => if !neg then visitLAll neg pos 0 cs s else visitLSat neg pos 0 cs s
  | _, _, _, s => s
/-- the first operand that is not satisfied is visited, from operand `i` on -/
def visitLUnsat : Bool → List Nat → Nat → List Cond → Stub → Stub
  | _, _, _, [], s => s
  | neg, pos, i, c :: cs, s =>
    if M.sat (pos ++ [i]) ≠ .rTrue then visitL neg (pos ++ [i]) c s else visitLUnsat neg pos (i + 1) cs s
/-- the first operand that is satisfied is visited -/
def visitLSat : Bool → List Nat → Nat → List Cond → Stub → Stub
  | _, _, _, [], s => s
  | neg, pos, i, c :: cs, s =>
    if M.sat (pos ++ [i]) = .rTrue then visitL neg (pos ++ [i]) c s else visitLSat neg pos (i + 1) cs s
/-- all operands are visited -/
def visitLAll : Bool → List Nat → Nat → List Cond → Stub → Stub
  | _, _, _, [], s => s
  | neg, pos, i, c :: cs, s => visitLAll neg pos (i + 1) cs (visitL neg (pos ++ [i]) c s)
end

end Cx
end Stubborn

namespace LTL
open PQL Stubborn

/-- the context of the visitors in `SafeAutStubbornSet::prepare`: both are created with `closure = false`
(src/LTL/Stubborn/SafeAutStubbornSet.cpp:41-42) -/
def lcx (N : FlatNet) (m : Nat → Nat) : Cx := { cx N m with cl := false }

/-- the memory of the two conditions after they have been evaluated, models
src/LTL/Stubborn/SafeAutStubbornSet.cpp:44-46; the progress condition has position `0`, the sink condition `1` -/
def safeMem (N : FlatNet) (m : Nat → Nat) (prog sink : Cond) (M : Mem) : Mem :=
  (evalMem (N.deadlocked m) m [1] sink (evalMem (N.deadlocked m) m [0] prog M).2).2

/-- the set `_unsafe`, models src/LTL/Stubborn/SafeAutStubbornSet.cpp:47-55 -/
def unsafeSet (N : FlatNet) (m : Nat → Nat) (prog sink : Cond) (M : Mem) : Stub :=
  (lcx N m).visitL (safeMem N m prog sink M) false [1] sink
    ((lcx N m).visitL (safeMem N m prog sink M) false [0] prog {})

/-- the flag `_bad` (include/LTL/Stubborn/SafeAutStubbornSet.h:68-79): an enabled transition was to be added that is
unsafe.  The code does not put it into the set, but from then on the result is the set of all transitions, so it
makes no difference that it is put there here. -/
def isBad (N : FlatNet) (m : Nat → Nat) (bad : Nat → Bool) (s : Stub) : Bool :=
  (ordering N m).any fun t => s.stub t && bad t

/-- the interesting transitions and their closure, models src/LTL/Stubborn/SafeAutStubbornSet.cpp:65-68 -/
def progSet (N : FlatNet) (m : Nat → Nat) (prog sink : Cond) (M : Mem) : Stub :=
  closure N m (lcx N m).en ((lcx N m).visit (safeMem N m prog sink M) false [0] prog {})

/-- models src/LTL/Stubborn/SafeAutStubbornSet.cpp:24-88 (`prepare`): the set `_stubborn`; `acc` tells whether the
state of the automaton is accepting. -/
def safeSet (N : FlatNet) (m : Nat → Nat) (acc : Bool) (prog sink : Cond) (M : Mem) : Nat → Bool :=
  match ordering N m with
  | [] => fun _ => false
  | [t] => setB (fun _ => false) t
  | t :: _ =>
    if isBad N m (unsafeSet N m prog sink M).stub (progSet N m prog sink M) then fun _ => true
    else if acc && !((ordering N m).any (progSet N m prog sink M).stub) then
      if isBad N m (unsafeSet N m prog sink M).stub
          (closure N m (lcx N m).en (addToStub (progSet N m prog sink M) t)) then fun _ => true
      else (closure N m (lcx N m).en (addToStub (progSet N m prog sink M) t)).stub
    else (progSet N m prog sink M).stub

/-- What `calc_safe_reach_states` keeps of the edges of a state as conditions (`toPQL(bdd_to_formula(…))`, which is part
of spot): the condition for leaving the state and the one for staying, and whether the diagram of the sink
condition is `false`. -/
structure Conds where
  prog : Cond
  ret : Cond
  noSink : Bool

/-- the sink condition, models include/LTL/SuccessorGeneration/ReachStubProductSuccessorGenerator.h:64-68 -/
def Conds.sink (c : Conds) : Cond := if c.noSink then .bool false else .not (.or [c.prog, c.ret])

/-- `progressing` for a valuation of the variables,
models include/LTL/SuccessorGeneration/ReachStubProductSuccessorGenerator.h:52-60 -/
def Buchi.progB (A : Buchi) (q : Nat) (v : Nat → Bool) : Bool := (A.edges q).any fun e => decide (e.1 ≠ q) && e.2.valid v

/-- `retarding`: the guard of the last edge back to the state,
models include/LTL/SuccessorGeneration/ReachStubProductSuccessorGenerator.h:52-57 -/
def Buchi.retB (A : Buchi) (q : Nat) (v : Nat → Bool) : Bool :=
  (((A.edges q).filter fun e => decide (e.1 = q)).getLast?.map fun e => e.2.valid v).getD false

/-- `progressing | sink_prop` (`_bddCond`),
models include/LTL/SuccessorGeneration/ReachStubProductSuccessorGenerator.h:61, 71 -/
def Buchi.fullB (A : Buchi) (q : Nat) (v : Nat → Bool) : Bool := A.progB q v || !(A.retB q v || A.progB q v)

variable (N : FlatNet) (A : Buchi) (ap : Mark → Nat → Bool) (G : Nat → Conds) (σ : Mark → Nat → Mem)

/-- models include/LTL/SuccessorGeneration/ReachStubProductSuccessorGenerator.h:79-93 (`prepare`): the transitions
fired in a product state; the fallback fires all enabled ones.  `σ` are the results left in the conditions by earlier
evaluations. -/
def autSet (m : Mark) (q : Nat) : Nat → Bool :=
  if A.fullB q (ap m) then fun _ => true
  else safeSet N m (A.acc q) (G q).prog (G q).sink (σ m q)

/-- Specification: the steps of the reduced product.  When no transition is fired, the marking is repeated
(include/LTL/SuccessorGeneration/ProductSuccessorGenerator.h:147-176, see `pnext`). -/
def RedStep (x y : Mark × Nat) : Prop :=
  ((∃ t : Fin N.ntransitions, autSet N A ap G σ x.1 x.2 t = true ∧ N.toNet.Step x.1 t y.1) ∨
    ((∀ t : Fin N.ntransitions, autSet N A ap G σ x.1 x.2 t = true → ¬ N.toNet.Enabled x.1 t) ∧ y.1 = x.1)) ∧
  ∃ g, (y.2, g) ∈ A.edges x.2 ∧ g.valid (ap y.1) = true

/-- Specification: the steps of the product; a deadlock is repeated. -/
def FullStep (x y : Mark × Nat) : Prop :=
  ((∃ t : Fin N.ntransitions, N.toNet.Step x.1 t y.1) ∨ (N.toNet.Dead x.1 ∧ y.1 = x.1)) ∧
  ∃ g, (y.2, g) ∈ A.edges x.2 ∧ g.valid (ap y.1) = true

end LTL
end Verif
