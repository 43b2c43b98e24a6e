import Verif.Net.Flat
import Verif.PQL.Syntax
import Verif.PQL.Semantics

/-!
# Several traces at once (HyperLTL)

Models src/LTL/SuccessorGeneration/CompoundGenerator.cpp, and the evaluation of propositions that name a trace
(src/PetriEngine/PQL/Evaluation.cpp, include/PetriEngine/PQL/Evaluation.h).  A compound marking is one array with the markings of the
traces one after the other.
-/

namespace Verif
namespace Hyper
open PQL

/-- the marking of trace `i` in a compound marking: `marking + i * numberOfPlaces` -/
def seg (n : Nat) (w : Nat → Nat) (i : Nat) : Nat → Nat := fun p => if p < n then w (i * n + p) else 0

/-- trace `i` overwritten -/
def setSeg (n : Nat) (w : Nat → Nat) (i : Nat) (m : Nat → Nat) : Nat → Nat :=
  fun x => if i * n ≤ x ∧ x < i * n + n then m (x - i * n) else w x

/-- models include/LTL/SuccessorGeneration/CompoundGenerator.h:48-87 (`successor_info_t`; the state of the automaton and the last
successor belong to the product) -/
structure Info where
  enabled : List (List Nat)
  it : List Nat

/-- models src/LTL/SuccessorGeneration/CompoundGenerator.cpp:36-49 (`fire`), from trace `i` on.  `error` is the exception of
`producePostset`. -/
def fireFrom (N : FlatNet) : Nat → List (List Nat) → List Nat → (Nat → Nat) → Except Unit (Nat → Nat)
  | i, e :: es, k :: ks, w =>
    if e.isEmpty then fireFrom N (i + 1) es ks w
    else match N.fire (seg N.nplaces w i) (e.getD k 0) with
      | none => .error ()
      | some m => fireFrom N (i + 1) es ks (setSeg N.nplaces w i m)
  | _, _, _, w => .ok w

/-- what is left at the beginning of `write` when the generator has found the successors `l` -/
def lastWrite (n : Nat) (w : Nat → Nat) (l : List (Nat × (Nat → Nat))) : Nat → Nat :=
  match l.getLast? with
  | some x => setSeg n w 0 x.2
  | none => w

/-- models src/LTL/SuccessorGeneration/CompoundGenerator.cpp:54-67: the enabled transitions of `c` traces, from trace `i` on.  The
generator writes the markings it finds to the beginning of `write`. -/
def enumSegs (N : FlatNet) (parent : Nat → Nat) : Nat → Nat → (Nat → Nat) → Except Unit (List (List Nat) × (Nat → Nat))
  | 0, _, w => .ok ([], w)
  | c + 1, i, w =>
    match N.enumFrom (seg N.nplaces parent i) (fun _ => true) (N.ntransitions + 1) FlatNet.genInit with
    | .error e => .error e
    | .ok (l, _) =>
      match enumSegs N parent c (i + 1) (lastWrite N.nplaces w l) with
      | .error e => .error e
      | .ok (ls, w') => .ok (l.map Prod.fst :: ls, w')

/-- models src/LTL/SuccessorGeneration/CompoundGenerator.cpp:76-87: the first trace with another transition moves on, those before it
start again -/
def bump : List (List Nat) → List Nat → Option (List Nat)
  | e :: es, k :: ks => if k + 1 < e.length then some ((k + 1) :: ks) else (bump es ks).map (0 :: ·)
  | _, _ => none

/-- models src/LTL/SuccessorGeneration/CompoundGenerator.cpp:51 (`std::copy` of all traces) -/
def copyAll (n k : Nat) (parent w : Nat → Nat) : Nat → Nat := fun x => if x < n * k then parent x else w x

/-- models src/LTL/SuccessorGeneration/CompoundGenerator.cpp:35-92 (`next`): the result, what was written, and the new information -/
def compoundNext (N : FlatNet) (k : Nat) (parent w : Nat → Nat) (s : Info) : Except Unit (Bool × (Nat → Nat) × Info) :=
  if s.it.isEmpty then
    match enumSegs N parent k 0 (copyAll N.nplaces k parent w) with
    | .error e => .error e
    | .ok (E, w1) =>
      if E.any (fun e => !e.isEmpty) then
        match fireFrom N 0 E (List.replicate k 0) (setSeg N.nplaces w1 0 (seg N.nplaces parent 0)) with
        | .error e => .error e
        | .ok w2 => .ok (true, w2, ⟨E, List.replicate k 0⟩)
      else .ok (false, setSeg N.nplaces w1 0 (seg N.nplaces parent 0), ⟨E, List.replicate k 0⟩)
  else
    match bump s.enabled s.it with
    | none => .ok (false, copyAll N.nplaces k parent w, s)
    | some it' =>
      match fireFrom N 0 s.enabled it' (copyAll N.nplaces k parent w) with
      | .error e => .error e
      | .ok w2 => .ok (true, w2, ⟨s.enabled, it'⟩)

/-- the client's loop, `fuel` calls of `next` at most; the flag says whether the end was reported -/
def compoundAll (N : FlatNet) (k : Nat) (parent : Nat → Nat) : Nat → (Nat → Nat) → Info → Except Unit (List (Nat → Nat) × Bool)
  | 0, _, _ => .ok ([], false)
  | fuel + 1, w, s =>
    match compoundNext N k parent w s with
    | .error e => .error e
    | .ok (false, _, _) => .ok ([], true)
    | .ok (true, w', s') =>
      match compoundAll N k parent fuel w' s' with
      | .error e => .error e
      | .ok (l, b) => .ok (w' :: l, b)

/-- models include/LTL/SuccessorGeneration/CompoundGenerator.h:104-112 (`initialize`) -/
def initialAll (n : Nat) (init : Nat → Nat) : Nat → (Nat → Nat) → (Nat → Nat)
  | 0, w => w
  | k + 1, w => setSeg n (initialAll n init k w) k init

/-! ### Propositions that name a trace -/

/-- integer expressions with `PathSelectExpr` (include/PetriEngine/PQL/Expressions.h:312-326); the rest as in `PQL.Expr` -/
inductive HExpr
  | lit (v : Int)
  | id (place : Nat)
  | plus (const : Int) (ids : List Nat) (es : List HExpr)
  | minus (e : HExpr)
  | sub (e1 e2 : HExpr)
  | on (trace : Nat) (e : HExpr)

mutual
/-- models src/PetriEngine/PQL/Evaluation.cpp:49-121 (`ExprEvalVisitor`); `off` is `_offset`.  The places of sums are read without it. -/
def hval (n : Nat) (w : Nat → Nat) : Nat → HExpr → Int
  | _, .lit v => v
  | off, .id p => w (p + off * n)
  | off, .plus c ids es => hsum n w off (ids.foldl (fun r p => r + w p) c) es
  | off, .minus e => - hval n w off e
  | off, .sub e1 e2 => hval n w off e1 - hval n w off e2
  | _, .on i e => hval n w i e
def hsum (n : Nat) (w : Nat → Nat) : Nat → Int → List HExpr → Int
  | _, r, [] => r
  | off, r, e :: es => hsum n w off (r + hval n w off e) es
end

/-- propositions with `PathSelectCondition` (include/PetriEngine/PQL/Expressions.h:491-515) -/
inductive HCond
  | dead
  | cmp (op : Cmp) (e1 e2 : HExpr)
  | cc (cons : List Cons) (neg : Bool)
  | not (c : HCond)
  | and (c d : HCond)
  | on (trace : Nat) (c : HCond)

/-- models src/PetriEngine/PQL/Evaluation.cpp:25-48 and 224-291 and include/PetriEngine/PQL/Evaluation.h:63-69: the `_offset` of the
visitor is set by `PathSelectCondition`; `compare` makes an `ExprEvalVisitor` of its own, with offset 0, and nothing else reads it.
`dl` is `deadlocked` of the net.  Conjunctions have two operands. -/
def heval (n : Nat) (dl : (Nat → Nat) → Bool) (w : Nat → Nat) : Nat → HCond → Bool
  | _, .dead => dl w
  | _, .cmp op e1 e2 =>
    match op with
    | .eq => decide (hval n w 0 e1 = hval n w 0 e2)
    | .ne => decide (hval n w 0 e1 ≠ hval n w 0 e2)
    | .lt => decide (hval n w 0 e1 < hval n w 0 e2)
    | .le => decide (hval n w 0 e1 ≤ hval n w 0 e2)
  | _, .cc l ng => ng != l.all fun c => decide (w c.place ≤ c.upper) && decide (c.lower ≤ w c.place)
  | off, .not c => !heval n dl w off c
  | off, .and c d => heval n dl w off c && heval n dl w off d
  | _, .on i c => heval n dl w i c

end Hyper
end Verif
