import Verif.PQL.Semantics

/-!
# Model of the evaluation of expressions and conditions in one marking

Models `src/PetriEngine/PQL/Evaluation.cpp`.  The C++ computes with 64-bit signed integers, whose
overflow is undefined; expressions are evaluated over the integers here.
-/

namespace Verif
namespace PQL

mutual
/-- models src/PetriEngine/PQL/Evaluation.cpp:51-137 (`ExprEvalVisitor`). -/
def evalExpr (m : Mark) : Expr → Int
  | .lit v => v
  | .id p => m p
  | .plus k ids es => evalSum m (ids.foldl (fun r p => r + m p) k) es
  | .mul k ids es => evalProd m (ids.foldl (fun r p => r * m p) k) es
  | .sub e es => evalSub m (evalExpr m e) es
  | .minus e => - evalExpr m e
/-- the second loop of `commutative` for `PlusExpr` -/
def evalSum (m : Mark) (r : Int) : List Expr → Int
  | [] => r
  | e :: es => evalSum m (r + evalExpr m e) es
/-- the second loop of `commutative` for `MultiplyExpr` -/
def evalProd (m : Mark) (r : Int) : List Expr → Int
  | [] => r
  | e :: es => evalProd m (r * evalExpr m e) es
/-- the loop of `SubtractExpr` -/
def evalSub (m : Mark) (r : Int) : List Expr → Int
  | [] => r
  | e :: es => evalSub m (r - evalExpr m e) es
end

/-- models include/PetriEngine/PQL/PQL.h (`Condition::Result`). -/
inductive Res
  | rFalse | rTrue | rUnknown
deriving DecidableEq, Repr

def Res.ofBool (b : Bool) : Res := if b then .rTrue else .rFalse

/-- models src/PetriEngine/PQL/Evaluation.cpp:25-48 (`compare`). -/
def compare (m : Mark) (op : Cmp) (e1 e2 : Expr) : Bool :=
  let v1 := evalExpr m e1
  let v2 := evalExpr m e2
  match op with
  | .eq => decide (v1 = v2)
  | .ne => decide (v1 ≠ v2)
  | .lt => decide (v1 < v2)
  | .le => decide (v1 ≤ v2)

/-- models src/PetriEngine/PQL/Evaluation.cpp:251-256: the loop over the constraints. -/
def evalCons (m : Mark) : List Cons → Bool
  | [] => true
  | c :: cs => if decide (m c.place ≤ c.upper) && decide (m c.place ≥ c.lower) then evalCons m cs else false

/-- keeps a false result, anything else becomes unknown -/
def Res.onlyFalse (r : Res) : Res := if r = .rFalse then .rFalse else .rUnknown
/-- keeps a true result, anything else becomes unknown -/
def Res.onlyTrue (r : Res) : Res := if r = .rTrue then .rTrue else .rUnknown
def Res.neg (r : Res) : Res := if r ≠ .rUnknown then (if r = .rFalse then .rTrue else .rFalse) else .rUnknown

/-- models src/PetriEngine/PQL/Evaluation.cpp:208-221 (`UntilCondition`, given the two results). -/
def evalUntil (a b : Res) : Res :=
  if b ≠ .rFalse then b else if a = .rFalse then a else .rUnknown

mutual
/-- models src/PetriEngine/PQL/Evaluation.cpp:139-316 (`EvaluateVisitor`).  `dl` is the result of
`net->deadlocked(marking)` (false without a net). -/
def evaluate (dl : Bool) (m : Mark) : Cond → Res
  | .bool b => Res.ofBool b
  | .dead => Res.ofBool dl
  | .cmp op e1 e2 => Res.ofBool (compare m op e1 e2)
  | .cc l n => Res.ofBool (n ^^ evalCons m l)
  | .not c => (evaluate dl m c).neg
  | .and cs => evalAnd dl m .rTrue cs
  | .or cs => evalOr dl m .rFalse cs
  | .EX _ => .rUnknown
  | .AX _ => .rUnknown
  | .X _ => .rUnknown
  | .EG c => (evaluate dl m c).onlyFalse
  | .AG c => (evaluate dl m c).onlyFalse
  | .EF c => (evaluate dl m c).onlyTrue
  | .AF c => (evaluate dl m c).onlyTrue
  | .A c => (evaluate dl m c).onlyFalse
  | .E c => (evaluate dl m c).onlyTrue
  | .F c => (evaluate dl m c).onlyTrue
  | .G c => (evaluate dl m c).onlyFalse
  | .U c d => evalUntil (evaluate dl m c) (evaluate dl m d)
  | .EU c d => evalUntil (evaluate dl m c) (evaluate dl m d)
  | .AU c d => evalUntil (evaluate dl m c) (evaluate dl m d)
/-- the loop of `AndCondition`, src/PetriEngine/PQL/Evaluation.cpp:224-235 -/
def evalAnd (dl : Bool) (m : Mark) (res : Res) : List Cond → Res
  | [] => res
  | c :: cs =>
    if evaluate dl m c = .rFalse then .rFalse
    else evalAnd dl m (if evaluate dl m c = .rUnknown then .rUnknown else res) cs
/-- the loop of `OrCondition`, src/PetriEngine/PQL/Evaluation.cpp:237-248 -/
def evalOr (dl : Bool) (m : Mark) (res : Res) : List Cond → Res
  | [] => res
  | c :: cs =>
    if evaluate dl m c = .rTrue then .rTrue
    else evalOr dl m (if evaluate dl m c = .rUnknown then .rUnknown else res) cs
end

mutual
/-- models src/PetriEngine/PQL/Evaluation.cpp:319-470 (`EvaluateAndSetVisitor`, the returned value);
`E`/`A` are handled as any `SimpleQuantifierCondition`. -/
def evaluateSet (dl : Bool) (m : Mark) : Cond → Res
  | .bool b => Res.ofBool b
  | .dead => Res.ofBool dl
  | .cmp op e1 e2 => Res.ofBool (compare m op e1 e2)
  | .cc l n => Res.ofBool (n ^^ evalCons m l)
  | .not c => (evaluateSet dl m c).neg
  | .and cs => evalAndSet dl m .rTrue cs
  | .or cs => evalOrSet dl m .rFalse cs
  | .EX _ => .rUnknown
  | .AX _ => .rUnknown
  | .X _ => .rUnknown
  | .A _ => .rUnknown
  | .E _ => .rUnknown
  | .EG c => (evaluateSet dl m c).onlyFalse
  | .AG c => (evaluateSet dl m c).onlyFalse
  | .EF c => (evaluateSet dl m c).onlyTrue
  | .AF c => (evaluateSet dl m c).onlyTrue
  | .F c => (evaluateSet dl m c).onlyTrue
  | .G c => (evaluateSet dl m c).onlyFalse
  | .U c d => evalUntil (evaluateSet dl m c) (evaluateSet dl m d)
  | .EU c d => evalUntil (evaluateSet dl m c) (evaluateSet dl m d)
  | .AU c d => evalUntil (evaluateSet dl m c) (evaluateSet dl m d)
def evalAndSet (dl : Bool) (m : Mark) (res : Res) : List Cond → Res
  | [] => res
  | c :: cs =>
    if evaluateSet dl m c = .rFalse then .rFalse
    else evalAndSet dl m (if evaluateSet dl m c = .rUnknown then .rUnknown else res) cs
def evalOrSet (dl : Bool) (m : Mark) (res : Res) : List Cond → Res
  | [] => res
  | c :: cs =>
    if evaluateSet dl m c = .rTrue then .rTrue
    else evalOrSet dl m (if evaluateSet dl m c = .rUnknown then .rUnknown else res) cs
end

/-! ### Construction of commutative expressions -/

/-- The data members of a `CommutativeExpr`. -/
structure Comm where
  const : Int
  ids : List Nat := []
  es : List Expr := []

/-- models src/PetriEngine/PQL/Expressions.cpp:619-651 (`CommutativeExpr::handle`); `mulp` tells
whether the expression built is a `MultiplyExpr`.  Place-free operands are evaluated with an empty
context. -/
def Comm.handle (mulp : Bool) (c : Comm) (e : Expr) : Comm :=
  let ap := fun a b : Int => if mulp then a * b else a + b
  if e.placeFree then { c with const := ap c.const (evalExpr (fun _ => 0) e) }
  else match e with
    | .id p => { c with ids := c.ids ++ [p] }
    | .plus k ids es =>
      if ids.length = 0 ∧ es.length = 0 then { c with const := ap c.const k }
      else if !mulp then { const := ap c.const k, es := c.es ++ es, ids := c.ids ++ ids }
      else { c with es := c.es ++ [e] }
    | .mul k ids es =>
      if ids.length = 0 ∧ es.length = 0 then { c with const := ap c.const k }
      else if mulp then { const := ap c.const k, es := c.es ++ es, ids := c.ids ++ ids }
      else { c with es := c.es ++ [e] }
    | e => { c with es := c.es ++ [e] }

/-- models src/PetriEngine/PQL/Expressions.cpp:653-664 (`init`; the order of equal places under
`std::sort` is immaterial) and the constructor of `PlusExpr`. -/
def mkPlus (es : List Expr) : Expr :=
  let c := es.foldl (Comm.handle false) { const := 0 }
  .plus c.const (c.ids.mergeSort (fun a b => decide (a ≤ b))) c.es

/-- models the constructor of `MultiplyExpr`, src/PetriEngine/PQL/Expressions.cpp:666-669. -/
def mkMul (es : List Expr) : Expr :=
  let c := es.foldl (Comm.handle true) { const := 1 }
  .mul c.const (c.ids.mergeSort (fun a b => decide (a ≤ b))) c.es

end PQL
end Verif
