import Verif.PQL.Syntax
import Verif.Net.StateEq

/-!
# Linear forms of expressions

Models `include/PetriEngine/Simplification/Member.h` and the `ConstraintVisitor` of
`src/PetriEngine/PQL/Simplifier.cpp`.  The coefficients and the constant are 64-bit numbers in the code; they are
unbounded here.  The conversions of the constant to `int` are modelled (`toI32`).
-/

namespace Verif
namespace Simp
open PQL

/-- conversion of a 64-bit value to `int` -/
def toI32 (v : Int) : Int := (v + 2147483648) % 4294967296 - 2147483648

/-- The value is an `int`. -/
def fits (v : Int) : Bool := decide (-2147483648 ≤ v) && decide (v < 2147483648)

theorem toI32_fits {v : Int} (h : fits v = true) : toI32 v = v := by
  simp only [fits, Bool.and_eq_true, decide_eq_true_eq] at h
  unfold toI32
  omega

/-- models include/PetriEngine/Simplification/Member.h:13-28 -/
structure Member where
  vars : List Int := []
  const : Int := 0
  can : Bool := false
deriving Repr, DecidableEq

namespace Member

/-- models include/PetriEngine/Simplification/Member.h:23-25 (`Member(int constant, bool canAnalyse = true)`); the argument
is converted to `int`. -/
def lit (k : Int) : Member := ⟨[], toI32 k, true⟩

/-- models include/PetriEngine/Simplification/Member.h:30 (`constant()` returns an `int`) -/
def constant (m : Member) : Int := toI32 m.const

/-- models include/PetriEngine/Simplification/Member.h:149-160 (`addVariables`) -/
def addV : List Int → List Int → List Int
  | [], b => b
  | a, [] => a
  | x :: a, y :: b => (x + y) :: addV a b

/-- models include/PetriEngine/Simplification/Member.h:162-173 (`subtractVariables`) -/
def subV : List Int → List Int → List Int
  | [], b => b.map fun y => 0 - y
  | a, [] => a
  | x :: a, y :: b => (x - y) :: subV a b

/-- models include/PetriEngine/Simplification/Member.h:36-43 (`operator+=`) -/
def add (m n : Member) : Member := ⟨addV m.vars n.vars, m.const + n.const, m.can && n.can⟩

/-- models include/PetriEngine/Simplification/Member.h:45-52 (`operator-=`) -/
def sub (m n : Member) : Member := ⟨subV m.vars n.vars, m.const - n.const, m.can && n.can⟩

/-- models include/PetriEngine/Simplification/Member.h:89-94 (`isZero`) -/
def isZero (m : Member) : Bool := m.vars.all fun v => v == 0

/-- models include/PetriEngine/Simplification/Member.h:175-188 (`multiply`) -/
def mulV (m n : Member) : List Int :=
  if m.isZero != n.isZero then
    if m.isZero = false then m.vars.map fun v => v * n.const
    else n.vars.map fun v => v * m.const
  else []

/-- models include/PetriEngine/Simplification/Member.h:54-67 (`operator*=`) -/
def mul (m n : Member) : Member :=
  if m.isZero = false ∧ n.isZero = false then ⟨[], 0, false⟩
  else ⟨mulV m n, m.const * n.const, m.can && n.can⟩

/-- models include/PetriEngine/Simplification/Member.h:115-133 (`operator==`) and 69-87 (`substrationIsZero`): the same
coefficients, missing ones being 0.  (Neither looks at the constants.) -/
def sameV : List Int → List Int → Bool
  | [], b => b.all fun y => y == 0
  | a, [] => a.all fun x => x == 0
  | x :: a, y :: b => x == y && sameV a b

/-- models include/PetriEngine/Simplification/Member.h:12 -/
inductive Kind
  | constant | input | output | regular
deriving DecidableEq, Repr

/-- models include/PetriEngine/Simplification/Member.h:96-113 (`getType`) -/
def kind (m : Member) : Kind :=
  if m.vars.all (fun v => v == 0) then .constant
  else if m.vars.all (fun v => decide (v ≤ 0)) then .input
  else if m.vars.all (fun v => decide (0 ≤ v)) then .output
  else .regular

/-- the comparison functions, applied to values converted to `int` (`std::less<int>`, `std::less_equal<int>`) -/
def compare (strict : Bool) (a b : Int) : Bool :=
  if strict then decide (toI32 a < toI32 b) else decide (toI32 a ≤ toI32 b)

/-- models include/PetriEngine/Simplification/Member.h:190-223 (`trivialLessThan`); `none` is `Indeterminate`. -/
def trivialLess (strict : Bool) (m n : Member) : Option Bool :=
  if sameV m.vars n.vars then some (compare strict m.const n.const)
  else
    match m.kind, n.kind with
    | .constant, .constant => some (compare strict m.const n.const)
    | .constant, .input => if compare strict m.const n.const = false then some false else none
    | .constant, .output => if compare strict m.const n.const = true then some true else none
    | .input, .constant => if compare strict m.const n.const = true then some true else none
    | .input, .output => if compare strict m.const n.const = true then some true else none
    | .output, .constant => if compare strict m.const n.const = false then some false else none
    | .output, .input => if compare strict m.const n.const = false then some false else none
    | _, _ => none

end Member

/-- models src/PetriEngine/PQL/Simplifier.cpp:213-221 (`memberForPlace`) -/
def memberForPlace (N : FlatNet) (m0 : Nat → Nat) (p : Nat) : Member :=
  ⟨(List.range N.ntransitions).map fun t => N.effect t p, m0 p, true⟩

/-- One operand: the first becomes the result, the others are combined with it (`first`). -/
def commStep (op : Member → Member → Member) : Option Member → Member → Option Member
  | none, m => some m
  | some a, m => some (op a m)

/-- models src/PetriEngine/PQL/Simplifier.cpp:230-255 (`_commutative_cons`), given the forms of the places and of the
other operands.  `operands()` is the number of the latter. -/
def commCons (neutral k : Int) (ids vals : List Member) (op : Member → Member → Member) : Member :=
  let start : Option Member := if k ≠ neutral ∨ (vals = [] ∧ ids = []) then some (Member.lit k) else none
  ((ids ++ vals).foldl (commStep op) start).getD {}

mutual
/-- models src/PetriEngine/PQL/Simplifier.cpp:223-298 (`ConstraintVisitor`) -/
def constraint (N : FlatNet) (m0 : Nat → Nat) : Expr → Member
  | .lit v => Member.lit v
  | .id p => memberForPlace N m0 p
  | .plus k ids es => commCons 0 k (ids.map (memberForPlace N m0)) (constraints N m0 es) Member.add
  | .mul k ids es => commCons 1 k (ids.map (memberForPlace N m0)) (constraints N m0 es) Member.mul
  | .sub e es => (constraints N m0 es).foldl Member.sub (constraint N m0 e)
  | .minus e => Member.mul (constraint N m0 e) (Member.lit (-1))
/-- the operands in order -/
def constraints (N : FlatNet) (m0 : Nat → Nat) : List Expr → List Member
  | [] => []
  | e :: es => constraint N m0 e :: constraints N m0 es
end

mutual
/-- The constants of the expression are `int`s (the code converts them). -/
def exactE : Expr → Bool
  | .lit v => fits v
  | .id _ => true
  | .plus k _ es => fits k && exactEs es
  | .mul k _ es => fits k && exactEs es
  | .sub e es => exactE e && exactEs es
  | .minus e => exactE e
def exactEs : List Expr → Bool
  | [] => true
  | e :: es => exactE e && exactEs es
end

end Simp
end Verif
