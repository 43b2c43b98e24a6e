import Verif.PQL.Eval

/-!
# Model of the construction of conjunctions and disjunctions

Models `tryMerge`, `makeLog`, the constructors of `AndCondition`/`OrCondition` and the merging of
comparisons into `CompareConjunction` objects (src/PetriEngine/PQL/Expressions.cpp).  `orp` says
that the template parameter is `OrCondition`.
-/

namespace Verif
namespace PQL

/-- `std::numeric_limits<uint32_t>::max()` -/
def umax : Nat := 4294967295

/-- conversion of a 64-bit value to `uint32_t` -/
def toU32 (v : Int) : Nat := (v % 4294967296).toNat

/-- The constraint that excludes nothing. -/
def Cons.trivial (c : Cons) : Bool := c.lower == 0 && c.upper == umax

/-- models include/PetriEngine/PQL/Expressions.h:837-857 (`cons_t::invert`, assertions disabled). -/
def Cons.invert (c : Cons) : Cons :=
  if c.trivial then c
  else if c.lower = 0 then { c with lower := (c.upper + 1) % 4294967296, upper := umax }
  else if c.upper = umax then { c with upper := c.lower - 1, lower := 0 }
  else c

/-- models include/PetriEngine/PQL/Expressions.h:859-863 (`cons_t::intersect`). -/
def Cons.intersect (c d : Cons) : Cons := { c with lower := max c.lower d.lower, upper := min c.upper d.upper }

/-- models src/PetriEngine/PQL/Expressions.cpp:544-553 and 602-613: `std::lower_bound` by place (the
constraints are sorted), then insertion or intersection. -/
def insertCons : List Cons → Cons → List Cons
  | [], c => [c]
  | d :: ds, c =>
    if d.place < c.place then d :: insertCons ds c
    else if d.place = c.place then d.intersect c :: ds
    else c :: d :: ds

/-- models src/PetriEngine/PQL/Expressions.cpp:532-555, the body of the loop. -/
def mergeStep (neg : Bool) (acc : List Cons) (c0 : Cons) : Option (List Cons) :=
  let c := if neg then c0.invert else c0
  if c.trivial then some acc
  else if c.upper ≠ umax ∧ c.lower ≠ 0 ∧ neg = true then none
  else some (insertCons acc c)

/-- models src/PetriEngine/PQL/Expressions.cpp:524-556 (`CompareConjunction::merge` of another
one); `none` stands for the exception. -/
def mergeOther (l : List Cons) (n : Bool) (l' : List Cons) (n' : Bool) : Option (List Cons) :=
  let neg := n != n'
  if neg = true ∧ 1 < l'.length then none else l'.foldlM (mergeStep neg) l

def Expr.isId : Expr → Bool
  | .id _ => true
  | _ => false

/-- models src/PetriEngine/PQL/Expressions.cpp:563-580: place, constant and the flag `inverted` of
a comparison (that one side is a place is asserted). -/
def atomParts : Expr → Expr → Nat × Nat × Bool
  | .id p, e2 => (p, toU32 (evalExpr (fun _ => 0) e2), false)
  | e1, .id p => (p, toU32 (evalExpr (fun _ => 0) e1), true)
  | e1, _ => (umax, toU32 (evalExpr (fun _ => 0) e1), true)

/-- models src/PetriEngine/PQL/Expressions.cpp:581-604: the constraint before inversion. -/
def rawCons (op : Cmp) (place val : Nat) (inverted : Bool) : Cons :=
  match op with
  | .le => if inverted then ⟨place, val, umax⟩ else ⟨place, 0, val⟩
  | .lt => if inverted then ⟨place, (val + 1) % 4294967296, umax⟩
           else ⟨place, 0, (val + 4294967295) % 4294967296⟩
  | .eq => ⟨place, val, val⟩
  | .ne => ⟨place, val, val⟩

/-- models src/PetriEngine/PQL/Expressions.cpp:560-606: the constraint for one comparison. -/
def consOf (negated : Bool) (op : Cmp) (e1 e2 : Expr) : Cons :=
  let a := atomParts e1 e2
  let next := rawCons op a.1 a.2.1 a.2.2
  if op ≠ .ne ∧ negated = true then next.invert else next

/-- models src/PetriEngine/PQL/Expressions.cpp:558-617 (`CompareConjunction::merge` of comparisons;
other conditions are excluded by an assertion). -/
def mergeConds (l : List Cons) (negated : Bool) : List Cond → List Cons
  | [] => l
  | .cmp op e1 e2 :: cs =>
    mergeConds (insertCons l (consOf negated op e1 e2)) (if op = .ne then false else negated) cs
  | _ :: cs => mergeConds l negated cs

/-- models include/PetriEngine/PQL/Expressions.h:888-893 (`CompareConjunction::singular`). -/
def ccSingular : List Cons → Bool
  | [c] => c.lower == 0 || c.upper == umax
  | _ => false

/-- models src/PetriEngine/PQL/Expressions.cpp:63-64: the comparison has the form place/constant. -/
def isAtom (e1 e2 : Expr) : Bool := (e1.isId && e2.placeFree) || (e2.isId && e1.placeFree)

/-- models src/PetriEngine/PQL/Expressions.cpp:76-108 (`tryMerge`, the `CompareConjunction` case with
`aggressive`).  The exception of `merge` cannot occur here (theorem `C19_merge_never_throws`); the
constructor `CompareConjunction(bool)` ignores its argument. -/
def tryMergeCC (orp : Bool) (conds : List Cond) (l : List Cons) (n : Bool) : List Cond :=
  if n = orp ∨ ccSingular l = true then
    match conds with
    | .cc l0 n0 :: rest =>
      if n0 = orp then .cc ((mergeOther l0 n0 l n).getD []) n0 :: rest
      else if n = orp then .cc l n :: conds
      else .cc ((mergeOther [] false l n).getD []) false :: conds
    | _ => .cc l n :: conds
  else conds ++ [.cc l n]

mutual
/-- models src/PetriEngine/PQL/Expressions.cpp:44-115 (`tryMerge`). -/
def tryMerge (orp aggressive : Bool) (conds : List Cond) : Cond → List Cond
  | .and cs => if orp then conds ++ [.and cs] else tryMergeL orp aggressive conds cs
  | .or cs => if orp then tryMergeL orp aggressive conds cs else conds ++ [.or cs]
  | .cmp op e1 e2 =>
    if aggressive = false then conds ++ [.cmp op e1 e2]
    else if (orp = false ∧ op = .ne) ∨ (orp = true ∧ op = .eq) then conds ++ [.cmp op e1 e2]
    else if isAtom e1 e2 = false then conds ++ [.cmp op e1 e2]
    else tryMergeCC orp conds (mergeConds [] orp [.cmp op e1 e2]) orp
  | .cc l n => if aggressive = false then conds ++ [.cc l n] else tryMergeCC orp conds l n
  | c => conds ++ [c]
/-- the loop over the operands -/
def tryMergeL (orp aggressive : Bool) (conds : List Cond) : List Cond → List Cond
  | [] => conds
  | c :: cs => tryMergeL orp aggressive (tryMerge orp aggressive conds c) cs
end

/-- models src/PetriEngine/PQL/Expressions.cpp:476-481 (`postMerge`); `std::sort` may reorder
operands that compare equal, they are kept in order here. -/
def postMerge (cs : List Cond) : List Cond :=
  cs.filter (fun c => !c.isTemporal) ++ cs.filter (fun c => c.isTemporal)

/-- models the constructors of `AndCondition` and `OrCondition`,
src/PetriEngine/PQL/Expressions.cpp:483-514: the operands. -/
def logOperands (orp : Bool) (cs : List Cond) : List Cond := postMerge (tryMergeL orp false [] cs)

def logNode (orp : Bool) (cs : List Cond) : Cond := if orp then .or cs else .and cs

/-- models src/PetriEngine/PQL/Expressions.cpp:117-133 (`makeLog`, with `aggressive`). -/
def makeLog (orp : Bool) (conds : List Cond) : Cond :=
  match conds with
  | [] => .bool (!orp)
  | [c] => c
  | conds =>
    let res := logOperands orp (tryMergeL orp true [] conds)
    match res with
    | [c] => c
    | [] => .bool (!orp)
    | res => logNode orp res

/-- models src/PetriEngine/PQL/Expressions.cpp:136-153. -/
def makeOr (cs : List Cond) : Cond := makeLog true cs
def makeAnd (cs : List Cond) : Cond := makeLog false cs

end PQL
end Verif
