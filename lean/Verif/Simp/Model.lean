import Verif.Simp.LP
import Verif.PQL.Merge

/-!
# The query simplifier

Models `src/PetriEngine/PQL/Simplifier.cpp` for the formulas of `Verif/PQL/Syntax.lean` (not for upper bounds, control
conditions and path selection).  The memory-exhaustion handlers are not modelled.  `n` is the fuel of the enumeration of
linear programs.
-/

namespace Verif
namespace Simp
open PQL Coll

/-- models include/PetriEngine/Simplification/Retval.h:7-37 -/
structure Ret where
  formula : Cond
  lps : Coll
  neglps : Coll

/-- models include/PetriEngine/Simplification/Retval.h:30-37 -/
def Ret.of (c : Cond) : Ret := ⟨c, Coll.empty, Coll.empty⟩

/-- `isTriviallyTrue` (`b = true`), `isTriviallyFalse` (`b = false`): the condition is a Boolean constant. -/
def isB (b : Bool) : Cond → Bool
  | .bool v => v == b
  | _ => false

/-- `b || !c->satisfiable(context)`: the answer and the collection afterwards -/
def triv (o : Oracle) (n : Nat) (π : List Nat) (b : Bool) (c : Coll) : Option (Bool × Coll) :=
  if b then some (true, c)
  else
    match satC o n π c with
    | none => none
    | some (s, c') => some (!s, c')

/-- `!context.timeout() && !c->satisfiable(context)`, negated -/
def testC (o : Oracle) (n : Nat) (π : List Nat) (c : Coll) : Option (Bool × Coll) :=
  if o.timeout (0 :: π) then some (true, c) else satC o n (1 :: π) c

/-- models src/PetriEngine/PQL/Simplifier.cpp:138-211 (`simplify_AG` … `simplify_simple_quantifier`): `onT` if the operand always
holds, `onF` if it never holds. -/
def quant (o : Oracle) (n : Nat) (π : List Nat) (onT onF : Cond) (mk : Cond → Cond) (r : Ret) : Option Ret :=
  match triv o n (0 :: π) (isB true r.formula) r.neglps with
  | none => none
  | some (true, _) => some (Ret.of onT)
  | some (false, _) =>
    match triv o n (1 :: π) (isB false r.formula) r.lps with
    | none => none
    | some (true, _) => some (Ret.of onF)
    | some (false, _) => some (Ret.of (mk r.formula))

/-- The operands are visited; `some none`: one of them is the constant `stop`.  Those that are the other constant are left
out.  models src/PetriEngine/PQL/Simplifier.cpp:51-65, 98-110 -/
def simpList (v : List Nat → Cond → Option Ret) (π : List Nat) (stop : Bool) : List Cond → Option (Option (List Ret))
  | [] => some (some [])
  | c :: cs =>
    match v (cs.length :: π) c with
    | none => none
    | some r =>
      if isB stop r.formula then some none
      else
        match simpList v π stop cs with
        | none => none
        | some none => some none
        | some (some rs) => if isB (!stop) r.formula then some (some rs) else some (some (r :: rs))

/-- models src/PetriEngine/PQL/Simplifier.cpp:67-91 (`simplify_or` after the visits) -/
def orEnd (o : Oracle) (n : Nat) (π : List Nat) (rs : List Ret) : Option Ret :=
  if rs = [] then some (Ret.of (.bool false))
  else
    match mergeLps (2 * rs.length + 1) 0 (rs.map Ret.neglps) with
    | none => none
    | some neg =>
      match testC o n π neg with
      | none => none
      | some (false, _) => some (Ret.of (.bool true))
      | some (true, neg') => some ⟨makeOr (rs.map Ret.formula), mkUnion (rs.map Ret.lps), neg'⟩

/-- models src/PetriEngine/PQL/Simplifier.cpp:112-136 (`simplify_and` after the visits) -/
def andEnd (o : Oracle) (n : Nat) (π : List Nat) (rs : List Ret) : Option Ret :=
  if rs = [] then some (Ret.of (.bool true))
  else
    match mergeLps (2 * rs.length + 1) 0 (rs.map Ret.lps) with
    | none => none
    | some lps =>
      match testC o n π lps with
      | none => none
      | some (false, _) => some (Ret.of (.bool false))
      | some (true, lps') => some ⟨makeAnd (rs.map Ret.formula), lps', mkUnion (rs.map Ret.neglps)⟩

/-- models src/PetriEngine/PQL/Simplifier.cpp:47-136 -/
def simpLog (o : Oracle) (n : Nat) (v : List Nat → Cond → Option Ret) (π : List Nat) (orp : Bool) (cs : List Cond) :
    Option Ret :=
  match simpList v (0 :: π) orp cs with
  | none => none
  | some none => some (Ret.of (.bool orp))
  | some (some rs) => if orp then orEnd o n (1 :: π) rs else andEnd o n (1 :: π) rs

/-- models src/PetriEngine/PQL/Simplifier.cpp:365-377, 452-464, 495-507 -/
def endLF (o : Oracle) (n : Nat) (π : List Nat) (f : Cond) (lps neglps : Coll) : Option Ret :=
  match testC o n (0 :: π) lps with
  | none => none
  | some (false, _) => some (Ret.of (.bool false))
  | some (true, lps') =>
    match testC o n (1 :: π) neglps with
    | none => none
    | some (false, _) => some (Ret.of (.bool true))
    | some (true, neg') => some ⟨f, lps', neg'⟩

/-- models src/PetriEngine/PQL/Simplifier.cpp:409-421 -/
def endNF (o : Oracle) (n : Nat) (π : List Nat) (f : Cond) (lps neglps : Coll) : Option Ret :=
  match testC o n (0 :: π) neglps with
  | none => none
  | some (false, _) => some (Ret.of (.bool true))
  | some (true, neg') =>
    match testC o n (1 :: π) lps with
    | none => none
    | some (false, _) => some (Ret.of (.bool false))
    | some (true, lps') => some ⟨f, lps', neg'⟩

/-- `int constant = m2.constant() - m1.constant()` -/
def diffConst (m1 m2 : Member) : Int := toI32 (m2.constant - m1.constant)

/-- models src/PetriEngine/PQL/Simplifier.cpp:437-443: `GT` or `LT` -/
def neColl (d : Member) (c : Int) : Coll := mkUnion2 (mkSingle d c .gt) (mkSingle d c .lt)

/-- models src/PetriEngine/PQL/Simplifier.cpp:346-359, 387-400, 429-446, 472-490: the trivial verdict, or the programs. -/
def cmpAna (neg : Bool) (op : Cmp) (m1 m2 : Member) : Bool ⊕ (Coll × Coll) :=
  let c := diffConst m1 m2
  let d := Member.sub m1 m2
  match op with
  | .lt =>
    match (if neg then Member.trivialLess false m2 m1 else Member.trivialLess true m1 m2) with
    | some b => .inl b
    | none => .inr (mkSingle d c (if neg then .ge else .lt), mkSingle d c (if neg then .lt else .ge))
  | .le =>
    match (if neg then Member.trivialLess true m2 m1 else Member.trivialLess false m1 m2) with
    | some b => .inl b
    | none => .inr (mkSingle d c (if neg then .gt else .le), mkSingle d c (if neg then .le else .gt))
  | .eq =>
    if (m1.isZero && m2.isZero) || Member.sameV m1.vars m2.vars then
      .inl (if neg then decide (m1.constant ≠ m2.constant) else decide (m1.constant = m2.constant))
    else if neg then .inr (neColl d c, mkSingle d c .eq) else .inr (mkSingle d c .eq, neColl d c)
  | .ne =>
    if (m1.isZero && m2.isZero) || Member.sameV m1.vars m2.vars then
      .inl (if neg then decide (m1.constant = m2.constant) else decide (m1.constant ≠ m2.constant))
    else if neg then .inr (mkSingle d c .eq, neColl d c) else .inr (neColl d c, mkSingle d c .eq)

/-- the comparison, negated if `neg` (lines 370-376, 414-420, 457-463, 500-506) -/
def cmpOut (neg : Bool) (op : Cmp) (e1 e2 : Expr) : Cond :=
  if neg then
    match op with
    | .lt => .cmp .le e2 e1
    | .le => .cmp .lt e2 e1
    | .eq => .cmp .ne e1 e2
    | .ne => .cmp .eq e1 e2
  else .cmp op e1 e2

/-- lines 365-377, 409-421, 452-464, 495-507: the order of the two tests -/
def cmpEnd (o : Oracle) (n : Nat) (π : List Nat) (neg : Bool) (op : Cmp) (e1 e2 : Expr) (lps neglps : Coll) :
    Option Ret :=
  if op = .le then endNF o n π (cmpOut neg op e1 e2) lps neglps else endLF o n π (cmpOut neg op e1 e2) lps neglps

/-- models src/PetriEngine/PQL/Simplifier.cpp:340-508 -/
def simpCmp (o : Oracle) (n : Nat) (N : FlatNet) (m0 : Nat → Nat) (π : List Nat) (neg : Bool) (op : Cmp)
    (e1 e2 : Expr) : Option Ret :=
  let m1 := constraint N m0 e1
  let m2 := constraint N m0 e2
  if o.timeout (0 :: π) = false ∧ m1.can = true ∧ m2.can = true then
    match cmpAna neg op m1 m2 with
    | .inl b => some (Ret.of (.bool b))
    | .inr (lps, neglps) => cmpEnd o n (1 :: π) neg op e1 e2 lps neglps
  else cmpEnd o n (1 :: π) neg op e1 e2 Coll.empty Coll.empty

/-- models src/PetriEngine/PQL/Simplifier.cpp:531-547, 554-570: `m1 ≤ m2` -/
def bound (m1 m2 : Member) : Bool ⊕ (Coll × Coll) :=
  match Member.trivialLess false m1 m2 with
  | some b => .inl b
  | none => .inr (mkSingle (Member.sub m1 m2) (diffConst m1 m2) .le, mkSingle (Member.sub m1 m2) (diffConst m1 m2) .gt)

/-- the lower bound (lines 527-548) -/
def lowerBound (N : FlatNet) (m0 : Nat → Nat) (c : Cons) : Bool ⊕ (Coll × Coll) :=
  if c.lower = 0 then .inl true else bound (Member.lit c.lower) (memberForPlace N m0 c.place)

/-- the upper bound (lines 550-571) -/
def upperBound (N : FlatNet) (m0 : Nat → Nat) (c : Cons) : Bool ⊕ (Coll × Coll) :=
  if c.upper = umax then .inl true else bound (memberForPlace N m0 c.place) (Member.lit c.upper)

/-- the programs of a bound -/
def boundLps : Bool ⊕ (Coll × Coll) → List Coll
  | .inl _ => []
  | .inr (a, _) => [a]
def boundNeg : Bool ⊕ (Coll × Coll) → List Coll
  | .inl _ => []
  | .inr (_, b) => [b]

/-- trivially violated -/
def isBad : Bool ⊕ (Coll × Coll) → Bool
  | .inl b => !b
  | .inr _ => false

/-- trivial, or absent -/
def isInl : Bool ⊕ (Coll × Coll) → Bool
  | .inl _ => true
  | .inr _ => false

/-- models src/PetriEngine/PQL/Simplifier.cpp:525-578: `none` if a bound is trivially violated; otherwise the remaining
constraints and the programs. -/
def ccScan (N : FlatNet) (m0 : Nat → Nat) : List Cons → Option (List Cons × List Coll × List Coll)
  | [] => some ([], [], [])
  | c :: cs =>
    let lo := lowerBound N m0 c
    let up := upperBound N m0 c
    if isBad lo || isBad up then none
    else
      match ccScan N m0 cs with
      | none => none
      | some (ks, ls, ns) =>
        let c' : Cons := ⟨c.place, if isInl lo then 0 else c.lower, if isInl up then umax else c.upper⟩
        some (if c'.trivial then ks else c' :: ks, boundLps lo ++ boundLps up ++ ls, boundNeg lo ++ boundNeg up ++ ns)

/-- models src/PetriEngine/PQL/Simplifier.cpp:610-619: one bound; the lists are reversed.  Is it removed, the programs left
and the program to keep. -/
def trimBound (o : Oracle) (n : Nat) (π : List Nat) : List Coll → Option (Bool × List Coll × List Coll)
  | [] => none
  | x :: rest =>
    match satC o n π x with
    | none => none
    | some (false, _) => some (true, rest, [])
    | some (true, x') => some (false, rest, [x'])

/-- models src/PetriEngine/PQL/Simplifier.cpp:599-621, from the last constraint to the first. -/
def ccTrim (o : Oracle) (n : Nat) (π : List Nat) : List Cons → List Coll → List Cons → List Coll →
    Option (List Cons × List Coll)
  | [], ns, kc, kn => some (kc, ns.reverse ++ kn)
  | c :: cs, ns, kc, kn =>
    if o.timeout (cs.length :: 0 :: π) then some (cs.reverse ++ c :: kc, ns.reverse ++ kn)
    else
      match (if c.upper = umax then some (false, ns, []) else trimBound o n (cs.length :: 1 :: π) ns) with
      | none => none
      | some (ru, ns1, k1) =>
        match (if c.lower = 0 then some (false, ns1, []) else trimBound o n (cs.length :: 2 :: π) ns1) with
        | none => none
        | some (rl, ns2, k2) =>
          let c' : Cons := ⟨c.place, if rl then 0 else c.lower, if ru then umax else c.upper⟩
          ccTrim o n π cs ns2 (if c'.trivial then kc else c' :: kc) (k2 ++ k1 ++ kn)

/-- `LiteralExpr(uint32_t)`: the constructor takes an `int`. -/
def litExpr (v : Nat) : Expr := .lit (toI32 v)

/-- models src/PetriEngine/PQL/Simplifier.cpp:632-665 -/
def ccOut (cs : List Cons) (neg : Bool) : Cond :=
  match cs with
  | [c] =>
    let id := Expr.id c.place
    let ll := litExpr c.lower
    let lu := litExpr c.upper
    if c.lower = c.upper then
      if c.lower ≠ 0 then (if neg then .cmp .ne id lu else .cmp .eq id lu)
      else (if neg then .cmp .lt lu id else .cmp .le id lu)
    else if c.lower ≠ 0 ∧ c.upper ≠ umax then
      (if neg then makeOr [.cmp .lt id ll, .cmp .lt lu id] else makeAnd [.cmp .le ll id, .cmp .le id lu])
    else if c.lower ≠ 0 then (if neg then .cmp .lt id ll else .cmp .le ll id)
    else (if neg then .cmp .lt lu id else .cmp .le id lu)
  | cs => .cc cs neg

/-- models src/PetriEngine/PQL/Simplifier.cpp:586-673 -/
def ccEnd (o : Oracle) (n : Nat) (π : List Nat) (neg : Bool) (ks : List Cons) (ns : List Coll) (lps : Coll) :
    Option Ret :=
  match testC o n (0 :: π) lps with
  | none => none
  | some (false, _) => some (Ret.of (.bool neg))
  | some (true, lps') =>
    match ccTrim o n (1 :: π) ks.reverse ns.reverse [] [] with
    | none => none
    | some (ks', ns') =>
      if ks' = [] then some (Ret.of (.bool (!neg)))
      else if neg then some ⟨ccOut ks' neg, mkUnion ns', lps'⟩
      else some ⟨ccOut ks' neg, lps', mkUnion ns'⟩

/-- models src/PetriEngine/PQL/Simplifier.cpp:518-673.  (Line 582: without programs no constraint is left, so the result is
the same after a timeout.) -/
def simpCC (o : Oracle) (n : Nat) (N : FlatNet) (m0 : Nat → Nat) (π : List Nat) (ctxNeg : Bool) (cs : List Cons)
    (elNeg : Bool) : Option Ret :=
  if o.timeout (0 :: π) then some (Ret.of (.cc cs (elNeg != ctxNeg)))
  else
    let neg := ctxNeg != elNeg
    match ccScan N m0 cs with
    | none => some (Ret.of (.bool neg))
    | some (ks, ls, ns) =>
      if ls = [] then some (Ret.of (.bool (!neg)))
      else
        match mergeLps (2 * ls.length + 1) 0 ls with
        | none => none
        | some lps => ccEnd o n (1 :: π) neg ks ns lps

/-- the formula, negated if `neg` -/
def notIf (neg : Bool) (c : Cond) : Cond := if neg then .not c else c

/-- models src/PetriEngine/PQL/Simplifier.cpp:746-872: `mkF` is `EF`, `AF` or `F`, `mkU` is `EU`, `AU` or `U`. -/
def simpUntil (o : Oracle) (n : Nat) (v : List Nat → Bool → Cond → Option Ret) (π : List Nat) (neg : Bool) (c d : Cond)
    (mkF : Cond → Cond) (mkU : Cond → Cond → Cond) : Option Ret :=
  match v (0 :: π) false d with
  | none => none
  | some r2 =>
    match triv o n (1 :: π) (isB true r2.formula) r2.neglps with
    | none => none
    | some (true, _) => some (Ret.of (.bool (!neg)))
    | some (false, neg2) =>
      match triv o n (2 :: π) (isB false r2.formula) r2.lps with
      | none => none
      | some (true, _) => some (Ret.of (.bool neg))
      | some (false, lps2) =>
        match v (3 :: π) false c with
        | none => none
        | some r1 =>
          match triv o n (4 :: π) (isB true r1.formula) r1.neglps with
          | none => none
          | some (true, _) => some (Ret.of (notIf neg (mkF r2.formula)))
          | some (false, _) =>
            match triv o n (5 :: π) (isB false r1.formula) r1.lps with
            | none => none
            | some (true, _) => if neg then some (Ret.of (.not r2.formula)) else some ⟨r2.formula, lps2, neg2⟩
            | some (false, _) => some (Ret.of (notIf neg (mkU r1.formula r2.formula)))

/-- the result of a visit, passed on -/
def andThen (r : Option Ret) (f : Ret → Option Ret) : Option Ret :=
  match r with
  | none => none
  | some r => f r

/-- models src/PetriEngine/PQL/Simplifier.cpp:302-338, 510-516, 716-744, 874-920; `neg` is `_context.negated()`. -/
def simpStep (o : Oracle) (n : Nat) (N : FlatNet) (m0 : Nat → Nat) (v : List Nat → Bool → Cond → Option Ret)
    (π : List Nat) (neg : Bool) : Cond → Option Ret
  | .bool b => some (Ret.of (.bool (if neg then !b else b)))
  | .dead => some (Ret.of (notIf neg .dead))
  | .cmp op e1 e2 => simpCmp o n N m0 π neg op e1 e2
  | .cc cs en => simpCC o n N m0 π neg cs en
  | .not c => v (0 :: π) (!neg) c
  | .and cs =>
    if o.timeout (0 :: π) then some (Ret.of (notIf neg (makeAnd cs)))
    else simpLog o n (fun π' => v π' neg) (1 :: π) neg cs
  | .or cs =>
    if o.timeout (0 :: π) then some (Ret.of (notIf neg (makeOr cs)))
    else simpLog o n (fun π' => v π' neg) (1 :: π) (!neg) cs
  | .EX c => andThen (v (0 :: π) neg c) (if neg then quant o n (1 :: π) (.bool true) .dead .AX
      else quant o n (1 :: π) (.not .dead) (.bool false) .EX)
  | .AX c => andThen (v (0 :: π) neg c) (if neg then quant o n (1 :: π) (.not .dead) (.bool false) .EX
      else quant o n (1 :: π) (.bool true) .dead .AX)
  | .EF c => andThen (v (0 :: π) neg c) (quant o n (1 :: π) (.bool true) (.bool false) (if neg then .AG else .EF))
  | .AG c => andThen (v (0 :: π) neg c) (quant o n (1 :: π) (.bool true) (.bool false) (if neg then .EF else .AG))
  | .AF c => andThen (v (0 :: π) neg c) (quant o n (1 :: π) (.bool true) (.bool false) (if neg then .EG else .AF))
  | .EG c => andThen (v (0 :: π) neg c) (quant o n (1 :: π) (.bool true) (.bool false) (if neg then .AF else .EG))
  | .E c => andThen (v (0 :: π) neg c) (quant o n (1 :: π) (.bool true) (.bool false) (if neg then .A else .E))
  | .A c => andThen (v (0 :: π) neg c) (quant o n (1 :: π) (.bool true) (.bool false) (if neg then .E else .A))
  | .F c => andThen (v (0 :: π) neg c) (quant o n (1 :: π) (.bool true) (.bool false) (if neg then .G else .F))
  | .G c => andThen (v (0 :: π) neg c) (quant o n (1 :: π) (.bool true) (.bool false) (if neg then .F else .G))
  | .X c => andThen (v (0 :: π) neg c) (quant o n (1 :: π) (.bool true) (.bool false) .X)
  | .EU c d => simpUntil o n v π neg c d .EF .EU
  | .AU c d => simpUntil o n v π neg c d .AF .AU
  | .U c d => simpUntil o n v π neg c d .F .U

/-- models src/PetriEngine/PQL/Simplifier.cpp:26-30 (`simplify`); `d` bounds the nesting depth. -/
def simplify (o : Oracle) (n : Nat) (N : FlatNet) (m0 : Nat → Nat) : Nat → List Nat → Bool → Cond → Option Ret
  | 0, _, _, _ => none
  | d + 1, π, neg, c => simpStep o n N m0 (simplify o n N m0 d) π neg c

end Simp
end Verif
