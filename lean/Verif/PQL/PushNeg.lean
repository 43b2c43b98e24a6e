import Verif.PQL.Merge

/-!
# Model of the query rewriting

Models `src/PetriEngine/PQL/PushNegation.cpp`.  The visitor calls itself on formulas it has just
built, so the model runs on fuel; `none` means that the fuel is used up.  The shared constants
`TRUE_CONSTANT`, `FALSE_CONSTANT` and `DEADLOCK` are compared by address in the code; the results of
a visit always use the shared objects, so the comparison is structural here.  The statistics are
left out.
-/

namespace Verif
namespace PQL

/-- models src/PetriEngine/PQL/PushNegation.cpp:73-93 (`remdup`): common places are removed from
both sorted lists. -/
def remdup : List Nat → List Nat → List Nat × List Nat
  | x :: a, y :: b =>
    if x < y then let r := remdup a (y :: b); (x :: r.1, r.2)
    else if x = y then remdup a b
    else let r := remdup (x :: a) b; (r.1, y :: r.2)
  | a, b => (a, b)
termination_by a b => a.length + b.length

/-- models src/PetriEngine/PQL/PushNegation.cpp:94-100: the effect of `isTrivial` on the two
expressions (which are changed in place). -/
def dropCommon : Expr → Expr → Expr × Expr
  | .plus k a es, .plus k' b es' => (.plus k (remdup a b).1 es, .plus k' (remdup a b).2 es')
  | .mul k a es, .mul k' b es' => (.mul k (remdup a b).1 es, .mul k' (remdup a b).2 es')
  | e1, e2 => (e1, e2)

/-- The sizes added up in src/PetriEngine/PQL/PushNegation.cpp:104, for a `CommutativeExpr`. -/
def Expr.commSize : Expr → Option Nat
  | .plus _ a es => some (a.length + es.length)
  | .mul _ a es => some (a.length + es.length)
  | _ => none

/-- models src/PetriEngine/PQL/PushNegation.cpp:102-105: the value returned by `isTrivial`, given the
expressions after the removal. -/
def isTrivialCmp (e1 e2 : Expr) : Bool :=
  match e1.commSize, e2.commSize with
  | some a, some b => a + b == 0
  | _, _ => e1.placeFree && e2.placeFree

mutual
/-- models src/PetriEngine/PQL/PushNegation.cpp:604-632 (`CanBeNegativeVisitor`). -/
def canBeNeg : Expr → Bool
  | .lit v => decide (v < 0)
  | .id _ => false
  | .plus k _ es => decide (k < 0) || canBeNegL es
  | .mul k _ es => decide (k < 0) || canBeNegL es
  | .sub _ _ => true
  | .minus _ => true
def canBeNegL : List Expr → Bool
  | [] => false
  | e :: es => canBeNeg e || canBeNegL es
end

/-- models src/PetriEngine/PQL/PushNegation.cpp:634-654 (`pushEqual`, after `isTrivial`): the case
where one side is the constant 0. -/
def pushEqualZero (e1 e2 : Expr) (eqp : Bool) : Option Cond :=
  let side := fun (x z : Expr) =>
    if z.placeFree = true ∧ evalExpr (fun _ => 0) z = 0 ∧ canBeNeg x = false then
      some (if eqp then Cond.cmp .le x (.lit 0) else Cond.cmp .le (.lit 1) x)
    else none
  match side e2 e1 with
  | some c => some c
  | none => side e1 e2

/-- models src/PetriEngine/PQL/PushNegation.cpp:583-601, 634-671: visit of a comparison.  The
expression evaluated in the trivial case does not mention places. -/
def pushCmp (neg : Bool) (op : Cmp) (e1 e2 : Expr) : Cond :=
  let d := dropCommon e1 e2
  if isTrivialCmp d.1 d.2 then .bool (compare (fun _ => 0) op d.1 d.2 ^^ neg)
  else match op with
    | .lt => if neg then .cmp .le d.2 d.1 else .cmp .lt d.1 d.2
    | .le => if neg then .cmp .lt d.2 d.1 else .cmp .le d.1 d.2
    | .eq => (pushEqualZero d.1 d.2 (neg == false)).getD (.cmp (if neg then .ne else .eq) d.1 d.2)
    | .ne => (pushEqualZero d.1 d.2 (neg == true)).getD (.cmp (if neg then .eq else .ne) d.1 d.2)

/-- wraps a negation -/
def negIf (neg : Bool) (c : Cond) : Cond := if neg then .not c else c

/-- The context of the rewriting: marking (and its deadlock status) and whether the initial marking
may be used. -/
structure RwCtx where
  dl : Bool
  m0 : Mark
  initrw : Bool

/-- models src/PetriEngine/PQL/PushNegation.cpp:36-56 (`initialMarkingRW`, applied to the result). -/
def RwCtx.rw (K : RwCtx) (nested : Bool) (res : Cond) : Cond :=
  if nested = false ∧ K.initrw = true then
    match evaluate K.dl K.m0 res with
    | .rUnknown => res
    | .rTrue => .bool true
    | .rFalse => .bool false
  else res

/-- The recursive visitor: `nested`, `negated`, formula. -/
abbrev Visit := Bool → Bool → Cond → Option Cond

def Cond.isEF : Cond → Bool
  | .EF _ => true
  | _ => false

/-- visits the operands in turn and stops at the constant `stop` -/
def visitOps (v : Visit) (nested neg : Bool) (stop : Bool) : List Cond → Option (Sum Unit (List Cond))
  | [] => some (.inr [])
  | c :: cs =>
    match v nested neg c with
    | none => none
    | some n =>
      match n with
      | .bool b =>
        if b = stop then some (.inl ())
        else visitOps v nested neg stop cs
      | n =>
        match visitOps v nested neg stop cs with
        | none => none
        | some (.inl ()) => some (.inl ())
        | some (.inr ns) => some (.inr (n :: ns))

/-- operands of the `EF`s (or negated `EF`s), in order -/
def efArg : Cond → Option Cond
  | .EF c => some c
  | _ => none
def nefArg : Cond → Option Cond
  | .not (.EF c) => some c
  | _ => none

/-- models src/PetriEngine/PQL/PushNegation.cpp:484-507: the result of `pushAnd` for the visited
operands. -/
def andResult (ns : List Cond) : Cond :=
  match ns.filterMap nefArg, ns.filter (fun c => (nefArg c).isNone) with
  | [], [] => .bool true
  | [], [c] => c
  | [x], [] => .not (.EF x)
  | [], other => makeAnd other
  | nef, [] => .not (.EF (makeOr nef))
  | nef, other => makeAnd (other ++ [.not (.EF (makeOr nef))])

/-- models src/PetriEngine/PQL/PushNegation.cpp:517-535: the result of `pushOr`. -/
def orResult (ns : List Cond) : Cond :=
  match ns.filterMap efArg, ns.filter (fun c => (efArg c).isNone) with
  | [], [] => .bool false
  | [], [c] => c
  | [x], [] => .EF x
  | [], other => makeOr other
  | nef, [] => .EF (makeOr nef)
  | nef, other => makeOr (other ++ [.EF (makeOr nef)])

/-- models src/PetriEngine/PQL/PushNegation.cpp:478-508 (`pushAnd`). -/
def pushAnd (v : Visit) (nested neg : Bool) (cs : List Cond) : Option Cond :=
  (visitOps v nested neg false cs).map fun
    | .inl () => .bool false
    | .inr ns => andResult ns

/-- models src/PetriEngine/PQL/PushNegation.cpp:510-536 (`pushOr`). -/
def pushOr (v : Visit) (nested neg : Bool) (cs : List Cond) : Option Cond :=
  (visitOps v nested neg true cs).map fun
    | .inl () => .bool true
    | .inr ns => orResult ns

/-- models src/PetriEngine/PQL/PushNegation.cpp:126-146 (`EXCondition`). -/
def pushEX (v : Visit) (nested neg : Bool) (c : Cond) : Option Cond := do
  let a ← v true neg c
  if neg then v nested false (.AX a)
  else match a with
    | .bool false => some (.bool false)
    | .bool true => some (.not .dead)
    | a => some (.EX a)

/-- models src/PetriEngine/PQL/PushNegation.cpp:148-168 (`AXCondition`). -/
def pushAX (v : Visit) (nested neg : Bool) (c : Cond) : Option Cond := do
  let a ← v true neg c
  if neg then v nested false (.EX a)
  else match a with
    | .bool true => some (.bool true)
    | .bool false => some .dead
    | a => some (.AX a)

/-- models src/PetriEngine/PQL/PushNegation.cpp:171-222 (`EFCondition`). -/
def pushEF (v : Visit) (nested neg : Bool) (c : Cond) : Option Cond := do
  let a ← v true false c
  match a with
  | .not .dead => v nested neg (.not .dead)
  | .EF x => some (negIf neg (.EF x))
  | .AF x => v nested neg (.EF x)
  | .EU _ y => v nested neg (.EF y)
  | .AU _ y => v nested neg (.EF y)
  | .or cs => if anyTemporal cs then v nested neg (makeOr (cs.map .EF)) else some (negIf neg (.EF (.or cs)))
  | a => some (negIf neg (.EF a))

/-- models src/PetriEngine/PQL/PushNegation.cpp:225-266 (`AFCondition`). -/
def pushAF (v : Visit) (nested neg : Bool) (c : Cond) : Option Cond := do
  let a ← v true false c
  match a with
  | .not .dead => v nested neg (.not .dead)
  | .AF x => some (negIf neg (.AF x))
  | .EF x => some (negIf neg (.EF x))
  | .or cs =>
    let pef := cs.filter Cond.isEF
    let npef := cs.filter (fun c => !c.isEF)
    if pef.isEmpty then some (negIf neg (.AF (.or cs)))
    else v nested neg (makeOr (pef ++ [.AF (makeOr npef)]))
  | .AU _ y => v nested neg (.AF y)
  | a => some (negIf neg (.AF a))

/-- `a` and `b` after their visits, in the order of the tests of the two `until` visitors: the rules
about deadlocks. -/
def untilDead (a b : Cond) : Option (Sum Unit Unit) :=
  match b with
  | .not .dead => some (.inl ())
  | .not _ => none
  | _ => match a with
    | .dead => some (.inl ())
    | .not .dead => some (.inr ())
    | _ => none

/-- models src/PetriEngine/PQL/PushNegation.cpp:268-327 (`AUCondition`). -/
def pushAU (v : Visit) (nested neg : Bool) (c d : Cond) : Option Cond := do
  let b ← v true false d
  let a ← v true false c
  match untilDead a b with
  | some (.inl ()) => v nested neg b
  | some (.inr ()) => v nested neg (.AF b)
  | none =>
    match b with
    | .AF x => v nested neg (.AF x)
    | .EF x => some (negIf neg (.EF x))
    | .or cs =>
      let pef := cs.filter Cond.isEF
      let npef := cs.filter (fun c => !c.isEF)
      if pef.isEmpty then some (negIf neg (.AU a (.or cs)))
      else v nested neg (makeOr (if npef.isEmpty then pef else pef ++ [.AU c (makeOr npef)]))
    | b => some (negIf neg (.AU a b))

/-- models src/PetriEngine/PQL/PushNegation.cpp:330-377 (`EUCondition`). -/
def pushEU (v : Visit) (nested neg : Bool) (c d : Cond) : Option Cond := do
  let b ← v true false d
  let a ← v true false c
  match untilDead a b with
  | some (.inl ()) => v nested neg b
  | some (.inr ()) => v nested neg (.EF b)
  | none =>
    match b with
    | .EF x => some (negIf neg (.EF x))
    | .or cs =>
      let pef := cs.filter Cond.isEF
      let npef := cs.filter (fun c => !c.isEF)
      if pef.isEmpty then some (negIf neg (.EU a (.or cs)))
      else v nested neg (makeOr (if npef.isEmpty then pef else pef ++ [.EU c (makeOr npef)]))
    | b => some (negIf neg (.EU a b))

/-- models src/PetriEngine/PQL/PushNegation.cpp:380-398 (`UntilCondition`). -/
def pushU (v : Visit) (neg : Bool) (c d : Cond) : Option Cond := do
  let b ← v true false d
  let a ← v true false c
  match b with
  | .F x => some (negIf neg (.F x))
  | b => some (negIf neg (.U a b))

/-- models src/PetriEngine/PQL/PushNegation.cpp:400-409 (`XCondition`). -/
def pushX (v : Visit) (neg : Bool) (c : Cond) : Option Cond := do
  let a ← v true neg c
  match a with
  | .bool b => some (.bool b)
  | a => some (.X a)

/-- models src/PetriEngine/PQL/PushNegation.cpp:411-446 (`FCondition`). -/
def pushF (v : Visit) (nested neg : Bool) (c : Cond) : Option Cond := do
  let a ← v true false c
  match a with
  | .F x => some (negIf neg (.F x))
  | .U _ y => v nested neg (.F y)
  | .or cs => if anyTemporal cs then v nested neg (makeOr (cs.map .F)) else some (negIf neg (.F (.or cs)))
  | a => some (negIf neg (.F a))

/-- One visit, given the visitor for the recursive calls.  `EG`, `AG`, `A`, `G` build the dual
formula and visit it; they and `E` (src/PetriEngine/PQL/PushNegation.cpp:448-459) do not call
`initialMarkingRW` themselves. -/
def pushStep (K : RwCtx) (v : Visit) (nested neg : Bool) : Cond → Option Cond
  | .bool b => some (K.rw nested (.bool (b ^^ neg)))
  | .dead => some (K.rw nested (negIf neg .dead))
  | .cmp op e1 e2 => some (K.rw nested (pushCmp neg op e1 e2))
  | .cc l n => some (K.rw nested (.cc l (n ^^ neg)))
  | .not c => (v nested (!neg) c).map (K.rw nested)
  | .and cs => (if neg then pushOr v nested true cs else pushAnd v nested false cs).map (K.rw nested)
  | .or cs => (if neg then pushAnd v nested true cs else pushOr v nested false cs).map (K.rw nested)
  | .EX c => (pushEX v nested neg c).map (K.rw nested)
  | .AX c => (pushAX v nested neg c).map (K.rw nested)
  | .EF c => (pushEF v nested neg c).map (K.rw nested)
  | .AF c => (pushAF v nested neg c).map (K.rw nested)
  | .EG c => v nested (!neg) (.AF (.not c))
  | .AG c => v nested (!neg) (.EF (.not c))
  | .EU c d => (pushEU v nested neg c d).map (K.rw nested)
  | .AU c d => (pushAU v nested neg c d).map (K.rw nested)
  | .E c => (v nested neg c).map (fun a => if neg then .A a else .E a)
  | .A c => v nested (!neg) (.E (.not c))
  | .X c => (pushX v neg c).map (K.rw nested)
  | .F c => (pushF v nested neg c).map (K.rw nested)
  | .G c => v nested (!neg) (.F (.not c))
  | .U c d => (pushU v neg c d).map (K.rw nested)

/-- models src/PetriEngine/PQL/PushNegation.cpp:65-70 (`pushNegation`). -/
def pushNegation (K : RwCtx) : Nat → Visit
  | 0 => fun _ _ _ => none
  | f + 1 => pushStep K (pushNegation K f)

end PQL
end Verif
