import Verif.PQL.Merge

/-!
# From CTL* to CTL

Models `src/PetriEngine/PQL/CTLVisitor.cpp`: `IsCTLVisitor` decides whether a query is a CTL formula and `AsCTL`
writes pairs of quantifier and path operator as CTL operators.  `getCTLQueries` (src/VerifyPN.cpp:361-376) applies the
second to the queries the first accepts.
-/

namespace Verif
namespace PQL
namespace Ctl

/-- models include/PetriEngine/PQL/CTLVisitor.h:8 (`CTLSyntaxType`), with a value for the uninitialised field. -/
inductive Ty
  | boolean
  | path
  | error
deriving DecidableEq, Repr

/-- The fields `_cur_type` and `isCTL` of the visitor. -/
structure St where
  ty : Ty
  ok : Bool
deriving DecidableEq, Repr

/-- The check after a visit of an operand. -/
def St.need (t : Ty) (s : St) : St := if s.ty = t then s else { s with ok := false }

def St.set (t : Ty) (s : St) : St := { s with ty := t }

mutual
/-- models src/PetriEngine/PQL/CTLVisitor.cpp:22-246 (`IsCTLVisitor`).  Of `EU` and `AU` only the first operand is
visited. -/
def visit (s : St) : Cond → St
  | .bool _ | .dead | .cmp _ _ _ | .cc _ _ => s.set .boolean
  | .not c => (visit s c).need .boolean
  | .and cs => visits s cs
  | .or cs => visits s cs
  | .EX c | .AX c | .EF c | .AF c | .EG c | .AG c => (visit s c).need .boolean
  | .EU c _ | .AU c _ => (visit s c).need .boolean
  | .E c | .A c => ((visit s c).need .path).set .boolean
  | .X c | .F c | .G c => ((visit s c).need .boolean).set .path
  | .U c d => ((visit ((visit s c).need .boolean) d).need .boolean).set .path
/-- models src/PetriEngine/PQL/CTLVisitor.cpp:28-36: the loop over the operands stops at the first bad one. -/
def visits (s : St) : List Cond → St
  | [] => s
  | c :: cs => if (visit s c).ty = .boolean then visits (visit s c) cs else { visit s c with ok := false }
end

/-- The visitor accepts the query; `t` is the uninitialised type. -/
def isCTL (t : Ty) (c : Cond) : Bool := (visit ⟨t, true⟩ c).ok

mutual
/-- models src/PetriEngine/PQL/CTLVisitor.cpp:248-460 (`AsCTL`); `none` is a null pointer. -/
def asCTL : Cond → Option Cond
  | .bool b => some (.bool b)
  | .dead => some .dead
  | .cmp op e1 e2 => some (.cmp op e1 e2)
  | .cc l n => some (.cc l n)
  | .not c => (asCTL c).map .not
  | .and cs => (asCTLs cs).map fun ds => .and (logOperands false ds)
  | .or cs => (asCTLs cs).map fun ds => .or (logOperands true ds)
  | .EX c => (asCTL c).map .EX
  | .AX c => (asCTL c).map .AX
  | .EF c => (asCTL c).map .EF
  | .AF c => (asCTL c).map .AF
  | .EG c => (asCTL c).map .EG
  | .AG c => (asCTL c).map .AG
  | .EU c d => (asCTL c).bind fun c' => (asCTL d).map fun d' => .EU c' d'
  | .AU c d => (asCTL c).bind fun c' => (asCTL d).map fun d' => .AU c' d'
  | .A c => asPath .AX .AF .AG .AU c
  | .E c => asPath .EX .EF .EG .EU c
  | .X _ | .F _ | .G _ | .U _ _ => none
/-- models src/PetriEngine/PQL/CTLVisitor.cpp:345-409: the operand of a quantifier is looked at by its path operator
only (`getPath`), so a CTL operator there counts as its path operator; other operands give a null pointer. -/
def asPath (x f g : Cond → Cond) (u : Cond → Cond → Cond) : Cond → Option Cond
  | .X c | .EX c | .AX c => (asCTL c).map x
  | .F c | .EF c | .AF c => (asCTL c).map f
  | .G c | .EG c | .AG c => (asCTL c).map g
  | .U c d | .EU c d | .AU c d => (asCTL c).bind fun c' => (asCTL d).map fun d' => u c' d'
  | _ => none
def asCTLs : List Cond → Option (List Cond)
  | [] => some []
  | c :: cs => (asCTL c).bind fun c' => (asCTLs cs).map fun cs' => c' :: cs'
end

end Ctl
end PQL
end Verif
