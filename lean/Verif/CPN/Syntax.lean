import Verif.Net.BuilderSpec

/-!
# Coloured nets

Models `include/PetriEngine/Colored/Colors.h`, `Expressions.h` and `ColoredNetStructures.h`.  A pointer to a colour type
or to a variable is a number.
-/

namespace Verif
namespace CPN

/-- models include/PetriEngine/Colored/Colors.h:45-115 (`Color`): colours of one type are numbered from 0. -/
structure Color where
  ty : Nat
  id : Nat
deriving DecidableEq, Repr

/-- models the colour types of a net (include/PetriEngine/Colored/Colors.h:117-285): the sizes of the types that are not
products, and the product types with their constituents in the order in which the map of the types (`ColorTypeMap`, an
unordered map) is traversed.  Constituents of products are not products themselves (the code sums over all constituents without descending, so this is a restriction). -/
structure Types where
  basic : Nat → Nat
  prods : List (Nat × List Nat)

/-- The constituents of a type. -/
def Types.parts (T : Types) (ty : Nat) : Option (List Nat) := T.prods.lookup ty

/-- models include/PetriEngine/Colored/Colors.h:117-220 (`size`). -/
def Types.size (T : Types) (ty : Nat) : Nat :=
  match T.parts ty with
  | none => T.basic ty
  | some cs => (cs.map T.basic).prod

/-- `ColorType::dotInstance()` (src/PetriEngine/Colored/Colors.cpp:158-165) is type 0. -/
def dotTy : Nat := 0

/-- models include/PetriEngine/Colored/Expressions.h:53-210 (colour expressions). -/
inductive CExpr
  | dot
  | var (v : Nat)
  | const (c : Color)
  | succ (e : CExpr)
  | pred (e : CExpr)
  | tuple (es : List CExpr)

/-- models include/PetriEngine/Colored/Expressions.h:211-290 (guards). -/
inductive Guard
  | lt (a b : CExpr)
  | le (a b : CExpr)
  | eq (a b : CExpr)
  | ne (a b : CExpr)
  | and (a b : Guard)
  | or (a b : Guard)

/-- models include/PetriEngine/Colored/Expressions.h:291-480 (arc expressions). -/
inductive ArcE
  | num (n : Nat) (es : List CExpr)
  | add (as : List ArcE)
  | sub (a b : ArcE)
  | scal (k : Nat) (a : ArcE)

/-- models include/PetriEngine/Colored/ColoredNetStructures.h:37-48 (`Arc`). -/
structure CArc where
  place : Nat
  expr : ArcE

/-- models include/PetriEngine/Colored/ColoredNetStructures.h:69-79 (`Place`); the marking lists colours and numbers of
tokens. -/
structure CPlace where
  name : String
  ty : Nat
  marking : List (Nat × Nat)

/-- models include/PetriEngine/Colored/ColoredNetStructures.h:58-67 (`Transition`; player and coordinates dropped). -/
structure CTrans where
  name : String
  guard : Option Guard
  inputs : List CArc
  outputs : List CArc

/-- an inhibitor arc (`_inhibitorArcs`, src/PetriEngine/Colored/ColoredPetriNetBuilder.cpp:135-182) -/
structure CInhib where
  place : Nat
  trans : Nat
  weight : Nat

/-- models include/PetriEngine/Colored/ColoredPetriNetBuilder.h (data members).  `vty` gives the types of the variables.
Places and transitions that an earlier coloured reduction skipped are left out. -/
structure CNet where
  types : Types
  vty : Nat → Nat
  places : List CPlace
  transitions : List CTrans
  inhibitors : List CInhib

def CNet.place (N : CNet) (p : Nat) : CPlace := N.places.getD p ⟨"", 0, []⟩
def CNet.trans (N : CNet) (t : Nat) : CTrans := N.transitions.getD t ⟨"", none, [], []⟩

mutual
/-- the variables of a colour expression (include/PetriEngine/Colored/VariableVisitor.h:40-195) -/
def CExpr.vars : CExpr → List Nat
  | .dot => []
  | .var v => [v]
  | .const _ => []
  | .succ e => e.vars
  | .pred e => e.vars
  | .tuple es => CExpr.varsL es
def CExpr.varsL : List CExpr → List Nat
  | [] => []
  | e :: es => e.vars ++ CExpr.varsL es
end

/-- VariableVisitor.h:142-196 -/
def Guard.vars : Guard → List Nat
  | .lt a b => a.vars ++ b.vars
  | .le a b => a.vars ++ b.vars
  | .eq a b => a.vars ++ b.vars
  | .ne a b => a.vars ++ b.vars
  | .and a b => a.vars ++ b.vars
  | .or a b => a.vars ++ b.vars

mutual
/-- VariableVisitor.h:202-266, with the subtracted expressions -/
def ArcE.vars : ArcE → List Nat
  | .num _ es => CExpr.varsL es
  | .add as => ArcE.varsL as
  | .sub a b => a.vars ++ b.vars
  | .scal _ a => a.vars
def ArcE.varsL : List ArcE → List Nat
  | [] => []
  | a :: as => a.vars ++ ArcE.varsL as
end

def guardVars : Option Guard → List Nat
  | none => []
  | some g => g.vars

def arcsVars (l : List CArc) : List Nat := (l.map fun a => a.expr.vars).flatten

/-- keeps the last of equal elements -/
def dedup : List Nat → List Nat
  | [] => []
  | x :: l => if x ∈ l then dedup l else x :: dedup l

/-- models src/PetriEngine/Colored/BindingGenerator.cpp:54-69: the variables of a transition, a set. -/
def CTrans.vars (t : CTrans) : List Nat := dedup (guardVars t.guard ++ arcsVars t.inputs ++ arcsVars t.outputs)

end CPN
end Verif
