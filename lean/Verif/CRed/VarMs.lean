import Verif.CPN.Unfold

/-!
# Texts, weights and variable multisets of arc expressions

Models `src/PetriEngine/Colored/CExprToString.cpp`, `weight()` of `include/PetriEngine/Colored/Expressions.h`,
`src/PetriEngine/Colored/VarMultiset.cpp` and `src/PetriEngine/Colored/ArcVarMultisetVisitor.cpp`, as used by the coloured
reductions.  `none` is an exception or a failed assertion.
-/

namespace Verif
namespace CRed
open CPN

/-! ### Texts -/

/-- The names of the variables and of the colours (`Variable::name`, `Color::toString`). -/
structure Names where
  var : Nat → String
  col : Color → String

/-- A piece of printed text: names, numbers, and the signs of the printer.  (In the code the pieces are one string, so
that a name with a sign in it can be confused with an expression; here it cannot.) -/
inductive Tok
  | name (s : String)
  | num (k : Nat)
  | sign (s : String)
deriving DecidableEq, Repr

/-- the pieces, separated by a sign -/
def joinT (sep : String) : List (List Tok) → List Tok
  | [] => []
  | [a] => a
  | a :: b :: l => a ++ .sign sep :: joinT sep (b :: l)

mutual
/-- models src/PetriEngine/Colored/CExprToString.cpp:21-52. -/
def exprText (nm : Names) : CExpr → List Tok
  | .dot => [.name "dot"]
  | .var v => [.name (nm.var v)]
  | .const c => [.name (nm.col c)]
  | .succ e => exprText nm e ++ [.sign "++"]
  | .pred e => exprText nm e ++ [.sign "--"]
  | .tuple es =>
    if es.length > 1 then .sign "(" :: joinT "," (exprTexts nm es) ++ [.sign ")"] else joinT "," (exprTexts nm es)
def exprTexts (nm : Names) : List CExpr → List (List Tok)
  | [] => []
  | e :: es => exprText nm e :: exprTexts nm es
end

/-- models src/PetriEngine/Colored/CExprToString.cpp:54-95. -/
def guardText (nm : Names) : Guard → List Tok
  | .lt a b => exprText nm a ++ .sign " < " :: exprText nm b
  | .le a b => exprText nm a ++ .sign " <= " :: exprText nm b
  | .eq a b => exprText nm a ++ .sign " == " :: exprText nm b
  | .ne a b => exprText nm a ++ .sign " != " :: exprText nm b
  | .and a b => .sign "(" :: guardText nm a ++ .sign " && " :: guardText nm b ++ [.sign ")"]
  | .or a b => .sign "(" :: guardText nm a ++ .sign " || " :: guardText nm b ++ [.sign ")"]

mutual
/-- models src/PetriEngine/Colored/CExprToString.cpp:101-141. -/
def arcText (nm : Names) : ArcE → List Tok
  | .num n es => .num n :: .sign "'(" :: joinT " + " (es.map (exprText nm)) ++ [.sign ")"]
  | .add as => .sign "(" :: joinT " + " (arcTexts nm as) ++ [.sign ")"]
  | .sub a b => .sign "(" :: arcText nm a ++ .sign " - " :: arcText nm b ++ [.sign ")"]
  | .scal k a => .sign "(" :: .num k :: .sign " * " :: arcText nm a ++ [.sign ")"]
def arcTexts (nm : Names) : List ArcE → List (List Tok)
  | [] => []
  | a :: as => arcText nm a :: arcTexts nm as
end

/-! ### Weights -/

mutual
/-- models `weight()` (include/PetriEngine/Colored/Expressions.h:334-336, 382-388, 426-428, 457-459), in 32 bits. -/
def arcWeight : ArcE → Nat
  | .num n es => (n * es.length) % W32
  | .add as => arcWeights as
  | .sub a b => (arcWeight a + W32 - arcWeight b) % W32
  | .scal k a => (k * arcWeight a) % W32
def arcWeights : List ArcE → Nat
  | [] => 0
  | a :: as => (arcWeight a + arcWeights as) % W32
end

/-! ### Variable multisets -/

/-- models include/PetriEngine/Colored/VarMultiset.h:20-27 (`_set`, `_types`): tuples of variables and numbers. -/
structure VMS where
  types : List Nat := []
  set : List (List Nat × Nat) := []
deriving DecidableEq, Repr

/-- the number stored for a tuple, 0 if there is none -/
def vlook : List (List Nat × Nat) → List Nat → Nat
  | [], _ => 0
  | q :: l, vs => if q.1 = vs then q.2 else vlook l vs

/-- models src/PetriEngine/Colored/VarMultiset.cpp:74-81 (`operator[] const`). -/
def VMS.get (m : VMS) (vs : List Nat) : Nat := if m.types = [] then 0 else vlook m.set vs

/-- adds `k`, in 32 bits, to the number of a tuple, which is appended if missing
(src/PetriEngine/Colored/VarMultiset.cpp:83-91) -/
def vbump : List (List Nat × Nat) → List Nat → Nat → List (List Nat × Nat)
  | [], vs, k => [(vs, k % W32)]
  | q :: l, vs, k => if q.1 = vs then (vs, (q.2 + k) % W32) :: l else q :: vbump l vs k

/-- models src/PetriEngine/Colored/VarMultiset.cpp:11-13 (the constructor with a tuple and a number). -/
def VMS.single (vty : Nat → Nat) (vs : List Nat) (n : Nat) : VMS := ⟨vs.map vty, [(vs, n % W32)]⟩

def vaddAll : List (List Nat × Nat) → List (List Nat × Nat) → List (List Nat × Nat)
  | l, [] => l
  | l, q :: r => vaddAll (vbump l q.1 q.2) r

/-- models src/PetriEngine/Colored/VarMultiset.cpp:50-57 (`+=`). -/
def VMS.add (m o : VMS) : Option VMS :=
  let ts := if m.types = [] then o.types else m.types
  if ts ≠ o.types then none else some ⟨ts, vaddAll m.set o.set⟩

/-- models src/PetriEngine/Colored/VarMultiset.cpp:59-66 (`-=`). -/
def VMS.sub (m o : VMS) : Option VMS :=
  let ts := if m.types = [] then o.types else m.types
  if o.types ≠ [] ∧ ts ≠ o.types then none
  else some ⟨ts, m.set.map fun q => (q.1, if q.2 < o.get q.1 then 0 else q.2 - o.get q.1)⟩

/-- models src/PetriEngine/Colored/VarMultiset.cpp:68-72 (`*=`). -/
def VMS.scale (m : VMS) (k : Nat) : VMS := ⟨m.types, m.set.map fun q => (q.1, (q.2 * k) % W32)⟩

/-- models src/PetriEngine/Colored/VarMultiset.cpp:93-99 (`size`, 64 bits wide). -/
def VMS.size (m : VMS) : Nat := (m.set.map (·.2)).sum

/-- models include/PetriEngine/Colored/VarMultiset.h:72-74 (`empty`). -/
def VMS.empty (m : VMS) : Bool := m.size == 0

/-- models src/PetriEngine/Colored/VarMultiset.cpp:109-113 (`isSubsetOrEqTo`). -/
def VMS.subEq (m o : VMS) : Option Bool := (m.sub o).map VMS.empty

/-- models src/PetriEngine/Colored/VarMultiset.cpp:101-107 (`isSubsetOf`). -/
def VMS.subset (m o : VMS) : Option Bool :=
  (m.sub o).bind fun a => (o.sub m).map fun b => a.empty && !b.empty

/-- models src/PetriEngine/Colored/VarMultiset.cpp:24-30 (`operator==`). -/
def VMS.eq (m o : VMS) : Option Bool :=
  (m.sub o).bind fun a => (o.sub m).map fun b => a.empty && b.empty

/-- models src/PetriEngine/Colored/VarMultiset.cpp:195-201 (`distinctSize`). -/
def VMS.distinct (m : VMS) : Nat := (m.set.filter fun q => decide (q.2 > 0)).length

/-- the loop of src/PetriEngine/Colored/VarMultiset.cpp:137-141 -/
def fitLoop (m : VMS) : List (List Nat × Nat) → Nat → Nat
  | [], k => k
  | q :: l, k => fitLoop m l (if m.get q.1 ≠ 0 then min k (q.2 / m.get q.1) else k)

/-- models src/PetriEngine/Colored/VarMultiset.cpp:130-143 (`numberOfTimesThisFitsInto`). -/
def VMS.fits (m o : VMS) : Option Nat :=
  if m.types = [] then some (W32 - 1)
  else if m.types ≠ o.types then none
  else (m.subEq o).map fun b => if b then fitLoop m o.set (W32 - 1) else 0

/-- models src/PetriEngine/Colored/VarMultiset.cpp:145-149 (`divides`). -/
def VMS.divides (m o : VMS) : Option Bool :=
  (m.fits o).bind fun k => (o.sub (m.scale k)).map VMS.empty

/-! ### Extraction -/

/-- models src/PetriEngine/Colored/ArcVarMultisetVisitor.cpp:18-29 inside a tuple; `some none` is `_ok = false`. -/
def tupleVars : List CExpr → Option (Option (List Nat))
  | [] => some (some [])
  | .var v :: es => (tupleVars es).map fun r => r.map (v :: ·)
  | .tuple _ :: _ => none
  | _ :: _ => some none

/-- models src/PetriEngine/Colored/ArcVarMultisetVisitor.cpp:11-29. -/
def exprVars : CExpr → Option (Option (List Nat))
  | .var v => some (some [v])
  | .tuple es => tupleVars es
  | _ => some none

/-- the loop of src/PetriEngine/Colored/ArcVarMultisetVisitor.cpp:33-37 -/
def numLoop (vty : Nat → Nat) (n : Nat) : List CExpr → VMS → Option (Option VMS)
  | [], m => some (some m)
  | e :: es, m =>
    match exprVars e with
    | none => none
    | some none => some none
    | some (some vs) => (m.add (.single vty vs n)).bind fun m' => numLoop vty n es m'

mutual
/-- models src/PetriEngine/Colored/ArcVarMultisetVisitor.cpp:31-65 (`extractVarMultiset`); `some none` is `nullopt`. -/
def extract (vty : Nat → Nat) : ArcE → Option (Option VMS)
  | .num n es => numLoop vty n es {}
  | .add as => extractL vty as {}
  | .sub _ _ => some none
  | .scal k a => (extract vty a).map fun r => r.map fun m => m.scale k
def extractL (vty : Nat → Nat) : List ArcE → VMS → Option (Option VMS)
  | [], m => some (some m)
  | a :: as, m =>
    match extract vty a with
    | none => none
    | some none => some none
    | some (some m') => (m.add m').bind fun m'' => extractL vty as m''
end

end CRed
end Verif
