import Verif.XCol.MultiSet
import Verif.CPN.Syntax
import Verif.Colored.Offsets

/-!
# Compiled arc expressions of the explicit coloured engine

Models `src/PetriEngine/ExplicitColored/ArcCompiler.cpp`.  A compiled expression is a tree; the values computed by the
constructors (minimal counts, minimal markings, variables) are functions here.  Numbers of tokens are unbounded (C49
treats the 32-bit arithmetic).  `ArcExpressionScale` (188-262) is never constructed and left out.
-/

namespace Verif
namespace XCol
open Colored

/-- models include/PetriEngine/ExplicitColored/Binding.h (`Binding`): a map from variables to colours. -/
abbrev Bind := Nat → Nat

/-- `Binding{}`: `getValue` gives the greatest `uint32_t` for a variable without a value (Binding.h:15-20). -/
def Bind.none : Bind := fun _ => 2 ^ 32 - 1

/-- models Binding.h:22-24 (`setValue`). -/
def Bind.set (b : Bind) (v c : Nat) : Bind := fun w => if w = v then c else b w

/-- models include/PetriEngine/ExplicitColored/ExpressionCompilers/ArcCompiler.h:16-61 (`ParameterizedColor`; the colour
`all` is never made by the parser). -/
structure PC where
  isVar : Bool
  value : Nat
  offset : Int
deriving DecidableEq, Repr

/-- the base of `addColorOffset`: the value of the variable, or the colour -/
def PC.base (b : Bind) (c : PC) : Nat := if c.isVar then b c.value else c.value

/-- models ArcCompiler.cpp:438-446: a component of a sequence. -/
def PC.val (b : Bind) (s : Nat) (c : PC) : Nat := (addColorOffset (c.base b) c.offset s).toNat

/-- models ArcCompiler.cpp:434-447: the components, each with its size.  More components than sizes do not occur. -/
def seqVals (b : Bind) : List Nat → List PC → List Nat
  | s :: ss, c :: cs => c.val b s :: seqVals b ss cs
  | _, _ => []

/-- models include/PetriEngine/ExplicitColored/ColorSequence.h:20-37: the number of a tuple (`none`, a division by zero,
does not occur for types with colours). -/
def pack (sizes vs : List Nat) : Nat := (seqEncode sizes vs).getD 0

/-- models ArcCompiler.cpp:434-449 (`getColorSequence`). -/
def seqColor (b : Bind) (sizes : List Nat) (q : List PC) : Nat := pack sizes (seqVals b sizes q)

/-- models the classes `ArcExpressionAddition` (ArcCompiler.cpp:8-88), `ArcExpressionSubtraction` (90-186),
`ArcExpressionConstant` (264-328) and `ArcExpressionVariableCollection` (330-457). -/
inductive Arc
  | add (l r : Arc)
  | sub (l r : Arc)
  | const (m : MS)
  | coll (seqs : List (List PC)) (sizes : List Nat) (count : Nat)
deriving DecidableEq

/-- models ArcCompiler.cpp:361-365, 368-370: the sequences are added one after the other. -/
def addSeqs (b : Bind) (sizes : List Nat) (k : Int) : List (List PC) → MS → MS
  | [], m => m
  | q :: qs, m => addSeqs b sizes k qs (m.addCount (seqColor b sizes q) k)

mutual
/-- models the functions `eval`: ArcCompiler.cpp:22-26, 116-120, 273-275, 355-359. -/
def Arc.eval (b : Bind) : Arc → MS
  | .add l r => (l.eval b).plus (r.eval b)
  | .sub l r => r.consume b (l.eval b)
  | .const m => m
  | .coll qs sizes k => addSeqs b sizes k qs MS.empty
/-- models the functions `consume`: ArcCompiler.cpp:33-37, 127-131, 281-284, 367-372. -/
def Arc.consume (b : Bind) : Arc → MS → MS
  | .add l r, out => (r.consume b (l.consume b out)).fixNegative
  | .sub l r, out => (out.minus (r.consume b (l.eval b))).fixNegative
  | .const m, out => (out.minus m).fixNegative
  | .coll qs sizes k, out => (addSeqs b sizes (-k) qs out).fixNegative
end

/-- models the functions `produce`: ArcCompiler.cpp:28-31, 122-125, 277-279, 361-365. -/
def Arc.produce (b : Bind) : Arc → MS → MS
  | .add l r, out => r.produce b (l.produce b out)
  | .sub l r, out => out.plus (Arc.eval b (.sub l r))
  | .const m, out => out.plus m
  | .coll qs sizes k, out => addSeqs b sizes k qs out

/-- models ArcCompiler.h:75-78, ArcCompiler.cpp:298-300 (`isSubSet`). -/
def Arc.isSubSet (a : Arc) (b : Bind) (m : MS) : Bool := (a.eval b).le m

/-- models `getUpperBoundMarkingCount`: ArcCompiler.cpp:77-79, 174-176, 319-321, 429-431. -/
def Arc.upper : Arc → Nat
  | .add l r => l.upper + r.upper
  | .sub l _ => l.upper
  | .const m => m.card.toNat
  | .coll qs _ k => qs.length * k

/-- models `_minimalMarkingCount`: ArcCompiler.cpp:12, 94-100, 268, 334. -/
def Arc.minCount : Arc → Nat
  | .add l r => l.minCount + r.minCount
  | .sub l r => if l.minCount < r.upper then 0 else l.minCount - r.upper
  | .const m => m.card.toNat
  | .coll qs _ k => qs.length * k

/-- models ArcCompiler.cpp:108-113: the number is taken from every entry. -/
def lessAll (m : MS) (k : Nat) : MS :=
  if k ≠ 0 then ((m.counts.map (·.1)).foldl (fun m c => m.addCount c (-k)) m).fixNegative else m

def hasVar (q : List PC) : Bool := q.any (·.isVar)

/-- models ArcCompiler.cpp:335-352: the sequences without variables are collected, the others counted. -/
def collMin (sizes : List Nat) (k : Nat) : List (List PC) → MS × Nat → MS × Nat
  | [], r => r
  | q :: qs, (m, n) =>
    if hasVar q then collMin sizes k qs (m, n + k)
    else collMin sizes k qs (m.addCount (seqColor Bind.none sizes q) k, n)

mutual
/-- models `_minimalColorMarking` (a multiset, and the number of tokens with variables): ArcCompiler.cpp:16-19, 104-113,
269-270, 335-352. -/
def Arc.minMark : Arc → MS × Nat
  | .add l r => (l.minMark.1.plus r.minMark.1, l.minMark.2 + r.minMark.2)
  | .sub l r => (lessAll (l.minMark.1.minus r.maxMark.1) r.maxMark.2, l.minMark.2)
  | .const m => (m, 0)
  | .coll qs sizes k => collMin sizes k qs (MS.empty, 0)
/-- models `getMaximalColorMarking`: ArcCompiler.cpp:47-52, 141-145, 294-296, 382-384. -/
def Arc.maxMark : Arc → MS × Nat
  | .add l r => (l.maxMark.1.plus r.maxMark.1, l.maxMark.2 + r.maxMark.2)
  | .sub l r => (l.minMark.1.minus r.maxMark.1, l.minMark.2)
  | .const m => (m, 0)
  | .coll qs sizes k => collMin sizes k qs (MS.empty, 0)
end

def pcVars (q : List PC) : List Nat := (q.filter (·.isVar)).map (·.value)

/-- models `getVariables`: ArcCompiler.cpp:13-15, 101-103, 302-304, 339-344 (a set in the code). -/
def Arc.vars : Arc → List Nat
  | .add l r => l.vars ++ r.vars
  | .sub l r => l.vars ++ r.vars
  | .const _ => []
  | .coll qs _ _ => (qs.map pcVars).flatten

/-- models include/PetriEngine/ExplicitColored/SuccessorGenerator/VariableConstraint.h; `top`: the index is the greatest
`uint32_t`. -/
inductive VC
  | top
  | at (index : Nat) (offset : Int) (place : Nat)
deriving DecidableEq, Repr

/-- models ArcCompiler.cpp:412-420. -/
def seqCons (v p : Nat) : Nat → List PC → List VC
  | _, [] => []
  | i, c :: cs => if c.isVar ∧ c.value = v then .at i c.offset p :: seqCons v p (i + 1) cs else seqCons v p (i + 1) cs

/-- models `calculateVariableConstraints`: ArcCompiler.cpp:66-71, 159-167, 310-312, 409-423. -/
def Arc.cons (v p : Nat) : Arc → List VC
  | .add l r => r.cons v p ++ l.cons v p
  | .sub l r => if v ∈ r.vars ∨ v ∈ l.vars then [.top] else []
  | .const _ => []
  | .coll qs _ _ => (qs.map (seqCons v p 0)).flatten

/-! ## The compiler -/

open CPN

/-- models ArcCompiler.cpp:459-534 (`ArcExpressionColorVisitor`): a colour with an offset, and the size of the type of the
innermost expression.  `none`: an exception. -/
def compColor (T : Types) (vty : Nat → Nat) : CExpr → Option (PC × Nat)
  | .dot => some (⟨false, 0, 0⟩, 1)
  | .var v => some (⟨true, v, 0⟩, T.size (vty v))
  | .const c => some (⟨false, c.id, 0⟩, T.size c.ty)
  | .succ e => (compColor T vty e).map fun r => ({ r.1 with offset := r.1.offset + 1 }, r.2)
  | .pred e => (compColor T vty e).map fun r => ({ r.1 with offset := r.1.offset - 1 }, r.2)
  | .tuple _ => none

def compColors (T : Types) (vty : Nat → Nat) : List CExpr → Option (List PC × List Nat)
  | [] => some ([], [])
  | e :: es =>
    match compColor T vty e, compColors T vty es with
    | some (c, s), some (cs, ss) => some (c :: cs, s :: ss)
    | _, _ => none

/-- models ArcCompiler.cpp:547-576, 619-657: a collection of one sequence. -/
def compSeq (T : Types) (vty : Nat → Nat) (e : CExpr) : Option (List PC × List Nat) :=
  match e with
  | .tuple es => compColors T vty es
  | e => (compColor T vty e).map fun r => ([r.1], [r.2])

mutual
/-- models ArcCompiler.cpp:536-679 (`ArcExpressionCompilerVisitor`).  `none`: an exception, or the use of a missing
expression. -/
def compArc (T : Types) (vty : Nat → Nat) (scale : Nat) : ArcE → Option Arc
  | .num n es =>
    match es with
    | [e] => (compSeq T vty e).map fun r => .coll [r.1] r.2 (scale * n)
    | _ => none
  | .add as =>
    match compArcs T vty scale as with
    | some (c :: cs) => some (cs.foldl .add c)
    | _ => none
  | .sub a b =>
    match compArc T vty scale a, compArc T vty scale b with
    | some l, some r => some (.sub l r)
    | _, _ => none
  | .scal k a => compArc T vty (scale * k) a
def compArcs (T : Types) (vty : Nat → Nat) (scale : Nat) : List ArcE → Option (List Arc)
  | [] => some []
  | a :: as =>
    match compArc T vty scale a, compArcs T vty scale as with
    | some c, some cs => some (c :: cs)
    | _, _ => none
end

/-- models ArcCompiler.cpp:708-725: the sequences without variables become a constant; each of their components is
reduced with the size at the index of the *sequence*. -/
def splitConst (sizes : List Nat) (k : Nat) : Nat → List (List PC) → MS → List (List PC) → MS × List (List PC)
  | _, [], m, rest => (m, rest)
  | i, q :: qs, m, rest =>
    if hasVar q then splitConst sizes k (i + 1) qs m (rest ++ [q])
    else splitConst sizes k (i + 1) qs
      (m.addCount (pack sizes (q.map fun c => c.val Bind.none (sizes.getD i 0))) k) rest

/-- models ArcCompiler.cpp:692-749 (`replaceConstants`).  The loop runs over a vector that grows in its body, with the
end taken before the first pass: only the whole expression is looked at (growing the vector invalidates the iterators,
which is undefined; this is what happens when nothing else does).  `preCalculate` (751-797) looks for additions and
subtractions of two constants, of which there are none then. -/
def replaceConstants : Arc → Option Arc
  | .coll qs sizes k =>
    match splitConst sizes k 0 qs MS.empty [] with
    | (m, rest) =>
      if m.card > 0 ∧ rest ≠ [] then some (.add (.const m) (.coll rest sizes k))
      else if m.card > 0 then some (.const m)
      else if rest ≠ [] then some (.coll rest sizes k)
      else none
  | a => some a

/-- models ArcCompiler.cpp:681-690 (`compile`). -/
def compile (T : Types) (vty : Nat → Nat) (e : ArcE) : Option Arc := (compArc T vty 1 e).bind replaceConstants

end XCol
end Verif
