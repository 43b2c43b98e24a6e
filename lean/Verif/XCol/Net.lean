import Verif.XCol.Arc

/-!
# The nets of the explicit coloured engine

Models `src/PetriEngine/ExplicitColored/ExpressionCompilers/GuardCompiler.cpp`,
`src/PetriEngine/ExplicitColored/ExplicitColoredPetriNetBuilder.cpp` and
`include/PetriEngine/ExplicitColored/ColoredPetriNet.h`.
-/

namespace Verif
namespace XCol
open Colored CPN

/-! ## Guards -/

/-- models GuardCompiler.cpp:17-34 (`VarOrColorWithOffset`) with its bit of the type flags. -/
structure GV where
  isVar : Bool
  value : Nat
  offset : Int
  max : Nat
deriving DecidableEq, Repr

/-- models GuardCompiler.cpp:22-33 (`getLhs`, `getRhs`). -/
def GV.get (b : Bind) (g : GV) : Nat :=
  if g.isVar then (addColorOffset (b g.value) g.offset g.max).toNat else g.value

/-- models the classes of GuardCompiler.cpp:36-195; conjunctions and disjunctions have two parts here. -/
inductive XGuard
  | lt (a b : GV)
  | le (a b : GV)
  | eq (as bs : List GV)
  | ne (as bs : List GV)
  | and (g h : XGuard)
  | or (g h : XGuard)

/-- models GuardCompiler.cpp:130-143 (the loop of `CompiledGuardEqualityExpression::eval`). -/
def eqLoop (b : Bind) : List GV → List GV → Bool
  | x :: xs, y :: ys => if x.get b ≠ y.get b then false else eqLoop b xs ys
  | _, _ => true

/-- models GuardCompiler.cpp:166-179 (the loop of `CompiledGuardInequalityExpression::eval`). -/
def neLoop (b : Bind) : List GV → List GV → Bool
  | x :: xs, y :: ys => if x.get b ≠ y.get b then true else neLoop b xs ys
  | _, _ => false

/-- models the functions `eval` of GuardCompiler.cpp:36-195. -/
def XGuard.eval (b : Bind) : XGuard → Bool
  | .lt x y => decide (x.get b < y.get b)
  | .le x y => decide (x.get b ≤ y.get b)
  | .eq xs ys => eqLoop b xs ys
  | .ne xs ys => neLoop b xs ys
  | .and g h => if !g.eval b then false else h.eval b
  | .or g h => if g.eval b then true else h.eval b

def gvVars (l : List GV) : List Nat := (l.filter (·.isVar)).map (·.value)

/-- models the functions `collectVariables` of GuardCompiler.cpp:48-154 (a set in the code). -/
def XGuard.vars : XGuard → List Nat
  | .lt x y => gvVars [x, y]
  | .le x y => gvVars [x, y]
  | .eq xs ys => gvVars xs ++ gvVars ys
  | .ne xs ys => gvVars xs ++ gvVars ys
  | .and g h => g.vars ++ h.vars
  | .or g h => g.vars ++ h.vars

/-- models GuardCompiler.cpp:197-241: the visit of a colour expression.  `none`: an exception. -/
def visitGV (T : Types) (vty : Nat → Nat) : CExpr → Option GV
  | .dot => none
  | .var v => some ⟨true, v, 0, T.size (vty v)⟩
  | .const c => some ⟨false, c.id, 0, T.size c.ty⟩
  | .succ e => (visitGV T vty e).map fun g => { g with offset := g.offset + 1 }
  | .pred e => (visitGV T vty e).map fun g => { g with offset := g.offset - 1 }
  | .tuple _ => none

/-- models GuardCompiler.cpp:242-247 (`getResult`). -/
def GV.result (g : GV) : GV :=
  if g.isVar then g else { g with value := (addColorOffset g.value g.offset g.max).toNat }

def compGV (T : Types) (vty : Nat → Nat) (e : CExpr) : Option GV := (visitGV T vty e).map GV.result

def compGVs (T : Types) (vty : Nat → Nat) : List CExpr → Option (List GV)
  | [] => some []
  | e :: es =>
    match compGV T vty e, compGVs T vty es with
    | some g, some gs => some (g :: gs)
    | _, _ => none

/-- models GuardCompiler.cpp:366-382 (`ParseSequence`). -/
def parseSeq (T : Types) (vty : Nat → Nat) (e : CExpr) : Option (List GV) :=
  match e with
  | .tuple es => compGVs T vty es
  | e => (compGV T vty e).map fun g => [g]

/-- models GuardCompiler.cpp:263-335.  `none`: an exception. -/
def compGuard (T : Types) (vty : Nat → Nat) : Guard → Option XGuard
  | .lt x y =>
    match compGV T vty x, compGV T vty y with
    | some g, some h => some (.lt g h)
    | _, _ => none
  | .le x y =>
    match compGV T vty x, compGV T vty y with
    | some g, some h => some (.le g h)
    | _, _ => none
  | .eq x y =>
    match parseSeq T vty x, parseSeq T vty y with
    | some g, some h => if g.length ≠ h.length then none else some (.eq g h)
    | _, _ => none
  | .ne x y =>
    match parseSeq T vty x, parseSeq T vty y with
    | some g, some h => if g.length ≠ h.length then none else some (.ne g h)
    | _, _ => none
  | .and x y =>
    match compGuard T vty x, compGuard T vty y with
    | some g, some h => some (.and g h)
    | _, _ => none
  | .or x y =>
    match compGuard T vty x, compGuard T vty y with
    | some g, some h => some (.or g h)
    | _, _ => none

/-! ## Nets -/

/-- models ColoredPetriNet.h:13-18 (`ColoredPetriNetTransition`), with the arcs of the transition (`_transitionArcs`,
`_transitionInhibitors`).  Arcs: a place and an expression.  `cons`: `preplacesVariableConstraints`. -/
structure XTrans where
  guard : Option XGuard
  inputs : List (Nat × Arc)
  outputs : List (Nat × Arc)
  inhibs : List (Nat × Nat)
  vars : List Nat
  total : Nat
  cons : Nat → Option (List VC)

/-- models include/PetriEngine/ExplicitColored/ColoredPetriNetMarking.h: a multiset for each place. -/
abbrev XMark := Nat → MS

/-- models ColoredPetriNet.h:47-90 (`ColoredPetriNet`): the sizes of the components of the colours of a place
(`basicColorSizes`), the numbers of colours of the variables. -/
structure XNet where
  np : Nat
  dims : Nat → List Nat
  vsize : Nat → Nat
  trans : List XTrans
  init : XMark

/-- models src/PetriEngine/Colored/Colors.cpp:184-200 (`ProductType::operator[]`): the components of a colour. -/
def comps : List Nat → Nat → List Nat
  | [], _ => []
  | n :: ns, i => i % n :: comps ns (i / n)

/-- models ExplicitColoredPetriNetBuilder.cpp:135-150 (`addColorType`): the sizes of the components. -/
def xdims (T : Types) (ty : Nat) : List Nat :=
  match T.parts ty with
  | some cs => cs.map T.basic
  | none => [T.size ty]

/-- models ExplicitColoredPetriNetBuilder.cpp:103-110: the components of a colour of a product, or its number. -/
def tokenSeq (T : Types) (ty i : Nat) : List Nat :=
  match T.parts ty with
  | some cs => comps (cs.map T.basic) i
  | none => [i]

/-- models ExplicitColoredPetriNetBuilder.cpp:98-117 (`addPlace`): the marking. -/
def placeInit (T : Types) (p : CPlace) : MS :=
  p.marking.foldl (fun m q => m.setCount (pack (xdims T p.ty) (tokenSeq T p.ty q.1)) q.2) MS.empty

def compArcList (T : Types) (vty : Nat → Nat) : List CArc → Option (List (Nat × Arc))
  | [] => some []
  | a :: as =>
    match compile T vty a.expr, compArcList T vty as with
    | some c, some cs => some ((a.place, c) :: cs)
    | _, _ => none

def compGuardOpt (T : Types) (vty : Nat → Nat) : Option Guard → Option (Option XGuard)
  | none => some none
  | some g => (compGuard T vty g).map some

def guardVarsX : Option XGuard → List Nat
  | none => []
  | some g => g.vars

/-- a `std::set`: inserting -/
def insertSet (x : Nat) : List Nat → List Nat
  | [] => [x]
  | y :: l => if x < y then x :: y :: l else if x = y then y :: l else y :: insertSet x l

def toSet (l : List Nat) : List Nat := l.foldl (fun s x => insertSet x s) []

/-- models ExplicitColoredPetriNetBuilder.cpp:290-293: the variables of guard, input arcs and output arcs, a set. -/
def transVars (g : Option XGuard) (ins outs : List (Nat × Arc)) : List Nat :=
  toSet (guardVarsX g ++ (ins.map fun a => a.2.vars).flatten ++ (outs.map fun a => a.2.vars).flatten)

/-- models ExplicitColoredPetriNetBuilder.cpp:295-307: the number of bindings, 0 without variables.  `none`:
`TOO_MANY_BINDINGS` (and a division by 0 for a type without colours). -/
def countBindings (vsize : Nat → Nat) : Nat → List Nat → Option Nat
  | n, [] => some n
  | n, v :: vs =>
    if vsize v = 0 then none
    else if n > (2 ^ 64 - 1) / vsize v then none
    else countBindings vsize (n * vsize v) vs

def totalBindings (vsize : Nat → Nat) (vs : List Nat) : Option Nat :=
  match vs with
  | [] => some 0
  | vs => countBindings vsize 1 vs

/-- models ExplicitColoredPetriNetBuilder.cpp:314-330 (`_calculatePrePlaceConstraints`): the constraints of later arcs are
put in front. -/
def preCons (ins : List (Nat × Arc)) (v : Nat) : Option (List VC) :=
  ins.foldl (fun acc a => if v ∈ a.2.vars then some (a.2.cons v a.1 ++ acc.getD []) else acc) none

/-- models ExplicitColoredPetriNetBuilder.cpp:244-330 for one transition.  The arcs of a transition are kept in the order
of the net; in the code they are in some order that depends on the order of addition (332-369). -/
def buildTrans (N : CNet) (t : Nat) (c : CTrans) : Option XTrans :=
  match compGuardOpt N.types N.vty c.guard, compArcList N.types N.vty c.inputs, compArcList N.types N.vty c.outputs with
  | some g, some ins, some outs =>
    match totalBindings (fun v => N.types.size (N.vty v)) (transVars g ins outs) with
    | some n => some
        { guard := g, inputs := ins, outputs := outs
          inhibs := (N.inhibitors.filter fun h => h.trans == t).map fun h => (h.place, h.weight)
          vars := transVars g ins outs, total := n, cons := preCons ins }
    | none => none
  | _, _, _ => none

def buildTransL (N : CNet) : Nat → List CTrans → Option (List XTrans)
  | _, [] => some []
  | t, c :: cs =>
    match buildTrans N t c, buildTransL N (t + 1) cs with
    | some x, some xs => some (x :: xs)
    | _, _ => none

/-- models ExplicitColoredPetriNetBuilder.cpp:215-229 (`build`).  `none`: the net is rejected. -/
def build (N : CNet) : Option XNet :=
  (buildTransL N 0 N.transitions).map fun ts =>
    { np := N.places.length, dims := fun p => xdims N.types (N.place p).ty
      vsize := fun v => N.types.size (N.vty v), trans := ts
      init := fun p => if p < N.places.length then placeInit N.types (N.place p) else MS.empty }

end XCol
end Verif
