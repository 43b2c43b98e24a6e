import Verif.CTL.FixedPoint
import Verif.CTL.Local
import Verif.PQL.Eval
import Verif.Search.NetGen

/-!
# The dependency graph of a CTL query

Models `src/CTL/PetriNets/OnTheFlyDG.cpp`.

A configuration of the C++ is a pair of a marking (number in a trie, where encoded markings are stored,
C05 and C06) and a pointer to a subformula.  Here the marking is the list of its token counts, and the
pointer is the position of the subformula in the query; condition objects are taken not to be shared
inside a query.
-/

namespace Verif
namespace CTL
open PQL

/-- The operands of a condition, in order. -/
def kids : Cond → List Cond
  | .not c => [c]
  | .and cs => cs
  | .or cs => cs
  | .EX c | .AX c | .EF c | .AF c | .EG c | .AG c | .E c | .A c | .X c | .F c | .G c => [c]
  | .EU c d | .AU c d | .U c d => [c, d]
  | _ => []

/-- The subformula at a position. -/
def subAt : Cond → List Nat → Option Cond
  | φ, [] => some φ
  | φ, i :: p =>
    match (kids φ)[i]? with
    | some c => subAt c p
    | none => none

/-- include/CTL/PetriNets/PetriConfig.h: marking and subformula. -/
abbrev Conf := List Nat × List Nat

/-- The marking stored for a configuration. -/
def toMark (l : List Nat) : Mark := fun p => l.getD p 0

/-- Storing a marking: src/CTL/PetriNets/OnTheFlyDG.cpp:590-607 (`createMarking`). -/
def ofMark (n : Nat) (m : Mark) : List Nat := (List.range n).map m

/-- An edge under construction: include/CTL/DependencyGraph/Edge.h:23-44. -/
structure Bld where
  handled : Bool := false
  targets : List Conf := []
deriving DecidableEq, Repr

/-- models include/CTL/DependencyGraph/Edge.h:23-34 (`addTarget`) -/
def Bld.add (src : Conf) (e : Bld) (c : Conf) : Bld :=
  if e.handled then e
  else if c = src then { handled := true, targets := [] }
  else { e with targets := c :: e.targets }

def Bld.addOpt (src : Conf) (e : Bld) : Option Conf → Bld
  | none => e
  | some c => e.add src c

/-- An edge is kept unless a self-loop was found. -/
def Bld.out (e : Bld) : List (HEdge Conf) := if e.handled then [] else [⟨false, e.targets⟩]

/-- The successor generators: all successors, and the reduced ones for a formula. -/
structure Gens where
  ev : Cond → List Nat → Res
  all : List Nat → List (List Nat)
  red : Cond → List Nat → List (List Nat)
  po : Bool

variable (D : Gens)

/-- models src/CTL/PetriNets/OnTheFlyDG.cpp:529-553 (`nextStates`): the markings enumerated -/
def Gens.next (D : Gens) (c : Cond) (m : List Nat) : List (List Nat) :=
  match c with
  | .EF d => if D.po && !d.isTemporal then D.red c m else D.all m
  | _ => D.all m

/-- models src/CTL/PetriNets/OnTheFlyDG.cpp:86-123 (conjunction): the first loop, `none` being the early
return -/
def andConds (m : List Nat) : List (Nat × Cond) → Option (List Nat)
  | [] => some []
  | (i, c) :: cs =>
    match D.ev c m with
    | .rFalse => none
    | .rUnknown => (andConds m cs).map (i :: ·)
    | .rTrue => andConds m cs

/-- models src/CTL/PetriNets/OnTheFlyDG.cpp:124-157 (disjunction): the first loop, `none` being the early
return -/
def orConds (m : List Nat) : List (Nat × Cond) → Option (List Nat)
  | [] => some []
  | (i, c) :: cs =>
    match D.ev c m with
    | .rTrue => none
    | .rUnknown => (orConds m cs).map (i :: ·)
    | .rFalse => orConds m cs

/-- models src/CTL/PetriNets/OnTheFlyDG.cpp:107-113: the loop that adds targets -/
def addAll (src : Conf) (e : Bld) : List Conf → Bld
  | [] => e
  | c :: cs => if (e.add src c).handled then e.add src c else addAll src (e.add src c) cs

/-- An operand that has to be looked at in the same marking. -/
def operand (m : List Nat) (pos : List Nat) (i : Nat) : Conf := (m, pos ++ [i])

/-- models src/CTL/PetriNets/OnTheFlyDG.cpp:187-190, 364-368: the left operand, when it has to be looked
at -/
def leftOpd (c : Cond) (m : List Nat) (pos : List Nat) : Option Conf :=
  if D.ev c m = .rUnknown then some (operand m pos 0) else none

/-- models src/CTL/PetriNets/OnTheFlyDG.cpp:179-185, 232-236: the edge to the right operand -/
def rightOut (src : Conf) (d : Cond) : List (HEdge Conf) :=
  if D.ev d src.1 = .rUnknown then (Bld.add src {} (operand src.1 src.2 1)).out else []

/-- models src/CTL/PetriNets/OnTheFlyDG.cpp:198-213: the loop over the successors for `AU`; `none`: the
edge was dropped -/
def auLoop (src : Conf) (f : Cond) (pos : List Nat) : List (List Nat) → Bld → Option Bld
  | [], e => some e
  | m :: ms, e =>
    match D.ev f m with
    | .rTrue => auLoop src f pos ms e
    | .rFalse => none
    | .rUnknown =>
      if (e.add src (m, pos)).handled then some (e.add src (m, pos))
      else auLoop src f pos ms (e.add src (m, pos))

/-- models src/CTL/PetriNets/OnTheFlyDG.cpp:164-238 (`AU`) -/
def auSucc (src : Conf) (f c d : Cond) : List (HEdge Conf) :=
  let m := src.1
  let pos := src.2
  if D.ev d m = .rTrue then [⟨false, []⟩]
  else
    let leftEdges : List (HEdge Conf) :=
      if D.ev c m = .rFalse then []
      else match D.next f m with
        | [] => []
        | ms =>
          match auLoop D src f pos ms {} with
          | none => []
          | some e => (e.addOpt src (leftOpd D c m pos)).out
    leftEdges ++ rightOut D src d

/-- models src/CTL/PetriNets/OnTheFlyDG.cpp:258-278: the loop over the successors for `AF`; the flag tells
whether `subquery` was dropped (a branch that is never taken, `evaluate` of `AF` not being false) -/
def afLoop (src : Conf) (f : Cond) (pos : List Nat) : List (List Nat) → Bld → Bld × Bool
  | [], e => (e, false)
  | m :: ms, e =>
    match D.ev f m with
    | .rTrue => afLoop src f pos ms e
    | .rFalse => ({ e with targets := [] }, true)
    | .rUnknown =>
      if (e.add src (m, pos)).handled then (e.add src (m, pos), false)
      else afLoop src f pos ms (e.add src (m, pos))

/-- models src/CTL/PetriNets/OnTheFlyDG.cpp:239-294 (`AF`) -/
def afSucc (src : Conf) (f c : Cond) : List (HEdge Conf) :=
  let m := src.1
  let pos := src.2
  if D.ev c m = .rTrue then [⟨false, []⟩]
  else
    let sub : List (HEdge Conf) :=
      if D.ev c m = .rUnknown then [⟨false, (Bld.add src {} (operand m pos 0)).targets⟩] else []
    match D.next f m with
    | [] => sub
    | ms => (afLoop D src f pos ms {}).1.out ++ (if (afLoop D src f pos ms {}).2 then [] else sub)

/-- models src/CTL/PetriNets/OnTheFlyDG.cpp:303-319: the loop over the successors for `AX`; the result
carries `allValid` -/
def axLoop (src : Conf) (c : Cond) (pos : List Nat) : List (List Nat) → Bld → Res → Bld × Res
  | [], e, v => (e, v)
  | m :: ms, e, v =>
    match D.ev c m with
    | .rFalse => (e, .rFalse)
    | .rTrue => axLoop src c pos ms e v
    | .rUnknown => axLoop src c pos ms (e.add src (m, pos ++ [0])) .rUnknown

/-- models src/CTL/PetriNets/OnTheFlyDG.cpp:295-335 (`AX`) -/
def axSucc (src : Conf) (f c : Cond) : List (HEdge Conf) :=
  match axLoop D src c src.2 (D.next f src.1) {} .rTrue with
  | (e, .rUnknown) => [⟨false, e.targets⟩]
  | (_, .rTrue) => [⟨false, []⟩]
  | (_, .rFalse) => []

/-- models src/CTL/PetriNets/OnTheFlyDG.cpp:374-414: the loop over the successors for `EU`, when the left
operand is not false; the flag tells whether `right` was dropped -/
def euLoop (src : Conf) (f : Cond) (pos : List Nat) (left : Option Conf) :
    List (List Nat) → List (HEdge Conf) → List (HEdge Conf) × Bool
  | [], succs => (succs, false)
  | m :: ms, succs =>
    match D.ev f m with
    | .rFalse => euLoop src f pos left ms succs
    | .rTrue => ([⟨false, (Bld.addOpt src {} left).targets⟩], left.isNone)
    | .rUnknown =>
      euLoop src f pos left ms (succs ++ ((Bld.add src {} (m, pos)).addOpt src left).out)

/-- models src/CTL/PetriNets/OnTheFlyDG.cpp:344-424 (`EU`) -/
def euSucc (src : Conf) (f c d : Cond) : List (HEdge Conf) :=
  let m := src.1
  let pos := src.2
  if D.ev d m = .rTrue then [⟨false, []⟩]
  else
    if D.ev c m = .rFalse then rightOut D src d
    else (euLoop D src f pos (leftOpd D c m pos) (D.next f m) []).1 ++
      (if (euLoop D src f pos (leftOpd D c m pos) (D.next f m) []).2 then [] else rightOut D src d)

/-- models src/CTL/PetriNets/OnTheFlyDG.cpp:442-473: the loop over the successors for `EF`; the flag tells
whether `subquery` was dropped -/
def efLoop (src : Conf) (f : Cond) (pos : List Nat) :
    List (List Nat) → List (HEdge Conf) → List (HEdge Conf) × Bool
  | [], succs => (succs, false)
  | m :: ms, succs =>
    match D.ev f m with
    | .rFalse => efLoop src f pos ms succs
    | .rTrue => ([⟨false, []⟩], true)
    | .rUnknown => efLoop src f pos ms (succs ++ (Bld.add src {} (m, pos)).out)

/-- models src/CTL/PetriNets/OnTheFlyDG.cpp:425-478 (`EF`) -/
def efSucc (src : Conf) (f c : Cond) : List (HEdge Conf) :=
  let m := src.1
  let pos := src.2
  if D.ev c m = .rTrue then [⟨false, []⟩]
  else
    let sub : List (HEdge Conf) :=
      if D.ev c m = .rUnknown then [⟨false, (Bld.add src {} (operand m pos 0)).targets⟩] else []
    (efLoop D src f pos (D.next f m) []).1 ++ (if (efLoop D src f pos (D.next f m) []).2 then [] else sub)

/-- models src/CTL/PetriNets/OnTheFlyDG.cpp:482-505: the loop over the successors for `EX` -/
def exLoopS (src : Conf) (c : Cond) (pos : List Nat) : List (List Nat) → List (HEdge Conf) → List (HEdge Conf)
  | [], succs => succs
  | m :: ms, succs =>
    match D.ev c m with
    | .rTrue => [⟨false, []⟩]
    | .rUnknown => exLoopS src c pos ms (succs ++ [⟨false, (Bld.add src {} (m, pos ++ [0])).targets⟩])
    | .rFalse => exLoopS src c pos ms succs

/-- models src/CTL/PetriNets/OnTheFlyDG.cpp:70-514 (`successors`, given the subformula `f`).  The first
case (a formula that has no temporal operator, where a debug build stops) evaluates the whole query `φ`, as
the code does.  `EG`, `AG` and LTL operators (`assert(false)`) have no successors. -/
def succOf (φ : Cond) (src : Conf) (f : Cond) : List (HEdge Conf) :=
  match f with
  | .bool _ | .dead | .cmp _ _ _ | .cc _ _ => if D.ev φ src.1 = .rTrue then [⟨false, []⟩] else []
  | .not _ =>
    if (Bld.add src {} (operand src.1 src.2 0)).handled then []
    else [⟨true, (Bld.add src {} (operand src.1 src.2 0)).targets⟩]
  | .and cs =>
    match andConds D src.1 ((List.range cs.length).zip cs) with
    | none => []
    | some is => (addAll src {} (is.map (operand src.1 src.2))).out
  | .or cs =>
    match orConds D src.1 ((List.range cs.length).zip cs) with
    | none => [⟨false, []⟩]
    | some is => is.flatMap fun i => (Bld.add src {} (operand src.1 src.2 i)).out
  | .AU c d => auSucc D src f c d
  | .AF c => afSucc D src f c
  | .AX c => axSucc D src f c
  | .EU c d => euSucc D src f c d
  | .EF c => efSucc D src f c
  | .EX c => exLoopS D src c src.2 (D.next f src.1) []
  | _ => []

/-- models src/CTL/PetriNets/OnTheFlyDG.cpp:59-514 (`successors`): the dependency graph of the query `φ` -/
def dg (φ : Cond) : Graph Conf where
  succ src :=
    match subAt φ src.2 with
    | some f => succOf D φ src f
    | none => []

/-- The evaluation of src/CTL/PetriNets/OnTheFlyDG.cpp:53-57 (`fastEval`) and the successor generator of
src/PetriEngine/SuccessorGenerator.cpp on a net; `red` and `po` are the reduced generator and whether it is
used. -/
def netGens (N : FlatNet) (po : Bool) (red : Cond → List Nat → List (List Nat)) : Gens where
  ev c l := evaluate (N.deadlocked (toMark l)) (toMark l) c
  all l := (N.succGen (fun _ => true) (toMark l)).1.map fun x => ofMark N.nplaces x.2
  red := red
  po := po

/-- include/CTL/CTLEngine.h: `CTLAlgorithmType`. -/
inductive Algo
  | certainZero
  | localFPA

/-- models src/CTL/CTLEngine.cpp:51-75 (`CTLSingleSolve`): a fixed-point algorithm on the graph of the query,
from the initial marking `l0`.  `addr` and `pick` are the choices left open (hashing of pointers, search
strategy); `none`: not finished within `fuel` steps. -/
def singleSolve (φ : Cond) (l0 : List Nat) (a : Algo) (addr : EId Conf → Nat)
    (pick : Nat → List (EId Conf) → Nat) (fuel : Nat) : Option Bool :=
  match a with
  | .certainZero => certainZero (dg D φ) addr pick (l0, []) fuel
  | .localFPA => localFPA (dg D φ) addr pick (l0, []) fuel

/-- models src/CTL/CTLEngine.cpp:324-354 (`CTLMain`, for the search strategies that do not take the query
apart): the query is evaluated in the initial marking, and solved if that does not settle it. -/
def ctlMain (φ : Cond) (l0 : List Nat) (a : Algo) (addr : EId Conf → Nat)
    (pick : Nat → List (EId Conf) → Nat) (fuel : Nat) : Option Bool :=
  match D.ev φ l0 with
  | .rTrue => some true
  | .rFalse => some false
  | .rUnknown => singleSolve D φ l0 a addr pick fuel

end CTL
end Verif
