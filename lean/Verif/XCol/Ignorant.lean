import Verif.XCol.Net
import Verif.CPN.Unfold
import Verif.Net.BuilderSpec

/-!
# The net without colours

Models `src/PetriEngine/ExplicitColored/ColorIgnorantPetriNetBuilder.cpp`: the calls to the builder of a net without
colours.  Where all arcs carry fixed numbers of tokens, an arc gets that number as its weight; as soon as one arc of the
net has a subtraction, every transition is copied, once for every choice of weights between the bounds of its arcs.
-/

namespace Verif
namespace XCol
open CPN Builder

/-- models ArcCompiler.cpp:73-75, 170-172, 315-317, 425-427 (`containsNegative`). -/
def Arc.neg : Arc → Bool
  | .add l r => l.neg || r.neg
  | .sub _ _ => true
  | .const _ => false
  | .coll _ _ _ => false

/-- models ColorIgnorantPetriNetBuilder.cpp:83-89 (`ArcRange`). -/
structure Range where
  isInput : Bool
  place : String
  lower : Nat
  upper : Nat
  current : Nat
deriving DecidableEq, Repr

def mkRange (N : CNet) (isInput : Bool) (a : Nat × Arc) : Range :=
  ⟨isInput, (N.place a.1).name, a.2.minCount, a.2.upper, a.2.minCount⟩

/-- models ColorIgnorantPetriNetBuilder.cpp:95-115: first the input arcs, then the output arcs. -/
def mkRanges (N : CNet) (ins outs : List (Nat × Arc)) : List Range :=
  ins.map (mkRange N true) ++ outs.map (mkRange N false)

/-- models ColorIgnorantPetriNetBuilder.cpp:120-123: the name of the copy made in the pass `k` (from 0). -/
def copyName (t : String) (k : Nat) : String := if k = 0 then t else t ++ "___" ++ toString (k + 1)

/-- models ColorIgnorantPetriNetBuilder.cpp:128-134. -/
def Range.ops (t : String) (r : Range) : List Op :=
  if r.current > 0 then (if r.isInput then [.input r.place t false r.current] else [.output t r.place r.current]) else []

/-- models ColorIgnorantPetriNetBuilder.cpp:126, 135-143: counting up, the first arc running fastest.  Each weight is used
before it is changed, so that the calls of a pass can be taken apart from the counting. -/
def turn : List Range → List Range × Bool
  | [] => ([], true)
  | r :: rs =>
    if r.current ≥ r.upper then ({ r with current := r.lower } :: (turn rs).1, (turn rs).2)
    else ({ r with current := r.current + 1 } :: rs, false)

/-- models ColorIgnorantPetriNetBuilder.cpp:117-145: the names and weights of the copies.  The loop ends when the last arc
carries; `none`: more passes than `fuel`. -/
def copies (t : String) : Nat → Nat → List Range → Option (List (String × List Range))
  | 0, _, _ => none
  | fuel + 1, k, rs =>
    if (turn rs).2 then some [(copyName t k, rs)]
    else (copies t fuel (k + 1) (turn rs).1).map ((copyName t k, rs) :: ·)

/-- the number of choices of weights -/
def choices (rs : List Range) : Nat := (rs.map fun r => r.upper - r.lower + 1).prod

/-- models ColorIgnorantPetriNetBuilder.cpp:125-134: the calls for one copy. -/
def copyOps (e : String × List Range) : List Op := .trans e.1 0 :: (e.2.map (Range.ops e.1)).flatten

/-- models ColorIgnorantPetriNetBuilder.cpp:149-157: the calls for one transition when no arc has a subtraction. -/
def plainOps (N : CNet) (t : String) (ins outs : List (Nat × Arc)) : List Op :=
  .trans t 0 :: (ins.map (fun a => .input (N.place a.1).name t false a.2.minCount) ++
    outs.map fun a => .output t (N.place a.1).name a.2.minCount)

/-- a transition with its compiled arcs (`TransitionStore`, ColorIgnorantPetriNetBuilder.h:48-51) -/
structure Store where
  name : String
  ins : List (Nat × Arc)
  outs : List (Nat × Arc)

/-- models ColorIgnorantPetriNetBuilder.cpp:34-62: the arcs are compiled as they are added.  `none`: an exception, or the
use of a missing expression. -/
def stores (N : CNet) : List CTrans → Option (List Store)
  | [] => some []
  | t :: ts =>
    match compArcList N.types N.vty t.inputs, compArcList N.types N.vty t.outputs, stores N ts with
    | some ins, some outs, some ss => some (⟨t.name, ins, outs⟩ :: ss)
    | _, _, _ => none

/-- models ColorIgnorantPetriNetBuilder.cpp:48-50, 58-60 (`_foundNegative`). -/
def foundNegative (ss : List Store) : Bool := ss.any fun s => (s.ins ++ s.outs).any fun a => a.2.neg

/-- models ColorIgnorantPetriNetBuilder.cpp:93-146 for all transitions.  The code takes them in the order of their names
(`std::map`), which changes the numbers of the copies in the net only. -/
def allCopies (N : CNet) : List Store → Option (List (String × List (String × List Range)))
  | [] => some []
  | s :: ss =>
    match copies s.name (choices (mkRanges N s.ins s.outs)) 0 (mkRanges N s.ins s.outs), allCopies N ss with
    | some cs, some r => some ((s.name, cs) :: r)
    | _, _ => none

/-- models ColorIgnorantPetriNetBuilder.cpp:159-168.  The copies are addressed as "t___0" … "t___(n-1)". -/
def inhibOps (N : CNet) (counts : List (String × Nat)) (h : CInhib) : List Op :=
  match counts.lookup (N.trans h.trans).name with
  | none => [.input (N.place h.place).name (N.trans h.trans).name true h.weight]
  | some n => (List.range n).map fun i => .input (N.place h.place).name ((N.trans h.trans).name ++ "___" ++ toString i) true h.weight

/-- models ColorIgnorantPetriNetBuilder.cpp:19-38: the calls made while the net is read. -/
def declOps (N : CNet) : List Op :=
  N.places.map (fun p => .place p.name (p.tokens % W32)) ++ N.transitions.map fun t => .trans t.name 0

/-- models ColorIgnorantPetriNetBuilder.cpp:91-170 (`build`) after `parse_model`: all calls to the builder. -/
def stripOps (N : CNet) : Option (List Op) :=
  (stores N N.transitions).bind fun ss =>
    if foundNegative ss then
      (allCopies N ss).map fun cs => declOps N ++ ((cs.map fun c => (c.2.map copyOps).flatten).flatten ++
        (N.inhibitors.map (inhibOps N (cs.map fun c => (c.1, c.2.length)))).flatten)
    else
      some (declOps N ++ ((ss.map fun s => plainOps N s.name s.ins s.outs).flatten ++ (N.inhibitors.map (inhibOps N [])).flatten))

/-- models src/PetriEngine/Colored/Unfolder.cpp:17-56 (`strip_colors`): the same calls, but the inhibitor arcs are added
to the transitions themselves, before the copies are made.  (Transitions that a coloured reduction skipped are declared
there, without arcs; the model has none.) -/
def stripColors (N : CNet) : Option (List Op) :=
  (stores N N.transitions).bind fun ss =>
    if foundNegative ss then
      (allCopies N ss).map fun cs => declOps N ++ ((N.inhibitors.map (inhibOps N [])).flatten ++
        (cs.map fun c => (c.2.map copyOps).flatten).flatten)
    else
      some (declOps N ++ ((N.inhibitors.map (inhibOps N [])).flatten ++ (ss.map fun s => plainOps N s.name s.ins s.outs).flatten))

end XCol
end Verif
