import Verif.CRed.ParTrans

/-!
# Preemptive firing

Models `src/PetriEngine/Colored/Reduction/RedRulePreemptiveFiring.cpp`.
-/

namespace Verif
namespace CRed
open CPN

/-- `place.marking = …` -/
def Red.setMark (R : Red) (p : Nat) (l : List (Nat × Nat)) : Red :=
  { R with net := { R.net with places := R.net.places.modify p fun pl => { pl with marking := l } } }

/-- models `otherplace.marking += tokens` (src/PetriEngine/Colored/Reduction/RedRulePreemptiveFiring.cpp:43-46) for the output arcs, in
their order; `none` if the types do not fit. -/
def Red.pour (tokens : MS) : List CArc → Red → Option Red
  | [], R => some R
  | a :: as, R => ((markMS (R.net.place a.place)).add tokens).bind fun m => Red.pour tokens as (R.setMark a.place m.set)

/-- models src/PetriEngine/Colored/Multiset.cpp:139-144 (`empty`). -/
def noTokens (l : List (Nat × Nat)) : Bool := l.all fun q => q.2 == 0

/-- the checks of src/PetriEngine/Colored/Reduction/RedRulePreemptiveFiring.cpp:85-105 for an output arc -/
def Red.outFine (R : Red) (nm : Names) (q : Uses) (i : ArcE) (o : CArc) : Bool :=
  !q.place o.place && R.inhibitor o.place == 0 && !(R.post o.place).any q.trans && decide (arcText nm o.expr = arcText nm i)

/-- models src/PetriEngine/Colored/Reduction/RedRulePreemptiveFiring.cpp:62-108 (`t_is_viable`).  Transitions are known by their numbers instead
of their names, which are different.  An input arc that is not found, and a division by 0, are undefined behaviour. -/
def Red.viable (R : Red) (nm : Names) (q : Uses) (fired : List Nat) (t p : Nat) : Option Bool :=
  if q.trans t = true ∨ t ∈ fired ∨ (R.net.trans t).guard.isSome = true ∨ R.inhibited t > 0 ∨ (R.net.trans t).inputs.length > 1 then some false
  else
    match R.inArc p t with
    | none => none
    | some i =>
      if R.pre p ≠ [] ∧ arcWeight i.expr ≠ 1 then some false
      else if (R.net.place p).marking.length > 1 ∧ arcWeight i.expr ≠ 1 then some false
      else if arcWeight i.expr = 0 then none
      else if (R.net.place p).tokens % arcWeight i.expr ≠ 0 then some false
      else some ((R.net.trans t).outputs.all (R.outFine nm q i.expr))

/-- the transition to be fired for a place, if the place is suitable
(src/PetriEngine/Colored/Reduction/RedRulePreemptiveFiring.cpp:24-36) -/
def Red.preemptable (R : Red) (nm : Names) (q : Uses) (fired : List Nat) (p : Nat) : Option (Option Nat) :=
  if p ∈ R.skP ∨ noTokens (R.net.place p).marking = true ∨ R.inhibitor p > 0 ∨ q.place p = true then some none
  else
    match R.post p with
    | [t] => (R.viable nm q fired t p).map fun v => if v then some t else none
    | _ => some none

/-- models src/PetriEngine/Colored/Reduction/RedRulePreemptiveFiring.cpp:40-53.  After `skipPlace` the code reads the first element of the
vector `_post` that has just been cleared, which is undefined behaviour; `stale` says that the old element is still found there. -/
def Red.fireAll (R : Red) (stale : Bool) (p t : Nat) : Option Red :=
  (Red.pour (markMS (R.net.place p)) (R.net.trans t).outputs R).bind fun R' =>
    if R.pre p = [] then (if stale then some ((R'.skipPlace p).skipTrans t) else none) else some (R'.setMark p [])

/-- models src/PetriEngine/Colored/Reduction/RedRulePreemptiveFiring.cpp:14-60 (`apply`) for the places of the list; `late` tells when the time is
up.  The transitions fired are kept for the next rounds. -/
def Red.preempt (nm : Names) (q : Uses) (stale : Bool) (late : Nat → Bool) : List Nat → List Nat → Red → Option (List Nat × Red)
  | [], fired, R => some (fired, R)
  | p :: ps, fired, R =>
    if late p then some (fired, R)
    else
      match R.preemptable nm q fired p with
      | none => none
      | some none => preempt nm q stale late ps fired R
      | some (some t) => (R.fireAll stale p t).bind fun R' => preempt nm q stale late ps (t :: fired) R'

/-- models src/PetriEngine/Colored/Reduction/RedRulePreemptiveFiring.cpp:14-60 (`apply`). -/
def Red.applyPreempt (nm : Names) (q : Uses) (stale : Bool) (late : Nat → Bool) (fired : List Nat) (R : Red) : Option (List Nat × Red) :=
  Red.preempt nm q stale late (List.range R.net.places.length) fired R

end CRed
end Verif
