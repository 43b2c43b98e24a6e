import Verif.CFP.Visitors
import Verif.CPN.Values
import Verif.CPN.EvalLemmas

/-!
# The bindings of a transition from its maps of intervals

Models `FixpointBindingGenerator` (`src/PetriEngine/Colored/BindingGenerator.cpp:125-340`) without symmetric variables:
`assignSymmetricVars` then does nothing.  `none` is an exception, undefined behaviour (a variable that a map does not have, the front
of an empty list of boxes) or that the fuel is used up.
-/

namespace Verif
namespace CFP

open CPN

/-- models src/PetriEngine/Colored/Colors.cpp:217-227 (`getColor` of a tuple of numbers); for a plain type the number itself. -/
def colorOf (T : Types) (ty : Nat) (ids : List Nat) : Nat := enc (T.dims ty) ids

/-- models BindingGenerator.cpp:251-275 for one variable: the next colour, and whether the boxes start over. -/
def stepVar (T : Types) (ty : Nat) (vec : IVec) (i : Nat) : Nat × Bool :=
  let n := vec.next (T.value ⟨ty, i⟩)
  if n.isEmpty then ((succC T ⟨ty, i⟩).id, false) else (colorOf T ty n.lowerIds, decide (n = vec.getD 0 []))

/-- models the loop of BindingGenerator.cpp:239-276: the next binding of a map, and whether the map starts over. -/
def bumpG (T : Types) (vty : Nat → Nat) (m : VMap) : Binding → Option (Binding × Bool)
  | [] => some ([], true)
  | (v, i) :: b =>
    match m.lookup v with
    | none => none
    | some vec =>
      let q := stepVar T (vty v) vec i
      if q.2 then (bumpG T vty m b).map fun r => ((v, q.1) :: r.1, r.2) else some ((v, q.1) :: b, false)

/-- models BindingGenerator.cpp:285-287: the lower corners of the first boxes of a map. -/
def firstG (T : Types) (vty : Nat → Nat) (m : VMap) : List Nat → Option Binding
  | [] => some []
  | v :: vs =>
    match m.lookup v with
    | some (i :: _) => (firstG T vty m vs).map fun b => (v, colorOf T (vty v) i.lowerIds) :: b
    | _ => none

/-- models BindingGenerator.cpp:236-288, one round without the guard: the next map and binding, or (inner `none`) the end. -/
def stepG (T : Types) (vty : Nat → Nat) (maps : List VMap) (q : Nat × Binding) : Option (Option (Nat × Binding)) :=
  match bumpG T vty (maps.getD q.1 []) q.2 with
  | none => none
  | some (b, false) => some (some (q.1, b))
  | some (b, true) =>
    if q.1 + 1 ≥ maps.length then some none
    else (firstG T vty (maps.getD (q.1 + 1) []) (b.map (·.1))).map fun c => some (q.1 + 1, c)

/-- models BindingGenerator.cpp:232-292 (`nextBinding`). -/
def nextG (T : Types) (vty : Nat → Nat) (maps : List VMap) (g : Option Guard) : Nat → Nat × Binding → Option (Option (Nat × Binding))
  | 0, _ => none
  | n + 1, q =>
    match stepG T vty maps q with
    | none => none
    | some none => some none
    | some (some r) =>
      match guardEval T vty r.2 g with
      | none => none
      | some true => some (some r)
      | some false => nextG T vty maps g n r

/-- the iteration of src/PetriEngine/Colored/Unfolder.cpp:149 with BindingGenerator.cpp:138-148 -/
def iterG (T : Types) (vty : Nat → Nat) (maps : List VMap) (g : Option Guard) : Nat → Nat × Binding → Option (List Binding)
  | 0, _ => none
  | n + 1, q =>
    match nextG T vty maps g (n + 1) q with
    | none => none
    | some none => some [q.2]
    | some (some r) => (iterG T vty maps g n r).map (q.2 :: ·)

/-- models BindingGenerator.cpp:182-189 for the first map: the first binding, or (inner `none`) that there are no bindings. -/
def startG (T : Types) (vty : Nat → Nat) (m : VMap) : List Nat → Option (Option Binding)
  | [] => some (some [])
  | v :: vs =>
    match m.lookup v with
    | none => none
    | some [] => some none
    | some (i :: _) => (startG T vty m vs).map fun r => r.map fun b => (v, colorOf T (vty v) i.lowerIds) :: b

/-- models BindingGenerator.cpp:154-194, 328-333 (the constructor and `begin`), followed by the loop over all bindings. -/
def fixBindings (T : Types) (vty : Nat → Nat) (maps : List VMap) (fuel : Nat) (t : CTrans) : Option (List Binding) :=
  if !t.vars.isEmpty && (maps.getD 0 []).isEmpty then some []
  else
    match startG T vty (maps.getD 0 []) t.vars with
    | none => none
    | some none => some []
    | some (some b) =>
      match guardEval T vty b t.guard with
      | none => none
      | some true => iterG T vty maps t.guard fuel (0, b)
      | some false =>
        match nextG T vty maps t.guard fuel (0, b) with
        | none => none
        | some none => some []
        | some (some r) => iterG T vty maps t.guard fuel r

end CFP
end Verif
