import Verif.ST.Model

/-!
# Model: the antichain of sets kept per element

Models `include/PetriEngine/TAR/AntiChain.h`: a vector indexed by the element, of vectors of sorted vectors.  The
siphon-trap solver and the trace-abstraction-refinement engine use it with one element only.
-/

namespace Verif
namespace AntiChain

/-- models include/PetriEngine/TAR/AntiChain.h:25-28 (`map`). -/
abbrev SMap := List (List (List Nat))

/-- models include/PetriEngine/TAR/AntiChain.h:45-63 (`subsumed`): nothing is subsumed by an element not seen. -/
def subsumed (map : SMap) (el : Nat) (set : List Nat) : Bool :=
  match map[el]? with
  | some sets => ST.subsumed sets set
  | none => false

/-- models include/PetriEngine/TAR/AntiChain.h:69 (`map.resize(el + 1)`). -/
def resize (map : SMap) (el : Nat) : SMap := map ++ List.replicate (el + 1 - map.length) []

/-- models include/PetriEngine/TAR/AntiChain.h:76-83: the loop from the back that erases the sets including the new
one. -/
def eraseFrom (set : List Nat) : Nat → List (List Nat) → List (List Nat)
  | 0, sets => sets
  | i + 1, sets => eraseFrom set i (if ST.includes (sets.getD i []) set then sets.eraseIdx i else sets)

/-- models include/PetriEngine/TAR/AntiChain.h:65-94 (`insert`): the map and whether the set was inserted. -/
def insert (map : SMap) (el : Nat) (set : List Nat) : SMap × Bool :=
  let map := resize map el
  if subsumed map el set then (map, false)
  else (map.modify el fun sets => eraseFrom set sets.length sets ++ [set], true)

/-- A sequence of calls of `insert`, on a map just cleared. -/
def insertAll (l : List (Nat × List Nat)) : SMap := l.foldl (fun map x => (insert map x.1 x.2).1) []

end AntiChain
end Verif
