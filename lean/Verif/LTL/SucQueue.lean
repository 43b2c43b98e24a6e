/-!
# The queue of successors of the reduced LTL search

Models include/PetriEngine/Structures/SuccessorQueue.h, and its use in
include/LTL/SuccessorGeneration/SpoolingSuccessorGenerator.h.
-/

namespace Verif
namespace SucQueue

/-- models include/PetriEngine/Structures/SuccessorQueue.h:128-130; `_size` is the length of the array -/
structure SQ where
  front : Nat
  data : List Nat
deriving DecidableEq, Repr

/-- models include/PetriEngine/Structures/SuccessorQueue.h:33-38 (constructor) -/
def ofList (src : List Nat) : SQ := ⟨0, src⟩

/-- models include/PetriEngine/Structures/SuccessorQueue.h:68-71 (`empty`) -/
def SQ.isEmpty (q : SQ) : Bool := q.data.length ≤ q.front

/-- models include/PetriEngine/Structures/SuccessorQueue.h:51-61 (`front` and `pop`, as the generator calls them one after the other,
SpoolingSuccessorGenerator.h:142-153) -/
def SQ.pop (q : SQ) : Option (Nat × SQ) := if q.isEmpty then none else some (q.data.getD q.front 0, ⟨q.front + 1, q.data⟩)

/-- models include/PetriEngine/Structures/SuccessorQueue.h:98-109: the elements of `src` that were not popped yet -/
def fresh (popped : List Nat) : List Nat → List Nat
  | [] => []
  | x :: xs => if popped.contains x then fresh popped xs else x :: fresh popped xs

/-- models include/PetriEngine/Structures/SuccessorQueue.h:90-113 (`extend_to`).  No result: the new array, of `src.length` cells, is too
small, or an assertion fails. -/
def SQ.extendTo (q : SQ) (src : List Nat) : Option SQ :=
  if src.length < q.data.length then none
  else if (q.data.take q.front ++ fresh (q.data.take q.front) src).length = src.length then
    some ⟨q.front, q.data.take q.front ++ fresh (q.data.take q.front) src⟩
  else none

/-- models include/LTL/SuccessorGeneration/SpoolingSuccessorGenerator.h:162-179 (`generate_all` without heuristic): the old successors that
are not in the new stubborn set (`stub`), then what the spooler delivers (`more`) -/
def SQ.generateAll (q : SQ) (stub : Nat → Bool) (more : List Nat) : Option SQ := q.extendTo ((q.data.filter fun t => !stub t) ++ more)

/-- `n` calls of `next` -/
def drain : Nat → SQ → List Nat
  | 0, _ => []
  | n + 1, q =>
    match q.pop with
    | none => []
    | some (t, q') => t :: drain n q'

/-- the queue after `n` calls -/
def after : Nat → SQ → SQ
  | 0, q => q
  | n + 1, q =>
    match q.pop with
    | none => q
    | some (_, q') => after n q'

end SucQueue
end Verif
