import Verif.PQL.Checkers
import Verif.PQL.Prepare
import Verif.LTL.Formula
import Verif.Reduce.ModelP

/-!
# The flags of the reducer

Models the first half of `PetriNetBuilder::reduce`.
-/

namespace Verif
namespace Reduce
open PQL

/-- models src/PetriEngine/PetriNetBuilder.cpp:551-578: the flags handed to `Reducer::Reduce`; `qs` are the queries that
are still open. -/
def queryFlags (qs : List Cond) : Flags where
  removeLoops := qs.all fun q => !q.loopSens
  allReach := qs.all fun q => isReachability q
  allLtl := qs.all fun q => isReachability q || LTL.isLTL q
  next := qs.any fun q => q.next || q.nestedDead

/-- models src/PetriEngine/PetriNetBuilder.cpp:550,564 with include/PetriEngine/Reducer.h:30-73: the place is counted
for one of the queries (`getQueryPlaceCount` is not 0). -/
def queryPlaces (qs : List Cond) (p : Nat) : Bool := qs.any fun q => q.uses p

end Reduce
end Verif
