import Verif.PQL.Merge
import Verif.PQL.NetTS
import Verif.PQL.Binary

/-!
# Shorthand queries

Models the expansion of the "shallow" conditions in `src/PetriEngine/PQL/Analyze.cpp`.  Names are resolved to
indices; the iteration order of the name maps is a parameter.
-/

namespace Verif
namespace PQL
namespace Shorthand

/-- models src/PetriEngine/PQL/Analyze.cpp:172-189: the constraint for an arc of the preset. -/
def arcCons (i : Invariant) : Cons :=
  if !i.inhibitor then ⟨i.place, i.tokens, umax⟩
  else if 0 < i.tokens then ⟨i.place, 0, i.tokens - 1⟩ else ⟨i.place, 0, umax⟩

/-- models src/PetriEngine/PQL/Analyze.cpp:154-195 (`UnfoldedFireableCondition`). -/
def fireable (N : FlatNet) (t : Nat) : Cond :=
  let cs := (N.preset t).map arcCons
  if cs.isEmpty then .bool true else .cc cs false

/-- models src/PetriEngine/PQL/Analyze.cpp:197-231 (`FireableCondition`): `ts` are the transitions a coloured
transition was unfolded to; an uncoloured transition is the only one of its list. -/
def fireableOf (N : FlatNet) (ts : List Nat) : Cond :=
  match ts with
  | [] => .bool false
  | [t] => fireable N t
  | ts => .or (logOperands true (ts.map (fireable N)))

/-- models src/PetriEngine/PQL/Analyze.cpp:115-141 (`IdentifierExpr`): `ps` are the places a coloured place was
unfolded to (without the sum place); the plus expression is re-initialised at lines 84-86. -/
def placeExpr (ps : List Nat) : Expr :=
  match ps with
  | [p] => .id p
  | ps => .plus 0 (ps.mergeSort (fun a b => decide (a ≤ b))) []

/-- models src/PetriEngine/PQL/Analyze.cpp:273-295 (`KSafeCondition`); `places` are the unfoldings of the
places. -/
def kSafe (places : List (List Nat)) (bound : Expr) : Cond :=
  .AG (.and (logOperands false (places.map fun ps => .cmp .le (placeExpr ps) bound)))

/-- models src/PetriEngine/PQL/Analyze.cpp:311-341 (`QuasiLivenessCondition`), uncoloured. -/
def quasiLive (N : FlatNet) (ts : List Nat) : Cond :=
  .and (logOperands false (ts.map fun t => .EF (fireable N t)))

/-- The same, coloured. -/
def quasiLiveCol (N : FlatNet) (ts : List (List Nat)) : Cond :=
  .and (logOperands false (ts.map fun g => .EF (.or (logOperands true (g.map (fireable N))))))

/-- models src/PetriEngine/PQL/Analyze.cpp:343-373 (`LivenessCondition`), uncoloured. -/
def live (N : FlatNet) (ts : List Nat) : Cond :=
  .and (logOperands false (ts.map fun t => .AG (.EF (fireable N t))))

/-- The same, coloured. -/
def liveCol (N : FlatNet) (ts : List (List Nat)) : Cond :=
  .and (logOperands false (ts.map fun g => .AG (.EF (.or (logOperands true (g.map (fireable N)))))))

/-- models src/PetriEngine/PQL/Analyze.cpp:401-411 (`StableMarkingCondition`), uncoloured; the initial marking
is converted to `int`. -/
def stable (n : Nat) (m0 : Nat → Nat) : Cond :=
  .or (logOperands true ((List.range n).map fun p =>
    .AG (.cmp .eq (.id p) (.lit (Binary.wrap32 (m0 p))))))

/-- models src/PetriEngine/PQL/Analyze.cpp:383-399 (coloured); the sum of the initial tokens is a 32-bit number. -/
def stableCol (places : List (List Nat)) (m0 : Nat → Nat) : Cond :=
  .or (logOperands true (places.map fun ps =>
    .AG (.cmp .eq (mkPlus (ps.map .id)) (.lit (Binary.wrap32 (((ps.map m0).sum % W32 : Nat)))))))

end Shorthand
end PQL
end Verif
