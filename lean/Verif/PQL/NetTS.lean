import Verif.PQL.Semantics
import Verif.Net.Flat

/-!
# The transition system of a net
-/

namespace Verif

/-- Specification: the transition system formulas about the net `N` speak of. -/
def FlatNet.ts (N : FlatNet) : PQL.TS := ⟨fun m m' => ∃ t, N.toNet.Step m t m'⟩

theorem FlatNet.ts_dead (N : FlatNet) (m : PQL.Mark) : N.ts.Dead m ↔ N.toNet.Dead m := by
  constructor
  · intro h t he; exact h _ ⟨t, he, rfl⟩
  · rintro h m' ⟨t, he, _⟩; exact h t he

end Verif
