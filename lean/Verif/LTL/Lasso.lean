import Mathlib.Logic.Relation
import Verif.LTL.Graph

/-!
# What a violation means for a product graph
-/

namespace Verif
namespace LTL
open Relation
variable {V : Type}

/-- Specification: some accepting state can be reached that lies on a cycle, or whose automaton state has a self loop
with the guard `true`. -/
def PGraph.Lasso (G : PGraph V) (E : V → V → Prop) (I : V → Prop) : Prop :=
  ∃ i a, I i ∧ G.bnd i = true ∧ ReflTransGen (G.B E) i a ∧ G.acc a = true ∧ (TransGen (G.B E) a a ∨ G.inv a = true)

end LTL
end Verif
