/-!
# Product graphs, as the LTL searches see them
-/

namespace Verif
namespace LTL

/-- What the searches use of include/LTL/SuccessorGeneration/ProductSuccessorGenerator.h and of the state set.
`succ n v` are the successors of `v` in the order the generator has chosen at step `n` (the random heuristic
may choose another order at every visit), `acc` is `is_accepting`, `inv` is `has_invariant_self_loop`, `bnd`
tells whether `add` stores the state (it does not when the token bound is exceeded), `hash` is the hash function
of the table of src/LTL/Algorithm/TarjanModelChecker.cpp. -/
structure PGraph (V : Type) where
  succ : Nat → V → List V
  acc : V → Bool
  inv : V → Bool
  bnd : V → Bool
  hash : V → Nat

/-- Specification: the edges of the graph, independent of the order. -/
structure PGraph.Edges {V : Type} (G : PGraph V) (E : V → V → Prop) : Prop where
  succ : ∀ n v w, w ∈ G.succ n v ↔ E v w

/-- Specification: the edges of the graph restricted to the states that can be stored. -/
def PGraph.B {V : Type} (G : PGraph V) (E : V → V → Prop) (v w : V) : Prop := E v w ∧ G.bnd w = true

end LTL
end Verif
