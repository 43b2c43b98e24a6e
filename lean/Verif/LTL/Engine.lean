import Verif.LTL.ProductGraph
import Verif.LTL.FormulaLemmas
import Verif.LTL.Tarjan
import Verif.LTL.Ndfs

/-!
# The LTL engine

Models src/LTL/LTLSearch.cpp.
-/

namespace Verif
namespace LTL
open PQL

/-- include/LTL/LTLOptions.h (`Algorithm`) -/
inductive Algo
  | ndfs | tarjan

/-- What a run of the engine depends on besides the net and the query. -/
structure ECfg where
  tcfg : TCfg
  algo : Algo
  weak : Bool
  bnd : List Nat → Bool
  ord : Nat → List (List Nat × Nat) → List (List Nat × Nat)
  hash : List Nat × Nat → Nat

/-- models src/LTL/LTLSearch.cpp:233-251: the search -/
def search (e : ECfg) (N : FlatNet) (A : Buchi) (ap : Mark → Nat → Bool) (l0 : List Nat) (fuel : Nat) : Option Bool :=
  let G := pgraph N A ap e.bnd e.ord e.hash
  match e.algo with
  | .ndfs => Ndfs.check G e.weak (pinits A ap l0) fuel
  | .tarjan => Tarjan.check G (pinits A ap l0) fuel

/-- models src/LTL/LTLSearch.cpp:132-145 (the constructor) and 222-252 (`solve`), without partial-order reduction.  `none`:
the query was refused, or out of fuel.  The automaton, which spot makes from the negation of the translated formula,
and the numbers of its variables are parameters. -/
def ltlSolve (e : ECfg) (N : FlatNet) (A : Buchi) (reg : Key → Nat) (query : Cond) (l0 : List Nat) (fuel : Nat) :
    Option Bool :=
  if isLTL query then
    match toLtl query with
    | (some f, neg) => (search e N A (apValue N reg (toSpot e.tcfg f []).2) l0 fuel).map fun b => b != neg
    | (none, _) => none
  else none

/-- Specification: the automaton is what spot has to deliver for the query. -/
def SpotFor (cfg : TCfg) (A : Buchi) (reg : Key → Nat) (query : Cond) : Prop :=
  ∀ f neg, toLtl query = (some f, neg) → SpotOK A reg (toSpot cfg f []).2 (.not (toSpot cfg f []).1)

/-- Specification: texts of propositions of the query are not ambiguous. -/
def PrintFor (cfg : TCfg) (T : TS) (query : Cond) : Prop :=
  ∀ f neg, toLtl query = (some f, neg) → PrintOK T cfg.print (toSpot cfg f []).2

end LTL
end Verif
