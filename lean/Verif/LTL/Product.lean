import Verif.CTL.Encode
import Verif.PQL.NetTS

/-!
# The product of a net and a Büchi automaton

Models include/LTL/SuccessorGeneration/ProductSuccessorGenerator.h, BuchiSuccessorGenerator.h,
ResumingSuccessorGenerator.h and include/LTL/Structures/BuchiAutomaton.h, BitProductStateSet.h.
The automaton itself comes from the library spot.
-/

namespace Verif
namespace LTL
open PQL CTL

/-- A binary decision diagram as buddy stores it; `leaf false` and `leaf true` are the nodes 0 and 1. -/
inductive Bdd
  | leaf (b : Bool)
  | node (var : Nat) (low high : Bdd)
deriving DecidableEq, Repr

/-- models include/LTL/Structures/BuchiAutomaton.h:79-104 (`guard_valid`; an unknown result, at which the program throws, cannot occur for predicates): `ap x` is the result of evaluating the
condition bound to the variable `x` in the current marking. -/
def Bdd.valid (ap : Nat → Bool) : Bdd → Bool
  | .leaf b => b
  | .node x low high => if ap x then high.valid ap else low.valid ap

/-- What the program uses of spot's automaton: the initial state, the edges of a state in order (destination and
guard), and which states are accepting. -/
structure Buchi where
  init : Nat
  edges : Nat → List (Nat × Bdd)
  acc : Nat → Bool

/-- models include/LTL/SuccessorGeneration/BuchiSuccessorGenerator.h:74-91 (`has_invariant_self_loop`; the cache is
left out) -/
def Buchi.invLoop (A : Buchi) (q : Nat) : Bool := (A.edges q).any fun e => decide (e.1 = q) && decide (e.2 = .leaf true)

/-- Result of a call that may throw. -/
inductive PRes (α : Type)
  | thrown
  | done
  | ret (x : α)
deriving DecidableEq

/-- models include/LTL/SuccessorGeneration/ResumingSuccessorGenerator.h:75-79 (`next`) -/
def mnext (N : FlatNet) (l : List Nat) (gs : FlatNet.GenState) : PRes (List Nat × FlatNet.GenState) :=
  match N.next (toMark l) (fun _ => true) gs with
  | none => .done
  | some (t, gs') =>
    match N.fire (toMark l) t with
    | none => .thrown
    | some m' => .ret (ofMark N.nplaces m', gs')

/-- models include/LTL/SuccessorGeneration/ResumingSuccessorGenerator.h:31-53 (`successor_info_t`); the sentinels of
`_last_state` are an `Option`, and it holds the state instead of its id -/
structure Info where
  gs : FlatNet.GenState := FlatNet.genInit
  b : Nat := 0
  last : Option (List Nat) := none

/-- models include/LTL/SuccessorGeneration/ResumingSuccessorGenerator.h:45-47 -/
def Info.fresh (i : Info) : Bool := i.gs.1 == 0 && i.gs.2.isNone

/-- models include/LTL/SuccessorGeneration/ProductSuccessorGenerator.h:214-225 (`next_buchi_succ`): the first of the
remaining edges of the automaton whose guard holds -/
def pickB (ok : Bdd → Bool) : List (Nat × Bdd) → Option Nat
  | [] => none
  | (q, g) :: es => if ok g then some q else pickB ok es

/-- models include/LTL/SuccessorGeneration/ProductSuccessorGenerator.h:124-135: skip edges up to the first one that
leads to `b` -/
def spool (b : Nat) : List (Nat × Bdd) → List (Nat × Bdd)
  | [] => []
  | (q, _) :: es => if q = b then es else spool b es

variable (N : FlatNet) (A : Buchi) (ap : Mark → Nat → Bool)

/-- models include/LTL/SuccessorGeneration/ProductSuccessorGenerator.h:166-173: try the next markings.  The result is
the successor and the new counters. -/
def more (l : List Nat) (q : Nat) : Nat → FlatNet.GenState → PRes ((List Nat × Nat) × FlatNet.GenState)
  | 0, _ => .done
  | n + 1, gs =>
    match mnext N l gs with
    | .thrown => .thrown
    | .done => .done
    | .ret (l', gs') =>
      match pickB (Bdd.valid (ap (toMark l'))) (A.edges q) with
      | some q' => .ret ((l', q'), gs')
      | none => more l q n gs'

/-- models include/LTL/SuccessorGeneration/ProductSuccessorGenerator.h:159-175: `rest` are the edges of the automaton not
yet tried for the marking `cur` -/
def tryHere (l : List Nat) (q : Nat) (cur : List Nat) (rest : List (Nat × Bdd)) (gs : FlatNet.GenState) :
    PRes ((List Nat × Nat) × FlatNet.GenState) :=
  match pickB (Bdd.valid (ap (toMark cur))) rest with
  | some q' => .ret ((cur, q'), gs)
  | none => more N A ap l q (N.ntransitions + 1) gs

/-- models include/LTL/SuccessorGeneration/ProductSuccessorGenerator.h:117-176 (`prepare` and `next`); `work` is the marking
in the buffer `state` when `next` is called. -/
def pnext (l : List Nat) (q : Nat) (info : Info) (work : List Nat) : PRes ((List Nat × Nat) × FlatNet.GenState) :=
  if info.fresh then
    match mnext N l info.gs with
    | .thrown => .thrown
    | .done => tryHere N A ap l q l (A.edges q) (N.nplaces, none)
    | .ret (l', gs') => tryHere N A ap l q l' (A.edges q) gs'
  else tryHere N A ap l q work (spool info.b (A.edges q)) info.gs

/-- The search's use of the generator for one state (src/LTL/Algorithm/TarjanModelChecker.cpp:136-158, 280-291;
src/LTL/Algorithm/NestedDepthFirstSearch.cpp:117-158): `bnd` tells whether the state set stores a marking.  Between the
calls the search may work on other states; `prepare` restores all but the buffer, and that only when the last
successor was not stored, in which case the next call follows at once.  `none`: exception, or out of fuel. -/
def enumP (bnd : List Nat → Bool) (l : List Nat) (q : Nat) : Nat → Info → List Nat → Option (List (List Nat × Nat))
  | 0, _, _ => none
  | n + 1, info, work =>
    match pnext N A ap l q info (info.last.getD work) with
    | .thrown => none
    | .done => some []
    | .ret (x, gs') =>
      (enumP bnd l q n ⟨gs', x.2, if bnd x.1 then some x.1 else info.last⟩ x.1).map (x :: ·)

/-- How many calls of `next` are enough. -/
def enumFuel (q : Nat) : Nat := (N.ntransitions + 2) * ((A.edges q).length + 1) + 1

/-- All successors of a product state, in order. -/
def psucc (bnd : List Nat → Bool) (v : List Nat × Nat) : Option (List (List Nat × Nat)) :=
  enumP N A ap bnd v.1 v.2 (enumFuel N A v.2) {} []

/-- models include/LTL/SuccessorGeneration/ProductSuccessorGenerator.h:95-110 (`make_initial_state`) -/
def pinits (l0 : List Nat) : List (List Nat × Nat) :=
  ((A.edges A.init).filter fun e => e.2.valid (ap (toMark l0))).map fun e => (l0, e.1)

/-- models include/LTL/Structures/BitProductStateSet.h:51-56 (`get_product_id`) with 64-bit arithmetic -/
def productId (mid q : Nat) : Nat := (q &&& (2 ^ 20 - 1)) ||| ((mid <<< 20) % 2 ^ 64)

/-- models include/LTL/Structures/BitProductStateSet.h:47 (`get_buchi_state`) -/
def idBuchi (id : Nat) : Nat := id &&& (2 ^ 20 - 1)

/-- models include/LTL/Structures/BitProductStateSet.h:49 (`get_marking_id`) -/
def idMarking (id : Nat) : Nat := id >>> 20

/-! ### Specification -/

/-- Specification: `m'` follows `m` in the net, deadlocks being repeated. -/
def MStep (N : FlatNet) (m m' : Mark) : Prop := N.ts.step m m' ∨ (N.ts.Dead m ∧ m' = m)

/-- Specification: the edges of the product. -/
def PEdge (N : FlatNet) (A : Buchi) (ap : Mark → Nat → Bool) (x y : List Nat × Nat) : Prop :=
  y.1.length = N.nplaces ∧ MStep N (toMark x.1) (toMark y.1) ∧
    ∃ g, (y.2, g) ∈ A.edges x.2 ∧ g.valid (ap (toMark y.1)) = true

/-- Specification: the automaton has at most one edge from a state to another. -/
def Buchi.Simple (A : Buchi) : Prop := ∀ q, ((A.edges q).map (·.1)).Nodup

/-- Specification: the automaton accepts the infinite word `v`; letter `i` gives each variable a value. -/
def Buchi.AcceptsWord (A : Buchi) (v : Nat → Nat → Bool) : Prop :=
  ∃ r : Nat → Nat, r 0 = A.init ∧ (∀ i, ∃ g, (r (i + 1), g) ∈ A.edges (r i) ∧ g.valid (v i) = true) ∧
    ∀ n, ∃ k, n ≤ k ∧ A.acc (r k) = true

/-- Specification: the automaton accepts the sequence of markings `π`. -/
def Buchi.Accepts (A : Buchi) (ap : Mark → Nat → Bool) (π : Nat → Mark) : Prop := A.AcceptsWord fun i => ap (π i)

end LTL
end Verif
