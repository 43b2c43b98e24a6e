import Verif.PQL.Checkers
import Verif.PQL.NetTS
import Verif.Stubborn.Model

/-!
# The classic stubborn sets of the LTL engine

Models src/LTL/Stubborn/VisibleLTLStubbornSet.cpp, include/LTL/Stubborn/VisibleLTLStubbornSet.h and
src/LTL/Stubborn/VisibleTransitionVisitor.cpp (`--ltl-por classic`).
-/

namespace Verif
namespace LTL
open PQL Stubborn

mutual
/-- the flags `_places` after an expression has been visited,
models src/LTL/Stubborn/VisibleTransitionVisitor.cpp:70-102 -/
def visE : Expr → (Nat → Bool) → Nat → Bool
  | .lit _, f => f
  | .id p, f => setB f p
  | .plus _ ids es, f => visEs es (ids.foldl setB f)
  | .mul _ ids es, f => visEs es (ids.foldl setB f)
  | .sub e es, f => visEs es (visE e f)
  | .minus e, f => visE e f
def visEs : List Expr → (Nat → Bool) → Nat → Bool
  | [], f => f
  | e :: es, f => visEs es (visE e f)
end

mutual
/-- the flags `_places` after a condition has been visited,
models src/LTL/Stubborn/VisibleTransitionVisitor.cpp:21-66, 104-127.  There are no cases for the operators of CTL, which the
engine does not pass on. -/
def visC : Cond → (Nat → Bool) → Nat → Bool
  | .cmp _ a b, f => visE b (visE a f)
  | .cc l _, f => l.foldl (fun f c => setB f c.place) f
  | .not c, f => visC c f
  | .and cs, f => visCs cs f
  | .or cs, f => visCs cs f
  | .A c, f => visC c f
  | .E c, f => visC c f
  | .G c, f => visC c f
  | .F c, f => visC c f
  | .X c, f => visC c f
  | .U c d, f => visC d (visC c f)
  | _, f => f
def visCs : List Cond → (Nat → Bool) → Nat → Bool
  | [], f => f
  | c :: cs, f => visCs cs (visC c f)
end

/-- the flags `_visible`, models include/LTL/Stubborn/VisibleLTLStubbornSet.h:47-78 (the constructor for one query, and
`visTrans`) -/
def visibleT (N : FlatNet) (q : Cond) (t : Nat) : Bool :=
  (List.range N.nplaces).any fun p => visC q (fun _ => false) p &&
    ((preT N p).contains t || (postT N p).any fun a => a.1 == t && decide (a.2 < 0))

/-- models src/LTL/Stubborn/VisibleLTLStubbornSet.cpp:85-96: the key transition, `t` being the front of `_ordering` -/
def visKey (N : FlatNet) (vis : Nat → Bool) (m : Nat → Nat) (t : Nat) : Nat :=
  if vis t then ((List.range N.ntransitions).find? fun u => (cx N m).en u && !vis u).getD t else t

/-- models src/LTL/Stubborn/VisibleLTLStubbornSet.cpp:97-108: the key transition is added, and for all its input places
`postsetOf(place, true)` is called -/
def keySet (N : FlatNet) (m : Nat → Nat) (k : Nat) : Stub :=
  ((N.preset k).map (·.place)).foldl (fun s p => (cx N m).post p s) (addToStub {} k)

/-- models src/LTL/Stubborn/VisibleLTLStubbornSet.cpp:26-68, 110-133 (`prepare` with `ensureRuleV`): the set `_stubborn`.
The key transition is enabled, so `_has_enabled_stubborn` is always set. -/
def visSet (N : FlatNet) (vis : Nat → Bool) (m : Nat → Nat) : Nat → Bool :=
  match ordering N m with
  | [] => fun _ => false
  | [t] => setB (fun _ => false) t
  | t :: _ =>
    if (List.range N.ntransitions).any fun u =>
        (keySet N m (visKey N vis m t)).stub u && (cx N m).en u && vis u then fun _ => true
    else (keySet N m (visKey N vis m t)).stub

/-- Specification: the transition system explored when only transitions of the set chosen for a marking are fired. -/
def redTS (N : FlatNet) (S : (Nat → Nat) → Nat → Bool) : TS :=
  ⟨fun m m' => ∃ t : Fin N.ntransitions, S m t = true ∧ N.toNet.Step m t m'⟩

end LTL
end Verif
