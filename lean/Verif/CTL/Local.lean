import Verif.CTL.FixedPoint

/-!
# The local fixed-point algorithm

Models `src/CTL/Algorithm/LocalFPA.cpp`, on the state and search strategy of `FixedPoint.lean`.
-/

namespace Verif
namespace CTL

variable {κ : Type} [DecidableEq κ] (G : Graph κ)

namespace St

/-- models src/CTL/Algorithm/LocalFPA.cpp:25-33: the last target that is not ONE; `none` when all are -/
def lastUndecided (s : St κ) (e : EId κ) : Option κ :=
  (s.edge e).targets.foldl (fun last c => if s.asg c = .one then last else some c) none

/-- models the loop body of src/CTL/Algorithm/LocalFPA.cpp:78-89 -/
def localNotify (s : St κ) (e : EId κ) : St κ :=
  let s := if G.isNeg e then s.pushNegation e else s.pushDependency e
  (s.deref e).releaseIf0 e

/-- models src/CTL/Algorithm/LocalFPA.cpp:73-92 (`finalAssign(c, ONE)`); the dependency set is cleared at
the start, the loop does not look at it otherwise -/
def localAssign (s : St κ) (c : κ) : St κ :=
  let deps := (s.conf c).deps
  deps.foldl (localNotify G) (s.upC c fun r => { r with asg := .one, deps := [] })

/-- models the loop body of src/CTL/Algorithm/LocalFPA.cpp:100-104 -/
def localPush (s : St κ) (e : EId κ) : St κ := ((s.pushEdge G e).deref e).releaseIf0 e

/-- models src/CTL/Algorithm/LocalFPA.cpp:94-108 (`explore`) -/
def localExplore (s : St κ) (c : κ) : St κ :=
  (succIds G c).foldl (localPush G) ((s.upC c fun r => { r with asg := .zero }).newEdges G c)

/-- models src/CTL/Algorithm/LocalFPA.cpp:40-43 and 57-60 -/
def localVisit (addr : EId κ → Nat) (s : St κ) (e : EId κ) (u : κ) : St κ :=
  let s := s.addDependency G addr u e
  if s.asg u = .unknown then s.localExplore G u else s

/-- models src/CTL/Algorithm/LocalFPA.cpp:25-62 -/
def localCheck (addr : EId κ → Nat) (s : St κ) (e : EId κ) : St κ :=
  match s.lastUndecided e with
  | none => if G.isNeg e then s else s.localAssign G e.1
  | some u =>
    if G.isNeg e then
      if (s.edge e).processed then s.localAssign G e.1
      else (s.localVisit G addr e u).pushNegation e
    else s.localVisit G addr e u

/-- models src/CTL/Algorithm/LocalFPA.cpp:25-64: one popped edge -/
def localHandle (addr : EId κ → Nat) (s : St κ) (e : EId κ) : St κ :=
  ((s.localCheck G addr e).upE e fun r => { r with processed := true }).releaseIf0 e

/-- models src/CTL/SearchStrategy/SearchStrategy.cpp:9-12 (`empty`) -/
def noEdges (s : St κ) : Bool := s.W.isEmpty && s.N.isEmpty && s.D.isEmpty

/-- models src/CTL/Algorithm/LocalFPA.cpp:66-70 and the test of the outer loop (16) -/
def localOuter (root : κ) (s : St κ) : Step κ :=
  let s := s.trivialNegation
  let s := if s.D.isEmpty then s.releaseNegationEdges s.maxDistance else s
  if s.noEdges then .answer (s.asg root == .one) else .cont s 0

/-- models src/CTL/Algorithm/LocalFPA.cpp:16-70: one popped edge; when there is none, or the root is ONE
(`break`), the lines after the inner loop -/
def localStep (addr : EId κ → Nat) (pick : List (EId κ) → Nat) (root : κ) (s : St κ) : Step κ :=
  match s.popEdge pick with
  | some (e, s) => if s.asg root = .one then s.localOuter root else .cont (s.localHandle G addr e) 0
  | none => s.localOuter root

/-- The loops of src/CTL/Algorithm/LocalFPA.cpp:16-70 with a bound on the number of rounds. -/
def localRun (addr : EId κ → Nat) (root : κ) : Nat → (Nat → List (EId κ) → Nat) → St κ → Option Bool
  | 0, _, _ => none
  | fuel + 1, pick, s =>
    match s.localStep G addr (pick 0) root with
    | .answer b => some b
    | .cont s _ => localRun addr root fuel (fun n => pick (n + 1)) s

end St

/-- models src/CTL/Algorithm/LocalFPA.cpp:8-71 (`LocalFPA::search`) -/
def localFPA (addr : EId κ → Nat) (pick : Nat → List (EId κ) → Nat) (root : κ) (fuel : Nat) : Option Bool :=
  let s := ({} : St κ).localExplore G root
  if s.noEdges then some (s.asg root == .one) else St.localRun G addr root fuel pick s

end CTL
end Verif
