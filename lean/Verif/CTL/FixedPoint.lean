import Verif.CTL.Graph

/-!
# The fixed-point algorithms of the CTL engine

Models `src/CTL/Algorithm/CertainZeroFPA.cpp`, `src/CTL/Algorithm/LocalFPA.cpp`,
`src/CTL/SearchStrategy/SearchStrategy.cpp` and `src/CTL/DependencyGraph/Configuration.cpp`.

An edge object is identified by its source and its position among the source's successors (a
configuration is explored once, so this names each edge object during its life).  Reference counts and
the recycling of edges (`OnTheFlyDG::release`) are part of the model: a released edge has reference count
-1 and its fields are reset.  Which of the waiting edges is popped (DFS, BFS, random, heuristic) is
decided by an arbitrary function, and so are the addresses of edge objects, which order the dependency
sets.
-/

namespace Verif
namespace CTL

/-- models include/CTL/DependencyGraph/Edge.h:16-18 -/
inductive Asg
  | one | unknown | zero | czero
deriving DecidableEq, Repr

/-- An edge object: source configuration and position in the list of its successors. -/
abbrev EId (κ : Type) := κ × Nat

/-- models include/CTL/DependencyGraph/Edge.h:37-43 (`source` and `is_negated` follow from the name) -/
structure EdgeSt (κ : Type) where
  targets : List κ := []
  status : Nat := 0
  processed : Bool := false
  handled : Bool := false
  refcnt : Int := 0

/-- models include/CTL/DependencyGraph/Configuration.h:17-35 -/
structure ConfSt (κ : Type) where
  deps : List (EId κ) := []
  nsuccs : Nat := 0
  dist : Nat := 0
  asg : Asg := .unknown

/-- The engine's state: edge and configuration objects, and the three lists of the search strategy
(include/CTL/SearchStrategy/SearchStrategy.h:56-62).  `D` is a stack with its top first. -/
structure St (κ : Type) where
  edge : EId κ → EdgeSt κ := fun _ => {}
  conf : κ → ConfSt κ := fun _ => {}
  W : List (EId κ) := []
  N : List (EId κ) := []
  D : List (EId κ) := []

variable {κ : Type} [DecidableEq κ] (G : Graph κ)

/-- The edge of the graph an edge object stands for. -/
def Graph.orig (e : EId κ) : Option (HEdge κ) := (G.succ e.1)[e.2]?

/-- `Edge::is_negated` -/
def Graph.isNeg (e : EId κ) : Bool := match G.orig e with | some h => h.neg | none => false

/-- The targets an edge object is created with. -/
def Graph.origTargets (e : EId κ) : List κ := match G.orig e with | some h => h.targets | none => []

namespace St

def asg (s : St κ) (c : κ) : Asg := (s.conf c).asg

/-- models include/CTL/DependencyGraph/Configuration.h:30 -/
def isDone (s : St κ) (c : κ) : Bool := s.asg c == .one || s.asg c == .czero

def upE (s : St κ) (e : EId κ) (f : EdgeSt κ → EdgeSt κ) : St κ :=
  { s with edge := Function.update s.edge e (f (s.edge e)) }

def upC (s : St κ) (c : κ) (f : ConfSt κ → ConfSt κ) : St κ :=
  { s with conf := Function.update s.conf c (f (s.conf c)) }

/-- models src/CTL/PetriNets/OnTheFlyDG.cpp:627-637 (`release`) -/
def release (s : St κ) (e : EId κ) : St κ :=
  s.upE e fun r => { r with processed := false, targets := [], refcnt := -1, handled := false }

/-- `if(e->refcnt == 0) graph->release(e);` -/
def releaseIf0 (s : St κ) (e : EId κ) : St κ := if (s.edge e).refcnt = 0 then s.release e else s

/-- `++e->refcnt` -/
def ref (s : St κ) (e : EId κ) : St κ := s.upE e fun r => { r with refcnt := r.refcnt + 1 }

/-- `--e->refcnt` -/
def deref (s : St κ) (e : EId κ) : St κ := s.upE e fun r => { r with refcnt := r.refcnt - 1 }

/-- models src/CTL/SearchStrategy/SearchStrategy.cpp:14-41 (and 127-139): all targets ONE, or one
CZERO. -/
def decided (s : St κ) (e : EId κ) : Bool :=
  ((s.edge e).targets.all fun c => s.asg c == .one) || ((s.edge e).targets.any fun c => s.asg c == .czero)

/-- models src/CTL/SearchStrategy/SearchStrategy.cpp:14-41 (`pushNegation`) -/
def pushNegation (s : St κ) (e : EId κ) : St κ :=
  let s := (s.upE e fun r => { r with status := 3 }).ref e
  if s.decided e then { s with D := e :: s.D } else { s with N := s.N ++ [e] }

/-- models src/CTL/SearchStrategy/SearchStrategy.cpp:43-54 (`pushEdge`) -/
def pushEdge (s : St κ) (e : EId κ) : St κ :=
  if (s.edge e).status > 0 || s.isDone e.1 then s
  else if (s.edge e).processed && G.isNeg e then s.pushNegation e
  else
    let s := (s.upE e fun r => { r with status := 1 }).ref e
    { s with W := s.W ++ [e] }

/-- models src/CTL/SearchStrategy/SearchStrategy.cpp:56-62 (`pushDependency`) -/
def pushDependency (s : St κ) (e : EId κ) : St κ :=
  if s.isDone e.1 then s
  else
    let s := (s.upE e fun r => { r with status := 2 }).ref e
    { s with D := e :: s.D }

/-- models src/CTL/SearchStrategy/SearchStrategy.cpp:64-83 (`popEdge(false)`); `pick` chooses the
position in `W`. -/
def popEdge (pick : List (EId κ) → Nat) (s : St κ) : Option (EId κ × St κ) :=
  let fin (e : EId κ) (s : St κ) := (s.deref e).upE e fun r => { r with status := 0 }
  match s.D with
  | e :: D => some (e, fin e { s with D := D })
  | [] =>
    match s.W[pick s.W % s.W.length]? with
    | some e => some (e, fin e { s with W := s.W.eraseIdx (pick s.W % s.W.length) })
    | none => none

/-- models src/CTL/SearchStrategy/SearchStrategy.cpp:85-94 (`maxDistance`) -/
def maxDistance (s : St κ) : Nat :=
  s.N.foldl (fun m e => if s.isDone e.1 then m else max m (s.conf e.1).dist) 0

/-- models src/CTL/SearchStrategy/SearchStrategy.cpp:101-113 (`releaseNegationEdges`): the edges that
are moved and those that stay; after moving one edge the loop skips the next one. -/
def splitSkip (p : EId κ → Bool) : List (EId κ) → List (EId κ) × List (EId κ)
  | [] => ([], [])
  | [e] => if p e then ([e], []) else ([], [e])
  | e :: f :: es =>
    if p e then let r := splitSkip p es; (e :: r.1, f :: r.2)
    else let r := splitSkip p (f :: es); (r.1, e :: r.2)

/-- models src/CTL/SearchStrategy/SearchStrategy.cpp:101-113 (`releaseNegationEdges`) -/
def releaseNegationEdges (s : St κ) (dist : Nat) : St κ :=
  let r := splitSkip (fun e => decide ((s.conf e.1).dist ≥ dist) || s.isDone e.1) s.N
  { s with W := s.W ++ r.1, N := r.2 }

/-- models src/CTL/SearchStrategy/SearchStrategy.cpp:115-146 (`trivialNegation`) -/
def trivialNegation (s : St κ) : St κ :=
  let r := splitSkip s.decided s.N
  { s with D := r.1.reverse ++ s.D, N := r.2 }

/-- models the insertion loop of src/CTL/DependencyGraph/Configuration.cpp:13-23; `none` when the edge
is there already. -/
def insertDep (addr : EId κ → Nat) (e : EId κ) : List (EId κ) → Option (List (EId κ))
  | [] => some [e]
  | d :: ds =>
    if d = e then none
    else if addr e < addr d then some (e :: d :: ds)
    else (insertDep addr e ds).map (d :: ·)

/-- models src/CTL/DependencyGraph/Configuration.cpp:6-24 (`addDependency`) -/
def addDependency (addr : EId κ → Nat) (s : St κ) (t : κ) (e : EId κ) : St κ :=
  if s.asg t = .one then s
  else
    let sDist := if G.isNeg e then (s.conf e.1).dist + 1 else (s.conf e.1).dist
    let s := s.upC t fun c => { c with dist := max sDist c.dist }
    match insertDep addr e (s.conf t).deps with
    | none => s
    | some ds => (s.upC t fun c => { c with deps := ds }).ref e

/-- models the loop body of src/CTL/Algorithm/CertainZeroFPA.cpp:185-212 -/
def notifyDep (a : Asg) (s : St κ) (e : EId κ) : St κ :=
  let s := if s.isDone e.1 then s
    else if !G.isNeg e || a = .czero then s.pushDependency e else s.pushNegation e
  (s.deref e).releaseIf0 e

/-- models src/CTL/Algorithm/CertainZeroFPA.cpp:178-215 (`finalAssign`); clearing the dependency set at
the end is modelled by clearing it at the start (the loop does not look at it otherwise). -/
def finalAssign (s : St κ) (c : κ) (a : Asg) : St κ :=
  let deps := (s.conf c).deps
  deps.foldl (notifyDep G a) (s.upC c fun r => { r with asg := a, nsuccs := 0, deps := [] })

/-- Result of the loop over the targets in `checkEdge`. -/
structure Scan (κ : Type) where
  targets : List κ
  allOne : Bool
  hasCZero : Bool
  last : Option κ

/-- models src/CTL/Algorithm/CertainZeroFPA.cpp:77-87: the update of `lastUndecided` -/
def pickLast (s : St κ) (last : Option κ) (t : κ) : Option κ :=
  match last with
  | none => some t
  | some l => if s.asg l = .unknown ∧ s.asg t = .zero then some t else some l

/-- models src/CTL/Algorithm/CertainZeroFPA.cpp:62-92: the loop over the targets; targets with value
ONE are erased, a target with value CZERO ends the loop. -/
def scan (s : St κ) (last : Option κ) : List κ → Scan κ
  | [] => ⟨[], true, false, last⟩
  | t :: ts =>
    if s.asg t = .one then s.scan last ts
    else if s.asg t = .czero then ⟨t :: ts, false, true, last⟩
    else
      let r := s.scan (s.pickLast last t) ts
      ⟨t :: r.targets, false, r.hasCZero, r.last⟩

/-- models src/CTL/Algorithm/CertainZeroFPA.cpp:102-109 and 142-150: one successor edge less -/
def markHandled (s : St κ) (e : EId κ) (only : Bool) : St κ :=
  let s := s.upC e.1 fun c => { c with nsuccs := c.nsuccs - 1 }
  let s := s.upE e fun r => { r with handled := true }
  let s := if only then s.deref e else s
  let s := if (s.conf e.1).nsuccs = 0 then s.finalAssign G e.1 .czero else s
  s.releaseIf0 e

/-- How `checkEdge` goes on: return at once, run the lines after the case distinction, or explore a
configuration and then run these. -/
inductive Next (κ : Type)
  | ret
  | tail
  | explore (c : κ)

/-- models src/CTL/Algorithm/CertainZeroFPA.cpp:117-131: a negated edge with undecided target -/
def negUndecided (addr : EId κ → Nat) (s : St κ) (e : EId κ) (u : κ) : St κ × Next κ :=
  if s.asg u = .zero ∧ (s.edge e).processed = true then (s.finalAssign G e.1 .one, .tail)
  else
    let s := if (s.edge e).processed then s else s.pushNegation e
    let s := s.addDependency G addr u e
    (s, if s.asg u = .unknown then .explore u else .tail)

/-- models src/CTL/Algorithm/CertainZeroFPA.cpp:152-164: an ordinary edge with undecided targets -/
def posUndecided (addr : EId κ → Nat) (s : St κ) (e : EId κ) (u : κ) : St κ × Next κ :=
  let s := if !(s.edge e).processed && !s.isDone u then
      (s.edge e).targets.foldl (fun s t => s.addDependency G addr t e) s
    else s
  (s, if s.asg u = .unknown then .explore u else .tail)

/-- models src/CTL/Algorithm/CertainZeroFPA.cpp:47-166 (`checkEdge` up to the exploration of a
target) -/
def checkHead (addr : EId κ → Nat) (s : St κ) (e : EId κ) (only : Bool) : St κ × Next κ :=
  if (s.edge e).handled then (s, .ret)
  else if s.isDone e.1 then (s.releaseIf0 e, .ret)
  else
    let r := s.scan none (s.edge e).targets
    let s := s.upE e fun x => { x with targets := r.targets }
    if G.isNeg e then
      if r.allOne then (s.markHandled G e only, .tail)
      else if r.hasCZero then (s.finalAssign G e.1 .one, .tail)
      else match r.last with
        | none => (s, .tail)
        | some u => if only then (s, .ret) else s.negUndecided G addr e u
    else
      if r.allOne then (s.finalAssign G e.1 .one, .tail)
      else if r.hasCZero then (s.markHandled G e only, .tail)
      else match r.last with
        | none => (s, .tail)
        | some u => if only then (s, .ret) else s.posUndecided G addr e u

/-- models src/CTL/Algorithm/CertainZeroFPA.cpp:168-169 -/
def checkTail (s : St κ) (e : EId κ) (only : Bool) : St κ :=
  let s := if (s.edge e).refcnt > 0 && !only then s.upE e fun r => { r with processed := true } else s
  s.releaseIf0 e

/-- models `checkEdge(e, true)`, which does not explore -/
def checkOnly (addr : EId κ → Nat) (s : St κ) (e : EId κ) : St κ :=
  match s.checkHead G addr e true with
  | (s, .ret) => s
  | (s, _) => s.checkTail e true

/-- models the loops of src/CTL/Algorithm/CertainZeroFPA.cpp:237-241 and 247-251 -/
def dropSucc (s : St κ) (e : EId κ) : St κ :=
  (if (s.edge e).refcnt ≥ 1 then s.deref e else s).releaseIf0 e

/-- models the loop of src/CTL/Algorithm/CertainZeroFPA.cpp:256-269 -/
def pushSucc (s : St κ) (e : EId κ) : St κ :=
  if (s.edge e).refcnt > 0 then ((s.pushEdge G e).deref e).releaseIf0 e
  else s.releaseIf0 e

/-- models src/CTL/Algorithm/CertainZeroFPA.cpp:232-244: the successor edges are looked at from the last
to the first, until one decides the configuration -/
def preCheck (addr : EId κ → Nat) (c : κ) (s : St κ) : List (EId κ) → St κ
  | [] => s
  | e :: es =>
    let s := s.checkOnly G addr e
    if s.isDone c then s else preCheck addr c s es

/-- The edge objects of a configuration. -/
def succIds (c : κ) : List (EId κ) := (List.range (G.succ c).length).map fun i => (c, i)

/-- models `newEdge` and `addTarget` for the edges of `c` (src/CTL/PetriNets/OnTheFlyDG.cpp:645-667):
the status field is what the memory held before. -/
def newEdges (s : St κ) (c : κ) : St κ :=
  { s with edge := fun e =>
      if e.1 = c ∧ e.2 < (G.succ c).length then
        { targets := G.origTargets e, status := (s.edge e).status, refcnt := 1 }
      else s.edge e }

/-- models src/CTL/Algorithm/CertainZeroFPA.cpp:217-273 (`explore`) -/
def explore (addr : EId κ → Nat) (s : St κ) (c : κ) : St κ :=
  let s := s.upC c fun r => { r with asg := .zero, nsuccs := (G.succ c).length }
  let s := s.newEdges G c
  let s := s.preCheck G addr c (succIds G c).reverse
  if s.isDone c then (succIds G c).foldl dropSucc s
  else if (s.conf c).nsuccs = 0 then ((succIds G c).foldl dropSucc s).finalAssign G c .czero
  else (succIds G c).foldl (pushSucc G) s

/-- models src/CTL/Algorithm/CertainZeroFPA.cpp:47-170 (`checkEdge(e)`) -/
def checkEdge (addr : EId κ → Nat) (s : St κ) (e : EId κ) : St κ :=
  match s.checkHead G addr e false with
  | (s, .ret) => s
  | (s, .tail) => s.checkTail e false
  | (s, .explore c) => (s.explore G addr c).checkTail e false

/-- models src/CTL/Algorithm/CertainZeroFPA.cpp:24-29: one popped edge -/
def handleEdge (addr : EId κ → Nat) (s : St κ) (e : EId κ) : St κ :=
  let s := (s.ref e).checkEdge G addr e
  let s := if (s.edge e).refcnt > 0 then s.deref e else s
  s.releaseIf0 e

/-- What one round of the loop does. -/
inductive Step (κ : Type)
  | answer (b : Bool)
  | cont (s : St κ) (cnt : Nat)

/-- models src/CTL/Algorithm/CertainZeroFPA.cpp:19-46: one round of the inner loop, or, when no edge is
waiting, one round of the outer loop -/
def step (addr : EId κ → Nat) (pick : List (EId κ) → Nat) (root : κ) (s : St κ) (cnt : Nat) : Step κ :=
  match s.popEdge pick with
  | some (e, s) =>
    let s := s.handleEdge G addr e
    let s := if (cnt + 1) % 1000 = 0 then s.trivialNegation else s
    if s.isDone root then .answer (s.asg root == .one) else .cont s (cnt + 1)
  | none =>
    if s.isDone root || s.N.isEmpty then .answer (s.asg root == .one)
    else
      let s := s.trivialNegation
      if s.D.isEmpty then .cont (s.releaseNegationEdges s.maxDistance) 0 else .cont s cnt

/-- models the loop of src/CTL/Algorithm/CertainZeroFPA.cpp:19-46 with a bound on the number of
rounds; `pick n` is what the strategy does in the `n`-th round from here. -/
def run (addr : EId κ → Nat) (root : κ) : Nat → (Nat → List (EId κ) → Nat) → St κ → Nat → Option Bool
  | 0, _, _, _ => none
  | fuel + 1, pick, s, cnt =>
    match s.step G addr (pick 0) root cnt with
    | .answer b => some b
    | .cont s cnt => run addr root fuel (fun n => pick (n + 1)) s cnt

end St

/-- models src/CTL/Algorithm/CertainZeroFPA.cpp:9-46 (`CertainZeroFPA::search`) -/
def certainZero (addr : EId κ → Nat) (pick : Nat → List (EId κ) → Nat) (root : κ) (fuel : Nat) : Option Bool :=
  St.run G addr root fuel pick (({} : St κ).explore G addr root) 0

end CTL
end Verif
