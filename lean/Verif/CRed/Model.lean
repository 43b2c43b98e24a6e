import Verif.CRed.VarMs

/-!
# The state of the coloured reducer

Models `src/PetriEngine/Colored/Reduction/ColoredReducer.cpp`.  The lists `_pre` and `_post` of the places and the counters
`inhibitor` and `inhibited`, which the code stores, are read off the arcs.
-/

namespace Verif
namespace CRed
open CPN

/-- models the net of the reducer with the marks `skipped` of its places and transitions
(include/PetriEngine/Colored/Reduction/ColoredReducer.h:131-138). -/
structure Red where
  net : CNet
  skP : List Nat := []
  skT : List Nat := []

/-- models include/PetriEngine/PQL/ColoredUseVisitor.h:28-38: the places and transitions that the queries mention. -/
structure Uses where
  place : Nat → Bool
  trans : Nat → Bool

/-- models src/PetriEngine/Colored/Reduction/ColoredReducer.cpp:76-98 (`getInArc`, `getOutArc`): the first arc whose place is
not smaller, if its place is the one asked for. -/
def arcAt (as : List CArc) (p : Nat) : Option CArc :=
  match as.find? fun a => decide (a.place ≥ p) with
  | none => none
  | some a => if a.place ≠ p then none else some a

def Red.inArc (R : Red) (p t : Nat) : Option CArc := arcAt (R.net.trans t).inputs p
def Red.outArc (R : Red) (t p : Nat) : Option CArc := arcAt (R.net.trans t).outputs p

/-- `place._post`: the transitions that take tokens from the place, in increasing order. -/
def Red.post (R : Red) (p : Nat) : List Nat :=
  (List.range R.net.transitions.length).filter fun t => (R.net.trans t).inputs.any fun a => a.place == p

/-- `place._pre`: the transitions that put tokens on the place, in increasing order. -/
def Red.pre (R : Red) (p : Nat) : List Nat :=
  (List.range R.net.transitions.length).filter fun t => (R.net.trans t).outputs.any fun a => a.place == p

/-- `place.inhibitor`: the number of inhibitor arcs of the place. -/
def Red.inhibitor (R : Red) (p : Nat) : Nat := (R.net.inhibitors.filter fun h => h.place == p).length

/-- `transition.inhibited`: the number of inhibitor arcs of the transition. -/
def Red.inhibited (R : Red) (t : Nat) : Nat := (R.net.inhibitors.filter fun h => h.trans == t).length

/-- models src/PetriEngine/Colored/Reduction/ColoredReducer.cpp:100-133 (`skipPlace`). -/
def Red.skipPlace (R : Red) (p : Nat) : Red where
  net := { R.net with
    transitions := R.net.transitions.map fun t =>
      { t with inputs := t.inputs.filter (fun a => a.place != p), outputs := t.outputs.filter (fun a => a.place != p) }
    inhibitors := R.net.inhibitors.filter fun h => h.place != p }
  skP := p :: R.skP
  skT := R.skT

/-- removes the arcs of a transition; the guard stays -/
def bare (t : CTrans) : CTrans := { t with inputs := [], outputs := [] }

/-- models src/PetriEngine/Colored/Reduction/ColoredReducer.cpp:135-168 (`skipTransition`). -/
def Red.skipTrans (R : Red) (t : Nat) : Red where
  net := { R.net with
    transitions := R.net.transitions.modify t bare
    inhibitors := R.net.inhibitors.filter fun h => h.trans != t }
  skP := R.skP
  skT := t :: R.skT

/-- models include/PetriEngine/Colored/Reduction/ColoredReducer.h:79-81 (`unskippedPlacesCount`). -/
def Red.unskipped (R : Red) : Nat := R.net.places.length - R.skP.length

/-- models src/PetriEngine/Colored/Reduction/ColoredReducer.cpp:347-367 (`getBindingCount`), in 32 bits. -/
def Red.bindingCount (R : Red) (t : Nat) : Nat :=
  (R.net.trans t).vars.foldl (fun s v => (s * R.net.types.size (R.net.vty v)) % W32) 1

/-- the bindings of the `NaiveBindingGenerator` (src/PetriEngine/Colored/BindingGenerator.cpp:47-125), with all the fuel it
needs -/
def Red.bindings (R : Red) (t : Nat) : Option (List Binding) :=
  naiveBindings R.net.types R.net.vty ((R.net.trans t).vars.map fun v => R.net.types.size (R.net.vty v)).prod (R.net.trans t)

/-- the marking of a place as a multiset -/
def markMS (pl : CPlace) : MS := ⟨if pl.marking = [] then none else some pl.ty, pl.marking⟩

/-- models src/PetriEngine/Colored/Multiset.cpp:134-138 (`isSubsetOrEqTo`). -/
def msSubEq (m o : MS) : Option Bool := (m.sub o).map fun d => d.set.all fun q => q.2 == 0

/-- whether the marking has the tokens of the arc expression under the binding -/
def Red.covers (R : Red) (m : MS) (e : ArcE) (b : Binding) : Option Bool :=
  (e.evaluate R.net.types R.net.vty b).bind fun ms => msSubEq ms m

/-- the loop of src/PetriEngine/Colored/Reduction/RedRuleRedundantPlaces.cpp:81-87 -/
def Red.coversAll (R : Red) (m : MS) (e : ArcE) : List Binding → Option Bool
  | [] => some true
  | b :: bs =>
    match R.covers m e b with
    | none => none
    | some false => some false
    | some true => R.coversAll m e bs

/-- the loop of src/PetriEngine/Colored/Reduction/RedRuleDeadTransitions.cpp:116-122 -/
def Red.coversSome (R : Red) (m : MS) (e : ArcE) : List Binding → Option Bool
  | [] => some false
  | b :: bs =>
    match R.covers m e b with
    | none => none
    | some true => some true
    | some false => R.coversSome m e bs

/-! ### Redundant places -/

/-- one consumer of the loop of src/PetriEngine/Colored/Reduction/RedRuleRedundantPlaces.cpp:36-61; an input arc that is not
found is undefined behaviour -/
def Red.redundantFor (R : Red) (p t : Nat) : Option Bool :=
  if R.bindingCount t > 10000 then some false
  else
    match R.outArc t p with
    | none => some false
    | some o =>
      match R.inArc p t with
      | none => none
      | some i =>
        match (R.bindings t).bind (R.coversAll (markMS (R.net.place p)) i.expr) with
        | none => none
        | some false => some false
        | some true =>
          match extract R.net.vty i.expr, extract R.net.vty o.expr with
          | some (some mi), some (some mo) => mi.subEq mo
          | some _, some _ => some false
          | _, _ => none

def Red.redundantLoop (R : Red) (p : Nat) : List Nat → Option Bool
  | [] => some true
  | t :: ts =>
    match R.redundantFor p t with
    | none => none
    | some false => some false
    | some true => R.redundantLoop p ts

/-- models src/PetriEngine/Colored/Reduction/RedRuleRedundantPlaces.cpp:28-62. -/
def Red.redundant (R : Red) (q : Uses) (p : Nat) : Option Bool :=
  if p ∈ R.skP then some false
  else if R.inhibitor p > 0 then some false
  else if (R.pre p).length < (R.post p).length then some false
  else if q.place p then some false
  else R.redundantLoop p (R.post p)

/-- models src/PetriEngine/Colored/Reduction/RedRuleRedundantPlaces.cpp:23-70; `late p` says that the time is over when the
loop comes to the place. -/
def Red.redundantPlaces (q : Uses) (late : Nat → Bool) : List Nat → Red → Option Red
  | [], R => some R
  | p :: ps, R =>
    if R.unskipped ≤ 1 then some R
    else if late p then some R
    else
      match R.redundant q p with
      | none => none
      | some false => redundantPlaces q late ps R
      | some true => redundantPlaces q late ps (R.skipPlace p)

/-- models src/PetriEngine/Colored/Reduction/RedRuleRedundantPlaces.cpp:16-73 (`apply`). -/
def Red.applyRedundantPlaces (q : Uses) (late : Nat → Bool) (R : Red) : Option Red :=
  Red.redundantPlaces q late (List.range R.net.places.length) R

/-! ### Dead transitions -/

/-- the loop of src/PetriEngine/Colored/Reduction/RedRuleDeadTransitions.cpp:30-38: all producers take from the place -/
def Red.producersConsume (R : Red) (p : Nat) : Bool := (R.pre p).all fun t => (R.inArc p t).isSome

/-- what the loop over the consumers does with one of them -/
inductive DeadStep
  | stop            -- `ok = false; break`
  | bad             -- `ok = false; continue`
  | go              -- `continue`
  | dead            -- `notenabled.insert`

/-- src/PetriEngine/Colored/Reduction/RedRuleDeadTransitions.cpp:51-59: the cheap check fails -/
def grows (marked : Nat) (i : CArc) : Option CArc → Bool
  | none => false
  | some o => decide (arcWeight i.expr ≤ marked) && decide (arcWeight o.expr > arcWeight i.expr)

/-- both multisets exist and the first is properly contained in the second -/
def properSub : Option VMS → Option VMS → Option Bool
  | some mi, some mo => mi.subset mo
  | _, _ => some false

/-- src/PetriEngine/Colored/Reduction/RedRuleDeadTransitions.cpp:68-83: the transition is enabled by some binding -/
def deadEnabled (nm : Names) (vty : Nat → Nat) (i : CArc) : Option CArc → Option DeadStep
  | none => some .go
  | some o =>
    match extract vty i.expr, extract vty o.expr with
    | some ri, some ro =>
      (properSub ri ro).map fun b => if b || decide (arcText nm o.expr ≠ arcText nm i.expr) then .stop else .go
    | _, _ => none

/-- models src/PetriEngine/Colored/Reduction/RedRuleDeadTransitions.cpp:46-86: one consumer. -/
def Red.deadStep (R : Red) (nm : Names) (p t : Nat) : Option DeadStep :=
  match R.inArc p t with
  | none => none
  | some i =>
    if grows ((R.net.place p).marking.map (·.2)).sum i (R.outArc t p) then some .stop
    else if R.bindingCount t > 10000 then some .bad
    else
      match (R.bindings t).bind (R.coversSome (markMS (R.net.place p)) i.expr) with
      | none => none
      | some true => deadEnabled nm R.net.vty i (R.outArc t p)
      | some false => some .dead

/-- models src/PetriEngine/Colored/Reduction/RedRuleDeadTransitions.cpp:45-87: `ok` and `notenabled` after the loop. -/
def Red.deadLoop (R : Red) (nm : Names) (p : Nat) : List Nat → Bool → List Nat → Option (Bool × List Nat)
  | [], ok, acc => some (ok, acc)
  | t :: ts, ok, acc =>
    match R.deadStep nm p t with
    | none => none
    | some .stop => some (false, acc)
    | some .bad => R.deadLoop nm p ts false acc
    | some .go => R.deadLoop nm p ts ok acc
    | some .dead => R.deadLoop nm p ts ok (acc ++ [t])

/-- models src/PetriEngine/Colored/Reduction/RedRuleDeadTransitions.cpp:23-89: the transitions that the place keeps from
firing; none if the rule does not apply. -/
def Red.deadAt (R : Red) (nm : Names) (p : Nat) : Option (List Nat) :=
  if p ∈ R.skP then some []
  else if R.inhibitor p > 0 then some []
  else if (R.pre p).length > (R.post p).length then some []
  else if !R.producersConsume p then some []
  else (R.deadLoop nm p (R.post p) true []).map fun r => if r.1 then r.2 else []

/-- the loop of src/PetriEngine/Colored/Reduction/RedRuleDeadTransitions.cpp:93-101 -/
def Red.skipAll (q : Uses) : List Nat → Red → Red
  | [], R => R
  | t :: ts, R => if q.trans t then skipAll q ts R else skipAll q ts (R.skipTrans t)

/-- models src/PetriEngine/Colored/Reduction/RedRuleDeadTransitions.cpp:91-105: the place goes if there are as many dead
transitions as producers. -/
def Red.deadRemove (R : Red) (q : Uses) (p : Nat) (dead : List Nat) : Red :=
  let R' := Red.skipAll q dead R
  if dead.length = (R.pre p).length && !q.place p && dead.all (fun t => !q.trans t) then R'.skipPlace p else R'

/-- models src/PetriEngine/Colored/Reduction/RedRuleDeadTransitions.cpp:21-106. -/
def Red.deadTransitions (nm : Names) (q : Uses) (late : Nat → Bool) : List Nat → Red → Option Red
  | [], R => some R
  | p :: ps, R =>
    if late p then some R
    else
      match R.deadAt nm p with
      | none => none
      | some [] => deadTransitions nm q late ps R
      | some (t :: ts) => deadTransitions nm q late ps (R.deadRemove q p (t :: ts))

/-- the removals that the loop makes: the net before, the place and the dead transitions -/
def Red.deadTrace (nm : Names) (q : Uses) (late : Nat → Bool) : List Nat → Red → List (Red × Nat × List Nat)
  | [], _ => []
  | p :: ps, R =>
    if late p then []
    else
      match R.deadAt nm p with
      | none => []
      | some [] => deadTrace nm q late ps R
      | some (t :: ts) => (R, p, t :: ts) :: deadTrace nm q late ps (R.deadRemove q p (t :: ts))

/-- models src/PetriEngine/Colored/Reduction/RedRuleDeadTransitions.cpp:15-109 (`apply`). -/
def Red.applyDeadTransitions (nm : Names) (q : Uses) (late : Nat → Bool) (R : Red) : Option Red :=
  Red.deadTransitions nm q late (List.range R.net.places.length) R

end CRed
end Verif
