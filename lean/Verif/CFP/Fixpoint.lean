import Verif.CFP.Guard
import Verif.CPN.Unfold

/-!
# The fixed point of the colours

Models `src/PetriEngine/Colored/ForwardFixedPoint.cpp`, without a partition of the colours (`_partition` not computed).  Undefined
behaviour of the visitors is `none`.
-/

namespace Verif
namespace CFP

open CPN

def upd {α : Type} (f : Nat → α) (k : Nat) (a : α) : Nat → α := fun j => if j = k then a else f j

/-- models include/PetriEngine/Colored/ForwardFixedPoint.h:44-59 (data members).  The head of the list is the back of the vector
`_placeFixpointQueue`. -/
structure FSt where
  /-- `_placeColorFixpoints[p].constraints` -/
  cons : Nat → IVec
  /-- `_placeColorFixpoints[p].inQueue` -/
  inQ : Nat → Bool
  queue : List Nat
  /-- `_transition_variable_maps` -/
  maps : Nat → List VMap
  /-- `_considered` -/
  done : Nat → Bool

/-- models `is_subtraction` (include/PetriEngine/Colored/Expressions.h) as used in
src/PetriEngine/Colored/ColoredPetriNetBuilder.cpp:177-179 (`hasSubtractionInputArc`). -/
def isSub : ArcE → Bool
  | .sub _ _ => true
  | _ => false

def hasSub (N : CNet) (p : Nat) : Bool := N.transitions.any fun t => t.inputs.any fun a => decide (a.place = p) && isSub a.expr

/-- models ForwardFixedPoint.cpp:50-78 (`add_place`). -/
def addPlace (N : CNet) (p : Nat) : IVec :=
  let pl := N.place p
  let counter := if pl.marking.length = N.types.size pl.ty then (pl.marking.takeWhile fun q => decide (q.2 > 0)).length else 0
  if counter = N.types.size pl.ty ∨ hasSub N p = true then [fullInterval (N.types.dims pl.ty)]
  else IVec.addAll [] (pl.marking.map fun q => (N.types.value ⟨pl.ty, q.1⟩).map fun a => ⟨a, a⟩)

/-- models ForwardFixedPoint.cpp:80-92 and 136-144; no place is skipped. -/
def initF (N : CNet) : FSt where
  cons p := if p < N.places.length then addPlace N p else []
  inQ p := decide (p < N.places.length) && !(N.place p).marking.isEmpty
  queue := (List.range N.places.length).reverse
  maps _ := []
  done _ := false

/-- models ForwardFixedPoint.cpp:235-254 (`getArcIntervals`); the result is `none` if some arc finds nothing.  The arcs of a
transition have different places (ColoredPetriNetBuilder.cpp:134-164), so that the map keyed by places is a list of arcs. -/
def takeArcs (T : Types) (k : Nat) (cons : Nat → IVec) : List CArc → Option ((Nat → IVec) × Option (List (Mods × List IVec)))
  | [] => some (cons, some [])
  | a :: as =>
    let v := (cons a.place).restrict k
    match arcFound T v a.expr with
    | .undef => none
    | .no => some (upd cons a.place v, none)
    | .yes vecs => (takeArcs T k (upd cons a.place v) as).map fun q => (q.1, q.2.map fun l => (arcMods a.expr, vecs) :: l)

/-- the guard (ForwardFixedPoint.cpp:160-165, 218-228): the maps, if the transition is activated -/
def guardMaps (N : CNet) (g : Option Guard) (maps : List VMap) : Option (List VMap) :=
  match g with
  | none => some maps
  | some g =>
    let r := restrictMaps N.types N.vty (some g) maps
    if r.isEmpty then none else some r

/-- models ForwardFixedPoint.cpp:211-233 (`processInputArcs`). -/
def inputStep (N : CNet) (k : Nat) (cons : Nat → IVec) (t : CTrans) : Option ((Nat → IVec) × Option (List VMap)) :=
  match takeArcs N.types k cons t.inputs with
  | none => none
  | some (cons', none) => some (cons', none)
  | some (cons', some l) =>
    match varIntervals N.types N.vty l with
    | none => none
    | some (_, false) => some (cons', none)
    | some (maps, true) => some (cons', guardMaps N t.guard maps)

/-- the boxes of one output arc are added to those of the place (ForwardFixedPoint.cpp:347-355) -/
def addOut (c : IVec) (vecs : List IVec) : IVec := (IVec.addAll c (vecs.map IVec.simplify).flatten).simplify

/-- models the body of the loop of ForwardFixedPoint.cpp:291-366, without a partition. -/
def outStep (N : CNet) (t : Nat) (s : FSt) (a : CArc) : FSt :=
  let maps := (s.maps t).map (addVars N.types N.vty a.expr.vars)
  let c := addOut (s.cons a.place) (outArc N.types N.vty maps a.expr)
  let s' := { s with cons := upd s.cons a.place c, maps := upd s.maps t maps }
  if s.inQ a.place = false ∧ c.count > (s.cons a.place).count then
    { s' with queue := a.place :: s.queue, inQ := upd s.inQ a.place true }
  else s'

/-- models ForwardFixedPoint.cpp:289-372 (`processOutputArcs`). -/
def outputs (N : CNet) (t : Nat) (s : FSt) : FSt :=
  let s' := (N.trans t).outputs.foldl (outStep N t) s
  if (N.trans t).outputs.all fun a => a.expr.vars.isEmpty then { s' with done := upd s'.done t true } else s'

/-- models ForwardFixedPoint.cpp:152-169 for one transition without input arcs. -/
def freeStep (N : CNet) (s : FSt) (t : Nat) : FSt :=
  if (N.trans t).inputs.isEmpty then
    match guardMaps N (N.trans t).guard [[]] with
    | none => { s with maps := upd s.maps t [] }
    | some maps => outputs N t { s with maps := upd s.maps t maps }
  else s

/-- models ForwardFixedPoint.cpp:181-201 (the body of the loop over the transitions of a place). -/
def visit (N : CNet) (k : Nat) (s : FSt) (t : Nat) : Option FSt :=
  if s.done t = true then some s
  else
    match inputStep N k s.cons (N.trans t) with
    | none => none
    | some (cons', none) => some { s with cons := cons', maps := upd s.maps t [] }
    | some (cons', some maps) => some (outputs N t { s with cons := cons', maps := upd s.maps t maps })

/-- `_post` (ColoredPetriNetBuilder.cpp:185); in the order of the transitions here, in the order of the arcs in the code. -/
def postOf (N : CNet) (p : Nat) : List Nat :=
  (List.range N.transitions.length).filter fun t => (N.trans t).inputs.any fun a => decide (a.place = p)

def sweep (N : CNet) (k : Nat) : FSt → List Nat → Option FSt
  | s, [] => some s
  | s, t :: ts => (visit N k s t).bind fun s' => sweep N k s' ts

/-- models the loop of ForwardFixedPoint.cpp:171-203: `ks i` is the largest number of intervals in round `i` (it depends on the
time); `none` if the fuel is used up. -/
def loopF (N : CNet) (ks : Nat → Nat) : Nat → Nat → FSt → Option FSt
  | 0, _, _ => none
  | n + 1, i, s =>
    match s.queue with
    | [] => some s
    | p :: q => (sweep N (ks i) { s with queue := q, inQ := upd s.inQ p false } (postOf N p)).bind fun s' => loopF N ks n (i + 1) s'

/-- the state before the loop (ForwardFixedPoint.cpp:136-169) -/
def startF (N : CNet) : FSt := (List.range N.transitions.length).foldl (freeStep N) (initF N)

/-- models ForwardFixedPoint.cpp:134-207 (`compute`). -/
def compute (N : CNet) (ks : Nat → Nat) (fuel : Nat) : Option FSt := loopF N ks fuel 0 (startF N)

end CFP
end Verif
