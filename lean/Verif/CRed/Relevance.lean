import Verif.CRed.Model

/-!
# Relevance

Models `src/PetriEngine/Colored/Reduction/RedRuleRelevance.cpp`.  The place `dummy`, without arcs, that is added if no place is
left is left out of the model.
-/

namespace Verif
namespace CRed
open CPN

/-- `_tflags`, `_pflags` and the stack `wtrans`, its top first -/
structure Rel where
  tf : List Nat := []
  pf : List Nat := []
  work : List Nat := []

/-- flags a transition and puts it on the stack, unless it is flagged -/
def Rel.push (s : Rel) (t : Nat) : Rel := if t ∈ s.tf then s else { s with tf := t :: s.tf, work := t :: s.work }

def Rel.pushAll : List Nat → Rel → Rel
  | [], s => s
  | t :: ts, s => Rel.pushAll ts (s.push t)

def Rel.place (s : Rel) (p : Nat) : Rel := { s with pf := p :: s.pf }

/-- a place of the query with its consumers and producers (src/PetriEngine/Colored/Reduction/RedRuleRelevance.cpp:32-45, 55-68) -/
def Red.relPlace (R : Red) (p : Nat) (s : Rel) : Rel := Rel.pushAll (R.pre p) (Rel.pushAll (R.post p) (s.place p))

/-- models src/PetriEngine/Colored/Reduction/RedRuleRelevance.cpp:27-47. -/
def Red.relPlaces (R : Red) (q : Uses) : List Nat → Rel → Rel
  | [], s => s
  | p :: ps, s => R.relPlaces q ps (if q.place p then R.relPlace p s else s)

def Red.relArcs (R : Red) : List CArc → Rel → Rel
  | [], s => s
  | a :: as, s => R.relArcs as (R.relPlace a.place s)

/-- models src/PetriEngine/Colored/Reduction/RedRuleRelevance.cpp:49-71. -/
def Red.relTrans (R : Red) (q : Uses) : List Nat → Rel → Rel
  | [], s => s
  | t :: ts, s => R.relTrans q ts (if t ∉ s.tf ∧ q.trans t = true then R.relArcs (R.net.trans t).inputs (s.push t) else s)

/-- the transition puts on the place what it takes from it (src/PetriEngine/Colored/Reduction/RedRuleRelevance.cpp:83-96) -/
def Red.sameLoop (R : Red) (p t : Nat) : Option Bool :=
  match R.inArc p t, R.outArc t p with
  | some i, some o =>
    match extract R.net.vty i.expr with
    | none => none
    | some none => some false
    | some (some m) =>
      match extract R.net.vty o.expr with
      | none => none
      | some none => some false
      | some (some m') => m.eq m'
  | _, _ => some false

/-- the producers of an input place (src/PetriEngine/Colored/Reduction/RedRuleRelevance.cpp:81-100) -/
def Red.scanPlace (R : Red) (p : Nat) : List Nat → Rel → Option Rel
  | [], s => some s
  | u :: us, s =>
    if u ∈ s.tf then R.scanPlace p us s
    else
      match R.sameLoop p u with
      | none => none
      | some true => R.scanPlace p us s
      | some false => R.scanPlace p us (s.push u)

/-- models src/PetriEngine/Colored/Reduction/RedRuleRelevance.cpp:78-101. -/
def Red.scanIn (R : Red) : List CArc → Rel → Option Rel
  | [], s => some s
  | a :: as, s => (R.scanPlace a.place (R.pre a.place) (s.place a.place)).bind fun s' => R.scanIn as s'

/-- the consumers of an inhibiting place (src/PetriEngine/Colored/Reduction/RedRuleRelevance.cpp:107-123); an input arc that is not
found is undefined behaviour -/
def Red.scanCons (R : Red) (h : CInhib) : List Nat → Rel → Option Rel
  | [], s => some s
  | u :: us, s =>
    if u ∈ s.tf then R.scanCons h us s
    else
      match R.outArc u h.place with
      | none => R.scanCons h us (s.push u)
      | some o =>
        match R.inArc h.place u with
        | none => none
        | some i =>
          if arcWeight o.expr ≥ h.weight ∨ arcWeight o.expr ≥ arcWeight i.expr then R.scanCons h us s
          else R.scanCons h us (s.push u)

/-- models src/PetriEngine/Colored/Reduction/RedRuleRelevance.cpp:102-125. -/
def Red.scanInh (R : Red) (t : Nat) : List CInhib → Rel → Option Rel
  | [], s => some s
  | h :: hs, s =>
    if h.trans ≠ t then R.scanInh t hs s
    else (R.scanCons h (R.post h.place) (s.place h.place)).bind fun s' => R.scanInh t hs s'

/-- models src/PetriEngine/Colored/Reduction/RedRuleRelevance.cpp:73-126 (the loop over the stack). -/
def Red.relLoop (R : Red) : Nat → Rel → Option Rel
  | 0, s => if s.work = [] then some s else none
  | fuel + 1, s =>
    match s.work with
    | [] => some s
    | t :: w =>
      match R.scanIn (R.net.trans t).inputs { s with work := w } with
      | none => none
      | some s1 =>
        match R.scanInh t R.net.inhibitors s1 with
        | none => none
        | some s2 => R.relLoop fuel s2

/-- the flags before the loop -/
def Red.relSeed (R : Red) (q : Uses) : Rel :=
  R.relTrans q (List.range R.net.transitions.length) (R.relPlaces q (List.range R.net.places.length) {})

/-- the relevant places and transitions; a transition is put on the stack at most once -/
def Red.relevant (R : Red) (q : Uses) : Option Rel := R.relLoop R.net.transitions.length (R.relSeed q)

def Red.skipPlaces : List Nat → Red → Red
  | [], R => R
  | p :: ps, R => Red.skipPlaces ps (R.skipPlace p)

def Red.skipTranss : List Nat → Red → Red
  | [], R => R
  | t :: ts, R => Red.skipTranss ts (R.skipTrans t)

/-- models src/PetriEngine/Colored/Reduction/RedRuleRelevance.cpp:17-150 (`apply`), not stopped by the time. -/
def Red.applyRelevance (R : Red) (q : Uses) : Option Red :=
  (R.relevant q).map fun s =>
    Red.skipTranss ((List.range R.net.transitions.length).reverse.filter fun t => decide (t ∉ s.tf ∧ t ∉ R.skT))
      (Red.skipPlaces ((List.range R.net.places.length).reverse.filter fun p => decide (p ∉ s.pf ∧ p ∉ R.skP)) R)

end CRed
end Verif
