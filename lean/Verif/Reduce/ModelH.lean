import Verif.Reduce.Model

/-!
# Model of the structural reductions, rule H

The search keeps the stack with its top at the end, as the code does.  The clock is a bound on the number of turns.
-/

namespace Verif
namespace Reduce

/-- The place of the first arc (`pre[0].place`; the code only asks for it when there is one). -/
def place0 (l : List Arc) : Nat := match l with | a :: _ => a.place | [] => 0

/-- models src/PetriEngine/Reducer.cpp:1320-1351 (`transok`) for a transition without a flag. -/
def hOk (N : RNet) (t : Nat) : Bool :=
  let x := N.tr t
  !x.inhib &&
  match x.pre, x.post with
  | [a], [b] => a.weight == 1 && b.weight == 1 && a.place != b.place && !N.pinhib a.place && !N.pinhib b.place
  | _, _ => false

/-- models src/PetriEngine/Reducer.cpp:1381-1413: a place of the query is next to `p`. -/
def hNear (Q : Nat → Bool) (N : RNet) (p : Nat) : Bool :=
  (N.producers p ++ N.consumers p).any fun t => ((N.tr t).pre ++ (N.tr t).post).any fun a => Q a.place

/-- models src/PetriEngine/Reducer.cpp:1425-1442 and :1451-1466: the arc of `p2` is added to the one of `p1`. -/
def hMove (p1 p2 : Nat) (l : List Arc) : List Arc :=
  match arcAt l p2 with
  | some a => addArc { a with place := p1 } l
  | none => l

/-- models src/PetriEngine/Reducer.cpp:1416-1470: `p2` becomes part of `p1`.  The loops over the consumers and the
producers of `p2` are a change of every transition that has an arc with `p2`. -/
def hJoin (p1 p2 t : Nat) (N : RNet) : RNet :=
  let N1 := N.skipTrans t
  let N2 := { N1 with tr := fun s =>
    { N1.tr s with pre := hMove p1 p2 (N1.tr s).pre, post := hMove p1 p2 (N1.tr s).post } }
  let N3 := N2.setInit p1 (N2.init p1 + N2.init p2)
  N3.skipPlace p2

/-- models src/PetriEngine/Reducer.cpp:1365-1473: the transitions of the loop after the first one; `prev` is
`loop[j-1]`. -/
def hMerge (Q : Nat → Bool) (ltl : Bool) : Nat → Nat → List Nat → RNet → RNet × Bool
  | _, _, [], N => (N, false)
  | p1, prev, t :: ts, N =>
    let p2 := place0 (N.tr t).pre
    if Q p2 || Q p1 then hMerge Q ltl p2 t ts N
    else if p1 = p2 then hMerge Q ltl p1 t ts N
    else if !ltl && (hNear Q N p1 || hNear Q N p2) then hMerge Q ltl p2 t ts N
    else ((hMerge Q ltl p1 t ts (hJoin p1 p2 prev N)).1, true)

/-- models src/PetriEngine/Reducer.cpp:1353-1475 (`removeLoop`): the stack and the transition that closes the loop. -/
def hRemove (Q : Nat → Bool) (ltl : Bool) (N : RNet) (stack : List Nat) (nt : Nat) : RNet × Bool :=
  match stack.dropWhile (fun t => t != nt) with
  | [] => (N, false)
  | t :: ts => hMerge Q ltl (place0 (N.tr t).pre) t ts N

/-- What became of the loop over the consumers. -/
inductive HOut where
  | removed (N : RNet)
  | push (t : Nat) (fl : Nat → Nat)
  | stuck (fl : Nat → Nat)

def setFl (fl : Nat → Nat) (t v : Nat) : Nat → Nat := fun i => if i = t then v else fl i

/-- models src/PetriEngine/Reducer.cpp:1502-1543: the loop over the consumers; `it` is the top of the stack. -/
def hScan (Q : Nat → Bool) (ltl : Bool) (N : RNet) (stack : List Nat) (it : Nat) : List Nat → (Nat → Nat) → HOut
  | [], fl => .stuck fl
  | nt :: nts, fl =>
    if nt = it ∨ (N.tr nt).skip = true then hScan Q ltl N stack it nts fl
    else if fl nt = 1 ∧ 1 < stack.length then
      match hRemove Q ltl N stack nt with
      | (N', true) => .removed N'
      | (_, false) => hScan Q ltl N stack it nts fl
    else if fl nt = 0 then
      if hOk N nt then .push nt (setFl fl nt 1) else hScan Q ltl N stack it nts (setFl fl nt 2)
    else hScan Q ltl N stack it nts fl

/-- models src/PetriEngine/Reducer.cpp:1494-1549 (the search). -/
def hSearch (Q : Nat → Bool) (ltl : Bool) (N : RNet) : Nat → (Nat → Nat) → List Nat → Option RNet
  | 0, _, _ => none
  | fuel + 1, fl, stack =>
    match stack.getLast? with
    | none => none
    | some it =>
      match hScan Q ltl N stack it (N.consumers (place0 (N.tr it).post)) fl with
      | .removed N' => some N'
      | .push nt fl' => hSearch Q ltl N fuel fl' (stack ++ [nt])
      | .stuck fl' => hSearch Q ltl N fuel (setFl fl' it 2) stack.dropLast

/-- models src/PetriEngine/Reducer.cpp:1478-1549: one turn of the loop over the transitions. -/
def ruleHStep (Q : Nat → Bool) (ltl : Bool) (fuel : Nat) (N : RNet) (t : Nat) : Option RNet :=
  if (N.tr t).skip then none
  else if hOk N t then hSearch Q ltl N fuel (setFl (fun _ => 0) t 1) [t] else none

/-- models src/PetriEngine/Reducer.cpp:1316-1551 (`ReducebyRuleH`), without trace reconstruction. -/
def ruleH (Q : Nat → Bool) (ltl : Bool) (lim : Nat) (N : RNet) : RNet × Bool :=
  sweep (ruleHStep Q ltl lim) ((List.range N.nt).take lim) N

end Reduce
end Verif
