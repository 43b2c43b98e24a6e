import Verif.Reduce.ModelH
import Verif.Reduce.ModelR

/-!
# Model of the order in which the reductions are applied

Models `Reducer::Reduce` (`src/PetriEngine/Reducer.cpp:2840-3013`).

The clock is an arbitrary oracle: for the `k`-th call of a rule it says how many turns the rule gets and whether the
rule noticed that time is up (it then reports no change); for the `k`-th direct question of the main loop whether time
is up.  The loops run on fuel; without enough of it there is no result.
-/

namespace Verif
namespace Reduce

/-- The clock. -/
structure Clock where
  turns : Nat → Nat
  cut : Nat → Bool
  up : Nat → Bool

/-- What the caller knows about the queries (`remove_loops`, `all_reach`, `all_ltl`, `contains_next`). -/
structure Flags where
  removeLoops : Bool
  allReach : Bool
  allLtl : Bool
  next : Bool
deriving DecidableEq, Repr

/-- The state of the main loop: the net, the calls of rules and the looks at the clock so far, and `changed`. -/
structure PState where
  net : RNet
  calls : Nat
  looks : Nat
  changed : Bool

/-- A rule with the turns it gets. -/
abbrev Rule := Nat → RNet → RNet × Bool

/-- models the call of a rule; the answer of the rule is the second component. -/
def call (C : Clock) (r : Rule) (s : PState) : PState × Bool :=
  let o := r (C.turns s.calls) s.net
  ({ s with net := o.1, calls := s.calls + 1 }, o.2 && !C.cut s.calls)

/-- models `if(rule) changed = true`. -/
def once (C : Clock) (r : Rule) (s : PState) : PState :=
  let o := call C r s
  if o.2 then { o.1 with changed := true } else o.1

/-- models `while(rule) changed = true`. -/
def star (C : Clock) (r : Rule) : Nat → PState → Option PState
  | 0, _ => none
  | f + 1, s =>
    let o := call C r s
    if o.2 then star C r f { o.1 with changed := true } else some o.1

/-- Several loops one after the other. -/
def stars (C : Clock) (f : Nat) : List Rule → PState → Option PState
  | [], s => some s
  | r :: rs, s => (star C r f s).bind (stars C f rs)

/-- models `hasTimedout()` in the main loop. -/
def look (C : Clock) (s : PState) : PState × Bool := ({ s with looks := s.looks + 1 }, C.up s.looks)

/-- models `changed && !hasTimedout()`, and `!hasTimedout() && changed` (:2909) but for the order of the two looks. -/
def again (C : Clock) (s : PState) : PState × Bool :=
  if s.changed then
    let l := look C s
    (l.1, !l.2)
  else (s, false)

section
variable (Q : Nat → Bool) (F : Flags) (C : Clock)

/-- models src/PetriEngine/Reducer.cpp:2849-2859: the loop for k-boundedness. -/
def mode2 (inner : Nat) : Nat → PState → Option PState
  | 0, _ => none
  | f + 1, s =>
    let a := again C s
    if a.2 then
      let s1 := { a.1 with changed := false }
      if F.next then mode2 inner f s1
      else (stars C inner [ruleA Q, ruleD Q F.allReach false, ruleH Q F.allLtl] s1).bind (mode2 inner f)
    else some a.1

/-- models src/PetriEngine/Reducer.cpp:2872-2879: the rules that do not move tokens. -/
def quiet : List Rule :=
  [ruleE Q, ruleC Q] ++ (if F.removeLoops && !F.next then [ruleF Q] else []) ++
    (if F.next then [] else [ruleG Q F.removeLoops F.allReach, ruleD Q F.allReach (F.removeLoops && F.allLtl)])

/-- models src/PetriEngine/Reducer.cpp:2870-2882: the innermost loop. -/
def quietLoop (inner : Nat) : Nat → PState → Option PState
  | 0, _ => none
  | f + 1, s =>
    (stars C inner (quiet Q F) { s with changed := false }).bind fun s1 =>
      let a := again C s1
      if a.2 then quietLoop inner f a.1 else some a.1

/-- models src/PetriEngine/Reducer.cpp:2869-2888: the loop around it. -/
def moveLoop (inner : Nat) : Nat → PState → Option PState
  | 0, _ => none
  | f + 1, s =>
    (quietLoop Q F C inner inner s).bind fun s1 =>
      (stars C inner (if F.next then [] else [ruleB Q F.removeLoops F.allReach, ruleA Q]) s1).bind fun s2 =>
        let a := again C s2
        if a.2 then moveLoop inner f a.1 else some a.1

/-- models src/PetriEngine/Reducer.cpp:2865-2868. -/
def pre1 : List Rule := (if F.removeLoops && !F.next then [ruleI Q F.allReach] else []) ++ [ruleJ Q]

/-- models src/PetriEngine/Reducer.cpp:2892-2896: the last resorts. -/
def last1 (inner : Nat) (s : PState) : Option PState :=
  if !F.next && !s.changed then
    (stars C inner [ruleH Q F.allLtl, ruleS Q F.removeLoops F.allReach 6] s).map fun s1 =>
      if F.allLtl && !s1.changed then
        let o := call C (ruleR Q 6) s1
        { o.1 with changed := o.2 }
      else s1
  else some s

/-- models src/PetriEngine/Reducer.cpp:2861-2910; `rq` is `RQ`. -/
def mode1 (inner : Nat) : Nat → Bool → PState → Option PState
  | 0, _, _ => none
  | f + 1, rq, s =>
    (stars C inner (pre1 Q F) s).bind fun s1 =>
      (moveLoop Q F C inner inner s1).bind fun s2 =>
        (star C ruleL inner s2).bind fun s3 =>
          (last1 Q F C inner s3).bind fun s4 =>
            let o := if !s4.changed && !rq && !F.next then call C (ruleQ Q) s4 else (s4, false)
            if o.2 then mode1 inner f true o.1
            else
              let a := again C o.1
              if a.2 then mode1 inner f false a.1 else some a.1

/-- models src/PetriEngine/Reducer.cpp:2914-2930: the rules that stay in the list. -/
def keep (F : Flags) (r : Nat) : Bool :=
  if F.next && (r == 2 || r == 4 || r == 5 || r == 7 || r == 8) then false
  else if !F.removeLoops && (r == 5 || r == 8 || r == 12) then false
  else if !(F.allLtl || F.allReach) && (r == 17 || r == 18) then false
  else true

/-- models src/PetriEngine/Reducer.cpp:2943-3003: one rule of the list.  Rule K (10) is not modelled (the code says that
it has not been proved correct, :2880): there is no result. -/
def apply1 (inner : Nat) (r : Nat) (s : PState) : Option PState :=
  match r with
  | 0 => star C (ruleA Q) inner s
  | 1 => star C (ruleB Q F.removeLoops F.allReach) inner s
  | 2 => star C (ruleC Q) inner s
  | 3 => star C (ruleD Q F.allReach (F.removeLoops && F.allLtl)) inner s
  | 4 => star C (ruleEP Q) inner s
  | 5 => star C (ruleF Q) inner s
  | 6 => star C (ruleG Q F.removeLoops F.allReach) inner s
  | 7 => star C (ruleH Q F.allLtl) inner s
  | 8 => star C (ruleI Q F.allReach) inner s
  | 10 => none
  | 11 => some (once C ruleL s)
  | 12 => some (once C (ruleM Q) s)
  | 13 => some (once C (ruleFNO Q) s)
  | 14 => some (once C (ruleFNO Q) s)
  | 15 => some (once C (ruleEP Q) s)
  | 16 => some (once C (ruleQ Q) s)
  | 17 => star C (ruleR Q 6) inner s
  | 18 => some (once C (ruleS Q F.removeLoops F.allReach 6) s)
  | _ => some s

/-- models src/PetriEngine/Reducer.cpp:2936-3010: one pass over the list. -/
def applyAll (inner : Nat) : List Nat → PState → Option PState
  | [], s => some s
  | r :: rs, s => (apply1 Q F C inner r s).bind fun s1 =>
      let l := look C s1
      if l.2 then some l.1 else applyAll inner rs l.1

/-- models src/PetriEngine/Reducer.cpp:2931-3011. -/
def mode3 (inner : Nat) (rs : List Nat) : Nat → PState → Option PState
  | 0, _ => none
  | f + 1, s =>
    let a := again C s
    if a.2 then (applyAll Q F C inner rs { a.1 with changed := false }).bind (mode3 inner rs f) else some a.1

/-- models src/PetriEngine/Reducer.cpp:2840-3013 (`Reduce`). -/
def reduce (mode : Nat) (rs : List Nat) (fuel : Nat) (N : RNet) : Option RNet :=
  if mode = 2 then (mode2 Q F C fuel fuel ⟨N, 0, 0, true⟩).map (·.net)
  else if mode = 1 then (mode1 Q F C fuel fuel false ⟨N, 0, 0, false⟩).map (·.net)
  else (mode3 Q F C fuel (rs.filter (keep F)) fuel ⟨N, 0, 0, true⟩).map (·.net)

end

end Reduce
end Verif
