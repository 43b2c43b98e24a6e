import Verif.CRed.Model

/-!
# Parallel transitions

Models `src/PetriEngine/Colored/Reduction/RedRuleParallelTransitions.cpp`.
-/

namespace Verif
namespace CRed
open CPN

/-- the query type and the flags handed to the rules (src/VerifyPN.cpp:76-108) -/
structure Flags where
  reach : Bool
  ctl : Bool := false
  loops : Bool := false
  stutter : Bool := false

/-- models src/PetriEngine/Colored/Reduction/RedRuleParallelTransitions.cpp:25-34: the transitions without arcs; `has` is
`hasOtherEmptyTrans`. -/
def Red.emptyLoop (q : Uses) : List Nat → Bool → Red → Red
  | [], _, R => R
  | t :: ts, has, R =>
    if t ∉ R.skT ∧ (R.net.trans t).inputs.isEmpty ∧ (R.net.trans t).outputs.isEmpty ∧ (R.inhibited t = 0 ∨ has = true) then
      if has && !q.trans t then emptyLoop q ts true (R.skipTrans t) else emptyLoop q ts true R
    else emptyLoop q ts has R

/-- `numeric_limits<uint32_t>::max()` -/
def umax : Nat := W32 - 1

/-- both multisets exist, and the first divides the second: how often -/
def multOf : Option VMS → Option VMS → Option (Option Nat)
  | some s, some b => (s.divides b).bind fun d => if d then (s.fits b).map some else some none
  | _, _ => some none

/-- both multisets exist, and the second is `k` times the first -/
def isMult (k : Nat) : Option VMS → Option VMS → Option Bool
  | some s, some b => (s.scale k).eq b
  | _, _ => some false

/-- models src/PetriEngine/Colored/Reduction/RedRuleParallelTransitions.cpp:146-178 (`checkMult`): the new `mult`, `some none` if `fail`
is set. -/
def checkMult (nm : Names) (vty : Nat → Nat) (mult : Nat) (small big : ArcE) : Option (Option Nat) :=
  if mult = umax then
    if arcText nm small = arcText nm big then some (some 1)
    else
      match extract vty small, extract vty big with
      | some s, some b => multOf s b
      | _, _ => none
  else if mult = 1 ∧ arcText nm small = arcText nm big then some (some mult)
  else
    match extract vty small, extract vty big with
    | some s, some b => (isMult mult s b).map fun r => if r then some mult else none
    | _, _ => none

/-- the loops of src/PetriEngine/Colored/Reduction/RedRuleParallelTransitions.cpp:83-98, 106-121 over the pairs of arcs, the last pair
first -/
def arcsMult (nm : Names) (vty : Nat → Nat) (reach : Bool) (q : Uses) : List (CArc × CArc) → Nat → Option (Option Nat)
  | [], mult => some (some mult)
  | (a, b) :: l, mult =>
    if a.place ≠ b.place then some none
    else if !reach && q.place a.place then some none
    else
      match checkMult nm vty mult a.expr b.expr with
      | none => none
      | some none => some none
      | some (some k) => arcsMult nm vty reach q l k

/-- equal guards, by their texts (src/PetriEngine/Colored/Reduction/RedRuleParallelTransitions.cpp:72-75) -/
def guardSame (nm : Names) : Option Guard → Option Guard → Bool
  | none, none => true
  | some g, some h => decide (guardText nm g = guardText nm h)
  | _, _ => false

/-- models src/PetriEngine/Colored/Reduction/RedRuleParallelTransitions.cpp:62-124: whether `t2` is removed for the sake of `t1`; what
`break` and `continue` do to the loops is left open. -/
def Red.parPair (R : Red) (nm : Names) (q : Uses) (f : Flags) (t1 t2 : Nat) : Option Bool :=
  if q.trans t2 then some false
  else if (R.net.trans t1).outputs.length ≠ (R.net.trans t2).outputs.length then some false
  else if (R.net.trans t1).inputs.length ≠ (R.net.trans t2).inputs.length then some false
  else if !guardSame nm (R.net.trans t1).guard (R.net.trans t2).guard then some false
  else if R.inhibited t1 > 0 then some false
  else
    match arcsMult nm R.net.vty f.reach q ((R.net.trans t1).outputs.zip (R.net.trans t2).outputs).reverse umax with
    | none => none
    | some none => some false
    | some (some k) =>
      if k ≠ 1 ∧ (f.stutter = true ∨ f.ctl = true) then some false
      else
        (arcsMult nm R.net.vty f.reach q ((R.net.trans t1).inputs.zip (R.net.trans t2).inputs).reverse k).map Option.isSome

/-- models src/PetriEngine/Colored/Reduction/RedRuleParallelTransitions.cpp:36-141.  The pairs are given: the theorems hold for all of
them, so for those that the loops go through, up to the time at which they are stopped.  Both transitions take from one place. -/
def Red.parTrans (nm : Names) (q : Uses) (f : Flags) : List (Nat × Nat) → Red → Option Red
  | [], R => some R
  | (t1, t2) :: ps, R =>
    if t1 = t2 ∨ t1 ∈ R.skT ∨ t2 ∈ R.skT ∨ ¬(∃ p ∈ List.range R.net.places.length, t1 ∈ R.post p ∧ t2 ∈ R.post p) then
      parTrans nm q f ps R
    else
      match R.parPair nm q f t1 t2 with
      | none => none
      | some false => parTrans nm q f ps R
      | some true => parTrans nm q f ps (R.skipTrans t2)

/-- models src/PetriEngine/Colored/Reduction/RedRuleParallelTransitions.cpp:13-144 (`apply`). -/
def Red.applyParTrans (nm : Names) (q : Uses) (f : Flags) (pairs : List (Nat × Nat)) (R : Red) : Option Red :=
  Red.parTrans nm q f pairs (Red.emptyLoop q (List.range R.net.transitions.length) (!f.loops && !f.stutter) R)

end CRed
end Verif
