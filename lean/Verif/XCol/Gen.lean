import Verif.XCol.Net

/-!
# The successor generator of the explicit coloured engine

Models `src/PetriEngine/ExplicitColored/SuccessorGenerator/ColoredSuccessorGenerator.cpp` and
`include/PetriEngine/ExplicitColored/SuccessorGenerator/*.h`.
-/

namespace Verif
namespace XCol
open Colored

/-- models ColoredSuccessorGenerator.cpp:29-33: the loop of `getBinding`. -/
def bindLoop (vsize : Nat → Nat) (bid : Nat) : Nat → List Nat → Bind → Bind
  | _, [], b => b
  | interval, v :: vs, b => bindLoop vsize bid (interval / vsize v) vs (b.set v (bid / (interval / vsize v) % vsize v))

/-- models ColoredSuccessorGenerator.cpp:25-38 (`getBinding`). -/
def getBinding (X : XNet) (t : XTrans) (bid : Nat) : Bind :=
  if t.total ≠ 0 then bindLoop X.vsize bid t.total t.vars Bind.none else Bind.none

/-- models ColoredSuccessorGenerator.cpp:45-47. -/
def guardOK (g : Option XGuard) (b : Bind) : Bool :=
  match g with
  | none => true
  | some g => g.eval b

/-- models ColoredSuccessorGenerator.cpp:44-55 (`checkPresetAndGuard`). -/
def checkPG (m : XMark) (t : XTrans) (b : Bind) : Bool :=
  if !guardOK t.guard b then false else t.inputs.all fun a => a.2.isSubSet b (m a.1)

/-- models ColoredSuccessorGenerator.cpp:57-65 (`checkInhibitor`). -/
def checkInh (m : XMark) (t : XTrans) : Bool := t.inhibs.all fun h => !decide ((h.2 : Int) ≤ (m h.1).card)

/-- changes the multiset of one place -/
def XMark.upd (m : XMark) (p : Nat) (s : MS) : XMark := fun q => if q = p then s else m q

/-- models ColoredSuccessorGenerator.cpp:67-72 (`consumePreset`). -/
def consumePre (b : Bind) : List (Nat × Arc) → XMark → XMark
  | [], m => m
  | a :: as, m => consumePre b as (m.upd a.1 (a.2.consume b (m a.1)))

/-- models ColoredSuccessorGenerator.cpp:74-79 (`producePostset`). -/
def producePost (b : Bind) : List (Nat × Arc) → XMark → XMark
  | [], m => m
  | a :: as, m => producePost b as (m.upd a.1 (a.2.produce b (m a.1)))

/-- models ColoredSuccessorGenerator.cpp:81-84 (`fire`). -/
def fire (m : XMark) (t : XTrans) (b : Bind) : XMark := producePost b t.outputs (consumePre b t.inputs m)

/-- models ColoredSuccessorGenerator.cpp:157-168 (`_hasMinimalCardinality`). -/
def hasMinimal (m : XMark) (t : XTrans) : Bool :=
  t.inputs.all fun a =>
    if (m a.1).card < (a.2.minCount : Int) then false else a.2.minMark.1.le (m a.1)

/-- models ColoredSuccessorGenerator.h:63-71 (`_shouldEarlyTerminateTransition`). -/
def earlyStop (m : XMark) (t : XTrans) : Bool := if !checkInh m t then true else !hasMinimal m t

/-- models PossibleValues.h:9-70 (`PossibleValues`). -/
structure PV where
  all : Bool
  colors : List Nat
deriving DecidableEq, Repr

/-- models the codec of a place (include/PetriEngine/ExplicitColored/ExplicitColorType.h) and its `decode`; a failed
division gives 0 and does not occur. -/
def decodeAt (sizes : List Nat) (c i : Nat) : Nat := ((Codec.new sizes).bind fun k => k.decode c i).getD 0

/-- models ColoredSuccessorGenerator.cpp:109-122: the values that the entries of a place admit, a set. -/
def possible (X : XNet) (m : XMark) (size index : Nat) (offset : Int) (p : Nat) : List Nat :=
  toSet ((m p).counts.map fun e => (addColorOffset (decodeAt (X.dims p) e.1 index) (-offset) size).toNat)

/-- models ColoredSuccessorGenerator.cpp:102-139: the loop over the constraints of a variable.  `none`: no value. -/
def consLoop (X : XNet) (m : XMark) (size : Nat) : List VC → PV → Option PV
  | [], pv => some pv
  | .top :: cs, pv => consLoop X m size cs pv
  | .at i o p :: cs, pv =>
    let pos := possible X m size i o p
    let pv' : PV :=
      if pv.all then (if pos.length ≠ size then ⟨false, pv.colors ++ pos⟩ else pv)
      else ⟨false, pv.colors.filter fun c => pos.contains c⟩
    if pv'.colors = [] ∧ pv'.all = false then none else consLoop X m size cs pv'

/-- models ColoredSuccessorGenerator.cpp:93-144: the possible values of each variable. -/
def possibleAll (X : XNet) (m : XMark) (t : XTrans) : List Nat → Option (List PV)
  | [] => some []
  | v :: vs =>
    match t.cons v with
    | none => (possibleAll X m t vs).map fun l => ⟨true, []⟩ :: l
    | some cs =>
      match consLoop X m (X.vsize v) cs ⟨true, []⟩ with
      | none => none
      | some pv => (possibleAll X m t vs).map fun l => pv :: l

/-- models ColoredSuccessorGenerator.h:12-16 (`ConstraintData`): the codec is that of the numbers of values. -/
structure CData where
  sizes : List Nat
  vars : List Nat
  values : List PV
deriving DecidableEq, Repr

def stateMaxes (X : XNet) : List Nat → List PV → List Nat
  | v :: vs, pv :: pvs => (if pv.all then X.vsize v else pv.colors.length) :: stateMaxes X vs pvs
  | _, _ => []

/-- models ColoredSuccessorGenerator.cpp:86-155 (`_calculateConstraintData`). -/
def calcData (X : XNet) (m : XMark) (t : XTrans) : Option CData :=
  (possibleAll X m t t.vars).map fun pvs => ⟨stateMaxes X t.vars pvs, t.vars, pvs⟩

/-- models ColoredSuccessorGenerator.cpp:202-215: the binding with the given number. -/
def dataBind (sizes : List Nat) (bid : Nat) : Nat → List Nat → List PV → Bind → Bind
  | i, v :: vs, pv :: pvs, b =>
    dataBind sizes bid (i + 1) vs pvs
      (b.set v (if pv.all then decodeAt sizes bid i else pv.colors.getD (decodeAt sizes bid i) 0))
  | _, _, _, b => b

/-- the number of combinations (`getMax`) -/
def codecMax (sizes : List Nat) : Nat := ((Codec.new sizes).map (·.totalValues)).getD 0

/-- models the loops of ColoredSuccessorGenerator.cpp:192-198 and 201-221: the first number from `bid` on, of `n` in all,
whose binding passes; the bindings are made by `mk` from the previous one. -/
def scan (m : XMark) (t : XTrans) (mk : Nat → Bind → Bind) : Nat → Nat → Bind → Option (Nat × Bind)
  | 0, _, _ => none
  | n + 1, bid, b => if checkPG m t (mk bid b) then some (bid, mk bid b) else scan m t mk n (bid + 1) (mk bid b)

/-- models ColoredSuccessorGenerator.cpp:170-222 (`findNextValidBinding`).  `cache`: the entry of `_constraintData` for the
state and the transition; the entry after the call is returned.  The second part is the number of the binding and the
binding, `none` for the greatest `uint64_t`. -/
def findNext (X : XNet) (m : XMark) (t : XTrans) (bid : Nat) (b : Bind) (cache : Option CData) :
    Option CData × Option (Nat × Bind) :=
  if bid = 0 ∧ earlyStop m t then (cache, none)
  else if t.total = 0 then (cache, if bid = 0 ∧ checkPG m t Bind.none then some (bid, b) else none)
  else
    let cache' := if t.total > 30 ∧ cache = none then calcData X m t else cache
    if t.total > 30 ∧ cache = none ∧ cache' = none then (none, none)
    else
      match cache' with
      | none => (none, scan m t (fun i _ => getBinding X t i) (t.total - bid) bid b)
      | some d => (some d, scan m t (fun i b => dataBind d.sizes i 0 d.vars d.values b) (codecMax d.sizes - bid) bid b)

/-- models ColoredSuccessorGenerator.h:125-127 (`_getKey`). -/
def getKey (id t : Nat) : Nat := (id % 2 ^ 48) * 2 ^ 16 + t % 2 ^ 16

end XCol
end Verif
