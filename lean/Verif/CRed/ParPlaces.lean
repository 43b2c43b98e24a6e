import Verif.CRed.ParTrans

/-!
# Parallel places

Models `src/PetriEngine/Colored/Reduction/RedRuleParallelPlaces.cpp`.

The ratio `maxDrainRatio` is a `double`.  Here it is the pair of the two numbers that are divided, and ratios are compared by
multiplying crosswise; so a division by 0 compares as infinity, or as not-a-number if both are 0.  As the numbers have at most 32 bits,
quotients of different numbers are different and in the same order in `double`, if the numbers are below `2^26`; the cut to a whole number
is right for all numbers of 32 bits.
-/

namespace Verif
namespace CRed
open CPN

/-- `a < b` for quotients -/
def ratioLt (a b : Nat × Nat) : Bool := decide (a.1 * b.2 < b.1 * a.2)

/-- `std::max`: the first one, unless it is smaller -/
def ratioMax (a b : Nat × Nat) : Nat × Nat := if ratioLt a b then b else a

/-- `!ms1 || !ms2 || ms1->distinctSize() != ms2->distinctSize() || ((*ms1) + (*ms2)).distinctSize() != ms1->distinctSize()`, negated
(src/PetriEngine/Colored/Reduction/RedRuleParallelPlaces.cpp:106, 157) -/
def VMS.sameSupport (m o : VMS) : Option Bool :=
  if m.distinct ≠ o.distinct then some false
  else (m.add o).map fun s => decide (s.distinct = m.distinct)

/-- the loop of src/PetriEngine/Colored/Reduction/RedRuleParallelPlaces.cpp:112-114 -/
def drainMax (m2 : VMS) : List (List Nat × Nat) → Nat × Nat → Nat × Nat
  | [], r => r
  | q :: l, r => drainMax m2 l (ratioMax r (m2.get q.1, q.2))

/-- models src/PetriEngine/Colored/Reduction/RedRuleParallelPlaces.cpp:90-114: a common consumer.  `some none` is `ok = false`. -/
def Red.drainAt (R : Red) (nm : Names) (p1 p2 t : Nat) (r : Nat × Nat) : Option (Option (Nat × Nat)) :=
  match R.inArc p1 t, R.inArc p2 t with
  | some a, some b =>
    if arcText nm a.expr = arcText nm b.expr then some (some (ratioMax r (1, 1)))
    else
      match extract R.net.vty a.expr, extract R.net.vty b.expr with
      | some (some m), some (some o) => (m.sameSupport o).map fun s => if s then some (drainMax o m.set r) else none
      | some _, some _ => some none
      | _, _ => none
  | _, _ => none

/-- models src/PetriEngine/Colored/Reduction/RedRuleParallelPlaces.cpp:73-117: the consumers of the two places, in order; the second list
must be a part of the first one. -/
def Red.drain (R : Red) (nm : Names) (p1 p2 : Nat) : List Nat → List Nat → Nat × Nat → Option (Option (Nat × Nat))
  | _, [], r => some (some r)
  | [], _ :: _, _ => some none
  | t1 :: l1, t2 :: l2, r =>
    if t2 < t1 then some none
    else if t2 > t1 then R.drain nm p1 p2 l1 (t2 :: l2) r
    else
      match R.drainAt nm p1 p2 t1 r with
      | none => none
      | some none => some none
      | some (some r') => R.drain nm p1 p2 l1 l2 r'

/-- models src/PetriEngine/Colored/Reduction/RedRuleParallelPlaces.cpp:142-170: a common producer. -/
def Red.fillAt (R : Red) (nm : Names) (p1 p2 t : Nat) (r : Nat × Nat) : Option Bool :=
  match R.outArc t p1, R.outArc t p2 with
  | some a, some b =>
    if arcText nm a.expr = arcText nm b.expr ∧ ratioLt (1, 1) r = true then some false
    else
      match extract R.net.vty a.expr, extract R.net.vty b.expr with
      | some (some m), some (some o) =>
        (m.sameSupport o).map fun s => s && m.set.all fun q => !ratioLt (o.get q.1, q.2) r
      | some _, some _ => some false
      | _, _ => none
  | _, _ => none

/-- models src/PetriEngine/Colored/Reduction/RedRuleParallelPlaces.cpp:121-173: the producers of the two places; the first list must be a
part of the second one. -/
def Red.fill (R : Red) (nm : Names) (p1 p2 : Nat) (r : Nat × Nat) : List Nat → List Nat → Option Bool
  | [], _ => some true
  | _ :: _, [] => some false
  | t1 :: l1, t2 :: l2 =>
    if t1 < t2 then some false
    else if t1 > t2 then R.fill nm p1 p2 r (t1 :: l1) l2
    else
      match R.fillAt nm p1 p2 t1 r with
      | none => none
      | some false => some false
      | some true => R.fill nm p1 p2 r l1 l2

/-- the check of src/PetriEngine/Colored/Reduction/RedRuleParallelPlaces.cpp:66-68; `distinctSize` of a `Multiset` counts the entries
(include/PetriEngine/Colored/Multiset.h:71-73) -/
def sameMarks (m o : MS) : Option Bool :=
  if m.set.length ≠ o.set.length then some false
  else (m.add o).map fun s => decide (s.set.length = m.set.length)

/-- the check of src/PetriEngine/Colored/Reduction/RedRuleParallelPlaces.cpp:119: the `double` is cut to a `uint32_t`, which is undefined
behaviour for infinity -/
def drainFits (m1 m2 : MS) (r : Nat × Nat) : Option Bool :=
  if r.2 = 0 then none else msSubEq (m1.scale (r.1 / r.2)) m2

/-- models src/PetriEngine/Colored/Reduction/RedRuleParallelPlaces.cpp:53-64. -/
def Red.comparable (R : Red) (q : Uses) (p1 p2 : Nat) : Bool :=
  decide (q.place p2 = false ∧ R.inhibitor p2 = 0 ∧ R.pre p2 ≠ [] ∧ R.post p1 ≠ [] ∧
    (R.post p2).length ≤ (R.post p1).length ∧ (R.pre p1).length ≤ (R.pre p2).length)

/-- models src/PetriEngine/Colored/Reduction/RedRuleParallelPlaces.cpp:53-173: whether `p2` is removed for the sake of `p1`, and the ratio;
what `break` and `continue` do to the loops is left open. -/
def Red.parPlace (R : Red) (nm : Names) (q : Uses) (p1 p2 : Nat) : Option (Option (Nat × Nat)) :=
  if !R.comparable q p1 p2 then some none
  else
    match sameMarks (markMS (R.net.place p1)) (markMS (R.net.place p2)) with
    | none => none
    | some false => some none
    | some true =>
      match R.drain nm p1 p2 (R.post p1) (R.post p2) (0, 1) with
      | none => none
      | some none => some none
      | some (some r) =>
        match drainFits (markMS (R.net.place p1)) (markMS (R.net.place p2)) r with
        | none => none
        | some false => some none
        | some true => (R.fill nm p1 p2 r (R.pre p1) (R.pre p2)).map fun ok => if ok then some r else none

/-- models src/PetriEngine/Colored/Reduction/RedRuleParallelPlaces.cpp:13-193 (`apply`).  The pairs are given: the theorems hold for all of
them, so for those that the loops go through, up to the time at which they are stopped. -/
def Red.parPlaces (nm : Names) (q : Uses) : List (Nat × Nat) → Red → Option Red
  | [], R => some R
  | (p1, p2) :: ps, R =>
    if p1 = p2 ∨ p1 ∈ R.skP ∨ p2 ∈ R.skP ∨ (R.net.place p1).ty ≠ (R.net.place p2).ty then parPlaces nm q ps R
    else
      match R.parPlace nm q p1 p2 with
      | none => none
      | some none => parPlaces nm q ps R
      | some (some _) => parPlaces nm q ps (R.skipPlace p2)

end CRed
end Verif
