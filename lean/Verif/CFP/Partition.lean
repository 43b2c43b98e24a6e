import Verif.CFP.Intervals

/-!
# Partitions of colours

Models src/PetriEngine/Colored/EquivalenceClass.cpp, src/PetriEngine/Colored/EquivalenceVec.cpp and the part of
src/PetriEngine/Colored/PartitionBuilder.cpp that splits partitions.  A class is a list of boxes; all classes are of one colour type,
and no position of a tuple is diagonal.  The numbers of classes (`_id`) are left out.
-/

namespace Verif
namespace CFP

open CPN

/-- the loops of EquivalenceClass.cpp:25-32 and 57-64: all overlaps of two lists of boxes that are not empty -/
def crossAdd (f : Interval → Interval → Interval) (c d : IVec) : IVec :=
  c.foldl (fun v i => d.foldl (fun v j => if (f i j).sound then v.add (f i j) else v) v) []

/-- models src/PetriEngine/Colored/EquivalenceClass.cpp:17-34 (`intersect`) -/
def classMeet (c d : IVec) : IVec := crossAdd (fun i j => i.overlap j) c d

/-- the loop of EquivalenceClass.cpp:45-68 over the boxes of the other class; `acc` is `intervalSubRes` -/
def subBox (i : Interval) : IVec → IVec → IVec
  | [], acc => acc
  | j :: js, acc =>
    if (i.subtract j).isEmpty || ((i.subtract j).getD 0 []).isEmpty then []
    else if acc.isEmpty then subBox i js (i.subtract j)
    else subBox i js (crossAdd (fun n o => o.overlap n) (i.subtract j) acc)

/-- models src/PetriEngine/Colored/EquivalenceClass.cpp:37-75 (`subtract`) -/
def classSub (c d : IVec) : IVec := c.foldl (fun v i => v.addAll (subBox i d [])) []

/-- models include/PetriEngine/Colored/EquivalenceClass.h:23-28 (`isEmpty`) -/
def classNil (c : IVec) : Bool := c.isEmpty || (c.getD 0 []).isEmpty

/-- models src/PetriEngine/Colored/PartitionBuilder.cpp:391-408 (`findOverlap`) -/
def findOverlap (Q P : List IVec) : Option (Nat × Nat × IVec) :=
  (List.range Q.length).findSome? fun i => (List.range P.length).findSome? fun j =>
    if classNil (classMeet (Q.getD i []) (P.getD j [])) then none
    else some (i, j, classMeet (Q.getD i []) (P.getD j []))

/-- models src/PetriEngine/Colored/PartitionBuilder.cpp:357-389 (`splitPartition`): the partition `P` is split by the classes `Q`;
the last component is the result.  `none` if the loop has not ended after the given number of rounds.  (The first branch of the
code is for a net without places.) -/
def splitLoop : Nat → List IVec → List IVec → Bool → Option (List IVec × Bool)
  | 0, _, _, _ => none
  | n + 1, Q, P, s =>
    match findOverlap Q P with
    | none => some (P, s)
    | some (i, j, x) =>
      splitLoop n
        (Q.eraseIdx i ++ if classNil (classSub (Q.getD i []) (P.getD j [])) then [] else [classSub (Q.getD i []) (P.getD j [])])
        (P.eraseIdx j ++ [x] ++ if classNil (classSub (P.getD j []) (Q.getD i [])) then [] else [classSub (P.getD j []) (Q.getD i [])])
        true

/-- models include/PetriEngine/Colored/Intervals.h:124-134 and 586-594 (`contains`) -/
def Interval.within : Interval → Interval → Bool
  | [], [] => true
  | r :: i, s :: j => decide (r.lo ≤ s.lo) && decide (s.hi ≤ r.hi) && Interval.within i j
  | _, _ => false

/-- the inner loops of EquivalenceVec.cpp:37-50: is the class inside one of those before it? -/
def inEarlier (c : IVec) (before : List IVec) : Bool := before.any fun d => c.all fun i => d.any fun j => j.within i

/-- models src/PetriEngine/Colored/EquivalenceVec.cpp:35-51 (`mergeEqClasses`): from the last class to the second one, classes inside
earlier ones are taken out -/
def mergeFrom : Nat → List IVec → List IVec
  | 0, P => P
  | i + 1, P => mergeFrom i (if inEarlier (P.getD (i + 1) []) (P.take (i + 1)) then P.eraseIdx (i + 1) else P)

def mergeClasses (P : List IVec) : List IVec := mergeFrom (P.length - 1) P

/-- models src/PetriEngine/Colored/EquivalenceVec.cpp:64-85 (`applyPartition` of a colour, where the partition is not trivial): the
colour is replaced with the lowest corner of the box that it is in; there is no stop after the first one -/
def representative (P : List IVec) (x : Val) : Val :=
  P.foldl (fun y c => c.foldl (fun y i => if i.within (x.map fun a => ⟨a, a⟩) then i.lowerIds else y) y) x

/-- models src/PetriEngine/Colored/EquivalenceClass.cpp:77-94 (`containsColor`), one box: diagonal positions are not compared -/
def boxHas : List Bool → Interval → Val → Bool
  | _, [], [] => true
  | g :: gs, r :: i, a :: x => (g || r.contains a) && boxHas gs i x
  | _, _, _ => false

/-- models src/PetriEngine/Colored/Colors.cpp:217-227 (`getColor` of a product type): the number of a tuple, without wrap-around -/
def tupleIndex : List Nat → Val → Nat
  | n :: ns, a :: x => a + n * tupleIndex ns x
  | _, _ => 0

/-- a class with its number `_id` -/
structure NClass where
  id : Nat
  boxes : IVec

/-- models src/PetriEngine/Colored/EquivalenceVec.cpp:53-62 and 89-112 (`addColorToEqClassMap`, `getUniqueIdForColor`): the number under
which the place of a colour is found.  `none`: the colour is in no class, and the end of the map is dereferenced.  Sums are not cut to
32 bits. -/
def uniqueId (dims : List Nat) (diag : List Bool) (P : List NClass) (x : Val) : Option Nat :=
  (P.find? fun c => c.boxes.any fun i => boxHas diag i x).map fun c =>
    if diag.any id then
      c.id + tupleIndex dims (List.zipWith (fun g (ab : Nat × Nat) => if g then ab.1 else ab.2) diag (x.zip ((c.boxes.getLastD []).lowerIds)))
    else c.id

end CFP
end Verif
