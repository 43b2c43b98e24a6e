import Verif.Spec.Coloured

/-!
# Intervals of colours

Models `include/PetriEngine/Colored/Intervals.h`: boxes of ranges (`interval_t`) and lists of them (`interval_vector_t`),
with which the colours a place or a variable may take are over-approximated.
-/

namespace Verif
namespace CFP

open CPN

/-- models include/PetriEngine/TAR/range.h:24-45 (`range_t`). -/
structure Rng where
  lo : Nat
  hi : Nat
deriving DecidableEq, Repr

/-- models range.h:59-61. -/
def Rng.sound (r : Rng) : Bool := decide (r.lo ≤ r.hi)
/-- models range.h:63-65. -/
def Rng.contains (r : Rng) (a : Nat) : Bool := decide (r.lo ≤ a) && decide (a ≤ r.hi)
/-- models range.h:102-104. -/
def Rng.meets (r s : Rng) : Bool := decide (r.lo ≤ s.hi) && decide (s.lo ≤ r.hi)
/-- models range.h:106-110 (`&=`). -/
def Rng.inter (r s : Rng) : Rng := ⟨max r.lo s.lo, min r.hi s.hi⟩
/-- models range.h:112-116 (`|=`). -/
def Rng.hull (r s : Rng) : Rng := ⟨min r.lo s.lo, max r.hi s.hi⟩
/-- models range.h:76-80 (`invalidate`). -/
def Rng.bad : Rng := ⟨1, 0⟩

/-- models include/PetriEngine/Colored/Intervals.h:36-45 (`interval_t`). -/
abbrev Interval := List Rng
/-- models Intervals.h:259-270 (`interval_vector_t`). -/
abbrev IVec := List Interval

/-- The values in a box. -/
def Interval.Has : Interval → Val → Prop
  | [], [] => True
  | r :: i, a :: x => (r.lo ≤ a ∧ a ≤ r.hi) ∧ Interval.Has i x
  | _, _ => False

instance Interval.decHas : (i : Interval) → (x : Val) → Decidable (Interval.Has i x)
  | [], [] => isTrue trivial
  | r :: i, a :: x => @instDecidableAnd _ _ _ (Interval.decHas i x)
  | [], _ :: _ => isFalse id
  | _ :: _, [] => isFalse id

/-- The values in a list of boxes. -/
def IVec.Has (v : IVec) (x : Val) : Prop := ∃ i ∈ v, Interval.Has i x

instance (v : IVec) (x : Val) : Decidable (IVec.Has v x) := inferInstanceAs (Decidable (∃ i ∈ v, Interval.Has i x))

/-- models Intervals.h:51-58. -/
def Interval.sound (i : Interval) : Bool := i.all Rng.sound
/-- models Intervals.h:116-122, in 32 bits. -/
def Interval.count (i : Interval) : Nat := (i.map fun r => 1 + r.hi - r.lo).prod % W32
/-- models Intervals.h:136-149; boxes of different dimensions have no overlap. -/
def Interval.overlap (i j : Interval) : Interval := if i.length = j.length then List.zipWith Rng.inter i j else []
/-- models Intervals.h:168-174. -/
def Interval.hull (i j : Interval) : Interval := List.zipWith Rng.hull i j
/-- models Intervals.h:176-184; the boxes have one dimension (asserted). -/
def Interval.meets : Interval → Interval → Bool
  | [], [] => true
  | r :: i, s :: j => r.meets s && Interval.meets i j
  | _, _ => false
/-- models Intervals.h:87-93. -/
def Interval.lowerIds (i : Interval) : List Nat := i.map (·.lo)

/-- models Intervals.h:186-235 (`getSubtracted`, without diagonal positions): what is left of a box when another one is
taken away; `pre` are the ranges before the present position of what remains. -/
def Interval.subtractFrom (pre : List Rng) : Interval → Interval → IVec
  | r :: i, s :: j =>
    let low : Int := min ((s.lo : Int) - 1) r.hi
    let high : Nat := max (s.hi + 1) r.lo
    if (r.lo : Int) ≤ low ∧ high ≤ r.hi then
      (pre ++ ⟨high, r.hi⟩ :: i) :: (pre ++ ⟨r.lo, low.toNat⟩ :: i) ::
        Interval.subtractFrom (pre ++ [⟨low.toNat + 1, high - 1⟩]) i j
    else if (r.lo : Int) ≤ low then
      if (r.hi : Int) ≤ low then [pre ++ ⟨r.lo, low.toNat⟩ :: i]
      else (pre ++ ⟨r.lo, low.toNat⟩ :: i) :: Interval.subtractFrom (pre ++ [⟨low.toNat + 1, r.hi⟩]) i j
    else if high ≤ r.hi then
      if r.lo ≥ high then [pre ++ ⟨high, r.hi⟩ :: i]
      else (pre ++ ⟨high, r.hi⟩ :: i) :: Interval.subtractFrom (pre ++ [⟨r.lo, high - 1⟩]) i j
    else Interval.subtractFrom (pre ++ [r]) i j
  | _, _ => []

def Interval.subtract (i j : Interval) : IVec := if i.length = j.length then Interval.subtractFrom [] i j else []

/-- models Intervals.h:302-308, in 32 bits. -/
def IVec.count (v : IVec) : Nat := (v.map Interval.count).sum % W32
/-- models Intervals.h:316-323. -/
def IVec.valid (v : IVec) : Bool := v.any Interval.sound

/-- models Intervals.h:385-402: the order of two boxes is that of their lower ends, the first component first. -/
def Interval.before : Interval → Interval → Bool
  | r :: i, s :: j => if r.lo < s.lo then true else if s.lo < r.lo then false else Interval.before i j
  | _, _ => false

/-- models Intervals.h:373-418 (`addInterval`): the box is joined with the first one it meets, or inserted. -/
def IVec.add (v : IVec) (i : Interval) : IVec :=
  match v with
  | [] => [i]
  | l :: ls => if i.meets l then l.hull i :: ls else if i.before l then i :: l :: ls else l :: IVec.add ls i

def IVec.addAll (v : IVec) (l : List Interval) : IVec := l.foldl IVec.add v

/-- one pass of the inner loop of Intervals.h:658-668: the box `x` absorbs those after it, the last one first -/
def Interval.absorb (x : Interval) : IVec → Interval × IVec
  | [] => (x, [])
  | y :: ys =>
    let r := Interval.absorb x ys
    if y.sound then if r.1.meets y then (r.1.hull y, r.2) else (r.1, y :: r.2) else r

/-- the loop of Intervals.h:657-669 -/
def IVec.pass : Nat → IVec → IVec
  | n + 1, x :: xs => (Interval.absorb x xs).1 :: IVec.pass n (Interval.absorb x xs).2
  | _, v => v

/-- models Intervals.h:653-670 (`simplify`). -/
def IVec.simplify (v : IVec) : IVec :=
  let w := v.dropWhile fun i => !i.sound
  IVec.pass w.length w

/-- the distance of Intervals.h:627-635 -/
def Interval.dist : Interval → Interval → Nat
  | r :: i, s :: j => max ((s.lo : Int) - r.hi) ((r.lo : Int) - s.hi) |>.toNat |> (· + Interval.dist i j)
  | _, _ => 0

/-- models Intervals.h:621-651 (`getClosestIntervals`): the pairs in their order, with a stop at distance 1; the best
distance so far is `none` at the start (the largest 32-bit number in the code). -/
def IVec.closest : List (Nat × Nat × Nat) → Option (Nat × Nat × Nat) → Option (Nat × Nat × Nat)
  | [], best => best
  | q :: qs, none => if q.2.2 = 1 then some q else IVec.closest qs (some q)
  | q :: qs, some b => if q.2.2 < b.2.2 then if q.2.2 = 1 then some q else IVec.closest qs (some q) else IVec.closest qs (some b)

def IVec.pairs (v : IVec) : List (Nat × Nat × Nat) :=
  ((List.range v.length).map fun i => (List.range (v.length - (i + 1))).map fun d =>
    (i, i + 1 + d, Interval.dist (v.getD i []) (v.getD (i + 1 + d) []))).flatten

/-- one round of the loop of Intervals.h:607-617 -/
def IVec.join (v : IVec) : IVec :=
  match IVec.closest v.pairs none with
  | none => v
  | some (i, j, _) => (v.set i ((v.getD i []).hull (v.getD j []))).eraseIdx j

def IVec.joinTo (k : Nat) : Nat → IVec → IVec
  | n + 1, v => if v.length > k then IVec.joinTo k n v.join else v
  | 0, v => v

/-- models Intervals.h:601-619 (`restrict`). -/
def IVec.restrict (k : Nat) (v : IVec) : IVec :=
  let w := v.simplify
  if k = 0 then w else (IVec.joinTo k w.length w).simplify

/-- models Intervals.h:420-438. -/
def Rng.constrainLower (strict : Bool) (a : Nat) (r : Rng) : Rng :=
  if strict = true ∧ r.lo ≤ a then if r.hi ≤ a then Rng.bad else ⟨a + 1, r.hi⟩
  else if strict = false ∧ r.lo < a then if r.hi < a then Rng.bad else ⟨a, r.hi⟩
  else r

/-- models Intervals.h:440-458. -/
def Rng.constrainUpper (strict : Bool) (a : Nat) (r : Rng) : Rng :=
  if strict = true ∧ r.hi ≥ a then if r.lo ≥ a then Rng.bad else ⟨r.lo, a - 1⟩
  else if strict = false ∧ r.hi > a then if r.lo > a then Rng.bad else ⟨r.lo, a⟩
  else r

/-- the components that have a value are changed (`values` is not longer than the box) -/
def Interval.mapVals (f : Nat → Rng → Rng) : Interval → List Nat → Interval
  | r :: i, a :: as => f a r :: Interval.mapVals f i as
  | i, _ => i

def IVec.constrainLower (v : IVec) (vals : List Nat) (strict : Bool) : IVec :=
  IVec.simplify (v.map fun i => i.mapVals (Rng.constrainLower strict) vals)
def IVec.constrainUpper (v : IVec) (vals : List Nat) (strict : Bool) : IVec :=
  IVec.simplify (v.map fun i => i.mapVals (Rng.constrainUpper strict) vals)

/-- models Intervals.h:310-314: a number is shifted in a cycle; a negative sum is converted to an unsigned number of `w`
bits (32 here, 64 in src/PetriEngine/Colored/IntervalGenerator.cpp:29-33) before the remainder is taken. -/
def shiftN (w : Nat) (n : Nat) (m : Int) (a : Nat) : Nat :=
  let s : Int := (n : Int) + (a + m)
  (if s < 0 then (s + 2 ^ w).toNat else s.toNat) % n

/-- models Intervals.h:492-520 (`getLowerIds` with a modifier): the list is filled by a loop over the list itself, and so
stays empty. -/
def IVec.lowerIdsMod (m : Int) (sizes : List Nat) (v : IVec) : List Nat :=
  v.foldl (fun ids i =>
    let sh := fun k => (shiftN 32 (sizes.getD k 0) m (i.getD k ⟨0, 0⟩).lo, shiftN 32 (sizes.getD k 0) m (i.getD k ⟨0, 0⟩).hi)
    if ids.isEmpty then
      (List.range ids.length).foldl (fun l k => l ++ [if (sh k).1 > (sh k).2 then 0 else (sh k).1]) ids
    else
      (List.range ids.length).map fun k =>
        if ids.getD k 0 = 0 then 0 else if (sh k).1 > (sh k).2 then 0 else max (ids.getD k 0) (sh k).1) []

/-- models Intervals.h:522-552 (`getUpperIds`). -/
def IVec.upperIdsMod (m : Int) (sizes : List Nat) (v : IVec) : List Nat :=
  v.foldl (fun ids i =>
    let sh := fun k => (shiftN 32 (sizes.getD k 0) m (i.getD k ⟨0, 0⟩).lo, shiftN 32 (sizes.getD k 0) m (i.getD k ⟨0, 0⟩).hi)
    if ids.isEmpty then
      (List.range ids.length).foldl (fun l k => l ++ [if (sh k).1 > (sh k).2 then sizes.getD k 0 - 1 else (sh k).2]) ids
    else
      (List.range ids.length).map fun k =>
        if ids.getD k 0 = sizes.getD k 0 - 1 then ids.getD k 0
        else if (sh k).1 > (sh k).2 then sizes.getD k 0 - 1 else max (ids.getD k 0) (sh k).2) []

/-- the ranges into which a range is shifted (Intervals.h:562-575): one, or two if it wraps around -/
def Rng.shift (n : Nat) (m : Int) (r : Rng) : Rng × Option Rng :=
  let l := shiftN 32 n m r.lo
  let u := shiftN 32 n m r.hi
  if l > u then (⟨0, u⟩, some ⟨l, n - 1⟩) else (⟨l, u⟩, none)

/-- one position of the loop of Intervals.h:560-577 over all boxes made so far -/
def IVec.shiftAt (n : Nat) (m : Int) (k : Nat) (v : IVec) : IVec :=
  (v.map fun i => i.set k ((i.getD k ⟨0, 0⟩).shift n m).1) ++
  (v.filterMap fun i => ((i.getD k ⟨0, 0⟩).shift n m).2.map fun r => i.set k r)

/-- models Intervals.h:554-584 (`applyModifier`).  The box is read after it was given to `std::move`; as `interval_t` declares a
destructor it has no move constructor, and is copied. -/
def IVec.applyModifier (m : Int) (sizes : List Nat) (v : IVec) : IVec :=
  (v.map fun i => (List.range i.length).foldl (fun w k => IVec.shiftAt (sizes.getD k 0) m k w) [i]).flatten

/-- models Intervals.h:339-359 (`nextInterval`): the box after the first one whose upper corner is the tuple, in a cycle; the
empty box if the tuple is no upper corner. -/
def IVec.next (v : IVec) (ids : List Nat) : Interval :=
  match v.findIdx? fun i => i.map (·.hi) == ids with
  | none => []
  | some j => if j + 1 ≠ v.length then v.getD (j + 1) [] else v.getD 0 []

/-- models include/PetriEngine/Colored/Colors.h:151-155, 244-250 (`getFullInterval`), for the sizes of the components. -/
def fullInterval (dims : List Nat) : Interval := dims.map fun n => ⟨0, n - 1⟩

end CFP
end Verif
