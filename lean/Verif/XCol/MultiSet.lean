/-!
# Multisets of the explicit coloured engine

Models `include/PetriEngine/ExplicitColored/SequenceMultiSet.h`: a vector of pairs of a colour and a number, sorted by
colour, and the sum of the numbers.  The numbers are `int32_t` in the code and integers here; the checks for overflow
are modelled apart (`addCountM`, `plusM`, `setCountM`).
-/

namespace Verif
namespace XCol

/-- models SequenceMultiSet.h:306-307 (`_counts`, `_cardinality`). -/
structure MS where
  counts : List (Nat × Int)
  card : Int
deriving DecidableEq, Repr

def MS.empty : MS := ⟨[], 0⟩

/-- models SequenceMultiSet.h:17-24 (`getCount`) with `clower_bound`, 294-304; the vector is sorted, so the entry at the
lower bound is the only one that can have the colour. -/
def valL : List (Nat × Int) → Nat → Int
  | [], _ => 0
  | (d, k) :: l, c => if d = c then k else valL l c

def MS.val (m : MS) (c : Nat) : Int := valL m.counts c

/-- models SequenceMultiSet.h:51-62: the entry at the lower bound is increased, or an entry is inserted there. -/
def bump (c : Nat) (k : Int) : List (Nat × Int) → List (Nat × Int)
  | [] => [(c, k)]
  | (d, l) :: r => if d < c then (d, l) :: bump c k r else if d = c then (d, l + k) :: r else (c, k) :: (d, l) :: r

/-- models SequenceMultiSet.h:51-62 (`addCount`). -/
def MS.addCount (m : MS) (c : Nat) (k : Int) : MS := ⟨bump c k m.counts, m.card + k⟩

/-- models SequenceMultiSet.h:30-45: the entry at the lower bound is replaced, or an entry is inserted there. -/
def put (c : Nat) (k : Int) : List (Nat × Int) → List (Nat × Int)
  | [] => [(c, k)]
  | (d, l) :: r => if d < c then (d, l) :: put c k r else if d = c then (d, k) :: r else (c, k) :: (d, l) :: r

/-- models SequenceMultiSet.h:30-45 (`setCount`). -/
def MS.setCount (m : MS) (c : Nat) (k : Int) : MS := ⟨put c k m.counts, m.card + k - valL m.counts c⟩

/-- models SequenceMultiSet.h:68-95: the loop of `operator+=` on sorted vectors (an entry that is inserted is passed at
once, its colour being smaller than the next of `other`). -/
def plusL : List (Nat × Int) → List (Nat × Int) → List (Nat × Int)
  | [], b => b
  | a, [] => a
  | (c, k) :: a, (d, l) :: b =>
    if c = d then (c, k + l) :: plusL a b
    else if c < d then (c, k) :: plusL a ((d, l) :: b)
    else (d, l) :: plusL ((c, k) :: a) b
termination_by a b => a.length + b.length

def sumL : List (Nat × Int) → Int
  | [] => 0
  | (_, k) :: l => k + sumL l

/-- models SequenceMultiSet.h:68-95 (`operator+=`). -/
def MS.plus (m o : MS) : MS := ⟨plusL m.counts o.counts, m.card + sumL o.counts⟩

/-- models SequenceMultiSet.h:100-122: the loop of `operator-=`. -/
def minusL : List (Nat × Int) → List (Nat × Int) → List (Nat × Int)
  | [], b => b.map fun e => (e.1, -e.2)
  | a, [] => a
  | (c, k) :: a, (d, l) :: b =>
    if c = d then (c, k - l) :: minusL a b
    else if c < d then (c, k) :: minusL a ((d, l) :: b)
    else (d, -l) :: minusL ((c, k) :: a) b
termination_by a b => a.length + b.length

/-- models SequenceMultiSet.h:97-123 (`operator-=`): nothing is taken from a set without entries. -/
def MS.minus (m o : MS) : MS :=
  if m.counts = [] then m else ⟨minusL m.counts o.counts, m.card - sumL o.counts⟩

/-- models SequenceMultiSet.h:137-159: the loop of `operator==`; what is left of one vector when the other ends is not
looked at. -/
def eqL : List (Nat × Int) → List (Nat × Int) → Bool
  | [], _ => true
  | _, [] => true
  | (c, k) :: a, (d, l) :: b =>
    if k = 0 then eqL a ((d, l) :: b)
    else if l = 0 then eqL ((c, k) :: a) b
    else if c ≠ d ∨ k ≠ l then false
    else eqL a b
termination_by a b => a.length + b.length

/-- models SequenceMultiSet.h:137-159 (`operator==`). -/
def MS.eq (m o : MS) : Bool := if m.card ≠ o.card then false else eqL m.counts o.counts

/-- models SequenceMultiSet.h:199-235: the loop of `operator<=`, and the entries left (all must be 0). -/
def leL : List (Nat × Int) → List (Nat × Int) → Bool
  | [], _ => true
  | a, [] => a.all fun e => e.2 == 0
  | (c, k) :: a, (d, l) :: b =>
    if k ≤ 0 then leL a ((d, l) :: b)
    else if l ≤ 0 then leL ((c, k) :: a) b
    else if c = d then (if k > l then false else leL a b)
    else if c < d then false
    else leL ((c, k) :: a) b
termination_by a b => a.length + b.length

/-- models SequenceMultiSet.h:199-235 (`operator<=`). -/
def MS.le (m o : MS) : Bool := if m.card > o.card then false else leL m.counts o.counts

/-- models SequenceMultiSet.h:161-197: the loop of `operator>=`, and the entries of `other` left (all must be 0). -/
def geL : List (Nat × Int) → List (Nat × Int) → Bool
  | _, [] => true
  | [], b => b.all fun e => e.2 == 0
  | (c, k) :: a, (d, l) :: b =>
    if k ≤ 0 then geL a ((d, l) :: b)
    else if l ≤ 0 then geL ((c, k) :: a) b
    else if c = d then (if k < l then false else geL a b)
    else if c < d then geL a ((d, l) :: b)
    else false
termination_by a b => a.length + b.length

/-- models SequenceMultiSet.h:161-197 (`operator>=`). -/
def MS.ge (m o : MS) : Bool := if m.card < o.card then false else geL m.counts o.counts

/-- models SequenceMultiSet.h:241-254 (`shrink`): entries that are not positive are erased; the cardinality stays. -/
def MS.shrink (m : MS) : MS := ⟨m.counts.filter fun e => decide (e.2 > 0), m.card⟩

/-- the amount by which `fixNegative` raises the cardinality -/
def negL : List (Nat × Int) → Int
  | [] => 0
  | (_, k) :: l => (if k < 0 then -k else 0) + negL l

/-- models SequenceMultiSet.h:256-263 (`fixNegative`). -/
def MS.fixNegative (m : MS) : MS := ⟨m.counts.map fun e => (e.1, if e.2 < 0 then 0 else e.2), m.card + negL m.counts⟩

/-- models SequenceMultiSet.h:265-271 (`getHighestCount`). -/
def highestL : List (Nat × Int) → Int → Int
  | [], m => m
  | (_, k) :: l, m => highestL l (max k m)

def MS.highest (m : MS) : Int := highestL m.counts 0

/-! ## The machine: 32-bit numbers -/

/-- the outcome of an operation on `int32_t` numbers: a result, the exception `TOO_MANY_TOKENS`, or a signed overflow,
which is undefined. -/
inductive Out (α : Type) where
  | ok (a : α)
  | tooMany
  | overflow
deriving DecidableEq, Repr

/-- the greatest `int32_t` -/
def maxI : Int := 2 ^ 31 - 1

def fits (k : Int) : Bool := decide (-(2 ^ 31) ≤ k) && decide (k ≤ maxI)

/-- models SequenceMultiSet.h:51-62 (`addCount`) with the check in lines 53-55. -/
def addCountM (m : MS) (c : Nat) (k : Int) : Out MS :=
  if 0 < k ∧ m.card > maxI - k then .tooMany
  else if !fits (m.card + k) || !fits (m.val c + k) then .overflow
  else .ok (m.addCount c k)

/-- models SequenceMultiSet.h:30-45 (`setCount`; `count` is `uint32_t`, the sum in the check in line 33 is computed in
`uint32_t`). -/
def setCountM (m : MS) (c : Nat) (k : Nat) : Out MS :=
  if (k : Int) > maxI ∨ (m.card + k) % 2 ^ 32 < (k : Int) then .tooMany
  else if !fits (m.card + k) || !fits (m.card + k - m.val c) then .overflow
  else .ok (m.setCount c k)

/-- models SequenceMultiSet.h:68-95 (`operator+=`): the check in lines 73-75 is made for the colours of both sets only.
The accumulator is the cardinality; entries: `none` for a colour of `other` alone. -/
def plusML : Int → List (Nat × Int) → List (Nat × Int) → Out Unit
  | _, _, [] => .ok ()
  | card, [], (_, l) :: b => if !fits (card + l) then .overflow else plusML (card + l) [] b
  | card, (c, k) :: a, (d, l) :: b =>
    if c = d then
      if 0 < l ∧ card > maxI - l then .tooMany
      else if !fits (k + l) || !fits (card + l) then .overflow
      else plusML (card + l) a b
    else if c < d then plusML card a ((d, l) :: b)
    else if !fits (card + l) then .overflow
    else plusML (card + l) ((c, k) :: a) b
termination_by _ a b => a.length + b.length

def plusM (m o : MS) : Out MS :=
  match plusML m.card m.counts o.counts with
  | .ok _ => .ok (m.plus o)
  | .tooMany => .tooMany
  | .overflow => .overflow

end XCol
end Verif
