/-!
# Model: token ranges of the trace-abstraction-refinement engine

`uint32_t` values are natural numbers below `2^32`; `rmax` is the value used for "no upper bound".
-/

namespace Verif
namespace TAR

/-- models include/PetriEngine/TAR/range.h:30-32 (`range_t::max`). -/
def rmax : Nat := 2 ^ 32 - 1

/-- models include/PetriEngine/TAR/range.h:24-46 (`range_t`); the default is the unbounded range. -/
structure Range where
  lower : Nat := 0
  upper : Nat := rmax
deriving DecidableEq, Repr

namespace Range

/-- models include/PetriEngine/TAR/range.h:48-58. -/
def noUpper (r : Range) : Bool := r.upper == rmax
def noLower (r : Range) : Bool := r.lower == 0
def unbound (r : Range) : Bool := r.noLower && r.noUpper

/-- models include/PetriEngine/TAR/range.h:60-66. -/
def isSound (r : Range) : Bool := decide (r.lower ≤ r.upper)
def contains (r : Range) (v : Nat) : Bool := decide (r.lower ≤ v) && decide (v ≤ r.upper)

/-- models include/PetriEngine/TAR/range.h:73-75 (unsigned arithmetic). -/
def size (r : Range) : Nat := (1 + r.upper + 2 ^ 32 - r.lower) % 2 ^ 32

/-- models include/PetriEngine/TAR/range.h:95-100: (includes, included). -/
def compare (r o : Range) : Bool × Bool :=
  (decide (r.lower ≤ o.lower) && decide (r.upper ≥ o.upper), decide (r.lower ≥ o.lower) && decide (r.upper ≤ o.upper))

/-- models include/PetriEngine/TAR/range.h:102-104. -/
def intersects (r o : Range) : Bool := decide (r.lower ≤ o.upper) && decide (o.lower ≤ r.upper)

/-- models include/PetriEngine/TAR/range.h:106-110 (`operator&=`). -/
def inter (r o : Range) : Range := ⟨max r.lower o.lower, min r.upper o.upper⟩

/-- models include/PetriEngine/TAR/range.h:112-116 (`operator|=`). -/
def join (r o : Range) : Range := ⟨min r.lower o.lower, max r.upper o.upper⟩

/-- models include/PetriEngine/TAR/range.h:118-122. -/
def joinVal (r : Range) (v : Nat) : Range := ⟨min v r.lower, max v r.upper⟩

/-- models include/PetriEngine/TAR/range.h:124-128. -/
def setVal (_ : Range) (v : Nat) : Range := ⟨v, v⟩

/-- models include/PetriEngine/TAR/range.h:130-143 (`operator-=`); with an upper bound below `val` the
assertion fails, and without assertions the bound is unchanged. -/
def sub (r : Range) (val : Nat) : Range :=
  ⟨if r.lower < val then 0 else r.lower - val,
   if r.upper ≠ rmax then (if r.upper < val then r.upper else r.upper - val) else r.upper⟩

/-- models include/PetriEngine/TAR/range.h:145-157 (`operator+=`); `_lower` wraps if it is not asserted to fit. -/
def add (r : Range) (val : Nat) : Range :=
  ⟨if r.lower ≠ 0 then (r.lower + val) % 2 ^ 32 else r.lower,
   if r.upper ≥ rmax - val then rmax else r.upper + val⟩

end Range

/-- models include/PetriEngine/TAR/range.h:158-235 (`placerange_t`). -/
structure PRange where
  place : Nat
  range : Range := {}
deriving DecidableEq, Repr

/-- models include/PetriEngine/TAR/range.h:237-238 (`prvector_t`): sorted by place. -/
abbrev PRVec := List PRange

namespace PRVec

/-- models include/PetriEngine/TAR/range.h:240-256 (`operator[]`): `std::lower_bound` finds the first entry
whose place is not smaller. -/
def find? : PRVec → Nat → Option Range
  | [], _ => none
  | e :: es, p => if e.place < p then find? es p else if e.place = p then some e.range else none

/-- models include/PetriEngine/TAR/range.h:258-264 (`find_or_add`) followed by an assignment `f` to the
range found. -/
def update : PRVec → Nat → (Range → Range) → PRVec
  | [], p, f => [⟨p, f {}⟩]
  | e :: es, p, f =>
    if e.place < p then e :: update es p f
    else if e.place = p then ⟨e.place, f e.range⟩ :: es
    else ⟨p, f {}⟩ :: e :: es

/-- models include/PetriEngine/TAR/range.h:266-285. -/
def lower (v : PRVec) (p : Nat) : Nat := match find? v p with | none => 0 | some r => r.lower
def upper (v : PRVec) (p : Nat) : Nat := match find? v p with | none => rmax | some r => r.upper
def unboundAt (v : PRVec) (p : Nat) : Bool := match find? v p with | none => true | some r => r.unbound

/-- models include/PetriEngine/TAR/range.h:292-298 and 307-312 (`compact`, `compress`). -/
def compact (v : PRVec) : PRVec := v.filter fun e => !e.range.unbound

/-- models include/PetriEngine/TAR/range.h:300-305. -/
def isCompact (v : PRVec) : Bool := v.all fun e => !e.range.unbound

/-- models include/PetriEngine/TAR/range.h:314-345 (`compare`): the loop with both iterators. -/
def compareLoop : PRVec → PRVec → Bool × Bool → Bool × Bool
  | [], o, incl => (incl.1, incl.2 && o.isEmpty)
  | _ :: _, [], incl => (false, incl.2)
  | s :: ss, o :: os, incl =>
    if s.place = o.place then
      let r := s.range.compare o.range
      let incl := (incl.1 && r.1, incl.2 && (incl.2 && r.2))
      if !incl.1 && !incl.2 then incl else compareLoop ss os incl
    else if s.place < o.place then
      if !incl.2 then (false, incl.2) else compareLoop ss (o :: os) (false, incl.2)
    else
      if !incl.1 then (incl.1, false) else compareLoop (s :: ss) os (incl.1, false)
termination_by s o => s.length + o.length

def compare (v o : PRVec) : Bool × Bool := compareLoop v o (true, true)

/-- models include/PetriEngine/TAR/range.h:358-360. -/
def isTrue (v : PRVec) : Bool := v.isEmpty

/-- models include/PetriEngine/TAR/range.h:362-370. -/
def isFalse (v : PRVec) (nplaces : Nat) : Bool :=
  v.length == nplaces && v.all fun e => e.range.lower == 0 && e.range.upper == 0

/-- models include/PetriEngine/TAR/range.h:372-387 (`operator<`): the loop over both vectors. -/
def ltLoop : PRVec → PRVec → Bool
  | r :: rs, o :: os =>
    if r.place ≠ o.place then decide (r.place < o.place)
    else if r.range.lower ≠ o.range.lower then decide (r.range.lower < o.range.lower)
    else if r.range.upper ≠ o.range.upper then decide (r.range.upper < o.range.upper)
    else ltLoop rs os
  | _, _ => false

def lt (v o : PRVec) : Bool := if v.length ≠ o.length then decide (v.length < o.length) else ltLoop v o

/-- models include/PetriEngine/TAR/range.h:389-392 (`operator==`). -/
def eq (v o : PRVec) : Bool := (compare v o).1 && (compare v o).2

/-- models include/PetriEngine/TAR/range.h:394-402 (`operator&=(placerange_t)`). -/
def andPlace : PRVec → PRange → PRVec
  | [], x => [x]
  | e :: es, x =>
    if e.place < x.place then e :: andPlace es x
    else if e.place = x.place then ⟨e.place, e.range.inter x.range⟩ :: es
    else x :: e :: es

/-- models include/PetriEngine/TAR/range.h:404-424 (`operator&=(prvector_t)`): the other iterator is not
advanced when the places are equal. -/
def andVec : PRVec → PRVec → PRVec
  | [], o => o
  | s :: ss, [] => s :: andVec ss []
  | s :: ss, o :: os =>
    if o.place < s.place then o :: andVec (s :: ss) os
    else if o.place = s.place then ⟨s.place, s.range.inter o.range⟩ :: andVec ss (o :: os)
    else s :: andVec ss (o :: os)
termination_by s o => s.length + o.length

/-- models include/PetriEngine/TAR/range.h:426-438 (`restricts`). -/
def restricts : PRVec → List Nat → Bool
  | _, [] => false
  | v, p :: ps =>
    match v.dropWhile (fun e => decide (e.place < p) || e.range.unbound) with
    | [] => false
    | e :: es => if e.place = p then true else restricts (e :: es) ps

/-! ## Meaning -/

/-- The markings described by a vector. -/
def Sat (v : PRVec) (m : Nat → Nat) : Prop := ∀ e ∈ v, e.range.contains (m e.place) = true

/-- Sorted by place without repetition: the representation invariant. -/
def Sorted (v : PRVec) : Prop := v.Pairwise fun a b => a.place < b.place

/-- Nonempty ranges within 32 bits. -/
def Sound (v : PRVec) : Prop := ∀ e ∈ v, e.range.lower ≤ e.range.upper ∧ e.range.upper ≤ rmax

end PRVec

end TAR
end Verif
