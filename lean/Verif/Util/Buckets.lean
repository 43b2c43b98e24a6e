/-!
# The bucket allocator of the CTL engine

Models include/PetriEngine/Structures/linked_bucket.h (`linked_bucket_t<T, C>`).  The configurations and edges of the dependency graph
live in it.  An address is the position in the list of buckets ever made; a cell is a bucket and a position in it.  Calls of different
threads do not overlap here: the loops around the atomic operations run through at once.
-/

namespace Verif
namespace Buckets

/-- models include/PetriEngine/Structures/linked_bucket.h:37-42 (`bucket_t`; the data are left out) -/
structure Bucket where
  link : Option Nat
  off : Nat
  count : Nat
deriving DecidableEq, Repr

/-- models include/PetriEngine/Structures/linked_bucket.h:44-52: all buckets (the first is `_begin`), `_tnext`, and the pages of the index in
the order of their links -/
structure Alloc where
  bs : List Bucket
  tnext : List (Option Nat)
  pages : List (Nat → Option Nat)

/-- models include/PetriEngine/Structures/linked_bucket.h:55-72 (constructor) -/
def start (threads : Nat) : Alloc :=
  ⟨[⟨none, 0, 0⟩], (List.replicate threads none).set 0 (some 0), [fun k => if k = 0 then some 0 else none]⟩

/-- a bucket by address -/
def Alloc.get (s : Alloc) (b : Nat) : Bucket := s.bs.getD b ⟨none, 0, 0⟩

/-- models include/PetriEngine/Structures/linked_bucket.h:212-221 (`indexToBucket`) -/
def findPage (C : Nat) : List (Nat → Option Nat) → Nat → Option Nat
  | [], _ => none
  | p :: ps, i => if C * C ≤ i then findPage C ps (i - C * C) else p (i / C)

/-- models include/PetriEngine/Structures/linked_bucket.h:183-210 (`insertToIndex`); missing pages are made on the way.  `fuel` bounds the
number of pages. -/
def insertPage (C : Nat) : Nat → List (Nat → Option Nat) → Nat → Nat → List (Nat → Option Nat)
  | 0, ps, _, _ => ps
  | fuel + 1, ps, i, b =>
    if C * C ≤ i then ps.headD (fun _ => none) :: insertPage C fuel ps.tail (i - C * C) b
    else (fun k => if k = i / C then some b else ps.headD (fun _ => none) k) :: ps.tail

/-- models include/PetriEngine/Structures/linked_bucket.h:100-106 and 121-125: from bucket to bucket while `b ≤ i`.  No result: the program
reads through a null pointer. -/
def walk (C : Nat) (s : Alloc) (i : Nat) : Nat → Nat → Nat → Option Nat
  | 0, _, _ => none
  | fuel + 1, b, n => if b ≤ i then (s.get n).link.bind fun n' => walk C s i fuel (b + C) n' else some n

/-- models include/PetriEngine/Structures/linked_bucket.h:91-128 (`operator[]`): the cell of an id -/
def Alloc.at (C : Nat) (s : Alloc) (i : Nat) : Option (Nat × Nat) :=
  match findPage C s.pages i with
  | some b => some (b, i % C)
  | none => (walk C s i (i + 1) C 0).map fun b => (b, i % C)

/-- models include/PetriEngine/Structures/linked_bucket.h:130-138 (`size`): the sum of the counters along the links (all buckets are
linked) -/
def Alloc.size (s : Alloc) : Nat := (s.bs.map Bucket.count).sum

/-- models include/PetriEngine/Structures/linked_bucket.h:155-163: on from bucket `n` to the last one; `off` is the offset of the new
bucket -/
def chain (C : Nat) (s : Alloc) : Nat → Nat → Nat → Nat × Nat
  | 0, n, off => (n, off)
  | fuel + 1, n, off =>
    match (s.get n).link with
    | none => (n, off)
    | some n' => chain C s fuel n' (off + C)

/-- models include/PetriEngine/Structures/linked_bucket.h:141-167: a new bucket for a thread -/
def Alloc.grow (C : Nat) (s : Alloc) (th : Nat) : Alloc :=
  let n := (s.tnext.getD th none).getD 0
  let l := chain C s s.bs.length n ((s.get n).off + C)
  ⟨(s.bs.set l.1 { s.get l.1 with link := some s.bs.length }) ++ [⟨none, l.2, 0⟩], s.tnext.set th (some s.bs.length),
    insertPage C (l.2 + 1) s.pages l.2 s.bs.length⟩

/-- models include/PetriEngine/Structures/linked_bucket.h:141 (the condition) -/
def Alloc.full (C : Nat) (s : Alloc) (th : Nat) : Bool :=
  match s.tnext.getD th none with
  | none => true
  | some c => (s.get c).count == C

/-- models include/PetriEngine/Structures/linked_bucket.h:169-172: the next id of the thread's bucket -/
def Alloc.take (s : Alloc) (th : Nat) : Nat × Alloc :=
  let c := (s.tnext.getD th none).getD 0
  ((s.get c).off + (s.get c).count, { s with bs := s.bs.set c { s.get c with count := (s.get c).count + 1 } })

/-- models include/PetriEngine/Structures/linked_bucket.h:140-173 (`next`) -/
def Alloc.next (C : Nat) (s : Alloc) (th : Nat) : Nat × Alloc := (if s.full C th then s.grow C th else s).take th

/-- models include/PetriEngine/Structures/linked_bucket.h:175-179 (`pop_back`, which nothing uses); no result: the assertion fails -/
def Alloc.pop (s : Alloc) (th : Nat) : Option Alloc :=
  match s.tnext.getD th none with
  | none => none
  | some c => if (s.get c).count = 0 then none else some { s with bs := s.bs.set c { s.get c with count := (s.get c).count - 1 } }

/-- a sequence of calls of `next` by the threads `ths`: the ids -/
def calls (C : Nat) : Alloc → List Nat → List Nat × Alloc
  | s, [] => ([], s)
  | s, th :: ths => ((s.next C th).1 :: (calls C (s.next C th).2 ths).1, (calls C (s.next C th).2 ths).2)

end Buckets
end Verif
