/-!
# Model of `light_deque`

Models `include/utils/structures/light_deque.h`.  The block of memory is a function from positions to
cells; a cell holds a constructed element or nothing.  Accesses outside the block, reads or
destructions of cells that hold nothing are undefined behaviour (`none`).  Constructing over a
constructed element is not an error in C++; it would lose the element.  Moved-from elements that
`expand` leaves in the old block without destroying them are dropped here.
-/

namespace Verif
namespace Util

variable {T : Type}

/-- models light_deque.h:17-20: `_front`, `_back`, `_size`, `_data`. -/
structure LDeque (T : Type) where
  front : Nat
  back : Nat
  size : Nat
  mem : Nat → Option T

namespace LDeque

/-- models light_deque.h:22-27 (constructor). -/
def new (n : Nat) : LDeque T := ⟨0, 0, if n = 0 then 1 else n, fun _ => none⟩

/-- Reading `_data[i]`. -/
def read (d : LDeque T) (i : Nat) : Option T := if i < d.size then d.mem i else none

/-- `_data[i].~T()` -/
def destroy (d : LDeque T) (i : Nat) : Option (LDeque T) :=
  match d.read i with
  | none => none
  | some _ => some { d with mem := fun j => if j = i then none else d.mem j }

/-- `for (auto& e : *this)` from position `i` on, `n` elements: the elements read. -/
def readFrom (d : LDeque T) : Nat → Nat → Option (List T)
  | _, 0 => some []
  | i, n + 1 =>
    match d.read i with
    | none => none
    | some v => match readFrom d (i + 1) n with
      | none => none
      | some l => some (v :: l)

/-- `for (auto& e : *this) e.~T();` -/
def destroyFrom : LDeque T → Nat → Nat → Option (LDeque T)
  | d, _, 0 => some d
  | d, i, n + 1 =>
    match d.destroy i with
    | none => none
    | some d => destroyFrom d (i + 1) n

/-- models light_deque.h:147-161 (`expand`). -/
def expand (d : LDeque T) : Option (LDeque T) :=
  match d.readFrom d.front (d.back - d.front) with
  | none => none
  | some l => some ⟨0, d.back - d.front, d.size * 2, fun i => l[i]?⟩

/-- models light_deque.h:50-66 (`push_back`). -/
def pushBack (d : LDeque T) (v : T) : Option (LDeque T) :=
  if d.back < d.size then
    let d' := { d with mem := fun j => if j = d.back then some v else d.mem j, back := d.back + 1 }
    if d'.back = d'.size then expand d' else some d'
  else none

/-- models light_deque.h:68-76 (`empty`, `size`). -/
def isEmpty (d : LDeque T) : Bool := d.front == d.back
def len (d : LDeque T) : Nat := d.back - d.front

/-- models light_deque.h:78-94 (`front`, `back`). -/
def getFront (d : LDeque T) : Option T := d.read d.front
def getBack (d : LDeque T) : Option T := if d.back = 0 then none else d.read (d.back - 1)

/-- models light_deque.h:96-104 (`pop_front`). -/
def popFront (d : LDeque T) : Option (LDeque T) :=
  match d.destroy d.front with
  | none => none
  | some d => if d.front + 1 ≥ d.back then some { d with front := 0, back := 0 }
    else some { d with front := d.front + 1 }

/-- models light_deque.h:117-122 (`clear`). -/
def clear (d : LDeque T) : Option (LDeque T) :=
  match d.destroyFrom d.front (d.back - d.front) with
  | none => none
  | some d => some { d with front := 0, back := 0 }

/-- models light_deque.h:106-115 (`pop_back`). -/
def popBack (d : LDeque T) : Option (LDeque T) :=
  match (if d.back > d.front then { d with back := d.back - 1 }.destroy (d.back - 1) else some d) with
  | none => none
  | some d => if d.back = d.front then clear d else some d

/-- models light_deque.h:140-146 (`operator[]`). -/
def get (d : LDeque T) (i : Nat) : Option T := d.read (d.front + i)

/-- `push_back` of several elements. -/
def pushAll : LDeque T → List T → Option (LDeque T)
  | d, [] => some d
  | d, v :: l => match d.pushBack v with
    | none => none
    | some d => pushAll d l

/-- models light_deque.h:29-40 (`operator=`, for a different object). -/
def assign (d other : LDeque T) : Option (LDeque T) :=
  match d.destroyFrom d.front (d.back - d.front) with
  | none => none
  | some _ => match other.readFrom other.front (other.back - other.front) with
    | none => none
    | some l => pushAll ⟨0, 0, other.len, fun _ => none⟩ l

/-- models light_deque.h:42-48 (destructor): the block when it is freed. -/
def destruct (d : LDeque T) : Option (LDeque T) := d.destroyFrom d.front (d.back - d.front)

end LDeque
end Util
end Verif
