import Mathlib.Algebra.BigOperators.Group.List.Basic
import Mathlib.Algebra.Order.BigOperators.Group.List

/-!
# Colour offsets and packed tuples of the coloured engines

Models `include/utils/MathExt.h` (`signedWrap`, `addColorOffset`),
`src/PetriEngine/Colored/Colors.cpp:74-88` (`operator++`, `operator--`) and
`include/PetriEngine/ExplicitColored/SuccessorGenerator/IntegerPackCodec.h`.
-/

namespace Verif
namespace Colored

/-- models include/utils/MathExt.h:6-14 (`signedWrap`; `%` of C++ is `Int.tmod`; colours and offsets
have at most 33 bits, so the additions in `int64_t` do not overflow). -/
def signedWrap (value max : Int) : Int := ((value.tmod max) + max).tmod max

/-- models include/utils/MathExt.h:16-24 (`addColorOffset`). -/
def addColorOffset (base offset max : Int) : Int := signedWrap (base + offset) max

/-- models src/PetriEngine/Colored/Colors.cpp:74-80 (`operator++` on the id of a colour in a type with
`n` colours). -/
def succColor (n id : Nat) : Nat := if id ≥ n - 1 then 0 else id + 1

/-- models src/PetriEngine/Colored/Colors.cpp:82-88 (`operator--`). -/
def predColor (n id : Nat) : Nat := if id = 0 then n - 1 else id - 1

/-- Width of `size_t` and `uint64_t`. -/
def W64 : Nat := 2 ^ 64

/-- models IntegerPackCodec.h: `_decodeValues`, `_valueSizes`, `_totalValues`. -/
structure Codec where
  decodeValues : List Nat
  valueSizes : List Nat
  totalValues : Nat

/-- models IntegerPackCodec.h:17-21: the values pushed after the first.  `none`: division by zero. -/
def codecIntervals : Nat → List Nat → Option (List Nat)
  | _, [] => some []
  | interval, s :: ss =>
    if s = 0 then none
    else match codecIntervals (interval / s) ss with
      | none => none
      | some l => some (interval / s :: l)

/-- models IntegerPackCodec.h:10-22 (constructor; products wrap at 64 bits). -/
def Codec.new (sizes : List Nat) : Option Codec :=
  let total := sizes.foldl (fun t s => t * s % W64) 1
  match codecIntervals total sizes with
  | none => none
  | some l => some ⟨total :: l, sizes, total⟩

/-- models IntegerPackCodec.h:28-30 (`decode`).  `none`: index out of range or division by zero. -/
def Codec.decode (c : Codec) (e i : Nat) : Option Nat :=
  match c.decodeValues[i + 1]?, c.valueSizes[i]? with
  | some d, some s => if d = 0 ∨ s = 0 then none else some (e / d % s)
  | _, _ => none

/-- models IntegerPackCodec.h:32-34 (`addToValue`). -/
def Codec.addToValue (c : Codec) (cur i v : Nat) : Option Nat :=
  match c.decodeValues[i]?, c.valueSizes[i]? with
  | some d, some s => if s = 0 then none else some ((cur + d / s * v) % W64)
  | _, _ => none

/-- Packing with `addToValue` for each component, starting from 0 (`addToValue` has no caller in the
repository, see `seqEncode` for the packing used). -/
def Codec.encodeFrom (c : Codec) : Nat → Nat → List Nat → Option Nat
  | _, cur, [] => some cur
  | i, cur, v :: vs =>
    match c.addToValue cur i v with
    | none => none
    | some cur => encodeFrom c (i + 1) cur vs

def Codec.encode (c : Codec) (vs : List Nat) : Option Nat := c.encodeFrom 0 0 vs

/-- Width of `uint32_t`. -/
def W32' : Nat := 2 ^ 32

/-- models include/PetriEngine/ExplicitColored/ColorSequence.h:20-33: the loop (`interval` and the products
have 32 bits, the sum 64).  `none`: division by zero, or more components than sizes. -/
def seqEncodeFrom : List Nat → Nat → Nat → List Nat → Option Nat
  | _, _, acc, [] => some acc
  | [], _, _, _ :: _ => none
  | s :: ss, interval, acc, v :: vs =>
    if s = 0 then none
    else seqEncodeFrom ss (interval / s) ((acc + interval / s * v % W32') % W64) vs

/-- models include/PetriEngine/ExplicitColored/ColorSequence.h:56-62 (`getTotalSize`). -/
def seqTotal (sizes : List Nat) : Nat := sizes.foldl (fun t s => t * s % W32') 1

/-- models include/PetriEngine/ExplicitColored/ColorSequence.h:20-37 (constructors). -/
def seqEncode (sizes vs : List Nat) : Option Nat := seqEncodeFrom sizes (seqTotal sizes) 0 vs

/-- models include/PetriEngine/ExplicitColored/ColorSequence.h:64-74 (`decode`); also the loop of
src/PetriEngine/ExplicitColored/SuccessorGenerator/ColoredSuccessorGenerator.cpp:28-32 (`getBinding`). -/
def seqDecode (e : Nat) : Nat → List Nat → Option (List Nat)
  | _, [] => some []
  | interval, s :: ss =>
    if s = 0 ∨ interval / s = 0 then none
    else match seqDecode e (interval / s) ss with
      | none => none
      | some l => some (e / (interval / s) % s :: l)

end Colored
end Verif
