import Verif.XCol.MultiSet

/-!
# The encoding of markings of the explicit coloured engine

Models include/PetriEngine/ExplicitColored/ColoredEncoder.h.  A byte is a number below 256; numbers of several bytes are written
with the least significant byte first (`dest16[0] = …`, ColoredEncoder.h:245-251, on a little-endian machine).  The scratchpad
(lines 223-238) grows as needed; it is the list of bytes written.
-/

namespace Verif
namespace XCol

/-- models ColoredEncoder.h:185-194 (`_convertToTypeSize`): the number of bytes for a number.  The logarithm is computed in
`double`; around the borders 2^8 and 2^16 it is exact. -/
def typeSize (n : Nat) : Nat :=
  let bits := if n = 0 then 1 else Nat.log2 n + 1
  if bits ≤ 8 then 1 else if bits ≤ 16 then 2 else 4

/-- the `w` low bytes of a number, least significant first -/
def bytes : Nat → Nat → List Nat
  | 0, _ => []
  | w + 1, n => n % 256 :: bytes w (n / 256)

/-- models ColoredEncoder.h:239-258: a signed number written with `w` bytes (two's complement) -/
def bytesI (w : Nat) (k : Int) : List Nat := bytes w (k % 2 ^ 32).toNat

/-- models ColoredEncoder.h:10-14 and 167-178 (`_getType`; 0 `TOKEN_COUNTS`, 1 `PLACE_TOKEN_COUNT`, 2 `EMPTY`). -/
def encType (m : MS) (size : Nat) : Nat :=
  if m.counts.length = 0 then 2 else if m.counts.length * 2 ≤ size then 1 else 0

/-- models ColoredEncoder.h:133-140: the loop of `_writeTokenCounts`; `n` colours are left, the next is `c`. -/
def tcLoop (w : Nat) : Nat → Nat → List (Nat × Int) → List Nat
  | 0, _, _ => []
  | n + 1, c, [] => bytesI w 0 ++ tcLoop w n (c + 1) []
  | n + 1, c, (d, k) :: es => if d = c then bytesI w k ++ tcLoop w n (c + 1) es else bytesI w 0 ++ tcLoop w n (c + 1) ((d, k) :: es)

/-- models ColoredEncoder.h:129-141 (`_writeTokenCounts`). -/
def writeTC (m : MS) (size : Nat) : List Nat :=
  let w := typeSize m.highest.toNat
  bytes 1 w ++ tcLoop w size 0 m.counts

/-- models ColoredEncoder.h:144-163 (`_writePlaceTokenCounts`): the number of pairs, the width of the counts, the pairs. -/
def writePTC (m : MS) (cw : Nat) : List Nat :=
  let w := typeSize m.highest.toNat
  let es := m.counts.filter fun e => decide (e.2 ≠ 0)
  bytes cw es.length ++ (bytes 1 w ++ es.flatMap fun e => bytes cw e.1 ++ bytesI w e.2)

/-- models ColoredEncoder.h:43-57: the bytes for one place; `size` is the number of colours of its type. -/
def placeBytes (size : Nat) (m : MS) : List Nat :=
  bytes 1 (encType m size) ++
    if encType m size = 0 then writeTC m size
    else if encType m size = 1 then writePTC m (typeSize size)
    else []

/-- models ColoredEncoder.h:40-57: all the bytes written for a marking. -/
def allBytes : List Nat → List MS → List Nat
  | size :: sizes, m :: ms => placeBytes size m ++ allBytes sizes ms
  | _, _ => []

def maxLen : Nat := 65535

/-- models ColoredEncoder.h:58-69: what the search stores for a marking (`data()` up to the returned size). -/
def key (sizes : List Nat) (ms : List MS) : List Nat := (allBytes sizes ms).take maxLen

/-- models ColoredEncoder.h:58-67: `_fullStatespace` stays true. -/
def complete (sizes : List Nat) (ms : List MS) : Bool := decide ((allBytes sizes ms).length ≤ maxLen)

/-! ## Decoding -/

/-- the number with the given bytes -/
def leNat : List Nat → Nat
  | [] => 0
  | b :: bs => b + 256 * leNat bs

/-- models ColoredEncoder.h:260-282 (`_readFromEncoding`): the number and the new offset; `none` for the exception
`UNKNOWN_ENCODING` or a read beyond the stored bytes. -/
def readN (enc : List Nat) (w off : Nat) : Option (Nat × Nat) :=
  if off + w > maxLen then some (0, off)
  else if w = 1 ∨ w = 2 ∨ w = 4 then
    if off + w ≤ enc.length then some (leNat ((enc.drop off).take w), off + w) else none
  else none

/-- models ColoredEncoder.h:199-204: the loop of `_decodeTokenCounts`. -/
def decTC (enc : List Nat) (w : Nat) : Nat → Nat → Nat → MS → Option (MS × Nat)
  | 0, _, off, m => some (m, off)
  | n + 1, c, off, m =>
    match readN enc w off with
    | none => none
    | some (k, off) => decTC enc w n (c + 1) off (if k > 0 then m.setCount c k else m)

/-- models ColoredEncoder.h:213-219: the loop of `_decodePlaceTokenCounts`. -/
def decPTC (enc : List Nat) (cw w : Nat) : Nat → Nat → MS → Option (MS × Nat)
  | 0, off, m => some (m, off)
  | n + 1, off, m =>
    match readN enc cw off with
    | none => none
    | some (c, off) =>
      match readN enc w off with
      | none => none
      | some (k, off) => decPTC enc cw w n off (if k ≠ 0 then m.setCount c k else m)

/-- models ColoredEncoder.h:77-91, 196-221: one place. -/
def decPlace (enc : List Nat) (size off : Nat) : Option (MS × Nat) :=
  match readN enc 1 off with
  | none => none
  | some (t, off) =>
    if t = 1 then
      match readN enc (typeSize size) off with
      | none => none
      | some (n, off) =>
        match readN enc 1 off with
        | none => none
        | some (w, off) => decPTC enc (typeSize size) w n off MS.empty
    else if t = 0 then
      match readN enc 1 off with
      | none => none
      | some (w, off) => decTC enc w size 0 off MS.empty
    else if t = 2 then some (MS.empty, off)
    else none

/-- models ColoredEncoder.h:72-94 (`decode`). -/
def decAll (enc : List Nat) : List Nat → Nat → Option (List MS)
  | [], _ => some []
  | size :: sizes, off =>
    match decPlace enc size off with
    | none => none
    | some (m, off) =>
      match decAll enc sizes off with
      | none => none
      | some ms => some (m :: ms)

def decode (sizes : List Nat) (enc : List Nat) : Option (List MS) := decAll enc sizes 0

end XCol
end Verif
