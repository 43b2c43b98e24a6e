import Verif.Net.Flat

/-!
# Model of the marking compression

Models `src/PetriEngine/Structures/AlignedEncoder.cpp`,
`src/PetriEngine/Structures/binarywrapper.cpp` / `include/utils/structures/binarywrapper.h` and the
use made of them in `include/PetriEngine/Structures/StateSet.h`.

A memory block is a function from byte offsets to bytes together with its allocated size; writing
outside of it is undefined behaviour in C++ and the outcome `none` here.  Markings are memory as
well (`Nat → Nat`, one `uint32_t` per place).

Simplification: offsets and lengths are natural numbers; the `uint32_t`/`uint` computations of the
C++ (`_places*2`, `bytes*8`, ...) do not wrap as long as there are fewer than `2^26` places.
-/

namespace Verif
namespace Encoder

/-- models include/utils/structures/binarywrapper.h:46-58, 395-399 (`binarywrapper_t`: `_blob`
and `_nbytes`). -/
structure Pad where
  size : Nat
  raw : Nat → Nat

namespace Pad

/-- A store of one byte through `raw()`. -/
def write (b : Pad) (i v : Nat) : Option Pad :=
  if i < b.size then some { b with raw := upd b.raw i (v % 256) } else none

/-- `_masks[i]` of src/PetriEngine/Structures/binarywrapper.cpp:29-38. -/
def mask (i : Nat) : Nat := [0x80, 0x40, 0x20, 0x10, 0x08, 0x04, 0x02, 0x01].getD i 0

/-- models include/utils/structures/binarywrapper.h:212-222 (`set`). -/
def set (b : Pad) (place : Nat) (value : Bool) : Option Pad :=
  let offset := place % 8
  let theplace := place / 8
  if value then b.write theplace (b.raw theplace ||| mask offset)
  else b.write theplace (b.raw theplace &&& (255 - mask offset))

/-- Store an unsigned integer of `s` bytes, little endian. -/
def writeLE (b : Pad) (off : Nat) : Nat → Nat → Option Pad
  | 0, _ => some b
  | s + 1, v => do
    let b ← b.write off (v % 256)
    writeLE b (off + 1) s (v / 256)

end Pad

/-- Load an unsigned integer of `s` bytes, little endian. -/
def readLE (raw : Nat → Nat) (off : Nat) : Nat → Nat
  | 0 => 0
  | s + 1 => raw off + 256 * readLE raw (off + 1) s

/-- models include/utils/structures/binarywrapper.h:144-154 (`at`) of a wrapper of `nbytes` bytes
placed at `raw + off`. -/
def at' (raw : Nat → Nat) (off nbytes place : Nat) : Bool :=
  if place / 8 < nbytes then (raw (off + place / 8) &&& Pad.mask (place % 8)) != 0 else false

/-- models src/PetriEngine/Structures/binarywrapper.cpp:40-47 (`overhead`). -/
def overhead (size : Nat) : Nat := if size % 8 = 0 then 0 else 8 - size % 8

/-- models src/PetriEngine/Structures/binarywrapper.cpp:50-53 (`bytes`). -/
def bytes (size : Nat) : Nat := (size + overhead size) / 8

/-- models src/PetriEngine/Structures/binarywrapper.cpp:115-117: bytes of a non-owning wrapper. -/
def wrapBytes (size : Nat) : Nat := size / 8 + (if size % 8 = 0 then 0 else 1)

def SAMEBOUND : Nat := 120
def DBOUND : Nat := 240

/-- models src/PetriEngine/Structures/AlignedEncoder.cpp:22-24 (`_psize`). -/
def psize (places : Nat) : Nat :=
  if places < 256 then 1 else if places < 65536 then 2 else 4

/-- models src/PetriEngine/Structures/AlignedEncoder.cpp:19-20: the zeroed scratch pad
(`_scratchpad.zero()` in 487 restores it before every encoding). -/
def freshPad (places : Nat) : Pad := ⟨2 * 4 + places * 4, fun _ => 0⟩

/-- models src/PetriEngine/Structures/AlignedEncoder.cpp:34-41 (`tokenBytes`). -/
def tokenBytes (ntokens : Nat) : Nat :=
  if ntokens < 256 then 1 else if ntokens < 65536 then 2 else 4

/-! ### Writers -/

/-- models src/PetriEngine/Structures/AlignedEncoder.cpp:43-50. -/
def writeBitVector (places : Nat) (b : Pad) (offset : Nat) (data : Nat → Nat) :
    Option (Pad × Nat) := do
  let b ← (List.range places).foldlM (fun b i => b.set (i + offset * 8) (decide (data i > 0))) b
  some (b, offset + bytes places)

/-- The body of the loop of `writeTwoBitVector` (lines 54-70, with the fall-through of `case 3`). -/
def twoBit (b : Pad) (offset : Nat) (data : Nat → Nat) (i : Nat) : Option Pad :=
  if data i = 1 then b.set (i * 2 + offset * 8) true
  else if data i = 3 then do
    let b ← b.set (i * 2 + offset * 8) true
    b.set (i * 2 + offset * 8 + 1) true
  else if data i = 2 then b.set (i * 2 + offset * 8 + 1) true
  else some b

/-- models src/PetriEngine/Structures/AlignedEncoder.cpp:52-73. -/
def writeTwoBitVector (places : Nat) (b : Pad) (offset : Nat) (data : Nat → Nat) :
    Option (Pad × Nat) := do
  let b ← (List.range places).foldlM (fun b i => twoBit b offset data i) b
  some (b, offset + bytes (places * 2))

/-- models src/PetriEngine/Structures/AlignedEncoder.cpp:94-110 (`writeTokens<T>`, `s = sizeof(T)`;
the `memcpy` branch for 32-bit values writes the same bytes). -/
def writeTokens (places : Nat) (s : Nat) (b : Pad) (offset : Nat) (data : Nat → Nat) :
    Option (Pad × Nat) := do
  let b ← (List.range places).foldlM (fun b i => b.writeLE (offset + i * s) s (data i)) b
  some (b, offset + places * s)

/-- models src/PetriEngine/Structures/AlignedEncoder.cpp:123-138 (`writeTokenCounts<T>`). -/
def writeTokenCounts (places : Nat) (s : Nat) (b : Pad) (offset : Nat) (data : Nat → Nat) :
    Option (Pad × Nat) := do
  let (b, cnt) ← (List.range places).foldlM (fun (x : Pad × Nat) i =>
    if data i > 0 then do
      let b ← x.1.writeLE (offset + x.2 * s) s (data i)
      some (b, x.2 + 1)
    else some x) (b, 0)
  some (b, offset + cnt * s)

/-- models src/PetriEngine/Structures/AlignedEncoder.cpp:243-286 (`writePlaces`). -/
def writePlaces (places : Nat) (b : Pad) (offset : Nat) (data : Nat → Nat) :
    Option (Pad × Nat) := do
  let ps := psize places
  let (b, cnt) ← (List.range places).foldlM (fun (x : Pad × Nat) i =>
    if data i > 0 then do
      let b ← x.1.writeLE (offset + (x.2 + 1) * ps) ps i
      some (b, x.2 + 1)
    else some x) (b, 0)
  let b ← b.writeLE offset ps cnt
  some (b, offset + ps + cnt * ps)

/-! ### Readers -/

/-- models src/PetriEngine/Structures/AlignedEncoder.cpp:331-346. -/
def readBitVector (places : Nat) (dst raw : Nat → Nat) (offset value : Nat) : Nat → Nat :=
  (List.range places).foldl (fun dst i =>
    if at' raw offset (wrapBytes places) i then upd dst i value else upd dst i 0) dst

/-- models src/PetriEngine/Structures/AlignedEncoder.cpp:75-92. -/
def readTwoBitVector (places : Nat) (dst raw : Nat → Nat) (offset : Nat) : Nat → Nat :=
  (List.range places).foldl (fun dst i =>
    let dst := upd dst i 0
    let dst := if at' raw offset (wrapBytes (places * 2)) (i * 2) then upd dst i 1 else dst
    if at' raw offset (wrapBytes (places * 2)) (i * 2 + 1) then upd dst i (dst i + 2) else dst) dst

/-- models src/PetriEngine/Structures/AlignedEncoder.cpp:112-121 (`readTokens<T>`). -/
def readTokens (places : Nat) (s : Nat) (dst raw : Nat → Nat) (offset : Nat) : Nat → Nat :=
  (List.range places).foldl (fun dst i => upd dst i (readLE raw (offset + i * s) s)) dst

/-- models src/PetriEngine/Structures/AlignedEncoder.cpp:156-172 (`readBitTokenCounts<T>`). -/
def readBitTokenCounts (places : Nat) (s : Nat) (dst raw : Nat → Nat) (offset : Nat) : Nat → Nat :=
  ((List.range places).foldl (fun (x : (Nat → Nat) × Nat) i =>
    if at' raw offset (wrapBytes places) i then
      (upd x.1 i (readLE raw (offset + bytes places + x.2) s), x.2 + s)
    else x) (dst, 0)).1

/-- models src/PetriEngine/Structures/AlignedEncoder.cpp:197-241 (`readPlaceTokenCounts<T>`). -/
def readPlaceTokenCounts (places : Nat) (s : Nat) (dst raw : Nat → Nat) (offset : Nat) :
    Nat → Nat :=
  let ps := psize places
  let size := readLE raw offset ps
  let offset := offset + ps
  (List.range size).foldl (fun dst i =>
    upd dst (readLE raw (offset + i * ps) ps) (readLE raw (offset + ps * size + i * s) s)) dst

/-- models src/PetriEngine/Structures/AlignedEncoder.cpp:288-329 (`readPlaces`). -/
def readPlaces (places : Nat) (dst raw : Nat → Nat) (offset value : Nat) : Nat → Nat :=
  let ps := psize places
  let size := readLE raw offset ps
  let offset := offset + ps
  (List.range size).foldl (fun dst i => upd dst (readLE raw (offset + i * ps) ps) value) dst

/-! ### Format selection -/

/-- `base`, `base+1` or `base+2` by token width (the inner `switch (tsize)` statements). -/
def byWidth (base tsize : Nat) : Nat :=
  if tsize = 1 then base else if tsize = 2 then base + 1 else base + 2

/-- models src/PetriEngine/Structures/AlignedEncoder.cpp:348-422 (`getType`; `sum` is unused). -/
def getType (places pwt : Nat) (same : Bool) (val : Nat) : Nat :=
  if pwt = 0 then 0
  else if same ∧ val ≤ SAMEBOUND then
    if bytes places ≤ psize places + pwt * psize places then val else SAMEBOUND + val
  else
    let tsize := tokenBytes val
    let bvsize := bytes (places * 2)
    let indirect := psize places + pwt * (psize places + tsize)
    let bvindirect := bytes places + pwt * tsize
    let direct := places * tsize
    if val < 4 ∧ bvsize ≤ indirect ∧ bvsize ≤ bvindirect then DBOUND + 1
    else if direct ≤ indirect ∧ direct ≤ bvindirect then byWidth (DBOUND + 2) tsize
    else if indirect ≤ bvindirect then byWidth (DBOUND + 5) tsize
    else byWidth (DBOUND + 8) tsize

/-! ### Encode, decode, size -/

/-- models src/PetriEngine/Structures/AlignedEncoder.cpp:485-543 (`encode`): the pad and the number
of bytes used.  An unknown type (assertion failure) is `none`. -/
def encode (places : Nat) (d : Nat → Nat) (type : Nat) : Option (Pad × Nat) := do
  let b ← (freshPad places).write 0 type
  if type ≤ SAMEBOUND then writeBitVector places b 1 d
  else if type ≤ DBOUND then writePlaces places b 1 d
  else if type = DBOUND + 1 then writeTwoBitVector places b 1 d
  else if type = DBOUND + 2 then writeTokens places 1 b 1 d
  else if type = DBOUND + 3 then writeTokens places 2 b 1 d
  else if type = DBOUND + 4 then writeTokens places 4 b 1 d
  else if type = DBOUND + 5 then do
    let (b, size) ← writePlaces places b 1 d
    writeTokenCounts places 1 b size d
  else if type = DBOUND + 6 then do
    let (b, size) ← writePlaces places b 1 d
    writeTokenCounts places 2 b size d
  else if type = DBOUND + 7 then do
    let (b, size) ← writePlaces places b 1 d
    writeTokenCounts places 4 b size d
  else if type = DBOUND + 8 then do
    let (b, size) ← writeBitVector places b 1 d
    writeTokenCounts places 1 b size d
  else if type = DBOUND + 9 then do
    let (b, size) ← writeBitVector places b 1 d
    writeTokenCounts places 2 b size d
  else if type = DBOUND + 10 then do
    let (b, size) ← writeBitVector places b 1 d
    writeTokenCounts places 4 b size d
  else none

/-- `memset(d, 0, sizeof(uint32_t)*_places)`. -/
def zeroed (places : Nat) (dst : Nat → Nat) : Nat → Nat := fun p => if p < places then 0 else dst p

/-- models src/PetriEngine/Structures/AlignedEncoder.cpp:545-595 (`decode`): the destination array
after the call, given the bytes `raw` and the old contents `dst`. -/
def decode (places : Nat) (dst raw : Nat → Nat) : Nat → Nat :=
  let d := zeroed places dst
  let type := raw 0
  if type ≤ SAMEBOUND then readBitVector places d raw 1 type
  else if type ≤ DBOUND then readPlaces places d raw 1 (type - SAMEBOUND)
  else if type = DBOUND + 1 then readTwoBitVector places d raw 1
  else if type = DBOUND + 2 then readTokens places 1 d raw 1
  else if type = DBOUND + 3 then readTokens places 2 d raw 1
  else if type = DBOUND + 4 then readTokens places 4 d raw 1
  else if type = DBOUND + 5 then readPlaceTokenCounts places 1 d raw 1
  else if type = DBOUND + 6 then readPlaceTokenCounts places 2 d raw 1
  else if type = DBOUND + 7 then readPlaceTokenCounts places 4 d raw 1
  else if type = DBOUND + 8 then readBitTokenCounts places 1 d raw 1
  else if type = DBOUND + 9 then readBitTokenCounts places 2 d raw 1
  else if type = DBOUND + 10 then readBitTokenCounts places 4 d raw 1
  else d

/-- models src/PetriEngine/Structures/AlignedEncoder.cpp:140-154 (`bitTokenCountsSize<T>`). -/
def bitTokenCountsSize (places s : Nat) (raw : Nat → Nat) (offset : Nat) : Nat :=
  offset + wrapBytes places +
    (List.range places).foldl (fun cnt i => if at' raw offset (wrapBytes places) i then cnt + s else cnt) 0

/-- models src/PetriEngine/Structures/AlignedEncoder.cpp:174-195 (`placeTokenCountsSize<T>`). -/
def placeTokenCountsSize (places s : Nat) (raw : Nat → Nat) (offset : Nat) : Nat :=
  let ps := psize places
  let size := readLE raw offset ps
  offset + ps + ps * size + size * s

/-- models src/PetriEngine/Structures/AlignedEncoder.cpp:424-483 (`size`): the length derivable
from the bytes; `none` is the failing assertion. -/
def sizeOf (places : Nat) (raw : Nat → Nat) : Option Nat :=
  let type := raw 0
  if type ≤ SAMEBOUND then
    if places % 8 = 0 then some (1 + places / 8) else some (2 + places / 8)
  else if type ≤ DBOUND then
    some ((1 + readLE raw 1 (psize places)) * psize places + 1)
  else if type = DBOUND + 1 then
    if places % 4 = 0 then some (1 + places / 4) else some (2 + places / 4)
  else if type = DBOUND + 2 then some (1 + 1 * places)
  else if type = DBOUND + 3 then some (1 + 2 * places)
  else if type = DBOUND + 4 then some (1 + 4 * places)
  else if type = DBOUND + 5 then some (placeTokenCountsSize places 1 raw 1)
  else if type = DBOUND + 6 then some (placeTokenCountsSize places 2 raw 1)
  else if type = DBOUND + 7 then some (placeTokenCountsSize places 4 raw 1)
  else if type = DBOUND + 8 then some (bitTokenCountsSize places 1 raw 1)
  else if type = DBOUND + 9 then some (bitTokenCountsSize places 2 raw 1)
  else if type = DBOUND + 10 then some (bitTokenCountsSize places 4 raw 1)
  else none

/-! ### Marking statistics and the compression used by the state set -/

/-- The reference parameters of `markingStats` (`cnt` and `last` are write-only). -/
structure Stats where
  sum : Nat := 0
  allsame : Bool := true
  val : Nat := 0
  active : Nat := 0
deriving Repr, DecidableEq

/-- models include/PetriEngine/Structures/StateSet.h:427-444 (`markingStats`); `sum` is a
`uint32_t`. -/
def markingStats (places : Nat) (m : Nat → Nat) : Stats :=
  (List.range places).foldl (fun st i =>
    if m i ≠ 0 then
      { sum := (st.sum + m i) % W32
        allsame := st.allsame && !(decide (st.val ≠ 0) && decide (m i ≠ st.val))
        val := max (m i) st.val
        active := st.active + 1 }
    else st) {}

/-- models include/PetriEngine/Structures/StateSet.h:357-376: the bytes handed to the trie. -/
def compress (places : Nat) (m : Nat → Nat) : Option (Pad × Nat) :=
  let st := markingStats places m
  encode places m (getType places st.active st.allsame st.val)

/-- The byte string of length `n` at the start of a memory block. -/
def prefixBytes (raw : Nat → Nat) (n : Nat) : List Nat := (List.range n).map raw

end Encoder
end Verif
