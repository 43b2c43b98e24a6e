import Verif.Encoder.Model

/-!
# Model of the visited-state set

Models `include/PetriEngine/Structures/StateSet.h` (`EncodingStateSetInterface::_add`, `_lookup`,
`_decode`, and `StateSet`).  The prefix trie (`ptrie`, an external library that is not part of the
repository) is trusted to be a map from byte strings to consecutive identifiers: it is the list of
the byte strings inserted so far.
-/

namespace Verif
namespace StateSet
open Encoder

/-- models include/PetriEngine/Structures/StateSet.h:36-75, 303-346: the data members.  `pad` is the
memory of the encoder's scratch pad. -/
structure SSet where
  places : Nat
  kbound : Nat
  trie : List (List Nat) := []
  discovered : Nat := 0
  maxTokens : Nat := 0
  maxPlaceBound : Nat → Nat := fun _ => 0
  pad : Nat → Nat := fun _ => 0

/-- Outcome of `add`/`lookup`: undefined behaviour, a thrown error, or the pair returned
(`none` is `numeric_limits<size_t>::max()`). -/
inductive Res
  | ub
  | thrown
  | ok (flag : Bool) (id : Option Nat)
deriving DecidableEq, Repr

/-- models include/PetriEngine/Structures/StateSet.h:348-404 (`_add`). -/
def add (S : SSet) (m : Nat → Nat) : SSet × Res :=
  let st := markingStats S.places m
  let S := { S with discovered := S.discovered + 1, maxTokens := max S.maxTokens st.sum }
  if S.kbound ≠ 0 ∧ st.sum > S.kbound then (S, .ok false none)
  else
    match compress S.places m with
    | none => (S, .ub)
    | some (b, length) =>
      let S := { S with pad := b.raw }
      if length * 8 ≥ 65535 then (S, .thrown)
      else
        let w := prefixBytes b.raw length
        match S.trie.idxOf? w with
        | some i => (S, .ok false (some i))
        | none => ({ S with trie := S.trie ++ [w],
                            maxPlaceBound := fun p => if p < S.places then max (m p) (S.maxPlaceBound p)
                                                      else S.maxPlaceBound p },
                   .ok true (some S.trie.length))

/-- models include/PetriEngine/Structures/StateSet.h:406-425 (`_lookup`). -/
def lookup (S : SSet) (m : Nat → Nat) : SSet × Res :=
  match compress S.places m with
  | none => (S, .ub)
  | some (b, length) =>
    let S := { S with pad := b.raw }
    match S.trie.idxOf? (prefixBytes b.raw length) with
    | some i => (S, .ok true (some i))
    | none => (S, .ok false none)

/-- models include/PetriEngine/Structures/StateSet.h:337-346 (`_decode`): `unpack` copies the stored
bytes to the start of the scratch pad, the rest keeps its old contents.  `none`: invalid id. -/
def decodeId (S : SSet) (id : Nat) (dst : Nat → Nat) : SSet × Option (Nat → Nat) :=
  match S.trie[id]? with
  | none => (S, none)
  | some w =>
    let raw := fun j => if h : j < w.length then w[j] else S.pad j
    ({ S with pad := raw }, some (decode S.places dst raw))

end StateSet
end Verif
