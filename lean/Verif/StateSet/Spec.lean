import Verif.Net.Flat

/-!
# Specification: a numbered set of markings

Independent of the compression: the set is the list of distinct markings in order of insertion.
A marking of `n` places is the list of its `n` token counts.
-/

namespace Verif
namespace StateSetSpec

abbrev MSet := List (List Nat)

/-- Adding: over the bound → refused; known → its number; new → the next number. -/
def add (k : Nat) (M : MSet) (m : List Nat) : MSet × Bool × Option Nat :=
  if k ≠ 0 ∧ m.sum > k then (M, false, none)
  else match M.idxOf? m with
    | some i => (M, false, some i)
    | none => (M ++ [m], true, some M.length)

def lookup (M : MSet) (m : List Nat) : Bool × Option Nat :=
  match M.idxOf? m with
  | some i => (true, some i)
  | none => (false, none)

/-- The most tokens in place `p` over all stored markings. -/
def maxIn (M : MSet) (p : Nat) : Nat := (M.map (fun m => m.getD p 0)).foldl max 0

end StateSetSpec
end Verif
