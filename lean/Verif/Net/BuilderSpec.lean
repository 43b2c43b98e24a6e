import Verif.Net.Builder

/-!
# Histories of builder calls and their meaning

`Op` lists the calls of the interface used by the parsers; `Op.run` replays them on the model;
`specPre`, `specInh`, `specPost`, `specInit` say, independently of the builder, which net the
history describes.
-/

namespace Verif
namespace Builder

/-- A call to the builder's interface. -/
inductive Op
  | place (name : String) (tokens : Nat)
  | trans (name : String) (player : Int)
  | input (place trans : String) (inhibitor : Bool) (weight : Nat)
  | output (trans place : String) (weight : Nat)
deriving Repr, DecidableEq

def apply (B : Builder) : Op → Option Builder
  | .place n k => some (B.addPlace n k)
  | .trans n pl => some (B.addTransition n pl)
  | .input p t i k => B.addInputArc p t i k
  | .output t p k => B.addOutputArc t p k

/-- Run a history of calls from the empty builder; `none` if some call threw. -/
def run (ops : List Op) : Option Builder :=
  ops.foldl (fun acc op => acc.bind (·.apply op)) (some {})

/-! ### Meaning of a history (specification) -/

/-- Total weight of the input arcs `p → t`. -/
def specPre (ops : List Op) (t p : String) : Nat :=
  (ops.map fun o => match o with
    | .input p' t' false k => if p' = p ∧ t' = t then k else 0
    | _ => 0).sum

/-- Total weight of the output arcs `t → p`. -/
def specPost (ops : List Op) (t p : String) : Nat :=
  (ops.map fun o => match o with
    | .output t' p' k => if p' = p ∧ t' = t then k else 0
    | _ => 0).sum

/-- The strictest inhibitor arc between `p` and `t`. -/
def specInh (ops : List Op) (t p : String) : Option Nat :=
  ops.foldl (fun acc o => match o with
    | .input p' t' true k => if p' = p ∧ t' = t then
        (match acc with | some j => some (min j k) | none => some k) else acc
    | _ => acc) none

/-- The initial tokens: the last declaration of the place counts. -/
def specInit (ops : List Op) (p : String) : Nat :=
  ops.foldl (fun acc o => match o with
    | .place p' k => if p' = p then k else acc
    | _ => acc) 0

/-- All arc weights are positive (the parsers reject weight 0) and the accumulated weights fit in
32 bits. -/
def Sane (ops : List Op) : Prop :=
  (∀ p t i k, Op.input p t i k ∈ ops → 0 < k ∧ k < W32) ∧
  (∀ t p k, Op.output t p k ∈ ops → 0 < k ∧ k < W32) ∧
  (∀ t p, specPre ops t p < W32) ∧ (∀ t p, specPost ops t p < W32)

/-- The net described by the history, over the names. -/
def specNet (ops : List Op) : Net String String :=
  ⟨specPre ops, specInh ops, specPost ops⟩

/-- The place names mentioned in a history (arcs declare missing places). -/
def Op.placeName : Op → Option String
  | .place n _ => some n
  | .trans _ _ => none
  | .input p _ _ _ => some p
  | .output _ p _ => some p

/-- The transition names declared in a history. -/
def Op.transName : Op → Option String
  | .trans n _ => some n
  | _ => none

end Builder
end Verif
