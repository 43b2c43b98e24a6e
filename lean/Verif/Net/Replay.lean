import Verif.Net.Flat

/-!
# Model: trace replay

Models `TraceReplay::_play_trace` (src/PetriEngine/TraceReplay.cpp:149-238).  Parsing the XML and
translating names to indices is outside the model; an unknown name throws before anything else happens.
-/

namespace Verif
namespace Replay

/-- models include/PetriEngine/TraceReplay.h:41-47 (`Transition`): `tid = none` is the entry `<deadlock/>`
(index -1), `tokens` the number of `<token>` children for each place. -/
structure Entry where
  tid : Option Nat
  tokens : List (Nat × Nat)
deriving DecidableEq, Repr

/-- What a replay does. -/
inductive Res
  | accepted | rejected
  /-- `producePostset` throws because of too many tokens. -/
  | tokenLimit
deriving DecidableEq, Repr

/-- `tokens.find(place)`. -/
def Entry.find (e : Entry) (p : Nat) : Option Nat := (e.tokens.find? fun x => x.1 == p).map (·.2)

/-- models src/PetriEngine/TraceReplay.cpp:196-217: the listed tokens are compared with the input arcs. -/
def checkTokens (e : Entry) : List Invariant → Bool
  | [] => true
  | inv :: rest =>
    if inv.inhibitor then checkTokens e rest
    else match e.find inv.place with
      | none => false
      | some k => if k ≠ inv.tokens then false else checkTokens e rest

/-- models src/PetriEngine/TraceReplay.cpp:220-235: comparison with the marking at the loop. -/
def checkLoop (N : FlatNet) (m : Nat → Nat) : Option (Nat → Nat) → Res
  | none => .accepted
  | some l => if (List.range N.nplaces).all fun p => m p == l p then .accepted else .rejected

/-- models src/PetriEngine/TraceReplay.cpp:156-218: the loop from entry `i` on; `loop` is the copy of the
marking (`looping` and `loopstate`). -/
def play (N : FlatNet) (loopIdx : Nat) : Nat → (Nat → Nat) → Option (Nat → Nat) → List Entry → Res
  | _, m, loop, [] => checkLoop N m loop
  | i, m, loop, e :: es =>
    let loop := if i = loopIdx then some m else loop
    match e.tid with
    | some t =>
      if !N.checkPreset m t then .rejected
      else match N.fire m t with
        | none => .tokenLimit
        | some m' =>
          if !e.tokens.isEmpty && !checkTokens e (N.preset t) then .rejected
          else play N loopIdx (i + 1) m' loop es
    | none => if !N.deadlocked m then .rejected else .accepted

/-- models src/PetriEngine/TraceReplay.cpp:135-147 (`replay`). -/
def replay (N : FlatNet) (m0 : Nat → Nat) (loopIdx : Nat) (trace : List Entry) : Res := play N loopIdx 0 m0 none trace

end Replay
end Verif
