import Verif.TAR.Solver

/-!
# Model: the search of the trace-abstraction-refinement engine

Models `src/PetriEngine/TAR/TARReachability.cpp`, `include/PetriEngine/TAR/AntiChain.h` and `state_t` of
`include/PetriEngine/TAR/TARAutomata.h`.  `std::rand()` is an arbitrary sequence of numbers.  Upper-bound queries, the
printing of the trace and the statistics are not modelled.
-/

namespace Verif
namespace TAR
open PQL

/-- models include/PetriEngine/TAR/TARAutomata.h:246-254 (`state_t`). -/
structure SState where
  offset : Nat
  edgecnt : Nat := 0
  inter : List Nat
deriving DecidableEq, Repr

/-- models include/PetriEngine/TAR/TARAutomata.h:284-290 (`get_edge_cnt`), `size` being the number of transitions. -/
def SState.edge (T : Nat) (s : SState) : Nat :=
  if s.edgecnt = 0 then 0 else 1 + (s.edgecnt - 1 + s.offset) % T

/-- models include/PetriEngine/TAR/TARAutomata.h:298-302 (`next_edge`). -/
def SState.next (s : SState) : SState := { s with edgecnt := s.edgecnt + 1 }

/-- models include/PetriEngine/TAR/AntiChain.h:45-63 (`subsumed`). -/
def subsumed (checked : List (List Nat)) (s : List Nat) : Bool := checked.any fun c => c.all fun i => s.contains i

/-- models include/PetriEngine/TAR/AntiChain.h:65-94 (`insert`). -/
def chainInsert (checked : List (List Nat)) (s : List Nat) : List (List Nat) :=
  if subsumed checked s then checked
  else (checked.filter fun c => !(s.all fun i => c.contains i)) ++ [s]

/-- models src/PetriEngine/TAR/TARReachability.cpp:393-412 (`addNonChanging`): the places changed, sorted. -/
def changes (N : FlatNet) (t : Nat) : List Nat :=
  ((N.preset t).map (·.place) ++ (N.postset t).map (·.place)).mergeSort (fun a b => decide (a ≤ b))

/-- models src/PetriEngine/TAR/TARReachability.cpp:317-349 (`doStep`): `none` when the automaton accepts. -/
def doStep (N : FlatNet) (ts : TraceSet) (inter : List Nat) (sym : Nat) : Option (List Nat) :=
  match ts.follow sym inter [] with
  | none => none
  | some next =>
    if sym = 0 then some next
    else some (ts.maximize (ts.copyNonChanged inter (changes N (sym - 1)) next))

/-- How `runTAR` ends when it does not run out of steps: everything is covered, or a trace has to be checked. -/
inductive RunRes
  | covered
  | trace (tr : List Nat)
deriving DecidableEq, Repr

/-- models src/PetriEngine/TAR/TARReachability.cpp:105-202 (`runTAR`) and 68-103: the loop.  The stack has the back
of `waiting` first.  One turn pops one state: the code pops all the finished ones in an inner loop. -/
def runTAR (N : FlatNet) (ts : TraceSet) (use : Nat → Bool) (rand : Nat → Nat) :
    Nat → Nat → List (List Nat) → List SState → Except Err RunRes
  | 0, _, _, _ => .error .timeout
  | _ + 1, _, _, [] => .ok .covered
  | fuel + 1, k, checked, s :: rest =>
    if s.edgecnt > N.ntransitions then
      match rest with
      | [] => runTAR N ts use rand fuel k checked []
      | r :: rs => runTAR N ts use rand fuel k checked (r.next :: rs)
    else if !use (s.edge N.ntransitions) then runTAR N ts use rand fuel k checked (s.next :: rest)
    else match doStep N ts s.inter (s.edge N.ntransitions) with
      | none => runTAR N ts use rand fuel k checked (s.next :: rest)
      | some next =>
        if s.edge N.ntransitions = 0 then .ok (.trace ((s :: rest).reverse.map (SState.edge N.ntransitions)))
        else if subsumed checked next then runTAR N ts use rand fuel k checked (s.next :: rest)
        else runTAR N ts use rand fuel (k + 1) (chainInsert checked (ts.minimize next))
          (⟨rand k, 0, next⟩ :: s :: rest)

/-- The transitions and places in use. -/
structure Uses where
  trans : Nat → Bool
  place : Nat → Bool

/-- models src/PetriEngine/TAR/TARReachability.cpp:218-227: a transition not yet used that touches a used place. -/
def Uses.fresh (N : FlatNet) (u : Uses) (t : Nat) : Bool :=
  !u.trans (t + 1) && ((N.preset t).any (fun a => u.place a.place) || (N.postset t).any (fun a => u.place a.place))

/-- models src/PetriEngine/TAR/TARReachability.cpp:210-242 (`update_use(false)`): the places are those before the
call until the end of the loop. -/
def Uses.update (N : FlatNet) (u : Uses) : Uses × Bool :=
  let new := (List.range N.ntransitions).filter (u.fresh N)
  (⟨fun s => u.trans s || new.any fun t => t + 1 == s,
    fun p => u.place p || new.any fun t => (N.preset t).any fun a => a.place == p⟩, !new.isEmpty)

/-- models src/PetriEngine/TAR/TARReachability.cpp:249-303: the loop of `tryReach`.  The trace found when the goal
is reachable. -/
def tryLoop (S : Solver) (rand : Nat → Nat → Nat) (junk : Nat → Nat → Bool × Int) :
    Nat → Nat → Uses → TraceSet → Except Err (Option (List Nat))
  | 0, _, _, _ => .error .timeout
  | fuel + 1, k, u, ts => do
    match ← runTAR S.net ts u.trans (fun i => rand k (i + 1)) fuel 0 [] [⟨rand k 0, 0, ts.maximize ts.initial⟩] with
    | .covered =>
      if (u.update S.net).2 then tryLoop S rand junk fuel (k + 1) (u.update S.net).1 ts
      else pure none
    | .trace tr =>
      let (ts, sat) ← S.check (junk k) fuel ts tr
      if sat then pure (some tr) else tryLoop S rand junk fuel (k + 1) u ts

/-- models src/PetriEngine/TAR/TARReachability.cpp:204-244 (`tryReach`). -/
def tryReach (S : Solver) (rand : Nat → Nat → Nat) (junk : Nat → Nat → Bool × Int) (fuel : Nat) :
    Except Err (Option (List Nat)) :=
  tryLoop S rand junk fuel 0 (Uses.update S.net ⟨fun s => s == 0, S.inq⟩).1 (TraceSet.init S.net.nplaces)

mutual
/-- models src/PetriEngine/PQL/PlaceUseVisitor.cpp:66-103: the places of an expression. -/
def exprUse (p : Nat) : Expr → Bool
  | .lit _ => false
  | .id q => p == q
  | .plus _ is es => is.contains p || exprsUse p es
  | .mul _ is es => is.contains p || exprsUse p es
  | .sub e es => exprUse p e || exprsUse p es
  | .minus e => exprUse p e
def exprsUse (p : Nat) : List Expr → Bool
  | [] => false
  | e :: es => exprUse p e || exprsUse p es
end

mutual
/-- models src/PetriEngine/PQL/PlaceUseVisitor.cpp:22-64 and src/PetriEngine/TAR/TARReachability.cpp:474-483: the
places of a condition, all of them below a deadlock condition.  Conditions the engine rejects are left out. -/
def condUse (p : Nat) : Cond → Bool
  | .dead => true
  | .cmp _ a b => exprUse p a || exprUse p b
  | .cc l _ => l.any fun c => c.place == p
  | .not c => condUse p c
  | .and cs => condsUse p cs
  | .or cs => condsUse p cs
  | _ => false
def condsUse (p : Nat) : List Cond → Bool
  | [] => false
  | c :: cs => condUse p c || condsUse p cs
end

/-- What the engine answers for one query. -/
inductive Answer
  | satisfied (trace : List Nat)
  | notSatisfied
deriving DecidableEq, Repr

/-- models src/PetriEngine/TAR/TARReachability.cpp:439-499 and 502-526 (`reachable`, `checkQueries`) for one query;
the queries are handled one after the other, each with a cleared automaton. -/
def reachable (N : FlatNet) (m0 : Nat → Nat) (q : Cond) (rand : Nat → Nat → Nat) (junk : Nat → Nat → Bool × Int)
    (fuel : Nat) : Except Err Answer :=
  if (List.range N.ntransitions).any fun t => (N.preset t).any fun a => a.inhibitor then .error .unsupported
  else if evaluate (N.deadlocked m0) m0 q = .rTrue then .ok (.satisfied [0])
  else do
    match ← tryReach ⟨N, m0, q, fun p => condUse p q⟩ rand junk fuel with
    | some tr => pure (.satisfied tr)
    | none => pure .notSatisfied

end TAR
end Verif
