import Verif.TAR.Automata
import Verif.TAR.RangeCtx

/-!
# Model: the check of a trace and the interpolants computed for a spurious one

Models `src/PetriEngine/TAR/Solver.cpp`.  A trace is the list of its symbols: `t + 1` for the transition `t`, 0 for
the query at the end.  An interpolant is a list of predicates with the symbol following them.
-/

namespace Verif
namespace TAR
open PQL

/-- models include/PetriEngine/TAR/Solver.h:40-48: what does not change between two calls of `check`. -/
structure Solver where
  net : FlatNet
  m0 : Nat → Nat
  query : Cond
  inq : Nat → Bool

abbrev Inter := List (PRVec × Nat)

namespace Solver

/-- models src/PetriEngine/TAR/Solver.cpp:36-47 (`_use_count`). -/
def uses (S : Solver) (p : Nat) : Nat :=
  (if S.inq p then 1 else 0) +
    S.net.ntransitions * (((List.range S.net.ntransitions).flatMap S.net.preset).filter (·.place == p)).length

/-- `range -= tokens` for a range without upper bound below the tokens, and `range += tokens`: an error when a
bound does not fit. -/
def addRange (r : Range) (n : Nat) : Except Err Range :=
  if r.lower ≠ 0 ∧ r.lower + n ≥ rmax then .error .overflow
  else if r.upper ≠ rmax ∧ r.upper + n ≥ rmax then .error .overflow
  else .ok (r.add n)

/-- `find_or_add(p) += n`. -/
def addAt (v : PRVec) (p n : Nat) : Except Err PRVec :=
  match addRange ((v.find? p).getD {}) n with
  | .error e => .error e
  | .ok r => .ok (v.update p fun _ => r)

/-! ## `findFree` -/

/-- models src/PetriEngine/TAR/Solver.cpp:94-103: what the first transition of the suffix produces. -/
def freeFirst (S : Solver) : List Invariant → PRVec → PRVec
  | [], v => v
  | i :: is, v =>
    freeFirst S is (if S.inq i.place then v.update i.place fun r => { r with lower := i.tokens } else v)

/-- models src/PetriEngine/TAR/Solver.cpp:225-233: drop the lower bound of a place in one predicate. -/
def freeAt (p : Nat) (v : PRVec) : PRVec :=
  if (v.find? p).isSome then (v.update p fun r => { r with lower := 0 }).compact else v

/-- models src/PetriEngine/TAR/Solver.cpp:215-240: the loop over the preset.  `prev` are the predicates before
the current one, the last first. -/
def freePre (S : Solver) : List Invariant → PRVec → Inter → PRVec × Inter
  | [], v, prev => (v, prev)
  | i :: is, v, prev =>
    if S.inq i.place then
      match v.find? i.place with
      | none => freePre S is v prev
      | some r =>
        if r.lower ≤ i.tokens then
          freePre S is (freeAt i.place v) (prev.map fun x => (freeAt i.place x.1, x.2))
        else freePre S is (v.update i.place fun r => { r with lower := r.lower - i.tokens }) prev
    else freePre S is v prev

/-- models src/PetriEngine/TAR/Solver.cpp:242-253: the loop over the postset. -/
def freePost (S : Solver) : List Invariant → PRVec → Except Err PRVec
  | [], v => .ok v
  | i :: is, v =>
    if S.inq i.place then
      if v.lower i.place + i.tokens ≥ rmax then .error .overflow
      else freePost S is (v.update i.place fun r => { r with lower := r.lower + i.tokens })
    else freePost S is v

/-- models src/PetriEngine/TAR/Solver.cpp:162-171: the loop over the postset; it stops at a place whose upper
bound is below the tokens produced. -/
def flushPost : List Invariant → PRVec → PRVec
  | [], v => v
  | i :: is, v =>
    match v.find? i.place with
    | none => flushPost is v
    | some r => if r.upper < i.tokens then v else flushPost is (v.update i.place fun r => r.sub i.tokens)

/-- models src/PetriEngine/TAR/Solver.cpp:182-188: the loop over the preset. -/
def flushPre : List Invariant → PRVec → Except Err PRVec
  | [], v => .ok v
  | i :: is, v =>
    match v.find? i.place with
    | none => flushPre is v
    | some _ => do flushPre is (← addAt v i.place i.tokens)

/-- models src/PetriEngine/TAR/Solver.cpp:152-190: the predicates before `next` replaced by weakest
preconditions, until one is true (`inter.erase(inter.begin(), inter.begin())` erases nothing). -/
def flush (S : Solver) : Inter → PRVec → Inter → Except Err Inter
  | [], _, acc => .ok acc
  | (_, sym) :: rest, next, acc =>
    let v := (flushPost (S.net.postset (sym - 1)) next).compact
    if v.isTrue then .ok (rest.reverse ++ ([], sym) :: acc)
    else do
      let v ← flushPre (S.net.preset (sym - 1)) v
      flush S rest v ((v, sym) :: acc)

/-- models src/PetriEngine/TAR/Solver.cpp:108-256: forward from the predicate `v`; `none` when this start gives
nothing. -/
def freeForward (S : Solver) (junk : Bool × Int) : List Nat → PRVec → Inter → Except Err (Option Inter)
  | [], _, _ => .ok none
  | 0 :: _, v, prev => do
    let r ← ECtx.cond ⟨v, S.uses⟩ S.query ⟨[], junk.1, junk.2, []⟩
    if !r.res && !r.suff.isFalse S.net.nplaces then
      let last := r.suff.compact
      let inter ← flush S prev last [(last, 0)]
      pure (if (inter.headD ([], 0)).1.isTrue then some inter else none)
    else pure none
  | (t + 1) :: tr, v, prev => do
    let r := freePre S (S.net.preset t) v ((v, t + 1) :: prev)
    let w ← freePost S (S.net.postset t) r.1
    freeForward S junk tr w.compact r.2

/-- models src/PetriEngine/TAR/Solver.cpp:84-260 (`findFree`): the start of the suffix is moved from the end of the
trace to the second symbol. -/
def findFree (S : Solver) (junk : Nat → Bool × Int) (tr : List Nat) : Nat → Except Err Inter
  | 0 => .ok []
  | step + 1 =>
    let sym := tr.getD (step + 1) 0
    let v := (freeFirst S (S.net.postset (sym - 1)) []).compact
    if v.isTrue then findFree S junk tr step
    else do
      match ← freeForward S (junk step) (tr.drop (step + 2)) v [([], sym)] with
      | some inter => pure inter
      | none => findFree S junk tr step

/-! ## `findFailure` -/

/-- The tokens moved by the arcs of a list at a place: the effect of the loops over it. -/
def arcSum (l : List Invariant) (p : Nat) : Nat := ((l.filter (·.place == p)).map (·.tokens)).sum

/-- models src/PetriEngine/TAR/Solver.cpp:390-399: the effect of a transition, whether it is enabled or not. -/
def effect (N : FlatNet) (m : Nat → Int) (t : Nat) : Nat → Int :=
  fun p => m p - arcSum (N.preset t) p + arcSum (N.postset t) p

/-- What `findFailure` returns (`none` for the largest integer) and leaves behind: `_failm`, `_mark`, `_dirty`. -/
structure Failure where
  at? : Option Nat
  failm : Nat → Int
  mark : Nat → Nat
  dirty : Nat → Bool

/-- models src/PetriEngine/TAR/Solver.cpp:262-404 (`findFailure`): the loop, from position `i`, with the first
failure found so far. -/
def ffLoop (S : Solver) (toEnd : Bool) (dirty : Nat → Bool) :
    List Nat → Nat → (Nat → Int) → Option (Nat × (Nat → Int)) → Except Err Failure
  | [], _, _, _ => .error .unsupported
  | 0 :: _, i, m, first =>
    if (List.range S.net.nplaces).any fun p => decide (m p ≥ rmax) then .error .overflow
    else
      let mark : Nat → Nat := fun p => (m p).toNat
      let dirty : Nat → Bool := fun p => dirty p || (decide (p < S.net.nplaces) && decide (m p < 0))
      let failm := match first with | some f => f.2 | none => m
      if evaluateSet (S.net.deadlocked mark) mark S.query = .rTrue then .ok ⟨first.map (·.1), failm, mark, dirty⟩
      else .ok ⟨some i, failm, mark, dirty⟩
  | (t + 1) :: tr, i, m, first =>
    let short : Invariant → Bool := fun a => decide (m a.place < a.tokens)
    let first := if (S.net.preset t).any short then some (first.getD (i, m)) else first
    if !toEnd && (S.net.preset t).any fun a => short a && S.inq a.place then
      .ok ⟨first.map (·.1), (first.getD (i, m)).2, S.m0, dirty⟩
    else ffLoop S toEnd dirty tr (i + 1) (effect S.net m t) first

def findFailure (S : Solver) (toEnd : Bool) (dirty : Nat → Bool) (tr : List Nat) : Except Err Failure :=
  ffLoop S toEnd dirty tr 0 (fun p => S.m0 p) none

/-! ## Terminal predicate and weakest preconditions -/

/-- models src/PetriEngine/TAR/Solver.cpp:431-446: the last arc that is not satisfied (`mx` stays 0). -/
def lastShort (S : Solver) (failm : Nat → Int) : List Invariant → PRange → PRange
  | [], pr => pr
  | a :: as, pr =>
    lastShort S failm as
      (if decide (failm a.place < a.tokens) && decide (0 < S.uses a.place) then ⟨a.place, ⟨0, a.tokens - 1⟩⟩ else pr)

/-- models src/PetriEngine/TAR/Solver.cpp:406-455 (`computeTerminal`): whether it succeeds and the predicate. -/
def computeTerminal (S : Solver) (f : Failure) (sym : Nat) : Except Err (Bool × PRVec) :=
  match sym with
  | 0 => do
    let r ← RCtx.cond ⟨S.net, S.uses, f.mark, f.dirty⟩ S.query ([], false)
    pure (if r.2 then (false, r.1) else (true, r.1.compact))
  | t + 1 => .ok (true, [lastShort S f.failm (S.net.preset t) ⟨rmax, {}⟩])

/-- models src/PetriEngine/TAR/Solver.cpp:473-484: the arcs of the preset before place `p`.  `v` is the predicate
after the transition, `w` the one being computed. -/
def hoarePre (v : PRVec) (p : Nat) : List Invariant → PRVec → Except Err (List Invariant × PRVec)
  | [], w => .ok ([], w)
  | a :: as, w =>
    if a.place < p then
      if v.unboundAt a.place then hoarePre v p as w
      else do hoarePre v p as (← addAt w a.place a.tokens)
    else .ok (a :: as, w)

/-- The outcome of one step: the predicate, or the place whose upper bound cannot be met (with what was
computed). -/
inductive HStep
  | done (v : PRVec)
  | stuck (v : PRVec) (place : Nat)
deriving DecidableEq, Repr

/-- models src/PetriEngine/TAR/Solver.cpp:519-531: the rest of the preset. -/
def hoareRest (v : PRVec) : List Invariant → PRVec → Except Err HStep
  | [], w => .ok (.done w)
  | a :: pre, w =>
    if v.unboundAt a.place then hoareRest v pre w
    else do hoareRest v pre (← addAt w a.place a.tokens)

/-- models src/PetriEngine/TAR/Solver.cpp:468-531: the loop over the postset, then the rest of the preset. -/
def hoarePost (v : PRVec) : List Invariant → List Invariant → PRVec → Except Err HStep
  | [], pre, w => hoareRest v pre w
  | b :: post, pre, w =>
    if v.unboundAt b.place then hoarePost v post pre w
    else do
      let r ← hoarePre v b.place pre w
      let u := ((r.2.find? b.place).getD {}).upper
      match r.1 with
      | a :: pre' =>
        if a.place ≠ b.place then
          if u < b.tokens then pure (.stuck (r.2.update b.place id) b.place)
          else hoarePost v post (a :: pre') (r.2.update b.place fun x => x.sub b.tokens)
        else if a.direction < 0 then do
          hoarePost v post pre' (← addAt r.2 b.place (a.tokens - b.tokens))
        else if u < b.tokens - a.tokens then pure (.stuck (r.2.update b.place id) b.place)
        else hoarePost v post pre' (r.2.update b.place fun x => x.sub (b.tokens - a.tokens))
      | [] =>
        if u < b.tokens then pure (.stuck (r.2.update b.place id) b.place)
        else hoarePost v post [] (r.2.update b.place fun x => x.sub b.tokens)

/-- models src/PetriEngine/TAR/Solver.cpp:459-547 (`computeHoare`): the symbols before the failure, the last
first; `acc` are the predicates computed.  On failure the predicates not yet computed are those of
`ranges.resize`, and the place is marked dirty. -/
def hoare (N : FlatNet) : List Nat → Inter → Except Err (Inter × Option Nat)
  | [], acc => .ok (acc, none)
  | sym :: syms, acc => do
    let v := (acc.headD ([], 0)).1
    match ← hoarePost v (N.postset (sym - 1)) (N.preset (sym - 1)) v.compact with
    | .done w => hoare N syms ((w, sym) :: acc)
    | .stuck w p => pure (syms.map (fun _ => ([], 0)) ++ (w, 0) :: acc, some p)

/-- The interpolant of a trace that fails at position `i`, with the terminal predicate `v`. -/
def computeHoare (S : Solver) (tr : List Nat) (i : Nat) (v : PRVec) : Except Err (Inter × Option Nat) :=
  hoare S.net (tr.take i).reverse [(v, tr.getD i 0)]

/-! ## `check` -/

/-- `_dirty[p] = true`. -/
def setDirty (d : Nat → Bool) (p : Option Nat) : Nat → Bool := fun q => d q || p == some q

/-- models src/PetriEngine/TAR/Solver.cpp:598-606 (`NXT`): both results are ignored. -/
def nxt (S : Solver) (tr : List Nat) (dirty : Nat → Bool) (ts : TraceSet) : Except Err TraceSet := do
  let f ← findFailure S false dirty tr
  match f.at? with
  | none => throw .unsupported
  | some i =>
    let (_, v) ← computeTerminal S { f with dirty := fun _ => false } (tr.getD i 0)
    let (inter, _) ← computeHoare S tr i v
    pure (ts.addTrace S.net S.m0 inter)

/-- models src/PetriEngine/TAR/Solver.cpp:571-608: the loop of `check`. -/
def refine (S : Solver) (tr : List Nat) : Nat → Bool → (Nat → Bool) → TraceSet → Except Err TraceSet
  | 0, _, _, _ => .error .timeout
  | fuel + 1, ok, dirty, ts => do
    let f ← findFailure S true dirty tr
    if !ok then pure ts
    else match f.at? with
      | none => throw .unsupported
      | some i =>
        let (ok, v) ← computeTerminal S f (tr.getD i 0)
        if ok then
          let (inter, stuck) ← computeHoare S tr i v
          let ts := if stuck.isNone then ts.addTrace S.net S.m0 inter else ts
          if stuck.isNone && i ≠ tr.length - 1 then pure ts
          else
            let dirty := setDirty f.dirty stuck
            let some' := v.any fun r => !dirty r.place
            let dirty := fun p => dirty p || v.any fun r => r.place == p
            if some' then refine S tr fuel true dirty ts else nxt S tr dirty ts
        else nxt S tr f.dirty ts

/-- models src/PetriEngine/TAR/Solver.cpp:549-615 (`check`): `true` when the trace reaches the goal. -/
def check (S : Solver) (junk : Nat → Bool × Int) (fuel : Nat) (ts : TraceSet) (tr : List Nat) :
    Except Err (TraceSet × Bool) := do
  let back ← findFree S junk tr (tr.length - 2)
  let ts := if back.isEmpty then ts else ts.addTrace S.net S.m0 back
  let f ← findFailure S true (fun _ => false) tr
  match f.at? with
  | none => pure (ts, true)
  | some i =>
    let (ok, v) ← computeTerminal S f (tr.getD i 0)
    if ok then
      let (inter, stuck) ← computeHoare S tr i v
      let ts := if stuck.isNone then ts.addTrace S.net S.m0 inter else ts
      let ts ← refine S tr fuel true (setDirty f.dirty stuck) ts
      pure (ts, false)
    else
      let ts ← refine S tr fuel false f.dirty ts
      pure (ts, false)

end Solver
end TAR
end Verif
