import Verif.PQL.Eval
import Verif.Net.Flat

/-!
# Model of the stubborn sets used for reachability

Models `include/PetriEngine/Stubborn/StubbornSet.h`, `src/PetriEngine/Stubborn/StubbornSet.cpp`,
`src/PetriEngine/Stubborn/ReachabilityStubbornSet.cpp`, `src/PetriEngine/Stubborn/InterestingTransitionVisitor.cpp`
and `src/PetriEngine/ReducingSuccessorGenerator.cpp`.

`evaluateAndSet` leaves its results in the condition objects and the visitor reads them there.  The model
has this memory (`Mem`): objects are addressed by their position in the query list, and what was in
memory before is arbitrary.
-/

namespace Verif
namespace Stubborn
open PQL

/-! ### Data computed once per net -/

/-- models src/PetriEngine/Stubborn/StubbornSet.cpp:114-131 (`constructPrePost`, the transitions in
`tmp_places[p].first`).  The flattening into `_places`/`_arcs` (:133-169) only stores these lists. -/
def preT (N : FlatNet) (p : Nat) : List Nat :=
  (List.range N.ntransitions).flatMap fun t =>
    ((N.postset t).filter fun i => i.place == p && decide (i.direction > 0)).map fun _ => t

/-- models src/PetriEngine/Stubborn/StubbornSet.cpp:118-127 (`tmp_places[p].second`): transition and
direction. -/
def postT (N : FlatNet) (p : Nat) : List (Nat × Int) :=
  (List.range N.ntransitions).flatMap fun t =>
    ((N.preset t).filter fun i => i.place == p && !i.inhibitor).map fun i => (t, i.direction)

/-- models src/PetriEngine/Stubborn/StubbornSet.cpp:121-124 (`_inhibpost[p]`). -/
def inhT (N : FlatNet) (p : Nat) : List Nat :=
  (List.range N.ntransitions).flatMap fun t =>
    ((N.preset t).filter fun i => i.place == p && i.inhibitor).map fun _ => t

/-- models src/PetriEngine/Stubborn/StubbornSet.cpp:98-112 (`checkForInhibitor`). -/
def hasInhibitor (N : FlatNet) : Bool :=
  (List.range N.ntransitions).any fun t => (N.preset t).any fun i => i.inhibitor

/-- models src/PetriEngine/Stubborn/StubbornSet.cpp:172-186 (`constructDependency`; 32-bit). -/
def dependencyT (N : FlatNet) (t : Nat) : Nat :=
  ((N.preset t).map fun i => (postT N i.place).length % W32).sum % W32

/-- models include/PetriEngine/Stubborn/StubbornSet.h:144-151 (`dependency`; 32-bit). -/
def dependency (N : FlatNet) (p : Nat) (inhibitor : Bool) : Nat :=
  if !inhibitor then (preT N p).length % W32 else (postT N p).length % W32

/-! ### The set under construction -/

/-- models include/PetriEngine/Stubborn/StubbornSet.h:225-232: `_stubborn`, `_unprocessed` and the three
bits of `_places_seen`. -/
structure Stub where
  stub : Nat → Bool := fun _ => false
  unproc : List Nat := []
  seenPre : Nat → Bool := fun _ => false
  seenPost : Nat → Bool := fun _ => false
  seenInh : Nat → Bool := fun _ => false

def setB (f : Nat → Bool) (p : Nat) : Nat → Bool := fun q => if q = p then true else f q

/-- models src/PetriEngine/Stubborn/StubbornSet.cpp:189-194 (`addToStub`). -/
def addToStub (s : Stub) (t : Nat) : Stub :=
  if !s.stub t then { s with stub := setB s.stub t, unproc := s.unproc ++ [t] } else s

/-- models src/PetriEngine/Stubborn/StubbornSet.cpp:60-69 (`presetOf`, without the closure). -/
def presetOf (N : FlatNet) (p : Nat) (s : Stub) : Stub :=
  if s.seenPre p then s
  else (preT N p).foldl addToStub { s with seenPre := setB s.seenPre p }

/-- the loop of `postsetOf` -/
def addDecr (s : Stub) (a : Nat × Int) : Stub := if a.2 < 0 then addToStub s a.1 else s

/-- models src/PetriEngine/Stubborn/StubbornSet.cpp:71-80 (`postsetOf`, without the closure). -/
def postsetOf (N : FlatNet) (p : Nat) (s : Stub) : Stub :=
  if s.seenPost p then s
  else (postT N p).foldl addDecr { s with seenPost := setB s.seenPost p }

/-- models src/PetriEngine/Stubborn/StubbornSet.cpp:82-87 (`inhibitorPostsetOf`). -/
def inhibitorPostsetOf (N : FlatNet) (p : Nat) (s : Stub) : Stub :=
  if s.seenInh p then s
  else (inhT N p).foldl addToStub { s with seenInh := setB s.seenInh p }

/-- The variables of the search for a reason in `closure`: `ok`, `inhib`, `cand` (`none` is the largest
32-bit number) and `deps`. -/
structure Pick where
  ok : Bool := false
  inhib : Bool := false
  cand : Option Nat := none
  deps : Nat := W32 - 1

/-- models include/PetriEngine/Stubborn/StubbornSet.h:182-214 (the loop over the preset of a disabled
transition). -/
def pick (N : FlatNet) (m : Nat → Nat) (s : Stub) : List Invariant → Pick → Pick
  | [], k => k
  | i :: rest, k =>
    if m i.place < i.tokens ∧ i.inhibitor = false then
      if s.seenPre i.place then { k with ok := true, cand := some i.place }
      else if k.deps ≥ dependency N i.place false then
        pick N m s rest { ok := false, inhib := false, cand := some i.place, deps := dependency N i.place false }
      else pick N m s rest { k with ok := false }
    else if m i.place ≥ i.tokens ∧ i.inhibitor = true then
      if s.seenPost i.place then { k with ok := true, cand := some i.place }
      else if k.deps ≥ dependency N i.place true then
        pick N m s rest { ok := false, inhib := true, cand := some i.place, deps := dependency N i.place true }
      else pick N m s rest { k with ok := false }
    else pick N m s rest k

/-- models include/PetriEngine/Stubborn/StubbornSet.h:161-167: the consumers of a place an enabled
transition takes tokens from. -/
def closePre (N : FlatNet) (s : Stub) (i : Invariant) : Stub :=
  if i.direction < 0 then (postT N i.place).foldl (fun s a => addToStub s a.1) s else s

/-- models include/PetriEngine/Stubborn/StubbornSet.h:169-173. -/
def closePost (N : FlatNet) (s : Stub) (i : Invariant) : Stub :=
  if i.direction > 0 then inhibitorPostsetOf N i.place s else s

/-- models include/PetriEngine/Stubborn/StubbornSet.h:160-175 (an enabled transition). -/
def closeEnabled (N : FlatNet) (t : Nat) (s : Stub) : Stub :=
  let s := (N.preset t).foldl (closePre N) s
  if hasInhibitor N then (N.postset t).foldl (closePost N) s else s

/-- models include/PetriEngine/Stubborn/StubbornSet.h:218-223. -/
def applyPick (N : FlatNet) (k : Pick) (s : Stub) : Stub :=
  if k.ok then s
  else match k.cand with
    | none => s
    | some p => if !k.inhib then presetOf N p s else postsetOf N p s

/-- models include/PetriEngine/Stubborn/StubbornSet.h:176-223 (a disabled transition). -/
def closeDisabled (N : FlatNet) (m : Nat → Nat) (t : Nat) (s : Stub) : Stub :=
  applyPick N (pick N m s (N.preset t) {}) s

/-- models include/PetriEngine/Stubborn/StubbornSet.h:160-224: one round of `closure`.  `en` is
`_enabled`. -/
def closeStep (N : FlatNet) (m : Nat → Nat) (en : Nat → Bool) (t : Nat) (s : Stub) : Stub :=
  if en t then closeEnabled N t s else closeDisabled N m t s

/-- models include/PetriEngine/Stubborn/StubbornSet.h:153-226 (`closure` without a callback), at most the
given number of rounds. -/
def closureLoop (N : FlatNet) (m : Nat → Nat) (en : Nat → Bool) : Nat → Stub → Stub
  | 0, s => s
  | n + 1, s =>
    match s.unproc with
    | [] => s
    | t :: rest => closureLoop N m en n (closeStep N m en t { s with unproc := rest })

/-- `closure()`.  Every transition is put into `_unprocessed` at most once, so as many rounds as there are
transitions suffice (`closure_done`). -/
def closure (N : FlatNet) (m : Nat → Nat) (en : Nat → Bool) (s : Stub) : Stub :=
  closureLoop N m en N.ntransitions s

/-- What the visitors are given: net, marking, enabled transitions, and the flag `closure`. -/
structure Cx where
  N : FlatNet
  m : Nat → Nat
  en : Nat → Bool
  cl : Bool

namespace Cx
variable (C : Cx)

def finish (s : Stub) : Stub := if C.cl then closure C.N C.m C.en s else s

/-- models src/PetriEngine/Stubborn/StubbornSet.cpp:60-69 (`presetOf`): nothing happens, not even the
closure, if the place has been seen. -/
def pre (p : Nat) (s : Stub) : Stub := if s.seenPre p then s else C.finish (presetOf C.N p s)

/-- models src/PetriEngine/Stubborn/StubbornSet.cpp:71-80 (`postsetOf`). -/
def post (p : Nat) (s : Stub) : Stub := if s.seenPost p then s else C.finish (postsetOf C.N p s)

/-- models src/PetriEngine/Stubborn/StubbornSet.cpp:89-96 (`postPresetOf`). -/
def postPreset (t : Nat) (s : Stub) : Stub :=
  (C.N.preset t).foldl (fun s i => if i.inhibitor then C.pre i.place s else C.post i.place s) s

/-- models src/PetriEngine/Stubborn/StubbornSet.cpp:196-213 (`leastDependentEnabled`); `none` is the
invalid index. -/
def leastDependent : Option Nat :=
  (List.range C.N.ntransitions).foldl (fun b t =>
    if C.en t then
      match b with
      | none => some t
      | some l => if dependencyT C.N t < dependencyT C.N l then some t else b
    else b) none

mutual
/-- models src/PetriEngine/Stubborn/InterestingTransitionVisitor.cpp:309-401 (`IncrVisitor`). -/
def incr : Expr → Stub → Stub
  | .lit _, s => s
  | .id p, s => C.pre p s
  | .plus _ ids es, s => incrAll es (ids.foldl (fun s p => C.pre p s) s)
  | .mul _ ids es, s =>
    if ids.length + es.length = 1 then incrAll es (ids.foldl (fun s p => C.pre p s) s)
    else bothAll es (ids.foldl (fun s p => C.post p (C.pre p s)) s)
  | .sub e es, s => decrAll es (incr e s)
  | .minus _, s => s
/-- models src/PetriEngine/Stubborn/InterestingTransitionVisitor.cpp:315-406 (`DecrVisitor`; for a product of
several operands it calls the other visitor on the same product). -/
def decr : Expr → Stub → Stub
  | .lit _, s => s
  | .id p, s => C.post p s
  | .plus _ ids es, s => decrAll es (ids.foldl (fun s p => C.post p s) s)
  | .mul _ ids es, s =>
    if ids.length + es.length = 1 then decrAll es (ids.foldl (fun s p => C.post p s) s)
    else bothAll es (ids.foldl (fun s p => C.post p (C.pre p s)) s)
  | .sub e es, s => incrAll es (decr e s)
  | .minus _, s => s
def incrAll : List Expr → Stub → Stub
  | [], s => s
  | e :: es, s => incrAll es (incr e s)
def decrAll : List Expr → Stub → Stub
  | [], s => s
  | e :: es, s => decrAll es (decr e s)
def bothAll : List Expr → Stub → Stub
  | [], s => s
  | e :: es, s => bothAll es (decr e (incr e s))
end

/-- `negated`: "`e1 = e2` must become true", models
src/PetriEngine/Stubborn/InterestingTransitionVisitor.cpp:127-139, 155-167; `a`, `b` are the stored values. -/
def wantEq (a b : Int) (e1 e2 : Expr) (s : Stub) : Stub :=
  if a = b then s
  else if a > b then C.incr e2 (C.decr e1 s)
  else C.decr e2 (C.incr e1 s)

/-- "`e1 ≠ e2` must become true",
models src/PetriEngine/Stubborn/InterestingTransitionVisitor.cpp:139-146, 150-155. -/
def wantNe (a b : Int) (e1 e2 : Expr) (s : Stub) : Stub :=
  if a ≠ b then s else C.decr e2 (C.incr e2 (C.decr e1 (C.incr e1 s)))

/-- models src/PetriEngine/Stubborn/InterestingTransitionVisitor.cpp:126-197 (the four comparisons). -/
def visitCmp (neg : Bool) (a b : Int) (op : Cmp) (e1 e2 : Expr) (s : Stub) : Stub :=
  match op, neg with
  | .eq, false => C.wantEq a b e1 e2 s
  | .eq, true => C.wantNe a b e1 e2 s
  | .ne, false => C.wantNe a b e1 e2 s
  | .ne, true => C.wantEq a b e1 e2 s
  | .lt, false => if a < b then s else C.incr e2 (C.decr e1 s)
  | .lt, true => if a ≥ b then s else C.decr e2 (C.incr e1 s)
  | .le, false => if a ≤ b then s else C.incr e2 (C.decr e1 s)
  | .le, true => if a > b then s else C.decr e2 (C.incr e1 s)

/-- The effect of one constraint on `cand`/`pre` (as place and flag) when the conjunction has to become true,
models src/PetriEngine/Stubborn/InterestingTransitionVisitor.cpp:84-108.  The Boolean tells whether the body
was left by `continue`. -/
def ccCand (c : Cons) (k : Option (Nat × Bool)) : Option (Nat × Bool) × Bool :=
  if c.lower = c.upper then
    if C.m c.place = c.lower then (k, true)
    else if C.m c.place > c.lower then (some (c.place, false), false)
    else (some (c.place, true), false)
  else
    let k := if C.m c.place < c.lower ∧ c.lower ≠ 0 then some (c.place, true) else k
    let k := if C.m c.place > c.upper ∧ c.upper ≠ W32 - 1 then some (c.place, false) else k
    (k, false)

/-- the part after the loop, src/PetriEngine/Stubborn/InterestingTransitionVisitor.cpp:122-128 -/
def ccEnd (k : Option (Nat × Bool)) (s : Stub) : Stub :=
  match k with
  | none => s
  | some (p, true) => C.pre p s
  | some (p, false) => C.post p s

/-- has the candidate been seen, src/PetriEngine/Stubborn/InterestingTransitionVisitor.cpp:116-121 -/
def ccSeen (k : Option (Nat × Bool)) (s : Stub) : Bool :=
  match k with
  | none => false
  | some (p, true) => s.seenPre p
  | some (p, false) => s.seenPost p

/-- models src/PetriEngine/Stubborn/InterestingTransitionVisitor.cpp:71-131 (`CompareConjunction`, not
negated). -/
def ccPos : List Cons → Option (Nat × Bool) → Stub → Stub
  | [], k, s => C.ccEnd k s
  | c :: cs, k, s =>
    if (C.ccCand c k).2 then ccPos cs (C.ccCand c k).1 s
    else if ccSeen (C.ccCand c k).1 s then s
    else ccPos cs (C.ccCand c k).1 s

/-- models src/PetriEngine/Stubborn/InterestingTransitionVisitor.cpp:78-81, 108-116 (`CompareConjunction`,
negated): one constraint. -/
def ccNegOne (s : Stub) (c : Cons) : Stub :=
  if c.lower = c.upper then
    if C.m c.place ≠ c.lower then s else C.pre c.place (C.post c.place s)
  else
    let s := if C.m c.place ≥ c.lower ∧ c.lower ≠ 0 then C.post c.place s else s
    if C.m c.place ≤ c.upper ∧ c.upper ≠ W32 - 1 then C.pre c.place s else s

def visitCC (neg : Bool) (l : List Cons) (s : Stub) : Stub :=
  if neg then l.foldl C.ccNegOne s else C.ccPos l none s

end Cx

/-! ### The results stored in the query -/

/-- The fields `Condition::_eval` and `Expr::_eval` (include/PetriEngine/PQL/PQL.h:75, 165) of the objects of
a query.  The operands of a comparison have the positions `0` and `1` below it. -/
structure Mem where
  sat : List Nat → Res
  ev : List Nat → Int

/-- models include/PetriEngine/PQL/PQL.h:84-86 (`setEval(int)`): the 64-bit value is converted to `int`. -/
def toInt32 (v : Int) : Int := (v + 2147483648) % 4294967296 - 2147483648

def Mem.setSat (M : Mem) (pos : List Nat) (r : Res) : Mem :=
  { M with sat := fun q => if q = pos then r else M.sat q }

def Mem.setEv (M : Mem) (pos : List Nat) (v : Int) : Mem :=
  { M with ev := fun q => if q = pos then toInt32 v else M.ev q }

mutual
/-- models src/PetriEngine/PQL/Evaluation.cpp:319-470 (`EvaluateAndSetVisitor`), with the stored results.
`UntilCondition` and the quantifiers `A`, `E`, `X`, `EX`, `AX` store nothing for themselves. -/
def evalMem (dl : Bool) (m : Mark) : List Nat → Cond → Mem → Res × Mem
  | pos, .bool b, M => (.ofBool b, M.setSat pos (.ofBool b))
  | pos, .dead, M => (.ofBool dl, M.setSat pos (.ofBool dl))
  | pos, .cmp op e1 e2, M =>
    (.ofBool (compare m op e1 e2),
      ((M.setEv (pos ++ [0]) (evalExpr m e1)).setEv (pos ++ [1]) (evalExpr m e2)).setSat pos
        (.ofBool (compare m op e1 e2)))
  | pos, .cc l n, M => (.ofBool (n ^^ evalCons m l), M.setSat pos (.ofBool (n ^^ evalCons m l)))
  | pos, .not c, M =>
    ((evalMem dl m (pos ++ [0]) c M).1.neg,
      (evalMem dl m (pos ++ [0]) c M).2.setSat pos (evalMem dl m (pos ++ [0]) c M).1.neg)
  | pos, .and cs, M =>
    ((evalAndMem dl m pos 0 .rTrue cs M).1,
      (evalAndMem dl m pos 0 .rTrue cs M).2.setSat pos (evalAndMem dl m pos 0 .rTrue cs M).1)
  | pos, .or cs, M =>
    ((evalOrMem dl m pos 0 .rFalse cs M).1,
      (evalOrMem dl m pos 0 .rFalse cs M).2.setSat pos (evalOrMem dl m pos 0 .rFalse cs M).1)
  | _, .EX _, M => (.rUnknown, M)
  | _, .AX _, M => (.rUnknown, M)
  | _, .X _, M => (.rUnknown, M)
  | _, .A _, M => (.rUnknown, M)
  | _, .E _, M => (.rUnknown, M)
  | pos, .EG c, M =>
    ((evalMem dl m (pos ++ [0]) c M).1.onlyFalse,
      (evalMem dl m (pos ++ [0]) c M).2.setSat pos (evalMem dl m (pos ++ [0]) c M).1.onlyFalse)
  | pos, .AG c, M =>
    ((evalMem dl m (pos ++ [0]) c M).1.onlyFalse,
      (evalMem dl m (pos ++ [0]) c M).2.setSat pos (evalMem dl m (pos ++ [0]) c M).1.onlyFalse)
  | pos, .EF c, M =>
    ((evalMem dl m (pos ++ [0]) c M).1.onlyTrue,
      (evalMem dl m (pos ++ [0]) c M).2.setSat pos (evalMem dl m (pos ++ [0]) c M).1.onlyTrue)
  | pos, .AF c, M =>
    ((evalMem dl m (pos ++ [0]) c M).1.onlyTrue,
      (evalMem dl m (pos ++ [0]) c M).2.setSat pos (evalMem dl m (pos ++ [0]) c M).1.onlyTrue)
  | pos, .F c, M =>
    ((evalMem dl m (pos ++ [0]) c M).1.onlyTrue,
      (evalMem dl m (pos ++ [0]) c M).2.setSat pos (evalMem dl m (pos ++ [0]) c M).1.onlyTrue)
  | pos, .G c, M =>
    ((evalMem dl m (pos ++ [0]) c M).1.onlyFalse,
      (evalMem dl m (pos ++ [0]) c M).2.setSat pos (evalMem dl m (pos ++ [0]) c M).1.onlyFalse)
  | pos, .U c d, M =>
    let b := evalMem dl m (pos ++ [1]) d M
    if b.1 ≠ .rFalse then b
    else
      let a := evalMem dl m (pos ++ [0]) c b.2
      (if a.1 = .rFalse then a.1 else .rUnknown, a.2)
  | pos, .EU c d, M =>
    let b := evalMem dl m (pos ++ [1]) d M
    if b.1 ≠ .rFalse then b
    else
      let a := evalMem dl m (pos ++ [0]) c b.2
      (if a.1 = .rFalse then a.1 else .rUnknown, a.2)
  | pos, .AU c d, M =>
    let b := evalMem dl m (pos ++ [1]) d M
    if b.1 ≠ .rFalse then b
    else
      let a := evalMem dl m (pos ++ [0]) c b.2
      (if a.1 = .rFalse then a.1 else .rUnknown, a.2)
/-- the loop of `AndCondition`, from operand `i` on -/
def evalAndMem (dl : Bool) (m : Mark) : List Nat → Nat → Res → List Cond → Mem → Res × Mem
  | _, _, res, [], M => (res, M)
  | pos, i, res, c :: cs, M =>
    if (evalMem dl m (pos ++ [i]) c M).1 = .rFalse then (.rFalse, (evalMem dl m (pos ++ [i]) c M).2)
    else evalAndMem dl m pos (i + 1)
      (if (evalMem dl m (pos ++ [i]) c M).1 = .rUnknown then .rUnknown else res) cs
      (evalMem dl m (pos ++ [i]) c M).2
/-- the loop of `OrCondition` -/
def evalOrMem (dl : Bool) (m : Mark) : List Nat → Nat → Res → List Cond → Mem → Res × Mem
  | _, _, res, [], M => (res, M)
  | pos, i, res, c :: cs, M =>
    if (evalMem dl m (pos ++ [i]) c M).1 = .rTrue then (.rTrue, (evalMem dl m (pos ++ [i]) c M).2)
    else evalOrMem dl m pos (i + 1)
      (if (evalMem dl m (pos ++ [i]) c M).1 = .rUnknown then .rUnknown else res) cs
      (evalMem dl m (pos ++ [i]) c M).2
end

/-! ### The visitor of conditions -/

namespace Cx
variable (C : Cx) (M : Mem)

/-- models src/PetriEngine/Stubborn/InterestingTransitionVisitor.cpp:214-219 (`DeadlockCondition`). -/
def visitDead (pos : List Nat) (s : Stub) : Stub :=
  if M.sat pos ≠ .rTrue then
    match C.leastDependent with
    | some t => C.postPreset t s
    | none => s
  else s

mutual
/-- models src/PetriEngine/Stubborn/InterestingTransitionVisitor.cpp:22-305
(`InterestingTransitionVisitor`; the first argument is `negated`). -/
def visit : Bool → List Nat → Cond → Stub → Stub
  | _, _, .bool _, s => s
  | _, pos, .dead, s => C.visitDead M pos s
  | neg, pos, .cmp op e1 e2, s => C.visitCmp neg (M.ev (pos ++ [0])) (M.ev (pos ++ [1])) op e1 e2 s
  | neg, _, .cc l n, s => C.visitCC (neg != n) l s
  | neg, pos, .not c, s => visit (!neg) (pos ++ [0]) c s
  | neg, pos, .and cs, s => if !neg then visitUnsat neg pos 0 cs s else visitAll neg pos 0 cs s
  | neg, pos, .or cs, s => if !neg then visitAll neg pos 0 cs s else visitSat neg pos 0 cs s
  | neg, pos, .EX c, s => visit neg (pos ++ [0]) c s
  | neg, pos, .AX c, s => visit neg (pos ++ [0]) c s
  | neg, pos, .EF c, s => visit neg (pos ++ [0]) c s
  | neg, pos, .AF c, s => visit neg (pos ++ [0]) c s
  | neg, pos, .EG c, s => visit neg (pos ++ [0]) c s
  | neg, pos, .AG c, s => visit neg (pos ++ [0]) c s
  | neg, pos, .E c, s => visit neg (pos ++ [0]) c s
  | neg, pos, .A c, s => visit neg (pos ++ [0]) c s
  | neg, pos, .X c, s => visit neg (pos ++ [0]) c s
  | neg, pos, .F c, s => visit neg (pos ++ [0]) c s
  | neg, pos, .G c, s => visit (!neg) (pos ++ [0]) c s
  | neg, pos, .U c d, s => visit neg (pos ++ [1]) d (visit (!neg) (pos ++ [0]) c (visit neg (pos ++ [0]) c s))
  | neg, pos, .EU c d, s => visit neg (pos ++ [1]) d (visit (!neg) (pos ++ [0]) c (visit neg (pos ++ [0]) c s))
  | neg, pos, .AU c d, s => visit neg (pos ++ [1]) d (visit (!neg) (pos ++ [0]) c (visit neg (pos ++ [0]) c s))
/-- the first operand that is not satisfied is visited, from operand `i` on -/
def visitUnsat : Bool → List Nat → Nat → List Cond → Stub → Stub
  | _, _, _, [], s => s
  | neg, pos, i, c :: cs, s =>
    if M.sat (pos ++ [i]) ≠ .rTrue then visit neg (pos ++ [i]) c s else visitUnsat neg pos (i + 1) cs s
/-- the first operand that is satisfied is visited -/
def visitSat : Bool → List Nat → Nat → List Cond → Stub → Stub
  | _, _, _, [], s => s
  | neg, pos, i, c :: cs, s =>
    if M.sat (pos ++ [i]) = .rTrue then visit neg (pos ++ [i]) c s else visitSat neg pos (i + 1) cs s
/-- all operands are visited -/
def visitAll : Bool → List Nat → Nat → List Cond → Stub → Stub
  | _, _, _, [], s => s
  | neg, pos, i, c :: cs, s => visitAll neg pos (i + 1) cs (visit neg (pos ++ [i]) c s)
end

end Cx

/-! ### The stubborn set of a marking and the reduced generator -/

/-- models include/PetriEngine/Stubborn/StubbornSet.h:238-261 (`constructEnabled` without a callback):
`_ordering`.  `checkPreset` is the same loop as in the successor generator
(src/PetriEngine/Stubborn/StubbornSet.cpp:38-55). -/
def ordering (N : FlatNet) (m : Nat → Nat) : List Nat :=
  (List.range N.nplaces).flatMap fun p =>
    if p = 0 ∨ m p > 0 then
      ((List.range (N.ptr (p + 1) - N.ptr p)).map fun k => N.ptr p + k).filter fun t => N.checkPreset m t
    else []

/-- the context for a marking; the reachability set is created with `closure = true`
(include/PetriEngine/Stubborn/ReachabilityStubbornSet.h:28-33) -/
def cx (N : FlatNet) (m : Nat → Nat) : Cx := ⟨N, m, fun t => (ordering N m).contains t, true⟩

/-- models src/PetriEngine/Stubborn/ReachabilityStubbornSet.cpp:34-40 (the loop over the queries): query `i`
is evaluated, with the results stored, and then visited. -/
def visitQueries (C : Cx) (dl : Bool) : Nat → List Cond → Mem → Stub → Stub
  | _, [], _, s => s
  | i, q :: qs, M, s =>
    visitQueries C dl (i + 1) qs (evalMem dl C.m [i] q M).2 (C.visit (evalMem dl C.m [i] q M).2 false [i] q s)

/-- models src/PetriEngine/Stubborn/ReachabilityStubbornSet.cpp:25-43 (`prepare`): the set `_stubborn`.
`_unprocessed` is empty between calls, because `closure` has emptied it. -/
def stubborn (N : FlatNet) (qs : List Cond) (M : Mem) (m : Nat → Nat) : Nat → Bool :=
  match ordering N m with
  | [] => fun _ => false
  | [t] => setB (fun _ => false) t
  | _ => (closure N m (cx N m).en (visitQueries (cx N m) (N.deadlocked m) 0 qs M {})).stub

/-- Firing a list of transitions one after the other, until one of them throws. -/
def fireAll (N : FlatNet) (m : Nat → Nat) : List Nat → List (Nat × (Nat → Nat)) × Bool
  | [] => ([], false)
  | t :: ts =>
    match N.fire m t with
    | none => ([], true)
    | some m' => ((t, m') :: (fireAll N m ts).1, (fireAll N m ts).2)

/-- models src/PetriEngine/ReducingSuccessorGenerator.cpp:27-47 and src/PetriEngine/Stubborn/StubbornSet.cpp:27-36
(`prepare`, then `next` until it returns false). -/
def redGen (N : FlatNet) (qs : List Cond) (M : Mem) (m : Nat → Nat) : List (Nat × (Nat → Nat)) × Bool :=
  fireAll N m ((ordering N m).filter fun t => stubborn N qs M m t && (ordering N m).contains t)

end Stubborn
end Verif
